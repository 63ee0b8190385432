import Verif.Model.Metric

/-! Metric sets with numpy's special values: the same formulas as `Model/Metric.lean`, with `nan` and infinities where a
division, logarithm or power has no finite result.  Finite values are exact reals; the sign of a zero is not modelled (a
zero divisor counts as positive, which is the sign of the sums and differences divided by here). -/

namespace Verif.Metric
open Verif.Geo Verif.Map Verif.Pos Real

/-- a float64: a finite number, an infinity or nan -/
inductive Num
  | fin (x : ℝ)
  | pinf
  | ninf
  | nan

namespace Num

/-- numpy `x / y` -/
noncomputable def div : Num → Num → Num
  | nan, _ => nan
  | _, nan => nan
  | fin x, fin y => if y = 0 then (if x = 0 then nan else if x > 0 then pinf else ninf) else fin (x / y)
  | fin _, pinf => fin 0
  | fin _, ninf => fin 0
  | pinf, fin y => if y < 0 then ninf else pinf
  | ninf, fin y => if y < 0 then pinf else ninf
  | _, _ => nan

/-- numpy `x + y` -/
noncomputable def add : Num → Num → Num
  | nan, _ => nan
  | _, nan => nan
  | fin x, fin y => fin (x + y)
  | pinf, ninf => nan
  | ninf, pinf => nan
  | pinf, _ => pinf
  | _, pinf => pinf
  | ninf, _ => ninf
  | _, ninf => ninf

/-- numpy `x * c` for a finite number `c` -/
noncomputable def scale (c : ℝ) : Num → Num
  | nan => nan
  | fin x => fin (c * x)
  | pinf => if c = 0 then nan else if c > 0 then pinf else ninf
  | ninf => if c = 0 then nan else if c > 0 then ninf else pinf

/-- numpy `x ** 2` -/
noncomputable def sq : Num → Num
  | nan => nan
  | fin x => fin (x ^ 2)
  | _ => pinf

/-- numpy `x ** p` for a finite `x` and a positive `p` that is not a whole number -/
noncomputable def pow (x p : ℝ) : Num := if x < 0 then nan else fin (x ^ p)

/-- `np.log10` -/
noncomputable def log10 : Num → Num
  | fin x => if x > 0 then fin (logb 10 x) else if x = 0 then ninf else nan
  | pinf => pinf
  | _ => nan

/-- `np.maximum(0, x)`: nan is passed on -/
noncomputable def max0 : Num → Num
  | nan => nan
  | fin x => fin (max 0 x)
  | pinf => pinf
  | ninf => fin 0

/-- `np.minimum(x, 1.0)`: nan is passed on -/
noncomputable def min1 : Num → Num
  | nan => nan
  | fin x => fin (min x 1)
  | pinf => fin 1
  | ninf => ninf

/-- `10 ** x` -/
noncomputable def exp10 : Num → Num
  | nan => nan
  | fin x => fin ((10 : ℝ) ^ x)
  | pinf => pinf
  | ninf => fin 0

/-- `x ** -10` for a number that is not zero -/
noncomputable def powm10 : Num → Num
  | nan => nan
  | fin x => fin (x ^ (-10 : ℤ))
  | _ => fin 0

/-- comparison `x > y`; false as soon as nan is involved -/
def gt : Num → Num → Prop
  | fin x, fin y => x > y
  | fin _, ninf => True
  | pinf, fin _ => True
  | pinf, ninf => True
  | _, _ => False

end Num

namespace MS
open Num

/-- `avglum`, basemetricset.py 241-246 -/
noncomputable def avglumN (s : MS) : Num := (fin (sumBy (fun r => r.lum * r.om) s.rays * s.o.scale)).div (fin s.area)

/-- `pwavglum`, basemetricset.py 254-259 -/
noncomputable def pwavglumN (s : MS) : Num := (fin (sumBy (fun r => r.lum * s.pw r) s.rays * s.o.scale)).div (fin s.pwArea)

/-- `avgraylum`, basemetricset.py 261-265: the mean of an empty array is `0/0` -/
noncomputable def avgraylumN (s : MS) : Num :=
  ((fin (s.rays.map Ray.lum).sum).div (fin s.rays.length)).scale s.o.scale

open Classical in
/-- `gcr`, basemetricset.py 267-277 -/
noncomputable def gcrN (s : MS) : Num :=
  if s.avglumN.gt (fin 0) then
    ((fin (sumBy (fun r => r.lum * r.lum * r.om) s.rays * s.o.scale ^ 2)).div (fin s.area)).div s.avglumN.sq
  else fin 1

open Classical in
/-- `pwgcr`, basemetricset.py 279-290 -/
noncomputable def pwgcrN (s : MS) : Num :=
  if s.pwavglumN.gt (fin 0) then
    ((fin (sumBy (fun r => r.lum * r.lum * s.pw r) s.rays * s.o.scale ^ 2)).div (fin s.pwArea)).div s.pwavglumN.sq
  else fin 1

/-- `logpwgcr`, `loggcr`, basemetricset.py 292-302 -/
noncomputable def logpwgcrN (s : MS) : Num := s.pwgcrN.log10
noncomputable def loggcrN (s : MS) : Num := s.gcrN.log10

/-- `density`, basemetricset.py 304-307 -/
noncomputable def densityN (s : MS) : Num := (fin s.rays.length).div (fin s.area)

/-- rays of the task area, metricset.py 82-85 -/
noncomputable def taskRays (s : MS) : List Ray := s.rays.filter fun r => decide (s.m.degrees r.v < s.o.tradius)

/-- `tasklum`, metricset.py 171-176 -/
noncomputable def tasklumN (s : MS) : Num :=
  (fin (sumBy (fun r => r.lum * r.om) s.taskRays * s.o.scale)).div (fin (omSum s.taskRays))

/-- `threshold`, metricset.py 114-122 -/
noncomputable def thresholdN (s : MS) : Num := if s.o.thr > 100 then fin s.o.thr else s.tasklumN.scale s.o.thr

open Classical in
/-- `src_mask`, metricset.py 76-80, one ray -/
noncomputable def srcN (s : MS) (r : Ray) : Bool := decide ((fin (r.lum * s.o.scale)).gt s.thresholdN)

/-- `sources`, `background`, metricset.py 87-105 -/
noncomputable def sourcesN (s : MS) : List Ray := s.rays.filter s.srcN
noncomputable def backgroundN (s : MS) : List Ray := s.rays.filter fun r => !s.srcN r

/-- `pwsl2`, metricset.py 124-131: a sum of finite terms, a position index is never zero -/
noncomputable def pwsl2N (s : MS) : ℝ := sumBy (fun r => r.lum ^ 2 * r.om * s.o.scale ^ 2 / s.pos r ^ 2) s.sourcesN

/-- `srcillum`, metricset.py 133-139 -/
noncomputable def srcillumN (s : MS) : ℝ := sumBy (fun r => s.ct r * r.lum * r.om) s.sourcesN * s.o.scale

/-- `backlum`, metricset.py 157-162 -/
noncomputable def backlumN (s : MS) : ℝ := (s.illum - s.srcillumN) / π

/-- `backlum_true`, metricset.py 164-169 -/
noncomputable def backlumTrueN (s : MS) : Num :=
  (fin (sumBy (fun r => r.lum * r.om) s.backgroundN * s.o.scale)).div (fin (omSum s.backgroundN))

/-- `log_gc`, metricset.py 192-195 -/
noncomputable def logGcN (s : MS) : Num := (Num.add (fin 1) ((fin s.pwsl2N).div (Num.pow s.illum 1.87))).log10

/-- `dgp`, metricset.py 177-185, 197-200 -/
noncomputable def dgpN (s : MS) : Num :=
  ((((fin s.dgpT1).add (s.logGcN.scale (9.18 * 10 ^ (-2 : ℤ)))).add (fin 0.16)).scale s.ll).min1

/-- `ugr`, metricset.py 202-207 -/
noncomputable def ugrN (s : MS) : Num := (((fin (0.25 * s.pwsl2N)).div (fin s.backlumN)).log10.scale 8).max0

/-- `ugp`, metricset.py 209-213 -/
noncomputable def ugpN (s : MS) : Num :=
  (Num.add (fin 1) ((((s.ugrN.add (fin 5)).scale (-1 / 40)).exp10).scale (2 / 7))).powm10

end MS

/-- `getattr(self, name)` of a `MetricSet`, the names of `allmetrics` (metricset.py 53-60) -/
noncomputable def attrN (s : MS) (name : String) : Except Py.PyErr Num :=
  if name = "illum" then .ok (.fin s.illum)
  else if name = "avglum" then .ok s.avglumN
  else if name = "loggcr" then .ok s.loggcrN
  else if name = "gcr" then .ok s.gcrN
  else if name = "pwgcr" then .ok s.pwgcrN
  else if name = "logpwgcr" then .ok s.logpwgcrN
  else if name = "density" then .ok s.densityN
  else if name = "avgraylum" then .ok s.avgraylumN
  else if name = "pwavglum" then .ok s.pwavglumN
  else if name = "maxlum" then .ok (.fin s.maxlum)
  else if name = "ugp" then .ok s.ugpN
  else if name = "dgp" then .ok s.dgpN
  else if name = "tasklum" then .ok s.tasklumN
  else if name = "backlum" then .ok (.fin s.backlumN)
  else if name = "dgp_t1" then .ok (.fin s.dgpT1)
  else if name = "log_gc" then .ok s.logGcN
  else if name = "dgp_t2" then .ok (s.logGcN.scale (9.18 * 10 ^ (-2 : ℤ)))
  else if name = "ugr" then .ok s.ugrN
  else if name = "threshold" then .ok s.thresholdN
  else if name = "pwsl2" then .ok (.fin s.pwsl2N)
  else if name = "view_area" then .ok (.fin s.area)
  else if name = "backlum_true" then .ok s.backlumTrueN
  else if name = "srcillum" then .ok (.fin s.srcillumN)
  else if name = "srcarea" then .ok (.fin (omSum s.sourcesN))
  else .error .AttributeError

end Verif.Metric
