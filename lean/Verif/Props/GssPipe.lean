import Verif.Props.GssOptics
import Verif.Props.GssResp

/-! C77 for the whole chain of stages and C102 (uniform field). -/

namespace Verif.Gss
open Real

variable {ι κ : Type} [Fintype ι] [Fintype κ]

/-- averages keep lower bounds -/
theorem avg_ge {G : Filter ι} (hG : Averaging G) (s t : ℝ) {v : ι → ℝ} {a : ℝ} (h : ∀ i, a ≤ v i) (i : ι) :
    a ≤ G s t v i := by
  obtain ⟨w, h0, h1, e⟩ := hG s t i
  rw [e, ← mul_one a, ← h1, Finset.mul_sum]
  exact Finset.sum_le_sum fun j _ => by nlinarith [h0 j, h j]

/-- averages keep upper bounds -/
theorem avg_le {G : Filter ι} (hG : Averaging G) (s t : ℝ) {v : ι → ℝ} {a : ℝ} (h : ∀ i, v i ≤ a) (i : ι) :
    G s t v i ≤ a := by
  obtain ⟨w, h0, h1, e⟩ := hG s t i
  rw [e, ← mul_one a, ← h1, Finset.mul_sum]
  exact Finset.sum_le_sum fun j _ => by nlinarith [h0 j, h j]

/-- strict upper bounds too -/
theorem avg_lt {G : Filter ι} (hG : Averaging G) (s t : ℝ) {v : ι → ℝ} {a : ℝ} (h : ∀ i, v i < a) (i : ι) :
    G s t v i < a := by
  have : Nonempty ι := ⟨i⟩
  obtain ⟨m, hm⟩ := Finite.exists_max v
  exact lt_of_le_of_lt (avg_le hG s t hm i) (h m)

/-- a constant is its own average -/
theorem avg_const {G : Filter ι} (hG : Averaging G) (s t a : ℝ) : G s t (fun _ => a) = fun _ => a :=
  funext fun i => le_antisymm (avg_le hG s t (fun _ => le_rfl) i) (avg_ge hG s t (fun _ => le_rfl) i)

/-- **C76** the blurred image is nonnegative when the kernel is and it captures at most all of the energy -/
theorem C76_blur_nonneg {sc : Scene ι κ} (hk : ∀ k, 0 ≤ sc.ker k) (hcap : sc.cap ≤ 1) (ho : ∀ i, 0 ≤ sc.omega i)
    {er : ι → ℝ} (he : ∀ i, 0 ≤ er i) (i : ι) : 0 ≤ applyPsf sc.src sc.ker sc.omega sc.mask sc.cap er i := by
  unfold applyPsf convolve psfBase
  refine add_nonneg (Finset.sum_nonneg fun k _ => mul_nonneg (hk k) (he _)) (div_nonneg (mul_nonneg ?_ (by linarith)) ?_)
  · refine Finset.sum_nonneg fun j _ => ?_
    split_ifs
    · exact mul_nonneg (he j) (ho j)
    · exact le_rfl
  · refine Finset.sum_nonneg fun j _ => ?_
    split_ifs
    · exact ho j
    · exact le_rfl

/-- **C76** blurring keeps a uniform irradiance, whatever the kernel and the captured energy: what the kernel loses
comes back as the flat part -/
theorem C76_uniform {sc : Scene ι κ} (hk : ∑ k, sc.ker k = sc.cap)
    (hw : ∑ i, (if sc.mask i then sc.omega i else 0) ≠ 0) (a : ℝ) :
    applyPsf sc.src sc.ker sc.omega sc.mask sc.cap (fun _ => a) = fun _ => a := by
  funext i
  unfold applyPsf convolve psfBase
  rw [← Finset.sum_mul, hk]
  have e : ∑ i, (if sc.mask i then a * sc.omega i else 0) = a * ∑ i, (if sc.mask i then sc.omega i else 0) := by
    rw [Finset.mul_sum]; exact Finset.sum_congr rfl fun j _ => by split_ifs <;> ring
  rw [e]
  field_simp
  ring

/-- conditions of a real loaded image: solid angles nonnegative, kernel as left by the peak correction -/
structure SceneOk (sc : Scene ι κ) : Prop where
  omega : ∀ i, 0 ≤ sc.omega i
  view : ∑ i, (if sc.mask i then sc.omega i else 0) ≠ 0
  sigma : ∀ i, emin ≤ sc.sigma i ∧ sc.sigma i ≤ emax
  ker : ∀ k, 0 ≤ sc.ker k
  sum : ∑ k, sc.ker k = sc.cap
  cap : sc.cap ≤ 1

theorem afterPsf_nonneg {o : Obs} {sc : Scene ι κ} (h : SceneOk sc) {er : ι → ℝ} (he : ∀ i, 0 ≤ er i) (i : ι) :
    0 ≤ afterPsf o sc er i := by
  unfold afterPsf
  split_ifs
  · exact C76_blur_nonneg h.ker h.cap h.omega he i
  · exact he i

theorem forCone_nonneg {o : Obs} {G : Filter ι} (hG : Averaging G) {sc : Scene ι κ} (h : SceneOk sc) {er : ι → ℝ}
    (he : ∀ i, 0 ≤ er i) (eg : ℝ) (i : ι) : 0 ≤ forCone o G sc er eg i := by
  unfold forCone
  split_ifs
  · exact avg_ge hG _ _ (avg_ge hG _ _ (afterPsf_nonneg h he)) i
  · exact afterPsf_nonneg h he i

/-- **C77** the response ratio of every pixel is in `[0, 1)` -/
theorem C77_ratio {o : Obs} {G : Filter ι} (hG : Averaging G) {sc : Scene ι κ} (h : SceneOk sc) {er : ι → ℝ}
    (he : ∀ i, 0 ≤ er i) (eg : ℝ) (i : ι) : 0 ≤ ratio o G sc er eg i ∧ ratio o G sc er eg i < 1 := by
  have := C77_cone_range (forCone_nonneg (o := o) hG h he eg i) (localAdaptation_pos (forAdapt o G sc er i) eg).le
  exact ⟨this.1, this.2.1⟩

/-- **C77** the linear response is above -0.67 and below 1 -/
theorem C77_linear {G : Filter ι} (hG : Averaging G) (pp : ℝ) {sig vvm : ι → ℝ}
    (hs : ∀ i, emin ≤ sig i ∧ sig i ≤ emax) (hv : ∀ i, 0 ≤ vvm i ∧ vvm i < 1) (i : ι) :
    -0.67 < fieldResponse G pp sig vvm i ∧ fieldResponse G pp sig vvm i < 1 := by
  have h0 : 0 ≤ sig i := le_trans (by unfold emin; norm_num) (hs i).1
  have h1 : sig i < 1 := lt_of_le_of_lt (hs i).2 (by unfold emax; norm_num)
  obtain ⟨k, -, -, -, e⟩ := C78_assembled G pp sig vvm i h0 h1
  rw [e]
  have a := avg_ge hG (stp k * pp * 60) 4 (fun j => (hv j).1) i
  have b := avg_lt hG (stp k * pp * 60) 4 (fun j => (hv j).2) i
  have c := avg_ge hG (stp k * pp * 60 * 3.5) 4 (fun j => (hv j).1) i
  have d := avg_lt hG (stp k * pp * 60 * 3.5) 4 (fun j => (hv j).2) i
  constructor <;> linarith

/-- **C77** whole chain: for every nonnegative image both responses are in `(0, 1)` in the view and 0 outside -/
theorem C77_response {o : Obs} {G : Filter ι} {sc : Scene ι κ} (img : ι → ℝ) (eg pa : ℝ) (i : ι) :
    (sc.mask i = true →
      (0 < (glareResponse o G sc img eg pa i).1 ∧ (glareResponse o G sc img eg pa i).1 < 1) ∧
      0 < (glareResponse o G sc img eg pa i).2 ∧ (glareResponse o G sc img eg pa i).2 < 1) ∧
    (sc.mask i = false → glareResponse o G sc img eg pa i = (0, 0)) := by
  unfold glareResponse
  constructor
  · intro h
    rw [h]
    have := (C77_logistic (fieldResponse G sc.pp sc.sigma
      (ratio o G sc (fun j => retinalIrradiance o.f pa (img j)) eg) i)).1
    exact ⟨⟨this.1, this.2.1⟩, this.2.2⟩
  · intro h
    rw [h]
    exact (C77_logistic _).2

/-- **C77** whole chain, sharper: since the linear response stays above -0.67 and below 1, no response saturates -/
theorem C77_unsaturated {o : Obs} {G : Filter ι} (hG : Averaging G) {sc : Scene ι κ} (h : SceneOk sc) {img : ι → ℝ}
    (hi : ∀ i, 0 ≤ img i) (hf : 0 < o.f) (eg : ℝ) {pa : ℝ} (hpa : 0 ≤ pa) (i : ι) (hm : sc.mask i = true) :
    1 / (1 + exp (22 * 0.92)) < (glareResponse o G sc img eg pa i).1 ∧
    (glareResponse o G sc img eg pa i).1 < 1 / (1 + exp (-22 * 0.75)) ∧
    1 / (1 + exp (22 * 1.25)) < (glareResponse o G sc img eg pa i).2 ∧
    (glareResponse o G sc img eg pa i).2 < 1 / (1 + exp (-22 * 0.42)) := by
  have he : ∀ j, 0 ≤ retinalIrradiance o.f pa (img j) := fun j => by
    unfold retinalIrradiance
    have := hi j
    positivity
  have hl := C77_linear hG sc.pp h.sigma (fun j => C77_ratio (o := o) hG h he eg j) i
  unfold glareResponse
  rw [hm]
  set r := fieldResponse G sc.pp sc.sigma (ratio o G sc (fun j => retinalIrradiance o.f pa (img j)) eg) i
  simp only [logistic, if_true]
  have key : ∀ x y : ℝ, x < y → 1 / (1 + exp y) < 1 / (1 + exp x) := fun x y hxy =>
    one_div_lt_one_div_of_lt (by positivity) (by linarith [exp_lt_exp.mpr hxy])
  refine ⟨key _ _ ?_, key _ _ ?_, key _ _ ?_, key _ _ ?_⟩ <;> linarith

/-- **C77** whole chain: the unweighted score of every image is in `[0, (2 Ω)^(1/4)]` -/
theorem C77_compute {o : Obs} {G : Filter ι} {sc : Scene ι κ} (ho : ∀ i, 0 ≤ sc.omega i)
    (hraw : o.raw = true) (age ev ecc : ℝ) (img : ι → ℝ) :
    0 ≤ compute o G sc age ev ecc img ∧ compute o G sc age ev ecc img ≤ (2 * ∑ i, sc.omega i) ^ (1 / 4 : ℝ) := by
  unfold compute
  rw [hraw]
  refine C77_gss ho ecc fun i => ?_
  have := C77_response (o := o) (G := G) (sc := sc) img (retinalIrradiance o.f (pupa age ev) (ev / π)) (pupa age ev) i
  cases hm : sc.mask i with
  | true => obtain ⟨⟨a, b⟩, c, d⟩ := this.1 hm; exact ⟨a.le, b.le, c.le, d.le⟩
  | false => rw [this.2 hm]; norm_num

/-! C102 -/

/-- **C102** in a uniform field every stage is uniform: whichever of the blurs are switched on, the response ratio is
that of a cone adapted to its own irradiance, and the linear response is 33 % of it everywhere -/
theorem C102_uniform {o : Obs} {G : Filter ι} (hG : Averaging G) {sc : Scene ι κ} (h : SceneOk sc) (L eg pa : ℝ) :
    let er := retinalIrradiance o.f pa L
    let v := coneResponse er (localAdaptation er eg)
    (∀ i, ratio o G sc (fun _ => er) eg i = v) ∧
    ∀ i, glareResponse o G sc (fun _ => L) eg pa i = logistic (sc.mask i) ((1 - 0.67) * v) := by
  intro er v
  have h1 : afterPsf o sc (fun _ => er) = fun _ => er := by
    unfold afterPsf
    split_ifs
    · exact C76_uniform h.sum h.view er
    · rfl
  have h2 : forAdapt o G sc (fun _ => er) = fun _ => er := by
    unfold forAdapt
    rw [h1]
    split_ifs
    · funext i
      unfold eyeMove1
      rw [avg_const hG, avg_const hG]
      ring
    · rfl
  have h3 : forCone o G sc (fun _ => er) eg = fun _ => er := by
    unfold forCone
    rw [h1]
    split_ifs
    · funext i
      unfold eyeMove2
      rw [avg_const hG, avg_const hG]
    · rfl
  have h4 : ratio o G sc (fun _ => er) eg = fun _ => v := by
    funext i
    unfold ratio
    rw [h2, h3]
  refine ⟨fun i => by rw [h4], fun i => ?_⟩
  unfold glareResponse
  congr 1
  show fieldResponse G sc.pp sc.sigma (ratio o G sc (fun _ => er) eg) i = _
  rw [h4]
  obtain ⟨k, -, -, -, e⟩ := C78_assembled G sc.pp sc.sigma (fun _ => v) i
    (le_trans (by unfold emin; norm_num) (h.sigma i).1) (lt_of_le_of_lt (h.sigma i).2 (by unfold emax; norm_num))
  rw [e, avg_const hG, avg_const hG]
  ring

/-- **C102** the unweighted score of a uniform field depends on the image only through its total solid angle -/
theorem C102_score {o : Obs} {G : Filter ι} (hG : Averaging G) {sc : Scene ι κ} (h : SceneOk sc)
    (hz : ∀ i, sc.mask i = false → sc.omega i = 0) (hraw : o.raw = true) (age ev ecc L : ℝ) :
    let er := retinalIrradiance o.f (pupa age ev) L
    let r := logistic true ((1 - 0.67) * coneResponse er
      (localAdaptation er (retinalIrradiance o.f (pupa age ev) (ev / π))))
    compute o G sc age ev ecc (fun _ => L) = ((r.1 ^ 4 + r.2 ^ 4) * ∑ i, sc.omega i) ^ (1 / 4 : ℝ) := by
  intro er r
  unfold compute
  rw [hraw]
  simp only [gss, if_true, gssRaw]
  congr 1
  rw [Finset.mul_sum]
  refine Finset.sum_congr rfl fun i _ => ?_
  rw [(C102_uniform (o := o) hG h L (retinalIrradiance o.f (pupa age ev) (ev / π)) (pupa age ev)).2 i]
  cases hm : sc.mask i with
  | true => exact (add_mul _ _ _).symm
  | false => rw [hz i hm]; ring

/-- the conditions can be met: one pixel, one kernel entry, and the identity filter -/
noncomputable def tinyScene : Scene Unit Unit where
  omega := fun _ => 1
  mask := fun _ => true
  sigma := fun _ => emin
  pp := 1
  src := fun _ _ => ()
  ker := fun _ => 0.9
  cap := 0.9

theorem tinyScene_ok : SceneOk tinyScene := by
  constructor <;> simp [tinyScene, emin, emax] <;> norm_num

theorem id_averaging : Averaging (fun _ _ v => v : Filter ι) := by
  classical
  intro s t i
  refine ⟨fun j => if j = i then 1 else 0, fun j => by dsimp only; split_ifs <;> norm_num, by simp, fun v => by simp⟩

example : ∀ L : ℝ, afterPsf ⟨17, true, true, true, true⟩ tinyScene (fun _ => L) = fun _ => L := fun L => by
  simp only [afterPsf, if_true]
  exact C76_uniform tinyScene_ok.sum tinyScene_ok.view L

example (ev : ℝ) : 0 ≤ compute ⟨17, true, true, true, true⟩ (fun _ _ v => v) tinyScene 40 ev 0.009 (fun _ => 500) :=
  (C77_compute tinyScene_ok.omega rfl 40 ev 0.009 _).1

end Verif.Gss
