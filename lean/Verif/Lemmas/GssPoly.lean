import Mathlib.Analysis.Calculus.Deriv.Pow
import Mathlib.Analysis.Calculus.Deriv.MeanValue
import Mathlib.Tactic.Ring
import Mathlib.Tactic.Linarith
import Mathlib.Tactic.Positivity

/-! Bounds of the weighting polynomial of hvsgsm.py 766-771 and of its derivative, by their Bernstein forms. -/

namespace Verif.Gss

theorem wpoly_low {x : ℝ} (h0 : 0 ≤ x) (h1 : x ≤ 1) : 0 ≤ 33.12797281708 + 2.28728777265947 * x - 104.614198351476 * x ^ 2 - 275.450102180091 * x ^ 3 + 1587.82553529394 * x ^ 4 - 2570.6813747583033 * x ^ 5 + 1837.1741161137818 * x ^ 6 - 499.849190278 * x ^ 7 - 9.8 := by
  have u : 0 ≤ x - 0 := by linarith
  have v : 0 ≤ 1 - x := by linarith
  have e : 33.12797281708 + 2.28728777265947 * x - 104.614198351476 * x ^ 2 - 275.450102180091 * x ^ 3 + 1587.82553529394 * x ^ 4 - 2570.6813747583033 * x ^ 5 + 1837.1741161137818 * x ^ 6 - 499.849190278 * x ^ 7 - 9.8 = (583199320427/25000000000) * ((x - 0) ^ 0 * (1 - x) ^ 7) +
      (16558309749221947/100000000000000) * ((x - 0) ^ 1 * (1 - x) ^ 6) +
      (19949847872158041/50000000000000) * ((x - 0) ^ 2 * (1 - x) ^ 5) +
      (1045345425004421/20000000000000) * ((x - 0) ^ 3 * (1 - x) ^ 4) +
      (1510539735549027/5000000000000) * ((x - 0) ^ 4 * (1 - x) ^ 3) +
      (72597521107131/4000000000000) * ((x - 0) ^ 5 * (1 - x) ^ 2) +
      (571805417838401/50000000000000) * ((x - 0) ^ 6 * (1 - x) ^ 1) +
      (2004642959097/100000000000000) * ((x - 0) ^ 7 * (1 - x) ^ 0) := by ring
  rw [e]
  positivity

theorem wpoly_high {x : ℝ} (h0 : 0 ≤ x) (h1 : x ≤ 1) : 0 ≤ 33.5 - (33.12797281708 + 2.28728777265947 * x - 104.614198351476 * x ^ 2 - 275.450102180091 * x ^ 3 + 1587.82553529394 * x ^ 4 - 2570.6813747583033 * x ^ 5 + 1837.1741161137818 * x ^ 6 - 499.849190278 * x ^ 7) := by
  have u : 0 ≤ x - 0 := by linarith
  have v : 0 ≤ 1 - x := by linarith
  have e : 33.5 - (33.12797281708 + 2.28728777265947 * x - 104.614198351476 * x ^ 2 - 275.450102180091 * x ^ 3 + 1587.82553529394 * x ^ 4 - 2570.6813747583033 * x ^ 5 + 1837.1741161137818 * x ^ 6 - 499.849190278 * x ^ 7) = (9300679573/25000000000) * ((x - 0) ^ 0 * (1 - x) ^ 7) +
      (31690250778053/100000000000000) * ((x - 0) ^ 1 * (1 - x) ^ 6) +
      (4935152127841959/50000000000000) * ((x - 0) ^ 2 * (1 - x) ^ 5) +
      (15544654574995579/20000000000000) * ((x - 0) ^ 3 * (1 - x) ^ 4) +
      (2636960264450973/5000000000000) * ((x - 0) ^ 4 * (1 - x) ^ 3) +
      (1918202478892869/4000000000000) * ((x - 0) ^ 5 * (1 - x) ^ 2) +
      (7723194582161599/50000000000000) * ((x - 0) ^ 6 * (1 - x) ^ 1) +
      (2367995357040903/100000000000000) * ((x - 0) ^ 7 * (1 - x) ^ 0) := by ring
  rw [e]
  positivity

theorem wderiv_a {x : ℝ} (h0 : (1/50) ≤ x) (h1 : x ≤ (1/2)) : 0 ≤ -(2.28728777265947 - 104.614198351476 * (2 * x) - 275.450102180091 * (3 * x ^ 2) + 1587.82553529394 * (4 * x ^ 3) - 2570.6813747583033 * (5 * x ^ 4) + 1837.1741161137818 * (6 * x ^ 5) - 499.849190278 * (7 * x ^ 6)) := by
  have u : 0 ≤ x - (1/50) := by linarith
  have v : 0 ≤ (1/2) - x := by linarith
  have e : -(2.28728777265947 - 104.614198351476 * (2 * x) - 275.450102180091 * (3 * x ^ 2) + 1587.82553529394 * (4 * x ^ 3) - 2570.6813747583033 * (5 * x ^ 4) + 1837.1741161137818 * (6 * x ^ 5) - 499.849190278 * (7 * x ^ 6)) = (378304055933244378919/2123366400000000000) * ((x - (1/50)) ^ 0 * ((1/2) - x) ^ 6) +
      (10929220674428364959197/1061683200000000000) * ((x - (1/50)) ^ 1 * ((1/2) - x) ^ 5) +
      (981020177948676381581/16986931200000000) * ((x - (1/50)) ^ 2 * ((1/2) - x) ^ 4) +
      (14116301390102997119/169869312000000) * ((x - (1/50)) ^ 3 * ((1/2) - x) ^ 3) +
      (1471970031348516781/27179089920000) * ((x - (1/50)) ^ 4 * ((1/2) - x) ^ 2) +
      (9527471277736249/543581798400) * ((x - (1/50)) ^ 5 * ((1/2) - x) ^ 1) +
      (845644669457977/362387865600) * ((x - (1/50)) ^ 6 * ((1/2) - x) ^ 0) := by ring
  rw [e]
  positivity

theorem wderiv_b {x : ℝ} (h0 : (1/2) ≤ x) (h1 : x ≤ 1) : 0 ≤ -(2.28728777265947 - 104.614198351476 * (2 * x) - 275.450102180091 * (3 * x ^ 2) + 1587.82553529394 * (4 * x ^ 3) - 2570.6813747583033 * (5 * x ^ 4) + 1837.1741161137818 * (6 * x ^ 5) - 499.849190278 * (7 * x ^ 6)) := by
  have u : 0 ≤ x - (1/2) := by linarith
  have v : 0 ≤ 1 - x := by linarith
  have e : -(2.28728777265947 - 104.614198351476 * (2 * x) - 275.450102180091 * (3 * x ^ 2) + 1587.82553529394 * (4 * x ^ 3) - 2570.6813747583033 * (5 * x ^ 4) + 1837.1741161137818 * (6 * x ^ 5) - 499.849190278 * (7 * x ^ 6)) = (22832406075365379/12500000000000) * ((x - (1/2)) ^ 0 * (1 - x) ^ 6) +
      (12632110995708903/1562500000000) * ((x - (1/2)) ^ 1 * (1 - x) ^ 5) +
      (35798143571971857/2500000000000) * ((x - (1/2)) ^ 2 * (1 - x) ^ 4) +
      (5414204568664677/312500000000) * ((x - (1/2)) ^ 3 * (1 - x) ^ 3) +
      (4117121211273789/312500000000) * ((x - (1/2)) ^ 4 * (1 - x) ^ 2) +
      (886420262768619/781250000000) * ((x - (1/2)) ^ 5 * (1 - x) ^ 1) +
      (1129578334963123/1562500000000) * ((x - (1/2)) ^ 6 * (1 - x) ^ 0) := by ring
  rw [e]
  positivity

end Verif.Gss
