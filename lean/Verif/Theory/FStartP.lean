import Verif.Theory.FStart
import Verif.Spec.FStartP

/-!
Rounding errors of `CARp::StartingAR`, on a logarithmic scale.
-/

namespace Verif.Theory

open Verif.Model Verif.Spec
open scoped Classical

variable {A : Arith}

theorem log_close {x y ε : ℝ} (hy : 0 < y) (h : |x - y| ≤ ε * y) (he : ε ≤ 1 / 100000) (e0 : 0 ≤ ε) : 0 < x ∧ |Real.log x - Real.log y| ≤ 11 / 10 * ε := by
  obtain ⟨a, b⟩ := abs_le.mp h
  have x0 : 0 < x := by nlinarith
  refine ⟨x0, ?_⟩
  have q0 : 0 < x / y := by positivity
  have q1 : x / y ≤ 1 + ε := by rw [div_le_iff₀ hy]; linarith
  have q2 : 1 - ε ≤ x / y := by rw [le_div_iff₀ hy]; linarith
  rw [← Real.log_div x0.ne' hy.ne', abs_le]
  have l1 := Real.log_le_sub_one_of_pos q0
  have l2 := Real.one_sub_inv_le_log_of_pos q0
  have l3 : (x / y)⁻¹ ≤ 1 + 11 / 10 * ε := by
    rw [inv_le_comm₀ q0 (by linarith)]
    refine le_trans ?_ q2
    rw [inv_le_iff_one_le_mul₀ (by linarith)]
    nlinarith
  constructor <;> linarith

theorem log_wide {x : ℝ} (x0 : 0 < x) (h : |Real.log x| ≤ 600) : 2 ^ (-900 : ℤ) ≤ x ∧ x ≤ 2 ^ (900 : ℤ) := by
  obtain ⟨a, b⟩ := abs_le.mp h
  have c := Real.log_two_gt_d9
  constructor
  · rw [← Real.log_le_log_iff (by positivity) x0, Real.log_zpow]
    push_cast
    linarith
  · rw [← Real.log_le_log_iff x0 (by positivity), Real.log_zpow]
    push_cast
    linarith

/-- rounding moves the logarithm of a positive number by little -/
theorem rnd_log (hA : IsBinary64 A) {x : ℝ} (x0 : 0 < x) (h : |Real.log x| ≤ 600) :
    ∃ r, A.rnd x = .fin r ∧ F64 r ∧ 0 < r ∧ |Real.log r - Real.log x| ≤ 3 * uu := by
  have us := uu_small
  have u0 := uu_pos
  obtain ⟨a, b⟩ := log_wide x0 h
  obtain ⟨r, e, F, hr⟩ := (RelErr.refl x).rnd hA (by norm_num) a b
  obtain ⟨r0, hl⟩ := log_close (ε := 2 * uu) x0 (by unfold RelErr at hr; linarith) (by linarith) (by linarith)
  exact ⟨r, e, F, r0, by linarith⟩

theorem rnd_neg_log (hA : IsBinary64 A) {x : ℝ} (x0 : 0 < x) (h : |Real.log x| ≤ 600) :
    ∃ r, A.rnd (-x) = .fin (-r) ∧ F64 r ∧ 0 < r ∧ |Real.log r - Real.log x| ≤ 3 * uu := by
  have us := uu_small
  have u0 := uu_pos
  obtain ⟨a, b⟩ := log_wide x0 h
  obtain ⟨r, e, R, -, -⟩ := rnd_between hA (x := -x) (f64_neg (f64_zpow 900 (by norm_num) (by norm_num))) (f64_zpow 900 (by norm_num) (by norm_num)) (by linarith)
    ((by linarith : -x ≤ 0).trans (by positivity))
  have hr := rounds_rel R (by rw [abs_neg, abs_of_pos x0]; exact (pw_le _ _ (by norm_num)).trans a) (by rw [abs_neg, abs_of_pos x0]; exact b.trans (pw_le _ _ (by norm_num)))
  rw [abs_neg, abs_of_pos x0] at hr
  obtain ⟨r0, hl⟩ := log_close (x := -r) (ε := uu) x0 (by rw [← abs_neg]; convert hr using 2; ring) (by linarith) (by linarith)
  exact ⟨-r, by rw [e, neg_neg], f64_neg R.1, r0, by linarith⟩

theorem acc_log (hA : IsBinary64 A) (hacc : Accurate A) {v K : ℝ} (F : F64 v) (v0 : 0 < v) (h : |Real.log v| ≤ K) :
    ∃ r, A.log (.fin v) = .fin r ∧ F64 r ∧ |r - Real.log v| ≤ (1 + K) * uu := by
  have u0 := uu_pos
  obtain ⟨r, e, Fr, -⟩ := hA.log_pos v F v0
  refine ⟨r, e, Fr, (hacc.log v r F v0 e).trans ?_⟩
  change uu * _ ≤ _
  nlinarith

theorem acc_exp (hA : IsBinary64 A) (hacc : Accurate A) (hE : ExpFinite A) {z : ℝ} (F : F64 z) (h : |z| ≤ 600) :
    ∃ w, A.exp (.fin z) = .fin w ∧ F64 w ∧ 0 < w ∧ |Real.log w - z| ≤ 3 * uu := by
  have us := uu_small
  have u0 := uu_pos
  obtain ⟨a, b⟩ := abs_le.mp h
  obtain ⟨w, e, hw⟩ := hE z b
  obtain ⟨Fw, -⟩ := hA.exp_range z w e
  have hx := hacc.exp z w F e hw
  have p0 := Real.exp_pos z
  obtain ⟨c, -⟩ := log_wide p0 (by rw [Real.log_exp]; exact h)
  have t : (2 : ℝ) ^ (-1074 : ℤ) ≤ uu * Real.exp z := by
    refine le_trans ?_ (mul_le_mul_of_nonneg_left c u0.le)
    unfold uu
    rw [pw_mul (-52) (-900) (-952) (by norm_num)]
    exact pw_le _ _ (by norm_num)
  change |w - Real.exp z| ≤ uu * _ + _ at hx
  obtain ⟨w0, hl⟩ := log_close (ε := 2 * uu) p0 (hx.trans (by linarith)) (by linarith) (by linarith)
  rw [Real.log_exp] at hl
  exact ⟨w, e, Fw, w0, by linarith⟩

/-- logarithms of sums -/
theorem log_sum {a b a' b' ε : ℝ} (a0 : 0 < a) (b0 : 0 < b) (a1 : 0 < a') (b1 : 0 < b') (ha : |Real.log a - Real.log a'| ≤ ε) (hb : |Real.log b - Real.log b'| ≤ ε) :
    |Real.log (a + b) - Real.log (a' + b')| ≤ ε := by
  have key : ∀ {x y : ℝ}, 0 < x → 0 < y → Real.log x - Real.log y ≤ ε → x ≤ Real.exp ε * y := by
    intro x y x0 y0 h
    rw [← Real.log_le_log_iff x0 (by positivity), Real.log_mul (Real.exp_pos _).ne' y0.ne', Real.log_exp]
    linarith
  obtain ⟨h1, h2⟩ := abs_le.mp ha
  obtain ⟨h3, h4⟩ := abs_le.mp hb
  have k1 := key a0 a1 h2
  have k2 := key a1 a0 (by linarith)
  have k3 := key b0 b1 h4
  have k4 := key b1 b0 (by linarith)
  have s0 : 0 < a + b := by positivity
  have s1 : 0 < a' + b' := by positivity
  rw [abs_le]
  constructor
  · have : Real.log (a' + b') ≤ Real.log (Real.exp ε * (a + b)) := Real.log_le_log s1 (by linarith)
    rw [Real.log_mul (Real.exp_pos _).ne' s0.ne', Real.log_exp] at this
    linarith
  · have : Real.log (a + b) ≤ Real.log (Real.exp ε * (a' + b')) := Real.log_le_log s0 (by linarith)
    rw [Real.log_mul (Real.exp_pos _).ne' s1.ne', Real.log_exp] at this
    linarith

theorem log_rng {x : ℝ} (h1 : 2 ^ (-300 : ℤ) ≤ x) (h2 : x ≤ 2 ^ (300 : ℤ)) : |Real.log x| ≤ 208 := by
  have x0 : 0 < x := lt_of_lt_of_le (by positivity) h1
  have a := Real.log_le_log (by positivity) h1
  have b := Real.log_le_log x0 h2
  rw [Real.log_zpow] at a b
  have c := Real.log_two_lt_d9
  push_cast at a b
  rw [abs_le]
  constructor <;> linarith

/-- one over a gap, as computed -/
theorem inv_num (hA : IsBinary64 A) {x : ℝ} (h1 : 2 ^ (-300 : ℤ) ≤ x) (h2 : x ≤ 2 ^ (300 : ℤ)) {d : ℝ} (e : A.rnd x = .fin d) :
    ∃ r, A.div (.fin 1) (.fin d) = .fin r ∧ F64 r ∧ 0 < r ∧ |Real.log r - -Real.log x| ≤ 6 * uu := by
  have us := uu_small
  have u0 := uu_pos
  have x0 : 0 < x := lt_of_lt_of_le (by positivity) h1
  have hx := log_rng h1 h2
  obtain ⟨d', e', -, d0, hd⟩ := rnd_log hA x0 (hx.trans (by norm_num))
  rw [e] at e'
  injection e' with e'
  subst e'
  obtain ⟨a1, a2⟩ := abs_le.mp hx
  obtain ⟨b1, b2⟩ := abs_le.mp hd
  have li : Real.log (1 / d) = -Real.log d := by rw [one_div, Real.log_inv]
  obtain ⟨r, er, Fr, r0, hr⟩ := rnd_log hA (x := 1 / d) (by positivity) (by rw [li, abs_neg, abs_le]; constructor <;> linarith)
  refine ⟨r, by rw [fl_div _ _ d0.ne']; exact er, Fr, r0, ?_⟩
  rw [li] at hr
  obtain ⟨c1, c2⟩ := abs_le.mp hr
  rw [abs_le]
  constructor <;> linarith

/-- the logarithms of the smallest frequency and of the ratio of the two -/
theorem logs_num (hA : IsBinary64 A) (hacc : Accurate A) {T g M m : ℝ} (T1 : |Real.log T| ≤ 208) (g1 : |Real.log g| ≤ 208) (M0 : 0 < M) (m0 : 0 < m) (Fm : F64 m)
    (hM : |Real.log M - -Real.log g| ≤ 6 * uu) (hm : |Real.log m - -Real.log T| ≤ 6 * uu) :
    ∃ lr lm, A.log (A.div (.fin M) (.fin m)) = .fin lr ∧ A.log (.fin m) = .fin lm ∧ F64 lm ∧ |lr - (Real.log T - Real.log g)| ≤ 433 * uu ∧
      |lm - -Real.log T| ≤ 216 * uu := by
  have us := uu_small
  have u0 := uu_pos
  obtain ⟨a1, a2⟩ := abs_le.mp T1
  obtain ⟨b1, b2⟩ := abs_le.mp g1
  obtain ⟨c1, c2⟩ := abs_le.mp hM
  obtain ⟨d1, d2⟩ := abs_le.mp hm
  obtain ⟨lm, e1, F1, h1⟩ := acc_log hA hacc (K := 209) Fm m0 (by rw [abs_le]; constructor <;> linarith)
  have ld : Real.log (M / m) = Real.log M - Real.log m := Real.log_div M0.ne' m0.ne'
  obtain ⟨r, er, Fr, r0, hr⟩ := rnd_log hA (x := M / m) (by positivity) (by rw [ld, abs_le]; constructor <;> linarith)
  rw [ld] at hr
  obtain ⟨f1, f2⟩ := abs_le.mp hr
  obtain ⟨lr, e2, -, h2⟩ := acc_log hA hacc (K := 417) Fr r0 (by rw [abs_le]; constructor <;> linarith)
  obtain ⟨p1, p2⟩ := abs_le.mp h1
  obtain ⟨q1, q2⟩ := abs_le.mp h2
  refine ⟨lr, lm, by rw [fl_div _ _ m0.ne', er]; exact e2, e1, F1, ?_, ?_⟩
  · rw [abs_le]; constructor <;> linarith
  · rw [abs_le]; constructor <;> linarith

/-- the logarithm of the frequency meant -/
noncomputable def zOf (T g x : ℝ) : ℝ := -Real.log T + x * (Real.log T - Real.log g)

theorem zOf_rng {T g x : ℝ} (T1 : |Real.log T| ≤ 208) (g1 : |Real.log g| ≤ 208) (x0 : 0 ≤ x) (x1 : x ≤ 1) : |zOf T g x| ≤ 208 := by
  obtain ⟨a1, a2⟩ := abs_le.mp T1
  obtain ⟨b1, b2⟩ := abs_le.mp g1
  unfold zOf
  rw [abs_le]
  constructor <;> nlinarith

/-- a frequency as computed -/
theorem freq_num (hA : IsBinary64 A) (hacc : Accurate A) (hE : ExpFinite A) {T g lr lm x : ℝ} (T1 : |Real.log T| ≤ 208) (g1 : |Real.log g| ≤ 208)
    (h1 : |lr - (Real.log T - Real.log g)| ≤ 433 * uu) (h2 : |lm - -Real.log T| ≤ 216 * uu) (x0 : 0 ≤ x) (x1 : x ≤ 1) :
    ∃ w, A.exp (A.add (A.mul (.fin lr) (.fin x)) (.fin lm)) = .fin w ∧ F64 w ∧ 0 < w ∧ |Real.log w - zOf T g x| ≤ 1280 * uu := by
  have us := uu_small
  have u0 := uu_pos
  obtain ⟨a1, a2⟩ := abs_le.mp T1
  obtain ⟨b1, b2⟩ := abs_le.mp g1
  have hz := zOf_rng T1 g1 x0 x1
  have hlr : |lr| ≤ 417 := by
    obtain ⟨c1, c2⟩ := abs_le.mp h1
    rw [abs_le]; constructor <;> linarith
  have hp : |lr * x| ≤ 417 := by
    rw [abs_mul, abs_of_nonneg x0]
    nlinarith [abs_nonneg lr]
  have e1 : |lr * x - x * (Real.log T - Real.log g)| ≤ 433 * uu := by
    rw [show lr * x - x * (Real.log T - Real.log g) = (lr - (Real.log T - Real.log g)) * x by ring, abs_mul, abs_of_nonneg x0]
    nlinarith [abs_nonneg (lr - (Real.log T - Real.log g))]
  have big : F64 (2 ^ (20 : ℤ)) := f64_zpow 20 (by norm_num) (by norm_num)
  obtain ⟨p1, p2⟩ := abs_le.mp hp
  obtain ⟨s, es, Rs, -, -⟩ := rnd_mul hA (a := lr) (b := x) (f64_neg big) big (by norm_num; linarith) (by norm_num; linarith)
  have hs := rounds_err Rs hp ((pw_le (-1000) 0 (by norm_num)).trans (by norm_num)) ((show (417 : ℝ) ≤ 2 ^ (20 : ℤ) by norm_num).trans (pw_le _ _ (by norm_num)))
  obtain ⟨q1, q2⟩ := abs_le.mp hs
  obtain ⟨r1, r2⟩ := abs_le.mp e1
  obtain ⟨t1, t2⟩ := abs_le.mp h2
  obtain ⟨z1, z2⟩ := abs_le.mp hz
  have e2 : |s + lm - zOf T g x| ≤ 1066 * uu := by
    unfold zOf
    rw [abs_le]; constructor <;> linarith
  obtain ⟨v1, v2⟩ := abs_le.mp e2
  have hq : |s + lm| ≤ 209 := by rw [abs_le]; constructor <;> linarith
  obtain ⟨w1, w2⟩ := abs_le.mp hq
  obtain ⟨z, ez, Rz, -, -⟩ := rnd_add hA (a := s) (b := lm) (f64_neg big) big (by norm_num; linarith) (by norm_num; linarith)
  have hzz := rounds_err Rz hq ((pw_le (-1000) 0 (by norm_num)).trans (by norm_num)) ((show (209 : ℝ) ≤ 2 ^ (20 : ℤ) by norm_num).trans (pw_le _ _ (by norm_num)))
  obtain ⟨y1, y2⟩ := abs_le.mp hzz
  obtain ⟨w, ew, Fw, w0, hw⟩ := acc_exp hA hacc hE (z := z) Rz.1 (by rw [abs_le]; constructor <;> linarith)
  obtain ⟨k1, k2⟩ := abs_le.mp hw
  refine ⟨w, by rw [es, ez, ew], Fw, w0, ?_⟩
  rw [abs_le]; constructor <;> linarith

theorem log_two_pi : 0 ≤ Real.log (2 * Real.pi) ∧ Real.log (2 * Real.pi) ≤ 2 := by
  have a := Real.pi_gt_three
  have b := Real.pi_lt_d2
  refine ⟨Real.log_nonneg (by linarith), ?_⟩
  have e : Real.exp 2 = Real.exp 1 * Real.exp 1 := by rw [← Real.exp_add]; norm_num
  rw [Real.log_le_iff_le_exp (by positivity), e]
  have := Real.exp_one_gt_d9
  nlinarith

/-- multiplication by `2 pi` or `-2 pi` -/
theorem twopi_num (hA : IsBinary64 A) {w : ℝ} (w0 : 0 < w) (hw : |Real.log w| ≤ 300) :
    (∃ r, A.mul (A.mul (.fin 2) (A.rnd Real.pi)) (.fin w) = .fin r ∧ 0 < r ∧ |Real.log r - (Real.log (2 * Real.pi) + Real.log w)| ≤ 9 * uu) ∧
    ∃ r, A.mul (A.mul (.fin (-2)) (A.rnd Real.pi)) (.fin w) = .fin (-r) ∧ F64 r ∧ 0 < r ∧ |Real.log r - (Real.log (2 * Real.pi) + Real.log w)| ≤ 9 * uu := by
  have us := uu_small
  have u0 := uu_pos
  have p3 := Real.pi_gt_three
  obtain ⟨l1, l2⟩ := log_two_pi
  obtain ⟨a1, a2⟩ := abs_le.mp hw
  have lp0 : 0 ≤ Real.log Real.pi := Real.log_nonneg (by linarith)
  have l22 := Real.log_two_lt_d9
  have l23 := Real.log_two_gt_d9
  have lp : Real.log (2 * Real.pi) = Real.log 2 + Real.log Real.pi := Real.log_mul (by norm_num) (by positivity)
  obtain ⟨q, eq, -, q0, hq⟩ := rnd_log hA (x := Real.pi) (by positivity) (by rw [abs_le]; constructor <;> linarith)
  obtain ⟨c1, c2⟩ := abs_le.mp hq
  have e2 : Real.log (2 * q) = Real.log 2 + Real.log q := Real.log_mul (by norm_num) q0.ne'
  have hb : |Real.log (2 * q)| ≤ 600 := by rw [e2, abs_le]; constructor <;> linarith
  constructor
  · obtain ⟨t, et, -, t0, ht⟩ := rnd_log hA (x := 2 * q) (by positivity) hb
    rw [e2] at ht
    obtain ⟨d1, d2⟩ := abs_le.mp ht
    have e3 : Real.log (t * w) = Real.log t + Real.log w := Real.log_mul t0.ne' w0.ne'
    obtain ⟨r, er, -, r0, hr⟩ := rnd_log hA (x := t * w) (by positivity) (by rw [e3, abs_le]; constructor <;> linarith)
    rw [e3] at hr
    obtain ⟨f1, f2⟩ := abs_le.mp hr
    refine ⟨r, ?_, r0, ?_⟩
    · rw [eq]
      change A.mul (A.rnd (2 * q)) _ = _
      rw [et]
      exact er
    · rw [abs_le]; constructor <;> linarith
  · obtain ⟨t, et, -, t0, ht⟩ := rnd_neg_log hA (x := 2 * q) (by positivity) hb
    rw [e2] at ht
    obtain ⟨d1, d2⟩ := abs_le.mp ht
    have e3 : Real.log (t * w) = Real.log t + Real.log w := Real.log_mul t0.ne' w0.ne'
    obtain ⟨r, er, Fr, r0, hr⟩ := rnd_neg_log hA (x := t * w) (by positivity) (by rw [e3, abs_le]; constructor <;> linarith)
    rw [e3] at hr
    obtain ⟨f1, f2⟩ := abs_le.mp hr
    refine ⟨r, ?_, Fr, r0, ?_⟩
    · rw [eq]
      change A.mul (A.rnd (-2 * q)) _ = _
      rw [neg_mul, et]
      change A.rnd (-t * w) = _
      rw [neg_mul]
      exact er
    · rw [abs_le]; constructor <;> linarith

/-- the two parameters of a quadratic factor -/
theorem quadlog_num (hA : IsBinary64 A) (hacc : Accurate A) {w c W K : ℝ} (w0 : 0 < w) (c0 : 0 < c) (hw : |Real.log w - W| ≤ 1280 * uu)
    (hc : |Real.log c - K| ≤ 1280 * uu) (hW : |W| ≤ 208) (hK : |K| ≤ 208) {re im : Dbl} (hre : re = A.mul (A.mul (.fin (-2)) (A.rnd Real.pi)) (.fin w))
    (him : im = A.mul (A.mul (.fin 2) (A.rnd Real.pi)) (.fin c)) :
    ∃ a b, A.log (A.add (A.mul re re) (A.mul im im)) = .fin a ∧ A.log (A.mul (.fin (-2)) re) = .fin b ∧ F64 a ∧ F64 b ∧
      |a - Real.log ((2 * Real.pi * Real.exp W) ^ 2 + (2 * Real.pi * Real.exp K) ^ 2)| ≤ 2 ^ (-40 : ℤ) ∧ |b - Real.log (4 * Real.pi * Real.exp W)| ≤ 2 ^ (-40 : ℤ) := by
  have us := uu_small
  have u0 := uu_pos
  have hu : (2 : ℝ) ^ (-40 : ℤ) = 4096 * uu := by unfold uu; norm_num
  obtain ⟨l1, l2⟩ := log_two_pi
  have l22 := Real.log_two_lt_d9
  have l23 := Real.log_two_gt_d9
  obtain ⟨c1, c2⟩ := abs_le.mp hW
  obtain ⟨d1, d2⟩ := abs_le.mp hK
  obtain ⟨w1, w2⟩ := abs_le.mp hw
  obtain ⟨w3, w4⟩ := abs_le.mp hc
  obtain ⟨-, r, er, -, r0, hr⟩ := twopi_num hA w0 (by rw [abs_le]; constructor <;> linarith)
  obtain ⟨⟨i, ei, i0, hi⟩, -⟩ := twopi_num hA c0 (by rw [abs_le]; constructor <;> linarith)
  rw [er] at hre
  rw [ei] at him
  subst hre him
  obtain ⟨a1, a2⟩ := abs_le.mp hr
  obtain ⟨b1, b2⟩ := abs_le.mp hi
  have er2 : Real.log (r * r) = Real.log r + Real.log r := Real.log_mul r0.ne' r0.ne'
  have ei2 : Real.log (i * i) = Real.log i + Real.log i := Real.log_mul i0.ne' i0.ne'
  obtain ⟨s, es, -, s0, hs⟩ := rnd_log hA (x := r * r) (by positivity) (by rw [er2, abs_le]; constructor <;> linarith)
  obtain ⟨t, et, -, t0, ht⟩ := rnd_log hA (x := i * i) (by positivity) (by rw [ei2, abs_le]; constructor <;> linarith)
  rw [er2] at hs
  rw [ei2] at ht
  obtain ⟨f1, f2⟩ := abs_le.mp hs
  obtain ⟨g1, g2⟩ := abs_le.mp ht
  have q0 : (0 : ℝ) < 2 * Real.pi := by positivity
  have hX : ∀ y, Real.log ((2 * Real.pi * Real.exp y) ^ 2) = 2 * (Real.log (2 * Real.pi) + y) := by
    intro y
    rw [Real.log_pow, Real.log_mul q0.ne' (Real.exp_pos _).ne', Real.log_exp]
    push_cast
    ring
  obtain ⟨P, hP⟩ : ∃ P, P = (2 * Real.pi * Real.exp W) ^ 2 := ⟨_, rfl⟩
  obtain ⟨Q, hQ⟩ : ∃ Q, Q = (2 * Real.pi * Real.exp K) ^ 2 := ⟨_, rfl⟩
  have P0 : 0 < P := by rw [hP]; positivity
  have Q0 : 0 < Q := by rw [hQ]; positivity
  have lP : Real.log P = 2 * (Real.log (2 * Real.pi) + W) := by rw [hP, hX]
  have lQ : Real.log Q = 2 * (Real.log (2 * Real.pi) + K) := by rw [hQ, hX]
  rw [← hP, ← hQ]
  have hsum := log_sum (ε := 2581 * uu) s0 t0 P0 Q0 (by rw [lP, abs_le]; constructor <;> linarith) (by rw [lQ, abs_le]; constructor <;> linarith)
  -- size of the sum
  have hPQ : |Real.log (P + Q)| ≤ 422 := by
    have m1 : Real.log P ≤ Real.log (P + Q) := Real.log_le_log P0 (by linarith)
    have m2 : Real.log (P + Q) ≤ 421 := by
      have bP : P ≤ Real.exp 420 := by rw [← Real.log_le_iff_le_exp P0, lP]; linarith
      have bQ : Q ≤ Real.exp 420 := by rw [← Real.log_le_iff_le_exp Q0, lQ]; linarith
      rw [Real.log_le_iff_le_exp (by positivity), show (421 : ℝ) = 1 + 420 by norm_num, Real.exp_add]
      have := Real.exp_one_gt_d9
      nlinarith [Real.exp_pos 420]
    rw [abs_le]; constructor <;> linarith
  obtain ⟨h1, h2⟩ := abs_le.mp hsum
  obtain ⟨k1, k2⟩ := abs_le.mp hPQ
  obtain ⟨x, ex, Fx, x0, hx⟩ := rnd_log hA (x := s + t) (by positivity) (by rw [abs_le]; constructor <;> linarith)
  obtain ⟨m1, m2⟩ := abs_le.mp hx
  obtain ⟨a, ea, Fa, ha⟩ := acc_log hA hacc (K := 423) Fx x0 (by rw [abs_le]; constructor <;> linarith)
  obtain ⟨n1, n2⟩ := abs_le.mp ha
  have e2r : Real.log (2 * r) = Real.log 2 + Real.log r := Real.log_mul (by norm_num) r0.ne'
  obtain ⟨y, ey, Fy, y0, hy⟩ := rnd_log hA (x := 2 * r) (by positivity) (by rw [e2r, abs_le]; constructor <;> linarith)
  rw [e2r] at hy
  obtain ⟨o1, o2⟩ := abs_le.mp hy
  obtain ⟨b, eb, Fb, hb⟩ := acc_log hA hacc (K := 212) Fy y0 (by rw [abs_le]; constructor <;> linarith)
  obtain ⟨v1, v2⟩ := abs_le.mp hb
  have lW : Real.log (4 * Real.pi * Real.exp W) = Real.log 2 + Real.log (2 * Real.pi) + W := by
    rw [show 4 * Real.pi * Real.exp W = 2 * (2 * Real.pi) * Real.exp W by ring, Real.log_mul (by positivity) (Real.exp_pos _).ne', Real.log_exp,
      Real.log_mul (by norm_num) q0.ne']
  refine ⟨a, b, ?_, ?_, Fa, Fb, ?_, ?_⟩
  · change A.log (A.add (A.rnd (-r * -r)) (A.rnd (i * i))) = _
    rw [neg_mul_neg, es, et]
    change A.log (A.rnd (s + t)) = _
    rw [ex, ea]
  · change A.log (A.rnd (-2 * -r)) = _
    rw [neg_mul_neg, ey, eb]
  · rw [hu, abs_le]; constructor <;> linarith
  · rw [hu, lW, abs_le]; constructor <;> linarith

/-- the last parameter, for odd orders: the bounds handed to the generator are in order -/
theorem last_num (hA : IsBinary64 A) (hacc : Accurate A) (hE : ExpFinite A) {T g lm c x : ℝ} (T1 : |Real.log T| ≤ 208) (g1 : |Real.log g| ≤ 208) (hTg : 2 * g ≤ T) (g0 : 0 < g)
    (Fl : F64 lm) (h2 : |lm - -Real.log T| ≤ 216 * uu) (Fc : F64 c) (c0 : 0 < c) (hc : |Real.log c - zOf T g x| ≤ 1280 * uu) (x0 : 2 ^ (-40 : ℤ) ≤ x) (x1 : x ≤ 1) :
    ∃ hi, A.log (.fin c) = .fin hi ∧ F64 hi ∧ lm < hi ∧ ∀ r, F64 r → lm ≤ r → r ≤ hi →
      ∃ w, A.exp (.fin r) = .fin w ∧ ∃ l, A.log (A.mul (A.mul (.fin (-2)) (A.rnd Real.pi)) (.fin w)).neg = .fin l ∧ F64 l ∧
        Real.log (2 * Real.pi) - Real.log T - 2 ^ (-40 : ℤ) ≤ l ∧ l ≤ Real.log (2 * Real.pi) + zOf T g x + 2 ^ (-40 : ℤ) := by
  have us := uu_small
  have u0 := uu_pos
  have hu : (2 : ℝ) ^ (-40 : ℤ) = 4096 * uu := by unfold uu; norm_num
  rw [hu] at x0 ⊢
  obtain ⟨l1, l2⟩ := log_two_pi
  have l23 := Real.log_two_gt_d9
  have hz := zOf_rng T1 g1 (by linarith) x1
  obtain ⟨a1, a2⟩ := abs_le.mp T1
  obtain ⟨b1, b2⟩ := abs_le.mp g1
  obtain ⟨z1, z2⟩ := abs_le.mp hz
  obtain ⟨c1, c2⟩ := abs_le.mp hc
  obtain ⟨d1, d2⟩ := abs_le.mp h2
  have hL : Real.log 2 ≤ Real.log T - Real.log g := by
    have := Real.log_le_log (by positivity) hTg
    rw [Real.log_mul (by norm_num) g0.ne'] at this
    linarith
  have hxL : 2800 * uu ≤ x * (Real.log T - Real.log g) := by
    have : 4096 * uu * (7 / 10 - 1 / 100) ≤ x * (Real.log T - Real.log g) := mul_le_mul x0 (by linarith) (by norm_num) (by linarith)
    linarith
  obtain ⟨hi, eh, Fh, hh⟩ := acc_log hA hacc (K := 209) Fc c0 (by rw [abs_le]; constructor <;> linarith)
  obtain ⟨e1, e2⟩ := abs_le.mp hh
  have hlt : lm < hi := by unfold zOf at c1; linarith
  refine ⟨hi, eh, Fh, hlt, fun r Fr r1 r2 => ?_⟩
  have hr : |r| ≤ 208 + 1 / 10 := by rw [abs_le]; constructor <;> linarith
  obtain ⟨w, ew, -, w0, hw⟩ := acc_exp hA hacc hE Fr (hr.trans (by norm_num))
  refine ⟨w, ew, ?_⟩
  obtain ⟨f1, f2⟩ := abs_le.mp hw
  obtain ⟨r3, r4⟩ := abs_le.mp hr
  obtain ⟨-, t, et, Ft, t0, ht⟩ := twopi_num hA w0 (by rw [abs_le]; constructor <;> linarith)
  obtain ⟨g2, g3⟩ := abs_le.mp ht
  obtain ⟨l, el, Fl', hl⟩ := acc_log hA hacc (K := 212) Ft t0 (by rw [abs_le]; constructor <;> linarith)
  obtain ⟨k1, k2⟩ := abs_le.mp hl
  refine ⟨l, ?_, Fl', ?_, ?_⟩
  · rw [et]
    change A.log (.fin (- -t)) = _
    rw [neg_neg, el]
  · linarith
  · linarith

end Verif.Theory
