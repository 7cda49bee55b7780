import Verif.Theory.FLink
import Mathlib.Analysis.Complex.ExponentialBounds

/-!
Errors of what the CAR(1) filter is given: the factor between neighbouring times, the stationary variance, the scaled measurement
errors. And errors of the terms of the log-likelihood and of the log-prior.
-/

namespace Verif.Theory

open Verif.Model Verif.Spec

variable {A : Arith}

theorem uu_tiny : (2 : ℝ) ^ (-1074 : ℤ) ≤ uu / 100 := by
  have : (2 : ℝ) ^ (-1074 : ℤ) ≤ 2 ^ (-59 : ℤ) := pw_le _ _ (by norm_num)
  refine this.trans ?_
  unfold uu
  norm_num

theorem usq {z : ℝ} (hz : 0 ≤ z) : uu * uu * z ≤ uu * z / 1000000 := by
  have h : uu * uu ≤ uu * (1 / 1000000) := mul_le_mul_of_nonneg_left uu_small uu_pos.le
  calc uu * uu * z ≤ uu * (1 / 1000000) * z := mul_le_mul_of_nonneg_right h hz
    _ = _ := by ring

theorem exp_gap {x y : ℝ} (h : x ≤ y) : Real.exp (-x) - Real.exp (-y) ≤ Real.exp (-x) * (y - x) := by
  have e : Real.exp (-y) = Real.exp (-x) * Real.exp (-(y - x)) := by rw [← Real.exp_add]; congr 1; ring
  have := Real.add_one_le_exp (-(y - x))
  have p := Real.exp_pos (-x)
  rw [e]
  nlinarith

theorem exp_err {u x x' : ℝ} (u0 : 0 < u) (u1 : u ≤ 1 / 1000000) (hx : 0 ≤ x) (h : |x' - x| ≤ 5 * u * x) :
    |Real.exp (-x') - Real.exp (-x)| ≤ 19 / 10 * u := by
  obtain ⟨h1, h2⟩ := abs_le.mp h
  obtain ⟨y, hy⟩ : ∃ y, y = (1 - 5 * u) * x := ⟨_, rfl⟩
  have yx : y ≤ x := by nlinarith
  have yx' : y ≤ x' := by nlinarith
  have ye : y * Real.exp (-y) ≤ 37 / 100 := by
    have a1 : y ≤ Real.exp (y - 1) := by have := Real.add_one_le_exp (y - 1); linarith
    have a2 : y * Real.exp (-y) ≤ Real.exp (-1) := by
      calc y * Real.exp (-y) ≤ Real.exp (y - 1) * Real.exp (-y) := mul_le_mul_of_nonneg_right a1 (Real.exp_pos _).le
        _ = Real.exp (-1) := by rw [← Real.exp_add]; congr 1; ring
    have a3 : Real.exp (-1) ≤ 37 / 100 := by
      rw [Real.exp_neg, inv_le_comm₀ (Real.exp_pos 1) (by norm_num)]
      exact le_trans (by norm_num) Real.exp_one_gt_d9.le
    exact a2.trans a3
  have p := Real.exp_pos (-y)
  have key : Real.exp (-y) * (5 * u * x) ≤ 19 / 10 * u := by
    have : Real.exp (-y) * ((1 - 5 * u) * x) ≤ 37 / 100 := by rw [← hy]; linarith
    have q0 : 0 ≤ Real.exp (-y) * x := by positivity
    have : Real.exp (-y) * x ≤ 38 / 100 := by nlinarith
    nlinarith
  have ex : Real.exp (-x) ≤ Real.exp (-y) := Real.exp_le_exp.mpr (by linarith)
  have ex' : Real.exp (-x') ≤ Real.exp (-y) := Real.exp_le_exp.mpr (by linarith)
  rcases le_total x x' with c | c
  · rw [abs_sub_comm, abs_of_nonneg (sub_nonneg.mpr (Real.exp_le_exp.mpr (by linarith)))]
    refine (exp_gap c).trans ((mul_le_mul ex ?_ (by linarith) p.le).trans key)
    linarith
  · rw [abs_of_nonneg (sub_nonneg.mpr (Real.exp_le_exp.mpr (by linarith)))]
    refine (exp_gap c).trans ((mul_le_mul ex' ?_ (by linarith) p.le).trans key)
    linarith

/-- the rate -/
theorem w_err (hacc : Accurate A) {x w : ℝ} (hF : F64 x) (hw : A.exp (.fin x) = .fin w) (w0 : 2 ^ (-300 : ℤ) ≤ w) (w1 : w ≤ 2 ^ (300 : ℤ)) :
    |w - Real.exp x| ≤ 2 * uu * Real.exp x := by
  have h := hacc.exp x w hF hw (w1.trans (pw_le _ _ (by norm_num)))
  have e0 := Real.exp_pos x
  have big : (2 : ℝ) ^ (-1022 : ℤ) ≤ Real.exp x := by
    by_contra hc
    push Not at hc
    have h1 := (abs_le.mp h).2
    have q : (2 : ℝ) ^ (-52 : ℤ) ≤ 1 := by norm_num
    have t1 : (2 : ℝ) ^ (-1074 : ℤ) ≤ 2 ^ (-1022 : ℤ) := pw_le _ _ (by norm_num)
    have t2 : (4 : ℝ) * 2 ^ (-1022 : ℤ) = 2 ^ (-1020 : ℤ) := by
      rw [show (4 : ℝ) = 2 ^ (2 : ℤ) by norm_num]; exact pw_mul _ _ _ (by norm_num)
    have t3 : (2 : ℝ) ^ (-1020 : ℤ) ≤ 2 ^ (-300 : ℤ) := pw_le _ _ (by norm_num)
    have t0 : (0 : ℝ) < 2 ^ (-1022 : ℤ) := by positivity
    generalize (2 : ℝ) ^ (-52 : ℤ) = q1 at *
    generalize (2 : ℝ) ^ (-1074 : ℤ) = q2 at *
    generalize (2 : ℝ) ^ (-1022 : ℤ) = q3 at *
    generalize (2 : ℝ) ^ (-1020 : ℤ) = q4 at *
    generalize (2 : ℝ) ^ (-300 : ℤ) = q5 at *
    nlinarith
  refine h.trans ?_
  have : (2 : ℝ) ^ (-1074 : ℤ) ≤ uu * Real.exp x := by
    rw [← pw_mul (-52) (-1022) (-1074) (by norm_num)]
    exact mul_le_mul_of_nonneg_left big uu_pos.le
  have e : (2 : ℝ) ^ (-52 : ℤ) = uu := rfl
  rw [e]
  linarith

/-- the factor between two neighbouring times -/
theorem rho_err (hA : IsBinary64 A) (hacc : Accurate A) {x3 w t1 t2 : ℝ} (hF : F64 x3) (hw : A.exp (.fin x3) = .fin w) (w0 : 2 ^ (-300 : ℤ) ≤ w)
    (w1 : w ≤ 2 ^ (300 : ℤ)) (hg : t1 + 2 ^ (-300 : ℤ) ≤ t2) (hs : t2 - t1 ≤ 2 ^ (300 : ℤ)) :
    ∃ ρ, A.exp (A.mul (A.mul (.fin (-1)) (.fin w)) (A.sub (.fin t2) (.fin t1))) = .fin ρ ∧ F64 ρ ∧ 0 ≤ ρ ∧ ρ ≤ 1 ∧
      |ρ - Real.exp (-Real.exp x3 * (t2 - t1))| ≤ 3 * uu := by
  have we := w_err hacc hF hw w0 w1
  obtain ⟨Fw, -⟩ := hA.exp_range _ _ hw
  have p0 : (0 : ℝ) < 2 ^ (-300 : ℤ) := by positivity
  have p1 : (0 : ℝ) < 2 ^ (300 : ℤ) := by positivity
  have m1 : (2 : ℝ) ^ (-300 : ℤ) * 2 ^ (-300 : ℤ) = 2 ^ (-600 : ℤ) := pw_mul _ _ _ (by norm_num)
  have m2 : (2 : ℝ) ^ (300 : ℤ) * 2 ^ (300 : ℤ) = 2 ^ (600 : ℤ) := pw_mul _ _ _ (by norm_num)
  have l1 : (2 : ℝ) ^ (-1000 : ℤ) ≤ 2 ^ (-300 : ℤ) := pw_le _ _ (by norm_num)
  have l2 : (2 : ℝ) ^ (300 : ℤ) ≤ 2 ^ (1001 : ℤ) := pw_le _ _ (by norm_num)
  have l3 : (2 : ℝ) ^ (-1000 : ℤ) ≤ 2 ^ (-600 : ℤ) := pw_le _ _ (by norm_num)
  have l4 : (2 : ℝ) ^ (600 : ℤ) ≤ 2 ^ (1001 : ℤ) := pw_le _ _ (by norm_num)
  have F600 : F64 (2 ^ (600 : ℤ)) := f64_zpow _ (by norm_num) (by norm_num)
  have e : A.mul (.fin (-1)) (.fin w) = .fin (-w) := by
    rw [fl_mul, neg_one_mul]; exact hA.id _ (f64_neg Fw)
  obtain ⟨d, ed, rd, d0, d1⟩ := rnd_sub hA (a := t2) (b := t1) f64_m300 f64_300 (by linarith) hs
  obtain ⟨q, hq⟩ : ∃ q, q = t2 - t1 := ⟨_, rfl⟩
  have q0 : 2 ^ (-300 : ℤ) ≤ q := by rw [hq]; linarith
  have qp : 0 < q := lt_of_lt_of_le p0 q0
  have de : |d - q| ≤ uu * q := by
    rw [hq]
    exact rounds_pos rd (by linarith) le_rfl (by rw [← hq]; exact l1.trans q0) (hs.trans l2)
  have w0' : 0 < w := lt_of_lt_of_le p0 w0
  have d0' : 0 < d := lt_of_lt_of_le p0 d0
  have wd0 : 2 ^ (-600 : ℤ) ≤ w * d := by rw [← m1]; exact mul_le_mul w0 d0 p0.le w0'.le
  have wd1 : w * d ≤ 2 ^ (600 : ℤ) := by rw [← m2]; exact mul_le_mul w1 d1 d0'.le p1.le
  have wdp : 0 < w * d := by positivity
  obtain ⟨z, ez, rz, z0, z1⟩ := rnd_mul hA (a := -w) (b := d) (f64_neg F600) f64_zero (by rw [neg_mul]; exact neg_le_neg wd1) (by rw [neg_mul]; linarith)
  have ze : |z - -w * d| ≤ uu * (w * d) :=
    rounds_err rz (by rw [neg_mul, abs_neg, abs_of_pos wdp]) (l3.trans wd0) (wd1.trans l4)
  clear l1 l2 l3 l4 m1 m2 wd0 wd1 F600 z0 hs hg
  obtain ⟨ρ, eρ, Fρ, ρ0, ρ1⟩ := hA.exp_neg z z1
  refine ⟨ρ, by rw [e, ed, ez, eρ], Fρ, ρ0, ρ1, ?_⟩
  have u0 := uu_pos
  have u1 := uu_small
  obtain ⟨W, hW⟩ : ∃ W, W = Real.exp x3 := ⟨_, rfl⟩
  have W0 : 0 < W := by rw [hW]; exact Real.exp_pos _
  rw [← hW] at we ⊢
  rw [← hq]
  have x0 : 0 < W * q := by positivity
  have hwd : |w * d - W * q| ≤ 31 / 10 * uu * (W * q) := by
    have hd2 : |d| ≤ (1 + uu) * q := by
      rw [abs_of_pos d0']; linarith [(abs_le.mp de).2]
    have := mul_err we de hd2 (show |W| ≤ W by rw [abs_of_pos W0])
    have k := usq x0.le
    have k0 : 0 < uu * (W * q) := mul_pos u0 x0
    linarith
  have hx : |(-z) - W * q| ≤ 5 * uu * (W * q) := by
    have h1 : |(-z) - w * d| ≤ uu * (w * d) := by
      rw [show (-z) - w * d = -(z - -w * d) by ring, abs_neg]; exact ze
    have h2 : w * d ≤ W * q + 31 / 10 * uu * (W * q) := by linarith [(abs_le.mp hwd).2]
    have := tri h1 hwd
    have k := usq x0.le
    have k0 : 0 < uu * (W * q) := mul_pos u0 x0
    have h3 := mul_le_mul_of_nonneg_left h2 u0.le
    linarith
  have E := exp_err u0 u1 x0.le hx
  rw [neg_neg] at E
  have r1 := hacc.exp z ρ rz.1 eρ (ρ1.trans (by rw [show (1 : ℝ) = 2 ^ (0 : ℤ) by norm_num]; exact pw_le _ _ (by norm_num)))
  have ez1 : Real.exp z ≤ 1 := Real.exp_le_one_iff.mpr z1
  have e52 : (2 : ℝ) ^ (-52 : ℤ) = uu := rfl
  rw [e52] at r1
  have := tri r1 E
  have t := uu_tiny
  rw [show -(W * q) = -W * q by ring] at this
  nlinarith

/-- the stationary variance -/
theorem stat_err (hA : IsBinary64 A) {b : ℤ} (hb1 : -300 ≤ b) (hb2 : b ≤ 300) {s0 w : ℝ} (Fs : F64 s0) (h0 : 0 ≤ s0) (h1 : s0 ≤ 2 ^ (148 : ℤ))
    (hs : 2 * s0 ^ 2 ≤ 2 ^ b) (hw : F64 w) (w0 : 2 ^ (-300 : ℤ) ≤ w) (w1 : w ≤ 2 ^ (300 : ℤ)) :
    ∃ S, A.div (A.mul (A.mul (A.mul (.fin 2) (.fin s0)) (.fin s0)) (.fin w)) (A.mul (.fin 2) (.fin w)) = .fin S ∧ 0 ≤ S ∧
      S ≤ 2 ^ b ∧ |S - s0 ^ 2| ≤ 3 * (uu * 2 ^ b) := by
  have hB : (0 : ℝ) < 2 ^ b := by positivity
  have w0' : 0 < w := lt_of_lt_of_le (by positivity) w0
  have F2s : F64 (2 * s0) := by
    rcases h0.eq_or_lt with h | h
    · rw [← h, mul_zero]; exact f64_zero
    · simpa using f64_scale Fs h (h1.trans (pw_le _ _ (by norm_num))) 1 (by norm_num)
  have F2w : F64 (2 * w) := by simpa using f64_scale hw w0' w1 1 (by norm_num)
  have ex : A.mul (.fin 2) (.fin s0) = .fin (2 * s0) := by rw [fl_mul]; exact hA.id _ F2s
  have eW : A.mul (.fin 2) (.fin w) = .fin (2 * w) := by rw [fl_mul]; exact hA.id _ F2w
  have FB : F64 (2 ^ b) := f64_zpow b (by omega) (by omega)
  have s2 : 2 * s0 * s0 ≤ 2 ^ b := by nlinarith
  obtain ⟨k, ek, rk, k0, k1⟩ := rnd_mul hA (a := 2 * s0) (b := s0) f64_zero FB (by positivity) s2
  have ke : |k - 2 * s0 * s0| ≤ uu * 2 ^ b := by
    have := rz (k := 1) (a := b) rk (by rw [abs_of_nonneg (by positivity), one_mul]; exact s2) le_rfl (by norm_num) (by omega) (by omega)
    rwa [one_mul] at this
  have FBw : F64 (2 ^ b * w) := by
    obtain ⟨m, e, hm, e1, e2, hwe⟩ := hw
    have hp : (0 : ℝ) < 2 ^ e := by positivity
    have hm0 : 0 < m := by
      have : (0 : ℝ) < m := by by_contra h; push Not at h; nlinarith
      exact_mod_cast this
    have hm1 : (1 : ℝ) ≤ m := by exact_mod_cast hm0
    have he : e ≤ 300 := by
      have : (2 : ℝ) ^ e ≤ 2 ^ (300 : ℤ) := by nlinarith
      exact (zpow_le_zpow_iff_right₀ (by norm_num : (1 : ℝ) < 2)).mp this
    have he' : -353 ≤ e := by
      have hm2 : (m : ℝ) < 2 ^ (53 : ℤ) := by
        have : m < 2 ^ 53 := (abs_lt.mp hm).2
        exact_mod_cast this
      have : (2 : ℝ) ^ (-300 : ℤ) < 2 ^ (53 + e) := by
        rw [zpow_add₀ (by norm_num)]
        exact w0.trans_lt (by rw [hwe]; exact mul_lt_mul_of_pos_right hm2 hp)
      have := (zpow_lt_zpow_iff_right₀ (by norm_num : (1 : ℝ) < 2)).mp this
      omega
    refine ⟨m, e + b, hm, by omega, by omega, ?_⟩
    rw [hwe, zpow_add₀ (by norm_num)]; ring
  obtain ⟨g, eg, rg, g0, g1⟩ := rnd_mul hA (a := k) (b := w) f64_zero FBw (by positivity) (mul_le_mul_of_nonneg_right k1 w0'.le)
  have ge : |g - k * w| ≤ uu * (2 ^ b * w) := by
    refine rounds_err rg (by rw [abs_of_nonneg (by positivity)]; exact mul_le_mul_of_nonneg_right k1 w0'.le) ?_ ?_
    · calc (2 : ℝ) ^ (-1000 : ℤ) ≤ 2 ^ (b + -300) := pw_le _ _ (by omega)
        _ = 2 ^ b * 2 ^ (-300 : ℤ) := by rw [zpow_add₀ (by norm_num)]
        _ ≤ _ := mul_le_mul_of_nonneg_left w0 hB.le
    · calc 2 ^ b * w ≤ 2 ^ b * 2 ^ (300 : ℤ) := mul_le_mul_of_nonneg_left w1 hB.le
        _ = (2 : ℝ) ^ (b + 300) := by rw [zpow_add₀ (by norm_num)]
        _ ≤ _ := pw_le _ _ (by omega)
  have hg2 : g / (2 * w) ≤ 2 ^ b := by rw [div_le_iff₀ (by positivity)]; nlinarith
  obtain ⟨S, eS, rS, S0, S1⟩ := rnd_div hA (a := g) (b := 2 * w) (by positivity) f64_zero FB (by positivity) hg2
  have Se : |S - g / (2 * w)| ≤ uu * 2 ^ b := by
    have := rz (k := 1) (a := b) rS (by rw [abs_of_nonneg (by positivity), one_mul]; exact hg2) le_rfl (by norm_num) (by omega) (by omega)
    rwa [one_mul] at this
  refine ⟨S, by rw [ex, ek, eg, eW, eS], S0, S1, ?_⟩
  have d1 : |g / (2 * w) - k / 2| ≤ uu * 2 ^ b := by
    have e : g / (2 * w) - k / 2 = (g - k * w) / (2 * w) := by field_simp
    rw [e, abs_div, abs_of_pos (by positivity : 0 < 2 * w), div_le_iff₀ (by positivity)]
    have : 0 < uu * (2 ^ b * w) := mul_pos uu_pos (by positivity)
    linarith
  have d2 : |k / 2 - s0 ^ 2| ≤ uu * 2 ^ b := by
    have e : k / 2 - s0 ^ 2 = (k - 2 * s0 * s0) / 2 := by ring
    rw [e, abs_div, abs_of_pos (by norm_num : (0 : ℝ) < 2), div_le_iff₀ (by norm_num)]
    have : 0 < uu * 2 ^ b := mul_pos uu_pos hB
    linarith
  exact (tri (tri Se d1) d2).trans_eq (by ring)

/-- the scaled measurement error -/
theorem yerr_err (hA : IsBinary64 A) {sc e : ℝ} (h0 : 1 / 2 ≤ sc) (h1 : sc ≤ 2) (he0 : 2 ^ (-148 : ℤ) ≤ e)
    (he1 : e ≤ 2 ^ (148 : ℤ)) {p E : ℝ} (hp : A.mul (A.sqrt (.fin sc)) (.fin e) = .fin p) (hE : A.mul (.fin p) (.fin p) = .fin E) :
    |E - sc * e ^ 2| ≤ 6 * uu * (sc * e ^ 2) := by
  have u0 := uu_pos
  have u1 := uu_small
  have l1 : (1 : ℝ) / 2 ≤ √sc := by exact Real.le_sqrt_of_sq_le (by linarith)
  have l2 : √sc ≤ 2 := Real.sqrt_le_iff.mpr ⟨by norm_num, by linarith⟩
  have e0 : 0 < e := lt_of_lt_of_le (by positivity) he0
  obtain ⟨q, eq, rq, q0, q1⟩ := rnd_between hA f64_half f64_two l1 l2
  rw [hA.sqrt_fin sc (by linarith), eq, fl_mul] at hp
  have rp := rnd_rounds hA hp
  have rE := rnd_rounds hA (show A.rnd (p * p) = .fin E from hE)
  have c1 : (2 : ℝ) ^ (-1000 : ℤ) ≤ 1 / 2 := by rw [show (1 : ℝ) / 2 = 2 ^ (-1 : ℤ) by norm_num]; exact pw_le _ _ (by norm_num)
  have c2 : (2 : ℝ) ≤ 2 ^ (1001 : ℤ) := by
    calc (2 : ℝ) = 2 ^ (1 : ℤ) := by norm_num
      _ ≤ _ := pw_le _ _ (by norm_num)
  obtain ⟨r, hr⟩ : ∃ r, r = √sc := ⟨_, rfl⟩
  have rr : r * r = sc := by rw [hr]; exact Real.mul_self_sqrt (by linarith)
  rw [← hr] at l1 l2 rq
  have qe : |q - r| ≤ uu * r := rounds_pos rq (by linarith) le_rfl (c1.trans l1) (l2.trans c2)
  have lo : (2 : ℝ) ^ (-149 : ℤ) ≤ q * e := by
    have p1 : (1 : ℝ) / 2 * 2 ^ (-148 : ℤ) = 2 ^ (-149 : ℤ) := by rw [← pw_mul (-1) (-148) (-149) (by norm_num)]; norm_num
    rw [← p1]; exact mul_le_mul q0 he0 (by positivity) (by linarith)
  have hi : q * e ≤ (2 : ℝ) ^ (149 : ℤ) := by
    rw [← pw_two 148 149 (by norm_num)]; exact mul_le_mul q1 he1 (by linarith) (by norm_num)
  have pe : |p - q * e| ≤ uu * (q * e) :=
    rounds_pos rp (by positivity) le_rfl ((pw_le _ _ (by norm_num)).trans lo) (hi.trans (pw_le _ _ (by norm_num)))
  have plo : (2 : ℝ) ^ (-149 : ℤ) ≤ p := rp.ge (f64_zpow _ (by norm_num) (by norm_num)) lo
  have phi : p ≤ (2 : ℝ) ^ (149 : ℤ) := rp.le (f64_zpow _ (by norm_num) (by norm_num)) hi
  have p0 : 0 < p := lt_of_lt_of_le (by positivity) plo
  have pplo : (2 : ℝ) ^ (-298 : ℤ) ≤ p * p := by
    rw [← pw_mul (-149) (-149) (-298) (by norm_num)]; exact mul_le_mul plo plo (by positivity) p0.le
  have pphi : p * p ≤ (2 : ℝ) ^ (298 : ℤ) := by
    rw [← pw_mul 149 149 298 (by norm_num)]; exact mul_le_mul phi phi p0.le (by positivity)
  have Ee : |E - p * p| ≤ uu * (p * p) :=
    rounds_pos rE (by positivity) le_rfl ((pw_le _ _ (by norm_num)).trans pplo) (pphi.trans (pw_le _ _ (by norm_num)))
  clear lo hi plo phi pplo pphi c1 c2 he0 he1
  have r0 : 0 < r := by linarith
  have re0 : 0 < r * e := by positivity
  -- p against r e
  have p1 : |p - r * e| ≤ 201 / 100 * uu * (r * e) := by
    have a1 : |q * e - r * e| ≤ uu * (r * e) := by
      rw [← sub_mul, abs_mul, abs_of_pos e0]
      calc _ ≤ uu * r * e := mul_le_mul_of_nonneg_right qe e0.le
        _ = _ := by ring
    have a2 : q * e ≤ r * e + uu * (r * e) := by linarith [(abs_le.mp a1).2]
    have := tri pe a1
    have k := usq re0.le
    have k0 : 0 < uu * (r * e) := mul_pos u0 re0
    have h3 := mul_le_mul_of_nonneg_left a2 u0.le
    linarith
  have p2 : p ≤ (1 + 3 * uu) * (r * e) := by
    have := (abs_le.mp p1).2
    nlinarith
  have p3 : |p * p - (r * e) * (r * e)| ≤ 41 / 10 * uu * ((r * e) * (r * e)) := by
    have := mul_err p1 p1 (show |p| ≤ (1 + 3 * uu) * (r * e) by rw [abs_of_pos p0]; exact p2) (show |r * e| ≤ r * e by rw [abs_of_pos re0])
    refine this.trans ?_
    obtain ⟨z, hz⟩ : ∃ z, z = r * e := ⟨_, rfl⟩
    rw [← hz] at re0 ⊢
    have z2 : 0 < z * z := by positivity
    nlinarith [mul_pos u0 z2]
  have sce : sc * e ^ 2 = (r * e) * (r * e) := by rw [← rr]; ring
  rw [sce]
  obtain ⟨z, hz⟩ : ∃ z, z = (r * e) * (r * e) := ⟨_, rfl⟩
  rw [← hz] at p3 ⊢
  have z0 : 0 < z := by rw [hz]; positivity
  have : p * p ≤ z + 41 / 10 * uu * z := by linarith [(abs_le.mp p3).2]
  have := tri Ee p3
  have k := usq z0.le
  have k0 : 0 < uu * z := mul_pos u0 z0
  have h3 := mul_le_mul_of_nonneg_left ‹p * p ≤ z + 41 / 10 * uu * z› u0.le
  linarith

/-! ### one term of the log-likelihood -/

theorem dv_le {X ε v' : ℝ} (hX : 0 ≤ X) (h0 : 0 < ε) (hv' : 0 < v') (h : 100 * ε ≤ 101 * v') : X / v' ≤ 101 / 100 * (X / ε) := by
  rw [div_le_iff₀ hv', show 101 / 100 * (X / ε) * v' = X * (101 / 100 * v') / ε by ring, le_div_iff₀ h0]
  exact mul_le_mul_of_nonneg_left (by linarith) hX

/-- the quadratic part -/
theorem quad_err {u Y ε v v' r d z Δ D : ℝ} (u0 : 0 < u) (hY : 0 < Y) (h0 : 0 < ε) (hv : ε ≤ v) (hv'0 : 0 < v') (hv' : 100 * ε ≤ 101 * v')
    (hd6 : |d| ≤ 6 * Y) (hr : |r| ≤ 4 * Y) (hd : |d - r| ≤ 11 * (u * Y) + Δ) (hz : |z - d * d / 2| ≤ 36 * (u * (Y * Y))) (hD : |v' - v| ≤ D) :
    |z / v' - (1 / 2) * (r ^ 2 / v)| ≤ 93 * (u * (Y * Y / ε)) + 51 / 10 * (Y * Δ / ε) + 81 / 10 * ((Y * Y / ε) * (D / ε)) := by
  have hv0 : 0 < v := by linarith
  have hΔ : 0 ≤ 11 * (u * Y) + Δ := (abs_nonneg _).trans hd
  have hD0 : 0 ≤ D := (abs_nonneg _).trans hD
  have s1 : |z / v' - (d * d / 2) / v'| ≤ 101 / 100 * (36 * (u * (Y * Y)) / ε) := by
    rw [← sub_div, abs_div, abs_of_pos hv'0]
    exact (div_le_div_of_nonneg_right hz hv'0.le).trans (dv_le (by positivity) h0 hv'0 hv')
  have s2 : |(d * d / 2) / v' - (r * r / 2) / v'| ≤ 101 / 100 * (5 * Y * (11 * (u * Y) + Δ) / ε) := by
    rw [← sub_div, abs_div, abs_of_pos hv'0]
    refine (div_le_div_of_nonneg_right ?_ hv'0.le).trans (dv_le (by positivity) h0 hv'0 hv')
    rw [show d * d / 2 - r * r / 2 = (d - r) * ((d + r) / 2) by ring, abs_mul, mul_comm (5 * Y)]
    refine mul_le_mul hd ?_ (abs_nonneg _) hΔ
    rw [abs_div, abs_of_pos (by norm_num : (0 : ℝ) < 2), div_le_iff₀ (by norm_num)]
    exact (abs_add_le _ _).trans (by linarith)
  have s3 : |(r * r / 2) / v' - (1 / 2) * (r ^ 2 / v)| ≤ 101 / 100 * (8 * (Y * Y) * (D / ε) / ε) := by
    have e : (r * r / 2) / v' - (1 / 2) * (r ^ 2 / v) = (r * r / 2) * ((v - v') / v) / v' := by field_simp
    rw [e, abs_div, abs_of_pos hv'0]
    refine (div_le_div_of_nonneg_right ?_ hv'0.le).trans (dv_le (by positivity) h0 hv'0 hv')
    rw [abs_mul]
    refine mul_le_mul ?_ ?_ (abs_nonneg _) (by positivity)
    · rw [abs_of_nonneg (by nlinarith [mul_self_nonneg r])]
      have := mul_self_le_mul_self (abs_nonneg r) hr
      rw [abs_mul_abs_self] at this
      linarith
    · rw [abs_div, abs_of_pos hv0, abs_sub_comm]
      exact div_le_div₀ hD0 hD h0 hv
  have := tri (tri s1 s2) s3
  refine this.trans ?_
  have e1 : 36 * (u * (Y * Y)) / ε = 36 * (u * (Y * Y / ε)) := by ring
  have e2 : 5 * Y * (11 * (u * Y) + Δ) / ε = 55 * (u * (Y * Y / ε)) + 5 * (Y * Δ / ε) := by ring
  have e3 : 8 * (Y * Y) * (D / ε) / ε = 8 * ((Y * Y / ε) * (D / ε)) := by ring
  rw [e1, e2, e3]
  have k1 : 0 ≤ u * (Y * Y / ε) := by positivity
  have k2 : 0 ≤ (Y * Y / ε) * (D / ε) := by positivity
  have k3 : 0 ≤ 55 * (u * (Y * Y / ε)) + 5 * (Y * Δ / ε) := by rw [← e2]; positivity
  linarith

/-- the logarithmic part -/
theorem log_gap {ε v v' D : ℝ} (h0 : 0 < ε) (hv : ε ≤ v) (hv'0 : 0 < v') (hv' : 100 * ε ≤ 101 * v') (hD : |v' - v| ≤ D) :
    |Real.log v' - Real.log v| ≤ 101 / 100 * (D / ε) := by
  have hv0 : 0 < v := by linarith
  have hD0 : 0 ≤ D := (abs_nonneg _).trans hD
  obtain ⟨d1, d2⟩ := abs_le.mp hD
  rw [abs_le]
  constructor
  · have h := Real.log_le_sub_one_of_pos (show 0 < v / v' by positivity)
    rw [Real.log_div hv0.ne' hv'0.ne'] at h
    have : v / v' - 1 ≤ D / v' := by rw [div_sub_one hv'0.ne']; exact div_le_div_of_nonneg_right (by linarith) hv'0.le
    have := dv_le hD0 h0 hv'0 hv'
    linarith
  · have h := Real.log_le_sub_one_of_pos (show 0 < v' / v by positivity)
    rw [Real.log_div hv'0.ne' hv0.ne'] at h
    have h2 : v' / v - 1 ≤ D / ε := by
      rw [div_sub_one hv0.ne']
      exact div_le_div₀ hD0 (by linarith) h0 hv
    have h3 : 0 ≤ D / ε := by positivity
    linarith

theorem log_size {v : ℝ} (h0 : 2 ^ (-302 : ℤ) ≤ v) (h1 : v ≤ 2 ^ (302 : ℤ)) : |Real.log v| ≤ 210 := by
  have v0 : 0 < v := lt_of_lt_of_le (by positivity) h0
  have l1 := Real.log_le_log (by positivity) h0
  have l2 := Real.log_le_log v0 h1
  rw [Real.log_zpow] at l1 l2
  have := Real.log_two_lt_d9
  push_cast at l1 l2
  exact abs_le.mpr ⟨by linarith, by linarith⟩

theorem quad_num (hA : IsBinary64 A) {a c : ℤ} (ha1 : -300 ≤ a) (ha2 : a ≤ 300) (hc1 : -300 ≤ c) (hc2 : c ≤ 300)
    {y m m' v v' mu Δ D : ℝ} (hy : |y| ≤ 2 ^ a) (hmu : |mu| ≤ 2 ^ a)
    (hm' : |m'| ≤ 4 * 2 ^ a) (hm : |m| ≤ 2 * 2 ^ a) (hv0' : 0 < v')
    (hv' : 100 * 2 ^ c ≤ 101 * v') (hv : 2 ^ c ≤ v) (hΔ : |m' - m| ≤ Δ) (hD : |v' - v| ≤ D) :
    ∃ w, A.div (A.mul (A.mul (.fin 0.5) (A.sub (A.sub (.fin y) (.fin m')) (.fin mu)))
        (A.sub (A.sub (.fin y) (.fin m')) (.fin mu))) (.fin v') = .fin w ∧ 0 ≤ w ∧ w ≤ 19 * 2 ^ (2 * a - c) ∧
      |w - (1 / 2) * ((y - mu - m) ^ 2 / v)| ≤ 19 * (uu * 2 ^ (2 * a - c)) +
        (93 * (uu * 2 ^ (2 * a - c)) + 51 / 10 * (2 ^ a * Δ / 2 ^ c) + 81 / 10 * (2 ^ (2 * a - c) * (D / 2 ^ c))) := by
  have F (k : ℕ) (hk : k < 2 ^ 53) : F64 (k * 2 ^ a) := f64_nat_zpow k _ hk (by omega) (by omega)
  have F5 : F64 (5 * 2 ^ a) := by simpa using F 5 (by norm_num)
  have F6 : F64 (6 * 2 ^ a) := by simpa using F 6 (by norm_num)
  have F3 : F64 (3 * 2 ^ a) := by simpa using F 3 (by norm_num)
  have hY : (0 : ℝ) < 2 ^ a := by positivity
  have he : (0 : ℝ) < 2 ^ c := by positivity
  have eχ : (2 : ℝ) ^ a * 2 ^ a / 2 ^ c = 2 ^ (2 * a - c) := by
    rw [zpow_sub₀ (by norm_num), two_mul, zpow_add₀ (by norm_num)]
  obtain ⟨y1, y2⟩ := abs_le.mp hy
  obtain ⟨m1, m2⟩ := abs_le.mp hm'
  obtain ⟨n1, n2⟩ := abs_le.mp hm
  obtain ⟨u1, u2⟩ := abs_le.mp hmu
  obtain ⟨x, ex, rx, x1, x2⟩ := rnd_sub hA (a := y) (b := m') (f64_neg F5) F5 (by linarith) (by linarith)
  obtain ⟨d, ed, rd, d1, d2⟩ := rnd_sub hA (a := x) (b := mu) (f64_neg F6) F6 (by linarith) (by linarith)
  obtain ⟨h, eh, rh, h1, h2⟩ := rnd_mul hA (a := 0.5) (b := d) (f64_neg F3) F3 (by norm_num; linarith) (by norm_num; linarith)
  have sgn : 0 ≤ h * d := by
    rcases le_total 0 d with k | k
    · exact mul_nonneg (rh.ge f64_zero (by norm_num; linarith)) k
    · exact mul_nonneg_of_nonpos_of_nonpos (rh.le f64_zero (by norm_num; linarith)) k
  have hYY : (2 : ℝ) ^ a * 2 ^ a = 2 ^ (a + a) := by rw [zpow_add₀ (by norm_num)]
  have F18 : F64 (18 * (2 ^ a * 2 ^ a)) := by rw [hYY]; simpa using f64_nat_zpow 18 (a + a) (by norm_num) (by omega) (by omega)
  have hhd : h * d ≤ 18 * (2 ^ a * 2 ^ a) := by rcases le_total 0 d with k | k <;> nlinarith
  obtain ⟨z, ez, rz', z1, z2⟩ := rnd_mul hA (a := h) (b := d) f64_zero F18 sgn hhd
  have F19 : F64 (19 * 2 ^ (2 * a - c)) := by simpa using f64_nat_zpow 19 (2 * a - c) (by norm_num) (by omega) (by omega)
  have hzv : z / v' ≤ 19 * 2 ^ (2 * a - c) := by
    have := dv_le z1 he hv0' hv'
    have h3 : z / 2 ^ c ≤ 18 * 2 ^ (2 * a - c) := by
      rw [← eχ, ← mul_div_assoc]; exact div_le_div_of_nonneg_right z2 he.le
    have : (0 : ℝ) < 2 ^ (2 * a - c) := by positivity
    linarith
  obtain ⟨w, ew, rw', w1, w2⟩ := rnd_div hA (a := z) hv0'.ne' f64_zero F19 (by positivity) hzv
  refine ⟨w, by rw [ex, ed, eh, ez, ew], w1, w2, ?_⟩
  have u0 := uu_pos
  have fy (k : ℝ) {x r : ℝ} (h : Rounds x r) (hx : |x| ≤ k * 2 ^ a) (k1 : 1 ≤ k) (k2 : k ≤ 64) : |r - x| ≤ k * (uu * 2 ^ a) :=
    (rz h hx k1 k2 (by omega) (by omega)).trans_eq (by ring)
  have xe := fy 5 rx (abs_le.mpr ⟨by linarith, by linarith⟩) (by norm_num) (by norm_num)
  have de := fy 6 rd (abs_le.mpr ⟨by linarith, by linarith⟩) (by norm_num) (by norm_num)
  have hee := fy 3 rh (abs_le.mpr ⟨by norm_num; linarith, by norm_num; linarith⟩) (by norm_num) (by norm_num)
  have dr : |d - (y - mu - m)| ≤ 11 * (uu * 2 ^ a) + Δ := by
    have e1 : |(x - mu) - (y - mu - m')| ≤ 5 * (uu * 2 ^ a) := by rw [show (x - mu) - (y - mu - m') = x - (y - m') by ring]; exact xe
    have e2 : |(y - mu - m') - (y - mu - m)| ≤ Δ := by
      rw [show (y - mu - m') - (y - mu - m) = -(m' - m) by ring, abs_neg]; exact hΔ
    refine (tri (tri de e1) e2).trans_eq (by ring)
  have zd : |z - d * d / 2| ≤ 36 * (uu * (2 ^ a * 2 ^ a)) := by
    have e1 : |z - h * d| ≤ 18 * (uu * (2 ^ a * 2 ^ a)) := by
      have := rz (k := 18) (a := a + a) rz' (by rw [abs_of_nonneg sgn, ← hYY]; exact hhd) (by norm_num) (by norm_num) (by omega) (by omega)
      rw [← hYY] at this
      linarith
    have e2 : |h * d - d * d / 2| ≤ 18 * (uu * (2 ^ a * 2 ^ a)) := by
      rw [show h * d - d * d / 2 = (h - 0.5 * d) * d by norm_num; ring, abs_mul]
      calc _ ≤ 3 * (uu * 2 ^ a) * (6 * 2 ^ a) := mul_le_mul hee (abs_le.mpr ⟨d1, d2⟩) (abs_nonneg _) (by positivity)
        _ = _ := by ring
    exact (tri e1 e2).trans_eq (by ring)
  have Q := quad_err u0 hY he hv hv0' hv' (abs_le.mpr ⟨d1, d2⟩) (show |y - mu - m| ≤ 4 * 2 ^ a from abs_le.mpr ⟨by linarith, by linarith⟩) dr zd hD
  rw [eχ] at Q
  have we : |w - z / v'| ≤ 19 * (uu * 2 ^ (2 * a - c)) :=
    (rz (k := 19) (a := 2 * a - c) rw' (by rw [abs_of_nonneg (by positivity)]; exact hzv) (by norm_num) (by norm_num) (by omega) (by omega)).trans_eq (by ring)
  exact tri we Q

theorem log_num (hA : IsBinary64 A) (hacc : Accurate A) {c : ℤ} {v v' D : ℝ} (hvF : F64 v') (hv'0 : 2 ^ (-302 : ℤ) ≤ v')
    (hv'1 : v' ≤ 2 ^ (302 : ℤ)) (hv' : 100 * 2 ^ c ≤ 101 * v') (hv : 2 ^ c ≤ v) (hD : |v' - v| ≤ D) :
    ∃ n, A.mul (.fin (-0.5)) (A.log (.fin v')) = .fin n ∧ |n| ≤ 512 ∧
      |n - -(1 / 2) * Real.log v| ≤ 620 * uu + 51 / 100 * (D / 2 ^ c) := by
  have he : (0 : ℝ) < 2 ^ c := by positivity
  have hv0' : 0 < v' := lt_of_lt_of_le (by positivity) hv'0
  obtain ⟨l, el, Fl, hl⟩ := hA.log_pos v' hvF hv0'
  obtain ⟨l1, l2⟩ := abs_le.mp hl
  have F512 : F64 512 := by simpa using f64_int 512 (by norm_num)
  obtain ⟨n, en, rn, k1, k2⟩ := rnd_mul hA (a := -0.5) (b := l) (f64_neg F512) F512 (by norm_num; linarith) (by norm_num; linarith)
  refine ⟨n, by rw [el, en], abs_le.mpr ⟨k1, k2⟩, ?_⟩
  have u0 := uu_pos
  have ne : |n - -0.5 * l| ≤ 512 * uu := by
    refine (rounds_err (X := 512) rn (abs_le.mpr ⟨by norm_num; linarith, by norm_num; linarith⟩) ?_ ?_).trans_eq (by ring)
    · calc (2 : ℝ) ^ (-1000 : ℤ) ≤ 2 ^ (0 : ℤ) := pw_le _ _ (by norm_num)
        _ ≤ _ := by norm_num
    · calc (512 : ℝ) = 2 ^ (9 : ℤ) := by norm_num
        _ ≤ _ := pw_le _ _ (by norm_num)
  have le : |l - Real.log v| ≤ 211 * uu + 101 / 100 * (D / 2 ^ c) := by
    have h1 := hacc.log v' l hvF hv0' el
    have h2 := log_size hv'0 hv'1
    have e52 : (2 : ℝ) ^ (-52 : ℤ) = uu := rfl
    rw [e52] at h1
    have h3 : |l - Real.log v'| ≤ 211 * uu := h1.trans (by nlinarith)
    exact tri h3 (log_gap he hv hv0' hv' hD)
  have e1 : |-0.5 * l - -(1 / 2) * Real.log v| ≤ (211 * uu + 101 / 100 * (D / 2 ^ c)) / 2 := by
    rw [show -0.5 * l - -(1 / 2) * Real.log v = -((l - Real.log v) / 2) by norm_num; ring, abs_neg, abs_div, abs_of_pos (by norm_num : (0 : ℝ) < 2)]
    linarith
  have := tri ne e1
  have : 0 ≤ D / 2 ^ c := div_nonneg ((abs_nonneg _).trans hD) he.le
  linarith

theorem term_err (hA : IsBinary64 A) (hacc : Accurate A) {a c q : ℤ} (ha1 : -300 ≤ a) (ha2 : a ≤ 300) (hc1 : -300 ≤ c) (hc2 : c ≤ 300)
    (hq0 : 0 ≤ q) (hq : 2 * a - c ≤ q) (hq2 : q ≤ 900) {y m m' v v' mu Δ D : ℝ} (hy : |y| ≤ 2 ^ a) (hmu : |mu| ≤ 2 ^ a)
    (hm' : |m'| ≤ 4 * 2 ^ a) (hm : |m| ≤ 2 * 2 ^ a) (hvF : F64 v') (hv'0 : 2 ^ (-302 : ℤ) ≤ v') (hv'1 : v' ≤ 2 ^ (302 : ℤ))
    (hv' : 100 * 2 ^ c ≤ 101 * v') (hv : 2 ^ c ≤ v) (hΔ : |m' - m| ≤ Δ) (hD : |v' - v| ≤ D) :
    ∃ t, A.sub (A.mul (.fin (-0.5)) (A.log (.fin v')))
      (A.div (A.mul (A.mul (.fin 0.5) (A.sub (A.sub (.fin y) (.fin m')) (.fin mu)))
        (A.sub (A.sub (.fin y) (.fin m')) (.fin mu))) (.fin v')) = .fin t ∧ |t| ≤ 2 ^ (10 + q) ∧
      |t - (-(1 / 2) * Real.log v - (1 / 2) * ((y - mu - m) ^ 2 / v))| ≤ uu * 2 ^ (10 + q) + 620 * uu + 112 * (uu * 2 ^ (2 * a - c)) +
        51 / 100 * (D / 2 ^ c) + 51 / 10 * (2 ^ a * Δ / 2 ^ c) + 81 / 10 * (2 ^ (2 * a - c) * (D / 2 ^ c)) := by
  have hv0' : 0 < v' := lt_of_lt_of_le (by positivity) hv'0
  obtain ⟨w, ew, w1, w2, W⟩ := quad_num hA ha1 ha2 hc1 hc2 hy hmu hm' hm hv0' hv' hv hΔ hD
  obtain ⟨n, en, hn, N⟩ := log_num hA hacc hvF hv'0 hv'1 hv' hv hD
  obtain ⟨k1, k2⟩ := abs_le.mp hn
  have FT : F64 (2 ^ (10 + q)) := f64_zpow _ (by omega) (by omega)
  have big : 512 + 19 * (2 : ℝ) ^ (2 * a - c) ≤ 2 ^ (10 + q) := by
    have p1 : (2 : ℝ) ^ (2 * a - c) ≤ 2 ^ q := pw_le _ _ hq
    have p2 : (1 : ℝ) ≤ 2 ^ q := by rw [show (1 : ℝ) = 2 ^ (0 : ℤ) by norm_num]; exact pw_le _ _ hq0
    rw [zpow_add₀ (by norm_num)]; norm_num; linarith
  have p19 : (0 : ℝ) < 19 * (2 : ℝ) ^ (2 * a - c) := by positivity
  have hnw : |n - w| ≤ 2 ^ (10 + q) := abs_le.mpr ⟨by linarith, by linarith⟩
  obtain ⟨t, et, rt, t1, t2⟩ := rnd_sub hA (a := n) (b := w) (f64_neg FT) FT (abs_le.mp hnw).1 (abs_le.mp hnw).2
  refine ⟨t, by rw [ew, en, et], abs_le.mpr ⟨t1, t2⟩, ?_⟩
  have te : |t - (n - w)| ≤ uu * 2 ^ (10 + q) := by
    have := rz (k := 1) (a := 10 + q) rt (by rw [one_mul]; exact hnw) le_rfl (by norm_num) (by omega) (by omega)
    rwa [one_mul] at this
  have NW := (abs_sub (n - -(1 / 2) * Real.log v) (w - (1 / 2) * ((y - mu - m) ^ 2 / v))).trans (add_le_add N W)
  rw [show (n - -(1 / 2) * Real.log v) - (w - (1 / 2) * ((y - mu - m) ^ 2 / v)) =
    (n - w) - (-(1 / 2) * Real.log v - (1 / 2) * ((y - mu - m) ^ 2 / v)) by ring] at NW
  refine (tri te NW).trans_eq ?_
  ring

/-! ### the log-prior -/

theorem prior_err (hA : IsBinary64 A) (hacc : Accurate A) {θ : List Dbl} {sc : ℝ} (h : θ[1]? = some (.fin sc)) (hF : F64 sc) (h0 : 1 / 2 ≤ sc)
    (h1 : sc ≤ 2) : ∃ l, FCar1.logPrior A θ = .ok (.fin l) ∧ |l| ≤ 26700 ∧ |l - (-25 / sc - 26 * Real.log sc)| ≤ 256 * uu := by
  have hs : 0 < sc := by linarith
  have F25 : F64 (-25) := by simpa using f64_int (-25) (by norm_num)
  have F50 : F64 (-50) := by simpa using f64_int (-50) (by norm_num)
  have F26 : F64 26 := by simpa using f64_int 26 (by norm_num)
  have F25' : F64 25 := by simpa using f64_int 25 (by norm_num)
  have FL : F64 26624 := by simpa using f64_int 26624 (by norm_num)
  have FM : F64 26700 := by simpa using f64_int 26700 (by norm_num)
  have e1 : A.mul (.fin (-0.5)) (.fin 50) = .fin (-25) := by rw [fl_mul, show (-0.5 : ℝ) * 50 = -25 by norm_num]; exact hA.id _ F25
  have e2 : A.div (.fin 50) (.fin 2) = .fin 25 := by
    rw [fl_div _ _ (by norm_num), show (50 : ℝ) / 2 = 25 by norm_num]; exact hA.id _ F25'
  have e3 : A.add (.fin 1) (.fin 25) = .fin 26 := by rw [fl_add, show (1 : ℝ) + 25 = 26 by norm_num]; exact hA.id _ F26
  have hq1 : -50 ≤ -25 / sc := by rw [le_div_iff₀ hs]; linarith
  have hq2 : -25 / sc ≤ 0 := by rw [div_le_iff₀ hs]; linarith
  obtain ⟨q, eq, rq, q1, q2⟩ := rnd_div hA (a := -25) hs.ne' F50 f64_zero hq1 hq2
  obtain ⟨l, el, Fl, hl⟩ := hA.log_pos sc hF hs
  obtain ⟨l1, l2⟩ := abs_le.mp hl
  obtain ⟨k, ek, rk, k1, k2⟩ := rnd_mul hA (a := 26) (b := l) (f64_neg FL) FL (by linarith) (by linarith)
  obtain ⟨z, ez, rz', z1, z2⟩ := rnd_sub hA (a := q) (b := k) (f64_neg FM) FM (by linarith) (by linarith)
  refine ⟨z, ?_, abs_le.mpr ⟨z1, z2⟩, ?_⟩
  · simp only [FCar1.logPrior, rd_some h, res_bind_ok, e1, e2, e3, eq, el, ek, ez]; rfl
  have u0 := uu_pos
  have us := uu_small
  have fn (X : ℝ) (hX : 1 ≤ X) (hX2 : X ≤ 512) {x r : ℝ} (h : Rounds x r) (hx : |x| ≤ X) : |r - x| ≤ uu * X := by
    refine rounds_err h hx ?_ ?_
    · calc (2 : ℝ) ^ (-1000 : ℤ) ≤ 2 ^ (0 : ℤ) := pw_le _ _ (by norm_num)
        _ ≤ _ := by simpa using hX
    · calc X ≤ 512 := hX2
        _ = 2 ^ (9 : ℤ) := by norm_num
        _ ≤ _ := pw_le _ _ (by norm_num)
  have L : |Real.log sc| ≤ 7 / 10 := by
    have a1 := Real.log_le_log (by norm_num) h0
    have a2 := Real.log_le_log hs h1
    rw [one_div, Real.log_inv] at a1
    have := Real.log_two_lt_d9
    exact abs_le.mpr ⟨by linarith, by linarith⟩
  have le : |l - Real.log sc| ≤ 2 * uu := by
    have h1 := hacc.log sc l hF hs el
    have e52 : (2 : ℝ) ^ (-52 : ℤ) = uu := rfl
    rw [e52] at h1
    exact h1.trans (by nlinarith)
  obtain ⟨L1, L2⟩ := abs_le.mp L
  obtain ⟨M1, M2⟩ := abs_le.mp le
  have qe := fn 50 (by norm_num) (by norm_num) rq (abs_le.mpr ⟨hq1, by linarith⟩)
  have ke := fn 20 (by norm_num) (by norm_num) rk (abs_le.mpr ⟨by linarith, by linarith⟩)
  obtain ⟨K1, K2⟩ := abs_le.mp ke
  have zeq := fn 80 (by norm_num) (by norm_num) rz' (abs_le.mpr ⟨by linarith, by linarith⟩)
  have k26 : |26 * l - 26 * Real.log sc| ≤ 52 * uu := by
    rw [← mul_sub, abs_mul, abs_of_pos (by norm_num : (0 : ℝ) < 26)]; linarith
  have kk := tri ke k26
  have qk : |(q - k) - (-25 / sc - 26 * Real.log sc)| ≤ uu * 50 + (uu * 20 + 52 * uu) := by
    rw [show (q - k) - (-25 / sc - 26 * Real.log sc) = (q - -25 / sc) - (k - 26 * Real.log sc) by ring]
    exact (abs_sub _ _).trans (add_le_add qe kk)
  have := tri zeq qk
  linarith

end Verif.Theory
