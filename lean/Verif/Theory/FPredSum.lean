import Verif.Theory.FPredErr

/-!
Rounding errors of `KalmanFilter1::Predict`: the sums over the observations after the requested time.
-/

namespace Verif.Theory

open Verif.Model Verif.Spec

variable {A : Arith} {a b c : ℤ} {n : ℕ} {N κ S' S : ℝ} {ρ' ρ y E' E : ℕ → ℝ}

/-- a quotient -/
theorem quo_err {s' s v' v δ X D C : ℝ} (hC : 0 < C) (hv : C ≤ v) (hv' : 100 * C ≤ 101 * v') (h1 : |s' - s| ≤ δ) (h2 : |s| ≤ X) (h3 : |v' - v| ≤ D) :
    |s' / v' - s / v| ≤ 101 / 100 * ((δ + X * (D / C)) / C) := by
  have v0 : 0 < v := by linarith
  have v'0 : 0 < v' := by linarith
  have δ0 : 0 ≤ δ := (abs_nonneg _).trans h1
  have X0 : 0 ≤ X := (abs_nonneg _).trans h2
  have D0 : 0 ≤ D := (abs_nonneg _).trans h3
  have e : s' / v' - s / v = ((s' - s) + s * ((v - v') / v)) / v' := by field_simp; ring
  rw [e, abs_div, abs_of_pos v'0]
  refine le_trans (div_le_div_of_nonneg_right ?_ v'0.le) (dv_le (by positivity) hC v'0 hv')
  refine (abs_add_le _ _).trans (add_le_add h1 ?_)
  rw [abs_mul, abs_div, abs_of_pos v0, abs_sub_comm]
  exact mul_le_mul h2 (div_le_div₀ D0 h3 hC hv) (by positivity) X0

theorem FIn.magC (h : FIn a b c n N κ S' S ρ' ρ y E' E) : Mag 300 ((2 : ℝ) ^ c) := by
  have := h.c1
  have := h.c2
  exact ⟨pw_le _ _ (by push_cast; omega), pw_le _ _ (by push_cast; omega)⟩

theorem FIn.magY (h : FIn a b c n N κ S' S ρ' ρ y E' E) : Mag 300 ((2 : ℝ) ^ a) := by
  have := h.a1
  have := h.a2
  exact ⟨pw_le _ _ (by push_cast; omega), pw_le _ _ (by push_cast; omega)⟩

theorem FIn.magn (h : FIn a b c n N κ S' S ρ' ρ y E' E) : Mag 53 (n : ℝ) := by
  have n1 : (1 : ℝ) ≤ n := by exact_mod_cast h.n1
  have n2 : (n : ℝ) ≤ 2 ^ 53 := by exact_mod_cast h.n2
  refine ⟨le_trans ?_ n1, n2.trans_eq (by norm_num)⟩
  norm_num

/-- one term of the first sum -/
theorem acc_p (hA : IsBinary64 A) (h : FIn a b c n N κ S' S ρ' ρ y E' E) {i : ℕ} {sl' sl va' v p' p : ℝ} (s'0 : 0 ≤ sl') (s'1 : sl' ≤ 1) (s0 : 0 ≤ sl) (s1 : sl ≤ 1)
    (hsl : |sl' - sl| ≤ 116 * (uu * κ * N) * N) (hv' : E' i ≤ va') (hv : 2 ^ c ≤ v) (hD : |va' - v| ≤ 100 * (uu * 2 ^ b) * N)
    (hp : |p| ≤ 2 * n / 2 ^ c) (hp' : |p' - p| ≤ n / 2 ^ c) :
    ∃ p'', A.add (.fin p') (A.div (A.mul (.fin sl') (.fin sl')) (.fin va')) = .fin p'' ∧
      |p'' - (p + sl * sl / v)| ≤ |p' - p| + (340 * (uu * κ * N * N) + 6 * (uu * n)) / 2 ^ c := by
  have hC : (0 : ℝ) < 2 ^ c := by positivity
  have u0 := uu_pos
  have u1 := uu_small
  have N1 := h.N1
  have κ1 := h.κ1
  have n1 : (1 : ℝ) ≤ n := by exact_mod_cast h.n1
  have κN : 1 ≤ κ * N := by nlinarith
  have va0 : 0 < va' := lt_of_lt_of_le (h.E'0 i) hv'
  have low := h.low hv'
  obtain ⟨r, er, rr, r0, r1⟩ := rnd_mul hA (a := sl') (b := sl') f64_zero f64_one (by positivity) (mul_le_one₀ s'1 s'0 s'1)
  have re : |r - sl * sl| ≤ uu + 2 * (116 * (uu * κ * N) * N) := by
    have e1 := rz1 rr (by positivity) (mul_le_one₀ s'1 s'0 s'1)
    have e2 := mul_err hsl hsl (abs01 s'0 s'1) (abs01 s0 s1)
    linarith [tri e1 e2]
  have qb : |r / va'| ≤ 2 / 2 ^ c := by
    rw [abs_of_nonneg (div_nonneg r0 va0.le)]
    have := dv_le (X := 1) zero_le_one hC va0 low
    have h1 : r / va' ≤ 1 / va' := div_le_div_of_nonneg_right r1 va0.le
    have h2 : (0 : ℝ) < 1 / 2 ^ c := by positivity
    have h3 : (2 : ℝ) / 2 ^ c = 2 * (1 / 2 ^ c) := by ring
    rw [h3]; linarith
  obtain ⟨z, ez, rz, ze⟩ := rnd_mag hA ((mag_num (x := 2) (by norm_num) (by norm_num)).div h.magC) (by norm_num) qb
  have qe := quo_err hC hv low re (show |sl * sl| ≤ 1 from abs01 (by positivity) (mul_le_one₀ s1 s0 s1)) hD
  have e1 := tri ze qe
  have d1 : 100 * (uu * 2 ^ b) * N / 2 ^ c = 100 * (uu * κ * N) := by rw [h.hκ]; ring
  rw [d1] at e1
  have k1 : uu ≤ uu * κ * N * N := by
    have : 1 ≤ κ * N * N := by nlinarith
    calc uu = uu * 1 := (mul_one _).symm
      _ ≤ uu * (κ * N * N) := mul_le_mul_of_nonneg_left this u0.le
      _ = _ := by ring
  have k2 : uu * κ * N ≤ uu * κ * N * N := le_mul_of_one_le_right (by positivity) N1
  have e2 : |z - sl * sl / v| ≤ 340 * (uu * κ * N * N) / 2 ^ c := by
    refine e1.trans ?_
    rw [mul_div_assoc', mul_div_assoc', ← add_div]
    refine div_le_div_of_nonneg_right ?_ hC.le
    linarith
  have nC : 1 / 2 ^ c ≤ (n : ℝ) / 2 ^ c := div_le_div_of_nonneg_right n1 hC.le
  have zb : |z| ≤ 3 / 2 * (2 / 2 ^ c) := by
    have := abs_sub_abs_le_abs_sub z (r / va')
    have : 0 < 2 / (2 : ℝ) ^ c := by positivity
    nlinarith
  have sb : |p' + z| ≤ 6 * n / 2 ^ c := by
    have d2 := abs_sub_abs_le_abs_sub p' p
    have d3 := abs_add_le p' z
    have d4 : 2 * (n : ℝ) / 2 ^ c = 2 * (n / 2 ^ c) := by ring
    have d5 : 6 * (n : ℝ) / 2 ^ c = 6 * (n / 2 ^ c) := by ring
    have d6 : 3 / 2 * (2 / (2 : ℝ) ^ c) = 3 * (1 / 2 ^ c) := by ring
    rw [d4] at hp
    rw [d6] at zb
    rw [d5]; linarith
  obtain ⟨p'', ep, rp, pe⟩ := rnd_mag hA (((mag_num (x := 6) (by norm_num) (by norm_num)).mul h.magn).div h.magC) (by norm_num) sb
  refine ⟨p'', by rw [er, fl_div _ _ va0.ne', ez, fl_add, ep], ?_⟩
  have s := (abs_add_le _ _).trans (add_le_add (le_refl |p' - p|) e2)
  rw [show p' - p + (z - sl * sl / v) = p' + z - (p + sl * sl / v) by ring] at s
  refine (tri pe s).trans (le_of_eq ?_)
  ring

/-- one term of the second sum -/
theorem acc_q (hA : IsBinary64 A) (h : FIn a b c n N κ S' S ρ' ρ y E' E) (t : Tiny n N κ) {i : ℕ} {yy sl' sl co' co va' v q' q : ℝ} (s'0 : 0 ≤ sl') (s'1 : sl' ≤ 1)
    (s0 : 0 ≤ sl) (s1 : sl ≤ 1) (hsl : |sl' - sl| ≤ 116 * (uu * κ * N) * N) (hy : |yy| ≤ 2 ^ a) (hco : |co| ≤ 2 ^ a)
    (hco' : |co' - co| ≤ 354 * (uu * κ * N) * N * 2 ^ a) (hv' : E' i ≤ va') (hv : 2 ^ c ≤ v) (hD : |va' - v| ≤ 100 * (uu * 2 ^ b) * N)
    (hq : |q| ≤ 3 * n * 2 ^ a / 2 ^ c) (hq' : |q' - q| ≤ n * 2 ^ a / 2 ^ c) :
    ∃ q'', A.add (.fin q') (A.div (A.mul (.fin sl') (A.sub (.fin yy) (.fin co'))) (.fin va')) = .fin q'' ∧
      |q'' - (q + sl * (yy - co) / v)| ≤ |q' - q| + (1042 * (uu * κ * N * N) + 12 * (uu * n)) * 2 ^ a / 2 ^ c := by
  have hC : (0 : ℝ) < 2 ^ c := by positivity
  have hY : (0 : ℝ) < 2 ^ a := by positivity
  have u0 := uu_pos
  have u1 := uu_small
  have N1 := h.N1
  have κ1 := h.κ1
  have n1 : (1 : ℝ) ≤ n := by exact_mod_cast h.n1
  have κN : 1 ≤ κ * N := by nlinarith
  have va0 : 0 < va' := lt_of_lt_of_le (h.E'0 i) hv'
  have low := h.low hv'
  have k1 : uu ≤ uu * κ * N * N := by
    have : 1 ≤ κ * N * N := by nlinarith
    calc uu = uu * 1 := (mul_one _).symm
      _ ≤ uu * (κ * N * N) := mul_le_mul_of_nonneg_left this u0.le
      _ = _ := by ring
  have k2 : uu * κ * N ≤ uu * κ * N * N := le_mul_of_one_le_right (by positivity) N1
  have k3 : uu * κ * N * N ≤ 1 / 8192 := by linarith [h.tiny1.1, h.tiny2 t]
  obtain ⟨ε, hε⟩ : ∃ ε, ε = uu * κ * N * N := ⟨_, rfl⟩
  have s1e : 116 * (uu * κ * N) * N = 116 * ε := by rw [hε]; ring
  have s2e : 354 * (uu * κ * N) * N * 2 ^ a = 354 * (ε * 2 ^ a) := by rw [hε]; ring
  have d1 : 100 * (uu * 2 ^ b) * N / 2 ^ c ≤ 100 * ε := by
    have : 100 * (uu * 2 ^ b) * N / 2 ^ c = 100 * (uu * κ * N) := by rw [h.hκ]; ring
    rw [this, hε]; linarith
  rw [s1e] at hsl
  rw [s2e] at hco'
  rw [← hε] at k1 k3 ⊢
  have ε0 : 0 < ε := by linarith
  have εY : 0 < ε * 2 ^ a := by positivity
  have uY : uu * 2 ^ a ≤ ε * 2 ^ a := mul_le_mul_of_nonneg_right k1 hY.le
  have uY0 : 0 < uu * 2 ^ a := by positivity
  have εY' : ε * 2 ^ a ≤ 1 / 8192 * 2 ^ a := mul_le_mul_of_nonneg_right k3 hY.le
  have uY' : uu * 2 ^ a ≤ 1 / 1000000 * 2 ^ a := mul_le_mul_of_nonneg_right u1 hY.le
  have mY (x : ℝ) (h1 : 1 ≤ x) (h2 : x ≤ 16) : Mag 304 (x * 2 ^ a) := ((mag_num h1 h2).mul h.magY).mono (by norm_num)
  -- the difference
  have co3 : |yy - co'| ≤ 3 * 2 ^ a := by
    have := abs_sub_abs_le_abs_sub co' co
    have := abs_sub yy co'
    linarith
  obtain ⟨d, ed, -, de⟩ := rnd_mag hA (mY 3 (by norm_num) (by norm_num)) (by norm_num) co3
  have de2 : |d - (yy - co)| ≤ 3 * (uu * 2 ^ a) + 354 * (ε * 2 ^ a) := by
    have : |(yy - co') - (yy - co)| ≤ 354 * (ε * 2 ^ a) := by
      rw [show (yy - co') - (yy - co) = -(co' - co) by ring, abs_neg]; exact hco'
    linarith [tri de this]
  have db : |d| ≤ 4 * 2 ^ a := by
    have := abs_sub_abs_le_abs_sub d (yy - co')
    linarith
  have sb : |sl' * d| ≤ 4 * 2 ^ a := by
    rw [abs_mul, abs_of_nonneg s'0]; exact (mul_le_of_le_one_left (abs_nonneg _) s'1).trans db
  obtain ⟨r, er, -, re⟩ := rnd_mag hA (mY 4 (by norm_num) (by norm_num)) (by norm_num) sb
  have re2 : |r - sl * (yy - co)| ≤ 825 * (ε * 2 ^ a) := by
    have := mul_err hsl de2 db (abs01 s0 s1)
    linarith [tri re this]
  have rb : |r| ≤ 5 * 2 ^ a := by
    have := abs_sub_abs_le_abs_sub r (sl' * d)
    linarith
  have xb : |sl * (yy - co)| ≤ 2 * 2 ^ a := by
    rw [abs_mul, abs_of_nonneg s0]
    refine (mul_le_of_le_one_left (abs_nonneg _) s1).trans ?_
    have := abs_sub yy co
    linarith
  have qb : |r / va'| ≤ 6 * 2 ^ a / 2 ^ c := by
    rw [abs_div, abs_of_pos va0]
    have h1 := dv_le (X := 5 * 2 ^ a) (by positivity) hC va0 low
    have h2 : |r| / va' ≤ 5 * 2 ^ a / va' := div_le_div_of_nonneg_right rb va0.le
    have h3 : (0 : ℝ) < 2 ^ a / 2 ^ c := by positivity
    have h4 : (6 : ℝ) * 2 ^ a / 2 ^ c = 6 * (2 ^ a / 2 ^ c) := by ring
    have h5 : (5 : ℝ) * 2 ^ a / 2 ^ c = 5 * (2 ^ a / 2 ^ c) := by ring
    rw [h5] at h1
    rw [h4]; linarith
  obtain ⟨z, ez, -, ze⟩ := rnd_mag hA ((mY 6 (by norm_num) (by norm_num)).div h.magC) (by norm_num) qb
  have e1 := tri ze (quo_err hC hv low re2 xb hD)
  have e2 : |z - sl * (yy - co) / v| ≤ 1042 * (ε * 2 ^ a) / 2 ^ c := by
    refine e1.trans ?_
    rw [mul_div_assoc', mul_div_assoc', ← add_div]
    refine div_le_div_of_nonneg_right ?_ hC.le
    have := mul_le_mul_of_nonneg_left d1 (by positivity : (0 : ℝ) ≤ 2 * 2 ^ a)
    linarith
  obtain ⟨K, hK⟩ : ∃ K : ℝ, K = 2 ^ a / 2 ^ c := ⟨_, rfl⟩
  have K0 : 0 < K := by rw [hK]; positivity
  have nK : K ≤ n * K := le_mul_of_one_le_left K0.le n1
  have zb : |z| ≤ 7 * K := by
    have h1 := abs_sub_abs_le_abs_sub z (r / va')
    have h4 : (6 : ℝ) * 2 ^ a / 2 ^ c = 6 * K := by rw [hK]; ring
    rw [h4] at qb ze
    nlinarith
  have sb : |q' + z| ≤ 12 * n * 2 ^ a / 2 ^ c := by
    have d2 := abs_sub_abs_le_abs_sub q' q
    have d3 := abs_add_le q' z
    have d4 : 3 * (n : ℝ) * 2 ^ a / 2 ^ c = 3 * (n * K) := by rw [hK]; ring
    have d5 : 12 * (n : ℝ) * 2 ^ a / 2 ^ c = 12 * (n * K) := by rw [hK]; ring
    have d6 : (n : ℝ) * 2 ^ a / 2 ^ c = n * K := by rw [hK]; ring
    rw [d4] at hq
    rw [d6] at hq'
    rw [d5]; linarith
  obtain ⟨q'', eq, -, qe⟩ := rnd_mag hA ((((mag_num (x := 12) (by norm_num) (by norm_num)).mul h.magn).mul h.magY).div h.magC) (by norm_num) sb
  refine ⟨q'', by rw [fl_sub, ed, fl_mul, er, fl_div _ _ va0.ne', ez, fl_add, eq], ?_⟩
  have s := (abs_add_le _ _).trans (add_le_add (le_refl |q' - q|) e2)
  rw [show q' - q + (z - sl * (yy - co) / v) = q' + z - (q + sl * (yy - co) / v) by ring] at s
  refine (tri qe s).trans (le_of_eq ?_)
  ring

end Verif.Theory
