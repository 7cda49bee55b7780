import Verif.Theory.FLog
import Verif.Theory.FPredEval

/-!
Errors of one step of the coefficients in `KalmanFilter1::Predict`, and of one term of its sums.
-/

namespace Verif.Theory

open Verif.Model Verif.Spec

variable {A : Arith}

/-- of magnitude between `2^-k` and `2^k` -/
def Mag (k : ℕ) (x : ℝ) : Prop := 2 ^ (-(k : ℤ)) ≤ x ∧ x ≤ 2 ^ (k : ℤ)

theorem Mag.pos {k : ℕ} {x : ℝ} (h : Mag k x) : 0 < x := lt_of_lt_of_le (by positivity) h.1

theorem Mag.mul {j k : ℕ} {x y : ℝ} (h : Mag j x) (g : Mag k y) : Mag (j + k) (x * y) := by
  have hp := h.pos
  have gp := g.pos
  constructor
  · rw [← pw_mul (-(j : ℤ)) (-(k : ℤ)) _ (by push_cast; ring)]
    exact mul_le_mul h.1 g.1 (by positivity) hp.le
  · rw [← pw_mul (j : ℤ) (k : ℤ) _ (by push_cast; ring)]
    exact mul_le_mul h.2 g.2 gp.le (by positivity)

theorem Mag.inv {k : ℕ} {x : ℝ} (h : Mag k x) : Mag k x⁻¹ := by
  constructor
  · rw [zpow_neg]; exact inv_anti₀ h.pos h.2
  · rw [← inv_inv ((2 : ℝ) ^ (k : ℤ)), ← zpow_neg]; exact inv_anti₀ (by positivity) h.1

theorem Mag.div {j k : ℕ} {x y : ℝ} (h : Mag j x) (g : Mag k y) : Mag (j + k) (x / y) := by
  rw [div_eq_mul_inv]; exact h.mul g.inv

theorem Mag.mono {j k : ℕ} {x : ℝ} (h : Mag j x) (hk : j ≤ k) : Mag k x :=
  ⟨(pw_le _ _ (by omega)).trans h.1, h.2.trans (pw_le _ _ (by omega))⟩

theorem mag_num {x : ℝ} (h : 1 ≤ x) (h' : x ≤ 16) : Mag 4 x := by
  constructor
  · refine le_trans ?_ h; norm_num
  · refine h'.trans ?_; norm_num

/-- rounding a number of known size -/
theorem rnd_mag (hA : IsBinary64 A) {x X : ℝ} {k : ℕ} (hX : Mag k X) (hk : k ≤ 960) (hx : |x| ≤ X) :
    ∃ r, A.rnd x = .fin r ∧ Rounds x r ∧ |r - x| ≤ uu * X := by
  have F : F64 (2 ^ (960 : ℤ)) := f64_zpow _ (by norm_num) (by norm_num)
  have h2 : X ≤ 2 ^ (960 : ℤ) := hX.2.trans (pw_le _ _ (by omega))
  obtain ⟨h3, h4⟩ := abs_le.mp (hx.trans h2)
  obtain ⟨r, e, R, -, -⟩ := rnd_between hA (f64_neg F) F h3 h4
  exact ⟨r, e, R, rounds_err R hx ((pw_le _ _ (by omega)).trans hX.1) (h2.trans (pw_le _ _ (by norm_num)))⟩

/-- the variance, slope and constant of the next observation -/
theorem coef_step (hA : IsBinary64 A) {a b : ℤ} (ha1 : -300 ≤ a) (ha2 : a ≤ 300) (hb1 : -300 ≤ b) (hb2 : b ≤ 300)
    {ρ' v' E' S' ρ v E S P γ sl' sl co' co y : ℝ} (Fρ : F64 ρ') (hρ'0 : 0 ≤ ρ') (hρ'1 : ρ' ≤ 1)
    (Fv : F64 v') (hv'0 : 0 < v') (hE'0 : 0 ≤ E') (hEv : E' ≤ v') (hv' : v' ≤ 4 * 2 ^ b) (hS'0 : 0 ≤ S') (hS'1 : S' ≤ 2 ^ b)
    (hρ0 : 0 ≤ ρ) (hρ1 : ρ ≤ 1) (hρ : |ρ' - ρ| ≤ 3 * uu) (hS0 : 0 ≤ S) (hS1 : S ≤ 2 ^ b / 2) (hS : |S' - S| ≤ 3 * (uu * 2 ^ b))
    (hP0 : 0 ≤ P) (hP1 : P ≤ 2 ^ b / 2) (hE0 : 0 < E) (hE1 : E ≤ 2 ^ b / 2) (hE : |E' - E| ≤ 6 * uu * E) (hv : v = P + E)
    (hγ : uu + (7 * (uu * 2 ^ b) + |v' - v|) / v' ≤ γ)
    (hsl'0 : 0 ≤ sl') (hsl'1 : sl' ≤ 1) (hco' : |co'| ≤ 2 * 2 ^ a) (hy : |y| ≤ 2 ^ a) :
    ∃ sl'' co'' V, A.mul (.fin sl') (A.mul (.fin ρ') (A.sub (.fin 1) (A.div (A.sub (.fin v') (.fin E')) (.fin v')))) = .fin sl'' ∧
      A.add (A.mul (A.mul (.fin co') (.fin ρ')) (A.sub (.fin 1) (A.div (A.sub (.fin v') (.fin E')) (.fin v'))))
        (A.mul (A.mul (.fin ρ') (A.div (A.sub (.fin v') (.fin E')) (.fin v'))) (.fin y)) = .fin co'' ∧
      A.add (A.mul (.fin S') (A.sub (.fin 1) (A.mul (.fin ρ') (.fin ρ'))))
        (A.mul (A.mul (A.mul (.fin ρ') (.fin ρ')) (A.sub (.fin v') (.fin E'))) (A.sub (.fin 1) (A.div (A.sub (.fin v') (.fin E')) (.fin v')))) = .fin V ∧
      0 ≤ sl'' ∧ sl'' ≤ 1 ∧ 0 ≤ V ∧ V ≤ 3 * 2 ^ b ∧
      |V - (S * (1 - ρ * ρ) + ρ * ρ * P * (1 - P / v))| ≤ ρ * ρ * |v' - v| + 92 * (uu * 2 ^ b) ∧
      |sl'' - sl * (ρ * (1 - P / v))| ≤ ρ * |sl' - sl| + (γ + 6 * uu) ∧
      |co'' - (co * ρ * (1 - P / v) + ρ * (P / v) * y)| ≤ ρ * |co' - co| + 2 ^ a * (3 * γ + 24 * uu) := by
  have u0 := uu_pos
  have u1 := uu_small
  have hY : (0 : ℝ) < 2 ^ a := by positivity
  have hB : (0 : ℝ) < 2 ^ b := by positivity
  have hv0 : 0 < v := by linarith
  obtain ⟨P', g, G, eP, eg⟩ := stepG hA Fv hv'0 hE'0 hEv
  obtain ⟨_, V, -, eV, V0, V1, VE, -⟩ := step_err hA (m := 0) (m' := 0) (y := 0) (y' := 0) ha1 ha2 hb1 hb2 Fρ hρ'0 hρ'1 f64_zero (by simp; positivity)
    (by simp; positivity) Fv hv'0 hE'0 hEv hv' hS'0 hS'1 hρ0 hρ1 hρ hS0 hS1 hS hP0 hP1 hE0 hE1 hE hv (by simp; positivity)
  have f4 : |P' - (v' - E')| ≤ 4 * (uu * 2 ^ b) :=
    (rz (k := 4) (a := b) G.rP (by rw [abs_of_nonneg (by linarith)]; linarith) (by norm_num) (by norm_num) (by omega) (by omega)).trans_eq (by ring)
  have hG := (gain_err u0 hB hP0 hE0 hE1 hv hE hv'0 f4 (rz1 G.rg (div_nonneg G.P0 hv'0.le) ((div_le_one hv'0).2 G.Pv))).trans hγ
  obtain ⟨g0, g1⟩ := And.intro G.g0 G.g1
  obtain ⟨k, ek, rk, k0, k1⟩ := rnd_sub hA (a := 1) (b := g) f64_zero f64_one (by linarith) (by linarith)
  have hk : |k - (1 - P / v)| ≤ γ + uu := by
    have h1 := rz1 rk (by linarith) (by linarith)
    have h2 : |(1 - g) - (1 - P / v)| ≤ γ := by rw [show (1 - g) - (1 - P / v) = -(g - P / v) by ring, abs_neg]; exact hG
    linarith [tri h1 h2]
  have q0 : 0 ≤ P / v := div_nonneg hP0 hv0.le
  have q1 : P / v ≤ 1 := (div_le_one hv0).2 (by linarith)
  obtain ⟨Q, hQ⟩ : ∃ Q, Q = P / v := ⟨_, rfl⟩
  rw [← hQ] at hG hk q0 q1 VE ⊢
  have γ0 : 0 ≤ γ := (abs_nonneg _).trans hG
  obtain ⟨h, eh, rh, h0, h1⟩ := rnd_mul hA (a := ρ') (b := k) f64_zero f64_one (by positivity) (mul_le_one₀ hρ'1 k0 k1)
  have hh : |h - ρ * (1 - Q)| ≤ γ + 5 * uu := by
    have e1 := rz1 rh (by positivity) (mul_le_one₀ hρ'1 k0 k1)
    have e2 := mul_err hρ hk (abs01 k0 k1) (abs01 hρ0 hρ1)
    linarith [tri e1 e2]
  obtain ⟨sl'', es, rs, s0, s1⟩ := rnd_mul hA (a := sl') (b := h) f64_zero f64_one (by positivity) (mul_le_one₀ hsl'1 h0 h1)
  have H0 : 0 ≤ ρ * (1 - Q) := mul_nonneg hρ0 (by linarith)
  have H1 : ρ * (1 - Q) ≤ ρ := mul_le_of_le_one_right hρ0 (by linarith)
  have Es : |sl'' - sl * (ρ * (1 - Q))| ≤ ρ * |sl' - sl| + (γ + 6 * uu) := by
    have e1 := rz1 rs (by positivity) (mul_le_one₀ hsl'1 h0 h1)
    have e2 : |sl' * h - sl * (ρ * (1 - Q))| ≤ ρ * |sl' - sl| + (γ + 5 * uu) := by
      have := mul_err (a := h) (a' := ρ * (1 - Q)) (b := sl') (b' := sl) hh le_rfl (abs01 hsl'0 hsl'1) (show |ρ * (1 - Q)| ≤ ρ by rw [abs_of_nonneg H0]; exact H1)
      rw [mul_comm h sl', mul_comm (ρ * (1 - Q)) sl] at this
      linarith
    linarith [tri e1 e2]
  -- the constant
  have my (z : ℝ) (h1 : 1 ≤ z) (h2 : z ≤ 16) : Mag 304 (z * 2 ^ a) := by
    have : Mag 300 ((2 : ℝ) ^ a) := ⟨pw_le _ _ (by push_cast; omega), pw_le _ _ (by push_cast; omega)⟩
    exact ((mag_num h1 h2).mul this).mono (by norm_num)
  have a1 : |co' * ρ'| ≤ 2 * 2 ^ a := by
    rw [abs_mul, abs_of_nonneg hρ'0]; exact (mul_le_of_le_one_right (abs_nonneg _) hρ'1).trans hco'
  obtain ⟨c1, ec1, rc1, c1e⟩ := rnd_mag hA (my 2 (by norm_num) (by norm_num)) (by norm_num) a1
  have b1 : |c1| ≤ 3 * 2 ^ a := by
    have := abs_sub_abs_le_abs_sub c1 (co' * ρ')
    nlinarith
  have a2 : |c1 * k| ≤ 3 * 2 ^ a := by
    rw [abs_mul, abs_of_nonneg k0]; exact (mul_le_of_le_one_right (abs_nonneg _) k1).trans b1
  obtain ⟨c2, ec2, rc2, c2e⟩ := rnd_mag hA (my 3 (by norm_num) (by norm_num)) (by norm_num) a2
  obtain ⟨t1, et1, rt1, t10, t11⟩ := rnd_mul hA (a := ρ') (b := g) f64_zero f64_one (by positivity) (mul_le_one₀ hρ'1 g0 g1)
  have t1e := rz1 rt1 (by positivity) (mul_le_one₀ hρ'1 g0 g1)
  have a3 : |t1 * y| ≤ 1 * 2 ^ a := by
    rw [abs_mul, abs_of_nonneg t10, one_mul]; exact (mul_le_of_le_one_left (abs_nonneg _) t11).trans hy
  obtain ⟨t2, et2, rt2, t2e⟩ := rnd_mag hA (my 1 (by norm_num) (by norm_num)) (by norm_num) a3
  have uY : 0 < uu * 2 ^ a := mul_pos u0 hY
  have uY' : uu * 2 ^ a ≤ 1 / 1000000 * 2 ^ a := mul_le_mul_of_nonneg_right u1 hY.le
  have a4 : |c2 + t2| ≤ 5 * 2 ^ a := by
    have d1 := abs_sub_abs_le_abs_sub c2 (c1 * k)
    have d2 := abs_sub_abs_le_abs_sub t2 (t1 * y)
    have d3 := abs_add_le c2 t2
    linarith
  obtain ⟨co'', ec, rc, ce⟩ := rnd_mag hA (my 5 (by norm_num) (by norm_num)) (by norm_num) a4
  have Ec : |co'' - (co * ρ * (1 - Q) + ρ * Q * y)| ≤ ρ * |co' - co| + 2 ^ a * (3 * γ + 24 * uu) := by
    have e1 : |c1 * k - co' * ρ' * k| ≤ uu * (2 * 2 ^ a) := by
      rw [← sub_mul, abs_mul, abs_of_nonneg k0]
      exact (mul_le_of_le_one_right (abs_nonneg _) k1).trans c1e
    have e2 : |ρ' * k - ρ * (1 - Q)| ≤ γ + 4 * uu := by
      have := mul_err hρ hk (abs01 k0 k1) (abs01 hρ0 hρ1)
      linarith
    have e3 : |co' * ρ' * k - co * ρ * (1 - Q)| ≤ ρ * |co' - co| + (γ + 4 * uu) * (2 * 2 ^ a) := by
      have := mul_err (a := ρ' * k) (a' := ρ * (1 - Q)) (b := co') (b' := co) e2 le_rfl hco' (show |ρ * (1 - Q)| ≤ ρ by rw [abs_of_nonneg H0]; exact H1)
      rw [show co' * ρ' * k - co * ρ * (1 - Q) = ρ' * k * co' - ρ * (1 - Q) * co by ring]
      linarith
    have e4 : |t1 * y - ρ' * g * y| ≤ uu * 2 ^ a := by
      rw [← sub_mul, abs_mul]
      exact mul_le_mul t1e hy (abs_nonneg _) u0.le
    have e5 : |ρ' * g * y - ρ * Q * y| ≤ (γ + 3 * uu) * 2 ^ a := by
      have := mul_err hρ hG (abs01 g0 g1) (abs01 hρ0 hρ1)
      rw [← sub_mul, abs_mul]
      exact mul_le_mul (by linarith) hy (abs_nonneg _) (by linarith)
    have s1 := tri (tri c2e e1) e3
    have s2 := tri (tri t2e e4) e5
    have s3 := (abs_add_le _ _).trans (add_le_add s1 s2)
    rw [show c2 - co * ρ * (1 - Q) + (t2 - ρ * Q * y) = c2 + t2 - (co * ρ * (1 - Q) + ρ * Q * y) by ring] at s3
    have s4 := tri ce s3
    have γY : 0 ≤ γ * 2 ^ a := mul_nonneg γ0 hY.le
    linarith
  refine ⟨sl'', co'', V, ?_, ?_, eV, s0, s1, V0, V1, VE, Es, Ec⟩
  · rw [eP, eg, ek, eh, es]
  · rw [eP, eg, ek, fl_mul co', ec1, fl_mul c1, ec2, et1, fl_mul t1, et2, fl_add, ec]

end Verif.Theory
