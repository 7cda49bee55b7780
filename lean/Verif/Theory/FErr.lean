import Verif.Theory.FKF1
import Mathlib.Analysis.SpecialFunctions.Exp
import Mathlib.Analysis.SpecialFunctions.Log.Basic
import Mathlib.Algebra.Order.Archimedean.Basic
import Mathlib.Algebra.Order.Floor.Ring

/-!
Rounding errors: the error of one rounding, and how errors travel through one update of the CAR(1) filter.
-/

namespace Verif.Theory

open Verif.Model Verif.Spec

/-- unit roundoff of a faithful rounding -/
noncomputable def uu : ℝ := 2 ^ (-52 : ℤ)

theorem uu_pos : 0 < uu := by unfold uu; positivity
theorem uu_small : uu ≤ 1 / 1000000 := by unfold uu; norm_num

theorem grid_err {x r : ℝ} (h : Rounds x r) {q : ℤ} (q1 : -1074 ≤ q) (q2 : q ≤ 960) (h0 : 0 ≤ x) (hx : x < 2 ^ (53 : ℤ) * 2 ^ q) :
    |r - x| ≤ 2 ^ q := by
  have hq : (0 : ℝ) < 2 ^ q := by positivity
  obtain ⟨m, hm⟩ : ∃ m : ℤ, m = ⌊x / 2 ^ q⌋ := ⟨_, rfl⟩
  have m0 : 0 ≤ m := by rw [hm]; exact Int.floor_nonneg.mpr (by positivity)
  have l1 : (m : ℝ) * 2 ^ q ≤ x := by rw [← le_div_iff₀ hq, hm]; exact Int.floor_le _
  have l2 : x ≤ (m + 1 : ℝ) * 2 ^ q := by rw [← div_le_iff₀ hq, hm]; exact (Int.lt_floor_add_one _).le
  have mlt : m < 2 ^ 53 := by
    rw [hm, Int.floor_lt, div_lt_iff₀ hq]
    refine hx.trans_eq ?_
    norm_num
  have f1 : F64 (m * 2 ^ q) := f64_mul_zpow m q (by rw [abs_of_nonneg m0]; exact mlt) q1 (by omega)
  have f2 : F64 ((m + 1 : ℝ) * 2 ^ q) := by
    rcases lt_or_ge (m + 1) (2 ^ 53) with h | h
    · have := f64_mul_zpow (m + 1) q (by rw [abs_of_nonneg (by omega)]; exact h) q1 (by omega)
      push_cast at this; exact this
    · have e : m + 1 = 2 ^ 53 := by omega
      have e' : (m + 1 : ℝ) = 2 ^ (53 : ℤ) := by exact_mod_cast congrArg (Int.cast : ℤ → ℝ) e
      have := f64_nat_zpow (2 ^ 52) (q + 1) (by norm_num) (by omega) (by omega)
      rw [e']
      convert this using 1
      rw [zpow_add_one₀ (by norm_num)]; push_cast; norm_num; ring
  have r1 := h.ge f1 l1
  have r2 := h.le f2 l2
  rw [abs_le]
  constructor <;> nlinarith

/-- relative error in the range of normal numbers -/
theorem rounds_normal {x r : ℝ} (h : Rounds x r) (h1 : 2 ^ (-1021 : ℤ) ≤ x) (h2 : x ≤ 2 ^ (1001 : ℤ)) : |r - x| ≤ uu * x := by
  have xp : 0 < x := lt_of_lt_of_le (by positivity) h1
  obtain ⟨e, e1, e2⟩ := exists_mem_Ico_zpow xp (by norm_num : (1 : ℝ) < 2)
  have g1 : -1022 ≤ e := by
    have : (2 : ℝ) ^ (-1021 : ℤ) < 2 ^ (e + 1) := h1.trans_lt e2
    have := (zpow_lt_zpow_iff_right₀ (by norm_num : (1 : ℝ) < 2)).mp this
    omega
  have g2 : e ≤ 1001 := by
    have : (2 : ℝ) ^ e ≤ 2 ^ (1001 : ℤ) := e1.trans h2
    exact (zpow_le_zpow_iff_right₀ (by norm_num : (1 : ℝ) < 2)).mp this
  refine (grid_err h (q := e - 52) (by omega) (by omega) xp.le ?_).trans ?_
  · rw [← zpow_add₀ (by norm_num), show (53 : ℤ) + (e - 52) = e + 1 by ring]
    exact e2
  · rw [show (2 : ℝ) ^ (e - 52) = uu * 2 ^ e by unfold uu; rw [← zpow_add₀ (by norm_num)]; congr 1; ring]
    exact mul_le_mul_of_nonneg_left e1 uu_pos.le

theorem rounds_pos {x r X : ℝ} (h : Rounds x r) (h0 : 0 ≤ x) (hx : x ≤ X) (h1 : 2 ^ (-1000 : ℤ) ≤ X) (h2 : x ≤ 2 ^ (1001 : ℤ)) :
    |r - x| ≤ uu * X := by
  have hX : 0 ≤ X := h0.trans hx
  rcases lt_or_ge x (2 ^ (-1021 : ℤ)) with hs | hs
  · refine (grid_err h (q := -1074) (by norm_num) (by norm_num) h0 (hs.trans_eq ?_)).trans ?_
    · rw [← zpow_add₀ (by norm_num)]; norm_num
    · calc (2 : ℝ) ^ (-1074 : ℤ) ≤ 2 ^ (-1052 : ℤ) := zpow_le_zpow_right₀ (by norm_num) (by norm_num)
        _ = uu * 2 ^ (-1000 : ℤ) := by unfold uu; rw [← zpow_add₀ (by norm_num)]; norm_num
        _ ≤ uu * X := mul_le_mul_of_nonneg_left h1 uu_pos.le
  · exact (rounds_normal h hs h2).trans (mul_le_mul_of_nonneg_left hx uu_pos.le)

/-- error of a rounding, relative to any bound of the exact result -/
theorem rounds_err {x r X : ℝ} (h : Rounds x r) (hx : |x| ≤ X) (h1 : 2 ^ (-1000 : ℤ) ≤ X) (h2 : X ≤ 2 ^ (1001 : ℤ)) :
    |r - x| ≤ uu * X := by
  obtain ⟨a, b⟩ := abs_le.mp hx
  rcases le_total 0 x with h0 | h0
  · exact rounds_pos h h0 b h1 (b.trans h2)
  · have := rounds_pos h.neg (neg_nonneg.mpr h0) (by linarith) h1 (le_trans (by linarith) h2)
    rwa [neg_sub_neg, abs_sub_comm] at this

theorem rounds_rel {x r : ℝ} (h : Rounds x r) (h1 : 2 ^ (-1000 : ℤ) ≤ |x|) (h2 : |x| ≤ 2 ^ (1001 : ℤ)) : |r - x| ≤ uu * |x| :=
  rounds_err h le_rfl h1 h2

/-! ### products -/

theorem mul_err {a a' b b' α β p q : ℝ} (h1 : |a - a'| ≤ α) (h2 : |b - b'| ≤ β) (hb : |b| ≤ q) (ha : |a'| ≤ p) :
    |a * b - a' * b'| ≤ α * q + p * β := by
  have e : a * b - a' * b' = (a - a') * b + a' * (b - b') := by ring
  rw [e]
  refine (abs_add_le _ _).trans (add_le_add ?_ ?_)
  · rw [abs_mul]; exact mul_le_mul h1 hb (abs_nonneg _) ((abs_nonneg _).trans h1)
  · rw [abs_mul]; exact mul_le_mul ha h2 (abs_nonneg _) ((abs_nonneg _).trans ha)

theorem tri {a b c α β : ℝ} (h1 : |a - b| ≤ α) (h2 : |b - c| ≤ β) : |a - c| ≤ α + β := by
  refine (abs_sub_le a b c).trans (add_le_add h1 h2)

theorem abs01 {x : ℝ} (h0 : 0 ≤ x) (h1 : x ≤ 1) : |x| ≤ 1 := by rw [abs_of_nonneg h0]; exact h1

variable {u B : ℝ}

/-- the filtered variance `P E / v = E - E² / v` -/
theorem ratio_err (u0 : 0 < u) (u1 : u ≤ 1 / 1000000) (hB : 0 < B) {P E v v' E' P' : ℝ} (hP0 : 0 ≤ P) (hP : P ≤ B / 2) (hE0 : 0 < E)
    (hE : E ≤ B / 2) (hv : v = P + E) (hE' : |E' - E| ≤ 6 * u * E) (hv'0 : 0 < v') (hv' : v' ≤ 4 * B) (hEv : E' ≤ v')
    (hP' : |P' - (v' - E')| ≤ 4 * (u * B)) (hP'0 : 0 ≤ P') (hP'v : P' ≤ v') :
    |P' * (1 - P' / v') - P * (1 - P / v)| ≤ |v' - v| + 36 * (u * B) := by
  have hv0 : 0 < v := by linarith
  have hvB : v ≤ B := by linarith
  have uB : 0 < u * B := by positivity
  have uE : 6 * u * E ≤ 3 * (u * B) := by nlinarith
  obtain ⟨e1, e2⟩ := abs_le.mp hE'
  have hE'0 : 0 ≤ E' := by nlinarith
  have hEv' : E ≤ (1 + 7 * u) * v' := by nlinarith
  have hD : |v' - v| ≤ 4 * B := abs_le.mpr ⟨by linarith, by linarith⟩
  have k1 : |P' * (1 - P' / v') - (E' - E' ^ 2 / v')| ≤ 4 * (u * B) := by
    have e : P' * (1 - P' / v') - (E' - E' ^ 2 / v') = (P' - (v' - E')) * (1 - (P' + (v' - E')) / v') := by
      field_simp; ring
    rw [e, abs_mul]
    have : |1 - (P' + (v' - E')) / v'| ≤ 1 := by
      have a0 : 0 ≤ (P' + (v' - E')) / v' := div_nonneg (by linarith) hv'0.le
      have a1 : (P' + (v' - E')) / v' ≤ 2 := by rw [div_le_iff₀ hv'0]; linarith
      exact abs_le.mpr ⟨by linarith, by linarith⟩
    calc _ ≤ 4 * (u * B) * 1 := mul_le_mul hP' this (abs_nonneg _) (by positivity)
      _ = _ := by ring
  have k2 : |(E' - E' ^ 2 / v') - (E - E ^ 2 / v')| ≤ 4 * (u * B) := by
    have e : (E' - E' ^ 2 / v') - (E - E ^ 2 / v') = (E' - E) * (1 - (E' + E) / v') := by field_simp; ring
    rw [e, abs_mul]
    have : |1 - (E' + E) / v'| ≤ 1 + 7 * u := by
      have a0 : 0 ≤ (E' + E) / v' := div_nonneg (by linarith) hv'0.le
      have a1 : (E' + E) / v' ≤ 2 + 7 * u := by rw [div_le_iff₀ hv'0]; nlinarith
      exact abs_le.mpr ⟨by linarith, by linarith⟩
    calc _ ≤ 3 * (u * B) * (1 + 7 * u) := mul_le_mul (hE'.trans uE) this (abs_nonneg _) (by positivity)
      _ ≤ _ := by nlinarith
  have k3 : |(E - E ^ 2 / v') - (E - E ^ 2 / v)| ≤ |v' - v| + 28 * (u * B) := by
    have e : (E - E ^ 2 / v') - (E - E ^ 2 / v) = (E / v) * (E / v') * (v' - v) := by field_simp; ring
    have c1 : E / v ≤ 1 := by rw [div_le_one hv0]; linarith
    have c2 : E / v' ≤ 1 + 7 * u := by rw [div_le_iff₀ hv'0]; exact hEv'
    have c0 : 0 ≤ E / v := by positivity
    have c3 : 0 ≤ E / v' := by positivity
    rw [e, abs_mul, abs_of_nonneg (by positivity : 0 ≤ E / v * (E / v'))]
    have : E / v * (E / v') ≤ 1 + 7 * u := by nlinarith
    calc _ ≤ (1 + 7 * u) * |v' - v| := mul_le_mul_of_nonneg_right this (abs_nonneg _)
      _ ≤ _ := by nlinarith [abs_nonneg (v' - v)]
  have e : P * (1 - P / v) = E - E ^ 2 / v := by rw [hv] at *; field_simp; ring
  rw [e]
  have := tri (tri k1 k2) k3
  linarith

/-- the predicted variance -/
theorem var_err (u0 : 0 < u) (u1 : u ≤ 1 / 1000000) (hB : 0 < B) {S P E v v' E' S' P' ρ ρ' g k rr c qc rp w V : ℝ}
    (hS0 : 0 ≤ S) (hS : S ≤ B / 2) (hS' : |S' - S| ≤ 3 * (u * B)) (hP0 : 0 ≤ P) (hP : P ≤ B / 2) (hE0 : 0 < E)
    (hE : E ≤ B / 2) (hv : v = P + E) (hE' : |E' - E| ≤ 6 * u * E) (hv'0 : 0 < v') (hv' : v' ≤ 4 * B) (hEv : E' ≤ v')
    (hρ0 : 0 ≤ ρ) (hρ1 : ρ ≤ 1) (hρ'0 : 0 ≤ ρ') (hρ'1 : ρ' ≤ 1) (hρ : |ρ' - ρ| ≤ 3 * u)
    (hP' : |P' - (v' - E')| ≤ 4 * (u * B)) (hP'0 : 0 ≤ P') (hP'v : P' ≤ v') (hg : |g - P' / v'| ≤ u)
    (hk : |k - (1 - g)| ≤ u) (hk0 : 0 ≤ k) (hk1 : k ≤ 1) (hrr : |rr - ρ' * ρ'| ≤ u) (hc : |c - (1 - rr)| ≤ u) (hc0 : 0 ≤ c) (hc1 : c ≤ 1)
    (hqc : |qc - S' * c| ≤ u * B) (hrp : |rp - rr * P'| ≤ 4 * (u * B)) (hw : |w - rp * k| ≤ 4 * (u * B))
    (hV : |V - (qc + w)| ≤ 4 * (u * B)) :
    |V - (S * (1 - ρ * ρ) + ρ * ρ * P * (1 - P / v))| ≤ ρ * ρ * |v' - v| + 92 * (u * B) := by
  have uB : 0 < u * B := by positivity
  have r1 := ratio_err u0 u1 hB hP0 hP hE0 hE hv hE' hv'0 hv' hEv hP' hP'0 hP'v
  have ρρ : |ρ' * ρ' - ρ * ρ| ≤ 6 * u := by
    refine (mul_err hρ hρ (abs01 hρ'0 hρ'1) (abs01 hρ0 hρ1)).trans_eq (by ring)
  have rrρ : |rr - ρ * ρ| ≤ 7 * u := (tri hrr ρρ).trans_eq (by ring)
  have cc : |c - (1 - ρ * ρ)| ≤ 8 * u := by
    have : |(1 - rr) - (1 - ρ * ρ)| ≤ 7 * u := by rw [show (1 - rr) - (1 - ρ * ρ) = -(rr - ρ * ρ) by ring, abs_neg]; exact rrρ
    exact (tri hc this).trans_eq (by ring)
  have qcS : |qc - S * (1 - ρ * ρ)| ≤ 8 * (u * B) := by
    have := mul_err hS' cc (abs01 hc0 hc1) (show |S| ≤ B / 2 by rw [abs_of_nonneg hS0]; exact hS)
    refine (tri hqc this).trans ?_
    linarith
  have kk : |k - (1 - P' / v')| ≤ 2 * u := by
    have : |(1 - g) - (1 - P' / v')| ≤ u := by rw [show (1 - g) - (1 - P' / v') = -(g - P' / v') by ring, abs_neg]; exact hg
    exact (tri hk this).trans_eq (by ring)
  have aP : |P'| ≤ 4 * B := by rw [abs_of_nonneg hP'0]; linarith
  have Pk : |P' * k - P * (1 - P / v)| ≤ |v' - v| + 44 * (u * B) := by
    have := mul_err (show |P' - P'| ≤ 0 by simp) kk (abs01 hk0 hk1) aP
    have := tri this r1
    linarith
  have aPk : |P' * k| ≤ 4 * B := by
    rw [abs_mul]
    calc _ ≤ 4 * B * 1 := mul_le_mul aP (abs01 hk0 hk1) (abs_nonneg _) (by positivity)
      _ = _ := by ring
  have ρ2 : ρ * ρ ≤ 1 := by nlinarith
  have ρ20 : 0 ≤ ρ * ρ := by positivity
  have main : |rr * (P' * k) - ρ * ρ * (P * (1 - P / v))| ≤ ρ * ρ * |v' - v| + 72 * (u * B) := by
    have := mul_err rrρ Pk aPk (show |ρ * ρ| ≤ ρ * ρ by rw [abs_of_nonneg ρ20])
    nlinarith [abs_nonneg (v' - v)]
  have rpk : |rp * k - rr * (P' * k)| ≤ 4 * (u * B) := by
    rw [show rp * k - rr * (P' * k) = (rp - rr * P') * k by ring, abs_mul]
    calc _ ≤ 4 * (u * B) * 1 := mul_le_mul hrp (abs01 hk0 hk1) (abs_nonneg _) (by positivity)
      _ = _ := by ring
  have ww := tri (tri hw rpk) main
  rw [show ρ * ρ * P * (1 - P / v) = ρ * ρ * (P * (1 - P / v)) by ring]
  have sum : |(qc + w) - (S * (1 - ρ * ρ) + ρ * ρ * (P * (1 - P / v)))| ≤
      8 * (u * B) + (4 * (u * B) + 4 * (u * B) + (ρ * ρ * |v' - v| + 72 * (u * B))) := by
    rw [show (qc + w) - (S * (1 - ρ * ρ) + ρ * ρ * (P * (1 - P / v))) = (qc - S * (1 - ρ * ρ)) + (w - ρ * ρ * (P * (1 - P / v))) by ring]
    exact (abs_add_le _ _).trans (add_le_add qcS ww)
  have := tri hV sum
  linarith

/-- the gain -/
theorem gain_err (u0 : 0 < u) (hB : 0 < B) {P E v v' E' P' g : ℝ} (hP0 : 0 ≤ P) (hE0 : 0 < E)
    (hE : E ≤ B / 2) (hv : v = P + E) (hE' : |E' - E| ≤ 6 * u * E) (hv'0 : 0 < v')
    (hP' : |P' - (v' - E')| ≤ 4 * (u * B)) (hg : |g - P' / v'| ≤ u) :
    |g - P / v| ≤ u + (7 * (u * B) + |v' - v|) / v' := by
  have hv0 : 0 < v := by linarith
  have e : P' / v' - P / v = ((P' - (v' - E')) - (E' - E) + E / v * (v' - v)) / v' := by
    rw [hv] at *; field_simp; ring
  have c1 : E / v ≤ 1 := by rw [div_le_one hv0]; linarith
  have c0 : 0 ≤ E / v := by positivity
  have uE : 6 * u * E ≤ 3 * (u * B) := by nlinarith
  have h2 : |P' / v' - P / v| ≤ (7 * (u * B) + |v' - v|) / v' := by
    rw [e, abs_div, abs_of_pos hv'0]
    refine div_le_div_of_nonneg_right ?_ hv'0.le
    refine (abs_add_le _ _).trans (add_le_add ((abs_sub _ _).trans ?_) ?_)
    · linarith
    · rw [abs_mul, abs_of_nonneg c0]
      exact mul_le_of_le_one_left (abs_nonneg _) c1
  exact tri hg h2

/-- the predicted mean; `y` is the centred value, at most `2 Y` -/
theorem mean_err {Y G : ℝ} (u0 : 0 < u) (hY : 0 < Y) {ρ ρ' m m' y y' g g' m1 d h t M : ℝ}
    (hρ0 : 0 ≤ ρ) (hρ1 : ρ ≤ 1) (hρ'0 : 0 ≤ ρ') (hρ'1 : ρ' ≤ 1) (hρ : |ρ' - ρ| ≤ 3 * u)
    (hg0 : 0 ≤ g) (hg1 : g ≤ 1) (hg'0 : 0 ≤ g') (hg'1 : g' ≤ 1) (hG : |g' - g| ≤ G)
    (hm' : |m'| ≤ 4 * Y) (hy' : |y'| ≤ 2 * Y) (hy : |y' - y| ≤ 2 * (u * Y))
    (hm1 : |m1 - ρ' * m'| ≤ 4 * (u * Y)) (hd : |d - (y' - m')| ≤ 6 * (u * Y)) (hd6 : |d| ≤ 6 * Y) (hh : |h - ρ' * g'| ≤ u)
    (ht : |t - h * d| ≤ 6 * (u * Y)) (hM : |M - (m1 + t)| ≤ 10 * (u * Y)) :
    |M - ρ * (m + g * (y - m))| ≤ ρ * |m' - m| + 64 * (u * Y) + 6 * Y * G := by
  have uY : 0 < u * Y := by positivity
  have ym : |y' - m'| ≤ 6 * Y := (abs_sub _ _).trans (by linarith)
  have hgd : |h * d - ρ' * g' * (y' - m')| ≤ 12 * (u * Y) := by
    have aρg : |ρ' * g'| ≤ 1 := abs01 (by positivity) (by nlinarith)
    exact (mul_err hh hd hd6 aρg).trans_eq (by ring)
  have ρg : |ρ' * g' - ρ * g| ≤ 3 * u + G := by
    have := mul_err hρ hG (abs01 hg'0 hg'1) (abs01 hρ0 hρ1)
    linarith
  have k1 : |ρ' * g' * (y' - m') - ρ * g * (y' - m')| ≤ 18 * (u * Y) + 6 * Y * G := by
    rw [← sub_mul, abs_mul]
    calc _ ≤ (3 * u + G) * (6 * Y) := mul_le_mul ρg ym (abs_nonneg _) ((abs_nonneg _).trans ρg)
      _ = _ := by ring
  have k2 : |ρ' * m' - ρ * m'| ≤ 12 * (u * Y) := by
    rw [← sub_mul, abs_mul]
    calc _ ≤ 3 * u * (4 * Y) := mul_le_mul hρ hm' (abs_nonneg _) (by positivity)
      _ = _ := by ring
  have k3 : |ρ * m' + ρ * g * (y' - m') - ρ * (m + g * (y - m))| ≤ ρ * |m' - m| + 2 * (u * Y) := by
    have e : ρ * m' + ρ * g * (y' - m') - ρ * (m + g * (y - m)) = ρ * ((1 - g) * (m' - m)) + ρ * g * (y' - y) := by ring
    rw [e]
    refine (abs_add_le _ _).trans (add_le_add ?_ ?_)
    · rw [abs_mul, abs_of_nonneg hρ0, abs_mul, abs_of_nonneg (by linarith : 0 ≤ 1 - g)]
      exact mul_le_mul_of_nonneg_left (mul_le_of_le_one_left (abs_nonneg _) (by linarith)) hρ0
    · rw [abs_mul, abs_of_nonneg (by positivity)]
      calc _ ≤ 1 * (2 * (u * Y)) := mul_le_mul (by nlinarith) hy (abs_nonneg _) (by norm_num)
        _ = _ := by ring
  have t1 := tri (tri ht hgd) k1
  have m1' := tri hm1 k2
  have sum : |(m1 + t) - (ρ * m' + ρ * g * (y' - m'))| ≤ (4 * (u * Y) + 12 * (u * Y)) + (6 * (u * Y) + 12 * (u * Y) + (18 * (u * Y) + 6 * Y * G)) := by
    rw [show (m1 + t) - (ρ * m' + ρ * g * (y' - m')) = (m1 - ρ * m') + (t - ρ * g * (y' - m')) by ring]
    exact (abs_add_le _ _).trans (add_le_add m1' t1)
  have := tri (tri hM sum) k3
  linarith

/-- accumulated errors: either the step contracts, or there are few steps -/
theorem acc_err {x q : ℕ → ℝ} {c N : ℝ} {n : ℕ} (hc : 0 ≤ c) (hN : 1 ≤ N) (h0 : x 0 ≤ c) (hx : ∀ k, 0 ≤ x k) (hq0 : ∀ k, k + 1 < n → 0 ≤ q k)
    (hq : ((n : ℝ) ≤ N ∧ ∀ k, k + 1 < n → q k ≤ 1) ∨ ∀ k, k + 1 < n → q k ≤ 1 - 1 / N)
    (hs : ∀ k, k + 1 < n → x (k + 1) ≤ q k * x k + c) : ∀ k < n, x k ≤ c * N := by
  have N0 : 0 < N := by linarith
  rcases hq with ⟨hn, hq⟩ | hq
  · have : ∀ k < n, x k ≤ c * (k + 1 : ℕ) := by
      intro k
      induction k with
      | zero => intro _; simpa using h0
      | succ k ih =>
        intro hk
        have h1 := ih (by omega)
        have h2 := hs k hk
        have h3 : q k * x k ≤ 1 * x k := mul_le_mul_of_nonneg_right (hq k hk) (hx k)
        push_cast at h1 ⊢
        linarith
    intro k hk
    refine (this k hk).trans (mul_le_mul_of_nonneg_left (le_trans ?_ hn) hc)
    exact_mod_cast hk
  · intro k
    induction k with
    | zero => intro _; nlinarith
    | succ k ih =>
      intro hk
      have h1 := ih (by omega)
      have h2 := hs k hk
      have h3 : q k * x k ≤ (1 - 1 / N) * (c * N) := mul_le_mul (hq k hk) h1 (hx k) ((hq0 k hk).trans (hq k hk))
      have : (1 - 1 / N) * (c * N) = c * N - c := by field_simp
      linarith

end Verif.Theory
