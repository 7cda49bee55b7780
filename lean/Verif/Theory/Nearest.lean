import Verif.Theory.FCar1
import Mathlib.Data.Real.Archimedean
import Mathlib.Order.ConditionallyCompleteLattice.Finset
import Mathlib.Analysis.SpecialFunctions.Log.Deriv
import Mathlib.Analysis.Complex.ExponentialBounds

/-!
Rounding to nearest is binary64 arithmetic in the sense of `IsBinary64`.
-/

namespace Verif.Theory

open Verif.Model Verif.Spec
open scoped Classical

theorem f64_finite : {x : ℝ | F64 x}.Finite := by
  have : ((Set.Icc (-2 ^ 53 : ℤ) (2 ^ 53)) ×ˢ (Set.Icc (-1074 : ℤ) 971)).Finite := (Set.finite_Icc _ _).prod (Set.finite_Icc _ _)
  refine (this.image fun p : ℤ × ℤ => (p.1 : ℝ) * 2 ^ p.2).subset ?_
  rintro x ⟨m, e, hm, h1, h2, rfl⟩
  obtain ⟨a, b⟩ := abs_lt.mp hm
  exact ⟨(m, e), ⟨⟨a.le, b.le⟩, h1, h2⟩, rfl⟩

theorem f64_maxF : F64 maxF := ⟨2 ^ 53 - 1, 971, by norm_num, by norm_num, by norm_num, by unfold maxF; push_cast; ring⟩

theorem maxF_pos : 0 < maxF := by
  unfold maxF
  exact mul_pos (by norm_num) (by positivity)

theorem f64_le_maxF {x : ℝ} (h : F64 x) : |x| ≤ maxF := by
  obtain ⟨m, e, hm, h1, h2, rfl⟩ := h
  rw [abs_mul, abs_of_pos (show (0 : ℝ) < 2 ^ e by positivity)]
  have a : |(m : ℝ)| ≤ 2 ^ 53 - 1 := by
    rw [← Int.cast_abs]
    have : |m| ≤ 2 ^ 53 - 1 := by omega
    exact_mod_cast this
  exact mul_le_mul a (pw_le _ _ h2) (by positivity) (by norm_num)

theorem below_mem {x : ℝ} (h : -maxF ≤ x) : F64 (below x) ∧ below x ≤ x := by
  have hf : {f | F64 f ∧ f ≤ x}.Finite := f64_finite.subset fun f h => h.1
  have hn : {f | F64 f ∧ f ≤ x}.Nonempty := ⟨-maxF, f64_neg f64_maxF, h⟩
  exact hn.csSup_mem hf

theorem above_mem {x : ℝ} (h : x ≤ maxF) : F64 (above x) ∧ x ≤ above x := by
  have hf : {f | F64 f ∧ x ≤ f}.Finite := f64_finite.subset fun f h => h.1
  have hn : {f | F64 f ∧ x ≤ f}.Nonempty := ⟨maxF, f64_maxF, h⟩
  exact hn.csInf_mem hf

theorem le_below {x f : ℝ} (hf : F64 f) (h : f ≤ x) : f ≤ below x :=
  le_csSup (f64_finite.subset fun f h => h.1).bddAbove ⟨hf, h⟩

theorem above_le {x f : ℝ} (hf : F64 f) (h : x ≤ f) : above x ≤ f :=
  csInf_le (f64_finite.subset fun f h => h.1).bddBelow ⟨hf, h⟩

variable {tie : ℝ → Prop}

/-- the middle branch -/
theorem near_mid {x : ℝ} (h1 : -maxF < x) (h2 : x < maxF) :
    roundNearest tie x = if x - below x < above x - x ∨ (x - below x = above x - x ∧ tie x) then .fin (below x) else .fin (above x) := by
  have hp : (0 : ℝ) < 2 ^ (970 : ℤ) := by positivity
  unfold roundNearest
  generalize (2 : ℝ) ^ (970 : ℤ) = q at *
  rw [if_neg (by linarith), if_neg (by linarith), if_neg (by linarith), if_neg (by linarith)]

theorem near_fix {x : ℝ} (h : F64 x) : roundNearest tie x = .fin x := by
  obtain ⟨a, b⟩ := abs_le.mp (f64_le_maxF h)
  have hp : (0 : ℝ) < 2 ^ (970 : ℤ) := by positivity
  rcases eq_or_lt_of_le b with rfl | b'
  · have := maxF_pos
    unfold roundNearest
    generalize (2 : ℝ) ^ (970 : ℤ) = q at *
    rw [if_neg (by linarith), if_neg (by linarith), if_pos le_rfl]
  rcases eq_or_lt_of_le a with rfl | a'
  · have := maxF_pos
    unfold roundNearest
    generalize (2 : ℝ) ^ (970 : ℤ) = q at *
    rw [if_neg (by linarith), if_neg (by linarith), if_neg (by linarith), if_pos le_rfl]
  · rw [near_mid a' b']
    have e1 : below x = x := le_antisymm (below_mem a).2 (le_below h le_rfl)
    have e2 : above x = x := le_antisymm (above_le h le_rfl) (above_mem b).2
    rw [e1, e2, ite_self]

theorem near_range {x r : ℝ} (h : roundNearest tie x = .fin r) : F64 r := by
  unfold roundNearest at h
  split at h
  · cases h
  split at h
  · cases h
  split at h
  · cases h; exact f64_maxF
  split at h
  · cases h; exact f64_neg f64_maxF
  split at h
  · cases h; exact (below_mem (by linarith)).1
  · cases h; exact (above_mem (by linarith)).1

theorem near_nan (x : ℝ) : roundNearest tie x ≠ .nan := by
  unfold roundNearest
  split_ifs <;> simp

/-- a middle result lies between the neighbours -/
theorem near_bounds {x : ℝ} (h1 : -maxF < x) (h2 : x < maxF) : ∃ r, roundNearest tie x = .fin r ∧ below x ≤ r ∧ r ≤ above x := by
  rw [near_mid h1 h2]
  have a := (below_mem h1.le).2
  have b := (above_mem h2.le).2
  split_ifs
  · exact ⟨_, rfl, le_rfl, a.trans b⟩
  · exact ⟨_, rfl, a.trans b, le_rfl⟩

theorem near_mono {x y : ℝ} (h : x ≤ y) : ¬ (roundNearest tie y).lt (roundNearest tie x) := by
  have hp : (0 : ℝ) < 2 ^ (970 : ℤ) := by positivity
  have hM := maxF_pos
  rcases eq_or_lt_of_le h with rfl | hlt
  · cases roundNearest tie x <;> simp [Dbl.lt]
  rcases le_or_gt maxF y with hy | hy
  · -- result for y is maxF or infinity
    have ey : roundNearest tie y = .pinf ∨ (roundNearest tie y = .fin maxF ∧ y < maxF + 2 ^ (970 : ℤ)) := by
      unfold roundNearest
      by_cases hc : maxF + 2 ^ (970 : ℤ) ≤ y
      · exact .inl (if_pos hc)
      · refine .inr ⟨?_, not_le.mp hc⟩
        generalize (2 : ℝ) ^ (970 : ℤ) = q at *
        rw [if_neg hc, if_neg (by linarith), if_pos hy]
    rcases ey with ey | ⟨ey, hy2⟩
    · rw [ey]; simp [Dbl.lt]
    · rw [ey]
      cases hx : roundNearest tie x with
      | fin r =>
        have := (abs_le.mp (f64_le_maxF (near_range hx))).2
        simpa [Dbl.lt] using this
      | pinf =>
        exfalso
        unfold roundNearest at hx
        by_cases hc : maxF + 2 ^ (970 : ℤ) ≤ x
        · linarith
        · rw [if_neg hc] at hx
          split_ifs at hx
      | ninf => simp [Dbl.lt]
      | nan => simp [Dbl.lt]
  rcases le_or_gt x (-maxF) with hx | hx
  · have ex : roundNearest tie x = .ninf ∨ roundNearest tie x = .fin (-maxF) := by
      unfold roundNearest
      by_cases hc : x ≤ -(maxF + 2 ^ (970 : ℤ))
      · left
        generalize (2 : ℝ) ^ (970 : ℤ) = q at *
        rw [if_neg (by linarith), if_pos hc]
      · right
        generalize (2 : ℝ) ^ (970 : ℤ) = q at *
        rw [if_neg (by linarith), if_neg hc, if_neg (by linarith), if_pos hx]
    rcases ex with ex | ex
    · rw [ex]; cases roundNearest tie y <;> simp [Dbl.lt]
    · rw [ex]
      cases hy' : roundNearest tie y with
      | fin r =>
        have := (abs_le.mp (f64_le_maxF (near_range hy'))).1
        simpa [Dbl.lt] using this
      | pinf => simp [Dbl.lt]
      | ninf =>
        exfalso
        have hx' : x ≤ -(maxF + 2 ^ (970 : ℤ)) := by
          unfold roundNearest at hy'
          generalize (2 : ℝ) ^ (970 : ℤ) = q at *
          rw [if_neg (by linarith)] at hy'
          by_cases hc : y ≤ -(maxF + q)
          · linarith
          · rw [if_neg hc] at hy'
            split_ifs at hy'
        unfold roundNearest at ex
        generalize (2 : ℝ) ^ (970 : ℤ) = q at *
        rw [if_neg (by linarith), if_pos hx'] at ex
        cases ex
      | nan => simp [Dbl.lt]
  · have hx2 : x < maxF := by linarith
    have hy2 : -maxF < y := by linarith
    obtain ⟨r, er, r1, r2⟩ := near_bounds (tie := tie) hx hx2
    obtain ⟨q, eq, q1, q2⟩ := near_bounds (tie := tie) hy2 hy
    rw [er, eq]
    simp only [Dbl.lt, not_lt]
    by_cases hc : above x ≤ y
    · exact r2.trans ((le_below (above_mem hx2.le).1 hc).trans q1)
    · push Not at hc
      by_cases hF : below y ≤ x
      · -- the same cell
        have e1 : below x = below y := le_antisymm (le_below (below_mem hx.le).1 ((below_mem hx.le).2.trans h)) (le_below (below_mem hy2.le).1 hF)
        have e2 : above x = above y := le_antisymm (above_le (above_mem hy.le).1 (h.trans (above_mem hy.le).2)) (above_le (above_mem hx2.le).1 hc.le)
        rw [near_mid hx hx2] at er
        rw [near_mid hy2 hy] at eq
        rw [e1, e2] at er
        have b1 := (below_mem hy2.le).2
        have b2 := (above_mem hy.le).2
        split_ifs at er eq with c1 c2 c2
        · cases er; cases eq; exact le_rfl
        · cases er; cases eq; linarith
        · exfalso
          push Not at c1
          rcases c2 with c2 | ⟨c2, -⟩ <;> linarith [c1.1]
        · cases er; cases eq; exact le_rfl
      · push Not at hF
        have := above_le (below_mem hy2.le).1 hF.le
        exact r2.trans (this.trans q1)

theorem nearest_mono {x y : ℝ} (h : x ≤ y) : ¬ ((nearest tie).rnd y).lt ((nearest tie).rnd x) := near_mono h

theorem near_between {lo hi x : ℝ} (hlo : F64 lo) (hhi : F64 hi) (h1 : lo ≤ x) (h2 : x ≤ hi) :
    ∃ r, roundNearest tie x = .fin r ∧ lo ≤ r ∧ r ≤ hi := by
  have m1 := near_mono (tie := tie) h1
  have m2 := near_mono (tie := tie) h2
  rw [near_fix hlo] at m1
  rw [near_fix hhi] at m2
  cases h : roundNearest tie x with
  | fin r =>
    rw [h] at m1 m2
    exact ⟨r, rfl, by simpa [Dbl.lt] using m1, by simpa [Dbl.lt] using m2⟩
  | pinf => rw [h] at m2; simp [Dbl.lt] at m2
  | ninf => rw [h] at m1; simp [Dbl.lt] at m1
  | nan => exact absurd h (near_nan x)

theorem log_bound {v : ℝ} (hF : F64 v) (h0 : 0 < v) : |Real.log v| ≤ 1024 := by
  have hv := hF
  obtain ⟨m, e, hm, h1, h2, hv'⟩ := hF
  have hp : (0 : ℝ) < 2 ^ e := by positivity
  have hm0 : 0 < m := by
    have : (0 : ℝ) < m := by by_contra h; push Not at h; rw [hv'] at h0; nlinarith
    exact_mod_cast this
  have hm1 : (1 : ℝ) ≤ m := by exact_mod_cast hm0
  have lo : (2 : ℝ) ^ (-1074 : ℤ) ≤ v := by
    rw [hv']
    calc (2 : ℝ) ^ (-1074 : ℤ) ≤ 2 ^ e := pw_le _ _ h1
      _ ≤ m * 2 ^ e := le_mul_of_one_le_left hp.le hm1
  have hi : v ≤ (2 : ℝ) ^ (1024 : ℤ) := by
    have := (abs_le.mp (f64_le_maxF hv)).2
    refine this.trans ?_
    unfold maxF
    rw [← pw_mul 53 971 1024 (by norm_num)]
    exact mul_le_mul_of_nonneg_right (by norm_num) (by positivity)
  have l2 := Real.log_two_lt_d9
  have l2' := Real.log_two_gt_d9
  have a := Real.log_le_log (by positivity) lo
  have b := Real.log_le_log h0 hi
  rw [Real.log_zpow] at a b
  rw [abs_le]
  push_cast at a b
  constructor <;> nlinarith

/-- Rounding to nearest, whatever the rule for ties, satisfies the assumptions. -/
theorem nearest_isBinary64 (tie : ℝ → Prop) : IsBinary64 (nearest tie) where
  no_nan := near_nan
  range _ _ := near_range
  mono _ _ := near_mono
  id _ := near_fix
  exp_ninf := rfl
  exp_neg x hx := by
    obtain ⟨r, er, r0, r1⟩ := near_between (tie := tie) f64_zero f64_one (Real.exp_pos x).le (Real.exp_le_one_iff.mpr hx)
    exact ⟨r, er, near_range er, r0, r1⟩
  exp_range x r h := by
    refine ⟨near_range h, ?_⟩
    have := near_mono (tie := tie) (Real.exp_pos x).le
    rw [near_fix f64_zero] at this
    have h' : roundNearest tie (Real.exp x) = .fin r := h
    rw [h'] at this
    simpa [Dbl.lt] using this
  exp_other x := by
    have := near_mono (tie := tie) (Real.exp_pos x).le
    rw [near_fix f64_zero] at this
    show roundNearest tie (Real.exp x) = _ ∨ ∃ r, roundNearest tie (Real.exp x) = _
    cases h : roundNearest tie (Real.exp x) with
    | fin r => exact .inr ⟨r, rfl⟩
    | pinf => exact .inl rfl
    | ninf => rw [h] at this; simp [Dbl.lt] at this
    | nan => exact absurd h (near_nan _)
  log_zero := by
    show (if (0 : ℝ) < 0 then _ else if (0 : ℝ) = 0 then _ else _) = _
    rw [if_neg (lt_irrefl _), if_pos rfl]
  log_pos v hF h0 := by
    obtain ⟨a, b⟩ := abs_le.mp (log_bound hF h0)
    have F : F64 1024 := by simpa using f64_int 1024 (by norm_num)
    obtain ⟨r, er, r0, r1⟩ := near_between (tie := tie) (f64_neg F) F a b
    refine ⟨r, ?_, near_range er, abs_le.mpr ⟨r0, r1⟩⟩
    show (if 0 < v then _ else _) = _
    rw [if_pos h0, er]
  sqrt_fin x hx := by
    show (if x < 0 then _ else _) = _
    rw [if_neg (not_lt.mpr hx)]
    rfl

/-! ### numbers just below 1 -/

theorem f64_lt_one {f : ℝ} (h : F64 f) (h1 : f < 1) : f ≤ 1 - 2 ^ (-53 : ℤ) := by
  obtain ⟨m, e, hm, -, -, rfl⟩ := h
  have hp : (0 : ℝ) < 2 ^ e := by positivity
  rcases le_or_gt m 0 with m0 | m0
  · have : (m : ℝ) * 2 ^ e ≤ 0 := mul_nonpos_of_nonpos_of_nonneg (by exact_mod_cast m0) hp.le
    exact this.trans (by norm_num)
  have hm' : (m : ℝ) ≤ 2 ^ (53 : ℤ) := by
    have := (abs_lt.mp hm).2
    norm_num
    exact_mod_cast this.le
  rcases le_or_gt 0 e with e0 | e0
  · exfalso
    have : (1 : ℝ) ≤ 2 ^ e := by simpa using zpow_le_zpow_right₀ (by norm_num : (1 : ℝ) ≤ 2) e0
    have : (1 : ℝ) ≤ m := by exact_mod_cast m0
    nlinarith
  rcases le_or_gt (-53) e with e1 | e1
  · have he : (2 : ℝ) ^ (-53 : ℤ) ≤ 2 ^ e := zpow_le_zpow_right₀ (by norm_num) e1
    obtain ⟨k, hk⟩ := Int.eq_ofNat_of_zero_le (show 0 ≤ -e by omega)
    have he' : e = -(k : ℤ) := by omega
    subst he'
    have e2 : (2 : ℝ) ^ (-(k : ℤ)) * 2 ^ k = 1 := by rw [zpow_neg, zpow_natCast]; exact inv_mul_cancel₀ (by positivity)
    have h2 : (0 : ℝ) < 2 ^ k := by positivity
    have h3 : (m : ℝ) < 2 ^ k := by nlinarith
    have h4 : m + 1 ≤ 2 ^ k := by exact_mod_cast h3
    have h5 : (m : ℝ) + 1 ≤ 2 ^ k := by exact_mod_cast h4
    have h6 := mul_le_mul_of_nonneg_right h5 hp.le
    rw [mul_comm ((2 : ℝ) ^ k), e2, add_mul, one_mul] at h6
    linarith
  · have he : (2 : ℝ) ^ e ≤ 2 ^ (-54 : ℤ) := zpow_le_zpow_right₀ (by norm_num) (by omega)
    have h2 := mul_le_mul hm' he hp.le (by positivity)
    rw [← zpow_add₀ (by norm_num)] at h2
    norm_num at h2 ⊢
    linarith

/-- a number less than a quarter of a unit in the last place below 1 is rounded to 1 -/
theorem near_one {x : ℝ} (h1 : 1 - 2 ^ (-54 : ℤ) < x) (h2 : x ≤ 1) : roundNearest tie x = .fin 1 := by
  rcases eq_or_lt_of_le h2 with rfl | h2
  · exact near_fix f64_one
  have hM : (1 : ℝ) ≤ maxF := by
    unfold maxF
    have : (1 : ℝ) ≤ 2 ^ (971 : ℤ) := one_le_zpow₀ (by norm_num) (by norm_num)
    generalize (2 : ℝ) ^ (971 : ℤ) = q at *
    nlinarith
  have hx0 : -maxF < x := by
    have : (2 : ℝ) ^ (-54 : ℤ) ≤ 1 := by norm_num
    linarith
  have hb := f64_lt_one (below_mem hx0.le).1 (lt_of_le_of_lt (below_mem hx0.le).2 h2)
  have ha : above x = 1 := by
    refine le_antisymm (above_le f64_one h2.le) ?_
    by_contra hlt
    have := f64_lt_one (above_mem (h2.le.trans hM)).1 (lt_of_not_ge hlt)
    have h3 := (above_mem (h2.le.trans hM)).2
    norm_num at this h1
    linarith
  rw [near_mid hx0 (lt_of_lt_of_le h2 hM), if_neg, ha]
  rw [ha]
  have : (2 : ℝ) ^ (-53 : ℤ) = 2 * 2 ^ (-54 : ℤ) := by norm_num
  rintro (h | ⟨h, -⟩) <;> linarith

/-! ### numbers just above 1 -/

theorem f64_gt_one {f : ℝ} (h : F64 f) (h1 : 1 < f) : 1 + 2 ^ (-52 : ℤ) ≤ f := by
  obtain ⟨m, e, hm, -, -, rfl⟩ := h
  have hp : (0 : ℝ) < 2 ^ e := by positivity
  have hm' : (m : ℝ) ≤ 2 ^ (53 : ℤ) := by
    have := (abs_lt.mp hm).2
    norm_num
    exact_mod_cast this.le
  have e1 : -52 ≤ e := by
    by_contra hc
    have h2 := mul_le_mul hm' (zpow_le_zpow_right₀ (by norm_num : (1 : ℝ) ≤ 2) (show e ≤ -53 by omega)) hp.le (by positivity)
    rw [← zpow_add₀ (by norm_num)] at h2
    norm_num at h2
    linarith
  obtain ⟨k, hk⟩ := Int.eq_ofNat_of_zero_le (show 0 ≤ e + 52 by omega)
  have e2 : (m : ℝ) * 2 ^ e = ((m * 2 ^ k : ℤ) : ℝ) * 2 ^ (-52 : ℤ) := by
    push_cast
    rw [mul_assoc, ← zpow_natCast, ← zpow_add₀ (by norm_num), ← hk]
    congr 2
    ring
  rw [e2] at h1 ⊢
  have hq : (2 : ℝ) ^ (52 : ℤ) * 2 ^ (-52 : ℤ) = 1 := by norm_num
  have h3 : ((2 ^ 52 : ℤ) : ℝ) < ((m * 2 ^ k : ℤ) : ℝ) := by
    by_contra hc
    have := mul_le_mul_of_nonneg_right (not_lt.mp hc) (show (0 : ℝ) ≤ 2 ^ (-52 : ℤ) by positivity)
    push_cast at this h1
    norm_num at this h1
    linarith
  have h4 : 2 ^ 52 + 1 ≤ m * 2 ^ k := by exact_mod_cast h3
  have h5 : ((2 ^ 52 + 1 : ℤ) : ℝ) ≤ ((m * 2 ^ k : ℤ) : ℝ) := by exact_mod_cast h4
  refine le_trans (le_of_eq ?_) (mul_le_mul_of_nonneg_right h5 (show (0 : ℝ) ≤ 2 ^ (-52 : ℤ) by positivity))
  norm_num

/-- a number less than half a unit in the last place above 1 is rounded to 1 -/
theorem near_one_up {x : ℝ} (h1 : 1 ≤ x) (h2 : x < 1 + 2 ^ (-53 : ℤ)) : roundNearest tie x = .fin 1 := by
  rcases eq_or_lt_of_le h1 with rfl | h1
  · exact near_fix f64_one
  have h53 : (2 : ℝ) ^ (-53 : ℤ) ≤ 1 := by norm_num
  have h52 : (2 : ℝ) ^ (-52 : ℤ) = 2 * 2 ^ (-53 : ℤ) := by norm_num
  have hM : (2 : ℝ) ≤ maxF := by
    unfold maxF
    have : (1 : ℝ) ≤ 2 ^ (971 : ℤ) := one_le_zpow₀ (by norm_num) (by norm_num)
    generalize (2 : ℝ) ^ (971 : ℤ) = q at *
    nlinarith
  have hx0 : -maxF < x := by linarith
  have hx1 : x < maxF := by linarith
  have ha := f64_gt_one (above_mem hx1.le).1 (h1.trans_le (above_mem hx1.le).2)
  have hb : below x = 1 := by
    refine le_antisymm ?_ (le_below f64_one h1.le)
    by_contra hlt
    have := f64_gt_one (below_mem hx0.le).1 (lt_of_not_ge hlt)
    have h3 := (below_mem hx0.le).2
    linarith
  rw [near_mid hx0 hx1, if_pos, hb]
  rw [hb]
  left
  linarith

end Verif.Theory
