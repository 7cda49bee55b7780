import Verif.Theory.Nearest
import Verif.Theory.FSign

/-!
Rounding to nearest does not prefer a sign if the rule for ties does not.
-/

namespace Verif.Theory

open Verif.Model Verif.Spec
open scoped Classical

theorem neg_set (x : ℝ) : -{f | F64 f ∧ x ≤ f} = {f | F64 f ∧ f ≤ -x} := by
  ext f
  constructor
  · rintro ⟨h1, h2⟩
    exact ⟨by simpa using f64_neg h1, by linarith⟩
  · rintro ⟨h1, h2⟩
    exact ⟨f64_neg h1, by linarith⟩

theorem below_neg (x : ℝ) : below (-x) = -above x := by
  unfold below above
  rw [Real.sInf_def, neg_neg, neg_set]

theorem above_neg (x : ℝ) : above (-x) = -below x := by
  have := below_neg (-x)
  rw [neg_neg] at this
  rw [this, neg_neg]

theorem near_neg {tie : ℝ → Prop}
    (h : ∀ x, -maxF < x → x < maxF → x - below x = above x - x → below x ≠ above x → (tie (-x) ↔ ¬ tie x)) (x : ℝ) :
    roundNearest tie (-x) = (roundNearest tie x).neg := by
  have m0 := maxF_pos
  have p0 : (0 : ℝ) < 2 ^ (970 : ℤ) := by positivity
  unfold roundNearest
  generalize (2 : ℝ) ^ (970 : ℤ) = b at p0 ⊢
  by_cases h1 : maxF + b ≤ x
  · rw [if_neg (by linarith), if_pos (by linarith), if_pos h1]; rfl
  by_cases h2 : x ≤ -(maxF + b)
  · rw [if_pos (by linarith), if_neg h1, if_pos h2]; rfl
  rw [if_neg (show ¬ maxF + b ≤ -x by intro k; exact h2 (by linarith)), if_neg (show ¬ -x ≤ -(maxF + b) by
    intro k; exact h1 (by linarith)), if_neg h1, if_neg h2]
  by_cases h3 : maxF ≤ x
  · rw [if_neg (by linarith), if_pos (by linarith), if_pos h3]; rfl
  by_cases h4 : x ≤ -maxF
  · rw [if_pos (by linarith), if_neg h3, if_pos h4]; simp [Dbl.neg]
  rw [if_neg (show ¬ maxF ≤ -x by intro k; exact h4 (by linarith)), if_neg (show ¬ -x ≤ -maxF by intro k; exact h3 (by linarith)), if_neg h3, if_neg h4,
    below_neg, above_neg]
  rcases lt_trichotomy (x - below x) (above x - x) with k | k | k
  · rw [if_pos (Or.inl k), if_neg]
    · rfl
    · rintro (k' | ⟨k', -⟩) <;> linarith
  · by_cases hb : below x = above x
    · rw [hb]; split_ifs <;> rfl
    · have := h x (by linarith) (by linarith) k hb
      by_cases ht : tie x
      · rw [if_pos (show x - below x < above x - x ∨ x - below x = above x - x ∧ tie x from Or.inr ⟨k, ht⟩), if_neg]
        · rfl
        · rintro (k' | ⟨-, k'⟩)
          · linarith
          · exact this.mp k' ht
      · rw [if_pos (show -x - -above x < -below x - -x ∨ -x - -above x = -below x - -x ∧ tie (-x) from Or.inr ⟨by linarith, this.mpr ht⟩), if_neg]
        · rfl
        · rintro (k' | ⟨-, k'⟩)
          · linarith
          · exact ht k'
  · rw [if_pos (Or.inl (by linarith)), if_neg]
    · rfl
    · rintro (k' | ⟨k', -⟩) <;> linarith

/-! ### ties to even -/

/-- the usual form of a double that is not negative -/
def Canon (m e : ℤ) : Prop := 0 ≤ m ∧ m < 2 ^ 53 ∧ -1074 ≤ e ∧ (2 ^ 52 ≤ m ∨ e = -1074)

theorem canon_exists {r : ℝ} (h : F64 r) (h0 : 0 ≤ r) : ∃ m e, Canon m e ∧ e ≤ 971 ∧ r = m * 2 ^ e := by
  obtain ⟨m, e, hm, h1, h2, rfl⟩ := h
  have m0 : 0 ≤ m := by
    have : (0 : ℝ) ≤ m := nonneg_of_mul_nonneg_left h0 (by positivity)
    exact_mod_cast this
  rw [abs_of_nonneg m0] at hm
  obtain ⟨n, rfl⟩ : ∃ n : ℕ, e = -1074 + n := ⟨(e + 1074).toNat, by omega⟩
  clear h0
  induction n generalizing m with
  | zero => exact ⟨m, _, ⟨m0, hm, h1, Or.inr (by simp)⟩, h2, rfl⟩
  | succ n ih =>
    by_cases k : 2 ^ 52 ≤ m
    · exact ⟨m, _, ⟨m0, hm, h1, Or.inl k⟩, h2, rfl⟩
    · obtain ⟨m', e', c, l, q⟩ := ih (2 * m) (by push_cast at h1 ⊢; omega) (by push_cast at h2 ⊢; omega) (by omega) (by omega)
      refine ⟨m', e', c, l, ?_⟩
      rw [← q, show (-1074 + ((n + 1 : ℕ) : ℤ)) = (-1074 + (n : ℤ)) + 1 by push_cast; ring, zpow_add₀ (by norm_num)]
      push_cast
      ring

theorem canon_lt {m e m' e' : ℤ} (h : Canon m e) (h' : Canon m' e') (k : e < e') : (m : ℝ) * 2 ^ e < m' * 2 ^ e' := by
  have m52 : 2 ^ 52 ≤ m' := by
    rcases h'.2.2.2 with q | q
    · exact q
    · have := h.2.2.1; omega
  have a : (m : ℝ) * 2 ^ e < 2 ^ 53 * 2 ^ e := by
    have : (m : ℝ) < 2 ^ 53 := by exact_mod_cast h.2.1
    exact mul_lt_mul_of_pos_right this (by positivity)
  have b : (2 : ℝ) ^ 53 * 2 ^ e ≤ m' * 2 ^ e' := by
    have c : (2 : ℝ) ^ 52 ≤ m' := by exact_mod_cast m52
    have d : (2 : ℝ) * 2 ^ e ≤ 2 ^ e' := by
      rw [show (2 : ℝ) * 2 ^ e = 2 ^ (e + 1) by rw [zpow_add₀ (by norm_num)]; ring]
      exact zpow_le_zpow_right₀ (by norm_num) k
    have g : (2 : ℝ) ^ 53 * 2 ^ e = (2 : ℝ) ^ 52 * (2 * 2 ^ e) := by rw [show (2 : ℝ) ^ 53 = 2 ^ 52 * 2 by norm_num]; ring
    rw [g]
    exact mul_le_mul c d (by positivity) (le_trans (by positivity) c)
  linarith

theorem canon_unique {m e m' e' : ℤ} (h : Canon m e) (h' : Canon m' e') (k : (m : ℝ) * 2 ^ e = m' * 2 ^ e') : m = m' ∧ e = e' := by
  rcases lt_trichotomy e e' with q | q | q
  · exact absurd k (canon_lt h h' q).ne
  · subst q
    have := mul_right_cancel₀ (show (2 : ℝ) ^ e ≠ 0 by positivity) k
    exact ⟨by exact_mod_cast this, rfl⟩
  · exact absurd k (canon_lt h' h q).ne'

/-- the next double -/
theorem next_double {x : ℝ} (x0 : 0 < x) (hx : x < maxF) (hb : below x ≠ above x) {m e : ℤ} (c : Canon m e) (he : e ≤ 971) (h : below x = m * 2 ^ e) :
    above x = (m + 1) * 2 ^ e := by
  have mF := maxF_pos
  obtain ⟨b1, b2⟩ := below_mem (x := x) (by linarith)
  obtain ⟨a1, a2⟩ := above_mem hx.le
  have p0 : (0 : ℝ) < 2 ^ e := by positivity
  have hlt : below x < above x := lt_of_le_of_ne (b2.trans a2) hb
  have low : ∀ f, F64 f → below x < f → (m + 1 : ℝ) * 2 ^ e ≤ f := by
    intro f hf hlt
    have f0 : 0 ≤ f := by
      have : 0 ≤ below x := le_below f64_zero x0.le
      linarith
    obtain ⟨m', e', c', -, rfl⟩ := canon_exists hf f0
    rw [h] at hlt
    rcases lt_or_ge e' e with q | q
    · exact absurd (canon_lt c' c q) (by linarith)
    · obtain ⟨n, rfl⟩ : ∃ n : ℕ, e' = e + n := ⟨(e' - e).toNat, by omega⟩
      rw [zpow_add₀ (by norm_num), zpow_natCast] at hlt ⊢
      have : (m : ℝ) < m' * 2 ^ n := by
        by_contra k
        have := mul_le_mul_of_nonneg_right (not_lt.mp k) p0.le
        linarith
      have : (m : ℤ) + 1 ≤ m' * 2 ^ n := by
        have : (m : ℤ) < m' * 2 ^ n := by exact_mod_cast this
        omega
      have : (m + 1 : ℝ) ≤ m' * 2 ^ n := by exact_mod_cast this
      calc (m + 1 : ℝ) * 2 ^ e ≤ m' * 2 ^ n * 2 ^ e := mul_le_mul_of_nonneg_right this p0.le
        _ = _ := by ring
  have F : F64 ((m + 1 : ℝ) * 2 ^ e) := by
    by_cases q : m + 1 < 2 ^ 53
    · exact ⟨m + 1, e, by rw [abs_of_nonneg (by have := c.1; omega)]; exact q, c.2.2.1, he, by push_cast; ring⟩
    · have q' : m = 2 ^ 53 - 1 := by have := c.2.1; omega
      by_cases e971 : e = 971
      · exfalso
        have : below x = maxF := by rw [h, e971, q']; unfold maxF; push_cast; ring
        linarith
      · refine ⟨2 ^ 52, e + 1, by norm_num, by have := c.2.2.1; omega, by omega, ?_⟩
        rw [q', zpow_add₀ (by norm_num)]
        push_cast
        ring
  refine le_antisymm (above_le F ?_) (low _ a1 hlt)
  by_contra k
  have := le_below F (not_le.mp k).le
  rw [h] at this
  nlinarith

theorem even_canon {x : ℝ} {m e : ℤ} (c : Canon m e) (h : below x = m * 2 ^ e) : EvenBelow x ↔ Even m := by
  constructor
  · rintro ⟨m', e', h1, h2, h3, h4, h5⟩
    have m0 : 0 ≤ m' := by
      have : (0 : ℝ) ≤ m' * 2 ^ e' := by
        rw [← h5, h]
        have : (0 : ℝ) ≤ m := by exact_mod_cast c.1
        positivity
      have : (0 : ℝ) ≤ m' := nonneg_of_mul_nonneg_left this (by positivity)
      exact_mod_cast this
    rw [abs_of_nonneg m0] at h1 h3
    obtain ⟨rfl, -⟩ := canon_unique c ⟨m0, h1, h2, h3⟩ (h.symm.trans h5)
    exact h4
  · intro ev
    have m0 := c.1
    exact ⟨m, e, by rw [abs_of_nonneg m0]; exact c.2.1, c.2.2.1, by rw [abs_of_nonneg m0]; exact c.2.2.2, ev, h⟩

theorem even_canon_neg {x : ℝ} {m e : ℤ} (c : Canon m e) (h : above x = m * 2 ^ e) : EvenBelow (-x) ↔ Even m := by
  have hb : below (-x) = ((-m : ℤ) : ℝ) * 2 ^ e := by rw [below_neg, h]; push_cast; ring
  constructor
  · rintro ⟨m', e', h1, h2, h3, h4, h5⟩
    have q : (m : ℝ) * 2 ^ e = ((-m' : ℤ) : ℝ) * 2 ^ e' := by
      rw [hb] at h5
      push_cast at h5 ⊢
      linarith
    have m0 : 0 ≤ -m' := by
      have : (0 : ℝ) ≤ ((-m' : ℤ) : ℝ) * 2 ^ e' := by
        rw [← q]
        have : (0 : ℝ) ≤ m := by exact_mod_cast c.1
        positivity
      have : (0 : ℝ) ≤ ((-m' : ℤ) : ℝ) := nonneg_of_mul_nonneg_left this (by positivity)
      exact_mod_cast this
    rw [← abs_neg, abs_of_nonneg m0] at h1 h3
    obtain ⟨q1, -⟩ := canon_unique c ⟨m0, h1, h2, h3⟩ q
    rw [q1]
    exact h4.neg
  · intro ev
    have m0 := c.1
    exact ⟨-m, e, by rw [abs_neg, abs_of_nonneg m0]; exact c.2.1, c.2.2.1, by rw [abs_neg, abs_of_nonneg m0]; exact c.2.2.2, ev.neg, hb⟩

theorem even_flips {x : ℝ} (x0 : 0 < x) (hx : x < maxF) (hb : below x ≠ above x) : EvenBelow (-x) ↔ ¬ EvenBelow x := by
  have mF := maxF_pos
  obtain ⟨b1, b2⟩ := below_mem (x := x) (by linarith)
  obtain ⟨m, e, c, he, hm⟩ := canon_exists b1 (le_below f64_zero x0.le)
  have ha := next_double x0 hx hb c he hm
  rw [even_canon c hm]
  by_cases q : m + 1 < 2 ^ 53
  · have c' : Canon (m + 1) e := ⟨by have := c.1; omega, q, c.2.2.1, by rcases c.2.2.2 with k | k; exacts [Or.inl (by omega), Or.inr k]⟩
    rw [even_canon_neg c' (by rw [ha]; push_cast; ring)]
    exact Int.even_add_one
  · have q' : m = 2 ^ 53 - 1 := by have := c.2.1; omega
    have c' : Canon (2 ^ 52) (e + 1) := ⟨by norm_num, by norm_num, by have := c.2.2.1; omega, Or.inl le_rfl⟩
    rw [even_canon_neg c' (by rw [ha, q', zpow_add₀ (by norm_num)]; push_cast; ring)]
    subst q'
    exact ⟨fun _ => by decide, fun _ => by decide⟩

theorem even_signFree : SignFree (nearest EvenBelow) := by
  refine near_neg fun x h1 h2 _ hb => ?_
  rcases lt_trichotomy x 0 with k | k | k
  · have := even_flips (x := -x) (by linarith) (by linarith) (by rw [below_neg, above_neg]; intro q; exact hb (by linarith))
    rw [neg_neg] at this
    tauto
  · subst k
    have b := le_below f64_zero (le_refl (0 : ℝ))
    have a := above_le f64_zero (le_refl (0 : ℝ))
    obtain ⟨-, b2⟩ := below_mem (x := 0) h1.le
    obtain ⟨-, a2⟩ := above_mem (x := 0) h2.le
    exact absurd (by linarith) hb
  · exact even_flips k h2 hb

end Verif.Theory
