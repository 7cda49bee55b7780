import Verif.Model.CarPack

/-! Helper lemmas: `unique_roots`. -/

namespace Verif.Theory

open Verif.Model

/-- pair counted as separated -/
def Sep (tol : ℝ) (a b : ℂ) : Prop := a + b = 0 ∨ tol < ‖(a - b) / (a + b)‖

lemma uniqueInner_spec (tol : ℝ) (a : ℂ) : ∀ (l : List ℂ) (z : ℝ),
    ∃ w, uniqueInner a l (.fin z) = .fin w ∧ (tol < w ↔ tol < z ∧ ∀ b ∈ l, Sep tol a b)
  | [], z => ⟨z, rfl, by simp⟩
  | b :: l, z => by
    by_cases h : a + b = 0
    · have h0 : ¬ Dbl.lt (fracDiff a b) (.fin z) := by
        rw [fracDiff, if_pos h]; split <;> simp [Dbl.lt]
      obtain ⟨w, h1, h2⟩ := uniqueInner_spec tol a l z
      refine ⟨w, by rw [uniqueInner, if_neg h0, h1], ?_⟩
      rw [h2]; simp [Sep, h]
    · have hf : fracDiff a b = .fin ‖(a - b) / (a + b)‖ := by rw [fracDiff, if_neg h]
      have hs : Sep tol a b ↔ tol < ‖(a - b) / (a + b)‖ := by simp [Sep, h]
      by_cases hl : ‖(a - b) / (a + b)‖ < z
      · obtain ⟨w, h1, h2⟩ := uniqueInner_spec tol a l ‖(a - b) / (a + b)‖
        refine ⟨w, by rw [uniqueInner, hf, if_pos (by exact hl), h1], ?_⟩
        rw [h2]
        simp only [List.mem_cons, forall_eq_or_imp, hs]
        constructor
        · rintro ⟨h3, h4⟩; exact ⟨h3.trans hl, h3, h4⟩
        · rintro ⟨_, h3, h4⟩; exact ⟨h3, h4⟩
      · obtain ⟨w, h1, h2⟩ := uniqueInner_spec tol a l z
        refine ⟨w, by rw [uniqueInner, hf, if_neg (by exact hl), h1], ?_⟩
        rw [h2]
        simp only [List.mem_cons, forall_eq_or_imp, hs]
        constructor
        · rintro ⟨h3, h4⟩; exact ⟨h3, lt_of_lt_of_le h3 (not_lt.mp hl), h4⟩
        · rintro ⟨h3, _, h4⟩; exact ⟨h3, h4⟩

lemma uniqueOuter_spec (tol : ℝ) : ∀ (l : List ℂ) (z : ℝ),
    ∃ w, uniqueOuter l (.fin z) = .fin w ∧ (tol < w ↔ tol < z ∧ l.Pairwise (Sep tol))
  | [], z => ⟨z, rfl, by simp⟩
  | a :: l, z => by
    obtain ⟨w, h1, h2⟩ := uniqueInner_spec tol a l z
    obtain ⟨w', h3, h4⟩ := uniqueOuter_spec tol l w
    refine ⟨w', by rw [uniqueOuter, h1, h3], ?_⟩
    rw [h4, h2, List.pairwise_cons, and_assoc]

lemma uniqueRoots_iff {tol : ℝ} (h : 0 < tol) (l : List ℂ) : uniqueRoots l tol = true ↔ l.Pairwise (Sep tol) := by
  obtain ⟨w, h1, h2⟩ := uniqueOuter_spec tol l (100 * tol)
  simp only [uniqueRoots, h1, decide_eq_true_eq]
  show tol < w ↔ _
  rw [h2]
  exact ⟨fun h => h.2, fun h' => ⟨by linarith, h'⟩⟩

lemma Sep.ne {tol : ℝ} (h : 0 < tol) {a b : ℂ} (ha : a.re < 0) (hs : Sep tol a b) : a ≠ b := by
  rintro rfl
  rcases hs with hs | hs
  · have := congrArg Complex.re hs; simp at this; linarith
  · simp at hs; linarith

end Verif.Theory
