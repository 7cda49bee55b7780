import Verif.Model.PyModel
import Verif.Theory.Prior
import Verif.Theory.RunTotal

/-!
Lemmas on the optimiser bounds of `_get_mle_single`.
-/

namespace Verif.Theory

open Verif.Model Verif.Spec

lemma npStd_ofFn {n : ℕ} (hn : 0 < n) (y : Fin n → ℝ) :
    Py.npStd (List.ofFn y) = .ok √((∑ i, (y i - (∑ j, y j) / n) ^ 2) / n) ∧
    (∑ i, (y i - (∑ j, y j) / n) ^ 2) / n = (∑ i, y i ^ 2) / n - ((∑ i, y i) / n) ^ 2 := by
  have h0 : ((n : ℕ) : ℝ) ≠ 0 := by positivity
  constructor
  · simp only [Py.npStd, dv, List.length_ofFn, if_neg h0, res_bind_ok, res_pure, List.map_ofFn, List.sum_ofFn]
    rfl
  · set m := (∑ i, y i) / (n : ℝ) with hm
    have hs : ∑ i, y i = n * m := by rw [hm]; field_simp
    simp only [sub_sq, Finset.sum_add_distrib, Finset.sum_sub_distrib, Finset.sum_const, Finset.card_univ, Fintype.card_fin,
      nsmul_eq_mul, ← Finset.sum_mul, ← Finset.mul_sum, hs]
    field_simp; ring

lemma dev_pos {n : ℕ} {y : Fin n → ℝ} (hy : ∃ i j, y i ≠ y j) : 0 < (∑ i, (y i - (∑ j, y j) / n) ^ 2) / n := by
  obtain ⟨i, j, hij⟩ := hy
  have hn : 0 < n := Fin.pos i
  apply div_pos _ (by positivity)
  refine lt_of_le_of_ne (Finset.sum_nonneg fun _ _ => sq_nonneg _) fun h => hij ?_
  have := (Finset.sum_eq_zero_iff_of_nonneg fun i _ => sq_nonneg (y i - (∑ j, y j) / n)).mp h.symm
  have h1 := this i (Finset.mem_univ _)
  have h2 := this j (Finset.mem_univ _)
  rw [sq_eq_zero_iff, sub_eq_zero] at h1 h2
  rw [h1, h2]

/-- the bounds for strictly increasing times -/
lemma mleBox_eq {n : ℕ} (hn : 2 ≤ n) {t : Fin n → ℝ} (ht : StrictMono t) (y : Fin n → ℝ) (p q : ℕ) :
    ∃ dmin span v, IsMinGap t dmin ∧ IsSpan t span ∧ 0 < dmin ∧ dmin ≤ span ∧ (3 ≤ n → 2 * dmin ≤ span) ∧ (n = 2 → dmin = span) ∧
      popVar (List.ofFn y) = .ok v ∧ v = (∑ i, (y i - (∑ j, y j) / n) ^ 2) / n ∧
      Py.mleBox (List.ofFn t) (List.ofFn y) p q = .ok (
        if p = 1 then [some (√v / 10, 10 * √v), some (0.9, 1.1), none, some (Real.log (1 / span), Real.log (0.9 * (1 / dmin)))]
        else [some (√v / 10, 10 * √v), some (0.9, 1.1), none] ++
          List.replicate p (some (Real.log (min ((1 / span) ^ 2) (2 * (1 / span))),
            Real.log (max ((0.9 * (1 / dmin)) ^ 2) (2 * (0.9 * (1 / dmin)))))) ++ List.replicate q none) := by
  obtain ⟨dmin, b, g1, g2, g3, g4, g5, g6, g7, g8, g9, -, -⟩ := base_fresh hn ht y y
  obtain ⟨s1, s2⟩ := npStd_ofFn (show 0 < n by omega) y
  refine ⟨dmin, _, (∑ i, (y i - (∑ j, y j) / n) ^ 2) / n, g1, g3, g2, g4, ?_, g6, ?_, rfl, ?_⟩
  · intro h3
    have h1 : dmin ≤ t ⟨1, by omega⟩ - t ⟨0, by omega⟩ := g1.2 ⟨⟨0, by omega⟩, ⟨1, by omega⟩, by simp [Fin.lt_def], rfl⟩
    have h2 : dmin ≤ t ⟨n-1, by omega⟩ - t ⟨1, by omega⟩ := g1.2 ⟨⟨1, by omega⟩, ⟨n-1, by omega⟩, by simp [Fin.lt_def]; omega, rfl⟩
    linarith
  · rw [popVar_ofFn (by omega), ← s2]
  · set span := t ⟨n-1, by omega⟩ - t ⟨0, by omega⟩
    have hspan : 0 < span := lt_of_lt_of_le g2 g4
    have hd : diffs (List.ofFn t) = .ok ((List.range (n-1)).map fun i => ext0 t (i+1) - ext0 t i) := by
      rw [ofFn_eq_rangeMap]; exact diffs_rangeMap hn _
    have l1 : logR (1 / span) = .ok (Real.log (1 / span)) := by rw [logR, if_pos (by positivity)]
    have l2 : logR (0.9 * (1 / dmin)) = .ok (Real.log (0.9 * (1 / dmin))) := by rw [logR, if_pos (by positivity)]
    have l3 : logR (min ((1 / span) ^ 2) (2 * (1 / span))) = .ok (Real.log (min ((1 / span) ^ 2) (2 * (1 / span)))) := by
      rw [logR, if_pos (by positivity)]
    have l4 : logR (max ((0.9 * (1 / dmin)) ^ 2) (2 * (0.9 * (1 / dmin)))) =
        .ok (Real.log (max ((0.9 * (1 / dmin)) ^ 2) (2 * (0.9 * (1 / dmin))))) := by
      rw [logR, if_pos (by positivity)]
    have hdv : dv 1 (t ⟨n-1, by omega⟩ - t ⟨0, by omega⟩) = .ok (1 / span) := dv_ok hspan.ne'
    simp only [Py.mleBox, s1, hd, g7, g8, g9, dv_ok g2.ne', hdv, res_bind_ok]
    by_cases hp : p = 1
    · rw [if_pos hp, if_pos hp, l1, res_bind_ok, l2, res_bind_ok]; rfl
    · rw [if_neg hp, if_neg hp, l3, res_bind_ok, l4, res_bind_ok]; rfl

lemma mleBox_lt {n : ℕ} (hn : 3 ≤ n) {t : Fin n → ℝ} (ht : StrictMono t) {y : Fin n → ℝ} (hy : ∃ i j, y i ≠ y j) (p q : ℕ) :
    ∃ box, Py.mleBox (List.ofFn t) (List.ofFn y) p q = .ok box ∧ box.length = (if p = 1 then 4 else 3 + p + q) ∧
      ∀ lo hi, some (lo, hi) ∈ box → lo < hi := by
  obtain ⟨dmin, span, v, h1, h2, h3, h4, h5, -, -, hv, h6⟩ := mleBox_eq (by omega) ht y p q
  have hs : 0 < √v := by rw [hv]; exact Real.sqrt_pos.mpr (dev_pos hy)
  have hspan : 0 < span := lt_of_lt_of_le h3 h4
  have hb1 : √v / 10 < 10 * √v := by linarith
  have hfreq : 1 / span < 0.9 * (1 / dmin) := by
    rw [mul_one_div, div_lt_div_iff₀ hspan h3]
    have := h5 hn
    linarith
  have hm : 0 < 1 / span := by positivity
  refine ⟨_, h6, ?_, ?_⟩
  · split <;> simp <;> omega
  · intro lo hi hmem
    have hrep : ∀ lo hi, some (lo, hi) = some (√v / 10, 10 * √v) ∨ some (lo, hi) = some (((0.9 : ℝ)), (1.1 : ℝ)) → lo < hi := by
      rintro lo hi (h | h)
      · cases h; exact hb1
      · cases h; norm_num
    split at hmem
    · simp only [List.mem_cons, List.not_mem_nil, or_false] at hmem
      rcases hmem with h | h | h | h
      · exact hrep _ _ (.inl h)
      · exact hrep _ _ (.inr h)
      · cases h
      · cases h; exact Real.log_lt_log hm hfreq
    · simp only [List.cons_append, List.nil_append, List.mem_cons, List.mem_append, List.mem_replicate, reduceCtorEq, and_false,
        or_false] at hmem
      rcases hmem with h | h | h | ⟨-, h⟩
      · exact hrep _ _ (.inl h)
      · exact hrep _ _ (.inr h)
      · exact absurd h id
      · cases h
        apply Real.log_lt_log (by positivity)
        calc min ((1 / span) ^ 2) (2 * (1 / span)) ≤ 2 * (1 / span) := min_le_right _ _
          _ < 2 * (0.9 * (1 / dmin)) := by linarith
          _ ≤ _ := le_max_right _ _

lemma clampLoop_ok (box : List (Option (ℝ × ℝ))) (u : ℕ → ℝ) (x : List ℝ) (j : ℕ) (h : j + x.length ≤ box.length) :
    Py.clampLoop box u j x = .ok ((List.range x.length).map fun i =>
      Py.clampOne (box.getD (j + i) none) (x.getD i 0) (u (j + i))) := by
  induction x generalizing j with
  | nil => rfl
  | cons a x ih =>
    simp only [List.length_cons] at h
    have hj : rd box j = .ok (box.getD j none) := by
      rw [rd, List.getElem?_eq_getElem (by omega)]
      simp [List.getElem?_eq_getElem (show j < box.length by omega)]
    rw [Py.clampLoop, hj, res_bind_ok, ih (j + 1) (by omega), res_bind_ok]
    simp only [List.length_cons, List.range_succ_eq_map, List.map_cons, List.map_map]
    congr 1
    · congr 1
      apply List.map_congr_left
      intro i _
      simp [Function.comp, Nat.add_comm, Nat.add_left_comm]

lemma clampOne_mem {lo hi x u : ℝ} (h : lo ≤ hi) (hu : 0 ≤ u) (hu1 : u < 1) :
    lo ≤ Py.clampOne (some (lo, hi)) x u ∧ Py.clampOne (some (lo, hi)) x u ≤ hi := by
  simp only [Py.clampOne]
  split
  · rw [Py.uniform]
    constructor
    · nlinarith
    · nlinarith
  · next h1 => push Not at h1; exact h1

lemma clampOne_id {b : Option (ℝ × ℝ)} {x u : ℝ} (h : ∀ lo hi, b = some (lo, hi) → lo ≤ x ∧ x ≤ hi) : Py.clampOne b x u = x := by
  match b with
  | none => rfl
  | some (lo, hi) =>
    obtain ⟨h1, h2⟩ := h lo hi rfl
    simp only [Py.clampOne]
    rw [if_neg]
    push Not; exact ⟨h1, h2⟩

end Verif.Theory
