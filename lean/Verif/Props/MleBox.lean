import Verif.Theory.MleBox
import Verif.Props.LogPost

/-!
Property C52: the bounds and the starting point of the maximum-likelihood search.
-/

namespace Verif.Props

open Verif.Model Verif.Spec Verif.Theory

/-- **C52.** At least three observations, not all equal: the bounds of `_get_mle_single` are one interval per parameter (4 for `p = 1`, else
`3 + p + q`) with positive length, and the starting point made from any recorded sample lies inside all of them, whatever the draws. Entries
other than the error scale that were inside their bounds, or have none, are those of the sample; the error scale starts at one. -/
theorem C52_start_in_box {n : ℕ} (hn : 3 ≤ n) {t : Fin n → ℝ} (ht : StrictMono t) {y : Fin n → ℝ} (hy : ∃ i j, y i ≠ y j) (p q : ℕ) :
    ∃ box, Py.mleBox (List.ofFn t) (List.ofFn y) p q = .ok box ∧ box.length = (if p = 1 then 4 else 3 + p + q) ∧
      (∀ lo hi, some (lo, hi) ∈ box → lo < hi) ∧
      ∀ (sample : List ℝ) (u : ℕ → ℝ), sample.length = box.length → (∀ j, 0 ≤ u j ∧ u j < 1) →
        ∃ x, Py.mleStart (List.ofFn t) (List.ofFn y) p q sample u = .ok x ∧ x.length = sample.length ∧ x.getD 1 0 = 1 ∧
          (∀ (j : ℕ) lo hi, box[j]? = some (some (lo, hi)) → lo ≤ x.getD j 0 ∧ x.getD j 0 ≤ hi) ∧
          ∀ (j : ℕ) b, j ≠ 1 → box[j]? = some b → (∀ lo hi, b = some (lo, hi) → lo ≤ sample.getD j 0 ∧ sample.getD j 0 ≤ hi) →
            x.getD j 0 = sample.getD j 0 := by
  obtain ⟨box, h1, h2, h3⟩ := mleBox_lt hn ht hy p q
  obtain ⟨dmin, span, v, -, -, -, -, -, -, -, -, h4⟩ := mleBox_eq (show 2 ≤ n by omega) ht y p q
  have hbox1 : box[1]? = some (some ((0.9 : ℝ), (1.1 : ℝ))) := by
    rw [h1] at h4; cases h4
    split <;> rfl
  have hlen : 4 ≤ box.length ∨ 3 ≤ box.length := by rw [h2]; split <;> omega
  refine ⟨box, h1, h2, h3, fun sample u hl hu => ?_⟩
  have hw : wr sample 1 1 = .ok (sample.set 1 1) := by rw [wr, if_pos (by omega)]
  have hx : (sample.set 1 1).length = box.length := by rw [List.length_set, hl]
  set x0 := sample.set 1 1 with hx0
  have hc := clampLoop_ok box u x0 0 (by omega)
  simp only [Nat.zero_add] at hc
  set x := (List.range x0.length).map fun i => Py.clampOne (box.getD i none) (x0.getD i 0) (u i) with hxd
  have hget : ∀ j < box.length, x.getD j 0 = Py.clampOne (box.getD j none) (x0.getD j 0) (u j) := by
    intro j hj
    simp [hxd, hx, hj]
  refine ⟨x, ?_, by simp [hxd, hx, hl], ?_, ?_, ?_⟩
  · rw [Py.mleStart, hw, res_bind_ok, h1, res_bind_ok, hc]
  · rw [hget 1 (by omega)]
    have : x0.getD 1 0 = 1 := by simp [hx0, show 1 < sample.length by omega]
    rw [List.getD_eq_getElem?_getD, hbox1, this]
    apply clampOne_id
    intro lo hi h
    simp only [Option.getD_some] at h
    cases h; norm_num
  · intro j lo hi hb
    have hj : j < box.length := by
      by_contra hcon; rw [List.getElem?_eq_none (by omega)] at hb; cases hb
    rw [hget j hj, List.getD_eq_getElem?_getD, hb]
    exact clampOne_mem (h3 lo hi (List.mem_of_getElem? hb)).le (hu j).1 (hu j).2
  · intro j b hj1 hb hin
    have hj : j < box.length := by
      by_contra hcon; rw [List.getElem?_eq_none (by omega)] at hb; cases hb
    have hs : x0.getD j 0 = sample.getD j 0 := by
      rw [List.getD_eq_getElem?_getD, List.getD_eq_getElem?_getD, hx0, List.getElem?_set_ne (Ne.symm hj1)]
    rw [hget j hj, List.getD_eq_getElem?_getD, hb, hs]
    exact clampOne_id hin

example : (3 : ℕ) ≤ 3 ∧ StrictMono exT ∧ ∃ i j, exY i ≠ exY j :=
  ⟨le_rfl, exT_mono, 0, 1, by simp [exY]⟩

/-- **C52, CAR(1).** Every point of the box satisfies the prior bounds of the object `run_mcmc_car1` returns (whose `max_stdev` is ten
population standard deviations), so the function minimised is finite on all of the box by C05. -/
theorem C52_car1_box {n : ℕ} (hn : 2 ≤ n) {t : Fin n → ℝ} (ht : StrictMono t) (y : Fin n → ℝ) (q : ℕ) :
    ∃ dmin span v box, IsMinGap t dmin ∧ IsSpan t span ∧ popVar (List.ofFn y) = .ok v ∧
      Py.mleBox (List.ofFn t) (List.ofFn y) 1 q = .ok box ∧
      ∀ θ : List ℝ, (∀ (j : ℕ) lo hi, box[j]? = some (some (lo, hi)) → lo ≤ at0 θ j ∧ at0 θ j ≤ hi) →
        Car1Bounds (10 * √v) (1 / dmin) (1 / span) θ := by
  obtain ⟨dmin, span, v, h1, h2, h3, h4, h5, -, hpv, hv, h6⟩ := mleBox_eq hn ht y 1 q
  refine ⟨dmin, span, v, _, h1, h2, hpv, h6, fun θ hθ => ?_⟩
  rw [if_pos rfl] at hθ
  have b0 := hθ 0 _ _ rfl
  have b1 := hθ 1 _ _ rfl
  have b3 := hθ 3 _ _ rfl
  have hspan : 0 < span := lt_of_lt_of_le h3 h4
  have hlo : 0 < 1 / span := by positivity
  have hhi : 0 < 0.9 * (1 / dmin) := by positivity
  refine ⟨⟨le_trans (by positivity) b0.1, b0.2, le_trans (by norm_num) b1.1, b1.2.trans (by norm_num)⟩, ?_, ?_⟩
  · exact (Real.log_le_iff_le_exp hlo).mp b3.1
  · refine ((Real.le_log_iff_exp_le hhi).mp b3.2).trans ?_
    have : 0 < 1 / dmin := by positivity
    linarith

/-- **C52 fails with two observations.** For `p = 1` the interval for `log omega` is empty: its lower end is above its upper end. -/
theorem C52_two_points {t : Fin 2 → ℝ} (ht : StrictMono t) (y : Fin 2 → ℝ) (q : ℕ) :
    ∃ box lo hi, Py.mleBox (List.ofFn t) (List.ofFn y) 1 q = .ok box ∧ box[3]? = some (some (lo, hi)) ∧ hi < lo := by
  obtain ⟨dmin, span, v, h1, h2, h3, h4, h5, h7, hpv, hv, h6⟩ := mleBox_eq le_rfl ht y 1 q
  rw [if_pos rfl] at h6
  refine ⟨_, _, _, h6, rfl, ?_⟩
  rw [h7 rfl] at h3 ⊢
  apply Real.log_lt_log (by positivity)
  have : 0 < 1 / span := by positivity
  linarith

example : StrictMono (![0, 1] : Fin 2 → ℝ) := by
  intro i j hij
  fin_cases i <;> fin_cases j <;> simp at hij ⊢

end Verif.Props
