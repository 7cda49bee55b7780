import Verif.Theory.Fresh
import Mathlib.MeasureTheory.Measure.Lebesgue.EqHaar
import Mathlib.MeasureTheory.Constructions.Pi
import Mathlib.MeasureTheory.Measure.AbsolutelyContinuous

/-!
Proposals of RAM steps and Lebesgue measure have the same null sets.
-/

namespace Verif.Theory

open MeasureTheory Verif.Model Verif.Spec ENNReal

/-- Absolute continuity of products. -/
theorem pi_ac {μ ν : Measure ℝ} [SigmaFinite μ] [SigmaFinite ν] (h : μ ≪ ν) :
    ∀ d : ℕ, Measure.pi (fun _ : Fin d => μ) ≪ Measure.pi fun _ : Fin d => ν := by
  intro d
  induction d with
  | zero =>
      rw [Measure.pi_of_empty, Measure.pi_of_empty]
  | succ d ih =>
      have e1 := (measurePreserving_piFinSuccAbove (fun _ : Fin (d + 1) => μ) 0).symm
      have e2 := (measurePreserving_piFinSuccAbove (fun _ : Fin (d + 1) => ν) 0).symm
      rw [← e1.map_eq, ← e2.map_eq]
      exact (h.prod ih).map (MeasurableEquiv.measurable _)

variable {d : ℕ} {ν : Measure ℝ} [IsProbabilityMeasure ν]

/-- The first `d` numbers. -/
theorem map_first (d : ℕ) : (drawsOf ν).map (fun (s : ℕ → ℝ) (k : Fin d) => s k) = Measure.pi fun _ : Fin d => ν := by
  have hm : Measurable fun (s : ℕ → ℝ) (k : Fin d) => s k := measurable_pi_lambda _ fun k => measurable_pi_apply (k : ℕ)
  refine (Measure.pi_eq fun t ht => ?_).symm
  rw [Measure.map_apply hm (.univ_pi ht)]
  let t' : ℕ → Set ℝ := fun i => if h : i < d then t ⟨i, h⟩ else Set.univ
  have ht' : ∀ i ∈ Finset.range d, MeasurableSet (t' i) := by
    intro i hi
    have hi := Finset.mem_range.mp hi
    simp only [t', hi, dif_pos]
    exact ht _
  have e : (fun (s : ℕ → ℝ) (k : Fin d) => s k) ⁻¹' Set.pi Set.univ t = Set.pi (Finset.range d) t' := by
    ext s
    simp only [Set.mem_preimage, Set.mem_pi, Set.mem_univ, true_implies, Finset.mem_coe, Finset.mem_range]
    constructor
    · intro h i hi
      simp only [t', hi, dif_pos]
      exact h ⟨i, hi⟩
    · intro h k
      have := h k k.2
      simpa only [t', k.2, dif_pos] using this
  rw [e, drawsOf, Measure.infinitePi_pi _ ht', Finset.prod_range]
  refine Finset.prod_congr rfl fun k _ => ?_
  simp only [t', k.2, dif_pos]

/-- A proposal is an affine image of the draws. -/
theorem jump_eq (L : Matrix (Fin d) (Fin d) ℝ) (q : Fin d → ℝ) :
    jump ν L q = ((Measure.pi fun _ : Fin d => ν).map (Matrix.toLin' L.transpose)).map (q + ·) := by
  have m1 : Measurable fun (s : ℕ → ℝ) (k : Fin d) => s k := measurable_pi_lambda _ fun k => measurable_pi_apply (k : ℕ)
  have m2 : Measurable (Matrix.toLin' L.transpose : (Fin d → ℝ) → Fin d → ℝ) := (LinearMap.continuous_of_finiteDimensional _).measurable
  have m3 : Measurable fun y : Fin d → ℝ => q + y := measurable_const_add q
  rw [← map_first (ν := ν), Measure.map_map m2 m1, Measure.map_map m3 (m2.comp m1)]
  unfold jump
  congr 1

theorem jump_volume {L : Matrix (Fin d) (Fin d) ℝ} (hL : L.det ≠ 0) (q : Fin d → ℝ) :
    ∃ c : ℝ≥0∞, c ≠ 0 ∧ ((Measure.pi fun _ : Fin d => (volume : Measure ℝ)).map (Matrix.toLin' L.transpose)).map (q + ·) = c • volume := by
  have hT : L.transpose.det ≠ 0 := by rw [Matrix.det_transpose]; exact hL
  refine ⟨ENNReal.ofReal |(L.transpose.det)⁻¹|, ?_, ?_⟩
  · exact (ENNReal.ofReal_pos.mpr (abs_pos.mpr (inv_ne_zero hT))).ne'
  · have h := Real.map_matrix_volume_pi_eq_smul_volume_pi hT
    rw [volume_pi] at h ⊢
    rw [h, Measure.map_smul, map_add_left_eq_self]

theorem jump_ac {L : Matrix (Fin d) (Fin d) ℝ} (hL : L.det ≠ 0) (hν : ν ≪ volume) (q : Fin d → ℝ) : jump ν L q ≪ volume := by
  have m2 : Measurable (Matrix.toLin' L.transpose : (Fin d → ℝ) → Fin d → ℝ) := (LinearMap.continuous_of_finiteDimensional _).measurable
  obtain ⟨c, -, hc⟩ := jump_volume hL q
  rw [jump_eq]
  refine (((pi_ac hν d).map m2).map (measurable_const_add q)).trans ?_
  rw [hc]
  exact Measure.smul_absolutelyContinuous

theorem volume_ac_jump {L : Matrix (Fin d) (Fin d) ℝ} (hL : L.det ≠ 0) (hν : volume ≪ ν) (q : Fin d → ℝ) : volume ≪ jump ν L q := by
  have m2 : Measurable (Matrix.toLin' L.transpose : (Fin d → ℝ) → Fin d → ℝ) := (LinearMap.continuous_of_finiteDimensional _).measurable
  obtain ⟨c, hc0, hc⟩ := jump_volume hL q
  rw [jump_eq]
  refine (Measure.absolutelyContinuous_smul hc0).trans ?_
  rw [← hc]
  exact ((pi_ac hν d).map m2).map (measurable_const_add q)

end Verif.Theory
