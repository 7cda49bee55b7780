import Mathlib.Probability.ProductMeasure
import Mathlib.MeasureTheory.Constructions.Pi
import Verif.Model.Rng

/-!
Infinite sequences of independent draws of one law: taking off the first ones, and changing the sign of the first ones.
-/

namespace Verif.Theory

open MeasureTheory Verif.Model

variable {ν : Measure ℝ} [IsProbabilityMeasure ν]

/-- Put a draw in front of a sequence. -/
def consSeq (z : ℝ × (ℕ → ℝ)) : ℕ → ℝ
  | 0 => z.1
  | i + 1 => z.2 i

theorem measurable_consSeq : Measurable consSeq := by
  refine measurable_pi_lambda _ fun i => ?_
  cases i with
  | zero => exact measurable_fst
  | succ i => exact (measurable_pi_apply i).comp measurable_snd

theorem measurable_skip (k : ℕ) : Measurable (Rng.skip k : (ℕ → ℝ) → ℕ → ℝ) :=
  measurable_pi_lambda _ fun i => measurable_pi_apply (i + k)

/-- Drawing one number and then a sequence is drawing a sequence. -/
theorem map_consSeq : (ν.prod (Measure.infinitePi fun _ : ℕ => ν)).map consSeq = Measure.infinitePi fun _ : ℕ => ν := by
  refine Measure.eq_infinitePi _ fun s t ht => ?_
  rw [Measure.map_apply measurable_consSeq (.pi s.countable_toSet fun i _ => ht i)]
  let s' : Finset ℕ := (s.erase 0).image Nat.pred
  have hpre : consSeq ⁻¹' (Set.pi s t) = (if 0 ∈ s then t 0 else Set.univ) ×ˢ (Set.pi s' fun i => t (i + 1)) := by
    ext ⟨a, b⟩
    simp only [Set.mem_preimage, Set.mem_pi, Set.mem_prod, Finset.mem_coe]
    constructor
    · intro h
      refine ⟨?_, ?_⟩
      · split
        · rename_i h0
          exact h 0 h0
        · trivial
      · intro i hi
        obtain ⟨j, hj, rfl⟩ := Finset.mem_image.mp hi
        obtain ⟨hj0, hj⟩ := Finset.mem_erase.mp hj
        obtain ⟨k, rfl⟩ := Nat.exists_eq_succ_of_ne_zero hj0
        exact h (k + 1) hj
    · rintro ⟨h1, h2⟩ i hi
      cases i with
      | zero => rw [if_pos hi] at h1; exact h1
      | succ i =>
          refine h2 i (Finset.mem_image.mpr ⟨i + 1, Finset.mem_erase.mpr ⟨by omega, hi⟩, rfl⟩)
  rw [hpre, Measure.prod_prod, Measure.infinitePi_pi _ (fun i _ => ht (i + 1))]
  have hs' : ∏ i ∈ s', ν (t (i + 1)) = ∏ i ∈ s.erase 0, ν (t i) := by
    rw [Finset.prod_image]
    · refine Finset.prod_congr rfl fun i hi => ?_
      obtain ⟨hj0, -⟩ := Finset.mem_erase.mp hi
      obtain ⟨k, rfl⟩ := Nat.exists_eq_succ_of_ne_zero hj0
      rfl
    · intro a ha b hb hab
      have ha := (Finset.mem_erase.mp ha).1
      have hb := (Finset.mem_erase.mp hb).1
      simp only [Nat.pred_eq_sub_one] at hab
      omega
  rw [hs']
  by_cases h0 : 0 ∈ s
  · rw [if_pos h0, Finset.mul_prod_erase s (fun i => ν (t i)) h0]
  · rw [if_neg h0, measure_univ, one_mul, Finset.erase_eq_of_notMem h0]

theorem skip_consSeq (z : ℝ × (ℕ → ℝ)) : Rng.skip 1 (consSeq z) = z.2 := rfl

theorem lintegral_iid {g : (ℕ → ℝ) → ENNReal} (hg : Measurable g) :
    ∫⁻ s, g s ∂(Measure.infinitePi fun _ : ℕ => ν) = ∫⁻ v, ∫⁻ s, g (consSeq (v, s)) ∂(Measure.infinitePi fun _ : ℕ => ν) ∂ν := by
  conv_lhs => rw [← map_consSeq, lintegral_map hg measurable_consSeq]
  exact lintegral_prod _ (hg.comp measurable_consSeq).aemeasurable

/-- What is left of a sequence of independent draws after the first `k` has the same law. -/
theorem skip_preserving (k : ℕ) :
    MeasurePreserving (Rng.skip k) (Measure.infinitePi fun _ : ℕ => ν) (Measure.infinitePi fun _ : ℕ => ν) := by
  refine ⟨measurable_skip k, ?_⟩
  induction k with
  | zero => exact Measure.map_id
  | succ k ih =>
      have e : (Rng.skip (k + 1) : (ℕ → ℝ) → ℕ → ℝ) = Rng.skip k ∘ Rng.skip 1 := by
        funext s i
        simp only [Rng.skip, Function.comp]
        congr 1
      have e1 : (Measure.infinitePi fun _ : ℕ => ν).map (Rng.skip 1) = Measure.infinitePi fun _ : ℕ => ν := by
        conv_lhs => rw [← map_consSeq]
        rw [Measure.map_map (measurable_skip 1) measurable_consSeq]
        exact Measure.map_snd_prod.trans (by rw [measure_univ, one_smul])
      rw [e, ← Measure.map_map (measurable_skip k) (measurable_skip 1), e1, ih]

/-- Change the sign of the first `d` terms of a sequence. -/
def flipSeq (d : ℕ) (s : ℕ → ℝ) : ℕ → ℝ := fun i => if i < d then - s i else s i

theorem flipSeq_preserving (d : ℕ) (hν : ν.map (fun x => -x) = ν) :
    MeasurePreserving (flipSeq d) (Measure.infinitePi fun _ : ℕ => ν) (Measure.infinitePi fun _ : ℕ => ν) := by
  have hm : ∀ i : ℕ, Measurable (fun x : ℝ => if i < d then -x else x) := by
    intro i
    split
    · exact measurable_neg
    · exact measurable_id
  refine ⟨measurable_pi_lambda _ fun i => (hm i).comp (measurable_pi_apply i), ?_⟩
  have := Measure.infinitePi_map_pi (μ := fun _ : ℕ => ν) (f := fun i x => if i < d then -x else x) hm
  refine this.trans ?_
  congr 1
  funext i
  by_cases h : i < d
  · simp only [h, if_true]; exact hν
  · simp only [h, if_false]; exact Measure.map_id

theorem skip_flipSeq (d : ℕ) (s : ℕ → ℝ) : Rng.skip d (flipSeq d s) = Rng.skip d s := by
  funext i
  simp [Rng.skip, flipSeq]

end Verif.Theory
