import Verif.Theory.Metropolis
import Verif.Spec.Balance
import Mathlib.MeasureTheory.Group.Measure
import Mathlib.MeasureTheory.Measure.Haar.OfBasis
import Mathlib.MeasureTheory.Measure.Lebesgue.EqHaar

/-!
RAM and exchange steps as maps on chain values and random numbers, and that they preserve the product of the tempered densities.
-/

namespace Verif.Theory

open MeasureTheory Verif.Model Verif.Spec ENNReal

variable {d N : ℕ}

/-- A log-density is measurable: the set where it is finite, and its values there. -/
structure MeasTarget (G : LogTarget d) : Prop where
  some : MeasurableSet {x | (G x).isSome = true}
  val : Measurable fun x => (G x).getD 0

/-- Target density to the power `1/T` through the value of the logarithm. -/
theorem tempered_eq (G : LogTarget d) (T : ℝ) (x : Fin d → ℝ) :
    tempered G T x = if (G x).isSome = true then ENNReal.ofReal (Real.exp ((G x).getD 0 / T)) else 0 := by
  unfold tempered
  cases G x <;> simp

theorem MeasTarget.tempered {G : LogTarget d} (hG : MeasTarget G) (T : ℝ) : Measurable (tempered G T) := by
  have e : Verif.Spec.tempered G T = fun x => if (G x).isSome = true then ENNReal.ofReal (Real.exp ((G x).getD 0 / T)) else 0 :=
    funext fun x => tempered_eq G T x
  rw [e]
  exact Measurable.ite hG.some (ENNReal.measurable_ofReal.comp (Real.measurable_exp.comp (hG.val.div_const T))) measurable_const

/-- The joint density. -/
noncomputable def joint (G : LogTarget d) (T : Fin N → ℝ) (x : Fin N → Fin d → ℝ) : ℝ≥0∞ := ∏ i, tempered G (T i) (x i)

theorem joint_measurable {G : LogTarget d} (hG : MeasTarget G) (T : Fin N → ℝ) : Measurable (joint G T) :=
  Finset.measurable_prod _ fun i _ => (hG.tempered (T i)).comp (measurable_pi_apply i)

/-- Acceptance of a move by the Metropolis rule, for two tempered densities. -/
theorem tempered_accept {l l' : ℝ} : ENNReal.ofReal (Real.exp l) * ENNReal.ofReal (min 1 (Real.exp (l' - l))) =
    min (ENNReal.ofReal (Real.exp l)) (ENNReal.ofReal (Real.exp l')) := by
  rw [← ENNReal.ofReal_mul (Real.exp_pos _).le, ← ENNReal.ofReal_min]
  congr 1
  rw [mul_min_of_nonneg _ _ (Real.exp_pos _).le, mul_one, ← Real.exp_add, add_sub_cancel]

/-! ### RAM steps -/

/-- The proposal of a RAM step of chain `i` with factor `L`. -/
def ramMove (i : Fin N) (L : Matrix (Fin d) (Fin d) ℝ) (s : ℕ → ℝ) (x : Fin N → Fin d → ℝ) : Fin N → Fin d → ℝ :=
  x + Pi.single i (fun j => ∑ k : Fin d, L k j * s k)

theorem ramMove_same (i : Fin N) (L : Matrix (Fin d) (Fin d) ℝ) (s : ℕ → ℝ) (x : Fin N → Fin d → ℝ) :
    ramMove i L s x i = fun j => x i j + ∑ k : Fin d, L k j * s k := by
  funext j
  simp [ramMove]

theorem ramMove_other {i j : Fin N} (h : j ≠ i) (L : Matrix (Fin d) (Fin d) ℝ) (s : ℕ → ℝ) (x : Fin N → Fin d → ℝ) :
    ramMove i L s x j = x j := by
  simp [ramMove, h]

/-- Where a RAM step draws a uniform number. -/
def ramSet (G : LogTarget d) (i : Fin N) (L : Matrix (Fin d) (Fin d) ℝ) : Set ((Fin N → Fin d → ℝ) × (ℕ → ℝ)) :=
  {w | (G (w.1 i)).isSome = true ∧ (G (ramMove i L w.2 w.1 i)).isSome = true}

/-- Acceptance probability of a RAM step. -/
noncomputable def ramProb (G : LogTarget d) (T : Fin N → ℝ) (i : Fin N) (L : Matrix (Fin d) (Fin d) ℝ)
    (w : (Fin N → Fin d → ℝ) × (ℕ → ℝ)) : ℝ :=
  min 1 (Real.exp (((G (ramMove i L w.2 w.1 i)).getD 0 - (G (w.1 i)).getD 0) / T i))

/-- A RAM step with fixed factor. -/
noncomputable def ramMap (G : LogTarget d) (T : Fin N → ℝ) (i : Fin N) (L : Matrix (Fin d) (Fin d) ℝ) : McState N d → McState N d :=
  metroMap (ramMove i L) (Rng.skip d) (ramSet G i L) (ramProb G T i L)

theorem ramMove_measurable (i : Fin N) (L : Matrix (Fin d) (Fin d) ℝ) :
    Measurable fun z : (Fin N → Fin d → ℝ) × (ℕ → ℝ) => ramMove i L z.2 z.1 := by
  have h1 : Measurable fun z : (Fin N → Fin d → ℝ) × (ℕ → ℝ) => (fun j => ∑ k : Fin d, L k j * z.2 k : Fin d → ℝ) := by
    refine measurable_pi_lambda _ fun j => Finset.measurable_sum _ fun k _ => ?_
    exact ((measurable_pi_apply (k : ℕ)).comp measurable_snd).const_mul _
  refine measurable_fst.add ?_
  refine measurable_pi_lambda _ fun j => ?_
  by_cases h : j = i
  · subst h
    simpa using h1
  · simp [Pi.single_eq_of_ne h]

theorem joint_update {G : LogTarget d} {T : Fin N → ℝ} {i : Fin N} {x y : Fin N → Fin d → ℝ} (h : ∀ j, j ≠ i → y j = x j) :
    joint G T x = tempered G (T i) (x i) * ∏ j ∈ Finset.univ.erase i, tempered G (T j) (x j) ∧
    joint G T y = tempered G (T i) (y i) * ∏ j ∈ Finset.univ.erase i, tempered G (T j) (x j) := by
  refine ⟨(Finset.mul_prod_erase _ _ (Finset.mem_univ i)).symm, ?_⟩
  have e : ∏ j ∈ Finset.univ.erase i, tempered G (T j) (x j) = ∏ j ∈ Finset.univ.erase i, tempered G (T j) (y j) :=
    Finset.prod_congr rfl fun j hj => by rw [h j (Finset.ne_of_mem_erase hj)]
  rw [e]
  exact (Finset.mul_prod_erase _ _ (Finset.mem_univ i)).symm

theorem min_mul_right_ennreal (a b c : ℝ≥0∞) : min (a * c) (b * c) = min a b * c := by
  rcases le_total a b with h | h
  · rw [min_eq_left h, min_eq_left (mul_le_mul_left h c)]
  · rw [min_eq_right h, min_eq_right (mul_le_mul_left h c)]

theorem ramMap_preserving {G : LogTarget d} (hG : MeasTarget G) {T : Fin N → ℝ} (i : Fin N) (L : Matrix (Fin d) (Fin d) ℝ)
    {ν : Measure ℝ} [IsProbabilityMeasure ν] (hν : ν.map (fun x => -x) = ν) :
    MeasurePreserving (ramMap G T i L) (mcLaw G T ν) (mcLaw G T ν) := by
  have hm := ramMove_measurable (N := N) i L
  have hx : Measurable fun w : (Fin N → Fin d → ℝ) × (ℕ → ℝ) => w.1 i := (measurable_pi_apply i).comp measurable_fst
  have hy : Measurable fun w : (Fin N → Fin d → ℝ) × (ℕ → ℝ) => ramMove i L w.2 w.1 i := (measurable_pi_apply i).comp hm
  refine metroMap_preserving (N := flipSeq d) hm (fun s => measurePreserving_add_right volume _) (flipSeq_preserving d hν) ?_
    (skip_preserving d) (skip_flipSeq d) ((hx hG.some).inter (hy hG.some)) ?_ ?_ (joint_measurable hG T) ?_ ?_
  · intro s x
    have e : ∀ j : Fin d, ∑ k : Fin d, L k j * flipSeq d s k = -∑ k : Fin d, L k j * s k := by
      intro j
      rw [← Finset.sum_neg_distrib]
      refine Finset.sum_congr rfl fun k _ => ?_
      simp [flipSeq]
    funext m j
    by_cases h : m = i
    · subst h
      rw [ramMove_same, ramMove_same]
      show x m j + _ + ∑ k : Fin d, L k j * flipSeq d s k = x m j
      rw [e]
      ring
    · rw [ramMove_other h, ramMove_other h]
  · exact measurable_const.min (Real.measurable_exp.comp (((hG.val.comp hy).sub (hG.val.comp hx)).div_const _))
  · intro z _
    exact min_le_left _ _
  · intro x s ⟨h1, h2⟩
    replace h1 : (G (x i)).isSome = true := h1
    replace h2 : (G (ramMove i L s x i)).isSome = true := h2
    obtain ⟨e1, e2⟩ := joint_update (G := G) (T := T) (x := x) (y := ramMove i L s x) (i := i) fun j hj => ramMove_other hj L s x
    show joint G T x * _ = min (joint G T x) (joint G T (ramMove i L s x))
    rw [e1, e2, min_mul_right_ennreal, mul_right_comm, tempered_eq,
      if_pos h1, tempered_eq, if_pos h2, ← tempered_accept, ← sub_div]
    rfl
  · intro x s hF
    obtain ⟨e1, e2⟩ := joint_update (G := G) (T := T) (x := x) (y := ramMove i L s x) (i := i) fun j hj => ramMove_other hj L s x
    show min (joint G T x) (joint G T (ramMove i L s x)) = 0
    rw [e1, e2, min_mul_right_ennreal]
    have : tempered G (T i) (x i) = 0 ∨ tempered G (T i) (ramMove i L s x i) = 0 := by
      by_contra hcon
      rw [not_or, tempered_eq, tempered_eq] at hcon
      refine hF ⟨?_, ?_⟩
      · by_contra h; exact hcon.1 (if_neg h)
      · by_contra h; exact hcon.2 (if_neg h)
    rcases this with h | h <;> simp [h]

/-! ### exchange steps -/

/-- Swap the values of two chains. -/
def swapMove (i j : Fin N) (_ : ℕ → ℝ) (x : Fin N → Fin d → ℝ) : Fin N → Fin d → ℝ := fun k => x (Equiv.swap i j k)

/-- Acceptance probability of a swap. -/
noncomputable def swapAcc (G : LogTarget d) (T : Fin N → ℝ) (i j : Fin N) (w : (Fin N → Fin d → ℝ) × (ℕ → ℝ)) : ℝ :=
  if (G (w.1 i)).isSome = true ∧ (G (w.1 j)).isSome = true then swapSpec (T i) (T j) ((G (w.1 i)).getD 0) ((G (w.1 j)).getD 0) else 0

/-- An exchange step of chains `i` and `j`. -/
noncomputable def exchMap (G : LogTarget d) (T : Fin N → ℝ) (i j : Fin N) : McState N d → McState N d :=
  metroMap (swapMove i j) id Set.univ (swapAcc G T i j)

theorem joint_swap {G : LogTarget d} {T : Fin N → ℝ} {i j : Fin N} (hij : i ≠ j) (x : Fin N → Fin d → ℝ) :
    joint G T x = tempered G (T i) (x i) * tempered G (T j) (x j) * ∏ k ∈ (Finset.univ.erase i).erase j, tempered G (T k) (x k) ∧
    ∀ s, joint G T (swapMove i j s x) =
      tempered G (T i) (x j) * tempered G (T j) (x i) * ∏ k ∈ (Finset.univ.erase i).erase j, tempered G (T k) (x k) := by
  have hj : j ∈ Finset.univ.erase i := Finset.mem_erase.mpr ⟨hij.symm, Finset.mem_univ j⟩
  have key : ∀ y : Fin N → Fin d → ℝ, joint G T y =
      tempered G (T i) (y i) * tempered G (T j) (y j) * ∏ k ∈ (Finset.univ.erase i).erase j, tempered G (T k) (y k) := by
    intro y
    rw [mul_assoc, Finset.mul_prod_erase _ (fun k => tempered G (T k) (y k)) hj,
      Finset.mul_prod_erase _ (fun k => tempered G (T k) (y k)) (Finset.mem_univ i)]
    rfl
  refine ⟨key x, fun s => ?_⟩
  rw [key]
  have e : ∏ k ∈ (Finset.univ.erase i).erase j, tempered G (T k) (swapMove i j s x k) =
      ∏ k ∈ (Finset.univ.erase i).erase j, tempered G (T k) (x k) := by
    refine Finset.prod_congr rfl fun k hk => ?_
    have h1 : k ≠ j := Finset.ne_of_mem_erase hk
    have h2 : k ≠ i := Finset.ne_of_mem_erase (Finset.mem_of_mem_erase hk)
    simp only [swapMove, Equiv.swap_apply_of_ne_of_ne h2 h1]
  rw [e]
  simp only [swapMove, Equiv.swap_apply_left, Equiv.swap_apply_right]

theorem exchMap_preserving {G : LogTarget d} (hG : MeasTarget G) {T : Fin N → ℝ} {i j : Fin N} (hij : i ≠ j)
    {ν : Measure ℝ} [IsProbabilityMeasure ν] : MeasurePreserving (exchMap G T i j) (mcLaw G T ν) (mcLaw G T ν) := by
  have hx : ∀ k : Fin N, Measurable fun w : (Fin N → Fin d → ℝ) × (ℕ → ℝ) => w.1 k := fun k => (measurable_pi_apply k).comp measurable_fst
  have hm : ∀ k : Fin N, Measurable fun w : (Fin N → Fin d → ℝ) × (ℕ → ℝ) => (G (w.1 k)).getD 0 := fun k => hG.val.comp (hx k)
  refine metroMap_preserving (N := id) ?_ ?_ (MeasurePreserving.id _) ?_ (MeasurePreserving.id _) (fun _ => rfl) .univ ?_ ?_
    (joint_measurable hG T) ?_ (fun x s h => absurd (Set.mem_univ _) h)
  · exact measurable_pi_lambda _ fun k => hx _
  · intro s
    have h := volume_measurePreserving_piCongrLeft (fun _ : Fin N => Fin d → ℝ) (Equiv.swap i j)
    have e : (MeasurableEquiv.piCongrLeft (fun _ : Fin N => Fin d → ℝ) (Equiv.swap i j) : (Fin N → Fin d → ℝ) → _) = swapMove i j s := by
      funext x k
      have := Equiv.piCongrLeft_apply_apply (fun _ : Fin N => Fin d → ℝ) (Equiv.swap i j) x (Equiv.swap i j k)
      rw [Equiv.swap_apply_self] at this
      exact this
    rw [← e]
    exact h
  · intro s x
    funext k
    simp [swapMove]
  · refine Measurable.ite ((hx i hG.some).inter (hx j hG.some)) ?_ measurable_const
    exact measurable_const.min (Real.measurable_exp.comp
      ((((hm j).div_const _).add ((hm i).div_const _)).sub (((hm i).div_const _).add ((hm j).div_const _))))
  · intro z _
    unfold swapAcc
    split
    · exact min_le_left _ _
    · exact zero_le_one
  · intro x s _
    obtain ⟨e1, e2⟩ := joint_swap (G := G) (T := T) hij x
    show joint G T x * _ = min (joint G T x) (joint G T (swapMove i j s x))
    rw [e1, e2 s, min_mul_right_ennreal, mul_right_comm]
    congr 1
    simp only [swapAcc, tempered_eq]
    by_cases h1 : (G (x i)).isSome = true
    · by_cases h2 : (G (x j)).isSome = true
      · simp only [h1, h2, and_self, if_true, ← ENNReal.ofReal_mul (Real.exp_pos _).le, ← Real.exp_add]
        rw [← tempered_accept, ENNReal.ofReal_mul (Real.exp_pos _).le]
        rfl
      · simp [h2]
    · simp [h1]

end Verif.Theory
