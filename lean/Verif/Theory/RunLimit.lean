import Verif.Theory.RunNull
import Verif.Theory.LimitSweep

/-!
Random states with random numbers to come that are independent of them, and the limit of the law of a run from such a state.
-/

namespace Verif.Theory

open MeasureTheory ProbabilityTheory Verif.Model Verif.Spec ENNReal Filter Topology

open scoped Classical

section
variable {X W : Type} [MeasurableSpace X] [MeasurableSpace W] {Q : Measure W} {O : Type*} [MeasurableSpace O] {P : Measure O}

/-- The random numbers `(Z ω).2` have the law `Q` and are independent of the state `(Z ω).1`. -/
structure Renewed (P : Measure O) (Q : Measure W) (Z : O → X × W) : Prop where
  meas : AEMeasurable Z P
  fresh : ∀ g : X × W → ℝ≥0∞, Measurable g → ∫⁻ ω, g (Z ω) ∂P = ∫⁻ ω, ∫⁻ w, g ((Z ω).1, w) ∂Q ∂P

theorem Renewed.regen [IsProbabilityMeasure Q] {Z : O → X × W} (hZ : Renewed P Q Z) {Φ : X × W → X × W} (hΦ : Regen Q Φ) : Renewed P Q fun ω => Φ (Z ω) := by
  refine ⟨hΦ.meas.comp_aemeasurable hZ.meas, fun g hg => ?_⟩
  have h1 : Measurable fun z : X × W => ∫⁻ w', g ((Φ z).1, w') ∂Q :=
    Measurable.lintegral_prod_right' (f := fun v : (X × W) × W => g ((Φ v.1).1, v.2))
      (hg.comp ((measurable_fst.comp (hΦ.meas.comp measurable_fst)).prodMk measurable_snd))
  have e1 := hZ.fresh (fun z => g (Φ z)) (hg.comp hΦ.meas)
  have e2 := hZ.fresh (fun z => ∫⁻ w', g ((Φ z).1, w') ∂Q) h1
  rw [e1, e2]
  exact lintegral_congr fun ω => hΦ.fresh _ g hg

/-- If from almost every state in `S` the probability of being in `A k` tends to `c`, the probability of being in `S` and later in `A k` tends to
`c` times that of being in `S`. -/
theorem Renewed.limit [IsProbabilityMeasure P] [IsProbabilityMeasure Q] {Z : O → X × W} (hZ : Renewed P Q Z) {S : Set X} (hS : MeasurableSet S) {A : ℕ → Set (X × W)}
    (hA : ∀ k, MeasurableSet (A k)) {c : ℝ≥0∞} (hl : ∀ x ∈ S, Tendsto (fun k => Q {w | (x, w) ∈ A k}) atTop (𝓝 c)) :
    Tendsto (fun k => P {ω | (Z ω).1 ∈ S ∧ Z ω ∈ A k}) atTop (𝓝 (P {ω | (Z ω).1 ∈ S} * c)) := by
  have hm : ∀ k, Measurable fun x : X => Q {w | (x, w) ∈ A k} := fun k => measurable_measure_prodMk_left (hA k)
  have e : ∀ k, P {ω | (Z ω).1 ∈ S ∧ Z ω ∈ A k} = ∫⁻ ω, S.indicator (fun x => Q {w | (x, w) ∈ A k}) (Z ω).1 ∂P := by
    intro k
    have hB : MeasurableSet ((Prod.fst ⁻¹' S) ∩ A k : Set (X × W)) := (measurable_fst hS).inter (hA k)
    have h1 := hZ.fresh (((Prod.fst ⁻¹' S) ∩ A k : Set (X × W)).indicator 1) (measurable_one.indicator hB)
    have h2 : ∫⁻ ω, ((Prod.fst ⁻¹' S) ∩ A k : Set (X × W)).indicator (1 : X × W → ℝ≥0∞) (Z ω) ∂P = P {ω | (Z ω).1 ∈ S ∧ Z ω ∈ A k} := by
      have h3 : NullMeasurableSet {ω | (Z ω).1 ∈ S ∧ Z ω ∈ A k} P := hZ.meas.nullMeasurableSet_preimage hB
      rw [← lintegral_indicator_one₀ h3]
      rfl
    rw [← h2, h1]
    refine lintegral_congr fun ω => ?_
    by_cases hx : (Z ω).1 ∈ S
    · rw [Set.indicator_of_mem hx]
      change _ = Q (Prod.mk (Z ω).1 ⁻¹' A k)
      rw [← lintegral_indicator_one (measurable_prodMk_left (hA k))]
      refine lintegral_congr fun w => ?_
      by_cases hw : ((Z ω).1, w) ∈ A k
      · rw [Set.indicator_of_mem (show ((Z ω).1, w) ∈ (Prod.fst ⁻¹' S) ∩ A k from ⟨hx, hw⟩), Set.indicator_of_mem (show w ∈ Prod.mk (Z ω).1 ⁻¹' A k from hw)]
        rfl
      · rw [Set.indicator_of_notMem (fun h => hw h.2), Set.indicator_of_notMem (show w ∉ Prod.mk (Z ω).1 ⁻¹' A k from hw)]
    · rw [Set.indicator_of_notMem hx]
      rw [← lintegral_zero (μ := Q)]
      refine lintegral_congr fun w => ?_
      rw [Set.indicator_of_notMem (fun h => hx h.1)]
  have e0 : P {ω | (Z ω).1 ∈ S} * c = ∫⁻ ω, S.indicator (fun _ => c) (Z ω).1 ∂P := by
    have h3 : NullMeasurableSet {ω | (Z ω).1 ∈ S} P := hZ.meas.nullMeasurableSet_preimage (measurable_fst hS)
    have : (fun ω => S.indicator (fun _ => c) (Z ω).1) = {ω | (Z ω).1 ∈ S}.indicator fun _ => c := by
      funext ω
      rfl
    rw [this, lintegral_indicator_const₀ h3, mul_comm]
  simp only [e]
  rw [e0]
  refine tendsto_lintegral_of_dominated_convergence' (fun _ => 1) (fun k => ?_) (fun k => Eventually.of_forall fun ω => ?_) (by simp) (Eventually.of_forall fun ω => ?_)
  · exact ((hm k).indicator hS).comp_aemeasurable (measurable_fst.comp_aemeasurable hZ.meas)
  · exact Set.indicator_apply_le' (fun _ => prob_le_one) fun _ => zero_le
  · by_cases hx : (Z ω).1 ∈ S
    · simp only [Set.indicator_of_mem hx]
      exact hl _ hx
    · simp only [Set.indicator_of_notMem hx]
      exact tendsto_const_nhds

end

section
variable {d N : ℕ} {G : LogTarget d} {T : Fin N → ℝ} {B : ℕ} {ν : Measure ℝ} [IsProbabilityMeasure ν] {O : Type*} [MeasurableSpace O] {P : Measure O}

/-- States with values of positive density and invertible factors. -/
def soundX (G : LogTarget d) (N : ℕ) : Set (RunX N d) := {x | Alive G x.1 ∧ ∀ i, (Matrix.of (x.2.1 i)).det ≠ 0}

theorem soundX_measurable (hG : MeasTarget G) : MeasurableSet (soundX G N) := by
  refine MeasurableSet.inter ?_ ?_
  · exact measurable_fst (alive_measurable hG)
  · have hdet : ∀ i : Fin N, Measurable fun x : RunX N d => (Matrix.of (x.2.1 i)).det := by
      intro i
      have hL : ∀ a b : Fin d, Measurable fun x : RunX N d => x.2.1 i a b := fun a b =>
        (measurable_pi_apply b).comp ((measurable_pi_apply a).comp ((measurable_pi_apply i).comp (measurable_fst.comp measurable_snd)))
      simp only [Matrix.det_apply', Matrix.of_apply]
      exact Finset.measurable_sum _ fun σ _ => (Finset.measurable_prod _ fun a _ => hL _ _).const_mul _
    have : {x : RunX N d | ∀ i, (Matrix.of (x.2.1 i)).det ≠ 0} = ⋂ i, (fun x : RunX N d => (Matrix.of (x.2.1 i)).det) ⁻¹' {0}ᶜ := by
      ext x; simp
    show MeasurableSet {x : RunX N d | ∀ i, (Matrix.of (x.2.1 i)).det ≠ 0}
    rw [this]
    exact MeasurableSet.iInter fun i => hdet i (measurableSet_singleton 0).compl

theorem soundX_stack (hN : 0 < N) {x : RunX N d} (hx : x ∈ soundX G N) : Stack N (stepsOf x.2.1 (stepOrder (N - 1))) := by
  refine ⟨hN, stepsOf_kinds _ _, fun i a ha => ?_⟩
  have hr : i < N := stepsOf_range hN x.2.1 _ ha
  unfold stepsOf at ha
  obtain ⟨⟨b, j⟩, hw, he⟩ := List.mem_map.mp ha
  cases b with
  | false => simp at he
  | true =>
      simp only [if_true] at he
      injection he with h1 h2
      subst h1
      rw [← h2]
      simp only [hr, dif_pos]
      exact hx.2 _

/-- The law of the chains without adaptation, from a sound state. -/
theorem frozen_limit (hG : MeasTarget G) (hprop : ∀ i, IsProper G (T i)) (hν : volume ≪ ν) (hν' : ν ≪ volume) (hsym : ν.map (fun x => -x) = ν)
    (hN : 0 < N) {x : RunX N d} (hx : x ∈ soundX G N) {A : Set (Fin N → Fin d → ℝ)} (hA : MeasurableSet A) :
    Tendsto (fun k => rngLaw ν {w | (runX G T 0 (stepOrder (N - 1)) k (x, w)).1.1 ∈ A}) atTop (𝓝 (independent G T A)) := by
  have h := sweeps_limit hG hν hν' hsym (soundX_stack hN hx) (stepsOf_range hN _) hprop hx.1 hA
  have e : ∀ k w, (runX G T 0 (stepOrder (N - 1)) k (x, w)).1.1 = (sweepsMap G T (stepsOf x.2.1 (stepOrder (N - 1))) k (x.1, w)).1 := by
    intro k w
    have h := (runX_frozen (G := G) (T := T) (B := 0) (stepOrder (N - 1)) (x, w) (L := x.2.1) rfl k).1
    rw [Nat.zero_add] at h
    exact congrArg (fun z : McState N d => z.1) h
  simp only [e]
  exact h

/-- Sweeps after the adaptive ones. -/
theorem runX_later (l : List (Bool × ℕ)) (z : RunZ N d) (m k : ℕ) :
    forget (runX G T B l (B + m + k) z) = forget (runX G T 0 l k (runX G T B l (B + m) z)) := by
  obtain ⟨h1, h2⟩ := runX_frozen (G := G) (T := T) (B := B) l z rfl m
  have h3 := (runX_frozen (G := G) (T := T) (B := B) l z rfl (m + k)).1
  have h4 := (runX_frozen (G := G) (T := T) (B := 0) l (runX G T B l (B + m) z) h2 k).1
  rw [Nat.zero_add] at h4
  rw [h4]
  change _ = sweepsMap G T _ k (forget (runX G T B l (B + m) z))
  rw [h1, Nat.add_assoc, h3]
  unfold sweepsMap
  rw [Nat.add_comm m k, Function.iterate_add_apply]

/-- **Limit of the law of a whole run** that starts from a random state with fresh random numbers. -/
theorem run_limit [IsProbabilityMeasure P] (hG : MeasTarget G) (hprop : ∀ i, IsProper G (T i)) (hν : volume ≪ ν) (hν' : ν ≪ volume) (hsym : ν.map (fun x => -x) = ν)
    (hN : 0 < N) {Z : O → RunZ N d} (hZ : Renewed P (rngLaw ν) Z) {thin : ℕ} (hthin : 0 < thin) {A : Set (Fin N → Fin d → ℝ)} (hA : MeasurableSet A) :
    Tendsto (fun k => P {ω | (runX G T B (stepOrder (N - 1)) (B + thin) (Z ω)).1 ∈ soundX G N ∧
        (runX G T B (stepOrder (N - 1)) (B + thin * (k + 1)) (Z ω)).1.1 ∈ A}) atTop
      (𝓝 (P {ω | (runX G T B (stepOrder (N - 1)) (B + thin) (Z ω)).1 ∈ soundX G N} * independent G T A)) := by
  have hpr := fun i => posterior_prob (hprop i)
  have hprob : IsProbabilityMeasure (independent G T) := by unfold independent; infer_instance
  have hR := hZ.regen (runX_regen (ν := ν) (T := T) (B := B) hG (stepOrder (N - 1)) (B + thin))
  have hm : ∀ k, MeasurableSet {z : RunZ N d | (runX G T 0 (stepOrder (N - 1)) (thin * k) z).1.1 ∈ A} := fun k =>
    (measurable_fst.comp (measurable_fst.comp (runX_regen (ν := ν) (T := T) (B := 0) hG (stepOrder (N - 1)) (thin * k)).meas)) hA
  have h := hR.limit (soundX_measurable (N := N) hG) hm (c := independent G T A) fun x hx =>
    (frozen_limit hG hprop hν hν' hsym hN hx hA).comp (tendsto_id.const_mul_atTop' hthin)
  refine h.congr fun k => ?_
  have e : ∀ ω, (runX G T B (stepOrder (N - 1)) (B + thin * (k + 1)) (Z ω)).1.1 =
      (runX G T 0 (stepOrder (N - 1)) (thin * k) (runX G T B (stepOrder (N - 1)) (B + thin) (Z ω))).1.1 := by
    intro ω
    have := runX_later (G := G) (T := T) (B := B) (stepOrder (N - 1)) (Z ω) thin (thin * k)
    rw [show B + thin + thin * k = B + thin * (k + 1) by ring] at this
    exact congrArg (fun z : McState N d => z.1) this
  simp only [e]
  rfl

/-- The values of the chains along such a run are random variables. -/
theorem run_meas (hG : MeasTarget G) {Z : O → RunZ N d} (hZ : Renewed P (rngLaw ν) Z) (m : ℕ) :
    AEMeasurable (fun ω => (runX G T B (stepOrder (N - 1)) m (Z ω)).1.1) P :=
  (measurable_fst.comp measurable_fst).comp_aemeasurable (hZ.regen (runX_regen (ν := ν) (T := T) (B := B) hG (stepOrder (N - 1)) m)).meas

end

end Verif.Theory
