import Verif.Theory.Iid
import Verif.Spec.Stationary
import Mathlib.MeasureTheory.Measure.Prod
import Mathlib.MeasureTheory.Measure.WithDensity
import Mathlib.MeasureTheory.Measure.Lebesgue.Basic

/-!
Metropolis steps that use random numbers from a sequence of independent draws leave the measure with the target density, together with the
law of the numbers still to come, unchanged.
-/

namespace Verif.Theory

open MeasureTheory Verif.Model Verif.Spec ENNReal

theorem unifLaw_lt {a : ℝ} (h1 : a ≤ 1) : unifLaw {v | v < a} = ENNReal.ofReal a := by
  have e : {v | v < a} ∩ Set.Ico (0 : ℝ) 1 = Set.Ico 0 a := by
    ext v
    simp only [Set.mem_inter_iff, Set.mem_ofPred_eq, Set.mem_Ico]
    constructor
    · rintro ⟨h, h2, -⟩; exact ⟨h2, h⟩
    · rintro ⟨h, h2⟩; exact ⟨h2, h, h2.trans_le h1⟩
  have hm : MeasurableSet {v : ℝ | v < a} := measurableSet_lt measurable_id measurable_const
  rw [unifLaw, Measure.restrict_apply hm, e, Real.volume_Ico, sub_zero]

/-- Mean over a uniform draw of one of two values. -/
theorem lintegral_unif_ite {a : ℝ} (h1 : a ≤ 1) (p q : ℝ≥0∞) :
    ∫⁻ v, (if v < a then p else q) ∂unifLaw = ENNReal.ofReal a * p + (1 - ENNReal.ofReal a) * q := by
  have hm : MeasurableSet {v : ℝ | v < a} := measurableSet_lt measurable_id measurable_const
  have e : (fun v : ℝ => if v < a then p else q) =
      fun v => Set.indicator {v : ℝ | v < a} (fun _ => p) v + Set.indicator {v : ℝ | v < a}ᶜ (fun _ => q) v := by
    funext v
    by_cases h : v < a <;> simp [h]
  rw [e, lintegral_add_left (measurable_const.indicator hm), lintegral_indicator_const hm, lintegral_indicator_const hm.compl,
    measure_compl hm (measure_ne_top _ _), unifLaw_lt h1, measure_univ, mul_comm p, mul_comm q]

instance {ν : Measure ℝ} [IsProbabilityMeasure ν] : IsProbabilityMeasure (drawsOf ν) := by unfold drawsOf; infer_instance

/-- The exchange symmetry behind a Metropolis step: moves `T s`, undone by the moves of the mirrored draw `N s`. -/
theorem mirror_symm {X Ω : Type} [MeasurableSpace X] [MeasurableSpace Ω] {l : Measure X} [SFinite l] {P : Measure Ω} [SFinite P]
    {T : Ω → X → X} {N : Ω → Ω} (hT : Measurable fun z : X × Ω => T z.2 z.1) (hTp : ∀ s, MeasurePreserving (T s) l l)
    (hN : MeasurePreserving N P P) (hinv : ∀ s x, T (N s) (T s x) = x) {W : X → ℝ≥0∞} (hW : Measurable W)
    {k : X → Ω → ℝ≥0∞} (hk : Measurable fun z : X × Ω => k z.1 z.2) (hkN : ∀ s x, k x (N s) = k x s) :
    ∫⁻ s, ∫⁻ x, min (W x) (W (T s x)) * k (T s x) s ∂l ∂P = ∫⁻ s, ∫⁻ x, min (W x) (W (T s x)) * k x s ∂l ∂P := by
  have hk' : Measurable fun z : X × Ω => min (W z.1) (W (T z.2 z.1)) * k (T z.2 z.1) z.2 := by
    refine ((hW.comp measurable_fst).min (hW.comp hT)).mul ?_
    exact hk.comp (hT.prodMk measurable_snd)
  have hG : Measurable fun s => ∫⁻ x, min (W x) (W (T s x)) * k (T s x) s ∂l := hk'.lintegral_prod_left'
  rw [← hN.lintegral_comp hG]
  refine lintegral_congr fun s => ?_
  have h2 : Measurable fun x => min (W x) (W (T (N s) x)) * k (T (N s) x) (N s) :=
    hk'.comp (measurable_id.prodMk measurable_const)
  rw [← (hTp s).lintegral_comp h2]
  refine lintegral_congr fun x => ?_
  rw [hinv, hkN, min_comm]

open scoped Classical in
/-- One Metropolis step: `T s x` is proposed; on `F` a uniform number decides with acceptance probability `a`, outside `F` the proposal is
rejected without a draw; `κ` removes the draws used for the proposal. -/
noncomputable def metroMap {X Ω : Type} (T : Ω → X → X) (κ : Ω → Ω) (F : Set (X × Ω)) (a : X × Ω → ℝ) (z : X × Ω × (ℕ → ℝ)) :
    X × Ω × (ℕ → ℝ) :=
  if (z.1, z.2.1) ∈ F then
    if z.2.2 0 < a (z.1, z.2.1) then (T z.2.1 z.1, κ z.2.1, Rng.skip 1 z.2.2) else (z.1, κ z.2.1, Rng.skip 1 z.2.2)
  else (z.1, κ z.2.1, z.2.2)

section
variable {X Ω : Type} [MeasurableSpace X] [MeasurableSpace Ω] {l : Measure X} [SFinite l] {P : Measure Ω} [SFinite P]
  {T : Ω → X → X} {κ : Ω → Ω} {F : Set (X × Ω)} {a : X × Ω → ℝ}

theorem metroMap_measurable (hT : Measurable fun z : X × Ω => T z.2 z.1) (hκ : Measurable κ) (hF : MeasurableSet F)
    (ha : Measurable a) : Measurable (metroMap T κ F a) := by
  have p1 : Measurable fun z : X × Ω × (ℕ → ℝ) => (z.1, z.2.1) := measurable_fst.prodMk (measurable_fst.comp measurable_snd)
  have p2 : Measurable fun z : X × Ω × (ℕ → ℝ) => z.2.2 := measurable_snd.comp measurable_snd
  have p3 : Measurable fun z : X × Ω × (ℕ → ℝ) => κ z.2.1 := hκ.comp (measurable_fst.comp measurable_snd)
  have p4 : Measurable fun z : X × Ω × (ℕ → ℝ) => Rng.skip 1 z.2.2 := (measurable_skip 1).comp p2
  refine Measurable.ite (p1 hF) (Measurable.ite ?_ ?_ ?_) ?_
  · exact measurableSet_lt ((measurable_pi_apply 0).comp p2) (ha.comp p1)
  · exact (hT.comp p1).prodMk (p3.prodMk p4)
  · exact measurable_fst.prodMk (p3.prodMk p4)
  · exact measurable_fst.prodMk (p3.prodMk p2)

open scoped Classical in
/-- Probability that the proposal of a Metropolis step is accepted. -/
noncomputable def metroAcc (F : Set (X × Ω)) (a : X × Ω → ℝ) (x : X) (s : Ω) : ℝ≥0∞ := if (x, s) ∈ F then ENNReal.ofReal (a (x, s)) else 0

omit [MeasurableSpace X] [MeasurableSpace Ω] in
theorem metroAcc_le_one (ha1 : ∀ z ∈ F, a z ≤ 1) (x : X) (s : Ω) : metroAcc F a x s ≤ 1 := by
  unfold metroAcc
  split
  · rename_i h
    exact ENNReal.ofReal_le_one.mpr (ha1 _ h)
  · exact zero_le_one

theorem metroAcc_measurable (hF : MeasurableSet F) (ha : Measurable a) : Measurable fun z : X × Ω => metroAcc F a z.1 z.2 := by
  classical
  exact Measurable.ite hF (ENNReal.measurable_ofReal.comp ha) measurable_const

/-- Mean over the uniform numbers of a Metropolis step. -/
theorem metro_inner (hT : Measurable fun z : X × Ω => T z.2 z.1) (hκ : Measurable κ) (hF : MeasurableSet F) (ha : Measurable a)
    (ha1 : ∀ z ∈ F, a z ≤ 1) {g : X × Ω × (ℕ → ℝ) → ℝ≥0∞} (hg : Measurable g) (x : X) (s : Ω) :
    ∫⁻ u, g (metroMap T κ F a (x, s, u)) ∂(drawsOf unifLaw) = metroAcc F a x s * ∫⁻ u, g (T s x, κ s, u) ∂(drawsOf unifLaw) +
      (1 - metroAcc F a x s) * ∫⁻ u, g (x, κ s, u) ∂(drawsOf unifLaw) := by
  classical
  have hmeas := metroMap_measurable hT hκ hF ha
  by_cases h : (x, s) ∈ F
  · have e1 : metroAcc F a x s = ENNReal.ofReal (a (x, s)) := if_pos h
    have hmx : Measurable fun u : ℕ → ℝ => g (metroMap T κ F a (x, s, u)) :=
      hg.comp (hmeas.comp (measurable_const.prodMk (measurable_const.prodMk measurable_id)))
    have e2 : ∀ (v : ℝ) (u : ℕ → ℝ), g (metroMap T κ F a (x, s, consSeq (v, u))) =
        if v < a (x, s) then g (T s x, κ s, u) else g (x, κ s, u) := by
      intro v u
      have h0 : consSeq (v, u) 0 = v := rfl
      simp only [metroMap, h, if_true, h0, skip_consSeq]
      split <;> rfl
    have e3 : ∀ v : ℝ, ∫⁻ u, g (metroMap T κ F a (x, s, consSeq (v, u))) ∂(drawsOf unifLaw) =
        if v < a (x, s) then ∫⁻ u, g (T s x, κ s, u) ∂(drawsOf unifLaw) else ∫⁻ u, g (x, κ s, u) ∂(drawsOf unifLaw) := by
      intro v
      simp only [e2]
      split <;> rfl
    unfold drawsOf at e3 ⊢
    rw [lintegral_iid hmx]
    simp only [e3]
    rw [lintegral_unif_ite (ha1 _ h), e1]
  · have e1 : metroAcc F a x s = 0 := if_neg h
    have e2 : ∀ u : ℕ → ℝ, metroMap T κ F a (x, s, u) = (x, κ s, u) := by
      intro u
      simp only [metroMap, h, if_false]
    simp only [e1, e2, zero_mul, zero_add, tsub_zero, one_mul]

/-- A Metropolis step preserves the target. -/
theorem metroMap_preserving {N : Ω → Ω} (hT : Measurable fun z : X × Ω => T z.2 z.1) (hTp : ∀ s, MeasurePreserving (T s) l l)
    (hN : MeasurePreserving N P P) (hinv : ∀ s x, T (N s) (T s x) = x) (hκ : MeasurePreserving κ P P) (hκN : ∀ s, κ (N s) = κ s)
    (hF : MeasurableSet F) (ha : Measurable a) (ha1 : ∀ z ∈ F, a z ≤ 1) {W : X → ℝ≥0∞} (hW : Measurable W)
    (hWa : ∀ x s, (x, s) ∈ F → W x * ENNReal.ofReal (a (x, s)) = min (W x) (W (T s x)))
    (hW0 : ∀ x s, (x, s) ∉ F → min (W x) (W (T s x)) = 0) :
    MeasurePreserving (metroMap T κ F a) ((l.withDensity W).prod (P.prod (drawsOf unifLaw))) ((l.withDensity W).prod (P.prod (drawsOf unifLaw))) := by
  classical
  have hmeas := metroMap_measurable hT hκ.measurable hF ha
  refine ⟨hmeas, Measure.ext_of_lintegral _ fun g hg => ?_⟩
  rw [lintegral_map hg hmeas]
  -- mean over the uniform numbers
  let k : X → Ω → ℝ≥0∞ := fun x s => ∫⁻ u, g (x, κ s, u) ∂(drawsOf unifLaw)
  have hk : Measurable fun z : X × Ω => k z.1 z.2 := by
    refine Measurable.lintegral_prod_right' (f := fun z : (X × Ω) × (ℕ → ℝ) => g (z.1.1, κ z.1.2, z.2)) ?_
    exact hg.comp ((measurable_fst.comp measurable_fst).prodMk ((hκ.measurable.comp (measurable_snd.comp measurable_fst)).prodMk measurable_snd))
  let A : X → Ω → ℝ≥0∞ := metroAcc F a
  have hA : Measurable fun z : X × Ω => A z.1 z.2 := metroAcc_measurable hF ha
  have hA1 : ∀ x s, A x s ≤ 1 := metroAcc_le_one ha1
  have hWA : ∀ x s, W x * A x s = min (W x) (W (T s x)) := by
    intro x s
    show W x * (if (x, s) ∈ F then ENNReal.ofReal (a (x, s)) else 0) = _
    split
    · rename_i h; exact hWa x s h
    · rename_i h; rw [mul_zero, hW0 x s h]
  have hinner : ∀ x s, ∫⁻ u, g (metroMap T κ F a (x, s, u)) ∂(drawsOf unifLaw) = A x s * k (T s x) s + (1 - A x s) * k x s :=
    fun x s => metro_inner hT hκ.measurable hF ha ha1 hg x s
  -- both sides as integrals over values and proposals
  have hexp : ∀ g' : X × Ω × (ℕ → ℝ) → ℝ≥0∞, Measurable g' → ∫⁻ z, g' z ∂((l.withDensity W).prod (P.prod (drawsOf unifLaw))) =
      ∫⁻ s, ∫⁻ x, W x * ∫⁻ u, g' (x, s, u) ∂(drawsOf unifLaw) ∂l ∂P := by
    intro g' hg'
    have m1 : Measurable fun z : X × Ω => ∫⁻ u, g' (z.1, z.2, u) ∂(drawsOf unifLaw) :=
      Measurable.lintegral_prod_right' (f := fun z : (X × Ω) × (ℕ → ℝ) => g' (z.1.1, z.1.2, z.2))
        (hg'.comp ((measurable_fst.comp measurable_fst).prodMk ((measurable_snd.comp measurable_fst).prodMk measurable_snd)))
    have m2 : ∀ x, Measurable fun w : Ω × (ℕ → ℝ) => g' (x, w) := fun x => hg'.comp (measurable_const.prodMk measurable_id)
    rw [lintegral_prod _ hg'.aemeasurable]
    have e : ∀ x, ∫⁻ w, g' (x, w) ∂(P.prod (drawsOf unifLaw)) = ∫⁻ s, ∫⁻ u, g' (x, s, u) ∂(drawsOf unifLaw) ∂P :=
      fun x => lintegral_prod _ (m2 x).aemeasurable
    simp only [e]
    rw [lintegral_withDensity_eq_lintegral_mul _ hW m1.lintegral_prod_right']
    have e' : ∀ x, (W * fun x => ∫⁻ s, ∫⁻ u, g' (x, s, u) ∂(drawsOf unifLaw) ∂P) x = ∫⁻ s, W x * ∫⁻ u, g' (x, s, u) ∂(drawsOf unifLaw) ∂P := by
      intro x
      rw [Pi.mul_apply, lintegral_const_mul]
      exact m1.comp (measurable_const.prodMk measurable_id)
    simp only [e']
    exact lintegral_lintegral_swap ((hW.comp measurable_fst).mul m1).aemeasurable
  rw [hexp _ hg]
  refine (hexp _ (hg.comp hmeas)).trans ?_
  simp only [Function.comp]
  simp only [hinner]
  have hmin : Measurable fun z : X × Ω => min (W z.1) (W (T z.2 z.1)) := (hW.comp measurable_fst).min (hW.comp hT)
  have hc : ∀ s : Ω, Measurable fun x : X => (x, s) := fun s => measurable_id.prodMk measurable_const
  have step1 : ∀ s, ∫⁻ x, W x * (A x s * k (T s x) s + (1 - A x s) * k x s) ∂l =
      (∫⁻ x, min (W x) (W (T s x)) * k (T s x) s ∂l) + ∫⁻ x, W x * (1 - A x s) * k x s ∂l := by
    intro s
    rw [← lintegral_add_left]
    · refine lintegral_congr fun x => ?_
      rw [mul_add, ← mul_assoc, ← mul_assoc, hWA]
    · exact (hmin.comp (hc s)).mul (hk.comp (hT.prodMk measurable_snd |>.comp (hc s)))
  have step2 : ∀ s, (∫⁻ x, min (W x) (W (T s x)) * k x s ∂l) + ∫⁻ x, W x * (1 - A x s) * k x s ∂l = ∫⁻ x, W x * k x s ∂l := by
    intro s
    have hm : Measurable fun x => min (W x) (W (T s x)) * k x s := (hmin.comp (hc s)).mul (hk.comp (hc s))
    rw [← lintegral_add_left hm]
    refine lintegral_congr fun x => ?_
    rw [← hWA, ← add_mul, ← mul_add, add_tsub_cancel_of_le (hA1 x s), mul_one]
  simp only [step1]
  have hm1 : Measurable fun s => ∫⁻ x, min (W x) (W (T s x)) * k (T s x) s ∂l :=
    Measurable.lintegral_prod_left' (f := fun z : X × Ω => min (W z.1) (W (T z.2 z.1)) * k (T z.2 z.1) z.2)
      (hmin.mul (hk.comp (hT.prodMk measurable_snd)))
  have hm2 : Measurable fun s => ∫⁻ x, min (W x) (W (T s x)) * k x s ∂l :=
    Measurable.lintegral_prod_left' (f := fun z : X × Ω => min (W z.1) (W (T z.2 z.1)) * k z.1 z.2) (hmin.mul hk)
  rw [lintegral_add_left hm1, mirror_symm hT hTp hN hinv hW hk (fun s x => by show ∫⁻ u, g (x, κ (N s), u) ∂(drawsOf unifLaw) = _; rw [hκN]),
    ← lintegral_add_left hm2]
  simp only [step2]
  have hm3 : Measurable fun s => ∫⁻ x, W x * ∫⁻ u, g (x, s, u) ∂(drawsOf unifLaw) ∂l := by
    refine Measurable.lintegral_prod_left' (f := fun z : X × Ω => W z.1 * ∫⁻ u, g (z.1, z.2, u) ∂(drawsOf unifLaw)) ?_
    refine (hW.comp measurable_fst).mul ?_
    refine Measurable.lintegral_prod_right' (f := fun z : (X × Ω) × (ℕ → ℝ) => g (z.1.1, z.1.2, z.2)) ?_
    exact hg.comp ((measurable_fst.comp measurable_fst).prodMk ((measurable_snd.comp measurable_fst).prodMk measurable_snd))
  exact hκ.lintegral_comp hm3

end
end Verif.Theory
