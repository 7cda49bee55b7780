import Verif.Theory.Fresh
import Mathlib.MeasureTheory.Integral.Prod
import Mathlib.MeasureTheory.Function.ConvergenceInMeasure
import Mathlib.MeasureTheory.Measure.Decomposition.Lebesgue

/-!
Limits of the laws of a chain, without averaging over time.
-/

namespace Verif.Theory

open MeasureTheory Filter Topology
open scoped ENNReal

/-- Integrals tending to 0: a subsequence tends to 0 almost everywhere. -/
theorem seq_ae {Y : Type} [MeasurableSpace Y] {μ : Measure Y} {g : ℕ → Y → ℝ} (hg : ∀ n, Integrable (g n) μ) (h0 : ∀ n y, 0 ≤ g n y)
    (h : Tendsto (fun n => ∫ y, g n y ∂μ) atTop (𝓝 0)) : ∃ ms : ℕ → ℕ, StrictMono ms ∧ ∀ᵐ y ∂μ, Tendsto (fun i => g (ms i) y) atTop (𝓝 0) := by
  refine (tendstoInMeasure_of_tendsto_eLpNorm (p := 1) (g := fun _ => (0 : ℝ)) one_ne_zero (fun n => (hg n).aestronglyMeasurable)
    aestronglyMeasurable_const ?_).exists_seq_tendsto_ae
  have e : ∀ n, eLpNorm (g n - fun _ => (0 : ℝ)) 1 μ = ENNReal.ofReal (∫ y, g n y ∂μ) := by
    intro n
    have : (g n - fun _ => (0 : ℝ)) = g n := by funext y; simp
    rw [this, eLpNorm_one_eq_lintegral_enorm, ofReal_integral_eq_lintegral_ofReal (hg n) (Eventually.of_forall (h0 n))]
    refine lintegral_congr fun y => ?_
    rw [Real.enorm_eq_ofReal (h0 n y)]
  simp only [e]
  have := ENNReal.tendsto_ofReal h
  rwa [ENNReal.ofReal_zero] at this

section
variable {X Ω : Type} [MeasurableSpace X] [MeasurableSpace Ω] {P : Measure Ω} [IsProbabilityMeasure P] {Φ : X × Ω → X × Ω} {π : Measure X}

/-- Probability that the chain started at `x` is in `A` after `n` steps. -/
noncomputable def after (P : Measure Ω) (Φ : X × Ω → X × Ω) (A : Set X) (n : ℕ) (x : X) : ℝ := P.real {w | (Φ^[n] (x, w)).1 ∈ A}

theorem after_avg (hΦ : Measurable Φ) {A : Set X} (hA : MeasurableSet A) (n : ℕ) (x : X) :
    after P Φ A n x = (avg P Φ^[n] (A.indicator 1) x).toReal := by rw [avg_indicator (hΦ.iterate n) hA]; rfl

theorem after_nonneg (A : Set X) (n : ℕ) (x : X) : 0 ≤ after P Φ A n x := ENNReal.toReal_nonneg

theorem after_le_one (A : Set X) (n : ℕ) (x : X) : after P Φ A n x ≤ 1 := measureReal_le_one

theorem after_measurable (hΦ : Measurable Φ) {A : Set X} (hA : MeasurableSet A) (n : ℕ) : Measurable (after P Φ A n) := by
  have : after P Φ A n = fun x => (avg P Φ^[n] (A.indicator 1) x).toReal := funext fun x => after_avg hΦ hA n x
  rw [this]
  exact (avg_measurable (hΦ.iterate n) (measurable_one.indicator hA)).ennreal_toReal

/-- The Markov property. -/
theorem after_add (hΦ : Regen P Φ) {A : Set X} (hA : MeasurableSet A) (n k : ℕ) (x : X) :
    ∫ w, after P Φ A n (Φ^[k] (x, w)).1 ∂P = after P Φ A (n + k) x := by
  have hm : Measurable (A.indicator (1 : X → ℝ≥0∞)) := measurable_one.indicator hA
  have h1 := congrFun (avg_comp (hΦ.iterate n).meas (hΦ.iterate k) hm) x
  rw [after_avg hΦ.meas hA, Function.iterate_add, h1]
  simp only [after_avg hΦ.meas hA]
  have hm2 := avg_measurable (P := P) (hΦ.iterate n).meas hm
  rw [avg, ← integral_toReal]
  · exact (hm2.comp (measurable_fst.comp ((hΦ.iterate k).meas.comp (measurable_const.prodMk measurable_id)))).aemeasurable
  · refine Eventually.of_forall fun w => ?_
    rw [avg_indicator (hΦ.iterate n).meas hA]
    exact measure_lt_top _ _

variable [SigmaFinite π]

theorem after_mean (hp : MeasurePreserving Φ (π.prod P) (π.prod P)) {A : Set X} (hA : MeasurableSet A) (n : ℕ) :
    ∫⁻ x, avg P Φ^[n] (A.indicator 1) x ∂π = π A := by
  have hpn := hp.iterate n
  have hm : Measurable fun z : X × Ω => A.indicator (1 : X → ℝ≥0∞) z.1 := (measurable_one.indicator hA).comp measurable_fst
  have h1 : ∫⁻ x, avg P Φ^[n] (A.indicator 1) x ∂π = ∫⁻ z, A.indicator 1 (Φ^[n] z).1 ∂(π.prod P) :=
    (lintegral_prod _ (hm.comp hpn.measurable).aemeasurable).symm
  rw [h1, hpn.lintegral_comp hm, lintegral_prod _ hm.aemeasurable]
  simp only [lintegral_const, measure_univ, mul_one]
  rw [lintegral_indicator_one hA]

theorem after_integrable (hp : MeasurePreserving Φ (π.prod P) (π.prod P)) {A : Set X} (hA : MeasurableSet A) (hfin : π A ≠ ∞) (n : ℕ) :
    Integrable (after P Φ A n) π := by
  have : after P Φ A n = fun x => (avg P Φ^[n] (A.indicator 1) x).toReal := funext fun x => after_avg hp.measurable hA n x
  rw [this]
  exact integrable_toReal_of_lintegral_ne_top (avg_measurable (hp.iterate n).measurable (measurable_one.indicator hA)).aemeasurable
    (by rw [after_mean hp hA]; exact hfin)

theorem after_integral (hp : MeasurePreserving Φ (π.prod P) (π.prod P)) {A : Set X} (hA : MeasurableSet A) (n : ℕ) :
    ∫ x, after P Φ A n x ∂π = π.real A := by
  simp only [after_avg hp.measurable hA]
  rw [integral_toReal (avg_measurable (hp.iterate n).measurable (measurable_one.indicator hA)).aemeasurable, after_mean hp hA]
  · rfl
  · refine Eventually.of_forall fun x => ?_
    rw [avg_indicator (hp.iterate n).measurable hA]
    exact measure_lt_top _ _

/-- Mean squares lose exactly what the chain spreads out. -/
theorem after_square (hΦ : Regen P Φ) (hp : MeasurePreserving Φ (π.prod P) (π.prod P)) {A : Set X} (hA : MeasurableSet A) (hfin : π A ≠ ∞) (n k : ℕ) :
    Integrable (fun z : X × Ω => (after P Φ A n (Φ^[k] z).1 - after P Φ A (n + k) z.1) ^ 2) (π.prod P) ∧
    ∫ z, (after P Φ A n (Φ^[k] z).1 - after P Φ A (n + k) z.1) ^ 2 ∂(π.prod P) =
      ∫ x, after P Φ A n x ^ 2 ∂π - ∫ x, after P Φ A (n + k) x ^ 2 ∂π := by
  have hpm := hp.iterate k
  have sq : ∀ j, Integrable (fun x => after P Φ A j x ^ 2) π := fun j => by
    have := (after_integrable hp hA hfin j).bdd_mul (after_measurable (P := P) hp.measurable hA j).aestronglyMeasurable (c := 1)
      (Eventually.of_forall fun x => by rw [Real.norm_eq_abs, abs_of_nonneg (after_nonneg _ _ _)]; exact after_le_one _ _ _)
    simpa only [sq] using this
  set u : X → ℝ := after P Φ A n with hu
  set v : X → ℝ := after P Φ A (n + k) with hv
  have mu : Measurable u := after_measurable hp.measurable hA n
  have mv : Measurable v := after_measurable hp.measurable hA (n + k)
  have i1 : Integrable (fun z : X × Ω => v z.1) (π.prod P) := (after_integrable hp hA hfin _).comp_fst P
  have i2 : Integrable (fun z : X × Ω => u (Φ^[k] z).1) (π.prod P) :=
    hpm.integrable_comp_of_integrable (g := fun z : X × Ω => u z.1) ((after_integrable hp hA hfin n).comp_fst P)
  have m1 : Measurable fun z : X × Ω => v z.1 := mv.comp measurable_fst
  have b1 : ∀ z : X × Ω, ‖v z.1‖ ≤ 1 := fun z => by rw [Real.norm_eq_abs, abs_of_nonneg (after_nonneg _ _ _)]; exact after_le_one _ _ _
  have i11 : Integrable (fun z : X × Ω => v z.1 ^ 2) (π.prod P) := (sq (n + k)).comp_fst P
  have i12 : Integrable (fun z : X × Ω => v z.1 * u (Φ^[k] z).1) (π.prod P) := i2.bdd_mul m1.aestronglyMeasurable (c := 1) (Eventually.of_forall b1)
  have i22 : Integrable (fun z : X × Ω => u (Φ^[k] z).1 ^ 2) (π.prod P) :=
    hpm.integrable_comp_of_integrable (g := fun z : X × Ω => u z.1 ^ 2) ((sq n).comp_fst P)
  have e11 : ∫ z : X × Ω, v z.1 ^ 2 ∂(π.prod P) = ∫ x, v x ^ 2 ∂π := by
    rw [integral_prod _ i11]
    simp only [integral_const, probReal_univ, one_smul]
  have e22 : ∫ z, u (Φ^[k] z).1 ^ 2 ∂(π.prod P) = ∫ x, u x ^ 2 ∂π := by
    have h1 := integral_map (μ := π.prod P) hpm.measurable.aemeasurable (f := fun z : X × Ω => u z.1 ^ 2)
      ((mu.comp measurable_fst).pow_const 2).aestronglyMeasurable
    rw [hpm.map_eq, integral_prod _ ((sq n).comp_fst P)] at h1
    simp only [integral_const, probReal_univ, one_smul] at h1
    exact h1.symm
  have e12 : ∫ z, v z.1 * u (Φ^[k] z).1 ∂(π.prod P) = ∫ x, v x ^ 2 ∂π := by
    rw [integral_prod _ i12]
    refine integral_congr_ae (Eventually.of_forall fun y => ?_)
    dsimp only
    rw [integral_const_mul, hu, after_add hΦ hA, ← hv, pow_two]
  have ex : ∀ z : X × Ω, (u (Φ^[k] z).1 - v z.1) ^ 2 = u (Φ^[k] z).1 ^ 2 - 2 * (v z.1 * u (Φ^[k] z).1) + v z.1 ^ 2 := fun z => by ring
  have a1 : Integrable (fun z : X × Ω => u (Φ^[k] z).1 ^ 2 - 2 * (v z.1 * u (Φ^[k] z).1)) (π.prod P) := i22.sub (i12.const_mul 2)
  simp only [ex]
  refine ⟨a1.add i11, ?_⟩
  rw [integral_add a1 i11, integral_sub i22 (i12.const_mul 2), integral_const_mul, e22, e12, e11]
  ring

/-- Every subsequence of the probabilities of `A` has a subsequence that comes close to constants, almost everywhere. -/
theorem after_constants (hΦ : Regen P Φ) (hp : MeasurePreserving Φ (π.prod P) (π.prod P)) {m : ℕ}
    (hirr : ∀ᵐ x ∂π, ∀ A, MeasurableSet A → π A ≠ 0 → P {w | (Φ^[m] (x, w)).1 ∈ A} ≠ 0) (hne : π ≠ 0) {A : Set X} (hA : MeasurableSet A)
    (hfin : π A ≠ ∞) {ns : ℕ → ℕ} (hns : Tendsto ns atTop atTop) : ∃ (ms : ℕ → ℕ) (c : ℕ → ℝ), StrictMono ms ∧ (∀ j, 0 ≤ c j ∧ c j ≤ 1) ∧
      ∀ᵐ y ∂π, Tendsto (fun j => after P Φ A (ns (ms j)) y - c j) atTop (𝓝 0) := by
  set D : ℕ → ℝ := fun n => ∫ x, after P Φ A n x ^ 2 ∂π with hD
  have hanti : Antitone D := antitone_nat_of_succ_le fun n => by
    have h1 := (after_square hΦ hp hA hfin n 1).2
    have h2 : 0 ≤ ∫ z, (after P Φ A n (Φ^[1] z).1 - after P Φ A (n + 1) z.1) ^ 2 ∂(π.prod P) := integral_nonneg fun z => sq_nonneg _
    rw [h1] at h2
    exact sub_nonneg.mp h2
  have hbd : BddBelow (Set.range D) := ⟨0, by rintro _ ⟨n, rfl⟩; exact integral_nonneg fun x => sq_nonneg _⟩
  have hlim := tendsto_atTop_ciInf hanti hbd
  have hdiff : Tendsto (fun j => ∫ z, (after P Φ A (ns j) (Φ^[m] z).1 - after P Φ A (ns j + m) z.1) ^ 2 ∂(π.prod P)) atTop (𝓝 0) := by
    have h1 := (hlim.comp hns).sub ((hlim.comp (tendsto_add_atTop_nat m)).comp hns)
    rw [sub_self] at h1
    exact h1.congr fun j => ((after_square hΦ hp hA hfin (ns j) m).2).symm
  obtain ⟨ms, hms, hae⟩ := seq_ae (fun j => (after_square hΦ hp hA hfin (ns j) m).1) (fun j z => sq_nonneg _) hdiff
  have : (ae π).NeBot := ae_neBot.mpr hne
  obtain ⟨x0, k1, k2⟩ := ((Measure.ae_ae_of_ae_prod hae).and hirr).exists
  refine ⟨ms, fun j => after P Φ A (ns (ms j) + m) x0, hms, fun j => ⟨after_nonneg _ _ _, after_le_one _ _ _⟩, ?_⟩
  by_contra hc
  have hB : MeasurableSet {y | ¬ Tendsto (fun j => after P Φ A (ns (ms j)) y - after P Φ A (ns (ms j) + m) x0) atTop (𝓝 0)} :=
    (measurableSet_tendsto _ fun j => (after_measurable hp.measurable hA _).sub measurable_const).compl
  refine k2 _ hB hc ?_
  rw [measure_eq_zero_iff_ae_notMem]
  refine k1.mono fun w hw => not_not.mpr ?_
  have h1 : Tendsto (fun j => |after P Φ A (ns (ms j)) (Φ^[m] (x0, w)).1 - after P Φ A (ns (ms j) + m) x0|) atTop (𝓝 0) := by
    have h2 := (Real.continuous_sqrt.tendsto 0).comp hw
    rw [Real.sqrt_zero] at h2
    exact h2.congr fun j => Real.sqrt_sq_eq_abs _
  exact (tendsto_zero_iff_abs_tendsto_zero _).mpr h1

/-- From limits almost everywhere to limits from an eventually smooth state. -/
theorem after_from (hΦ : Regen P Φ) {A : Set X} (hA : MeasurableSet A) {c : ℝ} (hc : 0 ≤ c ∧ c ≤ 1)
    (h : ∀ ns : ℕ → ℕ, Tendsto ns atTop atTop → ∃ ms : ℕ → ℕ, ∀ᵐ y ∂π, Tendsto (fun j => after P Φ A (ns (ms j)) y) atTop (𝓝 c))
    {x : X} (hx : EventuallySmooth P Φ π x) : Tendsto (fun n => after P Φ A n x) atTop (𝓝 c) := by
  let Q : ℕ → Measure X := fun k => P.map fun w => (Φ^[k] (x, w)).1
  have hQm : ∀ k, Measurable fun w => (Φ^[k] (x, w)).1 := fun k =>
    measurable_fst.comp ((hΦ.iterate k).meas.comp (measurable_const.prodMk measurable_id))
  have hQp : ∀ k, IsProbabilityMeasure (Q k) := fun k => Measure.isProbabilityMeasure_map (hQm k).aemeasurable
  have hbound : ∀ n y, |after P Φ A n y - c| ≤ 1 := fun n y => by
    have h1 := after_nonneg (P := P) (Φ := Φ) A n y
    have h2 := after_le_one (P := P) (Φ := Φ) A n y
    rw [abs_le]; constructor <;> linarith [hc.1, hc.2]
  have hmeas : ∀ n, Measurable fun y => |after P Φ A n y - c| := fun n =>
    continuous_abs.measurable.comp ((after_measurable hΦ.meas hA n).sub measurable_const)
  have hint : ∀ n (ρ : Measure X) [IsFiniteMeasure ρ], Integrable (fun y => |after P Φ A n y - c|) ρ := fun n ρ _ =>
    Integrable.of_bound (hmeas n).aestronglyMeasurable 1 (Eventually.of_forall fun y => by rw [Real.norm_eq_abs, abs_abs]; exact hbound n y)
  -- a null set that carries the singular parts
  choose S hS1 hS2 hS3 using fun k => (Measure.mutuallySingular_singularPart (Q k) π)
  have hnull : π (⋃ k, (S k)ᶜ) = 0 := measure_iUnion_null fun k => hS3 k
  rw [Metric.tendsto_atTop]
  intro ε hε
  obtain ⟨k, hk⟩ := hx _ (MeasurableSet.iUnion fun k => (hS1 k).compl) hnull (ENNReal.ofReal (ε / 2)) (by simpa using by linarith)
  have hsing : (Q k).singularPart π Set.univ ≤ ENNReal.ofReal (ε / 2) := by
    have e : (Set.univ : Set X) ⊆ S k ∪ (S k)ᶜ := by rw [Set.union_compl_self]
    calc (Q k).singularPart π Set.univ ≤ (Q k).singularPart π (S k) + (Q k).singularPart π (S k)ᶜ := (measure_mono e).trans (measure_union_le _ _)
      _ = (Q k).singularPart π (S k)ᶜ := by rw [hS2 k, zero_add]
      _ ≤ Q k (S k)ᶜ := Measure.singularPart_le _ _ _
      _ ≤ Q k (⋃ k, (S k)ᶜ) := measure_mono (Set.subset_iUnion (fun k => (S k)ᶜ) k)
      _ ≤ _ := by
        rw [Measure.map_apply (hQm k) (MeasurableSet.iUnion fun k => (hS1 k).compl)]
        exact hk
  let ρ : Measure X := π.withDensity ((Q k).rnDeriv π)
  have hρQ : ρ ≤ Q k := Measure.withDensity_rnDeriv_le _ _
  have hρf : IsFiniteMeasure ρ := isFiniteMeasure_of_le _ hρQ
  have hσf : IsFiniteMeasure ((Q k).singularPart π) := isFiniteMeasure_of_le _ (Measure.singularPart_le _ _)
  have hρ : Tendsto (fun n => ∫ y, |after P Φ A n y - c| ∂ρ) atTop (𝓝 0) := by
    refine tendsto_of_subseq_tendsto fun ns hns => ?_
    obtain ⟨ms, hms⟩ := h ns hns
    refine ⟨ms, ?_⟩
    have hms' : ∀ᵐ y ∂ρ, Tendsto (fun j => after P Φ A (ns (ms j)) y) atTop (𝓝 c) := (withDensity_absolutelyContinuous _ _).ae_le hms
    have h1 := tendsto_integral_of_dominated_convergence (μ := ρ) (F := fun j y => |after P Φ A (ns (ms j)) y - c|) (f := fun _ => (0 : ℝ))
      (fun _ => 1) (fun j => (hmeas _).aestronglyMeasurable) (integrable_const 1)
      (fun j => Eventually.of_forall fun y => by rw [Real.norm_eq_abs, abs_abs]; exact hbound _ y)
      (hms'.mono fun y hy => by
        have := (hy.sub (tendsto_const_nhds (x := c))).abs
        rwa [sub_self, abs_zero] at this)
    rwa [integral_zero] at h1
  rw [Metric.tendsto_atTop] at hρ
  obtain ⟨M, hM⟩ := hρ (ε / 2) (by linarith)
  refine ⟨M + k, fun n hn => ?_⟩
  obtain ⟨n', rfl⟩ : ∃ n', n = n' + k := ⟨n - k, by omega⟩
  have h1 := hM n' (by omega)
  rw [Real.dist_eq, sub_zero] at h1
  have h2 : |after P Φ A (n' + k) x - c| ≤ ∫ y, |after P Φ A n' y - c| ∂(Q k) := by
    have e1 : after P Φ A (n' + k) x - c = ∫ w, (after P Φ A n' (Φ^[k] (x, w)).1 - c) ∂P := by
      rw [integral_sub _ (integrable_const c), after_add hΦ hA, integral_const, probReal_univ, one_smul]
      exact Integrable.of_bound ((after_measurable hΦ.meas hA n').comp (hQm k)).aestronglyMeasurable 1
        (Eventually.of_forall fun w => by rw [Real.norm_eq_abs, abs_of_nonneg (after_nonneg _ _ _)]; exact after_le_one _ _ _)
    have e2 : ∫ y, |after P Φ A n' y - c| ∂(Q k) = ∫ w, |after P Φ A n' (Φ^[k] (x, w)).1 - c| ∂P :=
      integral_map (hQm k).aemeasurable (hmeas n').aestronglyMeasurable
    rw [e1, e2]
    exact abs_integral_le_integral_abs
  have h3 : ∫ y, |after P Φ A n' y - c| ∂(Q k) = ∫ y, |after P Φ A n' y - c| ∂((Q k).singularPart π) + ∫ y, |after P Φ A n' y - c| ∂ρ := by
    conv_lhs => rw [Measure.haveLebesgueDecomposition_add (Q k) π]
    exact integral_add_measure (hint n' _) (hint n' ρ)
  have h4 : ∫ y, |after P Φ A n' y - c| ∂((Q k).singularPart π) ≤ ε / 2 := by
    calc ∫ y, |after P Φ A n' y - c| ∂((Q k).singularPart π) ≤ ∫ _, (1 : ℝ) ∂((Q k).singularPart π) :=
          integral_mono (hint n' _) (integrable_const 1) fun y => hbound n' y
      _ = ((Q k).singularPart π).real Set.univ := by rw [integral_const, smul_eq_mul, mul_one]
      _ ≤ ε / 2 := ENNReal.toReal_le_of_le_ofReal (by linarith) hsing
  have h5 := (abs_lt.mp h1).2
  rw [Real.dist_eq]
  linarith

/-- **The laws of the chain tend to the invariant law**, set by set, from every eventually smooth state. -/
theorem markov_limit [IsProbabilityMeasure π] (hΦ : Regen P Φ) (hp : MeasurePreserving Φ (π.prod P) (π.prod P)) {m : ℕ}
    (hirr : ∀ᵐ x ∂π, ∀ A, MeasurableSet A → π A ≠ 0 → P {w | (Φ^[m] (x, w)).1 ∈ A} ≠ 0) {A : Set X} (hA : MeasurableSet A) {x : X}
    (hx : EventuallySmooth P Φ π x) : Tendsto (fun n => P {w | (Φ^[n] (x, w)).1 ∈ A}) atTop (𝓝 (π A)) := by
  have key : Tendsto (fun n => after P Φ A n x) atTop (𝓝 (π.real A)) := by
    refine after_from hΦ hA ⟨measureReal_nonneg, measureReal_le_one⟩ (fun ns hns => ?_) hx
    obtain ⟨ms, c, hms, hc, hae⟩ := after_constants hΦ hp hirr (IsProbabilityMeasure.ne_zero π) hA (measure_ne_top π A) hns
    have h1 := tendsto_integral_of_dominated_convergence (μ := π) (F := fun j y => after P Φ A (ns (ms j)) y - c j) (f := fun _ => (0 : ℝ))
      (fun _ => 1) (fun j => ((after_measurable hΦ.meas hA _).sub measurable_const).aestronglyMeasurable) (integrable_const 1)
      (fun j => Eventually.of_forall fun y => by
        have g1 := after_nonneg (P := P) (Φ := Φ) A (ns (ms j)) y
        have g2 := after_le_one (P := P) (Φ := Φ) A (ns (ms j)) y
        rw [Real.norm_eq_abs, abs_le]; constructor <;> linarith [(hc j).1, (hc j).2]) hae
    rw [integral_zero] at h1
    have h2 : ∀ j, ∫ y, (after P Φ A (ns (ms j)) y - c j) ∂π = π.real A - c j := fun j => by
      rw [integral_sub (after_integrable hp hA (measure_ne_top π A) _) (integrable_const _), after_integral hp hA, integral_const, probReal_univ, one_smul]
    simp only [h2] at h1
    have h3 : Tendsto c atTop (𝓝 (π.real A)) := by
      have := (tendsto_const_nhds (x := π.real A)).sub h1
      simpa using this
    refine ⟨ms, hae.mono fun y hy => ?_⟩
    have := hy.add h3
    simpa using this
  have h2 := ENNReal.tendsto_ofReal key
  rw [ofReal_measureReal] at h2
  exact h2.congr fun n => ofReal_measureReal

/-- **Infinite invariant measure**: the probability of every set of finite measure tends to 0. -/
theorem markov_vanish (hΦ : Regen P Φ) (hp : MeasurePreserving Φ (π.prod P) (π.prod P)) {m : ℕ}
    (hirr : ∀ᵐ x ∂π, ∀ A, MeasurableSet A → π A ≠ 0 → P {w | (Φ^[m] (x, w)).1 ∈ A} ≠ 0) (hinf : π Set.univ = ∞) {A : Set X} (hA : MeasurableSet A)
    (hfin : π A ≠ ∞) {x : X} (hx : EventuallySmooth P Φ π x) : Tendsto (fun n => P {w | (Φ^[n] (x, w)).1 ∈ A}) atTop (𝓝 0) := by
  have hne : π ≠ 0 := fun h0 => by rw [h0] at hinf; simp at hinf
  have key : Tendsto (fun n => after P Φ A n x) atTop (𝓝 0) := by
    refine after_from hΦ hA ⟨le_rfl, zero_le_one⟩ (fun ns hns => ?_) hx
    obtain ⟨ms, c, hms, hc, hae⟩ := after_constants hΦ hp hirr hne hA hfin hns
    have h3 : ∃ ks : ℕ → ℕ, StrictMono ks ∧ Tendsto (c ∘ ks) atTop (𝓝 0) := by
      obtain ⟨a, -, ks, hks, ha⟩ := isCompact_Icc.tendsto_subseq (x := c) (s := Set.Icc (0 : ℝ) 1) (fun j => ⟨(hc j).1, (hc j).2⟩)
      refine ⟨ks, hks, ?_⟩
      suffices a = 0 by rwa [this] at ha
      by_contra ha0
      have ha1 : 0 < a := lt_of_le_of_ne (ge_of_tendsto' ha fun j => (hc _).1) (Ne.symm ha0)
      have hlim : ∀ᵐ y ∂π, Tendsto (fun j => ENNReal.ofReal (after P Φ A (ns (ms (ks j))) y)) atTop (𝓝 (ENNReal.ofReal a)) := hae.mono fun y hy => by
        have := (hy.comp hks.tendsto_atTop).add ha
        rw [zero_add] at this
        exact ENNReal.tendsto_ofReal (this.congr fun j => by simp [Function.comp])
      have hfatou := lintegral_liminf_le (μ := π) (u := atTop) (f := fun j y => ENNReal.ofReal (after P Φ A (ns (ms (ks j))) y))
        (fun j => (after_measurable hΦ.meas hA _).ennreal_ofReal)
      have e1 : ∫⁻ y, liminf (fun j => ENNReal.ofReal (after P Φ A (ns (ms (ks j))) y)) atTop ∂π = ∞ := by
        rw [lintegral_congr_ae (hlim.mono fun y hy => hy.liminf_eq), lintegral_const, hinf]
        exact ENNReal.mul_top (ENNReal.ofReal_pos.mpr ha1).ne'
      have e2 : ∀ n, ∫⁻ y, ENNReal.ofReal (after P Φ A n y) ∂π = π A := fun n => by
        rw [← after_mean hp hA n]
        refine lintegral_congr fun y => ?_
        rw [after_avg hΦ.meas hA, ENNReal.ofReal_toReal]
        rw [avg_indicator (hΦ.iterate n).meas hA]
        exact measure_ne_top _ _
      rw [e1] at hfatou
      simp only [e2, liminf_const] at hfatou
      exact hfin (top_le_iff.mp hfatou)
    obtain ⟨ks, hks, h4⟩ := h3
    refine ⟨ms ∘ ks, hae.mono fun y hy => ?_⟩
    have := (hy.comp hks.tendsto_atTop).add h4
    rw [zero_add] at this
    exact this.congr fun j => by simp [Function.comp]
  have h2 := ENNReal.tendsto_ofReal key
  rw [ENNReal.ofReal_zero] at h2
  exact h2.congr fun n => ofReal_measureReal

end
end Verif.Theory
