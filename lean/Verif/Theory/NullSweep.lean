import Verif.Theory.NullAvg
import Verif.Theory.Average
import Mathlib.Analysis.Asymptotics.SpecificAsymptotics

/-!
Sweeps of parallel tempering for densities that cannot be normalised.
-/

namespace Verif.Theory

open MeasureTheory Verif.Model Verif.Spec ENNReal Filter Topology

variable {d N : ℕ} {G : LogTarget d} {T : Fin N → ℝ} {ν : Measure ℝ} [IsProbabilityMeasure ν]

theorem tempered_sigma (G : LogTarget d) (T : ℝ) : SigmaFinite ((volume : Measure (Fin d → ℝ)).withDensity (Verif.Spec.tempered G T)) :=
  SigmaFinite.withDensity_of_ne_top (Eventually.of_forall fun _ => tempered_ne_top)

theorem chainLaw_pi (hG : MeasTarget G) (T : Fin N → ℝ) :
    chainLaw G T = Measure.pi fun i => (volume : Measure (Fin d → ℝ)).withDensity (Verif.Spec.tempered G (T i)) :=
  (pi_withDensity (fun i => hG.tempered (T i)) fun i => tempered_sigma G (T i)).symm

theorem chainLaw_sigma (hG : MeasTarget G) (T : Fin N → ℝ) : SigmaFinite (chainLaw G T) := by
  have := fun i => tempered_sigma G (T i)
  rw [chainLaw_pi hG]
  infer_instance

theorem chainLaw_box (hG : MeasTarget G) (T : Fin N → ℝ) (D : Fin N → Set (Fin d → ℝ)) (hD : ∀ i, MeasurableSet (D i)) :
    chainLaw G T (Set.univ.pi D) = ∏ i, ∫⁻ x in D i, Verif.Spec.tempered G (T i) x := by
  have := fun i => tempered_sigma G (T i)
  rw [chainLaw_pi hG, Measure.pi_pi]
  exact Finset.prod_congr rfl fun i _ => withDensity_apply _ (hD i)

theorem prod_top {ι : Type} [DecidableEq ι] {s : Finset ι} {g : ι → ℝ≥0∞} (h0 : ∀ i ∈ s, g i ≠ 0) {i0 : ι} (hi : i0 ∈ s) (h : g i0 = ∞) :
    ∏ i ∈ s, g i = ∞ := by
  rw [← Finset.mul_prod_erase _ _ hi, h]
  exact ENNReal.top_mul (Finset.prod_ne_zero_iff.mpr fun i hi => h0 i (Finset.mem_of_mem_erase hi))

theorem chainLaw_top (hG : MeasTarget G) (h0 : ∀ i, mass G (T i) ≠ 0) {i0 : Fin N} (h : mass G (T i0) = ∞) : chainLaw G T Set.univ = ∞ := by
  have h1 := chainLaw_box hG T (fun _ => Set.univ) (fun _ => .univ)
  rw [Set.pi_univ] at h1
  rw [h1]
  simp only [Measure.restrict_univ]
  exact prod_top (fun i _ => h0 i) (Finset.mem_univ i0) h

/-- **Averages along the sweeps** of a function integrable under a joint law of infinite mass tend to 0. -/
theorem sweeps_null (hG : MeasTarget G) (h0 : ∀ i, mass G (T i) ≠ 0) {i0 : Fin N} (htop : mass G (T i0) = ∞) (hν : volume ≪ ν) (hν' : ν ≪ volume)
    (hsym : ν.map (fun x => -x) = ν) {l : List (StepSt d)} (hl : Stack N l) (hst : ∀ st ∈ l, InRange N st) {x : Fin N → Fin d → ℝ}
    (hx : Alive G x) {F : (Fin N → Fin d → ℝ) → ℝ} (hF : Measurable F) (hi : Integrable F (chainLaw G T)) {thin : ℕ} (hthin : 0 < thin) :
    ∀ᵐ w ∂(rngLaw ν), Tendsto (fun n : ℕ => (∑ k ∈ Finset.range n, F (sweepsMap G T l (thin * (k + 1)) (x, w)).1) / n) atTop (𝓝 0) := by
  have hvol : volume {y | (G y).isSome = true} ≠ 0 := by
    intro hv
    refine h0 i0 ?_
    unfold mass
    rw [lintegral_eq_zero_iff (hG.tempered _)]
    have h2 : ∀ᵐ y, y ∉ {y | (G y).isSome = true} := measure_eq_zero_iff_ae_notMem.mp hv
    refine h2.mono fun y hy => ?_
    by_contra hc
    exact hy (tempered_ne_zero.mp hc)
  have hsf := chainLaw_sigma hG T
  have hnull := chainLaw_null (T := T) hG
  let Φ : McState N d → McState N d := (listMap G T l)^[thin]
  have hit : ∀ n, Φ^[n] = (listMap G T l)^[thin * n] := fun n => (Function.iterate_mul _ _ _).symm
  have hreg : Regen (rngLaw ν) Φ := (list_regen hG T l).iterate thin
  have hpres : MeasurePreserving Φ ((chainLaw G T).prod (rngLaw ν)) ((chainLaw G T).prod (rngLaw ν)) := by
    have h1 := sweepsMap_preserving hG T hst hsym thin
    rw [sweepsMap_list] at h1
    exact h1
  have hirr : ∀ᵐ x ∂(chainLaw G T), ∀ A, MeasurableSet A → chainLaw G T A ≠ 0 → rngLaw ν {w | (Φ^[N] (x, w)).1 ∈ A} ≠ 0 := by
    have hal : ∀ᵐ x ∂(chainLaw G T), Alive G x := by
      rw [ae_iff, hnull]
      convert measure_empty (μ := (volume : Measure (Fin N → Fin d → ℝ)))
      ext x; simp
    refine hal.mono fun x hx A hA hpA => ?_
    rw [hit]
    exact reach hG hvol hν hl hA (fun h => hpA ((hnull A).mpr h)) (Nat.le_mul_of_pos_left N hthin) hx
  have hsm : EventuallySmooth (rngLaw ν) Φ (chainLaw G T) x := by
    intro A hA hA0 ε hε
    have h1 := leave (T := T) hG hvol hν hν' hl (hA.inter (alive_measurable hG)) ((hnull A).mp hA0) hx
    have h2 : Tendsto (fun n : ℕ => thin * n) atTop atTop := tendsto_id.const_mul_atTop' hthin
    have h3 := (h1.comp h2).eventually (ge_mem_nhds (pos_iff_ne_zero.mpr hε))
    obtain ⟨n, hn⟩ := h3.exists
    refine ⟨n, le_trans (measure_mono fun w hw => ?_) hn⟩
    rw [hit] at hw
    exact ⟨hw, alive_iterate _ hx⟩
  have hav := markov_null hreg hpres hirr (chainLaw_top hG h0 htop) hF hi hsm
  refine hav.mono fun w hw => ?_
  refine (tendsto_shift hw).congr fun n => ?_
  congr 1
  refine Finset.sum_congr rfl fun k _ => ?_
  rw [hit, sweepsMap_list]

theorem indicator_avg {Y : Type} (E : Set Y) (y : ℕ → Y) (n : ℕ) :
    |(∑ k ∈ Finset.range n, E.indicator (fun _ => (1 : ℝ)) (y k)) / n| ≤ 1 := by
  classical
  have h1 : ∀ k, 0 ≤ E.indicator (fun _ => (1 : ℝ)) (y k) ∧ E.indicator (fun _ => (1 : ℝ)) (y k) ≤ 1 := fun k => by
    by_cases h : y k ∈ E <;> simp [h]
  have h2 : 0 ≤ ∑ k ∈ Finset.range n, E.indicator (fun _ => (1 : ℝ)) (y k) := Finset.sum_nonneg fun k _ => (h1 k).1
  have h3 : ∑ k ∈ Finset.range n, E.indicator (fun _ => (1 : ℝ)) (y k) ≤ n := by
    have := Finset.sum_le_sum (s := Finset.range n) fun k _ => (h1 k).2
    simpa using this
  rw [abs_of_nonneg (by positivity)]
  exact div_le_one_of_le₀ h3 (Nat.cast_nonneg n)

theorem indicator_integrable {Y : Type} [MeasurableSpace Y] {μ : Measure Y} {E : Set Y} (hE : MeasurableSet E) (h : μ E ≠ ∞) :
    Integrable (E.indicator fun _ => (1 : ℝ)) μ := (integrable_indicator_iff hE).mpr (integrableOn_const h)

/-- Along random sequences that are in `E` for a vanishing share of the time, the shares of probability vanish. -/
theorem share_mean {Ω Y : Type} [MeasurableSpace Ω] [MeasurableSpace Y] {P : Measure Ω} [IsProbabilityMeasure P] {E : Set Y} (hE : MeasurableSet E)
    {y : ℕ → Ω → Y} (hy : ∀ k, Measurable (y k))
    (h : ∀ᵐ w ∂P, Tendsto (fun n : ℕ => (∑ k ∈ Finset.range n, E.indicator (fun _ => (1 : ℝ)) (y k w)) / n) atTop (𝓝 0)) :
    Tendsto (fun n : ℕ => (∑ k ∈ Finset.range n, P.real {w | y k w ∈ E}) / n) atTop (𝓝 0) := by
  have hm : ∀ k, Measurable fun w => E.indicator (fun _ => (1 : ℝ)) (y k w) := fun k => (measurable_const.indicator hE).comp (hy k)
  have h1 := tendsto_integral_of_dominated_convergence (μ := P) (F := fun (n : ℕ) w => (∑ k ∈ Finset.range n, E.indicator (fun _ => (1 : ℝ)) (y k w)) / n)
    (f := fun _ => (0 : ℝ)) (fun _ => (1 : ℝ)) (fun n => ((Finset.measurable_sum _ fun k _ => hm k).div_const _).aestronglyMeasurable)
    (integrable_const 1) (fun n => Eventually.of_forall fun w => indicator_avg E (fun k => y k w) n) h
  rw [integral_zero] at h1
  refine h1.congr fun n => ?_
  rw [integral_div, integral_finsetSum]
  · congr 1
    refine Finset.sum_congr rfl fun k _ => ?_
    have : (fun w => E.indicator (fun _ => (1 : ℝ)) (y k w)) = {w | y k w ∈ E}.indicator fun _ => (1 : ℝ) := rfl
    have h2 := integral_indicator_const (μ := P) (1 : ℝ) (s := {w | y k w ∈ E}) ((hy k) hE)
    rw [smul_eq_mul, mul_one] at h2
    rw [this]
    exact h2
  · intro k _
    refine Integrable.of_bound (hm k).aestronglyMeasurable 1 (Eventually.of_forall fun w => ?_)
    rw [Real.norm_eq_abs]
    by_cases hw : y k w ∈ E <;> simp [hw]

theorem cover_null {Y : Type} [MeasurableSpace Y] {L : Measure Y} [IsProbabilityMeasure L] {E : ℕ → Set Y} (hcov : ⋃ j, E j = Set.univ)
    (h : ∀ j, L.real (E j) = 0) : False := by
  have h1 : L Set.univ = 0 := by
    rw [← hcov]
    exact measure_iUnion_null fun j => (measureReal_eq_zero_iff (measure_ne_top _ _)).mp (h j)
  rw [measure_univ] at h1
  exact one_ne_zero h1

/-- The chains have no limiting law. -/
theorem sweeps_no_limit (hG : MeasTarget G) (h0 : ∀ i, mass G (T i) ≠ 0) {i0 : Fin N} (htop : mass G (T i0) = ∞) (hν : volume ≪ ν) (hν' : ν ≪ volume)
    (hsym : ν.map (fun x => -x) = ν) {l : List (StepSt d)} (hl : Stack N l) (hst : ∀ st ∈ l, InRange N st) {x : Fin N → Fin d → ℝ}
    (hx : Alive G x) {E : ℕ → Set (Fin N → Fin d → ℝ)} (hE : ∀ j, MeasurableSet (E j)) (hfin : ∀ j, chainLaw G T (E j) ≠ ∞)
    (hcov : ⋃ j, E j = Set.univ) (L : Measure (Fin N → Fin d → ℝ)) [IsProbabilityMeasure L] :
    ¬ ∀ A, MeasurableSet A → Tendsto (fun k => rngLaw ν {w | (sweepsMap G T l k (x, w)).1 ∈ A}) atTop (𝓝 (L A)) := by
  intro hlim
  have hmeas : ∀ k, Measurable fun w => (sweepsMap G T l k (x, w)).1 := by
    intro k
    rw [sweepsMap_list]
    exact measurable_fst.comp (((list_regen (ν := ν) hG T l).iterate k).meas.comp (measurable_const.prodMk measurable_id))
  refine cover_null (L := L) hcov fun j => ?_
  have h1 := sweeps_null hG h0 htop hν hν' hsym hl hst hx (measurable_const.indicator (hE j)) (indicator_integrable (hE j) (hfin j)) one_pos
  simp only [one_mul] at h1
  have h2 := share_mean (P := rngLaw ν) (hE j) (y := fun k w => (sweepsMap G T l (k + 1) (x, w)).1) (fun k => hmeas _) h1
  have h3 := ((ENNReal.tendsto_toReal (measure_ne_top L _)).comp (hlim (E j) (hE j))).comp (tendsto_add_atTop_nat 1)
  have h4 := h3.cesaro
  have h5 : Tendsto (fun n : ℕ => (∑ k ∈ Finset.range n, (rngLaw ν).real {w | (sweepsMap G T l (k + 1) (x, w)).1 ∈ E j}) / n) atTop (𝓝 (L (E j)).toReal) :=
    h4.congr fun n => by rw [div_eq_inv_mul]; rfl
  exact tendsto_nhds_unique h5 h2

/-- No law of the chains is kept by the sweeps. -/
theorem sweeps_no_law (hG : MeasTarget G) (h0 : ∀ i, mass G (T i) ≠ 0) {i0 : Fin N} (htop : mass G (T i0) = ∞) (hν : volume ≪ ν) (hν' : ν ≪ volume)
    (hsym : ν.map (fun x => -x) = ν) {l : List (StepSt d)} (hl : Stack N l) (hst : ∀ st ∈ l, InRange N st)
    {E : ℕ → Set (Fin N → Fin d → ℝ)} (hE : ∀ j, MeasurableSet (E j)) (hfin : ∀ j, chainLaw G T (E j) ≠ ∞)
    (hcov : ⋃ j, E j = Set.univ) (L : Measure (Fin N → Fin d → ℝ)) [IsProbabilityMeasure L] (hL : ∀ᵐ x ∂L, Alive G x) :
    ¬ MeasurePreserving (sweepsMap G T l 1) (L.prod (rngLaw ν)) (L.prod (rngLaw ν)) := by
  intro hp
  have hit : ∀ n, sweepsMap G T l n = (sweepsMap G T l 1)^[n] := fun n => by rw [sweepsMap_list, sweepsMap_list, Function.iterate_one]
  refine cover_null (L := L) hcov fun j => ?_
  have hpn : ∀ n, MeasurePreserving (sweepsMap G T l n) (L.prod (rngLaw ν)) (L.prod (rngLaw ν)) := fun n => by rw [hit]; exact hp.iterate n
  have hm : ∀ k, Measurable fun z : McState N d => (sweepsMap G T l k z).1 := fun k => measurable_fst.comp (hpn k).measurable
  have hae : ∀ᵐ z ∂L.prod (rngLaw ν), Tendsto (fun n : ℕ => (∑ k ∈ Finset.range n, (E j).indicator (fun _ => (1 : ℝ)) (sweepsMap G T l (k + 1) z).1) / n)
      atTop (𝓝 0) := by
    refine (Measure.ae_prod_iff_ae_ae ?_).mpr (hL.mono fun x hx => ?_)
    · exact measurableSet_tendsto _ fun n =>
        (Finset.measurable_sum _ fun k _ => (measurable_const.indicator (hE j)).comp (hm (k + 1))).div_const _
    · have h1 := sweeps_null hG h0 htop hν hν' hsym hl hst hx (measurable_const.indicator (hE j)) (indicator_integrable (hE j) (hfin j)) one_pos
      simp only [one_mul] at h1
      exact h1
  have h2 := share_mean (P := L.prod (rngLaw ν)) (hE j) (y := fun k z => (sweepsMap G T l (k + 1) z).1) (fun k => hm _) hae
  have h3 : ∀ k, (L.prod (rngLaw ν)).real {z | (sweepsMap G T l (k + 1) z).1 ∈ E j} = L.real (E j) := by
    intro k
    have e1 := (hpn (k + 1)).measure_preimage (measurable_fst (hE j)).nullMeasurableSet
    have e2 : (L.prod (rngLaw ν)) (Prod.fst ⁻¹' E j) = L (E j) := by
      rw [← Set.prod_univ, Measure.prod_prod, measure_univ, mul_one]
    exact congrArg ENNReal.toReal (e1.trans e2)
  simp only [h3] at h2
  have h4 : Tendsto (fun n : ℕ => (∑ k ∈ Finset.range n, L.real (E j)) / n) atTop (𝓝 (L.real (E j))) := by
    refine tendsto_const_nhds.congr' ?_
    filter_upwards [eventually_gt_atTop 0] with n hn
    have : (n : ℝ) ≠ 0 := by positivity
    rw [Finset.sum_const, Finset.card_range, nsmul_eq_mul]
    field_simp
  exact tendsto_nhds_unique h4 h2

end Verif.Theory
