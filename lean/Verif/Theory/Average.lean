import Verif.Theory.Visit
import Verif.Spec.Average
import Verif.Theory.KeepsLaw
import Verif.Props.Ram
import Mathlib.MeasureTheory.Integral.Bochner.ContinuousLinearMap
import Mathlib.MeasureTheory.Function.L1Space.Integrable

/-!
Averages along the sweeps of parallel tempering.
-/

namespace Verif.Theory

open MeasureTheory Verif.Model Verif.Spec ENNReal Filter Topology

/-- A product of densities is the density of the product. -/
theorem pi_withDensity {E : Type} [MeasureSpace E] [SigmaFinite (volume : Measure E)] : ∀ {N : ℕ} {g : Fin N → E → ℝ≥0∞}, (∀ i, Measurable (g i)) →
    (∀ i, SigmaFinite ((volume : Measure E).withDensity (g i))) →
    Measure.pi (fun i => (volume : Measure E).withDensity (g i)) = (volume : Measure (Fin N → E)).withDensity fun x => ∏ i, g i (x i) := by
  intro N
  induction N with
  | zero =>
      intro g _ _
      have e : (fun x : Fin 0 → E => ∏ i, g i (x i)) = 1 := by funext x; simp
      rw [e, withDensity_one, Measure.pi_of_empty, volume_pi, Measure.pi_of_empty]
  | succ N ih =>
      intro g hg hs
      have h1 := (measurePreserving_piFinSuccAbove (fun i => (volume : Measure E).withDensity (g i)) 0).symm
      have h2 := (measurePreserving_piFinSuccAbove (fun _ : Fin (N + 1) => (volume : Measure E)) 0).symm
      have hrest := ih (g := fun j => g ((0 : Fin (N + 1)).succAbove j)) (fun j => hg _) (fun j => hs _)
      rw [hrest] at h1
      have hm : Measurable fun x : Fin N → E => ∏ i, g ((0 : Fin (N + 1)).succAbove i) (x i) :=
        Finset.measurable_prod _ fun i _ => (hg _).comp (measurable_pi_apply i)
      have hm' : Measurable fun x : Fin (N + 1) → E => ∏ i, g i (x i) := Finset.measurable_prod _ fun i _ => (hg _).comp (measurable_pi_apply i)
      rw [prod_withDensity (hg 0) hm] at h1
      have hm2 : Measurable fun z : E × (Fin N → E) => g 0 z.1 * ∏ i, g ((0 : Fin (N + 1)).succAbove i) (z.2 i) :=
        ((hg 0).comp measurable_fst).mul (hm.comp measurable_snd)
      refine Measure.ext_of_lintegral _ fun F hF => ?_
      have hFe : Measurable fun z => F ((MeasurableEquiv.piFinSuccAbove (fun _ : Fin (N + 1) => E) 0).symm z) := hF.comp (MeasurableEquiv.measurable _)
      have hmF : Measurable fun x : Fin (N + 1) → E => (∏ i, g i (x i)) * F x := hm'.mul hF
      rw [← h1.map_eq, lintegral_map hF h1.measurable, lintegral_withDensity_eq_lintegral_mul _ hm2 hFe,
        lintegral_withDensity_eq_lintegral_mul _ hm' hF]
      refine Eq.trans ?_ (h2.lintegral_comp hmF)
      refine lintegral_congr fun z => ?_
      simp only [Pi.mul_apply]
      congr 1
      rw [Fin.prod_univ_succAbove _ 0]
      have e0 : (MeasurableEquiv.piFinSuccAbove (fun _ : Fin (N + 1) => E) 0).symm z = Fin.insertNth 0 z.1 z.2 := rfl
      rw [e0]
      simp

variable {d N : ℕ} {G : LogTarget d} {T : Fin N → ℝ} {ν : Measure ℝ} [IsProbabilityMeasure ν]

theorem tempered_ne_zero {T : ℝ} {x : Fin d → ℝ} : Verif.Spec.tempered G T x ≠ 0 ↔ (G x).isSome = true := by
  rw [tempered_eq]
  constructor
  · intro h
    by_contra hc
    exact h (if_neg hc)
  · intro h
    rw [if_pos h]
    exact (ENNReal.ofReal_pos.mpr (Real.exp_pos _)).ne'

theorem tempered_ne_top {T : ℝ} {x : Fin d → ℝ} : Verif.Spec.tempered G T x ≠ ⊤ := by
  rw [tempered_eq]
  split <;> simp

theorem chainLaw_null (hG : MeasTarget G) (A : Set (Fin N → Fin d → ℝ)) : chainLaw G T A = 0 ↔ volume (A ∩ {x | Alive G x}) = 0 := by
  have hj := joint_measurable hG T
  have e : {x | joint G T x ≠ 0} = {x | Alive G x} := by
    ext x
    simp only [Set.mem_ofPred_eq, joint, Finset.prod_ne_zero_iff, Finset.mem_univ, true_implies, tempered_ne_zero, Alive]
  have := withDensity_apply_eq_zero (μ := volume) (s := A) hj
  rw [e, Set.inter_comm] at this
  exact this

theorem alive_step {st : StepSt d} {z : McState N d} (h : Alive G z.1) : Alive G (stepMap G T st z).1 := by
  cases st with
  | ram i a =>
      by_cases hi : i < N
      · simp only [stepMap, hi, dif_pos, ramMap, metroMap]
        split
        · rename_i hF
          split
          · dsimp only
            rw [ramMove_update]
            exact alive_update h (by have := hF.2; rwa [ramMove_same] at this)
          · exact h
        · exact h
      · simp only [stepMap, hi, dif_neg, not_false_eq_true]; exact h
  | exch e =>
      by_cases hi : e.idx < N
      · simp only [stepMap, hi, dif_pos, exchMap, metroMap, Set.mem_univ, if_true]
        split
        · exact fun k => h _
        · exact h
      · simp only [stepMap, hi, dif_neg, not_false_eq_true]; exact h

theorem alive_list {l : List (StepSt d)} : ∀ {z : McState N d}, Alive G z.1 → Alive G (listMap G T l z).1 := by
  induction l with
  | nil => exact fun h => h
  | cons st l ih => exact fun h => ih (alive_step h)

theorem alive_iterate {l : List (StepSt d)} (n : ℕ) {z : McState N d} (h : Alive G z.1) : Alive G ((listMap G T l)^[n] z).1 := by
  induction n with
  | zero => exact h
  | succ n ih => rw [Function.iterate_succ_apply']; exact alive_list ih

theorem tendsto_shift {a : ℕ → ℝ} {m : ℝ} (h : Tendsto (fun n : ℕ => (∑ k ∈ Finset.range n, a k) / n) atTop (𝓝 m)) :
    Tendsto (fun n : ℕ => (∑ k ∈ Finset.range n, a (k + 1)) / n) atTop (𝓝 m) := by
  have h1 := h.comp (tendsto_add_atTop_nat 1)
  have h2 : Tendsto (fun n : ℕ => 1 + 1 / (n : ℝ)) atTop (𝓝 1) := by
    have := (tendsto_const_nhds (x := (1 : ℝ))).add (tendsto_one_div_atTop_nhds_zero_nat (𝕜 := ℝ))
    simpa using this
  have h3 : Tendsto (fun n : ℕ => a 0 * (1 / (n : ℝ))) atTop (𝓝 0) := by
    have := (tendsto_const_nhds (x := a 0)).mul (tendsto_one_div_atTop_nhds_zero_nat (𝕜 := ℝ))
    simpa using this
  have h4 := (h1.mul h2).sub h3
  rw [mul_one, sub_zero] at h4
  refine h4.congr' ?_
  filter_upwards [eventually_gt_atTop 0] with n hn
  have hn' : (n : ℝ) ≠ 0 := by positivity
  have hn1 : (n : ℝ) + 1 ≠ 0 := by positivity
  simp only [Function.comp, Nat.cast_add, Nat.cast_one]
  rw [Finset.sum_range_succ']
  field_simp
  ring

/-- **Strong law** for sweeps with fixed proposals. -/
theorem sweeps_average (hG : MeasTarget G) (hprop : ∀ i, IsProper G (T i)) (hν : volume ≪ ν) (hν' : ν ≪ volume)
    (hsym : ν.map (fun x => -x) = ν) {l : List (StepSt d)} (hl : Stack N l) (hst : ∀ st ∈ l, InRange N st) {x : Fin N → Fin d → ℝ}
    (hx : Alive G x) (i0 : Fin N) {f : (Fin d → ℝ) → ℝ} (hf : Measurable f) (hi : HasMean G (T i0) f) {thin : ℕ} (hthin : 0 < thin) :
    ∀ᵐ w ∂(rngLaw ν), Tendsto (fun n : ℕ => (∑ k ∈ Finset.range n, f ((sweepsMap G T l (thin * (k + 1)) (x, w)).1 i0)) / n) atTop
      (𝓝 (postMean G (T i0) f)) := by
  have hvol : volume {y | (G y).isSome = true} ≠ 0 := by
    intro h0
    have h1 := (hprop i0).1.ne'
    refine h1 ?_
    unfold mass
    rw [lintegral_eq_zero_iff (hG.tempered _)]
    have h2 : ∀ᵐ y, y ∉ {y | (G y).isSome = true} := measure_eq_zero_iff_ae_notMem.mp h0
    refine h2.mono fun y hy => ?_
    by_contra hc
    exact hy (tempered_ne_zero.mp hc)
  have hfin : ∀ i, IsFiniteMeasure ((volume : Measure (Fin d → ℝ)).withDensity (Verif.Spec.tempered G (T i))) := fun i =>
    isFiniteMeasure_withDensity (hprop i).2.ne
  have hpi : chainLaw G T = Measure.pi fun i => (volume : Measure (Fin d → ℝ)).withDensity (Verif.Spec.tempered G (T i)) :=
    (pi_withDensity (fun i => hG.tempered (T i)) fun i => inferInstance).symm
  have hmass : ∀ i, ((volume : Measure (Fin d → ℝ)).withDensity (Verif.Spec.tempered G (T i))) Set.univ = mass G (T i) := by
    intro i
    rw [withDensity_apply _ .univ, Measure.restrict_univ]; rfl
  have hZ : chainLaw G T Set.univ = ∏ i, mass G (T i) := by
    rw [hpi, Measure.pi_univ]
    exact Finset.prod_congr rfl fun i _ => hmass i
  have hZ0 : chainLaw G T Set.univ ≠ 0 := by
    rw [hZ, Finset.prod_ne_zero_iff]; exact fun i _ => (hprop i).1.ne'
  have hZT : chainLaw G T Set.univ ≠ ⊤ := by
    rw [hZ]; exact ENNReal.prod_ne_top fun i _ => (hprop i).2.ne
  let π : Measure (Fin N → Fin d → ℝ) := (chainLaw G T Set.univ)⁻¹ • chainLaw G T
  have hπ : IsProbabilityMeasure π := ⟨by
    show (chainLaw G T Set.univ)⁻¹ • chainLaw G T Set.univ = 1
    rw [smul_eq_mul, ENNReal.inv_mul_cancel hZ0 hZT]⟩
  have hnull : ∀ A, π A = 0 ↔ volume (A ∩ {x | Alive G x}) = 0 := by
    intro A
    rw [← chainLaw_null (T := T) hG]
    show (chainLaw G T Set.univ)⁻¹ • chainLaw G T A = 0 ↔ _
    rw [smul_eq_mul, mul_eq_zero]
    constructor
    · rintro (h | h)
      · exact absurd h (ENNReal.inv_ne_zero.mpr hZT)
      · exact h
    · exact Or.inr
  -- the chain
  let Φ : McState N d → McState N d := (listMap G T l)^[thin]
  have hit : ∀ n, Φ^[n] = (listMap G T l)^[thin * n] := fun n => (Function.iterate_mul _ _ _).symm
  have hreg : Regen (rngLaw ν) Φ := (list_regen hG T l).iterate thin
  have hpres : MeasurePreserving Φ (π.prod (rngLaw ν)) (π.prod (rngLaw ν)) := by
    have h1 := sweepsMap_preserving hG T hst hsym thin
    rw [sweepsMap_list] at h1
    have e : π.prod (rngLaw ν) = (chainLaw G T Set.univ)⁻¹ • mcLaw G T ν := Measure.prod_smul_left _
    rw [e]
    exact h1.smul_measure _
  have hirr : ∀ᵐ x ∂π, ∀ A, MeasurableSet A → π A ≠ 0 → rngLaw ν {w | (Φ^[N] (x, w)).1 ∈ A} ≠ 0 := by
    have hal : ∀ᵐ x ∂π, Alive G x := by
      rw [ae_iff, hnull]
      convert measure_empty (μ := (volume : Measure (Fin N → Fin d → ℝ)))
      ext x; simp
    refine hal.mono fun x hx A hA hpA => ?_
    rw [hit]
    exact reach hG hvol hν hl hA (fun h => hpA ((hnull A).mpr h)) (Nat.le_mul_of_pos_left N hthin) hx
  have hsm : EventuallySmooth (rngLaw ν) Φ π x := by
    intro A hA hA0 ε hε
    have h1 := leave (T := T) hG hvol hν hν' hl (hA.inter (alive_measurable hG)) ((hnull A).mp hA0) hx
    have h2 : Tendsto (fun n : ℕ => thin * n) atTop atTop := tendsto_id.const_mul_atTop' hthin
    have h3 := (h1.comp h2).eventually (ge_mem_nhds (pos_iff_ne_zero.mpr hε))
    obtain ⟨n, hn⟩ := h3.exists
    refine ⟨n, le_trans (measure_mono fun w hw => ?_) hn⟩
    rw [hit] at hw
    exact ⟨hw, alive_iterate _ hx⟩
  -- the integral
  have hmarg : (chainLaw G T).map (fun x => x i0) =
      (∏ j ∈ Finset.univ.erase i0, mass G (T j)) • (volume : Measure (Fin d → ℝ)).withDensity (Verif.Spec.tempered G (T i0)) := by
    rw [hpi]
    refine (Measure.pi_map_eval _ i0).trans ?_
    congr 1
    exact Finset.prod_congr rfl fun i _ => hmass i
  have hm0 : Measurable fun x : Fin N → Fin d → ℝ => x i0 := measurable_pi_apply i0
  have hlt : ∀ᵐ y ∂(volume : Measure (Fin d → ℝ)), Verif.Spec.tempered G (T i0) y < ⊤ := Eventually.of_forall fun y => tempered_ne_top.lt_top
  have hi1 : Integrable f ((volume : Measure (Fin d → ℝ)).withDensity (Verif.Spec.tempered G (T i0))) :=
    (integrable_withDensity_iff (hG.tempered _) hlt).mpr hi
  have hprodT : (∏ j ∈ Finset.univ.erase i0, mass G (T j)) ≠ ⊤ := ENNReal.prod_ne_top fun i _ => (hprop i).2.ne
  have hi2 : Integrable f ((chainLaw G T).map fun x => x i0) := by
    rw [hmarg]; exact hi1.smul_measure hprodT
  have hi3 : Integrable (fun x : Fin N → Fin d → ℝ => f (x i0)) π :=
    (hi2.comp_measurable hm0).smul_measure (ENNReal.inv_ne_top.mpr hZ0)
  have hint : ∫ x, f (x i0) ∂π = postMean G (T i0) f := by
    have e1 : ∫ x, f (x i0) ∂π = ((chainLaw G T Set.univ)⁻¹).toReal * ∫ x, f (x i0) ∂(chainLaw G T) := integral_smul_measure _ _
    have e2 : ∫ x, f (x i0) ∂(chainLaw G T) = ∫ y, f y ∂((chainLaw G T).map fun x => x i0) :=
      (integral_map hm0.aemeasurable hf.aestronglyMeasurable).symm
    have e3 : ∫ y, f y ∂((volume : Measure (Fin d → ℝ)).withDensity (Verif.Spec.tempered G (T i0))) = ∫ y, f y * (Verif.Spec.tempered G (T i0) y).toReal := by
      rw [integral_withDensity_eq_integral_toReal_smul (hG.tempered _) hlt]
      exact integral_congr_ae (Eventually.of_forall fun y => by simp [mul_comm])
    rw [e1, e2, hmarg, integral_smul_measure, e3, hZ, ← Finset.mul_prod_erase _ _ (Finset.mem_univ i0)]
    unfold postMean
    have a1 : (mass G (T i0)).toReal ≠ 0 := (ENNReal.toReal_pos (hprop i0).1.ne' (hprop i0).2.ne).ne'
    have a2 : (∏ j ∈ Finset.univ.erase i0, mass G (T j)).toReal ≠ 0 :=
      (ENNReal.toReal_pos (Finset.prod_ne_zero_iff.mpr fun i _ => (hprop i).1.ne') hprodT).ne'
    rw [ENNReal.toReal_inv, ENNReal.toReal_mul, smul_eq_mul]
    field_simp
  have hav := markov_average (f := fun x : Fin N → Fin d → ℝ => f (x i0)) hreg hpres hirr (hf.comp hm0) hi3 hsm
  refine hav.mono fun w hw => ?_
  rw [hint] at hw
  have := tendsto_shift hw
  refine this.congr fun n => ?_
  congr 1
  refine Finset.sum_congr rfl fun k _ => ?_
  rw [hit, sweepsMap_list]

/-! ### the sampler -/

theorem done_kinds {μ : Type} [Target μ] {s t : Samp μ d} {k : ℕ} (h : Done s k t) :
    t.steps.map stepKind = s.steps.map stepKind ∧ ∀ i b, .ram i b ∈ t.steps → ∃ a, .ram i a ∈ s.steps ∧ Relation.ReflTransGen (RamStep μ) a b := by
  induction h with
  | none => exact ⟨rfl, fun i b hb => ⟨b, hb, .refl⟩⟩
  | @next k t u _ h2 ih =>
      obtain ⟨ih1, ih2⟩ := ih
      have key : ∀ (st st' : StepSt d), t.steps[k]? = some st → stepKind st' = stepKind st → (t.steps.set k st').map stepKind = t.steps.map stepKind := by
        intro st st' h1 h2
        rw [List.map_set, h2]
        refine List.ext_getElem? fun j => ?_
        rw [List.getElem?_set]
        by_cases hj : k = j
        · subst hj
          have hk : k < t.steps.length := (List.getElem?_eq_some_iff.mp h1).1
          rw [List.length_map, if_pos rfl, if_pos hk, List.getElem?_map, h1]
          rfl
        · rw [if_neg hj]
      rcases doStep_steps h2 with ⟨i, a, a', g1, g2, g3⟩ | ⟨e, e', g1, g2, g3⟩
      · refine ⟨by rw [g2, key (.ram i a) (.ram i a') g1 rfl, ih1], fun j b hb => ?_⟩
        rw [g2] at hb
        rcases List.mem_or_eq_of_mem_set hb with hb | hb
        · exact ih2 j b hb
        · injection hb with hb1 hb2
          subst hb1 hb2
          obtain ⟨a0, f1, f2⟩ := ih2 j a (List.mem_of_getElem? g1)
          exact ⟨a0, f1, f2.tail g3⟩
      · refine ⟨by rw [g2, key _ _ g1 (by simp [stepKind, g3]), ih1], fun j b hb => ?_⟩
        rw [g2] at hb
        rcases List.mem_or_eq_of_mem_set hb with hb | hb
        · exact ih2 j b hb
        · cases hb

theorem sweeps_kinds {μ : Type} [Target μ] {s t : Samp μ d} {n : ℕ} (h : Sweeps s n t) :
    t.steps.map stepKind = s.steps.map stepKind ∧ ∀ i b, .ram i b ∈ t.steps → ∃ a, .ram i a ∈ s.steps ∧ Relation.ReflTransGen (RamStep μ) a b := by
  induction h with
  | none => exact ⟨rfl, fun i b hb => ⟨b, hb, .refl⟩⟩
  | next _ h2 ih =>
      obtain ⟨g1, g2⟩ := done_kinds h2
      refine ⟨g1.trans ih.1, fun i b hb => ?_⟩
      obtain ⟨a, f1, f2⟩ := g2 i b hb
      obtain ⟨a', f3, f4⟩ := ih.2 i a f1
      exact ⟨a', f3, f4.trans f2⟩

/-- **Strong law** for a sampler whose proposals no longer adapt. -/
theorem averages_to {μ : Type} [Target μ] {inv : μ → Prop} (hT : HasTarget μ inv G) (hG : MeasTarget G) (hpos : ∀ i, 0 < T i)
    (hprop : ∀ i, IsProper G (T i)) (hν : volume ≪ ν) (hν' : ν ≪ volume) (hsym : ν.map (fun x => -x) = ν) {u : Samp μ d}
    {x : Fin N → Fin d → ℝ} (hAt : At inv G T u.steps u (x, u.rng.stud, u.rng.unif)) (hl : Stack N u.steps) (hst : ∀ st ∈ u.steps, InRange N st)
    (hx : Alive G x) {i0 : Fin N} (hi0 : (i0 : ℕ) = 0) {f : (Fin d → ℝ) → ℝ} (hf : Measurable f) (hi : HasMean G (T i0) f) {thin : ℕ}
    (hthin : 0 < thin) : ∀ᵐ w ∂(drawsOf ν).prod (drawsOf unifLaw), AveragesTo thin (reseed u w) f (postMean G (T i0) f) := by
  refine (sweeps_average hG hprop hν hν' hsym hl hst hx i0 hf hi hthin).mono fun w hw => ?_
  refine ⟨fun k => (sweepsMap G T u.steps (thin * (k + 1)) (x, w)).1 i0, fun k => ?_, hw⟩
  have h1 : At inv G T u.steps (reseed u w) (x, w) := ⟨hAt.length, hAt.chain, rfl, rfl, hAt.steps⟩
  obtain ⟨u', h2, h3⟩ := at_sweeps hT hpos hst h1 (thin * (k + 1))
  obtain ⟨c, hc⟩ : ∃ c, u'.chains[(i0 : ℕ)]? = some c := ⟨_, List.getElem?_eq_getElem (by rw [h3.length]; exact i0.2)⟩
  refine ⟨u', c, sweeps_of_iterate h2, ?_, (h3.chain i0 _ hc).2.2.1⟩
  rw [← hi0]
  exact hc

end Verif.Theory
