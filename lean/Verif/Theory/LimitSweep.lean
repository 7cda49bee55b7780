import Verif.Theory.MarkovLimit
import Verif.Theory.NullSweep
import Verif.Spec.LimitLaw

/-!
Laws of the chains of parallel tempering after many sweeps.
-/

namespace Verif.Theory

open MeasureTheory Verif.Model Verif.Spec ENNReal Filter Topology

variable {d N : ℕ} {G : LogTarget d} {T : Fin N → ℝ} {ν : Measure ℝ} [IsProbabilityMeasure ν]

theorem mass_vol (hG : MeasTarget G) {T : ℝ} (h : mass G T ≠ 0) : volume {y | (G y).isSome = true} ≠ 0 := by
  intro hv
  refine h ?_
  unfold mass
  rw [lintegral_eq_zero_iff (hG.tempered _)]
  have h2 : ∀ᵐ y, y ∉ {y | (G y).isSome = true} := measure_eq_zero_iff_ae_notMem.mp hv
  refine h2.mono fun y hy => ?_
  by_contra hc
  exact hy (tempered_ne_zero.mp hc)

/-- The chain of sweeps, for a measure with the null sets of the joint density. -/
theorem sweeps_chain (hG : MeasTarget G) (hvol : volume {y | (G y).isSome = true} ≠ 0) (hν : volume ≪ ν) (hν' : ν ≪ volume) {l : List (StepSt d)}
    (hl : Stack N l) {π : Measure (Fin N → Fin d → ℝ)} (hnull : ∀ A, π A = 0 ↔ volume (A ∩ {x | Alive G x}) = 0) :
    (∀ᵐ x ∂π, ∀ A, MeasurableSet A → π A ≠ 0 → rngLaw ν {w | ((listMap G T l)^[N] (x, w)).1 ∈ A} ≠ 0) ∧
    ∀ x, Alive G x → EventuallySmooth (rngLaw ν) (listMap G T l) π x := by
  constructor
  · have hal : ∀ᵐ x ∂π, Alive G x := by
      rw [ae_iff, hnull]
      convert measure_empty (μ := (volume : Measure (Fin N → Fin d → ℝ)))
      ext x; simp
    exact hal.mono fun x hx A hA hpA => reach hG hvol hν hl hA (fun h => hpA ((hnull A).mpr h)) le_rfl hx
  · intro x hx A hA hA0 ε hε
    have h1 := leave (T := T) hG hvol hν hν' hl (hA.inter (alive_measurable hG)) ((hnull A).mp hA0) hx
    obtain ⟨n, hn⟩ := (h1.eventually (ge_mem_nhds (pos_iff_ne_zero.mpr hε))).exists
    refine ⟨n, le_trans (measure_mono fun w hw => ?_) hn⟩
    exact ⟨hw, alive_iterate _ hx⟩

theorem posterior_prob {T : ℝ} (h : IsProper G T) : IsProbabilityMeasure (posterior G T) := ⟨by
  show (mass G T)⁻¹ • ((volume : Measure (Fin d → ℝ)).withDensity (Verif.Spec.tempered G T)) Set.univ = 1
  rw [withDensity_apply _ .univ, Measure.restrict_univ, smul_eq_mul]
  exact ENNReal.inv_mul_cancel h.1.ne' h.2.ne⟩

theorem pi_smul {E : Type} [MeasurableSpace E] {c : Fin N → ℝ≥0∞} {m : Fin N → Measure E} [∀ i, SigmaFinite (m i)] [∀ i, SigmaFinite (c i • m i)] :
    Measure.pi (fun i => c i • m i) = (∏ i, c i) • Measure.pi m := by
  refine Measure.pi_eq fun s hs => ?_
  rw [Measure.smul_apply, Measure.pi_pi, smul_eq_mul, ← Finset.prod_mul_distrib]
  rfl

/-- The joint law of independent chains is the joint density, normalised. -/
theorem independent_eq (hG : MeasTarget G) (hprop : ∀ i, IsProper G (T i)) : independent G T = (∏ i, (mass G (T i))⁻¹) • chainLaw G T := by
  have h1 := fun i => tempered_sigma G (T i)
  have h2 := fun i => posterior_prob (hprop i)
  unfold posterior at h2
  rw [chainLaw_pi hG]
  exact pi_smul

theorem independent_null (hG : MeasTarget G) (hprop : ∀ i, IsProper G (T i)) (A : Set (Fin N → Fin d → ℝ)) :
    independent G T A = 0 ↔ volume (A ∩ {x | Alive G x}) = 0 := by
  rw [← chainLaw_null (T := T) hG, independent_eq hG hprop, Measure.smul_apply, smul_eq_mul, mul_eq_zero]
  refine ⟨fun h => h.resolve_left ?_, Or.inr⟩
  exact Finset.prod_ne_zero_iff.mpr fun i _ => ENNReal.inv_ne_zero.mpr (hprop i).2.ne

theorem independent_alive (hG : MeasTarget G) (hprop : ∀ i, IsProper G (T i)) : ∀ᵐ x ∂(independent G T), Alive G x := by
  rw [ae_iff, independent_null hG hprop]
  convert measure_empty (μ := (volume : Measure (Fin N → Fin d → ℝ)))
  ext x; simp

variable (hG : MeasTarget G) (hν : volume ≪ ν) (hν' : ν ≪ volume) (hsym : ν.map (fun x => -x) = ν) {l : List (StepSt d)} (hl : Stack N l)
  (hst : ∀ st ∈ l, InRange N st)

include hG hsym hst in
theorem independent_preserved (hprop : ∀ i, IsProper G (T i)) (n : ℕ) :
    MeasurePreserving (sweepsMap G T l n) ((independent G T).prod (rngLaw ν)) ((independent G T).prod (rngLaw ν)) := by
  rw [independent_eq hG hprop]
  have h1 := sweepsMap_preserving hG T hst hsym n
  have e : ((∏ i, (mass G (T i))⁻¹) • chainLaw G T).prod (rngLaw ν) = (∏ i, (mass G (T i))⁻¹) • mcLaw G T ν := Measure.prod_smul_left _
  rw [e]
  exact h1.smul_measure _

include hG hν hν' hsym hl hst

/-- **Limit law**: the joint law of the chains after `k` sweeps tends to the joint law of independent chains, on every measurable set. -/
theorem sweeps_limit (hprop : ∀ i, IsProper G (T i)) {x : Fin N → Fin d → ℝ} (hx : Alive G x) {A : Set (Fin N → Fin d → ℝ)} (hA : MeasurableSet A) :
    Tendsto (fun k => rngLaw ν {w | (sweepsMap G T l k (x, w)).1 ∈ A}) atTop (𝓝 (independent G T A)) := by
  have hpos := hl.1
  have hvol := mass_vol hG (hprop ⟨0, hpos⟩).1.ne'
  have hpr := fun i => posterior_prob (hprop i)
  have hprob : IsProbabilityMeasure (independent G T) := by unfold independent; infer_instance
  have hnull := independent_null hG hprop
  obtain ⟨h1, h2⟩ := sweeps_chain (T := T) hG hvol hν hν' hl hnull
  have h3 := independent_preserved (T := T) (ν := ν) hG hsym hst hprop 1
  rw [sweepsMap_list, Function.iterate_one] at h3
  have := markov_limit (list_regen hG T l) h3 h1 hA (h2 x hx)
  simp only [sweepsMap_list]
  exact this

/-- **Uniqueness**: no other law of the chains is kept. -/
theorem sweeps_unique (hprop : ∀ i, IsProper G (T i)) {L : Measure (Fin N → Fin d → ℝ)} [IsProbabilityMeasure L] (hL : ∀ᵐ x ∂L, Alive G x)
    (hp : MeasurePreserving (sweepsMap G T l 1) (L.prod (rngLaw ν)) (L.prod (rngLaw ν))) : L = independent G T := by
  have hpr := fun i => posterior_prob (hprop i)
  have hprob : IsProbabilityMeasure (independent G T) := by unfold independent; infer_instance
  rw [sweepsMap_list, Function.iterate_one] at hp
  refine Measure.ext fun A hA => ?_
  have h1 : ∀ n, ∫⁻ x, rngLaw ν {w | (sweepsMap G T l n (x, w)).1 ∈ A} ∂L = L A := by
    intro n
    have := after_mean hp hA n
    rw [← this, sweepsMap_list]
    refine lintegral_congr fun x => ?_
    rw [avg_indicator (hp.iterate n).measurable hA]
  have h2 : Tendsto (fun n => ∫⁻ x, rngLaw ν {w | (sweepsMap G T l n (x, w)).1 ∈ A} ∂L) atTop (𝓝 (∫⁻ _, independent G T A ∂L)) := by
    refine tendsto_lintegral_of_dominated_convergence (fun _ => 1) (fun n => ?_) (fun n => Eventually.of_forall fun x => prob_le_one) (by simp)
      (hL.mono fun x hx => sweeps_limit hG hν hν' hsym hl hst hprop hx hA)
    have := avg_measurable (P := rngLaw ν) (hp.iterate n).measurable (measurable_one.indicator hA)
    rw [sweepsMap_list]
    have e : (fun x => rngLaw ν {w | ((listMap G T l)^[n] (x, w)).1 ∈ A}) = avg (rngLaw ν) (listMap G T l)^[n] (A.indicator 1) := by
      funext x
      exact (avg_indicator (hp.iterate n).measurable hA x).symm
    rw [e]
    exact this
  simp only [h1, lintegral_const, measure_univ, mul_one] at h2
  exact tendsto_nhds_unique tendsto_const_nhds h2

/-- **Escape**: joint density of infinite mass, sets of finite mass. -/
theorem sweeps_vanish (h0 : ∀ i, mass G (T i) ≠ 0) {i0 : Fin N} (htop : mass G (T i0) = ∞) {x : Fin N → Fin d → ℝ} (hx : Alive G x)
    {A : Set (Fin N → Fin d → ℝ)} (hA : MeasurableSet A) (hfin : chainLaw G T A ≠ ∞) :
    Tendsto (fun k => rngLaw ν {w | (sweepsMap G T l k (x, w)).1 ∈ A}) atTop (𝓝 0) := by
  have hsf := chainLaw_sigma hG T
  obtain ⟨h1, h2⟩ := sweeps_chain (T := T) (ν := ν) hG (mass_vol hG (h0 i0)) hν hν' hl (chainLaw_null (T := T) hG)
  have h3 := sweepsMap_preserving hG T hst hsym 1
  rw [sweepsMap_list, Function.iterate_one] at h3
  have := markov_vanish (list_regen hG T l) h3 h1 (chainLaw_top hG h0 htop) hA hfin (h2 x hx)
  simp only [sweepsMap_list]
  exact this

end Verif.Theory
