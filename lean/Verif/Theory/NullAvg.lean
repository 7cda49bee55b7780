import Verif.Theory.Markov
import Mathlib.MeasureTheory.Integral.Prod

/-!
Chains whose invariant measure is infinite: averages of integrable functions along the chain tend to 0.
-/

namespace Verif.Theory

open MeasureTheory Filter Topology
open scoped ENNReal

section
variable {Ω : Type} [MeasurableSpace Ω] {μ : Measure Ω} {T : Ω → Ω} {f : Ω → ℝ}

/-- Maximal inequality for a part of finite measure of the orbits whose averages exceed `c`. -/
theorem exceeds_part (hT : MeasurePreserving T μ μ) (hf : Measurable f) (hi : Integrable f μ) (h0 : ∀ x, 0 ≤ f x) {c : ℝ} (hc : 0 < c)
    {S : Set Ω} (hS : MeasurableSet S) (hSE : S ⊆ exceeds T f c) (hfin : μ S ≠ ∞) : μ S ≤ ENNReal.ofReal ((∫ x, f x ∂μ) / c) := by
  set g : Ω → ℝ := fun x => f x - S.indicator (fun _ => c) x with hg
  have hind : Integrable (S.indicator fun _ => c) μ := (integrable_indicator_iff hS).mpr (integrableOn_const hfin)
  have hgm : Measurable g := hf.sub (measurable_const.indicator hS)
  have hgi : Integrable g μ := hi.sub hind
  let D : ℕ → Set Ω := fun n => S ∩ {x | 0 < maxSum T g n x}
  have hDm : ∀ n, MeasurableSet {x | 0 < maxSum T g n x} := fun n => measurableSet_lt measurable_const (maxSum_measurable hT.measurable hgm n)
  have hD : ∀ n, μ (D n) ≤ ENNReal.ofReal ((∫ x, f x ∂μ) / c) := by
    intro n
    have h1 := maximal hT hgm hgi n
    have h2 : ∫ x in {x | 0 < maxSum T g n x}, g x ∂μ = ∫ x in {x | 0 < maxSum T g n x}, f x ∂μ - c * μ.real (D n) := by
      rw [hg, integral_sub hi.integrableOn hind.integrableOn, setIntegral_indicator hS, setIntegral_const, smul_eq_mul, Set.inter_comm, mul_comm]
    have h3 : ∫ x in {x | 0 < maxSum T g n x}, f x ∂μ ≤ ∫ x, f x ∂μ := setIntegral_le_integral hi (Eventually.of_forall h0)
    have h4 : μ.real (D n) ≤ (∫ x, f x ∂μ) / c := by
      rw [le_div_iff₀ hc]
      linarith
    have h5 : μ (D n) ≠ ∞ := ne_top_of_le_ne_top hfin (measure_mono Set.inter_subset_left)
    rw [← ENNReal.ofReal_toReal h5]
    exact ENNReal.ofReal_le_ofReal h4
  have hmono : Monotone D := fun m n hmn x hx => ⟨hx.1, lt_of_lt_of_le hx.2 (maxSum_mono' x hmn)⟩
  have hun : S = ⋃ n, D n := by
    ext x
    refine ⟨fun hx => ?_, fun hx => by obtain ⟨n, hn⟩ := Set.mem_iUnion.mp hx; exact hn.1⟩
    obtain ⟨k, hk⟩ := hSE hx
    obtain ⟨n, -, hn⟩ := hk 0
    refine Set.mem_iUnion.mpr ⟨n, hx, lt_of_lt_of_le ?_ (birkhoffSum_le_maxSum n x)⟩
    have h1 : birkhoffSum T f n x - n * c ≤ birkhoffSum T g n x := by
      unfold birkhoffSum
      have : ((n : ℝ) * c) = ∑ k ∈ Finset.range n, c := by simp
      rw [this, ← Finset.sum_sub_distrib]
      refine Finset.sum_le_sum fun j _ => ?_
      rw [hg]
      have : S.indicator (fun _ => c) (T^[j] x) ≤ c := Set.indicator_le_self' (fun _ _ => hc.le) _
      dsimp only
      linarith
    have hk' : 0 ≤ (n : ℝ) * (1 / ((k : ℝ) + 1)) := by positivity
    nlinarith
  calc μ S = μ (⋃ n, D n) := congrArg μ hun
    _ = ⨆ n, μ (D n) := hmono.measure_iUnion
    _ ≤ _ := iSup_le hD

/-- Maximal inequality. -/
theorem exceeds_measure [SigmaFinite μ] (hT : MeasurePreserving T μ μ) (hf : Measurable f) (hi : Integrable f μ) (h0 : ∀ x, 0 ≤ f x) {c : ℝ}
    (hc : 0 < c) : μ (exceeds T f c) ≤ ENNReal.ofReal ((∫ x, f x ∂μ) / c) := by
  have hm := exceeds_measurable hT.measurable hf c
  have hun : exceeds T f c = ⋃ n, exceeds T f c ∩ spanningSets μ n := by
    rw [← Set.inter_iUnion, iUnion_spanningSets, Set.inter_univ]
  have hmono : Monotone fun n => exceeds T f c ∩ spanningSets μ n := fun m n hmn x hx => ⟨hx.1, monotone_spanningSets μ hmn hx.2⟩
  rw [hun, hmono.measure_iUnion]
  refine iSup_le fun n => exceeds_part hT hf hi h0 hc (hm.inter (measurableSet_spanningSets μ n)) Set.inter_subset_left ?_
  exact ne_top_of_le_ne_top (measure_spanningSets_lt_top μ n).ne (measure_mono Set.inter_subset_right)

end

section
variable {X Ω : Type} [MeasurableSpace X] [MeasurableSpace Ω] {P : Measure Ω} [IsProbabilityMeasure P] {Φ : X × Ω → X × Ω} {π : Measure X} [SigmaFinite π]

theorem sum_path (f : X → ℝ) (n : ℕ) (p : ℕ → X) : birkhoffSum shiftPath (fun p : ℕ → X => f (p 0)) n p = ∑ k ∈ Finset.range n, f (p k) := by
  unfold birkhoffSum
  refine Finset.sum_congr rfl fun k _ => ?_
  have : ∀ k (p : ℕ → X) j, shiftPath^[k] p j = p (j + k) := by
    intro k
    induction k with
    | zero => exact fun p j => rfl
    | succ k ih => intro p j; rw [Function.iterate_succ_apply, ih]; exact congrArg p (by omega)
  show f (shiftPath^[k] p 0) = f (p k)
  rw [this, zero_add]

/-- A shift-invariant event that has finite measure, while the invariant measure is infinite, has probability 0 from every eventually smooth state. -/
theorem hit_null (hΦ : Regen P Φ) (hp : MeasurePreserving Φ (π.prod P) (π.prod P)) {m : ℕ}
    (hirr : ∀ᵐ x ∂π, ∀ A, MeasurableSet A → π A ≠ 0 → P {w | (Φ^[m] (x, w)).1 ∈ A} ≠ 0) (hinf : π Set.univ = ∞) {B : Set (ℕ → X)}
    (hB : MeasurableSet B) (hinv : shiftPath ⁻¹' B = B) (hfin : ∫⁻ x, hit P Φ B x ∂π ≠ ∞) {x : X} (hx : EventuallySmooth P Φ π x) :
    hit P Φ B x = 0 := by
  have hhm := hit_measurable (P := P) hΦ.meas hB
  set h : X → ℝ := fun y => (hit P Φ B y).toReal with hh
  have hm : Measurable h := hhm.ennreal_toReal
  have hle : ∀ y, h y ≤ 1 := fun y => ENNReal.toReal_mono ENNReal.one_ne_top prob_le_one
  have hge : ∀ y, 0 ≤ h y := fun y => ENNReal.toReal_nonneg
  have hi : Integrable h π := integrable_toReal_of_lintegral_ne_top hhm.aemeasurable hfin
  have hpm := hp.iterate m
  have i1 : Integrable (fun z : X × Ω => h z.1) (π.prod P) := hi.comp_fst P
  have i2 : Integrable (fun z : X × Ω => h (Φ^[m] z).1) (π.prod P) := hpm.integrable_comp_of_integrable (g := fun z : X × Ω => h z.1) i1
  have m1 : Measurable fun z : X × Ω => h z.1 := hm.comp measurable_fst
  have m2 : Measurable fun z : X × Ω => h (Φ^[m] z).1 := m1.comp hpm.measurable
  have b1 : ∀ z : X × Ω, ‖h z.1‖ ≤ 1 := fun z => by rw [Real.norm_eq_abs, abs_of_nonneg (hge _)]; exact hle _
  have b2 : ∀ z : X × Ω, ‖h (Φ^[m] z).1‖ ≤ 1 := fun z => by rw [Real.norm_eq_abs, abs_of_nonneg (hge _)]; exact hle _
  have i11 : Integrable (fun z : X × Ω => h z.1 * h z.1) (π.prod P) := i1.bdd_mul m1.aestronglyMeasurable (c := 1) (Eventually.of_forall b1)
  have i12 : Integrable (fun z : X × Ω => h z.1 * h (Φ^[m] z).1) (π.prod P) := i2.bdd_mul m1.aestronglyMeasurable (c := 1) (Eventually.of_forall b1)
  have i22 : Integrable (fun z : X × Ω => h (Φ^[m] z).1 * h (Φ^[m] z).1) (π.prod P) := i2.bdd_mul m2.aestronglyMeasurable (c := 1) (Eventually.of_forall b2)
  have e22 : ∫ z, h (Φ^[m] z).1 * h (Φ^[m] z).1 ∂(π.prod P) = ∫ z, h z.1 * h z.1 ∂(π.prod P) := by
    have := integral_map (μ := π.prod P) hpm.measurable.aemeasurable (f := fun z : X × Ω => h z.1 * h z.1)
      (m1.mul m1).aestronglyMeasurable
    rw [hpm.map_eq] at this
    exact this.symm
  have hstep : ∀ y, ∫ w, h (Φ^[m] (y, w)).1 ∂P = h y := by
    intro y
    have h1 := hit_step hΦ hB hinv m y
    rw [hh]
    dsimp only
    rw [h1, ← integral_toReal]
    · exact (hhm.comp (measurable_fst.comp (hpm.measurable.comp (measurable_const.prodMk measurable_id)))).aemeasurable
    · exact Eventually.of_forall fun w => measure_lt_top _ _
  have e12 : ∫ z, h z.1 * h (Φ^[m] z).1 ∂(π.prod P) = ∫ z, h z.1 * h z.1 ∂(π.prod P) := by
    rw [integral_prod _ i12, integral_prod _ i11]
    refine integral_congr_ae (Eventually.of_forall fun y => ?_)
    dsimp only
    rw [integral_const_mul, hstep, integral_const, probReal_univ, one_smul]
  have hsq : ∫ z, (h (Φ^[m] z).1 - h z.1) ^ 2 ∂(π.prod P) = 0 := by
    have : ∀ z : X × Ω, (h (Φ^[m] z).1 - h z.1) ^ 2 = h (Φ^[m] z).1 * h (Φ^[m] z).1 - 2 * (h z.1 * h (Φ^[m] z).1) + h z.1 * h z.1 := fun z => by ring
    simp only [this]
    have a1 : Integrable (fun z : X × Ω => h (Φ^[m] z).1 * h (Φ^[m] z).1 - 2 * (h z.1 * h (Φ^[m] z).1)) (π.prod P) := i22.sub (i12.const_mul 2)
    rw [integral_add a1 i11, integral_sub i22 (i12.const_mul 2), integral_const_mul, e22, e12]
    ring
  have isq : Integrable (fun z : X × Ω => (h (Φ^[m] z).1 - h z.1) ^ 2) (π.prod P) := by
    have := (i22.sub (i12.const_mul 2)).add i11
    refine this.congr (Eventually.of_forall fun z => ?_)
    simp only [Pi.add_apply, Pi.sub_apply]
    ring
  rw [integral_eq_zero_iff_of_nonneg (fun z => sq_nonneg _) isq] at hsq
  have hcon : ∀ᵐ y ∂π, ∀ᵐ w ∂P, h (Φ^[m] (y, w)).1 = h y := by
    refine (Measure.ae_ae_of_ae_prod hsq).mono fun y hy => hy.mono fun w hw => ?_
    have hw : (h (Φ^[m] (y, w)).1 - h y) ^ 2 = 0 := hw
    have := pow_eq_zero_iff (two_ne_zero) |>.mp hw
    linarith
  have hne : π ≠ 0 := fun h0 => by rw [h0] at hinf; simp at hinf
  have : (ae π).NeBot := ae_neBot.mpr hne
  obtain ⟨x0, k1, k2⟩ := (hcon.and hirr).exists
  have hconst : ∀ᵐ y ∂π, h y = h x0 := by
    by_contra hc
    have hA : MeasurableSet {y | ¬ h y = h x0} := (measurableSet_eq_fun hm measurable_const).compl
    refine k2 _ hA hc ?_
    exact ae_iff.mp k1
  have hzero : h x0 = 0 := by
    by_contra hc
    have h1 : Integrable (fun _ : X => h x0) π := hi.congr hconst
    rw [integrable_const_iff] at h1
    rcases h1 with h1 | h1
    · exact hc h1
    · have := h1.measure_univ_lt_top
      rw [hinf] at this
      exact lt_irrefl _ this
  rw [hzero] at hconst
  by_contra hxne
  let A : Set X := {y | hit P Φ B y ≠ 0}
  have hA : MeasurableSet A := (hhm (measurableSet_singleton 0)).compl
  have hA0 : π A = 0 := by
    rw [measure_eq_zero_iff_ae_notMem]
    refine hconst.mono fun y hy hy' => hy' ?_
    exact ((ENNReal.toReal_eq_zero_iff _).mp hy).resolve_right (measure_ne_top _ _)
  obtain ⟨n, hn⟩ := hx A hA hA0 (hit P Φ B x / 2) (ENNReal.div_ne_zero.mpr ⟨hxne, by norm_num⟩)
  have hle' : hit P Φ B x ≤ P {w | (Φ^[n] (x, w)).1 ∈ A} := by
    have hmA : MeasurableSet {w | (Φ^[n] (x, w)).1 ∈ A} :=
      (measurable_fst.comp ((hΦ.meas.iterate n).comp (measurable_const.prodMk measurable_id))) hA
    rw [hit_step hΦ hB hinv n x, ← lintegral_indicator_one hmA]
    refine lintegral_mono fun w => ?_
    show hit P Φ B (Φ^[n] (x, w)).1 ≤ Set.indicator {w | (Φ^[n] (x, w)).1 ∈ A} 1 w
    by_cases hw : (Φ^[n] (x, w)).1 ∈ A
    · rw [Set.indicator_of_mem (show w ∈ {w | (Φ^[n] (x, w)).1 ∈ A} from hw)]
      exact prob_le_one
    · have : hit P Φ B (Φ^[n] (x, w)).1 = 0 := not_not.mp hw
      rw [this]
      exact zero_le
  exact absurd (hle'.trans hn) (not_le.mpr (ENNReal.half_lt_self hxne (measure_ne_top _ _)))

/-- **Averages along a chain with infinite invariant measure** tend to 0 for every integrable function. -/
theorem markov_null (hΦ : Regen P Φ) (hp : MeasurePreserving Φ (π.prod P) (π.prod P)) {m : ℕ}
    (hirr : ∀ᵐ x ∂π, ∀ A, MeasurableSet A → π A ≠ 0 → P {w | (Φ^[m] (x, w)).1 ∈ A} ≠ 0) (hinf : π Set.univ = ∞) {f : X → ℝ} (hf : Measurable f)
    (hi : Integrable f π) {x : X} (hx : EventuallySmooth P Φ π x) :
    ∀ᵐ w ∂P, Tendsto (fun n : ℕ => (∑ k ∈ Finset.range n, f (Φ^[k] (x, w)).1) / n) atTop (𝓝 0) := by
  have hpm := path_measurable hΦ.meas
  let F : (ℕ → X) → ℝ := fun p => |f (p 0)|
  have hF : Measurable F := continuous_abs.measurable.comp (hf.comp (measurable_pi_apply 0))
  have key : ∀ j : ℕ, ∀ᵐ w ∂P, path Φ (x, w) ∉ exceeds shiftPath F (1 / ((j : ℝ) + 1)) := by
    intro j
    have hj : (0 : ℝ) < 1 / ((j : ℝ) + 1) := by positivity
    set B := exceeds shiftPath F (1 / ((j : ℝ) + 1)) with hBd
    have hB : MeasurableSet B := exceeds_measurable shiftPath_measurable hF _
    have hfin : ∫⁻ y, hit P Φ B y ∂π ≠ ∞ := by
      have e : path Φ ⁻¹' B = exceeds Φ (fun z : X × Ω => |f z.1|) (1 / ((j : ℝ) + 1)) := by
        have hs : ∀ n z, birkhoffSum shiftPath F n (path Φ z) = birkhoffSum Φ (fun z : X × Ω => |f z.1|) n z := by
          intro n z
          rw [show F = fun p : ℕ → X => |f (p 0)| from rfl, sum_path (fun y => |f y|)]
          rfl
        ext z
        simp only [hBd, Set.mem_preimage, exceeds, Set.mem_ofPred_eq, hs]
      have h1 : ∫⁻ y, hit P Φ B y ∂π = (π.prod P) (path Φ ⁻¹' B) := by
        rw [Measure.prod_apply (hpm hB)]
        rfl
      rw [h1, e]
      exact ne_top_of_le_ne_top ENNReal.ofReal_ne_top (exceeds_measure hp (continuous_abs.measurable.comp (hf.comp measurable_fst)) (hi.abs.comp_fst P) (fun z => abs_nonneg _) hj)
    have h0 := hit_null hΦ hp hirr hinf hB (exceeds_invariant _) hfin hx
    exact measure_eq_zero_iff_ae_notMem.mp h0
  filter_upwards [ae_all_iff.mpr key] with w hw
  have hab : Tendsto (fun n : ℕ => (∑ k ∈ Finset.range n, |f (Φ^[k] (x, w)).1|) / n) atTop (𝓝 0) := by
    rw [Metric.tendsto_atTop]
    intro ε hε
    obtain ⟨j, hj⟩ := exists_nat_one_div_lt (show 0 < ε / 2 by linarith)
    have h1 := hw j
    rw [mem_exceeds] at h1
    push Not at h1
    have h2 := h1 j
    obtain ⟨M, hM⟩ := eventually_atTop.mp (h2.and (eventually_ge_atTop 1))
    refine ⟨M, fun n hn => ?_⟩
    obtain ⟨g1, g2⟩ := hM n hn
    have hn0 : (0 : ℝ) < n := by exact_mod_cast g2
    have e := sum_path (fun y => |f y|) n (path Φ (x, w))

    rw [show birkhoffSum shiftPath F n (path Φ (x, w)) = _ from e] at g1
    have hs : 0 ≤ ∑ k ∈ Finset.range n, |f (path Φ (x, w) k)| := Finset.sum_nonneg fun k _ => abs_nonneg _
    rw [Real.dist_eq, sub_zero]
    show |(∑ k ∈ Finset.range n, |f (path Φ (x, w) k)|) / n| < ε
    rw [abs_of_nonneg (by positivity), div_lt_iff₀ hn0]
    nlinarith
  refine squeeze_zero_norm (fun n => ?_) hab
  rw [Real.norm_eq_abs, abs_div, Nat.abs_cast]
  exact div_le_div_of_nonneg_right (Finset.abs_sum_le_sum_abs _ _) (Nat.cast_nonneg n)

end
end Verif.Theory
