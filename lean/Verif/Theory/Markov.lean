import Verif.Theory.Ergodic
import Mathlib.MeasureTheory.Measure.SeparableMeasure
import Mathlib.MeasureTheory.Constructions.ProjectiveFamilyContent
import Mathlib.MeasureTheory.Measure.Prod

/-!
Chains driven by a source of randomness: a map `Φ` of states and random numbers that leaves the random numbers it does not use fresh.
Invariant laws that are reached from everywhere are ergodic, and averages along the chain converge.
-/

namespace Verif.Theory

open MeasureTheory Filter Topology
open scoped ENNReal symmDiff

variable {X Ω : Type} [MeasurableSpace X] [MeasurableSpace Ω] {P : Measure Ω}

/-- After `Φ` the remaining random numbers are independent of the state, and have their law. -/
structure Regen (P : Measure Ω) (Φ : X × Ω → X × Ω) : Prop where
  meas : Measurable Φ
  fresh : ∀ x (g : X × Ω → ℝ≥0∞), Measurable g → ∫⁻ w, g (Φ (x, w)) ∂P = ∫⁻ w, ∫⁻ w', g ((Φ (x, w)).1, w') ∂P ∂P

section
variable [IsProbabilityMeasure P] {Φ Ψ : X × Ω → X × Ω}

theorem Regen.id : Regen P (_root_.id : X × Ω → X × Ω) :=
  ⟨measurable_id, fun x g _ => by simp⟩

theorem Regen.comp (hΨ : Regen P Ψ) (hΦ : Regen P Φ) : Regen P (Ψ ∘ Φ) := by
  refine ⟨hΨ.meas.comp hΦ.meas, fun x g hg => ?_⟩
  have h1 : Measurable fun z : X × Ω => ∫⁻ w', g ((Ψ z).1, w') ∂P :=
    Measurable.lintegral_prod_right' (f := fun v : (X × Ω) × Ω => g ((Ψ v.1).1, v.2))
      (hg.comp ((measurable_fst.comp (hΨ.meas.comp measurable_fst)).prodMk measurable_snd))
  have e1 := hΦ.fresh x (fun z => g (Ψ z)) (hg.comp hΨ.meas)
  have e2 := hΦ.fresh x (fun z => ∫⁻ w', g ((Ψ z).1, w') ∂P) h1
  simp only [Function.comp]
  rw [e1, e2]
  exact lintegral_congr fun w => hΨ.fresh _ g hg

theorem Regen.iterate (hΦ : Regen P Φ) (n : ℕ) : Regen P Φ^[n] := by
  induction n with
  | zero => exact Regen.id
  | succ n ih => rw [Function.iterate_succ']; exact hΦ.comp ih

/-- The states along the chain. -/
def path (Φ : X × Ω → X × Ω) (z : X × Ω) : ℕ → X := fun k => (Φ^[k] z).1

theorem path_measurable (hΦ : Measurable Φ) : Measurable (path Φ) :=
  measurable_pi_lambda _ fun k => measurable_fst.comp (hΦ.iterate k)

omit [MeasurableSpace X] [MeasurableSpace Ω] in
theorem path_succ (z : X × Ω) (k : ℕ) : path Φ z (k + 1) = path Φ (Φ z) k := rfl

/-- Put a state in front of a sequence of states. -/
def consPath (x : X) (p : ℕ → X) : ℕ → X
  | 0 => x
  | k + 1 => p k

theorem consPath_measurable (x : X) : Measurable (consPath x) := by
  refine measurable_pi_lambda _ fun k => ?_
  cases k with
  | zero => exact measurable_const
  | succ k => exact measurable_pi_apply k

omit [MeasurableSpace X] [MeasurableSpace Ω] in
theorem path_cons (x : X) (w : Ω) : path Φ (x, w) = consPath x (path Φ (Φ (x, w))) := by
  funext k
  cases k with
  | zero => rfl
  | succ k => rfl

/-- The Markov property: the future given the states up to time `n`. -/
theorem markov (hΦ : Regen P Φ) (n : ℕ) {G : (ℕ → X) → ℝ≥0∞} (hG : Measurable G)
    (hdep : ∀ p q : ℕ → X, (∀ k ≤ n, p k = q k) → G p = G q) {g : X × Ω → ℝ≥0∞} (hg : Measurable g) (x : X) :
    ∫⁻ w, G (path Φ (x, w)) * g (Φ^[n] (x, w)) ∂P =
      ∫⁻ w, G (path Φ (x, w)) * ∫⁻ w', g ((Φ^[n] (x, w)).1, w') ∂P ∂P := by
  induction n generalizing x G with
  | zero =>
      have hc : ∀ w, G (path Φ (x, w)) = G fun _ => x := fun w => hdep _ _ fun k hk => by
        obtain rfl : k = 0 := by omega
        rfl
      simp only [hc, Function.iterate_zero, _root_.id]
      have hgx : Measurable fun w => g (x, w) := hg.comp (measurable_const.prodMk measurable_id)
      rw [lintegral_const_mul _ hgx, lintegral_const, measure_univ, mul_one]
  | succ n ih =>
      have hp := path_measurable hΦ.meas
      have hGx : Measurable fun p => G (consPath x p) := hG.comp (consPath_measurable x)
      have hgi : Measurable fun z : X × Ω => ∫⁻ w', g ((Φ^[n] z).1, w') ∂P :=
        Measurable.lintegral_prod_right' (f := fun v : (X × Ω) × Ω => g ((Φ^[n] v.1).1, v.2))
          (hg.comp ((measurable_fst.comp ((hΦ.meas.iterate n).comp measurable_fst)).prodMk measurable_snd))
      have e1 := hΦ.fresh x (fun z => G (consPath x (path Φ z)) * g (Φ^[n] z))
        ((hGx.comp hp).mul (hg.comp (hΦ.meas.iterate n)))
      have e2 := hΦ.fresh x (fun z => G (consPath x (path Φ z)) * ∫⁻ w', g ((Φ^[n] z).1, w') ∂P) ((hGx.comp hp).mul hgi)
      simp only [Function.iterate_succ_apply, path_cons x]
      rw [e1, e2]
      refine lintegral_congr fun w => ih hGx (fun p q hpq => hdep _ _ fun k hk => ?_) _
      cases k with
      | zero => rfl
      | succ k => exact hpq k (by omega)

end

section
variable [IsProbabilityMeasure P] {Φ : X × Ω → X × Ω} {π : Measure X} [IsProbabilityMeasure π]

/-- Shift of a sequence. -/
def shiftPath (p : ℕ → X) : ℕ → X := fun k => p (k + 1)

theorem shiftPath_measurable : Measurable (shiftPath : (ℕ → X) → ℕ → X) :=
  measurable_pi_lambda _ fun k => measurable_pi_apply (k + 1)

omit [MeasurableSpace X] [MeasurableSpace Ω] in
theorem shift_path (z : X × Ω) : shiftPath (path Φ z) = path Φ (Φ z) := rfl

/-- The law of the path of the chain started from `π`. -/
noncomputable def pathLaw (P : Measure Ω) (Φ : X × Ω → X × Ω) (π : Measure X) : Measure (ℕ → X) := (π.prod P).map (path Φ)

theorem pathLaw_preserving (hΦ : MeasurePreserving Φ (π.prod P) (π.prod P)) :
    MeasurePreserving shiftPath (pathLaw P Φ π) (pathLaw P Φ π) := by
  have hp := path_measurable hΦ.measurable
  refine ⟨shiftPath_measurable, ?_⟩
  unfold pathLaw
  rw [Measure.map_map shiftPath_measurable hp]
  have : shiftPath ∘ path Φ = path Φ ∘ Φ := funext fun z => shift_path z
  rw [this, ← Measure.map_map hp hΦ.measurable, hΦ.map_eq]

instance : IsProbabilityMeasure (π.prod P) := by infer_instance

/-- Probability that the path from `x` is in `B`. -/
noncomputable def hit (P : Measure Ω) (Φ : X × Ω → X × Ω) (B : Set (ℕ → X)) (x : X) : ℝ≥0∞ := P {w | path Φ (x, w) ∈ B}

theorem hit_eq (hΦ : Measurable Φ) {B : Set (ℕ → X)} (hB : MeasurableSet B) (x : X) :
    hit P Φ B x = ∫⁻ w, B.indicator 1 (path Φ (x, w)) ∂P := by
  have hm : MeasurableSet {w | path Φ (x, w) ∈ B} := ((path_measurable hΦ).comp (measurable_const.prodMk measurable_id)) hB
  rw [hit, ← lintegral_indicator_one hm]
  refine lintegral_congr fun w => ?_
  by_cases h : path Φ (x, w) ∈ B
  · rw [Set.indicator_of_mem h, Set.indicator_of_mem (show w ∈ {w | path Φ (x, w) ∈ B} from h)]; rfl
  · rw [Set.indicator_of_notMem h, Set.indicator_of_notMem (show w ∉ {w | path Φ (x, w) ∈ B} from h)]

theorem hit_measurable (hΦ : Measurable Φ) {B : Set (ℕ → X)} (hB : MeasurableSet B) : Measurable (hit P Φ B) := by
  have : hit P Φ B = fun x => ∫⁻ w, B.indicator 1 (path Φ (x, w)) ∂P := funext fun x => hit_eq hΦ hB x
  rw [this]
  exact Measurable.lintegral_prod_right' (f := fun z : X × Ω => B.indicator 1 (path Φ z))
    ((measurable_one.indicator hB).comp (path_measurable hΦ))

theorem hit_compl (hΦ : Measurable Φ) {B : Set (ℕ → X)} (hB : MeasurableSet B) (x : X) : hit P Φ B x + hit P Φ Bᶜ x = 1 := by
  have hm : MeasurableSet {w | path Φ (x, w) ∈ B} := ((path_measurable hΦ).comp (measurable_const.prodMk measurable_id)) hB
  have := prob_add_prob_compl (μ := P) hm
  exact this

/-- A shift-invariant event: its probability along the chain. -/
theorem hit_step (hΦ : Regen P Φ) {B : Set (ℕ → X)} (hB : MeasurableSet B) (hinv : shiftPath ⁻¹' B = B) (n : ℕ) (x : X) :
    hit P Φ B x = ∫⁻ w, hit P Φ B (Φ^[n] (x, w)).1 ∂P := by
  have h := (hΦ.iterate n).fresh x (fun z => B.indicator 1 (path Φ z)) ((measurable_one.indicator hB).comp (path_measurable hΦ.meas))
  rw [hit_eq hΦ.meas hB]
  have e : ∀ w, B.indicator (1 : (ℕ → X) → ℝ≥0∞) (path Φ (x, w)) = B.indicator 1 (path Φ (Φ^[n] (x, w))) := by
    intro w
    have hn : ∀ (n : ℕ) z, path Φ z ∈ B ↔ path Φ (Φ^[n] z) ∈ B := by
      intro n
      induction n with
      | zero => exact fun z => Iff.rfl
      | succ n ih =>
          intro z
          rw [Function.iterate_succ_apply, ← ih (Φ z), ← shift_path]
          show _ ↔ path Φ z ∈ shiftPath ⁻¹' B
          rw [hinv]
    by_cases hw : path Φ (x, w) ∈ B
    · rw [Set.indicator_of_mem hw, Set.indicator_of_mem ((hn n _).mp hw)]; rfl
    · rw [Set.indicator_of_notMem hw, Set.indicator_of_notMem (mt (hn n _).mpr hw)]
  simp only [e]
  rw [h]
  exact lintegral_congr fun w => (hit_eq hΦ.meas hB _).symm

/-- Shift-invariant events have probability 0 or 1 from almost every state. -/
theorem hit_zero_one (hΦ : Regen P Φ) (hp : MeasurePreserving Φ (π.prod P) (π.prod P)) {B : Set (ℕ → X)} (hB : MeasurableSet B)
    (hinv : shiftPath ⁻¹' B = B) : ∀ᵐ x ∂π, hit P Φ B x = 0 ∨ hit P Φ Bᶜ x = 0 := by
  have hpm := path_measurable hΦ.meas
  have hu := hit_measurable (P := P) hΦ.meas hB
  have hv := hit_measurable (P := P) hΦ.meas hB.compl
  -- expected value over the chain started from π
  let E : ((X × Ω) → ℝ≥0∞) → ℝ≥0∞ := fun g => ∫⁻ z, g z ∂(π.prod P)
  have hE : ∀ g, Measurable g → E g = ∫⁻ x, ∫⁻ w, g (x, w) ∂P ∂π := fun g hg => lintegral_prod _ hg.aemeasurable
  have hiter : ∀ (n : ℕ) z, path Φ (Φ^[n] z) ∈ B ↔ path Φ z ∈ B := by
    intro n
    induction n with
    | zero => exact fun z => Iff.rfl
    | succ n ih =>
        intro z
        rw [Function.iterate_succ_apply, ih (Φ z), ← shift_path]
        show path Φ z ∈ shiftPath ⁻¹' B ↔ _
        rw [hinv]
  have hindc : ∀ (D : Set (ℕ → X)) z, (path Φ ⁻¹' D).indicator (1 : X × Ω → ℝ≥0∞) z = D.indicator 1 (path Φ z) := by
    intro D z
    by_cases h : path Φ z ∈ D
    · rw [Set.indicator_of_mem h, Set.indicator_of_mem (show z ∈ path Φ ⁻¹' D from h)]; rfl
    · rw [Set.indicator_of_notMem h, Set.indicator_of_notMem (show z ∉ path Φ ⁻¹' D from h)]
  have key : ∀ ε : ℝ, 0 < ε → ∫⁻ x, hit P Φ B x * hit P Φ Bᶜ x ∂π ≤ ENNReal.ofReal ε := by
    intro ε hε
    have : IsProbabilityMeasure (pathLaw P Φ π) := by
      unfold pathLaw
      exact Measure.isProbabilityMeasure_map hpm.aemeasurable
    obtain ⟨C, hC, hlt⟩ := (Measure.MeasureDense.of_generateFrom_isSetAlgebra_finite (pathLaw P Φ π)
      (isSetAlgebra_measurableCylinders (α := fun _ : ℕ => X)) generateFrom_measurableCylinders.symm).approx B hB (measure_ne_top _ _) ε hε
    have hCm : MeasurableSet C := .of_mem_measurableCylinders hC
    -- a time after which the cylinder is decided
    obtain ⟨s, S, hS, rfl⟩ := (mem_measurableCylinders C).mp hC
    obtain ⟨n, hn⟩ : ∃ n, ∀ k ∈ s, k ≤ n := ⟨s.sup _root_.id, fun k hk => Finset.le_sup (f := _root_.id) hk⟩
    set C : Set (ℕ → X) := cylinder (α := fun _ : ℕ => X) s S with hCdef
    have hdep : ∀ p q : ℕ → X, (∀ k ≤ n, p k = q k) → C.indicator (1 : (ℕ → X) → ℝ≥0∞) p = C.indicator 1 q := by
      intro p q hpq
      have hmem : p ∈ C ↔ q ∈ C := by
        rw [hCdef, mem_cylinder, mem_cylinder]
        have : s.restrict p = s.restrict q := funext fun k => hpq k (hn k k.2)
        rw [this]
      by_cases h : p ∈ C
      · rw [Set.indicator_of_mem h, Set.indicator_of_mem (hmem.mp h)]; rfl
      · rw [Set.indicator_of_notMem h, Set.indicator_of_notMem (mt hmem.mpr h)]
    have hBcm : Measurable fun z : X × Ω => Bᶜ.indicator (1 : (ℕ → X) → ℝ≥0∞) (path Φ z) := (measurable_one.indicator hB.compl).comp hpm
    have hBm : Measurable fun z : X × Ω => B.indicator (1 : (ℕ → X) → ℝ≥0∞) (path Φ z) := (measurable_one.indicator hB).comp hpm
    have hCcm : Measurable fun z : X × Ω => C.indicator (1 : (ℕ → X) → ℝ≥0∞) (path Φ z) := (measurable_one.indicator hCm).comp hpm
    have hvn : Measurable fun z : X × Ω => hit P Φ Bᶜ (Φ^[n] z).1 := hv.comp (measurable_fst.comp (hΦ.meas.iterate n))
    have hCv : Measurable fun z : X × Ω => C.indicator (1 : (ℕ → X) → ℝ≥0∞) (path Φ z) * hit P Φ Bᶜ (Φ^[n] z).1 := hCcm.mul hvn
    have hCB : Measurable fun z : X × Ω => C.indicator (1 : (ℕ → X) → ℝ≥0∞) (path Φ z) * Bᶜ.indicator (1 : (ℕ → X) → ℝ≥0∞) (path Φ z) :=
      hCcm.mul hBcm
    have hBv : Measurable fun z : X × Ω => B.indicator (1 : (ℕ → X) → ℝ≥0∞) (path Φ z) * hit P Φ Bᶜ z.1 := hBm.mul (hv.comp measurable_fst)
    -- the cylinder and the complement of the event
    have h1 : E (fun z => C.indicator 1 (path Φ z) * hit P Φ Bᶜ (Φ^[n] z).1) = E fun z => C.indicator 1 (path Φ z) * Bᶜ.indicator 1 (path Φ z) := by
      rw [hE _ hCv, hE _ hCB]
      refine lintegral_congr fun x => ?_
      have := markov hΦ n (measurable_one.indicator hCm) hdep hBcm x
      simp only [hit_eq hΦ.meas hB.compl]
      rw [← this]
      refine lintegral_congr fun w => ?_
      congr 1
      by_cases h : path Φ (x, w) ∈ B
      · rw [Set.indicator_of_notMem (show path Φ (x, w) ∉ Bᶜ from not_not.mpr h),
          Set.indicator_of_notMem (show path Φ (Φ^[n] (x, w)) ∉ Bᶜ from not_not.mpr ((hiter n _).mpr h))]
      · rw [Set.indicator_of_mem (show path Φ (x, w) ∈ Bᶜ from h),
          Set.indicator_of_mem (show path Φ (Φ^[n] (x, w)) ∈ Bᶜ from mt (hiter n _).mp h)]; rfl
    -- the event and the state at time 0 behave as the event and the state at time n
    have h2 : ∫⁻ x, hit P Φ B x * hit P Φ Bᶜ x ∂π = E fun z => B.indicator 1 (path Φ z) * hit P Φ Bᶜ z.1 := by
      rw [hE _ hBv]
      refine lintegral_congr fun x => ?_
      have hBx : Measurable fun w => B.indicator (1 : (ℕ → X) → ℝ≥0∞) (path Φ (x, w)) := hBm.comp (measurable_const.prodMk measurable_id)
      dsimp only
      rw [lintegral_mul_const _ hBx, hit_eq hΦ.meas hB]
    have h3 : E (fun z => B.indicator 1 (path Φ z) * hit P Φ Bᶜ z.1) = E fun z => B.indicator 1 (path Φ z) * hit P Φ Bᶜ (Φ^[n] z).1 := by
      have := (hp.iterate n).lintegral_comp hBv
      show ∫⁻ z, _ ∂(π.prod P) = _
      refine this.symm.trans ?_
      refine lintegral_congr fun z => ?_
      show B.indicator 1 (path Φ (Φ^[n] z)) * hit P Φ Bᶜ (Φ^[n] z).1 = _
      congr 1
      by_cases h : path Φ z ∈ B
      · rw [Set.indicator_of_mem h, Set.indicator_of_mem ((hiter n _).mpr h)]; rfl
      · rw [Set.indicator_of_notMem h, Set.indicator_of_notMem (mt (hiter n _).mp h)]
    rw [h2, h3]
    have hv1 : ∀ x, hit P Φ Bᶜ x ≤ 1 := fun x => prob_le_one
    calc E (fun z => B.indicator 1 (path Φ z) * hit P Φ Bᶜ (Φ^[n] z).1)
        ≤ E (fun z => C.indicator 1 (path Φ z) * hit P Φ Bᶜ (Φ^[n] z).1 + (B \ C).indicator 1 (path Φ z)) := by
          refine lintegral_mono fun z => ?_
          show B.indicator 1 (path Φ z) * hit P Φ Bᶜ (Φ^[n] z).1 ≤ C.indicator 1 (path Φ z) * hit P Φ Bᶜ (Φ^[n] z).1 + (B \ C).indicator 1 (path Φ z)
          by_cases hb : path Φ z ∈ B
          · by_cases hc : path Φ z ∈ C
            · rw [Set.indicator_of_mem hb, Set.indicator_of_mem hc]
              exact le_self_add
            · rw [Set.indicator_of_mem hb, Set.indicator_of_mem (show path Φ z ∈ B \ C from ⟨hb, hc⟩)]
              refine le_trans ?_ le_add_self
              rw [Pi.one_apply, one_mul]
              exact hv1 _
          · rw [Set.indicator_of_notMem hb, zero_mul]
            exact zero_le
      _ = E (fun z => (C \ B).indicator 1 (path Φ z)) + E (fun z => (B \ C).indicator 1 (path Φ z)) := by
          show ∫⁻ z, _ ∂(π.prod P) = _
          rw [lintegral_add_left hCv]
          congr 1
          refine h1.trans (lintegral_congr fun z => ?_)
          by_cases hb : path Φ z ∈ B
          · rw [Set.indicator_of_notMem (show path Φ z ∉ Bᶜ by simpa using hb), Set.indicator_of_notMem (show path Φ z ∉ C \ B from fun h => h.2 hb), mul_zero]
          · by_cases hc : path Φ z ∈ C
            · rw [Set.indicator_of_mem hc, Set.indicator_of_mem (show path Φ z ∈ Bᶜ from hb), Set.indicator_of_mem (show path Φ z ∈ C \ B from ⟨hc, hb⟩)]; simp
            · rw [Set.indicator_of_notMem hc, zero_mul, Set.indicator_of_notMem (show path Φ z ∉ C \ B from fun h => hc h.1)]
      _ = pathLaw P Φ π (C \ B) + pathLaw P Φ π (B \ C) := by
          have hmap : ∀ D : Set (ℕ → X), MeasurableSet D → E (fun z => D.indicator 1 (path Φ z)) = pathLaw P Φ π D := by
            intro D hD
            unfold pathLaw
            rw [Measure.map_apply hpm hD, ← lintegral_indicator_one (hpm hD)]
            exact lintegral_congr fun z => (hindc D z).symm
          rw [hmap _ (hCm.diff hB), hmap _ (hB.diff hCm)]
      _ = pathLaw P Φ π (B ∆ C) := by
          rw [Set.symmDiff_def, measure_union disjoint_sdiff_sdiff (hCm.diff hB), add_comm]
      _ ≤ ENNReal.ofReal ε := hlt.le
  have h0 : ∫⁻ x, hit P Φ B x * hit P Φ Bᶜ x ∂π = 0 := by
    refine le_antisymm (ENNReal.le_of_forall_pos_le_add fun ε hε _ => ?_) zero_le
    rw [zero_add]
    have := key ε (by exact_mod_cast hε)
    rwa [ENNReal.ofReal_coe_nnreal] at this
  have huv : Measurable fun x => hit P Φ B x * hit P Φ Bᶜ x := hu.mul hv
  rw [lintegral_eq_zero_iff huv] at h0
  filter_upwards [h0] with x hx
  exact mul_eq_zero.mp hx

/-- The chain is ergodic if from almost every state every set of positive measure can be reached in `m` steps. -/
theorem pathLaw_ergodic (hΦ : Regen P Φ) (hp : MeasurePreserving Φ (π.prod P) (π.prod P)) {m : ℕ}
    (hirr : ∀ᵐ x ∂π, ∀ A, MeasurableSet A → π A ≠ 0 → P {w | (Φ^[m] (x, w)).1 ∈ A} ≠ 0) :
    Ergodic shiftPath (pathLaw P Φ π) := by
  refine ⟨pathLaw_preserving hp, ⟨fun B hB hinv => ?_⟩⟩
  have hpm := path_measurable hΦ.meas
  have h01 := hit_zero_one hΦ hp hB hinv
  have hmass : ∀ D : Set (ℕ → X), MeasurableSet D → pathLaw P Φ π D = ∫⁻ x, hit P Φ D x ∂π := by
    intro D hD
    unfold pathLaw
    rw [Measure.map_apply hpm hD, Measure.prod_apply (hpm hD)]
    rfl
  let A : Set X := {x | hit P Φ Bᶜ x = 0}
  have hA : MeasurableSet A := (hit_measurable hΦ.meas hB.compl) (measurableSet_singleton 0)
  rw [eventuallyConst_set']
  by_cases hπ : π A = 0
  · left
    rw [ae_eq_empty, hmass B hB, lintegral_eq_zero_iff (hit_measurable hΦ.meas hB)]
    have : ∀ᵐ x ∂π, x ∉ A := measure_eq_zero_iff_ae_notMem.mp hπ
    filter_upwards [h01, this] with x h1 h2
    exact h1.resolve_right h2
  · right
    rw [ae_eq_univ, hmass _ hB.compl, lintegral_eq_zero_iff (hit_measurable hΦ.meas hB.compl)]
    filter_upwards [h01, hirr] with x h1 h2
    refine h1.resolve_left fun h0 => ?_
    have hmw : Measurable fun w => hit P Φ B (Φ^[m] (x, w)).1 := (hit_measurable hΦ.meas hB).comp
      (measurable_fst.comp ((hΦ.meas.iterate m).comp (measurable_const.prodMk measurable_id)))
    rw [hit_step hΦ hB hinv m x, lintegral_eq_zero_iff hmw] at h0
    refine h2 A hA hπ ?_
    rw [measure_eq_zero_iff_ae_notMem]
    filter_upwards [h0] with w hw hmem
    have h3 := hit_compl (P := P) hΦ.meas hB (Φ^[m] (x, w)).1
    have hw' : hit P Φ B (Φ^[m] (x, w)).1 = 0 := hw
    have hmem' : hit P Φ Bᶜ (Φ^[m] (x, w)).1 = 0 := hmem
    rw [hw', hmem', zero_add] at h3
    exact zero_ne_one h3

/-- States from which the chain is in a set of invariant measure 0 with small probability only, after a while. -/
def EventuallySmooth (P : Measure Ω) (Φ : X × Ω → X × Ω) (π : Measure X) (x : X) : Prop :=
  ∀ A, MeasurableSet A → π A = 0 → ∀ ε : ℝ≥0∞, ε ≠ 0 → ∃ n, P {w | (Φ^[n] (x, w)).1 ∈ A} ≤ ε

/-- **Averages along the chain** tend to the mean under the invariant law, from every eventually smooth state and with probability 1. -/
theorem markov_average (hΦ : Regen P Φ) (hp : MeasurePreserving Φ (π.prod P) (π.prod P)) {m : ℕ}
    (hirr : ∀ᵐ x ∂π, ∀ A, MeasurableSet A → π A ≠ 0 → P {w | (Φ^[m] (x, w)).1 ∈ A} ≠ 0) {f : X → ℝ} (hf : Measurable f)
    (hi : Integrable f π) {x : X} (hx : EventuallySmooth P Φ π x) :
    ∀ᵐ w ∂P, Tendsto (fun n : ℕ => (∑ k ∈ Finset.range n, f (Φ^[k] (x, w)).1) / n) atTop (𝓝 (∫ y, f y ∂π)) := by
  have hpm := path_measurable hΦ.meas
  have : IsProbabilityMeasure (pathLaw P Φ π) := by
    unfold pathLaw
    exact Measure.isProbabilityMeasure_map hpm.aemeasurable
  have herg := pathLaw_ergodic hΦ hp hirr
  let F : (ℕ → X) → ℝ := fun p => f (p 0)
  have hF : Measurable F := hf.comp (measurable_pi_apply 0)
  have hmap0 : (pathLaw P Φ π).map (fun p => p 0) = π := by
    unfold pathLaw
    rw [Measure.map_map (measurable_pi_apply 0) hpm]
    have : (fun p : ℕ → X => p 0) ∘ path Φ = Prod.fst := rfl
    rw [this, Measure.map_fst_prod, measure_univ, one_smul]
  have hFi : Integrable F (pathLaw P Φ π) := by
    have h := hi
    rw [← hmap0] at h
    exact (integrable_map_measure (by rw [hmap0]; exact hi.aestronglyMeasurable) (measurable_pi_apply 0).aemeasurable).mp h
  have hFint : ∫ p, F p ∂(pathLaw P Φ π) = ∫ y, f y ∂π := by
    have h := integral_map (μ := pathLaw P Φ π) (measurable_pi_apply 0).aemeasurable (f := f) (by rw [hmap0]; exact hi.aestronglyMeasurable)
    rw [hmap0] at h
    exact h.symm
  have hconv := ergodic_average herg hF hFi
  rw [hFint] at hconv
  have hsum : ∀ n p, birkhoffSum shiftPath F n p = ∑ k ∈ Finset.range n, f (p k) := by
    intro n p
    unfold birkhoffSum
    refine Finset.sum_congr rfl fun k _ => ?_
    have : ∀ k (p : ℕ → X) j, shiftPath^[k] p j = p (j + k) := by
      intro k
      induction k with
      | zero => exact fun p j => rfl
      | succ k ih => intro p j; rw [Function.iterate_succ_apply, ih]; exact congrArg p (by omega)
    show f (shiftPath^[k] p 0) = _
    rw [this, zero_add]
  simp only [hsum] at hconv
  -- the event that the averages converge
  let L := ∫ y, f y ∂π
  let B : Set (ℕ → X) := {p | Tendsto (fun n : ℕ => (∑ k ∈ Finset.range n, f (p k)) / n) atTop (𝓝 L)}
  have hB : MeasurableSet B := by
    refine measurableSet_tendsto_fun (fun n => ?_) measurable_const
    exact (Finset.measurable_sum _ fun k _ => hf.comp (measurable_pi_apply k)).div_const _
  have hinv : shiftPath ⁻¹' B = B := by
    ext p
    show Tendsto (fun n : ℕ => (∑ k ∈ Finset.range n, f (p (k + 1))) / n) atTop (𝓝 L) ↔ Tendsto _ atTop (𝓝 L)
    have h1 : Tendsto (fun n : ℕ => ((n : ℝ) + 1) / n) atTop (𝓝 1) := by
      have h := (tendsto_one_div_atTop_nhds_zero_nat (𝕜 := ℝ)).const_add 1
      rw [add_zero] at h
      refine h.congr' ?_
      filter_upwards [eventually_ge_atTop 1] with n hn
      have : (n : ℝ) ≠ 0 := by positivity
      field_simp
    have h0 : Tendsto (fun n : ℕ => f (p 0) / (n : ℝ)) atTop (𝓝 0) := tendsto_const_div_atTop_nhds_zero_nat _
    rw [← tendsto_add_atTop_iff_nat (f := fun n : ℕ => (∑ k ∈ Finset.range n, f (p k)) / n) 1]
    constructor
    · intro h
      have h2 := (h.add h0).div h1 one_ne_zero
      rw [add_zero, div_one] at h2
      refine h2.congr' ?_
      filter_upwards [eventually_ge_atTop 1] with n hn
      have : (n : ℝ) ≠ 0 := by positivity
      have : (n : ℝ) + 1 ≠ 0 := by positivity
      simp only [Pi.div_apply]
      rw [Finset.sum_range_succ']
      push_cast
      field_simp
    · intro h
      have h2 := (h.mul h1).sub h0
      rw [mul_one, sub_zero] at h2
      refine h2.congr' ?_
      filter_upwards [eventually_ge_atTop 1] with n hn
      have : (n : ℝ) ≠ 0 := by positivity
      have : (n : ℝ) + 1 ≠ 0 := by positivity
      rw [Finset.sum_range_succ']
      push_cast
      field_simp
      ring
  have hinvc : shiftPath ⁻¹' Bᶜ = Bᶜ := by rw [Set.preimage_compl, hinv]
  -- it fails from almost no state
  have hfail : ∀ᵐ y ∂π, hit P Φ Bᶜ y = 0 := by
    have h0 : pathLaw P Φ π Bᶜ = 0 := hconv
    unfold pathLaw at h0
    rw [Measure.map_apply hpm hB.compl, Measure.prod_apply (hpm hB.compl)] at h0
    have h0 : ∫⁻ y, hit P Φ Bᶜ y ∂π = 0 := h0
    rw [lintegral_eq_zero_iff (hit_measurable hΦ.meas hB.compl)] at h0
    exact h0
  let A : Set X := {y | hit P Φ Bᶜ y ≠ 0}
  have hA : MeasurableSet A := ((hit_measurable hΦ.meas hB.compl) (measurableSet_singleton 0)).compl
  have hx0 : hit P Φ Bᶜ x = 0 := by
    by_contra hne
    obtain ⟨n, hn⟩ := hx A hA hfail (hit P Φ Bᶜ x / 2) (ENNReal.div_ne_zero.mpr ⟨hne, by norm_num⟩)
    have hle : hit P Φ Bᶜ x ≤ P {w | (Φ^[n] (x, w)).1 ∈ A} := by
      have hmA : MeasurableSet {w | (Φ^[n] (x, w)).1 ∈ A} :=
        (measurable_fst.comp ((hΦ.meas.iterate n).comp (measurable_const.prodMk measurable_id))) hA
      rw [hit_step hΦ hB.compl hinvc n x, ← lintegral_indicator_one hmA]
      refine lintegral_mono fun w => ?_
      show hit P Φ Bᶜ (Φ^[n] (x, w)).1 ≤ Set.indicator {w | (Φ^[n] (x, w)).1 ∈ A} 1 w
      by_cases hw : (Φ^[n] (x, w)).1 ∈ A
      · rw [Set.indicator_of_mem (show w ∈ {w | (Φ^[n] (x, w)).1 ∈ A} from hw)]
        exact prob_le_one
      · have : hit P Φ Bᶜ (Φ^[n] (x, w)).1 = 0 := not_not.mp hw
        rw [this]
        exact zero_le
    have htop : hit P Φ Bᶜ x ≠ ∞ := measure_ne_top _ _
    exact absurd (hle.trans hn) (not_le.mpr (ENNReal.half_lt_self hne htop))
  exact hx0

end
end Verif.Theory
