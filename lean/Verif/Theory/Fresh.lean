import Verif.Theory.Markov
import Verif.Theory.StationaryRef

/-!
The steps of the sampler leave the random numbers to come fresh; means over one step.
-/

namespace Verif.Theory

open MeasureTheory Verif.Model Verif.Spec ENNReal

/-! ### means over one step -/

section
variable {X Ω : Type} [MeasurableSpace X] [MeasurableSpace Ω]

/-- Mean of `f` after the step `Φ` from `x`. -/
noncomputable def avg (P : Measure Ω) (Φ : X × Ω → X × Ω) (f : X → ℝ≥0∞) (x : X) : ℝ≥0∞ := ∫⁻ w, f (Φ (x, w)).1 ∂P

variable {P : Measure Ω} {Φ Ψ : X × Ω → X × Ω} {f : X → ℝ≥0∞}

theorem avg_measurable [SFinite P] (hΦ : Measurable Φ) (hf : Measurable f) : Measurable (avg P Φ f) :=
  Measurable.lintegral_prod_right' (f := fun z : X × Ω => f (Φ z).1) (hf.comp (measurable_fst.comp hΦ))

theorem avg_comp (hΨ : Measurable Ψ) (hΦ : Regen P Φ) (hf : Measurable f) : avg P (Ψ ∘ Φ) f = avg P Φ (avg P Ψ f) :=
  funext fun x => hΦ.fresh x (fun z => f (Ψ z).1) (hf.comp (measurable_fst.comp hΨ))

omit [MeasurableSpace X] in
theorem avg_id [IsProbabilityMeasure P] : avg P (id : X × Ω → X × Ω) f = f := funext fun x => by simp [avg]

/-- Probability of reaching `A` through means. -/
theorem avg_indicator (hΦ : Measurable Φ) {A : Set X} (hA : MeasurableSet A) (x : X) :
    avg P Φ (A.indicator 1) x = P {w | (Φ (x, w)).1 ∈ A} := by
  have hm : MeasurableSet {w | (Φ (x, w)).1 ∈ A} := (measurable_fst.comp (hΦ.comp (measurable_const.prodMk measurable_id))) hA
  rw [← lintegral_indicator_one hm]
  rfl

end

/-! ### numbers used and not used -/

/-- Numbers beyond the first `d` are independent of the first `d`. -/
theorem lintegral_skip {ν : Measure ℝ} [IsProbabilityMeasure ν] (d : ℕ) : ∀ {h : (ℕ → ℝ) × (ℕ → ℝ) → ℝ≥0∞}, Measurable h →
    (∀ s₁ s₂ s', (∀ i < d, s₁ i = s₂ i) → h (s₁, s') = h (s₂, s')) →
    ∫⁻ s, h (s, Rng.skip d s) ∂(drawsOf ν) = ∫⁻ s, ∫⁻ s', h (s, s') ∂(drawsOf ν) ∂(drawsOf ν) := by
  induction d with
  | zero =>
      intro h _ hd
      have e1 : ∀ s : ℕ → ℝ, h (s, Rng.skip 0 s) = h (0, s) := fun s => hd _ _ _ fun i hi => absurd hi (by omega)
      have e2 : ∀ s s' : ℕ → ℝ, h (s, s') = h (0, s') := fun s s' => hd _ _ _ fun i hi => absurd hi (by omega)
      simp only [e1]
      simp only [fun s s' => e2 s s']
      rw [lintegral_const, measure_univ, mul_one]
  | succ d ih =>
      intro h hm hd
      have m1 : Measurable fun s : ℕ → ℝ => h (s, Rng.skip (d + 1) s) := hm.comp (measurable_id.prodMk (measurable_skip _))
      have m2 : Measurable fun s : ℕ → ℝ => ∫⁻ s', h (s, s') ∂(drawsOf ν) := hm.lintegral_prod_right'
      have e1 : ∀ v : ℝ, ∫⁻ s, h (consSeq (v, s), Rng.skip (d + 1) (consSeq (v, s))) ∂(drawsOf ν) =
          ∫⁻ s, ∫⁻ s', h (consSeq (v, s), s') ∂(drawsOf ν) ∂(drawsOf ν) := by
        intro v
        refine ih (h := fun z => h (consSeq (v, z.1), z.2)) ?_ ?_
        · exact hm.comp ((measurable_consSeq.comp (measurable_const.prodMk measurable_fst)).prodMk measurable_snd)
        · intro s₁ s₂ s' hs
          refine hd _ _ _ fun i hi => ?_
          cases i with
          | zero => rfl
          | succ i => exact hs i (by omega)
      unfold drawsOf at m2 e1 ⊢
      rw [lintegral_iid m1, lintegral_iid m2]
      exact lintegral_congr e1

/-- The law of all random numbers. -/
noncomputable abbrev rngLaw (ν : Measure ℝ) [IsProbabilityMeasure ν] : Measure ((ℕ → ℝ) × (ℕ → ℝ)) := (drawsOf ν).prod (drawsOf unifLaw)

section
variable {X : Type} [MeasurableSpace X] {ν : Measure ℝ} [IsProbabilityMeasure ν]
  {T : (ℕ → ℝ) → X → X} {F : Set (X × (ℕ → ℝ))} {a : X × (ℕ → ℝ) → ℝ} {d : ℕ}

/-- Mean over a Metropolis step. -/
theorem metro_mean {κ : (ℕ → ℝ) → ℕ → ℝ} (hT : Measurable fun z : X × (ℕ → ℝ) => T z.2 z.1) (hκ : Measurable κ) (hF : MeasurableSet F) (ha : Measurable a)
    (ha1 : ∀ z ∈ F, a z ≤ 1) {g : X × (ℕ → ℝ) × (ℕ → ℝ) → ℝ≥0∞} (hg : Measurable g) (x : X) :
    ∫⁻ w, g (metroMap T κ F a (x, w)) ∂(rngLaw ν) = ∫⁻ s, (metroAcc F a x s * ∫⁻ u, g (T s x, κ s, u) ∂(drawsOf unifLaw) +
      (1 - metroAcc F a x s) * ∫⁻ u, g (x, κ s, u) ∂(drawsOf unifLaw)) ∂(drawsOf ν) := by
  have hm : Measurable fun w : (ℕ → ℝ) × (ℕ → ℝ) => g (metroMap T κ F a (x, w)) :=
    hg.comp ((metroMap_measurable hT hκ hF ha).comp (measurable_const.prodMk measurable_id))
  rw [lintegral_prod _ hm.aemeasurable]
  exact lintegral_congr fun s => metro_inner hT hκ hF ha ha1 hg x s

theorem metro_avg {κ : (ℕ → ℝ) → ℕ → ℝ} (hT : Measurable fun z : X × (ℕ → ℝ) => T z.2 z.1) (hκ : Measurable κ) (hF : MeasurableSet F) (ha : Measurable a)
    (ha1 : ∀ z ∈ F, a z ≤ 1) {f : X → ℝ≥0∞} (hf : Measurable f) (x : X) :
    avg (rngLaw ν) (metroMap T κ F a) f x = ∫⁻ s, (metroAcc F a x s * f (T s x) + (1 - metroAcc F a x s) * f x) ∂(drawsOf ν) := by
  have := metro_mean (ν := ν) hT hκ hF ha ha1 (g := fun z => f z.1) (hf.comp measurable_fst) x
  unfold avg
  simpa using this

/-- A Metropolis step that looks only at the first `d` numbers leaves the others fresh. -/
theorem metro_regen (hT : Measurable fun z : X × (ℕ → ℝ) => T z.2 z.1) (hF : MeasurableSet F) (ha : Measurable a)
    (ha1 : ∀ z ∈ F, a z ≤ 1) (hTd : ∀ s₁ s₂ x, (∀ i < d, s₁ i = s₂ i) → T s₁ x = T s₂ x)
    (hAd : ∀ s₁ s₂ x, (∀ i < d, s₁ i = s₂ i) → metroAcc F a x s₁ = metroAcc F a x s₂) :
    Regen (rngLaw ν) (metroMap T (Rng.skip d) F a) := by
  have hmeas := metroMap_measurable hT (measurable_skip d) hF ha
  refine ⟨hmeas, fun x g hg => ?_⟩
  have mk : Measurable fun z : X × (ℕ → ℝ) => ∫⁻ u, g (z.1, z.2, u) ∂(drawsOf unifLaw) :=
    Measurable.lintegral_prod_right' (f := fun z : (X × (ℕ → ℝ)) × (ℕ → ℝ) => g (z.1.1, z.1.2, z.2))
      (hg.comp ((measurable_fst.comp measurable_fst).prodMk ((measurable_snd.comp measurable_fst).prodMk measurable_snd)))
  have hK : ∀ y, ∫⁻ w', g (y, w') ∂(rngLaw ν) = ∫⁻ s', ∫⁻ u, g (y, s', u) ∂(drawsOf unifLaw) ∂(drawsOf ν) := fun y =>
    lintegral_prod _ (hg.comp (measurable_const.prodMk measurable_id)).aemeasurable
  have mK : Measurable fun y => ∫⁻ w', g (y, w') ∂(rngLaw ν) := hg.lintegral_prod_right'
  have e1 := metro_mean (ν := ν) hT (measurable_skip d) hF ha ha1 hg x
  have e2 := metro_avg (ν := ν) hT (measurable_skip d) hF ha ha1 mK x
  unfold avg at e2
  rw [e1, e2]
  have mA : Measurable fun s => metroAcc F a x s := (metroAcc_measurable hF ha).comp (measurable_const.prodMk measurable_id)
  have mTx : Measurable fun s => T s x := hT.comp (measurable_const.prodMk measurable_id)
  have hm : Measurable fun z : (ℕ → ℝ) × (ℕ → ℝ) => metroAcc F a x z.1 * ∫⁻ u, g (T z.1 x, z.2, u) ∂(drawsOf unifLaw) +
      (1 - metroAcc F a x z.1) * ∫⁻ u, g (x, z.2, u) ∂(drawsOf unifLaw) := by
    refine ((mA.comp measurable_fst).mul (mk.comp ((mTx.comp measurable_fst).prodMk measurable_snd))).add ?_
    exact (measurable_const.sub (mA.comp measurable_fst)).mul (mk.comp (measurable_const.prodMk measurable_snd))
  have e3 := lintegral_skip (ν := ν) d hm fun s₁ s₂ s' hs => by
    dsimp only
    rw [hTd s₁ s₂ x hs, hAd s₁ s₂ x hs]
  dsimp only at e3
  rw [e3]
  refine lintegral_congr fun s => ?_
  have m1 : Measurable fun s' => metroAcc F a x s * ∫⁻ u, g (T s x, s', u) ∂(drawsOf unifLaw) :=
    (mk.comp (measurable_const.prodMk measurable_id)).const_mul _
  rw [lintegral_add_left m1, lintegral_const_mul, lintegral_const_mul, hK, hK]
  · exact mk.comp (measurable_const.prodMk measurable_id)
  · exact mk.comp (measurable_const.prodMk measurable_id)

end

/-! ### the steps -/

variable {d N : ℕ} {G : LogTarget d} {T : Fin N → ℝ} {ν : Measure ℝ} [IsProbabilityMeasure ν]

/-- Acceptance probability of a move of one chain. -/
noncomputable def acc (G : LogTarget d) (T : ℝ) (q y : Fin d → ℝ) : ℝ≥0∞ :=
  if (G q).isSome = true ∧ (G y).isSome = true then ENNReal.ofReal (min 1 (Real.exp (((G y).getD 0 - (G q).getD 0) / T))) else 0

theorem acc_le_one (G : LogTarget d) (T : ℝ) (q y : Fin d → ℝ) : acc G T q y ≤ 1 := by
  unfold acc
  split
  · exact ENNReal.ofReal_le_one.mpr (min_le_left _ _)
  · exact zero_le_one

theorem acc_ne_zero {T : ℝ} {q y : Fin d → ℝ} (h1 : (G q).isSome = true) (h2 : (G y).isSome = true) : acc G T q y ≠ 0 := by
  unfold acc
  rw [if_pos ⟨h1, h2⟩]
  exact (ENNReal.ofReal_pos.mpr (lt_min one_pos (Real.exp_pos _))).ne'

theorem acc_measurable (hG : MeasTarget G) (T : ℝ) (q : Fin d → ℝ) : Measurable (acc G T q) := by
  refine Measurable.ite ?_ (ENNReal.measurable_ofReal.comp (measurable_const.min (Real.measurable_exp.comp ((hG.val.sub_const _).div_const _)))) measurable_const
  exact (MeasurableSet.const _).inter hG.some

/-- The law of the proposal of a RAM step from `q`. -/
noncomputable def jump (ν : Measure ℝ) [IsProbabilityMeasure ν] (L : Matrix (Fin d) (Fin d) ℝ) (q : Fin d → ℝ) : Measure (Fin d → ℝ) :=
  (drawsOf ν).map fun s j => q j + ∑ k : Fin d, L k j * s k

theorem jump_map_measurable (L : Matrix (Fin d) (Fin d) ℝ) (q : Fin d → ℝ) : Measurable fun (s : ℕ → ℝ) (j : Fin d) => q j + ∑ k : Fin d, L k j * s k := by
  refine measurable_pi_lambda _ fun j => ?_
  have h : Measurable fun s : ℕ → ℝ => ∑ k : Fin d, L k j * s k :=
    Finset.measurable_sum _ fun k _ => measurable_const.mul (measurable_pi_apply (k : ℕ))
  exact h.const_add _

instance {L : Matrix (Fin d) (Fin d) ℝ} {q : Fin d → ℝ} : IsProbabilityMeasure (jump ν L q) :=
  Measure.isProbabilityMeasure_map (jump_map_measurable L q).aemeasurable

theorem ramMove_update (i : Fin N) (L : Matrix (Fin d) (Fin d) ℝ) (s : ℕ → ℝ) (x : Fin N → Fin d → ℝ) :
    ramMove i L s x = Function.update x i fun j => x i j + ∑ k : Fin d, L k j * s k := by
  funext j
  by_cases h : j = i
  · subst h
    rw [ramMove_same, Function.update_self]
  · rw [ramMove_other h, Function.update_of_ne h]

theorem ram_acc (i : Fin N) (L : Matrix (Fin d) (Fin d) ℝ) (x : Fin N → Fin d → ℝ) (s : ℕ → ℝ) :
    metroAcc (ramSet G i L) (ramProb G T i L) x s = acc G (T i) (x i) (fun j => x i j + ∑ k : Fin d, L k j * s k) := by
  have e : ramMove i L s x i = fun j => x i j + ∑ k : Fin d, L k j * s k := ramMove_same i L s x
  classical
  unfold metroAcc acc
  rw [← e]
  by_cases h : (x, s) ∈ ramSet G i L
  · rw [if_pos h, if_pos (show (G (x i)).isSome = true ∧ (G (ramMove i L s x i)).isSome = true from h)]
    rfl
  · rw [if_neg h, if_neg (show ¬ ((G (x i)).isSome = true ∧ (G (ramMove i L s x i)).isSome = true) from h)]

theorem ramSet_measurable (hG : MeasTarget G) (i : Fin N) (L : Matrix (Fin d) (Fin d) ℝ) : MeasurableSet (ramSet G i L) := by
  have hx : Measurable fun w : (Fin N → Fin d → ℝ) × (ℕ → ℝ) => w.1 i := (measurable_pi_apply i).comp measurable_fst
  have hy : Measurable fun w : (Fin N → Fin d → ℝ) × (ℕ → ℝ) => ramMove i L w.2 w.1 i := (measurable_pi_apply i).comp (ramMove_measurable i L)
  exact (hx hG.some).inter (hy hG.some)

theorem ramProb_measurable (hG : MeasTarget G) (T : Fin N → ℝ) (i : Fin N) (L : Matrix (Fin d) (Fin d) ℝ) : Measurable (ramProb G T i L) := by
  have hx : Measurable fun w : (Fin N → Fin d → ℝ) × (ℕ → ℝ) => w.1 i := (measurable_pi_apply i).comp measurable_fst
  have hy : Measurable fun w : (Fin N → Fin d → ℝ) × (ℕ → ℝ) => ramMove i L w.2 w.1 i := (measurable_pi_apply i).comp (ramMove_measurable i L)
  exact measurable_const.min (Real.measurable_exp.comp (((hG.val.comp hy).sub (hG.val.comp hx)).div_const _))

/-- Mean over a RAM step. -/
theorem ram_avg (hG : MeasTarget G) (T : Fin N → ℝ) (i : Fin N) (L : Matrix (Fin d) (Fin d) ℝ) {f : (Fin N → Fin d → ℝ) → ℝ≥0∞}
    (hf : Measurable f) (x : Fin N → Fin d → ℝ) : avg (rngLaw ν) (ramMap G T i L) f x =
      ∫⁻ y, (acc G (T i) (x i) y * f (Function.update x i y) + (1 - acc G (T i) (x i) y) * f x) ∂(jump ν L (x i)) := by
  have hu : Measurable fun y : Fin d → ℝ => f (Function.update x i y) := hf.comp (measurable_update x)
  have ha := acc_measurable hG (T i) (x i)
  have hm : Measurable fun y => acc G (T i) (x i) y * f (Function.update x i y) + (1 - acc G (T i) (x i) y) * f x :=
    (ha.mul hu).add ((measurable_const.sub ha).mul measurable_const)
  unfold jump
  rw [lintegral_map hm (jump_map_measurable L (x i))]
  refine (metro_avg (ramMove_measurable i L) (measurable_skip d) (ramSet_measurable hG i L) (ramProb_measurable hG T i L) (fun z _ => min_le_left _ _) hf x).trans ?_
  refine lintegral_congr fun s => ?_
  rw [ram_acc, ramMove_update]

theorem ram_regen (hG : MeasTarget G) (T : Fin N → ℝ) (i : Fin N) (L : Matrix (Fin d) (Fin d) ℝ) : Regen (rngLaw ν) (ramMap G T i L) := by
  have key : ∀ (s₁ s₂ : ℕ → ℝ) (x : Fin N → Fin d → ℝ), (∀ i < d, s₁ i = s₂ i) →
      (fun j => x i j + ∑ k : Fin d, L k j * s₁ k) = fun j => x i j + ∑ k : Fin d, L k j * s₂ k := by
    intro s₁ s₂ x h
    funext j
    congr 1
    exact Finset.sum_congr rfl fun k _ => by rw [h k k.2]
  refine metro_regen (ramMove_measurable i L) (ramSet_measurable hG i L) (ramProb_measurable hG T i L) (fun z _ => min_le_left _ _) ?_ ?_
  · intro s₁ s₂ x h
    rw [ramMove_update, ramMove_update, key s₁ s₂ x h]
  · intro s₁ s₂ x h
    rw [ram_acc, ram_acc, key s₁ s₂ x h]

/-- Acceptance probability of a swap. -/
noncomputable def swAcc (G : LogTarget d) (T : Fin N → ℝ) (i j : Fin N) (x : Fin N → Fin d → ℝ) : ℝ≥0∞ :=
  ENNReal.ofReal (swapAcc G T i j (x, 0))

theorem swap_acc (i j : Fin N) (x : Fin N → Fin d → ℝ) (s : ℕ → ℝ) : metroAcc Set.univ (swapAcc G T i j) x s = swAcc G T i j x := by
  unfold metroAcc
  rw [if_pos (Set.mem_univ _)]
  rfl

theorem swapAcc_le_one (i j : Fin N) (z : (Fin N → Fin d → ℝ) × (ℕ → ℝ)) : swapAcc G T i j z ≤ 1 := by
  unfold swapAcc
  split
  · exact min_le_left _ _
  · exact zero_le_one

theorem swAcc_le_one (i j : Fin N) (x : Fin N → Fin d → ℝ) : swAcc G T i j x ≤ 1 := ENNReal.ofReal_le_one.mpr (swapAcc_le_one i j _)

theorem swAcc_ne_zero {i j : Fin N} {x : Fin N → Fin d → ℝ} (hi : (G (x i)).isSome = true) (hj : (G (x j)).isSome = true) : swAcc G T i j x ≠ 0 := by
  refine (ENNReal.ofReal_pos.mpr ?_).ne'
  unfold swapAcc
  rw [if_pos ⟨hi, hj⟩]
  exact lt_min one_pos (Real.exp_pos _)

theorem swapAcc_measurable (hG : MeasTarget G) (T : Fin N → ℝ) (i j : Fin N) : Measurable (swapAcc G T i j) := by
  have hx : ∀ k : Fin N, Measurable fun w : (Fin N → Fin d → ℝ) × (ℕ → ℝ) => w.1 k := fun k => (measurable_pi_apply k).comp measurable_fst
  have hm : ∀ k : Fin N, Measurable fun w : (Fin N → Fin d → ℝ) × (ℕ → ℝ) => (G (w.1 k)).getD 0 := fun k => hG.val.comp (hx k)
  refine Measurable.ite ((hx i hG.some).inter (hx j hG.some)) ?_ measurable_const
  exact measurable_const.min (Real.measurable_exp.comp
      ((((hm j).div_const _).add ((hm i).div_const _)).sub (((hm i).div_const _).add ((hm j).div_const _))))

theorem swapMove_measurable (i j : Fin N) : Measurable fun z : (Fin N → Fin d → ℝ) × (ℕ → ℝ) => swapMove i j z.2 z.1 :=
  measurable_pi_lambda _ fun _ => (measurable_pi_apply _).comp measurable_fst

/-- Mean over an exchange step. -/
theorem exch_avg (hG : MeasTarget G) (T : Fin N → ℝ) (i j : Fin N) {f : (Fin N → Fin d → ℝ) → ℝ≥0∞} (hf : Measurable f)
    (x : Fin N → Fin d → ℝ) : avg (rngLaw ν) (exchMap G T i j) f x =
      swAcc G T i j x * f (fun k => x (Equiv.swap i j k)) + (1 - swAcc G T i j x) * f x := by
  refine (metro_avg (swapMove_measurable i j) measurable_id .univ (swapAcc_measurable hG T i j) (fun z _ => swapAcc_le_one i j z) hf x).trans ?_
  simp only [swap_acc]
  show ∫⁻ s, _ * f (fun k => x (Equiv.swap i j k)) + _ ∂(drawsOf ν) = _
  rw [lintegral_const, measure_univ, mul_one]

theorem exch_regen (hG : MeasTarget G) (T : Fin N → ℝ) (i j : Fin N) : Regen (rngLaw ν) (exchMap G T i j) := by
  have := metro_regen (ν := ν) (d := 0) (swapMove_measurable (d := d) i j) .univ (swapAcc_measurable hG T i j) (fun z _ => swapAcc_le_one i j z)
    (fun s₁ s₂ x _ => rfl) (fun s₁ s₂ x _ => by rw [swap_acc, swap_acc])
  have e : (Rng.skip 0 : (ℕ → ℝ) → ℕ → ℝ) = id := rfl
  rw [e] at this
  exact this

theorem step_regen (hG : MeasTarget G) (T : Fin N → ℝ) (st : StepSt d) : Regen (rngLaw ν) (stepMap G T st) := by
  cases st with
  | ram i a =>
      by_cases h : i < N
      · simp only [stepMap, h, dif_pos]; exact ram_regen hG T _ _
      · simp only [stepMap, h, dif_neg, not_false_eq_true]; exact Regen.id
  | exch e =>
      by_cases h : e.idx < N
      · simp only [stepMap, h, dif_pos]; exact exch_regen hG T _ _
      · simp only [stepMap, h, dif_neg, not_false_eq_true]; exact Regen.id

/-- The map of a list of steps, the first one first. -/
noncomputable def listMap (G : LogTarget d) (T : Fin N → ℝ) : List (StepSt d) → McState N d → McState N d
  | [] => id
  | st :: l => listMap G T l ∘ stepMap G T st

theorem list_regen (hG : MeasTarget G) (T : Fin N → ℝ) (l : List (StepSt d)) : Regen (rngLaw ν) (listMap G T l) := by
  induction l with
  | nil => exact Regen.id
  | cons st l ih => exact ih.comp (step_regen hG T st)

theorem listMap_concat (G : LogTarget d) (T : Fin N → ℝ) (l : List (StepSt d)) (st : StepSt d) :
    listMap G T (l ++ [st]) = stepMap G T st ∘ listMap G T l := by
  induction l with
  | nil => rfl
  | cons s l ih =>
      show listMap G T (l ++ [st]) ∘ stepMap G T s = _
      rw [ih]
      rfl

theorem loopMap_take (G : LogTarget d) (T : Fin N → ℝ) (l : List (StepSt d)) (m : ℕ) : loopMap G T l m = listMap G T (l.take m) := by
  induction m with
  | zero => rfl
  | succ m ih =>
      rw [List.take_add_one]
      unfold loopMap
      cases h : l[m]? with
      | none => simpa using ih
      | some st =>
          simp only [Option.toList_some]
          rw [listMap_concat, ← ih]
          rfl

theorem sweepsMap_list (G : LogTarget d) (T : Fin N → ℝ) (l : List (StepSt d)) (n : ℕ) : sweepsMap G T l n = (listMap G T l)^[n] := by
  unfold sweepsMap
  rw [loopMap_take, List.take_length]

theorem list_avg (hG : MeasTarget G) (T : Fin N → ℝ) (st : StepSt d) (l : List (StepSt d)) {f : (Fin N → Fin d → ℝ) → ℝ≥0∞}
    (hf : Measurable f) : avg (rngLaw ν) (listMap G T (st :: l)) f = avg (rngLaw ν) (stepMap G T st) (avg (rngLaw ν) (listMap G T l) f) :=
  avg_comp (list_regen (ν := ν) hG T l).meas (step_regen hG T st) hf

end Verif.Theory
