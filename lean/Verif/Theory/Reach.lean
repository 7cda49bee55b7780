import Verif.Theory.Jump

/-!
Sweeps of parallel tempering reach every set of positive volume from every state of positive density, and leave every null set with
probability tending to 1.
-/

namespace Verif.Theory

open MeasureTheory Verif.Model Verif.Spec ENNReal

variable {d N : ℕ} {G : LogTarget d} {T : Fin N → ℝ} {ν : Measure ℝ} [IsProbabilityMeasure ν]

/-! ### one coordinate at a time -/

/-- Almost every point, through redrawing one coordinate. -/
theorem ae_update_iff (i : Fin N) {p : (Fin N → Fin d → ℝ) → Prop} (hp : MeasurableSet {v | p v}) :
    (∀ᵐ v, p v) ↔ ∀ᵐ v : Fin N → Fin d → ℝ, ∀ᵐ y : Fin d → ℝ, p (Function.update v i y) := by
  cases N with
  | zero => exact i.elim0
  | succ n =>
      let e := MeasurableEquiv.piFinSuccAbove (fun _ : Fin (n + 1) => Fin d → ℝ) i
      have he : MeasurePreserving e volume ((volume : Measure (Fin d → ℝ)).prod volume) := volume_preserving_piFinSuccAbove (fun _ : Fin (n + 1) => Fin d → ℝ) i
      have hu : ∀ (v : Fin (n + 1) → Fin d → ℝ) y, Function.update v i y = e.symm (y, (e v).2) := by
        intro v y
        show _ = Fin.insertNth i y (Fin.removeNth i v)
        simp
      have hp' : MeasurableSet {z : (Fin d → ℝ) × (Fin n → Fin d → ℝ) | p (e.symm z)} := e.symm.measurable hp
      have h1 : (∀ᵐ v, p v) ↔ ∀ᵐ z ∂((volume : Measure (Fin d → ℝ)).prod (volume : Measure (Fin n → Fin d → ℝ))), p (e.symm z) := by
        rw [← he.symm.map_eq, ae_map_iff he.symm.measurable.aemeasurable hp]
      have h2 : MeasurableSet {r : Fin n → Fin d → ℝ | ∀ᵐ y : Fin d → ℝ, p (e.symm (y, r))} := by
        have := measurable_measure_prodMk_right (μ := (volume : Measure (Fin d → ℝ))) hp'.compl
        exact this (measurableSet_singleton 0)
      have h3 : (∀ᵐ v : Fin (n + 1) → Fin d → ℝ, ∀ᵐ y : Fin d → ℝ, p (Function.update v i y)) ↔
          ∀ᵐ r : Fin n → Fin d → ℝ, ∀ᵐ y : Fin d → ℝ, p (e.symm (y, r)) := by
        simp only [hu]
        have h4 : (∀ᵐ z ∂((volume : Measure (Fin d → ℝ)).prod (volume : Measure (Fin n → Fin d → ℝ))), ∀ᵐ y : Fin d → ℝ, p (e.symm (y, z.2))) ↔
            ∀ᵐ r : Fin n → Fin d → ℝ, ∀ᵐ y : Fin d → ℝ, p (e.symm (y, r)) := by
          rw [Measure.ae_prod_iff_ae_ae (p := fun z : (Fin d → ℝ) × (Fin n → Fin d → ℝ) => ∀ᵐ y : Fin d → ℝ, p (e.symm (y, z.2))) (measurable_snd h2)]
          constructor
          · intro h
            exact h.exists.choose_spec
          · intro h
            exact Filter.Eventually.of_forall fun _ => h
        rw [← h4, ← he.map_eq]
        exact (ae_map_iff he.measurable.aemeasurable (measurable_snd h2)).symm
      rw [h1, h3, Measure.ae_prod_iff_ae_ae hp', Measure.ae_ae_comm hp']

/-- `x` with the coordinates in `I` from `v`. -/
def mix (I : Finset (Fin N)) (v x : Fin N → Fin d → ℝ) : Fin N → Fin d → ℝ := fun k => if k ∈ I then v k else x k

theorem mix_measurable (I : Finset (Fin N)) (x : Fin N → Fin d → ℝ) : Measurable fun v => mix I v x := by
  refine measurable_pi_lambda _ fun k => ?_
  unfold mix
  split
  · exact measurable_pi_apply k
  · exact measurable_const

theorem mix_update (I : Finset (Fin N)) (i : Fin N) (v x : Fin N → Fin d → ℝ) (y : Fin d → ℝ) :
    mix (insert i I) (Function.update v i y) x = Function.update (mix I v x) i y := by
  funext k
  by_cases h : k = i
  · subst h; simp [mix]
  · simp [mix, h]

/-- Swap of two coordinates. -/
def sw (i j : Fin N) (x : Fin N → Fin d → ℝ) : Fin N → Fin d → ℝ := fun k => x (Equiv.swap i j k)

theorem sw_preserving (i j : Fin N) : MeasurePreserving (sw (d := d) i j) volume volume := by
  have h := volume_measurePreserving_piCongrLeft (fun _ : Fin N => Fin d → ℝ) (Equiv.swap i j)
  have e : (MeasurableEquiv.piCongrLeft (fun _ : Fin N => Fin d → ℝ) (Equiv.swap i j) : (Fin N → Fin d → ℝ) → _) = sw i j := by
    funext x k
    have := Equiv.piCongrLeft_apply_apply (fun _ : Fin N => Fin d → ℝ) (Equiv.swap i j) x (Equiv.swap i j k)
    rw [Equiv.swap_apply_self] at this
    exact this
  rw [← e]
  exact h

theorem sw_mix (I : Finset (Fin N)) (i j : Fin N) (v x : Fin N → Fin d → ℝ) :
    sw i j (mix (I.image (Equiv.swap i j)) v x) = mix I (sw i j v) (sw i j x) := by
  funext k
  have : Equiv.swap i j k ∈ I.image (Equiv.swap i j) ↔ k ∈ I := by
    rw [Finset.mem_image]
    constructor
    · rintro ⟨m, h1, h2⟩
      rw [← (Equiv.swap i j).injective h2]; exact h1
    · intro h; exact ⟨k, h, rfl⟩
  simp only [sw, mix, this]

/-! ### reaching sets of positive volume -/

/-- All chains have positive density. -/
def Alive (G : LogTarget d) (x : Fin N → Fin d → ℝ) : Prop := ∀ i, (G (x i)).isSome = true

theorem alive_measurable (hG : MeasTarget G) : MeasurableSet {x : Fin N → Fin d → ℝ | Alive G x} := by
  have : {x : Fin N → Fin d → ℝ | Alive G x} = ⋂ i, (fun x : Fin N → Fin d → ℝ => x i) ⁻¹' {y | (G y).isSome = true} := by
    ext x; simp [Alive]
  rw [this]
  exact MeasurableSet.iInter fun i => measurable_pi_apply i hG.some

/-- Wherever the other coordinates are, the coordinates in `I` can be filled so that `f` is positive. -/
def Thick (G : LogTarget d) (I : Finset (Fin N)) (f : (Fin N → Fin d → ℝ) → ℝ≥0∞) : Prop :=
  ∀ x, Alive G x → ¬ ∀ᵐ v, ¬ (Alive G (mix I v x) ∧ f (mix I v x) ≠ 0)

theorem good_measurable (hG : MeasTarget G) {f : (Fin N → Fin d → ℝ) → ℝ≥0∞} (hf : Measurable f) :
    MeasurableSet {x | ¬ (Alive G x ∧ f x ≠ 0)} :=
  ((alive_measurable hG).inter (hf (measurableSet_singleton 0).compl)).compl

theorem alive_update {x : Fin N → Fin d → ℝ} (hx : Alive G x) {i : Fin N} {y : Fin d → ℝ} (hy : (G y).isSome = true) :
    Alive G (Function.update x i y) := by
  intro k
  by_cases h : k = i
  · subst h; rw [Function.update_self]; exact hy
  · rw [Function.update_of_ne h]; exact hx k

theorem thick_insert (hG : MeasTarget G) (hvol : volume {y | (G y).isSome = true} ≠ 0) {f : (Fin N → Fin d → ℝ) → ℝ≥0∞} (hf : Measurable f)
    {I : Finset (Fin N)} (h : Thick G I f) (i : Fin N) : Thick G (insert i I) f := by
  by_cases hi : i ∈ I
  · rw [Finset.insert_eq_of_mem hi]; exact h
  intro x hx hcon
  have hm := good_measurable hG hf
  replace hcon := (ae_update_iff i (mix_measurable (insert i I) x hm)).mp hcon
  replace hcon : ∀ᵐ v : Fin N → Fin d → ℝ, ∀ᵐ y : Fin d → ℝ, ¬ (Alive G (mix (insert i I) (Function.update v i y) x) ∧
    f (mix (insert i I) (Function.update v i y) x) ≠ 0) := hcon
  simp only [mix_update] at hcon
  have hm2 : Measurable fun z : (Fin N → Fin d → ℝ) × (Fin d → ℝ) => Function.update (mix I z.1 x) i z.2 :=
    measurable_pi_lambda _ fun k => by
      by_cases hk : k = i
      · subst hk; simp only [Function.update_self]; exact measurable_snd
      · simp only [Function.update_of_ne hk]
        exact (measurable_pi_apply k).comp ((mix_measurable I x).comp measurable_fst)
  rw [Measure.ae_ae_comm (p := fun v y => ¬ (Alive G (Function.update (mix I v x) i y) ∧ f (Function.update (mix I v x) i y) ≠ 0)) (hm2 hm)] at hcon
  have key : ∀ y, (G y).isSome = true → ¬ ∀ᵐ v, ¬ (Alive G (Function.update (mix I v x) i y) ∧ f (Function.update (mix I v x) i y) ≠ 0) := by
    intro y hy
    have e : ∀ v, Function.update (mix I v x) i y = mix I v (Function.update x i y) := by
      intro v
      funext k
      by_cases hk : k = i
      · subst hk; simp [mix, hi]
      · simp [mix, hk]
    simp only [e]
    exact h _ (alive_update hx hy)
  refine hvol (measure_mono_null (fun y hy => ?_) hcon)
  exact key y hy

/-- Going back over a RAM step. -/
theorem thick_ram (hG : MeasTarget G) (hvol : volume {y | (G y).isSome = true} ≠ 0) {i : Fin N} {L : Matrix (Fin d) (Fin d) ℝ} (hL : L.det ≠ 0)
    (hν : volume ≪ ν) {f : (Fin N → Fin d → ℝ) → ℝ≥0∞} (hf : Measurable f) {I : Finset (Fin N)} (h : Thick G I f) :
    Thick G (I.erase i) (avg (rngLaw ν) (ramMap G T i L) f) := by
  intro x hx hcon
  have h' := thick_insert hG hvol hf h i
  have e0 : insert i I = insert i (I.erase i) := by
    ext k
    by_cases hk : k = i <;> simp [hk]
  rw [e0] at h'
  refine h' x hx ?_
  have hm := good_measurable hG hf
  refine (ae_update_iff i (mix_measurable (insert i (I.erase i)) x hm)).mpr ?_
  show ∀ᵐ v : Fin N → Fin d → ℝ, ∀ᵐ y : Fin d → ℝ, ¬ (Alive G (mix (insert i (I.erase i)) (Function.update v i y) x) ∧
    f (mix (insert i (I.erase i)) (Function.update v i y) x) ≠ 0)
  simp only [mix_update]
  refine hcon.mono fun v hv => ?_
  by_cases hA : Alive G (mix (I.erase i) v x)
  · have h0 : avg (rngLaw ν) (ramMap G T i L) f (mix (I.erase i) v x) = 0 := by
      by_contra hne
      exact hv ⟨hA, hne⟩
    rw [ram_avg hG T i L hf] at h0
    generalize mix (I.erase i) v x = z at hA h0
    have ha := acc_measurable hG (T i) (z i)
    have hu : Measurable fun y : Fin d → ℝ => f (Function.update z i y) := hf.comp (measurable_update z)
    have hmm : Measurable fun y => acc G (T i) (z i) y * f (Function.update z i y) + (1 - acc G (T i) (z i) y) * f z :=
      (ha.mul hu).add ((measurable_const.sub ha).mul measurable_const)
    rw [lintegral_eq_zero_iff hmm] at h0
    have h1 : ∀ᵐ y, acc G (T i) (z i) y * f (Function.update z i y) + (1 - acc G (T i) (z i) y) * f z = 0 := (volume_ac_jump hL hν (z i)).ae_le h0
    refine h1.mono fun y hy => ?_
    rintro ⟨g1, g2⟩
    have g3 : (G y).isSome = true := by have := g1 i; rwa [Function.update_self] at this
    rw [add_eq_zero, mul_eq_zero] at hy
    rcases hy.1 with h1 | h1
    · exact acc_ne_zero (hA i) g3 h1
    · exact g2 h1
  · refine Filter.Eventually.of_forall fun y hy => hA ?_
    intro k
    by_cases hk : k = i
    · subst hk
      have : mix (I.erase k) v x k = x k := by simp [mix]
      rw [this]; exact hx k
    · have := hy.1 k
      rwa [Function.update_of_ne hk] at this

theorem alive_sw {i j : Fin N} {x : Fin N → Fin d → ℝ} : Alive G (sw i j x) ↔ Alive G x := by
  constructor
  · intro h k
    have := h (Equiv.swap i j k)
    simpa [sw] using this
  · intro h k; exact h _

/-- Going back over an exchange step. -/
theorem thick_exch (hG : MeasTarget G) {i j : Fin N} {f : (Fin N → Fin d → ℝ) → ℝ≥0∞} (hf : Measurable f) {I : Finset (Fin N)}
    (h : Thick G I f) : Thick G (I.image (Equiv.swap i j)) (avg (rngLaw ν) (exchMap G T i j) f) := by
  intro x hx hcon
  refine h (sw i j x) (alive_sw.mpr hx) ?_
  have hm := good_measurable hG hf
  have hm' := (mix_measurable I (sw i j x)) hm
  rw [← (sw_preserving i j).map_eq]
  refine (ae_map_iff (sw_preserving i j).measurable.aemeasurable hm').mpr ?_
  refine hcon.mono fun v hv hgood => hv ?_
  replace hgood : Alive G (mix I (sw i j v) (sw i j x)) ∧ f (mix I (sw i j v) (sw i j x)) ≠ 0 := hgood
  rw [← sw_mix] at hgood
  have hA := alive_sw.mp hgood.1
  refine ⟨hA, ?_⟩
  rw [exch_avg hG T i j hf]
  intro h0
  rw [add_eq_zero, mul_eq_zero] at h0
  rcases h0.1 with h1 | h1
  · exact swAcc_ne_zero (hA i) (hA j) h1
  · exact hgood.2 h1

/-! ### leaving null sets -/

/-- `f` is at most the weights of the coordinates that have not been drawn afresh; `Q` are the values these may have. -/
def Small (Q : Set (Fin d → ℝ)) (f : (Fin N → Fin d → ℝ) → ℝ≥0∞) (w : Fin N → ℝ≥0∞) : Prop :=
  ∀ (O : Finset (Fin N)) (x : Fin N → Fin d → ℝ), (∀ j ∈ O, x j ∈ Q) → ∀ᵐ v, f (mix Oᶜ v x) ≤ ∑ j ∈ O, w j

theorem Small.mono {Q : Set (Fin d → ℝ)} {f : (Fin N → Fin d → ℝ) → ℝ≥0∞} {w w' : Fin N → ℝ≥0∞} (h : Small Q f w) (hw : ∀ j, w j ≤ w' j) :
    Small Q f w' := fun O x hx => (h O x hx).mono fun _ hv => hv.trans (Finset.sum_le_sum fun j _ => hw j)

/-- Probability of staying, for a RAM step from `q`. -/
noncomputable def stay (ν : Measure ℝ) [IsProbabilityMeasure ν] (G : LogTarget d) (T : ℝ) (L : Matrix (Fin d) (Fin d) ℝ) (q : Fin d → ℝ) : ℝ≥0∞ :=
  ∫⁻ y, (1 - acc G T q y) ∂(jump ν L q)

theorem stay_lt_one (hG : MeasTarget G) (hvol : volume {y | (G y).isSome = true} ≠ 0) {L : Matrix (Fin d) (Fin d) ℝ} (hL : L.det ≠ 0)
    (hν : volume ≪ ν) (T : ℝ) {q : Fin d → ℝ} (hq : (G q).isSome = true) : stay ν G T L q < 1 := by
  have ha := acc_measurable hG T q
  have h1 : ∫⁻ y, acc G T q y ∂(jump ν L q) ≤ 1 := by
    refine (lintegral_mono fun y => acc_le_one G T q y).trans ?_
    simp
  have h2 : ∫⁻ y, acc G T q y ∂(jump ν L q) ≠ 0 := by
    intro h0
    rw [lintegral_eq_zero_iff ha] at h0
    have h3 : ∀ᵐ y, acc G T q y = 0 := (volume_ac_jump hL hν q).ae_le h0
    refine hvol (measure_mono_null (fun y hy => ?_) h3)
    exact acc_ne_zero hq hy
  unfold stay
  rw [lintegral_sub ha (ne_top_of_le_ne_top one_ne_top h1) (Filter.Eventually.of_forall fun y => acc_le_one G T q y)]
  simp only [lintegral_one, measure_univ]
  exact ENNReal.sub_lt_self one_ne_top one_ne_zero h2

/-- Going back over a RAM step. -/
theorem small_ram (hG : MeasTarget G) {i : Fin N} {L : Matrix (Fin d) (Fin d) ℝ} (hL : L.det ≠ 0) (hν : ν ≪ volume) {Q : Set (Fin d → ℝ)}
    {c : ℝ≥0∞} (hc : ∀ q ∈ Q, stay ν G (T i) L q ≤ c) {f : (Fin N → Fin d → ℝ) → ℝ≥0∞} (hf : Measurable f) {w : Fin N → ℝ≥0∞}
    (h : Small Q f w) : Small Q (avg (rngLaw ν) (ramMap G T i L) f) (Function.update w i (c * w i)) := by
  intro O x hx
  have hO : (O.erase i)ᶜ = insert i Oᶜ := by
    ext k
    by_cases hk : k = i <;> simp [hk]
  have h1 := h O x hx
  have h2 := h (O.erase i) x fun j hj => hx j (Finset.mem_of_mem_erase hj)
  rw [hO] at h2
  have hm : MeasurableSet {v | f (mix (insert i Oᶜ) v x) ≤ ∑ j ∈ O.erase i, w j} :=
    (hf.comp (mix_measurable (insert i Oᶜ) x)) measurableSet_Iic
  rw [ae_update_iff i hm] at h2
  simp only [mix_update] at h2
  filter_upwards [h1, h2] with v hv1 hv2
  rw [ram_avg hG T i L hf]
  have hz : i ∈ O → mix Oᶜ v x i ∈ Q := by
    intro hi
    have : mix Oᶜ v x i = x i := by simp [mix, hi]
    rw [this]; exact hx i hi
  generalize mix Oᶜ v x = z at hv1 hv2 hz
  have ha := acc_measurable hG (T i) (z i)
  have h3 : ∀ᵐ y ∂(jump ν L (z i)), f (Function.update z i y) ≤ ∑ j ∈ O.erase i, w j := (jump_ac hL hν (z i)).ae_le hv2
  have h4 : ∫⁻ y, (acc G (T i) (z i) y * f (Function.update z i y) + (1 - acc G (T i) (z i) y) * f z) ∂(jump ν L (z i)) ≤
      ∫⁻ y, (acc G (T i) (z i) y * (∑ j ∈ O.erase i, w j) + (1 - acc G (T i) (z i) y) * ∑ j ∈ O, w j) ∂(jump ν L (z i)) :=
    lintegral_mono_ae (h3.mono fun y hy => add_le_add (mul_le_mul_right hy _) (mul_le_mul_right hv1 _))
  refine h4.trans ?_
  by_cases hi : i ∈ O
  · have e1 : ∑ j ∈ O, w j = (∑ j ∈ O.erase i, w j) + w i := (Finset.sum_erase_add O w hi).symm
    have e2 : ∑ j ∈ O, Function.update w i (c * w i) j = (∑ j ∈ O.erase i, w j) + c * w i := by
      rw [← Finset.sum_erase_add O _ hi, Function.update_self]
      congr 1
      refine Finset.sum_congr rfl fun j hj => ?_
      rw [Function.update_of_ne (Finset.ne_of_mem_erase hj)]
    rw [e2, e1]
    generalize ∑ j ∈ O.erase i, w j = B
    have e3 : ∀ y, acc G (T i) (z i) y * B + (1 - acc G (T i) (z i) y) * (B + w i) = B + (1 - acc G (T i) (z i) y) * w i := by
      intro y
      rw [mul_add, ← add_assoc, ← add_mul, add_tsub_cancel_of_le (acc_le_one G (T i) (z i) y), one_mul]
    simp only [e3]
    have ha' : Measurable fun y => 1 - acc G (T i) (z i) y := measurable_const.sub ha
    rw [lintegral_add_left measurable_const, lintegral_const, measure_univ, mul_one, lintegral_mul_const _ ha']
    exact add_le_add le_rfl (mul_le_mul_left (hc _ (hz hi)) _)
  · have e1 : O.erase i = O := Finset.erase_eq_of_notMem hi
    have e2 : ∑ j ∈ O, Function.update w i (c * w i) j = ∑ j ∈ O, w j := by
      refine Finset.sum_congr rfl fun j hj => ?_
      rw [Function.update_of_ne]
      rintro rfl
      exact hi hj
    rw [e2, e1]
    have e3 : ∀ y, acc G (T i) (z i) y * (∑ j ∈ O, w j) + (1 - acc G (T i) (z i) y) * (∑ j ∈ O, w j) = ∑ j ∈ O, w j := by
      intro y
      rw [← add_mul, add_tsub_cancel_of_le (acc_le_one G (T i) (z i) y), one_mul]
    simp only [e3]
    rw [lintegral_const, measure_univ, mul_one]

/-- Going back over an exchange step, for equal weights. -/
theorem small_exch (hG : MeasTarget G) {i j : Fin N} {Q : Set (Fin d → ℝ)} {f : (Fin N → Fin d → ℝ) → ℝ≥0∞} (hf : Measurable f)
    {w : Fin N → ℝ≥0∞} (hw : w i = w j) (h : Small Q f w) : Small Q (avg (rngLaw ν) (exchMap G T i j) f) w := by
  intro O x hx
  have hsw : ∀ k, w (Equiv.swap i j k) = w k := by
    intro k
    by_cases h1 : k = i
    · subst h1; rw [Equiv.swap_apply_left, hw]
    · by_cases h2 : k = j
      · subst h2; rw [Equiv.swap_apply_right, hw]
      · rw [Equiv.swap_apply_of_ne_of_ne h1 h2]
  have h1 := h O x hx
  have h2 := h (O.image (Equiv.swap i j)) (sw i j x) fun k hk => by
    obtain ⟨m, hm, rfl⟩ := Finset.mem_image.mp hk
    simpa [sw] using hx m hm
  have eO : (O.image (Equiv.swap i j)).sum w = ∑ k ∈ O, w k := by
    rw [Finset.sum_image fun a _ b _ hab => (Equiv.swap i j).injective hab]
    exact Finset.sum_congr rfl fun k _ => hsw k
  have eC : Oᶜ = ((O.image (Equiv.swap i j))ᶜ).image (Equiv.swap i j) := by
    ext k
    simp only [Finset.mem_compl, Finset.mem_image]
    constructor
    · intro hk
      refine ⟨Equiv.swap i j k, ?_, by simp⟩
      rintro ⟨m, hm, hmk⟩
      rw [(Equiv.swap i j).injective hmk] at hm
      exact hk hm
    · rintro ⟨m, hm, rfl⟩ hk
      exact hm ⟨_, hk, by simp⟩
  have hm : MeasurableSet {v | f (mix (O.image (Equiv.swap i j))ᶜ v (sw i j x)) ≤ ∑ k ∈ O.image (Equiv.swap i j), w k} :=
    (hf.comp (mix_measurable (O.image (Equiv.swap i j))ᶜ (sw i j x))) measurableSet_Iic
  rw [← (sw_preserving (d := d) i j).map_eq] at h2
  replace h2 := (ae_map_iff (sw_preserving i j).measurable.aemeasurable hm).mp h2
  filter_upwards [h1, h2] with v hv1 hv2
  rw [eO, ← sw_mix, ← eC] at hv2
  rw [exch_avg hG T i j hf]
  refine (add_le_add (mul_le_mul_right hv2 _) (mul_le_mul_right hv1 _)).trans ?_
  rw [← add_mul, add_tsub_cancel_of_le (swAcc_le_one i j _), one_mul]

end Verif.Theory
