import Mathlib.Data.List.GetD
import Mathlib.Probability.Independence.InfinitePi
import Verif.Theory.StartRef
import Verif.Theory.Draws

/-!
The starting values are measurable functions of draws that the sweeps do not use.
-/

namespace Verif.Theory

open MeasureTheory ProbabilityTheory Verif.Model Verif.Spec

/-! ### lists of measurable numbers -/

/-- Lists of constant length with measurable elements. -/
def ListMeas {α : Type*} [MeasurableSpace α] (L : α → List ℝ) : Prop :=
  ∃ m, (∀ a, (L a).length = m) ∧ ∀ k, Measurable fun a => (L a).getD k 0

section
variable {α : Type*} [MeasurableSpace α]

theorem ListMeas.nil : ListMeas fun _ : α => ([] : List ℝ) := ⟨0, fun _ => rfl, fun k => by simp⟩

theorem ListMeas.cons {x : α → ℝ} (hx : Measurable x) {L : α → List ℝ} (h : ListMeas L) : ListMeas fun a => x a :: L a := by
  obtain ⟨m, h1, h2⟩ := h
  refine ⟨m + 1, fun a => by simp [h1 a], fun k => ?_⟩
  cases k with
  | zero => simpa using hx
  | succ k => simpa using h2 k

theorem ListMeas.append {L L' : α → List ℝ} (h : ListMeas L) (h' : ListMeas L') : ListMeas fun a => L a ++ L' a := by
  obtain ⟨m, h1, h2⟩ := h
  obtain ⟨m', h1', h2'⟩ := h'
  refine ⟨m + m', fun a => by simp [h1 a, h1' a], fun k => ?_⟩
  by_cases hk : k < m
  · have : (fun a => (L a ++ L' a).getD k 0) = fun a => (L a).getD k 0 := by
      funext a
      exact List.getD_append _ _ _ _ (by rw [h1 a]; exact hk)
    rw [this]; exact h2 k
  · have : (fun a => (L a ++ L' a).getD k 0) = fun a => (L' a).getD (k - m) 0 := by
      funext a
      rw [List.getD_append_right _ _ _ _ (by rw [h1 a]; omega), h1 a]
    rw [this]; exact h2' _

theorem ListMeas.logaT {c w : α → ℕ → ℝ} (hc : ∀ k, Measurable fun a => c a k) (hw : ∀ k, Measurable fun a => w a k) (k : ℕ) :
    ListMeas fun a => logaT (c a) (w a) k := by
  induction k with
  | zero => exact ListMeas.nil
  | succ k ih =>
      refine ih.append (ListMeas.cons ?_ (ListMeas.cons ?_ ListMeas.nil))
      · have h1 : Measurable fun a => -2 * Real.pi * w a k := (hw k).const_mul _
        have h2 : Measurable fun a => 2 * Real.pi * c a k := (hc k).const_mul _
        exact ((h1.mul h1).add (h2.mul h2)).log
      · exact (((hw k).const_mul (-2 * Real.pi)).const_mul (-2)).log

end

/-! ### the family of possible starting values -/

/-- The random streams read off a family of numbers. -/
def rngD (D : Stream × ℕ → ℝ) : Rng where
  unif k := D (.unif, k)
  norm k := D (.norm, k)
  stud k := D (.stud, k)
  chi2 k := D (.chi2, k)
  int _ := 0
  randu k := D (.randu, k)
  randn k := D (.randn, k)

/-- Centroids picked by the list of indices `l`. -/
noncomputable def centF (C : StartC) (l : List ℕ) (r : Rng) (k : ℕ) : ℝ := (l.map fun i => Real.exp (C.lr * r.randu i + C.lm)).getD k 0

variable {d : ℕ}

/-- The possible starting values: 0, the initial vector, and those of the passes, for every order of the centroids. -/
noncomputable def famX (C : StartC) (p : ℕ) (v0 : Fin d → ℝ) (r : Rng) : Bool ⊕ (ℕ × List ℕ) → Fin d → ℝ
  | .inl b => if b then v0 else 0
  | .inr v => vec d (thetaT C p (centF C v.2 (passR p r v.1)) (passR p r v.1))

theorem thetaR_fam (C : StartC) (p : ℕ) (r : Rng) : ∃ l, thetaR C p r = thetaT C p (centF C l r) r := by
  have h : centL C p r ∈ Set.range (List.map fun i => Real.exp (C.lr * r.randu i + C.lm)) := by
    rw [Set.range_list_map]
    intro x hx
    unfold centL at hx
    rw [List.mem_mergeSort] at hx
    obtain ⟨i, -, hi⟩ := List.mem_map.mp hx
    exact ⟨i, hi⟩
  obtain ⟨l, hl⟩ := h
  refine ⟨l, ?_⟩
  unfold thetaR centF
  rw [hl]

theorem centF_measurable {α : Type*} [MeasurableSpace α] (C : StartC) (l : List ℕ) {r : α → Rng} (h : ∀ i, Measurable fun a => (r a).randu i) (k : ℕ) :
    Measurable fun a => centF C l (r a) k := by
  unfold centF
  induction l generalizing k with
  | nil => simp
  | cons i l ih =>
      cases k with
      | zero => simpa using (((h i).const_mul C.lr).add_const C.lm).exp
      | succ k => simpa using ih k

theorem thetaT_meas {α : Type*} [MeasurableSpace α] (C : StartC) (p : ℕ) {c : α → ℕ → ℝ} {r : α → Rng} (hc : ∀ k, Measurable fun a => c a k)
    (h1 : ∀ i, Measurable fun a => (r a).randu i) (h2 : ∀ i, Measurable fun a => (r a).chi2 i) (h3 : ∀ i, Measurable fun a => (r a).norm i)
    (h4 : ∀ i, Measurable fun a => (r a).unif i) : ListMeas fun a => thetaT C p (c a) (r a) := by
  have hw : ∀ k, Measurable fun a => widT C p (c a) (r a) k := by
    intro k
    unfold widT
    by_cases hk : p % 2 = 1 ∧ k = p / 2
    · simp only [hk, and_self, if_true]
      exact (((((hc _).log).sub_const C.lm).mul (h4 0)).const_add C.lm).exp
    · simp only [hk, if_false]
      exact (((h1 _).const_mul C.lr).add_const C.lm).exp
  have hsd : Measurable fun a => √(C.var / (r a).chi2 0 * ((C.n - 1 : ℕ) : ℝ)) := (((h2 0).const_div C.var).mul_const _).sqrt
  unfold thetaT
  refine ListMeas.cons hsd (ListMeas.cons ?_ (ListMeas.cons ?_ (ListMeas.append (ListMeas.logaT hc hw _) ?_)))
  · exact ((((h2 1).const_div 1).mul_const _).min measurable_const).max measurable_const
  · exact ((hsd.div_const _).mul (h3 0)).const_add _
  · by_cases hp : p % 2 = 1
    · simp only [hp, if_true]
      exact ListMeas.cons (((hw _).const_mul _).neg).log ListMeas.nil
    · simp only [hp, if_false]
      exact ListMeas.nil

theorem famX_measurable (C : StartC) (p : ℕ) (v0 : Fin d → ℝ) (v : Bool ⊕ (ℕ × List ℕ)) : Measurable fun D : Stream × ℕ → ℝ => famX C p v0 (rngD D) v := by
  cases v with
  | inl b => exact measurable_const
  | inr v =>
      obtain ⟨J, l⟩ := v
      have h1 : ∀ i, Measurable fun D : Stream × ℕ → ℝ => (passR p (rngD D) J).randu i := fun i => measurable_pi_apply _
      have h2 : ∀ i, Measurable fun D : Stream × ℕ → ℝ => (passR p (rngD D) J).chi2 i := fun i => measurable_pi_apply _
      have h3 : ∀ i, Measurable fun D : Stream × ℕ → ℝ => (passR p (rngD D) J).norm i := fun i => measurable_pi_apply _
      have h4 : ∀ i, Measurable fun D : Stream × ℕ → ℝ => (passR p (rngD D) J).unif i := fun i => measurable_pi_apply _
      obtain ⟨m, -, h⟩ := thetaT_meas C p (centF_measurable C l h1) h1 h2 h3 h4
      exact measurable_pi_lambda _ fun i => h i

/-- The draws used up by `j` passes. -/
def usedBy (p j : ℕ) : Set (Stream × ℕ) := {i | i.1 ≠ .stud ∧ (i.1 = .unif → i.2 < j * (p % 2))}

theorem thetaT_congr (C : StartC) (p : ℕ) (c : ℕ → ℝ) {r r' : Rng} (h1 : r.randu = r'.randu) (h2 : r.chi2 = r'.chi2) (h3 : r.norm = r'.norm)
    (h4 : p % 2 = 1 → r.unif 0 = r'.unif 0) : thetaT C p c r = thetaT C p c r' := by
  have hw : widT C p c r = widT C p c r' := by
    funext k
    unfold widT
    by_cases hk : p % 2 = 1 ∧ k = p / 2
    · simp only [hk, and_self, if_true, h4 hk.1]
    · simp only [hk, if_false, h1]
  unfold thetaT
  rw [hw, h2, h3]

theorem famX_used (C : StartC) (p : ℕ) (v0 : Fin d → ℝ) {j : ℕ} {v : Bool ⊕ (ℕ × List ℕ)} (hv : ∀ J l, v = .inr (J, l) → J < j) {r : Rng} {D : Stream × ℕ → ℝ}
    (hD : ∀ i ∈ usedBy p j, D i = drawOf r i) : famX C p v0 r v = famX C p v0 (rngD D) v := by
  cases v with
  | inl b => rfl
  | inr v =>
      obtain ⟨J, l⟩ := v
      have hJ := hv J l rfl
      have h1 : r.randu = (rngD D).randu := by funext i; exact (hD (.randu, i) ⟨by simp, by simp⟩).symm
      have h2 : r.chi2 = (rngD D).chi2 := by funext i; exact (hD (.chi2, i) ⟨by simp, by simp⟩).symm
      have h3 : r.norm = (rngD D).norm := by funext i; exact (hD (.norm, i) ⟨by simp, by simp⟩).symm
      have h4 : p % 2 = 1 → (passR p r J).unif 0 = (passR p (rngD D) J).unif 0 := by
        intro hp
        refine (hD (.unif, 0 + J * (p % 2)) ⟨by simp, fun _ => ?_⟩).symm
        simp only [hp]
        omega
      have hr : (passR p r J).randu = (passR p (rngD D) J).randu := by simp only [passR, h1]
      show vec d (thetaT C p (centF C l (passR p r J)) (passR p r J)) = vec d (thetaT C p (centF C l (passR p (rngD D) J)) (passR p (rngD D) J))
      have hc : centF C l (passR p r J) = centF C l (passR p (rngD D) J) := by
        funext k
        unfold centF
        rw [hr]
      rw [hc, thetaT_congr C p _ hr (by simp only [passR, h2]) (by simp only [passR, h3]) h4]

/-! ### independence -/

variable {Ω : Type*} [MeasurableSpace Ω] {P : Measure Ω}

theorem comap_family {ι κ : Type*} (X : ι → Ω → ℝ) (g : κ → ι) :
    MeasurableSpace.comap (fun ω (k : κ) => X (g k) ω) MeasurableSpace.pi = ⨆ i ∈ Set.range g, MeasurableSpace.comap (X i) inferInstance := by
  unfold MeasurableSpace.pi
  rw [MeasurableSpace.comap_iSup, iSup_range]
  refine iSup_congr fun k => ?_
  rw [MeasurableSpace.comap_comp]
  rfl

/-- Two disjoint groups of independent draws are independent. -/
theorem indep_groups {ι κ κ' : Type*} {X : ι → Ω → ℝ} (hm : ∀ i, Measurable (X i)) (hi : iIndepFun X P) (g : κ → ι) (g' : κ' → ι)
    (hd : Disjoint (Set.range g) (Set.range g')) : IndepFun (fun ω (k : κ) => X (g k) ω) (fun ω (k : κ') => X (g' k) ω) P := by
  rw [IndepFun_iff_Indep, comap_family X g, comap_family X g']
  exact indep_iSup_of_disjoint (fun i => (hm i).comap_le) hi.iIndep hd

/-- If every section of `B` is null for the law of the second group of draws, `B` is null. -/
theorem groups_null {ι κ κ' α β : Type*} [MeasurableSpace α] [MeasurableSpace β] {X : ι → Ω → ℝ} (hm : ∀ i, Measurable (X i)) (hi : iIndepFun X P) (g : κ → ι)
    (g' : κ' → ι) (hd : Disjoint (Set.range g) (Set.range g')) {F : (κ → ℝ) → α} (hF : Measurable F) {H : (κ' → ℝ) → β} (hH : Measurable H) {Q : Measure β} [SFinite Q]
    (hQ : P.map (fun ω => H fun k => X (g' k) ω) = Q) {B : Set (α × β)} (hB : MeasurableSet B) (h0 : ∀ a, Q {b | (a, b) ∈ B} = 0) :
    P {ω | (F fun k => X (g k) ω, H fun k => X (g' k) ω) ∈ B} = 0 := by
  have := hi.isProbabilityMeasure
  have h1 : Measurable fun ω => F fun k => X (g k) ω := hF.comp (measurable_pi_lambda _ fun k => hm _)
  have h2 : Measurable fun ω => H fun k => X (g' k) ω := hH.comp (measurable_pi_lambda _ fun k => hm _)
  have hI : IndepFun (fun ω => F fun k => X (g k) ω) (fun ω => H fun k => X (g' k) ω) P := (indep_groups hm hi g g' hd).comp hF hH
  have hp := (indepFun_iff_map_prod_eq_prod_map_map h1.aemeasurable h2.aemeasurable).mp hI
  rw [hQ] at hp
  have e : P {ω | (F fun k => X (g k) ω, H fun k => X (g' k) ω) ∈ B} = P.map (fun ω => (F fun k => X (g k) ω, H fun k => X (g' k) ω)) B := by
    rw [Measure.map_apply (h1.prodMk h2) hB]
    rfl
  rw [e, hp, Measure.measure_prod_null hB]
  exact Filter.Eventually.of_forall h0

/-! ### Student's law -/

theorem studentShape_pos {n : ℝ} (hn : 0 < n) (x : ℝ) : 0 < studentShape n x := Real.rpow_pos_of_pos (by positivity) _

theorem student_facts {n : ℝ} (hn : 0 < n) : (libLaw (.studentT n)).map (fun x => -x) = libLaw (.studentT n) ∧
    volume ≪ libLaw (.studentT n) ∧ libLaw (.studentT n) ≪ volume := by
  have hP := student_prob hn
  have hm : Measurable fun x => (∫⁻ t, ENNReal.ofReal (studentShape n t))⁻¹ * ENNReal.ofReal (studentShape n x) :=
    (measurable_studentShape n).ennreal_ofReal.const_mul _
  have hc : (∫⁻ t, ENNReal.ofReal (studentShape n t))⁻¹ ≠ 0 := by
    intro h0
    have h1 := hP.measure_univ
    rw [libLaw, h0] at h1
    simp at h1
  refine ⟨?_, ?_, withDensity_absolutelyContinuous _ _⟩
  · ext A hA
    rw [Measure.map_apply measurable_neg hA]
    show (volume.withDensity _) _ = (volume.withDensity _) _
    rw [withDensity_apply _ (measurable_neg hA), withDensity_apply _ hA, ← lintegral_indicator (measurable_neg hA), ← lintegral_indicator hA]
    rw [← (Measure.measurePreserving_neg (volume : Measure ℝ)).lintegral_comp (hm.indicator hA)]
    refine lintegral_congr fun x => ?_
    have e : studentShape n (-x) = studentShape n x := by unfold studentShape; rw [neg_sq]
    by_cases hx : -x ∈ A
    · rw [Set.indicator_of_mem (show x ∈ (fun x => -x) ⁻¹' A from hx), Set.indicator_of_mem hx, e]
    · rw [Set.indicator_of_notMem (show x ∉ (fun x => -x) ⁻¹' A from hx), Set.indicator_of_notMem hx]
  · refine withDensity_absolutelyContinuous' hm.aemeasurable (Filter.Eventually.of_forall fun x => ?_)
    exact mul_ne_zero hc (by simpa using studentShape_pos hn x)

/-! ### the draws used by the sweeps -/

theorem unif_eq : libLaw (.uniform 0 1) = unifLaw := by
  show (ENNReal.ofReal (1 - 0))⁻¹ • volume.restrict (Set.Ico 0 1) = volume.restrict (Set.Ico 0 1)
  simp

variable {R : Ω → Rng} {dof : ℕ → ℕ}

/-- The Student draws and the uniform draws from number `c` on. -/
def sweepIdx (c : ℕ) : ℕ ⊕ ℕ → Stream × ℕ
  | .inl k => (.stud, k)
  | .inr k => (.unif, k + c)

theorem stream_law (h : IsDraws P R dof) {g : ℕ → Stream × ℕ} (hg : Function.Injective g) {ν : Measure ℝ} [IsProbabilityMeasure ν] (hν : ∀ k, drawLaw dof (g k) = ν) :
    P.map (fun ω k => drawOf (R ω) (g k)) = drawsOf ν := by
  have := h.indep.isProbabilityMeasure
  have hi : iIndepFun (fun (k : ℕ) ω => drawOf (R ω) (g k)) P := h.indep.precomp hg
  rw [hi.map_fun_eq_infinitePi_map fun k => h.meas _]
  unfold drawsOf
  have e : (fun k => P.map fun ω => drawOf (R ω) (g k)) = fun _ => ν := by
    funext k
    rw [h.law, hν]
  simp only [e]

theorem sweep_law (h : IsDraws P R dof) (c : ℕ) [IsProbabilityMeasure (libLaw (.studentT 8))] :
    P.map (fun ω => ((fun k => drawOf (R ω) (sweepIdx c (.inl k))), fun k => drawOf (R ω) (sweepIdx c (.inr k)))) = rngLaw (libLaw (.studentT 8)) := by
  have := h.indep.isProbabilityMeasure
  have m1 : Measurable fun ω => fun k : ℕ => drawOf (R ω) (sweepIdx c (.inl k)) := measurable_pi_lambda _ fun k => h.meas _
  have m2 : Measurable fun ω => fun k : ℕ => drawOf (R ω) (sweepIdx c (.inr k)) := measurable_pi_lambda _ fun k => h.meas _
  have hI := indep_groups h.meas h.indep (fun k : ℕ => sweepIdx c (.inl k)) (fun k : ℕ => sweepIdx c (.inr k)) (by
    rw [Set.disjoint_left]
    rintro _ ⟨a, rfl⟩ ⟨b, hb⟩
    simp [sweepIdx] at hb)
  rw [(indepFun_iff_map_prod_eq_prod_map_map m1.aemeasurable m2.aemeasurable).mp hI]
  rw [stream_law h (g := fun k : ℕ => sweepIdx c (.inl k)) (fun a b hab => by simpa [sweepIdx] using hab) (ν := libLaw (.studentT 8)) fun k => rfl,
    stream_law h (g := fun k : ℕ => sweepIdx c (.inr k)) (fun a b hab => by simpa [sweepIdx] using hab) (ν := unifLaw) fun k => unif_eq]

/-- Starting values computed from draws used up before, and draws to come: a set all of whose sections are null is avoided. -/
theorem start_avoids (h : IsDraws P R dof) [IsProbabilityMeasure (libLaw (.studentT 8))] {N p : ℕ} (C : StartC) (v0 : Fin d → ℝ)
    {B : Set ((Fin N → Fin d → ℝ) × (ℕ → ℝ) × (ℕ → ℝ))} (hB : MeasurableSet B) (h0 : ∀ x, rngLaw (libLaw (.studentT 8)) {w | (x, w) ∈ B} = 0) :
    ∀ᵐ ω ∂P, ∀ (j : ℕ) (v : Fin N → Bool ⊕ (ℕ × List ℕ)), (∀ i J l, v i = .inr (J, l) → J < j) →
      ((fun i => famX C p v0 (R ω) (v i)), (R ω).stud, Rng.skip (j * (p % 2)) (R ω).unif) ∉ B := by
  refine ae_all_iff.mpr fun j => ae_all_iff.mpr fun v => ?_
  by_cases hv : ∀ i J l, v i = .inr (J, l) → J < j
  swap
  · exact Filter.Eventually.of_forall fun ω hh => absurd hh hv
  classical
  let F : (usedBy p j → ℝ) → Fin N → Fin d → ℝ := fun D i => famX C p v0 (rngD fun i => if hi : i ∈ usedBy p j then D ⟨i, hi⟩ else 0) (v i)
  have hF : Measurable F := by
    refine measurable_pi_lambda _ fun i => (famX_measurable C p v0 (v i)).comp (measurable_pi_lambda _ fun k => ?_)
    by_cases hk : k ∈ usedBy p j
    · simp only [hk, dif_pos]; exact measurable_pi_apply _
    · simp only [hk, dif_neg, not_false_eq_true]; exact measurable_const
  have hn := groups_null h.meas h.indep (fun i : usedBy p j => (i : Stream × ℕ)) (sweepIdx (j * (p % 2))) (by
      rw [Set.disjoint_left]
      rintro _ ⟨⟨i, hi⟩, rfl⟩ ⟨b, hb⟩
      dsimp only at hb
      rw [← hb] at hi
      cases b with
      | inl k => exact hi.1 rfl
      | inr k =>
          have := hi.2 rfl
          simp only [sweepIdx] at this
          omega) hF
    (H := fun D : ℕ ⊕ ℕ → ℝ => ((fun k => D (.inl k)), fun k => D (.inr k)))
    ((measurable_pi_lambda _ fun k => measurable_pi_apply _).prodMk (measurable_pi_lambda _ fun k => measurable_pi_apply _)) (sweep_law h _) hB h0
  rw [ae_iff]
  refine measure_mono_null (fun ω hω => ?_) hn
  have hω' : ((fun i => famX C p v0 (R ω) (v i)), (R ω).stud, Rng.skip (j * (p % 2)) (R ω).unif) ∈ B := by
    by_contra hc
    exact hω fun _ => hc
  have e : (fun i => famX C p v0 (R ω) (v i)) = F fun k => drawOf (R ω) (k : Stream × ℕ) := by
    funext i
    refine famX_used C p v0 (hv i) fun k hk => ?_
    simp only [hk, dif_pos]
  rw [e] at hω'
  exact hω'

end Verif.Theory
