import Mathlib.Data.List.Sort
import Verif.Theory.StartLaw
import Verif.Theory.RunLimit

/-!
The starting values and the draws that the sweeps use: the starting values are random variables, and the draws left are independent of them.
-/

namespace Verif.Theory

open MeasureTheory ProbabilityTheory Verif.Model Verif.Spec ENNReal Filter Topology

/-! ### the parameter vector of a pass -/

section
variable {α : Type*} [MeasurableSpace α]

theorem pairwise_measurable {f : α → ℕ → ℝ} (hf : ∀ i, Measurable fun a => f a i) (l : List ℕ) :
    MeasurableSet {a | l.Pairwise fun i j => f a j ≤ f a i} := by
  induction l with
  | nil => simp
  | cons i l ih =>
      simp only [List.pairwise_cons]
      refine MeasurableSet.inter ?_ ih
      have : {a | ∀ j ∈ l, f a j ≤ f a i} = ⋂ j ∈ {j | j ∈ l}, {a | f a j ≤ f a i} := by
        ext a; simp
      show MeasurableSet {a | ∀ j ∈ l, f a j ≤ f a i}
      rw [this]
      exact MeasurableSet.biInter (Set.to_countable _) fun j _ => measurableSet_le (hf j) (hf i)

theorem centL_eq (C : StartC) (p : ℕ) (r : Rng) {l : List ℕ} (h1 : l.Perm (List.range ((p + 1) / 2)))
    (h2 : l.Pairwise fun i j => Real.exp (C.lr * r.randu j + C.lm) ≤ Real.exp (C.lr * r.randu i + C.lm)) :
    centL C p r = l.map fun i => Real.exp (C.lr * r.randu i + C.lm) := by
  unfold centL
  have hs := List.pairwise_mergeSort (le := fun a b : ℝ => decide (b ≤ a)) (fun a b c => by simpa using fun h1 h2 => le_trans h2 h1)
    (fun a b => by simpa using le_total b a) ((List.range ((p + 1) / 2)).map fun i => Real.exp (C.lr * r.randu i + C.lm))
  have hs' : (l.map fun i => Real.exp (C.lr * r.randu i + C.lm)).Pairwise fun a b => b ≤ a := List.pairwise_map.mpr h2
  have hp : (((List.range ((p + 1) / 2)).map fun i => Real.exp (C.lr * r.randu i + C.lm)).mergeSort fun a b => decide (b ≤ a)).Perm
      (l.map fun i => Real.exp (C.lr * r.randu i + C.lm)) := (List.mergeSort_perm _ _).trans (h1.map _).symm
  refine hp.eq_of_pairwise (le := fun a b => b ≤ a) (fun a b _ _ h1 h2 => le_antisymm h2 h1) (hs.imp fun h => by simpa using h) hs'

theorem centL_sorted (C : StartC) (p : ℕ) (r : Rng) : ∃ l : List ℕ, l.Perm (List.range ((p + 1) / 2)) ∧
    l.Pairwise fun i j => Real.exp (C.lr * r.randu j + C.lm) ≤ Real.exp (C.lr * r.randu i + C.lm) := by
  refine ⟨(List.range ((p + 1) / 2)).mergeSort fun i j => decide (Real.exp (C.lr * r.randu j + C.lm) ≤ Real.exp (C.lr * r.randu i + C.lm)), List.mergeSort_perm _ _, ?_⟩
  have hs := List.pairwise_mergeSort (le := fun i j : ℕ => decide (Real.exp (C.lr * r.randu j + C.lm) ≤ Real.exp (C.lr * r.randu i + C.lm)))
    (fun a b c => by simpa using fun h1 h2 => le_trans h2 h1) (fun a b => by simpa using le_total _ _) (List.range ((p + 1) / 2))
  exact hs.imp fun h => by simpa using h

theorem thetaR_measurable {d : ℕ} (C : StartC) (p : ℕ) {r : α → Rng}
    (h1 : ∀ i, Measurable fun a => (r a).randu i) (h2 : ∀ i, Measurable fun a => (r a).chi2 i) (h3 : ∀ i, Measurable fun a => (r a).norm i)
    (h4 : ∀ i, Measurable fun a => (r a).unif i) : Measurable fun a => vec d (thetaR C p (r a)) := by
  intro B hB
  have hf : ∀ i, Measurable fun a => Real.exp (C.lr * (r a).randu i + C.lm) := fun i => (((h1 i).const_mul C.lr).add_const C.lm).exp
  have e : (fun a => vec d (thetaR C p (r a))) ⁻¹' B = ⋃ l : List ℕ, ⋃ _ : l.Perm (List.range ((p + 1) / 2)),
      {a | l.Pairwise fun i j => Real.exp (C.lr * (r a).randu j + C.lm) ≤ Real.exp (C.lr * (r a).randu i + C.lm)} ∩
        (fun a => vec d (thetaT C p (centF C l (r a)) (r a))) ⁻¹' B := by
    ext a
    simp only [Set.mem_preimage, Set.mem_iUnion, Set.mem_inter_iff, Set.mem_ofPred_eq, exists_prop]
    constructor
    · intro h
      obtain ⟨l, l1, l2⟩ := centL_sorted C p (r a)
      refine ⟨l, l1, l2, ?_⟩
      rw [thetaR, centL_eq C p (r a) l1 l2] at h
      exact h
    · rintro ⟨l, l1, l2, h⟩
      rw [thetaR, centL_eq C p (r a) l1 l2]
      exact h
  rw [e]
  refine MeasurableSet.iUnion fun l => MeasurableSet.iUnion fun _ => (pairwise_measurable hf l).inter ?_
  obtain ⟨m, -, h⟩ := thetaT_meas C p (centF_measurable C l h1) h1 h2 h3 h4
  exact (measurable_pi_lambda _ fun i => h i : Measurable fun a => vec d (thetaT C p (centF C l (r a)) (r a))) hB

theorem thetaR_used (C : StartC) (p : ℕ) {j J : ℕ} (hJ : J < j) {r : Rng} {D : Stream × ℕ → ℝ} (hD : ∀ i ∈ usedBy p j, D i = drawOf r i) :
    thetaR C p (passR p (rngD D) J) = thetaR C p (passR p r J) := by
  have h1 : r.randu = (rngD D).randu := by funext i; exact (hD (.randu, i) ⟨by simp, by simp⟩).symm
  have h2 : r.chi2 = (rngD D).chi2 := by funext i; exact (hD (.chi2, i) ⟨by simp, by simp⟩).symm
  have h3 : r.norm = (rngD D).norm := by funext i; exact (hD (.norm, i) ⟨by simp, by simp⟩).symm
  have h4 : p % 2 = 1 → (passR p r J).unif 0 = (passR p (rngD D) J).unif 0 := by
    intro hp
    refine (hD (.unif, 0 + J * (p % 2)) ⟨by simp, fun _ => ?_⟩).symm
    simp only [hp]
    omega
  have hr : (passR p r J).randu = (passR p (rngD D) J).randu := by simp only [passR, h1]
  have hc : centL C p (passR p (rngD D) J) = centL C p (passR p r J) := by
    unfold centL
    rw [hr]
  unfold thetaR
  rw [hc]
  exact (thetaT_congr C p _ hr (by simp only [passR, h2]) (by simp only [passR, h3]) h4).symm

end

/-! ### pieces -/

section
variable {Ω : Type*} [MeasurableSpace Ω] {P : Measure Ω} {R : Ω → Rng} {dof : ℕ → ℕ} {X : Type} [MeasurableSpace X]

/-- The draws used up by `j` passes. -/
def usedD (p j : ℕ) (r : Rng) : usedBy p j → ℝ := fun i => drawOf r i

/-- A state computed on countably many events, each from the draws used up by a number of passes that the event determines: the draws to come
are independent of it. -/
theorem renewed_pieces (h : IsDraws P R dof) [IsProbabilityMeasure (libLaw (.studentT 8))] {p : ℕ} {ι : Type*} [Countable ι] {j : ι → ℕ}
    {S : (i : ι) → Set (usedBy p (j i) → ℝ)} (hS : ∀ i, MeasurableSet (S i)) {F : (i : ι) → (usedBy p (j i) → ℝ) → X} (hF : ∀ i, Measurable (F i))
    (hd : ∀ ω, ∀ i i', usedD p (j i) (R ω) ∈ S i → usedD p (j i') (R ω) ∈ S i' → i = i') (hc : ∀ᵐ ω ∂P, ∃ i, usedD p (j i) (R ω) ∈ S i)
    {Z : Ω → X × (ℕ → ℝ) × (ℕ → ℝ)}
    (hZ : ∀ i ω, usedD p (j i) (R ω) ∈ S i → Z ω = (F i (usedD p (j i) (R ω)), (R ω).stud, Rng.skip (j i * (p % 2)) (R ω).unif)) :
    Renewed P (rngLaw (libLaw (.studentT 8))) Z := by
  have hu : ∀ j, Measurable fun ω => usedD p j (R ω) := fun j => measurable_pi_lambda _ fun k => h.meas _
  have hw : ∀ c, Measurable fun ω => ((R ω).stud, Rng.skip c (R ω).unif) := fun c =>
    (measurable_pi_lambda _ fun k => h.meas (.stud, k)).prodMk (measurable_pi_lambda _ fun k => h.meas (.unif, k + c))
  have hE : ∀ i, MeasurableSet {ω | usedD p (j i) (R ω) ∈ S i} := fun i => hu _ (hS i)
  have hcov : P.restrict (⋃ i, {ω | usedD p (j i) (R ω) ∈ S i}) = P :=
    Measure.restrict_eq_self_of_ae_mem (hc.mono fun ω ⟨i, hi⟩ => Set.mem_iUnion.mpr ⟨i, hi⟩)
  have hdis : Pairwise (Function.onFun Disjoint fun i => {ω | usedD p (j i) (R ω) ∈ S i}) := fun i i' hii =>
    Set.disjoint_left.mpr fun ω h1 h2 => hii (hd ω i i' h1 h2)
  have hI : ∀ i, IndepFun (fun ω => usedD p (j i) (R ω)) (fun ω => ((R ω).stud, Rng.skip (j i * (p % 2)) (R ω).unif)) P := by
    intro i
    have := indep_groups h.meas h.indep (fun k : usedBy p (j i) => (k : Stream × ℕ)) (sweepIdx (j i * (p % 2))) (by
      rw [Set.disjoint_left]
      rintro _ ⟨⟨k, hk⟩, rfl⟩ ⟨b, hb⟩
      dsimp only at hb
      rw [← hb] at hk
      cases b with
      | inl k => exact hk.1 rfl
      | inr k =>
          have := hk.2 rfl
          simp only [sweepIdx] at this
          omega)
    exact this.comp (φ := id) (ψ := fun D : ℕ ⊕ ℕ → ℝ => ((fun k => D (.inl k)), fun k => D (.inr k))) measurable_id
      ((measurable_pi_lambda _ fun k => measurable_pi_apply _).prodMk (measurable_pi_lambda _ fun k => measurable_pi_apply _))
  have hlaw : ∀ i, P.map (fun ω => (usedD p (j i) (R ω), (R ω).stud, Rng.skip (j i * (p % 2)) (R ω).unif)) =
      (P.map fun ω => usedD p (j i) (R ω)).prod (rngLaw (libLaw (.studentT 8))) := by
    intro i
    have := h.indep.isProbabilityMeasure
    rw [(indepFun_iff_map_prod_eq_prod_map_map (hu _).aemeasurable (hw _).aemeasurable).mp (hI i), ← sweep_law h (j i * (p % 2))]
    rfl
  refine ⟨?_, fun g hg => ?_⟩
  · rw [← hcov, aemeasurable_iUnion_iff]
    intro i
    have hm : Measurable fun ω => (F i (usedD p (j i) (R ω)), (R ω).stud, Rng.skip (j i * (p % 2)) (R ω).unif) := ((hF i).comp (hu _)).prodMk (hw _)
    exact hm.aemeasurable.congr ((ae_restrict_iff' (hE i)).mpr (Eventually.of_forall fun ω hω => (hZ i ω hω).symm))
  · conv_lhs => rw [← hcov]
    conv_rhs => rw [← hcov]
    rw [lintegral_iUnion hE hdis, lintegral_iUnion hE hdis]
    congr 1
    funext i
    have h1 : ∫⁻ ω in {ω | usedD p (j i) (R ω) ∈ S i}, g (Z ω) ∂P =
        ∫⁻ ω, (S i).indicator (fun u => g (F i u, (R ω).stud, Rng.skip (j i * (p % 2)) (R ω).unif)) (usedD p (j i) (R ω)) ∂P := by
      rw [← lintegral_indicator (hE i)]
      refine lintegral_congr fun ω => ?_
      by_cases hω : usedD p (j i) (R ω) ∈ S i
      · rw [Set.indicator_of_mem (show ω ∈ {ω | usedD p (j i) (R ω) ∈ S i} from hω), Set.indicator_of_mem hω, hZ i ω hω]
      · rw [Set.indicator_of_notMem (show ω ∉ {ω | usedD p (j i) (R ω) ∈ S i} from hω), Set.indicator_of_notMem hω]
    have h2 : ∫⁻ ω in {ω | usedD p (j i) (R ω) ∈ S i}, ∫⁻ w, g ((Z ω).1, w) ∂(rngLaw (libLaw (.studentT 8))) ∂P =
        ∫⁻ ω, (S i).indicator (fun u => ∫⁻ w, g (F i u, w) ∂(rngLaw (libLaw (.studentT 8)))) (usedD p (j i) (R ω)) ∂P := by
      rw [← lintegral_indicator (hE i)]
      refine lintegral_congr fun ω => ?_
      by_cases hω : usedD p (j i) (R ω) ∈ S i
      · rw [Set.indicator_of_mem (show ω ∈ {ω | usedD p (j i) (R ω) ∈ S i} from hω), Set.indicator_of_mem hω, hZ i ω hω]
      · rw [Set.indicator_of_notMem (show ω ∉ {ω | usedD p (j i) (R ω) ∈ S i} from hω), Set.indicator_of_notMem hω]
    rw [h1, h2]
    let φ : (usedBy p (j i) → ℝ) × (ℕ → ℝ) × (ℕ → ℝ) → ℝ≥0∞ := (Prod.fst ⁻¹' S i).indicator fun v => g (F i v.1, v.2)
    have hφ : Measurable φ := (hg.comp (((hF i).comp measurable_fst).prodMk measurable_snd)).indicator (measurable_fst (hS i))
    have e1 : ∀ ω, (S i).indicator (fun u => g (F i u, (R ω).stud, Rng.skip (j i * (p % 2)) (R ω).unif)) (usedD p (j i) (R ω)) =
        φ (usedD p (j i) (R ω), (R ω).stud, Rng.skip (j i * (p % 2)) (R ω).unif) := fun ω => rfl
    have e2 : ∀ u, (S i).indicator (fun u => ∫⁻ w, g (F i u, w) ∂(rngLaw (libLaw (.studentT 8)))) u = ∫⁻ w, φ (u, w) ∂(rngLaw (libLaw (.studentT 8))) := by
      intro u
      by_cases hu : u ∈ S i
      · rw [Set.indicator_of_mem hu]
        refine lintegral_congr fun w => ?_
        exact (Set.indicator_of_mem (s := Prod.fst ⁻¹' S i) (show (u, w) ∈ Prod.fst ⁻¹' S i from hu) fun v : (usedBy p (j i) → ℝ) × (ℕ → ℝ) × (ℕ → ℝ) => g (F i v.1, v.2)).symm
      · rw [Set.indicator_of_notMem hu, ← lintegral_zero (μ := rngLaw (libLaw (.studentT 8)))]
        refine lintegral_congr fun w => ?_
        exact (Set.indicator_of_notMem (s := Prod.fst ⁻¹' S i) (show (u, w) ∉ Prod.fst ⁻¹' S i from hu) fun v : (usedBy p (j i) → ℝ) × (ℕ → ℝ) × (ℕ → ℝ) => g (F i v.1, v.2)).symm
    simp only [e1, e2]
    have h3 := lintegral_map (μ := P) hφ ((hu (j i)).prodMk (hw (j i * (p % 2))))
    have h4 := lintegral_map (μ := P) (f := fun u => ∫⁻ w, φ (u, w) ∂(rngLaw (libLaw (.studentT 8)))) hφ.lintegral_prod_right' (hu (j i))
    rw [← h3, ← h4]
    show ∫⁻ a, φ a ∂(P.map fun ω => (usedD p (j i) (R ω), (R ω).stud, Rng.skip (j i * (p % 2)) (R ω).unif)) = _
    rw [hlaw, lintegral_prod _ hφ.aemeasurable]

theorem Renewed.map {W : Type} [MeasurableSpace W] {Q : Measure W} {Y : Type} [MeasurableSpace Y] {Z : Ω → X × W} (hZ : Renewed P Q Z) {f : X → Y} (hf : Measurable f) :
    Renewed P Q fun ω => (f (Z ω).1, (Z ω).2) := by
  have hm : Measurable fun z : X × W => (f z.1, z.2) := (hf.comp measurable_fst).prodMk measurable_snd
  exact ⟨hm.comp_aemeasurable hZ.meas, fun g hg => hZ.fresh _ (hg.comp hm)⟩

end

/-! ### the searches for starting values -/

/-- Number of passes made before search `m`, if search `i` ends with pass `c i`. -/
def before (c : ℕ → ℕ) : ℕ → ℕ
  | 0 => 0
  | m + 1 => c m + 1

/-- Searches `0, …, M - 1` end with the passes `c`. -/
def Hits (A : ℕ → Prop) (c : ℕ → ℕ) (M : ℕ) : Prop := ∀ m < M, before c m ≤ c m ∧ A (c m) ∧ ∀ i, before c m ≤ i → i < c m → ¬ A i

theorem before_le {A : ℕ → Prop} {c : ℕ → ℕ} {M : ℕ} (h : Hits A c M) {m : ℕ} (hm : m ≤ M) : before c m ≤ before c M := by
  induction M with
  | zero => obtain rfl : m = 0 := by omega
            exact le_rfl
  | succ M ih =>
      rcases Nat.eq_or_lt_of_le hm with rfl | hm
      · exact le_rfl
      · have h1 := ih (fun i hi => h i (by omega)) (by omega)
        have h2 := (h M (by omega)).1
        show before c m ≤ c M + 1
        omega

theorem hits_lt {A : ℕ → Prop} {c : ℕ → ℕ} {M : ℕ} (h : Hits A c M) {m : ℕ} (hm : m < M) : c m < before c M :=
  before_le h (show m + 1 ≤ M from hm)

theorem hits_congr {A A' : ℕ → Prop} {c : ℕ → ℕ} {M : ℕ} (hb : ∀ m < M, c m < before c M) (hA : ∀ i < before c M, A i ↔ A' i) : Hits A c M ↔ Hits A' c M := by
  refine forall_congr' fun m => forall_congr' fun hm => ?_
  have h1 := hb m hm
  refine and_congr_right fun _ => and_congr (hA _ h1) ?_
  exact forall_congr' fun i => imp_congr_right fun _ => imp_congr_right fun hi => not_congr (hA i (by omega))

theorem hits_unique {A : ℕ → Prop} {c c' : ℕ → ℕ} {M : ℕ} (h : Hits A c M) (h' : Hits A c' M) {m : ℕ} (hm : m < M) : c m = c' m := by
  induction m using Nat.strong_induction_on with
  | _ m ih =>
    have hb : before c m = before c' m := by
      cases m with
      | zero => rfl
      | succ m => exact congrArg (· + 1) (ih m (by omega) (by omega))
    obtain ⟨h1, h2, h3⟩ := h m hm
    obtain ⟨h1', h2', h3'⟩ := h' m hm
    by_contra hc
    rcases Nat.lt_or_gt_of_ne hc with hc | hc
    · exact h3' _ (by omega) hc h2
    · exact h3 _ (by omega) hc h2'

section
variable {d : ℕ}

/-- The chains after the starting values `v` of the first `m` steps of the stack `l`. -/
def valX (N : ℕ) (l : List (Bool × ℕ)) (v : ℕ → Fin d → ℝ) : ℕ → Fin N → Fin d → ℝ
  | 0 => fun _ _ => 0
  | m + 1 => match l[m]? with
    | none => valX N l v m
    | some w => if h : w.2 < N then Function.update (valX N l v m) ⟨w.2, h⟩ (v m) else valX N l v m

theorem valX_measurable {α : Type*} [MeasurableSpace α] (N : ℕ) (l : List (Bool × ℕ)) {v : α → ℕ → Fin d → ℝ} (hv : ∀ m, Measurable fun a => v a m) (m : ℕ) :
    Measurable fun a => valX N l (v a) m := by
  induction m with
  | zero => exact measurable_const
  | succ m ih =>
      unfold valX
      cases l[m]? with
      | none => exact ih
      | some w =>
          by_cases h : w.2 < N
          · simp only [h, dif_pos]
            refine measurable_pi_lambda _ fun i => ?_
            by_cases hi : i = ⟨w.2, h⟩
            · subst hi
              simpa using hv m
            · simp only [Function.update_of_ne hi]
              exact (measurable_pi_apply i).comp ih
          · simp only [h, dif_neg, not_false_eq_true]
            exact ih

variable {G : LogTarget d} {C : StartC} {p N : ℕ} {l : List (Bool × ℕ)}

theorem startX_hits {r : Rng} (hl : ∀ w ∈ l, w.2 < N) {c : ℕ → ℕ} {M : ℕ} (hM : M ≤ l.length) (h : Hits (AliveAt G C p r) c M) :
    startX G C p r none N l M = (valX N l (fun m => vec d (thetaR C p (passR p r (c m)))) M, before c M) := by
  induction M with
  | zero => rfl
  | succ M ih =>
      have hget : l[M]? = some l[M] := List.getElem?_eq_getElem (by omega)
      have hr := hl l[M] (List.getElem_mem _)
      obtain ⟨h1, h2, h3⟩ := h M (by omega)
      have hn : nextAlive G C p r (before c M) = c M := nextAlive_eq h1 h2 h3
      rw [startX, valX, hget]
      simp only [hr, dif_pos, ih (by omega) fun m hm => h m (by omega), hn]
      rfl

theorem startX_two {r : Rng} (hl : ∀ w ∈ l, w.2 < N) {M : ℕ} (hM : M < l.length) :
    (startX G C p r none N l (M + 1)).2 = nextAlive G C p r (startX G C p r none N l M).2 + 1 ∧
    (startX G C p r none N l (M + 1)).1 ⟨l[M].2, hl _ (List.getElem_mem _)⟩ = vec d (thetaR C p (passR p r (nextAlive G C p r (startX G C p r none N l M).2))) := by
  have hget : l[M]? = some l[M] := List.getElem?_eq_getElem (by omega)
  have hr := hl l[M] (List.getElem_mem _)
  have e : startX G C p r none N l (M + 1) = (Function.update (startX G C p r none N l M).1 ⟨l[M].2, hr⟩
      (vec d (thetaR C p (passR p r (nextAlive G C p r (startX G C p r none N l M).2)))), nextAlive G C p r (startX G C p r none N l M).2 + 1) := by
    rw [startX, hget]
    simp only [hr, dif_pos]
  rw [e]
  exact ⟨rfl, Function.update_self _ _ _⟩

/-- If the searches end with values of positive density, the passes with which they end are hits. -/
theorem hits_exist {r : Rng} (hl : ∀ w ∈ l, w.2 < N) (ha : Alive G (startX G C p r none N l l.length).1) :
    ∃ c : ℕ → ℕ, Hits (AliveAt G C p r) c l.length := by
  set s : ℕ → ℕ := fun m => (startX G C p r none N l m).2 with hs
  set c : ℕ → ℕ := fun m => nextAlive G C p r (s m) with hc
  have hstep : ∀ m < l.length, s (m + 1) = c m + 1 := fun m hm => (startX_two hl hm).1
  have hbef : ∀ m ≤ l.length, before c m = s m := by
    intro m hm
    cases m with
    | zero => rfl
    | succ m => exact (hstep m (by omega)).symm
  have hmono : ∀ m k, m + k < l.length → s m ≤ s (m + k) := by
    intro m k hk
    induction k with
    | zero => exact le_rfl
    | succ k ih =>
        have h1 := ih (by omega)
        have h2 := hstep (m + k) (by omega)
        have h3 : s (m + k) ≤ c (m + k) := nextAlive_ge _ _ _ _ _
        rw [← Nat.add_assoc, h2]
        omega
  refine ⟨c, fun m hm => ?_⟩
  have hlast : AliveAt G C p r (c (l.length - 1)) := by
    have h1 := (startX_two (G := G) (C := C) (p := p) (r := r) hl (show l.length - 1 < l.length by omega)).2
    have h2 := ha ⟨l[l.length - 1].2, hl _ (List.getElem_mem _)⟩
    rw [show l.length - 1 + 1 = l.length by omega] at h1
    rw [h1] at h2
    exact h2
  have hge : s m ≤ c (l.length - 1) := by
    have h1 := hmono m (l.length - 1 - m) (by omega)
    have h2 : s (l.length - 1) ≤ c (l.length - 1) := nextAlive_ge _ _ _ _ _
    rw [show m + (l.length - 1 - m) = l.length - 1 by omega] at h1
    omega
  have hne : {k | AliveAt G C p r (s m + k)}.Nonempty := ⟨c (l.length - 1) - s m, by
    show AliveAt G C p r _
    rwa [show s m + (c (l.length - 1) - s m) = c (l.length - 1) by omega]⟩
  rw [hbef m (by omega)]
  refine ⟨nextAlive_ge _ _ _ _ _, Nat.sInf_mem hne, fun i h1 h2 h3 => ?_⟩
  have := Nat.sInf_le (show i - s m ∈ {k | AliveAt G C p r (s m + k)} by
    show AliveAt G C p r _
    rwa [show s m + (i - s m) = i by omega])
  have h2 : i < s m + sInf {k | AliveAt G C p r (s m + k)} := h2
  omega

theorem startX_ini (r : Rng) (v : Fin d → ℝ) (m : ℕ) : startX G C p r (some v) N l m = (valX N l (fun _ => v) m, 0) := by
  induction m with
  | zero => rfl
  | succ m ih =>
      rw [startX, valX, ih]
      cases l[m]? with
      | none => rfl
      | some w => by_cases h : w.2 < N <;> simp [h]

variable {Ω : Type*} [MeasurableSpace Ω] {P : Measure Ω} {R : Ω → Rng} {dof : ℕ → ℕ}

/-- Extend a finite sequence. -/
def extC (M : ℕ) (c : Fin M → ℕ) (k : ℕ) : ℕ := if h : k < M then c ⟨k, h⟩ else 0

/-- Draws not used are set to 0. -/
noncomputable def fill (p j : ℕ) (D : usedBy p j → ℝ) (i : Stream × ℕ) : ℝ := by
  classical exact if h : i ∈ usedBy p j then D ⟨i, h⟩ else 0

theorem fill_measurable (p j : ℕ) (i : Stream × ℕ) : Measurable fun D : usedBy p j → ℝ => fill p j D i := by
  unfold fill
  by_cases h : i ∈ usedBy p j
  · simp only [h, dif_pos]; exact measurable_pi_apply _
  · simp only [h, dif_neg, not_false_eq_true]; exact measurable_const

theorem fill_used (p j : ℕ) (r : Rng) : ∀ i ∈ usedBy p j, fill p j (usedD p j r) i = drawOf r i := by
  intro i hi
  unfold fill usedD
  simp only [hi, dif_pos]

theorem fill_theta_measurable (C : StartC) (p j J : ℕ) : Measurable fun D : usedBy p j → ℝ => vec d (thetaR C p (passR p (rngD (fill p j D)) J)) :=
  thetaR_measurable C p (fun _ => fill_measurable _ _ _) (fun _ => fill_measurable _ _ _) (fun _ => fill_measurable _ _ _) (fun _ => fill_measurable _ _ _)

/-- **The starting values are random variables, and the draws left for the sweeps are independent of them.** -/
theorem start_renewed (h : IsDraws P R dof) [IsProbabilityMeasure (libLaw (.studentT 8))] (hG : MeasTarget G) (hl : ∀ w ∈ l, w.2 < N) (ini : Option (Fin d → ℝ))
    (ha : ∀ᵐ ω ∂P, Alive G (startX G C p (R ω) ini N l l.length).1) :
    Renewed P (rngLaw (libLaw (.studentT 8))) fun ω =>
      ((startX G C p (R ω) ini N l l.length).1, (R ω).stud, Rng.skip ((startX G C p (R ω) ini N l l.length).2 * (p % 2)) (R ω).unif) := by
  cases ini with
  | some v =>
      refine renewed_pieces h (p := p) (ι := Unit) (j := fun _ => 0) (S := fun _ => Set.univ) (fun _ => MeasurableSet.univ) (F := fun _ _ => valX N l (fun _ => v) l.length)
        (fun _ => measurable_const) (fun _ _ _ _ _ => rfl) (Eventually.of_forall fun ω => ⟨(), trivial⟩) fun _ ω _ => ?_
      rw [startX_ini]
  | none =>
      have hal : ∀ J j, MeasurableSet {D : usedBy p j → ℝ | AliveAt G C p (rngD (fill p j D)) J} := fun J j => fill_theta_measurable C p j J hG.some
      have hcong : ∀ (r : Rng) (j J : ℕ), J < j → (AliveAt G C p (rngD (fill p j (usedD p j r))) J ↔ AliveAt G C p r J) := by
        intro r j J hJ
        unfold AliveAt
        rw [thetaR_used C p hJ (fill_used p j r)]
      have hS : ∀ c : Fin l.length → ℕ, ∀ ω, usedD p (before (extC _ c) l.length) (R ω) ∈
          {D : usedBy p (before (extC _ c) l.length) → ℝ | (∀ m < l.length, extC _ c m < before (extC _ c) l.length) ∧
            Hits (AliveAt G C p (rngD (fill p _ D))) (extC _ c) l.length} ↔ Hits (AliveAt G C p (R ω)) (extC _ c) l.length := by
        intro c ω
        constructor
        · rintro ⟨h1, h2⟩
          exact (hits_congr h1 fun i hi => hcong _ _ _ hi).mp h2
        · intro h2
          have h1 : ∀ m < l.length, extC _ c m < before (extC _ c) l.length := fun m hm => hits_lt h2 hm
          exact ⟨h1, (hits_congr h1 fun i hi => hcong _ _ _ hi).mpr h2⟩
      refine renewed_pieces h (p := p) (ι := Fin l.length → ℕ) (j := fun c => before (extC _ c) l.length)
        (S := fun c => {D | (∀ m < l.length, extC _ c m < before (extC _ c) l.length) ∧ Hits (AliveAt G C p (rngD (fill p _ D))) (extC _ c) l.length}) (fun c => ?_)
        (F := fun c D => valX N l (fun m => vec d (thetaR C p (passR p (rngD (fill p _ D)) (extC _ c m)))) l.length)
        (fun c => valX_measurable N l (fun m => fill_theta_measurable C p _ _) _) (fun ω c c' h1 h2 => ?_) (ha.mono fun ω hω => ?_) fun c ω hω => ?_
      · refine MeasurableSet.inter (MeasurableSet.const _) ?_
        have : {D | Hits (AliveAt G C p (rngD (fill p (before (extC _ c) l.length) D))) (extC _ c) l.length} =
            ⋂ m, ⋂ (_ : m < l.length), ({D | before (extC _ c) m ≤ extC _ c m} ∩ ({D | AliveAt G C p (rngD (fill p (before (extC _ c) l.length) D)) (extC _ c m)} ∩
              ⋂ i, ⋂ (_ : before (extC _ c) m ≤ i), ⋂ (_ : i < extC _ c m), {D | AliveAt G C p (rngD (fill p (before (extC _ c) l.length) D)) i}ᶜ)) := by
          ext D
          simp [Hits]
        show MeasurableSet {D | Hits (AliveAt G C p (rngD (fill p (before (extC _ c) l.length) D))) (extC _ c) l.length}
        rw [this]
        exact MeasurableSet.iInter fun m => MeasurableSet.iInter fun _ => (MeasurableSet.const _).inter ((hal _ _).inter
          (MeasurableSet.iInter fun i => MeasurableSet.iInter fun _ => MeasurableSet.iInter fun _ => (hal _ _).compl))
      · have e := fun m hm => hits_unique ((hS c ω).mp h1) ((hS c' ω).mp h2) (m := m) hm
        funext m
        have := e m m.2
        simpa [extC, m.2] using this
      · obtain ⟨c, hc⟩ := hits_exist hl hω
        have hc' : Hits (AliveAt G C p (R ω)) (extC l.length fun m => c m) l.length := by
          have hb : ∀ m < l.length + 1, before (extC l.length fun m => c m) m = before c m := by
            intro m hm
            cases m with
            | zero => rfl
            | succ m => simp [before, extC, show m < l.length by omega]
          intro m hm
          rw [hb m (by omega), extC, dif_pos hm]
          exact hc m hm
        exact ⟨fun m => c m, (hS _ ω).mpr hc'⟩
      · have hh := (hS c ω).mp hω
        rw [startX_hits hl le_rfl hh]
        have e : ∀ m < l.length, vec d (thetaR C p (passR p (rngD (fill p (before (extC _ c) l.length) (usedD p _ (R ω)))) (extC _ c m))) =
            vec d (thetaR C p (passR p (R ω) (extC _ c m))) := fun m hm => congrArg (vec d) (thetaR_used C p (hits_lt hh hm) (fill_used p _ (R ω)))
        have e2 : ∀ m ≤ l.length, valX N l (fun m => vec d (thetaR C p (passR p (R ω) (extC _ c m)))) m =
            valX N l (fun m => vec d (thetaR C p (passR p (rngD (fill p (before (extC _ c) l.length) (usedD p _ (R ω)))) (extC _ c m)))) m := by
          intro m hm
          induction m with
          | zero => rfl
          | succ m ih => rw [valX, valX, ih (by omega), e m (by omega)]
        rw [e2 _ le_rfl]

end

end Verif.Theory
