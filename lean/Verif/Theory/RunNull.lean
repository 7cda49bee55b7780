import Verif.Theory.RunMap

/-!
Averages after the adaptive sweeps: from any state the random numbers for which they do not converge have probability zero.
-/

namespace Verif.Theory

open MeasureTheory Verif.Model Verif.Spec ENNReal Filter Topology

open scoped Classical

variable {d N : ℕ} {G : LogTarget d} {T : Fin N → ℝ} {B : ℕ} {ν : Measure ℝ} [IsProbabilityMeasure ν]

/-! ### sweeps that do not adapt -/

/-- Forget factors and the last proposal. -/
def forget (z : RunZ N d) : McState N d := (z.1.1, z.2)

/-- Steps of the given kinds with the given factors. -/
noncomputable def stepsOf (L : Fin N → Fin d → Fin d → ℝ) (l : List (Bool × ℕ)) : List (StepSt d) :=
  l.map fun w => if w.1 then .ram w.2 { chol := Matrix.of (if h : w.2 < N then L ⟨w.2, h⟩ else 1), gamma := 0, target := 0, niter := 0, naccept := 0,
                                        maxiter := 0, alpha := .nan }
    else .exch { idx := w.2, reportIter := 0, niter := 0, naccept := 0, alpha := .nan }

theorem skip_zero' (s : ℕ → ℝ) : Rng.skip 0 s = s := rfl

theorem ramX_frozen {k : ℕ} (hk : B ≤ k) (i : Fin N) (z : RunZ N d) :
    forget (ramX G T B k i z) = ramMap G T i (Matrix.of (z.1.2.1 i)) (forget z) ∧ (ramX G T B k i z).1.2.1 = z.1.2.1 := by
  have hm : ramMove i (Matrix.of (z.1.2.1 i)) z.2.1 z.1.1 = Function.update z.1.1 i (propT (z.1.2.1 i) (z.1.1 i) z.2.1) := ramMove_update _ _ _ _
  have hi : ramMove i (Matrix.of (z.1.2.1 i)) z.2.1 z.1.1 i = propT (z.1.2.1 i) (z.1.1 i) z.2.1 := by rw [hm, Function.update_self]
  have hb : ¬ k < B := by omega
  unfold ramX accX ramMap metroMap propX forget
  simp only [hb, if_false]
  by_cases hF : (G (z.1.1 i)).isSome = true ∧ (G (propT (z.1.2.1 i) (z.1.1 i) z.2.1)).isSome = true
  · have hF' : (z.1.1, z.2.1) ∈ ramSet G i (Matrix.of (z.1.2.1 i)) := by
      show _ ∧ (G (ramMove _ _ _ _ i)).isSome = true
      rw [hi]; exact hF
    have hp : ramProb G T i (Matrix.of (z.1.2.1 i)) (z.1.1, z.2.1) =
        min 1 (Real.exp (((G (propT (z.1.2.1 i) (z.1.1 i) z.2.1)).getD 0 - (G (z.1.1 i)).getD 0) / T i)) := by
      unfold ramProb
      rw [hi]
    simp only [Set.mem_ofPred_eq, hF, hF', and_self, if_true, hp]
    split
    · rw [← hm]; exact ⟨rfl, rfl⟩
    · exact ⟨rfl, rfl⟩
  · have hF' : (z.1.1, z.2.1) ∉ ramSet G i (Matrix.of (z.1.2.1 i)) := by
      intro hc
      have hc : _ ∧ (G (ramMove _ _ _ _ i)).isSome = true := hc
      rw [hi] at hc
      exact hF hc
    simp only [Set.mem_ofPred_eq, hF, hF', if_false]
    exact ⟨rfl, trivial⟩

theorem exchX_frozen (i j : Fin N) (z : RunZ N d) :
    forget (exchX G T i j z) = exchMap G T i j (forget z) ∧ (exchX G T i j z).1.2.1 = z.1.2.1 := by
  unfold exchX exchMap metroMap forget
  simp only [Set.mem_univ, if_true]
  split <;> exact ⟨rfl, rfl⟩

theorem stepX_frozen {k : ℕ} (hk : B ≤ k) (w : Bool × ℕ) (z : RunZ N d) {L : Fin N → Fin d → Fin d → ℝ} (hL : z.1.2.1 = L) {st : StepSt d}
    (hst : (stepsOf L [w]) = [st]) :
    forget (stepX G T B k w z) = stepMap G T st (forget z) ∧ (stepX G T B k w z).1.2.1 = L := by
  obtain ⟨b, i⟩ := w
  unfold stepX
  cases b with
  | true =>
      simp only [stepsOf, List.map_cons, List.map_nil, if_true, List.cons.injEq, and_true] at hst
      subst hst
      by_cases h : i < N
      · simp only [h, dif_pos, if_true, stepMap]
        obtain ⟨h1, h2⟩ := ramX_frozen (G := G) (T := T) hk ⟨i, h⟩ z
        rw [hL] at h1 h2
        exact ⟨h1, h2⟩
      · simp only [h, dif_neg, not_false_eq_true, stepMap]
        exact ⟨rfl, hL⟩
  | false =>
      simp only [stepsOf, List.map_cons, List.map_nil, Bool.false_eq_true, if_false, List.cons.injEq, and_true] at hst
      subst hst
      by_cases h : i < N
      · simp only [h, dif_pos, Bool.false_eq_true, if_false, stepMap]
        obtain ⟨h1, h2⟩ := exchX_frozen (G := G) (T := T) ⟨i, h⟩ ⟨i - 1, by omega⟩ z
        exact ⟨h1, h2.trans hL⟩
      · simp only [h, dif_neg, not_false_eq_true, stepMap]
        exact ⟨rfl, hL⟩

theorem loopX_frozen {k : ℕ} (hk : B ≤ k) (l : List (Bool × ℕ)) (z : RunZ N d) {L : Fin N → Fin d → Fin d → ℝ} (hL : z.1.2.1 = L) (m : ℕ) :
    forget (loopX G T B l k m z) = loopMap G T (stepsOf L l) m (forget z) ∧ (loopX G T B l k m z).1.2.1 = L := by
  induction m with
  | zero => exact ⟨rfl, hL⟩
  | succ m ih =>
      cases hl : l[m]? with
      | none =>
          have e : (stepsOf L l)[m]? = none := by rw [stepsOf, List.getElem?_map, hl]; rfl
          rw [loopX, hl, loopMap, e]
          exact ih
      | some w =>
          obtain ⟨st, hst⟩ : ∃ st, stepsOf L [w] = [st] := ⟨_, rfl⟩
          have e : (stepsOf L l)[m]? = some st := by
            rw [stepsOf, List.getElem?_map, hl]
            simp only [stepsOf, List.map_cons, List.map_nil, List.cons.injEq, and_true] at hst
            rw [← hst]; rfl
          rw [loopX, hl, loopMap, e]
          obtain ⟨h1, h2⟩ := stepX_frozen (G := G) (T := T) hk w _ ih.2 hst
          refine ⟨?_, h2⟩
          rw [h1, ih.1]

theorem runX_frozen (l : List (Bool × ℕ)) (z : RunZ N d) {L : Fin N → Fin d → Fin d → ℝ} (hL : (runX G T B l B z).1.2.1 = L) (m : ℕ) :
    forget (runX G T B l (B + m) z) = sweepsMap G T (stepsOf L l) m (forget (runX G T B l B z)) ∧ (runX G T B l (B + m) z).1.2.1 = L := by
  induction m with
  | zero => exact ⟨rfl, hL⟩
  | succ m ih =>
      have e : runX G T B l (B + (m + 1)) z = loopX G T B l (B + m) l.length (runX G T B l (B + m) z) := rfl
      obtain ⟨h1, h2⟩ := loopX_frozen (G := G) (T := T) (show B ≤ B + m by omega) l _ ih.2 l.length
      rw [e]
      refine ⟨?_, h2⟩
      rw [h1, ih.1]
      unfold sweepsMap
      rw [Function.iterate_succ_apply']
      congr 1
      simp [stepsOf]

/-- Sweeps without adaptation. -/
theorem runX_split (l : List (Bool × ℕ)) (z : RunZ N d) (m : ℕ) :
    forget (runX G T B l (B + m) z) = forget (runX G T 0 l m (runX G T B l B z)) := by
  have h1 := (runX_frozen (G := G) (T := T) (B := B) l z rfl m).1
  have h2 := (runX_frozen (G := G) (T := T) (B := 0) l (runX G T B l B z) rfl m).1
  rw [h1]
  rw [Nat.zero_add] at h2
  exact h2.symm

theorem stepsOf_kinds (L : Fin N → Fin d → Fin d → ℝ) (l : List (Bool × ℕ)) : (stepsOf L l).map stepKind = l := by
  unfold stepsOf
  rw [List.map_map]
  conv_rhs => rw [← List.map_id l]
  refine List.map_congr_left fun w _ => ?_
  obtain ⟨b, i⟩ := w
  cases b <;> rfl

theorem stepsOf_range (hN : 0 < N) (L : Fin N → Fin d → Fin d → ℝ) : ∀ st ∈ stepsOf L (stepOrder (N - 1)), InRange N st := by
  intro st hst
  have hk : stepKind st ∈ stepOrder (N - 1) := by
    rw [← stepsOf_kinds L (stepOrder (N - 1))]
    exact List.mem_map_of_mem hst
  have h := stepOrder_le _ hk
  cases st with
  | ram i a => have h0 : i ≤ N - 1 := h.1; exact (show i < N by omega)
  | exch e => have h0 : e.idx ≤ N - 1 := h.1; exact ⟨h.2 rfl, by omega⟩

/-! ### the exceptional set -/

/-- States and random numbers for which averages along sweeps without adaptation do not tend to `m`, although values have positive density and
factors are invertible. -/
def badSet (G : LogTarget d) (T : Fin N → ℝ) (thin : ℕ) (i0 : Fin N) (f : (Fin d → ℝ) → ℝ) (m : ℝ) : Set (RunZ N d) :=
  {z | (Alive G z.1.1 ∧ ∀ i, (Matrix.of (z.1.2.1 i)).det ≠ 0) ∧
    ¬ Tendsto (fun n : ℕ => (∑ k ∈ Finset.range n, f ((runX G T 0 (stepOrder (N - 1)) (thin * (k + 1)) z).1.1 i0)) / n) atTop (𝓝 m)}

theorem badSet_measurable (hG : MeasTarget G) (thin : ℕ) (i0 : Fin N) {f : (Fin d → ℝ) → ℝ} (hf : Measurable f) (m : ℝ) :
    MeasurableSet (badSet G T thin i0 f m) := by
  refine MeasurableSet.inter (MeasurableSet.inter ?_ ?_) (MeasurableSet.compl ?_)
  · exact (measurable_fst.comp measurable_fst) (alive_measurable hG)
  · have hdet : ∀ i : Fin N, Measurable fun z : RunZ N d => (Matrix.of (z.1.2.1 i)).det := by
      intro i
      have hL : ∀ a b : Fin d, Measurable fun z : RunZ N d => z.1.2.1 i a b := fun a b =>
        (measurable_pi_apply b).comp ((measurable_pi_apply a).comp ((measurable_pi_apply i).comp (measurable_fst.comp (measurable_snd.comp measurable_fst))))
      simp only [Matrix.det_apply', Matrix.of_apply]
      exact Finset.measurable_sum _ fun σ _ => (Finset.measurable_prod _ fun a _ => hL _ _).const_mul _
    have : {z : RunZ N d | ∀ i, (Matrix.of (z.1.2.1 i)).det ≠ 0} = ⋂ i, (fun z : RunZ N d => (Matrix.of (z.1.2.1 i)).det) ⁻¹' {0}ᶜ := by
      ext z; simp
    show MeasurableSet {z : RunZ N d | ∀ i, (Matrix.of (z.1.2.1 i)).det ≠ 0}
    rw [this]
    exact MeasurableSet.iInter fun i => hdet i (measurableSet_singleton 0).compl
  · refine measurableSet_tendsto (𝓝 m) fun n => ?_
    refine Measurable.div_const (Finset.measurable_sum _ fun k _ => hf.comp ?_) _
    exact (measurable_pi_apply i0).comp (measurable_fst.comp (measurable_fst.comp (runX_regen (ν := Measure.dirac 0) hG _ _).meas))

theorem badSet_null (hG : MeasTarget G) (hprop : ∀ i, IsProper G (T i)) (hν : volume ≪ ν) (hν' : ν ≪ volume) (hsym : ν.map (fun x => -x) = ν)
    (hN : 0 < N) (i0 : Fin N) {f : (Fin d → ℝ) → ℝ} (hf : Measurable f) (hi : HasMean G (T i0) f) {thin : ℕ} (hthin : 0 < thin) (x : RunX N d) :
    rngLaw ν {w | (x, w) ∈ badSet G T thin i0 f (postMean G (T i0) f)} = 0 := by
  by_cases hx : Alive G x.1 ∧ ∀ i, (Matrix.of (x.2.1 i)).det ≠ 0
  · have hl : Stack N (stepsOf x.2.1 (stepOrder (N - 1))) := by
      refine ⟨hN, stepsOf_kinds _ _, fun i a ha => ?_⟩
      have hr : i < N := stepsOf_range hN x.2.1 _ ha
      unfold stepsOf at ha
      obtain ⟨⟨b, j⟩, hw, he⟩ := List.mem_map.mp ha
      cases b with
      | false => simp at he
      | true =>
          simp only [if_true] at he
          injection he with h1 h2
          subst h1
          rw [← h2]
          simp only [hr, dif_pos]
          exact hx.2 _
    have h := sweeps_average hG hprop hν hν' hsym hl (stepsOf_range hN _) hx.1 i0 hf hi hthin
    rw [ae_iff] at h
    refine measure_mono_null (fun w hw => ?_) h
    intro hT
    refine hw.2 ?_
    have e : ∀ k, (runX G T 0 (stepOrder (N - 1)) (thin * (k + 1)) (x, w)).1.1 i0 =
        (sweepsMap G T (stepsOf x.2.1 (stepOrder (N - 1))) (thin * (k + 1)) (x.1, w)).1 i0 := by
      intro k
      have h := (runX_frozen (G := G) (T := T) (B := 0) (stepOrder (N - 1)) (x, w) (L := x.2.1) rfl (thin * (k + 1))).1
      rw [Nat.zero_add] at h
      exact congrArg (fun z : McState N d => z.1 i0) h
    simp only [e]
    exact hT
  · have e : {w | (x, w) ∈ badSet G T thin i0 f (postMean G (T i0) f)} = ∅ := by
      ext w
      simp only [Set.mem_empty_iff_false, iff_false]
      exact fun hw => hx hw.1
    rw [e, measure_empty]

/-- Starting values and random numbers for which the averages of the whole run do not converge. -/
def badRun (G : LogTarget d) (T : Fin N → ℝ) (B thin : ℕ) (i0 : Fin N) (f : (Fin d → ℝ) → ℝ) (m : ℝ) : Set (RunZ N d) :=
  runX G T B (stepOrder (N - 1)) B ⁻¹' badSet G T thin i0 f m

theorem badRun_measurable (hG : MeasTarget G) (thin : ℕ) (i0 : Fin N) {f : (Fin d → ℝ) → ℝ} (hf : Measurable f) (m : ℝ) :
    MeasurableSet (badRun G T B thin i0 f m) :=
  (runX_regen (ν := Measure.dirac 0) hG _ _).meas (badSet_measurable hG thin i0 hf m)

theorem badRun_null (hG : MeasTarget G) (hprop : ∀ i, IsProper G (T i)) (hν : volume ≪ ν) (hν' : ν ≪ volume) (hsym : ν.map (fun x => -x) = ν)
    (hN : 0 < N) (i0 : Fin N) {f : (Fin d → ℝ) → ℝ} (hf : Measurable f) (hi : HasMean G (T i0) f) {thin : ℕ} (hthin : 0 < thin) (x : RunX N d) :
    rngLaw ν {w | (x, w) ∈ badRun G T B thin i0 f (postMean G (T i0) f)} = 0 := by
  set D := badSet G T thin i0 f (postMean G (T i0) f) with hD
  have hDm : MeasurableSet D := badSet_measurable hG thin i0 hf _
  have hR := runX_regen (ν := ν) (T := T) (B := B) hG (stepOrder (N - 1)) B
  have h := hR.fresh x (D.indicator 1) (measurable_one.indicator hDm)
  have e1 : ∀ y : RunX N d, ∫⁻ w', D.indicator (1 : RunZ N d → ℝ≥0∞) (y, w') ∂(rngLaw ν) = 0 := by
    intro y
    have hm : MeasurableSet {w' | (y, w') ∈ D} := measurable_prodMk_left hDm
    have : ∫⁻ w', D.indicator (1 : RunZ N d → ℝ≥0∞) (y, w') ∂(rngLaw ν) = rngLaw ν {w' | (y, w') ∈ D} := by
      rw [← lintegral_indicator_one hm]
      rfl
    rw [this]
    exact badSet_null hG hprop hν hν' hsym hN i0 hf hi hthin y
  simp only [e1, lintegral_zero] at h
  have hm : MeasurableSet {w | (x, w) ∈ badRun G T B thin i0 f (postMean G (T i0) f)} := measurable_prodMk_left (badRun_measurable hG thin i0 hf _)
  rw [← lintegral_indicator_one hm, ← h]
  rfl

/-- Outside the exceptional set the averages over the run converge. -/
theorem badRun_averages {thin : ℕ} {i0 : Fin N} {f : (Fin d → ℝ) → ℝ} {m : ℝ} {z : RunZ N d} (hz : z ∉ badRun G T B thin i0 f m)
    (ha : Alive G (runX G T B (stepOrder (N - 1)) B z).1.1) (hd : ∀ i, (Matrix.of ((runX G T B (stepOrder (N - 1)) B z).1.2.1 i)).det ≠ 0) :
    Tendsto (fun n : ℕ => (∑ k ∈ Finset.range n, f ((runX G T B (stepOrder (N - 1)) (B + thin * (k + 1)) z).1.1 i0)) / n) atTop (𝓝 m) := by
  by_contra hc
  refine hz ⟨⟨ha, hd⟩, fun hT => hc ?_⟩
  have e : ∀ k, (runX G T B (stepOrder (N - 1)) (B + thin * (k + 1)) z).1.1 i0 =
      (runX G T 0 (stepOrder (N - 1)) (thin * (k + 1)) (runX G T B (stepOrder (N - 1)) B z)).1.1 i0 := fun k =>
    congrArg (fun z : McState N d => z.1 i0) (runX_split (G := G) (T := T) (B := B) (stepOrder (N - 1)) z (thin * (k + 1)))
  simp only [e]
  exact hT

end Verif.Theory
