import Verif.Theory.FPredictP
import Verif.Theory.FSimExact

/-!
`Simulate` of a CARMA filter returns for any numbers, and what it returns depends only on the data and the parameters.
-/

namespace Verif.Theory

open Verif.Model Verif.Spec
open scoped Classical

variable {C : CArith} {p : ℕ}

theorem Whole.psame {s k : FKFp p} (h : Whole C.r s.b) (e : PSame s k) : Whole C.r k.b :=
  ⟨by rw [e.time]; exact h.two, by rw [e.time, e.dt]; exact h.dt, by rw [e.y, e.time]; exact h.y, by rw [e.yerr, e.time]; exact h.yerr,
    by rw [e.lmean, e.time]; exact h.mean, by rw [e.lvar, e.time]; exact h.var⟩

/-- `Predict` on objects with the same data -/
theorem predict_same (hp : 2 ≤ p) {s k : FKFp p} (hw : Whole C.r s.b) (hma : s.ma.length = p) (x : Dbl) {J : Fin p → CD}
    (hs : C.solve p (FKFp.eigenMat C s.omega) (FKFp.rvec p) = some J) (h : PSame s k) :
    ∃ k', FKFp.predict C k x = .ok (k', predOf C s J x) ∧ PSame s k' := by
  obtain ⟨k', e, h'⟩ := predict_det hp (Whole.psame hw h) (by rw [h.ma]; exact hma) x (by rw [h.omega]; exact hs)
  exact ⟨k', by rw [e, h.pred], h.trans h'⟩

/-- the object after one value has been simulated -/
noncomputable def insertObs (C : CArith) (s : FKFp p) (t x : Dbl) : FKFp p :=
  let i := FKF1.scan t s.b.time
  let time := s.b.time.insertIdx i t
  { s with b := { s.b with
    time := time, dt := List.zipWith (fun b a => C.r.sub b a) time.tail time, y := s.b.y.insertIdx i x, yerr := s.b.yerr.insertIdx i (.fin 0),
    mean := List.replicate time.length (.fin 0), var := List.replicate time.length (.fin 0) } }

theorem diffs_insert {s : FKFp p} (hw : Whole C.r s.b) (t x : Dbl) : FKF1.diffs C.r (insertObs C s t x).b.time = .ok (insertObs C s t x).b.dt := by
  have h2 := hw.two
  unfold FKF1.diffs
  exact if_neg (by
    show ¬ (s.b.time.insertIdx (FKF1.scan t s.b.time) t).length < 2
    rw [List.length_insertIdx_of_le_length (scan_le _ _)]; omega)

theorem insertObs_whole {s : FKFp p} (hw : Whole C.r s.b) (t x : Dbl) : Whole C.r (insertObs C s t x).b := by
  have h2 := hw.two
  have hle := scan_le t s.b.time
  have hl : (insertObs C s t x).b.time.length = s.b.time.length + 1 := List.length_insertIdx_of_le_length hle _
  refine ⟨by omega, diffs_insert hw t x, ?_, ?_, ?_, ?_⟩
  · rw [hl]
    show (s.b.y.insertIdx _ _).length = _
    rw [List.length_insertIdx_of_le_length (by rw [hw.y]; exact hle), hw.y]
  · rw [hl]
    show (s.b.yerr.insertIdx _ _).length = _
    rw [List.length_insertIdx_of_le_length (by rw [hw.yerr]; exact hle), hw.yerr]
  · exact List.length_replicate
  · exact List.length_replicate

theorem simStep_same (hp : 2 ≤ p) {s k : FKFp p} (hw : Whole C.r s.b) (hma : s.ma.length = p) (t z : Dbl) {J : Fin p → CD}
    (hs : C.solve p (FKFp.eigenMat C s.omega) (FKFp.rvec p) = some J) (h : PSame s k) :
    ∃ k', FKFp.simStep C k t z = .ok (k', FKF1.drawNormal C.r (predOf C s J t).1 (C.r.sqrt (predOf C s J t).2) z) ∧
      PSame (insertObs C s t (FKF1.drawNormal C.r (predOf C s J t).1 (C.r.sqrt (predOf C s J t).2) z)) k' := by
  obtain ⟨k1, e1, h1⟩ := predict_same hp hw hma t hs h
  have hle := scan_le t s.b.time
  have h2 := hw.two
  have hd := diffs_insert hw t (FKF1.drawNormal C.r (predOf C s J t).1 (C.r.sqrt (predOf C s J t).2) z)
  have hf : FKF1.find s.b.time t = .ok (FKF1.scan t s.b.time) := find_some hw t
  unfold FKFp.simStep insertRow
  rw [e1, res_bind_ok]
  dsimp only
  rw [h1.time, hf, res_bind_ok, if_pos hle, res_bind_ok]
  have hd' : FKF1.diffs C.r (s.b.time.insertIdx (FKF1.scan t s.b.time) t) = _ := hd
  rw [hd', res_bind_ok, h1.y, if_pos (by rw [hw.y]; exact hle), res_bind_ok, h1.yerr, if_pos (by rw [hw.yerr]; exact hle), res_bind_ok]
  exact ⟨_, rfl, ⟨rfl, rfl, rfl, rfl, h1.sig, h1.omega, h1.ma, rfl, rfl⟩⟩

theorem simLoop_same (hp : 2 ≤ p) {J : Fin p → CD} (ts : List Dbl) : ∀ {s : FKFp p}, Whole C.r s.b → s.ma.length = p → ∀ (zs : ℕ → Dbl),
    C.solve p (FKFp.eigenMat C s.omega) (FKFp.rvec p) = some J → ∃ xs s', xs.length = ts.length ∧ s'.b.sigsqr = s.b.sigsqr ∧ s'.omega = s.omega ∧
      s'.ma = s.ma ∧ ∀ k, PSame s k → ∃ k', FKFp.simLoop C k ts zs = .ok (k', xs) ∧ PSame s' k' := by
  induction ts with
  | nil => exact fun {s} _ _ _ _ => ⟨[], s, rfl, rfl, rfl, rfl, fun k h => ⟨k, rfl, h⟩⟩
  | cons t ts ih =>
    intro s hw hma zs hs
    obtain ⟨xs, s', l, a1, a2, a3, h⟩ := ih (s := insertObs C s t (FKF1.drawNormal C.r (predOf C s J t).1 (C.r.sqrt (predOf C s J t).2) (zs 0)))
      (insertObs_whole hw _ _) hma (fun k => zs (k + 1)) hs
    refine ⟨FKF1.drawNormal C.r (predOf C s J t).1 (C.r.sqrt (predOf C s J t).2) (zs 0) :: xs, s', by rw [List.length_cons, l, List.length_cons], a1, a2, a3,
      fun k hk => ?_⟩
    · obtain ⟨k1, e1, h1⟩ := simStep_same hp hw hma t (zs 0) hs hk
      obtain ⟨k2, e2, h2⟩ := h k1 h1
      refine ⟨k2, ?_, h2⟩
      rw [FKFp.simLoop, e1, res_bind_ok]
      dsimp only
      rw [e2, res_bind_ok]
      rfl

theorem simulate_same (hp : 2 ≤ p) {s : FKFp p} (hw : Whole C.r s.b) (hma : s.ma.length = p) {times : List Dbl} (hn : Dbl.nan ∉ times) (zs : ℕ → Dbl)
    {J : Fin p → CD} (hs : C.solve p (FKFp.eigenMat C s.omega) (FKFp.rvec p) = some J) :
    ∃ xs, xs.length = times.length ∧ ∀ k, PSame s k → ∃ k', FKFp.simulate C k times zs = .ok (k', xs) ∧ PSame s k' := by
  obtain ⟨xs, s', l, a1, a2, a3, h⟩ := simLoop_same hp (times.mergeSort fun a b => decide ¬ b.lt a) hw hma zs hs
  refine ⟨xs, by rw [l, List.length_mergeSort], fun k hk => ?_⟩
  obtain ⟨k1, e1, h1⟩ := h k hk
  unfold FKFp.simulate FKF1.sortTimes
  rw [if_neg hn, res_bind_ok, e1, res_bind_ok]
  dsimp only
  rw [hk.time, hw.dt, res_bind_ok, hk.y, hk.yerr]
  exact ⟨_, rfl, ⟨rfl, rfl, rfl, rfl, h1.sig.trans a1, h1.omega.trans a2, h1.ma.trans a3, by simp [hw.mean], by simp [hw.var]⟩⟩

theorem simulate_none (hp : 2 ≤ p) {s : FKFp p} (hw : Whole C.r s.b) {times : List Dbl} (hn : Dbl.nan ∉ times) (h0 : times ≠ []) (zs : ℕ → Dbl)
    (hs : C.solve p (FKFp.eigenMat C s.omega) (FKFp.rvec p) = none) : FKFp.simulate C s times zs = .error .runtime := by
  unfold FKFp.simulate FKF1.sortTimes
  rw [if_neg hn, res_bind_ok]
  cases e : times.mergeSort fun a b => decide ¬ b.lt a with
  | nil =>
    have := List.length_mergeSort (le := fun a b => decide ¬ Dbl.lt b a) times
    rw [e] at this
    exact absurd (List.length_eq_zero_iff.mp this.symm) h0
  | cons t ts =>
    rw [FKFp.simLoop, FKFp.simStep, predict_none hp hw t hs]
    rfl

theorem simulate_empty {s : FKFp p} (hw : Whole C.r s.b) (zs : ℕ → Dbl) : ∃ k, FKFp.simulate C s [] zs = .ok (k, []) ∧ PSame s k := by
  unfold FKFp.simulate FKF1.sortTimes
  rw [if_neg (by simp), res_bind_ok, List.mergeSort_nil, FKFp.simLoop, res_bind_ok]
  dsimp only
  rw [hw.dt, res_bind_ok]
  exact ⟨_, rfl, ⟨rfl, rfl, rfl, rfl, rfl, rfl, rfl, by simp [hw.mean], by simp [hw.var]⟩⟩

theorem UsedP.same (hp : 2 ≤ p) {s k : FKFp p} (hw : Whole C.r s.b) (hma : s.ma.length = p) (h : UsedP C s k) : PSame s k := by
  induction h with
  | none => exact .refl s
  | filter _ e ih => exact ih.trans (filter_psame e)
  | @predict s1 s2 x r _ e ih =>
    have hw1 := Whole.psame hw ih
    cases hs : C.solve p (FKFp.eigenMat C s1.omega) (FKFp.rvec p) with
    | none => rw [predict_none hp hw1 x hs] at e; cases e
    | some J =>
      obtain ⟨k', e', h'⟩ := predict_det hp hw1 (by rw [ih.ma]; exact hma) x hs
      rw [e] at e'
      injection e' with e'
      injection e' with e' _
      subst e'
      exact ih.trans h'
  | @simulate s1 s2 times zs xs _ e ih =>
    have hw1 := Whole.psame hw ih
    by_cases hn : Dbl.nan ∈ times
    · unfold FKFp.simulate FKF1.sortTimes at e
      rw [if_pos hn] at e
      cases e
    cases hs : C.solve p (FKFp.eigenMat C s1.omega) (FKFp.rvec p) with
    | none =>
      by_cases h0 : times = []
      · subst h0
        obtain ⟨k', e', h'⟩ := simulate_empty (C := C) hw1 zs
        rw [e] at e'
        injection e' with e'
        injection e' with e' _
        subst e'
        exact ih.trans h'
      · rw [simulate_none hp hw1 hn h0 zs hs] at e; cases e
    | some J =>
      obtain ⟨xs', _, h'⟩ := simulate_same hp hw1 (by rw [ih.ma]; exact hma) hn zs hs
      obtain ⟨k', e', h'⟩ := h' s1 (.refl s1)
      rw [e] at e'
      injection e' with e'
      injection e' with e' _
      subst e'
      exact ih.trans h'

/-- the constructor, for any numbers -/
theorem newp_whole {srt : List Dbl → List ℕ} {time y yerr ma : List Dbl} {sigsqr : Dbl} {omega : Fin p → CD} {s : FKFp p} (hy : y.length = time.length)
    (he : yerr.length = time.length) (h : FKFp.new C srt time y yerr sigsqr omega ma = .ok s) : Whole C.r s.b ∧
      s.b.sigsqr = sigsqr ∧ s.omega = omega ∧ s.ma = ma ++ List.replicate (p - ma.length) (.fin 0) := by
  obtain ⟨b, e, h⟩ := bind_ok h
  injection h with h
  subst h
  have : FKF1.new C.r srt time y yerr sigsqr (.fin 0) = .ok { b with sigsqr := sigsqr, omega := .fin 0 } := by
    unfold FKF1.new
    rw [e, res_bind_ok]
    rfl
  have w := new_whole hy he this
  exact ⟨⟨w.two, w.dt, w.y, w.yerr, w.mean, w.var⟩, rfl, rfl, rfl⟩

end Verif.Theory
