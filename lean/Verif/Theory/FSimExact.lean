import Verif.Theory.FSimulate

/-!
With exact arithmetic the floating-point model of `Simulate` agrees with the model in real numbers whenever the latter returns; the
constructor gives an object whose vectors belong together.
-/

namespace Verif.Theory

open Verif.Model Verif.Spec
open scoped Classical

variable {A : Arith}

theorem insertRow_lift {l l' : List ℝ} {i : ℕ} {x : ℝ} (h : insertRow l i x = .ok l') : insertRow (l.map Dbl.fin) i (.fin x) = .ok (l'.map .fin) := by
  unfold insertRow at h ⊢
  rw [List.length_map]
  split at h
  · next hi =>
    cases h
    rw [if_pos hi, List.map_insertIdx]
  · cases h

theorem simStep_lift {s s' : KF1} {t z x : ℝ} (h : Kalman.simStep s t z = .ok (s', x)) (a b : Dbl) :
    FKF1.simStep Arith.exact { liftF s with yconst := a, yslope := b } (.fin t) (.fin z) = .ok (liftF s', .fin x) := by
  unfold Kalman.simStep at h
  obtain ⟨⟨s1, ⟨mu, v⟩⟩, h1, h⟩ := bind_ok h
  obtain ⟨ys, h2, h⟩ := bind_ok h
  obtain ⟨idx, h3, h⟩ := bind_ok h
  obtain ⟨time, h4, h⟩ := bind_ok h
  obtain ⟨dt, h5, h⟩ := bind_ok h
  obtain ⟨y, h6, h⟩ := bind_ok h
  obtain ⟨yerr, h7, h⟩ := bind_ok h
  cases h
  have e2 : FKF1.drawNormal Arith.exact (.fin mu) (Arith.exact.sqrt (.fin v)) (.fin z) = .fin x := by
    unfold drawNormal at h2
    split at h2
    · cases h2
    · next hv =>
      cases h2
      unfold FKF1.drawNormal
      rw [show Arith.exact.sqrt (.fin v) = .fin √v from if_neg hv, exf_mul, exf_add]
      congr 1; ring
  have e3 := find_lift h3
  have e4 := insertRow_lift h4
  have e5 := diffs_lift h5
  have e6 := insertRow_lift h6
  have e7 := insertRow_lift h7
  unfold FKF1.simStep
  rw [predict_lift h1, res_bind_ok]
  dsimp only
  rw [e2]
  change (FKF1.find (liftF s1).time (.fin t) >>= _) = _
  rw [show (liftF s1).time = (Kalman.base s1).time.map Dbl.fin from rfl, e3, res_bind_ok, e4, res_bind_ok, e5, res_bind_ok,
    show (liftF s1).y = (Kalman.base s1).y.map Dbl.fin from rfl, e6, res_bind_ok,
    show (liftF s1).yerr = (Kalman.base s1).yerr.map Dbl.fin from rfl, e7, res_bind_ok]
  simp [liftF, Kalman.setBase, Kalman.base]

theorem simLoop_lift {ts : List ℝ} {s s' : KF1} {zs : ℕ → ℝ} {xs : List ℝ} (h : Kalman.simLoop s ts zs = .ok (s', xs)) (a b : Dbl) :
    ∃ f, FKF1.simLoop Arith.exact { liftF s with yconst := a, yslope := b } (ts.map .fin) (fun k => .fin (zs k)) = .ok (f, xs.map .fin) ∧
      f.sigsqr = (liftF s').sigsqr ∧ f.omega = (liftF s').omega := by
  induction ts generalizing s zs xs a b with
  | nil => cases h; exact ⟨_, rfl, rfl, rfl⟩
  | cons t ts ih =>
    unfold Kalman.simLoop at h
    obtain ⟨⟨s1, x⟩, h1, h⟩ := bind_ok h
    obtain ⟨⟨s2, xs'⟩, h2, h⟩ := bind_ok h
    cases h
    obtain ⟨f, e, q⟩ := ih h2 (.fin s1.b.yconst) (.fin s1.b.yslope)
    refine ⟨f, ?_, q⟩
    rw [List.map_cons, FKF1.simLoop, simStep_lift h1, res_bind_ok]
    dsimp only
    have e' : FKF1.simLoop Arith.exact (liftF s1) (ts.map .fin) (fun k => .fin (zs (k + 1))) = .ok (f, xs'.map .fin) := e
    rw [e', res_bind_ok]
    rfl

theorem sort_lift (l : List ℝ) : FKF1.sortTimes (l.map .fin) = .ok ((l.mergeSort fun a b => decide (a ≤ b)).map .fin) := by
  unfold FKF1.sortTimes
  rw [if_neg (by simp)]
  congr 1
  rw [List.map_mergeSort]
  intro a _ b _
  simp [Dbl.lt]

theorem simulate_lift {s s' : KF1} {times : List ℝ} {zs : ℕ → ℝ} {xs : List ℝ} (h : Kalman.simulate s times zs = .ok (s', xs)) (a b : Dbl) :
    ∃ f, FKF1.simulate Arith.exact { liftF s with yconst := a, yslope := b } (times.map .fin) (fun k => .fin (zs k)) = .ok (f, xs.map .fin) := by
  unfold Kalman.simulate at h
  obtain ⟨⟨s1, xs'⟩, h1, h⟩ := bind_ok h
  obtain ⟨dt, h2, h⟩ := bind_ok h
  cases h
  obtain ⟨f, e, -⟩ := simLoop_lift h1 a b
  have e2 := diffs_lift h2
  unfold FKF1.simulate
  rw [sort_lift, res_bind_ok, e, res_bind_ok]
  dsimp only
  change ∃ f', (FKF1.diffs Arith.exact ((Kalman.base s).time.map .fin) >>= _) = _
  rw [e2, res_bind_ok]
  exact ⟨_, rfl⟩

theorem gather_len' {α : Type} {l l' : List α} {idx : List ℕ} (h : gather l idx = .ok l') : l'.length = idx.length := by
  unfold gather at h
  induction idx generalizing l' with
  | nil => cases h; rfl
  | cons i idx ih =>
    rw [List.mapM_cons] at h
    obtain ⟨a, -, h⟩ := bind_ok h
    obtain ⟨r, h1, h⟩ := bind_ok h
    cases h
    simp [ih h1]

/-- the constructor, for any numbers -/
theorem new_whole {srt : List Dbl → List ℕ} {time y yerr : List Dbl} {sigsqr omega : Dbl} {s : FKF1} (hy : y.length = time.length)
    (he : yerr.length = time.length) (h : FKF1.new A srt time y yerr sigsqr omega = .ok s) : Whole A s := by
  unfold FKF1.new at h
  obtain ⟨s1, h1, h⟩ := bind_ok h
  cases h
  unfold FKF1.newData at h1
  obtain ⟨s2, h2, h1⟩ := bind_ok h1
  have w2 : FKF1.diffs A s2.time = .ok s2.dt ∧ s2.y.length = s2.time.length ∧ s2.yerr.length = s2.time.length := by
    unfold FKF1.initSort at h2
    obtain ⟨dt, g, h2⟩ := bind_ok h2
    split at h2
    · obtain ⟨t', g1, h2⟩ := bind_ok h2
      obtain ⟨y', g2, h2⟩ := bind_ok h2
      obtain ⟨e', g3, h2⟩ := bind_ok h2
      obtain ⟨d', g4, h2⟩ := bind_ok h2
      cases h2
      exact ⟨g4, (gather_len' g2).trans (gather_len' g1).symm, (gather_len' g3).trans (gather_len' g1).symm⟩
    · cases h2
      exact ⟨g, hy, he⟩
  have two : ∀ {t d : List Dbl}, FKF1.diffs A t = .ok d → 2 ≤ t.length := by
    intro t d hd
    unfold FKF1.diffs at hd
    split at hd
    · cases hd
    · omega
  unfold FKF1.initDedup at h1
  obtain ⟨s3, h3, h1⟩ := bind_ok h1
  cases h1
  have w3 : FKF1.diffs A s3.time = .ok s3.dt ∧ s3.y.length = s3.time.length ∧ s3.yerr.length = s3.time.length := by
    split at h3
    · obtain ⟨t', g1, h3⟩ := bind_ok h3
      obtain ⟨y', g2, h3⟩ := bind_ok h3
      obtain ⟨e', g3, h3⟩ := bind_ok h3
      obtain ⟨d', g4, h3⟩ := bind_ok h3
      cases h3
      exact ⟨g4, (gather_len' g2).trans (gather_len' g1).symm, (gather_len' g3).trans (gather_len' g1).symm⟩
    · cases h3
      exact w2
  exact ⟨two w3.1, w3.1, w3.2.1, w3.2.2, by simp, by simp⟩

end Verif.Theory

namespace Verif.Theory

open Verif.Model Verif.Spec
open scoped Classical

variable {A : Arith}

theorem scan_insert_lt {a x : ℝ} (h : a < x) (l : List ℝ) :
    FKF1.scan (.fin x) ((l.map Dbl.fin).insertIdx (FKF1.scan (.fin a) (l.map .fin)) (.fin a)) = FKF1.scan (.fin x) (l.map .fin) + 1 ∧
      FKF1.scan (.fin a) (l.map .fin) ≤ FKF1.scan (.fin x) (l.map .fin) := by
  induction l with
  | nil => simp [FKF1.scan, Dbl.gt, Dbl.lt, h]
  | cons b l ih =>
    rw [List.map_cons]
    by_cases hb : b < a
    · have e : FKF1.scan (.fin a) (Dbl.fin b :: l.map .fin) = FKF1.scan (.fin a) (l.map .fin) + 1 := by rw [FKF1.scan, if_pos (show (Dbl.fin a).gt (.fin b) from hb)]
      have e' : FKF1.scan (.fin x) (Dbl.fin b :: l.map .fin) = FKF1.scan (.fin x) (l.map .fin) + 1 := by
        rw [FKF1.scan, if_pos (show (Dbl.fin x).gt (.fin b) from hb.trans h)]
      rw [e, e', List.insertIdx_succ_cons, FKF1.scan, if_pos (show (Dbl.fin x).gt (.fin b) from hb.trans h), ih.1]
      exact ⟨rfl, by omega⟩
    · have e : FKF1.scan (.fin a) (Dbl.fin b :: l.map .fin) = 0 := by rw [FKF1.scan, if_neg (show ¬ (Dbl.fin a).gt (.fin b) from hb)]
      rw [e, List.insertIdx_zero]
      refine ⟨?_, Nat.zero_le _⟩
      conv_lhs => rw [FKF1.scan]
      rw [if_pos (show (Dbl.fin x).gt (.fin a) from h)]

/-- a time at which there is an observation without error -/
theorem simLoop_observed (hA : IsBinary64 A) (he : A.exp (.fin 0) = .fin 1) {ts : List ℝ} (hts : ts.Pairwise (· ≤ ·)) {s s' : FKF1} {zs : ℕ → Dbl}
    {xs : List Dbl} {w : ℝ} (h : Whole A s) (hw : s.omega = .fin w) (e : FKF1.simLoop A s (ts.map .fin) zs = .ok (s', xs)) {k : ℕ} {x : ℝ}
    (h1 : ts[k]? = some x) {l : List ℝ} (hl : s.time = l.map .fin) (ht : s.time[FKF1.scan (.fin x) s.time]? = some (.fin x))
    (hy : s.yerr[FKF1.scan (.fin x) s.time]? = some (.fin 0)) : xs[k]? = some .nan := by
  induction k generalizing s ts zs xs l with
  | zero =>
    cases ts with
    | nil => simp at h1
    | cons t ts =>
      simp only [List.getElem?_cons_zero, Option.some.injEq] at h1
      subst h1
      rw [List.map_cons] at e
      unfold FKF1.simLoop at e
      obtain ⟨⟨s1, x1⟩, e1, e⟩ := bind_ok e
      obtain ⟨⟨s2, xs'⟩, e2, e⟩ := bind_ok e
      cases e
      obtain ⟨s0, s1', mu, v, x', p1, p2, p3, -⟩ := simStep_some h (.fin t) (zs 0)
      rw [p2] at e1
      cases e1
      rw [List.getElem?_cons_zero, p3, predict_same_nan hA he hw ht hy p1, fl_add_nan]
  | succ k ih =>
    cases ts with
    | nil => simp at h1
    | cons t ts =>
      rw [List.getElem?_cons_succ] at h1
      have hp := List.pairwise_cons.mp hts
      have e' := e
      rw [List.map_cons] at e
      unfold FKF1.simLoop at e
      obtain ⟨⟨s1, x1⟩, e1, e⟩ := bind_ok e
      obtain ⟨⟨s2, xs'⟩, e2, e⟩ := bind_ok e
      cases e
      obtain ⟨s0, s1', mu, v, x', p1, p2, p3, w1, t1, -, r1, -, o1⟩ := simStep_some h (.fin t) (zs 0)
      rw [p2] at e1
      cases e1
      have hxm : x ∈ ts := List.mem_of_getElem? h1
      rcases (hp.1 x hxm).lt_or_eq with htx | htx
      · rw [List.getElem?_cons_succ]
        obtain ⟨i1, i2⟩ := scan_insert_lt htx l
        rw [← hl] at i1 i2
        rw [← t1] at i1
        refine ih hp.2 w1 (o1.trans hw) e2 h1 (l := l.insertIdx (FKF1.scan (.fin t) (l.map .fin)) t) ?_ ?_ ?_
        · rw [t1, hl, List.map_insertIdx]
        · rw [i1, t1, List.getElem?_insertIdx_of_gt (by omega)]
          exact ht
        · rw [i1, r1, List.getElem?_insertIdx_of_gt (by omega)]
          exact hy
      · subst htx
        have hn : xs'.length = ts.length := by
          obtain ⟨_, _, f, lf, -⟩ := simLoop_some ((t :: ts).map Dbl.fin) h zs
          rw [e'] at f
          cases f
          simpa using lf
        refine simLoop_spread h e' (k := 0) ?_ (by omega) (by
          have := (List.getElem?_eq_some_iff.mp h1).1
          simp [hn, this])
        rw [List.getElem?_cons_zero, p3, predict_same_nan hA he hw ht hy p1, fl_add_nan]

end Verif.Theory
