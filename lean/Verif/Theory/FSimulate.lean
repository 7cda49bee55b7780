import Verif.Theory.FSimNan
import Verif.Theory.FPredExact

/-!
`Simulate` of a CAR(1) filter with machine numbers: independence of earlier calls, spread of NaN, exact arithmetic.
-/

namespace Verif.Theory

open Verif.Model Verif.Spec
open scoped Classical

variable {A : Arith}

/-! ### earlier calls -/

theorem simStep_pre {s k s' : FKF1} {t z x : Dbl} (h : KSame s k) (e : FKF1.simStep A s t z = .ok (s', x)) :
    ∃ k', FKF1.simStep A k t z = .ok (k', x) ∧ KSame s' k' := by
  unfold FKF1.simStep at e
  obtain ⟨⟨s1, ⟨mu, v⟩⟩, e1, e⟩ := bind_ok e
  obtain ⟨k1, f1⟩ := predict_pre h e1
  have q1 := predict_ksame e1
  have q2 := predict_ksame f1
  have t1 : k1.time = s1.time := by rw [q2.time, q1.time, h.time]
  have y1 : k1.y = s1.y := by rw [q2.y, q1.y, h.y]
  have r1 : k1.yerr = s1.yerr := by rw [q2.yerr, q1.yerr, h.yerr]
  obtain ⟨idx, e2, e⟩ := bind_ok e
  obtain ⟨time, e3, e⟩ := bind_ok e
  obtain ⟨dt, e4, e⟩ := bind_ok e
  obtain ⟨y, e5, e⟩ := bind_ok e
  obtain ⟨yerr, e6, e⟩ := bind_ok e
  cases e
  unfold FKF1.simStep
  rw [f1, res_bind_ok]
  dsimp only at *
  rw [t1, e2, res_bind_ok, e3, res_bind_ok, e4, res_bind_ok, y1, e5, res_bind_ok, r1, e6, res_bind_ok]
  exact ⟨_, rfl, ⟨rfl, rfl, rfl, rfl, by rw [q2.sigsqr, q1.sigsqr, h.sigsqr], by rw [q2.omega, q1.omega, h.omega], rfl, rfl⟩⟩

theorem simLoop_pre {ts : List Dbl} {s k s' : FKF1} {zs : ℕ → Dbl} {xs : List Dbl} (h : KSame s k) (e : FKF1.simLoop A s ts zs = .ok (s', xs)) :
    ∃ k', FKF1.simLoop A k ts zs = .ok (k', xs) ∧ KSame s' k' := by
  induction ts generalizing s k zs xs with
  | nil => cases e; exact ⟨k, rfl, h⟩
  | cons t ts ih =>
    unfold FKF1.simLoop at e
    obtain ⟨⟨s1, x⟩, e1, e⟩ := bind_ok e
    obtain ⟨⟨s2, xs'⟩, e2, e⟩ := bind_ok e
    cases e
    obtain ⟨k1, f1, h1⟩ := simStep_pre h e1
    obtain ⟨k2, f2, h2⟩ := ih h1 e2
    refine ⟨k2, ?_, h2⟩
    rw [FKF1.simLoop, f1, res_bind_ok]
    dsimp only
    rw [f2, res_bind_ok]
    rfl

theorem simulate_pre {s k s' : FKF1} {times : List Dbl} {zs : ℕ → Dbl} {xs : List Dbl} (h : KSame s k)
    (e : FKF1.simulate A s times zs = .ok (s', xs)) : ∃ k', FKF1.simulate A k times zs = .ok (k', xs) := by
  unfold FKF1.simulate at e
  obtain ⟨l, e1, e⟩ := bind_ok e
  obtain ⟨⟨s1, xs'⟩, e2, e⟩ := bind_ok e
  obtain ⟨dt, e3, e⟩ := bind_ok e
  cases e
  obtain ⟨k1, f2, -⟩ := simLoop_pre h e2
  unfold FKF1.simulate
  rw [e1, res_bind_ok, f2, res_bind_ok]
  dsimp only
  rw [h.time, e3, res_bind_ok]
  exact ⟨_, rfl⟩

theorem simulate_ksame {s s' : FKF1} {times : List Dbl} {zs : ℕ → Dbl} {xs : List Dbl} (h : Whole A s)
    (e : FKF1.simulate A s times zs = .ok (s', xs)) : KSame s s' := by
  have hn : Dbl.nan ∉ times := by
    intro hn
    unfold FKF1.simulate FKF1.sortTimes at e
    rw [if_pos hn] at e
    cases e
  obtain ⟨s1, xs1, -, e1, -, k, -⟩ := simulate_some h hn zs
  rw [e] at e1
  cases e1
  exact k

theorem Used.ksame {s s' : FKF1} (hw : Whole A s) (h : Used A s s') : KSame s s' := by
  induction h with
  | none => exact KSame.refl s
  | filter _ h ih => exact ih.trans (filter_ksame h)
  | predict _ h ih => exact ih.trans (predict_ksame h)
  | simulate _ h ih => exact ih.trans (simulate_ksame (Whole.same hw ih) h)

/-- `Filter` gives the same numbers -/
theorem filter_pre {s k s' : FKF1} (h : KSame s k) (hw : Whole A s) (e : FKF1.filter A s = .ok s') :
    ∃ k', FKF1.filter A k = .ok k' ∧ k'.mean = s'.mean ∧ k'.var = s'.var := by
  have h2 := hw.two
  obtain ⟨s1, e1, e2⟩ := bind_ok e
  obtain ⟨k1, f1, h1⟩ := reset_pre h e1
  obtain ⟨k2, f2, h3⟩ := iter_pre h1 e2
  have q1 := reset_ksame e1
  have q2 := q1.trans (iter_ksame e2)
  have hl : 1 + (s1.time.length - 1) = s.time.length := by rw [q1.time]; omega
  refine ⟨k2, by rw [FKF1.filter, f1, res_bind_ok, h1.same.time, f2], ?_, ?_⟩
  · refine List.ext_getElem? fun i => ?_
    by_cases hi : i < s.time.length
    · exact h3.mean i (by omega)
    · rw [List.getElem?_eq_none (by rw [h3.same.lmean, q2.lmean, hw.mean]; omega), List.getElem?_eq_none (by rw [q2.lmean, hw.mean]; omega)]
  · refine List.ext_getElem? fun i => ?_
    by_cases hi : i < s.time.length
    · exact h3.var i (by omega)
    · rw [List.getElem?_eq_none (by rw [h3.same.lvar, q2.lvar, hw.var]; omega), List.getElem?_eq_none (by rw [q2.lvar, hw.var]; omega)]

/-! ### NaN -/

/-- with a NaN among the values all simulated values are NaN -/
theorem simLoop_all_nan {ts : List Dbl} {s s' : FKF1} {zs : ℕ → Dbl} {xs : List Dbl} (h : Whole A s) (hy : Dbl.nan ∈ s.y)
    (e : FKF1.simLoop A s ts zs = .ok (s', xs)) : ∀ x ∈ xs, x = .nan := by
  induction ts generalizing s zs xs with
  | nil => cases e; simp
  | cons t ts ih =>
    unfold FKF1.simLoop at e
    obtain ⟨⟨s1, x⟩, e1, e⟩ := bind_ok e
    obtain ⟨⟨s2, xs'⟩, e2, e⟩ := bind_ok e
    cases e
    obtain ⟨s0, s1', mu, v, x', p1, p2, p3, w1, -, y1, -, -, -⟩ := simStep_some h t (zs 0)
    rw [p2] at e1
    cases e1
    obtain ⟨j, hj, ej⟩ := List.getElem_of_mem hy
    have hmu := predict_nan_data (j := j) (by rw [List.getElem?_eq_getElem hj, ej]) (by rw [← h.y]; exact hj) p1
    have hx : x = .nan := by rw [p3, hmu, fl_add_nan]
    intro a ha
    rcases List.mem_cons.mp ha with rfl | ha
    · exact hx
    · refine ih w1 ?_ e2 a ha
      rw [y1, List.mem_insertIdx (by rw [h.y]; exact scan_le _ _)]
      exact .inr hy

theorem simLoop_spread {ts : List Dbl} {s s' : FKF1} {zs : ℕ → Dbl} {xs : List Dbl} (h : Whole A s)
    (e : FKF1.simLoop A s ts zs = .ok (s', xs)) {k l : ℕ} (hk : xs[k]? = some .nan) (hkl : k ≤ l) (hl : l < xs.length) : xs[l]? = some .nan := by
  induction ts generalizing s zs xs k l with
  | nil => cases e; simp at hl
  | cons t ts ih =>
    unfold FKF1.simLoop at e
    obtain ⟨⟨s1, x⟩, e1, e⟩ := bind_ok e
    obtain ⟨⟨s2, xs'⟩, e2, e⟩ := bind_ok e
    cases e
    obtain ⟨s0, s1', mu, v, x', p1, p2, p3, w1, -, y1, -, -, -⟩ := simStep_some h t (zs 0)
    rw [p2] at e1
    cases e1
    cases k with
    | zero =>
      simp only [List.getElem?_cons_zero, Option.some.injEq] at hk
      cases l with
      | zero => simp [hk]
      | succ l =>
        have hl' : l < xs'.length := by simpa using hl
        rw [List.getElem?_cons_succ, List.getElem?_eq_getElem hl']
        congr 1
        refine simLoop_all_nan w1 ?_ e2 _ (List.getElem_mem hl')
        rw [y1, List.mem_insertIdx (by rw [h.y]; exact scan_le _ _), hk]
        exact .inl rfl
    | succ k =>
      cases l with
      | zero => omega
      | succ l =>
        rw [List.getElem?_cons_succ] at hk ⊢
        exact ih w1 e2 hk (by omega) (by simpa using hl)

theorem scan_insert_self (x : ℝ) (l : List Dbl) :
    FKF1.scan (.fin x) (l.insertIdx (FKF1.scan (.fin x) l) (.fin x)) = FKF1.scan (.fin x) l := by
  induction l with
  | nil => simp [FKF1.scan, Dbl.gt, Dbl.lt]
  | cons a l ih =>
    by_cases h : (Dbl.fin x).gt a
    · have e : FKF1.scan (.fin x) (a :: l) = FKF1.scan (.fin x) l + 1 := by rw [FKF1.scan, if_pos h]
      rw [e, List.insertIdx_succ_cons, FKF1.scan, if_pos h, ih]
    · have e : FKF1.scan (.fin x) (a :: l) = 0 := by rw [FKF1.scan, if_neg h]
      rw [e, List.insertIdx_zero, FKF1.scan, if_neg (by simp [Dbl.gt, Dbl.lt])]

/-- the second of two equal times -/
theorem simLoop_dup (hA : IsBinary64 A) (he : A.exp (.fin 0) = .fin 1) {ts : List Dbl} {s s' : FKF1} {zs : ℕ → Dbl} {xs : List Dbl} {w : ℝ}
    (h : Whole A s) (hw : s.omega = .fin w) (e : FKF1.simLoop A s ts zs = .ok (s', xs)) {k : ℕ} {x : ℝ} (h1 : ts[k]? = some (.fin x))
    (h2 : ts[k + 1]? = some (.fin x)) : xs[k + 1]? = some .nan := by
  induction k generalizing s ts zs xs with
  | zero =>
    cases ts with
    | nil => simp at h1
    | cons t ts =>
      cases ts with
      | nil => simp at h2
      | cons t' ts =>
        simp only [List.getElem?_cons_zero, Option.some.injEq, zero_add, List.getElem?_cons_succ] at h1 h2
        subst h1; subst h2
        unfold FKF1.simLoop at e
        obtain ⟨⟨s1, x1⟩, e1, e⟩ := bind_ok e
        obtain ⟨⟨s2, xs'⟩, e2, e⟩ := bind_ok e
        cases e
        unfold FKF1.simLoop at e2
        obtain ⟨⟨s3, x2⟩, e3, e2⟩ := bind_ok e2
        obtain ⟨⟨s4, xs''⟩, e4, e2⟩ := bind_ok e2
        cases e2
        obtain ⟨s0, s1', mu, v, x', p1, p2, p3, w1, t1, y1, r1, -, o1⟩ := simStep_some h (.fin x) (zs 0)
        rw [p2] at e1
        cases e1
        obtain ⟨s0', s3', mu', v', x'', q1, q2, q3, -⟩ := simStep_some w1 (.fin x) (zs (0 + 1))
        rw [q2] at e3
        cases e3
        have hsc := scan_insert_self x s.time
        rw [← t1] at hsc
        have hm := predict_same_nan hA he (o1.trans hw) (by
          rw [hsc, t1, List.getElem?_insertIdx_self, if_pos (scan_le _ _)]) (by
          rw [hsc, r1, List.getElem?_insertIdx_self, if_pos (by rw [h.yerr]; exact scan_le _ _)]) q1
        simp only [zero_add, List.getElem?_cons_succ, List.getElem?_cons_zero]
        rw [q3, hm, fl_add_nan]
  | succ k ih =>
    cases ts with
    | nil => simp at h1
    | cons t ts =>
      unfold FKF1.simLoop at e
      obtain ⟨⟨s1, x1⟩, e1, e⟩ := bind_ok e
      obtain ⟨⟨s2, xs'⟩, e2, e⟩ := bind_ok e
      cases e
      obtain ⟨s0, s1', mu, v, x', p1, p2, p3, w1, -, -, -, -, o1⟩ := simStep_some h t (zs 0)
      rw [p2] at e1
      cases e1
      rw [List.getElem?_cons_succ] at h1 h2 ⊢
      exact ih w1 (o1.trans hw) e2 h1 h2

theorem scan_insert_next {x x' : ℝ} (hx : x < x') {l : List ℝ} (hno : ∀ a ∈ l, ¬ (x ≤ a ∧ a < x')) (hex : ∃ a ∈ l, x' ≤ a) :
    FKF1.scan (.fin x') ((l.map Dbl.fin).insertIdx (FKF1.scan (.fin x) (l.map .fin)) (.fin x)) = FKF1.scan (.fin x) (l.map .fin) + 1 ∧
      FKF1.scan (.fin x) (l.map .fin) < l.length := by
  induction l with
  | nil => obtain ⟨a, ha, -⟩ := hex; simp at ha
  | cons a l ih =>
    rw [List.map_cons]
    by_cases h : a < x
    · have e : FKF1.scan (.fin x) (Dbl.fin a :: l.map .fin) = FKF1.scan (.fin x) (l.map .fin) + 1 := by rw [FKF1.scan, if_pos (show (Dbl.fin x).gt (.fin a) from h)]
      obtain ⟨i1, i2⟩ := ih (fun b hb => hno b (List.mem_cons_of_mem _ hb)) (by
        obtain ⟨b, hb, hb'⟩ := hex
        rcases List.mem_cons.mp hb with rfl | hb
        · linarith
        · exact ⟨b, hb, hb'⟩)
      rw [e, List.insertIdx_succ_cons, FKF1.scan, if_pos (show (Dbl.fin x').gt (.fin a) from lt_trans h hx), i1]
      exact ⟨rfl, by simpa using i2⟩
    · have e : FKF1.scan (.fin x) (Dbl.fin a :: l.map .fin) = 0 := by rw [FKF1.scan, if_neg (show ¬ (Dbl.fin x).gt (.fin a) from h)]
      have ha : ¬ a < x' := fun hc => hno a List.mem_cons_self ⟨not_lt.mp h, hc⟩
      rw [e, List.insertIdx_zero, FKF1.scan, if_pos (show (Dbl.fin x').gt (.fin x) from hx), FKF1.scan, if_neg (show ¬ (Dbl.fin x').gt (.fin a) from ha)]
      exact ⟨rfl, by simp⟩

/-- the later of two times between which the decay factor is rounded to 1, before the last observation -/
theorem simLoop_near (hA : IsBinary64 A) (he : A.exp (.fin 0) = .fin 1) {ts : List ℝ} (hts : ts.Pairwise (· ≤ ·)) {s s' : FKF1} {zs : ℕ → Dbl} {xs : List Dbl}
    {w : ℝ} (h : Whole A s) (hw : s.omega = .fin w) (e : FKF1.simLoop A s (ts.map .fin) zs = .ok (s', xs)) {k : ℕ} {x x' : ℝ}
    (h1 : ts[k]? = some x) (h2 : ts[k + 1]? = some x') {l : List ℝ} (hl : s.time = l.map .fin) (hno : ∀ a ∈ l, ¬ (x ≤ a ∧ a < x'))
    (hex : ∃ a ∈ l, x' ≤ a) (hd : decayTo A w x x' = .fin 1) : xs[k + 1]? = some .nan := by
  rcases eq_or_ne x x' with hxx | hxx
  · subst hxx
    exact simLoop_dup hA he h hw e (by rw [List.getElem?_map, h1]; rfl) (by rw [List.getElem?_map, h2]; rfl)
  induction k generalizing s ts zs xs l with
  | zero =>
    cases ts with
    | nil => simp at h1
    | cons t ts =>
      cases ts with
      | nil => simp at h2
      | cons t' ts =>
        simp only [List.getElem?_cons_zero, Option.some.injEq, zero_add, List.getElem?_cons_succ] at h1 h2
        subst h1; subst h2
        have hlt : t < t' := lt_of_le_of_ne ((List.pairwise_cons.mp hts).1 t' (by simp)) hxx
        rw [List.map_cons, List.map_cons] at e
        unfold FKF1.simLoop at e
        obtain ⟨⟨s1, x1⟩, e1, e⟩ := bind_ok e
        obtain ⟨⟨s2, xs'⟩, e2, e⟩ := bind_ok e
        cases e
        unfold FKF1.simLoop at e2
        obtain ⟨⟨s3, x2⟩, e3, e2⟩ := bind_ok e2
        obtain ⟨⟨s4, xs''⟩, e4, e2⟩ := bind_ok e2
        cases e2
        obtain ⟨s0, s1', mu, v, x', p1, p2, p3, w1, t1, y1, r1, -, o1⟩ := simStep_some h (.fin t) (zs 0)
        rw [p2] at e1
        cases e1
        obtain ⟨s0', s3', mu', v', x'', q1, q2, q3, -⟩ := simStep_some w1 (.fin t') (zs (0 + 1))
        rw [q2] at e3
        cases e3
        obtain ⟨i1, i2⟩ := scan_insert_next hlt hno hex
        rw [← hl, ← t1] at i1
        have hle := scan_le (.fin t) s.time
        have hm := predict_near_nan hA (o1.trans hw) i1 (by
          rw [t1, List.length_insertIdx_of_le_length hle, hl, List.length_map]; rw [hl] at i1; omega) (by
          rw [t1, hl, List.getElem?_insertIdx_self, if_pos (scan_le _ _)]) (by
          rw [r1, hl, List.getElem?_insertIdx_self, if_pos (by rw [h.yerr, hl]; exact scan_le _ _)]) hd q1
        simp only [zero_add, List.getElem?_cons_succ, List.getElem?_cons_zero]
        rw [q3, hm, fl_add_nan]
  | succ k ih =>
    cases ts with
    | nil => simp at h1
    | cons t ts =>
      rw [List.getElem?_cons_succ] at h1 h2
      have hp := List.pairwise_cons.mp hts
      have e' := e
      rw [List.map_cons] at e
      unfold FKF1.simLoop at e
      obtain ⟨⟨s1, x1⟩, e1, e⟩ := bind_ok e
      obtain ⟨⟨s2, xs'⟩, e2, e⟩ := bind_ok e
      cases e
      obtain ⟨s0, s1', mu, v, x', p1, p2, p3, w1, t1, -, -, -, o1⟩ := simStep_some h (.fin t) (zs 0)
      rw [p2] at e1
      cases e1
      have hxm : x ∈ ts := List.mem_of_getElem? h1
      rcases (hp.1 x hxm).lt_or_eq with htx | htx
      · rw [List.getElem?_cons_succ]
        have hsl : FKF1.scan (.fin t) (l.map .fin) ≤ l.length := by
          have := scan_le (.fin t) (l.map Dbl.fin); rwa [List.length_map] at this
        refine ih hp.2 w1 (o1.trans hw) e2 h1 h2 (l := l.insertIdx (FKF1.scan (.fin t) (l.map .fin)) t) ?_ ?_ ?_
        · rw [t1, hl, List.map_insertIdx]
        · intro a ha
          rcases (List.mem_insertIdx hsl).mp ha with rfl | ha
          · intro hc; linarith [hc.1]
          · exact hno a ha
        · obtain ⟨a, ha, ha'⟩ := hex
          exact ⟨a, (List.mem_insertIdx hsl).mpr (.inr ha), ha'⟩
      · -- `t = x`: the time was asked for before
        subst htx
        cases ts with
        | nil => simp at h1
        | cons t2 ts =>
          have ht2 : t2 = t := by
            have a1 := hp.1 t2 (by simp)
            rcases List.mem_cons.mp hxm with hh | hh
            · exact hh.symm
            · exact le_antisymm ((List.pairwise_cons.mp hp.2).1 t hh) a1
          subst ht2
          have hn := simLoop_dup hA he h hw e' (k := 0) (x := t2) rfl rfl
          refine simLoop_spread h e' hn (by omega) ?_
          obtain ⟨_, _, f, lf, -⟩ := simLoop_some ((t2 :: t2 :: ts).map Dbl.fin) h zs
          rw [e'] at f
          cases f
          rw [lf, List.length_map]
          have := (List.getElem?_eq_some_iff.mp h2).1
          simpa using this

end Verif.Theory
