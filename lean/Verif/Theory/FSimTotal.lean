import Verif.Theory.FPredSame
import Verif.Spec.FSimulate

/-!
`Predict` and `Simulate` of a CAR(1) filter return for any numbers, and leave the data of the object as they were.
-/

namespace Verif.Theory

open Verif.Model Verif.Spec
open scoped Classical

variable {A : Arith}

theorem rd_ex {α : Type} {l : List α} {i : ℕ} (h : i < l.length) : ∃ x, rd l i = .ok x := ⟨l[i], by simp [rd, h]⟩
theorem rdU_ex {α : Type} {l : List α} {i : ℕ} (h : i < l.length) : ∃ x, rdU l i = .ok x := ⟨l[i], by simp [rdU, h]⟩
theorem wr_in {α : Type} {l : List α} {i : ℕ} (x : α) (h : i < l.length) : wr l i x = .ok (l.set i x) := if_pos h
theorem wrU_in {α : Type} {l : List α} {i : ℕ} (x : α) (h : i < l.length) : wrU l i x = .ok (l.set i x) := if_pos h

theorem Whole.same {s s' : FKF1} (h : Whole A s) (k : KSame s s') : Whole A s' :=
  ⟨by rw [k.time]; exact h.two, by rw [k.time, k.dt]; exact h.dt, by rw [k.y, k.time]; exact h.y, by rw [k.yerr, k.time]; exact h.yerr,
    by rw [k.lmean, k.time]; exact h.mean, by rw [k.lvar, k.time]; exact h.var⟩

theorem diffs_length {t d : List Dbl} (h : FKF1.diffs A t = .ok d) : d.length = t.length - 1 := by
  unfold FKF1.diffs at h
  split at h
  · cases h
  · cases h; simp

theorem Whole.ldt {s : FKF1} (h : Whole A s) : s.dt.length = s.time.length - 1 := diffs_length h.dt

theorem reset_some {s : FKF1} (h : Whole A s) : ∃ s', FKF1.reset A s = .ok s' ∧ s'.cur = 1 := by
  have h2 := h.two
  obtain ⟨e, he⟩ := rd_ex (l := s.yerr) (i := 0) (by rw [h.yerr]; omega)
  unfold FKF1.reset
  rw [wr_in _ (by rw [h.mean]; omega), res_bind_ok]
  dsimp only
  rw [he, res_bind_ok, wr_in _ (by rw [h.var]; omega), res_bind_ok]
  exact ⟨_, rfl, rfl⟩

theorem prevIdx_some {c : ℕ} (h : 0 < c) : prevIdx c = .ok (c - 1) := by
  unfold prevIdx
  rw [if_neg (by omega)]

theorem update_some {s : FKF1} (h : Whole A s) (h0 : 0 < s.cur) (hc : s.cur < s.time.length) :
    ∃ s', FKF1.update A s = .ok s' ∧ s'.cur = s.cur + 1 := by
  have h2 := h.two
  have hd := Whole.ldt h
  obtain ⟨d, e1⟩ := rd_ex (l := s.dt) (i := s.cur - 1) (by omega)
  obtain ⟨v, e2⟩ := rd_ex (l := s.var) (i := s.cur - 1) (by rw [h.var]; omega)
  obtain ⟨e, e3⟩ := rd_ex (l := s.yerr) (i := s.cur - 1) (by rw [h.yerr]; omega)
  obtain ⟨m, e4⟩ := rd_ex (l := s.mean) (i := s.cur - 1) (by rw [h.mean]; omega)
  obtain ⟨y, e5⟩ := rd_ex (l := s.y) (i := s.cur - 1) (by rw [h.y]; omega)
  obtain ⟨ec, e6⟩ := rd_ex (l := s.yerr) (i := s.cur) (by rw [h.yerr]; omega)
  unfold FKF1.update
  dsimp only
  rw [prevIdx_some h0, res_bind_ok, e1, res_bind_ok, e2, res_bind_ok, e3, res_bind_ok, e4, res_bind_ok, e5, res_bind_ok,
    wr_in _ (by rw [h.mean]; omega), res_bind_ok, wr_in _ (by rw [h.var]; omega), res_bind_ok, e6, res_bind_ok]
  obtain ⟨vc, e7⟩ := rd_ex (l := s.var.set s.cur (A.add (A.mul (A.div s.sigsqr (A.mul (.fin 2) s.omega)) (A.sub (.fin 1)
    (A.mul (A.exp (A.mul (A.mul (.fin (-1)) s.omega) d)) (A.exp (A.mul (A.mul (.fin (-1)) s.omega) d)))))
      (A.mul (A.mul (A.mul (A.exp (A.mul (A.mul (.fin (-1)) s.omega) d)) (A.exp (A.mul (A.mul (.fin (-1)) s.omega) d))) (A.sub v (A.mul e e)))
        (A.sub (.fin 1) (A.div (A.sub v (A.mul e e)) v))))) (i := s.cur) (by rw [List.length_set, h.var]; omega)
  rw [e7, res_bind_ok, wr_in _ (by rw [List.length_set, h.var]; omega), res_bind_ok]
  exact ⟨_, rfl, rfl⟩

theorem iter_some {s : FKF1} (h : Whole A s) {c : ℕ} (h0 : 0 < c) (hc : s.cur = c) (k : ℕ) (hk : c + k ≤ s.time.length) :
    ∃ s', iter (FKF1.update A) k s = .ok s' ∧ s'.cur = c + k := by
  induction k with
  | zero => exact ⟨s, rfl, hc⟩
  | succ k ih =>
    obtain ⟨s1, e1, c1⟩ := ih (by omega)
    have k1 := iter_ksame e1
    obtain ⟨s2, e2, c2⟩ := update_some (Whole.same h k1) (by omega) (by rw [c1, k1.time]; omega)
    exact ⟨s2, by rw [iter, e1, res_bind_ok, e2], by omega⟩

theorem scan_le (t : Dbl) (l : List Dbl) : FKF1.scan t l ≤ l.length := by
  induction l with
  | nil => exact le_refl _
  | cons a l ih =>
    unfold FKF1.scan
    split
    · simpa using ih
    · omega

theorem find_some {s : FKF1} (h : Whole A s) (t : Dbl) : FKF1.find s.time t = .ok (FKF1.scan t s.time) := by
  have h2 := h.two
  unfold FKF1.find
  rw [if_neg (by intro e; rw [e] at h2; simp at h2)]

theorem past_some {s : FKF1} (h : Whole A s) (x : Dbl) {ip : ℕ} (hi : ip ≤ s.time.length) : ∃ r, FKF1.predictPast A s x ip = .ok r := by
  unfold FKF1.predictPast
  dsimp only
  by_cases h0 : ip = 0
  · rw [if_pos h0]; exact ⟨_, rfl⟩
  · rw [if_neg h0]
    obtain ⟨_, e1⟩ := rdU_ex (l := s.time) (i := ip - 1) (by omega)
    obtain ⟨_, e2⟩ := rd_ex (l := s.var) (i := ip - 1) (by rw [h.var]; omega)
    obtain ⟨_, e3⟩ := rd_ex (l := s.yerr) (i := ip - 1) (by rw [h.yerr]; omega)
    obtain ⟨_, e4⟩ := rd_ex (l := s.mean) (i := ip - 1) (by rw [h.mean]; omega)
    obtain ⟨_, e5⟩ := rd_ex (l := s.y) (i := ip - 1) (by rw [h.y]; omega)
    rw [e1, res_bind_ok, e2, res_bind_ok, e3, res_bind_ok, e4, res_bind_ok, e5, res_bind_ok]
    exact ⟨_, rfl⟩

theorem initCoefs_some {s : FKF1} (h : Whole A s) (x : Dbl) {ip : ℕ} (hi : ip < s.time.length) :
    ∃ s', FKF1.initCoefs A s x ip = .ok s' ∧ s'.cur = ip + 1 := by
  obtain ⟨_, e1⟩ := rd_ex (l := s.time) (i := ip) (by omega)
  obtain ⟨_, e2⟩ := rd_ex (l := s.yerr) (i := ip) (by rw [h.yerr]; omega)
  unfold FKF1.initCoefs
  rw [e1, res_bind_ok]
  dsimp only
  rw [e2, res_bind_ok, wrU_in _ (by rw [h.var]; omega), res_bind_ok]
  exact ⟨_, rfl, rfl⟩

theorem updateCoefs_some {s : FKF1} (h : Whole A s) (h0 : 0 < s.cur) (hc : s.cur < s.time.length) :
    ∃ s', FKF1.updateCoefs A s = .ok s' ∧ s'.cur = s.cur + 1 := by
  have hd := Whole.ldt h
  obtain ⟨_, e1⟩ := rd_ex (l := s.dt) (i := s.cur - 1) (by omega)
  obtain ⟨_, e2⟩ := rd_ex (l := s.var) (i := s.cur - 1) (by rw [h.var]; omega)
  obtain ⟨_, e3⟩ := rd_ex (l := s.yerr) (i := s.cur - 1) (by rw [h.yerr]; omega)
  obtain ⟨_, e5⟩ := rdU_ex (l := s.y) (i := s.cur - 1) (by rw [h.y]; omega)
  obtain ⟨_, e6⟩ := rd_ex (l := s.yerr) (i := s.cur) (by rw [h.yerr]; omega)
  unfold FKF1.updateCoefs
  dsimp only
  rw [prevIdx_some h0, res_bind_ok, e1, res_bind_ok, e2, res_bind_ok, e3, res_bind_ok, e5, res_bind_ok, e6, res_bind_ok,
    wr_in _ (by rw [h.var]; omega), res_bind_ok]
  exact ⟨_, rfl, rfl⟩

theorem accum_some {s : FKF1} (h : Whole A s) {i : ℕ} (hi : i < s.time.length) (acc : Dbl × Dbl) : ∃ r, FKF1.accum A s i acc = .ok r := by
  obtain ⟨_, e1⟩ := rd_ex (l := s.var) (i := i) (by rw [h.var]; omega)
  obtain ⟨_, e2⟩ := rd_ex (l := s.y) (i := i) (by rw [h.y]; omega)
  unfold FKF1.accum
  rw [e1, res_bind_ok, e2, res_bind_ok]
  exact ⟨_, rfl⟩

theorem coefLoop_some (k : ℕ) {i : ℕ} {s : FKF1} (h : Whole A s) (h0 : 0 < i) (hc : s.cur = i) (hk : i + k ≤ s.time.length) (acc : Dbl × Dbl) :
    ∃ r, FKF1.coefLoop A k i s acc = .ok r := by
  induction k generalizing i s acc with
  | zero => exact ⟨_, rfl⟩
  | succ k ih =>
    obtain ⟨s1, e1, c1⟩ := updateCoefs_some h (by omega) (by omega)
    have k1 := updateCoefs_ksame e1
    have w1 := Whole.same h k1
    obtain ⟨a1, e2⟩ := accum_some w1 (i := i) (by rw [k1.time]; omega) acc
    obtain ⟨r, e3⟩ := ih w1 (i := i + 1) (by omega) (by omega) (by rw [k1.time]; omega) a1
    exact ⟨r, by rw [FKF1.coefLoop, e1, res_bind_ok, e2, res_bind_ok, e3]⟩

theorem predict_some {s : FKF1} (h : Whole A s) (x : Dbl) : ∃ s' r, FKF1.predict A s x = .ok (s', r) := by
  have h2 := h.two
  have hle := scan_le x s.time
  obtain ⟨s1, e1, c1⟩ := reset_some h
  have k1 := reset_ksame e1
  obtain ⟨s2, e2, c2⟩ := iter_some (Whole.same h k1) one_pos c1 (FKF1.scan x s.time - 1) (by rw [k1.time]; omega)
  have k2 := k1.trans (iter_ksame e2)
  have w2 := Whole.same h k2
  obtain ⟨⟨m, v⟩, e3⟩ := past_some w2 x (ip := FKF1.scan x s.time) (by rw [k2.time]; exact hle)
  unfold FKF1.predict
  rw [find_some h, res_bind_ok, e1, res_bind_ok, e2, res_bind_ok, e3, res_bind_ok]
  dsimp only
  by_cases hi : FKF1.scan x s.time = s2.time.length
  · rw [if_pos hi]; exact ⟨_, _, rfl⟩
  · rw [if_neg hi]
    have hlt : FKF1.scan x s.time < s2.time.length := by rw [k2.time] at hi ⊢; omega
    obtain ⟨s3, e4, c4⟩ := initCoefs_some w2 x hlt
    have k3 := initCoefs_ksame e4
    have w3 := Whole.same w2 k3
    obtain ⟨acc, e5⟩ := accum_some w3 (i := FKF1.scan x s.time) (by rw [k3.time]; exact hlt) (A.div (.fin 1) v, A.mul m (A.div (.fin 1) v))
    obtain ⟨⟨s4, acc'⟩, e6⟩ := coefLoop_some (s3.time.length - (FKF1.scan x s.time + 1)) w3 (i := FKF1.scan x s.time + 1) (by omega) c4
      (by rw [k3.time]; omega) acc
    rw [e4, res_bind_ok, e5, res_bind_ok, e6, res_bind_ok]
    exact ⟨_, _, rfl⟩

theorem filter_some {s : FKF1} (h : Whole A s) : ∃ s', FKF1.filter A s = .ok s' := by
  have h2 := h.two
  obtain ⟨s1, e1, c1⟩ := reset_some h
  have k1 := reset_ksame e1
  obtain ⟨s2, e2, -⟩ := iter_some (Whole.same h k1) one_pos c1 (s1.time.length - 1) (by rw [k1.time]; omega)
  exact ⟨s2, by rw [FKF1.filter, e1, res_bind_ok, e2]⟩

/-! ### one simulated value -/

/-- what the object looks like after one value has been simulated -/
theorem simStep_some {s : FKF1} (h : Whole A s) (t z : Dbl) :
    ∃ s1 s' mu v x, FKF1.predict A s t = .ok (s1, (mu, v)) ∧ FKF1.simStep A s t z = .ok (s', x) ∧ x = A.add (A.mul z (A.sqrt v)) mu ∧ Whole A s' ∧
      s'.time = s.time.insertIdx (FKF1.scan t s.time) t ∧ s'.y = s.y.insertIdx (FKF1.scan t s.time) x ∧
      s'.yerr = s.yerr.insertIdx (FKF1.scan t s.time) (.fin 0) ∧ s'.sigsqr = s.sigsqr ∧ s'.omega = s.omega := by
  have h2 := h.two
  have hle := scan_le t s.time
  obtain ⟨s1, ⟨mu, v⟩, e1⟩ := predict_some h t
  have k1 := predict_ksame e1
  have w1 := Whole.same h k1
  have hd : FKF1.diffs A (s.time.insertIdx (FKF1.scan t s.time) t) = .ok (List.zipWith (fun b a => A.sub b a)
      (s.time.insertIdx (FKF1.scan t s.time) t).tail (s.time.insertIdx (FKF1.scan t s.time) t)) := by
    unfold FKF1.diffs
    rw [if_neg (by rw [List.length_insertIdx_of_le_length hle]; omega)]
  have e2 : FKF1.simStep A s t z = .ok ({ s1 with
      time := s.time.insertIdx (FKF1.scan t s.time) t
      dt := List.zipWith (fun b a => A.sub b a) (s.time.insertIdx (FKF1.scan t s.time) t).tail (s.time.insertIdx (FKF1.scan t s.time) t)
      y := s.y.insertIdx (FKF1.scan t s.time) (A.add (A.mul z (A.sqrt v)) mu)
      yerr := s.yerr.insertIdx (FKF1.scan t s.time) (.fin 0)
      mean := List.replicate (s.time.insertIdx (FKF1.scan t s.time) t).length (.fin 0)
      var := List.replicate (s.time.insertIdx (FKF1.scan t s.time) t).length (.fin 0) }, A.add (A.mul z (A.sqrt v)) mu) := by
    unfold FKF1.simStep insertRow FKF1.drawNormal
    rw [e1, res_bind_ok]
    dsimp only
    rw [find_some w1, res_bind_ok, k1.time, if_pos hle, res_bind_ok, hd, res_bind_ok, k1.y, if_pos (by rw [h.y]; exact hle), res_bind_ok,
      k1.yerr, if_pos (by rw [h.yerr]; exact hle), res_bind_ok]
    rfl
  refine ⟨s1, _, mu, v, _, e1, e2, rfl, ⟨?_, hd, ?_, ?_, ?_, ?_⟩, rfl, rfl, rfl, k1.sigsqr, k1.omega⟩
  · show 2 ≤ (s.time.insertIdx _ t).length
    rw [List.length_insertIdx_of_le_length hle]; omega
  · show (s.y.insertIdx _ _).length = (s.time.insertIdx _ t).length
    rw [List.length_insertIdx_of_le_length hle, List.length_insertIdx_of_le_length (by rw [h.y]; exact hle), h.y]
  · show (s.yerr.insertIdx _ _).length = (s.time.insertIdx _ t).length
    rw [List.length_insertIdx_of_le_length hle, List.length_insertIdx_of_le_length (by rw [h.yerr]; exact hle), h.yerr]
  · simp
  · simp

theorem simLoop_some (ts : List Dbl) {s : FKF1} (h : Whole A s) (zs : ℕ → Dbl) :
    ∃ s' xs, FKF1.simLoop A s ts zs = .ok (s', xs) ∧ xs.length = ts.length ∧ s'.sigsqr = s.sigsqr ∧ s'.omega = s.omega := by
  induction ts generalizing s zs with
  | nil => exact ⟨s, [], rfl, rfl, rfl, rfl⟩
  | cons t ts ih =>
    obtain ⟨-, s1, -, -, x, -, e1, -, w1, -, -, -, q1, o1⟩ := simStep_some h t (zs 0)
    obtain ⟨s2, xs, e2, l2, q2, o2⟩ := ih w1 (fun k => zs (k + 1))
    refine ⟨s2, x :: xs, ?_, by simp [l2], q2.trans q1, o2.trans o1⟩
    rw [FKF1.simLoop, e1, res_bind_ok]
    dsimp only
    rw [e2, res_bind_ok]
    rfl

theorem simulate_some {s : FKF1} (h : Whole A s) {times : List Dbl} (hn : Dbl.nan ∉ times) (zs : ℕ → Dbl) :
    ∃ s' xs s1, FKF1.simulate A s times zs = .ok (s', xs) ∧ xs.length = times.length ∧ KSame s s' ∧
      FKF1.simLoop A s (times.mergeSort fun a b => decide ¬ b.lt a) zs = .ok (s1, xs) := by
  obtain ⟨s1, xs, e1, l1, q1, o1⟩ := simLoop_some (times.mergeSort fun a b => decide ¬ b.lt a) h zs
  have e : FKF1.simulate A s times zs = .ok ({ s1 with
      time := s.time, dt := s.dt, y := s.y, yerr := s.yerr
      mean := List.replicate s.time.length (.fin 0), var := List.replicate s.time.length (.fin 0) }, xs) := by
    unfold FKF1.simulate FKF1.sortTimes
    rw [if_neg hn, res_bind_ok, e1, res_bind_ok]
    dsimp only
    rw [h.dt, res_bind_ok]
    rfl
  exact ⟨_, xs, s1, e, by rw [l1, List.length_mergeSort], ⟨rfl, rfl, rfl, rfl, q1, o1, by simp [h.mean], by simp [h.var]⟩, e1⟩

end Verif.Theory
