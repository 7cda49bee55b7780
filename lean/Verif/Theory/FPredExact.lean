import Verif.Theory.FExact
import Verif.Model.FPredict

/-!
With exact arithmetic the floating-point model of `KalmanFilter1::Predict` agrees with the model in real numbers whenever the
latter returns.
-/

namespace Verif.Theory

open Verif.Model Verif.Spec
open scoped Classical

/-- an object in real numbers as an object in machine numbers -/
def liftF (s : KF1) : FKF1 :=
  { mean := s.b.mean.map .fin, var := s.b.var.map .fin, time := s.b.time.map .fin, dt := s.b.dt.map .fin, y := s.b.y.map .fin,
    yerr := s.b.yerr.map .fin, sigsqr := .fin s.b.sigsqr, omega := .fin s.omega, cur := s.b.cur, yconst := .fin s.b.yconst,
    yslope := .fin s.b.yslope }

theorem rd_lift {l : List ℝ} {i : ℕ} {x : ℝ} (h : rd l i = .ok x) : rd (l.map Dbl.fin) i = .ok (.fin x) := by
  unfold rd at h ⊢
  rw [List.getElem?_map]
  cases e : l[i]? with
  | none => rw [e] at h; cases h
  | some y => rw [e] at h; cases h; rfl

theorem rdU_lift {l : List ℝ} {i : ℕ} {x : ℝ} (h : rdU l i = .ok x) : rdU (l.map Dbl.fin) i = .ok (.fin x) := by
  unfold rdU at h ⊢
  rw [List.getElem?_map]
  cases e : l[i]? with
  | none => rw [e] at h; cases h
  | some y => rw [e] at h; cases h; rfl

theorem wr_lift {l l' : List ℝ} {i : ℕ} {x : ℝ} (h : wr l i x = .ok l') : wr (l.map Dbl.fin) i (.fin x) = .ok (l'.map .fin) := by
  unfold wr at h ⊢
  rw [List.length_map]
  by_cases hi : i < l.length
  · rw [if_pos hi] at h ⊢; cases h; rw [List.map_set]
  · rw [if_neg hi] at h; cases h

theorem wrU_lift {l l' : List ℝ} {i : ℕ} {x : ℝ} (h : wrU l i x = .ok l') : wrU (l.map Dbl.fin) i (.fin x) = .ok (l'.map .fin) := by
  unfold wrU at h ⊢
  rw [List.length_map]
  by_cases hi : i < l.length
  · rw [if_pos hi] at h ⊢; cases h; rw [List.map_set]
  · rw [if_neg hi] at h; cases h

theorem dv_lift {a b c : ℝ} (h : dv a b = .ok c) : Arith.exact.div (.fin a) (.fin b) = .fin c := by
  unfold dv at h
  by_cases hb : b = 0
  · rw [if_pos hb] at h; cases h
  · rw [if_neg hb] at h; cases h; exact exf_div a hb

theorem reset_lift {s s' : KF1} (h : s.reset = .ok s') (a b : Dbl) :
    FKF1.reset Arith.exact { liftF s with yconst := a, yslope := b } = .ok (liftF s') := by
  unfold KF1.reset at h
  obtain ⟨mean, h1, h⟩ := bind_ok h
  obtain ⟨q, h2, h⟩ := bind_ok h
  obtain ⟨e0, h3, h⟩ := bind_ok h
  obtain ⟨var, h4, h⟩ := bind_ok h
  cases h
  simp only [FKF1.reset, liftF, wr_lift h1, rd_lift h3, res_bind_ok, exf_mul, dv_lift h2, exf_add, wr_lift h4]
  rfl

theorem update_lift {s s' : KF1} (h : s.update = .ok s') : FKF1.update Arith.exact (liftF s) = .ok (liftF s') := by
  unfold KF1.update at h
  obtain ⟨c1, h1, h⟩ := bind_ok h
  obtain ⟨dt, h2, h⟩ := bind_ok h
  obtain ⟨vp, h3, h⟩ := bind_ok h
  obtain ⟨ep, h4, h⟩ := bind_ok h
  obtain ⟨r, h5, h⟩ := bind_ok h
  obtain ⟨mp, h6, h⟩ := bind_ok h
  obtain ⟨yp, h7, h⟩ := bind_ok h
  obtain ⟨mean, h8, h⟩ := bind_ok h
  obtain ⟨q, h9, h⟩ := bind_ok h
  obtain ⟨var, h10, h⟩ := bind_ok h
  obtain ⟨ec, h11, h⟩ := bind_ok h
  obtain ⟨vc, h12, h⟩ := bind_ok h
  obtain ⟨var', h13, h⟩ := bind_ok h
  cases h
  simp only [FKF1.update, liftF, h1, rd_lift h2, rd_lift h3, rd_lift h4, rd_lift h6, rd_lift h7, rd_lift h11, rd_lift h12, res_bind_ok, exf_mul,
    exf_sub, exf_add, exf_exp, dv_lift h5, dv_lift h9, wr_lift h8, wr_lift h10, wr_lift h13]
  rfl

theorem iter_lift {s s' : KF1} {k : ℕ} (h : iter KF1.update k s = .ok s') : iter (FKF1.update Arith.exact) k (liftF s) = .ok (liftF s') := by
  induction k generalizing s' with
  | zero => cases h; rfl
  | succ k ih =>
    obtain ⟨s2, h2, h⟩ := bind_ok h
    rw [iter, ih h2, res_bind_ok, update_lift h]

theorem neg_fin (a : ℝ) : (Dbl.fin a).neg = .fin (-a) := rfl
theorem abs_fin (a : ℝ) : (Dbl.fin a).abs = .fin |a| := rfl

theorem initCoefs_lift {s s' : KF1} {x : ℝ} {i : ℕ} (h : s.initCoefs x i = .ok s') :
    FKF1.initCoefs Arith.exact (liftF s) (.fin x) i = .ok (liftF s') := by
  unfold KF1.initCoefs at h
  obtain ⟨ti, h1, h⟩ := bind_ok h
  obtain ⟨q, h2, h⟩ := bind_ok h
  obtain ⟨ei, h3, h⟩ := bind_ok h
  obtain ⟨var, h4, h⟩ := bind_ok h
  cases h
  simp only [FKF1.initCoefs, liftF, rd_lift h1, rd_lift h3, res_bind_ok, exf_mul, exf_sub, exf_add, abs_fin, neg_fin, exf_exp, dv_lift h2, wrU_lift h4]
  rfl

theorem updateCoefs_lift {s s' : KF1} (h : s.updateCoefs = .ok s') : FKF1.updateCoefs Arith.exact (liftF s) = .ok (liftF s') := by
  unfold KF1.updateCoefs at h
  obtain ⟨c1, h1, h⟩ := bind_ok h
  obtain ⟨dt, h2, h⟩ := bind_ok h
  obtain ⟨vp, h3, h⟩ := bind_ok h
  obtain ⟨ep, h4, h⟩ := bind_ok h
  obtain ⟨r, h5, h⟩ := bind_ok h
  obtain ⟨yp, h6, h⟩ := bind_ok h
  obtain ⟨q, h7, h⟩ := bind_ok h
  obtain ⟨ec, h8, h⟩ := bind_ok h
  obtain ⟨var, h9, h⟩ := bind_ok h
  cases h
  simp only [FKF1.updateCoefs, liftF, h1, rd_lift h2, rd_lift h3, rd_lift h4, rdU_lift h6, rd_lift h8, res_bind_ok, exf_mul,
    exf_sub, exf_add, exf_exp, dv_lift h5, dv_lift h7, wr_lift h9]
  rfl

theorem past_lift {s : KF1} {x m v : ℝ} {i : ℕ} (h : s.predictPast x i = .ok (m, v)) :
    FKF1.predictPast Arith.exact (liftF s) (.fin x) i = .ok (.fin m, .fin v) := by
  unfold KF1.predictPast at h
  obtain ⟨q, h1, h⟩ := bind_ok h
  by_cases hi : i = 0
  · rw [if_pos hi] at h
    cases h
    simp only [FKF1.predictPast, liftF, if_pos hi, exf_mul, dv_lift h1]
    rfl
  · rw [if_neg hi] at h
    obtain ⟨tp, h2, h⟩ := bind_ok h
    obtain ⟨vp, h3, h⟩ := bind_ok h
    obtain ⟨ep, h4, h⟩ := bind_ok h
    obtain ⟨r, h5, h⟩ := bind_ok h
    obtain ⟨mp, h6, h⟩ := bind_ok h
    obtain ⟨yp, h7, h⟩ := bind_ok h
    cases h
    simp only [FKF1.predictPast, liftF, if_neg hi, rdU_lift h2, rd_lift h3, rd_lift h4, rd_lift h6, rd_lift h7, res_bind_ok, exf_mul, exf_sub,
      exf_add, neg_fin, exf_exp, dv_lift h1, dv_lift h5]
    rfl

theorem accum_lift {s : KF1} {i : ℕ} {a b : ℝ × ℝ} (h : s.accum i a = .ok b) :
    FKF1.accum Arith.exact (liftF s) i (.fin a.1, .fin a.2) = .ok (.fin b.1, .fin b.2) := by
  unfold KF1.accum at h
  obtain ⟨vi, h1, h⟩ := bind_ok h
  obtain ⟨yi, h2, h⟩ := bind_ok h
  obtain ⟨p, h3, h⟩ := bind_ok h
  obtain ⟨c, h4, h⟩ := bind_ok h
  cases h
  simp only [FKF1.accum, liftF, rd_lift h1, rd_lift h2, res_bind_ok, exf_mul, exf_sub, exf_add, dv_lift h3, dv_lift h4]
  rfl

theorem coefLoop_lift {k i : ℕ} {s s' : KF1} {a b : ℝ × ℝ} (h : KF1.coefLoop k i s a = .ok (s', b)) :
    FKF1.coefLoop Arith.exact k i (liftF s) (.fin a.1, .fin a.2) = .ok (liftF s', (.fin b.1, .fin b.2)) := by
  induction k generalizing i s a with
  | zero => cases h; rfl
  | succ k ih =>
    obtain ⟨s1, h1, h⟩ := bind_ok h
    obtain ⟨a1, h2, h⟩ := bind_ok h
    rw [FKF1.coefLoop, updateCoefs_lift h1, res_bind_ok, accum_lift h2, res_bind_ok, ih h]

theorem find_lift {l : List ℝ} {x : ℝ} {i : ℕ} (h : findIdx l x = .ok i) : FKF1.find (l.map .fin) (.fin x) = .ok i := by
  have hs : ∀ l : List ℝ, FKF1.scan (.fin x) (l.map .fin) = scanLt x l := by
    intro l
    induction l with
    | nil => rfl
    | cons a l ih =>
      simp only [List.map_cons, FKF1.scan, scanLt, ih]
      rfl
  unfold findIdx at h
  unfold FKF1.find
  rw [hs]
  by_cases hl : l = []
  · rw [if_pos hl] at h; cases h
  · rw [if_neg hl] at h; rw [if_neg (by simpa using hl)]; exact h

theorem predict_lift {s s' : KF1} {x m v : ℝ} (h : s.predict x = .ok (s', (m, v))) (a b : Dbl) :
    FKF1.predict Arith.exact { liftF s with yconst := a, yslope := b } (.fin x) = .ok (liftF s', (.fin m, .fin v)) := by
  unfold KF1.predict at h
  obtain ⟨ip, h1, h⟩ := bind_ok h
  obtain ⟨s1, h2, h⟩ := bind_ok h
  obtain ⟨s2, h3, h⟩ := bind_ok h
  obtain ⟨⟨m0, v0⟩, h4, h⟩ := bind_ok h
  dsimp only at h
  have e1 : FKF1.find ({ liftF s with yconst := a, yslope := b } : FKF1).time (.fin x) = .ok ip := find_lift h1
  rw [FKF1.predict, e1, res_bind_ok, reset_lift h2, res_bind_ok, iter_lift h3, res_bind_ok, past_lift h4, res_bind_ok]
  dsimp only
  have el : (liftF s2).time.length = s2.b.time.length := List.length_map ..
  by_cases hi : ip = s2.b.time.length
  · rw [if_pos hi] at h
    rw [if_pos (by rw [el]; exact hi)]
    cases h; rfl
  · rw [if_neg hi] at h
    rw [if_neg (by rw [el]; exact hi)]
    obtain ⟨p, h5, h⟩ := bind_ok h
    obtain ⟨s3, h6, h⟩ := bind_ok h
    obtain ⟨acc, h7, h⟩ := bind_ok h
    obtain ⟨⟨s4, acc'⟩, h8, h⟩ := bind_ok h
    dsimp only at h
    obtain ⟨pv, h9, h⟩ := bind_ok h
    cases h
    have el3 : (liftF s3).time.length = s3.b.time.length := List.length_map ..
    have a7 := accum_lift h7
    dsimp only at a7
    rw [dv_lift h5, initCoefs_lift h6, res_bind_ok, exf_mul, a7, res_bind_ok, el3, coefLoop_lift h8, res_bind_ok]
    dsimp only
    rw [dv_lift h9, exf_mul]
    rfl

/-! ### construction -/

theorem gather_lift {l l' : List ℝ} {idx : List ℕ} (h : gather l idx = .ok l') : gather (l.map Dbl.fin) idx = .ok (l'.map .fin) := by
  unfold gather at h ⊢
  induction idx generalizing l' with
  | nil => cases h; rfl
  | cons i idx ih =>
    rw [List.mapM_cons] at h ⊢
    obtain ⟨x, h1, h⟩ := bind_ok h
    obtain ⟨xs, h2, h⟩ := bind_ok h
    cases h
    rw [rd_lift h1, res_bind_ok, ih h2, res_bind_ok]
    rfl

theorem diffs_lift {l l' : List ℝ} (h : diffs l = .ok l') : FKF1.diffs Arith.exact (l.map Dbl.fin) = .ok (l'.map .fin) := by
  unfold diffs at h
  unfold FKF1.diffs
  rw [List.length_map]
  by_cases hl : l.length < 2
  · rw [if_pos hl] at h; cases h
  · rw [if_neg hl] at h ⊢
    cases h
    congr 1
    rw [← List.map_tail, List.zipWith_map, List.map_zipWith]
    simp only [exf_sub]

/-- the object under construction, in machine numbers -/
def liftB (b : KFBase) (m v : List Dbl) : FKF1 :=
  { mean := m, var := v, time := b.time.map .fin, dt := b.dt.map .fin, y := b.y.map .fin, yerr := b.yerr.map .fin, sigsqr := .nan, omega := .nan,
    cur := b.cur, yconst := .nan, yslope := .nan }

theorem initSort_lift {srt : List ℝ → List ℕ} {fsrt : List Dbl → List ℕ} (hs : ∀ l : List ℝ, fsrt (l.map .fin) = srt l) {b b' : KFBase} (m v : List Dbl)
    (h : initSort srt b = .ok b') : FKF1.initSort Arith.exact fsrt (liftB b m v) = .ok (liftB b' m v) := by
  unfold initSort at h
  obtain ⟨dt, h1, h⟩ := bind_ok h
  have hi : (∃ d ∈ dt.map Dbl.fin, d.lt (.fin 0)) ↔ ∃ d ∈ dt, d < 0 := by
    constructor
    · rintro ⟨d, hd, hl⟩
      obtain ⟨x, hx, rfl⟩ := List.mem_map.mp hd
      exact ⟨x, hx, hl⟩
    · rintro ⟨x, hx, hl⟩
      exact ⟨.fin x, List.mem_map_of_mem hx, hl⟩
  simp only [FKF1.initSort, liftB, diffs_lift h1, res_bind_ok]
  by_cases hc : ∃ d ∈ dt, d < 0
  · rw [if_pos hc] at h
    rw [if_pos (hi.mpr hc)]
    obtain ⟨t, h2, h⟩ := bind_ok h
    obtain ⟨y, h3, h⟩ := bind_ok h
    obtain ⟨e, h4, h⟩ := bind_ok h
    obtain ⟨dt', h5, h⟩ := bind_ok h
    cases h
    rw [hs, gather_lift h2, res_bind_ok, gather_lift h3, res_bind_ok, gather_lift h4, res_bind_ok, diffs_lift h5, res_bind_ok]
    rfl
  · rw [if_neg hc] at h
    rw [if_neg (fun h => hc (hi.mp h))]
    cases h
    rfl

theorem initDedup_lift {b b' : KFBase} (m v : List Dbl) (h : initDedup b = .ok b') :
    FKF1.initDedup Arith.exact (liftB b m v) = .ok (liftB b' (b'.mean.map .fin) (b'.var.map .fin)) := by
  unfold initDedup at h
  obtain ⟨b1, h1, h⟩ := bind_ok h
  cases h
  have hi : ((∀ d ∈ b.dt.map Dbl.fin, ¬ d.lt (.fin 0)) ∧ ∃ d ∈ b.dt.map Dbl.fin, d = .fin 0) ↔ ((∀ d ∈ b.dt, 0 ≤ d) ∧ ∃ d ∈ b.dt, d = 0) := by
    constructor
    · rintro ⟨h1, d, hd, rfl⟩
      obtain ⟨x, hx, e⟩ := List.mem_map.mp hd
      cases e
      exact ⟨fun d hd => not_lt.mp (h1 (.fin d) (List.mem_map_of_mem hd)), 0, hx, rfl⟩
    · rintro ⟨h1, d, hd, rfl⟩
      refine ⟨fun d hd => ?_, .fin 0, List.mem_map_of_mem hd, rfl⟩
      obtain ⟨x, hx, rfl⟩ := List.mem_map.mp hd
      exact not_lt.mpr (h1 x hx)
  have hidx : (0 :: ((List.range (liftB b m v).dt.length).filter (fun i => (liftB b m v).dt.getD i (.fin 0) ≠ .fin 0)).map (1 + ·)) = uniqueIdx b.dt := by
    unfold uniqueIdx
    show (0 :: ((List.range (b.dt.map Dbl.fin).length).filter (fun i => (b.dt.map Dbl.fin).getD i (.fin 0) ≠ .fin 0)).map (1 + ·)) = _
    rw [List.length_map]
    congr 2
    refine List.filter_congr fun i hi => ?_
    have hl : i < b.dt.length := List.mem_range.mp hi
    rw [List.getD_eq_getElem _ _ (by simpa using hl), List.getD_eq_getElem _ _ hl, List.getElem_map]
    simp
  unfold FKF1.initDedup
  by_cases hc : (∀ d ∈ b.dt, 0 ≤ d) ∧ ∃ d ∈ b.dt, d = 0
  · rw [if_pos hc] at h1
    rw [if_pos (show (∀ d ∈ (liftB b m v).dt, ¬ d.lt (.fin 0)) ∧ ∃ d ∈ (liftB b m v).dt, d = .fin 0 from hi.mpr hc)]
    rw [hidx]
    simp only [liftB]
    obtain ⟨t, h2, h1⟩ := bind_ok h1
    obtain ⟨y, h3, h1⟩ := bind_ok h1
    obtain ⟨e, h4, h1⟩ := bind_ok h1
    obtain ⟨dt', h5, h1⟩ := bind_ok h1
    cases h1
    rw [gather_lift h2, res_bind_ok, gather_lift h3, res_bind_ok, gather_lift h4, res_bind_ok, diffs_lift h5, res_bind_ok]
    simp [res_pure, res_bind_ok]
  · rw [if_neg hc] at h1
    rw [if_neg (show ¬ ((∀ d ∈ (liftB b m v).dt, ¬ d.lt (.fin 0)) ∧ ∃ d ∈ (liftB b m v).dt, d = .fin 0) from fun h => hc (hi.mp h))]
    cases h1
    simp [liftB, res_pure, res_bind_ok]

theorem new_lift {srt : List ℝ → List ℕ} {fsrt : List Dbl → List ℕ} (hs : ∀ l : List ℝ, fsrt (l.map .fin) = srt l) {ts ys es : List ℝ} {q w : ℝ} {s : KF1}
    (h : KF1.new srt ts ys es q w = .ok s) : FKF1.new Arith.exact fsrt (ts.map .fin) (ys.map .fin) (es.map .fin) (.fin q) (.fin w) =
      .ok { liftF s with yconst := .nan, yslope := .nan } := by
  unfold KF1.new at h
  obtain ⟨b, h1, h⟩ := bind_ok h
  cases h
  obtain ⟨b1, h2, h3⟩ := bind_ok h1
  have e2 := initSort_lift hs [] [] h2
  have e3 := initDedup_lift [] [] h3
  have e1 : FKF1.newData Arith.exact fsrt (ts.map .fin) (ys.map .fin) (es.map .fin) = .ok (liftB b (b.mean.map .fin) (b.var.map .fin)) := by
    unfold FKF1.newData
    rw [← e3, ← res_bind_ok (a := liftB b1 [] []) (f := FKF1.initDedup Arith.exact), ← e2]
    rfl
  have hq : b.sigsqr = q := by
    have g1 : b1.sigsqr = q := by
      unfold initSort at h2
      obtain ⟨_, -, h2⟩ := bind_ok h2
      split at h2
      · obtain ⟨_, -, h2⟩ := bind_ok h2
        obtain ⟨_, -, h2⟩ := bind_ok h2
        obtain ⟨_, -, h2⟩ := bind_ok h2
        obtain ⟨_, -, h2⟩ := bind_ok h2
        cases h2; rfl
      · cases h2; rfl
    unfold initDedup at h3
    obtain ⟨b2, h4, h3⟩ := bind_ok h3
    cases h3
    split at h4
    · obtain ⟨_, -, h4⟩ := bind_ok h4
      obtain ⟨_, -, h4⟩ := bind_ok h4
      obtain ⟨_, -, h4⟩ := bind_ok h4
      obtain ⟨_, -, h4⟩ := bind_ok h4
      cases h4; exact g1
    · cases h4; exact g1
  unfold FKF1.new
  rw [e1, res_bind_ok]
  simp only [liftB, liftF, hq]
  rfl

end Verif.Theory
