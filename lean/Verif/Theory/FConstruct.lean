import Verif.Theory.FExact
import Verif.Theory.Init

/-!
Construction of the CAR(1) object in exact machine arithmetic, for any data: unsorted times, repeated times, vectors of different lengths.
-/

namespace Verif.Theory

open Verif.Model
open scoped Classical

theorem rd_exact (l : List ℝ) (i : ℕ) : rd (l.map Dbl.fin) i = (rd l i).map Dbl.fin := by
  unfold rd
  rw [List.getElem?_map]
  cases l[i]? <;> rfl

theorem gather_exact (l : List ℝ) (idx : List ℕ) : gather (l.map Dbl.fin) idx = (gather l idx).map (List.map Dbl.fin) := by
  unfold gather
  induction idx with
  | nil => rfl
  | cons i idx ih =>
    rw [List.mapM_cons, List.mapM_cons, rd_exact, ih]
    cases rd l i with
    | error e => rfl
    | ok x => cases List.mapM (rd l) idx <;> rfl

/-- the filter with all its numbers as machine numbers; the parameters are not set yet -/
noncomputable def liftK (k : KFBase) : FKF1 :=
  { mean := k.mean.map .fin, var := k.var.map .fin, time := k.time.map .fin, dt := k.dt.map .fin, y := k.y.map .fin, yerr := k.yerr.map .fin,
    sigsqr := .nan, omega := .nan, cur := 0, yconst := .nan, yslope := .nan }

theorem some_neg (l : List ℝ) : (∃ d ∈ l.map Dbl.fin, d.lt (.fin 0)) ↔ ∃ d ∈ l, d < 0 := by
  simp [Dbl.lt]

theorem some_zero (l : List ℝ) : ((∀ d ∈ l.map Dbl.fin, ¬ d.lt (.fin 0)) ∧ ∃ d ∈ l.map Dbl.fin, d = .fin 0) ↔ (∀ d ∈ l, 0 ≤ d) ∧ ∃ d ∈ l, d = 0 := by
  simp [Dbl.lt]

theorem uniqueIdx_exact (l : List ℝ) : 0 :: ((List.range (l.map Dbl.fin).length).filter (fun i => (l.map Dbl.fin).getD i (.fin 0) ≠ .fin 0)).map (1 + ·) = uniqueIdx l := by
  unfold uniqueIdx
  rw [List.length_map]
  congr 2
  refine List.filter_congr fun i hi => ?_
  rw [show (l.map Dbl.fin).getD i (.fin 0) = .fin (l.getD i 0) from List.getD_map ..]
  simp

theorem initSort_exact {srt : List ℝ → List ℕ} {srt' : List Dbl → List ℕ} {k : KFBase} (hs : srt' (k.time.map .fin) = srt k.time) :
    FKF1.initSort Arith.exact srt' (liftK k) = (initSort srt k).map liftK := by
  unfold FKF1.initSort initSort
  rw [show (liftK k).time = k.time.map .fin from rfl, show (liftK k).y = k.y.map .fin from rfl, show (liftK k).yerr = k.yerr.map .fin from rfl,
    diffs_exact]
  cases diffs k.time with
  | error e => rfl
  | ok ds =>
    simp only [Except.map, res_bind_ok, some_neg, hs, gather_exact]
    split
    · cases gather k.time (srt k.time) with
      | error e => rfl
      | ok t =>
        cases gather k.y (srt k.time) with
        | error e => rfl
        | ok y =>
          cases gather k.yerr (srt k.time) with
          | error e => rfl
          | ok e =>
            simp only [res_bind_ok, diffs_exact]
            cases diffs t <;> rfl
    · rfl

theorem initDedup_exact (k : KFBase) : FKF1.initDedup Arith.exact (liftK k) = (initDedup k).map liftK := by
  unfold FKF1.initDedup initDedup
  rw [show (liftK k).time = k.time.map .fin from rfl, show (liftK k).y = k.y.map .fin from rfl, show (liftK k).yerr = k.yerr.map .fin from rfl,
    show (liftK k).dt = k.dt.map .fin from rfl]
  simp only [some_zero, uniqueIdx_exact, gather_exact]
  split
  · cases gather k.time (uniqueIdx k.dt) with
    | error e => rfl
    | ok t =>
      cases gather k.y (uniqueIdx k.dt) with
      | error e => rfl
      | ok y =>
        cases gather k.yerr (uniqueIdx k.dt) with
        | error e => rfl
        | ok e =>
          simp only [Except.map, res_bind_ok, diffs_exact]
          cases diffs t with
          | error e => rfl
          | ok d => simp [Except.map, liftK, res_pure, res_bind_ok]
  · simp [Except.map, liftK, res_pure, res_bind_ok]

theorem new_exact {srt : List ℝ → List ℕ} {srt' : List Dbl → List ℕ} {ts : List ℝ} (hs : srt' (ts.map .fin) = srt ts) (ys es : List ℝ) :
    FCar1.new Arith.exact srt' (ts.map .fin) (ys.map .fin) (es.map .fin) (.fin (10 * √(armaVar ys))) = (Car1.new srt ts ys es).map fun s =>
      { time := s.b.time.map .fin, y := s.b.y.map .fin, yerr := s.b.yerr.map .fin, maxStdev := .fin s.b.maxStdev, maxFreq := s.b.maxFreq,
        minFreq := s.b.minFreq, kf := liftK s.kf.b } := by
  have hk : FKF1.newData Arith.exact srt' (ts.map .fin) (ys.map .fin) (es.map .fin) = ((KFBase.raw ts ys es 0).init srt).map liftK := by
    rw [FKF1.newData, KFBase.init]
    refine (congrArg (· >>= FKF1.initDedup Arith.exact) (initSort_exact (k := KFBase.raw ts ys es 0) (srt := srt) (srt' := srt') hs)).trans ?_
    cases initSort srt (KFBase.raw ts ys es 0) with
    | error e => rfl
    | ok k => exact initDedup_exact k
  unfold FCar1.new Car1.new CarBase.new CarBase.setPrior KF1.newData KF1.new
  rw [hk, diffs_exact]
  cases diffs ts with
  | error e => rfl
  | ok ds =>
    simp only [Except.map, res_bind_ok, vecMin_exact, vecMax_exact]
    cases armaMin ds with
    | error e => rfl
    | ok dmin =>
      simp only [Except.map, res_bind_ok]
      cases armaMax ts with
      | error e => rfl
      | ok tmax =>
        simp only [res_bind_ok]
        cases armaMin ts with
        | error e => rfl
        | ok tmin =>
          simp only [res_bind_ok, res_pure]
          cases (KFBase.raw ts ys es 0).init srt with
          | error e => rfl
          | ok k => simp only [res_bind_ok, exf_sub, ex_div]

theorem crel_new_any {ts ys es : List ℝ} (hn : 2 ≤ ts.length) (hy : ys.length = ts.length) (he : es.length = ts.length) (hd : ts.Nodup)
    {srt : List ℝ → List ℕ} (hsrt : IsSortIndex srt) {srt' : List Dbl → List ℕ} (hs : srt' (ts.map .fin) = srt ts) :
    ∃ s f, Car1.new srt ts ys es = .ok s ∧
      FCar1.new Arith.exact srt' (ts.map .fin) (ys.map .fin) (es.map .fin) (.fin (10 * √(armaVar ys))) = .ok f ∧ CRel ts.length s f := by
  have inj : ∀ i < ts.length, ∀ j < ts.length, ts.getD i 0 = ts.getD j 0 → i = j := by
    intro i hi j hj h
    rw [List.getD_eq_getElem _ _ hi, List.getD_eq_getElem _ _ hj] at h
    exact (List.Nodup.getElem_inj_iff hd).mp h
  obtain ⟨J, J1, J2, -, -, J5, J6⟩ := init_spec hsrt hn (fun i => ts.getD i 0) (fun i => ys.getD i 0) (fun i => es.getD i 0) 0
    ⟨0, by omega, 1, by omega, fun h => absurd (inj 0 (by omega) 1 (by omega) h) (by norm_num)⟩
  have hJ : J.length = ts.length := by
    have hp : J.Perm (List.range ts.length) := by
      refine (List.perm_ext_iff_of_nodup J2 List.nodup_range).mpr fun a => ⟨fun h => by simpa using J1 a h, fun h => ?_⟩
      have ha : a < ts.length := by simpa using h
      obtain ⟨b, hb, e⟩ := List.mem_map.mp (J5 a ha)
      rwa [inj b (J1 b hb) a ha e] at hb
    rw [hp.length_eq, List.length_range]
  have e1 := (eq_rangeMap_getD ts).symm
  have e2 := (eq_rangeMap_getD ys).symm
  have e3 := (eq_rangeMap_getD es).symm
  rw [hy] at e2
  rw [he] at e3
  rw [e1, e2, e3] at J6
  obtain ⟨ds, hds⟩ : ∃ ds, diffs ts = .ok ds := ⟨_, by rw [diffs, if_neg (by omega)]⟩
  have lds : ds.length = ts.length - 1 := by
    rw [diffs, if_neg (by omega)] at hds; injection hds with hds; rw [← hds]; simp
  have dne : ds ≠ [] := by intro h; rw [h] at lds; simp at lds; omega
  have tne : ts ≠ [] := by intro h; rw [h] at hn; simp at hn
  obtain ⟨dmin, hdm⟩ : ∃ x, armaMin ds = .ok x := by cases ds with | nil => exact absurd rfl dne | cons a l => exact ⟨_, rfl⟩
  obtain ⟨tmax, htx⟩ : ∃ x, armaMax ts = .ok x := by cases ts with | nil => exact absurd rfl tne | cons a l => exact ⟨_, rfl⟩
  obtain ⟨tmin, htn⟩ : ∃ x, armaMin ts = .ok x := by cases ts with | nil => exact absurd rfl tne | cons a l => exact ⟨_, rfl⟩
  have hnew : ∃ s, Car1.new srt ts ys es = .ok s ∧ s.b.time = ts ∧ s.b.y = ys ∧ s.b.yerr = es ∧
      s.kf.b.time.length = ts.length ∧ ts.length ≤ s.kf.b.dt.length + 1 ∧ s.kf.b.mean.length = ts.length ∧ s.kf.b.var.length = ts.length := by
    simp only [Car1.new, CarBase.new, CarBase.setPrior, hds, res_bind_ok, hdm, htx, htn, KF1.newData, KF1.new, J6]
    refine ⟨_, rfl, rfl, rfl, rfl, ?_, ?_, ?_, ?_⟩
    · show (J.map _).length = _
      rw [List.length_map, hJ]
    · show _ ≤ (List.map _ (List.range (J.length - 1))).length + 1
      rw [List.length_map, List.length_range]; omega
    · show (List.replicate J.length (0 : ℝ)).length = _
      rw [List.length_replicate, hJ]
    · show (List.replicate J.length (0 : ℝ)).length = _
      rw [List.length_replicate, hJ]
  obtain ⟨s, es', h1, h2, h3, h4, h5, h6, h7⟩ := hnew
  refine ⟨s, _, es', (new_exact hs ys es).trans (by rw [es']; rfl), ?_⟩
  exact ⟨rfl, by rw [h1], rfl, by rw [h2, hy], rfl, by rw [h3, he], rfl, rfl, rfl, h4, by simpa [liftK] using h4, rfl, h5, h6, h7,
    by simpa [liftK] using h6, by simpa [liftK] using h7⟩

lemma sortIndex_exists : ∃ srt, IsSortIndex srt := by
  refine ⟨fun l => (List.range l.length).mergeSort fun i j => decide (l.getD i 0 ≤ l.getD j 0), fun l =>
    ⟨List.mergeSort_perm _ _, ?_⟩⟩
  rw [List.pairwise_map]
  have := List.pairwise_mergeSort (le := fun i j => decide (l.getD i 0 ≤ l.getD j 0))
    (fun a b c h1 h2 => by simp at *; exact le_trans h1 h2) (fun a b => by simp; exact le_total _ _) (List.range l.length)
  exact this.imp fun h => by simpa using h

end Verif.Theory
