import Verif.Theory.FCar1
import Mathlib.Data.List.GetD

/-!
Construction of a CAR(1) object from data of moderate size, and its log-density, in binary64 arithmetic.
-/

namespace Verif.Theory

open Verif.Model Verif.Spec
open scoped Classical

variable {A : Arith}

/-! ### what the filter leaves alone -/

structure FSame (s s' : FKF1) : Prop where
  time : s'.time = s.time
  dt : s'.dt = s.dt
  lmean : s'.mean.length = s.mean.length
  lvar : s'.var.length = s.var.length

theorem FSame.trans {s s' s'' : FKF1} (h : FSame s s') (h' : FSame s' s'') : FSame s s'' :=
  ⟨h'.time.trans h.time, h'.dt.trans h.dt, h'.lmean.trans h.lmean, h'.lvar.trans h.lvar⟩

theorem bind_ok {α β : Type} {x : Res α} {f : α → Res β} {b : β} (h : x >>= f = .ok b) : ∃ a, x = .ok a ∧ f a = .ok b := by
  cases x with
  | error e => exact absurd h (by intro h; cases h)
  | ok a => exact ⟨a, rfl, h⟩

theorem wr_len {α : Type} {l l' : List α} {i : ℕ} {x : α} (h : wr l i x = .ok l') : l'.length = l.length := by
  unfold wr at h
  split at h
  · cases h; simp
  · cases h

theorem reset_same {s s' : FKF1} (h : FKF1.reset A s = .ok s') : FSame s s' := by
  unfold FKF1.reset at h
  obtain ⟨mean, h1, h⟩ := bind_ok h
  obtain ⟨e0, -, h⟩ := bind_ok h
  obtain ⟨var, h2, h⟩ := bind_ok h
  cases h
  exact ⟨rfl, rfl, wr_len h1, wr_len h2⟩

theorem update_same {s s' : FKF1} (h : FKF1.update A s = .ok s') : FSame s s' := by
  unfold FKF1.update at h
  obtain ⟨_, -, h⟩ := bind_ok h
  obtain ⟨_, -, h⟩ := bind_ok h
  obtain ⟨_, -, h⟩ := bind_ok h
  obtain ⟨_, -, h⟩ := bind_ok h
  obtain ⟨_, -, h⟩ := bind_ok h
  obtain ⟨_, -, h⟩ := bind_ok h
  obtain ⟨mean, h1, h⟩ := bind_ok h
  obtain ⟨var, h2, h⟩ := bind_ok h
  obtain ⟨_, -, h⟩ := bind_ok h
  obtain ⟨_, -, h⟩ := bind_ok h
  obtain ⟨var', h3, h⟩ := bind_ok h
  cases h
  exact ⟨rfl, rfl, wr_len h1, (wr_len h3).trans (wr_len h2)⟩

theorem iter_same {s s' : FKF1} {k : ℕ} (h : iter (FKF1.update A) k s = .ok s') : FSame s s' := by
  induction k generalizing s' with
  | zero => cases h; exact ⟨rfl, rfl, rfl, rfl⟩
  | succ k ih =>
    obtain ⟨s2, h2, h⟩ := bind_ok h
    exact (ih h2).trans (update_same h)

theorem filter_same {s s' : FKF1} (h : FKF1.filter A s = .ok s') : FSame s s' := by
  unfold FKF1.filter at h
  obtain ⟨s1, h1, h⟩ := bind_ok h
  exact (reset_same h1).trans (iter_same h)

/-! ### objects -/

/-- `theta` is within the prior bounds of the object. -/
def InBounds (A : Arith) (s : FCar1) (θ : List ℝ) : Prop :=
  ∃ w lo hi M, A.exp (.fin (θ.getD 3 0)) = .fin w ∧ s.minFreq = .fin lo ∧ s.maxFreq = .fin hi ∧ s.maxStdev = .fin M ∧
    lo ≤ w ∧ w ≤ hi ∧ 0 ≤ θ.getD 0 0 ∧ θ.getD 0 0 ≤ M ∧ 1 / 2 ≤ θ.getD 1 0 ∧ θ.getD 1 0 ≤ 2

/-- an object built from the data, after any number of calls -/
structure FObj (A : Arith) (ts ys es : List ℝ) (M : ℝ) (s : FCar1) : Prop where
  time : s.time = ts.map .fin
  y : s.y = ys.map .fin
  yerr : s.yerr = es.map .fin
  stdev : s.maxStdev = .fin M
  lo : ∃ x, s.minFreq = .fin x ∧ 2 ^ (-300 : ℤ) ≤ x
  hi : ∃ x, s.maxFreq = .fin x ∧ x ≤ 2 ^ (300 : ℤ)
  loV : s.minFreq = A.div (.fin 1) (A.sub (.fin (ts.getD (ts.length - 1) 0)) (.fin (ts.getD 0 0)))
  hiV : ∃ i, i + 1 < ts.length ∧ s.maxFreq = A.div (.fin 1) (A.sub (.fin (ts.getD (i + 1) 0)) (.fin (ts.getD i 0)))
  hiM : ∀ i, i + 1 < ts.length → ¬ s.maxFreq.lt (A.div (.fin 1) (A.sub (.fin (ts.getD (i + 1) 0)) (.fin (ts.getD i 0))))
  ktime : s.kf.time = ts.map .fin
  kdt : ts.length ≤ s.kf.dt.length + 1
  kdts : ∀ d ∈ s.kf.dt, ∃ x, 0 ≤ x ∧ d = .fin x
  kgap : ∀ i, i + 1 < ts.length → s.kf.dt.getD i .nan = A.sub (.fin (ts.getD (i + 1) 0)) (.fin (ts.getD i 0))
  kmean : s.kf.mean.length = ts.length
  kvar : s.kf.var.length = ts.length

theorem FObj.call {ts ys es : List ℝ} {M : ℝ} {s s' : FCar1} {θ : List Dbl} {v : Dbl} (h : FObj A ts ys es M s)
    (hc : FCar1.logDensity A s θ = .ok (s', v)) : FObj A ts ys es M s' := by
  unfold FCar1.logDensity at hc
  obtain ⟨ok, -, hc⟩ := bind_ok hc
  split at hc
  · cases hc; exact h
  · obtain ⟨_, -, hc⟩ := bind_ok hc
    obtain ⟨_, -, hc⟩ := bind_ok hc
    obtain ⟨_, -, hc⟩ := bind_ok hc
    obtain ⟨_, -, hc⟩ := bind_ok hc
    obtain ⟨kf, hk, hc⟩ := bind_ok hc
    obtain ⟨_, -, hc⟩ := bind_ok hc
    obtain ⟨_, -, hc⟩ := bind_ok hc
    cases hc
    have hs := filter_same hk
    exact ⟨h.time, h.y, h.yerr, h.stdev, h.lo, h.hi, h.loV, h.hiV, h.hiM, hs.time.trans h.ktime, by rw [hs.dt]; exact h.kdt, by rw [hs.dt]; exact h.kdts, by rw [hs.dt]; exact h.kgap,
      hs.lmean.trans h.kmean, hs.lvar.trans h.kvar⟩

theorem FObj.called {ts ys es : List ℝ} {M : ℝ} {s s' : FCar1} (h : FObj A ts ys es M s) (hc : Called A s s') :
    FObj A ts ys es M s' := by
  induction hc with
  | none => exact h
  | call _ hc ih => exact ih.call hc

/-! ### construction -/

theorem foldMin_fin (l : List ℝ) (a : ℝ) : ∃ x ∈ a :: l, (l.map Dbl.fin).foldl Dbl.min (.fin a) = .fin x ∧ ∀ y ∈ a :: l, x ≤ y := by
  induction l generalizing a with
  | nil => exact ⟨a, by simp, rfl, by simp⟩
  | cons b l ih =>
    simp only [List.map_cons, List.foldl_cons]
    by_cases h : b < a
    · rw [show Dbl.min (.fin a) (.fin b) = .fin b by simp [Dbl.min, Dbl.lt, h]]
      obtain ⟨x, hx, e, hm⟩ := ih b
      refine ⟨x, List.mem_cons_of_mem _ hx, e, fun y hy => ?_⟩
      rcases List.mem_cons.mp hy with rfl | hy
      · exact (hm b (by simp)).trans h.le
      · exact hm y hy
    · rw [show Dbl.min (.fin a) (.fin b) = .fin a by simp [Dbl.min, Dbl.lt, h]]
      obtain ⟨x, hx, e, hm⟩ := ih a
      refine ⟨x, ?_, e, fun y hy => ?_⟩
      · rcases List.mem_cons.mp hx with rfl | hx <;> simp [*]
      · rcases List.mem_cons.mp hy with rfl | hy
        · exact hm y (by simp)
        · rcases List.mem_cons.mp hy with rfl | hy
          · exact (hm a (by simp)).trans (not_lt.mp h)
          · exact hm y (by simp [hy])

theorem foldMax_fin (l : List ℝ) (a : ℝ) : ∃ x ∈ a :: l, (l.map Dbl.fin).foldl Dbl.max (.fin a) = .fin x ∧ ∀ y ∈ a :: l, y ≤ x := by
  induction l generalizing a with
  | nil => exact ⟨a, by simp, rfl, by simp⟩
  | cons b l ih =>
    simp only [List.map_cons, List.foldl_cons]
    by_cases h : a < b
    · rw [show Dbl.max (.fin a) (.fin b) = .fin b by simp [Dbl.max, Dbl.lt, h]]
      obtain ⟨x, hx, e, hm⟩ := ih b
      refine ⟨x, List.mem_cons_of_mem _ hx, e, fun y hy => ?_⟩
      rcases List.mem_cons.mp hy with rfl | hy
      · exact h.le.trans (hm b (by simp))
      · exact hm y hy
    · rw [show Dbl.max (.fin a) (.fin b) = .fin a by simp [Dbl.max, Dbl.lt, h]]
      obtain ⟨x, hx, e, hm⟩ := ih a
      refine ⟨x, ?_, e, fun y hy => ?_⟩
      · rcases List.mem_cons.mp hx with rfl | hx <;> simp [*]
      · rcases List.mem_cons.mp hy with rfl | hy
        · exact hm y (by simp)
        · rcases List.mem_cons.mp hy with rfl | hy
          · exact (not_lt.mp h).trans (hm a (by simp))
          · exact hm y (by simp [hy])

theorem vecMin_fin {l : List ℝ} (h : l ≠ []) : ∃ x ∈ l, FCar1.vecMin (l.map .fin) = .ok (.fin x) ∧ ∀ y ∈ l, x ≤ y := by
  cases l with
  | nil => exact absurd rfl h
  | cons a l =>
    obtain ⟨x, hx, e, hm⟩ := foldMin_fin l a
    exact ⟨x, hx, by simp only [FCar1.vecMin, List.map_cons, e], hm⟩

theorem vecMax_fin {l : List ℝ} (h : l ≠ []) : ∃ x ∈ l, FCar1.vecMax (l.map .fin) = .ok (.fin x) ∧ ∀ y ∈ l, y ≤ x := by
  cases l with
  | nil => exact absurd rfl h
  | cons a l =>
    obtain ⟨x, hx, e, hm⟩ := foldMax_fin l a
    exact ⟨x, hx, by simp only [FCar1.vecMax, List.map_cons, e], hm⟩

theorem f64_m300 : F64 (2 ^ (-300 : ℤ)) := f64_zpow _ (by norm_num) (by norm_num)
theorem f64_300 : F64 (2 ^ (300 : ℤ)) := f64_zpow _ (by norm_num) (by norm_num)

theorem diffs_num (hA : IsBinary64 A) {ts : List ℝ} (h : MildTimes ts) :
    ∃ ds : List ℝ, FKF1.diffs A (ts.map .fin) = .ok (ds.map .fin) ∧ ds.length + 1 = ts.length ∧
      (∀ d ∈ ds, 2 ^ (-300 : ℤ) ≤ d ∧ d ≤ 2 ^ (300 : ℤ)) ∧
      ∀ i, i + 1 < ts.length → (ds.map Dbl.fin).getD i .nan = A.sub (.fin (ts.getD (i + 1) 0)) (.fin (ts.getD i 0)) := by
  have h2 := h.two
  have key : ∀ i, i < ts.length - 1 → ∃ d, A.sub (.fin (ts.getD (i + 1) 0)) (.fin (ts.getD i 0)) = .fin d ∧
      2 ^ (-300 : ℤ) ≤ d ∧ d ≤ 2 ^ (300 : ℤ) := by
    intro i hi
    have g := h.gap i (by omega)
    have m1 : ts.getD i 0 ∈ ts := by rw [List.getD_eq_getElem _ _ (by omega)]; exact List.getElem_mem _
    have m2 : ts.getD (i + 1) 0 ∈ ts := by rw [List.getD_eq_getElem _ _ (by omega)]; exact List.getElem_mem _
    obtain ⟨d, ed, -, d1, d2⟩ := rnd_sub hA f64_m300 f64_300 (by linarith) (h.span _ m1 _ m2)
    exact ⟨d, ed, d1, d2⟩
  choose! f hf using key
  refine ⟨(List.range (ts.length - 1)).map f, ?_, by simp; omega, ?_, ?_⟩
  · rw [FKF1.diffs, if_neg (by simp; omega)]
    congr 1
    apply List.ext_getElem
    · simp
    · intro i h1 h2
      have hi : i < ts.length - 1 := by simpa using h2
      have := (hf i hi).1
      rw [List.getD_eq_getElem _ _ (by omega), List.getD_eq_getElem _ _ (by omega)] at this
      simpa using this
  · intro d hd
    obtain ⟨i, hi, rfl⟩ := List.mem_map.mp hd
    exact (hf i (by simpa using hi)).2
  · intro i hi
    rw [List.getD_eq_getElem _ _ (by simp; omega), (hf i (by omega)).1]
    simp

theorem new_num (hA : IsBinary64 A) {ts ys es : List ℝ} {M : ℝ} (h : MildTimes ts) (srt : List Dbl → List ℕ) :
    ∃ s, FCar1.new A srt (ts.map .fin) (ys.map .fin) (es.map .fin) (.fin M) = .ok s ∧ FObj A ts ys es M s := by
  have h2 := h.two
  obtain ⟨ds, eds, lds, hds, hgap⟩ := diffs_num hA h
  have pos : (0 : ℝ) < 2 ^ (-300 : ℤ) := by positivity
  have pp : (2 : ℝ) ^ (300 : ℤ) * 2 ^ (-300 : ℤ) = 1 := by rw [pw_mul 300 (-300) 0 (by norm_num)]; norm_num
  have pos' : (0 : ℝ) < 2 ^ (300 : ℤ) := by positivity
  have recip : ∀ x : ℝ, 2 ^ (-300 : ℤ) ≤ x → x ≤ 2 ^ (300 : ℤ) →
      ∃ r, A.div (.fin 1) (.fin x) = .fin r ∧ 2 ^ (-300 : ℤ) ≤ r ∧ r ≤ 2 ^ (300 : ℤ) := by
    intro x h1 h2
    have hx : 0 < x := lt_of_lt_of_le pos h1
    obtain ⟨r, er, -, r1, r2⟩ := rnd_div hA (a := 1) hx.ne' f64_m300 f64_300
      (by rw [le_div_iff₀ hx, ← pp, mul_comm]; exact mul_le_mul_of_nonneg_right h2 pos.le)
      (by rw [div_le_iff₀ hx, ← pp]; exact mul_le_mul_of_nonneg_left h1 pos'.le)
    exact ⟨r, er, r1, r2⟩
  obtain ⟨dmin, md, ed, hdm⟩ := vecMin_fin (l := ds) (by intro h; rw [h] at lds; simp at lds; omega)
  have tne : ts ≠ [] := by intro h; rw [h] at h2; simp at h2
  obtain ⟨tmax, mx, ex, hx⟩ := vecMax_fin tne
  obtain ⟨tmin, mn, en, hn⟩ := vecMin_fin tne
  obtain ⟨hi, ehi, -, hi2⟩ := recip dmin (hds _ md).1 (hds _ md).2
  have g := h.gap 0 (by omega)
  have m1 : ts.getD 0 0 ∈ ts := by rw [List.getD_eq_getElem _ _ (by omega)]; exact List.getElem_mem _
  have m2 : ts.getD (0 + 1) 0 ∈ ts := by rw [List.getD_eq_getElem _ _ (by omega)]; exact List.getElem_mem _
  obtain ⟨sp, esp, -, s1, s2⟩ := rnd_sub hA (a := tmax) (b := tmin) f64_m300 f64_300
    (by have := hx _ m2; have := hn _ m1; linarith) (h.span _ mn _ mx)
  obtain ⟨lo, elo, lo1, -⟩ := recip sp s1 s2
  have nneg : ¬ ∃ d ∈ ds.map Dbl.fin, d.lt (.fin 0) := by
    rintro ⟨d, hd, hlt⟩
    obtain ⟨x, hx, rfl⟩ := List.mem_map.mp hd
    have := (hds x hx).1
    simp only [Dbl.lt] at hlt
    linarith
  have nz : ¬ ((∀ d ∈ ds.map Dbl.fin, ¬ d.lt (.fin 0)) ∧ ∃ d ∈ ds.map Dbl.fin, d = .fin 0) := by
    rintro ⟨-, d, hd, rfl⟩
    obtain ⟨x, hx, e⟩ := List.mem_map.mp hd
    have := (hds x hx).1
    injection e with e
    linarith
  refine ⟨{ time := ts.map .fin, y := ys.map .fin, yerr := es.map .fin, maxStdev := .fin M, maxFreq := .fin hi, minFreq := .fin lo,
            kf := { mean := List.replicate (ts.map Dbl.fin).length (.fin 0), var := List.replicate (ts.map Dbl.fin).length (.fin 0),
                    time := ts.map .fin, dt := ds.map .fin, y := ys.map .fin, yerr := es.map .fin, sigsqr := .nan, omega := .nan,
                    cur := 0, yconst := .nan, yslope := .nan } }, ?_, ?_⟩
  · simp only [FCar1.new, eds, res_bind_ok, ed, ex, en, FKF1.newData, FKF1.initSort, if_neg nneg]
    rw [res_pure, res_bind_ok, FKF1.initDedup, if_neg nz]
    simp only [esp, ehi, elo]
    rfl
  · have hord : ∀ i, i < ts.length → ts.getD 0 0 ≤ ts.getD i 0 := by
      intro i
      induction i with
      | zero => exact fun _ => le_rfl
      | succ k ih => exact fun hk => (ih (by omega)).trans ((le_add_of_nonneg_right pos.le).trans (h.gap k hk))
    have hord' : ∀ k i, i + k < ts.length → ts.getD i 0 ≤ ts.getD (i + k) 0 := by
      intro k i
      induction k with
      | zero => exact fun _ => le_rfl
      | succ k ih => exact fun hk => (ih (by omega)).trans ((le_add_of_nonneg_right pos.le).trans (h.gap (i + k) hk))
    have emax : tmax = ts.getD (ts.length - 1) 0 := by
      refine le_antisymm ?_ (hx _ (by rw [List.getD_eq_getElem _ _ (by omega)]; exact List.getElem_mem _))
      obtain ⟨i, hi, rfl⟩ := List.getElem_of_mem mx
      rw [← List.getD_eq_getElem _ 0 hi]
      have := hord' (ts.length - 1 - i) i (by omega)
      rwa [show i + (ts.length - 1 - i) = ts.length - 1 by omega] at this
    have emin : tmin = ts.getD 0 0 := by
      refine le_antisymm (hn _ m1) ?_
      obtain ⟨i, hi, rfl⟩ := List.getElem_of_mem mn
      rw [← List.getD_eq_getElem _ 0 hi]
      exact hord i hi
    have hgd : ∀ i, i + 1 < ts.length → A.sub (.fin (ts.getD (i + 1) 0)) (.fin (ts.getD i 0)) = .fin (ds.getD i 0) ∧ ds.getD i 0 ∈ ds := by
      intro i hi
      rw [← hgap i hi, List.getD_eq_getElem _ _ (by simp; omega), List.getD_eq_getElem _ _ (by omega)]
      exact ⟨by simp, List.getElem_mem _⟩
    refine ⟨rfl, rfl, rfl, rfl, ⟨lo, rfl, lo1⟩, ⟨hi, rfl, hi2⟩, by rw [← emax, ← emin, esp, elo], ?_, ?_, rfl, by simp; omega,
      fun d hd => by
        obtain ⟨x, hx, rfl⟩ := List.mem_map.mp hd
        exact ⟨x, pos.le.trans (hds x hx).1, rfl⟩, hgap, by simp, by simp⟩
    · obtain ⟨i, hi, rfl⟩ := List.getElem_of_mem md
      refine ⟨i, by omega, ?_⟩
      rw [(hgd i (by omega)).1, List.getD_eq_getElem _ _ hi, ehi]
    · intro i hi'
      obtain ⟨e1, e2⟩ := hgd i hi'
      have hd0 : 0 < dmin := lt_of_lt_of_le pos (hds _ md).1
      have hle := hdm _ e2
      rw [e1]
      show ¬ (Dbl.fin hi).lt _
      rw [← ehi, fl_div _ _ hd0.ne', fl_div _ _ (hd0.trans_le hle).ne']
      exact hA.mono _ _ (one_div_le_one_div_of_le hd0 hle)

/-! ### the log-density -/

theorem getElem?_map_fin {l : List ℝ} {i : ℕ} (h : i < l.length) : (l.map Dbl.fin)[i]? = some (.fin (l.getD i 0)) := by
  rw [List.getElem?_map, List.getElem?_eq_getElem h, List.getD_eq_getElem _ _ h]; rfl

theorem within_num (hA : IsBinary64 A) {ts ys es : List ℝ} {M : ℝ} {s : FCar1} (h : FObj A ts ys es M s) {θ : List ℝ}
    (hl : 4 ≤ θ.length) :
    (InBounds A s θ ∧ FCar1.checkPrior A s (θ.map .fin) = .ok true) ∨ (¬ InBounds A s θ ∧ FCar1.checkPrior A s (θ.map .fin) = .ok false) := by
  obtain ⟨lo, elo, -⟩ := h.lo
  obtain ⟨hi, ehi, -⟩ := h.hi
  have e : FCar1.checkPrior A s (θ.map .fin) = .ok (decide ¬ ((A.exp (.fin (θ.getD 3 0))).gt (.fin hi) ∨ (A.exp (.fin (θ.getD 3 0))).lt (.fin lo) ∨
      (Dbl.fin (θ.getD 0 0)).gt (.fin M) ∨ (Dbl.fin (θ.getD 0 0)).lt (.fin 0) ∨ (Dbl.fin (θ.getD 1 0)).lt (.fin 0.5) ∨
      (Dbl.fin (θ.getD 1 0)).gt (.fin 2))) := by
    simp only [FCar1.checkPrior, rd_some (getElem?_map_fin (show 0 < θ.length by omega)), rd_some (getElem?_map_fin (show 1 < θ.length by omega)),
      rd_some (getElem?_map_fin (show 3 < θ.length by omega)), res_bind_ok, elo, ehi, h.stdev]
    rfl
  rw [e]
  have key : (¬ ((A.exp (.fin (θ.getD 3 0))).gt (.fin hi) ∨ (A.exp (.fin (θ.getD 3 0))).lt (.fin lo) ∨
      (Dbl.fin (θ.getD 0 0)).gt (.fin M) ∨ (Dbl.fin (θ.getD 0 0)).lt (.fin 0) ∨ (Dbl.fin (θ.getD 1 0)).lt (.fin 0.5) ∨
      (Dbl.fin (θ.getD 1 0)).gt (.fin 2))) ↔ InBounds A s θ := by
    unfold InBounds
    rw [elo, ehi, h.stdev]
    rcases hA.exp_other (θ.getD 3 0) with hw | ⟨w, hw⟩
    · rw [hw]; simp [Dbl.gt, Dbl.lt]
    · rw [hw]
      simp only [Dbl.gt, Dbl.lt]
      constructor
      · intro hn
        push Not at hn
        obtain ⟨h1, h2, h3, h4, h5, h6⟩ := hn
        exact ⟨w, lo, hi, M, rfl, rfl, rfl, rfl, h2, h1, h4, h3, by norm_num at h5 ⊢; exact h5, h6⟩
      · rintro ⟨w', lo', hi', M', ew, el, eh, eM, h1, h2, h3, h4, h5, h6⟩
        cases ew; cases el; cases eh; cases eM
        push Not
        exact ⟨h2, h1, h4, h3, by norm_num at h5 ⊢; exact h5, h6⟩
  by_cases hc : InBounds A s θ
  · exact .inl ⟨hc, by rw [decide_eq_true (key.mpr hc)]⟩
  · exact .inr ⟨hc, by rw [decide_eq_false (fun h => hc (key.mp h))]⟩

theorem inBounds_iff {ts ys es : List ℝ} {M : ℝ} {s : FCar1} (h : FObj A ts ys es M s) {θ : List ℝ} :
    InBounds A s θ ↔ Within A ts M θ := by
  obtain ⟨lo, elo, -⟩ := h.lo
  obtain ⟨hi, ehi, -⟩ := h.hi
  constructor
  · rintro ⟨w, lo', hi', M', ew, elo', ehi', eM, l1, l2, r⟩
    rw [h.stdev] at eM; cases eM
    obtain ⟨i, hi, e⟩ := h.hiV
    exact ⟨w, ew, ⟨lo', l1, by rw [← h.loV, elo']⟩, ⟨i, hi', hi, l2, by rw [← e, ehi']⟩, r⟩
  · rintro ⟨w, ew, ⟨lo', l1, e1⟩, ⟨i, hi', hi'', l2, e2⟩, r⟩
    rw [← h.loV, elo] at e1
    cases e1
    have := h.hiM i hi''
    rw [ehi, e2] at this
    exact ⟨w, lo, hi, M, ew, elo, ehi, h.stdev, l1, l2.trans (by simpa [Dbl.lt] using this), r⟩

theorem logdens_num (hA : IsBinary64 A) {ts ys es : List ℝ} {M : ℝ} (hm : Mild ts ys es M) {s : FCar1} (h : FObj A ts ys es M s)
    {θ : List ℝ} (hl : 4 ≤ θ.length) (hF : ∀ x ∈ θ, F64 x) (hmu : |θ.getD 2 0| ≤ 2 ^ (300 : ℤ)) (hw : InBounds A s θ) :
    ∃ s' v, FCar1.logDensity A s (θ.map .fin) = .ok (s', .fin v) ∧
      ∀ i < ts.length, ∃ m v p E, s'.kf.mean[i]? = some (.fin m) ∧ s'.kf.var[i]? = some (.fin v) ∧ |m| ≤ 2 ^ (302 : ℤ) ∧
        A.mul (A.sqrt (.fin (θ.getD 1 0))) (.fin (es.getD i 0)) = .fin p ∧ A.mul (.fin p) (.fin p) = .fin E ∧
        2 ^ (-298 : ℤ) ≤ E ∧ E ≤ v ∧ v ≤ 2 ^ (300 : ℤ) := by
  have hc : FCar1.checkPrior A s (θ.map .fin) = .ok true := by
    rcases within_num hA h hl with ⟨-, hc⟩ | ⟨hn, -⟩
    · exact hc
    · exact absurd hw hn
  obtain ⟨lo', elo', lo1⟩ := h.lo
  obtain ⟨hi', ehi', hi1⟩ := h.hi
  obtain ⟨w, lo, hi, M', ew, elo, ehi, eM, l1, l2, s1, s2, c1, c2⟩ := hw
  rw [elo'] at elo; cases elo
  rw [ehi'] at ehi; cases ehi
  rw [h.stdev] at eM; cases eM
  obtain ⟨Fw, -⟩ := hA.exp_range _ _ ew
  have pos : (0 : ℝ) < 2 ^ (-300 : ℤ) := by positivity
  have hw0 : 0 < w := lt_of_lt_of_le pos (lo1.trans l1)
  have hw1 : w ≤ 2 ^ (300 : ℤ) := l2.trans hi1
  have hM := hm.stdev
  obtain ⟨S, eS, S0, S1⟩ := stat_num hA s1 (s2.trans hM) Fw hw0 hw1
  have F301 : F64 (2 ^ (301 : ℤ)) := f64_zpow _ (by norm_num) (by norm_num)
  have n0 := hm.two
  set sig := A.mul (A.mul (A.mul (.fin 2) (.fin (θ.getD 0 0))) (.fin (θ.getD 0 0))) (.fin w) with hsig
  set k0 : FKF1 := { s.kf with
    sigsqr := sig, omega := .fin w, yerr := s.yerr.map (fun x => A.mul (A.sqrt (.fin (θ.getD 1 0))) x),
    y := s.y.map (fun x => A.sub x (.fin (θ.getD 2 0))) } with hk0
  have ktl : k0.time.length = ts.length := by simp [hk0, h.ktime]
  have hsafe : FSafe A 301 298 k0 := by
    refine ⟨by omega, by rw [ktl]; exact h.kdt, by rw [ktl]; exact h.kmean, by rw [ktl]; exact h.kvar, ⟨w, rfl, Fw, hw0⟩, ⟨S, eS, S0, S1⟩,
      fun d hd => .inr (h.kdts d hd), ?_, ?_⟩
    · intro i hi
      rw [ktl] at hi
      have hy : |ys.getD i 0| ≤ 2 ^ (300 : ℤ) := hm.y _ (by
        rw [List.getD_eq_getElem _ _ (by rw [hm.leny]; exact hi)]; exact List.getElem_mem _)
      obtain ⟨y1, y2⟩ := abs_le.mp hy
      obtain ⟨u1, u2⟩ := abs_le.mp hmu
      have e2 := pw_two 300 301 (by norm_num)
      have hy' : -(2 ^ (301 : ℤ)) ≤ ys.getD i 0 - θ.getD 2 0 ∧ ys.getD i 0 - θ.getD 2 0 ≤ 2 ^ (301 : ℤ) := by
        rw [← e2]; constructor <;> linarith
      obtain ⟨x, ex, -, x1, x2⟩ := rnd_sub hA (f64_neg F301) F301 hy'.1 hy'.2
      refine ⟨x, ?_, abs_le.mpr ⟨x1, x2⟩⟩
      show (s.y.map _)[i]? = _
      rw [h.y, List.getElem?_map, getElem?_map_fin (by rw [hm.leny]; exact hi), Option.map_some, ex]
    · intro i hi
      rw [ktl] at hi
      have he := hm.e (es.getD i 0) (by rw [List.getD_eq_getElem _ _ (by rw [hm.lene]; exact hi)]; exact List.getElem_mem _)
      obtain ⟨p, E, ep, eE, E0, E1⟩ := err_num hA c1 c2 he.1 he.2
      refine ⟨p, E, ?_, eE, lt_of_lt_of_le (by positivity) E0, E1⟩
      show (s.yerr.map _)[i]? = _
      rw [h.yerr, List.getElem?_map, getElem?_map_fin (by rw [hm.lene]; exact hi), Option.map_some, ep]
  obtain ⟨k1, ek1, d1⟩ := fFilter hA (by norm_num) (by norm_num) (by norm_num) (by norm_num) hsafe
  rw [ktl] at d1
  have hres : ∀ i < ts.length, ∃ m v p E, k1.mean[i]? = some (.fin m) ∧ k1.var[i]? = some (.fin v) ∧ |m| ≤ 2 * 2 ^ (301 : ℤ) ∧ F64 v ∧
      A.mul (A.sqrt (.fin (θ.getD 1 0))) (.fin (es.getD i 0)) = .fin p ∧ A.mul (.fin p) (.fin p) = .fin E ∧
      2 ^ (-298 : ℤ) ≤ E ∧ E ≤ v ∧ v ≤ 4 * 2 ^ (298 : ℤ) := by
    intro i hi
    obtain ⟨m, v, e, E, em, ev, ee, eE, Fm, hm', Fv, hEv, hv⟩ := d1.bound i hi
    have he := hm.e (es.getD i 0) (by rw [List.getD_eq_getElem _ _ (by rw [hm.lene]; exact hi)]; exact List.getElem_mem _)
    obtain ⟨p, E', ep, eE', E0, -⟩ := err_num hA c1 c2 he.1 he.2
    have hee : k1.yerr[i]? = some (.fin p) := by
      rw [d1.yerr]
      show (s.yerr.map _)[i]? = _
      rw [h.yerr, List.getElem?_map, getElem?_map_fin (by rw [hm.lene]; exact hi), Option.map_some, ep]
    rw [hee] at ee
    injection ee with ee; injection ee with ee; subst ee
    rw [eE] at eE'; injection eE' with eE'; subst eE'
    exact ⟨m, v, p, E, em, ev, hm', Fv, ep, eE, E0, hEv, hv⟩
  obtain ⟨ll, ell, hll⟩ := lik_num hA (y := ys.map .fin) (mean := k1.mean) (var := k1.var) hmu (n := ts.length) (by have := hm.max; omega)
    (fun i hi => ⟨_, getElem?_map_fin (by rw [hm.leny]; exact hi), hm.y _ (by
      rw [List.getD_eq_getElem _ _ (by rw [hm.leny]; exact hi)]; exact List.getElem_mem _)⟩)
    (fun i hi => by
      obtain ⟨m, v, p, E, em, ev, hm', Fv, -, -, E0, hEv, -⟩ := hres i hi
      exact ⟨m, v, em, ev, hm', Fv, E0.trans hEv⟩)
  have hθ1 : (θ.map Dbl.fin)[1]? = some (.fin (θ.getD 1 0)) := getElem?_map_fin (by omega)
  obtain ⟨lp, elp, hlp⟩ := prior_num hA hθ1 (hF _ (by rw [List.getD_eq_getElem _ _ (by omega)]; exact List.getElem_mem _)) c1 c2
  obtain ⟨r, er, -⟩ := acc_num hA hm.max hll hlp
  refine ⟨{ s with kf := k1 }, r, ?_, ?_⟩
  · simp only [FCar1.logDensity, hc, res_bind_ok, rd_some (getElem?_map_fin (show 0 < θ.length by omega)),
      rd_some hθ1, rd_some (getElem?_map_fin (show 2 < θ.length by omega)), rd_some (getElem?_map_fin (show 3 < θ.length by omega)), ew]
    rw [if_neg (by simp)]
    simp only [res_bind_ok, ← hsig, ← hk0, ek1]
    simp only [h.y, h.time, List.length_map, ell, res_bind_ok, elp, er]
    rfl
  · intro i hi
    obtain ⟨m, v, p, E, em, ev, hm', -, ep, eE, E0, hEv, hv⟩ := hres i hi
    refine ⟨m, v, p, E, em, ev, by rwa [pw_two 301 302 (by norm_num)] at hm', ep, eE, E0, hEv, ?_⟩
    rw [show (4 : ℝ) = 2 ^ (2 : ℤ) by norm_num, pw_mul 2 298 300 (by norm_num)] at hv
    exact hv

end Verif.Theory
