import Verif.Theory.FStartP
import Verif.Theory.FCarmaHist
import Verif.Theory.FLink

/-!
A pass of the search for a starting value, put together.
-/

namespace Verif.Theory

open Verif.Model Verif.Spec
open scoped Classical

variable {A : Arith} {p : ℕ}

theorem freqAt_exp {ts : List ℝ} {g : ℝ} (T0 : 0 < spanOf ts) (g0 : 0 < g) (u : ℝ) : freqAt ts g u = Real.exp (zOf (spanOf ts) g u) := by
  unfold freqAt zOf
  rw [Real.rpow_def_of_pos (by positivity), Real.rpow_def_of_pos (by positivity), ← Real.exp_add, one_div, one_div, Real.log_inv, Real.log_inv]
  congr 1
  ring

/-- what the constructors store -/
theorem newp_fields {C : CArith} {kind : Kind} {srt : List Dbl → List ℕ} {time y yerr : List Dbl} {B : Dbl} {s : FCarP p}
    (e : FCarP.new C kind p srt time y yerr B = .ok s) : s.time = time ∧ s.y = y ∧ s.kind = kind ∧
      ∃ dt dmin, FKF1.diffs C.r time = .ok dt ∧ FCar1.vecMin dt = .ok dmin ∧ s.maxFreq = C.r.div (.fin 1) dmin := by
  unfold FCarP.new at e
  obtain ⟨s1, h1, e⟩ := bind_ok e
  have k1 : s1.time = time ∧ s1.y = y ∧ s1.kind = .carp ∧
      ∃ dt dmin, FKF1.diffs C.r time = .ok dt ∧ FCar1.vecMin dt = .ok dmin ∧ s1.maxFreq = C.r.div (.fin 1) dmin := by
    unfold FCarP.newCarp at h1
    obtain ⟨dt, e1, h1⟩ := bind_ok h1
    obtain ⟨dmin, e2, h1⟩ := bind_ok h1
    obtain ⟨tmax, e3, h1⟩ := bind_ok h1
    obtain ⟨tmin, e4, h1⟩ := bind_ok h1
    obtain ⟨kf, -, h1⟩ := bind_ok h1
    split at h1
    · cases h1
    · injection h1 with h1
      subst h1
      exact ⟨rfl, rfl, rfl, dt, dmin, e1, e2, rfl⟩
  obtain ⟨a, b, c, d⟩ := k1
  cases kind with
  | carp => injection e with e; subst e; exact ⟨a, b, c, d⟩
  | carma q => injection e with e; subst e; exact ⟨a, b, rfl, d⟩
  | zcar =>
    obtain ⟨_, -, e⟩ := bind_ok e
    obtain ⟨_, -, e⟩ := bind_ok e
    obtain ⟨_, -, e⟩ := bind_ok e
    injection e with e
    subst e
    exact ⟨a, b, rfl, d⟩
  | zcarma =>
    obtain ⟨_, -, e⟩ := bind_ok e
    obtain ⟨_, -, e⟩ := bind_ok e
    obtain ⟨_, -, e⟩ := bind_ok e
    obtain ⟨_, -, e⟩ := bind_ok e
    obtain ⟨_, -, e⟩ := bind_ok e
    injection e with e
    subst e
    exact ⟨a, b, rfl, d⟩

theorem times_mono {ts : List ℝ} (hm : MildTimes ts) : ∀ k i, i + k < ts.length → ts.getD i 0 ≤ ts.getD (i + k) 0 := by
  intro k
  induction k with
  | zero => intro i _; exact le_rfl
  | succ k ih =>
    intro i hi
    refine (ih i (by omega)).trans ?_
    have := hm.gap (i + k) (by omega)
    have pos : (0 : ℝ) < 2 ^ (-300 : ℤ) := by positivity
    rw [show i + (k + 1) = i + k + 1 by ring]
    linarith

theorem time_ends {ts : List ℝ} (hm : MildTimes ts) : FCar1.vecMax (ts.map .fin) = .ok (.fin (ts.getD (ts.length - 1) 0)) ∧
    FCar1.vecMin (ts.map .fin) = .ok (.fin (ts.getD 0 0)) := by
  have h2 := hm.two
  have hne : ts ≠ [] := by rintro rfl; simp at h2
  have mem : ∀ i, i < ts.length → ts.getD i 0 ∈ ts := fun i hi => by rw [List.getD_eq_getElem _ _ hi]; exact List.getElem_mem _
  constructor
  · obtain ⟨x, hx, e, h⟩ := vecMax_fin hne
    have h1 := h _ (mem (ts.length - 1) (by omega))
    obtain ⟨i, hi, rfl⟩ := List.getElem_of_mem hx
    have := times_mono hm (ts.length - 1 - i) i (by omega)
    rw [show i + (ts.length - 1 - i) = ts.length - 1 by omega, List.getD_eq_getElem _ _ hi] at this
    rw [e, le_antisymm h1 this]
  · obtain ⟨x, hx, e, h⟩ := vecMin_fin hne
    have h1 := h _ (mem 0 (by omega))
    obtain ⟨i, hi, rfl⟩ := List.getElem_of_mem hx
    have := times_mono hm i 0 (by omega)
    rw [Nat.zero_add, List.getD_eq_getElem _ _ hi] at this
    rw [e, le_antisymm h1 this]

/-- the smallest difference as computed is the smallest difference, rounded -/
theorem min_gap (hA : IsBinary64 A) {ts : List ℝ} (hm : MildTimes ts) {g : ℝ} (hg : SmallestGap ts g) {dt : List Dbl} {dmin : Dbl}
    (e1 : FKF1.diffs A (ts.map .fin) = .ok dt) (e2 : FCar1.vecMin dt = .ok dmin) : A.rnd g = dmin := by
  obtain ⟨ds, ed, hl, hr, hv⟩ := diffs_num hA hm
  rw [e1] at ed
  injection ed with ed
  subst ed
  have h2 := hm.two
  obtain ⟨d, hd, ed, hmin⟩ := vecMin_fin (l := ds) (by rintro rfl; simp at hl; omega)
  rw [e2] at ed
  injection ed with ed
  subst ed
  have val : ∀ i (hi : i < ds.length), A.rnd (ts.getD (i + 1) 0 - ts.getD i 0) = .fin ds[i] := by
    intro i hi
    have := hv i (by omega)
    rw [List.getD_eq_getElem _ _ (by simpa using hi), List.getElem_map, fl_sub] at this
    exact this.symm
  obtain ⟨i, hi, rfl⟩ := List.getElem_of_mem hd
  obtain ⟨j, hj, hjg⟩ := hg.mem
  have vj := val j (by omega)
  rw [hjg] at vj
  have vi := val i hi
  have m := hA.mono _ _ (hg.le i (by omega))
  rw [vj, vi] at m
  have m : ¬ ds[i] < ds[j] := m
  rw [vj, le_antisymm (not_lt.mp m) (hmin _ (List.getElem_mem _))]

/-- the number in a double -/
noncomputable def numOf : Dbl → ℝ
  | .fin x => x
  | _ => 0

/-- the frequency computed from a draw -/
noncomputable def frOf (A : Arith) (lr lm x : ℝ) : ℝ := numOf (A.exp (A.add (A.mul (.fin lr) (.fin x)) (.fin lm)))

theorem freqs_num {lr lm : ℝ} {l : List ℝ} (h : ∀ x ∈ l, ∃ w, A.exp (A.add (A.mul (.fin lr) (.fin x)) (.fin lm)) = .fin w) :
    FCarP.freqs A (.fin lr) (.fin lm) (l.map .fin) = (l.map (frOf A lr lm)).map .fin := by
  unfold FCarP.freqs
  rw [List.map_map, List.map_map]
  refine List.map_congr_left fun x hx => ?_
  obtain ⟨w, e⟩ := h x hx
  simp only [Function.comp, frOf, e, numOf]

theorem sort_num (f : ℝ → ℝ) (l : List ℝ) : ((l.map f).map Dbl.fin).mergeSort (fun a b => decide ¬ a.lt b) =
    ((l.mergeSort fun a b => decide (f b ≤ f a)).map f).map .fin := by
  rw [List.map_mergeSort (s := fun a b : ℝ => decide (b ≤ a)), List.map_mergeSort]
  · intro a _ b _
    exact (decide_eq_decide.mpr not_lt).symm
  · intro a _ b _
    rfl

theorem sort_pair (f : ℝ → ℝ) (l : List ℝ) : (l.mergeSort fun a b => decide (f b ≤ f a)).Pairwise fun a b => f b ≤ f a := by
  have := List.pairwise_mergeSort (le := fun a b => decide (f b ≤ f a)) (fun a b c h1 h2 => by
    simp only [decide_eq_true_eq] at *; exact h2.trans h1) (fun a b => by simpa using le_total _ _) l
  exact this.imp fun h => by simpa using h

/-- the loop over the quadratic factors -/
theorem terms_num (hA : IsBinary64 A) (hacc : Accurate A) {cent width : List Dbl} {W K : ℕ → ℝ} {n : ℕ}
    (h : ∀ i < n, ∃ w c, rd width i = .ok (.fin w) ∧ rd cent i = .ok (.fin c) ∧ 0 < w ∧ 0 < c ∧ |Real.log w - W i| ≤ 1280 * uu ∧
      |Real.log c - K i| ≤ 1280 * uu ∧ |W i| ≤ 208 ∧ |K i| ≤ 208) :
    ∀ k ≤ n, ∃ l : List ℝ, FCarP.logaTerms A cent width k = .ok (l.map .fin) ∧ l.length = 2 * k ∧ (∀ x ∈ l, F64 x) ∧ ∀ i < k,
      |l.getD (2 * i) 0 - Real.log ((2 * Real.pi * Real.exp (W i)) ^ 2 + (2 * Real.pi * Real.exp (K i)) ^ 2)| ≤ 2 ^ (-40 : ℤ) ∧
      |l.getD (2 * i + 1) 0 - Real.log (4 * Real.pi * Real.exp (W i))| ≤ 2 ^ (-40 : ℤ) := by
  intro k
  induction k with
  | zero => intro _; exact ⟨[], rfl, rfl, by simp, by simp⟩
  | succ k ih =>
    intro hk
    obtain ⟨l, el, hl, hF, hv⟩ := ih (by omega)
    obtain ⟨w, c, ew, ec, w0, c0, hw, hc, hW, hK⟩ := h k (by omega)
    obtain ⟨a, b, ea, eb, Fa, Fb, ha, hb⟩ := quadlog_num hA hacc w0 c0 hw hc hW hK rfl rfl
    refine ⟨l ++ [a, b], ?_, by simp [hl]; ring, ?_, ?_⟩
    · unfold FCarP.logaTerms
      rw [el, res_bind_ok, ew, res_bind_ok, ec, res_bind_ok]
      dsimp only
      rw [ea, eb]
      simp [pure, Except.pure]
    · intro x hx
      rw [List.mem_append] at hx
      rcases hx with hx | hx
      · exact hF x hx
      · simp only [List.mem_cons, List.not_mem_nil, or_false] at hx
        rcases hx with rfl | rfl
        · exact Fa
        · exact Fb
    · intro i hi
      rcases Nat.lt_succ_iff_lt_or_eq.mp hi with hi | rfl
      · rw [List.getD_append _ _ _ _ (by omega), List.getD_append _ _ _ _ (by omega)]
        exact hv i hi
      · rw [List.getD_append_right _ _ _ _ (by omega), List.getD_append_right _ _ _ _ (by omega), hl]
        have e1 : 2 * i - 2 * i = 0 := by omega
        have e2 : 2 * i + 1 - 2 * i = 1 := by omega
        rw [e1, e2]
        exact ⟨ha, hb⟩

theorem rd_fin {l : List ℝ} {i : ℕ} (h : i < l.length) : rd (l.map Dbl.fin) i = .ok (.fin (l.getD i 0)) := by
  refine rd_some ?_
  rw [List.getElem?_map, List.getElem?_eq_getElem h, List.getD_eq_getElem _ _ h]
  rfl

theorem getD_map_lt (f : ℝ → ℝ) {l : List ℝ} {i : ℕ} (h : i < l.length) : (l.map f).getD i 0 = f (l.getD i 0) := by
  rw [List.getD_eq_getElem _ _ (by simpa using h), List.getElem_map, List.getD_eq_getElem _ _ h]

theorem getD_mem {l : List ℝ} {i : ℕ} (h : i < l.length) : l.getD i 0 ∈ l := by
  rw [List.getD_eq_getElem _ _ h]; exact List.getElem_mem _

end Verif.Theory
