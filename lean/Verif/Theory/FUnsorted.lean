import Verif.Theory.FOrderData
import Verif.Theory.FCarmaHist
import Verif.Theory.FObj
import Verif.Theory.FNan

/-! Unsorted data and machine numbers: the largest frequency comes out negative. -/

namespace Verif.Theory

open Verif.Model Verif.Spec
open scoped Classical

theorem descent {ts : List ℝ} {i j : ℕ} (hij : i < j) (hj : j < ts.length) (hlt : ts.getD j 0 < ts.getD i 0) {ds : List ℝ} (h : diffs ts = .ok ds) :
    ∃ d ∈ ds, d < 0 := by
  unfold diffs at h
  split_ifs at h with hl
  injection h with h
  subst h
  by_contra hn
  push Not at hn
  have := le_of_step (t := fun i => ts.getD i 0) (n := ts.length) (fun k hk => by
    have h1 := hn (ts.getD (k + 1) 0 - ts.getD k 0) (by
      rw [List.mem_iff_getElem]
      refine ⟨k, by simp; omega, ?_⟩
      simp [List.getD_eq_getElem?_getD, List.getElem?_eq_getElem (show k + 1 < ts.length from hk), List.getElem?_eq_getElem (show k < ts.length by omega)])
    linarith) hij.le hj
  linarith

section
variable {A : Arith} (hA : IsBinary64 A)
include hA

theorem unsorted_freq {ts : List ℝ} (hF : ∀ t ∈ ts, F64 t ∧ |t| ≤ 2 ^ (970 : ℤ)) {i j : ℕ} (hij : i < j) (hj : j < ts.length)
    (hlt : ts.getD j 0 < ts.getD i 0) :
    ∃ dt m, FKF1.diffs A (ts.map .fin) = .ok dt ∧ FCar1.vecMin dt = .ok m ∧ (A.div (.fin 1) m).lt (.fin 0) := by
  obtain ⟨ds, e⟩ : ∃ ds, diffs ts = .ok ds := by
    unfold diffs
    rw [if_neg (by omega)]
    exact ⟨_, rfl⟩
  obtain ⟨d, hd, h0⟩ := descent hij hj hlt e
  have ok := diffs_ok (fun t ht => (hF t ht).1) e
  have F971 : F64 ((2 : ℝ) ^ (971 : ℤ)) := f64_zpow _ (by norm_num) (by norm_num)
  have hpw : (2 : ℝ) ^ (971 : ℤ) = 2 * 2 ^ (970 : ℤ) := by rw [show (971 : ℤ) = 1 + 970 by norm_num, zpow_add₀ (by norm_num)]; norm_num
  have hr : ∀ d ∈ ds, ∃ r, A.rnd d = .fin r ∧ |r| ≤ 2 ^ (971 : ℤ) := by
    intro d hd
    have hb : |d| ≤ 2 ^ (971 : ℤ) := by
      unfold diffs at e
      rw [if_neg (by omega)] at e
      injection e with e
      subst e
      obtain ⟨k, hk, rfl⟩ := List.getElem_of_mem hd
      rw [List.getElem_zipWith, hpw]
      have h1 := (hF _ (List.mem_of_mem_tail (List.getElem_mem (l := ts.tail) (n := k) (by simp at hk ⊢; omega)))).2
      have h2 := (hF _ (List.getElem_mem (l := ts) (n := k) (by simp at hk; omega))).2
      refine (abs_sub _ _).trans ?_
      linarith
    obtain ⟨r, er, -, l, u⟩ := rnd_between hA (f64_neg F971) F971 (abs_le.mp hb).1 (abs_le.mp hb).2
    exact ⟨r, er, abs_le.mpr ⟨l, u⟩⟩
  choose! r hr1 hr2 using hr
  have em : ds.map A.rnd = (ds.map r).map .fin := by
    rw [List.map_map]
    exact List.map_congr_left hr1
  obtain ⟨x, hx, e2, hm⟩ := vecMin_fin (l := ds.map r) (by
    intro hn
    rw [List.map_eq_nil_iff.mp hn] at hd
    cases hd)
  refine ⟨_, _, by rw [diffs_dec, e, emap_ok, em], e2, ?_⟩
  have x0 : x < 0 := by
    have := diff_neg_lt hA (ok d hd) h0
    rw [hr1 d hd] at this
    exact lt_of_le_of_lt (hm _ (List.mem_map_of_mem hd)) this
  have xb : |x| ≤ 2 ^ (971 : ℤ) := by
    obtain ⟨d', hd', rfl⟩ := List.mem_map.mp hx
    exact hr2 d' hd'
  have Fm : F64 ((2 : ℝ) ^ (-971 : ℤ)) := f64_zpow _ (by norm_num) (by norm_num)
  have hq : 1 / x ≤ -(2 : ℝ) ^ (-971 : ℤ) := by
    rw [zpow_neg, abs_of_neg x0] at *
    have hp : (0 : ℝ) < 2 ^ (971 : ℤ) := by positivity
    generalize (2 : ℝ) ^ (971 : ℤ) = u at *
    have : u⁻¹ ≤ 1 / (-x) := by rw [inv_eq_one_div]; exact one_div_le_one_div_of_le (by linarith) xb
    rw [one_div_neg_eq_neg_one_div] at this
    linarith
  have ed : A.div (.fin 1) (.fin x) = A.rnd (1 / x) := by simp [Arith.div, Dbl.div, x0.ne, Arith.fl]
  have hm := hA.mono _ _ hq
  rw [ed]
  rw [hA.id _ (f64_neg Fm)] at hm
  have hp : (0 : ℝ) < 2 ^ (-971 : ℤ) := by positivity
  generalize (2 : ℝ) ^ (-971 : ℤ) = u at *
  cases er : A.rnd (1 / x) with
  | nan => exact absurd er (hA.no_nan _)
  | ninf => trivial
  | pinf => rw [er] at hm; exact absurd trivial hm
  | fin q =>
    rw [er] at hm
    have hm : ¬ -u < q := hm
    show q < (0 : ℝ)
    linarith [not_lt.mp hm]

/-- NaN, `+inf` or a nonnegative number -/
def NotNeg (d : Dbl) : Prop := d = .nan ∨ d = .pinf ∨ ∃ r, d = .fin r ∧ 0 ≤ r

omit hA in
theorem notNeg_lt {d m : Dbl} (h : NotNeg d) (hm : m.lt (.fin 0)) : ¬ d.lt m := by
  intro hl
  rcases h with rfl | rfl | ⟨r, rfl, hr⟩
  · cases m <;> exact hl
  · cases m <;> exact hl
  · cases m with
    | fin x => exact absurd (lt_trans (show r < x from hl) hm) (not_lt.mpr hr)
    | nan => exact hl
    | ninf => exact hl
    | pinf => exact hm

omit hA in
theorem notNeg_abs (d : Dbl) : NotNeg d.abs := by
  cases d with
  | fin x => exact .inr (.inr ⟨_, rfl, abs_nonneg x⟩)
  | nan => exact .inl rfl
  | pinf => exact .inr (.inl rfl)
  | ninf => exact .inr (.inl rfl)

theorem notNeg_rnd {x : ℝ} (h : 0 ≤ x) : NotNeg (A.rnd x) := by
  have hm := hA.mono _ _ h
  rw [hA.id _ f64_zero] at hm
  cases e : A.rnd x with
  | nan => exact .inl rfl
  | pinf => exact .inr (.inl rfl)
  | ninf => rw [e] at hm; exact absurd trivial hm
  | fin r => rw [e] at hm; exact .inr (.inr ⟨r, rfl, not_lt.mp hm⟩)

theorem notNeg_div {d : Dbl} (h : NotNeg d) {b : ℝ} (hb : 0 < b) : NotNeg (A.div d (.fin b)) := by
  rcases h with rfl | rfl | ⟨r, rfl, hr⟩
  · exact .inl rfl
  · refine .inr (.inl ?_)
    simp only [Arith.div, Dbl.div, if_neg (not_lt.mpr hb.le), Arith.fl]
  · have : A.div (.fin r) (.fin b) = A.rnd (r / b) := by simp [Arith.div, Dbl.div, hb.ne', Arith.fl]
    rw [this]
    exact notNeg_rnd hA (div_nonneg hr hb.le)

theorem notNeg_pi {d : Dbl} (h : NotNeg d) : NotNeg (A.div d (A.rnd Real.pi)) := by
  obtain ⟨q, e, -, l, -⟩ := rnd_between hA (x := Real.pi) (lo := 2 ^ (1 : ℤ)) (hi := 2 ^ (2 : ℤ)) (f64_zpow _ (by norm_num) (by norm_num)) (f64_zpow _ (by norm_num) (by norm_num))
    (by norm_num; linarith [Real.two_le_pi]) (by norm_num; linarith [Real.pi_le_four])
  rw [e]
  exact notNeg_div hA h (lt_of_lt_of_le (by norm_num) l)

theorem car1_rejects {s : FCar1} (hs : s.maxFreq.lt (.fin 0)) {θ : List Dbl} (hl : 4 ≤ θ.length) (hf : ∃ x, θ[3]? = some (.fin x) ) :
    FCar1.logDensity A s θ = .ok (s, .ninf) := by
  obtain ⟨x, hx⟩ := hf
  have r0 : rd θ 0 = .ok θ[0] := by simp [rd, List.getElem?_eq_getElem (show 0 < θ.length by omega)]
  have r1 : rd θ 1 = .ok θ[1] := by simp [rd, List.getElem?_eq_getElem (show 1 < θ.length by omega)]
  have r3 : rd θ 3 = .ok (.fin x) := by simp [rd, hx]
  have hg : (A.exp (.fin x)).gt s.maxFreq := by
    rcases hA.exp_other x with e | ⟨r, e⟩
    · rw [e]
      cases em : s.maxFreq with
      | pinf => rw [em] at hs; exact hs
      | nan => rw [em] at hs; exact hs
      | _ => trivial
    · have := (hA.exp_range x r e).2
      rw [e]
      cases em : s.maxFreq with
      | fin m => rw [em] at hs; exact lt_of_lt_of_le (show m < 0 from hs) this
      | pinf => rw [em] at hs; exact hs
      | nan => rw [em] at hs; exact hs
      | ninf => trivial
  have hc : FCar1.checkPrior A s θ = .ok false := by
    unfold FCar1.checkPrior
    rw [r0, res_bind_ok, r1, res_bind_ok, r3, res_bind_ok]
    show Except.ok _ = Except.ok _
    congr 1
    simp only [decide_eq_false_iff_not, not_not]
    exact .inl hg
  unfold FCar1.logDensity
  rw [hc, res_bind_ok]
  rfl

end

theorem carp_rejects {C : CArith} (hA : IsBinary64 C.r) {p : ℕ} (hp : 0 < p) {s : FCarP p} (hi : s.ignorePrior = false) (hs : s.maxFreq.lt (.fin 0)) {θ : List Dbl}
    (hl : p + 3 ≤ θ.length) : FCarP.logDensity C s θ = .ok (s, .ninf) := by
  have r0 : rd θ 0 = .ok θ[0] := by simp [rd, List.getElem?_eq_getElem (show 0 < θ.length by omega)]
  have r1 : rd θ 1 = .ok θ[1] := by simp [rd, List.getElem?_eq_getElem (show 1 < θ.length by omega)]
  obtain ⟨roots, er, hn⟩ := rootsFrom_ok (C := C) (θ := θ) (off := 3) (m := p) (by omega)
  have hc : FCarP.checkPrior C s θ = .ok false := by
    unfold FCarP.checkPrior
    rw [hi, r0, res_bind_ok, r1, res_bind_ok, er, res_bind_ok]
    have h0 : ((roots.map fun r => C.r.div (C.r.div r.2.abs (.fin 2)) (C.r.rnd Real.pi)).filter fun x => x.lt s.maxFreq) = [] := by
      rw [List.filter_eq_nil_iff]
      intro a ha
      obtain ⟨r, -, rfl⟩ := List.mem_map.mp ha
      simp only [decide_eq_true_eq]
      exact notNeg_lt (notNeg_pi hA (notNeg_div hA (notNeg_abs _) (by norm_num))) hs
    simp only [h0, List.length_nil, List.length_map, hn, ne_eq, hp.ne, not_false_eq_true, true_or, if_true]
    show Except.ok _ = Except.ok _
    congr 1
    split <;> rfl
  unfold FCarP.logDensity
  rw [hc, res_bind_ok]
  rfl

end Verif.Theory
