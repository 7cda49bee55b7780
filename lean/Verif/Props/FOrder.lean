import Verif.Theory.FUnsorted
import Verif.Spec.FOrder
import Verif.Model.FPredict
import Verif.Model.FPredictP
import Verif.Props.FSign
import Verif.Props.FCarmaRun

/-!
C108: sorting, repeated times and the order of the data, with machine numbers.
-/

namespace Verif.Props

open Verif.Model Verif.Spec Verif.Theory
open scoped Classical

/-- **C108 (what the constructor stores).** Times are finite doubles; values and errors are any doubles, NaN and infinities included. With at least two
different times `init()` stores a selection of the triples, none used twice and values and errors unchanged, with strictly increasing times among which
every time given appears. The stored differences are the rounded differences of the stored times and all are positive: doubles however close are never
taken for equal, and an overflow of a difference does no harm. Running `init()` again, with any sort routine, changes nothing. If all times are different
nothing is dropped, and increasing data are stored as given. Fewer than two different times end in a bounds error. -/
theorem C108_init {A : Arith} (hA : IsBinary64 A) {srt : List Dbl → List ℕ} (hs : SortsFinite srt) (data : List (ℝ × Dbl × Dbl)) (hd : ∀ d ∈ data, F64 d.1) :
    (∀ d1 ∈ data, ∀ d2 ∈ data, d1.1 ≠ d2.1 → ∃ kept s, FKF1.newData A srt (timesOf data) (valuesOf data) (errorsOf data) = .ok s ∧ kept.Subperm data ∧
      s.time = timesOf kept ∧ s.y = valuesOf kept ∧ s.yerr = errorsOf kept ∧
      (kept.Pairwise fun a b => a.1 < b.1) ∧ (∀ d ∈ data, ∃ k ∈ kept, k.1 = d.1) ∧
      (∀ i a b, kept[i]? = some a → kept[i+1]? = some b → s.dt[i]? = some (A.rnd (b.1 - a.1)) ∧ (Dbl.fin 0).lt (A.rnd (b.1 - a.1))) ∧
      s.dt.length + 1 = s.time.length ∧ s.mean.length = s.time.length ∧ s.var.length = s.time.length ∧
      (∀ srt', (FKF1.initSort A srt' s >>= FKF1.initDedup A) = .ok s) ∧
      ((data.map fun d => d.1).Nodup → kept.Perm data) ∧
      ((data.map fun d => d.1).Pairwise (· < ·) → kept = data)) ∧
    ((∀ d1 ∈ data, ∀ d2 ∈ data, d1.1 = d2.1) → FKF1.newData A srt (timesOf data) (valuesOf data) (errorsOf data) = .error .bounds) := by
  obtain ⟨h1, h2⟩ := finit_kept hA hs data hd
  refine ⟨fun d1 m1 d2 m2 hne => ?_, h2⟩
  obtain ⟨kept, k1, k2, k3, k4, k5, k7, k6⟩ := h1 d1 m1 d2 m2 hne
  refine ⟨kept, _, k5, k1, rfl, rfl, rfl, k2, ?_, ?_, ?_, ?_, ?_, k7, k6, ?_⟩
  · intro d hm
    obtain ⟨k, hk, e⟩ := List.mem_map.mp (k3 d hm)
    exact ⟨k, hk, e⟩
  · intro i a b ha hb
    obtain ⟨hb1, hb2⟩ := List.getElem?_eq_some_iff.mp hb
    obtain ⟨ha1, ha2⟩ := List.getElem?_eq_some_iff.mp ha
    constructor
    · simp only [fstored]
      rw [rangeMap_get _ (by omega)]
      simp only [List.getD_eq_getElem?_getD, List.getElem?_map, ha, hb, Option.map_some, Option.getD_some]
    · refine diff_pos hA ⟨a.1, b.1, hd _ (k1.subset (List.mem_of_getElem? ha)), hd _ (k1.subset (List.mem_of_getElem? hb)), rfl⟩ ?_
      have := List.pairwise_iff_getElem.mp k2 i (i + 1) ha1 hb1 (by omega)
      rw [ha2, hb2] at this
      linarith
  · simp [fstored]; omega
  · simp [fstored]
  · simp [fstored]
  · intro hst
    refine List.Perm.eq_of_pairwise (le := fun a b : ℝ × Dbl × Dbl => a.1 < b.1) ?_ k2 (List.pairwise_map.mp hst) (k6 (hst.imp fun h => ne_of_lt h))
    intro a b _ _ h1 h2; exact absurd h1 (lt_asymm h2)

/-- unsorted data with a repeated time and a value that is not a number -/
example : (∀ d ∈ [((2 : ℝ), Dbl.fin 5, Dbl.fin 1), (1, .nan, .fin 2), (2, .fin 7, .pinf)], F64 d.1) ∧
    ∃ d1 ∈ [((2 : ℝ), Dbl.fin 5, Dbl.fin 1), (1, .nan, .fin 2), (2, .fin 7, .pinf)],
    ∃ d2 ∈ [((2 : ℝ), Dbl.fin 5, Dbl.fin 1), (1, .nan, .fin 2), (2, .fin 7, .pinf)], d1.1 ≠ d2.1 := by
  refine ⟨?_, (2, .fin 5, .fin 1), by simp, (1, .nan, .fin 2), by simp, by norm_num⟩
  intro d hd
  have F2 : F64 2 := by simpa using f64_int 2 (by norm_num)
  simp only [List.mem_cons, List.not_mem_nil, or_false] at hd
  rcases hd with rfl | rfl | rfl
  · exact F2
  · exact f64_one
  · exact F2

/-- a sort routine as required -/
lemma sortsFinite_exists : ∃ srt, SortsFinite srt := by
  let key : List Dbl → ℕ → ℝ := fun l i => match l.getD i .nan with | .fin x => x | _ => 0
  refine ⟨fun l => (List.range l.length).mergeSort fun i j => decide (key l i ≤ key l j), fun l => ⟨?_, ?_⟩⟩
  · simpa using List.mergeSort_perm (List.range l.length) _
  · rw [List.pairwise_map]
    have hk : ∀ i < l.length, key (l.map .fin) i = l.getD i 0 := by
      intro i hi
      simp only [key, List.getD_eq_getElem?_getD, List.getElem?_map, List.getElem?_eq_getElem hi, Option.map_some, Option.getD_some]
    have := List.pairwise_mergeSort (le := fun i j => decide (key (l.map .fin) i ≤ key (l.map .fin) j))
      (fun a b c h1 h2 => by simp at *; exact le_trans h1 h2) (fun a b => by simp; exact le_total _ _) (List.range (l.map Dbl.fin).length)
    refine this.imp_of_mem fun {a b} ha hb h => ?_
    have ha := List.mem_range.mp ((List.mergeSort_perm _ _).mem_iff.mp ha)
    have hb := List.mem_range.mp ((List.mergeSort_perm _ _).mem_iff.mp hb)
    rw [List.length_map] at ha hb
    have h : key (l.map .fin) a ≤ key (l.map .fin) b := by simpa using h
    rwa [hk a ha, hk b hb] at h

/-- **C108 (order of the data).** For different times the filter objects of both classes, with the parameters set or left out, are the same in whatever
order the triples are supplied and whichever sort routine is used, bit for bit; so every later call answers the same. -/
theorem C108_order {C : CArith} (hA : IsBinary64 C.r) {srt1 srt2 : List Dbl → List ℕ} (h1 : SortsFinite srt1) (h2 : SortsFinite srt2)
    {d1 d2 : List (ℝ × Dbl × Dbl)} (hp : d1.Perm d2) (hd : ∀ d ∈ d1, F64 d.1) (hnd : (d1.map fun d => d.1).Nodup)
    (sigsqr omega : Dbl) {p : ℕ} (omegas : Fin p → CD) (ma : List Dbl) :
    FKF1.newData C.r srt1 (timesOf d1) (valuesOf d1) (errorsOf d1) = FKF1.newData C.r srt2 (timesOf d2) (valuesOf d2) (errorsOf d2) ∧
    FKF1.new C.r srt1 (timesOf d1) (valuesOf d1) (errorsOf d1) sigsqr omega = FKF1.new C.r srt2 (timesOf d2) (valuesOf d2) (errorsOf d2) sigsqr omega ∧
    FKFp.newData C p srt1 (timesOf d1) (valuesOf d1) (errorsOf d1) = FKFp.newData C p srt2 (timesOf d2) (valuesOf d2) (errorsOf d2) ∧
    FKFp.new C srt1 (timesOf d1) (valuesOf d1) (errorsOf d1) sigsqr omegas ma = FKFp.new C srt2 (timesOf d2) (valuesOf d2) (errorsOf d2) sigsqr omegas ma := by
  have hd2 : ∀ d ∈ d2, F64 d.1 := fun d hm => hd d (hp.mem_iff.mpr hm)
  obtain ⟨a1, b1⟩ := finit_kept hA h1 d1 hd
  obtain ⟨a2, b2⟩ := finit_kept hA h2 d2 hd2
  have key : FKF1.newData C.r srt1 (timesOf d1) (valuesOf d1) (errorsOf d1) = FKF1.newData C.r srt2 (timesOf d2) (valuesOf d2) (errorsOf d2) ∧
      ∀ s, FKF1.newData C.r srt1 (timesOf d1) (valuesOf d1) (errorsOf d1) = .ok s → ∀ srt', (FKF1.initSort C.r srt' s >>= FKF1.initDedup C.r) = .ok s := by
    by_cases h : ∃ x ∈ d1, ∃ y ∈ d1, x.1 ≠ y.1
    · obtain ⟨x, hx, y, hy, hne⟩ := h
      obtain ⟨kept1, -, k2, -, -, k5, k7, k6⟩ := a1 x hx y hy hne
      obtain ⟨kept2, -, l2, -, -, l5, -, l6⟩ := a2 x (hp.mem_iff.mp hx) y (hp.mem_iff.mp hy) hne
      have : kept1 = kept2 := by
        refine List.Perm.eq_of_pairwise (le := fun a b : ℝ × Dbl × Dbl => a.1 < b.1) ?_ k2 l2
          ((k6 hnd).trans (hp.trans (l6 ((hp.map _).nodup_iff.mp hnd)).symm))
        intro a b _ _ h1 h2; exact absurd h1 (lt_asymm h2)
      refine ⟨by unfold timesOf valuesOf errorsOf; rw [k5, l5, this], fun s hs srt' => ?_⟩
      unfold timesOf valuesOf errorsOf at hs
      rw [k5] at hs
      injection hs with hs
      rw [← hs]
      exact k7 srt'
    · push Not at h
      have e1 := b1 h
      refine ⟨e1.trans (b2 fun x hx y hy => h x (hp.mem_iff.mpr hx) y (hp.mem_iff.mpr hy)).symm, fun s hs => ?_⟩
      have := e1.symm.trans hs
      cases this
  obtain ⟨e, idem⟩ := key
  refine ⟨e, by simp only [FKF1.new, e], ?_, by simp only [FKFp.new, e]⟩
  unfold FKFp.newData
  rw [← e]
  cases e1 : FKF1.newData C.r srt1 (timesOf d1) (valuesOf d1) (errorsOf d1) with
  | error f => rfl
  | ok s =>
    have q1 := idem s e1 srt1
    have q2 := idem s e1 srt2
    have : ∀ srt', (FKF1.initSort C.r srt' s >>= FKF1.initDedup C.r) = .ok s →
        ((Except.ok s : Res FKF1) >>= fun b => FKF1.initSort C.r srt' b >>= fun b => FKF1.initDedup C.r b >>= fun b =>
          (pure (FKFp.zeroed p b (fun _ => CD.ofReal (.fin 0)) [] .nan) : Res (FKFp p))) = .ok (FKFp.zeroed p s (fun _ => CD.ofReal (.fin 0)) [] .nan) := by
      intro srt' q
      rw [res_bind_ok, ← bind_assoc]
      have q' : (FKF1.initSort C.r srt' s >>= fun b => FKF1.initDedup C.r b) = .ok s := q
      rw [q']
      rfl
    exact (this srt1 q1).trans (this srt2 q2).symm

/-- three triples in two orders, with different times -/
example : [((2 : ℝ), Dbl.fin 5, Dbl.fin 1), (1, .nan, .fin 2), (3, .fin 7, .pinf)].Perm [(1, .nan, .fin 2), (2, .fin 5, .fin 1), (3, .fin 7, .pinf)] ∧
    (∀ d ∈ [((2 : ℝ), Dbl.fin 5, Dbl.fin 1), (1, .nan, .fin 2), (3, .fin 7, .pinf)], F64 d.1) ∧
    ([((2 : ℝ), Dbl.fin 5, Dbl.fin 1), (1, .nan, .fin 2), (3, .fin 7, .pinf)].map fun d => d.1).Nodup := by
  refine ⟨List.Perm.swap _ _ _, ?_, by simp⟩
  intro d hd
  simp only [List.mem_cons, List.not_mem_nil, or_false] at hd
  rcases hd with rfl | rfl | rfl
  · simpa using f64_int 2 (by norm_num)
  · exact f64_one
  · simpa using f64_int 3 (by norm_num)

/-- **C108 (the log-density of unsorted data).** The model classes look at the data before they are sorted. If some time is smaller than an earlier one, the
objects of all five classes can be built, but their `LogDensity` is `-inf` for every parameter vector: for `CAR1` whenever the last parameter is a number,
for `CARp` and its subclasses always. So the log-posterior of the same data depends on the order of the lines, although the filter does not. -/
theorem C108_unsorted {C : CArith} (hA : IsBinary64 C.r) {srt : List Dbl → List ℕ} (hs : SortsFinite srt) (data : List (ℝ × Dbl × Dbl))
    (hd : ∀ d ∈ data, F64 d.1 ∧ |d.1| ≤ 2 ^ (970 : ℤ)) {i j : ℕ} {a b : ℝ × Dbl × Dbl} (ha : data[i]? = some a) (hb : data[j]? = some b) (hij : i < j) (hlt : b.1 < a.1)
    (maxStdev : Dbl) :
    (∃ s, FCar1.new C.r srt (timesOf data) (valuesOf data) (errorsOf data) maxStdev = .ok s ∧
      ∀ θ : List Dbl, 4 ≤ θ.length → (∃ x, θ[3]? = some (.fin x)) → FCar1.logDensity C.r s θ = .ok (s, .ninf)) ∧
    (∀ (p : ℕ) (kind : Kind), 0 < p → ∃ s, FCarP.new C kind p srt (timesOf data) (valuesOf data) (errorsOf data) maxStdev = .ok s ∧
      ∀ θ : List Dbl, p + 3 ≤ θ.length → FCarP.logDensity C s θ = .ok (s, .ninf)) := by
  obtain ⟨hj, hj2⟩ := List.getElem?_eq_some_iff.mp hb
  obtain ⟨hi, hi2⟩ := List.getElem?_eq_some_iff.mp ha
  set ts : List ℝ := data.map fun d => d.1 with hts
  have tl : ts.length = data.length := by rw [hts, List.length_map]
  have et : timesOf data = ts.map .fin := by rw [hts, List.map_map]; rfl
  obtain ⟨dt, m, e1, e2, hneg⟩ := unsorted_freq hA (ts := ts) (by
    intro t ht
    obtain ⟨d, hm, rfl⟩ := List.mem_map.mp ht
    exact hd d hm) hij (by rw [tl]; exact hj) (by
    simp only [hts, List.getD_eq_getElem?_getD, List.getElem?_map, ha, hb, Option.map_some, Option.getD_some]
    exact hlt)
  have ne : timesOf data ≠ [] := by
    intro h
    rw [et, List.map_eq_nil_iff] at h
    rw [h] at tl
    simp at tl
    omega
  obtain ⟨⟨tmin, e4⟩, tmax, e3⟩ := vec_ok ne
  obtain ⟨kept, -, -, -, -, k5, k7, -⟩ := (finit_kept hA hs data fun d hm => (hd d hm).1).1 a (List.mem_of_getElem? ha) b (List.mem_of_getElem? hb) hlt.ne'
  have k5 : FKF1.newData C.r srt (timesOf data) (valuesOf data) (errorsOf data) = .ok (fstored C.r kept) := k5
  rw [← et] at e1
  constructor
  · refine ⟨_, by
      unfold FCar1.new
      rw [e1, res_bind_ok, e2, res_bind_ok, e3, res_bind_ok, e4, res_bind_ok, k5, res_bind_ok]
      rfl, fun θ h4 hf => car1_rejects hA hneg h4 hf⟩
  · intro p kind hp
    obtain ⟨s1, q1, q2⟩ : ∃ s1, FKF1.initSort C.r srt (fstored C.r kept) = .ok s1 ∧ FKF1.initDedup C.r s1 = .ok (fstored C.r kept) := by
      have := k7 srt
      cases e : FKF1.initSort C.r srt (fstored C.r kept) with
      | error f => rw [e] at this; cases this
      | ok s1 => rw [e] at this; exact ⟨s1, rfl, this⟩
    obtain ⟨s0, n0, n1, n2⟩ : ∃ s0, FCarP.newCarp C p srt (timesOf data) (valuesOf data) (errorsOf data) maxStdev = .ok s0 ∧ s0.maxFreq = C.r.div (.fin 1) m ∧
        s0.ignorePrior = false := by
      refine ⟨_, by
        unfold FCarP.newCarp FKFp.newData
        rw [e1, res_bind_ok, e2, res_bind_ok, e3, res_bind_ok, e4, res_bind_ok, k5, res_bind_ok, q1, res_bind_ok, q2, res_bind_ok]
        simp only [pure_bind, if_neg hp.ne']
        rfl, rfl, rfl⟩
    rw [← n1] at hneg
    obtain ⟨ma, zm, -⟩ := zMA_ok (C := C) (p := p) (by omega) (C.r.div (.fin 1) m)
    have med : ∃ x, FCarP.median C dt = .ok x := by
      unfold FCarP.median
      rw [if_neg]
      · exact ⟨_, rfl⟩
      · rintro (h | h)
        · rw [h] at e2; cases e2
        · rw [et, diffs_dec] at e1
          cases e5 : diffs ts with
          | error f => rw [e5] at e1; cases e1
          | ok ds =>
            rw [e5, emap_ok] at e1
            injection e1 with e1
            rw [← e1] at h
            obtain ⟨d, -, e6⟩ := List.mem_map.mp h
            exact hA.no_nan d e6
    obtain ⟨x, med⟩ := med
    have key : ∃ s, FCarP.new C kind p srt (timesOf data) (valuesOf data) (errorsOf data) maxStdev = .ok s ∧ s.maxFreq = s0.maxFreq ∧ s.ignorePrior = false := by
      unfold FCarP.new
      rw [n0, res_bind_ok]
      cases kind with
      | carp => exact ⟨_, rfl, rfl, n2⟩
      | carma q => exact ⟨_, rfl, rfl, n2⟩
      | zcar =>
        simp only [e1, res_bind_ok, e2, zm]
        exact ⟨_, rfl, rfl, n2⟩
      | zcarma =>
        simp only [e1, res_bind_ok, e2, e3, e4, med]
        exact ⟨_, rfl, rfl, n2⟩
    obtain ⟨s, es, hm, hi⟩ := key
    exact ⟨s, es, fun θ hl => carp_rejects hA hp hi (by rw [hm]; exact hneg) hl⟩

/-- arithmetic rounding to nearest and a sort routine as required -/
example : ∃ srt, SortsFinite srt ∧ IsBinary64 toyC.r := by
  obtain ⟨srt, h⟩ := sortsFinite_exists
  exact ⟨srt, h, C72_nearest⟩

/-- the same three triples: the second time is before the first -/
example : (∀ d ∈ [((2 : ℝ), Dbl.fin 5, Dbl.fin 1), (1, .fin 4, .fin 2), (3, .fin 7, .fin 1)], F64 d.1 ∧ |d.1| ≤ 2 ^ (970 : ℤ)) ∧
    [((2 : ℝ), Dbl.fin 5, Dbl.fin 1), (1, .fin 4, .fin 2), (3, .fin 7, .fin 1)][0]? = some (2, .fin 5, .fin 1) ∧
    [((2 : ℝ), Dbl.fin 5, Dbl.fin 1), (1, .fin 4, .fin 2), (3, .fin 7, .fin 1)][1]? = some (1, .fin 4, .fin 2) ∧ (1 : ℝ) < 2 := by
  refine ⟨?_, rfl, rfl, by norm_num⟩
  have big : (4 : ℝ) ≤ 2 ^ (970 : ℤ) := by
    rw [show (4 : ℝ) = 2 ^ (2 : ℤ) by norm_num]
    exact zpow_le_zpow_right₀ (by norm_num) (by norm_num)
  intro d hd
  simp only [List.mem_cons, List.not_mem_nil, or_false] at hd
  rcases hd with rfl | rfl | rfl
  · exact ⟨by simpa using f64_int 2 (by norm_num), le_trans (by rw [abs_of_pos] <;> norm_num) big⟩
  · exact ⟨f64_one, le_trans (by rw [abs_of_pos] <;> norm_num) big⟩
  · exact ⟨by simpa using f64_int 3 (by norm_num), le_trans (by rw [abs_of_pos] <;> norm_num) big⟩

end Verif.Props
