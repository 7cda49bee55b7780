import Verif.Props.LogPost
import Verif.Theory.Data

/-!
Properties about how data reach the filter: C18 (sorting and de-duplication by the filter constructors) and C19
(dependence of the log-posterior on the order of the data).
-/

namespace Verif.Props

open Verif.Model Verif.Spec Verif.Theory
open scoped Classical

/-- **C18.** Whatever order the sort chooses among equal times, `init()` on at least two (time, value, error) triples with at
least two different times keeps a selection of the triples (no triple used twice) with strictly increasing times that include
every input time; the stored differences are those of the stored times; running `init()` again changes nothing. If all
times are different nothing is dropped; strictly increasing data are stored as given. Fewer than two different times end in
a bounds error. -/
theorem C18_init {srt : List ℝ → List ℕ} (hs : IsSortIndex srt) (data : List (ℝ × ℝ × ℝ)) (sigsqr : ℝ) :
    (∀ d1 ∈ data, ∀ d2 ∈ data, d1.1 ≠ d2.1 → ∃ kept s, (rawOf data sigsqr).init srt = .ok s ∧ kept.Subperm data ∧
      s.time = kept.map (fun d => d.1) ∧ s.y = kept.map (fun d => d.2.1) ∧ s.yerr = kept.map (fun d => d.2.2) ∧
      s.time.Pairwise (· < ·) ∧ (∀ d ∈ data, d.1 ∈ s.time) ∧
      (∀ i a b, s.time[i]? = some a → s.time[i+1]? = some b → s.dt[i]? = some (b - a)) ∧
      s.dt.length + 1 = s.time.length ∧ s.mean.length = s.time.length ∧ s.var.length = s.time.length ∧
      s.sigsqr = sigsqr ∧ s.init srt = .ok s ∧
      ((data.map fun d => d.1).Nodup → kept.Perm data) ∧
      ((data.map fun d => d.1).Pairwise (· < ·) → kept = data)) ∧
    ((∀ d1 ∈ data, ∀ d2 ∈ data, d1.1 = d2.1) → (rawOf data sigsqr).init srt = .error .bounds) := by
  obtain ⟨h1, h2⟩ := init_kept hs data sigsqr
  refine ⟨fun d1 m1 d2 m2 hne => ?_, h2⟩
  obtain ⟨kept, k1, k2, k3, k4, k5, k6⟩ := h1 d1 m1 d2 m2 hne
  refine ⟨kept, _, k5, k1, rfl, rfl, rfl, List.pairwise_map.mpr k2, k3, ?_, ?_, ?_, ?_, rfl, init_storedOf srt k4 k2 sigsqr, k6, ?_⟩
  · intro i a b ha hb
    simp only [storedOf, rawOf, KFBase.raw] at ha hb ⊢
    obtain ⟨hb1, -⟩ := List.getElem?_eq_some_iff.mp hb
    rw [List.length_map] at hb1
    rw [rangeMap_get _ (by omega)]
    simp only [List.getD_eq_getElem?_getD, ha, hb, Option.getD_some]
  · simp [storedOf, rawOf, KFBase.raw]; omega
  · simp [storedOf, rawOf, KFBase.raw]
  · simp [storedOf, rawOf, KFBase.raw]
  · intro hst
    refine List.Perm.eq_of_pairwise (le := fun a b : ℝ × ℝ × ℝ => a.1 < b.1) ?_ k2 (List.pairwise_map.mp hst)
      (k6 (hst.imp fun h => ne_of_lt h))
    intro a b _ _ h1 h2; exact absurd h1 (lt_asymm h2)

/-- unsorted data with a repeated time meet the hypothesis -/
example : ∃ d1 ∈ [((2 : ℝ), (5 : ℝ), (0.1 : ℝ)), (1, 4, 0.2), (2, 7, 0.3)],
    ∃ d2 ∈ [((2 : ℝ), (5 : ℝ), (0.1 : ℝ)), (1, 4, 0.2), (2, 7, 0.3)], d1.1 ≠ d2.1 :=
  ⟨(2, 5, 0.1), by simp, (1, 4, 0.2), by simp, by norm_num⟩

/-- a sorting function as required exists: insertion of positions by merge sort -/
example : ∃ srt, IsSortIndex srt := by
  refine ⟨fun l => (List.range l.length).mergeSort fun i j => decide (l.getD i 0 ≤ l.getD j 0), fun l =>
    ⟨List.mergeSort_perm _ _, ?_⟩⟩
  rw [List.pairwise_map]
  have := List.pairwise_mergeSort (le := fun i j => decide (l.getD i 0 ≤ l.getD j 0))
    (fun a b c h1 h2 => by simp at *; exact le_trans h1 h2) (fun a b => by simp; exact le_total _ _) (List.range l.length)
  exact this.imp fun h => by simpa using h

/-! ### C19 -/

/-- **C19, the part that holds: the filter object.** For different times, the filter built from the data is the same whatever the
order in which the triples are supplied (and whatever sort is used), hence so are `Filter`, `Predict` and `Simulate`.
Missing: the log-posterior of the model classes, which does depend on the order (`C19_negation`, `C19_unsorted_rejected`). -/
theorem C19_filter_order_partial {srt1 srt2 : List ℝ → List ℕ} (h1 : IsSortIndex srt1) (h2 : IsSortIndex srt2)
    {d1 d2 : List (ℝ × ℝ × ℝ)} (hp : d1.Perm d2) (hnd : (d1.map fun d => d.1).Nodup) (sigsqr omega : ℝ)
    {p : ℕ} (omegas : Fin p → ℂ) (ma : List ℝ) :
    KF1.new srt1 (d1.map fun d => d.1) (d1.map fun d => d.2.1) (d1.map fun d => d.2.2) sigsqr omega =
      KF1.new srt2 (d2.map fun d => d.1) (d2.map fun d => d.2.1) (d2.map fun d => d.2.2) sigsqr omega ∧
    KFp.new srt1 (d1.map fun d => d.1) (d1.map fun d => d.2.1) (d1.map fun d => d.2.2) sigsqr omegas ma =
      KFp.new srt2 (d2.map fun d => d.1) (d2.map fun d => d.2.1) (d2.map fun d => d.2.2) sigsqr omegas ma := by
  have key : (rawOf d1 sigsqr).init srt1 = (rawOf d2 sigsqr).init srt2 := by
    obtain ⟨a1, b1⟩ := init_kept h1 d1 sigsqr
    obtain ⟨a2, b2⟩ := init_kept h2 d2 sigsqr
    by_cases h : ∃ x ∈ d1, ∃ y ∈ d1, x.1 ≠ y.1
    · obtain ⟨x, hx, y, hy, hne⟩ := h
      obtain ⟨kept1, -, k2, -, -, k5, k6⟩ := a1 x hx y hy hne
      obtain ⟨kept2, -, l2, -, -, l5, l6⟩ := a2 x (hp.mem_iff.mp hx) y (hp.mem_iff.mp hy) hne
      have : kept1 = kept2 := by
        refine List.Perm.eq_of_pairwise (le := fun a b : ℝ × ℝ × ℝ => a.1 < b.1) ?_ k2 l2
          ((k6 hnd).trans (hp.trans (l6 ((hp.map _).nodup_iff.mp hnd)).symm))
        intro a b _ _ h1 h2; exact absurd h1 (lt_asymm h2)
      rw [k5, l5, this]
    · push Not at h
      rw [b1 h, b2 fun x hx y hy => h x (hp.mem_iff.mpr hx) y (hp.mem_iff.mpr hy)]
  rw [rawOf, rawOf] at key
  simp only [KF1.new, KFp.new, key, and_self]

/-- three triples in two orders, with different times -/
example : [((2 : ℝ), (5 : ℝ), (0.1 : ℝ)), (1, 4, 0.2), (3, 7, 0.3)].Perm [(1, 4, 0.2), (2, 5, 0.1), (3, 7, 0.3)] ∧
    ([((2 : ℝ), (5 : ℝ), (0.1 : ℝ)), (1, 4, 0.2), (3, 7, 0.3)].map fun d => d.1).Nodup := by
  refine ⟨List.Perm.swap _ _ _, ?_⟩
  simp

/-- **C19 fails: unsorted data are always rejected.** If the times are not in nondecreasing order, the model classes derive a
negative `max_freq` and `LogDensity` is `-inf` for every `theta`. -/
theorem C19_unsorted_rejected {srt : List ℝ → List ℕ} (hs : IsSortIndex srt) {n : ℕ} {t : Fin n → ℝ} (y e : Fin n → ℝ)
    {i j : Fin n} (hij : i < j) (hlt : t j < t i) :
    (∃ s, Car1.new srt (List.ofFn t) (List.ofFn y) (List.ofFn e) = .ok s ∧
      ∀ θ : List ℝ, 4 ≤ θ.length → logDensity s θ = .ok (s, .ninf)) ∧
    (∀ (p : ℕ) (kind : Kind), 0 < p → ∃ s, CarP.new kind p srt (List.ofFn t) (List.ofFn y) (List.ofFn e) = .ok s ∧
      ∀ θ : List ℝ, p + 3 ≤ θ.length → logDensity s θ = .ok (s, .ninf)) := by
  have hn : 2 ≤ n := by have := i.2; have := j.2; omega
  have hne : ∃ i < n, ∃ j < n, ext0 t i ≠ ext0 t j := by
    refine ⟨i, i.2, j, j.2, ?_⟩
    rw [ext0_of_lt t i.2, ext0_of_lt t j.2]; exact hlt.ne'
  have hd : ∃ k, k + 1 < n ∧ ext0 t (k+1) < ext0 t k := by
    by_contra hcon
    push Not at hcon
    have := le_of_step (t := ext0 t) (n := n) (fun i hi => hcon i hi) (show (i : ℕ) ≤ j by omega) j.2
    rw [ext0_of_lt t i.2, ext0_of_lt t j.2] at this
    exact absurd this (not_le.mpr hlt)
  obtain ⟨k, hk, hkd⟩ := hd
  obtain ⟨dmin, tmax, tmin, m1, m2, m3, -, -, -, hb⟩ := carBase_new hn (ext0 t) ((List.range n).map (ext0 y))
    ((List.range n).map (ext0 e))
  have hdneg : dmin < 0 := by
    have : dmin ≤ _ := m1.2 (List.mem_map.mpr ⟨k, by simp; omega, rfl⟩)
    linarith
  have hspan : tmax - tmin ≠ 0 := by
    have h1 : ext0 t k ≤ tmax := m2.2 (List.mem_map.mpr ⟨k, by simp; omega, rfl⟩)
    have h2 : tmin ≤ ext0 t (k+1) := m3.2 (List.mem_map.mpr ⟨k+1, by simp; omega, rfl⟩)
    intro h; linarith
  have hfneg : 1 / dmin < 0 := one_div_neg.mpr hdneg
  set b : CarBase := { time := (List.range n).map (ext0 t), y := (List.range n).map (ext0 y), yerr := (List.range n).map (ext0 e), maxStdev := 10 * √(armaVar ((List.range n).map (ext0 y))), maxFreq := Dbl.div (.fin 1) (.fin dmin), minFreq := Dbl.div (.fin 1) (.fin (tmax - tmin)), ignorePrior := false } with hbdef
  have hmax : b.maxFreq = .fin (1 / dmin) := by simp [hbdef, Dbl.div, hdneg.ne]
  have hmin : b.minFreq = .fin (1 / (tmax - tmin)) := by simp [hbdef, Dbl.div, hspan]
  simp only [ofFn_eq_rangeMap t, ofFn_eq_rangeMap y, ofFn_eq_rangeMap e]
  constructor
  · obtain ⟨s, J, -, h2, h3⟩ := car1_new (srt := srt) (ext0 t) (ext0 y) (ext0 e) (init_any hs hn _ _ _ _ hne) hb
    refine ⟨s, h2, fun θ hθ => ?_⟩
    refine (C13_car1_bounds s (by rw [h3.base]; exact hmax) (by rw [h3.base]; exact hmin) θ hθ).2 fun hB => ?_
    have := hB.hi
    linarith [Real.exp_pos (at0 θ 3)]
  · intro p kind hp
    obtain ⟨s, J, -, h2, h3, h4, -⟩ := carp_new (srt := srt) hp hn (ext0 t) (ext0 y) (ext0 e) (init_any hs hn _ _ _ _ hne) hb kind
    refine ⟨s, h2, fun θ hθ => ?_⟩
    obtain ⟨roots, r1, -, r3⟩ := C13_carp_bounds s (by rw [h4.base]; exact hmax) (by rw [h4.base]; exact hmin)
      (by rw [h4.base]) h4.lor θ hθ
    refine r3 fun hB => ?_
    obtain ⟨roots', r1', hg⟩ := rootsFrom_spec θ 3 p (by omega)
    cases r1.symm.trans r1'
    obtain ⟨r, hr⟩ := List.exists_mem_of_length_pos (l := roots) (by rw [hg.length]; exact hp)
    have h5 := hB.cent r hr
    have h6 : 0 ≤ |r.im| / (2 * Real.pi) := by positivity
    linarith

/-- **C19 fails.** The same three data points and the same `theta`: finite log-posterior in increasing order of time, `-inf` in
decreasing order. -/
theorem C19_negation {srt : List ℝ → List ℕ} (hs : IsSortIndex srt) : ∃ (d1 d2 : List (ℝ × ℝ × ℝ)) (θ : List ℝ) (s1 s2 : Car1)
    (s1' s2' : Car1) (v : ℝ), d1.Perm d2 ∧ (d1.map fun d => d.1).Nodup ∧
    Car1.new srt (d1.map fun d => d.1) (d1.map fun d => d.2.1) (d1.map fun d => d.2.2) = .ok s1 ∧
    Car1.new srt (d2.map fun d => d.1) (d2.map fun d => d.2.1) (d2.map fun d => d.2.2) = .ok s2 ∧
    logDensity s1 θ = .ok (s1', .fin v) ∧ logDensity s2 θ = .ok (s2', .ninf) := by
  obtain ⟨dmin, span, s, h1, h2, h3, h4⟩ := C05_car1_logpost srt (by norm_num) exT_mono exY exY [1, 1, 0, -1] (by simp)
  obtain ⟨s', h5⟩ := h4 (ex_car1_bounds h1 h2) (Or.inl (by simp [at0]))
  obtain ⟨⟨s2, h6, h7⟩, -⟩ := C19_unsorted_rejected hs (t := ![10, 1, 0]) ![2, 1, 0] ![2, 1, 0] (i := 0) (j := 1) (by decide)
    (by simp)
  refine ⟨[(0, 0, 0), (1, 1, 1), (10, 2, 2)], [(10, 2, 2), (1, 1, 1), (0, 0, 0)], [1, 1, 0, -1], s, s2, s', s2, _, ?_, ?_, ?_, ?_,
    h5, h7 _ (by simp)⟩
  · exact (List.reverse_perm [((10:ℝ), (2:ℝ), (2:ℝ)), (1, 1, 1), (0, 0, 0)])
  · simp
  · simpa [exT, exY, List.ofFn_succ] using h3
  · simpa [List.ofFn_succ] using h6

end Verif.Props
