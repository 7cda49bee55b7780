import Verif.Theory.Build

/-! Helper theory: `init()` in terms of lists of (time, value, error) triples. -/

namespace Verif.Theory

open Verif.Model
open scoped Classical

/-- members of a filter object before `init()`, for a list of (time, value, error) triples -/
def rawOf (data : List (ℝ × ℝ × ℝ)) (sigsqr : ℝ) : KFBase :=
  KFBase.raw (data.map fun d => d.1) (data.map fun d => d.2.1) (data.map fun d => d.2.2) sigsqr

lemma map_getD {β : Type} (l : List (ℝ × ℝ × ℝ)) (f : ℝ × ℝ × ℝ → β) :
    l.map f = (List.range l.length).map fun i => f (l.getD i (0, 0, 0)) := by
  refine List.ext_getElem (by simp) fun i h1 h2 => ?_
  simp at h1
  simp [h1]

/-- members of a filter object after `init()` kept the triples `kept` -/
noncomputable def storedOf (kept : List (ℝ × ℝ × ℝ)) (sigsqr : ℝ) : KFBase :=
  { rawOf kept sigsqr with
      dt := (List.range (kept.length-1)).map fun i => (kept.map fun d => d.1).getD (i+1) 0 - (kept.map fun d => d.1).getD i 0
      mean := List.replicate kept.length 0
      var := List.replicate kept.length 0 }

lemma init_kept {srt : List ℝ → List ℕ} (hs : IsSortIndex srt) (data : List (ℝ × ℝ × ℝ)) (sigsqr : ℝ) :
    (∀ d1 ∈ data, ∀ d2 ∈ data, d1.1 ≠ d2.1 → ∃ kept, kept.Subperm data ∧ (kept.Pairwise fun a b => a.1 < b.1) ∧
      (∀ d ∈ data, d.1 ∈ kept.map fun d => d.1) ∧ 2 ≤ kept.length ∧
      (rawOf data sigsqr).init srt = .ok (storedOf kept sigsqr) ∧
      ((data.map fun d => d.1).Nodup → kept.Perm data)) ∧
    ((∀ d1 ∈ data, ∀ d2 ∈ data, d1.1 = d2.1) → (rawOf data sigsqr).init srt = .error .bounds) := by
  set g := fun i => data.getD i (0, 0, 0) with hg
  set n := data.length with hn
  have hraw : rawOf data sigsqr = KFBase.raw ((List.range n).map fun i => (g i).1) ((List.range n).map fun i => (g i).2.1)
      ((List.range n).map fun i => (g i).2.2) sigsqr := by
    rw [rawOf, map_getD, map_getD data fun d => d.2.1, map_getD data fun d => d.2.2]
  have hdata : data = (List.range n).map g := by
    have := map_getD data id
    rw [List.map_id] at this; exact this
  have hmem : ∀ i < n, g i ∈ data := fun i hi => by
    simp only [hg, List.getD_eq_getElem?_getD, List.getElem?_eq_getElem (show i < data.length from hi), Option.getD_some]
    exact List.getElem_mem _
  constructor
  · intro d1 h1 d2 h2 hne
    obtain ⟨i, hi, rfl⟩ : ∃ i < n, g i = d1 := by rw [hdata] at h1; simpa using h1
    obtain ⟨j, hj, rfl⟩ : ∃ i < n, g i = d2 := by rw [hdata] at h2; simpa using h2
    have h2n : 2 ≤ n := by
      by_contra hlt
      have : i = j := by omega
      exact hne (by rw [this])
    obtain ⟨J, hJ, hi'⟩ := init_any hs h2n (fun i => (g i).1) (fun i => (g i).2.1) (fun i => (g i).2.2) sigsqr
      ⟨i, hi, j, hj, hne⟩
    rw [← hraw] at hi'
    have hsub : (J.map g).Subperm data := by
      obtain ⟨l, hl1, hl2⟩ := List.subperm_of_subset (l₂ := List.range n) hJ.nodup fun j hj => by simpa using hJ.lt j hj
      rw [hdata]
      exact ⟨l.map g, hl1.map g, hl2.map g⟩
    have hperm : (data.map fun d => d.1).Nodup → (J.map g).Perm data := by
      intro hnd
      have hl : J.length = n := by
        rw [hJ.length_eq]
        intro a ha b hb hab
        rw [map_getD data, ← hn] at hnd
        exact List.inj_on_of_nodup_map hnd (by simpa using ha) (by simpa using hb) hab
      exact hsub.perm_of_length_le (by rw [List.length_map, hl])
    have hsort : (J.map g).Pairwise fun a b => a.1 < b.1 := by
      have := hJ.sorted
      rw [List.pairwise_map] at this ⊢
      exact this
    have htwo := hJ.two
    refine ⟨J.map g, hsub, hsort, ?_, by simpa using htwo, ?_, hperm⟩
    · intro d hd
      rw [hdata] at hd
      obtain ⟨i, hi, rfl⟩ := List.mem_map.mp hd
      have := hJ.all i (by simpa using hi)
      rw [List.map_map]; exact this
    · rw [hi', storedOf, stored]
      simp only [rawOf, KFBase.raw, List.map_map, List.length_map, Function.comp_def]
  · intro hall
    rw [hraw]
    by_cases h2n : 2 ≤ n
    · exact init_const hs h2n _ _ _ _ fun i hi => hall _ (hmem i hi) _ (hmem 0 (by omega))
    · simp only [KFBase.init, initSort, KFBase.raw, diffs, List.length_map, List.length_range]
      rw [if_pos (by omega)]; rfl

/-- re-running `init()` on stored triples changes nothing -/
lemma init_storedOf (srt : List ℝ → List ℕ) {kept : List (ℝ × ℝ × ℝ)} (h2 : 2 ≤ kept.length)
    (hs : kept.Pairwise fun a b => a.1 < b.1) (sigsqr : ℝ) :
    (storedOf kept sigsqr).init srt = .ok (storedOf kept sigsqr) := by
  have := init_sorted srt (storedOf kept sigsqr) h2 (t := fun i => (kept.map fun d => d.1).getD i 0) ?_ ?_
  · rw [this]; rfl
  · conv_lhs => rw [storedOf, rawOf, KFBase.raw]
    have := eq_rangeMap_getD (kept.map fun d => d.1)
    rw [List.length_map] at this; exact this
  · intro i hi
    have h := List.pairwise_iff_getElem.mp hs i (i+1) (by omega) hi (by omega)
    simpa [List.getD_eq_getElem?_getD, hi, show i < kept.length by omega] using h

end Verif.Theory
