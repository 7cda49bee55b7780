import Verif.Theory.FOrder

/-! `init()` with machine numbers, in terms of lists of (time, value, error) triples. -/

namespace Verif.Theory

open Verif.Model Verif.Spec
open scoped Classical

/-- members of a filter object after `init()` kept the triples `kept` -/
noncomputable def fstored (A : Arith) (kept : List (ℝ × Dbl × Dbl)) : FKF1 :=
  ⟨List.replicate kept.length (.fin 0), List.replicate kept.length (.fin 0), kept.map fun d => .fin d.1,
    (List.range (kept.length - 1)).map fun i => A.rnd ((kept.map fun d => d.1).getD (i + 1) 0 - (kept.map fun d => d.1).getD i 0),
    kept.map fun d => d.2.1, kept.map fun d => d.2.2, .nan, .nan, 0, .nan, .nan⟩

theorem finit_kept {A : Arith} (hA : IsBinary64 A) {srt : List Dbl → List ℕ} (hs : IsSortIndex fun l => srt (l.map .fin)) (data : List (ℝ × Dbl × Dbl))
    (hd : ∀ d ∈ data, F64 d.1) :
    (∀ d1 ∈ data, ∀ d2 ∈ data, d1.1 ≠ d2.1 → ∃ kept, kept.Subperm data ∧ (kept.Pairwise fun a b => a.1 < b.1) ∧
      (∀ d ∈ data, d.1 ∈ kept.map fun d => d.1) ∧ 2 ≤ kept.length ∧
      FKF1.newData A srt (data.map fun d => .fin d.1) (data.map fun d => d.2.1) (data.map fun d => d.2.2) = .ok (fstored A kept) ∧
      (∀ srt', (FKF1.initSort A srt' (fstored A kept) >>= FKF1.initDedup A) = .ok (fstored A kept)) ∧
      ((data.map fun d => d.1).Nodup → kept.Perm data)) ∧
    ((∀ d1 ∈ data, ∀ d2 ∈ data, d1.1 = d2.1) →
      FKF1.newData A srt (data.map fun d => .fin d.1) (data.map fun d => d.2.1) (data.map fun d => d.2.2) = .error .bounds) := by
  set g : ℕ → ℝ × Dbl × Dbl := fun i => data.getD i (0, .nan, .nan) with hg
  set rd' : List (ℝ × ℝ × ℝ) := (List.range data.length).map fun i => ((g i).1, (i : ℝ), (i : ℝ)) with hrd
  set h : ℝ × ℝ × ℝ → ℝ × Dbl × Dbl := fun d => g ⌊d.2.1⌋₊ with hh
  have hmap : rd'.map h = data := by
    rw [hrd, List.map_map]
    refine List.ext_getElem (by simp) fun i h1 h2 => ?_
    simp [hh, hg, h2]
  have hin : ∀ d ∈ rd', (h d).1 = d.1 ∧ d.2.2 = d.2.1 := by
    intro d hd
    obtain ⟨i, -, rfl⟩ := List.mem_map.mp hd
    simp [hh]
  have times : ∀ l : List (ℝ × ℝ × ℝ), (∀ d ∈ l, d ∈ rd') → (l.map h).map (fun d => d.1) = l.map fun d => d.1 := by
    intro l hl
    rw [List.map_map]
    exact List.map_congr_left fun d hd => (hin d (hl d hd)).1
  have ht : data.map (fun d => d.1) = rd'.map fun d => d.1 := by rw [← times rd' fun _ hd => hd, hmap]
  have hF : ∀ x ∈ rd'.map (fun d => d.1), F64 x := by
    rw [← ht]
    intro x hx
    obtain ⟨d, hm, rfl⟩ := List.mem_map.mp hx
    exact hd d hm
  have e : FKF1.newData A srt (data.map fun d => .fin d.1) (data.map fun d => d.2.1) (data.map fun d => d.2.2) =
      Except.map (dec A (fun x => (g ⌊x⌋₊).2.1) fun x => (g ⌊x⌋₊).2.2) ((rawOf rd' 0).init fun l => srt (l.map .fin)) := by
    unfold rawOf
    rw [← dec_newData hA _ _ srt _ _ _ _ hF, ← ht]
    congr 1
    · rw [List.map_map]; rfl
    · refine Eq.trans (congrArg (List.map fun d => d.2.1) hmap.symm) ?_
      clear_value rd'
      rw [List.map_map, List.map_map]; rfl
    · refine Eq.trans (congrArg (List.map fun d => d.2.2) hmap.symm) ?_
      clear_value rd'
      rw [List.map_map, List.map_map]
      exact List.map_congr_left fun d hd => by simp only [Function.comp, hh, (hin d hd).2]
  obtain ⟨a1, a2⟩ := init_kept hs rd' 0
  constructor
  · intro d1 m1 d2 m2 hne
    rw [← hmap] at m1 m2
    obtain ⟨r1, q1, rfl⟩ := List.mem_map.mp m1
    obtain ⟨r2, q2, rfl⟩ := List.mem_map.mp m2
    rw [(hin r1 q1).1, (hin r2 q2).1] at hne
    obtain ⟨kept, k1, k2, k3, k4, k5, k6⟩ := a1 r1 q1 r2 q2 hne
    have sub : ∀ d ∈ kept, d ∈ rd' := fun d hd => k1.subset hd
    have htk := times kept sub
    have st : fstored A (kept.map h) = dec A (fun x => (g ⌊x⌋₊).2.1) (fun x => (g ⌊x⌋₊).2.2) (storedOf kept 0) := by
      unfold dec storedOf fstored rawOf KFBase.raw
      simp only [htk, List.map_replicate, List.length_map]
      congr 1
      · have := congrArg (List.map Dbl.fin) htk
        rw [List.map_map] at this
        exact this
      · rw [List.map_map]; rfl
      · rw [List.map_map, List.map_map]; rfl
      · rw [List.map_map, List.map_map]
        exact List.map_congr_left fun d hd => by simp only [Function.comp, hh, (hin d (sub d hd)).2]
    refine ⟨kept.map h, ?_, ?_, ?_, by rwa [List.length_map], ?_, ?_, ?_⟩
    · obtain ⟨l, l1, l2⟩ := k1
      rw [← hmap]
      exact ⟨l.map h, l1.map h, l2.map h⟩
    · have : (kept.map fun d => d.1).Pairwise (· < ·) := List.pairwise_map.mpr k2
      rw [← htk, List.pairwise_map] at this
      exact this
    · intro d hm
      rw [htk]
      rw [← hmap] at hm
      obtain ⟨r, q, rfl⟩ := List.mem_map.mp hm
      rw [(hin r q).1]
      exact k3 r q
    · rw [e, k5, emap_ok, st]
    · intro srt'
      rw [st, dec_init hA, init_storedOf _ k4 k2, emap_ok]
      intro x hx
      obtain ⟨d, hm, rfl⟩ := List.mem_map.mp hx
      exact hF _ (List.mem_map_of_mem (sub d hm))
    · intro hn
      rw [ht] at hn
      conv_rhs => rw [← hmap]
      exact (k6 hn).map h
  · intro hall
    rw [e, a2 fun r1 q1 r2 q2 => ?_]
    · rfl
    · rw [← (hin r1 q1).1, ← (hin r2 q2).1]
      exact hall _ (by rw [← hmap]; exact List.mem_map_of_mem q1) _ (by rw [← hmap]; exact List.mem_map_of_mem q2)

end Verif.Theory
