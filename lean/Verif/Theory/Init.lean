import Verif.Theory.Car1

/-! Helper theory: `init()` on arbitrary data. -/

namespace Verif.Theory

open Verif.Model
open scoped Classical

lemma gather_eq {α : Type} [Inhabited α] {l : List α} {f : ℕ → α} {idx : List ℕ} (h : ∀ i ∈ idx, l[i]? = some (f i)) :
    gather l idx = .ok (idx.map f) := by
  induction idx with
  | nil => rfl
  | cons a idx ih =>
    have h1 := ih fun i hi => h i (List.mem_cons_of_mem _ hi)
    rw [gather] at h1
    rw [gather, List.mapM_cons, rd_ok (h a List.mem_cons_self)]
    simp only [res_bind_ok, h1, res_pure, List.map_cons]

lemma gather_short {α : Type} {l : List α} {idx : List ℕ} (h : ∃ i ∈ idx, l.length ≤ i) :
    gather l idx = .error .bounds := by
  induction idx with
  | nil => simp at h
  | cons a idx ih =>
    rw [gather, List.mapM_cons]
    by_cases ha : l.length ≤ a
    · have : rd l a = .error .bounds := by simp [rd, List.getElem?_eq_none ha]
      rw [this]; rfl
    · have h2 : ∃ i ∈ idx, l.length ≤ i := by
        obtain ⟨i, hi, hl⟩ := h
        rcases List.mem_cons.mp hi with rfl | hi
        · exact absurd hl ha
        · exact ⟨i, hi, hl⟩
      have h3 := ih h2
      rw [gather] at h3
      rw [rd_ok (List.getElem?_eq_getElem (by omega : a < l.length)), res_bind_ok, h3]; rfl

/-- a list as a range map -/
lemma eq_rangeMap_getD (l : List ℝ) : l = (List.range l.length).map fun i => l.getD i 0 := by
  apply List.ext_getElem?
  intro i
  by_cases h : i < l.length
  · rw [rangeMap_get _ h]; simp [h]
  · rw [List.getElem?_eq_none (by omega), List.getElem?_eq_none (by simp; omega)]

lemma pairwise_range_map {n : ℕ} {t : ℕ → ℝ} {R : ℝ → ℝ → Prop} :
    ((List.range n).map t).Pairwise R ↔ ∀ i j, i < j → j < n → R (t i) (t j) := by
  rw [List.pairwise_map]
  constructor
  · intro h i j hij hj
    rw [List.pairwise_iff_getElem] at h
    have := h i j (by simp; omega) (by simpa using hj) hij
    simpa using this
  · intro h
    rw [List.pairwise_iff_getElem]
    intro i j hi hj hij
    simp only [List.getElem_range]
    exact h i j hij (by simpa using hj)

/-- nondecreasing iff no difference is negative -/
lemma mono_iff_diffs {n : ℕ} {t : ℕ → ℝ} :
    (∃ d ∈ (List.range (n-1)).map (fun i => t (i+1) - t i), d < 0) ↔ ¬ ((List.range n).map t).Pairwise (· ≤ ·) := by
  rw [pairwise_range_map]
  constructor
  · rintro ⟨d, hd, h0⟩ h
    obtain ⟨i, hi, rfl⟩ := List.mem_map.mp hd
    have := h i (i+1) (by omega) (by simp at hi; omega)
    linarith
  · intro h
    by_contra hno
    push Not at hno
    apply h
    intro i j hij hj
    refine le_of_step (t := t) (n := n) (fun k hk => ?_) hij.le hj
    have := hno (t (k+1) - t k) (List.mem_map.mpr ⟨k, by simp; omega, rfl⟩)
    linarith

/-- what `initSort` achieves -/
lemma initSort_spec {srt : List ℝ → List ℕ} (hs : IsSortIndex srt) {n : ℕ} (hn : 2 ≤ n) (t y e : ℕ → ℝ) (σ2 : ℝ) :
    ∃ idx : List ℕ, idx.Perm (List.range n) ∧ (idx.map t).Pairwise (· ≤ ·) ∧
      ((∀ i j, i < j → j < n → t i ≤ t j) → idx = List.range n) ∧
      initSort srt (KFBase.raw ((List.range n).map t) ((List.range n).map y) ((List.range n).map e) σ2) =
        .ok { KFBase.raw (idx.map t) (idx.map y) (idx.map e) σ2 with
          dt := (List.range (n-1)).map fun i => (idx.map t).getD (i+1) 0 - (idx.map t).getD i 0 } := by
  by_cases hneg : ∃ d ∈ (List.range (n-1)).map (fun i => t (i+1) - t i), d < 0
  · obtain ⟨h1, h2⟩ := hs ((List.range n).map t)
    simp only [List.length_map, List.length_range] at h1
    set idx := srt ((List.range n).map t) with hidx
    have hlt : ∀ i ∈ idx, i < n := fun i hi => by simpa using h1.mem_iff.mp hi
    have hmap : idx.map (fun i => ((List.range n).map t).getD i 0) = idx.map t := by
      apply List.map_congr_left
      intro i hi
      simp [hlt i hi]
    rw [hmap] at h2
    have hlen : (idx.map t).length = n := by rw [List.length_map, h1.length_eq, List.length_range]
    refine ⟨idx, h1, h2, fun hm => ?_, ?_⟩
    · exact absurd (pairwise_range_map.mpr hm) (mono_iff_diffs.mp hneg)
    · have hg : ∀ f : ℕ → ℝ, gather ((List.range n).map f) idx = .ok (idx.map f) :=
        fun f => gather_eq fun i hi => rangeMap_get f (hlt i hi)
      have hd := diffs_rangeMap (n := n) hn fun i => (idx.map t).getD i 0
      have h3 : (List.range n).map (fun i => (idx.map t).getD i 0) = idx.map t := by
        conv_rhs => rw [eq_rangeMap_getD (idx.map t), hlen]
      rw [h3] at hd
      simp only [initSort, KFBase.raw, diffs_rangeMap hn, res_bind_ok, hneg, if_true, ← hidx, hg, hd, res_pure]
  · have hm := mt mono_iff_diffs.mpr hneg
    rw [not_not] at hm
    refine ⟨List.range n, List.Perm.refl _, hm, fun _ => rfl, ?_⟩
    simp only [initSort, KFBase.raw, diffs_rangeMap hn, res_bind_ok, hneg, if_false, res_pure]
    congr 2
    apply List.map_congr_left
    intro i hi
    rw [List.mem_range] at hi
    have h1 : i + 1 < n := by omega
    have h2 : i < n := by omega
    simp [h1, h2]

/-- positions kept by the duplicate removal -/
lemma uniqueIdx_spec {n : ℕ} (hn : 0 < n) {u : ℕ → ℝ} (hm : ∀ i j, i < j → j < n → u i ≤ u j) :
    let K := uniqueIdx ((List.range (n-1)).map fun i => u (i+1) - u i)
    (∀ k ∈ K, k < n) ∧ K.Nodup ∧ (K.map u).Pairwise (· < ·) ∧ (∀ i < n, u i ∈ K.map u) := by
  intro K
  have hmem : ∀ k, k ∈ K ↔ k = 0 ∨ ∃ i, k = i + 1 ∧ i + 1 < n ∧ u (i+1) ≠ u i := by
    intro k
    simp only [K, uniqueIdx, List.mem_cons, List.mem_map, List.mem_filter, List.mem_range, List.length_map,
      List.length_range, decide_eq_true_eq]
    constructor
    · rintro (h | ⟨i, ⟨hi, hne⟩, rfl⟩)
      · exact Or.inl h
      · right
        refine ⟨i, by omega, by omega, ?_⟩
        rw [List.getD_eq_getElem?_getD, rangeMap_get (fun i => u (i+1) - u i) hi] at hne
        simpa [sub_eq_zero] using hne
    · rintro (h | ⟨i, rfl, hi, hne⟩)
      · exact Or.inl h
      · right
        refine ⟨i, ⟨by omega, ?_⟩, by omega⟩
        rw [List.getD_eq_getElem?_getD, rangeMap_get (fun i => u (i+1) - u i) (by omega)]
        simpa [sub_eq_zero] using hne
  have hlt : ∀ k ∈ K, k < n := by
    intro k hk
    rcases (hmem k).mp hk with rfl | ⟨i, rfl, hi, -⟩
    · exact hn
    · exact hi
  have hord : K.Pairwise (· < ·) := by
    simp only [K, uniqueIdx, List.pairwise_cons, List.pairwise_map]
    refine ⟨?_, ?_⟩
    · intro a ha
      obtain ⟨i, _, rfl⟩ := List.mem_map.mp ha
      omega
    · exact List.Pairwise.imp (by intro a b h; omega) (List.pairwise_lt_range.filter _)
  refine ⟨hlt, hord.imp (fun h => Nat.ne_of_lt h), ?_, ?_⟩
  · rw [List.pairwise_map]
    refine List.Pairwise.imp_of_mem ?_ hord
    intro a b ha hb hab
    rcases (hmem b).mp hb with rfl | ⟨i, rfl, hi, hne⟩
    · omega
    · have h1 : u i < u (i+1) := lt_of_le_of_ne (hm i (i+1) (by omega) hi) (Ne.symm hne)
      have h2 : u a ≤ u i := by
        rcases Nat.lt_or_ge a i with h | h
        · exact hm a i h (by omega)
        · rw [show a = i by omega]
      exact lt_of_le_of_lt h2 h1
  · intro i hi
    induction i with
    | zero => exact List.mem_map.mpr ⟨0, (hmem 0).mpr (Or.inl rfl), rfl⟩
    | succ i ih =>
      by_cases h : u (i+1) = u i
      · rw [h]; exact ih (by omega)
      · exact List.mem_map.mpr ⟨i+1, (hmem _).mpr (Or.inr ⟨i, rfl, hi, h⟩), rfl⟩

/-- the stored data after `init()` on `n ≥ 2` triples with at least two different times; with a single distinct time the
re-computation of the differences is a bounds error -/
lemma init_spec {srt : List ℝ → List ℕ} (hs : IsSortIndex srt) {n : ℕ} (hn : 2 ≤ n) (t y e : ℕ → ℝ) (σ2 : ℝ) :
    (∃ i < n, ∃ j < n, t i ≠ t j) → ∃ J : List ℕ, (∀ j ∈ J, j < n) ∧ J.Nodup ∧ 2 ≤ J.length ∧
      (J.map t).Pairwise (· < ·) ∧ (∀ i < n, t i ∈ J.map t) ∧
      (KFBase.raw ((List.range n).map t) ((List.range n).map y) ((List.range n).map e) σ2).init srt =
        .ok { KFBase.raw (J.map t) (J.map y) (J.map e) σ2 with
          dt := (List.range (J.length-1)).map fun i => (J.map t).getD (i+1) 0 - (J.map t).getD i 0
          mean := List.replicate J.length 0
          var := List.replicate J.length 0 } := by
  rintro ⟨i0, hi0, j0, hj0, hne⟩
  obtain ⟨idx, hperm, hsort, -, hinit⟩ := initSort_spec hs hn t y e σ2
  have hlt : ∀ i ∈ idx, i < n := fun i hi => by simpa using hperm.mem_iff.mp hi
  have hlen : idx.length = n := by rw [hperm.length_eq, List.length_range]
  set u : ℕ → ℝ := fun i => (idx.map t).getD i 0 with hu
  have hget : ∀ i < n, ∃ j ∈ idx, idx.getD i 0 = j ∧ ∀ f : ℕ → ℝ, (idx.map f)[i]? = some (f j) := by
    intro i hi
    refine ⟨idx[i]'(by omega), List.getElem_mem _, ?_, fun f => ?_⟩
    · rw [List.getD_eq_getElem?_getD, List.getElem?_eq_getElem (by omega)]; rfl
    · rw [List.getElem?_map, List.getElem?_eq_getElem (by omega)]; rfl
  have hug : ∀ i < n, u i = t (idx.getD i 0) := by
    intro i hi
    obtain ⟨j, -, h1, h2⟩ := hget i hi
    rw [h1]; simp only [hu, List.getD_eq_getElem?_getD, h2 t]; rfl
  have humap : (List.range n).map u = idx.map t := by
    conv_rhs => rw [eq_rangeMap_getD (idx.map t), List.length_map, hlen]
  have hmono : ∀ i j, i < j → j < n → u i ≤ u j := by
    rw [← humap] at hsort; exact pairwise_range_map.mp hsort
  have hall : ∀ i < n, ∃ k < n, u k = t i := by
    intro i hi
    have : t i ∈ idx.map t := List.mem_map_of_mem (hperm.mem_iff.mpr (by simpa using hi))
    rw [← humap] at this
    obtain ⟨k, hk, h⟩ := List.mem_map.mp this
    exact ⟨k, by simpa using hk, h⟩
  have two : ∀ L : List ℝ, t i0 ∈ L → t j0 ∈ L → 2 ≤ L.length := by
    intro L h1 h2
    match L, h1, h2 with
    | [a], h1, h2 =>
      simp at h1 h2; exact absurd (h1.trans h2.symm) hne
    | a :: b :: L, _, _ => simp
  rw [KFBase.init, hinit, res_bind_ok]
  change ∃ J : List ℕ, _ ∧ _ ∧ _ ∧ _ ∧ _ ∧ initDedup { KFBase.raw (idx.map t) (idx.map y) (idx.map e) σ2 with
    dt := (List.range (n-1)).map fun i => u (i+1) - u i } = _
  by_cases hz : (∀ d ∈ (List.range (n-1)).map (fun i => u (i+1) - u i), 0 ≤ d) ∧
      ∃ d ∈ (List.range (n-1)).map (fun i => u (i+1) - u i), d = 0
  · obtain ⟨hK1, hK2, hK3, hK4⟩ := uniqueIdx_spec (n := n) (by omega) hmono
    set K := uniqueIdx ((List.range (n-1)).map fun i => u (i+1) - u i) with hKd
    set J := K.map fun k => idx.getD k 0 with hJ
    have hJm : ∀ f : ℕ → ℝ, gather (idx.map f) K = .ok (J.map f) := by
      intro f
      rw [gather_eq (f := fun k => f (idx.getD k 0)), hJ, List.map_map]; rfl
      intro k hk
      obtain ⟨j, -, h1, h2⟩ := hget k (hK1 k hk)
      rw [h2 f, h1]
    have hJt : J.map t = K.map u := by
      rw [hJ, List.map_map]; apply List.map_congr_left
      intro k hk; exact (hug k (hK1 k hk)).symm
    have hmem : ∀ i < n, t i ∈ J.map t := by
      intro i hi
      obtain ⟨k, hk, h⟩ := hall i hi
      rw [hJt, ← h]; exact hK4 k hk
    have h2J : 2 ≤ J.length := by
      have := two (J.map t) (hmem i0 hi0) (hmem j0 hj0)
      simpa using this
    refine ⟨J, ?_, ?_, h2J, hJt ▸ hK3, hmem, ?_⟩
    · intro j hj
      obtain ⟨k, hk, rfl⟩ := List.mem_map.mp hj
      obtain ⟨j, hj, h1, -⟩ := hget k (hK1 k hk)
      rw [h1]; exact hlt j hj
    · rw [hJ]
      refine List.Nodup.map_on ?_ hK2
      intro a ha b hb hab
      have hnd : idx.Nodup := hperm.nodup_iff.mpr List.nodup_range
      have ha' := hK1 a ha; have hb' := hK1 b hb
      rw [List.getD_eq_getElem?_getD, List.getD_eq_getElem?_getD, List.getElem?_eq_getElem (by omega),
        List.getElem?_eq_getElem (by omega)] at hab
      exact (List.Nodup.getElem_inj_iff hnd).mp hab
    · have hd := diffs_rangeMap h2J fun i => (J.map t).getD i 0
      have h3 : (List.range J.length).map (fun i => (J.map t).getD i 0) = J.map t := by
        conv_rhs => rw [eq_rangeMap_getD (J.map t), List.length_map]
      rw [h3] at hd
      simp only [initDedup, if_pos hz, KFBase.raw, ← hKd, hJm, res_bind_ok, hd, res_pure, List.length_map]
  · have hpos : ∀ i j, i < j → j < n → u i < u j := by
      intro i j hij hj
      have hstep : ∀ k, k + 1 < n → u k < u (k+1) := by
        intro k hk
        refine lt_of_le_of_ne (hmono k (k+1) (by omega) hk) fun heq => hz ⟨?_, ?_⟩
        · intro d hd
          obtain ⟨i, hi, rfl⟩ := List.mem_map.mp hd
          have := hmono i (i+1) (by omega) (by simp at hi; omega)
          linarith
        · exact ⟨_, List.mem_map.mpr ⟨k, by simp; omega, rfl⟩, by rw [heq, sub_self]⟩
      have h1 := hstep i (by omega)
      refine lt_of_lt_of_le h1 (le_of_step (t := u) (n := n) (fun k hk => (hstep k hk).le) (by omega) hj)
    refine ⟨idx, hlt, hperm.nodup_iff.mpr List.nodup_range, by omega, ?_, ?_, ?_⟩
    · rw [← humap]; exact pairwise_range_map.mpr hpos
    · intro i hi
      exact List.mem_map_of_mem (hperm.mem_iff.mpr (by simpa using hi))
    · simp only [initDedup, hz, if_false, KFBase.raw, res_bind_ok, res_pure, List.length_map, hlen]; rfl

/-- all times equal: `init()` ends in a bounds error -/
lemma init_const {srt : List ℝ → List ℕ} (hs : IsSortIndex srt) {n : ℕ} (hn : 2 ≤ n) (t y e : ℕ → ℝ) (σ2 : ℝ)
    (h : ∀ i < n, t i = t 0) :
    (KFBase.raw ((List.range n).map t) ((List.range n).map y) ((List.range n).map e) σ2).init srt = .error .bounds := by
  have hd : ∀ d ∈ (List.range (n-1)).map (fun i => t (i+1) - t i), d = 0 := by
    intro d hd
    obtain ⟨i, hi, rfl⟩ := List.mem_map.mp hd
    rw [List.mem_range] at hi
    rw [h (i+1) (by omega), h i (by omega), sub_self]
  have hneg : ¬ ∃ d ∈ (List.range (n-1)).map (fun i => t (i+1) - t i), d < 0 := by
    rintro ⟨d, hd', h0⟩; rw [hd d hd'] at h0; exact lt_irrefl _ h0
  have hz : (∀ d ∈ (List.range (n-1)).map (fun i => t (i+1) - t i), 0 ≤ d) ∧
      ∃ d ∈ (List.range (n-1)).map (fun i => t (i+1) - t i), d = 0 :=
    ⟨fun d hd' => (hd d hd').ge, t 1 - t 0, List.mem_map.mpr ⟨0, by simp; omega, rfl⟩, by rw [h 1 (by omega), sub_self]⟩
  have hidx : uniqueIdx ((List.range (n-1)).map fun i => t (i+1) - t i) = [0] := by
    simp only [uniqueIdx, List.cons.injEq, List.map_eq_nil_iff, List.filter_eq_nil_iff, true_and]
    intro i hi
    simp only [List.length_map, List.length_range, List.mem_range] at hi
    rw [List.getD_eq_getElem?_getD, rangeMap_get (fun i => t (i+1) - t i) hi]
    simpa using hd _ (List.mem_map.mpr ⟨i, by simpa using hi, rfl⟩)
  have hg : ∀ f : ℕ → ℝ, gather ((List.range n).map f) [0] = .ok [f 0] := fun f =>
    gather_eq (f := f) fun i hi => by simp at hi; subst hi; exact rangeMap_get f (by omega)
  simp only [KFBase.init, initSort, KFBase.raw, diffs_rangeMap hn, res_bind_ok, hneg, if_false, res_pure, initDedup, if_pos hz,
    hidx, hg]
  rfl

end Verif.Theory
