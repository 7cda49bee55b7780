import Verif.Model.PyModel
import Verif.Spec.Order
import Verif.Theory.Init
import Verif.Theory.Build
import Verif.Theory.Data

/-!
Lemmas on the Python class `CarmaModel`.
-/

namespace Verif.Theory

open Verif.Model Verif.Spec

namespace Dbl

lemma lt_trans {a b c : Model.Dbl} (h1 : a.lt b) (h2 : b.lt c) : a.lt c := by
  cases a <;> cases b <;> cases c <;> simp [Model.Dbl.lt] at h1 h2 ⊢ <;> linarith

lemma lt_irrefl (a : Model.Dbl) : ¬ a.lt a := by
  cases a <;> simp [Model.Dbl.lt]

lemma lt_asymm {a b : Model.Dbl} (h1 : a.lt b) : ¬ b.lt a := fun h => lt_irrefl a (lt_trans h1 h)

/-- values that are not below `a`, when `a` is a number, include everything above something not below `a` -/
lemma not_lt_of_lt {a b c : Model.Dbl} (h1 : ¬ b.lt a) (h2 : b.lt c) : ¬ c.lt a := fun h => h1 (lt_trans h2 h)

/-- a number strictly above something that is not larger -/
lemma lt_of_lt_of_not_lt {a b c : Model.Dbl} (h1 : a.lt b) (h2 : ¬ c.lt b) : c = .nan ∨ a.lt c := by
  cases a <;> cases b <;> cases c <;> simp [Model.Dbl.lt] at h1 h2 ⊢ <;> linarith

end Dbl

/-- invariant of a search that starts from the bound `b0` and takes strict improvements -/
def Searched (b0 : Model.Dbl) (A : List Model.Dbl) (best : Model.Dbl) (idx : Option ℕ) : Prop :=
  match idx with
  | none => best = b0 ∧ ∀ a ∈ A, ¬ a.lt b0
  | some i => A[i]? = some best ∧ best.lt b0 ∧ FirstMin A i

lemma Searched.take {b0 : Model.Dbl} {A : List Model.Dbl} {best a : Model.Dbl} {idx : Option ℕ} (h : Searched b0 A best idx)
    (ha : a.lt best) : Searched b0 (A ++ [a]) a (some A.length) := by
  have hall : ∀ b ∈ A, ¬ b.lt best := by
    cases idx with
    | none => obtain ⟨rfl, h⟩ := h; exact h
    | some i =>
      obtain ⟨h1, -, a', h2, h3, -⟩ := h
      rw [h1] at h2; cases h2; exact h3
  have hb : a.lt b0 := by
    cases idx with
    | none => obtain ⟨rfl, -⟩ := h; exact ha
    | some i => exact Dbl.lt_trans ha h.2.1
  refine ⟨by simp, hb, a, by simp, ?_, ?_⟩
  · intro b hb
    rcases List.mem_append.mp hb with hb | hb
    · exact fun hba => hall b hb (Dbl.lt_trans hba ha)
    · rw [List.mem_singleton] at hb; subst hb; exact Dbl.lt_irrefl _
  · intro j hj b hb
    rw [List.getElem?_append_left hj] at hb
    exact Dbl.lt_of_lt_of_not_lt ha (hall b (List.mem_of_getElem? hb))

lemma Searched.skip {b0 : Model.Dbl} {A : List Model.Dbl} {best a : Model.Dbl} {idx : Option ℕ} (h : Searched b0 A best idx)
    (ha : ¬ a.lt best) : Searched b0 (A ++ [a]) best idx := by
  cases idx with
  | none =>
    obtain ⟨rfl, h⟩ := h
    refine ⟨rfl, fun b hb => ?_⟩
    rcases List.mem_append.mp hb with hb | hb
    · exact h b hb
    · rw [List.mem_singleton] at hb; subst hb; exact ha
  | some i =>
    obtain ⟨h1, h2, a', h3, h4, h5⟩ := h
    rw [h1] at h3; cases h3
    have hi : i < A.length := by
      by_contra hc
      rw [List.getElem?_eq_none (by omega)] at h1; cases h1
    have h6 : (A ++ [a])[i]? = some best := by rw [List.getElem?_append_left hi, h1]
    refine ⟨h6, h2, best, h6, ?_, ?_⟩
    · intro b hb
      rcases List.mem_append.mp hb with hb | hb
      · exact h4 b hb
      · rw [List.mem_singleton] at hb; subst hb; exact ha
    · intro j hj b hb
      rw [List.getElem?_append_left (by omega)] at hb
      exact h5 j hj b hb

/-- the value computed for one candidate when its denominator is not zero -/
noncomputable def aiccVal (n : ℕ) (m : Py.Mle × (ℕ × ℕ)) : Model.Dbl :=
  ((Model.Dbl.fin (2 * (2 + m.2.1 + m.2.2))).add ((Model.Dbl.fin 2).mul m.1.fn)).add
    (.fin (2 * (2 + m.2.1 + m.2.2) * ((2 + m.2.1 + m.2.2) + 1) / (n - (2 + m.2.1 + m.2.2) - 1)))

lemma aicc_ok {n : ℕ} {m : Py.Mle × (ℕ × ℕ)} (h : m.2.1 + m.2.2 + 3 ≠ n) : Py.aicc n m.2 m.1.fn = .ok (aiccVal n m) := by
  have : ¬ ((n : ℝ) - (2 + m.2.1 + m.2.2) - 1 = 0) := fun h0 => h (by
    have : (n : ℝ) = ((m.2.1 + m.2.2 + 3 : ℕ) : ℝ) := by push_cast; linarith
    exact (Nat.cast_injective this).symm)
  simp only [Py.aicc]
  rw [if_neg this]; rfl

lemma aiccVal_fin (n : ℕ) (pq : ℕ × ℕ) (f : ℝ) (x : List ℝ) :
    aiccVal n (⟨.fin f, x⟩, pq) = .fin (aiccSpec n (2 + pq.1 + pq.2) f) := by
  simp only [aiccVal, Model.Dbl.mul, Model.Dbl.add, aiccSpec]
  congr 1; ring

lemma orderLoop (n : ℕ) (first : Py.Mle) (b0 : Model.Dbl) (pq0 : ℕ × ℕ) (l : List (Py.Mle × (ℕ × ℕ)))
    (hl : ∀ m ∈ l, m.2.1 + m.2.2 + 3 ≠ n) :
    ∃ s idx, l.foldlM (Py.orderStep n) ⟨first, b0, pq0, []⟩ = .ok s ∧ s.aiccs = l.map (aiccVal n) ∧
      Searched b0 s.aiccs s.bestAic idx ∧
      (idx = none → s.best = first ∧ s.pq = pq0) ∧ (∀ i, idx = some i → l[i]? = some (s.best, s.pq)) := by
  induction l using List.reverseRecOn with
  | nil =>
    exact ⟨⟨first, b0, pq0, []⟩, none, rfl, rfl, ⟨rfl, by simp⟩, fun _ => ⟨rfl, rfl⟩, fun i h => by cases h⟩
  | append_singleton l m ih =>
    obtain ⟨s, idx, h1, h2, h3, h4, h5⟩ := ih fun m hm => hl m (by simp [hm])
    have ha := aicc_ok (n := n) (m := m) (hl m (by simp))
    rw [List.foldlM_append, h1]
    by_cases hc : (aiccVal n m).lt s.bestAic
    · refine ⟨⟨m.1, aiccVal n m, m.2, s.aiccs ++ [aiccVal n m]⟩, some s.aiccs.length, ?_, ?_, h3.take hc, (fun h => by cases h), ?_⟩
      · simp only [res_bind_ok, List.foldlM_cons, Py.orderStep, ha, List.foldlM_nil]
        rw [if_pos hc]; rfl
      · simp [h2]
      · intro i hi
        cases hi
        simp [h2]
    · refine ⟨{ s with aiccs := s.aiccs ++ [aiccVal n m] }, idx, ?_, ?_, h3.skip hc, h4, ?_⟩
      · simp only [res_bind_ok, List.foldlM_cons, Py.orderStep, ha, List.foldlM_nil]
        rw [if_neg hc]; rfl
      · simp [h2]
      · intro i hi
        have := h5 i hi
        rw [List.getElem?_append_left, this]
        by_contra hcon
        rw [List.getElem?_eq_none (by omega)] at this; cases this

lemma orderLoop_zero (n : ℕ) (s : Py.Order) (l : List (Py.Mle × (ℕ × ℕ))) (hl : ∃ m ∈ l, m.2.1 + m.2.2 + 3 = n) :
    l.foldlM (Py.orderStep n) s = .error .runtime := by
  induction l generalizing s with
  | nil => simp at hl
  | cons m l ih =>
    rw [List.foldlM_cons]
    by_cases hm : m.2.1 + m.2.2 + 3 = n
    · have : Py.aicc n m.2 m.1.fn = .error .runtime := by
        simp only [Py.aicc]
        rw [if_pos]
        rw [← hm]; push_cast; ring
      simp only [Py.orderStep, this]; rfl
    · have hl' : ∃ m ∈ l, m.2.1 + m.2.2 + 3 = n := by
        obtain ⟨m', h1, h2⟩ := hl
        rcases List.mem_cons.mp h1 with rfl | h1
        · exact absurd h2 hm
        · exact ⟨m', h1, h2⟩
      simp only [Py.orderStep, aicc_ok hm, res_bind_ok]
      split
      · exact ih _ hl'
      · exact ih _ hl'

lemma mapM_total {α β : Type} {f : α → Res β} {l : List α} {g : α → β} (h : ∀ a ∈ l, f a = .ok (g a)) :
    l.mapM f = .ok (l.map g) := by
  induction l with
  | nil => rfl
  | cons a l ih =>
    rw [List.mapM_cons, h a (by simp), res_bind_ok, ih fun a ha => h a (by simp [ha])]; rfl

lemma mem_pqList (pmax : ℕ) (qmax : Option ℕ) (p q : ℕ) : (p, q) ∈ Py.pqList pmax qmax ↔ q < p ∧ p ≤ pmax := by
  simp only [Py.pqList, List.mem_flatMap, List.mem_range, List.mem_map, Prod.mk.injEq]
  constructor
  · rintro ⟨i, hi, q', hq, rfl, rfl⟩; omega
  · rintro ⟨h1, h2⟩
    exact ⟨p - 1, by omega, q, by omega, by omega, rfl⟩

/-! ### `get_mle` -/

lemma foldl_better (l : List Py.Mle) (b : Py.Mle) :
    (∀ m ∈ l, ¬ m.fn.lt (l.foldl Py.betterMle b).fn) ∧
    (l.foldl Py.betterMle b = b ∨ (l.foldl Py.betterMle b ∈ l ∧ (l.foldl Py.betterMle b).fn.lt b.fn)) := by
  induction l generalizing b with
  | nil => simp
  | cons a l ih =>
    obtain ⟨h1, h2⟩ := ih (Py.betterMle b a)
    rw [List.foldl_cons]
    set r := l.foldl Py.betterMle (Py.betterMle b a) with hr
    by_cases hc : a.fn.lt b.fn
    · have hb : Py.betterMle b a = a := by rw [Py.betterMle, if_pos hc]
      rw [hb] at h2
      constructor
      · intro m hm
        rcases List.mem_cons.mp hm with rfl | hm
        · rcases h2 with h2 | ⟨-, h2⟩
          · rw [h2]; exact Dbl.lt_irrefl _
          · exact Dbl.lt_asymm h2
        · exact h1 m hm
      · right
        rcases h2 with h2 | ⟨h2, h3⟩
        · rw [h2]; exact ⟨by simp, hc⟩
        · exact ⟨by simp [h2], Dbl.lt_trans h3 hc⟩
    · have hb : Py.betterMle b a = b := by rw [Py.betterMle, if_neg hc]
      rw [hb] at h2
      constructor
      · intro m hm
        rcases List.mem_cons.mp hm with rfl | hm
        · rcases h2 with h2 | ⟨-, h2⟩
          · rw [h2]; exact hc
          · exact fun h => hc (Dbl.lt_trans h h2)
        · exact h1 m hm
      · rcases h2 with h2 | ⟨h2, h3⟩
        · exact .inl h2
        · exact .inr ⟨by simp [h2], h3⟩

lemma foldl_nan (l : List Py.Mle) (b : Py.Mle) (hb : b.fn = .nan) : l.foldl Py.betterMle b = b := by
  induction l with
  | nil => rfl
  | cons a l ih =>
    have : Py.betterMle b a = b := by
      rw [Py.betterMle, if_neg]
      rw [hb]; cases a.fn <;> simp [Model.Dbl.lt]
    rw [List.foldl_cons, this, ih]

/-! ### constructor -/

/-- the first occurrences in an array in order -/
lemma firstIdx_spec {s : List ℝ} (hs : s.Pairwise (· ≤ ·)) :
    (∀ i ∈ Py.firstIdx s, i < s.length) ∧ (Py.firstIdx s).Nodup ∧
    ((Py.firstIdx s).map fun i => s.getD i 0).Pairwise (· < ·) ∧
    ∀ i < s.length, s.getD i 0 ∈ (Py.firstIdx s).map fun i => s.getD i 0 := by
  have hmem : ∀ i, i ∈ Py.firstIdx s ↔ i < s.length ∧ (i = 0 ∨ s.getD i 0 ≠ s.getD (i - 1) 0) := by
    intro i; simp [Py.firstIdx]
  have hmono : ∀ i j, i ≤ j → j < s.length → s.getD i 0 ≤ s.getD j 0 := by
    intro i j hij hj
    rcases hij.eq_or_lt with rfl | hij
    · exact le_rfl
    · have := List.pairwise_iff_getElem.mp hs i j (by omega) hj hij
      simpa [List.getD_eq_getElem?_getD, List.getElem?_eq_getElem hj,
        List.getElem?_eq_getElem (show i < s.length by omega)] using this
  refine ⟨fun i hi => ((hmem i).mp hi).1, List.nodup_range.filter _, ?_, ?_⟩
  · rw [List.pairwise_map]
    have hp : (Py.firstIdx s).Pairwise (· < ·) := List.Pairwise.filter _ (List.pairwise_lt_range)
    refine hp.imp_of_mem fun {i j} hi hj hij => ?_
    obtain ⟨h1, h2⟩ := (hmem j).mp hj
    rcases h2 with rfl | h2
    · omega
    · exact lt_of_le_of_lt (hmono i (j - 1) (by omega) (by omega)) (lt_of_le_of_ne (hmono _ _ (by omega) h1) (Ne.symm h2))
  · intro i hi
    induction i with
    | zero => exact List.mem_map_of_mem ((hmem 0).mpr ⟨hi, .inl rfl⟩)
    | succ i ih =>
      by_cases hc : s.getD (i + 1) 0 = s.getD i 0
      · rw [hc]; exact ih (by omega)
      · exact List.mem_map_of_mem (f := fun i => s.getD i 0) ((hmem (i + 1)).mpr ⟨hi, .inr (by simpa using hc)⟩)

lemma getElem?_getD {α : Type} [Inhabited α] {l : List α} {i : ℕ} (d : α) (h : i < l.length) : l[i]? = some (l.getD i d) := by
  simp [List.getElem?_eq_getElem h]

lemma carmaModel_spec {srt : List ℝ → List ℕ} (hs : IsSortIndex srt) (data : List (ℝ × ℝ × ℝ)) :
    ∃ kept : List (ℝ × ℝ × ℝ), Py.carmaModel srt (data.map fun d => d.1) (data.map fun d => d.2.1) (data.map fun d => d.2.2) =
        .ok (kept.map fun d => d.1, kept.map fun d => d.2.1, kept.map fun d => d.2.2) ∧
      kept.Subperm data ∧ (kept.Pairwise fun a b => a.1 < b.1) ∧ (∀ d ∈ data, d.1 ∈ kept.map fun d => d.1) ∧
      ((data.map fun d => d.1).Nodup → kept.Perm data) := by
  set time := data.map fun d => d.1 with htime
  set g := fun i => data.getD i (0, 0, 0) with hg
  set n := data.length with hn
  have hdata : data = (List.range n).map g := by
    have := map_getD data id
    rw [List.map_id] at this; exact this
  obtain ⟨hperm, hsort⟩ := hs time
  set S := srt time with hS
  have hlt : ∀ i ∈ S, i < n := fun i hi => by
    have := hperm.subset hi
    simpa [htime] using this
  have hSn : S.length = n := by rw [hperm.length_eq]; simp [htime, hn]
  have hcol : ∀ {β : Type} [Inhabited β] (f : ℝ × ℝ × ℝ → β) (idx : List ℕ), (∀ i ∈ idx, i < n) →
      gather (data.map f) idx = .ok (idx.map fun i => f (g i)) := fun f idx h =>
    gather_eq fun i hi => by
      rw [List.getElem?_map, getElem?_getD (0, 0, 0) (h i hi)]; rfl
  have htg : ∀ i < n, time.getD i 0 = (g i).1 := fun i hi => by
    have hi' : i < data.length := hi
    simp [htime, hg, hi']
  have hsmap : (S.map fun i => time.getD i 0) = S.map fun i => (g i).1 := List.map_congr_left fun i hi => htg i (hlt i hi)
  rw [hsmap] at hsort
  set st := S.map fun i => (g i).1 with hst
  have hstl : st.length = n := by simp [hst, hSn]
  obtain ⟨f1, f2, f3, f4⟩ := firstIdx_spec hsort
  set U := Py.firstIdx st with hU
  have h2 : gather S U = .ok (U.map fun i => S.getD i 0) :=
    gather_eq fun i hi => getElem?_getD 0 (by rw [hSn, ← hstl]; exact f1 i hi)
  set J := U.map fun i => S.getD i 0 with hJ
  have hSmem : ∀ i < n, S.getD i 0 ∈ S := fun i hi => by
    have hi' : i < S.length := by omega
    rw [List.getD_eq_getElem?_getD, List.getElem?_eq_getElem hi']
    exact List.getElem_mem _
  have hJlt : ∀ j ∈ J, j < n := by
    intro j hj
    obtain ⟨i, hi, rfl⟩ := List.mem_map.mp hj
    exact hlt _ (hSmem i (by rw [← hstl]; exact f1 i hi))
  have hstg : ∀ i < n, st.getD i 0 = (g (S.getD i 0)).1 := fun i hi => by
    have hi' : i < S.length := by omega
    simp [hst, hi']
  have hJst : (J.map fun j => (g j).1) = U.map fun i => st.getD i 0 := by
    rw [hJ, List.map_map]
    exact List.map_congr_left fun i hi => (hstg i (by rw [← hstl]; exact f1 i hi)).symm
  have hJsort : (J.map fun j => (g j).1).Pairwise (· < ·) := by rw [hJst]; exact f3
  have hJnd : J.Nodup := by
    have : (J.map fun j => (g j).1).Nodup := hJsort.imp (fun h => ne_of_lt h)
    exact this.of_map _
  have hall : ∀ d ∈ data, d.1 ∈ J.map fun j => (g j).1 := by
    intro d hd
    rw [hdata] at hd
    obtain ⟨i, hi, rfl⟩ := List.mem_map.mp hd
    have hiS : i ∈ S := hperm.symm.subset (by simpa [htime, ← hn] using hi)
    obtain ⟨k, hk, rfl⟩ := List.getElem_of_mem hiS
    have := f4 k (by simp [hst, hk])
    rw [hJst, ]
    rw [hstg k (by omega)] at this
    simpa [hk] using this
  have hsub : (J.map g).Subperm data := by
    obtain ⟨l, hl1, hl2⟩ := List.subperm_of_subset (l₂ := List.range n) hJnd fun j hj => by simpa using hJlt j hj
    rw [hdata]
    exact ⟨l.map g, hl1.map g, hl2.map g⟩
  refine ⟨J.map g, ?_, hsub, ?_, ?_, ?_⟩
  · simp only [Py.carmaModel, ← hS]
    rw [htime, hcol _ S hlt, res_bind_ok, ← hst, ← hU, h2, res_bind_ok, hcol _ J hJlt, res_bind_ok, hcol _ J hJlt, res_bind_ok,
      hcol _ J hJlt, res_bind_ok]
    simp only [List.map_map, Function.comp_def]; rfl
  · rw [List.pairwise_map] at hJsort ⊢; exact hJsort
  · intro d hd
    rw [List.map_map]; exact hall d hd
  · intro hnd
    refine hsub.perm_of_length_le ?_
    have h1 : data.toFinset.image (fun d => d.1) ⊆ ((J.map g).map fun d => d.1).toFinset := by
      intro x hx
      simp only [Finset.mem_image, List.mem_toFinset] at hx ⊢
      obtain ⟨d, hd, rfl⟩ := hx
      rw [List.map_map]; exact hall d hd
    have h2 : (data.map fun d => d.1).toFinset ⊆ ((J.map g).map fun d => d.1).toFinset := by
      intro x hx
      apply h1
      simpa using hx
    have h3 := Finset.card_le_card h2
    rw [List.toFinset_card_of_nodup hnd] at h3
    have h4 := List.toFinset_card_le ((J.map g).map fun d => d.1)
    have h5 : time.length = data.length := by simp [htime]
    simp only [List.length_map] at h3 h4 ⊢
    omega

end Verif.Theory
