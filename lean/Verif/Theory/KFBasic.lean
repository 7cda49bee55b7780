import Verif.Model.KFp
import Verif.Theory.Predict

/-! Helper lemmas: checked list access on well-formed filter data; sequences with one value inserted. -/

namespace Verif.Theory

open Verif.Model Finset

lemma rd_ok {α : Type} {l : List α} {i : ℕ} {a : α} (h : l[i]? = some a) : rd l i = .ok a := by
  simp [rd, h]

lemma rdU_ok {α : Type} {l : List α} {i : ℕ} {a : α} (h : l[i]? = some a) : rdU l i = .ok a := by
  simp [rdU, h]

lemma wr_ok {α : Type} {l : List α} {i : ℕ} {a : α} (h : i < l.length) : wr l i a = .ok (l.set i a) := by
  simp [wr, h]

lemma wrU_ok {α : Type} {l : List α} {i : ℕ} {a : α} (h : i < l.length) : wrU l i a = .ok (l.set i a) := by
  simp [wrU, h]

lemma dv_ok {a b : ℝ} (h : b ≠ 0) : dv a b = .ok (a / b) := by simp [dv, h]

lemma rangeMap_get {α : Type} {n i : ℕ} (f : ℕ → α) (h : i < n) : ((List.range n).map f)[i]? = some (f i) := by
  simp [h]

@[simp] lemma res_bind_ok {α β : Type} (a : α) (f : α → Res β) : ((Except.ok a : Res α) >>= f) = f a := rfl
@[simp] lemma res_bind_error {α β : Type} (e : Fault) (f : α → Res β) :
    ((Except.error e : Res α) >>= f) = .error e := rfl
@[simp] lemma res_pure {α : Type} (a : α) : (pure a : Res α) = .ok a := rfl

lemma iter_succ {σ : Type} (f : σ → Res σ) (k : ℕ) (s : σ) : iter f (k+1) s = iter f k s >>= f := rfl

/-- The data held by a filter object: `n` triples `(t i, y i, e i)` with consistent time differences, and result
vectors of the right size. -/
structure Holds (s : KFBase) (n : ℕ) (t y e : ℕ → ℝ) : Prop where
  time : s.time = (List.range n).map t
  dt : s.dt = (List.range (n - 1)).map (fun i => t (i + 1) - t i)
  y : s.y = (List.range n).map y
  yerr : s.yerr = (List.range n).map e
  mean : s.mean.length = n
  var : s.var.length = n

namespace Holds
variable {s : KFBase} {n : ℕ} {t y e : ℕ → ℝ}

lemma time_get (h : Holds s n t y e) {i : ℕ} (hi : i < n) : s.time[i]? = some (t i) := by
  rw [h.time]; exact rangeMap_get _ hi
lemma dt_get (h : Holds s n t y e) {i : ℕ} (hi : i + 1 < n) : s.dt[i]? = some (t (i+1) - t i) := by
  rw [h.dt]; exact rangeMap_get (fun i => t (i + 1) - t i) (by omega)
lemma y_get (h : Holds s n t y e) {i : ℕ} (hi : i < n) : s.y[i]? = some (y i) := by
  rw [h.y]; exact rangeMap_get _ hi
lemma yerr_get (h : Holds s n t y e) {i : ℕ} (hi : i < n) : s.yerr[i]? = some (e i) := by
  rw [h.yerr]; exact rangeMap_get _ hi
lemma time_length (h : Holds s n t y e) : s.time.length = n := by rw [h.time]; simp

end Holds

/-- The weaker condition needed by `Filter()`: `y` and `yerr` may have more than `n` elements. -/
structure Feeds (s : KFBase) (n : ℕ) (t y e : ℕ → ℝ) : Prop where
  time_length : s.time.length = n
  dt_get : ∀ {i : ℕ}, i + 1 < n → s.dt[i]? = some (t (i+1) - t i)
  y_get : ∀ {i : ℕ}, i < n → s.y[i]? = some (y i)
  yerr_get : ∀ {i : ℕ}, i < n → s.yerr[i]? = some (e i)
  mean : s.mean.length = n
  var : s.var.length = n

lemma Holds.feeds {s : KFBase} {n : ℕ} {t y e : ℕ → ℝ} (h : Holds s n t y e) : Feeds s n t y e :=
  ⟨h.time_length, h.dt_get, h.y_get, h.yerr_get, h.mean, h.var⟩

/-- `f` with the value `x` inserted at position `p`. -/
def ins {α : Type} (p : ℕ) (x : α) (f : ℕ → α) (i : ℕ) : α :=
  if i < p then f i else if i = p then x else f (i - 1)

lemma ins_lt {α : Type} {p i : ℕ} (x : α) (f : ℕ → α) (h : i < p) : ins p x f i = f i := by simp [ins, h]
@[simp] lemma ins_self {α : Type} (p : ℕ) (x : α) (f : ℕ → α) : ins p x f p = x := by simp [ins]
lemma ins_gt {α : Type} {p i : ℕ} (x : α) (f : ℕ → α) (h : p ≤ i) : ins p x f (i + 1) = f i := by
  have h1 : ¬ i + 1 < p := by omega
  have h2 : i + 1 ≠ p := by omega
  simp [ins, h1, h2]

lemma ins_succAbove {α : Type} {n : ℕ} (p : Fin (n+1)) (x : α) (f : ℕ → α) (j : Fin n) :
    ins p x f (p.succAbove j) = f j := by
  rcases lt_or_ge (j : ℕ) (p : ℕ) with h | h
  · rw [Fin.succAbove_of_castSucc_lt _ _ (by simpa [Fin.lt_def] using h)]
    simpa using ins_lt x f h
  · rw [Fin.succAbove_of_le_castSucc _ _ (by simpa [Fin.le_def] using h)]
    simpa using ins_gt x f h

lemma rangeMap_insertIdx {α : Type} {n p : ℕ} (hp : p ≤ n) (x : α) (f : ℕ → α) :
    ((List.range n).map f).insertIdx p x = (List.range (n+1)).map (ins p x f) := by
  apply List.ext_getElem?
  intro i
  rw [List.getElem?_insertIdx]
  simp only [List.length_map, List.length_range, List.getElem?_map]
  rcases lt_trichotomy i p with h | h | h
  · have : i < n := by omega
    have h2 : i < n + 1 := by omega
    simp [h, this, h2, ins_lt]
  · subst h
    have h2 : i < n + 1 := by omega
    simp [hp, h2]
  · obtain ⟨j, rfl⟩ : ∃ j, i = j + 1 := ⟨i - 1, by omega⟩
    have h1 : ¬ j + 1 < p := by omega
    have h3 : j + 1 ≠ p := by omega
    by_cases hj : j < n
    · simp [h1, h3, hj, ins_gt x f (by omega : p ≤ j)]
    · simp [h1, h3, hj]

/-- the stop position of the search loop -/
lemma scanLt_spec (x : ℝ) : ∀ l : List ℝ, scanLt x l ≤ l.length ∧ (∀ i < scanLt x l, ∀ a, l[i]? = some a → a < x) ∧
    (∀ a, l[scanLt x l]? = some a → x ≤ a)
  | [] => by simp [scanLt]
  | a :: l => by
    obtain ⟨h1, h2, h3⟩ := scanLt_spec x l
    by_cases h : a < x
    · simp only [scanLt, if_pos h]
      refine ⟨by simpa using h1, ?_, ?_⟩
      · intro i hi c hc
        cases i with
        | zero => simp at hc; subst hc; exact h
        | succ i => exact h2 i (by omega) c (by simpa using hc)
      · intro c hc
        exact h3 c (by simpa using hc)
    · simp only [scanLt, if_neg h]
      refine ⟨Nat.zero_le _, by intro i hi; omega, ?_⟩
      intro c hc
      simp at hc; subst hc; exact not_lt.mp h

lemma Holds.scan {s : KFBase} {n : ℕ} {t y e : ℕ → ℝ} (h : Holds s n t y e) (hn : 0 < n) (x : ℝ) :
    ∃ p, findIdx s.time x = .ok p ∧ p ≤ n ∧ (∀ i < p, t i < x) ∧ (p < n → x ≤ t p) := by
  refine ⟨scanLt x s.time, ?_, ?_, ?_, ?_⟩
  · have : s.time ≠ [] := by
      intro h0; have := h.time_length; rw [h0] at this; simp at this; omega
    simp [findIdx, this]
  · have := (scanLt_spec x s.time).1; rwa [h.time_length] at this
  · intro i hi
    have h1 := (scanLt_spec x s.time).1
    rw [h.time_length] at h1
    exact (scanLt_spec x s.time).2.1 i hi (t i) (h.time_get (by omega))
  · intro hp
    exact (scanLt_spec x s.time).2.2 _ (h.time_get hp)

namespace SS
variable {𝕜 : Type*} [RCLike 𝕜] {ι : Type*} [Fintype ι] [DecidableEq ι] {S : SS 𝕜 ι} {τ : Equiv.Perm ι}

omit [DecidableEq ι] in
/-- Covariances when the transition factors are exponentials of time differences. -/
lemma K_of_exp {t : ℕ → ℝ} {E : ι → ℝ → 𝕜} (h0 : ∀ k, E k 0 = 1) (hadd : ∀ k a b, E k (a + b) = E k a * E k b)
    (N : ℕ) (hr : ∀ i, i + 1 < N → ∀ k, S.rho i k = E k (t (i+1) - t i)) {i j : ℕ} (hij : j ≤ i) (hi : i < N) :
    S.K i j = RCLike.re (S.b ⬝ᵥ fun k => E k (t i - t j) * (S.V.mulVec (star S.b)) k)
      + if i = j then S.e2 i else 0 := by
  have : S.C i j = fun k => E k (t i - t j) * (S.V.mulVec (star S.b)) k := by
    funext k
    simp only [C]
    congr 1
    induction i with
    | zero => have : j = 0 := by omega
              subst this; simp [h0]
    | succ i ih =>
      rcases Nat.lt_or_ge i j with h | h
      · have : j = i + 1 := by omega
        subst this; simp [h0]
      · rw [Finset.prod_Ico_succ_top h, ih h (by omega), hr i hi, ← hadd]
        congr 1; ring
  simp only [K, hij, if_true, this]

omit [DecidableEq ι] in
/-- Conditional law at a pivot, in terms of the quantities accumulated by the prediction loop. -/
theorem ConjSym.predict_cond (h : S.ConjSym τ) (N : ℕ) (hv : ∀ l < N + 1, 0 < S.v l) (p : Fin (N+1))
    (y : ℕ → ℝ) (hy : y p = 0) :
    let K := S.Kmat (N+1)
    let K' := K.submatrix p.succAbove p.succAbove
    let k : Fin N → ℝ := fun j => K p (p.succAbove j)
    let prec := 1 / S.v p + ∑ i ∈ Ico ((p : ℕ) + 1) (N + 1), S.a i p * S.a i p / S.v i
    let num := S.m y p / S.v p + ∑ i ∈ Ico ((p : ℕ) + 1) (N + 1), S.a i p * (y i - S.m y i) / S.v i
    0 < prec ∧ num / prec = k ⬝ᵥ (K'⁻¹.mulVec fun j => y (p.succAbove j)) ∧
      1 / prec = K p p - k ⬝ᵥ (K'⁻¹.mulVec k) := by
  intro K K' k prec num
  have hN := h.normalEq (N+1) fun l hl => (hv l hl).ne'
  have key := hN.pivot_cond (fun i => hv i i.2) p (fun i => y i) hy
  have split : ∀ f : ℕ → ℝ, (∀ i, i < (p:ℕ) → f i = 0) →
      ∑ i : Fin (N+1), f i = f p + ∑ i ∈ Ico ((p : ℕ) + 1) (N + 1), f i := by
    intro f hf
    rw [Fin.sum_univ_eq_sum_range f (N+1), Finset.range_eq_Ico,
      ← Finset.sum_Ico_consecutive f (Nat.zero_le p) (by omega : (p:ℕ) ≤ N+1),
      Finset.sum_eq_zero (s := Ico 0 (p:ℕ)) (fun i hi => hf i (Finset.mem_Ico.mp hi).2), zero_add,
      Finset.sum_eq_sum_Ico_succ_bot (by omega : (p:ℕ) < N+1)]
  set M : Matrix (Fin (N+1)) (Fin (N+1)) ℝ := 1 - S.Amat (N+1) with hM
  have hMp : ∀ i : Fin (N+1), M i p = (if (i:ℕ) = p then 1 else 0) - S.a i p := by
    intro i
    simp only [hM, Matrix.sub_apply, Matrix.one_apply, Fin.ext_iff, Amat, Matrix.of_apply]
  have hMy : ∀ i : Fin (N+1), M.mulVec (fun i => y i) i = y i - S.m y i := by
    intro i
    rw [hM, Matrix.sub_mulVec, Matrix.one_mulVec, Pi.sub_apply]
    congr 1
    rw [S.m_eq_sum]
    simp only [Matrix.mulVec, dotProduct, Amat, Matrix.of_apply]
    rw [Fin.sum_univ_eq_sum_range (fun j => S.a i j * y j) (N+1)]
    symm
    apply Finset.sum_subset (Finset.range_subset_range.mpr i.2.le)
    intro j _ hj
    rw [S.a_of_le (by simpa using hj), zero_mul]
  have hprec : ∑ i, M i p * M i p / S.v i = prec := by
    simp_rw [hMp]
    rw [split (fun i => ((if i = p then 1 else 0) - S.a i p) * ((if i = p then 1 else 0) - S.a i p) / S.v i)]
    · simp only [prec, if_true, S.a_of_le le_rfl]
      congr 1
      · ring
      · refine Finset.sum_congr rfl fun i hi => ?_
        have : i ≠ p := by have := (Finset.mem_Ico.mp hi).1; omega
        simp [this]
    · intro i hi
      simp [hi.ne, S.a_of_le hi.le]
  have hnum : - ∑ i, M i p * (M.mulVec fun i => y i) i / S.v i = num := by
    simp_rw [hMp, hMy]
    rw [split (fun i => ((if i = p then 1 else 0) - S.a i p) * (y i - S.m y i) / S.v i)]
    · simp only [num, if_true, S.a_of_le le_rfl, hy]
      rw [neg_add]
      congr 1
      · ring
      · rw [← Finset.sum_neg_distrib]
        refine Finset.sum_congr rfl fun i hi => ?_
        have : i ≠ p := by have := (Finset.mem_Ico.mp hi).1; omega
        simp only [this, if_false]; ring
    · intro i hi
      simp [hi.ne, S.a_of_le hi.le]
  obtain ⟨h1, h2, h3⟩ := key
  rw [hprec] at h1 h2 h3
  rw [hnum] at h2
  exact ⟨h1, h2, h3⟩

omit [DecidableEq ι] in
/-- Conditional law of point `i` given the earlier ones. -/
theorem ConjSym.filter_cond (h : S.ConjSym τ) (i : ℕ) (hv : ∀ l < i + 1, S.v l ≠ 0) (y : ℕ → ℝ) :
    let K' := S.Kmat i
    let k : Fin i → ℝ := fun j => S.K i j
    S.m y i = k ⬝ᵥ (K'⁻¹.mulVec fun j => y j) ∧ S.v i = S.K i i - k ⬝ᵥ (K'⁻¹.mulVec k) := by
  intro K' k
  have hN := h.normalEq (i+1) hv
  have hN' := h.normalEq i fun l hl => hv l (by omega)
  have := hN.prefix_cond (Fin.last i) (hN'.isUnit_det fun l => hv l (by omega)) (fun j => y j)
  obtain ⟨h1, h2⟩ := this
  refine ⟨?_, h2⟩
  rw [S.m_eq_sum]
  refine Eq.trans ?_ h1
  rw [Fin.sum_univ_castSucc]
  simp only [Amat, Matrix.of_apply, Fin.val_last, S.a_of_le le_rfl, zero_mul, add_zero, Fin.val_castSucc]
  rw [Fin.sum_univ_eq_sum_range (fun j => S.a i j * y j) i]

end SS
end Verif.Theory
