import Verif.Model.PyFit
import Verif.Spec.Fit
import Verif.Theory.PySample
import Verif.Theory.PyModel
import Verif.Theory.ErrorFree

/-! Lemmas on `assess_fit`. -/

namespace Verif.Theory

open Verif.Model Verif.Spec Matrix

open scoped Classical

/-! ### whitening -/

lemma NormalEq.whitens {N : ℕ} {K A : Matrix (Fin N) (Fin N) ℝ} {d : Fin N → ℝ} (h : NormalEq K A d) (hd : ∀ i, 0 < d i) :
    Whitens K (diagonal (fun i => (√(d i))⁻¹) * (1 - A)) := by
  refine ⟨fun i j hij => ?_, fun i => ?_, ?_⟩
  · rw [Matrix.diagonal_mul]; simp [h.lower i j hij.le, hij.ne]
  · rw [Matrix.diagonal_mul]
    have := Real.sqrt_pos.mpr (hd i)
    simp [h.lower i i le_rfl, this]
  · rw [Matrix.transpose_mul, Matrix.diagonal_transpose, Matrix.mul_assoc (diagonal _), Matrix.mul_assoc (diagonal _), ← Matrix.mul_assoc _ _ (diagonal _),
      ← Matrix.mul_assoc, h.factor, Matrix.diagonal_mul_diagonal, Matrix.diagonal_mul_diagonal, ← Matrix.diagonal_one]
    congr 1
    funext i
    have := (Real.sqrt_pos.mpr (hd i)).ne'
    have h2 := Real.mul_self_sqrt (hd i).le
    field_simp
    rw [← h2]; simp [pow_two]

lemma Realizes.whitens {𝕜 : Type*} [RCLike 𝕜] {ι : Type*} [Fintype ι] [DecidableEq ι] {S : SS 𝕜 ι} {r : ℝ → ℝ} {t e : ℕ → ℝ} {N : ℕ}
    (h : Realizes S r t e N) : ∃ W, Whitens (obsCov r (fst N t) (fst N e)) W ∧
      (∀ i, 0 < stepVar r (fst N t) (fst N e) i) ∧
      ∀ (y : Fin N → ℝ) i, (W *ᵥ y) i = (y i - stepMean r (fst N t) (fst N e) y i) / √(stepVar r (fst N t) (fst N e) i) := by
  obtain ⟨τ, hτ⟩ := h.sym
  have hn := hτ.normalEq N fun l hl => (h.pos l hl).ne'
  have hw := hn.whitens fun i => h.pos i i.2
  rw [h.Kmat] at hw
  refine ⟨_, hw, fun i => ?_, fun y i => ?_⟩
  · rw [← (h.filter (fun _ => 0) i).2]; exact h.pos i i.2
  · have hf := h.filter (ext0 y) i
    rw [fst_ext0] at hf
    rw [← hf.1, ← hf.2, ← Matrix.mulVec_mulVec, Matrix.mulVec_diagonal, Matrix.sub_mulVec, Matrix.one_mulVec, S.m_eq_sum, Pi.sub_apply,
      div_eq_inv_mul]
    congr 2
    simp only [Matrix.mulVec, dotProduct]
    have h1 : ∀ j : Fin N, S.Amat N i j * y j = (fun j : ℕ => S.a i j * ext0 y j) j := by
      intro j; simp [SS.Amat]
    rw [Finset.sum_congr rfl fun j _ => h1 j, Fin.sum_univ_eq_sum_range (fun j : ℕ => S.a i j * ext0 y j)]
    symm
    refine Finset.sum_subset (fun j hj => ?_) fun j _ hj => ?_
    · simp only [Finset.mem_range] at hj ⊢; have := i.2; omega
    · simp only [Finset.mem_range, not_lt] at hj
      rw [S.a_of_le hj, zero_mul]

/-- sum of squares of whitened values -/
lemma Whitens.sum_sq {n : ℕ} {K W : Matrix (Fin n) (Fin n) ℝ} (h : Whitens K W) (y : Fin n → ℝ) :
    ∑ i, (W *ᵥ y) i ^ 2 = y ⬝ᵥ (K⁻¹ *ᵥ y) := by
  have h1 : K⁻¹ = Wᵀ * W := by
    refine Matrix.inv_eq_left_inv ?_
    have h2 : W * (K * Wᵀ) = 1 := by rw [← Matrix.mul_assoc]; exact h.white
    have h3 : (K * Wᵀ) * W = 1 := mul_eq_one_comm.mp h2
    have h4 : K * (Wᵀ * W) = 1 := by rw [← Matrix.mul_assoc]; exact h3
    exact mul_eq_one_comm.mp h4
  rw [h1, ← Matrix.mulVec_mulVec, Matrix.dotProduct_mulVec, Matrix.vecMul_transpose]
  simp [dotProduct, pow_two]

/-! ### residuals -/

lemma ofFn_getD {n : ℕ} (f : Fin n → ℝ) (i : ℕ) : (List.ofFn f).getD i 0 = ext0 f i := by
  by_cases h : i < n
  · simp [h, ext0]
  · simp [h, ext0]

lemma map_range_ofFn {n : ℕ} {f : Fin n → ℝ} {g : ℕ → ℝ} (h : ∀ i : Fin n, g i = f i) : (List.range n).map g = List.ofFn f := by
  refine List.ext_getElem (by simp) fun i h1 h2 => ?_
  simp only [List.length_map, List.length_range] at h1
  simpa using h ⟨i, h1⟩

lemma Exact.residuals {σ : Type} [Kalman σ] {r : ℝ → ℝ} {I : σ → ℕ → (ℕ → ℝ) → (ℕ → ℝ) → (ℕ → ℝ) → Prop} (E : Exact r I)
    (mu : ℝ) {n : ℕ} {t y e : ℕ → ℝ} (hn : 0 < n) (ht : Incr n t e) {s : σ} (hI : I s n t y e)
    (hpos : ∀ i, 0 < stepVar r (fst n t) (fst n e) i) (y' : Fin n → ℝ) :
    Py.residuals (.ok (s, mu)) (List.ofFn y') = .ok (List.ofFn fun i =>
      (y' i - mu - stepMean r (fst n t) (fst n e) (fst n y) i) / √(stepVar r (fst n t) (fst n e) i)) := by
  obtain ⟨s', h1, -, -, h2, h3⟩ := E.filter hI hn ht
  simp only [Py.residuals, res_bind_ok, h1, h2, h3, List.length_ofFn, ne_eq, not_true_eq_false, or_self, if_false, ofFn_getD]
  rw [mapM_total (g := fun i => (ext0 y' i - mu - ext0 (stepMean r (fst n t) (fst n e) (fst n y)) i) /
      √(ext0 (stepVar r (fst n t) (fst n e)) i)) ?_]
  · congr 1
    exact map_range_ofFn fun i => by simp
  · intro i hi
    have hi' : i < n := by simpa using hi
    have hv := hpos ⟨i, hi'⟩
    rw [Py.resid1, ext0_of_lt _ hi', ext0_of_lt _ hi', ext0_of_lt _ hi', py_sqrt_ok hv.le, res_bind_ok, dv_ok (Real.sqrt_pos.mpr hv).ne']

/-! ### sample autocorrelations -/

lemma lagProd_ofFn {n : ℕ} (x : Fin n → ℝ) (k : ℕ) :
    Py.lagProd (List.ofFn x) k = ∑ i : Fin n, ∑ j : Fin n, if (j : ℕ) = i + k then x i * x j else 0 := by
  have h1 : ∀ i : Fin n, (∑ j : Fin n, if (j : ℕ) = i + k then x i * x j else 0) = (fun i : ℕ => ext0 x (i + k) * ext0 x i) i := by
    intro i
    by_cases h : (i : ℕ) + k < n
    · rw [Finset.sum_eq_single ⟨i + k, h⟩]
      · simp [ext0_of_lt x h, mul_comm]
      · intro j _ hj
        rw [if_neg]
        exact fun hh => hj (Fin.ext hh)
      · simp
    · have : ext0 x (i + k) = 0 := by simp [ext0, h]
      simp only [this, zero_mul]
      refine Finset.sum_eq_zero fun j _ => if_neg ?_
      have := j.2; omega
  rw [Finset.sum_congr rfl fun i _ => h1 i, Fin.sum_univ_eq_sum_range (fun i : ℕ => ext0 x (i + k) * ext0 x i), Py.lagProd, List.length_ofFn]
  simp only [ofFn_getD]
  refine Finset.sum_subset (fun j hj => ?_) fun j _ hj => ?_
  · simp only [Finset.mem_range] at hj ⊢; omega
  · simp only [Finset.mem_range, not_lt] at hj
    have : ext0 x (j + k) = 0 := by
      have : ¬ j + k < n := by omega
      simp [ext0, this]
    rw [this, zero_mul]

lemma lagProd_zero {n : ℕ} (x : Fin n → ℝ) : Py.lagProd (List.ofFn x) 0 = ∑ i, x i ^ 2 := by
  rw [lagProd_ofFn]
  refine Finset.sum_congr rfl fun i _ => ?_
  rw [Finset.sum_eq_single i]
  · simp [pow_two]
  · intro j _ hj
    rw [if_neg]
    exact fun hh => hj (Fin.ext hh)
  · simp

lemma sampleAcf_zero {n : ℕ} {x : Fin n → ℝ} (h : x ≠ 0) : sampleAcf x 0 = 1 := by
  obtain ⟨i, hi⟩ := Function.ne_iff.mp h
  have : 0 < ∑ i, x i ^ 2 := lt_of_lt_of_le (by have : x i ≠ 0 := hi; positivity) (Finset.single_le_sum (fun j _ => sq_nonneg (x j)) (Finset.mem_univ i))
  rw [sampleAcf, ← lagProd_ofFn, lagProd_zero, div_self this.ne']

lemma sampleAcf_le {n : ℕ} (x : Fin n → ℝ) (k : ℕ) : |sampleAcf x k| ≤ 1 := by
  have hc : ∀ (P : Fin n → Prop) [DecidablePred P] (c : ℝ), 0 ≤ c → (∀ a b, P a → P b → a = b) → (∑ j, if P j then c else 0) ≤ c := by
    intro P _ c hc h
    by_cases hp : ∃ a, P a
    · obtain ⟨a, ha⟩ := hp
      rw [Finset.sum_eq_single a]
      · simp [ha]
      · intro b _ hb; exact if_neg fun hh => hb (h _ _ hh ha)
      · simp
    · have : ∀ a, ¬ P a := fun a ha => hp ⟨a, ha⟩
      simpa [this] using hc
  have h1 : |∑ i : Fin n, ∑ j : Fin n, if (j : ℕ) = i + k then x i * x j else 0| ≤ ∑ i, x i ^ 2 := by
    calc _ ≤ ∑ i : Fin n, ∑ j : Fin n, ((if (j : ℕ) = i + k then x i ^ 2 / 2 else 0) + if (j : ℕ) = i + k then x j ^ 2 / 2 else 0) := by
            refine (Finset.abs_sum_le_sum_abs _ _).trans (Finset.sum_le_sum fun i _ => (Finset.abs_sum_le_sum_abs _ _).trans (Finset.sum_le_sum fun j _ => ?_))
            split_ifs
            · rw [abs_le]; constructor <;> nlinarith [sq_nonneg (x i + x j), sq_nonneg (x i - x j)]
            · simp
      _ = (∑ i : Fin n, ∑ j : Fin n, if (j : ℕ) = i + k then x i ^ 2 / 2 else 0) +
            ∑ j : Fin n, ∑ i : Fin n, if (j : ℕ) = i + k then x j ^ 2 / 2 else 0 := by
            simp only [Finset.sum_add_distrib]
            congr 1
            exact Finset.sum_comm
      _ ≤ (∑ i : Fin n, x i ^ 2 / 2) + ∑ j : Fin n, x j ^ 2 / 2 := by
            refine add_le_add (Finset.sum_le_sum fun i _ => ?_) (Finset.sum_le_sum fun j _ => ?_)
            · exact hc (fun j : Fin n => (j : ℕ) = i + k) _ (by positivity) fun a b ha hb => Fin.ext (by omega)
            · exact hc (fun i : Fin n => (j : ℕ) = i + k) _ (by positivity) fun a b ha hb => Fin.ext (by omega)
      _ = _ := by rw [← Finset.sum_add_distrib]; exact Finset.sum_congr rfl fun i _ => by ring
  have h0 : 0 ≤ ∑ i, x i ^ 2 := Finset.sum_nonneg fun i _ => sq_nonneg _
  rw [sampleAcf, abs_div, abs_of_nonneg h0]
  exact div_le_one_of_le₀ h1 h0

lemma acorr_ofFn {n : ℕ} {x : Fin n → ℝ} (h : x ≠ 0) {m : ℕ} (hm : 1 ≤ m) (hn : m < n) :
    Py.acorr (List.ofFn x) m = .ok ((List.range (2 * m + 1)).map fun j => sampleAcf x (if j ≤ m then m - j else j - m)) := by
  obtain ⟨i, hi⟩ := Function.ne_iff.mp h
  have h0 : 0 < ∑ i, x i ^ 2 := lt_of_lt_of_le (by have : x i ≠ 0 := hi; positivity) (Finset.single_le_sum (fun j _ => sq_nonneg (x j)) (Finset.mem_univ i))
  have hc : ¬ (m ≥ (List.ofFn x).length ∨ m < 1) := by simp; omega
  rw [Py.acorr, if_neg hc]
  refine mapM_total fun j _ => ?_
  rw [lagProd_zero, Real.sqrt_mul_self h0.le, dv_ok h0.ne', sampleAcf, lagProd_ofFn]

lemma acorr_zero {l : List ℝ} (h : ∀ x ∈ l, x = 0) {m : ℕ} (hm : 1 ≤ m) (hn : m < l.length) :
    Py.acorr l m = .error .nonfinite := by
  have hg : ∀ i, l.getD i 0 = 0 := by
    intro i
    by_cases hi : i < l.length
    · simpa [hi] using h _ (List.getElem_mem hi)
    · simp [hi]
  have hc : ¬ (m ≥ l.length ∨ m < 1) := by omega
  have hz : Py.lagProd l 0 = 0 := Finset.sum_eq_zero fun i _ => by rw [hg, zero_mul]
  rw [Py.acorr, if_neg hc, List.range_succ_eq_map, List.mapM_cons]
  have : ∀ a : ℝ, dv a √(Py.lagProd l 0 * Py.lagProd l 0) = .error .nonfinite := by
    intro a; rw [hz]; simp [dv]
  rw [this]; rfl

/-! ### the grid -/

lemma arrMin_ofFn {n : ℕ} {t : Fin (n + 1) → ℝ} (ht : Monotone t) : Py.arrMin (List.ofFn t) = .ok (t 0) := by
  rw [List.ofFn_succ, Py.arrMin]
  have h : ∀ (l : List ℝ) (a : ℝ), (∀ x ∈ l, a ≤ x) → l.foldl min a = a := by
    intro l
    induction l with
    | nil => intro a _; rfl
    | cons b l ih =>
      intro a h
      rw [List.foldl_cons, min_eq_left (h b (by simp))]
      exact ih a fun x hx => h x (by simp [hx])
  congr 1
  refine h _ _ fun x hx => ?_
  obtain ⟨i, rfl⟩ := (List.mem_ofFn' _ _).mp hx
  exact ht (Fin.zero_le _)

lemma arrMax_ofFn {n : ℕ} {t : Fin (n + 1) → ℝ} (ht : Monotone t) : Py.arrMax (List.ofFn t) = .ok (t (Fin.last n)) := by
  have h : ∀ (l : List ℝ) (a M : ℝ), (∀ x ∈ a :: l, x ≤ M) → M ∈ a :: l → l.foldl max a = M := by
    intro l
    induction l with
    | nil => intro a M _ h; exact (List.mem_singleton.mp h).symm
    | cons b l ih =>
      intro a M h hM
      rw [List.foldl_cons]
      refine ih _ M (fun x hx => ?_) ?_
      · rcases List.mem_cons.mp hx with rfl | hx
        · exact max_le (h a (by simp)) (h b (by simp))
        · exact h x (by simp [hx])
      · rcases List.mem_cons.mp hM with rfl | hM
        · rw [max_eq_left (h b (by simp))]; simp
        · rcases List.mem_cons.mp hM with rfl | hM
          · rw [max_eq_right (h a (by simp))]; simp
          · simp [hM]
  rw [List.ofFn_succ, Py.arrMax]
  congr 1
  refine h _ _ _ ?_ ?_ <;> rw [← List.ofFn_succ]
  · intro x hx
    obtain ⟨i, rfl⟩ := (List.mem_ofFn' _ _).mp hx
    exact ht (Fin.le_last _)
  · exact (List.mem_ofFn' _ _).mpr ⟨_, rfl⟩

lemma linspace_spec (a b : ℝ) {m : ℕ} (hm : 2 ≤ m) : (Py.linspace a b m).length = m ∧ (Py.linspace a b m)[0]? = some a ∧
    (Py.linspace a b m)[m - 1]? = some b ∧
    (∀ k < m, (Py.linspace a b m)[k]? = some (a + k / ((m : ℝ) - 1) * (b - a))) ∧
    ∀ x ∈ Py.linspace a b m, min a b ≤ x ∧ x ≤ max a b := by
  have hm1 : ¬ m = 1 := by omega
  have hpos : (0 : ℝ) < (m : ℝ) - 1 := by
    have : (2 : ℝ) ≤ m := by exact_mod_cast hm
    linarith
  have hk : ∀ k < m, (Py.linspace a b m)[k]? = some (a + k / ((m : ℝ) - 1) * (b - a)) := by
    intro k hk
    rw [Py.linspace, if_neg hm1, List.getElem?_map, List.getElem?_range hk]
    simp only [Option.map_some]
    congr 2
    field_simp
  refine ⟨by simp [Py.linspace, hm1], ?_, ?_, hk, ?_⟩
  · rw [hk 0 (by omega)]; simp
  · rw [hk (m - 1) (by omega), Nat.cast_sub (by omega), Nat.cast_one, div_self hpos.ne']; simp
  · intro x hx
    obtain ⟨k, hkl⟩ := List.mem_iff_getElem?.mp hx
    have hlt : k < m := by
      have := (List.getElem?_eq_some_iff.mp hkl).1
      simpa [Py.linspace, hm1] using this
    rw [hk k hlt] at hkl
    cases hkl
    have h0 : (0 : ℝ) ≤ k / ((m : ℝ) - 1) := by positivity
    have h1 : (k : ℝ) / ((m : ℝ) - 1) ≤ 1 := by
      rw [div_le_one hpos]
      have : ((k + 1 : ℕ) : ℝ) ≤ m := by exact_mod_cast hlt
      push_cast at this; linarith
    rcases le_total a b with h | h
    · rw [min_eq_left h, max_eq_right h]; constructor <;> nlinarith
    · rw [min_eq_right h, max_eq_left h]; constructor <;> nlinarith

/-! ### the whole method -/

/-- values of `acorr` at lags `-50 .. 50` -/
noncomputable def acf50 {n : ℕ} (x : Fin n → ℝ) : List ℝ := (List.range 101).map fun j => sampleAcf x (if j ≤ 50 then 50 - j else j - 50)

lemma sum_ofFn {n : ℕ} (f : Fin n → ℝ) : (List.ofFn f).sum = ∑ i, f i := List.sum_ofFn

lemma assessFit_of {σ : Type} [Kalman σ] {fm : Res (σ × ℝ)} {n : ℕ} {t y : Fin n → ℝ} {nplot : ℕ} {grid : List ℝ}
    (hg : Py.fitGrid (List.ofFn t) nplot = .ok grid) {pm pv : ℝ → ℝ} (hp : Py.predictAll fm grid = .ok (grid.map fun x => (pm x, pv x)))
    (hv : ∀ x ∈ grid, 0 < pv x) {r : Fin n → ℝ} (hr : Py.residuals fm (List.ofFn y) = .ok (List.ofFn r)) (hn : 50 < n)
    (hne : ∃ i j, r i ^ 2 ≠ r j ^ 2) :
    Py.assessFit fm (List.ofFn t) (List.ofFn y) nplot = .ok ⟨grid, grid.map pm, grid.map (fun x => pm x - √(pv x)),
      grid.map (fun x => pm x + √(pv x)), List.ofFn r, acf50 r, acf50 (fun i => r i ^ 2 - (∑ i, r i ^ 2) / n), 1.96 / √(n : ℝ)⟩ := by
  have hsd : (grid.map fun x => (pm x, pv x)).mapM (fun x => Py.sqrt x.2) = .ok (grid.map fun x => √(pv x)) := by
    rw [mapM_total (g := fun x : ℝ × ℝ => √x.2), List.map_map]
    · rfl
    · intro a ha
      obtain ⟨x, hx, rfl⟩ := List.mem_map.mp ha
      exact py_sqrt_ok (hv x hx).le
  have hn0 : (0 : ℝ) < n := by exact_mod_cast (by omega : 0 < n)
  have hr0 : r ≠ 0 := by
    rintro rfl
    obtain ⟨i, j, h⟩ := hne
    simp at h
  have hsq0 : (fun i => r i ^ 2 - (∑ i, r i ^ 2) / n) ≠ 0 := by
    intro h
    obtain ⟨i, j, hij⟩ := hne
    have hi := congrFun h i
    have hj := congrFun h j
    simp only [Pi.zero_apply] at hi hj
    exact hij (by linarith)
  simp only [Py.assessFit, hg, hp, res_bind_ok, hsd, hr, List.length_ofFn]
  rw [dv_ok (Real.sqrt_pos.mpr hn0).ne', res_bind_ok, acorr_ofFn hr0 (by omega) hn, res_bind_ok, List.map_ofFn, List.length_ofFn, sum_ofFn, dv_ok hn0.ne',
    res_bind_ok, List.map_ofFn]
  have := acorr_ofFn hsq0 (m := 50) (by omega) hn
  simp only [Function.comp_def]
  rw [this, res_bind_ok]
  have hz : ∀ f : ℝ → ℝ → ℝ, List.zipWith (fun (x : ℝ × ℝ) s => f x.1 s) (grid.map fun x => (pm x, pv x)) (grid.map fun x => √(pv x)) =
      grid.map fun x => f (pm x) √(pv x) := by
    intro f
    rw [List.zipWith_map, List.zipWith_self]
  rw [hz (fun a s => a - s), hz (fun a s => a + s), List.map_map]
  rfl

lemma assessFit_equal {σ : Type} [Kalman σ] {fm : Res (σ × ℝ)} {n : ℕ} {t y : Fin n → ℝ} {nplot : ℕ} {grid : List ℝ}
    (hg : Py.fitGrid (List.ofFn t) nplot = .ok grid) {pm pv : ℝ → ℝ} (hp : Py.predictAll fm grid = .ok (grid.map fun x => (pm x, pv x)))
    (hv : ∀ x ∈ grid, 0 < pv x) {r : Fin n → ℝ} (hr : Py.residuals fm (List.ofFn y) = .ok (List.ofFn r)) (hn : 50 < n)
    (hne : ∀ i j, r i ^ 2 = r j ^ 2) : Py.assessFit fm (List.ofFn t) (List.ofFn y) nplot = .error .nonfinite := by
  have hsd : (grid.map fun x => (pm x, pv x)).mapM (fun x => Py.sqrt x.2) = .ok (grid.map fun x => √(pv x)) := by
    rw [mapM_total (g := fun x : ℝ × ℝ => √x.2), List.map_map]
    · rfl
    · intro a ha
      obtain ⟨x, hx, rfl⟩ := List.mem_map.mp ha
      exact py_sqrt_ok (hv x hx).le
  have hn0 : (0 : ℝ) < n := by exact_mod_cast (by omega : 0 < n)
  have hm : ∀ i, r i ^ 2 - (∑ i, r i ^ 2) / n = 0 := by
    intro i
    rw [Finset.sum_congr rfl fun j _ => hne j i, Finset.sum_const, Finset.card_univ, Fintype.card_fin, nsmul_eq_mul]
    field_simp
    ring
  simp only [Py.assessFit, hg, hp, res_bind_ok, hsd, hr, List.length_ofFn]
  rw [dv_ok (Real.sqrt_pos.mpr hn0).ne', res_bind_ok]
  by_cases hr0 : r = 0
  · rw [acorr_zero (by subst hr0; intro x hx; obtain ⟨i, rfl⟩ := (List.mem_ofFn' _ _).mp hx; rfl) (by omega) (by simpa using hn)]
    rfl
  · rw [acorr_ofFn hr0 (by omega) hn, res_bind_ok, List.map_ofFn, List.length_ofFn, sum_ofFn, dv_ok hn0.ne', res_bind_ok, List.map_ofFn,
      acorr_zero (by intro x hx; obtain ⟨i, rfl⟩ := (List.mem_ofFn' _ _).mp hx; exact hm i) (by omega) (by simpa using hn)]
    rfl

lemma mapM_length {α β : Type} {f : α → Res β} : ∀ {l : List α} {r : List β}, l.mapM f = .ok r → r.length = l.length
  | [], r, h => by cases h; rfl
  | a :: l, r, h => by
      rw [List.mapM_cons] at h
      obtain ⟨b, -, h⟩ := bind_ok_inv h
      obtain ⟨r', h1, h⟩ := bind_ok_inv h
      cases h
      simp [mapM_length h1]

lemma residuals_length {σ : Type} [Kalman σ] {fm : Res (σ × ℝ)} {y r : List ℝ} (h : Py.residuals fm y = .ok r) : r.length = y.length := by
  obtain ⟨⟨kf, mu⟩, -, h⟩ := bind_ok_inv h
  obtain ⟨kf', -, h⟩ := bind_ok_inv h
  simp only at h
  split_ifs at h
  rw [mapM_length h, List.length_range]

/-- at most fifty values: `acorr` raises -/
lemma assessFit_short {σ : Type} [Kalman σ] (fm : Res (σ × ℝ)) (time : List ℝ) {y : List ℝ} (h : y.length ≤ 50) (nplot : ℕ) (f : Py.FitPlot) :
    Py.assessFit fm time y nplot ≠ .ok f := by
  intro hf
  obtain ⟨grid, -, hf⟩ := bind_ok_inv hf
  obtain ⟨pr, -, hf⟩ := bind_ok_inv hf
  obtain ⟨sd, -, hf⟩ := bind_ok_inv hf
  obtain ⟨res, hr, hf⟩ := bind_ok_inv hf
  obtain ⟨noise, -, hf⟩ := bind_ok_inv hf
  obtain ⟨acf, ha, hf⟩ := bind_ok_inv hf
  rw [Py.acorr, if_pos (Or.inl (by rw [residuals_length hr]; exact h))] at ha
  cases ha

/-- a request time where `Predict` fails makes the loop fail, if it works at the times before -/
lemma predictLoop_fail {σ : Type} [Kalman σ] (P : σ → Prop) {g : ℝ → Prop} (hok : ∀ s x, P s → ¬ g x → ∃ s' m v, Kalman.predict s x = .ok (s', m, v) ∧ P s')
    (hbad : ∀ s x, P s → g x → Kalman.predict s x = .error .nonfinite) (mu : ℝ) :
    ∀ (xs : List ℝ) (s : σ), P s → (∃ x ∈ xs, g x) → Py.predictLoop s mu xs = .error .nonfinite
  | [], _, _, h => by simp at h
  | x :: xs, s, hs, h => by
      by_cases hg : g x
      · rw [Py.predictLoop, hbad s x hs hg]; rfl
      · obtain ⟨s', m, v, h1, h2⟩ := hok s x hs hg
        rw [Py.predictLoop, h1]
        simp only [res_bind_ok]
        rw [predictLoop_fail P hok hbad mu xs s' h2 (by
          obtain ⟨z, hz, hgz⟩ := h
          rcases List.mem_cons.mp hz with rfl | hz
          · exact absurd hgz hg
          · exact ⟨z, hz, hgz⟩)]
        rfl

lemma Exact.predictAll_fail {σ : Type} [Kalman σ] {r : ℝ → ℝ} {I : σ → ℕ → (ℕ → ℝ) → (ℕ → ℝ) → (ℕ → ℝ) → Prop} (E : Exact r I)
    (mu : ℝ) {n : ℕ} {t y e : ℕ → ℝ} (hn : 0 < n) (ht : Incr n t e) (xs : List ℝ) {s : σ} (hI : I s n t y e)
    (hb : ∀ s x, I s n t y e → (∃ i < n, t i = x ∧ e i = 0) → Kalman.predict s x = .error .nonfinite)
    (hx : ∃ x ∈ xs, ∃ i < n, t i = x ∧ e i = 0) : Py.predictAll (.ok (s, mu)) xs = .error .nonfinite := by
  obtain ⟨s', h1, h2, -⟩ := E.filter hI hn ht
  simp only [Py.predictAll, res_bind_ok, h1]
  refine predictLoop_fail (fun s => I s n t y e) (g := fun x => ∃ i < n, t i = x ∧ e i = 0) (fun s x hs hg => ?_) hb mu xs s' h2 hx
  obtain ⟨s'', g1, g2, -⟩ := E.predict x hs hn ht fun i hi hti he => hg ⟨i, hi, hti, he⟩
  exact ⟨s'', _, _, g1, g2⟩

end Verif.Theory
