import Verif.Model.PySample
import Verif.Theory.Spectrum
import Verif.Theory.Post
import Verif.Theory.PyModel
import Verif.Theory.Sim
import Verif.Theory.Frame

/-!
Lemmas on the Python classes `CarmaSample` and `Car1Sample`.
-/

namespace Verif.Theory

open Verif.Model Verif.Spec Polynomial

variable {p : ℕ}

lemma sqrtDisc_pos {d : ℝ} (h : 0 < d) : Py.sqrtDisc d = (√d : ℝ) := by rw [Py.sqrtDisc, if_pos h]

lemma quadRoots_eq (a b : ℝ) : Py.quadRoots a b = quadPair a b := by
  unfold Py.quadRoots quadPair Py.sqrtDisc
  rw [show b ^ 2 = b * b from pow_two b]
  by_cases h : 0 < b * b - 4 * a
  · simp only [if_pos h]
    refine congrArg₂ (fun x y => [x, y]) ?_ ?_ <;> refine Complex.ext ?_ ?_ <;> norm_num
  · simp only [if_neg h]
    rw [show |b * b - 4 * a| = -(b * b - 4 * a) from abs_of_nonpos (not_lt.mp h)]
    refine congrArg₂ (fun x y => [x, y]) ?_ ?_ <;> refine Complex.ext ?_ ?_ <;> norm_num

lemma rd_map_exp (l : List ℝ) (i : ℕ) : rd (l.map Real.exp) i = (rd l i).map Real.exp := by
  unfold rd
  rw [List.getElem?_map]
  cases l[i]? <;> rfl

/-- reading a slice is reading the whole list at an offset -/
lemma rd_slice (l : List ℝ) {off m i : ℕ} (h : i < m) : rd ((l.drop off).take m) i = rd l (off + i) := by
  unfold rd
  rw [List.getElem?_take, if_pos h, List.getElem?_drop]

lemma quadLoop_eq (l : List ℝ) (off m : ℕ) : ∀ k, 2 * k ≤ m →
    Py.quadLoop (((l.drop off).take m).map Real.exp) k = rootLoop l off k
  | 0, _ => rfl
  | k + 1, h => by
      rw [Py.quadLoop, rootLoop, quadLoop_eq l off m k (by omega), rd_map_exp, rd_map_exp, rd_slice l (by omega),
        rd_slice l (by omega)]
      rw [show off + (2 * k + 1) = off + 2 * k + 1 by omega]
      cases rootLoop l off k with
      | error e => rfl
      | ok r =>
        cases rd l (off + 2 * k) with
        | error e => rfl
        | ok a =>
          cases rd l (off + 2 * k + 1) with
          | error e => rfl
          | ok b => simp only [Except.map, res_bind_ok, quadRoots_eq]

lemma quadAll_eq (l : List ℝ) {off m : ℕ} (h : off + m ≤ l.length) :
    Py.quadAll (((l.drop off).take m).map Real.exp) m = rootsFrom l off m := by
  rw [Py.quadAll, rootsFrom, quadLoop_eq l off m _ (by omega)]
  by_cases hm : m % 2 = 1
  · have h1 : off + m - 1 < l.length := by omega
    have h2 : (((l.drop off).take m).map Real.exp).length = m := by simp; omega
    have h3 : ((l.drop off).take m).map Real.exp ≠ [] := by intro h0; rw [h0] at h2; simp at h2; omega
    have h4 : (((l.drop off).take m).map Real.exp).getLastD 0 = Real.exp (at0 l (off + m - 1)) := by
      rw [List.getLastD_eq_getLast?, List.getLast?_eq_getElem?, h2, List.getElem?_map, List.getElem?_take, if_pos (by omega), List.getElem?_drop,
        show off + (m - 1) = off + m - 1 by omega, List.getElem?_eq_getElem h1]
      simp [at0, List.getD_eq_getElem?_getD, List.getElem?_eq_getElem h1]
    simp only [if_pos hm, if_neg h3, rd_at0 h1, h4, res_bind_ok]
  · simp only [if_neg hm]

lemma sampAr_eq (θ : List ℝ) (h : 3 + p ≤ θ.length) : Py.sampAr p θ = arRoots p θ := quadAll_eq θ h

/-! ### coefficients of `np.poly` -/

lemma npPoly_coeff (l : List ℂ) : ∀ j ≤ l.length, (Py.npPoly l)[j]? = some ((rootPoly l).coeff (l.length - j)) := by
  have key : ∀ (l : List ℂ) (a : List ℂ) (A : ℂ[X]) (m : ℕ), a.length = m + 1 → A.natDegree ≤ m →
      (∀ j ≤ m, a[j]? = some (A.coeff (m - j))) → ∀ j ≤ m + l.length,
      (l.foldl (fun a r => List.zipWith (fun u v => u - r * v) (a ++ [0]) (0 :: a)) a)[j]? =
        some ((A * rootPoly l).coeff (m + l.length - j)) := by
    intro l
    induction l with
    | nil => intro a A m h1 _ h3 j hj; simpa [rootPoly] using h3 j hj
    | cons r l ih =>
      intro a A m h1 h2 h3 j hj
      rw [List.foldl_cons]
      have := ih (List.zipWith (fun u v => u - r * v) (a ++ [0]) (0 :: a)) (A * (X - C r)) (m + 1) (by simp; omega)
        (le_trans natDegree_mul_le (by rw [natDegree_X_sub_C]; omega)) ?_ j (by simp at hj; omega)
      · rw [this]
        simp only [rootPoly, List.map_cons, List.prod_cons, List.length_cons, mul_assoc]
        rw [show m + 1 + l.length - j = m + (l.length + 1) - j by omega]
      · intro j hj
        rw [List.getElem?_zipWith]
        have e : (A * (X - C r)).coeff (m + 1 - j) =
            (if j ≤ m then A.coeff (m - j) else 0) - r * A.coeff (m + 1 - j) := by
          by_cases hjm : j ≤ m
          · rw [if_pos hjm, show m + 1 - j = (m - j) + 1 by omega, mul_sub, coeff_sub, coeff_mul_X, coeff_mul_C, mul_comm r]
          · rw [if_neg hjm, show m + 1 - j = 0 by omega, mul_coeff_zero]
            simp [mul_comm]
        have e1 : (a ++ [0])[j]? = some (if j ≤ m then A.coeff (m - j) else 0) := by
          by_cases hjm : j ≤ m
          · rw [if_pos hjm, List.getElem?_append_left (by omega), h3 j hjm]
          · rw [if_neg hjm, List.getElem?_append_right (by omega), show j - a.length = 0 by omega]; rfl
        have e2 : (0 :: a)[j]? = some (A.coeff (m + 1 - j)) := by
          rcases j with _ | j
          · rw [Nat.sub_zero, coeff_eq_zero_of_natDegree_lt (by omega)]; rfl
          · rw [List.getElem?_cons_succ, h3 j (by omega), show m + 1 - (j + 1) = m - j by omega]
        rw [e1, e2, e]
  intro j hj
  have := key l [1] 1 0 rfl (by simp) (by intro j hj; obtain rfl : j = 0 := by omega
                                          simp) j (by omega)
  simpa [Py.npPoly] using this

/-- moving-average coefficients of Python, padded with zeros, are those of C++ -/
lemma sampMa_spec {q : ℕ} (hq : q < p) (θ : List ℝ) (h : θ.length = 3 + p + q) :
    ∃ ma, Py.sampMa p q θ = .ok ma ∧ ma.length = q + 1 ∧ ma[0]? = some 1 ∧ carmaMA p q θ = .ok (KFp.padMA p ma) := by
  rw [carmaMA_spec hq θ h.ge]
  obtain ⟨l, h1, h2⟩ := rootsFrom_spec θ (3 + p) q h.ge
  set P := factorPoly (at0 θ) (3 + p) q
  have hpos : 0 < P.coeff 0 := factorPoly_pos _ _ _ 0 (by simp)
  have hc : ∀ i, (rootPoly l).coeff i = (P.coeff i : ℂ) := by intro i; rw [h2.poly, coeff_map]; rfl
  refine ⟨(List.range (q + 1)).map fun i => P.coeff i / P.coeff 0, ?_, by simp, by simp [hpos.ne'], ?_⟩
  · unfold Py.sampMa
    by_cases hq0 : q = 0
    · subst hq0; simp [hpos.ne']
    · rw [if_neg hq0]
      have e : (θ.drop (3 + p)).map Real.exp = ((θ.drop (3 + p)).take q).map Real.exp := by
        rw [List.take_of_length_le (by simp; omega)]
      rw [e, quadAll_eq θ h.ge, h1]
      have e2 : rd (Py.npPoly l) q = .ok (P.coeff 0 : ℂ) := by
        rw [rd, npPoly_coeff l q h2.length.ge, h2.length, Nat.sub_self, hc]
      simp only [res_bind_ok, e2, if_neg (Complex.ofReal_ne_zero.mpr hpos.ne')]
      refine congrArg Except.ok (List.ext_getElem? fun i => ?_)
      rw [List.getElem?_map]
      by_cases hi : i < q + 1
      · rw [List.getElem?_reverse (by rw [List.length_map, npPoly_length, h2.length]; exact hi), List.length_map, npPoly_length, h2.length, List.getElem?_map,
          npPoly_coeff l _ (by rw [h2.length]; omega), h2.length, hc, List.getElem?_map, List.getElem?_range hi,
          show q - (q + 1 - 1 - i) = i by omega]
        simp [← Complex.ofReal_div]
      · rw [List.getElem?_eq_none (by rw [List.length_reverse, List.length_map, npPoly_length, h2.length]; omega),
          List.getElem?_eq_none (by simp; omega)]; rfl
  · refine congrArg Except.ok (List.ext_getElem? fun i => ?_)
    by_cases hi : i < q + 1
    · rw [KFp.padMA, List.getElem?_append_left (by simpa using hi), List.getElem?_map, List.getElem?_range (by omega),
        List.getElem?_map, List.getElem?_range hi]
    · rw [KFp.padMA, List.getElem?_append_right (by simp; omega), List.getElem?_map, List.getElem?_replicate]
      simp only [List.length_map, List.length_range]
      by_cases hp : i < p
      · rw [List.getElem?_range hp, if_pos (by omega)]
        simp only [Option.map_some]
        rw [coeff_eq_zero_of_natDegree_lt (by rw [h2.natDegree]; omega), zero_div]
      · rw [List.getElem?_eq_none (by simp; omega), if_neg (by omega)]; rfl

/-- the two formulas for the variance with unit driving noise -/
lemma unitVar_eq (ω : Fin p → ℂ) (ma : List ℝ) :
    variance ω (KFp.padMA p ma) 1 0 = (Py.unitVar ω ma >>= fun v => .ok v.re) := by
  have hd : ∀ k, -2 * ((ω k).re : ℂ) * (∏ l, if l ≠ k then (ω l - ω k) * (star (ω l) + ω k) else 1) = varDenom ω k := fun _ => rfl
  have hm : ∀ z, maSum (KFp.padMA p ma) z = ∑ l ∈ Finset.range ma.length, (ma.getD l 0 : ℂ) * z ^ l := by
    intro z; rw [maSum_eq, KFp.padMA, maEval_append_zeros]; rfl
  unfold variance Py.unitVar
  simp only [hd]
  by_cases h : ∃ k, varDenom ω k = 0
  · rw [if_pos h, if_pos h]; rfl
  · rw [if_neg h, if_neg h]
    simp only [hm, res_bind_ok, neg_one_mul, mul_one, one_mul, Complex.ofReal_zero, mul_zero, Complex.exp_zero]

/-- `sigma` of Python is the square root of the variance that the C++ object computes, faults included -/
lemma sampSigma_eq {s : CarP p} {θ : List ℝ} {roots : List ℂ} (hr : arRoots p θ = .ok roots) {ma : List ℝ}
    (hm : s.extractMA θ = .ok (KFp.padMA p ma)) :
    Py.sampSigma p θ roots ma = (s.extractSigsqr θ >>= Py.sqrt) := by
  unfold Py.sampSigma CarP.extractSigsqr
  rw [hr, hm]
  simp only [res_bind_ok, unitVar_eq]
  cases rd θ 0 with
  | error e => rfl
  | ok s0 =>
    cases Py.unitVar (vecOf p roots) ma with
    | error e => rfl
    | ok v => simp only [res_bind_ok, pow_two]

lemma py_sqrt_ok {x : ℝ} (h : 0 ≤ x) : Py.sqrt x = .ok √x := by rw [Py.sqrt, if_neg (not_lt.mpr h)]

/-! ### `np.argmax` -/

lemma Dbl.lt_of_not_lt_of_lt {a b m : Model.Dbl} (h1 : ¬ m.lt b) (h2 : b ≠ .nan) (h3 : m.lt a) : b.lt a := by
  cases a <;> cases b <;> cases m <;> simp [Model.Dbl.lt] at h1 h2 h3 ⊢ <;> linarith

lemma argmaxFold (pre : List Model.Dbl) (m : Model.Dbl) (i : ℕ) :
    ∀ l, pre[i]? = some m → (∀ (j : ℕ) (a : Model.Dbl), pre[j]? = some a → a ≠ .nan → m ≠ .nan → ¬ m.lt a) →
      (∀ (j : ℕ) (a : Model.Dbl), pre[j]? = some a → j < i → a ≠ .nan ∧ (m ≠ .nan → a.lt m)) → (∀ j : ℕ, pre[j]? = some .nan → m = .nan) →
      ∃ m' i', l.foldl Py.argmaxStep (m, i, pre.length) = (m', i', pre.length + l.length) ∧ (pre ++ l)[i']? = some m' ∧
        (∀ (j : ℕ) (a : Model.Dbl), (pre ++ l)[j]? = some a → a ≠ .nan → m' ≠ .nan → ¬ m'.lt a) ∧
        (∀ (j : ℕ) (a : Model.Dbl), (pre ++ l)[j]? = some a → j < i' → a ≠ .nan ∧ (m' ≠ .nan → a.lt m')) ∧
        (∀ j : ℕ, (pre ++ l)[j]? = some .nan → m' = .nan) := by
  intro l
  induction l generalizing pre m i with
  | nil => intro h1 h2 h3 h4; exact ⟨m, i, by simp, by simpa using h1, by simpa using h2, by simpa using h3, by simpa using h4⟩
  | cons a l ih =>
    intro h1 h2 h3 h4
    have hi : i < pre.length := (List.getElem?_eq_some_iff.mp h1).1
    have hget : ∀ (j : ℕ) b, (pre ++ [a])[j]? = some b → pre[j]? = some b ∨ (j = pre.length ∧ b = a) := by
      intro j b hb
      rcases lt_trichotomy j pre.length with h | h | h
      · left; rwa [List.getElem?_append_left h] at hb
      · right; subst h; rw [List.getElem?_append_right le_rfl] at hb; simp at hb; exact ⟨rfl, hb.symm⟩
      · rw [List.getElem?_eq_none (by simp; omega)] at hb; cases hb
    rw [List.foldl_cons]
    by_cases hc : m ≠ .nan ∧ (a = .nan ∨ m.lt a)
    · have e : Py.argmaxStep (m, i, pre.length) a = (a, pre.length, (pre ++ [a]).length) := by
        rw [Py.argmaxStep, if_pos hc]; simp
      rw [e]
      have H := ih (pre ++ [a]) a pre.length (by simp)
      refine Exists.elim (H ?_ ?_ ?_) fun m' h => Exists.elim h fun i' ⟨g1, g2, g3, g4, g5⟩ =>
        ⟨m', i', by rw [g1]; simp; omega, by simpa using g2, by simpa using g3, by simpa using g4, by simpa using g5⟩
      · intro j b hb hbn han
        rcases hget j b hb with h | ⟨-, rfl⟩
        · intro hlt
          have := hc.2.resolve_left han
          exact h2 j b h hbn hc.1 (Dbl.lt_trans this hlt)
        · exact Dbl.lt_irrefl _
      · intro j b hb hj
        rcases hget j b hb with h | ⟨rfl, -⟩
        · have hbn : b ≠ .nan := by rintro rfl; exact hc.1 (h4 j h)
          refine ⟨hbn, fun han => ?_⟩
          exact Dbl.lt_of_not_lt_of_lt (h2 j b h hbn hc.1) hbn (hc.2.resolve_left han)
        · omega
      · intro j hb
        rcases hget j _ hb with h | ⟨-, h⟩
        · exact absurd (h4 j h) hc.1
        · exact h.symm
    · have e : Py.argmaxStep (m, i, pre.length) a = (m, i, (pre ++ [a]).length) := by
        rw [Py.argmaxStep, if_neg hc]; simp
      rw [e]
      have H := ih (pre ++ [a]) m i (by rw [List.getElem?_append_left hi, h1])
      refine Exists.elim (H ?_ ?_ ?_) fun m' h => Exists.elim h fun i' ⟨g1, g2, g3, g4, g5⟩ =>
        ⟨m', i', by rw [g1]; simp; omega, by simpa using g2, by simpa using g3, by simpa using g4, by simpa using g5⟩
      · intro j b hb hbn hmn
        rcases hget j b hb with h | ⟨-, rfl⟩
        · exact h2 j b h hbn hmn
        · intro hlt; exact hc ⟨hmn, .inr hlt⟩
      · intro j b hb hj
        rcases hget j b hb with h | ⟨rfl, -⟩
        · exact h3 j b h hj
        · omega
      · intro j hb
        rcases hget j _ hb with h | ⟨-, h⟩
        · exact h4 j h
        · by_contra hmn; exact hc ⟨hmn, .inl h.symm⟩

/-- `np.argmax`: if no value is NaN, the first position of the largest value; otherwise the position of the first NaN -/
lemma argmax_spec {l : List Model.Dbl} (h : l ≠ []) : ∃ i m, Py.argmax l = .ok i ∧ l[i]? = some m ∧
    (∀ (j : ℕ) (a : Model.Dbl), l[j]? = some a → a ≠ .nan → m ≠ .nan → ¬ m.lt a) ∧
    (∀ (j : ℕ) (a : Model.Dbl), l[j]? = some a → j < i → a ≠ .nan ∧ (m ≠ .nan → a.lt m)) ∧ (∀ j : ℕ, l[j]? = some .nan → m = .nan) := by
  obtain ⟨a, l, rfl⟩ := List.exists_cons_of_ne_nil h
  have hget : ∀ (j : ℕ) b, [a][j]? = some b → j = 0 ∧ b = a := by
    intro j b hb
    rcases j with _ | j
    · simp at hb; exact ⟨rfl, hb.symm⟩
    · simp at hb
  obtain ⟨m, i, g1, g2, g3, g4, g5⟩ := argmaxFold [a] a 0 l rfl
    (fun j b hb _ _ => by rw [(hget j b hb).2]; exact Dbl.lt_irrefl _) (fun j b hb hj => by omega)
    (fun j hb => ((hget j _ hb).2).symm)
  refine ⟨i, m, ?_, g2, g3, g4, g5⟩
  rw [Py.argmax]
  rw [show ([a] : List Model.Dbl).length = 1 from rfl] at g1
  rw [g1]

lemma argmax_first {l : List Model.Dbl} {i : ℕ} (h : FirstMax l i) : Py.argmax l = .ok i := by
  obtain ⟨hn, a, h1, h2, h3⟩ := h
  obtain ⟨k, m, g1, g2, g3, g4, -⟩ := argmax_spec (l := l) (by rintro rfl; simp at h1)
  have hm := hn m (List.mem_of_getElem? g2)
  rcases lt_trichotomy k i with hk | rfl | hk
  · exact absurd (h3 k hk m g2) (g3 i a h1 (hn a (List.mem_of_getElem? h1)) hm)
  · exact g1
  · exact absurd ((g4 i a h1 hk).2 hm) (h2 m (List.mem_of_getElem? g2))

/-! ### prediction -/

lemma Exact.predictLoop {σ : Type} [Kalman σ] {r : ℝ → ℝ} {I : σ → ℕ → (ℕ → ℝ) → (ℕ → ℝ) → (ℕ → ℝ) → Prop} (E : Exact r I)
    (mu : ℝ) {n : ℕ} {t y e : ℕ → ℝ} (hn : 0 < n) (ht : Incr n t e) : ∀ (xs : List ℝ) {s : σ}, I s n t y e →
      (∀ x ∈ xs, ∀ i < n, t i = x → e i ≠ 0) → Py.predictLoop s mu xs =
        .ok (xs.map fun x => (predMean r (fst n t) (fst n e) (fst n y) x + mu, predVar r (fst n t) (fst n e) x))
  | [], _, _, _ => rfl
  | x :: xs, s, hI, hx => by
      obtain ⟨s', h1, h2, -⟩ := E.predict x hI hn ht (hx x (by simp))
      rw [Py.predictLoop, h1]
      simp only [res_bind_ok]
      rw [E.predictLoop mu hn ht xs h2 (fun x' hx' => hx x' (by simp [hx']))]
      rfl

lemma Exact.predictAll {σ : Type} [Kalman σ] {r : ℝ → ℝ} {I : σ → ℕ → (ℕ → ℝ) → (ℕ → ℝ) → (ℕ → ℝ) → Prop} (E : Exact r I)
    (mu : ℝ) {n : ℕ} {t y e : ℕ → ℝ} (hn : 0 < n) (ht : Incr n t e) (xs : List ℝ) {s : σ} (hI : I s n t y e)
    (hx : ∀ x ∈ xs, ∀ i < n, t i = x → e i ≠ 0) : Py.predictAll (.ok (s, mu)) xs =
        .ok (xs.map fun x => (predMean r (fst n t) (fst n e) (fst n y) x + mu, predVar r (fst n t) (fst n e) x)) := by
  obtain ⟨s', h1, h2, -⟩ := E.filter hI hn ht
  simp only [Py.predictAll, res_bind_ok, h1]
  exact E.predictLoop mu hn ht xs h2 hx

/-- one time is the case of a list of one time -/
lemma predict_of_all {σ : Type} [Kalman σ] {fm : Res (σ × ℝ)} {x : ℝ} {m v : ℝ} (h : Py.predictAll fm [x] = .ok [(m, v)]) :
    Py.predict fm x = .ok (m, v) := by
  obtain ⟨⟨kf, mu⟩, h1, h⟩ := bind_ok_inv h
  obtain ⟨kf', h2, h⟩ := bind_ok_inv h
  obtain ⟨⟨kf2, m', v'⟩, h3, h⟩ := bind_ok_inv h
  simp only [Py.predict, h1, res_bind_ok, h2, h3]
  simp only [Py.predictLoop, res_bind_ok] at h
  cases h
  rfl

lemma Exact.pySimulate {σ : Type} [Kalman σ] {r : ℝ → ℝ} {I : σ → ℕ → (ℕ → ℝ) → (ℕ → ℝ) → (ℕ → ℝ) → Prop} (E : Exact r I)
    (mu : ℝ) {n : ℕ} {t y e : ℕ → ℝ} (hn : 2 ≤ n) (ht : Incr n t e) (ts : List ℝ) (zs : ℕ → ℝ) {s : σ} (hI : I s n t y e)
    (hnd : ts.Nodup) (hx : ∀ x ∈ ts, ∀ i < n, t i = x → e i ≠ 0) : Py.simulate (.ok (s, mu)) ts zs =
        .ok ((simSpec r (obsList n t y e) (ts.mergeSort fun a b => decide (a ≤ b)) zs).map fun v => v + mu) := by
  obtain ⟨s', h1, h2, -⟩ := E.filter hI (by omega) ht
  obtain ⟨s'', h3, -⟩ := E.simulate h2 hn ht ts zs hnd hx
  simp only [Py.simulate, res_bind_ok, h1, h3]
  rfl

lemma map_sub_ofFn {n : ℕ} (y : Fin n → ℝ) (mu : ℝ) :
    (List.ofFn y).map (fun v => v - mu) = List.ofFn fun i => y i - mu := by rw [List.map_ofFn]; rfl

/-- moving-average polynomial of the Python coefficients -/
lemma sampMa_eval {q : ℕ} (hq : q < p) (θ : List ℝ) (h : θ.length = 3 + p + q) {ma : List ℝ} (hm : carmaMA p q θ = .ok (KFp.padMA p ma))
    (z : ℂ) : maEval ma z = ((factorPoly (at0 θ) (3 + p) q).map Complex.ofRealHom).eval z / (factorPoly (at0 θ) (3 + p) q).coeff 0 := by
  obtain ⟨l, _, g⟩ := rootsFrom_spec θ (3 + p) q h.ge
  rw [← maEval_append_zeros ma (p - ma.length), show ma ++ List.replicate (p - ma.length) 0 = KFp.padMA p ma from rfl]
  have := (carmaMA_spec hq θ h.ge).symm.trans hm
  injection this with this
  rw [← this]
  exact maEval_coeffs (by rw [g.natDegree]; exact hq) _ z

/-- the filter built from the best sample -/
lemma mapFilter_spec (srt : List ℝ → List ℕ) {n : ℕ} (y : Fin n → ℝ) (time ysig : List ℝ) (hp : 0 < p) {q : ℕ} (hq : q < p)
    {logpost : List Model.Dbl} {rows : List (List ℝ)} {i : ℕ} (hi : FirstMax logpost i) {θ : List ℝ}
    (hrow : rows[i]? = some θ) (hθ : θ.length = 3 + p + q) {roots : List ℂ} (hr : arRoots p θ = .ok roots) (hnd : roots.Nodup) :
    ∃ ma, ma.length ≤ p ∧ (∃ x ∈ ma, x ≠ 0) ∧ Admissible (vecOf p roots) ∧
      (∀ z, maEval ma z = ((factorPoly (at0 θ) (3 + p) q).map Complex.ofRealHom).eval z / (factorPoly (at0 θ) (3 + p) q).coeff 0) ∧
      Py.mapFilter (p := p) srt time (List.ofFn y) ysig q logpost rows =
        (KFp.new srt time (List.ofFn fun i => y i - at0 θ 2) ysig (at0 θ 0 ^ 2 / carmaAcf 1 (vecOf p roots) ma 0) (vecOf p roots) ma
          >>= fun kf => .ok (kf, at0 θ 2)) := by
  obtain ⟨ma, h1, h2, h3, h4⟩ := sampMa_spec hq θ hθ
  obtain ⟨roots', hr', hg⟩ := rootsFrom_spec θ 3 p (by omega)
  cases hr.symm.trans hr'
  have ha := hg.admissible hnd
  have hne : ∃ x ∈ ma, x ≠ 0 := ⟨1, List.mem_of_getElem? h3, one_ne_zero⟩
  have hl : ma.length ≤ p := by omega
  have hpos : 0 < carmaAcf 1 (vecOf p roots) ma 0 := carmaAcf_pos ha one_pos hl hne
  refine ⟨ma, hl, hne, ha, sampMa_eval hq θ hθ h4, ?_⟩
  have hv := variance_eq ha (padMA_length hl).le 1 0
  rw [carmaAcf_pad, one_pow, unitVar_eq] at hv
  obtain ⟨v, hv1, hv2⟩ := bind_ok_inv hv
  have hv3 : v.re = carmaAcf 1 (vecOf p roots) ma 0 := by injection hv2
  have hs : Py.sampSigma p θ roots ma = .ok √(at0 θ 0 ^ 2 / carmaAcf 1 (vecOf p roots) ma 0) := by
    simp only [Py.sampSigma, rd_at0 (show 0 < θ.length by omega), res_bind_ok, hv1, hv3, dv_ok hpos.ne']
    exact py_sqrt_ok (by positivity)
  simp only [Py.mapFilter, argmax_first hi, rd_ok hrow, res_bind_ok, sampAr_eq θ (show 3 + p ≤ θ.length by omega), hr, h1, hs,
    rd_at0 (show 2 < θ.length by omega), map_sub_ofFn]
  rw [Real.sq_sqrt (by positivity)]
  rfl

/-- derived quantities of one row -/
lemma derived_spec {q : ℕ} (hq : q < p) {θ : List ℝ} (hθ : θ.length = 3 + p + q) {roots : List ℂ} (hr : arRoots p θ = .ok roots)
    (hnd : roots.Nodup) : ∃ ma sigma, Py.derived p q θ = .ok (roots, ma, sigma, at0 θ 2) ∧ ma[0]? = some 1 ∧ (at0 θ 0 ≠ 0 → 0 < sigma) := by
  obtain ⟨ma, h1, h2, h3, h4⟩ := sampMa_spec hq θ hθ
  obtain ⟨roots', hr', hg⟩ := rootsFrom_spec θ 3 p (by omega)
  cases hr.symm.trans hr'
  have ha := hg.admissible hnd
  have hne : ∃ x ∈ ma, x ≠ 0 := ⟨1, List.mem_of_getElem? h3, one_ne_zero⟩
  have hl : ma.length ≤ p := by omega
  have hpos : 0 < carmaAcf 1 (vecOf p roots) ma 0 := carmaAcf_pos ha one_pos hl hne
  have hv := variance_eq ha (padMA_length hl).le 1 0
  rw [carmaAcf_pad, one_pow, unitVar_eq] at hv
  obtain ⟨v, hv1, hv2⟩ := bind_ok_inv hv
  have hv3 : v.re = carmaAcf 1 (vecOf p roots) ma 0 := by injection hv2
  have hs : Py.sampSigma p θ roots ma = .ok √(at0 θ 0 ^ 2 / carmaAcf 1 (vecOf p roots) ma 0) := by
    simp only [Py.sampSigma, rd_at0 (show 0 < θ.length by omega), res_bind_ok, hv1, hv3, dv_ok hpos.ne']
    exact py_sqrt_ok (by positivity)
  refine ⟨ma, √(at0 θ 0 ^ 2 / carmaAcf 1 (vecOf p roots) ma 0), ?_, h3, fun h => Real.sqrt_pos.mpr (by positivity)⟩
  simp only [Py.derived, sampAr_eq θ (show 3 + p ≤ θ.length by omega), hr, h1, hs, res_bind_ok, rd_at0 (show 2 < θ.length by omega)]
  rfl

/-- the filter built from averages has the averaged roots -/
lemma meanFilter_spec (srt : List ℝ → List ℕ) {n : ℕ} (hn : 2 ≤ n) {t : Fin n → ℝ} (ht : StrictMono t) (y e : Fin n → ℝ) {q : ℕ}
    {rows : List (List ℝ)} {d : List (List ℂ × List ℝ × ℝ × ℝ)} (hd : rows.mapM (Py.derived p q) = .ok d) {roots : List ℂ}
    (hm : Py.meanRoots p (d.map fun x => x.1) = .ok roots) :
    ∃ (kf : KFp p) (mu : ℝ), Py.meanFilter srt (List.ofFn t) (List.ofFn y) (List.ofFn e) q rows = .ok (kf, mu) ∧ kf.omega = vecOf p roots := by
  have hne : ∀ (β : Type) (f : List ℂ × List ℝ × ℝ × ℝ → β), d.map f ≠ [] := by
    intro β f h
    have : d = [] := List.map_eq_nil_iff.mp h
    subst this
    simp [Py.meanRoots] at hm
  have h1 := hne _ fun x => x.2.1
  have h2 := hne _ fun x => [x.2.2.1 ^ 2, x.2.2.2]
  simp only [Py.meanFilter, hd, res_bind_ok, hm, Py.meanReal, if_neg h1, if_neg h2, map_sub_ofFn,
    show List.range 2 = [0, 1] from rfl, List.map_cons (α := ℕ), List.map_nil (α := ℕ)]
  rw [rd_ok (show [_, _][0]? = some _ from rfl), res_bind_ok, rd_ok (show [_, _][1]? = some _ from rfl), res_bind_ok]
  have aux : ∀ mu σ2 β, ∃ kf, (KFp.new srt (List.ofFn t) (List.ofFn fun i => y i - mu) (List.ofFn e) σ2 (vecOf p roots) β >>=
      fun kf => .ok (kf, mu)) = .ok (kf, mu) ∧ kf.omega = vecOf p roots := by
    intro mu σ2 β
    obtain ⟨kf, g1, g2⟩ := KFp.new_inv (p := p) srt hn ht (fun i => y i - mu) e σ2 (vecOf p roots) β
    exact ⟨kf, by rw [g1]; rfl, g2.om⟩
  exact ⟨_, _, (aux _ _ _).choose_spec⟩

/-- the filter built from averages -/
lemma meanFilter_eq (srt : List ℝ → List ℕ) (time y ysig : List ℝ) {q : ℕ} {rows : List (List ℝ)}
    {d : List (List ℂ × List ℝ × ℝ × ℝ)} (hd : rows.mapM (Py.derived p q) = .ok d) (hne : d ≠ []) :
    Py.meanFilter (p := p) srt time y ysig q rows =
      (KFp.new srt time (y.map fun v => v - avg (d.map fun x => x.2.2.2)) ysig (avg (d.map fun x => x.2.2.1 ^ 2))
        (fun k => avg (d.map fun x => vecOf p x.1 k)) ((List.range (q + 1)).map fun j => avg (d.map fun x => x.2.1.getD j 0)) >>=
        fun kf => .ok (kf, avg (d.map fun x => x.2.2.2))) := by
  have hne : ∀ (β : Type) (f : List ℂ × List ℝ × ℝ × ℝ → β), d.map f ≠ [] := fun β f h => hne (List.map_eq_nil_iff.mp h)
  have h0 := hne _ fun x => x.1
  have h1 := hne _ fun x => x.2.1
  have h2 := hne _ fun x => [x.2.2.1 ^ 2, x.2.2.2]
  simp only [Py.meanFilter, hd, res_bind_ok, Py.meanRoots, Py.meanReal, if_neg h0, if_neg h1, if_neg h2,
    show List.range 2 = [0, 1] from rfl, List.map_cons (α := ℕ), List.map_nil (α := ℕ)]
  rw [rd_ok (show [_, _][0]? = some _ from rfl), res_bind_ok, rd_ok (show [_, _][1]? = some _ from rfl), res_bind_ok]
  have e : vecOf p ((List.range p).map fun k => ((d.map fun x => x.1).map fun r => r.getD k 0).sum / ((d.map fun x => x.1).length : ℂ)) =
      fun k => avg (d.map fun x => vecOf p x.1 k) := by
    funext k
    simp [vecOf, avg, List.getD_eq_getElem?_getD, Function.comp_def]
  rw [e]
  simp only [avg, List.map_map, Function.comp_def, List.length_map]
  rfl

/-- the same for CAR(1) -/
lemma mapFilter1_spec (srt : List ℝ → List ℕ) {n : ℕ} (y : Fin n → ℝ) (time ysig : List ℝ)
    {logpost : List Model.Dbl} {rows : List (List ℝ)} {i : ℕ} (hi : FirstMax logpost i) {θ : List ℝ}
    (hrow : rows[i]? = some θ) (hθ : θ.length = 4) :
    Py.mapFilter1 srt time (List.ofFn y) ysig logpost rows =
        (KF1.new srt time (List.ofFn fun i => y i - at0 θ 2) ysig (2 * at0 θ 0 ^ 2 * Real.exp (at0 θ 3)) (Real.exp (at0 θ 3))
          >>= fun kf => .ok (kf, at0 θ 2)) := by
  have hpos : 0 ≤ 2 * at0 θ 0 ^ 2 * Real.exp (at0 θ 3) := by positivity
  simp only [Py.mapFilter1, Py.sampSigma1, argmax_first hi, rd_ok hrow, res_bind_ok, rd_at0 (show 2 < θ.length by omega),
    rd_at0 (show 3 < θ.length by omega), rd_at0 (show 0 < θ.length by omega), py_sqrt_ok hpos, map_sub_ofFn]
  rw [Real.sq_sqrt hpos]
  rfl

end Verif.Theory
