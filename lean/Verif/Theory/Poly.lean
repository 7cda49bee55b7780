import Verif.Model.CarPack
import Verif.Spec.Param
import Verif.Spec.Carma
import Verif.Theory.KFBasic
import Mathlib.Algebra.Polynomial.Roots
import Mathlib.Algebra.Polynomial.Monic

/-! Helper theory: `polycoefs`, roots from quadratic factors, moving-average coefficients. -/

namespace Verif.Theory

open Verif.Model Verif.Spec Polynomial

/-! ### polycoefs -/

/-- `∏ (X - r)` -/
noncomputable def rootPoly (l : List ℂ) : ℂ[X] := (l.map fun r => X - C r).prod

lemma rootPoly_append (l m : List ℂ) : rootPoly (l ++ m) = rootPoly l * rootPoly m := by simp [rootPoly]

lemma rootPoly_monic (l : List ℂ) : (rootPoly l).Monic := by
  induction l with
  | nil => simp [rootPoly]
  | cons a l ih =>
    have : rootPoly (a :: l) = (X - C a) * rootPoly l := by simp [rootPoly]
    rw [this]; exact (monic_X_sub_C a).mul ih

lemma rootPoly_natDegree (l : List ℂ) : (rootPoly l).natDegree = l.length := by
  induction l with
  | nil => simp [rootPoly]
  | cons a l ih =>
    have : rootPoly (a :: l) = (X - C a) * rootPoly l := by simp [rootPoly]
    rw [this, (monic_X_sub_C a).natDegree_mul (rootPoly_monic l), ih, natDegree_X_sub_C, List.length_cons]; omega

lemma polyStep_length (r : ℂ) (i : ℕ) (c : List ℂ) : (polyStep r i c).length = c.length := by simp [polyStep]

lemma polyStep_getD (r : ℂ) (i : ℕ) (c : List ℂ) {j : ℕ} (hj : j < c.length) :
    (polyStep r i c).getD j 0 = if 1 ≤ j ∧ j ≤ i + 1 then c.getD j 0 - r * c.getD (j - 1) 0 else c.getD j 0 := by
  simp [polyStep, List.getD_eq_getElem?_getD, hj]

lemma polyLoop_spec (rs : List ℂ) : ∀ (done : List ℂ) (c : List ℂ), c.length = done.length + rs.length + 1 →
    (∀ j < c.length, c.getD j 0 = if j ≤ done.length then (rootPoly done).coeff (done.length - j) else 0) →
    (polyLoop rs done.length c).length = c.length ∧
    ∀ j < c.length, (polyLoop rs done.length c).getD j 0 = (rootPoly (done ++ rs)).coeff (done.length + rs.length - j) := by
  induction rs with
  | nil =>
    intro done c hl hc
    refine ⟨rfl, fun j hj => ?_⟩
    simp only [polyLoop, List.append_nil, List.length_nil, add_zero]
    rw [hc j hj, if_pos (by simp at hl; omega)]
  | cons r rs ih =>
    intro done c hl hc
    have hl' : (polyStep r done.length c).length = (done ++ [r]).length + rs.length + 1 := by
      rw [polyStep_length, hl]; simp; omega
    have key := ih (done ++ [r]) (polyStep r done.length c) hl' (by
      intro j hj
      rw [polyStep_length] at hj
      rw [polyStep_getD _ _ _ hj, rootPoly_append]
      have hr : rootPoly [r] = X - C r := by simp [rootPoly]
      rw [hr]
      set i := done.length with hi
      have hlen : (done ++ [r]).length = i + 1 := by simp [hi]
      rw [hlen]
      have hdeg : (rootPoly done).natDegree = i := rootPoly_natDegree done
      by_cases h1 : 1 ≤ j ∧ j ≤ i + 1
      · rw [if_pos h1, if_pos h1.2, hc j hj, hc (j-1) (by omega), if_pos (by omega : j - 1 ≤ i)]
        by_cases h2 : j ≤ i
        · rw [if_pos h2]
          have e1 : i + 1 - j = (i - j) + 1 := by omega
          have e2 : i - (j - 1) = (i - j) + 1 := by omega
          rw [e1, e2, coeff_mul_X_sub_C]; ring
        · have : j = i + 1 := by omega
          subst this
          rw [if_neg h2]
          simp [mul_sub]
          ring
      · rw [if_neg h1, hc j hj]
        by_cases h2 : j = 0
        · subst h2
          rw [if_pos (by omega), if_pos (by omega), Nat.sub_zero, Nat.sub_zero, coeff_mul_X_sub_C,
            coeff_eq_zero_of_natDegree_lt (n := i + 1) (by omega)]
          ring
        · rw [if_neg (by omega), if_neg (by omega)])
    rw [polyStep_length] at key
    simp only [List.length_append, List.length_cons, List.length_nil, zero_add, List.append_assoc,
      List.cons_append, List.nil_append] at key
    refine ⟨key.1, fun j hj => ?_⟩
    have := key.2 j hj
    simp only [polyLoop, List.length_cons]
    rw [this]; congr 1; omega

lemma polycoefs_spec (l : List ℂ) :
    (polycoefs l).length = l.length + 1 ∧
    ∀ j ≤ l.length, (polycoefs l)[j]? = some ((rootPoly l).coeff (l.length - j)).re := by
  have h := polyLoop_spec l [] (1 :: List.replicate l.length 0) (by simp) (by
    intro j hj
    rcases j with _ | j
    · simp [rootPoly]
    · simp only [List.length_cons, List.length_replicate] at hj
      have : j < l.length := by omega
      simp [List.getD_eq_getElem?_getD, this])
  simp only [List.length_nil, List.nil_append, zero_add, List.length_cons, List.length_replicate] at h
  refine ⟨by simp [polycoefs, h.1], fun j hj => ?_⟩
  have h2 := h.2 j (by omega)
  have h3 : j < (polyLoop l 0 (1 :: List.replicate l.length 0)).length := by rw [h.1]; omega
  rw [List.getD_eq_getElem?_getD, List.getElem?_eq_getElem h3] at h2
  simp only [Option.getD_some] at h2
  rw [polycoefs, List.getElem?_map, List.getElem?_eq_getElem h3, h2]; rfl

lemma rootPoly_perm {l m : List ℂ} (h : l.Perm m) : rootPoly l = rootPoly m := by
  simp only [rootPoly]; exact (h.map _).prod_eq

lemma rootPoly_map_conj (l : List ℂ) : rootPoly (l.map star) = (rootPoly l).map (starRingEnd ℂ) := by
  induction l with
  | nil => simp [rootPoly]
  | cons a l ih =>
    have h : ∀ a l, rootPoly (a :: l) = (X - C a) * rootPoly l := by intro a l; simp [rootPoly]
    rw [List.map_cons, h, h, ih]; simp

lemma rootPoly_coeff_real {l : List ℂ} (h : (l.map star).Perm l) (k : ℕ) :
    (((rootPoly l).coeff k).re : ℂ) = (rootPoly l).coeff k := by
  have h1 := rootPoly_map_conj l
  rw [rootPoly_perm h] at h1
  have h2 : (rootPoly l).coeff k = starRingEnd ℂ ((rootPoly l).coeff k) := by
    conv_lhs => rw [h1]
    rw [coeff_map]
  exact (Complex.conj_eq_iff_re).mp h2.symm

/-! ### roots of the quadratic factors -/

lemma quadPair_length (q1 q2 : ℝ) : (quadPair q1 q2).length = 2 := by
  simp only [quadPair]; split <;> rfl

lemma quadPair_poly {q1 q2 : ℝ} : rootPoly (quadPair q1 q2) = (X ^ 2 + C q2 * X + C q1 : ℝ[X]).map Complex.ofRealHom := by
  have h : ∀ a b : ℂ, rootPoly [a, b] = X ^ 2 - C (a + b) * X + C (a * b) := by
    intro a b; simp [rootPoly]; ring
  simp only [quadPair]
  split
  · rename_i hd
    have hs := Real.mul_self_sqrt hd.le
    rw [h]
    have e1 : ((⟨-0.5 * (q2 + √(q2 * q2 - 4 * q1)), 0⟩ : ℂ) + ⟨-0.5 * (q2 - √(q2 * q2 - 4 * q1)), 0⟩) = -(q2 : ℂ) := by
      apply Complex.ext <;> simp; ring
    have e2 : ((⟨-0.5 * (q2 + √(q2 * q2 - 4 * q1)), 0⟩ : ℂ) * ⟨-0.5 * (q2 - √(q2 * q2 - 4 * q1)), 0⟩) = (q1 : ℂ) := by
      apply Complex.ext
      · simp
        linear_combination (-1/4) * hs
      · simp
    rw [e1, e2]; simp
  · rename_i hd
    have hs := Real.mul_self_sqrt (by linarith : 0 ≤ -(q2 * q2 - 4 * q1))
    rw [h]
    have e1 : ((⟨-0.5 * q2, -0.5 * √(-(q2 * q2 - 4 * q1))⟩ : ℂ) + ⟨-0.5 * q2, -(-0.5 * √(-(q2 * q2 - 4 * q1)))⟩)
        = -(q2 : ℂ) := by
      apply Complex.ext <;> simp; ring
    have e2 : ((⟨-0.5 * q2, -0.5 * √(-(q2 * q2 - 4 * q1))⟩ : ℂ) * ⟨-0.5 * q2, -(-0.5 * √(-(q2 * q2 - 4 * q1)))⟩)
        = (q1 : ℂ) := by
      apply Complex.ext
      · simp only [Complex.mul_re, Complex.ofReal_re]
        linear_combination (1/4) * hs
      · simp; ring
    rw [e1, e2]; simp

lemma quadPair_neg {q1 q2 : ℝ} (h1 : 0 < q1) (h2 : 0 < q2) : ∀ r ∈ quadPair q1 q2, r.re < 0 := by
  intro r hr
  simp only [quadPair] at hr
  split at hr
  · rename_i hd
    have : √(q2 * q2 - 4 * q1) < q2 := by
      rw [Real.sqrt_lt' h2]; nlinarith
    have h0 := Real.sqrt_nonneg (q2 * q2 - 4 * q1)
    simp only [List.mem_cons, List.not_mem_nil, or_false] at hr
    rcases hr with rfl | rfl <;> simp <;> nlinarith
  · simp only [List.mem_cons, List.not_mem_nil, or_false] at hr
    rcases hr with rfl | rfl <;> simp <;> linarith

lemma quadPair_conj (q1 q2 : ℝ) : ((quadPair q1 q2).map star).Perm (quadPair q1 q2) := by
  simp only [quadPair]
  split
  · have : ∀ x : ℝ, star (⟨x, 0⟩ : ℂ) = ⟨x, 0⟩ := by intro x; apply Complex.ext <;> simp
    simp only [List.map_cons, List.map_nil, this]; exact List.Perm.refl _
  · have : ∀ x y : ℝ, star (⟨x, y⟩ : ℂ) = ⟨x, -y⟩ := by intro x y; apply Complex.ext <;> simp
    simp only [List.map_cons, List.map_nil, this, neg_neg]; exact List.Perm.swap _ _ _

/-- what is known of a list of roots read from `theta` -/
structure GoodRoots (l : List ℂ) (m : ℕ) (P : ℝ[X]) : Prop where
  length : l.length = m
  neg : ∀ r ∈ l, r.re < 0
  conj : (l.map star).Perm l
  poly : rootPoly l = P.map Complex.ofRealHom

lemma GoodRoots.append {l l' : List ℂ} {m m' : ℕ} {P P' : ℝ[X]} (h : GoodRoots l m P) (h' : GoodRoots l' m' P') :
    GoodRoots (l ++ l') (m + m') (P * P') where
  length := by rw [List.length_append, h.length, h'.length]
  neg r hr := by rcases List.mem_append.mp hr with hr | hr; exacts [h.neg r hr, h'.neg r hr]
  conj := by rw [List.map_append]; exact h.conj.append h'.conj
  poly := by rw [rootPoly_append, h.poly, h'.poly, Polynomial.map_mul]

lemma rd_at0 {θ : List ℝ} {i : ℕ} (h : i < θ.length) : rd θ i = .ok (at0 θ i) := by
  simp [rd, at0, List.getD_eq_getElem?_getD, h]

lemma rd_short {θ : List ℝ} {i : ℕ} (h : θ.length ≤ i) : rd θ i = .error .bounds := by
  simp [rd, List.getElem?_eq_none h]

lemma rootLoop_spec (θ : List ℝ) (off : ℕ) (k : ℕ) (h : off + 2 * k ≤ θ.length) :
    ∃ l, rootLoop θ off k = .ok l ∧
      GoodRoots l (2 * k) (∏ i ∈ Finset.range k, quadFactor (at0 θ (off + 2 * i)) (at0 θ (off + 2 * i + 1))) := by
  induction k with
  | zero => exact ⟨[], rfl, rfl, by simp, by simp, by simp [rootPoly]⟩
  | succ k ih =>
    obtain ⟨l, h1, h2⟩ := ih (by omega)
    refine ⟨l ++ quadPair (Real.exp (at0 θ (off + 2 * k))) (Real.exp (at0 θ (off + 2 * k + 1))), ?_, ?_⟩
    · simp only [rootLoop, h1, rd_at0 (show off + 2 * k < θ.length by omega),
        rd_at0 (show off + 2 * k + 1 < θ.length by omega), res_bind_ok, res_pure]
    · rw [Finset.prod_range_succ]
      exact h2.append ⟨quadPair_length _ _, quadPair_neg (Real.exp_pos _) (Real.exp_pos _), quadPair_conj _ _,
        quadPair_poly⟩

lemma rootsFrom_spec (θ : List ℝ) (off m : ℕ) (h : off + m ≤ θ.length) :
    ∃ l, rootsFrom θ off m = .ok l ∧ GoodRoots l m (factorPoly (at0 θ) off m) := by
  obtain ⟨l, h1, h2⟩ := rootLoop_spec θ off (m / 2) (by omega)
  by_cases hm : m % 2 = 1
  · refine ⟨l ++ [((-Real.exp (at0 θ (off + m - 1)) : ℝ) : ℂ)], ?_, ?_⟩
    · simp only [rootsFrom, h1, res_bind_ok, if_pos hm, rd_at0 (show off + m - 1 < θ.length by omega), res_pure]
    · have hd := h2.append (l' := [((-Real.exp (at0 θ (off + m - 1)) : ℝ) : ℂ)]) (m' := 1)
        (P' := X + C (Real.exp (at0 θ (off + m - 1)))) ⟨rfl, by simp [-Complex.ofReal_exp, Real.exp_pos], by
          simp only [List.map_cons, List.map_nil]
          rw [show star ((-Real.exp (at0 θ (off + m - 1)) : ℝ) : ℂ) = _ from Complex.conj_ofReal _], by
          simp [rootPoly]⟩
      rw [show 2 * (m / 2) + 1 = m by omega] at hd
      rw [factorPoly, if_pos hm]; exact hd
  · refine ⟨l, ?_, ?_⟩
    · simp only [rootsFrom, h1, res_bind_ok, if_neg hm, res_pure]
    · rw [factorPoly, if_neg hm, mul_one]
      rw [show 2 * (m / 2) = m by omega] at h2; exact h2

/-- `theta` too short: Armadillo's bounds check fires -/
lemma rootLoop_short (θ : List ℝ) (off : ℕ) (k : ℕ) (h : θ.length < off + 2 * k) (hk : 0 < k) :
    rootLoop θ off k = .error .bounds := by
  induction k with
  | zero => omega
  | succ k ih =>
    by_cases h' : θ.length < off + 2 * k ∧ 0 < k
    · simp only [rootLoop, ih h'.1 h'.2]; rfl
    · by_cases h0 : off + 2 * k ≤ θ.length
      · obtain ⟨l, h1, -⟩ := rootLoop_spec θ off k h0
        simp only [rootLoop, h1, res_bind_ok]
        by_cases h2 : off + 2 * k < θ.length
        · simp only [rd_at0 h2, res_bind_ok, rd_short (show θ.length ≤ off + 2 * k + 1 by omega)]; rfl
        · simp only [rd_short (show θ.length ≤ off + 2 * k by omega)]; rfl
      · have : k = 0 := by omega
        subst this
        simp only [rootLoop, res_bind_ok, rd_short (show θ.length ≤ off + 2 * 0 by omega)]; rfl

lemma rootsFrom_short (θ : List ℝ) (off m : ℕ) (h : θ.length < off + m) (hm : 0 < m) :
    rootsFrom θ off m = .error .bounds := by
  by_cases h1 : θ.length < off + 2 * (m / 2) ∧ 0 < m / 2
  · simp only [rootsFrom, rootLoop_short θ off _ h1.1 h1.2]; rfl
  · by_cases h0 : off + 2 * (m / 2) ≤ θ.length
    · obtain ⟨l, h2, -⟩ := rootLoop_spec θ off (m / 2) h0
      simp only [rootsFrom, h2, res_bind_ok, if_pos (show m % 2 = 1 by omega),
        rd_short (show θ.length ≤ off + m - 1 by omega)]; rfl
    · have : m / 2 = 0 := by omega
      simp only [rootsFrom, this, rootLoop, res_bind_ok, if_pos (show m % 2 = 1 by omega),
        rd_short (show θ.length ≤ off + m - 1 by omega)]; rfl

/-! ### moving-average coefficients -/

/-- all coefficients up to the degree are positive -/
def PosCoeffs (P : ℝ[X]) : Prop := ∀ i ≤ P.natDegree, 0 < P.coeff i

lemma PosCoeffs.mul {P Q : ℝ[X]} (hP : PosCoeffs P) (hQ : PosCoeffs Q) : PosCoeffs (P * Q) := by
  have hP0 : P ≠ 0 := by intro h; have := hP 0 (by simp); simp [h] at this
  have hQ0 : Q ≠ 0 := by intro h; have := hQ 0 (by simp); simp [h] at this
  have nn : ∀ {P : ℝ[X]}, PosCoeffs P → ∀ i, 0 ≤ P.coeff i := by
    intro P hP i
    by_cases h : i ≤ P.natDegree
    · exact (hP i h).le
    · rw [coeff_eq_zero_of_natDegree_lt (by omega)]
  intro i hi
  rw [natDegree_mul hP0 hQ0] at hi
  rw [coeff_mul]
  refine Finset.sum_pos' (fun x _ => mul_nonneg (nn hP _) (nn hQ _)) ⟨(min i P.natDegree, i - min i P.natDegree), ?_, ?_⟩
  · simp only [Finset.mem_antidiagonal]; omega
  · exact mul_pos (hP _ (by simp)) (hQ _ (by simp only; omega))

lemma quadFactor_natDegree (a b : ℝ) : (quadFactor a b).natDegree = 2 := by
  have : quadFactor a b = C 1 * X ^ 2 + C (Real.exp b) * X + C (Real.exp a) := by simp [quadFactor]
  rw [this]; exact natDegree_quadratic one_ne_zero

lemma quadFactor_pos (a b : ℝ) : PosCoeffs (quadFactor a b) := by
  intro i hi
  rw [quadFactor_natDegree] at hi
  interval_cases i <;> simp [quadFactor, coeff_X, coeff_C, Real.exp_pos]

lemma factorPoly_pos (θ : ℕ → ℝ) (off m : ℕ) : PosCoeffs (factorPoly θ off m) := by
  have one : PosCoeffs (1 : ℝ[X]) := by
    intro i hi; simp at hi; subst hi; simp
  have h1 : ∀ k, PosCoeffs (∏ i ∈ Finset.range k, quadFactor (θ (off + 2 * i)) (θ (off + 2 * i + 1))) := by
    intro k
    induction k with
    | zero => simpa using one
    | succ k ih => rw [Finset.prod_range_succ]; exact ih.mul (quadFactor_pos _ _)
  refine (h1 _).mul ?_
  split
  · intro i hi
    rw [natDegree_X_add_C] at hi
    interval_cases i <;> simp [coeff_C, Real.exp_pos]
  · exact one

lemma GoodRoots.natDegree {l : List ℂ} {m : ℕ} {P : ℝ[X]} (h : GoodRoots l m P) : P.natDegree = m := by
  have := rootPoly_natDegree l
  rw [h.poly, h.length, natDegree_map] at this; exact this

lemma GoodRoots.coeff {l : List ℂ} {m : ℕ} {P : ℝ[X]} (h : GoodRoots l m P) (i : ℕ) :
    ((rootPoly l).coeff i).re = P.coeff i := by
  rw [h.poly, coeff_map]; simp

lemma mapM_dv {c : ℝ} (hc : c ≠ 0) (l : List ℝ) : (l.mapM fun x => dv x c) = .ok (l.map fun x => x / c) := by
  induction l with
  | nil => rfl
  | cons a l ih => rw [List.mapM_cons, dv_ok hc, ih]; rfl

lemma carmaMA_spec {p q : ℕ} (hq : q < p) (θ : List ℝ) (h : 3 + p + q ≤ θ.length) :
    carmaMA p q θ = .ok ((List.range p).map fun i =>
      (factorPoly (at0 θ) (3 + p) q).coeff i / (factorPoly (at0 θ) (3 + p) q).coeff 0) := by
  obtain ⟨l, h1, h2⟩ := rootsFrom_spec θ (3 + p) q h
  set P := factorPoly (at0 θ) (3 + p) q
  obtain ⟨h3, h4⟩ := polycoefs_spec l
  have hpos : 0 < P.coeff 0 := factorPoly_pos _ _ _ 0 (by simp)
  have hq' : (polycoefs l)[q]? = some (P.coeff 0) := by
    rw [h4 q (by rw [h2.length]), h2.coeff, h2.length, Nat.sub_self]
  simp only [carmaMA, h1, res_bind_ok, rd_ok hq', mapM_dv hpos.ne', if_neg (not_le.mpr hq), res_pure]
  congr 1
  refine List.map_congr_left fun i hi => ?_
  split
  · rename_i hi
    rw [List.getD_eq_getElem?_getD, List.getElem?_map, h4 (q - i) (by rw [h2.length]; omega), h2.coeff, h2.length]
    simp [show q - (q - i) = i by omega]
  · rename_i hi
    rw [coeff_eq_zero_of_natDegree_lt (by rw [h2.natDegree]; omega), zero_div]

lemma maEval_rangeMap (p : ℕ) (f : ℕ → ℝ) (z : ℂ) :
    maEval ((List.range p).map f) z = ∑ i ∈ Finset.range p, (f i : ℂ) * z ^ i := by
  simp only [maEval, List.length_map, List.length_range]
  refine Finset.sum_congr rfl fun i hi => ?_
  simp [List.getD_eq_getElem?_getD, List.getElem?_range (Finset.mem_range.mp hi)]

lemma maEval_coeffs {P : ℝ[X]} {p : ℕ} (h : P.natDegree < p) (c : ℝ) (z : ℂ) :
    maEval ((List.range p).map fun i => P.coeff i / c) z = (P.map Complex.ofRealHom).eval z / c := by
  rw [maEval_rangeMap, eval_eq_sum_range' (n := p) (by rw [natDegree_map]; exact h), Finset.sum_div]
  refine Finset.sum_congr rfl fun i _ => ?_
  simp; ring

lemma zMA_fin {p : ℕ} (hp : 0 < p) {k : ℝ} (hk : k ≠ 0) :
    zMA p (.fin k) = .ok ((List.range p).map fun i => ((p - 1).choose i : ℝ) / k ^ i) := by
  rw [zMA, if_neg hp.ne']
  simp only [hk, false_and, if_false]
  congr 1
  refine List.map_congr_left fun i _ => ?_
  split
  · rename_i h; subst h; simp
  · rfl

lemma maEval_binom {p : ℕ} (hp : 0 < p) (k : ℝ) (z : ℂ) :
    maEval ((List.range p).map fun i => ((p - 1).choose i : ℝ) / k ^ i) z = (1 + z / k) ^ (p - 1) := by
  rw [maEval_rangeMap, add_comm, add_pow, show p - 1 + 1 = p by omega]
  refine Finset.sum_congr rfl fun i _ => ?_
  push_cast
  rw [one_pow, div_pow]; ring

end Verif.Theory
