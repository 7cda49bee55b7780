import Verif.Theory.FSetup

/-!
The variance the run functions compute in double precision, and what they do with it: C89.
Specification: `Verif/Spec/RunVar.lean`, `Verif/Spec/Binary64.lean`, `popVariance` of `Verif/Spec/Chains.lean`.
-/

namespace Verif.Props

open Verif.Model Verif.Spec Verif.Theory
open scoped BigOperators

lemma runSized {n : ℕ} {y : Fin n → ℝ} (h : ModerateValues y) : RunSized (List.ofFn y) ∧ meanSq (List.ofFn y) = meanSquare y := by
  have e : meanSq (List.ofFn y) = meanSquare y := by
    unfold meanSq meanSquare
    rw [List.map_ofFn, List.sum_ofFn, List.length_ofFn]; rfl
  exact ⟨⟨by simpa using h.one, by simpa using h.max, e ▸ h.lo, e ▸ h.hi⟩, e⟩

/-- **C89, accuracy.** In binary64 arithmetic with any rounding mode, for `n` values of moderate size, the run functions compute a finite variance that
differs from the variance of the values by at most `4 (n + 2) 2^-52` times their mean square. -/
theorem C89_variance {A : Arith} (hA : IsBinary64 A) {n : ℕ} {y : Fin n → ℝ} (h : ModerateValues y) :
    ∃ v, FRun.var A ((List.ofFn y).map .fin) = .fin v ∧ |v - popVariance y| ≤ 4 * (n + 2) * 2 ^ (-52 : ℤ) * meanSquare y := by
  obtain ⟨hs, e⟩ := runSized h
  obtain ⟨v, h1, -, h2⟩ := var_num hA hs
  refine ⟨v, h1, ?_⟩
  rw [e, List.length_ofFn, List.sum_ofFn, meanSquare, popVar_spec h.one] at h2
  exact h2

/-- three values; any rounding mode -/
example (A : Arith) (hA : IsBinary64 A) : ∃ v, FRun.var A ([1, 2, 6].map .fin) = .fin v ∧ |v - 14 / 3| ≤ 1 / 2 ^ 43 := by
  have h : ModerateValues (n := 3) ![1, 2, 6] := by
    have e : meanSquare (n := 3) ![1, 2, 6] = 41 / 3 := by simp [meanSquare, Fin.sum_univ_three]; norm_num
    refine ⟨by norm_num, by norm_num, ?_, ?_⟩
    · rw [e]; exact le_trans (pw_le (-300) 0 (by norm_num)) (by norm_num)
    · rw [e]; exact le_trans (by norm_num) (pw_le 4 300 (by norm_num))
  obtain ⟨v, h1, h2⟩ := C89_variance hA h
  refine ⟨v, by simpa [List.ofFn_succ] using h1, ?_⟩
  have e1 : popVariance (n := 3) ![1, 2, 6] = 14 / 3 := by simp [popVariance, Fin.sum_univ_three]; norm_num
  have e2 : meanSquare (n := 3) ![1, 2, 6] = 41 / 3 := by simp [meanSquare, Fin.sum_univ_three]; norm_num
  rw [e1, e2] at h2
  refine h2.trans ?_
  norm_num

/-- **C89, setup (partial).** If moreover the variance of the values is at least `8 (n + 2) 2^-52` times their mean square, the run functions get past the
Cholesky factorisation of the first proposal covariance; the bound on the standard deviation handed to the prior is ten standard deviations of the values, and the
factor of the first proposal has positive diagonal entries, each as it should be up to the relative error `δ + 2^-47`, where `δ` is the relative error of the variance.
Missing: the same without the condition on the variance, which is false by `C89_negation`. -/
theorem C89_setup_partial {A : Arith} (hA : IsBinary64 A) {n : ℕ} {y : Fin n → ℝ} (h : ModerateValues y) (d : ℕ) {δ : ℝ}
    (hδ : δ * popVariance y = 4 * (n + 2) * 2 ^ (-52 : ℤ) * meanSquare y) (hvar : 8 * (n + 2) * 2 ^ (-52 : ℤ) * meanSquare y ≤ popVariance y) :
    ∃ M L, FRun.setup A d ((List.ofFn y).map .fin) = .ok (.fin M, L) ∧ |M - 10 * √(popVariance y)| ≤ (δ + 2 ^ (-47 : ℤ)) * (10 * √(popVariance y)) ∧
      L.length = d ∧ ∀ i < d, ∃ l, L[i]? = some (.fin l) ∧ 0 < l ∧
        |l - firstScale (popVariance y) n i| ≤ (δ + 2 ^ (-47 : ℤ)) * firstScale (popVariance y) n i := by
  obtain ⟨v, h1, h2⟩ := C89_variance hA h
  have hu : (2 : ℝ) ^ (-52 : ℤ) = uu := rfl
  have Q1 := h.lo
  have Q2 := h.hi
  obtain ⟨Q, hQ⟩ : ∃ Q, Q = meanSquare y := ⟨_, rfl⟩
  obtain ⟨V, hV⟩ : ∃ V, V = popVariance y := ⟨_, rfl⟩
  rw [← hQ] at Q1 Q2 h2 hδ hvar
  rw [← hV] at h2 hδ hvar ⊢
  rw [hu] at h2 hδ hvar
  have u0 := uu_pos
  have us := uu_small
  have Q0 : 0 < Q := lt_of_lt_of_le (by positivity) Q1
  have n1 : (1 : ℝ) ≤ n := by exact_mod_cast h.one
  have uQ : 0 < uu * Q := by positivity
  have V1 : uu * Q ≤ V := le_trans (by nlinarith) hvar
  have V0 : 0 < V := lt_of_lt_of_le uQ V1
  have VQ : V ≤ Q := by
    have := popVar_spec h.one y
    rw [← hV] at this
    have e : Q - ((∑ i, y i) / n) ^ 2 = V := by rw [hQ, meanSquare]; exact this
    nlinarith [sq_nonneg ((∑ i, y i) / n)]
  have δ0 : 0 ≤ δ := by
    by_contra hc
    have : δ * V < 0 := mul_neg_of_neg_of_pos (not_le.mp hc) V0
    have : 0 ≤ 4 * ((n : ℝ) + 2) * uu * Q := by positivity
    linarith
  have δ1 : δ ≤ 1 / 2 := by
    have : δ * V ≤ 1 / 2 * V := by rw [hδ]; linarith
    exact le_of_mul_le_mul_right this V0
  have hr : RelErr v V δ := by unfold RelErr; rw [hδ]; exact h2
  obtain ⟨b1, b2⟩ := hr.bounds
  have c1 : V / 2 ≤ v := by nlinarith
  have c2 : v ≤ 2 * V := by nlinarith
  have v0 : 0 < v := by linarith
  have l1 : (2 : ℝ) ^ (-360 : ℤ) ≤ v := by
    have e1 : (2 : ℝ) ^ (-352 : ℤ) ≤ uu * Q := by
      rw [← hu, ← pw_mul (-52) (-300) (-352) (by norm_num)]
      exact mul_le_mul_of_nonneg_left Q1 (by positivity)
    have e2 : (2 : ℝ) * 2 ^ (-353 : ℤ) = 2 ^ (-352 : ℤ) := pw_two _ _ (by norm_num)
    have e3 : (2 : ℝ) ^ (-353 : ℤ) ≤ v := by linarith
    exact (pw_le _ _ (by norm_num)).trans e3
  have l2 : v ≤ (2 : ℝ) ^ (320 : ℤ) := by
    have e1 : v ≤ 2 * 2 ^ (300 : ℤ) := c2.trans (mul_le_mul_of_nonneg_left (VQ.trans Q2) (by norm_num))
    rw [pw_two 300 301 (by norm_num)] at e1
    exact e1.trans (pw_le _ _ (by norm_num))
  obtain ⟨M, L, h3, h4, h5, h6⟩ := setup_num hA h1 l1 l2 (by simpa using h.one) (by simpa using h.max) d
  have hc : ∀ {a b x : ℝ}, 0 ≤ x → RelErr a b (11 * uu) → RelErr b x δ → |a - x| ≤ (δ + 2 ^ (-47 : ℤ)) * x := by
    intro a b x x0 g1 g2
    have g3 := g1.trans g2 (by positivity)
    refine g3.mono x0 ?_
    rw [← uu47]
    nlinarith
  have n0 : (0 : ℝ) < n := by linarith
  have hf : ∀ i, RelErr (firstScale v n i) (firstScale V n i) δ ∧ 0 < firstScale V n i := by
    intro i
    unfold firstScale
    split_ifs
    · exact ⟨hr.scale _ (Real.sqrt_nonneg _), by positivity⟩
    · exact ⟨(hr.div n n0).sqrt (by positivity) (by positivity), by positivity⟩
    · exact ⟨(RelErr.refl _).mono (by norm_num) δ0, by norm_num⟩
  refine ⟨M, L, h3, hc (by positivity) h4 ?_, h5, fun i hi => ?_⟩
  · rw [mul_comm, mul_comm 10]; exact (hr.sqrt V0 v0.le).scale 10 (by norm_num)
  · obtain ⟨l, g1, g2⟩ := h6 i hi
    rw [List.length_map, List.length_ofFn] at g2
    have g3 := hc (hf i).2.le g2 (hf i).1
    refine ⟨l, g1, ?_, g3⟩
    refine rel_pos (x := firstScale V n i) (ε := δ + 2 ^ (-47 : ℤ)) g3 (hf i).2 ?_
    have : (2 : ℝ) ^ (-47 : ℤ) < 1 / 2 := by norm_num
    exact lt_of_lt_of_le (add_lt_add_of_le_of_lt δ1 this) (by norm_num)

/-- three values, four parameters: the relative error is below `2^-44` -/
example (A : Arith) (hA : IsBinary64 A) : ∃ M L, FRun.setup A 4 ([1, 2, 6].map .fin) = .ok (.fin M, L) ∧ |M - 10 * √(14 / 3)| ≤ 1 / 2 ^ 40 * √(14 / 3) := by
  have e1 : popVariance (n := 3) ![1, 2, 6] = 14 / 3 := by simp [popVariance, Fin.sum_univ_three]; norm_num
  have e2 : meanSquare (n := 3) ![1, 2, 6] = 41 / 3 := by simp [meanSquare, Fin.sum_univ_three]; norm_num
  have h : ModerateValues (n := 3) ![1, 2, 6] := by
    refine ⟨by norm_num, by norm_num, ?_, ?_⟩
    · rw [e2]; exact le_trans (pw_le (-300) 0 (by norm_num)) (by norm_num)
    · rw [e2]; exact le_trans (by norm_num) (pw_le 4 300 (by norm_num))
  obtain ⟨M, L, h1, h2, -⟩ := C89_setup_partial hA h 4 (δ := 20 * 2 ^ (-52 : ℤ) * (41 / 14)) (by rw [e1, e2]; push_cast; ring) (by rw [e1, e2]; norm_num)
  rw [e1] at h2
  refine ⟨M, L, by simpa [List.ofFn_succ] using h1, h2.trans ?_⟩
  rw [← mul_assoc]
  exact mul_le_mul_of_nonneg_right (by norm_num) (Real.sqrt_nonneg _)

/-- **C89, failure.** In any rounding mode and for any values, when the computed variance is not greater than zero (or is NaN) the run functions end with
`std::runtime_error` from the Cholesky factorisation, before the first iteration. -/
theorem C89_fails {A : Arith} (hA : IsBinary64 A) {y : List Dbl} (n1 : 1 ≤ y.length) (n2 : y.length ≤ 2 ^ 39)
    (hv : ¬ (Dbl.fin 0).lt (FRun.var A y)) {d : ℕ} (hd : 3 ≤ d) : FRun.setup A d y = .error .runtime := setup_fails hA n1 n2 hv hd

/-- one value: its variance is exactly zero -/
example (A : Arith) (hA : IsBinary64 A) : FRun.setup A 4 [.fin 3] = .error .runtime := by
  have f9 : A.rnd 9 = .fin 9 := hA.id _ (by simpa using f64_int 9 (by norm_num))
  have f3 : A.rnd 3 = .fin 3 := hA.id _ (by simpa using f64_int 3 (by norm_num))
  have f1 : A.rnd 1 = .fin 1 := hA.id _ f64_one
  have f0 : A.rnd 0 = .fin 0 := hA.id _ f64_zero
  refine C89_fails hA (by simp) (by simp) ?_ (by norm_num)
  have : FRun.var A [.fin 3] = .fin 0 := by
    simp only [FRun.var, FRun.mean, FRun.sum, FRun.sqSum, List.foldl_cons, List.foldl_nil, List.length_singleton, Nat.cast_one, f1, fl_mul, fl_add]
    rw [show (3 : ℝ) * 3 = 9 by norm_num, f9, fl_add, zero_add, zero_add, f9, f3, fl_div _ _ one_ne_zero, fl_div _ _ one_ne_zero, div_one, div_one, f9, f3, fl_mul,
      show (3 : ℝ) * 3 = 9 by norm_num, f9, fl_sub, sub_self, f0]
  rw [this]
  exact lt_irrefl (0 : ℝ)

/-- **C89, refinement.** Without rounding the setup is the one of the model over the reals: the bound is ten standard deviations, and the factor is the
one `AdaptiveMetro` starts with, or both fail. -/
theorem C89_exact {n : ℕ} (hn : 0 < n) (y : Fin n → ℝ) (d : ℕ) (target : ℝ) (maxiter : ℕ) :
    FRun.setup Arith.exact d ((List.ofFn y).map .fin) =
      (Ram.new (propCovar d (popVariance y) n) target maxiter).map fun a => (.fin (10 * √(popVariance y)), List.ofFn fun i => .fin (a.chol i i)) := by
  have n0 : (0 : ℝ) < n := by exact_mod_cast hn
  have hlen : ((List.ofFn y).map Dbl.fin).length = n := by simp
  have hfold : ∀ (f : ℝ → ℝ) (l : List ℝ) (a : ℝ) (g : Dbl → Dbl), (∀ x, g (.fin x) = .fin (f x)) →
      (l.map Dbl.fin).foldl (fun acc x => Arith.exact.add acc (g x)) (.fin a) = .fin (a + (l.map f).sum) := by
    intro f l
    induction l with
    | nil => intro a g _; simp
    | cons x l ih =>
      intro a g hg
      rw [List.map_cons, List.foldl_cons, hg, fl_add]
      show List.foldl _ (Dbl.fin (a + f x)) _ = _
      rw [ih _ _ hg, List.map_cons, List.sum_cons, add_assoc]
  have hvar : FRun.var Arith.exact ((List.ofFn y).map .fin) = .fin (popVariance y) := by
    have e1 : FRun.sum Arith.exact ((List.ofFn y).map .fin) = .fin (∑ i, y i) := by
      unfold FRun.sum
      rw [hfold id _ _ (fun x => x) (fun _ => rfl), List.map_id, zero_add, List.sum_ofFn]
    have e2 : FRun.sqSum Arith.exact ((List.ofFn y).map .fin) = .fin (∑ i, y i ^ 2) := by
      unfold FRun.sqSum
      rw [hfold (fun x => x ^ 2) _ _ (fun x => Arith.exact.mul x x) (fun x => by rw [fl_mul, pow_two]; rfl), zero_add, List.map_ofFn, List.sum_ofFn]
      rfl
    rw [FRun.var, FRun.mean, e1, e2, hlen]
    show Arith.exact.sub (Arith.exact.div (.fin _) (.fin _)) (Arith.exact.mul (Arith.exact.div (.fin _) (.fin _)) (Arith.exact.div (.fin _) (.fin _))) = _
    rw [fl_div _ _ n0.ne', fl_div _ _ n0.ne']
    show Arith.exact.sub (.fin _) (Arith.exact.mul (.fin _) (.fin _)) = _
    rw [fl_mul]
    show Arith.exact.sub (.fin _) (.fin _) = _
    rw [fl_sub, ← pow_two, popVar_spec hn]
    rfl
  have V0 : 0 ≤ popVariance y := by
    unfold popVariance
    exact div_nonneg (Finset.sum_nonneg fun _ _ => sq_nonneg _) n0.le
  have hmax : FRun.maxStdev Arith.exact ((List.ofFn y).map .fin) = .fin (10 * √(popVariance y)) := by
    rw [FRun.maxStdev, hvar]
    show Arith.exact.mul _ (if _ then _ else _) = _
    rw [if_neg (not_lt.mpr V0), fl_mul]
    rfl
  have hcov : FRun.covar Arith.exact d ((List.ofFn y).map .fin) = List.ofFn fun i : Fin d => .fin (propCovar d (popVariance y) n i i) := by
    unfold FRun.covar
    rw [hvar, hlen, ← List.map_coe_finRange_eq_range, List.map_map, List.ofFn_eq_map]
    refine List.map_congr_left fun i _ => ?_
    simp only [Function.comp, propCovar, Matrix.diagonal_apply_eq]
    split_ifs
    · rw [fl_mul]
      show Arith.exact.div (Arith.exact.mul (.fin _) _) (.fin _) = _
      rw [fl_mul]
      show Arith.exact.div (.fin _) (.fin _) = _
      rw [fl_div _ _ n0.ne']
      rfl
    · show Arith.exact.div (.fin _) (.fin _) = _
      rw [fl_div _ _ n0.ne']
      rfl
    · rfl
  unfold FRun.setup FRun.chol Ram.new cholDiag
  rw [hcov, hmax]
  by_cases hc : ∃ i, propCovar d (popVariance y) n i i ≤ 0
  · obtain ⟨i, hi⟩ := hc
    rw [if_pos ⟨_, List.mem_ofFn.mpr ⟨i, rfl⟩, not_lt.mpr hi⟩, if_pos ⟨i, hi⟩]
    rfl
  · rw [if_neg, if_neg hc]
    · show Except.ok _ = Except.ok _
      congr 2
      rw [List.map_ofFn]
      congr 1
      funext i
      push Not at hc
      show (if _ then _ else _) = _
      rw [if_neg (not_lt.mpr (hc i).le)]
      exact congrArg Dbl.fin (Matrix.diagonal_apply_eq (fun i => √(propCovar d (popVariance y) n i i)) i).symm
    · rintro ⟨a, ha, hna⟩
      obtain ⟨i, rfl⟩ := List.mem_ofFn.mp ha
      exact hc ⟨i, not_lt.mp hna⟩

/-- two values, four parameters -/
example : ∃ a : Ram 4, Ram.new (propCovar 4 1 2) 0.25 10 = .ok a ∧ a.chol 0 0 = 1 ∧
    FRun.setup Arith.exact 4 ([3, 5].map .fin) = .ok (.fin 10, List.ofFn fun i : Fin 4 => .fin (a.chol i i)) := by
  have hV : popVariance (n := 2) ![3, 5] = 1 := by simp [popVariance, Fin.sum_univ_two]; norm_num
  have h := C89_exact (n := 2) (by norm_num) ![3, 5] 4 0.25 10
  rw [hV] at h
  obtain ⟨a, hR, ha⟩ : ∃ a : Ram 4, Ram.new (propCovar 4 1 2) 0.25 10 = .ok a ∧ a.chol 0 0 = 1 := by
    unfold Ram.new cholDiag
    rw [if_neg]
    · exact ⟨_, rfl, by simp [propCovar]⟩
    · rintro ⟨i, hi⟩
      rw [propCovar, Matrix.diagonal_apply_eq] at hi
      split_ifs at hi <;> norm_num at hi
  refine ⟨a, hR, ha, ?_⟩
  rw [hR] at h
  have e : ([3, 5] : List ℝ) = List.ofFn ![3, 5] := by simp [List.ofFn_succ]
  rw [e, h, Real.sqrt_one, mul_one]
  rfl

/-- **C89, negation.** In the default rounding mode the values `300000002, 300000004` have variance 1 but their computed variance is `-16`. Then the bound for the prior is
NaN, and both run functions end with `std::runtime_error` although the same calculation without rounding goes through. -/
theorem C89_negation : ∃ y : Fin 2 → ℝ, (∀ i, F64 (y i)) ∧ ModerateValues y ∧ popVariance y = 1 ∧
    FRun.var (nearest EvenBelow) ((List.ofFn y).map .fin) = .fin (-16) ∧
    FRun.maxStdev (nearest EvenBelow) ((List.ofFn y).map .fin) = .nan ∧
    ∀ d, 3 ≤ d → FRun.setup (nearest EvenBelow) d ((List.ofFn y).map .fin) = .error .runtime ∧
      ∃ M L, FRun.setup Arith.exact d ((List.ofFn y).map .fin) = .ok (M, L) := by
  have hB : IsBinary64 (nearest EvenBelow) := nearest_isBinary64 _
  have hV : popVariance (n := 2) ![300000002, 300000004] = 1 := by simp [popVariance, Fin.sum_univ_two]; norm_num
  have hQ : meanSquare (n := 2) ![300000002, 300000004] = 90000001800000010 := by simp [meanSquare, Fin.sum_univ_two]; norm_num
  have el : List.ofFn ![(300000002 : ℝ), 300000004] = [300000002, 300000004] := by simp [List.ofFn_succ]
  have fi : ∀ m : ℕ, m < 2 ^ 53 → (nearest EvenBelow).rnd m = .fin m := fun m hm => hB.id _ (by
    have := f64_int (m : ℤ) (by rw [abs_of_nonneg (by positivity)]; exact_mod_cast hm)
    simpa using this)
  have fk : ∀ (k t : ℕ), k < 2 ^ 53 → t ≤ 900 → (nearest EvenBelow).rnd (k * 2 ^ t) = .fin (k * 2 ^ t) := fun k t hk ht => hB.id _ (by
    have := f64_nat_zpow k t hk (by omega) (by omega)
    simpa using this)
  -- the squares, their sum, and the square of the mean
  have s1 : (nearest EvenBelow).rnd 90000001200000004 = .fin 90000001200000000 := by
    have := (near_grid EvenBelow (x := 90000001200000004) (r := 4) 5625000075000000 4 (by norm_num) (by norm_num) (by norm_num) (by norm_num) (by norm_num)
      (by norm_num)).2.2
    rw [if_pos (Or.inl (by norm_num))] at this
    refine this.trans ?_
    norm_num
  have s2 : (nearest EvenBelow).rnd 90000002400000016 = .fin 90000002400000016 := by
    have := fk 5625000150000001 4 (by norm_num) (by norm_num)
    norm_num at this
    exact this
  have s3 : (nearest EvenBelow).rnd 180000003600000016 = .fin 180000003600000000 := by
    obtain ⟨b, -, this⟩ := near_grid EvenBelow (x := 180000003600000016) (r := 16) 5625000112500000 5 (by norm_num) (by norm_num) (by norm_num) (by norm_num)
      (by norm_num) (by norm_num)
    have ev : EvenBelow 180000003600000016 :=
      ⟨5625000112500000, 5, by norm_num, by norm_num, Or.inl (by norm_num), ⟨2812500056250000, by norm_num⟩, by rw [b]; norm_num⟩
    rw [if_pos (Or.inr ⟨by norm_num, ev⟩)] at this
    refine this.trans ?_
    norm_num
  have s4 : (nearest EvenBelow).rnd 90000001800000000 = .fin 90000001800000000 := by
    have := fk 5625000112500000 4 (by norm_num) (by norm_num)
    norm_num at this
    exact this
  have s5 : (nearest EvenBelow).rnd 90000001800000009 = .fin 90000001800000016 := by
    have := (near_grid EvenBelow (x := 90000001800000009) (r := 9) 5625000112500000 4 (by norm_num) (by norm_num) (by norm_num) (by norm_num) (by norm_num)
      (by norm_num)).2.2
    rw [if_neg (by norm_num)] at this
    refine this.trans ?_
    norm_num
  have s6 : (nearest EvenBelow).rnd (-16) = .fin (-16) := hB.id _ (by simpa using f64_int (-16) (by norm_num))
  have s7 := fi 300000002 (by norm_num)
  have s8 := fi 600000006 (by norm_num)
  have s9 := fi 300000003 (by norm_num)
  have s10 := fi 2 (by norm_num)
  push_cast at s7 s8 s9 s10
  have hvar : FRun.var (nearest EvenBelow) ([300000002, 300000004].map .fin) = .fin (-16) := by
    have e1 : FRun.sum (nearest EvenBelow) ([300000002, 300000004].map .fin) = .fin 600000006 := by
      show (nearest EvenBelow).add ((nearest EvenBelow).add (.fin 0) (.fin 300000002)) (.fin 300000004) = _
      rw [fl_add, zero_add, s7, fl_add, show (300000002 : ℝ) + 300000004 = 600000006 by norm_num, s8]
    have e2 : FRun.sqSum (nearest EvenBelow) ([300000002, 300000004].map .fin) = .fin 180000003600000000 := by
      show (nearest EvenBelow).add ((nearest EvenBelow).add (.fin 0) ((nearest EvenBelow).mul (.fin 300000002) (.fin 300000002)))
        ((nearest EvenBelow).mul (.fin 300000004) (.fin 300000004)) = _
      have s1' : (nearest EvenBelow).rnd 90000001200000000 = .fin 90000001200000000 := by
        have := fk 5625000075000000 4 (by norm_num) (by norm_num)
        norm_num at this
        exact this
      rw [fl_mul, fl_mul, show (300000002 : ℝ) * 300000002 = 90000001200000004 by norm_num, show (300000004 : ℝ) * 300000004 = 90000002400000016 by norm_num, s1, s2,
        fl_add, zero_add, s1', fl_add, show (90000001200000000 : ℝ) + 90000002400000016 = 180000003600000016 by norm_num, s3]
    have e3 : ((([300000002, 300000004] : List ℝ).map Dbl.fin).length : ℝ) = 2 := by simp
    rw [FRun.var, FRun.mean, e1, e2, e3, s10, fl_div _ _ two_ne_zero, fl_div _ _ two_ne_zero, show (180000003600000000 : ℝ) / 2 = 90000001800000000 by norm_num,
      show (600000006 : ℝ) / 2 = 300000003 by norm_num, s4, s9, fl_mul, show (300000003 : ℝ) * 300000003 = 90000001800000009 by norm_num, s5, fl_sub,
      show (90000001800000000 : ℝ) - 90000001800000016 = -16 by norm_num, s6]
  refine ⟨![300000002, 300000004], ?_, ⟨by norm_num, by norm_num, ?_, ?_⟩, hV, ?_, ?_, fun d hd => ⟨?_, ?_⟩⟩
  · intro i
    fin_cases i
    · simpa using f64_int 300000002 (by norm_num)
    · simpa using f64_int 300000004 (by norm_num)
  · rw [hQ]; exact le_trans (pw_le (-300) 0 (by norm_num)) (by norm_num)
  · rw [hQ]; exact le_trans (by norm_num) (pw_le 57 300 (by norm_num))
  · rw [el]; exact hvar
  · rw [el, FRun.maxStdev, hvar]
    have : (nearest EvenBelow).sqrt (.fin (-16)) = .nan := if_pos (by norm_num)
    rw [this]
    rfl
  · rw [el]
    refine C89_fails hB (by simp) (by simp) ?_ hd
    rw [hvar]
    exact not_lt.mpr (by norm_num : (-16 : ℝ) ≤ 0)
  · rw [C89_exact (by norm_num) _ d 0 0, hV]
    unfold Ram.new cholDiag
    rw [if_neg]
    · exact ⟨_, _, rfl⟩
    · rintro ⟨i, hi⟩
      rw [propCovar, Matrix.diagonal_apply_eq] at hi
      split_ifs at hi <;> norm_num at hi

end Verif.Props
