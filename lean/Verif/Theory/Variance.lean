import Verif.Theory.CarmaSS
import Verif.Theory.Poly

/-! Helper theory: `CARp::Variance` is the autocovariance of the process (partial fractions). -/

namespace Verif.Theory

open Verif.Model Verif.Spec Finset Matrix

variable {p : ℕ}

lemma maSum_eq (ma : List ℝ) (z : ℂ) : maSum ma z = maEval ma z := rfl

/-- the moving-average polynomial -/
noncomputable def maPoly (ma : List ℝ) : Polynomial ℂ :=
  ∑ i ∈ range ma.length, Polynomial.C (ma.getD i 0 : ℂ) * Polynomial.X ^ i

lemma maPoly_eval (ma : List ℝ) (z : ℂ) : (maPoly ma).eval z = maEval ma z := by
  simp [maPoly, maEval, Polynomial.eval_finsetSum]

lemma maPoly_degree (ma : List ℝ) : (maPoly ma).degree < ma.length := by
  apply lt_of_le_of_lt (Polynomial.degree_sum_le _ _)
  rw [Finset.sup_lt_iff (by exact WithBot.bot_lt_coe _)]
  intro i hi
  exact lt_of_le_of_lt (Polynomial.degree_C_mul_X_pow_le _ _) (by exact_mod_cast Finset.mem_range.mp hi)

/-- partial fractions of `β/α` -/
lemma partial_fractions {ω : Fin p → ℂ} (h : Function.Injective ω) {ma : List ℝ} (hl : ma.length ≤ p) {x : ℂ}
    (hx : ∀ k, x ≠ ω k) :
    ∑ k, maEval ma (ω k) / arDeriv ω k / (x - ω k) = maEval ma x / ∏ k, (x - ω k) := by
  have hdeg : (maPoly ma).degree < #(univ : Finset (Fin p)) := by
    refine lt_of_lt_of_le (maPoly_degree ma) ?_
    rw [Finset.card_univ, Fintype.card_fin]; exact_mod_cast hl
  have h2 := Lagrange.eq_interpolate (s := (univ : Finset (Fin p))) (v := ω) h.injOn hdeg
  have h3 := Lagrange.eval_interpolate_not_at_node (s := (univ : Finset (Fin p))) (v := ω) (x := x)
    (fun i => (maPoly ma).eval (ω i)) (fun i _ => hx i)
  rw [← h2, maPoly_eval, Lagrange.eval_nodal] at h3
  have h4 : ∏ k, (x - ω k) ≠ 0 := Finset.prod_ne_zero_iff.mpr fun k _ => sub_ne_zero.mpr (hx k)
  rw [h3, mul_div_cancel_left₀ _ h4]
  refine Finset.sum_congr rfl fun k _ => ?_
  rw [maPoly_eval, Lagrange.nodalWeight, Finset.prod_inv_distrib, arDeriv]
  simp only [div_eq_mul_inv]; ring

/-- closed form of the autocovariance -/
lemma carmaAcf_closed {ω : Fin p → ℂ} (h : Admissible ω) (σ2 : ℝ) {ma : List ℝ} (hl : ma.length ≤ p) (d : ℝ) :
    carmaAcf σ2 ω ma d = σ2 * (∑ i, maEval ma (ω i) * maEval ma (-ω i) * Complex.exp (ω i * d) /
      (arDeriv ω i * ∏ k, (-ω i - ω k))).re := by
  rw [carmaAcf_eq h, ← Complex.re_ofReal_mul]
  congr 1
  obtain ⟨τ, hτ⟩ := Admissible.exists_perm h
  have hne : ∀ i k, -ω i ≠ ω k := by
    intro i k hh
    have h1 := h.stable i; have h2 := h.stable k
    have := congrArg Complex.re hh
    simp at this; linarith
  have h1 : ∀ i, ∑ j, star (maEval ma (ω j) / arDeriv ω j) * (-1 / (ω i + star (ω j)))
      = maEval ma (-ω i) / ∏ k, (-ω i - ω k) := by
    intro i
    rw [← partial_fractions h.inj hl (hne i),
      ← Equiv.sum_comp τ (fun k => maEval ma (ω k) / arDeriv ω k / (-ω i - ω k))]
    refine Finset.sum_congr rfl fun j _ => ?_
    rw [hτ, maEval_conj, arDeriv_conj hτ, star_div₀]
    rw [← neg_add', div_neg, neg_div]; ring
  simp only [dotProduct, Matrix.mulVec, Pi.star_apply, obsRow, carmaV, Matrix.of_apply]
  rw [Finset.mul_sum]
  refine Finset.sum_congr rfl fun i _ => ?_
  have h2 : ∑ j, (σ2 : ℂ) * (1 / arDeriv ω i) * star (1 / arDeriv ω j) * (-1 / (ω i + star (ω j))) * star (maEval ma (ω j))
      = σ2 * (1 / arDeriv ω i) * (maEval ma (-ω i) / ∏ k, (-ω i - ω k)) := by
    rw [← h1, Finset.mul_sum]
    refine Finset.sum_congr rfl fun j _ => ?_
    rw [star_div₀, star_div₀, star_one]; ring
  rw [h2, ← div_div]; ring

lemma varDenom_eq {ω : Fin p → ℂ} (h : Admissible ω) (k : Fin p) :
    varDenom ω k = arDeriv ω k * ∏ l, (-ω k - ω l) := by
  obtain ⟨τ, hτ⟩ := Admissible.exists_perm h
  have h1 : ∏ l, (-ω k - ω l) = ∏ l, (-ω k - star (ω l)) := by
    rw [← Equiv.prod_comp τ (fun l => -ω k - ω l)]
    exact Finset.prod_congr rfl fun l _ => by rw [hτ]
  rw [h1, ← Finset.mul_prod_erase univ (fun l => -ω k - star (ω l)) (Finset.mem_univ k), varDenom,
    ← Finset.mul_prod_erase univ _ (Finset.mem_univ k), arDeriv]
  have h2 : ∏ l ∈ univ.erase k, (if l ≠ k then (ω l - ω k) * (star (ω l) + ω k) else 1)
      = ∏ l ∈ univ.erase k, ((ω k - ω l) * (-ω k - star (ω l))) := by
    refine Finset.prod_congr rfl fun l hl => ?_
    rw [if_pos (Finset.ne_of_mem_erase hl)]; ring
  rw [h2, Finset.prod_mul_distrib]
  have h3 : -ω k - star (ω k) = -2 * ((ω k).re : ℂ) := by
    apply Complex.ext <;> simp; ring
  rw [h3]; simp; ring

lemma varDenom_ne_zero {ω : Fin p → ℂ} (h : Admissible ω) (k : Fin p) : varDenom ω k ≠ 0 := by
  rw [varDenom_eq h]
  refine mul_ne_zero (arDeriv_ne_zero h.inj k) (Finset.prod_ne_zero_iff.mpr fun l _ => ?_)
  intro hh
  have h1 := h.stable l; have h2 := h.stable k
  have := congrArg Complex.re hh
  simp at this; linarith

lemma variance_eq {ω : Fin p → ℂ} (h : Admissible ω) {ma : List ℝ} (hl : ma.length ≤ p) (sigma d : ℝ) :
    variance ω ma sigma d = .ok (carmaAcf (sigma ^ 2) ω ma d) := by
  have h1 : ¬ ∃ k, varDenom ω k = 0 := fun ⟨k, hk⟩ => varDenom_ne_zero h k hk
  rw [variance, if_neg h1, carmaAcf_closed h _ hl]
  congr 1
  simp only [maSum_eq, varDenom_eq h, pow_two]

lemma carmaAcf_scale (ω : Fin p → ℂ) (ma : List ℝ) (σ2 d : ℝ) : carmaAcf σ2 ω ma d = σ2 * carmaAcf 1 ω ma d := by
  simp [carmaAcf]

lemma carmaAcf_pos {ω : Fin p → ℂ} (h : Admissible ω) {σ2 : ℝ} (hσ : 0 < σ2) {ma : List ℝ} (hl : ma.length ≤ p)
    (hne : ∃ x ∈ ma, x ≠ 0) : 0 < carmaAcf σ2 ω ma 0 := by
  have hb : obsRow ω (KFp.padMA p ma) ≠ 0 := obsRow_ne_zero h.inj (padMA_length hl) (padMA_ne hne)
  have hR := carma_realizes h hσ hb (fun _ => 0) (fun _ => 0) 1 (fun i hi => by omega)
  have h1 := hR.pos 0 (by omega)
  have h2 := (hR.filter (fun _ => 0) ⟨0, by omega⟩).2
  rw [h2] at h1
  simpa [stepVar, condVar, fst, carmaAcf_pad, dotProduct] using h1

end Verif.Theory
