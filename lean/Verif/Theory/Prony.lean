import Verif.Theory.Alias
import Verif.Theory.ProperCarma
import Mathlib.Analysis.Complex.Polynomial.Basic

/-! Helper theory for C86: a sum of exponentials on a grid determines its terms (Prony), and a product `β(z) β(-z)` determines `β` when the
roots of `β` are in the left half plane. -/

namespace Verif.Theory

open Verif.Model Verif.Spec Finset Polynomial

variable {p : ℕ}

/-- a sum of `p` exponentials with nonzero amplitudes is determined by `2p` consecutive values -/
theorem prony {z c z' c' : Fin p → ℂ} (hz : Function.Injective z) (hz0 : ∀ k, z k ≠ 0) (hc : ∀ k, c k ≠ 0)
    (h : ∀ j, 1 ≤ j → j ≤ 2 * p → ∑ k, c k * z k ^ j = ∑ k, c' k * z' k ^ j) :
    ∃ τ : Equiv.Perm (Fin p), ∀ k, z' (τ k) = z k ∧ c' (τ k) = c k := by
  have hP : ∀ P : ℂ[X], P.natDegree < 2 * p → ∑ k, c k * z k * P.eval (z k) = ∑ k, c' k * z' k * P.eval (z' k) := by
    intro P hd
    have e : ∀ (w a : Fin p → ℂ), ∑ k, a k * w k * P.eval (w k) = ∑ i ∈ range (2 * p), P.coeff i * ∑ k, a k * w k ^ (i + 1) := by
      intro w a
      simp only [eval_eq_sum_range' hd, mul_sum]
      rw [sum_comm]
      refine sum_congr rfl fun i _ => sum_congr rfl fun k _ => ?_
      ring
    rw [e, e]
    refine sum_congr rfl fun i hi => ?_
    rw [h (i + 1) (by omega) (by have := mem_range.mp hi; omega)]
  have hQ : ∀ k, ((∏ l ∈ univ.erase k, (X - C (z l))).eval (z k)) ≠ 0 := by
    intro k
    rw [eval_prod]
    refine prod_ne_zero_iff.mpr fun l hl => ?_
    simp only [eval_sub, eval_X, eval_C]
    exact sub_ne_zero.mpr fun e => (ne_of_mem_erase hl) (hz e).symm
  have hQ0 : ∀ k l, l ≠ k → ((∏ l ∈ univ.erase k, (X - C (z l))).eval (z l)) = 0 := by
    intro k l hl
    rw [eval_prod]
    exact prod_eq_zero (mem_erase.mpr ⟨hl, mem_univ l⟩) (by simp)
  have hdQ : ∀ k, (∏ l ∈ univ.erase k, (X - C (z l))).natDegree = p - 1 := by
    intro k
    rw [natDegree_prod_of_monic _ _ fun l _ => monic_X_sub_C _]
    simp
  have hex : ∀ k, ∃ m, z' m = z k := by
    intro k
    by_contra hn
    push Not at hn
    have hp : 0 < p := k.pos
    have := hP ((∏ l ∈ univ.erase k, (X - C (z l))) * ∏ l, (X - C (z' l))) (by
      rw [natDegree_mul (monic_prod_of_monic _ _ fun l _ => monic_X_sub_C _).ne_zero (monic_prod_of_monic _ _ fun l _ => monic_X_sub_C _).ne_zero, hdQ,
        natDegree_prod_of_monic _ _ fun l _ => monic_X_sub_C _]
      simp
      omega)
    rw [sum_eq_single k (fun l _ hl => by rw [eval_mul, hQ0 k l hl]; ring) (by simp), sum_eq_zero, eval_mul] at this
    · have h2 : (∏ l, (X - C (z' l))).eval (z k) ≠ 0 := by
        rw [eval_prod]
        refine prod_ne_zero_iff.mpr fun l _ => ?_
        simp only [eval_sub, eval_X, eval_C]
        exact sub_ne_zero.mpr (hn l).symm
      exact mul_ne_zero (mul_ne_zero (hc k) (hz0 k)) (mul_ne_zero (hQ k) h2) this
    · intro l _
      rw [eval_mul, eval_prod univ, prod_eq_zero (mem_univ l) (by simp)]
      ring
  choose f hf using hex
  have hfi : Function.Injective f := fun a b hab => hz (by rw [← hf, ← hf, hab])
  have hfb := Finite.injective_iff_bijective.mp hfi
  refine ⟨Equiv.ofBijective f hfb, fun k => ⟨hf k, ?_⟩⟩
  have := hP (∏ l ∈ univ.erase k, (X - C (z l))) (by rw [hdQ]; have := k.pos; omega)
  rw [sum_eq_single k (fun l _ hl => by rw [hQ0 k l hl]; ring) (by simp), sum_eq_single (f k) ?_ (by simp), hf k] at this
  · show c' (f k) = c k
    have h1 : (c k - c' (f k)) * (z k * (∏ l ∈ univ.erase k, (X - C (z l))).eval (z k)) = 0 := by linear_combination this
    rcases mul_eq_zero.mp h1 with h2 | h2
    · exact (sub_eq_zero.mp h2).symm
    · exact absurd h2 (mul_ne_zero (hz0 k) (hQ k))
  · intro m _ hm
    obtain ⟨l, rfl⟩ := hfb.2 m
    rw [hf l, hQ0 k l fun e => hm (by rw [e])]
    ring

theorem maEval_zero {ma : List ℝ} (h : ma[0]? = some 1) : maEval ma 0 = 1 := by
  cases ma with
  | nil => simp at h
  | cons a l =>
    simp at h
    rw [maEval, List.length_cons, sum_range_succ']
    simp [h]

/-- amplitudes of the autocovariance -/
noncomputable def amp (ω : Fin p → ℂ) (ma : List ℝ) (i : Fin p) : ℂ := maEval ma (ω i) * maEval ma (-ω i) / (arDeriv ω i * ∏ k, (-ω i - ω k))

theorem stable_prod_ne {ω : Fin p → ℂ} (h : Admissible ω) (i : Fin p) : ∏ k, (-ω i - ω k) ≠ 0 := by
  refine prod_ne_zero_iff.mpr fun k _ e => ?_
  have h1 := h.stable i
  have h2 := h.stable k
  have := congrArg Complex.re e
  simp at this; linarith

/-- the autocovariance as a complex number -/
theorem acf_complex {ω : Fin p → ℂ} (h : Admissible ω) {ma : List ℝ} (hl : ma.length ≤ p) (d : ℝ) :
    ((carmaAcf 1 ω ma d : ℝ) : ℂ) = ∑ i, amp ω ma i * Complex.exp (ω i * d) := by
  have e : ∑ i, maEval ma (ω i) * maEval ma (-ω i) * Complex.exp (ω i * d) / (arDeriv ω i * ∏ k, (-ω i - ω k)) =
      ∑ i, amp ω ma i * Complex.exp (ω i * d) := sum_congr rfl fun i _ => by rw [amp]; ring
  rw [carmaAcf_closed h 1 hl, one_mul, e]
  obtain ⟨τ, hτ⟩ := Admissible.exists_perm h
  have hs : star (∑ i, amp ω ma i * Complex.exp (ω i * d)) = ∑ i, amp ω ma i * Complex.exp (ω i * d) := by
    rw [star_sum, ← Equiv.sum_comp τ (fun i => amp ω ma i * Complex.exp (ω i * d))]
    refine sum_congr rfl fun i _ => ?_
    have h1 : ∏ k, (-ω (τ i) - ω k) = star (∏ k, (-ω i - ω k)) := by
      rw [← Equiv.prod_comp τ (fun k => -ω (τ i) - ω k), star_prod]
      exact prod_congr rfl fun k _ => by rw [hτ, hτ]; simp
    have h2 : Complex.exp (ω (τ i) * d) = star (Complex.exp (ω i * d)) := by
      rw [hτ, Complex.star_def, ← Complex.exp_conj]; simp
    rw [amp, amp, h1, h2, arDeriv_conj hτ, hτ, ← star_neg, maEval_conj, maEval_conj]
    simp only [star_mul', star_div₀]
  exact Complex.conj_eq_iff_re.mp hs

/-- `β(z) β(-z)` at the roots and their negatives determines the product, and `β(0) = 1` its scale -/
theorem product_unique {ω : Fin p → ℂ} (hp : 0 < p) (h : Admissible ω) {ma ma' : List ℝ} (hl : ma.length ≤ p) (hl' : ma'.length ≤ p)
    (h1 : ma[0]? = some 1) (h1' : ma'[0]? = some 1) {r r' : ℂ}
    (hr : ∀ k, r * (maEval ma (ω k) * maEval ma (-ω k)) = r' * (maEval ma' (ω k) * maEval ma' (-ω k))) :
    r = r' ∧ (r ≠ 0 → maPoly ma * (maPoly ma).comp (-X) = maPoly ma' * (maPoly ma').comp (-X)) := by
  have hev : ∀ (m : List ℝ) (z : ℂ), (maPoly m * (maPoly m).comp (-X)).eval z = maEval m z * maEval m (-z) := by
    intro m z; rw [eval_mul, eval_comp, maPoly_eval]; simp [maPoly_eval]
  have hdeg : ∀ m : List ℝ, m.length ≤ p → m[0]? = some 1 → (maPoly m * (maPoly m).comp (-X)).natDegree < 2 * p := by
    intro m hm hm0
    have h0 : maPoly m ≠ 0 := by
      intro e
      have : (maPoly m).eval 0 = 0 := by rw [e]; simp
      rw [maPoly_eval, maEval_zero hm0] at this
      exact one_ne_zero this
    have hd : (maPoly m).natDegree < p := by
      rw [natDegree_lt_iff_degree_lt h0]
      exact lt_of_lt_of_le (maPoly_degree m) (by exact_mod_cast hm)
    refine lt_of_le_of_lt natDegree_mul_le ?_
    rw [natDegree_comp, natDegree_neg, natDegree_X, mul_one]
    omega
  have hz : C r * (maPoly ma * (maPoly ma).comp (-X)) = C r' * (maPoly ma' * (maPoly ma').comp (-X)) := by
    rw [← sub_eq_zero]
    set D := C r * (maPoly ma * (maPoly ma).comp (-X)) - C r' * (maPoly ma' * (maPoly ma').comp (-X)) with hD
    have hdD : D.natDegree < 2 * p := by
      refine lt_of_le_of_lt (natDegree_sub_le _ _) (max_lt ?_ ?_)
      · exact lt_of_le_of_lt (natDegree_C_mul_le _ _) (hdeg ma hl h1)
      · exact lt_of_le_of_lt (natDegree_C_mul_le _ _) (hdeg ma' hl' h1')
    have hne : ∀ i k, -ω i ≠ ω k := by
      intro i k e
      have h1 := h.stable i
      have h2 := h.stable k
      have := congrArg Complex.re e
      simp at this; linarith
    refine eq_zero_of_natDegree_lt_card_of_eval_eq_zero' D (univ.image ω ∪ univ.image fun k => -ω k) ?_ ?_
    · intro x hx
      rcases mem_union.mp hx with hx | hx
      · obtain ⟨k, -, rfl⟩ := mem_image.mp hx
        rw [hD, eval_sub, eval_mul (p := C r), eval_mul (p := C r'), hev, hev, eval_C, eval_C, hr, sub_self]
      · obtain ⟨k, -, rfl⟩ := mem_image.mp hx
        rw [hD, eval_sub, eval_mul (p := C r), eval_mul (p := C r'), hev, hev, eval_C, eval_C, neg_neg]
        have := hr k
        linear_combination this
    · rw [card_union_of_disjoint, card_image_of_injective _ h.inj, card_image_of_injective _ fun a b e => h.inj (neg_injective e)]
      · simpa [two_mul] using hdD
      · rw [disjoint_left]
        intro x hx hx'
        obtain ⟨k, -, rfl⟩ := mem_image.mp hx
        obtain ⟨i, -, e⟩ := mem_image.mp hx'
        exact hne i k e
  have h00 : ∀ m : List ℝ, m[0]? = some 1 → (maPoly m * (maPoly m).comp (-X)).eval 0 = 1 := by
    intro m hm
    rw [hev, neg_zero, maEval_zero hm, mul_one]
  have hrr : r = r' := by
    have := congrArg (eval 0) hz
    rw [eval_mul (p := C r), eval_mul (p := C r'), h00 _ h1, h00 _ h1', eval_C, eval_C, mul_one, mul_one] at this
    exact this
  refine ⟨hrr, fun h0 => ?_⟩
  rw [← hrr] at hz
  exact mul_left_cancel₀ (C_ne_zero.mpr h0) hz

/-- `β(z) β(-z)` determines a `β` with its roots in the left half plane -/
theorem spectral_unique {ma ma' : List ℝ} (h1 : ma[0]? = some 1) (h1' : ma'[0]? = some 1) (hs : ∀ z, maEval ma z = 0 → z.re < 0)
    (hs' : ∀ z, maEval ma' z = 0 → z.re < 0) (h : maPoly ma * (maPoly ma).comp (-X) = maPoly ma' * (maPoly ma').comp (-X)) :
    ∀ z, maEval ma z = maEval ma' z := by
  have hcop : ∀ {m m' : List ℝ}, (∀ z, maEval m z = 0 → z.re < 0) → (∀ z, maEval m' z = 0 → z.re < 0) →
      IsCoprime (maPoly m) ((maPoly m').comp (-X)) := by
    intro m m' g g'
    rw [isCoprime_iff_aeval_ne_zero_of_isAlgClosed ℂ ℂ]
    intro z
    by_contra hc
    push Not at hc
    obtain ⟨c1, c2⟩ := hc
    rw [coe_aeval_eq_eval, maPoly_eval] at c1
    rw [coe_aeval_eq_eval, eval_comp, eval_neg, eval_X, maPoly_eval] at c2
    have a := g _ c1
    have b := g' _ c2
    simp at b
    linarith
  have d1 : maPoly ma ∣ maPoly ma' := (hcop hs hs').dvd_of_dvd_mul_right (h ▸ dvd_mul_right _ _)
  have d2 : maPoly ma' ∣ maPoly ma := (hcop hs' hs).dvd_of_dvd_mul_right (h.symm ▸ dvd_mul_right _ _)
  obtain ⟨u, hu⟩ := associated_of_dvd_dvd d1 d2
  obtain ⟨a, ha, hau⟩ := isUnit_iff.mp u.isUnit
  rw [← hau] at hu
  have h0 := congrArg (eval 0) hu
  rw [eval_mul, eval_C, maPoly_eval, maPoly_eval, maEval_zero h1, maEval_zero h1', one_mul] at h0
  intro z
  rw [← maPoly_eval, ← maPoly_eval, ← hu, h0]
  simp

/-- recovery of roots, standard deviation and moving-average polynomial from the covariances at `2p` multiples of a lag -/
theorem model_ident {ω ω' : Fin p → ℂ} (hp : 0 < p) (h : Admissible ω) (h' : Admissible ω') {ma ma' : List ℝ} (hl : ma.length ≤ p) (hl' : ma'.length ≤ p)
    (h1 : ma[0]? = some 1) (h1' : ma'[0]? = some 1) (hs : ∀ z, maEval ma z = 0 → z.re < 0) (hs' : ∀ z, maEval ma' z = 0 → z.re < 0)
    {σ σ' Δ : ℝ} (hσ : 0 < σ) (hσ' : 0 < σ') (hΔ : 0 < Δ) (hny : ∀ k, |(ω k).im| * Δ < Real.pi) (hny' : ∀ k, |(ω' k).im| * Δ < Real.pi)
    (hcop : ∀ k, maEval ma (ω k) ≠ 0)
    (hcov : ∀ j : ℕ, 1 ≤ j → j ≤ 2 * p → σ ^ 2 * (carmaAcf 1 ω ma (j * Δ) / carmaAcf 1 ω ma 0) =
      σ' ^ 2 * (carmaAcf 1 ω' ma' (j * Δ) / carmaAcf 1 ω' ma' 0)) :
    (∃ τ : Equiv.Perm (Fin p), ∀ k, ω' (τ k) = ω k) ∧ σ = σ' ∧ ∀ z, maEval ma z = maEval ma' z := by
  have hR : 0 < carmaAcf 1 ω ma 0 := carmaAcf_pos h one_pos hl (head_ne h1)
  have hR' : 0 < carmaAcf 1 ω' ma' 0 := carmaAcf_pos h' one_pos hl' (head_ne h1')
  set R := carmaAcf 1 ω ma 0 with hRd
  set R' := carmaAcf 1 ω' ma' 0 with hRd'
  obtain ⟨g, hg⟩ : ∃ g : ℝ, g = σ ^ 2 / R := ⟨_, rfl⟩
  obtain ⟨g', hg'⟩ : ∃ g' : ℝ, g' = σ' ^ 2 / R' := ⟨_, rfl⟩
  have g0 : 0 < g := by rw [hg]; positivity
  have g0' : 0 < g' := by rw [hg']; positivity
  have hsum : ∀ (w : Fin p → ℂ) (m : List ℝ) (a : ℝ), Admissible w → m.length ≤ p → ∀ j : ℕ,
      ((a * carmaAcf 1 w m (j * Δ) : ℝ) : ℂ) = ∑ k, (a * amp w m k) * Complex.exp (w k * Δ) ^ j := by
    intro w m a hw hm j
    rw [Complex.ofReal_mul, acf_complex hw hm, mul_sum]
    refine sum_congr rfl fun k _ => ?_
    rw [← Complex.exp_nat_mul, mul_assoc]
    congr 3
    push_cast
    ring
  have hexp : ∀ {a b : ℂ}, |a.im| * Δ < Real.pi → |b.im| * Δ < Real.pi → Complex.exp (a * Δ) = Complex.exp (b * Δ) → a = b := by
    intro a b ha hb e
    obtain ⟨m, hm⟩ := Complex.exp_eq_exp_iff_exists_int.mp e
    have him := congrArg Complex.im hm
    have hre := congrArg Complex.re hm
    simp at him hre
    rcases hre with hre | hre
    swap
    · exact absurd hre hΔ.ne'
    have hm0 : m = 0 := by
      have e1 : |(m : ℝ)| * (2 * Real.pi) < 2 * Real.pi := by
        have : (m : ℝ) * (2 * Real.pi) = a.im * Δ - b.im * Δ := by linarith
        rw [← abs_of_pos (show 0 < 2 * Real.pi by have := Real.pi_pos; linarith), ← abs_mul, this]
        rw [abs_of_pos (show 0 < 2 * Real.pi by have := Real.pi_pos; linarith)]
        have i1 := abs_sub (a.im * Δ) (b.im * Δ)
        rw [abs_mul, abs_mul, abs_of_pos hΔ] at i1
        linarith
      have e2 : |(m : ℝ)| < 1 := by
        have := Real.pi_pos
        by_contra hc
        nlinarith [not_lt.mp hc]
      have e3 : |m| < 1 := by exact_mod_cast e2
      exact Int.abs_lt_one_iff.mp e3
    rw [hm0] at him
    simp at him
    rcases him with him | him
    · exact Complex.ext hre him
    · exact absurd him hΔ.ne'
  have hamp : ∀ k, ((g : ℂ) * amp ω ma k) ≠ 0 := by
    intro k
    refine mul_ne_zero (Complex.ofReal_ne_zero.mpr g0.ne') ?_
    refine div_ne_zero (mul_ne_zero (hcop k) fun e => ?_) (mul_ne_zero (arDeriv_ne_zero h.inj k) (stable_prod_ne h k))
    have a := hs _ e
    have b := h.stable k
    simp at a
    linarith
  obtain ⟨τ, hτ⟩ := prony (z := fun k => Complex.exp (ω k * Δ)) (c := fun k => g * amp ω ma k) (z' := fun k => Complex.exp (ω' k * Δ))
    (c' := fun k => g' * amp ω' ma' k) (fun a b e => h.inj (hexp (hny a) (hny b) e)) (fun k => Complex.exp_ne_zero _) hamp (by
      intro j j1 j2
      rw [← hsum ω ma g h hl j, ← hsum ω' ma' g' h' hl' j, hg, hg']
      congr 1
      have := hcov j j1 j2
      rw [div_mul_eq_mul_div, div_mul_eq_mul_div]
      rw [← mul_div_assoc, ← mul_div_assoc] at this
      exact this)
  have hω : ∀ k, ω' (τ k) = ω k := fun k => hexp (hny' _) (hny _) (hτ k).1
  have hσσ : σ = σ' := by
    have e1 : ((g * R : ℝ) : ℂ) = ((g' * R' : ℝ) : ℂ) := by
      have a := hsum ω ma g h hl 0
      have b := hsum ω' ma' g' h' hl' 0
      simp only [Nat.cast_zero, zero_mul, pow_zero, mul_one] at a b
      rw [hRd, hRd', a, b, ← Equiv.sum_comp τ (fun k => (g' : ℂ) * amp ω' ma' k)]
      exact sum_congr rfl fun k _ => (hτ k).2.symm
    have e2 : g * R = g' * R' := by exact_mod_cast e1
    rw [hg, hg', div_mul_cancel₀ _ hR.ne', div_mul_cancel₀ _ hR'.ne'] at e2
    exact (pow_left_inj₀ hσ.le hσ'.le two_ne_zero).mp e2
  refine ⟨⟨τ, hω⟩, hσσ, ?_⟩
  have hprod : ∀ k, ∏ l, (-ω' (τ k) - ω' l) = ∏ l, (-ω k - ω l) := by
    intro k
    rw [← Equiv.prod_comp τ (fun l => -ω' (τ k) - ω' l)]
    exact prod_congr rfl fun l _ => by rw [hω, hω]
  have hder : ∀ k, arDeriv ω' (τ k) = arDeriv ω k := by
    intro k
    rw [arDeriv, arDeriv]
    refine (prod_bij (fun l _ => τ l) (fun l hl => ?_) (fun a _ b _ e => τ.injective e) (fun b hb => ?_) fun l _ => by rw [hω, hω]).symm
    · exact mem_erase.mpr ⟨fun e => ne_of_mem_erase hl (τ.injective e), mem_univ _⟩
    · refine ⟨τ.symm b, mem_erase.mpr ⟨fun e => ne_of_mem_erase hb ?_, mem_univ _⟩, by simp⟩
      rw [← e]; simp
  have hmul : ∀ k, (g : ℂ) * (maEval ma (ω k) * maEval ma (-ω k)) = g' * (maEval ma' (ω k) * maEval ma' (-ω k)) := by
    intro k
    have := (hτ k).2
    simp only [amp, hprod k, hder k] at this
    rw [hω k] at this
    have hd := mul_ne_zero (arDeriv_ne_zero h.inj k) (stable_prod_ne h k)
    rw [← mul_div_assoc, ← mul_div_assoc, div_left_inj' hd] at this
    exact this.symm
  obtain ⟨-, hP⟩ := product_unique hp h hl hl' h1 h1' hmul
  exact spectral_unique h1 h1' hs hs' (hP (Complex.ofReal_ne_zero.mpr g0.ne'))

end Verif.Theory
