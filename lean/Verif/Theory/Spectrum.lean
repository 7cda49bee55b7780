import Verif.Theory.Variance
import Verif.Model.Py

/-! Helper theory: Fourier transforms of the impulse response and of the autocovariance. -/

namespace Verif.Theory

open Verif.Model Verif.Spec Finset MeasureTheory

variable {p : ℕ}

/-! ### polynomials as lists -/

/-- Horner's rule with complex coefficients and initial value -/
lemma horner_zip (x r : ℂ) : ∀ (A B : List ℂ), A.length = B.length → ∀ s t : ℂ,
    (List.zipWith (fun u v => u - r * v) A B).foldl (fun acc a => acc * x + a) (s - r * t) =
      A.foldl (fun acc a => acc * x + a) s - r * B.foldl (fun acc a => acc * x + a) t
  | [], [], _, s, t => rfl
  | [], _ :: _, h, _, _ => by simp at h
  | _ :: _, [], h, _, _ => by simp at h
  | a :: A, b :: B, h, s, t => by
      simp only [List.zipWith_cons_cons, List.foldl_cons]
      rw [← horner_zip x r A B (by simpa using h)]
      congr 1
      ring

lemma npPoly_eval_aux (x : ℂ) : ∀ (roots a : List ℂ),
    (roots.foldl (fun a r => List.zipWith (fun u v => u - r * v) (a ++ [0]) (0 :: a)) a).foldl (fun acc c => acc * x + c) 0 =
      a.foldl (fun acc c => acc * x + c) 0 * (roots.map fun r => x - r).prod
  | [], a => by simp
  | r :: roots, a => by
      rw [List.foldl_cons, npPoly_eval_aux x roots]
      have := horner_zip x r (a ++ [0]) (0 :: a) (by simp) 0 0
      rw [mul_zero, sub_zero] at this
      rw [this, List.foldl_append]
      simp only [List.foldl_cons, List.foldl_nil, zero_mul, add_zero, List.map_cons, List.prod_cons]
      ring

lemma npPoly_eval (roots : List ℂ) (x : ℂ) : (Py.npPoly roots).foldl (fun acc c => acc * x + c) 0 = (roots.map fun r => x - r).prod := by
  rw [Py.npPoly, npPoly_eval_aux]; simp

lemma npPoly_length (roots : List ℂ) : (Py.npPoly roots).length = roots.length + 1 := by
  have : ∀ (roots a : List ℂ), (roots.foldl (fun a r => List.zipWith (fun u v => u - r * v) (a ++ [0]) (0 :: a)) a).length = a.length + roots.length := by
    intro roots
    induction roots with
    | nil => simp
    | cons r l ih => intro a; rw [List.foldl_cons, ih]; simp; ring
  rw [Py.npPoly, this]; simp; ring

lemma horner_re (x : ℂ) (l : List ℂ) : ∀ s : ℂ, ∀ u : ℂ, ∀ w : ℂ, 2 * w = s + star u →
    2 * (l.map Complex.re).foldl (fun (acc : ℂ) (a : ℝ) => acc * x + (a : ℂ)) w =
      l.foldl (fun acc a => acc * x + a) s + star (l.foldl (fun acc a => acc * star x + a) u) := by
  induction l with
  | nil => intro s u w h; simpa using h
  | cons a l ih =>
      intro s u w h
      simp only [List.map_cons, List.foldl_cons]
      apply ih
      rw [mul_add, ← mul_assoc, h, star_add, star_mul', star_star]
      have : (2 * (a.re : ℂ)) = a + star a := by
        apply Complex.ext <;> simp; ring
      rw [this]; ring

lemma arCoefs_eval {roots : List ℂ} (h : (roots.map star).Perm roots) (x : ℂ) :
    Py.polyval (Py.arCoefs roots) x = (roots.map fun r => x - r).prod := by
  have h1 := horner_re x (Py.npPoly roots) 0 0 0 (by simp)
  rw [npPoly_eval, npPoly_eval] at h1
  have h2 : star (roots.map fun r => star x - r).prod = (roots.map fun r => x - r).prod := by
    have e : ∀ l : List ℂ, star (l.map fun r => star x - r).prod = ((l.map star).map fun r => x - r).prod := by
      intro l
      induction l with
      | nil => simp
      | cons a l ih =>
          simp only [List.map_cons, List.prod_cons] at ih ⊢
          rw [star_mul', ih, star_sub, star_star]
    rw [e, (h.map fun r => x - r).prod_eq]
  rw [h2] at h1
  have : (2 : ℂ) ≠ 0 := two_ne_zero
  apply mul_left_cancel₀ this
  rw [Py.polyval, Py.arCoefs, h1]; ring

lemma polyval_reverse (ma : List ℝ) (x : ℂ) : Py.polyval ma.reverse x = maEval ma x := by
  rw [Py.polyval, List.foldl_reverse]
  induction ma with
  | nil => simp [maEval]
  | cons a l ih =>
      rw [List.foldr_cons, ih, maEval, maEval, List.length_cons, Finset.sum_range_succ', Finset.sum_mul]
      congr 1
      · refine Finset.sum_congr rfl fun i _ => ?_
        rw [List.getD_cons_succ, pow_succ]; ring
      · simp

/-! ### one-sided Fourier transforms -/

lemma exp_ft {w x : ℂ} (h : (w - x).re < 0) : ∫ s in Set.Ioi (0:ℝ), Complex.exp (w * s) * Complex.exp (-x * s) = 1 / (x - w) := by
  have : ∀ s : ℝ, Complex.exp (w * s) * Complex.exp (-x * s) = Complex.exp ((w - x) * s) := by
    intro s; rw [← Complex.exp_add]; congr 1; ring
  simp only [this]
  rw [integral_exp_mul_complex_Ioi h]
  simp only [Complex.ofReal_zero, mul_zero, Complex.exp_zero]
  rw [← neg_sub w x, div_neg, neg_div]

lemma exp_ft_integrable {w x : ℂ} (h : (w - x).re < 0) :
    Integrable (fun s : ℝ => Complex.exp (w * s) * Complex.exp (-x * s)) (volume.restrict (Set.Ioi 0)) := by
  have : ∀ s : ℝ, Complex.exp (w * s) * Complex.exp (-x * s) = Complex.exp ((w - x) * s) := by
    intro s; rw [← Complex.exp_add]; congr 1; ring
  simp only [this]
  exact integrableOn_exp_mul_complex_Ioi h 0

lemma expSum_ft_integrable {ω : Fin p → ℂ} (h : ∀ k, (ω k).re < 0) (c : Fin p → ℂ) {x : ℂ} (hx : x.re = 0) :
    Integrable (fun s : ℝ => expSum ω c s * Complex.exp (-x * s)) (volume.restrict (Set.Ioi 0)) := by
  have hn : ∀ k, (ω k - x).re < 0 := fun k => by rw [Complex.sub_re, hx, sub_zero]; exact h k
  simp only [expSum, Finset.sum_mul, mul_assoc]
  exact integrable_finsetSum _ fun k _ => (exp_ft_integrable (hn k)).const_mul (c k)

lemma expSum_ft {ω : Fin p → ℂ} (h : ∀ k, (ω k).re < 0) (c : Fin p → ℂ) {x : ℂ} (hx : x.re = 0) :
    ∫ s in Set.Ioi (0:ℝ), expSum ω c s * Complex.exp (-x * s) = ∑ k, c k / (x - ω k) := by
  have hn : ∀ k, (ω k - x).re < 0 := fun k => by rw [Complex.sub_re, hx, sub_zero]; exact h k
  simp only [expSum, Finset.sum_mul, mul_assoc]
  rw [integral_finsetSum _ fun k _ => (exp_ft_integrable (hn k)).const_mul (c k)]
  refine Finset.sum_congr rfl fun k _ => ?_
  rw [integral_const_mul, exp_ft (hn k)]; ring

lemma impulse_ft {ω : Fin p → ℂ} (h : Admissible ω) {ma : List ℝ} (hl : ma.length ≤ p) {x : ℂ} (hx : x.re = 0) :
    ∫ s in Set.Ioi (0:ℝ), impulse ω ma s * Complex.exp (-x * s) = maEval ma x / ∏ k, (x - ω k) := by
  rw [impulse_eq, expSum_ft h.stable _ hx, ← partial_fractions h.inj hl]
  · rfl
  · intro k hk
    have := h.stable k
    rw [← hk, hx] at this
    exact lt_irrefl _ this

/-- the autocovariance as a complex exponential sum with real values -/
lemma carmaAcf_expSum {ω : Fin p → ℂ} (h : Admissible ω) (σ2 : ℝ) (β : List ℝ) (d : ℝ) :
    (carmaAcf σ2 ω β d : ℂ) = expSum ω (fun i => ∑ j, (σ2 : ℂ) * (impC ω β i * star (impC ω β j) * (-1 / (ω i + star (ω j))))) d := by
  have h1 : ∀ s : ℝ, impulse ω β s * impulse ω β (s + d)
      = expSum ω (impC ω β) (s + d) * star (expSum ω (impC ω β) s) := by
    intro s
    rw [← impulse_eq, impulse_real h β s, mul_comm]
  have h3 : ∀ s : ℝ, (((impulse ω β s * impulse ω β (s + d)).re : ℝ) : ℂ) = impulse ω β s * impulse ω β (s + d) := by
    intro s
    apply Complex.conj_eq_iff_re.mp
    rw [← Complex.star_def, star_mul', impulse_real h, impulse_real h]
  rw [carmaAcf, Complex.ofReal_mul, ← integral_complex_ofReal]
  simp only [h3]
  simp only [h1]
  rw [expSum_corr h.stable, expSum, Finset.mul_sum]
  refine Finset.sum_congr rfl fun i _ => ?_
  rw [Finset.mul_sum, Finset.sum_mul]
  exact Finset.sum_congr rfl fun j _ => by ring

/-- Wiener-Khinchin for the process -/
lemma wiener_khinchin {ω : Fin p → ℂ} (h : Admissible ω) (σ2 : ℝ) (ma : List ℝ) (f : ℝ) :
    2 * ∫ d in Set.Ioi (0:ℝ), carmaAcf σ2 ω ma d * Real.cos (2 * Real.pi * f * d) =
      σ2 * ‖∫ s in Set.Ioi (0:ℝ), impulse ω ma s * Complex.exp (-(2 * Real.pi * Complex.I * f) * s)‖ ^ 2 := by
  set x : ℂ := 2 * Real.pi * Complex.I * f with hxdef
  have hx : x.re = 0 := by simp [hxdef]
  have hxs : star x = -x := by
    apply Complex.ext <;> simp [hx]
  have hne : ∀ k, x - ω k ≠ 0 := by
    intro k hk
    have := h.stable k
    rw [← sub_eq_zero.mp hk, hx] at this
    exact lt_irrefl _ this
  set C : Fin p → ℂ := fun i => ∑ j, (σ2 : ℂ) * (impC ω ma i * star (impC ω ma j) * (-1 / (ω i + star (ω j)))) with hC
  have hint : Integrable (fun d : ℝ => (carmaAcf σ2 ω ma d : ℂ) * Complex.exp (-x * d)) (volume.restrict (Set.Ioi 0)) := by
    simp only [carmaAcf_expSum h]
    exact expSum_ft_integrable h.stable _ hx
  have hre : ∀ d : ℝ, carmaAcf σ2 ω ma d * Real.cos (2 * Real.pi * f * d) = ((carmaAcf σ2 ω ma d : ℂ) * Complex.exp (-x * d)).re := by
    intro d
    rw [Complex.re_ofReal_mul]
    congr 1
    rw [show -x * d = ((-(2 * Real.pi * f * d) : ℝ) : ℂ) * Complex.I by rw [hxdef]; push_cast; ring, Complex.exp_ofReal_mul_I_re, Real.cos_neg]
  have hG : ∫ d in Set.Ioi (0:ℝ), carmaAcf σ2 ω ma d * Real.cos (2 * Real.pi * f * d) = (∑ k, C k / (x - ω k)).re := by
    simp only [hre]
    rw [show ∫ d in Set.Ioi (0:ℝ), ((carmaAcf σ2 ω ma d : ℂ) * Complex.exp (-x * d)).re = (∫ d in Set.Ioi (0:ℝ), (carmaAcf σ2 ω ma d : ℂ) * Complex.exp (-x * d)).re from
      integral_re (𝕜 := ℂ) hint]
    simp only [carmaAcf_expSum h]
    rw [expSum_ft h.stable _ hx]
  rw [hG, impulse_eq, expSum_ft h.stable _ hx]
  set G := ∑ k, C k / (x - ω k) with hGdef
  have e1 : ((2 * G.re : ℝ) : ℂ) = G + star G := by
    apply Complex.ext <;> simp; ring
  have e2 : G + star G = σ2 * ((∑ k, impC ω ma k / (x - ω k)) * star (∑ k, impC ω ma k / (x - ω k))) := by
    have hs : star G = ∑ i, ∑ j, (σ2 : ℂ) * (impC ω ma i * star (impC ω ma j) * (-1 / (ω i + star (ω j)))) / star (x - ω j) := by
      rw [hGdef, star_sum, Finset.sum_comm]
      refine Finset.sum_congr rfl fun j _ => ?_
      rw [star_div₀, hC, star_sum, Finset.sum_div]
      refine Finset.sum_congr rfl fun i _ => ?_
      rw [star_mul', star_mul', star_mul', star_div₀, star_star, star_add, star_star, star_neg, star_one,
        show star (σ2 : ℂ) = σ2 from Complex.conj_ofReal _, add_comm (star (ω j))]
      ring
    rw [hs, hGdef, ← Finset.sum_add_distrib, star_sum, Finset.sum_mul_sum, Finset.mul_sum]
    refine Finset.sum_congr rfl fun i _ => ?_
    rw [hC, Finset.sum_div, ← Finset.sum_add_distrib, Finset.mul_sum]
    refine Finset.sum_congr rfl fun j _ => ?_
    have hp := pair_ne_zero h.stable i j
    have h1 := hne i
    have h2 : star (x - ω j) ≠ 0 := star_ne_zero.mpr (hne j)
    have h3 : ω i + star (ω j) = -((x - ω i) + star (x - ω j)) := by rw [star_sub, hxs]; ring
    rw [star_div₀]
    rw [h3] at hp ⊢
    have hp' : (x - ω i) + star (x - ω j) ≠ 0 := fun hh => hp (by rw [hh, neg_zero])
    field_simp
    ring
  have e3 : ((2 * G.re : ℝ) : ℂ) = ((σ2 * ‖∑ k, impC ω ma k / (x - ω k)‖ ^ 2 : ℝ) : ℂ) := by
    rw [e1, e2, normSq_mul_star, Complex.normSq_eq_norm_sq]; push_cast; ring
  exact_mod_cast e3

end Verif.Theory
