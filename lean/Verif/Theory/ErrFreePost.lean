import Verif.Theory.ErrFreeMat
import Verif.Theory.ProperCarma

/-!
Bounds on the posterior densities for data with measurements without error.
-/

namespace Verif.Theory

open Matrix Verif.Model Verif.Spec MeasureTheory
open scoped ENNReal

variable {n p : ℕ} {t y e : Fin n → ℝ} {c : ℝ}

/-- A correlation function whose matrix at the times `t` has no eigenvalue below `c`. -/
structure StrongCorr (c : ℝ) (ρ : ℝ → ℝ) (t : Fin n → ℝ) : Prop where
  psd : (obsCov ρ t 0 - c • (1 : Matrix (Fin n) (Fin n) ℝ)).PosSemidef
  one : ρ 0 = 1

theorem StrongCorr.pd {ρ : ℝ → ℝ} (h : StrongCorr c ρ t) (hc : 0 < c) : (obsCov ρ t 0).PosDef := by
  have := add_diag_posDef h.psd (d := fun _ => c) fun _ => hc
  rwa [show (diagonal fun _ : Fin n => c) = c • (1 : Matrix (Fin n) (Fin n) ℝ) by rw [smul_one_eq_diagonal], sub_add_cancel] at this

theorem StrongCorr.corr {ρ : ℝ → ℝ} (h : StrongCorr c ρ t) (hc : 0 < c) : IsCorr ρ t := ⟨(h.pd hc).posSemidef, h.one⟩

/-- The covariance with the part `σ²c` of the matrix moved to the diagonal. -/
theorem strong_split {ρ : ℝ → ℝ} (σ s : ℝ) : σ ^ 2 • obsCov ρ t 0 + diagonal (fun i => s * e i ^ 2) =
    σ ^ 2 • (obsCov ρ t 0 - c • (1 : Matrix (Fin n) (Fin n) ℝ)) + diagonal fun i => σ ^ 2 * c + s * e i ^ 2 := by
  have e1 : (diagonal fun i => σ ^ 2 * c + s * e i ^ 2) = σ ^ 2 • c • (1 : Matrix (Fin n) (Fin n) ℝ) + diagonal fun i => s * e i ^ 2 := by
    rw [smul_one_eq_diagonal, ← diagonal_smul, diagonal_add]; rfl
  rw [e1, smul_sub]
  abel

theorem prior_le {s : ℝ} (h1 : 0.5 ≤ s) : -25 / s - 26 * Real.log s ≤ 26 * Real.log 2 := by
  have hs : 0 < s := by linarith
  have hlog : -Real.log 2 ≤ Real.log s := by
    rw [← Real.log_inv]
    exact Real.log_le_log (by norm_num) (by linarith)
  have hdiv : -25 / s ≤ 0 := div_nonpos_of_nonpos_of_nonneg (by norm_num) hs.le
  linarith

theorem le_prior {s : ℝ} (h1 : 0.5 ≤ s) (h2 : s ≤ 2) : -50 - 26 * Real.log 2 ≤ -25 / s - 26 * Real.log s := by
  have hs : 0 < s := by linarith
  have hlog : Real.log s ≤ Real.log 2 := Real.log_le_log hs h2
  have hdiv : -50 ≤ -25 / s := by
    rw [le_div_iff₀ hs]; linarith
  linarith

theorem cov_diag {ρ : ℝ → ℝ} (h : ρ 0 = 1) (σ s : ℝ) (i : Fin n) : (σ ^ 2 • obsCov ρ t 0 + diagonal fun i => s * e i ^ 2) i i = σ ^ 2 + s * e i ^ 2 := by
  simp [obsCov, h]

/-- Two measurements without error and with different values: Gaussian tails in the mean, uniformly in the standard deviation. -/
theorem post_le_two (hc : 0 < c) {i j : Fin n} (hi : e i = 0) (hj : e j = 0) (hij : y i ≠ y j) {sd : ℝ} : ∃ A c' : ℝ, 0 < c' ∧ ∀ ρ : ℝ → ℝ,
    StrongCorr c ρ t → ∀ σ s μ : ℝ, 0 < σ → σ ≤ sd → 0.5 ≤ s → s ≤ 2 →
      logGauss (obsCov (fun d => σ ^ 2 * ρ d) t fun i => √s * e i) (fun i => y i - μ) + (-25 / s - 26 * Real.log s) ≤ A - c' * (μ - y i) ^ 2 := by
  have hn : (0 : ℝ) < n := by exact_mod_cast i.pos
  have hD : 0 < (y i - y j) ^ 2 := by have := sub_ne_zero.mpr hij; positivity
  obtain ⟨k, hk⟩ : ∃ k : ℝ, k = (y i - y j) ^ 2 / (8 * n) := ⟨_, rfl⟩
  have hk0 : 0 < k := by rw [hk]; positivity
  rcases le_or_gt sd 0 with hsd | hsd
  · exact ⟨0, 1, one_pos, fun ρ _ σ s μ h1 h2 => by linarith⟩
  refine ⟨-(n / 2) * Real.log k - n / 2 * Real.log c + 26 * Real.log 2, 1 / (8 * sd ^ 2), by positivity, ?_⟩
  intro ρ hρ σ s μ g0 g2 g3 g4
  have hs : 0 < s := by linarith
  have hK : (σ ^ 2 • obsCov ρ t 0 + diagonal fun i => s * e i ^ 2).PosDef := posDef_smul_add g0 (hρ.pd hc) fun i => by positivity
  have hdet : (σ ^ 2 * c) ^ n ≤ (σ ^ 2 • obsCov ρ t 0 + diagonal fun i => s * e i ^ 2).det := by
    rw [strong_split (c := c)]
    exact (det_bounds (hρ.psd.smul (sq_nonneg σ)) (lo := σ ^ 2 * c) (by positivity) fun i => by
      have : 0 ≤ s * e i ^ 2 := by positivity
      linarith).1
  have hlog := Real.log_le_log (by positivity) hdet
  rw [Real.log_pow, Real.log_mul (by positivity) hc.ne'] at hlog
  have q1 := quad_lower_pd hK (fun i => y i - μ) i
  have q2 := quad_lower_pd hK (fun i => y i - μ) j
  rw [cov_diag hρ.one, hi] at q1
  rw [cov_diag hρ.one, hj] at q2
  simp only [ne_eq, OfNat.ofNat_ne_zero, not_false_eq_true, zero_pow, mul_zero, add_zero] at q1 q2
  rw [post_cov ρ σ hs.le, logGauss]
  generalize (fun i => y i - μ) ⬝ᵥ _ = Q at *
  have h1 := prior_le g3
  -- the standard deviation
  have h2 : Real.log (k * (σ ^ 2)⁻¹) ≤ k * (σ ^ 2)⁻¹ := by
    have := Real.log_le_sub_one_of_pos (show 0 < k * (σ ^ 2)⁻¹ by positivity)
    linarith
  rw [Real.log_mul hk0.ne' (by positivity), Real.log_inv] at h2
  have e1 : n / 2 * (k * (σ ^ 2)⁻¹) = (y i - y j) ^ 2 / (16 * σ ^ 2) := by rw [hk]; field_simp; ring
  have h3 : n / 2 * (Real.log k + -Real.log (σ ^ 2)) ≤ (y i - y j) ^ 2 / (16 * σ ^ 2) := by
    rw [← e1]; exact mul_le_mul_of_nonneg_left h2 (by positivity)
  -- the quadratic form
  have h4 : (y i - y j) ^ 2 / (16 * σ ^ 2) + (y i - μ) ^ 2 / (8 * σ ^ 2) ≤ 1 / 2 * Q := by
    have h5 : ((y i - μ) ^ 2 + (y j - μ) ^ 2) / (4 * σ ^ 2) ≤ 1 / 2 * Q := by
      have : ((y i - μ) ^ 2 + (y j - μ) ^ 2) / (4 * σ ^ 2) = ((y i - μ) ^ 2 / σ ^ 2 + (y j - μ) ^ 2 / σ ^ 2) / 4 := by field_simp
      rw [this]; linarith
    refine le_trans ?_ h5
    rw [div_add_div _ _ (by positivity) (by positivity), div_le_div_iff₀ (by positivity) (by positivity)]
    have : (y i - y j) ^ 2 ≤ 2 * ((y i - μ) ^ 2 + (y j - μ) ^ 2) := by nlinarith [sq_nonneg (y i - μ + (y j - μ))]
    have hσ4 : 0 ≤ σ ^ 4 := by positivity
    have e : ((y i - μ) ^ 2 + (y j - μ) ^ 2) * (16 * σ ^ 2 * (8 * σ ^ 2)) - ((y i - y j) ^ 2 * (8 * σ ^ 2) + 16 * σ ^ 2 * (y i - μ) ^ 2) * (4 * σ ^ 2) =
        σ ^ 4 * (32 * (2 * ((y i - μ) ^ 2 + (y j - μ) ^ 2) - (y i - y j) ^ 2) + 64 * (y j - μ) ^ 2) := by ring
    have : 0 ≤ σ ^ 4 * (32 * (2 * ((y i - μ) ^ 2 + (y j - μ) ^ 2) - (y i - y j) ^ 2) + 64 * (y j - μ) ^ 2) := by
      apply mul_nonneg hσ4
      nlinarith [sq_nonneg (y j - μ)]
    linarith
  have h6 : 1 / (8 * sd ^ 2) * (μ - y i) ^ 2 ≤ (y i - μ) ^ 2 / (8 * σ ^ 2) := by
    rw [show 1 / (8 * sd ^ 2) * (μ - y i) ^ 2 = (y i - μ) ^ 2 / (8 * sd ^ 2) by ring]
    exact div_le_div_of_nonneg_left (sq_nonneg _) (by positivity) (by nlinarith [pow_le_pow_left₀ g0.le g2 2])
  linarith

open scoped Classical in
/-- Number of measurements without error. -/
noncomputable def nFree (e : Fin n → ℝ) : ℕ := (Finset.univ.filter fun i => e i = 0).card

open scoped Classical in
theorem prod_free (a : ℝ) (f : Fin n → ℝ) : ∏ i, (if e i = 0 then a else f i) = a ^ nFree e * ∏ i ∈ Finset.univ.filter (fun i => ¬ e i = 0), f i := by
  rw [Finset.prod_ite, Finset.prod_const, nFree]

/-- Measurements without error. -/
theorem post_le_free (hc : 0 < c) {z : Fin n} (hz : e z = 0) : ∃ A : ℝ, ∀ ρ : ℝ → ℝ,
    StrongCorr c ρ t → ∀ σ s μ : ℝ, 0 < σ → 0.5 ≤ s → s ≤ 2 →
      logGauss (obsCov (fun d => σ ^ 2 * ρ d) t fun i => √s * e i) (fun i => y i - μ) + (-25 / s - 26 * Real.log s) ≤
        A - nFree e * Real.log σ - (μ - y z) ^ 2 / (2 * σ ^ 2) := by
  classical
  obtain ⟨P, hPd⟩ : ∃ P : ℝ, P = ∏ i ∈ Finset.univ.filter (fun i => ¬ e i = 0), 0.5 * e i ^ 2 := ⟨_, rfl⟩
  have hP : 0 < P := by
    rw [hPd]
    refine Finset.prod_pos fun i hi => ?_
    have := (Finset.mem_filter.mp hi).2
    positivity
  refine ⟨-(1 / 2) * Real.log (c ^ nFree e * P) + 26 * Real.log 2, ?_⟩
  intro ρ hρ σ s μ g0 g3 g4
  have hs : 0 < s := by linarith
  have hK : (σ ^ 2 • obsCov ρ t 0 + diagonal fun i => s * e i ^ 2).PosDef := posDef_smul_add g0 (hρ.pd hc) fun i => by positivity
  have hdet : (σ ^ 2) ^ nFree e * (c ^ nFree e * P) ≤ (σ ^ 2 • obsCov ρ t 0 + diagonal fun i => s * e i ^ 2).det := by
    rw [strong_split (c := c)]
    refine le_trans ?_ (det_ge_prod (hρ.psd.smul (sq_nonneg σ)) fun i => by positivity)
    rw [← mul_assoc, ← mul_pow, hPd, ← prod_free]
    refine Finset.prod_le_prod (fun i _ => by split <;> positivity) fun i _ => ?_
    split
    · rename_i h; rw [h]; simp
    · have : 0.5 * e i ^ 2 ≤ s * e i ^ 2 := mul_le_mul_of_nonneg_right g3 (sq_nonneg _)
      have : 0 ≤ σ ^ 2 * c := by positivity
      linarith
  have hlog := Real.log_le_log (by positivity) hdet
  rw [Real.log_mul (by positivity) (by positivity), Real.log_pow, Real.log_pow] at hlog
  have q1 := quad_lower_pd hK (fun i => y i - μ) z
  rw [cov_diag hρ.one, hz] at q1
  simp only [ne_eq, OfNat.ofNat_ne_zero, not_false_eq_true, zero_pow, mul_zero, add_zero] at q1
  rw [post_cov ρ σ hs.le, logGauss]
  generalize (fun i => y i - μ) ⬝ᵥ _ = Q at *
  have h1 := prior_le g3
  have e1 : (μ - y z) ^ 2 / (2 * σ ^ 2) = 1 / 2 * ((y z - μ) ^ 2 / σ ^ 2) := by field_simp; ring
  rw [e1]
  push_cast at hlog
  linarith

/-- All measurements without error having the same value: the density is of order `σ⁻ᵏ` near it. -/
theorem le_post_same (hc : 0 < c) {i : Fin n} {y0 : ℝ} (hy : ∀ k, e k = 0 → y k = y0) : ∃ B : ℝ,
    ∀ ρ : ℝ → ℝ, StrongCorr c ρ t → ∀ σ s μ : ℝ, 0 < σ → σ ≤ 1 → 0.5 ≤ s → s ≤ 2 → |μ - y0| ≤ σ →
      B - nFree e * Real.log σ ≤ logGauss (obsCov (fun d => σ ^ 2 * ρ d) t fun i => √s * e i) (fun i => y i - μ) + (-25 / s - 26 * Real.log s) := by
  classical
  have hn : (0 : ℝ) < n := by exact_mod_cast i.pos
  obtain ⟨P, hPd⟩ : ∃ P : ℝ, P = ∏ i ∈ Finset.univ.filter (fun i => ¬ e i = 0), (1 + 2 * e i ^ 2) := ⟨_, rfl⟩
  have hP : 0 < P := by
    rw [hPd]
    exact Finset.prod_pos fun i hi => by positivity
  obtain ⟨q, hq⟩ : ∃ q : Fin n → ℝ, q = fun k => if e k = 0 then 1 / c else (|y k - y0| + 1) ^ 2 / (0.5 * e k ^ 2) := ⟨_, rfl⟩
  refine ⟨-(1 / 2) * Real.log ((n : ℝ) ^ n * P) - 1 / 2 * ∑ k, q k - 50 - 26 * Real.log 2, ?_⟩
  intro ρ hρ σ s μ g0 g1 g3 g4 g5
  have hs : 0 < s := by linarith
  have hK : (σ ^ 2 • obsCov ρ t 0 + diagonal fun i => s * e i ^ 2).PosDef := posDef_smul_add g0 (hρ.pd hc) fun i => by positivity
  have hdet : (σ ^ 2 • obsCov ρ t 0 + diagonal fun i => s * e i ^ 2).det ≤ (n : ℝ) ^ n * P * (σ ^ 2) ^ nFree e := by
    refine (det_le_prod hK).trans ?_
    simp only [cov_diag hρ.one]
    rw [mul_assoc, mul_comm P, hPd, ← prod_free]
    refine mul_le_mul_of_nonneg_left (Finset.prod_le_prod (fun i _ => by positivity) fun i _ => ?_) (by positivity)
    split
    · rename_i h; rw [h]; simp
    · exact add_le_add (pow_le_one₀ g0.le g1) (mul_le_mul_of_nonneg_right g4 (sq_nonneg _))
  have hlog := Real.log_le_log hK.det_pos hdet
  rw [Real.log_mul (by positivity) (by positivity), Real.log_pow, Real.log_pow] at hlog
  have hquad : (fun i => y i - μ) ⬝ᵥ ((σ ^ 2 • obsCov ρ t 0 + diagonal fun i => s * e i ^ 2)⁻¹ *ᵥ fun i => y i - μ) ≤ ∑ k, q k := by
    rw [strong_split (c := c)]
    refine (quad_upper_diag (hρ.psd.smul (sq_nonneg σ)) (fun k => by positivity) _).trans (Finset.sum_le_sum fun k _ => ?_)
    rw [hq]
    dsimp only
    split
    case isTrue hk =>
      rw [hk, hy k hk, div_le_div_iff₀ (by positivity) hc]
      have : (y0 - μ) ^ 2 ≤ σ ^ 2 := by
        rw [← sq_abs, abs_sub_comm]; exact pow_le_pow_left₀ (abs_nonneg _) g5 2
      nlinarith [mul_le_mul_of_nonneg_right this hc.le]
    case isFalse hk =>
      have h1 : (y k - μ) ^ 2 ≤ (|y k - y0| + 1) ^ 2 := by
        rw [← sq_abs (y k - μ)]
        refine pow_le_pow_left₀ (abs_nonneg _) ?_ 2
        have := abs_sub_le (y k) y0 μ
        rw [abs_sub_comm y0 μ] at this
        linarith
      refine div_le_div₀ (by positivity) h1 (by positivity) ?_
      have : 0.5 * e k ^ 2 ≤ s * e k ^ 2 := mul_le_mul_of_nonneg_right g3 (sq_nonneg _)
      have : 0 ≤ σ ^ 2 * c := by positivity
      linarith
  rw [post_cov ρ σ hs.le, logGauss]
  have h1 := le_prior g3 g4
  push_cast at hlog
  linarith

/-! ### The correlation functions of the models -/

theorem car1_strong (ht : StrictMono t) {fmin : ℝ} (hf : 0 < fmin) (fmax : ℝ) : ∃ c : ℝ, 0 < c ∧ ∀ ω : ℝ, fmin ≤ ω → ω ≤ fmax →
    StrongCorr c (fun d => Real.exp (-ω * d)) t := by
  obtain ⟨c, h0, h⟩ := uniform_posDef (n := n) (isCompact_Icc (a := fmin) (b := fmax)) (f := fun ω => obsCov (fun d => Real.exp (-ω * d)) t 0)
    (fun i j => by simp only [obsCov]; fun_prop) fun ω hω => by
      have hω' : 0 < ω := hf.trans_le hω.1
      have h := (car1_realizes (σ2 := 2 * ω) (by positivity) hω' (ext0 t) (ext0 (0 : Fin n → ℝ)) n
        (fun i hi => ⟨(strictMono_ext0 ht i hi).le, Or.inl (strictMono_ext0 ht i hi)⟩)).posDef
      rw [fst_ext0, fst_ext0] at h
      have e : car1Acf (2 * ω) ω = fun d => Real.exp (-ω * d) := by
        funext d
        rw [car1Acf, div_self (by positivity), one_mul]
      rwa [e] at h
  exact ⟨c, h0, fun ω h1 h2 => ⟨h ω ⟨h1, h2⟩, by simp⟩⟩

/-- Roots within bounds, at a distance of at least `δ` from each other. -/
def rootSet (p : ℕ) (w W δ : ℝ) : Set (Fin p → ℂ) :=
  {ω | (∀ k, w ≤ -(ω k).re ∧ -(ω k).re ≤ W ∧ |(ω k).im| ≤ W) ∧ (∀ k l, k ≠ l → δ ≤ ‖ω k - ω l‖) ∧ ∀ k, ∃ l, ω l = star (ω k)}

theorem rootSet_compact (p : ℕ) (w W δ : ℝ) : IsCompact (rootSet p w W δ) := by
  refine Metric.isCompact_of_isClosed_isBounded ?_ ?_
  · have h1 : ∀ k : Fin p, Continuous fun ω : Fin p → ℂ => ω k := continuous_apply
    have e : rootSet p w W δ = (⋂ k, {ω | w ≤ -(ω k).re} ∩ ({ω | -(ω k).re ≤ W} ∩ {ω | |(ω k).im| ≤ W})) ∩
        ((⋂ k, ⋂ l, {ω | k ≠ l → δ ≤ ‖ω k - ω l‖}) ∩ ⋂ k, ⋃ l, {ω | ω l = star (ω k)}) := by
      ext ω
      simp [rootSet]
    rw [e]
    refine IsClosed.inter (isClosed_iInter fun k => IsClosed.inter ?_ (IsClosed.inter ?_ ?_)) (IsClosed.inter (isClosed_iInter fun k => isClosed_iInter fun l => ?_)
      (isClosed_iInter fun k => isClosed_iUnion_of_finite fun l => ?_))
    · exact isClosed_le continuous_const (Complex.continuous_re.comp (h1 k)).neg
    · exact isClosed_le (Complex.continuous_re.comp (h1 k)).neg continuous_const
    · exact isClosed_le (Complex.continuous_im.comp (h1 k)).abs continuous_const
    · by_cases hkl : k = l
      · simp [hkl]
      · simp only [ne_eq, hkl, not_false_eq_true, true_imp_iff]
        exact isClosed_le continuous_const ((h1 k).sub (h1 l)).norm
    · exact isClosed_eq (h1 l) (continuous_star.comp (h1 k))
  · refine (Metric.isBounded_iff_subset_closedBall 0).mpr ⟨|w| + |W| + |W|, fun ω hω => ?_⟩
    rw [mem_closedBall_zero_iff, pi_norm_le_iff_of_nonneg (by positivity)]
    intro k
    obtain ⟨h1, h2, h3⟩ := hω.1 k
    refine (Complex.norm_le_abs_re_add_abs_im _).trans (add_le_add ?_ (h3.trans (le_abs_self W)))
    rw [abs_le]
    constructor <;> linarith [neg_abs_le w, le_abs_self w, le_abs_self W, abs_nonneg w, abs_nonneg W, neg_abs_le W]

theorem rootSet_admissible {w W δ : ℝ} (hw : 0 < w) (hδ : 0 < δ) {ω : Fin p → ℂ} (h : ω ∈ rootSet p w W δ) : Admissible ω where
  inj := by
    intro k l hkl
    by_contra hne
    have := h.2.1 k l hne
    rw [hkl, sub_self, norm_zero] at this
    linarith
  stable := fun k => by have := (h.1 k).1; linarith
  conj := h.2.2

theorem carmaAcf_sum {ω : Fin p → ℂ} (h : Admissible ω) (β : List ℝ) (d : ℝ) : carmaAcf 1 ω β d =
    (∑ i, ∑ j, impC ω β i * star (impC ω β j) * Complex.exp (ω i * d) * (-1 / (ω i + star (ω j)))).re := by
  have h1 : ∀ s : ℝ, impulse ω β s * impulse ω β (s + d) = expSum ω (impC ω β) (s + d) * star (expSum ω (impC ω β) s) := by
    intro s
    rw [← impulse_eq, impulse_real h β s, mul_comm]
  rw [carmaAcf, one_mul, ← expSum_corr h.stable]
  simp only [h1]
  exact integral_re (𝕜 := ℂ) (expSum_corr_integrable h.stable (impC ω β) d)

theorem acf_continuousOn {w W δ : ℝ} (hw : 0 < w) (hδ : 0 < δ) (β : List ℝ) (d : ℝ) : ContinuousOn (fun ω : Fin p → ℂ => carmaAcf 1 ω β d) (rootSet p w W δ) := by
  have h1 : ∀ k : Fin p, Continuous fun ω : Fin p → ℂ => ω k := continuous_apply
  have hC : ∀ k, ContinuousOn (fun ω : Fin p → ℂ => impC ω β k) (rootSet p w W δ) := by
    intro k
    unfold impC
    refine ContinuousOn.div ?_ ?_ fun ω hω => arDeriv_ne_zero (rootSet_admissible hw hδ hω).inj k
    · unfold maEval
      exact (continuous_finsetSum _ fun i _ => continuous_const.mul ((h1 k).pow i)).continuousOn
    · unfold arDeriv
      exact (continuous_finsetProd _ fun l _ => (h1 k).sub (h1 l)).continuousOn
  refine ContinuousOn.congr (f := fun ω : Fin p → ℂ =>
    (∑ i, ∑ j, impC ω β i * star (impC ω β j) * Complex.exp (ω i * d) * (-1 / (ω i + star (ω j)))).re) ?_ fun ω hω =>
      carmaAcf_sum (rootSet_admissible hw hδ hω) β d
  refine Complex.continuous_re.comp_continuousOn (continuousOn_finsetSum _ fun i _ => continuousOn_finsetSum _ fun j _ => ?_)
  refine ContinuousOn.mul (ContinuousOn.mul (ContinuousOn.mul (hC i) (continuous_star.comp_continuousOn (hC j))) ?_) ?_
  · exact (Complex.continuous_exp.comp ((h1 i).mul continuous_const)).continuousOn
  · exact ContinuousOn.div continuousOn_const ((h1 i).add (continuous_star.comp (h1 j))).continuousOn fun ω hω =>
      pair_ne_zero (rootSet_admissible hw hδ hω).stable i j

theorem rootSet_strong (hp : 0 < p) (ht : StrictMono t) {w W δ : ℝ} (hw : 0 < w) (hδ : 0 < δ) : ∃ c : ℝ, 0 < c ∧ ∀ ω ∈ rootSet p w W δ,
    StrongCorr c (fun d => responseAcf ω (fun _ => 1) d / responseAcf ω (fun _ => 1) 0) t := by
  have hβ : ∀ z, maEval (carMA p) z = 1 := fun z => maEval_carMA z
  have hlen : (carMA p).length = p := by simp [carMA]; omega
  have hhead : (carMA p)[0]? = some 1 := by simp [carMA]
  have hacf : ∀ ω : Fin p → ℂ, carmaAcf 1 ω (carMA p) = responseAcf ω fun _ => 1 := fun ω => funext fun d => impulse_response hβ d
  have hpos : ∀ ω ∈ rootSet p w W δ, 0 < carmaAcf 1 ω (carMA p) 0 := fun ω hω =>
    carmaAcf_pos (rootSet_admissible hw hδ hω) one_pos hlen.le (head_ne hhead)
  obtain ⟨c, h0, h⟩ := uniform_posDef (n := n) (rootSet_compact p w W δ)
    (f := fun ω => obsCov (fun d => responseAcf ω (fun _ => 1) d / responseAcf ω (fun _ => 1) 0) t 0)
    (fun i j => by
      simp only [obsCov, ← hacf]
      exact ((acf_continuousOn hw hδ _ _).div (acf_continuousOn hw hδ _ _) fun ω hω => (hpos ω hω).ne').add continuousOn_const)
    fun ω hω => by
      have ha := rootSet_admissible hw hδ hω
      have h := (carma_realizes ha one_pos (obsRow_ne_zero ha.inj hlen (head_ne hhead)) (ext0 t) (ext0 (0 : Fin n → ℝ)) n
        (fun i hi => ⟨(strictMono_ext0 ht i hi).le, Or.inl (strictMono_ext0 ht i hi)⟩)).posDef
      rw [fst_ext0, fst_ext0, hacf] at h
      have hp' := hpos ω hω
      rw [hacf] at hp'
      have e2 : (fun d => responseAcf ω (fun _ => 1) d / responseAcf ω (fun _ => 1) 0) = fun d => (responseAcf ω (fun _ => 1) 0)⁻¹ * responseAcf ω (fun _ => 1) d := by
        funext d; rw [div_eq_inv_mul]
      rw [e2, obsCov_smul]
      exact h.smul (inv_pos.mpr hp')
  refine ⟨c, h0, fun ω hω => ⟨h ω hω, ?_⟩⟩
  have hp' := hpos ω hω
  rw [hacf] at hp'
  exact div_self hp'.ne'

/-- The roots the prior allows. -/
theorem bounds_rootSet {sd fmax fmin : ℝ} (hf : 0 < fmin) {θ : List ℝ} (hθ : p + 3 ≤ θ.length)
    (hb : CarpBounds sd fmax fmin (List.ofFn fun k : Fin p => arRootSpec p (at0 θ) k) θ) :
    (fun k : Fin p => arRootSpec p (at0 θ) k) ∈ rootSet p (2 * Real.pi * fmin) (2 * Real.pi * fmax) (1e-4 * (2 * (2 * Real.pi * fmin))) := by
  have hpi := Real.pi_pos
  have hr := arRoots_spec (p := p) (θ := θ) (by omega)
  obtain ⟨roots', hr', hg⟩ := rootsFrom_spec θ 3 p (by omega)
  cases hr.symm.trans hr'
  have ha := hg.admissible (bounds_nodup hg hb)
  rw [vecOf_ofFn] at ha
  have hroot : ∀ k : Fin p, 2 * Real.pi * fmin < -(arRootSpec p (at0 θ) k).re ∧ -(arRootSpec p (at0 θ) k).re < 2 * Real.pi * fmax ∧
      |(arRootSpec p (at0 θ) k).im| < 2 * Real.pi * fmax := by
    intro k
    have hm : arRootSpec p (at0 θ) k ∈ List.ofFn fun k : Fin p => arRootSpec p (at0 θ) k := List.mem_ofFn.mpr ⟨k, rfl⟩
    have h1 := hb.width _ hm
    have h2 := hb.cent _ hm
    rw [lt_div_iff₀ (by positivity), div_lt_iff₀ (by positivity)] at h1
    rw [div_lt_iff₀ (by positivity)] at h2
    exact ⟨by linarith [h1.1], by linarith [h1.2], by linarith⟩
  refine ⟨fun k => ⟨(hroot k).1.le, (hroot k).2.1.le, (hroot k).2.2.le⟩, ?_, ha.conj⟩
  have hsep : ∀ k l : Fin p, k < l → 1e-4 * (2 * (2 * Real.pi * fmin)) ≤ ‖arRootSpec p (at0 θ) k - arRootSpec p (at0 θ) l‖ := by
    intro k l hkl
    have hs := hb.sep
    rw [List.pairwise_ofFn] at hs
    have h1 := (hroot k).1
    have h2 := (hroot l).1
    have hw : 0 < 2 * Real.pi * fmin := by positivity
    have h3 := hs hkl
    generalize arRootSpec p (at0 θ) k = a at *
    generalize arRootSpec p (at0 θ) l = b at *
    have h4 : 2 * (2 * Real.pi * fmin) ≤ ‖a + b‖ := by
      have := Complex.abs_re_le_norm (a + b)
      rw [Complex.add_re] at this
      linarith [neg_abs_le (a.re + b.re)]
    have h5 : 0 < ‖a + b‖ := by linarith
    rcases h3 with h3 | h3
    · rw [h3, norm_zero] at h5; exact absurd h5 (lt_irrefl 0)
    · rw [lt_div_iff₀ h5] at h3
      exact (mul_le_mul_of_nonneg_left h4 (by norm_num)).trans h3.le
  intro k l hkl
  rcases lt_or_gt_of_ne hkl with h | h
  · exact hsep k l h
  · rw [norm_sub_rev]; exact hsep l k h

end Verif.Theory
