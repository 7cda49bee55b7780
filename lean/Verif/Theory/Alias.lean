import Verif.Theory.UnitsPost
import Verif.Spec.Alias
import Verif.Theory.Variance
import Verif.Theory.PostTarget

/-! Helper theory for C86: a family of CARMA(2,1) processes whose autocorrelation is a damped cosine, and the recovery of the parameters
of CAR(1) from its covariance matrix. -/

namespace Verif.Theory

open Verif.Model Verif.Spec Finset Matrix Polynomial
open scoped Classical

/-! ### aliases -/

variable {σ s μ a b : ℝ}

lemma wave_roots (ha : 0 < a) (hb : 0 < b) :
    (fun k : Fin 2 => arRootSpec 2 (at0 (wave σ s μ a b)) k) = ![⟨-a, -b⟩, ⟨-a, b⟩] := by
  have h3 : Real.exp (at0 (wave σ s μ a b) 3) = a ^ 2 + b ^ 2 := by
    simp only [at0, wave, List.getD_cons_succ, List.getD_cons_zero]; exact Real.exp_log (by positivity)
  have h4 : Real.exp (at0 (wave σ s μ a b) 4) = 2 * a := by
    simp only [at0, wave, List.getD_cons_succ, List.getD_cons_zero]; exact Real.exp_log (by positivity)
  have hd : ¬ 0 < (2 * a) ^ 2 - 4 * (a ^ 2 + b ^ 2) := by nlinarith [sq_nonneg b]
  have hs : √(4 * (a ^ 2 + b ^ 2) - (2 * a) ^ 2) = 2 * b := by
    rw [show 4 * (a ^ 2 + b ^ 2) - (2 * a) ^ 2 = (2 * b) ^ 2 by ring, Real.sqrt_sq (by linarith)]
  funext k
  fin_cases k
  · simp only [arRootSpec]
    norm_num [h3, h4, hd, hs]
    constructor <;> ring
  · simp only [arRootSpec]
    norm_num [h3, h4, hd, hs]
    ring

lemma wave_ma (ha : 0 < a) (lo hi : ℝ) (z : ℂ) :
    maEval [1, (√(a ^ 2 + b ^ 2))⁻¹] z = maPolySpec (.carma 1) 2 lo hi (wave σ s μ a b) z := by
  have hc : 0 < √(a ^ 2 + b ^ 2) := Real.sqrt_pos.mpr (by positivity)
  have h5 : Real.exp (at0 (wave σ s μ a b) 5) = √(a ^ 2 + b ^ 2) := by
    simp only [at0, wave, List.getD_cons_succ, List.getD_cons_zero]; exact Real.exp_log hc
  have hc' : ((√(a ^ 2 + b ^ 2) : ℝ) : ℂ) ≠ 0 := Complex.ofReal_ne_zero.mpr hc.ne'
  simp [maEval, maPolySpec, factorPoly, Finset.sum_range_succ, h5]
  field_simp
  ring

lemma wave_adm (ha : 0 < a) (hb : 0 < b) : Admissible (![⟨-a, -b⟩, ⟨-a, b⟩] : Fin 2 → ℂ) := by
  refine ⟨?_, ?_, ?_⟩
  · intro i j h
    fin_cases i <;> fin_cases j <;> simp at h ⊢ <;> exfalso <;> linarith
  · intro k; fin_cases k <;> simpa using ha
  · intro k
    fin_cases k
    · exact ⟨1, by simp [Complex.ext_iff]⟩
    · exact ⟨0, by simp [Complex.ext_iff]⟩

/-- the autocovariance is a damped cosine -/
lemma wave_acf (ha : 0 < a) (hb : 0 < b) (lo hi d : ℝ) :
    responseAcf (fun k : Fin 2 => arRootSpec 2 (at0 (wave σ s μ a b)) k) (maPolySpec (.carma 1) 2 lo hi (wave σ s μ a b)) d =
      (2 * a * (a ^ 2 + b ^ 2))⁻¹ * (Real.exp (-a * d) * Real.cos (b * d)) := by
  have hc : 0 < a ^ 2 + b ^ 2 := by positivity
  rw [wave_roots ha hb, ← impulse_response (fun z => wave_ma ha lo hi z), carmaAcf_closed (wave_adm ha hb) 1 (by simp)]
  set c : ℂ := ((√(a ^ 2 + b ^ 2) : ℝ) : ℂ) with hcd
  have hc0 : c ≠ 0 := Complex.ofReal_ne_zero.mpr (Real.sqrt_pos.mpr hc).ne'
  have hc2 : c ^ 2 = (a : ℂ) ^ 2 + (b : ℂ) ^ 2 := by
    rw [hcd, ← Complex.ofReal_pow, Real.sq_sqrt hc.le]; push_cast; ring
  have hm : ∀ z, maEval [1, (√(a ^ 2 + b ^ 2))⁻¹] z = 1 + c⁻¹ * z := by
    intro z; simp [maEval, Finset.sum_range_succ, hcd]
  have ha0 : (a : ℂ) ≠ 0 := Complex.ofReal_ne_zero.mpr ha.ne'
  have hb0 : (b : ℂ) ≠ 0 := Complex.ofReal_ne_zero.mpr hb.ne'
  have e0 : (⟨-a, -b⟩ : ℂ) = -(a + b * Complex.I) := by apply Complex.ext <;> simp
  have e1 : (⟨-a, b⟩ : ℂ) = -(a - b * Complex.I) := by apply Complex.ext <;> simp
  have n0 : (a + b * Complex.I : ℂ) ≠ 0 := fun h => by
    have := congrArg Complex.re h; simp at this; exact ha.ne' this
  have n1 : (a - b * Complex.I : ℂ) ≠ 0 := fun h => by
    have := congrArg Complex.re h; simp at this; exact ha.ne' this
  have hI := Complex.I_sq
  have hcc : c ^ 2 = (a + b * Complex.I) * (a - b * Complex.I) := by rw [hc2]; linear_combination (b : ℂ) ^ 2 * hI
  have d0 : arDeriv (![⟨-a, -b⟩, ⟨-a, b⟩] : Fin 2 → ℂ) 0 = -(2 * b * Complex.I) := by
    rw [arDeriv, show (univ.erase (0 : Fin 2)) = {1} from by decide, Finset.prod_singleton]
    simp only [cons_val_zero, cons_val_one, e0, e1]; ring
  have d1 : arDeriv (![⟨-a, -b⟩, ⟨-a, b⟩] : Fin 2 → ℂ) 1 = 2 * b * Complex.I := by
    rw [arDeriv, show (univ.erase (1 : Fin 2)) = {0} from by decide, Finset.prod_singleton]
    simp only [cons_val_zero, cons_val_one, e0, e1]; ring
  have key : ∑ i, maEval [1, (√(a ^ 2 + b ^ 2))⁻¹] ((![⟨-a, -b⟩, ⟨-a, b⟩] : Fin 2 → ℂ) i) *
      maEval [1, (√(a ^ 2 + b ^ 2))⁻¹] (-(![⟨-a, -b⟩, ⟨-a, b⟩] : Fin 2 → ℂ) i) * Complex.exp ((![⟨-a, -b⟩, ⟨-a, b⟩] : Fin 2 → ℂ) i * d) /
      (arDeriv (![⟨-a, -b⟩, ⟨-a, b⟩] : Fin 2 → ℂ) i * ∏ k, (-(![⟨-a, -b⟩, ⟨-a, b⟩] : Fin 2 → ℂ) i - (![⟨-a, -b⟩, ⟨-a, b⟩] : Fin 2 → ℂ) k)) =
      (4 * a * c ^ 2)⁻¹ * (Complex.exp (-(a + b * Complex.I) * d) + Complex.exp (-(a - b * Complex.I) * d)) := by
    rw [Fin.sum_univ_two, d0, d1, Fin.prod_univ_two, Fin.prod_univ_two]
    simp only [hm, cons_val_zero, cons_val_one, e0, e1]
    generalize Complex.exp (-(a + b * Complex.I) * d) = x
    generalize Complex.exp (-(a - b * Complex.I) * d) = y
    have q0 : (1 + c⁻¹ * -(a + b * Complex.I)) * (1 + c⁻¹ * - -(a + b * Complex.I)) = -(2 * b * Complex.I) * (a + b * Complex.I) / c ^ 2 := by
      field_simp
      linear_combination hcc
    have q1 : (1 + c⁻¹ * -(a - b * Complex.I)) * (1 + c⁻¹ * - -(a - b * Complex.I)) = (2 * b * Complex.I) * (a - b * Complex.I) / c ^ 2 := by
      field_simp
      linear_combination hcc
    rw [q0, q1]
    have r0 : (- -(a + b * Complex.I : ℂ) - -(a + b * Complex.I)) * (- -(a + b * Complex.I) - -(a - b * Complex.I)) =
      4 * a * (a + b * Complex.I) := by ring
    have r1 : (- -(a - b * Complex.I : ℂ) - -(a + b * Complex.I)) * (- -(a - b * Complex.I) - -(a - b * Complex.I)) =
      4 * a * (a - b * Complex.I) := by ring
    rw [r0, r1]
    have hI0 := Complex.I_ne_zero
    have s0 : -(2 * b * Complex.I) * (a + b * Complex.I) / c ^ 2 * x / (-(2 * b * Complex.I) * (4 * a * (a + b * Complex.I))) = (4 * a * c ^ 2)⁻¹ * x := by
      field_simp
    have s1 : 2 * b * Complex.I * (a - b * Complex.I) / c ^ 2 * y / (2 * b * Complex.I * (4 * a * (a - b * Complex.I))) = (4 * a * c ^ 2)⁻¹ * y := by
      field_simp
    rw [s0, s1]; ring
  rw [key, one_mul]
  have hre : ((4 * (a : ℂ) * c ^ 2)⁻¹) = (((4 * a * (a ^ 2 + b ^ 2))⁻¹ : ℝ) : ℂ) := by rw [hc2]; push_cast; ring
  rw [hre, Complex.re_ofReal_mul, Complex.add_re]
  have f0 : (Complex.exp (-(a + b * Complex.I) * d)).re = Real.exp (-a * d) * Real.cos (b * d) := by
    rw [Complex.exp_re]; simp [Complex.mul_im, Complex.mul_re]
  have f1 : (Complex.exp (-(a - b * Complex.I) * d)).re = Real.exp (-a * d) * Real.cos (b * d) := by
    rw [Complex.exp_re]; simp [Complex.mul_im, Complex.mul_re]
  rw [f0, f1, mul_inv, mul_inv (2 * a), mul_inv, mul_inv]
  ring

lemma wave_corr (ha : 0 < a) (hb : 0 < b) (lo hi d : ℝ) :
    responseAcf (fun k : Fin 2 => arRootSpec 2 (at0 (wave σ s μ a b)) k) (maPolySpec (.carma 1) 2 lo hi (wave σ s μ a b)) d /
      responseAcf (fun k : Fin 2 => arRootSpec 2 (at0 (wave σ s μ a b)) k) (maPolySpec (.carma 1) 2 lo hi (wave σ s μ a b)) 0 =
      Real.exp (-a * d) * Real.cos (b * d) := by
  have hc : 0 < 2 * a * (a ^ 2 + b ^ 2) := by positivity
  rw [wave_acf ha hb, wave_acf ha hb]
  simp only [mul_zero, Real.exp_zero, Real.cos_zero, mul_one]
  field_simp

/-- prior bounds of such parameters -/
lemma wave_bounds {sd fmax fmin : ℝ} (ha : 0 < a) (hb : 0 < b) (h0 : 0 ≤ σ) (h1 : σ ≤ sd) (h2 : 0.5 ≤ s) (h3 : s ≤ 2)
    (h4 : fmin < a / (2 * Real.pi)) (h5 : a / (2 * Real.pi) < fmax) (h6 : b / (2 * Real.pi) < fmax) (h7 : 1e-4 * a < b) :
    CarpBounds sd fmax fmin (List.ofFn fun k : Fin 2 => arRootSpec 2 (at0 (wave σ s μ a b)) k) (wave σ s μ a b) := by
  rw [wave_roots ha hb]
  have hl : List.ofFn (![⟨-a, -b⟩, ⟨-a, b⟩] : Fin 2 → ℂ) = [⟨-a, -b⟩, ⟨-a, b⟩] := by simp
  rw [hl]
  refine ⟨⟨h0, h1, h2, h3⟩, ?_, ?_, ?_, ?_⟩
  · intro r hr
    simp at hr
    rcases hr with rfl | rfl <;> simpa [abs_of_pos hb] using h6
  · intro r hr
    simp at hr
    rcases hr with rfl | rfl <;> exact ⟨by simpa using h4, by simpa using h5⟩
  · have e1 : ((⟨-a, -b⟩ : ℂ) - ⟨-a, b⟩) = ((-(2 * b) : ℝ) : ℂ) * Complex.I := by apply Complex.ext <;> simp; ring
    have e2 : ((⟨-a, -b⟩ : ℂ) + ⟨-a, b⟩) = ((-(2 * a) : ℝ) : ℂ) := by apply Complex.ext <;> simp; ring
    simp only [List.pairwise_cons, List.mem_singleton, forall_eq, List.not_mem_nil, false_imp_iff, implies_true, List.Pairwise.nil, and_true]
    right
    rw [e1, e2, norm_mul, Complex.norm_I, mul_one, Complex.norm_real, Complex.norm_real, norm_neg, norm_neg, Real.norm_eq_abs,
      Real.norm_eq_abs, abs_of_pos (by linarith), abs_of_pos (by linarith), lt_div_iff₀ (by linarith)]
    linarith
  · intro i x y hx hy
    match i with
    | 0 => simp at hx hy; subst hx hy; simp [abs_of_pos hb]; norm_num
    | i + 1 => simp at hy

/-! ### recovery of the parameters of CAR(1) -/

variable {n : ℕ}

lemma sampleVar_smul (k : ℝ) (y : Fin n → ℝ) : sampleVar (k • y) = k ^ 2 * sampleVar y := by
  have e : ∀ i, ((k • y) i - (∑ j, (k • y) j) / n) ^ 2 = k ^ 2 * (y i - (∑ j, y j) / n) ^ 2 := by
    intro i
    simp only [Pi.smul_apply, smul_eq_mul, ← Finset.mul_sum]
    ring
  rw [sampleVar, sampleVar, Finset.sum_congr rfl fun i _ => e i, ← Finset.mul_sum, mul_div_assoc]

lemma sampleVar_pos (hn : 2 ≤ n) {y : Fin n → ℝ} {i j : Fin n} (h : y i ≠ y j) : 0 < sampleVar y := by
  have hn' : (2 : ℝ) ≤ n := by exact_mod_cast hn
  refine div_pos ?_ (by linarith)
  by_contra hc
  have h0 := le_antisymm (not_lt.mp hc) (Finset.sum_nonneg fun i _ => sq_nonneg _)
  have h1 := (Finset.sum_eq_zero_iff_of_nonneg fun i _ => sq_nonneg _).mp h0
  have h2 : ∀ k, y k = (∑ j, y j) / n := fun k => by
    have := h1 k (mem_univ _)
    exact sub_eq_zero.mp (pow_eq_zero_iff (two_ne_zero)|>.mp this)
  exact h ((h2 i).trans (h2 j).symm)

lemma quad_zero {α β γ k : ℝ} (h : ∀ x, k ≤ x → α * x ^ 2 + β * x + γ = 0) : α = 0 ∧ β = 0 := by
  have h0 := h k le_rfl
  have h1 := h (k + 1) (by linarith)
  have h2 := h (k + 2) (by linarith)
  have ha : α = 0 := by linarith
  subst ha
  exact ⟨rfl, by linarith⟩

/-- two quadratic polynomials in `y` that differ by a constant for all `y` of large sample variance have the same coefficients -/
lemma quad_ident (hn : 3 ≤ n) {A B : Matrix (Fin n) (Fin n) ℝ} (hA : Aᵀ = A) (hB : Bᵀ = B) {μ ν c v : ℝ}
    (h : ∀ y : Fin n → ℝ, v ≤ sampleVar y →
      (fun i => y i - μ) ⬝ᵥ (A *ᵥ fun i => y i - μ) = (fun i => y i - ν) ⬝ᵥ (B *ᵥ fun i => y i - ν) + c) :
    A = B ∧ μ • (A *ᵥ fun _ => 1) = ν • (B *ᵥ fun _ => 1) := by
  have hexp : ∀ (M : Matrix (Fin n) (Fin n) ℝ), Mᵀ = M → ∀ (y : Fin n → ℝ) (m : ℝ) (x : ℝ),
      (fun i => (x • y) i - m) ⬝ᵥ (M *ᵥ fun i => (x • y) i - m) =
        (y ⬝ᵥ (M *ᵥ y)) * x ^ 2 + (-(2 * m) * (y ⬝ᵥ (M *ᵥ fun _ => 1))) * x + m ^ 2 * ((fun _ => 1) ⬝ᵥ (M *ᵥ fun _ => 1)) := by
    intro M hM y m x
    have e : (fun i => (x • y) i - m) = x • y - m • (fun _ => (1 : ℝ)) := by funext i; simp
    have hs : (fun _ => (1 : ℝ)) ⬝ᵥ (M *ᵥ y) = y ⬝ᵥ (M *ᵥ fun _ => 1) := by
      rw [dotProduct_mulVec, ← mulVec_transpose, hM, dotProduct_comm]
    rw [e, mulVec_sub, mulVec_smul, mulVec_smul, sub_dotProduct, dotProduct_sub, dotProduct_sub]
    simp only [smul_dotProduct, dotProduct_smul, smul_eq_mul, hs]
    ring
  have hq : ∀ y : Fin n → ℝ, (∃ i j, y i ≠ y j) → y ⬝ᵥ (A *ᵥ y) = y ⬝ᵥ (B *ᵥ y) ∧
      μ * (y ⬝ᵥ (A *ᵥ fun _ => 1)) = ν * (y ⬝ᵥ (B *ᵥ fun _ => 1)) := by
    rintro y ⟨i, j, hij⟩
    have hv := sampleVar_pos (by omega) hij
    have := quad_zero (α := y ⬝ᵥ (A *ᵥ y) - y ⬝ᵥ (B *ᵥ y))
      (β := -(2 * μ) * (y ⬝ᵥ (A *ᵥ fun _ => 1)) - -(2 * ν) * (y ⬝ᵥ (B *ᵥ fun _ => 1)))
      (γ := μ ^ 2 * ((fun _ => 1) ⬝ᵥ (A *ᵥ fun _ => 1)) - ν ^ 2 * ((fun _ => 1) ⬝ᵥ (B *ᵥ fun _ => 1)) - c)
      (k := max 1 (v / sampleVar y)) fun x hx => by
        have h1 : 1 ≤ x := le_trans (le_max_left _ _) hx
        have h2 : v / sampleVar y ≤ x := le_trans (le_max_right _ _) hx
        have h3 := h (x • y) (by
          rw [sampleVar_smul]
          rw [div_le_iff₀ hv] at h2
          have : x * sampleVar y ≤ x ^ 2 * sampleVar y := mul_le_mul_of_nonneg_right (by nlinarith) hv.le
          linarith)
        rw [hexp A hA, hexp B hB] at h3
        linarith
    exact ⟨by linarith [this.1], by linarith [this.2]⟩
  have hsing : ∀ (M : Matrix (Fin n) (Fin n) ℝ) (i : Fin n) (w : Fin n → ℝ), Pi.single i (1 : ℝ) ⬝ᵥ (M *ᵥ w) = (M *ᵥ w) i := by
    intro M i w; simp
  have hne : ∀ i : Fin n, ∃ j, j ≠ i := fun i => by
    obtain ⟨k, hk, -⟩ := Fin.exists_ne_and_ne_of_two_lt i i (by omega)
    exact ⟨k, hk⟩
  have hd : ∀ i, A i i = B i i := by
    intro i
    obtain ⟨j, hj⟩ := hne i
    have := (hq (Pi.single i 1) ⟨i, j, by simp [hj]⟩).1
    simpa [hsing] using this
  have hAs : ∀ i j, A j i = A i j := fun i j => by rw [← transpose_apply A, hA]
  have hBs : ∀ i j, B j i = B i j := fun i j => by rw [← transpose_apply B, hB]
  constructor
  · ext i j
    by_cases hij : i = j
    · rw [hij]; exact hd j
    · obtain ⟨k, hk1, hk2⟩ := Fin.exists_ne_and_ne_of_two_lt i j (by omega)
      have := (hq (Pi.single i 1 + Pi.single j 1) ⟨i, k, by simp [hk1, hk2, hij]⟩).1
      simp only [add_dotProduct, mulVec_add, dotProduct_add, mulVec_single_one, single_dotProduct, one_mul, col_apply] at this
      rw [hd i, hd j, hAs i j, hBs i j] at this
      linarith
  · funext i
    obtain ⟨j, hj⟩ := hne i
    have := (hq (Pi.single i 1) ⟨i, j, by simp [hj]⟩).2
    simpa [hsing] using this

/-- the parameters of CAR(1) are read from the covariance matrix of three measurements -/
lemma car1_ident (hn : 3 ≤ n) {t : Fin n → ℝ} (ht : StrictMono t) {e : Fin n → ℝ} (he : ∃ i, e i ≠ 0) {σ ω s σ' ω' s' : ℝ} (h0 : 0 < σ)
    (h0' : 0 < σ') (hs : 0 ≤ s) (hs' : 0 ≤ s')
    (h : obsCov (fun d => σ ^ 2 * Real.exp (-ω * d)) t (fun i => √s * e i) =
      obsCov (fun d => σ' ^ 2 * Real.exp (-ω' * d)) t (fun i => √s' * e i)) : σ = σ' ∧ ω = ω' ∧ s = s' := by
  have hij : ∀ i j : Fin n, i < j → σ ^ 2 * Real.exp (-ω * (t j - t i)) = σ' ^ 2 * Real.exp (-ω' * (t j - t i)) := by
    intro i j hij
    have := congrFun (congrFun h j) i
    simpa [obsCov, hij.ne', abs_of_pos (sub_pos.mpr (ht hij))] using this
  obtain ⟨a, ha⟩ : ∃ a : Fin n, (a : ℕ) = 0 := ⟨⟨0, by omega⟩, rfl⟩
  obtain ⟨b, hb⟩ : ∃ b : Fin n, (b : ℕ) = 1 := ⟨⟨1, by omega⟩, rfl⟩
  obtain ⟨c, hc⟩ : ∃ c : Fin n, (c : ℕ) = 2 := ⟨⟨2, by omega⟩, rfl⟩
  have hab : a < b := by rw [Fin.lt_def]; omega
  have hbc : b < c := by rw [Fin.lt_def]; omega
  have k1 := hij a b hab
  have k2 := hij b c hbc
  have k3 := hij a c (hab.trans hbc)
  have hadd : ∀ w : ℝ, Real.exp (-w * (t c - t a)) = Real.exp (-w * (t b - t a)) * Real.exp (-w * (t c - t b)) := by
    intro w; rw [← Real.exp_add]; congr 1; ring
  have hsq : σ ^ 2 = σ' ^ 2 := by
    have hp : 0 < σ' ^ 2 * Real.exp (-ω' * (t c - t a)) := by positivity
    have : σ ^ 2 * (σ ^ 2 * Real.exp (-ω * (t c - t a))) = σ' ^ 2 * (σ' ^ 2 * Real.exp (-ω' * (t c - t a))) := by
      calc _ = (σ ^ 2 * Real.exp (-ω * (t b - t a))) * (σ ^ 2 * Real.exp (-ω * (t c - t b))) := by rw [hadd]; ring
        _ = (σ' ^ 2 * Real.exp (-ω' * (t b - t a))) * (σ' ^ 2 * Real.exp (-ω' * (t c - t b))) := by rw [k1, k2]
        _ = _ := by rw [hadd]; ring
    rw [k3] at this
    exact mul_right_cancel₀ hp.ne' this
  have hσ : σ = σ' := by
    rcases sq_eq_sq_iff_eq_or_eq_neg.mp hsq with h | h
    · exact h
    · linarith
  subst hσ
  have hω : ω = ω' := by
    have h1 := mul_left_cancel₀ (by positivity : σ ^ 2 ≠ 0) k1
    have h2 := Real.exp_injective h1
    have h3 := mul_right_cancel₀ (sub_pos.mpr (ht hab)).ne' h2
    linarith
  subst hω
  refine ⟨rfl, rfl, ?_⟩
  obtain ⟨i, hi⟩ := he
  have := congrFun (congrFun h i) i
  simp only [obsCov, of_apply, if_true, mul_pow, Real.sq_sqrt hs, Real.sq_sqrt hs', add_right_inj] at this
  exact mul_right_cancel₀ (pow_ne_zero 2 hi) this

end Verif.Theory
