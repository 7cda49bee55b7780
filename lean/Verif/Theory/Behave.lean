import Verif.Theory.Proper
import Verif.Theory.ErrorFree
import Verif.Theory.Spectrum
import Mathlib.Topology.Instances.Matrix
import Mathlib.Analysis.SpecialFunctions.Exp

/-! Helper theory for C80: how conditional means and variances depend on the time, on the data and on the errors. -/

namespace Verif.Theory

open Verif.Model Verif.Spec Matrix Filter Topology

variable {n m p : ℕ}

/-! ### best linear prediction -/

lemma pd_mul_inv {K : Matrix (Fin n) (Fin n) ℝ} (hK : K.PosDef) (v : Fin n → ℝ) : K *ᵥ (K⁻¹ *ᵥ v) = v := by
  rw [mulVec_mulVec, mul_nonsing_inv _ ((Matrix.isUnit_iff_isUnit_det _).mp hK.isUnit), one_mulVec]

lemma pd_symm {K : Matrix (Fin n) (Fin n) ℝ} (hK : K.PosDef) (a b : Fin n → ℝ) : a ⬝ᵥ (K *ᵥ b) = b ⬝ᵥ (K *ᵥ a) := by
  have h := hK.isHermitian
  have hT : Kᵀ = K := by
    have := h.eq
    rwa [conjTranspose_eq_transpose_of_trivial] at this
  rw [dotProduct_mulVec, ← mulVec_transpose, hT, dotProduct_comm]

/-- the conditional variance is the smallest variance of a linear predictor -/
lemma condVar_le {K : Matrix (Fin n) (Fin n) ℝ} (hK : K.PosDef) (k : Fin n → ℝ) (k0 : ℝ) (a : Fin n → ℝ) :
    condVar K k k0 ≤ k0 - 2 * (a ⬝ᵥ k) + a ⬝ᵥ (K *ᵥ a) := by
  set b := K⁻¹ *ᵥ k with hb
  have h1 : K *ᵥ b = k := pd_mul_inv hK k
  have h2 : 0 ≤ (a - b) ⬝ᵥ (K *ᵥ (a - b)) := by
    have := (hK.posSemidef.dotProduct_mulVec_nonneg (a - b))
    simpa using this
  rw [mulVec_sub, h1, dotProduct_sub, sub_dotProduct, sub_dotProduct, pd_symm hK b a, h1] at h2
  rw [condVar, ← hb, dotProduct_comm k b]
  linarith

lemma condVar_attained {K : Matrix (Fin n) (Fin n) ℝ} (hK : K.PosDef) (k : Fin n → ℝ) (k0 : ℝ) :
    ∃ a, condVar K k k0 = k0 - 2 * (a ⬝ᵥ k) + a ⬝ᵥ (K *ᵥ a) := by
  refine ⟨K⁻¹ *ᵥ k, ?_⟩
  rw [pd_mul_inv hK, condVar, dotProduct_comm k]
  ring

/-- what is needed of an autocovariance -/
structure GoodAcf (r : ℝ → ℝ) : Prop where
  cont : Continuous r
  lim : Tendsto r atTop (𝓝 0)
  pos : ∀ {n : ℕ} {t : Fin n → ℝ}, StrictMono t → ∀ e : Fin n → ℝ, (obsCov r t e).PosDef

namespace GoodAcf

variable {r : ℝ → ℝ} (h : GoodAcf r)
include h

lemma r0 : 0 < r 0 := by
  have := (h.pos (n := 1) (t := fun _ => 0) (Subsingleton.strictMono _) fun _ => 0).diag_pos (i := 0)
  simpa [obsCov] using this

lemma var_le {t : Fin n → ℝ} (ht : StrictMono t) (e : Fin n → ℝ) (x : ℝ) : predVar r t e x ≤ r 0 := by
  have := condVar_le (h.pos ht e) (fun j => r |x - t j|) (r 0) 0
  simpa [predVar] using this

lemma var_one {t : Fin n → ℝ} (ht : StrictMono t) (e : Fin n → ℝ) (x : ℝ) (j : Fin n) :
    predVar r t e x ≤ r 0 - r |x - t j| ^ 2 / (r 0 + e j ^ 2) := by
  have h0 := h.r0
  set c := r |x - t j| / (r 0 + e j ^ 2) with hc
  have h1 := condVar_le (h.pos ht e) (fun j => r |x - t j|) (r 0) (Pi.single j c)
  have e1 : (Pi.single j c : Fin n → ℝ) ⬝ᵥ (obsCov r t e *ᵥ Pi.single j c) = c * ((r 0 + e j ^ 2) * c) := by
    rw [single_dotProduct, mulVec_single]
    simp [obsCov]
    left; ring
  rw [single_dotProduct, e1] at h1
  refine h1.trans (le_of_eq ?_)
  rw [hc]
  have : r 0 + e j ^ 2 ≠ 0 := by positivity
  field_simp
  ring

lemma var_sub {t : Fin n → ℝ} (ht : StrictMono t) (e : Fin n → ℝ) (x : ℝ) {f : Fin m → Fin n} (hf : StrictMono f) :
    predVar r t e x ≤ predVar r (t ∘ f) (e ∘ f) x := by
  obtain ⟨a, ha⟩ := condVar_attained (h.pos (ht.comp hf) (e ∘ f)) (fun j => r |x - (t ∘ f) j|) (r 0)
  have hinj := hf.injective
  set b : Fin n → ℝ := Function.extend f a 0 with hb
  have hbf : ∀ j, b (f j) = a j := fun j => hinj.extend_apply a 0 j
  have hsum : ∀ g : Fin n → ℝ, ∑ i, b i * g i = ∑ j, a j * g (f j) := by
    intro g
    have h1 : ∑ i ∈ Finset.univ.image f, b i * g i = ∑ i, b i * g i := by
      refine Finset.sum_subset (Finset.subset_univ _) fun i _ hi => ?_
      have : ¬ ∃ j, f j = i := by simpa using hi
      rw [hb, Function.extend_apply' _ _ _ this, Pi.zero_apply, zero_mul]
    rw [← h1, Finset.sum_image fun _ _ _ _ hh => hinj hh]
    exact Finset.sum_congr rfl fun j _ => by rw [hbf]
  have h1 := condVar_le (h.pos ht e) (fun j => r |x - t j|) (r 0) b
  rw [predVar, predVar, ha]
  refine h1.trans (le_of_eq ?_)
  have e1 : b ⬝ᵥ (fun j => r |x - t j|) = a ⬝ᵥ fun j => r |x - (t ∘ f) j| := hsum _
  have e2 : b ⬝ᵥ (obsCov r t e *ᵥ b) = a ⬝ᵥ (obsCov r (t ∘ f) (e ∘ f) *ᵥ a) := by
    rw [dotProduct, hsum]
    refine Finset.sum_congr rfl fun j _ => congrArg (a j * ·) ?_
    simp only [mulVec, dotProduct]
    rw [Finset.sum_congr rfl fun i _ => mul_comm (obsCov r t e (f j) i) (b i), hsum]
    refine Finset.sum_congr rfl fun i _ => ?_
    rw [mul_comm]
    simp [obsCov, hinj.eq_iff]
  rw [e1, e2]

lemma var_err {t : Fin n → ℝ} (ht : StrictMono t) {e e' : Fin n → ℝ} (he : ∀ i, |e i| ≤ |e' i|) (x : ℝ) :
    predVar r t e x ≤ predVar r t e' x := by
  obtain ⟨a, ha⟩ := condVar_attained (h.pos ht e') (fun j => r |x - t j|) (r 0)
  have h1 := condVar_le (h.pos ht e) (fun j => r |x - t j|) (r 0) a
  rw [predVar, predVar, ha]
  refine h1.trans ?_
  have key : ∀ e : Fin n → ℝ, a ⬝ᵥ (obsCov r t e *ᵥ a) = a ⬝ᵥ (obsCov r t 0 *ᵥ a) + ∑ i, e i ^ 2 * a i ^ 2 := by
    intro e
    have : obsCov r t e = obsCov r t 0 + diagonal fun i => e i ^ 2 := by
      ext i j
      by_cases hij : i = j
      · subst hij; simp [obsCov]
      · simp [obsCov, hij]
    rw [this, add_mulVec, dotProduct_add]
    congr 1
    simp only [dotProduct, mulVec_diagonal]
    exact Finset.sum_congr rfl fun i _ => by ring
  rw [key e, key e']
  have : ∑ i, e i ^ 2 * a i ^ 2 ≤ ∑ i, e' i ^ 2 * a i ^ 2 :=
    Finset.sum_le_sum fun i _ => mul_le_mul_of_nonneg_right (sq_le_sq.mpr (he i)) (sq_nonneg _)
  linarith

lemma pred_cont (t e y : Fin n → ℝ) : Continuous fun x => (predMean r t e y x, predVar r t e x) := by
  have := h.cont
  simp only [predMean, predVar, condMean, condVar, dotProduct, mulVec]
  fun_prop

lemma pred_lim {l : Filter ℝ} (hl : ∀ c : ℝ, Tendsto (fun x => |x - c|) l atTop) (t e y : Fin n → ℝ) :
    Tendsto (fun x => (predMean r t e y x, predVar r t e x)) l (𝓝 (0, r 0)) := by
  have hk : ∀ j, Tendsto (fun x => r |x - t j|) l (𝓝 0) := fun j => h.lim.comp (hl (t j))
  have hd : ∀ v : Fin n → ℝ, Tendsto (fun x => ∑ j, r |x - t j| * v j) l (𝓝 0) := by
    intro v
    have := tendsto_finsetSum Finset.univ fun j _ => (hk j).mul_const (v j)
    simpa using this
  have hq : Tendsto (fun x => ∑ j, r |x - t j| * ∑ i, (obsCov r t e)⁻¹ j i * r |x - t i|) l (𝓝 0) := by
    have := tendsto_finsetSum Finset.univ fun j _ => (hk j).mul
      (tendsto_finsetSum Finset.univ fun i _ => (hk i).const_mul ((obsCov r t e)⁻¹ j i))
    simpa using this
  refine Tendsto.prodMk_nhds (hd _) ?_
  have := hq.const_sub (r 0)
  rw [sub_zero] at this
  exact this

end GoodAcf

lemma abs_sub_top (c : ℝ) : Tendsto (fun x : ℝ => |x - c|) atTop atTop :=
  tendsto_abs_atTop_atTop.comp (tendsto_atTop_add_const_right _ (-c) tendsto_id)

lemma abs_sub_bot (c : ℝ) : Tendsto (fun x : ℝ => |x - c|) atBot atTop :=
  tendsto_abs_atBot_atTop.comp (tendsto_atBot_add_const_right _ (-c) tendsto_id)

lemma car1_good {σ2 ω : ℝ} (hs : 0 < σ2) (ho : 0 < ω) : GoodAcf (car1Acf σ2 ω) where
  cont := by unfold car1Acf; fun_prop
  lim := by
    have h : Tendsto (fun d : ℝ => -ω * d) atTop atBot := tendsto_id.const_mul_atTop_of_neg (neg_neg_of_pos ho)
    have := (Real.tendsto_exp_atBot.comp h).const_mul (σ2 / (2 * ω))
    rw [mul_zero] at this
    exact this
  pos := by
    intro n t ht e
    have h := (car1_realizes hs ho (ext0 t) (ext0 e) n
      (fun i hi => ⟨(strictMono_ext0 ht i hi).le, Or.inl (strictMono_ext0 ht i hi)⟩)).posDef
    rwa [fst_ext0, fst_ext0] at h

lemma expSum_lim {ω : Fin p → ℂ} (h : ∀ k, (ω k).re < 0) (c : Fin p → ℂ) : Tendsto (expSum ω c) atTop (𝓝 0) := by
  have h1 : ∀ k, Tendsto (fun s : ℝ => c k * Complex.exp (ω k * s)) atTop (𝓝 0) := by
    intro k
    have h2 : Tendsto (fun s : ℝ => Complex.exp (ω k * s)) atTop (𝓝 0) := by
      rw [tendsto_zero_iff_norm_tendsto_zero]
      have h3 : Tendsto (fun d : ℝ => (ω k).re * d) atTop atBot := tendsto_id.const_mul_atTop_of_neg (h k)
      have h4 := Real.tendsto_exp_atBot.comp h3
      simpa [Complex.norm_exp, Function.comp_def] using h4
    simpa using h2.const_mul (c k)
  have := tendsto_finsetSum Finset.univ fun k _ => h1 k
  rw [Finset.sum_const_zero] at this
  exact this

lemma carma_good {ω : Fin p → ℂ} (ha : Admissible ω) {σ2 : ℝ} (hs : 0 < σ2) {ma : List ℝ} (hl : ma.length ≤ p)
    (hne : ∃ x ∈ ma, x ≠ 0) : GoodAcf (carmaAcf σ2 ω ma) := by
  set c : Fin p → ℂ := fun i => ∑ j, (σ2 : ℂ) * (impC ω ma i * star (impC ω ma j) * (-1 / (ω i + star (ω j)))) with hc
  have e1 : carmaAcf σ2 ω ma = fun d => (expSum ω c d).re := by
    funext d
    rw [← carmaAcf_expSum ha σ2 ma d, Complex.ofReal_re]
  refine ⟨?_, ?_, ?_⟩
  · rw [e1]
    exact Complex.continuous_re.comp (expSum_continuous ω c)
  · rw [e1]
    have := (Complex.continuous_re.tendsto 0).comp (expSum_lim ha.stable c)
    simpa [Function.comp_def] using this
  · intro n t ht e
    have h := (carma_realizes ha hs (obsRow_ne_zero ha.inj (padMA_length hl) (padMA_ne hne)) (ext0 t) (ext0 e) n
      (fun i hi => ⟨(strictMono_ext0 ht i hi).le, Or.inl (strictMono_ext0 ht i hi)⟩)).posDef
    rwa [fst_ext0, fst_ext0, carmaAcf_pad] at h

end Verif.Theory
