import Verif.Theory.Stationary
import Verif.Spec.PostTarget
import Mathlib.MeasureTheory.Constructions.BorelSpace.Complex
import Mathlib.MeasureTheory.Integral.Prod
import Mathlib.MeasureTheory.Function.SpecialFunctions.Basic
import Mathlib.LinearAlgebra.Matrix.Adjugate

/-!
The posterior densities are measurable functions of the parameter vector.
-/

namespace Verif.Theory

open MeasureTheory Verif.Model Verif.Spec

variable {X : Type} [MeasurableSpace X] {n : ℕ}

theorem det_measurable {K : X → Matrix (Fin n) (Fin n) ℝ} (hK : ∀ i j, Measurable fun x => K x i j) : Measurable fun x => (K x).det := by
  simp only [Matrix.det_apply]
  refine Finset.measurable_sum _ fun σ _ => ?_
  exact (Finset.measurable_prod _ fun i _ => hK _ _).const_smul _

theorem inv_measurable {K : X → Matrix (Fin n) (Fin n) ℝ} (hK : ∀ i j, Measurable fun x => K x i j) (i j : Fin n) :
    Measurable fun x => (K x)⁻¹ i j := by
  have e : ∀ x, (K x)⁻¹ i j = (K x).det⁻¹ * ((K x).updateRow j (Pi.single i 1)).det := by
    intro x
    rw [Matrix.inv_def, Ring.inverse_eq_inv', Matrix.smul_apply, Matrix.adjugate_apply, smul_eq_mul]
  simp only [e]
  refine (det_measurable hK).inv.mul (det_measurable fun a b => ?_)
  by_cases h : a = j
  · subst h
    simp only [Matrix.updateRow_self]
    exact measurable_const
  · simp only [Matrix.updateRow_ne h]
    exact hK a b

theorem logGauss_measurable {K : X → Matrix (Fin n) (Fin n) ℝ} (hK : ∀ i j, Measurable fun x => K x i j) {v : X → Fin n → ℝ}
    (hv : ∀ i, Measurable fun x => v x i) : Measurable fun x => logGauss (K x) (v x) := by
  unfold logGauss
  refine ((Real.measurable_log.comp (det_measurable hK)).const_mul _).sub (Measurable.const_mul ?_ _)
  simp only [dotProduct, Matrix.mulVec]
  exact Finset.measurable_sum _ fun i _ => (hv i).mul (Finset.measurable_sum _ fun j _ => (inv_measurable hK i j).mul (hv j))

theorem obsCov_measurable {r : X → ℝ → ℝ} (hr : ∀ d, Measurable fun x => r x d) (t : Fin n → ℝ) {e : X → Fin n → ℝ}
    (he : ∀ i, Measurable fun x => e x i) (i j : Fin n) : Measurable fun x => obsCov (r x) t (e x) i j := by
  simp only [obsCov, Matrix.of_apply]
  refine (hr _).add ?_
  split
  · exact (he i).pow_const 2
  · exact measurable_const

theorem at0_measurable {d : ℕ} (k : ℕ) : Measurable fun x : Fin d → ℝ => at0 (List.ofFn x) k := by
  by_cases h : k < d
  · have e : (fun x : Fin d → ℝ => at0 (List.ofFn x) k) = fun x => x ⟨k, h⟩ := by
      funext x
      simp [at0, List.getD_eq_getElem?_getD, h]
    rw [e]
    exact measurable_pi_apply _
  · have e : (fun x : Fin d → ℝ => at0 (List.ofFn x) k) = fun _ => 0 := by
      funext x
      simp [at0, List.getD_eq_getElem?_getD, h]
    rw [e]
    exact measurable_const

theorem logPrior_measurable {d : ℕ} : Measurable fun x : Fin d → ℝ => logPriorSpec (List.ofFn x) :=
  ((measurable_const).div (at0_measurable 1)).sub ((Real.measurable_log.comp (at0_measurable 1)).const_mul _)

/-- A target given by a measurable set and a measurable logarithm. -/
theorem measTarget_ite {d : ℕ} {P : (Fin d → ℝ) → Prop} [DecidablePred P] {g : (Fin d → ℝ) → ℝ} (hP : MeasurableSet {x | P x})
    (hg : Measurable g) : MeasTarget (fun x => if P x then some (g x) else none) where
  some := by
    have e : {x | (if P x then some (g x) else none).isSome = true} = {x | P x} := by
      ext x
      by_cases h : P x <;> simp [h]
    rw [e]
    exact hP
  val := by
    have e : (fun x => (if P x then some (g x) else none).getD 0) = fun x => if P x then g x else 0 := by
      funext x
      by_cases h : P x <;> simp [h]
    rw [e]
    exact Measurable.ite hP hg measurable_const

theorem scale_meas {d : ℕ} (sd : ℝ) : MeasurableSet {x : Fin d → ℝ | ScaleBounds sd (List.ofFn x)} := by
  have e : {x : Fin d → ℝ | ScaleBounds sd (List.ofFn x)} = {x | 0 ≤ at0 (List.ofFn x) 0} ∩ {x | at0 (List.ofFn x) 0 ≤ sd} ∩
      {x | 0.5 ≤ at0 (List.ofFn x) 1} ∩ {x | at0 (List.ofFn x) 1 ≤ 2} := by
    ext x
    constructor
    · intro h
      exact ⟨⟨⟨h.sd_lo, h.sd_hi⟩, h.err_lo⟩, h.err_hi⟩
    · rintro ⟨⟨⟨h1, h2⟩, h3⟩, h4⟩
      exact ⟨h1, h2, h3, h4⟩
  rw [e]
  exact (((measurableSet_le measurable_const (at0_measurable 0)).inter (measurableSet_le (at0_measurable 0) measurable_const)).inter
    (measurableSet_le measurable_const (at0_measurable 1))).inter (measurableSet_le (at0_measurable 1) measurable_const)

theorem car1_meas (t y e : Fin n → ℝ) (sd fmax fmin : ℝ) : MeasTarget (car1Target t y e sd fmax fmin) := by
  classical
  refine measTarget_ite ?_ ?_
  · have hb : MeasurableSet {x : Fin 4 → ℝ | Car1Bounds sd fmax fmin (List.ofFn x)} := by
      have e : {x : Fin 4 → ℝ | Car1Bounds sd fmax fmin (List.ofFn x)} = {x : Fin 4 → ℝ | ScaleBounds sd (List.ofFn x)} ∩
          {x | fmin ≤ Real.exp (at0 (List.ofFn x) 3)} ∩ {x | Real.exp (at0 (List.ofFn x) 3) ≤ fmax} := by
        ext x
        constructor
        · intro h
          exact ⟨⟨h.toScaleBounds, h.lo⟩, h.hi⟩
        · rintro ⟨⟨h1, h2⟩, h3⟩
          exact ⟨h1, h2, h3⟩
      rw [e]
      have hexp : Measurable fun x : Fin 4 → ℝ => Real.exp (at0 (List.ofFn x) 3) := Real.measurable_exp.comp (at0_measurable 3)
      exact ((scale_meas sd).inter (measurableSet_le measurable_const hexp)).inter (measurableSet_le hexp measurable_const)
    refine hb.inter (MeasurableSet.union ?_ (MeasurableSet.const _))
    exact (measurableSet_eq_fun (measurable_pi_apply 0) measurable_const).compl
  · refine (logGauss_measurable (fun i j => obsCov_measurable (fun d => ?_) _ (fun i => ?_) i j) (fun i => ?_)).add logPrior_measurable
    · exact ((measurable_pi_apply 0).pow_const 2).mul (Real.measurable_exp.comp ((Real.measurable_exp.comp (measurable_pi_apply 3)).neg.mul_const d))
    · exact ((measurable_pi_apply 1).sqrt).mul_const _
    · exact measurable_const.sub (measurable_pi_apply 2)

/-! ### CARMA -/

theorem arRoot_measurable {d : ℕ} (p k : ℕ) : Measurable fun x : Fin d → ℝ => arRootSpec p (at0 (List.ofFn x)) k := by
  have mk : ∀ {f g : (Fin d → ℝ) → ℝ}, Measurable f → Measurable g → Measurable fun x => (⟨f x, g x⟩ : ℂ) := by
    intro f g hf hg
    have e : (fun x => (⟨f x, g x⟩ : ℂ)) = fun x => (f x : ℂ) + (g x : ℂ) * Complex.I := by
      funext x
      exact Complex.mk_eq_add_mul_I _ _
    rw [e]
    exact (Complex.measurable_ofReal.comp hf).add ((Complex.measurable_ofReal.comp hg).mul_const _)
  unfold arRootSpec
  split
  · have ha : Measurable fun x : Fin d → ℝ => Real.exp (at0 (List.ofFn x) (3 + 2 * (k / 2))) := Real.measurable_exp.comp (at0_measurable _)
    have hb : Measurable fun x : Fin d → ℝ => Real.exp (at0 (List.ofFn x) (3 + 2 * (k / 2) + 1)) := Real.measurable_exp.comp (at0_measurable _)
    dsimp only
    generalize (if k % 2 = 0 then (1 : ℝ) else -1) = s
    have hd := (hb.pow_const 2).sub (ha.const_mul 4)
    have hd' := (ha.const_mul 4).sub (hb.pow_const 2)
    refine Measurable.ite (measurableSet_lt measurable_const hd) (mk ?_ measurable_const) (mk ?_ ?_)
    · exact ((hb.add (hd.sqrt.const_mul s)).neg).div_const 2
    · exact hb.neg.div_const 2
    · exact (hd'.sqrt.const_mul (-s)).div_const 2
  · exact Complex.measurable_ofReal.comp (Real.measurable_exp.comp (at0_measurable _)).neg

theorem arDeriv_measurable {p : ℕ} {ω : X → Fin p → ℂ} (hω : ∀ k, Measurable fun x => ω x k) (k : Fin p) :
    Measurable fun x => arDeriv (ω x) k := by
  unfold arDeriv
  exact Finset.measurable_prod _ fun l _ => (hω k).sub (hω l)

theorem response_measurable {p : ℕ} {ω : X → Fin p → ℂ} (hω : ∀ k, Measurable fun x => ω x k) {β : X → ℂ → ℂ}
    (hβ : ∀ k, Measurable fun x => β x (ω x k)) : Measurable fun z : X × ℝ => response (ω z.1) (β z.1) z.2 := by
  unfold response
  refine Finset.measurable_sum _ fun k _ => ?_
  refine (((hβ k).comp measurable_fst).div ((arDeriv_measurable hω k).comp measurable_fst)).mul ?_
  exact Complex.measurable_exp.comp (((hω k).comp measurable_fst).mul (Complex.measurable_ofReal.comp measurable_snd))

theorem responseAcf_measurable {p : ℕ} {ω : X → Fin p → ℂ} (hω : ∀ k, Measurable fun x => ω x k) {β : X → ℂ → ℂ}
    (hβ : ∀ k, Measurable fun x => β x (ω x k)) (d : ℝ) : Measurable fun x => responseAcf (ω x) (β x) d := by
  unfold responseAcf
  have h := response_measurable hω hβ
  have h2 : Measurable fun z : X × ℝ => response (ω z.1) (β z.1) (z.2 + d) := h.comp (measurable_fst.prodMk (measurable_snd.add_const d))
  exact (StronglyMeasurable.integral_prod_right' (f := fun z : X × ℝ => (response (ω z.1) (β z.1) z.2 * response (ω z.1) (β z.1) (z.2 + d)).re)
    (Complex.measurable_re.comp (h.mul h2)).stronglyMeasurable).measurable

theorem factorPoly_eval_measurable {d : ℕ} (off m : ℕ) {w : (Fin d → ℝ) → ℂ} (hw : Measurable w) :
    Measurable fun x => ((factorPoly (at0 (List.ofFn x)) off m).map Complex.ofRealHom).eval (w x) := by
  have hc : ∀ k, Measurable fun x : Fin d → ℝ => ((Real.exp (at0 (List.ofFn x) k) : ℝ) : ℂ) :=
    fun k => Complex.measurable_ofReal.comp (Real.measurable_exp.comp (at0_measurable k))
  have e : ∀ x, ((factorPoly (at0 (List.ofFn x)) off m).map Complex.ofRealHom).eval (w x) =
      (∏ i ∈ Finset.range (m / 2), (w x ^ 2 + ((Real.exp (at0 (List.ofFn x) (off + 2 * i + 1)) : ℝ) : ℂ) * w x +
        ((Real.exp (at0 (List.ofFn x) (off + 2 * i)) : ℝ) : ℂ))) *
      if m % 2 = 1 then w x + ((Real.exp (at0 (List.ofFn x) (off + m - 1)) : ℝ) : ℂ) else 1 := by
    intro x
    unfold factorPoly quadFactor
    rw [Polynomial.map_mul, Polynomial.eval_mul, Polynomial.map_prod, Polynomial.eval_prod]
    congr 1
    · refine Finset.prod_congr rfl fun i _ => ?_
      simp [-Complex.ofReal_exp]
    · split <;> simp [-Complex.ofReal_exp]
  simp only [e]
  refine (Finset.measurable_prod _ fun i _ => ?_).mul ?_
  · exact ((hw.pow_const 2).add ((hc _).mul hw)).add (hc _)
  · split
    · exact hw.add (hc _)
    · exact measurable_const

theorem maPoly_measurable {d : ℕ} (kind : Kind) (p : ℕ) (lo hi : ℝ) {w : (Fin d → ℝ) → ℂ} (hw : Measurable w) :
    Measurable fun x => maPolySpec kind p lo hi (List.ofFn x) (w x) := by
  cases kind with
  | carp => exact measurable_const
  | zcar => exact measurable_const
  | carma q =>
      unfold maPolySpec
      refine (factorPoly_eval_measurable _ _ hw).div ?_
      have e : ∀ x : Fin d → ℝ, ((((factorPoly (at0 (List.ofFn x)) (p + 3) q).eval 0 : ℝ)) : ℂ) =
          ((factorPoly (at0 (List.ofFn x)) (p + 3) q).map Complex.ofRealHom).eval 0 := by
        intro x
        have := Polynomial.eval_map_apply (f := Complex.ofRealHom) (p := factorPoly (at0 (List.ofFn x)) (p + 3) q) (0 : ℝ)
        rw [map_zero] at this
        exact this.symm
      simp only [e]
      exact factorPoly_eval_measurable _ _ measurable_const
  | zcarma =>
      unfold maPolySpec
      refine (measurable_const.add (hw.div (Complex.measurable_ofReal.comp ?_))).pow_const _
      exact measurable_const.add (measurable_const.div (measurable_const.add (Real.measurable_exp.comp (at0_measurable _).neg)))

theorem bounds_meas {d p : ℕ} (sd fmax fmin : ℝ) :
    MeasurableSet {x : Fin d → ℝ | CarpBounds sd fmax fmin (List.ofFn fun k : Fin p => arRootSpec p (at0 (List.ofFn x)) k) (List.ofFn x)} := by
  have hr : ∀ k : ℕ, Measurable fun x : Fin d → ℝ => arRootSpec p (at0 (List.ofFn x)) k := fun k => arRoot_measurable p k
  have him : ∀ k : ℕ, Measurable fun x : Fin d → ℝ => |(arRootSpec p (at0 (List.ofFn x)) k).im| / (2 * Real.pi) :=
    fun k => (continuous_abs.measurable.comp (Complex.measurable_im.comp (hr k))).div_const _
  have hre : ∀ k : ℕ, Measurable fun x : Fin d → ℝ => -(arRootSpec p (at0 (List.ofFn x)) k).re / (2 * Real.pi) :=
    fun k => ((Complex.measurable_re.comp (hr k)).neg).div_const _
  have e : {x : Fin d → ℝ | CarpBounds sd fmax fmin (List.ofFn fun k : Fin p => arRootSpec p (at0 (List.ofFn x)) k) (List.ofFn x)} =
      {x : Fin d → ℝ | ScaleBounds sd (List.ofFn x)} ∩
      (⋂ k : Fin p, {x | |(arRootSpec p (at0 (List.ofFn x)) k).im| / (2 * Real.pi) < fmax}) ∩
      (⋂ k : Fin p, {x | fmin < -(arRootSpec p (at0 (List.ofFn x)) k).re / (2 * Real.pi)} ∩
        {x | -(arRootSpec p (at0 (List.ofFn x)) k).re / (2 * Real.pi) < fmax}) ∩
      (⋂ i : Fin p, ⋂ j : Fin p, {x | i < j → (arRootSpec p (at0 (List.ofFn x)) i + arRootSpec p (at0 (List.ofFn x)) j = 0 ∨
        1e-4 < ‖arRootSpec p (at0 (List.ofFn x)) i - arRootSpec p (at0 (List.ofFn x)) j‖ /
          ‖arRootSpec p (at0 (List.ofFn x)) i + arRootSpec p (at0 (List.ofFn x)) j‖)}) ∩
      (⋂ i : ℕ, {x | i + 1 < p → |(arRootSpec p (at0 (List.ofFn x)) (i + 1)).im| / (2 * Real.pi) ≤
        |(arRootSpec p (at0 (List.ofFn x)) i).im| / (2 * Real.pi) + 1e-8}) := by
    ext x
    constructor
    · intro h
      refine ⟨⟨⟨⟨h.toScaleBounds, ?_⟩, ?_⟩, ?_⟩, ?_⟩
      · exact Set.mem_iInter.mpr fun k => h.cent _ (List.mem_ofFn.mpr ⟨k, rfl⟩)
      · exact Set.mem_iInter.mpr fun k => h.width _ (List.mem_ofFn.mpr ⟨k, rfl⟩)
      · exact Set.mem_iInter.mpr fun i => Set.mem_iInter.mpr fun j hij => List.pairwise_ofFn.mp h.sep hij
      · refine Set.mem_iInter.mpr fun i hi => ?_
        refine h.order i _ _ ?_ ?_
        · rw [List.getElem?_ofFn, dif_pos (show i < p by omega)]
        · rw [List.getElem?_ofFn, dif_pos hi]
    · rintro ⟨⟨⟨⟨h1, h2⟩, h3⟩, h4⟩, h5⟩
      refine ⟨h1, ?_, ?_, ?_, ?_⟩
      · intro r hr
        obtain ⟨k, rfl⟩ := List.mem_ofFn.mp hr
        exact Set.mem_iInter.mp h2 k
      · intro r hr
        obtain ⟨k, rfl⟩ := List.mem_ofFn.mp hr
        exact Set.mem_iInter.mp h3 k
      · exact List.pairwise_ofFn.mpr fun i j hij => Set.mem_iInter.mp (Set.mem_iInter.mp h4 i) j hij
      · intro i a b ha hb
        have hi : i + 1 < p := by
          by_contra hcon
          rw [List.getElem?_ofFn, dif_neg hcon] at hb
          cases hb
        rw [List.getElem?_ofFn, dif_pos hi] at hb
        rw [List.getElem?_ofFn, dif_pos (show i < p by omega)] at ha
        injection ha with ha
        injection hb with hb
        rw [← ha, ← hb]
        exact Set.mem_iInter.mp h5 i hi
  rw [e]
  refine ((((scale_meas sd).inter ?_).inter ?_).inter ?_).inter ?_
  · exact MeasurableSet.iInter fun k => measurableSet_lt (him k) measurable_const
  · exact MeasurableSet.iInter fun k => (measurableSet_lt measurable_const (hre k)).inter (measurableSet_lt (hre k) measurable_const)
  · refine MeasurableSet.iInter fun i => MeasurableSet.iInter fun j => ?_
    refine MeasurableSet.imp (MeasurableSet.const _) (MeasurableSet.union ?_ ?_)
    · exact measurableSet_eq_fun ((hr i).add (hr j)) measurable_const
    · exact measurableSet_lt measurable_const (((hr i).sub (hr j)).norm.div ((hr i).add (hr j)).norm)
  · refine MeasurableSet.iInter fun i => MeasurableSet.imp (MeasurableSet.const _) ?_
    exact measurableSet_le (him _) ((him _).add_const _)

theorem logit_measurable {d : ℕ} (kind : Kind) (p : ℕ) : Measurable fun x : Fin d → ℝ => logitPrior kind p (List.ofFn x) := by
  cases kind with
  | zcarma =>
      unfold logitPrior
      exact (at0_measurable _).neg.sub ((Real.measurable_log.comp (measurable_const.add (Real.measurable_exp.comp (at0_measurable _).neg))).const_mul 2)
  | _ => exact measurable_const

theorem carma_meas {d : ℕ} (kind : Kind) (p : ℕ) (t y e : Fin n → ℝ) (sd fmax fmin lo hi : ℝ) :
    MeasTarget (carmaTarget (m := d) kind p t y e sd fmax fmin lo hi) := by
  classical
  have hω : ∀ k : Fin p, Measurable fun x : Fin d → ℝ => arRootSpec p (at0 (List.ofFn x)) k := fun k => arRoot_measurable p k
  have hβ : ∀ k : Fin p, Measurable fun x : Fin d → ℝ => maPolySpec kind p lo hi (List.ofFn x) (arRootSpec p (at0 (List.ofFn x)) k) :=
    fun k => maPoly_measurable kind p lo hi (hω k)
  refine measTarget_ite ?_ ?_
  · refine (bounds_meas sd fmax fmin).inter (MeasurableSet.union ?_ (MeasurableSet.const _))
    exact (measurableSet_eq_fun (at0_measurable 0) measurable_const).compl
  · refine (logGauss_measurable (fun i j => obsCov_measurable (fun d => ?_) _ (fun i => ?_) i j) (fun i => ?_)).add
      (logPrior_measurable.add (logit_measurable kind p))
    · exact ((at0_measurable 0).pow_const 2).mul ((responseAcf_measurable hω hβ d).div (responseAcf_measurable hω hβ 0))
    · exact (at0_measurable 1).sqrt.mul_const _
    · exact measurable_const.sub (at0_measurable 2)

end Verif.Theory
