import Verif.Theory.ErrFreePost
import Mathlib.Analysis.SpecialFunctions.Integrals.Basic
import Mathlib.Order.SuccPred.IntervalSucc

/-!
The mass of the posterior densities for data with measurements without error.
-/

namespace Verif.Theory

open Matrix Verif.Model Verif.Spec MeasureTheory
open scoped ENNReal

variable {n m p : ℕ} {t y e : Fin n → ℝ} {sd fmax fmin lo hi T : ℝ}

theorem integrable_abs_rpow_gauss {b α : ℝ} (hb : 0 < b) (hα : α < 1) : Integrable fun u : ℝ => |u| ^ (-α) * Real.exp (-b * u ^ 2) := by
  have h1 : IntegrableOn (fun u : ℝ => |u| ^ (-α) * Real.exp (-b * u ^ 2)) (Set.Ioi 0) := by
    refine (integrableOn_rpow_mul_exp_neg_mul_sq hb (s := -α) (by linarith)).congr_fun (fun u hu => ?_) measurableSet_Ioi
    dsimp only
    rw [abs_of_pos hu]
  have h2 : IntegrableOn (fun u : ℝ => |u| ^ (-α) * Real.exp (-b * u ^ 2)) (Set.Iio 0) := by
    have := h1.comp_neg
    simpa using this
  rw [← integrableOn_univ, ← Set.Iic_union_Ioi (a := (0 : ℝ)), integrableOn_union]
  exact ⟨(integrableOn_Iic_iff_integrableOn_Iio (by simp)).mpr h2, h1⟩

/-- A density of order `σ⁻ᵏ`, `k < 2T`, times a Gaussian in the mean of width `σ`. -/
theorem mass_finite_free {G : LogTarget m} (hT0 : 0 < T) {κ : ℝ} (hκ0 : 0 ≤ κ) (hκ : κ < 2 * T) {k0 k : Fin m} (hne : k0 ≠ k) {A y0 : ℝ} (a b : Fin m → ℝ)
    (h : ∀ x l, G x = some l → 0 < x k0 ∧ x k0 ≤ sd ∧ l ≤ A - κ * Real.log (x k0) - (x k - y0) ^ 2 / (2 * x k0 ^ 2) ∧
      ∀ i, i ≠ k → i ≠ k0 → x i ∈ Set.Icc (a i) (b i)) : mass G T < ∞ := by
  unfold mass
  classical
  obtain ⟨α, hα⟩ : ∃ α : ℝ, α = κ / (2 * T) := ⟨_, rfl⟩
  have hα0 : 0 ≤ α := by rw [hα]; positivity
  have hα1 : α < 1 := by rw [hα, div_lt_one (by positivity)]; exact hκ
  rcases le_or_gt sd 0 with hsd | hsd
  · have : ∀ x, Spec.tempered G T x = 0 := by
      intro x
      unfold Spec.tempered
      split
      case h_2 => rfl
      case h_1 l hl => have := h x l hl; linarith [this.1, this.2.1]
    simp [this]
  let f : Fin m → ℝ → ℝ := fun i => if i = k then fun u => |u - y0| ^ (-α) * Real.exp (-(1 / (4 * T * sd ^ 2)) * (u - y0) ^ 2) else
    if i = k0 then (Set.Ioc 0 sd).indicator fun u => u ^ (-α) else (Set.Icc (a i) (b i)).indicator fun _ => 1
  have hf : ∀ i, Integrable (f i) := by
    intro i
    by_cases hi : i = k
    · simp only [f, hi, if_true]
      exact (integrable_abs_rpow_gauss (b := 1 / (4 * T * sd ^ 2)) (by positivity) hα1).comp_sub_right y0
    · by_cases hi0 : i = k0
      · simp only [f, hi0, hne, if_true, if_false]
        refine (integrable_indicator_iff measurableSet_Ioc).mpr ?_
        exact (intervalIntegrable_iff_integrableOn_Ioc_of_le hsd.le).mp (intervalIntegral.intervalIntegrable_rpow' (by linarith))
      · simp only [f, hi, hi0, if_false]
        exact (integrable_indicator_iff measurableSet_Icc).mpr (integrableOn_const (by simp) (by simp))
  obtain ⟨C, hC⟩ : ∃ C : ℝ, C = A / T + α / 2 * Real.log (2 * T) := ⟨_, rfl⟩
  have hint : Integrable fun x : Fin m → ℝ => Real.exp C * ∏ i, f i (x i) := (Integrable.fintype_prod hf).const_mul _
  have hae : ∀ᵐ x : Fin m → ℝ, x k ≠ y0 := Measure.ae_eval_ne (μ := fun _ : Fin m => (volume : Measure ℝ)) k y0
  refine lt_of_le_of_lt (lintegral_mono_ae ?_) (hint.lintegral_lt_top)
  filter_upwards [hae] with x hx
  unfold Spec.tempered
  split
  case h_2 => exact zero_le
  case h_1 l hl =>
    refine ENNReal.ofReal_le_ofReal ?_
    obtain ⟨h1, h2, h3, h4⟩ := h x l hl
    have e1 : ∏ i, f i (x i) = (|x k - y0| ^ (-α) * Real.exp (-(1 / (4 * T * sd ^ 2)) * (x k - y0) ^ 2)) * x k0 ^ (-α) := by
      rw [← Finset.mul_prod_erase _ _ (Finset.mem_univ k), ← Finset.mul_prod_erase _ _ (Finset.mem_erase.mpr ⟨hne, Finset.mem_univ k0⟩), ← mul_assoc]
      have e2 : ∏ i ∈ (Finset.univ.erase k).erase k0, f i (x i) = 1 := Finset.prod_eq_one fun i hi => by
        have i1 := Finset.ne_of_mem_erase hi
        have i2 := Finset.ne_of_mem_erase (Finset.mem_of_mem_erase hi)
        simp [f, i1, i2, Set.indicator_of_mem (h4 i i2 i1)]
      rw [e2, mul_one]
      simp [f, hne, Set.indicator_of_mem (show x k0 ∈ Set.Ioc 0 sd from ⟨h1, h2⟩)]
    have hu : 0 < |x k - y0| := abs_pos.mpr (sub_ne_zero.mpr hx)
    rw [e1, Real.rpow_def_of_pos hu, Real.rpow_def_of_pos h1, ← Real.exp_add, ← Real.exp_add, ← Real.exp_add]
    refine Real.exp_le_exp.mpr ?_
    have hsq : (x k - y0) ^ 2 = |x k - y0| ^ 2 := (sq_abs _).symm
    rw [hsq] at h3 ⊢
    generalize |x k - y0| = u at *
    generalize x k0 = σ at *
    have g1 : l / T ≤ A / T - 2 * α * Real.log σ - u ^ 2 / (2 * T * σ ^ 2) := by
      calc l / T ≤ (A - κ * Real.log σ - u ^ 2 / (2 * σ ^ 2)) / T := div_le_div_of_nonneg_right h3 hT0.le
        _ = _ := by rw [hα]; field_simp
    have g3 : α * Real.log u - α * Real.log σ ≤ u ^ 2 / (4 * T * σ ^ 2) + α / 2 * Real.log (2 * T) := by
      have hw : 0 < u ^ 2 / (2 * T * σ ^ 2) := by positivity
      have := Real.log_le_sub_one_of_pos hw
      rw [Real.log_div (by positivity) (by positivity), Real.log_mul (by positivity) (by positivity), Real.log_pow, Real.log_pow] at this
      have e3 : u ^ 2 / (4 * T * σ ^ 2) = 1 / 2 * (u ^ 2 / (2 * T * σ ^ 2)) := by field_simp; norm_num
      rw [e3]
      push_cast at this
      nlinarith [mul_le_mul_of_nonneg_left this hα0, mul_le_mul_of_nonneg_right hα1.le hw.le]
    have g4 : 1 / (4 * T * sd ^ 2) * u ^ 2 ≤ u ^ 2 / (4 * T * σ ^ 2) := by
      rw [one_div_mul_eq_div]
      refine div_le_div_of_nonneg_left (sq_nonneg _) (by positivity) ?_
      exact mul_le_mul_of_nonneg_left (pow_le_pow_left₀ h1.le h2 2) (by positivity)
    have e4 : u ^ 2 / (2 * T * σ ^ 2) = u ^ 2 / (4 * T * σ ^ 2) + u ^ 2 / (4 * T * σ ^ 2) := by field_simp; norm_num
    rw [hC]
    linarith

/-- A density of order at least `σ⁻ᵏ`, `k ≥ 2T`, for means within `σ` of a value has infinite mass. -/
theorem mass_top_scale {G : LogTarget m} (hT : 0 < T) {κ : ℝ} (hκ : 2 * T ≤ κ) {k0 k : Fin m} (hne : k0 ≠ k) {B y0 r : ℝ} (hr : 0 < r) (hr1 : r ≤ 1) (a b : Fin m → ℝ) (hab : ∀ i, a i < b i)
    (h : ∀ x, 0 < x k0 → x k0 ≤ r → |x k - y0| ≤ x k0 → (∀ i, i ≠ k0 → i ≠ k → x i ∈ Set.Ioo (a i) (b i)) →
      ∃ l, G x = some l ∧ B - κ * Real.log (x k0) ≤ l) : mass G T = ∞ := by
  classical
  obtain ⟨q, hq⟩ : ∃ q : ℕ → ℝ, q = fun N => r * (1 / 2) ^ N := ⟨_, rfl⟩
  have hq0 : ∀ N, 0 < q N := fun N => by rw [hq]; positivity
  have hqs : ∀ N, q (N + 1) = q N / 2 := fun N => by rw [hq]; dsimp only; rw [pow_succ]; ring
  have hqa : Antitone q := antitone_nat_of_succ_le fun N => by rw [hqs]; linarith [hq0 N]
  have hq1 : ∀ N, q N ≤ r := fun N => by
    have := hqa (Nat.zero_le N)
    rw [hq] at this ⊢
    simpa using this
  let I : ℕ → Fin m → Set ℝ := fun N i => if i = k0 then Set.Ioc (q (N + 1)) (q N) else if i = k then Set.Icc (y0 - q (N + 1)) (y0 + q (N + 1))
    else Set.Ioo (a i) (b i)
  have hI0 : ∀ N, I N k0 = Set.Ioc (q (N + 1)) (q N) := fun N => by simp [I]
  have hIk : ∀ N, I N k = Set.Icc (y0 - q (N + 1)) (y0 + q (N + 1)) := fun N => by simp [I, hne.symm]
  have hIi : ∀ N i, i ≠ k0 → i ≠ k → I N i = Set.Ioo (a i) (b i) := fun N i h1 h2 => by simp [I, h1, h2]
  have hmeas : ∀ N, MeasurableSet (Set.univ.pi (I N)) := fun N => MeasurableSet.univ_pi fun i => by
    by_cases h1 : i = k0
    · rw [h1, hI0]; exact measurableSet_Ioc
    · by_cases h2 : i = k
      · rw [h2, hIk]; exact measurableSet_Icc
      · rw [hIi N i h1 h2]; exact measurableSet_Ioo
  have hdisj : Pairwise (Function.onFun Disjoint fun N => Set.univ.pi (I N)) := by
    intro N M hNM
    have h1 := hqa.pairwise_disjoint_on_Ioc_succ hNM
    rw [Function.onFun, Set.disjoint_left] at h1 ⊢
    intro x hx hx'
    have g1 := hx k0 (Set.mem_univ _)
    have g2 := hx' k0 (Set.mem_univ _)
    rw [hI0] at g1 g2
    exact h1 g1 g2
  obtain ⟨V, hV⟩ : ∃ V : ℝ, V = ∏ i ∈ (Finset.univ.erase k0).erase k, (b i - a i) := ⟨_, rfl⟩
  have hV0 : 0 < V := by rw [hV]; exact Finset.prod_pos fun i _ => sub_pos.mpr (hab i)
  have hvol : ∀ N, volume (Set.univ.pi (I N)) = ENNReal.ofReal (q N ^ 2 / 2 * V) := by
    intro N
    rw [volume_pi_pi, ← Finset.mul_prod_erase _ _ (Finset.mem_univ k0), ← Finset.mul_prod_erase _ _ (Finset.mem_erase.mpr ⟨hne.symm, Finset.mem_univ k⟩),
      hI0, hIk, Real.volume_Ioc, Real.volume_Icc]
    have e1 : ∏ i ∈ (Finset.univ.erase k0).erase k, volume (I N i) = ENNReal.ofReal V := by
      rw [hV, ENNReal.ofReal_prod_of_nonneg fun i _ => (sub_pos.mpr (hab i)).le]
      refine Finset.prod_congr rfl fun i hi => ?_
      rw [hIi N i (Finset.ne_of_mem_erase (Finset.mem_of_mem_erase hi)) (Finset.ne_of_mem_erase hi), Real.volume_Ioo]
    have h0 := hq0 N
    rw [e1, ← ENNReal.ofReal_mul (by rw [hqs]; linarith), ← ENNReal.ofReal_mul (by rw [hqs]; linarith)]
    congr 1
    rw [hqs]; ring
  have hpart : ∀ N, ENNReal.ofReal (Real.exp (B / T) * V / 2) ≤ ∫⁻ x in Set.univ.pi (I N), Spec.tempered G T x := by
    intro N
    have h0 := hq0 N
    calc ENNReal.ofReal (Real.exp (B / T) * V / 2) = ENNReal.ofReal (Real.exp (B / T - 2 * Real.log (q N))) * volume (Set.univ.pi (I N)) := by
          rw [hvol, ← ENNReal.ofReal_mul (Real.exp_pos _).le, Real.exp_sub, show 2 * Real.log (q N) = Real.log (q N ^ 2) by rw [Real.log_pow]; norm_num,
            Real.exp_log (by positivity)]
          congr 1
          field_simp
      _ = ∫⁻ _x in Set.univ.pi (I N), ENNReal.ofReal (Real.exp (B / T - 2 * Real.log (q N))) := (setLIntegral_const _ _).symm
      _ ≤ _ := setLIntegral_mono' (hmeas N) fun x hx => by
          have g0 := hx k0 (Set.mem_univ _)
          have g1 := hx k (Set.mem_univ _)
          rw [hI0] at g0
          rw [hIk] at g1
          have p0 : 0 < x k0 := (hq0 (N + 1)).trans g0.1
          obtain ⟨l, h1, h2⟩ := h x p0 (g0.2.trans (hq1 N)) (by
            rw [abs_le]; constructor <;> linarith [g1.1, g1.2, g0.1]) fun i h1 h2 => by
              have := hx i (Set.mem_univ _)
              rwa [hIi N i h1 h2] at this
          rw [Spec.tempered, h1]
          dsimp only
          refine ENNReal.ofReal_le_ofReal (Real.exp_le_exp.mpr ?_)
          have g2 := Real.log_le_log p0 g0.2
          have g3 : Real.log (x k0) ≤ 0 := Real.log_nonpos p0.le ((g0.2.trans (hq1 N)).trans hr1)
          have g4 : B / T - κ / T * Real.log (x k0) ≤ l / T := by
            calc _ = (B - κ * Real.log (x k0)) / T := by ring
              _ ≤ _ := div_le_div_of_nonneg_right h2 hT.le
          have g5 : 2 ≤ κ / T := by rw [le_div_iff₀ hT]; exact hκ
          nlinarith [mul_le_mul_of_nonpos_right g5 g3]
  unfold mass
  refine top_le_iff.mp ?_
  calc ∞ = ∑' _N : ℕ, ENNReal.ofReal (Real.exp (B / T) * V / 2) :=
        (ENNReal.tsum_const_eq_top_of_ne_zero (ENNReal.ofReal_pos.mpr (by positivity)).ne').symm
    _ ≤ ∑' N : ℕ, ∫⁻ x in Set.univ.pi (I N), Spec.tempered G T x := ENNReal.tsum_le_tsum hpart
    _ = ∫⁻ x in ⋃ N, Set.univ.pi (I N), Spec.tempered G T x := (lintegral_iUnion hmeas hdisj _).symm
    _ ≤ _ := setLIntegral_le_lintegral _ _

/-! ### CAR(1) -/

/-- What a point of the support of the CAR(1) density satisfies. -/
theorem car1_some {x : Fin 4 → ℝ} {l : ℝ} (hf : 0 < fmin) (h : car1Target t y e sd fmax fmin x = some l) :
    (0 ≤ x 0 ∧ x 0 ≤ sd ∧ 0.5 ≤ x 1 ∧ x 1 ≤ 2 ∧ fmin ≤ Real.exp (x 3) ∧ Real.exp (x 3) ≤ fmax) ∧ (x 0 ≠ 0 ∨ ∀ i, e i ≠ 0) ∧
    (∀ i, i ≠ (2 : Fin 4) → x i ∈ Set.Icc (![0, 0.5, 0, Real.log fmin] i) (![sd, 2, 0, Real.log fmax] i)) ∧
    l = logGauss (obsCov (fun d => x 0 ^ 2 * Real.exp (-Real.exp (x 3) * d)) t fun i => √(x 1) * e i) (fun i => y i - x 2) +
      (-25 / x 1 - 26 * Real.log (x 1)) := by
  classical
  unfold car1Target at h
  split at h
  case isFalse => cases h
  case isTrue hb =>
    injection h with h
    obtain ⟨hb, h0⟩ := hb
    have a0 : at0 (List.ofFn x) 0 = x 0 := at0_ofFn x (by norm_num)
    have a1 : at0 (List.ofFn x) 1 = x 1 := at0_ofFn x (by norm_num)
    have a3 : at0 (List.ofFn x) 3 = x 3 := at0_ofFn x (by norm_num)
    have b1 := hb.sd_lo
    have b2 := hb.sd_hi
    have b3 := hb.err_lo
    have b4 := hb.err_hi
    have b5 := hb.lo
    have b6 := hb.hi
    rw [a0] at b1 b2
    rw [a1] at b3 b4
    rw [a3] at b5 b6
    refine ⟨⟨b1, b2, b3, b4, b5, b6⟩, h0, fun i hi => ?_, ?_⟩
    · have c5 : Real.log fmin ≤ x 3 := (Real.log_le_iff_le_exp hf).mpr b5
      have c6 : x 3 ≤ Real.log fmax := (Real.le_log_iff_exp_le ((Real.exp_pos _).trans_le b6)).mpr b6
      fin_cases i
      · exact ⟨b1, b2⟩
      · exact ⟨b3, b4⟩
      · exact absurd rfl hi
      · exact ⟨c5, c6⟩
    · rw [← h, logPriorSpec, a1]

theorem car1_bounded_apart (hn : 0 < n) (ht : StrictMono t) (hd : ErrorsApart y e T) (hf : 0 < fmin) (hT : 0 < T) :
    mass (car1Target t y e sd fmax fmin) T < ∞ := by
  by_cases he : ∀ i, e i ≠ 0
  · exact car1_bounded hn ht he hf hT
  push Not at he
  obtain ⟨c, hc, hstrong⟩ := car1_strong ht hf fmax
  rcases hd with hd | ⟨i, j, hi, hj, hij⟩
  · obtain ⟨z, hz⟩ := he
    obtain ⟨A, h⟩ := post_le_free (t := t) (y := y) hc hz
    refine mass_finite_free hT (κ := nFree e) (Nat.cast_nonneg _) hd (k0 := (0 : Fin 4)) (k := 2) (by decide) (A := A) (y0 := y z) (sd := sd) ![0, 0.5, 0, Real.log fmin] ![sd, 2, 0, Real.log fmax]
      fun x l hl => ?_
    obtain ⟨⟨b1, b2, b3, b4, b5, b6⟩, h0, h1, rfl⟩ := car1_some hf hl
    have hx0 : 0 < x 0 := lt_of_le_of_ne b1 (Ne.symm (h0.resolve_right fun h => h z hz))
    exact ⟨hx0, b2, h _ (hstrong _ b5 b6) _ _ _ hx0 b3 b4, fun i hi _ => h1 i hi⟩
  · obtain ⟨A, c', hc', h⟩ := post_le_two (t := t) hc hi hj hij (sd := sd)
    refine mass_finite hT (2 : Fin 4) (A := A) (y0 := y i) hc' ![0, 0.5, 0, Real.log fmin] ![sd, 2, 0, Real.log fmax] fun x l hl => ?_
    obtain ⟨⟨b1, b2, b3, b4, b5, b6⟩, h0, h1, rfl⟩ := car1_some hf hl
    have hx0 : 0 < x 0 := lt_of_le_of_ne b1 (Ne.symm (h0.resolve_right fun h => h i hi))
    exact ⟨h _ (hstrong _ b5 b6) _ _ _ hx0 b2 b3 b4, h1⟩

theorem apart_mono {T' : ℝ} (h : ErrorsApart y e T) (hT : T ≤ T') : ErrorsApart y e T' :=
  h.imp (fun h => h.trans_le (by linarith)) id

theorem not_apart (hT : 0 < T) (hd : ¬ ErrorsApart y e T) : 2 * T ≤ nFree e ∧ ∃ i, e i = 0 ∧ ∀ k, e k = 0 → y k = y i := by
  classical
  unfold ErrorsApart at hd
  push Not at hd
  obtain ⟨h1, h4⟩ := hd
  have h1' : 2 * T ≤ nFree e := by rw [nFree]; exact h1
  refine ⟨h1', ?_⟩
  have hpos : 0 < nFree e := by exact_mod_cast lt_of_lt_of_le (by linarith : 0 < 2 * T) h1'
  obtain ⟨i, hi⟩ := Finset.card_pos.mp (show 0 < (Finset.univ.filter fun i => e i = 0).card from hpos)
  have hi := (Finset.mem_filter.mp hi).2
  exact ⟨i, hi, fun k hk => h4 k i hk hi⟩

theorem car1_unbounded (ht : StrictMono t) (hT : 0 < T) (hd : ¬ ErrorsApart y e T) (hsd : 0 < sd) (hf : 0 < fmin) (hlt : fmin < fmax) :
    mass (car1Target t y e sd fmax fmin) T = ∞ := by
  classical
  obtain ⟨hκ, i, hi, hy⟩ := not_apart hT hd
  obtain ⟨c, hc, hstrong⟩ := car1_strong ht hf fmax
  obtain ⟨B, hB⟩ := le_post_same (t := t) hc (i := i) hy
  have hlog := Real.log_lt_log hf hlt
  refine mass_top_scale hT hκ (k0 := (0 : Fin 4)) (k := 2) (by decide) (B := B) (y0 := y i) (r := min 1 sd) (lt_min one_pos hsd) (min_le_left _ _)
    ![0, 0.5, 0, Real.log fmin] ![1, 2, 1, Real.log fmax] (fun i => ?_) fun x h1 h2 h3 h4 => ?_
  · fin_cases i
    · exact one_pos
    · show (0.5 : ℝ) < 2; norm_num
    · exact one_pos
    · exact hlog
  · have g1 : 0.5 < x 1 ∧ x 1 < 2 := h4 1 (by decide) (by decide)
    have g3 : Real.log fmin < x 3 ∧ x 3 < Real.log fmax := h4 3 (by decide) (by decide)
    have k1 := (Real.log_le_iff_le_exp hf).mp g3.1.le
    have k2 := (Real.le_log_iff_exp_le (hf.trans hlt)).mp g3.2.le
    have a0 : at0 (List.ofFn x) 0 = x 0 := at0_ofFn x (by norm_num)
    have a1 : at0 (List.ofFn x) 1 = x 1 := at0_ofFn x (by norm_num)
    have a3 : at0 (List.ofFn x) 3 = x 3 := at0_ofFn x (by norm_num)
    have hG : car1Target t y e sd fmax fmin x = some (logGauss (obsCov (fun d => x 0 ^ 2 * Real.exp (-Real.exp (x 3) * d)) t fun i => √(x 1) * e i)
        (fun i => y i - x 2) + logPriorSpec (List.ofFn x)) := by
      unfold car1Target
      rw [if_pos]
      refine ⟨⟨⟨?_, ?_, ?_, ?_⟩, ?_, ?_⟩, Or.inl h1.ne'⟩
      · rw [a0]; exact h1.le
      · rw [a0]; exact h2.trans (min_le_right _ _)
      · rw [a1]; exact g1.1.le
      · rw [a1]; exact g1.2.le
      · rw [a3]; exact k1
      · rw [a3]; exact k2
    refine ⟨_, hG, ?_⟩
    rw [logPriorSpec, a1]
    exact hB _ (hstrong _ k1 k2) _ _ _ h1 (h2.trans (min_le_left _ _)) g1.1.le g1.2.le h3

/-! ### CARp and ZCAR -/

/-- Bounds of the parameters other than the mean. -/
noncomputable def carLo (fmin : ℝ) (m : ℕ) (i : Fin m) : ℝ :=
  if (i : ℕ) = 0 then 0 else if (i : ℕ) = 1 then 0.5 else Real.log (min ((2 * Real.pi * fmin) ^ 2) (2 * Real.pi * fmin))

@[inherit_doc carLo] noncomputable def carHi (sd fmax : ℝ) (m : ℕ) (i : Fin m) : ℝ :=
  if (i : ℕ) = 0 then sd else if (i : ℕ) = 1 then 2 else Real.log (2 * (2 * Real.pi * fmax) ^ 2 + 2 * (2 * Real.pi * fmax))

/-- What a point of the support of the density of an autoregressive model satisfies. -/
theorem car_some (hp : 0 < p) (ht : StrictMono t) (hf : 0 < fmin) {kind : Kind} (hk : kind = .carp ∨ kind = .zcar) (hm : m = p + 3) {c : ℝ}
    (hc : ∀ ω ∈ rootSet p (2 * Real.pi * fmin) (2 * Real.pi * fmax) (1e-4 * (2 * (2 * Real.pi * fmin))),
      StrongCorr c (fun d => responseAcf ω (fun _ => 1) d / responseAcf ω (fun _ => 1) 0) t)
    {x : Fin m → ℝ} {l : ℝ} (h : carmaTarget kind p t y e sd fmax fmin lo hi x = some l) :
    (0 ≤ x ⟨0, by omega⟩ ∧ x ⟨0, by omega⟩ ≤ sd ∧ 0.5 ≤ x ⟨1, by omega⟩ ∧ x ⟨1, by omega⟩ ≤ 2) ∧ (x ⟨0, by omega⟩ ≠ 0 ∨ ∀ i, e i ≠ 0) ∧
    (∀ i : Fin m, i ≠ ⟨2, by omega⟩ → x i ∈ Set.Icc (carLo fmin m i) (carHi sd fmax m i)) ∧
    ∃ ρ, StrongCorr c ρ t ∧ l = logGauss (obsCov (fun d => x ⟨0, by omega⟩ ^ 2 * ρ d) t fun i => √(x ⟨1, by omega⟩) * e i) (fun i => y i - x ⟨2, by omega⟩) +
      (-25 / x ⟨1, by omega⟩ - 26 * Real.log (x ⟨1, by omega⟩)) := by
  classical
  have hz : kind ≠ .zcarma := by rcases hk with rfl | rfl <;> simp
  have hβ : maPolySpec kind p lo hi (List.ofFn x) = fun _ => 1 := by rcases hk with rfl | rfl <;> rfl
  unfold carmaTarget at h
  dsimp only at h
  split at h
  case isFalse => cases h
  case isTrue hb =>
    injection h with h
    obtain ⟨hb, h0⟩ := hb
    have a0 := at0_ofFn x (k := 0) (by omega)
    have a1 := at0_ofFn x (k := 1) (by omega)
    have a2 := at0_ofFn x (k := 2) (by omega)
    rw [a0] at h0
    refine ⟨?_, h0, fun i hi => ?_, _, hc _ (bounds_rootSet hf (by simp [hm]) hb), ?_⟩
    · rw [← a0, ← a1]; exact ⟨hb.sd_lo, hb.sd_hi, hb.err_lo, hb.err_hi⟩
    · unfold carLo carHi
      by_cases h0 : (i : ℕ) = 0
      · simp only [h0, if_true]
        have : i = ⟨0, by omega⟩ := Fin.ext h0
        rw [this, ← a0]
        exact ⟨hb.sd_lo, hb.sd_hi⟩
      · by_cases h1 : (i : ℕ) = 1
        · simp only [h1, if_true]
          have : i = ⟨1, by omega⟩ := Fin.ext h1
          rw [this, ← a1]
          exact ⟨hb.err_lo, hb.err_hi⟩
        · simp only [h0, h1, if_false]
          have h2 : (i : ℕ) ≠ 2 := fun h2 => hi (Fin.ext h2)
          have := ar_bounded hf hb (j := i) (by omega) (by omega)
          rw [at0_ofFn x i.2] at this
          have hpi := Real.pi_pos
          exact ⟨(Real.log_le_iff_le_exp (lt_min (by positivity) (by positivity))).mpr this.1,
            (Real.le_log_iff_exp_le ((Real.exp_pos _).trans_le this.2)).mpr this.2⟩
    · rw [← h, logit_zero hz, add_zero, logPriorSpec, hβ, a0, a1, a2]

theorem car_bounded_apart (hp : 0 < p) (hn : 0 < n) (ht : StrictMono t) (hd : ErrorsApart y e T) (hf : 0 < fmin) (hT : 0 < T) {kind : Kind}
    (hk : kind = .carp ∨ kind = .zcar) (hm : m = p + 3) : mass (carmaTarget (m := m) kind p t y e sd fmax fmin lo hi) T < ∞ := by
  by_cases he : ∀ i, e i ≠ 0
  · exact car_bounded hp hn ht he hf hT hk hm
  push Not at he
  have hpi := Real.pi_pos
  obtain ⟨c, hc, hstrong⟩ := rootSet_strong (t := t) hp ht (w := 2 * Real.pi * fmin) (W := 2 * Real.pi * fmax) (δ := 1e-4 * (2 * (2 * Real.pi * fmin)))
    (by positivity) (by positivity)
  rcases hd with hd | ⟨i, j, hi, hj, hij⟩
  · obtain ⟨z, hz⟩ := he
    obtain ⟨A, h⟩ := post_le_free (t := t) (y := y) hc hz
    refine mass_finite_free hT (κ := nFree e) (Nat.cast_nonneg _) hd (k0 := ⟨0, by omega⟩) (k := ⟨2, by omega⟩) (by simp) (A := A) (y0 := y z) (sd := sd) (carLo fmin m) (carHi sd fmax m) fun x l hl => ?_
    obtain ⟨⟨b1, b2, b3, b4⟩, h0, h1, ρ, hρ, rfl⟩ := car_some hp ht hf hk hm hstrong hl
    have hx0 : 0 < x ⟨0, by omega⟩ := lt_of_le_of_ne b1 (Ne.symm (h0.resolve_right fun h => h z hz))
    exact ⟨hx0, b2, h _ hρ _ _ _ hx0 b3 b4, fun i hi _ => h1 i hi⟩
  · obtain ⟨A, c', hc', h⟩ := post_le_two (t := t) hc hi hj hij (sd := sd)
    refine mass_finite hT ⟨2, by omega⟩ (A := A) (y0 := y i) hc' (carLo fmin m) (carHi sd fmax m) fun x l hl => ?_
    obtain ⟨⟨b1, b2, b3, b4⟩, h0, h1, ρ, hρ, rfl⟩ := car_some hp ht hf hk hm hstrong hl
    have hx0 : 0 < x ⟨0, by omega⟩ := lt_of_le_of_ne b1 (Ne.symm (h0.resolve_right fun h => h i hi))
    exact ⟨h _ hρ _ _ _ hx0 b2 b3 b4, h1⟩

/-- Points that differ from an inner point in the standard deviation and the mean only. -/
theorem inside_congr {x x' : Fin m → ℝ} (hx : x' ∈ insideSet m p sd fmax fmin) (h0 : 0 < at0 (List.ofFn x) 0) (h1 : at0 (List.ofFn x) 0 < sd)
    (h : ∀ j, j ≠ 0 → j ≠ 2 → at0 (List.ofFn x) j = at0 (List.ofFn x') j) : x ∈ insideSet m p sd fmax fmin := by
  obtain ⟨-, g2, g3, g4, g5⟩ := hx
  have hd : ∀ k, disc (at0 (List.ofFn x)) k = disc (at0 (List.ofFn x')) k := by
    intro k
    unfold disc
    rw [h _ (by omega) (by omega), h _ (by omega) (by omega)]
  have hr : ∀ k : Fin p, realRoot p (at0 (List.ofFn x)) k = realRoot p (at0 (List.ofFn x')) k := by
    intro k
    have hk := k.2
    unfold realRoot
    rw [h _ (by omega) (by omega), h (3 + 2 * ((k : ℕ) / 2)) (by omega) (by omega), h (3 + p - 1) (by omega) (by omega)]
  refine ⟨⟨h0, h1⟩, ?_, fun k hk => ?_, fun k => ?_, fun k l hkl => ?_⟩
  · rw [h 1 (by omega) (by omega)]; exact g2
  · rw [hd]; exact g3 k hk
  · rw [hr]; exact g4 k
  · rw [hr, hr]; exact g5 k l hkl

theorem car_unbounded (hp : 0 < p) (ht : StrictMono t) (hT : 0 < T) (hd : ¬ ErrorsApart y e T) (hsd : 0 < sd) (hf : 0 < fmin) {kind : Kind}
    (hk : kind = .carp ∨ kind = .zcar) (hm : m = p + 3) {lam : ℝ} (hl0 : 0 < lam) (hl1 : lam < 9999 / 10001)
    (hr : fmin < fmax * lam ^ p) : mass (carmaTarget (m := m) kind p t y e sd fmax fmin lo hi) T = ∞ := by
  classical
  have hpi := Real.pi_pos
  obtain ⟨hκ, i, hei, hy⟩ := not_apart hT hd
  obtain ⟨c, hc, hstrong⟩ := rootSet_strong (t := t) hp ht (w := 2 * Real.pi * fmin) (W := 2 * Real.pi * fmax) (δ := 1e-4 * (2 * (2 * Real.pi * fmin)))
    (by positivity) (by positivity)
  obtain ⟨B, hB⟩ := le_post_same (t := t) hc (i := i) hy
  obtain ⟨x0, hx0⟩ := inside_nonempty (m := m) (p := p) (by omega) hsd hf hl0 hl1 hr
  obtain ⟨ε, hε, hball⟩ := Metric.isOpen_iff.mp (insideSet_open m p sd fmax fmin) x0 hx0
  refine mass_top_scale hT hκ (k0 := ⟨0, by omega⟩) (k := ⟨2, by omega⟩) (by simp) (B := B) (y0 := y i) (r := min 1 (sd / 2)) (lt_min one_pos (by linarith)) (min_le_left _ _)
    (fun i => x0 i - ε) (fun i => x0 i + ε) (fun i => by linarith) fun x h1 h2 h3 h4 => ?_
  have a0 := at0_ofFn x (k := 0) (by omega)
  have a1 := at0_ofFn x (k := 1) (by omega)
  have a2 := at0_ofFn x (k := 2) (by omega)
  have hin : x ∈ insideSet m p sd fmax fmin := by
    have hx' : (fun i : Fin m => if (i : ℕ) = 0 ∨ (i : ℕ) = 2 then x0 i else x i) ∈ insideSet m p sd fmax fmin := by
      refine hball ?_
      rw [Metric.mem_ball, dist_pi_lt_iff hε]
      intro i
      split
      · rw [dist_self]; exact hε
      · rename_i hei
        push Not at hei
        have := h4 i (fun h => hei.1 (by rw [h])) (fun h => hei.2 (by rw [h]))
        rw [Real.dist_eq, abs_lt]
        constructor <;> linarith [this.1, this.2]
    refine inside_congr hx' (by rw [a0]; exact h1) (by rw [a0]; have := h2.trans (min_le_right _ _); linarith) fun j hj0 hj2 => ?_
    by_cases hj : j < m
    · rw [at0_ofFn _ hj, at0_ofFn _ hj]
      simp [hj0, hj2]
    · simp [at0, List.getD_eq_getElem?_getD, hj]
  have hb := inside_bounds hf hin
  have hβ : maPolySpec kind p lo hi (List.ofFn x) = fun _ => 1 := by rcases hk with rfl | rfl <;> rfl
  have hz : kind ≠ .zcarma := by rcases hk with rfl | rfl <;> simp
  obtain ⟨l, hl⟩ : ∃ l, carmaTarget kind p t y e sd fmax fmin lo hi x = some l := by
    unfold carmaTarget
    dsimp only
    exact ⟨_, if_pos ⟨hb, Or.inl (by rw [a0]; exact h1.ne')⟩⟩
  obtain ⟨⟨b1, b2, b3, b4⟩, -, -, ρ, hρ, rfl⟩ := car_some hp ht hf hk hm hstrong hl
  exact ⟨_, hl, hB _ hρ _ _ _ h1 (h2.trans (min_le_left _ _)) b3 b4 h3⟩

end Verif.Theory
