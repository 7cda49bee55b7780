import Verif.Theory.ErrFreeMa

/-!
Where the moving-average parameters are bounded, and the standard deviation is bounded away from 0 if the errors require it, a posterior
density has finite mass.
-/

namespace Verif.Theory

open Verif.Model Verif.Spec MeasureTheory
open scoped ENNReal

variable {n m p q : ℕ} {t y e : Fin n → ℝ} {sd fmax fmin lo hi T : ℝ}

/-- Parameters whose moving-average part is at most `K` in size and, if `b`, whose first component is at least `1/(K+1)`. -/
def maBox (b : Prop) (m p K : ℕ) : Set (Fin m → ℝ) :=
  {x | (b → 1 / ((K : ℝ) + 1) ≤ at0 (List.ofFn x) 0) ∧ ∀ j : Fin m, p + 3 ≤ (j : ℕ) → |x j| ≤ K}

theorem maBox_measurable (b : Prop) (m p K : ℕ) : MeasurableSet (maBox b m p K) := by
  have : maBox b m p K = {x | b → 1 / ((K : ℝ) + 1) ≤ at0 (List.ofFn x) 0} ∩ ⋂ j : Fin m, {x | p + 3 ≤ (j : ℕ) → |x j| ≤ K} := by
    ext x; simp [maBox]
  rw [this]
  refine MeasurableSet.inter ?_ (MeasurableSet.iInter fun j => ?_)
  · by_cases h : b
    · simp only [h, true_implies]
      exact measurableSet_le measurable_const (at0_measurable 0)
    · simp [h]
  · by_cases h : p + 3 ≤ (j : ℕ)
    · simp only [h, true_implies]
      exact measurableSet_le (continuous_abs.measurable.comp (measurable_pi_apply j)) measurable_const
    · simp [h]

/-- The boxes exhaust the parameters with positive standard deviation. -/
theorem maBox_cover (b : Prop) (m p : ℕ) (x : Fin m → ℝ) (hx : b → 0 < at0 (List.ofFn x) 0) : ∃ K : ℕ, ∀ K', K ≤ K' → x ∈ maBox b m p K' := by
  obtain ⟨K, hK⟩ := exists_nat_ge (∑ j, |x j|)
  obtain ⟨K1, hK1⟩ := exists_nat_ge (1 / at0 (List.ofFn x) 0)
  refine ⟨max K K1, fun K' hK' => ⟨fun hb => ?_, fun j _ => ?_⟩⟩
  · have h1 : (K1 : ℝ) ≤ K' := by exact_mod_cast (le_max_right K K1).trans hK'
    rw [div_le_iff₀ (by positivity)]
    rw [div_le_iff₀ (hx hb)] at hK1
    nlinarith [hx hb]
  · have h1 : |x j| ≤ ∑ j, |x j| := Finset.single_le_sum (f := fun j => |x j|) (fun _ _ => abs_nonneg _) (Finset.mem_univ j)
    have h2 : (K : ℝ) ≤ K' := by exact_mod_cast (le_max_left K K1).trans hK'
    linarith

/-- Bounds of the parameters other than the mean. -/
noncomputable def boxLo (p : ℕ) (fmin : ℝ) (m : ℕ) (K : ℝ) (i : Fin m) : ℝ :=
  if (i : ℕ) = 0 then 0 else if (i : ℕ) = 1 then 0.5 else
    if (i : ℕ) < p + 3 then Real.log (min ((2 * Real.pi * fmin) ^ 2) (2 * Real.pi * fmin)) else -K

@[inherit_doc boxLo] noncomputable def boxHi (p : ℕ) (sd fmax : ℝ) (m : ℕ) (K : ℝ) (i : Fin m) : ℝ :=
  if (i : ℕ) = 0 then sd else if (i : ℕ) = 1 then 2 else
    if (i : ℕ) < p + 3 then Real.log (2 * (2 * Real.pi * fmax) ^ 2 + 2 * (2 * Real.pi * fmax)) else K

/-- What a point of the support of the density with bounded moving-average part satisfies. -/
theorem box_some (hm3 : 3 ≤ m) (hf : 0 < fmin) {kind : Kind} (hz : kind ≠ .zcarma) {c : ℝ}
    (hc : ∀ {θ : List ℝ}, m ≤ θ.length → CarpBounds sd fmax fmin (List.ofFn fun k : Fin p => arRootSpec p (at0 θ) k) θ →
      StrongCorr c (fun d => responseAcf (fun k : Fin p => arRootSpec p (at0 θ) k) (maPolySpec kind p lo hi θ) d /
        responseAcf (fun k : Fin p => arRootSpec p (at0 θ) k) (maPolySpec kind p lo hi θ) 0) t) {K : ℝ}
    {x : Fin m → ℝ} (hx : ∀ j : Fin m, p + 3 ≤ (j : ℕ) → |x j| ≤ K) {l : ℝ} (h : carmaTarget kind p t y e sd fmax fmin lo hi x = some l) :
    (0 ≤ x ⟨0, by omega⟩ ∧ x ⟨0, by omega⟩ ≤ sd ∧ 0.5 ≤ x ⟨1, by omega⟩ ∧ x ⟨1, by omega⟩ ≤ 2) ∧ (x ⟨0, by omega⟩ ≠ 0 ∨ ∀ i, e i ≠ 0) ∧
    (∀ i : Fin m, i ≠ ⟨2, by omega⟩ → x i ∈ Set.Icc (boxLo p fmin m K i) (boxHi p sd fmax m K i)) ∧
    ∃ ρ, StrongCorr c ρ t ∧ l = logGauss (obsCov (fun d => x ⟨0, by omega⟩ ^ 2 * ρ d) t fun i => √(x ⟨1, by omega⟩) * e i) (fun i => y i - x ⟨2, by omega⟩) +
      (-25 / x ⟨1, by omega⟩ - 26 * Real.log (x ⟨1, by omega⟩)) := by
  classical
  unfold carmaTarget at h
  dsimp only at h
  split at h
  case isFalse => cases h
  case isTrue hb =>
    injection h with h
    obtain ⟨hb, h0⟩ := hb
    have a0 := at0_ofFn x (k := 0) (by omega)
    have a1 := at0_ofFn x (k := 1) (by omega)
    have a2 := at0_ofFn x (k := 2) (by omega)
    rw [a0] at h0
    refine ⟨?_, h0, fun i hi => ?_, _, hc (by simp) hb, ?_⟩
    · rw [← a0, ← a1]; exact ⟨hb.sd_lo, hb.sd_hi, hb.err_lo, hb.err_hi⟩
    · unfold boxLo boxHi
      by_cases h0 : (i : ℕ) = 0
      · simp only [h0, if_true]
        have : i = ⟨0, by omega⟩ := Fin.ext h0
        rw [this, ← a0]
        exact ⟨hb.sd_lo, hb.sd_hi⟩
      · by_cases h1 : (i : ℕ) = 1
        · simp only [h1, if_true]
          have : i = ⟨1, by omega⟩ := Fin.ext h1
          rw [this, ← a1]
          exact ⟨hb.err_lo, hb.err_hi⟩
        · simp only [h0, h1, if_false]
          have h2 : (i : ℕ) ≠ 2 := fun h2 => hi (Fin.ext h2)
          by_cases h3 : (i : ℕ) < p + 3
          · simp only [h3, if_true]
            have := ar_bounded hf hb (j := i) (by omega) h3
            rw [at0_ofFn x i.2] at this
            have hpi := Real.pi_pos
            refine ⟨(Real.log_le_iff_le_exp (lt_min (by positivity) (by positivity))).mpr this.1,
              (Real.le_log_iff_exp_le ((Real.exp_pos _).trans_le this.2)).mpr this.2⟩
          · simp only [h3, if_false]
            exact abs_le.mp (hx i (by omega))
    · rw [← h, logit_zero hz, add_zero, logPriorSpec, a0, a1, a2]

/-- Far from 0 the bound for measurements without error is a Gaussian bound. -/
theorem free_le {A κ ε sd σ d l : ℝ} (hκ : 0 ≤ κ) (hε : 0 < ε) (h1 : ε ≤ σ) (h2 : σ ≤ sd) (h : l ≤ A - κ * Real.log σ - d ^ 2 / (2 * σ ^ 2)) :
    l ≤ A - κ * Real.log ε - 1 / (2 * (sd ^ 2 + 1)) * d ^ 2 := by
  have h3 := mul_le_mul_of_nonneg_left (Real.log_le_log hε h1) hκ
  have h4 : 1 / (2 * (sd ^ 2 + 1)) * d ^ 2 ≤ d ^ 2 / (2 * σ ^ 2) := by
    rw [one_div_mul_eq_div]
    have h0 : 0 < σ := hε.trans_le h1
    exact div_le_div_of_nonneg_left (sq_nonneg d) (by positivity) (by nlinarith)
  linarith

theorem restrict_mass {d : ℕ} {G : LogTarget d} {B : Set (Fin d → ℝ)} (hB : MeasurableSet B) {G' : LogTarget d}
    (h1 : ∀ x ∈ B, G' x = G x) (h2 : ∀ x ∉ B, G' x = none) : ∫⁻ x in B, Verif.Spec.tempered G T x = mass G' T := by
  rw [← lintegral_indicator hB]
  refine lintegral_congr fun x => ?_
  by_cases hx : x ∈ B
  · rw [Set.indicator_of_mem hx]
    simp only [Verif.Spec.tempered, h1 x hx]
  · rw [Set.indicator_of_notMem hx]
    simp only [Verif.Spec.tempered, h2 x hx]

theorem carma_box_finite (hp : 0 < p) (hn : 0 < n) (ht : StrictMono t) (hf : 0 < fmin) (hT : 0 < T) {kind : Kind} (hz : kind ≠ .zcarma)
    (hk : OrderOk p kind) (hm : m = npar p kind) {b : Prop} (hb : ¬ b → ErrorsApart y e T) (K : ℕ) :
    ∫⁻ x in maBox b m p K, Verif.Spec.tempered (carmaTarget (m := m) kind p t y e sd fmax fmin lo hi) T x < ∞ := by
  classical
  have hm3 : 3 ≤ m := by have := npar_ge (p := p) kind; omega
  obtain ⟨c, hc, hstrong⟩ := bounds_strong (t := t) hp ht hf sd fmax lo hi
  have hs : ∀ {x : Fin m → ℝ} {l : ℝ}, _ → _ → _ := fun {x l} => box_some (x := x) (l := l) (y := y) (e := e) hm3 hf hz
    (fun {θ} h => hstrong hz hk (θ := θ) (by omega)) (K := (K : ℝ)) (lo := lo) (hi := hi)
  let G : LogTarget m := carmaTarget kind p t y e sd fmax fmin lo hi
  let G' : LogTarget m := fun x => if x ∈ maBox b m p K then G x else none
  have hG' : ∀ {x l}, G' x = some l → x ∈ maBox b m p K ∧ G x = some l := by
    intro x l hl
    have hl : (if x ∈ maBox b m p K then G x else none) = some l := hl
    split at hl
    case isFalse => cases hl
    case isTrue hx => exact ⟨hx, hl⟩
  rw [restrict_mass (G' := G') (maBox_measurable b m p K) (fun x hx => if_pos hx) (fun x hx => if_neg hx)]
  by_cases he : ∀ i, e i ≠ 0
  · obtain ⟨A, c', hc', h⟩ := post_le (t := t) hn he y sd
    refine mass_finite hT ⟨2, by omega⟩ (A := A) (y0 := y ⟨0, hn⟩) hc' (boxLo p fmin m K) (boxHi p sd fmax m K) fun x l hl => ?_
    obtain ⟨hx, hl⟩ := hG' hl
    obtain ⟨⟨b1, b2, b3, b4⟩, h0, h1, ρ, hρ, rfl⟩ := hs hx.2 hl
    exact ⟨h _ (hρ.corr hc) _ _ _ b1 b2 b3 b4, h1⟩
  push Not at he
  obtain ⟨z, hez⟩ := he
  by_cases hbb : b
  · obtain ⟨A, h⟩ := post_le_free (t := t) (y := y) hc hez
    refine mass_finite hT ⟨2, by omega⟩ (A := A - nFree e * Real.log (1 / ((K : ℝ) + 1))) (c := 1 / (2 * (sd ^ 2 + 1))) (y0 := y z) (by positivity)
      (boxLo p fmin m K) (boxHi p sd fmax m K) fun x l hl => ?_
    obtain ⟨hx, hl⟩ := hG' hl
    obtain ⟨⟨b1, b2, b3, b4⟩, h0, h1, ρ, hρ, rfl⟩ := hs hx.2 hl
    have hxk := hx.1 hbb
    rw [at0_ofFn x (k := 0) (by omega)] at hxk
    have hε : (0 : ℝ) < 1 / ((K : ℝ) + 1) := by positivity
    exact ⟨free_le (Nat.cast_nonneg _) hε hxk b2 (h _ hρ _ _ _ (hε.trans_le hxk) b3 b4), h1⟩
  rcases hb hbb with hd | ⟨i, j, hei, hej, hij⟩
  · obtain ⟨A, h⟩ := post_le_free (t := t) (y := y) hc hez
    refine mass_finite_free hT (κ := nFree e) (Nat.cast_nonneg _) hd (k0 := ⟨0, by omega⟩) (k := ⟨2, by omega⟩) (by simp) (A := A) (y0 := y z) (sd := sd)
      (boxLo p fmin m K) (boxHi p sd fmax m K) fun x l hl => ?_
    obtain ⟨hx, hl⟩ := hG' hl
    obtain ⟨⟨b1, b2, b3, b4⟩, h0, h1, ρ, hρ, rfl⟩ := hs hx.2 hl
    have hx0 : 0 < x ⟨0, by omega⟩ := lt_of_le_of_ne b1 (Ne.symm (h0.resolve_right fun h => h z hez))
    exact ⟨hx0, b2, h _ hρ _ _ _ hx0 b3 b4, fun i hi _ => h1 i hi⟩
  · obtain ⟨A, c', hc', h⟩ := post_le_two (t := t) hc hei hej hij (sd := sd)
    refine mass_finite hT ⟨2, by omega⟩ (A := A) (y0 := y i) hc' (boxLo p fmin m K) (boxHi p sd fmax m K) fun x l hl => ?_
    obtain ⟨hx, hl⟩ := hG' hl
    obtain ⟨⟨b1, b2, b3, b4⟩, h0, h1, ρ, hρ, rfl⟩ := hs hx.2 hl
    have hx0 : 0 < x ⟨0, by omega⟩ := lt_of_le_of_ne b1 (Ne.symm (h0.resolve_right fun h => h i hei))
    exact ⟨h _ hρ _ _ _ hx0 b2 b3 b4, h1⟩

/-- Where the standard deviation is bounded away from 0 a CAR(1) posterior density has finite mass. -/
theorem car1_box_finite (hn : 0 < n) (ht : StrictMono t) (hf : 0 < fmin) (hT : 0 < T) (K : ℕ) :
    ∫⁻ x in maBox True 4 1 K, Verif.Spec.tempered (car1Target t y e sd fmax fmin) T x < ∞ := by
  classical
  obtain ⟨c, hc, hstrong⟩ := car1_strong ht hf fmax
  let G : LogTarget 4 := car1Target t y e sd fmax fmin
  let G' : LogTarget 4 := fun x => if x ∈ maBox True 4 1 K then G x else none
  have hG' : ∀ {x l}, G' x = some l → x ∈ maBox True 4 1 K ∧ G x = some l := by
    intro x l hl
    have hl : (if x ∈ maBox True 4 1 K then G x else none) = some l := hl
    split at hl
    case isFalse => cases hl
    case isTrue hx => exact ⟨hx, hl⟩
  rw [restrict_mass (G' := G') (maBox_measurable True 4 1 K) (fun x hx => if_pos hx) (fun x hx => if_neg hx)]
  by_cases he : ∀ i, e i ≠ 0
  · obtain ⟨A, c', hc', h⟩ := post_le (t := t) hn he y sd
    refine mass_finite hT 2 (A := A) (y0 := y ⟨0, hn⟩) hc' ![0, 0.5, 0, Real.log fmin] ![sd, 2, 0, Real.log fmax] fun x l hl => ?_
    obtain ⟨hx, hl⟩ := hG' hl
    obtain ⟨⟨b1, b2, b3, b4, b5, b6⟩, h0, h1, rfl⟩ := car1_some hf hl
    exact ⟨h _ ((hstrong _ b5 b6).corr hc) _ _ _ b1 b2 b3 b4, h1⟩
  push Not at he
  obtain ⟨z, hez⟩ := he
  obtain ⟨A, h⟩ := post_le_free (t := t) (y := y) hc hez
  refine mass_finite hT 2 (A := A - nFree e * Real.log (1 / ((K : ℝ) + 1))) (c := 1 / (2 * (sd ^ 2 + 1))) (y0 := y z) (by positivity)
    ![0, 0.5, 0, Real.log fmin] ![sd, 2, 0, Real.log fmax] fun x l hl => ?_
  obtain ⟨hx, hl⟩ := hG' hl
  obtain ⟨⟨b1, b2, b3, b4, b5, b6⟩, h0, h1, rfl⟩ := car1_some hf hl
  have hxk := hx.1 trivial
  rw [at0_ofFn x (k := 0) (by omega)] at hxk
  have hε : (0 : ℝ) < 1 / ((K : ℝ) + 1) := by positivity
  exact ⟨free_le (Nat.cast_nonneg _) hε hxk b2 (h _ (hstrong _ b5 b6) _ _ _ (hε.trans_le hxk) b3 b4), h1⟩

end Verif.Theory
