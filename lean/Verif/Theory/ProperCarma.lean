import Verif.Theory.Proper

/-!
The posterior densities of the run functions: which are proper.
-/

namespace Verif.Theory

open Matrix Verif.Model Verif.Spec MeasureTheory
open scoped ENNReal

variable {n m p q : ℕ} {t y e : Fin n → ℝ} {sd fmax fmin lo hi T : ℝ}

theorem at0_ofFn {d : ℕ} (x : Fin d → ℝ) {k : ℕ} (hk : k < d) : at0 (List.ofFn x) k = x ⟨k, hk⟩ := by
  simp [at0, List.getD_eq_getElem?_getD, hk]

/-! ### CAR(1) -/

theorem car1_bounded (hn : 0 < n) (ht : StrictMono t) (he : ∀ i, e i ≠ 0) (hf : 0 < fmin) (hT : 0 < T) :
    mass (car1Target t y e sd fmax fmin) T < ∞ := by
  classical
  obtain ⟨A, c, hc, h⟩ := post_le (t := t) hn he y sd
  refine mass_finite hT (2 : Fin 4) (A := A) (y0 := y ⟨0, hn⟩) hc ![0, 0.5, 0, Real.log fmin] ![sd, 2, 0, Real.log fmax] fun x l hl => ?_
  unfold car1Target at hl
  split at hl
  case isFalse => cases hl
  case isTrue hb =>
    injection hl with hl
    obtain ⟨hb, -⟩ := hb
    have a0 : at0 (List.ofFn x) 0 = x 0 := at0_ofFn x (by norm_num)
    have a1 : at0 (List.ofFn x) 1 = x 1 := at0_ofFn x (by norm_num)
    have a3 : at0 (List.ofFn x) 3 = x 3 := at0_ofFn x (by norm_num)
    have b1 := hb.sd_lo
    have b2 := hb.sd_hi
    have b3 := hb.err_lo
    have b4 := hb.err_hi
    have b5 := hb.lo
    have b6 := hb.hi
    rw [a0] at b1 b2
    rw [a1] at b3 b4
    rw [a3] at b5 b6
    refine ⟨?_, fun i hi => ?_⟩
    · rw [← hl, logPriorSpec, a1]
      exact h _ (car1_corr (Real.exp_pos (x 3)) ht) (x 0) (x 1) (x 2) b1 b2 b3 b4
    · have c5 : Real.log fmin ≤ x 3 := (Real.log_le_iff_le_exp hf).mpr b5
      have c6 : x 3 ≤ Real.log fmax := (Real.le_log_iff_exp_le ((Real.exp_pos _).trans_le b6)).mpr b6
      fin_cases i
      · exact ⟨b1, b2⟩
      · exact ⟨b3, b4⟩
      · exact absurd rfl hi
      · exact ⟨c5, c6⟩

theorem car1_pos (hsd : 0 < sd) (hf : 0 < fmin) (hlt : fmin < fmax) : 0 < mass (car1Target t y e sd fmax fmin) T := by
  classical
  refine mass_pos (car1_meas t y e sd fmax fmin) T
    (U := {x : Fin 4 → ℝ | (0 < x 0 ∧ x 0 < sd) ∧ (0.5 < x 1 ∧ x 1 < 2) ∧ (Real.log fmin < x 3 ∧ x 3 < Real.log fmax)}) ?_ ?_ ?_
  · have hc : ∀ i : Fin 4, Continuous fun x : Fin 4 → ℝ => x i := fun i => continuous_apply i
    exact ((isOpen_lt continuous_const (hc 0)).inter (isOpen_lt (hc 0) continuous_const)).inter
      (((isOpen_lt continuous_const (hc 1)).inter (isOpen_lt (hc 1) continuous_const)).inter
        ((isOpen_lt continuous_const (hc 3)).inter (isOpen_lt (hc 3) continuous_const)))
  · have hl := Real.log_lt_log hf hlt
    refine ⟨![sd / 2, 1, 0, (Real.log fmin + Real.log fmax) / 2], ⟨?_, ?_⟩, ⟨?_, ?_⟩, ?_, ?_⟩
    · show 0 < sd / 2; linarith
    · show sd / 2 < sd; linarith
    · show (0.5 : ℝ) < 1; norm_num
    · show (1 : ℝ) < 2; norm_num
    · show Real.log fmin < (Real.log fmin + Real.log fmax) / 2; linarith
    · show (Real.log fmin + Real.log fmax) / 2 < Real.log fmax; linarith
  · rintro x ⟨⟨h1, h2⟩, ⟨h3, h4⟩, h5, h6⟩
    have a0 : at0 (List.ofFn x) 0 = x 0 := at0_ofFn x (by norm_num)
    have a1 : at0 (List.ofFn x) 1 = x 1 := at0_ofFn x (by norm_num)
    have a3 : at0 (List.ofFn x) 3 = x 3 := at0_ofFn x (by norm_num)
    unfold car1Target
    rw [if_pos]
    · exact Option.some_ne_none _
    · refine ⟨⟨⟨?_, ?_, ?_, ?_⟩, ?_, ?_⟩, Or.inl h1.ne'⟩
      · rw [a0]; exact h1.le
      · rw [a0]; exact h2.le
      · rw [a1]; exact h3.le
      · rw [a1]; exact h4.le
      · rw [a3]; exact (Real.log_le_iff_le_exp hf).mp h5.le
      · rw [a3]; exact (Real.le_log_iff_exp_le (hf.trans hlt)).mp h6.le

/-! ### CARp, ZCAR, CARMA -/

theorem kind_ma (hp : 0 < p) {kind : Kind} (hz : kind ≠ .zcarma) (hk : OrderOk p kind) (lo hi : ℝ) {θ : List ℝ} (hθ : npar p kind ≤ θ.length) :
    ∃ ma : List ℝ, ma.length = p ∧ ma[0]? = some 1 ∧ ∀ z, maEval ma z = maPolySpec kind p lo hi θ z := by
  cases kind with
  | carp => exact ⟨carMA p, by simp [carMA]; omega, by simp [carMA], fun z => by rw [maPolySpec, maEval_carMA]⟩
  | zcar => exact ⟨carMA p, by simp [carMA]; omega, by simp [carMA], fun z => by rw [maPolySpec, maEval_carMA]⟩
  | carma q =>
      obtain ⟨l, _, g⟩ := rootsFrom_spec θ (p + 3) q (by simp only [npar] at hθ; omega)
      have h0 : (factorPoly (at0 θ) (p + 3) q).coeff 0 ≠ 0 := (factorPoly_pos (at0 θ) (p + 3) q 0 (Nat.zero_le _)).ne'
      refine ⟨(List.range p).map fun i => (factorPoly (at0 θ) (p + 3) q).coeff i / (factorPoly (at0 θ) (p + 3) q).coeff 0, by simp, ?_, fun z => ?_⟩
      · rw [rangeMap_get _ (by omega), div_self h0]
      · rw [maEval_coeffs (by rw [g.natDegree]; exact hk), Polynomial.coeff_zero_eq_eval_zero]; rfl
  | zcarma => exact absurd rfl hz

/-- Within the prior the correlation function is one. -/
theorem bounds_corr (hp : 0 < p) {kind : Kind} (hz : kind ≠ .zcarma) (hk : OrderOk p kind) {θ : List ℝ} (hθ : npar p kind ≤ θ.length)
    (hb : CarpBounds sd fmax fmin (List.ofFn fun k : Fin p => arRootSpec p (at0 θ) k) θ) (ht : StrictMono t) :
    IsCorr (fun d => responseAcf (fun k : Fin p => arRootSpec p (at0 θ) k) (maPolySpec kind p lo hi θ) d /
      responseAcf (fun k : Fin p => arRootSpec p (at0 θ) k) (maPolySpec kind p lo hi θ) 0) t := by
  have hl3 := npar_ge (p := p) kind
  have hr := arRoots_spec (p := p) (θ := θ) (by omega)
  obtain ⟨roots', hr', hg⟩ := rootsFrom_spec θ 3 p (by omega)
  cases hr.symm.trans hr'
  have ha := hg.admissible (bounds_nodup hg hb)
  rw [vecOf_ofFn] at ha
  obtain ⟨ma, h1, h2, h3⟩ := kind_ma hp hz hk lo hi hθ
  exact carma_corr ha h1 h2 h3 ht

theorem logit_zero {kind : Kind} (hz : kind ≠ .zcarma) (θ : List ℝ) : logitPrior kind p θ = 0 := by
  cases kind <;> first | rfl | exact absurd rfl hz

/-- The prior bounds the coefficients of the autoregressive factors. -/
theorem ar_bounded {θ : List ℝ} (hf : 0 < fmin) (hb : CarpBounds sd fmax fmin (List.ofFn fun k : Fin p => arRootSpec p (at0 θ) k) θ)
    {j : ℕ} (h3 : 3 ≤ j) (hj : j < p + 3) :
    min ((2 * Real.pi * fmin) ^ 2) (2 * Real.pi * fmin) ≤ Real.exp (at0 θ j) ∧
      Real.exp (at0 θ j) ≤ 2 * (2 * Real.pi * fmax) ^ 2 + 2 * (2 * Real.pi * fmax) := by
  have hpi := Real.pi_pos
  generalize hw : 2 * Real.pi * fmin = w
  generalize hW : 2 * Real.pi * fmax = W
  have hw0 : 0 < w := by rw [← hw]; positivity
  have hroot : ∀ k, k < p → w < -(arRootSpec p (at0 θ) k).re ∧ -(arRootSpec p (at0 θ) k).re < W ∧ |(arRootSpec p (at0 θ) k).im| < W := by
    intro k hk
    have hm : arRootSpec p (at0 θ) k ∈ List.ofFn fun k : Fin p => arRootSpec p (at0 θ) k := List.mem_ofFn.mpr ⟨⟨k, hk⟩, rfl⟩
    have h1 := hb.width _ hm
    have h2 := hb.cent _ hm
    rw [lt_div_iff₀ (by positivity), div_lt_iff₀ (by positivity)] at h1
    rw [div_lt_iff₀ (by positivity)] at h2
    refine ⟨?_, ?_, ?_⟩
    · rw [← hw]; linarith [h1.1]
    · rw [← hW]; linarith [h1.2]
    · rw [← hW]; linarith
  by_cases hlast : j - 3 < 2 * (p / 2)
  · -- the pair that contains `j`
    obtain ⟨i, hi⟩ : ∃ i, i = (j - 3) / 2 := ⟨_, rfl⟩
    have k1 := hroot (2 * i) (by omega)
    have k2 := hroot (2 * i + 1) (by omega)
    have e0 : (2 * i) / 2 = i := by omega
    have e1 : (2 * i + 1) / 2 = i := by omega
    have e2 : (2 * i) % 2 = 0 := by omega
    have e3 : ¬ (2 * i + 1) % 2 = 0 := by omega
    simp only [arRootSpec, if_pos (show 2 * i < 2 * (p / 2) by omega), if_pos (show 2 * i + 1 < 2 * (p / 2) by omega), e0, e1, if_pos e2, if_neg e3] at k1 k2
    have key : (w ^ 2 ≤ Real.exp (at0 θ (3 + 2 * i)) ∧ Real.exp (at0 θ (3 + 2 * i)) ≤ 2 * W ^ 2) ∧
        (w ≤ Real.exp (at0 θ (3 + 2 * i + 1)) ∧ Real.exp (at0 θ (3 + 2 * i + 1)) ≤ 2 * W) := by
      generalize Real.exp (at0 θ (3 + 2 * i)) = a at *
      generalize Real.exp (at0 θ (3 + 2 * i + 1)) = b at *
      by_cases hd : 0 < b ^ 2 - 4 * a
      · simp only [if_pos hd] at k1 k2
        have hs := Real.sq_sqrt hd.le
        generalize √(b ^ 2 - 4 * a) = s at *
        obtain ⟨u1, u2, -⟩ := k1
        obtain ⟨v1, v2, -⟩ := k2
        have ea : a = ((b + s) / 2) * ((b - s) / 2) := by linear_combination (1 / 4) * hs
        have hx1 : w ≤ (b + s) / 2 := by linarith
        have hx2 : w ≤ (b - s) / 2 := by linarith
        have hy1 : (b + s) / 2 ≤ W := by linarith
        have hy2 : (b - s) / 2 ≤ W := by linarith
        refine ⟨⟨?_, ?_⟩, by linarith, by linarith⟩
        · rw [ea, sq]; exact mul_le_mul hx1 hx2 hw0.le (hw0.le.trans hx1)
        · rw [ea]
          have := mul_le_mul hy1 hy2 (hw0.le.trans hx2) (hw0.le.trans (hx1.trans hy1))
          nlinarith
      · simp only [if_neg hd] at k1 k2
        push Not at hd
        have hs := Real.sq_sqrt (show 0 ≤ 4 * a - b ^ 2 by linarith)
        generalize √(4 * a - b ^ 2) = s at *
        obtain ⟨u1, u2, u3⟩ := k1
        have ea : a = (b / 2) ^ 2 + (-1 * s / 2) ^ 2 := by linear_combination (-1 / 4) * hs
        have h4 : (-1 * s / 2) ^ 2 ≤ W ^ 2 := by
          rw [← sq_abs]; exact pow_le_pow_left₀ (abs_nonneg _) u3.le 2
        have hx : w ≤ b / 2 := by linarith
        have hy : b / 2 ≤ W := by linarith
        refine ⟨⟨?_, ?_⟩, by linarith, by linarith⟩
        · rw [ea]; have := pow_le_pow_left₀ hw0.le hx 2; nlinarith [sq_nonneg (-1 * s / 2)]
        · rw [ea]; have := pow_le_pow_left₀ (hw0.le.trans hx) hy 2; linarith
    have hW0 : 0 ≤ W := by linarith [k1.1.trans k1.2.1]
    rcases (show j = 3 + 2 * i ∨ j = 3 + 2 * i + 1 by omega) with rfl | rfl
    · exact ⟨(min_le_left _ _).trans key.1.1, key.1.2.trans (by linarith)⟩
    · exact ⟨(min_le_right _ _).trans key.2.1, key.2.2.trans (by nlinarith [sq_nonneg W])⟩
  · have k := hroot (p - 1) (by omega)
    have e1 : arRootSpec p (at0 θ) (p - 1) = ((-Real.exp (at0 θ (3 + p - 1)) : ℝ) : ℂ) := by
      unfold arRootSpec
      rw [if_neg (by omega)]
    rw [e1, Complex.ofReal_re, neg_neg] at k
    have ej : j = 3 + p - 1 := by omega
    rw [ej]
    have hW0 : 0 ≤ W := by linarith [k.1.trans k.2.1]
    exact ⟨(min_le_right _ _).trans k.1.le, k.2.1.le.trans (by nlinarith [sq_nonneg W])⟩

theorem car_bounded (hp : 0 < p) (hn : 0 < n) (ht : StrictMono t) (he : ∀ i, e i ≠ 0) (hf : 0 < fmin) (hT : 0 < T) {kind : Kind}
    (hk : kind = .carp ∨ kind = .zcar) (hm : m = p + 3) : mass (carmaTarget (m := m) kind p t y e sd fmax fmin lo hi) T < ∞ := by
  classical
  obtain ⟨A, c, hc, h⟩ := post_le (t := t) hn he y sd
  have hz : kind ≠ .zcarma := by rcases hk with rfl | rfl <;> simp
  have hord : OrderOk p kind := by rcases hk with rfl | rfl <;> trivial
  have hnp : npar p kind = p + 3 := by rcases hk with rfl | rfl <;> rfl
  refine mass_finite hT ⟨2, by omega⟩ (A := A) (y0 := y ⟨0, hn⟩) hc
    (fun i => if (i : ℕ) = 0 then 0 else if (i : ℕ) = 1 then 0.5 else Real.log (min ((2 * Real.pi * fmin) ^ 2) (2 * Real.pi * fmin)))
    (fun i => if (i : ℕ) = 0 then sd else if (i : ℕ) = 1 then 2 else Real.log (2 * (2 * Real.pi * fmax) ^ 2 + 2 * (2 * Real.pi * fmax))) fun x l hl => ?_
  unfold carmaTarget at hl
  dsimp only at hl
  split at hl
  case isFalse => cases hl
  case isTrue hb =>
    injection hl with hl
    obtain ⟨hb, -⟩ := hb
    have a0 := at0_ofFn x (k := 0) (by omega)
    have a1 := at0_ofFn x (k := 1) (by omega)
    have a2 := at0_ofFn x (k := 2) (by omega)
    refine ⟨?_, fun i hi => ?_⟩
    · rw [← hl, logit_zero hz, add_zero, logPriorSpec, a2]
      exact h _ (bounds_corr hp hz hord (by simp [hnp, hm]) hb ht) _ _ _ hb.sd_lo hb.sd_hi hb.err_lo hb.err_hi
    · by_cases h0 : (i : ℕ) = 0
      · simp only [h0, if_true]
        have : i = ⟨0, by omega⟩ := Fin.ext h0
        rw [this, ← a0]
        exact ⟨hb.sd_lo, hb.sd_hi⟩
      · by_cases h1 : (i : ℕ) = 1
        · simp only [h1, if_true]
          have : i = ⟨1, by omega⟩ := Fin.ext h1
          rw [this, ← a1]
          exact ⟨hb.err_lo, hb.err_hi⟩
        · simp only [h0, h1, if_false]
          have h2 : (i : ℕ) ≠ 2 := fun h2 => hi (Fin.ext h2)
          have := ar_bounded hf hb (j := i) (by omega) (by omega)
          rw [at0_ofFn x i.2] at this
          have hpi := Real.pi_pos
          refine ⟨(Real.log_le_iff_le_exp (lt_min (by positivity) (by positivity))).mpr this.1,
            (Real.le_log_iff_exp_le ((Real.exp_pos _).trans_le this.2)).mpr this.2⟩

/-! ### Moving average -/

theorem at0_snoc (x : Fin m → ℝ) (a : ℝ) {k : ℕ} (hk : k < m) : at0 (List.ofFn (Fin.snoc (α := fun _ => ℝ) x a)) k = x ⟨k, hk⟩ := by
  rw [at0_ofFn _ (show k < m + 1 by omega)]
  exact Fin.snoc_castSucc (α := fun _ => ℝ) a x ⟨k, hk⟩

theorem arRootSpec_congr {θ θ' : ℕ → ℝ} (h : ∀ j, j < p + 3 → θ j = θ' j) {k : ℕ} (hk : k < p) : arRootSpec p θ k = arRootSpec p θ' k := by
  unfold arRootSpec
  by_cases h1 : k < 2 * (p / 2)
  · rw [if_pos h1, if_pos h1, h _ (by omega), h _ (by omega)]
  · rw [if_neg h1, if_neg h1, h _ (by omega)]

theorem carma_unbounded (hp : 0 < p) (ht : StrictMono t) (he : ∀ i, e i ≠ 0) (hT : 0 < T) (hq : 0 < q) (hqp : q < p) (hm : m = p + q + 3)
    (h0 : mass (carmaTarget (m := m) (.carma q) p t y e sd fmax fmin lo hi) T ≠ 0) :
    mass (carmaTarget (m := m) (.carma q) p t y e sd fmax fmin lo hi) T = ∞ := by
  classical
  obtain ⟨m', rfl⟩ : ∃ m', m = m' + 1 := ⟨m - 1, by omega⟩
  refine mass_top (carma_meas _ _ _ _ _ _ _ _ _ _) hT ?_ h0
  intro x ⟨a0, ha0⟩
  have hz : (Kind.carma q) ≠ .zcarma := by simp
  unfold carmaTarget at ha0
  dsimp only at ha0
  split at ha0
  case isFalse => exact absurd rfl ha0
  case isTrue hb =>
    obtain ⟨hb, -⟩ := hb
    have hs : 0 < x ⟨1, by omega⟩ := by
      have := hb.err_lo
      rw [at0_snoc x a0 (show 1 < m' by omega)] at this
      linarith
    obtain ⟨B, hB⟩ := le_post (t := t) he y (x ⟨0, by omega⟩) (x ⟨2, by omega⟩) hs
    refine ⟨B + (-25 / x ⟨1, by omega⟩ - 26 * Real.log (x ⟨1, by omega⟩)), fun a => ?_⟩
    have hroots : (fun k : Fin p => arRootSpec p (at0 (List.ofFn (Fin.snoc (α := fun _ => ℝ) x a))) k) =
        fun k : Fin p => arRootSpec p (at0 (List.ofFn (Fin.snoc (α := fun _ => ℝ) x a0))) k := by
      funext k
      refine arRootSpec_congr (fun j hj => ?_) k.2
      rw [at0_snoc x a (show j < m' by omega), at0_snoc x a0 (show j < m' by omega)]
    have hb' : CarpBounds sd fmax fmin (List.ofFn fun k : Fin p => arRootSpec p (at0 (List.ofFn (Fin.snoc (α := fun _ => ℝ) x a))) k)
        (List.ofFn (Fin.snoc (α := fun _ => ℝ) x a)) := by
      rw [hroots]
      have e0 : ∀ k, k < m' → at0 (List.ofFn (Fin.snoc (α := fun _ => ℝ) x a)) k = at0 (List.ofFn (Fin.snoc (α := fun _ => ℝ) x a0)) k := by
        intro k hk
        rw [at0_snoc x a hk, at0_snoc x a0 hk]
      refine ⟨⟨?_, ?_, ?_, ?_⟩, hb.cent, hb.width, hb.sep, hb.order⟩
      · rw [e0 0 (by omega)]; exact hb.sd_lo
      · rw [e0 0 (by omega)]; exact hb.sd_hi
      · rw [e0 1 (by omega)]; exact hb.err_lo
      · rw [e0 1 (by omega)]; exact hb.err_hi
    have hcorr := bounds_corr (lo := lo) (hi := hi) hp hz hqp (by simp [npar, hm]) hb' ht
    have hG : ∃ l, carmaTarget (.carma q) p t y e sd fmax fmin lo hi (Fin.snoc (α := fun _ => ℝ) x a) = some l ∧
        l = logGauss (obsCov (fun d => at0 (List.ofFn (Fin.snoc (α := fun _ => ℝ) x a)) 0 ^ 2 *
          (responseAcf (fun k : Fin p => arRootSpec p (at0 (List.ofFn (Fin.snoc (α := fun _ => ℝ) x a))) k)
            (maPolySpec (.carma q) p lo hi (List.ofFn (Fin.snoc (α := fun _ => ℝ) x a))) d /
          responseAcf (fun k : Fin p => arRootSpec p (at0 (List.ofFn (Fin.snoc (α := fun _ => ℝ) x a))) k)
            (maPolySpec (.carma q) p lo hi (List.ofFn (Fin.snoc (α := fun _ => ℝ) x a))) 0)) t
          fun i => √(at0 (List.ofFn (Fin.snoc (α := fun _ => ℝ) x a)) 1) * e i) (fun i => y i - at0 (List.ofFn (Fin.snoc (α := fun _ => ℝ) x a)) 2) +
          (logPriorSpec (List.ofFn (Fin.snoc (α := fun _ => ℝ) x a)) + logitPrior (.carma q) p (List.ofFn (Fin.snoc (α := fun _ => ℝ) x a))) :=
      ⟨_, if_pos ⟨hb', Or.inr he⟩, rfl⟩
    obtain ⟨l, hl, e1⟩ := hG
    refine ⟨l, hl, ?_⟩
    · rw [e1, logit_zero hz, add_zero, logPriorSpec, at0_snoc x a (show 0 < m' by omega), at0_snoc x a (show 1 < m' by omega),
        at0_snoc x a (show 2 < m' by omega)]
      have := hB _ hcorr
      linarith

/-! ### Positive mass -/

/-- Minus the `k`-th autoregressive root when all roots are real. -/
noncomputable def realRoot (p : ℕ) (θ : ℕ → ℝ) (k : ℕ) : ℝ :=
  if k < 2 * (p / 2) then (Real.exp (θ (3 + 2 * (k / 2) + 1)) + (if k % 2 = 0 then 1 else -1) *
    √(Real.exp (θ (3 + 2 * (k / 2) + 1)) ^ 2 - 4 * Real.exp (θ (3 + 2 * (k / 2))))) / 2
  else Real.exp (θ (3 + p - 1))

/-- The discriminant of the pair of the `k`-th root. -/
noncomputable def disc (θ : ℕ → ℝ) (k : ℕ) : ℝ := Real.exp (θ (3 + 2 * (k / 2) + 1)) ^ 2 - 4 * Real.exp (θ (3 + 2 * (k / 2)))

theorem arRootSpec_real {θ : ℕ → ℝ} {k : ℕ} (h : k < 2 * (p / 2) → 0 < disc θ k) : arRootSpec p θ k = ((-realRoot p θ k : ℝ) : ℂ) := by
  unfold arRootSpec realRoot
  by_cases hk : k < 2 * (p / 2)
  · rw [if_pos hk, if_pos hk]
    dsimp only
    rw [if_pos (by have := h hk; unfold disc at this; exact this)]
    refine Complex.ext ?_ ?_
    · rw [Complex.ofReal_re]; dsimp only; ring
    · rw [Complex.ofReal_im]
  · rw [if_neg hk, if_neg hk]

theorem at0_continuous (k : ℕ) : Continuous fun x : Fin m → ℝ => at0 (List.ofFn x) k := by
  by_cases h : k < m
  · have e : (fun x : Fin m → ℝ => at0 (List.ofFn x) k) = fun x => x ⟨k, h⟩ := funext fun x => at0_ofFn x h
    rw [e]; exact continuous_apply _
  · have e : (fun x : Fin m → ℝ => at0 (List.ofFn x) k) = fun _ => 0 := by
      funext x
      simp [at0, List.getD_eq_getElem?_getD, h]
    rw [e]; exact continuous_const

theorem disc_continuous (k : ℕ) : Continuous fun x : Fin m → ℝ => disc (at0 (List.ofFn x)) k := by
  unfold disc
  exact ((Real.continuous_exp.comp (at0_continuous _)).pow 2).sub (continuous_const.mul (Real.continuous_exp.comp (at0_continuous _)))

theorem realRoot_continuous (p k : ℕ) : Continuous fun x : Fin m → ℝ => realRoot p (at0 (List.ofFn x)) k := by
  unfold realRoot
  by_cases hk : k < 2 * (p / 2)
  · simp only [if_pos hk]
    exact ((Real.continuous_exp.comp (at0_continuous _)).add (continuous_const.mul (disc_continuous k).sqrt)).div_const 2
  · simp only [if_neg hk]
    exact Real.continuous_exp.comp (at0_continuous _)

/-- Parameters with real, well separated roots strictly inside the prior. -/
def insideSet (m p : ℕ) (sd fmax fmin : ℝ) : Set (Fin m → ℝ) :=
  {x | (0 < at0 (List.ofFn x) 0 ∧ at0 (List.ofFn x) 0 < sd) ∧ (0.5 < at0 (List.ofFn x) 1 ∧ at0 (List.ofFn x) 1 < 2) ∧
    (∀ k : Fin p, (k : ℕ) < 2 * (p / 2) → 0 < disc (at0 (List.ofFn x)) k) ∧
    (∀ k : Fin p, 2 * Real.pi * fmin < realRoot p (at0 (List.ofFn x)) k ∧ realRoot p (at0 (List.ofFn x)) k < 2 * Real.pi * fmax) ∧
    ∀ k l : Fin p, k < l → 1e-4 * (realRoot p (at0 (List.ofFn x)) k + realRoot p (at0 (List.ofFn x)) l) <
      realRoot p (at0 (List.ofFn x)) k - realRoot p (at0 (List.ofFn x)) l}

theorem insideSet_open (m p : ℕ) (sd fmax fmin : ℝ) : IsOpen (insideSet m p sd fmax fmin) := by
  refine ((isOpen_lt continuous_const (at0_continuous 0)).inter (isOpen_lt (at0_continuous 0) continuous_const)).inter
    (((isOpen_lt continuous_const (at0_continuous 1)).inter (isOpen_lt (at0_continuous 1) continuous_const)).inter (IsOpen.inter ?_ (IsOpen.inter ?_ ?_)))
  · have e : {x : Fin m → ℝ | ∀ k : Fin p, (k : ℕ) < 2 * (p / 2) → 0 < disc (at0 (List.ofFn x)) k} =
        ⋂ k : Fin p, {x | (k : ℕ) < 2 * (p / 2) → 0 < disc (at0 (List.ofFn x)) k} := by ext x; simp
    refine Eq.mpr (congrArg IsOpen e) (isOpen_iInter_of_finite fun k => ?_)
    by_cases hk : (k : ℕ) < 2 * (p / 2)
    · simp only [hk, true_imp_iff]
      exact isOpen_lt continuous_const (disc_continuous _)
    · simp [hk]
  · have e : {x : Fin m → ℝ | ∀ k : Fin p, 2 * Real.pi * fmin < realRoot p (at0 (List.ofFn x)) k ∧ realRoot p (at0 (List.ofFn x)) k < 2 * Real.pi * fmax} =
        ⋂ k : Fin p, {x | 2 * Real.pi * fmin < realRoot p (at0 (List.ofFn x)) k ∧ realRoot p (at0 (List.ofFn x)) k < 2 * Real.pi * fmax} := by ext x; simp
    refine Eq.mpr (congrArg IsOpen e) (isOpen_iInter_of_finite fun k => ?_)
    exact (isOpen_lt continuous_const (realRoot_continuous _ _)).inter (isOpen_lt (realRoot_continuous _ _) continuous_const)
  · have e : {x : Fin m → ℝ | ∀ k l : Fin p, k < l → 1e-4 * (realRoot p (at0 (List.ofFn x)) k + realRoot p (at0 (List.ofFn x)) l) <
        realRoot p (at0 (List.ofFn x)) k - realRoot p (at0 (List.ofFn x)) l} = ⋂ k : Fin p, ⋂ l : Fin p,
          {x | k < l → 1e-4 * (realRoot p (at0 (List.ofFn x)) k + realRoot p (at0 (List.ofFn x)) l) <
        realRoot p (at0 (List.ofFn x)) k - realRoot p (at0 (List.ofFn x)) l} := by ext x; simp
    refine Eq.mpr (congrArg IsOpen e) (isOpen_iInter_of_finite fun k => isOpen_iInter_of_finite fun l => ?_)
    by_cases hk : k < l
    · simp only [hk, true_imp_iff]
      exact isOpen_lt (continuous_const.mul ((realRoot_continuous _ _).add (realRoot_continuous _ _)))
        ((realRoot_continuous _ _).sub (realRoot_continuous _ _))
    · simp [hk]

theorem inside_bounds (hf : 0 < fmin) {x : Fin m → ℝ} (hx : x ∈ insideSet m p sd fmax fmin) :
    CarpBounds sd fmax fmin (List.ofFn fun k : Fin p => arRootSpec p (at0 (List.ofFn x)) k) (List.ofFn x) := by
  obtain ⟨⟨h1, h2⟩, ⟨h3, h4⟩, h5, h6, h7⟩ := hx
  have hpi := Real.pi_pos
  have e : (fun k : Fin p => arRootSpec p (at0 (List.ofFn x)) k) = fun k : Fin p => ((-realRoot p (at0 (List.ofFn x)) k : ℝ) : ℂ) := by
    funext k
    exact arRootSpec_real fun hk => h5 k hk
  rw [e]
  have hpos : ∀ k : Fin p, 0 < realRoot p (at0 (List.ofFn x)) k := fun k => lt_trans (by positivity) (h6 k).1
  have him : ∀ r ∈ List.ofFn fun k : Fin p => ((-realRoot p (at0 (List.ofFn x)) k : ℝ) : ℂ), r.im = 0 := by
    intro r hr
    obtain ⟨k, rfl⟩ := List.mem_ofFn.mp hr
    exact Complex.ofReal_im _
  have hmax : ∀ k : Fin p, 0 < 2 * Real.pi * fmax := fun k => (hpos k).trans (h6 k).2
  refine ⟨⟨h1.le, h2.le, h3.le, h4.le⟩, ?_, ?_, ?_, ?_⟩
  · intro r hr
    rw [him r hr]
    obtain ⟨k, -⟩ := List.mem_ofFn.mp hr
    have := hmax k
    simp only [abs_zero, zero_div]
    by_contra hc
    push Not at hc
    nlinarith
  · intro r hr
    obtain ⟨k, rfl⟩ := List.mem_ofFn.mp hr
    rw [Complex.ofReal_re, neg_neg, lt_div_iff₀ (by positivity), div_lt_iff₀ (by positivity)]
    have := h6 k
    constructor <;> linarith [this.1, this.2]
  · rw [List.pairwise_ofFn]
    intro k l hkl
    right
    have h := h7 k l hkl
    have hk := hpos k
    have hl := hpos l
    generalize realRoot p (at0 (List.ofFn x)) k = a at *
    generalize realRoot p (at0 (List.ofFn x)) l = b at *
    rw [← Complex.ofReal_sub, ← Complex.ofReal_add, Complex.norm_real, Complex.norm_real, Real.norm_eq_abs, Real.norm_eq_abs,
      show -a + -b = -(a + b) by ring, abs_neg, abs_of_pos (by linarith : 0 < a + b), show -a - -b = -(a - b) by ring, abs_neg,
      abs_of_pos (by nlinarith), lt_div_iff₀ (by linarith)]
    exact h
  · intro i a b ha hb
    rw [him a (List.mem_of_getElem? ha), him b (List.mem_of_getElem? hb)]
    simp only [abs_zero, zero_div, zero_add]
    norm_num

/-- Real roots in geometric progression. -/
theorem inside_nonempty (hm : p + 3 ≤ m) (hsd : 0 < sd) (hf : 0 < fmin) {lam : ℝ} (hl0 : 0 < lam) (hl1 : lam < 9999 / 10001)
    (hr : fmin < fmax * lam ^ p) : (insideSet m p sd fmax fmin).Nonempty := by
  have hpi := Real.pi_pos
  have hlam1 : lam < 1 := by linarith [show (9999 : ℝ) / 10001 < 1 by norm_num]
  have hfmax : 0 < fmax := by
    by_contra hc
    push Not at hc
    have : fmax * lam ^ p ≤ 0 := mul_nonpos_of_nonpos_of_nonneg hc (by positivity)
    linarith
  have hv0 : ∃ v : ℕ → ℝ, (∀ k, 0 < v k) ∧ (∀ k, v (k + 1) = v k * lam) ∧ v 0 = 2 * Real.pi * fmax * lam ∧ ∀ k, v k = 2 * Real.pi * fmax * lam ^ (k + 1) :=
    ⟨fun k => 2 * Real.pi * fmax * lam ^ (k + 1), fun k => by positivity, fun k => by dsimp only; ring, by dsimp only; ring, fun k => rfl⟩
  obtain ⟨v, hv, hstep, -, hform⟩ := hv0
  let th : ℕ → ℝ := fun j => if j = 0 then sd / 2 else if j = 1 then 1 else if j = 2 then 0 else
    if j - 3 < 2 * (p / 2) then (if (j - 3) % 2 = 0 then Real.log (v (j - 3) * v (j - 3 + 1)) else Real.log (v (j - 3 - 1) + v (j - 3)))
    else Real.log (v (j - 3))
  let x : Fin m → ℝ := fun j => th j
  have hat : ∀ j, j < m → at0 (List.ofFn x) j = th j := fun j hj => at0_ofFn x hj
  have hdecr : ∀ k, v (k + 1) < v k := fun k => by rw [hstep]; nlinarith [hv k]
  have hpair : ∀ i, i < p / 2 → Real.exp (at0 (List.ofFn x) (3 + 2 * i)) = v (2 * i) * v (2 * i + 1) ∧
      Real.exp (at0 (List.ofFn x) (3 + 2 * i + 1)) = v (2 * i) + v (2 * i + 1) := by
    intro i hi
    rw [hat _ (by omega), hat _ (by omega)]
    simp only [th]
    rw [if_neg (by omega), if_neg (by omega), if_neg (by omega), if_pos (by omega), if_pos (by omega), if_neg (by omega), if_neg (by omega),
      if_neg (by omega), if_pos (by omega), if_neg (by omega)]
    have g1 := hv (2 * i)
    have g2 := hv (2 * i + 1)
    rw [show 3 + 2 * i - 3 = 2 * i by omega, show 3 + 2 * i + 1 - 3 - 1 = 2 * i by omega, show 3 + 2 * i + 1 - 3 = 2 * i + 1 by omega,
      Real.exp_log (by positivity), Real.exp_log (by positivity)]
    exact ⟨rfl, rfl⟩
  have hdisc : ∀ k, k < 2 * (p / 2) → disc (at0 (List.ofFn x)) k = (v (2 * (k / 2)) - v (2 * (k / 2) + 1)) ^ 2 := by
    intro k hk
    unfold disc
    rw [(hpair (k / 2) (by omega)).1, (hpair (k / 2) (by omega)).2]
    ring
  have hroot : ∀ k, k < p → realRoot p (at0 (List.ofFn x)) k = v k := by
    intro k hk
    unfold realRoot
    by_cases h : k < 2 * (p / 2)
    · rw [if_pos h]
      have hd := hdisc k h
      unfold disc at hd
      have hpos : 0 ≤ v (2 * (k / 2)) - v (2 * (k / 2) + 1) := by linarith [hdecr (2 * (k / 2))]
      rw [hd, Real.sqrt_sq hpos, (hpair (k / 2) (by omega)).2]
      rcases Nat.mod_two_eq_zero_or_one k with hk2 | hk2
      · rw [if_pos hk2, show 2 * (k / 2) = k by omega]; ring
      · rw [if_neg (by omega), show 2 * (k / 2) + 1 = k by omega]; ring
    · rw [if_neg h, hat _ (by omega)]
      simp only [th]
      rw [if_neg (by omega), if_neg (by omega), if_neg (by omega), if_neg (by omega), Real.exp_log (hv _)]
      congr 1; omega
  refine ⟨x, ⟨?_, ?_⟩, ⟨?_, ?_⟩, ?_, ?_, ?_⟩
  · rw [hat 0 (by omega)]; simp only [th, if_true]; linarith
  · rw [hat 0 (by omega)]; simp only [th, if_true]; linarith
  · rw [hat 1 (by omega)]; simp only [th]; norm_num
  · rw [hat 1 (by omega)]; simp only [th]; norm_num
  · intro k hk
    rw [hdisc k hk]
    have := hdecr (2 * ((k : ℕ) / 2))
    exact pow_pos (by linarith) 2
  · intro k
    rw [hroot k k.2, hform]
    have h1 : lam ^ p ≤ lam ^ ((k : ℕ) + 1) := pow_le_pow_of_le_one hl0.le hlam1.le k.2
    have h2 : lam ^ ((k : ℕ) + 1) < 1 := pow_lt_one₀ hl0.le hlam1 (by omega)
    constructor
    · have h3 := mul_le_mul_of_nonneg_left h1 hfmax.le
      nlinarith
    · nlinarith [mul_pos hpi hfmax]
  · intro k l hkl
    rw [hroot k k.2, hroot l l.2]
    have h1 : v l ≤ v k * lam := by
      rw [← hstep, hform, hform]
      exact mul_le_mul_of_nonneg_left (pow_le_pow_of_le_one hl0.le hlam1.le (by have : (k : ℕ) < l := hkl; omega)) (by positivity)
    have h2 := hv k
    have h3 : v k * lam < v k * (9999 / 10001) := mul_lt_mul_of_pos_left hl1 h2
    norm_num
    linarith

theorem carma_pos (hf : 0 < fmin) (hsd : 0 < sd) (hm : p + 3 ≤ m) {lam : ℝ} (hl0 : 0 < lam) (hl1 : lam < 9999 / 10001)
    (hr : fmin < fmax * lam ^ p) (kind : Kind) : 0 < mass (carmaTarget (m := m) kind p t y e sd fmax fmin lo hi) T := by
  classical
  refine mass_pos (carma_meas _ _ _ _ _ _ _ _ _ _) T (insideSet_open m p sd fmax fmin) (inside_nonempty hm hsd hf hl0 hl1 hr) fun x hx => ?_
  unfold carmaTarget
  dsimp only
  rw [if_pos ⟨inside_bounds hf hx, Or.inl hx.1.1.ne'⟩]
  exact Option.some_ne_none _

end Verif.Theory
