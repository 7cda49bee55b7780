import Verif.Theory.Units

/-! Helper theory for C78: the value of the log-posterior at every `theta`, and what a change of units does to it. -/

namespace Verif.Theory

open Verif.Model Verif.Spec Finset Matrix Polynomial
open scoped Classical

variable {n p : ℕ}

/-! ### value of the log-posterior of new objects -/

/-- the value of `LogDensity` of a CARMA object: `-inf` outside the bounds, NaN where an error-free observation meets a process of
variance 0 -/
noncomputable def postVal (kind : Kind) (p : ℕ) (t y e : Fin n → ℝ) (sd fmax fmin lo hi : ℝ) (θ : List ℝ) : Dbl :=
  let ω : Fin p → ℂ := fun k => arRootSpec p (at0 θ) k
  let β := maPolySpec kind p lo hi θ
  if CarpBounds sd fmax fmin (List.ofFn ω) θ then
    if at0 θ 0 = 0 ∧ ∃ i, e i = 0 then .nan
    else .fin (logGauss (obsCov (fun d => at0 θ 0 ^ 2 * (responseAcf ω β d / responseAcf ω β 0)) t fun i => √(at0 θ 1) * e i)
      (fun i => y i - at0 θ 2) + (logPriorSpec θ + logitPrior kind p θ))
  else .ninf

/-- the same for CAR(1) -/
noncomputable def postVal1 (t y e : Fin n → ℝ) (sd fmax fmin : ℝ) (θ : List ℝ) : Dbl :=
  if Car1Bounds sd fmax fmin θ then
    if at0 θ 0 = 0 ∧ ∃ i, e i = 0 then .nan
    else .fin (logGauss (obsCov (fun d => at0 θ 0 ^ 2 * Real.exp (-Real.exp (at0 θ 3) * d)) t fun i => √(at0 θ 1) * e i)
      (fun i => y i - at0 θ 2) + logPriorSpec θ)
  else .ninf

theorem dbl_nan_add (x : Dbl) : Dbl.add .nan x = .nan := by cases x <;> rfl

theorem car1_post (srt : List ℝ → List ℕ) (hn : 2 ≤ n) {t : Fin n → ℝ} (ht : StrictMono t) (y e : Fin n → ℝ) :
    ∃ dmin span s, IsMinGap t dmin ∧ IsSpan t span ∧ 0 < dmin ∧ 0 < span ∧
      Car1.new srt (List.ofFn t) (List.ofFn y) (List.ofFn e) = .ok s ∧
      ∀ θ : List ℝ, 4 ≤ θ.length → ∃ s', logDensity s θ = .ok (s', postVal1 t y e (10 * √(sampleVar y)) (1 / dmin) (1 / span) θ) := by
  simp only [← armaVar_ofFn]
  obtain ⟨dmin, b, g1, g2, g3, g4, -, -, -, -, -, hb, hB⟩ := base_fresh hn ht y e
  obtain ⟨s, h1, h2⟩ := car1_fresh srt hn ht y e hb
  refine ⟨dmin, _, s, g1, g3, g2, by linarith, h1, fun θ hθ => ?_⟩
  have hc := car1_check hB.fmax hB.fmin hθ
  rw [hB.sd] at hc
  rw [postVal1]
  by_cases hbd : Car1Bounds (10 * √(armaVar (List.ofFn y))) (1 / dmin) (1 / (t ⟨n-1, by omega⟩ - t ⟨0, by omega⟩)) θ
  · rw [decide_eq_true hbd] at hc
    have hpos : 0 < at0 θ 1 := by have := hbd.err_lo; linarith
    obtain ⟨s', -, h3⟩ := (car1_ld_true (y := ext0 y) (e := ext0 e) h2 (by omega) le_rfl
      (fun i hi => strictMono_ext0 ht i hi) (by rw [hB.time]; simp) (by rw [hB.y, ofFn_eq_rangeMap])
      (by rw [hB.yerr, ofFn_eq_rangeMap]) hθ hc).1 rfl
    refine ⟨s', ?_⟩
    rw [h3, priorVal_pos hpos, likVal, if_pos hbd]
    have hdeg : (at0 θ 0 = 0 ∧ ∃ i < n, √(at0 θ 1) * ext0 e i = 0) ↔ (at0 θ 0 = 0 ∧ ∃ i, e i = 0) := by
      refine and_congr_right fun _ => ⟨?_, ?_⟩
      · rintro ⟨i, hi, h0⟩
        rw [ext0_of_lt e hi] at h0
        exact ⟨_, (mul_eq_zero.mp h0).resolve_left (Real.sqrt_pos.mpr hpos).ne'⟩
      · rintro ⟨i, h0⟩
        exact ⟨i, i.2, by rw [ext0_of_lt e i.2, h0, mul_zero]⟩
    by_cases hd : at0 θ 0 = 0 ∧ ∃ i, e i = 0
    · rw [if_pos (hdeg.mpr hd), if_pos hd, dbl_nan_add]
    · rw [if_neg (fun h => hd (hdeg.mp h)), if_neg hd]
      have hexp := Real.exp_pos (at0 θ 3)
      have e1 : car1Acf (2 * at0 θ 0 * at0 θ 0 * Real.exp (at0 θ 3)) (Real.exp (at0 θ 3)) =
          fun d => at0 θ 0 ^ 2 * Real.exp (-Real.exp (at0 θ 3) * d) := by
        funext d; rw [car1Acf]; congr 1; field_simp
      have e2 : fst n (fun i => √(at0 θ 1) * ext0 e i) = fun i => √(at0 θ 1) * e i := by funext i; simp [fst]
      have e3 : fst n (fun i => ext0 y i - at0 θ 2) = fun i => y i - at0 θ 2 := by funext i; simp [fst]
      rw [e1, e2, e3, fst_ext0, Dbl.add, logPriorSpec]
  · rw [decide_eq_false hbd] at hc
    rw [if_neg hbd]
    refine ⟨s, logDensity_false (s := s) ?_⟩
    show Car1.checkPrior s.b θ = _
    rw [h2.base]; exact hc

theorem carma_post (srt : List ℝ → List ℕ) (hn : 2 ≤ n) {t : Fin n → ℝ} (ht : StrictMono t) (y e : Fin n → ℝ) (hp : 2 ≤ p)
    (kind : Kind) (hk : OrderOk p kind) :
    ∃ dmin span s lo hi, IsMinGap t dmin ∧ IsSpan t span ∧ 0 < dmin ∧ 0 < span ∧ 0 < lo ∧ lo ≤ hi ∧
      CarP.new kind p srt (List.ofFn t) (List.ofFn y) (List.ofFn e) = .ok s ∧
      (kind = .zcarma → s.kappaLow = .fin lo ∧ s.kappaHigh = .fin hi ∧ hi = 1 / dmin) ∧
      ∀ θ : List ℝ, npar p kind ≤ θ.length →
        ∃ s', logDensity s θ = .ok (s', postVal kind p t y e (10 * √(sampleVar y)) (1 / dmin) (1 / span) lo hi θ) := by
  simp only [← armaVar_ofFn]
  obtain ⟨dmin, b, g1, g2, g3, g4, -, -, -, -, -, hb, hB⟩ := base_fresh hn ht y e
  obtain ⟨s, h1, h2, h3, h4⟩ := carp_fresh (show 0 < p by omega) srt hn ht y e hb kind
  have hkk : ∃ lo hi : ℝ, 0 < lo ∧ lo ≤ hi ∧ (kind = .zcarma → s.kappaLow = .fin lo ∧ s.kappaHigh = .fin hi ∧ hi = 1 / dmin) := by
    by_cases hk : kind = .zcarma
    · obtain ⟨d, lo, hi, k1, k2, k3, k4, k5, k6, k7, k8, k9⟩ := h4 hk
      exact ⟨lo, hi, k6, k7, fun _ => ⟨k2, k3, by rw [k4, k1.unique g1]⟩⟩
    · exact ⟨1, 2, one_pos, one_le_two, fun h => (hk h).elim⟩
  obtain ⟨lo, hi, hlo, hlh, hkap⟩ := hkk
  refine ⟨dmin, _, s, lo, hi, g1, g3, g2, by linarith, hlo, hlh, h1, hkap, fun θ hθ => ?_⟩
  have hkap2 : kind = .zcarma → s.kappaLow = .fin lo ∧ s.kappaHigh = .fin hi := fun h => ⟨(hkap h).1, (hkap h).2.1⟩
  have hl3 := npar_ge (p := p) kind
  obtain ⟨roots, hr', hg⟩ := rootsFrom_spec θ 3 p (by omega)
  have hr := arRoots_spec (p := p) (θ := θ) (by omega)
  cases hr.symm.trans hr'
  have hkind : s.kind = kind := h3.kind
  have hc := carp_check hB.fmax hB.fmin hB.ign (p := p) (θ := θ) (by omega) hr
  rw [hB.sd] at hc
  rw [postVal]
  generalize hω : (fun k : Fin p => arRootSpec p (at0 θ) k) = ω at *
  by_cases hbd : CarpBounds (10 * √(armaVar (List.ofFn y))) (1 / dmin) (1 / (t ⟨n-1, by omega⟩ - t ⟨0, by omega⟩)) (List.ofFn ω) θ
  · rw [decide_eq_true hbd] at hc
    have hpos : 0 < at0 θ 1 := by have := hbd.err_lo; linarith
    have hnd := bounds_nodup hg hbd
    have hc' : CarP.checkPrior s.b p s.orderLor θ = .ok true := by rw [h3.base, h3.lor]; exact hc
    rw [if_pos hbd]
    by_cases hd : at0 θ 0 = 0 ∧ ∃ i, e i = 0
    · rw [if_pos hd]
      obtain ⟨h0, i, hi0⟩ := hd
      obtain ⟨ma, q1, q2, q3, q4⟩ := extractMA_spec (s := s) (θ := θ) (show 0 < p by omega) h3.ma (by rw [hkind]; exact hk) hlo hlh
        (fun h => hkap2 (hkind ▸ h)) (by rw [hkind]; exact hθ)
      obtain ⟨s', -, h6⟩ := (carp_ld_distinct (y := ext0 y) (e := ext0 e) h2 hp (by omega) le_rfl (fun i hi => strictMono_ext0 ht i hi)
        (by rw [h3.base, hB.time]; simp) (by rw [h3.base, hB.y, ofFn_eq_rangeMap]) (by rw [h3.base, hB.yerr, ofFn_eq_rangeMap]) (by omega)
        hc' hr (hg.admissible hnd) q1 q2 (head_ne q3) (logPrior_spec (by rw [hkind]; exact hθ) hpos)).1 rfl
      refine ⟨s', ?_⟩
      rw [h6, if_neg (by linarith), likVal, if_pos ⟨h0, i, i.2, by rw [ext0_of_lt e i.2, hi0, mul_zero]⟩, nan_add]
    · rw [if_neg hd]
      have he : at0 θ 0 ≠ 0 ∨ ∀ i, e i ≠ 0 := by
        by_contra hcon
        push Not at hcon
        exact hd hcon
      obtain ⟨ma, m1, m2, m3, s', m4, m5⟩ := carp_value hp (by omega) ht h2 (by rw [h3.base, hB.time, List.length_ofFn]) (by rw [h3.base, hB.y])
        (by rw [h3.base, hB.yerr]) h3.ma (by rw [hkind]; exact hk) hlo hlh (fun h => hkap2 (hkind ▸ h))
        (by rw [hkind]; exact hθ) hc' hpos he hr hnd
      rw [hkind] at m3 m5
      refine ⟨s', ?_⟩
      rw [m5, vecOf_ofFn]
      simp only [impulse_response m3]
  · rw [decide_eq_false hbd] at hc
    rw [if_neg hbd]
    exact ⟨s, logDensity_false (s := s) (by show CarP.checkPrior s.b p s.orderLor θ = _; rw [h3.base, h3.lor]; exact hc)⟩

/-! ### bounds -/

lemma inUnits_0 {kind : Kind} {c k m : ℝ} {θ : List ℝ} (h : 3 ≤ θ.length) : at0 (inUnits p kind c k m θ) 0 = |k| * at0 θ 0 := by
  rw [inUnits_at _ _ _ _ _ (by omega)]; simp
lemma inUnits_1 {kind : Kind} {c k m : ℝ} {θ : List ℝ} (h : 3 ≤ θ.length) : at0 (inUnits p kind c k m θ) 1 = at0 θ 1 := by
  rw [inUnits_at _ _ _ _ _ (by omega)]; simp [timeDim]
lemma inUnits_2 {kind : Kind} {c k m : ℝ} {θ : List ℝ} (h : 3 ≤ θ.length) : at0 (inUnits p kind c k m θ) 2 = k * at0 θ 2 + m := by
  rw [inUnits_at _ _ _ _ _ (by omega)]; simp
lemma inUnits_ar {kind : Kind} {c k m : ℝ} {θ : List ℝ} (h : 3 + p ≤ θ.length) :
    ∀ j < p, at0 (inUnits p kind c k m θ) (3 + j) = at0 θ (3 + j) - factorDim p j * Real.log |c| := by
  intro j hj
  rw [inUnits_at _ _ _ _ _ (by omega), if_neg (by omega), if_neg (by omega)]
  unfold timeDim
  rw [if_neg (by omega), if_pos (by omega)]
  simp

lemma scale_units {kind : Kind} {c k m : ℝ} (hk : k ≠ 0) {θ : List ℝ} (h : 3 ≤ θ.length) (sd : ℝ) :
    ScaleBounds (|k| * sd) (inUnits p kind c k m θ) ↔ ScaleBounds sd θ := by
  have hk' := abs_pos.mpr hk
  constructor
  · rintro ⟨h1, h2, h3, h4⟩
    rw [inUnits_0 h] at h1 h2
    rw [inUnits_1 h] at h3 h4
    exact ⟨nonneg_of_mul_nonneg_right h1 hk', le_of_mul_le_mul_left h2 hk', h3, h4⟩
  · rintro ⟨h1, h2, h3, h4⟩
    refine ⟨?_, ?_, ?_, ?_⟩
    · rw [inUnits_0 h]; positivity
    · rw [inUnits_0 h]; exact mul_le_mul_of_nonneg_left h2 hk'.le
    · rw [inUnits_1 h]; exact h3
    · rw [inUnits_1 h]; exact h4

lemma car1Bounds_units {c k m : ℝ} (hc : c ≠ 0) (hk : k ≠ 0) {θ : List ℝ} (h : 4 ≤ θ.length) (sd : ℝ) (x y : ℝ) :
    Car1Bounds (|k| * sd) (1 / (|c| * x)) (1 / (|c| * y)) (inUnits 1 .carp c k m θ) ↔ Car1Bounds sd (1 / x) (1 / y) θ := by
  have hc' := abs_pos.mpr hc
  have e3 : Real.exp (at0 (inUnits 1 .carp c k m θ) 3) = Real.exp (at0 θ 3) / |c| := by
    rw [inUnits_ar (j := 0) (by omega) one_pos]
    simp only [factorDim]
    rw [if_neg (by omega), exp_sub_log hc', pow_one]
  have e4 : ∀ z, 1 / (|c| * z) = 1 / z / |c| := fun z => by rw [div_div, mul_comm]
  have hs := scale_units (p := 1) (kind := .carp) (c := c) (m := m) hk (show 3 ≤ θ.length by omega) sd
  constructor
  · rintro ⟨h0, h1, h2⟩
    rw [e3, e4] at h1 h2
    exact ⟨hs.mp h0, (div_le_div_iff_of_pos_right hc').mp h1, (div_le_div_iff_of_pos_right hc').mp h2⟩
  · rintro ⟨h0, h1, h2⟩
    refine ⟨hs.mpr h0, ?_, ?_⟩
    · rw [e3, e4]; exact (div_le_div_iff_of_pos_right hc').mpr h1
    · rw [e3, e4]; exact (div_le_div_iff_of_pos_right hc').mpr h2

lemma centOrder_map {c : ℝ} (hc : 0 < c) (tol : ℝ) (roots : List ℂ) : CentOrder tol (roots.map (· / (c : ℂ))) ↔ CentOrder (c * tol) roots := by
  have key : ∀ a b : ℂ, |(b / (c : ℂ)).im| / (2 * Real.pi) ≤ |(a / (c : ℂ)).im| / (2 * Real.pi) + tol ↔
      |b.im| / (2 * Real.pi) ≤ |a.im| / (2 * Real.pi) + c * tol := by
    intro a b
    rw [Complex.div_ofReal_im, Complex.div_ofReal_im, abs_div, abs_div, abs_of_pos hc]
    have e1 : |b.im| / c / (2 * Real.pi) = |b.im| / (2 * Real.pi) / c := by rw [div_right_comm]
    have e2 : |a.im| / c / (2 * Real.pi) + tol = (|a.im| / (2 * Real.pi) + c * tol) / c := by rw [div_right_comm]; field_simp
    rw [e1, e2, div_le_div_iff_of_pos_right hc]
  constructor
  · intro h i a b ha hb
    exact (key a b).mp (h i _ _ (by rw [List.getElem?_map, ha]; rfl) (by rw [List.getElem?_map, hb]; rfl))
  · intro h i a b ha hb
    rw [List.getElem?_map, Option.map_eq_some_iff] at ha hb
    obtain ⟨a, ha, rfl⟩ := ha
    obtain ⟨b, hb, rfl⟩ := hb
    exact (key a b).mpr (h i a b ha hb)

lemma carpBounds_iff (sd fmax fmin : ℝ) (roots : List ℂ) (θ : List ℝ) :
    CarpBounds sd fmax fmin roots θ ↔ LooseBounds sd fmax fmin roots θ ∧ CentOrder 1e-8 roots :=
  ⟨fun h => ⟨⟨h.toScaleBounds, h.cent, h.width, h.sep⟩, h.order⟩, fun h => ⟨h.1.toScaleBounds, h.1.cent, h.1.width, h.1.sep, h.2⟩⟩

lemma looseBounds_units {kind : Kind} {c k m : ℝ} (hc : c ≠ 0) (hk : k ≠ 0) {θ : List ℝ} (h : 3 + p ≤ θ.length) {roots : List ℂ}
    (sd x y : ℝ) :
    LooseBounds (|k| * sd) (1 / (|c| * x)) (1 / (|c| * y)) (roots.map (· / ((|c| : ℝ) : ℂ))) (inUnits p kind c k m θ) ↔
      LooseBounds sd (1 / x) (1 / y) roots θ := by
  have hc' := abs_pos.mpr hc
  have e4 : ∀ z, 1 / (|c| * z) = 1 / z / |c| := fun z => by rw [div_div, mul_comm]
  have hs := scale_units (p := p) (kind := kind) (c := c) (m := m) hk (show 3 ≤ θ.length by omega) sd
  have im : ∀ r : ℂ, |(r / ((|c| : ℝ) : ℂ)).im| / (2 * Real.pi) = |r.im| / (2 * Real.pi) / |c| := fun r => by
    rw [Complex.div_ofReal_im, abs_div, abs_abs, div_right_comm]
  have re : ∀ r : ℂ, -(r / ((|c| : ℝ) : ℂ)).re / (2 * Real.pi) = -r.re / (2 * Real.pi) / |c| := fun r => by
    rw [Complex.div_ofReal_re, ← neg_div, div_right_comm]
  have cne : ((|c| : ℝ) : ℂ) ≠ 0 := by exact_mod_cast hc'.ne'
  have sepiff : ∀ a b : ℂ, (a / ((|c| : ℝ) : ℂ) + b / ((|c| : ℝ) : ℂ) = 0 ∨
      1e-4 < ‖a / ((|c| : ℝ) : ℂ) - b / ((|c| : ℝ) : ℂ)‖ / ‖a / ((|c| : ℝ) : ℂ) + b / ((|c| : ℝ) : ℂ)‖) ↔
      (a + b = 0 ∨ 1e-4 < ‖a - b‖ / ‖a + b‖) := by
    intro a b
    rw [← add_div, ← sub_div, norm_div, norm_div, div_div_div_cancel_right₀ (norm_ne_zero_iff.mpr cne), div_eq_zero_iff]
    simp only [cne, or_false]
  constructor
  · intro hb
    refine ⟨hs.mp hb.toScaleBounds, fun r hr => ?_, fun r hr => ?_, ?_⟩
    · have := hb.cent _ (List.mem_map_of_mem hr)
      rw [im, e4] at this
      exact (div_lt_div_iff_of_pos_right hc').mp this
    · have := hb.width _ (List.mem_map_of_mem hr)
      rw [re, e4, e4] at this
      exact ⟨(div_lt_div_iff_of_pos_right hc').mp this.1, (div_lt_div_iff_of_pos_right hc').mp this.2⟩
    · have := hb.sep
      rw [List.pairwise_map] at this
      exact this.imp fun {a b} hab => (sepiff a b).mp hab
  · intro hb
    refine ⟨hs.mpr hb.toScaleBounds, fun r hr => ?_, fun r hr => ?_, ?_⟩
    · obtain ⟨r, hr0, rfl⟩ := List.mem_map.mp hr
      rw [im, e4]
      exact (div_lt_div_iff_of_pos_right hc').mpr (hb.cent r hr0)
    · obtain ⟨r, hr0, rfl⟩ := List.mem_map.mp hr
      rw [re, e4, e4]
      exact ⟨(div_lt_div_iff_of_pos_right hc').mpr (hb.width r hr0).1, (div_lt_div_iff_of_pos_right hc').mpr (hb.width r hr0).2⟩
    · rw [List.pairwise_map]
      exact hb.sep.imp fun {a b} hab => (sepiff a b).mpr hab

lemma carpBounds_units {kind : Kind} {c k m : ℝ} (hc : c ≠ 0) (hk : k ≠ 0) {θ : List ℝ} (h : 3 + p ≤ θ.length) {roots : List ℂ}
    (hord : CentOrder 1e-8 roots ↔ CentOrder (|c| * 1e-8) roots) (sd x y : ℝ) :
    CarpBounds (|k| * sd) (1 / (|c| * x)) (1 / (|c| * y)) (roots.map (· / ((|c| : ℝ) : ℂ))) (inUnits p kind c k m θ) ↔
      CarpBounds sd (1 / x) (1 / y) roots θ := by
  rw [carpBounds_iff, carpBounds_iff, looseBounds_units hc hk h, centOrder_map (abs_pos.mpr hc), hord]

/-! ### bounds of kappa -/

lemma perm_time {c a k m : ℝ} {t y e t' y' e' : Fin n → ℝ} {σ : Equiv.Perm (Fin n)} (ht : StrictMono t) (ht' : StrictMono t')
    (h : Rescaled c a k m t y e t' y' e' σ) (hc : c ≠ 0) :
    (0 < c ∧ ∀ i, σ i = i) ∨ (c < 0 ∧ ∀ i, σ i = i.rev) := by
  have uniq : ∀ τ : Equiv.Perm (Fin n), StrictMono τ → ∀ i, τ i = i := by
    intro τ hτ i
    have : ({ toEquiv := τ, map_rel_iff' := fun {a b} => hτ.le_iff_le } : Fin n ≃o Fin n) = OrderIso.refl _ := Subsingleton.elim _ _
    exact congrArg (fun f : Fin n ≃o Fin n => f i) this
  rcases lt_or_gt_of_ne hc with h0 | h0
  · right
    refine ⟨h0, fun i => ?_⟩
    have := uniq (Fin.revPerm.trans σ) (by
      intro i j hij
      have h1 := ht' (Fin.rev_lt_rev.mpr hij)
      have h2 := rescaled_order h j.rev i.rev
      have h3 : 0 < c * (t (σ i.rev) - t (σ j.rev)) := by rw [← h2]; linarith
      have h4 : t (σ i.rev) - t (σ j.rev) < 0 := by
        by_contra hcon
        push Not at hcon
        exact absurd h3 (not_lt.mpr (mul_nonpos_of_nonpos_of_nonneg h0.le hcon))
      exact ht.lt_iff_lt.mp (by simp; linarith)) i.rev
    simpa using this
  · left
    refine ⟨h0, uniq σ ?_⟩
    intro i j hij
    have h1 := ht' hij
    have h2 := rescaled_order h i j
    have h3 : 0 < c * (t (σ j) - t (σ i)) := by rw [← h2]; linarith
    exact ht.lt_iff_lt.mp (by have := (mul_pos_iff_of_pos_left h0).mp h3; linarith)

lemma median_units {l l' : List ℝ} {c x : ℝ} (hc : 0 < c) (h : l'.Perm (l.map (c * ·))) (hx : armaMedian l = .ok x) :
    armaMedian l' = .ok (c * x) := by
  rw [armaMedian] at hx ⊢
  have hlen : l'.length = l.length := by rw [h.length_eq, List.length_map]
  split at hx
  · cases hx
  · rename_i hne
    have hne' : l' ≠ [] := by
      intro h0; apply hne; rw [h0] at hlen; exact List.length_eq_zero_iff.mp hlen.symm
    rw [if_neg hne']
    have srt : ∀ l : List ℝ, (l.mergeSort (fun a b => decide (a ≤ b))).Pairwise (· ≤ ·) := by
      intro l
      have := List.pairwise_mergeSort (le := fun a b : ℝ => decide (a ≤ b))
        (fun a b c h1 h2 => by simp at *; exact le_trans h1 h2) (fun a b => by simp; exact le_total _ _) l
      exact this.imp fun h => by simpa using h
    have e : l'.mergeSort (fun a b => decide (a ≤ b)) = (l.mergeSort (fun a b => decide (a ≤ b))).map (c * ·) := by
      refine List.Perm.eq_of_pairwise (le := (· ≤ ·)) (fun a b _ _ h1 h2 => le_antisymm h1 h2) (srt l') ?_ ?_
      · rw [List.pairwise_map]
        exact (srt l).imp fun h => mul_le_mul_of_nonneg_left h hc.le
      · exact (List.mergeSort_perm _ _).trans (h.trans ((List.mergeSort_perm _ _).symm.map _))
    have g : ∀ i, (List.map (c * ·) (l.mergeSort (fun a b => decide (a ≤ b)))).getD i 0 = c * (l.mergeSort (fun a b => decide (a ≤ b))).getD i 0 := by
      intro i
      rw [List.getD_eq_getElem?_getD, List.getD_eq_getElem?_getD, List.getElem?_map]
      cases (l.mergeSort (fun a b => decide (a ≤ b)))[i]? <;> simp
    injection hx with hx
    simp only [e, hlen, g]
    rw [← hx]
    congr 1
    split <;> ring

lemma zcarma_inv {srt : List ℝ → List ℕ} {time y e : List ℝ} {s : CarP p} (h : CarP.new .zcarma p srt time y e = .ok s) :
    ∃ dt tmax tmin med, diffs time = .ok dt ∧ armaMax time = .ok tmax ∧ armaMin time = .ok tmin ∧ armaMedian dt = .ok med ∧
      s.kappaLow = Dbl.max (Dbl.div (.fin 1) (.fin (tmax - tmin))) (Dbl.div (.fin 1) (.fin (10 * med))) := by
  simp only [CarP.new, CarP.newZcarma] at h
  obtain ⟨s0, -, h⟩ := bind_ok_inv h
  obtain ⟨dt, h1, h⟩ := bind_ok_inv h
  obtain ⟨dmin, -, h⟩ := bind_ok_inv h
  obtain ⟨tmax, h2, h⟩ := bind_ok_inv h
  obtain ⟨tmin, h3, h⟩ := bind_ok_inv h
  obtain ⟨med, h4, h⟩ := bind_ok_inv h
  cases h
  exact ⟨dt, tmax, tmin, med, h1, h2, h3, h4, rfl⟩

lemma diffs_units {c a k m : ℝ} {t y e t' y' e' : Fin n → ℝ} {σ : Equiv.Perm (Fin n)} (hn : 2 ≤ n) (ht : StrictMono t) (ht' : StrictMono t')
    (h : Rescaled c a k m t y e t' y' e' σ) (hc : c ≠ 0) {dt dt' : List ℝ} (h1 : diffs (List.ofFn t) = .ok dt)
    (h2 : diffs (List.ofFn t') = .ok dt') : dt'.Perm (dt.map (|c| * ·)) := by
  rw [ofFn_eq_rangeMap, diffs_rangeMap hn] at h1 h2
  cases h1
  cases h2
  rcases perm_time ht ht' h hc with ⟨h0, hσ⟩ | ⟨h0, hσ⟩
  · rw [List.map_map]
    refine List.Perm.of_eq (List.map_congr_left fun i hi => ?_)
    have hi := List.mem_range.mp hi
    simp only [Function.comp]
    rw [ext0_of_lt _ (show i + 1 < n by omega), ext0_of_lt _ (show i < n by omega), ext0_of_lt _ (show i + 1 < n by omega),
      ext0_of_lt _ (show i < n by omega), rescaled_order h, hσ, hσ, abs_of_pos h0]
  · have : (List.range (n - 1)).map (fun i => ext0 t' (i + 1) - ext0 t' i) =
        (((List.range (n - 1)).map fun i => ext0 t (i + 1) - ext0 t i).map (|c| * ·)).reverse := by
      refine List.ext_getElem (by simp) fun i g1 g2 => ?_
      simp only [List.length_map, List.length_range] at g1
      simp only [List.getElem_map, List.getElem_range, List.getElem_reverse, List.length_map, List.length_range]
      rw [ext0_of_lt _ (show i + 1 < n by omega), ext0_of_lt _ (show i < n by omega), ext0_of_lt _ (show n - 1 - 1 - i + 1 < n by omega),
        ext0_of_lt _ (show n - 1 - 1 - i < n by omega), rescaled_order h, hσ, hσ, abs_of_neg h0]
      have a1 : (⟨i + 1, by omega⟩ : Fin n).rev = ⟨n - 1 - 1 - i, by omega⟩ := Fin.ext (by simp [Fin.val_rev]; omega)
      have a2 : (⟨i, by omega⟩ : Fin n).rev = ⟨n - 1 - 1 - i + 1, by omega⟩ := Fin.ext (by simp [Fin.val_rev]; omega)
      rw [a1, a2]; ring
    rw [this]
    exact List.reverse_perm _

lemma span_max {t : Fin n → ℝ} {tmax tmin : ℝ} (hn : 0 < n) (h1 : armaMax (List.ofFn t) = .ok tmax) (h2 : armaMin (List.ofFn t) = .ok tmin) :
    IsSpan t (tmax - tmin) := by
  have hne : List.ofFn t ≠ [] := by simp; omega
  obtain ⟨a, a1, a2, a3⟩ := armaMax_spec hne
  obtain ⟨b, b1, b2, b3⟩ := armaMin_spec hne
  cases h1.symm.trans a1
  cases h2.symm.trans b1
  obtain ⟨j, hj⟩ := (List.mem_ofFn' t _).mp a2
  obtain ⟨i, hi⟩ := (List.mem_ofFn' t _).mp b2
  refine ⟨⟨i, j, by rw [hi, hj]⟩, ?_⟩
  rintro x ⟨i', j', rfl⟩
  have g1 := a3 (show t j' ∈ {x | x ∈ List.ofFn t} from (List.mem_ofFn' t _).mpr ⟨j', rfl⟩)
  have g2 := b3 (show t i' ∈ {x | x ∈ List.ofFn t} from (List.mem_ofFn' t _).mpr ⟨i', rfl⟩)
  linarith

lemma dbl_max_fin (x y : ℝ) : Dbl.max (.fin x) (.fin y) = .fin (max x y) := by
  unfold Dbl.max
  split
  · rename_i h
    rw [max_eq_right (le_of_lt h)]
  · rename_i h
    rw [max_eq_left (not_lt.mp h)]

lemma kappa_units {srt srt' : List ℝ → List ℕ} {c a k m : ℝ} {t y e t' y' e' : Fin n → ℝ} {σ : Equiv.Perm (Fin n)} (hn : 2 ≤ n)
    (ht : StrictMono t) (ht' : StrictMono t') (h : Rescaled c a k m t y e t' y' e' σ) (hc : c ≠ 0) {s s' : CarP p}
    (h1 : CarP.new .zcarma p srt (List.ofFn t) (List.ofFn y) (List.ofFn e) = .ok s)
    (h2 : CarP.new .zcarma p srt' (List.ofFn t') (List.ofFn y') (List.ofFn e') = .ok s') {lo lo' : ℝ} (hlo : s.kappaLow = .fin lo)
    (hlo' : s'.kappaLow = .fin lo') : lo' = lo / |c| := by
  have hc' := abs_pos.mpr hc
  obtain ⟨dt, tmax, tmin, med, a1, a2, a3, a4, a5⟩ := zcarma_inv h1
  obtain ⟨dt', tmax', tmin', med', b1, b2, b3, b4, b5⟩ := zcarma_inv h2
  have hm := median_units hc' (diffs_units hn ht ht' h hc a1 b1) a4
  rw [b4] at hm
  injection hm with hm
  have hs := (span_max (by omega) b2 b3).unique (span_units hc h (span_max (by omega) a2 a3))
  rw [hs, hm] at b5
  rw [a5] at hlo
  rw [b5] at hlo'
  simp only [Dbl.div] at hlo hlo'
  by_cases z1 : tmax - tmin = 0
  · exfalso
    obtain ⟨-, h3⟩ := span_max (by omega : 0 < n) a2 a3
    have := h3 ⟨⟨0, by omega⟩, ⟨1, by omega⟩, rfl⟩
    have := ht (show (⟨0, by omega⟩ : Fin n) < ⟨1, by omega⟩ by simp)
    linarith
  · have z2 : |c| * (tmax - tmin) ≠ 0 := mul_ne_zero hc'.ne' z1
    rw [if_neg z1] at hlo
    rw [if_neg z2] at hlo'
    by_cases z3 : 10 * med = 0
    · have z4 : 10 * (|c| * med) = 0 := by rw [show 10 * (|c| * med) = |c| * (10 * med) by ring, z3, mul_zero]
      rw [if_pos z3] at hlo
      simp [Dbl.infTimes, Dbl.max, Dbl.lt] at hlo
    · have z4 : 10 * (|c| * med) ≠ 0 := by
        rw [show 10 * (|c| * med) = |c| * (10 * med) by ring]; exact mul_ne_zero hc'.ne' z3
      rw [if_neg z3] at hlo
      rw [if_neg z4] at hlo'
      have e1 : 1 / (|c| * (tmax - tmin)) = 1 / (tmax - tmin) / |c| := by rw [div_div, mul_comm]
      have e2 : 1 / (10 * (|c| * med)) = 1 / (10 * med) / |c| := by rw [div_div]; congr 1; ring
      rw [e1, e2] at hlo'
      rw [dbl_max_fin] at hlo hlo'
      injection hlo with hlo
      injection hlo' with hlo'
      rw [← hlo, ← hlo', max_div_div_right hc'.le]

/-! ### moving-average polynomial -/

lemma maPoly_units {kind : Kind} {c k m : ℝ} (hc : c ≠ 0) {θ : List ℝ} (h : npar p kind ≤ θ.length) {lo hi lo' hi' : ℝ}
    (hk : kind = .zcarma → lo' = lo / |c| ∧ hi' = hi / |c|) (z : ℂ) :
    maPolySpec kind p lo' hi' (inUnits p kind c k m θ) (z / ((|c| : ℝ) : ℂ)) = maPolySpec kind p lo hi θ z := by
  have hc' := abs_pos.mpr hc
  have cne : ((|c| : ℝ) : ℂ) ≠ 0 := by exact_mod_cast hc'.ne'
  cases kind with
  | carp => rfl
  | zcar => rfl
  | carma q =>
    simp only [npar] at h
    have hj : ∀ j < q, at0 (inUnits p (.carma q) c k m θ) (p + 3 + j) = at0 θ (p + 3 + j) - factorDim q j * Real.log |c| := by
      intro j hj
      rw [inUnits_at _ _ _ _ _ (by omega), if_neg (by omega), if_neg (by omega)]
      unfold timeDim
      rw [if_neg (by omega), if_neg (by omega)]
      simp only
      rw [if_pos (by omega)]
      simp
    have e1 := factorPoly_units hc' hj z
    have e2 := factorPoly_units hc' hj 0
    have ev : ∀ P : ℝ[X], ((P.eval 0 : ℝ) : ℂ) = (P.map Complex.ofRealHom).eval 0 := by
      intro P
      have := Polynomial.eval_map_apply (p := P) Complex.ofRealHom 0
      simp
    rw [zero_div] at e2
    simp only [maPolySpec, ev]
    rw [e1, e2, div_div_div_cancel_right₀ (pow_ne_zero q cne)]
  | zcarma =>
    simp only [npar] at h
    obtain ⟨rfl, rfl⟩ := hk rfl
    have h3 : at0 (inUnits p .zcarma c k m θ) (p + 3) = at0 θ (p + 3) := by
      rw [inUnits_at _ _ _ _ _ (by omega), if_neg (by omega), if_neg (by omega)]
      unfold timeDim
      rw [if_neg (by omega), if_neg (by omega)]
      simp
    simp only [maPolySpec, h3]
    congr 2
    have : lo / |c| + (hi / |c| - lo / |c|) / (1 + Real.exp (-at0 θ (p + 3))) =
        (lo + (hi - lo) / (1 + Real.exp (-at0 θ (p + 3)))) / |c| := by ring
    rw [this, Complex.ofReal_div, div_div_div_cancel_right₀ cne]

lemma logit_units {kind : Kind} {c k m : ℝ} {θ : List ℝ} (h : npar p kind ≤ θ.length) :
    logitPrior kind p (inUnits p kind c k m θ) = logitPrior kind p θ := by
  cases kind with
  | zcarma =>
    simp only [npar] at h
    have h3 : at0 (inUnits p .zcarma c k m θ) (p + 3) = at0 θ (p + 3) := by
      rw [inUnits_at _ _ _ _ _ (by omega), if_neg (by omega), if_neg (by omega)]
      unfold timeDim
      rw [if_neg (by omega), if_neg (by omega)]
      simp
    simp only [logitPrior, h3]
  | _ => rfl

/-! ### values -/

lemma err_zero_units {c a k m : ℝ} (hk : k ≠ 0) {t y e t' y' e' : Fin n → ℝ} {σ : Equiv.Perm (Fin n)}
    (h : Rescaled c a k m t y e t' y' e' σ) : (∃ i, e' i = 0) ↔ ∃ i, e i = 0 := by
  have hk' := abs_pos.mpr hk
  constructor
  · rintro ⟨i, hi⟩
    refine ⟨σ i, ?_⟩
    have := h.err i
    rw [hi, abs_zero] at this
    exact abs_eq_zero.mp ((mul_eq_zero.mp this.symm).resolve_left hk'.ne')
  · rintro ⟨i, hi⟩
    refine ⟨σ.symm i, ?_⟩
    have := h.err (σ.symm i)
    rw [Equiv.apply_symm_apply, hi, abs_zero, mul_zero] at this
    exact abs_eq_zero.mp this

lemma incr_ext0 {t : Fin n → ℝ} (ht : StrictMono t) (e : ℕ → ℝ) : Incr n (ext0 t) e :=
  fun i hi => ⟨(strictMono_ext0 ht i hi).le, Or.inl (strictMono_ext0 ht i hi)⟩

theorem postVal1_units {c a k m : ℝ} (hc : c ≠ 0) (hk : k ≠ 0) {t y e t' y' e' : Fin n → ℝ} {σ : Equiv.Perm (Fin n)} (ht : StrictMono t)
    (h : Rescaled c a k m t y e t' y' e' σ) {θ : List ℝ} (hθ : 4 ≤ θ.length) (sd dmin span : ℝ) :
    postVal1 t' y' e' (|k| * sd) (1 / (|c| * dmin)) (1 / (|c| * span)) (inUnits 1 .carp c k m θ) =
      (postVal1 t y e sd (1 / dmin) (1 / span) θ).add (.fin (-(n * Real.log |k|))) := by
  have hc' := abs_pos.mpr hc
  have hk' := abs_pos.mpr hk
  have hl : 3 ≤ θ.length := by omega
  rw [postVal1, postVal1]
  simp only [err_zero_units hk h, inUnits_0 hl, car1Bounds_units hc hk hθ]
  by_cases hb : Car1Bounds sd (1 / dmin) (1 / span) θ
  · rw [if_pos hb, if_pos hb]
    have hpos : 0 < at0 θ 1 := by have := hb.err_lo; linarith
    have hz : (|k| * at0 θ 0 = 0 ∧ ∃ i, e i = 0) ↔ (at0 θ 0 = 0 ∧ ∃ i, e i = 0) := by simp [hk]
    by_cases hd : at0 θ 0 = 0 ∧ ∃ i, e i = 0
    · rw [if_pos (hz.mpr hd), if_pos hd]; rfl
    · rw [if_neg (fun h => hd (hz.mp h)), if_neg hd, Dbl.add]
      congr 1
      have e3 : Real.exp (at0 (inUnits 1 .carp c k m θ) 3) = Real.exp (at0 θ 3) / |c| := by
        rw [inUnits_ar (j := 0) (by omega) one_pos]
        simp only [factorDim]
        rw [if_neg (by omega), exp_sub_log hc', pow_one]
      have hK : (obsCov (fun d => at0 θ 0 ^ 2 * Real.exp (-Real.exp (at0 θ 3) * d)) t fun i => √(at0 θ 1) * e i).PosDef := by
        have hexp := Real.exp_pos (at0 θ 3)
        have hx : 2 * at0 θ 0 * at0 θ 0 * Real.exp (at0 θ 3) = 2 * at0 θ 0 ^ 2 * Real.exp (at0 θ 3) := by ring
        have := (car1_realizes' (σ2 := 2 * at0 θ 0 * at0 θ 0 * Real.exp (at0 θ 3)) (by rw [hx]; positivity) hexp (ext0 t)
          (ext0 fun i => √(at0 θ 1) * e i) n (incr_ext0 ht _) (by
            by_cases h0 : at0 θ 0 = 0
            · right
              intro i hi
              rw [ext0_of_lt _ hi]
              exact mul_ne_zero (Real.sqrt_pos.mpr hpos).ne' fun h => hd ⟨h0, _, h⟩
            · left; rw [hx]; positivity)).posDef
        rw [fst_ext0, fst_ext0] at this
        have e1 : car1Acf (2 * at0 θ 0 * at0 θ 0 * Real.exp (at0 θ 3)) (Real.exp (at0 θ 3)) =
            fun d => at0 θ 0 ^ 2 * Real.exp (-Real.exp (at0 θ 3) * d) := by
          funext d; rw [car1Acf]; congr 1; field_simp
        rwa [e1] at this
      have hg := logGauss_units hk σ (K' := obsCov (fun d => (|k| * at0 θ 0) ^ 2 *
          Real.exp (-Real.exp (at0 (inUnits 1 .carp c k m θ) 3) * d)) t' fun i => √(at0 (inUnits 1 .carp c k m θ) 1) * e' i)
        (v := fun i => y i - at0 θ 2) (v' := fun i => y' i - at0 (inUnits 1 .carp c k m θ) 2) (by
          rw [inUnits_1 hl]
          refine obsCov_units h (fun d => ?_) _
          rw [e3, mul_pow, sq_abs]
          have : -(Real.exp (at0 θ 3) / |c|) * (|c| * d) = -Real.exp (at0 θ 3) * d := by field_simp
          rw [this]; ring) (fun i => by rw [inUnits_2 hl, h.val]; ring) hK.det_pos.ne'
      rw [hg, logPriorSpec, logPriorSpec, inUnits_1 hl]; ring
  · rw [if_neg hb, if_neg hb]; rfl

theorem postVal_units {kind : Kind} (hp : 2 ≤ p) (hok : OrderOk p kind) {c a k m : ℝ} (hc : c ≠ 0) (hk : k ≠ 0)
    {t y e t' y' e' : Fin n → ℝ} {σ : Equiv.Perm (Fin n)} (ht : StrictMono t)
    (h : Rescaled c a k m t y e t' y' e' σ) {θ : List ℝ} (hθ : npar p kind ≤ θ.length) {lo hi lo' hi' : ℝ} (hlo : 0 < lo) (hlh : lo ≤ hi)
    (hkap : kind = .zcarma → lo' = lo / |c| ∧ hi' = hi / |c|)
    (hord : CentOrder 1e-8 (List.ofFn fun j : Fin p => arRootSpec p (at0 θ) j) ↔
      CentOrder (|c| * 1e-8) (List.ofFn fun j : Fin p => arRootSpec p (at0 θ) j)) (sd dmin span : ℝ) :
    postVal kind p t' y' e' (|k| * sd) (1 / (|c| * dmin)) (1 / (|c| * span)) lo' hi' (inUnits p kind c k m θ) =
      (postVal kind p t y e sd (1 / dmin) (1 / span) lo hi θ).add (.fin (-(n * Real.log |k|))) := by
  have hc' := abs_pos.mpr hc
  have hk' := abs_pos.mpr hk
  have hl3 := npar_ge (p := p) kind
  have hl : 3 ≤ θ.length := by omega
  have hω : (fun j : Fin p => arRootSpec p (at0 (inUnits p kind c k m θ)) j) = fun j : Fin p => arRootSpec p (at0 θ) j / ((|c| : ℝ) : ℂ) :=
    funext fun j => arRootSpec_units hc' (inUnits_ar (by omega)) j
  have hmap : List.ofFn (fun j : Fin p => arRootSpec p (at0 θ) j / ((|c| : ℝ) : ℂ)) =
      (List.ofFn fun j : Fin p => arRootSpec p (at0 θ) j).map (· / ((|c| : ℝ) : ℂ)) := by
    rw [List.map_ofFn]; rfl
  obtain ⟨roots, hr', hgood⟩ := rootsFrom_spec θ 3 p (by omega)
  have hr := arRoots_spec (p := p) (θ := θ) (by omega)
  cases hr.symm.trans hr'
  rw [postVal, postVal]
  rw [hω, hmap]
  simp only [err_zero_units hk h, inUnits_0 hl, carpBounds_units hc hk (show 3 + p ≤ θ.length by omega) hord]
  generalize hωd : (fun j : Fin p => arRootSpec p (at0 θ) j) = ω at *
  have hωd' : ∀ j : Fin p, arRootSpec p (at0 θ) j = ω j := fun j => congrFun hωd j
  simp only [hωd']
  by_cases hb : CarpBounds sd (1 / dmin) (1 / span) (List.ofFn ω) θ
  · rw [if_pos hb, if_pos hb]
    have hpos : 0 < at0 θ 1 := by have := hb.err_lo; linarith
    have hz : (|k| * at0 θ 0 = 0 ∧ ∃ i, e i = 0) ↔ (at0 θ 0 = 0 ∧ ∃ i, e i = 0) := by simp [hk]
    by_cases hd : at0 θ 0 = 0 ∧ ∃ i, e i = 0
    · rw [if_pos (hz.mpr hd), if_pos hd]; rfl
    · rw [if_neg (fun h => hd (hz.mp h)), if_neg hd, Dbl.add]
      congr 1
      have hadm : Admissible ω := by
        have := hgood.admissible (bounds_nodup hgood hb)
        rwa [vecOf_ofFn] at this
      obtain ⟨ma, q2, q3, q4⟩ : ∃ ma : List ℝ, ma.length = p ∧ ma[0]? = some 1 ∧ ∀ z, maEval ma z = maPolySpec kind p lo hi θ z := by
        obtain ⟨ma, -, q2, q3, q4⟩ := extractMA_spec (s := (⟨⟨[], [], [], 0, .nan, .nan, false⟩,
          KFp.zeroed p (KFBase.raw [] [] [] 0) (fun _ => 0) [] 0, kind, carMA p, true, [], .fin lo, .fin hi⟩ : CarP p)) (θ := θ)
          (show 0 < p by omega) rfl hok hlo hlh (fun _ => ⟨rfl, rfl⟩) hθ
        exact ⟨ma, q2, q3, q4⟩
      have hacf : carmaAcf 1 ω ma = responseAcf ω (maPolySpec kind p lo hi θ) := funext fun d => impulse_response q4 d
      have hr0 : 0 < responseAcf ω (maPolySpec kind p lo hi θ) 0 := by
        rw [← hacf]; exact carmaAcf_pos hadm one_pos q2.le (head_ne q3)
      have hK : (obsCov (fun d => at0 θ 0 ^ 2 * (responseAcf ω (maPolySpec kind p lo hi θ) d / responseAcf ω (maPolySpec kind p lo hi θ) 0)) t
          fun i => √(at0 θ 1) * e i).PosDef := by
        have := (carma_realizes' hadm (σ2 := at0 θ 0 ^ 2 / responseAcf ω (maPolySpec kind p lo hi θ) 0) (by positivity)
          (obsRow_ne_zero hadm.inj q2 (head_ne q3)) (ext0 t) (ext0 fun i => √(at0 θ 1) * e i) n (incr_ext0 ht _) (by
            by_cases h0 : at0 θ 0 = 0
            · right
              intro i hi
              rw [ext0_of_lt _ hi]
              exact mul_ne_zero (Real.sqrt_pos.mpr hpos).ne' fun h => hd ⟨h0, _, h⟩
            · left; positivity)).posDef
        rw [fst_ext0, fst_ext0] at this
        have e1 : carmaAcf (at0 θ 0 ^ 2 / responseAcf ω (maPolySpec kind p lo hi θ) 0) ω ma = fun d => at0 θ 0 ^ 2 *
            (responseAcf ω (maPolySpec kind p lo hi θ) d / responseAcf ω (maPolySpec kind p lo hi θ) 0) := by
          funext d; rw [carmaAcf_scale, hacf]; ring
        rwa [e1] at this
      have hβ := maPoly_units (k := k) (m := m) hc hθ hkap
      have hacf' : ∀ d, responseAcf (fun j => ω j / ((|c| : ℝ) : ℂ)) (maPolySpec kind p lo' hi' (inUnits p kind c k m θ)) (|c| * d) =
          |c| * (|c| ^ (p - 1)) ^ 2 * responseAcf ω (maPolySpec kind p lo hi θ) d := responseAcf_units hc' hβ
      have hg := logGauss_units hk σ (K' := obsCov (fun d => (|k| * at0 θ 0) ^ 2 *
          (responseAcf (fun j => ω j / ((|c| : ℝ) : ℂ)) (maPolySpec kind p lo' hi' (inUnits p kind c k m θ)) d /
            responseAcf (fun j => ω j / ((|c| : ℝ) : ℂ)) (maPolySpec kind p lo' hi' (inUnits p kind c k m θ)) 0)) t'
          fun i => √(at0 (inUnits p kind c k m θ) 1) * e' i)
        (v := fun i => y i - at0 θ 2) (v' := fun i => y' i - at0 (inUnits p kind c k m θ) 2) (by
          rw [inUnits_1 hl]
          refine obsCov_units h (fun d => ?_) _
          have h0 := hacf' 0
          rw [mul_zero] at h0
          rw [hacf', h0, mul_div_mul_left _ _ (by positivity), mul_pow, sq_abs]; ring) (fun i => by rw [inUnits_2 hl, h.val]; ring) hK.det_pos.ne'
      rw [hg, logPriorSpec, logPriorSpec, inUnits_1 hl, logit_units hθ]; ring
  · rw [if_neg hb, if_neg hb]; rfl

end Verif.Theory
