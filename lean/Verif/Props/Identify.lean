import Verif.Theory.Alias
import Verif.Theory.Quirk
import Verif.Props.Density

/-! C86: does the posterior distinguish different parameters? -/

namespace Verif.Props

open Verif.Model Verif.Spec Verif.Theory Matrix

variable {n : ℕ}

/-- value of `LogDensity` of a new CAR(1) object -/
lemma ld1_value (srt : List ℝ → List ℕ) (hn : 2 ≤ n) {t : Fin n → ℝ} (ht : StrictMono t) (y e : Fin n → ℝ) :
    ∃ dmin span, IsMinGap t dmin ∧ IsSpan t span ∧ 0 < dmin ∧ 0 < span ∧
      ∀ θ : List ℝ, 4 ≤ θ.length → ld1 srt t y e θ = .ok (postVal1 t y e (10 * √(sampleVar y)) (1 / dmin) (1 / span) θ) := by
  obtain ⟨dmin, span, s, g1, g2, g3, g4, g5, g6⟩ := car1_post srt hn ht y e
  refine ⟨dmin, span, g1, g2, g3, g4, fun θ hθ => ?_⟩
  obtain ⟨s', h⟩ := g6 θ hθ
  rw [ld1, g5, res_bind_ok, h]
  rfl

/-- value of `LogDensity` of a new CARMA object -/
lemma ldp_value (srt : List ℝ → List ℕ) (hn : 2 ≤ n) {t : Fin n → ℝ} (ht : StrictMono t) (y e : Fin n → ℝ) {p : ℕ} (hp : 2 ≤ p)
    (kind : Kind) (hk : OrderOk p kind) :
    ∃ dmin span lo hi, IsMinGap t dmin ∧ IsSpan t span ∧ 0 < dmin ∧ 0 < span ∧
      ∀ θ : List ℝ, npar p kind ≤ θ.length →
        ldp kind p srt t y e θ = .ok (postVal kind p t y e (10 * √(sampleVar y)) (1 / dmin) (1 / span) lo hi θ) := by
  obtain ⟨dmin, span, s, lo, hi, g1, g2, g3, g4, -, -, g5, -, g6⟩ := carma_post srt hn ht y e hp kind hk
  refine ⟨dmin, span, lo, hi, g1, g2, g3, g4, fun θ hθ => ?_⟩
  obtain ⟨s', h⟩ := g6 θ hθ
  rw [ldp, g5, res_bind_ok, h]
  rfl

lemma postVal1_fin {t y e : Fin n → ℝ} {sd fmax fmin : ℝ} {θ : List ℝ} (hb : Car1Bounds sd fmax fmin θ) (h0 : at0 θ 0 ≠ 0) :
    postVal1 t y e sd fmax fmin θ =
      .fin (logGauss (obsCov (fun d => at0 θ 0 ^ 2 * Real.exp (-Real.exp (at0 θ 3) * d)) t fun i => √(at0 θ 1) * e i)
        (fun i => y i - at0 θ 2) + logPriorSpec θ) := by
  rw [postVal1, if_pos hb, if_neg fun h => h0 h.1]

lemma postVal1_bounds {t y e : Fin n → ℝ} {sd fmax fmin v : ℝ} {θ : List ℝ} (h : postVal1 t y e sd fmax fmin θ = .fin v) :
    Car1Bounds sd fmax fmin θ := by
  by_contra hb
  rw [postVal1, if_neg hb] at h
  cases h

/-- **C86, CAR(1).** Three or more measurements, at least one of them with an error, tell the parameters of CAR(1) apart. Take two
parameter vectors with standard deviations other than 0, each of finite log-posterior for some measurements. If their log-posteriors
differ by the same constant for all measurements at which both are finite, then the two vectors are equal. -/
theorem C86_car1_identified_partial (srt : List ℝ → List ℕ) (hn : 3 ≤ n) {t : Fin n → ℝ} (ht : StrictMono t) {e : Fin n → ℝ}
    (he : ∃ i, e i ≠ 0) {θ θ' : List ℝ} (hl : θ.length = 4) (hl' : θ'.length = 4) (h0 : at0 θ 0 ≠ 0) (h0' : at0 θ' 0 ≠ 0)
    (hf : ∃ y v, ld1 srt t y e θ = .ok (.fin v)) (hf' : ∃ y v, ld1 srt t y e θ' = .ok (.fin v)) {c : ℝ}
    (h : ∀ y v v', ld1 srt t y e θ = .ok (.fin v) → ld1 srt t y e θ' = .ok (.fin v') → v' = v + c) : θ = θ' := by
  have hn2 : 2 ≤ n := by omega
  obtain ⟨y0, v0, hf⟩ := hf
  obtain ⟨y1, v1, hf'⟩ := hf'
  obtain ⟨dmin, span, g1, g2, g3, g4, g5⟩ := ld1_value srt hn2 ht y0 e
  have hval : ∀ y θ, 4 ≤ θ.length → ld1 srt t y e θ = .ok (postVal1 t y e (10 * √(sampleVar y)) (1 / dmin) (1 / span) θ) := by
    intro y θ hθ
    obtain ⟨dmin', span', k1, k2, -, -, k5⟩ := ld1_value srt hn2 ht y e
    rw [k5 θ hθ, k1.unique g1, k2.unique g2]
  rw [hval _ _ hl.ge] at hf
  rw [hval _ _ hl'.ge] at hf'
  have hb := postVal1_bounds (Except.ok.inj hf)
  have hb' := postVal1_bounds (Except.ok.inj hf')
  have hs0 : 0 < at0 θ 0 := lt_of_le_of_ne hb.sd_lo (Ne.symm h0)
  have hs0' : 0 < at0 θ' 0 := lt_of_le_of_ne hb'.sd_lo (Ne.symm h0')
  have hs1 : 0 < at0 θ 1 := by have := hb.err_lo; linarith
  have hs1' : 0 < at0 θ' 1 := by have := hb'.err_lo; linarith
  have hgood : ∀ {θ : List ℝ}, 0 < at0 θ 0 →
      (obsCov (fun d => at0 θ 0 ^ 2 * Real.exp (-Real.exp (at0 θ 3) * d)) t fun i => √(at0 θ 1) * e i).PosDef := by
    intro θ h
    have hexp := Real.exp_pos (at0 θ 3)
    have hs : 0 < 2 * at0 θ 0 ^ 2 * Real.exp (at0 θ 3) := by positivity
    have := car1_good hs hexp
    have e1 : car1Acf (2 * at0 θ 0 ^ 2 * Real.exp (at0 θ 3)) (Real.exp (at0 θ 3)) =
        fun d => at0 θ 0 ^ 2 * Real.exp (-Real.exp (at0 θ 3) * d) := by
      funext d; rw [car1Acf]; congr 1; field_simp
    rw [e1] at this
    exact this.pos ht _
  have hK := hgood hs0
  have hK' := hgood hs0'
  set K := obsCov (fun d => at0 θ 0 ^ 2 * Real.exp (-Real.exp (at0 θ 3) * d)) t fun i => √(at0 θ 1) * e i with hKd
  set K' := obsCov (fun d => at0 θ' 0 ^ 2 * Real.exp (-Real.exp (at0 θ' 3) * d)) t fun i => √(at0 θ' 1) * e i with hKd'
  have hu : IsUnit K.det := (Matrix.isUnit_iff_isUnit_det _).mp hK.isUnit
  have hu' : IsUnit K'.det := (Matrix.isUnit_iff_isUnit_det _).mp hK'.isUnit
  obtain ⟨hinv, hmu⟩ := quad_ident (A := K⁻¹) (B := K'⁻¹) hn
    (by rw [transpose_nonsing_inv, hKd, obsCov_symm]) (by rw [transpose_nonsing_inv, hKd', obsCov_symm])
    (μ := at0 θ 2) (ν := at0 θ' 2)
    (c := 2 * (c - (-(1 / 2) * Real.log K'.det + logPriorSpec θ') + (-(1 / 2) * Real.log K.det + logPriorSpec θ)))
    (v := (at0 θ 0 + at0 θ' 0) ^ 2) (by
      intro y hy
      have hsd : at0 θ 0 + at0 θ' 0 ≤ 10 * √(sampleVar y) := by
        have h1 := Real.sqrt_le_sqrt hy
        rw [Real.sqrt_sq (by linarith)] at h1
        linarith [Real.sqrt_nonneg (sampleVar y)]
      have := h y _ _ ((hval y θ hl.ge).trans (congrArg _ (postVal1_fin
          (⟨⟨hb.sd_lo, by linarith, hb.err_lo, hb.err_hi⟩, hb.lo, hb.hi⟩ : Car1Bounds _ _ _ θ) h0)))
        ((hval y θ' hl'.ge).trans (congrArg _ (postVal1_fin
          (⟨⟨hb'.sd_lo, by linarith, hb'.err_lo, hb'.err_hi⟩, hb'.lo, hb'.hi⟩ : Car1Bounds _ _ _ θ') h0')))
      rw [← hKd, ← hKd', logGauss, logGauss] at this
      linarith)
  have hKK : K = K' := by
    rw [← nonsing_inv_nonsing_inv K hu, hinv, nonsing_inv_nonsing_inv K' hu']
  have hm : at0 θ 2 = at0 θ' 2 := by
    rw [← hinv, ← sub_eq_zero, ← sub_smul] at hmu
    have h1 : K⁻¹ *ᵥ (fun _ => (1 : ℝ)) ≠ 0 := by
      intro hz
      have : K *ᵥ (K⁻¹ *ᵥ fun _ => (1 : ℝ)) = fun _ => 1 := by rw [mulVec_mulVec, mul_nonsing_inv _ hu, one_mulVec]
      rw [hz, mulVec_zero] at this
      have := congrFun this ⟨0, by omega⟩
      norm_num at this
    exact sub_eq_zero.mp ((smul_eq_zero.mp hmu).resolve_right h1)
  obtain ⟨r1, r2, r3⟩ := car1_ident hn ht he hs0 hs0' hs1.le hs1'.le hKK
  have r2' := Real.exp_injective r2
  match θ, θ', hl, hl' with
  | [a, b, c, d], [a', b', c', d'], _, _ =>
    simp only [at0, List.getD_cons_succ, List.getD_cons_zero] at r1 r2' r3 hm
    rw [r1, r3, hm, r2']

/-- the example data and parameters have a finite log-posterior -/
example (srt : List ℝ → List ℕ) : ∃ y v, ld1 srt exT y (fun _ => 1) [1, 1, 0, -1] = .ok (.fin v) := by
  obtain ⟨dmin, span, g1, g2, g3, g4, g5⟩ := ld1_value srt (by norm_num) exT_mono exY fun _ => 1
  exact ⟨exY, _, (g5 _ (by simp)).trans (congrArg _ (postVal1_fin (ex_car1_bounds g1 g2) (by simp [at0])))⟩

/-- **C86, the two conditions on CAR(1).** Without measurement errors the error scale is not determined by the data, and with standard
deviation 0 the decay rate is not: in each case different values give log-posteriors whose difference is the same for all
measurements (and 0 in the second case). -/
theorem C86_car1_conditions (srt : List ℝ → List ℕ) (hn : 2 ≤ n) {t : Fin n → ℝ} (ht : StrictMono t) (σ s s' μ w w' : ℝ) :
    (0 < σ → ∃ c, ∀ y v v', ld1 srt t y 0 [σ, s, μ, w] = .ok (.fin v) → ld1 srt t y 0 [σ, s', μ, w] = .ok (.fin v') → v' = v + c) ∧
      ∀ y e v v', ld1 srt t y e [0, s, μ, w] = .ok (.fin v) → ld1 srt t y e [0, s, μ, w'] = .ok (.fin v') → v' = v := by
  refine ⟨fun h0 => ⟨logPriorSpec [σ, s', μ, w] - logPriorSpec [σ, s, μ, w], fun y v v' h h' => ?_⟩, fun y e v v' h h' => ?_⟩
  · obtain ⟨dmin, span, -, -, -, -, g5⟩ := ld1_value srt hn ht y 0
    rw [g5 _ (by simp)] at h h'
    have hb := postVal1_bounds (Except.ok.inj h)
    have hb' := postVal1_bounds (Except.ok.inj h')
    rw [postVal1_fin hb h0.ne'] at h
    rw [postVal1_fin hb' h0.ne'] at h'
    cases h
    cases h'
    have e0 : ∀ x : ℝ, (fun i : Fin n => √x * (0 : Fin n → ℝ) i) = 0 := fun x => by funext i; simp
    simp only [e0]
    simp only [at0, List.getD_cons_succ, List.getD_cons_zero]
    ring
  · obtain ⟨dmin, span, -, -, -, -, g5⟩ := ld1_value srt hn ht y e
    rw [g5 _ (by simp)] at h h'
    have hb := postVal1_bounds (Except.ok.inj h)
    have hb' := postVal1_bounds (Except.ok.inj h')
    rw [postVal1, if_pos hb] at h
    rw [postVal1, if_pos hb'] at h'
    by_cases he : ∃ i, e i = 0
    · rw [if_pos ⟨rfl, he⟩] at h; cases h
    · rw [if_neg fun h => he h.2] at h h'
      cases h
      cases h'
      have e0 : ∀ l : List ℝ, at0 (0 :: l) 0 = 0 := fun _ => rfl
      simp only [e0]
      simp [at0, logPriorSpec]

/-- **C86, CARMA(2,1) at evenly spaced times.** The property fails. The prior allows frequencies up to `1/dt_min`, which for evenly
spaced times is twice the Nyquist frequency. Two parameter vectors with roots `-a ± ib` and `-a ± i(2π/Δ - b)`, and the moving-average
coefficient `1/√(a² + b²)` of each, have the same finite log-posterior for all measurements and all measurement errors. -/
theorem C86_carma_alias_negation (srt : List ℝ → List ℕ) (hn : 3 ≤ n) (t0 : ℝ) {Δ : ℝ} (hΔ : 0 < Δ) (y e : Fin n → ℝ) {σ s μ a b : ℝ}
    (h0 : 0 < σ) (h1 : σ ≤ 10 * √(sampleVar y)) (h2 : 0.5 ≤ s) (h3 : s ≤ 2) (ha : 2 * Real.pi / (((n : ℝ) - 1) * Δ) < a)
    (ha' : a < 2 * Real.pi / Δ) (hb : 1e-4 * a < b) (hb' : b < 2 * Real.pi / Δ - 1e-4 * a) (hne : b ≠ Real.pi / Δ) :
    wave σ s μ a b ≠ wave σ s μ a (2 * Real.pi / Δ - b) ∧
      ∃ v, ldp (.carma 1) 2 srt (fun i : Fin n => t0 + i * Δ) y e (wave σ s μ a b) = .ok (.fin v) ∧
        ldp (.carma 1) 2 srt (fun i : Fin n => t0 + i * Δ) y e (wave σ s μ a (2 * Real.pi / Δ - b)) = .ok (.fin v) := by
  have hn' : (3 : ℝ) ≤ n := by exact_mod_cast hn
  have hpi := Real.pi_pos
  have hN : 0 < ((n : ℝ) - 1) * Δ := mul_pos (by linarith) hΔ
  have ha0 : 0 < a := lt_trans (by positivity) ha
  have hb0 : 0 < b := by linarith
  set b' := 2 * Real.pi / Δ - b with hbd
  have hb0' : 0 < b' := by rw [hbd]; linarith
  have ht : StrictMono fun i : Fin n => t0 + i * Δ := by
    intro i j hij
    have : ((i : ℕ) : ℝ) < ((j : ℕ) : ℝ) := by exact_mod_cast hij
    show t0 + _ < t0 + _
    nlinarith
  have hgap : IsMinGap (fun i : Fin n => t0 + i * Δ) Δ := by
    refine ⟨⟨⟨0, by omega⟩, ⟨1, by omega⟩, by simp [Fin.lt_def], by simp⟩, ?_⟩
    rintro x ⟨i, j, hij, rfl⟩
    have : ((i : ℕ) : ℝ) + 1 ≤ ((j : ℕ) : ℝ) := by exact_mod_cast hij
    show Δ ≤ t0 + _ - (t0 + _)
    nlinarith
  have hspan : IsSpan (fun i : Fin n => t0 + i * Δ) (((n : ℝ) - 1) * Δ) := by
    have hc : ((n - 1 : ℕ) : ℝ) = (n : ℝ) - 1 := by rw [Nat.cast_sub (by omega)]; simp
    refine ⟨⟨⟨0, by omega⟩, ⟨n - 1, by omega⟩, ?_⟩, ?_⟩
    · simp only [hc, Nat.cast_zero]; ring
    · rintro x ⟨i, j, rfl⟩
      have h1 : ((j : ℕ) : ℝ) ≤ ((n - 1 : ℕ) : ℝ) := by exact_mod_cast (by have := j.2; omega : (j : ℕ) ≤ n - 1)
      have h2 : (0 : ℝ) ≤ ((i : ℕ) : ℝ) := Nat.cast_nonneg _
      rw [hc] at h1
      show t0 + _ - (t0 + _) ≤ _
      nlinarith
  obtain ⟨dmin, span, lo, hi, g1, g2, -, -, g5⟩ := ldp_value srt (by omega) ht y e (p := 2) le_rfl (.carma 1) (show 1 < 2 by norm_num)
  cases g1.unique hgap
  cases g2.unique hspan
  have hfmin : 1 / (((n : ℝ) - 1) * Δ) < a / (2 * Real.pi) := by
    rw [div_lt_iff₀ hN] at ha
    rw [div_lt_div_iff₀ hN (by positivity)]
    linarith
  have hfmax : ∀ x, x < 2 * Real.pi / Δ → x / (2 * Real.pi) < 1 / Δ := by
    intro x hx
    rw [lt_div_iff₀ hΔ] at hx
    rw [div_lt_div_iff₀ (by positivity) hΔ]
    linarith
  have hB : CarpBounds (10 * √(sampleVar y)) (1 / Δ) (1 / (((n : ℝ) - 1) * Δ))
      (List.ofFn fun k : Fin 2 => arRootSpec 2 (at0 (wave σ s μ a b)) k) (wave σ s μ a b) :=
    wave_bounds ha0 hb0 h0.le h1 h2 h3 hfmin (hfmax a ha') (hfmax b (by linarith)) hb
  have hB' : CarpBounds (10 * √(sampleVar y)) (1 / Δ) (1 / (((n : ℝ) - 1) * Δ))
      (List.ofFn fun k : Fin 2 => arRootSpec 2 (at0 (wave σ s μ a b')) k) (wave σ s μ a b') :=
    wave_bounds ha0 hb0' h0.le h1 h2 h3 hfmin (hfmax a ha') (hfmax b' (by rw [hbd]; linarith)) (by rw [hbd]; linarith)
  have hz : ∀ x : ℝ, at0 (wave σ s μ a x) 0 = σ := fun _ => rfl
  have hcos : ∀ i j : Fin n, Real.cos (b' * |(t0 + i * Δ) - (t0 + j * Δ)|) = Real.cos (b * |(t0 + i * Δ) - (t0 + j * Δ)|) := by
    intro i j
    obtain ⟨m, hm⟩ : ∃ m : ℕ, |(t0 + i * Δ) - (t0 + j * Δ)| = m * Δ := by
      refine ⟨((i : ℤ) - (j : ℤ)).natAbs, ?_⟩
      have : (t0 + i * Δ) - (t0 + j * Δ) = (((i : ℤ) - (j : ℤ) : ℤ) : ℝ) * Δ := by push_cast; ring
      rw [this, abs_mul, abs_of_pos hΔ, ← Int.cast_abs, Int.abs_eq_natAbs]
      rfl
    have : b' * (m * Δ) = m * (2 * Real.pi) - b * (m * Δ) := by rw [hbd]; field_simp
    rw [hm, this, Real.cos_nat_mul_two_pi_sub]
  have hval : ∀ x, 0 < x → CarpBounds (10 * √(sampleVar y)) (1 / Δ) (1 / (((n : ℝ) - 1) * Δ))
      (List.ofFn fun k : Fin 2 => arRootSpec 2 (at0 (wave σ s μ a x)) k) (wave σ s μ a x) →
      ldp (.carma 1) 2 srt (fun i : Fin n => t0 + i * Δ) y e (wave σ s μ a x) =
        .ok (.fin (logGauss (obsCov (fun d => σ ^ 2 * (Real.exp (-a * d) * Real.cos (x * d))) (fun i : Fin n => t0 + i * Δ)
          fun i => √s * e i) (fun i => y i - μ) + (logPriorSpec (wave σ s μ a b) + 0))) := by
    intro x hx hBx
    refine (g5 _ (by simp [wave, npar])).trans (congrArg _ ?_)
    rw [postVal]
    rw [if_pos hBx, if_neg fun h => h0.ne' h.1]
    simp only [wave_corr ha0 hx]
    rfl
  refine ⟨?_, _, hval b hb0 hB, ?_⟩
  · intro hw
    have h4 : Real.log (a ^ 2 + b ^ 2) = Real.log (a ^ 2 + b' ^ 2) := by
      have := congrArg (fun l => at0 l 3) hw
      simpa [wave, at0] using this
    have h5 := Real.log_injOn_pos (Set.mem_Ioi.mpr (by positivity)) (Set.mem_Ioi.mpr (by positivity)) h4
    have h6 : b = b' := by
      have : b ^ 2 = b' ^ 2 := by linarith
      rcases sq_eq_sq_iff_eq_or_eq_neg.mp this with h | h
      · exact h
      · linarith
    apply hne
    rw [hbd] at h6
    have : 2 * b = 2 * (Real.pi / Δ) := by rw [← mul_div_assoc]; linarith
    linarith
  · rw [hval b' hb0' hB']
    have hcov : obsCov (fun d => σ ^ 2 * (Real.exp (-a * d) * Real.cos (b' * d))) (fun i : Fin n => t0 + i * Δ) (fun i => √s * e i) =
        obsCov (fun d => σ ^ 2 * (Real.exp (-a * d) * Real.cos (b * d))) (fun i : Fin n => t0 + i * Δ) (fun i => √s * e i) := by
      ext i j
      simp only [obsCov, of_apply, hcos i j]
    rw [hcov]

/-- times 0, 1, 2, measurements 1, 2, 4, decay rate `a = 4` and frequencies 2 and `2π - 2` -/
example : (0 : ℝ) < 1 ∧ (1 : ℝ) ≤ 10 * √(sampleVar ![1, 2, 4]) ∧ 2 * Real.pi / (((3 : ℕ) - 1) * 1) < 4 ∧ 4 < 2 * Real.pi / 1 ∧
    1e-4 * 4 < (2 : ℝ) ∧ 2 < 2 * Real.pi / 1 - 1e-4 * 4 ∧ (2 : ℝ) ≠ Real.pi / 1 := by
  have h1 := Real.pi_gt_three
  have h2 := Real.pi_lt_four
  have hv : 1 ≤ √(sampleVar ![1, 2, 4]) := by
    rw [Real.one_le_sqrt, sampleVar]
    simp [Fin.sum_univ_three]
    norm_num
  exact ⟨by norm_num, by linarith, by norm_num; linarith, by linarith, by norm_num, by norm_num; linarith, by intro h; linarith⟩

end Verif.Props
