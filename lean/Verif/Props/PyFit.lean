import Verif.Theory.PyFit
import Verif.Props.PySample
import Verif.Props.ErrorFree

/-!
Properties C61 and C62: what `assess_fit` shows. Specification: `Verif/Spec/Fit.lean`, `Verif/Spec/Gauss.lean` and `Verif/Spec/Carma.lean`.
-/

namespace Verif.Props

open Verif.Model Verif.Spec Verif.Theory Matrix

variable {p : ℕ}

/-! ### C61: standardized residuals -/

/-- There is only one whitening matrix: the covariance is determined by it. -/
lemma whitens_cov {n : ℕ} {K W : Matrix (Fin n) (Fin n) ℝ} (h : Whitens K W) : K = (Wᵀ * W)⁻¹ := by
  symm
  refine Matrix.inv_eq_left_inv ?_
  have h2 : W * (K * Wᵀ) = 1 := by rw [← Matrix.mul_assoc]; exact h.white
  rw [← Matrix.mul_assoc]
  exact mul_eq_one_comm.mp h2

/-- **C61, CARMA, the part that holds.** The standardized residuals of the best sample are the whitened centred values, for the covariance with
the measurement errors *as given*. The full property has the errors of the fitted model, `√scale · e`. -/
theorem C61_carma_residuals_partial (srt : List ℝ → List ℕ) {n : ℕ} (hn : 2 ≤ n) {t : Fin n → ℝ} (ht : StrictMono t)
    (y e : Fin n → ℝ) (hp : 2 ≤ p) {q : ℕ} (hq : q < p) {logpost : List Dbl} {rows : List (List ℝ)} {i : ℕ}
    (hi : FirstMax logpost i) {θ : List ℝ} (hrow : rows[i]? = some θ) (hθ : θ.length = 3 + p + q) (h0 : at0 θ 0 ≠ 0)
    {roots : List ℂ} (hr : arRoots p θ = .ok roots) (hnd : roots.Nodup) :
    ∃ (ω : Fin p → ℂ) (ma : List ℝ) (W : Matrix (Fin n) (Fin n) ℝ), List.ofFn ω = roots ∧ Admissible ω ∧
      (∀ z, maEval ma z = ((factorPoly (at0 θ) (3 + p) q).map Complex.ofRealHom).eval z / (factorPoly (at0 θ) (3 + p) q).coeff 0) ∧
      let R : ℝ → ℝ := fun d => at0 θ 0 ^ 2 * (carmaAcf 1 ω ma d / carmaAcf 1 ω ma 0)
      Whitens (obsCov R t e) W ∧
      Py.residuals (Py.mapFilter (p := p) srt (List.ofFn t) (List.ofFn y) (List.ofFn e) q logpost rows) (List.ofFn y) =
        .ok (List.ofFn (W *ᵥ fun i => y i - at0 θ 2)) := by
  obtain ⟨roots', hr', hg⟩ := rootsFrom_spec θ 3 p (by omega)
  cases hr.symm.trans hr'
  obtain ⟨ma, h1, h2, h3, h4, h5⟩ := mapFilter_spec srt y (List.ofFn t) (List.ofFn e) (by omega) hq hi hrow hθ hr hnd
  have hpos : 0 < carmaAcf 1 (vecOf p roots) ma 0 := carmaAcf_pos h3 one_pos h1 h2
  have hs : 0 < at0 θ 0 ^ 2 / carmaAcf 1 (vecOf p roots) ma 0 := by positivity
  obtain ⟨s, g1, g2⟩ := KFp.new_inv srt hn ht (fun i => y i - at0 θ 2) e (at0 θ 0 ^ 2 / carmaAcf 1 (vecOf p roots) ma 0) (vecOf p roots) ma
  obtain ⟨W, w1, w2, w3⟩ := (carma_realizes h3 hs (obsRow_ne_zero h3.inj (padMA_length h1) (padMA_ne h2)) (ext0 t) (ext0 e) n
    (incr_of_strictMono ht)).whitens
  have h6 := (KFp.exact hp hs h3 (padMA_length h1) (padMA_ne h2)).residuals (at0 θ 2) (by omega) (incr_of_strictMono ht) g2 w2 y
  have eR : carmaAcf (at0 θ 0 ^ 2 / carmaAcf 1 (vecOf p roots) ma 0) (vecOf p roots) ma =
      fun d => at0 θ 0 ^ 2 * (carmaAcf 1 (vecOf p roots) ma d / carmaAcf 1 (vecOf p roots) ma 0) := by
    funext d; rw [carmaAcf_scale]; ring
  refine ⟨vecOf p roots, ma, W, ofFn_vecOf hg.length, h3, h4, ?_⟩
  simp only [fst_ext0, carmaAcf_pad, eR] at h6 w1 w3
  refine ⟨w1, ?_⟩
  rw [h5, g1, res_bind_ok, h6]
  congr 2
  funext i
  exact (w3 (fun i => y i - at0 θ 2) i).symm

/-- **C61, CAR(1), the part that holds.** -/
theorem C61_car1_residuals_partial (srt : List ℝ → List ℕ) {n : ℕ} (hn : 2 ≤ n) {t : Fin n → ℝ} (ht : StrictMono t)
    (y e : Fin n → ℝ) {logpost : List Dbl} {rows : List (List ℝ)} {i : ℕ}
    (hi : FirstMax logpost i) {θ : List ℝ} (hrow : rows[i]? = some θ) (hθ : θ.length = 4) (h0 : at0 θ 0 ≠ 0) :
    ∃ W : Matrix (Fin n) (Fin n) ℝ, Whitens (obsCov (fun d => at0 θ 0 ^ 2 * Real.exp (-Real.exp (at0 θ 3) * d)) t e) W ∧
      Py.residuals (Py.mapFilter1 srt (List.ofFn t) (List.ofFn y) (List.ofFn e) logpost rows) (List.ofFn y) =
        .ok (List.ofFn (W *ᵥ fun i => y i - at0 θ 2)) := by
  have hexp := Real.exp_pos (at0 θ 3)
  have hs : 0 < 2 * at0 θ 0 ^ 2 * Real.exp (at0 θ 3) := by positivity
  obtain ⟨s, g1, g2⟩ := KF1.new_inv srt hn ht (fun i => y i - at0 θ 2) e (2 * at0 θ 0 ^ 2 * Real.exp (at0 θ 3)) (Real.exp (at0 θ 3))
  obtain ⟨W, w1, w2, w3⟩ := (car1_realizes hs hexp (ext0 t) (ext0 e) n (incr_of_strictMono ht)).whitens
  have h6 := (KF1.exact hs hexp).residuals (at0 θ 2) (by omega) (incr_of_strictMono ht) g2 w2 y
  have eR : car1Acf (2 * at0 θ 0 ^ 2 * Real.exp (at0 θ 3)) (Real.exp (at0 θ 3)) =
      fun d => at0 θ 0 ^ 2 * Real.exp (-Real.exp (at0 θ 3) * d) := by
    funext d; simp only [car1Acf]; congr 1; field_simp
  simp only [fst_ext0, eR] at h6 w1 w3
  refine ⟨W, w1, ?_⟩
  rw [mapFilter1_spec srt y (List.ofFn t) (List.ofFn e) hi hrow hθ, g1, res_bind_ok, h6]
  congr 2
  funext i
  exact (w3 (fun i => y i - at0 θ 2) i).symm

/-- **C61.** The squares of the residuals add up to the quadratic form of the Gaussian density. -/
theorem C61_sum_of_squares {n : ℕ} {K W : Matrix (Fin n) (Fin n) ℝ} (h : Whitens K W) (y : Fin n → ℝ) :
    ∑ i, (W *ᵥ y) i ^ 2 = y ⬝ᵥ (K⁻¹ *ᵥ y) := Theory.Whitens.sum_sq h y

/-- **C61 fails.** With a fitted error scale other than 1 and some measurement error that is not 0, the matrix of the two theorems above does not
whiten the covariance of the fitted model: the residuals are not white under it. -/
theorem C61_negation {n : ℕ} {R : ℝ → ℝ} {t e : Fin n → ℝ} {W : Matrix (Fin n) (Fin n) ℝ} (h : Whitens (obsCov R t e) W) {scale : ℝ}
    (hs : 0 ≤ scale) (h1 : scale ≠ 1) {i : Fin n} (he : e i ≠ 0) : ¬ Whitens (obsCov R t fun i => √scale * e i) W := by
  intro h'
  have hK := (whitens_cov h).trans (whitens_cov h').symm
  have hii := congrFun (congrFun hK i) i
  simp only [obsCov, Matrix.of_apply, if_true, mul_pow, Real.sq_sqrt hs] at hii
  have h2 : (scale - 1) * e i ^ 2 = 0 := by linarith
  rcases mul_eq_zero.mp h2 with h3 | h3
  · exact h1 (by linarith)
  · exact he (by simpa using h3)

/-- the hypotheses of the CARMA(2,1) and CAR(1) cases: the examples of C55; for the negation: data of C05, error scale 2 -/
example : ∃ W : Matrix (Fin 3) (Fin 3) ℝ, Whitens (obsCov (fun d => at0 [1, 2, 0, 0] 0 ^ 2 * Real.exp (-Real.exp (at0 [1, 2, 0, 0] 3) * d)) exT exY) W ∧
    exY 1 ≠ 0 ∧ (2 : ℝ) ≠ 1 ∧ (0 : ℝ) ≤ 2 := by
  obtain ⟨W, h, -⟩ := C61_car1_residuals_partial (fun _ => [0, 1, 2]) (by norm_num) exT_mono exY exY (logpost := [.fin 0]) (rows := [[1, 2, 0, 0]]) (i := 0)
    (θ := [1, 2, 0, 0]) ⟨by simp, .fin 0, rfl, by simp [Dbl.lt], by omega⟩ rfl rfl (by simp [at0])
  exact ⟨W, h, by simp [exY], by norm_num, by norm_num⟩

/-! ### C62: the curve and the autocorrelations -/

/-- **C62, the times of the curve.** They run from 1.001 times the first time to the last time in equal steps. They stay inside the
observed range exactly when the first time is not negative and 1.001 times the first time is not after the last one, and they begin at
the first observation exactly when its time is 0. -/
theorem C62_grid {n : ℕ} {t : Fin (n + 1) → ℝ} (ht : Monotone t) {m : ℕ} (hm : 2 ≤ m) :
    ∃ g, Py.fitGrid (List.ofFn t) m = .ok g ∧ g.length = m ∧
      (∀ k < m, g[k]? = some (1.001 * t 0 + k / ((m : ℝ) - 1) * (t (Fin.last n) - 1.001 * t 0))) ∧
      ((∀ x ∈ g, t 0 ≤ x ∧ x ≤ t (Fin.last n)) ↔ 0 ≤ t 0 ∧ 1.001 * t 0 ≤ t (Fin.last n)) ∧
      (g[0]? = some (t 0) ↔ t 0 = 0) ∧ g[m - 1]? = some (t (Fin.last n)) := by
  obtain ⟨h1, h2, h3, h4, h5⟩ := linspace_spec (1.001 * t 0) (t (Fin.last n)) hm
  refine ⟨_, by rw [Py.fitGrid, arrMin_ofFn ht, res_bind_ok, arrMax_ofFn ht, res_bind_ok]; rfl, h1, h4, ⟨fun h => ?_, fun h x hx => ?_⟩, ?_, h3⟩
  · have := h _ (List.mem_of_getElem? h2)
    exact ⟨by linarith [this.1], this.2⟩
  · have := h5 x hx
    rw [min_eq_left h.2, max_eq_right h.2] at this
    exact ⟨by linarith [this.1], this.2⟩
  · rw [h2, Option.some_inj]
    constructor <;> intro h <;> linarith

/-- **C62 fails for the curve, negative times.** The curve begins before the first observation. -/
theorem C62_grid_negation_before : ∃ g x, Py.fitGrid [-1000, 0] 256 = .ok g ∧ x ∈ g ∧ x < -1000 := by
  obtain ⟨g, h1, -, h2, -⟩ := C62_grid (t := ![-1000, 0]) (Fin.monotone_iff_le_succ.mpr fun i => by fin_cases i; simp) (m := 256) (by norm_num)
  have e : List.ofFn ![(-1000 : ℝ), 0] = [-1000, 0] := by simp [List.ofFn_succ]
  refine ⟨g, _, e ▸ h1, List.mem_of_getElem? (h2 0 (by norm_num)), ?_⟩
  simp; norm_num

/-- **C62 fails for the curve, times far from 0.** Fifty days of Julian dates: the curve lies after the last observation, except for its last point. -/
theorem C62_grid_negation_after : ∃ g, Py.fitGrid [55000, 55050] 256 = .ok g ∧ ∀ k < 255, ∃ x, g[k]? = some x ∧ 55050 < x := by
  obtain ⟨g, h1, -, h2, -⟩ := C62_grid (t := ![55000, 55050]) (Fin.monotone_iff_le_succ.mpr fun i => by fin_cases i; simp; norm_num) (m := 256) (by norm_num)
  have e : List.ofFn ![(55000 : ℝ), 55050] = [55000, 55050] := by simp [List.ofFn_succ]
  refine ⟨g, e ▸ h1, fun k hk => ⟨_, h2 k (by omega), ?_⟩⟩
  have hk' : (k : ℝ) < 255 := by exact_mod_cast hk
  have : (k : ℝ) / (((256 : ℕ) : ℝ) - 1) < 1 := by rw [div_lt_one (by norm_num)]; norm_num; linarith
  have h0 : Fin.last 1 = 1 := rfl
  simp only [h0, Matrix.cons_val_zero, Matrix.cons_val_one]
  norm_num at this ⊢
  linarith

/-- **C62.** The autocorrelations: value 1 at lag 0, the same at `-k` and `k`, never beyond 1. -/
theorem C62_acorr {n : ℕ} {x : Fin n → ℝ} (h : x ≠ 0) {m : ℕ} (hm : 1 ≤ m) (hn : m < n) :
    ∃ l, Py.acorr (List.ofFn x) m = .ok l ∧ l.length = 2 * m + 1 ∧ l[m]? = some 1 ∧
      (∀ k ≤ m, l[m + k]? = some (sampleAcf x k) ∧ l[m - k]? = some (sampleAcf x k)) ∧ ∀ c ∈ l, |c| ≤ 1 := by
  refine ⟨_, acorr_ofFn h hm hn, by simp, ?_, fun k hk => ⟨?_, ?_⟩, fun c hc => ?_⟩
  · rw [List.getElem?_map, List.getElem?_range (by omega)]
    simp [sampleAcf_zero h]
  · rw [List.getElem?_map, List.getElem?_range (by omega)]
    simp only [Option.map_some]
    congr 2
    split_ifs <;> omega
  · rw [List.getElem?_map, List.getElem?_range (by omega)]
    simp only [Option.map_some]
    congr 2
    split_ifs <;> omega
  · obtain ⟨j, -, rfl⟩ := List.mem_map.mp hc
    exact sampleAcf_le x _

/-- **C62.** With at most fifty observations `assess_fit` never returns a figure, whatever the sample. -/
theorem C62_short_raises {σ : Type} [Kalman σ] (fm : Res (σ × ℝ)) (time : List ℝ) {y : List ℝ} (h : y.length ≤ 50) (nplot : ℕ) (f : Py.FitPlot) :
    Py.assessFit fm time y nplot ≠ .ok f := assessFit_short fm time h nplot f

/-- three observations -/
example : [(0 : ℝ), 1, 2].length ≤ 50 ∧ (![1, 2, 3] : Fin 3 → ℝ) ≠ 0 := by
  refine ⟨by norm_num, fun h => ?_⟩
  have := congrFun h 0
  simp at this

/-- **C62, CAR(1), the part that holds.** More than fifty observations, no point of the curve at an error-free observation: `assess_fit` shows the
exact conditional mean with a band of one conditional standard deviation, the whitened values and their sample autocorrelations, or NaN
when all squared residuals are equal. -/
theorem C62_car1_returns_partial (srt : List ℝ → List ℕ) {n : ℕ} (hn : 50 < n) {t : Fin n → ℝ} (ht : StrictMono t)
    (y e : Fin n → ℝ) {logpost : List Dbl} {rows : List (List ℝ)} {i : ℕ}
    (hi : FirstMax logpost i) {θ : List ℝ} (hrow : rows[i]? = some θ) (hθ : θ.length = 4) (h0 : at0 θ 0 ≠ 0) {nplot : ℕ} {g : List ℝ}
    (hg : Py.fitGrid (List.ofFn t) nplot = .ok g) (hx : ∀ x ∈ g, ∀ i, t i = x → e i ≠ 0) :
    let R : ℝ → ℝ := fun d => at0 θ 0 ^ 2 * Real.exp (-Real.exp (at0 θ 3) * d)
    let z : Fin n → ℝ := fun i => y i - at0 θ 2
    ∃ W : Matrix (Fin n) (Fin n) ℝ, Whitens (obsCov R t e) W ∧
      let res := Py.assessFit (Py.mapFilter1 srt (List.ofFn t) (List.ofFn y) (List.ofFn e) logpost rows) (List.ofFn t) (List.ofFn y) nplot
      ((∀ i j, (W *ᵥ z) i ^ 2 = (W *ᵥ z) j ^ 2) → res = .error .nonfinite) ∧
      ((∃ i j, (W *ᵥ z) i ^ 2 ≠ (W *ᵥ z) j ^ 2) → ∃ f, res = .ok f ∧ f.grid = g ∧
        f.mean = g.map (fun x => predMean R t e z x + at0 θ 2) ∧
        f.low = g.map (fun x => predMean R t e z x + at0 θ 2 - √(predVar R t e x)) ∧
        f.high = g.map (fun x => predMean R t e z x + at0 θ 2 + √(predVar R t e x)) ∧
        f.resid = List.ofFn (W *ᵥ z) ∧ f.noise = 1.96 / √(n : ℝ) ∧
        ∀ k ≤ 50, f.acf[50 + k]? = some (sampleAcf (W *ᵥ z) k) ∧
          f.acfSq[50 + k]? = some (sampleAcf (fun i => (W *ᵥ z) i ^ 2 - (∑ j, (W *ᵥ z) j ^ 2) / n) k)) := by
  intro R z
  obtain ⟨W, w1, w2⟩ := C61_car1_residuals_partial srt (by omega) ht y e hi hrow hθ h0
  have hp := C55_car1_predict_partial srt (by omega) ht y e hi hrow hθ h0 g hx
  have hexp := Real.exp_pos (at0 θ 3)
  have hs : 0 < 2 * at0 θ 0 ^ 2 * Real.exp (at0 θ 3) := by positivity
  obtain ⟨s, g1, g2⟩ := KF1.new_inv srt (by omega) ht (fun i => y i - at0 θ 2) e (2 * at0 θ 0 ^ 2 * Real.exp (at0 θ 3)) (Real.exp (at0 θ 3))
  have eR : car1Acf (2 * at0 θ 0 ^ 2 * Real.exp (at0 θ 3)) (Real.exp (at0 θ 3)) = R := by
    funext d; simp only [car1Acf, R]; congr 1; field_simp
  have hv : ∀ x ∈ g, 0 < predVar R t e x := fun x hxg => by
    have := (KF1.exact hs hexp).predVar_pos x g2 (by omega) (incr_of_strictMono ht) (fun i hi => by
      rw [ext0_of_lt t hi, ext0_of_lt e hi]; exact hx x hxg _)
    simpa only [fst_ext0, eR] using this
  refine ⟨W, w1, fun heq => assessFit_equal hg hp hv w2 hn heq, fun hne => ⟨_, assessFit_of hg hp hv w2 hn hne, rfl, rfl, rfl, rfl, rfl, rfl, fun k hk => ?_⟩⟩
  simp only [acf50]
  rw [List.getElem?_map, List.getElem?_map, List.getElem?_range (by omega)]
  simp only [Option.map_some]
  have : (if 50 + k ≤ 50 then 50 - (50 + k) else 50 + k - 50) = k := by split_ifs <;> omega
  rw [this]
  exact ⟨rfl, rfl⟩

/-- **C62, CARMA, the part that holds.** -/
theorem C62_carma_returns_partial (srt : List ℝ → List ℕ) {n : ℕ} (hn : 50 < n) {t : Fin n → ℝ} (ht : StrictMono t)
    (y e : Fin n → ℝ) (hp : 2 ≤ p) {q : ℕ} (hq : q < p) {logpost : List Dbl} {rows : List (List ℝ)} {i : ℕ}
    (hi : FirstMax logpost i) {θ : List ℝ} (hrow : rows[i]? = some θ) (hθ : θ.length = 3 + p + q) (h0 : at0 θ 0 ≠ 0)
    {roots : List ℂ} (hr : arRoots p θ = .ok roots) (hnd : roots.Nodup) {nplot : ℕ} {g : List ℝ}
    (hg : Py.fitGrid (List.ofFn t) nplot = .ok g) (hx : ∀ x ∈ g, ∀ i, t i = x → e i ≠ 0) :
    ∃ (ω : Fin p → ℂ) (ma : List ℝ) (W : Matrix (Fin n) (Fin n) ℝ), List.ofFn ω = roots ∧ Admissible ω ∧
      (∀ z, maEval ma z = ((factorPoly (at0 θ) (3 + p) q).map Complex.ofRealHom).eval z / (factorPoly (at0 θ) (3 + p) q).coeff 0) ∧
      let R : ℝ → ℝ := fun d => at0 θ 0 ^ 2 * (carmaAcf 1 ω ma d / carmaAcf 1 ω ma 0)
      let z : Fin n → ℝ := fun i => y i - at0 θ 2
      Whitens (obsCov R t e) W ∧
      let res := Py.assessFit (Py.mapFilter (p := p) srt (List.ofFn t) (List.ofFn y) (List.ofFn e) q logpost rows) (List.ofFn t) (List.ofFn y) nplot
      ((∀ i j, (W *ᵥ z) i ^ 2 = (W *ᵥ z) j ^ 2) → res = .error .nonfinite) ∧
      ((∃ i j, (W *ᵥ z) i ^ 2 ≠ (W *ᵥ z) j ^ 2) → ∃ f, res = .ok f ∧ f.grid = g ∧
        f.mean = g.map (fun x => predMean R t e z x + at0 θ 2) ∧
        f.low = g.map (fun x => predMean R t e z x + at0 θ 2 - √(predVar R t e x)) ∧
        f.high = g.map (fun x => predMean R t e z x + at0 θ 2 + √(predVar R t e x)) ∧
        f.resid = List.ofFn (W *ᵥ z) ∧ f.noise = 1.96 / √(n : ℝ) ∧
        ∀ k ≤ 50, f.acf[50 + k]? = some (sampleAcf (W *ᵥ z) k) ∧
          f.acfSq[50 + k]? = some (sampleAcf (fun i => (W *ᵥ z) i ^ 2 - (∑ j, (W *ᵥ z) j ^ 2) / n) k)) := by
  obtain ⟨roots', hr', hgd⟩ := rootsFrom_spec θ 3 p (by omega)
  cases hr.symm.trans hr'
  obtain ⟨ma, h1, h2, h3, h4, h5⟩ := mapFilter_spec srt y (List.ofFn t) (List.ofFn e) (by omega) hq hi hrow hθ hr hnd
  have hpos : 0 < carmaAcf 1 (vecOf p roots) ma 0 := carmaAcf_pos h3 one_pos h1 h2
  have hs : 0 < at0 θ 0 ^ 2 / carmaAcf 1 (vecOf p roots) ma 0 := by positivity
  obtain ⟨s, g1, g2⟩ := KFp.new_inv srt (by omega) ht (fun i => y i - at0 θ 2) e (at0 θ 0 ^ 2 / carmaAcf 1 (vecOf p roots) ma 0) (vecOf p roots) ma
  obtain ⟨W, w1, w2, w3⟩ := (carma_realizes h3 hs (obsRow_ne_zero h3.inj (padMA_length h1) (padMA_ne h2)) (ext0 t) (ext0 e) n
    (incr_of_strictMono ht)).whitens
  have E := KFp.exact hp hs h3 (padMA_length h1) (padMA_ne h2)
  have hx' : ∀ x ∈ g, ∀ i < n, ext0 t i = x → ext0 e i ≠ 0 := fun x hxg i hi => by
    rw [ext0_of_lt t hi, ext0_of_lt e hi]; exact hx x hxg _
  have h6 := E.residuals (at0 θ 2) (by omega) (incr_of_strictMono ht) g2 w2 y
  have h7 := E.predictAll (at0 θ 2) (by omega) (incr_of_strictMono ht) g g2 hx'
  have hv := fun x hxg => E.predVar_pos x g2 (by omega) (incr_of_strictMono ht) (hx' x hxg)
  have eR : carmaAcf (at0 θ 0 ^ 2 / carmaAcf 1 (vecOf p roots) ma 0) (vecOf p roots) ma =
      fun d => at0 θ 0 ^ 2 * (carmaAcf 1 (vecOf p roots) ma d / carmaAcf 1 (vecOf p roots) ma 0) := by
    funext d; rw [carmaAcf_scale]; ring
  simp only [fst_ext0, carmaAcf_pad, eR] at h6 h7 hv w1 w3
  have h8 : Py.residuals (.ok (s, at0 θ 2)) (List.ofFn y) = .ok (List.ofFn (W *ᵥ fun i => y i - at0 θ 2)) := by
    rw [h6]
    congr 2
    funext i
    exact (w3 (fun i => y i - at0 θ 2) i).symm
  refine ⟨vecOf p roots, ma, W, ofFn_vecOf hgd.length, h3, h4, w1, ?_⟩
  rw [h5, g1, res_bind_ok]
  refine ⟨fun heq => assessFit_equal hg h7 hv h8 hn heq, fun hne => ⟨_, assessFit_of hg h7 hv h8 hn hne, rfl, rfl, rfl, rfl, rfl, rfl, fun k hk => ?_⟩⟩
  simp only [acf50]
  rw [List.getElem?_map, List.getElem?_map, List.getElem?_range (by omega)]
  simp only [Option.map_some]
  have : (if 50 + k ≤ 50 then 50 - (50 + k) else 50 + k - 50) = k := by split_ifs <;> omega
  rw [this]
  exact ⟨rfl, rfl⟩

/-- **C62 fails when the last observation has no measurement error.** The curve always ends at the last observation, so its last value is NaN. -/
theorem C62_car1_errorFree_negation (srt : List ℝ → List ℕ) {n : ℕ} (hn : 1 ≤ n) {t : Fin (n + 1) → ℝ} (ht : StrictMono t)
    (y : Fin (n + 1) → ℝ) {e : Fin (n + 1) → ℝ} (he : e (Fin.last n) = 0) {logpost : List Dbl} {rows : List (List ℝ)} {i : ℕ}
    (hi : FirstMax logpost i) {θ : List ℝ} (hrow : rows[i]? = some θ) (hθ : θ.length = 4) (h0 : at0 θ 0 ≠ 0) {nplot : ℕ} (hm : 2 ≤ nplot) :
    Py.assessFit (Py.mapFilter1 srt (List.ofFn t) (List.ofFn y) (List.ofFn e) logpost rows) (List.ofFn t) (List.ofFn y) nplot =
      .error .nonfinite := by
  obtain ⟨g, hg, -, -, -, -, hlast⟩ := C62_grid ht.monotone hm
  have hexp := Real.exp_pos (at0 θ 3)
  have hs : 0 < 2 * at0 θ 0 ^ 2 * Real.exp (at0 θ 3) := by positivity
  obtain ⟨s, g1, g2⟩ := KF1.new_inv srt (by omega) ht (fun i => y i - at0 θ 2) e (2 * at0 θ 0 ^ 2 * Real.exp (at0 θ 3)) (Real.exp (at0 θ 3))
  have := (KF1.exact hs hexp).predictAll_fail (at0 θ 2) (by omega) (incr_of_strictMono ht) g g2
    (fun s x hI hx => KF1.predict_errorFree hs hexp hI (by omega) (incr_of_strictMono ht) x hx)
    ⟨_, List.mem_of_getElem? hlast, n, by omega, by rw [ext0_of_lt t (by omega)]; rfl, by rw [ext0_of_lt e (by omega)]; exact he⟩
  rw [mapFilter1_spec srt y (List.ofFn t) (List.ofFn e) hi hrow hθ, g1, res_bind_ok, Py.assessFit, hg, res_bind_ok, this]
  rfl

/-- **C62 fails when the last observation has no measurement error**, CARMA. -/
theorem C62_carma_errorFree_negation (srt : List ℝ → List ℕ) {n : ℕ} (hn : 1 ≤ n) {t : Fin (n + 1) → ℝ} (ht : StrictMono t)
    (y : Fin (n + 1) → ℝ) {e : Fin (n + 1) → ℝ} (he : e (Fin.last n) = 0) (hp : 2 ≤ p) {q : ℕ} (hq : q < p) {logpost : List Dbl}
    {rows : List (List ℝ)} {i : ℕ} (hi : FirstMax logpost i) {θ : List ℝ} (hrow : rows[i]? = some θ) (hθ : θ.length = 3 + p + q) (h0 : at0 θ 0 ≠ 0)
    {roots : List ℂ} (hr : arRoots p θ = .ok roots) (hnd : roots.Nodup) {nplot : ℕ} (hm : 2 ≤ nplot) :
    Py.assessFit (Py.mapFilter (p := p) srt (List.ofFn t) (List.ofFn y) (List.ofFn e) q logpost rows) (List.ofFn t) (List.ofFn y) nplot =
      .error .nonfinite := by
  obtain ⟨g, hg, -, -, -, -, hlast⟩ := C62_grid ht.monotone hm
  obtain ⟨ma, h1, h2, h3, h4, h5⟩ := mapFilter_spec srt y (List.ofFn t) (List.ofFn e) (by omega) hq hi hrow hθ hr hnd
  have hpos : 0 < carmaAcf 1 (vecOf p roots) ma 0 := carmaAcf_pos h3 one_pos h1 h2
  have hs : 0 < at0 θ 0 ^ 2 / carmaAcf 1 (vecOf p roots) ma 0 := by positivity
  obtain ⟨s, g1, g2⟩ := KFp.new_inv srt (by omega) ht (fun i => y i - at0 θ 2) e (at0 θ 0 ^ 2 / carmaAcf 1 (vecOf p roots) ma 0) (vecOf p roots) ma
  have := (KFp.exact hp hs h3 (padMA_length h1) (padMA_ne h2)).predictAll_fail (at0 θ 2) (by omega) (incr_of_strictMono ht) g g2
    (fun s x hI hx => KFp.predict_errorFree hp hs h3 (padMA_length h1) (padMA_ne h2) hI (by omega) (incr_of_strictMono ht) x hx)
    ⟨_, List.mem_of_getElem? hlast, n, by omega, by rw [ext0_of_lt t (by omega)]; rfl, by rw [ext0_of_lt e (by omega)]; exact he⟩
  rw [h5, g1, res_bind_ok, Py.assessFit, hg, res_bind_ok, this]
  rfl

/-- sixty daily observations with errors 1 meet the hypotheses of `C62_car1_returns_partial` -/
example : StrictMono (fun i : Fin 60 => (i : ℝ)) ∧ (∃ g, Py.fitGrid (List.ofFn fun i : Fin 60 => (i : ℝ)) 256 = .ok g ∧
    ∀ x ∈ g, ∀ i : Fin 60, (i : ℝ) = x → (fun _ : Fin 60 => (1 : ℝ)) i ≠ 0) ∧ FirstMax [.fin 0] 0 ∧ at0 [1, 2, 0, 0] 0 ≠ 0 := by
  have hm : StrictMono (fun i : Fin 60 => (i : ℝ)) := fun a b h => by
    show ((a : ℕ) : ℝ) < ((b : ℕ) : ℝ)
    exact_mod_cast (h : (a : ℕ) < b)
  obtain ⟨g, hg, -⟩ := C62_grid hm.monotone (m := 256) (by norm_num)
  exact ⟨hm, ⟨g, hg, fun _ _ _ _ => one_ne_zero⟩, ⟨by simp, .fin 0, rfl, by simp [Dbl.lt], by omega⟩, by simp [at0]⟩

end Verif.Props
