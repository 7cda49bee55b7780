import Verif.Theory.Variance
import Verif.Theory.Unique
import Mathlib.Analysis.SpecialFunctions.Gamma.Basic

/-!
Properties of the parametrisation (`src/carpack.cpp`): C07-C12, C14, C36, C37.
Specification: `Verif/Spec/Param.lean`, `Verif/Spec/Carma.lean`.
-/

namespace Verif.Props

open Verif.Model Verif.Spec Verif.Theory Polynomial

variable {p : ℕ}

/-- **C11.** `polycoefs` of `n` roots returns `n + 1` numbers; if the roots are closed under conjugation (as a multiset), entry
`j` is exactly the coefficient of `x^(n-j)` of `∏ (x - r)`; the first entry is 1. -/
theorem C11_polycoefs (roots : List ℂ) :
    (polycoefs roots).length = roots.length + 1 ∧ (polycoefs roots)[0]? = some 1 ∧
    ((roots.map star).Perm roots → ∀ j ≤ roots.length, ∃ c : ℝ, (polycoefs roots)[j]? = some c ∧
      (c : ℂ) = (roots.map fun r => X - C r).prod.coeff (roots.length - j)) := by
  obtain ⟨h1, h2⟩ := polycoefs_spec roots
  refine ⟨h1, ?_, fun h j hj => ⟨_, h2 j hj, rootPoly_coeff_real h _⟩⟩
  rw [h2 0 (Nat.zero_le _), Nat.sub_zero]
  have := (rootPoly_monic roots).coeff_natDegree
  rw [rootPoly_natDegree] at this
  rw [this]; rfl

/-- a conjugate-closed list with a real root and a complex pair -/
example : (([-1, -2 + Complex.I, -2 - Complex.I] : List ℂ).map star).Perm [-1, -2 + Complex.I, -2 - Complex.I] := by
  have h1 : star (-1 : ℂ) = -1 := by simp
  have h2 : star (-2 + Complex.I) = -2 - Complex.I := by apply Complex.ext <;> simp
  have h3 : star (-2 - Complex.I) = -2 + Complex.I := by apply Complex.ext <;> simp
  simp only [List.map_cons, List.map_nil, h1, h2, h3]
  exact List.Perm.cons _ (List.Perm.swap _ _ _)

/-- **C09.** For every `theta` long enough, `ARRoots` returns `p` roots, all with negative real part, closed under conjugation as a
multiset, and `∏ (s - root)` is the product of the factors read from `theta`; a shorter `theta` is a bounds error. -/
theorem C09_arRoots (p : ℕ) (θ : List ℝ) :
    (p + 3 ≤ θ.length → ∃ roots, arRoots p θ = .ok roots ∧ roots.length = p ∧ (∀ r ∈ roots, r.re < 0) ∧
      (roots.map star).Perm roots ∧
      (roots.map fun r => X - C r).prod = (factorPoly (at0 θ) 3 p).map Complex.ofRealHom) ∧
    (θ.length < p + 3 → 0 < p → arRoots p θ = .error .bounds) := by
  refine ⟨fun h => ?_, fun h hp => rootsFrom_short θ 3 p (by omega) hp⟩
  obtain ⟨l, h1, h2⟩ := rootsFrom_spec θ 3 p (by omega)
  exact ⟨l, h1, h2.length, h2.neg, h2.conj, h2.poly⟩

/-- for `p = 3` the polynomial is `(s² + e^{θ4} s + e^{θ3}) (s + e^{θ5})` -/
example (θ : ℕ → ℝ) : factorPoly θ 3 3 = (X ^ 2 + C (Real.exp (θ 4)) * X + C (Real.exp (θ 3))) * (X + C (Real.exp (θ 5))) := by
  simp [factorPoly, quadFactor]

/-- **C10.** For `q < p` and `theta` long enough `CARMA::ExtractMA` returns `p` numbers: the first is 1, those up to `q` are
positive, the others 0; as a polynomial they are the product of the factors read from `theta`, divided by its value at 0; all
its zeros have negative real part. -/
theorem C10_carmaMA {p q : ℕ} (hq : q < p) (θ : List ℝ) (h : p + q + 3 ≤ θ.length) :
    ∃ ma, carmaMA p q θ = .ok ma ∧ ma.length = p ∧ ma[0]? = some 1 ∧ (∀ i ≤ q, ∃ c, ma[i]? = some c ∧ 0 < c) ∧
      (∀ i, q < i → i < p → ma[i]? = some 0) ∧
      (∀ z, maEval ma z = ((factorPoly (at0 θ) (p + 3) q).map Complex.ofRealHom).eval z /
        (((factorPoly (at0 θ) (p + 3) q).eval 0 : ℝ) : ℂ)) ∧
      (∀ z, maEval ma z = 0 → z.re < 0) := by
  have hF : (factorPoly (at0 θ) (p + 3) q).natDegree = q := by
    obtain ⟨l, _, h2⟩ := rootsFrom_spec θ (p + 3) q (by omega); exact h2.natDegree
  have hpos := factorPoly_pos (at0 θ) (p + 3) q
  have h0 : 0 < (factorPoly (at0 θ) (p + 3) q).coeff 0 := hpos 0 (Nat.zero_le _)
  have hspec := carmaMA_spec hq θ (by omega)
  rw [add_comm 3 p] at hspec
  have hev : ∀ z, maEval ((List.range p).map fun i =>
      (factorPoly (at0 θ) (p + 3) q).coeff i / (factorPoly (at0 θ) (p + 3) q).coeff 0) z =
      ((factorPoly (at0 θ) (p + 3) q).map Complex.ofRealHom).eval z /
        (((factorPoly (at0 θ) (p + 3) q).eval 0 : ℝ) : ℂ) := by
    intro z
    rw [maEval_coeffs (by omega), ← coeff_zero_eq_eval_zero]
  refine ⟨_, hspec, by simp, ?_, ?_, ?_, hev, ?_⟩
  · rw [rangeMap_get _ (by omega), div_self h0.ne']
  · intro i hi
    exact ⟨_, rangeMap_get _ (by omega), div_pos (hpos i (by omega)) h0⟩
  · intro i hi hip
    rw [rangeMap_get _ hip, coeff_eq_zero_of_natDegree_lt (by omega), zero_div]
  · intro z hz
    rw [hev, div_eq_zero_iff] at hz
    rcases hz with hz | hz
    · obtain ⟨l, _, h2⟩ := rootsFrom_spec θ (p + 3) q (by omega)
      rw [← h2.poly, rootPoly, eval_list_prod, List.map_map, List.prod_eq_zero_iff, List.mem_map] at hz
      obtain ⟨r, hr, hr2⟩ := hz
      simp [sub_eq_zero] at hr2
      rw [hr2]; exact h2.neg r hr
    · exfalso; rw [← coeff_zero_eq_eval_zero] at hz
      exact h0.ne' (by exact_mod_cast hz)

/-- `p = 2`, `q = 1` with six parameters; the extracted coefficients are `1, e^{-θ5}` -/
example : ∃ ma, carmaMA 2 1 [1, 1, 0, 0.2, 0.3, -0.7] = .ok ma ∧ ma = [1, Real.exp 0.7] := by
  have := carmaMA_spec (p := 2) (q := 1) (by norm_num) [1, 1, 0, 0.2, 0.3, -0.7] (by simp)
  refine ⟨_, this, ?_⟩
  simp [factorPoly, at0, List.range_succ, coeff_X, coeff_C, ← Real.exp_neg]

/-- **C12.** For finite bounds `0 < lo < hi`, every `theta` long enough and `p ≥ 1`, `ZCARMA::ExtractMA` returns `p` coefficients,
which are those of `(1 + s/kappa)^(p-1)` for a `kappa` strictly between the bounds, namely
`lo + (hi - lo) / (1 + exp(-theta(p+3)))`. -/
theorem C12_zcarmaMA (hp : 0 < p) {lo hi : ℝ} (hlo : 0 < lo) (hlh : lo < hi) (θ : List ℝ) (h : p + 4 ≤ θ.length) :
    ∃ ma kappa, CarP.zcarmaMA p (.fin lo) (.fin hi) θ = .ok ma ∧ lo < kappa ∧ kappa < hi ∧
      kappa = lo + (hi - lo) / (1 + Real.exp (-at0 θ (p + 3))) ∧ ma.length = p ∧
      ∀ z, maEval ma z = (1 + z / kappa) ^ (p - 1) := by
  set x := at0 θ (p + 3) with hx
  have he := Real.exp_pos x
  have h1 : invLogit x = 1 / (1 + Real.exp (-x)) := by
    rw [invLogit, Real.exp_neg]; field_simp; ring
  have h2 : 0 < invLogit x := by rw [invLogit]; positivity
  have h3 : invLogit x < 1 := by rw [invLogit, div_lt_one (by positivity)]; linarith
  have hk1 : lo < (hi - lo) * invLogit x + lo := by nlinarith
  have hk2 : (hi - lo) * invLogit x + lo < hi := by nlinarith
  refine ⟨_, (hi - lo) * invLogit x + lo, ?_, hk1, hk2, ?_, ?_, maEval_binom hp _⟩
  · have h4 : rd θ (3 + p) = .ok x := by rw [rd_at0 (by omega), hx, add_comm 3 p]
    have h5 : (((Dbl.fin hi).sub (.fin lo)).mul (.fin (invLogit x))).add (.fin lo)
        = .fin ((hi - lo) * invLogit x + lo) := by
      simp [Dbl.sub, Dbl.neg, Dbl.add, Dbl.mul, sub_eq_add_neg]
    rw [CarP.zcarmaMA, h4, res_bind_ok, h5, zMA_fin hp (by linarith)]
  · rw [h1]; ring
  · simp

/-- such bounds exist, and the coefficient list is not trivial: for `p = 3`, `kappa` is between 1 and 3 -/
example : (0:ℝ) < 1 ∧ (1:ℝ) < 3 ∧ 3 + 4 ≤ ([1, 1, 0, 0.1, 0.2, 0.3, 0] : List ℝ).length ∧
    CarP.zcarmaMA 3 (.fin 1) (.fin 3) [1, 1, 0, 0.1, 0.2, 0.3, 0] = .ok [1, 1, 1 / 4] := by
  refine ⟨by norm_num, by norm_num, by simp, ?_⟩
  have h4 : rd ([1, 1, 0, 0.1, 0.2, 0.3, 0] : List ℝ) (3 + 3) = .ok 0 := by simp [rd]
  have h5 : (((Dbl.fin 3).sub (.fin 1)).mul (.fin (invLogit 0))).add (.fin 1) = .fin 2 := by
    simp [Dbl.sub, Dbl.neg, Dbl.add, Dbl.mul, invLogit]; norm_num
  rw [CarP.zcarmaMA, h4, res_bind_ok, h5, zMA_fin (by norm_num) (by norm_num)]
  simp [List.range_succ]; norm_num

/-- **C14.** For positive tolerance `unique_roots` is true exactly when every pair of positions is separated by a fractional
distance above the tolerance; a pair with zero sum (infinite or undefined distance) does not count. For numbers with negative
real part a true result means that they are pairwise different. -/
theorem C14_unique_roots {tol : ℝ} (htol : 0 < tol) (roots : List ℂ) :
    (uniqueRoots roots tol = true ↔ roots.Pairwise fun a b => a + b = 0 ∨ tol < ‖a - b‖ / ‖a + b‖) ∧
    ((∀ r ∈ roots, r.re < 0) → uniqueRoots roots tol = true → roots.Nodup) := by
  have h : ∀ a b, Theory.Sep tol a b ↔ (a + b = 0 ∨ tol < ‖a - b‖ / ‖a + b‖) := by
    intro a b; rw [Theory.Sep, norm_div]
  refine ⟨?_, fun hneg hu => ?_⟩
  · rw [uniqueRoots_iff htol]
    exact ⟨fun hp => hp.imp fun {a b} => (h a b).mp, fun hp => hp.imp fun {a b} => (h a b).mpr⟩
  · rw [uniqueRoots_iff htol] at hu
    rw [List.Nodup]
    refine List.Pairwise.imp_of_mem ?_ hu
    intro a b ha hb hs
    exact hs.ne htol (hneg a ha)

/-- two well separated roots pass and a repeated root fails; the pair `0, 0` passes, so the restriction to negative real
parts is needed -/
example : uniqueRoots [-1, -2] 1e-4 = true ∧ uniqueRoots [-1, -1] 1e-4 = false ∧ uniqueRoots [0, 0] 1e-4 = true := by
  have h := fun l => (C14_unique_roots (tol := 1e-4) (by norm_num) l).1
  refine ⟨?_, ?_, ?_⟩
  · rw [h]; simp; right; norm_num
  · rw [← Bool.not_eq_true, h]; simp; norm_num
  · rw [h]; simp

/-- **C07.** For admissible roots and at most `p` moving-average coefficients, `Variance(roots, ma, sigma, dt)` is the
autocovariance at lag `dt` of the CARMA process with driving variance `sigma²`; at lag 0, if `sigma` and the coefficients are not
all zero, it is positive. -/
theorem C07_variance {roots : Fin p → ℂ} (h : Admissible roots) {ma : List ℝ} (hl : ma.length ≤ p) (sigma dt : ℝ) :
    variance roots ma sigma dt = .ok (carmaAcf (sigma ^ 2) roots ma dt) ∧
    (sigma ≠ 0 → (∃ x ∈ ma, x ≠ 0) → 0 < carmaAcf (sigma ^ 2) roots ma 0) :=
  ⟨variance_eq h hl sigma dt, fun hs hne => carmaAcf_pos h (by positivity) hl hne⟩

/-- **C07.** ... and it is the first prediction variance of the filter, up to the measurement error. -/
theorem C07_variance_filter (srt : List ℝ → List ℕ) {n : ℕ} (hn : 2 ≤ n) {t : Fin n → ℝ} (ht : StrictMono t)
    (y e : Fin n → ℝ) (hp : 2 ≤ p) {sigma : ℝ} (hs : sigma ≠ 0) {roots : Fin p → ℂ} (h : Admissible roots)
    {ma : List ℝ} (hl : ma.length ≤ p) (hne : ∃ x ∈ ma, x ≠ 0) :
    ∃ s v, (KFp.new srt (List.ofFn t) (List.ofFn y) (List.ofFn e) (sigma ^ 2) roots ma >>= Kalman.filter) = .ok s ∧
      variance roots ma sigma 0 = .ok v ∧ s.b.var[0]? = some (v + e ⟨0, by omega⟩ ^ 2) := by
  obtain ⟨s, h1, h2⟩ := KFp.new_inv srt hn ht y e (sigma ^ 2) roots ma
  obtain ⟨s', h3, _, _, h4, h5⟩ := (KFp.exact hp (by positivity) h (padMA_length hl) (padMA_ne hne)).filter h2 (by omega)
    (incr_of_strictMono ht)
  refine ⟨s', _, by rw [h1]; exact h3, variance_eq h hl sigma 0, ?_⟩
  simp only [fst_ext0, carmaAcf_pad] at h5
  have h6 : s'.b.var = _ := h5
  rw [h6, List.getElem?_ofFn]
  simp [show 0 < n by omega, stepVar, condVar, dotProduct]

/-- hypotheses of C07: a complex pair, `p = 2` -/
example : Admissible ![-1 + Complex.I, -1 - Complex.I] ∧ ([1, 0.5] : List ℝ).length ≤ 2 ∧
    ∃ x ∈ ([1, 0.5] : List ℝ), x ≠ 0 := by
  refine ⟨⟨?_, ?_, ?_⟩, by norm_num, 1, by simp, one_ne_zero⟩
  · intro i j h
    fin_cases i <;> fin_cases j <;> simp [Complex.ext_iff] at h ⊢ <;> norm_num at h
  · intro k; fin_cases k <;> simp
  · intro k
    fin_cases k
    · exact ⟨1, by simp [Complex.ext_iff]⟩
    · exact ⟨0, by simp⟩

/-- **C37.** `inv_logit` maps into (0,1) and is the two-sided inverse of `logit`. -/
theorem C37_logit : (∀ x, 0 < invLogit x ∧ invLogit x < 1 ∧ logit (invLogit x) = x) ∧
    ∀ u, 0 < u → u < 1 → invLogit (logit u) = u := by
  refine ⟨fun x => ?_, fun u h0 h1 => ?_⟩
  · have he := Real.exp_pos x
    refine ⟨by rw [invLogit]; positivity, by rw [invLogit, div_lt_one (by positivity)]; linarith, ?_⟩
    have : invLogit x / (1 - invLogit x) = Real.exp x := by
      rw [invLogit]; field_simp; ring
    rw [logit, this, Real.log_exp]
  · have h2 : 0 < u / (1 - u) := div_pos h0 (by linarith)
    have h3 : 1 - u ≠ 0 := by linarith
    rw [invLogit, logit, Real.exp_log h2]; field_simp; ring

/-- a point of (0,1) where the round trip is not the identity map of either function -/
example : (0:ℝ) < 0.25 ∧ (0.25:ℝ) < 1 ∧ logit 0.25 = -Real.log 3 := by
  refine ⟨by norm_num, by norm_num, ?_⟩
  rw [logit, ← Real.log_inv]; norm_num

/-- Density of the scaled inverse chi-square law with `ν` degrees of freedom and scale `τ2`. -/
noncomputable def invChiSqrDensity (ν τ2 x : ℝ) : ℝ :=
  (τ2 * ν / 2) ^ (ν / 2) / Real.Gamma (ν / 2) * Real.exp (-(ν * τ2) / (2 * x)) / x ^ (1 + ν / 2)

/-- **C36.** For `theta(1) > 0`, `exp(LogPrior(theta))` of CAR1, CARp and CARMA is a constant times the
scaled-inverse-chi-square(50, 1) density at `theta(1)`; for ZCARMA it is this times the derivative of `inv_logit` at
`theta(p+3)`, the density of `logit` of a uniform variable. -/
theorem C36_log_prior : ∃ c : ℝ, 0 < c ∧
    (∀ θ : List ℝ, 2 ≤ θ.length → 0 < at0 θ 1 → ∃ l, baseLogPrior θ = .ok (.fin l) ∧
      Real.exp l = c * invChiSqrDensity 50 1 (at0 θ 1)) ∧
    (∀ {p : ℕ} (s : CarP p) (θ : List ℝ), p + 4 ≤ θ.length → 0 < at0 θ 1 → ∃ l, s.logPrior θ = .ok (.fin l) ∧
      Real.exp l = c * invChiSqrDensity 50 1 (at0 θ 1) *
        if s.kind = .zcarma then deriv invLogit (at0 θ (p + 3)) else 1) := by
  have hG : 0 < Real.Gamma (50 / 2) := Real.Gamma_pos_of_pos (by norm_num)
  have key : ∀ θ : List ℝ, 2 ≤ θ.length → 0 < at0 θ 1 → ∃ l, baseLogPrior θ = .ok (.fin l) ∧
      Real.exp l = (Real.Gamma (50 / 2) / (1 * 50 / 2) ^ ((50:ℝ) / 2)) * invChiSqrDensity 50 1 (at0 θ 1) := by
    intro θ hθ hs
    refine ⟨-0.5 * 50 / at0 θ 1 - (1 + 50 / 2) * Real.log (at0 θ 1), ?_, ?_⟩
    · simp only [baseLogPrior, rd_at0 (show 1 < θ.length by omega), res_bind_ok, res_pure, Dbl.div, if_neg hs.ne', Dbl.log,
        if_pos hs, Dbl.mul, Dbl.sub, Dbl.neg, Dbl.add, sub_eq_add_neg]
    · have hx : (0:ℝ) < at0 θ 1 ^ ((1:ℝ) + 50 / 2) := Real.rpow_pos_of_pos hs _
      have hc : (0:ℝ) < (1 * 50 / 2) ^ ((50:ℝ) / 2) := Real.rpow_pos_of_pos (by norm_num) _
      rw [invChiSqrDensity, Real.exp_sub, mul_comm (1 + 50 / 2 : ℝ) (Real.log _), ← Real.rpow_def_of_pos hs]
      have e : Real.exp (-0.5 * 50 / at0 θ 1) = Real.exp (-(50 * 1) / (2 * at0 θ 1)) := by
        congr 1; field_simp; norm_num
      rw [e]; field_simp
  have hd : ∀ x, HasDerivAt invLogit (Real.exp (-x - 2 * Real.log (1 + Real.exp (-x)))) x := by
    intro x
    have he := Real.exp_pos x
    have hne : 1 + Real.exp x ≠ 0 := by positivity
    have h1 := (Real.hasDerivAt_exp x).div ((Real.hasDerivAt_exp x).const_add 1) hne
    have h2 : (0:ℝ) < 1 + Real.exp (-x) := by positivity
    refine h1.congr_deriv ?_
    rw [Real.exp_sub, two_mul, Real.exp_add, Real.exp_log h2, Real.exp_neg]
    field_simp; ring
  refine ⟨_, by positivity, key, fun {p} s θ hθ hs => ?_⟩
  obtain ⟨l, h1, h2⟩ := key θ (by omega) hs
  by_cases hk : s.kind = .zcarma
  · refine ⟨l + (-at0 θ (p + 3) - 2 * Real.log (1 + Real.exp (-at0 θ (p + 3)))), ?_, ?_⟩
    · simp only [CarP.logPrior, hk, h1, rd_at0 (show p + 3 < θ.length by omega), res_bind_ok, res_pure, Dbl.add]
    · rw [if_pos hk, (hd _).deriv, Real.exp_add, h2]
  · refine ⟨l, ?_, by rw [if_neg hk, h2, mul_one]⟩
    rw [← h1, CarP.logPrior]
    cases hkk : s.kind <;> first | rfl | exact absurd hkk hk

/-- a parameter vector with positive `theta(1)` -/
example : 2 + 4 ≤ ([1, 1.2, 0, 0.1, 0.2, 0.3] : List ℝ).length ∧ 0 < at0 [1, 1.2, 0, 0.1, 0.2, 0.3] 1 := by
  refine ⟨by simp, ?_⟩
  simp [at0]; norm_num

end Verif.Props
