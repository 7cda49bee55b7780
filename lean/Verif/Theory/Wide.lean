import Verif.Theory.StartP

/-!
CARMA objects with `q ≥ p`: `ExtractMA` writes out of bounds.
-/

namespace Verif.Theory

open Verif.Model Verif.Spec

variable {p q : ℕ}

/-- `ExtractMA` never returns if `q ≥ p`. -/
lemma carmaMA_never (h : p ≤ q) (θ ma : List ℝ) : carmaMA p q θ ≠ .ok ma := by
  intro hh
  unfold carmaMA at hh
  obtain ⟨_, -, hh⟩ := bind_ok_inv hh
  obtain ⟨_, -, hh⟩ := bind_ok_inv hh
  obtain ⟨_, -, hh⟩ := bind_ok_inv hh
  simp only [h, if_true] at hh
  cases hh

/-- With a vector of full length the failure is the write out of bounds. -/
lemma carmaMA_bounds (h : p ≤ q) {θ : List ℝ} (hl : 3 + p + q ≤ θ.length) : carmaMA p q θ = .error .bounds := by
  obtain ⟨l, h1, h2⟩ := rootsFrom_spec θ (3 + p) q hl
  obtain ⟨h3, h4⟩ := polycoefs_spec l
  have hpos : 0 < (factorPoly (at0 θ) (3 + p) q).coeff 0 := factorPoly_pos _ _ _ 0 (by simp)
  have hq' : (polycoefs l)[q]? = some ((factorPoly (at0 θ) (3 + p) q).coeff 0) := by
    rw [h4 q (by rw [h2.length]), h2.coeff, h2.length, Nat.sub_self]
  simp only [carmaMA, h1, res_bind_ok, rd_ok hq', mapM_dv hpos.ne', if_pos h]
  rfl

lemma setParams_never (h : p ≤ q) {s : CarP p} (hk : s.kind = .carma q) (θ : List ℝ) (x : KFp p × Bool) : s.setParams θ ≠ .ok x := by
  intro hh
  unfold CarP.setParams at hh
  obtain ⟨_, -, hh⟩ := bind_ok_inv hh
  obtain ⟨ma, h1, -⟩ := bind_ok_inv hh
  unfold CarP.extractMA at h1
  rw [hk] at h1
  exact carmaMA_never h θ ma h1

lemma setParams_bounds (h : p ≤ q) {s : CarP p} (hk : s.kind = .carma q) {θ : List ℝ} (hl : 3 + p + q ≤ θ.length) :
    s.setParams θ = .error .bounds := by
  obtain ⟨l, h1, -⟩ := rootsFrom_spec θ 3 p (by omega)
  have h2 : s.extractMA θ = .error .bounds := by
    unfold CarP.extractMA
    rw [hk]
    exact carmaMA_bounds h hl
  unfold CarP.setParams
  simp only [show arRoots p θ = .ok l from h1, h2, res_bind_ok]
  rfl

/-- The log-density of such an object is minus infinity where the prior is zero, and not computed elsewhere. -/
lemma logDensity_wide (h : p ≤ q) {s s' : CarP p} (hk : s.kind = .carma q) {θ : List ℝ} {v : Dbl} (hh : logDensity s θ = .ok (s', v)) :
    s' = s ∧ v = .ninf ∧ CarP.checkPrior s.b p s.orderLor θ = .ok false := by
  unfold logDensity at hh
  obtain ⟨ok, h1, hh⟩ := bind_ok_inv hh
  cases ok with
  | true =>
      rw [if_neg (by simp)] at hh
      obtain ⟨x, h2, -⟩ := bind_ok_inv hh
      exact absurd h2 (setParams_never h hk θ x)
  | false =>
      rw [if_pos rfl] at hh
      injection hh with hh
      injection hh with e1 e2
      exact ⟨e1.symm, e2.symm, h1⟩

lemma logDensity_wide_bounds (h : p ≤ q) {s : CarP p} (hk : s.kind = .carma q) {θ : List ℝ} (hl : 3 + p + q ≤ θ.length) :
    CarP.checkPrior s.b p s.orderLor θ = .ok true → logDensity s θ = .error .bounds := by
  intro h1
  unfold logDensity
  rw [show CarModel.checkPrior s θ = .ok true from h1, res_bind_ok, if_neg (by simp),
    show CarModel.setParams s θ = .error .bounds from setParams_bounds h hk hl]
  rfl

/-- Whether the prior holds can be decided for every vector of full length. -/
lemma checkPrior_decided (b : CarBase) (o : Bool) {θ : List ℝ} (hl : p + 3 ≤ θ.length) : ∃ c, CarP.checkPrior b p o θ = .ok c := by
  obtain ⟨l, h1, -⟩ := rootsFrom_spec θ 3 p (by omega)
  have g0 : rd θ 0 = .ok θ[0] := rd_ok (List.getElem?_eq_getElem (by omega))
  have g1 : rd θ 1 = .ok θ[1] := rd_ok (List.getElem?_eq_getElem (by omega))
  unfold CarP.checkPrior
  cases b.ignorePrior with
  | true => exact ⟨_, rfl⟩
  | false => simp only [Bool.false_eq_true, if_false, g0, g1, show arRoots p θ = .ok l from h1, res_bind_ok]; exact ⟨_, rfl⟩

/-- The search for starting values throws in its first pass. -/
theorem start_wide (hp : 2 ≤ p) (h : p ≤ q) {s : CarP p} (hk : s.kind = .carma q) {t1 t0 fmax : ℝ} (h1 : armaMax s.b.time = .ok t1)
    (h0 : armaMin s.b.time = .ok t0) (hlt : t0 < t1) (hf : s.b.maxFreq = .fin fmax) (hpos : 0 < fmax) (fuel : ℕ) (r : Rng) :
    CarP.start (fuel + 1) s r = .error .bounds := by
  obtain ⟨cent, width, r', g1, g2, g3, g4, g5, g6, g7⟩ := lorentz_total hp h1 h0 hlt hf hpos r
  obtain ⟨l, k1, k2, k3⟩ := logaOf_lor (p := p) (cent := cent) (width := width) (by omega) (by omega) g4 fun i hi => (g5 i hi).le
  have hpass : s.startPass r = .error .bounds := by
    unfold CarP.startPass CarP.startAR CarP.startExtra
    simp only [g1, k1, res_bind_ok, res_pure, hk]
    rw [if_neg (by omega : ¬ q = 0)]
    simp only [res_bind_ok, CarP.extractMA, hk]
    rw [carmaMA_bounds h (by simp [k2, Rng.vecN]; omega)]
    rfl
  unfold CarP.start
  rw [hpass]
  rfl

/-- So does `SetStartingValue`, on any vector of the right length. -/
theorem setStart_wide (hp : 2 ≤ p) (h : p ≤ q) {s : CarP p} (hk : s.kind = .carma q) {t1 t0 fmax : ℝ} (h1 : armaMax s.b.time = .ok t1)
    (h0 : armaMin s.b.time = .ok t0) (hlt : t0 < t1) (hf : s.b.maxFreq = .fin fmax) (hpos : 0 < fmax) (fuel : ℕ) (init : List ℝ) (r : Rng) :
    CarP.setStart (fuel + 1) s init r = .error .bounds := by
  have hst := start_wide hp h hk h1 h0 hlt hf hpos fuel r
  unfold CarP.setStart
  rw [hk]
  by_cases hl : init.length = CarP.thetaLen p (.carma q)
  · rw [if_neg (by simpa using hl)]
    have hl' : 3 + p + q ≤ init.length := by rw [hl]; simp [CarP.thetaLen]; omega
    obtain ⟨c, hc⟩ := checkPrior_decided (p := p) s.b s.orderLor (θ := init) (by omega)
    cases c with
    | true => rw [logDensity_wide_bounds h hk hl' hc]; rfl
    | false =>
        have : logDensity s init = .ok (s, .ninf) := by
          unfold logDensity
          rw [show CarModel.checkPrior s init = .ok false from hc, res_bind_ok, if_pos rfl]
          rfl
        rw [this, res_bind_ok]
        dsimp only
        rw [if_pos (by simp [Dbl.isFin])]
        exact hst
  · rw [if_pos (by simpa using hl)]
    exact hst

/-- An exception while the first chain is started ends the run. -/
theorem startLoop_error {μ : Type} [Target μ] {d : ℕ} {fuel : ℕ} {init : Option (List ℝ)} {s : Samp μ d} {st : StepSt d} {c : Par μ} {f : Fault}
    (h1 : s.steps[0]? = some st) (h2 : s.chains[st.chain]? = some c) (h3 : startCall fuel init c.obj s.rng = .error f) (m : ℕ) :
    s.startLoop fuel init (m + 1) = .error f := by
  induction m with
  | zero =>
      simp only [Samp.startLoop, res_bind_ok, Samp.startOne, rdU_ok h1, rdU_ok h2]
      unfold startCall at h3
      cases init with
      | none => simp only at h3 ⊢; rw [h3]; rfl
      | some i => simp only at h3 ⊢; rw [h3]; rfl
  | succ m ih => unfold Samp.startLoop; rw [ih]; rfl

theorem run_error {μ : Type} [Target μ] {d : ℕ} {fuel N burnin thin : ℕ} {init : List ℝ} {s : Samp μ d} {st : StepSt d} {c : Par μ} {f : Fault}
    (ht : ∀ x ∈ s.tracked, x.2 < s.chains.length) (h1 : s.steps[0]? = some st) (h2 : s.chains[st.chain]? = some c)
    (h3 : ∀ i, startCall fuel i c.obj s.rng = .error f) : s.run fuel N burnin thin init = .error f := by
  obtain ⟨s0, g1⟩ := setSizes_total N ht
  obtain ⟨g2, -⟩ := setSizes_spec g1
  have k1 : s0.steps[0]? = some st := by rw [← g2.steps]; exact h1
  obtain ⟨c', k2, k3⟩ : ∃ c', s0.chains[st.chain]? = some c' ∧ SameRec c c' := by
    have hi : st.chain < s.chains.length := (List.getElem?_eq_some_iff.mp h2).1
    have hl := g2.chains.length_eq
    refine ⟨_, List.getElem?_eq_getElem (by omega), ?_⟩
    have := g2.chains.get hi (by omega)
    rw [List.getElem?_eq_getElem hi] at h2
    injection h2 with h2
    rw [← h2]; simpa using this
  have hobj : c'.obj = c.obj := by obtain ⟨_, _, e⟩ := k3; rw [e]; rfl
  have hlen : ∃ m, s0.steps.length = m + 1 := by
    have : 0 < s0.steps.length := (List.getElem?_eq_some_iff.mp k1).1
    exact ⟨s0.steps.length - 1, by omega⟩
  obtain ⟨m, hm⟩ := hlen
  unfold Samp.run
  simp only [g1, res_bind_ok, rdU_ok k1, rdU_ok k2, hm]
  rw [startLoop_error k1 k2 (by rw [hobj, ← g2.rng]; exact h3 _) m]
  rfl

end Verif.Theory
