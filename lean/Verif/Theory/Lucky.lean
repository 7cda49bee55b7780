import Verif.Theory.LuckyRoots
import Verif.Theory.RunValue

/-!
How many draws a pass of `StartingValue` uses, and that a lucky pass ends the search.
-/

namespace Verif.Theory

open Verif.Model Verif.Spec

open scoped Classical

variable {p : ℕ}

/-! ### draws used -/

/-- `r'` is `r` after `a` draws of `randu` and `c` chi-squared draws. -/
structure Spent (a c : ℕ) (r r' : Rng) : Prop where
  randu : r'.randu = Rng.skip a r.randu
  chi2 : r'.chi2 = Rng.skip c r.chi2

theorem Spent.trans {a c a' c' : ℕ} {r r1 r2 : Rng} (h : Spent a c r r1) (g : Spent a' c' r1 r2) : Spent (a' + a) (c' + c) r r2 :=
  ⟨by rw [g.randu, h.randu, skip_skip], by rw [g.chi2, h.chi2, skip_skip]⟩

theorem lorentz_spent {b : CarBase} {r r' : Rng} {cent width : List ℝ} (h : CarP.lorentz p b r = .ok (cent, width, r')) :
    Spent (2 * ((p + 1) / 2)) 0 r r' := by
  unfold CarP.lorentz at h
  obtain ⟨_, -, h⟩ := bind_ok_inv h
  obtain ⟨_, -, h⟩ := bind_ok_inv h
  obtain ⟨_, -, h⟩ := bind_ok_inv h
  obtain ⟨_, -, h⟩ := bind_ok_inv h
  obtain ⟨_, -, h⟩ := bind_ok_inv h
  obtain ⟨_, -, h⟩ := bind_ok_inv h
  obtain ⟨_, -, h⟩ := bind_ok_inv h
  simp only [Rng.vecU, Rng.nextU] at h
  have e : Rng.skip ((p + 1) / 2) (Rng.skip ((p + 1) / 2) r.randu) = Rng.skip (2 * ((p + 1) / 2)) r.randu := by
    rw [skip_skip, two_mul]
  split at h
  · obtain ⟨_, -, h⟩ := bind_ok_inv h
    obtain ⟨_, -, h⟩ := bind_ok_inv h
    obtain ⟨_, -, h⟩ := bind_ok_inv h
    obtain ⟨_, -, h⟩ := bind_ok_inv h
    obtain ⟨_, -, h⟩ := bind_ok_inv h
    injection h with h
    injection h with _ h
    injection h with _ h
    rw [← h]
    exact ⟨e, rfl⟩
  · injection h with h
    injection h with _ h
    injection h with _ h
    rw [← h]
    exact ⟨e, rfl⟩

theorem startExtra_spent {kind : Kind} {x : Option (List ℝ)} {r r' : Rng} (h : CarP.startExtra kind r = .ok (x, r')) : Spent 0 0 r r' := by
  cases kind with
  | carp => injection h with h; injection h with _ h; rw [← h]; exact ⟨rfl, rfl⟩
  | zcar => injection h with h; injection h with _ h; rw [← h]; exact ⟨rfl, rfl⟩
  | carma q =>
      unfold CarP.startExtra at h
      dsimp only at h
      split at h
      · cases h
      · injection h with h; injection h with _ h; rw [← h]; exact ⟨rfl, rfl⟩
  | zcarma =>
      unfold CarP.startExtra at h
      dsimp only at h
      split at h <;> (injection h with h; injection h with _ h; rw [← h]; exact ⟨rfl, rfl⟩)

theorem startExtra_some {kind : Kind} {x : Option (List ℝ)} {r r' : Rng} (hu : ∀ k, 0 < r.unif k) (h : CarP.startExtra kind r = .ok (x, r')) :
    ∃ l, x = some l := by
  cases kind with
  | carp => injection h with h; injection h with h _; exact ⟨_, h.symm⟩
  | zcar => injection h with h; injection h with h _; exact ⟨_, h.symm⟩
  | carma q =>
      unfold CarP.startExtra at h
      dsimp only at h
      split at h
      · cases h
      · injection h with h; injection h with h _; exact ⟨_, h.symm⟩
  | zcarma =>
      unfold CarP.startExtra at h
      dsimp only [Rng.nextU] at h
      rw [if_neg (not_le.mpr (hu 0))] at h
      injection h with h; injection h with h _; exact ⟨_, h.symm⟩

theorem startScale_spent {r r' : Rng} {sc : ℝ} (h : startScale r = .ok (sc, r')) : Spent 0 1 r r' ∧ 0.51 ≤ sc ∧ sc ≤ 1.99 := by
  unfold startScale at h
  obtain ⟨m, -, h⟩ := bind_ok_inv h
  injection h with h
  injection h with h g
  rw [← h, ← g]
  exact ⟨⟨rfl, rfl⟩, le_max_right _ _, max_le (min_le_right _ _) (by norm_num)⟩

theorem startTail_spent {s s' : CarP p} {loga extra ma : List ℝ} {sd mu v : ℝ} {r r' : Rng} {θ : List ℝ} {lp : Dbl}
    (h : s.startTail loga extra ma sd mu v r = .ok (s', θ, lp, r')) :
    Spent 0 1 r r' ∧ ∃ sc s1, 0.51 ≤ sc ∧ sc ≤ 1.99 ∧ θ = sd :: sc :: mu :: (loga ++ extra) ∧ logDensity s1 θ = .ok (s', lp) ∧
      ∃ kf, s1 = { s with kf := kf } ∧ ∃ roots, runFilter s.b (s.startKf roots ma v) sc mu = .ok kf := by
  unfold CarP.startTail at h
  obtain ⟨⟨sc, r1⟩, h1, h⟩ := bind_ok_inv h
  obtain ⟨roots, h2, h⟩ := bind_ok_inv h
  obtain ⟨kf, h3, h⟩ := bind_ok_inv h
  obtain ⟨⟨s2, lp2⟩, h4, h⟩ := bind_ok_inv h
  injection h with h
  injection h with g1 h
  injection h with g2 h
  injection h with g3 g4
  clear h
  subst g1 g2 g3 g4
  obtain ⟨k1, k2, k3⟩ := startScale_spent h1
  exact ⟨k1, sc, _, k2, k3, rfl, h4, kf, rfl, roots, h3⟩

/-! ### one pass -/

/-- What a lucky pass needs to know about an object: its times, its frequency limits and its largest standard deviation. -/
structure Ready2 (s0 : CarP p) (n : ℕ) (t y e : Fin n → ℝ) : Prop where
  solid : Solid s0 n t y e
  times : ∃ t1 t0 fmax, armaMax s0.b.time = .ok t1 ∧ armaMin s0.b.time = .ok t0 ∧ t0 < t1 ∧ s0.b.maxFreq = .fin fmax ∧
    s0.b.minFreq = .fin (1 / (t1 - t0)) ∧ 2 * (1 / (t1 - t0)) ≤ fmax
  kind : s0.kind ≠ .carma 0
  sd : s0.b.maxStdev = 10 * √(popVariance y)
  vary : 0 < popVariance y

theorem Ready2.ready {s0 : CarP p} {n : ℕ} {t y e : Fin n → ℝ} (h : Ready2 s0 n t y e) : Ready0 s0 n t y e := by
  obtain ⟨t1, t0, fmax, h1, h2, h3, h4, -, h6⟩ := h.times
  have : 0 < 1 / (t1 - t0) := by have : 0 < t1 - t0 := by linarith
                                 positivity
  exact ⟨h.solid, ⟨t1, t0, fmax, h1, h2, h3, h4, by linarith, Or.inr (by linarith)⟩, h.kind⟩

/-- Draws that make every pass use the same number of draws. -/
structure Nice (r : Rng) : Prop extends Fair r where
  pos : ∀ k, 0 < r.unif k

theorem Drawn.nice {r r' : Rng} (h : Drawn r r') (g : Nice r) : Nice r' := by
  refine ⟨h.fair g.toFair, fun k => ?_⟩
  obtain ⟨j, hj⟩ := h.unif
  rw [hj]; exact g.pos _

theorem startPass_exact (hp : 2 ≤ p) (hp' : p < 2500) {s0 : CarP p} {n : ℕ} (hn : 2 ≤ n) {t y e : Fin n → ℝ} (ht : StrictMono t) (hs : Ready2 s0 n t y e)
    {s : CarP p} (ho : Held s0 s) {r : Rng} (hr : Nice r) :
    ∃ s' θ lp r', s.startPass r = .ok (s', θ, lp, r') ∧ Held s0 s' ∧ (lp.isFin → θ.length = npar p s0.kind) ∧ Drawn r r' ∧
      Spent (2 * ((p + 1) / 2)) 2 r r' ∧ (Lucky p n r → lp.isFin) := by
  obtain ⟨s', θ, lp, r', h, hH, hθ, hD⟩ := startPass_total hp hn ht hs.ready ho hr.toFair
  refine ⟨s', θ, lp, r', h, hH, hθ, hD, ?_⟩
  have hb : s.b = s0.b := ho.core.b.symm
  have hkd : s.kind = s0.kind := ho.core.kind.symm
  obtain ⟨t1, t0, fmax, b1, b0, hlt, hf, hfl, hfm⟩ := hs.times
  have hfpos : 0 < fmax := by
    have : 0 < 1 / (t1 - t0) := by have : 0 < t1 - t0 := by linarith
                                   positivity
    linarith
  obtain ⟨cent, width, r1, g1, g2, g3, g4, g5, g6, g7⟩ := lorentz_total hp b1 b0 hlt hf hfpos r
  obtain ⟨loga, k1, k2, k3⟩ := logaOf_lor (p := p) (cent := cent) (width := width) (by omega) (by omega) g4 fun i hi => (g5 i hi).le
  have hnd : (lorRoots p (fun i => width.getD i 0) fun i => cent.getD i 0).Nodup := by
    obtain ⟨l', r1', q1, -, -, ro, q2, q3⟩ := startAR_total hp hs.ready hr.toFair
    unfold CarP.startAR at q1
    simp only [g1, k1, res_bind_ok] at q1
    injection q1 with q1
    injection q1 with q1 _
    rw [← q1] at q3
    have := (k3 0 0 0 []).symm.trans (q3 0 0 0 [])
    injection this with this
    rw [this]; exact q2
  set roots := lorRoots p (fun i => width.getD i 0) fun i => cent.getD i 0 with hroots
  have hAR : CarP.startAR p s0.b r = .ok (loga, r1) := by
    unfold CarP.startAR
    simp only [g1, k1, res_bind_ok]
    rfl
  obtain ⟨x, r2, x1, x2, x3⟩ := startExtra_total (p := p) hs.kind r1
  obtain ⟨extra, rfl⟩ := startExtra_some (g7.nice hr).pos x1
  have x3 := x3 extra rfl
  have sp1 := (lorentz_spent g1).trans (startExtra_spent x1)
  have l2 := g7.trans x2
  have hr2 := (l2.nice hr)
  obtain ⟨lo, hi, hlo, hlh, hkap⟩ := hs.solid.kap
  obtain ⟨ma, m1, m2, m3, -⟩ := extractMA_spec (θ := 0 :: 0 :: 0 :: (loga ++ extra)) (by omega) hs.solid.ma hs.solid.order hlo hlh hkap (by simp [k2]; omega)
  have hc0 := hr2.ok.chi2 0
  unfold CarP.startPass at h
  rw [hb, hAR, hkd] at h
  simp only [res_bind_ok, x1] at h
  simp only [extractMA_core ho.core, m1, res_bind_ok, Rng.nextC, Rng.nextN] at h
  set yv := armaVar s0.b.y / r2.chi2 0 * ((s0.b.y.length - 1 : ℕ) : ℝ) with hyv
  have hyv' : yv = popVariance y * n / r2.chi2 0 := by
    have h1 : ((n : ℝ) - 1) ≠ 0 := by
      have : (2 : ℝ) ≤ n := by exact_mod_cast hn
      linarith
    have h2 : (n : ℝ) ≠ 0 := by positivity
    rw [hyv, hs.solid.y, armaVar_ofFn, List.length_ofFn, Nat.cast_sub (by omega), Nat.cast_one, sampleVar, popVariance]
    generalize ∑ i, (y i - (∑ j, y j) / (n : ℝ)) ^ 2 = S
    field_simp
  have hvpos : 0 < yv := by
    have := hs.vary
    rw [hyv']; positivity
  have e1 : scaledInvChi2 (s0.b.y.length - 1) (armaVar s0.b.y) (r2.chi2 0) = .ok yv := by
    simp only [scaledInvChi2, dv, if_neg hc0.ne', res_bind_ok, res_pure]; rfl
  have e2 : sqrtR yv = .ok √yv := by rw [sqrtR, if_neg (not_lt.mpr hvpos.le)]
  simp only [e1, e2, k3, res_bind_ok] at h
  obtain ⟨roots', q1, q2⟩ := rootsFrom_spec (0 :: 0 :: 0 :: (loga ++ [])) 3 p (by simp [k2]; omega)
  have q3 : roots' = roots := by
    have := (k3 0 0 0 []).symm.trans q1
    injection this with this
    exact this.symm
  rw [q3] at q2
  have hadm := q2.admissible hnd
  have hvar : carmaAcf (1 ^ 2) (vecOf p roots) ma 0 ≠ 0 := by
    rw [one_pow]
    exact (carmaAcf_pos hadm one_pos m2.le (head_ne m3)).ne'
  rw [variance_eq hadm (le_of_eq m2), res_bind_ok, dv, if_neg hvar] at h
  dsimp only at h
  obtain ⟨sp2, sc, s1, c1, c2, c3, c4, kf, c5, ro, c6⟩ := startTail_spent h
  have sp3 : Spent 0 1 r2 { r2 with chi2 := Rng.skip 1 r2.chi2, norm := Rng.skip 1 r2.norm } := ⟨rfl, rfl⟩
  have sp := (sp1.trans sp3).trans sp2
  refine ⟨?_, fun hL => ?_⟩
  · refine ⟨?_, ?_⟩
    · rw [sp.randu]; congr 1; omega
    · rw [sp.chi2]
  -- a lucky pass satisfies the prior
  have hchi : r2.chi2 0 = r.chi2 0 := by rw [sp1.chi2]; rfl
  have hθ0 : at0 θ 0 = √yv := by rw [c3]; rfl
  have hθ1 : at0 θ 1 = sc := by rw [c3]; rfl
  have hsc : ScaleBounds s0.b.maxStdev θ := by
    refine ⟨by rw [hθ0]; positivity, ?_, by rw [hθ1]; linarith, by rw [hθ1]; linarith⟩
    rw [hθ0, hs.sd]
    have : yv ≤ 10 ^ 2 * popVariance y := by
      rw [hyv', hchi, div_le_iff₀ (hchi ▸ hc0)]
      have := hL.chi2
      have := hs.vary
      nlinarith
    calc √yv ≤ √(10 ^ 2 * popVariance y) := Real.sqrt_le_sqrt this
      _ = 10 * √(popVariance y) := by rw [Real.sqrt_mul (by norm_num), Real.sqrt_sq (by norm_num)]
  have hB := lorentz_lucky hp hp' b1 b0 hlt hf hfm hL (fun k => ⟨hr.pos k, (hr.ok.unif k).2⟩) g1 hsc
  have hro : arRoots p θ = .ok roots := by rw [c3]; exact k3 _ _ _ _
  have hlen : npar p s0.kind ≤ θ.length := by rw [c3]; simp [k2]; omega
  have hl3 := npar_ge (p := p) s0.kind
  have hck := carp_check hf hfl hs.solid.ign (θ := θ) (p := p) (by omega) hro
  rw [decide_eq_true hB] at hck
  have hcore : CarP.Core s0 s1 := by
    rw [c5]
    exact CarP.cored.trans _ _ _ ho.core (CarP.runFilter_core (CarP.cored.left (CarP.cored.symm _ _ ho.core)) c6)
  obtain ⟨_, -, -, -, s2, -, hv⟩ := carp_value hp (show 0 < n by omega) ht (CarP.Ok.of_core hs.solid.k hcore) hs.solid.time hs.solid.y hs.solid.yerr
    hs.solid.ma hs.solid.order hlo hlh hkap hlen (by rw [hs.solid.lor]; exact hck) (by rw [hθ1]; linarith)
    (Or.inl (by rw [hθ0]; exact (Real.sqrt_pos.mpr hvpos).ne')) hro hnd
  rw [c4] at hv
  injection hv with hv
  injection hv with _ hv
  rw [hv]
  trivial

/-! ### the search -/

/-- The draws at the beginning of pass `j`. -/
def passAt (p : ℕ) (r : Rng) (j : ℕ) : Rng :=
  { r with randu := Rng.skip (j * (2 * ((p + 1) / 2))) r.randu, chi2 := Rng.skip (j * 2) r.chi2 }

/-- `r` is the state of the generators at the beginning of pass `j`. -/
structure AtPass (p : ℕ) (r0 : Rng) (j : ℕ) (r : Rng) : Prop where
  nice : Nice r
  spent : Spent (j * (2 * ((p + 1) / 2))) (j * 2) r0 r
  stud : r.stud = r0.stud

theorem AtPass.lucky {r0 r : Rng} {j n : ℕ} (h : AtPass p r0 j r) (hL : Lucky p n (passAt p r0 j)) : Lucky p n r := by
  refine ⟨?_, ?_, ?_⟩
  · rw [h.spent.randu]; exact hL.cent
  · rw [h.spent.randu]; exact hL.width
  · rw [h.spent.chi2]; exact hL.chi2

theorem start_sure (hp : 2 ≤ p) (hp' : p < 2500) {s0 : CarP p} {n : ℕ} (hn : 2 ≤ n) {t y e : Fin n → ℝ} (ht : StrictMono t) (hs : Ready2 s0 n t y e)
    {r0 : Rng} (d : ℕ) {j fuel : ℕ} (hfuel : d < fuel) (hL : Lucky p n (passAt p r0 (j + d))) {s : CarP p} (ho : Held s0 s) {r : Rng}
    (hr : AtPass p r0 j r) :
    ∃ s' θ r', CarP.start fuel s r = .ok (s', θ, r') ∧ Held s0 s' ∧ θ.length = npar p s0.kind ∧ ∃ j', j' ≤ j + d + 1 ∧ AtPass p r0 j' r' := by
  induction d generalizing j fuel s r with
  | zero =>
      obtain ⟨fuel, rfl⟩ : ∃ f, fuel = f + 1 := ⟨fuel - 1, by omega⟩
      obtain ⟨s', θ, lp, r', h1, h2, h3, h4, h5, h6⟩ := startPass_exact hp hp' hn ht hs ho hr.nice
      have hf := h6 (hr.lucky hL)
      refine ⟨s', θ, r', ?_, h2, h3 hf, j + 1, by omega, h4.nice hr.nice, ?_, h4.stud.trans hr.stud⟩
      · unfold CarP.start
        simp only [h1, res_bind_ok]
        rw [if_pos hf]; rfl
      · have := hr.spent.trans h5
        refine ⟨?_, ?_⟩
        · rw [this.randu]; congr 1; ring
        · rw [this.chi2]; congr 1; ring
  | succ d ih =>
      obtain ⟨fuel, rfl⟩ : ∃ f, fuel = f + 1 := ⟨fuel - 1, by omega⟩
      obtain ⟨s', θ, lp, r', h1, h2, h3, h4, h5, h6⟩ := startPass_exact hp hp' hn ht hs ho hr.nice
      have hat : AtPass p r0 (j + 1) r' := by
        refine ⟨h4.nice hr.nice, ?_, h4.stud.trans hr.stud⟩
        have := hr.spent.trans h5
        refine ⟨?_, ?_⟩
        · rw [this.randu]; congr 1; ring
        · rw [this.chi2]; congr 1; ring
      unfold CarP.start
      simp only [h1, res_bind_ok]
      by_cases hf : lp.isFin
      · rw [if_pos hf]
        exact ⟨_, _, _, rfl, h2, h3 hf, j + 1, by omega, hat⟩
      · rw [if_neg hf]
        obtain ⟨a, b, c, k1, k2, k3, j', k4, k5⟩ := ih (j := j + 1) (fuel := fuel) (by omega)
          (by have : j + 1 + d = j + (d + 1) := by omega
              rw [this]; exact hL) h2 hat
        exact ⟨a, b, c, k1, k2, k3, j', by omega, k5⟩

theorem setStart_sure (hp : 2 ≤ p) (hp' : p < 2500) {s0 : CarP p} {n : ℕ} (hn : 2 ≤ n) {t y e : Fin n → ℝ} (ht : StrictMono t) (hs : Ready2 s0 n t y e)
    (hlen : npar p s0.kind = CarP.thetaLen p s0.kind) {r0 : Rng} (d : ℕ) {j fuel : ℕ} (hfuel : d < fuel) (hL : Lucky p n (passAt p r0 (j + d)))
    (init : List ℝ) {s : CarP p} (ho : Held s0 s) {r : Rng} (hr : AtPass p r0 j r) :
    ∃ s' θ r', CarP.setStart fuel s init r = .ok (s', θ, r') ∧ Held s0 s' ∧ θ.length = npar p s0.kind ∧ ∃ j', j' ≤ j + d + 1 ∧ AtPass p r0 j' r' := by
  by_cases hl : init.length = CarP.thetaLen p s.kind
  · have hl0 : init.length = npar p s0.kind := by rw [hlen, ho.core.kind]; exact hl
    obtain ⟨s1, lp, h1, h2⟩ := (held_total hp (show 0 < n by omega) ht hs.solid).ld s init ho hl0
    have h1' : logDensity s init = .ok (s1, lp) := h1
    by_cases hf : lp.isFin
    · cases lp with
      | fin x =>
        obtain ⟨s', h3⟩ := CarP.setStart_exact (CarP.cored.left (CarP.cored.symm _ _ ho.core)) fuel hl h1' r
        rcases setStart_or hp hn ht hs.ready hlen fuel init ho hr.nice.toFair with ⟨a, b, c, k1, k2, k3, -⟩ | k1
        · rw [h3] at k1
          injection k1 with k1
          injection k1 with k1 k4
          injection k4 with k4 k5
          rw [← k1] at k2
          exact ⟨s', init, r, h3, k2, hl0, j, by omega, hr⟩
        · rw [h3] at k1; cases k1
      | _ => exact hf.elim
    · unfold CarP.setStart
      simp only [hl, ne_eq, not_true, if_false, h1', res_bind_ok, hf, not_false_eq_true, if_true]
      exact start_sure hp hp' hn ht hs d hfuel hL h2 hr
  · unfold CarP.setStart
    rw [if_pos hl]
    exact start_sure hp hp' hn ht hs d hfuel hL ho hr

/-! ### the sampler -/

section
variable {μ : Type} [Target μ] {d : ℕ} {inv : μ → Prop}

theorem startLoop_sure (hT : Total μ inv d) {s : Samp μ d} (hs : Fit inv s) {fuel : ℕ} {init : Option (List ℝ)} {R : ℕ → Rng → Prop}
    (hR : R 0 s.rng) (hb : ∀ i r, R i r → Blocks d r.stud) {m : ℕ} (hm : m ≤ s.steps.length)
    (hst : ∀ i < m, ∀ o r, inv o → R i r → ∃ o' θ r', startCall fuel init o r = .ok (o', θ, r') ∧ inv o' ∧ θ.length = d ∧ R (i + 1) r') :
    ∃ s', s.startLoop fuel init m = .ok s' ∧ Fit inv s' ∧ R m s'.rng ∧ s'.chains.length = s.chains.length ∧ s'.steps = s.steps := by
  induction m with
  | zero => exact ⟨s, rfl, hs, hR, rfl, rfl⟩
  | succ m ih =>
      obtain ⟨t, h1, h2, h3, h3', h3''⟩ := ih (by omega) fun i hi => hst i (by omega)
      have g : t.steps[m]? = some (t.steps[m]'(by rw [h3'']; omega)) := List.getElem?_eq_getElem _
      have hgs := h2.steps _ (List.mem_of_getElem? g)
      generalize (t.steps[m]'(by rw [h3'']; omega)) = st at *
      have hi : st.chain < t.chains.length := by
        cases st with
        | ram i a => exact hgs.1
        | exch e => exact hgs.2
      have gi : t.chains[st.chain]? = some (t.chains[st.chain]'hi) := List.getElem?_eq_getElem hi
      have mi := List.mem_of_getElem? gi
      generalize (t.chains[st.chain]'hi) = c at *
      obtain ⟨o', θ, r', h4, h5, h6, h7⟩ := hst m (by omega) c.obj t.rng (h2.obj _ mi) h3
      obtain ⟨c', h8, h9, h10⟩ := save_total hT (s := { c with obj := o' }) h5 h6
      refine ⟨{ t with chains := t.chains.set st.chain c', rng := r' }, ?_, ⟨mem_set_of h2.obj h9, mem_set_of h2.len (by rw [h10]; exact h6), ?_, hb _ _ h7⟩, h7, by simpa using h3', h3''⟩
      · unfold Samp.startLoop
        rw [h1]
        simp only [res_bind_ok, Samp.startOne, rdU_ok g, rdU_ok gi]
        unfold startCall at h4
        cases init with
        | none => simp only at h4 ⊢; rw [h4]; simp only [res_bind_ok, h8]; rfl
        | some i => simp only at h4 ⊢; rw [h4]; simp only [res_bind_ok, h8]; rfl
      · simp only [List.length_set]
        exact h2.steps

theorem run_sure (hT : Total μ inv d) {s : Samp μ d} (hs : Fit inv s) {fuel N burnin thin : ℕ} {init : List ℝ} {R : ℕ → Rng → Prop}
    (hR : R 0 s.rng) (hb : ∀ i r, R i r → Blocks d r.stud)
    (hst : ∀ i < s.steps.length, ∀ o r, inv o → R i r → ∃ o' θ r', startCall fuel (if init.length = d then some init else none) o r = .ok (o', θ, r') ∧
      inv o' ∧ θ.length = d ∧ R (i + 1) r')
    (hne : s.steps ≠ []) (ht : ∀ x ∈ s.tracked, x.2 < s.chains.length) :
    ∃ s', s.run fuel N burnin thin init = .ok s' ∧ s'.chains.length = s.chains.length := by
  obtain ⟨s0, h1⟩ := setSizes_total N ht
  obtain ⟨h2, h3⟩ := setSizes_spec h1
  have hf := hs.of_rec h2
  have hR0 : R 0 s0.rng := by rw [← h2.rng]; exact hR
  have hpos : 0 < s0.steps.length := by rw [← h2.steps]; exact List.length_pos_iff.mpr hne
  have g : s0.steps[0]? = some (s0.steps[0]'hpos) := List.getElem?_eq_getElem _
  have hgs := hf.steps _ (List.mem_of_getElem? g)
  generalize (s0.steps[0]'hpos) = st at *
  have hi : st.chain < s0.chains.length := by
    cases st with
    | ram i a => exact hgs.1
    | exch e => exact hgs.2
  have gi : s0.chains[st.chain]? = some (s0.chains[st.chain]'hi) := List.getElem?_eq_getElem hi
  have hl := hf.len _ (List.mem_of_getElem? gi)
  obtain ⟨s1, h4, h5, -, h6, -⟩ := startLoop_sure hT hf hR0 hb (m := s0.steps.length) le_rfl (by rw [← h2.steps]; exact hst)
  obtain ⟨s2, h7, h8⟩ := iterate_total hT h5 burnin
  obtain ⟨b1, b2, b3⟩ := startLoop_frame h4
  obtain ⟨c1, c2⟩ := iterate_fixed h7
  obtain ⟨s3, h9, -, -, -, h10⟩ := sampleLoop_total hT h8 (N := N) (thin := thin) (k := N) le_rfl fun x hx => by
    have hx0 : x ∈ s.tracked := by rw [h2.tracked, ← b2, ← c2]; exact hx
    have hxl : x.2 < s0.chains.length := by rw [← h2.chains.length_eq]; exact ht x hx0
    have e0 : s0.chains[x.2]? = some (s0.chains[x.2]'hxl) := List.getElem?_eq_getElem _
    obtain ⟨k1, k2⟩ := h3 _ _ e0 ⟨x.1, hx0⟩
    obtain ⟨p1, e3, e4⟩ := fixed_get b1 e0
    obtain ⟨p2, e5, e6⟩ := fixed_get c1 e3
    have e7 := e6.trans e4
    refine ⟨p2, e5, ?_, ?_⟩
    · rw [← k1]; exact congrArg (fun x => x.2.2.2.1.length) e7
    · rw [← k2]; exact congrArg (fun x => x.2.2.2.2.length) e7
  refine ⟨s3, ?_, ?_⟩
  · unfold Samp.run
    rw [h1]
    simp only [res_bind_ok, rdU_ok g, rdU_ok gi, hl, h4, h7, h9]
  · have e1 := congrArg List.length c1
    have e2 := congrArg List.length b1
    simp only [List.length_map] at e1 e2
    rw [h10, e1, e2, h2.chains.length_eq]

end

end Verif.Theory
