import Verif.Props.Run

/-!
Starting values: C32.
-/

namespace Verif.Props

open Verif.Model Verif.Spec Verif.Theory

-- `b` below stands for the members of `CARMA_Base` (data and prior settings); these theorems hold for any.

variable {srt : List ℝ → List ℕ} {fuel : ℕ} {time y yerr : List ℝ} {p : ℕ} {kind : Kind} {r r' : Rng} {init θ : List ℝ}

lemma density_of_core {o a a' : CarP p} (ha : CarP.Core o a) {θ : List ℝ} {v : Dbl} (h : logDensity a θ = .ok (a', v)) :
    ∃ o', logDensity o θ = .ok (o', v) := by
  have hd := CarP.cored.density ha θ
  rw [h] at hd
  cases hx : logDensity o θ with
  | error f => rw [hx] at hd; exact hd.elim
  | ok w =>
      rw [hx] at hd
      have h2 : w.2 = v := hd.2.2
      exact ⟨w.1, by rw [← h2]⟩

/-- **C32, `StartingValue`.** Whatever the data, the model kind and the random numbers: if `StartingValue` of a constructed CARp, ZCAR,
CARMA or ZCARMA object returns, the vector has the length of the parameter vector and the object assigns it a finite log-density. -/
theorem C32_start_finite {o : CarP p} (ho : CarP.new kind p srt time y yerr = .ok o) (b : CarBase) {s' : CarP p} (h : CarP.start fuel { o with b := b } r = .ok (s', θ, r')) :
    θ.length = CarP.thetaLen p kind ∧ ∃ o' x, logDensity ({ o with b := b } : CarP p) θ = .ok (o', .fin x) := by
  have hcore : CarP.Core ({ o with b := b } : CarP p) { o with b := b } := built_core ho
  obtain ⟨-, s0, s1, lp, h1, h2, h3⟩ := CarP.start_core fuel hcore h
  obtain ⟨x, rfl⟩ := isFin_inv h3
  obtain ⟨o', h4⟩ := density_of_core h1 h2
  refine ⟨?_, o', x, h4⟩
  have := start_length hcore h
  rw [this]
  show CarP.thetaLen p o.kind = _
  rw [(new_config ho).1]

/-- **C32, `SetStartingValue`.** If it returns, it returns `init` if and only if `init` has the right length and finite log-density; in
any case the vector returned has finite log-density. -/
theorem C32_setStart {o : CarP p} (ho : CarP.new kind p srt time y yerr = .ok o) (b : CarBase) {s' : CarP p} (h : CarP.setStart fuel { o with b := b } init r = .ok (s', θ, r')) :
    (θ = init ↔ init.length = CarP.thetaLen p kind ∧ ∃ o' x, logDensity ({ o with b := b } : CarP p) init = .ok (o', .fin x)) ∧
      ∃ o' x, logDensity ({ o with b := b } : CarP p) θ = .ok (o', .fin x) := by
  have hcore : CarP.Core ({ o with b := b } : CarP p) { o with b := b } := built_core ho
  have hkind : o.kind = kind := (new_config ho).1
  obtain ⟨-, s0, s1, lp, h1, h2, h3⟩ := CarP.setStart_core fuel hcore h
  obtain ⟨x, rfl⟩ := isFin_inv h3
  obtain ⟨o', h4⟩ := density_of_core h1 h2
  have hl : θ.length = CarP.thetaLen p o.kind := setStart_length hcore h
  refine ⟨⟨?_, ?_⟩, o', x, h4⟩
  · rintro rfl
    exact ⟨by rw [hl, hkind], o', x, h4⟩
  · rintro ⟨g1, o2, x2, g2⟩
    obtain ⟨s2, g3⟩ := CarP.setStart_exact hcore fuel (init := init) (show _ = CarP.thetaLen p o.kind by rw [g1, hkind]) g2 r
    rw [g3] at h
    injection h with h
    injection h with _ h
    injection h with h _
    exact h.symm

/-- **C32, a good initial vector is always taken.** No random numbers are used. -/
theorem C32_good_init_taken {o : CarP p} (ho : CarP.new kind p srt time y yerr = .ok o) (b : CarBase) (hl : init.length = CarP.thetaLen p kind) {o' : CarP p} {x : ℝ}
    (hx : logDensity ({ o with b := b } : CarP p) init = .ok (o', .fin x)) (fuel : ℕ) (r : Rng) :
    ∃ s', CarP.setStart fuel { o with b := b } init r = .ok (s', init, r) :=
  CarP.setStart_exact (built_core ho : CarP.Core ({ o with b := b } : CarP p) _) fuel (show _ = CarP.thetaLen p o.kind by rw [hl, (new_config ho).1]) hx r

/-- **C32, CAR(1), frozen chain.** Once the chain of the sampler of `RunCar1Sampler` holds a log-density that is not finite it never moves
again: whatever the random numbers, after any number of sweeps it holds the same vector. -/
theorem C32_car1_frozen {burnin : ℕ} {s : Samp Car1 4} (hs : car1Sampler srt burnin time y yerr r = .ok s) {k m : ℕ} {t u : Samp Car1 4}
    (h : RunState fuel s init k t) {c : Par Car1} (hc : t.chains = [c]) (hfin : ¬ c.logpost.isFin) (h' : Sweeps t m u) :
    ∃ c', u.chains = [c'] ∧ c'.value = c.value ∧ c'.logpost = c.logpost := by
  obtain ⟨s0, s1, init', h1, -, h3, h4⟩ := h
  obtain ⟨var, o, b, c1, -, -, -, -, -, hk⟩ := car1_sound (car1Sampler_inv hs) (SampRec.of_same h1) h3
  have e1 := iterate_of_sweeps h4
  obtain ⟨-, c2, m1, -, -, -, m5, m6, -⟩ := hk k t e1
  rw [hc] at m1
  injection m1 with m1
  subst m1
  have hn1 : ¬ c1.logpost.isFin := fun hh => hfin (m5 hh)
  have e2 : s1.iterate (k + m) = .ok u := by rw [iterate_add, e1]; exact iterate_of_sweeps h'
  obtain ⟨-, c3, q1, -, -, -, -, q6, -⟩ := hk _ u e2
  exact ⟨c3, q1, by rw [(q6 hn1).1, (m6 hn1).1], by rw [(q6 hn1).2, (m6 hn1).2]⟩

open scoped Classical in
/-- **C32, CAR(1), starting values outside the prior.** `CAR1::StartingValue` draws the time scale as the median gap times `1 + 49 u`. When
this exceeds the length of the series (possible for fewer than about fifty points) and no usable initial vector is given, every one of the
`N` samples of the run is that starting value, with log-density minus infinity. -/
theorem C32_car1_stuck_outside {n : ℕ} (hn : 2 ≤ n) {t : Fin n → ℝ} (ht : StrictMono t) {y e : Fin n → ℝ} {N burnin thin : ℕ}
    (hi : init.length ≠ 4) {c : Par Car1}
    (h : runCar1Sampler fuel srt N burnin (List.ofFn t) (List.ofFn y) (List.ofFn e) thin init r = .ok c) (hr : r.Ok)
    {dmin span : ℝ} (h1 : IsMinGap t dmin) (h2 : IsSpan t span) (hu : span < dmin * (1 + 49 * r.unif 0)) :
    ∃ θ, ∀ k < N, c.samples[k]? = some θ ∧ c.logposts[k]? = some .ninf := by
  obtain ⟨s, k1, h⟩ := bind_ok_inv h
  obtain ⟨s', k2, h⟩ := bind_ok_inv h
  have hB := car1Sampler_inv k1
  obtain ⟨s0, s1, init', g1, ⟨st, c0, f1, f2, f3⟩, g3, -, -, g7⟩ := run_spec k2
  obtain ⟨var, o, b, c1, q1, q2, q3, q4, ⟨o1, θ1, r1, q5, q6⟩, hk⟩ := car1_sound hB g1 g3
  obtain ⟨c', e1, e2, e3, e4⟩ := g7 "CAR(1)" 0 (by rw [hB.tracked]; simp) (by obtain ⟨_, _, _, -, -, -, h⟩ := hB.chain; rw [h]; simp)
  rw [rdU_inv h] at e1
  injection e1 with e1
  subst e1
  have hnone : init' = none := by
    obtain ⟨_, o2, b2, -, -, -, hch⟩ := hB.chain
    rw [hch] at f2
    obtain ⟨hlt, hget⟩ := List.getElem?_eq_some_iff.mp f2
    have : c0 = Par.new { o2 with b := b2 } 4 1 "CAR(1)" true := by
      have := List.mem_of_getElem? f2
      simpa using this
    rw [f3, this, if_neg (by simpa [Par.new] using hi)]
  subst hnone
  cases (popVar_eq (show 0 < n by omega) y).symm.trans q1
  obtain ⟨o2, b2, dmin', span', m1, m1', m2, m3, m4, m5, m6, m7, m8⟩ := run_solid1 srt hn ht y e (10 * √(popVariance y))
  obtain rfl := h1.unique m4
  obtain rfl := h2.unique m5
  cases m1.symm.trans q2
  cases m2.symm.trans q3
  have htime : b.time = List.ofFn t := by
    rw [setPrior_again m1'] at m2
    injection m2 with m2
    rw [← m2]
    exact (new_time m1' : o.b.time = _)
  obtain ⟨a', med, sd, scale, mu, p1, p2, p3⟩ := car1_start_total hn ht m3 htime m7 m3.core (hr.chi2 0) (hr.chi2 1) (hr.unif 0).1
  have hθ : θ1 = [sd, scale, mu, min (-Real.log (med * (1 + (50 - 1) * r.unif 0))) (1 / dmin)] := by
    have := p3.symm.trans q5
    injection this with this
    injection this with _ this
    injection this with this _
    exact this.symm
  have hmed : dmin ≤ med := by
    obtain ⟨med', w1, w2⟩ := armaMedian_ge (l := (List.range (n-1)).map fun i => ext0 t (i+1) - ext0 t i) (by simp; omega)
    cases p1.symm.trans w1
    refine w2 _ fun x hx => ?_
    obtain ⟨i, hi, rfl⟩ := List.mem_map.mp hx
    have hi := List.mem_range.mp hi
    rw [ext0_of_lt t (show i + 1 < n by omega), ext0_of_lt t (show i < n by omega)]
    exact h1.2 ⟨_, _, by simp, rfl⟩
  have hspan : 0 < span := by
    obtain ⟨_, _, -, w1, w2, w3, -⟩ := base_fresh hn ht y e
    rw [h2.unique w2]; linarith
  have hu0 := (hr.unif 0).1
  have hout : ¬ Car1Bounds b.maxStdev (1 / dmin) (1 / span) θ1 := by
    intro hbd
    have hlo := hbd.lo
    have e3 : at0 θ1 3 = min (-Real.log (med * (1 + (50 - 1) * r.unif 0))) (1 / dmin) := by rw [hθ]; rfl
    rw [e3] at hlo
    have hX : 0 < med * (1 + (50 - 1) * r.unif 0) := by positivity
    have : Real.exp (min (-Real.log (med * (1 + (50 - 1) * r.unif 0))) (1 / dmin)) ≤ 1 / (med * (1 + (50 - 1) * r.unif 0)) := by
      refine (Real.exp_le_exp.mpr (min_le_left _ _)).trans ?_
      rw [Real.exp_neg, Real.exp_log hX, one_div]
    have h5 := hlo.trans this
    rw [one_div_le_one_div hspan hX] at h5
    have : dmin * (1 + 49 * r.unif 0) ≤ med * (1 + (50 - 1) * r.unif 0) := by
      have e : (50 - 1 : ℝ) = 49 := by norm_num
      rw [e]
      exact mul_le_mul_of_nonneg_right hmed (by positivity)
    linarith
  have hl4 : θ1.length = 4 := by rw [hθ]; rfl
  have hld : logDensity ({ o with b := b } : Car1) θ1 = .ok ({ o with b := b }, .ninf) := by
    refine logDensity_false (?_ : Car1.checkPrior b θ1 = .ok false)
    rw [car1_check m7 m8 (by omega)]
    congr 1
    exact decide_eq_false hout
  obtain ⟨-, c2, w1, -, w3, -⟩ := hk 0 s1 rfl
  rw [q4] at w1
  injection w1 with w1
  subst w1
  rw [q6, hld] at w3
  have hlp : c1.logpost = .ninf := by injection w3 with w3; exact w3.symm
  refine ⟨θ1, fun k hkN => ?_⟩
  obtain ⟨t', c', v1, v2, v3, v4⟩ := e4 k hkN
  obtain ⟨-, c2, w1, -, -, -, -, w6, -⟩ := hk _ t' v1
  rw [w1] at v2
  injection v2 with v2
  subst v2
  have hnf : ¬ c1.logpost.isFin := by rw [hlp]; exact id
  rw [v3, v4, (w6 hnf).1, (w6 hnf).2, q6, hlp]
  exact ⟨rfl, rfl⟩

/-- A run in which this happens: times 0, 1, 10, every uniform draw 1/2, no initial vector. -/
example (srt : List ℝ → List ℕ) (fuel N burnin thin : ℕ) : ∃ c θ, runCar1Sampler fuel srt N burnin (List.ofFn exT) (List.ofFn exY)
    (List.ofFn exT) thin [] exRng = .ok c ∧ ∀ k < N, c.samples[k]? = some θ ∧ c.logposts[k]? = some .ninf := by
  have hok : exRng.Ok := ⟨fun _ => by norm_num [exRng], fun _ => by norm_num [exRng], fun _ => by norm_num [exRng]⟩
  obtain ⟨c, h⟩ := C46_car1_run_returns_any_init srt (by norm_num) exT_mono exY exT ⟨0, 1, by simp [exY]⟩ fuel N burnin thin [] hok
    (fun k => ⟨0, by norm_num, by simp [exRng]⟩)
  obtain ⟨θ, h'⟩ := C32_car1_stuck_outside (by norm_num) exT_mono (by simp) h hok ex_gap.1 ex_gap.2 (by norm_num [exRng])
  exact ⟨c, θ, h, h'⟩

/-- An initial vector that is taken. -/
example (srt : List ℝ → List ℕ) (fuel : ℕ) (r : Rng) : ∃ (o : CarP 2) (s' : CarP 2), CarP.new .carp 2 srt (List.ofFn exT) (List.ofFn exY) (List.ofFn exT) = .ok o ∧
    CarP.setStart fuel o exθ r = .ok (s', exθ, r) := by
  obtain ⟨o, o', x, h1, h2⟩ := ex_carp_value srt
  obtain ⟨s', h3⟩ := C32_good_init_taken h1 o.b (init := exθ) rfl h2 fuel r
  exact ⟨o, s', h1, h3⟩

end Verif.Props
