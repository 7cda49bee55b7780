import Verif.Theory.StartP
import Verif.Props.Run

/-!
C46 continued: `RunCarmaSampler` with any initial vector returns or goes on for ever; with two observations it never returns.
-/

namespace Verif.Props

open Verif.Model Verif.Spec Verif.Theory

variable {n : ℕ} {t : Fin n → ℝ}

lemma newCarp_ma {p : ℕ} {srt : List ℝ → List ℕ} {time y yerr : List ℝ} {o : CarP p} (h : CarP.newCarp p srt time y yerr = .ok o) :
    o.kf.ma.length = p := by
  unfold CarP.newCarp at h
  obtain ⟨b, -, h⟩ := bind_ok_inv h
  obtain ⟨kf, -, h⟩ := bind_ok_inv h
  by_cases hp : p = 0
  · rw [if_pos hp] at h; cases h
  · rw [if_neg hp] at h
    simp only [res_pure] at h
    injection h with h
    rw [← h]
    simp [KFp.setMA]; omega

lemma new_ma {p : ℕ} (hp : 0 < p) {kind : Kind} {srt : List ℝ → List ℕ} {time y yerr : List ℝ} {o : CarP p} (h : CarP.new kind p srt time y yerr = .ok o) :
    o.kf.ma.length = p := by
  cases kind with
  | carp => exact newCarp_ma h
  | zcar =>
      unfold CarP.new CarP.newZcar at h
      obtain ⟨s, hs, h⟩ := bind_ok_inv h
      obtain ⟨_, -, h⟩ := bind_ok_inv h
      obtain ⟨dmin, -, h⟩ := bind_ok_inv h
      obtain ⟨ma, hm, h⟩ := bind_ok_inv h
      injection h with h
      rw [← h]
      obtain ⟨ma', h1, h2⟩ := zMA_total hp dmin
      cases hm.symm.trans h1
      exact h2
  | carma q =>
      unfold CarP.new CarP.newCarma at h
      obtain ⟨s, hs, h⟩ := bind_ok_inv h
      injection h with h
      rw [← h]
      exact (newCarp_ma hs : s.kf.ma.length = p)
  | zcarma =>
      unfold CarP.new CarP.newZcarma at h
      obtain ⟨s, hs, h⟩ := bind_ok_inv h
      obtain ⟨_, -, h⟩ := bind_ok_inv h
      obtain ⟨_, -, h⟩ := bind_ok_inv h
      obtain ⟨_, -, h⟩ := bind_ok_inv h
      obtain ⟨_, -, h⟩ := bind_ok_inv h
      obtain ⟨_, -, h⟩ := bind_ok_inv h
      injection h with h
      rw [← h]
      exact (newCarp_ma hs : s.kf.ma.length = p)

/-- **C46, CARp, CARMA and ZCAR, any initial vector.** For strictly increasing times, values not all equal, `p ≥ 2`, `q < p`, at least one
walker, at least three observations (or `p ≤ 3`), draws in the ranges of their distributions without two equal draws of `randu`, and Student
draws that are not all zero within a proposal, `RunCarmaSampler` returns, or the search for starting values with a finite log-density never
ends. No other failure is possible: no exception, no access out of bounds. This covers the call with an empty initial vector made by
`run_mcmc`. -/
theorem C46_carma_run_any_init (srt : List ℝ → List ℕ) (hn : 2 ≤ n) (ht : StrictMono t) (y e : Fin n → ℝ) (hy : ∃ i j, y i ≠ y j)
    {p q : ℕ} (hp : 2 ≤ p) (z : Bool) (hq : z = true ∨ q < p) (h3 : 3 ≤ n ∨ p ≤ 3) {nw : ℕ} (hw : 1 ≤ nw) (fuel N burnin thin : ℕ)
    (init : List ℝ) {r : Rng} (hr : r.Ok) (hi : Function.Injective r.randu) (hs : Blocks (nParams p q z) r.stud) :
    (∃ c, runCarmaSampler fuel srt N burnin (List.ofFn t) (List.ofFn y) (List.ofFn e) p q nw z thin init r = .ok c) ∨
      runCarmaSampler fuel srt N burnin (List.ofFn t) (List.ofFn y) (List.ofFn e) p q nw z thin init r = .error .timeout := by
  have hv := popVar_eq (show 0 < n by omega) y
  have h0 := popVar_pos (show 0 < n by omega) hy
  obtain ⟨o, b, dmin, span, g1, g2, g3, g4, g5, g6, g7, g8⟩ := run_solid (q := q) srt hn ht y e hp z hq (10 * √(popVariance y))
  have hlen : 0 < (List.ofFn y).length := by simp; omega
  obtain ⟨s, hS⟩ := carmaSampler_total N burnin thin r hv h0 hlen g1 hw
  have hB := carmaSampler_inv hS
  have hfit := carma_fit hB hv h0 hlen g1 g2 hs
  have hkind : o.kind = runKind q z := (new_config g1).1
  set o' : CarP p := { o with b := b } with ho'
  have hok : o'.kind = runKind q z := hkind
  have hnp : npar p o'.kind = nParams p q z := by rw [hok, npar_runKind]
  have htime : b.time = List.ofFn t := by
    rw [setPrior_again (new_config g1).2.2] at g2
    injection g2 with g2
    rw [← g2]
    exact (new_time (new_config g1).2.2 : o.b.time = _)
  obtain ⟨dmin', b0, k1, k2, k3, k4, k5, -, -, k6, k7, -⟩ := base_fresh hn ht y e
  obtain rfl := k1.unique g4
  have hR0 : Ready0 o' n t y e := by
    refine ⟨g3, ⟨_, _, _, by show armaMax b.time = _; rw [htime]; exact k6, by show armaMin b.time = _; rw [htime]; exact k7,
      by linarith, g7, by positivity, ?_⟩, ?_⟩
    · rcases h3 with h3 | h3
      · right
        have := k5 h3
        intro hh
        rw [one_div, one_div, inv_inj] at hh
        linarith
      · exact Or.inl h3
    · rw [hok]; unfold runKind
      split
      · simp
      · split
        · simp
        · rename_i hq0
          intro hh
          injection hh with hh
          exact hq0 hh
  have hma := new_ma (show 0 < p by omega) g1
  have hfit' : Fit (Held o') s := by
    obtain ⟨var', o'', b'', c1, c2, c3, c4⟩ := hB.chain
    cases hv.symm.trans c1
    cases g1.symm.trans c2
    cases g2.symm.trans c3
    refine ⟨fun c hc => ⟨hfit.obj c hc, ?_⟩, hfit.len, hfit.steps, hfit.4⟩
    obtain ⟨i, hi⟩ := List.mem_iff_getElem?.mp hc
    rw [c4 i c hi]
    exact hma
  have hT := held_total hp (show 0 < n by omega) ht g3
  rw [hnp] at hT
  have hlen' : npar p o'.kind = CarP.thetaLen p o'.kind := by rw [hnp, hok, thetaLen_runKind]
  have hst : StartsOr (Held o') (nParams p q z) fuel (if init.length = nParams p q z then some init else none)
      (fun r' => Fair r' ∧ Blocks (nParams p q z) r'.stud) := by
    intro a r' ha ⟨hr1, hr2⟩
    have fin : ∀ {x : Res (CarP p × List ℝ × Rng)}, ((∃ s' θ r'', x = .ok (s', θ, r'') ∧ Held o' s' ∧ θ.length = npar p o'.kind ∧ Drawn r' r'') ∨ x = .error Fault.timeout) →
        ((∃ s' θ r'', x = .ok (s', θ, r'') ∧ Held o' s' ∧ θ.length = nParams p q z ∧ Fair r'' ∧ Blocks (nParams p q z) r''.stud) ∨
          x = .error Fault.timeout) := by
      intro x hx
      refine hx.imp_left ?_
      rintro ⟨s', θ, r'', m1, m2, m3, m4⟩
      exact ⟨s', θ, r'', m1, m2, m3.trans hnp, m4.fair hr1, by rw [m4.stud]; exact hr2⟩
    split
    · exact fin (setStart_or hp hn ht hR0 hlen' fuel init ha hr1)
    · exact fin (start_or hp hn ht hR0 fuel ha hr1)
  rcases run_or hT hfit' (N := N) (burnin := burnin) (thin := thin) (init := init) (R := fun r' => Fair r' ∧ Blocks (nParams p q z) r'.stud)
    (by rw [hB.rng]; exact ⟨⟨hr, hi⟩, hs⟩) (fun r' hr' => hr'.2) hst
    (by obtain ⟨_, a, -, -, h⟩ := hB.steps; rw [h]; simp)
    (by rw [hB.tracked, hB.length]; simp; omega) with ⟨s', h4, h5⟩ | h4
  · left
    unfold runCarmaSampler
    simp only [hS, h4, res_bind_ok]
    rw [rdU_ok (List.getElem?_eq_getElem (show 0 < s'.chains.length by rw [h5, hB.length]; omega))]
    exact ⟨_, rfl⟩
  · right
    unfold runCarmaSampler
    simp only [hS, h4, res_bind_ok]
    rfl

/-- **C46, two observations.** With two observations the smallest and the largest time difference agree, so the prior of the widths of the
Lorentzians is empty and no starting value has a finite log-density: `RunCarmaSampler` never returns, whatever its other arguments. -/
theorem C46_two_points_never_return (srt : List ℝ → List ℕ) {t : Fin 2 → ℝ} (ht : StrictMono t) (y e : Fin 2 → ℝ) {p q : ℕ} (hp : 2 ≤ p) (z : Bool)
    (hq : z = true ∨ q < p) (nw fuel N burnin thin : ℕ) (init : List ℝ) (r : Rng) (c : Par (CarP p)) :
    runCarmaSampler fuel srt N burnin (List.ofFn t) (List.ofFn y) (List.ofFn e) p q nw z thin init r ≠ .ok c := by
  intro h
  obtain ⟨s, h1, h⟩ := bind_ok_inv h
  obtain ⟨s', h2, h⟩ := bind_ok_inv h
  have hB := carmaSampler_inv h1
  obtain ⟨s0, s1, init', g1, -, g3, -⟩ := run_spec h2
  obtain ⟨⟨var, o, b, k1, k2, k3, hc⟩, -, hl⟩ := carma_sound hB g1 g3 (k := 0) rfl
  have hlen : 0 < s1.chains.length := by
    have := congrArg List.length hl
    simp only [List.length_map] at this
    rw [this, hB.length]; exact hB.pos
  have hS := hc _ (List.getElem_mem hlen)
  obtain ⟨o2, b2, dmin, span, m1, m2, m3, m4, m5, m6, m7, m8⟩ := run_solid (q := q) srt le_rfl ht y e hp z hq (10 * √var)
  cases m1.symm.trans k2
  cases m2.symm.trans k3
  obtain ⟨x, hx⟩ := isFin_inv hS.fin
  have hval := hS.valued
  have hθ := hS.len
  generalize (s1.chains[0]'hlen) = cc at *
  cases hld : logDensity ({ o with b := b } : CarP p) cc.value with
  | error f => rw [hld] at hval; cases hval
  | ok w =>
    rw [hld] at hval
    have hval : w.2 = cc.logpost := by injection hval
    obtain ⟨w1, w2⟩ := w
    simp only at hval
    rw [hx] at hval
    subst hval
    obtain ⟨-, -, -, -, f1, -⟩ := logDensity_fin_inv hld
    have h3 : p + 3 ≤ cc.value.length := by rw [hθ]; unfold nParams; split <;> omega
    obtain ⟨roots, hr, hg⟩ := rootsFrom_spec cc.value 3 p (by omega)
    have hc := carp_check m7 m8 m3.ign (θ := cc.value) (p := p) (by omega) hr
    have f2 : CarP.checkPrior b p o.orderLor cc.value = .ok true := f1
    have hlor : o.orderLor = true := (new_config k2).2.1
    rw [hlor] at f2
    have hdec := hc.symm.trans f2
    injection hdec with hdec
    have hb := by simpa only [decide_eq_true_eq] using hdec
    have hne : 0 < roots.length := by rw [hg.length]; omega
    obtain ⟨w1, w2⟩ := hb.width _ (List.getElem_mem hne)
    obtain ⟨dmin', b0, q1, -, q3, -, -, q5, -⟩ := base_fresh le_rfl ht y e
    obtain rfl := q1.unique m4
    obtain rfl := q3.unique m5
    rw [q5 rfl] at w2
    exact lt_asymm w1 w2

/-- **C46, two observations, the hang.** With fair draws and `p ≤ 3` the outcome is the endless search for starting values, for every bound
on the number of passes. -/
theorem C46_two_points_hang (srt : List ℝ → List ℕ) {t : Fin 2 → ℝ} (ht : StrictMono t) (y e : Fin 2 → ℝ) (hy : ∃ i j, y i ≠ y j)
    {p q : ℕ} (hp : 2 ≤ p) (h3 : p ≤ 3) (z : Bool) (hq : z = true ∨ q < p) {nw : ℕ} (hw : 1 ≤ nw) (fuel N burnin thin : ℕ)
    (init : List ℝ) {r : Rng} (hr : r.Ok) (hi : Function.Injective r.randu) (hs : Blocks (nParams p q z) r.stud) :
    runCarmaSampler fuel srt N burnin (List.ofFn t) (List.ofFn y) (List.ofFn e) p q nw z thin init r = .error .timeout := by
  rcases C46_carma_run_any_init srt le_rfl ht y e hy hp z hq (Or.inr h3) hw fuel N burnin thin init hr hi hs with ⟨c, h⟩ | h
  · exact absurd h (C46_two_points_never_return srt ht y e hp z hq nw fuel N burnin thin init r c)
  · exact h

/-- Draws in range, all draws of `randu` different. -/
noncomputable def fairRng : Rng where
  unif _ := 1 / 2
  norm _ := 0
  stud _ := 1
  chi2 _ := 1
  int _ := 0
  randu k := 1 / (k + 1)
  randn _ := 1

lemma fairRng_ok : fairRng.Ok := by
  refine ⟨fun k => by norm_num [fairRng], fun k => by norm_num [fairRng], fun k => ?_⟩
  have h : (0 : ℝ) < (k : ℝ) + 1 := by positivity
  refine ⟨by simp only [fairRng]; positivity, ?_⟩
  simp only [fairRng]
  rw [div_le_one h]
  linarith [(Nat.cast_nonneg k : (0 : ℝ) ≤ k)]

lemma fairRng_inj : Function.Injective fairRng.randu := by
  intro i j h
  simp only [fairRng, one_div, inv_inj] at h
  have : (i : ℝ) = j := by linarith
  exact_mod_cast this

/-- The default call of `run_mcmc` on three points: CARMA(3,1), ten chains, empty initial vector. -/
example (srt : List ℝ → List ℕ) (fuel N burnin : ℕ) :
    (∃ c, runCarmaSampler fuel srt N burnin (List.ofFn exT) (List.ofFn exY) (List.ofFn exT) 3 1 10 false 1 [] fairRng = .ok c) ∨
      runCarmaSampler fuel srt N burnin (List.ofFn exT) (List.ofFn exY) (List.ofFn exT) 3 1 10 false 1 [] fairRng = .error .timeout :=
  C46_carma_run_any_init srt (by norm_num) exT_mono exY exT ⟨0, 1, by simp [exY]⟩ (by norm_num) false (Or.inr (by norm_num)) (Or.inl le_rfl)
    (by norm_num) fuel N burnin 1 [] fairRng_ok fairRng_inj (fun k => ⟨0, by simp [nParams], by simp [fairRng]⟩)

/-- Two points: the sampler hangs. -/
example (srt : List ℝ → List ℕ) (fuel N burnin : ℕ) :
    runCarmaSampler fuel srt N burnin (List.ofFn ![(0 : ℝ), 1]) (List.ofFn ![(0 : ℝ), 1]) (List.ofFn ![(1 : ℝ), 1]) 2 0 10 false 1 [] fairRng =
      .error .timeout :=
  C46_two_points_hang srt (by intro i j h; fin_cases i <;> fin_cases j <;> simp_all) _ _ ⟨0, 1, by simp⟩ le_rfl (by norm_num) false
    (Or.inr (by norm_num)) (by norm_num) fuel N burnin 1 [] fairRng_ok fairRng_inj (fun k => ⟨0, by simp [nParams], by simp [fairRng]⟩)

end Verif.Props
