import Verif.Theory.Adapt
import Verif.Props.Safety

/-!
Runs of the samplers: C25, C28, C29, C30, C31, C33, C47.
-/

namespace Verif.Props

open Verif.Model Verif.Spec Verif.Theory

/-! ### concrete runs, for the examples below -/

lemma run_state {μ : Type} [Target μ] {d : ℕ} {fuel : ℕ} {s s' : Samp μ d} {N burnin thin : ℕ} {init : List ℝ}
    (h : s.run fuel N burnin thin init = .ok s') : ∃ t, RunState fuel s init (burnin + thin * N) t := by
  obtain ⟨s0, s1, init', h1, ⟨st, c, -, -, h2⟩, h3, -, ⟨t, h4, -⟩, -⟩ := run_spec h
  refine ⟨t, s0, s1, init', h1.sameState, ?_, h3, sweeps_of_iterate h4⟩
  rw [h2]; split
  · exact Or.inr rfl
  · exact Or.inl rfl

/-- A state after `k` sweeps of a CAR(2) run with two walkers exists for every `k`. -/
lemma ex_carma_state (srt : List ℝ → List ℕ) (k : ℕ) : ∃ s t, carmaSampler srt 0 k (List.ofFn exT) (List.ofFn exY) (List.ofFn exT) 2 0 2 false 1
    exRng = .ok s ∧ RunState 0 s exθ k t := by
  obtain ⟨c, h⟩ := ex_carma_run srt 0 0 k 1
  obtain ⟨s, h1, h⟩ := bind_ok_inv h
  obtain ⟨s', h2, h⟩ := bind_ok_inv h
  obtain ⟨t, h3⟩ := run_state h2
  exact ⟨s, t, h1, h3⟩

lemma ex_car1_state (srt : List ℝ → List ℕ) (k : ℕ) : ∃ s t, car1Sampler srt k (List.ofFn exT) (List.ofFn exY) (List.ofFn exT)
    exRng = .ok s ∧ RunState 0 s [1, 1, 0, -1] k t := by
  obtain ⟨c, h⟩ := ex_car1_run srt 0 0 k 1
  obtain ⟨s, h1, h⟩ := bind_ok_inv h
  obtain ⟨s', h2, h⟩ := bind_ok_inv h
  obtain ⟨t, h3⟩ := run_state h2
  exact ⟨s, t, h1, h3⟩

/-! ### C25 -/

variable {srt : List ℝ → List ℕ} {N burnin thin fuel : ℕ} {time y yerr : List ℝ} {p q nw : ℕ} {z : Bool} {r : Rng} {init : List ℝ}

/-- **C25, CARp, CARMA, ZCAR.** After any number of sweeps of a run of the sampler of `RunCarmaSampler`, the log-density stored in each
chain is what its own model returns for the value stored in it, whatever the state of the filter. -/
theorem C25_carma {s : Samp (CarP p) (nParams p q z)} (hs : carmaSampler srt N burnin time y yerr p q nw z thin r = .ok s) {k : ℕ}
    {t : Samp (CarP p) (nParams p q z)} (h : RunState fuel s init k t) :
    ∀ c ∈ t.chains, ∃ o, logDensity c.obj c.value = .ok (o, c.logpost) := by
  obtain ⟨s0, s1, init', h1, -, h3, h4⟩ := h
  obtain ⟨⟨var, o, b, -, -, -, hc⟩, -⟩ := carma_sound (carmaSampler_inv hs) (SampRec.of_same h1) h3 (iterate_of_sweeps h4)
  intro c hcm
  have hS := hc c hcm
  have hd := CarP.cored.density hS.core c.value
  have hv := hS.valued
  cases hx : logDensity c.obj c.value with
  | error f =>
      rw [hx] at hd
      cases hx' : logDensity ({ o with b := b } : CarP p) c.value with
      | error f' => rw [hx'] at hv; cases hv
      | ok w => rw [hx'] at hd; exact hd.elim
  | ok w =>
      rw [hx] at hd
      cases hx' : logDensity ({ o with b := b } : CarP p) c.value with
      | error f' => rw [hx'] at hv; cases hv
      | ok w' =>
          rw [hx'] at hd hv
          have h2 : w'.2 = w.2 := hd.2.2
          have hv : w'.2 = c.logpost := by injection hv
          exact ⟨w.1, by rw [← hv, h2]⟩

/-- **C25, CAR(1).** -/
theorem C25_car1 {s : Samp Car1 4} (hs : car1Sampler srt burnin time y yerr r = .ok s) {k : ℕ}
    {t : Samp Car1 4} (h : RunState fuel s init k t) :
    ∀ c ∈ t.chains, ∃ o, logDensity c.obj c.value = .ok (o, c.logpost) := by
  obtain ⟨s0, s1, init', h1, -, h3, h4⟩ := h
  obtain ⟨var, o, b, c1, -, -, -, -, -, hk⟩ := car1_sound (car1Sampler_inv hs) (SampRec.of_same h1) h3
  obtain ⟨-, c', e1, hcore, hv, -⟩ := hk k t (iterate_of_sweeps h4)
  intro c hcm
  rw [e1, List.mem_singleton] at hcm
  subst hcm
  have hd := Car1.cored.density hcore c.value
  cases hx : logDensity c.obj c.value with
  | error f =>
      rw [hx] at hd
      cases hx' : logDensity ({ o with b := b } : Car1) c.value with
      | error f' => rw [hx'] at hv; cases hv
      | ok w => rw [hx'] at hd; exact hd.elim
  | ok w =>
      rw [hx] at hd
      cases hx' : logDensity ({ o with b := b } : Car1) c.value with
      | error f' => rw [hx'] at hv; cases hv
      | ok w' =>
          rw [hx'] at hd hv
          have h2 : w'.2 = w.2 := hd.2.2
          have hv : w'.2 = c.logpost := by injection hv
          exact ⟨w.1, by rw [← hv, h2]⟩

example (srt : List ℝ → List ℕ) (k : ℕ) : ∃ s t, carmaSampler srt 0 k (List.ofFn exT) (List.ofFn exY) (List.ofFn exT) 2 0 2 false 1
    exRng = .ok s ∧ RunState 0 s exθ k t := ex_carma_state srt k

example (srt : List ℝ → List ℕ) (k : ℕ) : ∃ s t, car1Sampler srt k (List.ofFn exT) (List.ofFn exY) (List.ofFn exT)
    exRng = .ok s ∧ RunState 0 s [1, 1, 0, -1] k t := ex_car1_state srt k

/-! ### C28 -/

/-- **C28, every sampler.** Let the RAM steps of a sampler start with iteration count 0. After `n` sweeps a RAM step with
`maxiter ≤ n` keeps its proposal factor for all further sweeps. -/
theorem C28_sweeps {μ : Type} [Target μ] {d : ℕ} {s t u : Samp μ d} (hfresh : ∀ i a, .ram i a ∈ s.steps → a.niter = 0) {n m : ℕ}
    (h : Sweeps s n t) (h' : Sweeps t m u) {j i : ℕ} {a : Ram d} (hj : t.steps[j]? = some (.ram i a)) (ha : a.maxiter ≤ n) :
    a.niter = n ∧ ∃ b, u.steps[j]? = some (.ram i b) ∧ b.chol = a.chol := by
  have hlt : j < s.steps.length := by rw [← sweeps_length h]; exact (List.getElem?_eq_some_iff.mp hj).1
  obtain ⟨st', g1, g2, g3⟩ := sweeps_later h (List.getElem?_eq_getElem hlt)
  rw [hj] at g1
  injection g1 with g1
  subst g1
  have hn : a.niter = n := by
    cases hst : s.steps[j] with
    | exch e => rw [hst] at g2; exact g2.elim
    | ram i' a' =>
        obtain ⟨b, e1, e2⟩ := g3 i' a' hst
        injection e1 with e1 e3
        subst e3
        rw [e2, hfresh i' a' (hst ▸ List.getElem_mem hlt), zero_add]
  obtain ⟨st', g4, g5, g6⟩ := sweeps_later h' hj
  obtain ⟨b, e1, e2⟩ := g6 i a rfl
  subst e1
  exact ⟨hn, b, g4, g5.2.2.2 (by omega)⟩

lemma startLoop_steps {μ : Type} [Target μ] {d : ℕ} {fuel : ℕ} {init : Option (List ℝ)} {s t : Samp μ d} {m : ℕ}
    (h : s.startLoop fuel init m = .ok t) : t.steps = s.steps := (startLoop_frame h).2.2

/-- **C28, CARp, CARMA, ZCAR.** In a run of `RunCarmaSampler` no proposal factor changes after `burnin` sweeps. -/
theorem C28_carma {s : Samp (CarP p) (nParams p q z)} (hs : carmaSampler srt N burnin time y yerr p q nw z thin r = .ok s) {k m : ℕ}
    (hk : burnin ≤ k) {t u : Samp (CarP p) (nParams p q z)} (h : RunState fuel s init k t) (h' : Sweeps t m u)
    {j i : ℕ} {a : Ram (nParams p q z)} (hj : t.steps[j]? = some (.ram i a)) :
    ∃ b, u.steps[j]? = some (.ram i b) ∧ b.chol = a.chol := by
  obtain ⟨s0, s1, init', h1, -, h3, h4⟩ := h
  obtain ⟨var, a0, -, e2, e3⟩ := (carmaSampler_inv hs).steps
  have hsteps : s1.steps = s.steps := (startLoop_steps h3).trans h1.steps
  obtain ⟨f1, f2⟩ : a0.niter = 0 ∧ a0.maxiter = burnin := by
    unfold Ram.new at e2
    obtain ⟨_, -, e2⟩ := bind_ok_inv e2
    injection e2 with e2
    rw [← e2]; exact ⟨rfl, rfl⟩
  have hall : ∀ i a, .ram i a ∈ s1.steps → a = a0 := by
    intro i a ha
    rw [hsteps, e3] at ha
    rcases tempered_fresh ha with ⟨i', hi⟩ | ⟨i', hi⟩
    · injection hi
    · cases hi
  have hmax : a.maxiter = burnin := by
    have hlt : j < s1.steps.length := by rw [← sweeps_length h4]; exact (List.getElem?_eq_some_iff.mp hj).1
    obtain ⟨st', g1, g2, -⟩ := sweeps_later h4 (List.getElem?_eq_getElem hlt)
    rw [hj] at g1
    injection g1 with g1
    subst g1
    cases hst : s1.steps[j] with
    | exch e => rw [hst] at g2; exact g2.elim
    | ram i' a' =>
        rw [hst] at g2
        rw [g2.2.1, hall i' a' (hst ▸ List.getElem_mem hlt), f2]
  exact (C28_sweeps (fun i a ha => by rw [hall i a ha, f1]) h4 h' hj (by omega)).2

/-- **C28, CAR(1).** -/
theorem C28_car1 {s : Samp Car1 4} (hs : car1Sampler srt burnin time y yerr r = .ok s) {k m : ℕ}
    (hk : burnin ≤ k) {t u : Samp Car1 4} (h : RunState fuel s init k t) (h' : Sweeps t m u)
    {j i : ℕ} {a : Ram 4} (hj : t.steps[j]? = some (.ram i a)) :
    ∃ b, u.steps[j]? = some (.ram i b) ∧ b.chol = a.chol := by
  obtain ⟨s0, s1, init', h1, -, h3, h4⟩ := h
  obtain ⟨var, a0, -, e2, e3⟩ := (car1Sampler_inv hs).steps
  have hsteps : s1.steps = s.steps := (startLoop_steps h3).trans h1.steps
  obtain ⟨f1, f2⟩ : a0.niter = 0 ∧ a0.maxiter = burnin := by
    unfold Ram.new at e2
    obtain ⟨_, -, e2⟩ := bind_ok_inv e2
    injection e2 with e2
    rw [← e2]; exact ⟨rfl, rfl⟩
  have hall : ∀ i a, .ram i a ∈ s1.steps → a = a0 := by
    intro i a ha
    rw [hsteps, e3, List.mem_singleton] at ha
    injection ha
  have hmax : a.maxiter = burnin := by
    have hlt : j < s1.steps.length := by rw [← sweeps_length h4]; exact (List.getElem?_eq_some_iff.mp hj).1
    obtain ⟨st', g1, g2, -⟩ := sweeps_later h4 (List.getElem?_eq_getElem hlt)
    rw [hj] at g1
    injection g1 with g1
    subst g1
    cases hst : s1.steps[j] with
    | exch e => rw [hst] at g2; exact g2.elim
    | ram i' a' =>
        rw [hst] at g2
        rw [g2.2.1, hall i' a' (hst ▸ List.getElem_mem hlt), f2]
  exact (C28_sweeps (fun i a ha => by rw [hall i a ha, f1]) h4 h' hj (by omega)).2

/-! ### C29 -/

/-- **C29.** If `Run` returns, for any target and any steps, it has given starting values and then executed exactly
`burnin + thin * N` sweeps. Every tracked chain has recorded exactly `N` values and log-densities, number `k` being those held by the chain
after `burnin + thin * (k + 1)` sweeps. Chains that are not tracked recorded nothing. `init` is used when it has the length of the chain of
the first step. -/
theorem C29_run {μ : Type} [Target μ] {d : ℕ} {s s' : Samp μ d} (h : s.run fuel N burnin thin init = .ok s') :
    ∃ s0 s1 init', SameState s s0 ∧
      (∃ st c, s.steps[0]? = some st ∧ s.chains[st.chain]? = some c ∧ init' = if init.length = c.value.length then some init else none) ∧
      s0.startLoop fuel init' s0.steps.length = .ok s1 ∧
      (∃ t, Sweeps s1 (burnin + thin * N) t ∧ SameState t s') ∧
      (∀ lab i, (lab, i) ∈ s.tracked → i < s.chains.length → ∃ c, s'.chains[i]? = some c ∧ c.samples.length = N ∧ c.logposts.length = N ∧
        ∀ k < N, ∃ t c', Sweeps s1 (burnin + thin * (k + 1)) t ∧ t.chains[i]? = some c' ∧ c.samples[k]? = some c'.value ∧
          c.logposts[k]? = some c'.logpost) ∧
      ∀ i c, s.chains[i]? = some c → (¬ ∃ lab, (lab, i) ∈ s.tracked) → ∃ c', s'.chains[i]? = some c' ∧ c'.samples = c.samples ∧
        c'.logposts = c.logposts := by
  obtain ⟨s0, s1, init', h1, h2, h3, h4, ⟨t, h5, h6⟩, h7⟩ := run_spec h
  refine ⟨s0, s1, init', h1.sameState, h2, h3, ⟨t, sweeps_of_iterate h5, h6.sameState⟩, fun lab i hm hi => ?_, h4⟩
  obtain ⟨c, g1, g2, g3, g4⟩ := h7 lab i hm hi
  refine ⟨c, g1, g2, g3, fun k hk => ?_⟩
  obtain ⟨t, c', e1, e2⟩ := g4 k hk
  exact ⟨t, c', sweeps_of_iterate e1, e2⟩

/-- A run of 5 recorded samples of a CAR(2) sampler with two walkers returns. -/
example (srt : List ℝ → List ℕ) : ∃ s s', carmaSampler srt 5 7 (List.ofFn exT) (List.ofFn exY) (List.ofFn exT) 2 0 2 false 3
    exRng = .ok s ∧ s.run 0 5 7 3 exθ = .ok s' := by
  obtain ⟨c, h⟩ := ex_carma_run srt 0 5 7 3
  obtain ⟨s, h1, h⟩ := bind_ok_inv h
  obtain ⟨s', h2, h⟩ := bind_ok_inv h
  exact ⟨s, s', h1, h2⟩

/-! ### C30 -/

/-- **C30, CARp, CARMA, ZCAR.** If `RunCarmaSampler` returns, on any data, exactly `N` samples are recorded; each has the length of the
parameter vector, and its recorded log-density is finite and is what a freshly constructed model returns for it. -/
theorem C30_carma {c : Par (CarP p)} (h : runCarmaSampler fuel srt N burnin time y yerr p q nw z thin init r = .ok c) :
    ∃ var o b, popVar y = .ok var ∧ CarP.new (runKind q z) p srt time y yerr = .ok o ∧ o.b.setPrior (10 * √var) = .ok b ∧
      c.samples.length = N ∧ c.logposts.length = N ∧ ∀ k < N, ∃ θ x o', c.samples[k]? = some θ ∧ c.logposts[k]? = some (.fin x) ∧
        θ.length = nParams p q z ∧ logDensity { o with b := b } θ = .ok (o', .fin x) := by
  obtain ⟨s, h1, h⟩ := bind_ok_inv h
  obtain ⟨s', h2, h⟩ := bind_ok_inv h
  have hB := carmaSampler_inv h1
  obtain ⟨s0, s1, init', g1, -, g3, -, -, g7⟩ := run_spec h2
  obtain ⟨c', e1, e2, e3, e4⟩ := g7 (runLabel q z) 0 (by rw [hB.tracked]; simp) (by have := hB.pos; have := hB.length; omega)
  rw [rdU_inv h] at e1
  injection e1 with e1
  subst e1
  obtain ⟨var, o, b, k1, k2, k3, -⟩ := hB.chain
  refine ⟨var, o, b, k1, k2, k3, e2, e3, fun k hk => ?_⟩
  obtain ⟨t, c', f1, f2, f3, f4⟩ := e4 k hk
  obtain ⟨⟨var', o', b', k1', k2', k3', hc⟩, -⟩ := carma_sound hB g1 g3 f1
  cases k1.symm.trans k1'
  cases k2.symm.trans k2'
  cases k3.symm.trans k3'
  have hS := hc c' (List.mem_of_getElem? f2)
  obtain ⟨x, hx⟩ : ∃ x, c'.logpost = .fin x := by
    exact isFin_inv hS.fin
  have hv := hS.valued
  cases hld : logDensity ({ o with b := b } : CarP p) c'.value with
  | error f => rw [hld] at hv; cases hv
  | ok w =>
      rw [hld] at hv
      have hv : w.2 = c'.logpost := by injection hv
      exact ⟨c'.value, x, w.1, f3, by rw [f4, hx], hS.len, by rw [← hx, ← hv]; exact hld⟩

/-- **C30, CAR(1).** If `RunCar1Sampler` returns, either every recorded sample has a finite log-density, which is what a freshly constructed
model returns for it, or the starting value has a log-density that is not finite and all recorded samples are equal to it. -/
theorem C30_car1 {c : Par Car1} (h : runCar1Sampler fuel srt N burnin time y yerr thin init r = .ok c) :
    ∃ var o b, popVar y = .ok var ∧ Car1.new srt time y yerr = .ok o ∧ o.b.setPrior (10 * √var) = .ok b ∧
      c.samples.length = N ∧ c.logposts.length = N ∧
      ((∀ k < N, ∃ θ x o', c.samples[k]? = some θ ∧ c.logposts[k]? = some (.fin x) ∧
        θ.length = 4 ∧ logDensity { o with b := b } θ = .ok (o', .fin x)) ∨
      ∃ θ l, ¬ Dbl.isFin l ∧ (logDensity { o with b := b } θ).map Prod.snd = .ok l ∧
        ∀ k < N, c.samples[k]? = some θ ∧ c.logposts[k]? = some l) := by
  obtain ⟨s, h1, h⟩ := bind_ok_inv h
  obtain ⟨s', h2, h⟩ := bind_ok_inv h
  have hB := car1Sampler_inv h1
  obtain ⟨s0, s1, init', g1, -, g3, -, -, g7⟩ := run_spec h2
  obtain ⟨var, o, b, c1, k1, k2, k3, k4, -, hk⟩ := car1_sound hB g1 g3
  obtain ⟨c', e1, e2, e3, e4⟩ := g7 "CAR(1)" 0 (by rw [hB.tracked]; simp) (by obtain ⟨_, _, _, -, -, -, h⟩ := hB.chain; rw [h]; simp)
  rw [rdU_inv h] at e1
  injection e1 with e1
  subst e1
  refine ⟨var, o, b, k1, k2, k3, e2, e3, ?_⟩
  by_cases hfin : c1.logpost.isFin
  · left
    intro k hkN
    obtain ⟨t, c', f1, f2, f3, f4⟩ := e4 k hkN
    obtain ⟨-, c2, m1, -, m3, m4, m5, -⟩ := hk _ t f1
    rw [m1] at f2
    injection f2 with f2
    subst f2
    obtain ⟨x, hx⟩ : ∃ x, c2.logpost = .fin x := by
      exact isFin_inv (m5 hfin)
    cases hld : logDensity ({ o with b := b } : Car1) c2.value with
    | error f => rw [hld] at m3; cases m3
    | ok w =>
        rw [hld] at m3
        have hv : w.2 = c2.logpost := by injection m3
        exact ⟨c2.value, x, w.1, f3, by rw [f4, hx], m4, by rw [← hx, ← hv]; exact hld⟩
  · right
    obtain ⟨-, c2, m1, -, m3, -⟩ := hk 0 s1 rfl
    rw [k4] at m1
    injection m1 with m1
    subst m1
    refine ⟨c1.value, c1.logpost, hfin, m3, fun k hkN => ?_⟩
    obtain ⟨t, c', f1, f2, f3, f4⟩ := e4 k hkN
    obtain ⟨-, c2, m1, -, -, -, -, m6, -⟩ := hk _ t f1
    rw [m1] at f2
    injection f2 with f2
    subst f2
    rw [f3, f4, (m6 hfin).1, (m6 hfin).2]
    exact ⟨rfl, rfl⟩

example (srt : List ℝ → List ℕ) : ∃ c, runCarmaSampler 0 srt 5 7 (List.ofFn exT) (List.ofFn exY) (List.ofFn exT) 2 0 2 false 3
    exθ exRng = .ok c := ex_carma_run srt 0 5 7 3

example (srt : List ℝ → List ℕ) : ∃ c, runCar1Sampler 0 srt 5 7 (List.ofFn exT) (List.ofFn exY) (List.ofFn exT) 3
    [1, 1, 0, -1] exRng = .ok c := ex_car1_run srt 0 5 7 3

/-! ### C31 -/

lemma temperature_rpow {n i : ℕ} (hn : 2 ≤ n) : temperature n i = (100 : ℝ) ^ ((i : ℝ) / ((n : ℝ) - 1)) := by
  have hn1 : ((n - 1 : ℕ) : ℝ) = (n : ℝ) - 1 := by push_cast [Nat.cast_sub (show 1 ≤ n by omega)]; ring
  unfold temperature
  rw [if_neg (by omega), Real.rpow_def_of_pos (by norm_num), hn1]
  congr 1; ring

lemma carma_chains {s : Samp (CarP p) (nParams p q z)} (hs : carmaSampler srt N burnin time y yerr p q nw z thin r = .ok s) {k : ℕ}
    {t : Samp (CarP p) (nParams p q z)} (h : RunState fuel s init k t) :
    t.chains.length = nw ∧ t.tracked = [(runLabel q z, 0)] ∧
      ∀ i c, t.chains[i]? = some c → c.temp = temperature nw i ∧ c.track = decide (i = 0) := by
  obtain ⟨s0, s1, init', h1, -, h3, h4⟩ := h
  have hB := carmaSampler_inv hs
  obtain ⟨-, h5, h6⟩ := carma_sound hB (SampRec.of_same h1) h3 (iterate_of_sweeps h4)
  obtain ⟨var, o, b, -, -, -, hc⟩ := hB.chain
  have hlen : t.chains.length = s.chains.length := by simpa using congrArg List.length h6
  refine ⟨hlen.trans hB.length, h5.trans hB.tracked, fun i c hi => ?_⟩
  have hlt : i < s.chains.length := by rw [← hlen]; exact (List.getElem?_eq_some_iff.mp hi).1
  have hg := congrArg (fun l => l[i]?) h6
  simp only [List.getElem?_map, hi, List.getElem?_eq_getElem hlt, Option.map_some, Option.some.injEq, Prod.mk.injEq] at hg
  have := hc i _ (List.getElem?_eq_getElem hlt)
  rw [hg.1, hg.2.2, this]
  exact ⟨rfl, rfl⟩

/-- **C31, two walkers or more.** Throughout a run of `RunCarmaSampler` there are `nw` chains, chain `i` has temperature
`100 ^ (i / (nw - 1))`, and only chain 0, of temperature 1, is tracked. The full claim (`nw ≥ 1`) is false: see
`C31_one_walker_temperature`. -/
theorem C31_temperatures_partial (hw : 2 ≤ nw) {s : Samp (CarP p) (nParams p q z)}
    (hs : carmaSampler srt N burnin time y yerr p q nw z thin r = .ok s) {k : ℕ}
    {t : Samp (CarP p) (nParams p q z)} (h : RunState fuel s init k t) :
    t.chains.length = nw ∧ t.tracked.map Prod.snd = [0] ∧
      ∀ (i : ℕ) c, t.chains[i]? = some c → c.temp = (100 : ℝ) ^ ((i : ℝ) / ((nw : ℝ) - 1)) ∧ (c.track = true ↔ i = 0) ∧ (i = 0 → c.temp = 1) := by
  obtain ⟨h1, h2, h3⟩ := carma_chains hs h
  refine ⟨h1, by rw [h2]; rfl, fun i c hi => ?_⟩
  obtain ⟨g1, g2⟩ := h3 i c hi
  rw [g1, g2, temperature_rpow hw]
  exact ⟨rfl, by simp, fun h0 => by rw [h0]; simp⟩

/-- **C31 is false for one walker.** Then the temperature of chain 0, the recorded one, is 100: `arma::linspace` with one element gives the
end point. -/
theorem C31_one_walker_temperature {s : Samp (CarP p) (nParams p q z)}
    (hs : carmaSampler srt N burnin time y yerr p q 1 z thin r = .ok s) {k : ℕ}
    {t : Samp (CarP p) (nParams p q z)} (h : RunState fuel s init k t) :
    ∃ c, t.chains = [c] ∧ c.temp = 100 ∧ c.track = true := by
  obtain ⟨h1, h2, h3⟩ := carma_chains hs h
  obtain ⟨c, hc⟩ := List.length_eq_one_iff.mp h1
  obtain ⟨g1, g2⟩ := h3 0 c (by rw [hc]; rfl)
  refine ⟨c, hc, ?_, by rw [g2]; rfl⟩
  rw [g1, temperature, if_pos rfl, Real.exp_log (by norm_num)]

/-- **C31, recording.** After `Run` the chains other than chain 0 have recorded nothing, for every number of walkers. -/
theorem C31_only_chain_0_recorded {s s' : Samp (CarP p) (nParams p q z)}
    (hs : carmaSampler srt N burnin time y yerr p q nw z thin r = .ok s) {N' burnin' thin' : ℕ} (h : s.run fuel N' burnin' thin' init = .ok s') :
    s'.chains.length = nw ∧ (∃ c, s'.chains[0]? = some c ∧ c.samples.length = N' ∧ c.logposts.length = N') ∧
      ∀ i c, 0 < i → s'.chains[i]? = some c → c.samples = [] ∧ c.logposts = [] := by
  have hB := carmaSampler_inv hs
  obtain ⟨s0, s1, init', h1, ⟨st, c, -, -, h2⟩, h3, h4, ⟨t, h5, h6⟩, h7⟩ := run_spec h
  have hi : init' = none ∨ init' = some init := by
    rw [h2]; split
    · exact Or.inr rfl
    · exact Or.inl rfl
  have hlen : s'.chains.length = nw := by
    rw [← h6.chains.length_eq]
    exact (carma_chains hs ⟨s0, s1, init', h1.sameState, hi, h3, sweeps_of_iterate h5⟩).1
  refine ⟨hlen, ?_, fun i c hi hc => ?_⟩
  · obtain ⟨c, g1, g2, g3, -⟩ := h7 (runLabel q z) 0 (by rw [hB.tracked]; simp) (by have := hB.pos; have := hB.length; omega)
    exact ⟨c, g1, g2, g3⟩
  · have hlt : i < s.chains.length := by rw [hB.length, ← hlen]; exact (List.getElem?_eq_some_iff.mp hc).1
    obtain ⟨c', g1, g2, g3⟩ := h4 i _ (List.getElem?_eq_getElem hlt) (by
      rw [hB.tracked]; rintro ⟨lab, hm⟩; simp at hm; omega)
    rw [hc] at g1
    injection g1 with g1
    subst g1
    obtain ⟨var, o, b, -, -, -, hall⟩ := hB.chain
    rw [g2, g3, hall i _ (List.getElem?_eq_getElem hlt)]
    exact ⟨rfl, rfl⟩

/-- The hypotheses of the last three theorems: two walkers, one walker, and a full run. -/
example (srt : List ℝ → List ℕ) (k : ℕ) : ∃ s t, carmaSampler srt 0 k (List.ofFn exT) (List.ofFn exY) (List.ofFn exT) 2 0 2 false 1
    exRng = .ok s ∧ RunState 0 s exθ k t := ex_carma_state srt k

example (srt : List ℝ → List ℕ) (k : ℕ) : ∃ s t, carmaSampler srt 0 k (List.ofFn exT) (List.ofFn exY) (List.ofFn exT) 2 0 1 false 1
    exRng = .ok s ∧ RunState 0 s exθ k t := by
  obtain ⟨roots, h1, h2⟩ := ex_run_bounds
  obtain ⟨c, h⟩ := C46_carma_run_returns srt (by norm_num) exT_mono exY exT ⟨0, 1, by simp [exY]⟩ (p := 2) (q := 0) (nw := 1) le_rfl false
    (Or.inr (by norm_num)) (by norm_num) 0 0 k 1 (by simp [exθ, nParams]) h1 ex_gap.1 ex_gap.2 h2 (Or.inl (by simp [at0, exθ]))
    (r := exRng) (fun k => ⟨0, by simp [nParams], by simp [exRng]⟩)
  obtain ⟨s, h1, h⟩ := bind_ok_inv h
  obtain ⟨s', h2, h⟩ := bind_ok_inv h
  obtain ⟨t, h3⟩ := run_state h2
  exact ⟨s, t, h1, h3⟩

/-! ### C33 -/

lemma later_kind {d : ℕ} {a b : StepSt d} (h : Later a b) : stepKind b = stepKind a := by
  cases a <;> cases b <;> first | exact h.elim | skip
  · exact congrArg (Prod.mk true) h.1
  · exact congrArg (Prod.mk false) h

/-- **C33, CARp, CARMA, ZCAR.** Throughout a run every chain holds a vector of `nParams p q z` numbers, which is the size of the proposal
covariance of each RAM step; the steps are in the order of `stepOrder`, and refer to existing chains (an exchange refers to its chain and
the one below). -/
theorem C33_carma {s : Samp (CarP p) (nParams p q z)} (hs : carmaSampler srt N burnin time y yerr p q nw z thin r = .ok s) {k : ℕ}
    {t : Samp (CarP p) (nParams p q z)} (h : RunState fuel s init k t) :
    (∀ c ∈ t.chains, c.value.length = nParams p q z) ∧ t.steps.map stepKind = stepOrder (nw - 1) ∧
      ∀ st ∈ t.steps, st.chain < t.chains.length ∧ ∀ e, st = .exch e → 1 ≤ e.idx ∧ e.idx < t.chains.length := by
  have hch := (carma_chains hs h).1
  obtain ⟨s0, s1, init', h1, -, h3, h4⟩ := h
  have hB := carmaSampler_inv hs
  obtain ⟨⟨var, o, b, -, -, -, hc⟩, -⟩ := carma_sound hB (SampRec.of_same h1) h3 (iterate_of_sweeps h4)
  have hsteps : s1.steps = s.steps := (startLoop_steps h3).trans h1.steps
  have hkind : t.steps.map stepKind = stepOrder (nw - 1) := by
    obtain ⟨var, a, -, -, e⟩ := hB.steps
    rw [← tempered_kind a (burnin + thin * N) (nw - 1), ← e, ← hsteps]
    apply List.ext_getElem?
    intro i
    rw [List.getElem?_map, List.getElem?_map]
    by_cases hi : i < s1.steps.length
    · obtain ⟨st', g1, g2, -⟩ := sweeps_later h4 (List.getElem?_eq_getElem hi)
      rw [g1, List.getElem?_eq_getElem hi, Option.map_some, Option.map_some, later_kind g2]
    · rw [List.getElem?_eq_none (by rw [sweeps_length h4]; omega), List.getElem?_eq_none (by omega)]
  refine ⟨fun c hcm => (hc c hcm).len, hkind, fun st hst => ?_⟩
  have hpos := hB.pos
  have hm : stepKind st ∈ stepOrder (nw - 1) := by rw [← hkind]; exact List.mem_map_of_mem hst
  cases st with
  | ram i a =>
      have hi : i ≤ nw - 1 := (stepOrder_le _ hm).1
      refine ⟨?_, fun e he => by cases he⟩
      show i < _
      omega
  | exch e =>
      have hi : e.idx ≤ nw - 1 ∧ (false = false → 1 ≤ e.idx) := stepOrder_le _ hm
      refine ⟨?_, fun e' he => ?_⟩
      · show e.idx < _
        omega
      · injection he with he
        subst he
        exact ⟨hi.2 rfl, by omega⟩

/-- **C33, CAR(1).** One chain of four numbers and one RAM step with a 4 by 4 proposal. -/
theorem C33_car1 {s : Samp Car1 4} (hs : car1Sampler srt burnin time y yerr r = .ok s) {k : ℕ}
    {t : Samp Car1 4} (h : RunState fuel s init k t) :
    (∃ c, t.chains = [c] ∧ c.value.length = 4) ∧ ∃ a, t.steps = [.ram 0 a] := by
  obtain ⟨s0, s1, init', h1, -, h3, h4⟩ := h
  have hB := car1Sampler_inv hs
  obtain ⟨var, o, b, c1, -, -, -, -, -, hk⟩ := car1_sound hB (SampRec.of_same h1) h3
  obtain ⟨-, c, m1, -, -, m4, -⟩ := hk k t (iterate_of_sweeps h4)
  refine ⟨⟨c, m1, m4⟩, ?_⟩
  obtain ⟨var, a, -, -, e⟩ := hB.steps
  have hsteps : s1.steps = [.ram 0 a] := (startLoop_steps h3).trans (h1.steps.trans e)
  obtain ⟨st', g1, -, g3⟩ := sweeps_later h4 (j := 0) (st := .ram 0 a) (by rw [hsteps]; rfl)
  obtain ⟨b, rfl, -⟩ := g3 0 a rfl
  have hl : t.steps.length = 1 := by rw [sweeps_length h4, hsteps]; rfl
  obtain ⟨st, hst⟩ := List.length_eq_one_iff.mp hl
  rw [hst] at g1
  injection g1 with g1
  exact ⟨b, by rw [hst, g1]⟩

/-! ### C47 -/

/-- **C47, CARp, CARMA, ZCAR.** For strictly increasing times, `p ≥ 2` and `q < p`: if `RunCarmaSampler` returns, then each of the `N` recorded
samples satisfies the prior bounds, and the log-density recorded with it is the logarithm of the Gaussian density of the data under the
CARMA process with these parameters plus the log prior. -/
theorem C47_carma (srt : List ℝ → List ℕ) {n : ℕ} (hn : 2 ≤ n) {t : Fin n → ℝ} (ht : StrictMono t) (y e : Fin n → ℝ) (hp : 2 ≤ p)
    (hq : z = true ∨ q < p) {c : Par (CarP p)}
    (h : runCarmaSampler fuel srt N burnin (List.ofFn t) (List.ofFn y) (List.ofFn e) p q nw z thin init r = .ok c)
    {dmin span : ℝ} (h1 : IsMinGap t dmin) (h2 : IsSpan t span) :
    c.samples.length = N ∧ c.logposts.length = N ∧ ∀ k < N, ∃ θ x, c.samples[k]? = some θ ∧ c.logposts[k]? = some (.fin x) ∧
      θ.length = nParams p q z ∧ ∃ (roots : List ℂ) (ω : Fin p → ℂ) (ma : List ℝ),
        CarpBounds (10 * √(popVariance y)) (1 / dmin) (1 / span) roots θ ∧ List.ofFn ω = roots ∧ Admissible ω ∧
        ∏ k, (Polynomial.X - Polynomial.C (ω k)) = (factorPoly (at0 θ) 3 p).map Complex.ofRealHom ∧
        ma.length = p ∧ ma[0]? = some 1 ∧ (∀ s, maEval ma s = maPolySpec (runKind q z) p 1 1 θ s) ∧
        x = logGauss (obsCov (fun d => at0 θ 0 ^ 2 * (carmaAcf 1 ω ma d / carmaAcf 1 ω ma 0)) t fun i => √(at0 θ 1) * e i)
          (fun i => y i - at0 θ 2) + logPriorSpec θ := by
  obtain ⟨var, o, b, g1, g2, g3, g4, g5, g6⟩ := C30_carma h
  refine ⟨g4, g5, fun k hk => ?_⟩
  obtain ⟨θ, x, o', k1, k2, k3, k4⟩ := g6 k hk
  refine ⟨θ, x, k1, k2, k3, ?_⟩
  cases (popVar_eq (show 0 < n by omega) y).symm.trans g1
  obtain ⟨o2, b2, dmin', span', m1, m2, m3, m4, m5, m6, m7, m8⟩ := run_solid (q := q) srt hn ht y e hp z hq (10 * √(popVariance y))
  obtain rfl := h1.unique m4
  obtain rfl := h2.unique m5
  cases m1.symm.trans g2
  cases m2.symm.trans g3
  have hkind : o.kind = runKind q z := (new_config g2).1
  have hnz : runKind q z ≠ .zcarma := by
    unfold runKind; split
    · simp
    · split <;> simp
  obtain ⟨roots, ω, ma, -, v2, v3, v4, v5, v6, v7, v8, v9⟩ := solid_value hp (show 0 < n by omega) ht m3 (lo := 1) (hi := 1) one_pos le_rfl
    (fun hz => absurd (hkind.symm.trans hz) hnz) m7 m8 (θ := θ) (by
      show _ = npar p o.kind
      rw [hkind, npar_runKind]; exact k3) k4
  refine ⟨roots, ω, ma, by rw [← m6]; exact v2, v3, v4, v5, v6, v7, by rw [← hkind]; exact v8, ?_⟩
  rw [v9]
  have hl : logitPrior (({ o with b := b } : CarP p).kind) p θ = 0 := by
    show logitPrior o.kind p θ = 0
    rw [hkind]
    cases hk : runKind q z with
    | zcarma => exact absurd hk hnz
    | _ => rfl
  rw [hl, add_zero]

/-- **C47, CAR(1).** If `RunCar1Sampler` returns, either each recorded sample satisfies the prior bounds and its recorded log-density is the
logarithm of the Gaussian density of the data plus the log prior, or all recorded samples are the same vector, of log-density not finite. -/
theorem C47_car1 (srt : List ℝ → List ℕ) {n : ℕ} (hn : 2 ≤ n) {t : Fin n → ℝ} (ht : StrictMono t) (y e : Fin n → ℝ) {c : Par Car1}
    (h : runCar1Sampler fuel srt N burnin (List.ofFn t) (List.ofFn y) (List.ofFn e) thin init r = .ok c)
    {dmin span : ℝ} (h1 : IsMinGap t dmin) (h2 : IsSpan t span) :
    c.samples.length = N ∧ c.logposts.length = N ∧
      ((∀ k < N, ∃ θ x, c.samples[k]? = some θ ∧ c.logposts[k]? = some (.fin x) ∧ θ.length = 4 ∧
        Car1Bounds (10 * √(popVariance y)) (1 / dmin) (1 / span) θ ∧
        x = logGauss (obsCov (fun d => at0 θ 0 ^ 2 * Real.exp (-Real.exp (at0 θ 3) * d)) t fun i => √(at0 θ 1) * e i)
          (fun i => y i - at0 θ 2) + logPriorSpec θ) ∨
      ∃ θ l, ¬ Dbl.isFin l ∧ ∀ k < N, c.samples[k]? = some θ ∧ c.logposts[k]? = some l) := by
  obtain ⟨var, o, b, g1, g2, g3, g4, g5, g6⟩ := C30_car1 h
  refine ⟨g4, g5, ?_⟩
  rcases g6 with g6 | ⟨θ, l, k1, -, k2⟩
  · left
    intro k hk
    obtain ⟨θ, x, o', k1, k2, k3, k4⟩ := g6 k hk
    cases (popVar_eq (show 0 < n by omega) y).symm.trans g1
    obtain ⟨o2, b2, dmin', span', m1, -, m2, m3, m4, m5, m6, m7, m8⟩ := run_solid1 srt hn ht y e (10 * √(popVariance y))
    obtain rfl := h1.unique m4
    obtain rfl := h2.unique m5
    cases m1.symm.trans g2
    cases m2.symm.trans g3
    obtain ⟨v1, v2⟩ := solid1_value (show 0 < n by omega) ht m3 m7 m8 k3 k4
    exact ⟨θ, x, k1, k2, k3, by rw [← m6]; exact v1, v2⟩
  · exact Or.inr ⟨θ, l, k1, k2⟩

/-- A CAR(2) run on three points satisfying the hypotheses. -/
example (srt : List ℝ → List ℕ) : StrictMono exT ∧ IsMinGap exT 1 ∧ IsSpan exT 10 ∧
    ∃ c, runCarmaSampler 0 srt 5 7 (List.ofFn exT) (List.ofFn exY) (List.ofFn exT) 2 0 2 false 3 exθ exRng = .ok c :=
  ⟨exT_mono, ex_gap.1, ex_gap.2, ex_carma_run srt 0 5 7 3⟩

/-- The same for CAR(1). -/
example (srt : List ℝ → List ℕ) : StrictMono exT ∧ IsMinGap exT 1 ∧ IsSpan exT 10 ∧
    ∃ c, runCar1Sampler 0 srt 5 7 (List.ofFn exT) (List.ofFn exY) (List.ofFn exT) 3 [1, 1, 0, -1] exRng = .ok c :=
  ⟨exT_mono, ex_gap.1, ex_gap.2, ex_car1_run srt 0 5 7 3⟩

end Verif.Props
