import Verif.Spec.Balance
import Verif.Spec.Run
import Verif.Model.Proposals
import Verif.Theory.Run
import Verif.Props.Toy

/-!
Monte Carlo steps: C23, C24, C26. The theorems hold for every target; HistoryFree is what C15 proves for the CARMA models.
-/

namespace Verif.Props

open Verif.Model Verif.Spec Verif.Theory

open scoped Classical

variable {μ : Type} [Target μ] {inv : μ → Prop} {f : List ℝ → Res Dbl} {d : ℕ}

/-! ### detailed balance -/

lemma min_exp_balance (a b : ℝ) : Real.exp a * min 1 (Real.exp (b - a)) = Real.exp b * min 1 (Real.exp (a - b)) := by
  rcases le_total a b with h | h
  · rw [min_eq_left (Real.one_le_exp (by linarith)), min_eq_right (Real.exp_le_one_iff.mpr (by linarith)), ← Real.exp_add]
    simp
  · rw [min_eq_right (Real.exp_le_one_iff.mpr (by linarith)), min_eq_left (Real.one_le_exp (by linarith)), ← Real.exp_add]
    simp

/-- **C23, balance.** Let the proposal density from `x` to `y` be `c exp(forth)` and the one from `y` to `x` be `c exp(back)` with the same
`c`. Then `pi(x)^(1/T) q(x,y) a(x,y) = pi(y)^(1/T) q(y,x) a(y,x)` for all log-densities and temperatures. -/
theorem C23_balance (T lx ly back forth c : ℝ) :
    Real.exp lx ^ (1 / T) * (c * Real.exp forth) * accProb T lx ly back forth =
      Real.exp ly ^ (1 / T) * (c * Real.exp back) * accProb T ly lx forth back := by
  have key := min_exp_balance (lx / T + forth) (ly / T + back)
  have e1 : ly / T + back - (lx / T + forth) = (ly - lx) / T + back - forth := by ring
  have e2 : lx / T + forth - (ly / T + back) = (lx - ly) / T + forth - back := by ring
  rw [e1, e2, Real.exp_add, Real.exp_add] at key
  unfold accProb
  rw [← Real.exp_mul, ← Real.exp_mul, show lx * (1 / T) = lx / T by ring, show ly * (1 / T) = ly / T by ring]
  linear_combination c * key

/-- **C23, robust adaptive Metropolis.** With finite log-densities of the current and the proposed state the step accepts if and only if
its uniform draw is below `a(x,y)` at the temperature of the chain. -/
theorem C23_ram_accepts (hf : HistoryFree μ inv f) {a a' : Ram d} {s s' : Par μ} {r r' : Rng} (hs : inv s.obj)
    (h : a.doStep s r = .ok (a', s', r')) {lx ly : ℝ} (hx : s.logpost = .fin lx) (ht : s.temp ≠ 0) {θ : List ℝ}
    (hθ : θ = List.ofFn fun j : Fin d => s.value.getD j 0 + ∑ i : Fin d, a.chol i j * r.stud i) (hy : f θ = .ok (.fin ly)) :
    (r.unif 0 < accProb s.temp lx ly 0 0 → s'.value = θ ∧ s'.logpost = .fin ly) ∧
    (¬ r.unif 0 < accProb s.temp lx ly 0 0 → s'.value = s.value ∧ s'.logpost = s.logpost) := by
  unfold Ram.doStep at h
  by_cases hc : s.value.length ≠ d
  · simp only [hc, if_true, ne_eq, not_false_eq_true] at h; cases h
  simp only [hc, if_false, ← hθ] at h
  obtain ⟨res, h1, h⟩ := bind_ok_inv h
  obtain ⟨o, lp, h2, h3, -⟩ := accept_inv h1
  have hl := hf.ld _ _ _ _ hs h2
  rw [hy] at hl
  have hlp := hl.2
  injection hlp with hlp
  subst hlp
  rw [accept_fin h2 hx ht] at h1
  injection h1 with h1
  have hu : accProb s.temp lx ly 0 0 = min 1 (Real.exp ((ly - lx) / s.temp)) := by simp [accProb]
  rw [hu]
  change (if r.unif 0 < _ then _ else _) = res at h1
  by_cases hlt : r.unif 0 < min 1 (Real.exp ((ly - lx) / s.temp))
  · rw [if_pos hlt] at h1
    subst h1
    obtain ⟨s1, h5, h⟩ := bind_ok_inv h
    obtain ⟨b, -, h⟩ := bind_ok_inv h
    injection h with h
    injection h with _ h
    injection h with h _
    subst h
    obtain ⟨-, lp', h7, h8⟩ := hf.save (s := { s with obj := o }) hl.1 h5
    rw [hy] at h7
    injection h7 with h7
    rw [h8]
    exact ⟨fun _ => ⟨rfl, h7.symm⟩, fun h => absurd hlt h⟩
  · rw [if_neg hlt] at h1
    subst h1
    obtain ⟨s1, h5, h⟩ := bind_ok_inv h
    obtain ⟨b, -, h⟩ := bind_ok_inv h
    injection h with h
    injection h with _ h
    injection h with h _
    injection h5 with h5
    subst h h5
    exact ⟨fun h => absurd h hlt, fun _ => ⟨rfl, rfl⟩⟩

/-- **C23, robust adaptive Metropolis, proposal.** With the same factor, the draw `-u` leads back from the proposed to the current state: for
every density of the draws with `g(-u) = g(u)` forward and backward proposal densities agree. -/
theorem C23_ram_symmetric (L : Matrix (Fin d) (Fin d) ℝ) (x u : Fin d → ℝ) :
    (fun j => (fun j => x j + ∑ i, L i j * u i) j + ∑ i, L i j * (-u) i) = x := by
  funext j
  simp [Finset.sum_neg_distrib]

/-- Log acceptance ratio of the plain Metropolis-Hastings step for finite arguments. -/
lemma metroLog_fin {T : ℝ} (hT : T ≠ 0) (ly lx b f : ℝ) :
    metroLog T (.fin ly) (.fin lx) (.fin b) (.fin f) = .fin ((ly - lx) / T + b - f) := by
  simp only [metroLog, Dbl.div, hT, if_false, Dbl.sub, Dbl.neg, Dbl.add]
  congr 1; ring

/-- Outcome of `MetropStep::DoStep`. -/
lemma metro_inv {π : Type} [Proposer π] {m m' : Metro π} {s s' : Par μ} {r r' : Rng} (h : m.doStep s r = .ok (m', s', r')) :
    ∃ q θ r1 o lp, Proposer.draw m.prop s.value r = .ok (q, θ, r1) ∧ Target.ld s.obj θ = .ok (o, lp) ∧
      (((metroLog s.temp lp s.logpost (Proposer.ld q s.value θ) (Proposer.ld q θ s.value)).isFin ∧
        (Dbl.fin (r1.unif 0)).lt
          (Dbl.min (metroLog s.temp lp s.logpost (Proposer.ld q s.value θ) (Proposer.ld q θ s.value)).exp (.fin 1)) ∧
        ({ s with obj := o } : Par μ).save θ = .ok s') ∨
      (¬ ((metroLog s.temp lp s.logpost (Proposer.ld q s.value θ) (Proposer.ld q θ s.value)).isFin ∧
        (Dbl.fin (r1.unif 0)).lt
          (Dbl.min (metroLog s.temp lp s.logpost (Proposer.ld q s.value θ) (Proposer.ld q θ s.value)).exp (.fin 1))) ∧
        s' = { s with obj := o })) := by
  unfold Metro.doStep at h
  obtain ⟨⟨q, θ, r1⟩, h1, h⟩ := bind_ok_inv h
  obtain ⟨⟨o, lp⟩, h2, h⟩ := bind_ok_inv h
  refine ⟨q, θ, r1, o, lp, h1, h2, ?_⟩
  dsimp only at h
  generalize metroLog s.temp lp s.logpost (Proposer.ld q s.value θ) (Proposer.ld q θ s.value) = α at h ⊢
  by_cases hfin : α.isFin
  · simp only [hfin, not_true_eq_false, if_false] at h
    by_cases hlt : (Dbl.fin (r1.unif 0)).lt (Dbl.min α.exp (.fin 1))
    · simp only [Rng.nextU, hlt, decide_true, if_true] at h
      obtain ⟨s1, h3, h⟩ := bind_ok_inv h
      injection h with h
      injection h with _ h
      injection h with h _
      exact Or.inl ⟨hfin, hlt, h ▸ h3⟩
    · simp only [Rng.nextU, hlt, decide_false, Bool.false_eq_true, if_false] at h
      injection h with h
      injection h with _ h
      injection h with h _
      exact Or.inr ⟨fun hh => hlt hh.2, h.symm⟩
  · simp only [hfin, not_false_eq_true, if_true, Bool.false_eq_true, if_false] at h
    injection h with h
    injection h with _ h
    injection h with h _
    exact Or.inr ⟨fun hh => hfin hh.1, h.symm⟩

/-- **C23, plain Metropolis-Hastings step.** With finite log-densities of the states and of the proposal it accepts if and only if its uniform
draw is below `a(x,y)`, where `forth` is the proposal's log-density of the new value given the old one and `back` the other way round. -/
theorem C23_metro_accepts {π : Type} [Proposer π] (hf : HistoryFree μ inv f) {m m' : Metro π} {s s' : Par μ} {r r' : Rng}
    (hs : inv s.obj) (h : m.doStep s r = .ok (m', s', r')) {lx ly forth back : ℝ} (hx : s.logpost = .fin lx) (ht : s.temp ≠ 0)
    {θ : List ℝ} {q : π} {r1 : Rng} (hθ : Proposer.draw m.prop s.value r = .ok (q, θ, r1)) (hy : f θ = .ok (.fin ly))
    (h1 : Proposer.ld q θ s.value = .fin forth) (h2 : Proposer.ld q s.value θ = .fin back) :
    (r1.unif 0 < accProb s.temp lx ly back forth → s'.value = θ ∧ s'.logpost = .fin ly) ∧
    (¬ r1.unif 0 < accProb s.temp lx ly back forth → s'.value = s.value ∧ s'.logpost = s.logpost) := by
  obtain ⟨q', θ', r1', o, lp, g1, g2, g3⟩ := metro_inv h
  rw [hθ] at g1
  injection g1 with g1
  injection g1 with g1 g4
  injection g4 with g4 g5
  subst g1 g4 g5
  have hl := hf.ld _ _ _ _ hs g2
  rw [hy] at hl
  have hlp := hl.2
  injection hlp with hlp
  subst hlp
  rw [hx, h1, h2, metroLog_fin ht] at g3
  have hmin : Dbl.min (Dbl.fin ((ly - lx) / s.temp + back - forth)).exp (.fin 1) = .fin (accProb s.temp lx ly back forth) :=
    dbl_min_one _
  rw [hmin] at g3
  rcases g3 with ⟨-, g3, g4⟩ | ⟨g3, g4⟩
  · obtain ⟨-, lp', h7, h8⟩ := hf.save (s := { s with obj := o }) hl.1 g4
    rw [hy] at h7
    injection h7 with h7
    rw [h8]
    exact ⟨fun _ => ⟨rfl, h7.symm⟩, fun hn => absurd g3 hn⟩
  · rw [g4]
    exact ⟨fun hp => absurd ⟨trivial, hp⟩ g3, fun _ => ⟨rfl, hx.symm⟩⟩

/-- **C23, the proposals' log-densities.** Normal and Student proposals: the true density is symmetric, so `LogDensity = 0` is it up to a
symmetric factor. Log-normal proposal (positive states): the true density is `exp(LogDensity)` times a symmetric factor. -/
theorem C23_normal_density (p : NormalProp) (x y : ℝ) :
    ∃ c l1 l2, Proposer.ld p [y] [x] = .fin l1 ∧ Proposer.ld p [x] [y] = .fin l2 ∧
      normalDens p.sd x y = c * Real.exp l1 ∧ normalDens p.sd y x = c * Real.exp l2 := by
  refine ⟨normalDens p.sd x y, 0, 0, rfl, rfl, by simp, ?_⟩
  simp only [normalDens, Real.exp_zero, mul_one]
  rw [show (x - y) ^ 2 = (y - x) ^ 2 by ring]

@[inherit_doc C23_normal_density]
theorem C23_student_density (p : StudentProp) (c x y : ℝ) :
    ∃ c' l1 l2, Proposer.ld p [y] [x] = .fin l1 ∧ Proposer.ld p [x] [y] = .fin l2 ∧
      studentDens c p.dof p.scale x y = c' * Real.exp l1 ∧ studentDens c p.dof p.scale y x = c' * Real.exp l2 := by
  refine ⟨studentDens c p.dof p.scale x y, 0, 0, rfl, rfl, by simp, ?_⟩
  simp only [studentDens, Real.exp_zero, mul_one]
  rw [show ((x - y) / p.scale) ^ 2 = ((y - x) / p.scale) ^ 2 by ring]

/-- The multivariate normal proposal is `x + Rᵀz`: as for the adaptive step (`C23_ram_symmetric`) forward and backward densities agree,
and `LogDensity = 0`. -/
theorem C23_multinormal_density (p : MultiNormalProp d) (R : Matrix (Fin d) (Fin d) ℝ) (hR : p.factor = .ok R) (x : Fin d → ℝ) (r : Rng)
    (r' : Rng) (hr : ∀ i, r'.norm i = -r.norm i) :
    ∃ y : Fin d → ℝ, ∃ r1 r1', Proposer.draw p (List.ofFn x) r = .ok (p, List.ofFn y, r1) ∧
      Proposer.draw p (List.ofFn y) r' = .ok (p, List.ofFn x, r1') ∧
      Proposer.ld p (List.ofFn y) (List.ofFn x) = .fin 0 ∧ Proposer.ld p (List.ofFn x) (List.ofFn y) = .fin 0 := by
  have hget : ∀ (v : Fin d → ℝ) (j : Fin d), (List.ofFn v).getD j 0 = v j := by
    intro v j
    simp [List.getD_eq_getElem?_getD]
  refine ⟨fun j => x j + ∑ i, R i j * r.norm i, { r with norm := Rng.skip d r.norm }, { r' with norm := Rng.skip d r'.norm }, ?_, ?_,
    rfl, rfl⟩
  · simp only [Proposer.draw, hR, res_bind_ok, List.length_ofFn, ne_eq, not_true_eq_false, if_false, hget]
    rfl
  · simp only [Proposer.draw, hR, res_bind_ok, List.length_ofFn, ne_eq, not_true_eq_false, if_false, hget, hr]
    have e : (fun j => x j + ∑ i, R i j * r.norm i + ∑ i, R i j * -r.norm i) = x := by
      funext j
      simp [Finset.sum_neg_distrib]
    rw [e]
    rfl

@[inherit_doc C23_normal_density]
theorem C23_lognormal_density (p : LogNormalProp) {x y : ℝ} (hx : 0 < x) (hy : 0 < y) :
    ∃ c l1 l2, Proposer.ld p [y] [x] = .fin l1 ∧ Proposer.ld p [x] [y] = .fin l2 ∧
      logNormalDens p.logsd x y = c * Real.exp l1 ∧ logNormalDens p.logsd y x = c * Real.exp l2 := by
  have hl : ∀ a b : ℝ, 0 < a → Proposer.ld p [a] [b] = .fin (-Real.log a) := by
    intro a b ha
    simp [Proposer.ld, Dbl.log, Dbl.neg, ha]
  refine ⟨Real.exp (-(Real.log y - Real.log x) ^ 2 / (2 * p.logsd ^ 2)) / (p.logsd * √(2 * Real.pi)), _, _, hl y x hy, hl x y hx, ?_, ?_⟩
  · simp only [logNormalDens, Real.exp_neg, Real.exp_log hy]
    field_simp
  · simp only [logNormalDens, Real.exp_neg, Real.exp_log hx]
    rw [show (Real.log x - Real.log y) ^ 2 = (Real.log y - Real.log x) ^ 2 by ring]
    field_simp

/-! ### a step never moves to a state with non-finite log-density -/

/-- **C24, robust adaptive Metropolis.** For all targets, states, proposal factors and random numbers: the step stays, or moves to the
proposed state, and only if the log-densities of both states are finite. -/
theorem C24_ram_step (hf : HistoryFree μ inv f) {a a' : Ram d} {s s' : Par μ} {r r' : Rng} (hs : inv s.obj)
    (h : a.doStep s r = .ok (a', s', r')) :
    inv s'.obj ∧ Moved f s (List.ofFn fun j : Fin d => s.value.getD j 0 + ∑ i : Fin d, a.chol i j * r.stud i) s' ∧
    (s.logpost.isFin → s'.logpost.isFin) := by
  obtain ⟨-, h2, h3⟩ := ramStep_outcome hf hs h
  refine ⟨h2, h3, fun hfin => ?_⟩
  cases h3 with
  | reject o => exact hfin
  | accept o lp _ hl _ => exact hl

lemma metroLog_isFin {T : ℝ} {x y b q : Dbl} (h : (metroLog T y x b q).isFin) : y.isFin ∧ x.isFin := by
  have h1 := (dbl_sub_fin h).1
  have h2 := (dbl_add_fin h1).1
  exact ⟨dbl_div_fin (dbl_sub_fin h2).1, dbl_div_fin (dbl_sub_fin h2).2⟩

/-- **C24, plain Metropolis-Hastings step**, for every proposal. -/
theorem C24_metro_step {π : Type} [Proposer π] (hf : HistoryFree μ inv f) {m m' : Metro π} {s s' : Par μ} {r r' : Rng}
    (hs : inv s.obj) (h : m.doStep s r = .ok (m', s', r')) :
    ∃ q θ r1, Proposer.draw m.prop s.value r = .ok (q, θ, r1) ∧ inv s'.obj ∧ Moved f s θ s' ∧
      (s.logpost.isFin → s'.logpost.isFin) := by
  obtain ⟨q, θ, r1, o, lp, g1, g2, g3⟩ := metro_inv h
  have hl := hf.ld _ _ _ _ hs g2
  refine ⟨q, θ, r1, g1, ?_⟩
  rcases g3 with ⟨g3, -, g4⟩ | ⟨-, rfl⟩
  · obtain ⟨k1, lp', h7, h8⟩ := hf.save (s := { s with obj := o }) hl.1 g4
    rw [hl.2] at h7
    injection h7 with h7
    subst h7
    rw [h8]
    obtain ⟨m1, m2⟩ := metroLog_isFin g3
    exact ⟨k1, .accept _ _ hl.2 m1 m2, fun _ => m1⟩
  · exact ⟨hl.1, .reject o, fun hfin => hfin⟩

/-- **C24, any sequence of steps of a sampler.** If all stored log-densities are finite they stay finite through any number of sweeps. -/
theorem C24_sweeps (hf : HistoryFree μ inv f) {s t : Samp μ d} {n : ℕ} (hs : ∀ c ∈ s.chains, inv c.obj)
    (hfin : ∀ c ∈ s.chains, c.logpost.isFin) (h : Sweeps s n t) : ∀ c ∈ t.chains, c.logpost.isFin :=
  (samp_iterate hf (Q := Finite) (fun _ _ h hs => h.step hs) hs hfin (iterate_of_sweeps h)).2.2.1

/-! ### exchange -/

lemma dbl_one_div {t : ℝ} (ht : t ≠ 0) : Dbl.div (.fin 1) (.fin t) = .fin (1 / t) := by
  simp [Dbl.div, ht]

/-- **C26, probability.** For finite log-densities and temperatures different from 0 the computed swap probability is the Metropolis ratio of
the product of tempered densities. If a log-density is not finite the probability is 0. -/
theorem C26_swap_probability {T1 T2 : ℝ} (h1 : 0 < T1) (h2 : 0 < T2) (this other : Dbl) :
    (∀ a b, this = .fin a → other = .fin b → swapProb T1 T2 this other = .fin (swapSpec T1 T2 a b)) ∧
    (¬ (this.isFin ∧ other.isFin) → swapProb T1 T2 this other = .fin 0) := by
  have i1 : (0 : ℝ) < 1 / T1 := by positivity
  have i2 : (0 : ℝ) < 1 / T2 := by positivity
  constructor
  · rintro a b rfl rfl
    unfold swapProb
    rw [dbl_one_div h1.ne', dbl_one_div h2.ne']
    simp only [Dbl.sub, Dbl.neg, Dbl.add, Dbl.mul, Dbl.exp, dbl_min_one, Dbl.isFin, if_true]
    rw [swapSpec]
    congr 3
    field_simp
    ring
  · intro hn
    unfold swapProb
    rw [dbl_one_div h1.ne', dbl_one_div h2.ne']
    have hnan : ((Dbl.fin (1 / T1)).mul (other.sub this)).add ((Dbl.fin (1 / T2)).mul (this.sub other)) = .nan := by
      have p1 : ∀ {x : ℝ}, 0 < x → (Dbl.fin x).mul .pinf = .pinf := fun {x} h => by simp [Dbl.mul, Dbl.infTimes, h]
      have p2 : ∀ {x : ℝ}, 0 < x → (Dbl.fin x).mul .ninf = .ninf := fun {x} h => by simp [Dbl.mul, Dbl.infTimes, h, h.not_gt]
      have p3 : ∀ {x : ℝ}, (Dbl.fin x).mul .nan = .nan := fun {x} => rfl
      generalize 1 / T1 = x at i1 ⊢
      generalize 1 / T2 = y at i2 ⊢
      cases this <;> cases other <;>
        simp [Dbl.sub, Dbl.neg, Dbl.add, p1 i1, p1 i2, p2 i1, p2 i2, p3, Dbl.isFin] at hn ⊢
    rw [hnan]
    have h3 : Dbl.min (Dbl.exp .nan) (.fin 1) = .nan := by
      unfold Dbl.min
      rw [if_neg (by simp [Dbl.lt, Dbl.exp])]
      rfl
    show (if (Dbl.min (Dbl.exp .nan) (.fin 1)).isFin then _ else _) = _
    rw [h3]
    exact if_neg (by simp [Dbl.isFin])

/-- **C26, reversibility.** The product of tempered densities satisfies detailed balance with the swap probability. -/
theorem C26_reversible (T1 T2 a b : ℝ) :
    Real.exp a ^ (1 / T1) * Real.exp b ^ (1 / T2) * swapSpec T1 T2 a b =
      Real.exp b ^ (1 / T1) * Real.exp a ^ (1 / T2) * swapSpec T1 T2 b a := by
  have := min_exp_balance (a / T1 + b / T2) (b / T1 + a / T2)
  unfold swapSpec
  rw [← Real.exp_mul, ← Real.exp_mul, ← Real.exp_mul, ← Real.exp_mul, ← Real.exp_add, ← Real.exp_add]
  convert this using 4 <;> ring

/-- **C26, outcome.** An exchange step of chain `i` with a positive index leaves everything as it was if its uniform draw is not below the swap
probability; otherwise chains `i` and `i-1` swap values and stored log-densities and nothing else about any chain changes (except
inside the model object of chain `i`, whose filter runs). For all targets, ensembles and random numbers. -/
theorem C26_exchange {e e' : Exch} {ps ps' : List (Par μ)} {r r' : Rng} (h : e.doStep ps r = .ok (e', ps', r')) :
    0 < e.idx ∧ ∃ this other, ps[e.idx]? = some this ∧ ps[e.idx - 1]? = some other ∧
      (¬ (Dbl.fin (r.unif 0)).lt (swapProb this.temp other.temp this.logpost other.logpost) → ps' = ps) ∧
      ((Dbl.fin (r.unif 0)).lt (swapProb this.temp other.temp this.logpost other.logpost) → ∃ o,
        ps' = (ps.set e.idx { this with obj := o, value := other.value, logpost := other.logpost }).set (e.idx - 1)
          { other with value := this.value, logpost := this.logpost }) := by
  unfold Exch.doStep at h
  obtain ⟨this, h1, h⟩ := bind_ok_inv h
  obtain ⟨j, h2, h⟩ := bind_ok_inv h
  obtain ⟨other, h3, h⟩ := bind_ok_inv h
  have h1 := rdU_inv h1
  have h3 := rdU_inv h3
  have hj : 0 < e.idx ∧ j = e.idx - 1 := by
    split at h2
    · cases h2
    · injection h2 with h2; exact ⟨by omega, h2.symm⟩
  obtain ⟨h0, rfl⟩ := hj
  refine ⟨h0, this, other, h1, h3, ?_⟩
  dsimp only at h
  split at h
  · rename_i hlt
    obtain ⟨⟨ps1, n⟩, h4, h⟩ := bind_ok_inv h
    obtain ⟨this', h5, h4⟩ := bind_ok_inv h4
    obtain ⟨other', h6, h4⟩ := bind_ok_inv h4
    injection h4 with h4
    injection h4 with h4 _
    obtain ⟨lp, h7, h6⟩ := bind_ok_inv h6
    injection h6 with h6
    obtain ⟨⟨o, lp'⟩, h8, h5⟩ := bind_ok_inv h5
    injection h5 with h5
    injection h with h
    injection h with he h
    injection h with h _
    refine ⟨fun hn => absurd hlt hn, fun _ => ⟨o, ?_⟩⟩
    rw [← h, ← h4, ← h5, ← h6]
    rfl
  · rename_i hlt
    injection h with h
    injection h with he h
    injection h with h _
    exact ⟨fun _ => h.symm, fun hl => absurd hl hlt⟩

/-! ### the hypotheses can be met -/

/-- the target of the examples does not depend on history -/
lemma toy_free : HistoryFree Toy (fun _ => True) (fun θ => .ok (if θ.length = 1 then .fin (-(θ.getD 0 0) ^ 2 / 2) else .ninf)) where
  ld o θ o' v _ h := by
    injection h with h
    exact ⟨trivial, congrArg Except.ok (congrArg Prod.snd h)⟩
  start _ _ _ _ _ _ _ _ := trivial
  setStart _ _ _ _ _ _ _ _ _ := trivial

/-- C23 and C24, plain step: a normal proposal from 0 to 1 is rejected by the uniform draw 0.7 and accepted by 0.5 (`exp(-1/2) = 0.6...`) -/
example : ∃ m' s' r' m'' s'' r'',
    (⟨⟨1⟩, -1, 0, 0, .nan⟩ : Metro NormalProp).doStep (Toy.par 0 1) { exRng with norm := fun _ => 1, unif := fun _ => 0.7 } = .ok (m', s', r') ∧
    s'.value = [0] ∧
    (⟨⟨1⟩, -1, 0, 0, .nan⟩ : Metro NormalProp).doStep (Toy.par 0 1) { exRng with norm := fun _ => 1 } = .ok (m'', s'', r'') ∧
    s''.value = [1] := by
  have hacc : accProb 1 0 (-1 / 2) 0 0 = Real.exp (-1 / 2) := by
    rw [accProb, min_eq_right]
    · norm_num
    · exact Real.exp_le_one_iff.mpr (by norm_num)
  have h1 : Real.exp (-1 / 2) < 0.7 := by
    have := Real.add_one_le_exp (1 / 2)
    rw [show (-1 / 2 : ℝ) = -(1 / 2) by norm_num, Real.exp_neg, inv_lt_comm₀ (Real.exp_pos _) (by norm_num)]
    norm_num at this ⊢; linarith
  have h2 : 1 / 2 < Real.exp (-1 / 2) := by
    have := Real.add_one_lt_exp (x := -1 / 2) (by norm_num)
    norm_num at this ⊢; linarith
  have tot : ∀ r : Rng, r.norm 0 = 1 → ∃ z, (⟨⟨1⟩, -1, 0, 0, .nan⟩ : Metro NormalProp).doStep (Toy.par 0 1) r = .ok z := by
    intro r hr
    simp only [Metro.doStep, Proposer.draw, Toy.par, rdU, Target.ld, res_bind_ok, res_pure, List.getElem?_cons_zero, Par.save]
    repeat' split
    all_goals exact ⟨_, rfl⟩
  obtain ⟨⟨m', s', r'⟩, e1⟩ := tot { exRng with norm := fun _ => 1, unif := fun _ => 0.7 } rfl
  obtain ⟨⟨m'', s'', r''⟩, e2⟩ := tot { exRng with norm := fun _ => 1 } rfl
  have a1 := C23_metro_accepts toy_free trivial e1 (lx := 0) (ly := -1 / 2) (forth := 0) (back := 0) (θ := [0 + 1 * 1])
    (by simp [Toy.par]) (by simp [Toy.par]) rfl (by simp) rfl rfl
  have a2 := C23_metro_accepts toy_free trivial e2 (lx := 0) (ly := -1 / 2) (forth := 0) (back := 0) (θ := [0 + 1 * 1])
    (by simp [Toy.par]) (by simp [Toy.par]) rfl (by simp) rfl rfl
  simp only [Toy.par, hacc] at a1 a2
  refine ⟨m', s', r', m'', s'', r'', e1, (a1.2 (by simp; linarith)).1, e2, ?_⟩
  have := (a2.1 (by simpa [Rng.skip, exRng] using h2)).1
  rw [this]; norm_num

/-- C23, C24, adaptive step: from 2 the draw 1 with factor 2 proposes 4, rejected by the uniform draw 1/2; the draw -1 proposes 0, accepted -/
example : ∃ a a' s s' r r', (⟨Matrix.diagonal fun _ => 2, 2 / 3, 0.25, 5, 0, 5, .nan⟩ : Ram 1).doStep (Toy.par 2 1) exRng = .ok (a, s, r) ∧
    s.value = [2] ∧
    (⟨Matrix.diagonal fun _ => 2, 2 / 3, 0.25, 5, 0, 5, .nan⟩ : Ram 1).doStep (Toy.par 2 1) { exRng with stud := fun _ => -1 } = .ok (a', s', r') ∧
    s'.value = [0] := by
  have tot : ∀ r : Rng, ∃ z, (⟨Matrix.diagonal fun _ => 2, 2 / 3, 0.25, 5, 0, 5, .nan⟩ : Ram 1).doStep (Toy.par 2 1) r = .ok z := by
    intro r
    have ha : ∀ (a : Ram 1) u w, a.maxiter = 5 → a.niter = 5 → a.adapt u w = .ok a := by
      intro a u w h1 h2
      unfold Ram.adapt
      split
      · rw [if_neg (by omega)]; rfl
      · rfl
    simp only [Ram.doStep, Toy.par, Ram.accept, Target.ld, res_bind_ok, res_pure]
    rw [if_neg (by simp)]
    repeat' split
    all_goals simp only [res_bind_ok, Par.save, Target.ld, res_pure, if_true, Bool.false_eq_true, if_false]
    all_goals rw [ha _ _ _ rfl rfl]
    all_goals exact ⟨_, rfl⟩
  obtain ⟨⟨a, s, r⟩, e1⟩ := tot exRng
  obtain ⟨⟨a', s', r'⟩, e2⟩ := tot { exRng with stud := fun _ => -1 }
  have a1 := C23_ram_accepts toy_free trivial e1 (lx := -2) (ly := -8) (by simp [Toy.par]; norm_num) (by simp [Toy.par]) rfl
    (by simp [Toy.par, exRng]; norm_num)
  have a2 := C23_ram_accepts toy_free trivial e2 (lx := -2) (ly := 0) (by simp [Toy.par]; norm_num) (by simp [Toy.par]) rfl
    (by simp [Toy.par])
  have h1 : ¬ exRng.unif 0 < accProb 1 (-2) (-8) 0 0 := by
    have := Real.add_one_le_exp 6
    have h6 : Real.exp (-6) < 1 / 2 := by
      rw [Real.exp_neg, inv_lt_comm₀ (Real.exp_pos _) (by norm_num)]; norm_num at this ⊢; linarith
    simp only [exRng, accProb, not_lt]
    refine (min_le_right _ _).trans ?_
    norm_num at h6 ⊢; linarith
  have h2 : exRng.unif 0 < accProb 1 (-2) 0 0 0 := by
    simp only [exRng, accProb]
    rw [min_eq_left (Real.one_le_exp (by norm_num))]
    norm_num
  exact ⟨a, a', s, s', r, r', e1, (a1.2 h1).1, e2, by rw [(a2.1 h2).1]; simp [Toy.par]⟩

/-- C26: chains at temperatures 1 and 10 with values 0 and 2 are swapped by the uniform draw 0.1 and not by 1/2 (`exp(-1.8) = 0.16...`) -/
example : ∃ e' ps' r' e'' ps'' r'',
    (⟨1, -1, 0, 0, .nan⟩ : Exch).doStep [Toy.par 0 1, Toy.par 2 10] { exRng with unif := fun _ => 0.1 } = .ok (e', ps', r') ∧
    ps'.map Par.value = [[2], [0]] ∧ ps'.map Par.temp = [1, 10] ∧
    (⟨1, -1, 0, 0, .nan⟩ : Exch).doStep [Toy.par 0 1, Toy.par 2 10] exRng = .ok (e'', ps'', r'') ∧
    ps''.map Par.value = [[0], [2]] := by
  have tot : ∀ r : Rng, ∃ z, (⟨1, -1, 0, 0, .nan⟩ : Exch).doStep [Toy.par 0 1, Toy.par 2 10] r = .ok z := by
    intro r
    simp only [Exch.doStep, Toy.par, rdU, res_bind_ok, List.getElem?_cons_succ, List.getElem?_cons_zero, Par.save, Par.saveStale,
      Target.ld, Target.staleLd, res_pure, Nat.sub_self]
    rw [if_neg (by norm_num)]
    simp only [res_bind_ok, List.getElem?_cons_zero]
    split <;> exact ⟨_, rfl⟩
  obtain ⟨⟨e', ps', r'⟩, h1⟩ := tot { exRng with unif := fun _ => 0.1 }
  obtain ⟨⟨e'', ps'', r''⟩, h2⟩ := tot exRng
  obtain ⟨-, this, other, g1, g2, -, g3⟩ := C26_exchange h1
  obtain ⟨-, this', other', k1, k2, k3, -⟩ := C26_exchange h2
  cases g1; cases g2; cases k1; cases k2
  have hp : swapProb (Toy.par 2 10).temp (Toy.par 0 1).temp (Toy.par 2 10).logpost (Toy.par 0 1).logpost = .fin (Real.exp (-1.8)) := by
    rw [(C26_swap_probability (by simp [Toy.par]) (by simp [Toy.par]) _ _).1 (-2) 0 (by simp [Toy.par]; norm_num) (by simp [Toy.par])]
    rw [swapSpec, min_eq_right]
    · simp [Toy.par]; norm_num
    · exact Real.exp_le_one_iff.mpr (by simp [Toy.par]; norm_num)
  rw [hp] at g3 k3
  have b1 : (0.1 : ℝ) < Real.exp (-1.8) := by
    have h : Real.exp (-1.8) = Real.exp (-0.6) ^ 3 := by rw [← Real.exp_nat_mul]; norm_num
    have := Real.add_one_le_exp (-0.3)
    have h' : Real.exp (-0.6) = Real.exp (-0.3) ^ 2 := by rw [← Real.exp_nat_mul]; norm_num
    have h7 : (0.7 : ℝ) ≤ Real.exp (-0.3) := by norm_num at this ⊢; linarith
    calc (0.1 : ℝ) < (0.7 ^ 2) ^ 3 := by norm_num
      _ ≤ _ := by rw [h, h']; gcongr
  have b2 : ¬ (1 / 2 : ℝ) < Real.exp (-1.8) := by
    have := Real.add_one_le_exp 1.8
    rw [Real.exp_neg, not_lt, inv_le_comm₀ (Real.exp_pos _) (by norm_num)]
    norm_num at this ⊢; linarith
  obtain ⟨o, rfl⟩ := g3 b1
  refine ⟨e', _, r', e'', ps'', r'', h1, rfl, rfl, h2, ?_⟩
  rw [k3 b2]; rfl

end Verif.Props
