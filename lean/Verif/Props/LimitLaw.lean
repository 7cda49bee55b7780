import Verif.Props.NeverSettles

/-!
C85: the law of the chains tends to the posterior.
-/

namespace Verif.Props

open Verif.Model Verif.Spec Verif.Theory MeasureTheory Filter Topology
open scoped ENNReal

variable {fuel : ℕ} {srt : List ℝ → List ℕ} {N burnin thin : ℕ} {init : List ℝ} {r : Rng} {p q nw n : ℕ} {z : Bool} {t y e : Fin n → ℝ}

section
variable {μ : Type} [Target μ] {inv : μ → Prop} {d M : ℕ} {G : LogTarget d} {T : Fin M → ℝ} {u : Samp μ d} {x : Fin M → Fin d → ℝ}
  (hT : HasTarget μ inv G) (hpos : ∀ i, 0 < T i) (hAt : At inv G T u.steps u (x, u.rng.stud, u.rng.unif)) (hst : ∀ st ∈ u.steps, InRange M st)
include hT hpos hAt hst

theorem limit_law (hG : MeasTarget G) (hprop : ∀ i, IsProper G (T i)) {ν : Measure ℝ} [IsProbabilityMeasure ν] (hν : volume ≪ ν) (hν' : ν ≪ volume)
    (hsym : ν.map (fun x => -x) = ν) (hl : Stack M u.steps) (hx : Alive G x) :
    (∀ A : Set (Fin M → Fin d → ℝ), MeasurableSet A →
      Tendsto (fun k => (drawsOf ν).prod (drawsOf unifLaw) (EndsIn u k A)) atTop (𝓝 (independent G T A))) ∧
    ∀ L : Measure (Fin M → Fin d → ℝ), IsProbabilityMeasure L → (∀ᵐ x ∂L, ∀ i, G (x i) ≠ none) → (KeepsChains G L ν u ↔ L = independent G T) := by
  refine ⟨fun A hA => ?_, fun L hL hal => ?_⟩
  · simp only [endsIn_eq hT hpos hAt hst]
    exact sweeps_limit hG hν hν' hsym hl hst hprop hx hA
  · rw [keeps_iff hT hpos hAt hst]
    constructor
    · intro h
      exact sweeps_unique hG hν hν' hsym hl hst hprop (hal.mono fun x hx i => Option.isSome_iff_ne_none.mpr (hx i)) (h 1)
    · rintro rfl n
      exact independent_preserved hG hsym hst hprop n

end

theorem temperature_ladder (hw : 0 < nw) : (fun i : Fin nw => temperature nw i) = ladder nw := by
  funext i
  unfold ladder
  by_cases h1 : nw = 1
  · rw [if_pos h1, temperature, if_pos h1, Real.exp_log (by norm_num)]
  · rw [if_neg h1, temperature_rpow (by omega)]

/-- **C85, CARp and ZCAR.** Under the hypotheses of `C69_car`: from any state `u` of the run after the burn-in, the joint law of the chains
after `k` sweeps tends to the law under which the chains are independent, chain `i` having the posterior density to the power
`1/T i`, `T` being 1 for the cold chain: for every measurable set the probability that the values of the chains are in it after `k` sweeps
tends to its probability under that law. -/
theorem C85_car (hn : 3 ≤ n) (ht : StrictMono t) (he : ErrorsApart y e (if nw = 1 then 100 else 1)) (hy : ∃ i j, y i ≠ y j) (hp : 2 ≤ p) (hp' : p < 2500)
    (hq : z = true ∨ q = 0) {s : Samp (CarP p) (nParams p q z)}
    (hs : carmaSampler srt N burnin (List.ofFn t) (List.ofFn y) (List.ofFn e) p q nw z thin r = .ok s) {k : ℕ} (hk : burnin ≤ k)
    {u : Samp (CarP p) (nParams p q z)} (h : RunState fuel s init k u) {dmin span : ℝ} (h1 : IsMinGap t dmin) (h2 : IsSpan t span)
    (ν : Measure ℝ) [IsProbabilityMeasure ν] (hsym : ν.map (fun x => -x) = ν) (hν : volume ≪ ν) (hν' : ν ≪ volume)
    {A : Set (Fin nw → Fin (nParams p q z) → ℝ)} (hA : MeasurableSet A) :
    let G := carmaTarget (runKind q z) p t y e (10 * √(popVariance y)) (1 / dmin) (1 / span) 1 1
    Tendsto (fun k => (drawsOf ν).prod (drawsOf unifLaw) (EndsIn u k A)) atTop (𝓝 (independent G (ladder nw) A)) := by
  intro G
  obtain ⟨inv, x, hT, hAt, hl, hst, hx, hnw⟩ := carma_at (show 2 ≤ n by omega) ht hp (hq.imp id fun h => by omega) hs hk h h1 h2
  rw [← temperature_ladder hnw]
  exact (limit_law hT (fun i => temp_pos _ _) hAt hst (carma_meas _ _ _ _ _ _ _ _ _ _)
    (fun i => car_proper hn ht (apart_mono he (temp_cold _ _)) hy hp hp' hq h1 h2 (temp_pos _ _)) hν hν' hsym hl hx).1 A hA

/-- **C85, the only law.** In the same situation a probability law of the chains, concentrated on values of positive density, is left unchanged
by the sweeps if and only if it is that law. -/
theorem C85_car_unique (hn : 3 ≤ n) (ht : StrictMono t) (he : ErrorsApart y e (if nw = 1 then 100 else 1)) (hy : ∃ i j, y i ≠ y j) (hp : 2 ≤ p) (hp' : p < 2500)
    (hq : z = true ∨ q = 0) {s : Samp (CarP p) (nParams p q z)}
    (hs : carmaSampler srt N burnin (List.ofFn t) (List.ofFn y) (List.ofFn e) p q nw z thin r = .ok s) {k : ℕ} (hk : burnin ≤ k)
    {u : Samp (CarP p) (nParams p q z)} (h : RunState fuel s init k u) {dmin span : ℝ} (h1 : IsMinGap t dmin) (h2 : IsSpan t span)
    (ν : Measure ℝ) [IsProbabilityMeasure ν] (hsym : ν.map (fun x => -x) = ν) (hν : volume ≪ ν) (hν' : ν ≪ volume)
    (L : Measure (Fin nw → Fin (nParams p q z) → ℝ)) [IsProbabilityMeasure L] :
    let G := carmaTarget (runKind q z) p t y e (10 * √(popVariance y)) (1 / dmin) (1 / span) 1 1
    (∀ᵐ x ∂L, ∀ i, G (x i) ≠ none) → (KeepsChains G L ν u ↔ L = independent G (ladder nw)) := by
  intro G hL
  obtain ⟨inv, x, hT, hAt, hl, hst, hx, hnw⟩ := carma_at (show 2 ≤ n by omega) ht hp (hq.imp id fun h => by omega) hs hk h h1 h2
  rw [← temperature_ladder hnw]
  exact (limit_law hT (fun i => temp_pos _ _) hAt hst (carma_meas _ _ _ _ _ _ _ _ _ _)
    (fun i => car_proper hn ht (apart_mono he (temp_cold _ _)) hy hp hp' hq h1 h2 (temp_pos _ _)) hν hν' hsym hl hx).2 L inferInstance hL

/-- **C85, CAR(1).** The same for the chain of `RunCar1Sampler`, whose temperature is 1, if the density at its present value is not 0: the law
of the chain tends to the posterior, and no other law of positive density is left unchanged. -/
theorem C85_car1 (hn : 3 ≤ n) (ht : StrictMono t) (he : ErrorsApart y e 1) (hy : ∃ i j, y i ≠ y j) {s : Samp Car1 4}
    (hs : car1Sampler srt burnin (List.ofFn t) (List.ofFn y) (List.ofFn e) r = .ok s) {k : ℕ} (hk : burnin ≤ k)
    {u : Samp Car1 4} (h : RunState fuel s init k u) (hfin : ∀ c ∈ u.chains, c.logpost.isFin) {dmin span : ℝ} (h1 : IsMinGap t dmin)
    (h2 : IsSpan t span) (ν : Measure ℝ) [IsProbabilityMeasure ν] (hsym : ν.map (fun x => -x) = ν) (hν : volume ≪ ν) (hν' : ν ≪ volume) :
    let G := car1Target t y e (10 * √(popVariance y)) (1 / dmin) (1 / span)
    (∀ B : Set (Fin 4 → ℝ), MeasurableSet B →
      Tendsto (fun k => (drawsOf ν).prod (drawsOf unifLaw) (EndsIn u k {x : Fin 1 → Fin 4 → ℝ | x 0 ∈ B})) atTop (𝓝 (posterior G 1 B))) ∧
    ∀ L : Measure (Fin 1 → Fin 4 → ℝ), IsProbabilityMeasure L → (∀ᵐ x ∂L, ∀ i, G (x i) ≠ none) →
      (KeepsChains G L ν u ↔ L = independent G fun _ => 1) := by
  intro G
  obtain ⟨inv, x, hT, hAt, hl, hst, hx⟩ := car1_at (show 2 ≤ n by omega) ht hs hk h hfin h1 h2
  have hpr : IsProper G 1 := car1_proper hn ht he hy h1 h2 one_pos
  obtain ⟨l1, l2⟩ := limit_law hT (fun _ => one_pos) hAt hst (car1_meas _ _ _ _ _ _) (fun i => hpr) hν hν' hsym hl hx
  refine ⟨fun B hB => ?_, l2⟩
  have h3 := l1 {x : Fin 1 → Fin 4 → ℝ | x 0 ∈ B} (measurable_pi_apply 0 hB)
  have e : independent G (fun _ : Fin 1 => (1 : ℝ)) {x : Fin 1 → Fin 4 → ℝ | x 0 ∈ B} = posterior G 1 B := by
    have := posterior_prob hpr
    have h4 := (measurePreserving_eval (fun _ : Fin 1 => posterior G 1) 0).measure_preimage hB.nullMeasurableSet
    exact h4
  rw [← e]
  exact h3

theorem ladder_cold (hw : 0 < nw) : ladder nw ⟨0, hw⟩ = if nw = 1 then 100 else 1 := by
  unfold ladder
  split
  · rfl
  · simp

/-- **C85, cold chain.** In the situation of `C85_car` the law of the cold chain, whose values are recorded, tends to the posterior if there
are at least two walkers; with one walker it tends to the law with the density to the power 1/100. -/
theorem C85_car_cold (hn : 3 ≤ n) (ht : StrictMono t) (he : ErrorsApart y e (if nw = 1 then 100 else 1)) (hy : ∃ i j, y i ≠ y j) (hp : 2 ≤ p) (hp' : p < 2500)
    (hq : z = true ∨ q = 0) (hw : 0 < nw) {s : Samp (CarP p) (nParams p q z)}
    (hs : carmaSampler srt N burnin (List.ofFn t) (List.ofFn y) (List.ofFn e) p q nw z thin r = .ok s) {k : ℕ} (hk : burnin ≤ k)
    {u : Samp (CarP p) (nParams p q z)} (h : RunState fuel s init k u) {dmin span : ℝ} (h1 : IsMinGap t dmin) (h2 : IsSpan t span)
    (ν : Measure ℝ) [IsProbabilityMeasure ν] (hsym : ν.map (fun x => -x) = ν) (hν : volume ≪ ν) (hν' : ν ≪ volume)
    {B : Set (Fin (nParams p q z) → ℝ)} (hB : MeasurableSet B) :
    let G := carmaTarget (runKind q z) p t y e (10 * √(popVariance y)) (1 / dmin) (1 / span) 1 1
    Tendsto (fun k => (drawsOf ν).prod (drawsOf unifLaw) (EndsIn u k {x : Fin nw → Fin (nParams p q z) → ℝ | x ⟨0, hw⟩ ∈ B})) atTop
      (𝓝 (posterior G (if nw = 1 then 100 else 1) B)) := by
  intro G
  have h3 := C85_car hn ht he hy hp hp' hq hs hk h h1 h2 ν hsym hν hν' (A := {x : Fin nw → Fin (nParams p q z) → ℝ | x ⟨0, hw⟩ ∈ B})
    (measurable_pi_apply _ hB)
  have hpr := fun i : Fin nw => posterior_prob (car_proper (p := p) (q := q) (z := z) hn ht (apart_mono he (temp_cold nw i)) hy hp hp' hq h1 h2 (temp_pos nw i))
  have h4 := (measurePreserving_eval (fun i : Fin nw => posterior G (temperature nw i)) ⟨0, hw⟩).measure_preimage hB.nullMeasurableSet
  have e : independent G (ladder nw) {x : Fin nw → Fin (nParams p q z) → ℝ | x ⟨0, hw⟩ ∈ B} = posterior G (if nw = 1 then 100 else 1) B := by
    rw [← ladder_cold hw, ← temperature_ladder hw]
    exact h4
  rw [← e]
  exact h3

/-- The hypotheses are met: CAR(2) with two walkers, normal proposal draws. -/
example (srt : List ℝ → List ℕ) (k : ℕ) : ∃ s u : Samp (CarP 2) (nParams 2 0 false),
    carmaSampler srt 0 k (List.ofFn exT) (List.ofFn exY) (List.ofFn fun _ : Fin 3 => (1 : ℝ)) 2 0 2 false 1 exRng = .ok s ∧
    RunState 0 s (exθ ++ []) k u ∧
    let G := carmaTarget (m := nParams 2 0 false) .carp 2 exT exY (fun _ => 1) (10 * √(popVariance exY)) (1 / 1) (1 / 10) 1 1
    (Tendsto (fun k => (drawsOf (ProbabilityTheory.gaussianReal 0 1)).prod (drawsOf unifLaw)
      (EndsIn u k {x : Fin 2 → Fin (nParams 2 0 false) → ℝ | 0 < x 0 ⟨2, by decide⟩})) atTop
      (𝓝 (posterior G 1 {x | 0 < x ⟨2, by decide⟩}))) ∧ KeepsChains G (independent G (ladder 2)) (ProbabilityTheory.gaussianReal 0 1) u := by
  obtain ⟨s, u, h1, h2⟩ := ex_ma_state srt k (q := 0) (by norm_num)
  have hm : MeasurableSet {x : Fin (nParams 2 0 false) → ℝ | 0 < x ⟨2, by decide⟩} := measurableSet_lt measurable_const (measurable_pi_apply _)
  refine ⟨s, u, h1, h2, ?_, ?_⟩
  · have := C85_car_cold le_rfl exT_mono (apart_of_ne fun _ => one_ne_zero) ⟨0, 1, by simp [exY]⟩ le_rfl (by norm_num) (Or.inr rfl) (by norm_num) h1 le_rfl h2
      ex_gap.1 ex_gap.2 _ gauss_draws.1 gauss_draws.2.1 gauss_draws.2.2 hm
    rw [if_neg (by norm_num)] at this
    exact this
  · have hpr : ∀ i : Fin 2, IsProbabilityMeasure (posterior (carmaTarget (m := nParams 2 0 false) .carp 2 exT exY (fun _ => 1)
        (10 * √(popVariance exY)) (1 / 1) (1 / 10) 1 1) (ladder 2 i)) := fun i => by
      rw [← temperature_ladder (by norm_num)]
      exact posterior_prob (car_proper (p := 2) (q := 0) (z := false) le_rfl exT_mono (apart_of_ne (fun _ => one_ne_zero) (temp_pos _ _)) ⟨0, 1, by simp [exY]⟩ le_rfl (by norm_num)
        (Or.inr rfl) ex_gap.1 ex_gap.2 (temp_pos _ _))
    have hP : IsProbabilityMeasure (independent (carmaTarget (m := nParams 2 0 false) .carp 2 exT exY (fun _ => 1)
        (10 * √(popVariance exY)) (1 / 1) (1 / 10) 1 1) (ladder 2)) := by unfold independent; infer_instance
    refine (C85_car_unique le_rfl exT_mono (apart_of_ne fun _ => one_ne_zero) ⟨0, 1, by simp [exY]⟩ le_rfl (by norm_num) (Or.inr rfl) h1 le_rfl h2
      ex_gap.1 ex_gap.2 _ gauss_draws.1 gauss_draws.2.1 gauss_draws.2.2 _ ?_).mpr rfl
    have hG := carma_meas (d := nParams 2 0 false) (runKind 0 false) 2 exT exY (fun _ => 1) (10 * √(popVariance exY)) (1 / 1) (1 / 10) 1 1
    have hprop : ∀ i, IsProper (carmaTarget (m := nParams 2 0 false) (runKind 0 false) 2 exT exY (fun _ => 1)
        (10 * √(popVariance exY)) (1 / 1) (1 / 10) 1 1) (ladder 2 i) := fun i => by
      rw [← temperature_ladder (by norm_num)]
      exact car_proper (p := 2) (q := 0) (z := false) le_rfl exT_mono (apart_of_ne (fun _ => one_ne_zero) (temp_pos _ _)) ⟨0, 1, by simp [exY]⟩ le_rfl (by norm_num)
        (Or.inr rfl) ex_gap.1 ex_gap.2 (temp_pos _ _)
    exact (independent_alive hG hprop).mono fun x hx i => Option.isSome_iff_ne_none.mp (hx i)

/-- CAR(1). -/
example (srt : List ℝ → List ℕ) (k : ℕ) : ∃ s u : Samp Car1 4,
    car1Sampler srt k (List.ofFn exT) (List.ofFn exY) (List.ofFn fun _ : Fin 3 => (1 : ℝ)) exRng = .ok s ∧
    RunState 0 s [1, 1, 0, -1] k u ∧
    Tendsto (fun k => (drawsOf (ProbabilityTheory.gaussianReal 0 1)).prod (drawsOf unifLaw) (EndsIn u k {x : Fin 1 → Fin 4 → ℝ | x 0 ∈ {x | 0 < x 2}}))
      atTop (𝓝 (posterior (car1Target exT exY (fun _ => 1) (10 * √(popVariance exY)) (1 / 1) (1 / 10)) 1 {x | 0 < x 2})) := by
  obtain ⟨c, h⟩ := C46_car1_run_returns srt (by norm_num) exT_mono exY (fun _ => 1) ⟨0, 1, by simp [exY]⟩ 0 0 k 1 rfl ex_gap.1 ex_gap.2
    ex_car1_run_bounds (Or.inl (by simp [at0])) (r := exRng) (fun k => ⟨0, by norm_num, by simp [exRng]⟩)
  obtain ⟨s, h1, h⟩ := bind_ok_inv h
  obtain ⟨s', h2, h⟩ := bind_ok_inv h
  obtain ⟨u, h3, h4⟩ := car1_run_finite (by norm_num) exT_mono (Or.inr fun _ => one_ne_zero) h1 rfl ex_gap.1 ex_gap.2 ex_car1_run_bounds h2
  have e : k + 1 * 0 = k := by ring
  rw [e] at h3
  exact ⟨s, u, h1, h3, (C85_car1 le_rfl exT_mono (apart_of_ne fun _ => one_ne_zero) ⟨0, 1, by simp [exY]⟩ h1 le_rfl h3 h4
    ex_gap.1 ex_gap.2 _ gauss_draws.1 gauss_draws.2.1 gauss_draws.2.2).1 _ (measurableSet_lt measurable_const (measurable_pi_apply _))⟩

end Verif.Props
