import Verif.Theory.StartFresh
import Verif.Props.RunLaw1
import Verif.Props.LimitLaw

/-!
C88: the law of the samples recorded by a whole run tends to the posterior.
-/

namespace Verif.Props

open Verif.Model Verif.Spec Verif.Theory MeasureTheory ProbabilityTheory Filter
open scoped Topology

variable {n : ℕ} {t : Fin n → ℝ}

section
variable {srt : List ℝ → List ℕ} {N burnin thin fuel : ℕ} {p q nw : ℕ} {z : Bool} {y e : Fin n → ℝ} {r : Rng} {init : List ℝ}

open scoped Classical in
/-- If the call returns, its starting values have positive density. -/
lemma start_alive {c : Par (CarP p)} (hp : 2 ≤ p) (hq : z = true ∨ q = 0) {o : CarP p} {b : CarBase} {var : ℝ}
    (hv : popVar (List.ofFn y) = .ok var) (g1 : CarP.new (runKind q z) p srt (List.ofFn t) (List.ofFn y) (List.ofFn e) = .ok o)
    (g2 : o.b.setPrior (10 * √var) = .ok b) {G : LogTarget (nParams p q z)} (hT : HasTarget (CarP p) (CarP.Core { o with b := b }) G) {C : StartC} (hC : Consts C b)
    {a : Ram (nParams p q z)} (ha : Ram.new (propCovar (nParams p q z) var (List.ofFn y).length) 0.25 burnin = .ok a)
    (hc : runCarmaSampler fuel srt N burnin (List.ofFn t) (List.ofFn y) (List.ofFn e) p q nw z thin init r = .ok c) :
    Alive G (startX G C p r (iniOf G init) nw (stepOrder (nw - 1)) (stepOrder (nw - 1)).length).1 := by
  unfold runCarmaSampler at hc
  obtain ⟨s, m1, hc⟩ := bind_ok_inv hc
  obtain ⟨s', m2, hc⟩ := bind_ok_inv hc
  have hB := carmaSampler_inv m1
  obtain ⟨s0, s1, init', k1, ⟨st, c0, -, f2, f3⟩, k3, -, -, -⟩ := run_spec m2
  have hlen0 : c0.value.length = nParams p q z := by
    obtain ⟨_, _, _, -, -, -, hch⟩ := hB.chain
    rw [hch _ _ f2]
    simp [Par.new, thetaLen_runKind]
  rw [hlen0] at f3
  rw [f3] at k3
  have hS0 := stand_start hp hq m1 hv g1 g2 hT hC ha k1 k3
  obtain ⟨⟨_, _, _, -, -, -, hso⟩, -⟩ := carma_sound hB k1 k3 (k := 0) rfl
  intro i
  have hi : s1.chains[(i : ℕ)]? = some (s1.chains[(i : ℕ)]'(by rw [hS0.length]; exact i.2)) := List.getElem?_eq_getElem _
  exact alive_of_agrees (hS0.chain i _ hi).2.2.2 (hso _ (List.mem_of_getElem? hi)).fin

/-- When the first sample is recorded all values have positive density and all factors are invertible. -/
lemma sound_first (hp : 2 ≤ p) (hq : z = true ∨ q = 0) (hw : 1 ≤ nw) {o : CarP p} {b : CarBase} {var : ℝ}
    (hv : popVar (List.ofFn y) = .ok var) (g1 : CarP.new (runKind q z) p srt (List.ofFn t) (List.ofFn y) (List.ofFn e) = .ok o)
    (g2 : o.b.setPrior (10 * √var) = .ok b) {G : LogTarget (nParams p q z)} (hT : HasTarget (CarP p) (CarP.Core { o with b := b }) G) {C : StartC} (hC : Consts C b)
    {a : Ram (nParams p q z)} (ha : Ram.new (propCovar (nParams p q z) var (List.ofFn y).length) 0.25 burnin = .ok a) {c : Par (CarP p)}
    (hc : runCarmaSampler fuel srt 1 burnin (List.ofFn t) (List.ofFn y) (List.ofFn e) p q nw z thin init r = .ok c) :
    (runX G (fun i : Fin nw => temperature nw i) burnin (stepOrder (nw - 1)) (burnin + thin) (startZ G C p r init nw fun i j => a.chol i j)).1 ∈ soundX G nw := by
  obtain ⟨-, s1, u, k1, k2, k3, k4⟩ := call_spec hp hq hw hv g1 g2 hT hC ha hc
  rw [Nat.mul_one] at k1 k4
  refine ⟨fun i => ?_, fun i => ?_⟩
  · have hi : u.chains[(i : ℕ)]? = some (u.chains[(i : ℕ)]'(by rw [k4.length]; exact i.2)) := List.getElem?_eq_getElem _
    exact alive_of_agrees (k4.chain i _ hi).2.2.2 (k3 _ (List.mem_of_getElem? hi))
  · have hmem := stepOrder_mem (nw - 1) i (by omega)
    rw [← k4.kinds] at hmem
    obtain ⟨st, hst1, hst2⟩ := List.mem_map.mp hmem
    cases st with
    | exch x => cases hst2
    | ram i' a' =>
      obtain rfl : i' = (i : ℕ) := congrArg Prod.snd hst2
      obtain ⟨j, hj⟩ := List.mem_iff_getElem?.mp hst1
      rw [← (k4.ram j i a' hj).1]
      obtain ⟨-, q2⟩ := sweeps_kinds (sweeps_of_iterate k1)
      obtain ⟨a'', f1, f2⟩ := q2 i a' hst1
      rw [k2 i a'' f1] at f2
      obtain ⟨m1, m2, -⟩ := C27_ram_forever (CarP p) (by norm_num) (by norm_num) ha f2
      exact Upper.det_ne ⟨m1, m2⟩

end

variable {Ω : Type*} [MeasurableSpace Ω] {P : Measure Ω}

/-- **C88, CARp and ZCAR.** In the situation of `C83_car_run`: the samples recorded by a call are random variables `θ · 0, θ · 1, …` such that with
probability one every call, whatever the number `N` of samples asked for, returns the first `N` of them, and the law of `θ · k`
tends to the posterior (its power 1/100 for a single walker): for every measurable set `B` the probability that sample number `k` lies in
`B` tends to the posterior probability of `B`. The burn-in, during which the proposals adapt, and the random starting values are part of the run. -/
theorem C88_car_law (srt : List ℝ → List ℕ) (hn : 3 ≤ n) (ht : StrictMono t) (y e : Fin n → ℝ) (he : ErrorsApart y e (if nw = 1 then 100 else 1)) (hy : ∃ i j, y i ≠ y j)
    {p q : ℕ} (hp : 2 ≤ p) (hp' : p < 2500) {z : Bool} (hq : z = true ∨ q = 0) (hw : 1 ≤ nw) (burnin : ℕ) {thin : ℕ} (hthin : 0 < thin)
    (init : List ℝ) {dmin span : ℝ} (h1 : IsMinGap t dmin) (h2 : IsSpan t span) {R : Ω → Rng} {dof : ℕ → ℕ} (hR : IsDraws P R dof)
    (hd : ∀ k, dof k = n - 1 ∨ dof k = 50) :
    let G := carmaTarget (m := nParams p q z) (runKind q z) p t y e (10 * √(popVariance y)) (1 / dmin) (1 / span) 1 1
    ∃ θ : Ω → ℕ → Fin (nParams p q z) → ℝ, (∀ k, AEMeasurable (fun ω => θ ω k) P) ∧
      (∀ᵐ ω ∂P, ∃ F, ∀ fuel, F ≤ fuel → ∀ N, ∃ c,
        runCarmaSampler fuel srt N burnin (List.ofFn t) (List.ofFn y) (List.ofFn e) p q nw z thin init (R ω) = .ok c ∧
        c.samples = (List.range N).map fun k => List.ofFn (θ ω k)) ∧
      ∀ B, MeasurableSet B → Tendsto (fun k => P {ω | θ ω k ∈ B}) atTop (𝓝 (posterior G (if nw = 1 then 100 else 1) B)) := by
  intro G
  have := hR.indep.isProbabilityMeasure
  obtain ⟨o, b, C, a, hv, g1, g2, hT, hC, ha⟩ := call_built srt hn ht y e hy hp hq burnin h1 h2
  have hq' : z = true ∨ q < p := hq.imp id fun h => by omega
  have hG : MeasTarget G := carma_meas _ _ _ _ _ _ _ _ _ _
  have hprop : ∀ i : Fin nw, IsProper G (temperature nw i) := fun i => car_proper hn ht (apart_mono he (temp_cold _ _)) hy hp hp' hq h1 h2 (temp_pos _ _)
  have hprob : IsProbabilityMeasure (libLaw (.studentT 8)) := student_prob (by norm_num)
  obtain ⟨s1, s2, s3⟩ := student_facts (n := 8) (by norm_num)
  have hrun : ∀ᵐ ω ∂P, ∃ F, ∀ fuel, F ≤ fuel → ∀ N, ∃ c,
      runCarmaSampler fuel srt N burnin (List.ofFn t) (List.ofFn y) (List.ofFn e) p q nw z thin init (R ω) = .ok c := by
    filter_upwards [hR.nice, hR.lucky (p := p) (show 2 ≤ n by omega) hd] with ω e1 e2
    exact carma_run_sure srt hn ht y e hy hp hp' z hq' hw burnin thin init e1.1 e1.2 e2
  have hal : ∀ᵐ ω ∂P, Alive G (startX G C p (R ω) (iniOf G init) nw (stepOrder (nw - 1)) (stepOrder (nw - 1)).length).1 := by
    filter_upwards [hrun] with ω ⟨F, hF⟩
    obtain ⟨c, hc⟩ := hF F le_rfl 0
    exact start_alive hp hq hv g1 g2 hT hC ha hc
  have hren : Renewed P (rngLaw (libLaw (.studentT 8))) fun ω => startZ G C p (R ω) init nw fun i j => a.chol i j := by
    have h3 := start_renewed hR hG (C := C) (p := p) (N := nw) (l := stepOrder (nw - 1)) (fun w hwm => (stepOrder_range hw w.1 w.2 hwm).1) (iniOf G init) hal
    exact h3.map (f := fun x => ((x, (fun _ i j => a.chol i j), fun _ => 0) : RunX nw (nParams p q z))) (measurable_id.prodMk measurable_const)
  refine ⟨fun ω k => (runX G (fun i : Fin nw => temperature nw i) burnin (stepOrder (nw - 1)) (burnin + thin * (k + 1))
    (startZ G C p (R ω) init nw fun i j => a.chol i j)).1.1 ⟨0, hw⟩, fun k => ?_, ?_, fun B hB => ?_⟩
  · exact (measurable_pi_apply _).comp_aemeasurable (run_meas hG hren _)
  · filter_upwards [hrun] with ω ⟨F, hF⟩
    refine ⟨F, fun fuel hfuel N => ?_⟩
    obtain ⟨c, hc⟩ := hF fuel hfuel N
    exact ⟨c, hc, (call_spec hp hq hw hv g1 g2 hT hC ha hc).1⟩
  · have hpr := fun i : Fin nw => posterior_prob (hprop i)
    have hs : ∀ᵐ ω ∂P, (runX G (fun i : Fin nw => temperature nw i) burnin (stepOrder (nw - 1)) (burnin + thin)
        (startZ G C p (R ω) init nw fun i j => a.chol i j)).1 ∈ soundX G nw := by
      filter_upwards [hrun] with ω ⟨F, hF⟩
      obtain ⟨c, hc⟩ := hF F le_rfl 1
      exact sound_first hp hq hw hv g1 g2 hT hC ha hc
    have h4 := run_limit (B := burnin) hG hprop s2 s3 s1 hw hren hthin (A := {x | x ⟨0, hw⟩ ∈ B}) (measurable_pi_apply _ hB)
    have e1 : P {ω | (runX G (fun i : Fin nw => temperature nw i) burnin (stepOrder (nw - 1)) (burnin + thin)
        (startZ G C p (R ω) init nw fun i j => a.chol i j)).1 ∈ soundX G nw} = 1 :=
      (measure_congr (eventuallyEq_univ.mpr hs)).trans measure_univ
    have e2 : independent G (fun i : Fin nw => temperature nw i) {x | x ⟨0, hw⟩ ∈ B} = posterior G (if nw = 1 then 100 else 1) B := by
      rw [← temperature_cold nw]
      exact (measurePreserving_eval (fun i : Fin nw => posterior G (temperature nw i)) ⟨0, hw⟩).measure_preimage hB.nullMeasurableSet
    rw [e1, e2, one_mul] at h4
    refine h4.congr fun k => measure_congr ?_
    filter_upwards [hs] with ω hω
    exact propext ⟨fun h => h.2, fun h => ⟨hω, h⟩⟩

/-- The hypotheses are met: the default call of `run_mcmc` on three points, with a CAR(3) model and ten chains. -/
example (srt : List ℝ → List ℕ) (burnin : ℕ) :
    haveI := fun i => drawLaw_prob (dof := passDof 3) (fun k => by unfold passDof; split <;> omega) i
    ∃ θ : (Stream × ℕ → ℝ) → ℕ → Fin (nParams 3 0 false) → ℝ, (∀ k, AEMeasurable (fun ω => θ ω k) (Measure.infinitePi (drawLaw (passDof 3)))) ∧
      (∀ᵐ ω ∂(Measure.infinitePi (drawLaw (passDof 3))), ∃ F, ∀ fuel, F ≤ fuel → ∀ N, ∃ c,
        runCarmaSampler fuel srt N burnin (List.ofFn exT) (List.ofFn exY) (List.ofFn fun _ : Fin 3 => (1 : ℝ)) 3 0 10 false 1 [] (rngOf ω) = .ok c ∧
        c.samples = (List.range N).map fun k => List.ofFn (θ ω k)) ∧
      ∀ B, MeasurableSet B → Tendsto (fun k => (Measure.infinitePi (drawLaw (passDof 3))) {ω | θ ω k ∈ B}) atTop
        (𝓝 (posterior (carmaTarget (runKind 0 false) 3 exT exY (fun _ => 1) (10 * √(popVariance exY)) (1 / 1) (1 / 10) 1 1) 1 B)) := by
  have hpos : ∀ k, 0 < passDof 3 k := fun k => by unfold passDof; split <;> omega
  have := C88_car_law srt le_rfl exT_mono exY (fun _ => 1) (nw := 10) (apart_of_ne fun _ => one_ne_zero) ⟨0, 1, by simp [exY]⟩ (show 2 ≤ 3 by norm_num) (by norm_num) (q := 0) (z := false) (Or.inr rfl)
    (show 1 ≤ 10 by norm_num) burnin one_pos [] ex_gap.1 ex_gap.2 (draws_exist hpos)
    (fun k => by unfold passDof; split <;> omega)
  rw [if_neg (by norm_num)] at this
  exact this

/-! ### CAR(1) -/

/-- The starting state of the CAR(1) sampler and the draws left. -/
lemma start_renewed1 {R : Ω → Rng} {dof : ℕ → ℕ} (hR : IsDraws P R dof) [IsProbabilityMeasure (libLaw (.studentT 8))] (G : LogTarget 4) (b : CarBase) (med fmax : ℝ)
    (init : List ℝ) (L : Fin 4 → Fin 4 → ℝ) : Renewed P (rngLaw (libLaw (.studentT 8))) fun ω => startZ1 G b med fmax (R ω) init L := by
  by_cases hc : init.length = 4 ∧ (G (vec 4 init)).isSome = true
  · refine renewed_pieces hR (p := 1) (ι := Unit) (j := fun _ => 0) (S := fun _ => Set.univ) (fun _ => MeasurableSet.univ)
      (F := fun _ _ => (fun _ => vec 4 init, fun _ => L, fun _ => 0)) (fun _ => measurable_const) (fun _ _ _ _ _ => rfl)
      (Eventually.of_forall fun ω => ⟨(), trivial⟩) fun _ ω _ => ?_
    rw [startZ1, if_pos hc]
    rfl
  · have h1 : ∀ i ∈ [(Stream.chi2, 0), (.chi2, 1), (.norm, 0), (.unif, 0)], i ∈ usedBy 1 1 := by
      intro i hi
      simp only [List.mem_cons, List.not_mem_nil, or_false] at hi
      rcases hi with rfl | rfl | rfl | rfl <;> exact ⟨by simp, by simp⟩
    have hF : Measurable fun D : usedBy 1 1 → ℝ => car1T b med fmax (fill 1 1 D (.chi2, 0)) (fill 1 1 D (.chi2, 1)) (fill 1 1 D (.norm, 0)) (fill 1 1 D (.unif, 0)) :=
      (car1T_measurable b med fmax).comp (g := fun x : ℝ × ℝ × ℝ × ℝ => car1T b med fmax x.1 x.2.1 x.2.2.1 x.2.2.2)
        ((fill_measurable _ _ _).prodMk ((fill_measurable _ _ _).prodMk ((fill_measurable _ _ _).prodMk (fill_measurable _ _ _))))
    refine renewed_pieces hR (p := 1) (ι := Unit) (j := fun _ => 1) (S := fun _ => Set.univ) (fun _ => MeasurableSet.univ)
      (F := fun _ D => (fun _ => car1T b med fmax (fill 1 1 D (.chi2, 0)) (fill 1 1 D (.chi2, 1)) (fill 1 1 D (.norm, 0)) (fill 1 1 D (.unif, 0)), fun _ => L, fun _ => 0))
      (fun _ => (measurable_pi_lambda _ fun _ => hF).prodMk measurable_const) (fun _ _ _ _ _ => rfl) (Eventually.of_forall fun ω => ⟨(), trivial⟩) fun _ ω _ => ?_
    rw [startZ1, if_neg hc, fill_used 1 1 (R ω) _ (h1 _ (by simp)), fill_used 1 1 (R ω) _ (h1 _ (by simp)), fill_used 1 1 (R ω) _ (h1 _ (by simp)),
      fill_used 1 1 (R ω) _ (h1 _ (by simp))]
    rfl

/-- **C88, CAR(1).** In the situation of `C83_car1_run`: the samples recorded by a call of `RunCar1Sampler` are random variables; with
probability one every call returns the first `N` of them, and if the density at the first sample is 0 all samples are equal to it. Otherwise their
law tends to the posterior: the probability that the density at the first sample is not 0 and that sample number `k` lies in `B` tends to
the probability of the former times the posterior probability of `B`. -/
theorem C88_car1_law (srt : List ℝ → List ℕ) (hn : 3 ≤ n) (ht : StrictMono t) (y e : Fin n → ℝ) (he : ErrorsApart y e 1) (hy : ∃ i j, y i ≠ y j)
    (burnin : ℕ) {thin : ℕ} (hthin : 0 < thin) (init : List ℝ) {dmin span : ℝ} (h1 : IsMinGap t dmin) (h2 : IsSpan t span) {R : Ω → Rng} {dof : ℕ → ℕ}
    (hR : IsDraws P R dof) :
    let G := car1Target t y e (10 * √(popVariance y)) (1 / dmin) (1 / span)
    ∃ θ : Ω → ℕ → Fin 4 → ℝ, (∀ k, AEMeasurable (fun ω => θ ω k) P) ∧
      (∀ᵐ ω ∂P, (∀ fuel N, ∃ c, runCar1Sampler fuel srt N burnin (List.ofFn t) (List.ofFn y) (List.ofFn e) thin init (R ω) = .ok c ∧
          c.samples = (List.range N).map fun k => List.ofFn (θ ω k)) ∧
        (G (θ ω 0) = none → ∀ k, θ ω k = θ ω 0)) ∧
      ∀ B, MeasurableSet B → Tendsto (fun k => P {ω | G (θ ω 0) ≠ none ∧ θ ω k ∈ B}) atTop (𝓝 (P {ω | G (θ ω 0) ≠ none} * posterior G 1 B)) := by
  intro G
  have := hR.indep.isProbabilityMeasure
  obtain ⟨o, b, dt, med, a, hv, g1, g2, g3, hT, g4, g5, g6, -, ha⟩ := call_built1 srt (by omega) ht y e hy burnin h1 h2
  have hG : MeasTarget G := car1_meas _ _ _ _ _ _
  have hprop : IsProper G 1 := car1_proper hn ht he hy h1 h2 one_pos
  have hprob : IsProbabilityMeasure (libLaw (.studentT 8)) := student_prob (by norm_num)
  obtain ⟨s1, s2, s3⟩ := student_facts (n := 8) (by norm_num)
  have hren := start_renewed1 hR G b med (1 / dmin) init fun i j => a.chol i j
  have hex : ∀ᵐ ω ∂P, ∀ fuel N, ∃ c, runCar1Sampler fuel srt N burnin (List.ofFn t) (List.ofFn y) (List.ofFn e) thin init (R ω) = .ok c := by
    filter_upwards [hR.nice] with ω e1 fuel N
    exact C46_car1_run_returns_any_init srt (by omega) ht y e hy fuel N burnin thin init e1.1.ok fun k => ⟨0, by norm_num, e1.2 _⟩
  set θ : Ω → ℕ → Fin 4 → ℝ := fun ω k => (runX G (fun _ : Fin 1 => (1 : ℝ)) burnin (stepOrder (1 - 1)) (burnin + thin * (k + 1))
    (startZ1 G b med (1 / dmin) (R ω) init fun i j => a.chol i j)).1.1 0 with hθ
  have hdead : ∀ᵐ ω ∂P, G ((startZ1 G b med (1 / dmin) (R ω) init fun i j => a.chol i j).1.1 0) = none →
      ∀ k, θ ω k = (startZ1 G b med (1 / dmin) (R ω) init fun i j => a.chol i j).1.1 0 := by
    filter_upwards [hex] with ω hex hal k
    obtain ⟨c, hc⟩ := hex 0 (k + 1)
    obtain ⟨l1, -, -, -, -, -, -, -, l2⟩ := call_spec1 hv g1 g2 g3 hT g4 g5 g6 ha hc
    obtain ⟨l2, -⟩ := l2 hal k (by omega)
    rw [l1] at l2
    simp only [List.getElem?_map, List.getElem?_range (show k < k + 1 by omega), Option.map_some, Option.some.injEq] at l2
    exact List.ofFn_injective l2
  have hsound : ∀ᵐ ω ∂P, (runX G (fun _ : Fin 1 => (1 : ℝ)) burnin (stepOrder (1 - 1)) (burnin + thin)
      (startZ1 G b med (1 / dmin) (R ω) init fun i j => a.chol i j)).1 ∈ soundX G 1 ↔ G (θ ω 0) ≠ none := by
    filter_upwards [hex, hdead] with ω hex hdead
    have e0 : θ ω 0 = (runX G (fun _ : Fin 1 => (1 : ℝ)) burnin (stepOrder (1 - 1)) (burnin + thin)
      (startZ1 G b med (1 / dmin) (R ω) init fun i j => a.chol i j)).1.1 0 := by
      rw [hθ]
      simp only [Nat.zero_add, Nat.mul_one]
    constructor
    · intro h
      rw [e0]
      exact Option.isSome_iff_ne_none.mp (h.1 0)
    · intro h
      have hal : (G ((startZ1 G b med (1 / dmin) (R ω) init fun i j => a.chol i j).1.1 0)).isSome = true := by
        rw [Option.isSome_iff_ne_none]
        intro hn
        rw [hdead hn 0] at h
        exact h hn
      obtain ⟨c, hc⟩ := hex 0 1
      obtain ⟨-, -, s1, u, k1, k2, k4, k3, -⟩ := call_spec1 hv g1 g2 g3 hT g4 g5 g6 ha hc
      rw [Nat.mul_one] at k1 k4
      have k3 := k3 hal
      refine ⟨fun i => ?_, fun i => ?_⟩
      · have hi : u.chains[(i : ℕ)]? = some (u.chains[(i : ℕ)]'(by rw [k4.length]; exact i.2)) := List.getElem?_eq_getElem _
        exact alive_of_agrees (k4.chain i _ hi).2.2.2 (k3 _ (List.mem_of_getElem? hi))
      · have hmem := stepOrder_mem (1 - 1) i (by omega)
        rw [← k4.kinds] at hmem
        obtain ⟨st, hst1, hst2⟩ := List.mem_map.mp hmem
        cases st with
        | exch x => cases hst2
        | ram i' a' =>
          obtain rfl : i' = (i : ℕ) := congrArg Prod.snd hst2
          obtain ⟨j, hj⟩ := List.mem_iff_getElem?.mp hst1
          rw [← (k4.ram j i a' hj).1]
          obtain ⟨-, q2⟩ := sweeps_kinds (sweeps_of_iterate k1)
          obtain ⟨a'', f1, f2⟩ := q2 i a' hst1
          rw [k2 i a'' f1] at f2
          obtain ⟨m1, m2, -⟩ := C27_ram_forever Car1 (by norm_num) (by norm_num) ha f2
          exact Upper.det_ne ⟨m1, m2⟩
  refine ⟨θ, fun k => ?_, ?_, fun B hB => ?_⟩
  · exact (measurable_pi_apply _).comp_aemeasurable (run_meas (T := fun _ : Fin 1 => (1 : ℝ)) hG hren _)
  · filter_upwards [hex, hdead, hsound] with ω hex hdead hsound
    refine ⟨fun fuel N => ?_, fun h k => ?_⟩
    · obtain ⟨c, hc⟩ := hex fuel N
      exact ⟨c, hc, (call_spec1 hv g1 g2 g3 hT g4 g5 g6 ha hc).1⟩
    · by_cases hal : G ((startZ1 G b med (1 / dmin) (R ω) init fun i j => a.chol i j).1.1 0) = none
      · rw [hdead hal k, hdead hal 0]
      · exfalso
        obtain ⟨c, hc⟩ := hex 0 1
        obtain ⟨-, -, s1, u, k1, k2, k4, k3, -⟩ := call_spec1 hv g1 g2 g3 hT g4 g5 g6 ha hc
        have k3 := k3 (Option.isSome_iff_ne_none.mpr hal)
        rw [Nat.mul_one] at k4
        have hi : u.chains[((0 : Fin 1) : ℕ)]? = some (u.chains[((0 : Fin 1) : ℕ)]'(by rw [k4.length]; exact (0 : Fin 1).2)) := List.getElem?_eq_getElem _
        have h5 := alive_of_agrees (k4.chain 0 _ hi).2.2.2 (k3 _ (List.mem_of_getElem? hi))
        rw [hθ] at h
        simp only [Nat.zero_add, Nat.mul_one] at h
        exact Option.isSome_iff_ne_none.mp h5 h
  · have hpr := posterior_prob hprop
    have h4 := run_limit (B := burnin) hG (T := fun _ : Fin 1 => (1 : ℝ)) (fun _ => hprop) s2 s3 s1 one_pos hren hthin (A := {x | x 0 ∈ B}) (measurable_pi_apply _ hB)
    have e2 : independent G (fun _ : Fin 1 => (1 : ℝ)) {x | x 0 ∈ B} = posterior G 1 B :=
      (measurePreserving_eval (fun _ : Fin 1 => posterior G 1) 0).measure_preimage hB.nullMeasurableSet
    have e1 : P {ω | (runX G (fun _ : Fin 1 => (1 : ℝ)) burnin (stepOrder (1 - 1)) (burnin + thin)
        (startZ1 G b med (1 / dmin) (R ω) init fun i j => a.chol i j)).1 ∈ soundX G 1} = P {ω | G (θ ω 0) ≠ none} := by
      refine measure_congr ?_
      filter_upwards [hsound] with ω hω
      exact propext hω
    rw [e1, e2] at h4
    refine h4.congr fun k => measure_congr ?_
    filter_upwards [hsound] with ω hω
    exact propext (and_congr_left' hω)

/-- The hypotheses are met: three points, random starting value. -/
example (srt : List ℝ → List ℕ) (burnin : ℕ) :
    haveI := fun i => drawLaw_prob (dof := passDof 3) (fun k => by unfold passDof; split <;> omega) i
    let G := car1Target exT exY (fun _ => 1) (10 * √(popVariance exY)) (1 / 1) (1 / 10)
    ∃ θ : (Stream × ℕ → ℝ) → ℕ → Fin 4 → ℝ, (∀ k, AEMeasurable (fun ω => θ ω k) (Measure.infinitePi (drawLaw (passDof 3)))) ∧
      (∀ᵐ ω ∂(Measure.infinitePi (drawLaw (passDof 3))), (∀ fuel N, ∃ c,
          runCar1Sampler fuel srt N burnin (List.ofFn exT) (List.ofFn exY) (List.ofFn fun _ : Fin 3 => (1 : ℝ)) 1 [] (rngOf ω) = .ok c ∧
          c.samples = (List.range N).map fun k => List.ofFn (θ ω k)) ∧ (G (θ ω 0) = none → ∀ k, θ ω k = θ ω 0)) ∧
      ∀ B, MeasurableSet B → Tendsto (fun k => (Measure.infinitePi (drawLaw (passDof 3))) {ω | G (θ ω 0) ≠ none ∧ θ ω k ∈ B}) atTop
        (𝓝 ((Measure.infinitePi (drawLaw (passDof 3))) {ω | G (θ ω 0) ≠ none} * posterior G 1 B)) := by
  have hpos : ∀ k, 0 < passDof 3 k := fun k => by unfold passDof; split <;> omega
  exact C88_car1_law srt le_rfl exT_mono exY (fun _ => 1) (apart_of_ne fun _ => one_ne_zero) ⟨0, 1, by simp [exY]⟩ burnin one_pos [] ex_gap.1 ex_gap.2 (draws_exist hpos)

end Verif.Props
