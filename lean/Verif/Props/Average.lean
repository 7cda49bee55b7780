import Verif.Theory.Average
import Verif.Props.Stationary
import Verif.Props.Proper

/-!
C69: averages over the recorded values tend to posterior means.
-/

namespace Verif.Props

open Verif.Model Verif.Spec Verif.Theory MeasureTheory

variable {fuel : ℕ} {srt : List ℝ → List ℕ} {N burnin thin : ℕ} {init : List ℝ} {r : Rng} {p q nw n : ℕ} {z : Bool} {t y e : Fin n → ℝ}

theorem frozen_refl {d : ℕ} {l : List (StepSt d)} (h : ∀ i a, .ram i a ∈ l → a.maxiter ≤ a.niter) : List.Forall₂ Frozen l l := by
  rw [List.forall₂_same]
  intro st hst
  cases st with
  | ram i a => exact ⟨rfl, rfl, h i a hst⟩
  | exch e => exact (rfl : e.idx = e.idx)

theorem alive_of_agrees {v : Dbl} {g : Option ℝ} (h : Agrees v g) (hv : v.isFin) : g.isSome = true := by
  cases g with
  | none => exact absurd hv h
  | some l => rfl

open scoped Classical in
/-- **C69, CARp and ZCAR.** Strong law for `RunCarmaSampler` with an autoregressive model: at least three strictly increasing times,
no two measurements without error unless two such have different values (`ErrorsApart`), values not all equal, `p ≥ 2`, at least one walker
(else no sampler is built). From any state `u` of the run after the burn-in: if the random numbers to come are independent, the uniform ones from [0,1), the proposal draws from a symmetric law with
the same null sets as length (Student's t and the normal law are such), then with probability 1 the averages of `f` over the values of the
cold chain, recorded after every `thin` sweeps, tend to the mean of `f` under the posterior density to the power `1/T`, where `T` is 1 for
two or more walkers, and 100 for one walker. -/
theorem C69_car (hn : 3 ≤ n) (ht : StrictMono t) (he : ErrorsApart y e (if nw = 1 then 100 else 1)) (hy : ∃ i j, y i ≠ y j) (hp : 2 ≤ p) (hp' : p < 2500)
    (hq : z = true ∨ q = 0) {s : Samp (CarP p) (nParams p q z)}
    (hs : carmaSampler srt N burnin (List.ofFn t) (List.ofFn y) (List.ofFn e) p q nw z thin r = .ok s) {k : ℕ} (hk : burnin ≤ k)
    {u : Samp (CarP p) (nParams p q z)} (h : RunState fuel s init k u) {dmin span : ℝ} (h1 : IsMinGap t dmin) (h2 : IsSpan t span)
    (hthin : 0 < thin) (ν : Measure ℝ) [IsProbabilityMeasure ν] (hsym : ν.map (fun x => -x) = ν) (hν : volume ≪ ν) (hν' : ν ≪ volume)
    {f : (Fin (nParams p q z) → ℝ) → ℝ} (hf : Measurable f) :
    let G := carmaTarget (runKind q z) p t y e (10 * √(popVariance y)) (1 / dmin) (1 / span) 1 1
    let T : ℝ := if nw = 1 then 100 else 1
    HasMean G T f → ∀ᵐ w ∂(drawsOf ν).prod (drawsOf unifLaw), AveragesTo thin (reseed u w) f (postMean G T f) := by
  intro G T hi
  have hv := popVar_eq (show 0 < n by omega) y
  have hq' : z = true ∨ q < p := hq.imp id fun h => by omega
  obtain ⟨o, b, dmin', span', g1, g2, g3, g4, g5, g6, g7, g8⟩ := run_solid (q := q) srt (by omega) ht y e hp z hq' (10 * √(popVariance y))
  obtain rfl := h1.unique g4
  obtain rfl := h2.unique g5
  have hB := carmaSampler_inv hs
  have hkind : ({ o with b := b } : CarP p).kind = runKind q z := (new_config g1).1
  have hkap : KappaOk ({ o with b := b } : CarP p) 1 1 := by
    intro hk
    rw [hkind] at hk
    unfold runKind at hk
    split at hk
    · cases hk
    · split at hk <;> cases hk
  have hT : HasTarget (CarP p) (CarP.Core { o with b := b }) G := by
    show HasTarget (CarP p) (CarP.Core { o with b := b })
      (carmaTarget (m := nParams p q z) (runKind q z) p t y e (10 * √(popVariance y)) (1 / dmin) (1 / span) 1 1)
    rw [← hkind, ← g6]
    exact solid_target hp (show 0 < n by omega) ht g3 one_pos le_rfl hkap g7 g8 (by rw [hkind, npar_runKind])
  obtain ⟨hlen, -, hch⟩ := carma_chains hs h
  obtain ⟨s0, s1, init', k1, -, k3, k4⟩ := h
  obtain ⟨⟨var, o', b', c1, c2, c3, hc⟩, -⟩ := carma_sound hB (SampRec.of_same k1) k3 (iterate_of_sweeps k4)
  cases hv.symm.trans c1
  cases g1.symm.trans c2
  cases g2.symm.trans c3
  have hsteps : s1.steps = s.steps := (startLoop_steps k3).trans k1.steps
  obtain ⟨var', a, d1, d2, d3⟩ := hB.steps
  have hpos := hB.pos
  have hram : ∀ i a', .ram i a' ∈ s1.steps → a' = a := by
    intro i a' ha'
    rw [hsteps, d3] at ha'
    rcases tempered_fresh ha' with ⟨i', he⟩ | ⟨i', he⟩
    · injection he
    · cases he
  have hfr := steps_frozen (M := nw) k4 hk (fun st hst => by
      rw [hsteps, d3] at hst
      have hk : stepKind st ∈ stepOrder (nw - 1) := by
        rw [← tempered_kind (a := a) (report := (burnin + thin * N : ℤ))]
        exact List.mem_map_of_mem hst
      rcases tempered_fresh hst with ⟨i, rfl⟩ | ⟨i, rfl⟩
      · have := (stepOrder_le _ hk).1
        exact (show i < nw by omega)
      · have := stepOrder_le _ hk
        exact ⟨this.2 rfl, by have h0 : i ≤ nw - 1 := this.1; show i < nw; omega⟩) (fun i a' ha' => by
      rw [hram i a' ha']; exact ram_new_fresh d2)
  have hstack : Stack nw u.steps := by
    obtain ⟨q1, q2⟩ := sweeps_kinds k4
    refine ⟨by omega, ?_, fun i b hb => ?_⟩
    · rw [q1, hsteps, d3, tempered_kind]
    · obtain ⟨a', f1, f2⟩ := q2 i b hb
      rw [hram i a' f1] at f2
      obtain ⟨m1, m2, -⟩ := C27_ram_forever (CarP p) (by norm_num) (by norm_num) d2 f2
      exact Upper.det_ne ⟨m1, m2⟩
  have hTe : ∀ i : ℕ, temperature nw i = if nw = 1 then 100 else (100 : ℝ) ^ ((i : ℝ) / ((nw : ℝ) - 1)) := by
    intro i
    by_cases h1 : nw = 1
    · rw [if_pos h1, temperature, if_pos h1, Real.exp_log (by norm_num)]
    · rw [if_neg h1, temperature_rpow (by omega)]
  have hval : ∀ i : Fin nw, ∃ x : Fin (nParams p q z) → ℝ, ∀ c, u.chains[(i : ℕ)]? = some c → c.value = List.ofFn x := by
    intro i
    have hi : u.chains[(i : ℕ)]? = some (u.chains[(i : ℕ)]'(by rw [hlen]; exact i.2)) := List.getElem?_eq_getElem _
    obtain ⟨x, hx⟩ := list_ofFn_of_length (hc _ (List.mem_of_getElem? hi)).len
    refine ⟨x, fun c hcm => ?_⟩
    rw [hi] at hcm
    injection hcm with hcm
    rw [← hcm]; exact hx
  choose x hx using hval
  have hag : ∀ (i : Fin nw) c, u.chains[(i : ℕ)]? = some c → Agrees c.logpost (G (x i)) := by
    intro i c hcm
    have := (hc c (List.mem_of_getElem? hcm)).valued
    rw [hx i c hcm] at this
    exact agrees_of_valued hT g3.core this
  have hAt : At (CarP.Core { o with b := b }) G (fun i : Fin nw => temperature nw i) u.steps u (x, u.rng.stud, u.rng.unif) :=
    ⟨hlen, fun i c hcm => ⟨(hc c (List.mem_of_getElem? hcm)).core, (hch i c hcm).1, hx i c hcm, hag i c hcm⟩, rfl, rfl, frozen_refl hfr.2⟩
  have hal : Alive G x := fun i => by
    have hi : u.chains[(i : ℕ)]? = some (u.chains[(i : ℕ)]'(by rw [hlen]; exact i.2)) := List.getElem?_eq_getElem _
    exact alive_of_agrees (hag i _ hi) (hc _ (List.mem_of_getElem? hi)).fin
  have hT0 : temperature nw ((⟨0, by omega⟩ : Fin nw) : ℕ) = T := by
    rw [hTe]
    show _ = if nw = 1 then 100 else 1
    split
    · rfl
    · simp
  have := averages_to hT (carma_meas _ _ _ _ _ _ _ _ _ _) (fun i => temp_pos _ _) (fun i => car_proper hn ht (apart_mono he (temp_cold _ _)) hy hp hp' hq g4 g5 (temp_pos _ _))
    hν hν' hsym hAt hstack hfr.1 hal (i0 := ⟨0, by omega⟩) rfl hf (by rw [hT0]; exact hi) hthin
  rw [hT0] at this
  exact this

theorem gauss_draws : (ProbabilityTheory.gaussianReal 0 1).map (fun x => -x) = ProbabilityTheory.gaussianReal 0 1 ∧
    volume ≪ ProbabilityTheory.gaussianReal 0 1 ∧ ProbabilityTheory.gaussianReal 0 1 ≪ volume :=
  ⟨by simpa using ProbabilityTheory.gaussianReal_map_neg (μ := 0) (v := 1), ProbabilityTheory.gaussianReal_absolutelyContinuous' _ one_ne_zero,
    ProbabilityTheory.gaussianReal_absolutelyContinuous _ one_ne_zero⟩

/-- Bounded functions have means, so relative frequencies tend to posterior probabilities. -/
theorem hasMean_bounded {d : ℕ} {G : LogTarget d} {T : ℝ} (hG : MeasTarget G) (hP : IsProper G T) {f : (Fin d → ℝ) → ℝ} (hf : Measurable f)
    {C : ℝ} (hC : ∀ x, |f x| ≤ C) : HasMean G T f := by
  have h1 : Integrable fun x => (Verif.Spec.tempered G T x).toReal :=
    integrable_toReal_of_lintegral_ne_top (hG.tempered T).aemeasurable hP.2.ne
  exact h1.bdd_mul hf.aestronglyMeasurable (c := C) (Filter.Eventually.of_forall fun x => by simpa using hC x)

/-- The hypotheses are met: a CAR(2) run with two walkers, normal proposal draws, the relative frequency of a positive mean parameter. -/
example (srt : List ℝ → List ℕ) (k : ℕ) : ∃ (s u : Samp (CarP 2) (nParams 2 0 false)) (m : ℝ),
    carmaSampler srt 0 k (List.ofFn exT) (List.ofFn exY) (List.ofFn fun _ : Fin 3 => (1 : ℝ)) 2 0 2 false 1 exRng = .ok s ∧
    RunState 0 s (exθ ++ []) k u ∧
    ∀ᵐ w ∂(drawsOf (ProbabilityTheory.gaussianReal 0 1)).prod (drawsOf unifLaw),
      AveragesTo 1 (reseed u w) (Set.indicator {x : Fin (nParams 2 0 false) → ℝ | 0 < x ⟨2, by decide⟩} fun _ => 1) m := by
  obtain ⟨s, u, h1, h2⟩ := ex_ma_state srt k (q := 0) (by norm_num)
  have hm : Measurable (Set.indicator {x : Fin (nParams 2 0 false) → ℝ | 0 < x ⟨2, by decide⟩} fun _ => (1 : ℝ)) :=
    measurable_const.indicator (measurableSet_lt measurable_const (measurable_pi_apply _))
  exact ⟨s, u, _, h1, h2, C69_car le_rfl exT_mono (apart_of_ne fun _ => one_ne_zero) ⟨0, 1, by simp [exY]⟩ le_rfl (by norm_num) (Or.inr rfl) h1 le_rfl h2
    ex_gap.1 ex_gap.2 one_pos _ gauss_draws.1 gauss_draws.2.1 gauss_draws.2.2 hm (hasMean_bounded (carma_meas _ _ _ _ _ _ _ _ _ _)
      (car_proper le_rfl exT_mono (apart_of_ne fun _ => one_ne_zero) ⟨0, 1, by simp [exY]⟩ le_rfl (by norm_num) (Or.inr rfl) ex_gap.1 ex_gap.2 (by norm_num)) hm
      (C := 1) fun x => by by_cases hx : x ∈ {x : Fin (nParams 2 0 false) → ℝ | 0 < x ⟨2, by decide⟩} <;> simp [Set.indicator, hx])⟩

open scoped Classical in
/-- **C69, CAR(1).** The same for `RunCar1Sampler`, whose chain has temperature 1, if the density at the present value of the chain is not 0
(the start is not checked for that; a chain started where the density is 0 never moves). -/
theorem C69_car1 (hn : 3 ≤ n) (ht : StrictMono t) (he : ErrorsApart y e 1) (hy : ∃ i j, y i ≠ y j) {s : Samp Car1 4}
    (hs : car1Sampler srt burnin (List.ofFn t) (List.ofFn y) (List.ofFn e) r = .ok s) {k : ℕ} (hk : burnin ≤ k)
    {u : Samp Car1 4} (h : RunState fuel s init k u) (hfin : ∀ c ∈ u.chains, c.logpost.isFin) {dmin span : ℝ} (h1 : IsMinGap t dmin)
    (h2 : IsSpan t span) (hthin : 0 < thin) (ν : Measure ℝ) [IsProbabilityMeasure ν] (hsym : ν.map (fun x => -x) = ν) (hν : volume ≪ ν)
    (hν' : ν ≪ volume) {f : (Fin 4 → ℝ) → ℝ} (hf : Measurable f) :
    let G := car1Target t y e (10 * √(popVariance y)) (1 / dmin) (1 / span)
    HasMean G 1 f → ∀ᵐ w ∂(drawsOf ν).prod (drawsOf unifLaw), AveragesTo thin (reseed u w) f (postMean G 1 f) := by
  intro G hi
  have hv := popVar_eq (show 0 < n by omega) y
  obtain ⟨o, b, dmin', span', g1, g1', g2, g3, g4, g5, g6, g7, g8⟩ := run_solid1 srt (by omega) ht y e (10 * √(popVariance y))
  obtain rfl := h1.unique g4
  obtain rfl := h2.unique g5
  have hB := car1Sampler_inv hs
  have hT := solid1_target (show 0 < n by omega) ht g3 (fmax := 1 / dmin) (fmin := 1 / span) g7 g8
  rw [show ({ o with b := b } : Car1).b.maxStdev = 10 * √(popVariance y) from g6] at hT
  obtain ⟨s0, s1, init', k1, -, k3, k4⟩ := h
  obtain ⟨var, o', b', c1, m1, m2, m3, m4, -, hm⟩ := car1_sound hB (SampRec.of_same k1) k3
  cases hv.symm.trans m1
  cases g1.symm.trans m2
  cases g2.symm.trans m3
  obtain ⟨-, c, e1, e2, e3, e4, -, -, e7, -⟩ := hm k u (iterate_of_sweeps k4)
  have hsteps : s1.steps = s.steps := (startLoop_steps k3).trans k1.steps
  obtain ⟨var', a, d1, d2, d3⟩ := hB.steps
  have hram : ∀ i a', .ram i a' ∈ s1.steps → a' = a := by
    intro i a' ha'
    rw [hsteps, d3, List.mem_singleton] at ha'
    injection ha'
  have hfr := steps_frozen (M := 1) k4 hk (fun st hst => by
      rw [hsteps, d3, List.mem_singleton] at hst
      rw [hst]; exact (show 0 < 1 by norm_num)) (fun i a' ha' => by
      rw [hram i a' ha']; exact ram_new_fresh d2)
  have hstack : Stack 1 u.steps := by
    obtain ⟨q1, q2⟩ := sweeps_kinds k4
    refine ⟨one_pos, by rw [q1, hsteps, d3]; rfl, fun i b hb => ?_⟩
    obtain ⟨a', f1, f2⟩ := q2 i b hb
    rw [hram i a' f1] at f2
    obtain ⟨m1, m2, -⟩ := C27_ram_forever Car1 (by norm_num) (by norm_num) d2 f2
    exact Upper.det_ne ⟨m1, m2⟩
  have hget : ∀ (i : Fin 1) c', u.chains[(i : ℕ)]? = some c' → c' = c := by
    intro i c' hc'
    obtain rfl := Subsingleton.elim i 0
    rw [e1] at hc'
    injection hc' with hc'
    exact hc'.symm
  obtain ⟨x, hx⟩ := list_ofFn_of_length e4
  rw [hx] at e3
  have hag : Agrees c.logpost (G x) := agrees_of_valued hT g3.core e3
  have hAt : At (Car1.Core { o with b := b }) G (fun _ : Fin 1 => (1 : ℝ)) u.steps u (fun _ => x, u.rng.stud, u.rng.unif) :=
    ⟨by rw [e1]; rfl, fun i c' hcm => by rw [hget i c' hcm]; exact ⟨e2, e7, hx, hag⟩, rfl, rfl, frozen_refl hfr.2⟩
  exact averages_to hT (car1_meas _ _ _ _ _ _) (fun _ => one_pos) (fun _ => car1_proper hn ht he hy g4 g5 one_pos) hν hν' hsym hAt hstack hfr.1
    (fun _ => alive_of_agrees hag (hfin c (by rw [e1]; simp))) (i0 := 0) rfl hf hi hthin

/-- Started within the prior bounds, with errors that are not 0 or a positive standard deviation, the chain has a finite log-density at all times. -/
theorem car1_run_finite (hn : 2 ≤ n) (ht : StrictMono t) (he : at0 init 0 ≠ 0 ∨ ∀ i, e i ≠ 0) {s s' : Samp Car1 4}
    (hs : car1Sampler srt burnin (List.ofFn t) (List.ofFn y) (List.ofFn e) r = .ok s) (hl : init.length = 4)
    {dmin span : ℝ} (h1 : IsMinGap t dmin) (h2 : IsSpan t span) (hb : Car1Bounds (10 * √(popVariance y)) (1 / dmin) (1 / span) init)
    (h : s.run fuel N burnin thin init = .ok s') :
    ∃ u, RunState fuel s init (burnin + thin * N) u ∧ ∀ c ∈ u.chains, c.logpost.isFin := by
  have hv := popVar_eq (show 0 < n by omega) y
  obtain ⟨o, b, dmin', span', g1, g1', g2, g3, g4, g5, g6, g7, g8⟩ := run_solid1 srt hn ht y e (10 * √(popVariance y))
  obtain rfl := h1.unique g4
  obtain rfl := h2.unique g5
  have hB := car1Sampler_inv hs
  have hT := solid1_target (show 0 < n by omega) ht g3 (fmax := 1 / dmin) (fmin := 1 / span) g7 g8
  rw [show ({ o with b := b } : Car1).b.maxStdev = 10 * √(popVariance y) from g6] at hT
  obtain ⟨s0, s1, init', k1, ⟨st, c0, -, f2, f3⟩, k3, -, ⟨u, k4, -⟩, -⟩ := run_spec h
  obtain ⟨var, o', b', c1, m1, m2, m3, m4, ⟨o1, θ1, r1, m5, m6⟩, hm⟩ := car1_sound hB k1 k3
  cases hv.symm.trans m1
  cases g1.symm.trans m2
  cases g2.symm.trans m3
  refine ⟨u, ⟨s0, s1, init', k1.sameState, ?_, k3, sweeps_of_iterate k4⟩, ?_⟩
  · rw [f3]; split
    · exact Or.inr rfl
    · exact Or.inl rfl
  have hinit : init' = some init := by
    obtain ⟨var, o2, b2, -, -, -, hch⟩ := hB.chain
    have : c0.value.length = 4 := by
      have := List.mem_of_getElem? f2
      rw [hch, List.mem_singleton] at this
      rw [this]; simp [Par.new]
    rw [f3, if_pos (by rw [this, hl])]
  rw [hinit] at m5
  obtain ⟨x, hx⟩ := list_ofFn_of_length hl
  obtain ⟨o2, v, n1, -, n2⟩ := hT.ld _ x g3.core
  have hx0 : car1Target t y e (10 * √(popVariance y)) (1 / dmin) (1 / span) x ≠ none := by
    unfold car1Target
    rw [if_pos ⟨by rw [← hx]; exact hb, by rw [hx, at0_ofFn x (k := 0) (by omega)] at he; exact he⟩]
    simp
  cases hg : car1Target t y e (10 * √(popVariance y)) (1 / dmin) (1 / span) x with
  | none => exact absurd hg hx0
  | some l =>
    rw [hg] at n2
    obtain rfl : v = .fin l := n2
    rw [← hx] at n1
    obtain ⟨o3, n3⟩ := Car1.setStart_exact g3.core hl n1 r
    have hθ : θ1 = init := by
      have m5' : Car1.setStart { o with b := b } init r = .ok (o1, θ1, r1) := m5
      cases m5'.symm.trans n3
      rfl
    obtain ⟨-, c2, q1, -, q3, -⟩ := hm 0 s1 rfl
    obtain rfl : c1 = c2 := by
      rw [m4] at q1
      injection q1
    rw [m6, hθ] at q3
    have n1' : logDensity ({ o with b := b } : Car1) init = .ok (o2, .fin l) := n1
    rw [n1'] at q3
    have hfin : c1.logpost.isFin := by
      injection q3 with q3
      rw [← q3]; exact trivial
    obtain ⟨-, c, e1, -, -, -, e5, -⟩ := hm _ u k4
    intro c' hc'
    rw [e1, List.mem_singleton] at hc'
    rw [hc']; exact e5 hfin

example (srt : List ℝ → List ℕ) (k : ℕ) : ∃ (s u : Samp Car1 4) (m : ℝ),
    car1Sampler srt k (List.ofFn exT) (List.ofFn exY) (List.ofFn fun _ : Fin 3 => (1 : ℝ)) exRng = .ok s ∧
    RunState 0 s [1, 1, 0, -1] k u ∧
    ∀ᵐ w ∂(drawsOf (ProbabilityTheory.gaussianReal 0 1)).prod (drawsOf unifLaw),
      AveragesTo 1 (reseed u w) (Set.indicator {x : Fin 4 → ℝ | 0 < x 2} fun _ => 1) m := by
  obtain ⟨c, h⟩ := C46_car1_run_returns srt (by norm_num) exT_mono exY (fun _ => 1) ⟨0, 1, by simp [exY]⟩ 0 0 k 1 rfl ex_gap.1 ex_gap.2
    ex_car1_run_bounds (Or.inl (by simp [at0])) (r := exRng) (fun k => ⟨0, by norm_num, by simp [exRng]⟩)
  obtain ⟨s, h1, h⟩ := bind_ok_inv h
  obtain ⟨s', h2, h⟩ := bind_ok_inv h
  obtain ⟨u, h3, h4⟩ := car1_run_finite (by norm_num) exT_mono (Or.inr fun _ => one_ne_zero) h1 rfl ex_gap.1 ex_gap.2 ex_car1_run_bounds h2
  have hm : Measurable (Set.indicator {x : Fin 4 → ℝ | 0 < x 2} fun _ => (1 : ℝ)) :=
    measurable_const.indicator (measurableSet_lt measurable_const (measurable_pi_apply _))
  have e : k + 1 * 0 = k := by ring
  rw [e] at h3
  exact ⟨s, u, _, h1, h3, C69_car1 le_rfl exT_mono (apart_of_ne fun _ => one_ne_zero) ⟨0, 1, by simp [exY]⟩ h1 le_rfl h3 h4
    ex_gap.1 ex_gap.2 one_pos _ gauss_draws.1 gauss_draws.2.1 gauss_draws.2.2 hm (hasMean_bounded (car1_meas _ _ _ _ _ _)
      (car1_proper le_rfl exT_mono (apart_of_ne fun _ => one_ne_zero) ⟨0, 1, by simp [exY]⟩ ex_gap.1 ex_gap.2 (by norm_num)) hm
      (C := 1) fun x => by by_cases hx : x ∈ {x : Fin 4 → ℝ | 0 < x 2} <;> simp [Set.indicator, hx])⟩

end Verif.Props
