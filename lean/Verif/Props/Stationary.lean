import Verif.Theory.PostTarget
import Verif.Theory.KeepsLaw
import Verif.Props.Run
import Mathlib.Probability.Distributions.Gaussian.Real

/-!
C67: after the burn-in the samplers leave the tempered posterior densities unchanged.
-/

namespace Verif.Props

open Verif.Model Verif.Spec Verif.Theory MeasureTheory

variable {fuel : ℕ} {srt : List ℝ → List ℕ} {N burnin thin : ℕ} {init : List ℝ} {r : Rng} {p q nw n : ℕ} {z : Bool} {t y e : Fin n → ℝ}

open scoped Classical in
/-- **C67, CARp, CARMA, ZCAR.** For strictly increasing times, `p ≥ 2` and `q < p`: at any state of a run of `RunCarmaSampler` after the
burn-in, all further sweeps leave unchanged the joint law in which the chains are independent, chain `i` with the posterior density to the
power `1/T i`, `T i = 100 ^ (i / (nw - 1))` (100 for one walker), and the random numbers to come are independent, the uniform ones from
[0,1), the proposal draws from any law symmetric about 0. The log-densities stored by the sampler are those of that posterior. -/
theorem C67_carma (hn : 2 ≤ n) (ht : StrictMono t) (hp : 2 ≤ p) (hq : z = true ∨ q < p) {s : Samp (CarP p) (nParams p q z)}
    (hs : carmaSampler srt N burnin (List.ofFn t) (List.ofFn y) (List.ofFn e) p q nw z thin r = .ok s) {k : ℕ} (hk : burnin ≤ k)
    {u : Samp (CarP p) (nParams p q z)} (h : RunState fuel s init k u) {dmin span : ℝ} (h1 : IsMinGap t dmin) (h2 : IsSpan t span)
    (ν : Measure ℝ) [IsProbabilityMeasure ν] (hν : ν.map (fun x => -x) = ν) :
    let G := carmaTarget (runKind q z) p t y e (10 * √(popVariance y)) (1 / dmin) (1 / span) 1 1
    let T : Fin nw → ℝ := fun i => if nw = 1 then 100 else (100 : ℝ) ^ ((i : ℝ) / ((nw : ℝ) - 1))
    KeepsLaw G T ν u ∧ ∃ x, Shows (N := nw) G u x := by
  have hv := popVar_eq (show 0 < n by omega) y
  obtain ⟨o, b, dmin', span', g1, g2, g3, g4, g5, g6, g7, g8⟩ := run_solid (q := q) srt hn ht y e hp z hq (10 * √(popVariance y))
  obtain rfl := h1.unique g4
  obtain rfl := h2.unique g5
  have hB := carmaSampler_inv hs
  have hkind : ({ o with b := b } : CarP p).kind = runKind q z := (new_config g1).1
  have hkap : KappaOk ({ o with b := b } : CarP p) 1 1 := by
    intro hk
    rw [hkind] at hk
    unfold runKind at hk
    split at hk
    · cases hk
    · split at hk <;> cases hk
  have hT : HasTarget (CarP p) (CarP.Core { o with b := b })
      (carmaTarget (m := nParams p q z) (runKind q z) p t y e (10 * √(popVariance y)) (1 / dmin) (1 / span) 1 1) := by
    rw [← hkind, ← g6]
    exact solid_target hp (show 0 < n by omega) ht g3 one_pos le_rfl hkap g7 g8 (by rw [hkind, npar_runKind])
  obtain ⟨hlen, -, hch⟩ := carma_chains hs h
  obtain ⟨s0, s1, init', k1, -, k3, k4⟩ := h
  obtain ⟨⟨var, o', b', c1, c2, c3, hc⟩, -⟩ := carma_sound hB (SampRec.of_same k1) k3 (iterate_of_sweeps k4)
  cases hv.symm.trans c1
  cases g1.symm.trans c2
  cases g2.symm.trans c3
  have hsteps : s1.steps = s.steps := (startLoop_steps k3).trans k1.steps
  obtain ⟨var', a, d1, d2, d3⟩ := hB.steps
  have hpos := hB.pos
  have hfr := steps_frozen (M := nw) k4 hk (fun st hst => by
      rw [hsteps, d3] at hst
      have hk : stepKind st ∈ stepOrder (nw - 1) := by
        rw [← tempered_kind (a := a) (report := (burnin + thin * N : ℤ))]
        exact List.mem_map_of_mem hst
      rcases tempered_fresh hst with ⟨i, rfl⟩ | ⟨i, rfl⟩
      · have := (stepOrder_le _ hk).1
        exact (show i < nw by omega)
      · have := stepOrder_le _ hk
        exact ⟨this.2 rfl, by have h0 : i ≤ nw - 1 := this.1; show i < nw; omega⟩) (fun i a' ha' => by
      rw [hsteps, d3] at ha'
      rcases tempered_fresh ha' with ⟨i', he⟩ | ⟨i', he⟩
      · injection he with _ he
        rw [he]; exact ram_new_fresh d2
      · cases he)
  have hTe : ∀ i : ℕ, temperature nw i = if nw = 1 then 100 else (100 : ℝ) ^ ((i : ℝ) / ((nw : ℝ) - 1)) := by
    intro i
    by_cases h1 : nw = 1
    · rw [if_pos h1, temperature, if_pos h1, Real.exp_log (by norm_num)]
    · rw [if_neg h1, temperature_rpow (by omega)]
  refine ⟨keeps_law hT (carma_meas _ _ _ _ _ _ _ _ _ _) (fun i => by rw [← hTe i]; exact temp_pos _ _)
    (fun c hcm => (hc c hcm).core) (fun i c hcm => by rw [(hch i c hcm).1, hTe]) hfr.1 hfr.2 ν hν, ?_⟩
  have hval : ∀ i : Fin nw, ∃ x : Fin (nParams p q z) → ℝ, ∀ c, u.chains[(i : ℕ)]? = some c → c.value = List.ofFn x := by
    intro i
    have hi : u.chains[(i : ℕ)]? = some (u.chains[(i : ℕ)]'(by rw [hlen]; exact i.2)) := List.getElem?_eq_getElem _
    obtain ⟨x, hx⟩ := list_ofFn_of_length (hc _ (List.mem_of_getElem? hi)).len
    refine ⟨x, fun c hcm => ?_⟩
    rw [hi] at hcm
    injection hcm with hcm
    rw [← hcm]; exact hx
  choose x hx using hval
  refine ⟨(x, u.rng.stud, u.rng.unif), hlen, fun i c hcm => hx i c hcm, fun i c hcm => ?_, rfl, rfl⟩
  have := (hc c (List.mem_of_getElem? hcm)).valued
  rw [hx i c hcm] at this
  exact agrees_of_valued hT g3.core this

/-- The hypotheses are met: a CAR(2) run with two walkers, normal proposal draws. -/
example (srt : List ℝ → List ℕ) (k : ℕ) : ∃ s u, carmaSampler srt 0 k (List.ofFn exT) (List.ofFn exY) (List.ofFn exT) 2 0 2 false 1 exRng = .ok s ∧
    RunState 0 s exθ k u ∧ IsMinGap exT 1 ∧ IsSpan exT 10 ∧ (ProbabilityTheory.gaussianReal 0 1).map (fun x => -x) = ProbabilityTheory.gaussianReal 0 1 := by
  obtain ⟨s, u, h1, h2⟩ := ex_carma_state srt k
  exact ⟨s, u, h1, h2, ex_gap.1, ex_gap.2, by simpa using ProbabilityTheory.gaussianReal_map_neg (μ := 0) (v := 1)⟩

open scoped Classical in
/-- **C67, CAR(1).** The same for `RunCar1Sampler`: after the burn-in the posterior density is left unchanged. -/
theorem C67_car1 (hn : 2 ≤ n) (ht : StrictMono t) {s : Samp Car1 4}
    (hs : car1Sampler srt burnin (List.ofFn t) (List.ofFn y) (List.ofFn e) r = .ok s) {k : ℕ} (hk : burnin ≤ k)
    {u : Samp Car1 4} (h : RunState fuel s init k u) {dmin span : ℝ} (h1 : IsMinGap t dmin) (h2 : IsSpan t span)
    (ν : Measure ℝ) [IsProbabilityMeasure ν] (hν : ν.map (fun x => -x) = ν) :
    let G := car1Target t y e (10 * √(popVariance y)) (1 / dmin) (1 / span)
    KeepsLaw G (fun _ : Fin 1 => 1) ν u ∧ ∃ x, Shows (N := 1) G u x := by
  have hv := popVar_eq (show 0 < n by omega) y
  obtain ⟨o, b, dmin', span', g1, g1', g2, g3, g4, g5, g6, g7, g8⟩ := run_solid1 srt hn ht y e (10 * √(popVariance y))
  obtain rfl := h1.unique g4
  obtain rfl := h2.unique g5
  have hB := car1Sampler_inv hs
  have hT := solid1_target (show 0 < n by omega) ht g3 (fmax := 1 / dmin) (fmin := 1 / span) g7 g8
  rw [show ({ o with b := b } : Car1).b.maxStdev = 10 * √(popVariance y) from g6] at hT
  obtain ⟨s0, s1, init', k1, -, k3, k4⟩ := h
  obtain ⟨var, o', b', c1, m1, m2, m3, m4, -, hm⟩ := car1_sound hB (SampRec.of_same k1) k3
  cases hv.symm.trans m1
  cases g1.symm.trans m2
  cases g2.symm.trans m3
  obtain ⟨-, c, e1, e2, e3, e4, -, -, e7, -⟩ := hm k u (iterate_of_sweeps k4)
  have hsteps : s1.steps = s.steps := (startLoop_steps k3).trans k1.steps
  obtain ⟨var', a, d1, d2, d3⟩ := hB.steps
  have hfr := steps_frozen (M := 1) k4 hk (fun st hst => by
      rw [hsteps, d3, List.mem_singleton] at hst
      rw [hst]; exact (show 0 < 1 by norm_num)) (fun i a' ha' => by
      rw [hsteps, d3, List.mem_singleton] at ha'
      injection ha' with _ he
      rw [he]; exact ram_new_fresh d2)
  have hget : ∀ (i : Fin 1) c', u.chains[(i : ℕ)]? = some c' → c' = c := by
    intro i c' hc'
    obtain rfl := Subsingleton.elim i 0
    rw [e1] at hc'
    injection hc' with hc'
    exact hc'.symm
  refine ⟨keeps_law hT (car1_meas _ _ _ _ _ _) (fun _ => one_pos)
    (fun c' hcm => by rw [e1, List.mem_singleton] at hcm; rw [hcm]; exact e2) (fun i c' hcm => by rw [hget i c' hcm, e7]) hfr.1 hfr.2 ν hν, ?_⟩
  obtain ⟨x, hx⟩ := list_ofFn_of_length e4
  refine ⟨(fun _ => x, u.rng.stud, u.rng.unif), by rw [e1]; rfl, fun i c' hcm => by rw [hget i c' hcm]; exact hx, fun i c' hcm => ?_, rfl, rfl⟩
  rw [hget i c' hcm]
  rw [hx] at e3
  exact agrees_of_valued hT g3.core e3

example (srt : List ℝ → List ℕ) (k : ℕ) : ∃ s u, car1Sampler srt k (List.ofFn exT) (List.ofFn exY) (List.ofFn exT) exRng = .ok s ∧
    RunState 0 s [1, 1, 0, -1] k u := by
  obtain ⟨s, u, h1, h2⟩ := ex_car1_state srt k
  exact ⟨s, u, h1, h2⟩

end Verif.Props
