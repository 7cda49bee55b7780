import Verif.Props.RunLaw

/-!
C83 for CAR(1): strong law for a whole run, and the runs that never move.
-/

namespace Verif.Props

open Verif.Model Verif.Spec Verif.Theory MeasureTheory ProbabilityTheory Filter
open scoped Topology

variable {n : ℕ} {t : Fin n → ℝ}

/-- Starting value of CAR(1) for median gap `med`, computed from the first two chi-squared draws, the first normal and the first uniform draw. -/
noncomputable def car1T (b : CarBase) (med fmax c0 c1 g u : ℝ) : Fin 4 → ℝ :=
  ![√(armaVar b.y / c0 * ((b.y.length - 1 : ℕ) : ℝ)), max (min (1 / c1 * ((50 : ℕ) : ℝ)) 1.99) 0.51,
    armaMean b.y + √(armaVar b.y / c0 * ((b.y.length - 1 : ℕ) : ℝ)) / b.y.length * g, min (-1 * Real.log (med * (1 + (50 - 1) * u))) fmax]

lemma car1T_measurable (b : CarBase) (med fmax : ℝ) : Measurable fun x : ℝ × ℝ × ℝ × ℝ => car1T b med fmax x.1 x.2.1 x.2.2.1 x.2.2.2 := by
  refine measurable_pi_lambda _ fun i => ?_
  unfold car1T
  fin_cases i
  · exact (((measurable_const.div measurable_fst).mul_const _).sqrt)
  · exact (((measurable_const.div measurable_snd.fst).mul_const _).min measurable_const).max measurable_const
  · exact measurable_const.add ((((measurable_const.div measurable_fst).mul_const _).sqrt.div_const _).mul measurable_snd.snd.fst)
  · exact (measurable_const.mul ((measurable_const.mul (measurable_const.add (measurable_const.mul measurable_snd.snd.snd))).log)).min measurable_const

/-- The draws left after the starting value. -/
lemma start1_T {a a' : Car1} {r r' : Rng} {θ dt : List ℝ} {med fmax : ℝ} (h1 : diffs a.b.time = .ok dt) (h2 : armaMedian dt = .ok med) (h3 : a.b.maxFreq = .fin fmax)
    (h : a.start r = .ok (a', θ, r')) :
    θ = List.ofFn (car1T a.b med fmax (r.chi2 0) (r.chi2 1) (r.norm 0) (r.unif 0)) ∧ r'.stud = r.stud ∧ r'.unif = Rng.skip 1 r.unif := by
  unfold Car1.start at h
  simp only [h1, h2, h3, res_bind_ok] at h
  obtain ⟨v, e1, h⟩ := bind_ok_inv h
  obtain ⟨sd, e2, h⟩ := bind_ok_inv h
  obtain ⟨l, e3, h⟩ := bind_ok_inv h
  obtain ⟨lo, e4, h⟩ := bind_ok_inv h
  obtain ⟨⟨scale, r2⟩, e5, h⟩ := bind_ok_inv h
  obtain ⟨kf, e6, h⟩ := bind_ok_inv h
  injection h with h
  injection h with _ h
  injection h with h7 h8
  unfold scaledInvChi2 at e1
  obtain ⟨w, f1, e1⟩ := bind_ok_inv e1
  injection e1 with e1
  obtain ⟨-, rfl⟩ := dv_inv f1
  unfold startScale at e5
  obtain ⟨m, f2, e5⟩ := bind_ok_inv e5
  injection e5 with e5
  injection e5 with e5 e5'
  unfold scaledInvChi2 at f2
  obtain ⟨w', f3, f2⟩ := bind_ok_inv f2
  injection f2 with f2
  obtain ⟨-, rfl⟩ := dv_inv f3
  have hsd := sqrtR_inv e2
  have hl := logR_inv e3
  have hlo : lo = min (-1 * l) fmax := by
    rw [dbl_min_fin] at e4
    injection e4 with e4
    exact e4.symm
  subst hsd hl hlo e1 e5 f2
  rw [← h7, ← h8, ← e5']
  exact ⟨by simp [car1T, Rng.nextC, Rng.nextN, Rng.nextU, List.ofFn_succ, Rng.skip], rfl, rfl⟩

/-- State of the map of the run after the starting value: the initial vector if it is usable, else a drawn one. -/
noncomputable def startZ1 (G : LogTarget 4) (b : CarBase) (med fmax : ℝ) (r : Rng) (init : List ℝ) (L : Fin 4 → Fin 4 → ℝ) : RunZ 1 4 :=
  open scoped Classical in
  if init.length = 4 ∧ (G (vec 4 init)).isSome = true then ((fun _ => vec 4 init, fun _ => L, fun _ => 0), r.stud, r.unif)
  else ((fun _ => car1T b med fmax (r.chi2 0) (r.chi2 1) (r.norm 0) (r.unif 0), fun _ => L, fun _ => 0), r.stud, Rng.skip 1 r.unif)

lemma startCall1_T {G : LogTarget 4} {s0 a a' : Car1} (hT : HasTarget Car1 (Car1.Core s0) G) (ha : Car1.Core s0 a) {fuel : ℕ} {init θ : List ℝ} {r r' : Rng} {dt : List ℝ} {med fmax : ℝ}
    (h1 : diffs s0.b.time = .ok dt) (h2 : armaMedian dt = .ok med) (h3 : s0.b.maxFreq = .fin fmax) (L : Fin 4 → Fin 4 → ℝ)
    (h : startCall fuel (if init.length = 4 then some init else none) a r = .ok (a', θ, r')) :
    θ = List.ofFn ((startZ1 G s0.b med fmax r init L).1.1 0) ∧ r'.stud = (startZ1 G s0.b med fmax r init L).2.1 ∧ r'.unif = (startZ1 G s0.b med fmax r init L).2.2 ∧
      (startZ1 G s0.b med fmax r init L).1.2 = (fun _ => L, fun _ => 0) := by
  unfold startZ1
  by_cases hl : init.length = 4
  · rw [if_pos hl] at h
    have h : Car1.setStart a init r = .ok (a', θ, r') := h
    obtain ⟨o', v, q1, q2, q3⟩ := hT.ld a (vec 4 init) ha
    rw [ofFn_vec hl] at q1
    have q1 : logDensity a init = .ok (o', v) := q1
    by_cases hs : (G (vec 4 init)).isSome = true
    · rw [if_pos ⟨hl, hs⟩]
      rw [agrees_some q3 hs] at q1
      obtain ⟨s2, k⟩ := Car1.setStart_exact (Car1.cored.left (Car1.cored.symm _ _ ha)) hl q1 r
      rw [k] at h
      injection h with h
      injection h with e1 h
      injection h with e2 e3
      rw [← e2, ← e3]
      exact ⟨(ofFn_vec hl).symm, rfl, rfl, rfl⟩
    · rw [if_neg (fun hh => hs hh.2)]
      have hf : ¬ v.isFin := mt (agrees_fin q3).mp hs
      unfold Car1.setStart at h
      simp only [hl, ne_eq, not_true, if_false, q1, res_bind_ok, hf, not_false_eq_true, if_true] at h
      have hb : o'.b = s0.b := q2.1.symm
      obtain ⟨k1, k2, k3⟩ := start1_T (a := o') (by rw [hb]; exact h1) h2 (by rw [hb]; exact h3) h
      rw [hb] at k1
      exact ⟨k1, k2, k3, rfl⟩
  · rw [if_neg hl] at h
    rw [if_neg (fun hh => hl hh.1)]
    have h : Car1.start a r = .ok (a', θ, r') := h
    have hb : a.b = s0.b := ha.1.symm
    obtain ⟨k1, k2, k3⟩ := start1_T (a := a) (by rw [hb]; exact h1) h2 (by rw [hb]; exact h3) h
    rw [hb] at k1
    exact ⟨k1, k2, k3, rfl⟩

variable {srt : List ℝ → List ℕ} {N burnin thin fuel : ℕ} {y e : Fin n → ℝ} {r : Rng} {init : List ℝ}

/-- After the starting value the sampler stands at `startZ1`. -/
lemma stand_start1 {s s0 s1 : Samp Car1 4}
    (hs : car1Sampler srt burnin (List.ofFn t) (List.ofFn y) (List.ofFn e) r = .ok s) {o : Car1} {b : CarBase} {var : ℝ}
    (hv : popVar (List.ofFn y) = .ok var) (ho : Car1.new srt (List.ofFn t) (List.ofFn y) (List.ofFn e) = .ok o)
    (hb : o.b.setPrior (10 * √var) = .ok b) {G : LogTarget 4} (hcore : Car1.Core { o with b := b } { o with b := b })
    (hT : HasTarget Car1 (Car1.Core { o with b := b }) G) {dt : List ℝ} {med fmax : ℝ}
    (h1 : diffs b.time = .ok dt) (h2 : armaMedian dt = .ok med) (h3 : b.maxFreq = .fin fmax)
    {a : Ram 4} (ha : Ram.new (propCovar 4 var (List.ofFn y).length) 0.25 burnin = .ok a)
    (h0 : SampRec s s0) (hl : s0.startLoop fuel (if init.length = 4 then some init else none) s0.steps.length = .ok s1) :
    Stand (Car1.Core { o with b := b }) G (fun _ : Fin 1 => (1 : ℝ)) burnin (stepOrder (1 - 1)) 0 0 s1 (startZ1 G b med fmax r init fun i j => a.chol i j) := by
  have hB := car1Sampler_inv hs
  obtain ⟨var', a', d1, d2, d3⟩ := hB.steps
  cases hv.symm.trans d1
  cases ha.symm.trans d2
  obtain ⟨var', o', b', c1, m1, m2, m3, m4, -, hm⟩ := car1_sound hB h0 hl
  cases hv.symm.trans m1
  cases ho.symm.trans m2
  cases hb.symm.trans m3
  obtain ⟨-, c, e1, e2, e3, -, -, -, e7, -⟩ := hm 0 s1 rfl
  have hst0 : s0.steps = [.ram 0 a] := by rw [← h0.steps]; exact d3
  have hc0 : ∃ c0, s0.chains = [c0] ∧ c0.obj = { o with b := b } := by
    obtain ⟨var', o', b', q1, q2, q3, q4⟩ := hB.chain
    cases hv.symm.trans q1
    cases ho.symm.trans q2
    cases hb.symm.trans q3
    have hlen : s0.chains.length = 1 := by rw [← h0.chains.length_eq, q4]; rfl
    obtain ⟨c0, hc0⟩ := List.length_eq_one_iff.mp hlen
    obtain ⟨c', g1, x, y, g2⟩ := h0.symm.get (i := 0) (by rw [hc0]; rfl)
    rw [q4] at g1
    injection g1 with g1
    rw [g2] at g1
    exact ⟨c0, hc0, (congrArg Par.obj g1).symm⟩
  obtain ⟨c0, hc0, hobj⟩ := hc0
  have hl1 := hl
  rw [hst0] at hl1
  obtain ⟨u, g1, g2⟩ := bind_ok_inv (show s0.startLoop fuel _ 0 >>= _ = _ from hl1)
  cases g1
  obtain ⟨st, p, o2, θ, r', o3, lp, b1, b2, b3, b4, rfl⟩ := startOne_inv g2
  rw [hst0] at b1
  injection b1 with b1
  subst b1
  rw [hc0] at b2
  injection b2 with b2
  subst b2
  rw [hobj, ← h0.rng, hB.rng] at b3
  obtain ⟨k1, k2, k3, k4⟩ := startCall1_T hT hcore h1 h2 h3 (fun i j => a.chol i j) b3
  have hval : c.value = θ := by
    have : (s0.chains.set 0 { c0 with obj := o3, value := θ, logpost := lp }) = [c] := e1
    rw [hc0] at this
    injection this with this
    rw [← this]
  refine ⟨by rw [e1]; rfl, fun i c' hi => ?_, k2, k3, by show s0.steps.map stepKind = _; rw [hst0]; rfl, fun j i a' hj => ?_⟩
  · obtain rfl := Subsingleton.elim i 0
    rw [e1] at hi
    injection hi with hi
    subst hi
    have hv2 : c.value = List.ofFn ((startZ1 G b med fmax r init fun i j => a.chol i j).1.1 0) := hval.trans k1
    rw [hv2] at e3
    exact ⟨e2, e7, hv2, agrees_of_valued hT hcore e3⟩
  · have hj : s0.steps[j]? = some (.ram i a') := hj
    rw [hst0] at hj
    have := List.mem_of_getElem? hj
    rw [List.mem_singleton] at this
    injection this with _ this
    obtain ⟨g1, g2, g3, g4⟩ := ram_new_gamma ha
    rw [this]
    refine ⟨?_, g1, g2, g4, by simp [g3]⟩
    have e := congrArg (fun x => x.1 i) k4
    rw [show (startZ1 G b med fmax r init fun i j => a.chol i j).1.2.1 i = fun i j => a.chol i j from e]
    rfl

/-- What a call of the CAR(1) sampler does. -/
lemma call_spec1 {c : Par Car1} {o : Car1} {b : CarBase} {var : ℝ}
    (hv : popVar (List.ofFn y) = .ok var) (ho : Car1.new srt (List.ofFn t) (List.ofFn y) (List.ofFn e) = .ok o)
    (hb : o.b.setPrior (10 * √var) = .ok b) {G : LogTarget 4} (hcore : Car1.Core { o with b := b } { o with b := b })
    (hT : HasTarget Car1 (Car1.Core { o with b := b }) G) {dt : List ℝ} {med fmax : ℝ}
    (h1 : diffs b.time = .ok dt) (h2 : armaMedian dt = .ok med) (h3 : b.maxFreq = .fin fmax)
    {a : Ram 4} (ha : Ram.new (propCovar 4 var (List.ofFn y).length) 0.25 burnin = .ok a)
    (hc : runCar1Sampler fuel srt N burnin (List.ofFn t) (List.ofFn y) (List.ofFn e) thin init r = .ok c) :
    c.samples = ((List.range N).map fun k => List.ofFn ((runX G (fun _ : Fin 1 => (1 : ℝ)) burnin (stepOrder (1 - 1)) (burnin + thin * (k + 1))
        (startZ1 G b med fmax r init fun i j => a.chol i j)).1.1 0)) ∧ c.logposts.length = N ∧
      ∃ (s1 u : Samp Car1 4), s1.iterate (burnin + thin * N) = .ok u ∧ (∀ i a', .ram i a' ∈ s1.steps → a' = a) ∧
        Stand (Car1.Core { o with b := b }) G (fun _ : Fin 1 => (1 : ℝ)) burnin (stepOrder (1 - 1)) (burnin + thin * N) 0 u
          (runX G (fun _ : Fin 1 => (1 : ℝ)) burnin (stepOrder (1 - 1)) (burnin + thin * N) (startZ1 G b med fmax r init fun i j => a.chol i j)) ∧
        ((G ((startZ1 G b med fmax r init fun i j => a.chol i j).1.1 0)).isSome = true → ∀ c ∈ u.chains, c.logpost.isFin) ∧
        (G ((startZ1 G b med fmax r init fun i j => a.chol i j).1.1 0) = none → ∀ k < N,
          c.samples[k]? = some (List.ofFn ((startZ1 G b med fmax r init fun i j => a.chol i j).1.1 0)) ∧ ∃ v, c.logposts[k]? = some v ∧ ¬ v.isFin) := by
  unfold runCar1Sampler at hc
  obtain ⟨s, m1, hc⟩ := bind_ok_inv hc
  obtain ⟨s', m2, hc⟩ := bind_ok_inv hc
  have m3 := rdU_inv hc
  have hB := car1Sampler_inv m1
  obtain ⟨s0, s1, init', k1, ⟨st, c0, -, f2, f3⟩, k3, -, ⟨u, k4, k5⟩, k6⟩ := run_spec m2
  have hlen1 : s.chains.length = 1 := by obtain ⟨_, _, _, -, -, -, hch⟩ := hB.chain; rw [hch]; rfl
  have hlen0 : c0.value.length = 4 := by
    obtain ⟨_, _, _, -, -, -, hch⟩ := hB.chain
    have := List.mem_of_getElem? f2
    rw [hch, List.mem_singleton] at this
    rw [this]; simp [Par.new]
  rw [hlen0] at f3
  rw [f3] at k3
  have hS0 := stand_start1 m1 hv ho hb hcore hT h1 h2 h3 ha k1 k3
  have hSw := fun {k : ℕ} {u : Samp Car1 4} (hu : s1.iterate k = .ok u) =>
    stand_sweeps hT (T := fun _ : Fin 1 => (1 : ℝ)) (fun i => one_pos) (stepOrder_nodup (1 - 1)) (stepOrder_range one_pos) hS0 hu
  obtain ⟨var', o', b', c1, n1, n2, n3, n4, -, hm⟩ := car1_sound hB k1 k3
  have hval1 : c1.value = List.ofFn ((startZ1 G b med fmax r init fun i j => a.chol i j).1.1 0) ∧
      Agrees c1.logpost (G ((startZ1 G b med fmax r init fun i j => a.chol i j).1.1 0)) := (hS0.chain 0 c1 (by rw [n4]; rfl)).2.2
  obtain ⟨p', l1, l2, l2', l3⟩ := k6 "CAR(1)" 0 (by rw [hB.tracked]; simp) (by rw [hlen1]; exact one_pos)
  obtain rfl : p' = c := by rw [m3] at l1; injection l1 with l1; exact l1.symm
  refine ⟨?_, l2', s1, u, k4, ?_, hSw k4, fun hal c hc => ?_, fun hdead k hk => ?_⟩
  · refine List.ext_getElem? fun k => ?_
    by_cases hk : k < N
    · obtain ⟨u', c', n1, n2, n3, -⟩ := l3 k hk
      rw [n3, ((hSw n1).chain 0 c' n2).2.2.1]
      simp [hk]
    · rw [List.getElem?_eq_none (by omega), List.getElem?_eq_none (by simp; omega)]
  · intro i a' ha'
    obtain ⟨var', a'', d1, d2, d3⟩ := hB.steps
    cases hv.symm.trans d1
    cases ha.symm.trans d2
    rw [startLoop_steps k3, ← k1.steps, d3, List.mem_singleton] at ha'
    injection ha'
  · obtain ⟨-, c', q1, -, -, -, q5, -⟩ := hm _ u k4
    rw [q1, List.mem_singleton] at hc
    rw [hc]
    exact q5 ((agrees_fin hval1.2).mpr hal)
  · obtain ⟨u', c', n1, n2, n3, n3'⟩ := l3 k hk
    have hnf : ¬ c1.logpost.isFin := fun hh => by
      have := (agrees_fin hval1.2).mp hh
      rw [hdead] at this
      cases this
    obtain ⟨-, c'', q1, -, -, -, -, q6, -⟩ := hm _ u' n1
    rw [q1] at n2
    injection n2 with n2
    subst n2
    obtain ⟨q7, q8⟩ := q6 hnf
    exact ⟨by rw [n3, q7, hval1.1], _, n3', by rw [q8]; exact hnf⟩

variable {Ω : Type*} [MeasurableSpace Ω] {P : Measure Ω}

/-- The draws used by the starting value. -/
def startIdx : Fin 4 → Stream × ℕ := ![(.chi2, 0), (.chi2, 1), (.norm, 0), (.unif, 0)]

/-- The starting state avoids the exceptional set of the run. -/
lemma start_good1 {G : LogTarget 4} (hG : MeasTarget G) (hprop : IsProper G 1) (burnin : ℕ) {thin : ℕ} (hthin : 0 < thin)
    {R : Ω → Rng} {dof : ℕ → ℕ} (hR : IsDraws P R dof) (b : CarBase) (med fmax : ℝ) (init : List ℝ) (L : Fin 4 → Fin 4 → ℝ) {f : (Fin 4 → ℝ) → ℝ} (hf : Measurable f)
    (hi : HasMean G 1 f) :
    ∀ᵐ ω ∂P, startZ1 G b med fmax (R ω) init L ∉ badRun G (fun _ : Fin 1 => 1) burnin thin 0 f (postMean G 1 f) := by
  have hprob : IsProbabilityMeasure (libLaw (.studentT 8)) := student_prob (by norm_num)
  obtain ⟨s1, s2, s3⟩ := student_facts (n := 8) (by norm_num)
  let B : Set ((Fin 4 → ℝ) × (ℕ → ℝ) × (ℕ → ℝ)) :=
    {w | (((fun _ => w.1), (fun _ => L), fun _ => 0), w.2) ∈ badRun G (fun _ : Fin 1 => 1) burnin thin 0 f (postMean G 1 f)}
  have hBm : MeasurableSet B := by
    have hmap : Measurable fun w : (Fin 4 → ℝ) × (ℕ → ℝ) × (ℕ → ℝ) => ((((fun _ => w.1), (fun _ => L), fun _ => 0), w.2) : RunZ 1 4) :=
      ((measurable_pi_lambda _ fun _ => measurable_fst).prodMk measurable_const).prodMk measurable_snd
    exact hmap (badRun_measurable hG thin 0 hf _)
  have hB0 : ∀ x, rngLaw (libLaw (.studentT 8)) {w | (x, w) ∈ B} = 0 := fun x =>
    badRun_null (T := fun _ : Fin 1 => 1) (B := burnin) hG (fun _ => hprop) s2 s3 s1 one_pos 0 hf hi hthin
      ((fun _ => x), (fun _ => L), fun _ => 0)
  have hH : Measurable fun D : ℕ ⊕ ℕ → ℝ => ((fun k => D (.inl k)), fun k => D (.inr k)) :=
    (measurable_pi_lambda _ fun k => measurable_pi_apply _).prodMk (measurable_pi_lambda _ fun k => measurable_pi_apply _)
  by_cases hc : init.length = 4 ∧ (G (vec 4 init)).isSome = true
  · have hn := groups_null hR.meas hR.indep (fun i : Empty => i.elim) (sweepIdx 0) (by
      rw [Set.disjoint_left]
      rintro _ ⟨i, -⟩
      exact i.elim) (F := fun _ => vec 4 init) measurable_const hH (sweep_law hR 0) hBm hB0
    rw [ae_iff]
    refine measure_mono_null (fun ω hω => ?_) hn
    simp only [not_not, Set.mem_ofPred_eq] at hω
    rw [startZ1, if_pos hc] at hω
    exact hω
  · have hF : Measurable fun D : Fin 4 → ℝ => car1T b med fmax (D 0) (D 1) (D 2) (D 3) :=
      (car1T_measurable b med fmax).comp (g := fun x : ℝ × ℝ × ℝ × ℝ => car1T b med fmax x.1 x.2.1 x.2.2.1 x.2.2.2)
        (f := fun D : Fin 4 → ℝ => (D 0, D 1, D 2, D 3)) ((measurable_pi_apply 0).prodMk ((measurable_pi_apply 1).prodMk ((measurable_pi_apply 2).prodMk (measurable_pi_apply 3))))
    have hn := groups_null hR.meas hR.indep startIdx (sweepIdx 1) (by
      rw [Set.disjoint_left]
      rintro _ ⟨i, rfl⟩ ⟨k, hk⟩
      fin_cases i <;> cases k <;> simp [startIdx, sweepIdx] at hk) hF hH (sweep_law hR 1) hBm hB0
    rw [ae_iff]
    refine measure_mono_null (fun ω hω => ?_) hn
    simp only [not_not, Set.mem_ofPred_eq] at hω
    rw [startZ1, if_neg hc] at hω
    exact hω

/-- The objects built by a call. -/
lemma call_built1 (srt : List ℝ → List ℕ) (hn : 2 ≤ n) (ht : StrictMono t) (y e : Fin n → ℝ) (hy : ∃ i j, y i ≠ y j)
    (burnin : ℕ) {dmin span : ℝ} (h1 : IsMinGap t dmin) (h2 : IsSpan t span) :
    ∃ (o : Car1) (b : CarBase) (dt : List ℝ) (med : ℝ) (a : Ram 4), popVar (List.ofFn y) = .ok (popVariance y) ∧
      Car1.new srt (List.ofFn t) (List.ofFn y) (List.ofFn e) = .ok o ∧ o.b.setPrior (10 * √(popVariance y)) = .ok b ∧
      Car1.Core { o with b := b } { o with b := b } ∧
      HasTarget Car1 (Car1.Core { o with b := b }) (car1Target t y e (10 * √(popVariance y)) (1 / dmin) (1 / span)) ∧
      diffs b.time = .ok dt ∧ armaMedian dt = .ok med ∧ b.maxFreq = .fin (1 / dmin) ∧ b.y = List.ofFn y ∧
      Ram.new (propCovar 4 (popVariance y) (List.ofFn y).length) 0.25 burnin = .ok a := by
  have hv := popVar_eq (show 0 < n by omega) y
  have h0 := popVar_pos (show 0 < n by omega) hy
  obtain ⟨o, b, dmin', span', g1, g1', g2, g3, g4, g5, g6, g7, g8⟩ := run_solid1 srt hn ht y e (10 * √(popVariance y))
  obtain rfl := h1.unique g4
  obtain rfl := h2.unique g5
  have hT := solid1_target (show 0 < n by omega) ht g3 (fmax := 1 / dmin) (fmin := 1 / span) g7 g8
  rw [show ({ o with b := b } : Car1).b.maxStdev = 10 * √(popVariance y) from g6] at hT
  have htime : b.time = List.ofFn t := by
    rw [setPrior_again g1'] at g2
    injection g2 with g2
    rw [← g2]
    exact (new_time g1' : o.b.time = _)
  have hlen : 0 < (List.ofFn y).length := by simp; omega
  obtain ⟨a, ha, -⟩ := ramNew_total (d := 4) h0 hlen burnin
  obtain ⟨med, hm, -⟩ := armaMedian_ge (l := (List.range (n-1)).map fun i => ext0 t (i+1) - ext0 t i) (by simp; omega)
  refine ⟨o, b, _, med, a, hv, g1, g2, g3.core, hT, ?_, hm, g7, g3.y, ha⟩
  rw [htime, ofFn_eq_rangeMap, diffs_rangeMap hn]

/-- **C83, CAR(1).** Strong law for a whole call of `RunCar1Sampler`: at least three strictly increasing times, no two measurements
without error unless two such have different values (`ErrorsApart`), values not all equal, `thin ≥ 1`, any initial vector and any number of
burn-in iterations. If the random numbers are independent draws with the laws the code asks for, then with probability one there is a sequence `θ` such that every call, whatever the number `N` of samples asked for,
returns the first `N` vectors of `θ`, and either the averages of `f` over them tend to the posterior mean of `f`, or the posterior density
at the first vector is 0 and all vectors are equal to it. -/
theorem C83_car1_run (srt : List ℝ → List ℕ) (hn : 3 ≤ n) (ht : StrictMono t) (y e : Fin n → ℝ) (he : ErrorsApart y e 1) (hy : ∃ i j, y i ≠ y j)
    (burnin : ℕ) {thin : ℕ} (hthin : 0 < thin) (init : List ℝ) {dmin span : ℝ} (h1 : IsMinGap t dmin) (h2 : IsSpan t span) {R : Ω → Rng} {dof : ℕ → ℕ}
    (hR : IsDraws P R dof) {f : (Fin 4 → ℝ) → ℝ} (hf : Measurable f) :
    let G := car1Target t y e (10 * √(popVariance y)) (1 / dmin) (1 / span)
    HasMean G 1 f → ∀ᵐ ω ∂P, ∃ θ : ℕ → Fin 4 → ℝ,
      (∀ fuel N, ∃ c, runCar1Sampler fuel srt N burnin (List.ofFn t) (List.ofFn y) (List.ofFn e) thin init (R ω) = .ok c ∧
        c.samples = (List.range N).map fun k => List.ofFn (θ k)) ∧
      (Tendsto (fun N : ℕ => (∑ k ∈ Finset.range N, f (θ k)) / N) atTop (𝓝 (postMean G 1 f)) ∨ (G (θ 0) = none ∧ ∀ k, θ k = θ 0)) := by
  intro G hi
  obtain ⟨o, b, dt, med, a, hv, g1, g2, g3, hT, g4, g5, g6, -, ha⟩ := call_built1 srt (by omega) ht y e hy burnin h1 h2
  filter_upwards [hR.nice, start_good1 (car1_meas _ _ _ _ _ _) (car1_proper hn ht he hy h1 h2 one_pos) burnin hthin hR b med (1 / dmin) init
      (fun i j => a.chol i j) hf hi] with ω e1 e2
  have hex : ∀ fuel N, ∃ c, runCar1Sampler fuel srt N burnin (List.ofFn t) (List.ofFn y) (List.ofFn e) thin init (R ω) = .ok c := fun fuel N =>
    C46_car1_run_returns_any_init srt (by omega) ht y e hy fuel N burnin thin init e1.1.ok fun k => ⟨0, by norm_num, e1.2 _⟩
  have hsp := fun {N : ℕ} {c : Par Car1} (hc : runCar1Sampler 0 srt N burnin (List.ofFn t) (List.ofFn y) (List.ofFn e) thin init (R ω) = .ok c) =>
    call_spec1 hv g1 g2 g3 hT g4 g5 g6 ha hc
  refine ⟨fun k => (runX G (fun _ : Fin 1 => (1 : ℝ)) burnin (stepOrder (1 - 1)) (burnin + thin * (k + 1))
    (startZ1 G b med (1 / dmin) (R ω) init fun i j => a.chol i j)).1.1 0, fun fuel N => ?_, ?_⟩
  · obtain ⟨c, hc⟩ := hex fuel N
    exact ⟨c, hc, (call_spec1 hv g1 g2 g3 hT g4 g5 g6 ha hc).1⟩
  by_cases hal : (G ((startZ1 G b med (1 / dmin) (R ω) init fun i j => a.chol i j).1.1 0)).isSome = true
  · left
    obtain ⟨c, hc⟩ := hex 0 0
    obtain ⟨-, -, s1, u, k1, k2, k4, k3, -⟩ := hsp hc
    rw [Nat.mul_zero, Nat.add_zero] at k1 k4
    have k3 := k3 hal
    refine badRun_averages e2 (fun i => ?_) (fun i => ?_)
    · have hi : u.chains[(i : ℕ)]? = some (u.chains[(i : ℕ)]'(by rw [k4.length]; exact i.2)) := List.getElem?_eq_getElem _
      exact alive_of_agrees (k4.chain i _ hi).2.2.2 (k3 _ (List.mem_of_getElem? hi))
    · have hmem := stepOrder_mem (1 - 1) i (by omega)
      rw [← k4.kinds] at hmem
      obtain ⟨st, hst1, hst2⟩ := List.mem_map.mp hmem
      cases st with
      | exch x => cases hst2
      | ram i' a' =>
        obtain rfl : i' = (i : ℕ) := congrArg Prod.snd hst2
        obtain ⟨j, hj⟩ := List.mem_iff_getElem?.mp hst1
        rw [← (k4.ram j i a' hj).1]
        obtain ⟨-, q2⟩ := sweeps_kinds (sweeps_of_iterate k1)
        obtain ⟨a'', f1, f2⟩ := q2 i a' hst1
        rw [k2 i a'' f1] at f2
        obtain ⟨m1, m2, -⟩ := C27_ram_forever Car1 (by norm_num) (by norm_num) ha f2
        exact Upper.det_ne ⟨m1, m2⟩
  · right
    have hal : G ((startZ1 G b med (1 / dmin) (R ω) init fun i j => a.chol i j).1.1 0) = none := by
      rwa [Bool.not_eq_true, Option.isSome_eq_false_iff, Option.isNone_iff_eq_none] at hal
    have hθ : ∀ k, (runX G (fun _ : Fin 1 => (1 : ℝ)) burnin (stepOrder (1 - 1)) (burnin + thin * (k + 1))
        (startZ1 G b med (1 / dmin) (R ω) init fun i j => a.chol i j)).1.1 0 = (startZ1 G b med (1 / dmin) (R ω) init fun i j => a.chol i j).1.1 0 := by
      intro k
      obtain ⟨c, hc⟩ := hex 0 (k + 1)
      obtain ⟨l1, -, -, -, -, -, -, -, l2⟩ := hsp hc
      obtain ⟨l2, -⟩ := l2 hal k (by omega)
      rw [l1] at l2
      simp only [List.getElem?_map, List.getElem?_range (show k < k + 1 by omega), Option.map_some, Option.some.injEq] at l2
      exact List.ofFn_injective l2
    exact ⟨(congrArg G (hθ 0)).trans hal, fun k => (hθ k).trans (hθ 0).symm⟩

/-- Small values of a chi-squared draw are possible. -/
lemma chi_Iio {n : ℕ} (hn : 0 < n) {c : ℝ} (hc : 0 < c) : libLaw (.chiSquared n) (Set.Iio c) ≠ 0 := by
  show gammaMeasure ((n : ℝ) / 2) (1 / 2) (Set.Iio c) ≠ 0
  unfold gammaMeasure
  rw [withDensity_apply _ measurableSet_Iio]
  intro h
  rw [setLIntegral_eq_zero_iff measurableSet_Iio (measurable_gammaPDF' _ _)] at h
  have h2 : ∀ᵐ x : ℝ, x ∉ Set.Ioo 0 c := by
    filter_upwards [h] with x hx hxc
    have := hx hxc.2
    have hp := gammaPDFReal_pos (a := (n : ℝ) / 2) (r := 1 / 2) (by positivity) (by norm_num) hxc.1
    rw [gammaPDF, ENNReal.ofReal_eq_zero] at this
    linarith
  rw [ae_iff] at h2
  simp only [not_not, Set.ofPred_mem_eq, Real.volume_Ioo] at h2
  rw [ENNReal.ofReal_eq_zero] at h2
  linarith

/-- A small first chi-squared draw gives a starting value of density 0. -/
lemma dead_start (hn : 2 ≤ n) (hy : ∃ i j, y i ≠ y j) {b : CarBase} (hby : b.y = List.ofFn y) {med f1 f2 fmax c0 c1 g u : ℝ} (hc0 : 0 < c0) (hc : c0 < n / 100) :
    car1Target t y e (10 * √(popVariance y)) f1 f2 (car1T b med fmax c0 c1 g u) = none := by
  have hn' : (2 : ℝ) ≤ n := by exact_mod_cast hn
  have hbig : 10 * √(popVariance y) < car1T b med fmax c0 c1 g u 0 := by
    show 10 * √(popVariance y) < √(armaVar b.y / c0 * ((b.y.length - 1 : ℕ) : ℝ))
    have e10 : (10 : ℝ) * √(popVariance y) = √(100 * popVariance y) := by
      rw [Real.sqrt_mul (by norm_num), show (100 : ℝ) = 10 ^ 2 by norm_num, Real.sqrt_sq (by norm_num)]
    have hvp := popVar_pos (show 0 < n by omega) hy
    rw [e10]
    refine Real.sqrt_lt_sqrt (by linarith) ?_
    rw [hby, armaVar_ofFn, List.length_ofFn, Nat.cast_sub (by omega), Nat.cast_one]
    have hn1 : (0 : ℝ) < n - 1 := by linarith
    have e3 : sampleVar y = popVariance y * n / (n - 1) := by
      unfold sampleVar popVariance
      rw [div_mul_cancel₀ _ (by positivity)]
    rw [e3]
    have e4 : popVariance y * n / (n - 1) / c0 * (n - 1) = popVariance y * n / c0 := by field_simp
    rw [e4, lt_div_iff₀ hc0]
    nlinarith
  unfold car1Target
  rw [if_neg]
  rintro ⟨hh, -⟩
  have := hh.sd_hi
  have e5 : at0 (List.ofFn (car1T b med fmax c0 c1 g u)) 0 = car1T b med fmax c0 c1 g u 0 := by simp [at0]
  linarith

/-- A call whose first chi-squared draw is small. -/
lemma stuck_run (srt : List ℝ → List ℕ) (hn : 2 ≤ n) (ht : StrictMono t) (y e : Fin n → ℝ) (hy : ∃ i j, y i ≠ y j)
    (burnin thin : ℕ) {init : List ℝ} (hinit : init.length ≠ 4) {dmin span : ℝ} (h1 : IsMinGap t dmin) (h2 : IsSpan t span) {r : Rng} (hr : r.Ok)
    (hs : ∀ k, r.stud k ≠ 0) (hc : r.chi2 0 < n / 100) :
    ∃ θ : Fin 4 → ℝ, car1Target t y e (10 * √(popVariance y)) (1 / dmin) (1 / span) θ = none ∧ ∀ fuel N, ∃ c,
      runCar1Sampler fuel srt N burnin (List.ofFn t) (List.ofFn y) (List.ofFn e) thin init r = .ok c ∧ c.samples = List.replicate N (List.ofFn θ) := by
  obtain ⟨o, b, dt, med, a, hv, g1, g2, g3, hT, g4, g5, g6, hby, ha⟩ := call_built1 srt hn ht y e hy burnin h1 h2
  have hx : (startZ1 (car1Target t y e (10 * √(popVariance y)) (1 / dmin) (1 / span)) b med (1 / dmin) r init fun i j => a.chol i j).1.1 0 =
      car1T b med (1 / dmin) (r.chi2 0) (r.chi2 1) (r.norm 0) (r.unif 0) := by
    rw [startZ1, if_neg fun hh => hinit hh.1]
  have hdead := dead_start (t := t) (e := e) (med := med) (f1 := 1 / dmin) (f2 := 1 / span) (fmax := 1 / dmin) (c1 := r.chi2 1) (g := r.norm 0) (u := r.unif 0)
    hn hy hby (hr.chi2 0) hc
  refine ⟨_, hdead, fun fuel N => ?_⟩
  obtain ⟨c, hc⟩ := C46_car1_run_returns_any_init srt hn ht y e hy fuel N burnin thin init hr fun k => ⟨0, by norm_num, hs _⟩
  obtain ⟨l1, -, -, -, -, -, -, -, l2⟩ := call_spec1 hv g1 g2 g3 hT g4 g5 g6 ha hc
  rw [hx] at l2
  have l2 := l2 hdead
  refine ⟨c, hc, List.ext_getElem? fun k => ?_⟩
  by_cases hk : k < N
  · rw [(l2 k hk).1, List.getElem?_replicate, if_pos hk]
  · rw [List.getElem?_eq_none (by rw [l1, List.length_map, List.length_range]; omega), List.getElem?_eq_none (by rw [List.length_replicate]; omega)]

/-- **C83, CAR(1): the second case has positive probability.** Any data as above (two points suffice, errors of 0 are allowed), no initial
vector of four numbers: with positive probability every call, whatever the number of iterations, returns `N` times one and the same vector,
at which the posterior density is 0. The probability is at least that of a chi-squared draw with `n-1` degrees of freedom below `n/100`,
because the starting standard deviation is then larger than the prior allows. -/
theorem C83_car1_stuck (srt : List ℝ → List ℕ) (hn : 2 ≤ n) (ht : StrictMono t) (y e : Fin n → ℝ) (hy : ∃ i j, y i ≠ y j)
    (burnin thin : ℕ) {init : List ℝ} (hinit : init.length ≠ 4) {dmin span : ℝ} (h1 : IsMinGap t dmin) (h2 : IsSpan t span) {R : Ω → Rng} {dof : ℕ → ℕ}
    (hR : IsDraws P R dof) (hd : dof 0 = n - 1) :
    let G := car1Target t y e (10 * √(popVariance y)) (1 / dmin) (1 / span)
    let A := {ω | ∃ θ : Fin 4 → ℝ, G θ = none ∧ ∀ fuel N, ∃ c,
      runCar1Sampler fuel srt N burnin (List.ofFn t) (List.ofFn y) (List.ofFn e) thin init (R ω) = .ok c ∧ c.samples = List.replicate N (List.ofFn θ)}
    libLaw (.chiSquared ((n - 1 : ℕ) : ℝ)) (Set.Iio (n / 100)) ≤ P A ∧ P A ≠ 0 := by
  intro G A
  have hpos : libLaw (.chiSquared ((n - 1 : ℕ) : ℝ)) (Set.Iio ((n : ℝ) / 100)) ≠ 0 := chi_Iio (by omega) (by positivity)
  have hle : libLaw (.chiSquared ((n - 1 : ℕ) : ℝ)) (Set.Iio ((n : ℝ) / 100)) ≤ P A := by
    have hl : P.map (fun ω => drawOf (R ω) (.chi2, 0)) = libLaw (.chiSquared ((n - 1 : ℕ) : ℝ)) := by rw [← hd]; exact hR.law (.chi2, 0)
    rw [← hl, Measure.map_apply (hR.meas (.chi2, 0)) measurableSet_Iio]
    refine measure_mono_ae ?_
    filter_upwards [hR.nice] with ω e1 hω
    exact stuck_run srt hn ht y e hy burnin thin hinit h1 h2 e1.1.ok e1.2 hω
  exact ⟨hle, fun h0 => hpos (le_bot_iff.mp (hle.trans (le_of_eq h0)))⟩

/-- The hypotheses of both are met: the default call of `run_mcmc` on three points, with a CAR(1) model and an empty initial vector; the
relative frequency of a positive mean parameter. -/
example (srt : List ℝ → List ℕ) (burnin : ℕ) :
    haveI := fun i => drawLaw_prob (dof := passDof 3) (fun k => by unfold passDof; split <;> omega) i
    let G := car1Target exT exY (fun _ => 1) (10 * √(popVariance exY)) 1 (1 / 10)
    let f := Set.indicator {x : Fin 4 → ℝ | 0 < x 2} fun _ => (1 : ℝ)
    (∀ᵐ ω ∂(Measure.infinitePi (drawLaw (passDof 3))), ∃ θ : ℕ → Fin 4 → ℝ,
      (∀ fuel N, ∃ c, runCar1Sampler fuel srt N burnin (List.ofFn exT) (List.ofFn exY) (List.ofFn fun _ : Fin 3 => (1 : ℝ)) 1 [] (rngOf ω) = .ok c ∧
        c.samples = (List.range N).map fun k => List.ofFn (θ k)) ∧
      (Tendsto (fun N : ℕ => (∑ k ∈ Finset.range N, f (θ k)) / N) atTop (𝓝 (postMean G 1 f)) ∨ (G (θ 0) = none ∧ ∀ k, θ k = θ 0))) ∧
    Measure.infinitePi (drawLaw (passDof 3)) {ω | ∃ θ : Fin 4 → ℝ, G θ = none ∧ ∀ fuel N, ∃ c,
      runCar1Sampler fuel srt N burnin (List.ofFn exT) (List.ofFn exY) (List.ofFn fun _ : Fin 3 => (1 : ℝ)) 1 [] (rngOf ω) = .ok c ∧
        c.samples = List.replicate N (List.ofFn θ)} ≠ 0 := by
  have hm : Measurable (Set.indicator {x : Fin 4 → ℝ | 0 < x 2} fun _ => (1 : ℝ)) :=
    measurable_const.indicator (measurableSet_lt measurable_const (measurable_pi_apply _))
  have hg := ex_gap
  have hD := draws_exist (dof := passDof 3) fun k => by unfold passDof; split <;> omega
  have k1 := C83_car1_run srt le_rfl exT_mono exY (fun _ => 1) (apart_of_ne fun _ => one_ne_zero) ⟨0, 1, by simp [exY]⟩ burnin one_pos [] hg.1 hg.2 hD hm
    (hasMean_bounded (car1_meas _ _ _ _ _ _)
      (car1_proper le_rfl exT_mono (apart_of_ne fun _ => one_ne_zero) ⟨0, 1, by simp [exY]⟩ hg.1 hg.2 one_pos) hm
      (C := 1) fun x => by by_cases hx : x ∈ {x : Fin 4 → ℝ | 0 < x 2} <;> simp [Set.indicator, hx])
  have k2 := (C83_car1_stuck srt (by norm_num) exT_mono exY (fun _ => 1) ⟨0, 1, by simp [exY]⟩ burnin 1 (init := []) (by simp) hg.1 hg.2 hD rfl).2
  simp only [div_one] at k1 k2
  exact ⟨k1, k2⟩

end Verif.Props
