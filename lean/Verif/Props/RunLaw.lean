import Verif.Theory.RunNull
import Verif.Theory.StartLaw
import Verif.Props.Average
import Verif.Props.Terminates

/-!
C83: strong law for a whole run of the sampler, from the starting values on.
-/

namespace Verif.Props

open Verif.Model Verif.Spec Verif.Theory MeasureTheory ProbabilityTheory Filter
open scoped Topology

variable {n : ℕ} {t : Fin n → ℝ}

/-- The constants of the starting values exist. -/
lemma consts_exist (hn : 2 ≤ n) (ht : StrictMono t) (y e : Fin n → ℝ) {b : CarBase} (htime : b.time = List.ofFn t) {dmin : ℝ} (h1 : IsMinGap t dmin)
    (hf : b.maxFreq = .fin (1 / dmin)) : ∃ C, Consts C b := by
  obtain ⟨dmin', b0, k1, k2, k3, k4, k5, -, -, k6, k7, -⟩ := base_fresh hn ht y e
  obtain rfl := k1.unique h1
  generalize t ⟨n - 1, by omega⟩ = t1 at k4 k6
  generalize t ⟨0, by omega⟩ = t0 at k4 k7
  have hs : 0 < t1 - t0 := by linarith
  refine ⟨⟨Real.log (1 / dmin' / (1 / (t1 - t0))), Real.log (1 / (t1 - t0)), armaVar b.y, armaMean b.y, b.y.length⟩,
    ⟨t1, t0, 1 / (t1 - t0), 1 / dmin', 1 / dmin' / (1 / (t1 - t0)), by rw [htime]; exact k6, by rw [htime]; exact k7, ?_, ?_, ?_, ?_, ?_⟩, rfl, rfl, rfl⟩
  · unfold dv; rw [if_neg hs.ne']
  · rw [hf]; rfl
  · unfold dv; rw [if_neg (one_div_pos.mpr hs).ne']
  · unfold logR; rw [if_pos (by positivity)]
  · unfold logR; rw [if_pos (by positivity)]

lemma ram_new_gamma {d burnin : ℕ} {cov : Matrix (Fin d) (Fin d) ℝ} {x : ℝ} {a : Ram d} (h : Ram.new cov x burnin = .ok a) :
    a.gamma = 2 / 3 ∧ a.target = x ∧ a.niter = 0 ∧ a.maxiter = burnin := by
  unfold Ram.new at h
  obtain ⟨_, -, h⟩ := bind_ok_inv h
  injection h with h
  rw [← h]; exact ⟨rfl, rfl, rfl, rfl⟩

lemma nParams_car {p q : ℕ} {z : Bool} (hq : z = true ∨ q = 0) : nParams p q z = p + 3 := by
  unfold nParams
  rcases hq with rfl | rfl
  · simp; omega
  · split <;> omega

lemma runKind_car {q : ℕ} {z : Bool} (hq : z = true ∨ q = 0) : runKind q z = .carp ∨ runKind q z = .zcar := by
  unfold runKind
  rcases hq with rfl | rfl
  · simp
  · cases z <;> simp

/-- State of the map of the run after the starting values. -/
noncomputable def startZ {d : ℕ} (G : LogTarget d) (C : StartC) (p : ℕ) (r : Rng) (init : List ℝ) (nw : ℕ) (L : Fin d → Fin d → ℝ) : RunZ nw d :=
  let x := startX G C p r (iniOf G init) nw (stepOrder (nw - 1)) (stepOrder (nw - 1)).length
  ((x.1, fun _ => L, fun _ => 0), r.stud, Rng.skip (x.2 * (p % 2)) r.unif)

variable {srt : List ℝ → List ℕ} {N burnin thin fuel : ℕ} {p q nw : ℕ} {z : Bool} {y e : Fin n → ℝ} {r : Rng} {init : List ℝ}

open scoped Classical in
/-- After the starting values the sampler stands at `startZ`. -/
lemma stand_start {s s0 s1 : Samp (CarP p) (nParams p q z)} (hp : 2 ≤ p) (hq : z = true ∨ q = 0)
    (hs : carmaSampler srt N burnin (List.ofFn t) (List.ofFn y) (List.ofFn e) p q nw z thin r = .ok s) {o : CarP p} {b : CarBase} {var : ℝ}
    (hv : popVar (List.ofFn y) = .ok var) (ho : CarP.new (runKind q z) p srt (List.ofFn t) (List.ofFn y) (List.ofFn e) = .ok o)
    (hb : o.b.setPrior (10 * √var) = .ok b) {G : LogTarget (nParams p q z)} (hT : HasTarget (CarP p) (CarP.Core { o with b := b }) G) {C : StartC} (hC : Consts C b)
    {a : Ram (nParams p q z)} (ha : Ram.new (propCovar (nParams p q z) var (List.ofFn y).length) 0.25 burnin = .ok a)
    (h0 : SampRec s s0) (h1 : s0.startLoop fuel (if init.length = nParams p q z then some init else none) s0.steps.length = .ok s1) :
    Stand (CarP.Core { o with b := b }) G (fun i : Fin nw => temperature nw i) burnin (stepOrder (nw - 1)) 0 0 s1
      (startZ G C p r init nw fun i j => a.chol i j) := by
  have hB := carmaSampler_inv hs
  have hkind : ({ o with b := b } : CarP p).kind = runKind q z := (new_config ho).1
  obtain ⟨var', o', b', c1, c2, c3, hc⟩ := hB.chain
  cases hv.symm.trans c1
  cases ho.symm.trans c2
  cases hb.symm.trans c3
  obtain ⟨var', a', d1, d2, d3⟩ := hB.steps
  cases hv.symm.trans d1
  cases ha.symm.trans d2
  have hcore : CarP.Core { o with b := b } { o with b := b } := built_core ho
  have hst : s0.steps.map stepKind = stepOrder (nw - 1) := by rw [← h0.steps, d3, tempered_kind]
  have hlen0 : s0.steps.length = (stepOrder (nw - 1)).length := by rw [← hst, List.length_map]
  have hR : RunState fuel s init 0 s1 := ⟨s0, s1, _, h0.sameState, by split <;> simp, h1, .none⟩
  obtain ⟨-, -, hch⟩ := carma_chains hs hR
  obtain ⟨⟨var', o', b', c1, c2, c3, hso⟩, -⟩ := carma_sound hB h0 h1 (k := 0) rfl
  cases hv.symm.trans c1
  cases ho.symm.trans c2
  cases hb.symm.trans c3
  obtain ⟨q1, q2, q3, q4⟩ := startLoop_T hT (nParams_car hq) hp hC (by rw [hkind]; exact runKind_car hq) (r0 := r) (N := nw) (by rw [← h0.rng, hB.rng])
    (by rw [← h0.chains.length_eq, hB.length]) (fun c hcm => by
      obtain ⟨i, hi⟩ := List.mem_iff_getElem?.mp hcm
      obtain ⟨c0, g1, x, y, g2⟩ := h0.symm.get hi
      have := hc i c0 g1
      have e1 : c.obj = c0.obj := by rw [g2]; rfl
      have e2 : c.value = c0.value := by rw [g2]; rfl
      rw [e1, e2, this]
      exact ⟨hcore, by rw [← thetaLen_runKind]; rfl⟩) hst init h1
  rw [hlen0] at q3 q4
  refine ⟨q1, fun i c hi => ?_, by rw [q3]; rfl, by rw [q3]; rfl, by rw [q2, hst], fun j i a' hj => ?_⟩
  · obtain ⟨f1, f2⟩ := q4 i c hi
    refine ⟨f1, (hch i c hi).1, f2, ?_⟩
    have := (hso c (List.mem_of_getElem? hi)).valued
    rw [f2] at this
    exact agrees_of_valued hT hcore this
  · rw [q2, ← h0.steps, d3] at hj
    have ha' : a' = a := by
      rcases tempered_fresh (List.mem_of_getElem? hj) with ⟨i', he⟩ | ⟨i', he⟩
      · injection he
      · cases he
    obtain ⟨g1, g2, g3, g4⟩ := ram_new_gamma ha
    rw [ha']
    exact ⟨rfl, g1, g2, g4, by simp [g3]⟩

open scoped Classical in
/-- What a call of the sampler does. -/
lemma call_spec {c : Par (CarP p)} (hp : 2 ≤ p) (hq : z = true ∨ q = 0) (hw : 1 ≤ nw) {o : CarP p} {b : CarBase} {var : ℝ}
    (hv : popVar (List.ofFn y) = .ok var) (g1 : CarP.new (runKind q z) p srt (List.ofFn t) (List.ofFn y) (List.ofFn e) = .ok o)
    (g2 : o.b.setPrior (10 * √var) = .ok b) {G : LogTarget (nParams p q z)} (hT : HasTarget (CarP p) (CarP.Core { o with b := b }) G) {C : StartC} (hC : Consts C b)
    {a : Ram (nParams p q z)} (ha : Ram.new (propCovar (nParams p q z) var (List.ofFn y).length) 0.25 burnin = .ok a)
    (hc : runCarmaSampler fuel srt N burnin (List.ofFn t) (List.ofFn y) (List.ofFn e) p q nw z thin init r = .ok c) :
    c.samples = ((List.range N).map fun k => List.ofFn ((runX G (fun i : Fin nw => temperature nw i) burnin (stepOrder (nw - 1)) (burnin + thin * (k + 1))
        (startZ G C p r init nw fun i j => a.chol i j)).1.1 ⟨0, hw⟩)) ∧
      ∃ (s1 u : Samp (CarP p) (nParams p q z)), s1.iterate (burnin + thin * N) = .ok u ∧ (∀ i a', .ram i a' ∈ s1.steps → a' = a) ∧
        (∀ c ∈ u.chains, c.logpost.isFin) ∧
        Stand (CarP.Core { o with b := b }) G (fun i : Fin nw => temperature nw i) burnin (stepOrder (nw - 1)) (burnin + thin * N) 0 u
          (runX G (fun i : Fin nw => temperature nw i) burnin (stepOrder (nw - 1)) (burnin + thin * N) (startZ G C p r init nw fun i j => a.chol i j)) := by
  unfold runCarmaSampler at hc
  obtain ⟨s, m1, hc⟩ := bind_ok_inv hc
  obtain ⟨s', m2, hc⟩ := bind_ok_inv hc
  have m3 := rdU_inv hc
  have hB := carmaSampler_inv m1
  obtain ⟨s0, s1, init', k1, ⟨st, c0, -, f2, f3⟩, k3, -, ⟨u, k4, k5⟩, k6⟩ := run_spec m2
  have hlen0 : c0.value.length = nParams p q z := by
    obtain ⟨_, _, _, -, -, -, hch⟩ := hB.chain
    rw [hch _ _ f2]
    simp [Par.new, thetaLen_runKind]
  rw [hlen0] at f3
  rw [f3] at k3
  have hS0 := stand_start hp hq m1 hv g1 g2 hT hC ha k1 k3
  have hSw := fun {k : ℕ} {u : Samp (CarP p) (nParams p q z)} (hu : s1.iterate k = .ok u) =>
    stand_sweeps hT (T := (fun i : Fin nw => temperature nw i)) (fun i => temp_pos nw i) (stepOrder_nodup (nw - 1)) (stepOrder_range hw) hS0 hu
  refine ⟨?_, s1, u, k4, ?_, ?_, hSw k4⟩
  · obtain ⟨p', l1, l2, -, l3⟩ := k6 (runLabel q z) 0 (by rw [hB.tracked]; simp) (by rw [hB.length]; exact hw)
    obtain rfl : p' = c := by rw [m3] at l1; injection l1 with l1; exact l1.symm
    refine List.ext_getElem? fun k => ?_
    by_cases hk : k < N
    · obtain ⟨u', c', n1, n2, n3, -⟩ := l3 k hk
      rw [n3, ((hSw n1).chain (⟨0, hw⟩ : Fin nw) c' n2).2.2.1]
      simp [hk]
    · rw [List.getElem?_eq_none (by omega), List.getElem?_eq_none (by simp; omega)]
  · intro i a' ha'
    obtain ⟨var', a'', d1, d2, d3⟩ := hB.steps
    cases hv.symm.trans d1
    cases ha.symm.trans d2
    rw [startLoop_steps k3, ← k1.steps, d3] at ha'
    rcases tempered_fresh ha' with ⟨i', he⟩ | ⟨i', he⟩
    · injection he
    · cases he
  · obtain ⟨⟨_, _, _, -, -, -, hso⟩, -⟩ := carma_sound hB k1 k3 k4
    exact fun c hc => (hso c hc).fin
/-- The starting state belongs to the family of possible starting states. -/
lemma start_fam {d : ℕ} (G : LogTarget d) (C : StartC) (p : ℕ) (r : Rng) (init : List ℝ) (nw : ℕ) (L : Fin d → Fin d → ℝ) :
    ∃ (j : ℕ) (v : Fin nw → Bool ⊕ (ℕ × List ℕ)), (∀ i J l, v i = .inr (J, l) → J < j) ∧
      startZ G C p r init nw L = (((fun i => famX C p (vec d init) r (v i)), (fun _ => L), fun _ => 0), r.stud, Rng.skip (j * (p % 2)) r.unif) := by
  set x := startX G C p r (iniOf G init) nw (stepOrder (nw - 1)) (stepOrder (nw - 1)).length with hx
  have hch : ∀ i, ∃ v : Bool ⊕ (ℕ × List ℕ), x.1 i = famX C p (vec d init) r v ∧ ∀ J l, v = .inr (J, l) → J < x.2 := by
    intro i
    rcases startX_cases (G := G) (C := C) (p := p) r (iniOf G init) (stepOrder (nw - 1)) (stepOrder (nw - 1)).length i with hc | hc | ⟨J, hJ, hc⟩
    · exact ⟨.inl false, by rw [hx, hc]; rfl, fun J l hh => by cases hh⟩
    · refine ⟨.inl true, ?_, fun J l hh => by cases hh⟩
      have hw : ∀ w, iniOf G init = some w → w = vec d init := by
        intro w hw
        unfold iniOf at hw
        split at hw
        · injection hw with hw; exact hw.symm
        · cases hw
      rw [hx, hw _ hc]; rfl
    · obtain ⟨l, hl⟩ := thetaR_fam C p (passR p r J)
      refine ⟨.inr (J, l), by rw [hx, hc, hl]; rfl, fun J' l' hh => ?_⟩
      injection hh with hh
      injection hh with hh1 hh2
      rw [← hh1]; exact hJ
  choose v hv1 hv2 using hch
  refine ⟨x.2, v, hv2, ?_⟩
  have hxv : (fun i => famX C p (vec d init) r (v i)) = x.1 := funext fun i => (hv1 i).symm
  rw [hxv]
  rfl

variable {Ω : Type*} [MeasurableSpace Ω] {P : Measure Ω}

/-- The starting state avoids the exceptional set of the run. -/
lemma start_good {d : ℕ} {G : LogTarget d} (hG : MeasTarget G) (hw : 1 ≤ nw) (hprop : ∀ i : Fin nw, IsProper G (temperature nw i)) (burnin : ℕ) {thin : ℕ} (hthin : 0 < thin)
    {R : Ω → Rng} {dof : ℕ → ℕ} (hR : IsDraws P R dof) (C : StartC) (p : ℕ) (init : List ℝ) (L : Fin d → Fin d → ℝ) {f : (Fin d → ℝ) → ℝ} (hf : Measurable f)
    (hi : HasMean G (temperature nw 0) f) :
    ∀ᵐ ω ∂P, startZ G C p (R ω) init nw L ∉ badRun G (fun i : Fin nw => temperature nw i) burnin thin ⟨0, hw⟩ f (postMean G (temperature nw 0) f) := by
  have hprob : IsProbabilityMeasure (libLaw (.studentT 8)) := student_prob (by norm_num)
  obtain ⟨s1, s2, s3⟩ := student_facts (n := 8) (by norm_num)
  let B : Set ((Fin nw → Fin d → ℝ) × (ℕ → ℝ) × (ℕ → ℝ)) :=
    {w | ((w.1, (fun _ => L), fun _ => 0), w.2) ∈ badRun G (fun i : Fin nw => temperature nw i) burnin thin ⟨0, hw⟩ f (postMean G (temperature nw 0) f)}
  have hBm : MeasurableSet B := by
    have hmap : Measurable fun w : (Fin nw → Fin d → ℝ) × (ℕ → ℝ) × (ℕ → ℝ) => (((w.1, (fun _ => L), fun _ => 0), w.2) : RunZ nw d) :=
      (measurable_fst.prodMk measurable_const).prodMk measurable_snd
    exact hmap (badRun_measurable hG thin ⟨0, hw⟩ hf _)
  have hB0 : ∀ x, rngLaw (libLaw (.studentT 8)) {w | (x, w) ∈ B} = 0 := fun x =>
    badRun_null (T := fun i : Fin nw => temperature nw i) (B := burnin) hG hprop s2 s3 s1 hw ⟨0, hw⟩ hf hi hthin
      (x, (fun _ => L), fun _ => 0)
  filter_upwards [start_avoids (p := p) hR C (vec d init) hBm hB0] with ω e3
  obtain ⟨j, v, v1, v2⟩ := start_fam G C p (R ω) init nw L
  rw [v2]
  exact e3 j v v1

open scoped Classical in
/-- The averages over a run whose starting state avoids the exceptional set. -/
lemma run_averages (hp : 2 ≤ p) (hq : z = true ∨ q = 0) (hw : 1 ≤ nw) {o : CarP p} {b : CarBase} {var : ℝ}
    (hv : popVar (List.ofFn y) = .ok var) (g1 : CarP.new (runKind q z) p srt (List.ofFn t) (List.ofFn y) (List.ofFn e) = .ok o)
    (g2 : o.b.setPrior (10 * √var) = .ok b) {G : LogTarget (nParams p q z)} (hT : HasTarget (CarP p) (CarP.Core { o with b := b }) G) {C : StartC} (hC : Consts C b)
    {a : Ram (nParams p q z)} (ha : Ram.new (propCovar (nParams p q z) var (List.ofFn y).length) 0.25 burnin = .ok a) {F : ℕ}
    (hF : ∀ fuel, F ≤ fuel → ∀ N, ∃ c, runCarmaSampler fuel srt N burnin (List.ofFn t) (List.ofFn y) (List.ofFn e) p q nw z thin init r = .ok c)
    {f : (Fin (nParams p q z) → ℝ) → ℝ} {m : ℝ}
    (hz : startZ G C p r init nw (fun i j => a.chol i j) ∉ badRun G (fun i : Fin nw => temperature nw i) burnin thin ⟨0, hw⟩ f m) :
    ∃ (F : ℕ) (θ : ℕ → Fin (nParams p q z) → ℝ),
      (∀ fuel, F ≤ fuel → ∀ N, ∃ c,
        runCarmaSampler fuel srt N burnin (List.ofFn t) (List.ofFn y) (List.ofFn e) p q nw z thin init r = .ok c ∧
        c.samples = (List.range N).map fun k => List.ofFn (θ k)) ∧
      Tendsto (fun N : ℕ => (∑ k ∈ Finset.range N, f (θ k)) / N) atTop (𝓝 m) := by
  refine ⟨F, fun k => (runX G (fun i : Fin nw => temperature nw i) burnin (stepOrder (nw - 1)) (burnin + thin * (k + 1))
    (startZ G C p r init nw fun i j => a.chol i j)).1.1 ⟨0, hw⟩, fun fuel hfuel N => ?_, ?_⟩
  · obtain ⟨c, hc⟩ := hF fuel hfuel N
    exact ⟨c, hc, (call_spec hp hq hw hv g1 g2 hT hC ha hc).1⟩
  · obtain ⟨c, hc⟩ := hF F le_rfl 0
    obtain ⟨-, s1, u, k1, k2, k3, k4⟩ := call_spec hp hq hw hv g1 g2 hT hC ha hc
    rw [Nat.mul_zero, Nat.add_zero] at k1 k4
    refine badRun_averages hz (fun i => ?_) (fun i => ?_)
    · have hi : u.chains[(i : ℕ)]? = some (u.chains[(i : ℕ)]'(by rw [k4.length]; exact i.2)) := List.getElem?_eq_getElem _
      exact alive_of_agrees (k4.chain i _ hi).2.2.2 (k3 _ (List.mem_of_getElem? hi))
    · have hmem := stepOrder_mem (nw - 1) i (by omega)
      rw [← k4.kinds] at hmem
      obtain ⟨st, hst1, hst2⟩ := List.mem_map.mp hmem
      cases st with
      | exch x => cases hst2
      | ram i' a' =>
        obtain rfl : i' = (i : ℕ) := congrArg Prod.snd hst2
        obtain ⟨j, hj⟩ := List.mem_iff_getElem?.mp hst1
        rw [← (k4.ram j i a' hj).1]
        obtain ⟨-, q2⟩ := sweeps_kinds (sweeps_of_iterate k1)
        obtain ⟨a'', f1, f2⟩ := q2 i a' hst1
        rw [k2 i a'' f1] at f2
        obtain ⟨m1, m2, -⟩ := C27_ram_forever (CarP p) (by norm_num) (by norm_num) ha f2
        exact Upper.det_ne ⟨m1, m2⟩

open scoped Classical in
/-- The objects built by a call. -/
lemma call_built (srt : List ℝ → List ℕ) (hn : 3 ≤ n) (ht : StrictMono t) (y e : Fin n → ℝ) (hy : ∃ i j, y i ≠ y j)
    {p q : ℕ} (hp : 2 ≤ p) {z : Bool} (hq : z = true ∨ q = 0) (burnin : ℕ) {dmin span : ℝ} (h1 : IsMinGap t dmin) (h2 : IsSpan t span) :
    ∃ (o : CarP p) (b : CarBase) (C : StartC) (a : Ram (nParams p q z)), popVar (List.ofFn y) = .ok (popVariance y) ∧
      CarP.new (runKind q z) p srt (List.ofFn t) (List.ofFn y) (List.ofFn e) = .ok o ∧ o.b.setPrior (10 * √(popVariance y)) = .ok b ∧
      HasTarget (CarP p) (CarP.Core { o with b := b })
        (carmaTarget (m := nParams p q z) (runKind q z) p t y e (10 * √(popVariance y)) (1 / dmin) (1 / span) 1 1) ∧ Consts C b ∧
      Ram.new (propCovar (nParams p q z) (popVariance y) (List.ofFn y).length) 0.25 burnin = .ok a := by
  have hv := popVar_eq (show 0 < n by omega) y
  have h0 := popVar_pos (show 0 < n by omega) hy
  have hq' : z = true ∨ q < p := hq.imp id fun h => by omega
  obtain ⟨o, b, dmin', span', g1, g2, g3, g4, g5, g6, g7, g8⟩ := run_solid (q := q) srt (by omega) ht y e hp z hq' (10 * √(popVariance y))
  obtain rfl := h1.unique g4
  obtain rfl := h2.unique g5
  have hlen : 0 < (List.ofFn y).length := by simp; omega
  have hkind : ({ o with b := b } : CarP p).kind = runKind q z := (new_config g1).1
  have hkap : KappaOk ({ o with b := b } : CarP p) 1 1 := by
    intro hk
    rw [hkind] at hk
    unfold runKind at hk
    split at hk
    · cases hk
    · split at hk <;> cases hk
  have htime : b.time = List.ofFn t := by
    rw [setPrior_again (new_config g1).2.2] at g2
    injection g2 with g2
    rw [← g2]
    exact (new_time (new_config g1).2.2 : o.b.time = _)
  obtain ⟨C, hC⟩ := consts_exist (by omega) ht y e htime h1 g7
  obtain ⟨a, ha, -⟩ := ramNew_total (d := nParams p q z) h0 hlen burnin
  refine ⟨o, b, C, a, hv, g1, g2, ?_, hC, ha⟩
  rw [← hkind, ← g6]
  exact solid_target hp (show 0 < n by omega) ht g3 one_pos le_rfl hkap g7 g8 (by rw [hkind, npar_runKind])

lemma temperature_cold (nw : ℕ) : temperature nw 0 = if nw = 1 then 100 else 1 := by
  split
  · rename_i h1; rw [temperature, if_pos h1, Real.exp_log (by norm_num)]
  · rename_i h1; rw [temperature, if_neg h1]; simp

open scoped Classical in
/-- **C83, CARp and ZCAR.** Strong law for a whole call of `RunCarmaSampler` with an autoregressive model: at least three strictly increasing
times, no two measurements without error unless two such have different values (`ErrorsApart`), values not all equal, `2 ≤ p < 2500`, at
least one walker, `thin ≥ 1`, any initial vector and any number of burn-in iterations. If the random numbers are independent draws with the laws the code asks for, then with probability one there is a sequence `θ`
such that every call, whatever the number `N` of samples asked for, returns the first `N` vectors of `θ`, and the averages of `f` over
them tend to the mean of `f` under the posterior density to the power `1/T`, where `T` is 1 for two or more walkers and 100 for one walker. -/
theorem C83_car_run (srt : List ℝ → List ℕ) (hn : 3 ≤ n) (ht : StrictMono t) (y e : Fin n → ℝ) (he : ErrorsApart y e (if nw = 1 then 100 else 1)) (hy : ∃ i j, y i ≠ y j)
    {p q : ℕ} (hp : 2 ≤ p) (hp' : p < 2500) {z : Bool} (hq : z = true ∨ q = 0) (hw : 1 ≤ nw) (burnin : ℕ) {thin : ℕ} (hthin : 0 < thin)
    (init : List ℝ) {dmin span : ℝ} (h1 : IsMinGap t dmin) (h2 : IsSpan t span) {R : Ω → Rng} {dof : ℕ → ℕ} (hR : IsDraws P R dof)
    (hd : ∀ k, dof k = n - 1 ∨ dof k = 50) {f : (Fin (nParams p q z) → ℝ) → ℝ} (hf : Measurable f) :
    let G := carmaTarget (runKind q z) p t y e (10 * √(popVariance y)) (1 / dmin) (1 / span) 1 1
    let T : ℝ := if nw = 1 then 100 else 1
    HasMean G T f → ∀ᵐ ω ∂P, ∃ (F : ℕ) (θ : ℕ → Fin (nParams p q z) → ℝ),
      (∀ fuel, F ≤ fuel → ∀ N, ∃ c,
        runCarmaSampler fuel srt N burnin (List.ofFn t) (List.ofFn y) (List.ofFn e) p q nw z thin init (R ω) = .ok c ∧
        c.samples = (List.range N).map fun k => List.ofFn (θ k)) ∧
      Tendsto (fun N : ℕ => (∑ k ∈ Finset.range N, f (θ k)) / N) atTop (𝓝 (postMean G T f)) := by
  intro G T hi
  obtain ⟨o, b, C, a, hv, g1, g2, hT, hC, ha⟩ := call_built srt hn ht y e hy hp hq burnin h1 h2
  have hT0 : temperature nw 0 = T := temperature_cold nw
  rw [← hT0] at hi ⊢
  have hq' : z = true ∨ q < p := hq.imp id fun h => by omega
  filter_upwards [hR.nice, hR.lucky (p := p) (show 2 ≤ n by omega) hd,
    start_good (carma_meas _ _ _ _ _ _ _ _ _ _) hw (fun i => car_proper (z := z) hn ht (apart_mono he (temp_cold nw i)) hy hp hp' hq h1 h2 (temp_pos nw i)) burnin hthin hR C p init
      (fun i j => a.chol i j) hf hi] with ω e1 e2 e3
  obtain ⟨F, hF⟩ := carma_run_sure srt hn ht y e hy hp hp' z hq' hw burnin thin init e1.1 e1.2 e2
  exact run_averages hp hq hw hv g1 g2 hT hC ha hF e3

/-- The hypotheses are met: the default call of `run_mcmc` on three points, with a CAR(3) model, ten chains and an empty initial vector; the
relative frequency of a positive mean parameter. -/
example (srt : List ℝ → List ℕ) (burnin : ℕ) :
    haveI := fun i => drawLaw_prob (dof := passDof 3) (fun k => by unfold passDof; split <;> omega) i
    ∃ μ : ℝ, ∀ᵐ ω ∂(Measure.infinitePi (drawLaw (passDof 3))), ∃ (F : ℕ) (θ : ℕ → Fin (nParams 3 0 false) → ℝ),
      (∀ fuel, F ≤ fuel → ∀ N, ∃ c,
        runCarmaSampler fuel srt N burnin (List.ofFn exT) (List.ofFn exY) (List.ofFn fun _ : Fin 3 => (1 : ℝ)) 3 0 10 false 1 [] (rngOf ω) = .ok c ∧
        c.samples = (List.range N).map fun k => List.ofFn (θ k)) ∧
      Tendsto (fun N : ℕ => (∑ k ∈ Finset.range N, Set.indicator {x : Fin (nParams 3 0 false) → ℝ | 0 < x ⟨2, by decide⟩} (fun _ => (1 : ℝ)) (θ k)) / N)
        atTop (𝓝 μ) := by
  have hm : Measurable (Set.indicator {x : Fin (nParams 3 0 false) → ℝ | 0 < x ⟨2, by decide⟩} fun _ => (1 : ℝ)) :=
    measurable_const.indicator (measurableSet_lt measurable_const (measurable_pi_apply _))
  exact ⟨_, C83_car_run srt le_rfl exT_mono exY (fun _ => 1) (nw := 10) (apart_of_ne fun _ => one_ne_zero) ⟨0, 1, by simp [exY]⟩ (by norm_num) (by norm_num) (Or.inr rfl)
    (by norm_num) burnin one_pos [] ex_gap.1 ex_gap.2 (draws_exist fun k => by unfold passDof; split <;> omega)
    (fun k => by unfold passDof; split <;> omega) hm (hasMean_bounded (carma_meas _ _ _ _ _ _ _ _ _ _)
      (car_proper le_rfl exT_mono (apart_of_ne fun _ => one_ne_zero) ⟨0, 1, by simp [exY]⟩ (by norm_num) (by norm_num) (Or.inr rfl) ex_gap.1 ex_gap.2 (by norm_num)) hm
      (C := 1) fun x => by by_cases hx : x ∈ {x : Fin (nParams 3 0 false) → ℝ | 0 < x ⟨2, by decide⟩} <;> simp [Set.indicator, hx])⟩

end Verif.Props
