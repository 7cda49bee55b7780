import Verif.Theory.NullMass
import Verif.Theory.LimitSweep
import Verif.Spec.Settle
import Verif.Props.Average

/-!
C84: where the posterior has infinite mass the sampler never settles.
-/

namespace Verif.Props

open Verif.Model Verif.Spec Verif.Theory MeasureTheory Filter Topology
open scoped ENNReal

variable {fuel : ℕ} {srt : List ℝ → List ℕ} {N burnin thin : ℕ} {init : List ℝ} {r : Rng} {p q nw n : ℕ} {z : Bool} {t y e : Fin n → ℝ}

/-- What a state of a CARMA run after the burn-in is, in the terms of the chain of sweeps. -/
theorem carma_at (hn : 2 ≤ n) (ht : StrictMono t) (hp : 2 ≤ p) (hq : z = true ∨ q < p) {s : Samp (CarP p) (nParams p q z)}
    (hs : carmaSampler srt N burnin (List.ofFn t) (List.ofFn y) (List.ofFn e) p q nw z thin r = .ok s) {k : ℕ} (hk : burnin ≤ k)
    {u : Samp (CarP p) (nParams p q z)} (h : RunState fuel s init k u) {dmin span : ℝ} (h1 : IsMinGap t dmin) (h2 : IsSpan t span) :
    ∃ (inv : CarP p → Prop) (x : Fin nw → Fin (nParams p q z) → ℝ),
      HasTarget (CarP p) inv (carmaTarget (m := nParams p q z) (runKind q z) p t y e (10 * √(popVariance y)) (1 / dmin) (1 / span) 1 1) ∧
      At inv (carmaTarget (m := nParams p q z) (runKind q z) p t y e (10 * √(popVariance y)) (1 / dmin) (1 / span) 1 1)
        (fun i : Fin nw => temperature nw i) u.steps u (x, u.rng.stud, u.rng.unif) ∧
      Stack nw u.steps ∧ (∀ st ∈ u.steps, InRange nw st) ∧
      Alive (carmaTarget (m := nParams p q z) (runKind q z) p t y e (10 * √(popVariance y)) (1 / dmin) (1 / span) 1 1) x ∧ 0 < nw := by
  have hv := popVar_eq (show 0 < n by omega) y
  obtain ⟨o, b, dmin', span', g1, g2, g3, g4, g5, g6, g7, g8⟩ := run_solid (q := q) srt (by omega) ht y e hp z hq (10 * √(popVariance y))
  obtain rfl := h1.unique g4
  obtain rfl := h2.unique g5
  have hB := carmaSampler_inv hs
  have hkind : ({ o with b := b } : CarP p).kind = runKind q z := (new_config g1).1
  have hkap : KappaOk ({ o with b := b } : CarP p) 1 1 := by
    intro hk
    rw [hkind] at hk
    unfold runKind at hk
    split at hk
    · cases hk
    · split at hk <;> cases hk
  have hT : HasTarget (CarP p) (CarP.Core { o with b := b })
      (carmaTarget (m := nParams p q z) (runKind q z) p t y e (10 * √(popVariance y)) (1 / dmin) (1 / span) 1 1) := by
    rw [← hkind, ← g6]
    exact solid_target hp (show 0 < n by omega) ht g3 one_pos le_rfl hkap g7 g8 (by rw [hkind, npar_runKind])
  generalize carmaTarget (m := nParams p q z) (runKind q z) p t y e (10 * √(popVariance y)) (1 / dmin) (1 / span) 1 1 = G at hT ⊢
  obtain ⟨hlen, -, hch⟩ := carma_chains hs h
  obtain ⟨s0, s1, init', k1, -, k3, k4⟩ := h
  obtain ⟨⟨var, o', b', c1, c2, c3, hc⟩, -⟩ := carma_sound hB (SampRec.of_same k1) k3 (iterate_of_sweeps k4)
  cases hv.symm.trans c1
  cases g1.symm.trans c2
  cases g2.symm.trans c3
  have hsteps : s1.steps = s.steps := (startLoop_steps k3).trans k1.steps
  obtain ⟨var', a, d1, d2, d3⟩ := hB.steps
  have hpos := hB.pos
  have hram : ∀ i a', .ram i a' ∈ s1.steps → a' = a := by
    intro i a' ha'
    rw [hsteps, d3] at ha'
    rcases tempered_fresh ha' with ⟨i', he⟩ | ⟨i', he⟩
    · injection he
    · cases he
  have hfr := steps_frozen (M := nw) k4 hk (fun st hst => by
      rw [hsteps, d3] at hst
      have hk : stepKind st ∈ stepOrder (nw - 1) := by
        rw [← tempered_kind (a := a) (report := (burnin + thin * N : ℤ))]
        exact List.mem_map_of_mem hst
      rcases tempered_fresh hst with ⟨i, rfl⟩ | ⟨i, rfl⟩
      · have := (stepOrder_le _ hk).1
        exact (show i < nw by omega)
      · have := stepOrder_le _ hk
        exact ⟨this.2 rfl, by have h0 : i ≤ nw - 1 := this.1; show i < nw; omega⟩) (fun i a' ha' => by
      rw [hram i a' ha']; exact ram_new_fresh d2)
  have hstack : Stack nw u.steps := by
    obtain ⟨q1, q2⟩ := sweeps_kinds k4
    refine ⟨by omega, ?_, fun i b hb => ?_⟩
    · rw [q1, hsteps, d3, tempered_kind]
    · obtain ⟨a', f1, f2⟩ := q2 i b hb
      rw [hram i a' f1] at f2
      obtain ⟨m1, m2, -⟩ := C27_ram_forever (CarP p) (by norm_num) (by norm_num) d2 f2
      exact Upper.det_ne ⟨m1, m2⟩
  have hval : ∀ i : Fin nw, ∃ x : Fin (nParams p q z) → ℝ, ∀ c, u.chains[(i : ℕ)]? = some c → c.value = List.ofFn x := by
    intro i
    have hi : u.chains[(i : ℕ)]? = some (u.chains[(i : ℕ)]'(by rw [hlen]; exact i.2)) := List.getElem?_eq_getElem _
    obtain ⟨x, hx⟩ := list_ofFn_of_length (hc _ (List.mem_of_getElem? hi)).len
    refine ⟨x, fun c hcm => ?_⟩
    rw [hi] at hcm
    injection hcm with hcm
    rw [← hcm]; exact hx
  choose x hx using hval
  have hag : ∀ (i : Fin nw) c, u.chains[(i : ℕ)]? = some c → Agrees c.logpost (G (x i)) := by
    intro i c hcm
    have := (hc c (List.mem_of_getElem? hcm)).valued
    rw [hx i c hcm] at this
    exact agrees_of_valued hT g3.core this
  refine ⟨_, x, hT, ⟨hlen, fun i c hcm => ⟨(hc c (List.mem_of_getElem? hcm)).core, (hch i c hcm).1, hx i c hcm, hag i c hcm⟩, rfl, rfl,
    frozen_refl hfr.2⟩, hstack, hfr.1, fun i => ?_, hpos⟩
  have hi : u.chains[(i : ℕ)]? = some (u.chains[(i : ℕ)]'(by rw [hlen]; exact i.2)) := List.getElem?_eq_getElem _
  exact alive_of_agrees (hag i _ hi) (hc _ (List.mem_of_getElem? hi)).fin

/-- What a state of a CAR(1) run after the burn-in is, in the terms of the chain of sweeps. -/
theorem car1_at (hn : 2 ≤ n) (ht : StrictMono t) {s : Samp Car1 4}
    (hs : car1Sampler srt burnin (List.ofFn t) (List.ofFn y) (List.ofFn e) r = .ok s) {k : ℕ} (hk : burnin ≤ k)
    {u : Samp Car1 4} (h : RunState fuel s init k u) (hfin : ∀ c ∈ u.chains, c.logpost.isFin) {dmin span : ℝ} (h1 : IsMinGap t dmin)
    (h2 : IsSpan t span) :
    ∃ (inv : Car1 → Prop) (x : Fin 1 → Fin 4 → ℝ),
      HasTarget Car1 inv (car1Target t y e (10 * √(popVariance y)) (1 / dmin) (1 / span)) ∧
      At inv (car1Target t y e (10 * √(popVariance y)) (1 / dmin) (1 / span)) (fun _ : Fin 1 => (1 : ℝ)) u.steps u (x, u.rng.stud, u.rng.unif) ∧
      Stack 1 u.steps ∧ (∀ st ∈ u.steps, InRange 1 st) ∧ Alive (car1Target t y e (10 * √(popVariance y)) (1 / dmin) (1 / span)) x := by
  have hv := popVar_eq (show 0 < n by omega) y
  obtain ⟨o, b, dmin', span', g1, g1', g2, g3, g4, g5, g6, g7, g8⟩ := run_solid1 srt (by omega) ht y e (10 * √(popVariance y))
  obtain rfl := h1.unique g4
  obtain rfl := h2.unique g5
  have hB := car1Sampler_inv hs
  have hT := solid1_target (show 0 < n by omega) ht g3 (fmax := 1 / dmin) (fmin := 1 / span) g7 g8
  rw [show ({ o with b := b } : Car1).b.maxStdev = 10 * √(popVariance y) from g6] at hT
  obtain ⟨s0, s1, init', k1, -, k3, k4⟩ := h
  obtain ⟨var, o', b', c1, m1, m2, m3, m4, -, hm⟩ := car1_sound hB (SampRec.of_same k1) k3
  cases hv.symm.trans m1
  cases g1.symm.trans m2
  cases g2.symm.trans m3
  obtain ⟨-, c, e1, e2, e3, e4, -, -, e7, -⟩ := hm k u (iterate_of_sweeps k4)
  have hsteps : s1.steps = s.steps := (startLoop_steps k3).trans k1.steps
  obtain ⟨var', a, d1, d2, d3⟩ := hB.steps
  have hram : ∀ i a', .ram i a' ∈ s1.steps → a' = a := by
    intro i a' ha'
    rw [hsteps, d3, List.mem_singleton] at ha'
    injection ha'
  have hfr := steps_frozen (M := 1) k4 hk (fun st hst => by
      rw [hsteps, d3, List.mem_singleton] at hst
      rw [hst]; exact (show 0 < 1 by norm_num)) (fun i a' ha' => by
      rw [hram i a' ha']; exact ram_new_fresh d2)
  have hstack : Stack 1 u.steps := by
    obtain ⟨q1, q2⟩ := sweeps_kinds k4
    refine ⟨one_pos, by rw [q1, hsteps, d3]; rfl, fun i b hb => ?_⟩
    obtain ⟨a', f1, f2⟩ := q2 i b hb
    rw [hram i a' f1] at f2
    obtain ⟨m1, m2, -⟩ := C27_ram_forever Car1 (by norm_num) (by norm_num) d2 f2
    exact Upper.det_ne ⟨m1, m2⟩
  have hget : ∀ (i : Fin 1) c', u.chains[(i : ℕ)]? = some c' → c' = c := by
    intro i c' hc'
    obtain rfl := Subsingleton.elim i 0
    rw [e1] at hc'
    injection hc' with hc'
    exact hc'.symm
  obtain ⟨x, hx⟩ := list_ofFn_of_length e4
  rw [hx] at e3
  have hag : Agrees c.logpost (car1Target t y e (10 * √(popVariance y)) (1 / dmin) (1 / span) x) := agrees_of_valued hT g3.core e3
  exact ⟨_, fun _ => x, hT, ⟨by rw [e1]; rfl, fun i c' hcm => by rw [hget i c' hcm]; exact ⟨e2, e7, hx, hag⟩, rfl, rfl, frozen_refl hfr.2⟩,
    hstack, hfr.1, fun _ => alive_of_agrees hag (hfin c (by rw [e1]; simp))⟩

theorem chain_values {μ : Type} [Target μ] {inv : μ → Prop} {d M : ℕ} {G : LogTarget d} {T : Fin M → ℝ} {l : List (StepSt d)} {u : Samp μ d}
    {z : McState M d} (h : At inv G T l u z) : u.chains.map Par.value = List.ofFn fun i => List.ofFn (z.1 i) := by
  refine List.ext_getElem? fun k => ?_
  by_cases hk : k < M
  · have hk' : k < u.chains.length := by rw [h.length]; exact hk
    have e1 : u.chains[k]? = some u.chains[k] := List.getElem?_eq_getElem hk'
    have := (h.chain ⟨k, hk⟩ _ e1).2.2.1
    rw [List.getElem?_map, e1, Option.map_some, this, List.getElem?_ofFn, dif_pos hk]
  · rw [List.getElem?_eq_none (by rw [List.length_map, h.length]; omega), List.getElem?_eq_none (by rw [List.length_ofFn]; omega)]

/-- Any state of chains and random numbers can be shown by the machine. -/
theorem shows_exist {μ : Type} {d M : ℕ} (G : LogTarget d) (t : Samp μ d) (hlen : t.chains.length = M) (z : McState M d) :
    ∃ u, SameMachine t u ∧ Shows G u z := by
  let v : ℕ → List ℝ := fun i => if h : i < M then List.ofFn (z.1 ⟨i, h⟩) else []
  let g : ℕ → Dbl := fun i => if h : i < M then (match G (z.1 ⟨i, h⟩) with | some l => .fin l | none => .nan) else .nan
  let u : Samp μ d := { t with chains := t.chains.mapIdx fun i c => { c with value := v i, logpost := g i }, rng := { t.rng with stud := z.2.1, unif := z.2.2 } }
  have hget : ∀ (i : Fin M) c, u.chains[(i : ℕ)]? = some c → c.value = v i ∧ c.logpost = g i := by
    intro i c hc
    have hc : (t.chains.mapIdx fun i c => { c with value := v i, logpost := g i })[(i : ℕ)]? = some c := hc
    rw [List.getElem?_mapIdx, Option.map_eq_some_iff] at hc
    obtain ⟨c', -, rfl⟩ := hc
    exact ⟨rfl, rfl⟩
  refine ⟨u, ⟨?_, ?_, rfl⟩, ⟨?_, fun i c hc => ?_, fun i c hc => ?_, rfl, rfl⟩⟩
  · show (t.chains.mapIdx fun i c => { c with value := v i, logpost := g i }).map Par.obj = _
    refine List.ext_getElem? fun k => ?_
    rw [List.getElem?_map, List.getElem?_mapIdx, List.getElem?_map, Option.map_map]
    rfl
  · show (t.chains.mapIdx fun i c => { c with value := v i, logpost := g i }).map Par.temp = _
    refine List.ext_getElem? fun k => ?_
    rw [List.getElem?_map, List.getElem?_mapIdx, List.getElem?_map, Option.map_map]
    rfl
  · show (t.chains.mapIdx _).length = M
    rw [List.length_mapIdx, hlen]
  · rw [(hget i c hc).1]
    simp only [v, dif_pos i.2]
  · rw [(hget i c hc).2]
    simp only [g, dif_pos i.2]
    cases G (z.1 i) with
    | none => exact fun h => h
    | some l => rfl

theorem one_integrable {d : ℕ} {G : LogTarget d} (hG : MeasTarget G) {T : Fin 1 → ℝ} {f : (Fin d → ℝ) → ℝ} (hi : HasMean G (T 0) f) :
    Integrable (fun x : Fin 1 → Fin d → ℝ => f (x 0)) (chainLaw G T) := by
  have := fun i => tempered_sigma G (T i)
  have hmarg : (chainLaw G T).map (fun x => x 0) = (volume : Measure (Fin d → ℝ)).withDensity (Verif.Spec.tempered G (T 0)) := by
    rw [chainLaw_pi hG]
    refine (Measure.pi_map_eval _ 0).trans ?_
    simp
  have hi1 : Integrable f ((volume : Measure (Fin d → ℝ)).withDensity (Verif.Spec.tempered G (T 0))) :=
    (integrable_withDensity_iff (hG.tempered _) (Eventually.of_forall fun y => tempered_ne_top.lt_top)).mpr hi
  rw [← hmarg] at hi1
  exact hi1.comp_measurable (measurable_pi_apply 0)

theorem boxes {d M : ℕ} {G : LogTarget d} (hG : MeasTarget G) {T : Fin M → ℝ} {E : Set (Fin d → ℝ)} (hE : MeasurableSet E)
    (hbox : ∀ i : Fin M, ∫⁻ x in E, Verif.Spec.tempered G (T i) x < ∞) :
    MeasurableSet (Set.univ.pi fun _ : Fin M => E) ∧ chainLaw G T (Set.univ.pi fun _ => E) ≠ ∞ := by
  refine ⟨MeasurableSet.univ_pi fun _ => hE, ?_⟩
  rw [chainLaw_box hG T _ fun _ => hE]
  exact ENNReal.prod_ne_top fun i _ => (hbox i).ne

theorem boxesOff {d M : ℕ} {G : LogTarget d} (hG : MeasTarget G) {T : Fin M → ℝ} {E : Set (Fin d → ℝ)} (hE : MeasurableSet E)
    (hbox : ∀ i : Fin M, ∫⁻ x in E, Verif.Spec.tempered G (T i) x < ∞) :
    MeasurableSet ((Set.univ.pi fun _ : Fin M => E) ∪ {x | Alive G x}ᶜ) ∧ chainLaw G T ((Set.univ.pi fun _ => E) ∪ {x | Alive G x}ᶜ) ≠ ∞ := by
  obtain ⟨h1, h2⟩ := boxes (T := T) hG hE hbox
  refine ⟨h1.union (alive_measurable hG).compl, ne_top_of_le_ne_top ?_ (measure_union_le _ _)⟩
  rw [(chainLaw_null (T := T) hG {x | Alive G x}ᶜ).mpr (by simp), add_zero]
  exact h2

theorem boxes_cover {d M : ℕ} {G : LogTarget d} {E : ℕ → Set (Fin d → ℝ)} (hcov : ∀ x, (G x).isSome → ∃ K, ∀ K', K ≤ K' → x ∈ E K') :
    ⋃ K : ℕ, ((Set.univ.pi fun _ : Fin M => E K) ∪ {x | Alive G x}ᶜ) = Set.univ := by
  refine Set.eq_univ_of_forall fun x => ?_
  by_cases hx : Alive G x
  · choose K hK using fun i : Fin M => hcov (x i) (hx i)
    exact Set.mem_iUnion.mpr ⟨∑ i, K i, Or.inl fun i _ => hK i _ (Finset.single_le_sum (fun _ _ => Nat.zero_le _) (Finset.mem_univ i))⟩
  · exact Set.mem_iUnion.mpr ⟨0, Or.inr hx⟩

section
variable {μ : Type} [Target μ] {inv : μ → Prop} {d M : ℕ} {G : LogTarget d} {T : Fin M → ℝ} {u : Samp μ d} {x : Fin M → Fin d → ℝ}
  (hT : HasTarget μ inv G) (hpos : ∀ i, 0 < T i) (hAt : At inv G T u.steps u (x, u.rng.stud, u.rng.unif)) (hst : ∀ st ∈ u.steps, InRange M st)
include hT hpos hAt hst

theorem endsIn_eq (k : ℕ) (A : Set (Fin M → Fin d → ℝ)) : EndsIn u k A = {w | (sweepsMap G T u.steps k (x, w)).1 ∈ A} := by
  ext w
  have h1 : At inv G T u.steps (reseed u w) (x, w) := ⟨hAt.length, hAt.chain, rfl, rfl, hAt.steps⟩
  obtain ⟨u', h2, h3⟩ := at_sweeps hT hpos hst h1 k
  have h4 := chain_values h3
  constructor
  · rintro ⟨u2, v, m1, m2, m3⟩
    have e := iterate_of_sweeps m1
    rw [h2] at e
    cases e
    have e2 : v = (sweepsMap G T u.steps k (x, w)).1 := by
      funext i
      exact List.ofFn_injective (congrFun (List.ofFn_injective (m2.symm.trans h4)) i)
    rw [e2] at m3
    exact m3
  · intro hA
    exact ⟨u', _, sweeps_of_iterate h2, h4, hA⟩

omit hT hpos hst in
theorem machine_at {u1 : Samp μ d} {z : McState M d} (g1 : SameMachine u u1) (g2 : Shows G u1 z) : At inv G T u.steps u1 z := by
  refine ⟨g2.length, fun i c hc => ?_, g2.stud, g2.unif, by rw [g1.steps]; exact hAt.steps⟩
  have ho := congrArg (fun l => l[(i : ℕ)]?) g1.obj
  have ht := congrArg (fun l => l[(i : ℕ)]?) g1.temp
  simp only [List.getElem?_map, hc, Option.map_some] at ho ht
  cases hc' : u.chains[(i : ℕ)]? with
  | none => rw [hc'] at ho; cases ho
  | some c' =>
      rw [hc', Option.map_some, Option.some.injEq] at ho ht
      refine ⟨?_, ?_, g2.value i c hc, g2.logpost i c hc⟩
      · rw [ho]; exact (hAt.chain i c' hc').1
      · rw [ht]; exact (hAt.chain i c' hc').2.1

theorem keeps_iff (ν : Measure ℝ) [IsProbabilityMeasure ν] (L : Measure (Fin M → Fin d → ℝ)) :
    KeepsChains G L ν u ↔ ∀ n, MeasurePreserving (sweepsMap G T u.steps n) (L.prod (rngLaw ν)) (L.prod (rngLaw ν)) := by
  constructor
  · intro hkeep n
    obtain ⟨Φ, hpres, hΦ⟩ := hkeep n
    have e : Φ = sweepsMap G T u.steps n := by
      funext z
      obtain ⟨u1, g1, g2⟩ := shows_exist G u hAt.length z
      obtain ⟨u2, g3, g4⟩ := hΦ u1 z g1 g2
      obtain ⟨u3, g5, g6⟩ := at_sweeps hT hpos hst (machine_at hAt g1 g2) n
      have := iterate_of_sweeps g3
      rw [g5] at this
      cases this
      have e1 : ∀ i : Fin M, (Φ z).1 i = (sweepsMap G T u.steps n z).1 i := by
        intro i
        obtain ⟨c, hc⟩ : ∃ c, u2.chains[(i : ℕ)]? = some c := ⟨_, List.getElem?_eq_getElem (by rw [g6.length]; exact i.2)⟩
        exact List.ofFn_injective ((g4.value i c hc).symm.trans (g6.chain i c hc).2.2.1)
      exact Prod.ext (funext e1) (Prod.ext (g4.stud.symm.trans g6.stud) (g4.unif.symm.trans g6.unif))
    rw [← e]
    exact hpres
  · intro h n
    refine ⟨_, h n, fun u1 z g1 g2 => ?_⟩
    obtain ⟨u3, g5, g6⟩ := at_sweeps hT hpos hst (machine_at hAt g1 g2) n
    exact ⟨u3, sweeps_of_iterate g5, g6.length, fun i c hc => (g6.chain i c hc).2.2.1, fun i c hc => (g6.chain i c hc).2.2.2, g6.stud, g6.unif⟩

section
variable (hG : MeasTarget G) (h0 : ∀ i, mass G (T i) ≠ 0) {i0 : Fin M} (htop : mass G (T i0) = ∞) {ν : Measure ℝ} [IsProbabilityMeasure ν]
  (hν : volume ≪ ν) (hν' : ν ≪ volume) (hsym : ν.map (fun x => -x) = ν) (hl : Stack M u.steps)
include hG h0 htop hν hν' hsym hl

/-- A chain of infinite mass is seldom in a set of finite mass. -/
theorem escapes (hx : Alive G x) (hthin : 0 < thin) {E : Set (Fin d → ℝ)} (hE : MeasurableSet E) (hfin : ∀ i, ∫⁻ x in E, Verif.Spec.tempered G (T i) x < ∞)
    {D : List ℝ → Prop} (hD : ∀ x, D (List.ofFn x) ↔ x ∈ E) :
    ∀ᵐ w ∂(drawsOf ν).prod (drawsOf unifLaw), ShareTo thin (reseed u w) D 0 := by
  classical
  obtain ⟨hE', hfin'⟩ := boxes hG hE hfin
  refine (sweeps_null hG h0 htop hν hν' hsym hl hst hx (measurable_const.indicator hE') (indicator_integrable hE' hfin') hthin).mono fun w hw => ?_
  have hat : ∀ k, ∃ u', Sweeps (reseed u w) (thin * (k + 1)) u' ∧ u'.chains.map Par.value = List.ofFn fun i =>
      List.ofFn ((sweepsMap G T u.steps (thin * (k + 1)) (x, w)).1 i) := by
    intro k
    have h1 : At inv G T u.steps (reseed u w) (x, w) := ⟨hAt.length, hAt.chain, rfl, rfl, hAt.steps⟩
    obtain ⟨u', h2, h3⟩ := at_sweeps hT hpos hst h1 (thin * (k + 1))
    exact ⟨u', sweeps_of_iterate h2, chain_values h3⟩
  refine ⟨_, hat, ?_⟩
  refine hw.congr fun n => ?_
  congr 1
  rw [Finset.card_filter, Nat.cast_sum]
  refine Finset.sum_congr rfl fun k _ => ?_
  generalize (sweepsMap G T u.steps (thin * (k + 1)) (x, w)).1 = v
  have hiff : (∀ θ ∈ (List.ofFn fun i => List.ofFn (v i)), D θ) ↔ v ∈ Set.univ.pi fun _ : Fin M => E := by
    simp only [List.mem_ofFn, forall_exists_index, forall_apply_eq_imp_iff, Set.mem_pi, Set.mem_univ, true_implies, hD]
  by_cases hv : v ∈ Set.univ.pi fun _ : Fin M => E
  · rw [Set.indicator_of_mem hv, if_pos (hiff.mpr hv), Nat.cast_one]
  · rw [Set.indicator_of_notMem hv, if_neg (fun h => hv (hiff.mp h)), Nat.cast_zero]

theorem vanishes (hx : Alive G x) {E : Set (Fin d → ℝ)} (hE : MeasurableSet E) (hfin : ∀ i, ∫⁻ x in E, Verif.Spec.tempered G (T i) x < ∞)  :
    Tendsto (fun k => (drawsOf ν).prod (drawsOf unifLaw) (EndsIn u k {x : Fin M → Fin d → ℝ | ∀ i, x i ∈ E})) atTop (𝓝 0) := by
  simp only [endsIn_eq hT hpos hAt hst]
  obtain ⟨b1, b2⟩ := boxes hG hE hfin
  have e : {x : Fin M → Fin d → ℝ | ∀ i, x i ∈ E} = Set.univ.pi fun _ => E := by
    ext x
    simp [Set.mem_pi]
  rw [e]
  exact sweeps_vanish hG hν hν' hsym hl hst h0 htop hx b1 b2

section
variable {E : ℕ → Set (Fin d → ℝ)} (hE : ∀ K, MeasurableSet (E K)) (hfin : ∀ K i, ∫⁻ x in E K, Verif.Spec.tempered G (T i) x < ∞)
  (hcov : ∀ x, (G x).isSome → ∃ K, ∀ K', K ≤ K' → x ∈ E K')
include hE hfin hcov

theorem no_limit (hx : Alive G x) : ¬ ∃ L : Measure (Fin M → Fin d → ℝ), IsProbabilityMeasure L ∧ ∀ A, MeasurableSet A →
      Tendsto (fun k => (drawsOf ν).prod (drawsOf unifLaw) (EndsIn u k A)) atTop (𝓝 (L A)) := by
  rintro ⟨L, hL, hlim⟩
  simp only [endsIn_eq hT hpos hAt hst] at hlim
  exact sweeps_no_limit hG h0 htop hν hν' hsym hl hst hx (fun K => (boxesOff hG (hE K) (hfin K)).1) (fun K => (boxesOff hG (hE K) (hfin K)).2)
    (boxes_cover hcov) L hlim

theorem no_law : ¬ ∃ L : Measure (Fin M → Fin d → ℝ), IsProbabilityMeasure L ∧ (∀ᵐ x ∂L, ∀ i, G (x i) ≠ none) ∧ KeepsChains G L ν u := by
  rintro ⟨L, hL, hal, hkeep⟩
  exact sweeps_no_law hG h0 htop hν hν' hsym hl hst (fun K => (boxesOff hG (hE K) (hfin K)).1) (fun K => (boxesOff hG (hE K) (hfin K)).2)
    (boxes_cover hcov) L (hal.mono fun x hx i => Option.isSome_iff_ne_none.mpr (hx i)) ((keeps_iff hT hpos hAt hst ν L).mp hkeep 1)

end

end

end

/-- The smallest temperature of a run with `nw` walkers. -/
theorem temp_zero (nw : ℕ) : temperature nw 0 = if nw = 1 then 100 else 1 := by
  unfold temperature
  split
  · exact Real.exp_log (by norm_num)
  · simp

/-- Where a posterior density of infinite mass has finite mass. -/
theorem carma_mass (hn : 3 ≤ n) (ht : StrictMono t) (hy : ∃ i j, y i ≠ y j) (hp : 2 ≤ p) (hp' : p < 2500) (hq : z = true ∨ q < p)
    (hbad : z = false ∧ 1 ≤ q ∨ ¬ ErrorsApart y e (if nw = 1 then 100 else 1)) {dmin span : ℝ} (h1 : IsMinGap t dmin) (h2 : IsSpan t span) :
    let G := carmaTarget (m := nParams p q z) (runKind q z) p t y e (10 * √(popVariance y)) (1 / dmin) (1 / span) 1 1
    (∀ i : Fin nw, mass G (temperature nw i) ≠ 0) ∧ mass G (temperature nw 0) = ∞ ∧
    (∀ (K : ℕ) (i : Fin nw), ∫⁻ x in maBox (¬ ErrorsApart y e (if nw = 1 then 100 else 1)) (nParams p q z) p K, Verif.Spec.tempered G (temperature nw i) x < ∞) ∧
    ∀ x, (G x).isSome → ∃ K, ∀ K', K ≤ K' → x ∈ maBox (¬ ErrorsApart y e (if nw = 1 then 100 else 1)) (nParams p q z) p K' := by
  intro G
  obtain ⟨d1, d2⟩ := gap_ratio hn ht h1 h2
  have hspan : 0 < span := by linarith
  refine ⟨fun i => (car_mass_pos hn ht hy hp' h1 h2).ne', ?_, fun K i => ?_, fun x hx => maBox_cover _ _ _ _ fun hb => ?_⟩
  · by_cases hma : z = false ∧ 1 ≤ q
    · obtain ⟨rfl, hq1⟩ := hma
      exact carma_mass_top hn ht hp hq1 (hq.resolve_left (by simp)) h1 h2 (temp_pos _ _) (car_mass_pos hn ht hy hp' h1 h2).ne'
    · have hq0 : z = true ∨ q = 0 := by
        cases z
        · right; simp at hma; omega
        · exact Or.inl rfl
      have := hbad.resolve_left hma
      rw [← temp_zero] at this
      exact car_mass_top hn ht this hy hp hp' hq0 h1 h2 (temp_pos _ _)
  · refine carma_box_finite (by omega) (by omega) ht (by positivity) (temp_pos _ _) ?_ (order_runKind z hq) (npar_runKind p q z).symm
      (fun hb => apart_mono (not_not.mp hb) (temp_cold _ _)) K
    unfold runKind
    split
    · simp
    · split <;> simp
  · have hm : 0 < nParams p q z := by unfold nParams; split <;> omega
    obtain ⟨l, hx⟩ := Option.isSome_iff_exists.mp hx
    have hx : carmaTarget (m := nParams p q z) (runKind q z) p t y e (10 * √(popVariance y)) (1 / dmin) (1 / span) 1 1 x = some l := hx
    unfold carmaTarget at hx
    dsimp only at hx
    split at hx
    case isFalse => cases hx
    case isTrue hc =>
      rw [← temp_zero] at hb
      obtain ⟨-, i, hi, -⟩ := not_apart (temp_pos nw 0) hb
      exact lt_of_le_of_ne hc.1.sd_lo (Ne.symm (hc.2.resolve_right fun h => h i hi))

/-- The condition on the parameters in terms of the list. -/
theorem box_iff {b : Prop} {d K : ℕ} (x : Fin d → ℝ) :
    ((b → 1 / ((K : ℝ) + 1) ≤ at0 (List.ofFn x) 0) ∧ ∀ j, p + 3 ≤ j → |at0 (List.ofFn x) j| ≤ K) ↔ x ∈ maBox b d p K := by
  refine and_congr Iff.rfl ⟨fun h j hj => ?_, fun h j hj => ?_⟩
  · have := h j hj
    rwa [at0_ofFn _ j.2] at this
  · by_cases hjd : j < d
    · rw [at0_ofFn _ hjd]; exact h ⟨j, hjd⟩ hj
    · have : at0 (List.ofFn x) j = 0 := by
        simp only [at0, List.getD_eq_getElem?_getD]
        rw [List.getElem?_eq_none (by rw [List.length_ofFn]; omega)]; rfl
      rw [this, abs_zero]; exact Nat.cast_nonneg K

/-- **C84, `RunCarmaSampler`.** In the two cases in which the posterior density at the temperature of the cold chain has infinite mass (C68: there are
moving-average parameters, or too many measurements without error all of one value) the chains run away. From any state `u` of the run after
the burn-in, with independent random numbers as in `C69_car`: with probability 1, for every `K`, the share of the recorded times at which in
all chains the moving-average parameters are at most `K` in size (and in the second case the standard deviation is at least `1/(K+1)`)
tends to 0. -/
theorem C84_carma_escapes (hn : 3 ≤ n) (ht : StrictMono t) (hy : ∃ i j, y i ≠ y j) (hp : 2 ≤ p) (hp' : p < 2500)
    (hq : z = true ∨ q < p) (hbad : z = false ∧ 1 ≤ q ∨ ¬ ErrorsApart y e (if nw = 1 then 100 else 1)) {s : Samp (CarP p) (nParams p q z)}
    (hs : carmaSampler srt N burnin (List.ofFn t) (List.ofFn y) (List.ofFn e) p q nw z thin r = .ok s) {k : ℕ} (hk : burnin ≤ k)
    {u : Samp (CarP p) (nParams p q z)} (h : RunState fuel s init k u)
    (hthin : 0 < thin) (ν : Measure ℝ) [IsProbabilityMeasure ν] (hsym : ν.map (fun x => -x) = ν) (hν : volume ≪ ν) (hν' : ν ≪ volume) :
    ∀ᵐ w ∂(drawsOf ν).prod (drawsOf unifLaw), ∀ K : ℕ, ShareTo thin (reseed u w)
      (fun θ => (¬ ErrorsApart y e (if nw = 1 then 100 else 1) → 1 / ((K : ℝ) + 1) ≤ at0 θ 0) ∧ ∀ j, p + 3 ≤ j → |at0 θ j| ≤ K) 0 := by
  obtain ⟨o, b, dmin, span, -, -, -, h1, h2, -⟩ := run_solid (q := q) srt (show 2 ≤ n by omega) ht y e hp z hq (10 * √(popVariance y))
  obtain ⟨inv, x, hT, hAt, hl, hst, hx, hnw⟩ := carma_at (show 2 ≤ n by omega) ht hp hq hs hk h h1 h2
  obtain ⟨m1, m2, m3, -⟩ := carma_mass hn ht hy hp hp' hq hbad h1 h2
  rw [ae_all_iff]
  intro K
  exact escapes hT (fun i => temp_pos _ _) hAt hst (carma_meas _ _ _ _ _ _ _ _ _ _) m1 (i0 := ⟨0, hnw⟩) m2 hν hν' hsym hl hx hthin
    (maBox_measurable _ _ _ _) (m3 K) box_iff

/-- **C84, no limiting law.** In the same situation the joint law of the chains after `k` sweeps has no limit: no probability law gives, for
every measurable set, the limit of the probabilities that the values of the chains are in the set. -/
theorem C84_carma_no_limit (hn : 3 ≤ n) (ht : StrictMono t) (hy : ∃ i j, y i ≠ y j) (hp : 2 ≤ p) (hp' : p < 2500)
    (hq : z = true ∨ q < p) (hbad : z = false ∧ 1 ≤ q ∨ ¬ ErrorsApart y e (if nw = 1 then 100 else 1)) {s : Samp (CarP p) (nParams p q z)}
    (hs : carmaSampler srt N burnin (List.ofFn t) (List.ofFn y) (List.ofFn e) p q nw z thin r = .ok s) {k : ℕ} (hk : burnin ≤ k)
    {u : Samp (CarP p) (nParams p q z)} (h : RunState fuel s init k u)
    (ν : Measure ℝ) [IsProbabilityMeasure ν] (hsym : ν.map (fun x => -x) = ν) (hν : volume ≪ ν) (hν' : ν ≪ volume) :
    ¬ ∃ L : Measure (Fin nw → Fin (nParams p q z) → ℝ), IsProbabilityMeasure L ∧ ∀ A, MeasurableSet A →
      Tendsto (fun k => (drawsOf ν).prod (drawsOf unifLaw) (EndsIn u k A)) atTop (𝓝 (L A)) := by
  obtain ⟨o, b, dmin, span, -, -, -, h1, h2, -⟩ := run_solid (q := q) srt (show 2 ≤ n by omega) ht y e hp z hq (10 * √(popVariance y))
  obtain ⟨inv, x, hT, hAt, hl, hst, hx, hnw⟩ := carma_at (show 2 ≤ n by omega) ht hp hq hs hk h h1 h2
  obtain ⟨m1, m2, m3, m4⟩ := carma_mass hn ht hy hp hp' hq hbad h1 h2
  exact no_limit hT (fun i => temp_pos _ _) hAt hst (carma_meas _ _ _ _ _ _ _ _ _ _) m1 (i0 := ⟨0, hnw⟩) m2 hν hν' hsym hl
    (maBox_measurable _ _ _) m3 m4 hx

/-- **C84, no law is kept.** In the same situation no probability law of the chains, concentrated on values of positive density, is left
unchanged by the sweeps (compare `C67_carma`, where the law left unchanged has infinite mass). Values of density 0 have to be excluded: a
chain at such a value stays there unless it can move. -/
theorem C84_carma_no_law (hn : 3 ≤ n) (ht : StrictMono t) (hy : ∃ i j, y i ≠ y j) (hp : 2 ≤ p) (hp' : p < 2500)
    (hq : z = true ∨ q < p) (hbad : z = false ∧ 1 ≤ q ∨ ¬ ErrorsApart y e (if nw = 1 then 100 else 1)) {s : Samp (CarP p) (nParams p q z)}
    (hs : carmaSampler srt N burnin (List.ofFn t) (List.ofFn y) (List.ofFn e) p q nw z thin r = .ok s) {k : ℕ} (hk : burnin ≤ k)
    {u : Samp (CarP p) (nParams p q z)} (h : RunState fuel s init k u)
    (ν : Measure ℝ) [IsProbabilityMeasure ν] (hsym : ν.map (fun x => -x) = ν) (hν : volume ≪ ν) (hν' : ν ≪ volume) :
    ∃ G : LogTarget (nParams p q z), (∀ c ∈ u.chains, Evaluates c.obj G) ∧
      ¬ ∃ L : Measure (Fin nw → Fin (nParams p q z) → ℝ), IsProbabilityMeasure L ∧ (∀ᵐ x ∂L, ∀ i, G (x i) ≠ none) ∧ KeepsChains G L ν u := by
  obtain ⟨o, b, dmin, span, -, -, -, h1, h2, -⟩ := run_solid (q := q) srt (show 2 ≤ n by omega) ht y e hp z hq (10 * √(popVariance y))
  obtain ⟨inv, x, hT, hAt, hl, hst, hx, hnw⟩ := carma_at (show 2 ≤ n by omega) ht hp hq hs hk h h1 h2
  obtain ⟨m1, m2, m3, m4⟩ := carma_mass hn ht hy hp hp' hq hbad h1 h2
  exact ⟨_, run_evaluates (show 2 ≤ n by omega) ht hp hq hs h h1 h2,
    no_law hT (fun i => temp_pos _ _) hAt hst (carma_meas _ _ _ _ _ _ _ _ _ _) m1 (i0 := ⟨0, hnw⟩) m2 hν hν' hsym hl
      (maBox_measurable _ _ _) m3 m4⟩

/-- **C84, probabilities.** In the situation of `C84_carma_escapes`: for every `K` the probability that after `k` sweeps the parameters of all
chains are bounded in that sense tends to 0. -/
theorem C84_carma_vanishes (hn : 3 ≤ n) (ht : StrictMono t) (hy : ∃ i j, y i ≠ y j) (hp : 2 ≤ p) (hp' : p < 2500)
    (hq : z = true ∨ q < p) (hbad : z = false ∧ 1 ≤ q ∨ ¬ ErrorsApart y e (if nw = 1 then 100 else 1)) {s : Samp (CarP p) (nParams p q z)}
    (hs : carmaSampler srt N burnin (List.ofFn t) (List.ofFn y) (List.ofFn e) p q nw z thin r = .ok s) {k : ℕ} (hk : burnin ≤ k)
    {u : Samp (CarP p) (nParams p q z)} (h : RunState fuel s init k u)
    (ν : Measure ℝ) [IsProbabilityMeasure ν] (hsym : ν.map (fun x => -x) = ν) (hν : volume ≪ ν) (hν' : ν ≪ volume) (K : ℕ) :
    Tendsto (fun k => (drawsOf ν).prod (drawsOf unifLaw) (EndsIn u k {x : Fin nw → Fin (nParams p q z) → ℝ | ∀ i,
      (¬ ErrorsApart y e (if nw = 1 then 100 else 1) → 1 / ((K : ℝ) + 1) ≤ at0 (List.ofFn (x i)) 0) ∧
      ∀ j : Fin (nParams p q z), p + 3 ≤ (j : ℕ) → |x i j| ≤ K})) atTop (𝓝 0) := by
  obtain ⟨o, b, dmin, span, -, -, -, h1, h2, -⟩ := run_solid (q := q) srt (show 2 ≤ n by omega) ht y e hp z hq (10 * √(popVariance y))
  obtain ⟨inv, x, hT, hAt, hl, hst, hx, hnw⟩ := carma_at (show 2 ≤ n by omega) ht hp hq hs hk h h1 h2
  obtain ⟨m1, m2, m3, -⟩ := carma_mass hn ht hy hp hp' hq hbad h1 h2
  exact vanishes hT (fun i => temp_pos _ _) hAt hst (carma_meas _ _ _ _ _ _ _ _ _ _) m1 (i0 := ⟨0, hnw⟩) m2 hν hν' hsym hl hx
    (maBox_measurable _ _ _ _) (m3 K)

open scoped Classical in
/-- **C84, one walker.** With one walker the averages that C69 is about tend to 0 for every function `f` that is integrable with respect to
the posterior density to the power 1/100, not to a posterior mean: the fraction of recorded values in any set of finite mass tends to 0. -/
theorem C84_carma_one_walker (hn : 3 ≤ n) (ht : StrictMono t) (hy : ∃ i j, y i ≠ y j) (hp : 2 ≤ p) (hp' : p < 2500)
    (hq : z = true ∨ q < p) (hbad : z = false ∧ 1 ≤ q ∨ ¬ ErrorsApart y e 100) {s : Samp (CarP p) (nParams p q z)}
    (hs : carmaSampler srt N burnin (List.ofFn t) (List.ofFn y) (List.ofFn e) p q 1 z thin r = .ok s) {k : ℕ} (hk : burnin ≤ k)
    {u : Samp (CarP p) (nParams p q z)} (h : RunState fuel s init k u) {dmin span : ℝ} (h1 : IsMinGap t dmin) (h2 : IsSpan t span)
    (hthin : 0 < thin) (ν : Measure ℝ) [IsProbabilityMeasure ν] (hsym : ν.map (fun x => -x) = ν) (hν : volume ≪ ν) (hν' : ν ≪ volume)
    {f : (Fin (nParams p q z) → ℝ) → ℝ} (hf : Measurable f) :
    let G := carmaTarget (runKind q z) p t y e (10 * √(popVariance y)) (1 / dmin) (1 / span) 1 1
    HasMean G 100 f → ∀ᵐ w ∂(drawsOf ν).prod (drawsOf unifLaw), AveragesTo thin (reseed u w) f 0 := by
  intro G hi
  obtain ⟨inv, x, hT, hAt, hl, hst, hx, hnw⟩ := carma_at (show 2 ≤ n by omega) ht hp hq hs hk h h1 h2
  obtain ⟨m1, m2, m3, m4⟩ := carma_mass (nw := 1) hn ht hy hp hp' hq hbad h1 h2
  have hG := carma_meas (d := nParams p q z) (runKind q z) p t y e (10 * √(popVariance y)) (1 / dmin) (1 / span) 1 1
  have ht1 : temperature 1 ((0 : Fin 1) : ℕ) = 100 := temp_zero 1
  rw [← ht1] at hi
  refine (sweeps_null hG m1 (i0 := 0) m2 hν hν' hsym hl hst hx (hf.comp (measurable_pi_apply 0))
    (one_integrable (T := fun i : Fin 1 => temperature 1 i) hG hi) hthin).mono fun w hw => ?_
  refine ⟨fun k => (sweepsMap G (fun i : Fin 1 => temperature 1 i) u.steps (thin * (k + 1)) (x, w)).1 0, fun k => ?_, hw⟩
  have h1 : At inv G (fun i : Fin 1 => temperature 1 i) u.steps (reseed u w) (x, w) := ⟨hAt.length, hAt.chain, rfl, rfl, hAt.steps⟩
  obtain ⟨u', h2, h3⟩ := at_sweeps hT (fun i => temp_pos _ _) hst h1 (thin * (k + 1))
  obtain ⟨c, hc⟩ : ∃ c, u'.chains[((0 : Fin 1) : ℕ)]? = some c := ⟨_, List.getElem?_eq_getElem (by rw [h3.length]; exact one_pos)⟩
  exact ⟨u', c, sweeps_of_iterate h2, hc, (h3.chain 0 _ hc).2.2.1⟩

/-- **C84, `RunCar1Sampler`.** If at least two measurements are without error and all of those have the same value, the chain of a CAR(1) run,
once at a value of positive density after the burn-in, runs away to standard deviation 0: with probability 1, for every `K`, the share of the
recorded times at which the standard deviation is at least `1/(K+1)` tends to 0; the probability of that tends to 0; the law of the chain has
no limit; and no probability law, concentrated on values of positive density, is left unchanged by the sweeps. -/
theorem C84_car1 (hn : 3 ≤ n) (ht : StrictMono t) (he : ¬ ErrorsApart y e 1) (hy : ∃ i j, y i ≠ y j) {s : Samp Car1 4}
    (hs : car1Sampler srt burnin (List.ofFn t) (List.ofFn y) (List.ofFn e) r = .ok s) {k : ℕ} (hk : burnin ≤ k)
    {u : Samp Car1 4} (h : RunState fuel s init k u) (hfin : ∀ c ∈ u.chains, c.logpost.isFin) (hthin : 0 < thin)
    (ν : Measure ℝ) [IsProbabilityMeasure ν] (hsym : ν.map (fun x => -x) = ν) (hν : volume ≪ ν) (hν' : ν ≪ volume) :
    (∀ᵐ w ∂(drawsOf ν).prod (drawsOf unifLaw), ∀ K : ℕ, ShareTo thin (reseed u w) (fun θ => 1 / ((K : ℝ) + 1) ≤ at0 θ 0) 0) ∧
    (∀ K : ℕ, Tendsto (fun k => (drawsOf ν).prod (drawsOf unifLaw) (EndsIn u k {x : Fin 1 → Fin 4 → ℝ | 1 / ((K : ℝ) + 1) ≤ x 0 0})) atTop (𝓝 0)) ∧
    (¬ ∃ L : Measure (Fin 1 → Fin 4 → ℝ), IsProbabilityMeasure L ∧ ∀ A, MeasurableSet A →
      Tendsto (fun k => (drawsOf ν).prod (drawsOf unifLaw) (EndsIn u k A)) atTop (𝓝 (L A))) ∧
    ∃ G : LogTarget 4, (∀ c ∈ u.chains, Evaluates c.obj G) ∧
      ¬ ∃ L : Measure (Fin 1 → Fin 4 → ℝ), IsProbabilityMeasure L ∧ (∀ᵐ x ∂L, ∀ i, G (x i) ≠ none) ∧ KeepsChains G L ν u := by
  obtain ⟨dmin, span, h1, h2, h3, h4⟩ := run1_evaluates (show 2 ≤ n by omega) ht hs h
  obtain ⟨inv, x, hT, hAt, hl, hst, hx⟩ := car1_at (show 2 ≤ n by omega) ht hs hk h hfin h1 h2
  obtain ⟨d1, d2⟩ := gap_ratio hn ht h1 h2
  have hspan : 0 < span := by linarith
  have hG := car1_meas t y e (10 * √(popVariance y)) (1 / dmin) (1 / span)
  have m2 := car1_mass_top hn ht he hy h1 h2 one_pos
  have m1 : ∀ i : Fin 1, mass (car1Target t y e (10 * √(popVariance y)) (1 / dmin) (1 / span)) ((fun _ => (1 : ℝ)) i) ≠ 0 := fun _ => by rw [m2]; simp
  have m3 : ∀ (K : ℕ) (i : Fin 1), ∫⁻ x in maBox True 4 1 K, Verif.Spec.tempered (car1Target t y e (10 * √(popVariance y)) (1 / dmin) (1 / span))
    ((fun _ => (1 : ℝ)) i) x < ∞ := fun K _ => car1_box_finite (by omega) ht (by positivity) one_pos K
  have m4 : ∀ x, (car1Target t y e (10 * √(popVariance y)) (1 / dmin) (1 / span) x).isSome → ∃ K, ∀ K', K ≤ K' → x ∈ maBox True 4 1 K' := by
    intro x hx
    refine maBox_cover _ _ _ _ fun _ => ?_
    obtain ⟨l, hx⟩ := Option.isSome_iff_exists.mp hx
    obtain ⟨⟨b1, -⟩, h0, -⟩ := car1_some (by positivity) hx
    obtain ⟨-, i, hi, -⟩ := not_apart one_pos he
    rw [at0_ofFn x (k := 0) (by omega)]
    exact lt_of_le_of_ne b1 (Ne.symm (h0.resolve_right fun h => h i hi))
  have hbox : ∀ (K : ℕ) (x : Fin 4 → ℝ), 1 / ((K : ℝ) + 1) ≤ at0 (List.ofFn x) 0 ↔ x ∈ maBox True 4 1 K := by
    intro K x
    refine ⟨fun h => ⟨fun _ => h, fun j hj => ?_⟩, fun h => h.1 trivial⟩
    have := j.2
    omega
  refine ⟨?_, fun K => ?_, ?_, _, h4, ?_⟩
  · rw [ae_all_iff]
    intro K
    exact escapes hT (fun i => one_pos) hAt hst hG m1 (i0 := 0) m2 hν hν' hsym hl hx hthin (maBox_measurable _ _ _ _) (m3 K) (hbox K)
  · have := vanishes hT (fun i => one_pos) hAt hst hG m1 (i0 := 0) m2 hν hν' hsym hl hx (maBox_measurable _ _ _ _) (m3 K)
    have e : {x : Fin 1 → Fin 4 → ℝ | 1 / ((K : ℝ) + 1) ≤ x 0 0} = {x : Fin 1 → Fin 4 → ℝ | ∀ i, x i ∈ maBox True 4 1 K} := by
      ext x
      simp only [Set.mem_ofPred_eq, ← hbox]
      constructor
      · intro h i
        obtain rfl := Subsingleton.elim i 0
        rw [at0_ofFn (x 0) (k := 0) (by omega)]
        exact h
      · intro h
        have := h 0
        rwa [at0_ofFn (x 0) (k := 0) (by omega)] at this
    rw [e]
    exact this
  · exact no_limit hT (fun i => one_pos) hAt hst hG m1 (i0 := 0) m2 hν hν' hsym hl (maBox_measurable _ _ _) m3 m4 hx
  · exact no_law hT (fun i => one_pos) hAt hst hG m1 (i0 := 0) m2 hν hν' hsym hl (maBox_measurable _ _ _) m3 m4

/-- The hypotheses are met: a CARMA(2,1) run with two walkers, normal proposal draws. -/
example (srt : List ℝ → List ℕ) (k : ℕ) : ∃ s u : Samp (CarP 2) (nParams 2 1 false),
    carmaSampler srt 0 k (List.ofFn exT) (List.ofFn exY) (List.ofFn fun _ : Fin 3 => (1 : ℝ)) 2 1 2 false 1 exRng = .ok s ∧
    RunState 0 s (exθ ++ [0]) k u ∧
    (∀ᵐ w ∂(drawsOf (ProbabilityTheory.gaussianReal 0 1)).prod (drawsOf unifLaw), ∀ K : ℕ,
      ShareTo 1 (reseed u w) (fun θ => ∀ j, 5 ≤ j → |at0 θ j| ≤ K) 0) ∧
    (¬ ∃ L : Measure (Fin 2 → Fin (nParams 2 1 false) → ℝ), IsProbabilityMeasure L ∧ ∀ A, MeasurableSet A →
      Tendsto (fun k => (drawsOf (ProbabilityTheory.gaussianReal 0 1)).prod (drawsOf unifLaw) (EndsIn u k A)) atTop (𝓝 (L A))) ∧
    (∃ G : LogTarget (nParams 2 1 false), (∀ c ∈ u.chains, Evaluates c.obj G) ∧
      ¬ ∃ L : Measure (Fin 2 → Fin (nParams 2 1 false) → ℝ), IsProbabilityMeasure L ∧ (∀ᵐ x ∂L, ∀ i, G (x i) ≠ none) ∧
        KeepsChains G L (ProbabilityTheory.gaussianReal 0 1) u) ∧
    Tendsto (fun k => (drawsOf (ProbabilityTheory.gaussianReal 0 1)).prod (drawsOf unifLaw)
      (EndsIn u k {x : Fin 2 → Fin (nParams 2 1 false) → ℝ | ∀ i, ∀ j : Fin (nParams 2 1 false), 2 + 3 ≤ (j : ℕ) → |x i j| ≤ (7 : ℕ)})) atTop (𝓝 0) := by
  obtain ⟨s, u, h1, h2⟩ := ex_ma_state srt k (q := 1) (by norm_num)
  have hap : ErrorsApart exY (fun _ => 1) (if (2 : ℕ) = 1 then 100 else 1) := apart_of_ne fun _ => one_ne_zero
  have h3 := C84_carma_escapes le_rfl exT_mono ⟨0, 1, by simp [exY]⟩ le_rfl (by norm_num) (Or.inr (by norm_num)) (Or.inl ⟨rfl, le_rfl⟩) h1 le_rfl h2
      one_pos _ gauss_draws.1 gauss_draws.2.1 gauss_draws.2.2
  have h4 := C84_carma_vanishes le_rfl exT_mono ⟨0, 1, by simp [exY]⟩ le_rfl (by norm_num) (Or.inr (by norm_num)) (Or.inl ⟨rfl, le_rfl⟩) h1 le_rfl h2
      _ gauss_draws.1 gauss_draws.2.1 gauss_draws.2.2 7
  simp only [hap, not_true_eq_false, false_implies, true_and] at h3 h4
  exact ⟨s, u, h1, h2, h3,
    C84_carma_no_limit le_rfl exT_mono ⟨0, 1, by simp [exY]⟩ le_rfl (by norm_num) (Or.inr (by norm_num)) (Or.inl ⟨rfl, le_rfl⟩) h1 le_rfl h2
      _ gauss_draws.1 gauss_draws.2.1 gauss_draws.2.2,
    C84_carma_no_law le_rfl exT_mono ⟨0, 1, by simp [exY]⟩ le_rfl (by norm_num) (Or.inr (by norm_num)) (Or.inl ⟨rfl, le_rfl⟩) h1 le_rfl h2
      _ gauss_draws.1 gauss_draws.2.1 gauss_draws.2.2, h4⟩

/-- A CAR(2) run with two walkers on data with the value 1 measured twice without error: the standard deviation tends to 0. -/
example (srt : List ℝ → List ℕ) (k : ℕ) : ∃ s u : Samp (CarP 2) (nParams 2 0 false),
    carmaSampler srt 0 k (List.ofFn exT) (List.ofFn ![1, 1, 0]) (List.ofFn ![0, 0, 1]) 2 0 2 false 1 exRng = .ok s ∧
    RunState 0 s (exθ ++ []) k u ∧
    ∀ᵐ w ∂(drawsOf (ProbabilityTheory.gaussianReal 0 1)).prod (drawsOf unifLaw), ∀ K : ℕ,
      ShareTo 1 (reseed u w) (fun θ => 1 / ((K : ℝ) + 1) ≤ at0 θ 0 ∧ ∀ j, 5 ≤ j → |at0 θ j| ≤ K) 0 := by
  obtain ⟨s, u, h1, h2⟩ := ex_ma_states_of srt k (q := 0) (by norm_num) two_pos (y := ![1, 1, 0]) ![0, 0, 1] ⟨0, 2, by simp⟩ (by
    have : (1 / 10 : ℝ) ≤ √(popVariance ![(1 : ℝ), 1, 0]) := Real.le_sqrt_of_sq_le (by
      simp only [popVariance, Fin.sum_univ_three, Matrix.cons_val]
      norm_num)
    linarith)
  have hap : ¬ ErrorsApart (![1, 1, 0] : Fin 3 → ℝ) ![0, 0, 1] (if (2 : ℕ) = 1 then 100 else 1) := by
    rw [if_neg (by norm_num)]
    exact ex_not_apart
  have h3 := C84_carma_escapes le_rfl exT_mono (e := ![0, 0, 1]) (y := ![1, 1, 0]) ⟨0, 2, by simp⟩ le_rfl (by norm_num) (Or.inr (by norm_num)) (Or.inr hap) h1 le_rfl h2
      one_pos _ gauss_draws.1 gauss_draws.2.1 gauss_draws.2.2
  simp only [hap, not_false_eq_true, true_implies] at h3
  exact ⟨s, u, h1, h2, h3⟩

/-- A CAR(1) run on the same data. -/
example (srt : List ℝ → List ℕ) (k : ℕ) : ∃ s u : Samp Car1 4,
    car1Sampler srt k (List.ofFn exT) (List.ofFn ![1, 1, 0]) (List.ofFn ![0, 0, 1]) exRng = .ok s ∧
    RunState 0 s [1, 1, 0, -1] k u ∧
    ∀ᵐ w ∂(drawsOf (ProbabilityTheory.gaussianReal 0 1)).prod (drawsOf unifLaw), ∀ K : ℕ,
      ShareTo 1 (reseed u w) (fun θ => 1 / ((K : ℝ) + 1) ≤ at0 θ 0) 0 := by
  have hv : (1 : ℝ) ≤ 10 * √(popVariance ![(1 : ℝ), 1, 0]) := by
    have : (1 / 10 : ℝ) ≤ √(popVariance ![(1 : ℝ), 1, 0]) := Real.le_sqrt_of_sq_le (by
      simp only [popVariance, Fin.sum_univ_three, Matrix.cons_val]
      norm_num)
    linarith
  have hb : Car1Bounds (10 * √(popVariance ![(1 : ℝ), 1, 0])) (1 / 1) (1 / 10) [1, 1, 0, -1] :=
    { ex_car1_run_bounds with sd_hi := by simpa [at0] using hv }
  obtain ⟨c, h⟩ := C46_car1_run_returns srt (by norm_num) exT_mono ![1, 1, 0] ![0, 0, 1] ⟨0, 2, by simp⟩ 0 0 k 1 rfl ex_gap.1 ex_gap.2
    hb (Or.inl (by simp [at0])) (r := exRng) (fun k => ⟨0, by norm_num, by simp [exRng]⟩)
  obtain ⟨s, h1, h⟩ := bind_ok_inv h
  obtain ⟨s', h2, h⟩ := bind_ok_inv h
  obtain ⟨u, h3, h4⟩ := car1_run_finite (by norm_num) exT_mono (Or.inl (by simp [at0])) h1 rfl ex_gap.1 ex_gap.2 hb h2
  have e : k + 1 * 0 = k := by ring
  rw [e] at h3
  exact ⟨s, u, h1, h3, (C84_car1 le_rfl exT_mono ex_not_apart ⟨0, 2, by simp⟩ h1 le_rfl h3 h4 one_pos _ gauss_draws.1 gauss_draws.2.1 gauss_draws.2.2).1⟩

/-- One walker: the fraction of recorded values whose moving-average parameter is at most 7 in size tends to 0. -/
example (srt : List ℝ → List ℕ) (k : ℕ) : ∃ s u : Samp (CarP 2) (nParams 2 1 false),
    carmaSampler srt 0 k (List.ofFn exT) (List.ofFn exY) (List.ofFn fun _ : Fin 3 => (1 : ℝ)) 2 1 1 false 1 exRng = .ok s ∧
    RunState 0 s (exθ ++ [0]) k u ∧
    ∀ᵐ w ∂(drawsOf (ProbabilityTheory.gaussianReal 0 1)).prod (drawsOf unifLaw),
      AveragesTo 1 (reseed u w) (Set.indicator {x : Fin (nParams 2 1 false) → ℝ | |x ⟨5, by decide⟩| ≤ 7} fun _ => 1) 0 := by
  obtain ⟨s, u, h1, h2⟩ := ex_ma_states srt k (q := 1) (by norm_num) (nw := 1) one_pos
  have hap : ErrorsApart exY (fun _ => 1) (if (1 : ℕ) = 1 then 100 else 1) := apart_of_ne fun _ => one_ne_zero
  have hbox : {x : Fin (nParams 2 1 false) → ℝ | |x ⟨5, by decide⟩| ≤ 7} =
      maBox (¬ ErrorsApart exY (fun _ => 1) (if (1 : ℕ) = 1 then 100 else 1)) (nParams 2 1 false) 2 7 := by
    ext x
    refine ⟨fun h => ⟨fun hb => absurd hap hb, fun j hj => ?_⟩, fun h => by simpa using h.2 ⟨5, by decide⟩ le_rfl⟩
    have : j = ⟨5, by decide⟩ := Fin.ext (by have := j.2; simp only [nParams] at this; norm_num at this; show (j : ℕ) = 5; omega)
    rw [this]
    simpa using h
  rw [hbox]
  have hG := carma_meas (d := nParams 2 1 false) (runKind 1 false) 2 exT exY (fun _ : Fin 3 => (1 : ℝ)) (10 * √(popVariance exY)) (1 / 1) (1 / 10) 1 1
  have hM := maBox_measurable (¬ ErrorsApart exY (fun _ => 1) (if (1 : ℕ) = 1 then 100 else 1)) (nParams 2 1 false) 2 7
  refine ⟨s, u, h1, h2, C84_carma_one_walker le_rfl exT_mono ⟨0, 1, by simp [exY]⟩ le_rfl (by norm_num) (Or.inr (by norm_num)) (Or.inl ⟨rfl, le_rfl⟩) h1
    le_rfl h2 ex_gap.1 ex_gap.2 one_pos _ gauss_draws.1 gauss_draws.2.1 gauss_draws.2.2 (measurable_const.indicator hM) ?_⟩
  have hfin := (carma_mass (nw := 1) (p := 2) (q := 1) (z := false) le_rfl exT_mono (e := fun _ => 1) (y := exY) ⟨0, 1, by simp [exY]⟩ le_rfl (by norm_num)
    (Or.inr (by norm_num)) (Or.inl ⟨rfl, le_rfl⟩) ex_gap.1 ex_gap.2).2.2.1 7 0
  rw [show temperature 1 ((0 : Fin 1) : ℕ) = 100 from temp_zero 1] at hfin
  have h3 := indicator_integrable (μ := (volume : Measure (Fin (nParams 2 1 false) → ℝ)).withDensity (Verif.Spec.tempered _ 100))
    hM (by rw [withDensity_apply _ hM]; exact hfin.ne)
  exact (integrable_withDensity_iff (hG.tempered _) (Eventually.of_forall fun y => tempered_ne_top.lt_top)).mp h3

end Verif.Props
