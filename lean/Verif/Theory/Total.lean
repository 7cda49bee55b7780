import Verif.Props.Ram
import Verif.Theory.Builders
import Verif.Spec.Chains

/-!
Steps, sweeps and runs of the sampler end without a fault, given a target whose log-density never faults.
-/

namespace Verif.Theory

open Verif.Model Verif.Spec

variable {μ : Type} [Target μ] {d : ℕ} {inv : μ → Prop}

/-- The log-density functions of the target return on every vector of `d` numbers. -/
structure Total (μ : Type) [Target μ] (inv : μ → Prop) (d : ℕ) : Prop where
  ld : ∀ o θ, inv o → θ.length = d → ∃ o' v, Target.ld o θ = .ok (o', v) ∧ inv o'
  stale : ∀ o θ, inv o → θ.length = d → ∃ v, Target.staleLd o θ = .ok v

/-- What a RAM step object needs in order not to fault. -/
structure GoodRam (a : Ram d) : Prop where
  upper : Upper a.chol
  target0 : 0 < a.target
  target1 : a.target < 1
  gamma : a.gamma ≠ 0

omit [Target μ] in
theorem _root_.Verif.Spec.Blocks.skip {f : ℕ → ℝ} (h : Blocks d f) : Blocks d (Rng.skip d f) := by
  intro k
  obtain ⟨i, hi, h⟩ := h (k + 1)
  refine ⟨i, hi, ?_⟩
  have e : k * d + i + d = (k + 1) * d + i := by ring
  unfold Rng.skip
  rwa [e]

theorem accept_rng {a : Ram d} {s : Par μ} {θ : List ℝ} {r : Rng} {res : Accepted μ d} (h : a.accept s θ r = .ok res) :
    res.rng.stud = r.stud := by
  unfold Ram.accept at h
  obtain ⟨⟨obj, lp⟩, h1, h⟩ := bind_ok_inv h
  dsimp only at h
  split at h
  · injection h with h; rw [← h]
  · split at h <;> (injection h with h; rw [← h]; rfl)

theorem accept_total (hT : Total μ inv d) (a : Ram d) {s : Par μ} (hs : inv s.obj) {θ : List ℝ} (hθ : θ.length = d) (r : Rng) :
    ∃ res, a.accept s θ r = .ok res := by
  obtain ⟨o', v, h, -⟩ := hT.ld s.obj θ hs hθ
  unfold Ram.accept
  rw [h]
  simp only [res_bind_ok]
  repeat' split
  all_goals exact ⟨_, rfl⟩

theorem save_total (hT : Total μ inv d) {s : Par μ} (hs : inv s.obj) {θ : List ℝ} (hθ : θ.length = d) :
    ∃ s', s.save θ = .ok s' ∧ inv s'.obj ∧ s'.value = θ := by
  obtain ⟨o', v, h, h'⟩ := hT.ld s.obj θ hs hθ
  refine ⟨_, by unfold Par.save; rw [h]; rfl, h', rfl⟩

theorem adapt_total {a : Ram d} (ha : GoodRam a) {u : Fin d → ℝ} (hu : u ≠ 0) {x : ℝ} (hx : a.alpha = .fin x) (h0 : 0 ≤ x) :
    ∃ R, a.adapt u (fun j => ∑ i, a.chol i j * u i) = .ok { a with chol := R } ∧ Upper R := by
  by_cases hn : a.niter < a.maxiter
  · obtain ⟨R, h1, -, h3, h4, -⟩ := Props.C27_ram_update a ha.upper.tri ha.upper.pos u hu hx h0 ha.target0 ha.target1 ha.gamma hn
    exact ⟨R, h1, h3, h4⟩
  · refine ⟨a.chol, ?_, ha.upper⟩
    unfold Ram.adapt
    obtain ⟨_, _, _, _, _, _, _⟩ := a
    simp only at hx
    subst hx
    simp only [hn, if_false]
    rfl

theorem ram_total (hT : Total μ inv d) {a : Ram d} (ha : GoodRam a) {s : Par μ} (hs : inv s.obj) (hl : s.value.length = d)
    {r : Rng} (hr : Blocks d r.stud) : ∃ a' s' r', a.doStep s r = .ok (a', s', r') ∧ GoodRam a' ∧ inv s'.obj ∧
      s'.value.length = d ∧ Blocks d r'.stud := by
  unfold Ram.doStep
  simp only [hl, ne_eq, not_true, if_false]
  set u : Fin d → ℝ := fun i => r.stud i with hu
  have hu0 : u ≠ 0 := by
    obtain ⟨i, hi, h⟩ := hr 0
    intro hc
    have := congrFun hc ⟨i, hi⟩
    simp only [hu, Pi.zero_apply] at this
    simp [this] at h
  set θ : List ℝ := List.ofFn fun i : Fin d => s.value.getD i 0 + ∑ k, a.chol k i * u k
  have hθ : θ.length = d := by simp [θ]
  set r1 : Rng := { r with stud := Rng.skip d r.stud } with hr1
  obtain ⟨res, h1⟩ := accept_total hT a hs hθ r1
  obtain ⟨x, n, hram, hx0, hx1⟩ := Props.accept_ram h1
  obtain ⟨o, lp, h2, h3, -⟩ := accept_inv h1
  have hrng := accept_rng h1
  obtain ⟨o', v, h4, h5⟩ := hT.ld s.obj θ hs hθ
  rw [h2] at h4
  injection h4 with h4
  injection h4 with h4 _
  have ho : inv o := by rw [h4]; exact h5
  have hgood : GoodRam ({ a with alpha := .fin x, naccept := n } : Ram d) := ⟨ha.upper, ha.target0, ha.target1, ha.gamma⟩
  obtain ⟨R, h6, h7⟩ := adapt_total hgood hu0 rfl hx0
  rw [h1]
  simp only [res_bind_ok]
  have hb : Blocks d res.rng.stud := by rw [hrng]; exact hr.skip
  have hpo : inv res.par.obj := by rw [h3]; exact ho
  have hpv : res.par.value.length = d := by rw [h3]; exact hl
  have h8 : res.ram.adapt u (fun j => ∑ i, a.chol i j * u i) = .ok ({ a with alpha := .fin x, naccept := n, chol := R } : Ram d) := by
    rw [hram]; exact h6
  split
  · obtain ⟨s', h9, h10, h11⟩ := save_total hT hpo hθ
    rw [h9]
    simp only [res_bind_ok]
    refine ⟨{ a with alpha := .fin x, naccept := n, chol := R, niter := a.niter + 1 }, s', res.rng, (congrArg (fun x => x >>= _) h8).trans rfl, ⟨h7, ha.target0, ha.target1, ha.gamma⟩, h10, by rw [h11]; exact hθ, hb⟩
  · simp only [res_pure, res_bind_ok]
    refine ⟨{ a with alpha := .fin x, naccept := n, chol := R, niter := a.niter + 1 }, res.par, res.rng, (congrArg (fun x => x >>= _) h8).trans rfl, ⟨h7, ha.target0, ha.target1, ha.gamma⟩, hpo, hpv, hb⟩

theorem exch_total (hT : Total μ inv d) (e : Exch) {ps : List (Par μ)} (h1 : 1 ≤ e.idx) (h2 : e.idx < ps.length)
    (hs : ∀ c ∈ ps, inv c.obj) (hl : ∀ c ∈ ps, c.value.length = d) (r : Rng) :
    ∃ e' ps' r', e.doStep ps r = .ok (e', ps', r') ∧ e'.idx = e.idx ∧ (∀ c ∈ ps', inv c.obj) ∧ (∀ c ∈ ps', c.value.length = d) ∧
      ps'.length = ps.length ∧ r'.stud = r.stud := by
  have g1 : ps[e.idx]? = some ps[e.idx] := List.getElem?_eq_getElem h2
  have g2 : ps[e.idx - 1]? = some (ps[e.idx - 1]'(by omega)) := List.getElem?_eq_getElem _
  have m1 := List.mem_of_getElem? g1
  have m2 := List.mem_of_getElem? g2
  generalize ps[e.idx] = this at *
  generalize (ps[e.idx - 1]'(by omega)) = other at *
  unfold Exch.doStep
  rw [rdU_ok g1]
  simp only [res_bind_ok, show e.idx ≠ 0 by omega, if_false, rdU_ok g2]
  obtain ⟨t1, a1, a2, a3⟩ := save_total hT (hs _ m1) (hl _ m2)
  obtain ⟨v, a4⟩ := hT.stale other.obj this.value (hs _ m2) (hl _ m1)
  have a5 : other.saveStale this.value = .ok { other with value := this.value, logpost := v } := by
    unfold Par.saveStale; rw [a4]; rfl
  by_cases hc : (Dbl.fin r.nextU.1).lt (swapProb this.temp other.temp this.logpost other.logpost)
  · simp only [hc, if_true, a1, a5, res_bind_ok, res_pure]
    refine ⟨_, _, _, rfl, rfl, mem_set_cases (mem_set_cases hs a2) (show inv other.obj from hs _ m2),
      mem_set_cases (mem_set_cases hl ?_) (show this.value.length = d from hl _ m1),
      by simp, rfl⟩
    show t1.value.length = d
    rw [a3]; exact hl _ m2
  · simp only [hc, if_false, res_pure, res_bind_ok]
    exact ⟨_, _, _, rfl, rfl, hs, hl, rfl, rfl⟩

/-- What a step of the stack needs, for an ensemble of `m` chains. -/
def GoodStep (m : ℕ) : StepSt d → Prop
  | .ram i a => i < m ∧ GoodRam a
  | .exch e => 1 ≤ e.idx ∧ e.idx < m

/-- A sampler that cannot fault. -/
structure Fit (inv : μ → Prop) (s : Samp μ d) : Prop where
  obj : ∀ c ∈ s.chains, inv c.obj
  len : ∀ c ∈ s.chains, c.value.length = d
  steps : ∀ st ∈ s.steps, GoodStep s.chains.length st
  rng : Blocks d s.rng.stud

omit [Target μ] in
theorem mem_set_of {α : Type} {P : α → Prop} {l : List α} {i : ℕ} {q : α} (h : ∀ p ∈ l, P p) (hq : P q) : ∀ p ∈ l.set i q, P p := by
  intro p hp
  rcases List.mem_or_eq_of_mem_set hp with hp | rfl
  · exact h p hp
  · exact hq

theorem doStep_total (hT : Total μ inv d) {s : Samp μ d} (hs : Fit inv s) {k : ℕ} (hk : k < s.steps.length) :
    ∃ s', s.doStep k = .ok s' ∧ Fit inv s' ∧ s'.steps.length = s.steps.length ∧ s'.chains.length = s.chains.length := by
  have g : s.steps[k]? = some s.steps[k] := List.getElem?_eq_getElem hk
  have hst := hs.steps _ (List.mem_of_getElem? g)
  unfold Samp.doStep
  rw [rdU_ok g]
  simp only [res_bind_ok]
  generalize s.steps[k] = st at *
  cases st with
  | ram i a =>
      obtain ⟨hi, ha⟩ := hst
      have gi : s.chains[i]? = some s.chains[i] := List.getElem?_eq_getElem hi
      have mi := List.mem_of_getElem? gi
      obtain ⟨a', c', r', h1, h2, h3, h4, h5⟩ := ram_total hT ha (hs.obj _ mi) (hs.len _ mi) hs.rng
      simp only [rdU_ok gi, res_bind_ok, h1]
      refine ⟨_, rfl, ⟨mem_set_of hs.obj h3, mem_set_of hs.len h4, ?_, h5⟩, by simp, by simp⟩
      simp only [List.length_set]
      exact mem_set_of hs.steps ⟨hi, h2⟩
  | exch e =>
      obtain ⟨e', ps', r', h1, h2, h3, h4, h5, h6⟩ := exch_total hT e hst.1 hst.2 hs.obj hs.len s.rng
      simp only [h1, res_bind_ok]
      refine ⟨_, rfl, ⟨h3, h4, ?_, by rw [h6]; exact hs.rng⟩, by simp, h5⟩
      simp only [h5]
      exact mem_set_of hs.steps (show 1 ≤ e'.idx ∧ e'.idx < s.chains.length by rw [h2]; exact hst)

theorem stepLoop_total (hT : Total μ inv d) {s : Samp μ d} (hs : Fit inv s) {m : ℕ} (hm : m ≤ s.steps.length) :
    ∃ s', s.stepLoop m = .ok s' ∧ Fit inv s' ∧ s'.steps.length = s.steps.length ∧ s'.chains.length = s.chains.length := by
  induction m with
  | zero => exact ⟨s, rfl, hs, rfl, rfl⟩
  | succ m ih =>
      obtain ⟨t, h1, h2, h3, h4⟩ := ih (by omega)
      obtain ⟨u, h5, h6, h7, h8⟩ := doStep_total hT h2 (k := m) (by omega)
      exact ⟨u, by unfold Samp.stepLoop; rw [h1]; exact h5, h6, h7.trans h3, h8.trans h4⟩

theorem iterate_total (hT : Total μ inv d) {s : Samp μ d} (hs : Fit inv s) (n : ℕ) : ∃ s', s.iterate n = .ok s' ∧ Fit inv s' := by
  unfold Samp.iterate
  induction n with
  | zero => exact ⟨s, rfl, hs⟩
  | succ n ih =>
      obtain ⟨t, h1, h2⟩ := ih
      obtain ⟨u, h3, h4, -, -⟩ := stepLoop_total hT h2 (m := t.steps.length) le_rfl
      exact ⟨u, by unfold iter; rw [h1]; exact h3, h4⟩

omit [Target μ] in
theorem Fit.of_rec {s t : Samp μ d} (hs : Fit inv s) (h : SampRec s t) : Fit inv t := by
  have hm : ∀ c ∈ t.chains, ∃ c0 ∈ s.chains, c.obj = c0.obj ∧ c.value = c0.value := by
    intro c hc
    obtain ⟨i, hi⟩ := List.mem_iff_getElem?.mp hc
    obtain ⟨c0, g1, x, y, g2⟩ := h.symm.get hi
    exact ⟨c0, List.mem_of_getElem? g1, by rw [g2]; exact ⟨rfl, rfl⟩⟩
  refine ⟨fun c hc => ?_, fun c hc => ?_, ?_, by rw [← h.rng]; exact hs.rng⟩
  · obtain ⟨c0, g1, g2, -⟩ := hm c hc; rw [g2]; exact hs.obj _ g1
  · obtain ⟨c0, g1, -, g2⟩ := hm c hc; rw [g2]; exact hs.len _ g1
  · rw [← h.steps, ← h.chains.length_eq]; exact hs.steps

omit [Target μ] in
theorem setSizes_total {s : Samp μ d} (n : ℕ) {l : List (String × ℕ)} (hl : ∀ x ∈ l, x.2 < s.chains.length) :
    ∃ s', s.setSizes n l = .ok s' := by
  induction l with
  | nil => exact ⟨s, rfl⟩
  | cons x l ih =>
      obtain ⟨lab, i⟩ := x
      obtain ⟨t, h1⟩ := ih fun x hx => hl x (List.mem_cons_of_mem _ hx)
      have hlen := (setSizes_spec h1).1.chains.length_eq
      have hi := hl (lab, i) List.mem_cons_self
      unfold Samp.setSizes
      rw [h1]
      simp only [res_bind_ok, rdU_ok (List.getElem?_eq_getElem (show i < t.chains.length by simp only at hi; omega))]
      exact ⟨_, rfl⟩

omit [Target μ] in
theorem saveValues_total {s : Samp μ d} {k : ℕ} {l : List (String × ℕ)} (hl : ∀ x ∈ l, ∃ c, s.chains[x.2]? = some c ∧ k < c.samples.length ∧ k < c.logposts.length) :
    ∃ s', s.saveValues k l = .ok s' := by
  induction l with
  | nil => exact ⟨s, rfl⟩
  | cons x l ih =>
      obtain ⟨lab, i⟩ := x
      obtain ⟨t, h1⟩ := ih fun x hx => hl x (List.mem_cons_of_mem _ hx)
      obtain ⟨c, hc, c1, c2⟩ := hl (lab, i) List.mem_cons_self
      obtain ⟨c', g1, g2, g3⟩ := (saveValues_spec h1).2 i c hc
      have hlen : k < c'.samples.length ∧ k < c'.logposts.length := by
        by_cases hm : ∃ lab, (lab, i) ∈ l
        · rw [(g2 hm).2.2]; simp [Verif.Theory.rec, c1, c2]
        · rw [g3 hm]; exact ⟨c1, c2⟩
      unfold Samp.saveValues
      rw [h1]
      simp only [res_bind_ok, rdU_ok g1, Par.addToSample, wrU, hlen.1, hlen.2, if_true, res_pure]
      exact ⟨_, rfl⟩

theorem sampleLoop_total (hT : Total μ inv d) {s : Samp μ d} (hs : Fit inv s) {N thin k : ℕ} (hk : k ≤ N)
    (hl : ∀ x ∈ s.tracked, ∃ c, s.chains[x.2]? = some c ∧ c.samples.length = N ∧ c.logposts.length = N) :
    ∃ s', s.sampleLoop thin k = .ok s' ∧ Fit inv s' ∧ s'.tracked = s.tracked ∧
      (∀ x ∈ s.tracked, ∃ c, s'.chains[x.2]? = some c ∧ c.samples.length = N ∧ c.logposts.length = N) ∧
      s'.chains.length = s.chains.length := by
  induction k with
  | zero => exact ⟨s, rfl, hs, rfl, hl, rfl⟩
  | succ k ih =>
      obtain ⟨t, h1, h2, h3, h4, h4'⟩ := ih (by omega)
      obtain ⟨u, h5, h6⟩ := iterate_total hT h2 thin
      obtain ⟨f1, f2⟩ := iterate_fixed h5
      have hu : ∀ x ∈ u.tracked, ∃ c, u.chains[x.2]? = some c ∧ c.samples.length = N ∧ c.logposts.length = N := by
        intro x hx
        rw [f2, h3] at hx
        obtain ⟨c, c1, c2, c3⟩ := h4 x hx
        obtain ⟨c', e1, e2⟩ := fixed_get f1 c1
        refine ⟨c', e1, ?_, ?_⟩
        · rw [← c2]; exact congrArg (fun x => x.2.2.2.1.length) e2
        · rw [← c3]; exact congrArg (fun x => x.2.2.2.2.length) e2
      obtain ⟨v, h7⟩ := saveValues_total (s := u) (k := k) (l := u.tracked) fun x hx => by
        obtain ⟨c, c1, c2, c3⟩ := hu x hx
        exact ⟨c, c1, by omega, by omega⟩
      obtain ⟨h8, h9⟩ := saveValues_spec h7
      refine ⟨v, by unfold Samp.sampleLoop; rw [h1]; simp only [res_bind_ok, h5, h7], h6.of_rec h8, ?_, fun x hx => ?_, ?_⟩
      · rw [← h8.tracked, f2, h3]
      · have hx' : x ∈ u.tracked := by rw [f2, h3]; exact hx
        obtain ⟨c, c1, c2, c3⟩ := hu x hx'
        obtain ⟨c', e1, e2, -⟩ := h9 x.2 c c1
        refine ⟨c', e1, ?_⟩
        rw [(e2 ⟨x.1, hx'⟩).2.2]
        simp [Verif.Theory.rec, c2, c3]
      · rw [← h8.chains.length_eq, ← h4']
        have := congrArg List.length f1
        simpa using this

/-- The starting-value call returns for every object. -/
def Starts (inv : μ → Prop) (d fuel : ℕ) (init : Option (List ℝ)) (R : Rng → Prop) : Prop :=
  ∀ o r, inv o → R r → ∃ o' θ r', startCall fuel init o r = .ok (o', θ, r') ∧ inv o' ∧ θ.length = d ∧ R r'

theorem startLoop_total (hT : Total μ inv d) {s : Samp μ d} (hs : Fit inv s) {fuel : ℕ} {init : Option (List ℝ)} {R : Rng → Prop}
    (hR : R s.rng) (hb : ∀ r, R r → Blocks d r.stud) (hst : Starts inv d fuel init R) {m : ℕ} (hm : m ≤ s.steps.length) :
    ∃ s', s.startLoop fuel init m = .ok s' ∧ Fit inv s' ∧ R s'.rng ∧ s'.chains.length = s.chains.length ∧ s'.steps = s.steps := by
  induction m with
  | zero => exact ⟨s, rfl, hs, hR, rfl, rfl⟩
  | succ m ih =>
      obtain ⟨t, h1, h2, h3, h3', h3''⟩ := ih (by omega)
      have g : t.steps[m]? = some (t.steps[m]'(by rw [h3'']; omega)) := List.getElem?_eq_getElem _
      have hgs := h2.steps _ (List.mem_of_getElem? g)
      generalize (t.steps[m]'(by rw [h3'']; omega)) = st at *
      have hi : st.chain < t.chains.length := by
        cases st with
        | ram i a => exact hgs.1
        | exch e => exact hgs.2
      have gi : t.chains[st.chain]? = some (t.chains[st.chain]'hi) := List.getElem?_eq_getElem hi
      have mi := List.mem_of_getElem? gi
      generalize (t.chains[st.chain]'hi) = c at *
      obtain ⟨o', θ, r', h4, h5, h6, h7⟩ := hst c.obj t.rng (h2.obj _ mi) h3
      obtain ⟨c', h8, h9, h10⟩ := save_total hT (s := { c with obj := o' }) h5 h6
      refine ⟨{ t with chains := t.chains.set st.chain c', rng := r' }, ?_, ⟨mem_set_of h2.obj h9, mem_set_of h2.len (by rw [h10]; exact h6), ?_, hb _ h7⟩, h7, by simpa using h3', h3''⟩
      · unfold Samp.startLoop
        rw [h1]
        simp only [res_bind_ok, Samp.startOne, rdU_ok g, rdU_ok gi]
        unfold startCall at h4
        cases init with
        | none => simp only at h4 ⊢; rw [h4]; simp only [res_bind_ok, h8]; rfl
        | some i => simp only at h4 ⊢; rw [h4]; simp only [res_bind_ok, h8]; rfl
      · simp only [List.length_set]
        exact h2.steps

theorem run_total (hT : Total μ inv d) {s : Samp μ d} (hs : Fit inv s) {fuel N burnin thin : ℕ} {init : List ℝ} {R : Rng → Prop}
    (hR : R s.rng) (hb : ∀ r, R r → Blocks d r.stud) (hst : Starts inv d fuel (if init.length = d then some init else none) R)
    (hne : s.steps ≠ []) (ht : ∀ x ∈ s.tracked, x.2 < s.chains.length) :
    ∃ s', s.run fuel N burnin thin init = .ok s' ∧ s'.chains.length = s.chains.length := by
  obtain ⟨s0, h1⟩ := setSizes_total N ht
  obtain ⟨h2, h3⟩ := setSizes_spec h1
  have hf := hs.of_rec h2
  have hR0 : R s0.rng := by rw [← h2.rng]; exact hR
  have hpos : 0 < s0.steps.length := by rw [← h2.steps]; exact List.length_pos_iff.mpr hne
  have g : s0.steps[0]? = some (s0.steps[0]'hpos) := List.getElem?_eq_getElem _
  have hgs := hf.steps _ (List.mem_of_getElem? g)
  generalize (s0.steps[0]'hpos) = st at *
  have hi : st.chain < s0.chains.length := by
    cases st with
    | ram i a => exact hgs.1
    | exch e => exact hgs.2
  have gi : s0.chains[st.chain]? = some (s0.chains[st.chain]'hi) := List.getElem?_eq_getElem hi
  have hl := hf.len _ (List.mem_of_getElem? gi)
  obtain ⟨s1, h4, h5, -, h6, -⟩ := startLoop_total hT hf hR0 hb hst (m := s0.steps.length) le_rfl
  obtain ⟨s2, h7, h8⟩ := iterate_total hT h5 burnin
  obtain ⟨b1, b2, b3⟩ := startLoop_frame h4
  obtain ⟨c1, c2⟩ := iterate_fixed h7
  obtain ⟨s3, h9, -, -, -, h10⟩ := sampleLoop_total hT h8 (N := N) (thin := thin) (k := N) le_rfl fun x hx => by
    have hx0 : x ∈ s.tracked := by rw [h2.tracked, ← b2, ← c2]; exact hx
    have hxl : x.2 < s0.chains.length := by rw [← h2.chains.length_eq]; exact ht x hx0
    have e0 : s0.chains[x.2]? = some (s0.chains[x.2]'hxl) := List.getElem?_eq_getElem _
    obtain ⟨k1, k2⟩ := h3 _ _ e0 ⟨x.1, hx0⟩
    obtain ⟨p1, e3, e4⟩ := fixed_get b1 e0
    obtain ⟨p2, e5, e6⟩ := fixed_get c1 e3
    have e7 := e6.trans e4
    refine ⟨p2, e5, ?_, ?_⟩
    · rw [← k1]; exact congrArg (fun x => x.2.2.2.1.length) e7
    · rw [← k2]; exact congrArg (fun x => x.2.2.2.2.length) e7
  refine ⟨s3, ?_, ?_⟩
  · unfold Samp.run
    rw [h1]
    simp only [res_bind_ok, rdU_ok g, rdU_ok gi, hl, h4, h7, h9]
  · have e1 := congrArg List.length c1
    have e2 := congrArg List.length b1
    simp only [List.length_map] at e1 e2
    rw [h10, e1, e2, h2.chains.length_eq]

end Verif.Theory
