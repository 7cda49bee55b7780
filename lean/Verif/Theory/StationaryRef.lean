import Verif.Theory.Stationary
import Verif.Theory.Total
import Verif.Props.Mcmc

/-!
After the adaptive phase the steps of the sampler are the maps of `Verif.Theory.Stationary`.
-/

namespace Verif.Theory

open Verif.Model Verif.Spec MeasureTheory

variable {μ : Type} [Target μ] {d N : ℕ} {inv : μ → Prop} {G : LogTarget d}

/-- Evaluation of the log-density gives the target `G` and keeps `inv`. -/
structure HasTarget (μ : Type) [Target μ] (inv : μ → Prop) (G : LogTarget d) : Prop where
  ld : ∀ o x, inv o → ∃ o' v, Target.ld o (List.ofFn x) = .ok (o', v) ∧ inv o' ∧ Agrees v (G x)
  stale : ∀ o x, inv o → ∃ v, Target.staleLd o (List.ofFn (x : Fin d → ℝ)) = .ok v

theorem agrees_some {v : Dbl} {g : Option ℝ} (h : Agrees v g) (hg : g.isSome = true) : v = .fin (g.getD 0) := by
  cases g with
  | none => cases hg
  | some l => exact h

theorem agrees_fin {v : Dbl} {g : Option ℝ} (h : Agrees v g) : v.isFin ↔ g.isSome = true := by
  cases g with
  | none => exact ⟨fun hv => absurd hv h, fun hg => by cases hg⟩
  | some l =>
      have e : v = .fin l := h
      rw [e]
      simp [Dbl.isFin]

theorem adapt_frozen {a : Ram d} (ha : a.maxiter ≤ a.niter) (u w : Fin d → ℝ) : a.adapt u w = .ok a := by
  unfold Ram.adapt
  split
  · rw [if_neg (by omega)]; rfl
  · rfl

theorem getD_ofFn (x : Fin d → ℝ) (j : Fin d) : (List.ofFn x).getD j 0 = x j := by
  simp [List.getD_eq_getElem?_getD]

/-- A RAM step after the adaptive phase. -/
theorem ram_frozen (hT : HasTarget μ inv G) {a : Ram d} (ha : a.maxiter ≤ a.niter) {s : Par μ} (hs : inv s.obj) {x : Fin d → ℝ}
    (hx : s.value = List.ofFn x) (hl : Agrees s.logpost (G x)) (ht : s.temp ≠ 0) (r : Rng) {y : Fin d → ℝ}
    (hy : y = fun j => x j + ∑ i, a.chol i j * r.stud i) :
    ∃ a' s' r', a.doStep s r = .ok (a', s', r') ∧ a'.chol = a.chol ∧ a'.maxiter ≤ a'.niter ∧ inv s'.obj ∧ s'.temp = s.temp ∧
      r'.stud = Rng.skip d r.stud ∧
      (((G x).isSome = true ∧ (G y).isSome = true) →
        r'.unif = Rng.skip 1 r.unif ∧
        (r.unif 0 < min 1 (Real.exp (((G y).getD 0 - (G x).getD 0) / s.temp)) → s'.value = List.ofFn y ∧ Agrees s'.logpost (G y)) ∧
        (¬ r.unif 0 < min 1 (Real.exp (((G y).getD 0 - (G x).getD 0) / s.temp)) → s'.value = List.ofFn x ∧ Agrees s'.logpost (G x))) ∧
      (¬ ((G x).isSome = true ∧ (G y).isSome = true) → r'.unif = r.unif ∧ s'.value = List.ofFn x ∧ Agrees s'.logpost (G x)) := by
  have hlen : s.value.length = d := by rw [hx]; simp
  have hθ : (List.ofFn fun i : Fin d => s.value.getD i 0 + ∑ k, a.chol k i * r.stud k) = List.ofFn y := by
    rw [hy]
    congr 1
    funext j
    rw [hx, getD_ofFn]
  obtain ⟨o, v, h1, h2, h3⟩ := hT.ld s.obj y hs
  unfold Ram.doStep
  simp only [hlen, ne_eq, not_true, if_false, hθ]
  by_cases hb : (G x).isSome = true ∧ (G y).isSome = true
  · have e1 := agrees_some hl hb.1
    have e2 := agrees_some h3 hb.2
    rw [e2] at h1
    have hacc := accept_fin (a := a) (r := { r with stud := Rng.skip d r.stud }) h1 e1 ht
    rw [hacc]
    simp only [res_bind_ok]
    by_cases hu : r.unif 0 < min 1 (Real.exp (((G y).getD 0 - (G x).getD 0) / s.temp))
    · obtain ⟨o', v', g1, g2, g3⟩ := hT.ld o y h2
      have hsave : ({ s with obj := o } : Par μ).save (List.ofFn y) = .ok { s with obj := o', value := List.ofFn y, logpost := v' } := by
        unfold Par.save
        simp only [g1, res_bind_ok]
        rfl
      simp only [hu, if_true, hsave, res_bind_ok]
      rw [adapt_frozen (a := { a with alpha := .fin (min 1 (Real.exp (((G y).getD 0 - (G x).getD 0) / s.temp))), naccept := a.naccept + 1 })
        (show a.maxiter ≤ a.niter from ha)]
      refine ⟨_, _, _, rfl, rfl, (show a.maxiter ≤ a.niter + 1 by omega), g2, rfl, rfl, fun _ => ⟨rfl, fun _ => ⟨rfl, g3⟩, fun h => absurd trivial h⟩, fun h => absurd hb h⟩
    · simp only [hu, if_false, res_pure, res_bind_ok, Bool.false_eq_true]
      rw [adapt_frozen (a := { a with alpha := .fin (min 1 (Real.exp (((G y).getD 0 - (G x).getD 0) / s.temp))) })
        (show a.maxiter ≤ a.niter from ha)]
      refine ⟨_, _, _, rfl, rfl, (show a.maxiter ≤ a.niter + 1 by omega), h2, rfl, rfl, fun _ => ⟨rfl, fun h => h.elim, fun _ => ⟨hx, hl⟩⟩, fun h => absurd hb h⟩
  · have hnf : ¬ (Dbl.div (v.sub s.logpost) (.fin s.temp)).isFin := by
      intro hcon
      have := dbl_sub_fin (dbl_div_fin hcon)
      exact hb ⟨(agrees_fin hl).mp this.2, (agrees_fin h3).mp this.1⟩
    have hacc : a.accept s (List.ofFn y) { r with stud := Rng.skip d r.stud } =
        .ok ⟨false, { s with obj := o }, { a with alpha := .fin 0 }, { r with stud := Rng.skip d r.stud }⟩ := by
      unfold Ram.accept
      rw [h1]
      simp only [res_bind_ok, hnf, not_false_eq_true, if_true]
      rfl
    rw [hacc]
    simp only [res_bind_ok, Bool.false_eq_true, if_false, res_pure]
    rw [adapt_frozen (a := { a with alpha := .fin 0 }) (show a.maxiter ≤ a.niter from ha)]
    exact ⟨_, _, _, rfl, rfl, (show a.maxiter ≤ a.niter + 1 by omega), h2, rfl, rfl, fun h => absurd h hb, fun _ => ⟨rfl, hx, hl⟩⟩

/-- A step of the stack that no longer adapts, compared with a reference step. -/
def Frozen (a b : StepSt d) : Prop :=
  match a, b with
  | .ram i a, .ram j b => i = j ∧ b.chol = a.chol ∧ b.maxiter ≤ b.niter
  | .exch e, .exch f => f.idx = e.idx
  | _, _ => False

/-- Indices of a step are those of chains. -/
def InRange (N : ℕ) : StepSt d → Prop
  | .ram i _ => i < N
  | .exch e => 0 < e.idx ∧ e.idx < N

/-- The map of a step. -/
noncomputable def stepMap (G : LogTarget d) (T : Fin N → ℝ) : StepSt d → McState N d → McState N d
  | .ram i a => if h : i < N then ramMap G T ⟨i, h⟩ a.chol else id
  | .exch e => if h : e.idx < N then exchMap G T ⟨e.idx, h⟩ ⟨e.idx - 1, by omega⟩ else id

theorem stepMap_preserving (hG : MeasTarget G) (T : Fin N → ℝ) {st : StepSt d} (hst : InRange N st) {ν : Measure ℝ}
    [IsProbabilityMeasure ν] (hν : ν.map (fun x => -x) = ν) : MeasurePreserving (stepMap G T st) (mcLaw G T ν) (mcLaw G T ν) := by
  cases st with
  | ram i a =>
      have h : i < N := hst
      simp only [stepMap, h, dif_pos]
      exact ramMap_preserving hG _ _ hν
  | exch e =>
      have h : e.idx < N := hst.2
      simp only [stepMap, h, dif_pos]
      refine exchMap_preserving hG ?_
      intro hc
      have := congrArg Fin.val hc
      have h0 : 0 < e.idx := hst.1
      simp only at this
      omega

/-- The sampler stands at `z`, with frozen steps. -/
structure At (inv : μ → Prop) (G : LogTarget d) (T : Fin N → ℝ) (steps : List (StepSt d)) (s : Samp μ d) (z : McState N d) : Prop where
  length : s.chains.length = N
  chain : ∀ (i : Fin N) c, s.chains[(i : ℕ)]? = some c → inv c.obj ∧ c.temp = T i ∧ c.value = List.ofFn (z.1 i) ∧ Agrees c.logpost (G (z.1 i))
  stud : s.rng.stud = z.2.1
  unif : s.rng.unif = z.2.2
  steps : List.Forall₂ Frozen steps s.steps

theorem forall₂_set {α β : Type} {R : α → β → Prop} {l : List α} {m : List β} (h : List.Forall₂ R l m) {k : ℕ} {a : α} {b : β}
    (ha : l[k]? = some a) (hab : R a b) : List.Forall₂ R l (m.set k b) := by
  induction h generalizing k with
  | nil => simp at ha
  | cons h1 h2 ih =>
      cases k with
      | zero =>
          simp only [List.getElem?_cons_zero, Option.some.injEq] at ha
          subst ha
          exact .cons hab h2
      | succ k => exact .cons h1 (ih (by simpa using ha))

theorem forall₂_get {α β : Type} {R : α → β → Prop} {l : List α} {m : List β} (h : List.Forall₂ R l m) {k : ℕ} {a : α}
    (ha : l[k]? = some a) : ∃ b, m[k]? = some b ∧ R a b := by
  induction h generalizing k with
  | nil => simp at ha
  | cons h1 h2 ih =>
      cases k with
      | zero =>
          simp only [List.getElem?_cons_zero, Option.some.injEq] at ha
          subst ha
          exact ⟨_, rfl, h1⟩
      | succ k => exact ih (by simpa using ha)

omit [Target μ] in
theorem getElem?_set_cases {l : List (Par μ)} {i k : ℕ} {p c : Par μ} (h : (l.set i p)[k]? = some c) :
    (k = i ∧ c = p) ∨ (k ≠ i ∧ l[k]? = some c) := by
  by_cases hk : k = i
  · subst hk
    rw [List.getElem?_set_self'] at h
    cases hl : l[k]? with
    | none => rw [hl] at h; cases h
    | some x => rw [hl] at h; exact Or.inl ⟨rfl, by simpa using h.symm⟩
  · rw [List.getElem?_set_ne (by omega)] at h
    exact Or.inr ⟨hk, h⟩

theorem at_step (hT : HasTarget μ inv G) {T : Fin N → ℝ} (hpos : ∀ i, 0 < T i) {steps : List (StepSt d)} {k : ℕ} {st : StepSt d}
    (hk : steps[k]? = some st) (hst : InRange N st) {s : Samp μ d} {z : McState N d} (h : At inv G T steps s z) :
    ∃ s', s.doStep k = .ok s' ∧ At inv G T steps s' (stepMap G T st z) := by
  obtain ⟨st', g1, g2⟩ := forall₂_get h.steps hk
  unfold Samp.doStep
  rw [rdU_ok g1]
  simp only [res_bind_ok]
  cases st with
  | ram i a =>
      cases st' with
      | exch e => exact g2.elim
      | ram j b =>
          obtain ⟨rfl, hchol, hmax⟩ := g2
          have hi : i < N := hst
          have hc : s.chains[i]? = some (s.chains[i]'(by rw [h.length]; exact hi)) := List.getElem?_eq_getElem _
          generalize s.chains[i]'(by rw [h.length]; exact hi) = c at hc
          obtain ⟨c1, c2, c3, c4⟩ := h.chain ⟨i, hi⟩ c hc
          dsimp only
          rw [rdU_ok hc]
          simp only [res_bind_ok]
          have hy : ramMove ⟨i, hi⟩ a.chol z.2.1 z.1 ⟨i, hi⟩ = fun j => z.1 ⟨i, hi⟩ j + ∑ k : Fin d, b.chol k j * s.rng.stud k := by
            rw [ramMove_same, hchol, h.stud]
          obtain ⟨a', s', r', e1, e2, e3, e4, e5, e6, e7, e8⟩ :=
            ram_frozen hT hmax c1 c3 c4 (by rw [c2]; exact (hpos _).ne') s.rng hy
          rw [e1]
          simp only [res_bind_ok, res_pure]
          refine ⟨_, rfl, ?_⟩
          have hfro : List.Forall₂ Frozen steps (s.steps.set k (.ram i a')) :=
            forall₂_set h.steps hk ⟨rfl, e2.trans hchol, e3⟩
          simp only [stepMap, hi, dif_pos]
          have hother : ∀ (m : Fin N) c', m ≠ ⟨i, hi⟩ → s.chains[(m : ℕ)]? = some c' → inv c'.obj ∧ c'.temp = T m ∧
              c'.value = List.ofFn (z.1 m) ∧ Agrees c'.logpost (G (z.1 m)) := fun m c' _ hm => h.chain m c' hm
          -- the chain moved to `w`
          have build : ∀ (w : Fin N → Fin d → ℝ) (u' : ℕ → ℝ), (∀ m, m ≠ ⟨i, hi⟩ → w m = z.1 m) → s'.value = List.ofFn (w ⟨i, hi⟩) →
              Agrees s'.logpost (G (w ⟨i, hi⟩)) → r'.unif = u' →
              At inv G T steps { s with chains := s.chains.set i s', steps := s.steps.set k (.ram i a'), rng := r' }
                (w, Rng.skip d z.2.1, u') := by
            intro w u' hw hv hL hu
            refine ⟨by simpa using h.length, ?_, by rw [e6, h.stud], hu, hfro⟩
            intro m c' hm
            rcases getElem?_set_cases hm with ⟨hmi, rfl⟩ | ⟨hmi, hm⟩
            · obtain rfl : m = ⟨i, hi⟩ := Fin.ext hmi
              exact ⟨e4, e5.trans c2, hv, hL⟩
            · have hne : m ≠ ⟨i, hi⟩ := fun hc => hmi (congrArg Fin.val hc)
              have := hother m c' hne hm
              rw [← hw m hne] at this
              exact this
          unfold ramMap metroMap
          by_cases hF : (z.1, z.2.1) ∈ ramSet G ⟨i, hi⟩ a.chol
          · obtain ⟨f1, f2, f3⟩ := e7 hF
            rw [c2] at f2 f3
            simp only [hF, if_true]
            by_cases hu : z.2.2 0 < ramProb G T ⟨i, hi⟩ a.chol (z.1, z.2.1)
            · simp only [hu, if_true]
              have hu' := hu
              rw [← h.unif] at hu'
              obtain ⟨k1, k2⟩ := f2 hu'
              exact build _ _ (fun m hm => ramMove_other hm _ _ _) k1 k2 (by rw [f1, h.unif])
            · simp only [hu, if_false]
              have hu' := hu
              rw [← h.unif] at hu'
              obtain ⟨k1, k2⟩ := f3 hu'
              exact build _ _ (fun m _ => rfl) k1 k2 (by rw [f1, h.unif])
          · obtain ⟨f1, f2, f3⟩ := e8 hF
            simp only [hF, if_false]
            exact build _ _ (fun m _ => rfl) f2 f3 (by rw [f1, h.unif])
  | exch e =>
      cases st' with
      | ram j b => exact g2.elim
      | exch f =>
          have hidx : f.idx = e.idx := g2
          have h0 : 0 < e.idx := hst.1
          have hN : e.idx < N := hst.2
          have hj : e.idx - 1 < N := by omega
          have hc : s.chains[e.idx]? = some (s.chains[e.idx]'(by rw [h.length]; exact hN)) := List.getElem?_eq_getElem _
          have ho : s.chains[e.idx - 1]? = some (s.chains[e.idx - 1]'(by rw [h.length]; exact hj)) := List.getElem?_eq_getElem _
          generalize s.chains[e.idx]'(by rw [h.length]; exact hN) = this at hc
          generalize s.chains[e.idx - 1]'(by rw [h.length]; exact hj) = other at ho
          obtain ⟨c1, c2, c3, c4⟩ := h.chain ⟨e.idx, hN⟩ this hc
          obtain ⟨o1, o2, o3, o4⟩ := h.chain ⟨e.idx - 1, hj⟩ other ho
          dsimp only
          unfold Exch.doStep
          rw [hidx, rdU_ok hc]
          simp only [res_bind_ok, show e.idx ≠ 0 by omega, if_false, rdU_ok ho]
          have hprob : swapProb this.temp other.temp this.logpost other.logpost = .fin (swapAcc G T ⟨e.idx, hN⟩ ⟨e.idx - 1, hj⟩ (z.1, z.2.1)) := by
            rw [c2, o2]
            obtain ⟨p1, p2⟩ := Props.C26_swap_probability (hpos ⟨e.idx, hN⟩) (hpos ⟨e.idx - 1, hj⟩) this.logpost other.logpost
            unfold swapAcc
            by_cases hb : (G (z.1 ⟨e.idx, hN⟩)).isSome = true ∧ (G (z.1 ⟨e.idx - 1, hj⟩)).isSome = true
            · rw [if_pos hb]
              exact p1 _ _ (agrees_some c4 hb.1) (agrees_some o4 hb.2)
            · rw [if_neg hb]
              exact p2 fun hcon => hb ⟨(agrees_fin c4).mp hcon.1, (agrees_fin o4).mp hcon.2⟩
          rw [hprob]
          have hlt : (Dbl.fin s.rng.nextU.1).lt (.fin (swapAcc G T ⟨e.idx, hN⟩ ⟨e.idx - 1, hj⟩ (z.1, z.2.1))) ↔
              z.2.2 0 < swapAcc G T ⟨e.idx, hN⟩ ⟨e.idx - 1, hj⟩ (z.1, z.2.1) := by
            rw [← h.unif]; exact Iff.rfl
          simp only [stepMap, hN, dif_pos]
          unfold exchMap metroMap
          simp only [Set.mem_univ, if_true, id]
          by_cases hu : z.2.2 0 < swapAcc G T ⟨e.idx, hN⟩ ⟨e.idx - 1, hj⟩ (z.1, z.2.1)
          · obtain ⟨q, v, q1, q2, q3⟩ := hT.ld this.obj (z.1 ⟨e.idx - 1, hj⟩) c1
            obtain ⟨w, w1⟩ := hT.stale other.obj (z.1 ⟨e.idx, hN⟩) o1
            have s1 : this.save other.value = .ok { this with obj := q, value := other.value, logpost := v } := by
              unfold Par.save; rw [o3, q1]; rfl
            have s2 : other.saveStale this.value = .ok { other with value := this.value, logpost := w } := by
              unfold Par.saveStale; rw [c3, w1]; rfl
            simp only [hlt.mpr hu, hu, if_true, s1, s2, res_bind_ok, res_pure]
            refine ⟨_, rfl, ⟨by simpa using h.length, ?_, h.stud, by rw [← h.unif]; rfl, forall₂_set h.steps hk (show Frozen (.exch e) _ from rfl)⟩⟩
            intro m c' hm
            rcases getElem?_set_cases hm with ⟨hmi, rfl⟩ | ⟨hmi, hm⟩
            · obtain rfl : m = ⟨e.idx - 1, hj⟩ := Fin.ext hmi
              refine ⟨o1, o2, ?_, ?_⟩
              · simp only [swapMove, Equiv.swap_apply_right]; exact c3
              · simp only [swapMove, Equiv.swap_apply_right]; exact c4
            · rcases getElem?_set_cases hm with ⟨hmi', rfl⟩ | ⟨hmi', hm⟩
              · obtain rfl : m = ⟨e.idx, hN⟩ := Fin.ext hmi'
                refine ⟨q2, c2, ?_, ?_⟩
                · simp only [swapMove, Equiv.swap_apply_left]; exact o3
                · simp only [swapMove, Equiv.swap_apply_left]; exact o4
              · have n1 : m ≠ ⟨e.idx, hN⟩ := fun hc => hmi' (congrArg Fin.val hc)
                have n2 : m ≠ ⟨e.idx - 1, hj⟩ := fun hc => hmi (congrArg Fin.val hc)
                simp only [swapMove, Equiv.swap_apply_of_ne_of_ne n1 n2]
                exact h.chain m c' hm
          · simp only [mt hlt.mp hu, hu, if_false, res_bind_ok, res_pure]
            exact ⟨_, rfl, ⟨h.length, h.chain, h.stud, by rw [← h.unif]; rfl, forall₂_set h.steps hk (show Frozen (.exch e) _ from rfl)⟩⟩

/-- The map of the first `m` steps. -/
noncomputable def loopMap (G : LogTarget d) (T : Fin N → ℝ) (steps : List (StepSt d)) : ℕ → McState N d → McState N d
  | 0 => id
  | m + 1 => fun z => match steps[m]? with
      | some st => stepMap G T st (loopMap G T steps m z)
      | none => loopMap G T steps m z

theorem loopMap_preserving (hG : MeasTarget G) (T : Fin N → ℝ) {steps : List (StepSt d)} (hst : ∀ st ∈ steps, InRange N st)
    {ν : Measure ℝ} [IsProbabilityMeasure ν] (hν : ν.map (fun x => -x) = ν) (m : ℕ) :
    MeasurePreserving (loopMap G T steps m) (mcLaw G T ν) (mcLaw G T ν) := by
  induction m with
  | zero => exact MeasurePreserving.id _
  | succ m ih =>
      unfold loopMap
      cases h : steps[m]? with
      | none => exact ih
      | some st => exact (stepMap_preserving hG T (hst st (List.mem_of_getElem? h)) hν).comp ih

theorem at_loop (hT : HasTarget μ inv G) {T : Fin N → ℝ} (hpos : ∀ i, 0 < T i) {steps : List (StepSt d)}
    (hst : ∀ st ∈ steps, InRange N st) {s : Samp μ d} {z : McState N d} (h : At inv G T steps s z) {m : ℕ} (hm : m ≤ steps.length) :
    ∃ s', s.stepLoop m = .ok s' ∧ At inv G T steps s' (loopMap G T steps m z) := by
  induction m with
  | zero => exact ⟨s, rfl, h⟩
  | succ m ih =>
      obtain ⟨s1, h1, h2⟩ := ih (by omega)
      have hk : steps[m]? = some (steps[m]'(by omega)) := List.getElem?_eq_getElem _
      generalize steps[m]'(by omega) = st at hk
      obtain ⟨s2, h3, h4⟩ := at_step hT hpos hk (hst st (List.mem_of_getElem? hk)) h2
      refine ⟨s2, ?_, ?_⟩
      · show (s.stepLoop m >>= fun s => s.doStep m) = _
        rw [h1]; exact h3
      · unfold loopMap
        rw [hk]; exact h4

/-- The map of `n` sweeps. -/
noncomputable def sweepsMap (G : LogTarget d) (T : Fin N → ℝ) (steps : List (StepSt d)) (n : ℕ) : McState N d → McState N d :=
  (loopMap G T steps steps.length)^[n]

theorem sweepsMap_preserving (hG : MeasTarget G) (T : Fin N → ℝ) {steps : List (StepSt d)} (hst : ∀ st ∈ steps, InRange N st)
    {ν : Measure ℝ} [IsProbabilityMeasure ν] (hν : ν.map (fun x => -x) = ν) (n : ℕ) :
    MeasurePreserving (sweepsMap G T steps n) (mcLaw G T ν) (mcLaw G T ν) :=
  (loopMap_preserving hG T hst hν _).iterate n

theorem at_sweeps (hT : HasTarget μ inv G) {T : Fin N → ℝ} (hpos : ∀ i, 0 < T i) {steps : List (StepSt d)}
    (hst : ∀ st ∈ steps, InRange N st) {s : Samp μ d} {z : McState N d} (h : At inv G T steps s z) (n : ℕ) :
    ∃ s', s.iterate n = .ok s' ∧ At inv G T steps s' (sweepsMap G T steps n z) := by
  induction n with
  | zero => exact ⟨s, rfl, h⟩
  | succ n ih =>
      obtain ⟨s1, h1, h2⟩ := ih
      obtain ⟨s2, h3, h4⟩ := at_loop hT hpos hst h2 le_rfl
      refine ⟨s2, ?_, ?_⟩
      · show (s.iterate n >>= Samp.sweep) = _
        rw [h1]
        show s1.stepLoop s1.steps.length = _
        rw [← h2.steps.length_eq]; exact h3
      · unfold sweepsMap
        rw [Function.iterate_succ_apply']
        exact h4

end Verif.Theory
