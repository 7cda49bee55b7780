import Verif.Spec.Mcmc
import Verif.Theory.Core

/-!
What Metropolis, exchange and sampler steps do to the chains, for any target whose log-density does not depend on history.
-/

namespace Verif.Theory

open Verif.Model Verif.Spec

/-! ### arithmetic with infinities -/

theorem dbl_isFin_iff {x : Dbl} : x.isFin ↔ ∃ a, x = .fin a := by
  cases x <;> simp [Dbl.isFin]

theorem dbl_add_fin {x y : Dbl} (h : (x.add y).isFin) : x.isFin ∧ y.isFin := by
  cases x <;> cases y <;> simp_all [Dbl.add, Dbl.isFin]

theorem dbl_neg_fin {x : Dbl} (h : x.neg.isFin) : x.isFin := by
  cases x <;> simp_all [Dbl.neg, Dbl.isFin]

theorem dbl_sub_fin {x y : Dbl} (h : (x.sub y).isFin) : x.isFin ∧ y.isFin :=
  ⟨(dbl_add_fin h).1, dbl_neg_fin (dbl_add_fin h).2⟩

theorem dbl_div_fin {x : Dbl} {t : ℝ} (h : (x.div (.fin t)).isFin) : x.isFin := by
  cases x <;> simp only [Dbl.div, Dbl.isFin] at h ⊢ <;> by_cases ht : t < 0 <;> simp [ht] at h

/-! ### targets -/

variable {μ : Type} [Target μ] {inv : μ → Prop} {f : List ℝ → Res Dbl} {d : ℕ}

theorem _root_.Verif.Spec.HistoryFree.save (hf : HistoryFree μ inv f) {s s' : Par μ} (hs : inv s.obj) {θ : List ℝ} (h : s.save θ = .ok s') :
    inv s'.obj ∧ ∃ lp, f θ = .ok lp ∧ s' = { s with obj := s'.obj, value := θ, logpost := lp } := by
  obtain ⟨⟨o, lp⟩, h1, h2⟩ := bind_ok_inv h
  cases h2
  have := hf.ld _ _ _ _ hs h1
  exact ⟨this.1, lp, this.2, rfl⟩

/-- Outcome of `AdaptiveMetro::Accept`. -/
theorem accept_inv {a : Ram d} {s : Par μ} {θ : List ℝ} {r : Rng} {res : Accepted μ d} (h : a.accept s θ r = .ok res) :
    ∃ o lp, Target.ld s.obj θ = .ok (o, lp) ∧ res.par = { s with obj := o } ∧
      (res.ok = true → lp.isFin ∧ s.logpost.isFin) := by
  unfold Ram.accept at h
  obtain ⟨⟨o, lp⟩, h1, h⟩ := bind_ok_inv h
  refine ⟨o, lp, h1, ?_⟩
  dsimp only at h
  split at h
  · injection h with h
    rw [← h]
    exact ⟨rfl, fun h => by cases h⟩
  · rename_i hfin
    have hfin := dbl_sub_fin (dbl_div_fin (not_not.mp hfin))
    split at h <;>
    · injection h with h
      rw [← h]
      exact ⟨rfl, fun _ => hfin⟩

theorem dbl_min_one (x : ℝ) : Dbl.min (.fin x) (.fin 1) = .fin (min 1 x) := by
  unfold Dbl.min
  by_cases h : (Dbl.fin 1).lt (.fin x)
  · rw [if_pos h, min_eq_left (show 1 < x from h).le]
  · rw [if_neg h, min_eq_right (not_lt.mp (show ¬ 1 < x from h))]

/-- `AdaptiveMetro::Accept` for finite log-densities. -/
theorem accept_fin {a : Ram d} {s : Par μ} {θ : List ℝ} {r : Rng} {o : μ} {x y : ℝ} (h : Target.ld s.obj θ = .ok (o, .fin y))
    (hl : s.logpost = .fin x) (ht : s.temp ≠ 0) :
    a.accept s θ r = .ok (if r.unif 0 < min 1 (Real.exp ((y - x) / s.temp)) then
      ⟨true, { s with obj := o }, { a with alpha := .fin (min 1 (Real.exp ((y - x) / s.temp))), naccept := a.naccept + 1 }, r.nextU.2⟩
      else ⟨false, { s with obj := o }, { a with alpha := .fin (min 1 (Real.exp ((y - x) / s.temp))) }, r.nextU.2⟩) := by
  have e : Dbl.div ((Dbl.fin y).sub (.fin x)) (.fin s.temp) = .fin ((y - x) / s.temp) := by
    simp only [Dbl.sub, Dbl.neg, Dbl.add, Dbl.div, ht, if_false, sub_eq_add_neg]
  have e2 : Dbl.min (Dbl.div ((Dbl.fin y).sub s.logpost) (.fin s.temp)).exp (.fin 1) =
      .fin (min 1 (Real.exp ((y - x) / s.temp))) := by rw [hl, e]; exact dbl_min_one _
  unfold Ram.accept
  rw [h]
  dsimp only [res_bind_ok, Rng.nextU]
  split
  · rename_i hn
    rw [hl, e] at hn
    exact absurd trivial hn
  · split
    · rename_i hu
      rw [e2] at hu
      rw [if_pos (show r.unif 0 < _ from hu), ← e2]; rfl
    · rename_i hu
      rw [e2] at hu
      rw [if_neg (show ¬ r.unif 0 < _ from hu), ← e2]; rfl

/-- The vector proposed by `AdaptiveMetro::DoStep`. -/
noncomputable def ramProposal (a : Ram d) (s : Par μ) (r : Rng) : List ℝ :=
  List.ofFn fun j : Fin d => s.value.getD j 0 + ∑ i : Fin d, a.chol i j * r.stud i

/-- Outcome of `AdaptiveMetro::DoStep`. -/
theorem ramStep_outcome (hf : HistoryFree μ inv f) {a a' : Ram d} {s s' : Par μ} {r r' : Rng} (hs : inv s.obj)
    (h : a.doStep s r = .ok (a', s', r')) : s.value.length = d ∧ inv s'.obj ∧ Moved f s (ramProposal a s r) s' := by
  unfold Ram.doStep at h
  by_cases hc : s.value.length ≠ d
  · simp only [hc, if_true, ne_eq, not_false_eq_true] at h; cases h
  simp only [hc, if_false] at h
  obtain ⟨res, h1, h⟩ := bind_ok_inv h
  obtain ⟨o, lp, h2, h3, h4⟩ := accept_inv h1
  refine ⟨not_not.mp hc, ?_⟩
  have hl := hf.ld _ _ _ _ hs h2
  split at h
  · rename_i hok
    obtain ⟨s1, h5, h⟩ := bind_ok_inv h
    obtain ⟨b, -, h⟩ := bind_ok_inv h
    injection h with h
    injection h with _ h
    injection h with h _
    subst h
    obtain ⟨h6, lp', h7, h8⟩ := hf.save (by rw [h3]; exact hl.1) h5
    have hlp : lp' = lp := by
      have := hl.2.symm.trans h7
      injection this with this
      exact this.symm
    subst hlp
    refine ⟨h6, ?_⟩
    rw [h8, h3]
    exact .accept _ _ h7 (h4 hok).1 (h4 hok).2
  · obtain ⟨s1, h5, h⟩ := bind_ok_inv h
    obtain ⟨b, -, h⟩ := bind_ok_inv h
    injection h with h
    injection h with _ h
    injection h with h _
    injection h5 with h5
    subst h h5
    rw [h3]
    exact ⟨hl.1, .reject _⟩

theorem rdU_inv {α : Type} {l : List α} {i : ℕ} {x : α} (h : rdU l i = .ok x) : l[i]? = some x := by
  unfold rdU at h
  split at h
  · rename_i h1; injection h with h; rw [← h]; exact h1
  · cases h

theorem exchStep_outcome (hf : HistoryFree μ inv f) {e e' : Exch} {ps ps' : List (Par μ)} {r r' : Rng}
    (hs : ∀ s ∈ ps, inv s.obj) (h : e.doStep ps r = .ok (e', ps', r')) :
    e'.idx = e.idx ∧ Exchanged ps e.idx ps' ∧ ∀ s ∈ ps', inv s.obj := by
  unfold Exch.doStep at h
  obtain ⟨this, h1, h⟩ := bind_ok_inv h
  obtain ⟨j, h2, h⟩ := bind_ok_inv h
  obtain ⟨other, h3, h⟩ := bind_ok_inv h
  have h1 := rdU_inv h1
  have h3 := rdU_inv h3
  have hj : 0 < e.idx ∧ j = e.idx - 1 := by
    split at h2
    · cases h2
    · injection h2 with h2; exact ⟨by omega, h2.symm⟩
  obtain ⟨h0, rfl⟩ := hj
  dsimp only at h
  split at h
  · obtain ⟨⟨ps1, n⟩, h4, h⟩ := bind_ok_inv h
    obtain ⟨this', h5, h4⟩ := bind_ok_inv h4
    obtain ⟨other', h6, h4⟩ := bind_ok_inv h4
    injection h4 with h4
    injection h4 with h4 _
    obtain ⟨lp, h7, h6⟩ := bind_ok_inv h6
    injection h6 with h6
    obtain ⟨g1, lp', g2, g3⟩ := hf.save (hs _ (List.mem_of_getElem? h1)) h5
    injection h with h
    injection h with he h
    injection h with h _
    subst h he
    refine ⟨rfl, ?_, ?_⟩
    · rw [← h4, ← h6, g3]
      exact .swap _ _ _ h0 h1 h3
    · intro s hmem
      rw [← h4] at hmem
      rcases List.mem_or_eq_of_mem_set hmem with hmem | rfl
      · rcases List.mem_or_eq_of_mem_set hmem with hmem | rfl
        · exact hs s hmem
        · exact g1
      · rw [← h6]
        have := hs _ (List.mem_of_getElem? h3)
        exact this
  · injection h with h
    injection h with he h
    injection h with h _
    subst h he
    exact ⟨rfl, .keep, hs⟩

/-! ### sampler -/

/-- Outcome of one step of the stack. -/
theorem samp_doStep (hf : HistoryFree μ inv f) {s s' : Samp μ d} {k : ℕ} (hs : ∀ p ∈ s.chains, inv p.obj) (h : s.doStep k = .ok s') :
    s'.tracked = s.tracked ∧ (∀ p ∈ s'.chains, inv p.obj) ∧ ChainStep f d s.chains s'.chains ∧
    ((∃ i a a', s.steps[k]? = some (.ram i a) ∧ s'.steps = s.steps.set k (.ram i a') ∧ RamStep μ a a') ∨
      ∃ e e', s.steps[k]? = some (.exch e) ∧ s'.steps = s.steps.set k (.exch e') ∧ e'.idx = e.idx) := by
  unfold Samp.doStep at h
  obtain ⟨st, h1, h⟩ := bind_ok_inv h
  have h1 := rdU_inv h1
  cases st with
  | ram i a =>
      obtain ⟨par, h2, h⟩ := bind_ok_inv h
      have h2 := rdU_inv h2
      obtain ⟨⟨a', par', r'⟩, h3, h⟩ := bind_ok_inv h
      cases h
      obtain ⟨g1, g2, g3⟩ := ramStep_outcome hf (hs _ (List.mem_of_getElem? h2)) h3
      refine ⟨rfl, fun p hp => ?_, .move i par par' _ h2 g1 (by simp [ramProposal]) g3,
        Or.inl ⟨i, a, a', h1, rfl, par, par', _, _, h3⟩⟩
      rcases List.mem_or_eq_of_mem_set hp with hp | rfl
      · exact hs p hp
      · exact g2
  | exch e =>
      obtain ⟨⟨e', ps', r'⟩, h3, h⟩ := bind_ok_inv h
      cases h
      obtain ⟨g1, g2, g3⟩ := exchStep_outcome hf hs h3
      exact ⟨rfl, g3, .exch _ _ g2, Or.inr ⟨e, e', h1, rfl, g1⟩⟩

/-- A property of the list of chains that every step keeps is kept by all functions made of steps. -/
theorem samp_stepLoop (hf : HistoryFree μ inv f) {Q : List (Par μ) → Prop} (hQ : ∀ ps ps', Q ps → ChainStep f d ps ps' → Q ps')
    {s s' : Samp μ d} {m : ℕ} (hs : ∀ p ∈ s.chains, inv p.obj) (hq : Q s.chains) (h : s.stepLoop m = .ok s') :
    s'.tracked = s.tracked ∧ (∀ p ∈ s'.chains, inv p.obj) ∧ Q s'.chains := by
  induction m generalizing s' with
  | zero => cases h; exact ⟨rfl, hs, hq⟩
  | succ m ih =>
      obtain ⟨s1, h1, h⟩ := bind_ok_inv h
      obtain ⟨a1, a2, a3⟩ := ih h1
      obtain ⟨b1, b2, b3, -⟩ := samp_doStep hf a2 h
      exact ⟨b1.trans a1, b2, hQ _ _ a3 b3⟩

/-- Positions and targets of the steps. -/
def shapeOf (s : Samp μ d) : List (Bool × ℕ) :=
  s.steps.map fun
    | .ram i _ => (true, i)
    | .exch e => (false, e.idx)

theorem samp_doStep_shape (hf : HistoryFree μ inv f) {s s' : Samp μ d} {k : ℕ} (hs : ∀ p ∈ s.chains, inv p.obj)
    (h : s.doStep k = .ok s') : shapeOf s' = shapeOf s := by
  obtain ⟨-, -, -, h | h⟩ := samp_doStep hf hs h
  · obtain ⟨i, a, a', h1, h2, -⟩ := h
    unfold shapeOf
    rw [h2, List.map_set]
    apply List.ext_getElem?
    intro n
    by_cases hn : n = k
    · subst hn
      rw [List.getElem?_map, h1, List.getElem?_set_self' ]
      simp [h1]
    · rw [List.getElem?_set_ne (by omega)]
  · obtain ⟨e, e', h1, h2, h3⟩ := h
    unfold shapeOf
    rw [h2, List.map_set]
    apply List.ext_getElem?
    intro n
    by_cases hn : n = k
    · subst hn
      rw [List.getElem?_map, h1, List.getElem?_set_self' ]
      simp [h1, h3]
    · rw [List.getElem?_set_ne (by omega)]

theorem samp_stepLoop_shape (hf : HistoryFree μ inv f) {s s' : Samp μ d} {m : ℕ} (hs : ∀ p ∈ s.chains, inv p.obj)
    (h : s.stepLoop m = .ok s') : shapeOf s' = shapeOf s := by
  induction m generalizing s' with
  | zero => cases h; rfl
  | succ m ih =>
      obtain ⟨s1, h1, h⟩ := bind_ok_inv h
      have := (samp_stepLoop hf (Q := fun _ => True) (fun _ _ _ _ => trivial) hs trivial h1).2.1
      exact (samp_doStep_shape hf this h).trans (ih h1)

theorem samp_iterate (hf : HistoryFree μ inv f) {Q : List (Par μ) → Prop} (hQ : ∀ ps ps', Q ps → ChainStep f d ps ps' → Q ps')
    {s s' : Samp μ d} {n : ℕ} (hs : ∀ p ∈ s.chains, inv p.obj) (hq : Q s.chains) (h : s.iterate n = .ok s') :
    s'.tracked = s.tracked ∧ (∀ p ∈ s'.chains, inv p.obj) ∧ Q s'.chains ∧ shapeOf s' = shapeOf s := by
  unfold Samp.iterate at h
  induction n generalizing s' with
  | zero => cases h; exact ⟨rfl, hs, hq, rfl⟩
  | succ n ih =>
      obtain ⟨s1, h1, h⟩ := bind_ok_inv h
      obtain ⟨a1, a2, a3, a4⟩ := ih h1
      obtain ⟨b1, b2, b3⟩ := samp_stepLoop hf hQ a2 a3 h
      exact ⟨b1.trans a1, b2, b3, (samp_stepLoop_shape hf a2 h).trans a4⟩

/-! ### properties of chains that steps keep -/

omit [Target μ] in
/-- Replace a member of a list of chains. -/
theorem mem_set_cases {ps : List (Par μ)} {P : Par μ → Prop} {i : ℕ} {q : Par μ} (h : ∀ p ∈ ps, P p) (hq : P q) :
    ∀ p ∈ ps.set i q, P p := by
  intro p hp
  rcases List.mem_or_eq_of_mem_set hp with hp | rfl
  · exact h p hp
  · exact hq

/-- The stored log-density of every chain is that of its value. -/
def Valued (f : List ℝ → Res Dbl) (ps : List (Par μ)) : Prop := ∀ p ∈ ps, f p.value = .ok p.logpost

/-- The stored log-density of every chain is finite. -/
def Finite (ps : List (Par μ)) : Prop := ∀ p ∈ ps, p.logpost.isFin

/-- The value of every chain has `n` elements. -/
def Sized (n : ℕ) (ps : List (Par μ)) : Prop := ∀ p ∈ ps, p.value.length = n

/-- What steps do not touch. -/
def fixedOf (p : Par μ) : ℝ × String × Bool × List (List ℝ) × List Dbl := (p.temp, p.label, p.track, p.samples, p.logposts)

omit [Target μ] in
theorem Valued.step {ps ps' : List (Par μ)} (h : Valued f ps) (hs : ChainStep f d ps ps') : Valued f ps' := by
  cases hs with
  | move i s s' θ hi _ _ hm =>
      refine mem_set_cases h ?_
      cases hm with
      | reject o => exact h s (List.mem_of_getElem? hi)
      | accept o lp hlp _ _ => exact hlp
  | exch i _ hx =>
      cases hx with
      | keep => exact h
      | swap o this other _ h1 h2 =>
          exact mem_set_cases (mem_set_cases h (h other (List.mem_of_getElem? h2))) (h this (List.mem_of_getElem? h1))

omit [Target μ] in
theorem Finite.step {ps ps' : List (Par μ)} (h : Finite ps) (hs : ChainStep f d ps ps') : Finite ps' := by
  cases hs with
  | move i s s' θ hi _ _ hm =>
      refine mem_set_cases h ?_
      cases hm with
      | reject o => exact h s (List.mem_of_getElem? hi)
      | accept o lp _ hlp _ => exact hlp
  | exch i _ hx =>
      cases hx with
      | keep => exact h
      | swap o this other _ h1 h2 =>
          exact mem_set_cases (mem_set_cases h (h other (List.mem_of_getElem? h2))) (h this (List.mem_of_getElem? h1))

omit [Target μ] in
theorem Sized.step {ps ps' : List (Par μ)} (h : Sized d ps) (hs : ChainStep f d ps ps') : Sized d ps' := by
  cases hs with
  | move i s s' θ hi _ hθ hm =>
      refine mem_set_cases h ?_
      cases hm with
      | reject o => exact h s (List.mem_of_getElem? hi)
      | accept o lp _ _ _ => exact hθ
  | exch i _ hx =>
      cases hx with
      | keep => exact h
      | swap o this other _ h1 h2 =>
          exact mem_set_cases (mem_set_cases h (h other (List.mem_of_getElem? h2))) (h this (List.mem_of_getElem? h1))

omit [Target μ] in
theorem map_set_same {β : Type} {g : Par μ → β} {ps : List (Par μ)} {i : ℕ} {p q : Par μ} (h : ps[i]? = some p)
    (hg : g q = g p) : (ps.set i q).map g = ps.map g := by
  rw [List.map_set]
  apply List.ext_getElem?
  intro n
  by_cases hn : n = i
  · subst hn
    rw [List.getElem?_set_self', List.getElem?_map, h]
    simp [hg]
  · rw [List.getElem?_set_ne (by omega)]

omit [Target μ] in
theorem fixed_step {ps ps' : List (Par μ)} (hs : ChainStep f d ps ps') : ps'.map fixedOf = ps.map fixedOf := by
  cases hs with
  | move i s s' θ hi _ hθ hm =>
      refine map_set_same hi ?_
      cases hm <;> rfl
  | exch i _ hx =>
      cases hx with
      | keep => rfl
      | swap o this other h0 h1 h2 =>
          refine (map_set_same (p := other) ?_ (by rfl)).trans (map_set_same h1 (by rfl))
          rw [List.getElem?_set_ne (by omega)]
          exact h2

end Verif.Theory
