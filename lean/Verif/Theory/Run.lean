import Verif.Spec.Run
import Verif.Theory.Sampler

/-!
`Sampler::Run` taken apart.
-/

namespace Verif.Theory

open Verif.Model Verif.Spec

variable {μ : Type} [Target μ] {d : ℕ}

omit [Target μ] in
theorem SampRec.sameState {s t : Samp μ d} (h : SampRec s t) : SameState s t := by
  have key : ∀ {β : Type} (g : Par μ → β), (∀ (p : Par μ) (x : List (List ℝ)) (y : List Dbl), g (Verif.Theory.rec x y p) = g p) → t.chains.map g = s.chains.map g := by
    intro β g hg
    have := h.chains
    generalize s.chains = l at this
    generalize t.chains = l' at this
    induction this with
    | nil => rfl
    | cons hab _ ih =>
        obtain ⟨x, y, rfl⟩ := hab
        simp [hg, ih]
  exact ⟨key _ fun _ _ _ => rfl, key _ fun _ _ _ => rfl, key _ fun _ _ _ => rfl, key _ fun _ _ _ => rfl, key _ fun _ _ _ => rfl,
    key _ fun _ _ _ => rfl, h.steps.symm, h.tracked.symm, h.rng.symm⟩

theorem done_of_stepLoop {s t : Samp μ d} {m : ℕ} (h : s.stepLoop m = .ok t) : Done s m t := by
  induction m generalizing t with
  | zero => cases h; exact .none
  | succ m ih =>
      obtain ⟨u, h1, h⟩ := bind_ok_inv h
      exact .next (ih h1) h

theorem stepLoop_of_done {s t : Samp μ d} {m : ℕ} (h : Done s m t) : s.stepLoop m = .ok t := by
  induction h with
  | none => rfl
  | next h1 h2 ih => unfold Samp.stepLoop; rw [ih]; exact h2

theorem doStep_steps_length {s t : Samp μ d} {k : ℕ} (h : s.doStep k = .ok t) : t.steps.length = s.steps.length := by
  unfold Samp.doStep at h
  obtain ⟨st, h1, h⟩ := bind_ok_inv h
  cases st with
  | ram i a =>
      obtain ⟨par, h2, h⟩ := bind_ok_inv h
      obtain ⟨⟨a', par', r'⟩, h3, h⟩ := bind_ok_inv h
      cases h; simp
  | exch e =>
      obtain ⟨⟨e', ps', r'⟩, h3, h⟩ := bind_ok_inv h
      cases h; simp

theorem stepLoop_steps_length {s t : Samp μ d} {m : ℕ} (h : s.stepLoop m = .ok t) : t.steps.length = s.steps.length := by
  induction m generalizing t with
  | zero => cases h; rfl
  | succ m ih =>
      obtain ⟨u, h1, h⟩ := bind_ok_inv h
      exact (doStep_steps_length h).trans (ih h1)

theorem iterate_steps_length {s t : Samp μ d} {n : ℕ} (h : s.iterate n = .ok t) : t.steps.length = s.steps.length := by
  unfold Samp.iterate at h
  induction n generalizing t with
  | zero => cases h; rfl
  | succ m ih =>
      obtain ⟨u, h1, h⟩ := bind_ok_inv h
      exact (stepLoop_steps_length h).trans (ih h1)

theorem sweeps_of_iterate {s t : Samp μ d} {n : ℕ} (h : s.iterate n = .ok t) : Sweeps s n t := by
  induction n generalizing t with
  | zero => cases h; exact .none
  | succ n ih =>
      obtain ⟨u, h1, h⟩ := bind_ok_inv (show s.iterate n >>= Samp.sweep = .ok t from h)
      exact .next (ih h1) (by rw [← iterate_steps_length h1]; exact done_of_stepLoop h)

theorem iterate_of_sweeps {s t : Samp μ d} {n : ℕ} (h : Sweeps s n t) : s.iterate n = .ok t := by
  induction h with
  | none => rfl
  | @next n u t h1 h2 ih =>
      show s.iterate n >>= Samp.sweep = _
      rw [ih]
      show u.stepLoop u.steps.length = _
      rw [iterate_steps_length ih]
      exact stepLoop_of_done h2

omit [Target μ] in
theorem resize_length {α : Type} (l : List α) (n : ℕ) (a : α) : (resize l n a).length = n := by
  simp [resize]; omega

omit [Target μ] in
/-- `SetSampleSize` on the tracked parameters. -/
theorem setSizes_spec {s s' : Samp μ d} {n : ℕ} {l : List (String × ℕ)} (h : s.setSizes n l = .ok s') :
    SampRec s s' ∧ ∀ i p, s'.chains[i]? = some p → (∃ lab, (lab, i) ∈ l) → p.samples.length = n ∧ p.logposts.length = n := by
  induction l generalizing s' with
  | nil => cases h; exact ⟨SampRec.refl s, fun i p _ hm => by simp at hm⟩
  | cons x l ih =>
      obtain ⟨lab, j⟩ := x
      obtain ⟨t, h1, h⟩ := bind_ok_inv h
      obtain ⟨q, h2, h⟩ := bind_ok_inv h
      cases h
      have h2 := rdU_inv h2
      obtain ⟨g1, g2⟩ := ih h1
      refine ⟨g1.trans ⟨set_rec_right h2 ⟨_, _, rfl⟩, rfl, rfl, rfl⟩, fun i p hp hm => ?_⟩
      by_cases hij : i = j
      · subst hij
        simp only at hp
        rw [List.getElem?_set_self', h2] at hp
        injection (hp : some _ = some p) with hp
        rw [← hp]
        exact ⟨resize_length _ _ _, resize_length _ _ _⟩
      · simp only at hp
        rw [List.getElem?_set_ne (by omega)] at hp
        refine g2 i p hp ?_
        obtain ⟨lab', hm⟩ := hm
        rcases List.mem_cons.mp hm with hm | hm
        · exact absurd (congrArg Prod.snd hm) hij
        · exact ⟨lab', hm⟩

/-! ### starting values -/

/-- The starting value call made for a step. -/
noncomputable def startCall (fuel : ℕ) (init : Option (List ℝ)) (o : μ) (r : Rng) : Res (μ × List ℝ × Rng) :=
  match init with
  | some i => Target.setStart fuel o i r
  | none => Target.start fuel o r

theorem startOne_inv {fuel : ℕ} {init : Option (List ℝ)} {s s' : Samp μ d} {k : ℕ} (h : s.startOne fuel init k = .ok s') :
    ∃ st p o θ r' o' lp, s.steps[k]? = some st ∧ s.chains[st.chain]? = some p ∧ startCall fuel init p.obj s.rng = .ok (o, θ, r') ∧
      Target.ld o θ = .ok (o', lp) ∧
      s' = { s with chains := s.chains.set st.chain { p with obj := o', value := θ, logpost := lp }, rng := r' } := by
  unfold Samp.startOne at h
  obtain ⟨st, h1, h⟩ := bind_ok_inv h
  obtain ⟨p, h2, h⟩ := bind_ok_inv h
  obtain ⟨⟨o, θ, r'⟩, h3, h⟩ := bind_ok_inv h
  obtain ⟨q, h4, h⟩ := bind_ok_inv h
  obtain ⟨⟨o', lp⟩, h5, h4⟩ := bind_ok_inv h4
  cases h4
  cases h
  exact ⟨st, p, o, θ, r', o', lp, rdU_inv h1, rdU_inv h2, h3, h5, rfl⟩

variable {inv : μ → Prop} {f : List ℝ → Res Dbl}

/-- State after the starting values: every chain a step points to holds a value returned by the starting-value function together
with its log-density. -/
theorem startLoop_spec (hf : HistoryFree μ inv f) {G : List ℝ → Dbl → Prop} {fuel : ℕ} {init : Option (List ℝ)}
    (hG : ∀ o r o' θ r' lp, inv o → startCall fuel init o r = .ok (o', θ, r') → f θ = .ok lp → G θ lp)
    {s s' : Samp μ d} {m : ℕ} (hs : ∀ p ∈ s.chains, inv p.obj) (h : s.startLoop fuel init m = .ok s') :
    (∀ p ∈ s'.chains, inv p.obj) ∧ s'.chains.map fixedOf = s.chains.map fixedOf ∧ s'.tracked = s.tracked ∧ s'.steps = s.steps ∧
    (∀ k < m, k < s.steps.length) ∧
    ∀ i p, s'.chains[i]? = some p → (∃ k st, k < m ∧ s.steps[k]? = some st ∧ st.chain = i) →
      f p.value = .ok p.logpost ∧ G p.value p.logpost := by
  induction m generalizing s' with
  | zero =>
      cases h
      exact ⟨hs, rfl, rfl, rfl, by simp, fun i p _ ⟨k, st, hk, _⟩ => absurd hk (by omega)⟩
  | succ m ih =>
      obtain ⟨t, h1, h⟩ := bind_ok_inv h
      obtain ⟨a1, a2, a3, a4, a5, a6⟩ := ih h1
      obtain ⟨st, p, o, θ, r', o', lp, b1, b2, b3, b4, rfl⟩ := startOne_inv h
      have hp := a1 p (List.mem_of_getElem? b2)
      have ho : inv o := by
        unfold startCall at b3
        cases init with
        | none => exact hf.start _ _ _ _ _ _ hp b3
        | some i => exact hf.setStart _ _ _ _ _ _ _ hp b3
      obtain ⟨c1, c2⟩ := hf.ld _ _ _ _ ho b4
      refine ⟨mem_set_cases a1 c1, (map_set_same b2 (by rfl)).trans a2, a3, a4, fun k hk => ?_, fun i q hq hst => ?_⟩
      · rcases Nat.lt_succ_iff_lt_or_eq.mp hk with hk | rfl
        · exact a5 k hk
        · rw [a4] at b1
          exact (List.getElem?_eq_some_iff.mp b1).1
      · by_cases hi : st.chain = i
        · subst hi
          simp only at hq
          rw [List.getElem?_set_self', b2] at hq
          injection (hq : some _ = some q) with hq
          rw [← hq]
          exact ⟨c2, hG _ _ _ _ _ _ hp b3 c2⟩
        · simp only at hq
          rw [List.getElem?_set_ne hi] at hq
          refine a6 i q hq ?_
          obtain ⟨k, st', hk, hst, hc⟩ := hst
          rcases Nat.lt_succ_iff_lt_or_eq.mp hk with hk | rfl
          · exact ⟨k, st', hk, hst, hc⟩
          · rw [a4, hst] at b1
            injection b1 with b1
            exact absurd (b1 ▸ hc) hi

/-- `Run` as a sequence of phases. -/
theorem run_inv {fuel : ℕ} {s s' : Samp μ d} {N burnin thin : ℕ} {init : List ℝ} (h : s.run fuel N burnin thin init = .ok s') :
    ∃ s0 s1 s2 init', s.setSizes N s.tracked = .ok s0 ∧ (∃ st c, s0.steps[0]? = some st ∧ s0.chains[st.chain]? = some c ∧
        init' = if init.length = c.value.length then some init else none) ∧
      s0.startLoop fuel init' s0.steps.length = .ok s1 ∧ s1.iterate burnin = .ok s2 ∧ s2.sampleLoop thin N = .ok s' := by
  unfold Samp.run at h
  obtain ⟨s0, h1, h⟩ := bind_ok_inv h
  obtain ⟨st, h2, h⟩ := bind_ok_inv h
  obtain ⟨p, h3, h⟩ := bind_ok_inv h
  obtain ⟨s1, h4, h⟩ := bind_ok_inv h
  obtain ⟨s2, h5, h⟩ := bind_ok_inv h
  exact ⟨s0, s1, s2, _, h1, ⟨st, p, rdU_inv h2, rdU_inv h3, rfl⟩, h4, h5, h⟩

omit [Target μ] in
theorem setSizes_untracked {s s' : Samp μ d} {n : ℕ} {l : List (String × ℕ)} (h : s.setSizes n l = .ok s') {i : ℕ}
    (hi : ¬ ∃ lab, (lab, i) ∈ l) : s'.chains[i]? = s.chains[i]? := by
  induction l generalizing s' with
  | nil => cases h; rfl
  | cons x l ih =>
      obtain ⟨lab, j⟩ := x
      obtain ⟨t, h1, h⟩ := bind_ok_inv h
      obtain ⟨q, h2, h⟩ := bind_ok_inv h
      injection h with h
      rw [← h]
      have hj : j ≠ i := fun e => hi ⟨lab, by rw [e]; exact List.mem_cons_self⟩
      show (t.chains.set j _)[i]? = _
      rw [List.getElem?_set_ne hj]
      exact ih h1 fun ⟨lab, hm⟩ => hi ⟨lab, List.mem_cons_of_mem _ hm⟩

theorem startLoop_frame {fuel : ℕ} {init : Option (List ℝ)} {s s' : Samp μ d} {m : ℕ} (h : s.startLoop fuel init m = .ok s') :
    s'.chains.map fixedOf = s.chains.map fixedOf ∧ s'.tracked = s.tracked ∧ s'.steps = s.steps := by
  induction m generalizing s' with
  | zero => cases h; exact ⟨rfl, rfl, rfl⟩
  | succ m ih =>
      obtain ⟨t, h1, h⟩ := bind_ok_inv h
      obtain ⟨a2, a3, a4⟩ := ih h1
      obtain ⟨st, p, o, θ, r', o', lp, b1, b2, b3, b4, rfl⟩ := startOne_inv h
      exact ⟨(map_set_same b2 (by rfl)).trans a2, a3, a4⟩

/-- Sweeps made by `Run` and what it records. -/
theorem run_spec {fuel : ℕ} {s s' : Samp μ d} {N burnin thin : ℕ} {init : List ℝ} (h : s.run fuel N burnin thin init = .ok s') :
    ∃ s0 s1 init', SampRec s s0 ∧ (∃ st c, s.steps[0]? = some st ∧ s.chains[st.chain]? = some c ∧
        init' = if init.length = c.value.length then some init else none) ∧ s0.startLoop fuel init' s0.steps.length = .ok s1 ∧
      (∀ i p, s.chains[i]? = some p → (¬ ∃ lab, (lab, i) ∈ s.tracked) → ∃ p', s'.chains[i]? = some p' ∧ p'.samples = p.samples ∧
        p'.logposts = p.logposts) ∧
      (∃ t, s1.iterate (burnin + thin * N) = .ok t ∧ SampRec t s') ∧
      ∀ lab i, (lab, i) ∈ s.tracked → i < s.chains.length → ∃ p', s'.chains[i]? = some p' ∧ p'.samples.length = N ∧ p'.logposts.length = N ∧
        ∀ k < N, ∃ t q, s1.iterate (burnin + thin * (k + 1)) = .ok t ∧ t.chains[i]? = some q ∧
          p'.samples[k]? = some q.value ∧ p'.logposts[k]? = some q.logpost := by
  obtain ⟨s0, s1, s2, init', h1, h2, h3, h4, h5⟩ := run_inv h
  obtain ⟨a1, a2⟩ := setSizes_spec h1
  obtain ⟨b1, b2, b3⟩ := startLoop_frame h3
  obtain ⟨c1, c2⟩ := iterate_fixed h4
  obtain ⟨d1, ⟨t, d2, d3⟩, d4⟩ := sampleLoop_spec h5
  refine ⟨s0, s1, init', a1, ?_, h3, fun i p hp hi => ?_, ⟨t, by rw [iterate_add, h4]; exact d2, d3⟩, fun lab i hm hi => ?_⟩
  · obtain ⟨st, c, e1, e2, e3⟩ := h2
    obtain ⟨c0, g1, x, y, g2⟩ := a1.symm.get e2
    exact ⟨st, c0, by rw [a1.steps]; exact e1, g1, by rw [e3, g2]; rfl⟩
  · have e0 := setSizes_untracked h1 hi
    rw [hp] at e0
    obtain ⟨p1, e3, e4⟩ := fixed_get b1 e0
    obtain ⟨p2, e5, e6⟩ := fixed_get c1 e3
    have e7 := e6.trans e4
    obtain ⟨p', g1, g2, -⟩ := d4 i p2 e5
    obtain ⟨g3, g4⟩ := g2 (by rw [c2, b2, ← a1.tracked]; exact hi)
    refine ⟨p', g1, ?_, ?_⟩
    · rw [g3]; exact congrArg (fun x => x.2.2.2.1) e7
    · rw [g4]; exact congrArg (fun x => x.2.2.2.2) e7
  obtain ⟨p, hp⟩ : ∃ p, s0.chains[i]? = some p := by
    have : i < s0.chains.length := by rw [← a1.chains.length_eq]; exact hi
    exact ⟨_, List.getElem?_eq_getElem this⟩
  obtain ⟨e1, e2⟩ := a2 i p hp ⟨lab, hm⟩
  obtain ⟨p1, e3, e4⟩ := fixed_get b1 hp
  obtain ⟨p2, e5, e6⟩ := fixed_get c1 e3
  have e7 := e6.trans e4
  obtain ⟨p', g1, -, g2⟩ := d4 i p2 e5
  obtain ⟨g3, g4, -, g5⟩ := g2 ⟨lab, by rw [c2, b2, ← a1.tracked]; exact hm⟩
  refine ⟨p', g1, ?_, ?_, fun k hk => ?_⟩
  · rw [g3, ← e1]; exact congrArg (fun x => x.2.2.2.1.length) e7
  · rw [g4, ← e2]; exact congrArg (fun x => x.2.2.2.2.length) e7
  · obtain ⟨t, q, q1, q2⟩ := g5 k hk
    exact ⟨t, q, by rw [iterate_add, h4]; exact q1, q2⟩

end Verif.Theory
