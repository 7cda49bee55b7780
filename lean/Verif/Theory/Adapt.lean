import Verif.Props.Ram
import Verif.Theory.Run

/-!
The step stack during sweeps: which steps change, and how.
-/

namespace Verif.Theory

open Verif.Model Verif.Spec

variable {μ : Type} [Target μ] {d : ℕ}

/-- A step object and the same object some steps later. -/
def Later : StepSt d → StepSt d → Prop
  | .ram i a, .ram j b => j = i ∧ b.maxiter = a.maxiter ∧ a.niter ≤ b.niter ∧ (a.maxiter ≤ a.niter → b.chol = a.chol)
  | .exch e, .exch e' => e'.idx = e.idx
  | _, _ => False

omit [Target μ] in
theorem Later.refl (st : StepSt d) : Later st st := by
  cases st with
  | ram i a => exact ⟨rfl, rfl, le_rfl, fun _ => rfl⟩
  | exch e => exact (rfl : e.idx = e.idx)

omit [Target μ] in
theorem Later.trans {a b c : StepSt d} (h : Later a b) (h' : Later b c) : Later a c := by
  cases a <;> cases b <;> first | exact h.elim | skip
  · cases c with
    | exch e => exact h'.elim
    | ram k c =>
        obtain ⟨h1, h2, h3, h4⟩ := h
        obtain ⟨g1, g2, g3, g4⟩ := h'
        exact ⟨g1.trans h1, g2.trans h2, h3.trans g3, fun hm => (g4 (by omega)).trans (h4 hm)⟩
  · cases c with
    | ram k c => exact h'.elim
    | exch e => exact (show _ = _ from h').trans (show _ = _ from h)

theorem exch_idx {e e' : Exch} {ps ps' : List (Par μ)} {r r' : Rng} (h : e.doStep ps r = .ok (e', ps', r')) : e'.idx = e.idx := by
  unfold Exch.doStep at h
  obtain ⟨_, -, h⟩ := bind_ok_inv h
  obtain ⟨_, -, h⟩ := bind_ok_inv h
  obtain ⟨_, -, h⟩ := bind_ok_inv h
  dsimp only at h
  split at h
  · obtain ⟨⟨_, _⟩, -, h⟩ := bind_ok_inv h
    injection h with h
    injection h with he h
    rw [← he]
  · injection h with h
    injection h with he h
    rw [← he]

/-- A step changes one element of the stack. -/
theorem doStep_steps {s t : Samp μ d} {k : ℕ} (h : s.doStep k = .ok t) :
    (∃ i a a', s.steps[k]? = some (.ram i a) ∧ t.steps = s.steps.set k (.ram i a') ∧ RamStep μ a a') ∨
      ∃ e e', s.steps[k]? = some (.exch e) ∧ t.steps = s.steps.set k (.exch e') ∧ e'.idx = e.idx := by
  unfold Samp.doStep at h
  obtain ⟨st, h1, h⟩ := bind_ok_inv h
  have h1 := rdU_inv h1
  cases st with
  | ram i a =>
      obtain ⟨par, h2, h⟩ := bind_ok_inv h
      obtain ⟨⟨a', par', r'⟩, h3, h⟩ := bind_ok_inv h
      cases h
      exact Or.inl ⟨i, a, a', h1, rfl, par, par', _, r', h3⟩
  | exch e =>
      obtain ⟨⟨e', ps', r'⟩, h3, h⟩ := bind_ok_inv h
      cases h
      exact Or.inr ⟨e, e', h1, rfl, exch_idx h3⟩

theorem doStep_later {s t : Samp μ d} {k : ℕ} (h : s.doStep k = .ok t) {j : ℕ} {st : StepSt d} (hj : s.steps[j]? = some st) :
    ∃ st', t.steps[j]? = some st' ∧ Later st st' ∧ (j ≠ k → st' = st) ∧
      (j = k → ∀ i a, st = .ram i a → ∃ b, st' = .ram i b ∧ b.niter = a.niter + 1) := by
  have hlt := (List.getElem?_eq_some_iff.mp hj).1
  by_cases hk : j = k
  · subst hk
    rcases doStep_steps h with ⟨i, a, a', h1, h2, h3⟩ | ⟨e, e', h1, h2, h3⟩
    · rw [hj] at h1
      injection h1 with h1
      subst h1
      obtain ⟨g1, g2, g3⟩ := Props.C28_ram_stops μ h3
      refine ⟨.ram i a', by rw [h2, List.getElem?_set_self hlt], ⟨rfl, g2, by omega, g3⟩, fun hn => absurd rfl hn, fun _ i' b hb => ?_⟩
      cases hb
      exact ⟨a', rfl, g1⟩
    · rw [hj] at h1
      injection h1 with h1
      subst h1
      exact ⟨.exch e', by rw [h2, List.getElem?_set_self hlt], h3, fun hn => absurd rfl hn, fun _ i' b hb => by cases hb⟩
  · refine ⟨st, ?_, Later.refl st, fun _ => rfl, fun h => absurd h hk⟩
    rcases doStep_steps h with ⟨i, a, a', h1, h2, h3⟩ | ⟨e, e', h1, h2, h3⟩ <;>
    · rw [h2, List.getElem?_set_ne (Ne.symm hk)]; exact hj

theorem done_later {s t : Samp μ d} {k : ℕ} (h : Done s k t) {j : ℕ} {st : StepSt d} (hj : s.steps[j]? = some st) :
    ∃ st', t.steps[j]? = some st' ∧ Later st st' ∧
      ∀ i a, st = .ram i a → ∃ b, st' = .ram i b ∧ b.niter = a.niter + if j < k then 1 else 0 := by
  induction h with
  | none => exact ⟨st, hj, Later.refl st, fun i a ha => ⟨a, ha, by simp⟩⟩
  | @next k t u _ h2 ih =>
      obtain ⟨st1, g1, g2, g3⟩ := ih
      obtain ⟨st2, f1, f2, f3, f4⟩ := doStep_later h2 g1
      refine ⟨st2, f1, g2.trans f2, fun i a ha => ?_⟩
      obtain ⟨b, hb, hb'⟩ := g3 i a ha
      by_cases hjk : j = k
      · obtain ⟨c, hc, hc'⟩ := f4 hjk i b hb
        refine ⟨c, hc, ?_⟩
        rw [hc', hb', if_neg (by omega), if_pos (by omega)]
      · refine ⟨b, (f3 hjk).trans hb, ?_⟩
        rw [hb']
        congr 1
        by_cases hlt : j < k
        · rw [if_pos hlt, if_pos (by omega)]
        · rw [if_neg hlt, if_neg (by omega)]

theorem sweeps_later {s t : Samp μ d} {n : ℕ} (h : Sweeps s n t) {j : ℕ} {st : StepSt d} (hj : s.steps[j]? = some st) :
    ∃ st', t.steps[j]? = some st' ∧ Later st st' ∧ ∀ i a, st = .ram i a → ∃ b, st' = .ram i b ∧ b.niter = a.niter + n := by
  have hlt := (List.getElem?_eq_some_iff.mp hj).1
  induction h with
  | none => exact ⟨st, hj, Later.refl st, fun i a ha => ⟨a, ha, rfl⟩⟩
  | next _ h2 ih =>
      obtain ⟨st1, g1, g2, g3⟩ := ih
      obtain ⟨st2, f1, f2, f3⟩ := done_later h2 g1
      refine ⟨st2, f1, g2.trans f2, fun i a ha => ?_⟩
      obtain ⟨b, hb, hb'⟩ := g3 i a ha
      obtain ⟨c, hc, hc'⟩ := f3 i b hb
      exact ⟨c, hc, by rw [hc', hb', if_pos hlt]; omega⟩

theorem sweeps_length {s t : Samp μ d} {n : ℕ} (h : Sweeps s n t) : t.steps.length = s.steps.length :=
  iterate_steps_length (iterate_of_sweeps h)

end Verif.Theory
