import Verif.Model.IntRun
import Verif.Theory.Mcmc

/-!
The sampler with `int` counters follows the sampler with natural counters as long as no counter leaves the range of `int`.
-/

namespace Verif.Theory

open Verif.Model Verif.Spec
open scoped Classical

theorem int32_ok {z : ℤ} (h : -2147483648 ≤ z) (h' : z ≤ 2147483647) : int32 z = .ok z := if_pos ⟨h, h'⟩

variable {μ : Type} [Target μ] {d : ℕ}

/-- Same step object, counters converted; at most `n` iterations so far. -/
structure RelRam (n : ℕ) (a : RamI d) (b : Ram d) : Prop where
  chol : b.chol = a.chol
  gamma : b.gamma = a.gamma
  target : b.target = a.target
  niter : (b.niter : ℤ) = a.niter
  naccept : (b.naccept : ℤ) = a.naccept
  maxiter : b.maxiter = a.maxiter.toNat
  alpha : b.alpha = a.alpha
  le : a.naccept ≤ a.niter
  bound : a.niter ≤ n

structure RelAcc (n : ℕ) (a : AcceptedI μ d) (b : Accepted μ d) : Prop where
  ok : b.ok = a.ok
  par : b.par = a.par
  rng : b.rng = a.rng
  chol : b.ram.chol = a.ram.chol
  gamma : b.ram.gamma = a.ram.gamma
  target : b.ram.target = a.ram.target
  niter : (b.ram.niter : ℤ) = a.ram.niter
  naccept : (b.ram.naccept : ℤ) = a.ram.naccept
  maxiter : b.ram.maxiter = a.ram.maxiter.toNat
  alpha : b.ram.alpha = a.ram.alpha
  le : a.ram.naccept ≤ a.ram.niter + 1
  bound : a.ram.niter ≤ n

theorem accept_rel {n : ℕ} (hn : n < 2147483647) {a : RamI d} {b : Ram d} (h : RelRam n a b) (s : Par μ) (θ : List ℝ) (r : Rng) :
    ResRel (RelAcc n) (a.accept s θ r) (b.accept s θ r) := by
  unfold RamI.accept Ram.accept
  refine ResRel.bind (R := (· = ·)) (ResRel.refl (fun _ => rfl) _) ?_
  rintro ⟨o, lp⟩ _ rfl
  have hb := h.bound
  have hle := h.le
  have h0 : 0 ≤ a.naccept := by rw [← h.naccept]; positivity
  dsimp only
  split
  · exact ⟨rfl, rfl, rfl, h.chol, h.gamma, h.target, h.niter, h.naccept, h.maxiter, rfl, show a.naccept ≤ a.niter + 1 by omega, hb⟩
  · split
    · rw [int32_ok (by omega) (by omega)]
      exact ⟨rfl, rfl, rfl, h.chol, h.gamma, h.target, h.niter, by show ((b.naccept + 1 : ℕ) : ℤ) = a.naccept + 1; rw [← h.naccept]; push_cast; rfl,
        h.maxiter, rfl, show a.naccept + 1 ≤ a.niter + 1 by omega, hb⟩
    · exact ⟨rfl, rfl, rfl, h.chol, h.gamma, h.target, h.niter, h.naccept, h.maxiter, rfl, show a.naccept ≤ a.niter + 1 by omega, hb⟩

/-- The adaptation touches the factor only. -/
theorem adaptI_inv {a a' : RamI d} {u w : Fin d → ℝ} (h : a.adapt u w = .ok a') :
    a'.niter = a.niter ∧ a'.naccept = a.naccept ∧ a'.maxiter = a.maxiter ∧ a'.alpha = a.alpha ∧ a'.gamma = a.gamma ∧ a'.target = a.target := by
  unfold RamI.adapt at h
  split at h
  · split at h
    · obtain ⟨x, -, h⟩ := bind_ok_inv h
      obtain ⟨y, -, h⟩ := bind_ok_inv h
      obtain ⟨L, -, h⟩ := bind_ok_inv h
      cases h
      exact ⟨rfl, rfl, rfl, rfl, rfl, rfl⟩
    · cases h
      exact ⟨rfl, rfl, rfl, rfl, rfl, rfl⟩
  · cases h
    exact ⟨rfl, rfl, rfl, rfl, rfl, rfl⟩

structure RelAd (n : ℕ) (a : RamI d) (b : Ram d) : Prop where
  chol : b.chol = a.chol
  gamma : b.gamma = a.gamma
  target : b.target = a.target
  niter : (b.niter : ℤ) = a.niter
  naccept : (b.naccept : ℤ) = a.naccept
  maxiter : b.maxiter = a.maxiter.toNat
  alpha : b.alpha = a.alpha
  le : a.naccept ≤ a.niter + 1
  bound : a.niter ≤ n

theorem adapt_rel {n : ℕ} {a : RamI d} {b : Ram d} (h : RelAd n a b) (u w : Fin d → ℝ) : ResRel (RelAd n) (a.adapt u w) (b.adapt u w) := by
  unfold RamI.adapt Ram.adapt
  rw [h.alpha]
  have hlt : (b.niter < b.maxiter) = (a.niter < a.maxiter) := by
    have h1 := h.niter
    have h2 := h.maxiter
    apply propext
    omega
  have hst : b.stepSize = a.stepSize := by
    unfold Ram.stepSize RamI.stepSize
    rw [h.gamma, ← h.niter, Int.cast_natCast]
  cases a.alpha with
  | fin α =>
      dsimp only
      simp only [hlt]
      split
      · rw [hst]
        refine ResRel.bind (R := (· = ·)) (ResRel.refl (fun _ => rfl) _) ?_
        rintro x _ rfl
        refine ResRel.bind (R := (· = ·)) ?_ ?_
        · rw [h.target]; exact ResRel.refl (fun _ => rfl) _
        · rintro y _ rfl
          refine ResRel.bind (R := (· = ·)) ?_ ?_
          · rw [h.target, h.chol]; exact ResRel.refl (fun _ => rfl) _
          · rintro L _ rfl
            exact ⟨rfl, h.gamma, h.target, h.niter, h.naccept, h.maxiter, rfl, h.le, h.bound⟩
      · exact h
  | _ => exact h

/-- A RAM step with `int` counters. -/
theorem ram_rel {n : ℕ} (hn : n < 2147483647) {a : RamI d} {b : Ram d} (h : RelRam n a b) (s : Par μ) (r : Rng) :
    ResRel (fun x y => RelRam (n + 1) x.1 y.1 ∧ y.2.1 = x.2.1 ∧ y.2.2 = x.2.2.1) (a.doStep s r) (b.doStep s r) := by
  unfold RamI.doStep Ram.doStep
  rw [h.chol]
  split
  · exact ResRel.err _
  refine ResRel.bind (accept_rel hn h s _ _) ?_
  intro x y hxy
  rw [hxy.ok, hxy.par, hxy.rng]
  have key : ∀ (s' : Par μ) (u w : Fin d → ℝ), ResRel (fun x y => RelRam (n + 1) x.1 y.1 ∧ y.2.1 = x.2.1 ∧ y.2.2 = x.2.2.1)
      (do
        let a ← x.ram.adapt u w
        let n ← int32 (a.niter + 1)
        pure ({ a with niter := n }, s', x.rng, if n = a.maxiter then [Line.ram (a.naccept / n)] else []))
      (do
        let a ← y.ram.adapt u w
        pure ({ a with niter := a.niter + 1 }, s', x.rng)) := by
    intro s' u w
    refine ResRel.bind (adapt_rel (n := n) ⟨hxy.chol, hxy.gamma, hxy.target, hxy.niter, hxy.naccept, hxy.maxiter, hxy.alpha, hxy.le, hxy.bound⟩ _ _) ?_
    intro a' b' hab
    have hb := hab.bound
    have h0 : 0 ≤ a'.niter := by rw [← hab.niter]; positivity
    rw [int32_ok (by omega) (by omega)]
    exact ⟨⟨hab.chol, hab.gamma, hab.target, by show ((b'.niter + 1 : ℕ) : ℤ) = a'.niter + 1; rw [← hab.niter]; push_cast; rfl, hab.naccept, hab.maxiter,
      hab.alpha, hab.le, by show a'.niter + 1 ≤ ((n + 1 : ℕ) : ℤ); push_cast; omega⟩, rfl, rfl⟩
  dsimp only
  split
  · refine ResRel.bind (R := (· = ·)) (ResRel.refl (fun _ => rfl) _) ?_
    rintro s' _ rfl
    exact key _ _ _
  · exact key _ _ _

/-- Same exchange step; the counters may differ. -/
structure RelExch (n : ℕ) (e : ExchI) (f : Exch) : Prop where
  idx : f.idx = e.idx
  lo : 0 ≤ e.naccept
  le : e.naccept ≤ e.niter
  bound : e.niter ≤ n

theorem exch_rel {n : ℕ} (hn : n < 2147483647) {e : ExchI} {f : Exch} (h : RelExch n e f) (ps : List (Par μ)) (r : Rng) :
    ResRel (fun x y => RelExch (n + 1) x.1 y.1 ∧ y.2.1 = x.2.1 ∧ y.2.2 = x.2.2.1) (e.doStep ps r) (f.doStep ps r) := by
  unfold ExchI.doStep Exch.doStep
  have hb := h.bound
  have hle := h.le
  have h0 := h.lo
  rw [h.idx]
  refine ResRel.bind (R := (· = ·)) (ResRel.refl (fun _ => rfl) _) ?_
  rintro this _ rfl
  refine ResRel.bind (R := (· = ·)) (ResRel.refl (fun _ => rfl) _) ?_
  rintro j _ rfl
  refine ResRel.bind (R := (· = ·)) (ResRel.refl (fun _ => rfl) _) ?_
  rintro other _ rfl
  dsimp only
  refine ResRel.bind (R := fun x y => y.1 = x.1 ∧ 0 ≤ x.2 ∧ x.2 ≤ e.niter + 1) ?_ ?_
  · split
    · refine ResRel.bind (R := (· = ·)) (ResRel.refl (fun _ => rfl) _) ?_
      rintro c _ rfl
      refine ResRel.bind (R := (· = ·)) (ResRel.refl (fun _ => rfl) _) ?_
      rintro c' _ rfl
      rw [int32_ok (by omega) (by omega)]
      exact ⟨rfl, show 0 ≤ e.naccept + 1 by omega, show e.naccept + 1 ≤ e.niter + 1 by omega⟩
    · exact ⟨rfl, h0, show e.naccept ≤ e.niter + 1 by omega⟩
  · rintro ⟨ps', acc⟩ ⟨_, acc'⟩ ⟨rfl, h1, h2⟩
    rw [int32_ok (by omega) (by omega)]
    dsimp only [res_bind_ok]
    split
    · exact ⟨⟨rfl, le_rfl, le_rfl, by positivity⟩, rfl, rfl⟩
    · exact ⟨⟨rfl, h1, h2, by show e.niter + 1 ≤ ((n + 1 : ℕ) : ℤ); push_cast; omega⟩, rfl, rfl⟩

/-! ### the sampler -/

def RelStep (n : ℕ) : StepI d → StepSt d → Prop
  | .ram i a, .ram j b => j = i ∧ RelRam n a b
  | .exch e, .exch f => RelExch n e f
  | _, _ => False

theorem RelStep.mono {n m : ℕ} (hnm : n ≤ m) {a : StepI d} {b : StepSt d} (h : RelStep n a b) : RelStep m a b := by
  cases a <;> cases b
  · exact ⟨h.1, { h.2 with bound := h.2.bound.trans (by exact_mod_cast hnm) }⟩
  · exact h
  · exact h
  · exact { (h : RelExch n _ _) with bound := h.bound.trans (by exact_mod_cast hnm) }

theorem RelStep.chain {n : ℕ} {a : StepI d} {b : StepSt d} (h : RelStep n a b) : b.chain = a.chain := by
  cases a <;> cases b
  · exact h.1
  · exact h.elim
  · exact h.elim
  · exact h.idx

/-- Same sampler; step `j` has made at most `c j` iterations. -/
structure RelSamp (c : ℕ → ℕ) (s : SampI μ d) (t : Samp μ d) : Prop where
  chains : t.chains = s.chains
  tracked : t.tracked = s.tracked
  rng : t.rng = s.rng
  length : t.steps.length = s.steps.length
  steps : ∀ j a b, s.steps[j]? = some a → t.steps[j]? = some b → RelStep (c j) a b

theorem RelSamp.mono {c c' : ℕ → ℕ} {s : SampI μ d} {t : Samp μ d} (h : RelSamp c s t) (hc : ∀ j < s.steps.length, c j ≤ c' j) : RelSamp c' s t :=
  ⟨h.chains, h.tracked, h.rng, h.length, fun j a b ha hb => (h.steps j a b ha hb).mono (hc j (List.getElem?_eq_some_iff.mp ha).1)⟩

theorem RelSamp.read {c : ℕ → ℕ} {s : SampI μ d} {t : Samp μ d} (h : RelSamp c s t) (k : ℕ) :
    ResRel (fun a b => s.steps[k]? = some a ∧ t.steps[k]? = some b ∧ RelStep (c k) a b) (rdU s.steps k) (rdU t.steps k) := by
  unfold rdU
  have hl := h.length
  by_cases hk : k < s.steps.length
  · have h1 := List.getElem?_eq_getElem hk
    have h2 := List.getElem?_eq_getElem (show k < t.steps.length by omega)
    rw [h1, h2]
    exact ⟨rfl, rfl, h.steps k _ _ h1 h2⟩
  · rw [List.getElem?_eq_none (by omega), List.getElem?_eq_none (by omega)]
    rfl

theorem set_steps {c : ℕ → ℕ} {s : SampI μ d} {t : Samp μ d} (h : RelSamp c s t) {k n : ℕ} {a : StepI d} {b : StepSt d} (hab : RelStep n a b) :
    ∀ j a' b', (s.steps.set k a)[j]? = some a' → (t.steps.set k b)[j]? = some b' → RelStep (Function.update c k n j) a' b' := by
  intro j a' b' ha hb
  by_cases hj : j = k
  · subst hj
    rw [List.getElem?_set] at ha hb
    rw [if_pos rfl] at ha hb
    split at ha
    · split at hb
      · cases ha; cases hb
        rw [Function.update_self]; exact hab
      · cases hb
    · cases ha
  · rw [List.getElem?_set_ne (by omega)] at ha hb
    rw [Function.update_of_ne hj]
    exact h.steps j a' b' ha hb

theorem doStep_rel {c : ℕ → ℕ} {s : SampI μ d} {t : Samp μ d} (h : RelSamp c s t) {k : ℕ} (hk : c k < 2147483647) :
    ResRel (RelSamp (Function.update c k (c k + 1))) (s.doStep k) (t.doStep k) := by
  unfold SampI.doStep Samp.doStep
  refine ResRel.bind (h.read k) ?_
  rintro a b ⟨h1, h2, h3⟩
  cases a with
  | ram i a =>
      cases b with
      | exch f => exact h3.elim
      | ram j b =>
          obtain ⟨rfl, h3⟩ := h3
          dsimp only
          rw [h.chains]
          refine ResRel.bind (R := (· = ·)) (ResRel.refl (fun _ => rfl) _) ?_
          rintro par _ rfl
          rw [h.rng]
          refine ResRel.bind (ram_rel hk h3 par s.rng) ?_
          rintro ⟨a', s', r', l⟩ ⟨b', _, _⟩ ⟨g1, rfl, rfl⟩
          exact ⟨rfl, h.tracked, rfl, by simp [h.length], set_steps h (show RelStep _ (.ram j a') (.ram j b') from ⟨rfl, g1⟩)⟩
  | exch e =>
      cases b with
      | ram j b => exact h3.elim
      | exch f =>
          dsimp only
          rw [h.chains, h.rng]
          refine ResRel.bind (exch_rel hk h3 s.chains s.rng) ?_
          rintro ⟨a', s', r', l⟩ ⟨b', _, _⟩ ⟨g1, rfl, rfl⟩
          exact ⟨rfl, h.tracked, rfl, by simp [h.length], set_steps h (show RelStep _ (.exch a') (.exch b') from g1)⟩

theorem stepLoop_rel {n : ℕ} (hn : n < 2147483647) {s : SampI μ d} {t : Samp μ d} (h : RelSamp (fun _ => n) s t) (m : ℕ) :
    ResRel (RelSamp fun j => if j < m then n + 1 else n) (s.stepLoop m) (t.stepLoop m) := by
  induction m with
  | zero => exact (by simpa using h : RelSamp _ s t)
  | succ m ih =>
      unfold SampI.stepLoop Samp.stepLoop
      refine ResRel.bind ih ?_
      intro s' t' h'
      refine (doStep_rel h' (k := m) (by simpa using hn)).mono ?_
      intro s'' t'' h''
      refine h''.mono ?_
      intro j _
      by_cases hj : j = m
      · subst hj; simp
      · rw [Function.update_of_ne hj]
        by_cases h1 : j < m
        · rw [if_pos h1, if_pos (by omega)]
        · rw [if_neg h1, if_neg (by omega)]

theorem stepsI_length {s t : SampI μ d} {k : ℕ} (h : s.doStep k = .ok t) : t.steps.length = s.steps.length := by
  unfold SampI.doStep at h
  obtain ⟨st, h1, h⟩ := bind_ok_inv h
  cases st with
  | ram i a =>
      obtain ⟨par, -, h⟩ := bind_ok_inv h
      obtain ⟨⟨a', p', r', l⟩, -, h⟩ := bind_ok_inv h
      cases h
      simp
  | exch e =>
      obtain ⟨⟨a', p', r', l⟩, -, h⟩ := bind_ok_inv h
      cases h
      simp

theorem sweep_rel {n : ℕ} (hn : n < 2147483647) {s : SampI μ d} {t : Samp μ d} (h : RelSamp (fun _ => n) s t) :
    ResRel (RelSamp fun _ => n + 1) s.sweep t.sweep := by
  unfold SampI.sweep Samp.sweep
  rw [h.length]
  refine (stepLoop_rel hn h _).mono fun s' t' h' => h'.mono fun j _ => ?_
  split <;> omega

theorem iter_rel {n : ℕ} {s : SampI μ d} {t : Samp μ d} (h : RelSamp (fun _ => n) s t) (m : ℕ) (hm : n + m ≤ 2147483647) :
    ResRel (RelSamp fun _ => n + m) (iter SampI.sweep m s) (iter Samp.sweep m t) := by
  induction m with
  | zero => exact h
  | succ m ih =>
      refine ResRel.bind (ih (by omega)) ?_
      intro s' t' h'
      exact sweep_rel (n := n + m) (by omega) h'

theorem setSizes_rel {c : ℕ → ℕ} {s : SampI μ d} {t : Samp μ d} (h : RelSamp c s t) {N : ℤ} (hN : 0 ≤ N) (l : List (String × ℕ)) :
    ResRel (RelSamp c) (s.setSizes N l) (t.setSizes N.toNat l) := by
  induction l with
  | nil => exact h
  | cons x l ih =>
      unfold SampI.setSizes Samp.setSizes
      refine ResRel.bind ih ?_
      intro s' t' h'
      rw [h'.chains]
      refine ResRel.bind (R := (· = ·)) (ResRel.refl (fun _ => rfl) _) ?_
      rintro par _ rfl
      rw [if_neg (by omega)]
      exact ⟨rfl, h'.tracked, h'.rng, h'.length, h'.steps⟩

theorem saveValues_rel {c : ℕ → ℕ} {s : SampI μ d} {t : Samp μ d} (h : RelSamp c s t) (k : ℕ) (l : List (String × ℕ)) :
    ResRel (RelSamp c) (s.saveValues k l) (t.saveValues k l) := by
  induction l with
  | nil => exact h
  | cons x l ih =>
      unfold SampI.saveValues Samp.saveValues
      refine ResRel.bind ih ?_
      intro s' t' h'
      rw [h'.chains]
      refine ResRel.bind (R := (· = ·)) (ResRel.refl (fun _ => rfl) _) ?_
      rintro par _ rfl
      refine ResRel.bind (R := (· = ·)) (ResRel.refl (fun _ => rfl) _) ?_
      rintro par' _ rfl
      exact ⟨rfl, h'.tracked, h'.rng, h'.length, h'.steps⟩

theorem startLoop_rel {c : ℕ → ℕ} {s : SampI μ d} {t : Samp μ d} (h : RelSamp c s t) (fuel : ℕ) (init : Option (List ℝ)) (m : ℕ) :
    ResRel (RelSamp c) (s.startLoop fuel init m) (t.startLoop fuel init m) := by
  induction m with
  | zero => exact h
  | succ m ih =>
      unfold SampI.startLoop Samp.startLoop
      refine ResRel.bind ih ?_
      intro s' t' h'
      unfold SampI.startOne Samp.startOne
      refine ResRel.bind (h'.read m) ?_
      rintro a b ⟨-, -, h3⟩
      rw [h3.chain, h'.chains, h'.rng]
      refine ResRel.bind (R := (· = ·)) (ResRel.refl (fun _ => rfl) _) ?_
      rintro par _ rfl
      refine ResRel.bind (R := (· = ·)) (ResRel.refl (fun _ => rfl) _) ?_
      rintro x _ rfl
      refine ResRel.bind (R := (· = ·)) (ResRel.refl (fun _ => rfl) _) ?_
      rintro par' _ rfl
      exact ⟨rfl, h'.tracked, rfl, h'.length, h'.steps⟩

theorem sampleLoop_rel {n : ℕ} {s : SampI μ d} {t : Samp μ d} (h : RelSamp (fun _ => n) s t) (thin : ℤ) (m : ℕ)
    (hm : n + thin.toNat * m ≤ 2147483647) :
    ResRel (RelSamp fun _ => n + thin.toNat * m) (s.sampleLoop thin m) (t.sampleLoop thin.toNat m) := by
  induction m with
  | zero => exact (by simpa using h : RelSamp _ s t)
  | succ m ih =>
      have e : n + thin.toNat * (m + 1) = n + thin.toNat * m + thin.toNat := by ring
      rw [e] at hm ⊢
      unfold SampI.sampleLoop Samp.sampleLoop
      refine ResRel.bind (ih (by omega)) ?_
      intro s' t' h'
      refine ResRel.bind (iter_rel h' thin.toNat hm) ?_
      intro s'' t'' h''
      rw [h''.tracked]
      exact saveValues_rel h'' _ _

theorem run_rel {s : SampI μ d} {t : Samp μ d} (h : RelSamp (fun _ => 0) s t) (fuel : ℕ) {N burnin thin : ℤ} (hN : 0 ≤ N) (init : List ℝ)
    (hm : burnin.toNat + thin.toNat * N.toNat ≤ 2147483647) :
    ResRel (fun s' t' => t'.chains = s'.chains) (s.run fuel N burnin thin init) (t.run fuel N.toNat burnin.toNat thin.toNat init) := by
  unfold SampI.run Samp.run
  rw [h.tracked]
  refine ResRel.bind (setSizes_rel h hN _) ?_
  intro s1 t1 h1
  refine ResRel.bind (h1.read 0) ?_
  rintro a b ⟨-, -, h3⟩
  rw [h3.chain, h1.chains]
  refine ResRel.bind (R := (· = ·)) (ResRel.refl (fun _ => rfl) _) ?_
  rintro par _ rfl
  rw [h1.length]
  refine ResRel.bind (startLoop_rel h1 fuel _ _) ?_
  intro s2 t2 h2
  refine ResRel.bind (iter_rel h2 burnin.toNat (by omega)) ?_
  intro s3 t3 h3
  exact (sampleLoop_rel h3 thin N.toNat (by omega)).mono fun _ _ h => h.chains

/-! ### the run functions -/

theorem new_rel (covar : Matrix (Fin d) (Fin d) ℝ) (target : ℝ) (maxiter : ℤ) :
    ResRel (RelRam 0) (RamI.new covar target maxiter) (Ram.new covar target maxiter.toNat) := by
  unfold RamI.new Ram.new
  refine ResRel.bind (R := (· = ·)) (ResRel.refl (fun _ => rfl) _) ?_
  rintro L _ rfl
  exact ⟨rfl, rfl, rfl, rfl, rfl, rfl, rfl, le_rfl, le_rfl⟩

theorem addStep_rel {s : SampI μ d} {t : Samp μ d} (h : RelSamp (fun _ => 0) s t) {a : StepI d} {b : StepSt d} (hab : RelStep 0 a b) :
    ResRel (RelSamp fun _ => 0) (s.addStep a) (t.addStep b) := by
  unfold SampI.addStep Samp.addStep
  rw [hab.chain, h.chains]
  refine ResRel.bind (R := (· = ·)) (ResRel.refl (fun _ => rfl) _) ?_
  rintro par _ rfl
  have key : ∀ (j : ℕ) a' b', (s.steps ++ [a])[j]? = some a' → (t.steps ++ [b])[j]? = some b' → RelStep 0 a' b' := by
    intro j a' b' ha hb
    have hl := h.length
    rcases lt_trichotomy j s.steps.length with hj | hj | hj
    · rw [List.getElem?_append_left hj] at ha
      rw [List.getElem?_append_left (by omega)] at hb
      exact h.steps j a' b' ha hb
    · subst hj
      rw [List.getElem?_append_right le_rfl, Nat.sub_self] at ha
      rw [← hl, List.getElem?_append_right le_rfl, Nat.sub_self] at hb
      cases ha; cases hb
      exact hab
    · rw [List.getElem?_eq_none (by simp; omega)] at ha
      cases ha
  dsimp only
  split
  · exact ⟨rfl, by show Samp.insertTracked t.tracked _ _ = Samp.insertTracked s.tracked _ _; rw [h.tracked], h.rng, by simp [h.length], key⟩
  · exact ⟨rfl, h.tracked, h.rng, by simp [h.length], key⟩

theorem tempered_rel {s : SampI μ d} {t : Samp μ d} (h : RelSamp (fun _ => 0) s t) (covar : Matrix (Fin d) (Fin d) ℝ) (burnin report report' : ℤ) (m : ℕ) :
    ResRel (RelSamp fun _ => 0) (temperedStepsI covar burnin report m s) (temperedSteps covar burnin.toNat report' m t) := by
  induction m generalizing s t with
  | zero => exact h
  | succ m ih =>
      unfold temperedStepsI temperedSteps
      refine ResRel.bind (new_rel covar 0.25 burnin) ?_
      intro a b hab
      refine ResRel.bind (addStep_rel h (show RelStep 0 (.ram (m + 1) a) (.ram (m + 1) b) from ⟨rfl, hab⟩)) ?_
      intro s1 t1 h1
      refine ResRel.bind (addStep_rel h1 (show RelStep 0 (.exch _) (.exch _) from ⟨rfl, le_rfl, le_rfl, le_rfl⟩)) ?_
      intro s2 t2 h2
      exact ih h2

section builders
variable {srt : List ℝ → List ℕ} {time y yerr : List ℝ} {r : Rng}

/-- `report_iter` is in the range of `int`. -/
structure Fits (N burnin thin : ℤ) : Prop where
  mul_lo : -2147483648 ≤ thin * N
  mul_hi : thin * N ≤ 2147483647
  sum_lo : -2147483648 ≤ burnin + thin * N
  sum_hi : burnin + thin * N ≤ 2147483647

theorem report_ok {N burnin thin : ℤ} (h : Fits N burnin thin) : (int32 (thin * N) >>= fun m => int32 (burnin + m)) = .ok (burnin + thin * N) := by
  rw [int32_ok h.mul_lo h.mul_hi]
  exact int32_ok h.sum_lo h.sum_hi

theorem report_ub {N burnin thin : ℤ} (h : ¬ Fits N burnin thin) : (int32 (thin * N) >>= fun m => int32 (burnin + m)) = .error .ub := by
  unfold int32
  by_cases h1 : -2147483648 ≤ thin * N ∧ thin * N ≤ 2147483647
  · rw [if_pos h1]
    exact if_neg fun h2 => h ⟨h1.1, h1.2, h2.1, h2.2⟩
  · rw [if_neg h1]; rfl

theorem car1Sampler_rel {N burnin thin : ℤ} (h : Fits N burnin thin) :
    ResRel (RelSamp fun _ => 0) (car1SamplerI srt N burnin time y yerr thin r) (car1Sampler srt burnin.toNat time y yerr r) := by
  unfold car1SamplerI car1Sampler
  refine ResRel.bind (R := (· = ·)) (ResRel.refl (fun _ => rfl) _) ?_
  rintro var _ rfl
  rw [int32_ok h.mul_lo h.mul_hi]
  dsimp only [res_bind_ok]
  rw [int32_ok h.sum_lo h.sum_hi]
  dsimp only [res_bind_ok]
  refine ResRel.bind (R := (· = ·)) (ResRel.refl (fun _ => rfl) _) ?_
  rintro o _ rfl
  refine ResRel.bind (R := (· = ·)) (ResRel.refl (fun _ => rfl) _) ?_
  rintro b _ rfl
  refine ResRel.bind (new_rel _ 0.25 burnin) ?_
  intro a a' ha
  exact addStep_rel ⟨rfl, rfl, rfl, rfl, fun j _ _ h => by simp at h⟩ (show RelStep 0 (.ram 0 a) (.ram 0 a') from ⟨rfl, ha⟩)

theorem carmaSampler_rel {N burnin thin : ℤ} (h : Fits N burnin thin) {p q : ℕ} {z : Bool} {nw : ℤ} (hw : 0 ≤ nw) (N' thin' : ℕ) :
    ResRel (RelSamp fun _ => 0) (carmaSamplerI srt N burnin time y yerr p q nw z thin r)
      (carmaSampler srt N' burnin.toNat time y yerr p q nw.toNat z thin' r) := by
  unfold carmaSamplerI carmaSampler
  refine ResRel.bind (R := (· = ·)) (ResRel.refl (fun _ => rfl) _) ?_
  rintro var _ rfl
  rw [if_neg (by omega)]
  refine ResRel.bind (R := (· = ·)) (ResRel.refl (fun _ => rfl) _) ?_
  rintro chains _ rfl
  rw [int32_ok h.mul_lo h.mul_hi]
  dsimp only [res_bind_ok]
  rw [int32_ok h.sum_lo h.sum_hi]
  dsimp only [res_bind_ok]
  refine ResRel.bind (tempered_rel ⟨rfl, rfl, rfl, rfl, fun j _ _ h => by simp at h⟩ _ burnin _ _ _) ?_
  intro s t hst
  rw [hst.chains]
  refine ResRel.bind (R := (· = ·)) (ResRel.refl (fun _ => rfl) _) ?_
  rintro par _ rfl
  refine ResRel.bind (new_rel _ 0.25 burnin) ?_
  intro a a' ha
  exact addStep_rel (s := { s with chains := s.chains.set 0 (par.setTracking true) }) (t := { t with chains := s.chains.set 0 (par.setTracking true) })
    ⟨rfl, hst.tracked, hst.rng, hst.length, hst.steps⟩ (show RelStep 0 (.ram 0 a) (.ram 0 a') from ⟨rfl, ha⟩)

theorem fits_total {N burnin thin : ℤ} (h : Fits N burnin thin) (hN : 0 ≤ N) (hb : burnin ≤ 2147483647) :
    burnin.toNat + thin.toNat * N.toNat ≤ 2147483647 := by
  have h1 := h.mul_hi
  have h2 := h.sum_hi
  rcases le_or_gt 0 thin with ht | ht
  · have e : ((thin.toNat * N.toNat : ℕ) : ℤ) = thin * N := by push_cast; rw [Int.toNat_of_nonneg ht, Int.toNat_of_nonneg hN]
    omega
  · rw [Int.toNat_of_nonpos ht.le]
    omega

end builders

end Verif.Theory
