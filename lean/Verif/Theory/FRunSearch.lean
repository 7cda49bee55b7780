import Verif.Theory.FRunSamp

/-!
Runs of the sampler whose search for starting values may not end, or throw.
-/

namespace Verif.Theory

open Verif.Model Verif.Spec
open scoped Classical

variable {μ : Type} [FTarget μ] {A : Arith} {d : ℕ} {inv : μ → Prop} {f : List Dbl → Dbl}

/-- what may come out: errors in `E`, or a result with `P` -/
def OutE {α : Type} (E : Fault → Prop) (P : α → Prop) : Res α → Prop
  | .error e => E e
  | .ok a => P a

theorem OutE.mono {α : Type} {E : Fault → Prop} {P Q : α → Prop} {x : Res α} (h : OutE E P x) (k : ∀ a, P a → Q a) : OutE E Q x := by
  cases x with
  | error e => exact h
  | ok a => exact k a h

theorem OutE.bind {α β : Type} {E : Fault → Prop} {P : α → Prop} {Q : β → Prop} {x : Res α} {g : α → Res β} (h : OutE E P x)
    (k : ∀ a, P a → OutE E Q (g a)) : OutE E Q (x >>= g) := by
  cases x with
  | error e => exact h
  | ok a => exact k a h

/-- the call made for a starting value -/
def search (A : Arith) (i : Option (List Dbl)) (o : μ) (r : FRng) : Res (μ × List Dbl × FRng) :=
  match i with
  | some i => FTarget.setStart A o i r
  | none => FTarget.start A o r

/-- a result of the search -/
structure Found (d : ℕ) (inv : μ → Prop) (Q : List Dbl → Prop) (R : FRng → Prop) (a : μ × List Dbl × FRng) : Prop where
  obj : inv a.1
  len : a.2.1.length = d
  num : Doubles a.2.1
  ok : Q a.2.1
  rng : Usable d a.2.2
  left : R a.2.2

variable {E : Fault → Prop} {R : ℕ → FRng → Prop} {Q : List Dbl → Prop}

theorem startOne_out (hf : HonestLd A d inv f) {s : FSamp μ d} (hraw : ∀ c ∈ s.chains, FRaw d inv c) (hst : ∀ st ∈ s.steps, FStepOk s.chains.length st)
    (hr : Usable d s.rng) {i : Option (List Dbl)} {m : ℕ}
    (hs : ∀ o r, inv o → Usable d r → R (m + 1) r → OutE E (Found d inv Q (R m)) (search A i o r)) (hR : R (m + 1) s.rng)
    {k : ℕ} (hk : k < s.steps.length) :
    OutE E (fun s' => ∃ c c', s.chains[(s.steps[k]).chain]? = some c ∧ s'.chains = s.chains.set (s.steps[k]).chain c' ∧ s'.steps = s.steps ∧
      s'.tracked = s.tracked ∧ FGood d inv f c' ∧ Q c'.value ∧ c'.samples = c.samples ∧ c'.logposts = c.logposts ∧ Usable d s'.rng ∧ R m s'.rng)
      (FSamp.startOne A i s k) := by
  have e : rdU s.steps k = .ok s.steps[k] := by simp [rdU, List.getElem?_eq_getElem hk]
  have hlt : (s.steps[k]).chain < s.chains.length := by
    have := hst _ (List.getElem_mem hk)
    cases hs : s.steps[k] with
    | ram j a => rw [hs] at this; exact this
    | exch j => rw [hs] at this; exact this.2
  obtain ⟨n, hn⟩ : ∃ n, n = (s.steps[k]).chain := ⟨_, rfl⟩
  rw [← hn] at hlt ⊢
  have en := List.getElem?_eq_getElem hlt
  obtain ⟨c, hc⟩ : ∃ c, c = s.chains[n] := ⟨_, rfl⟩
  rw [← hc] at en
  have hw := hraw c (List.mem_of_getElem? en)
  have rn : rdU s.chains n = .ok c := by simp [rdU, en]
  have hx := hs c.obj s.rng hw.obj hr hR
  have eq : FSamp.startOne A i s k = (search A i c.obj s.rng >>= fun a =>
      ({ c with obj := a.1 } : FPar μ).save A a.2.1 >>= fun par => pure { s with chains := s.chains.set n par, rng := a.2.2 }) := by
    unfold FSamp.startOne
    rw [e, res_bind_ok, ← hn, rn, res_bind_ok]
    cases i <;> rfl
  rw [eq]
  refine OutE.bind hx fun a ha => ?_
  obtain ⟨o2, e2, h2⟩ := save_ok hf (c := { c with obj := a.1 }) ha.obj ha.len
  rw [e2, res_bind_ok]
  exact ⟨c, _, en, rfl, rfl, rfl, ⟨h2, ha.len, rfl, ha.num, hw.temp⟩, ha.ok, rfl, rfl, ha.rng, ha.left⟩

theorem startLoop_out (hf : HonestLd A d inv f) {s : FSamp μ d} (hraw : ∀ c ∈ s.chains, FRaw d inv c) (hst : ∀ st ∈ s.steps, FStepOk s.chains.length st)
    (hr : Usable d s.rng) {i : Option (List Dbl)}
    (hs : ∀ m o r, inv o → Usable d r → R (m + 1) r → OutE E (Found d inv Q (R m)) (search A i o r)) {m : ℕ} (hm : m ≤ s.steps.length)
    {k : ℕ} (hR : R (m + k) s.rng) :
    OutE E (fun s' => FStarted inv f s s' m ∧ R k s'.rng ∧
      ∀ (j : ℕ) st c, j < m → s.steps[j]? = some st → s'.chains[st.chain]? = some c → Q c.value) (FSamp.startLoop A i s m) := by
  induction m generalizing k with
  | zero =>
    refine ⟨⟨rfl, rfl, rfl, hr, hraw, fun i c c' h1 h2 => ?_, fun k _ _ hk => absurd hk (by omega)⟩, by simpa using hR, fun k _ _ hk => absurd hk (by omega)⟩
    rw [h1] at h2; cases h2; exact ⟨rfl, rfl⟩
  | succ m ih =>
    refine OutE.bind (ih (by omega) (k := k + 1) (by rw [show m + (k + 1) = m + 1 + k by omega]; exact hR)) fun s1 h => ?_
    obtain ⟨h1, hR1, hQ1⟩ := h
    have hk : m < s1.steps.length := by rw [h1.steps]; omega
    refine OutE.mono (startOne_out hf h1.raw (by rw [h1.steps, h1.len]; exact hst) h1.rng (hs k) hR1 hk) fun s' h => ?_
    obtain ⟨c, c', ec, e1, e2, e3, hg, hq, z1, z2, hu, hl⟩ := h
    have hlt := (List.getElem?_eq_some_iff.mp ec).1
    refine ⟨⟨?_, e2.trans h1.steps, e3.trans h1.tracked, hu, ?_, ?_, ?_⟩, hl, ?_⟩
    · rw [e1, List.length_set]; exact h1.len
    · intro a ha
      rw [e1] at ha
      rcases List.mem_or_eq_of_mem_set ha with ha | rfl
      · exact h1.raw a ha
      · exact ⟨hg.obj, hg.len, hg.temp⟩
    · intro j a a' g1 g2
      rw [e1] at g2
      by_cases hj : (s1.steps[m]).chain = j
      · subst hj
        rw [List.getElem?_set_self hlt] at g2; cases g2
        obtain ⟨w1, w2⟩ := h1.keep _ a c g1 ec
        exact ⟨z1.trans w1, z2.trans w2⟩
      · rw [List.getElem?_set_ne hj] at g2
        exact h1.keep j a a' g1 g2
    · intro k st a hkm hs g2
      rw [e1] at g2
      by_cases hj : (s1.steps[m]).chain = st.chain
      · rw [← hj, List.getElem?_set_self hlt] at g2; cases g2
        exact hg
      · rw [List.getElem?_set_ne hj] at g2
        rcases Nat.lt_succ_iff_lt_or_eq.mp hkm with hkm | rfl
        · exact h1.good k st a hkm hs g2
        · exfalso
          apply hj
          rw [← h1.steps, List.getElem?_eq_getElem hk] at hs
          cases hs; rfl
    · intro k st a hkm hs g2
      rw [e1] at g2
      by_cases hj : (s1.steps[m]).chain = st.chain
      · rw [← hj, List.getElem?_set_self hlt] at g2; cases g2
        exact hq
      · rw [List.getElem?_set_ne hj] at g2
        rcases Nat.lt_succ_iff_lt_or_eq.mp hkm with hkm | rfl
        · exact hQ1 k st a hkm hs g2
        · exfalso
          apply hj
          rw [← h1.steps, List.getElem?_eq_getElem hk] at hs
          cases hs; rfl

/-- the whole run -/
theorem frun_out {M : Mach} (hA : IsBinary64 M.A) (hS : Strict M.A) (hf : HonestLd M.A d inv f) {s : FSamp μ d} (h : FBuilt inv s)
    (N burnin thin : ℕ) {init : List Dbl}
    (hs : ∀ m o r, inv o → Usable d r → R (m + 1) r → OutE E (Found d inv Q (R m)) (search M.A (if init.length = d then some init else none) o r))
    (hR : R s.steps.length s.rng) :
    OutE E (fun s' => ∃ θ₀ c, Q θ₀ ∧ s'.chains[s.tracked]? = some c ∧ c.samples.length = N ∧ c.logposts.length = N ∧
      ∀ j < N, ∃ θ v, c.samples[j]? = some θ ∧ c.logposts[j]? = some v ∧ θ.length = d ∧ Recorded f θ₀ θ v)
      (s.run M N burnin thin init) := by
  have et := List.getElem?_eq_getElem h.tracked
  obtain ⟨p, hp⟩ : ∃ p, p = s.chains[s.tracked]'h.tracked := ⟨_, rfl⟩
  rw [← hp] at et
  obtain ⟨l0, raw0, st0⟩ := sized_raw h et N
  have ho := startLoop_out hf raw0 st0 h.rng hs (m := s.steps.length) le_rfl (k := 0) hR
  cases es : FSamp.startLoop M.A (if init.length = d then some init else none) (sized s p N) s.steps.length with
  | error e =>
    rw [es] at ho
    rw [run_eq h N burnin thin init et, es]
    exact ho
  | ok s1 =>
    rw [es] at ho
    obtain ⟨h1, -, hQ⟩ := ho
    obtain ⟨s', c0, c, g1, g2, g3, g4, g5, g6, g7⟩ := run_from hA hS hf h N burnin thin init et es h1
    rw [g3]
    refine ⟨c0.value, c, ?_, g4, g5, g6, g7⟩
    obtain ⟨st, hst, e⟩ := h.cover s.tracked h.tracked
    obtain ⟨k, hk, rfl⟩ := List.getElem_of_mem hst
    exact hQ k _ _ hk (List.getElem?_eq_getElem hk) (by rw [e]; exact g1)

end Verif.Theory
