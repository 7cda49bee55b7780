import Verif.Theory.FSamp

/-!
Whole runs of the sampler with machine numbers.
-/

namespace Verif.Theory

open Verif.Model Verif.Spec
open scoped Classical

variable {μ : Type} [FTarget μ] {A : Arith} {d : ℕ} {inv : μ → Prop} {f : List Dbl → Dbl}

/-- starting value for a user's choice `i` -/
noncomputable def startVal (f : List Dbl → Dbl) (i : Option (List Dbl)) (θ : List Dbl) : List Dbl :=
  match i with
  | some i => if (f i).isFin then i else θ
  | none => θ

theorem startOne_ok (hf : Honest A d inv f) {s : FSamp μ d} (hraw : ∀ c ∈ s.chains, FRaw d inv c) (hst : ∀ st ∈ s.steps, FStepOk s.chains.length st)
    (hr : Usable d s.rng) {i : Option (List Dbl)} (hi : ∀ l ∈ i, l.length = d ∧ Doubles l) {k : ℕ} (hk : k < s.steps.length) :
    ∃ c o r', s.chains[(s.steps[k]).chain]? = some c ∧ inv o ∧ Usable d r' ∧
      FSamp.startOne A i s k = .ok { s with
        chains := s.chains.set (s.steps[k]).chain { c with obj := o, value := startVal f i (s.rng.prior 0), logpost := f (startVal f i (s.rng.prior 0)) }
        rng := r' } ∧
      FGood d inv f { c with obj := o, value := startVal f i (s.rng.prior 0), logpost := f (startVal f i (s.rng.prior 0)) } := by
  have e : rdU s.steps k = .ok s.steps[k] := by simp [rdU, List.getElem?_eq_getElem hk]
  have hlt : (s.steps[k]).chain < s.chains.length := by
    have := hst _ (List.getElem_mem hk)
    cases hs : s.steps[k] with
    | ram j a => rw [hs] at this; exact this
    | exch j => rw [hs] at this; exact this.2
  obtain ⟨n, hn⟩ : ∃ n, n = (s.steps[k]).chain := ⟨_, rfl⟩
  rw [← hn] at hlt ⊢
  have en := List.getElem?_eq_getElem hlt
  obtain ⟨c, hc⟩ : ∃ c, c = s.chains[n] := ⟨_, rfl⟩
  rw [← hc] at en
  have hw := hraw c (List.mem_of_getElem? en)
  have rn : rdU s.chains n = .ok c := by simp [rdU, en]
  have lv : (startVal f i (s.rng.prior 0)).length = d ∧ Doubles (startVal f i (s.rng.prior 0)) := by
    cases i with
    | none => exact ⟨hr.prior 0, hr.doubles 0⟩
    | some l =>
      simp only [startVal]
      split_ifs
      · exact hi l rfl
      · exact ⟨hr.prior 0, hr.doubles 0⟩
  obtain ⟨o1, r1, e1, h1, u1⟩ : ∃ o' r', (match i with
      | some i => FTarget.setStart A c.obj i s.rng
      | none => FTarget.start A c.obj s.rng) = .ok (o', startVal f i (s.rng.prior 0), r') ∧ inv o' ∧ Usable d r' := by
    cases i with
    | none => exact hf.start c.obj s.rng hw.obj hr
    | some l => exact hf.setStart c.obj l s.rng hw.obj (hi l rfl).1 hr
  obtain ⟨o2, e2, h2⟩ := save_ok hf.toHonestLd (c := { c with obj := o1 }) h1 lv.1
  refine ⟨c, o2, r1, en, h2, u1, ?_, h2, lv.1, rfl, lv.2, hw.temp⟩
  unfold FSamp.startOne
  rw [e, res_bind_ok, ← hn, rn, res_bind_ok]
  cases i with
  | none =>
    replace e1 : FTarget.start A c.obj s.rng = _ := e1
    simp only [e1, res_bind_ok, e2]
    rfl
  | some l =>
    replace e1 : FTarget.setStart A c.obj l s.rng = _ := e1
    simp only [e1, res_bind_ok, e2]
    rfl

/-- after the starting values of the first `m` steps -/
structure FStarted (inv : μ → Prop) (f : List Dbl → Dbl) (s s' : FSamp μ d) (m : ℕ) : Prop where
  len : s'.chains.length = s.chains.length
  steps : s'.steps = s.steps
  tracked : s'.tracked = s.tracked
  rng : Usable d s'.rng
  raw : ∀ c ∈ s'.chains, FRaw d inv c
  keep : ∀ (i : ℕ) c c', s.chains[i]? = some c → s'.chains[i]? = some c' → c'.samples = c.samples ∧ c'.logposts = c.logposts
  good : ∀ (k : ℕ) st c, k < m → s.steps[k]? = some st → s'.chains[st.chain]? = some c → FGood d inv f c

theorem startLoop_ok (hf : Honest A d inv f) {s : FSamp μ d} (hraw : ∀ c ∈ s.chains, FRaw d inv c) (hst : ∀ st ∈ s.steps, FStepOk s.chains.length st)
    (hr : Usable d s.rng) {i : Option (List Dbl)} (hi : ∀ l ∈ i, l.length = d ∧ Doubles l) {m : ℕ} (hm : m ≤ s.steps.length) :
    ∃ s', FSamp.startLoop A i s m = .ok s' ∧ FStarted inv f s s' m := by
  induction m with
  | zero =>
    refine ⟨s, rfl, rfl, rfl, rfl, hr, hraw, fun i c c' h1 h2 => ?_, fun k _ _ hk => absurd hk (by omega)⟩
    rw [h1] at h2; cases h2; exact ⟨rfl, rfl⟩
  | succ m ih =>
    obtain ⟨s1, e1, h1⟩ := ih (by omega)
    have hk : m < s1.steps.length := by rw [h1.steps]; omega
    obtain ⟨c, o, r', ec, ho, hu, e2, hg⟩ := startOne_ok hf h1.raw (by rw [h1.steps, h1.len]; exact hst) h1.rng hi hk
    have hlt := (List.getElem?_eq_some_iff.mp ec).1
    have e3 : FSamp.startLoop A i s (m + 1) = _ := (show _ = FSamp.startOne A i s1 m by simp only [FSamp.startLoop, e1, res_bind_ok]).trans e2
    refine ⟨_, e3, ?_, h1.steps, h1.tracked, hu, ?_, ?_, ?_⟩
    · simpa using h1.len
    · intro a ha
      rcases List.mem_or_eq_of_mem_set ha with ha | rfl
      · exact h1.raw a ha
      · exact ⟨hg.obj, hg.len, hg.temp⟩
    · intro j a a' g1 g2
      by_cases hj : (s1.steps[m]).chain = j
      · subst hj
        have q : (s1.chains.set (s1.steps[m]).chain _)[(s1.steps[m]).chain]? = some a' := g2
        rw [List.getElem?_set_self hlt] at q; cases q
        exact h1.keep _ a c g1 ec
      · have q : (s1.chains.set (s1.steps[m]).chain _)[j]? = some a' := g2
        rw [List.getElem?_set_ne hj] at q
        exact h1.keep j a a' g1 q
    · intro k st a hkm hs g2
      by_cases hj : (s1.steps[m]).chain = st.chain
      · have q : (s1.chains.set (s1.steps[m]).chain _)[st.chain]? = some a := g2
        rw [← hj, List.getElem?_set_self hlt] at q; cases q
        exact hg
      · have q : (s1.chains.set (s1.steps[m]).chain _)[st.chain]? = some a := g2
        rw [List.getElem?_set_ne hj] at q
        rcases Nat.lt_succ_iff_lt_or_eq.mp hkm with hkm | rfl
        · exact h1.good k st a hkm hs q
        · exfalso
          apply hj
          rw [← h1.steps, List.getElem?_eq_getElem hk] at hs
          cases hs; rfl

/-- the sampler with room for the sample -/
def sized (s : FSamp μ d) (p : FPar μ) (N : ℕ) : FSamp μ d := { s with chains := s.chains.set s.tracked (p.setSampleSize N) }

omit [FTarget μ] in
theorem sized_raw {s : FSamp μ d} (h : FBuilt inv s) {p : FPar μ} (et : s.chains[s.tracked]? = some p) (N : ℕ) :
    (sized s p N).chains.length = s.chains.length ∧ (∀ c ∈ (sized s p N).chains, FRaw d inv c) ∧
      ∀ st ∈ (sized s p N).steps, FStepOk (sized s p N).chains.length st := by
  have hpr := h.raw p (List.mem_of_getElem? et)
  have l0 : (sized s p N).chains.length = s.chains.length := by simp [sized]
  refine ⟨l0, ?_, by rw [l0]; exact h.steps⟩
  intro c hc
  rcases List.mem_or_eq_of_mem_set hc with hc | rfl
  · exact h.raw c hc
  · exact ⟨hpr.obj, hpr.len, hpr.temp⟩

/-- the run up to the starting values -/
theorem run_eq {M : Mach} {s : FSamp μ d} (h : FBuilt inv s) (N burnin thin : ℕ) (init : List Dbl) {p : FPar μ} (et : s.chains[s.tracked]? = some p) :
    s.run M N burnin thin init = (FSamp.startLoop M.A (if init.length = d then some init else none) (sized s p N) s.steps.length >>= fun s =>
      s.iterate M burnin >>= fun s => s.sampleLoop M thin N) := by
  obtain ⟨l0, raw0, st0⟩ := sized_raw h et N
  obtain ⟨s0, hs0⟩ : ∃ s0, s0 = sized s p N := ⟨_, rfl⟩
  rw [← hs0] at l0 raw0 st0 ⊢
  have rt : rdU s.chains s.tracked = .ok p := by simp [rdU, et]
  obtain ⟨st, hst, -⟩ := h.cover s.tracked h.tracked
  have hpos : 0 < s0.steps.length := by rw [hs0]; exact List.length_pos_of_mem hst
  have rs : rdU s0.steps 0 = .ok s0.steps[0] := by simp [rdU, List.getElem?_eq_getElem hpos]
  have hch : (s0.steps[0]).chain < s0.chains.length := by
    have := st0 _ (List.getElem_mem hpos)
    cases hs : s0.steps[0] with
    | ram j a => rw [hs] at this; exact this
    | exch j => rw [hs] at this; exact this.2
  have rc : rdU s0.chains (s0.steps[0]).chain = .ok (s0.chains[(s0.steps[0]).chain]) := by simp [rdU, List.getElem?_eq_getElem hch]
  have lc := (raw0 _ (List.getElem_mem hch)).len
  unfold FSamp.run
  rw [rt, res_bind_ok]
  show (rdU { s with chains := s.chains.set s.tracked (p.setSampleSize N) }.steps 0 >>= fun st =>
    rdU { s with chains := s.chains.set s.tracked (p.setSampleSize N) }.chains st.chain >>= fun par =>
    FSamp.startLoop M.A (if init.length = par.value.length then some init else none)
      { s with chains := s.chains.set s.tracked (p.setSampleSize N) } { s with chains := s.chains.set s.tracked (p.setSampleSize N) }.steps.length
      >>= fun s => s.iterate M burnin >>= fun s => s.sampleLoop M thin N) = _
  rw [show ({ s with chains := s.chains.set s.tracked (p.setSampleSize N) } : FSamp μ d) = s0 from hs0.symm]
  rw [rs, res_bind_ok, rc, res_bind_ok, lc]
  rw [hs0]
  rfl

/-- the run after the starting values -/
theorem run_from {M : Mach} (hA : IsBinary64 M.A) (hS : Strict M.A) (hf : HonestLd M.A d inv f) {s : FSamp μ d} (h : FBuilt inv s)
    (N burnin thin : ℕ) (init : List Dbl) {p : FPar μ} (et : s.chains[s.tracked]? = some p) {s1 : FSamp μ d}
    (e1 : FSamp.startLoop M.A (if init.length = d then some init else none) (sized s p N) s.steps.length = .ok s1)
    (h1 : FStarted inv f (sized s p N) s1 s.steps.length) :
    ∃ s' c0 c, s1.chains[s.tracked]? = some c0 ∧ FGood d inv f c0 ∧
      s.run M N burnin thin init = .ok s' ∧ s'.chains[s.tracked]? = some c ∧ c.samples.length = N ∧ c.logposts.length = N ∧
      ∀ j < N, ∃ θ v, c.samples[j]? = some θ ∧ c.logposts[j]? = some v ∧ θ.length = d ∧ Recorded f c0.value θ v := by
  rw [run_eq h N burnin thin init et, e1, res_bind_ok]
  obtain ⟨l0, raw0, st0⟩ := sized_raw h et N
  obtain ⟨s0, hs0⟩ : ∃ s0, s0 = sized s p N := ⟨_, rfl⟩
  rw [← hs0] at l0 raw0 st0 h1
  -- every chain is started
  have g1 : FGoods d inv f s1.chains := by
    intro c hc
    obtain ⟨j, hj, rfl⟩ := List.getElem_of_mem hc
    obtain ⟨st, hst, e⟩ := h.cover j (by rw [← l0, ← h1.len]; exact hj)
    have hst0 : st ∈ s0.steps := by rw [hs0]; exact hst
    obtain ⟨k, hk, rfl⟩ := List.getElem_of_mem hst0
    exact h1.good k _ _ (by rw [hs0] at hk; exact hk) (List.getElem?_eq_getElem hk) (by rw [e]; exact List.getElem?_eq_getElem hj)
  have tr1 : s1.tracked = s.tracked := by rw [h1.tracked, hs0]; rfl
  have lt1 : s.tracked < s1.chains.length := by rw [h1.len, l0]; exact h.tracked
  have ready1 : FReady inv f s1 := ⟨g1, by rw [h1.steps, h1.len]; exact st0, by rw [tr1]; exact lt1, h1.rng⟩
  obtain ⟨s2, e2, m2⟩ := iterate_ok hA hS hf ready1 burnin
  have i1 := List.getElem?_eq_getElem lt1
  obtain ⟨c1, hc1⟩ : ∃ c1, c1 = s1.chains[s.tracked] := ⟨_, rfl⟩
  rw [← hc1] at i1
  have lt2 : s.tracked < s2.chains.length := by rw [m2.rels.len]; exact lt1
  have i2 := List.getElem?_eq_getElem lt2
  obtain ⟨c2, hc2⟩ : ∃ c2, c2 = s2.chains[s.tracked] := ⟨_, rfl⟩
  rw [← hc2] at i2
  have rel := m2.rels.rel _ _ _ i1 i2
  have tr2 : s2.tracked = s.tracked := m2.tracked.trans tr1
  obtain ⟨k1, k2⟩ := h1.keep s.tracked (p.setSampleSize N) c1 (by rw [hs0]; exact List.getElem?_set_self h.tracked) i1
  obtain ⟨fr1, fr2⟩ := h.fresh p (List.mem_of_getElem? et)
  have z1 : c2.samples.length = N := by rw [rel.samples, k1]; simp [FPar.setSampleSize, fr1]
  have z2 : c2.logposts.length = N := by rw [rel.logposts, k2]; simp [FPar.setSampleSize, fr2]
  obtain ⟨s3, c3, e3, r3, t3, i3, a3, b3, fin3, stk3, rec3⟩ := sample_ok hA hS hf m2.ready thin N (c0 := c2) (by rw [tr2]; exact i2) z1 z2 le_rfl
  have gc1 := g1 c1 (List.mem_of_getElem? i1)
  have gc2 := rel.good
  refine ⟨s3, c1, c3, i1, gc1, ?_, by rw [← tr2]; exact i3, a3, b3, ?_⟩
  · rw [e2, res_bind_ok, e3]
  · intro j hj
    obtain ⟨θ, v, w1, w2, w3, w4⟩ := rec3 j hj
    refine ⟨θ, v, w1, w2, w3, w4.value, w4.doubles, fun q => ?_, fun q => ?_⟩
    · refine w4.finite ?_
      rw [← gc2.lp]; exact rel.fin (by rw [gc1.lp]; exact q)
    · have e : c2.value = c1.value := rel.stuck (by rw [gc1.lp]; exact q)
      rw [← e]; exact w4.stuck (by rw [e]; exact q)

/-- the run, given what the starting values are -/
theorem run_ok {M : Mach} (hA : IsBinary64 M.A) (hS : Strict M.A) (hf : Honest M.A d inv f) {s : FSamp μ d} (h : FBuilt inv s)
    (N burnin thin : ℕ) {init : List Dbl} (hi : init.length = d → Doubles init) :
    ∃ s0 s1 s' c0 c, FSamp.startLoop M.A (if init.length = d then some init else none) s0 s.steps.length = .ok s1 ∧
      (∃ p, s.chains[s.tracked]? = some p ∧ s0 = { s with chains := s.chains.set s.tracked (p.setSampleSize N) }) ∧ s0.steps = s.steps ∧ s0.rng = s.rng ∧ s0.tracked = s.tracked ∧ s0.chains.length = s.chains.length ∧
      (∀ c ∈ s0.chains, FRaw d inv c) ∧ s1.chains[s.tracked]? = some c0 ∧ c0.value.length = d ∧
      s.run M N burnin thin init = .ok s' ∧ s'.chains[s.tracked]? = some c ∧ c.samples.length = N ∧ c.logposts.length = N ∧
      ∀ j < N, ∃ θ v, c.samples[j]? = some θ ∧ c.logposts[j]? = some v ∧ θ.length = d ∧ Recorded f c0.value θ v := by
  have et := List.getElem?_eq_getElem h.tracked
  obtain ⟨p, hp⟩ : ∃ p, p = s.chains[s.tracked]'h.tracked := ⟨_, rfl⟩
  rw [← hp] at et
  obtain ⟨l0, raw0, st0⟩ := sized_raw h et N
  have hio : ∀ l ∈ (if init.length = d then some init else none : Option (List Dbl)), l.length = d ∧ Doubles l := by
    intro l hl
    split_ifs at hl with hd
    · cases hl; exact ⟨hd, hi hd⟩
    · cases hl
  obtain ⟨s1, e1, h1⟩ := startLoop_ok hf raw0 st0 h.rng hio (m := s.steps.length) le_rfl
  obtain ⟨s', c0, c, g1, g2, g3, g4, g5, g6, g7⟩ := run_from hA hS hf.toHonestLd h N burnin thin init et e1 h1
  exact ⟨sized s p N, s1, s', c0, c, e1, ⟨p, et, rfl⟩, rfl, rfl, rfl, l0, raw0, g1, g2.len, g3, g4, g5, g6, g7⟩

/-! ### CAR(1) -/

theorem car1_honest (s : FCar1) : Honest A 4 (FInv s) (fcarVal A s) := by
  refine ⟨⟨fun o θ ho hθ => hist_ld ho hθ, fun o θ ho hθ => ?_⟩, fun o r ho hr => ?_, fun o i r ho hi hr => ?_⟩
  · have hs := ho.shape
    obtain ⟨l, el⟩ := lik_total (A := A) (mu := θ.getD 2 .nan) hs.y hs.kmean.ge hs.kvar.ge
    refine ⟨A.add l (fprior A (θ.getD 1 .nan)), ?_⟩
    show FCar1.staleDensity A o θ = _
    simp only [FCar1.staleDensity, frd_getD (show 1 < θ.length by omega), frd_getD (show 2 < θ.length by omega), res_bind_ok, el, FCar1.logPrior, res_pure]
    rfl
  · obtain ⟨o', e, h⟩ := hist_start (A := A) ho (hr.prior 0)
    refine ⟨o', { r with prior := FRng.skip 1 r.prior }, ?_, h, hr.unif, fun k => hr.prior (k + 1), fun k => hr.doubles (k + 1)⟩
    show FCar1.start A o r = _
    simp only [FCar1.start, e, res_bind_ok]; rfl
  · obtain ⟨o1, e1, h1⟩ := hist_ld (A := A) ho hi
    by_cases hfin : (fcarVal A s i).isFin
    · obtain ⟨o2, e2, h2⟩ := hist_start (A := A) h1 hi
      refine ⟨o2, r, ?_, h2, hr⟩
      show FCar1.setStart A o i r = _
      simp only [FCar1.setStart, hi, ne_eq, not_true_eq_false, if_false, e1, res_bind_ok, hfin, e2, if_true]
      rfl
    · obtain ⟨o2, e2, h2⟩ := hist_start (A := A) h1 (hr.prior 0)
      refine ⟨o2, { r with prior := FRng.skip 1 r.prior }, ?_, h2, hr.unif, fun k => hr.prior (k + 1), fun k => hr.doubles (k + 1)⟩
      show FCar1.setStart A o i r = _
      simp only [FCar1.setStart, hi, ne_eq, not_true_eq_false, if_false, e1, res_bind_ok, hfin, not_false_eq_true, if_true, FCar1.start, e2]
      rfl

end Verif.Theory
