import Verif.Theory.FHist
import Verif.Spec.FSamp

/-!
Steps of the sampler with machine numbers.
-/

namespace Verif.Theory

open Verif.Model Verif.Spec
open scoped Classical

variable {μ : Type} [FTarget μ] {A : Arith} {d : ℕ} {inv : μ → Prop} {f : List Dbl → Dbl}

/-- a chain in order -/
structure FGood (d : ℕ) (inv : μ → Prop) (f : List Dbl → Dbl) (c : FPar μ) : Prop where
  obj : inv c.obj
  len : c.value.length = d
  lp : c.logpost = f c.value
  num : Doubles c.value
  temp : ∃ t, c.temp = .fin t ∧ 1 ≤ t

/-- one or more steps -/
structure FRel (d : ℕ) (inv : μ → Prop) (f : List Dbl → Dbl) (c c' : FPar μ) : Prop where
  good : FGood d inv f c'
  samples : c'.samples = c.samples
  logposts : c'.logposts = c.logposts
  fin : c.logpost.isFin → c'.logpost.isFin
  stuck : ¬ c.logpost.isFin → c'.value = c.value

omit [FTarget μ] in
theorem FRel.refl {c : FPar μ} (h : FGood d inv f c) : FRel d inv f c c := ⟨h, rfl, rfl, id, fun _ => rfl⟩

omit [FTarget μ] in
theorem FRel.trans {c c' c'' : FPar μ} (g : FGood d inv f c) (h : FRel d inv f c c') (h' : FRel d inv f c' c'') : FRel d inv f c c'' := by
  refine ⟨h'.good, h'.samples.trans h.samples, h'.logposts.trans h.logposts, fun k => h'.fin (h.fin k), fun k => ?_⟩
  have e := h.stuck k
  have : ¬ c'.logpost.isFin := by rw [h.good.lp, e, ← g.lp]; exact k
  rw [h'.stuck this, e]

theorem save_ok (hf : HonestLd A d inv f) {c : FPar μ} (ho : inv c.obj) {θ : List Dbl} (hθ : θ.length = d) :
    ∃ o, c.save A θ = .ok { c with obj := o, value := θ, logpost := f θ } ∧ inv o := by
  obtain ⟨o, e, h⟩ := hf.ld c.obj θ ho hθ
  exact ⟨o, by simp only [FPar.save, e, res_bind_ok]; rfl, h⟩

/-! ### RAM -/

theorem ram_ok {M : Mach} (hA : IsBinary64 M.A) (hf : HonestLd M.A d inv f) (a : FRam d) {c : FPar μ} (hc : FGood d inv f c) {r : FRng}
    (hr : Usable d r) : ∃ a' c' r', a.doStep M c r = .ok (a', c', r') ∧ FRel d inv f c c' ∧ Usable d r' := by
  obtain ⟨θ, hθ⟩ : ∃ θ, θ = List.ofFn fun i : Fin d => M.A.add (c.value.getD i .nan)
    (a.scaled M (fun i : Fin d => r.stud i) i) := ⟨_, rfl⟩
  have lθ : θ.length = d := by rw [hθ]; simp
  have nθ : Doubles θ := by
    intro x hx
    rw [hθ, List.mem_ofFn] at hx
    obtain ⟨i, hi⟩ := hx
    exact fl_f64 hA hi
  obtain ⟨o, eo, ho⟩ := hf.ld c.obj θ hc.obj lθ
  obtain ⟨r1, hr1⟩ : ∃ r1 : FRng, r1 = { r with stud := FRng.skip d r.stud } := ⟨_, rfl⟩
  have u1 : Usable d r1 := by rw [hr1]; exact ⟨hr.unif, hr.prior, hr.doubles⟩
  obtain ⟨al, hal⟩ : ∃ al, al = M.A.div (M.A.sub (f θ) c.logpost) c.temp := ⟨_, rfl⟩
  have keep : FRel d inv f c { c with obj := o } :=
    ⟨⟨ho, hc.len, hc.lp, hc.num, hc.temp⟩, rfl, rfl, id, fun _ => rfl⟩
  by_cases hfin : al.isFin
  · have hb := fin_sub (fin_div (hal ▸ hfin))
    have ea : FRam.accept M c θ r1 = .ok (decide ((r1.unif 0).lt (Dbl.min (M.A.exp al) (.fin 1))), { c with obj := o },
        Dbl.min (M.A.exp al) (.fin 1), { r1 with unif := FRng.skip 1 r1.unif }) := by
      simp only [FRam.accept, eo, res_bind_ok, ← hal, hfin, not_true_eq_false, if_false]; rfl
    have u2 : Usable d { r1 with unif := FRng.skip 1 r1.unif } := ⟨fun k => u1.unif (k + 1), u1.prior, u1.doubles⟩
    by_cases hu : (r1.unif 0).lt (Dbl.min (M.A.exp al) (.fin 1))
    · obtain ⟨o2, e2, h2⟩ := save_ok hf (c := { c with obj := o }) ho lθ
      refine ⟨?_, { c with obj := o2, value := θ, logpost := f θ }, { r1 with unif := FRng.skip 1 r1.unif }, ?_, ⟨⟨h2, lθ, rfl, nθ, hc.temp⟩, rfl, rfl, fun _ => hb.1, fun k => absurd hb.2 k⟩, u2⟩
      swap
      unfold FRam.doStep
      simp only [hc.len, ne_eq, not_true_eq_false, if_false]
      rw [← hθ, ← hr1, ea, res_bind_ok]
      simp only [hu, decide_true, if_true, e2, res_bind_ok]
      rfl
    · refine ⟨?_, { c with obj := o }, { r1 with unif := FRng.skip 1 r1.unif }, ?_, keep, u2⟩
      swap
      unfold FRam.doStep
      simp only [hc.len, ne_eq, not_true_eq_false, if_false]
      rw [← hθ, ← hr1, ea, res_bind_ok]
      simp only [hu, decide_false, Bool.false_eq_true, if_false, res_pure, res_bind_ok]
      rfl
  · have ea : FRam.accept M c θ r1 = .ok (false, { c with obj := o }, .fin 0, r1) := by
      simp only [FRam.accept, eo, res_bind_ok, ← hal, hfin, not_false_eq_true, if_true]; rfl
    refine ⟨?_, { c with obj := o }, r1, ?_, keep, u1⟩
    swap
    unfold FRam.doStep
    simp only [hc.len, ne_eq, not_true_eq_false, if_false]
    rw [← hθ, ← hr1, ea, res_bind_ok]
    simp only [Bool.false_eq_true, if_false, res_pure, res_bind_ok]
    rfl

/-! ### exchange -/

theorem recip_nonneg (hA : IsBinary64 A) {t : ℝ} (ht : 1 ≤ t) : A.div (.fin 1) (.fin t) = .pinf ∨ ∃ r, A.div (.fin 1) (.fin t) = .fin r ∧ 0 ≤ r := by
  rw [fl_div _ _ (by linarith)]
  rcases rnd_nonneg hA (x := 1 / t) (by positivity) with h | ⟨r, h, -, h0⟩
  · exact .inl h
  · exact .inr ⟨r, h, h0⟩

theorem mul_pinf_cases {c : Dbl} (hc : c = .pinf ∨ ∃ r, c = .fin r ∧ 0 ≤ r) :
    (A.mul c .pinf = .pinf ∨ A.mul c .pinf = .nan) ∧ (A.mul c .ninf = .ninf ∨ A.mul c .ninf = .nan) := by
  rcases hc with rfl | ⟨r, rfl, hr⟩
  · exact ⟨.inl rfl, .inl rfl⟩
  · rcases eq_or_lt_of_le hr with rfl | hr
    · exact ⟨.inr (by simp [Arith.mul, Dbl.mul, Dbl.infTimes, Arith.fl]), .inr (by simp [Arith.mul, Dbl.mul, Dbl.infTimes, Arith.fl])⟩
    · exact ⟨.inl (by simp [Arith.mul, Dbl.mul, Dbl.infTimes, Arith.fl, hr]),
        .inl (by simp [Arith.mul, Dbl.mul, Dbl.infTimes, Arith.fl, hr, not_lt.mpr hr.le])⟩

/-- a swap has probability zero unless both log-densities are finite -/
theorem swap_zero (hA : IsBinary64 A) (hS : Strict A) {t1 t2 : ℝ} (h1 : 1 ≤ t1) (h2 : 1 ≤ t2) {a b : Dbl} (h : ¬ (a.isFin ∧ b.isFin)) :
    fswapProb A (.fin t1) (.fin t2) a b = .fin 0 := by
  obtain ⟨p1, q1⟩ := mul_pinf_cases (A := A) (recip_nonneg hA h1)
  obtain ⟨p2, q2⟩ := mul_pinf_cases (A := A) (recip_nonneg hA h2)
  have key : A.add (A.mul (A.div (.fin 1) (.fin t1)) (A.sub b a)) (A.mul (A.div (.fin 1) (.fin t2)) (A.sub a b)) = .nan := by
    have hs : (A.sub b a = .nan ∧ A.sub a b = .nan) ∨ (A.sub b a = .pinf ∧ A.sub a b = .ninf) ∨ (A.sub b a = .ninf ∧ A.sub a b = .pinf) := by
      cases a <;> cases b
      · exact absurd ⟨trivial, trivial⟩ h
      all_goals first
        | exact .inl ⟨rfl, rfl⟩
        | exact .inr (.inl ⟨rfl, rfl⟩)
        | exact .inr (.inr ⟨rfl, rfl⟩)
    rcases hs with ⟨e1, e2⟩ | ⟨e1, e2⟩ | ⟨e1, e2⟩ <;> rw [e1, e2]
    · rw [mul_nan, fl_nan_add]
    · rcases p1 with e | e <;> rcases q2 with e' | e' <;> rw [e, e'] <;> rfl
    · rcases q1 with e | e <;> rcases p2 with e' | e' <;> rw [e, e'] <;> rfl
  unfold fswapProb
  simp only [key, hS.exp_nan]
  rw [if_neg]
  unfold Dbl.min
  rw [if_neg (by exact id)]
  exact id

/-- chains before and after -/
structure FRels (d : ℕ) (inv : μ → Prop) (f : List Dbl → Dbl) (cs cs' : List (FPar μ)) : Prop where
  len : cs'.length = cs.length
  rel : ∀ (i : ℕ) c c', cs[i]? = some c → cs'[i]? = some c' → FRel d inv f c c'

/-- all chains in order -/
def FGoods (d : ℕ) (inv : μ → Prop) (f : List Dbl → Dbl) (cs : List (FPar μ)) : Prop := ∀ c ∈ cs, FGood d inv f c

omit [FTarget μ] in
theorem FRels.refl {cs : List (FPar μ)} (h : FGoods d inv f cs) : FRels d inv f cs cs := by
  refine ⟨rfl, fun i c c' h1 h2 => ?_⟩
  rw [h1] at h2; cases h2
  exact FRel.refl (h c (List.mem_of_getElem? h1))

omit [FTarget μ] in
theorem FRels.goods {cs cs' : List (FPar μ)} (h : FRels d inv f cs cs') : FGoods d inv f cs' := by
  intro c hc
  obtain ⟨i, hi, rfl⟩ := List.getElem_of_mem hc
  have hi' : i < cs.length := by rw [← h.len]; exact hi
  exact (h.rel i cs[i] cs'[i] (List.getElem?_eq_getElem hi') (List.getElem?_eq_getElem hi)).good

omit [FTarget μ] in
theorem FRels.trans {cs cs' cs'' : List (FPar μ)} (g : FGoods d inv f cs) (h : FRels d inv f cs cs') (h' : FRels d inv f cs' cs'') :
    FRels d inv f cs cs'' := by
  refine ⟨h'.len.trans h.len, fun i c c'' h1 h2 => ?_⟩
  have hi : i < cs'.length := by
    have := (List.getElem?_eq_some_iff.mp h1).1
    rw [h.len]; exact this
  have e := List.getElem?_eq_getElem hi
  exact (h.rel i c _ h1 e).trans (g c (List.mem_of_getElem? h1)) (h'.rel i _ c'' e h2)

omit [FTarget μ] in
theorem FRels.set {cs : List (FPar μ)} (g : FGoods d inv f cs) {i : ℕ} {c c' : FPar μ} (hi : cs[i]? = some c) (h : FRel d inv f c c') :
    FRels d inv f cs (cs.set i c') := by
  refine ⟨by simp, fun j a a' h1 h2 => ?_⟩
  by_cases e : i = j
  · subst e
    rw [hi] at h1; cases h1
    rw [List.getElem?_set_self (List.getElem?_eq_some_iff.mp hi).1] at h2; cases h2
    exact h
  · rw [List.getElem?_set_ne e, h1] at h2; cases h2
    exact FRel.refl (g a (List.mem_of_getElem? h1))

theorem exch_ok (hA : IsBinary64 A) (hS : Strict A) (hf : HonestLd A d inv f) {cs : List (FPar μ)} (hc : FGoods d inv f cs) {i : ℕ} (h0 : 0 < i)
    (hi : i < cs.length) {r : FRng} (hr : Usable d r) :
    ∃ cs' r', fexchange A i cs r = .ok (cs', r') ∧ FRels d inv f cs cs' ∧ Usable d r' := by
  have hr' : Usable d { r with unif := FRng.skip 1 r.unif } := ⟨fun k => hr.unif (k + 1), hr.prior, hr.doubles⟩
  have e1 : cs[i]? = some cs[i] := List.getElem?_eq_getElem hi
  have e2 : cs[i - 1]? = some (cs[i - 1]'(by omega)) := List.getElem?_eq_getElem _
  obtain ⟨a, ha⟩ : ∃ a, a = cs[i] := ⟨_, rfl⟩
  obtain ⟨b, hb⟩ : ∃ b, b = cs[i - 1]'(by omega) := ⟨_, rfl⟩
  rw [← ha] at e1
  rw [← hb] at e2
  have ga := hc a (List.mem_of_getElem? e1)
  have gb := hc b (List.mem_of_getElem? e2)
  have r1 : rdU cs i = .ok a := by simp [rdU, e1]
  have r2 : rdU cs (i - 1) = .ok b := by simp [rdU, e2]
  by_cases hu : (r.unif 0).lt (fswapProb A a.temp b.temp a.logpost b.logpost)
  · obtain ⟨t1, et1, h1⟩ := ga.temp
    obtain ⟨t2, et2, h2⟩ := gb.temp
    have hfin : a.logpost.isFin ∧ b.logpost.isFin := by
      by_contra hn
      rw [et1, et2, swap_zero hA hS h1 h2 hn] at hu
      exact hr.unif 0 hu
    obtain ⟨o1, s1, i1⟩ := save_ok hf ga.obj gb.len
    obtain ⟨v, s2⟩ := hf.stale b.obj a.value gb.obj ga.len
    have f1 : FRel d inv f a { a with obj := o1, value := b.value, logpost := b.logpost } :=
      ⟨⟨i1, gb.len, gb.lp, gb.num, ga.temp⟩, rfl, rfl, fun _ => hfin.2, fun k => absurd hfin.1 k⟩
    have f2 : FRel d inv f b { b with value := a.value, logpost := a.logpost } :=
      ⟨⟨gb.obj, ga.len, ga.lp, ga.num, gb.temp⟩, rfl, rfl, fun _ => hfin.1, fun k => absurd hfin.2 k⟩
    have m1 := FRels.set hc e1 f1
    have m2 := FRels.set m1.goods (i := i - 1) (c := b) (by rw [List.getElem?_set_ne (by omega)]; exact e2) f2
    refine ⟨_, _, ?_, m1.trans hc m2, hr'⟩
    simp only [fexchange, r1, r2, res_bind_ok, if_neg h0.ne', hu, if_true, s1, FPar.saveStale, s2]
    rfl
  · refine ⟨_, _, ?_, FRels.refl hc, hr'⟩
    simp only [fexchange, r1, r2, res_bind_ok, if_neg h0.ne', hu, if_false]
    rfl

/-! ### sampler -/

/-- a sampler in order -/
structure FReady (inv : μ → Prop) (f : List Dbl → Dbl) (s : FSamp μ d) : Prop where
  goods : FGoods d inv f s.chains
  steps : ∀ st ∈ s.steps, FStepOk s.chains.length st
  tracked : s.tracked < s.chains.length
  rng : Usable d s.rng

/-- some steps of a sampler -/
structure FMove (inv : μ → Prop) (f : List Dbl → Dbl) (s s' : FSamp μ d) : Prop where
  ready : FReady inv f s'
  rels : FRels d inv f s.chains s'.chains
  steps : s'.steps.length = s.steps.length
  tracked : s'.tracked = s.tracked

omit [FTarget μ] in
theorem FMove.refl {s : FSamp μ d} (h : FReady inv f s) : FMove inv f s s := ⟨h, FRels.refl h.goods, rfl, rfl⟩

omit [FTarget μ] in
theorem FMove.trans {s s' s'' : FSamp μ d} (g : FReady inv f s) (h : FMove inv f s s') (h' : FMove inv f s' s'') : FMove inv f s s'' :=
  ⟨h'.ready, h.rels.trans g.goods h'.rels, h'.steps.trans h.steps, h'.tracked.trans h.tracked⟩

theorem step_ok {M : Mach} (hA : IsBinary64 M.A) (hS : Strict M.A) (hf : HonestLd M.A d inv f) {s : FSamp μ d} (h : FReady inv f s) {k : ℕ}
    (hk : k < s.steps.length) : ∃ s', s.doStep M k = .ok s' ∧ FMove inv f s s' := by
  have e : rdU s.steps k = .ok s.steps[k] := by simp [rdU, List.getElem?_eq_getElem hk]
  have hok := h.steps _ (List.getElem_mem hk)
  obtain ⟨st, hst⟩ : ∃ st, st = s.steps[k] := ⟨_, rfl⟩
  rw [← hst] at e hok
  cases st with
  | ram i a =>
    have hi : i < s.chains.length := hok
    have ei := List.getElem?_eq_getElem hi
    have ri : rdU s.chains i = .ok s.chains[i] := by simp [rdU, ei]
    obtain ⟨a', c', r', es, hrel, hu⟩ := ram_ok hA hf a (h.goods _ (List.getElem_mem hi)) h.rng
    have m := FRels.set h.goods ei hrel
    refine ⟨{ s with chains := s.chains.set i c', steps := s.steps.set k (.ram i a'), rng := r' }, ?_, ⟨m.goods, ?_, ?_, hu⟩, m, by simp, rfl⟩
    · simp only [FSamp.doStep, e, res_bind_ok, ri, es]; rfl
    · intro t ht
      simp only [List.length_set]
      rcases List.mem_or_eq_of_mem_set ht with ht | rfl
      · exact h.steps t ht
      · exact hok
    · simpa using h.tracked
  | exch i =>
    obtain ⟨cs', r', es, m, hu⟩ := exch_ok hA hS hf h.goods hok.1 hok.2 h.rng
    refine ⟨{ s with chains := cs', rng := r' }, ?_, ⟨m.goods, ?_, ?_, hu⟩, m, rfl, rfl⟩
    · simp only [FSamp.doStep, e, res_bind_ok, es]; rfl
    · intro t ht; simp only [m.len]; exact h.steps t ht
    · simp only [m.len]; exact h.tracked

theorem stepLoop_ok {M : Mach} (hA : IsBinary64 M.A) (hS : Strict M.A) (hf : HonestLd M.A d inv f) {s : FSamp μ d} (h : FReady inv f s) {m : ℕ}
    (hm : m ≤ s.steps.length) : ∃ s', s.stepLoop M m = .ok s' ∧ FMove inv f s s' := by
  induction m with
  | zero => exact ⟨s, rfl, .refl h⟩
  | succ m ih =>
    obtain ⟨s1, e1, h1⟩ := ih (by omega)
    obtain ⟨s2, e2, h2⟩ := step_ok hA hS hf h1.ready (k := m) (by rw [h1.steps]; omega)
    exact ⟨s2, by simp only [FSamp.stepLoop, e1, res_bind_ok, e2], h1.trans h h2⟩

theorem iterate_ok {M : Mach} (hA : IsBinary64 M.A) (hS : Strict M.A) (hf : HonestLd M.A d inv f) {s : FSamp μ d} (h : FReady inv f s) (n : ℕ) :
    ∃ s', s.iterate M n = .ok s' ∧ FMove inv f s s' := by
  induction n with
  | zero => exact ⟨s, rfl, .refl h⟩
  | succ n ih =>
    obtain ⟨s1, e1, h1⟩ := ih
    obtain ⟨s2, e2, h2⟩ := stepLoop_ok hA hS hf h1.ready (m := s1.steps.length) le_rfl
    refine ⟨s2, ?_, h1.trans h h2⟩
    unfold FSamp.iterate at e1 ⊢
    simp only [iter, e1, res_bind_ok]
    exact e2

/-- the sampling loop -/
theorem sample_ok {M : Mach} (hA : IsBinary64 M.A) (hS : Strict M.A) (hf : HonestLd M.A d inv f) {s : FSamp μ d} (h : FReady inv f s) (thin N : ℕ)
    {c0 : FPar μ} (h0 : s.chains[s.tracked]? = some c0) (l1 : c0.samples.length = N) (l2 : c0.logposts.length = N) {k : ℕ} (hk : k ≤ N) :
    ∃ s' c, s.sampleLoop M thin k = .ok s' ∧ FReady inv f s' ∧ s'.tracked = s.tracked ∧ s'.chains[s.tracked]? = some c ∧
      c.samples.length = N ∧ c.logposts.length = N ∧ (c0.logpost.isFin → c.logpost.isFin) ∧ (¬ c0.logpost.isFin → c.value = c0.value) ∧
      ∀ j < k, ∃ θ v, c.samples[j]? = some θ ∧ c.logposts[j]? = some v ∧ θ.length = d ∧ Recorded f c0.value θ v := by
  have g0 := h.goods c0 (List.mem_of_getElem? h0)
  induction k with
  | zero => exact ⟨s, c0, rfl, h, rfl, h0, l1, l2, id, fun _ => rfl, fun j hj => absurd hj (by omega)⟩
  | succ k ih =>
    obtain ⟨s1, c1, e1, r1, t1, i1, a1, b1, fin1, st1, rec1⟩ := ih (by omega)
    obtain ⟨s2, e2, m2⟩ := iterate_ok hA hS hf r1 thin
    have hlt : s.tracked < s2.chains.length := by rw [m2.rels.len]; exact (List.getElem?_eq_some_iff.mp i1).1
    have i2 := List.getElem?_eq_getElem hlt
    obtain ⟨c2, hc2⟩ : ∃ c2, c2 = s2.chains[s.tracked] := ⟨_, rfl⟩
    rw [← hc2] at i2
    have rel := m2.rels.rel _ _ _ i1 i2
    have ew1 : wrU c2.samples k c2.value = .ok (c2.samples.set k c2.value) := by
      simp [wrU, rel.samples, a1]; omega
    have ew2 : wrU c2.logposts k c2.logpost = .ok (c2.logposts.set k c2.logpost) := by
      simp [wrU, rel.logposts, b1]; omega
    have tr : s2.tracked = s.tracked := m2.tracked.trans t1
    have rt : rdU s2.chains s2.tracked = .ok c2 := by rw [tr]; simp [rdU, i2]
    have fin2 : c0.logpost.isFin → c2.logpost.isFin := fun k => rel.fin (fin1 k)
    have g1 := r1.goods c1 (List.mem_of_getElem? i1)
    have st2 : ¬ c0.logpost.isFin → c2.value = c0.value := fun k => by
      have e := st1 k
      rw [rel.stuck (by rw [g1.lp, e, ← g0.lp]; exact k), e]
    refine ⟨{ s2 with chains := s2.chains.set s2.tracked { c2 with samples := c2.samples.set k c2.value, logposts := c2.logposts.set k c2.logpost } },
      { c2 with samples := c2.samples.set k c2.value, logposts := c2.logposts.set k c2.logpost }, ?_, ?_, tr, ?_, ?_, ?_, fin2, st2, ?_⟩
    · simp only [FSamp.sampleLoop, e1, res_bind_ok, e2, FSamp.saveValues, rt, FPar.addToSample, ew1, ew2]; rfl
    · refine ⟨fun c hc => ?_, fun t ht => ?_, ?_, m2.ready.rng⟩
      · rcases List.mem_or_eq_of_mem_set hc with hc | rfl
        · exact m2.ready.goods c hc
        · exact ⟨rel.good.obj, rel.good.len, rel.good.lp, rel.good.num, rel.good.temp⟩
      · simp only [List.length_set]; exact m2.ready.steps t ht
      · simp only [List.length_set]; exact m2.ready.tracked
    · simp only [tr]; rw [List.getElem?_set_self hlt]
    · simp [rel.samples, a1]
    · simp [rel.logposts, b1]
    · intro j hj
      by_cases e : k = j
      · subst e
        refine ⟨c2.value, c2.logpost, ?_, ?_, rel.good.len, rel.good.lp, rel.good.num, fun q => fin2 (by rw [g0.lp]; exact q),
          fun q => st2 (by rw [g0.lp]; exact q)⟩
        · exact List.getElem?_set_self (by rw [rel.samples, a1]; omega)
        · exact List.getElem?_set_self (by rw [rel.logposts, b1]; omega)
      · obtain ⟨θ, v, w1, w2, w3⟩ := rec1 j (by omega)
        refine ⟨θ, v, ?_, ?_, w3⟩
        · show (c2.samples.set k c2.value)[j]? = _
          rw [List.getElem?_set_ne e, rel.samples, w1]
        · show (c2.logposts.set k c2.logpost)[j]? = _
          rw [List.getElem?_set_ne e, rel.logposts, w2]

end Verif.Theory
