import Verif.Theory.FErrSign
import Verif.Theory.FMirrorRun

/-!
Parameter objects that answer alike give the same run: a relation between objects that is respected by the log-density and the starting values is
respected by the steps, the sweeps and the whole sampler.
-/

namespace Verif.Theory

open Verif.Model Verif.Spec
open scoped Classical

/-- the same fault, or results that are related -/
def ORel {α β : Type} (R : α → β → Prop) (x : Res α) (y : Res β) : Prop :=
  (∃ f, x = .error f ∧ y = .error f) ∨ ∃ a b, x = .ok a ∧ y = .ok b ∧ R a b

theorem ORel.ok {α β : Type} {R : α → β → Prop} {a : α} {b : β} (h : R a b) : ORel R (.ok a) (.ok b) := .inr ⟨a, b, rfl, rfl, h⟩
theorem ORel.err {α β : Type} {R : α → β → Prop} (f : Fault) : ORel R (.error f) (.error f) := .inl ⟨f, rfl, rfl⟩
theorem ORel.rfl' {α : Type} (x : Res α) : ORel (fun a b => a = b) x x := by cases x with | error f => exact .err f | ok a => exact .ok rfl

theorem ORel.bind {α β γ δ : Type} {R : α → β → Prop} {S : γ → δ → Prop} {x : Res α} {y : Res β} {k : α → Res γ} {l : β → Res δ} (h : ORel R x y)
    (hk : ∀ a b, R a b → ORel S (k a) (l b)) : ORel S (x >>= k) (y >>= l) := by
  rcases h with ⟨f, rfl, rfl⟩ | ⟨a, b, rfl, rfl, h⟩
  · exact .err f
  · exact hk a b h

theorem ORel.same {α γ δ : Type} {S : γ → δ → Prop} (x : Res α) {k : α → Res γ} {l : α → Res δ} (hk : ∀ a, ORel S (k a) (l a)) : ORel S (x >>= k) (x >>= l) :=
  (ORel.rfl' x).bind fun a b h => by subst h; exact hk a

theorem ORel.of_map {α β γ : Type} {g : α → γ} {h : β → γ} {x : Res α} {y : Res β} (e : Except.map g x = Except.map h y) : ORel (fun a b => g a = h b) x y := by
  cases x with
  | error f =>
    cases y with
    | error f' => injection e with e; subst e; exact .err f
    | ok b => cases e
  | ok a =>
    cases y with
    | error f => cases e
    | ok b => injection e with e; exact .ok e

theorem forall2_get {α β : Type} {R : α → β → Prop} {l : List α} {l' : List β} (h : List.Forall₂ R l l') (i : ℕ) : ORel R (rdU l i) (rdU l' i) := by
  induction h generalizing i with
  | nil => exact .err .ub
  | cons h _ ih =>
    cases i with
    | zero => exact .ok h
    | succ i => exact ih i

theorem forall2_set {α β : Type} {R : α → β → Prop} {l : List α} {l' : List β} (h : List.Forall₂ R l l') (i : ℕ) {a : α} {b : β} (hab : R a b) :
    List.Forall₂ R (l.set i a) (l'.set i b) := by
  induction h generalizing i with
  | nil => exact .nil
  | cons h ht ih =>
    cases i with
    | zero => exact .cons hab ht
    | succ i => exact .cons h (ih i)

/-- A relation between parameter objects that nothing the sampler calls can break or see. -/
structure Bisim (μ ν : Type) [FTarget μ] [FTarget ν] (A : Arith) (R : μ → ν → Prop) : Prop where
  ld : ∀ s t, R s t → ∀ θ, ORel (fun a b => R a.1 b.1 ∧ a.2 = b.2) (FTarget.ld A s θ) (FTarget.ld A t θ)
  stale : ∀ s t, R s t → ∀ θ, FTarget.staleLd A s θ = FTarget.staleLd A t θ
  start : ∀ s t, R s t → ∀ r, ORel (fun a b => R a.1 b.1 ∧ a.2 = b.2) (FTarget.start A s r) (FTarget.start A t r)
  setStart : ∀ s t, R s t → ∀ i r, ORel (fun a b => R a.1 b.1 ∧ a.2 = b.2) (FTarget.setStart A s i r) (FTarget.setStart A t i r)

section
variable {μ ν : Type} [FTarget μ] [FTarget ν] {M : Mach} {d : ℕ} {R : μ → ν → Prop}

/-- chains with related objects and everything else equal -/
def ParR (R : μ → ν → Prop) (p : FPar μ) (q : FPar ν) : Prop := ∃ t, R p.obj t ∧ q = ⟨t, p.value, p.logpost, p.temp, p.samples, p.logposts⟩

/-- samplers with related chains and everything else equal -/
def SampR (R : μ → ν → Prop) (s : FSamp μ d) (s' : FSamp ν d) : Prop := ∃ cs, List.Forall₂ (ParR R) s.chains cs ∧ s' = ⟨cs, s.steps, s.tracked, s.rng⟩

variable (B : Bisim μ ν M.A R)
include B

theorem bis_save {p : FPar μ} {q : FPar ν} (h : ParR R p q) (θ : List Dbl) : ORel (ParR R) (p.save M.A θ) (q.save M.A θ) := by
  obtain ⟨t, ht, rfl⟩ := h
  unfold FPar.save
  refine (B.ld _ _ ht θ).bind ?_
  rintro ⟨a, v⟩ ⟨b, v'⟩ ⟨hab, hv⟩
  simp only at hab hv
  subst hv
  exact .ok ⟨b, hab, rfl⟩

theorem bis_saveStale {p : FPar μ} {q : FPar ν} (h : ParR R p q) (θ : List Dbl) : ORel (ParR R) (p.saveStale M.A θ) (q.saveStale M.A θ) := by
  obtain ⟨t, ht, rfl⟩ := h
  unfold FPar.saveStale
  rw [← B.stale _ _ ht θ]
  exact ORel.same _ fun v => .ok ⟨t, ht, rfl⟩

theorem bis_accept {p : FPar μ} {q : FPar ν} (h : ParR R p q) (θ : List Dbl) (r : FRng) :
    ORel (fun a b => ParR R a.2.1 b.2.1 ∧ a.1 = b.1 ∧ a.2.2 = b.2.2) (FRam.accept M p θ r) (FRam.accept M q θ r) := by
  obtain ⟨t, ht, rfl⟩ := h
  unfold FRam.accept
  refine (B.ld _ _ ht θ).bind ?_
  rintro ⟨a, v⟩ ⟨b, v'⟩ ⟨hab, hv⟩
  simp only at hab hv
  subst hv
  simp only
  split_ifs
  · exact .ok ⟨⟨b, hab, rfl⟩, rfl, rfl⟩
  · exact .ok ⟨⟨b, hab, rfl⟩, rfl, rfl⟩

theorem bis_doStep (a : FRam d) {p : FPar μ} {q : FPar ν} (h : ParR R p q) (r : FRng) :
    ORel (fun x y => ParR R x.2.1 y.2.1 ∧ x.1 = y.1 ∧ x.2.2 = y.2.2) (a.doStep M p r) (a.doStep M q r) := by
  unfold FRam.doStep
  have hv : q.value = p.value := by obtain ⟨t, -, rfl⟩ := h; rfl
  rw [hv]
  by_cases hl : p.value.length ≠ d
  · simp only [if_pos hl]; exact .err _
  simp only [if_neg hl, pure_bind]
  refine (bis_accept B h _ _).bind ?_
  rintro ⟨ok, p', al, r'⟩ ⟨ok', q', al', r''⟩ ⟨h1, h2, h3⟩
  simp only [Prod.mk.injEq] at h1 h2 h3
  obtain ⟨rfl, rfl⟩ := h3
  subst h2
  simp only
  by_cases hok : ok = true
  · simp only [if_pos hok]
    refine (bis_save B h1 _).bind fun p2 q2 h4 => ?_
    exact .ok ⟨h4, rfl, rfl⟩
  · simp only [if_neg hok]
    exact .ok ⟨h1, rfl, rfl⟩

theorem bis_exchange (i : ℕ) {ps : List (FPar μ)} {qs : List (FPar ν)} (h : List.Forall₂ (ParR R) ps qs) (r : FRng) :
    ORel (fun x y => List.Forall₂ (ParR R) x.1 y.1 ∧ x.2 = y.2) (fexchange M.A i ps r) (fexchange M.A i qs r) := by
  unfold fexchange
  refine (forall2_get h i).bind fun p q hpq => ?_
  refine ORel.same _ fun j => ?_
  refine (forall2_get h j).bind fun p2 q2 hpq2 => ?_
  have e1 : q.temp = p.temp ∧ q.logpost = p.logpost ∧ q.value = p.value := by obtain ⟨t, -, rfl⟩ := hpq; exact ⟨rfl, rfl, rfl⟩
  have e2 : q2.temp = p2.temp ∧ q2.logpost = p2.logpost ∧ q2.value = p2.value := by obtain ⟨t, -, rfl⟩ := hpq2; exact ⟨rfl, rfl, rfl⟩
  simp only [e1, e2]
  split_ifs
  · refine (bis_save B hpq _).bind fun p3 q3 h3 => ?_
    refine (bis_saveStale B hpq2 _).bind fun p4 q4 h4 => ?_
    obtain ⟨t3, u3, rfl⟩ := h3
    obtain ⟨t4, u4, rfl⟩ := h4
    refine .ok ⟨forall2_set (forall2_set h i ?_) j ?_, rfl⟩
    · exact ⟨t3, u3, rfl⟩
    · exact ⟨t4, u4, rfl⟩
  · exact .ok ⟨h, rfl⟩

theorem bis_sampStep {s : FSamp μ d} {s' : FSamp ν d} (h : SampR R s s') (k : ℕ) : ORel (SampR R) (s.doStep M k) (s'.doStep M k) := by
  obtain ⟨cs, hc, rfl⟩ := h
  unfold FSamp.doStep
  refine ORel.same _ fun st => ?_
  cases st with
  | ram i a =>
    simp only
    refine (forall2_get hc i).bind fun p q hpq => ?_
    refine (bis_doStep B a hpq _).bind ?_
    rintro ⟨a1, p1, r1⟩ ⟨a2, q1, r2⟩ ⟨h1, h2, h3⟩
    simp only at h1 h2 h3
    subst h2 h3
    exact .ok ⟨_, forall2_set hc i h1, rfl⟩
  | exch i =>
    simp only
    refine (bis_exchange B i hc _).bind ?_
    rintro ⟨c1, r1⟩ ⟨c2, r2⟩ ⟨h1, h2⟩
    simp only at h1 h2
    subst h2
    exact .ok ⟨_, h1, rfl⟩

theorem bis_stepLoop {s : FSamp μ d} {s' : FSamp ν d} (h : SampR R s s') : ∀ m, ORel (SampR R) (s.stepLoop M m) (s'.stepLoop M m)
  | 0 => .ok h
  | m + 1 => (bis_stepLoop h m).bind fun _ _ h => bis_sampStep B h m

theorem bis_iterate {s : FSamp μ d} {s' : FSamp ν d} (h : SampR R s s') : ∀ n, ORel (SampR R) (s.iterate M n) (s'.iterate M n)
  | 0 => .ok h
  | n + 1 => by
    show ORel _ (iter (FSamp.sweep M) n s >>= FSamp.sweep M) (iter (FSamp.sweep M) n s' >>= FSamp.sweep M)
    refine ORel.bind (bis_iterate h n) fun a b hab => ?_
    have e : b.steps = a.steps := by obtain ⟨cs, -, rfl⟩ := hab; rfl
    unfold FSamp.sweep
    rw [e]
    exact bis_stepLoop B hab _

theorem bis_startOne (init : Option (List Dbl)) {s : FSamp μ d} {s' : FSamp ν d} (h : SampR R s s') (k : ℕ) :
    ORel (SampR R) (FSamp.startOne M.A init s k) (FSamp.startOne M.A init s' k) := by
  obtain ⟨cs, hc, rfl⟩ := h
  unfold FSamp.startOne
  refine ORel.same _ fun st => ?_
  refine (forall2_get hc st.chain).bind ?_
  rintro p q ⟨t, ht, rfl⟩
  have tail : ∀ (x : μ × List Dbl × FRng) (y : ν × List Dbl × FRng), (R x.1 y.1 ∧ x.2 = y.2) →
      ORel (SampR (d := d) R) (FPar.save M.A { p with obj := x.1 } x.2.1 >>= fun q => pure ⟨s.chains.set st.chain q, s.steps, s.tracked, x.2.2⟩)
        (FPar.save M.A ⟨y.1, p.value, p.logpost, p.temp, p.samples, p.logposts⟩ y.2.1 >>= fun q => pure ⟨cs.set st.chain q, s.steps, s.tracked, y.2.2⟩) := by
    rintro ⟨x1, x2⟩ ⟨y1, y2⟩ ⟨h1, h2⟩
    simp only at h1 h2
    subst h2
    refine (bis_save B (p := ⟨x1, p.value, p.logpost, p.temp, p.samples, p.logposts⟩) (q := ⟨y1, p.value, p.logpost, p.temp, p.samples, p.logposts⟩) ⟨y1, h1, rfl⟩ _).bind fun a b hab => ?_
    exact .ok ⟨_, forall2_set hc _ hab, rfl⟩
  cases init with
  | none => exact (B.start _ _ ht _).bind tail
  | some i => exact (B.setStart _ _ ht i _).bind tail

theorem bis_startLoop (init : Option (List Dbl)) {s : FSamp μ d} {s' : FSamp ν d} (h : SampR R s s') :
    ∀ m, ORel (SampR R) (FSamp.startLoop M.A init s m) (FSamp.startLoop M.A init s' m)
  | 0 => .ok h
  | m + 1 => (bis_startLoop init h m).bind fun _ _ h => bis_startOne B init h m

omit B [FTarget μ] [FTarget ν] in
theorem bis_saveValues {s : FSamp μ d} {s' : FSamp ν d} (h : SampR R s s') (k : ℕ) : ORel (SampR R) (s.saveValues k) (s'.saveValues k) := by
  obtain ⟨cs, hc, rfl⟩ := h
  unfold FSamp.saveValues
  refine (forall2_get hc _).bind ?_
  rintro p q ⟨t, ht, rfl⟩
  have : ORel (ParR R) (p.addToSample k) ((⟨t, p.value, p.logpost, p.temp, p.samples, p.logposts⟩ : FPar ν).addToSample k) := by
    unfold FPar.addToSample
    exact ORel.same _ fun a => ORel.same _ fun b => .ok ⟨t, ht, rfl⟩
  refine this.bind fun a b hab => ?_
  exact .ok ⟨_, forall2_set hc _ hab, rfl⟩

theorem bis_sampleLoop (thin : ℕ) {s : FSamp μ d} {s' : FSamp ν d} (h : SampR R s s') : ∀ k, ORel (SampR R) (s.sampleLoop M thin k) (s'.sampleLoop M thin k)
  | 0 => .ok h
  | k + 1 => (bis_sampleLoop thin h k).bind fun _ _ h => (bis_iterate B h thin).bind fun _ _ h => bis_saveValues h k

theorem bis_run {s : FSamp μ d} {s' : FSamp ν d} (h : SampR R s s') (n burnin thin : ℕ) (init : List Dbl) :
    ORel (SampR R) (s.run M n burnin thin init) (s'.run M n burnin thin init) := by
  obtain ⟨cs, hc, rfl⟩ := h
  unfold FSamp.run
  refine (forall2_get hc _).bind ?_
  rintro p q ⟨t, ht, rfl⟩
  have hc2 := forall2_set hc s.tracked (a := p.setSampleSize n) (b := (⟨t, p.value, p.logpost, p.temp, p.samples, p.logposts⟩ : FPar ν).setSampleSize n)
    ⟨t, ht, rfl⟩
  refine ORel.same _ fun st => ?_
  refine (forall2_get hc2 _).bind ?_
  rintro p2 q2 ⟨t2, ht2, rfl⟩
  refine (bis_startLoop B _ (s := ⟨s.chains.set s.tracked (p.setSampleSize n), s.steps, s.tracked, s.rng⟩) ⟨_, hc2, rfl⟩ _).bind fun _ _ h => ?_
  exact (bis_iterate B h burnin).bind fun _ _ h => bis_sampleLoop B thin h n

end

/-! ### objects whose errors differ in sign only -/

section car1
variable {A : Arith} (hA : SignFree A)
include hA

theorem absCar1_ld (s s' : FCar1) (h : absCar1 s = absCar1 s') (θ : List Dbl) :
    ORel (fun a b => absCar1 a.1 = absCar1 b.1 ∧ a.2 = b.2) (FCar1.logDensity A s θ) (FCar1.logDensity A s' θ) := by
  have := ORel.of_map (show Except.map (fun r => (absCar1 r.1, r.2)) (FCar1.logDensity A s θ) = Except.map (fun r => (absCar1 r.1, r.2)) (FCar1.logDensity A s' θ) by
    rw [← absCar1_logDensity hA, h, absCar1_logDensity hA])
  simpa only [Prod.mk.injEq] using this

theorem absCar1_startFilter (s s' : FCar1) (h : absCar1 s = absCar1 s') (θ : List Dbl) :
    ORel (fun a b => absCar1 a = absCar1 b) (FCar1.startFilter A s θ) (FCar1.startFilter A s' θ) := by
  unfold FCar1.startFilter
  refine ORel.same _ fun sd => ORel.same _ fun sc => ORel.same _ fun mu => ORel.same _ fun lo => ?_
  have hy : s.y = s'.y := (congrArg FCar1.y h : _)
  have he : s.yerr.map Dbl.abs = s'.yerr.map Dbl.abs := (congrArg FCar1.yerr h : _)
  have hk : abs1 s.kf = abs1 s'.kf := (congrArg FCar1.kf h : _)
  refine (ORel.of_map (g := abs1) (h := abs1) ?_).bind fun a b hab => ?_
  · rw [← abs1_filter, ← abs1_filter]
    congr 1
    have h1 : s.kf.mean = s'.kf.mean := (congrArg FKF1.mean hk : _)
    have h2 : s.kf.var = s'.kf.var := (congrArg FKF1.var hk : _)
    have h3 : s.kf.time = s'.kf.time := (congrArg FKF1.time hk : _)
    have h4 : s.kf.dt = s'.kf.dt := (congrArg FKF1.dt hk : _)
    have h5 : s.kf.cur = s'.kf.cur := (congrArg FKF1.cur hk : _)
    have h6 : s.kf.yconst = s'.kf.yconst := (congrArg FKF1.yconst hk : _)
    have h7 : s.kf.yslope = s'.kf.yslope := (congrArg FKF1.yslope hk : _)
    simp only [abs1, h1, h2, h3, h4, h5, h6, h7, hy]
    rw [← abs_scaled hA, he, abs_scaled hA]
  · refine .ok ?_
    have q1 : s.time = s'.time := (congrArg FCar1.time h : _)
    have q2 : s.maxStdev = s'.maxStdev := (congrArg FCar1.maxStdev h : _)
    have q3 : s.maxFreq = s'.maxFreq := (congrArg FCar1.maxFreq h : _)
    have q4 : s.minFreq = s'.minFreq := (congrArg FCar1.minFreq h : _)
    simp only [absCar1, hab, q1, q2, q3, q4, hy, he]

theorem absCar1_start (s s' : FCar1) (h : absCar1 s = absCar1 s') (r : FRng) :
    ORel (fun a b => absCar1 a.1 = absCar1 b.1 ∧ a.2 = b.2) (FCar1.start A s r) (FCar1.start A s' r) := by
  unfold FCar1.start
  exact (absCar1_startFilter hA s s' h _).bind fun a b hab => .ok ⟨hab, rfl⟩

theorem bisimCar1 : Bisim FCar1 FCar1 A fun s s' => absCar1 s = absCar1 s' where
  ld := absCar1_ld hA
  stale s s' h θ := by
    show FCar1.staleDensity A s θ = FCar1.staleDensity A s' θ
    have hy : s.y = s'.y := (congrArg FCar1.y h : _)
    have ht : s.time = s'.time := (congrArg FCar1.time h : _)
    have hk : abs1 s.kf = abs1 s'.kf := (congrArg FCar1.kf h : _)
    have h1 : s.kf.mean = s'.kf.mean := (congrArg FKF1.mean hk : _)
    have h2 : s.kf.var = s'.kf.var := (congrArg FKF1.var hk : _)
    unfold FCar1.staleDensity
    rw [hy, ht, h1, h2]
  start := absCar1_start hA
  setStart s s' h i r := by
    show ORel _ (FCar1.setStart A s i r) (FCar1.setStart A s' i r)
    unfold FCar1.setStart
    by_cases hl : i.length ≠ 4
    · simp only [if_pos hl]
      exact absCar1_start hA s s' h r
    simp only [if_neg hl]
    refine (absCar1_ld hA s s' h i).bind ?_
    rintro ⟨a, v⟩ ⟨b, v'⟩ ⟨h1, h2⟩
    simp only at h1 h2
    subst h2
    by_cases hf : v.isFin
    · simp only [hf, not_true, if_false]
      exact (absCar1_startFilter hA a b h1 i).bind fun a b hab => .ok ⟨hab, rfl⟩
    · simp only [hf, not_false_iff, if_true]
      exact absCar1_start hA a b h1 r

end car1

theorem errSign_run1 {M : Mach} (hA : SignFree M.A) (srt : List Dbl → List ℕ) (n burnin : ℕ) (time y : List Dbl) {yerr yerr' : List Dbl}
    (he : yerr.map Dbl.abs = yerr'.map Dbl.abs) (thin : ℕ) (init : List Dbl) (r : FRng) :
    ORel (ParR fun s s' => absCar1 s = absCar1 s') (frunCar1 M srt n burnin time y yerr thin init r) (frunCar1 M srt n burnin time y yerr' thin init r) := by
  unfold frunCar1
  refine (ORel.of_map (g := absCar1) (h := absCar1) (by rw [← absCar1_new, ← absCar1_new, he])).bind fun o o' ho => ?_
  refine ORel.same _ fun l => ?_
  refine (bis_run (bisimCar1 hA) ⟨_, .cons ⟨o', ho, rfl⟩ .nil, rfl⟩ n burnin thin init).bind ?_
  rintro a b ⟨cs, hc, rfl⟩
  exact forall2_get hc 0

section carma
variable {p : ℕ}

theorem absCarP_fields {s s' : FCarP p} (h : absCarP s = absCarP s') : s' = { s with yerr := s'.yerr, kf := s'.kf } ∧
    s.yerr.map Dbl.abs = s'.yerr.map Dbl.abs ∧ absP s.kf = absP s'.kf := by
  refine ⟨?_, (congrArg FCarP.yerr h : _), (congrArg FCarP.kf h : _)⟩
  cases s
  cases s'
  simp only [absCarP, FCarP.mk.injEq] at h ⊢
  simp [h]

variable {C : CArith} (hA : SignFree C.r)
include hA

theorem absCarP_ld (s s' : FCarP p) (h : absCarP s = absCarP s') (θ : List Dbl) :
    ORel (fun a b => absCarP a.1 = absCarP b.1 ∧ a.2 = b.2) (FCarP.logDensity C s θ) (FCarP.logDensity C s' θ) := by
  have := ORel.of_map (show Except.map (fun r => (absCarP r.1, r.2)) (FCarP.logDensity C s θ) = Except.map (fun r => (absCarP r.1, r.2)) (FCarP.logDensity C s' θ) by
    rw [← absCarP_logDensity hA, h, absCarP_logDensity hA])
  simpa only [Prod.mk.injEq] using this

theorem absCarP_startFilter (s s' : FCarP p) (h : absCarP s = absCarP s') (θ : List Dbl) (roots : List CD) (ma : List Dbl) (sig : Dbl) :
    ORel (fun a b => absCarP a = absCarP b) (FCarP.startFilter C s θ roots ma sig) (FCarP.startFilter C s' θ roots ma sig) := by
  obtain ⟨h0, he, hk⟩ := absCarP_fields h
  have hy : s'.y = s.y := (congrArg FCarP.y h0 : _)
  have hkd : s'.kind = s.kind := (congrArg FCarP.kind h0 : _)
  have hma : s.kf.ma = s'.kf.ma := (congrArg FKFp.ma hk : _)
  have hin : s.kf.innov = s'.kf.innov := (congrArg FKFp.innov hk : _)
  have hb : abs1 s.kf.b = abs1 s'.kf.b := (congrArg FKFp.b hk : _)
  unfold FCarP.startFilter
  refine ORel.same _ fun sc => ORel.same _ fun mu => ?_
  have hs : s'.startMA ma = s.startMA ma := by
    unfold FCarP.startMA
    rw [hkd, hma]
  refine (ORel.of_map (g := absP) (h := absP) ?_).bind fun a b hab => ?_
  · rw [← absP_filter, ← absP_filter]
    congr 1
    have h1 : s.kf.b.mean = s'.kf.b.mean := (congrArg FKF1.mean hb : _)
    have h2 : s.kf.b.var = s'.kf.b.var := (congrArg FKF1.var hb : _)
    have h3 : s.kf.b.time = s'.kf.b.time := (congrArg FKF1.time hb : _)
    have h4 : s.kf.b.dt = s'.kf.b.dt := (congrArg FKF1.dt hb : _)
    have h5 : s.kf.b.cur = s'.kf.b.cur := (congrArg FKF1.cur hb : _)
    have h6 : s.kf.b.yconst = s'.kf.b.yconst := (congrArg FKF1.yconst hb : _)
    have h7 : s.kf.b.yslope = s'.kf.b.yslope := (congrArg FKF1.yslope hb : _)
    have h8 : s.kf.b.omega = s'.kf.b.omega := (congrArg FKF1.omega hb : _)
    simp only [FKFp.zeroed, absP, abs1, h1, h2, h3, h4, h5, h6, h7, h8, hy, hs, hin]
    rw [← abs_scaled hA, he, abs_scaled hA]
  · refine .ok ?_
    rw [h0]
    simp only [absCarP, hab, he]

theorem absCarP_startPass (s s' : FCarP p) (h : absCarP s = absCarP s') (θ : List Dbl) (v : Dbl) :
    ORel (fun a b => absCarP a.1 = absCarP b.1 ∧ a.2 = b.2) (FCarP.startPass C s θ v) (FCarP.startPass C s' θ v) := by
  have hm : FCarP.extractMA C s' θ = FCarP.extractMA C s θ := by rw [(absCarP_fields h).1]; rfl
  have hk : s'.kind = s.kind := by rw [(absCarP_fields h).1]
  unfold FCarP.startPass
  rw [hm]
  refine ORel.same _ fun ma => ORel.same _ fun roots => ?_
  simp only [hk]
  split_ifs
  · exact .ok ⟨h, rfl⟩
  · exact (absCarP_startFilter hA s s' h _ _ _ _).bind fun a b hab => absCarP_ld hA a b hab θ

theorem absCarP_start : ∀ (fuel : ℕ) (s s' : FCarP p), absCarP s = absCarP s' → ∀ r : FRng,
    ORel (fun a b => absCarP a.1 = absCarP b.1 ∧ a.2 = b.2) (FCarP.start C fuel s r) (FCarP.start C fuel s' r)
  | 0, _, _, _, _ => .err _
  | fuel + 1, s, s', h, r => by
    unfold FCarP.start
    refine (absCarP_startPass hA s s' h _ _).bind ?_
    rintro ⟨a, v⟩ ⟨b, v'⟩ ⟨h1, h2⟩
    simp only at h1 h2
    subst h2
    by_cases hf : v.isFin
    · simp only [hf, if_true]
      exact .ok ⟨h1, rfl⟩
    · simp only [hf]
      exact absCarP_start fuel a b h1 _

theorem absCarP_setStart (fuel : ℕ) (s s' : FCarP p) (h : absCarP s = absCarP s') (i : List Dbl) (r : FRng) :
    ORel (fun a b => absCarP a.1 = absCarP b.1 ∧ a.2 = b.2) (FCarP.setStart C fuel s i r) (FCarP.setStart C fuel s' i r) := by
  have hk : s'.kind = s.kind := by rw [(absCarP_fields h).1]
  unfold FCarP.setStart
  rw [hk]
  by_cases hl : i.length ≠ CarP.thetaLen p s.kind
  · simp only [if_pos hl]
    exact absCarP_start hA fuel s s' h r
  simp only [if_neg hl]
  refine (absCarP_ld hA s s' h i).bind ?_
  rintro ⟨a, v⟩ ⟨b, v'⟩ ⟨h1, h2⟩
  simp only at h1 h2
  subst h2
  by_cases hf : v.isFin
  · simp only [hf, not_true, if_false]
    have hm : FCarP.extractMA C b i = FCarP.extractMA C a i := by rw [(absCarP_fields h1).1]; rfl
    rw [hm]
    exact ORel.same _ fun s0 => ORel.same _ fun roots => ORel.same _ fun ma => (absCarP_startFilter hA a b h1 _ _ _ _).bind fun a b hab => .ok ⟨hab, rfl⟩
  · simp only [hf, not_false_iff, if_true]
    exact absCarP_start hA fuel a b h1 r

omit hA in
theorem absCarP_stale (s s' : FCarP p) (h : absCarP s = absCarP s') (θ : List Dbl) : FCarP.staleDensity C s θ = FCarP.staleDensity C s' θ := by
  have hb : abs1 s.kf.b = abs1 s'.kf.b := (congrArg FKFp.b (absCarP_fields h).2.2 : _)
  have h1 : s.kf.b.mean = s'.kf.b.mean := (congrArg FKF1.mean hb : _)
  have h2 : s.kf.b.var = s'.kf.b.var := (congrArg FKF1.var hb : _)
  unfold FCarP.staleDensity
  rw [h1, h2, (absCarP_fields h).1]
  rfl

omit hA in
theorem bisimWalk {A : Arith} (hA : SignFree A) (fuel : ℕ) : Bisim (FWalk C p fuel) (FWalk C p fuel) A fun w w' => absCarP w.o = absCarP w'.o where
  ld w w' h θ := (absCarP_ld (C := { C with r := A }) hA w.o w'.o h θ).bind fun _ _ hab => .ok hab
  stale w w' h θ := absCarP_stale (C := { C with r := A }) w.o w'.o h θ
  start w w' h r := (absCarP_start (C := { C with r := A }) hA fuel w.o w'.o h r).bind fun _ _ hab => .ok hab
  setStart w w' h i r := (absCarP_setStart (C := { C with r := A }) hA fuel w.o w'.o h i r).bind fun _ _ hab => .ok hab

omit hA in
theorem bis_ensemble (fuel : ℕ) (srt : List Dbl → List ℕ) (time y : List Dbl) {yerr yerr' : List Dbl} (he : yerr.map Dbl.abs = yerr'.map Dbl.abs) (kind : Kind)
    (B : Dbl) (n : ℕ) : ∀ m, ORel (List.Forall₂ (ParR fun w w' : FWalk C p fuel => absCarP w.o = absCarP w'.o)) (fensemble C fuel srt time y yerr p kind B n m)
      (fensemble C fuel srt time y yerr' p kind B n m)
  | 0 => .ok .nil
  | m + 1 => by
    unfold fensemble
    refine (bis_ensemble fuel srt time y he kind B n m).bind fun l l' hl => ?_
    refine (ORel.of_map (g := absCarP) (h := absCarP) (by rw [← absCarP_new, ← absCarP_new, he])).bind fun o o' ho => ?_
    exact .ok (List.rel_append hl (.cons ⟨⟨o'⟩, ho, rfl⟩ .nil))

end carma

theorem errSign_runP (C : CArith) {M : Mach} (hA : SignFree M.A) (fuel : ℕ) (srt : List Dbl → List ℕ) (n burnin : ℕ) (time y : List Dbl)
    {yerr yerr' : List Dbl} (he : yerr.map Dbl.abs = yerr'.map Dbl.abs) (p q nw : ℕ) (z : Bool) (thin : ℕ) (init : List Dbl) (r : FRng) :
    ORel (ParR fun w w' : FWalk C p fuel => absCarP w.o = absCarP w'.o) (frunCarma C M fuel srt n burnin time y yerr p q nw z thin init r)
      (frunCarma C M fuel srt n burnin time y yerr' p q nw z thin init r) := by
  unfold frunCarma
  refine (bis_ensemble fuel srt time y he _ _ _ _).bind fun cs cs' hc => ?_
  refine ORel.same _ fun l => ?_
  refine (forall2_get hc 0).bind fun _ _ _ => ?_
  refine (bis_run (bisimWalk hA fuel) ⟨_, hc, rfl⟩ n burnin thin init).bind ?_
  rintro a b ⟨cs, hc, rfl⟩
  exact forall2_get hc 0

/-- what is recorded is the same -/
theorem recorded_same {μ ν : Type} {R : μ → ν → Prop} {x : Res (FPar μ)} {y : Res (FPar ν)} (h : ORel (ParR R) x y) :
    Except.map recorded x = Except.map recorded y := by
  rcases h with ⟨f, rfl, rfl⟩ | ⟨a, b, rfl, rfl, t, -, rfl⟩
  · rfl
  · rfl

end Verif.Theory
