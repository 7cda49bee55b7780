import Verif.Theory.Run

/-!
The samplers built by the two run functions.
-/

namespace Verif.Theory

open Verif.Model Verif.Spec

variable {μ : Type} {d : ℕ}

theorem addStep_inv {s s' : Samp μ d} {st : StepSt d} (h : s.addStep st = .ok s') :
    ∃ p, s.chains[st.chain]? = some p ∧ s'.chains = s.chains ∧ s'.rng = s.rng ∧ s'.steps = s.steps ++ [st] ∧
      (p.track = false → s'.tracked = s.tracked) ∧
      (p.track = true → s'.tracked = Samp.insertTracked s.tracked p.label st.chain) := by
  unfold Samp.addStep at h
  obtain ⟨p, h1, h⟩ := bind_ok_inv h
  refine ⟨p, rdU_inv h1, ?_⟩
  injection h with h
  rw [← h]
  cases hp : p.track <;> simp

/-- The steps of the tempered chains `m..1`. -/
def tempered (a : Ram d) (report : ℤ) : ℕ → List (StepSt d)
  | 0 => []
  | m + 1 => .ram (m + 1) a :: .exch { idx := m + 1, reportIter := report, niter := 0, naccept := 0, alpha := .nan } :: tempered a report m

theorem temperedSteps_inv {covar : Matrix (Fin d) (Fin d) ℝ} {burnin : ℕ} {report : ℤ} {m : ℕ} {s s' : Samp μ d}
    (hp : ∀ p ∈ s.chains, p.track = false) (h : temperedSteps covar burnin report m s = .ok s') :
    s'.chains = s.chains ∧ s'.rng = s.rng ∧ s'.tracked = s.tracked ∧ (∀ i, 1 ≤ i → i ≤ m → i < s.chains.length) ∧
    ∀ a, Ram.new covar 0.25 burnin = .ok a → s'.steps = s.steps ++ tempered a report m := by
  induction m generalizing s with
  | zero => cases h; exact ⟨rfl, rfl, rfl, by omega, fun a _ => by simp [tempered]⟩
  | succ m ih =>
      obtain ⟨a, h1, h⟩ := bind_ok_inv h
      obtain ⟨s1, h2, h⟩ := bind_ok_inv h
      obtain ⟨s2, h3, h⟩ := bind_ok_inv h
      obtain ⟨p1, a1, a2, a3, a4, a5, -⟩ := addStep_inv h2
      obtain ⟨p2, b1, b2, b3, b4, b5, -⟩ := addStep_inv h3
      have a5 := a5 (hp _ (List.mem_of_getElem? a1))
      have b5 := b5 (hp _ (by rw [← a2]; exact List.mem_of_getElem? b1))
      have hc := b2.trans a2
      obtain ⟨c1, c2, c3, c4, c5⟩ := ih (by rw [hc]; exact hp) h
      refine ⟨c1.trans hc, c2.trans (b3.trans a3), c3.trans (b5.trans a5), fun i h1 hi => ?_, fun a' ha' => ?_⟩
      · rcases Nat.lt_succ_iff_lt_or_eq.mp (Nat.lt_succ_of_le hi) with hi | rfl
        · rw [← hc]; exact c4 i h1 (by omega)
        · exact (List.getElem?_eq_some_iff.mp a1).1
      · rw [ha'] at h1
        injection h1 with h1
        subst h1
        rw [c5 a' ha', b4, a4]
        simp [tempered]

theorem ensemble_inv {srt : List ℝ → List ℕ} {time y yerr : List ℝ} {p q n : ℕ} {z : Bool} {sd : ℝ} {m : ℕ}
    {l : List (Par (CarP p))} (h : ensemble srt time y yerr p q n z sd m = .ok l) :
    l.length = m ∧ ∀ i c, l[i]? = some c → ∃ o b, CarP.new (runKind q z) p srt time y yerr = .ok o ∧ o.b.setPrior sd = .ok b ∧
      c = Par.new { o with b := b } (CarP.thetaLen p (runKind q z)) (temperature n i) (runLabel q z) false := by
  induction m generalizing l with
  | zero => cases h; exact ⟨rfl, by simp⟩
  | succ m ih =>
      obtain ⟨l', h1, h⟩ := bind_ok_inv h
      obtain ⟨o, h2, h⟩ := bind_ok_inv h
      obtain ⟨b, h3, h⟩ := bind_ok_inv h
      cases h
      obtain ⟨a1, a2⟩ := ih h1
      refine ⟨by simp [a1], fun i c hc => ?_⟩
      rcases lt_trichotomy i m with hi | rfl | hi
      · rw [List.getElem?_append_left (by omega)] at hc
        exact a2 i c hc
      · rw [List.getElem?_append_right (by omega), a1] at hc
        simp only [Nat.sub_self, List.getElem?_cons_zero, Option.some.injEq] at hc
        exact ⟨o, b, h2, h3, hc.symm⟩
      · rw [List.getElem?_eq_none (by simp; omega)] at hc
        cases hc

/-- Everything about the sampler built by `RunCarmaSampler`. -/
structure CarmaBuilt (srt : List ℝ → List ℕ) (N burnin : ℕ) (time y yerr : List ℝ) (p q n : ℕ) (z : Bool) (thin : ℕ) (r : Rng)
    (s : Samp (CarP p) (nParams p q z)) : Prop where
  pos : 1 ≤ n
  length : s.chains.length = n
  chain : ∃ var o b, popVar y = .ok var ∧ CarP.new (runKind q z) p srt time y yerr = .ok o ∧ o.b.setPrior (10 * √var) = .ok b ∧
    ∀ i c, s.chains[i]? = some c → c = Par.new { o with b := b } (CarP.thetaLen p (runKind q z)) (temperature n i) (runLabel q z)
      (decide (i = 0))
  steps : ∃ var a, popVar y = .ok var ∧ Ram.new (propCovar (nParams p q z) var y.length) 0.25 burnin = .ok a ∧
    s.steps = tempered a (burnin + thin * N) (n - 1) ++ [.ram 0 a]
  tracked : s.tracked = [(runLabel q z, 0)]
  rng : s.rng = r

theorem carmaSampler_inv {srt : List ℝ → List ℕ} {N burnin : ℕ} {time y yerr : List ℝ} {p q n : ℕ} {z : Bool} {thin : ℕ} {r : Rng}
    {s : Samp (CarP p) (nParams p q z)} (h : carmaSampler srt N burnin time y yerr p q n z thin r = .ok s) :
    CarmaBuilt srt N burnin time y yerr p q n z thin r s := by
  unfold carmaSampler at h
  obtain ⟨var, h1, h⟩ := bind_ok_inv h
  obtain ⟨chains, h2, h⟩ := bind_ok_inv h
  obtain ⟨s1, h3, h⟩ := bind_ok_inv h
  obtain ⟨c0, h4, h⟩ := bind_ok_inv h
  obtain ⟨a, h5, h⟩ := bind_ok_inv h
  obtain ⟨e1, e2⟩ := ensemble_inv h2
  have hun : ∀ c ∈ chains, c.track = false := by
    intro c hc
    obtain ⟨i, hi⟩ := List.mem_iff_getElem?.mp hc
    obtain ⟨o, b, -, -, rfl⟩ := e2 i c hi
    rfl
  obtain ⟨f1, f2, f3, f4, f5⟩ := temperedSteps_inv (s := ⟨chains, [], [], r⟩) hun h3
  have h4 := rdU_inv h4
  rw [f1] at h4
  obtain ⟨p', g1, g2, g3, g4, -, g6⟩ := addStep_inv h
  obtain ⟨o, b, o1, o2, rfl⟩ := e2 0 c0 h4
  have hn : 0 < chains.length := (List.getElem?_eq_some_iff.mp h4).1
  have hp' : p' = (Par.new { o with b := b } (CarP.thetaLen p (runKind q z)) (temperature n 0) (runLabel q z) false).setTracking true := by
    have g1 : (s1.chains.set 0 _)[0]? = some p' := g1
    rw [f1, List.getElem?_set_self', h4] at g1
    injection (g1 : some _ = some p') with g1
    exact g1.symm
  refine ⟨by omega, by rw [g2]; simp [f1, e1], ⟨var, o, b, h1, o1, o2, fun i c hc => ?_⟩, ⟨var, a, h1, h5, ?_⟩, ?_, g3.trans f2⟩
  · rw [g2] at hc
    have hc : (s1.chains.set 0 _)[i]? = some c := hc
    rw [f1] at hc
    by_cases hi : i = 0
    · subst hi
      rw [List.getElem?_set_self', h4] at hc
      injection (hc : some _ = some c) with hc
      rw [← hc]; rfl
    · rw [List.getElem?_set_ne (by omega)] at hc
      obtain ⟨o', b', q1, q2, rfl⟩ := e2 i c hc
      rw [o1] at q1
      injection q1 with q1
      subst q1
      rw [o2] at q2
      injection q2 with q2
      subst q2
      simp [hi]
  · rw [g4, f5 a h5]; rfl
  · rw [g6 (by rw [hp']; rfl), hp', f3]
    rfl

/-- Everything about the sampler built by `RunCar1Sampler`. -/
structure Car1Built (srt : List ℝ → List ℕ) (burnin : ℕ) (time y yerr : List ℝ) (r : Rng) (s : Samp Car1 4) : Prop where
  chain : ∃ var o b, popVar y = .ok var ∧ Car1.new srt time y yerr = .ok o ∧ o.b.setPrior (10 * √var) = .ok b ∧
    s.chains = [Par.new { o with b := b } 4 1 "CAR(1)" true]
  steps : ∃ var a, popVar y = .ok var ∧ Ram.new (propCovar 4 var y.length) 0.25 burnin = .ok a ∧ s.steps = [.ram 0 a]
  tracked : s.tracked = [("CAR(1)", 0)]
  rng : s.rng = r

theorem car1Sampler_inv {srt : List ℝ → List ℕ} {burnin : ℕ} {time y yerr : List ℝ} {r : Rng} {s : Samp Car1 4}
    (h : car1Sampler srt burnin time y yerr r = .ok s) : Car1Built srt burnin time y yerr r s := by
  unfold car1Sampler at h
  obtain ⟨var, h1, h⟩ := bind_ok_inv h
  obtain ⟨o, h2, h⟩ := bind_ok_inv h
  obtain ⟨b, h3, h⟩ := bind_ok_inv h
  obtain ⟨a, h5, h⟩ := bind_ok_inv h
  obtain ⟨p', g1, g2, g3, g4, -, g6⟩ := addStep_inv h
  have hp' : p' = Par.new { o with b := b } 4 1 "CAR(1)" true := by
    injection (g1 : some _ = some p') with g1
    exact g1.symm
  refine ⟨⟨var, o, b, h1, h2, h3, g2⟩, ⟨var, a, h1, h5, by rw [g4]; rfl⟩, ?_, g3⟩
  rw [g6 (by rw [hp']; rfl), hp']
  rfl

theorem tempered_kind (a : Ram d) (report : ℤ) (m : ℕ) :
    (tempered a report m ++ [StepSt.ram 0 a]).map stepKind = stepOrder m := by
  induction m with
  | zero => rfl
  | succ m ih => simp only [tempered, List.cons_append, List.map_cons, ih]; rfl

theorem stepOrder_mem (m i : ℕ) (hi : i ≤ m) : (true, i) ∈ stepOrder m := by
  induction m with
  | zero => obtain rfl : i = 0 := by omega
            simp [stepOrder]
  | succ m ih =>
      by_cases h : i = m + 1
      · subst h; simp [stepOrder]
      · have := ih (by omega)
        simp [stepOrder, this]

theorem stepOrder_le (m : ℕ) {b : Bool} {i : ℕ} (h : (b, i) ∈ stepOrder m) : i ≤ m ∧ (b = false → 1 ≤ i) := by
  induction m with
  | zero => simp [stepOrder] at h; simp [h]
  | succ m ih =>
      simp only [stepOrder, List.mem_cons, Prod.mk.injEq] at h
      rcases h with ⟨rfl, rfl⟩ | ⟨rfl, rfl⟩ | h
      · simp
      · simp
      · exact ⟨by have := (ih h).1; omega, (ih h).2⟩

/-- Every RAM step of the stack is a new object. -/
theorem tempered_fresh {a : Ram d} {report : ℤ} {m : ℕ} {st : StepSt d} (h : st ∈ tempered a report m ++ [.ram 0 a]) :
    (∃ i, st = .ram i a) ∨ ∃ i, st = .exch { idx := i, reportIter := report, niter := 0, naccept := 0, alpha := .nan } := by
  induction m with
  | zero => simp [tempered] at h; exact Or.inl ⟨0, h⟩
  | succ m ih =>
      simp only [tempered, List.cons_append, List.mem_cons] at h
      rcases h with rfl | rfl | h
      · exact Or.inl ⟨_, rfl⟩
      · exact Or.inr ⟨_, rfl⟩
      · exact ih h

/-! ### the targets of the two run functions -/

theorem pure_car1 (o : Car1) : HistoryFree Car1 (Car1.Core o) (fun θ => (logDensity o θ).map Prod.snd) where
  ld a θ a' v ha h := by
    have := Car1.cored.density ha θ
    rw [show logDensity a θ = .ok (a', v) from h] at this
    cases hx : logDensity o θ with
    | error f => rw [hx] at this; exact this.elim
    | ok b =>
        rw [hx] at this
        exact ⟨Car1.cored.trans _ _ _ ha this.2.1, by simp [Except.map, this.2.2]⟩
  start fuel a r a' θ r' ha h :=
    Car1.cored.trans _ _ _ ha (Car1.start_core (Car1.cored.left (Car1.cored.symm _ _ ha)) h)
  setStart fuel a init r a' θ r' ha h :=
    Car1.cored.trans _ _ _ ha (Car1.setStart_core (Car1.cored.left (Car1.cored.symm _ _ ha)) h)

theorem pure_carp {p : ℕ} (o : CarP p) :
    HistoryFree (CarP p) (CarP.Core o) (fun θ => (logDensity o θ).map Prod.snd) where
  ld a θ a' v ha h := by
    have := CarP.cored.density ha θ
    rw [show logDensity a θ = .ok (a', v) from h] at this
    cases hx : logDensity o θ with
    | error f => rw [hx] at this; exact this.elim
    | ok b =>
        rw [hx] at this
        exact ⟨CarP.cored.trans _ _ _ ha this.2.1, by simp [Except.map, this.2.2]⟩
  start fuel a r a' θ r' ha h :=
    CarP.cored.trans _ _ _ ha (CarP.start_core fuel (CarP.cored.left (CarP.cored.symm _ _ ha)) h).1
  setStart fuel a init r a' θ r' ha h :=
    CarP.cored.trans _ _ _ ha (CarP.setStart_core fuel (CarP.cored.left (CarP.cored.symm _ _ ha)) h).1

/-! ### lengths of starting values -/

theorem logaLoop_length {c w l : List ℝ} {k : ℕ} (h : CarP.logaLoop c w k = .ok l) : l.length = 2 * k := by
  induction k generalizing l with
  | zero => cases h; rfl
  | succ k ih =>
      obtain ⟨l', h1, h⟩ := bind_ok_inv h
      obtain ⟨_, -, h⟩ := bind_ok_inv h
      obtain ⟨_, -, h⟩ := bind_ok_inv h
      obtain ⟨_, -, h⟩ := bind_ok_inv h
      obtain ⟨_, -, h⟩ := bind_ok_inv h
      cases h
      simp [ih h1]; omega

theorem logaOf_length {p : ℕ} {c w l : List ℝ} (h : CarP.logaOf p c w = .ok l) : l.length = p := by
  unfold CarP.logaOf at h
  obtain ⟨l', h1, h⟩ := bind_ok_inv h
  have := logaLoop_length h1
  split at h
  · obtain ⟨_, -, h⟩ := bind_ok_inv h
    obtain ⟨_, -, h⟩ := bind_ok_inv h
    cases h
    simp; omega
  · cases h; omega

theorem startAR_length {p : ℕ} {b : CarBase} {r r' : Rng} {l : List ℝ} (h : CarP.startAR p b r = .ok (l, r')) : l.length = p := by
  unfold CarP.startAR at h
  obtain ⟨⟨c, w, r1⟩, -, h⟩ := bind_ok_inv h
  obtain ⟨l', h1, h⟩ := bind_ok_inv h
  cases h
  exact logaOf_length h1

theorem startExtra_length {p : ℕ} {kind : Kind} {r r' : Rng} {l : List ℝ} (h : CarP.startExtra kind r = .ok (some l, r')) :
    p + l.length + 3 = CarP.thetaLen p kind := by
  cases kind with
  | carp => cases h; rfl
  | zcar => cases h; rfl
  | carma q =>
      simp only [CarP.startExtra] at h
      split at h
      · cases h
      · injection h with h
        injection h with h _
        injection h with h
        rw [← h]
        simp [Rng.vecN, CarP.thetaLen]
  | zcarma =>
      simp only [CarP.startExtra] at h
      split at h
      · injection h with h; injection h with h _; cases h
      · injection h with h
        injection h with h _
        injection h with h
        rw [← h]
        simp [CarP.thetaLen]

theorem startTail_length {p : ℕ} {s s' : CarP p} {loga extra ma θ : List ℝ} {sd mu v : ℝ} {r r' : Rng} {lp : Dbl}
    (h : s.startTail loga extra ma sd mu v r = .ok (s', θ, lp, r')) : θ.length = loga.length + extra.length + 3 := by
  unfold CarP.startTail at h
  obtain ⟨_, -, h⟩ := bind_ok_inv h
  obtain ⟨_, -, h⟩ := bind_ok_inv h
  obtain ⟨_, -, h⟩ := bind_ok_inv h
  obtain ⟨_, -, h⟩ := bind_ok_inv h
  injection h with h
  injection h with _ h
  injection h with h _
  rw [← h]
  simp

theorem startPass_length {p : ℕ} {s s' : CarP p} {θ : List ℝ} {r r' : Rng} {lp : Dbl}
    (h : s.startPass r = .ok (s', θ, lp, r')) (hl : lp.isFin) : θ.length = CarP.thetaLen p s.kind := by
  unfold CarP.startPass at h
  obtain ⟨⟨loga, r2⟩, h1, h⟩ := bind_ok_inv h
  obtain ⟨⟨extra, r3⟩, h2, h⟩ := bind_ok_inv h
  have e1 := startAR_length h1
  dsimp only at h
  split at h
  · injection h with h
    injection h with _ h
    injection h with _ h
    injection h with h _
    rw [← h] at hl
    cases hl
  · have e2 := startExtra_length (p := p) h2
    obtain ⟨_, -, h⟩ := bind_ok_inv h
    obtain ⟨_, -, h⟩ := bind_ok_inv h
    obtain ⟨_, -, h⟩ := bind_ok_inv h
    obtain ⟨_, -, h⟩ := bind_ok_inv h
    split at h
    · rw [startTail_length h]; omega
    · split at h
      · injection h with h
        injection h with _ h
        injection h with _ h
        injection h with h _
        rw [← h] at hl
        cases hl
      · rw [startTail_length h]; omega
    · cases h

theorem start_length {p : ℕ} {fuel : ℕ} {s s' : CarP p} (hs : CarP.Core s s) {θ : List ℝ} {r r' : Rng}
    (h : CarP.start fuel s r = .ok (s', θ, r')) : θ.length = CarP.thetaLen p s.kind := by
  induction fuel generalizing s r with
  | zero => cases h
  | succ n ih =>
      unfold CarP.start at h
      obtain ⟨⟨s1, θ1, lp, r1⟩, h1, h⟩ := bind_ok_inv h
      dsimp only at h
      split at h
      · rename_i hl
        injection h with h
        injection h with _ h
        injection h with h _
        rw [← h]
        exact startPass_length h1 hl
      · have hc := (CarP.startPass_core hs h1).core
        rw [hc.kind]
        exact ih (CarP.cored.left (CarP.cored.symm _ _ hc)) h

theorem setStart_length {p : ℕ} {fuel : ℕ} {s s' : CarP p} (hs : CarP.Core s s) {init θ : List ℝ} {r r' : Rng}
    (h : CarP.setStart fuel s init r = .ok (s', θ, r')) : θ.length = CarP.thetaLen p s.kind := by
  unfold CarP.setStart at h
  split at h
  · exact start_length hs h
  · rename_i hlen
    obtain ⟨⟨s1, lp⟩, h1, h⟩ := bind_ok_inv h
    dsimp only at h
    split at h
    · have hd := CarP.cored.density hs init
      rw [h1] at hd
      rw [hd.1.kind]
      exact start_length (CarP.cored.left (CarP.cored.symm _ _ hd.1)) h
    · obtain ⟨_, -, h⟩ := bind_ok_inv h
      obtain ⟨_, -, h⟩ := bind_ok_inv h
      obtain ⟨_, -, h⟩ := bind_ok_inv h
      obtain ⟨_, -, h⟩ := bind_ok_inv h
      obtain ⟨_, -, h⟩ := bind_ok_inv h
      obtain ⟨_, -, h⟩ := bind_ok_inv h
      obtain ⟨_, -, h⟩ := bind_ok_inv h
      injection h with h
      injection h with _ h
      injection h with h _
      rw [← h]
      exact not_not.mp hlen

theorem car1_start_length {s s' : Car1} {θ : List ℝ} {r r' : Rng} (h : s.start r = .ok (s', θ, r')) : θ.length = 4 := by
  unfold Car1.start at h
  obtain ⟨_, -, h⟩ := bind_ok_inv h
  obtain ⟨_, -, h⟩ := bind_ok_inv h
  obtain ⟨_, -, h⟩ := bind_ok_inv h
  obtain ⟨_, -, h⟩ := bind_ok_inv h
  obtain ⟨_, -, h⟩ := bind_ok_inv h
  obtain ⟨_, -, h⟩ := bind_ok_inv h
  obtain ⟨_, -, h⟩ := bind_ok_inv h
  obtain ⟨_, -, h⟩ := bind_ok_inv h
  injection h with h
  injection h with _ h
  injection h with h _
  rw [← h]
  rfl

theorem car1_setStart_length {s s' : Car1} {init θ : List ℝ} {r r' : Rng} (h : s.setStart init r = .ok (s', θ, r')) :
    θ.length = 4 := by
  unfold Car1.setStart at h
  split at h
  · exact car1_start_length h
  · rename_i hlen
    obtain ⟨⟨s1, lp⟩, h1, h⟩ := bind_ok_inv h
    dsimp only at h
    split at h
    · exact car1_start_length h
    · obtain ⟨_, -, h⟩ := bind_ok_inv h
      obtain ⟨_, -, h⟩ := bind_ok_inv h
      obtain ⟨_, -, h⟩ := bind_ok_inv h
      obtain ⟨_, -, h⟩ := bind_ok_inv h
      obtain ⟨_, -, h⟩ := bind_ok_inv h
      injection h with h
      injection h with _ h
      injection h with h _
      rw [← h]
      exact not_not.mp hlen

/-- The parameter vector of a run has as many elements as the proposal covariance has rows. -/
theorem thetaLen_runKind (p q : ℕ) (z : Bool) : CarP.thetaLen p (runKind q z) = nParams p q z := by
  unfold runKind nParams
  cases z
  · by_cases h : q = 0
    · subst h; simp [CarP.thetaLen]; omega
    · simp [h, CarP.thetaLen]; omega
  · simp [CarP.thetaLen]; omega

/-! ### every chain after the starting values and any number of sweeps -/

/-- What holds for each chain of a CARMA run at any time. -/
structure Sound {p : ℕ} (o : CarP p) (d : ℕ) (c : Par (CarP p)) : Prop where
  core : CarP.Core o c.obj
  valued : (logDensity o c.value).map Prod.snd = .ok c.logpost
  fin : c.logpost.isFin
  len : c.value.length = d

theorem carp_start_ok {p : ℕ} {o a a' : CarP p} (ha : CarP.Core o a) {fuel : ℕ} {init : Option (List ℝ)} {r r' : Rng} {θ : List ℝ}
    {lp : Dbl} (h : startCall fuel init a r = .ok (a', θ, r')) (hl : (logDensity o θ).map Prod.snd = .ok lp) :
    lp.isFin ∧ θ.length = CarP.thetaLen p o.kind := by
  have hr := CarP.cored.left (CarP.cored.symm _ _ ha)
  have key : (∃ s₀ s₁ lp, CarP.Core a s₀ ∧ logDensity s₀ θ = .ok (s₁, lp) ∧ lp.isFin) ∧ θ.length = CarP.thetaLen p a.kind := by
    cases init with
    | none => exact ⟨(CarP.start_core fuel hr h).2, start_length hr h⟩
    | some i => exact ⟨(CarP.setStart_core fuel hr h).2, setStart_length hr h⟩
  obtain ⟨⟨s₀, s₁, lp', h1, h2, h3⟩, h4⟩ := key
  have hc := CarP.cored.trans _ _ _ ha h1
  have := (pure_carp o).ld s₀ θ s₁ lp' hc h2
  rw [hl] at this
  injection this.2 with this
  rw [this, ha.kind]
  exact ⟨h3, h4⟩

/-- The object put into the chains by `RunCarmaSampler`. -/
theorem built_core {kind : Kind} {p : ℕ} {srt : List ℝ → List ℕ} {time y yerr : List ℝ} {o : CarP p} {b : CarBase}
    (h : CarP.new kind p srt time y yerr = .ok o) : CarP.Core { o with b := b } { o with b := b } := by
  have := CarP.new_fresh h
  exact ⟨rfl, rfl, rfl, rfl, rfl, rfl, rfl, rfl, rfl, this.mlen, this.mlen, this.vlen, this.vlen⟩

theorem newCarp_config {p : ℕ} {srt : List ℝ → List ℕ} {time y yerr : List ℝ} {o : CarP p}
    (h : CarP.newCarp p srt time y yerr = .ok o) : o.kind = .carp ∧ o.orderLor = true ∧ CarBase.new time y yerr = .ok o.b := by
  unfold CarP.newCarp at h
  obtain ⟨b, h1, h⟩ := bind_ok_inv h
  obtain ⟨kf, h2, h⟩ := bind_ok_inv h
  split at h
  · cases h
  · injection h with h
    rw [← h]
    exact ⟨rfl, rfl, h1⟩

theorem new_config {kind : Kind} {p : ℕ} {srt : List ℝ → List ℕ} {time y yerr : List ℝ} {o : CarP p}
    (h : CarP.new kind p srt time y yerr = .ok o) : o.kind = kind ∧ o.orderLor = true ∧ CarBase.new time y yerr = .ok o.b := by
  cases kind with
  | carp => exact newCarp_config h
  | zcar =>
      unfold CarP.new CarP.newZcar at h
      obtain ⟨s, hs, h⟩ := bind_ok_inv h
      obtain ⟨_, -, h⟩ := bind_ok_inv h
      obtain ⟨_, -, h⟩ := bind_ok_inv h
      obtain ⟨_, -, h⟩ := bind_ok_inv h
      injection h with h
      rw [← h]
      exact ⟨rfl, (newCarp_config hs).2⟩
  | carma q =>
      unfold CarP.new CarP.newCarma at h
      obtain ⟨s, hs, h⟩ := bind_ok_inv h
      injection h with h
      rw [← h]
      exact ⟨rfl, (newCarp_config hs).2⟩
  | zcarma =>
      unfold CarP.new CarP.newZcarma at h
      obtain ⟨s, hs, h⟩ := bind_ok_inv h
      obtain ⟨_, -, h⟩ := bind_ok_inv h
      obtain ⟨_, -, h⟩ := bind_ok_inv h
      obtain ⟨_, -, h⟩ := bind_ok_inv h
      obtain ⟨_, -, h⟩ := bind_ok_inv h
      obtain ⟨_, -, h⟩ := bind_ok_inv h
      injection h with h
      rw [← h]
      exact ⟨rfl, (newCarp_config hs).2⟩

theorem SampRec.of_same {s t : Samp μ d} (h : SameState s t) : SampRec s t := by
  refine ⟨?_, h.steps.symm, h.tracked.symm, h.rng.symm⟩
  obtain ⟨h1, h2, h3, h4, h5, h6, -, -, -⟩ := h
  generalize s.chains = l at *
  generalize t.chains = l' at *
  induction l generalizing l' with
  | nil =>
      rw [List.map_nil, List.map_eq_nil_iff] at h1
      rw [h1]
      exact .nil
  | cons a l ih =>
      cases l' with
      | nil => simp at h1
      | cons b l' =>
          simp only [List.map_cons, List.cons.injEq] at h1 h2 h3 h4 h5 h6
          refine .cons ⟨b.samples, b.logposts, ?_⟩ (ih l' h1.2 h2.2 h3.2 h4.2 h5.2 h6.2)
          obtain ⟨_, _, _, _, _, _, _, _⟩ := a
          obtain ⟨_, _, _, _, _, _, _, _⟩ := b
          simp only at h1 h2 h3 h4 h5 h6
          simp [Verif.Theory.rec, h1.1, h2.1, h3.1, h4.1, h5.1, h6.1]

theorem carma_sound {srt : List ℝ → List ℕ} {N burnin : ℕ} {time y yerr : List ℝ} {p q n : ℕ} {z : Bool} {thin : ℕ} {r : Rng}
    {s : Samp (CarP p) (nParams p q z)} (hb : CarmaBuilt srt N burnin time y yerr p q n z thin r s)
    {s0 s1 t : Samp (CarP p) (nParams p q z)} (h0 : SampRec s s0) {fuel : ℕ} {init : Option (List ℝ)}
    (h1 : s0.startLoop fuel init s0.steps.length = .ok s1) {k : ℕ} (h2 : s1.iterate k = .ok t) :
    (∃ var o b, popVar y = .ok var ∧ CarP.new (runKind q z) p srt time y yerr = .ok o ∧ o.b.setPrior (10 * √var) = .ok b ∧
      ∀ c ∈ t.chains, Sound { o with b := b } (nParams p q z) c) ∧
    t.tracked = s.tracked ∧ t.chains.map (fun c => (c.temp, c.label, c.track)) = s.chains.map (fun c => (c.temp, c.label, c.track)) := by
  obtain ⟨var, o, b, hv, ho, hp, hc⟩ := hb.chain
  set o' : CarP p := { o with b := b } with ho'
  have hcore : CarP.Core o' o' := built_core ho
  have hkind : o'.kind = runKind q z := by
    show o.kind = _
    exact (new_config ho).1
  have hinv0 : ∀ c ∈ s0.chains, CarP.Core o' c.obj := by
    intro c hcm
    obtain ⟨i, hi⟩ := List.mem_iff_getElem?.mp hcm
    obtain ⟨c0, g1, x, y, g2⟩ := h0.symm.get hi
    have := hc i c0 g1
    have e : c.obj = c0.obj := by rw [g2]; rfl
    rw [e, this]
    exact hcore
  have hS := startLoop_spec (pure_carp o') (G := fun θ lp => lp.isFin ∧ θ.length = nParams p q z)
    (fun a r a' θ r' lp ha hst hl => by
      have := carp_start_ok ha hst hl
      rw [hkind, thetaLen_runKind] at this
      exact this) hinv0 h1
  obtain ⟨a1, a2, a3, a4, -, a6⟩ := hS
  have hall : ∀ c ∈ s1.chains, (logDensity o' c.value).map Prod.snd = .ok c.logpost ∧ c.logpost.isFin ∧ c.value.length = nParams p q z := by
    intro c hcm
    obtain ⟨i, hi⟩ := List.mem_iff_getElem?.mp hcm
    refine a6 i c hi ?_
    have hlen : i < n := by
      have := (List.getElem?_eq_some_iff.mp hi).1
      have e := congrArg List.length a2
      simp only [List.length_map] at e
      rw [e, ← h0.chains.length_eq, hb.length] at this
      exact this
    obtain ⟨var', a, -, -, hst⟩ := hb.steps
    have hk := tempered_kind a (burnin + thin * N) (n - 1)
    have hm := stepOrder_mem (n - 1) i (by omega)
    rw [← hk, ← hst] at hm
    obtain ⟨st, hst1, hst2⟩ := List.mem_map.mp hm
    obtain ⟨k, hk⟩ := List.mem_iff_getElem?.mp hst1
    refine ⟨k, st, ?_, by rw [← h0.steps]; exact hk, ?_⟩
    · rw [← h0.steps]; exact (List.getElem?_eq_some_iff.mp hk).1
    · cases st with
      | ram j a => exact congrArg Prod.snd hst2
      | exch e => cases hst2
  set Q : List (Par (CarP p)) → Prop := fun ps => Valued (fun θ => (logDensity o' θ).map Prod.snd) ps ∧ Finite ps ∧ Sized (nParams p q z) ps
  obtain ⟨b1, b2, b3, -⟩ := samp_iterate (pure_carp o') (Q := Q)
    (fun ps ps' h hs => ⟨h.1.step hs, h.2.1.step hs, h.2.2.step hs⟩) a1
    ⟨fun c hc => (hall c hc).1, fun c hc => (hall c hc).2.1, fun c hc => (hall c hc).2.2⟩ h2
  refine ⟨⟨var, o, b, hv, ho, hp, fun c hc => ⟨b2 c hc, b3.1 c hc, b3.2.1 c hc, b3.2.2 c hc⟩⟩, b1.trans (a3.trans h0.tracked.symm), ?_⟩
  have e1 := (iterate_fixed h2).1.trans a2
  have e2 := congrArg (List.map fun x : ℝ × String × Bool × List (List ℝ) × List Dbl => (x.1, x.2.1, x.2.2.1)) e1
  simp only [List.map_map] at e2
  refine e2.trans ?_
  have hs := h0.sameState
  have key : s0.chains.map (fun c => (c.temp, c.label, c.track)) = s.chains.map (fun c => (c.temp, c.label, c.track)) := by
    have := h0.chains
    generalize s.chains = l at this
    generalize s0.chains = l' at this
    induction this with
    | nil => rfl
    | cons hab _ ih =>
        obtain ⟨x, y, rfl⟩ := hab
        simp only [List.map_cons, ih]; rfl
  exact key

end Verif.Theory
