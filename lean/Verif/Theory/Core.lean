import Verif.Model.Start
import Verif.Theory.Framep

/-!
What a log-density evaluation reads: two model objects that agree on everything except the filter's parameters, stored series and
results give the same log-density, and evaluations and starting-value calls keep that agreement.
-/

namespace Verif.Theory

open Verif.Model

/-- Two filters hold the same times, and result vectors of the right length. -/
structure BTime (a b : KFBase) : Prop where
  time : a.time = b.time
  dt : a.dt = b.dt
  mlen : a.mean.length = a.time.length
  mlen' : b.mean.length = b.time.length
  vlen : a.var.length = a.time.length
  vlen' : b.var.length = b.time.length

theorem BSame.toTime {a b : KFBase} (h : BSame a b) : BTime a b :=
  ⟨h.time, h.dt, h.mlen, h.mlen', h.vlen, h.vlen'⟩

theorem BTime.symm {a b : KFBase} (h : BTime a b) : BTime b a :=
  ⟨h.time.symm, h.dt.symm, h.mlen', h.mlen, h.vlen', h.vlen⟩

theorem BTime.trans {a b c : KFBase} (h : BTime a b) (h' : BTime b c) : BTime a c :=
  ⟨h.time.trans h'.time, h.dt.trans h'.dt, h.mlen, h'.mlen', h.vlen, h'.vlen'⟩

theorem BTime.left {a b : KFBase} (h : BTime a b) : BTime a a := h.trans h.symm

theorem BTime.same {a b : KFBase} (h : BTime a b) (y e : List ℝ) (v : ℝ) :
    BSame (((a.setSigsqr v).setTimeSeriesErr e).setTimeSeries y) (((b.setSigsqr v).setTimeSeriesErr e).setTimeSeries y) :=
  ⟨h.time, h.dt, rfl, rfl, rfl, h.mlen, h.mlen', h.vlen, h.vlen'⟩

theorem likLoop_fault {y m v m' v' : List ℝ} {mu : ℝ} (hm : m.length = m'.length) (hv : v.length = v'.length) (k : ℕ) :
    ResRel (fun _ _ => True) (likLoop y m v mu k) (likLoop y m' v' mu k) := by
  have key : ∀ {l l' : List ℝ}, l.length = l'.length → ∀ i, ResRel (fun _ _ => True) (rd l i) (rd l' i) := by
    intro l l' h i
    unfold rd
    by_cases hi : i < l.length
    · rw [List.getElem?_eq_getElem hi, List.getElem?_eq_getElem (h ▸ hi)]; trivial
    · rw [List.getElem?_eq_none (by omega), List.getElem?_eq_none (by omega)]; rfl
  induction k with
  | zero => trivial
  | succ k ih =>
      unfold likLoop
      refine ResRel.bind ih fun _ _ _ => ?_
      refine ResRel.bind (key rfl k) fun _ _ _ => ?_
      refine ResRel.bind (key hm k) fun _ _ _ => ?_
      exact ResRel.bind (key hv k) fun _ _ _ => trivial

/-- `C` relates model objects with the same data, prior and kind, whose filters hold the same times. -/
structure Cored {μ σ : Type} [Kalman σ] [CarModel μ σ] (P : σ → σ → Prop) (C : μ → μ → Prop) : Prop where
  frame : Framed σ P
  symm : ∀ s s', C s s' → C s' s
  trans : ∀ s s' s'', C s s' → C s' s'' → C s s''
  base : ∀ s s', C s s' → CarModel.base s = CarModel.base s'
  check : ∀ s s' θ, C s s' → CarModel.checkPrior s θ = CarModel.checkPrior s' θ
  prior : ∀ s s' θ, C s s' → CarModel.logPrior s θ = CarModel.logPrior s' θ
  time : ∀ s s', C s s' → BTime (Kalman.base (CarModel.kf s)) (Kalman.base (CarModel.kf s'))
  setKf : ∀ s k, C s s → BTime (Kalman.base (CarModel.kf s)) (Kalman.base k) → C s (CarModel.setKf s k)
  params : ∀ s s' θ, C s s' → ResRel (fun a b => a.2 = b.2 ∧ P a.1 b.1 ∧
      (Kalman.base a.1).sigsqr = (Kalman.base b.1).sigsqr ∧
      BTime (Kalman.base (CarModel.kf s)) (Kalman.base a.1) ∧ BTime (Kalman.base (CarModel.kf s)) (Kalman.base b.1))
    (CarModel.setParams s θ) (CarModel.setParams s' θ)

section
variable {μ σ : Type} [Kalman σ] [CarModel μ σ] {P : σ → σ → Prop} {C : μ → μ → Prop}

theorem Cored.left (h : Cored P C) {s s' : μ} (hs : C s s') : C s s := h.trans _ _ _ hs (h.symm _ _ hs)

theorem Cored.density (h : Cored P C) {s s' : μ} (hs : C s s') (θ : List ℝ) :
    ResRel (fun a b => C s a.1 ∧ C s' b.1 ∧ a.2 = b.2) (logDensity s θ) (logDensity s' θ) := by
  have hl := h.left hs
  have hr := h.left (h.symm _ _ hs)
  unfold logDensity
  rw [h.check s s' θ hs, h.base s s' hs, h.prior s s' θ hs]
  refine ResRel.bind (ResRel.refl (R := (· = ·)) (fun _ => rfl) _) fun ok _ hok => ?_
  subst hok
  by_cases hk : ok = false
  · simp only [hk, if_true]
    exact ResRel.pure ⟨hl, hr, rfl⟩
  simp only [hk]
  refine ResRel.bind (h.params s s' θ hs) fun a b hab => ?_
  obtain ⟨ka, bad⟩ := a
  obtain ⟨kb, bad'⟩ := b
  obtain ⟨rfl, hP, hsg, hta, htb⟩ := hab
  dsimp only at hP hsg hta htb ⊢
  refine ResRel.bind (ResRel.refl (R := (· = ·)) (fun _ => rfl) _) fun sc _ hsc => ?_
  subst hsc
  refine ResRel.bind (ResRel.refl (R := (· = ·)) (fun _ => rfl) _) fun mu _ hmu => ?_
  subst hmu
  set ye := (CarModel.base s').yerr.map fun x => √sc * x with hye
  set yc := (CarModel.base s').y.map fun x => x - mu with hyc
  set k1 := Kalman.setBase ka (((Kalman.base ka).setTimeSeriesErr ye).setTimeSeries yc) with hk1
  set k2 := Kalman.setBase kb (((Kalman.base kb).setTimeSeriesErr ye).setTimeSeries yc) with hk2
  have hb1 : Kalman.base k1 = ((Kalman.base ka).setTimeSeriesErr ye).setTimeSeries yc := by
    rw [hk1, h.frame.base_setBase]
  have hb2 : Kalman.base k2 = ((Kalman.base kb).setTimeSeriesErr ye).setTimeSeries yc := by
    rw [hk2, h.frame.base_setBase]
  have hab := hta.symm.trans htb
  have hsame : Same P k1 k2 := by
    refine ⟨?_, ?_⟩
    · rw [hb1, hb2]
      exact ⟨hab.time, hab.dt, rfl, rfl, hsg, hab.mlen, hab.mlen', hab.vlen, hab.vlen'⟩
    · exact h.frame.trans _ _ _ (h.frame.symm _ _ (h.frame.set _ _)) (h.frame.trans _ _ _ hP (h.frame.set _ _))
  have ht1 : BTime (Kalman.base (CarModel.kf s)) (Kalman.base k1) := by
    rw [hb1]
    exact ⟨hta.time, hta.dt, hta.mlen, hta.mlen', hta.vlen, hta.vlen'⟩
  have ht2 : BTime (Kalman.base (CarModel.kf s')) (Kalman.base k2) := by
    have := (h.time _ _ hs).symm.trans htb
    rw [hb2]
    exact ⟨this.time, this.dt, this.mlen, this.mlen', this.vlen, this.vlen'⟩
  have hf := h.frame.filter k1 k2 hsame
  have hlen := hsame.1
  have hml : (Kalman.base k1).mean.length = (Kalman.base k2).mean.length := by
    rw [hlen.mlen, hlen.mlen', hlen.time]
  have hvl : (Kalman.base k1).var.length = (Kalman.base k2).var.length := by
    rw [hlen.vlen, hlen.vlen', hlen.time]
  generalize hx : Kalman.filter k1 = x at hf ⊢
  generalize hy : Kalman.filter k2 = y at hf ⊢
  match x, y, hf with
  | .error f, .error _, rfl =>
      match f with
      | .runtime => exact ResRel.pure ⟨h.setKf _ _ hl ht1, h.setKf _ _ hr ht2, rfl⟩
      | .nonfinite =>
          refine ResRel.bind (likLoop_fault hml hvl _) fun _ _ _ => ?_
          refine ResRel.bind (ResRel.refl (R := (· = ·)) (fun _ => rfl) _) fun _ _ _ => ?_
          exact ResRel.pure ⟨h.setKf _ _ hl ht1, h.setKf _ _ hr ht2, rfl⟩
      | .bounds => rfl
      | .ub => rfl
      | .timeout => rfl
  | .ok a, .ok b, hf =>
      obtain ⟨h1, h2, h3, h4⟩ := hf
      simp only [h3, h4]
      refine ResRel.bind (ResRel.refl (R := (· = ·)) (fun _ => rfl) _) fun ll _ hll => ?_
      subst hll
      refine ResRel.bind (ResRel.refl (R := (· = ·)) (fun _ => rfl) _) fun lp _ hlp => ?_
      subst hlp
      exact ResRel.pure ⟨h.setKf _ _ hl (ht1.trans h1.1.toTime), h.setKf _ _ hr (ht2.trans h2.1.toTime), rfl⟩

/-- `runFilter` keeps the times. -/
theorem Cored.runFilter (h : Cored P C) {b : CarBase} {kf kf' : σ} {sc mu : ℝ}
    (ht : BTime (Kalman.base kf) (Kalman.base kf)) (hr : runFilter b kf sc mu = .ok kf') (hP : ∀ k : σ, P k k) :
    BTime (Kalman.base kf) (Kalman.base kf') := by
  unfold Verif.Model.runFilter at hr
  obtain ⟨rs, h1, hr⟩ := bind_ok_inv hr
  set k1 := Kalman.setBase kf (((Kalman.base kf).setTimeSeriesErr (b.yerr.map fun x => rs * x)).setTimeSeries
    (b.y.map fun x => x - mu)) with hk1
  have hb1 : Kalman.base k1 = ((Kalman.base kf).setTimeSeriesErr (b.yerr.map fun x => rs * x)).setTimeSeries
    (b.y.map fun x => x - mu) := by rw [hk1, h.frame.base_setBase]
  have ht1 : BTime (Kalman.base kf) (Kalman.base k1) := by
    rw [hb1]
    exact ⟨rfl, rfl, ht.mlen, ht.mlen', ht.vlen, ht.vlen'⟩
  have hs : Same P k1 k1 := by
    refine ⟨?_, hP _⟩
    have := ht1.symm.left
    exact ⟨rfl, rfl, rfl, rfl, rfl, this.mlen, this.mlen, this.vlen, this.vlen⟩
  have hf := h.frame.filter k1 k1 hs
  dsimp only at hr
  split at hr
  · rename_i k2 hk2
    rw [hk2] at hf
    cases hr
    exact ht1.trans hf.1.1.toTime
  · injection hr with hr
    exact hr ▸ ht1
  · cases hr

end

/-! ### CAR(1) -/

/-- CAR(1) objects with the same data and prior. -/
def Car1.Core (s s' : Car1) : Prop := s.b = s'.b ∧ BTime s.kf.b s'.kf.b

theorem Car1.cored : Cored (μ := Car1) (fun a b : KF1 => a.omega = b.omega) Car1.Core where
  frame := KF1.framed
  symm _ _ h := ⟨h.1.symm, h.2.symm⟩
  trans _ _ _ h h' := ⟨h.1.trans h'.1, h.2.trans h'.2⟩
  base _ _ h := h.1
  check s s' θ h := by
    show Car1.checkPrior s.b θ = Car1.checkPrior s'.b θ
    rw [h.1]
  prior _ _ _ _ := rfl
  time _ _ h := h.2
  setKf _ _ _ hk := ⟨rfl, hk⟩
  params s s' θ h := by
    show ResRel _ (Car1.setParams s.kf θ) (Car1.setParams s'.kf θ)
    unfold Car1.setParams
    refine ResRel.bind (ResRel.refl (R := (· = ·)) (fun _ => rfl) _) fun lo _ h1 => ?_
    subst h1
    refine ResRel.bind (ResRel.refl (R := (· = ·)) (fun _ => rfl) _) fun s0 _ h1 => ?_
    subst h1
    have hl := h.2.left
    have hr := h.2
    exact ResRel.pure ⟨rfl, rfl, rfl, ⟨rfl, rfl, hl.mlen, hl.mlen, hl.vlen, hl.vlen⟩,
      ⟨hr.time, hr.dt, hr.mlen, hr.mlen', hr.vlen, hr.vlen'⟩⟩

theorem Car1.runFilter_core {s : Car1} (hs : Car1.Core s s) {om v sc mu : ℝ} {kf : KF1}
    (h : runFilter s.b ({ b := s.kf.b.setSigsqr v, omega := om } : KF1) sc mu = .ok kf) :
    Car1.Core s { s with kf := kf } := by
  have hb := hs.2
  have ht : BTime (Kalman.base ({ b := s.kf.b.setSigsqr v, omega := om } : KF1))
      (Kalman.base ({ b := s.kf.b.setSigsqr v, omega := om } : KF1)) :=
    ⟨rfl, rfl, hb.mlen, hb.mlen, hb.vlen, hb.vlen⟩
  have := Car1.cored.runFilter ht h (fun _ => rfl)
  exact ⟨rfl, this.time, this.dt, hb.mlen, this.mlen', hb.vlen, this.vlen'⟩

theorem Car1.start_core {s s' : Car1} {r r' : Rng} {θ : List ℝ} (hs : Car1.Core s s) (h : s.start r = .ok (s', θ, r')) :
    Car1.Core s s' := by
  unfold Car1.start at h
  obtain ⟨v, h1, h⟩ := bind_ok_inv h
  obtain ⟨sd, h2, h⟩ := bind_ok_inv h
  obtain ⟨dt, h3, h⟩ := bind_ok_inv h
  obtain ⟨med, h4, h⟩ := bind_ok_inv h
  obtain ⟨l, h5, h⟩ := bind_ok_inv h
  obtain ⟨lo, h6, h⟩ := bind_ok_inv h
  obtain ⟨⟨sc, r2⟩, h7, h⟩ := bind_ok_inv h
  obtain ⟨kf, h8, h⟩ := bind_ok_inv h
  cases h
  exact Car1.runFilter_core hs h8

theorem Car1.setStart_core {s s' : Car1} {r r' : Rng} {init θ : List ℝ} (hs : Car1.Core s s)
    (h : s.setStart init r = .ok (s', θ, r')) : Car1.Core s s' := by
  unfold Car1.setStart at h
  split at h
  · exact Car1.start_core hs h
  · obtain ⟨⟨s1, lp⟩, h1, h⟩ := bind_ok_inv h
    have hd := Car1.cored.density hs init
    rw [h1] at hd
    have hc : Car1.Core s s1 := hd.1
    dsimp only at h
    split at h
    · exact Car1.cored.trans _ _ _ hc (Car1.start_core (Car1.cored.left (Car1.cored.symm _ _ hc)) h)
    · obtain ⟨sd, h2, h⟩ := bind_ok_inv h
      obtain ⟨sc, h3, h⟩ := bind_ok_inv h
      obtain ⟨mu, h4, h⟩ := bind_ok_inv h
      obtain ⟨lo, h5, h⟩ := bind_ok_inv h
      obtain ⟨kf, h8, h⟩ := bind_ok_inv h
      cases h
      exact Car1.cored.trans _ _ _ hc (Car1.runFilter_core (Car1.cored.left (Car1.cored.symm _ _ hc)) h8)

/-! ### CARp -/

/-- CARp objects with the same data, prior, kind and constants. -/
structure CarP.Core {p : ℕ} (s s' : CarP p) : Prop where
  b : s.b = s'.b
  kind : s.kind = s'.kind
  ma : s.maCoefs = s'.maCoefs
  ord : s.orderLor = s'.orderLor
  zma : s.zma = s'.zma
  lo : s.kappaLow = s'.kappaLow
  hi : s.kappaHigh = s'.kappaHigh
  kf : BTime s.kf.b s'.kf.b

theorem CarP.extractMA_core {p : ℕ} {s s' : CarP p} (h : CarP.Core s s') (θ : List ℝ) :
    s.extractMA θ = s'.extractMA θ := by
  unfold CarP.extractMA
  rw [h.kind, h.ma, h.lo, h.hi]

theorem CarP.cored {p : ℕ} : Cored (μ := CarP p) KFp.Par CarP.Core where
  frame := KFp.framed
  symm _ _ h := ⟨h.b.symm, h.kind.symm, h.ma.symm, h.ord.symm, h.zma.symm, h.lo.symm, h.hi.symm, h.kf.symm⟩
  trans _ _ _ h h' := ⟨h.b.trans h'.b, h.kind.trans h'.kind, h.ma.trans h'.ma, h.ord.trans h'.ord, h.zma.trans h'.zma,
    h.lo.trans h'.lo, h.hi.trans h'.hi, h.kf.trans h'.kf⟩
  base _ _ h := h.b
  check s s' θ h := by
    show CarP.checkPrior s.b p s.orderLor θ = CarP.checkPrior s'.b p s'.orderLor θ
    rw [h.b, h.ord]
  prior s s' θ h := by
    show s.logPrior θ = s'.logPrior θ
    unfold CarP.logPrior
    rw [h.kind]
  time _ _ h := h.kf
  setKf _ _ _ hk := ⟨rfl, rfl, rfl, rfl, rfl, rfl, rfl, hk⟩
  params s s' θ h := by
    show ResRel _ (s.setParams θ) (s'.setParams θ)
    unfold CarP.setParams
    have hl := h.kf.left
    have hr := h.kf
    have he : s.extractSigsqr θ = s'.extractSigsqr θ := by
      unfold CarP.extractSigsqr
      rw [CarP.extractMA_core h]
    rw [CarP.extractMA_core h, he]
    refine ResRel.bind (ResRel.refl (R := (· = ·)) (fun _ => rfl) _) fun ro _ h1 => ?_
    subst h1
    refine ResRel.bind (ResRel.refl (R := (· = ·)) (fun _ => rfl) _) fun ma _ h1 => ?_
    subst h1
    split
    · exact ResRel.pure ⟨rfl, ⟨rfl, rfl, rfl⟩, rfl, ⟨rfl, rfl, hl.mlen, hl.mlen, hl.vlen, hl.vlen⟩,
        ⟨hr.time, hr.dt, hr.mlen, hr.mlen', hr.vlen, hr.vlen'⟩⟩
    · exact ResRel.pure ⟨rfl, ⟨rfl, rfl, rfl⟩, rfl, ⟨rfl, rfl, hl.mlen, hl.mlen, hl.vlen, hl.vlen⟩,
        ⟨hr.time, hr.dt, hr.mlen, hr.mlen', hr.vlen, hr.vlen'⟩⟩
    · rfl

theorem CarP.runFilter_core {p : ℕ} {s : CarP p} (hs : CarP.Core s s) {roots : List ℂ} {ma : List ℝ} {v sc mu : ℝ}
    {kf : KFp p} (h : runFilter s.b (s.startKf roots ma v) sc mu = .ok kf) : CarP.Core s { s with kf := kf } := by
  have hb := hs.kf
  have hsk : (s.startKf roots ma v).b = s.kf.b.setSigsqr v := by
    unfold CarP.startKf
    cases s.kind <;> rfl
  have ht : BTime (Kalman.base (s.startKf roots ma v)) (Kalman.base (s.startKf roots ma v)) := by
    show BTime (s.startKf roots ma v).b (s.startKf roots ma v).b
    rw [hsk]
    exact ⟨rfl, rfl, hb.mlen, hb.mlen, hb.vlen, hb.vlen⟩
  have := CarP.cored.runFilter ht h (fun _ => ⟨rfl, rfl, rfl⟩)
  have e : Kalman.base (s.startKf roots ma v) = s.kf.b.setSigsqr v := hsk
  rw [e] at this
  exact ⟨rfl, rfl, rfl, rfl, rfl, rfl, rfl, this.time, this.dt, hb.mlen, this.mlen', hb.vlen, this.vlen'⟩

/-- What a starting-value pass that returns with a finite log-density guarantees. -/
structure CarP.Passed {p : ℕ} (s s' : CarP p) (θ : List ℝ) (lp : Dbl) : Prop where
  core : CarP.Core s s'
  dens : lp.isFin → ∃ s₀ s₁, CarP.Core s s₀ ∧ logDensity s₀ θ = .ok (s₁, lp)

theorem CarP.startTail_core {p : ℕ} {s s' : CarP p} (hs : CarP.Core s s) {loga extra ma θ : List ℝ} {sd mu v : ℝ}
    {r r' : Rng} {lp : Dbl} (h : s.startTail loga extra ma sd mu v r = .ok (s', θ, lp, r')) :
    CarP.Passed s s' θ lp := by
  unfold CarP.startTail at h
  obtain ⟨⟨sc, r2⟩, h1, h⟩ := bind_ok_inv h
  obtain ⟨ro, h2, h⟩ := bind_ok_inv h
  obtain ⟨kf, h3, h⟩ := bind_ok_inv h
  obtain ⟨⟨s2, lp2⟩, h4, h⟩ := bind_ok_inv h
  cases h
  have hc := CarP.runFilter_core hs h3
  have hd := CarP.cored.density (CarP.cored.left (CarP.cored.symm _ _ hc)) (sd :: sc :: mu :: (loga ++ extra))
  rw [h4] at hd
  exact ⟨CarP.cored.trans _ _ _ hc hd.1, fun _ => ⟨_, _, hc, h4⟩⟩

theorem CarP.startPass_core {p : ℕ} {s s' : CarP p} (hs : CarP.Core s s) {θ : List ℝ}
    {r r' : Rng} {lp : Dbl} (h : s.startPass r = .ok (s', θ, lp, r')) : CarP.Passed s s' θ lp := by
  unfold CarP.startPass at h
  obtain ⟨⟨loga, r2⟩, h1, h⟩ := bind_ok_inv h
  obtain ⟨⟨extra, r3⟩, h2, h⟩ := bind_ok_inv h
  dsimp only at h
  split at h
  · cases h
    exact ⟨hs, fun hf => hf.elim⟩
  · obtain ⟨ma, h3, h⟩ := bind_ok_inv h
    obtain ⟨yv, h4, h⟩ := bind_ok_inv h
    obtain ⟨sd, h5, h⟩ := bind_ok_inv h
    obtain ⟨ro, h6, h⟩ := bind_ok_inv h
    split at h
    · exact CarP.startTail_core hs h
    · split at h
      · cases h
        exact ⟨hs, fun hf => hf.elim⟩
      · exact CarP.startTail_core hs h
    · cases h

theorem CarP.start_core {p : ℕ} (fuel : ℕ) {s s' : CarP p} (hs : CarP.Core s s) {θ : List ℝ} {r r' : Rng}
    (h : CarP.start fuel s r = .ok (s', θ, r')) :
    CarP.Core s s' ∧ ∃ s₀ s₁ lp, CarP.Core s s₀ ∧ logDensity s₀ θ = .ok (s₁, lp) ∧ lp.isFin := by
  induction fuel generalizing s r with
  | zero => cases h
  | succ n ih =>
      unfold CarP.start at h
      obtain ⟨⟨s1, θ1, lp, r1⟩, h1, h⟩ := bind_ok_inv h
      have hp := CarP.startPass_core hs h1
      dsimp only at h
      split at h
      · rename_i hf
        cases h
        obtain ⟨s0, s2, h2, h3⟩ := hp.dens hf
        exact ⟨hp.core, s0, s2, lp, h2, h3, hf⟩
      · obtain ⟨h2, s0, s2, lp', h3, h4, h5⟩ := ih (CarP.cored.left (CarP.cored.symm _ _ hp.core)) h
        exact ⟨CarP.cored.trans _ _ _ hp.core h2, s0, s2, lp', CarP.cored.trans _ _ _ hp.core h3, h4, h5⟩

theorem CarP.setStart_core {p : ℕ} (fuel : ℕ) {s s' : CarP p} (hs : CarP.Core s s) {init θ : List ℝ} {r r' : Rng}
    (h : CarP.setStart fuel s init r = .ok (s', θ, r')) :
    CarP.Core s s' ∧ ∃ s₀ s₁ lp, CarP.Core s s₀ ∧ logDensity s₀ θ = .ok (s₁, lp) ∧ lp.isFin := by
  unfold CarP.setStart at h
  split at h
  · exact CarP.start_core fuel hs h
  · obtain ⟨⟨s1, lp⟩, h1, h⟩ := bind_ok_inv h
    have hd := CarP.cored.density hs init
    rw [h1] at hd
    have hc : CarP.Core s s1 := hd.1
    dsimp only at h
    split at h
    · obtain ⟨h2, s0, s2, lp', h3, h4, h5⟩ := CarP.start_core fuel (CarP.cored.left (CarP.cored.symm _ _ hc)) h
      exact ⟨CarP.cored.trans _ _ _ hc h2, s0, s2, lp', CarP.cored.trans _ _ _ hc h3, h4, h5⟩
    · rename_i hf
      obtain ⟨sc, h2, h⟩ := bind_ok_inv h
      obtain ⟨mu, h3, h⟩ := bind_ok_inv h
      obtain ⟨s0, h4, h⟩ := bind_ok_inv h
      obtain ⟨ro, h5, h⟩ := bind_ok_inv h
      obtain ⟨ma, h6, h⟩ := bind_ok_inv h
      obtain ⟨v, h7, h⟩ := bind_ok_inv h
      obtain ⟨kf, h8, h⟩ := bind_ok_inv h
      cases h
      have := CarP.runFilter_core (CarP.cored.left (CarP.cored.symm _ _ hc)) h8
      exact ⟨CarP.cored.trans _ _ _ hc this, s, s1, lp, hs, h1, not_not.mp hf⟩

/-- The filter of a new CAR(1) object is fresh. -/
theorem Car1.new_fresh {srt : List ℝ → List ℕ} {time y yerr : List ℝ} {o : Car1} (h : Car1.new srt time y yerr = .ok o) :
    Fresh o.kf.b := by
  unfold Car1.new at h
  obtain ⟨b, -, h⟩ := bind_ok_inv h
  obtain ⟨kf, hk, h⟩ := bind_ok_inv h
  unfold KF1.newData KF1.new at hk
  obtain ⟨kb, hb, hk⟩ := bind_ok_inv hk
  cases hk
  cases h
  exact init_fresh hb

/-- The filter of a new CARp object is fresh. -/
theorem CarP.newCarp_fresh {p : ℕ} {srt : List ℝ → List ℕ} {time y yerr : List ℝ} {o : CarP p}
    (h : CarP.newCarp p srt time y yerr = .ok o) : Fresh o.kf.b := by
  unfold CarP.newCarp at h
  obtain ⟨b, -, h⟩ := bind_ok_inv h
  obtain ⟨kf, hk, h⟩ := bind_ok_inv h
  unfold KFp.newData at hk
  obtain ⟨k0, -, hk⟩ := bind_ok_inv hk
  obtain ⟨kb, hb, hk⟩ := bind_ok_inv hk
  cases hk
  by_cases hp : p = 0
  · simp only [hp, if_true] at h; cases h
  · simp only [hp, if_false] at h
    cases h
    exact init_fresh hb

/-- The filter of a new object of any kind is fresh. -/
theorem CarP.new_fresh {kind : Kind} {p : ℕ} {srt : List ℝ → List ℕ} {time y yerr : List ℝ} {o : CarP p}
    (h : CarP.new kind p srt time y yerr = .ok o) : Fresh o.kf.b := by
  cases kind with
  | carp => exact CarP.newCarp_fresh h
  | zcar =>
      unfold CarP.new CarP.newZcar at h
      obtain ⟨s, hs, h⟩ := bind_ok_inv h
      obtain ⟨_, -, h⟩ := bind_ok_inv h
      obtain ⟨_, -, h⟩ := bind_ok_inv h
      obtain ⟨_, -, h⟩ := bind_ok_inv h
      cases h
      have := CarP.newCarp_fresh hs
      exact this
  | carma q =>
      unfold CarP.new CarP.newCarma at h
      obtain ⟨s, hs, h⟩ := bind_ok_inv h
      cases h
      have := CarP.newCarp_fresh hs
      exact this
  | zcarma =>
      unfold CarP.new CarP.newZcarma at h
      obtain ⟨s, hs, h⟩ := bind_ok_inv h
      obtain ⟨_, -, h⟩ := bind_ok_inv h
      obtain ⟨_, -, h⟩ := bind_ok_inv h
      obtain ⟨_, -, h⟩ := bind_ok_inv h
      obtain ⟨_, -, h⟩ := bind_ok_inv h
      obtain ⟨_, -, h⟩ := bind_ok_inv h
      cases h
      have := CarP.newCarp_fresh hs
      exact this

end Verif.Theory
