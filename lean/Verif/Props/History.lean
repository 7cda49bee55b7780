import Verif.Theory.Core
import Verif.Spec.History
import Verif.Props.Examples
import Verif.Props.Car1

/-!
Independence of history: C15, C21.
-/

namespace Verif.Props

open Verif.Model Verif.Spec Verif.Theory

section
variable {σ : Type} [Kalman σ] {P : σ → σ → Prop} {faulted : σ → σ → Prop}

/-- A history keeps the data, for any filter class with a frame. -/
theorem khistory_same (hP : Framed σ P) (hf : ∀ a b, Same P a a → faulted a b → Same P a b) {s s' : σ}
    (h0 : Same P s s) (hd : diffs (Kalman.base s).time = .ok (Kalman.base s).dt) (h : KHistory faulted s s') :
    Same P s s' := by
  induction h with
  | nil => exact h0
  | @filter a b _ hb ih =>
      have := hP.filter a a (hP.sTrans (hP.sSymm ih) ih)
      rw [hb] at this
      exact hP.sTrans ih this.1
  | @predict a b t m _ hb ih =>
      have := hP.predict a a t (hP.sTrans (hP.sSymm ih) ih)
      rw [hb] at this
      exact hP.sTrans ih this.1
  | @simulate a b ts xs zs _ hb ih =>
      have := hP.simulate ts (hP.sTrans (hP.sSymm ih) ih) zs (by rw [← ih.1.time, ← ih.1.dt, hd])
      rw [hb] at this
      exact hP.sTrans ih this.1
  | @fault a b _ _ hb ih => exact hP.sTrans ih (hf a b (hP.sTrans (hP.sSymm ih) ih) hb)

/-- A history does not change any later result, for any filter class with a frame. -/
theorem khistory_results (hP : Framed σ P) {s s' : σ} (h : Same P s s')
    (hd : diffs (Kalman.base s).time = .ok (Kalman.base s).dt) :
    (Kalman.filter s').map (fun k => ((Kalman.base k).mean, (Kalman.base k).var)) =
      (Kalman.filter s).map (fun k => ((Kalman.base k).mean, (Kalman.base k).var)) ∧
    (∀ t, (Kalman.predict s' t).map Prod.snd = (Kalman.predict s t).map Prod.snd) ∧
    ∀ ts zs, (Kalman.simulate s' ts zs).map Prod.snd = (Kalman.simulate s ts zs).map Prod.snd := by
  refine ⟨?_, fun t => ?_, fun ts zs => ?_⟩
  · have := hP.filter s s' h
    generalize Kalman.filter s = x at this
    generalize Kalman.filter s' = y at this
    match x, y, this with
    | .error _, .error _, rfl => rfl
    | .ok a, .ok b, this => simp [Except.map, this.2.2.1, this.2.2.2]
  · have := hP.predict s s' t h
    generalize Kalman.predict s t = x at this
    generalize Kalman.predict s' t = y at this
    match x, y, this with
    | .error _, .error _, rfl => rfl
    | .ok a, .ok b, this => simp [Except.map, this.2.2]
  · have := hP.simulate ts h zs hd
    generalize Kalman.simulate s ts zs = x at this
    generalize Kalman.simulate s' ts zs = y at this
    match x, y, this with
    | .error _, .error _, rfl => rfl
    | .ok a, .ok b, this => simp [Except.map, this.2.2]

end

/-- **C21, CAR(1).** For every object the constructor returns, any history of `Filter`, `Predict` and `Simulate` calls leaves data and
parameters unchanged, and every later `Filter`, `Predict` and `Simulate` call gives what it gives on the fresh object: the same
numbers, or the same fault. -/
theorem C21_car1_history (srt : List ℝ → List ℕ) (time y yerr : List ℝ) (sigsqr omega : ℝ) {s s' : KF1}
    (hs : KF1.new srt time y yerr sigsqr omega = .ok s) (h : KHistory KF1.Faulted s s') :
    (s'.b.time = s.b.time ∧ s'.b.dt = s.b.dt ∧ s'.b.y = s.b.y ∧ s'.b.yerr = s.b.yerr ∧ s'.b.sigsqr = s.b.sigsqr ∧
      s'.omega = s.omega) ∧
    (Kalman.filter s').map (fun k => (k.b.mean, k.b.var)) = (Kalman.filter s).map (fun k => (k.b.mean, k.b.var)) ∧
    (∀ t, (Kalman.predict s' t).map Prod.snd = (Kalman.predict s t).map Prod.snd) ∧
    ∀ ts zs, (Kalman.simulate s' ts zs).map Prod.snd = (Kalman.simulate s ts zs).map Prod.snd := by
  unfold KF1.new at hs
  obtain ⟨b, hb, hs⟩ := bind_ok_inv hs
  cases hs
  have hF := init_fresh hb
  have h0 : Same (fun a b : KF1 => a.omega = b.omega) { b := b, omega := omega } { b := b, omega := omega } :=
    ⟨hF.same, rfl⟩
  have hS := khistory_same KF1.framed (faulted := KF1.Faulted) (fun a c ha hc => by
    obtain ⟨⟨g1, g2, g3, g4, g5, g6, g7⟩, g8⟩ := hc
    refine ⟨⟨g1.symm, g2.symm, g3.symm, g4.symm, g5.symm, ha.1.mlen, ?_, ha.1.vlen, ?_⟩, g8.symm⟩
    · exact g6.trans (ha.1.mlen.trans (congrArg List.length g1.symm))
    · exact g7.trans (ha.1.vlen.trans (congrArg List.length g1.symm))) h0 hF.diff h
  have hR := khistory_results KF1.framed hS hF.diff
  exact ⟨⟨hS.1.time.symm, hS.1.dt.symm, hS.1.y.symm, hS.1.yerr.symm, hS.1.sigsqr.symm, hS.2.symm⟩, hR⟩

/-- **C21, CARMA.** The same for CARMA filters of any order. -/
theorem C21_carma_history {p : ℕ} (srt : List ℝ → List ℕ) (time y yerr : List ℝ) (sigsqr : ℝ) (omega : Fin p → ℂ)
    (ma : List ℝ) {s s' : KFp p} (hs : KFp.new srt time y yerr sigsqr omega ma = .ok s) (h : KHistory KFp.Faulted s s') :
    (s'.b.time = s.b.time ∧ s'.b.dt = s.b.dt ∧ s'.b.y = s.b.y ∧ s'.b.yerr = s.b.yerr ∧ s'.b.sigsqr = s.b.sigsqr ∧
      s'.omega = s.omega ∧ s'.ma = s.ma) ∧
    (Kalman.filter s').map (fun k => (k.b.mean, k.b.var)) = (Kalman.filter s).map (fun k => (k.b.mean, k.b.var)) ∧
    (∀ t, (Kalman.predict s' t).map Prod.snd = (Kalman.predict s t).map Prod.snd) ∧
    ∀ ts zs, (Kalman.simulate s' ts zs).map Prod.snd = (Kalman.simulate s ts zs).map Prod.snd := by
  unfold KFp.new at hs
  obtain ⟨b, hb, hs⟩ := bind_ok_inv hs
  injection hs with hs
  have hsb : s.b = b := by rw [← hs]; rfl
  have hF : Fresh s.b := by rw [hsb]; exact init_fresh hb
  have h0 : Same KFp.Par s s := ⟨hF.same, rfl, rfl, rfl⟩
  have hS := khistory_same KFp.framed (faulted := KFp.Faulted) (fun a c ha hc => by
    obtain ⟨⟨g1, g2, g3, g4, g5, g6, g7⟩, g8, g9, g10⟩ := hc
    refine ⟨⟨g1.symm, g2.symm, g3.symm, g4.symm, g5.symm, ha.1.mlen, ?_, ha.1.vlen, ?_⟩, g8.symm, g9.symm, g10.symm⟩
    · exact g6.trans (ha.1.mlen.trans (congrArg List.length g1.symm))
    · exact g7.trans (ha.1.vlen.trans (congrArg List.length g1.symm))) h0 hF.diff h
  have hR := khistory_results KFp.framed hS hF.diff
  exact ⟨⟨hS.1.time.symm, hS.1.dt.symm, hS.1.y.symm, hS.1.yerr.symm, hS.1.sigsqr.symm, hS.2.1.symm, hS.2.2.1.symm⟩, hR⟩

/-- a history of C21: two runs of the filter with results in between -/
example (srt : List ℝ → List ℕ) : ∃ s s' s'', KF1.new srt (List.ofFn exT) (List.ofFn exY) (List.ofFn exT) 2 1 = .ok s ∧
    KHistory KF1.Faulted s s' ∧ s'.b.mean = List.ofFn (stepMean (car1Acf 2 1) exT exT exY) ∧
    KHistory KF1.Faulted s s'' ∧ Kalman.filter s' = .ok s'' ∧ s''.b.mean = s'.b.mean := by
  obtain ⟨s', h1, h2, h3⟩ := C01_car1_filter_exact srt (by norm_num) exT_mono exY exT (sigsqr := 2) (omega := 1) (by norm_num)
    (by norm_num)
  obtain ⟨s, hs, h4⟩ := bind_ok_inv h1
  have hh : KHistory KF1.Faulted s s' := .filter .nil h4
  have h5 := (C21_car1_history srt _ _ _ _ _ hs hh).2.1
  rw [h4] at h5
  match hf : Kalman.filter s', h5 with
  | .ok s'', h5 =>
      simp [Except.map] at h5
      exact ⟨s, s', s'', hs, hh, h2, .filter hh hf, hf, h5.1⟩

section
variable {μ σ : Type} [Kalman σ] [CarModel μ σ] [Target μ] {P : σ → σ → Prop} {C : μ → μ → Prop} {thrown : μ → μ → Prop}

/-- A history keeps all that a later evaluation depends on. -/
theorem phistory_core (hC : Cored P C) (hld : ∀ (o : μ) θ, Target.ld o θ = logDensity o θ)
    (hst : ∀ fuel (o o' : μ) r r' θ, C o o → Target.start fuel o r = .ok (o', θ, r') → C o o')
    (hss : ∀ fuel (o o' : μ) init r r' θ, C o o → Target.setStart fuel o init r = .ok (o', θ, r') → C o o')
    (hth : ∀ o o', C o o → thrown o o' → C o o') {s s' : Par μ} (h0 : C s.obj s.obj) (h : PHistory thrown s s') :
    C s.obj s'.obj := by
  have hld' : ∀ (o : μ) θ o' lp, C o o → Target.ld o θ = .ok (o', lp) → C o o' := fun o θ o' lp hc hl => by
    have := hC.density hc θ
    rw [← hld, hl] at this
    exact this.1
  have hr : ∀ {a : μ}, C s.obj a → C a a := fun ih => hC.trans _ _ _ (hC.symm _ _ ih) ih
  induction h with
  | nil => exact h0
  | eval _ hb ih => exact hC.trans _ _ _ ih (hld' _ _ _ _ (hr ih) hb)
  | save _ hb ih =>
      obtain ⟨⟨o, lp⟩, h1, h2⟩ := bind_ok_inv hb
      injection h2 with h2
      exact h2 ▸ hC.trans _ _ _ ih (hld' _ _ _ _ (hr ih) h1)
  | saveStale _ hb ih =>
      obtain ⟨lp, h1, h2⟩ := bind_ok_inv hb
      injection h2 with h2
      exact h2 ▸ ih
  | setLogDensity _ _ ih => exact ih
  | setTracking _ _ ih => exact ih
  | setSampleSize _ _ ih => exact ih
  | addToSample _ _ hb ih =>
      obtain ⟨l, h1, h2⟩ := bind_ok_inv hb
      obtain ⟨l', h1, h2⟩ := bind_ok_inv h2
      injection h2 with h2
      exact h2 ▸ ih
  | start _ hb ih => exact hC.trans _ _ _ ih (hst _ _ _ _ _ _ (hr ih) hb)
  | setStart _ hb ih => exact hC.trans _ _ _ ih (hss _ _ _ _ _ _ _ (hr ih) hb)
  | thrown _ hb ih => exact hC.trans _ _ _ ih (hth _ _ (hr ih) hb)

omit [Target μ] in
/-- Two objects that agree on the core have the same log-density function. -/
theorem core_density (hC : Cored P C) {o o' : μ} (h : C o o') (θ : List ℝ) :
    (logDensity o' θ).map Prod.snd = (logDensity o θ).map Prod.snd := by
  have := hC.density h θ
  generalize logDensity o θ = x at this
  generalize logDensity o' θ = y at this
  match x, y, this with
  | .error _, .error _, rfl => rfl
  | .ok a, .ok b, this => simp [Except.map, this.2.2]

end

/-- **C15, CAR(1).** For every object the constructor returns, with any setting `cfg` of the prior bounds and the maximum-likelihood
flag, any history of evaluations, saves, starting values and throwing calls leaves the log-density function as it was: at every
`theta` the same value, or the same fault. -/
theorem C15_car1_history (srt : List ℝ → List ℕ) (time y yerr : List ℝ) {o : Car1} (ho : Car1.new srt time y yerr = .ok o)
    (cfg : CarBase) {s s' : Par Car1} (hs : s.obj = { o with b := cfg }) (h : PHistory Car1.Thrown s s') (θ : List ℝ) :
    (logDensity s'.obj θ).map Prod.snd = (logDensity ({ o with b := cfg } : Car1) θ).map Prod.snd := by
  rw [← hs]
  refine core_density Car1.cored (phistory_core Car1.cored (fun _ _ => rfl) (fun _ _ _ _ _ _ hc h => Car1.start_core hc h)
    (fun _ _ _ _ _ _ _ hc h => Car1.setStart_core hc h) (fun a b hc ht => ?_) ?_ h) θ
  · obtain ⟨h1, h2, h3, h4, h5⟩ := ht
    exact ⟨h1.symm, h2.symm, h3.symm, hc.2.mlen, h4.trans (hc.2.mlen.trans (congrArg List.length h2.symm)), hc.2.vlen,
      h5.trans (hc.2.vlen.trans (congrArg List.length h2.symm))⟩
  · rw [hs]
    exact ⟨rfl, (Car1.new_fresh ho).same.toTime⟩

/-- **C15, CARp and its variants.** The same for CARp, ZCAR, CARMA and ZCARMA objects of any order, with any setting of the prior
bounds, the root-ordering flag and the kappa bounds. -/
theorem C15_carp_history (kind : Kind) (p : ℕ) (srt : List ℝ → List ℕ) (time y yerr : List ℝ) {o : CarP p}
    (ho : CarP.new kind p srt time y yerr = .ok o) (cfg : CarBase) (ord : Bool) (lo hi : Dbl) {s s' : Par (CarP p)}
    (hs : s.obj = { o with b := cfg, orderLor := ord, kappaLow := lo, kappaHigh := hi })
    (h : PHistory CarP.Thrown s s') (θ : List ℝ) :
    (logDensity s'.obj θ).map Prod.snd =
      (logDensity ({ o with b := cfg, orderLor := ord, kappaLow := lo, kappaHigh := hi } : CarP p) θ).map Prod.snd := by
  rw [← hs]
  refine core_density CarP.cored (phistory_core CarP.cored (fun _ _ => rfl)
    (fun fuel _ _ _ _ _ hc h => (CarP.start_core fuel hc h).1)
    (fun fuel _ _ _ _ _ _ hc h => (CarP.setStart_core fuel hc h).1) (fun a b hc ht => ?_) ?_ h) θ
  · obtain ⟨kf, rfl, h2, h3, h4, h5⟩ := ht
    exact ⟨rfl, rfl, rfl, rfl, rfl, rfl, rfl, h2.symm, h3.symm, hc.kf.mlen,
      h4.trans (hc.kf.mlen.trans (congrArg List.length h2.symm)), hc.kf.vlen,
      h5.trans (hc.kf.vlen.trans (congrArg List.length h2.symm))⟩
  · rw [hs]
    exact ⟨rfl, rfl, rfl, rfl, rfl, rfl, rfl, (CarP.new_fresh ho).same.toTime⟩

/-- a history of C15 with an evaluation inside the prior bounds, a save and an overwritten log-density -/
example (srt : List ℝ → List ℕ) : ∃ (o : Car1) (s s' : Par Car1) (x : ℝ),
    Car1.new srt (List.ofFn exT) (List.ofFn exY) (List.ofFn exT) = .ok o ∧ s.obj = { o with b := o.b } ∧
    PHistory Car1.Thrown s s' ∧ s'.logpost = .nan ∧ (logDensity s'.obj [1, 1, 0, -1]).map Prod.snd = .ok (.fin x) := by
  obtain ⟨o, o', x, h3, h5⟩ := ex_car1_value srt
  refine ⟨o, ⟨o, [], .ninf, 1, "", false, [], []⟩, ⟨o', [1, 1, 0, -1], .nan, 1, "", false, [], []⟩, x, h3, rfl, ?_, rfl, ?_⟩
  · refine .setLogDensity (a := ⟨o', [1, 1, 0, -1], .fin x, 1, "", false, [], []⟩) .nan (.save (θ := [1, 1, 0, -1]) .nil ?_)
    show (Target.ld o [1, 1, 0, -1] >>= _) = _
    rw [show Target.ld o [1, 1, 0, -1] = _ from h5]
    rfl
  · have hh : PHistory Car1.Thrown ⟨o, [], .ninf, 1, "", false, [], []⟩ ⟨o', [], .ninf, 1, "", false, [], []⟩ :=
      .eval .nil h5
    have := C15_car1_history srt _ _ _ h3 o.b rfl hh [1, 1, 0, -1]
    rw [show ({ o with b := o.b } : Car1) = o from rfl, h5] at this
    exact this

/-- a CAR(2) history: an evaluation, then a call that threw -/
example (srt : List ℝ → List ℕ) : ∃ (o : CarP 2) (s s' : Par (CarP 2)) (x : ℝ),
    CarP.new .carp 2 srt (List.ofFn exT) (List.ofFn exY) (List.ofFn exT) = .ok o ∧ s.obj = { o with b := o.b } ∧
    PHistory CarP.Thrown s s' ∧ s'.obj.kf.ma = [7] ∧ (logDensity s'.obj exθ).map Prod.snd = .ok (.fin x) := by
  obtain ⟨o, o', x, h3, h5⟩ := ex_carp_value srt
  have hh : PHistory CarP.Thrown ⟨o, [], .ninf, 1, "", false, [], []⟩
      ⟨{ o' with kf := { o'.kf with ma := [7] } }, [], .ninf, 1, "", false, [], []⟩ :=
    .thrown (.eval .nil h5) ⟨_, rfl, rfl, rfl, rfl, rfl⟩
  refine ⟨o, _, _, x, h3, rfl, hh, rfl, ?_⟩
  have := C15_carp_history _ _ srt _ _ _ h3 o.b o.orderLor o.kappaLow o.kappaHigh rfl hh exθ
  rw [show ({ o with b := o.b, orderLor := o.orderLor, kappaLow := o.kappaLow, kappaHigh := o.kappaHigh } : CarP 2) = o from rfl, h5]
    at this
  exact this

end Verif.Props
