import Verif.Theory.Frame1

/-! Frame of `KalmanFilterp`. -/

namespace Verif.Theory

open Verif.Model

variable {p : ℕ}

/-- Same data and parameters. -/
structure KFp.Same (s s' : KFp p) : Prop where
  b : BSame s.b s'.b
  omega : s.omega = s'.omega
  ma : s.ma = s'.ma
  pset : s.pset = s'.pset

/-- Same data and parameters, results agree below the running index, running state equal (`gain` and `rho` are written
before they are read). -/
structure KFp.Run (k : ℕ) (s s' : KFp p) : Prop where
  b : BRun k s.b s'.b
  omega : s.omega = s'.omega
  ma : s.ma = s'.ma
  pset : s.pset = s'.pset
  state : s.state = s'.state
  StateVar : s.StateVar = s'.StateVar
  rotma : s.rotma = s'.rotma
  PredVar : s.PredVar = s'.PredVar
  innov : s.innov = s'.innov

/-- Coefficient phase of `Predict`. -/
structure KFp.Coef (k : ℕ) (s s' : KFp p) : Prop where
  b : BCoef k s.b s'.b
  omega : s.omega = s'.omega
  ma : s.ma = s'.ma
  pset : s.pset = s'.pset
  StateVar : s.StateVar = s'.StateVar
  rotma : s.rotma = s'.rotma
  PredVar : s.PredVar = s'.PredVar
  sconst : s.sconst = s'.sconst
  sslope : s.sslope = s'.sslope

theorem KFp.same_refl_left {s s' : KFp p} (h : KFp.Same s s') : KFp.Same s s :=
  ⟨⟨rfl, rfl, rfl, rfl, rfl, h.b.mlen, h.b.mlen, h.b.vlen, h.b.vlen⟩, rfl, rfl, rfl⟩

theorem KFp.Same.symm {s s' : KFp p} (h : KFp.Same s s') : KFp.Same s' s :=
  ⟨h.b.symm, h.omega.symm, h.ma.symm, h.pset.symm⟩

theorem KFp.Same.trans {s s' s'' : KFp p} (h : KFp.Same s s') (h' : KFp.Same s' s'') : KFp.Same s s'' :=
  ⟨h.b.trans h'.b, h.omega.trans h'.omega, h.ma.trans h'.ma, h.pset.trans h'.pset⟩

theorem KFp.Run.same {k : ℕ} {s s' : KFp p} (h : KFp.Run k s s') : KFp.Same s s' :=
  ⟨h.b.toBSame, h.omega, h.ma, h.pset⟩

theorem KFp.Coef.same {k : ℕ} {s s' : KFp p} (h : KFp.Coef k s s') : KFp.Same s s' :=
  ⟨h.b.toBSame, h.omega, h.ma, h.pset⟩

theorem KFp.reset_rel {s s' : KFp p} (h : KFp.Same s s') :
    ResRel (fun a b => KFp.Run 1 a b ∧ KFp.Same s a) (KFp.reset s) (KFp.reset s') := by
  obtain ⟨⟨mean, var, time, dt, y, yerr, sg, cur, yc, ys⟩, om, ma, ps, st, sv, rm, pv, ga, rh, inn, sc, ss⟩ := s
  obtain ⟨⟨mean', var', time', dt', y', yerr', sg', cur', yc', ys'⟩, om', ma', ps', st', sv', rm', pv', ga', rh', inn',
    sc', ss'⟩ := s'
  obtain ⟨⟨h1, h2, h3, h4, h5, h6, h7, h8, h9⟩, ho, hma, hps⟩ := h
  dsimp only at *
  subst h1 h2 h3 h4 h5 ho hma hps
  unfold KFp.reset
  dsimp only
  by_cases hc1 : ps = false
  · simp only [hc1, if_true]; rfl
  by_cases hc2 : p < 2
  · simp only [hc1, hc2, if_true]; rfl
  simp only [hc1, hc2, if_false]
  rb J
  rb R
  rb V
  refine ResRel.bind ((Agree.zero (h6.trans h7.symm)).wr 0 0 le_rfl) fun m m' hm => ?_
  rb e
  refine ResRel.bind ((Agree.zero (h8.trans h9.symm)).wr 0 _ le_rfl) fun v v' hv => ?_
  refine ResRel.bind (hv.1.rd (by omega)) fun v0 _ hv0 => ?_
  subst hv0
  refine ResRel.bind (hv.1.wr 0 _ (by omega)) fun w w' hw => ?_
  rb y0
  have e1 : m.length = time.length := hm.2.trans h6
  have e2 : w.length = time.length := hw.2.trans (hv.2.trans h8)
  refine ResRel.pure ⟨⟨⟨⟨rfl, rfl, rfl, rfl, rfl, e1, hm.1.1 ▸ e1, e2, hw.1.1 ▸ e2⟩, rfl, rfl, hm.1, hw.1⟩, rfl, rfl, rfl,
    rfl, rfl, rfl, rfl, rfl⟩, ⟨rfl, rfl, rfl, rfl, rfl, h6, e1, h8, e2⟩, rfl, rfl, rfl⟩

theorem KFp.update_rel {k : ℕ} {s s' : KFp p} (h : KFp.Run k s s') :
    ResRel (fun a b => KFp.Run (k+1) a b ∧ KFp.Same s a) (KFp.update s) (KFp.update s') := by
  obtain ⟨⟨mean, var, time, dt, y, yerr, sg, cur, yc, ys⟩, om, ma, ps, st, sv, rm, pv, ga, rh, inn, sc, ss⟩ := s
  obtain ⟨⟨mean', var', time', dt', y', yerr', sg', cur', yc', ys'⟩, om', ma', ps', st', sv', rm', pv', ga', rh', inn',
    sc', ss'⟩ := s'
  obtain ⟨⟨⟨h1, h2, h3, h4, h5, h6, h7, h8, h9⟩, hc, hc', hm, hv⟩, ho, hma, hps, g1, g2, g3, g4, g5⟩ := h
  dsimp only at *
  subst h1 h2 h3 h4 h5 ho hma hps g1 g2 g3 g4 g5 hc hc'
  unfold KFp.update
  dsimp only
  refine ResRel.bind (prevIdx_rel cur') fun c1 _ hc1 => ?_
  obtain ⟨rfl, hc1⟩ := hc1
  refine ResRel.bind (hv.rd hc1) fun vp _ hvp => ?_
  subst hvp
  rb gain
  rb d
  refine ResRel.bind (hm.wr cur' _ le_rfl) fun m m' hm' => ?_
  refine ResRel.bind (hv.wr cur' _ le_rfl) fun v v' hv' => ?_
  refine ResRel.bind (hv'.1.rd (by omega)) fun vc _ hvc => ?_
  subst hvc
  rb ec
  refine ResRel.bind ((BRun.max_eq hv'.1).wr cur' _ (by omega)) fun v2 v2' hv2 => ?_
  rb yc
  refine ResRel.bind (hm'.1.rd (by omega)) fun mc _ hmc => ?_
  subst hmc
  have e1 : m.length = time.length := hm'.2.trans h6
  have e2 : v2.length = time.length := hv2.2.trans (hv'.2.trans h8)
  refine ResRel.pure ⟨⟨⟨⟨rfl, rfl, rfl, rfl, rfl, e1, hm'.1.1 ▸ e1, e2, hv2.1.1 ▸ e2⟩, rfl, rfl, BRun.max_eq hm'.1,
    by simpa using hv2.1⟩, rfl, rfl, rfl, rfl, rfl, rfl, rfl, rfl⟩, ⟨rfl, rfl, rfl, rfl, rfl, h6, e1, h8, e2⟩, rfl, rfl,
    rfl⟩

theorem KFp.iter_rel {k : ℕ} {s s' : KFp p} (h : KFp.Run k s s') (m : ℕ) :
    ResRel (fun a b => KFp.Run (k+m) a b ∧ KFp.Same s a) (iter KFp.update m s) (iter KFp.update m s') := by
  induction m with
  | zero => exact ⟨h, KFp.same_refl_left h.same⟩
  | succ m ih =>
      unfold iter
      refine ResRel.bind ih fun a b hab => ?_
      refine (KFp.update_rel hab.1).mono fun a' b' h' => ⟨h'.1, hab.2.trans h'.2⟩

theorem KFp.initCoefs_rel {k : ℕ} {s s' : KFp p} (h : KFp.Run k s s') (t : ℝ) (i : ℕ) (ym yv : ℝ) (hi : i ≤ k) :
    ResRel (fun a b => KFp.Coef (i+1) a b ∧ KFp.Same s a) (KFp.initCoefs s t i ym yv) (KFp.initCoefs s' t i ym yv) := by
  obtain ⟨⟨mean, var, time, dt, y, yerr, sg, cur, yc, ys⟩, om, ma, ps, st, sv, rm, pv, ga, rh, inn, sc, ss⟩ := s
  obtain ⟨⟨mean', var', time', dt', y', yerr', sg', cur', yc', ys'⟩, om', ma', ps', st', sv', rm', pv', ga', rh', inn',
    sc', ss'⟩ := s'
  obtain ⟨⟨⟨h1, h2, h3, h4, h5, h6, h7, h8, h9⟩, hc, hc', hm, hv⟩, ho, hma, hps, g1, g2, g3, g4, g5⟩ := h
  dsimp only at *
  subst h1 h2 h3 h4 h5 ho hma hps g1 g2 g3 g4 g5 hc hc'
  unfold KFp.initCoefs
  dsimp only
  rb gain
  rb ti
  rb ei
  refine ResRel.bind (hv.wr i _ hi) fun v v' hv' => ?_
  have e2 : v.length = time.length := hv'.2.trans h8
  refine ResRel.pure ⟨⟨⟨⟨rfl, rfl, rfl, rfl, rfl, h6, h7, e2, hv'.1.1 ▸ e2⟩, rfl, rfl,
    hv'.1.mono (le_max_right _ _), rfl, rfl⟩, rfl, rfl, rfl, rfl, rfl, rfl, rfl, rfl⟩,
    ⟨rfl, rfl, rfl, rfl, rfl, h6, h6, h8, e2⟩, rfl, rfl, rfl⟩

theorem KFp.updateCoefs_rel {k : ℕ} {s s' : KFp p} (h : KFp.Coef k s s') :
    ResRel (fun a b => KFp.Coef (k+1) a b ∧ KFp.Same s a) (KFp.updateCoefs s) (KFp.updateCoefs s') := by
  obtain ⟨⟨mean, var, time, dt, y, yerr, sg, cur, yc, ys⟩, om, ma, ps, st, sv, rm, pv, ga, rh, inn, sc, ss⟩ := s
  obtain ⟨⟨mean', var', time', dt', y', yerr', sg', cur', yc', ys'⟩, om', ma', ps', st', sv', rm', pv', ga', rh', inn',
    sc', ss'⟩ := s'
  obtain ⟨⟨⟨h1, h2, h3, h4, h5, h6, h7, h8, h9⟩, hc, hc', hv, hy, hs⟩, ho, hma, hps, g2, g3, g4, g5, g6⟩ := h
  dsimp only at *
  subst h1 h2 h3 h4 h5 ho hma hps g2 g3 g4 g5 g6 hc hc' hy hs
  unfold KFp.updateCoefs
  dsimp only
  refine ResRel.bind (prevIdx_rel cur') fun c1 _ hc1 => ?_
  obtain ⟨rfl, hc1⟩ := hc1
  refine ResRel.bind (hv.rd hc1) fun vp _ hvp => ?_
  subst hvp
  rb gain
  rb yp
  rb d
  rb ec
  refine ResRel.bind (hv.wr cur' _ le_rfl) fun v v' hv' => ?_
  have e2 : v.length = time.length := hv'.2.trans h8
  refine ResRel.pure ⟨⟨⟨⟨rfl, rfl, rfl, rfl, rfl, h6, h7, e2, hv'.1.1 ▸ e2⟩, rfl, rfl,
    BRun.max_eq hv'.1, rfl, rfl⟩, rfl, rfl, rfl, rfl, rfl, rfl, rfl, rfl⟩,
    ⟨rfl, rfl, rfl, rfl, rfl, h6, h6, h8, e2⟩, rfl, rfl, rfl⟩

theorem KFp.accum_rel {k i : ℕ} {s s' : KFp p} (h : KFp.Coef k s s') (hi : i < k) (acc : ℝ × ℝ) :
    ResRel (· = ·) (KFp.accum s i acc) (KFp.accum s' i acc) := by
  unfold KFp.accum
  rw [← h.b.y, ← h.b.yslope, ← h.b.yconst]
  refine ResRel.bind (h.b.var.rd hi) fun vp _ hvp => ?_
  subst hvp
  exact ResRel.refl (fun _ => rfl) _

theorem KFp.coefLoop_rel (m : ℕ) {k : ℕ} {s s' : KFp p} (h : KFp.Coef k s s') (acc : ℝ × ℝ) :
    ResRel (fun a b => KFp.Same s a.1 ∧ KFp.Same s' b.1 ∧ a.2 = b.2) (KFp.coefLoop m k s acc)
      (KFp.coefLoop m k s' acc) := by
  induction m generalizing k s s' acc with
  | zero => exact ⟨KFp.same_refl_left h.same, KFp.same_refl_left h.same.symm, rfl⟩
  | succ m ih =>
      unfold KFp.coefLoop
      refine ResRel.bind (KFp.updateCoefs_rel h) fun a b hab => ?_
      refine ResRel.bind (KFp.accum_rel hab.1 (by omega) acc) fun x _ hx => ?_
      subst hx
      refine (ih hab.1 x).mono fun c d hcd => ⟨hab.2.trans hcd.1, ?_, hcd.2.2⟩
      exact h.same.symm.trans (hab.2.trans (hab.1.same.trans hcd.2.1))

theorem KFp.predictPast_rel {k ip : ℕ} {s s' : KFp p} (h : KFp.Run k s s') (t : ℝ) (hi : ip ≤ k) :
    ResRel (fun a b => KFp.Run k a.1 b.1 ∧ KFp.Same s a.1 ∧ a.2 = b.2) (KFp.predictPast s t ip)
      (KFp.predictPast s' t ip) := by
  obtain ⟨⟨mean, var, time, dt, y, yerr, sg, cur, yc, ys⟩, om, ma, ps, st, sv, rm, pv, ga, rh, inn, sc, ss⟩ := s
  obtain ⟨⟨mean', var', time', dt', y', yerr', sg', cur', yc', ys'⟩, om', ma', ps', st', sv', rm', pv', ga', rh', inn',
    sc', ss'⟩ := s'
  obtain ⟨⟨⟨h1, h2, h3, h4, h5, h6, h7, h8, h9⟩, hc, hc', hm, hv⟩, ho, hma, hps, g1, g2, g3, g4, g5⟩ := h
  dsimp only at *
  subst h1 h2 h3 h4 h5 ho hma hps g1 g2 g3 g4 g5 hc hc'
  unfold KFp.predictPast
  dsimp only
  split
  · exact ResRel.pure ⟨⟨⟨⟨rfl, rfl, rfl, rfl, rfl, h6, h7, h8, h9⟩, rfl, rfl, hm, hv⟩, rfl, rfl, rfl, rfl, rfl, rfl, rfl,
      rfl⟩, ⟨⟨rfl, rfl, rfl, rfl, rfl, h6, h6, h8, h8⟩, rfl, rfl, rfl⟩, rfl⟩
  · refine ResRel.bind (hv.rd (by omega)) fun vp _ hvp => ?_
    subst hvp
    rb gain
    rb tp
    exact ResRel.pure ⟨⟨⟨⟨rfl, rfl, rfl, rfl, rfl, h6, h7, h8, h9⟩, rfl, rfl, hm, hv⟩, rfl, rfl, rfl, rfl, rfl, rfl, rfl,
      rfl⟩, ⟨⟨rfl, rfl, rfl, rfl, rfl, h6, h6, h8, h8⟩, rfl, rfl, rfl⟩, rfl⟩

theorem KFp.predict_rel {s s' : KFp p} (h : KFp.Same s s') (t : ℝ) :
    ResRel (fun a b => KFp.Same s a.1 ∧ KFp.Same s' b.1 ∧ a.2 = b.2) (KFp.predict s t) (KFp.predict s' t) := by
  unfold KFp.predict
  rw [← h.b.time]
  rb ip
  refine ResRel.bind (KFp.reset_rel h) fun a b hab => ?_
  refine ResRel.bind (KFp.iter_rel hab.1 (ip - 1)) fun c₀ d₀ hcd₀ => ?_
  refine ResRel.bind (KFp.predictPast_rel (ip := ip) hcd₀.1 t (by omega)) fun mv mv' hmv => ?_
  obtain ⟨c, m, v⟩ := mv
  obtain ⟨d, m', v'⟩ := mv'
  obtain ⟨hcd, hcc, hmv⟩ := hmv
  dsimp only at hcd hcc hmv ⊢
  cases hmv
  have hsc : KFp.Same s c := hab.2.trans (hcd₀.2.trans hcc)
  have hsd : KFp.Same s' d := h.symm.trans (hsc.trans hcd.same)
  rw [← hcd.b.time]
  split
  · exact ResRel.pure ⟨hsc, hsd, rfl⟩
  · rb yp
    rb ym
    refine ResRel.bind (KFp.initCoefs_rel hcd t ip _ _ (by omega)) fun e f hef => ?_
    refine ResRel.bind (KFp.accum_rel hef.1 (by omega) _) fun x _ hx => ?_
    subst hx
    rw [← hef.1.b.time]
    refine ResRel.bind (KFp.coefLoop_rel _ hef.1 x) fun g g' hg => ?_
    obtain ⟨g1, acc⟩ := g
    obtain ⟨g2, acc'⟩ := g'
    obtain ⟨hg1, hg2, hg3⟩ := hg
    dsimp only at hg1 hg2 hg3 ⊢
    subst hg3
    rb pv
    refine ResRel.pure ⟨hsc.trans (hef.2.trans hg1), ?_, rfl⟩
    exact hsd.trans (hcd.same.symm.trans (hef.2.trans (hef.1.same.trans hg2)))

theorem KFp.filter_rel {s s' : KFp p} (h : KFp.Same s s') :
    ResRel (fun a b => KFp.Same s a ∧ KFp.Same s' b ∧ a.b.mean = b.b.mean ∧ a.b.var = b.b.var)
      (Kalman.filter s) (Kalman.filter s') := by
  unfold Kalman.filter
  refine ResRel.bind (KFp.reset_rel h) fun a b hab => ?_
  have ht : (Kalman.base b).time.length = (Kalman.base a).time.length := by
    show b.b.time.length = a.b.time.length
    rw [hab.1.b.time]
  rw [ht]
  refine (KFp.iter_rel hab.1 _).mono fun c d hcd => ?_
  have hsc : KFp.Same s c := hab.2.trans hcd.2
  have hl : (Kalman.base a).time.length = c.b.time.length := by
    show a.b.time.length = _
    rw [hcd.2.b.time]
  refine ⟨hsc, h.symm.trans (hsc.trans hcd.1.same), hcd.1.b.mean.eq ?_, hcd.1.b.var.eq ?_⟩
  · have := hcd.1.b.mlen; omega
  · have := hcd.1.b.vlen; omega

/-- Same parameters. -/
def KFp.Par (s s' : KFp p) : Prop := s.omega = s'.omega ∧ s.ma = s'.ma ∧ s.pset = s'.pset

theorem KFp.same_iff {s s' : KFp p} : KFp.Same s s' ↔ Verif.Theory.Same KFp.Par s s' :=
  ⟨fun h => ⟨h.b, h.omega, h.ma, h.pset⟩, fun h => ⟨h.1, h.2.1, h.2.2.1, h.2.2.2⟩⟩

theorem KFp.framed : Framed (KFp p) KFp.Par where
  symm _ _ h := ⟨h.1.symm, h.2.1.symm, h.2.2.symm⟩
  trans _ _ _ h h' := ⟨h.1.trans h'.1, h.2.1.trans h'.2.1, h.2.2.trans h'.2.2⟩
  set _ _ := ⟨rfl, rfl, rfl⟩
  base_setBase _ _ := rfl
  filter _ _ h := by
    simp only [← KFp.same_iff] at h ⊢
    exact KFp.filter_rel h
  predict _ _ t h := by
    simp only [← KFp.same_iff] at h ⊢
    exact KFp.predict_rel h t

end Verif.Theory
