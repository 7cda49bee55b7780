import Verif.Theory.Frame

/-! Frame of `KalmanFilter1`. -/

namespace Verif.Theory

open Verif.Model

/-- Step over a computation that is the same on both sides. -/
macro "rb" x:ident : tactic => `(tactic|
  (refine ResRel.bind (ResRel.refl (R := (· = ·)) (fun _ => rfl) _) fun $x _ hrb => ?_; subst hrb))

/-- Same data and parameters. -/
def KF1.Same (s s' : KF1) : Prop := BSame s.b s'.b ∧ s.omega = s'.omega

/-- Same data and parameters, results agree below the running index. -/
def KF1.Run (k : ℕ) (s s' : KF1) : Prop := BRun k s.b s'.b ∧ s.omega = s'.omega

/-- Coefficient phase of `Predict`. -/
def KF1.Coef (k : ℕ) (s s' : KF1) : Prop := BCoef k s.b s'.b ∧ s.omega = s'.omega

theorem KF1.reset_rel {s s' : KF1} (h : KF1.Same s s') :
    ResRel (fun a b => KF1.Run 1 a b ∧ KF1.Same s a) (KF1.reset s) (KF1.reset s') := by
  obtain ⟨⟨mean, var, time, dt, y, yerr, sg, cur, yc, ys⟩, om⟩ := s
  obtain ⟨⟨mean', var', time', dt', y', yerr', sg', cur', yc', ys'⟩, om'⟩ := s'
  obtain ⟨hb, ho⟩ := h
  obtain ⟨h1, h2, h3, h4, h5, h6, h7, h8, h9⟩ := hb
  dsimp only at *
  subst h1 h2 h3 h4 h5 ho
  unfold KF1.reset
  dsimp only
  refine ResRel.bind ((Agree.zero (h6.trans h7.symm)).wr 0 0 le_rfl) fun m m' hm => ?_
  refine ResRel.bind (ResRel.refl (R := (· = ·)) (fun _ => rfl) _) fun q _ hq => ?_
  subst hq
  refine ResRel.bind (ResRel.refl (R := (· = ·)) (fun _ => rfl) _) fun e _ he => ?_
  subst he
  refine ResRel.bind ((Agree.zero (h8.trans h9.symm)).wr 0 _ le_rfl) fun v v' hv => ?_
  have e1 : m.length = time.length := hm.2.trans h6
  have e2 : v.length = time.length := hv.2.trans h8
  refine ResRel.pure ⟨⟨⟨⟨rfl, rfl, rfl, rfl, rfl, e1, hm.1.1 ▸ e1, e2, hv.1.1 ▸ e2⟩, rfl, rfl, hm.1, hv.1⟩, rfl⟩,
    ⟨rfl, rfl, rfl, rfl, rfl, h6, e1, h8, e2⟩, rfl⟩

theorem BRun.max_eq {k : ℕ} {l l' : List ℝ} (h : Agree (max k (k+1)) l l') : Agree (k+1) l l' := by
  rwa [max_eq_right (Nat.le_succ k)] at h

theorem prevIdx_rel (c : ℕ) : ResRel (fun a b => a = b ∧ a < c) (prevIdx c) (prevIdx c) := by
  unfold prevIdx
  split
  · rfl
  · exact ⟨rfl, by omega⟩

theorem KF1.update_rel {k : ℕ} {s s' : KF1} (h : KF1.Run k s s') :
    ResRel (fun a b => KF1.Run (k+1) a b ∧ KF1.Same s a) (KF1.update s) (KF1.update s') := by
  obtain ⟨⟨mean, var, time, dt, y, yerr, sg, cur, yc, ys⟩, om⟩ := s
  obtain ⟨⟨mean', var', time', dt', y', yerr', sg', cur', yc', ys'⟩, om'⟩ := s'
  obtain ⟨⟨⟨h1, h2, h3, h4, h5, h6, h7, h8, h9⟩, hc, hc', hm, hv⟩, ho⟩ := h
  dsimp only at *
  subst h1 h2 h3 h4 h5 ho hc hc'
  unfold KF1.update
  dsimp only
  refine ResRel.bind (prevIdx_rel cur') fun c1 _ hc1 => ?_
  obtain ⟨rfl, hc1⟩ := hc1
  rb d
  refine ResRel.bind (hv.rd hc1) fun vp _ hvp => ?_
  subst hvp
  rb ep
  rb vr
  refine ResRel.bind (hm.rd hc1) fun mp _ hmp => ?_
  subst hmp
  rb yp
  refine ResRel.bind (hm.wr cur' _ le_rfl) fun m m' hm' => ?_
  rb q
  refine ResRel.bind (hv.wr cur' _ le_rfl) fun v v' hv' => ?_
  rb ec
  refine ResRel.bind (hv'.1.rd (by omega)) fun vc _ hvc => ?_
  subst hvc
  refine ResRel.bind ((BRun.max_eq hv'.1).wr cur' _ (by omega)) fun v2 v2' hv2 => ?_
  have e1 : m.length = time.length := hm'.2.trans h6
  have e2 : v2.length = time.length := hv2.2.trans (hv'.2.trans h8)
  refine ResRel.pure ⟨⟨⟨⟨rfl, rfl, rfl, rfl, rfl, e1, hm'.1.1 ▸ e1, e2, hv2.1.1 ▸ e2⟩, rfl, rfl, BRun.max_eq hm'.1,
    by simpa using hv2.1⟩, rfl⟩, ⟨rfl, rfl, rfl, rfl, rfl, h6, e1, h8, e2⟩, rfl⟩

theorem KF1.same_refl_left {s s' : KF1} (h : KF1.Same s s') : KF1.Same s s :=
  ⟨⟨rfl, rfl, rfl, rfl, rfl, h.1.mlen, h.1.mlen, h.1.vlen, h.1.vlen⟩, rfl⟩

theorem KF1.Same.symm {s s' : KF1} (h : KF1.Same s s') : KF1.Same s' s := ⟨h.1.symm, h.2.symm⟩

theorem KF1.Same.trans {s s' s'' : KF1} (h : KF1.Same s s') (h' : KF1.Same s' s'') : KF1.Same s s'' :=
  ⟨h.1.trans h'.1, h.2.trans h'.2⟩

theorem KF1.Run.same {k : ℕ} {s s' : KF1} (h : KF1.Run k s s') : KF1.Same s s' := ⟨h.1.toBSame, h.2⟩

theorem KF1.Coef.same {k : ℕ} {s s' : KF1} (h : KF1.Coef k s s') : KF1.Same s s' := ⟨h.1.toBSame, h.2⟩

theorem KF1.iter_rel {k : ℕ} {s s' : KF1} (h : KF1.Run k s s') (m : ℕ) :
    ResRel (fun a b => KF1.Run (k+m) a b ∧ KF1.Same s a) (iter KF1.update m s) (iter KF1.update m s') := by
  induction m with
  | zero => exact ⟨h, KF1.same_refl_left h.same⟩
  | succ m ih =>
      unfold iter
      refine ResRel.bind ih fun a b hab => ?_
      refine (KF1.update_rel hab.1).mono fun a' b' h' => ⟨h'.1, hab.2.trans h'.2⟩

theorem KF1.initCoefs_rel {k : ℕ} {s s' : KF1} (h : KF1.Run k s s') (t : ℝ) (i : ℕ) (hi : i ≤ k) :
    ResRel (fun a b => KF1.Coef (i+1) a b ∧ KF1.Same s a) (KF1.initCoefs s t i) (KF1.initCoefs s' t i) := by
  obtain ⟨⟨mean, var, time, dt, y, yerr, sg, cur, yc, ys⟩, om⟩ := s
  obtain ⟨⟨mean', var', time', dt', y', yerr', sg', cur', yc', ys'⟩, om'⟩ := s'
  obtain ⟨⟨⟨h1, h2, h3, h4, h5, h6, h7, h8, h9⟩, hc, hc', hm, hv⟩, ho⟩ := h
  dsimp only at *
  subst h1 h2 h3 h4 h5 ho hc hc'
  unfold KF1.initCoefs
  dsimp only
  rb ti
  rb q
  rb ei
  refine ResRel.bind (hv.wrU i _ hi) fun v v' hv' => ?_
  have e2 : v.length = time.length := hv'.2.trans h8
  refine ResRel.pure ⟨⟨⟨⟨rfl, rfl, rfl, rfl, rfl, h6, h7, e2, hv'.1.1 ▸ e2⟩, rfl, rfl,
    hv'.1.mono (le_max_right _ _), rfl, rfl⟩, rfl⟩, ⟨rfl, rfl, rfl, rfl, rfl, h6, h6, h8, e2⟩, rfl⟩

theorem KF1.updateCoefs_rel {k : ℕ} {s s' : KF1} (h : KF1.Coef k s s') :
    ResRel (fun a b => KF1.Coef (k+1) a b ∧ KF1.Same s a) (KF1.updateCoefs s) (KF1.updateCoefs s') := by
  obtain ⟨⟨mean, var, time, dt, y, yerr, sg, cur, yc, ys⟩, om⟩ := s
  obtain ⟨⟨mean', var', time', dt', y', yerr', sg', cur', yc', ys'⟩, om'⟩ := s'
  obtain ⟨⟨⟨h1, h2, h3, h4, h5, h6, h7, h8, h9⟩, hc, hc', hv, hy, hs⟩, ho⟩ := h
  dsimp only at *
  subst h1 h2 h3 h4 h5 ho hc hc' hy hs
  unfold KF1.updateCoefs
  dsimp only
  refine ResRel.bind (prevIdx_rel cur') fun c1 _ hc1 => ?_
  obtain ⟨rfl, hc1⟩ := hc1
  rb d
  refine ResRel.bind (hv.rd hc1) fun vp _ hvp => ?_
  subst hvp
  rb ep
  rb vr
  rb yp
  rb q
  rb ec
  refine ResRel.bind (hv.wr cur' _ le_rfl) fun v v' hv' => ?_
  have e2 : v.length = time.length := hv'.2.trans h8
  refine ResRel.pure ⟨⟨⟨⟨rfl, rfl, rfl, rfl, rfl, h6, h7, e2, hv'.1.1 ▸ e2⟩, rfl, rfl,
    BRun.max_eq hv'.1, rfl, rfl⟩, rfl⟩, ⟨rfl, rfl, rfl, rfl, rfl, h6, h6, h8, e2⟩, rfl⟩

theorem KF1.accum_rel {k i : ℕ} {s s' : KF1} (h : KF1.Coef k s s') (hi : i < k) (acc : ℝ × ℝ) :
    ResRel (· = ·) (KF1.accum s i acc) (KF1.accum s' i acc) := by
  obtain ⟨⟨mean, var, time, dt, y, yerr, sg, cur, yc, ys⟩, om⟩ := s
  obtain ⟨⟨mean', var', time', dt', y', yerr', sg', cur', yc', ys'⟩, om'⟩ := s'
  obtain ⟨⟨⟨h1, h2, h3, h4, h5, h6, h7, h8, h9⟩, hc, hc', hv, hy, hs⟩, ho⟩ := h
  dsimp only at *
  subst h1 h2 h3 h4 h5 ho hc hc' hy hs
  unfold KF1.accum
  dsimp only
  refine ResRel.bind (hv.rd hi) fun vp _ hvp => ?_
  subst hvp
  exact ResRel.refl (fun _ => rfl) _

theorem KF1.coefLoop_rel (m : ℕ) {k : ℕ} {s s' : KF1} (h : KF1.Coef k s s') (acc : ℝ × ℝ) :
    ResRel (fun a b => KF1.Same s a.1 ∧ KF1.Same s' b.1 ∧ a.2 = b.2) (KF1.coefLoop m k s acc)
      (KF1.coefLoop m k s' acc) := by
  induction m generalizing k s s' acc with
  | zero => exact ⟨KF1.same_refl_left h.same, KF1.same_refl_left h.same.symm, rfl⟩
  | succ m ih =>
      unfold KF1.coefLoop
      refine ResRel.bind (KF1.updateCoefs_rel h) fun a b hab => ?_
      refine ResRel.bind (KF1.accum_rel hab.1 (by omega) acc) fun x _ hx => ?_
      subst hx
      refine (ih hab.1 x).mono fun c d hcd => ⟨hab.2.trans hcd.1, ?_, hcd.2.2⟩
      exact h.same.symm.trans (hab.2.trans (hab.1.same.trans hcd.2.1))

theorem KF1.predictPast_rel {k ip : ℕ} {s s' : KF1} (h : KF1.Run k s s') (t : ℝ) (hi : ip ≤ k) :
    ResRel (· = ·) (KF1.predictPast s t ip) (KF1.predictPast s' t ip) := by
  obtain ⟨⟨mean, var, time, dt, y, yerr, sg, cur, yc, ys⟩, om⟩ := s
  obtain ⟨⟨mean', var', time', dt', y', yerr', sg', cur', yc', ys'⟩, om'⟩ := s'
  obtain ⟨⟨⟨h1, h2, h3, h4, h5, h6, h7, h8, h9⟩, hc, hc', hm, hv⟩, ho⟩ := h
  dsimp only at *
  subst h1 h2 h3 h4 h5 ho hc hc'
  unfold KF1.predictPast
  dsimp only
  rb q
  split
  · exact ResRel.refl (fun _ => rfl) _
  · rb tp
    refine ResRel.bind (hv.rd (by omega)) fun vp _ hvp => ?_
    subst hvp
    rb ep
    rb vr
    refine ResRel.bind (hm.rd (by omega)) fun mp _ hmp => ?_
    subst hmp
    exact ResRel.refl (fun _ => rfl) _

theorem KF1.predict_rel {s s' : KF1} (h : KF1.Same s s') (t : ℝ) :
    ResRel (fun a b => KF1.Same s a.1 ∧ KF1.Same s' b.1 ∧ a.2 = b.2) (KF1.predict s t) (KF1.predict s' t) := by
  unfold KF1.predict
  rw [← h.1.time]
  rb ip
  refine ResRel.bind (KF1.reset_rel h) fun a b hab => ?_
  refine ResRel.bind (KF1.iter_rel hab.1 (ip - 1)) fun c d hcd => ?_
  refine ResRel.bind (KF1.predictPast_rel (ip := ip) hcd.1 t (by omega)) fun mv _ hmv => ?_
  subst hmv
  have hsc : KF1.Same s c := hab.2.trans hcd.2
  have hsd : KF1.Same s' d := h.symm.trans (hsc.trans hcd.1.same)
  obtain ⟨m, v⟩ := mv
  dsimp only
  rw [← hcd.1.1.time]
  split
  · exact ResRel.pure ⟨hsc, hsd, rfl⟩
  · rb yp
    refine ResRel.bind (KF1.initCoefs_rel hcd.1 t ip (by omega)) fun e f hef => ?_
    refine ResRel.bind (KF1.accum_rel hef.1 (by omega) _) fun x _ hx => ?_
    subst hx
    rw [← hef.1.1.time]
    refine ResRel.bind (KF1.coefLoop_rel _ hef.1 x) fun g g' hg => ?_
    obtain ⟨g1, acc⟩ := g
    obtain ⟨g2, acc'⟩ := g'
    obtain ⟨hg1, hg2, hg3⟩ := hg
    dsimp only at hg1 hg2 hg3 ⊢
    subst hg3
    rb pv
    refine ResRel.pure ⟨hsc.trans (hef.2.trans hg1), ?_, rfl⟩
    exact hsd.trans (hcd.1.same.symm.trans (hef.2.trans (hef.1.same.trans hg2)))

theorem KF1.filter_rel {s s' : KF1} (h : KF1.Same s s') :
    ResRel (fun a b => KF1.Same s a ∧ KF1.Same s' b ∧ a.b.mean = b.b.mean ∧ a.b.var = b.b.var)
      (Kalman.filter s) (Kalman.filter s') := by
  unfold Kalman.filter
  refine ResRel.bind (KF1.reset_rel h) fun a b hab => ?_
  have ht : (Kalman.base b).time.length = (Kalman.base a).time.length := by
    show b.b.time.length = a.b.time.length
    rw [hab.1.1.time]
  rw [ht]
  refine (KF1.iter_rel hab.1 _).mono fun c d hcd => ?_
  have hsc : KF1.Same s c := hab.2.trans hcd.2
  have hl : (Kalman.base a).time.length = c.b.time.length := by
    show a.b.time.length = _
    rw [hcd.2.1.time]
  refine ⟨hsc, h.symm.trans (hsc.trans hcd.1.same), hcd.1.1.mean.eq ?_, hcd.1.1.var.eq ?_⟩
  · have := hcd.1.1.mlen; omega
  · have := hcd.1.1.vlen; omega

theorem KF1.framed : Framed KF1 (fun a b => a.omega = b.omega) where
  symm _ _ h := h.symm
  trans _ _ _ h h' := h.trans h'
  set _ _ := rfl
  base_setBase _ _ := rfl
  filter _ _ h := KF1.filter_rel h
  predict _ _ t h := KF1.predict_rel h t

end Verif.Theory
