import Verif.Theory.FCarmaHist
import Verif.Theory.FSimTotal
import Verif.Spec.FPredictP

/-!
`Predict` and `Simulate` of a CARMA filter return for any numbers, and what they return depends only on the data and the parameters.
-/

namespace Verif.Theory

open Verif.Model Verif.Spec
open scoped Classical

variable {C : CArith} {p : ℕ}

/-- objects with the same data and parameters -/
structure PSame (s k : FKFp p) : Prop where
  time : k.b.time = s.b.time
  dt : k.b.dt = s.b.dt
  y : k.b.y = s.b.y
  yerr : k.b.yerr = s.b.yerr
  sig : k.b.sigsqr = s.b.sigsqr
  omega : k.omega = s.omega
  ma : k.ma = s.ma
  lmean : k.b.mean.length = s.b.mean.length
  lvar : k.b.var.length = s.b.var.length

theorem PSame.refl (s : FKFp p) : PSame s s := ⟨rfl, rfl, rfl, rfl, rfl, rfl, rfl, rfl, rfl⟩

theorem PSame.trans {s k l : FKFp p} (h : PSame s k) (h' : PSame k l) : PSame s l :=
  ⟨h'.time.trans h.time, h'.dt.trans h.dt, h'.y.trans h.y, h'.yerr.trans h.yerr, h'.sig.trans h.sig, h'.omega.trans h.omega, h'.ma.trans h.ma,
    h'.lmean.trans h.lmean, h'.lvar.trans h.lvar⟩

theorem PSame.symm {s k : FKFp p} (h : PSame s k) : PSame k s :=
  ⟨h.time.symm, h.dt.symm, h.y.symm, h.yerr.symm, h.sig.symm, h.omega.symm, h.ma.symm, h.lmean.symm, h.lvar.symm⟩

theorem reset_psame {s s' : FKFp p} (h : FKFp.reset C s = .ok s') : PSame s s' := by
  unfold FKFp.reset at h
  dsimp only at h
  split at h
  · cases h
  obtain ⟨J, h1, h⟩ := bind_ok h
  split at h
  · cases h
  obtain ⟨mean, h2, h⟩ := bind_ok h
  obtain ⟨e0, h3, h⟩ := bind_ok h
  obtain ⟨var, h4, h⟩ := bind_ok h
  obtain ⟨v0, h5, h⟩ := bind_ok h
  obtain ⟨var', h6, h⟩ := bind_ok h
  obtain ⟨y0, h7, h⟩ := bind_ok h
  injection h with h
  subst h
  exact ⟨rfl, rfl, rfl, rfl, rfl, rfl, rfl, wr_len h2, (wr_len h6).trans (wr_len h4)⟩

theorem update_psame {s s' : FKFp p} (h : FKFp.update C s = .ok s') : PSame s s' := by
  unfold FKFp.update at h
  dsimp only at h
  obtain ⟨c1, h1, h⟩ := bind_ok h
  obtain ⟨vp, h2, h⟩ := bind_ok h
  obtain ⟨dt, h4, h⟩ := bind_ok h
  obtain ⟨mean, h5, h⟩ := bind_ok h
  obtain ⟨var, h6, h⟩ := bind_ok h
  obtain ⟨vc, h7, h⟩ := bind_ok h
  obtain ⟨ec, h8, h⟩ := bind_ok h
  obtain ⟨var', h9, h⟩ := bind_ok h
  obtain ⟨yc, h10, h⟩ := bind_ok h
  obtain ⟨mc, h11, h⟩ := bind_ok h
  injection h with h
  subst h
  exact ⟨rfl, rfl, rfl, rfl, rfl, rfl, rfl, wr_len h5, (wr_len h9).trans (wr_len h6)⟩

theorem iter_psame {s s' : FKFp p} {k : ℕ} (h : iter (FKFp.update C) k s = .ok s') : PSame s s' := by
  induction k generalizing s' with
  | zero => cases h; exact .refl s
  | succ k ih =>
    obtain ⟨s1, h1, h⟩ := bind_ok h
    exact (ih h1).trans (update_psame h)

theorem filter_psame {s s' : FKFp p} (h : FKFp.filter C s = .ok s') : PSame s s' := by
  obtain ⟨s1, h1, h⟩ := bind_ok h
  exact (reset_psame h1).trans (iter_psame h)

/-! ### the prediction as a function of data and parameters -/

/-- after the part of `Predict` that uses the past -/
structure MP (p : ℕ) where
  state : Fin p → CD
  P : Fin p → Fin p → CD
  m : Dbl
  v : Dbl

/-- what `UpdateCoefs` carries from one observation to the next -/
structure CoefP (p : ℕ) where
  sconst : Fin p → CD
  sslope : Fin p → CD
  P : Fin p → Fin p → CD
  yc : Dbl
  ys : Dbl
  v : Dbl

/-- the stationary covariance -/
noncomputable def statOf (C : CArith) (s : FKFp p) (J : Fin p → CD) : Fin p → Fin p → CD := FKFp.stateVar C s.b.sigsqr s.omega J

/-- the past -/
noncomputable def pastOf (C : CArith) (s : FKFp p) (J : Fin p → CD) (x : Dbl) (ip : ℕ) : MP p :=
  if ip = 0 then { state := fun _ => CD.ofReal (.fin 0), P := statOf C s J, m := .fin 0, v := (C.form p (rotOf C s) (statOf C s J)).1 }
  else
    let q := seqOf C s J (ip - 1)
    let gain := FKFp.gainOf C (rotOf C s) q.P q.v
    let rho := FKFp.rhoOf C s.omega (C.r.sub x (s.b.time.getD (ip - 1) .nan)).abs
    let state : Fin p → CD := fun k => C.cmul (rho k) (C.cadd (q.state k) (C.cmul (gain k) (CD.ofReal q.innov)))
    let P := FKFp.timeVar C rho (FKFp.measVar C q.P q.v gain) (statOf C s J)
    { state := state, P := P, m := (C.dot p (rotOf C s) state).1, v := (C.form p (rotOf C s) P).1 }

/-- the coefficients at the first observation of the future -/
noncomputable def cstart (C : CArith) (s : FKFp p) (J : Fin p → CD) (x : Dbl) (ip : ℕ) (M : MP p) (ymean : Dbl) : CoefP p :=
  let gain := FKFp.gainOf C (rotOf C s) M.P M.v
  let rho := FKFp.rhoOf C s.omega (C.r.sub (s.b.time.getD ip .nan) x).abs
  let sconst : Fin p → CD := fun k => C.cmul (rho k) (C.csub (M.state k) (C.cmul (gain k) (CD.ofReal ymean)))
  let sslope : Fin p → CD := fun k => C.cmul (rho k) (gain k)
  let P := FKFp.timeVar C rho (FKFp.measVar C M.P M.v gain) (statOf C s J)
  { sconst := sconst, sslope := sslope, P := P, yc := (C.dot p (rotOf C s) sconst).1, ys := (C.dot p (rotOf C s) sslope).1,
    v := C.r.add (C.form p (rotOf C s) P).1 (C.r.mul (s.b.yerr.getD ip .nan) (s.b.yerr.getD ip .nan)) }

/-- one `UpdateCoefs`, from observation `i` to the next -/
noncomputable def cnext (C : CArith) (s : FKFp p) (J : Fin p → CD) (i : ℕ) (c : CoefP p) : CoefP p :=
  let gain := FKFp.gainOf C (rotOf C s) c.P c.v
  let rho := FKFp.rhoOf C s.omega (s.b.dt.getD i .nan)
  let sconst : Fin p → CD := fun k => C.cmul (rho k) (C.cadd (c.sconst k) (C.cmul (gain k) (CD.ofReal (C.r.sub (s.b.y.getD i .nan) c.yc))))
  let sslope : Fin p → CD := fun k => C.cmul (rho k) (C.csub (c.sslope k) (C.cmul (gain k) (CD.ofReal c.ys)))
  let P := FKFp.timeVar C rho (FKFp.measVar C c.P c.v gain) (statOf C s J)
  { sconst := sconst, sslope := sslope, P := P, yc := (C.dot p (rotOf C s) sconst).1, ys := (C.dot p (rotOf C s) sslope).1,
    v := C.r.add (C.form p (rotOf C s) P).1 (C.r.mul (s.b.yerr.getD (i + 1) .nan) (s.b.yerr.getD (i + 1) .nan)) }

/-- the coefficients after `j` calls of `UpdateCoefs` -/
noncomputable def cseq (C : CArith) (s : FKFp p) (J : Fin p → CD) (ip : ℕ) (c : CoefP p) : ℕ → CoefP p
  | 0 => c
  | j + 1 => cnext C s J (ip + j) (cseq C s J ip c j)

/-- add the contribution of one observation -/
noncomputable def addObs (C : CArith) (c : CoefP p) (y : Dbl) (a : Dbl × Dbl) : Dbl × Dbl :=
  (C.r.add a.1 (C.r.div (C.r.mul c.ys c.ys) c.v), C.r.add a.2 (C.r.div (C.r.mul c.ys (C.r.sub y c.yc)) c.v))

/-- the sums after observation `ip + j` -/
noncomputable def aseq (C : CArith) (s : FKFp p) (J : Fin p → CD) (ip : ℕ) (c : CoefP p) (a : Dbl × Dbl) : ℕ → Dbl × Dbl
  | 0 => addObs C c (s.b.y.getD ip .nan) a
  | j + 1 => addObs C (cseq C s J ip c (j + 1)) (s.b.y.getD (ip + 1 + j) .nan) (aseq C s J ip c a j)

/-- the prediction -/
noncomputable def predOf (C : CArith) (s : FKFp p) (J : Fin p → CD) (x : Dbl) : Dbl × Dbl :=
  let ip := FKF1.scan x s.b.time
  let M := pastOf C s J x ip
  if ip = s.b.time.length then (M.m, M.v)
  else
    let yp := C.r.div (.fin 1) M.v
    let m := C.r.mul M.m yp
    let a := aseq C s J ip (cstart C s J x ip M (C.r.div m yp)) (yp, m) (s.b.time.length - (ip + 1))
    (C.r.mul a.2 (C.r.div (.fin 1) a.1), C.r.div (.fin 1) a.1)

theorem PSame.like {s k : FKFp p} (h : PSame s k) : KLike s k := ⟨h.dt, h.y, h.yerr, h.sig, h.omega, h.ma⟩

theorem PSame.pred {s k : FKFp p} (h : PSame s k) (J : Fin p → CD) (x : Dbl) : predOf C k J x = predOf C s J x := by
  have hr : rotOf C k = rotOf C s := by unfold rotOf; rw [h.ma, h.omega]
  have hV : statOf C k J = statOf C s J := by unfold statOf; rw [h.sig, h.omega]
  have hp : ∀ ip, pastOf C k J x ip = pastOf C s J x ip := by
    intro ip
    unfold pastOf
    rw [h.like.seq J, hr, hV, h.omega, h.time]
  have hi : ∀ ip M ym, cstart C k J x ip M ym = cstart C s J x ip M ym := by
    intro ip M ym
    unfold cstart
    rw [hr, hV, h.omega, h.time, h.yerr]
  have hn : ∀ i c, cnext C k J i c = cnext C s J i c := by
    intro i c
    unfold cnext
    rw [hr, hV, h.omega, h.dt, h.y, h.yerr]
  have hc : ∀ ip c j, cseq C k J ip c j = cseq C s J ip c j := by
    intro ip c j
    induction j with
    | zero => rfl
    | succ j ih => rw [cseq, cseq, hn, ih]
  have ha : ∀ ip c a j, aseq C k J ip c a j = aseq C s J ip c a j := by
    intro ip c a j
    induction j with
    | zero => rw [aseq, aseq, h.y]
    | succ j ih => rw [aseq, aseq, h.y, ih, hc]
  unfold predOf
  simp only [h.time, hp, hi, ha]

/-! ### `Predict` computes it -/

/-- object in the second half of `Predict` -/
structure CHist (C : CArith) (s0 s : FKFp p) (J : Fin p → CD) (c : ℕ) (q : CoefP p) : Prop where
  same : PSame s0 s
  rot : s.rotma = rotOf C s0
  V : s.StateVar = statOf C s0 J
  cur : s.b.cur = c + 1
  var : s.b.var.getD c .nan = q.v
  P : s.PredVar = q.P
  yc : s.b.yconst = q.yc
  ys : s.b.yslope = q.ys

theorem accum_hist {s0 s : FKFp p} {J : Fin p → CD} {c : ℕ} {q : CoefP p} (h : CHist C s0 s J c q) (hv : c < s0.b.var.length) (hy : c < s0.b.y.length)
    (a : Dbl × Dbl) : FKFp.accum C s c a = .ok (addObs C q (s0.b.y.getD c .nan) a) := by
  unfold FKFp.accum
  rw [frd_getD (by rw [h.same.lvar]; exact hv), res_bind_ok, h.same.y, frd_getD hy, res_bind_ok, h.var, h.yc, h.ys]
  rfl

theorem updateCoefs_hist {s0 s : FKFp p} {J : Fin p → CD} {c : ℕ} {q : CoefP p} (h : CHist C s0 s J c q) (hw : Whole C.r s0.b)
    (hc : c + 1 < s0.b.time.length) : ∃ s', FKFp.updateCoefs C s (q.sconst, q.sslope) =
      .ok (s', ((cnext C s0 J c q).sconst, (cnext C s0 J c q).sslope)) ∧ CHist C s0 s' J (c + 1) (cnext C s0 J c q) := by
  have hd := Whole.ldt hw
  have lv : s.b.var.length = s0.b.time.length := h.same.lvar.trans hw.var
  obtain ⟨q', hq⟩ : ∃ q', q' = cnext C s0 J c q := ⟨_, rfl⟩
  rw [← hq]
  refine ⟨{ s with PredVar := q'.P, b := { s.b with yconst := q'.yc, yslope := q'.ys, var := s.b.var.set (c + 1) q'.v, cur := c + 1 + 1 } }, ?_, ?_⟩
  · have hp0 : prevIdx (c + 1) = .ok c := by simp [prevIdx]
    unfold FKFp.updateCoefs
    simp only [h.cur, hp0, res_bind_ok, frd_getD (show c < s.b.var.length by omega), h.var, h.P, h.rot, h.V, h.yc, h.ys, h.same.dt, h.same.y, h.same.yerr,
      h.same.omega, frd_getD (show c < s0.b.y.length by rw [hw.y]; omega), frd_getD (show c < s0.b.dt.length by omega),
      frd_getD (show c + 1 < s0.b.yerr.length by rw [hw.yerr]; omega), wr_in _ (show c + 1 < s.b.var.length by omega)]
    subst hq
    rfl
  · refine ⟨⟨h.same.time, h.same.dt, h.same.y, h.same.yerr, h.same.sig, h.same.omega, h.same.ma, h.same.lmean, ?_⟩, h.rot, h.V, rfl, ?_, rfl, rfl, rfl⟩
    · simpa using h.same.lvar
    · rw [getD_set _ _ _ _ (by omega), if_pos rfl]

theorem coefLoop_hist {s0 : FKFp p} {J : Fin p → CD} (hw : Whole C.r s0.b) (ip : ℕ) (c0 : CoefP p) (a : Dbl × Dbl) (k : ℕ) : ∀ {j : ℕ} {s : FKFp p},
    CHist C s0 s J (ip + j) (cseq C s0 J ip c0 j) → ip + j + k < s0.b.time.length →
    ∃ s', FKFp.coefLoop C k (ip + 1 + j) s ((cseq C s0 J ip c0 j).sconst, (cseq C s0 J ip c0 j).sslope) (aseq C s0 J ip c0 a j) =
      .ok (s', aseq C s0 J ip c0 a (j + k)) ∧ PSame s0 s' := by
  induction k with
  | zero => exact fun h _ => ⟨_, rfl, h.same⟩
  | succ k ih =>
    intro j s h hk
    obtain ⟨s1, e1, h1⟩ := updateCoefs_hist h hw (by omega)
    have h1' : CHist C s0 s1 J (ip + (j + 1)) (cseq C s0 J ip c0 (j + 1)) := h1
    obtain ⟨s2, e2, h2⟩ := ih h1' (by omega)
    refine ⟨s2, ?_, h2⟩
    have ea := accum_hist h1' (by rw [hw.var]; omega) (by rw [hw.y]; omega) (aseq C s0 J ip c0 a j)
    rw [FKFp.coefLoop, e1, res_bind_ok]
    dsimp only
    rw [show ip + 1 + j = ip + (j + 1) by omega, ea, res_bind_ok, show j + (k + 1) = j + 1 + k by omega, ← e2]
    have : addObs C (cseq C s0 J ip c0 (j + 1)) (s0.b.y.getD (ip + (j + 1)) .nan) (aseq C s0 J ip c0 a j) = aseq C s0 J ip c0 a (j + 1) := by
      rw [aseq, show ip + (j + 1) = ip + 1 + j by omega]
    rw [this, show ip + (j + 1) + 1 = ip + 1 + (j + 1) by omega]
    rfl

theorem whole_shape {s : FKFp p} (h : Whole C.r s.b) : KShape s.b.time.length s :=
  ⟨rfl, by have := Whole.ldt h; omega, h.mean, h.var, h.y.ge, h.yerr.ge⟩

/-- `Predict` for any numbers -/
theorem predict_det (hp : 2 ≤ p) {s : FKFp p} (hw : Whole C.r s.b) (hma : s.ma.length = p) (x : Dbl) {J : Fin p → CD}
    (hs : C.solve p (FKFp.eigenMat C s.omega) (FKFp.rvec p) = some J) : ∃ s', FKFp.predict C s x = .ok (s', predOf C s J x) ∧ PSame s s' := by
  have h2 := hw.two
  obtain ⟨s1, e1, t1, step⟩ := hist_iterp hp (by omega) (whole_shape hw) hma hs
  have hle := scan_le x s.b.time
  have hf : FKF1.find s.b.time x = .ok (FKF1.scan x s.b.time) := if_neg (by intro h; rw [h] at h2; simp at h2)
  unfold FKFp.predict
  rw [hf, res_bind_ok, e1, res_bind_ok]
  unfold predOf
  generalize FKF1.scan x s.b.time = ip at *
  obtain ⟨s2, e2, h2'⟩ := step (ip - 1) (by omega)
  rw [e2, res_bind_ok]
  have k2 : PSame s s2 := (reset_psame e1).trans (iter_psame e2)
  have past : ∃ s3, FKFp.predictPast C s2 x ip = .ok (s3, ((pastOf C s J x ip).m, (pastOf C s J x ip).v)) ∧ PSame s s3 ∧ s3.rotma = rotOf C s ∧
      s3.StateVar = statOf C s J ∧ s3.state = (pastOf C s J x ip).state ∧ s3.PredVar = (pastOf C s J x ip).P := by
    unfold FKFp.predictPast pastOf
    by_cases h0 : ip = 0
    · subst h0
      rw [if_pos rfl, if_pos rfl, h2'.rot, h2'.V]
      exact ⟨s2, rfl, k2, h2'.rot, h2'.V, h2'.state, h2'.P⟩
    · rw [if_neg h0, if_neg h0]
      dsimp only
      have hP := h2'.P
      have hS := h2'.state
      have hI := h2'.innov
      rw [Nat.add_sub_cancel] at hP hS hI
      rw [frd_getD (by rw [k2.lvar, hw.var]; omega), res_bind_ok, k2.time, frd_getD (by omega), res_bind_ok, h2'.var (ip - 1) (by omega), hP, hS, hI, h2'.rot, h2'.V,
        k2.omega]
      exact ⟨_, rfl, ⟨k2.time, k2.dt, k2.y, k2.yerr, k2.sig, rfl, k2.ma, k2.lmean, k2.lvar⟩, rfl, rfl, rfl, rfl⟩
  obtain ⟨s3, e3, k3, r3, V3, S3, P3⟩ := past
  rw [e3, res_bind_ok]
  dsimp only
  generalize pastOf C s J x ip = M at *
  rw [k3.time]
  by_cases hi : ip = s.b.time.length
  · rw [if_pos hi, if_pos hi]
    exact ⟨s3, rfl, k3⟩
  rw [if_neg hi, if_neg hi]
  have lv : s3.b.var.length = s.b.time.length := k3.lvar.trans hw.var
  generalize hym : C.r.div (C.r.mul M.m (C.r.div (.fin 1) M.v)) (C.r.div (.fin 1) M.v) = ym
  generalize hc0 : cstart C s J x ip M ym = c0
  have ini : ∃ s4, FKFp.initCoefs C s3 x ip ym M.v = .ok (s4, (c0.sconst, c0.sslope)) ∧ CHist C s s4 J ip c0 := by
    refine ⟨{ s3 with PredVar := c0.P, b := { s3.b with yconst := c0.yc, yslope := c0.ys, var := s3.b.var.set ip c0.v, cur := ip + 1 } }, ?_, ?_⟩
    · unfold FKFp.initCoefs
      dsimp only
      rw [k3.time, frd_getD (by omega), res_bind_ok, k3.yerr, frd_getD (by rw [hw.yerr]; omega), res_bind_ok, wr_in _ (by omega), res_bind_ok, r3, V3, S3, P3,
        k3.omega, ← hc0]
      rfl
    · refine ⟨⟨k3.time, k3.dt, k3.y, k3.yerr, k3.sig, k3.omega, k3.ma, k3.lmean, ?_⟩, r3, V3, rfl, ?_, rfl, rfl, rfl⟩
      · simpa using k3.lvar
      · rw [getD_set _ _ _ _ (by omega), if_pos rfl]
  obtain ⟨s4, e4, h4⟩ := ini
  rw [e4, res_bind_ok]
  dsimp only
  rw [accum_hist h4 (by rw [hw.var]; omega) (by rw [hw.y]; omega), res_bind_ok, h4.same.time]
  obtain ⟨s5, e5, h5⟩ := coefLoop_hist hw ip c0 (C.r.div (.fin 1) M.v, C.r.mul M.m (C.r.div (.fin 1) M.v)) (s.b.time.length - (ip + 1)) (j := 0) h4 (by omega)
  have e5' : FKFp.coefLoop C (s.b.time.length - (ip + 1)) (ip + 1) s4 (c0.sconst, c0.sslope)
      (addObs C c0 (s.b.y.getD ip .nan) (C.r.div (.fin 1) M.v, C.r.mul M.m (C.r.div (.fin 1) M.v))) = _ := e5
  rw [e5', res_bind_ok, zero_add]
  exact ⟨s5, rfl, h5⟩

theorem predict_none (hp : 2 ≤ p) {s : FKFp p} (hw : Whole C.r s.b) (x : Dbl)
    (hs : C.solve p (FKFp.eigenMat C s.omega) (FKFp.rvec p) = none) : FKFp.predict C s x = .error .runtime := by
  have h2 := hw.two
  have hf : FKF1.find s.b.time x = .ok (FKF1.scan x s.b.time) := if_neg (by intro h; rw [h] at h2; simp at h2)
  unfold FKFp.predict
  rw [hf, res_bind_ok, reset_none hp hs]
  rfl

end Verif.Theory
