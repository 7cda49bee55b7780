import Verif.Theory.FCarmaLift
import Verif.Model.FPredictP

/-!
With exact arithmetic the floating-point models of `KalmanFilterp::Predict` and `Simulate` agree with the models in real numbers whenever the
latter return.
-/

namespace Verif.Theory

open Verif.Model Verif.Spec Matrix
open scoped Classical

variable {p : ℕ}

theorem gainp_lift {R : Fin p → ℂ} {P : Matrix (Fin p) (Fin p) ℂ} {v : ℝ} {g : Fin p → ℂ} (h : KFp.gainOf R P v = .ok g) :
    FKFp.gainOf exactC (fun k => pair (R k)) (fun k l => pair (P k l)) (.fin v) = fun k => pair (g k) := by
  unfold KFp.gainOf at h
  split at h
  · cases h
  next hv =>
  injection h with h
  have hv' : (v : ℂ) ≠ 0 := by exact_mod_cast hv
  funext k
  unfold FKFp.gainOf
  rw [show (fun l => (pair (R l)).conj) = fun l => pair ((star R) l) from rfl, mulVec_lift, pair_real, pair_div _ hv', ← h]

theorem measp_lift (P : Matrix (Fin p) (Fin p) ℂ) (v : ℝ) (g : Fin p → ℂ) :
    FKFp.measVar exactC (fun k l => pair (P k l)) (.fin v) (fun k => pair (g k)) = fun k l => pair (KFp.measVar P v g k l) := by
  funext k l
  unfold FKFp.measVar
  rw [pair_real, pair_conj, pair_mul, pair_mul, pair_sub]
  rfl

theorem rhop_lift (w : Fin p → ℂ) (d : ℝ) : FKFp.rhoOf exactC (fun k => pair (w k)) (.fin d) = fun k => pair (KFp.rhoOf w d k) := by
  funext k
  unfold FKFp.rhoOf
  rw [pair_real, pair_mul, pair_exp]
  rfl

theorem timep_lift (rho : Fin p → ℂ) (P V : Matrix (Fin p) (Fin p) ℂ) :
    FKFp.timeVar exactC (fun k => pair (rho k)) (fun k l => pair (P k l)) (fun k l => pair (V k l)) = fun k l => pair (KFp.timeVar rho P V k l) := by
  funext k l
  unfold FKFp.timeVar
  rw [pair_conj, pair_mul, pair_sub, pair_mul, pair_add]
  rfl

theorem dotp_lift (R z : Fin p → ℂ) : (exactC.dot p (fun k => pair (R k)) (fun k => pair (z k))).1 = .fin (R ⬝ᵥ z).re := by rw [dot_lift]; rfl

theorem quadp_lift (R : Fin p → ℂ) (P : Matrix (Fin p) (Fin p) ℂ) :
    (exactC.form p (fun k => pair (R k)) (fun k l => pair (P k l))).1 = .fin (KFp.quad R P) := by rw [form_lift]; rfl

theorem exc_sub (a b : ℝ) : exactC.r.sub (.fin a) (.fin b) = .fin (a - b) := exf_sub a b
theorem exc_addsq (a b : ℝ) : exactC.r.add (.fin a) (exactC.r.mul (.fin b) (.fin b)) = .fin (a + b * b) := rfl

theorem initCoefsp_lift {s s' : KFp p} {x ym yv : ℝ} {i : ℕ} (h : s.initCoefs x i ym yv = .ok s') (a b c n : Dbl) :
    FKFp.initCoefs exactC (liftP s a b c n) (.fin x) i (.fin ym) (.fin yv) =
      .ok (liftP s' a (.fin s'.b.yconst) (.fin s'.b.yslope) n, (fun k => pair (s'.sconst k), fun k => pair (s'.sslope k))) := by
  unfold KFp.initCoefs at h
  dsimp only at h
  obtain ⟨g, h1, h⟩ := bind_ok h
  obtain ⟨ti, h2, h⟩ := bind_ok h
  obtain ⟨ei, h3, h⟩ := bind_ok h
  obtain ⟨var, h4, h⟩ := bind_ok h
  injection h with h
  subst h
  unfold FKFp.initCoefs
  dsimp only [liftP]
  rw [rd_lift h2, res_bind_ok, rd_lift h3, res_bind_ok, gainp_lift h1, measp_lift, exc_sub, abs_fin, rhop_lift, timep_lift, quadp_lift, exc_addsq, wr_lift h4,
    res_bind_ok]
  simp only [pair_real, pair_mul, pair_sub]
  rw [dotp_lift, dotp_lift]
  rfl

theorem updateCoefsp_lift {s s' : KFp p} (h : s.updateCoefs = .ok s') (a n : Dbl) :
    FKFp.updateCoefs exactC (liftP s a (.fin s.b.yconst) (.fin s.b.yslope) n) (fun k => pair (s.sconst k), fun k => pair (s.sslope k)) =
      .ok (liftP s' a (.fin s'.b.yconst) (.fin s'.b.yslope) n, (fun k => pair (s'.sconst k), fun k => pair (s'.sslope k))) := by
  unfold KFp.updateCoefs at h
  dsimp only at h
  obtain ⟨c1, h0, h⟩ := bind_ok h
  obtain ⟨vp, h5, h⟩ := bind_ok h
  obtain ⟨g, h1, h⟩ := bind_ok h
  obtain ⟨yp, h6, h⟩ := bind_ok h
  obtain ⟨dt, h2, h⟩ := bind_ok h
  obtain ⟨ec, h3, h⟩ := bind_ok h
  obtain ⟨var, h4, h⟩ := bind_ok h
  injection h with h
  subst h
  unfold FKFp.updateCoefs
  dsimp only [liftP]
  rw [h0, res_bind_ok, rd_lift h5, res_bind_ok, rd_lift h6, res_bind_ok, rd_lift h2, res_bind_ok, rd_lift h3, res_bind_ok, gainp_lift h1, measp_lift, rhop_lift,
    timep_lift, quadp_lift, exc_addsq, wr_lift h4, res_bind_ok, exc_sub]
  simp only [pair_real, pair_mul, pair_sub, pair_add]
  rw [dotp_lift, dotp_lift]
  rfl

theorem pastp_lift {s s' : KFp p} {x m v : ℝ} {i : ℕ} (h : s.predictPast x i = .ok (s', (m, v))) (a b c : Dbl) :
    FKFp.predictPast exactC (liftP s a b c (.fin s.innov)) (.fin x) i = .ok (liftP s' a b c (.fin s'.innov), (.fin m, .fin v)) := by
  unfold KFp.predictPast at h
  unfold FKFp.predictPast
  dsimp only at h ⊢
  by_cases hi : i = 0
  · rw [if_pos hi] at h ⊢
    injection h with h
    injection h with h1 h2
    injection h2 with h2 h3
    subst h1 h2 h3
    dsimp only [liftP]
    rw [quadp_lift]
    rfl
  · rw [if_neg hi] at h ⊢
    obtain ⟨vp, h1, h⟩ := bind_ok h
    obtain ⟨g, h2, h⟩ := bind_ok h
    obtain ⟨tp, h3, h⟩ := bind_ok h
    injection h with h
    injection h with h4 h5
    injection h5 with h5 h6
    subst h4 h5 h6
    dsimp only [liftP]
    rw [rd_lift h1, res_bind_ok, rd_lift h3, res_bind_ok, gainp_lift h2, measp_lift, exc_sub, abs_fin, rhop_lift, timep_lift, quadp_lift]
    simp only [pair_real, pair_mul, pair_add]
    rw [dotp_lift]
    rfl

theorem accump_lift {s : KFp p} {i : ℕ} {a b : ℝ × ℝ} (h : s.accum i a = .ok b) (w n : Dbl) :
    FKFp.accum exactC (liftP s w (.fin s.b.yconst) (.fin s.b.yslope) n) i (.fin a.1, .fin a.2) = .ok (.fin b.1, .fin b.2) := by
  unfold KFp.accum at h
  obtain ⟨vi, h1, h⟩ := bind_ok h
  obtain ⟨yi, h2, h⟩ := bind_ok h
  obtain ⟨q, h3, h⟩ := bind_ok h
  obtain ⟨c, h4, h⟩ := bind_ok h
  injection h with h
  subst h
  unfold FKFp.accum
  dsimp only [liftP]
  have e1 : exactC.r.div (exactC.r.mul (.fin s.b.yslope) (.fin s.b.yslope)) (.fin vi) = .fin q := dv_lift h3
  have e2 : exactC.r.div (exactC.r.mul (.fin s.b.yslope) (.fin (yi - s.b.yconst))) (.fin vi) = .fin c := dv_lift h4
  rw [rd_lift h1, res_bind_ok, rd_lift h2, res_bind_ok, exc_sub, e1, e2]
  rfl

theorem coefLoopp_lift {k i : ℕ} {s s' : KFp p} {a b : ℝ × ℝ} (h : KFp.coefLoop k i s a = .ok (s', b)) (w n : Dbl) :
    FKFp.coefLoop exactC k i (liftP s w (.fin s.b.yconst) (.fin s.b.yslope) n) (fun k => pair (s.sconst k), fun k => pair (s.sslope k)) (.fin a.1, .fin a.2) =
      .ok (liftP s' w (.fin s'.b.yconst) (.fin s'.b.yslope) n, (.fin b.1, .fin b.2)) := by
  induction k generalizing i s a with
  | zero => cases h; rfl
  | succ k ih =>
    obtain ⟨s1, h1, h⟩ := bind_ok h
    obtain ⟨a1, h2, h⟩ := bind_ok h
    rw [FKFp.coefLoop, updateCoefsp_lift h1, res_bind_ok]
    dsimp only
    rw [accump_lift h2, res_bind_ok, ih h]

theorem predictp_lift {s s' : KFp p} {x m v : ℝ} (h : s.predict x = .ok (s', (m, v))) (a b c n : Dbl) :
    ∃ b' c' n', FKFp.predict exactC (liftP s a b c n) (.fin x) = .ok (liftP s' a b' c' n', (.fin m, .fin v)) := by
  unfold KFp.predict at h
  obtain ⟨ip, h1, h⟩ := bind_ok h
  obtain ⟨s1, h2, h⟩ := bind_ok h
  obtain ⟨s2, h3, h⟩ := bind_ok h
  obtain ⟨⟨s3, m0, v0⟩, h4, h⟩ := bind_ok h
  dsimp only at h
  have e1 : FKF1.find (liftP s a b c n).b.time (.fin x) = .ok ip := find_lift h1
  unfold FKFp.predict
  rw [e1, res_bind_ok, resetp_lift h2, res_bind_ok, iterp_lift h3, res_bind_ok, pastp_lift h4, res_bind_ok]
  dsimp only
  have el : ∀ (t : KFp p) b c n, (liftP t a b c n).b.time.length = t.b.time.length := fun t _ _ _ => List.length_map ..
  rw [el]
  by_cases hi : ip = s3.b.time.length
  · rw [if_pos hi] at h ⊢
    injection h with h
    injection h with h5 h6
    injection h6 with h6 h7
    subst h5 h6 h7
    exact ⟨_, _, _, rfl⟩
  · rw [if_neg hi] at h ⊢
    obtain ⟨q, h5, h⟩ := bind_ok h
    obtain ⟨ym, h6, h⟩ := bind_ok h
    obtain ⟨s4, h7, h⟩ := bind_ok h
    obtain ⟨acc, h8, h⟩ := bind_ok h
    obtain ⟨⟨s5, acc'⟩, h9, h⟩ := bind_ok h
    dsimp only at h
    obtain ⟨pv, h10, h⟩ := bind_ok h
    injection h with h
    injection h with h11 h12
    injection h12 with h12 h13
    subst h11 h12 h13
    have d5 : exactC.r.div (.fin 1) (.fin v0) = .fin q := dv_lift h5
    have d6 : exactC.r.div (.fin (m0 * q)) (.fin q) = .fin ym := dv_lift h6
    have d10 : exactC.r.div (.fin 1) (.fin acc'.1) = .fin pv := dv_lift h10
    have mm : ∀ x y : ℝ, exactC.r.mul (.fin x) (.fin y) = .fin (x * y) := fun _ _ => rfl
    have a8 := accump_lift h8
    dsimp only at a8
    rw [d5, mm, d6, initCoefsp_lift h7, res_bind_ok]
    dsimp only
    rw [a8, res_bind_ok, el, coefLoopp_lift h9, res_bind_ok]
    dsimp only
    rw [d10, mm]
    exact ⟨_, _, _, rfl⟩

/-! ### simulation -/

theorem simStepp_lift {s s' : KFp p} {t z x : ℝ} (h : Kalman.simStep s t z = .ok (s', x)) (a b c n : Dbl) :
    ∃ b' c' n', FKFp.simStep exactC (liftP s a b c n) (.fin t) (.fin z) = .ok (liftP s' a b' c' n', .fin x) := by
  unfold Kalman.simStep at h
  obtain ⟨⟨s1, ⟨mu, v⟩⟩, h1, h⟩ := bind_ok h
  obtain ⟨ys, h2, h⟩ := bind_ok h
  obtain ⟨idx, h3, h⟩ := bind_ok h
  obtain ⟨time, h4, h⟩ := bind_ok h
  obtain ⟨dt, h5, h⟩ := bind_ok h
  obtain ⟨y, h6, h⟩ := bind_ok h
  obtain ⟨yerr, h7, h⟩ := bind_ok h
  injection h with h
  injection h with h h8
  subst h h8
  have e2 : FKF1.drawNormal exactC.r (.fin mu) (exactC.r.sqrt (.fin v)) (.fin z) = .fin ys := by
    unfold drawNormal at h2
    split at h2
    · cases h2
    · next hv =>
      injection h2 with h2
      subst h2
      show FKF1.drawNormal Arith.exact _ (Arith.exact.sqrt (.fin v)) _ = _
      unfold FKF1.drawNormal
      rw [show Arith.exact.sqrt (.fin v) = .fin √v from if_neg hv, exf_mul, exf_add]
      congr 1; ring
  obtain ⟨b', c', n', e1⟩ := predictp_lift h1 a b c n
  refine ⟨b', c', n', ?_⟩
  unfold FKFp.simStep
  rw [e1, res_bind_ok]
  dsimp only
  rw [e2]
  have f3 : FKF1.find (liftP s1 a b' c' n').b.time (.fin t) = .ok idx := find_lift h3
  have f4 : insertRow (liftP s1 a b' c' n').b.time idx (.fin t) = .ok (time.map .fin) := insertRow_lift h4
  have f5 : FKF1.diffs exactC.r (time.map .fin) = .ok (dt.map .fin) := diffs_lift h5
  have f6 : insertRow (liftP s1 a b' c' n').b.y idx (.fin ys) = .ok (y.map .fin) := insertRow_lift h6
  have f7 : insertRow (liftP s1 a b' c' n').b.yerr idx (.fin 0) = .ok (yerr.map .fin) := insertRow_lift h7
  rw [f3, res_bind_ok, f4, res_bind_ok, f5, res_bind_ok, f6, res_bind_ok, f7, res_bind_ok, List.length_map]
  show Except.ok _ = Except.ok _
  simp only [liftP, Kalman.setBase, Kalman.base, List.map_replicate]

theorem simLoopp_lift {ts : List ℝ} {s s' : KFp p} {zs : ℕ → ℝ} {xs : List ℝ} (h : Kalman.simLoop s ts zs = .ok (s', xs)) (a b c n : Dbl) :
    ∃ f, FKFp.simLoop exactC (liftP s a b c n) (ts.map .fin) (fun k => .fin (zs k)) = .ok (f, xs.map .fin) := by
  induction ts generalizing s zs xs b c n with
  | nil => injection h with h; injection h with h1 h2; subst h1 h2; exact ⟨_, rfl⟩
  | cons t ts ih =>
    unfold Kalman.simLoop at h
    obtain ⟨⟨s1, x⟩, h1, h⟩ := bind_ok h
    obtain ⟨⟨s2, xs'⟩, h2, h⟩ := bind_ok h
    injection h with h
    injection h with h3 h4
    subst h3 h4
    obtain ⟨b', c', n', e1⟩ := simStepp_lift h1 a b c n
    obtain ⟨f, e⟩ := ih h2 b' c' n'
    refine ⟨f, ?_⟩
    rw [List.map_cons, FKFp.simLoop, e1, res_bind_ok]
    dsimp only
    rw [e, res_bind_ok]
    rfl

theorem simulatep_lift {s s' : KFp p} {times : List ℝ} {zs : ℕ → ℝ} {xs : List ℝ} (h : Kalman.simulate s times zs = .ok (s', xs)) (a b c n : Dbl) :
    ∃ f, FKFp.simulate exactC (liftP s a b c n) (times.map .fin) (fun k => .fin (zs k)) = .ok (f, xs.map .fin) := by
  unfold Kalman.simulate at h
  obtain ⟨⟨s1, xs'⟩, h1, h⟩ := bind_ok h
  obtain ⟨dt, h2, h⟩ := bind_ok h
  injection h with h
  injection h with h3 h4
  subst h3 h4
  obtain ⟨f, e⟩ := simLoopp_lift h1 a b c n
  have e2 : FKF1.diffs exactC.r (liftP s a b c n).b.time = .ok (dt.map .fin) := diffs_lift h2
  unfold FKFp.simulate
  rw [sort_lift, res_bind_ok, e, res_bind_ok]
  dsimp only
  rw [e2, res_bind_ok]
  exact ⟨_, rfl⟩

/-! ### construction -/

theorem newp_lift {srt : List ℝ → List ℕ} {fsrt : List Dbl → List ℕ} (hs : ∀ l : List ℝ, fsrt (l.map .fin) = srt l) {ts ys es ma : List ℝ} {q : ℝ}
    {w : Fin p → ℂ} {s : KFp p} (h : KFp.new srt ts ys es q w ma = .ok s) :
    ∃ a, FKFp.new exactC fsrt (ts.map .fin) (ys.map .fin) (es.map .fin) (.fin q) (fun k => pair (w k)) (ma.map .fin) = .ok (liftP s a .nan .nan .nan) := by
  obtain ⟨b, h1, h⟩ := bind_ok h
  injection h with h
  subst h
  have h1' : KF1.new srt ts ys es q 0 = .ok { b := b, omega := 0 } := by
    unfold KF1.new
    rw [h1]
    rfl
  obtain ⟨b0, e0, e1⟩ := bind_ok (new_lift hs h1')
  have hb : b.sigsqr = q := by
    injection e1 with e1
    have := congrArg FKF1.sigsqr e1
    injection this with this
    exact this.symm
  unfold FKFp.new
  rw [show FKF1.newData exactC.r fsrt (ts.map .fin) (ys.map .fin) (es.map .fin) = .ok b0 from e0, res_bind_ok]
  refine ⟨b0.omega, ?_⟩
  injection e1 with e1
  show Except.ok _ = Except.ok _
  congr 1
  obtain ⟨m, v, t, d, y, e, sg, om, cu, yc, ys'⟩ := b0
  injection e1 with f1 f2 f3 f4 f5 f6 f7 f8 f9 f10 f11
  dsimp only at f1 f2 f3 f4 f5 f6 f7 f8 f9 f10 f11
  subst f1 f2 f3 f4 f5 f6 f9 f10 f11
  unfold FKFp.zeroed liftP KFp.zeroed KFp.padMA
  rw [hb]
  simp only [List.map_append, List.map_replicate, List.length_map]
  rfl

end Verif.Theory
