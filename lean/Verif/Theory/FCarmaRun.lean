import Verif.Theory.FCarmaHist
import Verif.Theory.FRunSearch
import Verif.Spec.FCarmaRun

/-!
The objects of the CARMA classes in the sampler, in machine numbers.
-/

namespace Verif.Theory

open Verif.Model Verif.Spec
open scoped Classical

variable {C : CArith} {p : ℕ}

/-! ### the filter keeps the coefficients -/

theorem ma_reset {s s' : FKFp p} (e : FKFp.reset C s = .ok s') : s'.ma = s.ma := by
  unfold FKFp.reset at e
  dsimp only at e
  split at e
  · cases e
  obtain ⟨J, -, e⟩ := bind_ok e
  split at e
  · cases e
  obtain ⟨mean, h0, e⟩ := bind_ok e
  obtain ⟨e0, -, e⟩ := bind_ok e
  obtain ⟨v1, h1, e⟩ := bind_ok e
  obtain ⟨x, -, e⟩ := bind_ok e
  obtain ⟨v2, h2, e⟩ := bind_ok e
  obtain ⟨y0, -, e⟩ := bind_ok e
  injection e with e
  subst e
  rfl

theorem ma_update {s s' : FKFp p} (e : FKFp.update C s = .ok s') : s'.ma = s.ma := by
  unfold FKFp.update at e
  obtain ⟨_, -, e⟩ := bind_ok e
  obtain ⟨_, -, e⟩ := bind_ok e
  obtain ⟨_, -, e⟩ := bind_ok e
  obtain ⟨mean, h0, e⟩ := bind_ok e
  obtain ⟨v1, h1, e⟩ := bind_ok e
  obtain ⟨x, -, e⟩ := bind_ok e
  obtain ⟨ec, -, e⟩ := bind_ok e
  obtain ⟨v2, h2, e⟩ := bind_ok e
  obtain ⟨y0, -, e⟩ := bind_ok e
  obtain ⟨m0, -, e⟩ := bind_ok e
  injection e with e
  subst e
  rfl

theorem ma_filter {s s' : FKFp p} (e : FKFp.filter C s = .ok s') : s'.ma = s.ma := by
  unfold FKFp.filter at e
  obtain ⟨s1, h1, e⟩ := bind_ok e
  have key : ∀ (k : ℕ) s2, iter (FKFp.update C) k s1 = .ok s2 → s2.ma = s1.ma := by
    intro k
    induction k with
    | zero => intro s2 h; injection h with h; rw [h]
    | succ k ih =>
      intro s2 h
      obtain ⟨s3, h3, h⟩ := bind_ok h
      rw [ma_update h, ih s3 h3]
  rw [key _ _ e, ma_reset h1]

/-! ### the invariant -/

/-- value of `LogDensity` -/
noncomputable def fcpVal (C : CArith) (s : FCarP p) (θ : List Dbl) : Dbl :=
  match FCarP.logDensity C s θ with
  | .ok a => a.2
  | .error _ => .nan

/-- an object that differs from `s0` only in what the filter holds -/
structure CInv (n : ℕ) (s0 s : FCarP p) : Prop where
  shape : PShape n s
  like : PLike s0 s
  mle : s.ignorePrior = s0.ignorePrior
  kma : s.kf.ma.length = p

theorem cinv_ld {n : ℕ} {s0 s : FCarP p} (h0 : PShape n s0) (h : CInv n s0 s) {θ : List Dbl} (hθ : dimOf p s0.kind ≤ θ.length) :
    ∃ s', FCarP.logDensity C s θ = .ok (s', fcpVal C s0 θ) ∧ CInv n s0 s' := by
  have hθ' : dimOf p s.kind ≤ θ.length := by rw [h.like.kind]; exact hθ
  obtain ⟨s', v, e, hs, hl, hm, hall⟩ := ld_ok (C := C) h.shape hθ'
  obtain ⟨t', et⟩ := hall s0 h0 h.like.symm h.mle.symm
  have ev : fcpVal C s0 θ = v := by rw [fcpVal, et]
  refine ⟨s', by rw [ev]; exact e, hs, h.like.trans hl, hm.trans h.mle, ?_⟩
  unfold FCarP.logDensity at e
  obtain ⟨ok, -, e⟩ := bind_ok e
  split at e
  · injection e with e
    injection e with e _
    subst e
    exact h.kma
  obtain ⟨kf, h1, e⟩ := bind_ok e
  obtain ⟨mu, -, e⟩ := bind_ok e
  obtain ⟨kf2, e2, -, hma, -⟩ := setUp_ok (C := C) h.shape hθ'
  rw [h1] at e2
  injection e2 with e2
  subst e2
  split at e
  · injection e with e
    injection e with e _
    subst e
    exact hma
  · cases e
  · rename_i kf' ef
    obtain ⟨ll, -, e⟩ := bind_ok e
    obtain ⟨lp, -, e⟩ := bind_ok e
    injection e with e
    injection e with e _
    subst e
    exact (congrArg List.length (ma_filter ef)).trans hma

/-- no solution for these roots -/
def Singular (C : CArith) (p : ℕ) (roots : List CD) : Prop := C.solve p (FKFp.eigenMat C (FCarP.vecOf p roots)) (FKFp.rvec p) = none

theorem cinv_filter {n : ℕ} {s0 s : FCarP p} (h : CInv n s0 s) {θ : List Dbl} (hθ : 3 ≤ θ.length) (roots : List CD) {ma : List Dbl}
    (hma : ma.length = p) (sig : Dbl) :
    (Singular C p roots → FCarP.startFilter C s θ roots ma sig = .error .runtime) ∧
    (¬ Singular C p roots → ∃ s', FCarP.startFilter C s θ roots ma sig = .ok s' ∧ CInv n s0 s') := by
  have hs := h.shape
  have hm : (s.startMA ma).length = p := by
    unfold FCarP.startMA
    split
    · exact h.kma
    · exact h.kma
    · exact hma
  unfold FCarP.startFilter
  rw [frd_getD (show 1 < θ.length by omega), res_bind_ok, frd_getD (show 2 < θ.length by omega), res_bind_ok]
  dsimp only
  obtain ⟨k, hk⟩ : ∃ k, k = FKFp.zeroed p { s.kf.b with sigsqr := sig, yerr := s.yerr.map fun x => C.r.mul (C.r.sqrt (θ.getD 1 .nan)) x, y := s.y.map fun x => C.r.sub x (θ.getD 2 .nan) } (FCarP.vecOf p roots) (s.startMA ma) s.kf.innov := ⟨_, rfl⟩
  rw [← hk]
  have sh : KShape n k := by
    rw [hk]
    exact ⟨hs.ktime, hs.kdt, hs.kmean, hs.kvar, by simpa [FKFp.zeroed] using hs.y, by simpa [FKFp.zeroed] using hs.yerr⟩
  have km : k.ma.length = p := by rw [hk]; exact hm
  have ko : k.omega = FCarP.vecOf p roots := by rw [hk]; rfl
  have kd : k.b.dt = s.kf.b.dt := by rw [hk]; rfl
  obtain ⟨f1, f2⟩ := hist_filterp (C := C) (OrdersOk.two hs.orders) hs.pos sh km
  rw [ko] at f1 f2
  constructor
  · intro hsing
    rw [f1 hsing]; rfl
  · intro hsing
    obtain ⟨J, hJ⟩ := Option.ne_none_iff_exists'.mp hsing
    obtain ⟨k', e, hist⟩ := f2 J hJ
    rw [e, res_bind_ok]
    refine ⟨_, rfl, ⟨hs.pos, hs.time, hs.y, hs.yerr, by rw [hist.time]; exact sh.time, by rw [hist.dt]; exact sh.dt, hist.lmean, hist.lvar, hs.ma, hs.orders⟩,
      h.like.trans ⟨rfl, rfl, rfl, rfl, rfl, rfl, hist.dt.trans kd, rfl, rfl, rfl, rfl, rfl⟩, h.mle, ?_⟩
    exact (congrArg List.length (ma_filter e)).trans km

/-- a finite log-density means that the filter has run -/
theorem fin_solve {n : ℕ} {s : FCarP p} (h : PShape n s) {θ : List Dbl} (hθ : dimOf p s.kind ≤ θ.length) (hf : (fcpVal C s θ).isFin) {roots : List CD}
    (er : FCarP.rootsFrom C θ 3 p = .ok roots) : ¬ Singular C p roots := by
  intro hsing
  obtain ⟨s', v, e, -⟩ := ld_ok (C := C) h hθ
  rw [fcpVal, e] at hf
  unfold FCarP.logDensity at e
  obtain ⟨ok, -, e⟩ := bind_ok e
  split at e
  · injection e with e
    injection e with _ e
    subst e
    exact hf
  obtain ⟨kf, h1, e⟩ := bind_ok e
  obtain ⟨mu, -, e⟩ := bind_ok e
  obtain ⟨kf2, e2, hk, hma, -⟩ := setUp_ok (C := C) h hθ
  rw [h1] at e2
  injection e2 with e2
  subst e2
  have ko : kf.omega = FCarP.vecOf p roots := by
    unfold FCarP.setUp at h1
    rw [er, res_bind_ok] at h1
    obtain ⟨_, -, h1⟩ := bind_ok h1
    obtain ⟨_, -, h1⟩ := bind_ok h1
    obtain ⟨_, -, h1⟩ := bind_ok h1
    obtain ⟨_, -, h1⟩ := bind_ok h1
    injection h1 with h1
    subst h1
    rfl
  have := (hist_filterp (C := C) (OrdersOk.two h.orders) h.pos hk hma).1 (by rw [ko]; exact hsing)
  rw [this] at e
  injection e with e
  injection e with _ e
  subst e
  exact hf

/-! ### the search -/

/-- the driving variance is not finite and the class gives up -/
def Skipped (C : CArith) (s : FCarP p) (yv : Dbl) (roots : List CD) (ma : List Dbl) : Prop :=
  CarP.skipsBad s.kind = true ∧ ¬ (C.r.div yv (FCarP.variance C (FCarP.vecOf p roots) ma)).isFin

/-- what a pass does -/
theorem pass_cases {n : ℕ} {s0 s : FCarP p} (h0 : PShape n s0) (h : CInv n s0 s) {θ : List Dbl} (hθ : dimOf p s0.kind ≤ θ.length) (yv : Dbl)
    {roots : List CD} {ma : List Dbl} (er : FCarP.rootsFrom C θ 3 p = .ok roots) (em : FCarP.extractMA C s0 θ = .ok ma) :
    (Skipped C s0 yv roots ma → FCarP.startPass C s θ yv = .ok (s, .nan)) ∧
    (¬ Skipped C s0 yv roots ma → Singular C p roots → FCarP.startPass C s θ yv = .error .runtime) ∧
    (¬ Skipped C s0 yv roots ma → ¬ Singular C p roots → ∃ s', FCarP.startPass C s θ yv = .ok (s', fcpVal C s0 θ) ∧ CInv n s0 s') := by
  have hd := dim_three (p := p) s0.kind
  obtain ⟨ma', em', lma⟩ := extractMA_ok (C := C) h0 hθ
  rw [em] at em'
  injection em' with em'
  subst em'
  obtain ⟨f1, f2⟩ := cinv_filter (C := C) h (θ := θ) (by omega) roots lma (C.r.div yv (FCarP.variance C (FCarP.vecOf p roots) ma))
  unfold FCarP.startPass
  rw [h.like.extractMA, em, res_bind_ok, er, res_bind_ok]
  dsimp only
  refine ⟨fun hs => ?_, fun hs k => ?_, fun hs k => ?_⟩
  · rw [if_pos (by rw [h.like.kind]; exact hs)]; rfl
  · rw [if_neg (by rw [h.like.kind]; exact hs), f1 k]; rfl
  · obtain ⟨s1, e1, h1⟩ := f2 k
    rw [if_neg (by rw [h.like.kind]; exact hs), e1, res_bind_ok]
    exact cinv_ld h0 h1 hθ

/-- a pass from an object that has been used is like one from the fresh object -/
theorem pass_like {n : ℕ} {s0 s : FCarP p} (h0 : PShape n s0) (hk : s0.kf.ma.length = p) (h : CInv n s0 s) {θ : List Dbl}
    (hθ : dimOf p s0.kind ≤ θ.length) (yv : Dbl) :
    (Throws C s0 θ yv ∧ FCarP.startPass C s θ yv = .error .runtime) ∨
    (¬ Throws C s0 θ yv ∧ ∃ s' v, FCarP.startPass C s θ yv = .ok (s', v) ∧ CInv n s0 s' ∧ (v.isFin ↔ Finds C s0 θ yv) ∧
      (v.isFin → (fcpVal C s0 θ).isFin)) := by
  have hd := dim_three (p := p) s0.kind
  obtain ⟨ma, em, lma⟩ := extractMA_ok (C := C) h0 hθ
  obtain ⟨roots, er, -⟩ := rootsFrom_ok (C := C) (θ := θ) (off := 3) (m := p) (by omega)
  obtain ⟨a1, a2, a3⟩ := pass_cases (C := C) h0 h hθ yv er em
  obtain ⟨b1, b2, b3⟩ := pass_cases (C := C) h0 ⟨h0, PLike.refl s0, rfl, hk⟩ hθ yv er em
  by_cases hs : Skipped C s0 yv roots ma
  · refine .inr ⟨fun ht => ?_, s, .nan, a1 hs, h, ⟨fun k => absurd k id, ?_⟩, fun k => absurd k id⟩
    · rw [Throws, b1 hs] at ht; cases ht
    · rintro ⟨o, x, e⟩
      rw [b1 hs] at e; injection e with e; injection e with _ e; cases e
  · by_cases hsing : Singular C p roots
    · exact .inl ⟨b2 hs hsing, a2 hs hsing⟩
    · obtain ⟨s', e, hi⟩ := a3 hs hsing
      obtain ⟨t', e', -⟩ := b3 hs hsing
      refine .inr ⟨fun ht => ?_, s', _, e, hi, ⟨fun k => ?_, ?_⟩, id⟩
      · rw [Throws, e'] at ht; cases ht
      · obtain ⟨x, hx⟩ : ∃ x, fcpVal C s0 θ = .fin x := by
          cases hv : fcpVal C s0 θ with
          | fin x => exact ⟨x, rfl⟩
          | _ => rw [hv] at k; exact absurd k id
        exact ⟨t', x, by rw [← hx]; exact e'⟩
      · rintro ⟨o, x, e2⟩
        rw [e'] at e2; injection e2 with e2; injection e2 with _ e2; rw [e2]; trivial

/-- the generator after one pass -/
def FRng.next (r : FRng) : FRng := { r with prior := FRng.skip 1 r.prior, yvar := FRng.skip 1 r.yvar }

theorem usable_next {d : ℕ} {r : FRng} (h : Usable d r) : Usable d (FRng.next r) := ⟨h.unif, fun k => h.prior (k + 1), fun k => h.doubles (k + 1)⟩

/-- at least `m` of the first `F` passes would end the search, and none of them throws -/
def Enough (C : CArith) (s0 : FCarP p) (m F : ℕ) (r : FRng) : Prop := m ≤ finds C s0 r F ∧ ∀ k < F, ¬ Throws C s0 (r.prior k) (r.yvar k)

theorem finds_succ (s0 : FCarP p) (r : FRng) (F : ℕ) :
    finds C s0 r (F + 1) = (if Finds C s0 (r.prior 0) (r.yvar 0) then 1 else 0) + finds C s0 (FRng.next r) F := by
  unfold finds
  rw [List.range_succ_eq_map, List.filter_cons]
  have e : ((List.map Nat.succ (List.range F)).filter fun k => decide (Finds C s0 (r.prior k) (r.yvar k))).length =
      ((List.range F).filter fun k => decide (Finds C s0 ((FRng.next r).prior k) ((FRng.next r).yvar k))).length := by
    rw [List.filter_map, List.length_map]
    rfl
  by_cases hf : Finds C s0 (r.prior 0) (r.yvar 0)
  · simp only [hf, decide_true, if_true, List.length_cons]
    rw [e]; omega
  · simp only [hf, decide_false, Bool.false_eq_true, if_false]
    rw [e]; omega

/-- errors of the search -/
def StartErr (e : Fault) : Prop := e = .timeout ∨ e = .runtime

theorem start_out {n d : ℕ} {s0 s : FCarP p} (h0 : PShape n s0) (hk : s0.kf.ma.length = p) (hd : d = dimOf p s0.kind) (h : CInv n s0 s) (fuel : ℕ)
    {r : FRng} (hr : Usable d r) :
    OutE StartErr (fun a => CInv n s0 a.1 ∧ a.2.1.length = d ∧ Doubles a.2.1 ∧ (fcpVal C s0 a.2.1).isFin ∧ Usable d a.2.2)
      (FCarP.start C fuel s r) := by
  induction fuel generalizing s r with
  | zero => exact .inl rfl
  | succ fuel ih =>
    unfold FCarP.start
    rcases pass_like (C := C) h0 hk h (θ := r.prior 0) (by rw [hr.prior 0, hd]) (r.yvar 0) with ⟨-, e⟩ | ⟨-, s', v, e, hi, -, hv⟩
    · rw [e]; exact .inr rfl
    · rw [e, res_bind_ok]
      dsimp only
      split
      · next hfin => exact ⟨hi, hr.prior 0, hr.doubles 0, hv hfin, usable_next hr⟩
      · exact ih hi (usable_next hr)

theorem fstart_sure {n d : ℕ} {s0 s : FCarP p} (h0 : PShape n s0) (hk : s0.kf.ma.length = p) (hd : d = dimOf p s0.kind) (h : CInv n s0 s) {fuel F m : ℕ}
    (hF : F ≤ fuel) {r : FRng} (hr : Usable d r) (he : Enough C s0 (m + 1) F r) :
    ∃ a, FCarP.start C fuel s r = .ok a ∧ ∃ F' ≤ F, Enough C s0 m F' a.2.2 := by
  induction fuel generalizing s r F with
  | zero =>
    obtain rfl : F = 0 := by omega
    have := he.1
    simp [finds] at this
  | succ fuel ih =>
    cases F with
    | zero => have := he.1; simp [finds] at this
    | succ F =>
      have h1 := he.1
      rw [finds_succ] at h1
      have hnext : ∀ k < F, ¬ Throws C s0 ((FRng.next r).prior k) ((FRng.next r).yvar k) := fun k hk => he.2 (k + 1) (by omega)
      unfold FCarP.start
      rcases pass_like (C := C) h0 hk h (θ := r.prior 0) (by rw [hr.prior 0, hd]) (r.yvar 0) with ⟨ht, -⟩ | ⟨-, s', v, e, hi, hv, -⟩
      · exact absurd ht (he.2 0 (by omega))
      · rw [e, res_bind_ok]
        dsimp only
        split
        · next hfin =>
          rw [if_pos (hv.mp hfin)] at h1
          exact ⟨_, rfl, F, by omega, by show m ≤ finds C s0 (FRng.next r) F; omega, hnext⟩
        · next hfin =>
          rw [if_neg fun k => hfin (hv.mpr k)] at h1
          obtain ⟨a, ea, F', hF', w⟩ := ih (s := s') hi (F := F) (by omega) (usable_next hr) ⟨by omega, hnext⟩
          exact ⟨a, ea, F', by omega, w⟩

theorem setStart_given {n : ℕ} {s0 s : FCarP p} (h0 : PShape n s0) (h : CInv n s0 s) (fuel : ℕ) {i : List Dbl} (hi : i.length = dimOf p s0.kind)
    (hl : CarP.thetaLen p s0.kind = dimOf p s0.kind) (hf : (fcpVal C s0 i).isFin) (r : FRng) :
    ∃ s', FCarP.setStart C fuel s i r = .ok (s', i, r) ∧ CInv n s0 s' := by
  have hd := dim_three (p := p) s0.kind
  obtain ⟨roots, er, -⟩ := rootsFrom_ok (C := C) (θ := i) (off := 3) (m := p) (by omega)
  obtain ⟨ma, em, lma⟩ := extractMA_ok (C := C) h0 hi.ge
  obtain ⟨s1, e1, h1⟩ := cinv_ld (C := C) h0 h hi.ge
  obtain ⟨s2, e2, h2⟩ := (cinv_filter (C := C) h1 (θ := i) (by omega) roots lma
    (C.r.div (C.r.mul (i.getD 0 .nan) (i.getD 0 .nan)) (FCarP.variance C (FCarP.vecOf p roots) ma))).2 (fin_solve h0 hi.ge hf er)
  refine ⟨s2, ?_, h2⟩
  unfold FCarP.setStart
  rw [if_neg (by rw [h.like.kind, hl]; simpa using hi), e1, res_bind_ok]
  dsimp only
  rw [if_neg (by simpa using hf), frd_getD (show 0 < i.length by omega), res_bind_ok, er, res_bind_ok, h1.like.extractMA, em, res_bind_ok, e2]
  rfl

theorem setStart_else {n : ℕ} {s0 s : FCarP p} (h0 : PShape n s0) (h : CInv n s0 s) (fuel : ℕ) {i : List Dbl} (hi : i.length = dimOf p s0.kind)
    (hl : CarP.thetaLen p s0.kind = dimOf p s0.kind) (hf : ¬ (fcpVal C s0 i).isFin) (r : FRng) :
    ∃ s', CInv n s0 s' ∧ FCarP.setStart C fuel s i r = FCarP.start C fuel s' r := by
  obtain ⟨s1, e1, h1⟩ := cinv_ld (C := C) h0 h hi.ge
  refine ⟨s1, h1, ?_⟩
  unfold FCarP.setStart
  rw [if_neg (by rw [h.like.kind, hl]; simpa using hi), e1, res_bind_ok]
  dsimp only
  rw [if_pos hf]

theorem thetaLen_dim (kind : Kind) : CarP.thetaLen p kind = dimOf p kind := by cases kind <;> rfl

/-! ### as parameters of the sampler -/

theorem with_r (C : CArith) : ({ C with r := C.r } : CArith) = C := rfl

variable {A : Arith}

theorem walk_honest (hC : C.r = A) {n fuel : ℕ} {s0 : FCarP p} (h0 : PShape n s0) :
    HonestLd A (dimOf p s0.kind) (fun w : FWalk C p fuel => CInv n s0 w.o) (fcpVal C s0) := by
  subst hC
  refine ⟨fun o θ ho hθ => ?_, fun o θ ho hθ => ?_⟩
  · obtain ⟨s', e, h⟩ := cinv_ld (C := C) h0 ho hθ.ge
    refine ⟨⟨s'⟩, ?_, h⟩
    show (FCarP.logDensity C o.o θ >>= fun a => pure ((⟨a.1⟩ : FWalk C p fuel), a.2)) = _
    rw [e]; rfl
  · have hd := dim_three (p := p) s0.kind
    have hs := ho.shape
    obtain ⟨l, el⟩ := lik_total (A := C.r) (mu := θ.getD 2 .nan) hs.y hs.kmean.ge hs.kvar.ge
    obtain ⟨lp, elp⟩ := prior_ok (C := C) (s := o.o) (θ := θ) (by rw [ho.like.kind]; exact hθ.ge)
    refine ⟨C.r.add l lp, ?_⟩
    show FCarP.staleDensity C o.o θ = _
    unfold FCarP.staleDensity
    rw [frd_getD (show 2 < θ.length by omega), res_bind_ok, hs.time, el, res_bind_ok, elp]
    rfl

/-- a result of `start` or `setStart` for the sampler -/
theorem walk_found {E : Fault → Prop} {n d fuel : ℕ} {s0 : FCarP p} {Q : List Dbl → Prop} {R : FRng → Prop} {x : Res (FCarP p × List Dbl × FRng)}
    (h : OutE E (fun a => CInv n s0 a.1 ∧ a.2.1.length = d ∧ Doubles a.2.1 ∧ Q a.2.1 ∧ Usable d a.2.2 ∧ R a.2.2) x) :
    OutE E (Found d (fun w : FWalk C p fuel => CInv n s0 w.o) Q R) (x >>= fun a => pure ((⟨a.1⟩ : FWalk C p fuel), a.2.1, a.2.2)) := by
  refine OutE.bind h fun a ha => ?_
  obtain ⟨h1, h2, h3, h4, h5, h6⟩ := ha
  exact ⟨h1, h2, h3, h4, h5, h6⟩

theorem OutE.and {α : Type} {E : Fault → Prop} {P Q : α → Prop} {x : Res α} (h : OutE E P x) {a : α} (e : x = .ok a) (hq : Q a) :
    OutE (fun _ => False) (fun a => P a ∧ Q a) x := by
  subst e
  exact ⟨h, hq⟩

/-- the search as the sampler calls it -/
theorem walk_search (hC : C.r = A) {n fuel : ℕ} {s0 : FCarP p} (h0 : PShape n s0) (hk : s0.kf.ma.length = p) {init : List Dbl}
    (hi : init.length = dimOf p s0.kind → Doubles init) (o : FWalk C p fuel) (r : FRng) (ho : CInv n s0 o.o) (hr : Usable (dimOf p s0.kind) r) :
    OutE StartErr (Found (dimOf p s0.kind) (fun w : FWalk C p fuel => CInv n s0 w.o) (fun θ => (fcpVal C s0 θ).isFin) fun _ => True)
      (search A (if init.length = dimOf p s0.kind then some init else none) o r) := by
  subst hC
  by_cases hl : init.length = dimOf p s0.kind
  · rw [if_pos hl]
    show OutE StartErr _ (FCarP.setStart C fuel o.o init r >>= fun a => pure ((⟨a.1⟩ : FWalk C p fuel), a.2.1, a.2.2))
    apply walk_found
    by_cases hf : (fcpVal C s0 init).isFin
    · obtain ⟨s', e, h⟩ := setStart_given (C := C) h0 ho fuel hl (thetaLen_dim _) hf r
      rw [e]
      exact ⟨h, hl, hi hl, hf, hr, trivial⟩
    · obtain ⟨s', h, e⟩ := setStart_else (C := C) h0 ho fuel hl (thetaLen_dim _) hf r
      rw [e]
      exact (start_out h0 hk rfl h fuel hr).mono fun a ⟨a1, a2, a3, a4, a5⟩ => ⟨a1, a2, a3, a4, a5, trivial⟩
  · rw [if_neg hl]
    show OutE StartErr _ (FCarP.start C fuel o.o r >>= fun a => pure ((⟨a.1⟩ : FWalk C p fuel), a.2.1, a.2.2))
    apply walk_found
    exact (start_out h0 hk rfl ho fuel hr).mono fun a ⟨a1, a2, a3, a4, a5⟩ => ⟨a1, a2, a3, a4, a5, trivial⟩

/-- with good starting values of the user -/
theorem walk_given (hC : C.r = A) {n fuel : ℕ} {s0 : FCarP p} (h0 : PShape n s0) {init : List Dbl} (hl : init.length = dimOf p s0.kind)
    (hi : Doubles init) (hf : (fcpVal C s0 init).isFin) (o : FWalk C p fuel) (r : FRng) (ho : CInv n s0 o.o) (hr : Usable (dimOf p s0.kind) r) :
    OutE (fun _ => False) (Found (dimOf p s0.kind) (fun w : FWalk C p fuel => CInv n s0 w.o) (fun θ => θ = init) fun _ => True)
      (search A (if init.length = dimOf p s0.kind then some init else none) o r) := by
  subst hC
  rw [if_pos hl]
  show OutE _ _ (FCarP.setStart C fuel o.o init r >>= fun a => pure ((⟨a.1⟩ : FWalk C p fuel), a.2.1, a.2.2))
  apply walk_found
  obtain ⟨s', e, h⟩ := setStart_given (C := C) h0 ho fuel hl (thetaLen_dim _) hf r
  rw [e]
  exact ⟨h, hl, hi, rfl, hr, trivial⟩

/-- with enough good draws -/
theorem walk_sure (hC : C.r = A) {n fuel : ℕ} {s0 : FCarP p} (h0 : PShape n s0) (hk : s0.kf.ma.length = p) {init : List Dbl}
    (hi : init.length = dimOf p s0.kind → Doubles init) (m : ℕ) (o : FWalk C p fuel) (r : FRng) (ho : CInv n s0 o.o) (hr : Usable (dimOf p s0.kind) r)
    (he : ∃ F ≤ fuel, Enough C s0 (m + 1) F r) :
    OutE (fun _ => False) (Found (dimOf p s0.kind) (fun w : FWalk C p fuel => CInv n s0 w.o) (fun θ => (fcpVal C s0 θ).isFin)
      fun r => ∃ F ≤ fuel, Enough C s0 m F r) (search A (if init.length = dimOf p s0.kind then some init else none) o r) := by
  subst hC
  obtain ⟨F, hF, he⟩ := he
  have sure : ∀ s', CInv n s0 s' → OutE (fun _ => False) (fun a => CInv n s0 a.1 ∧ a.2.1.length = dimOf p s0.kind ∧ Doubles a.2.1 ∧
      (fcpVal C s0 a.2.1).isFin ∧ Usable (dimOf p s0.kind) a.2.2 ∧ ∃ F ≤ fuel, Enough C s0 m F a.2.2) (FCarP.start C fuel s' r) := by
    intro s' h
    obtain ⟨a, ea, F', hF', hE⟩ := fstart_sure (C := C) h0 hk rfl h hF hr he
    exact ((start_out (C := C) h0 hk rfl h fuel hr).and ea (Q := fun a => ∃ F ≤ fuel, Enough C s0 m F a.2.2) ⟨F', by omega, hE⟩).mono
      fun a ⟨⟨a1, a2, a3, a4, a5⟩, a6⟩ => ⟨a1, a2, a3, a4, a5, a6⟩
  by_cases hl : init.length = dimOf p s0.kind
  · rw [if_pos hl]
    show OutE _ _ (FCarP.setStart C fuel o.o init r >>= fun a => pure ((⟨a.1⟩ : FWalk C p fuel), a.2.1, a.2.2))
    apply walk_found (R := fun r => ∃ F ≤ fuel, Enough C s0 m F r)
    by_cases hf : (fcpVal C s0 init).isFin
    · obtain ⟨s', e, h⟩ := setStart_given (C := C) h0 ho fuel hl (thetaLen_dim _) hf r
      rw [e]
      exact ⟨h, hl, hi hl, hf, hr, F, hF, (Nat.le_succ m).trans he.1, he.2⟩
    · obtain ⟨s', h, e⟩ := setStart_else (C := C) h0 ho fuel hl (thetaLen_dim _) hf r
      rw [e]
      exact sure s' h
  · rw [if_neg hl]
    show OutE _ _ (FCarP.start C fuel o.o r >>= fun a => pure ((⟨a.1⟩ : FWalk C p fuel), a.2.1, a.2.2))
    exact walk_found (R := fun r => ∃ F ≤ fuel, Enough C s0 m F r) (sure o.o ho)

end Verif.Theory
