import Verif.Theory.FCarmaInf

/-!
The log-density of the CARMA classes in machine numbers returns, and its value does not depend on earlier calls.
-/

namespace Verif.Theory

open Verif.Model Verif.Spec
open scoped Classical

variable {C : CArith} {p : ℕ}

/-! ### filter -/

/-- what `Update` carries from one observation to the next -/
structure PS (p : ℕ) where
  state : Fin p → CD
  P : Fin p → Fin p → CD
  innov : Dbl
  m : Dbl
  v : Dbl

/-- after `Reset` -/
noncomputable def pinit (C : CArith) (R : Fin p → CD) (V : Fin p → Fin p → CD) (e y : Dbl) : PS p :=
  { state := fun _ => CD.ofReal (.fin 0), P := V, innov := y, m := .fin 0, v := C.r.add (C.form p R V).1 (C.r.mul e e) }

/-- one `Update` -/
noncomputable def pnext (C : CArith) (om R : Fin p → CD) (V : Fin p → Fin p → CD) (dt e y : Dbl) (s : PS p) : PS p :=
  let gain : Fin p → CD := fun k => C.cdiv (C.mulVec p s.P (fun l => (R l).conj) k) (CD.ofReal s.v)
  let rho : Fin p → CD := fun k => C.cexp (C.cmul (om k) (CD.ofReal dt))
  let state : Fin p → CD := fun k => C.cmul (rho k) (C.cadd (s.state k) (C.cmul (gain k) (CD.ofReal s.innov)))
  let P : Fin p → Fin p → CD := fun k l =>
    C.cadd (C.cmul (C.cmul (rho k) (rho l).conj) (C.csub (C.csub (s.P k l) (C.cmul (CD.ofReal s.v) (C.cmul (gain k) (gain l).conj))) (V k l))) (V k l)
  { state := state, P := P, innov := C.r.sub y (C.dot p R state).1, m := (C.dot p R state).1,
    v := C.r.add (C.form p R P).1 (C.r.mul e e) }

/-- state after observation `k` -/
noncomputable def pseq (C : CArith) (om R : Fin p → CD) (V : Fin p → Fin p → CD) (dt e y : List Dbl) : ℕ → PS p
  | 0 => pinit C R V (e.getD 0 .nan) (y.getD 0 .nan)
  | k + 1 => pnext C om R V (dt.getD k .nan) (e.getD (k + 1) .nan) (y.getD (k + 1) .nan) (pseq C om R V dt e y k)

/-- the rotated coefficients -/
noncomputable def rotOf (C : CArith) (s : FKFp p) : Fin p → CD :=
  C.vecMul p (fun i => CD.ofReal (s.ma.getD i (.fin 0))) (FKFp.eigenMat C s.omega)

/-- filter with `c` entries filled in -/
structure PHist (C : CArith) (s0 s : FKFp p) (J : Fin p → CD) (n c : ℕ) (q : ℕ → PS p) : Prop where
  time : s.b.time = s0.b.time
  dt : s.b.dt = s0.b.dt
  y : s.b.y = s0.b.y
  yerr : s.b.yerr = s0.b.yerr
  omega : s.omega = s0.omega
  rot : s.rotma = rotOf C s0
  V : s.StateVar = FKFp.stateVar C s0.b.sigsqr s0.omega J
  cur : s.b.cur = c
  lmean : s.b.mean.length = n
  lvar : s.b.var.length = n
  mean : ∀ i < c, s.b.mean.getD i .nan = (q i).m
  var : ∀ i < c, s.b.var.getD i .nan = (q i).v
  state : s.state = (q (c - 1)).state
  P : s.PredVar = (q (c - 1)).P
  innov : s.innov = (q (c - 1)).innov

/-- the states for a filter -/
noncomputable def seqOf (C : CArith) (s : FKFp p) (J : Fin p → CD) : ℕ → PS p :=
  pseq C s.omega (rotOf C s) (FKFp.stateVar C s.b.sigsqr s.omega J) s.b.dt s.b.yerr s.b.y

/-- sizes that fit together -/
structure KShape (n : ℕ) (s : FKFp p) : Prop where
  time : s.b.time.length = n
  dt : n ≤ s.b.dt.length + 1
  mean : s.b.mean.length = n
  var : s.b.var.length = n
  y : n ≤ s.b.y.length
  yerr : n ≤ s.b.yerr.length

theorem hist_iterp (hp : 2 ≤ p) {s : FKFp p} {n : ℕ} (hn : 0 < n) (h : KShape n s) (hma : s.ma.length = p) {J : Fin p → CD}
    (hs : C.solve p (FKFp.eigenMat C s.omega) (FKFp.rvec p) = some J) :
    ∃ s1, FKFp.reset C s = .ok s1 ∧ s1.b.time = s.b.time ∧
      ∀ k, k + 1 ≤ n → ∃ s', iter (FKFp.update C) k s1 = .ok s' ∧ PHist C s s' J n (k + 1) (seqOf C s J) := by
  obtain ⟨ht, hd, hm, hv, hy, he⟩ := h
  have base : ∃ s', FKFp.reset C s = .ok s' ∧ PHist C s s' J n 1 (seqOf C s J) := by
    refine ⟨{ s with rotma := rotOf C s, StateVar := FKFp.stateVar C s.b.sigsqr s.omega J, PredVar := FKFp.stateVar C s.b.sigsqr s.omega J,
                     state := fun _ => CD.ofReal (.fin 0), innov := s.b.y.getD 0 .nan,
                     b := { s.b with mean := s.b.mean.set 0 (.fin 0), var := s.b.var.set 0 (seqOf C s J 0).v, cur := 1 } }, ?_, ?_⟩
    · unfold FKFp.reset
      dsimp only
      rw [if_neg (by omega), hs, res_bind_ok, if_neg (by simpa using hma)]
      simp only [wr, hm, hv, hn, if_true, res_bind_ok, frd_getD (show 0 < s.b.yerr.length by omega), List.length_set,
        frd_getD (show 0 < s.b.y.length by omega), rd_some (List.getElem?_set_self (show 0 < s.b.var.length by omega)), List.set_set]
      rfl
    · refine ⟨rfl, rfl, rfl, rfl, rfl, rfl, rfl, rfl, by simpa using hm, by simpa using hv, ?_, ?_, rfl, rfl, rfl⟩
      · intro i hi
        rw [getD_set _ _ _ _ (by omega), if_pos (by omega), show i = 0 by omega]; rfl
      · intro i hi
        rw [getD_set _ _ _ _ (by omega), if_pos (by omega), show i = 0 by omega]
  obtain ⟨s1, e1, h1⟩ := base
  refine ⟨s1, e1, h1.time, ?_⟩
  · intro k
    induction k with
    | zero => exact fun _ => ⟨s1, rfl, h1⟩
    | succ k ih =>
      intro hk
      obtain ⟨s', e', h'⟩ := ih (by omega)
      have hq : seqOf C s J (k + 1) = pnext C s.omega (rotOf C s) (FKFp.stateVar C s.b.sigsqr s.omega J) (s.b.dt.getD k .nan)
        (s.b.yerr.getD (k + 1) .nan) (s.b.y.getD (k + 1) .nan) (seqOf C s J k) := rfl
      refine ⟨{ s' with state := (seqOf C s J (k + 1)).state, PredVar := (seqOf C s J (k + 1)).P, innov := (seqOf C s J (k + 1)).innov,
                        b := { s'.b with mean := s'.b.mean.set (k + 1) (seqOf C s J (k + 1)).m,
                                         var := s'.b.var.set (k + 1) (seqOf C s J (k + 1)).v, cur := k + 1 + 1 } }, ?_, ?_⟩
      · show iter (FKFp.update C) k s1 >>= FKFp.update C = _
        rw [e', res_bind_ok]
        have hlm := h'.lmean
        have hlv := h'.lvar
        have hP := h'.P
        have hS := h'.state
        have hI := h'.innov
        rw [Nat.add_sub_cancel] at hP hS hI
        have hp0 : prevIdx (k + 1) = .ok k := by simp [prevIdx]
        unfold FKFp.update
        simp only [h'.cur, hp0, res_bind_ok, frd_getD (show k < s'.b.var.length by omega), h'.var k (by omega), hP, hS, hI, h'.rot, h'.V, h'.dt, h'.omega,
          h'.y, h'.yerr, frd_getD (show k < s.b.dt.length by omega), wr, hlm, hlv, if_pos (show k + 1 < n by omega), List.length_set,
          frd_getD (show k + 1 < s.b.yerr.length by omega), frd_getD (show k + 1 < s.b.y.length by omega),
          rd_some (List.getElem?_set_self (show k + 1 < s'.b.var.length by omega)),
          rd_some (List.getElem?_set_self (show k + 1 < s'.b.mean.length by omega)), List.set_set]
        rw [hq]
        rfl
      · refine ⟨h'.time, h'.dt, h'.y, h'.yerr, h'.omega, h'.rot, h'.V, rfl, by simpa using h'.lmean, by simpa using h'.lvar, ?_, ?_, rfl, rfl, rfl⟩
        · intro i hi
          rw [getD_set _ _ _ _ (by have := h'.lmean; omega)]
          split
          · next e => rw [e]
          · exact h'.mean i (by omega)
        · intro i hi
          rw [getD_set _ _ _ _ (by have := h'.lvar; omega)]
          split
          · next e => rw [e]
          · exact h'.var i (by omega)

theorem reset_none (hp : 2 ≤ p) {s : FKFp p} (hs : C.solve p (FKFp.eigenMat C s.omega) (FKFp.rvec p) = none) : FKFp.reset C s = .error .runtime := by
  unfold FKFp.reset
  dsimp only
  rw [if_neg (by omega), hs]
  rfl

theorem hist_filterp (hp : 2 ≤ p) {s : FKFp p} {n : ℕ} (hn : 0 < n) (h : KShape n s) (hma : s.ma.length = p) :
    (C.solve p (FKFp.eigenMat C s.omega) (FKFp.rvec p) = none → FKFp.filter C s = .error .runtime) ∧
    ∀ J, C.solve p (FKFp.eigenMat C s.omega) (FKFp.rvec p) = some J → ∃ s', FKFp.filter C s = .ok s' ∧ PHist C s s' J n n (seqOf C s J) := by
  constructor
  · intro hs
    unfold FKFp.filter
    rw [reset_none hp hs]
    rfl
  intro J hs
  obtain ⟨s1, e1, t1, step⟩ := hist_iterp hp hn h hma hs
  obtain ⟨s', e', h'⟩ := step (n - 1) (by omega)
  rw [Nat.sub_add_cancel hn] at h'
  refine ⟨s', ?_, h'⟩
  unfold FKFp.filter
  rw [e1, res_bind_ok, t1, h.time]
  exact e'

/-! ### extraction of the parameters -/

theorem rootLoop_ok {θ : List Dbl} {off k : ℕ} (h : off + 2 * k ≤ θ.length) : ∃ l, FCarP.rootLoop C θ off k = .ok l ∧ l.length = 2 * k := by
  induction k with
  | zero => exact ⟨[], rfl, rfl⟩
  | succ k ih =>
    obtain ⟨l, e, hl⟩ := ih (by omega)
    simp only [FCarP.rootLoop, e, res_bind_ok, frd_getD (show off + 2 * k < θ.length by omega), frd_getD (show off + 2 * k + 1 < θ.length by omega)]
    refine ⟨_, rfl, ?_⟩
    have : ∀ a b, (FCarP.quadPair C a b).length = 2 := by intro a b; unfold FCarP.quadPair; dsimp only; split <;> rfl
    rw [List.length_append, hl, this]
    ring

theorem rootsFrom_ok {θ : List Dbl} {off m : ℕ} (h : off + m ≤ θ.length) : ∃ l, FCarP.rootsFrom C θ off m = .ok l ∧ l.length = m := by
  obtain ⟨l, e, hl⟩ := rootLoop_ok (C := C) (θ := θ) (off := off) (k := m / 2) (by omega)
  unfold FCarP.rootsFrom
  rw [e, res_bind_ok]
  split
  · rw [frd_getD (show off + m - 1 < θ.length by omega), res_bind_ok]
    exact ⟨_, rfl, by rw [List.length_append, hl]; simp; omega⟩
  · exact ⟨l, rfl, by omega⟩

theorem polyLoop_len (l : List CD) (i : ℕ) (c : List CD) : (FCarP.polyLoop C l i c).length = c.length := by
  induction l generalizing i c with
  | nil => rfl
  | cons r l ih => rw [FCarP.polyLoop, ih, FCarP.polyStep, List.length_map, List.length_range]

theorem carmaMA_ok {θ : List Dbl} {q : ℕ} (hq : q < p) (h : p + q + 3 ≤ θ.length) : ∃ l, FCarP.carmaMA C p q θ = .ok l ∧ l.length = p := by
  obtain ⟨r, e, hr⟩ := rootsFrom_ok (C := C) (θ := θ) (off := 3 + p) (m := q) (by omega)
  have hl : (FCarP.polycoefs C r).length = q + 1 := by
    rw [FCarP.polycoefs, List.length_map, polyLoop_len]; simp [hr]
  unfold FCarP.carmaMA
  rw [e, res_bind_ok]
  dsimp only
  rw [frd_getD (show q < (FCarP.polycoefs C r).length by omega), res_bind_ok, if_neg (by omega)]
  exact ⟨_, rfl, by simp⟩

theorem zMA_ok (hp : 0 < p) (k : Dbl) : ∃ l, FCarP.zMA C p k = .ok l ∧ l.length = p := by
  unfold FCarP.zMA
  rw [if_neg (by omega)]
  exact ⟨_, rfl, by simp⟩

/-- objects whose methods stay within bounds -/
structure PShape (n : ℕ) (s : FCarP p) : Prop where
  pos : 0 < n
  time : s.time.length = n
  y : n ≤ s.y.length
  yerr : n ≤ s.yerr.length
  ktime : s.kf.b.time.length = n
  kdt : n ≤ s.kf.b.dt.length + 1
  kmean : s.kf.b.mean.length = n
  kvar : s.kf.b.var.length = n
  ma : s.maCoefs.length = p
  orders : OrdersOk p s.kind

theorem OrdersOk.two {kind : Kind} (h : OrdersOk p kind) : 2 ≤ p := by
  cases kind with
  | carma q => exact h.1
  | _ => exact h

theorem extractMA_ok {n : ℕ} {s : FCarP p} (h : PShape n s) {θ : List Dbl} (hθ : dimOf p s.kind ≤ θ.length) :
    ∃ l, FCarP.extractMA C s θ = .ok l ∧ l.length = p := by
  have ho := h.orders
  unfold FCarP.extractMA
  generalize s.kind = kind at *
  cases kind with
  | carp => exact ⟨_, rfl, h.ma⟩
  | zcar => exact ⟨_, rfl, h.ma⟩
  | carma q => exact carmaMA_ok ho.2 hθ
  | zcarma =>
    dsimp only
    rw [frd_getD (show 3 + p < θ.length by simp only [dimOf] at hθ; omega), res_bind_ok]
    exact zMA_ok (by have := OrdersOk.two ho; omega) _

/-- objects that differ only in what the filter writes -/
structure PLike (s s' : FCarP p) : Prop where
  time : s'.time = s.time
  y : s'.y = s.y
  yerr : s'.yerr = s.yerr
  stdev : s'.maxStdev = s.maxStdev
  hi : s'.maxFreq = s.maxFreq
  lo : s'.minFreq = s.minFreq
  kdt : s'.kf.b.dt = s.kf.b.dt
  kind : s'.kind = s.kind
  ma : s'.maCoefs = s.maCoefs
  order : s'.orderLor = s.orderLor
  klo : s'.kappaLow = s.kappaLow
  khi : s'.kappaHigh = s.kappaHigh

theorem PLike.refl (s : FCarP p) : PLike s s := ⟨rfl, rfl, rfl, rfl, rfl, rfl, rfl, rfl, rfl, rfl, rfl, rfl⟩

theorem PLike.symm {s s' : FCarP p} (h : PLike s s') : PLike s' s :=
  ⟨h.time.symm, h.y.symm, h.yerr.symm, h.stdev.symm, h.hi.symm, h.lo.symm, h.kdt.symm, h.kind.symm, h.ma.symm, h.order.symm, h.klo.symm, h.khi.symm⟩

theorem PLike.trans {s s' s'' : FCarP p} (h : PLike s s') (k : PLike s' s'') : PLike s s'' :=
  ⟨k.time.trans h.time, k.y.trans h.y, k.yerr.trans h.yerr, k.stdev.trans h.stdev, k.hi.trans h.hi, k.lo.trans h.lo, k.kdt.trans h.kdt,
    k.kind.trans h.kind, k.ma.trans h.ma, k.order.trans h.order, k.klo.trans h.klo, k.khi.trans h.khi⟩

theorem PLike.extractMA {s s' : FCarP p} (h : PLike s s') (θ : List Dbl) : FCarP.extractMA C s' θ = FCarP.extractMA C s θ := by
  unfold FCarP.extractMA
  rw [h.kind, h.ma, h.klo, h.khi]

theorem PLike.sigsqr {s s' : FCarP p} (h : PLike s s') (θ : List Dbl) : FCarP.extractSigsqr C s' θ = FCarP.extractSigsqr C s θ := by
  unfold FCarP.extractSigsqr
  rw [h.extractMA]

theorem PLike.check {s s' : FCarP p} (h : PLike s s') (hi : s'.ignorePrior = s.ignorePrior) (θ : List Dbl) :
    FCarP.checkPrior C s' θ = FCarP.checkPrior C s θ := by
  unfold FCarP.checkPrior
  rw [hi, h.stdev, h.hi, h.lo, h.order]

theorem PLike.prior {s s' : FCarP p} (h : PLike s s') (θ : List Dbl) : FCarP.logPrior C s' θ = FCarP.logPrior C s θ := by
  unfold FCarP.logPrior
  rw [h.kind]

theorem dim_three (kind : Kind) : p + 3 ≤ dimOf p kind := by cases kind <;> simp [dimOf]

theorem setUp_ok {n : ℕ} {s : FCarP p} (h : PShape n s) {θ : List Dbl} (hθ : dimOf p s.kind ≤ θ.length) :
    ∃ kf, FCarP.setUp C s θ = .ok kf ∧ KShape n kf ∧ kf.ma.length = p ∧ kf.b.dt = s.kf.b.dt := by
  have hd := dim_three (p := p) s.kind
  obtain ⟨r, er, -⟩ := rootsFrom_ok (C := C) (θ := θ) (off := 3) (m := p) (by omega)
  obtain ⟨ma, ema, hma⟩ := extractMA_ok (C := C) h hθ
  have es : ∃ x, FCarP.extractSigsqr C s θ = .ok x := by
    unfold FCarP.extractSigsqr
    rw [er, res_bind_ok, ema, res_bind_ok, frd_getD (show 0 < θ.length by omega), res_bind_ok]
    exact ⟨_, rfl⟩
  obtain ⟨x, es⟩ := es
  unfold FCarP.setUp
  rw [er, res_bind_ok, ema, res_bind_ok, es, res_bind_ok, frd_getD (show 1 < θ.length by omega), res_bind_ok,
    frd_getD (show 2 < θ.length by omega), res_bind_ok]
  exact ⟨_, rfl, ⟨h.ktime, h.kdt, h.kmean, h.kvar, by simpa [FKFp.zeroed] using h.y, by simpa [FKFp.zeroed] using h.yerr⟩, hma, rfl⟩

/-- the parts of a filter that decide its results -/
structure KLike (s s' : FKFp p) : Prop where
  dt : s'.b.dt = s.b.dt
  y : s'.b.y = s.b.y
  yerr : s'.b.yerr = s.b.yerr
  sig : s'.b.sigsqr = s.b.sigsqr
  omega : s'.omega = s.omega
  ma : s'.ma = s.ma

theorem setUp_like {s s' : FCarP p} (h : PLike s s') {θ : List Dbl} {k k' : FKFp p} (e : FCarP.setUp C s θ = .ok k)
    (e' : FCarP.setUp C s' θ = .ok k') : KLike k k' := by
  unfold FCarP.setUp at e e'
  obtain ⟨r, h1, e⟩ := bind_ok e
  obtain ⟨r', h1', e'⟩ := bind_ok e'
  obtain ⟨ma, h2, e⟩ := bind_ok e
  obtain ⟨ma', h2', e'⟩ := bind_ok e'
  obtain ⟨x, h3, e⟩ := bind_ok e
  obtain ⟨x', h3', e'⟩ := bind_ok e'
  obtain ⟨sc, h4, e⟩ := bind_ok e
  obtain ⟨sc', h4', e'⟩ := bind_ok e'
  obtain ⟨mu, h5, e⟩ := bind_ok e
  obtain ⟨mu', h5', e'⟩ := bind_ok e'
  rw [h1] at h1'; injection h1' with h1'; subst h1'
  rw [h.extractMA, h2] at h2'; injection h2' with h2'; subst h2'
  rw [h.sigsqr, h3] at h3'; injection h3' with h3'; subst h3'
  rw [h4] at h4'; injection h4' with h4'; subst h4'
  rw [h5] at h5'; injection h5' with h5'; subst h5'
  injection e with e
  injection e' with e'
  subst e e'
  exact ⟨h.kdt, by simp [FKFp.zeroed, h.y], by simp [FKFp.zeroed, h.yerr], rfl, rfl, rfl⟩

theorem KLike.seq {s s' : FKFp p} (h : KLike s s') (J : Fin p → CD) : seqOf C s' J = seqOf C s J := by
  unfold seqOf rotOf
  rw [h.dt, h.y, h.yerr, h.sig, h.omega, h.ma]

theorem prior_ok {s : FCarP p} {θ : List Dbl} (hθ : dimOf p s.kind ≤ θ.length) : ∃ l, FCarP.logPrior C s θ = .ok l := by
  have hd := dim_three (p := p) s.kind
  have hb : ∃ l, FCar1.logPrior C.r θ = .ok l := by
    unfold FCar1.logPrior
    rw [frd_getD (show 1 < θ.length by omega), res_bind_ok]
    exact ⟨_, rfl⟩
  unfold FCarP.logPrior
  generalize s.kind = kind at *
  cases kind with
  | zcarma =>
    obtain ⟨l, e⟩ := hb
    dsimp only
    rw [e, res_bind_ok, frd_getD (show p + 3 < θ.length by simp only [dimOf] at hθ; omega), res_bind_ok]
    exact ⟨_, rfl⟩
  | carp => exact hb
  | zcar => exact hb
  | carma q => exact hb

theorem check_ok {s : FCarP p} {θ : List Dbl} (hθ : dimOf p s.kind ≤ θ.length) : ∃ b, FCarP.checkPrior C s θ = .ok b := by
  have hd := dim_three (p := p) s.kind
  obtain ⟨r, er, -⟩ := rootsFrom_ok (C := C) (θ := θ) (off := 3) (m := p) (by omega)
  unfold FCarP.checkPrior
  split
  · exact ⟨_, rfl⟩
  · simp only [frd_getD (show 0 < θ.length by omega), frd_getD (show 1 < θ.length by omega), er, res_bind_ok]
    exact ⟨_, rfl⟩

/-- a call returns, and the value is determined by the parts of the object that calls do not change -/
theorem ld_ok {n : ℕ} {s : FCarP p} (h : PShape n s) {θ : List Dbl} (hθ : dimOf p s.kind ≤ θ.length) :
    ∃ s' v, FCarP.logDensity C s θ = .ok (s', v) ∧ PShape n s' ∧ PLike s s' ∧ s'.ignorePrior = s.ignorePrior ∧
      ∀ t, PShape n t → PLike s t → t.ignorePrior = s.ignorePrior → ∃ t', FCarP.logDensity C t θ = .ok (t', v) := by
  obtain ⟨b, eb⟩ := check_ok (C := C) hθ
  have hd := dim_three (p := p) s.kind
  cases b with
  | false =>
    refine ⟨s, .ninf, ?_, h, PLike.refl s, rfl, fun t _ hl hi => ⟨t, ?_⟩⟩
    · unfold FCarP.logDensity; rw [eb, res_bind_ok, if_pos rfl]; rfl
    · unfold FCarP.logDensity; rw [hl.check hi, eb, res_bind_ok, if_pos rfl]; rfl
  | true =>
    have emu := frd_getD (show 2 < θ.length by omega)
    obtain ⟨k, ek, hk, hma, hdt⟩ := setUp_ok (C := C) h hθ
    have htwo := OrdersOk.two h.orders
    obtain ⟨f1, f2⟩ := hist_filterp (C := C) htwo h.pos hk hma
    have other : ∀ t, PShape n t → PLike s t → ∃ k', FCarP.setUp C t θ = .ok k' ∧ KShape n k' ∧ k'.ma.length = p ∧ KLike k k' := by
      intro t ht hl
      obtain ⟨k', ek', hk', hma', -⟩ := setUp_ok (C := C) ht (by rw [hl.kind]; exact hθ)
      exact ⟨k', ek', hk', hma', setUp_like hl ek ek'⟩
    cases hs : C.solve p (FKFp.eigenMat C k.omega) (FKFp.rvec p) with
    | none =>
      refine ⟨{ s with kf := k }, .ninf, ?_, ⟨h.pos, h.time, h.y, h.yerr, hk.time, hk.dt, hk.mean, hk.var, h.ma, h.orders⟩,
        ⟨rfl, rfl, rfl, rfl, rfl, rfl, hdt, rfl, rfl, rfl, rfl, rfl⟩, rfl, fun t ht hl hi => ?_⟩
      · unfold FCarP.logDensity; rw [eb, res_bind_ok, if_neg (by simp), ek, res_bind_ok, emu, res_bind_ok, f1 hs]; rfl
      · obtain ⟨k', ek', hk', hma', hkl⟩ := other t ht hl
        have := (hist_filterp (C := C) htwo h.pos hk' hma').1 (by rw [hkl.omega]; exact hs)
        refine ⟨{ t with kf := k' }, ?_⟩
        unfold FCarP.logDensity; rw [hl.check hi, eb, res_bind_ok, if_neg (by simp), ek', res_bind_ok, emu, res_bind_ok, this]; rfl
    | some J =>
      obtain ⟨kf, ef, hf⟩ := f2 J hs
      obtain ⟨lp, elp⟩ := prior_ok (C := C) hθ
      have elik := hist_lik (A := C.r) (y := s.y) (mu := θ.getD 2 .nan) (mv := fun i => ((seqOf C k J i).m, (seqOf C k J i).v)) h.y hf.lmean.ge hf.lvar.ge
        hf.mean hf.var
      refine ⟨{ s with kf := kf }, C.r.add (flik C.r s.y (fun i => ((seqOf C k J i).m, (seqOf C k J i).v)) (θ.getD 2 .nan) n) lp, ?_,
        ⟨h.pos, h.time, h.y, h.yerr, by rw [hf.time]; exact hk.time, by rw [hf.dt]; exact hk.dt, hf.lmean, hf.lvar, h.ma, h.orders⟩,
        ⟨rfl, rfl, rfl, rfl, rfl, rfl, hf.dt.trans hdt, rfl, rfl, rfl, rfl, rfl⟩, rfl, fun t ht hl hi => ?_⟩
      · unfold FCarP.logDensity
        rw [eb, res_bind_ok, if_neg (by simp), ek, res_bind_ok, emu, res_bind_ok, ef]
        dsimp only
        rw [h.time, elik, res_bind_ok, elp]; rfl
      · obtain ⟨k', ek', hk', hma', hkl⟩ := other t ht hl
        obtain ⟨kf', ef', hf'⟩ := (hist_filterp (C := C) htwo h.pos hk' hma').2 J (by rw [hkl.omega]; exact hs)
        rw [hkl.seq] at hf'
        have elik' := hist_lik (A := C.r) (y := s.y) (mu := θ.getD 2 .nan) (mv := fun i => ((seqOf C k J i).m, (seqOf C k J i).v)) h.y hf'.lmean.ge
          hf'.lvar.ge hf'.mean hf'.var
        refine ⟨{ t with kf := kf' }, ?_⟩
        unfold FCarP.logDensity
        rw [hl.check hi, eb, res_bind_ok, if_neg (by simp), ek', res_bind_ok, emu, res_bind_ok, ef']
        dsimp only
        rw [ht.time, hl.y, elik', res_bind_ok, hl.prior, elp]; rfl

/-! ### earlier calls -/

/-- parts of the filter that `Filter` keeps -/
structure KKept (s s' : FKFp p) : Prop where
  time : s'.b.time = s.b.time
  dt : s'.b.dt = s.b.dt
  mean : s'.b.mean.length = s.b.mean.length
  var : s'.b.var.length = s.b.var.length

theorem kept_reset {s s' : FKFp p} (e : FKFp.reset C s = .ok s') : KKept s s' := by
  unfold FKFp.reset at e
  dsimp only at e
  split at e
  · cases e
  obtain ⟨J, -, e⟩ := bind_ok e
  split at e
  · cases e
  obtain ⟨mean, h0, e⟩ := bind_ok e
  obtain ⟨e0, -, e⟩ := bind_ok e
  obtain ⟨v1, h1, e⟩ := bind_ok e
  obtain ⟨x, -, e⟩ := bind_ok e
  obtain ⟨v2, h2, e⟩ := bind_ok e
  obtain ⟨y0, -, e⟩ := bind_ok e
  injection e with e
  subst e
  exact ⟨rfl, rfl, wr_len h0, (wr_len h2).trans (wr_len h1)⟩

theorem kept_update {s s' : FKFp p} (e : FKFp.update C s = .ok s') : KKept s s' := by
  unfold FKFp.update at e
  obtain ⟨_, -, e⟩ := bind_ok e
  obtain ⟨_, -, e⟩ := bind_ok e
  obtain ⟨_, -, e⟩ := bind_ok e
  obtain ⟨mean, h0, e⟩ := bind_ok e
  obtain ⟨v1, h1, e⟩ := bind_ok e
  obtain ⟨x, -, e⟩ := bind_ok e
  obtain ⟨ec, -, e⟩ := bind_ok e
  obtain ⟨v2, h2, e⟩ := bind_ok e
  obtain ⟨y0, -, e⟩ := bind_ok e
  obtain ⟨m0, -, e⟩ := bind_ok e
  injection e with e
  subst e
  exact ⟨rfl, rfl, wr_len h0, (wr_len h2).trans (wr_len h1)⟩

theorem kept_iter {k : ℕ} {s s' : FKFp p} (e : iter (FKFp.update C) k s = .ok s') : KKept s s' := by
  induction k generalizing s' with
  | zero => injection e with e; subst e; exact ⟨rfl, rfl, rfl, rfl⟩
  | succ k ih =>
    obtain ⟨s1, h1, e⟩ := bind_ok e
    have a := ih h1
    have b := kept_update e
    exact ⟨b.time.trans a.time, b.dt.trans a.dt, b.mean.trans a.mean, b.var.trans a.var⟩

theorem kept_filter {s s' : FKFp p} (e : FKFp.filter C s = .ok s') : KKept s s' := by
  unfold FKFp.filter at e
  obtain ⟨s1, h1, e⟩ := bind_ok e
  have a := kept_reset h1
  have b := kept_iter e
  exact ⟨b.time.trans a.time, b.dt.trans a.dt, b.mean.trans a.mean, b.var.trans a.var⟩

theorem kept_setUp {s : FCarP p} {θ : List Dbl} {kf : FKFp p} (h : FCarP.setUp C s θ = .ok kf) : KKept s.kf kf := by
  unfold FCarP.setUp at h
  obtain ⟨_, -, h⟩ := bind_ok h
  obtain ⟨_, -, h⟩ := bind_ok h
  obtain ⟨_, -, h⟩ := bind_ok h
  obtain ⟨_, -, h⟩ := bind_ok h
  obtain ⟨_, -, h⟩ := bind_ok h
  injection h with h
  subst h
  exact ⟨rfl, rfl, rfl, rfl⟩

theorem shape_kept {n : ℕ} {s : FCarP p} (h : PShape n s) {k : FKFp p} (hk : KKept s.kf k) : PShape n { s with kf := k } ∧ PLike s { s with kf := k } :=
  ⟨⟨h.pos, h.time, h.y, h.yerr, by rw [hk.time]; exact h.ktime, by rw [hk.dt]; exact h.kdt, hk.mean.trans h.kmean, hk.var.trans h.kvar, h.ma, h.orders⟩,
    ⟨rfl, rfl, rfl, rfl, rfl, rfl, hk.dt, rfl, rfl, rfl, rfl, rfl⟩⟩

theorem ld_kept {n : ℕ} {s s' : FCarP p} (h : PShape n s) {θ : List Dbl} {v : Dbl} (e : FCarP.logDensity C s θ = .ok (s', v)) :
    PShape n s' ∧ PLike s s' := by
  unfold FCarP.logDensity at e
  obtain ⟨ok, -, e⟩ := bind_ok e
  split at e
  · injection e with e
    injection e with e _
    subst e
    exact ⟨h, PLike.refl s⟩
  obtain ⟨kf, h1, e⟩ := bind_ok e
  obtain ⟨mu, -, e⟩ := bind_ok e
  have hk := kept_setUp h1
  split at e
  · injection e with e
    injection e with e _
    subst e
    exact shape_kept h hk
  · cases e
  · rename_i kf' ef
    obtain ⟨ll, -, e⟩ := bind_ok e
    obtain ⟨lp, -, e⟩ := bind_ok e
    injection e with e
    injection e with e _
    subst e
    have b := kept_filter ef
    exact shape_kept h ⟨b.time.trans hk.time, b.dt.trans hk.dt, b.mean.trans hk.mean, b.var.trans hk.var⟩

theorem called_kept {n : ℕ} {s s' : FCarP p} (h : PShape n s) (hc : CalledP C s s') : PShape n s' ∧ PLike s s' := by
  induction hc with
  | none => exact ⟨h, PLike.refl s⟩
  | call _ e ih =>
    obtain ⟨a, b⟩ := ld_kept ih.1 e
    exact ⟨a, ih.2.trans b⟩
  | mle x _ ih =>
    obtain ⟨a, b⟩ := ih
    exact ⟨⟨a.pos, a.time, a.y, a.yerr, a.ktime, a.kdt, a.kmean, a.kvar, a.ma, a.orders⟩,
      ⟨b.time, b.y, b.yerr, b.stdev, b.hi, b.lo, b.kdt, b.kind, b.ma, b.order, b.klo, b.khi⟩⟩

/-! ### constructors -/

theorem newData_pos {A : Arith} {time ds : List Dbl} (hd : FKF1.diffs A time = .ok ds) (hpos : ∀ d ∈ ds, ∃ x > 0, d = .fin x)
    (srt : List Dbl → List ℕ) {s : FKF1} (hs : s.time = time) :
    (FKF1.initSort A srt s >>= FKF1.initDedup A : Res FKF1) =
      .ok { s with dt := ds, mean := List.replicate time.length (.fin 0), var := List.replicate time.length (.fin 0) } := by
  subst hs
  have nneg : ¬ ∃ d ∈ ds, d.lt (.fin 0) := by
    rintro ⟨d, hd, hlt⟩
    obtain ⟨x, hx, rfl⟩ := hpos d hd
    exact absurd hlt (not_lt.mpr (le_of_lt hx))
  have nz : ¬ ((∀ d ∈ ds, ¬ d.lt (.fin 0)) ∧ ∃ d ∈ ds, d = .fin 0) := by
    rintro ⟨-, d, hd, rfl⟩
    obtain ⟨x, hx, e⟩ := hpos _ hd
    injection e with e
    exact absurd e (ne_of_lt hx)
  unfold FKF1.initSort
  rw [hd, res_bind_ok, if_neg nneg, res_pure, res_bind_ok]
  unfold FKF1.initDedup
  dsimp only
  rw [if_neg nz]
  rfl

theorem vec_ok {l : List Dbl} (h : l ≠ []) : (∃ x, FCar1.vecMin l = .ok x) ∧ ∃ x, FCar1.vecMax l = .ok x := by
  cases l with
  | nil => exact absurd rfl h
  | cons a l => exact ⟨⟨_, rfl⟩, ⟨_, rfl⟩⟩

theorem newp_ok {kind : Kind} {time y yerr ds : List Dbl} {M : Dbl} (hd : FKF1.diffs C.r time = .ok ds) (hpos : ∀ d ∈ ds, ∃ x > 0, d = .fin x)
    (hy : time.length ≤ y.length) (he : time.length ≤ yerr.length) (ho : OrdersOk p kind) (srt : List Dbl → List ℕ) :
    ∃ s, FCarP.new C kind p srt time y yerr M = .ok s ∧ PShape time.length s ∧ s.kind = kind ∧ s.ignorePrior = false := by
  have htwo := OrdersOk.two ho
  have h2 : 2 ≤ time.length := by
    unfold FKF1.diffs at hd
    split at hd
    · cases hd
    · omega
  have lds : ds.length = time.length - 1 := by
    unfold FKF1.diffs at hd
    rw [if_neg (by omega)] at hd
    injection hd with hd
    subst hd
    simp
  obtain ⟨dmin, emin⟩ := (vec_ok (l := ds) (by intro h; rw [h] at lds; simp at lds; omega)).1
  have tne : time ≠ [] := by intro h; rw [h] at h2; simp at h2
  obtain ⟨⟨tmin, etmin⟩, ⟨tmax, etmax⟩⟩ := vec_ok tne
  have hk : ∃ k, FKFp.newData C p srt time y yerr = .ok k ∧ k.b.time = time ∧ k.b.dt = ds ∧ k.b.mean.length = time.length ∧
      k.b.var.length = time.length := by
    obtain ⟨b0, e0, t0⟩ : ∃ b0, FKF1.newData C.r srt time y yerr = .ok b0 ∧ b0.time = time := ⟨_, newData_pos hd hpos srt rfl, rfl⟩
    unfold FKFp.newData
    rw [e0, res_bind_ok]
    have again : ∀ b : FKF1, b.time = time → ∃ b1, FKF1.initSort C.r srt b = .ok b1 ∧ FKF1.initDedup C.r b1 = .ok
        { b with dt := ds, mean := List.replicate time.length (.fin 0), var := List.replicate time.length (.fin 0) } :=
      fun b hb => bind_ok (newData_pos hd hpos srt hb)
    obtain ⟨b1, h1, h2⟩ := again b0 t0
    rw [h1, res_bind_ok, h2, res_bind_ok]
    exact ⟨_, rfl, t0, rfl, by simp [FKFp.zeroed], by simp [FKFp.zeroed]⟩
  obtain ⟨k, ek, k1, k2, k3, k4⟩ := hk
  have hbase : ∃ s, FCarP.newCarp C p srt time y yerr M = .ok s ∧ s.time = time ∧ s.y = y ∧ s.yerr = yerr ∧ s.kf.b = k.b ∧ s.maCoefs.length = p ∧
      s.kind = .carp ∧ s.ignorePrior = false := by
    unfold FCarP.newCarp
    rw [hd, res_bind_ok, emin, res_bind_ok, etmax, res_bind_ok, etmin, res_bind_ok, ek, res_bind_ok, if_neg (by omega)]
    exact ⟨_, rfl, rfl, rfl, rfl, rfl, by simp; omega, rfl, rfl⟩
  obtain ⟨s, es, e1, e2, e3, e4, e5, e6, e7⟩ := hbase
  have shape : ∀ s' : FCarP p, s'.time = time → s'.y = y → s'.yerr = yerr → s'.kf.b = k.b → s'.maCoefs.length = p → s'.kind = kind →
      PShape time.length s' := by
    intro s' h1 h2' h3 h4 h5 h6
    exact ⟨by omega, by rw [h1], by rw [h2']; exact hy, by rw [h3]; exact he, by rw [h4, k1], by rw [h4, k2, lds]; omega, by rw [h4, k3], by rw [h4, k4],
      h5, by rw [h6]; exact ho⟩
  unfold FCarP.new
  rw [es, res_bind_ok]
  cases kind with
  | carp => exact ⟨s, rfl, shape s e1 e2 e3 e4 e5 e6, e6, e7⟩
  | carma q => exact ⟨_, rfl, shape { s with kind := .carma q } e1 e2 e3 e4 e5 rfl, rfl, e7⟩
  | zcar =>
    dsimp only
    obtain ⟨ma, ema, -⟩ := zMA_ok (C := C) (p := p) (by omega) (C.r.div (.fin 1) dmin)
    rw [hd, res_bind_ok, emin, res_bind_ok, ema, res_bind_ok]
    exact ⟨_, rfl, shape { s with kind := .zcar, kf := { s.kf with ma := ma } } e1 e2 e3 e4 e5 rfl, rfl, e7⟩
  | zcarma =>
    dsimp only
    have emed : ∃ m, FCarP.median C ds = .ok m := by
      unfold FCarP.median
      rw [if_neg]
      · exact ⟨_, rfl⟩
      · rintro (h | h)
        · rw [h] at lds; simp at lds; omega
        · obtain ⟨x, -, h⟩ := hpos _ h
          cases h
    obtain ⟨m, emed⟩ := emed
    rw [hd, res_bind_ok, emin, res_bind_ok, etmax, res_bind_ok, etmin, res_bind_ok, emed, res_bind_ok]
    exact ⟨_, rfl, shape _ e1 e2 e3 e4 e5 rfl, rfl, e7⟩

theorem mild_pos {A : Arith} (hA : IsBinary64 A) {ts : List ℝ} (h : MildTimes ts) :
    ∃ ds, FKF1.diffs A (ts.map .fin) = .ok ds ∧ ∀ d ∈ ds, ∃ x > 0, d = .fin x := by
  obtain ⟨ds, eds, -, hds, -⟩ := diffs_num hA h
  refine ⟨_, eds, fun d hd => ?_⟩
  obtain ⟨x, hx, rfl⟩ := List.mem_map.mp hd
  exact ⟨x, lt_of_lt_of_le (by positivity) (hds x hx).1, rfl⟩

end Verif.Theory
