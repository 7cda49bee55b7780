import Verif.Theory.FNan
import Verif.Model.FSamp

/-!
The CAR(1) log-density with machine numbers in closed form: it returns whatever the arguments are and does not depend on earlier calls.
-/

namespace Verif.Theory

open Verif.Model Verif.Spec
open scoped Classical

variable {A : Arith}

/-! ### filter -/

/-- mean and variance number `k` -/
noncomputable def fmv (A : Arith) (sig om : Dbl) (yerr y dt : List Dbl) : ℕ → Dbl × Dbl
  | 0 => (.fin 0, A.add (A.div sig (A.mul (.fin 2) om)) (A.mul (yerr.getD 0 .nan) (yerr.getD 0 .nan)))
  | k + 1 =>
    let m := (fmv A sig om yerr y dt k).1
    let v := (fmv A sig om yerr y dt k).2
    let e := yerr.getD k .nan
    let e' := yerr.getD (k + 1) .nan
    let rho := A.exp (A.mul (A.mul (.fin (-1)) om) (dt.getD k .nan))
    let pv := A.sub v (A.mul e e)
    let g := A.div pv v
    let q := A.div sig (A.mul (.fin 2) om)
    (A.add (A.mul rho m) (A.mul (A.mul rho g) (A.sub (y.getD k .nan) m)),
     A.add (A.add (A.mul q (A.sub (.fin 1) (A.mul rho rho))) (A.mul (A.mul (A.mul rho rho) pv) (A.sub (.fin 1) g))) (A.mul e' e'))

theorem frd_getD {l : List Dbl} {i : ℕ} (h : i < l.length) : rd l i = .ok (l.getD i .nan) := by
  rw [List.getD_eq_getElem _ _ h]; exact rd_some (List.getElem?_eq_getElem h)

/-- filter with `c` entries filled in -/
structure FHist (A : Arith) (s0 s : FKF1) (n c : ℕ) : Prop where
  time : s.time = s0.time
  dt : s.dt = s0.dt
  y : s.y = s0.y
  yerr : s.yerr = s0.yerr
  sig : s.sigsqr = s0.sigsqr
  om : s.omega = s0.omega
  cur : s.cur = c
  lmean : s.mean.length = n
  lvar : s.var.length = n
  mean : ∀ i < c, s.mean.getD i .nan = (fmv A s0.sigsqr s0.omega s0.yerr s0.y s0.dt i).1
  var : ∀ i < c, s.var.getD i .nan = (fmv A s0.sigsqr s0.omega s0.yerr s0.y s0.dt i).2

theorem getD_set (l : List Dbl) (i j : ℕ) (x : Dbl) (h : i < l.length) :
    (l.set i x).getD j .nan = if j = i then x else l.getD j .nan := by
  simp only [List.getD_eq_getElem?_getD, List.getElem?_set]
  by_cases e : j = i
  · subst e; simp [h]
  · simp [e, Ne.symm e]

theorem hist_filter {s : FKF1} {n : ℕ} (hn : 0 < n) (ht : s.time.length = n) (hd : n ≤ s.dt.length + 1) (hm : s.mean.length = n)
    (hv : s.var.length = n) (hy : n ≤ s.y.length) (he : n ≤ s.yerr.length) : ∃ s', FKF1.filter A s = .ok s' ∧ FHist A s s' n n := by
  have base : ∃ s', FKF1.reset A s = .ok s' ∧ FHist A s s' n 1 := by
    refine ⟨{ s with mean := s.mean.set 0 (.fin 0), var := s.var.set 0 (fmv A s.sigsqr s.omega s.yerr s.y s.dt 0).2, yconst := .fin 0,
                     yslope := .fin 0, cur := 1 }, ?_, ?_⟩
    · simp only [FKF1.reset, res_bind_ok, frd_getD (show 0 < s.yerr.length by omega), wr_ok (show 0 < s.mean.length by omega),
        wr_ok (show 0 < s.var.length by omega)]
      rfl
    · refine ⟨rfl, rfl, rfl, rfl, rfl, rfl, rfl, by simpa using hm, by simpa using hv, ?_, ?_⟩ <;> intro i hi <;>
        obtain rfl : i = 0 := by omega
      · show (s.mean.set 0 _).getD 0 .nan = _
        rw [getD_set _ _ _ _ (by omega), if_pos rfl]; rfl
      · show (s.var.set 0 _).getD 0 .nan = _
        rw [getD_set _ _ _ _ (by omega), if_pos rfl]
  have step : ∀ t c, 0 < c → c < n → FHist A s t n c → ∃ t', FKF1.update A t = .ok t' ∧ FHist A s t' n (c + 1) := by
    intro t c hc hcn h
    obtain ⟨k, rfl⟩ : ∃ k, c = k + 1 := ⟨c - 1, by omega⟩
    have hp : prevIdx (k + 1) = .ok k := by simp [prevIdx]
    have lm : k + 1 < t.mean.length := by rw [h.lmean]; omega
    have lv : k + 1 < t.var.length := by rw [h.lvar]; omega
    have e1 := h.mean k (by omega)
    have e2 := h.var k (by omega)
    obtain ⟨V, eu⟩ : ∃ V, FKF1.update A t = .ok { t with
        mean := t.mean.set (k + 1) (fmv A s.sigsqr s.omega s.yerr s.y s.dt (k + 1)).1
        var := (t.var.set (k + 1) V).set (k + 1) (fmv A s.sigsqr s.omega s.yerr s.y s.dt (k + 1)).2
        cur := k + 2 } := by
      refine ⟨?_, ?_⟩
      rotate_left
      simp only [FKF1.update, h.cur, hp, res_bind_ok, frd_getD (show k < t.dt.length by rw [h.dt]; omega),
        frd_getD (show k < t.var.length by omega), frd_getD (show k < t.yerr.length by rw [h.yerr]; omega),
        frd_getD (show k < t.mean.length by omega), frd_getD (show k < t.y.length by rw [h.y]; omega), wr_ok lm, wr_ok lv,
        frd_getD (show k + 1 < t.yerr.length by rw [h.yerr]; omega)]
      rw [frd_getD (by simpa using lv), res_bind_ok, getD_set _ _ _ _ lv, if_pos rfl, wr_ok (by simpa using lv), e1, e2, h.y, h.yerr, h.dt, h.om,
        h.sig]
      rfl
    · refine ⟨_, eu, h.time, h.dt, h.y, h.yerr, h.sig, h.om, rfl, by simpa using h.lmean, by simpa using h.lvar, ?_, ?_⟩ <;> intro i hi
      · show (t.mean.set _ _).getD i .nan = _
        rw [getD_set _ _ _ _ lm]
        split_ifs with hik
        · subst hik; rfl
        · exact h.mean i (by omega)
      · show ((t.var.set _ _).set _ _).getD i .nan = _
        rw [getD_set _ _ _ _ (by simpa using lv), getD_set _ _ _ _ lv]
        split_ifs with hik
        · subst hik; rfl
        · exact h.var i (by omega)
  obtain ⟨s1, f1, h1⟩ := base
  have loop : ∀ k, k + 1 ≤ n → ∃ s', iter (FKF1.update A) k s1 = .ok s' ∧ FHist A s s' n (k + 1) := by
    intro k
    induction k with
    | zero => exact fun _ => ⟨s1, rfl, h1⟩
    | succ k ih =>
      intro hk
      obtain ⟨s2, f2, h2⟩ := ih (by omega)
      obtain ⟨s3, f3, h3⟩ := step s2 (k + 1) (by omega) (by omega) h2
      exact ⟨s3, by simp only [iter, f2, res_bind_ok, f3], h3⟩
  obtain ⟨s', f', h'⟩ := loop (n - 1) (by omega)
  refine ⟨s', ?_, by rwa [Nat.sub_add_cancel hn] at h'⟩
  simp only [FKF1.filter, f1, res_bind_ok, h1.time, ht, f']

/-! ### log-density -/

/-- the term of one observation -/
noncomputable def fterm (A : Arith) (y m v mu : Dbl) : Dbl :=
  A.sub (A.mul (.fin (-0.5)) (A.log v)) (A.div (A.mul (A.mul (.fin 0.5) (A.sub (A.sub y m) mu)) (A.sub (A.sub y m) mu)) v)

/-- sum of the terms of the first `k` observations -/
noncomputable def flik (A : Arith) (y : List Dbl) (mv : ℕ → Dbl × Dbl) (mu : Dbl) : ℕ → Dbl
  | 0 => .fin 0
  | k + 1 => A.add (flik A y mv mu k) (fterm A (y.getD k .nan) (mv k).1 (mv k).2 mu)

theorem hist_lik {y mean var : List Dbl} {mu : Dbl} {mv : ℕ → Dbl × Dbl} {n : ℕ} (hy : n ≤ y.length) (hm : n ≤ mean.length) (hv : n ≤ var.length)
    (em : ∀ i < n, mean.getD i .nan = (mv i).1) (ev : ∀ i < n, var.getD i .nan = (mv i).2) :
    FCar1.likLoop A y mean var mu n = .ok (flik A y mv mu n) := by
  induction n with
  | zero => rfl
  | succ k ih =>
    simp only [FCar1.likLoop, ih (by omega) (by omega) (by omega) (fun i hi => em i (by omega)) (fun i hi => ev i (by omega)), res_bind_ok,
      frd_getD (show k < y.length by omega), frd_getD (show k < mean.length by omega), frd_getD (show k < var.length by omega), em k (by omega),
      ev k (by omega)]
    rfl

/-- the prior bounds as the code checks them -/
def fpass (A : Arith) (s : FCar1) (θ : List Dbl) : Prop :=
  ¬ ((A.exp (θ.getD 3 .nan)).gt s.maxFreq ∨ (A.exp (θ.getD 3 .nan)).lt s.minFreq ∨ (θ.getD 0 .nan).gt s.maxStdev ∨ (θ.getD 0 .nan).lt (.fin 0) ∨
    (θ.getD 1 .nan).lt (.fin 0.5) ∨ (θ.getD 1 .nan).gt (.fin 2))

/-- the prior density -/
noncomputable def fprior (A : Arith) (x : Dbl) : Dbl :=
  A.sub (A.div (A.mul (.fin (-0.5)) (.fin 50)) x) (A.mul (A.add (.fin 1) (A.div (.fin 50) (.fin 2))) (A.log x))

/-- means and variances for `theta` -/
noncomputable def fcarMv (A : Arith) (s : FCar1) (θ : List Dbl) : ℕ → Dbl × Dbl :=
  fmv A (A.mul (A.mul (A.mul (.fin 2) (θ.getD 0 .nan)) (θ.getD 0 .nan)) (A.exp (θ.getD 3 .nan))) (A.exp (θ.getD 3 .nan))
    (s.yerr.map fun x => A.mul (A.sqrt (θ.getD 1 .nan)) x) (s.y.map fun x => A.sub x (θ.getD 2 .nan)) s.kf.dt

/-- value of the log-density -/
noncomputable def fcarVal (A : Arith) (s : FCar1) (θ : List Dbl) : Dbl :=
  if fpass A s θ then A.add (flik A s.y (fcarMv A s θ) (θ.getD 2 .nan) s.time.length) (fprior A (θ.getD 1 .nan)) else .ninf

/-- sizes that fit together -/
structure FShape (s : FCar1) : Prop where
  pos : 0 < s.time.length
  ktime : s.kf.time.length = s.time.length
  kdt : s.time.length ≤ s.kf.dt.length + 1
  kmean : s.kf.mean.length = s.time.length
  kvar : s.kf.var.length = s.time.length
  y : s.time.length ≤ s.y.length
  yerr : s.time.length ≤ s.yerr.length

/-- objects that differ only in what the filter writes -/
structure FLike (s s' : FCar1) : Prop where
  time : s'.time = s.time
  y : s'.y = s.y
  yerr : s'.yerr = s.yerr
  stdev : s'.maxStdev = s.maxStdev
  hi : s'.maxFreq = s.maxFreq
  lo : s'.minFreq = s.minFreq
  kdt : s'.kf.dt = s.kf.dt

theorem FLike.refl (s : FCar1) : FLike s s := ⟨rfl, rfl, rfl, rfl, rfl, rfl, rfl⟩

theorem FLike.val {s s' : FCar1} (h : FLike s s') (θ : List Dbl) : fcarVal A s' θ = fcarVal A s θ := by
  have e : fpass A s' θ ↔ fpass A s θ := by unfold fpass; rw [h.stdev, h.hi, h.lo]
  have e' : fcarMv A s' θ = fcarMv A s θ := by unfold fcarMv; rw [h.y, h.yerr, h.kdt]
  unfold fcarVal
  rw [e', h.y, h.time]
  by_cases hp : fpass A s θ
  · rw [if_pos hp, if_pos (e.mpr hp)]
  · rw [if_neg hp, if_neg (fun h => hp (e.mp h))]

/-- what is kept from call to call -/
structure FInv (s s' : FCar1) : Prop where
  shape : FShape s'
  like : FLike s s'

theorem hist_ld {s0 s : FCar1} (h : FInv s0 s) {θ : List Dbl} (hθ : θ.length = 4) :
    ∃ s', FCar1.logDensity A s θ = .ok (s', fcarVal A s0 θ) ∧ FInv s0 s' := by
  have hs := h.shape
  rw [← h.like.val θ]
  have hc : FCar1.checkPrior A s θ = .ok (decide (fpass A s θ)) := by
    simp only [FCar1.checkPrior, frd_getD (show 0 < θ.length by omega), frd_getD (show 1 < θ.length by omega), frd_getD (show 3 < θ.length by omega),
      res_bind_ok, res_pure]
    congr 1
    exact decide_eq_decide.mpr Iff.rfl
  by_cases hp : fpass A s θ
  · obtain ⟨kf, ek, hk⟩ := hist_filter (A := A) (s := { s.kf with
      sigsqr := A.mul (A.mul (A.mul (.fin 2) (θ.getD 0 .nan)) (θ.getD 0 .nan)) (A.exp (θ.getD 3 .nan))
      omega := A.exp (θ.getD 3 .nan)
      yerr := s.yerr.map fun x => A.mul (A.sqrt (θ.getD 1 .nan)) x
      y := s.y.map fun x => A.sub x (θ.getD 2 .nan) }) (n := s.time.length) hs.pos hs.ktime hs.kdt hs.kmean hs.kvar (by simpa using hs.y)
      (by simpa using hs.yerr)
    have el := hist_lik (A := A) (mu := θ.getD 2 .nan) (mv := fcarMv A s θ) hs.y hk.lmean.ge hk.lvar.ge hk.mean hk.var
    refine ⟨{ s with kf := kf }, ?_, ⟨⟨hs.pos, ?_, ?_, hk.lmean, hk.lvar, hs.y, hs.yerr⟩, ?_⟩⟩
    · simp only [FCar1.logDensity, hc, res_bind_ok, hp, decide_true]
      rw [if_neg (by simp)]
      simp only [frd_getD (show 0 < θ.length by omega), frd_getD (show 1 < θ.length by omega), frd_getD (show 2 < θ.length by omega),
        frd_getD (show 3 < θ.length by omega), res_bind_ok, ek, el, FCar1.logPrior, res_pure]
      rw [fcarVal, if_pos hp]; rfl
    · rw [hk.time]; exact hs.ktime
    · rw [hk.dt]; exact hs.kdt
    · have := h.like
      exact ⟨this.time, this.y, this.yerr, this.stdev, this.hi, this.lo, hk.dt.trans this.kdt⟩
  · refine ⟨s, ?_, h⟩
    simp only [FCar1.logDensity, hc, res_bind_ok, hp, decide_false, if_true]
    rw [fcarVal, if_neg hp]; rfl

/-- `StartingValue` and `SetStartingValue` leave such an object -/
theorem hist_start {s0 s : FCar1} (h : FInv s0 s) {θ : List Dbl} (hθ : θ.length = 4) :
    ∃ s', FCar1.startFilter A s θ = .ok s' ∧ FInv s0 s' := by
  have hs := h.shape
  obtain ⟨kf, ek, hk⟩ := hist_filter (A := A) (s := { s.kf with
    omega := A.exp (θ.getD 3 .nan)
    sigsqr := A.mul (A.mul (θ.getD 0 .nan) (A.sqrt (A.mul (.fin 2) (A.exp (θ.getD 3 .nan)))))
      (A.mul (θ.getD 0 .nan) (A.sqrt (A.mul (.fin 2) (A.exp (θ.getD 3 .nan)))))
    yerr := s.yerr.map fun x => A.mul (A.sqrt (θ.getD 1 .nan)) x
    y := s.y.map fun x => A.sub x (θ.getD 2 .nan) }) (n := s.time.length) hs.pos hs.ktime hs.kdt hs.kmean hs.kvar (by simpa using hs.y)
    (by simpa using hs.yerr)
  refine ⟨{ s with kf := kf }, ?_, ⟨⟨hs.pos, ?_, ?_, hk.lmean, hk.lvar, hs.y, hs.yerr⟩, ?_⟩⟩
  · simp only [FCar1.startFilter, frd_getD (show 0 < θ.length by omega), frd_getD (show 1 < θ.length by omega), frd_getD (show 2 < θ.length by omega),
      frd_getD (show 3 < θ.length by omega), res_bind_ok, ek]
    rfl
  · rw [hk.time]; exact hs.ktime
  · rw [hk.dt]; exact hs.kdt
  · have := h.like
    exact ⟨this.time, this.y, this.yerr, this.stdev, this.hi, this.lo, hk.dt.trans this.kdt⟩

/-! ### not finite -/

theorem fin_fl {d : Dbl} (h : (A.fl d).isFin) : d.isFin := by
  cases d <;> first | trivial | exact h

theorem fin_add {a b : Dbl} (h : (A.add a b).isFin) : a.isFin ∧ b.isFin := by
  have := fin_fl h
  cases a <;> cases b <;> first | exact ⟨trivial, trivial⟩ | exact this.elim

theorem fin_neg {a : Dbl} (h : a.neg.isFin) : a.isFin := by
  cases a <;> first | trivial | exact h

theorem fin_sub {a b : Dbl} (h : (A.sub a b).isFin) : a.isFin ∧ b.isFin := by
  have := fin_add (A := A) (a := a) (b := b.neg) h
  exact ⟨this.1, fin_neg this.2⟩

theorem infTimes_not (x : ℝ) : ¬ (Dbl.infTimes x).isFin := by
  unfold Dbl.infTimes; split_ifs <;> exact id

theorem fin_mul {a b : Dbl} (h : (A.mul a b).isFin) : a.isFin ∧ b.isFin := by
  have := fin_fl h
  cases a <;> cases b <;> first | exact ⟨trivial, trivial⟩ | exact this.elim | exact (infTimes_not _ this).elim

/-- the numerator of a finite quotient is finite -/
theorem fin_div {a b : Dbl} (h : (A.div a b).isFin) : a.isFin := by
  have := fin_fl h
  cases a <;> cases b <;> first | trivial | exact this.elim | (simp only [Dbl.div] at this; split_ifs at this <;> exact this.elim)

theorem nan_mul (b : Dbl) : A.mul .nan b = .nan := by cases b <;> rfl
theorem mul_nan (a : Dbl) : A.mul a .nan = .nan := by cases a <;> rfl
theorem nan_div (b : Dbl) : A.div .nan b = .nan := by cases b <;> rfl
theorem div_nan (a : Dbl) : A.div a .nan = .nan := by cases a <;> rfl
theorem nan_sub (b : Dbl) : A.sub .nan b = .nan := by cases b <;> rfl
theorem sub_nan (a : Dbl) : A.sub a .nan = .nan := by cases a <;> rfl

theorem flik_fin {y : List Dbl} {mv : ℕ → Dbl × Dbl} {mu : Dbl} {n k : ℕ} (h : (flik A y mv mu n).isFin) (hk : k < n) :
    (fterm A (y.getD k .nan) (mv k).1 (mv k).2 mu).isFin := by
  induction n with
  | zero => omega
  | succ j ih =>
    obtain ⟨h1, h2⟩ := fin_add h
    rcases Nat.lt_succ_iff_lt_or_eq.mp hk with hk | rfl
    · exact ih h1 hk
    · exact h2

end Verif.Theory
