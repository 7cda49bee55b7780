import Verif.Theory.Total
import Verif.Theory.StartTotal
import Verif.Theory.Post

/-!
The log-densities of the model objects never fault on strictly increasing times, the builders of the two run functions return, and so do
the run functions.
-/

namespace Verif.Theory

open Verif.Model Verif.Spec

/-! ### log-densities -/

theorem KOk.of_time {a b : KFBase} {n : ℕ} {t : ℕ → ℝ} (h : KOk a n t) (hb : BTime a b) : KOk b n t where
  time_length := by rw [← hb.time]; exact h.time_length
  dt_get hi := by rw [← hb.dt]; exact h.dt_get hi
  mean := by rw [hb.mlen', ← hb.time]; exact h.time_length
  var := by rw [hb.vlen', ← hb.time]; exact h.time_length

theorem CarP.Ok.of_core {p : ℕ} {s0 s : CarP p} {n : ℕ} {t : ℕ → ℝ} (h : KOk s0.kf.b n t) (hc : CarP.Core s0 s) : CarP.Ok s0 n t s := by
  refine ⟨?_, h.of_time hc.kf⟩
  obtain ⟨h1, h2, h3, h4, h5, h6, h7, -⟩ := hc
  cases s0; cases s
  simp only at *
  subst h1 h2 h3 h4 h5 h6 h7
  rfl

/-- A CARp-family object over strictly increasing times, with finite frequency limits. -/
structure Solid {p : ℕ} (s0 : CarP p) (n : ℕ) (t y e : Fin n → ℝ) : Prop where
  core : CarP.Core s0 s0
  k : KOk s0.kf.b n (ext0 t)
  time : s0.b.time.length = n
  y : s0.b.y = List.ofFn y
  yerr : s0.b.yerr = List.ofFn e
  ma : s0.maCoefs = carMA p
  lor : s0.orderLor = true
  ign : s0.b.ignorePrior = false
  freq : ∃ fmax fmin, s0.b.maxFreq = .fin fmax ∧ s0.b.minFreq = .fin fmin
  order : OrderOk p s0.kind
  kap : ∃ lo hi, 0 < lo ∧ lo ≤ hi ∧ KappaOk s0 lo hi

theorem logPrior_total {p : ℕ} {s : CarP p} {θ : List ℝ} (hθ : npar p s.kind ≤ θ.length) : ∃ v, s.logPrior θ = .ok v := by
  have h3 := npar_ge (p := p) s.kind
  unfold CarP.logPrior
  cases hk : s.kind with
  | zcarma =>
      rw [hk] at hθ; simp only [npar] at hθ
      simp only [baseLogPrior_eq (show 2 ≤ θ.length by omega), res_bind_ok, rd_at0 (show p + 3 < θ.length by omega)]
      exact ⟨_, rfl⟩
  | _ => exact ⟨_, baseLogPrior_eq (by omega)⟩

open scoped Classical in
theorem carp_total {p : ℕ} (hp : 2 ≤ p) {s0 : CarP p} {n : ℕ} (hn : 0 < n) {t y e : Fin n → ℝ} (ht : StrictMono t)
    (hs : Solid s0 n t y e) : Total (CarP p) (CarP.Core s0) (npar p s0.kind) where
  ld o θ ho hθ := by
    have hl3 := npar_ge (p := p) s0.kind
    obtain ⟨fmax, fmin, f1, f2⟩ := hs.freq
    obtain ⟨lo, hi, hlo, hlh, hkap⟩ := hs.kap
    obtain ⟨roots, hr, hg⟩ := rootsFrom_spec θ 3 p (by omega)
    have hok := CarP.Ok.of_core hs.k ho
    have hc := carp_check f1 f2 hs.ign (θ := θ) (p := p) (by omega) hr
    have hcc : CarModel.checkPrior o θ = CarP.checkPrior s0.b p true θ := by
      show CarP.checkPrior o.b p o.orderLor θ = _
      rw [← ho.b, ← ho.ord, hs.lor]
    have key : ∃ o' v, logDensity o θ = .ok (o', v) := by
      by_cases hb : CarpBounds s0.b.maxStdev fmax fmin roots θ
      · rw [decide_eq_true hb] at hc
        obtain ⟨ma, h1, h2, h3, h4⟩ := extractMA_spec (by omega) hs.ma hs.order hlo hlh hkap (le_of_eq hθ.symm)
        by_cases hnd : roots.Nodup
        · obtain ⟨s', -, h6⟩ := (carp_ld_distinct (y := ext0 y) (e := ext0 e) hok hp hn le_rfl (fun i hi => strictMono_ext0 ht i hi)
            hs.time (by rw [hs.y, ofFn_eq_rangeMap]) (by rw [hs.yerr, ofFn_eq_rangeMap]) (by omega) (by rw [hs.lor]; exact hc) hr
            (hg.admissible hnd) h1 h2 (head_ne h3) (logPrior_total (le_of_eq hθ.symm)).choose_spec).1 rfl
          exact ⟨s', _, h6⟩
        · obtain ⟨s', -, h6⟩ := carp_ld_repeated hok hp (by omega) (by rw [hs.lor]; exact hc) hr hg.length h1 hnd
          exact ⟨s', _, h6⟩
      · rw [decide_eq_false hb] at hc
        exact ⟨_, _, logDensity_false (hcc.trans hc)⟩
    obtain ⟨o', v, h⟩ := key
    refine ⟨o', v, h, ?_⟩
    have := CarP.cored.density ho θ
    cases hx : logDensity s0 θ with
    | error f => rw [hx, h] at this; exact this.elim
    | ok b => rw [hx, h] at this; exact CarP.cored.trans _ _ _ ho this.2.1
  stale o θ ho hθ := by
    have hl3 := npar_ge (p := p) s0.kind
    have hk := hs.k.of_time ho.kf
    show ∃ v, staleDensity o θ = .ok v
    have hb : CarModel.base o = s0.b := ho.b.symm
    obtain ⟨x, hx⟩ := likLoop_total (y := s0.b.y) (mean := o.kf.b.mean) (var := o.kf.b.var) (at0 θ 2) n (by rw [hs.y]; simp)
      hk.mean.ge hk.var.ge
    have hlp : CarModel.logPrior o θ = s0.logPrior θ := (CarP.cored.prior _ _ θ ho).symm
    obtain ⟨lp, hlp'⟩ := logPrior_total (le_of_eq hθ.symm)
    have hx' : likLoop s0.b.y (Kalman.base (CarModel.kf o)).mean (Kalman.base (CarModel.kf o)).var (at0 θ 2) n = .ok x := hx
    simp only [staleDensity, rd_at0 (show 2 < θ.length by omega), res_bind_ok, hb, hs.time, hx', hlp, hlp']
    exact ⟨_, rfl⟩

/-- The same for CAR(1) objects. -/
structure Solid1 (s0 : Car1) (n : ℕ) (t y e : Fin n → ℝ) : Prop where
  core : Car1.Core s0 s0
  k : KOk s0.kf.b n (ext0 t)
  time : s0.b.time.length = n
  y : s0.b.y = List.ofFn y
  yerr : s0.b.yerr = List.ofFn e

theorem car1_total {s0 : Car1} {n : ℕ} (hn : 0 < n) {t y e : Fin n → ℝ} (ht : StrictMono t)
    (hs : Solid1 s0 n t y e) : Total Car1 (Car1.Core s0) 4 where
  ld o θ ho hθ := by
    have hok : Car1.Ok s0.b n (ext0 t) o := ⟨ho.1.symm, hs.k.of_time ho.2⟩
    obtain ⟨c, hc⟩ := car1_checkPrior_total s0.b (θ := θ) (by omega)
    have key : ∃ o' v, logDensity o θ = .ok (o', v) := by
      cases c with
      | true =>
          obtain ⟨s', -, h6⟩ := (car1_ld_true (y := ext0 y) (e := ext0 e) hok hn le_rfl (fun i hi => strictMono_ext0 ht i hi)
            hs.time (by rw [hs.y, ofFn_eq_rangeMap]) (by rw [hs.yerr, ofFn_eq_rangeMap]) (by omega) hc).1 rfl
          exact ⟨s', _, h6⟩
      | false =>
          refine ⟨_, _, logDensity_false (?_ : Car1.checkPrior o.b θ = _)⟩
          rw [← ho.1]; exact hc
    obtain ⟨o', v, h⟩ := key
    refine ⟨o', v, h, ?_⟩
    have := Car1.cored.density ho θ
    cases hx : logDensity s0 θ with
    | error f => rw [hx, h] at this; exact this.elim
    | ok b => rw [hx, h] at this; exact Car1.cored.trans _ _ _ ho this.2.1
  stale o θ ho hθ := by
    have hk := hs.k.of_time ho.2
    show ∃ v, staleDensity o θ = .ok v
    have hb : CarModel.base o = s0.b := ho.1.symm
    obtain ⟨x, hx⟩ := likLoop_total (y := s0.b.y) (mean := o.kf.b.mean) (var := o.kf.b.var) (at0 θ 2) n (by rw [hs.y]; simp)
      hk.mean.ge hk.var.ge
    have hlp : CarModel.logPrior o θ = baseLogPrior θ := rfl
    have hx' : likLoop s0.b.y (Kalman.base (CarModel.kf o)).mean (Kalman.base (CarModel.kf o)).var (at0 θ 2) n = .ok x := hx
    simp only [staleDensity, rd_at0 (show 2 < θ.length by omega), res_bind_ok, hb, hs.time, hx', hlp,
      baseLogPrior_eq (show 2 ≤ θ.length by omega)]
    exact ⟨_, rfl⟩

/-! ### construction of the sampler -/

theorem setPrior_again {b : CarBase} {time y yerr : List ℝ} (h : CarBase.new time y yerr = .ok b) (sd : ℝ) :
    b.setPrior sd = .ok { b with maxStdev := sd } := by
  unfold CarBase.new CarBase.setPrior at h
  obtain ⟨dt, h1, h⟩ := bind_ok_inv h
  obtain ⟨dmin, h2, h⟩ := bind_ok_inv h
  obtain ⟨tmax, h3, h⟩ := bind_ok_inv h
  obtain ⟨tmin, h4, h⟩ := bind_ok_inv h
  injection h with h
  subst h
  unfold CarBase.setPrior
  simp only at *
  simp only [h1, h2, h3, h4, res_bind_ok, res_pure]

theorem popVar_ofFn {n : ℕ} (hn : 0 < n) (y : Fin n → ℝ) :
    popVar (List.ofFn y) = .ok ((∑ i, y i ^ 2) / n - ((∑ i, y i) / n) ^ 2) := by
  have h0 : ((n : ℕ) : ℝ) ≠ 0 := by positivity
  simp only [popVar, dv, List.length_ofFn, if_neg h0, res_bind_ok, res_pure, List.map_ofFn, List.sum_ofFn]
  congr 1
  simp only [Function.comp, pow_two]

theorem ramNew_total {d : ℕ} {var : ℝ} {n : ℕ} (hv : 0 < var) (hn : 0 < n) (burnin : ℕ) :
    ∃ a, Ram.new (propCovar d var n) 0.25 burnin = .ok a ∧ GoodRam a ∧ a.niter = 0 ∧ a.maxiter = burnin ∧ a.naccept = 0 := by
  have hn' : (0 : ℝ) < n := by positivity
  have hpos : ∀ i, 0 < propCovar d var n i i := by
    intro i
    simp only [propCovar, Matrix.diagonal_apply_eq]
    split
    · positivity
    · split
      · positivity
      · norm_num
  have hc : cholDiag (propCovar d var n) = .ok (Matrix.diagonal fun i => √(propCovar d var n i i)) := by
    unfold cholDiag
    rw [if_neg]
    rintro ⟨i, hi⟩
    exact absurd (hpos i) (not_lt.mpr hi)
  refine ⟨_, by unfold Ram.new; rw [hc]; rfl, ⟨⟨?_, ?_⟩, by norm_num, by norm_num, by norm_num⟩, rfl, rfl, rfl⟩
  · intro i j hij
    exact Matrix.diagonal_apply_ne _ (ne_of_gt hij)
  · intro i
    simp only [Matrix.diagonal_apply_eq]
    exact Real.sqrt_pos.mpr (hpos i)

theorem addStep_total {μ : Type} {d : ℕ} {s : Samp μ d} {st : StepSt d} (h : st.chain < s.chains.length) : ∃ s', s.addStep st = .ok s' := by
  unfold Samp.addStep
  rw [rdU_ok (List.getElem?_eq_getElem h)]
  exact ⟨_, rfl⟩

theorem addStep_chains {μ : Type} {d : ℕ} {s s' : Samp μ d} {st : StepSt d} (h : s.addStep st = .ok s') : s'.chains = s.chains :=
  (addStep_inv h).choose_spec.2.1

theorem temperedSteps_total {μ : Type} {d : ℕ} {covar : Matrix (Fin d) (Fin d) ℝ} {burnin : ℕ} {report : ℤ} {a : Ram d}
    (ha : Ram.new covar 0.25 burnin = .ok a) {m : ℕ} {s : Samp μ d} (hm : m < s.chains.length) :
    ∃ s', temperedSteps covar burnin report m s = .ok s' ∧ s'.chains = s.chains := by
  induction m generalizing s with
  | zero => exact ⟨s, rfl, rfl⟩
  | succ m ih =>
      unfold temperedSteps
      rw [ha]
      obtain ⟨s1, h1⟩ := addStep_total (s := s) (st := .ram (m + 1) a) hm
      have e1 := addStep_chains h1
      obtain ⟨s2, h2⟩ := addStep_total (s := s1) (st := .exch { idx := m + 1, reportIter := report, niter := 0, naccept := 0, alpha := .nan })
        (by rw [e1]; exact hm)
      have e2 := addStep_chains h2
      obtain ⟨s3, h3, e3⟩ := ih (s := s2) (by rw [e2, e1]; omega)
      simp only [res_bind_ok, h1, h2]
      exact ⟨s3, h3, by rw [e3, e2, e1]⟩

theorem ensemble_total {srt : List ℝ → List ℕ} {time y yerr : List ℝ} {p q n : ℕ} {z : Bool} {sd : ℝ} {o : CarP p} {b : CarBase}
    (ho : CarP.new (runKind q z) p srt time y yerr = .ok o) (hb : o.b.setPrior sd = .ok b) (m : ℕ) :
    ∃ l, ensemble srt time y yerr p q n z sd m = .ok l := by
  induction m with
  | zero => exact ⟨_, rfl⟩
  | succ m ih =>
      obtain ⟨l, h⟩ := ih
      unfold ensemble
      simp only [h, ho, hb, res_bind_ok]
      exact ⟨_, rfl⟩

theorem carmaSampler_total {srt : List ℝ → List ℕ} (N burnin : ℕ) {time y yerr : List ℝ} {p q nw : ℕ} {z : Bool} (thin : ℕ) (r : Rng)
    {var : ℝ} (hv : popVar y = .ok var) (h0 : 0 < var) (hy : 0 < y.length) {o : CarP p}
    (ho : CarP.new (runKind q z) p srt time y yerr = .ok o) (hw : 1 ≤ nw) :
    ∃ s, carmaSampler srt N burnin time y yerr p q nw z thin r = .ok s := by
  have hb := setPrior_again (new_config ho).2.2 (10 * √var)
  obtain ⟨l, hl⟩ := ensemble_total (n := nw) ho hb nw
  obtain ⟨a, ha, -⟩ := ramNew_total (d := nParams p q z) h0 hy burnin
  have hlen := (ensemble_inv hl).1
  obtain ⟨s1, h1, e1⟩ := temperedSteps_total (report := (burnin + thin * N : ℤ)) ha (m := nw - 1)
    (s := ({ chains := l, steps := [], tracked := [], rng := r } : Samp (CarP p) (nParams p q z))) (by simp [hlen]; omega)
  have hg : s1.chains[0]? = some (l[0]'(by omega)) := by rw [e1]; exact List.getElem?_eq_getElem _
  unfold carmaSampler
  simp only [hv, hl, res_bind_ok, h1, rdU_ok hg, ha]
  obtain ⟨s2, h2⟩ := addStep_total (s := { s1 with chains := s1.chains.set 0 ((l[0]'(by omega)).setTracking true) }) (st := .ram 0 a)
    (by show 0 < (s1.chains.set 0 _).length; rw [List.length_set, e1]; simp [hlen]; omega)
  exact ⟨s2, h2⟩

theorem car1Sampler_total {srt : List ℝ → List ℕ} (burnin : ℕ) {time y yerr : List ℝ} (r : Rng)
    {var : ℝ} (hv : popVar y = .ok var) (h0 : 0 < var) (hy : 0 < y.length) {o : Car1} (ho : Car1.new srt time y yerr = .ok o)
    (hb : CarBase.new time y yerr = .ok o.b) : ∃ s, car1Sampler srt burnin time y yerr r = .ok s := by
  have hb := setPrior_again hb (10 * √var)
  obtain ⟨a, ha, -⟩ := ramNew_total (d := 4) h0 hy burnin
  unfold car1Sampler
  simp only [hv, ho, hb, res_bind_ok, ha]
  exact addStep_total (by simp [StepSt.chain])

/-! ### the run functions -/

theorem npar_runKind (p q : ℕ) (z : Bool) : npar p (runKind q z) = nParams p q z := by
  rw [← thetaLen_runKind]
  unfold runKind
  cases z
  · by_cases h : q = 0
    · simp [h, npar, CarP.thetaLen]
    · simp [h, npar, CarP.thetaLen]
  · simp [npar, CarP.thetaLen]

theorem order_runKind {p q : ℕ} (z : Bool) (h : z = true ∨ q < p) : OrderOk p (runKind q z) := by
  unfold runKind
  cases z
  · by_cases h0 : q = 0
    · simp [h0, OrderOk]
    · simpa [h0, OrderOk] using h
  · simp [OrderOk]

/-- The object of every chain built by `RunCarmaSampler` for strictly increasing times. -/
theorem run_solid (srt : List ℝ → List ℕ) {n : ℕ} (hn : 2 ≤ n) {t : Fin n → ℝ} (ht : StrictMono t) (y e : Fin n → ℝ) {p q : ℕ} (hp : 2 ≤ p)
    (z : Bool) (hq : z = true ∨ q < p) (sd : ℝ) : ∃ (o : CarP p) (b : CarBase) (dmin span : ℝ),
      CarP.new (runKind q z) p srt (List.ofFn t) (List.ofFn y) (List.ofFn e) = .ok o ∧
      o.b.setPrior sd = .ok b ∧ Solid { o with b := b } n t y e ∧ IsMinGap t dmin ∧ IsSpan t span ∧
      b.maxStdev = sd ∧ b.maxFreq = .fin (1 / dmin) ∧ b.minFreq = .fin (1 / span) := by
  obtain ⟨dmin, b0, g1, g2, g3, -, -, -, -, -, -, g10, g11⟩ := base_fresh hn ht y e
  obtain ⟨o, h1, h2, h3, -⟩ := carp_fresh (p := p) (by omega) srt hn ht y e g10 (runKind q z)
  have hob : o.b = b0 := h3.base
  have hb := setPrior_again (new_config h1).2.2 sd
  refine ⟨o, _, dmin, _, h1, hb, ⟨built_core h1, h2.kf, by simp [hob, g11.time], by simp [hob, g11.y], by simp [hob, g11.yerr], h3.ma, h3.lor,
    by simp [hob, g11.ign], ⟨_, _, by simp [hob, g11.fmax]; rfl, by simp [hob, g11.fmin]; rfl⟩, ?_, 1, 1, one_pos, le_rfl, ?_⟩, g1, g3, rfl, ?_, ?_⟩
  · show OrderOk p o.kind
    rw [h3.kind]; exact order_runKind z hq
  · intro hk
    have hk : o.kind = .zcarma := hk
    rw [h3.kind] at hk
    unfold runKind at hk
    split at hk
    · cases hk
    · split at hk <;> cases hk
  · simp [hob, g11.fmax]
  · simp [hob, g11.fmin]

/-- The object of the chain built by `RunCar1Sampler` for strictly increasing times. -/
theorem run_solid1 (srt : List ℝ → List ℕ) {n : ℕ} (hn : 2 ≤ n) {t : Fin n → ℝ} (ht : StrictMono t) (y e : Fin n → ℝ) (sd : ℝ) :
    ∃ (o : Car1) (b : CarBase) (dmin span : ℝ),
      Car1.new srt (List.ofFn t) (List.ofFn y) (List.ofFn e) = .ok o ∧ CarBase.new (List.ofFn t) (List.ofFn y) (List.ofFn e) = .ok o.b ∧
      o.b.setPrior sd = .ok b ∧ Solid1 { o with b := b } n t y e ∧ IsMinGap t dmin ∧ IsSpan t span ∧
      b.maxStdev = sd ∧ b.maxFreq = .fin (1 / dmin) ∧ b.minFreq = .fin (1 / span) := by
  obtain ⟨dmin, b0, g1, g2, g3, -, -, -, -, -, -, g10, g11⟩ := base_fresh hn ht y e
  obtain ⟨o, h1, h2⟩ := car1_fresh srt hn ht y e g10
  have hob : o.b = b0 := h2.base
  have hk := h2.kf
  have hb := setPrior_again (hob ▸ g10) sd
  refine ⟨o, _, dmin, _, h1, hob ▸ g10, hb, ⟨⟨rfl, rfl, rfl, by rw [hk.mean, hk.time_length], by rw [hk.mean, hk.time_length],
    by rw [hk.var, hk.time_length], by rw [hk.var, hk.time_length]⟩, hk, by simp [hob, g11.time], by simp [hob, g11.y],
    by simp [hob, g11.yerr]⟩, g1, g3, rfl, ?_, ?_⟩
  · simp [hob, g11.fmax]
  · simp [hob, g11.fmin]

theorem carma_fit {srt : List ℝ → List ℕ} {N burnin : ℕ} {time y yerr : List ℝ} {p q nw : ℕ} {z : Bool} {thin : ℕ} {r : Rng}
    {s : Samp (CarP p) (nParams p q z)} (hb : CarmaBuilt srt N burnin time y yerr p q nw z thin r s) {o : CarP p} {b : CarBase} {var : ℝ}
    (hv : popVar y = .ok var) (h0 : 0 < var) (hy : 0 < y.length)
    (ho : CarP.new (runKind q z) p srt time y yerr = .ok o) (hs : o.b.setPrior (10 * √var) = .ok b)
    (hr : Blocks (nParams p q z) r.stud) : Fit (CarP.Core { o with b := b }) s := by
  obtain ⟨var', o', b', c1, c2, c3, c4⟩ := hb.chain
  cases hv.symm.trans c1
  cases ho.symm.trans c2
  cases hs.symm.trans c3
  obtain ⟨var', a, d1, d2, d3⟩ := hb.steps
  cases hv.symm.trans d1
  obtain ⟨a', e1, e2, -⟩ := ramNew_total (d := nParams p q z) h0 hy burnin
  cases e1.symm.trans d2
  refine ⟨fun c hc => ?_, fun c hc => ?_, fun st hst => ?_, by rw [hb.rng]; exact hr⟩
  · obtain ⟨i, hi⟩ := List.mem_iff_getElem?.mp hc
    rw [c4 i c hi]; exact built_core ho
  · obtain ⟨i, hi⟩ := List.mem_iff_getElem?.mp hc
    rw [c4 i c hi, ← thetaLen_runKind]; simp [Par.new]
  · rw [d3] at hst
    have hk : stepKind st ∈ stepOrder (nw - 1) := by
      rw [← tempered_kind (a := a) (report := (burnin + thin * N : ℤ))]
      exact List.mem_map_of_mem hst
    have hpos := hb.pos
    rcases tempered_fresh hst with ⟨i, rfl⟩ | ⟨i, rfl⟩
    · have := (stepOrder_le _ hk).1
      exact (⟨by rw [hb.length]; omega, e2⟩ : i < s.chains.length ∧ GoodRam a)
    · have := stepOrder_le _ hk
      exact (⟨this.2 rfl, by rw [hb.length]; have : i ≤ nw - 1 := this.1; omega⟩ : 1 ≤ i ∧ i < s.chains.length)

end Verif.Theory
