import Verif.Theory.Car1

/-! Helper theory: a state space realising an autocovariance computes the specified conditional laws; a filter class
whose methods compute them (`Exact`) is handled uniformly afterwards. -/

namespace Verif.Theory

open Verif.Model Verif.Spec Finset Matrix

/-- first `n` elements of a sequence -/
def fst (n : ℕ) (f : ℕ → ℝ) : Fin n → ℝ := fun i => f i

variable {𝕜 : Type*} [RCLike 𝕜] {ι : Type*} [Fintype ι] [DecidableEq ι]

/-- `S` is a state space for the process with autocovariance `r` observed at `t` with errors `e`. -/
structure Realizes (S : SS 𝕜 ι) (r : ℝ → ℝ) (t e : ℕ → ℝ) (N : ℕ) : Prop where
  sym : ∃ τ, S.ConjSym τ
  K : ∀ i < N, ∀ j < N, S.K i j = r |t i - t j| + if i = j then e i ^ 2 else 0
  pos : ∀ i < N, 0 < S.v i

namespace Realizes
variable {S : SS 𝕜 ι} {r : ℝ → ℝ} {t e : ℕ → ℝ} {N : ℕ}

omit [DecidableEq ι] in
lemma mono (h : Realizes S r t e N) {M : ℕ} (hM : M ≤ N) : Realizes S r t e M :=
  ⟨h.sym, fun i hi j hj => h.K i (by omega) j (by omega), fun i hi => h.pos i (by omega)⟩

omit [DecidableEq ι] in
lemma Kmat (h : Realizes S r t e N) : S.Kmat N = obsCov r (fst N t) (fst N e) := by
  ext i j
  simp only [SS.Kmat, obsCov, Matrix.of_apply, fst, h.K i i.2 j j.2, Fin.ext_iff]

omit [DecidableEq ι] in
lemma filter (h : Realizes S r t e N) (y : ℕ → ℝ) (i : Fin N) :
    S.m y i = stepMean r (fst N t) (fst N e) (fst N y) i ∧ S.v i = stepVar r (fst N t) (fst N e) i := by
  obtain ⟨τ, hτ⟩ := h.sym
  have hc := hτ.filter_cond i (fun l hl => (h.pos l (by omega)).ne') y
  have hK' := (h.mono (M := i) (by omega)).Kmat
  have hk : (fun j : Fin i => S.K i j) = fun j : Fin i => r |t i - t j| := by
    funext j
    rw [h.K i i.2 j (by omega)]
    have : (i : ℕ) ≠ j := by omega
    simp [this]
  simp only [hK', hk] at hc
  refine ⟨hc.1, ?_⟩
  rw [hc.2, h.K i i.2 i i.2]
  simp [stepVar, condVar, fst, obsCov]

omit [DecidableEq ι] in
lemma predict (p : Fin (N+1)) (x : ℝ) (h : Realizes S r (ins p x t) (ins p 0 e) (N+1)) (y : ℕ → ℝ) :
    let yy := ins p 0 y
    let prec := 1 / S.v p + ∑ i ∈ Ico ((p : ℕ) + 1) (N + 1), S.a i p * S.a i p / S.v i
    let num := S.m yy p / S.v p + ∑ i ∈ Ico ((p : ℕ) + 1) (N + 1), S.a i p * (yy i - S.m yy i) / S.v i
    0 < prec ∧ num / prec = predMean r (fst N t) (fst N e) (fst N y) x ∧
      1 / prec = predVar r (fst N t) (fst N e) x := by
  intro yy prec num
  obtain ⟨τ, hτ⟩ := h.sym
  have hc := hτ.predict_cond N h.pos p yy (ins_self _ _ _)
  obtain ⟨h1, h2, h3⟩ := hc
  have hK' : (S.Kmat (N+1)).submatrix p.succAbove p.succAbove = obsCov r (fst N t) (fst N e) := by
    ext i j
    simp only [SS.Kmat, obsCov, Matrix.submatrix_apply, Matrix.of_apply, fst]
    rw [h.K _ (Fin.is_lt _) _ (Fin.is_lt _)]
    simp only [ins_succAbove, Fin.val_inj, Fin.succAbove_right_inj]
  have hk : (fun j : Fin N => S.Kmat (N+1) p (p.succAbove j)) = fun j : Fin N => r |x - fst N t j| := by
    funext j
    simp only [SS.Kmat, Matrix.of_apply, fst]
    rw [h.K p (Fin.is_lt _) _ (Fin.is_lt _), ins_succAbove, ins_self]
    have : (p : ℕ) ≠ p.succAbove j := by
      intro hh; exact (Fin.succAbove_ne p j) (Fin.ext hh.symm)
    simp [this]
  have hpp : S.Kmat (N+1) p p = r 0 := by
    simp only [SS.Kmat, Matrix.of_apply]
    rw [h.K p (Fin.is_lt _) _ (Fin.is_lt _)]
    simp
  have hyy : (fun j : Fin N => yy (p.succAbove j)) = fst N y := by
    funext j; simp only [yy, ins_succAbove, fst]
  rw [hK', hk] at h2 h3
  rw [hyy] at h2
  rw [hpp] at h3
  exact ⟨h1, h2, h3⟩

omit [DecidableEq ι] in
/-- innovations form of the Gaussian log density -/
lemma logGauss (h : Realizes S r t e N) (y : ℕ → ℝ) :
    Spec.logGauss (obsCov r (fst N t) (fst N e)) (fst N y)
      = ∑ i ∈ range N, (-(1/2) * Real.log (S.v i) - (1/2) * ((y i - S.m y i) ^ 2 / S.v i)) := by
  obtain ⟨τ, hτ⟩ := h.sym
  have hN := hτ.normalEq N (fun l hl => (h.pos l hl).ne')
  have hdet := hN.det_eq
  have hq := hN.quad_eq (fun i => (h.pos i i.2).ne') (fst N y)
  rw [h.Kmat] at hdet hq
  rw [Spec.logGauss, hdet, hq, Real.log_prod (s := Finset.univ) (f := fun i : Fin N => S.v i) (fun i _ => (h.pos i i.2).ne'),
    Finset.mul_sum, Finset.mul_sum,
    ← Finset.sum_sub_distrib, ← Fin.sum_univ_eq_sum_range
      (fun i => -(1/2) * Real.log (S.v i) - (1/2) * ((y i - S.m y i) ^ 2 / S.v i)) N]
  refine Finset.sum_congr rfl fun i _ => ?_
  have : ((1 - S.Amat N) *ᵥ fst N y) i = y i - S.m y i := by
    rw [Matrix.sub_mulVec, Matrix.one_mulVec, Pi.sub_apply]
    congr 1
    rw [S.m_eq_sum]
    simp only [Matrix.mulVec, dotProduct, SS.Amat, Matrix.of_apply, fst]
    rw [Fin.sum_univ_eq_sum_range (fun j => S.a i j * y j) N]
    symm
    apply Finset.sum_subset (Finset.range_subset_range.mpr i.2.le)
    intro j _ hj
    rw [S.a_of_le (by simpa using hj), zero_mul]
  rw [this]

end Realizes

/-- times increasing; a point may share the time of its predecessor if it has measurement error -/
def Incr (n : ℕ) (t e : ℕ → ℝ) : Prop :=
  ∀ i, i + 1 < n → t i ≤ t (i+1) ∧ (t i < t (i+1) ∨ e (i+1) ≠ 0)

/-- A filter class whose methods compute the exact conditional laws for autocovariance `r`.
`I s n t y e` says that `s` holds the data `t y e` and the model parameters. -/
structure Exact {σ : Type} [Kalman σ] (r : ℝ → ℝ) (I : σ → ℕ → (ℕ → ℝ) → (ℕ → ℝ) → (ℕ → ℝ) → Prop) : Prop where
  base_set : ∀ (s : σ) b, Kalman.base (Kalman.setBase s b) = b
  holds : ∀ {s n t y e}, I s n t y e → Holds (Kalman.base s) n t y e
  setBase : ∀ {s n t y e b n' t' y' e'}, I s n t y e → Holds b n' t' y' e' →
    b.sigsqr = (Kalman.base s).sigsqr → I (Kalman.setBase s b) n' t' y' e'
  filter : ∀ {s n t y e}, I s n t y e → 0 < n → Incr n t e →
    ∃ s', Kalman.filter s = .ok s' ∧ I s' n t y e ∧ (Kalman.base s').sigsqr = (Kalman.base s).sigsqr ∧
      (Kalman.base s').mean = List.ofFn (stepMean r (fst n t) (fst n e) (fst n y)) ∧
      (Kalman.base s').var = List.ofFn (stepVar r (fst n t) (fst n e))
  predict : ∀ {s n t y e} (x : ℝ), I s n t y e → 0 < n → Incr n t e → (∀ i < n, t i = x → e i ≠ 0) →
    ∃ s', Kalman.predict s x = .ok (s', (predMean r (fst n t) (fst n e) (fst n y) x,
        predVar r (fst n t) (fst n e) x)) ∧ I s' n t y e ∧
        (Kalman.base s').sigsqr = (Kalman.base s).sigsqr
  predVar_pos : ∀ {s n t y e} (x : ℝ), I s n t y e → 0 < n → Incr n t e → (∀ i < n, t i = x → e i ≠ 0) →
    0 < predVar r (fst n t) (fst n e) x

lemma ins_incr {n p : ℕ} {t e : ℕ → ℝ} {x : ℝ} (ht : Incr n t e) (hp : p ≤ n) (hlt : ∀ i < p, t i < x)
    (hge : p < n → x ≤ t p) (hx : ∀ i < n, t i = x → e i ≠ 0) :
    Incr (n+1) (ins p x t) (ins p 0 e) := by
  intro i hi
  rcases lt_trichotomy (i+1) p with h | h | h
  · rw [ins_lt _ _ (by omega), ins_lt _ _ h, ins_lt _ _ h]
    exact ht i (by omega)
  · subst h
    rw [ins_lt _ _ (by omega), ins_self]
    have := hlt i (by omega)
    exact ⟨this.le, Or.inl this⟩
  · rcases Nat.lt_or_ge p i with h' | h'
    · obtain ⟨j, rfl⟩ : ∃ j, i = j + 1 := ⟨i - 1, by omega⟩
      rw [ins_gt _ _ (by omega), ins_gt _ _ (by omega), ins_gt _ _ (by omega)]
      exact ht j (by omega)
    · obtain rfl : i = p := by omega
      rw [ins_self, ins_gt _ _ le_rfl, ins_gt _ _ le_rfl]
      have h1 := hge (by omega)
      rcases h1.lt_or_eq with h2 | h2
      · exact ⟨h1, Or.inl h2⟩
      · exact ⟨h1, Or.inr (hx i (by omega) h2.symm)⟩

lemma list_eq_ofFn {n : ℕ} {l : List ℝ} (hl : l.length = n) (f : Fin n → ℝ)
    (h : ∀ i : Fin n, l[(i:ℕ)]? = some (f i)) : l = List.ofFn f := by
  apply List.ext_getElem?
  intro i
  by_cases hi : i < n
  · rw [h ⟨i, hi⟩]; simp [hi]
  · rw [List.getElem?_eq_none (by omega), List.getElem?_eq_none (by simp; omega)]

/-! ### the CAR(1) filter -/

lemma car1_realizes {σ2 ω : ℝ} (hσ : 0 < σ2) (hω : 0 < ω) (t e : ℕ → ℝ) (N : ℕ)
    (ht : Incr N t e) :
    Realizes (car1SS σ2 ω t e) (car1Acf σ2 ω) t e N where
  sym := ⟨_, (car1SS_isCar1 σ2 ω t e).conjSym⟩
  K _ hi _ hj := car1SS_K σ2 ω t e N (fun i hi => (ht i hi).1) hi hj
  pos i hi := (car1SS_v_pos hσ hω t e N (fun i hi => (ht i hi).1) (fun i hi => (ht i hi).2) i hi).1

/-- state of a CAR(1) filter object -/
structure KF1.Inv (σ2 ω : ℝ) (s : KF1) (n : ℕ) (t y e : ℕ → ℝ) : Prop where
  holds : Holds s.b n t y e
  sig : s.b.sigsqr = σ2
  om : s.omega = ω

theorem KF1.exact {σ2 ω : ℝ} (hσ : 0 < σ2) (hω : 0 < ω) : Exact (σ := KF1) (car1Acf σ2 ω) (KF1.Inv σ2 ω) where
  base_set s b := rfl
  holds h := h.holds
  setBase {s n t y e b n' t' y' e'} h hb hs := ⟨hb, hs.trans h.sig, h.om⟩
  filter {s n t y e} h hn ht := by
    obtain ⟨H, rfl, rfl⟩ := h
    have hR := car1_realizes hσ hω t e n ht
    obtain ⟨M, W, h1, hM, hW, h2⟩ := KF1.run_eq s H.feeds hω.ne' (car1SS_isCar1 s.b.sigsqr s.omega t e) (yy := y) (n-1)
      (by omega) (fun _ _ => rfl) (fun _ _ => rfl) (fun _ _ => rfl) (fun j hj => (hR.pos j (by omega)).ne')
    refine ⟨KF1.st s M W (n - 1 + 1), ?_, ⟨⟨H.time, H.dt, H.y, H.yerr, hM, hW⟩, rfl, rfl⟩, rfl,
      list_eq_ofFn hM _ fun i => ?_, list_eq_ofFn hW _ fun i => ?_⟩
    · rw [← h1]
      simp only [Kalman.filter, Kalman.reset, Kalman.update, Kalman.base]
      cases hr : KF1.reset s with
      | error f => rfl
      | ok s' =>
        simp only [res_bind_ok]
        have : s'.b.time = s.b.time := by
          simp only [KF1.reset, wr_ok (l := s.b.mean) (a := (0:ℝ)) (H.mean ▸ hn), rd_ok (H.yerr_get hn),
            dv_ok (by simpa using hω.ne' : 2 * s.omega ≠ 0),
            wr_ok (l := s.b.var) (H.var ▸ hn), res_bind_ok, res_pure] at hr
          cases hr; rfl
        rw [this, H.time_length]
    · rw [← (hR.filter y i).1]; exact (h2 i (by omega)).1
    · rw [← (hR.filter y i).2]; exact (h2 i (by omega)).2
  predict {s n t y e} x h hn ht hx := by
    obtain ⟨H, rfl, rfl⟩ := h
    obtain ⟨p, hf, hp, hlt, hge⟩ := H.scan hn x
    have hR := car1_realizes hσ hω (ins p x t) (ins p 0 e) (n+1) (ins_incr ht hp hlt hge hx)
    have hP := Realizes.predict ⟨p, by omega⟩ x hR y
    obtain ⟨s', h1, M, W, c, d, k, h2, hM, hW⟩ := KF1.predict_eq s H hω.ne' x hf hp hn hge
      (fun j hj => (hR.pos j hj).ne') hP.1.ne'
    refine ⟨s', ?_, ?_, ?_⟩
    · simp only [Kalman.predict]
      rw [h1]
      exact congrArg₂ (fun a b => Except.ok (s', (a, b))) hP.2.1 hP.2.2
    · subst h2; exact ⟨⟨H.time, H.dt, H.y, H.yerr, hM, hW⟩, rfl, rfl⟩
    · subst h2; rfl
  predVar_pos {s n t y e} x h hn ht hx := by
    obtain ⟨H, rfl, rfl⟩ := h
    obtain ⟨p, hf, hp, hlt, hge⟩ := H.scan hn x
    have hR := car1_realizes hσ hω (ins p x t) (ins p 0 e) (n+1) (ins_incr ht hp hlt hge hx)
    have hP := Realizes.predict ⟨p, by omega⟩ x hR y
    rw [← hP.2.2]
    exact one_div_pos.mpr hP.1

lemma car1SS_v_le {σ2 ω : ℝ} (hσ : 0 < σ2) (hω : 0 < ω) (t e : ℕ → ℝ) (N : ℕ) (ht : Incr N t e) (i : ℕ) (hi : i < N) :
    (car1SS σ2 ω t e).v i ≤ σ2 / (2 * ω) + e i ^ 2 := by
  have hS := car1SS_isCar1 σ2 ω t e
  have hq : 0 < σ2 / (2 * ω) := by positivity
  suffices h : (car1SS σ2 ω t e).P i () () ≤ σ2 / (2 * ω) by
    rw [hS.v_eq]; simpa [car1SS] using h
  induction i with
  | zero => rw [hS.P_zero]
  | succ i ih =>
    obtain ⟨h1, h2⟩ := car1SS_v_pos hσ hω t e N (fun i hi => (ht i hi).1) (fun i hi => (ht i hi).2) i (by omega)
    have h3 := ih (by omega)
    rw [hS.P_succ h1.ne']
    have h4 : 0 ≤ (car1SS σ2 ω t e).P i () () := by
      have := hS.v_eq i
      simp only [car1SS] at this h2 ⊢
      linarith
    have h5 : 0 ≤ (car1SS σ2 ω t e).P i () () / (car1SS σ2 ω t e).v i := div_nonneg h4 h1.le
    have h6 : (car1SS σ2 ω t e).P i () () * (1 - (car1SS σ2 ω t e).P i () () / (car1SS σ2 ω t e).v i)
        ≤ σ2 / (2 * ω) := by nlinarith
    nlinarith [mul_self_nonneg ((car1SS σ2 ω t e).rho i ())]

/-! ### objects built from strictly increasing data -/

lemma incr_of_strictMono {n : ℕ} {t e : Fin n → ℝ} (ht : StrictMono t) : Incr n (ext0 t) (ext0 e) :=
  fun i hi => ⟨(strictMono_ext0 ht i hi).le, Or.inl (strictMono_ext0 ht i hi)⟩

@[simp] lemma fst_ext0 {n : ℕ} (f : Fin n → ℝ) : fst n (ext0 f) = f := by funext i; simp [fst]

lemma KF1.new_inv (srt : List ℝ → List ℕ) {n : ℕ} (hn : 2 ≤ n) {t : Fin n → ℝ} (ht : StrictMono t)
    (y e : Fin n → ℝ) (σ2 ω : ℝ) :
    ∃ s, KF1.new srt (List.ofFn t) (List.ofFn y) (List.ofFn e) σ2 ω = .ok s ∧
      KF1.Inv σ2 ω s n (ext0 t) (ext0 y) (ext0 e) := by
  obtain ⟨b, h1, h2, h3⟩ := holds_init srt hn (ext0 t) (ext0 y) (ext0 e) σ2 (fun i hi => strictMono_ext0 ht i hi)
  refine ⟨⟨b, ω⟩, ?_, ⟨h2, h3, rfl⟩⟩
  rw [ofFn_eq_rangeMap, ofFn_eq_rangeMap, ofFn_eq_rangeMap, KF1.new, h1]; rfl

end Verif.Theory
