import Verif.Theory.CarmaSS

/-! Helper theory: every outcome of `Filter()` on well-formed data, including vanishing variances. -/

namespace Verif.Theory

open Verif.Model Verif.Spec Finset Matrix

lemma iter_add_error {σ : Type} (f : σ → Res σ) {k : ℕ} {r : Res σ} {e : Fault} (h : (r >>= iter f k) = .error e) (m : ℕ) :
    (r >>= iter f (k + m)) = .error e := by
  induction m with
  | zero => exact h
  | succ m ih =>
    have : (r >>= iter f (k + m + 1)) = ((r >>= iter f (k + m)) >>= f) := by rw [bind_assoc]; rfl
    rw [← add_assoc, this, ih]; rfl

lemma exists_first {P : ℕ → Prop} {n : ℕ} (h : ∃ j < n, P j) : ∃ j < n, P j ∧ ∀ i < j, ¬ P i := by
  classical
  obtain ⟨j, hj, hP⟩ := h
  have hex : ∃ j, P j := ⟨j, hP⟩
  exact ⟨Nat.find hex, lt_of_le_of_lt (Nat.find_min' hex hP) hj, Nat.find_spec hex, fun i hi => Nat.find_min hex hi⟩

lemma list_eq_rangeMap {n : ℕ} {l : List ℝ} (hl : l.length = n) (f : ℕ → ℝ) (h : ∀ i < n, l[i]? = some (f i)) :
    l = (List.range n).map f := by
  apply List.ext_getElem?
  intro i
  by_cases hi : i < n
  · rw [h i hi, rangeMap_get f hi]
  · rw [List.getElem?_eq_none (by omega), List.getElem?_eq_none (by simp; omega)]

/-- `Filter()` overwrites results only -/
structure SameData (b b' : KFBase) : Prop where
  time : b'.time = b.time
  dt : b'.dt = b.dt
  y : b'.y = b.y
  yerr : b'.yerr = b.yerr
  sigsqr : b'.sigsqr = b.sigsqr

lemma KF1.filter_ok (s : KF1) {n : ℕ} {t y e : ℕ → ℝ} (H : Feeds s.b n t y e) (hn : 0 < n) (hω : s.omega ≠ 0)
    (hv : ∀ j < n - 1, (car1SS s.b.sigsqr s.omega t e).v j ≠ 0) :
    ∃ s', Kalman.filter s = .ok s' ∧ s'.b.mean = (List.range n).map ((car1SS s.b.sigsqr s.omega t e).m y) ∧
      s'.b.var = (List.range n).map (car1SS s.b.sigsqr s.omega t e).v ∧ SameData s.b s'.b ∧ s'.omega = s.omega := by
  obtain ⟨M, W, h1, hM, hW, h2⟩ := KF1.run_eq s H hω (car1SS_isCar1 s.b.sigsqr s.omega t e) (yy := y) (n-1)
      (by omega) (fun _ _ => rfl) (fun _ _ => rfl) (fun _ _ => rfl) hv
  refine ⟨KF1.st s M W (n - 1 + 1), ?_, list_eq_rangeMap hM _ fun i hi => (h2 i (by omega)).1,
    list_eq_rangeMap hW _ fun i hi => (h2 i (by omega)).2, ⟨rfl, rfl, rfl, rfl, rfl⟩, rfl⟩
  rw [← h1]
  exact KF1.filter_len s H hn hω
where
  KF1.filter_len (s : KF1) {n : ℕ} {t y e : ℕ → ℝ} (H : Feeds s.b n t y e) (hn : 0 < n) (hω : s.omega ≠ 0) :
      Kalman.filter s = (KF1.reset s >>= iter KF1.update (n - 1)) := by
    simp only [Kalman.filter, Kalman.reset, Kalman.update, Kalman.base]
    cases hr : KF1.reset s with
    | error f => rfl
    | ok s' =>
      simp only [res_bind_ok]
      have : s'.b.time = s.b.time := by
        simp only [KF1.reset, wr_ok (l := s.b.mean) (a := (0:ℝ)) (H.mean ▸ hn), rd_ok (H.yerr_get hn),
          dv_ok (by simpa using hω : 2 * s.omega ≠ 0),
          wr_ok (l := s.b.var) (H.var ▸ hn), res_bind_ok, res_pure] at hr
        cases hr; rfl
      rw [this, H.time_length]

lemma KF1.filter_nonfinite (s : KF1) {n : ℕ} {t y e : ℕ → ℝ} (H : Feeds s.b n t y e) (hω : s.omega ≠ 0)
    (hv : ∃ j < n - 1, (car1SS s.b.sigsqr s.omega t e).v j = 0) : Kalman.filter s = .error .nonfinite := by
  obtain ⟨j, hj, h0, hmin⟩ := exists_first hv
  obtain ⟨M, W, h1, hM, hW, h2⟩ := KF1.run_eq s H hω (car1SS_isCar1 s.b.sigsqr s.omega t e) (yy := y) j
      (by omega) (fun _ _ => rfl) (fun _ _ => rfl) (fun _ _ => rfl) hmin
  rw [KF1.filter_ok.KF1.filter_len s H (by omega) hω, show n - 1 = j + 1 + (n - 1 - (j + 1)) by omega]
  apply iter_add_error
  have : (KF1.reset s >>= iter KF1.update (j+1)) = ((KF1.reset s >>= iter KF1.update j) >>= KF1.update) := by
    rw [bind_assoc]; rfl
  rw [this, h1, res_bind_ok]
  have hvj := (h2 j le_rfl).2
  rw [h0] at hvj
  simp only [KF1.update, KF1.st, prevIdx, Nat.add_sub_cancel, if_neg (Nat.succ_ne_zero j), res_bind_ok,
    rd_ok (H.dt_get (by omega : j + 1 < n)), rd_ok hvj, rd_ok (H.yerr_get (by omega : j < n)), dv, if_true]
  rfl

variable {p : ℕ}

lemma KFp.filter_ok (s : KFp p) {n : ℕ} {t y e : ℕ → ℝ} (H : Feeds s.b n t y e) (hn : 0 < n) {σ2 : ℝ} {ω : Fin p → ℂ}
    {β : List ℝ} (hom : s.omega = ω) (hR : KFp.Ready s (carmaSS σ2 ω β t e))
    (hv : ∀ j < n - 1, (carmaSS σ2 ω β t e).v j ≠ 0) :
    ∃ s', Kalman.filter s = .ok s' ∧ s'.b.mean = (List.range n).map ((carmaSS σ2 ω β t e).m y) ∧
      s'.b.var = (List.range n).map (carmaSS σ2 ω β t e).v ∧ SameData s.b s'.b ∧ s'.omega = s.omega ∧ s'.ma = s.ma ∧
      s'.pset = s.pset := by
  obtain ⟨M, W, g, rh, h1, hM, hW, h2⟩ := KFp.run_eq s H hR (yy := y) (n-1)
      (by omega) (fun _ _ => by rw [hom]; rfl) (fun _ _ => rfl) (fun _ _ => rfl) hv
  refine ⟨_, Eq.trans ?_ h1, list_eq_rangeMap hM _ fun i hi => (h2 i (by omega)).1,
    list_eq_rangeMap hW _ fun i hi => (h2 i (by omega)).2, ⟨rfl, rfl, rfl, rfl, rfl⟩, rfl, rfl, rfl⟩
  simp only [Kalman.filter, Kalman.reset, Kalman.update, Kalman.base]
  rw [KFp.reset_eq s H hn hR rfl]
  simp only [res_bind_ok, KFp.st]
  rw [H.time_length]

lemma KFp.filter_nonfinite (s : KFp p) {n : ℕ} {t y e : ℕ → ℝ} (H : Feeds s.b n t y e) {σ2 : ℝ}
    {ω : Fin p → ℂ} {β : List ℝ} (hom : s.omega = ω) (hR : KFp.Ready s (carmaSS σ2 ω β t e))
    (hv : ∃ j < n - 1, (carmaSS σ2 ω β t e).v j = 0) : Kalman.filter s = .error .nonfinite := by
  obtain ⟨j, hj, h0, hmin⟩ := exists_first hv
  obtain ⟨M, W, g, rh, h1, hM, hW, h2⟩ := KFp.run_eq s H hR (yy := y) j
      (by omega) (fun _ _ => by rw [hom]; rfl) (fun _ _ => rfl) (fun _ _ => rfl) hmin
  have hlen : Kalman.filter s = (KFp.reset s >>= iter KFp.update (n - 1)) := by
    simp only [Kalman.filter, Kalman.reset, Kalman.update, Kalman.base]
    rw [KFp.reset_eq s H (by omega) hR rfl]
    simp only [res_bind_ok, KFp.st]
    rw [H.time_length]
  rw [hlen, show n - 1 = j + 1 + (n - 1 - (j + 1)) by omega]
  apply iter_add_error
  have : (KFp.reset s >>= iter KFp.update (j+1)) = ((KFp.reset s >>= iter KFp.update j) >>= KFp.update) := by
    rw [bind_assoc]; rfl
  rw [this, h1, res_bind_ok]
  have hvj := (h2 j le_rfl).2
  rw [h0] at hvj
  simp only [KFp.update, KFp.st, prevIdx, Nat.add_sub_cancel, if_neg (Nat.succ_ne_zero j), res_bind_ok,
    rd_ok hvj, KFp.gainOf, if_true]
  rfl

/-- repeated roots: `arma::solve` throws -/
lemma KFp.filter_runtime (s : KFp p) (hps : s.pset = true) (hp : 2 ≤ p) (hi : ¬ Function.Injective s.omega) :
    Kalman.filter s = .error .runtime := by
  have hd : (KFp.eigenMat s.omega).det = 0 := by
    by_contra h; exact hi (eigenMat_det_ne_zero.mp h)
  simp only [Kalman.filter, Kalman.reset, KFp.reset, hps, Bool.true_eq_false, if_false, if_neg (not_lt.mpr hp), KFp.jvec,
    if_pos hd]
  rfl

/-! ### degenerate processes -/

namespace SS
variable {𝕜 : Type*} [RCLike 𝕜] {ι : Type*} [Fintype ι] {S : SS 𝕜 ι}

lemma P_of_V_zero (h : S.V = 0) (i : ℕ) : S.P i = 0 := by
  induction i with
  | zero => exact h
  | succ i ih =>
    rw [P_succ, ih]
    ext k l
    simp [stepP, h, gainOf]

lemma v_of_V_zero (h : S.V = 0) (i : ℕ) : S.v i = S.e2 i := by
  rw [v, obsVar, P_of_V_zero h]; simp

end SS

lemma car1_realizes' {σ2 ω : ℝ} (hσ : 0 ≤ σ2) (hω : 0 < ω) (t e : ℕ → ℝ) (N : ℕ)
    (ht : Incr N t e) (h : 0 < σ2 ∨ ∀ i < N, e i ≠ 0) :
    Realizes (car1SS σ2 ω t e) (car1Acf σ2 ω) t e N := by
  rcases hσ.lt_or_eq with hσ | hσ
  · exact car1_realizes hσ hω t e N ht
  · subst hσ
    have h' : ∀ i < N, e i ≠ 0 := h.resolve_left (lt_irrefl _)
    refine ⟨⟨_, (car1SS_isCar1 0 ω t e).conjSym⟩, fun i hi j hj => car1SS_K 0 ω t e N (fun i hi => (ht i hi).1) hi hj,
      fun i hi => ?_⟩
    rw [SS.v_of_V_zero (by ext; simp [car1SS])]
    have := h' i hi
    simp only [car1SS]; positivity

lemma car1_v_zero_iff {σ2 ω : ℝ} (hσ : 0 ≤ σ2) (hω : 0 < ω) (t e : ℕ → ℝ) (N : ℕ) (ht : Incr N t e) {i : ℕ} (hi : i < N) :
    0 ≤ (car1SS σ2 ω t e).v i ∧ ((car1SS σ2 ω t e).v i = 0 ↔ σ2 = 0 ∧ e i = 0) := by
  rcases hσ.lt_or_eq with hσ | hσ
  · have := (car1_realizes hσ hω t e N ht).pos i hi
    exact ⟨this.le, ⟨fun h => absurd h this.ne', fun h => absurd h.1 hσ.ne'⟩⟩
  · subst hσ
    rw [SS.v_of_V_zero (by ext; simp [car1SS])]
    simp only [car1SS]
    exact ⟨sq_nonneg _, by simp⟩

lemma carmaV_zero (ω : Fin p → ℂ) : carmaV 0 ω = 0 := by ext; simp [carmaV]

lemma carma_realizes' {ω : Fin p → ℂ} (h : Admissible ω) {σ2 : ℝ} (hσ : 0 ≤ σ2) {β : List ℝ} (hb : obsRow ω β ≠ 0)
    (t e : ℕ → ℝ) (N : ℕ) (ht : Incr N t e) (he : 0 < σ2 ∨ ∀ i < N, e i ≠ 0) :
    Realizes (carmaSS σ2 ω β t e) (carmaAcf σ2 ω β) t e N := by
  rcases hσ.lt_or_eq with hσ | hσ
  · exact carma_realizes h hσ hb t e N ht
  · subst hσ
    have h' : ∀ i < N, e i ≠ 0 := he.resolve_left (lt_irrefl _)
    refine ⟨carmaSS_conjSym h 0 β t e, fun i hi j hj => carmaSS_K h 0 β t e N (fun i hi => (ht i hi).1) hi hj,
      fun i hi => ?_⟩
    rw [SS.v_of_V_zero (carmaV_zero ω)]
    have := h' i hi
    simp only [carmaSS, expSS]; positivity

lemma carma_v_zero_iff {ω : Fin p → ℂ} (h : Admissible ω) {σ2 : ℝ} (hσ : 0 ≤ σ2) {β : List ℝ} (hb : obsRow ω β ≠ 0)
    (t e : ℕ → ℝ) (N : ℕ) (ht : Incr N t e) {i : ℕ} (hi : i < N) :
    0 ≤ (carmaSS σ2 ω β t e).v i ∧ ((carmaSS σ2 ω β t e).v i = 0 ↔ σ2 = 0 ∧ e i = 0) := by
  rcases hσ.lt_or_eq with hσ | hσ
  · have := (carma_realizes h hσ hb t e N ht).pos i hi
    exact ⟨this.le, ⟨fun h => absurd h this.ne', fun h => absurd h.1 hσ.ne'⟩⟩
  · subst hσ
    rw [SS.v_of_V_zero (carmaV_zero ω)]
    simp only [carmaSS, expSS]
    exact ⟨sq_nonneg _, by simp⟩

end Verif.Theory
