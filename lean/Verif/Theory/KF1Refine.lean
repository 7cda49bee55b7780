import Verif.Theory.KFBasic

/-! Helper lemmas: the imperative CAR(1) filter computes the state-space recursion. -/

namespace Verif.Theory

open Verif.Model Finset Matrix

/-- one-dimensional real state space with unit observation row -/
structure IsCar1 (S : SS ℝ Unit) (q : ℝ) : Prop where
  b : S.b = fun _ => 1
  V : S.V = Matrix.of fun _ _ => q

namespace IsCar1
variable {S : SS ℝ Unit} {q : ℝ}

lemma obsVar (h : IsCar1 S q) (P : Matrix Unit Unit ℝ) (e : ℝ) : S.obsVar P e = P () () + e := by
  simp [SS.obsVar, h.b, dotProduct, Matrix.mulVec]

lemma v_eq (h : IsCar1 S q) (i : ℕ) : S.v i = S.P i () () + S.e2 i := h.obsVar _ _

lemma g_eq (h : IsCar1 S q) (i : ℕ) : S.g i () = S.P i () () / S.v i := by
  simp [SS.g, SS.gainOf, h.b, dotProduct, Matrix.mulVec]

lemma m_eq (h : IsCar1 S q) (y : ℕ → ℝ) (i : ℕ) : S.m y i = S.x y i () := by
  simp [SS.m, h.b, dotProduct]

lemma a_eq (h : IsCar1 S q) (i j : ℕ) : S.a i j = S.A i j () := by
  simp [SS.a, h.b, dotProduct]

lemma P_zero (h : IsCar1 S q) : S.P 0 () () = q := by simp [SS.P, h.V]

lemma P_succ (h : IsCar1 S q) {i : ℕ} (hv : S.v i ≠ 0) :
    S.P (i+1) () () = q * (1 - S.rho i () * S.rho i ())
      + S.rho i () * S.rho i () * S.P i () () * (1 - S.P i () () / S.v i) := by
  rw [SS.P_succ]
  have : S.gainOf (S.P i) (S.v i) () = S.P i () () / S.v i := h.g_eq i
  simp only [SS.stepP, Matrix.of_apply, this, h.V]
  simp only [star_trivial, RCLike.ofReal_real_eq_id, id]
  field_simp
  ring

lemma m_succ (h : IsCar1 S q) (y : ℕ → ℝ) (i : ℕ) :
    S.m y (i+1) = S.rho i () * (S.m y i + S.P i () () / S.v i * (y i - S.m y i)) := by
  rw [h.m_eq]
  simp only [SS.x, h.g_eq]
  rw [← h.m_eq]
  simp [SS.m]

lemma a_succ_lt (h : IsCar1 S q) {i j : ℕ} (hj : j < i) :
    S.a (i+1) j = S.rho i () * (S.a i j - S.P i () () / S.v i * S.a i j) := by
  rw [h.a_eq, SS.A_succ_lt _ hj, h.g_eq, h.a_eq]; simp

lemma a_succ_self (h : IsCar1 S q) (i : ℕ) : S.a (i+1) i = S.rho i () * (S.P i () () / S.v i) := by
  rw [h.a_eq, SS.A_succ_self, h.g_eq]

lemma m_zero (h : IsCar1 S q) (y : ℕ → ℝ) : S.m y 0 = 0 := by rw [h.m_eq]; rfl

lemma conjSym (h : IsCar1 S q) : S.ConjSym (Equiv.refl Unit) where
  herm := by ext; simp [h.V]
  b := by simp
  rho := by simp
  V := by simp

end IsCar1

/-- the object after `reset` and some updates -/
def KF1.st (s : KF1) (M W : List ℝ) (k : ℕ) : KF1 :=
  { s with b := { s.b with mean := M, var := W, yconst := 0, yslope := 0, cur := k } }

lemma KF1.run_eq (s : KF1) {n : ℕ} {t y e : ℕ → ℝ} (H : Feeds s.b n t y e) (hω : s.omega ≠ 0)
    {S : SS ℝ Unit} (hS : IsCar1 S (s.b.sigsqr / (2 * s.omega))) {yy : ℕ → ℝ} (k : ℕ) (hk : k < n)
    (hrho : ∀ j < k, S.rho j () = Real.exp (-s.omega * (t (j+1) - t j)))
    (he : ∀ j ≤ k, S.e2 j = e j ^ 2) (hy : ∀ j < k, yy j = y j) (hv : ∀ j < k, S.v j ≠ 0) :
    ∃ M W, (KF1.reset s >>= iter KF1.update k) = .ok (KF1.st s M W (k+1)) ∧ M.length = n ∧ W.length = n ∧
      ∀ i ≤ k, M[i]? = some (S.m yy i) ∧ W[i]? = some (S.v i) := by
  have h2ω : 2 * s.omega ≠ 0 := by simpa using hω
  induction k with
  | zero =>
    refine ⟨s.b.mean.set 0 0, s.b.var.set 0 (s.b.sigsqr / (2 * s.omega) + e 0 * e 0), ?_, ?_, ?_, ?_⟩
    · simp only [KF1.reset, wr_ok (l := s.b.mean) (a := (0:ℝ)) (H.mean ▸ hk), dv_ok h2ω, rd_ok (H.yerr_get hk),
        wr_ok (l := s.b.var) (H.var ▸ hk), res_bind_ok, res_pure, iter, KF1.st]
    · simp [H.mean]
    · simp [H.var]
    · intro i hi
      obtain rfl : i = 0 := by omega
      have h1 : 0 < s.b.mean.length := H.mean ▸ hk
      have h2 : 0 < s.b.var.length := H.var ▸ hk
      constructor
      · rw [List.getElem?_set_self h1, hS.m_zero]
      · rw [List.getElem?_set_self h2, hS.v_eq, hS.P_zero, he 0 le_rfl]; congr 2; ring
  | succ k ih =>
    obtain ⟨M, W, hrun, hM, hW, hMW⟩ := ih (by omega) (fun j hj => hrho j (by omega)) (fun j hj => he j (by omega))
      (fun j hj => hy j (by omega)) (fun j hj => hv j (by omega))
    obtain ⟨hm, hvk⟩ := hMW k le_rfl
    have hvne := hv k (by omega)
    have hPk : S.v k - e k * e k = S.P k () () := by
      rw [hS.v_eq, he k (by omega)]; ring
    have hr := hrho k (by omega)
    set ρ := Real.exp (-s.omega * (t (k+1) - t k)) with hρ
    refine ⟨M.set (k+1) (S.m yy (k+1)), W.set (k+1) (S.v (k+1)), ?_, by simp [hM], by simp [hW], ?_⟩
    · have : (KF1.reset s >>= iter KF1.update (k+1)) = ((KF1.reset s >>= iter KF1.update k) >>= KF1.update) := by
        rw [bind_assoc]; rfl
      rw [this, hrun, res_bind_ok]
      have hρ' : Real.exp (-1 * s.omega * (t (k+1) - t k)) = ρ := by rw [hρ]; congr 1; ring
      simp only [KF1.update, KF1.st, prevIdx, Nat.add_sub_cancel, if_neg (Nat.succ_ne_zero k), res_bind_ok,
        rd_ok (H.dt_get hk), rd_ok hvk, rd_ok (H.yerr_get (by omega : k < n)), dv_ok hvne, rd_ok hm,
        rd_ok (H.y_get (by omega : k < n)), wr_ok (hM ▸ hk : k + 1 < M.length), dv_ok h2ω,
        wr_ok (hW ▸ hk : k + 1 < W.length), rd_ok (H.yerr_get hk), hPk, hρ',
        rd_ok (List.getElem?_set_self (hW ▸ hk : k + 1 < W.length)), res_pure]
      rw [wr_ok (by simpa [hW] using hk), res_bind_ok, List.set_set]
      have e1 : S.m yy (k+1) = ρ * S.m yy k + ρ * (S.P k () () / S.v k) * (y k - S.m yy k) := by
        rw [hS.m_succ, hr, hy k (by omega)]; ring
      have e2 : S.v (k+1) = s.b.sigsqr / (2 * s.omega) * (1 - ρ * ρ)
          + ρ * ρ * S.P k () () * (1 - S.P k () () / S.v k) + e (k+1) * e (k+1) := by
        rw [hS.v_eq (k+1), hS.P_succ hvne, hr, he (k+1) le_rfl]; ring
      rw [e1, e2]
    · intro i hi
      rcases Nat.lt_or_ge i (k+1) with h | h
      · obtain ⟨h1, h2⟩ := hMW i (by omega)
        rw [List.getElem?_set_ne (by omega), List.getElem?_set_ne (by omega)]
        exact ⟨h1, h2⟩
      · obtain rfl : i = k + 1 := by omega
        rw [List.getElem?_set_self (hM ▸ hk), List.getElem?_set_self (hW ▸ hk)]
        exact ⟨rfl, rfl⟩

/-- the object inside the coefficient loop -/
def KF1.stc (s : KF1) (M W : List ℝ) (k : ℕ) (c d : ℝ) : KF1 :=
  { s with b := { s.b with mean := M, var := W, yconst := c, yslope := d, cur := k } }

/-- The coefficient loop computes, at original index `i`, the quantities of the augmented system at `i+1`. -/
lemma KF1.coefLoop_eq (s : KF1) {n : ℕ} {t y e : ℕ → ℝ} (H : Holds s.b n t y e) (hω : s.omega ≠ 0)
    {S : SS ℝ Unit} (hS : IsCar1 S (s.b.sigsqr / (2 * s.omega))) {yy : ℕ → ℝ} {p : ℕ}
    (hrho : ∀ j, p ≤ j → j + 1 < n → S.rho (j+1) () = Real.exp (-s.omega * (t (j+1) - t j)))
    (he : ∀ j, p ≤ j → j < n → S.e2 (j+1) = e j ^ 2) (hy : ∀ j, p ≤ j → j < n → yy (j+1) = y j)
    (hv : ∀ j, j < n + 1 → S.v j ≠ 0) (k : ℕ) :
    ∀ (i : ℕ) (M W : List ℝ) (acc : ℝ × ℝ), p ≤ i → i + 1 + k = n → M.length = n → W.length = n →
      W[i]? = some (S.v (i+1)) →
      ∃ s', KF1.coefLoop k (i+1) (KF1.stc s M W (i+1) (S.m yy (i+1)) (S.a (i+1) p)) acc = .ok (s',
        (acc.1 + ∑ j ∈ Ico (i+2) (n+1), S.a j p * S.a j p / S.v j,
         acc.2 + ∑ j ∈ Ico (i+2) (n+1), S.a j p * (yy j - S.m yy j) / S.v j)) ∧
        ∃ M' W' c d k', s' = KF1.stc s M' W' k' c d ∧ M'.length = n ∧ W'.length = n := by
  have h2ω : 2 * s.omega ≠ 0 := by simpa using hω
  induction k with
  | zero =>
    intro i M W acc hpi hik hM hW hWi
    have : i + 1 = n := by omega
    subst this
    refine ⟨KF1.stc s M W (i+1) (S.m yy (i+1)) (S.a (i+1) p), by simp [KF1.coefLoop],
      M, W, _, _, _, rfl, hM, hW⟩
  | succ k ih =>
    intro i M W acc hpi hik hM hW hWi
    have hi1 : i + 1 < n := by omega
    have hPk : S.v (i+1) - e i * e i = S.P (i+1) () () := by
      rw [hS.v_eq, he i hpi (by omega)]; ring
    have hvne := hv (i+1) (by omega)
    have hr := hrho i hpi hi1
    set ρ := Real.exp (-s.omega * (t (i+1) - t i)) with hρ
    have hρ' : Real.exp (-1 * (t (i+1) - t i) * s.omega) = ρ := by rw [hρ]; congr 1; ring
    have e1 : S.m yy (i+2) = S.m yy (i+1) * ρ * (1 - S.P (i+1) () () / S.v (i+1))
        + ρ * (S.P (i+1) () () / S.v (i+1)) * y i := by
      rw [hS.m_succ, hr, hy i hpi (by omega)]; ring
    have e2 : S.v (i+2) = s.b.sigsqr / (2 * s.omega) * (1 - ρ * ρ)
        + ρ * ρ * S.P (i+1) () () * (1 - S.P (i+1) () () / S.v (i+1)) + e (i+1) * e (i+1) := by
      rw [hS.v_eq (i+2), hS.P_succ hvne, hr, he (i+1) (by omega) hi1]; ring
    have e3 : S.a (i+2) p = S.a (i+1) p * (ρ * (1 - S.P (i+1) () () / S.v (i+1))) := by
      rw [hS.a_succ_lt (by omega), hr]; ring
    have hup : KF1.updateCoefs (KF1.stc s M W (i+1) (S.m yy (i+1)) (S.a (i+1) p))
        = .ok (KF1.stc s M (W.set (i+1) (S.v (i+2))) (i+2) (S.m yy (i+2)) (S.a (i+2) p)) := by
      simp only [KF1.updateCoefs, KF1.stc, prevIdx, Nat.add_sub_cancel, if_neg (Nat.succ_ne_zero i), res_bind_ok,
        rd_ok (H.dt_get hi1), rd_ok hWi, rd_ok (H.yerr_get (by omega : i < n)), dv_ok hvne,
        rdU_ok (H.y_get (by omega : i < n)), dv_ok h2ω,
        wr_ok (hW ▸ hi1 : i + 1 < W.length), rd_ok (H.yerr_get hi1), hPk, hρ', res_pure]
      rw [e1, e2, e3]
    have hv2 := hv (i+2) (by omega)
    have hac : KF1.accum (KF1.stc s M (W.set (i+1) (S.v (i+2))) (i+2) (S.m yy (i+2)) (S.a (i+2) p)) (i+1) acc
        = .ok (acc.1 + S.a (i+2) p * S.a (i+2) p / S.v (i+2),
            acc.2 + S.a (i+2) p * (yy (i+2) - S.m yy (i+2)) / S.v (i+2)) := by
      simp only [KF1.accum, KF1.stc, rd_ok (List.getElem?_set_self (hW ▸ hi1 : i + 1 < W.length)),
        rd_ok (H.y_get hi1), res_bind_ok, dv_ok hv2, res_pure, hy (i+1) (by omega) hi1]
    obtain ⟨s', h1, h2⟩ := ih (i+1) M (W.set (i+1) (S.v (i+2)))
      (acc.1 + S.a (i+2) p * S.a (i+2) p / S.v (i+2),
            acc.2 + S.a (i+2) p * (yy (i+2) - S.m yy (i+2)) / S.v (i+2)) (by omega) (by omega) hM (by simp [hW])
      (List.getElem?_set_self (hW ▸ hi1))
    refine ⟨s', ?_, h2⟩
    simp only [KF1.coefLoop, hup, res_bind_ok, hac, h1]
    congr 3
    · rw [Finset.sum_eq_sum_Ico_succ_bot (by omega : i + 2 < n + 1)]; ring
    · rw [Finset.sum_eq_sum_Ico_succ_bot (by omega : i + 2 < n + 1)]; ring

/-- the CAR(1) state space for times `t` and errors `e` -/
noncomputable def car1SS (sigsqr ω : ℝ) (t e : ℕ → ℝ) : SS ℝ Unit where
  V := Matrix.of fun _ _ => sigsqr / (2 * ω)
  b := fun _ => 1
  rho := fun i _ => Real.exp (-ω * (t (i+1) - t i))
  e2 := fun i => e i ^ 2

lemma car1SS_isCar1 (sigsqr ω : ℝ) (t e : ℕ → ℝ) : IsCar1 (car1SS sigsqr ω t e) (sigsqr / (2 * ω)) := ⟨rfl, rfl⟩

/-- `Predict` in terms of the system augmented with the unknown value. -/
lemma KF1.predict_eq (s : KF1) {n : ℕ} {t y e : ℕ → ℝ} (H : Holds s.b n t y e) (hω : s.omega ≠ 0) (x : ℝ)
    {p : ℕ} (hfind : findIdx s.b.time x = .ok p) (hpn : p ≤ n) (hn : 0 < n) (hxp : p < n → x ≤ t p)
    (hv : ∀ j < n + 1, (car1SS s.b.sigsqr s.omega (ins p x t) (ins p 0 e)).v j ≠ 0)
    (hprec : let S := car1SS s.b.sigsqr s.omega (ins p x t) (ins p 0 e)
      1 / S.v p + ∑ i ∈ Ico (p + 1) (n + 1), S.a i p * S.a i p / S.v i ≠ 0) :
    let S := car1SS s.b.sigsqr s.omega (ins p x t) (ins p 0 e)
    let yy := ins p 0 y
    let prec := 1 / S.v p + ∑ i ∈ Ico (p + 1) (n + 1), S.a i p * S.a i p / S.v i
    let num := S.m yy p / S.v p + ∑ i ∈ Ico (p + 1) (n + 1), S.a i p * (yy i - S.m yy i) / S.v i
    ∃ s', KF1.predict s x = .ok (s', (num / prec, 1 / prec)) ∧
        ∃ M' W' c d k', s' = KF1.stc s M' W' k' c d ∧ M'.length = n ∧ W'.length = n := by
  intro S yy prec num
  have hS : IsCar1 S (s.b.sigsqr / (2 * s.omega)) := car1SS_isCar1 _ _ _ _
  have h2ω : 2 * s.omega ≠ 0 := by simpa using hω
  replace hv : ∀ j < n + 1, S.v j ≠ 0 := hv
  replace hprec : prec ≠ 0 := hprec
  -- phase 1: the filter up to the point before `x`
  have phase1 : ∃ M W k, (KF1.reset s >>= iter KF1.update (p-1)) = .ok (KF1.st s M W k) ∧ M.length = n ∧
      W.length = n ∧ ∀ i, i < p → M[i]? = some (S.m yy i) ∧ W[i]? = some (S.v i) := by
    rcases Nat.eq_zero_or_pos p with hp | hp
    · obtain ⟨M, W, h1, h2, h3, _⟩ := KF1.run_eq s H.feeds hω (car1SS_isCar1 s.b.sigsqr s.omega t e) (yy := y) 0 hn
        (by intro j hj; omega) (by intro j _; rfl) (by intro j hj; omega) (by intro j hj; omega)
      refine ⟨M, W, 1, by rw [hp]; exact h1, h2, h3, by intro i hi; omega⟩
    · obtain ⟨M, W, h1, h2, h3, h4⟩ := KF1.run_eq s H.feeds hω hS (yy := yy) (p-1) (by omega)
        (by intro j hj
            simp only [S, car1SS]
            rw [ins_lt _ _ (by omega), ins_lt _ _ (by omega)])
        (by intro j hj
            simp only [S, car1SS]
            rw [ins_lt _ _ (by omega)])
        (by intro j hj
            exact ins_lt _ _ (by omega))
        (by intro j hj; exact hv j (by omega))
      exact ⟨M, W, _, h1, h2, h3, fun i hi => h4 i (by omega)⟩
  obtain ⟨M, W, k, hrun, hM, hW, hMW⟩ := phase1
  -- phase 2: prediction from the past
  have phase2 : KF1.predictPast (KF1.st s M W k) x p = .ok (S.m yy p, S.v p) := by
    have hep : S.e2 p = 0 := by simp [S, car1SS]
    rcases Nat.eq_zero_or_pos p with hp | hp
    · subst hp
      simp only [KF1.predictPast, KF1.st, dv_ok h2ω, res_bind_ok, if_true, res_pure]
      rw [hS.m_zero, hS.v_eq, hS.P_zero, hep, add_zero]
    · obtain ⟨q, rfl⟩ : ∃ q, p = q + 1 := ⟨p - 1, by omega⟩
      obtain ⟨hm, hw⟩ := hMW q (by omega)
      have hqn : q < n := by omega
      have heq : S.e2 q = e q ^ 2 := by simp only [S, car1SS]; rw [ins_lt _ _ (by omega)]
      have hPk : S.v q - e q * e q = S.P q () () := by rw [hS.v_eq, heq]; ring
      have hr : S.rho q () = Real.exp (-(x - t q) * s.omega) := by
        simp only [S, car1SS]
        rw [ins_lt _ _ (by omega : q < q + 1), ins_self]; congr 1; ring
      have hyq : yy q = y q := ins_lt _ _ (by omega)
      simp only [KF1.predictPast, KF1.st, dv_ok h2ω, res_bind_ok, if_neg (Nat.succ_ne_zero q), Nat.add_sub_cancel,
        rdU_ok (H.time_get hqn), rd_ok hw, rd_ok (H.yerr_get hqn), dv_ok (hv q (by omega)), rd_ok hm,
        rd_ok (H.y_get hqn), res_pure, hPk, ← hr]
      have e1 : S.m yy (q+1) = S.rho q () * S.m yy q
          + S.rho q () * (S.P q () () / S.v q) * (y q - S.m yy q) := by
        rw [hS.m_succ, hyq]; ring
      have e2 : S.v (q+1) = s.b.sigsqr / (2 * s.omega) * (1 - S.rho q () * S.rho q ())
          + S.rho q () * S.rho q () * S.P q () () * (1 - S.P q () () / S.v q) := by
        rw [hS.v_eq (q+1), hS.P_succ (hv q (by omega)), hep]; ring
      rw [e1, e2]
  have hpred : KF1.predict s x = (do
      let s ← (KF1.reset s >>= iter KF1.update (p-1))
      let (m, v) ← KF1.predictPast s x p
      if p = s.b.time.length then
        return (s, (m, v))
      else
        let yprecision ← dv 1 v
        let s ← KF1.initCoefs s x p
        let acc ← KF1.accum s p (yprecision, m * yprecision)
        let (s, acc) ← KF1.coefLoop (s.b.time.length - (p + 1)) (p + 1) s acc
        let pv ← dv 1 acc.1
        return (s, (acc.2 * pv, pv))) := by
    simp only [KF1.predict, hfind, res_bind_ok, bind_assoc]
  rw [hpred, hrun]
  simp only [res_bind_ok, phase2]
  have htl : (KF1.st s M W k).b.time.length = n := by simp [KF1.st, H.time_length]
  rw [htl]
  have hvp := hv p (by omega)
  by_cases hpe : p = n
  · rw [if_pos hpe]
    refine ⟨KF1.st s M W k, ?_, M, W, 0, 0, k, rfl, hM, hW⟩
    have h0 : prec = 1 / S.v p := by simp only [prec]; rw [hpe, Finset.Ico_self]; simp
    have h1 : num = S.m yy p / S.v p := by simp only [num]; rw [hpe, Finset.Ico_self]; simp
    rw [h0, h1, res_pure]
    have : S.v p ≠ 0 := hvp
    congr 3
    · field_simp
    · field_simp
  · rw [if_neg hpe]
    have hpn' : p < n := by omega
    have hxt := hxp hpn'
    have hep : S.e2 p = 0 := by simp [S, car1SS]
    have hPv : S.P p () () = S.v p := by rw [hS.v_eq, hep, add_zero]
    have hr : S.rho p () = Real.exp (-|t p - x| * s.omega) := by
      simp only [S, car1SS]
      rw [ins_gt _ _ le_rfl, ins_self, abs_of_nonneg (by linarith)]; congr 1; ring
    have hyp : yy p = 0 := ins_self _ _ _
    have e1 : S.m yy (p+1) = 0 := by
      rw [hS.m_succ, hPv, hyp, div_self hvp]; ring
    have e3 : S.a (p+1) p = Real.exp (-|t p - x| * s.omega) := by
      rw [hS.a_succ_self, hPv, div_self hvp, hr, mul_one]
    have e2 : S.v (p+1) = s.b.sigsqr / (2 * s.omega) * (1 - S.a (p+1) p * S.a (p+1) p) + e p * e p := by
      rw [hS.v_eq (p+1), hS.P_succ hvp, hPv, div_self hvp, e3, hr]
      simp only [S, car1SS]
      rw [ins_gt _ _ le_rfl]; ring
    have hic : KF1.initCoefs (KF1.st s M W k) x p
        = .ok (KF1.stc s M (W.set p (S.v (p+1))) (p+1) (S.m yy (p+1)) (S.a (p+1) p)) := by
      simp only [KF1.initCoefs, KF1.st, KF1.stc, rd_ok (H.time_get hpn'), res_bind_ok, dv_ok h2ω,
        rd_ok (H.yerr_get hpn'), wrU_ok (hW ▸ hpn' : p < W.length), res_pure, ← e3, ← e2, e1]
    have hvp1 := hv (p+1) (by omega)
    have hyp1 : yy (p+1) = y p := ins_gt _ _ le_rfl
    have hac : KF1.accum (KF1.stc s M (W.set p (S.v (p+1))) (p+1) (S.m yy (p+1)) (S.a (p+1) p)) p
        (1 / S.v p, S.m yy p * (1 / S.v p))
        = .ok (1 / S.v p + S.a (p+1) p * S.a (p+1) p / S.v (p+1),
            S.m yy p * (1 / S.v p) + S.a (p+1) p * (yy (p+1) - S.m yy (p+1)) / S.v (p+1)) := by
      simp only [KF1.accum, KF1.stc, rd_ok (List.getElem?_set_self (hW ▸ hpn' : p < W.length)),
        rd_ok (H.y_get hpn'), res_bind_ok, dv_ok hvp1, res_pure, hyp1]
    obtain ⟨s', h1, h2⟩ := KF1.coefLoop_eq s H hω hS (yy := yy) (p := p)
      (by intro j hj hjn
          simp only [S, car1SS]
          rw [ins_gt _ _ (by omega), ins_gt _ _ (by omega)])
      (by intro j hj hjn
          simp only [S, car1SS]
          rw [ins_gt _ _ (by omega)])
      (by intro j hj hjn; exact ins_gt _ _ hj) hv (n - (p+1)) p M (W.set p (S.v (p+1)))
      (1 / S.v p + S.a (p+1) p * S.a (p+1) p / S.v (p+1),
        S.m yy p * (1 / S.v p) + S.a (p+1) p * (yy (p+1) - S.m yy (p+1)) / S.v (p+1)) le_rfl (by omega) hM
      (by simp [hW]) (List.getElem?_set_self (hW ▸ hpn'))
    refine ⟨s', ?_, h2⟩
    have hlen : (KF1.stc s M (W.set p (S.v (p+1))) (p+1) (S.m yy (p+1)) (S.a (p+1) p)).b.time.length = n := by
      simp [KF1.stc, H.time_length]
    have hp1 : 1 / S.v p + S.a (p+1) p * S.a (p+1) p / S.v (p+1)
        + ∑ j ∈ Ico (p+2) (n+1), S.a j p * S.a j p / S.v j = prec := by
      simp only [prec]
      rw [Finset.sum_eq_sum_Ico_succ_bot (by omega : p + 1 < n + 1)]; ring
    have hn1 : S.m yy p * (1 / S.v p) + S.a (p+1) p * (yy (p+1) - S.m yy (p+1)) / S.v (p+1)
        + ∑ j ∈ Ico (p+2) (n+1), S.a j p * (yy j - S.m yy j) / S.v j = num := by
      simp only [num]
      rw [Finset.sum_eq_sum_Ico_succ_bot (by omega : p + 1 < n + 1)]; ring
    simp only [dv_ok hvp, res_bind_ok, hic, hac, hlen, h1, hp1, hn1]
    rw [dv_ok hprec]
    simp only [res_bind_ok, res_pure]
    congr 3
    ring

end Verif.Theory
