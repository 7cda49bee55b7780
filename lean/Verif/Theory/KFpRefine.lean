import Verif.Theory.Realize

/-! Helper lemmas: the imperative CARMA filter computes the state-space recursion. -/

namespace Verif.Theory

open Verif.Model Finset Matrix

variable {p : ℕ}

section bridge
variable (S : SS ℂ (Fin p))

lemma quad_eq (P : Matrix (Fin p) (Fin p) ℂ) (e : ℝ) : KFp.quad S.b P + e = S.obsVar P e := rfl

lemma gain_eq (P : Matrix (Fin p) (Fin p) ℂ) {v : ℝ} (hv : v ≠ 0) : KFp.gainOf S.b P v = .ok (S.gainOf P v) := by
  simp only [KFp.gainOf, if_neg hv]; rfl

lemma stepP_eq (P : Matrix (Fin p) (Fin p) ℂ) (v : ℝ) (r : Fin p → ℂ) :
    KFp.timeVar r (KFp.measVar P v (S.gainOf P v)) S.V = S.stepP P v r := by
  ext k l
  simp only [KFp.timeVar, KFp.measVar, SS.stepP, Matrix.of_apply]; rfl

end bridge

/-- the object after `reset` and some updates -/
def KFp.st (s : KFp p) (bb : Fin p → ℂ) (V : Matrix (Fin p) (Fin p) ℂ) (M W : List ℝ) (k : ℕ) (x : Fin p → ℂ)
    (P : Matrix (Fin p) (Fin p) ℂ) (inn : ℝ) (g rh : Fin p → ℂ) : KFp p :=
  { s with
    rotma := bb, StateVar := V, PredVar := P, state := x, innov := inn, gain := g, rho := rh,
    b := { s.b with mean := M, var := W, cur := k } }

/-- parameters for which `Reset` succeeds -/
structure KFp.Ready (s : KFp p) (S : SS ℂ (Fin p)) : Prop where
  pset : s.pset = true
  two : 2 ≤ p
  J : ∃ J, KFp.jvec s.omega = .ok J ∧ KFp.stateVar s.b.sigsqr s.omega J = .ok S.V
  b : KFp.rotate s.omega s.ma = .ok S.b

lemma KFp.reset_eq (s : KFp p) {n : ℕ} {t y e : ℕ → ℝ} (H : Feeds s.b n t y e) (hn : 0 < n) {S : SS ℂ (Fin p)}
    (hR : KFp.Ready s S) (he : S.e2 0 = e 0 ^ 2) :
    KFp.reset s = .ok (KFp.st s S.b S.V (s.b.mean.set 0 0) (s.b.var.set 0 (S.v 0)) 1 0 S.V (y 0) s.gain s.rho) := by
  obtain ⟨J, hJ, hV⟩ := hR.J
  have hv0 : S.v 0 = KFp.quad S.b S.V + e 0 * e 0 := by
    have : e 0 * e 0 = S.e2 0 := by rw [he]; ring
    rw [this, quad_eq]; rfl
  simp only [KFp.reset, hR.pset, Bool.true_eq_false, if_false, if_neg (not_lt.mpr hR.two), hJ, hV, hR.b, res_bind_ok,
    wr_ok (l := s.b.mean) (a := (0:ℝ)) (H.mean ▸ hn), rd_ok (H.yerr_get hn), wr_ok (l := s.b.var) (H.var ▸ hn),
    rd_ok (List.getElem?_set_self (H.var ▸ hn : 0 < s.b.var.length)), res_pure, rd_ok (H.y_get hn)]
  rw [wr_ok (by simpa [H.var] using hn), res_bind_ok, List.set_set, ← hv0]
  simp only [KFp.st, hR.pset]

lemma KFp.run_eq (s : KFp p) {n : ℕ} {t y e : ℕ → ℝ} (H : Feeds s.b n t y e)
    {S : SS ℂ (Fin p)} (hR : KFp.Ready s S) {yy : ℕ → ℝ} (k : ℕ) (hk : k < n)
    (hrho : ∀ j < k, S.rho j = KFp.rhoOf s.omega (t (j+1) - t j))
    (he : ∀ j ≤ k, S.e2 j = e j ^ 2) (hy : ∀ j ≤ k, yy j = y j) (hv : ∀ j < k, S.v j ≠ 0) :
    ∃ M W g rh, (KFp.reset s >>= iter KFp.update k) =
        .ok (KFp.st s S.b S.V M W (k+1) (S.x yy k) (S.P k) (y k - S.m yy k) g rh) ∧ M.length = n ∧ W.length = n ∧
      ∀ i ≤ k, M[i]? = some (S.m yy i) ∧ W[i]? = some (S.v i) := by
  induction k with
  | zero =>
    have hm0 : S.m yy 0 = 0 := by simp [SS.m, SS.x]
    refine ⟨s.b.mean.set 0 0, s.b.var.set 0 (S.v 0), s.gain, s.rho, ?_, ?_, ?_, ?_⟩
    · rw [KFp.reset_eq s H hk hR (he 0 le_rfl), hm0, sub_zero]; rfl
    · simp [H.mean]
    · simp [H.var]
    · intro i hi
      obtain rfl : i = 0 := by omega
      have h1 : 0 < s.b.mean.length := H.mean ▸ hk
      have h2 : 0 < s.b.var.length := H.var ▸ hk
      rw [List.getElem?_set_self h1, List.getElem?_set_self h2, hm0]
      exact ⟨rfl, rfl⟩
  | succ k ih =>
    obtain ⟨M, W, g, rh, hrun, hM, hW, hMW⟩ := ih (by omega) (fun j hj => hrho j (by omega))
      (fun j hj => he j (by omega)) (fun j hj => hy j (by omega)) (fun j hj => hv j (by omega))
    obtain ⟨hm, hvk⟩ := hMW k le_rfl
    have hvne := hv k (by omega)
    have hr := hrho k (by omega)
    refine ⟨M.set (k+1) (S.m yy (k+1)), W.set (k+1) (S.v (k+1)), S.g k, S.rho k, ?_, by simp [hM], by simp [hW], ?_⟩
    · have : (KFp.reset s >>= iter KFp.update (k+1)) = ((KFp.reset s >>= iter KFp.update k) >>= KFp.update) := by
        rw [bind_assoc]; rfl
      rw [this, hrun, res_bind_ok]
      have hx : (fun i => S.rho k i * (S.x yy k i + S.gainOf (S.P k) (S.v k) i * ((y k - S.m yy k : ℝ) : ℂ)))
          = S.x yy (k+1) := by
        rw [← hy k (by omega)]; rfl
      have hP : KFp.timeVar (S.rho k) (KFp.measVar (S.P k) (S.v k) (S.gainOf (S.P k) (S.v k))) S.V = S.P (k+1) :=
        stepP_eq S _ _ _
      have hvar : KFp.quad S.b (S.P (k+1)) + e (k+1) * e (k+1) = S.v (k+1) := by
        have : e (k+1) * e (k+1) = S.e2 (k+1) := by rw [he (k+1) le_rfl]; ring
        rw [this, quad_eq]; rfl
      have hmm : (S.b ⬝ᵥ S.x yy (k+1)).re = S.m yy (k+1) := rfl
      simp only [KFp.update, KFp.st, prevIdx, Nat.add_sub_cancel, if_neg (Nat.succ_ne_zero k), res_bind_ok,
        rd_ok hvk, gain_eq S _ hvne, rd_ok (H.dt_get hk), ← hr, hP, hx, hmm,
        wr_ok (hM ▸ hk : k + 1 < M.length),
        wr_ok (hW ▸ hk : k + 1 < W.length), rd_ok (H.yerr_get hk), rd_ok (H.y_get hk),
        rd_ok (List.getElem?_set_self (hW ▸ hk : k + 1 < W.length)),
        rd_ok (List.getElem?_set_self (hM ▸ hk : k + 1 < M.length)), res_pure]
      rw [wr_ok (by simpa [hW] using hk), res_bind_ok, List.set_set, hvar]
      rfl
    · intro i hi
      rcases Nat.lt_or_ge i (k+1) with h | h
      · obtain ⟨h1, h2⟩ := hMW i (by omega)
        rw [List.getElem?_set_ne (by omega), List.getElem?_set_ne (by omega)]
        exact ⟨h1, h2⟩
      · obtain rfl : i = k + 1 := by omega
        rw [List.getElem?_set_self (hM ▸ hk), List.getElem?_set_self (hW ▸ hk)]
        exact ⟨rfl, rfl⟩

/-- the object inside the coefficient loop -/
def KFp.stc (s : KFp p) (bb : Fin p → ℂ) (V : Matrix (Fin p) (Fin p) ℂ) (M W : List ℝ) (k : ℕ) (x : Fin p → ℂ)
    (P : Matrix (Fin p) (Fin p) ℂ) (inn : ℝ) (g rh sc ss : Fin p → ℂ) (c d : ℝ) : KFp p :=
  { s with
    rotma := bb, StateVar := V, PredVar := P, state := x, innov := inn, gain := g, rho := rh,
    sconst := sc, sslope := ss,
    b := { s.b with mean := M, var := W, cur := k, yconst := c, yslope := d } }

/-- The coefficient loop computes, at original index `i`, the quantities of the augmented system at `i+1`. -/
lemma KFp.coefLoop_eq (s : KFp p) {n : ℕ} {t y e : ℕ → ℝ} (H : Holds s.b n t y e)
    {S : SS ℂ (Fin p)} {yy : ℕ → ℝ} {q : ℕ} {x0 : Fin p → ℂ} {inn : ℝ}
    (hrho : ∀ j, q ≤ j → j + 1 < n → S.rho (j+1) = KFp.rhoOf s.omega (t (j+1) - t j))
    (he : ∀ j, q ≤ j → j < n → S.e2 (j+1) = e j ^ 2) (hy : ∀ j, q ≤ j → j < n → yy (j+1) = y j)
    (hv : ∀ j, j < n + 1 → S.v j ≠ 0) (k : ℕ) :
    ∀ (i : ℕ) (M W : List ℝ) (g rh : Fin p → ℂ) (acc : ℝ × ℝ), q ≤ i → i + 1 + k = n → M.length = n → W.length = n →
      W[i]? = some (S.v (i+1)) →
      ∃ s', KFp.coefLoop k (i+1) (KFp.stc s S.b S.V M W (i+1) x0 (S.P (i+1)) inn g rh (S.x yy (i+1)) (S.A (i+1) q)
          (S.m yy (i+1)) (S.a (i+1) q)) acc = .ok (s',
        (acc.1 + ∑ j ∈ Ico (i+2) (n+1), S.a j q * S.a j q / S.v j,
         acc.2 + ∑ j ∈ Ico (i+2) (n+1), S.a j q * (yy j - S.m yy j) / S.v j)) ∧
        ∃ M' W' P' g' rh' sc' ss' c d k', s' = KFp.stc s S.b S.V M' W' k' x0 P' inn g' rh' sc' ss' c d ∧
          M'.length = n ∧ W'.length = n := by
  induction k with
  | zero =>
    intro i M W g rh acc hpi hik hM hW hWi
    have : i + 1 = n := by omega
    subst this
    exact ⟨_, by simp [KFp.coefLoop]; rfl, M, W, _, _, _, _, _, _, _, _, rfl, hM, hW⟩
  | succ k ih =>
    intro i M W g rh acc hpi hik hM hW hWi
    have hi1 : i + 1 < n := by omega
    have hvne := hv (i+1) (by omega)
    have hr := hrho i hpi hi1
    have hx : (fun u => S.rho (i+1) u * (S.x yy (i+1) u + S.gainOf (S.P (i+1)) (S.v (i+1)) u *
        ((y i - S.m yy (i+1) : ℝ) : ℂ))) = S.x yy (i+2) := by
      rw [← hy i hpi (by omega)]; rfl
    have hA : (fun u => S.rho (i+1) u * (S.A (i+1) q u - S.gainOf (S.P (i+1)) (S.v (i+1)) u *
        ((S.a (i+1) q : ℝ) : ℂ))) = S.A (i+2) q := by
      funext u; rw [S.A_succ_lt (i := i+1) (by omega)]; rfl
    have hP : KFp.timeVar (S.rho (i+1)) (KFp.measVar (S.P (i+1)) (S.v (i+1)) (S.gainOf (S.P (i+1)) (S.v (i+1)))) S.V
        = S.P (i+2) := stepP_eq S _ _ _
    have hvar : KFp.quad S.b (S.P (i+2)) + e (i+1) * e (i+1) = S.v (i+2) := by
      have : e (i+1) * e (i+1) = S.e2 (i+2) := by rw [he (i+1) (by omega) hi1]; ring
      rw [this, quad_eq]; rfl
    have hmm : (S.b ⬝ᵥ S.x yy (i+2)).re = S.m yy (i+2) := rfl
    have haa : (S.b ⬝ᵥ S.A (i+2) q).re = S.a (i+2) q := rfl
    have hup : KFp.updateCoefs (KFp.stc s S.b S.V M W (i+1) x0 (S.P (i+1)) inn g rh (S.x yy (i+1)) (S.A (i+1) q)
          (S.m yy (i+1)) (S.a (i+1) q))
        = .ok (KFp.stc s S.b S.V M (W.set (i+1) (S.v (i+2))) (i+2) x0 (S.P (i+2)) inn
            (S.gainOf (S.P (i+1)) (S.v (i+1))) (S.rho (i+1)) (S.x yy (i+2)) (S.A (i+2) q)
          (S.m yy (i+2)) (S.a (i+2) q)) := by
      simp only [KFp.updateCoefs, KFp.stc, prevIdx, Nat.add_sub_cancel, if_neg (Nat.succ_ne_zero i), res_bind_ok,
        rd_ok (H.dt_get hi1), rd_ok hWi, gain_eq S _ hvne, rd_ok (H.y_get (by omega : i < n)), ← hr, hx, hA, hP,
        wr_ok (hW ▸ hi1 : i + 1 < W.length), rd_ok (H.yerr_get hi1), res_pure, hvar, hmm, haa]
    have hv2 := hv (i+2) (by omega)
    have hac : ∀ g rh sc ss P, KFp.accum (KFp.stc s S.b S.V M (W.set (i+1) (S.v (i+2))) (i+2) x0 P inn g rh sc ss
        (S.m yy (i+2)) (S.a (i+2) q)) (i+1) acc
        = .ok (acc.1 + S.a (i+2) q * S.a (i+2) q / S.v (i+2),
            acc.2 + S.a (i+2) q * (yy (i+2) - S.m yy (i+2)) / S.v (i+2)) := by
      intro g rh sc ss P
      simp only [KFp.accum, KFp.stc, rd_ok (List.getElem?_set_self (hW ▸ hi1 : i + 1 < W.length)),
        rd_ok (H.y_get hi1), res_bind_ok, dv_ok hv2, res_pure, hy (i+1) (by omega) hi1]
    obtain ⟨s', h1, h2⟩ := ih (i+1) M (W.set (i+1) (S.v (i+2))) (S.gainOf (S.P (i+1)) (S.v (i+1))) (S.rho (i+1))
      (acc.1 + S.a (i+2) q * S.a (i+2) q / S.v (i+2),
            acc.2 + S.a (i+2) q * (yy (i+2) - S.m yy (i+2)) / S.v (i+2)) (by omega) (by omega) hM (by simp [hW])
      (List.getElem?_set_self (hW ▸ hi1))
    refine ⟨s', ?_, h2⟩
    simp only [KFp.coefLoop, hup, res_bind_ok, hac, h1]
    congr 3
    · rw [Finset.sum_eq_sum_Ico_succ_bot (by omega : i + 2 < n + 1)]; ring
    · rw [Finset.sum_eq_sum_Ico_succ_bot (by omega : i + 2 < n + 1)]; ring

/-- state space with given stationary covariance, observation row and rates -/
noncomputable def expSS (V : Matrix (Fin p) (Fin p) ℂ) (b : Fin p → ℂ) (ω : Fin p → ℂ) (t e : ℕ → ℝ) :
    SS ℂ (Fin p) where
  V := V
  b := b
  rho := fun i => KFp.rhoOf ω (t (i+1) - t i)
  e2 := fun i => e i ^ 2

/-- `Predict` in terms of the system augmented with the unknown value. -/
lemma KFp.predict_eq (s : KFp p) {n : ℕ} {t y e : ℕ → ℝ} (H : Holds s.b n t y e)
    {V : Matrix (Fin p) (Fin p) ℂ} {bb : Fin p → ℂ}
    (hR : ∀ t e, KFp.Ready s (expSS V bb s.omega t e)) (x : ℝ)
    {q : ℕ} (hfind : findIdx s.b.time x = .ok q) (hqn : q ≤ n) (hn : 0 < n) (hxp : q < n → x ≤ t q)
    (hxm : ∀ i < q, t i < x)
    (hv : ∀ j < n + 1, (expSS V bb s.omega (ins q x t) (ins q 0 e)).v j ≠ 0)
    (hprec : let S := expSS V bb s.omega (ins q x t) (ins q 0 e)
      1 / S.v q + ∑ i ∈ Ico (q + 1) (n + 1), S.a i q * S.a i q / S.v i ≠ 0) :
    let S := expSS V bb s.omega (ins q x t) (ins q 0 e)
    let yy := ins q 0 y
    let prec := 1 / S.v q + ∑ i ∈ Ico (q + 1) (n + 1), S.a i q * S.a i q / S.v i
    let num := S.m yy q / S.v q + ∑ i ∈ Ico (q + 1) (n + 1), S.a i q * (yy i - S.m yy i) / S.v i
    ∃ s', KFp.predict s x = .ok (s', (num / prec, 1 / prec)) ∧
        ∃ M' W' X' P' inn' g' rh' sc' ss' c d k', s' = KFp.stc s bb V M' W' k' X' P' inn' g' rh' sc' ss' c d ∧
          M'.length = n ∧ W'.length = n := by
  intro S yy prec num
  replace hv : ∀ j < n + 1, S.v j ≠ 0 := hv
  replace hprec : prec ≠ 0 := hprec
  have hRS : KFp.Ready s S := hR _ _
  have hep : S.e2 q = 0 := by simp [S, expSS]
  have hvP : KFp.quad bb (S.P q) = S.v q := by
    have := quad_eq S (S.P q) (S.e2 q)
    rw [hep, add_zero] at this
    change KFp.quad S.b (S.P q) = _
    rw [this, ← hep]; rfl
  -- phases 1 and 2: filter the earlier points, then predict from the past
  have phase : ∃ M W g rh inn s1, (KFp.reset s >>= iter KFp.update (q-1)) = .ok s1 ∧
      ∃ k, KFp.predictPast s1 x q = .ok (KFp.st s bb V M W k (S.x yy q) (S.P q) inn g rh, (S.m yy q, S.v q)) ∧
      M.length = n ∧ W.length = n := by
    rcases Nat.eq_zero_or_pos q with hp | hp
    · have h0 := KFp.reset_eq s H.feeds hn (hR t e) rfl
      refine ⟨s.b.mean.set 0 0, s.b.var.set 0 ((expSS V bb s.omega t e).v 0), s.gain, s.rho, y 0, _,
        by rw [hp, h0]; rfl, ?_⟩
      · refine ⟨1, ?_, ?_, ?_⟩
        · subst hp
          simp only [KFp.predictPast, if_true, res_pure]
          have hx0 : S.x yy 0 = 0 := rfl
          have hm0 : S.m yy 0 = 0 := by simp [SS.m, SS.x]
          have hP0 : S.P 0 = V := rfl
          rw [hx0, hm0, hP0, ← hvP, hP0]; rfl
        · simp [H.mean]
        · simp [H.var]
    · obtain ⟨q, rfl⟩ : ∃ r, q = r + 1 := ⟨q - 1, by omega⟩
      obtain ⟨M, W, g, rh, h1, h2, h3, h4⟩ := KFp.run_eq s H.feeds hRS (yy := yy) q (by omega)
        (by intro j hj
            simp only [S, expSS]
            rw [ins_lt _ _ (by omega), ins_lt _ _ (by omega)])
        (by intro j hj
            simp only [S, expSS]
            rw [ins_lt _ _ (by omega)])
        (by intro j hj
            exact ins_lt _ _ (by omega))
        (by intro j hj; exact hv j (by omega))
      obtain ⟨hm, hw⟩ := h4 q le_rfl
      have hqn' : q < n := by omega
      have hr : S.rho q = KFp.rhoOf s.omega |x - t q| := by
        simp only [S, expSS]
        rw [ins_lt _ _ (by omega : q < q + 1), ins_self, abs_of_nonneg (by have := hxm q (by omega); linarith)]
      have hyq : yy q = y q := ins_lt _ _ (by omega)
      have hx : (fun i => S.rho q i * (S.x yy q i + S.gainOf (S.P q) (S.v q) i * ((y q - S.m yy q : ℝ) : ℂ)))
          = S.x yy (q+1) := by
        rw [← hyq]; rfl
      have hP : KFp.timeVar (S.rho q) (KFp.measVar (S.P q) (S.v q) (S.gainOf (S.P q) (S.v q))) S.V = S.P (q+1) :=
        stepP_eq S _ _ _
      refine ⟨M, W, S.gainOf (S.P q) (S.v q), S.rho q, y q - S.m yy q, _, h1, q + 1, ?_, h2, h3⟩
      simp only [KFp.predictPast, KFp.st, if_neg (Nat.succ_ne_zero q), Nat.add_sub_cancel,
        rd_ok (H.time_get hqn'), rd_ok hw, gain_eq S _ (hv q (by omega)), res_bind_ok, ← hr, hx, hP, res_pure]
      have hmm : (S.b ⬝ᵥ S.x yy (q+1)).re = S.m yy (q+1) := rfl
      rw [hmm]
      change Except.ok (_, (_, KFp.quad bb (S.P (q+1)))) = _
      rw [hvP]; rfl
  obtain ⟨M, W, g, rh, inn, s1, hrun, k, phase2, hM, hW⟩ := phase
  have hpred : KFp.predict s x = (do
      let s ← (KFp.reset s >>= iter KFp.update (q-1))
      let (s, (m, v)) ← KFp.predictPast s x q
      if q = s.b.time.length then
        return (s, (m, v))
      else
        let yprecision ← dv 1 v
        let m := m * yprecision
        let ymean ← dv m yprecision
        let s ← KFp.initCoefs s x q ymean v
        let acc ← KFp.accum s q (yprecision, m)
        let (s, acc) ← KFp.coefLoop (s.b.time.length - (q + 1)) (q + 1) s acc
        let pv ← dv 1 acc.1
        return (s, (acc.2 * pv, pv))) := by
    simp only [KFp.predict, hfind, res_bind_ok, bind_assoc]
  rw [hpred, hrun]
  simp only [res_bind_ok, phase2]
  have htl : (KFp.st s bb V M W k (S.x yy q) (S.P q) inn g rh).b.time.length = n := by simp [KFp.st, H.time_length]
  rw [htl]
  have hvp := hv q (by omega)
  by_cases hpe : q = n
  · rw [if_pos hpe]
    refine ⟨_, ?_, M, W, S.x yy q, S.P q, inn, g, rh, s.sconst, s.sslope, s.b.yconst, s.b.yslope, k, rfl, hM, hW⟩
    have h0 : prec = 1 / S.v q := by simp only [prec]; rw [hpe, Finset.Ico_self]; simp
    have h1 : num = S.m yy q / S.v q := by simp only [num]; rw [hpe, Finset.Ico_self]; simp
    rw [h0, h1, res_pure]
    have : S.v q ≠ 0 := hvp
    have e1 : S.m yy q / S.v q / (1 / S.v q) = S.m yy q := by field_simp
    have e2 : 1 / (1 / S.v q) = S.v q := by field_simp
    rw [e1, e2]; rfl
  · rw [if_neg hpe]
    have hpn' : q < n := by omega
    have hxt := hxp hpn'
    have hr : S.rho q = KFp.rhoOf s.omega |t q - x| := by
      simp only [S, expSS]
      rw [ins_gt _ _ le_rfl, ins_self, abs_of_nonneg (by linarith)]
    have hyp : yy q = 0 := ins_self _ _ _
    have hP : KFp.timeVar (S.rho q) (KFp.measVar (S.P q) (S.v q) (S.gainOf (S.P q) (S.v q))) S.V = S.P (q+1) :=
      stepP_eq S _ _ _
    have hx : (fun i => S.rho q i * (S.x yy q i - S.gainOf (S.P q) (S.v q) i * ((S.m yy q : ℝ) : ℂ)))
        = S.x yy (q+1) := by
      funext i
      have : S.x yy (q+1) i = S.rho q i * (S.x yy q i + S.gainOf (S.P q) (S.v q) i *
        ((yy q - S.m yy q : ℝ) : ℂ)) := rfl
      rw [this, hyp]; push_cast; ring
    have hA : (fun i => S.rho q i * S.gainOf (S.P q) (S.v q) i) = S.A (q+1) q := by
      funext i; rw [S.A_succ_self]; rfl
    have hvar : KFp.quad S.b (S.P (q+1)) + e q * e q = S.v (q+1) := by
      have : e q * e q = S.e2 (q+1) := by
        simp only [S, expSS]; rw [ins_gt _ _ le_rfl]; ring
      rw [this, quad_eq]; rfl
    have hmm : (S.b ⬝ᵥ S.x yy (q+1)).re = S.m yy (q+1) := rfl
    have haa : (S.b ⬝ᵥ S.A (q+1) q).re = S.a (q+1) q := rfl
    have hic : KFp.initCoefs (KFp.st s bb V M W k (S.x yy q) (S.P q) inn g rh) x q (S.m yy q) (S.v q)
        = .ok (KFp.stc s bb V M (W.set q (S.v (q+1))) (q+1) (S.x yy q) (S.P (q+1)) inn
          (S.gainOf (S.P q) (S.v q)) (S.rho q) (S.x yy (q+1)) (S.A (q+1) q) (S.m yy (q+1)) (S.a (q+1) q)) := by
      change KFp.initCoefs (KFp.st s S.b S.V M W k (S.x yy q) (S.P q) inn g rh) x q (S.m yy q) (S.v q) = _
      simp only [KFp.initCoefs, KFp.st, KFp.stc, gain_eq S _ hvp, rd_ok (H.time_get hpn'), res_bind_ok, ← hr, hP, hx, hA,
        rd_ok (H.yerr_get hpn'), wr_ok (hW ▸ hpn' : q < W.length), res_pure, hvar, hmm, haa]
      rfl
    have hvp1 := hv (q+1) (by omega)
    have hyp1 : yy (q+1) = y q := ins_gt _ _ le_rfl
    have hac : ∀ X P g rh sc ss inn,
        KFp.accum (KFp.stc s bb V M (W.set q (S.v (q+1))) (q+1) X P inn g rh sc ss (S.m yy (q+1)) (S.a (q+1) q)) q
        (1 / S.v q, S.m yy q * (1 / S.v q))
        = .ok (1 / S.v q + S.a (q+1) q * S.a (q+1) q / S.v (q+1),
            S.m yy q * (1 / S.v q) + S.a (q+1) q * (yy (q+1) - S.m yy (q+1)) / S.v (q+1)) := by
      intro X P g rh sc ss inn
      simp only [KFp.accum, KFp.stc, rd_ok (List.getElem?_set_self (hW ▸ hpn' : q < W.length)),
        rd_ok (H.y_get hpn'), res_bind_ok, dv_ok hvp1, res_pure, hyp1]
    obtain ⟨s', h1, M', W', P', g', rh', sc', ss', c, d, k', h2⟩ := KFp.coefLoop_eq s H (S := S) (yy := yy) (q := q)
      (x0 := S.x yy q) (inn := inn)
      (by intro j hj hjn
          simp only [S, expSS]
          rw [ins_gt _ _ (by omega), ins_gt _ _ (by omega)])
      (by intro j hj hjn
          simp only [S, expSS]
          rw [ins_gt _ _ (by omega)])
      (by intro j hj hjn; exact ins_gt _ _ hj) hv (n - (q+1)) q M (W.set q (S.v (q+1)))
      (S.gainOf (S.P q) (S.v q)) (S.rho q)
      (1 / S.v q + S.a (q+1) q * S.a (q+1) q / S.v (q+1),
        S.m yy q * (1 / S.v q) + S.a (q+1) q * (yy (q+1) - S.m yy (q+1)) / S.v (q+1)) le_rfl (by omega) hM
      (by simp [hW]) (List.getElem?_set_self (hW ▸ hpn'))
    refine ⟨s', ?_, M', W', S.x yy q, P', inn, g', rh', sc', ss', c, d, k', h2⟩
    have hp1 : 1 / S.v q + S.a (q+1) q * S.a (q+1) q / S.v (q+1)
        + ∑ j ∈ Ico (q+2) (n+1), S.a j q * S.a j q / S.v j = prec := by
      simp only [prec]
      rw [Finset.sum_eq_sum_Ico_succ_bot (by omega : q + 1 < n + 1)]; ring
    have hn1 : S.m yy q * (1 / S.v q) + S.a (q+1) q * (yy (q+1) - S.m yy (q+1)) / S.v (q+1)
        + ∑ j ∈ Ico (q+2) (n+1), S.a j q * (yy j - S.m yy j) / S.v j = num := by
      simp only [num]
      rw [Finset.sum_eq_sum_Ico_succ_bot (by omega : q + 1 < n + 1)]; ring
    have hvi : (1 / S.v q) ≠ 0 := one_div_ne_zero hvp
    have hmi : S.m yy q * (1 / S.v q) / (1 / S.v q) = S.m yy q := by field_simp
    have hlen : ∀ X P g rh sc ss inn c d, (KFp.stc s bb V M (W.set q (S.v (q+1))) (q+1) X P inn g rh sc ss
        c d).b.time.length = n := by
      intro X P g rh sc ss inn c d
      simp [KFp.stc, H.time_length]
    simp only [dv_ok hvp, dv_ok hvi, hmi, res_bind_ok, hic, hac, hlen]
    have h1' := h1
    simp only [hp1, hn1] at h1'
    change (KFp.coefLoop (n - (q+1)) (q+1) (KFp.stc s S.b S.V M (W.set q (S.v (q+1))) (q+1) (S.x yy q) (S.P (q+1)) inn
          (S.gainOf (S.P q) (S.v q)) (S.rho q) (S.x yy (q+1)) (S.A (q+1) q) (S.m yy (q+1)) (S.a (q+1) q)) _ >>= _) = _
    rw [h1']
    simp only [res_bind_ok]
    rw [dv_ok hprec]
    simp only [res_bind_ok, res_pure]
    congr 3
    ring

end Verif.Theory
