import Verif.Theory.PyKalman

/-! Helper lemmas: prediction at the time of an observation without measurement error. -/

namespace Verif.Theory

open Verif.Model Verif.Model.Py Verif.Spec Finset Matrix

variable {p : ℕ}

/-- Two consecutive error-free points at the same time: the second has no variance left. -/
lemma SS.v_repeat {𝕜 : Type*} [RCLike 𝕜] {ι : Type*} [Fintype ι] [DecidableEq ι] (S : SS 𝕜 ι) {τ : Equiv.Perm ι} (hs : S.ConjSym τ) {r : ℝ → ℝ} {t e : ℕ → ℝ} {q : ℕ}
    (hK : ∀ i < q + 2, ∀ j < q + 2, S.K i j = r |t i - t j| + if i = j then e i ^ 2 else 0)
    (ht : t (q+1) = t q) (he : e q = 0) (he1 : e (q+1) = 0) (hv : ∀ l < q + 1, S.v l ≠ 0) : S.v (q+1) = 0 := by
  by_contra h
  have hv' : ∀ l < q + 2, S.v l ≠ 0 := by
    intro l hl
    rcases Nat.lt_or_ge l (q+1) with h' | h'
    · exact hv l h'
    · obtain rfl : l = q + 1 := by omega
      exact h
  have hne := hs.normalEq (q+2) hv'
  have hdet := hne.det_eq
  have h0 : (S.Kmat (q+2)).det = 0 := by
    apply Matrix.det_zero_of_row_eq (i := (⟨q, by omega⟩ : Fin (q+2))) (j := ⟨q+1, by omega⟩) (by simp)
    funext j
    simp only [SS.Kmat, Matrix.of_apply]
    rw [hK q (by omega) j j.2, hK (q+1) (by omega) j j.2, ht, he, he1]
    simp
  rw [h0] at hdet
  exact (Finset.prod_ne_zero_iff.mpr fun (i : Fin (q+2)) _ => hv' i i.2) hdet.symm

/-- `Predict` stops at the division by the variance of the next observation when that variance is zero. -/
lemma KF1.predict_stuck (s : KF1) {n : ℕ} {t y e : ℕ → ℝ} (H : Holds s.b n t y e) (hω : s.omega ≠ 0) (x : ℝ)
    {p : ℕ} (hfind : findIdx s.b.time x = .ok p) (hpn : p < n) (hxp : x ≤ t p)
    (hv : ∀ j < p + 1, (car1SS s.b.sigsqr s.omega (ins p x t) (ins p 0 e)).v j ≠ 0)
    (hv1 : (car1SS s.b.sigsqr s.omega (ins p x t) (ins p 0 e)).v (p + 1) = 0) :
    KF1.predict s x = .error .nonfinite := by
  have hn : 0 < n := by omega
  set S := car1SS s.b.sigsqr s.omega (ins p x t) (ins p 0 e) with hSdef
  set yy := ins p 0 y with hyy
  have hS : IsCar1 S (s.b.sigsqr / (2 * s.omega)) := car1SS_isCar1 _ _ _ _
  have h2ω : 2 * s.omega ≠ 0 := by simpa using hω
  -- phase 1: the filter up to the point before `x`
  have phase1 : ∃ M W k, (KF1.reset s >>= iter KF1.update (p-1)) = .ok (KF1.st s M W k) ∧ M.length = n ∧
      W.length = n ∧ ∀ i, i < p → M[i]? = some (S.m yy i) ∧ W[i]? = some (S.v i) := by
    rcases Nat.eq_zero_or_pos p with hp | hp
    · obtain ⟨M, W, h1, h2, h3, _⟩ := KF1.run_eq s H.feeds hω (car1SS_isCar1 s.b.sigsqr s.omega t e) (yy := y) 0 hn
        (by intro j hj; omega) (by intro j _; rfl) (by intro j hj; omega) (by intro j hj; omega)
      refine ⟨M, W, 1, by rw [hp]; exact h1, h2, h3, by intro i hi; omega⟩
    · obtain ⟨M, W, h1, h2, h3, h4⟩ := KF1.run_eq s H.feeds hω hS (yy := yy) (p-1) (by omega)
        (by intro j hj
            simp only [hSdef, car1SS]
            rw [ins_lt _ _ (by omega), ins_lt _ _ (by omega)])
        (by intro j hj
            simp only [hSdef, car1SS]
            rw [ins_lt _ _ (by omega)])
        (by intro j hj
            exact ins_lt _ _ (by omega))
        (by intro j hj; exact hv j (by omega))
      exact ⟨M, W, _, h1, h2, h3, fun i hi => h4 i (by omega)⟩
  obtain ⟨M, W, k, hrun, hM, hW, hMW⟩ := phase1
  -- phase 2: prediction from the past
  have phase2 : KF1.predictPast (KF1.st s M W k) x p = .ok (S.m yy p, S.v p) := by
    have hep : S.e2 p = 0 := by simp [hSdef, car1SS]
    rcases Nat.eq_zero_or_pos p with hp | hp
    · subst hp
      simp only [KF1.predictPast, KF1.st, dv_ok h2ω, res_bind_ok, if_true, res_pure]
      rw [hS.m_zero, hS.v_eq, hS.P_zero, hep, add_zero]
    · obtain ⟨q, rfl⟩ : ∃ q, p = q + 1 := ⟨p - 1, by omega⟩
      obtain ⟨hm, hw⟩ := hMW q (by omega)
      have hqn : q < n := by omega
      have heq : S.e2 q = e q ^ 2 := by simp only [hSdef, car1SS]; rw [ins_lt _ _ (by omega)]
      have hPk : S.v q - e q * e q = S.P q () () := by rw [hS.v_eq, heq]; ring
      have hr : S.rho q () = Real.exp (-(x - t q) * s.omega) := by
        simp only [hSdef, car1SS]
        rw [ins_lt _ _ (by omega : q < q + 1), ins_self]; congr 1; ring
      have hyq : yy q = y q := ins_lt _ _ (by omega)
      simp only [KF1.predictPast, KF1.st, dv_ok h2ω, res_bind_ok, if_neg (Nat.succ_ne_zero q), Nat.add_sub_cancel,
        rdU_ok (H.time_get hqn), rd_ok hw, rd_ok (H.yerr_get hqn), dv_ok (hv q (by omega)), rd_ok hm,
        rd_ok (H.y_get hqn), res_pure, hPk, ← hr]
      have e1 : S.m yy (q+1) = S.rho q () * S.m yy q
          + S.rho q () * (S.P q () () / S.v q) * (y q - S.m yy q) := by
        rw [hS.m_succ, hyq]; ring
      have e2 : S.v (q+1) = s.b.sigsqr / (2 * s.omega) * (1 - S.rho q () * S.rho q ())
          + S.rho q () * S.rho q () * S.P q () () * (1 - S.P q () () / S.v q) := by
        rw [hS.v_eq (q+1), hS.P_succ (hv q (by omega)), hep]; ring
      rw [e1, e2]
  have hpred : KF1.predict s x = (do
      let s ← (KF1.reset s >>= iter KF1.update (p-1))
      let (m, v) ← KF1.predictPast s x p
      if p = s.b.time.length then
        return (s, (m, v))
      else
        let yprecision ← dv 1 v
        let s ← KF1.initCoefs s x p
        let acc ← KF1.accum s p (yprecision, m * yprecision)
        let (s, acc) ← KF1.coefLoop (s.b.time.length - (p + 1)) (p + 1) s acc
        let pv ← dv 1 acc.1
        return (s, (acc.2 * pv, pv))) := by
    simp only [KF1.predict, hfind, res_bind_ok, bind_assoc]
  rw [hpred, hrun]
  simp only [res_bind_ok, phase2]
  have htl : (KF1.st s M W k).b.time.length = n := by simp [KF1.st, H.time_length]
  rw [htl]
  have hvp := hv p (by omega)
  have hpe : p ≠ n := by omega
  rw [if_neg hpe]
  have hpn' : p < n := hpn
  have hep : S.e2 p = 0 := by simp [hSdef, car1SS]
  have hPv : S.P p () () = S.v p := by rw [hS.v_eq, hep, add_zero]
  have hr : S.rho p () = Real.exp (-|t p - x| * s.omega) := by
    simp only [hSdef, car1SS]
    rw [ins_gt _ _ le_rfl, ins_self, abs_of_nonneg (by linarith [hxp])]; congr 1; ring
  have hyp : yy p = 0 := ins_self _ _ _
  have e1 : S.m yy (p+1) = 0 := by
    rw [hS.m_succ, hPv, hyp, div_self hvp]; ring
  have e3 : S.a (p+1) p = Real.exp (-|t p - x| * s.omega) := by
    rw [hS.a_succ_self, hPv, div_self hvp, hr, mul_one]
  have e2 : S.v (p+1) = s.b.sigsqr / (2 * s.omega) * (1 - S.a (p+1) p * S.a (p+1) p) + e p * e p := by
    rw [hS.v_eq (p+1), hS.P_succ hvp, hPv, div_self hvp, e3, hr]
    simp only [hSdef, car1SS]
    rw [ins_gt _ _ le_rfl]; ring
  have hic : KF1.initCoefs (KF1.st s M W k) x p
      = .ok (KF1.stc s M (W.set p (S.v (p+1))) (p+1) (S.m yy (p+1)) (S.a (p+1) p)) := by
    simp only [KF1.initCoefs, KF1.st, KF1.stc, rd_ok (H.time_get hpn'), res_bind_ok, dv_ok h2ω,
      rd_ok (H.yerr_get hpn'), wrU_ok (hW ▸ hpn' : p < W.length), res_pure, ← e3, ← e2, e1]
  have hdv : ∀ a, dv a (S.v (p+1)) = (.error .nonfinite : Res ℝ) := fun a => if_pos hv1
  simp only [dv_ok hvp, res_bind_ok, hic]
  simp only [KF1.accum, KF1.stc, rd_ok (List.getElem?_set_self (hW ▸ hpn' : p < W.length)), rd_ok (H.y_get hpn'), res_bind_ok, hdv]
  rfl

/-- `Predict` stops at the division by the variance of the next observation when that variance is zero. -/
lemma KFp.predict_stuck (s : KFp p) {n : ℕ} {t y e : ℕ → ℝ} (H : Holds s.b n t y e)
    {V : Matrix (Fin p) (Fin p) ℂ} {bb : Fin p → ℂ}
    (hR : ∀ t e, KFp.Ready s (expSS V bb s.omega t e)) (x : ℝ)
    {q : ℕ} (hfind : findIdx s.b.time x = .ok q) (hqn : q < n) (hxp : x ≤ t q)
    (hxm : ∀ i < q, t i < x)
    (hv : ∀ j < q + 1, (expSS V bb s.omega (ins q x t) (ins q 0 e)).v j ≠ 0)
    (hv1 : (expSS V bb s.omega (ins q x t) (ins q 0 e)).v (q + 1) = 0) :
    KFp.predict s x = .error .nonfinite := by
  have hn : 0 < n := by omega
  set S := expSS V bb s.omega (ins q x t) (ins q 0 e) with hSdef
  set yy := ins q 0 y with hyy
  have hRS : KFp.Ready s S := hR _ _
  have hep : S.e2 q = 0 := by simp [hSdef, expSS]
  have hvP : KFp.quad bb (S.P q) = S.v q := by
    have := quad_eq S (S.P q) (S.e2 q)
    rw [hep, add_zero] at this
    change KFp.quad S.b (S.P q) = _
    rw [this, ← hep]; rfl
  -- phases 1 and 2: filter the earlier points, then predict from the past
  have phase : ∃ M W g rh inn s1, (KFp.reset s >>= iter KFp.update (q-1)) = .ok s1 ∧
      ∃ k, KFp.predictPast s1 x q = .ok (KFp.st s bb V M W k (S.x yy q) (S.P q) inn g rh, (S.m yy q, S.v q)) ∧
      M.length = n ∧ W.length = n := by
    rcases Nat.eq_zero_or_pos q with hp | hp
    · have h0 := KFp.reset_eq s H.feeds hn (hR t e) rfl
      refine ⟨s.b.mean.set 0 0, s.b.var.set 0 ((expSS V bb s.omega t e).v 0), s.gain, s.rho, y 0, _,
        by rw [hp, h0]; rfl, ?_⟩
      · refine ⟨1, ?_, ?_, ?_⟩
        · subst hp
          simp only [KFp.predictPast, if_true, res_pure]
          have hx0 : S.x yy 0 = 0 := rfl
          have hm0 : S.m yy 0 = 0 := by simp [SS.m, SS.x]
          have hP0 : S.P 0 = V := rfl
          rw [hx0, hm0, hP0, ← hvP, hP0]; rfl
        · simp [H.mean]
        · simp [H.var]
    · obtain ⟨q, rfl⟩ : ∃ r, q = r + 1 := ⟨q - 1, by omega⟩
      obtain ⟨M, W, g, rh, h1, h2, h3, h4⟩ := KFp.run_eq s H.feeds hRS (yy := yy) q (by omega)
        (by intro j hj
            simp only [hSdef, expSS]
            rw [ins_lt _ _ (by omega), ins_lt _ _ (by omega)])
        (by intro j hj
            simp only [hSdef, expSS]
            rw [ins_lt _ _ (by omega)])
        (by intro j hj
            exact ins_lt _ _ (by omega))
        (by intro j hj; exact hv j (by omega))
      obtain ⟨hm, hw⟩ := h4 q le_rfl
      have hqn' : q < n := by omega
      have hr : S.rho q = KFp.rhoOf s.omega |x - t q| := by
        simp only [hSdef, expSS]
        rw [ins_lt _ _ (by omega : q < q + 1), ins_self, abs_of_nonneg (by have := hxm q (by omega); linarith)]
      have hyq : yy q = y q := ins_lt _ _ (by omega)
      have hx : (fun i => S.rho q i * (S.x yy q i + S.gainOf (S.P q) (S.v q) i * ((y q - S.m yy q : ℝ) : ℂ)))
          = S.x yy (q+1) := by
        rw [← hyq]; rfl
      have hP : KFp.timeVar (S.rho q) (KFp.measVar (S.P q) (S.v q) (S.gainOf (S.P q) (S.v q))) S.V = S.P (q+1) :=
        stepP_eq S _ _ _
      refine ⟨M, W, S.gainOf (S.P q) (S.v q), S.rho q, y q - S.m yy q, _, h1, q + 1, ?_, h2, h3⟩
      simp only [KFp.predictPast, KFp.st, if_neg (Nat.succ_ne_zero q), Nat.add_sub_cancel,
        rd_ok (H.time_get hqn'), rd_ok hw, gain_eq S _ (hv q (by omega)), res_bind_ok, ← hr, hx, hP, res_pure]
      have hmm : (S.b ⬝ᵥ S.x yy (q+1)).re = S.m yy (q+1) := rfl
      rw [hmm]
      change Except.ok (_, (_, KFp.quad bb (S.P (q+1)))) = _
      rw [hvP]; rfl
  obtain ⟨M, W, g, rh, inn, s1, hrun, k, phase2, hM, hW⟩ := phase
  have hpred : KFp.predict s x = (do
      let s ← (KFp.reset s >>= iter KFp.update (q-1))
      let (s, (m, v)) ← KFp.predictPast s x q
      if q = s.b.time.length then
        return (s, (m, v))
      else
        let yprecision ← dv 1 v
        let m := m * yprecision
        let ymean ← dv m yprecision
        let s ← KFp.initCoefs s x q ymean v
        let acc ← KFp.accum s q (yprecision, m)
        let (s, acc) ← KFp.coefLoop (s.b.time.length - (q + 1)) (q + 1) s acc
        let pv ← dv 1 acc.1
        return (s, (acc.2 * pv, pv))) := by
    simp only [KFp.predict, hfind, res_bind_ok, bind_assoc]
  rw [hpred, hrun]
  simp only [res_bind_ok, phase2]
  have htl : (KFp.st s bb V M W k (S.x yy q) (S.P q) inn g rh).b.time.length = n := by simp [KFp.st, H.time_length]
  rw [htl]
  have hvp := hv q (by omega)
  have hpe : q ≠ n := by omega
  rw [if_neg hpe]
  have hpn' : q < n := hqn
  have hr : S.rho q = KFp.rhoOf s.omega |t q - x| := by
    simp only [hSdef, expSS]
    rw [ins_gt _ _ le_rfl, ins_self, abs_of_nonneg (by linarith [hxp])]
  have hyp : yy q = 0 := ins_self _ _ _
  have hP : KFp.timeVar (S.rho q) (KFp.measVar (S.P q) (S.v q) (S.gainOf (S.P q) (S.v q))) S.V = S.P (q+1) :=
    stepP_eq S _ _ _
  have hx : (fun i => S.rho q i * (S.x yy q i - S.gainOf (S.P q) (S.v q) i * ((S.m yy q : ℝ) : ℂ)))
      = S.x yy (q+1) := by
    funext i
    have : S.x yy (q+1) i = S.rho q i * (S.x yy q i + S.gainOf (S.P q) (S.v q) i *
      ((yy q - S.m yy q : ℝ) : ℂ)) := rfl
    rw [this, hyp]; push_cast; ring
  have hA : (fun i => S.rho q i * S.gainOf (S.P q) (S.v q) i) = S.A (q+1) q := by
    funext i; rw [S.A_succ_self]; rfl
  have hvar : KFp.quad S.b (S.P (q+1)) + e q * e q = S.v (q+1) := by
    have : e q * e q = S.e2 (q+1) := by
      simp only [hSdef, expSS]; rw [ins_gt _ _ le_rfl]; ring
    rw [this, quad_eq]; rfl
  have hmm : (S.b ⬝ᵥ S.x yy (q+1)).re = S.m yy (q+1) := rfl
  have haa : (S.b ⬝ᵥ S.A (q+1) q).re = S.a (q+1) q := rfl
  have hic : KFp.initCoefs (KFp.st s bb V M W k (S.x yy q) (S.P q) inn g rh) x q (S.m yy q) (S.v q)
      = .ok (KFp.stc s bb V M (W.set q (S.v (q+1))) (q+1) (S.x yy q) (S.P (q+1)) inn
        (S.gainOf (S.P q) (S.v q)) (S.rho q) (S.x yy (q+1)) (S.A (q+1) q) (S.m yy (q+1)) (S.a (q+1) q)) := by
    change KFp.initCoefs (KFp.st s S.b S.V M W k (S.x yy q) (S.P q) inn g rh) x q (S.m yy q) (S.v q) = _
    simp only [KFp.initCoefs, KFp.st, KFp.stc, gain_eq S _ hvp, rd_ok (H.time_get hpn'), res_bind_ok, ← hr, hP, hx, hA,
      rd_ok (H.yerr_get hpn'), wr_ok (hW ▸ hpn' : q < W.length), res_pure, hvar, hmm, haa]
    rfl
  have hdv : ∀ a, dv a (S.v (q+1)) = (.error .nonfinite : Res ℝ) := fun a => if_pos hv1
  have hyn : S.m yy q * (1 / S.v q) / (1 / S.v q) = S.m yy q := by field_simp
  simp only [dv_ok hvp, res_bind_ok, dv_ok (one_div_ne_zero hvp), hyn, hic]
  simp only [KFp.accum, KFp.stc, rd_ok (List.getElem?_set_self (hW ▸ hpn' : q < W.length)), rd_ok (H.y_get hpn'), res_bind_ok, hdv]
  rfl

/-- the numpy version stops at the same division -/
lemma DK.predict_stuck (junk : ℕ → ℝ) (s : DK p) {σ2 : ℝ} {β : List ℝ} {n : ℕ} {t y e : ℕ → ℝ} {ω : Fin p → ℂ} (H : DK.Inv σ2 ω β s n t y e)
    {V : Matrix (Fin p) (Fin p) ℂ} {bb : Fin p → ℂ}
    (hR : ∀ t e, DK.Ready s (expSS V bb s.roots t e)) (x : ℝ)
    {q : ℕ} (hqn : q + 1 < n) (hge : ∀ i, q < i → i < n → x ≤ t i)
    (hlt : ∀ i ≤ q, t i < x)
    (hv : ∀ j < q + 2, (expSS V bb s.roots (ins (q+1) x t) (ins (q+1) 0 e)).v j ≠ 0)
    (hv1 : (expSS V bb s.roots (ins (q+1) x t) (ins (q+1) 0 e)).v (q + 2) = 0) :
    DK.predict junk s x = .error .nonfinite := by
  set S := expSS V bb s.roots (ins (q+1) x t) (ins (q+1) 0 e) with hSdef
  set yy := ins (q+1) 0 y with hyy
  have hRS : DK.Ready s S := hR _ _
  obtain ⟨M, W, h1, h2, h3, h4⟩ := DK.run_eq junk s H hRS (yy := yy) q (by omega)
    (by intro j hj
        simp only [hSdef, expSS]
        rw [ins_lt _ _ (by omega), ins_lt _ _ (by omega)])
    (by intro j hj
        simp only [hSdef, expSS]
        rw [ins_lt _ _ (by omega)])
    (by intro j hj
        exact ins_lt _ _ (by omega))
    (by intro j hj; exact hv j (by omega))
  obtain ⟨hm, hw⟩ := h4 q le_rfl
  have hr : S.rho q = KFp.rhoOf s.roots (x - t q) := by
    simp only [hSdef, expSS]
    rw [ins_lt _ _ (by omega : q < q + 1), ins_self]
  have hyq : yy q = y q := ins_lt _ _ (by omega)
  have hx : (fun i => (S.x yy q i + ((y q - S.m yy q : ℝ) : ℂ) * S.gainOf (S.P q) (S.v q) i) * S.rho q i) = S.x yy (q+1) := by
    rw [← hyq]; funext i
    rw [mul_comm, mul_comm (((yy q - S.m yy q : ℝ)) : ℂ)]; rfl
  have hP : KFp.timeVar (S.rho q) (KFp.measVar (S.P q) (S.v q) (S.gainOf (S.P q) (S.v q))) S.V = S.P (q+1) := stepP_eq S _ _ _
  have hep : S.e2 (q+1) = 0 := by simp [hSdef, expSS]
  have hvP : KFp.quad S.b (S.P (q+1)) = S.v (q+1) := by
    have := quad_eq S (S.P (q+1)) (S.e2 (q+1))
    rw [hep, add_zero] at this
    rw [this, ← hep]; rfl
  have hmm : (S.b ⬝ᵥ S.x yy (q+1)).re = S.m yy (q+1) := rfl
  have hvp := hv (q+1) (by omega)
  have hlast : DK.lastBelow s.time x = .ok q := by rw [H.time]; exact lastBelow_eq (by omega) hlt hge
  have hl0 := (DK.reset_eq junk s H (by omega) hRS (by simp only [hSdef, expSS]; rw [ins_lt _ _ (by omega)]))
  have hrun : iter DK.update q (DK.st s S.b S.V ((DK.emptyLike junk s.time).set 0 0) ((DK.emptyLike junk s.time).set 0 (S.v 0)) 1 0 S.V (y 0)) =
      .ok (DK.st s S.b S.V M W (q+1) (S.x yy q) (S.P q) (y q - S.m yy q)) := by
    rw [hl0] at h1; exact h1
  have hlast' : DK.lastBelow (DK.st s S.b S.V ((DK.emptyLike junk s.time).set 0 0) ((DK.emptyLike junk s.time).set 0 (S.v 0)) 1 0 S.V (y 0)).time x
      = .ok q := hlast
  simp only [DK.predict, hl0, res_bind_ok, hlast', Nat.add_sub_cancel, hrun]
  simp only [DK.st, rd_ok hw, gain_eq S _ (hv q (by omega)), res_bind_ok, rd_ok (H.time_get (by omega : q < n)), ← hr, hx, hP, hvP, hmm, if_neg hvp,
    H.time_length]
  have hpe : ¬ n ≤ q + 1 := by omega
  rw [if_neg hpe]
  have hqn' : q + 1 < n := hqn
  have hr1 : S.rho (q+1) = KFp.rhoOf s.roots (t (q+1) - x) := by
    simp only [hSdef, expSS]
    rw [ins_gt _ _ le_rfl, ins_self]
  have hyp : yy (q+1) = 0 := ins_self _ _ _
  have hP1 : KFp.timeVar (S.rho (q+1)) (KFp.measVar (S.P (q+1)) (S.v (q+1)) (S.gainOf (S.P (q+1)) (S.v (q+1)))) S.V = S.P (q+2) :=
    stepP_eq S _ _ _
  have hx1 : (fun i => (S.x yy (q+1) i - S.gainOf (S.P (q+1)) (S.v (q+1)) i * ((S.m yy (q+1) : ℝ) : ℂ)) * S.rho (q+1) i)
      = S.x yy (q+2) := by
    funext i
    have : S.x yy (q+2) i = S.rho (q+1) i * (S.x yy (q+1) i + S.gainOf (S.P (q+1)) (S.v (q+1)) i *
      ((yy (q+1) - S.m yy (q+1) : ℝ) : ℂ)) := rfl
    rw [this, hyp]; push_cast; ring
  have hA : (fun i => S.gainOf (S.P (q+1)) (S.v (q+1)) i * S.rho (q+1) i) = S.A (q+2) (q+1) := by
    funext i; rw [S.A_succ_self, mul_comm]; rfl
  have hvar : KFp.quad S.b (S.P (q+2)) + e (q+1) ^ 2 = S.v (q+2) := by
    have : e (q+1) ^ 2 = S.e2 (q+2) := by
      simp only [hSdef, expSS]; rw [ins_gt _ _ le_rfl]
    rw [this, quad_eq]; rfl
  have hmm1 : (S.b ⬝ᵥ S.x yy (q+2)).re = S.m yy (q+2) := rfl
  have haa1 : (S.b ⬝ᵥ S.A (q+2) (q+1)).re = S.a (q+2) (q+1) := rfl
  have hyp1 : yy (q+2) = y (q+1) := ins_gt _ _ le_rfl
  have hxi : ∀ i, (S.x yy q i + ((y q - S.m yy q : ℝ) : ℂ) * S.gainOf (S.P q) (S.v q) i) * S.rho q i = S.x yy (q+1) i := fun i =>
    congrFun hx i
  have hdv : ∀ a, dv a (S.v (q+2)) = (.error .nonfinite : Res ℝ) := fun a => if_pos hv1
  simp only [gain_eq S _ hvp, res_bind_ok, rd_ok (H.time_get hqn'), ← hr1, hxi, hx1, hA, hP1, rd_ok (H.yvar_get hqn'), hvar, hmm1, haa1,
    wr_ok (h3 ▸ hqn' : q + 1 < W.length), DK.accum, rd_ok (List.getElem?_set_self (h3 ▸ hqn' : q + 1 < W.length)),
    rd_ok (H.y_get hqn'), hdv]
  rfl

/-- the error-free observation at time `x` is the one `Predict` finds -/
lemma errorFree_idx {n q : ℕ} {t e : ℕ → ℝ} {x : ℝ} (ht : Incr n t e) (hlt : ∀ i < q, t i < x) (hge : q < n → x ≤ t q)
    {i : ℕ} (hi : i < n) (hti : t i = x) (hei : e i = 0) : i = q := by
  have hqi : q ≤ i := by
    by_contra h
    have := hlt i (by omega)
    linarith
  by_contra hne
  have h1 := le_of_step (n := n) (fun i hi => (ht i hi).1) (show q ≤ i - 1 by omega) (by omega)
  have h2 := ht (i - 1) (by omega)
  have e1 : i - 1 + 1 = i := by omega
  rw [e1] at h2
  have h3 := hge (by omega)
  rcases h2.2 with h | h
  · linarith
  · exact h hei

lemma KF1.predict_errorFree {σ2 ω : ℝ} (hσ : 0 < σ2) (hω : 0 < ω) {s : KF1} {n : ℕ} {t y e : ℕ → ℝ} (h : KF1.Inv σ2 ω s n t y e) (hn : 0 < n)
    (ht : Incr n t e) (x : ℝ) (hx : ∃ i < n, t i = x ∧ e i = 0) : Kalman.predict s x = .error .nonfinite := by
  obtain ⟨H, hsig, hom⟩ := h
  obtain ⟨q, hf, hq, hlt, hge⟩ := H.scan hn x
  obtain ⟨i, hi, hti, hei⟩ := hx
  obtain rfl := errorFree_idx ht hlt hge hi hti hei
  have hinc : Incr (i+1) (ins i x t) (ins i 0 e) :=
    ins_incr (n := i) (fun j hj => ht j (by omega)) le_rfl hlt (by omega) (fun j hj h => absurd h (hlt j hj).ne)
  have hR := car1_realizes hσ hω (ins i x t) (ins i 0 e) (i+1) hinc
  obtain ⟨τ, hτ⟩ := hR.sym
  have hmono : ∀ j, j + 1 < i + 2 → ins i x t j ≤ ins i x t (j+1) := by
    intro j hj
    rcases Nat.lt_or_ge (j+1) (i+1) with h | h
    · exact (hinc j h).1
    · obtain rfl : j = i := by omega
      rw [ins_self, ins_gt _ _ le_rfl, hti]
  have hv1 := SS.v_repeat _ hτ (q := i) (fun a ha b hb => car1SS_K σ2 ω (ins i x t) (ins i 0 e) (i+2) hmono ha hb)
    (by rw [ins_self, ins_gt _ _ le_rfl, hti]) (ins_self _ _ _) (by rw [ins_gt _ _ le_rfl, hei]) (fun l hl => (hR.pos l hl).ne')
  subst hsig hom
  exact KF1.predict_stuck s H hω.ne' x hf hi hti.ge (fun j hj => (hR.pos j hj).ne') hv1

lemma KFp.predict_errorFree {σ2 : ℝ} {ω : Fin p → ℂ} {β : List ℝ} (hp : 2 ≤ p) (hσ : 0 < σ2) (ha : Admissible ω) (hl : β.length = p)
    (hne : ∃ x ∈ β, x ≠ 0) {s : KFp p} {n : ℕ} {t y e : ℕ → ℝ} (h : KFp.Inv σ2 ω β s n t y e) (hn : 0 < n)
    (ht : Incr n t e) (x : ℝ) (hx : ∃ i < n, t i = x ∧ e i = 0) : Kalman.predict s x = .error .nonfinite := by
  have hRdy := fun t e => h.ready hp ha hl t e
  obtain ⟨H, hsig, hom, hma, hps⟩ := h
  obtain ⟨q, hf, hq, hlt, hge⟩ := H.scan hn x
  obtain ⟨i, hi, hti, hei⟩ := hx
  obtain rfl := errorFree_idx ht hlt hge hi hti hei
  have hinc : Incr (i+1) (ins i x t) (ins i 0 e) :=
    ins_incr (n := i) (fun j hj => ht j (by omega)) le_rfl hlt (by omega) (fun j hj h => absurd h (hlt j hj).ne)
  have hR := carma_realizes ha hσ (obsRow_ne_zero ha.inj hl hne) (ins i x t) (ins i 0 e) (i+1) hinc
  obtain ⟨τ, hτ⟩ := hR.sym
  have hmono : ∀ j, j + 1 < i + 2 → ins i x t j ≤ ins i x t (j+1) := by
    intro j hj
    rcases Nat.lt_or_ge (j+1) (i+1) with h | h
    · exact (hinc j h).1
    · obtain rfl : j = i := by omega
      rw [ins_self, ins_gt _ _ le_rfl, hti]
  have hv1 := SS.v_repeat _ hτ (q := i) (fun a ha' b hb => carmaSS_K ha σ2 β (ins i x t) (ins i 0 e) (i+2) hmono ha' hb)
    (by rw [ins_self, ins_gt _ _ le_rfl, hti]) (ins_self _ _ _) (by rw [ins_gt _ _ le_rfl, hei]) (fun l hl => (hR.pos l hl).ne')
  subst hom
  exact KFp.predict_stuck s H hRdy x hf hi hti.ge hlt (fun j hj => (hR.pos j hj).ne') hv1

lemma DK.predict_errorFree (junk : ℕ → ℝ) {σ2 : ℝ} {ω : Fin p → ℂ} {β : List ℝ} (hp : 2 ≤ p) (hσ : 0 < σ2) (ha : Admissible ω) (hl : β.length = p)
    (hne : ∃ x ∈ β, x ≠ 0) {s : DK p} {n : ℕ} {t y e : ℕ → ℝ} (h : DK.Inv σ2 ω β s n t y e) (hn : 0 < n)
    (ht : Incr n t e) (x : ℝ) (h0 : t 0 < x) (hx : ∃ i < n, t i = x ∧ e i = 0) : DK.predict junk s x = .error .nonfinite := by
  obtain ⟨q, hq, hlt, hge⟩ := exists_pos hn ht h0
  obtain ⟨i, hi, hti, hei⟩ := hx
  obtain rfl := errorFree_idx (q := q+1) ht (fun i hi => hlt i (by omega)) (fun h => hge _ (by omega) h) hi hti hei
  have hinc : Incr (q+1+1) (ins (q+1) x t) (ins (q+1) 0 e) :=
    ins_incr (n := q+1) (fun j hj => ht j (by omega)) le_rfl (fun i hi => hlt i (by omega)) (by omega)
      (fun j hj h => absurd h (hlt j (by omega)).ne)
  have hR := carma_realizes ha hσ (obsRow_ne_zero ha.inj hl hne) (ins (q+1) x t) (ins (q+1) 0 e) (q+1+1) hinc
  obtain ⟨τ, hτ⟩ := hR.sym
  have hmono : ∀ j, j + 1 < q+1 + 2 → ins (q+1) x t j ≤ ins (q+1) x t (j+1) := by
    intro j hj
    rcases Nat.lt_or_ge (j+1) (q+1+1) with h | h
    · exact (hinc j h).1
    · obtain rfl : j = q+1 := by omega
      rw [ins_self, ins_gt _ _ le_rfl, hti]
  have hv1 := SS.v_repeat _ hτ (q := q+1) (fun a ha' b hb => carmaSS_K ha σ2 β (ins (q+1) x t) (ins (q+1) 0 e) (q+1+2) hmono ha' hb)
    (by rw [ins_self, ins_gt _ _ le_rfl, hti]) (ins_self _ _ _) (by rw [ins_gt _ _ le_rfl, hei]) (fun l hl => (hR.pos l hl).ne')
  have hRdy := fun t e => h.ready hp ha hl t e
  have hom := h.om
  subst hom
  exact DK.predict_stuck junk s h hRdy x hi hge hlt (fun j hj => (hR.pos j hj).ne') hv1

/-- A request at the time of an error-free observation, or repeated, makes the simulation loop fault. -/
lemma Exact.simLoop_stuck {σ : Type} [Kalman σ] {r : ℝ → ℝ} {I : σ → ℕ → (ℕ → ℝ) → (ℕ → ℝ) → (ℕ → ℝ) → Prop} (E : Exact r I)
    (hS : ∀ {s n t y e} (x : ℝ), I s n t y e → 0 < n → Incr n t e → (∃ i < n, t i = x ∧ e i = 0) → Kalman.predict s x = .error .nonfinite)
    (ts : List ℝ) : ∀ {s : σ} {n : ℕ} {t y e : ℕ → ℝ} (_ : I s n t y e) (_ : 0 < n) (_ : Incr n t e) (zs : ℕ → ℝ)
      (_ : ¬ (ts.Nodup ∧ ∀ x ∈ ts, ∀ i < n, t i = x → e i ≠ 0)), Kalman.simLoop s ts zs = .error .nonfinite := by
  induction ts with
  | nil => intro s n t y e _ _ _ _ h; exact absurd ⟨List.nodup_nil, by simp⟩ h
  | cons x ts ih =>
    intro s n t y e hI hn ht zs h
    by_cases hx : ∀ i < n, t i = x → e i ≠ 0
    · obtain ⟨s1, q, hq, hlt, hge, h1, hI1, -⟩ := E.simStep hI hn ht x (zs 0) hx
      have ht1 : Incr (n+1) (ins q x t) (ins q 0 e) := ins_incr ht hq hlt hge hx
      have h2 := ih hI1 (by omega) ht1 (fun k => zs (k+1)) (by
        rintro ⟨hnd, hall⟩
        apply h
        refine ⟨List.nodup_cons.mpr ⟨fun hmem => ?_, hnd⟩, ?_⟩
        · exact hall x hmem q (by omega) (ins_self _ _ _) (ins_self _ _ _)
        · intro x' hx' i hi heq
          rcases List.mem_cons.mp hx' with rfl | hx'
          · exact hx i hi heq
          · rcases Nat.lt_or_ge i q with hiq | hiq
            · have := hall x' hx' i (by omega)
              rw [ins_lt _ _ hiq, ins_lt _ _ hiq] at this
              exact this heq
            · have := hall x' hx' (i+1) (by omega)
              rw [ins_gt _ _ hiq, ins_gt _ _ hiq] at this
              exact this heq)
      simp only [Kalman.simLoop, h1, res_bind_ok, h2]
      rfl
    · push Not at hx
      obtain ⟨i, hi, hti, hei⟩ := hx
      simp only [Kalman.simLoop, Kalman.simStep, hS x hI hn ht ⟨i, hi, hti, hei⟩]
      rfl

/-- conditional law at the time of an error-free observation -/
lemma pred_errorFree {n : ℕ} {r : ℝ → ℝ} {t e : Fin n → ℝ} (hK : IsUnit (obsCov r t e).det) (y : Fin n → ℝ) {i : Fin n} (he : e i = 0) :
    predMean r t e y (t i) = y i ∧ predVar r t e (t i) = 0 := by
  have hrow : (fun j => r |t i - t j|) = obsCov r t e i := by
    funext j
    simp only [obsCov, Matrix.of_apply]
    split
    · rw [he]; simp
    · simp
  have key : ∀ z : Fin n → ℝ, (obsCov r t e i) ⬝ᵥ ((obsCov r t e)⁻¹ *ᵥ z) = z i := by
    intro z
    have : ((obsCov r t e) *ᵥ ((obsCov r t e)⁻¹ *ᵥ z)) i = z i := by
      rw [Matrix.mulVec_mulVec, Matrix.mul_nonsing_inv _ hK, Matrix.one_mulVec]
    exact this
  refine ⟨?_, ?_⟩
  · simp only [predMean, condMean, hrow]; exact key y
  · simp only [predVar, condVar, hrow]
    rw [key]
    simp only [obsCov, Matrix.of_apply]
    rw [he]; simp

end Verif.Theory
