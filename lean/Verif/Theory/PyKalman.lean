import Verif.Model.PyKalman
import Verif.Theory.CarmaSS
import Verif.Theory.Sim

/-! Helper lemmas: the numpy filter computes the state-space recursion. -/

namespace Verif.Theory

open Verif.Model Verif.Model.Py Verif.Spec Finset Matrix

variable {p : ℕ}

/-- the data and parameters held by a numpy filter object -/
structure DK.Inv (σ2 : ℝ) (ω : Fin p → ℂ) (β : List ℝ) (s : DK p) (n : ℕ) (t y e : ℕ → ℝ) : Prop where
  time : s.time = (List.range n).map t
  y : s.y = (List.range n).map y
  yvar : s.yvar = (List.range n).map fun i => e i ^ 2
  sig : s.sigsqr = σ2
  om : s.roots = ω
  ma : s.ma = β

namespace DK.Inv
variable {σ2 : ℝ} {ω : Fin p → ℂ} {β : List ℝ} {s : DK p} {n : ℕ} {t y e : ℕ → ℝ}

lemma time_get (h : DK.Inv σ2 ω β s n t y e) {i : ℕ} (hi : i < n) : s.time[i]? = some (t i) := by
  rw [h.time]; exact rangeMap_get _ hi
lemma y_get (h : DK.Inv σ2 ω β s n t y e) {i : ℕ} (hi : i < n) : s.y[i]? = some (y i) := by
  rw [h.y]; exact rangeMap_get _ hi
lemma yvar_get (h : DK.Inv σ2 ω β s n t y e) {i : ℕ} (hi : i < n) : s.yvar[i]? = some (e i ^ 2) := by
  rw [h.yvar]; exact rangeMap_get (fun i => e i ^ 2) hi
lemma time_length (h : DK.Inv σ2 ω β s n t y e) : s.time.length = n := by rw [h.time]; simp

end DK.Inv

/-- the object after `reset` and some updates -/
def DK.st (s : DK p) (bb : Fin p → ℂ) (V : Matrix (Fin p) (Fin p) ℂ) (M W : List ℝ) (k : ℕ) (x : Fin p → ℂ)
    (P : Matrix (Fin p) (Fin p) ℂ) (inn : ℝ) : DK p :=
  { s with state := x, stateVar := V, predVar := P, rotma := bb, kmean := M, kvar := W, innov := inn, cur := k }

/-- parameters for which `reset` succeeds -/
structure DK.Ready (s : DK p) (S : SS ℂ (Fin p)) : Prop where
  two : 2 ≤ p
  J : ∃ J, KFp.jvec s.roots = .ok J ∧ DK.stationary s.sigsqr s.roots J = .ok S.V
  b : KFp.rotate s.roots s.ma = .ok S.b

lemma emptyLike_length (junk : ℕ → ℝ) (l : List ℝ) : (DK.emptyLike junk l).length = l.length := by simp [DK.emptyLike]

lemma DK.reset_eq (junk : ℕ → ℝ) (s : DK p) {σ2 : ℝ} {ω : Fin p → ℂ} {β : List ℝ} {n : ℕ} {t y e : ℕ → ℝ} (H : DK.Inv σ2 ω β s n t y e)
    (hn : 0 < n) {S : SS ℂ (Fin p)} (hR : DK.Ready s S) (he : S.e2 0 = e 0 ^ 2) :
    DK.reset junk s = .ok (DK.st s S.b S.V ((DK.emptyLike junk s.time).set 0 0) ((DK.emptyLike junk s.time).set 0 (S.v 0)) 1 0 S.V (y 0)) := by
  obtain ⟨J, hJ, hV⟩ := hR.J
  have hv0 : KFp.quad S.b S.V + e 0 ^ 2 = S.v 0 := by rw [← he, quad_eq]; rfl
  have hl : 0 < (DK.emptyLike junk s.time).length := by rw [emptyLike_length, H.time_length]; exact hn
  simp only [DK.reset, if_neg (not_lt.mpr hR.two), hJ, hV, hR.b, res_bind_ok, wr_ok hl, rd_ok (H.yvar_get hn), rd_ok (H.y_get hn),
    hv0, res_pure, DK.st]

lemma DK.run_eq (junk : ℕ → ℝ) (s : DK p) {σ2 : ℝ} {ω : Fin p → ℂ} {β : List ℝ} {n : ℕ} {t y e : ℕ → ℝ} (H : DK.Inv σ2 ω β s n t y e)
    {S : SS ℂ (Fin p)} {yy : ℕ → ℝ} (hR : DK.Ready s S) (k : ℕ) (hk : k < n)
    (hrho : ∀ j < k, S.rho j = KFp.rhoOf s.roots (t (j+1) - t j))
    (he : ∀ j ≤ k, S.e2 j = e j ^ 2) (hy : ∀ j ≤ k, yy j = y j) (hv : ∀ j < k, S.v j ≠ 0) :
    ∃ M W, (DK.reset junk s >>= iter DK.update k) =
        .ok (DK.st s S.b S.V M W (k+1) (S.x yy k) (S.P k) (y k - S.m yy k)) ∧ M.length = n ∧ W.length = n ∧
      ∀ i ≤ k, M[i]? = some (S.m yy i) ∧ W[i]? = some (S.v i) := by
  have hlen : (DK.emptyLike junk s.time).length = n := by rw [emptyLike_length, H.time_length]
  induction k with
  | zero =>
    have hm0 : S.m yy 0 = 0 := by simp [SS.m, SS.x]
    refine ⟨(DK.emptyLike junk s.time).set 0 0, (DK.emptyLike junk s.time).set 0 (S.v 0), ?_, ?_, ?_, ?_⟩
    · rw [DK.reset_eq junk s H hk hR (he 0 le_rfl), hm0, sub_zero]; rfl
    · simp [hlen]
    · simp [hlen]
    · intro i hi
      obtain rfl : i = 0 := by omega
      have h1 : 0 < (DK.emptyLike junk s.time).length := hlen ▸ hk
      rw [List.getElem?_set_self h1, List.getElem?_set_self h1, hm0]
      exact ⟨rfl, rfl⟩
  | succ k ih =>
    obtain ⟨M, W, hrun, hM, hW, hMW⟩ := ih (by omega) (fun j hj => hrho j (by omega))
      (fun j hj => he j (by omega)) (fun j hj => hy j (by omega)) (fun j hj => hv j (by omega))
    obtain ⟨hm, hvk⟩ := hMW k le_rfl
    have hvne := hv k (by omega)
    have hr := hrho k (by omega)
    refine ⟨M.set (k+1) (S.m yy (k+1)), W.set (k+1) (S.v (k+1)), ?_, by simp [hM], by simp [hW], ?_⟩
    · have : (DK.reset junk s >>= iter DK.update (k+1)) = ((DK.reset junk s >>= iter DK.update k) >>= DK.update) := by
        rw [bind_assoc]; rfl
      rw [this, hrun, res_bind_ok]
      have hx : (fun i => (S.x yy k i + ((y k - S.m yy k : ℝ) : ℂ) * S.gainOf (S.P k) (S.v k) i) * S.rho k i) = S.x yy (k+1) := by
        rw [← hy k (by omega)]; funext i
        rw [mul_comm, mul_comm (((yy k - S.m yy k : ℝ)) : ℂ)]; rfl
      have hP : KFp.timeVar (S.rho k) (KFp.measVar (S.P k) (S.v k) (S.gainOf (S.P k) (S.v k))) S.V = S.P (k+1) :=
        stepP_eq S _ _ _
      have hvar : KFp.quad S.b (S.P (k+1)) + e (k+1) ^ 2 = S.v (k+1) := by
        rw [← he (k+1) le_rfl, quad_eq]; rfl
      have hmm : (S.b ⬝ᵥ S.x yy (k+1)).re = S.m yy (k+1) := rfl
      simp only [DK.update, DK.st, prevIdx, Nat.add_sub_cancel, if_neg (Nat.succ_ne_zero k), res_bind_ok,
        rd_ok hvk, gain_eq S _ hvne, rd_ok (H.time_get hk), rd_ok (H.time_get (by omega : k < n)), ← hr, hP, hx, hmm,
        wr_ok (hM ▸ hk : k + 1 < M.length),
        wr_ok (hW ▸ hk : k + 1 < W.length), rd_ok (H.yvar_get hk), rd_ok (H.y_get hk), hvar,
        rd_ok (List.getElem?_set_self (hM ▸ hk : k + 1 < M.length)), res_pure]
    · intro i hi
      rcases Nat.lt_or_ge i (k+1) with h | h
      · obtain ⟨h1, h2⟩ := hMW i (by omega)
        rw [List.getElem?_set_ne (by omega), List.getElem?_set_ne (by omega)]
        exact ⟨h1, h2⟩
      · obtain rfl : i = k + 1 := by omega
        rw [List.getElem?_set_self (hM ▸ hk), List.getElem?_set_self (hW ▸ hk)]
        exact ⟨rfl, rfl⟩

/-- The coefficient loop computes, at original index `i`, the quantities of the augmented system at `i+1`. -/
lemma DK.coefLoop_eq (s : DK p) {σ2 : ℝ} {ω : Fin p → ℂ} {β : List ℝ} {n : ℕ} {t y e : ℕ → ℝ} (H : DK.Inv σ2 ω β s n t y e)
    {S : SS ℂ (Fin p)} {yy : ℕ → ℝ} {q : ℕ} {x0 : Fin p → ℂ} {inn : ℝ} {cu : ℕ} {M : List ℝ}
    (hrho : ∀ j, q ≤ j → j + 1 < n → S.rho (j+1) = KFp.rhoOf s.roots (t (j+1) - t j))
    (he : ∀ j, q ≤ j → j < n → S.e2 (j+1) = e j ^ 2) (hy : ∀ j, q ≤ j → j < n → yy (j+1) = y j)
    (hv : ∀ j, j < n + 1 → S.v j ≠ 0) (k : ℕ) :
    ∀ (i : ℕ) (W : List ℝ) (A B : ℝ), q ≤ i → i + 1 + k = n → W.length = n →
      W[i]? = some (S.v (i+1)) →
      ∃ c, DK.coefLoop k (i+1) (⟨DK.st s S.b S.V M W cu x0 (S.P (i+1)) inn, S.x yy (i+1), S.A (i+1) q, S.m yy (i+1), S.a (i+1) q, A, B⟩ : DK.Coefs p) = .ok c ∧
        c.prec = A + ∑ j ∈ Ico (i+2) (n+1), S.a j q * S.a j q / S.v j ∧
        c.mean = B + ∑ j ∈ Ico (i+2) (n+1), S.a j q * (yy j - S.m yy j) / S.v j ∧
        ∃ W' P', c.s = DK.st s S.b S.V M W' cu x0 P' inn := by
  induction k with
  | zero =>
    intro i W A B hpi hik hW hWi
    have : i + 1 = n := by omega
    subst this
    exact ⟨_, rfl, by simp, by simp, W, _, rfl⟩
  | succ k ih =>
    intro i W A B hpi hik hW hWi
    have hi1 : i + 1 < n := by omega
    have hvne := hv (i+1) (by omega)
    have hr := hrho i hpi hi1
    have hx : (fun u => (S.x yy (i+1) u + S.gainOf (S.P (i+1)) (S.v (i+1)) u *
        ((y i - S.m yy (i+1) : ℝ) : ℂ)) * S.rho (i+1) u) = S.x yy (i+2) := by
      rw [← hy i hpi (by omega)]; funext u; rw [mul_comm]; rfl
    have hA : (fun u => (S.A (i+1) q u - S.gainOf (S.P (i+1)) (S.v (i+1)) u *
        ((S.a (i+1) q : ℝ) : ℂ)) * S.rho (i+1) u) = S.A (i+2) q := by
      funext u; rw [S.A_succ_lt (i := i+1) (by omega), mul_comm]; rfl
    have hP : KFp.timeVar (S.rho (i+1)) (KFp.measVar (S.P (i+1)) (S.v (i+1)) (S.gainOf (S.P (i+1)) (S.v (i+1)))) S.V
        = S.P (i+2) := stepP_eq S _ _ _
    have hvar : KFp.quad S.b (S.P (i+2)) + e (i+1) ^ 2 = S.v (i+2) := by
      rw [← he (i+1) (by omega) hi1, quad_eq]; rfl
    have hmm : (S.b ⬝ᵥ S.x yy (i+2)).re = S.m yy (i+2) := rfl
    have haa : (S.b ⬝ᵥ S.A (i+2) q).re = S.a (i+2) q := rfl
    have hv2 := hv (i+2) (by omega)
    have hst : DK.coefStep (⟨DK.st s S.b S.V M W cu x0 (S.P (i+1)) inn, S.x yy (i+1), S.A (i+1) q, S.m yy (i+1), S.a (i+1) q, A, B⟩ : DK.Coefs p) (i+1) =
        .ok (⟨DK.st s S.b S.V M (W.set (i+1) (S.v (i+2))) cu x0 (S.P (i+2)) inn, S.x yy (i+2), S.A (i+2) q, S.m yy (i+2), S.a (i+2) q, A + S.a (i+2) q * S.a (i+2) q / S.v (i+2), B + S.a (i+2) q * (yy (i+2) - S.m yy (i+2)) / S.v (i+2)⟩ : DK.Coefs p) := by
      simp only [DK.coefStep, DK.st, prevIdx, Nat.add_sub_cancel, if_neg (Nat.succ_ne_zero i), res_bind_ok,
        rd_ok hWi, gain_eq S _ hvne, rd_ok (H.y_get (by omega : i < n)), rd_ok (H.time_get hi1), rd_ok (H.time_get (by omega : i < n)),
        ← hr, hx, hA, hP, rd_ok (H.yvar_get hi1), wr_ok (hW ▸ hi1 : i + 1 < W.length), hvar, hmm, haa, DK.accum,
        rd_ok (List.getElem?_set_self (hW ▸ hi1 : i + 1 < W.length)), rd_ok (H.y_get hi1), dv_ok hv2, res_pure,
        hy (i+1) (by omega) hi1, pow_two (S.a (i+2) q)]
    obtain ⟨c, h1, h2, h3, h4⟩ := ih (i+1) (W.set (i+1) (S.v (i+2))) (A + S.a (i+2) q * S.a (i+2) q / S.v (i+2))
      (B + S.a (i+2) q * (yy (i+2) - S.m yy (i+2)) / S.v (i+2)) (by omega) (by omega) (by simp [hW])
      (List.getElem?_set_self (hW ▸ hi1))
    refine ⟨c, ?_, ?_, ?_, h4⟩
    · simp only [DK.coefLoop, hst, res_bind_ok, h1]
    · rw [h2, Finset.sum_eq_sum_Ico_succ_bot (by omega : i + 2 < n + 1)]; ring
    · rw [h3, Finset.sum_eq_sum_Ico_succ_bot (by omega : i + 2 < n + 1)]; ring

lemma lastBelow_eq {n q : ℕ} {t : ℕ → ℝ} {x : ℝ} (hq : q < n) (hlt : ∀ i ≤ q, t i < x) (hge : ∀ i, q < i → i < n → x ≤ t i) :
    DK.lastBelow ((List.range n).map t) x = .ok q := by
  have hf : ((List.range n).filter fun i => decide (((List.range n).map t).getD i 0 < x)) = List.range (q + 1) := by
    have e1 : ((List.range n).filter fun i => decide (((List.range n).map t).getD i 0 < x)) =
        (List.range n).filter fun i => decide (i < q + 1) := by
      apply List.filter_congr
      intro i hi
      have hi' : i < n := List.mem_range.mp hi
      have e : ((List.range n).map t).getD i 0 = t i := by simp [List.getD_eq_getElem?_getD, hi']
      rw [e, decide_eq_decide]
      constructor
      · intro h
        by_contra h'
        exact absurd h (not_lt.mpr (hge i (by omega) hi'))
      · intro h; exact hlt i (by omega)
    rw [e1]
    obtain ⟨m, rfl⟩ : ∃ m, n = q + 1 + m := ⟨n - (q+1), by omega⟩
    rw [List.range_add, List.filter_append, List.filter_eq_self.mpr (by intro a ha; simpa using ha),
      List.filter_eq_nil_iff.mpr (by intro a ha; simp only [List.mem_map] at ha; obtain ⟨b, -, rfl⟩ := ha; simp; omega), List.append_nil]
  simp only [DK.lastBelow, List.length_map, List.length_range, hf]
  simp [List.range_succ]

/-- `predict` in terms of the system augmented with the unknown value. -/
lemma DK.predict_eq (junk : ℕ → ℝ) (s : DK p) {σ2 : ℝ} {β : List ℝ} {n : ℕ} {t y e : ℕ → ℝ} {ω : Fin p → ℂ} (H : DK.Inv σ2 ω β s n t y e)
    {V : Matrix (Fin p) (Fin p) ℂ} {bb : Fin p → ℂ}
    (hR : ∀ t e, DK.Ready s (expSS V bb s.roots t e)) (x : ℝ)
    {q : ℕ} (hqn : q < n) (hge : ∀ i, q < i → i < n → x ≤ t i)
    (hlt : ∀ i ≤ q, t i < x)
    (hv : ∀ j < n + 1, (expSS V bb s.roots (ins (q+1) x t) (ins (q+1) 0 e)).v j ≠ 0)
    (hprec : let S := expSS V bb s.roots (ins (q+1) x t) (ins (q+1) 0 e)
      1 / S.v (q+1) + ∑ i ∈ Ico (q + 1 + 1) (n + 1), S.a i (q+1) * S.a i (q+1) / S.v i ≠ 0) :
    let S := expSS V bb s.roots (ins (q+1) x t) (ins (q+1) 0 e)
    let yy := ins (q+1) 0 y
    let prec := 1 / S.v (q+1) + ∑ i ∈ Ico (q + 1 + 1) (n + 1), S.a i (q+1) * S.a i (q+1) / S.v i
    let num := S.m yy (q+1) / S.v (q+1) + ∑ i ∈ Ico (q + 1 + 1) (n + 1), S.a i (q+1) * (yy i - S.m yy i) / S.v i
    ∃ s', DK.predict junk s x = .ok (s', num / prec, 1 / prec) ∧ ∃ M W k X P inn, s' = DK.st s bb V M W k X P inn := by
  intro S yy prec num
  replace hv : ∀ j < n + 1, S.v j ≠ 0 := hv
  replace hprec : prec ≠ 0 := hprec
  have hRS : DK.Ready s S := hR _ _
  obtain ⟨M, W, h1, h2, h3, h4⟩ := DK.run_eq junk s H hRS (yy := yy) q (by omega)
    (by intro j hj
        simp only [S, expSS]
        rw [ins_lt _ _ (by omega), ins_lt _ _ (by omega)])
    (by intro j hj
        simp only [S, expSS]
        rw [ins_lt _ _ (by omega)])
    (by intro j hj
        exact ins_lt _ _ (by omega))
    (by intro j hj; exact hv j (by omega))
  obtain ⟨hm, hw⟩ := h4 q le_rfl
  have hr : S.rho q = KFp.rhoOf s.roots (x - t q) := by
    simp only [S, expSS]
    rw [ins_lt _ _ (by omega : q < q + 1), ins_self]
  have hyq : yy q = y q := ins_lt _ _ (by omega)
  have hx : (fun i => (S.x yy q i + ((y q - S.m yy q : ℝ) : ℂ) * S.gainOf (S.P q) (S.v q) i) * S.rho q i) = S.x yy (q+1) := by
    rw [← hyq]; funext i
    rw [mul_comm, mul_comm (((yy q - S.m yy q : ℝ)) : ℂ)]; rfl
  have hP : KFp.timeVar (S.rho q) (KFp.measVar (S.P q) (S.v q) (S.gainOf (S.P q) (S.v q))) S.V = S.P (q+1) := stepP_eq S _ _ _
  have hep : S.e2 (q+1) = 0 := by simp [S, expSS]
  have hvP : KFp.quad S.b (S.P (q+1)) = S.v (q+1) := by
    have := quad_eq S (S.P (q+1)) (S.e2 (q+1))
    rw [hep, add_zero] at this
    rw [this, ← hep]; rfl
  have hmm : (S.b ⬝ᵥ S.x yy (q+1)).re = S.m yy (q+1) := rfl
  have hvp := hv (q+1) (by omega)
  have hlast : DK.lastBelow s.time x = .ok q := by rw [H.time]; exact lastBelow_eq hqn hlt hge
  have hl0 := (DK.reset_eq junk s H (by omega) hRS (by simp only [S, expSS]; rw [ins_lt _ _ (by omega)]))
  have hrun : iter DK.update q (DK.st s S.b S.V ((DK.emptyLike junk s.time).set 0 0) ((DK.emptyLike junk s.time).set 0 (S.v 0)) 1 0 S.V (y 0)) =
      .ok (DK.st s S.b S.V M W (q+1) (S.x yy q) (S.P q) (y q - S.m yy q)) := by
    rw [hl0] at h1; exact h1
  have hlast' : DK.lastBelow (DK.st s S.b S.V ((DK.emptyLike junk s.time).set 0 0) ((DK.emptyLike junk s.time).set 0 (S.v 0)) 1 0 S.V (y 0)).time x
      = .ok q := hlast
  simp only [DK.predict, hl0, res_bind_ok, hlast', Nat.add_sub_cancel, hrun]
  simp only [DK.st, rd_ok hw, gain_eq S _ (hv q (by omega)), res_bind_ok, rd_ok (H.time_get hqn), ← hr, hx, hP, hvP, hmm, if_neg hvp,
    H.time_length]
  by_cases hpe : n ≤ q + 1
  · rw [if_pos hpe]
    obtain rfl : n = q + 1 := by omega
    have h0 : prec = 1 / S.v (q+1) := by simp only [prec]; simp
    have h1 : num = S.m yy (q+1) / S.v (q+1) := by simp only [num]; simp
    rw [h0, h1, res_pure]
    have e1 : S.m yy (q+1) / S.v (q+1) / (1 / S.v (q+1)) = S.m yy (q+1) := by field_simp
    have e2 : 1 / (1 / S.v (q+1)) = S.v (q+1) := by field_simp
    rw [e1, e2]
    exact ⟨_, rfl, M, W, _, _, _, _, rfl⟩
  · rw [if_neg hpe]
    have hqn' : q + 1 < n := by omega
    have hr1 : S.rho (q+1) = KFp.rhoOf s.roots (t (q+1) - x) := by
      simp only [S, expSS]
      rw [ins_gt _ _ le_rfl, ins_self]
    have hyp : yy (q+1) = 0 := ins_self _ _ _
    have hP1 : KFp.timeVar (S.rho (q+1)) (KFp.measVar (S.P (q+1)) (S.v (q+1)) (S.gainOf (S.P (q+1)) (S.v (q+1)))) S.V = S.P (q+2) :=
      stepP_eq S _ _ _
    have hx1 : (fun i => (S.x yy (q+1) i - S.gainOf (S.P (q+1)) (S.v (q+1)) i * ((S.m yy (q+1) : ℝ) : ℂ)) * S.rho (q+1) i)
        = S.x yy (q+2) := by
      funext i
      have : S.x yy (q+2) i = S.rho (q+1) i * (S.x yy (q+1) i + S.gainOf (S.P (q+1)) (S.v (q+1)) i *
        ((yy (q+1) - S.m yy (q+1) : ℝ) : ℂ)) := rfl
      rw [this, hyp]; push_cast; ring
    have hA : (fun i => S.gainOf (S.P (q+1)) (S.v (q+1)) i * S.rho (q+1) i) = S.A (q+2) (q+1) := by
      funext i; rw [S.A_succ_self, mul_comm]; rfl
    have hvar : KFp.quad S.b (S.P (q+2)) + e (q+1) ^ 2 = S.v (q+2) := by
      have : e (q+1) ^ 2 = S.e2 (q+2) := by
        simp only [S, expSS]; rw [ins_gt _ _ le_rfl]
      rw [this, quad_eq]; rfl
    have hmm1 : (S.b ⬝ᵥ S.x yy (q+2)).re = S.m yy (q+2) := rfl
    have haa1 : (S.b ⬝ᵥ S.A (q+2) (q+1)).re = S.a (q+2) (q+1) := rfl
    have hvp1 := hv (q+2) (by omega)
    have hyp1 : yy (q+2) = y (q+1) := ins_gt _ _ le_rfl
    obtain ⟨c, k1, k2, k3, W', P', k4⟩ := DK.coefLoop_eq s H (S := S) (yy := yy) (q := q+1) (x0 := S.x yy (q+1)) (inn := y q - S.m yy q)
      (cu := q + 1) (M := M)
      (by intro j hj hjn
          simp only [S, expSS]
          rw [ins_gt _ _ (by omega), ins_gt _ _ (by omega)])
      (by intro j hj hjn
          simp only [S, expSS]
          rw [ins_gt _ _ (by omega)])
      (by intro j hj hjn; exact ins_gt _ _ hj) hv (n - (q+1+1)) (q+1) (W.set (q+1) (S.v (q+2)))
      (1 / S.v (q+1) + S.a (q+2) (q+1) * S.a (q+2) (q+1) / S.v (q+2))
      (1 / S.v (q+1) * S.m yy (q+1) + S.a (q+2) (q+1) * (yy (q+2) - S.m yy (q+2)) / S.v (q+2)) le_rfl (by omega)
      (by simp [h3]) (List.getElem?_set_self (h3 ▸ hqn'))
    have hp1 : c.prec = prec := by
      rw [k2]
      simp only [prec]
      rw [Finset.sum_eq_sum_Ico_succ_bot (by omega : q + 1 + 1 < n + 1)]; ring
    have hn1 : c.mean = num := by
      rw [k3]
      simp only [num]
      rw [Finset.sum_eq_sum_Ico_succ_bot (by omega : q + 1 + 1 < n + 1)]; ring
    have hxi : ∀ i, (S.x yy q i + ((y q - S.m yy q : ℝ) : ℂ) * S.gainOf (S.P q) (S.v q) i) * S.rho q i = S.x yy (q+1) i := fun i =>
      congrFun hx i
    simp only [gain_eq S _ hvp, res_bind_ok, rd_ok (H.time_get hqn'), ← hr1, hxi, hx1, hA, hP1, rd_ok (H.yvar_get hqn'), hvar, hmm1, haa1,
      wr_ok (h3 ▸ hqn' : q + 1 < W.length), DK.accum, rd_ok (List.getElem?_set_self (h3 ▸ hqn' : q + 1 < W.length)),
      rd_ok (H.y_get hqn'), dv_ok hvp1, res_pure, ← hyp1, pow_two (S.a (q+2) (q+1))]
    simp only [DK.st] at k1
    rw [k1]
    simp only [res_bind_ok, hp1, dv_ok hprec, hn1]
    refine ⟨c.s, ?_, M, W', q + 1, _, P', _, k4⟩
    congr 3
    ring

end Verif.Theory

namespace Verif.Theory

open Verif.Model Verif.Model.Py Verif.Spec Finset Matrix

variable {p : ℕ}

/-- the full matrix of the numpy version is the mirrored upper triangle of the C++ version -/
lemma stationary_eq (σ2 : ℝ) (ω J : Fin p → ℂ) : DK.stationary σ2 ω J = KFp.stateVar σ2 ω J := by
  have hs : ∀ i j, star (ω i + star (ω j)) = ω j + star (ω i) := by
    intro i j; rw [star_add, star_star, add_comm]
  have hiff : (∃ i j : Fin p, ω i + star (ω j) = 0) ↔ ∃ i j : Fin p, i ≤ j ∧ ω i + star (ω j) = 0 := by
    constructor
    · rintro ⟨i, j, h⟩
      rcases le_total i j with hij | hij
      · exact ⟨i, j, hij, h⟩
      · exact ⟨j, i, hij, by rw [← hs i j, h, star_zero]⟩
    · rintro ⟨i, j, -, h⟩; exact ⟨i, j, h⟩
  simp only [DK.stationary, KFp.stateVar, hiff]
  split
  · rfl
  · congr 1
    ext i j
    simp only [Matrix.of_apply]
    split
    · rfl
    · rw [star_div₀, star_mul', star_mul', star_star, star_neg, ← hs i j, star_star]
      congr 1
      have : star (σ2 : ℂ) = (σ2 : ℂ) := Complex.conj_ofReal _
      rw [this]; ring

lemma DK.Inv.ready {σ2 : ℝ} {ω : Fin p → ℂ} {β : List ℝ} {s : DK p} {n : ℕ} {t y e : ℕ → ℝ}
    (h : DK.Inv σ2 ω β s n t y e) (hp : 2 ≤ p) (ha : Admissible ω) (hl : β.length = p) (t' e' : ℕ → ℝ) :
    DK.Ready s (carmaSS σ2 ω β t' e') where
  two := hp
  J := ⟨fun k => 1 / arDeriv ω k, by rw [h.om]; exact jvec_eq ha.inj, by
    rw [stationary_eq, h.sig, h.om]; exact stateVar_eq ha.stable σ2⟩
  b := by rw [h.om, h.ma]; exact rotate_eq hl

section exact
variable {σ2 : ℝ} {ω : Fin p → ℂ} {β : List ℝ} {s : DK p} {n : ℕ} {t y e : ℕ → ℝ} (junk : ℕ → ℝ)

lemma DK.filter_exact (hp : 2 ≤ p) (hσ : 0 < σ2) (ha : Admissible ω) (hl : β.length = p) (hne : ∃ x ∈ β, x ≠ 0)
    (h : DK.Inv σ2 ω β s n t y e) (hn : 0 < n) (ht : Incr n t e) :
    ∃ s', DK.filter junk s = .ok (s', List.ofFn (stepMean (carmaAcf σ2 ω β) (fst n t) (fst n e) (fst n y)),
        List.ofFn (stepVar (carmaAcf σ2 ω β) (fst n t) (fst n e))) ∧ DK.Inv σ2 ω β s' n t y e := by
  have hR := carma_realizes ha hσ (obsRow_ne_zero ha.inj hl hne) t e n ht
  have hRdy := h.ready hp ha hl t e
  obtain ⟨M, W, h1, hM, hW, h2⟩ := DK.run_eq junk s h hRdy (yy := y) (n-1)
    (by omega) (fun _ _ => by rw [h.om]; rfl) (fun _ _ => rfl) (fun _ _ => rfl) (fun j hj => (hR.pos j (by omega)).ne')
  have e1 : M = List.ofFn (stepMean (carmaAcf σ2 ω β) (fst n t) (fst n e) (fst n y)) := list_eq_ofFn hM _ fun i => by
    rw [← (hR.filter y i).1]; exact (h2 i (by omega)).1
  have e2 : W = List.ofFn (stepVar (carmaAcf σ2 ω β) (fst n t) (fst n e)) := list_eq_ofFn hW _ fun i => by
    rw [← (hR.filter y i).2]; exact (h2 i (by omega)).2
  rw [DK.reset_eq junk s h hn hRdy rfl, res_bind_ok] at h1
  refine ⟨DK.st s (carmaSS σ2 ω β t e).b (carmaSS σ2 ω β t e).V M W (n - 1 + 1) ((carmaSS σ2 ω β t e).x y (n - 1))
        ((carmaSS σ2 ω β t e).P (n - 1)) (y (n - 1) - (carmaSS σ2 ω β t e).m y (n - 1)), ?_, ?_⟩
  · simp only [DK.filter]
    rw [DK.reset_eq junk s h hn hRdy rfl, res_bind_ok]
    have : (DK.st s (carmaSS σ2 ω β t e).b (carmaSS σ2 ω β t e).V ((DK.emptyLike junk s.time).set 0 0)
      ((DK.emptyLike junk s.time).set 0 ((carmaSS σ2 ω β t e).v 0)) 1 0 (carmaSS σ2 ω β t e).V (y 0)).time.length = n := h.time_length
    rw [this, h1, res_bind_ok, res_pure, ← e1, ← e2]
    rfl
  · exact ⟨h.time, h.y, h.yvar, h.sig, h.om, h.ma⟩

/-- position of a time later than the first observation -/
lemma exists_pos {n : ℕ} {t e : ℕ → ℝ} {x : ℝ} (hn : 0 < n) (ht : Incr n t e) (h0 : t 0 < x) :
    ∃ q < n, (∀ i ≤ q, t i < x) ∧ (∀ i, q < i → i < n → x ≤ t i) := by
  induction n with
  | zero => omega
  | succ n ih =>
    rcases Nat.eq_zero_or_pos n with rfl | hn'
    · refine ⟨0, by omega, ?_, ?_⟩
      · intro i hi; obtain rfl : i = 0 := by omega
        exact h0
      · intro i h1 h2; omega
    · obtain ⟨q, hq, h1, h2⟩ := ih hn' (fun i hi => ht i (by omega))
      by_cases hx : t n < x
      · refine ⟨n, by omega, ?_, fun i _ _ => by omega⟩
        have mono : ∀ k, k ≤ n → t (n - k) ≤ t n := by
          intro k hk
          induction k with
          | zero => simp
          | succ k ihk =>
            have := (ht (n - (k+1)) (by omega)).1
            have e : n - (k+1) + 1 = n - k := by omega
            rw [e] at this
            exact this.trans (ihk (by omega))
        intro i hi
        have := mono (n - i) (by omega)
        have e : n - (n - i) = i := by omega
        rw [e] at this
        linarith
      · refine ⟨q, by omega, h1, ?_⟩
        intro i hi1 hi2
        rcases Nat.lt_or_ge i n with h | h
        · exact h2 i hi1 h
        · obtain rfl : i = n := by omega
          exact not_lt.mp hx

lemma DK.predict_exact (hp : 2 ≤ p) (hσ : 0 < σ2) (ha : Admissible ω) (hl : β.length = p) (hne : ∃ x ∈ β, x ≠ 0)
    (h : DK.Inv σ2 ω β s n t y e) (hn : 0 < n) (ht : Incr n t e) (x : ℝ) (h0 : t 0 < x) (hx : ∀ i < n, t i = x → e i ≠ 0) :
    ∃ s', DK.predict junk s x = .ok (s', predMean (carmaAcf σ2 ω β) (fst n t) (fst n e) (fst n y) x,
        predVar (carmaAcf σ2 ω β) (fst n t) (fst n e) x) ∧ DK.Inv σ2 ω β s' n t y e ∧
      0 < predVar (carmaAcf σ2 ω β) (fst n t) (fst n e) x := by
  obtain ⟨q, hq, hlt, hge⟩ := exists_pos hn ht h0
  have hRdy := fun t e => h.ready hp ha hl t e
  have hR := carma_realizes ha hσ (obsRow_ne_zero ha.inj hl hne) (ins (q+1) x t) (ins (q+1) 0 e) (n+1)
    (ins_incr ht (by omega) (fun i hi => hlt i (by omega)) (fun h => hge (q+1) (by omega) h) hx)
  have hP := Realizes.predict ⟨q+1, by omega⟩ x hR y
  have hom := h.om
  subst hom
  obtain ⟨s', h1, M, W, k, X, P, inn, h2⟩ := DK.predict_eq junk s h hRdy x hq hge hlt (fun j hj => (hR.pos j hj).ne') hP.1.ne'
  refine ⟨s', ?_, ?_, ?_⟩
  · rw [h1]
    exact congrArg₂ (fun a b => Except.ok (s', (a, b))) hP.2.1 hP.2.2
  · subst h2; exact ⟨h.time, h.y, h.yvar, h.sig, rfl, h.ma⟩
  · rw [← hP.2.2]; exact one_div_pos.mpr hP.1

lemma DK.simLoop_exact (hp : 2 ≤ p) (hσ : 0 < σ2) (ha : Admissible ω) (hl : β.length = p) (hne : ∃ x ∈ β, x ≠ 0) (ts : List ℝ) :
    ∀ {s : DK p} {n : ℕ} {t y e : ℕ → ℝ} (_ : DK.Inv σ2 ω β s n t y e) (_ : 0 < n) (_ : Incr n t e) (zs : ℕ → ℝ) (_ : ts.Nodup)
      (_ : ∀ x ∈ ts, t 0 < x) (_ : ∀ x ∈ ts, ∀ i < n, t i = x → e i ≠ 0),
    ∃ s', DK.simLoop junk s ts zs = .ok (s', simSpec (carmaAcf σ2 ω β) (obsList n t y e) ts zs) ∧
      s'.sigsqr = σ2 ∧ s'.roots = ω ∧ s'.ma = β := by
  induction ts with
  | nil => intro s n t y e hI _ _ zs _ _ _; exact ⟨s, rfl, hI.sig, hI.om, hI.ma⟩
  | cons x ts ih =>
    intro s n t y e hI hn ht zs hnd h0 hx
    obtain ⟨s1, h1, hI1, hpos⟩ := DK.predict_exact junk hp hσ ha hl hne hI hn ht x (h0 x (by simp)) (hx x (by simp))
    obtain ⟨q, hq, hlt, hge⟩ := exists_pos hn ht (h0 x (by simp))
    obtain ⟨hm, hvv⟩ := predMeanL_obsList (carmaAcf σ2 ω β) n t y e x
    set v := predMeanL (carmaAcf σ2 ω β) (obsList n t y e) x + Real.sqrt (predVarL (carmaAcf σ2 ω β) (obsList n t y e) x) * zs 0 with hv
    have hvd : drawNormal (predMean (carmaAcf σ2 ω β) (fst n t) (fst n e) (fst n y) x) (predVar (carmaAcf σ2 ω β) (fst n t) (fst n e) x) (zs 0)
        = .ok v := by
      rw [drawNormal, if_neg (not_lt.mpr hpos.le), hv, hm, hvv]
    have hlast : DK.lastBelow s1.time x = .ok q := by rw [hI1.time]; exact lastBelow_eq hq hlt hge
    have ht1 : Incr (n+1) (ins (q+1) x t) (ins (q+1) 0 e) :=
      ins_incr ht (by omega) (fun i hi => hlt i (by omega)) (fun h => hge (q+1) (by omega) h) (hx x (by simp))
    have hI2 : DK.Inv σ2 ω β { s1 with time := s1.time.insertIdx (q+1) x, y := s1.y.insertIdx (q+1) v, yvar := s1.yvar.insertIdx (q+1) 0 } (n+1)
        (ins (q+1) x t) (ins (q+1) v y) (ins (q+1) 0 e) := by
      refine ⟨?_, ?_, ?_, hI1.sig, hI1.om, hI1.ma⟩
      · simp only [hI1.time]; exact rangeMap_insertIdx (by omega) x t
      · simp only [hI1.y]; exact rangeMap_insertIdx (by omega) v y
      · simp only [hI1.yvar]; rw [rangeMap_insertIdx (by omega) 0 fun i => e i ^ 2]
        congr 1
        funext i
        simp only [ins]; split
        · rfl
        · split <;> simp
    obtain ⟨s2, h2, hs2⟩ := ih hI2 (by omega) ht1 (fun k => zs (k+1)) hnd.of_cons (by
      intro x' hx'
      rw [ins_lt _ _ (by omega)]; exact h0 x' (by simp [hx'])) (by
      intro x' hx' i hi heq
      rcases lt_trichotomy i (q+1) with h | h | h
      · rw [ins_lt _ _ h] at heq ⊢
        exact hx x' (by simp [hx']) i (by omega) heq
      · subst h
        rw [ins_self] at heq
        subst heq
        simp at hnd; exact absurd hx' hnd.1
      · obtain ⟨j, rfl⟩ : ∃ j, i = j + 1 := ⟨i - 1, by omega⟩
        rw [ins_gt _ _ (by omega)] at heq ⊢
        exact hx x' (by simp [hx']) j (by omega) heq)
    refine ⟨s2, ?_, hs2⟩
    simp only [DK.simLoop, h1, res_bind_ok, hvd, hlast, h2, res_pure, simSpec]
    rw [← hv, simSpec_perm (obsList_ins (by omega) x v 0 t y e)]

end exact
end Verif.Theory
