import Verif.Theory.FCarmaInf
import Verif.Theory.FCarmaHist
import Mathlib.Analysis.Complex.ExponentialBounds

/-!
The parameter of ZCARMA far from zero: `exp` overflows in `inv_logit` or in `LogPrior`.
-/

namespace Verif.Theory

open Verif.Model Verif.Spec
open scoped Classical

theorem exp_seven : (2 : ℝ) ^ 10 ≤ Real.exp 7 := by
  have h := Real.exp_one_gt_d9
  have h1 : (2.7182818283 : ℝ) ^ 7 ≤ Real.exp 1 ^ 7 := pow_le_pow_left₀ (by norm_num) h.le 7
  rw [← Real.exp_nat_mul] at h1
  norm_num at h1 ⊢
  linarith

theorem exp_720 {x : ℝ} (h : 720 ≤ x) : (2 : ℝ) ^ 1024 ≤ Real.exp x := by
  have e : Real.exp 7 ^ 102 * Real.exp 6 = Real.exp 720 := by
    rw [← Real.exp_nat_mul, ← Real.exp_add]; norm_num
  have h6 : (2 : ℝ) ^ 4 ≤ Real.exp 6 := by
    have := Real.add_one_le_exp (1 : ℝ)
    have h1 : (2 : ℝ) ^ 6 ≤ Real.exp 1 ^ 6 := pow_le_pow_left₀ (by norm_num) (by linarith) 6
    rw [← Real.exp_nat_mul] at h1
    norm_num at h1 ⊢
    linarith
  calc (2 : ℝ) ^ 1024 = ((2 : ℝ) ^ 10) ^ 102 * 2 ^ 4 := by rw [← pow_mul, ← pow_add]
    _ ≤ Real.exp 7 ^ 102 * Real.exp 6 := mul_le_mul (pow_le_pow_left₀ (by positivity) exp_seven 102) h6 (by positivity) (by positivity)
    _ = Real.exp 720 := e
    _ ≤ Real.exp x := Real.exp_le_exp.mpr h

theorem nearest_overflows (tie : ℝ → Prop) : Overflows (nearest tie) := by
  intro x h
  show roundNearest tie (Real.exp x) = _
  unfold roundNearest
  refine if_pos (le_trans ?_ (exp_720 h))
  unfold maxF
  have e1 : (2 : ℝ) ^ (971 : ℤ) = 2 * 2 ^ (970 : ℤ) := by rw [show (971 : ℤ) = 1 + 970 by norm_num, zpow_add₀ two_ne_zero, zpow_one]
  have e2 : (2 : ℝ) ^ 1024 = 2 ^ 54 * 2 ^ (970 : ℤ) := by
    rw [← zpow_natCast, ← zpow_natCast, ← zpow_add₀ two_ne_zero]; norm_num
  rw [e1, e2, ← mul_assoc, ← add_one_mul]
  exact mul_le_mul_of_nonneg_right (by norm_num) (by positivity)

variable {C : CArith} {p : ℕ}

theorem fnan_add (A : Arith) (a : Dbl) : A.add .nan a = .nan := by cases a <;> rfl
theorem fadd_nan (A : Arith) (a : Dbl) : A.add a .nan = .nan := by cases a <;> rfl

theorem fadd_ninf (A : Arith) (a : Dbl) : A.add a .ninf = .ninf ∨ A.add a .ninf = .nan := by
  cases a
  · exact .inl rfl
  · exact .inr rfl
  · exact .inl rfl
  · exact .inr rfl

theorem lik_nan0 {A : Arith} (hn : A.log .nan = .nan) {y mean var : List Dbl} {mu ll : Dbl} (h0 : rd var 0 = .ok .nan) {n : ℕ} (hp : 0 < n)
    (h : FCar1.likLoop A y mean var mu n = .ok ll) : ll = .nan := by
  induction n generalizing ll with
  | zero => exact absurd hp (lt_irrefl 0)
  | succ k ih =>
    rw [FCar1.likLoop] at h
    obtain ⟨acc, h1, h⟩ := bind_ok h
    obtain ⟨yk, h2, h⟩ := bind_ok h
    obtain ⟨mk, h3, h⟩ := bind_ok h
    obtain ⟨vk, h4, h⟩ := bind_ok h
    injection h with h
    subst h
    rcases Nat.eq_zero_or_pos k with rfl | hk
    · rw [h0] at h4
      injection h4 with h4
      subst h4
      rw [hn, mul_nan, nan_sub, fadd_nan]
    · rw [ih hk h1, fnan_add]

/-- the coefficients when `exp` overflows in `inv_logit` -/
theorem zMA_over (hO : Overflows C.r) (hN : NanLib C) {s : FCarP p} (hk : s.kind = .zcarma) {θ : List Dbl} {x : ℝ} (hx : θ[p + 3]? = some (.fin x))
    (h : 720 ≤ x) {ma : List Dbl} (e : FCarP.extractMA C s θ = .ok ma) {i : ℕ} (hi : i < p) (h0 : 0 < i) : ma.getD i (.fin 0) = .nan := by
  unfold FCarP.extractMA at e
  rw [hk] at e
  dsimp only at e
  rw [rd_some (show θ[3 + p]? = some (.fin x) by rw [add_comm]; exact hx), res_bind_ok] at e
  have e1 : FCarP.invLogit C (.fin x) = .nan := by
    unfold FCarP.invLogit
    rw [hO x h]
    rfl
  rw [e1, mul_nan, fnan_add] at e
  unfold FCarP.zMA at e
  split at e
  · cases e
  injection e with e
  subst e
  rw [List.getD_eq_getElem _ _ (by simpa using hi), List.getElem_map, List.getElem_range, if_neg (by omega), hN.rpow i h0, div_nan]

/-- below -720 the logarithm of the prior is `-inf` or NaN, whatever the data -/
theorem ld_edge_low (hE : Edges C.r) (hO : Overflows C.r) {s s' : FCarP p} (hk : s.kind = .zcarma) {θ : List Dbl} {x : ℝ}
    (hx : θ[p + 3]? = some (.fin x)) (h : 720 ≤ -x) {v : Dbl} (e : FCarP.logDensity C s θ = .ok (s', v)) : v = .ninf ∨ v = .nan := by
  unfold FCarP.logDensity at e
  obtain ⟨ok, -, e⟩ := bind_ok e
  split at e
  · injection e with e
    injection e with _ e
    exact .inl e.symm
  obtain ⟨k, ek, e⟩ := bind_ok e
  obtain ⟨mu, -, e⟩ := bind_ok e
  split at e
  · injection e with e
    injection e with _ e
    exact .inl e.symm
  · cases e
  · next kf hf =>
    obtain ⟨ll, el, e⟩ := bind_ok e
    obtain ⟨lp, ep, e⟩ := bind_ok e
    injection e with e
    injection e with _ e
    subst e
    have elp : lp = .ninf ∨ lp = .nan := by
      unfold FCarP.logPrior at ep
      rw [hk] at ep
      dsimp only at ep
      obtain ⟨l, -, ep⟩ := bind_ok ep
      rw [rd_some hx, res_bind_ok] at ep
      injection ep with ep
      subst ep
      have e1 : C.r.sub (Dbl.fin x).neg (C.r.mul (.fin 2) (C.r.log (C.r.add (.fin 1) (C.r.exp (Dbl.fin x).neg)))) = .ninf := by
        rw [show C.r.exp (Dbl.fin x).neg = .pinf from hO (-x) h, show C.r.add (.fin 1) .pinf = .pinf from rfl, hE.log_pinf]
        have : C.r.mul (.fin 2) .pinf = .pinf := by
          show C.r.fl (Dbl.infTimes 2) = _
          rw [Dbl.infTimes, if_pos two_pos]; rfl
        rw [this]; rfl
      rw [e1]
      exact fadd_ninf _ _
    rcases elp with rfl | rfl
    · exact fadd_ninf _ _
    · exact .inr (fadd_nan _ _)

theorem ld_edge (hE : Edges C.r) (hO : Overflows C.r) (hN : NanLib C) {n : ℕ} {s s' : FCarP p} (hs : PShape n s) (hk : s.kind = .zcarma)
    {θ : List Dbl} (hθ : dimOf p s.kind ≤ θ.length) {x : ℝ} (hx : θ[p + 3]? = some (.fin x)) (h : 720 ≤ |x|) {v : Dbl}
    (e : FCarP.logDensity C s θ = .ok (s', v)) : v = .ninf ∨ v = .nan := by
  rcases le_abs.mp h with h | h
  swap
  · exact ld_edge_low hE hO hk hx h e
  unfold FCarP.logDensity at e
  obtain ⟨ok, -, e⟩ := bind_ok e
  split at e
  · injection e with e
    injection e with _ e
    exact .inl e.symm
  obtain ⟨k, ek, e⟩ := bind_ok e
  obtain ⟨mu, -, e⟩ := bind_ok e
  split at e
  · injection e with e
    injection e with _ e
    exact .inl e.symm
  · cases e
  · next kf hf =>
    obtain ⟨ll, el, e⟩ := bind_ok e
    obtain ⟨lp, ep, e⟩ := bind_ok e
    injection e with e
    injection e with _ e
    subst e
    · right
      obtain ⟨k', ek', hkS, hma, -⟩ := setUp_ok (C := C) hs hθ
      have : k' = k := by rw [ek] at ek'; injection ek' with ek'; exact ek'.symm
      subst this
      have htwo := OrdersOk.two hs.orders
      obtain ⟨f1, f2⟩ := hist_filterp (C := C) htwo hs.pos hkS hma
      cases hsol : C.solve p (FKFp.eigenMat C k'.omega) (FKFp.rvec p) with
      | none => rw [f1 hsol] at hf; cases hf
      | some J =>
        obtain ⟨kf', ef, hh⟩ := f2 J hsol
        have : kf' = kf := by rw [hf] at ef; injection ef with ef; exact ef.symm
        subst this
        have hma' : FCarP.extractMA C s θ = .ok k'.ma := by
          have ek2 := ek
          unfold FCarP.setUp at ek2
          obtain ⟨_, _, ek2⟩ := bind_ok ek2
          obtain ⟨ma, g, ek2⟩ := bind_ok ek2
          obtain ⟨_, _, ek2⟩ := bind_ok ek2
          obtain ⟨_, _, ek2⟩ := bind_ok ek2
          obtain ⟨_, _, ek2⟩ := bind_ok ek2
          injection ek2 with ek2
          rw [g, ← ek2]; rfl
        have hnan := zMA_over hO hN hk hx h hma' (i := 1) (by omega) (by omega)
        have hR : ∀ j, (rotOf C k' j).1 = .nan := fun j => hN.vecMul p _ _ ⟨⟨1, by omega⟩, hnan⟩ j
        have hv : (seqOf C k' J 0).v = .nan := by
          show C.r.add (C.form p (rotOf C k') _).1 _ = _
          rw [hN.form p _ _ ⟨⟨0, by omega⟩, hR _⟩, fnan_add]
        have hv0 : rd kf'.b.var 0 = .ok .nan := by
          rw [frd_getD (by rw [hh.lvar]; exact hs.pos), hh.var 0 hs.pos, hv]
        rw [hs.time] at el
        rw [lik_nan0 hE.log_nan hv0 hs.pos el, fnan_add]

end Verif.Theory
