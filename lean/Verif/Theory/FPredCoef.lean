import Verif.Theory.FPredSum

/-!
Rounding errors of `KalmanFilter1::Predict`: the loop over the observations after the requested time.
-/

namespace Verif.Theory

open Verif.Model Verif.Spec

variable {A : Arith} {a b c : ℤ} {n : ℕ} {N κ S' S : ℝ} {ρ' ρ y E' E : ℕ → ℝ}

/-- the errors that one term adds to the sums -/
noncomputable def incp (c : ℤ) (n : ℕ) (N κ : ℝ) : ℝ := (340 * (uu * κ * N * N) + 6 * (uu * n)) / 2 ^ c
noncomputable def incq (a c : ℤ) (n : ℕ) (N κ : ℝ) : ℝ := (1042 * (uu * κ * N * N) + 12 * (uu * n)) * 2 ^ a / 2 ^ c

theorem FIn.incp_le (h : FIn a b c n N κ S' S ρ' ρ y E' E) : n * incp c n N κ ≤ 340 * (uu * κ * n * (n + N ^ 2)) / 2 ^ c := by
  have hC : (0 : ℝ) < 2 ^ c := by positivity
  have u0 := uu_pos
  have κ1 := h.κ1
  rw [incp, mul_div_assoc']
  refine div_le_div_of_nonneg_right ?_ hC.le
  have n0 : (0 : ℝ) ≤ n := by positivity
  have h1 : uu * n * n ≤ uu * κ * n * n := by
    rw [mul_assoc, mul_assoc (uu * κ), mul_assoc uu κ]
    exact mul_le_mul_of_nonneg_left (le_mul_of_one_le_left (by positivity) κ1) u0.le
  have h2 : 0 ≤ uu * κ * n * n := by positivity
  nlinarith

theorem FIn.incq_le (h : FIn a b c n N κ S' S ρ' ρ y E' E) : n * incq a c n N κ ≤ 1042 * (uu * κ * n * (n + N ^ 2)) * 2 ^ a / 2 ^ c := by
  have hC : (0 : ℝ) < 2 ^ c := by positivity
  have hY : (0 : ℝ) < 2 ^ a := by positivity
  have u0 := uu_pos
  have κ1 := h.κ1
  rw [incq, mul_div_assoc', ← mul_assoc]
  refine div_le_div_of_nonneg_right (mul_le_mul_of_nonneg_right ?_ hY.le) hC.le
  have n0 : (0 : ℝ) ≤ n := by positivity
  have h1 : uu * n * n ≤ uu * κ * n * n := by
    rw [mul_assoc, mul_assoc (uu * κ), mul_assoc uu κ]
    exact mul_le_mul_of_nonneg_left (le_mul_of_one_le_left (by positivity) κ1) u0.le
  have h2 : 0 ≤ uu * κ * n * n := by positivity
  nlinarith

/-- both sums -/
theorem acc_both (hA : IsBinary64 A) (h : FIn a b c n N κ S' S ρ' ρ y E' E) (t : Tiny n N κ) {j k : ℕ} (hk : k < n) {c0 : ℝ × ℝ} (hc : 2 ^ c / n ≤ c0.2) {r : RS}
    (hr : RSize (2 ^ a) (2 ^ b) (2 ^ c) S c0 k r) (hkc : 1 / c0.2 + k / 2 ^ c ≤ 2 * n / 2 ^ c) {sl' co' va' p' q' : ℝ} (s'0 : 0 ≤ sl') (s'1 : sl' ≤ 1) (hsl : |sl' - r.sl| ≤ 116 * (uu * κ * N) * N)
    (hco : |co' - r.co| ≤ 354 * (uu * κ * N) * N * 2 ^ a) (hv : E' j ≤ va') (hD : |va' - (r.P + E j)| ≤ 100 * (uu * 2 ^ b) * N)
    (hp : |p' - r.p| ≤ 386 * (uu * κ * n * (n + N ^ 2)) / c0.2 + k * incp c n N κ)
    (hq : |q' - r.q| ≤ 2220 * (uu * κ * n * (n + N ^ 2)) * 2 ^ a / c0.2 + k * incq a c n N κ) :
    ∃ p'' q'', cacc A (.fin (y j)) ⟨.fin sl', .fin co', .fin va', .fin p', .fin q'⟩ = ⟨.fin sl', .fin co', .fin va', .fin p'', .fin q''⟩ ∧
      |p'' - (racc (y j) (E j) r).p| ≤ 386 * (uu * κ * n * (n + N ^ 2)) / c0.2 + (k + 1 : ℕ) * incp c n N κ ∧
      |q'' - (racc (y j) (E j) r).q| ≤ 2220 * (uu * κ * n * (n + N ^ 2)) * 2 ^ a / c0.2 + (k + 1 : ℕ) * incq a c n N κ := by
  have hC : (0 : ℝ) < 2 ^ c := by positivity
  have hY : (0 : ℝ) < 2 ^ a := by positivity
  have u0 := uu_pos
  have κ1 := h.κ1
  have N1 := h.N1
  have n1 : (1 : ℝ) ≤ n := by exact_mod_cast h.n1
  have c00 : 0 < c0.2 := lt_of_lt_of_le (by positivity) hc
  have ic : 1 / c0.2 ≤ n / 2 ^ c := by
    have := one_div_le_one_div_of_le (by positivity) hc
    rwa [one_div_div] at this
  have kn : (k : ℝ) ≤ n := by exact_mod_cast hk.le
  have t2 := h.tiny2 t
  have ip : 0 ≤ incp c n N κ := by unfold incp; positivity
  have iq : 0 ≤ incq a c n N κ := by unfold incq; positivity
  have kp := (mul_le_mul_of_nonneg_right kn ip).trans h.incp_le
  have kq := (mul_le_mul_of_nonneg_right kn iq).trans h.incq_le
  obtain ⟨ε, hε⟩ : ∃ ε, ε = uu * κ * n * (n + N ^ 2) := ⟨_, rfl⟩
  rw [← hε] at hp hq t2 kp kq ⊢
  have ε0 : 0 ≤ ε := by rw [hε]; positivity
  obtain ⟨G, hG⟩ : ∃ G : ℝ, G = 1 / 2 ^ c := ⟨_, rfl⟩
  have G0 : 0 < G := by rw [hG]; positivity
  have nG : G ≤ n * G := le_mul_of_one_le_left G0.le n1
  have ic' : 1 / c0.2 ≤ n * G := by rw [hG, mul_one_div]; exact ic
  have p1 : |p' - r.p| ≤ n / 2 ^ c := by
    refine hp.trans ?_
    have e1 : 386 * ε / c0.2 ≤ 386 * ε * (n * G) := by
      rw [← mul_one_div]; exact mul_le_mul_of_nonneg_left ic' (by positivity)
    have e2 : 340 * ε / 2 ^ c = 340 * ε * G := by rw [hG, mul_one_div]
    have e3 : (n : ℝ) / 2 ^ c = n * G := by rw [hG, mul_one_div]
    rw [e2] at kp
    rw [e3]
    have e4 : ε * G ≤ ε * (n * G) := mul_le_mul_of_nonneg_left nG ε0
    have e5 : 8192 * ε * (n * G) ≤ 1 * (n * G) := mul_le_mul_of_nonneg_right t2 (by positivity)
    have e6 : 0 ≤ ε * (n * G) := by positivity
    linarith
  have q1 : |q' - r.q| ≤ n * 2 ^ a / 2 ^ c := by
    refine hq.trans ?_
    have e1 : 2220 * ε * 2 ^ a / c0.2 ≤ 2220 * ε * 2 ^ a * (n * G) := by
      rw [← mul_one_div]; exact mul_le_mul_of_nonneg_left ic' (by positivity)
    have e2 : 1042 * ε * 2 ^ a / 2 ^ c = 1042 * ε * 2 ^ a * G := by rw [hG, mul_one_div]
    have e3 : (n : ℝ) * 2 ^ a / 2 ^ c = 2 ^ a * (n * G) := by rw [hG]; ring
    rw [e2] at kq
    rw [e3]
    have e4 : ε * 2 ^ a * G ≤ ε * 2 ^ a * (n * G) := mul_le_mul_of_nonneg_left nG (by positivity)
    have e5 : 8192 * ε * (2 ^ a * (n * G)) ≤ 1 * (2 ^ a * (n * G)) := mul_le_mul_of_nonneg_right t2 (by positivity)
    have e6 : 0 ≤ ε * 2 ^ a * (n * G) := by positivity
    linarith
  have hv2 : 2 ^ c ≤ r.P + E j := by linarith [hr.P0, h.R.EC j]
  have pb : |r.p| ≤ 2 * n / 2 ^ c := by
    rw [abs_of_nonneg (le_trans (by positivity) hr.p0)]
    exact hr.p1.trans hkc
  have qb : |r.q| ≤ 3 * n * 2 ^ a / 2 ^ c := by
    refine hr.q.trans ?_
    have e1 : (2 : ℝ) ^ a / c0.2 ≤ 2 ^ a * (n * G) := by
      rw [← mul_one_div]; exact mul_le_mul_of_nonneg_left ic' hY.le
    have e2 : 2 * (2 : ℝ) ^ a * k / 2 ^ c ≤ 2 * (2 ^ a * (n * G)) := by
      rw [← mul_one_div, ← hG]
      have := mul_le_mul_of_nonneg_left kn (by positivity : 0 ≤ 2 * 2 ^ a * G)
      linarith
    have e3 : 3 * (n : ℝ) * 2 ^ a / 2 ^ c = 3 * (2 ^ a * (n * G)) := by rw [hG]; ring
    rw [e3]; linarith
  obtain ⟨p'', ep, fp⟩ := acc_p hA h s'0 s'1 hr.sl0 hr.sl1 hsl hv hv2 hD pb p1
  obtain ⟨q'', eq, fq⟩ := acc_q hA h t s'0 s'1 hr.sl0 hr.sl1 hsl (h.R.hy j) hr.co hco hv hv2 hD qb q1
  refine ⟨p'', q'', ?_, ?_, ?_⟩
  · simp only [cacc]; rw [ep, eq]
  · simp only [racc]
    refine fp.trans ?_
    rw [← incp]; push_cast; linarith
  · simp only [racc]
    refine fq.trans ?_
    rw [← incq]; push_cast; linarith

/-- the loop -/
theorem crun_err (hA : IsBinary64 A) (h : FIn a b c n N κ S' S ρ' ρ y E' E) (t : Tiny n N κ) {w : ℕ → ℝ} (w1 : ∀ k, 1 ≤ w k) (wN : ∀ k < n, w k ≤ N)
    (ws : ∀ k i, ρ i * w k + 1 ≤ w (k + 1)) {i : ℕ} {c0 : ℝ × ℝ} (hc : 2 ^ c / (i + 1) ≤ c0.2) (hm : |c0.1| ≤ 2 ^ a) {rn' rn : ℝ} (p'0 : 0 ≤ rn')
    (p'1 : rn' ≤ 1) (p0 : 0 ≤ rn) (p1 : rn ≤ 1) (hp : |rn' - rn| ≤ 3 * uu) {cf : Dbl × Dbl} {iv' q0' : ℝ} (eiv : A.div (.fin 1) cf.2 = .fin iv')
    (eq0 : A.mul cf.1 (.fin iv') = .fin q0') (hiv : |iv' - 1 / c0.2| ≤ 386 * (uu * κ * n * (n + N ^ 2)) / c0.2)
    (hq0 : |q0' - c0.1 * (1 / c0.2)| ≤ 2220 * (uu * κ * n * (n + N ^ 2)) * 2 ^ a / c0.2) (k : ℕ) (hk : i + k < n) :
    ∃ sl' co' va' p' q', crun A (.fin S') (fun i => .fin (ρ' i)) (fun i => .fin (y i)) (fun i => .fin (E' i)) i
        (cinit A (.fin S') (.fin rn') (.fin (y i)) (.fin (E' i)) cf) k = ⟨.fin sl', .fin co', .fin va', .fin p', .fin q'⟩ ∧
      0 ≤ sl' ∧ sl' ≤ 1 ∧ F64 va' ∧ E' (i + k) ≤ va' ∧ va' ≤ 4 * 2 ^ b ∧
      |va' - ((rrun S ρ y E i (rinit S rn (y i) (E i) c0) k).P + E (i + k))| ≤ 100 * (uu * 2 ^ b) * w k ∧
      |sl' - (rrun S ρ y E i (rinit S rn (y i) (E i) c0) k).sl| ≤ 116 * (uu * κ * N) * w k ∧
      |co' - (rrun S ρ y E i (rinit S rn (y i) (E i) c0) k).co| ≤ 354 * (uu * κ * N) * w k * 2 ^ a ∧
      |p' - (rrun S ρ y E i (rinit S rn (y i) (E i) c0) k).p| ≤ 386 * (uu * κ * n * (n + N ^ 2)) / c0.2 + (k + 1 : ℕ) * incp c n N κ ∧
      |q' - (rrun S ρ y E i (rinit S rn (y i) (E i) c0) k).q| ≤ 2220 * (uu * κ * n * (n + N ^ 2)) * 2 ^ a / c0.2 + (k + 1 : ℕ) * incq a c n N κ := by
  have hC : (0 : ℝ) < 2 ^ c := by positivity
  have hB : (0 : ℝ) < 2 ^ b := by positivity
  have hY : (0 : ℝ) < 2 ^ a := by positivity
  have u0 := uu_pos
  have u1 := uu_small
  have κ1 := h.κ1
  have N1 := h.N1
  have N0 : 0 < N := by linarith
  have S0 : 0 < S := by linarith [h.R.SC]
  have uB : 0 < uu * 2 ^ b := mul_pos u0 hB
  have κN : 1 ≤ κ * N := by nlinarith
  have uκN : uu ≤ uu * κ * N := by rw [mul_assoc]; nlinarith
  have c00 : 0 < c0.2 := lt_of_lt_of_le (by positivity) hc
  have b1 := h.b1
  have b2 := h.b2
  have in1 : (i : ℝ) + 1 ≤ n := by
    have : i + 1 ≤ n := by omega
    exact_mod_cast this
  have hcn : 2 ^ c / (n : ℝ) ≤ c0.2 := (div_le_div_of_nonneg_left hC.le (by positivity) in1).trans hc
  have ic : 1 / c0.2 ≤ (i + 1) / 2 ^ c := by
    have := one_div_le_one_div_of_le (by positivity) hc
    rwa [one_div_div] at this
  have hkc : ∀ j, i + j < n → 1 / c0.2 + j / 2 ^ c ≤ 2 * n / 2 ^ c := by
    intro j hj
    have : (i : ℝ) + j ≤ n := by exact_mod_cast hj.le
    have n1 : (1 : ℝ) ≤ n := by exact_mod_cast h.n1
    refine (add_le_add ic le_rfl).trans ?_
    rw [← add_div]
    exact div_le_div_of_nonneg_right (by linarith) hC.le
  induction k with
  | zero =>
    have e1 : |rn' * rn' - rn * rn| ≤ 6 * uu := by
      have := mul_err hp hp (abs01 p'0 p'1) (abs01 p0 p1); linarith
    obtain ⟨x1, ex1, rx1, x10, x11⟩ := rnd_mul hA (a := rn') (b := rn') f64_zero f64_one (by positivity) (mul_le_one₀ p'1 p'0 p'1)
    have e2 := tri (rz1 rx1 (by positivity) (mul_le_one₀ p'1 p'0 p'1)) e1
    obtain ⟨x2, ex2, rx2, x20, x21⟩ := rnd_sub hA (a := 1) (b := x1) f64_zero f64_one (by linarith) (by linarith)
    have e3 : |x2 - (1 - rn * rn)| ≤ 8 * uu := by
      have e4 : |(1 - x1) - (1 - rn * rn)| ≤ uu + 6 * uu := by
        rw [show (1 - x1) - (1 - rn * rn) = -(x1 - rn * rn) by ring, abs_neg]; exact e2
      linarith [tri (rz1 rx2 (by linarith) (by linarith)) e4]
    have FB : F64 (2 ^ b) := f64_zpow _ (by omega) (by omega)
    have sx : S' * x2 ≤ 2 ^ b := (mul_le_of_le_one_right h.S'0 x21).trans h.S'1
    obtain ⟨x3, ex3, rx3, x30, x31⟩ := rnd_mul hA (a := S') (b := x2) f64_zero FB (mul_nonneg h.S'0 x20) sx
    have e5 : |x3 - S * (1 - rn * rn)| ≤ 12 * (uu * 2 ^ b) := by
      have e6 : |x3 - S' * x2| ≤ uu * (1 * 2 ^ b) :=
        rz (k := 1) rx3 (by rw [abs_of_nonneg (mul_nonneg h.S'0 x20), one_mul]; exact sx) le_rfl (by norm_num) (by omega) (by omega)
      have e7 := mul_err h.hS e3 (abs01 x20 x21) (show |S| ≤ 2 ^ b / 2 by rw [abs_of_pos S0]; exact h.R.S1)
      linarith [tri e6 e7]
    obtain ⟨va', eva, Fva, l1, l2, fva⟩ := noise_add hA h (i := i) x30 (by linarith) e5
    have w0 := w1 0
    have wn := wN 0 (by omega)
    have gva : |va' - (S * (1 - rn * rn) + E i)| ≤ 100 * (uu * 2 ^ b) * w 0 := fva.trans (by nlinarith)
    have gsl : |rn' - rn| ≤ 116 * (uu * κ * N) * w 0 := hp.trans (by nlinarith)
    have gco : |(0 : ℝ) - 0| ≤ 354 * (uu * κ * N) * w 0 * 2 ^ a := by rw [sub_zero, abs_zero]; positivity
    have hz : RSize (2 ^ a) (2 ^ b) (2 ^ c) S c0 0 { sl := rn, co := 0, P := S * (1 - rn * rn), p := 1 / c0.2, q := c0.1 * (1 / c0.2) } := by
      refine ⟨p0, p1, by simpa using hY.le, ?_, ?_, le_rfl, by simp, ?_⟩
      · exact mul_nonneg S0.le (sub_nonneg.mpr (mul_le_one₀ p1 p0 p1))
      · exact mul_le_of_le_one_right S0.le (by linarith [mul_nonneg p0 p0])
      · simp only [abs_mul, Nat.cast_zero, mul_zero, zero_div, add_zero]
        rw [abs_of_pos (by positivity : 0 < 1 / c0.2), mul_one_div]
        exact div_le_div_of_nonneg_right hm c00.le
    obtain ⟨p'', q'', e, fp, fq⟩ := acc_both hA h t (j := i) (k := 0) (r := { sl := rn, co := 0, P := S * (1 - rn * rn), p := 1 / c0.2, q := c0.1 * (1 / c0.2) })
      (by omega) hcn hz (hkc 0 (by omega)) p'0 p'1 (gsl.trans (mul_le_mul_of_nonneg_left wn (by positivity)))
      (gco.trans (mul_le_mul_of_nonneg_right (mul_le_mul_of_nonneg_left wn (by positivity)) hY.le)) l1
      (gva.trans (mul_le_mul_of_nonneg_left wn (by positivity))) (by simpa using hiv) (by simpa using hq0)
    refine ⟨rn', 0, va', p'', q'', ?_, p'0, p'1, Fva, l1, l2, gva, gsl, gco, fp, fq⟩
    rw [crun, cinit, eiv, eq0, ex1, ex2, ex3, eva, e]
  | succ k ih =>
    obtain ⟨sl', co', va', p', q', e, s0, s1, Fv, l1, l2, fv, fs, fc, fp, fq⟩ := ih (by omega)
    have z := rrun_size h.R c00 hm p0 p1 i k
    rw [crun, e, rrun]
    obtain ⟨r, er⟩ : ∃ r, r = rrun S ρ y E i (rinit S rn (y i) (E i) c0) k := ⟨_, rfl⟩
    rw [← er] at z fv fs fc fp fq ⊢
    have wn := wN k (by omega)
    have wn1 := wN (k + 1) (by omega)
    have k3 : uu * κ * N * N ≤ 1 / 8192 := by linarith [h.tiny1.1, h.tiny2 t]
    have fvN := fv.trans (mul_le_mul_of_nonneg_left wn (by positivity : 0 ≤ 100 * (uu * 2 ^ b)))
    have fcN := fc.trans (mul_le_mul_of_nonneg_right (mul_le_mul_of_nonneg_left wn (by positivity : 0 ≤ 354 * (uu * κ * N))) hY.le)
    have cob : |co'| ≤ 2 * 2 ^ a := by
      have d1 := abs_sub_abs_le_abs_sub co' r.co
      have d2 : 354 * (uu * κ * N) * N * 2 ^ a ≤ 1 * 2 ^ a := mul_le_mul_of_nonneg_right (by linarith) hY.le
      linarith [z.co]
    have E0 : 0 < E (i + k) := by linarith [h.R.EC (i + k)]
    have r0 := h.R.ρ0 (i + k)
    have g := h.gain l1 fvN
    obtain ⟨sl'', co'', V, es, ec, eV, t0, t1, V0, V1, VE, SE, CE⟩ := coef_step hA h.a1 h.a2 h.b1 h.b2 (sl := r.sl) (co := r.co) (h.Fρ (i + k)) (h.ρ'0 _) (h.ρ'1 _) Fv
      (lt_of_lt_of_le (h.E'0 _) l1) (h.E'0 _).le l1 l2 h.S'0 h.S'1 (h.R.ρ0 _) (h.R.ρ1 _) (h.hρ _) S0.le h.R.S1 h.hS z.P0 (z.P1.trans h.R.S1) E0 (h.R.E1 _)
      (h.hE _) rfl g s0 s1 cob (h.R.hy (i + k))
    obtain ⟨va'', eva, Fva, l1', l2', fva⟩ := noise_add hA h (i := i + k + 1) V0 V1 VE
    have q2 := ws k (i + k)
    have gva : |va'' - (S * (1 - ρ (i + k) * ρ (i + k)) + ρ (i + k) * ρ (i + k) * r.P * (1 - r.P / (r.P + E (i + k))) + E (i + k + 1))| ≤ 100 * (uu * 2 ^ b) * w (k + 1) := by
      refine fva.trans ?_
      have q1 : ρ (i + k) * ρ (i + k) * |va' - (r.P + E (i + k))| ≤ ρ (i + k) * (100 * (uu * 2 ^ b) * w k) :=
        mul_le_mul (mul_le_of_le_one_right r0 (h.R.ρ1 _)) fv (abs_nonneg _) r0
      have q2 := mul_le_mul_of_nonneg_left q2 (by positivity : 0 ≤ 100 * (uu * 2 ^ b))
      linarith
    have gsl : |sl'' - r.sl * (ρ (i + k) * (1 - r.P / (r.P + E (i + k))))| ≤ 116 * (uu * κ * N) * w (k + 1) := by
      refine SE.trans ?_
      have q1 := mul_le_mul_of_nonneg_left fs r0
      have q2 := mul_le_mul_of_nonneg_left q2 (by positivity : 0 ≤ 116 * (uu * κ * N))
      linarith
    have gco : |co'' - (r.co * ρ (i + k) * (1 - r.P / (r.P + E (i + k))) + ρ (i + k) * (r.P / (r.P + E (i + k))) * y (i + k))| ≤ 354 * (uu * κ * N) * w (k + 1) * 2 ^ a := by
      refine CE.trans ?_
      have q1 := mul_le_mul_of_nonneg_left fc r0
      have q2 := mul_le_mul_of_nonneg_right (mul_le_mul_of_nonneg_left q2 (by positivity : 0 ≤ 354 * (uu * κ * N))) hY.le
      have q3 := mul_le_mul_of_nonneg_left uκN hY.le
      have q4 : 0 ≤ 2 ^ a * (uu * κ * N) := by positivity
      linarith
    have zz := rrun_size h.R c00 hm p0 p1 i (k + 1)
    rw [rrun, ← er] at zz
    obtain ⟨p'', q'', e', fp', fq'⟩ := acc_both hA h t (j := i + k + 1) (k := k + 1) (c0 := c0) (r := { r with
          sl := r.sl * (ρ (i + k) * (1 - r.P / (r.P + E (i + k))))
          co := r.co * ρ (i + k) * (1 - r.P / (r.P + E (i + k))) + ρ (i + k) * (r.P / (r.P + E (i + k))) * y (i + k)
          P := S * (1 - ρ (i + k) * ρ (i + k)) + ρ (i + k) * ρ (i + k) * r.P * (1 - r.P / (r.P + E (i + k))) })
      (by omega) hcn ⟨zz.sl0, zz.sl1, zz.co, zz.P0, zz.P1, z.p0, z.p1, z.q⟩ (hkc (k + 1) hk) t0 t1 (gsl.trans (mul_le_mul_of_nonneg_left wn1 (by positivity)))
      (gco.trans (mul_le_mul_of_nonneg_right (mul_le_mul_of_nonneg_left wn1 (by positivity)) hY.le)) l1'
      (gva.trans (mul_le_mul_of_nonneg_left wn1 (by positivity))) fp fq
    refine ⟨sl'', co'', va'', p'', q'', ?_, t0, t1, Fva, l1', l2', gva, gsl, gco, fp', fq'⟩
    rw [cstep]
    simp only
    rw [es, ec, eV, eva]
    exact e'

end Verif.Theory
