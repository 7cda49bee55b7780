import Verif.Theory.FKF1

/-!
The CAR(1) log-density in binary64 arithmetic is a finite number inside the prior bounds.
-/

namespace Verif.Theory

open Verif.Model Verif.Spec

variable {A : Arith}

theorem pw_mul (a b c : ℤ) (h : a + b = c) : (2 : ℝ) ^ a * 2 ^ b = 2 ^ c := by rw [← h, zpow_add₀ (by norm_num)]

theorem pw_two (a c : ℤ) (h : 1 + a = c) : (2 : ℝ) * 2 ^ a = 2 ^ c := by rw [← pw_mul 1 a c h, zpow_one]

theorem pw_le (a b : ℤ) (h : a ≤ b) : (2 : ℝ) ^ a ≤ 2 ^ b := zpow_le_zpow_right₀ (by norm_num) h

theorem f64_scale {w : ℝ} (hw : F64 w) (h0 : 0 < w) (h1 : w ≤ 2 ^ (300 : ℤ)) (k : ℕ) (hk : k ≤ 600) : F64 (2 ^ k * w) := by
  obtain ⟨m, e, hm, e1, e2, rfl⟩ := hw
  have hp : (0 : ℝ) < 2 ^ e := by positivity
  have hm0 : 0 < m := by
    have : (0 : ℝ) < m := by by_contra h; push Not at h; nlinarith
    exact_mod_cast this
  have hm1 : (1 : ℝ) ≤ m := by exact_mod_cast hm0
  have he : e ≤ 300 := by
    have : (2 : ℝ) ^ e ≤ 2 ^ (300 : ℤ) := by nlinarith
    exact (zpow_le_zpow_iff_right₀ (by norm_num : (1 : ℝ) < 2)).mp this
  refine ⟨m, e + k, hm, by omega, by omega, ?_⟩
  rw [zpow_add₀ (by norm_num), zpow_natCast]; ring

/-- the stationary variance computed from `theta` -/
theorem stat_num (hA : IsBinary64 A) {s0 w : ℝ} (h0 : 0 ≤ s0) (h1 : s0 ≤ 2 ^ (148 : ℤ)) (hw : F64 w) (hw0 : 0 < w)
    (hw1 : w ≤ 2 ^ (300 : ℤ)) :
    ∃ S, A.div (A.mul (A.mul (A.mul (.fin 2) (.fin s0)) (.fin s0)) (.fin w)) (A.mul (.fin 2) (.fin w)) = .fin S ∧ 0 ≤ S ∧
      S ≤ 2 ^ (298 : ℤ) := by
  have p1 : (2 : ℝ) * 2 ^ (148 : ℤ) = 2 ^ (149 : ℤ) := pw_two _ _ (by norm_num)
  have p2 : (2 : ℝ) ^ (149 : ℤ) * 2 ^ (148 : ℤ) = 2 ^ (297 : ℤ) := pw_mul _ _ _ (by norm_num)
  have p3 : (2 : ℝ) ^ (297 : ℤ) ≤ 2 ^ (298 : ℤ) := pw_le _ _ (by norm_num)
  obtain ⟨x, ex, rx, x0, x1⟩ := rnd_mul hA (a := 2) (b := s0) (hi := 2 ^ (149 : ℤ)) f64_zero (f64_zpow _ (by norm_num) (by norm_num))
    (by positivity) (by linarith)
  obtain ⟨k, ek, rk, k0, k1⟩ := rnd_mul hA (a := x) (b := s0) (hi := 2 ^ (297 : ℤ)) f64_zero
    (f64_zpow 297 (by norm_num) (by norm_num))
    (by positivity) (by rw [← p2]; exact mul_le_mul x1 h1 h0 (by positivity))
  obtain ⟨g, eg, rg, g0, g1⟩ := rnd_mul hA (a := k) (b := w) f64_zero (by simpa using f64_scale hw hw0 hw1 297 (by norm_num) : F64 (2 ^ (297 : ℤ) * w))
    (by positivity) (mul_le_mul_of_nonneg_right k1 hw0.le)
  obtain ⟨W, eW, rW, W0, W1⟩ := rnd_mul hA (a := 2) (b := w) hw (f64_scale hw hw0 hw1 1 (by norm_num)) (by linarith) (by norm_num)
  have hW : 0 < W := by linarith
  obtain ⟨S, eS, rS, S0, S1⟩ := rnd_div hA (a := g) (b := W) (hi := 2 ^ (298 : ℤ)) hW.ne' f64_zero
    (f64_zpow _ (by norm_num) (by norm_num)) (by positivity)
    (by rw [div_le_iff₀ hW]; exact g1.trans (mul_le_mul p3 W0 hw0.le (by positivity)))
  exact ⟨S, by rw [ex, ek, eg, eW, eS], S0, S1⟩

/-- the scaled measurement error and its square -/
theorem err_num (hA : IsBinary64 A) {sc e : ℝ} (h0 : 1 / 2 ≤ sc) (h1 : sc ≤ 2) (he0 : 2 ^ (-148 : ℤ) ≤ e)
    (he1 : e ≤ 2 ^ (148 : ℤ)) :
    ∃ p E, A.mul (A.sqrt (.fin sc)) (.fin e) = .fin p ∧ A.mul (.fin p) (.fin p) = .fin E ∧ 2 ^ (-298 : ℤ) ≤ E ∧
      E ≤ 2 ^ (298 : ℤ) := by
  have l1 : (1 : ℝ) / 2 ≤ √sc := by exact Real.le_sqrt_of_sq_le (by linarith)
  have l2 : √sc ≤ 2 := Real.sqrt_le_iff.mpr ⟨by norm_num, by linarith⟩
  have hp : (0 : ℝ) < 2 ^ (-148 : ℤ) := by positivity
  have p1 : (1 : ℝ) / 2 * 2 ^ (-148 : ℤ) = 2 ^ (-149 : ℤ) := by rw [← pw_mul (-1) (-148) (-149) (by norm_num)]; norm_num
  have p2 : (2 : ℝ) * 2 ^ (148 : ℤ) = 2 ^ (149 : ℤ) := pw_two _ _ (by norm_num)
  have p3 : (2 : ℝ) ^ (-149 : ℤ) * 2 ^ (-149 : ℤ) = 2 ^ (-298 : ℤ) := pw_mul _ _ _ (by norm_num)
  have p4 : (2 : ℝ) ^ (149 : ℤ) * 2 ^ (149 : ℤ) = 2 ^ (298 : ℤ) := pw_mul _ _ _ (by norm_num)
  obtain ⟨q, eq, rq, q0, q1⟩ := rnd_between hA f64_half f64_two l1 l2
  obtain ⟨p, ep, rp, p0, p1⟩ := rnd_mul hA (a := q) (b := e) (lo := 2 ^ (-149 : ℤ)) (hi := 2 ^ (149 : ℤ))
    (f64_zpow _ (by norm_num) (by norm_num)) (f64_zpow _ (by norm_num) (by norm_num))
    (by rw [← p1]; exact mul_le_mul q0 he0 hp.le (by linarith))
    (by rw [← p2]; exact mul_le_mul q1 he1 (by linarith) (by norm_num))
  have hp' : (0 : ℝ) < 2 ^ (-149 : ℤ) := by positivity
  obtain ⟨E, eE, rE, E0, E1⟩ := rnd_mul hA (a := p) (b := p) (lo := 2 ^ (-298 : ℤ)) (hi := 2 ^ (298 : ℤ))
    (f64_zpow _ (by norm_num) (by norm_num)) (f64_zpow _ (by norm_num) (by norm_num))
    (by rw [← p3]; exact mul_le_mul p0 p0 hp'.le (by linarith))
    (by rw [← p4]; exact mul_le_mul p1 p1 (by linarith) (by positivity))
  exact ⟨p, E, by rw [hA.sqrt_fin sc (by linarith), eq, ep], eE, E0, E1⟩

theorem pw_big : (512 : ℝ) + 18 * 2 ^ (898 : ℤ) ≤ 2 ^ (903 : ℤ) := by
  rw [← pw_mul 5 898 903 (by norm_num)]
  have h : (2 : ℝ) ^ (9 : ℤ) ≤ 2 ^ (898 : ℤ) := pw_le _ _ (by norm_num)
  generalize (2 : ℝ) ^ (898 : ℤ) = R at *
  norm_num at h ⊢
  linarith

/-- One term of the log-likelihood. -/
theorem term_num (hA : IsBinary64 A) {y m v mu : ℝ} (hy : |y| ≤ 2 ^ (300 : ℤ)) (hmu : |mu| ≤ 2 ^ (300 : ℤ))
    (hm : |m| ≤ 2 * 2 ^ (301 : ℤ)) (hvF : F64 v) (hv : 2 ^ (-298 : ℤ) ≤ v) :
    ∃ t, A.sub (A.mul (.fin (-0.5)) (A.log (.fin v)))
      (A.div (A.mul (A.mul (.fin 0.5) (A.sub (A.sub (.fin y) (.fin m)) (.fin mu)))
        (A.sub (A.sub (.fin y) (.fin m)) (.fin mu))) (.fin v)) = .fin t ∧ |t| ≤ 2 ^ (903 : ℤ) := by
  obtain ⟨Q, hQ⟩ : ∃ Q : ℝ, Q = 2 ^ (300 : ℤ) := ⟨_, rfl⟩
  have hQ0 : 0 < Q := by rw [hQ]; positivity
  have FQ (k : ℕ) (hk : k < 2 ^ 53) : F64 (k * Q) := by rw [hQ]; exact f64_nat_zpow k _ hk (by norm_num) (by norm_num)
  have F5 : F64 (5 * Q) := by simpa using FQ 5 (by norm_num)
  have F6 : F64 (6 * Q) := by simpa using FQ 6 (by norm_num)
  have F3 : F64 (3 * Q) := by simpa using FQ 3 (by norm_num)
  have hm' : |m| ≤ 4 * Q := by rw [hQ]; rw [← pw_two 300 301 (by norm_num)] at hm; linarith
  rw [← hQ] at hy hmu
  obtain ⟨y1, y2⟩ := abs_le.mp hy
  obtain ⟨m1, m2⟩ := abs_le.mp hm'
  obtain ⟨u1, u2⟩ := abs_le.mp hmu
  have hv0 : 0 < v := lt_of_lt_of_le (by positivity) hv
  obtain ⟨c, ec, rc, c1, c2⟩ := rnd_sub hA (a := y) (b := m) (f64_neg F5) F5 (by linarith) (by linarith)
  obtain ⟨d, ed, rd, d1, d2⟩ := rnd_sub hA (a := c) (b := mu) (f64_neg F6) F6 (by linarith) (by linarith)
  obtain ⟨h, eh, rh, h1, h2⟩ := rnd_mul hA (a := 0.5) (b := d) (f64_neg F3) F3 (by norm_num; linarith) (by norm_num; linarith)
  have FR (k : ℕ) (e : ℤ) (hk : k < 2 ^ 53) (h1 : -1074 ≤ e) (h2 : e ≤ 971) : F64 (k * 2 ^ e) := f64_nat_zpow k e hk h1 h2
  have hQQ : Q * Q = 2 ^ (600 : ℤ) := by rw [hQ]; exact pw_mul _ _ _ (by norm_num)
  have F18 : F64 (18 * (Q * Q)) := by rw [hQQ]; simpa using FR 18 600 (by norm_num) (by norm_num) (by norm_num)
  have sgn : 0 ≤ h * d := by
    rcases le_total 0 d with k | k
    · exact mul_nonneg (rh.ge f64_zero (by norm_num; linarith)) k
    · exact mul_nonneg_of_nonpos_of_nonpos (rh.le f64_zero (by norm_num; linarith)) k
  obtain ⟨z, ez, rz, z1, z2⟩ := rnd_mul hA (a := h) (b := d) f64_zero F18 sgn
    (by rcases le_total 0 d with k | k <;> nlinarith)
  have pos : (0 : ℝ) < 2 ^ (-298 : ℤ) := by positivity
  have p898 : (18 : ℝ) * (Q * Q) ≤ 18 * 2 ^ (898 : ℤ) * 2 ^ (-298 : ℤ) := by
    rw [hQQ, mul_assoc, ← zpow_add₀ (by norm_num)]; norm_num
  have F898 : F64 (18 * 2 ^ (898 : ℤ)) := by simpa using FR 18 898 (by norm_num) (by norm_num) (by norm_num)
  obtain ⟨w, ew, rw', w1, w2⟩ := rnd_div hA (a := z) hv0.ne' f64_zero F898 (by positivity)
    (by
      rw [div_le_iff₀ hv0]
      refine (z2.trans p898).trans ?_
      exact mul_le_mul_of_nonneg_left hv (by positivity))
  obtain ⟨l, el, Fl, hl⟩ := hA.log_pos v hvF hv0
  obtain ⟨l1, l2⟩ := abs_le.mp hl
  have F512 : F64 512 := by simpa using f64_int 512 (by norm_num)
  obtain ⟨n, en, rn, n1, n2⟩ := rnd_mul hA (a := -0.5) (b := l) (f64_neg F512) F512 (by norm_num; linarith) (by norm_num; linarith)
  have FT : F64 (2 ^ (903 : ℤ)) := f64_zpow _ (by norm_num) (by norm_num)
  have big := pw_big
  generalize (2 : ℝ) ^ (903 : ℤ) = T at FT big ⊢
  generalize (2 : ℝ) ^ (898 : ℤ) = R at w2 big
  obtain ⟨t, et, rt, t1, t2⟩ := rnd_sub hA (a := n) (b := w) (f64_neg FT) FT (by linarith) (by linarith)
  refine ⟨t, ?_, abs_le.mpr ⟨t1, t2⟩⟩
  rw [el, en, ec, ed, eh, ez, ew, et]

theorem prior_num (hA : IsBinary64 A) {θ : List Dbl} {sc : ℝ} (h : θ[1]? = some (.fin sc)) (hF : F64 sc) (h0 : 1 / 2 ≤ sc)
    (h1 : sc ≤ 2) : ∃ l, FCar1.logPrior A θ = .ok (.fin l) ∧ |l| ≤ 2 ^ (903 : ℤ) := by
  have hs : 0 < sc := by linarith
  have F25 : F64 (-25) := by simpa using f64_int (-25) (by norm_num)
  have F50 : F64 (-50) := by simpa using f64_int (-50) (by norm_num)
  have F26 : F64 26 := by simpa using f64_int 26 (by norm_num)
  have F25' : F64 25 := by simpa using f64_int 25 (by norm_num)
  have FL : F64 26624 := by simpa using f64_int 26624 (by norm_num)
  have FM : F64 26700 := by simpa using f64_int 26700 (by norm_num)
  have e1 : A.mul (.fin (-0.5)) (.fin 50) = .fin (-25) := by rw [fl_mul, show (-0.5 : ℝ) * 50 = -25 by norm_num]; exact hA.id _ F25
  have e2 : A.div (.fin 50) (.fin 2) = .fin 25 := by
    rw [fl_div _ _ (by norm_num), show (50 : ℝ) / 2 = 25 by norm_num]; exact hA.id _ F25'
  have e3 : A.add (.fin 1) (.fin 25) = .fin 26 := by rw [fl_add, show (1 : ℝ) + 25 = 26 by norm_num]; exact hA.id _ F26
  obtain ⟨q, eq, rq, q1, q2⟩ := rnd_div hA (a := -25) hs.ne' F50 f64_zero (by rw [le_div_iff₀ hs]; linarith)
    (by rw [div_le_iff₀ hs]; linarith)
  obtain ⟨l, el, Fl, hl⟩ := hA.log_pos sc hF hs
  obtain ⟨l1, l2⟩ := abs_le.mp hl
  obtain ⟨k, ek, rk, k1, k2⟩ := rnd_mul hA (a := 26) (b := l) (f64_neg FL) FL (by linarith) (by linarith)
  obtain ⟨z, ez, rz, z1, z2⟩ := rnd_sub hA (a := q) (b := k) (f64_neg FM) FM (by linarith) (by linarith)
  refine ⟨z, ?_, ?_⟩
  · simp only [FCar1.logPrior, rd_some h, res_bind_ok, e1, e2, e3, eq, el, ek, ez]; rfl
  · refine (abs_le.mpr ⟨z1, z2⟩).trans ?_
    calc (26700 : ℝ) ≤ 2 ^ (15 : ℤ) := by norm_num
      _ ≤ 2 ^ (903 : ℤ) := zpow_le_zpow_right₀ (by norm_num) (by norm_num)

theorem f64_count (k : ℕ) (hk : k < 2 ^ 53) : F64 (k * 2 ^ (903 : ℤ)) := f64_nat_zpow k _ hk (by norm_num) (by norm_num)

theorem acc_num (hA : IsBinary64 A) {k : ℕ} (hk : k + 1 < 2 ^ 53) {x t : ℝ} (hx : |x| ≤ k * 2 ^ (903 : ℤ))
    (ht : |t| ≤ 2 ^ (903 : ℤ)) : ∃ r, A.add (.fin x) (.fin t) = .fin r ∧ |r| ≤ (k + 1 : ℕ) * 2 ^ (903 : ℤ) := by
  obtain ⟨x1, x2⟩ := abs_le.mp hx
  obtain ⟨t1, t2⟩ := abs_le.mp ht
  have F := f64_count (k + 1) hk
  push_cast at F ⊢
  obtain ⟨r, er, -, r1, r2⟩ := rnd_add hA (a := x) (b := t) (f64_neg F) F (by linarith) (by linarith)
  exact ⟨r, er, abs_le.mpr ⟨r1, r2⟩⟩

theorem lik_num (hA : IsBinary64 A) {y mean var : List Dbl} {mu : ℝ} (hmu : |mu| ≤ 2 ^ (300 : ℤ)) {n : ℕ} (hn : n < 2 ^ 53)
    (hy : ∀ i < n, ∃ x, y[i]? = some (.fin x) ∧ |x| ≤ 2 ^ (300 : ℤ))
    (hb : ∀ i < n, ∃ m v, mean[i]? = some (.fin m) ∧ var[i]? = some (.fin v) ∧ |m| ≤ 2 * 2 ^ (301 : ℤ) ∧ F64 v ∧
      2 ^ (-298 : ℤ) ≤ v) :
    ∃ l, FCar1.likLoop A y mean var (.fin mu) n = .ok (.fin l) ∧ |l| ≤ n * 2 ^ (903 : ℤ) := by
  induction n with
  | zero => exact ⟨0, rfl, by simp⟩
  | succ k ih =>
    obtain ⟨l, el, hl⟩ := ih (by omega) (fun i hi => hy i (by omega)) (fun i hi => hb i (by omega))
    obtain ⟨x, ex, hx⟩ := hy k (by omega)
    obtain ⟨m, v, em, ev, hm, Fv, hv⟩ := hb k (by omega)
    obtain ⟨t, et, ht⟩ := term_num hA hx hmu hm Fv hv
    obtain ⟨r, er, hr⟩ := acc_num hA hn hl ht
    refine ⟨r, ?_, hr⟩
    simp only [FCar1.likLoop, el, res_bind_ok, rd_some ex, rd_some em, rd_some ev, et, er]; rfl

end Verif.Theory
