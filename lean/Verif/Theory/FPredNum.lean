import Verif.Theory.FPredict

/-!
`KalmanFilter1::Predict` in binary64 arithmetic returns finite numbers.
-/

namespace Verif.Theory

open Verif.Model Verif.Spec
open scoped Classical

variable {A : Arith}

/-! ### rounding with symbolic bounds -/

theorem mul01_abs (hA : IsBinary64 A) {a b J : ℝ} (FJ : F64 J) (ha : |a| ≤ J) (b0 : 0 ≤ b) (b1 : b ≤ 1) :
    ∃ r, A.mul (.fin a) (.fin b) = .fin r ∧ F64 r ∧ |r| ≤ J := by
  obtain ⟨h1, h2⟩ := abs_le.mp ha
  obtain ⟨r, er, rr, r1, r2⟩ := rnd_mul hA (a := a) (b := b) (f64_neg FJ) FJ
    (by rcases le_total 0 a with k | k <;> nlinarith) (by rcases le_total 0 a with k | k <;> nlinarith)
  exact ⟨r, er, rr.f, abs_le.mpr ⟨r1, r2⟩⟩

theorem mul01_abs' (hA : IsBinary64 A) {a b J : ℝ} (FJ : F64 J) (ha : |a| ≤ J) (b0 : 0 ≤ b) (b1 : b ≤ 1) :
    ∃ r, A.mul (.fin b) (.fin a) = .fin r ∧ F64 r ∧ |r| ≤ J := by
  have := mul01_abs hA FJ ha b0 b1
  rwa [fl_mul, mul_comm, ← fl_mul] at this

theorem mul01_pos (hA : IsBinary64 A) {a b J : ℝ} (FJ : F64 J) (a0 : 0 ≤ a) (ha : a ≤ J) (b0 : 0 ≤ b) (b1 : b ≤ 1) :
    ∃ r, A.mul (.fin a) (.fin b) = .fin r ∧ F64 r ∧ 0 ≤ r ∧ r ≤ J := by
  obtain ⟨r, er, rr, r1, r2⟩ := rnd_mul hA (a := a) (b := b) f64_zero FJ (by positivity) (by nlinarith)
  exact ⟨r, er, rr.f, r1, r2⟩

theorem add_abs_num (hA : IsBinary64 A) {a b J K : ℝ} (F : F64 (J + K)) (ha : |a| ≤ J) (hb : |b| ≤ K) :
    ∃ r, A.add (.fin a) (.fin b) = .fin r ∧ F64 r ∧ |r| ≤ J + K := by
  obtain ⟨h1, h2⟩ := abs_le.mp ha
  obtain ⟨h3, h4⟩ := abs_le.mp hb
  obtain ⟨r, er, rr, r1, r2⟩ := rnd_add hA (a := a) (b := b) (f64_neg F) F (by linarith) (by linarith)
  exact ⟨r, er, rr.f, abs_le.mpr ⟨r1, r2⟩⟩

theorem sub_abs_num (hA : IsBinary64 A) {a b J K : ℝ} (F : F64 (J + K)) (ha : |a| ≤ J) (hb : |b| ≤ K) :
    ∃ r, A.sub (.fin a) (.fin b) = .fin r ∧ F64 r ∧ |r| ≤ J + K := by
  obtain ⟨h1, h2⟩ := abs_le.mp ha
  obtain ⟨h3, h4⟩ := abs_le.mp hb
  obtain ⟨r, er, rr, r1, r2⟩ := rnd_sub hA (a := a) (b := b) (f64_neg F) F (by linarith) (by linarith)
  exact ⟨r, er, rr.f, abs_le.mpr ⟨r1, r2⟩⟩

theorem one_sub_num (hA : IsBinary64 A) {a : ℝ} (a0 : 0 ≤ a) (a1 : a ≤ 1) :
    ∃ r, A.sub (.fin 1) (.fin a) = .fin r ∧ F64 r ∧ 0 ≤ r ∧ r ≤ 1 := by
  obtain ⟨r, er, rr, r1, r2⟩ := rnd_sub hA (a := 1) (b := a) f64_zero f64_one (by linarith) (by linarith)
  exact ⟨r, er, rr.f, r1, r2⟩

/-- a variance and the error variance -/
theorem var_sum (hA : IsBinary64 A) {q E B : ℝ} (hE : F64 E) (hB : F64 (4 * B)) (q0 : 0 ≤ q) (q1 : q ≤ 3 * B) (E1 : E ≤ B) :
    ∃ v, A.add (.fin q) (.fin E) = .fin v ∧ F64 v ∧ E ≤ v ∧ v ≤ 4 * B := by
  obtain ⟨v, ev, rv, v0, v1⟩ := rnd_add hA (a := q) (b := E) hE hB (by linarith) (by linarith)
  exact ⟨v, ev, rv.f, v0, v1⟩

/-- the quotient of the difference, and the difference from 1 -/
theorem gain_num (hA : IsBinary64 A) {v E P γ : ℝ} (hv : F64 v) (v0 : 0 < v) (E0 : 0 ≤ E) (Ev : E ≤ v) (eP : A.sub (.fin v) (.fin E) = .fin P)
    (eγ : A.div (.fin P) (.fin v) = .fin γ) : 0 ≤ γ ∧ γ ≤ 1 := by
  obtain ⟨P', eP', -, P0, P1⟩ := rnd_sub hA (a := v) (b := E) f64_zero hv (by linarith) (by linarith)
  rw [eP] at eP'; injection eP' with eP'; subst eP'
  obtain ⟨γ', eγ', -, γ0, γ1⟩ := rnd_div hA (a := P) v0.ne' f64_zero f64_one (div_nonneg P0 v0.le) ((div_le_one v0).2 P1)
  rw [eγ] at eγ'; injection eγ' with eγ'; subst eγ'
  exact ⟨γ0, γ1⟩

theorem div_abs_num (hA : IsBinary64 A) {a v J K lo : ℝ} (FK : F64 K) (hK : 0 ≤ K) (ha : |a| ≤ J) (hJ : J = K * lo) (h0 : 0 < lo) (hv : lo ≤ v) :
    ∃ r, A.div (.fin a) (.fin v) = .fin r ∧ F64 r ∧ |r| ≤ K := by
  have v0 : 0 < v := h0.trans_le hv
  have hab : |a / v| ≤ K := by
    rw [abs_div, abs_of_pos v0, div_le_iff₀ v0]
    exact (ha.trans hJ.le).trans (mul_le_mul_of_nonneg_left hv hK)
  obtain ⟨r, er, rr, r1, r2⟩ := rnd_div hA (a := a) v0.ne' (f64_neg FK) FK (abs_le.mp hab).1 (abs_le.mp hab).2
  exact ⟨r, er, rr.f, abs_le.mpr ⟨r1, r2⟩⟩

theorem div_pos_num (hA : IsBinary64 A) {a v K lo : ℝ} (FK : F64 K) (hK : 0 ≤ K) (a0 : 0 ≤ a) (a1 : a ≤ 1) (hJ : 1 = K * lo) (h0 : 0 < lo) (hv : lo ≤ v) :
    ∃ r, A.div (.fin a) (.fin v) = .fin r ∧ F64 r ∧ 0 ≤ r ∧ r ≤ K := by
  have v0 : 0 < v := h0.trans_le hv
  obtain ⟨r, er, rr, r1, r2⟩ := rnd_div hA (a := a) v0.ne' f64_zero FK (by positivity) (by
    rw [div_le_iff₀ v0]
    exact (a1.trans hJ.le).trans (mul_le_mul_of_nonneg_left hv hK))
  exact ⟨r, er, rr.f, r1, r2⟩

theorem prec_add (hA : IsBinary64 A) {p b K L : ℝ} (hp : F64 p) (F : F64 (K + L)) (b0 : 0 ≤ b) (p1 : p ≤ K) (b1 : b ≤ L) :
    ∃ r, A.add (.fin p) (.fin b) = .fin r ∧ F64 r ∧ p ≤ r ∧ r ≤ K + L := by
  obtain ⟨r, er, rr, r1, r2⟩ := rnd_add hA (a := p) (b := b) hp F (by linarith) (by linarith)
  exact ⟨r, er, rr.f, r1, r2⟩

theorem cast_succ_mul (j : ℕ) (Q : ℝ) : ((j + 1 : ℕ) : ℝ) * Q = j * Q + Q := by push_cast; ring

/-- State of the backward part with `current_index_ = c`, after `j` observations. -/
structure PCoef (A : Arith) (s : FKF1) (c j : ℕ) : Prop where
  safe : PSafe A s
  cur : s.cur = c
  slope : ∃ g, s.yslope = .fin g ∧ F64 g ∧ 0 ≤ g ∧ g ≤ 1
  const : ∃ k, s.yconst = .fin k ∧ |k| ≤ j * 2 ^ (300 : ℤ)
  last : ∃ v e E, s.var[c - 1]? = some (.fin v) ∧ s.yerr[c - 1]? = some (.fin e) ∧ A.mul (.fin e) (.fin e) = .fin E ∧ F64 v ∧
    2 ^ (-298 : ℤ) ≤ E ∧ E ≤ v ∧ v ≤ 4 * 2 ^ (298 : ℤ)

/-- error variance of an observation -/
theorem PSafe.err {s : FKF1} (h : PSafe A s) {i : ℕ} (hi : i < s.time.length) :
    ∃ e E, s.yerr[i]? = some (.fin e) ∧ A.mul (.fin e) (.fin e) = .fin E ∧ 2 ^ (-298 : ℤ) ≤ E ∧ E ≤ 2 ^ (298 : ℤ) := by
  obtain ⟨e, E, h1, h2, h3⟩ := h.lo i hi
  obtain ⟨e', E', h1', h2', -, h4⟩ := h.es i hi
  rw [h1] at h1'
  injection h1' with h1'; injection h1' with h1'; subst h1'
  rw [h2] at h2'; injection h2' with h2'; subst h2'
  exact ⟨e, E, h1, h2, h3, h4⟩

theorem PSafe.statv {s : FKF1} (h : PSafe A s) :
    ∃ S, A.div s.sigsqr (A.mul (.fin 2) s.omega) = .fin S ∧ 2 ^ (-298 : ℤ) ≤ S ∧ S ≤ 2 ^ (298 : ℤ) := by
  obtain ⟨S, h1, h2⟩ := h.statlo
  obtain ⟨S', h1', -, h4⟩ := h.stat
  rw [h1] at h1'; injection h1' with h1'; subst h1'
  exact ⟨S, h1, h2, h4⟩

theorem rdU_some {α : Type} {l : List α} {i : ℕ} {x : α} (h : l[i]? = some x) : rdU l i = .ok x := by
  simp [rdU, h]

theorem p298_pos : (0 : ℝ) < 2 ^ (-298 : ℤ) := by positivity

theorem f64_4_298 : F64 (4 * 2 ^ (298 : ℤ)) := by
  simpa using f64_nat_zpow 4 298 (by norm_num) (by omega) (by omega)

/-- `InitializeCoefs` -/
theorem initCoefs_num (hA : IsBinary64 A) {s : FKF1} (h : PSafe A s) {x : ℝ} {i : ℕ} (hi : i < s.time.length) :
    ∃ s', FKF1.initCoefs A s (.fin x) i = .ok s' ∧ PCoef A s' (i + 1) 0 := by
  obtain ⟨w, ew, Fw, w0⟩ := h.omega
  obtain ⟨S, eS, S0, S1⟩ := h.statv
  obtain ⟨t, et⟩ := h.times i hi
  obtain ⟨e, E, ee, eE, E0, E1⟩ := h.err hi
  obtain ⟨g, eg, Fg, g0, g1⟩ := decay_num hA w0 (gap_abs hA x t)
  have hp := p298_pos
  obtain ⟨rr, err, -, rr0, rr1⟩ := mul01_pos hA f64_one g0 g1 g0 g1
  obtain ⟨c, ec, -, c0, c1⟩ := one_sub_num hA rr0 rr1
  have FB : F64 (2 ^ (298 : ℤ)) := f64_zpow _ (by omega) (by omega)
  have hB : (0 : ℝ) < 2 ^ (298 : ℤ) := by positivity
  obtain ⟨q, eq, -, q0, q1⟩ := mul01_pos hA FB (hp.le.trans S0) S1 c0 c1
  obtain ⟨v, ev, Fv, v0, v1⟩ := var_sum hA (hA.range _ _ eE) f64_4_298 q0 (q1.trans (le_mul_of_one_le_left hB.le (by norm_num))) E1
  have lv : i < s.var.length := by rw [h.lvar]; exact hi
  refine ⟨{ s with yconst := .fin 0, yslope := .fin g, var := s.var.set i (.fin v), cur := i + 1 }, ?_, ?_⟩
  · simp only [FKF1.initCoefs, rd_some et, res_bind_ok, ew, eg, rd_some ee, err, ec, eE]
    rw [ew] at eS
    rw [eS, eq, ev, wrU_ok lv, res_bind_ok]
    rfl
  · refine ⟨h.same ⟨rfl, rfl, rfl, rfl, rfl, rfl, rfl, by simp⟩, rfl, ⟨g, rfl, Fg, g0, g1⟩, ⟨0, rfl, by simp⟩, ?_⟩
    exact ⟨v, e, E, by simp [lv], ee, eE, Fv, E0, v0, v1⟩

/-- `UpdateCoefs` -/
theorem updateCoefs_num (hA : IsBinary64 A) {s : FKF1} {c j : ℕ} (h : PCoef A s c j) (hc : 0 < c) (hcn : c < s.time.length)
    (hj : j + 1 < 2 ^ 53) : ∃ s', FKF1.updateCoefs A s = .ok s' ∧ PCoef A s' (c + 1) (j + 1) ∧ KSame s s' := by
  have hs := h.safe
  obtain ⟨w, ew, Fw, w0⟩ := hs.omega
  obtain ⟨S, eS, S0, S1⟩ := hs.statv
  obtain ⟨g, eg, Fg, g0, g1⟩ := h.slope
  obtain ⟨κ, eκ, hκ⟩ := h.const
  obtain ⟨v, e, E, ev, ee, eE, Fv, E0, Ev, v1⟩ := h.last
  obtain ⟨e2, E2, ee2, eE2, E20, E21⟩ := hs.err hcn
  obtain ⟨y, ey, hy⟩ := hs.ys (c - 1) (by omega)
  have hdl : c - 1 < s.dt.length := by have := hs.ldt; omega
  obtain ⟨ρ, eρ, Fρ, ρ0, ρ1⟩ := decay2_num hA w0 (hs.dts _ (List.getElem_mem hdl))
  have hp := p298_pos
  have hS0 : 0 ≤ S := hp.le.trans S0
  obtain ⟨P, γ, M, V, eP, eγ, -, -, -, eV, FV, V0, V1⟩ := step_num hA (a := 300) (b := 298) (by norm_num) (by norm_num) (by norm_num) (by norm_num)
    (m := 0) Fρ ρ0 ρ1 f64_zero (by rw [abs_zero]; positivity) hy Fv (hp.le.trans E0) (hp.trans_le (E0.trans Ev)) Ev v1 hS0 S1
  obtain ⟨γ0, γ1⟩ := gain_num hA Fv (hp.trans_le (E0.trans Ev)) (hp.le.trans E0) Ev eP eγ
  obtain ⟨k, ek, -, k0, k1⟩ := one_sub_num hA γ0 γ1
  obtain ⟨ρk, eρk, -, ρk0, ρk1⟩ := mul01_pos hA f64_one ρ0 ρ1 k0 k1
  obtain ⟨g2, eg2, Fg2, g20, g21⟩ := mul01_pos hA f64_one g0 g1 ρk0 ρk1
  have FJ : F64 (j * 2 ^ (300 : ℤ)) := f64_nat_zpow j _ (by omega) (by omega) (by omega)
  have FJ1 : F64 ((j + 1 : ℕ) * 2 ^ (300 : ℤ)) := f64_nat_zpow (j + 1) _ hj (by omega) (by omega)
  have eJ1 := cast_succ_mul j (2 ^ (300 : ℤ))
  rw [eJ1] at FJ1
  obtain ⟨a, ea, -, a1⟩ := mul01_abs hA FJ hκ ρ0 ρ1
  obtain ⟨b, eb, -, b1⟩ := mul01_abs hA FJ a1 k0 k1
  obtain ⟨d, ed, -, d0, d1⟩ := mul01_pos hA f64_one ρ0 ρ1 γ0 γ1
  obtain ⟨f, ef, -, f1⟩ := mul01_abs' hA f64_300 hy d0 d1
  obtain ⟨κ', eκ', -, hκ'⟩ := add_abs_num hA FJ1 b1 f1
  obtain ⟨v', ev', Fv', v0', v1'⟩ := var_sum hA (hA.range _ _ eE2) f64_4_298 V0 V1 E21
  have l2 : c < s.var.length := by rw [hs.lvar]; exact hcn
  have hpi : prevIdx c = .ok (c - 1) := by simp [prevIdx]; omega
  have hd : rd s.dt (c - 1) = .ok s.dt[c - 1] := rd_some (List.getElem?_eq_getElem hdl)
  have ks : KSame s { s with yconst := .fin κ', yslope := .fin g2, var := s.var.set c (.fin v'), cur := c + 1 } :=
    ⟨rfl, rfl, rfl, rfl, rfl, rfl, rfl, by simp⟩
  refine ⟨_, ?_, ?_, ks⟩
  · rw [ew] at eS
    simp only [FKF1.updateCoefs, h.cur, hpi, res_bind_ok, hd, rd_some ev, rd_some ee, rdU_some ey, ew, eS, eρ, eE, eP, eγ, eg, eκ, ek, eρk, eg2,
      ea, eb, ed, ef, eκ', rd_some ee2, eE2]
    have e1 := eV
    simp only [ek] at e1
    rw [e1, ev', wr_ok l2, res_bind_ok]
    rfl
  · refine ⟨hs.same ks, rfl, ⟨g2, rfl, Fg2, g20, g21⟩, ⟨κ', rfl, ?_⟩, ?_⟩
    · rw [eJ1]; exact hκ'
    · exact ⟨v', e2, E2, by simp [l2], ee2, eE2, Fv', E20, v0', v1'⟩

/-- size of the sums after `j` terms; the precision never falls below `p0` -/
structure PAcc (p0 : ℝ) (acc : Dbl × Dbl) (j : ℕ) : Prop where
  prec : ∃ p, acc.1 = .fin p ∧ F64 p ∧ p0 ≤ p ∧ p ≤ j * 2 ^ (351 : ℤ)
  sum : ∃ q, acc.2 = .fin q ∧ |q| ≤ j * 2 ^ (652 : ℤ)

theorem accum_num (hA : IsBinary64 A) {s : FKF1} {c j : ℕ} (h : PCoef A s (c + 1) j) (hc : c < s.time.length) {p0 : ℝ} {acc : Dbl × Dbl} {k : ℕ}
    (ha : PAcc p0 acc k) (hk : k + 1 < 2 ^ 53) (hj : j + 1 < 2 ^ 53) : ∃ acc', FKF1.accum A s c acc = .ok acc' ∧ PAcc p0 acc' (k + 1) := by
  obtain ⟨g, eg, Fg, g0, g1⟩ := h.slope
  obtain ⟨κ, eκ, hκ⟩ := h.const
  obtain ⟨v, e, E, ev, ee, eE, Fv, E0, Ev, v1⟩ := h.last
  rw [Nat.add_sub_cancel] at ev
  obtain ⟨y, ey, hy⟩ := h.safe.ys c hc
  obtain ⟨p, ep, Fp, p1, p2⟩ := ha.prec
  obtain ⟨q, eq, hq⟩ := ha.sum
  have hv : 2 ^ (-298 : ℤ) ≤ v := E0.trans Ev
  have hp := p298_pos
  have FB : F64 (2 ^ (298 : ℤ)) := f64_zpow _ (by omega) (by omega)
  have pp : (1 : ℝ) = 2 ^ (298 : ℤ) * 2 ^ (-298 : ℤ) := by rw [pw_mul 298 (-298) 0 (by norm_num)]; norm_num
  obtain ⟨a, ea, -, a0, a1⟩ := mul01_pos hA f64_one g0 g1 g0 g1
  obtain ⟨b, eb, -, b0, b1⟩ := div_pos_num hA FB (by positivity) a0 a1 pp hp hv
  have F351 : F64 ((k + 1 : ℕ) * 2 ^ (351 : ℤ)) := f64_nat_zpow (k + 1) _ hk (by omega) (by omega)
  rw [cast_succ_mul] at F351
  obtain ⟨p', ep', Fp', p1', p2'⟩ := prec_add hA Fp F351 b0 p2 (b1.trans (pw_le 298 351 (by norm_num)))
  -- the weighted sum
  have FJ1 : F64 ((j + 1 : ℕ) * 2 ^ (300 : ℤ)) := f64_nat_zpow (j + 1) _ hj (by omega) (by omega)
  have eJ1 : ((j + 1 : ℕ) : ℝ) * 2 ^ (300 : ℤ) = 2 ^ (300 : ℤ) + j * 2 ^ (300 : ℤ) := by rw [cast_succ_mul, add_comm]
  rw [eJ1] at FJ1
  obtain ⟨d, ed, -, d1⟩ := sub_abs_num hA FJ1 hy hκ
  obtain ⟨f, ef, -, f1⟩ := mul01_abs' hA FJ1 d1 g0 g1
  have F598 : F64 ((j + 1 : ℕ) * 2 ^ (598 : ℤ)) := f64_nat_zpow (j + 1) _ hj (by omega) (by omega)
  obtain ⟨t, et, -, t1⟩ := div_abs_num hA F598 (by positivity) f1 (by
    rw [← eJ1, mul_assoc, pw_mul 598 (-298) 300 (by norm_num)]) hp hv
  have l652 : ((j + 1 : ℕ) : ℝ) * 2 ^ (598 : ℤ) ≤ 2 ^ (652 : ℤ) := by
    have h1 : ((j + 1 : ℕ) : ℝ) ≤ 2 ^ (54 : ℤ) := by
      have : (j + 1 : ℕ) ≤ 2 ^ 54 := by omega
      have h2 : ((j + 1 : ℕ) : ℝ) ≤ ((2 ^ 54 : ℕ) : ℝ) := by exact_mod_cast this
      exact h2.trans_eq (by norm_num)
    rw [← pw_mul 54 598 652 (by norm_num)]
    exact mul_le_mul_of_nonneg_right h1 (by positivity)
  have F652 : F64 ((k + 1 : ℕ) * 2 ^ (652 : ℤ)) := f64_nat_zpow (k + 1) _ hk (by omega) (by omega)
  rw [cast_succ_mul] at F652
  obtain ⟨q', eq', -, hq'⟩ := add_abs_num hA F652 hq (t1.trans l652)
  refine ⟨(.fin p', .fin q'), ?_, ⟨p', rfl, Fp', p1.trans p1', by rw [cast_succ_mul]; exact p2'⟩, ⟨q', rfl, by rw [cast_succ_mul]; exact hq'⟩⟩
  simp only [FKF1.accum, rd_some ev, rd_some ey, res_bind_ok, eg, eκ, ea, eb, ep, ep', ed, ef, et, eq, eq']
  rfl

/-- the loop over the later observations -/
theorem coefLoop_num (hA : IsBinary64 A) {p0 : ℝ} : ∀ {k i j l : ℕ} {s : FKF1} {acc : Dbl × Dbl}, PCoef A s i j → 0 < i → i + k = s.time.length →
    PAcc p0 acc l → j + k + 1 < 2 ^ 53 → l + k < 2 ^ 53 → ∃ s' acc', FKF1.coefLoop A k i s acc = .ok (s', acc') ∧ PAcc p0 acc' (l + k)
  | 0, i, j, l, s, acc, _, _, _, ha, _, _ => ⟨s, acc, rfl, ha⟩
  | k + 1, i, j, l, s, acc, h, h0, hi, ha, hj, hl => by
      obtain ⟨s1, e1, h1, ks⟩ := updateCoefs_num hA h h0 (by omega) (by omega)
      obtain ⟨acc1, e2, h2⟩ := accum_num hA h1 (by rw [ks.time]; omega) ha (by omega) (by omega)
      obtain ⟨s', acc', e3, h3⟩ := coefLoop_num hA (k := k) h1 (by omega) (by rw [ks.time]; omega) h2 (by omega) (by omega)
      refine ⟨s', acc', ?_, ?_⟩
      · rw [FKF1.coefLoop, e1, res_bind_ok, e2, res_bind_ok, e3]
      · rwa [show l + (k + 1) = l + 1 + k by omega]

/-- From a finite positive variance given the past to the result. -/
theorem finish_num (hA : IsBinary64 A) {s : FKF1} (h : PSafe A s) {x m v : ℝ} {i : ℕ} (hi : i < s.time.length) (hm : |m| ≤ 2 * 2 ^ (300 : ℤ))
    (v0 : 2 ^ (-351 : ℤ) ≤ v) (v1 : v ≤ 2 ^ (300 : ℤ)) :
    ∃ s3 acc s4 acc' μ pv, FKF1.initCoefs A s (.fin x) i = .ok s3 ∧ s3.time = s.time ∧
      FKF1.accum A s3 i (A.div (.fin 1) (.fin v), A.mul (.fin m) (A.div (.fin 1) (.fin v))) = .ok acc ∧
      FKF1.coefLoop A (s3.time.length - (i + 1)) (i + 1) s3 acc = .ok (s4, acc') ∧ A.div (.fin 1) acc'.1 = .fin pv ∧
      A.mul acc'.2 (.fin pv) = .fin μ ∧ 0 < pv ∧ pv ≤ 2 ^ (300 : ℤ) := by
  have pos : (0 : ℝ) < 2 ^ (-351 : ℤ) := by positivity
  have hv : 0 < v := pos.trans_le v0
  have F351 : F64 (2 ^ (351 : ℤ)) := f64_zpow _ (by omega) (by omega)
  have pp : (2 : ℝ) ^ (351 : ℤ) * 2 ^ (-351 : ℤ) = 1 := by rw [pw_mul 351 (-351) 0 (by norm_num)]; norm_num
  have pp' : (2 : ℝ) ^ (-300 : ℤ) * 2 ^ (300 : ℤ) = 1 := by rw [pw_mul (-300) 300 0 (by norm_num)]; norm_num
  obtain ⟨p, ep, rp, p1, p2⟩ := rnd_div hA (a := 1) hv.ne' f64_m300 F351
    (by rw [le_div_iff₀ hv, ← pp']; exact mul_le_mul_of_nonneg_left v1 (by positivity))
    (by rw [div_le_iff₀ hv, ← pp]; exact mul_le_mul_of_nonneg_left v0 (by positivity))
  have p0 : 0 < p := lt_of_lt_of_le (by positivity) p1
  have F652 : F64 (2 ^ (652 : ℤ)) := f64_zpow _ (by omega) (by omega)
  have hmp : |m * p| ≤ 2 ^ (652 : ℤ) := by
    rw [abs_mul, abs_of_pos p0, ← pw_mul 301 351 652 (by norm_num), ← pw_two 300 301 (by norm_num)]
    exact mul_le_mul hm p2 p0.le (by positivity)
  obtain ⟨q, eq, rq, q1, q2⟩ := rnd_mul hA (a := m) (b := p) (f64_neg F652) F652 (abs_le.mp hmp).1 (abs_le.mp hmp).2
  obtain ⟨s3, e3, h3⟩ := initCoefs_num hA h (x := x) hi
  have ks := initCoefs_ksame e3
  have ha : PAcc p (.fin p, .fin q) 1 := ⟨⟨p, rfl, rp.f, le_rfl, by simpa using p2⟩, ⟨q, rfl, by simpa using abs_le.mpr ⟨q1, q2⟩⟩⟩
  have hmax := h.max
  obtain ⟨acc, e4, h4⟩ := accum_num hA h3 (by rw [ks.time]; exact hi) ha (by norm_num) (by norm_num)
  obtain ⟨s4, acc', e5, h5⟩ := coefLoop_num hA (k := s3.time.length - (i + 1)) h3 (by omega) (by rw [ks.time]; omega) h4 (by rw [ks.time]; omega)
    (by rw [ks.time]; omega)
  obtain ⟨P, eP, FP, P1, P2⟩ := h5.prec
  obtain ⟨Q, eQ, hQ⟩ := h5.sum
  have P0 : 0 < P := p0.trans_le P1
  have F300 := f64_300
  have hlen : ((1 + 1 + (s3.time.length - (i + 1)) : ℕ) : ℝ) ≤ 2 ^ (53 : ℤ) := by
    have h1 : 1 + 1 + (s3.time.length - (i + 1)) ≤ 2 ^ 53 := by rw [ks.time]; omega
    have h2 : ((1 + 1 + (s3.time.length - (i + 1)) : ℕ) : ℝ) ≤ ((2 ^ 53 : ℕ) : ℝ) := by exact_mod_cast h1
    refine h2.trans_eq (by norm_num)
  have F404 : F64 (2 ^ (-404 : ℤ)) := f64_zpow _ (by omega) (by omega)
  have pp4 : (2 : ℝ) ^ (-404 : ℤ) * 2 ^ (404 : ℤ) = 1 := by rw [pw_mul (-404) 404 0 (by norm_num)]; norm_num
  have pp3 : (2 : ℝ) ^ (300 : ℤ) * 2 ^ (-300 : ℤ) = 1 := by rw [pw_mul 300 (-300) 0 (by norm_num)]; norm_num
  obtain ⟨pv, epv, rpv, pv1, pv2⟩ := rnd_div hA (a := 1) P0.ne' F404 F300
    (by
      rw [le_div_iff₀ P0, ← pp4, ← pw_mul 53 351 404 (by norm_num)]
      exact mul_le_mul_of_nonneg_left (P2.trans (mul_le_mul_of_nonneg_right hlen (by positivity))) (by positivity))
    (by rw [div_le_iff₀ P0, ← pp3]; exact mul_le_mul_of_nonneg_left (p1.trans P1) (by positivity))
  have pv0 : 0 < pv := lt_of_lt_of_le (by positivity) pv1
  have FX : F64 (2 ^ (1005 : ℤ)) := by
    have := f64_nat_zpow (2 ^ 34) 971 (by norm_num) (by omega) (by omega)
    rwa [show ((2 ^ 34 : ℕ) : ℝ) = 2 ^ (34 : ℤ) by norm_num, pw_mul 34 971 1005 (by norm_num)] at this
  have hX : |Q * pv| ≤ 2 ^ (1005 : ℤ) := by
    rw [← pw_mul 705 300 1005 (by norm_num), ← pw_mul 53 652 705 (by norm_num), abs_mul, abs_of_pos pv0]
    exact mul_le_mul (hQ.trans (mul_le_mul_of_nonneg_right hlen (by positivity))) pv2 pv0.le (by positivity)
  obtain ⟨μ, eμ, -, -, -⟩ := rnd_mul hA (a := Q) (b := pv) (f64_neg FX) FX (abs_le.mp hX).1 (abs_le.mp hX).2
  exact ⟨s3, acc, s4, acc', μ, pv, e3, ks.time, by rw [ep, eq, e4], e5, by rw [eP, epv], by rw [eQ, eμ], pv0, pv2⟩

end Verif.Theory
