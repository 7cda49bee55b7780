import Verif.Theory.FPredRun
import Verif.Theory.FErr

/-!
The CAR(1) filter in binary64 arithmetic on data with error-free points among them, as `Simulate` leaves them: the forward pass.
-/

namespace Verif.Theory

open Verif.Model Verif.Spec
open scoped Classical

variable {A : Arith}

/-! ### the mean -/

theorem mean_up {B Y m y ρ g m1 d t : ℝ} (FB : F64 B) (B0 : 2 ^ (-900 : ℤ) ≤ B) (B1 : B ≤ 2 ^ (900 : ℤ)) (hYB : Y + 8 * uu * B ≤ B)
    (hρ0 : 0 ≤ ρ) (hρ1 : ρ ≤ 1) (hg0 : 0 ≤ g) (hg : g ≤ ρ) (hm : |m| ≤ B) (hy : |y| ≤ Y) (hm1 : Rounds (ρ * m) m1)
    (hd : Rounds (y - m) d) (ht : Rounds (g * d) t) : m1 + t ≤ B := by
  obtain ⟨m2, m3⟩ := abs_le.mp hm
  obtain ⟨y2, y3⟩ := abs_le.mp hy
  have hB : 0 < B := lt_of_lt_of_le (by positivity) B0
  have u0 := uu_pos
  have u1 := uu_small
  have uB : 0 < uu * B := by positivity
  have uB1 : uu * B ≤ B / 1000000 := by nlinarith
  have c0 : (2 : ℝ) ^ (-1000 : ℤ) ≤ B := (zpow_le_zpow_right₀ (by norm_num) (by norm_num)).trans B0
  have c1 : 3 * B ≤ 2 ^ (1001 : ℤ) := by
    have : (2 : ℝ) ^ (1001 : ℤ) = 2 ^ (101 : ℤ) * 2 ^ (900 : ℤ) := by rw [← zpow_add₀ (by norm_num)]; norm_num
    have h3 : (3 : ℝ) ≤ 2 ^ (101 : ℤ) := by norm_num
    rw [this]
    exact mul_le_mul h3 B1 hB.le (by positivity)
  rcases le_total y m with h | h
  · have d0 : d ≤ 0 := hd.le f64_zero (by linarith)
    have t0 : t ≤ 0 := ht.le f64_zero (mul_nonpos_of_nonneg_of_nonpos hg0 d0)
    have : m1 ≤ B := hm1.le FB (by nlinarith)
    linarith
  · have e1 := rounds_err hm1 (X := B) (by rw [abs_mul, abs_of_nonneg hρ0]; nlinarith [abs_nonneg m]) c0 (le_trans (by linarith : B ≤ 3 * B) c1)
    have e2 := rounds_err hd (X := 2 * B) (by rw [abs_le]; constructor <;> nlinarith)
      (c0.trans (by linarith)) (le_trans (by linarith : 2 * B ≤ 3 * B) c1)
    have k2 := abs_le.mp e2
    have d0 : 0 ≤ d := hd.ge f64_zero (by linarith)
    have d3 : d ≤ 3 * B := by nlinarith
    have e3 := rounds_err ht (X := 3 * B) (by rw [abs_of_nonneg (by positivity)]; nlinarith) (c0.trans (by linarith)) c1
    have k1 := abs_le.mp e1
    have k3 := abs_le.mp e3
    have a1 : g * d ≤ g * (y - m) + 2 * (uu * B) := by
      have : g * (d - (y - m)) ≤ 1 * (2 * (uu * B)) := by
        refine (mul_le_mul_of_nonneg_left (by nlinarith : d - (y - m) ≤ 2 * (uu * B)) hg0).trans ?_
        exact mul_le_mul_of_nonneg_right (hg.trans hρ1) (by positivity)
      nlinarith
    have a2 : g * (y - m) ≤ ρ * (y - m) := mul_le_mul_of_nonneg_right hg (by linarith)
    have a3 : ρ * y ≤ Y := by
      have := abs_nonneg y
      nlinarith [le_abs_self y]
    nlinarith

theorem mean_both {B Y m y ρ g m1 d t : ℝ} (FB : F64 B) (B0 : 2 ^ (-900 : ℤ) ≤ B) (B1 : B ≤ 2 ^ (900 : ℤ)) (hYB : Y + 8 * uu * B ≤ B)
    (hρ0 : 0 ≤ ρ) (hρ1 : ρ ≤ 1) (hg0 : 0 ≤ g) (hg : g ≤ ρ) (hm : |m| ≤ B) (hy : |y| ≤ Y) (hm1 : Rounds (ρ * m) m1)
    (hd : Rounds (y - m) d) (ht : Rounds (g * d) t) : -B ≤ m1 + t ∧ m1 + t ≤ B := by
  refine ⟨?_, mean_up FB B0 B1 hYB hρ0 hρ1 hg0 hg hm hy hm1 hd ht⟩
  have e1 := hm1.neg
  have e2 := hd.neg
  have e3 := ht.neg
  rw [← mul_neg] at e1 e3
  rw [show -(y - m) = -y - -m by ring] at e2
  have := mean_up FB B0 B1 hYB hρ0 hρ1 hg0 hg (by rwa [abs_neg]) (by rwa [abs_neg]) e1 e2 e3
  linarith

theorem mean_num (hA : IsBinary64 A) {B Y m y ρ g : ℝ} (FB : F64 B) (B0 : 2 ^ (-900 : ℤ) ≤ B) (B1 : B ≤ 2 ^ (900 : ℤ)) (hYB : Y + 8 * uu * B ≤ B)
    (hρ : F64 ρ) (hρ0 : 0 ≤ ρ) (hρ1 : ρ ≤ 1) (hg0 : 0 ≤ g) (hg1 : g ≤ 1) (hm : |m| ≤ B) (hy : |y| ≤ Y) :
    ∃ M, A.add (A.mul (.fin ρ) (.fin m)) (A.mul (A.mul (.fin ρ) (.fin g)) (A.sub (.fin y) (.fin m))) = .fin M ∧ F64 M ∧ |M| ≤ B := by
  obtain ⟨m2, m3⟩ := abs_le.mp hm
  obtain ⟨y2, y3⟩ := abs_le.mp hy
  have hB : 0 < B := lt_of_lt_of_le (by positivity) B0
  have u0 := uu_pos
  have hY : Y ≤ B := by nlinarith
  obtain ⟨T, F9, h9⟩ : ∃ T, F64 T ∧ 2 * B ≤ T := by
    refine ⟨2 ^ (902 : ℤ), f64_zpow _ (by omega) (by omega), ?_⟩
    rw [← pw_mul 2 900 902 (by norm_num)]
    exact mul_le_mul (by norm_num) B1 hB.le (by positivity)
  obtain ⟨m1, em1, rm1, -, -⟩ := rnd_mul hA (a := ρ) (b := m) (f64_neg FB) FB (by nlinarith) (by nlinarith)
  obtain ⟨d, ed, rd, d0, d1⟩ := rnd_sub hA (a := y) (b := m) (f64_neg F9) F9 (by linarith) (by linarith)
  obtain ⟨h, eh, rh, h0, h1⟩ := rnd_mul hA (a := ρ) (b := g) f64_zero hρ (by positivity) (by nlinarith)
  have h1' : h ≤ 1 := h1.trans hρ1
  obtain ⟨t, et, rt, -, -⟩ := rnd_mul hA (a := h) (b := d) (f64_neg F9) F9
    (by rcases le_total 0 d with k | k <;> nlinarith) (by rcases le_total 0 d with k | k <;> nlinarith)
  obtain ⟨s1, s2⟩ := mean_both FB B0 B1 hYB hρ0 hρ1 h0 h1 hm hy rm1 rd rt
  obtain ⟨M, eM, rM, M0, M1⟩ := rnd_add hA (f64_neg FB) FB s1 s2
  exact ⟨M, by rw [em1, eh, ed, et, eM], rM.f, abs_le.mpr ⟨M0, M1⟩⟩

/-! ### sizes -/

/-- bound on the means when the values are bounded by `n 2^400` -/
theorem size_num {n : ℕ} (h0 : 0 < n) (h1 : n + 1 ≤ 2 ^ 25) : F64 ((n + 1 : ℕ) * 2 ^ (400 : ℤ)) ∧ (2 : ℝ) ^ (-900 : ℤ) ≤ (n + 1 : ℕ) * 2 ^ (400 : ℤ) ∧
    ((n + 1 : ℕ) : ℝ) * 2 ^ (400 : ℤ) ≤ 2 ^ (900 : ℤ) ∧
    (n : ℝ) * 2 ^ (400 : ℤ) + 8 * uu * ((n + 1 : ℕ) * 2 ^ (400 : ℤ)) ≤ (n + 1 : ℕ) * 2 ^ (400 : ℤ) := by
  have hn : ((n + 1 : ℕ) : ℝ) ≤ 2 ^ (25 : ℤ) := by
    have : ((n + 1 : ℕ) : ℝ) ≤ ((2 ^ 25 : ℕ) : ℝ) := by exact_mod_cast h1
    exact this.trans_eq (by norm_num)
  have hn1 : (1 : ℝ) ≤ ((n + 1 : ℕ) : ℝ) := by push_cast; linarith [Nat.cast_nonneg (α := ℝ) n]
  have hp : (0 : ℝ) < 2 ^ (400 : ℤ) := by positivity
  refine ⟨f64_nat_zpow _ _ (by omega) (by norm_num) (by norm_num), ?_, ?_, ?_⟩
  · refine (pw_le (-900) 400 (by norm_num)).trans ?_
    exact le_mul_of_one_le_left hp.le hn1
  · refine le_trans (mul_le_mul_of_nonneg_right hn hp.le) ?_
    rw [pw_mul 25 400 425 (by norm_num)]
    exact pw_le _ _ (by norm_num)
  · have h8 : 8 * uu * ((n + 1 : ℕ) : ℝ) ≤ 1 := by
      have : 8 * uu * ((n + 1 : ℕ) : ℝ) ≤ 8 * uu * 2 ^ (25 : ℤ) := mul_le_mul_of_nonneg_left hn (by have := uu_pos; positivity)
      refine this.trans ?_
      unfold uu; norm_num
    have := mul_le_mul_of_nonneg_right h8 hp.le
    rw [one_mul] at this
    rw [← mul_assoc (8 * uu)]
    exact (add_le_add le_rfl this).trans (cast_succ_mul n _).ge

/-- What is assumed of the filter: as `FSafe`, but with error-free points allowed where the decay factor since the preceding point is not
rounded to 1. -/
structure SFwd (A : Arith) (n : ℕ) (s : FKF1) : Prop where
  pos : 0 < s.time.length
  ldt : s.time.length ≤ s.dt.length + 1
  lmean : s.mean.length = s.time.length
  lvar : s.var.length = s.time.length
  omega : ∃ w, s.omega = .fin w ∧ F64 w ∧ 0 < w
  stat : ∃ S, A.div s.sigsqr (A.mul (.fin 2) s.omega) = .fin S ∧ 2 ^ (-102 : ℤ) ≤ S ∧ S ≤ 2 ^ (102 : ℤ)
  dts : ∀ d ∈ s.dt, Gap d
  ys : ∀ i < s.time.length, ∃ x, s.y[i]? = some (.fin x) ∧ |x| ≤ n * 2 ^ (400 : ℤ)
  es : ∀ i < s.time.length, ∃ e E, s.yerr[i]? = some (.fin e) ∧ A.mul (.fin e) (.fin e) = .fin E ∧ 0 ≤ E ∧ E ≤ 2 ^ (102 : ℤ) ∧
    (0 < i → E = 0 → ∀ d, s.dt[i - 1]? = some d → A.exp (A.mul (A.mul (.fin (-1)) s.omega) d) ≠ .fin 1)

theorem SFwd.same {n : ℕ} {s s' : FKF1} (h : SFwd A n s) (k : KSame s s') : SFwd A n s' := by
  refine ⟨by rw [k.time]; exact h.pos, by rw [k.time, k.dt]; exact h.ldt, by rw [k.time, k.lmean]; exact h.lmean, by rw [k.time, k.lvar]; exact h.lvar,
    by rw [k.omega]; exact h.omega, by rw [k.sigsqr, k.omega]; exact h.stat, by rw [k.dt]; exact h.dts, by rw [k.time, k.y]; exact h.ys, ?_⟩
  rw [k.time, k.yerr, k.dt, k.omega]; exact h.es

/-- bounds on the entries of index `i` -/
def SBound (A : Arith) (n : ℕ) (s : FKF1) (i : ℕ) : Prop :=
  ∃ m v e E, s.mean[i]? = some (.fin m) ∧ s.var[i]? = some (.fin v) ∧ s.yerr[i]? = some (.fin e) ∧ A.mul (.fin e) (.fin e) = .fin E ∧
    |m| ≤ (n + 1 : ℕ) * 2 ^ (400 : ℤ) ∧ F64 v ∧ 0 < v ∧ E ≤ v ∧ v ≤ 4 * 2 ^ (102 : ℤ)

/-- state after `c` entries are filled in -/
structure SDone (A : Arith) (n : ℕ) (s0 s : FKF1) (c : ℕ) : Prop where
  same : KSame s0 s
  cur : s.cur = c
  bound : ∀ i < c, SBound A n s i

theorem f64_4_102 : F64 (4 * 2 ^ (102 : ℤ)) := by
  simpa using f64_nat_zpow 4 102 (by norm_num) (by omega) (by omega)

theorem sReset (hA : IsBinary64 A) {n : ℕ} {s : FKF1} (h : SFwd A n s) : ∃ s', FKF1.reset A s = .ok s' ∧ SDone A n s s' 1 := by
  have hB : (0 : ℝ) < 2 ^ (102 : ℤ) := by positivity
  have hS : (0 : ℝ) < 2 ^ (-102 : ℤ) := by positivity
  obtain ⟨S, eS, S0, S1⟩ := h.stat
  obtain ⟨e, E, he, eE, E0, E1, -⟩ := h.es 0 h.pos
  have FE : F64 E := hA.range _ _ eE
  have FS : F64 (2 ^ (-102 : ℤ)) := f64_zpow _ (by omega) (by omega)
  obtain ⟨V, eV, FV, V0, V1⟩ := var_sum hA FE f64_4_102 (hS.le.trans S0) (S1.trans (by linarith)) E1
  have VS : 2 ^ (-102 : ℤ) ≤ V := (rnd_rounds hA eV).ge FS (by linarith)
  have l1 : 0 < s.mean.length := by rw [h.lmean]; exact h.pos
  have l2 : 0 < s.var.length := by rw [h.lvar]; exact h.pos
  refine ⟨{ s with mean := s.mean.set 0 (.fin 0), var := s.var.set 0 (.fin V), yconst := .fin 0, yslope := .fin 0, cur := 1 }, ?_, ?_⟩
  · simp only [FKF1.reset, res_bind_ok, rd_some he, wr_ok l1, wr_ok l2, eS, eE, eV]; rfl
  refine ⟨⟨rfl, rfl, rfl, rfl, rfl, rfl, by simp, by simp⟩, rfl, ?_⟩
  intro i hi
  obtain rfl : i = 0 := by omega
  exact ⟨0, V, e, E, by simp [l1], by simp [l2], he, eE, by rw [abs_zero]; positivity, FV, hS.trans_le VS, V0, V1⟩

/-- The variance of one step: never negative, and at least `2^-155` when the factor is less than 1. -/
theorem svar_num (hA : IsBinary64 A) {ρ v E S : ℝ} (hρ : F64 ρ) (ρ0 : 0 ≤ ρ) (ρ1 : ρ ≤ 1) (Fv : F64 v) (E0 : 0 ≤ E) (v0 : 0 < v) (Ev : E ≤ v)
    (v1 : v ≤ 4 * 2 ^ (102 : ℤ)) (S0 : 2 ^ (-102 : ℤ) ≤ S) (S1 : S ≤ 2 ^ (102 : ℤ)) :
    ∃ P g V, A.sub (.fin v) (.fin E) = .fin P ∧ A.div (.fin P) (.fin v) = .fin g ∧ 0 ≤ g ∧ g ≤ 1 ∧
      A.add (A.mul (.fin S) (A.sub (.fin 1) (A.mul (.fin ρ) (.fin ρ))))
        (A.mul (A.mul (A.mul (.fin ρ) (.fin ρ)) (.fin P)) (A.sub (.fin 1) (.fin g))) = .fin V ∧
      F64 V ∧ 0 ≤ V ∧ V ≤ 3 * 2 ^ (102 : ℤ) ∧ (ρ ≠ 1 → 2 ^ (-155 : ℤ) ≤ V) := by
  have hp : (0 : ℝ) < 2 ^ (-102 : ℤ) := by positivity
  obtain ⟨P, g, M, V, eP, eg, -, -, -, eV, FV, V0, V1⟩ := step_num hA (a := 0) (b := 102) (by norm_num) (by norm_num) (by norm_num) (by norm_num)
    (m := 0) (y := 0) hρ ρ0 ρ1 f64_zero (by rw [abs_zero]; positivity) (by rw [abs_zero]; positivity) Fv E0 v0 Ev v1 (hp.le.trans S0) S1
  obtain ⟨g0, g1⟩ := gain_num hA Fv v0 E0 Ev eP eg
  refine ⟨P, g, V, eP, eg, g0, g1, eV, FV, V0, V1, fun hne => ?_⟩
  obtain ⟨FP, P0, P1⟩ := diff_num hA Fv E0 Ev eP
  obtain ⟨rr, err, -, rr0, rr1⟩ := mul01_pos hA f64_one ρ0 ρ1 ρ0 ρ1
  obtain ⟨k, ek, -, k0, k1⟩ := one_sub_num hA g0 g1
  obtain ⟨rp, erp, Frp, rp0, rp1⟩ := rnd_mul hA (a := rr) (b := P) f64_zero FP (mul_nonneg rr0 P0) (mul_le_of_le_one_left P0 rr1)
  obtain ⟨u, eu, -, u0, -⟩ := mul01_pos hA Frp.f rp0 le_rfl k0 k1
  have F1 : F64 (2 ^ (-155 : ℤ)) := f64_zpow (-155) (by omega) (by omega)
  have F2 : F64 (2 ^ (102 : ℤ)) := f64_zpow 102 (by omega) (by omega)
  have h155 : (2 : ℝ) ^ (-155 : ℤ) ≤ S * 2 ^ (-53 : ℤ) := by
    rw [← pw_mul (-102) (-53) (-155) (by norm_num)]
    exact mul_le_mul_of_nonneg_right S0 (by positivity)
  generalize (2 : ℝ) ^ (-155 : ℤ) = lo at F1 h155 ⊢
  exact step_pos hA hρ ρ0 (lt_of_le_of_ne ρ1 hne) F1 h155 (hp.le.trans S0) eV ⟨u, u0, by rw [err, erp, ek, eu]⟩ F2 S1

theorem sUpdate (hA : IsBinary64 A) {n : ℕ} (n0 : 0 < n) (n1 : n + 1 ≤ 2 ^ 25) {s0 s : FKF1} {c : ℕ} (hc : 0 < c) (hcn : c < s0.time.length)
    (h0 : SFwd A n s0) (h : SDone A n s0 s c) : ∃ s', FKF1.update A s = .ok s' ∧ SDone A n s0 s' (c + 1) := by
  have hs := h0.same h.same
  have ht : s.time.length = s0.time.length := by rw [h.same.time]
  obtain ⟨w, ew, Fw, w0⟩ := hs.omega
  obtain ⟨S, eS, S0, S1⟩ := hs.stat
  obtain ⟨y, ey, hy⟩ := hs.ys (c - 1) (by omega)
  obtain ⟨m, v, e, E, em, ev, ee, eE, hm, Fv, v0, hEv, hv⟩ := h.bound (c - 1) (by omega)
  obtain ⟨e', E', ee', eE', E0', E1', -⟩ := hs.es (c - 1) (by omega)
  rw [ee] at ee'
  injection ee' with ee'; injection ee' with ee'; subst ee'
  rw [eE] at eE'; injection eE' with eE'; subst eE'
  obtain ⟨e2, E2, ee2, eE2, E02, E12, hgap⟩ := hs.es c (by omega)
  have hdl : c - 1 < s.dt.length := by have := hs.ldt; omega
  obtain ⟨ρ, eρ, Fρ, ρ0, ρ1⟩ := rho_num hA Fw w0 (hs.dts _ (List.getElem_mem hdl))
  obtain ⟨P, g, V, eP, eg, g0, g1, eV, FV, V0, V1, Vp⟩ := svar_num hA Fρ ρ0 ρ1 Fv E0' v0 hEv hv S0 S1
  obtain ⟨FB, B0, B1, hYB⟩ := size_num n0 n1
  obtain ⟨M, eM, FM, hM⟩ := mean_num hA FB B0 B1 hYB Fρ ρ0 ρ1 g0 g1 hm hy
  obtain ⟨W, eW, FW, W0, W1⟩ := var_sum hA (hA.range _ _ eE2) f64_4_102 V0 V1 E12
  have Wp : 0 < W := by
    rcases E02.lt_or_eq with hE | hE
    · exact hE.trans_le W0
    · have hne : ρ ≠ 1 := by
        rintro rfl
        refine hgap hc hE.symm _ (List.getElem?_eq_getElem hdl) ?_
        rw [ew]; exact eρ
      refine lt_of_lt_of_le (by positivity) ((Vp hne).trans ((rnd_rounds hA eW).ge FV (by linarith)))
  have l1 : c < s.mean.length := by rw [hs.lmean]; omega
  have l2 : c < s.var.length := by rw [hs.lvar]; omega
  have hp : prevIdx c = .ok (c - 1) := by simp [prevIdx]; omega
  have hd : rd s.dt (c - 1) = .ok s.dt[c - 1] := rd_some (List.getElem?_eq_getElem hdl)
  rw [ew] at eS
  refine ⟨{ s with omega := .fin w, mean := s.mean.set c (.fin M), var := (s.var.set c (.fin V)).set c (.fin W), cur := c + 1 }, ?_, ?_⟩
  · simp only [FKF1.update, h.cur, hp, res_bind_ok, hd, rd_some ev, rd_some ee, rd_some em, rd_some ey, wr_ok l1, wr_ok l2, ew, eS,
      eρ, eE, eP, eg, eM, eV, rd_some ee2, eE2]
    rw [rd_some (x := .fin V) (by simp [l2]), res_bind_ok, eW, wr_ok (by simpa using l2)]
    rfl
  refine ⟨h.same.trans ⟨rfl, rfl, rfl, rfl, rfl, ew.symm, by simp, by simp⟩, rfl, ?_⟩
  intro i hi
  rcases Nat.lt_succ_iff_lt_or_eq.mp hi with hi | rfl
  · obtain ⟨m, v, e, E, em, ev, r⟩ := h.bound i hi
    refine ⟨m, v, e, E, ?_, ?_, r⟩
    · simpa [List.getElem?_set, show c ≠ i by omega] using em
    · simpa [List.getElem?_set, show c ≠ i by omega] using ev
  · exact ⟨M, W, e2, E2, by simp [l1], by simp [l2], ee2, eE2, hM, FW, Wp, W0, W1⟩

theorem siter_num (hA : IsBinary64 A) {n : ℕ} (n0 : 0 < n) (n1 : n + 1 ≤ 2 ^ 25) {s : FKF1} (h : SFwd A n s) {k : ℕ} (hk : k + 1 ≤ s.time.length) :
    ∃ s1 s', FKF1.reset A s = .ok s1 ∧ iter (FKF1.update A) k s1 = .ok s' ∧ SDone A n s s' (k + 1) := by
  obtain ⟨s1, e1, d1⟩ := sReset hA h
  refine ⟨s1, ?_⟩
  induction k with
  | zero => exact ⟨s1, e1, rfl, d1⟩
  | succ k ih =>
    obtain ⟨s2, -, e2, d2⟩ := ih (by omega)
    obtain ⟨s3, e3, d3⟩ := sUpdate hA n0 n1 (c := k + 1) (by omega) (by omega) h d2
    exact ⟨s3, e1, by simp only [iter, e2, res_bind_ok, e3], d3⟩

/-- mean and variance given the past -/
theorem spast_num (hA : IsBinary64 A) {n : ℕ} (n0 : 0 < n) (n1 : n + 1 ≤ 2 ^ 25) {s s' : FKF1} (h : SFwd A n s) {c : ℕ} (hc : 0 < c)
    (hcn : c ≤ s.time.length) (hd : SDone A n s s' c) {x t : ℝ} (ht : s.time[c - 1]? = some (.fin t)) (hx : t ≤ x) {w : ℝ} (hw : s.omega = .fin w)
    (hne : decayTo A w t x ≠ .fin 1) :
    ∃ m V, FKF1.predictPast A s' (.fin x) c = .ok (.fin m, .fin V) ∧ |m| ≤ (n + 1 : ℕ) * 2 ^ (400 : ℤ) ∧ F64 V ∧ 2 ^ (-155 : ℤ) ≤ V ∧
      V ≤ 2 ^ (104 : ℤ) := by
  have ks := hd.same
  have h' := h.same ks
  obtain ⟨w', ew, Fw, w0⟩ := h.omega
  rw [hw] at ew; injection ew with ew; subst ew
  obtain ⟨S, eS, S0, S1⟩ := h'.stat
  obtain ⟨m, v, e, E, em, ev, ee, eE, hm, Fv, v0, hEv, hv⟩ := hd.bound (c - 1) (by omega)
  obtain ⟨e', E', ee', eE', E0, E1, -⟩ := h'.es (c - 1) (by rw [ks.time]; omega)
  rw [ee] at ee'
  injection ee' with ee'; injection ee' with ee'; subst ee'
  rw [eE] at eE'; injection eE' with eE'; subst eE'
  obtain ⟨y, ey, hy⟩ := h'.ys (c - 1) (by rw [ks.time]; omega)
  obtain ⟨ρ, eρ, Fρ, ρ0, ρ1⟩ := decay_num hA w0 (gap_sub hA hx)
  obtain ⟨P, g, V, eP, eg, g0, g1, eV, FV, V0, V1, Vp⟩ := svar_num hA Fρ ρ0 ρ1 Fv E0 v0 hEv hv S0 S1
  obtain ⟨FB, B0, B1, hYB⟩ := size_num n0 n1
  obtain ⟨M, eM, FM, hM⟩ := mean_num hA FB B0 B1 hYB Fρ ρ0 ρ1 g0 g1 hm hy
  have V2 : V ≤ 2 ^ (104 : ℤ) := by
    refine V1.trans ?_
    rw [← pw_mul 2 102 104 (by norm_num)]
    exact mul_le_mul_of_nonneg_right (by norm_num) (by positivity)
  refine ⟨M, V, ?_, hM, FV, Vp (by rintro rfl; exact hne eρ), V2⟩
  have ht' : s'.time[c - 1]? = some (.fin t) := by rw [ks.time]; exact ht
  have eS' := eS
  rw [ks.omega, hw] at eS'
  have eρ' : A.exp (A.mul (A.sub (.fin x) (.fin t)).neg (.fin w)) = .fin ρ := eρ
  simp only [FKF1.predictPast]
  rw [if_neg (by omega), rdU_some ht', res_bind_ok, rd_some ev, res_bind_ok, rd_some ee, res_bind_ok, rd_some em, res_bind_ok, rd_some ey, res_bind_ok]
  simp only [ks.omega, hw, eρ', eE, eP, eg, eS', eM, eV]
  rfl

end Verif.Theory
