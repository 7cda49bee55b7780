import Verif.Theory.Binary64
import Verif.Theory.Frame

/-!
The CAR(1) filter in binary64 arithmetic: one step keeps variances between the measurement variance and a fixed power of two,
and means between two fixed bounds.
-/

namespace Verif.Theory

open Verif.Model Verif.Spec

variable {A : Arith}

/-- the factor `rho` -/
theorem rho_num (hA : IsBinary64 A) {w : ℝ} (hw : F64 w) (hw0 : 0 < w) {d : Dbl} (hd : d = .pinf ∨ ∃ x, 0 ≤ x ∧ d = .fin x) :
    ∃ ρ, A.exp (A.mul (A.mul (.fin (-1)) (.fin w)) d) = .fin ρ ∧ F64 ρ ∧ 0 ≤ ρ ∧ ρ ≤ 1 := by
  have e : A.mul (.fin (-1)) (.fin w) = .fin (-w) := by
    rw [fl_mul, neg_one_mul]; exact hA.id _ (f64_neg hw)
  rw [e]
  rcases hd with rfl | ⟨x, hx, rfl⟩
  · have : A.mul (.fin (-w)) .pinf = .ninf := by
      have h1 : ¬ (0 : ℝ) < -w := by linarith
      have h2 : -w < 0 := by linarith
      simp [Arith.mul, Dbl.mul, Dbl.infTimes, Arith.fl, h1, hw0]
    rw [this, hA.exp_ninf]
    exact ⟨0, rfl, f64_zero, le_refl _, by norm_num⟩
  · rw [fl_mul]
    rcases rnd_nonpos hA (x := -w * x) (by nlinarith) with h | ⟨r, h, hr⟩
    · rw [h, hA.exp_ninf]
      exact ⟨0, rfl, f64_zero, le_refl _, by norm_num⟩
    · rw [h]; exact hA.exp_neg r hr

/-- One update, given the previous mean `m`, variance `v` and measurement variance `E`. -/
theorem step_num (hA : IsBinary64 A) {a b : ℤ} (ha1 : -1070 ≤ a) (ha2 : a ≤ 960) (hb1 : -1070 ≤ b) (hb2 : b ≤ 960)
    {ρ m v y E S : ℝ} (hρ : F64 ρ) (hρ0 : 0 ≤ ρ) (hρ1 : ρ ≤ 1) (hmF : F64 m) (hm : |m| ≤ 2 * 2 ^ a) (hy : |y| ≤ 2 ^ a)
    (hvF : F64 v) (hE0 : 0 ≤ E) (hv0 : 0 < v) (hEv : E ≤ v) (hv : v ≤ 4 * 2 ^ b) (hS0 : 0 ≤ S) (hS : S ≤ 2 ^ b) :
    ∃ P g M V, A.sub (.fin v) (.fin E) = .fin P ∧ A.div (.fin P) (.fin v) = .fin g ∧
      A.add (A.mul (.fin ρ) (.fin m)) (A.mul (A.mul (.fin ρ) (.fin g)) (A.sub (.fin y) (.fin m))) = .fin M ∧
      F64 M ∧ |M| ≤ 2 * 2 ^ a ∧
      A.add (A.mul (.fin S) (A.sub (.fin 1) (A.mul (.fin ρ) (.fin ρ))))
        (A.mul (A.mul (A.mul (.fin ρ) (.fin ρ)) (.fin P)) (A.sub (.fin 1) (.fin g))) = .fin V ∧
      F64 V ∧ 0 ≤ V ∧ V ≤ 3 * 2 ^ b := by
  have hY : (0 : ℝ) < 2 ^ a := by positivity
  have hB : (0 : ℝ) < 2 ^ b := by positivity
  have FY : F64 (2 * 2 ^ a) := by simpa using f64_nat_zpow 2 a (by norm_num) (by omega) (by omega)
  have FY3 : F64 (3 * 2 ^ a) := by simpa using f64_nat_zpow 3 a (by norm_num) (by omega) (by omega)
  have FB : F64 (2 ^ b) := f64_zpow b (by omega) (by omega)
  have FB2 : F64 (2 * 2 ^ b) := by simpa using f64_nat_zpow 2 b (by norm_num) (by omega) (by omega)
  have FB3 : F64 (3 * 2 ^ b) := by simpa using f64_nat_zpow 3 b (by norm_num) (by omega) (by omega)
  obtain ⟨hm2, hm3⟩ := abs_le.mp hm
  obtain ⟨hy2, hy3⟩ := abs_le.mp hy
  obtain ⟨P, eP, rP, P0, Pv⟩ := rnd_sub hA (a := v) (b := E) f64_zero hvF (by linarith) (by linarith)
  obtain ⟨g, eg, rg, g0, g1⟩ := rnd_div hA (a := P) hv0.ne' f64_zero f64_one (div_nonneg P0 hv0.le) ((div_le_one hv0).2 Pv)
  -- mean
  obtain ⟨m1, em1, rm1, -, -⟩ := rnd_mul hA (a := ρ) (b := m) (f64_neg FY) FY (by nlinarith) (by nlinarith)
  obtain ⟨d, ed, rd, d0, d1⟩ := rnd_sub hA (a := y) (b := m) (f64_neg FY3) FY3 (by linarith) (by linarith)
  obtain ⟨h, eh, rh, h0, h1⟩ := rnd_mul hA (a := ρ) (b := g) f64_zero hρ (by positivity) (by nlinarith)
  have h1' : h ≤ 1 := h1.trans hρ1
  obtain ⟨t, et, rt, -, -⟩ := rnd_mul hA (a := h) (b := d) (f64_neg FY3) FY3
    (by rcases le_total 0 d with k | k <;> nlinarith) (by rcases le_total 0 d with k | k <;> nlinarith)
  obtain ⟨s1, s2⟩ := mean_abs rfl ha1 ha2 hmF hρ0 hρ1 h0 h1 hm hy rm1 rd rt
  obtain ⟨M, eM, rM, M0, M1⟩ := rnd_add hA (f64_neg FY) FY s1 s2
  -- variance
  obtain ⟨rr, err, rrr, rr0, rr1⟩ := rnd_mul hA (a := ρ) (b := ρ) f64_zero f64_one (by positivity) (by nlinarith)
  obtain ⟨c, ec, rc, c0, c1⟩ := rnd_sub hA (a := 1) (b := rr) f64_zero f64_one (by linarith) (by linarith)
  obtain ⟨qc, eqc, rqc, qc0, qc1⟩ := rnd_mul hA (a := S) (b := c) f64_zero FB (by positivity) (by nlinarith)
  obtain ⟨rp, erp, rrp, rp0, rp1⟩ := rnd_mul hA (a := rr) (b := P) f64_zero rP.f (by positivity) (by nlinarith)
  obtain ⟨k, ek, rk, k0, k1⟩ := rnd_sub hA (a := 1) (b := g) f64_zero f64_one (by linarith) (by linarith)
  have key : rp * k ≤ 2 * 2 ^ b := by
    rcases le_or_gt P (2 * 2 ^ b) with hP | hP
    · nlinarith
    · have : (1 : ℝ) / 2 ≤ g := rg.ge f64_half (by rw [div_le_div_iff₀ (by norm_num) hv0]; linarith)
      have : k ≤ 1 / 2 := rk.le f64_half (by linarith)
      nlinarith
  obtain ⟨u, eu, ru, u0, u1⟩ := rnd_mul hA (a := rp) (b := k) f64_zero FB2 (by positivity) key
  obtain ⟨V, eV, rV, V0, V1⟩ := rnd_add hA (a := qc) (b := u) f64_zero FB3 (by positivity) (by linarith)
  refine ⟨P, g, M, V, eP, eg, ?_, rM.f, abs_le.mpr ⟨M0, M1⟩, ?_, rV.f, V0, V1⟩
  · rw [em1, eh, ed, et, eM]
  · rw [err, ec, eqc, erp, ek, eu, eV]

/-- What is assumed of a filter before it runs: sizes, parameters and data. -/
structure FSafe (A : Arith) (a b : ℤ) (s : FKF1) : Prop where
  pos : 0 < s.time.length
  ldt : s.time.length ≤ s.dt.length + 1
  lmean : s.mean.length = s.time.length
  lvar : s.var.length = s.time.length
  omega : ∃ w, s.omega = .fin w ∧ F64 w ∧ 0 < w
  stat : ∃ S, A.div s.sigsqr (A.mul (.fin 2) s.omega) = .fin S ∧ 0 ≤ S ∧ S ≤ 2 ^ b
  dts : ∀ d ∈ s.dt, d = .pinf ∨ ∃ x, 0 ≤ x ∧ d = .fin x
  ys : ∀ i < s.time.length, ∃ x, s.y[i]? = some (.fin x) ∧ |x| ≤ 2 ^ a
  es : ∀ i < s.time.length, ∃ e E, s.yerr[i]? = some (.fin e) ∧ A.mul (.fin e) (.fin e) = .fin E ∧ 0 < E ∧ E ≤ 2 ^ b

/-- Bounds on the entries of index `i`. -/
def FBound (A : Arith) (a b : ℤ) (s : FKF1) (i : ℕ) : Prop :=
  ∃ m v e E, s.mean[i]? = some (.fin m) ∧ s.var[i]? = some (.fin v) ∧ s.yerr[i]? = some (.fin e) ∧
    A.mul (.fin e) (.fin e) = .fin E ∧ F64 m ∧ |m| ≤ 2 * 2 ^ a ∧ F64 v ∧ E ≤ v ∧ v ≤ 4 * 2 ^ b

/-- State after `c` entries are filled in. -/
structure FDone (A : Arith) (a b : ℤ) (s0 s : FKF1) (c : ℕ) : Prop where
  safe : FSafe A a b s
  time : s.time = s0.time
  y : s.y = s0.y
  yerr : s.yerr = s0.yerr
  cur : s.cur = c
  bound : ∀ i < c, FBound A a b s i

theorem rd_some {α : Type} {l : List α} {i : ℕ} {x : α} (h : l[i]? = some x) : rd l i = .ok x := by
  simp [rd, h]

theorem fReset (hA : IsBinary64 A) {a b : ℤ} (hb1 : -1070 ≤ b) (hb2 : b ≤ 960) {s : FKF1}
    (h : FSafe A a b s) : ∃ s', FKF1.reset A s = .ok s' ∧ FDone A a b s s' 1 := by
  have hB : (0 : ℝ) < 2 ^ b := by positivity
  have FB4 : F64 (4 * 2 ^ b) := by simpa using f64_nat_zpow 4 b (by norm_num) (by omega) (by omega)
  obtain ⟨S, eS, S0, S1⟩ := h.stat
  obtain ⟨e, E, he, eE, E0, E1⟩ := h.es 0 h.pos
  have FE : F64 E := hA.range _ _ eE
  obtain ⟨V, eV, rV, V0, V1⟩ := rnd_add hA (a := S) (b := E) FE FB4 (by linarith) (by linarith)
  have l1 : 0 < s.mean.length := by rw [h.lmean]; exact h.pos
  have l2 : 0 < s.var.length := by rw [h.lvar]; exact h.pos
  refine ⟨{ s with mean := s.mean.set 0 (.fin 0), var := s.var.set 0 (.fin V), yconst := .fin 0, yslope := .fin 0, cur := 1 }, ?_, ?_⟩
  · simp only [FKF1.reset, res_bind_ok, rd_some he, wr_ok l1, wr_ok l2, eS, eE, eV]; rfl
  refine ⟨⟨h.pos, h.ldt, by simp [h.lmean], by simp [h.lvar], h.omega, ⟨S, eS, S0, S1⟩, h.dts, h.ys, h.es⟩, rfl, rfl, rfl, rfl, ?_⟩
  intro i hi
  obtain rfl : i = 0 := by omega
  exact ⟨0, V, e, E, by simp [l1], by simp [l2], he, eE, f64_zero, by rw [abs_zero]; positivity, rV.f, V0, V1⟩

theorem fUpdate (hA : IsBinary64 A) {a b : ℤ} (ha1 : -1070 ≤ a) (ha2 : a ≤ 960) (hb1 : -1070 ≤ b) (hb2 : b ≤ 960)
    {s0 s : FKF1} {c : ℕ} (hc : 0 < c) (hcn : c < s.time.length) (h : FDone A a b s0 s c) :
    ∃ s', FKF1.update A s = .ok s' ∧ FDone A a b s0 s' (c + 1) := by
  have hs := h.safe
  have FB4 : F64 (4 * 2 ^ b) := by simpa using f64_nat_zpow 4 b (by norm_num) (by omega) (by omega)
  obtain ⟨w, ew, Fw, w0⟩ := hs.omega
  obtain ⟨S, eS, S0, S1⟩ := hs.stat
  obtain ⟨y, ey, hy⟩ := hs.ys (c - 1) (by omega)
  obtain ⟨m, v, e, E, em, ev, ee, eE, Fm, hm, Fv, hEv, hv⟩ := h.bound (c - 1) (by omega)
  obtain ⟨e', E', ee', eE', E0', E1'⟩ := hs.es (c - 1) (by omega)
  rw [ee] at ee'
  injection ee' with ee'; injection ee' with ee'; subst ee'
  rw [eE] at eE'; injection eE' with eE'; subst eE'
  obtain ⟨e2, E2, ee2, eE2, E02, E12⟩ := hs.es c hcn
  have hdl : c - 1 < s.dt.length := by have := hs.ldt; omega
  obtain ⟨ρ, eρ, Fρ, ρ0, ρ1⟩ := rho_num hA Fw w0 (hs.dts _ (List.getElem_mem hdl))
  obtain ⟨P, g, M, V, eP, eg, eM, FM, hM, eV, FV, V0, V1⟩ := step_num hA ha1 ha2 hb1 hb2 Fρ ρ0 ρ1 Fm hm hy Fv E0'.le
    (by linarith) hEv hv S0 S1
  have FE : F64 E2 := hA.range _ _ eE2
  obtain ⟨W, eW, rW, W0, W1⟩ := rnd_add hA (a := V) (b := E2) FE FB4 (by linarith) (by linarith)
  have l1 : c < s.mean.length := by rw [hs.lmean]; exact hcn
  have l2 : c < s.var.length := by rw [hs.lvar]; exact hcn
  have hp : prevIdx c = .ok (c - 1) := by simp [prevIdx]; omega
  have hd : rd s.dt (c - 1) = .ok s.dt[c - 1] := rd_some (List.getElem?_eq_getElem hdl)
  rw [ew] at eS
  refine ⟨{ s with omega := .fin w, mean := s.mean.set c (.fin M), var := (s.var.set c (.fin V)).set c (.fin W), cur := c + 1 }, ?_, ?_⟩
  · simp only [FKF1.update, h.cur, hp, res_bind_ok, hd, rd_some ev, rd_some ee, rd_some em, rd_some ey, wr_ok l1, wr_ok l2, ew, eS,
      eρ, eE, eP, eg, eM, eV, rd_some ee2, eE2]
    rw [rd_some (x := .fin V) (by simp [l2]), res_bind_ok, eW, wr_ok (by simpa using l2)]
    rfl
  refine ⟨⟨hs.pos, hs.ldt, by simp [hs.lmean], by simp [hs.lvar], ⟨w, rfl, Fw, w0⟩, ⟨S, eS, S0, S1⟩, hs.dts, hs.ys, hs.es⟩, h.time, h.y,
    h.yerr, rfl, ?_⟩
  intro i hi
  rcases Nat.lt_succ_iff_lt_or_eq.mp hi with hi | rfl
  · obtain ⟨m, v, e, E, em, ev, r⟩ := h.bound i hi
    refine ⟨m, v, e, E, ?_, ?_, r⟩
    · simpa [List.getElem?_set, show c ≠ i by omega] using em
    · simpa [List.getElem?_set, show c ≠ i by omega] using ev
  · exact ⟨M, W, e2, E2, by simp [l1], by simp [l2], ee2, eE2, FM, hM, rW.f, W0, W1⟩

theorem fFilter (hA : IsBinary64 A) {a b : ℤ} (ha1 : -1070 ≤ a) (ha2 : a ≤ 960) (hb1 : -1070 ≤ b) (hb2 : b ≤ 960)
    {s : FKF1} (h : FSafe A a b s) : ∃ s', FKF1.filter A s = .ok s' ∧ FDone A a b s s' s.time.length := by
  obtain ⟨s1, e1, d1⟩ := fReset hA hb1 hb2 h
  have loop : ∀ k, k + 1 ≤ s.time.length → ∃ s', iter (FKF1.update A) k s1 = .ok s' ∧ FDone A a b s s' (k + 1) := by
    intro k
    induction k with
    | zero => exact fun _ => ⟨s1, rfl, d1⟩
    | succ k ih =>
      intro hk
      obtain ⟨s2, e2, d2⟩ := ih (by omega)
      obtain ⟨s3, e3, d3⟩ := fUpdate hA ha1 ha2 hb1 hb2 (c := k + 1) (by omega) (by rw [d2.time]; omega) d2
      exact ⟨s3, by simp only [iter, e2, res_bind_ok, e3], d3⟩
  have hp := h.pos
  obtain ⟨s', e', d'⟩ := loop (s.time.length - 1) (by omega)
  refine ⟨s', ?_, by rwa [Nat.sub_add_cancel hp] at d'⟩
  simp only [FKF1.filter, e1, res_bind_ok, d1.time, e']

end Verif.Theory
