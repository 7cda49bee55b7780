import Verif.Theory.FObj
import Verif.Theory.FErr

/-!
What `Filter()` leaves in its vectors, in any arithmetic: neighbouring entries satisfy the recursion. And one update of the
CAR(1) filter in binary64 arithmetic, with the error of every intermediate result.
-/

namespace Verif.Theory

open Verif.Model Verif.Spec

variable {A : Arith}

theorem rd_ok_inv {α : Type} {l : List α} {i : ℕ} {x : α} (h : rd l i = .ok x) : l[i]? = some x := by
  unfold rd at h
  split at h
  · cases h; assumption
  · cases h

theorem wr_ok_inv {α : Type} {l l' : List α} {i : ℕ} {x : α} (h : wr l i x = .ok l') : i < l.length ∧ l' = l.set i x := by
  unfold wr at h
  split at h
  · cases h; exact ⟨by assumption, rfl⟩
  · cases h

/-- entries `i` and `i + 1` of a filter satisfy the recursion -/
def Link (A : Arith) (s : FKF1) (i : ℕ) : Prop :=
  ∃ d v e m y e2, s.dt[i]? = some d ∧ s.var[i]? = some v ∧ s.yerr[i]? = some e ∧ s.mean[i]? = some m ∧ s.y[i]? = some y ∧
    s.yerr[i + 1]? = some e2 ∧
    s.mean[i + 1]? = some (
      let rho := A.exp (A.mul (A.mul (.fin (-1)) s.omega) d)
      A.add (A.mul rho m) (A.mul (A.mul rho (A.div (A.sub v (A.mul e e)) v)) (A.sub y m))) ∧
    s.var[i + 1]? = some (
      let rho := A.exp (A.mul (A.mul (.fin (-1)) s.omega) d)
      A.add (A.add (A.mul (A.div s.sigsqr (A.mul (.fin 2) s.omega)) (A.sub (.fin 1) (A.mul rho rho)))
        (A.mul (A.mul (A.mul rho rho) (A.sub v (A.mul e e))) (A.sub (.fin 1) (A.div (A.sub v (A.mul e e)) v)))) (A.mul e2 e2))

structure Linked (A : Arith) (s0 s : FKF1) (c : ℕ) : Prop where
  time : s.time = s0.time
  dt : s.dt = s0.dt
  y : s.y = s0.y
  yerr : s.yerr = s0.yerr
  sig : s.sigsqr = s0.sigsqr
  omega : s.omega = s0.omega
  cur : s.cur = c
  first : ∃ e, s.yerr[0]? = some e ∧ s.mean[0]? = some (.fin 0) ∧
    s.var[0]? = some (A.add (A.div s.sigsqr (A.mul (.fin 2) s.omega)) (A.mul e e))
  link : ∀ i, i + 1 < c → Link A s i

theorem reset_link {s s' : FKF1} (h : FKF1.reset A s = .ok s') : Linked A s s' 1 := by
  unfold FKF1.reset at h
  obtain ⟨mean, h1, h⟩ := bind_ok h
  obtain ⟨e0, h2, h⟩ := bind_ok h
  obtain ⟨var, h3, h⟩ := bind_ok h
  cases h
  obtain ⟨l1, rfl⟩ := wr_ok_inv h1
  obtain ⟨l3, rfl⟩ := wr_ok_inv h3
  exact ⟨rfl, rfl, rfl, rfl, rfl, rfl, rfl, ⟨e0, rd_ok_inv h2, by simp [l1], by simp [l3]⟩, fun i hi => by omega⟩

theorem update_link {s0 s s' : FKF1} {c : ℕ} (hc : 0 < c) (hl : Linked A s0 s c) (h : FKF1.update A s = .ok s') : Linked A s0 s' (c + 1) := by
  unfold FKF1.update at h
  obtain ⟨c1, h0, h⟩ := bind_ok h
  obtain ⟨d, hd, h⟩ := bind_ok h
  obtain ⟨v, hv, h⟩ := bind_ok h
  obtain ⟨e, he, h⟩ := bind_ok h
  obtain ⟨m, hm, h⟩ := bind_ok h
  obtain ⟨y, hy, h⟩ := bind_ok h
  obtain ⟨mean, h1, h⟩ := bind_ok h
  obtain ⟨var, h2, h⟩ := bind_ok h
  obtain ⟨e2, he2, h⟩ := bind_ok h
  obtain ⟨v2, hv2, h⟩ := bind_ok h
  obtain ⟨var', h3, h⟩ := bind_ok h
  cases h
  rw [hl.cur] at *
  obtain rfl : c1 = c - 1 := by
    rw [prevIdx, if_neg (by omega)] at h0; injection h0 with h0; exact h0.symm
  obtain ⟨l1, rfl⟩ := wr_ok_inv h1
  obtain ⟨l2, rfl⟩ := wr_ok_inv h2
  obtain ⟨l3, rfl⟩ := wr_ok_inv h3
  have hv2' := rd_ok_inv hv2
  rw [List.getElem?_set_self l2] at hv2'
  injection hv2' with hv2'
  refine ⟨hl.time, hl.dt, hl.y, hl.yerr, hl.sig, hl.omega, rfl, ?_, ?_⟩
  · obtain ⟨e, f1, f2, f3⟩ := hl.first
    refine ⟨e, f1, ?_, ?_⟩
    · simpa [List.getElem?_set, show c ≠ 0 by omega] using f2
    · simpa [List.getElem?_set, show c ≠ 0 by omega] using f3
  · intro i hi
    rcases Nat.lt_succ_iff_lt_or_eq.mp hi with hi | rfl
    · obtain ⟨d, v, e, m, y, e2, g1, g2, g3, g4, g5, g6, g7, g8⟩ := hl.link i hi
      refine ⟨d, v, e, m, y, e2, g1, ?_, g3, ?_, g5, g6, ?_, ?_⟩
      · simpa [List.getElem?_set, show c ≠ i by omega] using g2
      · simpa [List.getElem?_set, show c ≠ i by omega] using g4
      · simpa [List.getElem?_set, show c ≠ i + 1 by omega] using g7
      · simpa [List.getElem?_set, show c ≠ i + 1 by omega] using g8
    · rw [Nat.add_sub_cancel] at hd hv he hm hy
      refine ⟨d, v, e, m, y, e2, rd_ok_inv hd, ?_, rd_ok_inv he, ?_, rd_ok_inv hy, rd_ok_inv he2, ?_, ?_⟩
      · simpa [List.getElem?_set] using rd_ok_inv hv
      · simpa [List.getElem?_set] using rd_ok_inv hm
      · simpa [List.getElem?_set_self l1] using by rfl
      · subst hv2'
        simpa [List.getElem?_set_self (show i + 1 < s.var.length from l2)] using by rfl

theorem filter_link {s s' : FKF1} (h : FKF1.filter A s = .ok s') (hn : 0 < s.time.length) : Linked A s s' s.time.length := by
  unfold FKF1.filter at h
  obtain ⟨s1, h1, h⟩ := bind_ok h
  have l1 := reset_link h1
  have loop : ∀ k s', iter (FKF1.update A) k s1 = .ok s' → Linked A s s' (k + 1) := by
    intro k
    induction k with
    | zero => intro s' h; cases h; exact l1
    | succ k ih =>
      intro s' h
      obtain ⟨s2, h2, h⟩ := bind_ok h
      exact update_link (by omega) (ih s2 h2) h
  have := loop _ _ h
  rwa [l1.time, Nat.sub_add_cancel hn] at this

/-! ### one update with errors -/

theorem rz {x r k : ℝ} {a : ℤ} (h : Rounds x r) (hx : |x| ≤ k * 2 ^ a) (k1 : 1 ≤ k) (k2 : k ≤ 64) (a1 : -990 ≤ a) (a2 : a ≤ 990) :
    |r - x| ≤ uu * (k * 2 ^ a) := by
  have p : (0 : ℝ) < 2 ^ a := by positivity
  refine rounds_err h hx ?_ ?_
  · calc (2 : ℝ) ^ (-1000 : ℤ) ≤ 2 ^ a := pw_le _ _ (by omega)
      _ ≤ k * 2 ^ a := by nlinarith
  · calc k * 2 ^ a ≤ 64 * 2 ^ a := mul_le_mul_of_nonneg_right k2 p.le
      _ = 2 ^ (6 + a) := by rw [zpow_add₀ (by norm_num)]; norm_num
      _ ≤ _ := pw_le _ _ (by omega)

theorem rz1 {x r : ℝ} (h : Rounds x r) (h0 : 0 ≤ x) (h1 : x ≤ 1) : |r - x| ≤ uu := by
  have := rz (k := 1) (a := 0) h (by rw [abs_of_nonneg h0]; simpa using h1) le_rfl (by norm_num) (by norm_num) (by norm_num)
  simpa using this

/-- intermediate results of one update: gain -/
structure StepG (v' E' P' g : ℝ) : Prop where
  rP : Rounds (v' - E') P'
  P0 : 0 ≤ P'
  Pv : P' ≤ v'
  rg : Rounds (P' / v') g
  g0 : 0 ≤ g
  g1 : g ≤ 1

/-- mean -/
structure StepM (a : ℤ) (ρ' m' y' g m1 d h t M : ℝ) : Prop where
  rm1 : Rounds (ρ' * m') m1
  rd : Rounds (y' - m') d
  hd : |d| ≤ 6 * 2 ^ a
  rh : Rounds (ρ' * g) h
  ht : |h * d| ≤ 6 * 2 ^ a
  rt : Rounds (h * d) t
  hM : |m1 + t| ≤ 4 * 2 ^ a
  rM : Rounds (m1 + t) M

/-- variance -/
structure StepV (b : ℤ) (ρ' S' P' g rr c qc rp k w V : ℝ) : Prop where
  rrr : Rounds (ρ' * ρ') rr
  rr0 : 0 ≤ rr
  rr1 : rr ≤ 1
  rc : Rounds (1 - rr) c
  c0 : 0 ≤ c
  c1 : c ≤ 1
  rqc : Rounds (S' * c) qc
  qc0 : 0 ≤ qc
  hSc : S' * c ≤ 2 ^ b
  rrp : Rounds (rr * P') rp
  rp0 : 0 ≤ rp
  rk : Rounds (1 - g) k
  k0 : 0 ≤ k
  k1 : k ≤ 1
  key : rp * k ≤ 2 * 2 ^ b
  rw' : Rounds (rp * k) w
  w0 : 0 ≤ w
  hV : qc + w ≤ 3 * 2 ^ b
  rV : Rounds (qc + w) V
  V0 : 0 ≤ V
  V1 : V ≤ 3 * 2 ^ b

theorem stepG (hA : IsBinary64 A) {v' E' : ℝ} (Fv : F64 v') (hv'0 : 0 < v') (hE'0 : 0 ≤ E') (hEv : E' ≤ v') :
    ∃ P' g, StepG v' E' P' g ∧ A.sub (.fin v') (.fin E') = .fin P' ∧ A.div (.fin P') (.fin v') = .fin g := by
  obtain ⟨P', eP, rP, P0, Pv⟩ := rnd_sub hA (a := v') (b := E') f64_zero Fv (by linarith) (by linarith)
  obtain ⟨g, eg, rg, g0, g1⟩ := rnd_div hA (a := P') hv'0.ne' f64_zero f64_one (div_nonneg P0 hv'0.le) ((div_le_one hv'0).2 Pv)
  exact ⟨P', g, ⟨rP, P0, Pv, rg, g0, g1⟩, eP, eg⟩

theorem stepM (hA : IsBinary64 A) {a : ℤ} (ha1 : -300 ≤ a) (ha2 : a ≤ 300) {ρ' m' y' g : ℝ} (Fρ : F64 ρ') (hρ'0 : 0 ≤ ρ') (hρ'1 : ρ' ≤ 1)
    (Fm : F64 m') (hm' : |m'| ≤ 2 * 2 ^ (a + 1)) (hy' : |y'| ≤ 2 ^ (a + 1)) (g0 : 0 ≤ g) (g1 : g ≤ 1) :
    ∃ m1 d h t M, StepM a ρ' m' y' g m1 d h t M ∧
      A.add (A.mul (.fin ρ') (.fin m')) (A.mul (A.mul (.fin ρ') (.fin g)) (A.sub (.fin y') (.fin m'))) = .fin M := by
  have eY : (2 : ℝ) ^ (a + 1) = 2 * 2 ^ a := by rw [zpow_add_one₀ (by norm_num)]; ring
  have hY : (0 : ℝ) < 2 ^ (a + 1) := by positivity
  have FY : F64 (2 * 2 ^ (a + 1)) := by simpa using f64_nat_zpow 2 (a + 1) (by norm_num) (by omega) (by omega)
  have FY3 : F64 (3 * 2 ^ (a + 1)) := by simpa using f64_nat_zpow 3 (a + 1) (by norm_num) (by omega) (by omega)
  obtain ⟨hm2, hm3⟩ := abs_le.mp hm'
  obtain ⟨hy2, hy3⟩ := abs_le.mp hy'
  obtain ⟨m1, em1, rm1, -, -⟩ := rnd_mul hA (a := ρ') (b := m') (f64_neg FY) FY (by nlinarith) (by nlinarith)
  obtain ⟨d, ed, rd, d0, d1⟩ := rnd_sub hA (a := y') (b := m') (f64_neg FY3) FY3 (by linarith) (by linarith)
  obtain ⟨h, eh, rh, h0, h1⟩ := rnd_mul hA (a := ρ') (b := g) f64_zero Fρ (by positivity) (by nlinarith)
  have h1' : h ≤ 1 := h1.trans hρ'1
  have ht : -(3 * 2 ^ (a + 1)) ≤ h * d ∧ h * d ≤ 3 * 2 ^ (a + 1) := by
    constructor
    · rcases le_total 0 d with k | k <;> nlinarith
    · rcases le_total 0 d with k | k <;> nlinarith
  obtain ⟨t, et, rt, -, -⟩ := rnd_mul hA (a := h) (b := d) (f64_neg FY3) FY3 ht.1 ht.2
  obtain ⟨s1, s2⟩ := mean_abs rfl (by omega) (by omega) Fm hρ'0 hρ'1 h0 h1 hm' hy' rm1 rd rt
  obtain ⟨M, eM, rM, M0, M1⟩ := rnd_add hA (f64_neg FY) FY s1 s2
  refine ⟨m1, d, h, t, M, ?_, ?_⟩
  · obtain ⟨t1, t2⟩ := ht
    rw [eY] at d0 d1 t1 t2 s1 s2
    exact ⟨rm1, rd, abs_le.mpr ⟨by linarith, by linarith⟩, rh, abs_le.mpr ⟨by linarith, by linarith⟩, rt,
      abs_le.mpr ⟨by linarith, by linarith⟩, rM⟩
  · rw [em1, eh, ed, et, eM]

theorem stepV (hA : IsBinary64 A) {b : ℤ} (hb1 : -300 ≤ b) (hb2 : b ≤ 300) {ρ' v' E' S' P' g : ℝ} (hρ'0 : 0 ≤ ρ') (hρ'1 : ρ' ≤ 1)
    (hv'0 : 0 < v') (hv' : v' ≤ 4 * 2 ^ b) (hS'0 : 0 ≤ S') (hS'1 : S' ≤ 2 ^ b) (G : StepG v' E' P' g) :
    ∃ rr c qc rp k w V, StepV b ρ' S' P' g rr c qc rp k w V ∧
      A.add (A.mul (.fin S') (A.sub (.fin 1) (A.mul (.fin ρ') (.fin ρ'))))
        (A.mul (A.mul (A.mul (.fin ρ') (.fin ρ')) (.fin P')) (A.sub (.fin 1) (.fin g))) = .fin V := by
  obtain ⟨rP, P0, Pv, rg, g0, g1⟩ := G
  have hB : (0 : ℝ) < 2 ^ b := by positivity
  have FB : F64 (2 ^ b) := f64_zpow b (by omega) (by omega)
  have FB2 : F64 (2 * 2 ^ b) := by simpa using f64_nat_zpow 2 b (by norm_num) (by omega) (by omega)
  have FB3 : F64 (3 * 2 ^ b) := by simpa using f64_nat_zpow 3 b (by norm_num) (by omega) (by omega)
  obtain ⟨rr, err, rrr, rr0, rr1⟩ := rnd_mul hA (a := ρ') (b := ρ') f64_zero f64_one (by positivity) (by nlinarith)
  obtain ⟨c, ec, rc, c0, c1⟩ := rnd_sub hA (a := 1) (b := rr) f64_zero f64_one (by linarith) (by linarith)
  have hSc : S' * c ≤ 2 ^ b := by nlinarith
  obtain ⟨qc, eqc, rqc, qc0, qc1⟩ := rnd_mul hA (a := S') (b := c) f64_zero FB (by positivity) hSc
  have hrP : rr * P' ≤ P' := by nlinarith
  obtain ⟨rp, erp, rrp, rp0, rp1⟩ := rnd_mul hA (a := rr) (b := P') f64_zero rP.f (by positivity) hrP
  obtain ⟨k, ek, rk, k0, k1⟩ := rnd_sub hA (a := 1) (b := g) f64_zero f64_one (by linarith) (by linarith)
  have key : rp * k ≤ 2 * 2 ^ b := by
    rcases le_or_gt P' (2 * 2 ^ b) with hP | hP
    · nlinarith
    · have : (1 : ℝ) / 2 ≤ g := rg.ge f64_half (by rw [div_le_div_iff₀ (by norm_num) hv'0]; linarith)
      have : k ≤ 1 / 2 := rk.le f64_half (by linarith)
      nlinarith
  obtain ⟨w, ew, rw', w0, w1⟩ := rnd_mul hA (a := rp) (b := k) f64_zero FB2 (by positivity) key
  have hV : qc + w ≤ 3 * 2 ^ b := by linarith
  obtain ⟨V, eV, rV, V0, V1⟩ := rnd_add hA (a := qc) (b := w) f64_zero FB3 (by positivity) hV
  refine ⟨rr, c, qc, rp, k, w, V, ?_, ?_⟩
  · exact ⟨rrr, rr0, rr1, rc, c0, c1, rqc, qc0, hSc, rrp, rp0, rk, k0, k1, key, rw', w0, hV, rV, V0, V1⟩
  · rw [err, ec, eqc, erp, ek, ew, eV]

theorem step_err (hA : IsBinary64 A) {a b : ℤ} (ha1 : -300 ≤ a) (ha2 : a ≤ 300) (hb1 : -300 ≤ b) (hb2 : b ≤ 300)
    {ρ' m' v' y' E' S' ρ m v y E S P : ℝ} (Fρ : F64 ρ') (hρ'0 : 0 ≤ ρ') (hρ'1 : ρ' ≤ 1) (Fm : F64 m') (hm' : |m'| ≤ 2 * 2 ^ (a + 1))
    (hy' : |y'| ≤ 2 ^ (a + 1)) (Fv : F64 v') (hv'0 : 0 < v') (hE'0 : 0 ≤ E') (hEv : E' ≤ v') (hv' : v' ≤ 4 * 2 ^ b) (hS'0 : 0 ≤ S') (hS'1 : S' ≤ 2 ^ b)
    (hρ0 : 0 ≤ ρ) (hρ1 : ρ ≤ 1) (hρ : |ρ' - ρ| ≤ 3 * uu) (hS0 : 0 ≤ S) (hS1 : S ≤ 2 ^ b / 2) (hS : |S' - S| ≤ 3 * (uu * 2 ^ b))
    (hP0 : 0 ≤ P) (hP1 : P ≤ 2 ^ b / 2) (hE0 : 0 < E) (hE1 : E ≤ 2 ^ b / 2) (hE : |E' - E| ≤ 6 * uu * E) (hv : v = P + E)
    (hy : |y' - y| ≤ 2 * (uu * 2 ^ a)) :
    ∃ M V, A.add (A.mul (.fin ρ') (.fin m')) (A.mul (A.mul (.fin ρ') (A.div (A.sub (.fin v') (.fin E')) (.fin v'))) (A.sub (.fin y') (.fin m'))) = .fin M ∧
      A.add (A.mul (.fin S') (A.sub (.fin 1) (A.mul (.fin ρ') (.fin ρ'))))
        (A.mul (A.mul (A.mul (.fin ρ') (.fin ρ')) (A.sub (.fin v') (.fin E'))) (A.sub (.fin 1) (A.div (A.sub (.fin v') (.fin E')) (.fin v')))) = .fin V ∧
      0 ≤ V ∧ V ≤ 3 * 2 ^ b ∧
      |V - (S * (1 - ρ * ρ) + ρ * ρ * P * (1 - P / v))| ≤ ρ * ρ * |v' - v| + 92 * (uu * 2 ^ b) ∧
      |M - ρ * (m + P / v * (y - m))| ≤ ρ * |m' - m| + 64 * (uu * 2 ^ a) + 6 * 2 ^ a * (uu + (7 * (uu * 2 ^ b) + |v' - v|) / v') := by
  obtain ⟨P', g, G, eP, eg⟩ := stepG hA Fv hv'0 hE'0 hEv
  obtain ⟨m1, d, h, t, M, rm, eM⟩ := stepM hA ha1 ha2 Fρ hρ'0 hρ'1 Fm hm' hy' G.g0 G.g1
  obtain ⟨rr, c, qc, rp, k, w, V, r, eV⟩ := stepV hA hb1 hb2 hρ'0 hρ'1 hv'0 hv' hS'0 hS'1 G
  refine ⟨M, V, by rw [eP, eg]; exact eM, by rw [eP, eg]; exact eV, r.V0, r.V1, ?_, ?_⟩
  · clear eM eV
    have hB : (0 : ℝ) < 2 ^ b := by positivity
    have f4 {x r : ℝ} (h : Rounds x r) (h0 : 0 ≤ x) (h1 : x ≤ 4 * 2 ^ b) : |r - x| ≤ 4 * (uu * 2 ^ b) :=
      (rz h (by rw [abs_of_nonneg h0]; exact h1) (by norm_num) (by norm_num) (by omega) (by omega)).trans_eq (by ring)
    have fq : |qc - S' * c| ≤ uu * 2 ^ b :=
      (rz (k := 1) (a := b) r.rqc (by rw [abs_of_nonneg (mul_nonneg hS'0 r.c0)]; linarith [r.hSc]) le_rfl (by norm_num) (by omega) (by omega)).trans_eq (by ring)
    have rp4 : rr * P' ≤ 4 * 2 ^ b := (mul_le_of_le_one_left G.P0 r.rr1).trans (G.Pv.trans hv')
    have k4 : rp * k ≤ 4 * 2 ^ b := r.key.trans (by linarith)
    have V4 : qc + w ≤ 4 * 2 ^ b := r.hV.trans (by linarith)
    have ρρ : ρ' * ρ' ≤ 1 := mul_le_one₀ hρ'1 hρ'0 hρ'1
    exact var_err uu_pos uu_small hB hS0 hS1 hS hP0 hP1 hE0 hE1 hv hE hv'0 hv' hEv hρ0 hρ1 hρ'0 hρ'1 hρ
      (f4 G.rP (by linarith) (by linarith)) G.P0 G.Pv (rz1 G.rg (div_nonneg G.P0 hv'0.le) ((div_le_one hv'0).2 G.Pv))
      (rz1 r.rk (by linarith [G.g1]) (by linarith [G.g0])) r.k0 r.k1 (rz1 r.rrr (mul_nonneg hρ'0 hρ'0) ρρ)
      (rz1 r.rc (by linarith [r.rr1]) (by linarith [r.rr0])) r.c0 r.c1
      fq (f4 r.rrp (mul_nonneg r.rr0 G.P0) rp4) (f4 r.rw' (mul_nonneg r.rp0 r.k0) k4) (f4 r.rV (add_nonneg r.qc0 r.w0) V4)
  · clear eM eV
    have hB : (0 : ℝ) < 2 ^ b := by positivity
    have hY : (0 : ℝ) < 2 ^ a := by positivity
    have eY : (2 : ℝ) ^ (a + 1) = 2 * 2 ^ a := by rw [zpow_add_one₀ (by norm_num)]; ring
    have f4 : |P' - (v' - E')| ≤ 4 * (uu * 2 ^ b) :=
      (rz (k := 4) (a := b) G.rP (by rw [abs_of_nonneg (by linarith)]; linarith) (by norm_num) (by norm_num) (by omega) (by omega)).trans_eq (by ring)
    have hG := gain_err uu_pos hB hP0 hE0 hE1 hv hE hv'0 f4 (rz1 G.rg (div_nonneg G.P0 hv'0.le) ((div_le_one hv'0).2 G.Pv))
    have hv0 : 0 < v := by linarith
    rw [eY] at hm' hy'
    have fy (k : ℝ) {x r : ℝ} (h : Rounds x r) (hx : |x| ≤ k * 2 ^ a) (k1 : 1 ≤ k) (k2 : k ≤ 64) : |r - x| ≤ k * (uu * 2 ^ a) :=
      (rz h hx k1 k2 (by omega) (by omega)).trans_eq (by ring)
    have hρg : ρ' * g ≤ 1 := mul_le_one₀ hρ'1 G.g0 G.g1
    have m4 : |m'| ≤ 4 * 2 ^ a := by linarith
    have hρm : |ρ' * m'| ≤ 4 * 2 ^ a := by
      rw [abs_mul, abs_of_nonneg hρ'0]; exact (mul_le_of_le_one_left (abs_nonneg _) hρ'1).trans m4
    have hym : |y' - m'| ≤ 6 * 2 ^ a := (abs_sub _ _).trans (by linarith)
    have uY : 0 < uu * 2 ^ a := mul_pos uu_pos hY
    exact mean_err uu_pos hY hρ0 hρ1 hρ'0 hρ'1 hρ (div_nonneg hP0 hv0.le) ((div_le_one hv0).2 (by linarith)) G.g0 G.g1 hG m4 hy' hy
      (fy 4 rm.rm1 hρm (by norm_num) (by norm_num)) (fy 6 rm.rd hym (by norm_num) (by norm_num)) rm.hd (rz1 rm.rh (mul_nonneg hρ'0 G.g0) hρg)
      (fy 6 rm.rt rm.ht (by norm_num) (by norm_num)) ((fy 4 rm.rM rm.hM (by norm_num) (by norm_num)).trans (by linarith))

end Verif.Theory
