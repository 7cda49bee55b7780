import Verif.Theory.FSimFwd

/-!
The CAR(1) filter in binary64 arithmetic on data with error-free points among them: the backward pass of `Predict`, and how far a predicted
mean can exceed the data.
-/

namespace Verif.Theory

open Verif.Model Verif.Spec
open scoped Classical

variable {A : Arith}

/-- The points from index `i0` on are observations with positive errors. -/
structure STail (A : Arith) (n i0 : ℕ) (s : FKF1) : Prop where
  fwd : SFwd A n s
  max : s.time.length ≤ 2 ^ 24
  times : ∀ i < s.time.length, ∃ t, s.time[i]? = some (.fin t)
  tys : ∀ i, i0 ≤ i → i < s.time.length → ∃ x, s.y[i]? = some (.fin x) ∧ |x| ≤ 2 ^ (100 : ℤ)
  tes : ∀ i, i0 ≤ i → i < s.time.length → ∃ e E, s.yerr[i]? = some (.fin e) ∧ A.mul (.fin e) (.fin e) = .fin E ∧ 2 ^ (-102 : ℤ) ≤ E ∧ E ≤ 2 ^ (102 : ℤ)

theorem STail.same {n i0 : ℕ} {s s' : FKF1} (h : STail A n i0 s) (k : KSame s s') : STail A n i0 s' :=
  ⟨h.fwd.same k, by rw [k.time]; exact h.max, by rw [k.time]; exact h.times, by rw [k.time, k.y]; exact h.tys, by rw [k.time, k.yerr]; exact h.tes⟩

/-- State of the backward part with `current_index_ = c`, after `j` observations. -/
structure TCoef (A : Arith) (n i0 : ℕ) (s : FKF1) (c j : ℕ) : Prop where
  tail : STail A n i0 s
  cur : s.cur = c
  ic : i0 < c
  slope : ∃ g, s.yslope = .fin g ∧ F64 g ∧ 0 ≤ g ∧ g ≤ 1
  const : ∃ k, s.yconst = .fin k ∧ |k| ≤ j * 2 ^ (100 : ℤ)
  last : ∃ v e E, s.var[c - 1]? = some (.fin v) ∧ s.yerr[c - 1]? = some (.fin e) ∧ A.mul (.fin e) (.fin e) = .fin E ∧ F64 v ∧
    2 ^ (-102 : ℤ) ≤ E ∧ E ≤ v ∧ v ≤ 4 * 2 ^ (102 : ℤ)

theorem p102_pos : (0 : ℝ) < 2 ^ (-102 : ℤ) := by positivity

theorem f64_100 : F64 (2 ^ (100 : ℤ)) := f64_zpow _ (by omega) (by omega)

/-- `InitializeCoefs` -/
theorem tinit_num (hA : IsBinary64 A) {n : ℕ} {s : FKF1} {x : ℝ} {i : ℕ} (h : STail A n i s) (hi : i < s.time.length) :
    ∃ s', FKF1.initCoefs A s (.fin x) i = .ok s' ∧ TCoef A n i s' (i + 1) 0 := by
  obtain ⟨w, ew, Fw, w0⟩ := h.fwd.omega
  obtain ⟨S, eS, S0, S1⟩ := h.fwd.stat
  obtain ⟨t, et⟩ := h.times i hi
  obtain ⟨e, E, ee, eE, E0, E1⟩ := h.tes i le_rfl hi
  obtain ⟨g, eg, Fg, g0, g1⟩ := decay_num hA w0 (gap_abs hA x t)
  have hp := p102_pos
  obtain ⟨rr, err, -, rr0, rr1⟩ := mul01_pos hA f64_one g0 g1 g0 g1
  obtain ⟨c, ec, -, c0, c1⟩ := one_sub_num hA rr0 rr1
  have FB : F64 (2 ^ (102 : ℤ)) := f64_zpow _ (by omega) (by omega)
  have hB : (0 : ℝ) < 2 ^ (102 : ℤ) := by positivity
  obtain ⟨q, eq, -, q0, q1⟩ := mul01_pos hA FB (hp.le.trans S0) S1 c0 c1
  obtain ⟨v, ev, Fv, v0, v1⟩ := var_sum hA (hA.range _ _ eE) f64_4_102 q0 (q1.trans (le_mul_of_one_le_left hB.le (by norm_num))) E1
  have lv : i < s.var.length := by rw [h.fwd.lvar]; exact hi
  refine ⟨{ s with yconst := .fin 0, yslope := .fin g, var := s.var.set i (.fin v), cur := i + 1 }, ?_, ?_⟩
  · simp only [FKF1.initCoefs, rd_some et, res_bind_ok, ew, eg, rd_some ee, err, ec, eE]
    rw [ew] at eS
    rw [eS, eq, ev, wrU_ok lv, res_bind_ok]
    rfl
  · refine ⟨h.same ⟨rfl, rfl, rfl, rfl, rfl, rfl, rfl, by simp⟩, rfl, by omega, ⟨g, rfl, Fg, g0, g1⟩, ⟨0, rfl, by simp⟩, ?_⟩
    exact ⟨v, e, E, by simp [lv], ee, eE, Fv, E0, v0, v1⟩

/-- `UpdateCoefs` -/
theorem tupdate_num (hA : IsBinary64 A) {n i0 : ℕ} {s : FKF1} {c j : ℕ} (h : TCoef A n i0 s c j) (hcn : c < s.time.length)
    (hj : j + 1 < 2 ^ 53) : ∃ s', FKF1.updateCoefs A s = .ok s' ∧ TCoef A n i0 s' (c + 1) (j + 1) ∧ KSame s s' := by
  have hs := h.tail
  have hic := h.ic
  obtain ⟨w, ew, Fw, w0⟩ := hs.fwd.omega
  obtain ⟨S, eS, S0, S1⟩ := hs.fwd.stat
  obtain ⟨g, eg, Fg, g0, g1⟩ := h.slope
  obtain ⟨κ, eκ, hκ⟩ := h.const
  obtain ⟨v, e, E, ev, ee, eE, Fv, E0, Ev, v1⟩ := h.last
  obtain ⟨e2, E2, ee2, eE2, E20, E21⟩ := hs.tes c hic.le hcn
  obtain ⟨y, ey, hy⟩ := hs.tys (c - 1) (by omega) (by omega)
  have hdl : c - 1 < s.dt.length := by have := hs.fwd.ldt; omega
  obtain ⟨ρ, eρ, Fρ, ρ0, ρ1⟩ := decay2_num hA w0 (hs.fwd.dts _ (List.getElem_mem hdl))
  have hp := p102_pos
  obtain ⟨P, γ, V, eP, eγ, γ0, γ1, eV, FV, V0, V1, -⟩ := svar_num hA Fρ ρ0 ρ1 Fv (hp.le.trans E0) (hp.trans_le (E0.trans Ev)) Ev v1 S0 S1
  obtain ⟨k, ek, -, k0, k1⟩ := one_sub_num hA γ0 γ1
  obtain ⟨ρk, eρk, -, ρk0, ρk1⟩ := mul01_pos hA f64_one ρ0 ρ1 k0 k1
  obtain ⟨g2, eg2, Fg2, g20, g21⟩ := mul01_pos hA f64_one g0 g1 ρk0 ρk1
  have FJ : F64 (j * 2 ^ (100 : ℤ)) := f64_nat_zpow j _ (by omega) (by omega) (by omega)
  have FJ1 : F64 ((j + 1 : ℕ) * 2 ^ (100 : ℤ)) := f64_nat_zpow (j + 1) _ hj (by omega) (by omega)
  have eJ1 := cast_succ_mul j (2 ^ (100 : ℤ))
  rw [eJ1] at FJ1
  obtain ⟨a, ea, -, a1⟩ := mul01_abs hA FJ hκ ρ0 ρ1
  obtain ⟨b, eb, -, b1⟩ := mul01_abs hA FJ a1 k0 k1
  obtain ⟨d, ed, -, d0, d1⟩ := mul01_pos hA f64_one ρ0 ρ1 γ0 γ1
  obtain ⟨f, ef, -, f1⟩ := mul01_abs' hA f64_100 hy d0 d1
  obtain ⟨κ', eκ', -, hκ'⟩ := add_abs_num hA FJ1 b1 f1
  obtain ⟨v', ev', Fv', v0', v1'⟩ := var_sum hA (hA.range _ _ eE2) f64_4_102 V0 V1 E21
  have l2 : c < s.var.length := by rw [hs.fwd.lvar]; exact hcn
  have hpi : prevIdx c = .ok (c - 1) := by simp [prevIdx]; omega
  have hd : rd s.dt (c - 1) = .ok s.dt[c - 1] := rd_some (List.getElem?_eq_getElem hdl)
  have ks : KSame s { s with yconst := .fin κ', yslope := .fin g2, var := s.var.set c (.fin v'), cur := c + 1 } :=
    ⟨rfl, rfl, rfl, rfl, rfl, rfl, rfl, by simp⟩
  refine ⟨_, ?_, ?_, ks⟩
  · rw [ew] at eS
    simp only [FKF1.updateCoefs, h.cur, hpi, res_bind_ok, hd, rd_some ev, rd_some ee, rdU_some ey, ew, eS, eρ, eE, eP, eγ, eg, eκ, ek, eρk, eg2,
      ea, eb, ed, ef, eκ', rd_some ee2, eE2]
    have e1 := eV
    simp only [ek] at e1
    rw [e1, ev', wr_ok l2, res_bind_ok]
    rfl
  · refine ⟨hs.same ks, rfl, by omega, ⟨g2, rfl, Fg2, g20, g21⟩, ⟨κ', rfl, ?_⟩, ?_⟩
    · rw [eJ1]; exact hκ'
    · exact ⟨v', e2, E2, by simp [l2], ee2, eE2, Fv', E20, v0', v1'⟩

/-! ### sums with the growth of the rounding error -/

theorem add_rel (hA : IsBinary64 A) {a b J K : ℝ} (ha : |a| ≤ J) (hb : |b| ≤ K) (h0 : 2 ^ (-1000 : ℤ) ≤ J + K) (h1 : J + K ≤ 2 ^ (900 : ℤ)) :
    ∃ r, A.add (.fin a) (.fin b) = .fin r ∧ F64 r ∧ |r| ≤ (J + K) * (1 + uu) := by
  have F9 : F64 (2 ^ (900 : ℤ)) := f64_zpow _ (by omega) (by omega)
  have hab : |a + b| ≤ J + K := (abs_add_le a b).trans (add_le_add ha hb)
  obtain ⟨r, er, rr, -, -⟩ := rnd_add hA (a := a) (b := b) (f64_neg F9) F9 (abs_le.mp (hab.trans h1)).1 (abs_le.mp (hab.trans h1)).2
  have e := rounds_err rr hab h0 (h1.trans (pw_le _ _ (by norm_num)))
  refine ⟨r, er, rr.f, ?_⟩
  have := abs_sub_abs_le_abs_sub r (a + b)
  nlinarith

theorem mul_rel (hA : IsBinary64 A) {a b X : ℝ} (h : |a * b| ≤ X) (h0 : 2 ^ (-1000 : ℤ) ≤ X) (h1 : X ≤ 2 ^ (900 : ℤ)) :
    ∃ r, A.mul (.fin a) (.fin b) = .fin r ∧ F64 r ∧ |r| ≤ X * (1 + uu) := by
  have F9 : F64 (2 ^ (900 : ℤ)) := f64_zpow _ (by omega) (by omega)
  obtain ⟨r, er, rr, -, -⟩ := rnd_mul hA (a := a) (b := b) (f64_neg F9) F9 (abs_le.mp (h.trans h1)).1 (abs_le.mp (h.trans h1)).2
  have e := rounds_err rr h h0 (h1.trans (pw_le _ _ (by norm_num)))
  refine ⟨r, er, rr.f, ?_⟩
  have := abs_sub_abs_le_abs_sub r (a * b)
  nlinarith

/-- size of the sums after `k` terms -/
structure TAcc (p R : ℝ) (acc : Dbl × Dbl) (k : ℕ) : Prop where
  prec : ∃ P, acc.1 = .fin P ∧ F64 P ∧ p ≤ P ∧ P ≤ (k + 1 : ℕ) * 2 ^ (155 : ℤ)
  sum : ∃ q, acc.2 = .fin q ∧ |q| ≤ (R + k * 2 ^ (226 : ℤ)) * (1 + uu) ^ k

/-- growth over all terms -/
theorem grow_le {k : ℕ} (hk : k ≤ 2 ^ 24) : (1 + uu) ^ k ≤ 1 + 2 ^ (-27 : ℤ) := by
  have u0 := uu_pos
  have hk' : (k : ℝ) ≤ 2 ^ (24 : ℤ) := by
    have : (k : ℝ) ≤ ((2 ^ 24 : ℕ) : ℝ) := by exact_mod_cast hk
    exact this.trans_eq (by norm_num)
  have h1 : (1 + uu) ^ k ≤ Real.exp (k * uu) := by
    rw [Real.exp_nat_mul]
    refine pow_le_pow_left₀ (by positivity) ?_ k
    have := Real.add_one_le_exp uu
    linarith
  have hx : (k : ℝ) * uu ≤ 2 ^ (-28 : ℤ) := by
    refine (mul_le_mul_of_nonneg_right hk' u0.le).trans_eq ?_
    unfold uu; norm_num
  have hx0 : 0 ≤ (k : ℝ) * uu := by positivity
  refine h1.trans ?_
  have h2 := Real.exp_bound_div_one_sub_of_interval hx0 (lt_of_le_of_lt hx (by norm_num))
  refine h2.trans ?_
  rw [div_le_iff₀ (by norm_num at hx ⊢; linarith)]
  norm_num at hx ⊢
  nlinarith

theorem taccum_num (hA : IsBinary64 A) {n i0 : ℕ} {s : FKF1} {c j : ℕ} (h : TCoef A n i0 s (c + 1) j) (hc : c < s.time.length) {p R : ℝ}
    {acc : Dbl × Dbl} {k : ℕ} (R0 : 0 ≤ R) (R1 : R ≤ 2 ^ (600 : ℤ)) (ha : TAcc p R acc k) (hk : k + 1 ≤ 2 ^ 24) (hj : j + 1 ≤ 2 ^ 24) :
    ∃ acc', FKF1.accum A s c acc = .ok acc' ∧ TAcc p R acc' (k + 1) := by
  obtain ⟨g, eg, Fg, g0, g1⟩ := h.slope
  obtain ⟨κ, eκ, hκ⟩ := h.const
  obtain ⟨v, e, E, ev, ee, eE, Fv, E0, Ev, v1⟩ := h.last
  rw [Nat.add_sub_cancel] at ev
  obtain ⟨y, ey, hy⟩ := h.tail.tys c (by have := h.ic; omega) hc
  obtain ⟨P, eP, FP, P1, P2⟩ := ha.prec
  obtain ⟨q, eq, hq⟩ := ha.sum
  have hv : 2 ^ (-102 : ℤ) ≤ v := E0.trans Ev
  have hp := p102_pos
  have FB : F64 (2 ^ (102 : ℤ)) := f64_zpow _ (by omega) (by omega)
  have pp : (1 : ℝ) = 2 ^ (102 : ℤ) * 2 ^ (-102 : ℤ) := by rw [pw_mul 102 (-102) 0 (by norm_num)]; norm_num
  obtain ⟨a, ea, -, a0, a1⟩ := mul01_pos hA f64_one g0 g1 g0 g1
  obtain ⟨b, eb, -, b0, b1⟩ := div_pos_num hA FB (by positivity) a0 a1 pp hp hv
  have F155 : F64 ((k + 1 + 1 : ℕ) * 2 ^ (155 : ℤ)) := f64_nat_zpow (k + 1 + 1) _ (by omega) (by omega) (by omega)
  rw [cast_succ_mul] at F155
  obtain ⟨P', eP', FP', P1', P2'⟩ := prec_add hA FP F155 b0 P2 (b1.trans (pw_le 102 155 (by norm_num)))
  -- the weighted sum
  have FJ1 : F64 ((j + 1 : ℕ) * 2 ^ (100 : ℤ)) := f64_nat_zpow (j + 1) _ (by omega) (by omega) (by omega)
  have eJ1 : ((j + 1 : ℕ) : ℝ) * 2 ^ (100 : ℤ) = 2 ^ (100 : ℤ) + j * 2 ^ (100 : ℤ) := by rw [cast_succ_mul, add_comm]
  rw [eJ1] at FJ1
  obtain ⟨d, ed, -, d1⟩ := sub_abs_num hA FJ1 hy hκ
  obtain ⟨f, ef, -, f1⟩ := mul01_abs' hA FJ1 d1 g0 g1
  have F202 : F64 ((j + 1 : ℕ) * 2 ^ (202 : ℤ)) := f64_nat_zpow (j + 1) _ (by omega) (by omega) (by omega)
  obtain ⟨t, et, -, t1⟩ := div_abs_num hA F202 (by positivity) f1 (by
    rw [← eJ1, mul_assoc, pw_mul 202 (-102) 100 (by norm_num)]) hp hv
  have hjr : ((j + 1 : ℕ) : ℝ) ≤ 2 ^ (24 : ℤ) := by
    have h2 : ((j + 1 : ℕ) : ℝ) ≤ ((2 ^ 24 : ℕ) : ℝ) := by exact_mod_cast hj
    exact h2.trans_eq (by norm_num)
  have hkr : (k : ℝ) ≤ 2 ^ (24 : ℤ) := by
    have h2 : (k : ℝ) ≤ ((2 ^ 24 : ℕ) : ℝ) := by exact_mod_cast (by omega : k ≤ 2 ^ 24)
    exact h2.trans_eq (by norm_num)
  have l226 : ((j + 1 : ℕ) : ℝ) * 2 ^ (202 : ℤ) ≤ 2 ^ (226 : ℤ) := by
    rw [← pw_mul 24 202 226 (by norm_num)]
    exact mul_le_mul_of_nonneg_right hjr (by positivity)
  have u0 := uu_pos
  have gr : (1 + uu) ^ k ≤ 2 := (grow_le (by omega)).trans (by norm_num)
  have gr1 : 1 ≤ (1 + uu) ^ k := one_le_pow₀ (by linarith)
  have hT : (0 : ℝ) < 2 ^ (226 : ℤ) := by positivity
  have hkT : (k : ℝ) * 2 ^ (226 : ℤ) ≤ 2 ^ (600 : ℤ) := by
    refine (mul_le_mul_of_nonneg_right hkr hT.le).trans ?_
    rw [pw_mul 24 226 250 (by norm_num)]; exact pw_le _ _ (by norm_num)
  have hsum : (R + k * 2 ^ (226 : ℤ)) * (1 + uu) ^ k + 2 ^ (226 : ℤ) ≤ 2 ^ (900 : ℤ) := by
    have h1 : R + k * 2 ^ (226 : ℤ) ≤ 2 ^ (600 : ℤ) + 2 ^ (600 : ℤ) := add_le_add R1 hkT
    have h2 : (R + k * 2 ^ (226 : ℤ)) * (1 + uu) ^ k ≤ (2 ^ (600 : ℤ) + 2 ^ (600 : ℤ)) * 2 :=
      mul_le_mul h1 gr (by linarith) (by positivity)
    refine (add_le_add h2 (pw_le 226 600 (by norm_num))).trans ?_
    rw [← pw_mul 300 600 900 (by norm_num)]
    have h3 : (5 : ℝ) ≤ 2 ^ (300 : ℤ) := (by norm_num : (5 : ℝ) ≤ 2 ^ (3 : ℤ)).trans (pw_le _ _ (by norm_num))
    refine le_trans (le_of_eq ?_) (mul_le_mul_of_nonneg_right h3 (by positivity))
    ring
  obtain ⟨q', eq', -, hq'⟩ := add_rel hA hq (t1.trans l226) (by
    refine (pw_le (-1000) 226 (by norm_num)).trans ?_
    refine le_add_of_nonneg_left ?_
    positivity) hsum
  refine ⟨(.fin P', .fin q'), ?_, ⟨P', rfl, FP', P1.trans P1', by rw [cast_succ_mul]; exact P2'⟩, ⟨q', rfl, hq'.trans ?_⟩⟩
  · simp only [FKF1.accum, rd_some ev, rd_some ey, res_bind_ok, eg, eκ, ea, eb, eP, eP', ed, ef, et, eq, eq']
    rfl
  · rw [cast_succ_mul, pow_succ, ← mul_assoc]
    refine mul_le_mul_of_nonneg_right ?_ (by linarith)
    generalize (2 : ℝ) ^ (226 : ℤ) = T at hT
    nlinarith

theorem tloop_num (hA : IsBinary64 A) {n i0 : ℕ} {p R : ℝ} (R0 : 0 ≤ R) (R1 : R ≤ 2 ^ (600 : ℤ)) :
    ∀ {k i j l : ℕ} {s : FKF1} {acc : Dbl × Dbl}, TCoef A n i0 s i j → i + k = s.time.length →
    TAcc p R acc l → j + k + 1 ≤ 2 ^ 24 → l + k ≤ 2 ^ 24 → ∃ s' acc', FKF1.coefLoop A k i s acc = .ok (s', acc') ∧ TAcc p R acc' (l + k)
  | 0, i, j, l, s, acc, _, _, ha, _, _ => ⟨s, acc, rfl, ha⟩
  | k + 1, i, j, l, s, acc, h, hi, ha, hj, hl => by
      obtain ⟨s1, e1, h1, ks⟩ := tupdate_num hA h (by omega) (by omega)
      obtain ⟨acc1, e2, h2⟩ := taccum_num hA h1 (by rw [ks.time]; omega) R0 R1 ha (by omega) (by omega)
      obtain ⟨s', acc', e3, h3⟩ := tloop_num hA R0 R1 (k := k) h1 (by rw [ks.time]; omega) h2 (by omega) (by omega)
      refine ⟨s', acc', ?_, ?_⟩
      · rw [FKF1.coefLoop, e1, res_bind_ok, e2, res_bind_ok, e3]
      · rwa [show l + (k + 1) = l + 1 + k by omega]

section out
variable {u g B C D : ℝ}

theorem out_fin (u0 : 0 < u) (u1 : u ≤ 2 ^ (-52 : ℤ)) (g0 : 1 ≤ g) (g1 : g ≤ 1 + 2 ^ (-27 : ℤ)) (B0 : 1 ≤ B) (C0 : 1 ≤ C) :
    ((B * (1 + u) + C) * g) * (1 + u) * (1 + u) ≤ B * (1 + 2 ^ (-26 : ℤ)) + 4 * C := by
  have hg3 : g * (1 + u) * (1 + u) * (1 + u) ≤ 1 + 2 ^ (-26 : ℤ) := by
    have : g * (1 + u) * (1 + u) * (1 + u) ≤ (1 + 2 ^ (-27 : ℤ)) * (1 + 2 ^ (-52 : ℤ)) * (1 + 2 ^ (-52 : ℤ)) * (1 + 2 ^ (-52 : ℤ)) := by
      have : 0 ≤ g := by linarith
      gcongr
    refine this.trans ?_
    norm_num
  have hg2 : g * (1 + u) * (1 + u) ≤ 4 := by
    have : g * (1 + u) * (1 + u) ≤ (1 + 2 ^ (-27 : ℤ)) * (1 + 2 ^ (-52 : ℤ)) * (1 + 2 ^ (-52 : ℤ)) := by
      have : 0 ≤ g := by linarith
      gcongr
    refine this.trans ?_
    norm_num
  calc (B * (1 + u) + C) * g * (1 + u) * (1 + u)
      = B * (g * (1 + u) * (1 + u) * (1 + u)) + C * (g * (1 + u) * (1 + u)) := by ring
    _ ≤ B * (1 + 2 ^ (-26 : ℤ)) + C * 4 := add_le_add (mul_le_mul_of_nonneg_left hg3 (by linarith)) (mul_le_mul_of_nonneg_left hg2 (by linarith))
    _ = _ := by ring

theorem out_lo (u0 : 0 < u) (g0 : 1 ≤ g) (B0 : 1 ≤ B) (C0 : 1 ≤ C) : 1 ≤ ((B * (1 + u) + C) * g) * (1 + u) := by
  have h1 : 1 ≤ B * (1 + u) + C := by nlinarith
  have h2 : 1 ≤ (B * (1 + u) + C) * g := by nlinarith
  nlinarith

theorem out_hi (u0 : 0 < u) (u1 : u ≤ 2 ^ (-52 : ℤ)) (g0 : 1 ≤ g) (g1 : g ≤ 1 + 2 ^ (-27 : ℤ)) (B0 : 1 ≤ B) (C0 : 1 ≤ C) (hB : B ≤ D) (hC : C ≤ D) :
    ((B * (1 + u) + C) * g) * (1 + u) ≤ 32 * D := by
  have h := out_fin u0 u1 g0 g1 B0 C0
  have h1 := out_lo u0 g0 B0 C0
  have h2 : B * (1 + 2 ^ (-26 : ℤ)) ≤ B * 2 := mul_le_mul_of_nonneg_left (by norm_num) (by linarith)
  nlinarith

end out

/-- From mean and variance given the past to the result: the mean exceeds the one given the past by little. -/
theorem tfinish_num (hA : IsBinary64 A) {n : ℕ} {s : FKF1} {x m v B : ℝ} {i : ℕ} (h : STail A n i s) (hi : i < s.time.length) (hm : |m| ≤ B)
    (B0 : 1 ≤ B) (B1 : B ≤ 2 ^ (430 : ℤ)) (v0 : 2 ^ (-155 : ℤ) ≤ v) (v1 : v ≤ 2 ^ (104 : ℤ)) :
    ∃ s3 acc s4 acc' μ pv, FKF1.initCoefs A s (.fin x) i = .ok s3 ∧ s3.time = s.time ∧
      FKF1.accum A s3 i (A.div (.fin 1) (.fin v), A.mul (.fin m) (A.div (.fin 1) (.fin v))) = .ok acc ∧
      FKF1.coefLoop A (s3.time.length - (i + 1)) (i + 1) s3 acc = .ok (s4, acc') ∧ A.div (.fin 1) acc'.1 = .fin pv ∧
      A.mul acc'.2 (.fin pv) = .fin μ ∧ F64 pv ∧ 0 < pv ∧ pv ≤ 2 ^ (104 : ℤ) ∧ |μ| ≤ B * (1 + 2 ^ (-26 : ℤ)) + 2 ^ (356 : ℤ) := by
  have pos : (0 : ℝ) < 2 ^ (-155 : ℤ) := by positivity
  have hv : 0 < v := pos.trans_le v0
  have F155 : F64 (2 ^ (155 : ℤ)) := f64_zpow _ (by omega) (by omega)
  have Fm104 : F64 (2 ^ (-104 : ℤ)) := f64_zpow _ (by omega) (by omega)
  have F104 : F64 (2 ^ (104 : ℤ)) := f64_zpow _ (by omega) (by omega)
  have pp : (2 : ℝ) ^ (155 : ℤ) * 2 ^ (-155 : ℤ) = 1 := by rw [pw_mul 155 (-155) 0 (by norm_num)]; norm_num
  have pp' : (2 : ℝ) ^ (-104 : ℤ) * 2 ^ (104 : ℤ) = 1 := by rw [pw_mul (-104) 104 0 (by norm_num)]; norm_num
  have u0 := uu_pos
  have u1 := uu_small
  obtain ⟨p, ep, rp, p1, p2⟩ := rnd_div hA (a := 1) hv.ne' Fm104 F155
    (by rw [le_div_iff₀ hv, ← pp']; exact mul_le_mul_of_nonneg_left v1 (by positivity))
    (by rw [div_le_iff₀ hv, ← pp]; exact mul_le_mul_of_nonneg_left v0 (by positivity))
  have p0 : 0 < p := lt_of_lt_of_le (by positivity) p1
  have hX0 : (2 : ℝ) ^ (-1000 : ℤ) ≤ B * p := by
    refine (pw_le (-1000) (-104) (by norm_num)).trans (p1.trans ?_)
    exact le_mul_of_one_le_left p0.le B0
  have hX1 : B * p ≤ 2 ^ (585 : ℤ) := by
    rw [← pw_mul 430 155 585 (by norm_num)]
    exact mul_le_mul B1 p2 p0.le (by positivity)
  obtain ⟨q, eq, Fq, hq⟩ := mul_rel hA (a := m) (b := p) (X := B * p) (by
    rw [abs_mul, abs_of_pos p0]; exact mul_le_mul_of_nonneg_right hm p0.le) hX0 (hX1.trans (pw_le _ _ (by norm_num)))
  obtain ⟨s3, e3, h3⟩ := tinit_num hA (x := x) h hi
  have ks := initCoefs_ksame e3
  have hBp : 0 < B * p := by positivity
  have R0 : 0 ≤ B * p * (1 + uu) := by positivity
  have R1 : B * p * (1 + uu) ≤ 2 ^ (600 : ℤ) := by
    rw [← pw_mul 585 15 600 (by norm_num)]
    refine mul_le_mul hX1 ?_ (by linarith) (by positivity)
    norm_num; linarith
  have ha : TAcc p (B * p * (1 + uu)) (.fin p, .fin q) 0 := ⟨⟨p, rfl, rp.f, le_rfl, by simpa using p2⟩, ⟨q, rfl, by simpa using hq⟩⟩
  have hmax := h.max
  obtain ⟨acc, e4, h4⟩ := taccum_num hA h3 (by rw [ks.time]; exact hi) R0 R1 ha (by norm_num) (by norm_num)
  obtain ⟨s4, acc', e5, h5⟩ := tloop_num hA R0 R1 (k := s3.time.length - (i + 1)) h3 (by rw [ks.time]; omega) h4 (by rw [ks.time]; omega)
    (by rw [ks.time]; omega)
  obtain ⟨k, hk, hk24⟩ : ∃ k : ℕ, 0 + 1 + (s3.time.length - (i + 1)) = k ∧ k ≤ 2 ^ 24 := ⟨_, rfl, by rw [ks.time]; omega⟩
  rw [hk] at h5
  obtain ⟨P, eP, FP, P1, P2⟩ := h5.prec
  obtain ⟨Q, eQ, hQ⟩ := h5.sum
  have P0 : 0 < P := p0.trans_le P1
  have hkr : (k : ℝ) ≤ 2 ^ (24 : ℤ) := by
    have h2 : (k : ℝ) ≤ ((2 ^ 24 : ℕ) : ℝ) := by exact_mod_cast hk24
    exact h2.trans_eq (by norm_num)
  have P3 : P ≤ 2 ^ (180 : ℤ) := by
    refine P2.trans ?_
    have : ((k + 1 : ℕ) : ℝ) ≤ 2 ^ (25 : ℤ) := by
      have h2 : ((k + 1 : ℕ) : ℝ) ≤ ((2 ^ 25 : ℕ) : ℝ) := by exact_mod_cast (by omega : k + 1 ≤ 2 ^ 25)
      exact h2.trans_eq (by norm_num)
    rw [← pw_mul 25 155 180 (by norm_num)]
    exact mul_le_mul_of_nonneg_right this (by positivity)
  have F180 : F64 (2 ^ (-180 : ℤ)) := f64_zpow _ (by omega) (by omega)
  have pp4 : (2 : ℝ) ^ (-180 : ℤ) * 2 ^ (180 : ℤ) = 1 := by rw [pw_mul (-180) 180 0 (by norm_num)]; norm_num
  have pp3 : (2 : ℝ) ^ (104 : ℤ) * 2 ^ (-104 : ℤ) = 1 := by rw [pw_mul 104 (-104) 0 (by norm_num)]; norm_num
  obtain ⟨pv, epv, rpv, pv1, pv2⟩ := rnd_div hA (a := 1) P0.ne' F180 F104
    (by rw [le_div_iff₀ P0, ← pp4]; exact mul_le_mul_of_nonneg_left P3 (by positivity))
    (by rw [div_le_iff₀ P0, ← pp3]; exact mul_le_mul_of_nonneg_left (p1.trans P1) (by positivity))
  have pv0 : 0 < pv := lt_of_lt_of_le (by positivity) pv1
  -- the quotient
  have hpv : pv ≤ (1 + uu) / P := by
    have e := rounds_rel rpv (by
      rw [abs_of_pos (by positivity), le_div_iff₀ P0]
      refine le_trans ?_ pp4.le
      exact mul_le_mul (pw_le _ _ (by norm_num)) P3 P0.le (by positivity)) (by
      rw [abs_of_pos (by positivity), div_le_iff₀ P0]
      refine pp3.ge.trans ?_
      exact mul_le_mul (pw_le _ _ (by norm_num)) (p1.trans P1) (by positivity) (by positivity))
    rw [abs_of_pos (by positivity : 0 < 1 / P)] at e
    have := (abs_le.mp e).2
    rw [add_div]
    have e2 : uu / P = uu * (1 / P) := by ring
    rw [e2]; linarith
  have gr := grow_le hk24
  have gr1 : 1 ≤ (1 + uu) ^ k := one_le_pow₀ (by linarith)
  have hT : (0 : ℝ) < 2 ^ (226 : ℤ) := by positivity
  -- bound of the product
  have hY : |Q * pv| ≤ ((B * (1 + uu) + 2 ^ (354 : ℤ)) * (1 + uu) ^ k) * (1 + uu) := by
    rw [abs_mul, abs_of_pos pv0]
    have h1 : |Q| * pv ≤ ((B * p * (1 + uu) + k * 2 ^ (226 : ℤ)) * (1 + uu) ^ k) * ((1 + uu) / P) :=
      mul_le_mul hQ hpv pv0.le (by positivity)
    refine h1.trans ?_
    have h2 : (B * p * (1 + uu) + k * 2 ^ (226 : ℤ)) / P ≤ B * (1 + uu) + 2 ^ (354 : ℤ) := by
      rw [div_le_iff₀ P0, add_mul]
      refine add_le_add ?_ ?_
      · have : B * p ≤ B * P := mul_le_mul_of_nonneg_left P1 (by linarith)
        nlinarith
      · have h3 : (k : ℝ) * 2 ^ (226 : ℤ) ≤ 2 ^ (250 : ℤ) := by
          rw [← pw_mul 24 226 250 (by norm_num)]; exact mul_le_mul_of_nonneg_right hkr hT.le
        refine h3.trans ?_
        rw [← pw_mul 354 (-104) 250 (by norm_num)]
        exact mul_le_mul_of_nonneg_left (p1.trans P1) (by positivity)
    have e : ((B * p * (1 + uu) + k * 2 ^ (226 : ℤ)) * (1 + uu) ^ k) * ((1 + uu) / P) =
        ((B * p * (1 + uu) + k * 2 ^ (226 : ℤ)) / P * (1 + uu) ^ k) * (1 + uu) := by ring
    rw [e]
    exact mul_le_mul_of_nonneg_right (mul_le_mul_of_nonneg_right h2 (by positivity)) (by linarith)
  obtain ⟨C, hC⟩ : ∃ C : ℝ, C = 2 ^ (354 : ℤ) := ⟨_, rfl⟩
  have C0 : 1 ≤ C := by rw [hC]; exact (one_le_zpow₀ (by norm_num) (by norm_num))
  have C1 : C ≤ 2 ^ (430 : ℤ) := by rw [hC]; exact pw_le _ _ (by norm_num)
  have C2 : (2 : ℝ) ^ (356 : ℤ) = 4 * C := by rw [hC, ← pw_mul 2 354 356 (by norm_num)]; norm_num
  rw [← hC] at hY
  rw [C2]
  have hu : uu ≤ 2 ^ (-52 : ℤ) := le_of_eq rfl
  have G : ((B * (1 + uu) + C) * (1 + uu) ^ k) * (1 + uu) ≤ 2 ^ (900 : ℤ) := by
    refine (out_hi u0 hu gr1 gr B0 C0 B1 C1).trans ?_
    exact (mul_le_mul_of_nonneg_right (by norm_num : (32 : ℝ) ≤ 2 ^ (5 : ℤ)) (by positivity)).trans ((pw_mul 5 430 435 (by norm_num)).le.trans (pw_le _ _ (by norm_num)))
  have G1 : (2 : ℝ) ^ (-1000 : ℤ) ≤ ((B * (1 + uu) + C) * (1 + uu) ^ k) * (1 + uu) :=
    le_trans (zpow_le_one_of_nonpos₀ (by norm_num) (by norm_num)) (out_lo u0 gr1 B0 C0)
  obtain ⟨μ, eμ, -, hμ⟩ := mul_rel hA hY G1 G
  exact ⟨s3, acc, s4, acc', μ, pv, e3, ks.time, by rw [ep, eq, e4], e5, by rw [eP, epv], by rw [eQ, eμ], rpv.f, pv0, pv2,
    hμ.trans (out_fin u0 hu gr1 gr B0 C0)⟩

end Verif.Theory
