import Verif.Theory.FPredCoef

/-!
Rounding errors of `KalmanFilter1::Predict`: the result.
-/

namespace Verif.Theory

open Verif.Model Verif.Spec

variable {A : Arith} {a b c : ℤ} {n : ℕ} {N κ S' S : ℝ} {ρ' ρ y E' E : ℕ → ℝ}

theorem FIn.uu_le (h : FIn a b c n N κ S' S ρ' ρ y E' E) : uu ≤ uu * κ * n * (n + N ^ 2) := by
  have u0 := uu_pos
  have κ1 := h.κ1
  have N1 := h.N1
  have n1 : (1 : ℝ) ≤ n := by exact_mod_cast h.n1
  have k1 : 1 ≤ κ * n := by nlinarith
  have k2 : (1 : ℝ) ≤ n + N ^ 2 := by nlinarith
  calc uu = uu * 1 := (mul_one _).symm
    _ ≤ uu * (κ * n * (n + N ^ 2)) := mul_le_mul_of_nonneg_left (by nlinarith) u0.le
    _ = _ := by ring

/-- the reciprocal of a number known to a small relative error -/
theorem inv_err {x' x δ : ℝ} (hx : 0 < x) (hδ0 : 0 ≤ δ) (hδ : δ ≤ 1 / 14) (h : |x' - x| ≤ δ * x) : 0 < x' ∧ |1 / x' - 1 / x| ≤ 14 / 13 * δ * (1 / x) := by
  obtain ⟨h1, h2⟩ := abs_le.mp h
  have d1 : δ * x ≤ 1 / 14 * x := mul_le_mul_of_nonneg_right hδ hx.le
  have x1 : 13 / 14 * x ≤ x' := by linarith
  have x0 : 0 < x' := by linarith
  refine ⟨x0, ?_⟩
  have e : 1 / x' - 1 / x = -(x' - x) / (x' * x) := by field_simp; ring
  rw [e, abs_div, abs_neg, abs_of_pos (mul_pos x0 hx), div_le_iff₀ (mul_pos x0 hx)]
  refine h.trans ?_
  rw [show 14 / 13 * δ * (1 / x) * (x' * x) = δ * (14 / 13 * x') * (x * (1 / x)) by ring, mul_one_div_cancel hx.ne', mul_one]
  exact mul_le_mul_of_nonneg_left (by linarith) hδ0

/-- where the sums start -/
theorem start_err (hA : IsBinary64 A) (h : FIn a b c n N κ S' S ρ' ρ y E' E) (t : Tiny n N κ) {x m M V : ℝ} (hx : 2 ^ c / n ≤ x) (hx1 : x ≤ 2 ^ b) (hm : |m| ≤ 2 ^ a)
    (hV : |V - x| ≤ 192 * (uu * 2 ^ b) * N) (hM : |M - m| ≤ 1440 * (uu * κ * N * N) * 2 ^ a) :
    ∃ iv' q0', A.div (.fin 1) (.fin V) = .fin iv' ∧ A.mul (.fin M) (.fin iv') = .fin q0' ∧ |iv' - 1 / x| ≤ 386 * (uu * κ * n * (n + N ^ 2)) / x ∧
      |q0' - m * (1 / x)| ≤ 2220 * (uu * κ * n * (n + N ^ 2)) * 2 ^ a / x := by
  have hC : (0 : ℝ) < 2 ^ c := by positivity
  have hY : (0 : ℝ) < 2 ^ a := by positivity
  have u0 := uu_pos
  have κ1 := h.κ1
  have N1 := h.N1
  have n1 : (1 : ℝ) ≤ n := by exact_mod_cast h.n1
  have x0 : 0 < x := lt_of_lt_of_le (by positivity) hx
  have t2 := h.tiny2 t
  have t11 := h.tiny1.1
  have t12 := h.tiny1.2
  have tu := h.uu_le
  have hV1 : |V - x| ≤ 192 * (uu * κ * n * (n + N ^ 2)) * x := by
    refine hV.trans ?_
    have e : (2 : ℝ) ^ c ≤ x * n := by rwa [div_le_iff₀ (by positivity)] at hx
    calc 192 * (uu * 2 ^ b) * N = 192 * (uu * κ * N) * 2 ^ c := by rw [h.B]; ring
      _ ≤ 192 * (uu * κ * N) * (x * n) := mul_le_mul_of_nonneg_left e (by positivity)
      _ = 192 * (uu * κ * n * N) * x := by ring
      _ ≤ _ := mul_le_mul_of_nonneg_right (by linarith) x0.le
  have mx : Mag 353 x := by
    have b2 := h.b2
    constructor
    · refine le_trans ?_ hx
      exact (h.magC.div h.magn).1
    · exact hx1.trans (pw_le _ _ (by push_cast; omega))
  obtain ⟨ε, hε⟩ : ∃ ε, ε = uu * κ * n * (n + N ^ 2) := ⟨_, rfl⟩
  rw [← hε] at hV1 t2 t11 tu ⊢
  have ε0 : 0 < ε := by linarith
  obtain ⟨V0, i1⟩ := inv_err x0 (by positivity) (by linarith) hV1
  obtain ⟨g, hg⟩ : ∃ g, g = 1 / x := ⟨_, rfl⟩
  have g0 : 0 < g := by rw [hg]; positivity
  have gx : ∀ z : ℝ, z / x = z * g := fun z => by rw [hg, mul_one_div]
  rw [← hg] at i1 ⊢
  rw [gx, gx]
  have b1 : |1 / V| ≤ 2 * g := by
    have := abs_sub_abs_le_abs_sub (1 / V) g
    rw [abs_of_pos g0] at this
    nlinarith
  have mg : Mag 353 g := by rw [hg, one_div]; exact mx.inv
  obtain ⟨iv', ei, -, fi⟩ := rnd_mag hA ((mag_num (x := 2) (by norm_num) (by norm_num)).mul mg) (by norm_num) b1
  have gi : |iv' - g| ≤ 386 * ε * g := by
    have := tri fi i1
    have k : uu * g ≤ ε * g := mul_le_mul_of_nonneg_right tu g0.le
    have k2 : 0 < ε * g := by positivity
    linarith
  have εg : ε * g ≤ 1 / 8192 * g := mul_le_mul_of_nonneg_right (by linarith) g0.le
  have bi : |iv'| ≤ 21 / 20 * g := by
    have := abs_sub_abs_le_abs_sub iv' g
    rw [abs_of_pos g0] at this
    linarith
  have hM1 : |M - m| ≤ 1440 * ε * 2 ^ a := hM.trans (mul_le_mul_of_nonneg_right (by linarith) hY.le)
  have εY : ε * 2 ^ a ≤ 1 / 8192 * 2 ^ a := mul_le_mul_of_nonneg_right (by linarith) hY.le
  have bM : |M| ≤ 2 * 2 ^ a := by
    have := abs_sub_abs_le_abs_sub M m
    linarith
  have bq : |M * iv'| ≤ 4 * 2 ^ a * g := by
    rw [abs_mul]
    have := mul_le_mul bM bi (abs_nonneg _) (by positivity)
    have : 0 < 2 ^ a * g := by positivity
    linarith
  obtain ⟨q0', eq, -, fq⟩ := rnd_mag hA (((mag_num (x := 4) (by norm_num) (by norm_num)).mul h.magY).mul mg) (by norm_num) bq
  refine ⟨iv', q0', by rw [fl_div _ _ V0.ne', ei], by rw [fl_mul, eq], gi, ?_⟩
  have e1 := tri fq (mul_err hM1 gi bi hm)
  have k : uu * (2 ^ a * g) ≤ ε * (2 ^ a * g) := mul_le_mul_of_nonneg_right tu (by positivity)
  have k2 : 0 < ε * (2 ^ a * g) := by positivity
  linarith

/-- the result, from the two sums -/
theorem result_err (hA : IsBinary64 A) (h : FIn a b c n N κ S' S ρ' ρ y E' E) (t : Tiny n N κ) {x p p' q q' k : ℝ} (hx : 2 ^ c / (n : ℝ) ≤ x) (hx1 : x ≤ 2 ^ b / 2)
    (k0 : 0 ≤ k) (kn : k ≤ n) (zp0 : 1 / x ≤ p) (zp1 : p ≤ 1 / x + k / 2 ^ c) (zq : |q| ≤ 2 ^ a / x + 2 * 2 ^ a * k / 2 ^ c)
    (fp : |p' - p| ≤ 386 * (uu * κ * n * (n + N ^ 2)) / x + k * incp c n N κ)
    (fq : |q' - q| ≤ 2220 * (uu * κ * n * (n + N ^ 2)) * 2 ^ a / x + k * incq a c n N κ) :
    ∃ m' v', A.mul (.fin q') (A.div (.fin 1) (.fin p')) = .fin m' ∧ A.div (.fin 1) (.fin p') = .fin v' ∧
      |v' - 1 / p| ≤ 1024 * (uu * κ * n * (n + N ^ 2) * κ) * (1 / p) ∧
      |m' - q * (1 / p)| ≤ 8192 * (uu * κ * n * (n + N ^ 2) * κ) * (n * κ * 2 ^ a) := by
  have hC : (0 : ℝ) < 2 ^ c := by positivity
  have hY : (0 : ℝ) < 2 ^ a := by positivity
  have hB : (0 : ℝ) < 2 ^ b := by positivity
  have u0 := uu_pos
  have κ1 := h.κ1
  have N1 := h.N1
  have nn1 : (1 : ℝ) ≤ n := by exact_mod_cast h.n1
  have x0 : 0 < x := lt_of_lt_of_le (by positivity) hx
  have t1 := t.h
  have t2 := h.tiny2 t
  have t11 := h.tiny1.1
  have tu := h.uu_le
  have ip : 0 ≤ incp c n N κ := by unfold incp; positivity
  have iq : 0 ≤ incq a c n N κ := by unfold incq; positivity
  have kp := (mul_le_mul_of_nonneg_right kn ip).trans h.incp_le
  have kq := (mul_le_mul_of_nonneg_right kn iq).trans h.incq_le
  have q0 : 0 < p := lt_of_lt_of_le (by positivity) zp0
  -- the exact variance
  obtain ⟨pv, hpv⟩ : ∃ pv, pv = 1 / p := ⟨_, rfl⟩
  have pv0 : 0 < pv := by rw [hpv]; positivity
  have pvx : pv / x ≤ 1 := by
    rw [hpv, div_div, one_div, inv_le_one₀ (by positivity)]
    rwa [div_le_iff₀ x0] at zp0
  have pvC : pv / 2 ^ c ≤ κ / 2 := by
    have : pv ≤ 2 ^ b / 2 := by
      rw [div_le_one x0] at pvx
      exact pvx.trans hx1
    rw [h.hκ]
    have := div_le_div_of_nonneg_right this hC.le
    refine this.trans (le_of_eq (by ring))
  have pp : pv * p = 1 := by rw [hpv, one_div, inv_mul_cancel₀ q0.ne']
  obtain ⟨ε, hε⟩ : ∃ ε, ε = uu * κ * n * (n + N ^ 2) := ⟨_, rfl⟩
  rw [← hε] at t1 t2 t11 tu fp fq kp kq ⊢
  have ε0 : 0 < ε := by linarith
  obtain ⟨η, hη⟩ : ∃ η, η = ε * κ := ⟨_, rfl⟩
  have εη : ε ≤ η := by rw [hη]; exact le_mul_of_one_le_right ε0.le κ1
  have η1 : 8192 * η ≤ 1 := by rw [hη]; linarith
  have η0 : 0 < η := by linarith
  -- error of the first sum
  have dp : |p' - p| ≤ 556 * η * p := by
    have e1 : pv * |p' - p| ≤ 556 * η := by
      refine (mul_le_mul_of_nonneg_left (fp.trans (add_le_add le_rfl kp)) pv0.le).trans ?_
      have e2 : pv * (386 * ε / x + 340 * ε / 2 ^ c) = 386 * ε * (pv / x) + 340 * ε * (pv / 2 ^ c) := by ring
      rw [e2]
      have e3 := mul_le_mul_of_nonneg_left pvx (by positivity : 0 ≤ 386 * ε)
      have e4 := mul_le_mul_of_nonneg_left pvC (by positivity : 0 ≤ 340 * ε)
      have e5 : 340 * ε * (κ / 2) = 170 * η := by rw [hη]; ring
      linarith
    have := mul_le_mul_of_nonneg_right e1 q0.le
    rwa [mul_right_comm, pp, one_mul] at this
  obtain ⟨p'0', i1⟩ := inv_err q0 (by positivity) (by linarith) dp
  rw [← hpv] at i1 ⊢
  have ηp : η * pv ≤ 1 / 8192 * pv := mul_le_mul_of_nonneg_right (by linarith) pv0.le
  have ηp0 : 0 < η * pv := by positivity
  have b1 : |1 / p'| ≤ 2 * pv := by
    have := abs_sub_abs_le_abs_sub (1 / p') pv
    rw [abs_of_pos pv0] at this
    linarith
  have mp : Mag 354 pv := by
    have mB : Mag 300 ((2 : ℝ) ^ b) := by
      have := h.b1
      have := h.b2
      exact ⟨pw_le _ _ (by push_cast; omega), pw_le _ _ (by push_cast; omega)⟩
    have l1 : pv ≤ x := by rwa [div_le_one x0] at pvx
    constructor
    · have : p ≤ 2 * n / 2 ^ c := by
        refine zp1.trans ?_
        have e1 : 1 / x ≤ n / 2 ^ c := by
          have := one_div_le_one_div_of_le (by positivity) hx
          rwa [one_div_div] at this
        have e2 := div_le_div_of_nonneg_right kn hC.le
        have e3 : 2 * (n : ℝ) / 2 ^ c = n / 2 ^ c + n / 2 ^ c := by ring
        rw [e3]; exact add_le_add e1 e2
      have e4 := one_div_le_one_div_of_le q0 this
      rw [← hpv] at e4
      refine le_trans ?_ e4
      have m2 : Mag 1 (2 : ℝ) := ⟨by norm_num, by norm_num⟩
      rw [one_div]
      exact ((m2.mul h.magn).div h.magC).inv.1
    · refine (l1.trans hx1).trans (le_trans (by linarith) (mB.2.trans (pw_le _ _ (by norm_num))))
  obtain ⟨v', ev, -, fv⟩ := rnd_mag hA ((mag_num (x := 2) (by norm_num) (by norm_num)).mul mp) (by norm_num) b1
  have dv : |v' - pv| ≤ 603 * η * pv := by
    have := tri fv i1
    have ku : uu * pv ≤ η * pv := mul_le_mul_of_nonneg_right (by linarith) pv0.le
    linarith
  have bv : |v'| ≤ 11 / 10 * pv := by
    have := abs_sub_abs_le_abs_sub v' pv
    rw [abs_of_pos pv0] at this
    linarith
  -- the mean
  have dq : |q' - q| * (11 / 10 * pv) ≤ 3016 * η * 2 ^ a := by
    have e1 : |q' - q| * pv ≤ 2741 * η * 2 ^ a := by
      refine (mul_le_mul_of_nonneg_right (fq.trans (add_le_add le_rfl kq)) pv0.le).trans ?_
      have e2 : (2220 * ε * 2 ^ a / x + 1042 * ε * 2 ^ a / 2 ^ c) * pv = 2220 * ε * 2 ^ a * (pv / x) + 1042 * ε * 2 ^ a * (pv / 2 ^ c) := by ring
      rw [e2]
      have e3 := mul_le_mul_of_nonneg_left pvx (by positivity : 0 ≤ 2220 * ε * 2 ^ a)
      have e4 := mul_le_mul_of_nonneg_left pvC (by positivity : 0 ≤ 1042 * ε * 2 ^ a)
      have e5 : 1042 * ε * 2 ^ a * (κ / 2) = 521 * (η * 2 ^ a) := by rw [hη]; ring
      have e6 : ε * 2 ^ a ≤ η * 2 ^ a := mul_le_mul_of_nonneg_right εη hY.le
      linarith
    have : 0 < η * 2 ^ a := by positivity
    linarith
  have nκ : 1 ≤ n * κ := by nlinarith
  have bq : |q| * pv ≤ 2 * (n * κ * 2 ^ a) := by
    refine (mul_le_mul_of_nonneg_right zq pv0.le).trans ?_
    have e1 : (2 ^ a / x + 2 * 2 ^ a * k / 2 ^ c) * pv = 2 ^ a * (pv / x) + 2 * 2 ^ a * k * (pv / 2 ^ c) := by ring
    rw [e1]
    have e2 := mul_le_mul_of_nonneg_left pvx hY.le
    have e3 : 2 * 2 ^ a * k * (pv / 2 ^ c) ≤ 2 * 2 ^ a * n * (κ / 2) :=
      mul_le_mul (mul_le_mul_of_nonneg_left kn (by positivity)) pvC (by positivity) (by positivity)
    have e4 : (2 : ℝ) ^ a ≤ n * κ * 2 ^ a := le_mul_of_one_le_left hY.le nκ
    linarith
  obtain ⟨W, hW⟩ : ∃ W : ℝ, W = n * κ * 2 ^ a := ⟨_, rfl⟩
  have YW : 2 ^ a ≤ W := by rw [hW]; exact le_mul_of_one_le_left hY.le nκ
  rw [← hW] at bq ⊢
  have W0 : 0 < W := by linarith
  have ηW : η * W ≤ 1 / 8192 * W := mul_le_mul_of_nonneg_right (by linarith) W0.le
  have ηW0 : 0 < η * W := by positivity
  have ηY : η * 2 ^ a ≤ η * W := mul_le_mul_of_nonneg_left YW η0.le
  have dm : |q' * v' - q * pv| ≤ 4222 * (η * W) := by
    have e1 := mul_err (le_refl |q' - q|) dv bv (le_refl |q|)
    have e2 := mul_le_mul_of_nonneg_left bq (by positivity : 0 ≤ 603 * η)
    linarith
  have bm : |q' * v'| ≤ 3 * W := by
    have := abs_sub_abs_le_abs_sub (q' * v') (q * pv)
    rw [abs_mul q, abs_of_pos pv0] at this
    linarith
  have mκ : Mag 600 κ := by
    rw [h.hκ]
    have mB : Mag 300 ((2 : ℝ) ^ b) := by
      have := h.b1
      have := h.b2
      exact ⟨pw_le _ _ (by push_cast; omega), pw_le _ _ (by push_cast; omega)⟩
    exact mB.div h.magC
  have mW : Mag 957 (3 * W) := by
    rw [hW]
    exact (mag_num (x := 3) (by norm_num) (by norm_num)).mul ((h.magn.mul mκ).mul h.magY)
  obtain ⟨m', em, -, fm⟩ := rnd_mag hA mW (by norm_num) bm
  refine ⟨m', v', ?_, ?_, ?_, ?_⟩
  · rw [fl_div _ _ p'0'.ne', ev, fl_mul, em]
  · rw [fl_div _ _ p'0'.ne', ev]
  · rw [← hη]; exact dv.trans (by linarith)
  · rw [← hη]
    refine (tri fm dm).trans ?_
    have ku : uu * W ≤ η * W := mul_le_mul_of_nonneg_right (by linarith) W0.le
    linarith

/-- what `Predict` returns is close to the exact value -/
theorem pval_err (hA : IsBinary64 A) (h : FIn a b c n N κ S' S ρ' ρ y E' E) (t : Tiny n N κ) {i : ℕ} (hi : i ≤ n) {rp' rp rn' rn : ℝ} (Fp : F64 rp') (p'0 : 0 ≤ rp')
    (p'1 : rp' ≤ 1) (p0 : 0 ≤ rp) (p1 : rp ≤ 1) (hp : |rp' - rp| ≤ 3 * uu) (n'0 : 0 ≤ rn') (n'1 : rn' ≤ 1) (n0 : 0 ≤ rn) (n1 : rn ≤ 1) (hn : |rn' - rn| ≤ 3 * uu) :
    ∃ m' v', pval A n (.fin S') (fun i => .fin (ρ' i)) (fun i => .fin (ρ' i)) (fun i => .fin (y i)) (fun i => .fin (E' i)) i (.fin rp') (.fin rn') = (.fin m', .fin v') ∧
      |v' - (rpval n S ρ y E i rp rn).2| ≤ 1024 * (uu * κ * n * (n + N ^ 2) * κ) * (rpval n S ρ y E i rp rn).2 ∧
      |m' - (rpval n S ρ y E i rp rn).1| ≤ 8192 * (uu * κ * n * (n + N ^ 2) * κ) * (n * κ * 2 ^ a) ∧
      (i = n → |v' - (rpval n S ρ y E i rp rn).2| ≤ 192 * (uu * 2 ^ b) * N ∧ |m' - (rpval n S ρ y E i rp rn).1| ≤ 1440 * (uu * κ * N * N) * 2 ^ a) := by
  have hC : (0 : ℝ) < 2 ^ c := by positivity
  have hY : (0 : ℝ) < 2 ^ a := by positivity
  have u0 := uu_pos
  have κ1 := h.κ1
  have N1 := h.N1
  have nn1 : (1 : ℝ) ≤ n := by exact_mod_cast h.n1
  have nn0 : (0 : ℝ) < n := by linarith
  obtain ⟨M, V, eMV, V0, VE, ME⟩ := past_err hA h t hi Fp p'0 p'1 p0 p1 hp
  obtain ⟨z1, z2, z3⟩ := rpast_size h.R p0 p1 i
  have t1 := t.h
  have t2 := h.tiny2 t
  have t11 := h.tiny1.1
  have t12 := h.tiny1.2
  have tu := h.uu_le
  unfold pval rpval
  dsimp only
  rw [eMV]
  by_cases hin : i = n
  · rw [if_pos hin, if_pos hin]
    refine ⟨M, V, rfl, ?_, ?_, fun _ => ⟨VE, ME⟩⟩
    · refine VE.trans ?_
      obtain ⟨x, hx⟩ : ∃ x, x = (rpast S ρ y E i rp).2 := ⟨_, rfl⟩
      rw [← hx] at z2 ⊢
      rw [hin] at z2
      have x0 : 0 < x := lt_of_lt_of_le (by positivity) z2
      have e : (2 : ℝ) ^ c ≤ x * (n + 1) := by rwa [div_le_iff₀ (by positivity)] at z2
      have e2 : (2 : ℝ) ^ c ≤ x * (2 * n) := e.trans (mul_le_mul_of_nonneg_left (by linarith) x0.le)
      calc 192 * (uu * 2 ^ b) * N = 192 * (uu * κ * N) * 2 ^ c := by rw [h.B]; ring
        _ ≤ 192 * (uu * κ * N) * (x * (2 * n)) := mul_le_mul_of_nonneg_left e2 (by positivity)
        _ = 384 * (uu * κ * n * N) * x := by ring
        _ ≤ _ := mul_le_mul_of_nonneg_right ?_ x0.le
      have : uu * κ * n * (n + N ^ 2) ≤ uu * κ * n * (n + N ^ 2) * κ := le_mul_of_one_le_right (by positivity) κ1
      have : 0 ≤ uu * κ * n * (n + N ^ 2) := by positivity
      linarith
    · refine ME.trans ?_
      have k1 : uu * κ * n * (n + N ^ 2) ≤ uu * κ * n * (n + N ^ 2) * κ := le_mul_of_one_le_right (by positivity) κ1
      have k2 : 0 ≤ uu * κ * n * (n + N ^ 2) := by positivity
      have k3 : (2 : ℝ) ^ a ≤ n * κ * 2 ^ a := le_mul_of_one_le_left hY.le (by nlinarith)
      exact mul_le_mul (by linarith) k3 hY.le (by linarith)
  · rw [if_neg hin, if_neg hin]
    have in1 : (i : ℝ) + 1 ≤ n := by
      have : i + 1 ≤ n := by omega
      exact_mod_cast this
    have hx : 2 ^ c / (n : ℝ) ≤ (rpast S ρ y E i rp).2 := (div_le_div_of_nonneg_left hC.le (by positivity) in1).trans z2
    have hB : (0 : ℝ) < 2 ^ b := by positivity
    have hx1 : (rpast S ρ y E i rp).2 ≤ 2 ^ b / 2 := z3.trans h.R.S1
    have x0 : 0 < (rpast S ρ y E i rp).2 := lt_of_lt_of_le (by positivity) z2
    obtain ⟨iv', q0', eiv, eq0, fiv, fq0⟩ := start_err hA h t hx (by linarith) z1 VE ME
    obtain ⟨w, w1, wN, ws⟩ := h.weights
    obtain ⟨sl', co', va', p', q', e, -, -, -, -, -, -, -, -, fp, fq⟩ :=
      crun_err hA h t w1 wN ws z2 z1 n'0 n'1 n0 n1 hn (cf := (.fin M, .fin V)) eiv eq0 fiv fq0 (n - (i + 1)) (by omega)
    have zs := rrun_size h.R x0 z1 n0 n1 i (n - (i + 1))
    have kn : ((n - (i + 1) + 1 : ℕ) : ℝ) ≤ n := by exact_mod_cast (by omega : n - (i + 1) + 1 ≤ n)
    rw [e]
    obtain ⟨r, hr⟩ : ∃ r, r = rrun S ρ y E i (rinit S rn (y i) (E i) (rpast S ρ y E i rp)) (n - (i + 1)) := ⟨_, rfl⟩
    rw [← hr] at zs fp fq ⊢
    simp only
    have zp1 := zs.p1
    have zq := zs.q
    have zp0 := zs.p0
    obtain ⟨x, hxx⟩ : ∃ x, x = (rpast S ρ y E i rp).2 := ⟨_, rfl⟩
    rw [← hxx] at zp0 zp1 zq fp fq x0 hx hx1
    obtain ⟨m', v', em, ev, g1, g2⟩ := result_err hA h t hx hx1 (by positivity) kn zp0 zp1 zq fp fq
    exact ⟨m', v', by rw [em, ev], g1, g2, fun hc => absurd hc hin⟩

end Verif.Theory
