import Verif.Theory.FPredEval
import Verif.Theory.FPredExact

/-!
`KalmanFilter1::Predict` in exact arithmetic, as a recursion on real numbers, and the sizes of these numbers.
-/

namespace Verif.Theory

open Verif.Model Verif.Spec

/-- mean and variance one step ahead, without measurement error -/
noncomputable def rahead (S r y E : ℝ) (c : ℝ × ℝ) : ℝ × ℝ :=
  (r * (c.1 + c.2 / (c.2 + E) * (y - c.1)), S * (1 - r * r) + r * r * c.2 * (1 - c.2 / (c.2 + E)))

noncomputable def rmv (S : ℝ) (ρ y E : ℕ → ℝ) : ℕ → ℝ × ℝ
  | 0 => (0, S)
  | i + 1 => rahead S (ρ i) (y i) (E i) (rmv S ρ y E i)

structure RS where
  sl : ℝ
  co : ℝ
  P : ℝ
  p : ℝ
  q : ℝ

noncomputable def racc (y E : ℝ) (c : RS) : RS :=
  { c with p := c.p + c.sl * c.sl / (c.P + E), q := c.q + c.sl * (y - c.co) / (c.P + E) }

noncomputable def rinit (S r y E : ℝ) (c : ℝ × ℝ) : RS :=
  racc y E { sl := r, co := 0, P := S * (1 - r * r), p := 1 / c.2, q := c.1 * (1 / c.2) }

noncomputable def rstep (S r y E y1 E1 : ℝ) (c : RS) : RS :=
  racc y1 E1 { c with
    sl := c.sl * (r * (1 - c.P / (c.P + E)))
    co := c.co * r * (1 - c.P / (c.P + E)) + r * (c.P / (c.P + E)) * y
    P := S * (1 - r * r) + r * r * c.P * (1 - c.P / (c.P + E)) }

noncomputable def rrun (S : ℝ) (ρ y E : ℕ → ℝ) (i : ℕ) (c : RS) : ℕ → RS
  | 0 => c
  | k + 1 => rstep S (ρ (i + k)) (y (i + k)) (E (i + k)) (y (i + k + 1)) (E (i + k + 1)) (rrun S ρ y E i c k)

/-- inputs of the recursion -/
structure RIn (Y B C : ℝ) (S : ℝ) (ρ y E : ℕ → ℝ) : Prop where
  Y0 : 0 ≤ Y
  C0 : 0 < C
  S1 : S ≤ B / 2
  SC : C ≤ S
  ρ0 : ∀ i, 0 ≤ ρ i
  ρ1 : ∀ i, ρ i ≤ 1
  EC : ∀ i, C ≤ E i
  E1 : ∀ i, E i ≤ B / 2
  hy : ∀ i, |y i| ≤ Y

variable {Y B C S : ℝ} {ρ y E : ℕ → ℝ}

/-- one step: variances stay between `C / (j + 2)` and `S` -/
theorem rahead_size {r yy EE : ℝ} {c : ℝ × ℝ} (hY : 0 ≤ Y) (hC : 0 < C) (SC : C ≤ S) (r0 : 0 ≤ r) (r1 : r ≤ 1) (EC : C ≤ EE) (hy : |yy| ≤ Y) {j : ℕ}
    (h1 : |c.1| ≤ Y) (h2 : C / (j + 1) ≤ c.2) (h3 : c.2 ≤ S) :
    |(rahead S r yy EE c).1| ≤ Y ∧ C / (j + 2) ≤ (rahead S r yy EE c).2 ∧ (rahead S r yy EE c).2 ≤ S := by
  obtain ⟨m, P⟩ := c
  simp only at h1 h2 h3
  simp only [rahead]
  have jp : (0 : ℝ) < j + 1 := by positivity
  have P0 : 0 < P := lt_of_lt_of_le (by positivity) h2
  have E0 : 0 < EE := by linarith
  have v0 : 0 < P + EE := by linarith
  have g0 : 0 ≤ P / (P + EE) := div_nonneg P0.le v0.le
  have g1 : P / (P + EE) ≤ 1 := (div_le_one v0).2 (by linarith)
  have rr : r * r ≤ 1 := mul_le_one₀ r1 r0 r1
  have rr0 : 0 ≤ r * r := mul_nonneg r0 r0
  refine ⟨?_, ?_, ?_⟩
  · rw [abs_mul, abs_of_nonneg r0]
    refine (mul_le_of_le_one_left (abs_nonneg _) r1).trans ?_
    rw [show m + P / (P + EE) * (yy - m) = (1 - P / (P + EE)) * m + P / (P + EE) * yy by ring]
    refine (abs_add_le _ _).trans ?_
    rw [abs_mul, abs_mul, abs_of_nonneg g0, abs_of_nonneg (by linarith : 0 ≤ 1 - P / (P + EE))]
    nlinarith
  · have f : C / (j + 2) ≤ P * (1 - P / (P + EE)) := by
      rw [show P * (1 - P / (P + EE)) = P * EE / (P + EE) by field_simp; ring]
      rw [div_le_div_iff₀ (by positivity) v0]
      have a1 : C ≤ P * (j + 1) := by rwa [div_le_iff₀ jp] at h2
      nlinarith [mul_le_mul_of_nonneg_right a1 E0.le, mul_le_mul_of_nonneg_left EC P0.le]
    have s : C / (j + 2) ≤ S := (div_le_self hC.le (by have : (0 : ℝ) ≤ j := by positivity
                                                       linarith)).trans SC
    have : S * (1 - r * r) + r * r * P * (1 - P / (P + EE)) = (1 - r * r) * S + r * r * (P * (1 - P / (P + EE))) := by ring
    rw [this]
    nlinarith
  · have : P * (1 - P / (P + EE)) ≤ S := (mul_le_of_le_one_right P0.le (by linarith)).trans h3
    nlinarith

theorem rmv_size (h : RIn Y B C S ρ y E) (i : ℕ) : |(rmv S ρ y E i).1| ≤ Y ∧ C / (i + 1) ≤ (rmv S ρ y E i).2 ∧ (rmv S ρ y E i).2 ≤ S := by
  induction i with
  | zero =>
    refine ⟨by simpa [rmv] using h.Y0, ?_, le_rfl⟩
    simpa [rmv] using h.SC
  | succ i ih =>
    have := rahead_size (j := i) h.Y0 h.C0 h.SC (h.ρ0 i) (h.ρ1 i) (h.EC i) (h.hy i) ih.1 ih.2.1 ih.2.2
    refine ⟨this.1, ?_, this.2.2⟩
    have e := this.2.1
    push_cast
    rw [show (i : ℝ) + 1 + 1 = i + 2 by ring]
    exact e

/-- sizes of the coefficients after `k` steps -/
structure RSize (Y B C S : ℝ) (c0 : ℝ × ℝ) (k : ℕ) (c : RS) : Prop where
  sl0 : 0 ≤ c.sl
  sl1 : c.sl ≤ 1
  co : |c.co| ≤ Y
  P0 : 0 ≤ c.P
  P1 : c.P ≤ S
  p0 : 1 / c0.2 ≤ c.p
  p1 : c.p ≤ 1 / c0.2 + k / C
  q : |c.q| ≤ Y / c0.2 + 2 * Y * k / C

theorem racc_size {c0 : ℝ × ℝ} {k : ℕ} {c : RS} (hC : 0 < C) (h : RSize Y B C S c0 k c) {yy EE : ℝ} (hy : |yy| ≤ Y) (hE : C ≤ EE) :
    RSize Y B C S c0 (k + 1) (racc yy EE c) := by
  have v : C ≤ c.P + EE := by linarith [h.P0]
  have v0 : 0 < c.P + EE := by linarith
  have s1 : c.sl * c.sl ≤ 1 := mul_le_one₀ h.sl1 h.sl0 h.sl1
  have s0 : 0 ≤ c.sl * c.sl := mul_nonneg h.sl0 h.sl0
  refine ⟨h.sl0, h.sl1, h.co, h.P0, h.P1, ?_, ?_, ?_⟩
  · have := div_nonneg s0 v0.le
    simp only [racc]; linarith [h.p0]
  · have : c.sl * c.sl / (c.P + EE) ≤ 1 / C := div_le_div₀ zero_le_one s1 hC v
    simp only [racc]; push_cast
    rw [add_div]; linarith [h.p1]
  · have d : |c.sl * (yy - c.co)| ≤ 2 * Y := by
      rw [abs_mul, abs_of_nonneg h.sl0]
      refine (mul_le_of_le_one_left (abs_nonneg _) h.sl1).trans ?_
      have := abs_sub yy c.co
      linarith [h.co]
    have : |c.sl * (yy - c.co) / (c.P + EE)| ≤ 2 * Y / C := by
      rw [abs_div, abs_of_pos v0]
      exact div_le_div₀ (by linarith [abs_nonneg yy]) d hC v
    simp only [racc]; push_cast
    rw [mul_add, add_div, mul_one]
    have a := abs_add_le c.q (c.sl * (yy - c.co) / (c.P + EE))
    linarith [h.q]

theorem rrun_size (h : RIn Y B C S ρ y E) {c0 : ℝ × ℝ} (hc : 0 < c0.2) (hm : |c0.1| ≤ Y) {r : ℝ} (r0 : 0 ≤ r) (r1 : r ≤ 1) (i : ℕ) (k : ℕ) :
    RSize Y B C S c0 (k + 1) (rrun S ρ y E i (rinit S r (y i) (E i) c0) k) := by
  have hC := h.C0
  have S0 : 0 < S := by linarith [h.SC]
  induction k with
  | zero =>
    refine racc_size (k := 0) hC ⟨r0, r1, by simpa using h.Y0, ?_, ?_, le_rfl, by simp, ?_⟩ (h.hy i) (h.EC i)
    · exact mul_nonneg S0.le (sub_nonneg.mpr (mul_le_one₀ r1 r0 r1))
    · exact mul_le_of_le_one_right S0.le (by linarith [mul_nonneg r0 r0])
    · simp only [abs_mul, Nat.cast_zero, mul_zero, zero_div, add_zero]
      rw [abs_of_pos (by positivity : 0 < 1 / c0.2), mul_one_div]
      exact div_le_div_of_nonneg_right hm hc.le
  | succ k ih =>
    rw [rrun, rstep]
    obtain ⟨c, e⟩ : ∃ c, c = rrun S ρ y E i (rinit S r (y i) (E i) c0) k := ⟨_, rfl⟩
    rw [← e] at ih ⊢
    have r0 := h.ρ0 (i + k)
    have r1 := h.ρ1 (i + k)
    have hE := h.EC (i + k)
    have v0 : 0 < c.P + E (i + k) := by linarith [ih.P0]
    have g0 : 0 ≤ c.P / (c.P + E (i + k)) := div_nonneg ih.P0 v0.le
    have g1 : c.P / (c.P + E (i + k)) ≤ 1 := (div_le_one v0).2 (by linarith)
    obtain ⟨g, eg⟩ : ∃ g, g = c.P / (c.P + E (i + k)) := ⟨_, rfl⟩
    rw [← eg] at g0 g1 ⊢
    have rr : ρ (i + k) * ρ (i + k) ≤ 1 := mul_le_one₀ r1 r0 r1
    have rr0 : 0 ≤ ρ (i + k) * ρ (i + k) := mul_nonneg r0 r0
    have hg : 0 ≤ 1 - g := by linarith
    have hg1 : 1 - g ≤ 1 := by linarith
    refine racc_size (c := RS.mk (c.sl * (ρ (i + k) * (1 - g))) _ _ c.p c.q) hC ⟨?_, ?_, ?_, ?_, ?_, ih.p0, ih.p1, ih.q⟩ (h.hy _) (h.EC _)
    · exact mul_nonneg ih.sl0 (mul_nonneg r0 hg)
    · exact mul_le_one₀ ih.sl1 (mul_nonneg r0 hg) (mul_le_one₀ r1 hg hg1)
    · simp only
      rw [show c.co * ρ (i + k) * (1 - g) + ρ (i + k) * g * y (i + k) = ρ (i + k) * ((1 - g) * c.co + g * y (i + k)) by ring, abs_mul, abs_of_nonneg r0]
      refine (mul_le_of_le_one_left (abs_nonneg _) r1).trans ?_
      refine (abs_add_le _ _).trans ?_
      rw [abs_mul, abs_mul, abs_of_nonneg g0, abs_of_nonneg hg]
      have := h.hy (i + k)
      have := ih.co
      nlinarith
    · exact add_nonneg (mul_nonneg S0.le (by linarith)) (mul_nonneg (mul_nonneg rr0 ih.P0) hg)
    · have : c.P * (1 - g) ≤ S := (mul_le_of_le_one_right ih.P0 hg1).trans ih.P1
      simp only
      nlinarith

/-! ### exact arithmetic -/

theorem exf_one_sub (a : ℝ) : Arith.exact.sub (.fin 1) (.fin a) = .fin (1 - a) := exf_sub 1 a

theorem ahead_exact {S r y E : ℝ} {c : ℝ × ℝ} (h : c.2 + E ≠ 0) :
    ahead Arith.exact (.fin S) (.fin r) (.fin y) (.fin E) (.fin c.1, .fin (c.2 + E)) = (.fin (rahead S r y E c).1, .fin (rahead S r y E c).2) := by
  simp only [ahead, rahead, exf_mul, exf_sub, exf_add, exf_div _ h, Prod.mk.injEq, Dbl.fin.injEq]
  have : c.2 + E - E = c.2 := by ring
  rw [this]
  constructor <;> ring

theorem pmv_exact (h : RIn Y B C S ρ y E) (i : ℕ) :
    pmv Arith.exact (.fin S) (fun i => .fin (ρ i)) (fun i => .fin (y i)) (fun i => .fin (E i)) i =
      (.fin (rmv S ρ y E i).1, .fin ((rmv S ρ y E i).2 + E i)) := by
  induction i with
  | zero => rw [pmv, rmv, exf_add]
  | succ i ih =>
    have := (rmv_size h i).2.1
    have hC := h.C0
    have p : 0 < (rmv S ρ y E i).2 := lt_of_lt_of_le (by positivity) this
    rw [pmv, ih, ahead_exact (by linarith [h.EC i] : (0 : ℝ) < _).ne', rmv, exf_add]

/-- real coefficients as machine numbers -/
def toCS (E : ℝ) (c : RS) : CS := { sl := .fin c.sl, co := .fin c.co, va := .fin (c.P + E), p := .fin c.p, q := .fin c.q }

theorem cacc_exact {yy EE : ℝ} {c : RS} (h : c.P + EE ≠ 0) : cacc Arith.exact (.fin yy) (toCS EE c) = toCS EE (racc yy EE c) := by
  simp only [cacc, racc, toCS, exf_mul, exf_sub, exf_add, exf_div _ h]

theorem crun_exact (h : RIn Y B C S ρ y E) {c0 : ℝ × ℝ} (hc : 0 < c0.2) (hm : |c0.1| ≤ Y) {r : ℝ} (r0 : 0 ≤ r) (r1 : r ≤ 1) (i k : ℕ) :
    crun Arith.exact (.fin S) (fun i => .fin (ρ i)) (fun i => .fin (y i)) (fun i => .fin (E i)) i
      (cinit Arith.exact (.fin S) (.fin r) (.fin (y i)) (.fin (E i)) (.fin c0.1, .fin c0.2)) k =
      toCS (E (i + k)) (rrun S ρ y E i (rinit S r (y i) (E i) c0) k) := by
  have hC := h.C0
  have S0 : 0 < S := by linarith [h.SC]
  induction k with
  | zero =>
    have p0 : 0 ≤ S * (1 - r * r) := mul_nonneg S0.le (sub_nonneg.mpr (mul_le_one₀ r1 r0 r1))
    rw [crun, rrun, cinit, rinit, add_zero, ← cacc_exact (by simp only; linarith [h.EC i] : (0 : ℝ) < _).ne']
    simp only [toCS, exf_mul, exf_sub, exf_add, exf_div _ hc.ne']
  | succ k ih =>
    have z := rrun_size h hc hm r0 r1 i k
    have z1 := rrun_size h hc hm r0 r1 i (k + 1)
    rw [crun, ih, rrun]
    rw [rrun] at z1
    obtain ⟨c, e⟩ : ∃ c, c = rrun S ρ y E i (rinit S r (y i) (E i) c0) k := ⟨_, rfl⟩
    rw [← e] at z z1 ⊢
    have v0 : c.P + E (i + k) ≠ 0 := (by linarith [z.P0, h.EC (i + k)] : 0 < c.P + E (i + k)).ne'
    have p0 := z1.P0
    rw [rstep, show i + (k + 1) = i + k + 1 by ring, ← cacc_exact (by
      have := h.EC (i + k + 1)
      simp only [rstep, racc] at p0
      simp only; linarith : (0 : ℝ) < _).ne']
    rw [cstep]
    simp only [toCS, exf_mul, exf_sub, exf_add, exf_div _ v0, show c.P + E (i + k) - E (i + k) = c.P by ring]

/-- what `Predict` returns in exact arithmetic -/
noncomputable def rpast (S : ℝ) (ρ y E : ℕ → ℝ) (i : ℕ) (rp : ℝ) : ℝ × ℝ :=
  if i = 0 then (0, S) else rahead S rp (y (i - 1)) (E (i - 1)) (rmv S ρ y E (i - 1))

noncomputable def rpval (n : ℕ) (S : ℝ) (ρ y E : ℕ → ℝ) (i : ℕ) (rp rn : ℝ) : ℝ × ℝ :=
  if i = n then rpast S ρ y E i rp
  else
    let f := rrun S ρ y E i (rinit S rn (y i) (E i) (rpast S ρ y E i rp)) (n - (i + 1))
    (f.q * (1 / f.p), 1 / f.p)

theorem rpast_size (h : RIn Y B C S ρ y E) {rp : ℝ} (p0 : 0 ≤ rp) (p1 : rp ≤ 1) (i : ℕ) :
    |(rpast S ρ y E i rp).1| ≤ Y ∧ C / (i + 1) ≤ (rpast S ρ y E i rp).2 ∧ (rpast S ρ y E i rp).2 ≤ S := by
  unfold rpast
  by_cases hi : i = 0
  · rw [if_pos hi, hi]
    refine ⟨by simpa using h.Y0, by simpa using h.SC, le_rfl⟩
  · rw [if_neg hi]
    obtain ⟨j, rfl⟩ : ∃ j, i = j + 1 := ⟨i - 1, by omega⟩
    obtain ⟨a, b, c⟩ := rmv_size h j
    have := rahead_size (j := j) h.Y0 h.C0 h.SC p0 p1 (h.EC j) (h.hy j) a b c
    refine ⟨this.1, ?_, this.2.2⟩
    have e := this.2.1
    push_cast
    rw [show (j : ℝ) + 1 + 1 = j + 2 by ring]
    exact e

theorem pval_exact (h : RIn Y B C S ρ y E) {rp rn : ℝ} (p0 : 0 ≤ rp) (p1 : rp ≤ 1) (n0 : 0 ≤ rn) (n1 : rn ≤ 1) (n i : ℕ) :
    pval Arith.exact n (.fin S) (fun i => .fin (ρ i)) (fun i => .fin (ρ i)) (fun i => .fin (y i)) (fun i => .fin (E i)) i (.fin rp) (.fin rn) =
      (.fin (rpval n S ρ y E i rp rn).1, .fin (rpval n S ρ y E i rp rn).2) := by
  have hC := h.C0
  obtain ⟨a, b, c⟩ := rpast_size h p0 p1 i
  have past : (if i = 0 then (Dbl.fin 0, Dbl.fin S) else ahead Arith.exact (.fin S) (.fin rp) (.fin (y (i - 1))) (.fin (E (i - 1)))
      (pmv Arith.exact (.fin S) (fun i => .fin (ρ i)) (fun i => .fin (y i)) (fun i => .fin (E i)) (i - 1))) =
      (.fin (rpast S ρ y E i rp).1, .fin (rpast S ρ y E i rp).2) := by
    unfold rpast
    by_cases hi : i = 0
    · simp only [if_pos hi]
    · simp only [if_neg hi]
      have p : 0 < (rmv S ρ y E (i - 1)).2 := lt_of_lt_of_le (by positivity) (rmv_size h (i - 1)).2.1
      rw [pmv_exact h, ahead_exact (by linarith [h.EC (i - 1)] : (0 : ℝ) < _).ne']
  unfold pval rpval
  dsimp only
  rw [past]
  by_cases hi : i = n
  · rw [if_pos hi, if_pos hi]
  · have c0 : 0 < (rpast S ρ y E i rp).2 := lt_of_lt_of_le (by positivity) b
    rw [if_neg hi, if_neg hi, crun_exact h c0 a n0 n1]
    have z := rrun_size h c0 a n0 n1 i (n - (i + 1))
    have pp : 0 < (rrun S ρ y E i (rinit S rn (y i) (E i) (rpast S ρ y E i rp)) (n - (i + 1))).p := lt_of_lt_of_le (by positivity) z.p0
    simp only [toCS, exf_div _ pp.ne', exf_mul]

end Verif.Theory
