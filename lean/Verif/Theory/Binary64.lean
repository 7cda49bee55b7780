import Verif.Spec.Binary64
import Mathlib.Tactic.Linarith
import Mathlib.Tactic.Positivity
import Mathlib.Tactic.NormNum
import Mathlib.Tactic.Push

/-!
Binary64 numbers and rounding: enclosure of a rounded result between two numbers that need no rounding.
-/

namespace Verif.Theory

open Verif.Model Verif.Spec

theorem f64_mul_zpow (m : ℤ) (e : ℤ) (hm : |m| < 2 ^ 53) (h1 : -1074 ≤ e) (h2 : e ≤ 971) : F64 (m * 2 ^ e) :=
  ⟨m, e, hm, h1, h2, rfl⟩

theorem f64_int (m : ℤ) (hm : |m| < 2 ^ 53) : F64 m := ⟨m, 0, hm, by norm_num, by norm_num, by simp⟩

theorem f64_zero : F64 0 := by simpa using f64_int 0 (by norm_num)
theorem f64_one : F64 1 := by simpa using f64_int 1 (by norm_num)
theorem f64_two : F64 2 := by simpa using f64_int 2 (by norm_num)

theorem f64_neg {x : ℝ} (h : F64 x) : F64 (-x) := by
  obtain ⟨m, e, hm, h1, h2, rfl⟩ := h
  exact ⟨-m, e, by simpa using hm, h1, h2, by push_cast; ring⟩

theorem f64_half : F64 (1 / 2) := ⟨1, -1, by norm_num, by norm_num, by norm_num, by norm_num⟩

/-- small multiples of powers of two -/
theorem f64_nat_zpow (m : ℕ) (e : ℤ) (hm : m < 2 ^ 53) (h1 : -1074 ≤ e) (h2 : e ≤ 971) : F64 (m * 2 ^ e) := by
  have := f64_mul_zpow m e (by rw [abs_of_nonneg (by positivity)]; exact_mod_cast hm) h1 h2
  simpa using this

theorem f64_zpow (e : ℤ) (h1 : -1074 ≤ e) (h2 : e ≤ 971) : F64 ((2 : ℝ) ^ e) := by
  simpa using f64_nat_zpow 1 e (by norm_num) h1 h2

/-- `r` is a rounding of `x` -/
def Rounds (x r : ℝ) : Prop := F64 r ∧ ∀ f, F64 f → (x ≤ f → r ≤ f) ∧ (f ≤ x → f ≤ r)

theorem Rounds.f {x r : ℝ} (h : Rounds x r) : F64 r := h.1
theorem Rounds.le {x r f : ℝ} (h : Rounds x r) (hf : F64 f) (hx : x ≤ f) : r ≤ f := (h.2 f hf).1 hx
theorem Rounds.ge {x r f : ℝ} (h : Rounds x r) (hf : F64 f) (hx : f ≤ x) : f ≤ r := (h.2 f hf).2 hx

theorem Rounds.neg {x r : ℝ} (h : Rounds x r) : Rounds (-x) (-r) := by
  refine ⟨f64_neg h.1, fun f hf => ⟨fun hx => ?_, fun hx => ?_⟩⟩
  · have := h.ge (f64_neg hf) (by linarith); linarith
  · have := h.le (f64_neg hf) (by linarith); linarith

variable {A : Arith}

theorem rnd_rounds (hA : IsBinary64 A) {x r : ℝ} (h : A.rnd x = .fin r) : Rounds x r := by
  refine ⟨hA.range x r h, fun f hf => ⟨fun hx => ?_, fun hx => ?_⟩⟩
  · have := hA.mono x f hx
    rw [hA.id f hf, h] at this
    simpa [Dbl.lt] using this
  · have := hA.mono f x hx
    rw [hA.id f hf, h] at this
    simpa [Dbl.lt] using this

/-- a result between two doubles does not overflow -/
theorem rnd_between (hA : IsBinary64 A) {lo hi x : ℝ} (hlo : F64 lo) (hhi : F64 hi) (h1 : lo ≤ x) (h2 : x ≤ hi) :
    ∃ r, A.rnd x = .fin r ∧ Rounds x r ∧ lo ≤ r ∧ r ≤ hi := by
  have m1 := hA.mono lo x h1
  have m2 := hA.mono x hi h2
  rw [hA.id lo hlo] at m1
  rw [hA.id hi hhi] at m2
  cases h : A.rnd x with
  | fin r =>
    have hr := rnd_rounds hA h
    exact ⟨r, rfl, hr, hr.ge hlo h1, hr.le hhi h2⟩
  | pinf => rw [h] at m2; simp [Dbl.lt] at m2
  | ninf => rw [h] at m1; simp [Dbl.lt] at m1
  | nan => exact absurd h (hA.no_nan x)

/-- a nonpositive result rounds to a nonpositive number or minus infinity -/
theorem rnd_nonpos (hA : IsBinary64 A) {x : ℝ} (h : x ≤ 0) : A.rnd x = .ninf ∨ ∃ r, A.rnd x = .fin r ∧ r ≤ 0 := by
  have m2 := hA.mono x 0 h
  rw [hA.id 0 f64_zero] at m2
  cases h : A.rnd x with
  | fin r => exact .inr ⟨r, rfl, by rw [h] at m2; simpa [Dbl.lt] using m2⟩
  | pinf => rw [h] at m2; simp [Dbl.lt] at m2
  | ninf => exact .inl rfl
  | nan => exact absurd h (hA.no_nan x)

theorem rnd_nonneg (hA : IsBinary64 A) {x : ℝ} (h : 0 ≤ x) : A.rnd x = .pinf ∨ ∃ r, A.rnd x = .fin r ∧ F64 r ∧ 0 ≤ r := by
  have m2 := hA.mono 0 x h
  rw [hA.id 0 f64_zero] at m2
  cases h : A.rnd x with
  | fin r => exact .inr ⟨r, rfl, hA.range _ _ h, by rw [h] at m2; simpa [Dbl.lt] using m2⟩
  | ninf => rw [h] at m2; simp [Dbl.lt] at m2
  | pinf => exact .inl rfl
  | nan => exact absurd h (hA.no_nan x)

theorem fl_add (a b : ℝ) : A.add (.fin a) (.fin b) = A.rnd (a + b) := rfl
theorem fl_sub (a b : ℝ) : A.sub (.fin a) (.fin b) = A.rnd (a - b) := by
  simp [Arith.sub, Arith.fl, Dbl.sub, Dbl.neg, Dbl.add, sub_eq_add_neg]
theorem fl_mul (a b : ℝ) : A.mul (.fin a) (.fin b) = A.rnd (a * b) := rfl
theorem fl_div (a b : ℝ) (h : b ≠ 0) : A.div (.fin a) (.fin b) = A.rnd (a / b) := by
  simp [Arith.div, Arith.fl, Dbl.div, h]

theorem rnd_add (hA : IsBinary64 A) {lo hi a b : ℝ} (hlo : F64 lo) (hhi : F64 hi) (h1 : lo ≤ a + b) (h2 : a + b ≤ hi) :
    ∃ r, A.add (.fin a) (.fin b) = .fin r ∧ Rounds (a + b) r ∧ lo ≤ r ∧ r ≤ hi := rnd_between hA hlo hhi h1 h2
theorem rnd_sub (hA : IsBinary64 A) {lo hi a b : ℝ} (hlo : F64 lo) (hhi : F64 hi) (h1 : lo ≤ a - b) (h2 : a - b ≤ hi) :
    ∃ r, A.sub (.fin a) (.fin b) = .fin r ∧ Rounds (a - b) r ∧ lo ≤ r ∧ r ≤ hi := by
  rw [fl_sub]; exact rnd_between hA hlo hhi h1 h2
theorem rnd_mul (hA : IsBinary64 A) {lo hi a b : ℝ} (hlo : F64 lo) (hhi : F64 hi) (h1 : lo ≤ a * b) (h2 : a * b ≤ hi) :
    ∃ r, A.mul (.fin a) (.fin b) = .fin r ∧ Rounds (a * b) r ∧ lo ≤ r ∧ r ≤ hi := rnd_between hA hlo hhi h1 h2
theorem rnd_div (hA : IsBinary64 A) {lo hi a b : ℝ} (hb : b ≠ 0) (hlo : F64 lo) (hhi : F64 hi) (h1 : lo ≤ a / b)
    (h2 : a / b ≤ hi) : ∃ r, A.div (.fin a) (.fin b) = .fin r ∧ Rounds (a / b) r ∧ lo ≤ r ∧ r ≤ hi := by
  rw [fl_div _ _ hb]; exact rnd_between hA hlo hhi h1 h2

/-- Upper bound of the updated mean: `m1` rounds `rho m`, `d` rounds `y - m`, `t` rounds `g d` with `g <= rho`. -/
theorem mean_le {Y m y ρ g m1 d t : ℝ} {a : ℤ} (ha : Y = 2 ^ a) (h1 : -1070 ≤ a) (h2 : a ≤ 960) (hmF : F64 m)
    (hρ0 : 0 ≤ ρ) (hρ1 : ρ ≤ 1) (hg0 : 0 ≤ g) (hg : g ≤ ρ) (hm : |m| ≤ 2 * Y) (hy : |y| ≤ Y) (hm1 : Rounds (ρ * m) m1)
    (hd : Rounds (y - m) d) (ht : Rounds (g * d) t) : m1 + t ≤ 2 * Y := by
  have hY : 0 < Y := by rw [ha]; positivity
  have F (k : ℕ) (hk : k < 2 ^ 53) : F64 (k * Y / 2) := by
    have := f64_nat_zpow k (a - 1) hk (by omega) (by omega)
    rwa [zpow_sub_one₀ (by norm_num), ← ha, ← mul_assoc] at this
  have F2 : F64 (2 * Y) := by have := F 4 (by norm_num); norm_num at this; convert this using 1; ring
  have F1 : F64 Y := by have := F 2 (by norm_num); norm_num at this; exact this
  have F3 : F64 (3 * Y) := by have := F 6 (by norm_num); norm_num at this; convert this using 1; ring
  have F5 : F64 (5 * Y / 2) := by have := F 5 (by norm_num); norm_num at this; convert this using 1
  have Fh : F64 (Y / 2) := by have := F 1 (by norm_num); norm_num at this; exact this
  obtain ⟨hm2, hm3⟩ := abs_le.mp hm
  obtain ⟨hy2, hy3⟩ := abs_le.mp hy
  have hg1 : g ≤ 1 := hg.trans hρ1
  rcases le_or_gt d 0 with hd0 | hd0
  · have : t ≤ 0 := ht.le f64_zero (by nlinarith)
    have : m1 ≤ 2 * Y := hm1.le F2 (by nlinarith)
    linarith
  have td : t ≤ d := ht.le hd.f (by nlinarith)
  rcases le_or_gt 0 m with hm0 | hm0
  · have : m1 ≤ m := hm1.le hmF (by nlinarith)
    have hdY : d ≤ Y := hd.le F1 (by linarith)
    have : m < y := by
      by_contra h
      exact absurd (hd.le f64_zero (by linarith)) (by linarith)
    linarith
  have m10 : m1 ≤ 0 := hm1.le f64_zero (by nlinarith)
  have d3 : d ≤ 3 * Y := hd.le F3 (by linarith)
  rcases le_or_gt (ρ * m) (-Y) with c1 | c1
  · have : m1 ≤ -Y := hm1.le (f64_neg F1) c1
    linarith
  rcases le_or_gt ρ (2 / 3) with c2 | c2
  · have : t ≤ 2 * Y := ht.le F2 (by nlinarith)
    linarith
  have c3 : -(3 / 2 * Y) < m := by nlinarith
  rcases le_or_gt (ρ * m) (-(Y / 2)) with c4 | c4
  · have : m1 ≤ -(Y / 2) := hm1.le (f64_neg Fh) c4
    have : d ≤ 5 * Y / 2 := hd.le F5 (by linarith)
    linarith
  · have c5 : -(3 / 4 * Y) < m := by nlinarith
    have : d ≤ 2 * Y := hd.le F2 (by linarith)
    linarith

theorem mean_abs {Y m y ρ g m1 d t : ℝ} {a : ℤ} (ha : Y = 2 ^ a) (h1 : -1070 ≤ a) (h2 : a ≤ 960) (hmF : F64 m)
    (hρ0 : 0 ≤ ρ) (hρ1 : ρ ≤ 1) (hg0 : 0 ≤ g) (hg : g ≤ ρ) (hm : |m| ≤ 2 * Y) (hy : |y| ≤ Y) (hm1 : Rounds (ρ * m) m1)
    (hd : Rounds (y - m) d) (ht : Rounds (g * d) t) : -(2 * Y) ≤ m1 + t ∧ m1 + t ≤ 2 * Y := by
  refine ⟨?_, mean_le ha h1 h2 hmF hρ0 hρ1 hg0 hg hm hy hm1 hd ht⟩
  have e1 := hm1.neg
  have e2 := hd.neg
  have e3 := ht.neg
  rw [← mul_neg] at e1 e3
  rw [show -(y - m) = -y - -m by ring] at e2
  have := mean_le ha h1 h2 (f64_neg hmF) hρ0 hρ1 hg0 hg (by rwa [abs_neg]) (by rwa [abs_neg]) e1 e2 e3
  linarith

end Verif.Theory
