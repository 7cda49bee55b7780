import Verif.Theory.FCoef
import Verif.Theory.FPredReal

/-!
Rounding errors of `KalmanFilter1::Predict`: the past of the requested time.
-/

namespace Verif.Theory

open Verif.Model Verif.Spec

/-- inputs of the recursion in machine numbers and in exact numbers -/
structure FIn (a b c : ℤ) (n : ℕ) (N κ S' S : ℝ) (ρ' ρ y E' E : ℕ → ℝ) : Prop where
  R : RIn (2 ^ a) (2 ^ b) (2 ^ c) S ρ y E
  a1 : -300 ≤ a
  a2 : a ≤ 300
  b1 : -300 ≤ b
  b2 : b ≤ 300
  c1 : -300 ≤ c
  c2 : c ≤ 300
  n1 : 1 ≤ n
  n2 : n ≤ 2 ^ 53
  N1 : 1 ≤ N
  mem : (n : ℝ) ≤ N ∨ ∀ i, ρ i ≤ 1 - 1 / N
  hκ : κ = 2 ^ b / 2 ^ c
  S'0 : 0 ≤ S'
  S'1 : S' ≤ 2 ^ b
  hS : |S' - S| ≤ 3 * (uu * 2 ^ b)
  Fρ : ∀ i, F64 (ρ' i)
  ρ'0 : ∀ i, 0 ≤ ρ' i
  ρ'1 : ∀ i, ρ' i ≤ 1
  hρ : ∀ i, |ρ' i - ρ i| ≤ 3 * uu
  FE : ∀ i, F64 (E' i)
  E'0 : ∀ i, 0 < E' i
  E'1 : ∀ i, E' i ≤ 2 ^ b
  hE : ∀ i, |E' i - E i| ≤ 6 * uu * E i

variable {A : Arith} {a b c : ℤ} {n : ℕ} {N κ S' S : ℝ} {ρ' ρ y E' E : ℕ → ℝ}

theorem FIn.κ1 (h : FIn a b c n N κ S' S ρ' ρ y E' E) : 1 ≤ κ := by
  have hC : (0 : ℝ) < 2 ^ c := by positivity
  rw [h.hκ, le_div_iff₀ hC, one_mul]
  linarith [h.R.SC, h.R.S1, h.R.C0]

theorem FIn.B (h : FIn a b c n N κ S' S ρ' ρ y E' E) : (2 : ℝ) ^ b = κ * 2 ^ c := by
  have hC : (0 : ℝ) < 2 ^ c := by positivity
  rw [h.hκ, div_mul_cancel₀ _ hC.ne']

/-- weights that grow with the memory -/
theorem FIn.weights (h : FIn a b c n N κ S' S ρ' ρ y E' E) :
    ∃ w : ℕ → ℝ, (∀ k, 1 ≤ w k) ∧ (∀ k < n, w k ≤ N) ∧ ∀ k i, ρ i * w k + 1 ≤ w (k + 1) := by
  rcases h.mem with m | m
  · refine ⟨fun k => k + 1, fun k => by simp, fun k hk => ?_, fun k i => ?_⟩
    · have : ((k + 1 : ℕ) : ℝ) ≤ n := by exact_mod_cast hk
      push_cast at this
      exact this.trans m
    · have : ρ i * ((k : ℝ) + 1) ≤ k + 1 := mul_le_of_le_one_left (by positivity) (h.R.ρ1 i)
      push_cast
      linarith
  · refine ⟨fun _ => N, fun _ => h.N1, fun _ _ => le_rfl, fun k i => ?_⟩
    have N0 : 0 < N := by linarith [h.N1]
    have := mul_le_mul_of_nonneg_right (m i) N0.le
    rw [sub_mul, div_mul_cancel₀ _ N0.ne'] at this
    linarith

theorem FIn.low (h : FIn a b c n N κ S' S ρ' ρ y E' E) {i : ℕ} {v' : ℝ} (hv : E' i ≤ v') : 100 * 2 ^ c ≤ 101 * v' := by
  have h1 := (abs_le.mp (h.hE i)).1
  have h2 := h.R.EC i
  have u1 := uu_small
  have h4 : 0 < E i := by linarith [h.R.C0]
  nlinarith

/-- adding the measurement variance -/
theorem noise_add (hA : IsBinary64 A) (h : FIn a b c n N κ S' S ρ' ρ y E' E) {i : ℕ} {V P D : ℝ} (V0 : 0 ≤ V) (V1 : V ≤ 3 * 2 ^ b) (hV : |V - P| ≤ D) :
    ∃ v', A.add (.fin V) (.fin (E' i)) = .fin v' ∧ F64 v' ∧ E' i ≤ v' ∧ v' ≤ 4 * 2 ^ b ∧ |v' - (P + E i)| ≤ D + 8 * (uu * 2 ^ b) := by
  have hb1 := h.b1
  have hb2 := h.b2
  have FB4 : F64 (4 * 2 ^ b) := by simpa using f64_nat_zpow 4 b (by norm_num) (by omega) (by omega)
  have e1 := h.E'1 i
  have e0 := h.E'0 i
  obtain ⟨v', e, r, l1, l2⟩ := rnd_add hA (a := V) (b := E' i) (h.FE i) FB4 (by linarith) (by linarith)
  refine ⟨v', e, r.1, l1, l2, ?_⟩
  have r4 : |v' - (V + E' i)| ≤ 4 * (uu * 2 ^ b) :=
    (rz (k := 4) (a := b) r (by rw [abs_of_nonneg (by linarith)]; linarith) (by norm_num) (by norm_num) (by omega) (by omega)).trans_eq (by ring)
  have e3 : |E' i - E i| ≤ 3 * (uu * 2 ^ b) := by
    refine (h.hE i).trans ?_
    have := mul_le_mul_of_nonneg_left (h.R.E1 i) uu_pos.le
    linarith
  have sum := (abs_add_le _ _).trans (add_le_add hV e3)
  rw [show V - P + (E' i - E i) = (V + E' i) - (P + E i) by ring] at sum
  have := tri r4 sum
  have : 0 < uu * 2 ^ b := mul_pos uu_pos (by positivity)
  linarith

/-- error of the gain -/
theorem FIn.gain (h : FIn a b c n N κ S' S ρ' ρ y E' E) {i : ℕ} {v' v : ℝ} (hv : E' i ≤ v') (hD : |v' - v| ≤ 100 * (uu * 2 ^ b) * N) :
    uu + (7 * (uu * 2 ^ b) + |v' - v|) / v' ≤ 1091 / 10 * (uu * κ * N) := by
  have hC : (0 : ℝ) < 2 ^ c := by positivity
  have hB : (0 : ℝ) < 2 ^ b := by positivity
  have u0 := uu_pos
  have N1 := h.N1
  have κ1 := h.κ1
  have v'0 : 0 < v' := lt_of_lt_of_le (h.E'0 i) hv
  have uB : 0 < uu * 2 ^ b := mul_pos u0 hB
  have g1 : (7 * (uu * 2 ^ b) + |v' - v|) / v' ≤ 101 / 100 * ((107 * (uu * 2 ^ b) * N) / 2 ^ c) := by
    refine le_trans ?_ (dv_le (by positivity) hC v'0 (h.low hv))
    refine div_le_div_of_nonneg_right ?_ v'0.le
    nlinarith
  have g2 : (107 * (uu * 2 ^ b) * N) / 2 ^ c = 107 * (uu * κ * N) := by rw [h.hκ]; ring
  rw [g2] at g1
  have κN : 1 ≤ κ * N := by nlinarith
  have : uu ≤ uu * κ * N := by rw [mul_assoc]; nlinarith
  linarith

/-- smallness of the errors -/
structure Tiny (n : ℕ) (N κ : ℝ) : Prop where
  h : 8192 * (uu * κ * n * (n + N ^ 2)) * κ ≤ 1

theorem FIn.tiny1 (h : FIn a b c n N κ S' S ρ' ρ y E' E) : uu * κ * N * N ≤ uu * κ * n * (n + N ^ 2) ∧ uu * κ * n * N ≤ uu * κ * n * (n + N ^ 2) := by
  have u0 := uu_pos
  have N1 := h.N1
  have κ1 := h.κ1
  have n1 : (1 : ℝ) ≤ n := by exact_mod_cast h.n1
  have uκ : 0 < uu * κ := by positivity
  constructor
  · rw [mul_assoc, mul_assoc (uu * κ)]
    refine mul_le_mul_of_nonneg_left ?_ uκ.le
    nlinarith
  · refine mul_le_mul_of_nonneg_left ?_ (by positivity)
    nlinarith

theorem FIn.tiny2 (h : FIn a b c n N κ S' S ρ' ρ y E' E) (t : Tiny n N κ) : 8192 * (uu * κ * n * (n + N ^ 2)) ≤ 1 := by
  have κ1 := h.κ1
  have u0 := uu_pos
  have : 0 ≤ 8192 * (uu * κ * n * (n + N ^ 2)) := by positivity
  have := le_mul_of_one_le_right this κ1
  linarith [t.h]

/-- the filter -/
theorem pmv_err (hA : IsBinary64 A) (h : FIn a b c n N κ S' S ρ' ρ y E' E) (t : Tiny n N κ) {w : ℕ → ℝ} (w1 : ∀ k, 1 ≤ w k) (wN : ∀ k < n, w k ≤ N)
    (ws : ∀ k i, ρ i * w k + 1 ≤ w (k + 1)) (i : ℕ) (hi : i < n) :
    ∃ m' v', pmv A (.fin S') (fun i => .fin (ρ' i)) (fun i => .fin (y i)) (fun i => .fin (E' i)) i = (.fin m', .fin v') ∧ F64 m' ∧ F64 v' ∧ E' i ≤ v' ∧
      v' ≤ 4 * 2 ^ b ∧ |v' - ((rmv S ρ y E i).2 + E i)| ≤ 100 * (uu * 2 ^ b) * w i ∧ |m' - (rmv S ρ y E i).1| ≤ 720 * (uu * 2 ^ a * κ * N) * w i ∧
      |m'| ≤ 2 * 2 ^ (a + 1) ∧ |v' - ((rmv S ρ y E i).2 + E i)| ≤ 100 * (uu * 2 ^ b) * N ∧ |m' - (rmv S ρ y E i).1| ≤ 720 * (uu * 2 ^ a * κ * N) * N := by
  have hY : (0 : ℝ) < 2 ^ a := by positivity
  have hB : (0 : ℝ) < 2 ^ b := by positivity
  have hC : (0 : ℝ) < 2 ^ c := by positivity
  have u0 := uu_pos
  have uB : 0 < uu * 2 ^ b := mul_pos u0 hB
  have uY : 0 < uu * 2 ^ a := mul_pos u0 hY
  have N1 := h.N1
  have κ1 := h.κ1
  have N0 : 0 < N := by linarith
  have S0 : 0 < S := by linarith [h.R.SC]
  -- the last three follow
  have fin : ∀ {m' v' : ℝ} {i : ℕ}, i < n → |v' - ((rmv S ρ y E i).2 + E i)| ≤ 100 * (uu * 2 ^ b) * w i → |m' - (rmv S ρ y E i).1| ≤ 720 * (uu * 2 ^ a * κ * N) * w i →
      |m'| ≤ 2 * 2 ^ (a + 1) ∧ |v' - ((rmv S ρ y E i).2 + E i)| ≤ 100 * (uu * 2 ^ b) * N ∧ |m' - (rmv S ρ y E i).1| ≤ 720 * (uu * 2 ^ a * κ * N) * N := by
    intro m' v' i hi f1 f2
    have g1 : |v' - ((rmv S ρ y E i).2 + E i)| ≤ 100 * (uu * 2 ^ b) * N := f1.trans (mul_le_mul_of_nonneg_left (wN i hi) (by positivity))
    have g2 : |m' - (rmv S ρ y E i).1| ≤ 720 * (uu * 2 ^ a * κ * N) * N := f2.trans (mul_le_mul_of_nonneg_left (wN i hi) (by positivity))
    refine ⟨?_, g1, g2⟩
    have z := (rmv_size h.R i).1
    have s := (abs_sub_abs_le_abs_sub m' (rmv S ρ y E i).1).trans g2
    have k1 : uu * κ * N * N ≤ 1 / 8192 := by linarith [h.tiny1.1, h.tiny2 t]
    have k2 : 720 * (uu * 2 ^ a * κ * N) * N ≤ 2 ^ a := by
      calc 720 * (uu * 2 ^ a * κ * N) * N = 720 * (uu * κ * N * N) * 2 ^ a := by ring
        _ ≤ 1 * 2 ^ a := mul_le_mul_of_nonneg_right (by linarith) hY.le
        _ = 2 ^ a := one_mul _
    rw [zpow_add₀ (by norm_num), zpow_one]
    linarith
  induction i with
  | zero =>
    obtain ⟨v', e, F, l1, l2, er⟩ := noise_add hA h (i := 0) h.S'0 (by linarith [h.S'1]) h.hS
    have f1 : |v' - ((rmv S ρ y E 0).2 + E 0)| ≤ 100 * (uu * 2 ^ b) * w 0 := by
      rw [rmv]; refine er.trans ?_
      nlinarith [w1 0]
    have f2 : |(0 : ℝ) - (rmv S ρ y E 0).1| ≤ 720 * (uu * 2 ^ a * κ * N) * w 0 := by
      rw [rmv, sub_zero, abs_zero]
      have := w1 0
      positivity
    exact ⟨0, v', by rw [pmv, e], f64_zero, F, l1, l2, f1, f2, fin hi f1 f2⟩
  | succ i ih =>
    have hi' : i < n := by omega
    obtain ⟨m', v', e, Fm, Fv, l1, l2, f1, f2, f3, f4, f5⟩ := ih hi'
    obtain ⟨z1, z2, z3⟩ := rmv_size h.R i
    have P0 : 0 ≤ (rmv S ρ y E i).2 := le_trans (by positivity) z2
    have y1 : |y i| ≤ 2 ^ (a + 1) := (h.R.hy i).trans (pw_le _ _ (by omega))
    have E0 : 0 < E i := by linarith [h.R.EC i]
    obtain ⟨M, V, eM, eV, V0, V1, VE, ME⟩ := step_err hA (m := (rmv S ρ y E i).1) (y := y i) h.a1 h.a2 h.b1 h.b2 (h.Fρ i) (h.ρ'0 i) (h.ρ'1 i) Fm f3 y1 Fv
      (lt_of_lt_of_le (h.E'0 i) l1) (h.E'0 i).le l1 l2 h.S'0 h.S'1 (h.R.ρ0 i) (h.R.ρ1 i) (h.hρ i) S0.le h.R.S1 h.hS P0 (z3.trans h.R.S1) E0
      (h.R.E1 i) (h.hE i) rfl (by rw [sub_self, abs_zero]; positivity)
    obtain ⟨v'', e'', F'', l1'', l2'', er''⟩ := noise_add hA h (i := i + 1) V0 V1 VE
    have FM : F64 M := fl_f64 hA eM
    have g := h.gain l1 f4
    have r0 := h.R.ρ0 i
    have r1 := h.R.ρ1 i
    have f1' : |v'' - ((rmv S ρ y E (i + 1)).2 + E (i + 1))| ≤ 100 * (uu * 2 ^ b) * w (i + 1) := by
      rw [rmv, rahead]
      refine er''.trans ?_
      have q1 : ρ i * ρ i * |v' - ((rmv S ρ y E i).2 + E i)| ≤ ρ i * (100 * (uu * 2 ^ b) * w i) :=
        mul_le_mul (mul_le_of_le_one_right r0 r1) f1 (abs_nonneg _) r0
      have q2 := mul_le_mul_of_nonneg_left (ws i i) (by positivity : 0 ≤ 100 * (uu * 2 ^ b))
      linarith
    have f2' : |M - (rmv S ρ y E (i + 1)).1| ≤ 720 * (uu * 2 ^ a * κ * N) * w (i + 1) := by
      rw [rmv, rahead]
      refine ME.trans ?_
      have q1 := mul_le_mul_of_nonneg_left f2 r0
      have q2 := mul_le_mul_of_nonneg_left (ws i i) (by positivity : 0 ≤ 720 * (uu * 2 ^ a * κ * N))
      have q3 := mul_le_mul_of_nonneg_left g (by positivity : (0 : ℝ) ≤ 6 * 2 ^ a)
      have κN : 1 ≤ κ * N := by nlinarith
      have q4 : uu * 2 ^ a ≤ uu * 2 ^ a * κ * N := by rw [mul_assoc]; nlinarith
      linarith
    refine ⟨M, v'', ?_, FM, F'', l1'', l2'', f1', f2', fin hi f1' f2'⟩
    rw [pmv, e]
    simp only [ahead]
    rw [eM, eV, e'']

/-- the past of the requested time -/
theorem past_err (hA : IsBinary64 A) (h : FIn a b c n N κ S' S ρ' ρ y E' E) (t : Tiny n N κ) {i : ℕ} (hi : i ≤ n) {rp' rp : ℝ} (Fp : F64 rp') (p'0 : 0 ≤ rp')
    (p'1 : rp' ≤ 1) (p0 : 0 ≤ rp) (p1 : rp ≤ 1) (hp : |rp' - rp| ≤ 3 * uu) :
    ∃ M V, (if i = 0 then (.fin 0, .fin S') else ahead A (.fin S') (.fin rp') (.fin (y (i - 1))) (.fin (E' (i - 1)))
        (pmv A (.fin S') (fun i => .fin (ρ' i)) (fun i => .fin (y i)) (fun i => .fin (E' i)) (i - 1))) = (.fin M, .fin V) ∧ 0 ≤ V ∧
      |V - (rpast S ρ y E i rp).2| ≤ 192 * (uu * 2 ^ b) * N ∧ |M - (rpast S ρ y E i rp).1| ≤ 1440 * (uu * κ * N * N) * 2 ^ a := by
  have hY : (0 : ℝ) < 2 ^ a := by positivity
  have hB : (0 : ℝ) < 2 ^ b := by positivity
  have u0 := uu_pos
  have uB : 0 < uu * 2 ^ b := mul_pos u0 hB
  have N1 := h.N1
  have κ1 := h.κ1
  have N0 : 0 < N := by linarith
  have S0 : 0 < S := by linarith [h.R.SC, h.R.C0]
  by_cases h0 : i = 0
  · refine ⟨0, S', if_pos h0, h.S'0, ?_, ?_⟩
    · rw [rpast, if_pos h0]
      refine h.hS.trans ?_
      nlinarith
    · rw [rpast, if_pos h0, sub_zero, abs_zero]
      positivity
  · obtain ⟨j, rfl⟩ : ∃ j, i = j + 1 := ⟨i - 1, by omega⟩
    obtain ⟨w, w1, wN, ws⟩ := h.weights
    obtain ⟨m', v', e, Fm, Fv, l1, l2, -, -, f3, f4, f5⟩ := pmv_err hA h t w1 wN ws j (by omega)
    obtain ⟨z1, z2, z3⟩ := rmv_size h.R j
    have hC := h.R.C0
    have P0 : 0 ≤ (rmv S ρ y E j).2 := le_trans (by positivity) z2
    have y1 : |y j| ≤ 2 ^ (a + 1) := (h.R.hy j).trans (pw_le _ _ (by omega))
    have E0 : 0 < E j := by linarith [h.R.EC j]
    obtain ⟨M, V, eM, eV, V0, V1, VE, ME⟩ := step_err hA (m := (rmv S ρ y E j).1) (y := y j) h.a1 h.a2 h.b1 h.b2 Fp p'0 p'1 Fm f3 y1 Fv
      (lt_of_lt_of_le (h.E'0 j) l1) (h.E'0 j).le l1 l2 h.S'0 h.S'1 p0 p1 hp S0.le h.R.S1 h.hS P0 (z3.trans h.R.S1) E0
      (h.R.E1 j) (h.hE j) rfl (by rw [sub_self, abs_zero]; positivity)
    have g := h.gain l1 f4
    refine ⟨M, V, ?_, V0, ?_, ?_⟩
    · rw [if_neg h0, Nat.add_sub_cancel, e]
      simp only [ahead]
      rw [eM, eV]
    · rw [rpast, if_neg h0, Nat.add_sub_cancel, rahead]
      refine VE.trans ?_
      have q1 : rp * rp * |v' - ((rmv S ρ y E j).2 + E j)| ≤ 100 * (uu * 2 ^ b) * N :=
        (mul_le_of_le_one_left (abs_nonneg _) (mul_le_one₀ p1 p0 p1)).trans f4
      nlinarith
    · rw [rpast, if_neg h0, Nat.add_sub_cancel, rahead]
      refine ME.trans ?_
      have q1 : rp * |m' - (rmv S ρ y E j).1| ≤ 720 * (uu * 2 ^ a * κ * N) * N := (mul_le_of_le_one_left (abs_nonneg _) p1).trans f5
      have q3 := mul_le_mul_of_nonneg_left g (by positivity : (0 : ℝ) ≤ 6 * 2 ^ a)
      have κN : 1 ≤ κ * N := by nlinarith
      have uY : 0 < uu * 2 ^ a := mul_pos u0 hY
      have q4 : uu * 2 ^ a ≤ uu * 2 ^ a * κ * N := by rw [mul_assoc]; nlinarith
      have q5 : uu * 2 ^ a * κ * N ≤ uu * 2 ^ a * κ * N * N := le_mul_of_one_le_right (by positivity) N1
      linarith

end Verif.Theory
