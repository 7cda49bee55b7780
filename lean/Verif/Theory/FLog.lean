import Verif.Theory.FAcc
import Verif.Theory.FilterTotal
import Verif.Spec.Post

/-!
The CAR(1) filter in binary64 arithmetic stays close to the exact recursion, and so does the log-density.
-/

namespace Verif.Theory

open Verif.Model Verif.Spec

variable {A : Arith}

/-- what the filter leaves behind, as sequences of numbers -/
structure FRun (A : Arith) (a b : ℤ) (n : ℕ) (k : FKF1) (S' : ℝ) (ρ' y' E' m' v' : ℕ → ℝ) : Prop where
  mean : ∀ i < n, k.mean[i]? = some (.fin (m' i))
  var : ∀ i < n, k.var[i]? = some (.fin (v' i))
  Fm : ∀ i < n, F64 (m' i)
  hm : ∀ i < n, |m' i| ≤ 2 * 2 ^ (a + 1)
  Fv : ∀ i < n, F64 (v' i)
  hEv : ∀ i < n, E' i ≤ v' i
  hv : ∀ i < n, v' i ≤ 4 * 2 ^ b
  m0 : m' 0 = 0
  v0 : A.add (.fin S') (.fin (E' 0)) = .fin (v' 0)
  ms : ∀ i, i + 1 < n →
    A.add (A.mul (.fin (ρ' i)) (.fin (m' i))) (A.mul (A.mul (.fin (ρ' i)) (A.div (A.sub (.fin (v' i)) (.fin (E' i))) (.fin (v' i))))
      (A.sub (.fin (y' i)) (.fin (m' i)))) = .fin (m' (i + 1))
  vs : ∀ i, i + 1 < n →
    A.add (A.add (A.mul (.fin S') (A.sub (.fin 1) (A.mul (.fin (ρ' i)) (.fin (ρ' i)))))
      (A.mul (A.mul (A.mul (.fin (ρ' i)) (.fin (ρ' i))) (A.sub (.fin (v' i)) (.fin (E' i))))
        (A.sub (.fin 1) (A.div (A.sub (.fin (v' i)) (.fin (E' i))) (.fin (v' i)))))) (.fin (E' (i + 1))) = .fin (v' (i + 1))

theorem frun (hA : IsBinary64 A) {a b : ℤ} (ha1 : -300 ≤ a) (ha2 : a ≤ 300) (hb1 : -300 ≤ b) (hb2 : b ≤ 300) {k0 : FKF1} {n : ℕ} (hn : k0.time.length = n)
    (h : FSafe A (a + 1) b k0) {S' : ℝ} {ρ' y' E' : ℕ → ℝ} (hS : A.div k0.sigsqr (A.mul (.fin 2) k0.omega) = .fin S')
    (hy : ∀ i < n, k0.y[i]? = some (.fin (y' i))) (hE : ∀ i < n, ∃ e, k0.yerr[i]? = some e ∧ A.mul e e = .fin (E' i))
    (hρ : ∀ i, i + 1 < n → ∃ d, k0.dt[i]? = some d ∧ A.exp (A.mul (A.mul (.fin (-1)) k0.omega) d) = .fin (ρ' i)) :
    ∃ k1 m' v', FKF1.filter A k0 = .ok k1 ∧ FRun A a b n k1 S' ρ' y' E' m' v' := by
  subst hn
  obtain ⟨k1, e1, d1⟩ := fFilter hA (by omega) (by omega) (by omega) (by omega) h
  have L := filter_link e1 h.pos
  have hb : ∀ i, ∃ m v, i < k0.time.length → k1.mean[i]? = some (.fin m) ∧ k1.var[i]? = some (.fin v) ∧ F64 m ∧ |m| ≤ 2 * 2 ^ (a + 1) ∧ F64 v ∧ E' i ≤ v ∧
      v ≤ 4 * 2 ^ b := by
    intro i
    by_cases hi : i < k0.time.length
    · obtain ⟨m, v, e, E, em, ev, ee, eE, Fm, hm, Fv, hEv, hv⟩ := d1.bound i hi
      obtain ⟨e', ee', eE'⟩ := hE i hi
      rw [d1.yerr, ee'] at ee
      injection ee with ee; subst ee
      rw [eE'] at eE
      injection eE with eE; subst eE
      exact ⟨m, v, fun _ => ⟨em, ev, Fm, hm, Fv, hEv, hv⟩⟩
    · exact ⟨0, 0, fun h => absurd h hi⟩
  choose m' v' hmv using hb
  have eω : k1.omega = k0.omega := L.omega
  have eσ : k1.sigsqr = k0.sigsqr := L.sig
  refine ⟨k1, m', v', e1, fun i hi => (hmv i hi).1, fun i hi => (hmv i hi).2.1, fun i hi => (hmv i hi).2.2.1, fun i hi => (hmv i hi).2.2.2.1,
    fun i hi => (hmv i hi).2.2.2.2.1, fun i hi => (hmv i hi).2.2.2.2.2.1, fun i hi => (hmv i hi).2.2.2.2.2.2, ?_, ?_, ?_, ?_⟩
  · obtain ⟨e, -, f2, -⟩ := L.first
    rw [(hmv 0 h.pos).1] at f2
    injection f2 with f2; injection f2
  · obtain ⟨e, f1, -, f3⟩ := L.first
    obtain ⟨e', ee', eE'⟩ := hE 0 h.pos
    rw [L.yerr, ee'] at f1
    injection f1 with f1; subst f1
    rw [(hmv 0 h.pos).2.1, eσ, eω, hS, eE'] at f3
    injection f3 with f3; exact f3.symm
  · intro i hi
    obtain ⟨d, v, e, m, y, e2, g1, g2, g3, g4, g5, g6, g7, g8⟩ := L.link i hi
    obtain ⟨d', ed, eρ⟩ := hρ i hi
    obtain ⟨e', ee', eE'⟩ := hE i (by omega)
    rw [L.dt, ed] at g1; injection g1 with g1; subst g1
    rw [(hmv i (by omega)).2.1] at g2; injection g2 with g2; subst g2
    rw [L.yerr, ee'] at g3; injection g3 with g3; subst g3
    rw [(hmv i (by omega)).1] at g4; injection g4 with g4; subst g4
    rw [L.y, hy i (by omega)] at g5; injection g5 with g5; subst g5
    rw [(hmv (i + 1) hi).1, eω] at g7
    simp only [eρ, eE'] at g7
    injection g7 with g7; exact g7.symm
  · intro i hi
    obtain ⟨d, v, e, m, y, e2, g1, g2, g3, g4, g5, g6, g7, g8⟩ := L.link i hi
    obtain ⟨d', ed, eρ⟩ := hρ i hi
    obtain ⟨e', ee', eE'⟩ := hE i (by omega)
    obtain ⟨e2', ee2', eE2'⟩ := hE (i + 1) hi
    rw [L.dt, ed] at g1; injection g1 with g1; subst g1
    rw [(hmv i (by omega)).2.1] at g2; injection g2 with g2; subst g2
    rw [L.yerr, ee'] at g3; injection g3 with g3; subst g3
    rw [L.yerr, ee2'] at g6; injection g6 with g6; subst g6
    rw [(hmv (i + 1) hi).2.1, eω, eσ] at g8
    simp only [eρ, eE', eE2', hS] at g8
    injection g8 with g8; exact g8.symm

/-- the exact recursion -/
structure ERun (b : ℤ) (n : ℕ) (S : ℝ) (ρ y E m v P : ℕ → ℝ) : Prop where
  S0 : 0 ≤ S
  S1 : S ≤ 2 ^ b / 2
  ρ0 : ∀ i, i + 1 < n → 0 ≤ ρ i
  ρ1 : ∀ i, i + 1 < n → ρ i ≤ 1
  E0 : ∀ i < n, 0 < E i
  E1 : ∀ i < n, E i ≤ 2 ^ b / 2
  P0 : P 0 = S
  Ps : ∀ i, i + 1 < n → P (i + 1) = S * (1 - ρ i * ρ i) + ρ i * ρ i * P i * (1 - P i / v i)
  veq : ∀ i, v i = P i + E i
  m0 : m 0 = 0
  ms : ∀ i, i + 1 < n → m (i + 1) = ρ i * (m i + P i / v i * (y i - m i))

theorem ERun.P {b : ℤ} {n : ℕ} {S : ℝ} {ρ y E m v P : ℕ → ℝ} (h : ERun b n S ρ y E m v P) : ∀ i < n, 0 ≤ P i ∧ P i ≤ S := by
  intro i
  induction i with
  | zero => intro _; rw [h.P0]; exact ⟨h.S0, le_rfl⟩
  | succ i ih =>
    intro hi
    obtain ⟨p0, p1⟩ := ih (by omega)
    have e0 := h.E0 i (by omega)
    have hv := h.veq i
    have v0 : 0 < v i := by linarith
    have r0 := h.ρ0 i hi
    have r1 := h.ρ1 i hi
    have rr : ρ i * ρ i ≤ 1 := mul_le_one₀ r1 r0 r1
    have rr0 : 0 ≤ ρ i * ρ i := mul_nonneg r0 r0
    have q0 : 0 ≤ 1 - P i / v i := by rw [sub_nonneg, div_le_one v0]; linarith
    have q1 : 1 - P i / v i ≤ 1 := by have := div_nonneg p0 v0.le; linarith
    have s0 := h.S0
    rw [h.Ps i hi]
    constructor
    · have := mul_nonneg s0 (sub_nonneg.mpr rr)
      have := mul_nonneg (mul_nonneg rr0 p0) q0
      linarith
    · have : P i * (1 - P i / v i) ≤ S := (mul_le_of_le_one_right p0 q1).trans p1
      nlinarith

theorem ERun.hm {b : ℤ} {n : ℕ} {S Y : ℝ} {ρ y E m v P : ℕ → ℝ} (h : ERun b n S ρ y E m v P) (hY : 0 ≤ Y) (hy : ∀ i < n, |y i| ≤ Y) :
    ∀ i < n, |m i| ≤ Y := by
  intro i
  induction i with
  | zero => intro _; rw [h.m0, abs_zero]; exact hY
  | succ i ih =>
    intro hi
    have m1 := ih (by omega)
    obtain ⟨p0, p1⟩ := h.P i (by omega)
    have e0 := h.E0 i (by omega)
    have hv := h.veq i
    have v0 : 0 < v i := by linarith
    have g0 : 0 ≤ P i / v i := div_nonneg p0 v0.le
    have g1 : P i / v i ≤ 1 := (div_le_one v0).2 (by linarith)
    rw [h.ms i hi, abs_mul, abs_of_nonneg (h.ρ0 i hi)]
    refine (mul_le_of_le_one_left (abs_nonneg _) (h.ρ1 i hi)).trans ?_
    rw [show m i + P i / v i * (y i - m i) = (1 - P i / v i) * m i + P i / v i * y i by ring]
    refine (abs_add_le _ _).trans ?_
    rw [abs_mul, abs_mul, abs_of_nonneg g0, abs_of_nonneg (by linarith : 0 ≤ 1 - P i / v i)]
    have := hy i (by omega)
    nlinarith

/-- the errors of the means and variances -/
theorem run_err (hA : IsBinary64 A) {a b c : ℤ} (ha1 : -300 ≤ a) (ha2 : a ≤ 300) (hb1 : -300 ≤ b) (hb2 : b ≤ 300) {n : ℕ} (hn : 0 < n) {k : FKF1}
    {S' S N : ℝ} {ρ' y' E' m' v' ρ y E m v P : ℕ → ℝ} (F : FRun A a b n k S' ρ' y' E' m' v') (X : ERun b n S ρ y E m v P)
    (S0 : 0 ≤ S') (S1 : S' ≤ 2 ^ b) (hS : |S' - S| ≤ 3 * (uu * 2 ^ b)) (Fρ : ∀ i, i + 1 < n → F64 (ρ' i)) (ρ0 : ∀ i, i + 1 < n → 0 ≤ ρ' i)
    (ρ1 : ∀ i, i + 1 < n → ρ' i ≤ 1) (hρ : ∀ i, i + 1 < n → |ρ' i - ρ i| ≤ 3 * uu) (E0 : ∀ i < n, 0 < E' i) (E1 : ∀ i < n, E' i ≤ 2 ^ b)
    (FE : ∀ i < n, F64 (E' i)) (hE : ∀ i < n, |E' i - E i| ≤ 6 * uu * E i) (hy' : ∀ i < n, |y' i| ≤ 2 ^ (a + 1)) (hy : ∀ i < n, |y' i - y i| ≤ 2 * (uu * 2 ^ a))
    (hc : ∀ i < n, (2 : ℝ) ^ c ≤ E i) (hN : 1 ≤ N) (hN' : (n : ℝ) ≤ N ∨ ∀ i, i + 1 < n → ρ i ≤ 1 - 1 / N) :
    ∀ i < n, |v' i - v i| ≤ 100 * (uu * 2 ^ b) * N ∧ |m' i - m i| ≤ 720 * (uu * 2 ^ a * (2 ^ b / 2 ^ c) * N) * N ∧ 100 * 2 ^ c ≤ 101 * v' i := by
  have hY : (0 : ℝ) < 2 ^ a := by positivity
  have hB : (0 : ℝ) < 2 ^ b := by positivity
  have hC : (0 : ℝ) < 2 ^ c := by positivity
  have u0 := uu_pos
  have u1 := uu_small
  have uB : 0 < uu * 2 ^ b := mul_pos u0 hB
  have uY : 0 < uu * 2 ^ a := mul_pos u0 hY
  have FB4 : F64 (4 * 2 ^ b) := by simpa using f64_nat_zpow 4 b (by norm_num) (by omega) (by omega)
  have v'0 : ∀ i < n, 0 < v' i := fun i hi => lt_of_lt_of_le (E0 i hi) (F.hEv i hi)
  have low : ∀ i < n, 100 * 2 ^ c ≤ 101 * v' i := by
    intro i hi
    have h1 := (abs_le.mp (hE i hi)).1
    have h2 := hc i hi
    have h3 := F.hEv i hi
    have h4 := X.E0 i hi
    nlinarith
  have e3 : ∀ i < n, |E' i - E i| ≤ 3 * (uu * 2 ^ b) := by
    intro i hi
    refine (hE i hi).trans ?_
    have := mul_le_mul_of_nonneg_left (X.E1 i hi) u0.le
    linarith
  -- one step
  have step : ∀ i, i + 1 < n → |v' (i + 1) - v (i + 1)| ≤ ρ i * ρ i * |v' i - v i| + 100 * (uu * 2 ^ b) ∧
      |m' (i + 1) - m (i + 1)| ≤ ρ i * |m' i - m i| + 64 * (uu * 2 ^ a) + 6 * 2 ^ a * (uu + (7 * (uu * 2 ^ b) + |v' i - v i|) / v' i) := by
    intro i hi
    have hi' : i < n := by omega
    obtain ⟨p0, p1⟩ := X.P i hi'
    obtain ⟨M, V, eM, eV, V0, V1, VE, ME⟩ := step_err hA (m := m i) ha1 ha2 hb1 hb2 (Fρ i hi) (ρ0 i hi) (ρ1 i hi) (F.Fm i hi') (F.hm i hi') (hy' i hi') (F.Fv i hi')
      (v'0 i hi') (E0 i hi').le (F.hEv i hi') (F.hv i hi') S0 S1 (X.ρ0 i hi) (X.ρ1 i hi) (hρ i hi) X.S0 X.S1 hS p0 (p1.trans X.S1) (X.E0 i hi')
      (X.E1 i hi') (hE i hi') (X.veq i) (hy i hi')
    have em := F.ms i hi
    rw [eM] at em; injection em with em
    have ev := F.vs i hi
    rw [eV] at ev
    constructor
    · have hV4 : V + E' (i + 1) ≤ 4 * 2 ^ b := by linarith [E1 (i + 1) hi]
      have rV := rnd_rounds hA (show A.rnd (V + E' (i + 1)) = .fin (v' (i + 1)) from ev)
      have r4 : |v' (i + 1) - (V + E' (i + 1))| ≤ 4 * (uu * 2 ^ b) :=
        (rz (k := 4) (a := b) rV (by rw [abs_of_nonneg (by linarith [E0 (i + 1) hi])]; exact hV4) (by norm_num) (by norm_num) (by omega) (by omega)).trans_eq (by ring)
      have sum := (abs_add_le _ _).trans (add_le_add VE (e3 (i + 1) hi))
      rw [← X.Ps i hi, show V - P (i + 1) + (E' (i + 1) - E (i + 1)) = (V + E' (i + 1)) - v (i + 1) by rw [X.veq (i + 1)]; ring] at sum
      have := tri r4 sum
      linarith
    · rw [← em, X.ms i hi]; exact ME
  have first : |v' 0 - v 0| ≤ 100 * (uu * 2 ^ b) := by
    have rV := rnd_rounds hA (show A.rnd (S' + E' 0) = .fin (v' 0) from F.v0)
    have r4 : |v' 0 - (S' + E' 0)| ≤ 4 * (uu * 2 ^ b) :=
      (rz (k := 4) (a := b) rV (by rw [abs_of_nonneg (by linarith [E0 0 hn])]; linarith [E1 0 hn]) (by norm_num) (by norm_num) (by omega) (by omega)).trans_eq (by ring)
    have sum := (abs_add_le _ _).trans (add_le_add hS (e3 0 hn))
    rw [show S' - S + (E' 0 - E 0) = (S' + E' 0) - v 0 by rw [X.veq 0, X.P0]; ring] at sum
    have := tri r4 sum
    linarith
  have N0 : 0 < N := by linarith
  have DV : ∀ i < n, |v' i - v i| ≤ 100 * (uu * 2 ^ b) * N := by
    refine acc_err (x := fun i => |v' i - v i|) (q := fun i => ρ i * ρ i) (by positivity) hN first (fun i => abs_nonneg _)
      (fun i hi => mul_nonneg (X.ρ0 i hi) (X.ρ0 i hi)) ?_ (fun i hi => (step i hi).1)
    rcases hN' with h | h
    · exact .inl ⟨h, fun i hi => mul_le_one₀ (X.ρ1 i hi) (X.ρ0 i hi) (X.ρ1 i hi)⟩
    · exact .inr fun i hi => (mul_le_of_le_one_left (X.ρ0 i hi) (X.ρ1 i hi)).trans (h i hi)
  have κ1 : (1 : ℝ) ≤ 2 ^ b / 2 ^ c := by
    rw [le_div_iff₀ hC, one_mul]
    have := hc 0 hn
    have := X.E1 0 hn
    linarith
  obtain ⟨κ, hκ⟩ : ∃ κ : ℝ, κ = 2 ^ b / 2 ^ c := ⟨_, rfl⟩
  have hκB : (2 : ℝ) ^ b / 2 ^ c = κ := hκ.symm
  rw [hκB] at κ1 ⊢
  have κN : 1 ≤ κ * N := by nlinarith
  refine fun i hi => ⟨DV i hi, ?_, low i hi⟩
  refine acc_err (x := fun i => |m' i - m i|) (q := ρ) (c := 720 * (uu * 2 ^ a * κ * N)) (by positivity) hN ?_ (fun i => abs_nonneg _)
    X.ρ0 ?_ ?_ i hi
  · simp only [F.m0, X.m0, sub_zero, abs_zero]; positivity
  · rcases hN' with h | h
    · exact .inl ⟨h, X.ρ1⟩
    · exact .inr h
  · intro j hj
    refine (step j hj).2.trans ?_
    have hj' : j < n := by omega
    have hD := DV j hj'
    have g1 : (7 * (uu * 2 ^ b) + |v' j - v j|) / v' j ≤ 101 / 100 * ((107 * (uu * 2 ^ b) * N) / 2 ^ c) := by
      refine le_trans ?_ (dv_le (by positivity) hC (v'0 j hj') (low j hj'))
      refine div_le_div_of_nonneg_right ?_ (v'0 j hj').le
      nlinarith
    have g2 : (107 * (uu * 2 ^ b) * N) / 2 ^ c = 107 * (uu * (κ * N)) := by rw [hκ]; ring
    rw [g2] at g1
    have g3 : 6 * 2 ^ a * (uu + (7 * (uu * 2 ^ b) + |v' j - v j|) / v' j) ≤ 6 * 2 ^ a * (uu * (κ * N) + 101 / 100 * (107 * (uu * (κ * N)))) := by
      refine mul_le_mul_of_nonneg_left (add_le_add ?_ g1) (by positivity)
      nlinarith
    have g4 : uu * 2 ^ a ≤ uu * 2 ^ a * κ * N := by rw [mul_assoc]; nlinarith
    have e : 6 * 2 ^ a * (uu * (κ * N) + 101 / 100 * (107 * (uu * (κ * N)))) = 654.42 * (uu * 2 ^ a * κ * N) := by ring
    rw [e] at g3
    have g5 : 0 < uu * 2 ^ a * κ * N := by positivity
    linarith

/-! ### the sum -/

open Finset in
theorem lik_err (hA : IsBinary64 A) {q : ℤ} (q0 : 0 ≤ q) (q2 : q ≤ 900) {y mean var : List Dbl} {mu : Dbl} {x : ℕ → ℝ} {K : ℝ} (K0 : 0 ≤ K) {n : ℕ} (hn : n < 2 ^ 53)
    (ht : ∀ i < n, ∃ yi mi vi t, y[i]? = some yi ∧ mean[i]? = some mi ∧ var[i]? = some vi ∧
      A.sub (A.mul (.fin (-0.5)) (A.log vi)) (A.div (A.mul (A.mul (.fin 0.5) (A.sub (A.sub yi mi) mu)) (A.sub (A.sub yi mi) mu)) vi) = .fin t ∧
      |t| ≤ 2 ^ (10 + q) ∧ |t - x i| ≤ K) :
    ∃ l, FCar1.likLoop A y mean var mu n = .ok (.fin l) ∧ |l| ≤ n * 2 ^ (10 + q) ∧
      |l - ∑ i ∈ range n, x i| ≤ n * K + n * n * (uu * 2 ^ (10 + q)) := by
  induction n with
  | zero => exact ⟨0, rfl, by simp, by simp⟩
  | succ k ih =>
    obtain ⟨l, el, hl, le⟩ := ih (by omega) (fun i hi => ht i (by omega))
    obtain ⟨yi, mi, vi, t, ey, em, ev, et, t1, te⟩ := ht k (by omega)
    have F : F64 ((k + 1 : ℕ) * 2 ^ (10 + q)) := f64_nat_zpow _ _ hn (by omega) (by omega)
    have hs : |l + t| ≤ (k + 1 : ℕ) * 2 ^ (10 + q) := by
      refine (abs_add_le _ _).trans ((add_le_add hl t1).trans_eq ?_)
      push_cast; ring
    obtain ⟨r, er, rr, r1, r2⟩ := rnd_add hA (f64_neg F) F (abs_le.mp hs).1 (abs_le.mp hs).2
    have k1 : (1 : ℝ) ≤ (k + 1 : ℕ) := by exact_mod_cast Nat.succ_pos k
    have k2 : ((k + 1 : ℕ) : ℝ) ≤ 2 ^ (53 : ℤ) := by
      have h : ((k + 1 : ℕ) : ℝ) ≤ ((2 ^ 53 : ℕ) : ℝ) := Nat.cast_le.mpr hn.le
      rw [show ((2 : ℝ) ^ (53 : ℤ)) = ((2 ^ 53 : ℕ) : ℝ) by norm_num]; exact h
    have p : (0 : ℝ) < 2 ^ (10 + q) := by positivity
    have re : |r - (l + t)| ≤ uu * ((k + 1 : ℕ) * 2 ^ (10 + q)) := by
      refine rounds_err rr hs ?_ ?_
      · calc (2 : ℝ) ^ (-1000 : ℤ) ≤ 2 ^ (10 + q) := pw_le _ _ (by omega)
          _ ≤ (k + 1 : ℕ) * 2 ^ (10 + q) := le_mul_of_one_le_left p.le k1
      · calc ((k + 1 : ℕ) : ℝ) * 2 ^ (10 + q) ≤ 2 ^ (53 : ℤ) * 2 ^ (10 + q) := mul_le_mul_of_nonneg_right k2 p.le
          _ = 2 ^ (53 + (10 + q)) := pw_mul _ _ _ rfl
          _ ≤ _ := pw_le _ _ (by omega)
    refine ⟨r, ?_, abs_le.mpr ⟨r1, r2⟩, ?_⟩
    · simp only [FCar1.likLoop, el, res_bind_ok, rd_some ey, rd_some em, rd_some ev, et, er]; rfl
    · have s1 := (abs_add_le _ _).trans (add_le_add le te)
      rw [show l - ∑ i ∈ range k, x i + (t - x k) = (l + t) - ∑ i ∈ range (k + 1), x i by rw [sum_range_succ]; ring] at s1
      have s2 := tri re s1
      refine s2.trans ?_
      have up := mul_pos uu_pos p
      have kk : (0 : ℝ) ≤ k := k.cast_nonneg
      push_cast
      nlinarith

/-! ### the exact recursion of the CAR(1) process -/

section exact

variable {n : ℕ} {t e y : ℕ → ℝ}

theorem car1_erun {b : ℤ} {σ2 w : ℝ} {S : ℝ} (hS : σ2 / (2 * w) = S) (S0 : 0 ≤ S) (S1 : S ≤ 2 ^ b / 2) (w0 : 0 < w)
    (ht : ∀ i, i + 1 < n → t i ≤ t (i + 1)) (he : ∀ i < n, 0 < e i ^ 2) (he1 : ∀ i < n, e i ^ 2 ≤ 2 ^ b / 2)
    (hv : ∀ i < n, (car1SS σ2 w t e).v i ≠ 0) :
    ERun b n S (fun i => Real.exp (-w * (t (i + 1) - t i))) y (fun i => e i ^ 2) ((car1SS σ2 w t e).m y) (car1SS σ2 w t e).v
      (fun i => (car1SS σ2 w t e).P i () ()) := by
  have H := car1SS_isCar1 σ2 w t e
  refine ⟨S0, S1, fun i _ => (Real.exp_pos _).le, fun i hi => ?_, he, he1, by rw [H.P_zero, hS], fun i hi => ?_, fun i => H.v_eq i, H.m_zero y,
    fun i hi => H.m_succ y i⟩
  · rw [Real.exp_le_one_iff]
    have := ht i hi
    nlinarith
  · have := H.P_succ (hv i (by omega))
    rw [hS] at this
    exact this

end exact

theorem final_bound {n N κ χ T u : ℝ} (n2 : 2 ≤ n) (N1 : 1 ≤ N) (κ1 : 1 ≤ κ) (χ0 : 0 ≤ χ) (hT : T ≤ 1024 * (1 + χ)) (u0 : 0 < u) :
    n * (u * T + 620 * u + 112 * (u * χ) + 51 / 100 * (100 * (u * κ) * N) + 51 / 10 * (720 * (u * χ * κ * N) * N) + 81 / 10 * (χ * (100 * (u * κ) * N))) +
      n * n * (u * T) + (u * ((n + 27) * T) + 256 * u) ≤ 2 ^ 14 * u * (n * (n + N ^ 2)) * κ * (1 + χ) := by
  obtain ⟨G, hG⟩ : ∃ G, G = u * κ * (1 + χ) := ⟨_, rfl⟩
  have uG : u * (1 + χ) ≤ G := by
    rw [hG, show u * κ * (1 + χ) = κ * (u * (1 + χ)) by ring]
    exact le_mul_of_one_le_left (by positivity) κ1
  have G0 : 0 < G := by rw [hG]; positivity
  have uT : u * T ≤ 1024 * G := by
    have := mul_le_mul_of_nonneg_left hT u0.le
    linarith
  have NN : N ≤ N * N := le_mul_of_one_le_left (by linarith) N1
  have N2 : 1 ≤ N * N := by linarith
  have g1 : u * T ≤ 1024 * (G * (N * N)) := uT.trans (by nlinarith)
  have uχ : 0 ≤ u * χ := mul_nonneg u0.le χ0
  have g2 : 620 * u + 112 * (u * χ) ≤ 620 * (G * (N * N)) := by
    have : 620 * u + 112 * (u * χ) ≤ 620 * G := by linarith
    exact this.trans (by nlinarith)
  have κN : u * κ * N ≤ u * κ * (N * N) := mul_le_mul_of_nonneg_left NN (by positivity)
  have e0 : G * (N * N) = u * κ * (N * N) + u * κ * (N * N) * χ := by rw [hG]; ring
  have p0 : 0 ≤ u * κ * (N * N) := by positivity
  have p1 : 0 ≤ u * κ * (N * N) * χ := by positivity
  have g3 : 51 / 100 * (100 * (u * κ) * N) ≤ 51 * (G * (N * N)) := by linarith
  have g4 : 51 / 10 * (720 * (u * χ * κ * N) * N) ≤ 3672 * (G * (N * N)) := by
    have : 51 / 10 * (720 * (u * χ * κ * N) * N) = 3672 * (u * κ * (N * N) * χ) := by ring
    linarith
  have g5 : 81 / 10 * (χ * (100 * (u * κ) * N)) ≤ 810 * (G * (N * N)) := by
    have h := mul_le_mul_of_nonneg_right κN χ0
    have : 81 / 10 * (χ * (100 * (u * κ) * N)) = 810 * (u * κ * N * χ) := by ring
    linarith
  have n0 : 0 ≤ n := by linarith
  have h1 : n * (u * T + 620 * u + 112 * (u * χ) + 51 / 100 * (100 * (u * κ) * N) + 51 / 10 * (720 * (u * χ * κ * N) * N) +
      81 / 10 * (χ * (100 * (u * κ) * N))) ≤ n * (6177 * (G * (N * N))) := mul_le_mul_of_nonneg_left (by linarith) n0
  have h2 : n * n * (u * T) ≤ n * n * (1024 * G) := mul_le_mul_of_nonneg_left uT (by positivity)
  have n3 : n + 27 ≤ 7.25 * (n * n) := by nlinarith
  have h3 : u * ((n + 27) * T) ≤ 7424 * (n * n * G) := by
    have a1 : (n + 27) * (u * T) ≤ (n + 27) * (1024 * G) := mul_le_mul_of_nonneg_left uT (by linarith)
    have a2 : (n + 27) * (1024 * G) ≤ 7.25 * (n * n) * (1024 * G) := mul_le_mul_of_nonneg_right n3 (by positivity)
    have a3 : u * ((n + 27) * T) = (n + 27) * (u * T) := by ring
    rw [a3]
    refine a1.trans (a2.trans_eq ?_)
    ring
  have n4 : 4 ≤ n * n := by nlinarith
  have h4 : 256 * u ≤ 64 * (n * n * G) := by
    have a1 : u ≤ G := by linarith
    have a2 : 4 * G ≤ n * n * G := mul_le_mul_of_nonneg_right n4 G0.le
    linarith
  have e : 2 ^ 14 * u * (n * (n + N ^ 2)) * κ * (1 + χ) = 16384 * (n * n * G) + 16384 * (n * (G * (N * N))) := by rw [hG]; ring
  rw [e]
  have q1 : 0 ≤ n * n * G := by positivity
  have q2 : 0 ≤ n * (G * (N * N)) := by positivity
  linarith

open Finset in
theorem logdens_err (hA : IsBinary64 A) (hacc : Accurate A) {ts ys es : List ℝ} {M : ℝ} (hm : Mild ts ys es M) {s : FCar1} (h : FObj A ts ys es M s)
    {θ : List ℝ} (hl : 4 ≤ θ.length) (hF : ∀ x ∈ θ, F64 x) (hw : InBounds A s θ) {a b c : ℤ} {N : ℝ} (hz : Sized ts ys es θ a b c N) :
    ∃ s' v, FCar1.logDensity A s (θ.map .fin) = .ok (s', .fin v) ∧
      |v - (logGauss (obsCov (fun d => θ.getD 0 0 ^ 2 * Real.exp (-Real.exp (θ.getD 3 0) * d)) (fun i : Fin ts.length => ts.getD i 0)
          fun i => √(θ.getD 1 0) * es.getD i 0) (fun i => ys.getD i 0 - θ.getD 2 0) + logPriorSpec θ)| ≤
        2 ^ 14 * uu * (ts.length * (ts.length + N ^ 2)) * (2 ^ b / 2 ^ c) * (1 + 2 ^ (2 * a - c)) := by
  have hc : FCar1.checkPrior A s (θ.map .fin) = .ok true := by
    rcases within_num hA h hl with ⟨-, hc⟩ | ⟨hn, -⟩
    · exact hc
    · exact absurd hw hn
  obtain ⟨lo', elo', lo1⟩ := h.lo
  obtain ⟨hi', ehi', hi1⟩ := h.hi
  obtain ⟨w, lo, hi, M', ew, elo, ehi, eM, l1, l2, s1, s2, c1, c2⟩ := hw
  rw [elo'] at elo; cases elo
  rw [ehi'] at ehi; cases ehi
  rw [h.stdev] at eM; cases eM
  obtain ⟨Fw, -⟩ := hA.exp_range _ _ ew
  have hw0 : (2 : ℝ) ^ (-300 : ℤ) ≤ w := lo1.trans l1
  have hw1 : w ≤ 2 ^ (300 : ℤ) := l2.trans hi1
  have hw0' : 0 < w := lt_of_lt_of_le (by positivity) hw0
  have n2 := hm.two
  have u0 := uu_pos
  have u1 := uu_small
  have hB : (0 : ℝ) < 2 ^ b := by positivity
  have hC : (0 : ℝ) < 2 ^ c := by positivity
  have hY : (0 : ℝ) < 2 ^ a := by positivity
  have Y2 : (2 : ℝ) * 2 ^ a = 2 ^ (a + 1) := pw_two a (a + 1) (by ring)
  have memF : ∀ k < 4, F64 (θ.getD k 0) := fun k hk => hF _ (by rw [List.getD_eq_getElem _ _ (by omega)]; exact List.getElem_mem _)
  obtain ⟨S', eS, S'0, S'1, hS⟩ := stat_err hA hz.b_lo hz.b_hi (memF 0 (by norm_num)) s1 (s2.trans hm.stdev) hz.stat Fw hw0 hw1
  set sig := A.mul (A.mul (A.mul (.fin 2) (.fin (θ.getD 0 0))) (.fin (θ.getD 0 0))) (.fin w) with hsig
  set k0 : FKF1 := { s.kf with
    sigsqr := sig, omega := .fin w, yerr := s.yerr.map (fun x => A.mul (A.sqrt (.fin (θ.getD 1 0))) x),
    y := s.y.map (fun x => A.sub x (.fin (θ.getD 2 0))) } with hk0
  have ktl : k0.time.length = ts.length := by simp [hk0, h.ktime]
  have yb : ∀ i < ts.length, |ys.getD i 0| ≤ 2 ^ a := fun i hi => hz.values _ (by
        rw [List.getD_eq_getElem _ _ (by rw [hm.leny]; exact hi)]; exact List.getElem_mem _)
  have emem : ∀ i < ts.length, es.getD i 0 ∈ es := fun i hi => by
    rw [List.getD_eq_getElem _ _ (by rw [hm.lene]; exact hi)]; exact List.getElem_mem _
  -- centred values
  have hy : ∀ i, ∃ x, i < ts.length → k0.y[i]? = some (.fin x) ∧ |x| ≤ 2 ^ (a + 1) ∧ |x - (ys.getD i 0 - θ.getD 2 0)| ≤ 2 * (uu * 2 ^ a) := by
    intro i
    by_cases hi : i < ts.length
    · have F1 : F64 (2 ^ (a + 1)) := f64_zpow _ (by have := hz.a_lo; omega) (by have := hz.a_hi; omega)
      have hd : |ys.getD i 0 - θ.getD 2 0| ≤ 2 * 2 ^ a := by
        have := (abs_sub (ys.getD i 0) (θ.getD 2 0)).trans (add_le_add (yb i hi) hz.mu)
        linarith
      have hd' := abs_le.mp hd
      rw [Y2] at hd'
      obtain ⟨x, ex, rx, x1, x2⟩ := rnd_sub hA (f64_neg F1) F1 hd'.1 hd'.2
      refine ⟨x, fun _ => ⟨?_, abs_le.mpr ⟨x1, x2⟩, ?_⟩⟩
      · show (s.y.map _)[i]? = _
        rw [h.y, List.getElem?_map, getElem?_map_fin (by rw [hm.leny]; exact hi), Option.map_some, ex]
      · refine (rz (k := 2) (a := a) rx hd (by norm_num) (by norm_num) (by have := hz.a_lo; omega) (by have := hz.a_hi; omega)).trans_eq ?_
        ring
    · exact ⟨0, fun h => absurd h hi⟩
  choose y' hy' using hy
  -- errors
  have hE : ∀ i, ∃ p E, i < ts.length → k0.yerr[i]? = some (.fin p) ∧ A.mul (.fin p) (.fin p) = .fin E ∧ 0 < E ∧ E ≤ 2 ^ b ∧ F64 E ∧
      |E - (√(θ.getD 1 0) * es.getD i 0) ^ 2| ≤ 6 * uu * (√(θ.getD 1 0) * es.getD i 0) ^ 2 := by
    intro i
    by_cases hi : i < ts.length
    · have he := hm.e _ (emem i hi)
      obtain ⟨p, E, ep, eE, E0, -⟩ := err_num hA c1 c2 he.1 he.2
      have er := yerr_err hA c1 c2 he.1 he.2 ep eE
      have sq : (√(θ.getD 1 0) * es.getD i 0) ^ 2 = θ.getD 1 0 * es.getD i 0 ^ 2 := by rw [mul_pow, Real.sq_sqrt (by linarith)]
      have hn := hz.noise _ (emem i hi)
      refine ⟨p, E, fun _ => ⟨?_, eE, lt_of_lt_of_le (by positivity) E0, ?_, hA.range _ _ (show A.rnd (p * p) = .fin E from eE), ?_⟩⟩
      · show (s.yerr.map _)[i]? = _
        rw [h.yerr, List.getElem?_map, getElem?_map_fin (by rw [hm.lene]; exact hi), Option.map_some, ep]
      · have := (abs_le.mp er).2
        nlinarith [hn.2, hn.1]
      · rw [sq]; exact er
    · exact ⟨0, 0, fun h => absurd h hi⟩
  choose p E' hE' using hE
  -- correlations
  have hρ : ∀ i, ∃ r, i + 1 < ts.length → A.exp (A.mul (A.mul (.fin (-1)) (.fin w)) (A.sub (.fin (ts.getD (i + 1) 0)) (.fin (ts.getD i 0)))) = .fin r ∧ F64 r ∧
      0 ≤ r ∧ r ≤ 1 ∧ |r - Real.exp (-Real.exp (θ.getD 3 0) * (ts.getD (i + 1) 0 - ts.getD i 0))| ≤ 3 * uu := by
    intro i
    by_cases hi : i + 1 < ts.length
    · obtain ⟨r, hr⟩ := rho_err hA hacc (memF 3 (by norm_num)) ew hw0 hw1 (hm.gap i hi) (hm.span _ (by
        rw [List.getD_eq_getElem _ _ (by omega)]; exact List.getElem_mem _) _ (by rw [List.getD_eq_getElem _ _ hi]; exact List.getElem_mem _))
      exact ⟨r, fun _ => hr⟩
    · exact ⟨0, fun h => absurd h hi⟩
  choose ρ' hρ' using hρ
  have hsafe : FSafe A (a + 1) b k0 := by
    refine ⟨by omega, by rw [ktl]; exact h.kdt, by rw [ktl]; exact h.kmean, by rw [ktl]; exact h.kvar, ⟨w, rfl, Fw, hw0'⟩, ⟨S', eS, S'0, S'1⟩,
      fun d hd => .inr (h.kdts d hd), ?_, ?_⟩
    · intro i hi
      rw [ktl] at hi
      exact ⟨y' i, (hy' i hi).1, (hy' i hi).2.1⟩
    · intro i hi
      rw [ktl] at hi
      exact ⟨p i, E' i, (hE' i hi).1, (hE' i hi).2.1, (hE' i hi).2.2.1, (hE' i hi).2.2.2.1⟩
  obtain ⟨k1, m', v', ek1, R⟩ := frun hA hz.a_lo hz.a_hi hz.b_lo hz.b_hi ktl hsafe eS (fun i hi => (hy' i hi).1)
    (fun i hi => ⟨_, (hE' i hi).1, (hE' i hi).2.1⟩) (ρ' := ρ') (fun i hi => by
      have hd : i < s.kf.dt.length := by have := h.kdt; omega
      refine ⟨s.kf.dt.getD i .nan, ?_, ?_⟩
      · show s.kf.dt[i]? = _
        rw [List.getD_eq_getElem _ _ hd, List.getElem?_eq_getElem hd]
      · rw [h.kgap i hi]; exact (hρ' i hi).1)
  -- the exact filter
  obtain ⟨x3, hx3⟩ : ∃ x3, x3 = Real.exp (θ.getD 3 0) := ⟨_, rfl⟩
  have x30 : 0 < x3 := by rw [hx3]; exact Real.exp_pos _
  set t : ℕ → ℝ := fun i => ts.getD i 0 with htdef
  set e : ℕ → ℝ := fun i => √(θ.getD 1 0) * es.getD i 0 with hedef
  set y : ℕ → ℝ := fun i => ys.getD i 0 - θ.getD 2 0 with hydef
  set σ2 := 2 * θ.getD 0 0 * θ.getD 0 0 * x3 with hσ
  have sq : ∀ i, e i ^ 2 = θ.getD 1 0 * es.getD i 0 ^ 2 := fun i => by
    show (√(θ.getD 1 0) * es.getD i 0) ^ 2 = _
    rw [mul_pow, Real.sq_sqrt (by linarith)]
  have elow : ∀ i < ts.length, 2 ^ c ≤ e i ^ 2 := fun i hi => by rw [sq]; exact (hz.noise _ (emem i hi)).1
  have ehigh : ∀ i < ts.length, e i ^ 2 ≤ 2 ^ b / 2 := fun i hi => by rw [sq]; have := (hz.noise _ (emem i hi)).2; linarith
  have epos : ∀ i < ts.length, 0 < e i ^ 2 := fun i hi => lt_of_lt_of_le hC (elow i hi)
  have tinc : ∀ i, i + 1 < ts.length → t i < t (i + 1) := fun i hi => by
    have := hm.gap i hi
    have q : (0 : ℝ) < 2 ^ (-300 : ℤ) := by positivity
    show ts.getD i 0 < ts.getD (i + 1) 0
    linarith
  have hR : Realizes (car1SS σ2 x3 t e) (car1Acf σ2 x3) t e ts.length :=
    car1_realizes' (by positivity) x30 t e _ (fun i hi => ⟨(tinc i hi).le, .inl (tinc i hi)⟩) (.inr fun i hi h0 => by
      have := epos i hi; rw [h0] at this; norm_num at this)
  have hS2 : σ2 / (2 * x3) = θ.getD 0 0 ^ 2 := by rw [hσ]; field_simp
  have X := car1_erun (y := y) (b := b) hS2 (sq_nonneg _) (by have := hz.stat; linarith) x30 (fun i hi => (tinc i hi).le) epos ehigh
    (fun i hi => (hR.pos i hi).ne')
  have N0 : 0 < N := by linarith [hz.one]
  have err := run_err hA hz.a_lo hz.a_hi hz.b_lo hz.b_hi (by omega) R X S'0 S'1 hS (fun i hi => (hρ' i hi).2.1) (fun i hi => (hρ' i hi).2.2.1)
    (fun i hi => (hρ' i hi).2.2.2.1) (fun i hi => by rw [hx3]; exact (hρ' i hi).2.2.2.2) (fun i hi => (hE' i hi).2.2.1) (fun i hi => (hE' i hi).2.2.2.1)
    (fun i hi => (hE' i hi).2.2.2.2.1) (fun i hi => (hE' i hi).2.2.2.2.2) (fun i hi => (hy' i hi).2.1) (fun i hi => (hy' i hi).2.2) elow hz.one
    (by rw [hx3]; exact hz.memory)
  have ym : ∀ i < ts.length, |(car1SS σ2 x3 t e).m y i| ≤ 2 * 2 ^ a := X.hm (by positivity) fun i hi => by
    have := (abs_sub (ys.getD i 0) (θ.getD 2 0)).trans (add_le_add (yb i hi) hz.mu)
    show |ys.getD i 0 - θ.getD 2 0| ≤ _
    linarith
  obtain ⟨q, hq⟩ : ∃ q : ℤ, q = max 0 (2 * a - c) := ⟨_, rfl⟩
  have q0 : 0 ≤ q := hq ▸ le_max_left _ _
  have q1 : 2 * a - c ≤ q := hq ▸ le_max_right _ _
  have q2 : q ≤ 900 := by have := hz.a_hi; have := hz.c_lo; omega
  obtain ⟨K, hK⟩ : ∃ K : ℝ, K = uu * 2 ^ (10 + q) + 620 * uu + 112 * (uu * 2 ^ (2 * a - c)) + 51 / 100 * ((100 * (uu * 2 ^ b) * N) / 2 ^ c) +
        51 / 10 * (2 ^ a * (720 * (uu * 2 ^ a * (2 ^ b / 2 ^ c) * N) * N) / 2 ^ c) + 81 / 10 * (2 ^ (2 * a - c) * ((100 * (uu * 2 ^ b) * N) / 2 ^ c)) := ⟨_, rfl⟩
  have K0 : 0 ≤ K := by rw [hK]; positivity
  obtain ⟨ll, ell, bl, el⟩ := lik_err hA q0 q2 (y := ys.map .fin) (mean := k1.mean) (var := k1.var) (mu := .fin (θ.getD 2 0)) K0 (n := ts.length)
    (x := fun i => -(1 / 2) * Real.log ((car1SS σ2 x3 t e).v i) - (1 / 2) * ((y i - (car1SS σ2 x3 t e).m y i) ^ 2 / (car1SS σ2 x3 t e).v i))
    (by have := hm.max; omega) (fun i hi => by
      obtain ⟨D1, D2, D3⟩ := err i hi
      have v0 : 0 < v' i := lt_of_lt_of_le (hE' i hi).2.2.1 (R.hEv i hi)
      have vlow : (2 : ℝ) ^ c ≤ (car1SS σ2 x3 t e).v i := by rw [X.veq i]; have := (X.P i hi).1; have := elow i hi; linarith
      obtain ⟨tt, et, t1, te⟩ := term_err hA hacc hz.a_lo hz.a_hi hz.c_lo hz.c_hi q0 q1 q2 (yb i hi) hz.mu
        (m' := m' i) (by have := R.hm i hi; rw [← Y2] at this; linarith) (ym i hi) (R.Fv i hi) (by
          have : (2 : ℝ) ^ (-300 : ℤ) ≤ 2 ^ c := pw_le _ _ hz.c_lo
          have e2 : (4 : ℝ) * 2 ^ (-302 : ℤ) = 2 ^ (-300 : ℤ) := by
            rw [show (4 : ℝ) = 2 ^ (2 : ℤ) by norm_num]; exact pw_mul _ _ _ (by norm_num)
          have p0 : (0 : ℝ) < 2 ^ (-302 : ℤ) := by positivity
          rw [← e2] at this
          clear e2 hw0 lo1
          generalize (2 : ℝ) ^ (-302 : ℤ) = z at *
          linarith) (by
          have := R.hv i hi
          have e2 : (2 : ℝ) ^ (2 : ℤ) * 2 ^ b = 2 ^ (2 + b) := pw_mul _ _ _ rfl
          norm_num at e2
          rw [e2] at this
          exact this.trans (pw_le _ _ (by have := hz.b_hi; omega))) D3 vlow D2 D1
      exact ⟨_, _, _, tt, getElem?_map_fin (by rw [hm.leny]; exact hi), R.mean i hi, R.var i hi, et, t1, by rw [hK]; exact te⟩)
  have hθ1 : (θ.map Dbl.fin)[1]? = some (.fin (θ.getD 1 0)) := getElem?_map_fin (by omega)
  obtain ⟨lp, elp, hlp, lpe⟩ := prior_err hA hacc hθ1 (memF 1 (by norm_num)) c1 c2
  -- the last addition
  have T0 : (1024 : ℝ) ≤ 2 ^ (10 + q) := by
    rw [show (1024 : ℝ) = 2 ^ (10 : ℤ) by norm_num]; exact pw_le _ _ (by omega)
  have nn : (ts.length : ℝ) + 27 ≤ 2 ^ (54 : ℤ) := by
    have h : ((ts.length + 27 : ℕ) : ℝ) ≤ ((2 ^ 54 : ℕ) : ℝ) := Nat.cast_le.mpr (by have := hm.max; omega)
    rw [show ((2 : ℝ) ^ (54 : ℤ)) = ((2 ^ 54 : ℕ) : ℝ) by norm_num]; push_cast at h ⊢; exact h
  have n0 : (0 : ℝ) ≤ ts.length := Nat.cast_nonneg _
  have hs : |ll + lp| ≤ (ts.length + 27) * 2 ^ (10 + q) := by
    refine (abs_add_le _ _).trans ((add_le_add bl hlp).trans ?_)
    linarith
  have hs2 : ((ts.length : ℝ) + 27) * 2 ^ (10 + q) ≤ 2 ^ (964 : ℤ) := by
    calc ((ts.length : ℝ) + 27) * 2 ^ (10 + q) ≤ 2 ^ (54 : ℤ) * 2 ^ (10 + q) := mul_le_mul_of_nonneg_right nn (by positivity)
      _ = 2 ^ (54 + (10 + q)) := pw_mul _ _ _ rfl
      _ ≤ _ := pw_le _ _ (by omega)
  have F1 : F64 (2 ^ (964 : ℤ)) := f64_zpow _ (by norm_num) (by norm_num)
  have hs3 := abs_le.mp (hs.trans hs2)
  obtain ⟨r, er, rr, -, -⟩ := rnd_add hA (f64_neg F1) F1 hs3.1 hs3.2
  have re := rounds_err rr hs (by
    calc (2 : ℝ) ^ (-1000 : ℤ) ≤ 2 ^ (10 + q) := pw_le _ _ (by omega)
      _ ≤ _ := le_mul_of_one_le_left (by positivity) (by linarith)) (hs2.trans (pw_le _ _ (by norm_num)))
  refine ⟨{ s with kf := k1 }, r, ?_, ?_⟩
  · simp only [FCar1.logDensity, hc, res_bind_ok, rd_some (getElem?_map_fin (show 0 < θ.length by omega)),
      rd_some hθ1, rd_some (getElem?_map_fin (show 2 < θ.length by omega)), rd_some (getElem?_map_fin (show 3 < θ.length by omega)), ew]
    rw [if_neg (by simp)]
    simp only [res_bind_ok, ← hsig, ← hk0, ek1]
    simp only [h.y, h.time, List.length_map, ell, res_bind_ok, elp, er]
    rfl
  · have hacf : car1Acf σ2 x3 = fun d => θ.getD 0 0 ^ 2 * Real.exp (-Real.exp (θ.getD 3 0) * d) := by
      funext d; rw [car1Acf, hS2, hx3]
    have hg := hR.logGauss y
    rw [hacf] at hg
    have hg' : logGauss (obsCov (fun d => θ.getD 0 0 ^ 2 * Real.exp (-Real.exp (θ.getD 3 0) * d)) (fun i : Fin ts.length => ts.getD i 0)
          fun i => √(θ.getD 1 0) * es.getD i 0) (fun i => ys.getD i 0 - θ.getD 2 0) = _ := hg
    rw [hg']
    have hlp' : logPriorSpec θ = -25 / θ.getD 1 0 - 26 * Real.log (θ.getD 1 0) := rfl
    rw [hlp']
    have a1 := (abs_add_le _ _).trans (add_le_add el lpe)
    rw [← add_sub_add_comm] at a1
    have a2 := tri re a1
    refine a2.trans ?_
    have hχ : (2 : ℝ) ^ (2 * a - c) = 2 ^ a * 2 ^ a / 2 ^ c := by
      rw [zpow_sub₀ (by norm_num), two_mul, zpow_add₀ (by norm_num)]
    have κ1 : (1 : ℝ) ≤ 2 ^ b / 2 ^ c := by
      rw [le_div_iff₀ hC, one_mul]
      have := elow 0 (by omega)
      have := ehigh 0 (by omega)
      linarith
    have hT : (2 : ℝ) ^ (10 + q) ≤ 1024 * (1 + 2 ^ (2 * a - c)) := by
      have p : (0 : ℝ) < 2 ^ (2 * a - c) := by positivity
      rw [zpow_add₀ (by norm_num)]
      rcases le_total 0 (2 * a - c) with h0 | h0
      · rw [hq, max_eq_right h0]; norm_num
      · rw [hq, max_eq_left h0]; norm_num; linarith
    have fb := final_bound (n := ts.length) (u := uu) (by exact_mod_cast n2) hz.one κ1 (by positivity : (0 : ℝ) ≤ 2 ^ (2 * a - c)) hT u0
    have eK : K = uu * 2 ^ (10 + q) + 620 * uu + 112 * (uu * 2 ^ (2 * a - c)) + 51 / 100 * (100 * (uu * (2 ^ b / 2 ^ c)) * N) +
        51 / 10 * (720 * (uu * 2 ^ (2 * a - c) * (2 ^ b / 2 ^ c) * N) * N) + 81 / 10 * (2 ^ (2 * a - c) * (100 * (uu * (2 ^ b / 2 ^ c)) * N)) := by
      rw [hK, hχ]; ring
    rw [← eK] at fb
    linarith

end Verif.Theory
