import Verif.Theory.FErr
import Verif.Theory.FCar1
import Verif.Model.FRun

/-!
Rounding error of the variance the run functions compute from the values.
-/

namespace Verif.Theory

open Verif.Model Verif.Spec

variable {A : Arith}

theorem rnd_close (hA : IsBinary64 A) {x X : ℝ} (hx : |x| ≤ X) (h1 : 2 ^ (-1000 : ℤ) ≤ X) (h2 : X ≤ 2 ^ (971 : ℤ)) :
    ∃ r, A.rnd x = .fin r ∧ F64 r ∧ |r - x| ≤ uu * X := by
  have F := f64_zpow 971 (by norm_num) (by norm_num)
  obtain ⟨a, b⟩ := abs_le.mp hx
  obtain ⟨r, e, hF, -⟩ := rnd_between hA (f64_neg F) F (by linarith) (b.trans h2)
  exact ⟨r, e, hF.f, rounds_err (rnd_rounds hA e) hx h1 (h2.trans (zpow_le_zpow_right₀ (by norm_num) (by norm_num)))⟩

/-- a sum accumulated from the left, with terms that carry errors -/
theorem fold_err (hA : IsBinary64 A) {X : ℝ} (h1 : 2 ^ (-1000 : ℤ) ≤ X) (h2 : X ≤ 2 ^ (971 : ℤ)) (g : ℝ → ℝ) (c : Dbl → Dbl) (ε : ℝ → ℝ) (l : List ℝ)
    (hc : ∀ x ∈ l, 0 ≤ ε x ∧ ∃ r, c (.fin x) = .fin r ∧ |r - g x| ≤ ε x) (a a' e B : ℝ) (he : |a' - a| ≤ e)
    (hB : |a| + (l.map fun x => |g x|).sum ≤ B) (hX : e + (l.map ε).sum + l.length * uu * X + B ≤ X) :
    ∃ s, (l.map Dbl.fin).foldl (fun acc x => A.add acc (c x)) (.fin a') = .fin s ∧
      |s - (a + (l.map g).sum)| ≤ e + (l.map ε).sum + l.length * uu * X := by
  induction l generalizing a a' e with
  | nil => exact ⟨a', rfl, by simpa using he⟩
  | cons x l ih =>
    obtain ⟨e0, r, er, hr⟩ := hc x (by simp)
    simp only [List.map_cons, List.sum_cons, List.length_cons, Nat.cast_add, Nat.cast_one] at hB hX ⊢
    have su : 0 ≤ (l.map ε).sum := List.sum_nonneg fun y hy => by
      obtain ⟨z, hz, rfl⟩ := List.mem_map.mp hy; exact (hc z (by simp [hz])).1
    have sg : 0 ≤ (l.map fun x => |g x|).sum := List.sum_nonneg fun y hy => by
      obtain ⟨z, -, rfl⟩ := List.mem_map.mp hy; exact abs_nonneg _
    have X0 : 0 < X := lt_of_lt_of_le (by positivity) h1
    have u0 := uu_pos
    have ux : 0 ≤ uu * X := by positivity
    have lx : 0 ≤ (l.length : ℝ) * uu * X := by positivity
    have hbd : |a' + r| ≤ X := by
      have e1 : a' + r = (a' - a) + (r - g x) + (a + g x) := by ring
      rw [e1]
      refine (abs_add_le _ _).trans ?_
      have i1 := abs_add_le (a' - a) (r - g x)
      have i2 := abs_add_le a (g x)
      nlinarith
    obtain ⟨s1, es1, -, hs1⟩ := rnd_close hA hbd h1 h2
    have hn : |s1 - (a + g x)| ≤ e + ε x + uu * X := by
      have e1 : s1 - (a + g x) = (s1 - (a' + r)) + ((a' - a) + (r - g x)) := by ring
      rw [e1]
      refine (abs_add_le _ _).trans ?_
      have i1 := abs_add_le (a' - a) (r - g x)
      linarith
    have i2 := abs_add_le a (g x)
    obtain ⟨s, es, hs⟩ := ih (fun y hy => hc y (by simp [hy])) (a + g x) s1 (e + ε x + uu * X) hn (by linarith) (by nlinarith)
    refine ⟨s, ?_, ?_⟩
    · rw [List.foldl_cons, er, fl_add, es1]; exact es
    · rw [← add_assoc]
      refine hs.trans (le_of_eq ?_)
      ring

theorem sum_abs_le {R : ℝ} (hR : 0 < R) (l : List ℝ) : (l.map fun x => |x|).sum ≤ ((l.map fun x => x ^ 2).sum / R + l.length * R) / 2 := by
  induction l with
  | nil => simp
  | cons x l ih =>
    simp only [List.map_cons, List.sum_cons, List.length_cons, Nat.cast_add, Nat.cast_one]
    have h : |x| ≤ (x ^ 2 / R + R) / 2 := by
      have h0 := sq_nonneg (|x| - R)
      have h1 : x ^ 2 / R + R = (|x| ^ 2 + R ^ 2) / R := by rw [sq_abs]; field_simp
      rw [h1, le_div_iff₀ (by norm_num : (0 : ℝ) < 2), le_div_iff₀ hR]
      nlinarith
    have e : (x ^ 2 + (l.map fun x => x ^ 2).sum) / R = x ^ 2 / R + (l.map fun x => x ^ 2).sum / R := by ring
    rw [e]
    linarith

/-- mean square of the values -/
noncomputable def meanSq (ys : List ℝ) : ℝ := (ys.map fun x => x ^ 2).sum / ys.length

/-- sizes for which the rounding error of the variance is controlled -/
structure RunSized (ys : List ℝ) : Prop where
  one : 1 ≤ ys.length
  max : ys.length ≤ 2 ^ 39
  lo : 2 ^ (-300 : ℤ) ≤ meanSq ys
  hi : meanSq ys ≤ 2 ^ (300 : ℤ)

theorem sum_eps (l : List ℝ) (k : ℝ) : (l.map fun x => uu * (x ^ 2 + k)).sum = uu * ((l.map fun x => x ^ 2).sum + l.length * k) := by
  induction l with
  | nil => simp
  | cons x l ih => simp only [List.map_cons, List.sum_cons, ih, List.length_cons]; push_cast; ring

theorem abs_list_sum (l : List ℝ) : |l.sum| ≤ (l.map fun x => |x|).sum := by
  induction l with
  | nil => simp
  | cons x l ih => rw [List.sum_cons, List.map_cons, List.sum_cons]; exact (abs_add_le _ _).trans (by linarith)

theorem run_aux1 {x k n Q : ℝ} (h : x ≤ n * Q) (hk : k ≤ 1e-6 * Q) (h1 : Q ≤ n * Q) (Q0 : 0 < Q) : x + k ≤ 1.001 * (n * Q) := by
  have : (0 : ℝ) < n * Q := by linarith
  linarith

theorem run_aux2 {n Q k u : ℝ} (n1 : 1 ≤ n) (Q0 : 0 < Q) (k0 : 0 ≤ k) (hk : k ≤ 1e-6 * Q) (t2 : n * u ≤ 1 / 4096) (t3 : u ≤ 1 / 4096) (u0 : 0 < u) :
    0 + u * (n * Q + n * k) + n * u * (1.001 * (n * Q)) + n * Q ≤ 1.001 * (n * Q) := by
  have p : 0 < n * Q := by positivity
  have h1 : n * k ≤ 1e-6 * (n * Q) := by nlinarith
  have h2 : n * u * (1.001 * (n * Q)) ≤ 1 / 4096 * (1.001 * (n * Q)) := mul_le_mul_of_nonneg_right t2 (by positivity)
  have h3 : u * (n * Q + n * k) ≤ 1 / 4096 * (n * Q + n * k) := mul_le_mul_of_nonneg_right t3 (by positivity)
  linarith

theorem run_hi {x c : ℝ} (x0 : 0 ≤ x) (c1 : c ≤ 4) (hx : x ≤ 2 ^ (300 : ℤ)) : c * x ≤ 2 ^ (971 : ℤ) := by
  have e : (4 : ℝ) * 2 ^ (300 : ℤ) ≤ 2 ^ (971 : ℤ) := by
    have h4 : (4 : ℝ) = 2 ^ (2 : ℤ) := by norm_num
    rw [h4, pw_mul 2 300 302 (by norm_num)]
    exact pw_le _ _ (by norm_num)
  exact (mul_le_mul c1 hx x0 (by norm_num)).trans e

theorem run_lo {x c : ℝ} (x0 : 0 < x) (c1 : 1 ≤ c) (hx : 2 ^ (-300 : ℤ) ≤ x) : (2 : ℝ) ^ (-1000 : ℤ) ≤ c * x :=
  (pw_le _ _ (by norm_num)).trans (hx.trans (le_mul_of_one_le_left x0.le c1))

theorem var_tail (hA : IsBinary64 A) {n Q R S s q : ℝ} (n1' : 1 ≤ n) (t1 : (n + 1) * uu ≤ 1 / 4096) (Q0 : 0 < Q) (R0 : 0 < R) (RR : R * R = Q)
    (q1 : 2 ^ (-300 : ℤ) ≤ Q) (q2 : Q ≤ 2 ^ (300 : ℤ)) (R1' : 2 ^ (-300 : ℤ) ≤ R) (R2' : R ≤ 2 ^ (300 : ℤ))
    (hs : |s - S| ≤ n * uu * (1.001 * (n * R))) (ha : |S| ≤ n * R)
    (hq : |q - n * Q| ≤ uu * (n * Q + n * 2 ^ (-1000 : ℤ)) + n * uu * (1.001 * (n * Q))) :
    ∃ v, A.sub (A.div (.fin q) (.fin n)) (A.mul (A.div (.fin s) (.fin n)) (A.div (.fin s) (.fin n))) = .fin v ∧ F64 v ∧
      |v - (Q - (S / n) ^ 2)| ≤ 4 * (n + 2) * uu * Q := by
  have n0 : 0 < n := by linarith
  have u0 := uu_pos
  have t0 : 0 < (n + 1) * uu := by positivity
  have t2 : n * uu ≤ 1 / 4096 := by nlinarith
  have kq : (2 : ℝ) ^ (-1000 : ℤ) ≤ 1e-6 * Q := by
    have h1 : (2 : ℝ) ^ (-1000 : ℤ) ≤ 2 ^ (-320 : ℤ) := zpow_le_zpow_right₀ (by norm_num) (by norm_num)
    have h2 : (2 : ℝ) ^ (-320 : ℤ) ≤ 1e-6 * 2 ^ (-300 : ℤ) := by
      rw [← pw_mul (-20) (-300) (-320) (by norm_num)]
      exact mul_le_mul_of_nonneg_right (by norm_num) (by positivity)
    exact (h1.trans h2).trans (mul_le_mul_of_nonneg_left q1 (by norm_num))
  have kq0 : (0 : ℝ) < 2 ^ (-1000 : ℤ) := by positivity
  -- the mean
  obtain ⟨M, hM⟩ : ∃ M, M = S / n := ⟨_, rfl⟩
  have hMR : |M| ≤ R := by
    rw [hM, abs_div, abs_of_pos n0, div_le_iff₀ n0, mul_comm]
    exact ha
  have hsn : |s / n - M| ≤ n * uu * (1.001 * R) := by
    rw [hM, ← sub_div, abs_div, abs_of_pos n0, div_le_iff₀ n0]
    refine hs.trans (le_of_eq ?_); ring
  have hsn2 : |s / n| ≤ 1.001 * R := by
    have e1 : s / n = (s / n - M) + M := by ring
    rw [e1]
    refine (abs_add_le _ _).trans ?_
    have := mul_le_mul_of_nonneg_right t2 (show 0 ≤ 1.001 * R by positivity)
    linarith
  obtain ⟨m, em, -, hm⟩ := rnd_close hA hsn2 (run_lo R0 (by norm_num) R1') (run_hi R0.le (by norm_num) R2')
  have hmM : |m - M| ≤ (n + 1) * uu * (1.001 * R) := by
    have e1 : m - M = (m - s / n) + (s / n - M) := by ring
    rw [e1]
    refine (abs_add_le _ _).trans ?_
    linarith
  have hmR : |m| ≤ 1.001 * R := by
    have e1 : m = (m - M) + M := by ring
    rw [e1]
    refine (abs_add_le _ _).trans ?_
    have := mul_le_mul_of_nonneg_right t1 (show 0 ≤ 1.001 * R by positivity)
    linarith
  -- the mean square
  have u1 := uu_small
  have hqn : |q / n - Q| ≤ uu * (Q + 2 ^ (-1000 : ℤ)) + n * uu * (1.001 * Q) := by
    have e1 : q / n - Q = (q - n * Q) / n := by field_simp
    rw [e1, abs_div, abs_of_pos n0, div_le_iff₀ n0]
    refine hq.trans (le_of_eq ?_); ring
  obtain ⟨k, hk⟩ : ∃ k : ℝ, k = 2 ^ (-1000 : ℤ) := ⟨_, rfl⟩
  rw [← hk] at kq kq0 hqn
  have g1 : uu * (Q + k) ≤ uu * (1.000001 * Q) := mul_le_mul_of_nonneg_left (by linarith) u0.le
  have g0 : 0 < uu * Q := by positivity
  have g2 : uu * Q ≤ 1e-6 * Q := mul_le_mul_of_nonneg_right (by linarith) Q0.le
  have g3 : n * uu * Q ≤ 1 / 4096 * Q := mul_le_mul_of_nonneg_right t2 Q0.le
  have hqn2 : |q / n| ≤ 1.001 * Q := by
    have e1 : q / n = (q / n - Q) + Q := by ring
    rw [e1]
    refine (abs_add_le _ _).trans ?_
    rw [abs_of_pos Q0]
    linarith
  obtain ⟨w, ew, -, hw⟩ := rnd_close hA hqn2 (run_lo Q0 (by norm_num) q1) (run_hi Q0.le (by norm_num) q2)
  have hwQ : |w - Q| ≤ uu * Q * (1.001 * n + 2.0011) := by
    have e1 : w - Q = (w - q / n) + (q / n - Q) := by ring
    rw [e1]
    refine (abs_add_le _ _).trans ?_
    linarith
  have hw2 : |w| ≤ 1.002 * Q := by
    have e1 : w = (w - q / n) + q / n := by ring
    rw [e1]
    refine (abs_add_le _ _).trans ?_
    linarith
  -- the square of the mean
  have hmm : |m * m - M * M| ≤ (n + 1) * uu * (2.0031 * Q) := by
    have e1 : m * m - M * M = (m - M) * (m + M) := by ring
    rw [e1, abs_mul]
    have h2 : |m + M| ≤ 2.001 * R := (abs_add_le _ _).trans (by linarith)
    refine (mul_le_mul hmM h2 (abs_nonneg _) (by positivity)).trans ?_
    have e2 : (n + 1) * uu * (1.001 * R) * (2.001 * R) = (n + 1) * uu * (1.001 * 2.001 * Q) := by rw [← RR]; ring
    rw [e2]
    refine mul_le_mul_of_nonneg_left ?_ t0.le
    nlinarith
  have hmm2 : |m * m| ≤ 1.0021 * Q := by
    rw [abs_mul]
    refine (mul_le_mul hmR hmR (abs_nonneg _) (by positivity)).trans ?_
    have e2 : 1.001 * R * (1.001 * R) = 1.001 * 1.001 * Q := by rw [← RR]; ring
    rw [e2]
    nlinarith
  obtain ⟨z, ez, -, hz⟩ := rnd_close hA hmm2 (run_lo Q0 (by norm_num) q1) (run_hi Q0.le (by norm_num) q2)
  have hzM : |z - M * M| ≤ uu * Q * (2.0031 * (n + 1) + 1.0021) := by
    have e1 : z - M * M = (z - m * m) + (m * m - M * M) := by ring
    rw [e1]
    refine (abs_add_le _ _).trans ?_
    linarith
  have hz2 : |z| ≤ 1.003 * Q := by
    have e1 : z = (z - m * m) + m * m := by ring
    rw [e1]
    refine (abs_add_le _ _).trans ?_
    linarith
  have hwz : |w - z| ≤ 2.01 * Q := (abs_sub _ _).trans (by linarith)
  obtain ⟨v, ev, vF, hv⟩ := rnd_close hA hwz (run_lo Q0 (by norm_num) q1) (run_hi Q0.le (by norm_num) q2)
  refine ⟨v, ?_, vF, ?_⟩
  · rw [fl_div _ _ n0.ne', fl_div _ _ n0.ne', em, ew, fl_mul, ez, fl_sub, ev]
  · rw [← hM]
    have e1 : v - (Q - M ^ 2) = (v - (w - z)) + ((w - Q) - (z - M * M)) := by ring
    rw [e1]
    refine (abs_add_le _ _).trans ?_
    have h2 := abs_sub (w - Q) (z - M * M)
    have h3 : uu * Q * (3.0041 * n + 7.0164) ≤ uu * Q * (4 * (n + 2)) := mul_le_mul_of_nonneg_left (by linarith) (by positivity)
    linarith

theorem var_num (hA : IsBinary64 A) {ys : List ℝ} (h : RunSized ys) :
    ∃ v, FRun.var A (ys.map .fin) = .fin v ∧ F64 v ∧
      |v - (meanSq ys - (ys.sum / ys.length) ^ 2)| ≤ 4 * (ys.length + 2) * uu * meanSq ys := by
  obtain ⟨n1, n2, q1, q2⟩ := h
  obtain ⟨n, hn⟩ : ∃ n : ℝ, n = ys.length := ⟨_, rfl⟩
  obtain ⟨Q, hQ⟩ : ∃ Q, Q = meanSq ys := ⟨_, rfl⟩
  rw [← hQ] at q1 q2
  rw [← hn, ← hQ]
  have n1' : (1 : ℝ) ≤ n := by rw [hn]; exact_mod_cast n1
  have n2' : n ≤ 2 ^ 39 := by rw [hn]; exact_mod_cast n2
  have n0 : 0 < n := by linarith
  have Q0 : 0 < Q := lt_of_lt_of_le (by positivity) q1
  obtain ⟨R, hR⟩ : ∃ R, R = √Q := ⟨_, rfl⟩
  have R0 : 0 < R := by rw [hR]; exact Real.sqrt_pos.mpr Q0
  have RR : R * R = Q := by rw [hR]; exact Real.mul_self_sqrt Q0.le
  have sq : (ys.map fun x => x ^ 2).sum = n * Q := by rw [hQ, meanSq, ← hn]; field_simp
  have u0 := uu_pos
  have R1 : 2 ^ (-150 : ℤ) ≤ R := by
    rw [hR]; refine Real.le_sqrt_of_sq_le ?_
    refine le_trans (le_of_eq ?_) q1
    rw [← zpow_natCast, ← zpow_mul]; norm_num
  have R2 : R ≤ 2 ^ (150 : ℤ) := by
    rw [hR]; refine Real.sqrt_le_iff.mpr ⟨by positivity, q2.trans (le_of_eq ?_)⟩
    rw [← zpow_natCast, ← zpow_mul]; norm_num
  have hu : uu = 2 ^ (-52 : ℤ) := rfl
  have t1 : (n + 1) * uu ≤ 1 / 4096 := by
    rw [hu, show (2 : ℝ) ^ (-52 : ℤ) = 1 / 2 ^ 52 by norm_num, mul_one_div, div_le_div_iff₀ (by norm_num) (by norm_num)]
    nlinarith
  have t0 : 0 < (n + 1) * uu := by positivity
  have t2 : n * uu ≤ 1 / 4096 := by nlinarith
  have t3 : uu ≤ 1 / 4096 := by nlinarith
  have big : (2 : ℝ) ^ (500 : ℤ) ≤ 2 ^ (971 : ℤ) := zpow_le_zpow_right₀ (by norm_num) (by norm_num)
  have lo : ∀ {x : ℝ}, 2 ^ (-300 : ℤ) ≤ x → (2 : ℝ) ^ (-1000 : ℤ) ≤ x := fun h => le_trans (zpow_le_zpow_right₀ (by norm_num) (by norm_num)) h
  have lo1 : ∀ {x : ℝ}, 0 < x → 2 ^ (-300 : ℤ) ≤ x → (2 : ℝ) ^ (-1000 : ℤ) ≤ 1.001 * (n * x) := by
    intro x x0 h
    have h1 : x ≤ n * x := le_mul_of_one_le_left x0.le n1'
    exact lo (by linarith)
  have R1' : 2 ^ (-300 : ℤ) ≤ R := le_trans (zpow_le_zpow_right₀ (by norm_num) (by norm_num)) R1
  have R2' : R ≤ 2 ^ (300 : ℤ) := R2.trans (zpow_le_zpow_right₀ (by norm_num) (by norm_num))
  have hi : ∀ {x : ℝ}, 0 ≤ x → x ≤ 2 ^ (300 : ℤ) → 1.001 * (n * x) ≤ 2 ^ (971 : ℤ) := by
    intro x x0 hx
    have e : (2 : ℝ) ^ 39 * 2 ^ (300 : ℤ) * 2 ≤ 2 ^ (500 : ℤ) := by
      have h39 : (2 : ℝ) ^ 39 = 2 ^ (39 : ℤ) := by norm_num
      rw [h39, pw_mul 39 300 339 (by norm_num), mul_comm, pw_two 339 340 (by norm_num)]
      exact pw_le _ _ (by norm_num)
    have h1 : n * x ≤ 2 ^ 39 * 2 ^ (300 : ℤ) := mul_le_mul n2' hx x0 (by positivity)
    have h2 : 0 ≤ n * x := by positivity
    have h3 : 1.001 * (n * x) ≤ 2 ^ 39 * 2 ^ (300 : ℤ) * 2 := le_trans (by linarith : 1.001 * (n * x) ≤ (n * x) * 2) (mul_le_mul_of_nonneg_right h1 (by norm_num))
    exact h3.trans (e.trans big)
  have hi1 : ∀ {x c : ℝ}, 0 ≤ x → 0 ≤ c → c ≤ 4 → x ≤ 2 ^ (300 : ℤ) → c * x ≤ 2 ^ (971 : ℤ) := by
    intro x c x0 c0 c1 hx
    have e : (4 : ℝ) * 2 ^ (300 : ℤ) ≤ 2 ^ (500 : ℤ) := by
      have h4 : (4 : ℝ) = 2 ^ (2 : ℤ) := by norm_num
      rw [h4, pw_mul 2 300 302 (by norm_num)]
      exact pw_le _ _ (by norm_num)
    have h1 : c * x ≤ 4 * 2 ^ (300 : ℤ) := mul_le_mul c1 hx x0 (by norm_num)
    exact h1.trans (e.trans big)
  have hsz : A.rnd ((ys.map Dbl.fin).length : ℕ) = .fin n := by
    rw [List.length_map, ← hn]
    refine hA.id _ ?_
    have := f64_int (ys.length : ℤ) (by
      rw [abs_of_nonneg (by positivity)]
      exact_mod_cast lt_of_le_of_lt n2 (by norm_num))
    rw [hn]
    simpa using this
  -- the sum
  have ha : (ys.map fun x => |x|).sum ≤ n * R := by
    refine (sum_abs_le R0 ys).trans (le_of_eq ?_)
    rw [sq, ← RR, ← hn]; field_simp; ring
  obtain ⟨s, es, hs⟩ : ∃ s, FRun.sum A (ys.map .fin) = .fin s ∧ |s - ys.sum| ≤ n * uu * (1.001 * (n * R)) := by
    have := fold_err hA (X := 1.001 * (n * R)) (lo1 R0 R1') (hi R0.le R2') (fun x => x) (fun d => d) (fun _ => 0) ys
      (fun x _ => ⟨le_rfl, x, rfl, by simp⟩) 0 0 0 (n * R) (by simp) (by simpa using ha) (by
        simp only [List.map_const', List.sum_replicate, smul_zero, zero_add]
        rw [← hn]
        have p : 0 < n * R := by positivity
        nlinarith [mul_le_mul_of_nonneg_right t2 (show 0 ≤ 1.001 * (n * R) by positivity)])
    obtain ⟨s, e1, e2⟩ := this
    refine ⟨s, e1, ?_⟩
    simpa [← hn] using e2
  -- the sum of squares
  have kq : (2 : ℝ) ^ (-1000 : ℤ) ≤ 1e-6 * Q := by
    have : (2 : ℝ) ^ (-1000 : ℤ) ≤ 1e-6 * 2 ^ (-300 : ℤ) := by
      have h1 : (2 : ℝ) ^ (-1000 : ℤ) ≤ 2 ^ (-320 : ℤ) := zpow_le_zpow_right₀ (by norm_num) (by norm_num)
      have h2 : (2 : ℝ) ^ (-320 : ℤ) ≤ 1e-6 * 2 ^ (-300 : ℤ) := by
        rw [← pw_mul (-20) (-300) (-320) (by norm_num)]
        exact mul_le_mul_of_nonneg_right (by norm_num) (by positivity)
      exact h1.trans h2
    linarith
  have kq0 : (0 : ℝ) < 2 ^ (-1000 : ℤ) := by positivity
  have ysq : ∀ x ∈ ys, x ^ 2 ≤ n * Q := by
    intro x hx
    rw [← sq]
    exact List.single_le_sum (fun y hy => by obtain ⟨z, -, rfl⟩ := List.mem_map.mp hy; positivity) _ (List.mem_map_of_mem hx)
  obtain ⟨q, eq, hq⟩ : ∃ q, FRun.sqSum A (ys.map .fin) = .fin q ∧ |q - n * Q| ≤ uu * (n * Q + n * 2 ^ (-1000 : ℤ)) + n * uu * (1.001 * (n * Q)) := by
    have := fold_err hA (X := 1.001 * (n * Q)) (lo1 Q0 q1) (hi Q0.le q2) (fun x => x ^ 2) (fun d => A.mul d d) (fun x => uu * (x ^ 2 + 2 ^ (-1000 : ℤ))) ys
      (fun x hx => ⟨by positivity, by
        obtain ⟨r, e, -, h⟩ := rnd_close hA (x := x * x) (X := x ^ 2 + 2 ^ (-1000 : ℤ)) (by rw [abs_of_nonneg (mul_self_nonneg x), ← pow_two]; exact le_add_of_nonneg_right kq0.le)
          (le_add_of_nonneg_left (sq_nonneg x)) ((run_aux1 (ysq x hx) kq (le_mul_of_one_le_left Q0.le n1') Q0).trans (hi Q0.le q2))
        exact ⟨r, by rw [fl_mul, e], by rw [pow_two x]; rw [pow_two x] at h; exact h⟩⟩) 0 0 0 (n * Q) (by simp) (by simp [sq]) (by
        rw [sum_eps, sq, ← hn]
        exact run_aux2 n1' Q0 kq0.le kq t2 t3 u0)
    obtain ⟨q, e1, e2⟩ := this
    refine ⟨q, e1, ?_⟩
    rw [sum_eps, sq, ← hn] at e2
    simpa using e2
  obtain ⟨v, h1, h2, h3⟩ := var_tail hA n1' t1 Q0 R0 RR q1 q2 R1' R2' hs ((abs_list_sum ys).trans ha) hq
  refine ⟨v, ?_, h2, h3⟩
  rw [FRun.var, FRun.mean, es, eq, hsz]
  exact h1

end Verif.Theory
