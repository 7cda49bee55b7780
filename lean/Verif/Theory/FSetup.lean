import Verif.Theory.FRun
import Verif.Theory.Nearest
import Verif.Theory.RunValue
import Verif.Spec.RunVar

/-!
Rounding error of the prior bound and of the first proposal, and rounding to nearest of large integers.
-/

namespace Verif.Theory

open Verif.Model Verif.Spec

variable {A : Arith}

/-- `r` is `x` up to a relative error -/
def RelErr (r x ε : ℝ) : Prop := |r - x| ≤ ε * x

theorem RelErr.refl (x : ℝ) : RelErr x x 0 := by simp [RelErr]

theorem RelErr.mono {r x ε η : ℝ} (h : RelErr r x ε) (hx : 0 ≤ x) (he : ε ≤ η) : RelErr r x η := h.trans (mul_le_mul_of_nonneg_right he hx)

theorem RelErr.bounds {r x ε : ℝ} (h : RelErr r x ε) : (1 - ε) * x ≤ r ∧ r ≤ (1 + ε) * x := by
  obtain ⟨a, b⟩ := abs_le.mp h
  constructor <;> linarith

theorem RelErr.mul {a x ε b y η : ℝ} (h : RelErr a x ε) (h' : RelErr b y η) (hx : 0 ≤ x) (hy : 0 ≤ y) (he : 0 ≤ ε) : RelErr (a * b) (x * y) (ε + η + ε * η) := by
  unfold RelErr at *
  have e : a * b - x * y = (a - x) * (b - y) + (a - x) * y + x * (b - y) := by ring
  rw [e]
  have h1 : |(a - x) * (b - y)| ≤ ε * x * (η * y) := by rw [abs_mul]; exact mul_le_mul h h' (abs_nonneg _) (by positivity)
  have h2 : |(a - x) * y| ≤ ε * x * y := by rw [abs_mul, abs_of_nonneg hy]; exact mul_le_mul_of_nonneg_right h hy
  have h3 : |x * (b - y)| ≤ x * (η * y) := by rw [abs_mul, abs_of_nonneg hx]; exact mul_le_mul_of_nonneg_left h' hx
  calc _ ≤ _ := abs_add_three _ _ _
    _ ≤ _ := add_le_add (add_le_add h1 h2) h3
    _ = _ := by ring

theorem RelErr.scale {a x ε : ℝ} (c : ℝ) (hc : 0 ≤ c) (h : RelErr a x ε) : RelErr (a * c) (x * c) ε := by
  unfold RelErr at *
  rw [← sub_mul, abs_mul, abs_of_nonneg hc, ← mul_assoc]
  exact mul_le_mul_of_nonneg_right h hc

theorem RelErr.div {a x ε : ℝ} (c : ℝ) (hc : 0 < c) (h : RelErr a x ε) : RelErr (a / c) (x / c) ε := by
  rw [div_eq_mul_inv, div_eq_mul_inv]; exact h.scale _ (by positivity)

theorem RelErr.sqrt {a x ε : ℝ} (h : RelErr a x ε) (hx : 0 < x) (ha : 0 ≤ a) : RelErr √a √x ε := by
  unfold RelErr at *
  have sx := Real.sqrt_pos.mpr hx
  have sa := Real.sqrt_nonneg a
  have e : (√a - √x) * (√a + √x) = a - x := by
    have h1 := Real.mul_self_sqrt ha
    have h2 := Real.mul_self_sqrt hx.le
    nlinarith
  have h1 : |√a - √x| * (√a + √x) ≤ ε * x := by
    rw [← e, abs_mul, abs_of_nonneg (show 0 ≤ √a + √x by linarith)] at h; exact h
  have h2 : |√a - √x| * √x ≤ ε * √x * √x := by
    have h3 : |√a - √x| * √x ≤ |√a - √x| * (√a + √x) := mul_le_mul_of_nonneg_left (by linarith) (abs_nonneg _)
    rw [mul_assoc, Real.mul_self_sqrt hx.le]
    exact h3.trans h1
  exact le_of_mul_le_mul_right h2 sx

theorem RelErr.trans {a b x ε η : ℝ} (h : RelErr a b ε) (h' : RelErr b x η) (he : 0 ≤ ε) : RelErr a x (η + ε * (1 + η)) := by
  have h2 := h'.bounds.2
  unfold RelErr at *
  have e : a - x = (a - b) + (b - x) := by ring
  rw [e]
  refine (abs_add_le _ _).trans ?_
  have : ε * b ≤ ε * ((1 + η) * x) := mul_le_mul_of_nonneg_left h2 he
  nlinarith

theorem RelErr.rnd (hA : IsBinary64 A) {a x ε : ℝ} (h : RelErr a x ε) (he : ε ≤ 1 / 2) (h1 : 2 ^ (-900 : ℤ) ≤ x) (h2 : x ≤ 2 ^ (900 : ℤ)) :
    ∃ r, A.rnd a = .fin r ∧ F64 r ∧ RelErr r x (ε + 2 * uu) := by
  have x0 : 0 < x := lt_of_lt_of_le (by positivity) h1
  obtain ⟨b1, b2⟩ := h.bounds
  have c1 : x / 2 ≤ a := by nlinarith
  have c2 : a ≤ 2 * x := by nlinarith
  have d1 : (2 : ℝ) ^ (-1000 : ℤ) ≤ a := by
    have : (2 : ℝ) ^ (-901 : ℤ) ≤ a := by
      have e := pw_two (-901) (-900) (by norm_num)
      linarith
    exact (pw_le _ _ (by norm_num)).trans this
  have d2 : a ≤ 2 ^ (971 : ℤ) := by
    have : a ≤ 2 ^ (901 : ℤ) := by
      rw [← pw_two 900 901 (by norm_num)]
      exact c2.trans (mul_le_mul_of_nonneg_left h2 (by norm_num))
    exact this.trans (pw_le _ _ (by norm_num))
  have a0 : 0 < a := by linarith
  obtain ⟨r, e, hF, hr⟩ := rnd_close hA (x := a) (X := a) (abs_of_pos a0).le d1 d2
  refine ⟨r, e, hF, ?_⟩
  have u0 := uu_pos
  unfold RelErr at *
  have e1 : r - x = (r - a) + (a - x) := by ring
  rw [e1]
  refine (abs_add_le _ _).trans ?_
  have : uu * a ≤ uu * (2 * x) := mul_le_mul_of_nonneg_left c2 u0.le
  nlinarith

theorem uu47 : 32 * uu = 2 ^ (-47 : ℤ) := by
  unfold uu; norm_num

theorem rel_pos {r x ε : ℝ} (h : RelErr r x ε) (hx : 0 < x) (he : ε < 1) : 0 < r := by
  have := h.bounds.1
  nlinarith

theorem size_exact (hA : IsBinary64 A) {n : ℕ} (hn : n ≤ 2 ^ 39) : A.rnd (n : ℕ) = .fin n := by
  refine hA.id _ ?_
  have := f64_int (n : ℤ) (by
    rw [abs_of_nonneg (by positivity)]
    exact_mod_cast lt_of_le_of_lt hn (by norm_num))
  simpa using this

/-- one diagonal element of the first covariance and its root -/
theorem covar_num (hA : IsBinary64 A) {v : ℝ} {n : ℕ} (v1 : 2 ^ (-360 : ℤ) ≤ v) (v2 : v ≤ 2 ^ (320 : ℤ)) (n1 : 1 ≤ n) (n2 : n ≤ 2 ^ 39) (i : ℕ) :
    ∃ c l, (if i = 0 then A.div (A.mul (A.mul (.fin 2) (.fin v)) (.fin v)) (A.rnd n) else if i = 2 then A.div (.fin v) (A.rnd n)
      else A.mul (A.mul (.fin 1) (A.rnd 0.01)) (A.rnd 0.01)) = .fin c ∧ 0 < c ∧ A.sqrt (.fin c) = .fin l ∧
      RelErr l (firstScale v n i) (11 * uu) := by
  have u0 := uu_pos
  have us : uu ≤ 1 / 4096 := uu_small.trans (by norm_num)
  have v0 : 0 < v := lt_of_lt_of_le (by positivity) v1
  have n0 : (0 : ℝ) < n := by exact_mod_cast n1
  have n1' : (1 : ℝ) ≤ n := by exact_mod_cast n1
  have n2' : (n : ℝ) ≤ 2 ^ (39 : ℤ) := by exact_mod_cast n2
  have nn : (n : ℝ) ≠ 0 := n0.ne'
  have E := size_exact hA n2
  have lo9 : ∀ {x : ℝ} (k : ℤ), -900 ≤ k → 2 ^ k ≤ x → (2 : ℝ) ^ (-900 : ℤ) ≤ x := fun k hk h => (pw_le _ _ hk).trans h
  have hi9 : ∀ {x : ℝ} (k : ℤ), k ≤ 900 → x ≤ 2 ^ k → x ≤ (2 : ℝ) ^ (900 : ℤ) := fun k hk h => h.trans (pw_le _ _ hk)
  have dlo : ∀ {x : ℝ} (k m : ℤ), k = m + 39 → 2 ^ k ≤ x → 2 ^ m ≤ x / n := by
    intro x k m hk h
    rw [le_div_iff₀ n0]
    refine le_trans (mul_le_mul_of_nonneg_left n2' (by positivity)) ?_
    rw [pw_mul m 39 k hk.symm]
    exact h
  have dhi : ∀ {x : ℝ} (k : ℤ), 0 ≤ x → x ≤ 2 ^ k → x / n ≤ 2 ^ k := fun k x0 h => (div_le_self x0 n1').trans h
  have fin : ∀ {c x s : ℝ} (k : ℕ), RelErr c x (k * uu) → k ≤ 9 → √x = s → 0 < x → 2 ^ (-800 : ℤ) ≤ x → x ≤ 2 ^ (800 : ℤ) →
      ∃ l, A.sqrt (.fin c) = .fin l ∧ RelErr l s (11 * uu) ∧ 0 < c := by
    intro c x s k h hk hs x0 h1 h2
    have hk' : (k : ℝ) ≤ 9 := by exact_mod_cast hk
    have hku : (k : ℝ) * uu ≤ 9 * uu := mul_le_mul_of_nonneg_right hk' u0.le
    have c0 : 0 < c := rel_pos h x0 (by linarith)
    have g := h.sqrt x0 c0.le
    have s1 : (2 : ℝ) ^ (-400 : ℤ) ≤ √x := by
      refine Real.le_sqrt_of_sq_le ?_
      rw [pow_two, pw_mul (-400) (-400) (-800) (by norm_num)]; exact h1
    have s2 : √x ≤ (2 : ℝ) ^ (400 : ℤ) := by
      refine Real.sqrt_le_iff.mpr ⟨by positivity, ?_⟩
      rw [pow_two, pw_mul 400 400 800 (by norm_num)]; exact h2
    obtain ⟨l, el, -, hl⟩ := g.rnd hA (by linarith) (lo9 _ (by norm_num) s1) (hi9 _ (by norm_num) s2)
    refine ⟨l, by rw [hA.sqrt_fin _ c0.le]; exact el, ?_, c0⟩
    rw [← hs]
    exact hl.mono (Real.sqrt_nonneg _) (by linarith)
  unfold firstScale
  split_ifs with h0 h2
  · have a1 : (2 : ℝ) ^ (-359 : ℤ) ≤ 2 * v := by rw [← pw_two (-360) (-359) (by norm_num)]; exact mul_le_mul_of_nonneg_left v1 (by norm_num)
    have a2 : 2 * v ≤ (2 : ℝ) ^ (321 : ℤ) := by rw [← pw_two 320 321 (by norm_num)]; exact mul_le_mul_of_nonneg_left v2 (by norm_num)
    obtain ⟨a, ea, -, ha⟩ := (RelErr.refl (2 * v)).rnd hA (by norm_num) (lo9 _ (by norm_num) a1) (hi9 _ (by norm_num) a2)
    have b1 : (2 : ℝ) ^ (-719 : ℤ) ≤ 2 * v * v := by rw [← pw_mul (-359) (-360) (-719) (by norm_num)]; exact mul_le_mul a1 v1 (by positivity) (by positivity)
    have b2 : 2 * v * v ≤ (2 : ℝ) ^ (641 : ℤ) := by rw [← pw_mul 321 320 641 (by norm_num)]; exact mul_le_mul a2 v2 v0.le (by positivity)
    obtain ⟨b, eb, -, hb⟩ := (ha.scale v v0.le).rnd hA (by linarith) (lo9 _ (by norm_num) b1) (hi9 _ (by norm_num) b2)
    have c1 := dlo (-719) (-758) (by norm_num) b1
    have c2 := dhi 641 (by positivity) b2
    obtain ⟨c, ec, -, hc⟩ := (hb.div n n0).rnd hA (by linarith) (lo9 _ (by norm_num) c1) (hi9 _ (by norm_num) c2)
    obtain ⟨l, el, hl, c0⟩ := fin (c := c) (x := 2 * v * v / n) (s := v * √(2 / n)) 6 (by convert hc using 1; push_cast; ring) (by norm_num) (by
      rw [show 2 * v * v / n = v ^ 2 * (2 / n) by ring, Real.sqrt_mul (by positivity), Real.sqrt_sq v0.le]) (by positivity)
      (c1.trans' (pw_le _ _ (by norm_num))) (c2.trans (pw_le _ _ (by norm_num)))
    refine ⟨c, l, ?_, c0, el, hl⟩
    rw [fl_mul, ea, fl_mul, eb, E, fl_div _ _ nn, ec]
  · have c1 := dlo (-360) (-399) (by norm_num) v1
    have c2 := dhi 320 v0.le v2
    obtain ⟨c, ec, -, hc⟩ := ((RelErr.refl v).div n n0).rnd hA (by norm_num) (lo9 _ (by norm_num) c1) (hi9 _ (by norm_num) c2)
    obtain ⟨l, el, hl, c0⟩ := fin (c := c) (x := v / n) 2 (by convert hc using 1; push_cast; ring) (by norm_num) rfl (by positivity)
      (c1.trans' (pw_le _ _ (by norm_num))) (c2.trans (pw_le _ _ (by norm_num)))
    exact ⟨c, l, by rw [E, fl_div _ _ nn, ec], c0, el, hl⟩
  · have k1 : (2 : ℝ) ^ (-7 : ℤ) ≤ 0.01 := by norm_num
    have k2 : (0.01 : ℝ) ≤ 2 ^ (0 : ℤ) := by norm_num
    have k3 : (2 : ℝ) ^ (-14 : ℤ) ≤ 0.01 * 0.01 := by norm_num
    have k4 : (0.01 * 0.01 : ℝ) ≤ 2 ^ (0 : ℤ) := by norm_num
    obtain ⟨w, ew, -, hw⟩ := (RelErr.refl (0.01 : ℝ)).rnd hA (by norm_num) (lo9 _ (by norm_num) k1) (hi9 _ (by norm_num) k2)
    obtain ⟨x, ex, -, hx⟩ := hw.rnd hA (by linarith) (lo9 _ (by norm_num) k1) (hi9 _ (by norm_num) k2)
    have hxw := hx.mul hw (by norm_num) (by norm_num) (by positivity)
    have q : (0 + 2 * uu + 2 * uu) * (0 + 2 * uu) ≤ uu := by nlinarith
    obtain ⟨c, ec, -, hc⟩ := (hxw.mono (η := 7 * uu) (by norm_num) (by linarith)).rnd hA (by linarith) (lo9 _ (by norm_num) k3) (hi9 _ (by norm_num) k4)
    obtain ⟨l, el, hl, c0⟩ := fin (c := c) (x := 0.01 * 0.01) (s := 0.01) 9 (by convert hc using 1; push_cast; ring) (by norm_num)
      (Real.sqrt_mul_self (by norm_num)) (by norm_num) (k3.trans' (pw_le _ _ (by norm_num))) (k4.trans (pw_le _ _ (by norm_num)))
    refine ⟨c, l, ?_, c0, el, hl⟩
    rw [ew, fl_mul, one_mul, ex, fl_mul, ec]

/-- the setup, relative to the computed variance -/
theorem setup_num (hA : IsBinary64 A) {y : List Dbl} {v : ℝ} (ev : FRun.var A y = .fin v) (v1 : 2 ^ (-360 : ℤ) ≤ v) (v2 : v ≤ 2 ^ (320 : ℤ))
    (n1 : 1 ≤ y.length) (n2 : y.length ≤ 2 ^ 39) (d : ℕ) :
    ∃ M L, FRun.setup A d y = .ok (.fin M, L) ∧ RelErr M (10 * √v) (11 * uu) ∧ L.length = d ∧
      ∀ i < d, ∃ l, L[i]? = some (.fin l) ∧ RelErr l (firstScale v y.length i) (11 * uu) := by
  have u0 := uu_pos
  have us : uu ≤ 1 / 4096 := uu_small.trans (by norm_num)
  have v0 : 0 < v := lt_of_lt_of_le (by positivity) v1
  have s1 : (2 : ℝ) ^ (-180 : ℤ) ≤ √v := by
    refine Real.le_sqrt_of_sq_le ?_
    rw [pow_two, pw_mul (-180) (-180) (-360) (by norm_num)]; exact v1
  have s2 : √v ≤ (2 : ℝ) ^ (160 : ℤ) := by
    refine Real.sqrt_le_iff.mpr ⟨by positivity, ?_⟩
    rw [pow_two, pw_mul 160 160 320 (by norm_num)]; exact v2
  obtain ⟨r, er, -, hr⟩ := (RelErr.refl √v).rnd hA (by norm_num) (s1.trans' (pw_le _ _ (by norm_num))) (s2.trans (pw_le _ _ (by norm_num)))
  have t1 : (2 : ℝ) ^ (-180 : ℤ) ≤ √v * 10 := s1.trans (by have := Real.sqrt_nonneg v; linarith)
  have t2 : √v * 10 ≤ (2 : ℝ) ^ (164 : ℤ) := by
    rw [← pw_mul 160 4 164 (by norm_num)]
    exact mul_le_mul s2 (by norm_num) (by norm_num) (by positivity)
  obtain ⟨M, eM, -, hM⟩ := (hr.scale 10 (by norm_num)).rnd hA (by linarith) (t1.trans' (pw_le _ _ (by norm_num))) (t2.trans (pw_le _ _ (by norm_num)))
  have hmax : FRun.maxStdev A y = .fin M := by rw [FRun.maxStdev, ev, hA.sqrt_fin _ v0.le, er, fl_mul, mul_comm, eM]
  choose c l h1 h2 h3 h4 using covar_num hA v1 v2 n1 n2
  have hcov : FRun.covar A d y = (List.range d).map fun i => .fin (c i) := by
    unfold FRun.covar
    refine List.map_congr_left fun i _ => ?_
    rw [ev]; exact h1 i
  have hno : ¬ ∃ a ∈ FRun.covar A d y, ¬ (Dbl.fin 0).lt a := by
    rintro ⟨a, ha, hn⟩
    rw [hcov] at ha
    obtain ⟨i, -, rfl⟩ := List.mem_map.mp ha
    exact hn (h2 i)
  refine ⟨M, (List.range d).map fun i => .fin (l i), ?_, ?_, by simp, fun i hi => ⟨l i, by simp [hi], h4 i⟩⟩
  · unfold FRun.setup FRun.chol
    rw [if_neg hno, hmax, hcov, res_bind_ok, List.map_map]
    congr 3
    funext i
    exact h3 i
  · rw [mul_comm 10]
    exact hM.mono (by positivity) (by linarith)

/-- no setup without a positive computed variance -/
theorem setup_fails (hA : IsBinary64 A) {y : List Dbl} (n1 : 1 ≤ y.length) (n2 : y.length ≤ 2 ^ 39) (hv : ¬ (Dbl.fin 0).lt (FRun.var A y))
    {d : ℕ} (hd : 3 ≤ d) : FRun.setup A d y = .error .runtime := by
  have n0 : (0 : ℝ) < y.length := by exact_mod_cast n1
  have key : ¬ (Dbl.fin 0).lt (A.div (FRun.var A y) (A.rnd y.length)) := by
    rw [size_exact hA n2]
    cases h : FRun.var A y with
    | fin v =>
      rw [h] at hv
      have hv' : v ≤ 0 := not_lt.mp hv
      rw [fl_div _ _ n0.ne']
      rcases rnd_nonpos hA (div_nonpos_of_nonpos_of_nonneg hv' n0.le) with e | ⟨r, e, hr⟩
      · rw [e]; simp [Dbl.lt]
      · rw [e]; exact not_lt.mpr hr
    | pinf => rw [h] at hv; exact absurd trivial hv
    | ninf => simp [Arith.div, Arith.fl, Dbl.div, Dbl.lt, not_lt.mpr n0.le]
    | nan => simp [Arith.div, Arith.fl, Dbl.div, Dbl.lt]
  have : ∃ a ∈ FRun.covar A d y, ¬ (Dbl.fin 0).lt a :=
    ⟨_, List.mem_map.mpr ⟨2, List.mem_range.mpr (by omega), rfl⟩, by simpa using key⟩
  unfold FRun.setup FRun.chol
  rw [if_pos this]
  rfl

/-! ### rounding to nearest of large numbers -/

/-- doubles from `2^(52+t)` on are multiples of `2^t` -/
theorem f64_grid {f : ℝ} (hf : F64 f) (t : ℕ) (h : (2 : ℝ) ^ (52 + t) ≤ f) : ∃ k : ℤ, f = k * 2 ^ t := by
  obtain ⟨m, e, hm, -, -, rfl⟩ := hf
  have he : (t : ℤ) ≤ e := by
    by_contra hc
    have h1 : e ≤ t - 1 := by omega
    have h2 : (m : ℝ) < 2 ^ 53 := by
      have := (abs_lt.mp hm).2
      exact_mod_cast this
    have hp : (0 : ℝ) < 2 ^ e := by positivity
    have h3 : (m : ℝ) * 2 ^ e < 2 ^ 53 * 2 ^ e := mul_lt_mul_of_pos_right h2 hp
    have h4 : (2 : ℝ) ^ 53 * 2 ^ e ≤ 2 ^ 53 * 2 ^ ((t : ℤ) - 1) := mul_le_mul_of_nonneg_left (pw_le _ _ h1) (by positivity)
    have h5 : (2 : ℝ) ^ 53 * 2 ^ ((t : ℤ) - 1) = 2 ^ (52 + t) := by
      rw [← zpow_natCast, ← zpow_natCast, pw_mul _ _ ((52 + t : ℕ) : ℤ) (by push_cast; ring)]
    linarith
  obtain ⟨j, rfl⟩ : ∃ j : ℕ, e = t + j := ⟨(e - t).toNat, by omega⟩
  refine ⟨m * 2 ^ j, ?_⟩
  push_cast
  rw [zpow_add₀ (by norm_num), zpow_natCast, zpow_natCast]
  ring

open scoped Classical in
/-- neighbours of a number between two grid points -/
theorem near_grid (tie : ℝ → Prop) {x r : ℝ} (k t : ℕ) (hk : 2 ^ 52 ≤ k) (hk2 : k + 1 < 2 ^ 53) (ht : t ≤ 900) (hx : x = k * 2 ^ t + r)
    (r0 : 0 < r) (r1 : r < 2 ^ t) : below x = k * 2 ^ t ∧ above x = (k + 1) * 2 ^ t ∧
      roundNearest tie x = if r < 2 ^ t - r ∨ (r = 2 ^ t - r ∧ tie x) then Dbl.fin (k * 2 ^ t) else Dbl.fin ((k + 1) * 2 ^ t) := by
  have F1 : F64 ((k : ℝ) * 2 ^ t) := by
    have := f64_nat_zpow k t (by omega) (by omega) (by omega)
    simpa using this
  have F2 : F64 (((k : ℝ) + 1) * 2 ^ t) := by
    have := f64_nat_zpow (k + 1) t hk2 (by omega) (by omega)
    simpa using this
  have tp : (0 : ℝ) < 2 ^ t := by positivity
  have hlow : (2 : ℝ) ^ (52 + t) ≤ k * 2 ^ t := by
    rw [pow_add]
    exact mul_le_mul_of_nonneg_right (by exact_mod_cast hk) tp.le
  have b1 := (abs_le.mp (f64_le_maxF F1)).1
  have b2 := (abs_le.mp (f64_le_maxF F2)).2
  have kx : (k : ℝ) * 2 ^ t < x := by rw [hx]; linarith
  have xk : x < ((k : ℝ) + 1) * 2 ^ t := by rw [hx]; linarith
  have mid : ∀ {f : ℝ}, F64 f → (k : ℝ) * 2 ^ t ≤ f → f ≤ ((k : ℝ) + 1) * 2 ^ t → f = k * 2 ^ t ∨ f = (k + 1) * 2 ^ t := by
    intro f hf h1 h2
    obtain ⟨j, rfl⟩ := f64_grid hf t (hlow.trans h1)
    have g1 := le_of_mul_le_mul_right h1 tp
    have g2 := le_of_mul_le_mul_right h2 tp
    have g1' : (k : ℤ) ≤ j := by exact_mod_cast g1
    have g2' : j ≤ (k : ℤ) + 1 := by exact_mod_cast g2
    rcases (show j = k ∨ j = k + 1 by omega) with rfl | rfl
    · left; push_cast; rfl
    · right; push_cast; rfl
  have hb : below x = k * 2 ^ t := by
    obtain ⟨m1, m2⟩ := below_mem (x := x) (by linarith)
    rcases mid m1 (le_below F1 kx.le) (by linarith) with e | e
    · exact e
    · linarith
  have ha : above x = (k + 1) * 2 ^ t := by
    obtain ⟨m1, m2⟩ := above_mem (x := x) (by linarith)
    rcases mid m1 (by linarith) (above_le F2 xk.le) with e | e
    · linarith
    · exact e
  refine ⟨hb, ha, ?_⟩
  rw [near_mid (by linarith) (by linarith), hb, ha]
  have e1 : x - k * 2 ^ t = r := by rw [hx]; ring
  have e2 : (k + 1) * 2 ^ t - x = 2 ^ t - r := by rw [hx]; ring
  rw [e1, e2]

end Verif.Theory
