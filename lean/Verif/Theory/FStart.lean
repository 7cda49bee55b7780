import Verif.Theory.FSetup
import Verif.Theory.FObj
import Verif.Theory.FAcc
import Verif.Theory.FFinite
import Verif.Theory.FSim1
import Verif.Spec.FStart

/-!
Rounding errors of `CAR1::StartingValue`.
-/

namespace Verif.Theory

open Verif.Model Verif.Spec
open scoped Classical

variable {A : Arith}

theorem nat_exact (hA : IsBinary64 A) {n : ℕ} (hn : n < 2 ^ 53) : A.rnd (n : ℕ) = .fin n := by
  refine hA.id _ ?_
  have := f64_int (n : ℤ) (by
    rw [abs_of_nonneg (by positivity)]
    exact_mod_cast hn)
  simpa using this

/-- the standard deviation -/
theorem sd_num (hA : IsBinary64 A) {v c : ℝ} {k : ℕ} (v1 : 2 ^ (-200 : ℤ) ≤ v) (v2 : v ≤ 2 ^ (200 : ℤ)) (c1 : 2 ^ (-200 : ℤ) ≤ c) (c2 : c ≤ 2 ^ (200 : ℤ))
    (k1 : 1 ≤ k) (k2 : k < 2 ^ 53) :
    ∃ sd, A.sqrt (FCar1.scaledInvChi A k (.fin v) (.fin c)) = .fin sd ∧ F64 sd ∧ RelErr sd √(v / c * k) (6 * uu) ∧
      2 ^ (-200 : ℤ) ≤ √(v / c * k) ∧ √(v / c * k) ≤ 2 ^ (227 : ℤ) := by
  have u0 := uu_pos
  have us := uu_small
  have c0 : 0 < c := lt_of_lt_of_le (by positivity) c1
  have v0 : 0 < v := lt_of_lt_of_le (by positivity) v1
  have k0 : (1 : ℝ) ≤ k := by exact_mod_cast k1
  have k3 : (k : ℝ) ≤ 2 ^ (53 : ℤ) := by exact_mod_cast k2.le
  have x1 : (2 : ℝ) ^ (-400 : ℤ) ≤ v / c := by
    rw [le_div_iff₀ c0]
    refine (mul_le_mul_of_nonneg_left c2 (by positivity)).trans ?_
    rw [pw_mul (-400) 200 (-200) (by norm_num)]
    exact v1
  have x2 : v / c ≤ 2 ^ (400 : ℤ) := by
    rw [div_le_iff₀ c0]
    refine v2.trans (le_trans ?_ (mul_le_mul_of_nonneg_left c1 (by positivity)))
    rw [pw_mul 400 (-200) 200 (by norm_num)]
  have x0 : 0 < v / c := by positivity
  have y1 : (2 : ℝ) ^ (-400 : ℤ) ≤ v / c * k := x1.trans (le_mul_of_one_le_right x0.le k0)
  have y2 : v / c * k ≤ 2 ^ (454 : ℤ) := by
    refine (mul_le_mul x2 k3 (by positivity) (by positivity)).trans ?_
    rw [pw_mul 400 53 453 (by norm_num)]
    exact pw_le _ _ (by norm_num)
  have s1 : (2 : ℝ) ^ (-200 : ℤ) ≤ √(v / c * k) := by
    refine Real.le_sqrt_of_sq_le ?_
    rw [pow_two, pw_mul (-200) (-200) (-400) (by norm_num)]
    exact y1
  have s2 : √(v / c * k) ≤ 2 ^ (227 : ℤ) := by
    refine Real.sqrt_le_iff.mpr ⟨by positivity, ?_⟩
    rw [pow_two, pw_mul 227 227 454 (by norm_num)]
    exact y2
  obtain ⟨r1, e1, -, h1⟩ := (RelErr.refl (v / c)).rnd hA (by norm_num) ((pw_le _ _ (by norm_num)).trans x1) (x2.trans (pw_le _ _ (by norm_num)))
  have h1' := h1.scale k (by positivity)
  obtain ⟨r2, e2, -, h2⟩ := h1'.rnd hA (by linarith) ((pw_le _ _ (by norm_num)).trans y1) (y2.trans (pw_le _ _ (by norm_num)))
  have r20 : 0 < r2 := rel_pos h2 (lt_of_lt_of_le (by positivity) y1) (by linarith)
  have h2' := h2.sqrt (lt_of_lt_of_le (by positivity) y1) r20.le
  obtain ⟨r3, e3, F3, h3⟩ := h2'.rnd hA (by linarith) ((pw_le _ _ (by norm_num)).trans s1) (s2.trans (pw_le _ _ (by norm_num)))
  refine ⟨r3, ?_, F3, h3.mono (Real.sqrt_nonneg _) (by linarith), s1, s2⟩
  unfold FCar1.scaledInvChi
  rw [nat_exact hA k2, fl_div _ _ c0.ne', e1, fl_mul, e2, hA.sqrt_fin _ r20.le, e3]

/-- the mean -/
theorem mu_num (hA : IsBinary64 A) {sd S z m : ℝ} {n : ℕ} (hS : RelErr sd S (6 * uu)) (S1 : 2 ^ (-200 : ℤ) ≤ S) (S2 : S ≤ 2 ^ (227 : ℤ))
    (hz : |z| ≤ 2 ^ (53 : ℤ)) (hm : |m| ≤ 2 ^ (299 : ℤ)) (n1 : 1 ≤ n) (n2 : n < 2 ^ 53) :
    ∃ mu, A.add (A.mul (.fin z) (A.div (.fin sd) (A.rnd n))) (.fin m) = .fin mu ∧ F64 mu ∧ |mu| ≤ 2 ^ (300 : ℤ) ∧
      |mu - (m + z * (S / n))| ≤ 2 ^ (-48 : ℤ) * (|m| + |z| * (S / n) + 2 ^ (-1000 : ℤ)) := by
  have u0 := uu_pos
  have us := uu_small
  have S0 : 0 < S := lt_of_lt_of_le (by positivity) S1
  have n0 : (1 : ℝ) ≤ n := by exact_mod_cast n1
  have n0' : (0 : ℝ) < n := by linarith
  have n3 : (n : ℝ) ≤ 2 ^ (53 : ℤ) := by exact_mod_cast n2.le
  have q1 : (2 : ℝ) ^ (-253 : ℤ) ≤ S / n := by
    rw [le_div_iff₀ n0']
    refine (mul_le_mul_of_nonneg_left n3 (by positivity)).trans ?_
    rw [pw_mul (-253) 53 (-200) (by norm_num)]
    exact S1
  have q2 : S / n ≤ 2 ^ (227 : ℤ) := (div_le_self S0.le n0).trans S2
  have q0 : 0 < S / n := by positivity
  obtain ⟨q, eq, -, hq⟩ := (hS.div n n0').rnd hA (by linarith) ((pw_le _ _ (by norm_num)).trans q1) (q2.trans (pw_le _ _ (by norm_num)))
  obtain ⟨b1, b2⟩ := hq.bounds
  have qq : q ≤ 2 * (S / n) := by nlinarith
  have qp : 0 < q := rel_pos hq q0 (by linarith)
  have qq' : q ≤ 2 ^ (228 : ℤ) := by rw [← pw_two 227 228 (by norm_num)]; linarith
  have zq : |z * q| ≤ 2 ^ (281 : ℤ) := by
    rw [abs_mul, abs_of_pos qp, ← pw_mul 53 228 281 (by norm_num)]
    exact mul_le_mul hz qq' qp.le (by positivity)
  have F281 : F64 ((2 : ℝ) ^ (281 : ℤ)) := f64_zpow _ (by norm_num) (by norm_num)
  obtain ⟨p, ep, Rp, p1, p2⟩ := rnd_mul hA (a := z) (b := q) (f64_neg F281) F281 (abs_le.mp zq).1 (abs_le.mp zq).2
  have hp : |p| ≤ 2 ^ (281 : ℤ) := abs_le.mpr ⟨p1, p2⟩
  have spm : |p + m| ≤ 2 ^ (300 : ℤ) := by
    refine (abs_add_le _ _).trans ((add_le_add hp hm).trans ?_)
    rw [← pw_two 299 300 (by norm_num), two_mul]
    exact add_le_add_left (pw_le _ _ (by norm_num)) _
  obtain ⟨mu, em, Rm, m1, m2⟩ := rnd_add hA (a := p) (b := m) (f64_neg f64_300) f64_300 (abs_le.mp spm).1 (abs_le.mp spm).2
  refine ⟨mu, ?_, Rm.f, abs_le.mpr ⟨m1, m2⟩, ?_⟩
  · rw [nat_exact hA n2, fl_div _ _ n0'.ne', eq, ep, em]
  obtain ⟨t, ht⟩ : ∃ t : ℝ, t = 2 ^ (-1000 : ℤ) := ⟨_, rfl⟩
  have t0 : 0 < t := by rw [ht]; positivity
  have t1 : t ≤ 2 ^ (1000 : ℤ) := by rw [ht]; exact pw_le _ _ (by norm_num)
  have big : ∀ {x : ℝ} {k : ℤ}, x ≤ 2 ^ k → k ≤ 1000 → x + t ≤ 2 ^ (1001 : ℤ) := by
    intro x k hx hk
    rw [← pw_two 1000 1001 (by norm_num), two_mul]
    exact add_le_add (hx.trans (pw_le _ _ hk)) t1
  have d1 : |p - z * q| ≤ uu * (|z * q| + t) :=
    rounds_err Rp (by linarith) (by rw [← ht]; linarith [abs_nonneg (z * q)]) (big zq (by norm_num))
  have d2 : |mu - (p + m)| ≤ uu * (|p + m| + t) :=
    rounds_err Rm (by linarith) (by rw [← ht]; linarith [abs_nonneg (p + m)]) (big spm (by norm_num))
  have d3 : |z * q - z * (S / n)| ≤ |z| * (8 * uu * (S / n)) := by
    rw [← mul_sub, abs_mul]
    exact mul_le_mul_of_nonneg_left (hq.mono q0.le (by linarith)) (abs_nonneg _)
  rw [← ht, show (2 : ℝ) ^ (-48 : ℤ) = 16 * uu by unfold uu; norm_num]
  have zq2 : |z * q| ≤ |z| * (2 * (S / n)) := by rw [abs_mul, abs_of_pos qp]; exact mul_le_mul_of_nonneg_left qq (abs_nonneg _)
  have hpz : |p| ≤ |z * q| + uu * (|z * q| + t) := by
    have := abs_sub_abs_le_abs_sub p (z * q); linarith
  have hpm := abs_add_le p m
  have e : mu - (m + z * (S / n)) = (mu - (p + m)) + (p - z * q) + (z * q - z * (S / n)) := by ring
  rw [e]
  refine (abs_add_three _ _ _).trans ?_
  obtain ⟨w, hw⟩ : ∃ w, w = |z| * (S / n) := ⟨_, rfl⟩
  have w0 : 0 ≤ w := by rw [hw]; positivity
  have a0 := abs_nonneg m
  have zq3 : |z * q| ≤ 2 * w := by rw [hw]; linarith
  have d3' : |z * q - z * (S / n)| ≤ 8 * uu * w := by rw [hw]; linarith
  rw [← hw]
  have k1 : uu * (|z * q| + t) ≤ 2 * uu * w + uu * t := by nlinarith
  have k2 : uu * (|p + m| + t) ≤ uu * (3 * w + |m| + 2 * t) := by
    refine mul_le_mul_of_nonneg_left ?_ u0.le
    have : 2 * uu * w + uu * t ≤ w + t := by nlinarith
    linarith
  nlinarith [mul_nonneg u0.le w0, mul_nonneg u0.le a0, mul_nonneg u0.le t0.le]

/-- the logarithm of the rate, before it is compared with the largest frequency -/
theorem lo_num (hA : IsBinary64 A) {g u : ℝ} (g1 : 2 ^ (-300 : ℤ) ≤ g) (g2 : g ≤ 2 ^ (300 : ℤ)) (u1 : 1 ≤ u) (u2 : u ≤ 50) :
    ∃ l, A.mul (.fin (-1)) (A.log (A.mul (.fin g) (.fin u))) = .fin l ∧ F64 l ∧ |l| ≤ 1024 ∧
      (Accurate A → |l - -Real.log (g * u)| ≤ 2 ^ (-49 : ℤ) * (1 + |Real.log (g * u)|)) := by
  have u0 := uu_pos
  have us := uu_small
  have g0 : 0 < g := lt_of_lt_of_le (by positivity) g1
  have x0 : 0 < g * u := by positivity
  have x1 : (2 : ℝ) ^ (-300 : ℤ) ≤ g * u := g1.trans (le_mul_of_one_le_right g0.le u1)
  have x2 : g * u ≤ 2 ^ (306 : ℤ) := by
    rw [← pw_mul 300 6 306 (by norm_num)]
    exact mul_le_mul g2 (u2.trans (by norm_num)) (by linarith) (by positivity)
  obtain ⟨b, eb, Fb, hb⟩ := (RelErr.refl (g * u)).rnd hA (by norm_num) ((pw_le _ _ (by norm_num)).trans x1) (x2.trans (pw_le _ _ (by norm_num)))
  have b0 : 0 < b := rel_pos hb x0 (by linarith)
  obtain ⟨r, er, Fr, hr⟩ := hA.log_pos b Fb b0
  refine ⟨-r, ?_, f64_neg Fr, by rwa [abs_neg], fun hacc => ?_⟩
  · rw [fl_mul, eb, er, fl_mul, neg_one_mul, hA.id _ (f64_neg Fr)]
  have k := hacc.log b r Fb b0 er
  rw [show (2 : ℝ) ^ (-52 : ℤ) = uu from rfl] at k
  obtain ⟨b1, b2⟩ := hb.bounds
  have c1 : Real.log b - Real.log (g * u) ≤ 3 * uu := by
    rw [← Real.log_div b0.ne' x0.ne']
    refine (Real.log_le_sub_one_of_pos (by positivity)).trans ?_
    rw [sub_le_iff_le_add, div_le_iff₀ x0]
    nlinarith
  have c2 : Real.log (g * u) - Real.log b ≤ 3 * uu := by
    rw [← Real.log_div x0.ne' b0.ne']
    refine (Real.log_le_sub_one_of_pos (by positivity)).trans ?_
    rw [sub_le_iff_le_add, div_le_iff₀ b0]
    nlinarith
  have c3 : |Real.log b - Real.log (g * u)| ≤ 3 * uu := abs_le.mpr ⟨by linarith, c1⟩
  have c4 := abs_sub_abs_le_abs_sub (Real.log b) (Real.log (g * u))
  rw [show (2 : ℝ) ^ (-49 : ℤ) = 8 * uu by unfold uu; norm_num, show -r - -Real.log (g * u) = -((r - Real.log b) + (Real.log b - Real.log (g * u))) by ring, abs_neg]
  refine (abs_add_le _ _).trans ?_
  have a0 := abs_nonneg (Real.log (g * u))
  nlinarith

theorem min_fin (a b : ℝ) : Dbl.min (.fin a) (.fin b) = .fin (min a b) := by
  unfold Dbl.min
  by_cases h : b < a
  · rw [if_pos (show Dbl.lt (.fin b) (.fin a) from h), min_eq_right h.le]
  · rw [if_neg (show ¬ Dbl.lt (.fin b) (.fin a) from h), min_eq_left (not_lt.mp h)]

theorem max_fin (a b : ℝ) : Dbl.max (.fin a) (.fin b) = .fin (max a b) := by
  unfold Dbl.max
  by_cases h : a < b
  · rw [if_pos (show Dbl.lt (.fin a) (.fin b) from h), max_eq_right h.le]
  · rw [if_neg (show ¬ Dbl.lt (.fin a) (.fin b) from h), max_eq_left (not_lt.mp h)]

/-- the measurement error scale -/
theorem scale_num (hA : IsBinary64 A) {c : ℝ} (c0 : 0 ≤ c) :
    ∃ sc, Dbl.max (Dbl.min (FCar1.scaledInvChi A 50 (.fin 1) (.fin c)) (A.rnd 1.99)) (A.rnd 0.51) = .fin sc ∧ F64 sc ∧ 1 / 2 ≤ sc ∧ sc ≤ 2 := by
  obtain ⟨a, ea, Ra, a1, a2⟩ := rnd_between hA (x := 1.99) f64_one f64_two (by norm_num) (by norm_num)
  obtain ⟨b, eb, Rb, b1, b2⟩ := rnd_between hA (x := 0.51) f64_half f64_one (by norm_num) (by norm_num)
  have fin : ∀ x : ℝ, 0 ≤ x → F64 x → ∃ sc, Dbl.max (Dbl.min (.fin x) (A.rnd 1.99)) (A.rnd 0.51) = .fin sc ∧ F64 sc ∧ 1 / 2 ≤ sc ∧ sc ≤ 2 := by
    intro x _ hF
    rw [ea, eb, min_fin, max_fin]
    refine ⟨_, rfl, ?_, b1.trans (le_max_right _ _), max_le ((min_le_right _ _).trans a2) (b2.trans (by norm_num))⟩
    rcases max_choice (min x a) b with h | h <;> rw [h]
    · rcases min_choice x a with h | h <;> rw [h]
      · exact hF
      · exact Ra.f
    · exact Rb.f
  have inf : ∃ sc, Dbl.max (Dbl.min .pinf (A.rnd 1.99)) (A.rnd 0.51) = .fin sc ∧ F64 sc ∧ 1 / 2 ≤ sc ∧ sc ≤ 2 := by
    have e : Dbl.min .pinf (A.rnd 1.99) = Dbl.min (.fin 2) (A.rnd 1.99) := by
      rw [ea]
      unfold Dbl.min
      rw [if_pos (show Dbl.lt (.fin a) .pinf from trivial)]
      by_cases h : a < 2
      · rw [if_pos (show Dbl.lt (.fin a) (.fin 2) from h)]
      · rw [if_neg (show ¬ Dbl.lt (.fin a) (.fin 2) from h), show a = 2 by linarith]
    rw [e]
    exact fin 2 (by norm_num) f64_two
  have e50 : A.rnd ((50 : ℕ) : ℝ) = .fin 50 := by rw [nat_exact hA (by norm_num)]; norm_num
  have top : ∀ x : ℝ, 0 < x → A.mul .pinf (.fin x) = .pinf := by
    intro x hx
    simp [Arith.mul, Dbl.mul, Dbl.infTimes, Arith.fl, hx]
  unfold FCar1.scaledInvChi
  rw [e50]
  rcases c0.lt_or_eq with h | h
  · rw [fl_div _ _ h.ne']
    rcases rnd_nonneg hA (x := 1 / c) (by positivity) with e | ⟨r, e, -, r0⟩
    · rw [e, top _ (by norm_num)]; exact inf
    · rw [e, fl_mul]
      rcases rnd_nonneg hA (x := r * 50) (by positivity) with e | ⟨r', e, F, r0'⟩
      · rw [e]; exact inf
      · rw [e]; exact fin _ r0' F
  · rw [← h]
    have : A.div (.fin 1) (.fin 0) = .pinf := by simp [Arith.div, Dbl.div, Dbl.infTimes, Arith.fl]
    rw [this, top _ (by norm_num)]
    exact inf

/-! ### the vector -/

/-- what is drawn, `l` being the logarithm of the rate before it is compared with the largest frequency `hi` -/
structure FDrawn (A : Arith) (n : ℕ) (v m g c z u sd sc mu l : ℝ) : Prop where
  f1 : F64 sd
  f2 : F64 sc
  f3 : F64 mu
  f4 : F64 l
  pos : 0 < sd
  sd : |sd - startStdev n v c| ≤ 2 ^ (-49 : ℤ) * startStdev n v c
  sc1 : 1 / 2 ≤ sc
  sc2 : sc ≤ 2
  mu1 : |mu| ≤ 2 ^ (300 : ℤ)
  mu : |mu - (m + z * (startStdev n v c / n))| ≤ 2 ^ (-48 : ℤ) * (|m| + |z| * (startStdev n v c / n) + 2 ^ (-1000 : ℤ))
  l1 : |l| ≤ 1024
  l : Accurate A → |l - -Real.log (g * u)| ≤ 2 ^ (-49 : ℤ) * (1 + |Real.log (g * u)|)

theorem called_maxFreq {s s' : FCar1} (hc : Called A s s') : s'.maxFreq = s.maxFreq := by
  induction hc with
  | none => rfl
  | call _ hc ih =>
    rw [← ih]
    unfold FCar1.logDensity at hc
    obtain ⟨ok, -, hc⟩ := bind_ok hc
    split at hc
    · cases hc; rfl
    · obtain ⟨_, -, hc⟩ := bind_ok hc
      obtain ⟨_, -, hc⟩ := bind_ok hc
      obtain ⟨_, -, hc⟩ := bind_ok hc
      obtain ⟨_, -, hc⟩ := bind_ok hc
      obtain ⟨_, -, hc⟩ := bind_ok hc
      obtain ⟨_, -, hc⟩ := bind_ok hc
      obtain ⟨_, -, hc⟩ := bind_ok hc
      cases hc
      rfl

theorem maxFreq_f64 (hA : IsBinary64 A) {ts ys es : List ℝ} {B : ℝ} {s : FCar1} (h : FObj A ts ys es B s) {hi : ℝ} (e : s.maxFreq = .fin hi) : F64 hi := by
  obtain ⟨i, -, e'⟩ := h.hiV
  rw [e'] at e
  unfold Arith.div Arith.fl at e
  split at e
  · exact hA.range _ _ e
  · next hn => rw [e] at hn; exact absurd rfl (hn hi)

theorem start_num (hA : IsBinary64 A) {ts ys es : List ℝ} {B : ℝ} {s : FCar1} (hm : MildTimes ts) (hy : ys.length = ts.length) (h : FObj A ts ys es B s)
    {lib : StartLib} {d : StartDraws} {v m g c z u c50 : ℝ} (hi : StartInput A lib ts ys d v m g c z u c50) :
    ∃ sd sc mu l hi, s.maxFreq = .fin hi ∧ F64 hi ∧ s.drawStart A lib d = .ok ([sd, sc, mu, min l hi].map .fin) ∧ FDrawn A ts.length v m g c z u sd sc mu l := by
  have h2 := hm.two
  have hx := hm.max
  have c1 : ((ts.length - 1 : ℕ) : ℝ) = ts.length - 1 := by rw [Nat.cast_sub (by omega)]; simp
  obtain ⟨sd, esd, Fsd, rsd, S1, S2⟩ := sd_num hA hi.v_lo hi.v_hi hi.c_lo hi.c_hi (k := ts.length - 1) (by omega) (by omega)
  obtain ⟨mu, emu, Fmu, mu1, mu2⟩ := mu_num hA rsd S1 S2 hi.z_hi hi.m_hi (n := ts.length) (by omega) (by omega)
  obtain ⟨l, el, Fl, l1, l2⟩ := lo_num hA hi.g_lo hi.g_hi hi.u_lo hi.u_hi
  obtain ⟨sc, esc, Fsc, sc1, sc2⟩ := scale_num hA hi.c50_lo
  obtain ⟨hf, ehf, -⟩ := h.hi
  obtain ⟨ds, eds, -⟩ := diffs_num hA hm
  rw [c1] at rsd S1 S2 mu2
  have S0 : 0 < √(v / c * (ts.length - 1 : ℝ)) := lt_of_lt_of_le (by positivity) S1
  refine ⟨sd, sc, mu, l, hf, ehf, maxFreq_f64 hA h ehf, ?_, Fsd, Fsc, Fmu, Fl, rel_pos rsd S0 ?_, ?_, sc1, sc2, mu1, mu2, l1, l2⟩
  · have ly : s.y.length = ts.length := by rw [h.y]; simpa using hy
    unfold FCar1.drawStart
    rw [h.time, eds, ly, h.y, hi.var, hi.mean, hi.chi, hi.norm, hi.unif, hi.chi50, res_bind_ok, hi.median _ eds, esd, emu, el]
    dsimp only
    rw [esc, ehf, min_fin]
    rfl
  · have := uu_small; linarith
  · rw [show (2 : ℝ) ^ (-49 : ℤ) = 8 * uu by unfold uu; norm_num]
    exact rsd.mono S0.le (by have := uu_pos; linarith)

/-! ### frequencies -/

theorem span_num {ts : List ℝ} (hm : MildTimes ts) : 2 ^ (-300 : ℤ) ≤ ts.getD (ts.length - 1) 0 - ts.getD 0 0 ∧
    ts.getD (ts.length - 1) 0 - ts.getD 0 0 ≤ 2 ^ (300 : ℤ) ∧ ∀ i, i + 1 < ts.length → ts.getD (i + 1) 0 - ts.getD i 0 ≤ ts.getD (ts.length - 1) 0 - ts.getD 0 0 := by
  have h2 := hm.two
  have pos : (0 : ℝ) < 2 ^ (-300 : ℤ) := by positivity
  have mem : ∀ i, i < ts.length → ts.getD i 0 ∈ ts := fun i hi => by rw [List.getD_eq_getElem _ _ hi]; exact List.getElem_mem _
  have hord : ∀ k i, i + k < ts.length → ts.getD i 0 ≤ ts.getD (i + k) 0 := by
    intro k i
    induction k with
    | zero => exact fun _ => le_rfl
    | succ k ih => exact fun hk => (ih (by omega)).trans ((le_add_of_nonneg_right pos.le).trans (hm.gap (i + k) hk))
  have key : ∀ i, i + 1 < ts.length → ts.getD (i + 1) 0 - ts.getD i 0 ≤ ts.getD (ts.length - 1) 0 - ts.getD 0 0 := by
    intro i hi
    have a := hord i 0 (by omega)
    have b := hord (ts.length - 1 - (i + 1)) (i + 1) (by omega)
    rw [show i + 1 + (ts.length - 1 - (i + 1)) = ts.length - 1 by omega] at b
    rw [zero_add] at a
    linarith
  refine ⟨?_, hm.span _ (mem _ (by omega)) _ (mem _ (by omega)), key⟩
  have := hm.gap 0 (by omega)
  have := key 0 (by omega)
  linarith

/-- one over a difference of times -/
theorem recip_num (hA : IsBinary64 A) {a b : ℝ} (h1 : 2 ^ (-300 : ℤ) ≤ a - b) (h2 : a - b ≤ 2 ^ (300 : ℤ)) :
    ∃ r, A.div (.fin 1) (A.sub (.fin a) (.fin b)) = .fin r ∧ RelErr r (1 / (a - b)) (6 * uu) := by
  have u0 := uu_pos
  have us := uu_small
  have x0 : 0 < a - b := lt_of_lt_of_le (by positivity) h1
  obtain ⟨x, ex, -, hx⟩ := (RelErr.refl (a - b)).rnd hA (by norm_num) ((pw_le _ _ (by norm_num)).trans h1) (h2.trans (pw_le _ _ (by norm_num)))
  have xp : 0 < x := rel_pos hx x0 (by linarith)
  obtain ⟨b1, b2⟩ := hx.bounds
  have hr : RelErr (1 / x) (1 / (a - b)) (4 * uu) := by
    unfold RelErr
    rw [abs_le]
    have e : 4 * uu * (1 / (a - b)) = 4 * uu / (a - b) := by ring
    rw [e]
    constructor
    · rw [neg_le_sub_iff_le_add, ← sub_le_iff_le_add, ← sub_div, div_le_div_iff₀ x0 xp]
      nlinarith
    · rw [sub_le_iff_le_add, ← add_div, div_le_div_iff₀ xp x0]
      nlinarith
  have pp : (2 : ℝ) ^ (300 : ℤ) * 2 ^ (-300 : ℤ) = 1 := by rw [pw_mul 300 (-300) 0 (by norm_num)]; norm_num
  have r1 : (2 : ℝ) ^ (-300 : ℤ) ≤ 1 / (a - b) := by
    rw [le_div_iff₀ x0, ← pp, mul_comm]; exact mul_le_mul_of_nonneg_right h2 (by positivity)
  have r2 : 1 / (a - b) ≤ (2 : ℝ) ^ (300 : ℤ) := by
    rw [div_le_iff₀ x0, ← pp]; exact mul_le_mul_of_nonneg_left h1 (by positivity)
  obtain ⟨r, er, -, hr'⟩ := hr.rnd hA (by linarith) ((pw_le _ _ (by norm_num)).trans r1) (r2.trans (pw_le _ _ (by norm_num)))
  refine ⟨r, ?_, hr'.mono (by positivity) (by linarith)⟩
  rw [fl_sub, ex, fl_div _ _ xp.ne', er]

theorem log_range {x : ℝ} (h1 : 2 ^ (-300 : ℤ) ≤ x) (h2 : x ≤ 2 ^ (306 : ℤ)) : |Real.log x| ≤ 250 := by
  have x0 : 0 < x := lt_of_lt_of_le (by positivity) h1
  have a := Real.log_le_log (by positivity) h1
  have b := Real.log_le_log x0 h2
  rw [Real.log_zpow] at a b
  have c := Real.log_two_lt_d9
  have c' := Real.log_two_gt_d9
  rw [abs_le]
  push_cast at a b
  constructor <;> linarith

theorem gu_range {g u : ℝ} (g1 : 2 ^ (-300 : ℤ) ≤ g) (g2 : g ≤ 2 ^ (300 : ℤ)) (u1 : 1 ≤ u) (u2 : u ≤ 50) :
    2 ^ (-300 : ℤ) ≤ g * u ∧ g * u ≤ 2 ^ (306 : ℤ) := by
  have g0 : 0 < g := lt_of_lt_of_le (by positivity) g1
  refine ⟨g1.trans (le_mul_of_one_le_right g0.le u1), ?_⟩
  rw [← pw_mul 300 6 306 (by norm_num)]
  exact mul_le_mul g2 (u2.trans (by norm_num)) (by linarith) (by positivity)

/-- the logarithm is never above a frequency that is not below it -/
theorem log_below {x d l r : ℝ} (hx : |Real.log x| ≤ 250) (d0 : 0 < d) (hd : d ≤ x) (hl : |l - -Real.log x| ≤ 2 ^ (-49 : ℤ) * (1 + |Real.log x|))
    (hr : RelErr r (1 / d) (6 * uu)) : l ≤ r := by
  have us := uu_small
  have u0 := uu_pos
  obtain ⟨b1, -⟩ := hr.bounds
  have e1 : l ≤ -Real.log x + 1 / 100 := by
    have := (abs_le.mp hl).2
    norm_num at this
    linarith
  have e2 : -Real.log x ≤ Real.log (1 / d) := by
    rw [one_div, Real.log_inv]
    exact neg_le_neg (Real.log_le_log d0 hd)
  have p0 : 0 < 1 / d := by positivity
  have e3 : Real.log (1 / d) ≤ 1 / d / 2 - 1 + 7 / 10 := by
    have := Real.log_le_sub_one_of_pos (show 0 < 1 / d / 2 by positivity)
    rw [Real.log_div p0.ne' (by norm_num)] at this
    have := Real.log_two_lt_d9
    linarith
  nlinarith

/-- the rate -/
theorem rate_num (hacc : Accurate A) (hE : ExpFinite A) {x l : ℝ} (x1 : 2 ^ (-300 : ℤ) ≤ x) (x2 : x ≤ 2 ^ (306 : ℤ)) (Fl : F64 l)
    (hl : |l - -Real.log x| ≤ 2 ^ (-49 : ℤ) * (1 + |Real.log x|)) :
    ∃ w, A.exp (.fin l) = .fin w ∧ (1 - 9 / 10 * 2 ^ (-40 : ℤ)) / x ≤ w ∧ w ≤ (1 + 9 / 10 * 2 ^ (-40 : ℤ)) / x := by
  have x0 : 0 < x := lt_of_lt_of_le (by positivity) x1
  have hx := log_range x1 x2
  obtain ⟨a1, a2⟩ := abs_le.mp hx
  obtain ⟨t, ht⟩ : ∃ t, t = l - -Real.log x := ⟨_, rfl⟩
  rw [← ht] at hl
  have ht' : |t| ≤ 251 / 2 ^ 49 := by
    refine hl.trans ?_
    norm_num
    linarith
  obtain ⟨t1, t2⟩ := abs_le.mp ht'
  have el : l = -Real.log x + t := by rw [ht]; ring
  have l6 : l ≤ 600 := by rw [el]; norm_num at t2; linarith
  obtain ⟨w, ew, w1⟩ := hE l l6
  have k := hacc.exp l w Fl ew w1
  have ex : Real.exp l = Real.exp t / x := by
    rw [el, Real.exp_add, Real.exp_neg, Real.exp_log x0]; ring
  have e1 : 1 - 251 / 2 ^ 49 ≤ Real.exp t := by have := Real.add_one_le_exp t; linarith
  have e2 : Real.exp t ≤ 1 + 252 / 2 ^ 49 := by
    have h1 := Real.add_one_le_exp (-t)
    have h2 : Real.exp t * Real.exp (-t) = 1 := by rw [← Real.exp_add]; simp
    have h3 := Real.exp_pos t
    norm_num at t2 ⊢
    by_contra hc
    push Not at hc
    nlinarith
  have tiny : (2 : ℝ) ^ (-1074 : ℤ) ≤ 2 ^ (-52 : ℤ) * (1 / x) := by
    rw [mul_one_div, le_div_iff₀ x0]
    refine (mul_le_mul_of_nonneg_left x2 (by positivity)).trans ?_
    rw [pw_mul (-1074) 306 (-768) (by norm_num)]
    exact pw_le _ _ (by norm_num)
  refine ⟨w, ew, ?_⟩
  rw [ex] at k
  obtain ⟨k1, k2⟩ := abs_le.mp k
  have i0 : 0 < 1 / x := by positivity
  rw [div_eq_mul_one_div] at k1 k2 ⊢
  rw [div_eq_mul_one_div (1 + _)]
  generalize Real.exp t = q at *
  generalize 1 / x = p at *
  generalize (2 : ℝ) ^ (-1074 : ℤ) = ε at *
  have q1 := mul_le_mul_of_nonneg_right e1 i0.le
  have q2 := mul_le_mul_of_nonneg_right e2 i0.le
  norm_num at k1 k2 q1 q2 tiny ⊢
  constructor <;> linarith

end Verif.Theory
