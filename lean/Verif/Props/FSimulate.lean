import Verif.Theory.FSimExact
import Verif.Props.FPredict

/-!
`KalmanFilter1::Simulate` in double precision: C94.
-/

namespace Verif.Props

open Verif.Model Verif.Spec Verif.Theory
open scoped Classical

/-- **C94, return.** Any arithmetic, any numbers: on an object whose vectors belong together, and so on every object the constructor
returns, `Simulate` returns whenever no requested time is NaN. It returns one value per requested time, and gives the object back with
the data and parameters it had and vectors that belong together. -/
theorem C94_returns {A : Arith} {s : FKF1} (h : Whole A s) {times : List Dbl} (hn : Dbl.nan ∉ times) (zs : ℕ → Dbl) :
    ∃ s' xs, FKF1.simulate A s times zs = .ok (s', xs) ∧ xs.length = times.length ∧ s'.time = s.time ∧ s'.dt = s.dt ∧ s'.y = s.y ∧
      s'.yerr = s.yerr ∧ s'.sigsqr = s.sigsqr ∧ s'.omega = s.omega ∧ Whole A s' := by
  obtain ⟨s', xs, s1, e, l, k, -⟩ := simulate_some h hn zs
  exact ⟨s', xs, e, l, k.time, k.dt, k.y, k.yerr, k.sigsqr, k.omega, Whole.same h k⟩

/-- **C94, constructor.** Data of equal lengths: the constructor, if it returns, returns an object whose vectors belong together. -/
theorem C94_new_whole {A : Arith} {srt : List Dbl → List ℕ} {time y yerr : List Dbl} {sigsqr omega : Dbl} {s : FKF1} (hy : y.length = time.length)
    (he : yerr.length = time.length) (h : FKF1.new A srt time y yerr sigsqr omega = .ok s) : Whole A s :=
  new_whole hy he h

/-- **C94, NaN request.** A requested time that is NaN is rejected, before anything is changed. -/
theorem C94_rejects (A : Arith) (s : FKF1) {times : List Dbl} (hn : Dbl.nan ∈ times) (zs : ℕ → Dbl) :
    FKF1.simulate A s times zs = .error .bounds := by
  unfold FKF1.simulate FKF1.sortTimes
  rw [if_pos hn]
  rfl

/-- **C94, earlier calls.** Any arithmetic, any numbers: whatever calls of `Filter`, `Predict` and `Simulate` came before, `Filter`, `Predict` and
`Simulate` give the same numbers as on the fresh object. -/
theorem C94_repeatable {A : Arith} {s s1 : FKF1} (hw : Whole A s) (h : Used A s s1) :
    (∀ x r, (∃ s2, FKF1.predict A s x = .ok (s2, r)) ↔ ∃ s2, FKF1.predict A s1 x = .ok (s2, r)) ∧
    (∀ times zs xs, (∃ s2, FKF1.simulate A s times zs = .ok (s2, xs)) ↔ ∃ s2, FKF1.simulate A s1 times zs = .ok (s2, xs)) ∧
    (∀ m v, (∃ s2, FKF1.filter A s = .ok s2 ∧ s2.mean = m ∧ s2.var = v) ↔ ∃ s2, FKF1.filter A s1 = .ok s2 ∧ s2.mean = m ∧ s2.var = v) := by
  have k := Used.ksame hw h
  refine ⟨fun x r => ⟨fun ⟨_, e⟩ => predict_pre k e, fun ⟨_, e⟩ => predict_pre k.symm e⟩,
    fun times zs xs => ⟨fun ⟨_, e⟩ => simulate_pre k e, fun ⟨_, e⟩ => simulate_pre k.symm e⟩, fun m v => ⟨?_, ?_⟩⟩
  · rintro ⟨_, e, rfl, rfl⟩
    exact filter_pre k hw e
  · rintro ⟨_, e, rfl, rfl⟩
    exact filter_pre k.symm (Whole.same hw k) e

/-- **C94, exact arithmetic.** With nothing rounded the floating-point model is the model in real numbers: whenever the constructor
and `Simulate` return in real numbers they return the same numbers. -/
theorem C94_exact_refines {srt : List ℝ → List ℕ} {srt' : List Dbl → List ℕ} (hs : ∀ l : List ℝ, srt' (l.map .fin) = srt l) {ts ys es : List ℝ}
    {sigsqr w : ℝ} {times xs : List ℝ} {zs : ℕ → ℝ} {s s' : KF1} (h : KF1.new srt ts ys es sigsqr w = .ok s)
    (h' : Kalman.simulate s times zs = .ok (s', xs)) :
    ∃ f f', FKF1.new Arith.exact srt' (ts.map .fin) (ys.map .fin) (es.map .fin) (.fin sigsqr) (.fin w) = .ok f ∧
      FKF1.simulate Arith.exact f (times.map .fin) (fun k => .fin (zs k)) = .ok (f', xs.map .fin) := by
  obtain ⟨f', e⟩ := simulate_lift h' .nan .nan
  exact ⟨_, f', new_lift hs h, e⟩

/-- **C94, spread.** Any arithmetic, any numbers: once a simulated value is NaN, all later ones are. -/
theorem C94_spread {A : Arith} {s s' : FKF1} (h : Whole A s) {times : List Dbl} {zs : ℕ → Dbl} {xs : List Dbl}
    (e : FKF1.simulate A s times zs = .ok (s', xs)) {k l : ℕ} (hk : xs[k]? = some .nan) (hkl : k ≤ l) (hl : l < xs.length) :
    xs[l]? = some .nan := by
  obtain ⟨_, _, s1, e', -, -, g⟩ := simulate_some h (fun hn => by rw [C94_rejects A s hn zs] at e; cases e) zs
  rw [e] at e'
  cases e'
  exact simLoop_spread h g hk hkl hl

/-- **C94, NaN data.** Any arithmetic: a NaN among the data makes every simulated value NaN. -/
theorem C94_nan_data {A : Arith} {s s' : FKF1} (h : Whole A s) (hy : Dbl.nan ∈ s.y) {times : List Dbl} {zs : ℕ → Dbl} {xs : List Dbl}
    (e : FKF1.simulate A s times zs = .ok (s', xs)) : ∀ x ∈ xs, x = .nan := by
  obtain ⟨_, _, s1, e', -, -, g⟩ := simulate_some h (fun hn => by rw [C94_rejects A s hn zs] at e; cases e) zs
  rw [e] at e'
  cases e'
  exact simLoop_all_nan h hy g

lemma sort_fin {times so : List ℝ} (h1 : so.Perm times) (h2 : so.Pairwise (· ≤ ·)) :
    (times.map Dbl.fin).mergeSort (fun a b => decide ¬ b.lt a) = so.map .fin := by
  have e := sort_lift times
  unfold FKF1.sortTimes at e
  rw [if_neg (by simp)] at e
  injection e with e
  rw [e]
  congr 1
  refine List.Perm.eq_of_pairwise (fun a b _ _ h h' => le_antisymm h h') ?_ h2 ((List.mergeSort_perm times _).trans h1.symm)
  exact List.pairwise_mergeSort' (fun a b : ℝ => a ≤ b) times

lemma nan_nmem (l : List ℝ) : Dbl.nan ∉ l.map Dbl.fin := by simp

/-- **C94, negation: a time asked for twice.** Finite requested times, `so` the same in order. If the `k`-th and the next are equal, the values from
there to the end are all NaN. -/
theorem C94_twice_nan {A : Arith} (hA : IsBinary64 A) (he : A.exp (.fin 0) = .fin 1) {s : FKF1} (h : Whole A s) {w : ℝ} (hw : s.omega = .fin w)
    {times so : List ℝ} (h1 : so.Perm times) (h2 : so.Pairwise (· ≤ ·)) {k : ℕ} {x : ℝ} (hk : so[k]? = some x) (hk' : so[k + 1]? = some x)
    (zs : ℕ → Dbl) :
    ∃ s' xs, FKF1.simulate A s (times.map .fin) zs = .ok (s', xs) ∧ xs.length = times.length ∧
      ∀ l, k < l → l < times.length → xs[l]? = some .nan := by
  obtain ⟨s', xs, s1, e, hl, -, g⟩ := simulate_some h (nan_nmem times) zs
  rw [sort_fin h1 h2] at g
  rw [List.length_map] at hl
  refine ⟨s', xs, e, hl, fun l h1 h2 => simLoop_spread h g (k := k + 1) ?_ h1 (by omega)⟩
  exact simLoop_dup hA he h hw g (by rw [List.getElem?_map, hk]; rfl) (by rw [List.getElem?_map, hk']; rfl)

/-- **C94, negation: two times close together.** The decay factor between the `k`-th and the next requested time is rounded to 1, no observation
lies between them, and there is an observation later. Then the values from there to the end are all NaN. -/
theorem C94_close_nan {A : Arith} (hA : IsBinary64 A) (he : A.exp (.fin 0) = .fin 1) {s : FKF1} (h : Whole A s) {w : ℝ} (hw : s.omega = .fin w)
    {obs : List ℝ} (ho : s.time = obs.map .fin) {times so : List ℝ} (h1 : so.Perm times) (h2 : so.Pairwise (· ≤ ·)) {k : ℕ} {x x' : ℝ}
    (hk : so[k]? = some x) (hk' : so[k + 1]? = some x') (hd : decayTo A w x x' = .fin 1) (hno : ∀ a ∈ obs, ¬ (x ≤ a ∧ a < x'))
    (hex : ∃ a ∈ obs, x' ≤ a) (zs : ℕ → Dbl) :
    ∃ s' xs, FKF1.simulate A s (times.map .fin) zs = .ok (s', xs) ∧ xs.length = times.length ∧
      ∀ l, k < l → l < times.length → xs[l]? = some .nan := by
  obtain ⟨s', xs, s1, e, hl, -, g⟩ := simulate_some h (nan_nmem times) zs
  rw [sort_fin h1 h2] at g
  rw [List.length_map] at hl
  refine ⟨s', xs, e, hl, fun l h1' h2' => simLoop_spread h g (k := k + 1) ?_ h1' (by omega)⟩
  exact simLoop_near hA he h2 h hw g hk hk' ho hno hex hd

lemma scan_at {l : List ℝ} (h : l.Pairwise (· < ·)) {i : ℕ} {x : ℝ} (hi : l[i]? = some x) : FKF1.scan (.fin x) (l.map .fin) = i := by
  induction l generalizing i with
  | nil => simp at hi
  | cons a l ih =>
    have hp := List.pairwise_cons.mp h
    cases i with
    | zero =>
      simp only [List.getElem?_cons_zero, Option.some.injEq] at hi
      subst hi
      rw [List.map_cons, FKF1.scan, if_neg (by simp [Dbl.gt, Dbl.lt])]
    | succ i =>
      rw [List.getElem?_cons_succ] at hi
      rw [List.map_cons, FKF1.scan, if_pos (show (Dbl.fin x).gt (.fin a) from hp.1 x (List.mem_of_getElem? hi)), ih hp.2 hi]

/-- **C94, negation: the time of an exact observation.** If the `k`-th requested time is the time of an observation whose measurement error is 0,
the values from there to the end are all NaN. -/
theorem C94_observed_nan {A : Arith} (hA : IsBinary64 A) (he : A.exp (.fin 0) = .fin 1) {s : FKF1} (h : Whole A s) {w : ℝ} (hw : s.omega = .fin w)
    {obs : List ℝ} (ho : s.time = obs.map .fin) (hinc : obs.Pairwise (· < ·)) {times so : List ℝ} (h1 : so.Perm times) (h2 : so.Pairwise (· ≤ ·))
    {k i : ℕ} {x : ℝ} (hk : so[k]? = some x) (hi : obs[i]? = some x) (hz : s.yerr[i]? = some (.fin 0)) (zs : ℕ → Dbl) :
    ∃ s' xs, FKF1.simulate A s (times.map .fin) zs = .ok (s', xs) ∧ xs.length = times.length ∧
      ∀ l, k ≤ l → l < times.length → xs[l]? = some .nan := by
  obtain ⟨s', xs, s1, e, hl, -, g⟩ := simulate_some h (nan_nmem times) zs
  rw [sort_fin h1 h2] at g
  rw [List.length_map] at hl
  refine ⟨s', xs, e, hl, fun l h1' h2' => simLoop_spread h g (k := k) ?_ h1' (by omega)⟩
  have hs : FKF1.scan (.fin x) s.time = i := by rw [ho]; exact scan_at hinc hi
  refine simLoop_observed hA he h2 h hw g hk ho ?_ ?_
  · rw [hs, ho, List.getElem?_map, hi]; rfl
  · rw [hs]; exact hz

lemma predict_f64 {A : Arith} (hA : IsBinary64 A) {s s' : FKF1} {t m : Dbl} {v : ℝ} (h : FKF1.predict A s t = .ok (s', (m, .fin v))) : F64 v := by
  unfold FKF1.predict at h
  obtain ⟨ip, -, h⟩ := bind_ok h
  obtain ⟨s1, -, h⟩ := bind_ok h
  obtain ⟨s2, -, h⟩ := bind_ok h
  obtain ⟨⟨m1, v1⟩, e1, h⟩ := bind_ok h
  dsimp only at h
  split at h
  · injection h with h
    injection h with _ h
    injection h with h3 h4
    subst h4
    unfold FKF1.predictPast at e1
    split at e1
    · injection e1 with e1
      injection e1 with _ e1
      exact fl_f64 hA e1
    · obtain ⟨_, -, e1⟩ := bind_ok e1
      obtain ⟨_, -, e1⟩ := bind_ok e1
      obtain ⟨_, -, e1⟩ := bind_ok e1
      obtain ⟨_, -, e1⟩ := bind_ok e1
      obtain ⟨_, -, e1⟩ := bind_ok e1
      injection e1 with e1
      injection e1 with _ e1
      exact fl_f64 hA e1
  · obtain ⟨_, -, h⟩ := bind_ok h
    obtain ⟨_, -, h⟩ := bind_ok h
    obtain ⟨⟨_, _⟩, -, h⟩ := bind_ok h
    injection h with h
    injection h with _ h
    injection h with h3 h4
    exact fl_f64 hA h4

lemma draw_ne_nan {A : Arith} (hA : IsBinary64 A) {m v : ℝ} (z : ℝ) (hv : F64 v) (h0 : 0 ≤ v) :
    A.add (A.mul (.fin z) (A.sqrt (.fin v))) (.fin m) ≠ .nan := by
  have hb : √v ≤ max 1 v := by
    rcases le_total v 1 with h | h
    · exact (Real.sqrt_le_one.mpr h).trans (le_max_left _ _)
    · refine le_trans ?_ (le_max_right _ _)
      rw [Real.sqrt_le_left h0]
      nlinarith
  have fm : F64 (max 1 v) := by
    rcases max_choice 1 v with h | h <;> rw [h]
    · exact f64_one
    · exact hv
  obtain ⟨r, er, -⟩ := rnd_between hA f64_zero fm (Real.sqrt_nonneg v) hb
  rw [hA.sqrt_fin v h0, er, fl_mul]
  cases h : A.rnd (z * r) with
  | fin q => rw [fl_add]; exact hA.no_nan _
  | pinf => simp [Arith.add, Dbl.add, Arith.fl]
  | ninf => simp [Arith.add, Dbl.add, Arith.fl]
  | nan => exact absurd h (hA.no_nan _)

/-- **C94, the first value.** Data and parameters of moderate size, measurement errors all positive, and any finite standard normal
draws: the first simulated value, for the smallest requested time `x`, is not NaN, provided that `x` is not between two observations with a decay
factor since the preceding one that is rounded to 1.

Missing: the same for the later values, which are predicted from the earlier ones. For narrower ranges of data and draws `C94_all_finite` has
all values, when the requested times are spaced. It is false where a requested time occurs twice (`C94_twice_nan`). -/
theorem C94_first_partial {A : Arith} (hA : IsBinary64 A) {ts ys es : List ℝ} {sigsqr w : ℝ} (h : MildPred ts ys es sigsqr w)
    (srt : List Dbl → List ℕ) {times : List ℝ} {x : ℝ} (hx : x ∈ times) (hmin : ∀ a ∈ times, x ≤ a) {i : ℕ} (hf : Follows ts x i)
    (hd : 0 < i → i < ts.length → decayTo A w (ts.getD (i - 1) 0) x ≠ .fin 1) (zs : ℕ → ℝ) :
    ∃ s, FKF1.new A srt (ts.map .fin) (ys.map .fin) (es.map .fin) (.fin sigsqr) (.fin w) = .ok s ∧ ∀ s1, Used A s s1 →
      ∃ s' xs v, FKF1.simulate A s1 (times.map .fin) (fun k => .fin (zs k)) = .ok (s', v :: xs) ∧ v ≠ .nan := by
  obtain ⟨s, e, hs⟩ := C91_predict_finite_partial hA h srt
  have hw : Whole A s := new_whole (by simp [h.leny]) (by simp [h.lene]) e
  refine ⟨s, e, fun s1 hu => ?_⟩
  obtain ⟨p1, p2⟩ := hs s .none x i hf
  have hp : ∃ s2 m v, FKF1.predict A s (.fin x) = .ok (s2, (.fin m, .fin v)) ∧ 0 ≤ v := by
    rcases hf.le.lt_or_eq with hi | hi
    · obtain ⟨s2, m, v, q1, q2⟩ := p1 hi (fun h0 => hd h0 hi)
      exact ⟨s2, m, v, q1, q2.le⟩
    · obtain ⟨s2, m, v, q1, q2, -⟩ := p2 hi
      exact ⟨s2, m, v, q1, q2⟩
  obtain ⟨s2, m, v, q1, q2⟩ := hp
  obtain ⟨s', xs, s3, g, hl, -, g'⟩ := simulate_some hw (nan_nmem times) (fun k => .fin (zs k))
  obtain ⟨so, h1, h2⟩ : ∃ so : List ℝ, so.Perm times ∧ so.Pairwise (· ≤ ·) :=
    ⟨_, List.mergeSort_perm times fun a b => decide (a ≤ b), List.pairwise_mergeSort' (fun a b : ℝ => a ≤ b) times⟩
  rw [sort_fin h1 h2] at g'
  cases so with
  | nil => exact absurd (h1.mem_iff.mpr hx) (by simp)
  | cons a so =>
    have ha : a = x := by
      refine le_antisymm ?_ (hmin a (h1.mem_iff.mp (List.mem_cons_self)))
      rcases List.mem_cons.mp (h1.mem_iff.mpr hx) with h | h
      · exact h.ge
      · exact (List.pairwise_cons.mp h2).1 x h
    subst ha
    rw [List.map_cons] at g'
    unfold FKF1.simLoop at g'
    obtain ⟨⟨s4, x1⟩, e1, g'⟩ := bind_ok g'
    obtain ⟨⟨s5, xs'⟩, e2, g'⟩ := bind_ok g'
    injection g' with g'
    injection g' with _ g'
    subst g'
    obtain ⟨_, _, _, _, _, r1, r2, r3, -⟩ := simStep_some hw (.fin a) (.fin (zs 0))
    rw [q1] at r1
    injection r1 with r1
    injection r1 with _ r1
    injection r1 with r1 r1'
    subst r1 r1'
    rw [r2] at e1
    injection e1 with e1
    injection e1 with _ e1
    obtain ⟨s6, g6⟩ := simulate_pre (Used.ksame hw hu) g
    refine ⟨s6, xs', x1, g6, ?_⟩
    rw [← e1, r3]
    exact draw_ne_nan hA (zs 0) (predict_f64 hA q1) q2

/-! Two observations, at 0 and 1, with unit errors. -/

lemma fs_new (srt : List Dbl → List ℕ) {e : ℝ} : ∃ s, FKF1.new (nearest EvenBelow) srt [.fin 0, .fin 1] [.fin 1, .fin 2] [.fin e, .fin e] (.fin 2) (.fin 1) = .ok s ∧
    Whole (nearest EvenBelow) s ∧ s.omega = .fin 1 ∧ s.time = ([0, 1] : List ℝ).map .fin ∧ s.yerr = [.fin e, .fin e] := by
  have hd : FKF1.diffs (nearest EvenBelow) [.fin 0, .fin 1] = .ok [.fin 1] := by
    unfold FKF1.diffs
    rw [if_neg (by simp)]
    simp [fl_sub, C72_nearest.id 1 f64_one]
  have e : FKF1.new (nearest EvenBelow) srt [.fin 0, .fin 1] [.fin 1, .fin 2] [.fin e, .fin e] (.fin 2) (.fin 1) = .ok
      { mean := [.fin 0, .fin 0], var := [.fin 0, .fin 0], time := [.fin 0, .fin 1], dt := [.fin 1], y := [.fin 1, .fin 2], yerr := [.fin e, .fin e],
        sigsqr := .fin 2, omega := .fin 1, cur := 0, yconst := .nan, yslope := .nan } := by
    unfold FKF1.new FKF1.newData FKF1.initSort
    dsimp only
    rw [hd, res_bind_ok, if_neg (by simp [Dbl.lt]), show (pure _ : Res FKF1) = Except.ok _ from rfl, res_bind_ok]
    unfold FKF1.initDedup
    dsimp only
    rw [if_neg (by simp)]
    rfl
  exact ⟨_, e, new_whole (by simp) (by simp) e, rfl, rfl, rfl⟩

lemma near_exp0 : (nearest EvenBelow).exp (.fin 0) = .fin 1 := by
  show roundNearest EvenBelow (Real.exp 0) = .fin 1
  rw [Real.exp_zero]
  exact C72_nearest.id 1 f64_one

lemma fs_decay : decayTo (nearest EvenBelow) 1 (2 ^ (-61 : ℤ)) (2 ^ (-60 : ℤ)) = .fin 1 := by
  have hA := C72_nearest
  have f61 : F64 (2 ^ (-61 : ℤ)) := f64_zpow (-61) (by norm_num) (by norm_num)
  have hs : (2 : ℝ) ^ (-60 : ℤ) - 2 ^ (-61 : ℤ) = 2 ^ (-61 : ℤ) := by norm_num
  unfold decayTo
  rw [fl_sub, hs, hA.id _ f61, neg_fin, fl_mul, mul_one, hA.id _ (f64_neg f61)]
  refine near_one (tie := EvenBelow) ?_ (Real.exp_le_one_iff.mpr (by norm_num))
  have := Real.add_one_le_exp (-(2 : ℝ) ^ (-61 : ℤ))
  refine lt_of_lt_of_le ?_ this
  norm_num

/-- **C94, witness.** Observations at times 0 and 1, unit errors, unit rate, process variance 1, and requests at `2^-60` and `2^-61`. In
real numbers the code returns, whatever the draws, two numbers; in double precision it returns two values, the second of which is NaN. -/
theorem C94_witness (srt : List ℝ → List ℕ) (srt' : List Dbl → List ℕ) (zs : ℕ → ℝ) :
    (∃ s s' a b, KF1.new srt [0, 1] [1, 2] [1, 1] 2 1 = .ok s ∧ Kalman.simulate s [2 ^ (-60 : ℤ), 2 ^ (-61 : ℤ)] zs = .ok (s', [a, b])) ∧
    (∃ s s' a, FKF1.new (nearest EvenBelow) srt' [.fin 0, .fin 1] [.fin 1, .fin 2] [.fin 1, .fin 1] (.fin 2) (.fin 1) = .ok s ∧
      FKF1.simulate (nearest EvenBelow) s [.fin (2 ^ (-60 : ℤ)), .fin (2 ^ (-61 : ℤ))] (fun k => .fin (zs k)) = .ok (s', [a, .nan])) := by
  constructor
  · have hmono : StrictMono fpT := by
      refine Fin.strictMono_iff_lt_succ.mpr fun i => ?_
      fin_cases i; simp [fpT]
    obtain ⟨s, s', so, h1, h2, h3, h4⟩ := C22_car1_simulate_exact srt le_rfl hmono ![1, 2] ![1, 1] two_pos one_pos [2 ^ (-60 : ℤ), 2 ^ (-61 : ℤ)]
      (by simp) (by
        intro x _ i _
        fin_cases i <;> simp) zs
    have e1 : List.ofFn fpT = [0, 1] := by simp [List.ofFn_succ, fpT]
    have e2 : List.ofFn ![(1 : ℝ), 2] = [1, 2] := by simp [List.ofFn_succ]
    have e3 : List.ofFn ![(1 : ℝ), 1] = [1, 1] := by simp [List.ofFn_succ]
    rw [e1, e2, e3] at h1
    match so, h2.length_eq, h4 with
    | [a, b], _, h4 => exact ⟨s, s', _, _, h1, h4⟩
  · obtain ⟨s, e, hw, ho, ht, -⟩ := fs_new srt' (e := 1)
    obtain ⟨s', xs, g, hl, hn⟩ := C94_close_nan C72_nearest near_exp0 hw ho ht (times := [2 ^ (-60 : ℤ), 2 ^ (-61 : ℤ)])
      (so := [2 ^ (-61 : ℤ), 2 ^ (-60 : ℤ)]) (List.Perm.swap _ _ _) (by simp; norm_num) (k := 0) rfl rfl fs_decay (by
        intro a ha
        simp only [List.mem_cons, List.not_mem_nil, or_false] at ha
        rcases ha with rfl | rfl <;> norm_num) ⟨1, by simp, by norm_num⟩ (fun k => .fin (zs k))
    have h1 := hn 1 (by norm_num) (by simp)
    match xs, hl, h1, g with
    | [a, b], _, h1, g =>
      simp only [List.getElem?_cons_succ, List.getElem?_cons_zero, Option.some.injEq] at h1
      subst h1
      exact ⟨s, s', a, e, g⟩

/-- the hypotheses of `C94_returns` and `C94_repeatable` are met, with an earlier call of `Simulate` in between -/
example (srt : List Dbl → List ℕ) (zs : ℕ → Dbl) : ∃ s s1 xs, Whole (nearest EvenBelow) s ∧ Used (nearest EvenBelow) s s1 ∧
    FKF1.simulate (nearest EvenBelow) s [.fin 5, .pinf] zs = .ok (s1, xs) ∧ xs.length = 2 := by
  obtain ⟨s, -, hw, -⟩ := fs_new srt (e := 1)
  obtain ⟨s1, xs, e, hl, -⟩ := C94_returns hw (times := [.fin 5, .pinf]) (by simp) zs
  exact ⟨s, s1, xs, hw, .simulate .none e, e, hl⟩

/-- a time asked for twice, among others: three of the four values are NaN -/
example (srt : List Dbl → List ℕ) (zs : ℕ → Dbl) : ∃ s s' a, Whole (nearest EvenBelow) s ∧
    FKF1.simulate (nearest EvenBelow) s [.fin 3, .fin (1 / 2), .fin (1 / 2), .fin 2] zs = .ok (s', [a, .nan, .nan, .nan]) := by
  obtain ⟨s, -, hw, ho, ht, -⟩ := fs_new srt (e := 1)
  obtain ⟨s', xs, g, hl, hn⟩ := C94_twice_nan C72_nearest near_exp0 hw ho (times := [3, 1 / 2, 1 / 2, 2])
    (so := [1 / 2, 1 / 2, 2, 3]) (by
      refine List.Perm.symm ((List.perm_append_comm (l₁ := [3]) (l₂ := [1 / 2, 1 / 2, 2])).trans ?_)
      exact List.Perm.refl _) (by norm_num) (k := 0) rfl rfl zs
  have h1 := hn 1 (by norm_num) (by simp)
  have h2 := hn 2 (by norm_num) (by simp)
  have h3 := hn 3 (by norm_num) (by simp)
  match xs, hl, h1, h2, h3, g with
  | [a, b, c, d], _, h1, h2, h3, g =>
    simp only [List.getElem?_cons_succ, List.getElem?_cons_zero, Option.some.injEq] at h1 h2 h3
    subst h1 h2 h3
    exact ⟨s, s', a, hw, g⟩

/-- an error-free observation at 1 is asked for -/
example (srt : List Dbl → List ℕ) (zs : ℕ → Dbl) : ∃ s s' a, Whole (nearest EvenBelow) s ∧
    FKF1.simulate (nearest EvenBelow) s [.fin (1 / 2), .fin 1] zs = .ok (s', [a, .nan]) := by
  obtain ⟨s, -, hw, ho, ht, hy⟩ := fs_new srt (e := 0)
  obtain ⟨s', xs, g, hl, hn⟩ := C94_observed_nan C72_nearest near_exp0 hw ho ht (by simp) (times := [1 / 2, 1])
    (so := [1 / 2, 1]) (List.Perm.refl _) (by norm_num) (k := 1) (i := 1) rfl rfl (by rw [hy]; rfl) zs
  have h1 := hn 1 le_rfl (by simp)
  match xs, hl, h1, g with
  | [a, b], _, h1, g =>
    simp only [List.getElem?_cons_succ, List.getElem?_cons_zero, Option.some.injEq] at h1
    subst h1
    exact ⟨s, s', a, hw, g⟩

/-- the hypotheses of `C94_first_partial` are met: requests at 2 and 3, after both observations -/
example (srt : List Dbl → List ℕ) (zs : ℕ → ℝ) : ∃ s s' xs v,
    FKF1.new (nearest EvenBelow) srt [.fin 0, .fin 1] [.fin 1, .fin 2] [.fin (2 ^ (-30 : ℤ)), .fin (2 ^ (-30 : ℤ))] (.fin 2) (.fin 1) = .ok s ∧
    FKF1.simulate (nearest EvenBelow) s [.fin 3, .fin 2] (fun k => .fin (zs k)) = .ok (s', v :: xs) ∧ v ≠ .nan := by
  have hf : Follows [0, 1] 2 2 := ⟨by simp, fun j hj => by
    rcases (show j = 0 ∨ j = 1 by omega) with rfl | rfl <;> norm_num, fun h => by simp at h⟩
  obtain ⟨s, e, h⟩ := C94_first_partial C72_nearest fp_mild srt (times := [3, 2]) (x := 2) (by simp) (by simp; norm_num) hf (by simp) zs
  obtain ⟨s', xs, v, g, hv⟩ := h s .none
  exact ⟨s, s', xs, v, e, g, hv⟩

end Verif.Props
