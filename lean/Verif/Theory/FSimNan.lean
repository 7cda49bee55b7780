import Verif.Theory.FSimTotal

/-!
Where `Predict` and `Simulate` of a CAR(1) filter give NaN in binary64 arithmetic.
-/

namespace Verif.Theory

open Verif.Model Verif.Spec
open scoped Classical

variable {A : Arith}

theorem nan_mul' (x : Dbl) : A.mul .nan x = .nan := by cases x <;> rfl
theorem mul_nan' (x : Dbl) : A.mul x .nan = .nan := by cases x <;> rfl
theorem nan_sub' (x : Dbl) : A.sub .nan x = .nan := by cases x <;> rfl
theorem sub_nan' (x : Dbl) : A.sub x .nan = .nan := by cases x <;> rfl
theorem nan_div' (x : Dbl) : A.div .nan x = .nan := by cases x <;> rfl
theorem div_nan' (x : Dbl) : A.div x .nan = .nan := by cases x <;> rfl

/-! ### a NaN among the values -/

theorem update_nan {s s' : FKF1} {j : ℕ} (hy : s.y[j]? = some .nan) (h : FKF1.update A s = .ok s')
    (hm : ∀ i, j < i → i < s.cur → s.mean[i]? = some .nan) : s'.cur = s.cur + 1 ∧ ∀ i, j < i → i < s'.cur → s'.mean[i]? = some .nan := by
  unfold FKF1.update at h
  obtain ⟨c1, h1, h⟩ := bind_ok h
  obtain ⟨_, -, h⟩ := bind_ok h
  obtain ⟨_, -, h⟩ := bind_ok h
  obtain ⟨_, -, h⟩ := bind_ok h
  obtain ⟨mp, h5, h⟩ := bind_ok h
  obtain ⟨yp, h6, h⟩ := bind_ok h
  obtain ⟨mean, h7, h⟩ := bind_ok h
  obtain ⟨_, -, h⟩ := bind_ok h
  obtain ⟨_, -, h⟩ := bind_ok h
  obtain ⟨_, -, h⟩ := bind_ok h
  obtain ⟨_, -, h⟩ := bind_ok h
  cases h
  refine ⟨rfl, fun i hj hi => ?_⟩
  have hc : c1 = s.cur - 1 ∧ 0 < s.cur := by
    unfold prevIdx at h1
    split at h1
    · cases h1
    · cases h1; exact ⟨rfl, by omega⟩
  unfold wr at h7
  split at h7
  · next hl =>
    cases h7
    show (s.mean.set s.cur _)[i]? = some .nan
    by_cases hic : s.cur = i
    · subst hic
      rw [List.getElem?_set_self hl]
      congr 1
      by_cases hjc : j = c1
      · subst hjc
        rw [rd, hy] at h6
        cases h6
        rw [nan_sub', mul_nan', fl_add_nan]
      · rw [rd, hm c1 (by omega) (by omega)] at h5
        cases h5
        rw [mul_nan', fl_nan_add]
    · rw [List.getElem?_set_ne hic]
      exact hm i hj (by change i < s.cur + 1 at hi; omega)
  · cases h7

theorem iterN_nan {s s' : FKF1} {j k : ℕ} (hy : s.y[j]? = some .nan) (h : iter (FKF1.update A) k s = .ok s')
    (hm : ∀ i, j < i → i < s.cur → s.mean[i]? = some .nan) : s'.cur = s.cur + k ∧ ∀ i, j < i → i < s'.cur → s'.mean[i]? = some .nan := by
  induction k generalizing s' with
  | zero => cases h; exact ⟨rfl, hm⟩
  | succ k ih =>
    obtain ⟨s1, e1, e⟩ := bind_ok h
    obtain ⟨c1, m1⟩ := ih e1
    obtain ⟨c2, m2⟩ := update_nan (by rw [(iter_ksame e1).y]; exact hy) e m1
    exact ⟨by omega, m2⟩

theorem past_nan {s : FKF1} {x : Dbl} {ip j : ℕ} {m v : Dbl} (hy : s.y[j]? = some .nan) (hj : j < ip)
    (hm : ∀ i, j < i → i < ip → s.mean[i]? = some .nan) (h : FKF1.predictPast A s x ip = .ok (m, v)) : m = .nan := by
  unfold FKF1.predictPast at h
  dsimp only at h
  rw [if_neg (by omega)] at h
  obtain ⟨_, -, h⟩ := bind_ok h
  obtain ⟨_, -, h⟩ := bind_ok h
  obtain ⟨_, -, h⟩ := bind_ok h
  obtain ⟨mp, h4, h⟩ := bind_ok h
  obtain ⟨yp, h5, h⟩ := bind_ok h
  cases h
  by_cases hjc : j = ip - 1
  · subst hjc
    rw [rd, hy] at h5
    cases h5
    rw [nan_sub', mul_nan', fl_add_nan]
  · rw [rd, hm (ip - 1) (by omega) (by omega)] at h4
    cases h4
    rw [mul_nan', fl_nan_add]

theorem accum_nan {s : FKF1} {i : ℕ} {acc r : Dbl × Dbl} (h : FKF1.accum A s i acc = .ok r) (hn : acc.2 = .nan ∨ s.y[i]? = some .nan) : r.2 = .nan := by
  unfold FKF1.accum at h
  obtain ⟨_, -, h⟩ := bind_ok h
  obtain ⟨yi, h2, h⟩ := bind_ok h
  cases h
  dsimp only
  rcases hn with hn | hn
  · rw [hn, fl_nan_add]
  · rw [rd, hn] at h2
    cases h2
    rw [nan_sub', mul_nan', nan_div', fl_add_nan]

theorem coefLoop_nan {k i : ℕ} {s s' : FKF1} {acc r : Dbl × Dbl} (h : FKF1.coefLoop A k i s acc = .ok (s', r))
    (hn : acc.2 = .nan ∨ ∃ j, i ≤ j ∧ j < i + k ∧ s.y[j]? = some .nan) : r.2 = .nan := by
  induction k generalizing i s acc with
  | zero =>
    cases h
    rcases hn with hn | ⟨j, h1, h2, -⟩
    · exact hn
    · omega
  | succ k ih =>
    unfold FKF1.coefLoop at h
    obtain ⟨s1, e1, h⟩ := bind_ok h
    obtain ⟨a1, e2, h⟩ := bind_ok h
    have k1 := updateCoefs_ksame e1
    refine ih h ?_
    rcases hn with hn | ⟨j, h1, h2, h3⟩
    · exact .inl (accum_nan e2 (.inl hn))
    · by_cases hji : j = i
      · subst hji
        exact .inl (accum_nan e2 (.inr (by rw [k1.y]; exact h3)))
      · exact .inr ⟨j, by omega, by omega, by rw [k1.y]; exact h3⟩

/-- a NaN among the values makes every prediction NaN -/
theorem predict_nan_data {s s' : FKF1} {x m v : Dbl} {j : ℕ} (hy : s.y[j]? = some .nan) (hl : j < s.time.length)
    (h : FKF1.predict A s x = .ok (s', (m, v))) : m = .nan := by
  unfold FKF1.predict at h
  obtain ⟨ip, -, h⟩ := bind_ok h
  obtain ⟨s1, e1, h⟩ := bind_ok h
  obtain ⟨s2, e2, h⟩ := bind_ok h
  obtain ⟨⟨m0, v0⟩, e3, h⟩ := bind_ok h
  dsimp only at h
  have k1 := reset_ksame e1
  have k2 := k1.trans (iter_ksame e2)
  have c1 : s1.cur = 1 := by
    unfold FKF1.reset at e1
    obtain ⟨_, -, e1⟩ := bind_ok e1
    obtain ⟨_, -, e1⟩ := bind_ok e1
    obtain ⟨_, -, e1⟩ := bind_ok e1
    cases e1; rfl
  obtain ⟨c2, m2⟩ := iterN_nan (by rw [k1.y]; exact hy) e2 (fun i h1 h2 => by omega)
  have y2 : s2.y[j]? = some .nan := by rw [k2.y]; exact hy
  have hp : j < ip → m0 = .nan := fun hj => past_nan y2 hj (fun i h1 h2 => m2 i h1 (by omega)) e3
  by_cases hi : ip = s2.time.length
  · rw [if_pos hi] at h
    cases h
    exact hp (by rw [hi, k2.time]; exact hl)
  · rw [if_neg hi] at h
    obtain ⟨s3, e4, h⟩ := bind_ok h
    obtain ⟨acc, e5, h⟩ := bind_ok h
    obtain ⟨⟨s4, acc'⟩, e6, h⟩ := bind_ok h
    cases h
    have k3 := initCoefs_ksame e4
    have y3 : s3.y[j]? = some .nan := by rw [k3.y]; exact y2
    have hr : acc'.2 = .nan := by
      refine coefLoop_nan e6 ?_
      by_cases hj : j < ip
      · exact .inl (accum_nan e5 (.inl (by dsimp only; rw [hp hj, nan_mul'])))
      · by_cases hji : j = ip
        · subst hji; exact .inl (accum_nan e5 (.inr y3))
        · exact .inr ⟨j, by omega, by rw [k3.time, k2.time]; omega, y3⟩
    rw [hr, nan_mul']

/-! ### sums that are not finite -/

/-- infinite or NaN -/
def NotFin (d : Dbl) : Prop := ∀ x, d ≠ .fin x

theorem notFin_nan : NotFin .nan := fun _ h => by cases h
theorem notFin_pinf : NotFin .pinf := fun _ h => by cases h

theorem notFin_fl {d : Dbl} (h : NotFin d) : A.fl d = d := by
  cases d with
  | fin x => exact absurd rfl (h x)
  | _ => rfl

theorem notFin_add {a : Dbl} (h : NotFin a) (b : Dbl) : NotFin (A.add a b) := by
  have : NotFin (a.add b) := by
    intro x hx
    cases a with
    | fin y => exact h y rfl
    | _ => cases b <;> cases hx
  rw [Arith.add, notFin_fl this]; exact this

theorem add_notFin {b : Dbl} (h : NotFin b) (a : Dbl) : NotFin (A.add a b) := by
  have : NotFin (a.add b) := by
    intro x hx
    cases b with
    | fin y => exact h y rfl
    | _ => cases a <;> cases hx
  rw [Arith.add, notFin_fl this]; exact this

theorem notFin_infTimes (x : ℝ) : NotFin (Dbl.infTimes x) := by
  intro y hy
  unfold Dbl.infTimes at hy
  split_ifs at hy

theorem div_zero_notFin (a : Dbl) : NotFin (A.div a (.fin 0)) := by
  have : NotFin (a.div (.fin 0)) := by
    intro x hx
    cases a with
    | fin y =>
      rw [show (Dbl.fin y).div (.fin 0) = if (0 : ℝ) = 0 then Dbl.infTimes y else .fin (y / 0) from rfl, if_pos rfl] at hx
      exact notFin_infTimes y x hx
    | pinf =>
      rw [show Dbl.pinf.div (.fin 0) = if (0 : ℝ) < 0 then .ninf else .pinf from rfl, if_neg (lt_irrefl _)] at hx
      cases hx
    | ninf =>
      rw [show Dbl.ninf.div (.fin 0) = if (0 : ℝ) < 0 then .pinf else .ninf from rfl, if_neg (lt_irrefl _)] at hx
      cases hx
    | nan => cases hx
  rw [Arith.div, notFin_fl this]; exact this

theorem mul_pinf_notFin (a : Dbl) : NotFin (A.mul a .pinf) := by
  have : NotFin (a.mul .pinf) := by
    intro x hx
    cases a with
    | fin y => exact notFin_infTimes y x hx
    | _ => cases hx
  rw [Arith.mul, notFin_fl this]; exact this

theorem infTimes_zero : Dbl.infTimes 0 = .nan := by simp [Dbl.infTimes]

/-- an infinite or NaN sum divided by an infinite or NaN precision is NaN -/
theorem final_nan (hA : IsBinary64 A) {a b : Dbl} (ha : NotFin a) (hb : NotFin b) : A.mul b (A.div (.fin 1) a) = .nan := by
  have h0 : ∀ c : Dbl, NotFin c → A.mul c (.fin 0) = .nan := by
    intro c hc
    cases c with
    | fin x => exact absurd rfl (hc x)
    | pinf => simp [Arith.mul, Dbl.mul, infTimes_zero, Arith.fl]
    | ninf => simp [Arith.mul, Dbl.mul, infTimes_zero, Arith.fl]
    | nan => rfl
  have e0 : A.rnd 0 = .fin 0 := hA.id 0 f64_zero
  cases a with
  | fin x => exact absurd rfl (ha x)
  | pinf => rw [show A.div (.fin 1) .pinf = A.rnd 0 from rfl, e0, h0 b hb]
  | ninf => rw [show A.div (.fin 1) .ninf = A.rnd 0 from rfl, e0, h0 b hb]
  | nan => rw [div_nan', mul_nan']

theorem accum_notFin {s : FKF1} {i : ℕ} {acc r : Dbl × Dbl} (h : FKF1.accum A s i acc = .ok r) (h1 : NotFin acc.1) (h2 : NotFin acc.2) :
    NotFin r.1 ∧ NotFin r.2 := by
  unfold FKF1.accum at h
  obtain ⟨_, -, h⟩ := bind_ok h
  obtain ⟨_, -, h⟩ := bind_ok h
  cases h
  exact ⟨notFin_add h1 _, notFin_add h2 _⟩

theorem coefLoop_notFin {k i : ℕ} {s s' : FKF1} {acc r : Dbl × Dbl} (h : FKF1.coefLoop A k i s acc = .ok (s', r)) (h1 : NotFin acc.1)
    (h2 : NotFin acc.2) : NotFin r.1 ∧ NotFin r.2 := by
  induction k generalizing i s acc with
  | zero => cases h; exact ⟨h1, h2⟩
  | succ k ih =>
    unfold FKF1.coefLoop at h
    obtain ⟨s1, -, h⟩ := bind_ok h
    obtain ⟨a1, e2, h⟩ := bind_ok h
    obtain ⟨g1, g2⟩ := accum_notFin e2 h1 h2
    exact ih h g1 g2

theorem rnd_one (hA : IsBinary64 A) : A.rnd 1 = .fin 1 := hA.id 1 f64_one
theorem rnd_zero' (hA : IsBinary64 A) : A.rnd 0 = .fin 0 := hA.id 0 f64_zero

/-- `c (1 - 1*1)` -/
theorem mul_none (hA : IsBinary64 A) (c : Dbl) :
    A.mul c (A.sub (.fin 1) (A.mul (.fin 1) (.fin 1))) = .fin 0 ∨ A.mul c (A.sub (.fin 1) (A.mul (.fin 1) (.fin 1))) = .nan := by
  rw [fl_mul, mul_one, rnd_one hA, fl_sub, sub_self, rnd_zero' hA]
  cases c with
  | fin x => left; rw [fl_mul, mul_zero, rnd_zero' hA]
  | pinf => right; simp [Arith.mul, Dbl.mul, infTimes_zero, Arith.fl]
  | ninf => right; simp [Arith.mul, Dbl.mul, infTimes_zero, Arith.fl]
  | nan => right; rfl

/-- the prediction at the time of an error-free observation -/
theorem predict_same_nan (hA : IsBinary64 A) (he : A.exp (.fin 0) = .fin 1) {s s' : FKF1} {x w : ℝ} {m v : Dbl} (hw : s.omega = .fin w)
    (ht : s.time[FKF1.scan (.fin x) s.time]? = some (.fin x)) (hy : s.yerr[FKF1.scan (.fin x) s.time]? = some (.fin 0))
    (h : FKF1.predict A s (.fin x) = .ok (s', (m, v))) : m = .nan := by
  unfold FKF1.predict at h
  obtain ⟨ip, e0, h⟩ := bind_ok h
  have hip : ip = FKF1.scan (.fin x) s.time := by
    unfold FKF1.find at e0
    split at e0
    · cases e0
    · cases e0; rfl
  rw [← hip] at ht hy
  obtain ⟨s1, e1, h⟩ := bind_ok h
  obtain ⟨s2, e2, h⟩ := bind_ok h
  obtain ⟨⟨m0, v0⟩, e3, h⟩ := bind_ok h
  dsimp only at h
  have k2 := (reset_ksame e1).trans (iter_ksame e2)
  rw [if_neg (by
    intro hc
    rw [hc, k2.time] at ht
    simp at ht)] at h
  obtain ⟨s3, e4, h⟩ := bind_ok h
  obtain ⟨acc, e5, h⟩ := bind_ok h
  obtain ⟨⟨s4, acc'⟩, e6, h⟩ := bind_ok h
  cases h
  have key : NotFin acc.1 ∧ NotFin acc.2 := by
    unfold FKF1.initCoefs at e4
    rw [k2.time, k2.yerr, k2.omega, rd, rd, ht, hy, hw] at e4
    obtain ⟨_, g, e4⟩ := bind_ok e4
    cases g
    dsimp only at e4
    rw [fl_sub, sub_self, rnd_zero' hA, show (Dbl.fin 0).abs = .fin |0| from rfl, abs_zero, show (Dbl.fin 0).neg = .fin (-0) from rfl, neg_zero,
      show A.mul (.fin 0) (.fin w) = .fin 0 by rw [fl_mul, zero_mul, rnd_zero' hA], he] at e4
    obtain ⟨_, g, e4⟩ := bind_ok e4
    cases g
    obtain ⟨var, g, e4⟩ := bind_ok e4
    cases e4
    unfold wrU at g
    split at g
    · next hl =>
      cases g
      unfold FKF1.accum at e5
      obtain ⟨vi, g1, e5⟩ := bind_ok e5
      obtain ⟨yi, g2, e5⟩ := bind_ok e5
      cases e5
      dsimp only at g1 ⊢
      rw [rd, List.getElem?_set_self hl] at g1
      cases g1
      rw [show A.mul (.fin 0) (.fin 0) = .fin 0 by rw [fl_mul, mul_zero, rnd_zero' hA]]
      rcases mul_none hA (A.div s2.sigsqr (A.mul (.fin 2) (.fin w))) with e | e
      · rw [e, fl_add, add_zero, rnd_zero' hA]
        exact ⟨add_notFin (div_zero_notFin _) _, add_notFin (div_zero_notFin _) _⟩
      · rw [e, fl_nan_add, div_nan', div_nan', fl_add_nan, fl_add_nan]
        exact ⟨notFin_nan, notFin_nan⟩
    · cases g
  obtain ⟨n1, n2⟩ := coefLoop_notFin e6 key.1 key.2
  exact final_nan hA n1 n2

/-- the last variance written by `Reset` or `Update` is a sum -/
theorem var_isSum {s s1 s2 : FKF1} {k : ℕ} (e1 : FKF1.reset A s = .ok s1) (e2 : iter (FKF1.update A) k s1 = .ok s2) :
    s2.cur = k + 1 ∧ ∃ a b, s2.var[k]? = some (A.add a b) := by
  induction k generalizing s2 with
  | zero =>
    cases e2
    unfold FKF1.reset at e1
    obtain ⟨_, -, e1⟩ := bind_ok e1
    obtain ⟨e, -, e1⟩ := bind_ok e1
    obtain ⟨var, g, e1⟩ := bind_ok e1
    cases e1
    unfold wr at g
    split at g
    · next hl =>
      cases g
      exact ⟨rfl, _, _, List.getElem?_set_self hl⟩
    · cases g
  | succ k ih =>
    obtain ⟨s3, e3, e⟩ := bind_ok e2
    obtain ⟨c3, -⟩ := ih e3
    unfold FKF1.update at e
    obtain ⟨_, -, e⟩ := bind_ok e
    obtain ⟨_, -, e⟩ := bind_ok e
    obtain ⟨_, -, e⟩ := bind_ok e
    obtain ⟨_, -, e⟩ := bind_ok e
    obtain ⟨_, -, e⟩ := bind_ok e
    obtain ⟨_, -, e⟩ := bind_ok e
    obtain ⟨_, -, e⟩ := bind_ok e
    obtain ⟨var, -, e⟩ := bind_ok e
    obtain ⟨_, -, e⟩ := bind_ok e
    obtain ⟨_, -, e⟩ := bind_ok e
    obtain ⟨var', g, e⟩ := bind_ok e
    cases e
    unfold wr at g
    split at g
    · next hl =>
      cases g
      rw [c3] at hl
      refine ⟨by show s3.cur + 1 = _; omega, ?_⟩
      dsimp only
      rw [c3, List.getElem?_set_self hl]
      exact ⟨_, _, rfl⟩
    · cases g

/-- a sum minus zero -/
theorem add_sub_zero (hA : IsBinary64 A) (a b : Dbl) : A.sub (A.add a b) (.fin 0) = A.add a b := by
  cases h : A.add a b with
  | fin x => rw [fl_sub, sub_zero, hA.id x (fl_f64 hA h)]
  | _ => rfl

/-- the prediction between observations shortly after one without error -/
theorem predict_near_nan (hA : IsBinary64 A) {s s' : FKF1} {t x w : ℝ} {m v : Dbl} (hw : s.omega = .fin w)
    {ip : ℕ} (hip : FKF1.scan (.fin x) s.time = ip + 1) (hn : ip + 1 < s.time.length)
    (ht : s.time[ip]? = some (.fin t)) (hy : s.yerr[ip]? = some (.fin 0)) (hr : decayTo A w t x = .fin 1)
    (h : FKF1.predict A s (.fin x) = .ok (s', (m, v))) : m = .nan := by
  unfold FKF1.predict at h
  obtain ⟨i0, e0, h⟩ := bind_ok h
  have hi0 : i0 = ip + 1 := by
    unfold FKF1.find at e0
    split at e0
    · cases e0
    · cases e0; exact hip
  subst hi0
  obtain ⟨s1, e1, h⟩ := bind_ok h
  obtain ⟨s2, e2, h⟩ := bind_ok h
  obtain ⟨⟨m0, v0⟩, e3, h⟩ := bind_ok h
  dsimp only at h
  have k2 := (reset_ksame e1).trans (iter_ksame e2)
  rw [Nat.add_sub_cancel] at e2
  obtain ⟨-, a, b, hv⟩ := var_isSum e1 e2
  rw [if_neg (by rw [k2.time]; omega)] at h
  obtain ⟨s3, e4, h⟩ := bind_ok h
  obtain ⟨acc, e5, h⟩ := bind_ok h
  obtain ⟨⟨s4, acc'⟩, e6, h⟩ := bind_ok h
  cases h
  have key : m0 = .nan ∨ v0 = .nan ∨ v0 = .fin 0 := by
    unfold FKF1.predictPast at e3
    dsimp only at e3
    rw [if_neg (by omega), Nat.add_sub_cancel, k2.time, k2.yerr, k2.omega, rdU, rd, rd, ht, hy, hv, hw] at e3
    obtain ⟨_, g, e3⟩ := bind_ok e3
    cases g
    obtain ⟨_, g, e3⟩ := bind_ok e3
    cases g
    obtain ⟨_, g, e3⟩ := bind_ok e3
    cases g
    obtain ⟨mp, -, e3⟩ := bind_ok e3
    obtain ⟨yp, -, e3⟩ := bind_ok e3
    rw [show A.exp (A.mul (A.sub (.fin x) (.fin t)).neg (.fin w)) = .fin 1 from hr,
      show A.mul (.fin 0) (.fin 0) = .fin 0 by rw [fl_mul, mul_zero, rnd_zero' hA], add_sub_zero hA] at e3
    cases e3
    have hd : A.div (A.add a b) (A.add a b) = .nan ∨ ∃ y, A.add a b = .fin y ∧ A.div (A.add a b) (A.add a b) = .fin 1 := by
      cases h : A.add a b with
      | fin y =>
        by_cases hy0 : y = 0
        · subst hy0
          left
          simp [Arith.div, Dbl.div, infTimes_zero, Arith.fl]
        · right
          exact ⟨y, rfl, by rw [fl_div _ _ hy0, div_self hy0, rnd_one hA]⟩
      | _ => exact .inl rfl
    rcases hd with e | ⟨y, ey, e⟩
    · left; rw [e, mul_nan', nan_mul', fl_add_nan]
    · right
      have z : A.sub (.fin 1) (.fin 1) = .fin 0 := by rw [fl_sub, sub_self, rnd_zero' hA]
      have z2 : A.mul (A.mul (A.mul (.fin 1) (.fin 1)) (.fin y)) (.fin 0) = .fin 0 := by
        rw [fl_mul, mul_one, rnd_one hA, fl_mul, one_mul, hA.id y (fl_f64 hA ey), fl_mul, mul_zero, rnd_zero' hA]
      rw [e, ey, z, z2]
      rcases mul_none hA (A.div s2.sigsqr (A.mul (.fin 2) (.fin w))) with g | g
      · right; rw [g, fl_add, add_zero, rnd_zero' hA]
      · left; rw [g, fl_nan_add]
  rcases key with rfl | rfl | rfl
  · have := accum_nan e5 (.inl (by dsimp only; rw [nan_mul']))
    rw [coefLoop_nan e6 (.inl this), nan_mul']
  · have := accum_nan e5 (.inl (by dsimp only; rw [div_nan', mul_nan']))
    rw [coefLoop_nan e6 (.inl this), nan_mul']
  · have hp : A.div (.fin 1) (.fin 0) = .pinf := by simp [Arith.div, Dbl.div, Dbl.infTimes, Arith.fl]
    rw [hp] at e5
    obtain ⟨n1, n2⟩ := accum_notFin e5 notFin_pinf (mul_pinf_notFin m0)
    obtain ⟨n1, n2⟩ := coefLoop_notFin e6 n1 n2
    exact final_nan hA n1 n2

end Verif.Theory
