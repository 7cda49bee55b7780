import Verif.Theory.FObj
import Verif.Theory.FNan
import Verif.Theory.Nearest
import Verif.Spec.FPredict

/-!
`KalmanFilter1::Predict` in binary64 arithmetic: bounds on everything it computes.
-/

namespace Verif.Theory

open Verif.Model Verif.Spec
open scoped Classical

variable {A : Arith}

/-- a time difference that is not negative -/
def Gap (d : Dbl) : Prop := d = .pinf ∨ ∃ x, 0 ≤ x ∧ d = .fin x

/-- the factor `exp(-d w)` for a time difference that is not negative -/
theorem decay_num (hA : IsBinary64 A) {w : ℝ} (hw0 : 0 < w) {d : Dbl} (hd : Gap d) :
    ∃ ρ, A.exp (A.mul d.neg (.fin w)) = .fin ρ ∧ F64 ρ ∧ 0 ≤ ρ ∧ ρ ≤ 1 := by
  rcases hd with rfl | ⟨x, hx, rfl⟩
  · have : A.mul Dbl.pinf.neg (.fin w) = .ninf := by
      have h1 : ¬ w < 0 := by linarith
      simp [Arith.mul, Dbl.mul, Dbl.neg, Dbl.infTimes, Arith.fl, h1, hw0]
    rw [this, hA.exp_ninf]
    exact ⟨0, rfl, f64_zero, le_refl _, by norm_num⟩
  · rw [show (Dbl.fin x).neg = .fin (-x) from rfl, fl_mul]
    rcases rnd_nonpos hA (x := -x * w) (by nlinarith) with h | ⟨r, h, hr⟩
    · rw [h, hA.exp_ninf]
      exact ⟨0, rfl, f64_zero, le_refl _, by norm_num⟩
    · rw [h]; exact hA.exp_neg r hr

/-- the same as `UpdateCoefs` writes it -/
theorem decay2_num (hA : IsBinary64 A) {w : ℝ} (hw0 : 0 < w) {d : Dbl} (hd : Gap d) :
    ∃ ρ, A.exp (A.mul (A.mul (.fin (-1)) d) (.fin w)) = .fin ρ ∧ F64 ρ ∧ 0 ≤ ρ ∧ ρ ≤ 1 := by
  have key : A.mul (.fin (-1)) d = .ninf ∨ ∃ x, 0 ≤ x ∧ A.mul (.fin (-1)) d = .fin (-x) := by
    rcases hd with rfl | ⟨x, hx, rfl⟩
    · left
      have : ¬ (0 : ℝ) < -1 := by norm_num
      simp [Arith.mul, Dbl.mul, Dbl.infTimes, Arith.fl, this]
    · rw [fl_mul]
      rcases rnd_nonpos hA (x := -1 * x) (by linarith) with h | ⟨r, h, hr⟩
      · exact .inl h
      · exact .inr ⟨-r, by linarith, by rw [h, neg_neg]⟩
  rcases key with h | ⟨x, hx, h⟩
  · rw [h]; exact decay_num hA hw0 (d := .pinf) (.inl rfl)
  · rw [h]; exact decay_num hA hw0 (d := .fin x) (.inr ⟨x, hx, rfl⟩)

/-- difference of two finite numbers, later one first -/
theorem gap_sub (hA : IsBinary64 A) {s t : ℝ} (h : s ≤ t) : Gap (A.sub (.fin t) (.fin s)) := by
  rw [fl_sub]
  rcases rnd_nonneg hA (x := t - s) (by linarith) with h | ⟨r, h, -, h0⟩
  · exact .inl h
  · exact .inr ⟨r, h0, h⟩

theorem gap_abs (hA : IsBinary64 A) (s t : ℝ) : Gap (A.sub (.fin t) (.fin s)).abs := by
  rw [fl_sub]
  cases h : A.rnd (t - s) with
  | nan => exact absurd h (hA.no_nan _)
  | pinf => exact .inl rfl
  | ninf => exact .inl rfl
  | fin r => exact .inr ⟨|r|, abs_nonneg _, rfl⟩

/-- What is assumed of a filter that is asked for predictions. -/
structure PSafe (A : Arith) (s : FKF1) : Prop extends FSafe A 300 298 s where
  max : s.time.length + 1 < 2 ^ 53
  times : ∀ i < s.time.length, ∃ t, s.time[i]? = some (.fin t)
  lo : ∀ i < s.time.length, ∃ e E, s.yerr[i]? = some (.fin e) ∧ A.mul (.fin e) (.fin e) = .fin E ∧ 2 ^ (-298 : ℤ) ≤ E
  statlo : ∃ S, A.div s.sigsqr (A.mul (.fin 2) s.omega) = .fin S ∧ 2 ^ (-298 : ℤ) ≤ S

/-! ### what `Predict` leaves alone -/

/-- everything but the contents of `mean` and `var`, the index and the coefficients -/
structure KSame (s s' : FKF1) : Prop where
  time : s'.time = s.time
  dt : s'.dt = s.dt
  y : s'.y = s.y
  yerr : s'.yerr = s.yerr
  sigsqr : s'.sigsqr = s.sigsqr
  omega : s'.omega = s.omega
  lmean : s'.mean.length = s.mean.length
  lvar : s'.var.length = s.var.length

theorem KSame.refl (s : FKF1) : KSame s s := ⟨rfl, rfl, rfl, rfl, rfl, rfl, rfl, rfl⟩

theorem KSame.trans {s s' s'' : FKF1} (h : KSame s s') (h' : KSame s' s'') : KSame s s'' :=
  ⟨h'.time.trans h.time, h'.dt.trans h.dt, h'.y.trans h.y, h'.yerr.trans h.yerr, h'.sigsqr.trans h.sigsqr, h'.omega.trans h.omega,
    h'.lmean.trans h.lmean, h'.lvar.trans h.lvar⟩

theorem FSafe.same {a b : ℤ} {s s' : FKF1} (h : FSafe A a b s) (k : KSame s s') : FSafe A a b s' := by
  obtain ⟨k1, k2, k3, k4, k5, k6, k7, k8⟩ := k
  obtain ⟨h1, h2, h3, h4, h5, h6, h7, h8, h9⟩ := h
  exact ⟨by rw [k1]; exact h1, by rw [k1, k2]; exact h2, by rw [k7, k1]; exact h3, by rw [k8, k1]; exact h4, by rw [k6]; exact h5,
    by rw [k5, k6]; exact h6, by rw [k2]; exact h7, by rw [k1, k3]; exact h8, by rw [k1, k4]; exact h9⟩

theorem PSafe.same {s s' : FKF1} (h : PSafe A s) (k : KSame s s') : PSafe A s' :=
  ⟨h.toFSafe.same k, by rw [k.time]; exact h.max, by rw [k.time]; exact h.times, by rw [k.time, k.yerr]; exact h.lo,
    by rw [k.sigsqr, k.omega]; exact h.statlo⟩

theorem wrU_len {α : Type} {l l' : List α} {i : ℕ} {x : α} (h : wrU l i x = .ok l') : l'.length = l.length := by
  unfold wrU at h
  split at h
  · cases h; simp
  · cases h

theorem reset_ksame {s s' : FKF1} (h : FKF1.reset A s = .ok s') : KSame s s' := by
  unfold FKF1.reset at h
  obtain ⟨mean, h1, h⟩ := bind_ok h
  obtain ⟨e0, -, h⟩ := bind_ok h
  obtain ⟨var, h2, h⟩ := bind_ok h
  cases h
  exact ⟨rfl, rfl, rfl, rfl, rfl, rfl, wr_len h1, wr_len h2⟩

theorem update_ksame {s s' : FKF1} (h : FKF1.update A s = .ok s') : KSame s s' := by
  unfold FKF1.update at h
  obtain ⟨_, -, h⟩ := bind_ok h
  obtain ⟨_, -, h⟩ := bind_ok h
  obtain ⟨_, -, h⟩ := bind_ok h
  obtain ⟨_, -, h⟩ := bind_ok h
  obtain ⟨_, -, h⟩ := bind_ok h
  obtain ⟨_, -, h⟩ := bind_ok h
  obtain ⟨mean, h1, h⟩ := bind_ok h
  obtain ⟨var, h2, h⟩ := bind_ok h
  obtain ⟨_, -, h⟩ := bind_ok h
  obtain ⟨_, -, h⟩ := bind_ok h
  obtain ⟨var', h3, h⟩ := bind_ok h
  cases h
  exact ⟨rfl, rfl, rfl, rfl, rfl, rfl, wr_len h1, (wr_len h3).trans (wr_len h2)⟩

theorem iter_ksame {s s' : FKF1} {k : ℕ} (h : iter (FKF1.update A) k s = .ok s') : KSame s s' := by
  induction k generalizing s' with
  | zero => cases h; exact KSame.refl s
  | succ k ih =>
    obtain ⟨s2, h2, h⟩ := bind_ok h
    exact (ih h2).trans (update_ksame h)

theorem filter_ksame {s s' : FKF1} (h : FKF1.filter A s = .ok s') : KSame s s' := by
  unfold FKF1.filter at h
  obtain ⟨s1, h1, h⟩ := bind_ok h
  exact (reset_ksame h1).trans (iter_ksame h)

theorem initCoefs_ksame {s s' : FKF1} {x : Dbl} {i : ℕ} (h : FKF1.initCoefs A s x i = .ok s') : KSame s s' := by
  unfold FKF1.initCoefs at h
  obtain ⟨_, -, h⟩ := bind_ok h
  obtain ⟨_, -, h⟩ := bind_ok h
  obtain ⟨var, h1, h⟩ := bind_ok h
  cases h
  exact ⟨rfl, rfl, rfl, rfl, rfl, rfl, rfl, wrU_len h1⟩

theorem updateCoefs_ksame {s s' : FKF1} (h : FKF1.updateCoefs A s = .ok s') : KSame s s' := by
  unfold FKF1.updateCoefs at h
  obtain ⟨_, -, h⟩ := bind_ok h
  obtain ⟨_, -, h⟩ := bind_ok h
  obtain ⟨_, -, h⟩ := bind_ok h
  obtain ⟨_, -, h⟩ := bind_ok h
  obtain ⟨_, -, h⟩ := bind_ok h
  obtain ⟨_, -, h⟩ := bind_ok h
  obtain ⟨var, h1, h⟩ := bind_ok h
  cases h
  exact ⟨rfl, rfl, rfl, rfl, rfl, rfl, rfl, wr_len h1⟩

theorem coefLoop_ksame {k i : ℕ} {s s' : FKF1} {acc acc' : Dbl × Dbl} (h : FKF1.coefLoop A k i s acc = .ok (s', acc')) : KSame s s' := by
  induction k generalizing i s acc with
  | zero => cases h; exact KSame.refl _
  | succ k ih =>
    unfold FKF1.coefLoop at h
    obtain ⟨s1, h1, h⟩ := bind_ok h
    obtain ⟨_, -, h⟩ := bind_ok h
    exact (updateCoefs_ksame h1).trans (ih h)

theorem predict_ksame {s s' : FKF1} {x : Dbl} {r : Dbl × Dbl} (h : FKF1.predict A s x = .ok (s', r)) : KSame s s' := by
  unfold FKF1.predict at h
  obtain ⟨ip, -, h⟩ := bind_ok h
  obtain ⟨s1, h1, h⟩ := bind_ok h
  obtain ⟨s2, h2, h⟩ := bind_ok h
  obtain ⟨⟨m, v⟩, -, h⟩ := bind_ok h
  have k := (reset_ksame h1).trans (iter_ksame h2)
  dsimp only at h
  by_cases hi : ip = s2.time.length
  · rw [if_pos hi] at h
    cases h
    exact k
  · rw [if_neg hi] at h
    obtain ⟨s3, h3, h⟩ := bind_ok h
    obtain ⟨_, -, h⟩ := bind_ok h
    obtain ⟨⟨s4, acc⟩, h4, h⟩ := bind_ok h
    cases h
    exact (k.trans (initCoefs_ksame h3)).trans (coefLoop_ksame h4)

theorem Asked.same {s s' : FKF1} (h : Asked A s s') : KSame s s' := by
  induction h with
  | none => exact KSame.refl s
  | filter _ h ih => exact ih.trans (filter_ksame h)
  | predict _ h ih => exact ih.trans (predict_ksame h)

end Verif.Theory
