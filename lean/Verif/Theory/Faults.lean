import Verif.Theory.Frame
import Verif.Theory.FilterTotal

/-!
Which faults `Filter()` can end in and what is known about an object on which it returns, with no assumption on the object.
-/

namespace Verif.Theory

open Verif.Model

/-! ### kinds of faults -/

/-- A call that fails does so with a fault satisfying `P`. -/
def Only {α : Type} (P : Fault → Prop) (x : Res α) : Prop := ∀ e, x = .error e → P e

section
variable {α β : Type} {P : Fault → Prop}

lemma Only.ok (a : α) : Only P (.ok a : Res α) := fun _ h => by cases h
lemma Only.pure (a : α) : Only P (pure a : Res α) := fun _ h => by cases h
lemma Only.error {e : Fault} (h : P e) : Only P (.error e : Res α) := fun _ h' => by cases h'; exact h
lemma Only.throw {e : Fault} (h : P e) : Only P (throw e : Res α) := fun _ h' => by cases h'; exact h

lemma Only.bind {x : Res α} {f : α → Res β} (hx : Only P x) (hf : ∀ a, x = .ok a → Only P (f a)) : Only P (x >>= f) := by
  intro e h
  cases x with
  | error e' => cases h; exact hx _ rfl
  | ok a => exact hf a rfl e h

lemma Only.rd (hb : P .bounds) (l : List α) (i : ℕ) : Only P (rd l i) := by
  intro e h; unfold Model.rd at h; split at h <;> cases h; exact hb

lemma Only.wr (hb : P .bounds) (l : List α) (i : ℕ) (a : α) : Only P (wr l i a) := by
  intro e h; unfold Model.wr at h; split at h <;> cases h; exact hb

lemma Only.dv (hb : P .nonfinite) (a b : ℝ) : Only P (dv a b) := by
  intro e h; unfold Model.dv at h; split at h <;> cases h; exact hb

lemma Only.prevIdx (hb : P .bounds) (c : ℕ) : Only P (prevIdx c) := by
  intro e h; unfold Model.prevIdx at h; split at h <;> cases h; exact hb

lemma Only.iter {f : α → Res α} (hf : ∀ a, Only P (f a)) (k : ℕ) (a : α) : Only P (iter f k a) := by
  induction k with
  | zero => exact Only.ok a
  | succ k ih => exact ih.bind fun a _ => hf a

end

/-! ### CAR(1) -/

/-- a failed check or a division by zero -/
def BN (e : Fault) : Prop := e = .bounds ∨ e = .nonfinite

lemma KF1.reset_only (s : KF1) : Only BN (KF1.reset s) := by
  unfold KF1.reset
  exact (Only.wr (.inl rfl) _ _ _).bind fun _ _ => (Only.dv (.inr rfl) _ _).bind fun _ _ => (Only.rd (.inl rfl) _ _).bind fun _ _ =>
    (Only.wr (.inl rfl) _ _ _).bind fun _ _ => Only.pure _

lemma KF1.update_only (s : KF1) : Only BN (KF1.update s) := by
  unfold KF1.update
  exact (Only.prevIdx (.inl rfl) _).bind fun _ _ => (Only.rd (.inl rfl) _ _).bind fun _ _ => (Only.rd (.inl rfl) _ _).bind fun _ _ =>
    (Only.rd (.inl rfl) _ _).bind fun _ _ => (Only.dv (.inr rfl) _ _).bind fun _ _ => (Only.rd (.inl rfl) _ _).bind fun _ _ =>
    (Only.rd (.inl rfl) _ _).bind fun _ _ => (Only.wr (.inl rfl) _ _ _).bind fun _ _ => (Only.dv (.inr rfl) _ _).bind fun _ _ =>
    (Only.wr (.inl rfl) _ _ _).bind fun _ _ => (Only.rd (.inl rfl) _ _).bind fun _ _ => (Only.rd (.inl rfl) _ _).bind fun _ _ =>
    (Only.wr (.inl rfl) _ _ _).bind fun _ _ => Only.pure _

lemma KF1.filter_only (s : KF1) : Only BN (Kalman.filter s) :=
  (KF1.reset_only s).bind fun _ _ => Only.iter KF1.update_only _ _

lemma rd_inv {α : Type} {l : List α} {i : ℕ} {a : α} (h : rd l i = .ok a) : i < l.length ∧ l[i]? = some a := by
  unfold rd at h
  split at h
  · rename_i h1; injection h with h; subst h
    exact ⟨(List.getElem?_eq_some_iff.mp h1).1, h1⟩
  · cases h

lemma wr_inv {α : Type} {l l' : List α} {i : ℕ} {a : α} (h : wr l i a = .ok l') : i < l.length ∧ l' = l.set i a := by
  unfold wr at h
  split at h
  · rename_i h1; injection h with h; exact ⟨h1, h.symm⟩
  · cases h

lemma dv_inv {a b c : ℝ} (h : dv a b = .ok c) : b ≠ 0 ∧ c = a / b := by
  unfold dv at h
  split at h
  · cases h
  · rename_i h1; injection h with h; exact ⟨h1, h.symm⟩

lemma prevIdx_inv {c k : ℕ} (h : prevIdx c = .ok k) : c = k + 1 := by
  unfold prevIdx at h
  split at h
  · cases h
  · rename_i h1; injection h with h; omega

/-- what the loop of `Filter()` has used after `k` passes -/
structure Used (b b' : KFBase) (k : ℕ) : Prop where
  cur : b'.cur = k + 1
  same : SameData b b'
  mean : b'.mean.length = b.mean.length
  var : b'.var.length = b.var.length
  m : k + 1 ≤ b.mean.length
  v : k + 1 ≤ b.var.length
  e : k + 1 ≤ b.yerr.length
  dt : k ≤ b.dt.length

lemma KF1.reset_used {s s' : KF1} (h : KF1.reset s = .ok s') : Used s.b s'.b 0 ∧ s'.omega = s.omega ∧ s.omega ≠ 0 := by
  unfold KF1.reset at h
  obtain ⟨m, h1, h⟩ := bind_ok_inv h
  obtain ⟨q, h2, h⟩ := bind_ok_inv h
  obtain ⟨e, h3, h⟩ := bind_ok_inv h
  obtain ⟨v, h4, h⟩ := bind_ok_inv h
  injection h with h
  subst h
  have h1 := wr_inv h1
  have h4 := wr_inv h4
  refine ⟨⟨rfl, ⟨rfl, rfl, rfl, rfl, rfl⟩, ?_, ?_, h1.1, h4.1, (rd_inv h3).1, Nat.zero_le _⟩, rfl, fun h0 => (dv_inv h2).1 (by rw [h0]; simp)⟩
  · simp [h1.2]
  · simp [h4.2]

lemma KF1.iter_used {s0 s : KF1} (h0 : KF1.reset s0 = .ok s) (k : ℕ) {s' : KF1} (h : iter KF1.update k s = .ok s') :
    Used s0.b s'.b k ∧ s'.omega = s0.omega ∧ k ≤ s0.b.y.length := by
  induction k generalizing s' with
  | zero =>
      cases h
      exact ⟨(KF1.reset_used h0).1, (KF1.reset_used h0).2.1, Nat.zero_le _⟩
  | succ k ih =>
      obtain ⟨s1, h1, h⟩ := bind_ok_inv h
      obtain ⟨u, ho, hy⟩ := ih h1
      unfold KF1.update at h
      obtain ⟨c1, g1, h⟩ := bind_ok_inv h
      obtain ⟨dt, g2, h⟩ := bind_ok_inv h
      obtain ⟨vp, g3, h⟩ := bind_ok_inv h
      obtain ⟨ep, g4, h⟩ := bind_ok_inv h
      obtain ⟨vr, g5, h⟩ := bind_ok_inv h
      obtain ⟨mp, g6, h⟩ := bind_ok_inv h
      obtain ⟨yp, g7, h⟩ := bind_ok_inv h
      obtain ⟨mean, g8, h⟩ := bind_ok_inv h
      obtain ⟨q, g9, h⟩ := bind_ok_inv h
      obtain ⟨v1, g10, h⟩ := bind_ok_inv h
      obtain ⟨ec, g11, h⟩ := bind_ok_inv h
      obtain ⟨vc, g12, h⟩ := bind_ok_inv h
      obtain ⟨v2, g13, h⟩ := bind_ok_inv h
      injection h with h
      subst h
      have hc := prevIdx_inv g1
      have hck : c1 = k := by have := u.cur; omega
      subst hck
      have g8 := wr_inv g8
      have g10 := wr_inv g10
      have g13 := wr_inv g13
      have sd := u.same
      have := (rd_inv g2).1
      have := (rd_inv g7).1
      have := (rd_inv g11).1
      have := u.cur
      have := u.mean
      have := u.var
      have e1 := congrArg List.length sd.y
      have e2 := congrArg List.length sd.yerr
      have e3 := congrArg List.length sd.dt
      refine ⟨⟨by dsimp only; omega, ⟨sd.1, sd.2, sd.3, sd.4, sd.5⟩, ?_, ?_, by omega, by omega, by omega, by omega⟩, ho, by omega⟩
      · rw [g8.2]; simpa using u.mean
      · rw [g13.2, g10.2]; simpa using u.var

/-! ### CARMA -/

/-- a failed check, a singular system or a division by zero -/
def BRN (e : Fault) : Prop := e = .bounds ∨ e = .runtime ∨ e = .nonfinite

variable {p : ℕ}

lemma KFp.reset_only (s : KFp p) (hp : s.pset = true) : Only BRN (KFp.reset s) := by
  unfold KFp.reset
  have hps : ¬ s.pset = false := by simp [hp]
  rw [if_neg hps]
  by_cases h2 : p < 2
  · rw [if_pos h2]; exact Only.error (.inl rfl)
  rw [if_neg h2]
  refine Only.bind (by unfold KFp.jvec; split; exacts [Only.error (.inr (.inl rfl)), Only.ok _]) fun _ _ => ?_
  refine Only.bind (by unfold KFp.rotate; split; exacts [Only.ok _, Only.error (.inl rfl)]) fun _ _ => ?_
  refine Only.bind (by unfold KFp.stateVar; dsimp only; split; exacts [Only.error (.inr (.inr rfl)), Only.ok _]) fun _ _ => ?_
  exact (Only.wr (.inl rfl) _ _ _).bind fun _ _ => (Only.rd (.inl rfl) _ _).bind fun _ _ => (Only.wr (.inl rfl) _ _ _).bind fun _ _ =>
    (Only.rd (.inl rfl) _ _).bind fun _ _ => (Only.wr (.inl rfl) _ _ _).bind fun _ _ => (Only.rd (.inl rfl) _ _).bind fun _ _ => Only.pure _

lemma KFp.update_only (s : KFp p) : Only BRN (KFp.update s) := by
  unfold KFp.update
  exact (Only.prevIdx (.inl rfl) _).bind fun _ _ => (Only.rd (.inl rfl) _ _).bind fun _ _ =>
    Only.bind (by unfold KFp.gainOf; split; exacts [Only.error (.inr (.inr rfl)), Only.ok _]) fun _ _ =>
    (Only.rd (.inl rfl) _ _).bind fun _ _ => (Only.wr (.inl rfl) _ _ _).bind fun _ _ => (Only.wr (.inl rfl) _ _ _).bind fun _ _ =>
    (Only.rd (.inl rfl) _ _).bind fun _ _ => (Only.rd (.inl rfl) _ _).bind fun _ _ => (Only.wr (.inl rfl) _ _ _).bind fun _ _ =>
    (Only.rd (.inl rfl) _ _).bind fun _ _ => (Only.rd (.inl rfl) _ _).bind fun _ _ => Only.pure _

lemma KFp.filter_only (s : KFp p) (hp : s.pset = true) : Only BRN (Kalman.filter s) :=
  (KFp.reset_only s hp).bind fun _ _ => Only.iter KFp.update_only _ _

lemma KFp.reset_used {s s' : KFp p} (h : KFp.reset s = .ok s') :
    Used s.b s'.b 0 ∧ s.pset = true ∧ 2 ≤ p ∧ Function.Injective s.omega ∧ s.ma.length = p ∧ 1 ≤ s.b.y.length ∧
      ∀ i j, s.omega i + star (s.omega j) ≠ 0 := by
  unfold KFp.reset at h
  by_cases hps : s.pset = false
  · rw [if_pos hps] at h; cases h
  rw [if_neg hps] at h
  by_cases hp : p < 2
  · rw [if_pos hp] at h; cases h
  rw [if_neg hp] at h
  obtain ⟨J, g1, h⟩ := bind_ok_inv h
  obtain ⟨rot, g2, h⟩ := bind_ok_inv h
  obtain ⟨V, g3, h⟩ := bind_ok_inv h
  obtain ⟨m, h1, h⟩ := bind_ok_inv h
  obtain ⟨e, h2, h⟩ := bind_ok_inv h
  obtain ⟨v, h3, h⟩ := bind_ok_inv h
  obtain ⟨v0, h4, h⟩ := bind_ok_inv h
  obtain ⟨v', h5, h⟩ := bind_ok_inv h
  obtain ⟨y0, h6, h⟩ := bind_ok_inv h
  injection h with h
  subst h
  have h1 := wr_inv h1
  have h3 := wr_inv h3
  have h5 := wr_inv h5
  refine ⟨⟨rfl, ⟨rfl, rfl, rfl, rfl, rfl⟩, ?_, ?_, h1.1, h3.1, (rd_inv h2).1, Nat.zero_le _⟩, by simpa using hps, by omega, ?_, ?_, (rd_inv h6).1, ?_⟩
  · simp [h1.2]
  · simp [h3.2, h5.2]
  · unfold KFp.jvec at g1
    split at g1
    · cases g1
    · rename_i hd; exact eigenMat_det_ne_zero.mp hd
  · unfold KFp.rotate at g2
    split at g2
    · assumption
    · cases g2
  · unfold KFp.stateVar at g3
    dsimp only at g3
    split at g3
    · cases g3
    · rename_i hd
      intro i j h0
      rcases le_total i j with hij | hij
      · exact hd ⟨i, j, hij, h0⟩
      · refine hd ⟨j, i, hij, ?_⟩
        have := congrArg star h0
        rwa [star_add, star_star, star_zero, add_comm] at this

lemma KFp.iter_used {s0 s : KFp p} (h0 : KFp.reset s0 = .ok s) (k : ℕ) {s' : KFp p} (h : iter KFp.update k s = .ok s') :
    Used s0.b s'.b k ∧ k + 1 ≤ s0.b.y.length := by
  induction k generalizing s' with
  | zero =>
      cases h
      exact ⟨(KFp.reset_used h0).1, (KFp.reset_used h0).2.2.2.2.2.1⟩
  | succ k ih =>
      obtain ⟨s1, h1, h⟩ := bind_ok_inv h
      obtain ⟨u, hy⟩ := ih h1
      unfold KFp.update at h
      obtain ⟨c1, g1, h⟩ := bind_ok_inv h
      obtain ⟨vp, g3, h⟩ := bind_ok_inv h
      obtain ⟨gain, g4, h⟩ := bind_ok_inv h
      obtain ⟨dt, g2, h⟩ := bind_ok_inv h
      obtain ⟨mean, g8, h⟩ := bind_ok_inv h
      obtain ⟨v1, g10, h⟩ := bind_ok_inv h
      obtain ⟨vc, g12, h⟩ := bind_ok_inv h
      obtain ⟨ec, g11, h⟩ := bind_ok_inv h
      obtain ⟨v2, g13, h⟩ := bind_ok_inv h
      obtain ⟨yc, g7, h⟩ := bind_ok_inv h
      obtain ⟨mc, g14, h⟩ := bind_ok_inv h
      injection h with h
      subst h
      have hc := prevIdx_inv g1
      have hck : c1 = k := by have := u.cur; omega
      subst hck
      have g8 := wr_inv g8
      have g10 := wr_inv g10
      have g13 := wr_inv g13
      have sd := u.same
      have := (rd_inv g2).1
      have := (rd_inv g7).1
      have := (rd_inv g11).1
      have := u.cur
      have := u.mean
      have := u.var
      have e1 := congrArg List.length sd.y
      have e2 := congrArg List.length sd.yerr
      have e3 := congrArg List.length sd.dt
      refine ⟨⟨by dsimp only; omega, ⟨sd.1, sd.2, sd.3, sd.4, sd.5⟩, ?_, ?_, by omega, by omega, by omega, by omega⟩, by omega⟩
      · rw [g8.2]; simpa using u.mean
      · rw [g13.2, g10.2]; simpa using u.var

end Verif.Theory
