import Verif.Model.CarPack
import Verif.Theory.KFBasic

/-!
Frame lemmas: what a filter call reads and what it leaves alone. Two filter objects with the same data and parameters
(`mean`, `var` and the running state may differ) give the same outcome of every call.
-/

namespace Verif.Theory

open Verif.Model

/-- Two outcomes are related: both succeed with related values or both fail in the same way. -/
def ResRel {α β : Type} (R : α → β → Prop) : Res α → Res β → Prop
  | .ok a, .ok b => R a b
  | .error e, .error f => e = f
  | _, _ => False

theorem ResRel.bind {α β γ δ : Type} {R : α → β → Prop} {S : γ → δ → Prop} {x : Res α} {y : Res β}
    {f : α → Res γ} {g : β → Res δ} (h : ResRel R x y) (hf : ∀ a b, R a b → ResRel S (f a) (g b)) :
    ResRel S (x >>= f) (y >>= g) := by
  cases x <;> cases y <;> simp_all [ResRel, Bind.bind, Except.bind]

theorem ResRel.ok {α β : Type} {R : α → β → Prop} {a : α} {b : β} (h : R a b) :
    ResRel R (Except.ok a) (Except.ok b) := h

theorem ResRel.pure {α β : Type} {R : α → β → Prop} {a : α} {b : β} (h : R a b) :
    ResRel R (pure a : Res α) (pure b) := h

theorem ResRel.refl {α : Type} {R : α → α → Prop} (h : ∀ a, R a a) (x : Res α) : ResRel R x x := by
  cases x
  · rfl
  · exact h _

theorem ResRel.eq {α : Type} {x y : Res α} : ResRel (· = ·) x y ↔ x = y := by
  cases x <;> cases y <;> simp [ResRel]

theorem ResRel.mono {α β : Type} {R S : α → β → Prop} {x : Res α} {y : Res β} (h : ResRel R x y)
    (hs : ∀ a b, R a b → S a b) : ResRel S x y := by
  cases x <;> cases y <;> simp_all [ResRel]

theorem ResRel.err {α β : Type} {R : α → β → Prop} (e : Fault) :
    ResRel R (Except.error e : Res α) (Except.error e : Res β) := rfl

/-- Same length and equal below position `k`. -/
def Agree (k : ℕ) (l l' : List ℝ) : Prop := l.length = l'.length ∧ ∀ i < k, l[i]? = l'[i]?

theorem Agree.zero {l l' : List ℝ} (h : l.length = l'.length) : Agree 0 l l' := ⟨h, by simp⟩

theorem Agree.mono {k m : ℕ} {l l' : List ℝ} (h : Agree k l l') (hm : m ≤ k) : Agree m l l' :=
  ⟨h.1, fun i hi => h.2 i (by omega)⟩

theorem Agree.rd {k i : ℕ} {l l' : List ℝ} (h : Agree k l l') (hi : i < k) :
    ResRel (· = ·) (Verif.Model.rd l i) (Verif.Model.rd l' i) := by
  rw [ResRel.eq, Verif.Model.rd, Verif.Model.rd, h.2 i hi]

theorem Agree.wr {k : ℕ} {l l' : List ℝ} (h : Agree k l l') (i : ℕ) (x : ℝ) (hi : i ≤ k) :
    ResRel (fun r r' => Agree (max k (i+1)) r r' ∧ r.length = l.length) (Verif.Model.wr l i x) (Verif.Model.wr l' i x) := by
  unfold Verif.Model.wr
  rw [← h.1]
  split
  · refine ⟨⟨by simp [h.1], fun j hj => ?_⟩, by simp⟩
    by_cases hji : i = j
    · subst hji
      have := h.1
      simp only [List.getElem?_set]
      simp [this]
    · simp only [List.getElem?_set_ne hji]
      exact h.2 j (by omega)
  · rfl

theorem Agree.wrU {k : ℕ} {l l' : List ℝ} (h : Agree k l l') (i : ℕ) (x : ℝ) (hi : i ≤ k) :
    ResRel (fun r r' => Agree (max k (i+1)) r r' ∧ r.length = l.length) (Verif.Model.wrU l i x) (Verif.Model.wrU l' i x) := by
  unfold Verif.Model.wrU
  rw [← h.1]
  split
  · refine ⟨⟨by simp [h.1], fun j hj => ?_⟩, by simp⟩
    by_cases hji : i = j
    · subst hji
      have := h.1
      simp only [List.getElem?_set]
      simp [this]
    · simp only [List.getElem?_set_ne hji]
      exact h.2 j (by omega)
  · rfl

theorem Agree.eq {k : ℕ} {l l' : List ℝ} (h : Agree k l l') (hk : l.length ≤ k) : l = l' := by
  apply List.ext_getElem?
  intro i
  by_cases hi : i < k
  · exact h.2 i hi
  · rw [List.getElem?_eq_none (by omega), List.getElem?_eq_none (by have := h.1; omega)]

/-- Same data members: everything except `mean`, `var` (whose lengths match the number of times), the running index and the
prediction coefficients. -/
structure BSame (a b : KFBase) : Prop where
  time : a.time = b.time
  dt : a.dt = b.dt
  y : a.y = b.y
  yerr : a.yerr = b.yerr
  sigsqr : a.sigsqr = b.sigsqr
  mlen : a.mean.length = a.time.length
  mlen' : b.mean.length = b.time.length
  vlen : a.var.length = a.time.length
  vlen' : b.var.length = b.time.length

/-- Same data, and results agree below the running index `k`. -/
structure BRun (k : ℕ) (a b : KFBase) : Prop extends BSame a b where
  cur : a.cur = k
  cur' : b.cur = k
  mean : Agree k a.mean b.mean
  var : Agree k a.var b.var

/-- Same data, and in the coefficient phase of `Predict`: the variances agree below the running index `k`. -/
structure BCoef (k : ℕ) (a b : KFBase) : Prop extends BSame a b where
  cur : a.cur = k
  cur' : b.cur = k
  var : Agree k a.var b.var
  yconst : a.yconst = b.yconst
  yslope : a.yslope = b.yslope

theorem BSame.symm {a b : KFBase} (h : BSame a b) : BSame b a :=
  ⟨h.time.symm, h.dt.symm, h.y.symm, h.yerr.symm, h.sigsqr.symm, h.mlen', h.mlen, h.vlen', h.vlen⟩

theorem BSame.trans {a b c : KFBase} (h : BSame a b) (h' : BSame b c) : BSame a c :=
  ⟨h.time.trans h'.time, h.dt.trans h'.dt, h.y.trans h'.y, h.yerr.trans h'.yerr, h.sigsqr.trans h'.sigsqr,
    h.mlen, h'.mlen', h.vlen, h'.vlen'⟩

theorem wr_length {l : List ℝ} {i : ℕ} {x : ℝ} {r : List ℝ} (h : wr l i x = .ok r) : r.length = l.length := by
  unfold wr at h
  split at h
  · cases h; simp
  · cases h

theorem wrU_length {l : List ℝ} {i : ℕ} {x : ℝ} {r : List ℝ} (h : wrU l i x = .ok r) : r.length = l.length := by
  unfold wrU at h
  split at h
  · cases h; simp
  · cases h

/-- Two objects have the same data, and parameters related by `P`. -/
def Same {σ : Type} [Kalman σ] (P : σ → σ → Prop) (a b : σ) : Prop :=
  BSame (Kalman.base a) (Kalman.base b) ∧ P a b

/-- A frame for a filter class: `P` says that two objects have the same parameters. -/
structure Framed (σ : Type) [Kalman σ] (P : σ → σ → Prop) : Prop where
  symm : ∀ a b, P a b → P b a
  trans : ∀ a b c, P a b → P b c → P a c
  set : ∀ a x, P a (Kalman.setBase a x)
  base_setBase : ∀ (a : σ) x, Kalman.base (Kalman.setBase a x) = x
  filter : ∀ a b, Same P a b → ResRel (fun a' b' => Same P a a' ∧ Same P b b' ∧
    (Kalman.base a').mean = (Kalman.base b').mean ∧
    (Kalman.base a').var = (Kalman.base b').var) (Kalman.filter a) (Kalman.filter b)
  predict : ∀ a b t, Same P a b → ResRel (fun a' b' => Same P a a'.1 ∧ Same P b b'.1 ∧ a'.2 = b'.2)
    (Kalman.predict a t) (Kalman.predict b t)

section
variable {σ : Type} [Kalman σ] {P : σ → σ → Prop} (hP : Framed σ P)
include hP

theorem Framed.sSymm {a b : σ} (h : Same P a b) : Same P b a := ⟨h.1.symm, hP.symm _ _ h.2⟩

theorem Framed.sTrans {a b c : σ} (h : Same P a b) (h' : Same P b c) : Same P a c :=
  ⟨h.1.trans h'.1, hP.trans _ _ _ h.2 h'.2⟩

theorem Framed.simStep {a b : σ} (h : Same P a b) (t z : ℝ) :
    ResRel (fun a' b' => Same P a'.1 b'.1 ∧ P a a'.1 ∧ (Kalman.base a'.1).sigsqr = (Kalman.base a).sigsqr ∧
      a'.2 = b'.2) (Kalman.simStep a t z) (Kalman.simStep b t z) := by
  unfold Kalman.simStep
  refine ResRel.bind (hP.predict a b t h) fun x y hxy => ?_
  obtain ⟨c, mu, v⟩ := x
  obtain ⟨d, mu', v'⟩ := y
  obtain ⟨hc, hd, he⟩ := hxy
  dsimp only at hc hd he ⊢
  cases he
  have hcd : Same P c d := hP.sTrans (hP.sSymm hc) (hP.sTrans h hd)
  rw [← hcd.1.time, ← hcd.1.y, ← hcd.1.yerr]
  refine ResRel.bind (ResRel.refl (R := (· = ·)) (fun _ => rfl) _) fun ys _ h1 => ?_
  subst h1
  refine ResRel.bind (ResRel.refl (R := (· = ·)) (fun _ => rfl) _) fun idx _ h1 => ?_
  subst h1
  refine ResRel.bind (ResRel.refl (R := (· = ·)) (fun _ => rfl) _) fun time _ h1 => ?_
  subst h1
  refine ResRel.bind (ResRel.refl (R := (· = ·)) (fun _ => rfl) _) fun dt _ h1 => ?_
  subst h1
  refine ResRel.bind (ResRel.refl (R := (· = ·)) (fun _ => rfl) _) fun y _ h1 => ?_
  subst h1
  refine ResRel.bind (ResRel.refl (R := (· = ·)) (fun _ => rfl) _) fun ye _ h1 => ?_
  subst h1
  refine ResRel.pure ⟨⟨?_, ?_⟩, ?_, ?_, rfl⟩
  · simp only [hP.base_setBase]
    refine ⟨rfl, rfl, rfl, rfl, hcd.1.sigsqr, ?_, ?_, ?_, ?_⟩ <;> simp
  · exact hP.trans _ _ _ (hP.symm _ _ (hP.set _ _)) (hP.trans _ _ _ hcd.2 (hP.set _ _))
  · exact hP.trans _ _ _ hc.2 (hP.set _ _)
  · simp only [hP.base_setBase]
    exact hc.1.sigsqr.symm

theorem Framed.simLoop (ts : List ℝ) {a b : σ} (h : Same P a b) (zs : ℕ → ℝ) :
    ResRel (fun a' b' => Same P a'.1 b'.1 ∧ P a a'.1 ∧ (Kalman.base a'.1).sigsqr = (Kalman.base a).sigsqr ∧
      a'.2 = b'.2) (Kalman.simLoop a ts zs) (Kalman.simLoop b ts zs) := by
  induction ts generalizing a b zs with
  | nil => exact ⟨h, hP.trans _ _ _ h.2 (hP.symm _ _ h.2), rfl, rfl⟩
  | cons t ts ih =>
      unfold Kalman.simLoop
      refine ResRel.bind (hP.simStep h t _) fun x y hxy => ?_
      obtain ⟨c, u⟩ := x
      obtain ⟨d, u'⟩ := y
      obtain ⟨hcd, hac, hs, rfl⟩ := hxy
      dsimp only at hcd hac hs ⊢
      refine ResRel.bind (ih hcd _) fun x y hxy => ?_
      obtain ⟨e, w⟩ := x
      obtain ⟨f, w'⟩ := y
      obtain ⟨hef, hce, hs', rfl⟩ := hxy
      exact ResRel.pure ⟨hef, hP.trans _ _ _ hac hce, hs'.trans hs, rfl⟩

theorem Framed.simulate (ts : List ℝ) {a b : σ} (h : Same P a b) (zs : ℕ → ℝ)
    (hd : diffs (Kalman.base a).time = .ok (Kalman.base a).dt) :
    ResRel (fun a' b' => Same P a a'.1 ∧ Same P b b'.1 ∧ a'.2 = b'.2) (Kalman.simulate a ts zs)
      (Kalman.simulate b ts zs) := by
  unfold Kalman.simulate
  refine ResRel.bind (hP.simLoop _ h zs) fun x y hxy => ?_
  obtain ⟨c, u⟩ := x
  obtain ⟨d, u'⟩ := y
  obtain ⟨hcd, hac, hs, rfl⟩ := hxy
  dsimp only at hcd hac hs ⊢
  rw [← h.1.time, hd]
  refine ResRel.pure ⟨⟨?_, ?_⟩, ⟨?_, ?_⟩, rfl⟩
  · simp only [hP.base_setBase]
    refine ⟨rfl, rfl, rfl, rfl, hs.symm, h.1.mlen, ?_, h.1.vlen, ?_⟩ <;> simp
  · exact hP.trans _ _ _ hac (hP.set _ _)
  · simp only [hP.base_setBase]
    refine ⟨h.1.time.symm, h.1.dt.symm, rfl, rfl, ?_, h.1.mlen', ?_, h.1.vlen', ?_⟩
    · rw [← hcd.1.sigsqr, hs, h.1.sigsqr]
    · simp
    · simp
  · exact hP.trans _ _ _ (hP.symm _ _ h.2) (hP.trans _ _ _ hac (hP.trans _ _ _ hcd.2 (hP.set _ _)))

end

/-- What the constructors establish. -/
structure Fresh (b : KFBase) : Prop where
  diff : diffs b.time = .ok b.dt
  mlen : b.mean.length = b.time.length
  vlen : b.var.length = b.time.length

theorem Fresh.same {b : KFBase} (h : Fresh b) : BSame b b :=
  ⟨rfl, rfl, rfl, rfl, rfl, h.mlen, h.mlen, h.vlen, h.vlen⟩

theorem Fresh.of_same {b b' : KFBase} (h : Fresh b) (hs : BSame b b') : Fresh b' :=
  ⟨by rw [← hs.time, ← hs.dt, h.diff], hs.mlen', hs.vlen'⟩

theorem bind_ok_inv {α β : Type} {x : Res α} {f : α → Res β} {b : β} (h : x >>= f = .ok b) :
    ∃ a, x = .ok a ∧ f a = .ok b := by
  cases x with
  | error e => cases h
  | ok a => exact ⟨a, rfl, h⟩

open scoped Classical in
theorem initSort_diffs {srt : List ℝ → List ℕ} {b b' : KFBase} (h : initSort srt b = .ok b') :
    diffs b'.time = .ok b'.dt := by
  unfold initSort at h
  obtain ⟨dt, h1, h⟩ := bind_ok_inv h
  split at h
  · obtain ⟨t, h2, h⟩ := bind_ok_inv h
    obtain ⟨y, h3, h⟩ := bind_ok_inv h
    obtain ⟨e, h4, h⟩ := bind_ok_inv h
    obtain ⟨d, h5, h⟩ := bind_ok_inv h
    cases h
    exact h5
  · cases h
    exact h1

open scoped Classical in
theorem init_fresh {srt : List ℝ → List ℕ} {b b' : KFBase} (h : b.init srt = .ok b') : Fresh b' := by
  unfold KFBase.init at h
  obtain ⟨s, h1, h⟩ := bind_ok_inv h
  unfold initDedup at h
  obtain ⟨s', h2, h⟩ := bind_ok_inv h
  cases h
  refine ⟨?_, by simp, by simp⟩
  split at h2
  · obtain ⟨t, h2', h⟩ := bind_ok_inv h2
    obtain ⟨y, h3, h⟩ := bind_ok_inv h
    obtain ⟨e, h4, h⟩ := bind_ok_inv h
    obtain ⟨d, h5, h⟩ := bind_ok_inv h
    cases h
    exact h5
  · cases h2
    have := initSort_diffs h1
    exact this

end Verif.Theory
