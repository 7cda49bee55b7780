import Verif.Theory.FPredict

/-!
The answer of `Predict` does not depend on what earlier calls left in the object.
-/

namespace Verif.Theory

open Verif.Model Verif.Spec
open scoped Classical

variable {A : Arith}

/-- two objects that differ at most in the entries of `mean` from `a` on and of `var` from `c` on -/
structure PredPre (a c : ℕ) (s k : FKF1) : Prop where
  same : KSame s k
  cur : s.cur = c
  kcur : k.cur = c
  yconst : k.yconst = s.yconst
  yslope : k.yslope = s.yslope
  mean : ∀ i < a, k.mean[i]? = s.mean[i]?
  var : ∀ i < c, k.var[i]? = s.var[i]?

theorem rd_congr {α : Type} {l l' : List α} {i : ℕ} (h : l'[i]? = l[i]?) : rd l' i = rd l i := by unfold rd; rw [h]

theorem set_congr {l l' : List Dbl} {c : ℕ} (hl : l'.length = l.length) (h : ∀ i < c, l'[i]? = l[i]?) (x : Dbl) :
    ∀ i < c + 1, (l'.set c x)[i]? = (l.set c x)[i]? := by
  intro i hi
  by_cases e : c = i
  · subst e; simp [List.getElem?_set, hl]
  · rw [List.getElem?_set_ne e, List.getElem?_set_ne e, h i (by omega)]

theorem wr_congr {l l' m : List Dbl} {c : ℕ} {x : Dbl} (hl : l'.length = l.length) (h : ∀ i < c, l'[i]? = l[i]?) (e : wr l c x = .ok m) :
    ∃ m', wr l' c x = .ok m' ∧ m'.length = m.length ∧ ∀ i < c + 1, m'[i]? = m[i]? := by
  unfold wr at e ⊢
  rw [hl]
  by_cases hc : c < l.length
  · rw [if_pos hc] at e ⊢
    cases e
    exact ⟨_, rfl, by simp [hl], set_congr hl h x⟩
  · rw [if_neg hc] at e; cases e

theorem wrU_congr {l l' m : List Dbl} {c : ℕ} {x : Dbl} (hl : l'.length = l.length) (h : ∀ i < c, l'[i]? = l[i]?) (e : wrU l c x = .ok m) :
    ∃ m', wrU l' c x = .ok m' ∧ m'.length = m.length ∧ ∀ i < c + 1, m'[i]? = m[i]? := by
  unfold wrU at e ⊢
  rw [hl]
  by_cases hc : c < l.length
  · rw [if_pos hc] at e ⊢
    cases e
    exact ⟨_, rfl, by simp [hl], set_congr hl h x⟩
  · rw [if_neg hc] at e; cases e

theorem reset_pre {s k s' : FKF1} (h : KSame s k) (e : FKF1.reset A s = .ok s') : ∃ k', FKF1.reset A k = .ok k' ∧ PredPre 1 1 s' k' := by
  obtain ⟨t1, t2, t3, t4, t5, t6, t7, t8⟩ := h
  unfold FKF1.reset at e ⊢
  obtain ⟨m, e1, e⟩ := bind_ok e
  obtain ⟨e0, e2, e⟩ := bind_ok e
  obtain ⟨v, e3, e⟩ := bind_ok e
  cases e
  obtain ⟨m', f1, l1, g1⟩ := wr_congr t7 (fun i hi => absurd hi (Nat.not_lt_zero i)) e1
  obtain ⟨v', f3, l3, g3⟩ := wr_congr t8 (fun i hi => absurd hi (Nat.not_lt_zero i)) e3
  rw [f1, res_bind_ok, t4, e2, res_bind_ok, t5, t6, f3, res_bind_ok]
  exact ⟨_, rfl, ⟨t1, t2, t3, rfl, rfl, rfl, l1, l3⟩, rfl, rfl, rfl, rfl, g1, g3⟩

theorem prevIdx_lt {c c1 : ℕ} (h : prevIdx c = .ok c1) : c1 < c := by
  unfold prevIdx at h
  split at h
  · cases h
  · cases h; omega

theorem update_pre {c : ℕ} {s k s' : FKF1} (h : PredPre c c s k) (e : FKF1.update A s = .ok s') :
    ∃ k', FKF1.update A k = .ok k' ∧ PredPre (c + 1) (c + 1) s' k' := by
  obtain ⟨⟨t1, t2, t3, t4, t5, t6, t7, t8⟩, hc, kc, hy, hs, hm, hv⟩ := h
  unfold FKF1.update at e ⊢
  rw [hc] at e
  obtain ⟨c1, e1, e⟩ := bind_ok e
  have hlt := prevIdx_lt e1
  obtain ⟨dt, e2, e⟩ := bind_ok e
  obtain ⟨vp, e3, e⟩ := bind_ok e
  obtain ⟨ep, e4, e⟩ := bind_ok e
  obtain ⟨mp, e5, e⟩ := bind_ok e
  obtain ⟨yp, e6, e⟩ := bind_ok e
  obtain ⟨m, e7, e⟩ := bind_ok e
  obtain ⟨v, e8, e⟩ := bind_ok e
  obtain ⟨ec, e9, e⟩ := bind_ok e
  obtain ⟨vc, e10, e⟩ := bind_ok e
  obtain ⟨v2, e11, e⟩ := bind_ok e
  cases e
  obtain ⟨m', f7, l7, g7⟩ := wr_congr t7 hm e7
  obtain ⟨v', f8, l8, g8⟩ := wr_congr t8 hv e8
  obtain ⟨v2', f11, l11, g11⟩ := wr_congr l8 (fun i hi => g8 i (by omega)) e11
  simp only [kc, e1, res_bind_ok, t2, e2, rd_congr (hv c1 hlt), e3, t4, e4, rd_congr (hm c1 hlt), e5, t3, e6, t5, t6, f7, f8, e9,
    rd_congr (g8 c (by omega)), e10, f11]
  exact ⟨_, rfl, ⟨t1, rfl, rfl, rfl, rfl, rfl, l7, l11⟩, rfl, rfl, hy, hs, g7, g11⟩

theorem iter_pre {n c : ℕ} {s k s' : FKF1} (h : PredPre c c s k) (e : iter (FKF1.update A) n s = .ok s') :
    ∃ k', iter (FKF1.update A) n k = .ok k' ∧ PredPre (c + n) (c + n) s' k' := by
  induction n generalizing s' with
  | zero => cases e; exact ⟨k, rfl, h⟩
  | succ n ih =>
    obtain ⟨s1, e1, e⟩ := bind_ok e
    obtain ⟨k1, f1, h1⟩ := ih e1
    obtain ⟨k', f, h'⟩ := update_pre h1 e
    exact ⟨k', by rw [iter, f1, res_bind_ok, f], h'⟩

theorem past_pre {a c i : ℕ} {s k : FKF1} (h : PredPre a c s k) (ha : i ≤ a) (hc : i ≤ c) (x : Dbl) : FKF1.predictPast A k x i = FKF1.predictPast A s x i := by
  obtain ⟨⟨t1, t2, t3, t4, t5, t6, -, -⟩, -, -, -, -, hm, hv⟩ := h
  unfold FKF1.predictPast
  by_cases hi : i = 0
  · rw [if_pos hi, if_pos hi, t5, t6]
  · rw [if_neg hi, if_neg hi, t1, t3, t4, t5, t6, rd_congr (hv (i - 1) (by omega)), rd_congr (hm (i - 1) (by omega))]

theorem initCoefs_pre {a c i : ℕ} {s k s' : FKF1} (h : PredPre a c s k) (hc : i ≤ c) {x : Dbl} (e : FKF1.initCoefs A s x i = .ok s') :
    ∃ k', FKF1.initCoefs A k x i = .ok k' ∧ PredPre 0 (i + 1) s' k' := by
  obtain ⟨⟨t1, t2, t3, t4, t5, t6, t7, t8⟩, -, -, -, -, -, hv⟩ := h
  unfold FKF1.initCoefs at e ⊢
  obtain ⟨ti, e1, e⟩ := bind_ok e
  obtain ⟨ei, e2, e⟩ := bind_ok e
  obtain ⟨v, e3, e⟩ := bind_ok e
  cases e
  obtain ⟨v', f3, l3, g3⟩ := wrU_congr t8 (fun j hj => hv j (by omega)) e3
  simp only [t1, e1, res_bind_ok, t4, e2, t5, t6, f3]
  exact ⟨_, rfl, ⟨rfl, t2, t3, rfl, rfl, rfl, t7, l3⟩, rfl, rfl, rfl, rfl, fun j hj => absurd hj (Nat.not_lt_zero j), g3⟩

theorem updateCoefs_pre {c : ℕ} {s k s' : FKF1} (h : PredPre 0 c s k) (e : FKF1.updateCoefs A s = .ok s') :
    ∃ k', FKF1.updateCoefs A k = .ok k' ∧ PredPre 0 (c + 1) s' k' := by
  obtain ⟨⟨t1, t2, t3, t4, t5, t6, t7, t8⟩, hc, kc, hy, hs, -, hv⟩ := h
  unfold FKF1.updateCoefs at e ⊢
  rw [hc] at e
  obtain ⟨c1, e1, e⟩ := bind_ok e
  have hlt := prevIdx_lt e1
  obtain ⟨dt, e2, e⟩ := bind_ok e
  obtain ⟨vp, e3, e⟩ := bind_ok e
  obtain ⟨ep, e4, e⟩ := bind_ok e
  obtain ⟨yp, e5, e⟩ := bind_ok e
  obtain ⟨ec, e6, e⟩ := bind_ok e
  obtain ⟨v, e7, e⟩ := bind_ok e
  cases e
  obtain ⟨v', f7, l7, g7⟩ := wr_congr t8 hv e7
  simp only [kc, e1, res_bind_ok, t2, e2, rd_congr (hv c1 hlt), e3, t4, e4, t3, e5, e6, t5, t6, f7]
  exact ⟨_, rfl, ⟨t1, rfl, rfl, rfl, rfl, rfl, t7, l7⟩, rfl, rfl, by simp only [hy], by simp only [hs], fun j hj => absurd hj (Nat.not_lt_zero j), g7⟩

theorem accum_pre {c i : ℕ} {s k : FKF1} (h : PredPre 0 c s k) (hi : i < c) (acc : Dbl × Dbl) : FKF1.accum A k i acc = FKF1.accum A s i acc := by
  unfold FKF1.accum
  rw [rd_congr (h.var i hi), h.same.y, h.yconst, h.yslope]

theorem coefLoop_pre {n i : ℕ} {s k s' : FKF1} {acc r : Dbl × Dbl} (h : PredPre 0 i s k) (e : FKF1.coefLoop A n i s acc = .ok (s', r)) :
    ∃ k', FKF1.coefLoop A n i k acc = .ok (k', r) := by
  induction n generalizing i s k acc with
  | zero => cases e; exact ⟨k, rfl⟩
  | succ n ih =>
    obtain ⟨s1, e1, e⟩ := bind_ok e
    obtain ⟨a1, e2, e⟩ := bind_ok e
    obtain ⟨k1, f1, h1⟩ := updateCoefs_pre h e1
    obtain ⟨k', f⟩ := ih h1 e
    exact ⟨k', by rw [FKF1.coefLoop, f1, res_bind_ok, accum_pre h1 (by omega), e2, res_bind_ok, f]⟩

theorem KSame.symm {s s' : FKF1} (h : KSame s s') : KSame s' s :=
  ⟨h.time.symm, h.dt.symm, h.y.symm, h.yerr.symm, h.sigsqr.symm, h.omega.symm, h.lmean.symm, h.lvar.symm⟩

theorem predict_pre {s k s' : FKF1} {x : Dbl} {r : Dbl × Dbl} (h : KSame s k) (e : FKF1.predict A s x = .ok (s', r)) :
    ∃ k', FKF1.predict A k x = .ok (k', r) := by
  unfold FKF1.predict at e ⊢
  obtain ⟨i, e1, e⟩ := bind_ok e
  obtain ⟨s1, e2, e⟩ := bind_ok e
  obtain ⟨s2, e3, e⟩ := bind_ok e
  obtain ⟨⟨m, v⟩, e4, e⟩ := bind_ok e
  dsimp only at e
  obtain ⟨k1, f2, h1⟩ := reset_pre h e2
  obtain ⟨k2, f3, h2⟩ := iter_pre h1 e3
  rw [h.time, e1, res_bind_ok, f2, res_bind_ok, f3, res_bind_ok, past_pre h2 (by omega) (by omega), e4, res_bind_ok]
  dsimp only
  rw [h2.same.time]
  by_cases hi : i = s2.time.length
  · rw [if_pos hi] at e ⊢
    cases e
    exact ⟨k2, rfl⟩
  · rw [if_neg hi] at e ⊢
    obtain ⟨s3, e5, e⟩ := bind_ok e
    obtain ⟨acc, e6, e⟩ := bind_ok e
    obtain ⟨⟨s4, acc'⟩, e7, e⟩ := bind_ok e
    dsimp only at e
    cases e
    obtain ⟨k3, f5, h3⟩ := initCoefs_pre h2 (by omega) e5
    obtain ⟨k4, f7⟩ := coefLoop_pre h3 e7
    rw [f5, res_bind_ok, accum_pre h3 (by omega), e6, res_bind_ok, h3.same.time, f7, res_bind_ok]
    exact ⟨k4, rfl⟩

end Verif.Theory
