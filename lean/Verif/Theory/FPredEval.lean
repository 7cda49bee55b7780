import Verif.Theory.FLink
import Verif.Theory.FPredRun

/-!
`KalmanFilter1::Predict` in any arithmetic, as a recursion on numbers without arrays.
-/

namespace Verif.Theory

open Verif.Model Verif.Spec

variable {A : Arith}

/-- mean and variance one step ahead, without measurement error -/
noncomputable def ahead (A : Arith) (S r y E : Dbl) (c : Dbl × Dbl) : Dbl × Dbl :=
  (A.add (A.mul r c.1) (A.mul (A.mul r (A.div (A.sub c.2 E) c.2)) (A.sub y c.1)),
    A.add (A.mul S (A.sub (.fin 1) (A.mul r r))) (A.mul (A.mul (A.mul r r) (A.sub c.2 E)) (A.sub (.fin 1) (A.div (A.sub c.2 E) c.2))))

/-- means and variances of the filter -/
noncomputable def pmv (A : Arith) (S : Dbl) (ρ y E : ℕ → Dbl) : ℕ → Dbl × Dbl
  | 0 => (.fin 0, A.add S (E 0))
  | i + 1 => ((ahead A S (ρ i) (y i) (E i) (pmv A S ρ y E i)).1, A.add (ahead A S (ρ i) (y i) (E i) (pmv A S ρ y E i)).2 (E (i + 1)))

/-- slope, constant and variance of the next observation, and the two sums -/
structure CS where
  sl : Dbl
  co : Dbl
  va : Dbl
  p : Dbl
  q : Dbl

/-- add the contribution of an observation -/
noncomputable def cacc (A : Arith) (y : Dbl) (c : CS) : CS :=
  { c with p := A.add c.p (A.div (A.mul c.sl c.sl) c.va), q := A.add c.q (A.div (A.mul c.sl (A.sub y c.co)) c.va) }

noncomputable def cinit (A : Arith) (S r y E : Dbl) (c : Dbl × Dbl) : CS :=
  cacc A y { sl := r, co := .fin 0, va := A.add (A.mul S (A.sub (.fin 1) (A.mul r r))) E, p := A.div (.fin 1) c.2, q := A.mul c.1 (A.div (.fin 1) c.2) }

noncomputable def cstep (A : Arith) (S r y E y1 E1 : Dbl) (c : CS) : CS :=
  cacc A y1 { c with
    sl := A.mul c.sl (A.mul r (A.sub (.fin 1) (A.div (A.sub c.va E) c.va)))
    co := A.add (A.mul (A.mul c.co r) (A.sub (.fin 1) (A.div (A.sub c.va E) c.va))) (A.mul (A.mul r (A.div (A.sub c.va E) c.va)) y)
    va := A.add (A.add (A.mul S (A.sub (.fin 1) (A.mul r r)))
      (A.mul (A.mul (A.mul r r) (A.sub c.va E)) (A.sub (.fin 1) (A.div (A.sub c.va E) c.va)))) E1 }

noncomputable def crun (A : Arith) (S : Dbl) (ρ y E : ℕ → Dbl) (i : ℕ) (c : CS) : ℕ → CS
  | 0 => c
  | k + 1 => cstep A S (ρ (i + k)) (y (i + k)) (E (i + k)) (y (i + k + 1)) (E (i + k + 1)) (crun A S ρ y E i c k)

theorem crun_head {S : Dbl} {ρ y E : ℕ → Dbl} (i : ℕ) (c : CS) (k : ℕ) :
    crun A S ρ y E i c (k + 1) = crun A S ρ y E (i + 1) (cstep A S (ρ i) (y i) (E i) (y (i + 1)) (E (i + 1)) c) k := by
  induction k with
  | zero => rfl
  | succ k ih =>
    rw [crun, ih, crun]
    simp only [show i + (k + 1) = i + 1 + k by ring]

/-- a filter whose arrays hold these numbers -/
structure PHolds (A : Arith) (n : ℕ) (S : Dbl) (ρ ρ2 y E : ℕ → Dbl) (s : FKF1) : Prop where
  time : s.time.length = n
  S : A.div s.sigsqr (A.mul (.fin 2) s.omega) = S
  y : ∀ i < n, s.y[i]? = some (y i)
  E : ∀ i < n, ∃ e, s.yerr[i]? = some e ∧ A.mul e e = E i
  ρ : ∀ i, i + 1 < n → ∃ d, s.dt[i]? = some d ∧ A.exp (A.mul (A.mul (.fin (-1)) s.omega) d) = ρ i ∧ A.exp (A.mul (A.mul (.fin (-1)) d) s.omega) = ρ2 i
  mean : s.mean.length = n
  var : s.var.length = n

theorem linked_pmv {n c : ℕ} {S : Dbl} {ρ ρ2 y E : ℕ → Dbl} {s0 s : FKF1} (h : PHolds A n S ρ ρ2 y E s0) (hl : Linked A s0 s c) (hc : c ≤ n) (h0 : 0 < c) :
    ∀ i < c, s.mean[i]? = some (pmv A S ρ y E i).1 ∧ s.var[i]? = some (pmv A S ρ y E i).2 := by
  have eS : A.div s.sigsqr (A.mul (.fin 2) s.omega) = S := by rw [hl.sig, hl.omega]; exact h.S
  intro i
  induction i with
  | zero =>
    intro _
    obtain ⟨e, f1, f2, f3⟩ := hl.first
    obtain ⟨e', g1, g2⟩ := h.E 0 (by omega)
    rw [hl.yerr, g1] at f1
    injection f1 with f1; subst f1
    rw [eS, g2] at f3
    exact ⟨f2, f3⟩
  | succ i ih =>
    intro hi
    obtain ⟨i1, i2⟩ := ih (by omega)
    obtain ⟨d, v, e, m, yy, e2, g1, g2, g3, g4, g5, g6, g7, g8⟩ := hl.link i hi
    obtain ⟨d', ed, eρ, -⟩ := h.ρ i (by omega)
    obtain ⟨e', ee', eE'⟩ := h.E i (by omega)
    obtain ⟨e2', ee2', eE2'⟩ := h.E (i + 1) (by omega)
    rw [hl.dt, ed] at g1; injection g1 with g1; subst g1
    rw [i2] at g2; injection g2 with g2; subst g2
    rw [hl.yerr, ee'] at g3; injection g3 with g3; subst g3
    rw [i1] at g4; injection g4 with g4; subst g4
    rw [hl.y, h.y i (by omega)] at g5; injection g5 with g5; subst g5
    rw [hl.yerr, ee2'] at g6; injection g6 with g6; subst g6
    rw [hl.omega] at g7
    rw [eS, hl.omega] at g8
    simp only [eρ, eE'] at g7
    simp only [eρ, eE', eE2'] at g8
    exact ⟨g7, g8⟩

theorem iter_linked {s s1 : FKF1} (h1 : Linked A s s1 1) : ∀ k s', iter (FKF1.update A) k s1 = .ok s' → Linked A s s' (k + 1) := by
  intro k
  induction k with
  | zero => intro s' h; cases h; exact h1
  | succ k ih =>
    intro s' h
    obtain ⟨s2, h2, h⟩ := bind_ok h
    exact update_link (by omega) (ih s2 h2) h

theorem coef_eval {n : ℕ} {S : Dbl} {ρ ρ2 y E : ℕ → Dbl} : ∀ (k i : ℕ) (s : FKF1) (c : CS), PHolds A n S ρ ρ2 y E s → s.cur = i + 1 → i + k + 1 ≤ n →
    s.yslope = c.sl → s.yconst = c.co → s.var[i]? = some c.va →
    ∃ s', FKF1.coefLoop A k (i + 1) s (c.p, c.q) = .ok (s', ((crun A S ρ2 y E i c k).p, (crun A S ρ2 y E i c k).q)) := by
  intro k
  induction k with
  | zero => intro i s c _ _ _ _ _ _; exact ⟨s, rfl⟩
  | succ k ih =>
    intro i s c h hc hk hsl hco hva
    obtain ⟨d, ed, -, eρ⟩ := h.ρ i (by omega)
    obtain ⟨e, ee, eE⟩ := h.E i (by omega)
    obtain ⟨e2, ee2, eE2⟩ := h.E (i + 1) (by omega)
    have hv : i + 1 < s.var.length := by rw [h.var]; omega
    have ey : rdU s.y i = .ok (y i) := by rw [rdU, h.y i (by omega)]
    have step : FKF1.updateCoefs A s = .ok { s with
        yconst := (cstep A S (ρ2 i) (y i) (E i) (y (i + 1)) (E (i + 1)) c).co
        yslope := (cstep A S (ρ2 i) (y i) (E i) (y (i + 1)) (E (i + 1)) c).sl
        var := s.var.set (i + 1) (cstep A S (ρ2 i) (y i) (E i) (y (i + 1)) (E (i + 1)) c).va, cur := i + 2 } := by
      unfold FKF1.updateCoefs
      dsimp only
      rw [hc, show prevIdx (i + 1) = .ok i from rfl]
      simp only [Nat.add_sub_cancel, res_bind_ok, rd_some ed, rd_some hva, rd_some ee, ey, rd_some ee2, eρ, eE, eE2, h.S, hsl, hco, wr, if_pos hv]
      rfl
    have acc : FKF1.accum A { s with
        yconst := (cstep A S (ρ2 i) (y i) (E i) (y (i + 1)) (E (i + 1)) c).co
        yslope := (cstep A S (ρ2 i) (y i) (E i) (y (i + 1)) (E (i + 1)) c).sl
        var := s.var.set (i + 1) (cstep A S (ρ2 i) (y i) (E i) (y (i + 1)) (E (i + 1)) c).va, cur := i + 2 } (i + 1) (c.p, c.q) =
        .ok ((cstep A S (ρ2 i) (y i) (E i) (y (i + 1)) (E (i + 1)) c).p, (cstep A S (ρ2 i) (y i) (E i) (y (i + 1)) (E (i + 1)) c).q) := by
      unfold FKF1.accum
      simp only [rd_some (List.getElem?_set_self hv), res_bind_ok, rd_some (h.y (i + 1) (by omega))]
      rfl
    rw [FKF1.coefLoop, step, res_bind_ok, acc, res_bind_ok, crun_head]
    exact ih (i + 1) _ _ ⟨h.time, h.S, h.y, h.E, h.ρ, h.mean, by simpa using h.var⟩ rfl (by omega) rfl rfl (List.getElem?_set_self hv)

/-- what `Predict` returns -/
noncomputable def pval (A : Arith) (n : ℕ) (S : Dbl) (ρ ρ2 y E : ℕ → Dbl) (i : ℕ) (rp rn : Dbl) : Dbl × Dbl :=
  let c := if i = 0 then (.fin 0, S) else ahead A S rp (y (i - 1)) (E (i - 1)) (pmv A S ρ y E (i - 1))
  if i = n then c
  else
    let f := crun A S ρ2 y E i (cinit A S rn (y i) (E i) c) (n - (i + 1))
    (A.mul f.q (A.div (.fin 1) f.p), A.div (.fin 1) f.p)

theorem predict_eval {n : ℕ} {S : Dbl} {ρ ρ2 y E : ℕ → Dbl} {s s0 s1 : FKF1} (h : PHolds A n S ρ ρ2 y E s) {x : Dbl} {i : ℕ} (hi : i ≤ n) (hn : 0 < n)
    (hf : FKF1.find s.time x = .ok i) (h0 : FKF1.reset A s = .ok s0) (h1 : iter (FKF1.update A) (i - 1) s0 = .ok s1) (hl : s1.mean.length = n ∧ s1.var.length = n)
    {rp rn : Dbl} (hp : 0 < i → ∃ t, s.time[i - 1]? = some t ∧ A.exp (A.mul (A.sub x t).neg s.omega) = rp)
    (hq : i < n → ∃ t, s.time[i]? = some t ∧ A.exp (A.mul (A.sub t x).abs.neg s.omega) = rn) :
    ∃ s', FKF1.predict A s x = .ok (s', pval A n S ρ ρ2 y E i rp rn) := by
  have L := iter_linked (reset_link h0) _ _ h1
  have L' := linked_pmv h L (by omega) (by omega)
  have H1 : PHolds A n S ρ ρ2 y E s1 := ⟨by rw [L.time]; exact h.time, by rw [L.sig, L.omega]; exact h.S, by rw [L.y]; exact h.y,
    by rw [L.yerr]; exact h.E, by rw [L.dt, L.omega]; exact h.ρ, hl.1, hl.2⟩
  have past : FKF1.predictPast A s1 x i = .ok (if i = 0 then (.fin 0, S) else ahead A S rp (y (i - 1)) (E (i - 1)) (pmv A S ρ y E (i - 1))) := by
    unfold FKF1.predictPast
    rw [H1.S]
    dsimp only
    by_cases hi0 : i = 0
    · rw [if_pos hi0, if_pos hi0]; rfl
    · rw [if_neg hi0, if_neg hi0]
      obtain ⟨t, et, er⟩ := hp (by omega)
      obtain ⟨e, ee, eE⟩ := H1.E (i - 1) (by omega)
      have et' : rdU s1.time (i - 1) = .ok t := by rw [rdU, L.time, et]
      rw [et', res_bind_ok]
      simp only [L.omega, er, res_bind_ok, rd_some (L' (i - 1) (by omega)).2, rd_some ee, eE, rd_some (L' (i - 1) (by omega)).1, rd_some (H1.y (i - 1) (by omega))]
      rfl
  obtain ⟨c, hc⟩ : ∃ c, c = (if i = 0 then (.fin 0, S) else ahead A S rp (y (i - 1)) (E (i - 1)) (pmv A S ρ y E (i - 1))) := ⟨_, rfl⟩
  rw [← hc] at past
  have pv : pval A n S ρ ρ2 y E i rp rn = if i = n then c else
    (A.mul (crun A S ρ2 y E i (cinit A S rn (y i) (E i) c) (n - (i + 1))).q (A.div (.fin 1) (crun A S ρ2 y E i (cinit A S rn (y i) (E i) c) (n - (i + 1))).p),
      A.div (.fin 1) (crun A S ρ2 y E i (cinit A S rn (y i) (E i) c) (n - (i + 1))).p) := by rw [hc]; rfl
  rw [pv]
  unfold FKF1.predict
  rw [hf, res_bind_ok, h0, res_bind_ok, h1, res_bind_ok, past, res_bind_ok]
  dsimp only
  rw [H1.time]
  by_cases hin : i = n
  · refine ⟨s1, ?_⟩
    rw [if_pos hin, if_pos hin]; rfl
  · rw [if_neg hin, if_neg hin]
    obtain ⟨t, et, er⟩ := hq (by omega)
    obtain ⟨e, ee, eE⟩ := H1.E i (by omega)
    have hv : i < s1.var.length := by rw [H1.var]; omega
    obtain ⟨s2, hs2⟩ : ∃ s2 : FKF1, s2 = { s1 with yconst := .fin 0, yslope := rn, var := s1.var.set i (A.add (A.mul S (A.sub (.fin 1) (A.mul rn rn))) (E i)), cur := i + 1 } := ⟨_, rfl⟩
    have init : FKF1.initCoefs A s1 x i = .ok s2 := by
      rw [hs2]
      unfold FKF1.initCoefs
      rw [L.time, rd_some et, res_bind_ok, L.omega, er, ← L.omega, H1.S]
      simp only [rd_some ee, res_bind_ok, eE, wrU, if_pos hv]
      rfl
    have acc : FKF1.accum A s2 i (A.div (.fin 1) c.2, A.mul c.1 (A.div (.fin 1) c.2)) =
        .ok ((cinit A S rn (y i) (E i) c).p, (cinit A S rn (y i) (E i) c).q) := by
      rw [hs2]
      unfold FKF1.accum
      simp only [rd_some (List.getElem?_set_self hv), res_bind_ok, rd_some (H1.y i (by omega))]
      rfl
    obtain ⟨s', e'⟩ := coef_eval (n := n) (S := S) (ρ := ρ) (ρ2 := ρ2) (y := y) (E := E) (A := A) (n - (i + 1)) i s2 (cinit A S rn (y i) (E i) c)
      (by rw [hs2]; exact ⟨H1.time, H1.S, H1.y, H1.E, H1.ρ, H1.mean, by simpa using H1.var⟩) (by rw [hs2]) (by omega) (by rw [hs2]; rfl) (by rw [hs2]; rfl) (by rw [hs2]; exact List.getElem?_set_self hv)
    refine ⟨s', ?_⟩
    rw [init, res_bind_ok, acc, res_bind_ok]
    rw [show s2.time = s1.time by rw [hs2], H1.time, e', res_bind_ok]
    rfl

end Verif.Theory
