import Verif.Props.FCarmaRun
import Verif.Props.FPredict

/-!
`RunCarmaSampler` with two observation times: C100.
-/

namespace Verif.Props

open Verif.Model Verif.Spec Verif.Theory
open scoped Classical

variable {p : ℕ} {C : CArith}

lemma two_freq {kind : Kind} {srt : List Dbl → List ℕ} {t0 t1 : ℝ} (h : t0 < t1) {y yerr : List Dbl} {B : Dbl} {s : FCarP p}
    (e : FCarP.new C kind p srt ([t0, t1].map .fin) y yerr B = .ok s) : s.maxFreq = s.minFreq ∧ s.ignorePrior = false := by
  unfold FCarP.new at e
  obtain ⟨s1, h1, e⟩ := bind_ok e
  have k1 : s1.maxFreq = s1.minFreq ∧ s1.ignorePrior = false := by
    unfold FCarP.newCarp at h1
    obtain ⟨dt, e1, h1⟩ := bind_ok h1
    obtain ⟨dmin, e2, h1⟩ := bind_ok h1
    obtain ⟨tmax, e3, h1⟩ := bind_ok h1
    obtain ⟨tmin, e4, h1⟩ := bind_ok h1
    obtain ⟨kf, -, h1⟩ := bind_ok h1
    split at h1
    · cases h1
    · injection h1 with h1
      subst h1
      refine ⟨?_, rfl⟩
      have q1 : dt = [C.r.sub (.fin t1) (.fin t0)] := by
        unfold FKF1.diffs at e1
        rw [if_neg (by simp)] at e1
        injection e1 with e1
        rw [← e1]; rfl
      subst q1
      have q2 : dmin = C.r.sub (.fin t1) (.fin t0) := by
        injection e2 with e2
        rw [← e2]; rfl
      have q3 : tmax = .fin t1 := by
        injection e3 with e3
        rw [← e3]
        exact if_pos h
      have q4 : tmin = .fin t0 := by
        injection e4 with e4
        rw [← e4]
        exact if_neg (not_lt.mpr h.le)
      subst q2 q3 q4
      rfl
  cases kind with
  | carp => injection e with e; subst e; exact k1
  | carma q => injection e with e; subst e; exact k1
  | zcar =>
    obtain ⟨_, -, e⟩ := bind_ok e
    obtain ⟨_, -, e⟩ := bind_ok e
    obtain ⟨_, -, e⟩ := bind_ok e
    injection e with e
    subst e
    exact k1
  | zcarma =>
    obtain ⟨_, -, e⟩ := bind_ok e
    obtain ⟨_, -, e⟩ := bind_ok e
    obtain ⟨_, -, e⟩ := bind_ok e
    obtain ⟨_, -, e⟩ := bind_ok e
    obtain ⟨_, -, e⟩ := bind_ok e
    injection e with e
    subst e
    exact k1

lemma lt_gt {x m : Dbl} (h1 : x.lt m) (h2 : x.gt m) : False := by
  cases x <;> cases m <;> simp_all [Dbl.lt, Dbl.gt]
  linarith

lemma two_check {s : FCarP p} (hp : 0 < p) (h : s.maxFreq = s.minFreq) (hi : s.ignorePrior = false) {θ : List Dbl} (hθ : 3 + p ≤ θ.length) :
    FCarP.checkPrior C s θ ≠ .ok true := by
  intro e
  unfold FCarP.checkPrior at e
  obtain ⟨roots, er, hl⟩ := rootsFrom_ok (C := C) (θ := θ) (off := 3) (m := p) hθ
  rw [if_neg (by rw [hi]; simp)] at e
  obtain ⟨ys, -, e⟩ := bind_ok e
  obtain ⟨sc, -, e⟩ := bind_ok e
  rw [er, res_bind_ok] at e
  injection e with e
  have key : ¬ ((((roots.map fun r => C.r.div (C.r.div r.1.neg (.fin 2)) (C.r.rnd Real.pi)).filter fun x => x.lt s.maxFreq).length =
      (roots.map fun r => C.r.div (C.r.div r.1.neg (.fin 2)) (C.r.rnd Real.pi)).length) ∧
      (((roots.map fun r => C.r.div (C.r.div r.1.neg (.fin 2)) (C.r.rnd Real.pi)).filter fun x => x.gt s.minFreq).length =
      (roots.map fun r => C.r.div (C.r.div r.1.neg (.fin 2)) (C.r.rnd Real.pi)).length)) := by
    rintro ⟨a, b⟩
    rw [List.length_filter_eq_length_iff] at a b
    obtain ⟨r, l, rfl⟩ : ∃ r l, roots = r :: l := List.exists_cons_of_length_pos (by omega)
    have a := a _ (List.mem_map_of_mem List.mem_cons_self)
    have b := b _ (List.mem_map_of_mem List.mem_cons_self)
    rw [h] at a
    exact lt_gt (of_decide_eq_true a) (of_decide_eq_true b)
  split at e
  · cases e
  · split at e
    · cases e
    · next hc =>
      push Not at hc
      exact key ⟨hc.2.1, hc.2.2.1⟩

/-- **C100, two times.** With two observation times the largest and the smallest frequency allowed by the prior are the same double, no vector meets the prior
bounds, and a run that is to record at least one sample never returns: it throws, or does not leave the search for a starting value, whatever the starting
value the user gives. -/
theorem C100_two_times {C : CArith} {M : Mach} (hA : IsBinary64 M.A) (hS : Strict M.A) (hL : Ladder M.A) (hC : C.r = M.A) {t0 t1 : ℝ} {y yerr : List Dbl}
    (ht : MildTimes [t0, t1]) (hy : 2 ≤ y.length) (he : 2 ≤ yerr.length) {p q : ℕ} {z : Bool} (ho : OrdersOk p (runKind q z)) {B : Dbl}
    {L : List Dbl} (hset : FRun.setup M.A (nParams p q z) y = .ok (B, L)) (srt : List Dbl → List ℕ) (fuel burnin thin : ℕ) {N n : ℕ} (hN : 0 < N) (h0 : 0 < n)
    (hn : n ≤ 2 ^ 53) {init : List Dbl} (hi : init.length = nParams p q z → Doubles init) {r : FRng} (hr : Usable (nParams p q z) r) :
    frunCarma C M fuel srt N burnin ([t0, t1].map .fin) y yerr p q n z thin init r = .error .timeout ∨
      frunCarma C M fuel srt N burnin ([t0, t1].map .fin) y yerr p q n z thin init r = .error .runtime := by
  obtain ⟨obj, e, h | h | ⟨par, -, hc⟩⟩ := C100_run (C := C) hA hS hL hC ht hy he ho hset srt fuel N burnin thin h0 hn hi hr
  · exact .inl h
  · exact .inr h
  · exfalso
    have hlt : t0 < t1 := by
      have g := ht.gap 0 (by simp)
      have p300 : (0 : ℝ) < 2 ^ (-300 : ℤ) := by positivity
      simp only [List.getD_cons_zero, zero_add, List.getD_cons_succ] at g
      linarith
    obtain ⟨f1, f2⟩ := two_freq hlt e
    obtain ⟨θ, x, o, -, -, hl, -, -, hk⟩ := hc.each 0 hN
    have hp : 2 ≤ p := by
      revert ho
      cases runKind q z <;> simp [OrdersOk] <;> intros <;> omega
    refine two_check (by omega) f1 f2 ?_ hk
    have := dim_three (p := p) (runKind q z)
    rw [hl, params_dim]
    omega

/-- the hypotheses are met by observations at 0 and 1 -/
example : IsBinary64 fsMach.A ∧ Strict fsMach.A ∧ Ladder fsMach.A ∧ libC.r = fsMach.A ∧ MildTimes [0, 1] ∧ OrdersOk 2 (runKind 0 false) ∧
    (∃ B L, FRun.setup fsMach.A (nParams 2 0 false) ([0, 1, 2].map .fin) = .ok (B, L)) ∧ Usable (nParams 2 0 false) (fcRng [1, 1, 0, 0, 0]) := by
  obtain ⟨B, L, hset, -⟩ := fs_setup (A := fsMach.A) C72_nearest (d := 5)
  exact ⟨C72_nearest, C90_nearest, C100_nearest, rfl, fp_times, le_rfl, ⟨_, L, hset⟩, fc_usable rfl (by simp)⟩

end Verif.Props
