import Verif.Spec.FSetP
import Verif.Theory.FSimP

/-! Setters of a CARMA filter with machine numbers. -/

namespace Verif.Theory

open Verif.Model Verif.Spec
open scoped Classical

variable {C : CArith} {p : ℕ}

theorem reset_short (hp : 2 ≤ p) {s : FKFp p} {J : Fin p → CD} (hs : C.solve p (FKFp.eigenMat C s.omega) (FKFp.rvec p) = some J) (hma : s.ma.length ≠ p) :
    FKFp.reset C s = .error .bounds := by
  unfold FKFp.reset
  dsimp only
  rw [if_neg (by omega), hs, res_bind_ok, if_pos hma]
  rfl

theorem reset_low (hp : ¬ 2 ≤ p) (s : FKFp p) : FKFp.reset C s = .error .bounds := by
  unfold FKFp.reset
  dsimp only
  rw [if_pos (by omega)]
  rfl

theorem predict_err {s : FKFp p} (hw : Whole C.r s.b) (x : Dbl) {f : Fault} (hs : FKFp.reset C s = .error f) : FKFp.predict C s x = .error f := by
  have h2 := hw.two
  have hf : FKF1.find s.b.time x = .ok (FKF1.scan x s.b.time) := if_neg (by intro h; rw [h] at h2; simp at h2)
  unfold FKFp.predict
  rw [hf, res_bind_ok, hs]
  rfl

theorem simulate_err {s : FKFp p} (hw : Whole C.r s.b) {times : List Dbl} (hn : Dbl.nan ∉ times) (h0 : times ≠ []) (zs : ℕ → Dbl) {f : Fault}
    (hs : FKFp.reset C s = .error f) : FKFp.simulate C s times zs = .error f := by
  unfold FKFp.simulate FKF1.sortTimes
  rw [if_neg hn, res_bind_ok]
  cases e : times.mergeSort fun a b => decide ¬ b.lt a with
  | nil =>
    have := List.length_mergeSort (le := fun a b => decide ¬ Dbl.lt b a) times
    rw [e] at this
    exact absurd (List.length_eq_zero_iff.mp this.symm) h0
  | cons t ts =>
    rw [FKFp.simLoop, FKFp.simStep, predict_err hw t hs]
    rfl

theorem filter_err {s : FKFp p} {f : Fault} (hs : FKFp.reset C s = .error f) : FKFp.filter C s = .error f := by
  unfold FKFp.filter
  rw [hs]
  rfl

/-- what `Reset` does first depends on the parameters only -/
theorem reset_cases (s : FKFp p) : (2 ≤ p ∧ ∃ J, C.solve p (FKFp.eigenMat C s.omega) (FKFp.rvec p) = some J ∧ s.ma.length = p) ∨
    ∃ f, ∀ k : FKFp p, k.omega = s.omega → k.ma = s.ma → FKFp.reset C k = .error f := by
  by_cases hp : 2 ≤ p
  · cases hs : C.solve p (FKFp.eigenMat C s.omega) (FKFp.rvec p) with
    | none => exact .inr ⟨.runtime, fun k ho _ => reset_none hp (by rw [ho]; exact hs)⟩
    | some J =>
      by_cases hma : s.ma.length = p
      · exact .inl ⟨hp, J, rfl, hma⟩
      · exact .inr ⟨.bounds, fun k ho hm => reset_short hp (by rw [ho]; exact hs) (by rw [hm]; exact hma)⟩
  · exact .inr ⟨.bounds, fun k _ _ => reset_low hp k⟩

theorem predict_psame {s k : FKFp p} (hw : Whole C.r s.b) {x : Dbl} {r : Dbl × Dbl} (e : FKFp.predict C s x = .ok (k, r)) : PSame s k := by
  rcases reset_cases (C := C) s with ⟨hp, J, hJ, hm⟩ | ⟨f, hf⟩
  · obtain ⟨k', e', h'⟩ := predict_det hp hw hm x hJ
    rw [e] at e'
    injection e' with e'
    injection e' with e' _
    subst e'
    exact h'
  · rw [predict_err hw x (hf s rfl rfl)] at e; cases e

theorem simulate_psame {s k : FKFp p} (hw : Whole C.r s.b) {times : List Dbl} {zs : ℕ → Dbl} {xs : List Dbl}
    (e : FKFp.simulate C s times zs = .ok (k, xs)) : PSame s k := by
  by_cases hn : Dbl.nan ∈ times
  · unfold FKFp.simulate FKF1.sortTimes at e
    rw [if_pos hn] at e
    cases e
  by_cases h0 : times = []
  · subst h0
    obtain ⟨k', e', h'⟩ := simulate_empty (C := C) hw zs
    rw [e] at e'
    injection e' with e'
    injection e' with e' _
    subst e'
    exact h'
  rcases reset_cases (C := C) s with ⟨hp, J, hJ, hm⟩ | ⟨f, hf⟩
  · obtain ⟨xs', _, h'⟩ := simulate_same hp hw hm hn zs hJ
    obtain ⟨k', e', h'⟩ := h' s (.refl s)
    rw [e] at e'
    injection e' with e'
    injection e' with e' _
    subst e'
    exact h'
  · rw [simulate_err hw hn h0 zs (hf s rfl rfl)] at e; cases e

theorem init_whole {A : Arith} {srt : List Dbl → List ℕ} {b s : FKF1} (hy : b.y.length = b.time.length) (he : b.yerr.length = b.time.length)
    (h : (FKF1.initSort A srt b >>= FKF1.initDedup A : Res FKF1) = .ok s) : Whole A s := by
  obtain ⟨s2, h2, h1⟩ := bind_ok h
  have w2 : FKF1.diffs A s2.time = .ok s2.dt ∧ s2.y.length = s2.time.length ∧ s2.yerr.length = s2.time.length := by
    unfold FKF1.initSort at h2
    obtain ⟨dt, g, h2⟩ := bind_ok h2
    split at h2
    · obtain ⟨t', g1, h2⟩ := bind_ok h2
      obtain ⟨y', g2, h2⟩ := bind_ok h2
      obtain ⟨e', g3, h2⟩ := bind_ok h2
      obtain ⟨d', g4, h2⟩ := bind_ok h2
      cases h2
      exact ⟨g4, (gather_len' g2).trans (gather_len' g1).symm, (gather_len' g3).trans (gather_len' g1).symm⟩
    · cases h2
      exact ⟨g, hy, he⟩
  have two : ∀ {t d : List Dbl}, FKF1.diffs A t = .ok d → 2 ≤ t.length := by
    intro t d hd
    unfold FKF1.diffs at hd
    split at hd
    · cases hd
    · omega
  unfold FKF1.initDedup at h1
  obtain ⟨s3, h3, h1⟩ := bind_ok h1
  cases h1
  have w3 : FKF1.diffs A s3.time = .ok s3.dt ∧ s3.y.length = s3.time.length ∧ s3.yerr.length = s3.time.length := by
    split at h3
    · obtain ⟨t', g1, h3⟩ := bind_ok h3
      obtain ⟨y', g2, h3⟩ := bind_ok h3
      obtain ⟨e', g3, h3⟩ := bind_ok h3
      obtain ⟨d', g4, h3⟩ := bind_ok h3
      cases h3
      exact ⟨g4, (gather_len' g2).trans (gather_len' g1).symm, (gather_len' g3).trans (gather_len' g1).symm⟩
    · cases h3
      exact w2
  exact ⟨two w3.1, w3.1, w3.2.1, w3.2.2, by simp, by simp⟩

theorem newData_wholep {srt : List Dbl → List ℕ} {time y yerr : List Dbl} {s : FKFp p} (hy : y.length = time.length) (he : yerr.length = time.length)
    (h : FKFp.newData C p srt time y yerr = .ok s) : Whole C.r s.b := by
  obtain ⟨b, h1, h⟩ := bind_ok h
  obtain ⟨b1, h2, h⟩ := bind_ok h
  obtain ⟨b2, h3, h⟩ := bind_ok h
  injection h with h
  subst h
  have w := init_whole (A := C.r) (by exact hy) (by exact he) h1
  exact init_whole w.y w.yerr (by rw [h2]; exact h3)

theorem LiveP.whole {k : FKFp p} (h : LiveP C k) : Whole C.r k.b := by
  induction h with
  | new hy he h => exact (newp_whole hy he h).1
  | data v w hy he h =>
    have ih := newData_wholep hy he h
    exact ⟨ih.two, ih.dt, ih.y, ih.yerr, ih.mean, ih.var⟩
  | filter _ e ih => exact Whole.psame ih (filter_psame e)
  | predict _ e ih => exact Whole.psame ih (predict_psame ih e)
  | simulate _ e ih => exact Whole.psame ih (simulate_psame ih e)
  | sigsqr v _ ih => exact ⟨ih.two, ih.dt, ih.y, ih.yerr, ih.mean, ih.var⟩
  | omega w _ ih => exact ⟨ih.two, ih.dt, ih.y, ih.yerr, ih.mean, ih.var⟩
  | ma m _ ih => exact ⟨ih.two, ih.dt, ih.y, ih.yerr, ih.mean, ih.var⟩
  | y y _ hl ih => exact ⟨ih.two, ih.dt, hl.trans ih.y, ih.yerr, ih.mean, ih.var⟩
  | yerr y _ hl ih => exact ⟨ih.two, ih.dt, ih.y, hl.trans ih.yerr, ih.mean, ih.var⟩

/-- what the getters show is all that matters -/
theorem SameShown.psame {s k : FKFp p} (hs : Whole C.r s.b) (hk : Whole C.r k.b) (h : SameShown s k) : PSame s k := by
  refine ⟨h.time, ?_, h.y, h.yerr, h.sigsqr, h.omega, h.ma, ?_, ?_⟩
  · have h1 := hs.dt
    have h2 := hk.dt
    rw [h.time, h1] at h2
    injection h2 with h2
    exact h2.symm
  · rw [hk.mean, hs.mean, h.time]
  · rw [hk.var, hs.var, h.time]

theorem Live1.whole {A : Arith} {k : FKF1} (h : Live1 A k) : Whole A k := by
  induction h with
  | new hy he h => exact new_whole hy he h
  | data v w hy he h =>
    have ih := init_whole (by exact hy) (by exact he) h
    exact ⟨ih.two, ih.dt, ih.y, ih.yerr, ih.mean, ih.var⟩
  | filter _ e ih => exact Whole.same ih (filter_ksame e)
  | predict _ e ih => exact Whole.same ih (predict_ksame e)
  | simulate _ e ih => exact Whole.same ih (simulate_ksame ih e)
  | sigsqr v _ ih => exact ⟨ih.two, ih.dt, ih.y, ih.yerr, ih.mean, ih.var⟩
  | omega w _ ih => exact ⟨ih.two, ih.dt, ih.y, ih.yerr, ih.mean, ih.var⟩
  | y y _ hl ih => exact ⟨ih.two, ih.dt, hl.trans ih.y, ih.yerr, ih.mean, ih.var⟩
  | yerr y _ hl ih => exact ⟨ih.two, ih.dt, ih.y, hl.trans ih.yerr, ih.mean, ih.var⟩

theorem SameShown1.ksame {A : Arith} {s k : FKF1} (hs : Whole A s) (hk : Whole A k) (h : SameShown1 s k) : KSame s k := by
  refine ⟨h.time, ?_, h.y, h.yerr, h.sigsqr, h.omega, ?_, ?_⟩
  · have h1 := hs.dt
    have h2 := hk.dt
    rw [h.time, h1] at h2
    injection h2 with h2
    exact h2.symm
  · rw [hk.mean, hs.mean, h.time]
  · rw [hk.var, hs.var, h.time]

end Verif.Theory
