import Verif.Theory.FRunSamp

/-!
A finite CAR(1) log-density, with machine numbers, means finite parameters within the prior bounds; NaN in the proposal factor stays.
-/

namespace Verif.Theory

open Verif.Model Verif.Spec
open scoped Classical

variable {A : Arith}

theorem FObj.shape {ts ys es : List ℝ} {M : ℝ} {s : FCar1} (h : FObj A ts ys es M s) (h0 : 0 < ts.length) (hy : ys.length = ts.length)
    (he : es.length = ts.length) : FShape s := by
  have e : s.time.length = ts.length := by rw [h.time]; simp
  refine ⟨by omega, ?_, ?_, ?_, ?_, ?_, ?_⟩
  · rw [e, h.ktime]; simp
  · rw [e]; exact h.kdt
  · rw [e]; exact h.kmean
  · rw [e]; exact h.kvar
  · rw [e, h.y]; simp [hy]
  · rw [e, h.yerr]; simp [he]

theorem term_mu {y m v mu : Dbl} (h : (fterm A y m v mu).isFin) : mu.isFin :=
  (fin_sub (fin_mul (fin_div (fin_sub h).2)).2).2

theorem term_var {y m mu : Dbl} (hS : Strict A) : ¬ (fterm A y m .nan mu).isFin := by
  unfold fterm
  rw [hS.log_nan, mul_nan, nan_sub]
  exact id

theorem isFin_iff (d : Dbl) : d.isFin ↔ ∃ x, d = .fin x := by
  cases d with
  | fin x => exact ⟨fun _ => ⟨x, rfl⟩, fun _ => trivial⟩
  | _ => exact ⟨fun h => h.elim, fun ⟨x, h⟩ => by cases h⟩

/-- finite log-density: every parameter is finite and the bounds are met -/
theorem car1_finite (hA : IsBinary64 A) (hS : Strict A) {ts ys es : List ℝ} {M : ℝ} {s : FCar1} (h : FObj A ts ys es M s) (h0 : 0 < ts.length)
    {θ : List Dbl} (hθ : θ.length = 4) (hfin : (fcarVal A s θ).isFin) : ∃ θr : List ℝ, θ = θr.map .fin ∧ Within A ts M θr := by
  obtain ⟨a, b, c, e, rfl⟩ : ∃ a b c e, θ = [a, b, c, e] := by
    match θ, hθ with
    | [a, b, c, e], _ => exact ⟨a, b, c, e, rfl⟩
  obtain ⟨lo, elo, hlo⟩ := h.lo
  obtain ⟨hi, ehi, -⟩ := h.hi
  have lo0 : (0 : ℝ) < lo := lt_of_lt_of_le (by positivity) hlo
  by_cases hp : fpass A s [a, b, c, e]
  swap
  · rw [fcarVal, if_neg hp] at hfin; exact hfin.elim
  rw [fcarVal, if_pos hp] at hfin
  obtain ⟨h1, h2⟩ := fin_add hfin
  have hn : 0 < s.time.length := by rw [h.time]; simpa using h0
  have ht := flik_fin h1 hn
  have hp' : ¬ ((A.exp e).gt s.maxFreq ∨ (A.exp e).lt s.minFreq ∨ a.gt s.maxStdev ∨ a.lt (.fin 0) ∨ b.lt (.fin 0.5) ∨ b.gt (.fin 2)) := hp
  push Not at hp'
  obtain ⟨p1, p2, p3, p4, p5, p6⟩ := hp'
  rw [ehi] at p1; rw [elo] at p2; rw [h.stdev] at p3
  have mv0 : (fcarMv A s [a, b, c, e] 0).2 = A.add (A.div (A.mul (A.mul (A.mul (.fin 2) a) a) (A.exp e)) (A.mul (.fin 2) (A.exp e)))
      (A.mul ((s.yerr.map fun x => A.mul (A.sqrt b) x).getD 0 .nan) ((s.yerr.map fun x => A.mul (A.sqrt b) x).getD 0 .nan)) := rfl
  have hv : (fcarMv A s [a, b, c, e] 0).2 ≠ .nan := by
    intro hnan
    rw [hnan] at ht
    exact term_var hS ht
  obtain ⟨z, rfl⟩ := (isFin_iff c).mp (term_mu ht)
  obtain ⟨x, rfl⟩ : ∃ x, a = .fin x := by
    cases a with
    | fin x => exact ⟨x, rfl⟩
    | pinf => exact absurd trivial p3
    | ninf => exact absurd trivial p4
    | nan => exact absurd (by rw [mv0]; simp only [mul_nan, nan_mul, nan_div, fl_nan_add]) hv
  obtain ⟨y, rfl⟩ : ∃ y, b = .fin y := by
    cases b with
    | fin x => exact ⟨x, rfl⟩
    | pinf => exact absurd trivial p6
    | ninf => exact absurd trivial p5
    | nan =>
      have : fprior A .nan = .nan := by unfold fprior; rw [div_nan, nan_sub]
      exact absurd h2 (by show ¬ (fprior A .nan).isFin; rw [this]; exact id)
  obtain ⟨w, rfl⟩ : ∃ w, e = .fin w := by
    cases e with
    | fin x => exact ⟨x, rfl⟩
    | pinf => rw [hS.exp_pinf] at p1; exact absurd trivial p1
    | ninf => rw [hA.exp_ninf] at p2; exact absurd lo0 p2
    | nan => exact absurd (by rw [mv0, hS.exp_nan]; simp only [mul_nan, nan_div, fl_nan_add]) hv
  refine ⟨[x, y, z, w], rfl, (inBounds_iff h).mp ?_⟩
  rcases within_num hA h (θ := [x, y, z, w]) (by simp) with ⟨k, -⟩ | ⟨-, k⟩
  · exact k
  · exfalso
    have hc : FCar1.checkPrior A s ([x, y, z, w].map .fin) = .ok (decide (fpass A s ([x, y, z, w].map .fin))) := by
      simp only [FCar1.checkPrior, frd_getD (show 0 < ([x, y, z, w].map Dbl.fin).length by simp),
        frd_getD (show 1 < ([x, y, z, w].map Dbl.fin).length by simp), frd_getD (show 3 < ([x, y, z, w].map Dbl.fin).length by simp), res_bind_ok, res_pure]
      congr 1
      exact decide_eq_decide.mpr Iff.rfl
    rw [k] at hc
    injection hc with hc
    have : fpass A s ([x, y, z, w].map .fin) := hp
    rw [decide_eq_true this] at hc
    cases hc

/-! ### NaN in the factor -/

variable {d : ℕ}

theorem cholRow_nan (hS : Strict A) (sign : Dbl) (Lv : (Fin d → Fin d → Dbl) × (Fin d → Dbl)) (k j : Fin d) (h : Lv.1 j j = .nan) :
    (fcholRow A sign Lv k).1 j j = .nan := by
  unfold fcholRow
  dsimp only
  by_cases e : j = k
  · subst e
    rw [if_pos rfl, if_pos rfl, h, nan_mul, fl_nan_add, hS.sqrt_nan]
  · rw [if_neg e, h]

/-- a NaN on the diagonal stays -/
theorem cholUpdate_nan (hS : Strict A) (L : Fin d → Fin d → Dbl) (v : Fin d → Dbl) (b : Bool) (j : Fin d) (h : L j j = .nan) :
    fcholUpdateR1 A L v b j j = .nan := by
  unfold fcholUpdateR1
  generalize (if b then Dbl.fin (-1) else Dbl.fin 1) = sg
  suffices ∀ (ks : List (Fin d)) (Lv : (Fin d → Fin d → Dbl) × (Fin d → Dbl)), Lv.1 j j = .nan → (ks.foldl (fcholRow A sg) Lv).1 j j = .nan from
    this _ _ h
  intro ks
  induction ks with
  | nil => exact fun _ h => h
  | cons k ks ih => exact fun Lv h => ih _ (cholRow_nan hS sg Lv k j h)

/-- an update by NaN puts NaN on the diagonal -/
theorem cholUpdate_first (hS : Strict A) {d : ℕ} (L : Fin (d + 1) → Fin (d + 1) → Dbl) (v : Fin (d + 1) → Dbl) (b : Bool) (h : v 0 = .nan) :
    fcholUpdateR1 A L v b 0 0 = .nan := by
  unfold fcholUpdateR1
  rw [List.finRange_succ, List.foldl_cons]
  generalize (if b then Dbl.fin (-1) else Dbl.fin 1) = sg
  have h1 : (fcholRow A sg (L, v) 0).1 0 0 = .nan := by
    unfold fcholRow
    dsimp only
    rw [if_pos rfl, if_pos rfl, h, mul_nan, fl_add_nan, hS.sqrt_nan]
  suffices ∀ (ks : List (Fin (d + 1))) (Lv : (Fin (d + 1) → Fin (d + 1) → Dbl) × (Fin (d + 1) → Dbl)), Lv.1 0 0 = .nan →
      (ks.foldl (fcholRow A sg) Lv).1 0 0 = .nan from this _ _ h1
  intro ks
  induction ks with
  | nil => exact fun _ h => h
  | cons k ks ih => exact fun Lv h => ih _ (cholRow_nan hS sg Lv k 0 h)

end Verif.Theory
