import Verif.Theory.Average
import Verif.Theory.Faults

/-!
All sweeps of the sampler, adaptive ones too, as maps on the values of the chains, the proposal factors and the random numbers.
-/

namespace Verif.Theory

open MeasureTheory Verif.Model Verif.Spec ENNReal Filter Topology

open scoped Classical

variable {d N : ℕ}

/-! ### the update of the proposal factor as a total function -/

/-- One row of the rank-1 update. -/
noncomputable def rowT (sign : ℝ) (k : Fin d) (z : (Fin d → Fin d → ℝ) × (Fin d → ℝ)) : (Fin d → Fin d → ℝ) × (Fin d → ℝ) :=
  if (k : ℕ) + 1 < d then
    (fun i j => if i = k then (if j = k then √(z.1 k k * z.1 k k + sign * z.2 k * z.2 k) else
        if k < j then (z.1 k j + sign * (z.2 k / z.1 k k) * z.2 j) / (√(z.1 k k * z.1 k k + sign * z.2 k * z.2 k) / z.1 k k) else z.1 k j) else z.1 i j,
      fun j => if k < j then √(z.1 k k * z.1 k k + sign * z.2 k * z.2 k) / z.1 k k * z.2 j - z.2 k / z.1 k k *
        ((z.1 k j + sign * (z.2 k / z.1 k k) * z.2 j) / (√(z.1 k k * z.1 k k + sign * z.2 k * z.2 k) / z.1 k k)) else z.2 j)
  else (fun i j => if i = k ∧ j = k then √(z.1 k k * z.1 k k + sign * z.2 k * z.2 k) else z.1 i j, z.2)

theorem rowT_measurable (sign : ℝ) (k : Fin d) : Measurable (rowT (d := d) sign k) := by
  have h1 : ∀ i j : Fin d, Measurable fun z : (Fin d → Fin d → ℝ) × (Fin d → ℝ) => z.1 i j := fun i j =>
    (measurable_pi_apply j).comp ((measurable_pi_apply i).comp measurable_fst)
  have h2 : ∀ j : Fin d, Measurable fun z : (Fin d → Fin d → ℝ) × (Fin d → ℝ) => z.2 j := fun j =>
    (measurable_pi_apply j).comp measurable_snd
  have hr : Measurable fun z : (Fin d → Fin d → ℝ) × (Fin d → ℝ) => √(z.1 k k * z.1 k k + sign * z.2 k * z.2 k) :=
    (((h1 k k).mul (h1 k k)).add (((h2 k).const_mul sign).mul (h2 k))).sqrt
  have hs := (h2 k).div (h1 k k)
  have hc := hr.div (h1 k k)
  have hq : ∀ j, Measurable fun z : (Fin d → Fin d → ℝ) × (Fin d → ℝ) =>
      (z.1 k j + sign * (z.2 k / z.1 k k) * z.2 j) / (√(z.1 k k * z.1 k k + sign * z.2 k * z.2 k) / z.1 k k) := fun j =>
    ((h1 k j).add ((hs.const_mul sign).mul (h2 j))).div hc
  unfold rowT
  split
  · refine Measurable.prodMk ?_ ?_
    · refine measurable_pi_lambda _ fun i => measurable_pi_lambda _ fun j => ?_
      by_cases e1 : i = k
      · by_cases e2 : j = k
        · simpa only [e1, e2, if_true] using hr
        · by_cases e3 : k < j
          · simpa only [e1, e2, e3, if_true, if_false] using hq j
          · simpa only [e1, e2, e3, if_true, if_false] using h1 k j
      · simpa only [e1, if_false] using h1 i j
    · refine measurable_pi_lambda _ fun j => ?_
      by_cases e3 : k < j
      · simp only [e3, if_true]
        exact (hc.mul (h2 j)).sub (hs.mul (hq j))
      · simpa only [e3, if_false] using h2 j
  · refine Measurable.prodMk ?_ measurable_snd
    refine measurable_pi_lambda _ fun i => measurable_pi_lambda _ fun j => ?_
    by_cases e1 : i = k ∧ j = k
    · simpa only [e1, and_self, if_true] using hr
    · simpa only [e1, if_false] using h1 i j

/-- The first `m` rows. -/
noncomputable def cholT (sign : ℝ) : ℕ → (Fin d → Fin d → ℝ) × (Fin d → ℝ) → (Fin d → Fin d → ℝ) × (Fin d → ℝ)
  | 0, z => z
  | m + 1, z => if h : m < d then rowT sign ⟨m, h⟩ (cholT sign m z) else cholT sign m z

theorem cholT_measurable (sign : ℝ) (m : ℕ) : Measurable (cholT (d := d) sign m) := by
  induction m with
  | zero => exact measurable_id
  | succ m ih =>
      by_cases h : m < d
      · have e : cholT (d := d) sign (m + 1) = fun z => rowT sign ⟨m, h⟩ (cholT sign m z) := by
          funext z; rw [cholT, dif_pos h]
        rw [e]
        exact (rowT_measurable sign _).comp ih
      · have e : cholT (d := d) sign (m + 1) = cholT sign m := by
          funext z; rw [cholT, dif_neg h]
        rw [e]
        exact ih

theorem cholRow_eq {sign : ℝ} {k : Fin d} {z w : (Fin d → Fin d → ℝ) × (Fin d → ℝ)} (h : cholRow sign k z = .ok w) : w = rowT sign k z := by
  unfold cholRow at h
  by_cases hx : z.1 k k * z.1 k k + sign * z.2 k * z.2 k < 0
  · simp only [hx, if_true] at h
    cases h
  simp only [hx, if_false] at h
  by_cases hk : (k : ℕ) + 1 < d
  · simp only [hk, if_true] at h
    obtain ⟨c, hc, h⟩ := bind_ok_inv h
    obtain ⟨s, hs, h⟩ := bind_ok_inv h
    obtain ⟨-, rfl⟩ := dv_inv hc
    obtain ⟨-, rfl⟩ := dv_inv hs
    by_cases h0 : √(z.1 k k * z.1 k k + sign * z.2 k * z.2 k) / z.1 k k = 0
    · simp only [h0, if_true] at h
      cases h
    simp only [h0, if_false] at h
    injection h with h
    rw [← h, rowT, if_pos hk]
    refine Prod.ext rfl ?_
    funext j
    dsimp only
    by_cases e3 : k < j
    · have e2 : j ≠ k := e3.ne'
      simp only [e3, if_true, Matrix.of_apply, e2, if_false]
    · simp only [e3, if_false]
  · simp only [hk, if_false] at h
    injection h with h
    rw [← h, rowT, if_neg hk]
    rfl

theorem cholLoop_eq {sign : ℝ} {m : ℕ} {z w : (Fin d → Fin d → ℝ) × (Fin d → ℝ)}
    (h : cholLoop sign z m = .ok w) : w = cholT sign m z := by
  induction m generalizing w with
  | zero => injection h with h; rw [← h]; rfl
  | succ m ih =>
      obtain ⟨v, h1, h⟩ := bind_ok_inv h
      by_cases hm : m < d
      · rw [dif_pos hm] at h
        have e1 := cholRow_eq (z := v) h
        have e2 := ih (w := v) h1
        rw [e1, e2, cholT, dif_pos hm]
      · rw [dif_neg hm] at h; cases h

/-- The step size of the adaptation at iteration `k`. -/
noncomputable def stepC (d k : ℕ) : ℝ :=
  match Dbl.min (.fin 1) (Dbl.div (.fin d) (.fin ((k : ℝ) ^ (2 / 3 : ℝ)))) with
  | .fin x => x
  | _ => 0

/-- The adapted factor at iteration `k`, for acceptance probability `α`, factor `L` and unscaled draw `u`. -/
noncomputable def adaptT (k : ℕ) (z : ℝ × (Fin d → Fin d → ℝ) × (Fin d → ℝ)) : Fin d → Fin d → ℝ :=
  (cholT (if z.1 < 0.25 then -1 else 1) d
    (z.2.1, fun i => √(stepC d k * |z.1 - 0.25|) / norm2 z.2.2 * ∑ m, z.2.1 m i * z.2.2 m)).1

theorem adaptT_measurable (k : ℕ) : Measurable (adaptT (d := d) k) := by
  have h1 : ∀ i j : Fin d, Measurable fun z : ℝ × (Fin d → Fin d → ℝ) × (Fin d → ℝ) => z.2.1 i j := fun i j =>
    (measurable_pi_apply j).comp ((measurable_pi_apply i).comp (measurable_fst.comp measurable_snd))
  have h2 : ∀ j : Fin d, Measurable fun z : ℝ × (Fin d → Fin d → ℝ) × (Fin d → ℝ) => z.2.2 j := fun j =>
    (measurable_pi_apply j).comp (measurable_snd.comp measurable_snd)
  have h3 : Measurable fun z : ℝ × (Fin d → Fin d → ℝ) × (Fin d → ℝ) => norm2 z.2.2 := by
    unfold norm2
    exact (Finset.measurable_sum _ fun i _ => (h2 i).pow_const 2).sqrt
  have h4 : Measurable fun z : ℝ × (Fin d → Fin d → ℝ) × (Fin d → ℝ) => √(stepC d k * |z.1 - 0.25|) / norm2 z.2.2 := by
    refine Measurable.div (Measurable.sqrt ?_) h3
    exact Measurable.const_mul (measurable_norm.comp (measurable_fst.sub_const _)) _
  have h5 : Measurable fun z : ℝ × (Fin d → Fin d → ℝ) × (Fin d → ℝ) =>
      ((z.2.1, fun i => √(stepC d k * |z.1 - 0.25|) / norm2 z.2.2 * ∑ m, z.2.1 m i * z.2.2 m) : (Fin d → Fin d → ℝ) × (Fin d → ℝ)) := by
    refine (measurable_fst.comp measurable_snd).prodMk (measurable_pi_lambda _ fun i => h4.mul ?_)
    exact Finset.measurable_sum _ fun m _ => (h1 m i).mul (h2 m)
  have e : adaptT (d := d) k = fun z => if z.1 < 0.25 then
      (cholT (-1) d (z.2.1, fun i => √(stepC d k * |z.1 - 0.25|) / norm2 z.2.2 * ∑ m, z.2.1 m i * z.2.2 m)).1 else
      (cholT 1 d (z.2.1, fun i => √(stepC d k * |z.1 - 0.25|) / norm2 z.2.2 * ∑ m, z.2.1 m i * z.2.2 m)).1 := by
    funext z
    unfold adaptT
    split <;> rfl
  rw [e]
  refine Measurable.ite (measurableSet_lt measurable_fst measurable_const) ?_ ?_
  · exact measurable_fst.comp ((cholT_measurable _ _).comp h5)
  · exact measurable_fst.comp ((cholT_measurable _ _).comp h5)

theorem adapt_inv {a a' : Ram d} {α : ℝ} {u w : Fin d → ℝ} (ha : a.alpha = .fin α) (hg : a.gamma = 2 / 3) (ht : a.target = 0.25)
    (hw : w = fun j => ∑ i, a.chol i j * u i) (h : a.adapt u w = .ok a') :
    a'.gamma = a.gamma ∧ a'.target = a.target ∧ a'.niter = a.niter ∧ a'.maxiter = a.maxiter ∧
      a'.chol = if a.niter < a.maxiter then adaptT a.niter (α, fun i j => a.chol i j, u) else a.chol := by
  unfold Ram.adapt at h
  rw [ha] at h
  dsimp only at h
  by_cases hn : a.niter < a.maxiter
  · simp only [hn, if_true] at h ⊢
    obtain ⟨st, h1, h⟩ := bind_ok_inv h
    obtain ⟨f, h2, h⟩ := bind_ok_inv h
    obtain ⟨L, h3, h⟩ := bind_ok_inv h
    have hA : ({ a with chol := L, alpha := .fin α } : Ram d) = a' := by injection h
    have hst : st = stepC d a.niter := by
      unfold Ram.stepSize at h1
      rw [hg] at h1
      unfold stepC
      cases hm : Dbl.min (.fin 1) (Dbl.div (.fin (d : ℝ)) (.fin ((a.niter : ℝ) ^ (2 / 3 : ℝ)))) with
      | fin x => rw [hm] at h1; injection h1 with h1; exact h1.symm
      | nan => rw [hm] at h1; cases h1
      | pinf => rw [hm] at h1; cases h1
      | ninf => rw [hm] at h1; cases h1
    obtain ⟨-, rfl⟩ := dv_inv h2
    obtain ⟨⟨L', v'⟩, h4, h3⟩ := bind_ok_inv h3
    injection h3 with h3
    have := cholLoop_eq (z := (fun i j => a.chol i j, _)) (w := (fun i j => L' i j, v')) h4
    rw [← hA]
    refine ⟨rfl, rfl, rfl, rfl, ?_⟩
    show L = _
    rw [← h3]
    have e : (fun i j => L' i j) = (cholT (if decide (α < a.target) = true then -1 else 1) d (fun i j => a.chol i j, fun i => √(st * |α - a.target|) / norm2 u * w i)).1 :=
      congrArg Prod.fst this
    have e' : L' = fun i j => L' i j := rfl
    rw [e', e, ht, hst, hw]
    unfold adaptT
    simp only [decide_eq_true_eq]
    exact (if_pos trivial).symm
  · simp only [hn, if_false] at h ⊢
    injection h with h
    rw [← h]
    exact ⟨rfl, rfl, rfl, rfl, rfl⟩

/-! ### steps -/

/-- Values of the chains, proposal factors, and the last proposal. -/
abbrev RunX (N d : ℕ) := (Fin N → Fin d → ℝ) × (Fin N → Fin d → Fin d → ℝ) × (Fin d → ℝ)

/-- With the two streams of random numbers. -/
abbrev RunZ (N d : ℕ) := RunX N d × (ℕ → ℝ) × (ℕ → ℝ)

/-- The proposal of a RAM step. -/
noncomputable def propT (L : Fin d → Fin d → ℝ) (q : Fin d → ℝ) (s : ℕ → ℝ) : Fin d → ℝ := fun j => q j + ∑ m : Fin d, L m j * s m

/-- The acceptance probability the RAM step stores. -/
noncomputable def alphaT (G : LogTarget d) (T : ℝ) (q y : Fin d → ℝ) : ℝ :=
  if (G q).isSome = true ∧ (G y).isSome = true then min 1 (Real.exp (((G y).getD 0 - (G q).getD 0) / T)) else 0

/-- First half of a RAM step of chain `i` at iteration `k`, `B` iterations being adaptive: propose and adapt. -/
noncomputable def propX (G : LogTarget d) (T : Fin N → ℝ) (B k : ℕ) (i : Fin N) (z : RunX N d × (ℕ → ℝ)) : RunX N d :=
  (z.1.1, if k < B then Function.update z.1.2.1 i (adaptT k (alphaT G (T i) (z.1.1 i) (propT (z.1.2.1 i) (z.1.1 i) z.2), z.1.2.1 i, fun m => z.2 m)) else z.1.2.1,
    propT (z.1.2.1 i) (z.1.1 i) z.2)

/-- Second half: accept or reject. -/
noncomputable def accX (G : LogTarget d) (T : Fin N → ℝ) (i : Fin N) : RunZ N d → RunZ N d :=
  metroMap (fun _ z => (Function.update z.1 i z.2.2, z.2)) (Rng.skip 0) {z | (G (z.1.1 i)).isSome = true ∧ (G z.1.2.2).isSome = true}
    (fun z => min 1 (Real.exp (((G z.1.2.2).getD 0 - (G (z.1.1 i)).getD 0) / T i)))

/-- A RAM step. -/
noncomputable def ramX (G : LogTarget d) (T : Fin N → ℝ) (B k : ℕ) (i : Fin N) (z : RunZ N d) : RunZ N d :=
  accX G T i (propX G T B k i (z.1, z.2.1), Rng.skip d z.2.1, z.2.2)

/-- An exchange step. -/
noncomputable def exchX (G : LogTarget d) (T : Fin N → ℝ) (i j : Fin N) : RunZ N d → RunZ N d :=
  metroMap (fun s z => (swapMove i j s z.1, z.2)) (Rng.skip 0) Set.univ (fun z => swapAcc G T i j (z.1.1, z.2))

/-- The step of a kind. -/
noncomputable def stepX (G : LogTarget d) (T : Fin N → ℝ) (B k : ℕ) (w : Bool × ℕ) (z : RunZ N d) : RunZ N d :=
  if h : w.2 < N then (if w.1 then ramX G T B k ⟨w.2, h⟩ z else exchX G T ⟨w.2, h⟩ ⟨w.2 - 1, by omega⟩ z) else z

/-- The first `m` steps of sweep `k`. -/
noncomputable def loopX (G : LogTarget d) (T : Fin N → ℝ) (B : ℕ) (l : List (Bool × ℕ)) (k : ℕ) : ℕ → RunZ N d → RunZ N d
  | 0, z => z
  | m + 1, z => match l[m]? with
      | some w => stepX G T B k w (loopX G T B l k m z)
      | none => loopX G T B l k m z

/-- The first `n` sweeps. -/
noncomputable def runX (G : LogTarget d) (T : Fin N → ℝ) (B : ℕ) (l : List (Bool × ℕ)) : ℕ → RunZ N d → RunZ N d
  | 0, z => z
  | n + 1, z => loopX G T B l n l.length (runX G T B l n z)

/-! ### the numbers to come stay fresh -/

section
variable {X : Type} [MeasurableSpace X] {ν : Measure ℝ} [IsProbabilityMeasure ν]

theorem stud_regen {h : X × (ℕ → ℝ) → X} (hm : Measurable h) {d : ℕ} (hd : ∀ x s₁ s₂, (∀ i < d, s₁ i = s₂ i) → h (x, s₁) = h (x, s₂)) :
    Regen (rngLaw ν) (fun z : X × (ℕ → ℝ) × (ℕ → ℝ) => (h (z.1, z.2.1), Rng.skip d z.2.1, z.2.2)) := by
  have hmeas : Measurable fun z : X × (ℕ → ℝ) × (ℕ → ℝ) => (h (z.1, z.2.1), Rng.skip d z.2.1, z.2.2) :=
    (hm.comp (measurable_fst.prodMk (measurable_fst.comp measurable_snd))).prodMk
      (((measurable_skip d).comp (measurable_fst.comp measurable_snd)).prodMk (measurable_snd.comp measurable_snd))
  refine ⟨hmeas, fun x g hg => ?_⟩
  have hx : Measurable fun s => h (x, s) := hm.comp (measurable_const.prodMk measurable_id)
  have m1 : Measurable fun w : (ℕ → ℝ) × (ℕ → ℝ) => g (h (x, w.1), Rng.skip d w.1, w.2) := hg.comp (hmeas.comp (measurable_const.prodMk measurable_id))
  have mk : Measurable fun z : X × (ℕ → ℝ) => ∫⁻ u, g (z.1, z.2, u) ∂(drawsOf unifLaw) :=
    Measurable.lintegral_prod_right' (f := fun z : (X × (ℕ → ℝ)) × (ℕ → ℝ) => g (z.1.1, z.1.2, z.2))
      (hg.comp ((measurable_fst.comp measurable_fst).prodMk ((measurable_snd.comp measurable_fst).prodMk measurable_snd)))
  have hK : ∀ y, ∫⁻ w', g (y, w') ∂(rngLaw ν) = ∫⁻ s', ∫⁻ u, g (y, s', u) ∂(drawsOf unifLaw) ∂(drawsOf ν) := fun y =>
    lintegral_prod _ (hg.comp (measurable_const.prodMk measurable_id)).aemeasurable
  have mK : Measurable fun y => ∫⁻ w', g (y, w') ∂(rngLaw ν) := hg.lintegral_prod_right'
  have m2 : Measurable fun w : (ℕ → ℝ) × (ℕ → ℝ) => ∫⁻ w', g (h (x, w.1), w') ∂(rngLaw ν) := mK.comp (hx.comp measurable_fst)
  show ∫⁻ w, g (h (x, w.1), Rng.skip d w.1, w.2) ∂(rngLaw ν) = ∫⁻ w, ∫⁻ w', g (h (x, w.1), w') ∂(rngLaw ν) ∂(rngLaw ν)
  rw [lintegral_prod _ m1.aemeasurable, lintegral_prod _ m2.aemeasurable]
  have e := lintegral_skip (ν := ν) d (h := fun z => ∫⁻ u, g (h (x, z.1), z.2, u) ∂(drawsOf unifLaw))
    (mk.comp ((hx.comp measurable_fst).prodMk measurable_snd)) fun s₁ s₂ s' hs => by
      dsimp only
      rw [hd x s₁ s₂ hs]
  dsimp only at e
  rw [e]
  refine lintegral_congr fun s => ?_
  dsimp only
  rw [lintegral_const, measure_univ, mul_one, hK]

end

variable {G : LogTarget d} {T : Fin N → ℝ} {B : ℕ} {ν : Measure ℝ} [IsProbabilityMeasure ν]

theorem propT_measurable {X : Type} [MeasurableSpace X] {L : X → Fin d → Fin d → ℝ} {q : X → Fin d → ℝ} {s : X → ℕ → ℝ} (hL : Measurable L)
    (hq : Measurable q) (hs : Measurable s) : Measurable fun x => propT (L x) (q x) (s x) := by
  refine measurable_pi_lambda _ fun j => ?_
  refine ((measurable_pi_apply j).comp hq).add (Finset.measurable_sum _ fun m _ => ?_)
  exact ((measurable_pi_apply j).comp ((measurable_pi_apply m).comp hL)).mul ((measurable_pi_apply (m : ℕ)).comp hs)

theorem alphaT_measurable {X : Type} [MeasurableSpace X] (hG : MeasTarget G) (c : ℝ) {q y : X → Fin d → ℝ} (hq : Measurable q) (hy : Measurable y) :
    Measurable fun x => alphaT G c (q x) (y x) := by
  refine Measurable.ite ((hq hG.some).inter (hy hG.some)) ?_ measurable_const
  exact measurable_const.min (Real.measurable_exp.comp (((hG.val.comp hy).sub (hG.val.comp hq)).div_const _))

theorem measurable_update2 {X E : Type} [MeasurableSpace X] [MeasurableSpace E] {f : X → Fin N → E} {g : X → E} (hf : Measurable f) (hg : Measurable g)
    (i : Fin N) : Measurable fun x => Function.update (f x) i (g x) := by
  refine measurable_pi_lambda _ fun j => ?_
  by_cases h : j = i
  · subst h
    simpa only [Function.update_self] using hg
  · simp only [Function.update_of_ne h]
    exact (measurable_pi_apply j).comp hf

theorem propX_measurable (hG : MeasTarget G) (k : ℕ) (i : Fin N) : Measurable (propX G T B k i) := by
  have hx : Measurable fun z : RunX N d × (ℕ → ℝ) => z.1.1 := measurable_fst.comp measurable_fst
  have hL : Measurable fun z : RunX N d × (ℕ → ℝ) => z.1.2.1 := measurable_fst.comp (measurable_snd.comp measurable_fst)
  have hLi : Measurable fun z : RunX N d × (ℕ → ℝ) => z.1.2.1 i := (measurable_pi_apply i).comp hL
  have hxi : Measurable fun z : RunX N d × (ℕ → ℝ) => z.1.1 i := (measurable_pi_apply i).comp hx
  have hp := propT_measurable hLi hxi (measurable_snd (α := RunX N d) (β := ℕ → ℝ))
  have ha := alphaT_measurable hG (T i) hxi hp
  have hu : Measurable fun z : RunX N d × (ℕ → ℝ) => (fun m => z.2 m : Fin d → ℝ) :=
    measurable_pi_lambda _ fun m => (measurable_pi_apply (m : ℕ)).comp measurable_snd
  unfold propX
  refine hx.prodMk (Measurable.prodMk ?_ hp)
  by_cases h : k < B
  · simp only [h, if_true]
    exact measurable_update2 hL ((adaptT_measurable k).comp (ha.prodMk (hLi.prodMk hu))) i
  · simpa only [h, if_false] using hL

theorem accX_regen (hG : MeasTarget G) (i : Fin N) : Regen (rngLaw ν) (accX (d := d) G T i) := by
  have hx : Measurable fun z : RunX N d × (ℕ → ℝ) => z.1.1 i := (measurable_pi_apply i).comp (measurable_fst.comp measurable_fst)
  have hy : Measurable fun z : RunX N d × (ℕ → ℝ) => z.1.2.2 := measurable_snd.comp (measurable_snd.comp measurable_fst)
  refine metro_regen (d := 0) ?_ ((hx hG.some).inter (hy hG.some)) ?_ (fun z _ => min_le_left _ _) (fun _ _ _ _ => rfl) ?_
  · exact (measurable_update2 (measurable_fst.comp measurable_fst) hy i).prodMk (measurable_snd.comp measurable_fst)
  · exact measurable_const.min (Real.measurable_exp.comp (((hG.val.comp hy).sub (hG.val.comp hx)).div_const _))
  · intro s₁ s₂ x _
    rfl

theorem ramX_regen (hG : MeasTarget G) (k : ℕ) (i : Fin N) : Regen (rngLaw ν) (ramX G T B k i) := by
  have h1 := stud_regen (ν := ν) (d := d) (propX_measurable (T := T) (B := B) hG k i) fun x s₁ s₂ hs => by
    have e1 : propT (x.2.1 i) (x.1 i) s₁ = propT (x.2.1 i) (x.1 i) s₂ := by
      funext j
      unfold propT
      congr 1
      exact Finset.sum_congr rfl fun m _ => by rw [hs m m.2]
    have e2 : (fun m : Fin d => s₁ m) = fun m : Fin d => s₂ m := funext fun m => hs m m.2
    unfold propX
    simp only [e1, e2]
  exact (accX_regen hG i).comp h1

theorem exchX_regen (hG : MeasTarget G) (i j : Fin N) : Regen (rngLaw ν) (exchX (d := d) G T i j) := by
  have h1 : Measurable fun z : RunX N d × (ℕ → ℝ) => ((z.1.1, z.2) : (Fin N → Fin d → ℝ) × (ℕ → ℝ)) :=
    (measurable_fst.comp measurable_fst).prodMk measurable_snd
  refine metro_regen (d := 0) ?_ .univ ((swapAcc_measurable hG T i j).comp h1) (fun z _ => swapAcc_le_one i j _) (fun _ _ _ _ => rfl) ?_
  · exact ((swapMove_measurable i j).comp h1).prodMk (measurable_snd.comp measurable_fst)
  · intro s₁ s₂ x _
    rfl

theorem stepX_regen (hG : MeasTarget G) (k : ℕ) (w : Bool × ℕ) : Regen (rngLaw ν) (stepX (N := N) G T B k w) := by
  by_cases h : w.2 < N
  · by_cases hb : w.1 = true
    · have e : stepX (N := N) G T B k w = ramX G T B k ⟨w.2, h⟩ := by
        funext z; rw [stepX, dif_pos h, if_pos hb]
      rw [e]; exact ramX_regen hG k _
    · have e : stepX (N := N) G T B k w = exchX G T ⟨w.2, h⟩ ⟨w.2 - 1, by omega⟩ := by
        funext z; rw [stepX, dif_pos h, if_neg hb]
      rw [e]; exact exchX_regen hG _ _
  · have e : stepX (N := N) G T B k w = id := by
      funext z; rw [stepX, dif_neg h]; rfl
    rw [e]; exact Regen.id

theorem loopX_regen (hG : MeasTarget G) (l : List (Bool × ℕ)) (k m : ℕ) : Regen (rngLaw ν) (loopX (N := N) G T B l k m) := by
  induction m with
  | zero => exact Regen.id
  | succ m ih =>
      cases hl : l[m]? with
      | none =>
          have e : loopX (N := N) G T B l k (m + 1) = loopX G T B l k m := by funext z; rw [loopX, hl]
          rw [e]; exact ih
      | some w =>
          have e : loopX (N := N) G T B l k (m + 1) = stepX G T B k w ∘ loopX G T B l k m := by funext z; rw [loopX, hl]; rfl
          rw [e]; exact (stepX_regen hG k w).comp ih

theorem runX_regen (hG : MeasTarget G) (l : List (Bool × ℕ)) (n : ℕ) : Regen (rngLaw ν) (runX (N := N) G T B l n) := by
  induction n with
  | zero => exact Regen.id
  | succ n ih => exact (loopX_regen hG l n l.length).comp ih

end Verif.Theory
