import Verif.Props.SimLaw

/-!
In which order `Simulate` returns its values: C92.
-/

namespace Verif.Props

open Verif.Model Verif.Spec Verif.Theory MeasureTheory ProbabilityTheory
open scoped Classical

/-- **C92, the order is lost.** For every class of filters, every object, and every sequence of draws: `Simulate` called with the same
times in another order returns the same list, and so does `simulate` in Python. At most one of the orders can be the one the caller meant. -/
theorem C92_order_lost {σ : Type} [Kalman σ] {xs xs' : List ℝ} (h : xs.Perm xs') (zs : ℕ → ℝ) :
    (∀ s : σ, Kalman.simulate s xs zs = Kalman.simulate s xs' zs) ∧
    ∀ fm : Res (σ × ℝ), Py.simulate fm xs zs = Py.simulate fm xs' zs := by
  have hs : xs.mergeSort (fun a b => decide (a ≤ b)) = xs'.mergeSort (fun a b => decide (a ≤ b)) := by
    refine List.Perm.eq_of_pairwise' (r := (· ≤ ·)) (List.pairwise_mergeSort' (fun a b : ℝ => a ≤ b) xs) (List.pairwise_mergeSort' (fun a b : ℝ => a ≤ b) xs') ?_
    exact (List.mergeSort_perm xs _).trans (h.trans (List.mergeSort_perm xs' _).symm)
  have h1 : ∀ s : σ, Kalman.simulate s xs zs = Kalman.simulate s xs' zs := fun s => by
    simp only [Kalman.simulate, hs]
  exact ⟨h1, fun fm => by simp only [Py.simulate, h1]⟩

/-- two orders of the same times -/
example : ([3, 1, 2] : List ℝ).Perm [1, 2, 3] := by
  refine (List.Perm.swap 1 3 [2]).trans (List.Perm.cons 1 (List.Perm.swap 2 3 []))

theorem strictMono_arrange {m : ℕ} {x : Fin m → ℝ} (hx : Function.Injective x) : ∃ σ : Equiv.Perm (Fin m), StrictMono (x ∘ σ) :=
  ⟨Tuple.sort x, (Tuple.monotone_sort x).strictMono_of_injective (hx.comp (Tuple.sort x).injective)⟩

/-- **C92, CAR(1).** Ask for the values at different times `x 0, x 1, ...`. What `Simulate` returns is a sample of the process at these times, in
the order asked for, if and only if the times are in increasing order. -/
theorem C92_car1_aligned_iff (srt : List ℝ → List ℕ) {n : ℕ} (hn : 2 ≤ n) {t : Fin n → ℝ} (ht : StrictMono t) (e : Fin n → ℝ) {sigsqr omega : ℝ}
    (hs : 0 < sigsqr) (ho : 0 < omega) {m : ℕ} {x : Fin m → ℝ} (hxi : Function.Injective x) (hx : ∀ k i, t i = x k → e i ≠ 0) :
    DrawsProcess .ok (fun y zs => sim1 srt sigsqr omega t y e (List.ofFn x) zs) (car1Acf sigsqr omega) t e x ↔ StrictMono x := by
  refine ⟨fun h => ?_, fun hm => C81_car1_simulate srt hn ht e hs ho hm (List.Perm.refl _) hx⟩
  obtain ⟨τ, hτ⟩ := strictMono_arrange hxi
  have hp : (List.ofFn x).Perm (List.ofFn (x ∘ τ)) := (Equiv.Perm.ofFn_comp_perm τ x).symm
  obtain ⟨V', -, e', -, -, J', g'⟩ := C81_car1_simulate srt hn ht e hs ho hτ hp (fun k i => hx (τ k) i)
  obtain ⟨V, -, e1, -, -, J, g⟩ := h
  have hV : V = V' := by
    funext y zs
    have := (e1 y zs).symm.trans (e' y zs)
    injection this with this
    exact List.ofFn_injective this
  subst hV
  have hG := g.symm.trans g'
  have hcov : jointCov (car1Acf sigsqr omega) t e x = jointCov (car1Acf sigsqr omega) t e (x ∘ τ) := by
    ext a b
    have h1 := covariance_eval_multivariateGaussian (μ := 0) J.posSemidef a b
    rw [hG, covariance_eval_multivariateGaussian J'.posSemidef a b] at h1
    exact h1.symm
  have hne : sigsqr / (2 * omega) ≠ 0 := (div_pos hs (by linarith)).ne'
  have key : ∀ i k, |t i - x k| = |t i - x (τ k)| := by
    intro i k
    have h1 := congrFun (congrFun hcov (Sum.inl i)) (Sum.inr k)
    simp only [jointCov, Matrix.fromBlocks_apply₁₂, Matrix.of_apply, car1Acf, Function.comp] at h1
    have h2 := Real.exp_injective (mul_left_cancel₀ hne h1)
    exact mul_left_cancel₀ (neg_ne_zero.mpr ho.ne') h2
  have hid : x ∘ τ = x := by
    funext k
    by_contra hk
    have a0 := key ⟨0, by omega⟩ k
    have a1 := key ⟨1, by omega⟩ k
    have ht01 : t ⟨0, by omega⟩ < t ⟨1, by omega⟩ := ht (by simp [Fin.lt_def])
    simp only [Function.comp] at hk
    rw [abs_eq_abs] at a0 a1
    rcases a0 with a0 | a0 <;> rcases a1 with a1 | a1
    · exact hk (by linarith)
    · exact hk (by linarith)
    · exact hk (by linarith)
    · linarith
  rw [← hid]; exact hτ

/-- **C92, CARMA, the part that holds.** Times in increasing order: the values are a sample of the process at these times, in this order. -/
theorem C92_carma_sorted_partial {p : ℕ} (srt : List ℝ → List ℕ) {n : ℕ} (hn : 2 ≤ n) {t : Fin n → ℝ} (ht : StrictMono t) (e : Fin n → ℝ) (hp : 2 ≤ p)
    {sigsqr : ℝ} (hs : 0 < sigsqr) {omega : Fin p → ℂ} (ho : Admissible omega) {ma : List ℝ} (hl : ma.length ≤ p) (hne : ∃ x ∈ ma, x ≠ 0)
    {m : ℕ} {x : Fin m → ℝ} (hxm : StrictMono x) (hx : ∀ k i, t i = x k → e i ≠ 0) :
    DrawsProcess .ok (fun y zs => simp' srt sigsqr omega ma t y e (List.ofFn x) zs) (carmaAcf sigsqr omega ma) t e x :=
  C81_carma_simulate srt hn ht e hp hs ho hl hne hxm (List.Perm.refl _) hx

/-- **C92, witness.** Data at 0 and 1, values asked for at 3 and 2, in this order: the first value returned is not one for the time 3. -/
theorem C92_witness (srt : List ℝ → List ℕ) :
    ¬ DrawsProcess .ok (fun y zs => sim1 srt 2 1 ![0, 1] y ![1, 1] (List.ofFn ![3, 2]) zs) (car1Acf 2 1) ![0, 1] ![1, 1] ![3, 2] := by
  have ht : StrictMono (![0, 1] : Fin 2 → ℝ) := by
    refine Fin.strictMono_iff_lt_succ.mpr fun i => ?_
    fin_cases i; simp
  have hxi : Function.Injective (![3, 2] : Fin 2 → ℝ) := by
    intro a b h
    fin_cases a <;> fin_cases b <;> simp at h ⊢
  rw [C92_car1_aligned_iff srt le_rfl ht ![1, 1] (by norm_num) one_pos hxi (by
    intro k i; fin_cases k <;> fin_cases i <;> simp)]
  intro h
  have := h (show (0 : Fin 2) < 1 by decide)
  norm_num at this

end Verif.Props
