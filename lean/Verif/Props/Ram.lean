import Verif.Theory.Chol
import Verif.Props.Toy
import Verif.Theory.Mcmc

/-!
The robust adaptive Metropolis update: C27.
-/

namespace Verif.Props

open Verif.Model Verif.Spec Verif.Theory
open scoped Matrix

/-- Step size of iteration `niter`: `min(1, d / niter^gamma)`, and 1 at the first iteration. -/
noncomputable def etaSpec (d niter : ℕ) (gamma : ℝ) : ℝ := if niter = 0 then 1 else min 1 (d / (niter : ℝ) ^ gamma)

lemma stepSize_eq {d : ℕ} (hd : 0 < d) (a : Ram d) (hg : a.gamma ≠ 0) :
    a.stepSize = .fin (etaSpec d a.niter a.gamma) ∧ 0 ≤ etaSpec d a.niter a.gamma ∧ etaSpec d a.niter a.gamma ≤ 1 := by
  unfold Ram.stepSize etaSpec
  by_cases h : a.niter = 0
  · rw [h]
    simp [Real.zero_rpow hg, Dbl.div, Dbl.infTimes, Dbl.min, Dbl.lt, hd]
  · have hp : (0 : ℝ) < (a.niter : ℝ) ^ a.gamma := Real.rpow_pos_of_pos (by exact_mod_cast Nat.pos_of_ne_zero h) _
    simp only [Dbl.div, hp.ne', if_false, Dbl.min, Dbl.lt, h]
    refine ⟨?_, ?_, min_le_left _ _⟩
    · by_cases h1 : (d : ℝ) / (a.niter : ℝ) ^ a.gamma < 1
      · rw [if_pos h1, min_eq_right h1.le]
      · rw [if_neg h1, min_eq_left (not_lt.mp h1)]
    · exact le_min zero_le_one (by positivity)

lemma norm2_sq {d : ℕ} (u : Fin d → ℝ) : norm2 u ^ 2 = ∑ i, u i ^ 2 :=
  Real.sq_sqrt (Finset.sum_nonneg fun _ _ => sq_nonneg _)

lemma norm2_pos {d : ℕ} {u : Fin d → ℝ} (hu : u ≠ 0) : 0 < norm2 u := by
  refine Real.sqrt_pos.mpr ?_
  obtain ⟨i, hi⟩ := Function.ne_iff.mp hu
  exact Finset.sum_pos' (fun _ _ => sq_nonneg _) ⟨_, Finset.mem_univ _, by simpa [sq_pos_iff] using hi⟩

/-- **C27.** While the step adapts, and for every upper triangular factor `R` with positive diagonal, every nonzero unit draw `u`,
acceptance probability `α ≥ 0` and target in (0,1), the adaptation succeeds (no square root of a negative number, no division by
zero) and replaces `RᵀR` by `Rᵀ(I + η (α - target) uuᵀ/|u|²)R`, where `η = min(1, d/niter^γ)`. The new factor is again upper
triangular with positive diagonal, and the covariance is positive definite. Nothing else changes. -/
theorem C27_ram_update {d : ℕ} (a : Ram d) (htri : ∀ i j, j < i → a.chol i j = 0) (hpos : ∀ i, 0 < a.chol i i)
    (u : Fin d → ℝ) (hu : u ≠ 0) {alpha : ℝ} (ha : a.alpha = .fin alpha) (ha0 : 0 ≤ alpha)
    (ht0 : 0 < a.target) (ht1 : a.target < 1) (hg : a.gamma ≠ 0) (hn : a.niter < a.maxiter) :
    ∃ R, a.adapt u (fun j => ∑ i, a.chol i j * u i) = .ok { a with chol := R } ∧
      Rᵀ * R = a.cholᵀ * (1 + (etaSpec d a.niter a.gamma * (alpha - a.target) / ∑ i, u i ^ 2) • Matrix.vecMulVec u u) * a.chol ∧
      (∀ i j, j < i → R i j = 0) ∧ (∀ i, 0 < R i i) ∧ (Rᵀ * R).PosDef := by
  have hd : 0 < d := by
    obtain ⟨i, -⟩ := Function.ne_iff.mp hu
    exact i.pos
  obtain ⟨he, h0, h1⟩ := stepSize_eq hd a hg
  set η := etaSpec d a.niter a.gamma
  have hN := norm2_pos hu
  have hL : Upper a.chol := ⟨htri, hpos⟩
  set w : Fin d → ℝ := fun j => ∑ i, a.chol i j * u i with hw
  set f := √(η * |alpha - a.target|) / norm2 u with hf
  have hff : f ^ 2 = η * |alpha - a.target| / ∑ i, u i ^ 2 := by
    rw [hf, div_pow, norm2_sq, Real.sq_sqrt (mul_nonneg h0 (abs_nonneg _))]
  set σ : ℝ := if decide (alpha < a.target) = true then -1 else 1 with hσ
  have hσf : σ * f ^ 2 = η * (alpha - a.target) / ∑ i, u i ^ 2 := by
    rw [hff, hσ]
    by_cases hlt : alpha < a.target
    · rw [if_pos (decide_eq_true hlt), abs_of_neg (by linarith)]; ring
    · rw [if_neg (by simpa using hlt), abs_of_nonneg (by linarith)]; ring
  set M := a.cholᵀ * (1 + (η * (alpha - a.target) / ∑ i, u i ^ 2) • Matrix.vecMulVec u u) * a.chol with hM
  have hMeq : M = a.cholᵀ * a.chol + σ • Matrix.vecMulVec (fun i => f * w i) (fun i => f * w i) := by
    rw [hM, Matrix.mul_add, Matrix.add_mul, mul_one]
    congr 1
    rw [← hσf, Matrix.mul_smul, Matrix.smul_mul, mul_smul]
    congr 1
    ext i j
    simp only [Matrix.smul_apply, smul_eq_mul, Matrix.vecMulVec_apply, Matrix.mul_apply, Matrix.transpose_apply, hw]
    have e1 : ∑ x, (∑ k, a.chol k i * (u k * u x)) * a.chol x j = (∑ k, a.chol k i * u k) * ∑ x, a.chol x j * u x := by
      rw [Finset.mul_sum]
      refine Finset.sum_congr rfl fun x _ => ?_
      rw [Finset.sum_mul, Finset.sum_mul]
      exact Finset.sum_congr rfl fun k _ => by ring
    rw [e1]; ring
  have hq : ∀ z : Fin d → ℝ, z ≠ 0 → 0 < z ⬝ᵥ M.mulVec z := by
    intro z hz
    have e2 : z ⬝ᵥ M.mulVec z = ∑ k, a.chol.mulVec z k ^ 2 + σ * (∑ j, (f * w j) * z j) ^ 2 :=
      quad_gram a.chol σ (fun i => f * w i) z fun i j => by
        rw [hMeq]
        simp [Matrix.mul_apply, Matrix.vecMulVec_apply]; ring
    have e3 : ∑ j, (f * w j) * z j = f * ∑ i, u i * a.chol.mulVec z i := by
      simp only [hw, Matrix.mulVec, dotProduct, Finset.mul_sum, Finset.sum_mul]
      rw [Finset.sum_comm]
      exact Finset.sum_congr rfl fun i _ => Finset.sum_congr rfl fun j _ => by ring
    have hz' : a.chol.mulVec z ≠ 0 := fun h => hz (Matrix.eq_zero_of_mulVec_eq_zero hL.det_ne h)
    have hs : 0 < ∑ k, a.chol.mulVec z k ^ 2 := by
      obtain ⟨i, hi⟩ := Function.ne_iff.mp hz'
      exact Finset.sum_pos' (fun _ _ => sq_nonneg _) ⟨_, Finset.mem_univ _, by simpa [sq_pos_iff] using hi⟩
    have hcs : (∑ i, u i * a.chol.mulVec z i) ^ 2 ≤ (∑ i, u i ^ 2) * ∑ i, a.chol.mulVec z i ^ 2 :=
      Finset.sum_mul_sq_le_sq_mul_sq _ _ _
    have hU : 0 < ∑ i, u i ^ 2 := by rw [← norm2_sq]; positivity
    rw [e2, e3, mul_pow, ← mul_assoc, hσf]
    set S := ∑ k, a.chol.mulVec z k ^ 2
    set D := (∑ i, u i * a.chol.mulVec z i) ^ 2
    set U := ∑ i, u i ^ 2
    have hD : 0 ≤ D := sq_nonneg _
    have hc : -1 < η * (alpha - a.target) := by nlinarith
    have e4 : η * (alpha - a.target) / U * D = η * (alpha - a.target) * (D / U) := by ring
    have hDU : D / U ≤ S := by rw [div_le_iff₀ hU]; linarith
    have hDU0 : 0 ≤ D / U := by positivity
    rw [e4]
    rcases le_or_gt 0 (η * (alpha - a.target)) with h2 | h2
    · have := mul_nonneg h2 hDU0; linarith
    · nlinarith
  obtain ⟨R, r1, r2, r3⟩ := cholUpdateR1_spec hL (fun i => f * w i) (decide (alpha < a.target)) hq hMeq
  refine ⟨R, ?_, r3, r2.tri, r2.pos, ?_⟩
  · unfold Ram.adapt
    rw [ha]
    simp only [hn, if_true, he, res_bind_ok, dv, hN.ne', if_false]
    rw [← hf, r1]
    rfl
  · rw [r3]
    refine Matrix.PosDef.of_dotProduct_mulVec_pos ?_ fun z hz => by simpa using hq z hz
    rw [← r3, Matrix.IsHermitian, Matrix.conjTranspose_eq_transpose_of_trivial, Matrix.transpose_mul, Matrix.transpose_transpose]

/-- the hypotheses of C27: a 2 by 2 factor and a rejected proposal (downdate) -/
example : ∃ (a : Ram 2) (u : Fin 2 → ℝ), (∀ i j, j < i → a.chol i j = 0) ∧ (∀ i, 0 < a.chol i i) ∧ u ≠ 0 ∧
    a.alpha = .fin 0 ∧ 0 < a.target ∧ a.target < 1 ∧ a.gamma ≠ 0 ∧ a.niter < a.maxiter := by
  refine ⟨⟨!![2, 1; 0, 3], 2 / 3, 1 / 4, 5, 0, 10, .fin 0⟩, ![1, -2], ?_, ?_, ?_, rfl, ?_, ?_, ?_, ?_⟩
  · intro i j; fin_cases i <;> fin_cases j <;> simp
  · intro i; fin_cases i <;> simp
  · exact fun h => by simpa using congrFun h 0
  all_goals norm_num

lemma accept_ram {μ : Type} [Target μ] {d : ℕ} {a : Ram d} {s : Par μ} {θ : List ℝ} {r : Rng} {res : Accepted μ d}
    (h : a.accept s θ r = .ok res) : ∃ x n, res.ram = { a with alpha := .fin x, naccept := n } ∧ 0 ≤ x ∧ x ≤ 1 := by
  unfold Ram.accept at h
  obtain ⟨⟨obj, lp⟩, h1, h⟩ := bind_ok_inv h
  dsimp only at h
  split at h
  · injection h with h
    exact ⟨0, a.naccept, by rw [← h], le_rfl, zero_le_one⟩
  · rename_i hf
    have : ∃ x, Dbl.min (Dbl.div (lp.sub s.logpost) (.fin s.temp)).exp (.fin 1) = .fin x ∧ 0 ≤ x ∧ x ≤ 1 := by
      generalize Dbl.div (lp.sub s.logpost) (.fin s.temp) = y at hf
      match y, hf with
      | .fin y, _ =>
          simp only [Dbl.exp, Dbl.min, Dbl.lt]
          by_cases hy : 1 < Real.exp y
          · exact ⟨1, if_pos hy, zero_le_one, le_rfl⟩
          · exact ⟨_, if_neg hy, (Real.exp_pos y).le, by linarith⟩
      | .pinf, hf => simp [Dbl.isFin] at hf
      | .ninf, hf => simp [Dbl.isFin] at hf
      | .nan, hf => simp [Dbl.isFin] at hf
    obtain ⟨x, hx, h0, h1⟩ := this
    split at h
    · injection h with h
      exact ⟨x, a.naccept + 1, by rw [← h, hx], h0, h1⟩
    · injection h with h
      exact ⟨x, a.naccept, by rw [← h, hx], h0, h1⟩

lemma ramStep_inv {μ : Type} [Target μ] {d : ℕ} {a a' : Ram d} (h : RamStep μ a a') :
    ∃ (x : ℝ) (n : ℕ) (u : Fin d → ℝ) (b : Ram d), 0 ≤ x ∧ x ≤ 1 ∧
      ({ a with alpha := .fin x, naccept := n } : Ram d).adapt u (fun j => ∑ i, a.chol i j * u i) = .ok b ∧
      a' = { b with niter := b.niter + 1 } := by
  obtain ⟨s, s', r, r', h⟩ := h
  unfold Ram.doStep at h
  by_cases hc : s.value.length ≠ d
  · simp only [hc, if_true, ne_eq, not_false_eq_true] at h; cases h
  simp only [hc, if_false] at h
  obtain ⟨res, h1, h⟩ := bind_ok_inv h
  obtain ⟨x, n, hr, h0, h1⟩ := accept_ram h1
  split at h <;>
  · obtain ⟨s1, h2, h⟩ := bind_ok_inv h
    obtain ⟨b, h3, h⟩ := bind_ok_inv h
    rw [hr] at h3
    injection h with h
    exact ⟨x, n, _, b, h0, h1, h3, (congrArg Prod.fst h).symm⟩

/-- Adaptation changes nothing but the factor, and not even that once `niter` has reached `maxiter`. -/
lemma adapt_frame {d : ℕ} {a b : Ram d} {u w : Fin d → ℝ} (h : a.adapt u w = .ok b) :
    (∃ R, b = { a with chol := R }) ∧ (a.maxiter ≤ a.niter → b = a) := by
  unfold Ram.adapt at h
  split at h
  · split at h
    · rename_i hn
      obtain ⟨step, -, h⟩ := bind_ok_inv h
      obtain ⟨f, -, h⟩ := bind_ok_inv h
      obtain ⟨L, -, h⟩ := bind_ok_inv h
      injection h with h
      exact ⟨⟨L, h.symm⟩, fun hm => absurd hn (by omega)⟩
    · injection h with h
      exact ⟨⟨a.chol, h.symm⟩, fun _ => h.symm⟩
  · injection h with h
    exact ⟨⟨a.chol, h.symm⟩, fun _ => h.symm⟩

/-- **C27, for ever.** After any number of steps with any targets and random numbers, a step object built by the constructor from
a covariance with a positive diagonal still holds an upper triangular factor with positive diagonal, and its proposal covariance
is positive definite. -/
theorem C27_ram_forever (μ : Type) [Target μ] {d : ℕ} {covar : Matrix (Fin d) (Fin d) ℝ} {target : ℝ} (ht0 : 0 < target)
    (ht1 : target < 1) {maxiter : ℕ} {a a' : Ram d} (ha : Ram.new covar target maxiter = .ok a)
    (h : Relation.ReflTransGen (RamStep μ) a a') :
    (∀ i j, j < i → a'.chol i j = 0) ∧ (∀ i, 0 < a'.chol i i) ∧ (a'.cholᵀ * a'.chol).PosDef := by
  have h0 : Upper a.chol ∧ a.target = target ∧ a.gamma = 2 / 3 := by
    unfold Ram.new cholDiag at ha
    split at ha
    · cases ha
    · rename_i hneg
      push Not at hneg
      cases ha
      refine ⟨⟨fun i j hij => Matrix.diagonal_apply_ne _ hij.ne', fun i => ?_⟩, rfl, rfl⟩
      show 0 < Matrix.diagonal _ i i
      rw [Matrix.diagonal_apply_eq]
      exact Real.sqrt_pos.mpr (hneg i)
  have key : Upper a'.chol ∧ a'.target = target ∧ a'.gamma = 2 / 3 := by
    induction h with
    | refl => exact h0
    | @tail b c _ hbc ih =>
        obtain ⟨hU, hT, hG⟩ := ih
        obtain ⟨x, n, u, b', x0, x1, hb, rfl⟩ := ramStep_inv hbc
        obtain ⟨⟨R, rfl⟩, hstop⟩ := adapt_frame hb
        refine ⟨?_, hT, hG⟩
        by_cases hn : b.niter < b.maxiter
        · by_cases hu : u = 0
          · exfalso
            unfold Ram.adapt at hb
            simp only [hn, if_true] at hb
            obtain ⟨step, -, hb⟩ := bind_ok_inv hb
            have : norm2 u = 0 := by simp [norm2, hu]
            simp only [this, dv, if_true] at hb
            cases hb
          · obtain ⟨R', h1, -, h3, h4, -⟩ := C27_ram_update { b with alpha := .fin x, naccept := n } hU.tri hU.pos u hu rfl x0
              (by rw [show ({ b with alpha := .fin x, naccept := n } : Ram d).target = b.target from rfl, hT]; exact ht0)
              (by rw [show ({ b with alpha := .fin x, naccept := n } : Ram d).target = b.target from rfl, hT]; exact ht1)
              (by rw [show ({ b with alpha := .fin x, naccept := n } : Ram d).gamma = b.gamma from rfl, hG]; norm_num) hn
            rw [h1] at hb
            injection hb with hb
            have : R' = R := congrArg Ram.chol hb
            subst this
            exact ⟨h3, h4⟩
        · have := congrArg Ram.chol (hstop (not_lt.mp hn))
          exact this ▸ hU
  refine ⟨key.1.tri, key.1.pos, ?_⟩
  refine Matrix.PosDef.of_dotProduct_mulVec_pos ?_ fun z hz => ?_
  · rw [Matrix.IsHermitian, Matrix.conjTranspose_eq_transpose_of_trivial, Matrix.transpose_mul, Matrix.transpose_transpose]
  · have hz' : a'.chol.mulVec z ≠ 0 := fun h => hz (Matrix.eq_zero_of_mulVec_eq_zero key.1.det_ne h)
    rw [star_trivial, quad_gram a'.chol 0 (fun _ => 0) z fun i j => by simp [Matrix.mul_apply]]
    obtain ⟨i, hi⟩ := Function.ne_iff.mp hz'
    rw [zero_mul, add_zero]
    exact Finset.sum_pos' (fun _ _ => sq_nonneg _) ⟨i, Finset.mem_univ _, by simpa [sq_pos_iff] using hi⟩

/-- **C28, one step object.** Each step raises the iteration counter by one, and once it has reached `maxiter` no further steps, with
any targets and random numbers, change the proposal factor. -/
theorem C28_ram_stops (μ : Type) [Target μ] {d : ℕ} {a b : Ram d} (h : RamStep μ a b) :
    b.niter = a.niter + 1 ∧ b.maxiter = a.maxiter ∧ (a.maxiter ≤ a.niter → b.chol = a.chol) := by
  obtain ⟨x, n, u, b', x0, x1, hb, rfl⟩ := ramStep_inv h
  obtain ⟨⟨R, rfl⟩, hstop⟩ := adapt_frame hb
  exact ⟨rfl, rfl, fun hn => by have := congrArg Ram.chol (hstop hn); exact this⟩

/-- The step objects of C27 and C28 can be built and do steps. -/
example : ∃ a b : Ram 1, Ram.new (Matrix.diagonal fun _ => 4) 0.25 10 = .ok a ∧ RamStep Toy a b ∧ b.chol ≠ a.chol := by
  have h1 : Ram.new (d := 1) (Matrix.diagonal fun _ => 4) 0.25 10 =
      .ok ⟨Matrix.diagonal fun _ => √4, 2 / 3, 0.25, 0, 0, 10, .nan⟩ := by
    simp only [Ram.new, cholDiag]
    rw [if_neg (by simp)]
    simp
  have h4 : √(4 : ℝ) = 2 := by rw [show (4 : ℝ) = 2 ^ 2 by norm_num]; exact Real.sqrt_sq (by norm_num)
  rw [h4] at h1
  set x := Real.exp (-6) with hx
  have hx0 : 0 < x := Real.exp_pos _
  have hx4 : x < 0.25 := by
    have := Real.add_one_le_exp 6
    rw [hx, Real.exp_neg, inv_lt_comm₀ (Real.exp_pos 6) (by norm_num)]
    norm_num at this ⊢; linarith
  obtain ⟨R, r1, r2, -⟩ := C27_ram_update (⟨Matrix.diagonal fun _ => 2, 2 / 3, 0.25, 0, 0, 10, .fin x⟩ : Ram 1)
    (by intro i j h; simp [Subsingleton.elim i j] at h) (by intro i; simp) (fun _ => 1)
    (fun h => by simpa using congrFun h 0) rfl hx0.le (by norm_num) (by norm_num) (by norm_num) (by norm_num)
  have hacc : ∀ r : Rng, r.unif 0 = 1 / 2 → ∃ s' r', (⟨Matrix.diagonal fun _ => 2, 2 / 3, 0.25, 0, 0, 10, .nan⟩ : Ram 1).accept
      (Toy.par 2 1) (List.ofFn fun _ : Fin 1 => (4 : ℝ)) r = .ok ⟨false, s', ⟨Matrix.diagonal fun _ => 2, 2 / 3, 0.25, 0, 0, 10, .fin x⟩, r'⟩ := by
    intro r hr
    refine ⟨⟨⟨1⟩, [2], .fin (-2 ^ 2 / 2), 1, "", false, [], []⟩, r.nextU.2, ?_⟩
    rw [accept_fin (y := -4 ^ 2 / 2) (x := -2 ^ 2 / 2) (o := ⟨1⟩) (by simp [Target.ld, Toy.par]) rfl (by simp [Toy.par])]
    have e : min 1 (Real.exp ((-(4 : ℝ) ^ 2 / 2 - -2 ^ 2 / 2) / (Toy.par 2 1).temp)) = x := by
      rw [show (-(4 : ℝ) ^ 2 / 2 - -2 ^ 2 / 2) / (Toy.par 2 1).temp = -6 by simp only [Toy.par]; norm_num]
      exact min_eq_right (by linarith)
    rw [e, hr, if_neg (show ¬ (1 / 2 : ℝ) < x by norm_num at hx4 ⊢; linarith)]
    rfl
  obtain ⟨s', r', hacc⟩ := hacc { exRng with stud := Rng.skip 1 exRng.stud } rfl
  refine ⟨_, ⟨R, 2 / 3, 0.25, 1, 0, 10, .fin x⟩, h1, ⟨Toy.par 2 1, s', exRng, r', ?_⟩, fun h => ?_⟩
  · have e : (List.ofFn fun i : Fin 1 => (Toy.par 2 1).value.getD i 0 +
        ∑ l, (Matrix.diagonal fun _ => 2 : Matrix (Fin 1) (Fin 1) ℝ) l i * exRng.stud l) = List.ofFn fun _ : Fin 1 => (4 : ℝ) := by
      simp [Toy.par, exRng]; norm_num
    simp only [Ram.doStep, e]
    rw [if_neg (by simp [Toy.par]), hacc]
    simp only [res_bind_ok, res_pure, Bool.false_eq_true, if_false]
    show (Ram.adapt _ (fun _ => 1) _ >>= _) = _
    rw [show (fun j => ∑ l : Fin 1, (Matrix.diagonal fun _ => 2 : Matrix (Fin 1) (Fin 1) ℝ) l j * exRng.stud l) =
      (fun j => ∑ l : Fin 1, (Matrix.diagonal fun _ => 2 : Matrix (Fin 1) (Fin 1) ℝ) l j * 1) from rfl, r1]
    rfl
  · have h : R = Matrix.diagonal fun _ => 2 := h
    have := congrFun (congrFun r2 0) 0
    rw [h] at this
    simp [Matrix.mul_apply, Matrix.vecMulVec_apply, etaSpec] at this
    norm_num at this hx4
    linarith

end Verif.Props
