import Verif.Theory.Innov
import Mathlib.Analysis.RCLike.Basic
import Mathlib.Analysis.Matrix.PosDef
import Mathlib.Algebra.BigOperators.Intervals

/-!
Helper theory: the Kalman recursion in a basis where the state transition is diagonal, over `ℝ` or `ℂ`,
solves the normal equations of the Gaussian law of the observations.
-/

namespace Verif.Theory

open Matrix Finset

/-- Diagonal state space: stationary state covariance `V`, observation row `b`, transition factors `rho i`
from observation `i` to `i+1`, measurement variances `e2 i`. -/
structure SS (𝕜 : Type*) (ι : Type*) where
  V : Matrix ι ι 𝕜
  b : ι → 𝕜
  rho : ℕ → ι → 𝕜
  e2 : ℕ → ℝ

variable {𝕜 : Type*} [RCLike 𝕜] {ι : Type*} [Fintype ι]

namespace SS

variable (S : SS 𝕜 ι)

/-- observation variance for a state covariance -/
noncomputable def obsVar (P : Matrix ι ι 𝕜) (e : ℝ) : ℝ := RCLike.re (S.b ⬝ᵥ (P *ᵥ star S.b)) + e

/-- gain -/
noncomputable def gainOf (P : Matrix ι ι 𝕜) (v : ℝ) : ι → 𝕜 := fun k => (P *ᵥ star S.b) k / (v : 𝕜)

/-- measurement update followed by a time update of the state covariance -/
noncomputable def stepP (P : Matrix ι ι 𝕜) (v : ℝ) (r : ι → 𝕜) : Matrix ι ι 𝕜 :=
  Matrix.of fun k l => r k * star (r l) *
    (P k l - (v : 𝕜) * (S.gainOf P v k * star (S.gainOf P v l)) - S.V k l) + S.V k l

noncomputable def P : ℕ → Matrix ι ι 𝕜
  | 0 => S.V
  | i + 1 => S.stepP (P i) (S.obsVar (P i) (S.e2 i)) (S.rho i)

noncomputable def v (i : ℕ) : ℝ := S.obsVar (S.P i) (S.e2 i)

noncomputable def g (i : ℕ) : ι → 𝕜 := S.gainOf (S.P i) (S.v i)

/-- predicted state for data `y` -/
noncomputable def x (y : ℕ → ℝ) : ℕ → ι → 𝕜
  | 0 => 0
  | i + 1 => fun k => S.rho i k * (x y i k + S.g i k * ((y i - RCLike.re (S.b ⬝ᵥ x y i) : ℝ) : 𝕜))

noncomputable def m (y : ℕ → ℝ) (i : ℕ) : ℝ := RCLike.re (S.b ⬝ᵥ S.x y i)

/-- coefficient of `y j` in the predicted state `i` -/
noncomputable def A : ℕ → ℕ → ι → 𝕜
  | 0, _ => 0
  | i + 1, j => fun k =>
      if j < i then S.rho i k * (A i j k - S.g i k * ((RCLike.re (S.b ⬝ᵥ A i j) : ℝ) : 𝕜))
      else if j = i then S.rho i k * S.g i k else 0

noncomputable def a (i j : ℕ) : ℝ := RCLike.re (S.b ⬝ᵥ S.A i j)

/-- covariance of the state at `i` with the observation `j ≤ i` (without measurement error) -/
noncomputable def C (i j : ℕ) : ι → 𝕜 := fun k => (∏ l ∈ Ico j i, S.rho l k) * (S.V *ᵥ star S.b) k

noncomputable def K (i j : ℕ) : ℝ :=
  (if j ≤ i then RCLike.re (S.b ⬝ᵥ S.C i j) else RCLike.re (S.b ⬝ᵥ S.C j i)) +
    if i = j then S.e2 i else 0

lemma P_succ (i : ℕ) : S.P (i+1) = S.stepP (S.P i) (S.v i) (S.rho i) := rfl

lemma K_symm (i j : ℕ) : S.K i j = S.K j i := by
  unfold K
  rcases lt_trichotomy i j with h | h | h
  · simp [h.ne, h.ne', h.le, not_le.mpr h]
  · subst h; rfl
  · simp [h.ne, h.ne', h.le, not_le.mpr h]

lemma A_of_le {i j : ℕ} (h : i ≤ j) : S.A i j = 0 := by
  cases i with
  | zero => rfl
  | succ i =>
    funext k
    have h1 : ¬ j < i := by omega
    have h2 : j ≠ i := by omega
    simp [A, h1, h2]

lemma a_of_le {i j : ℕ} (h : i ≤ j) : S.a i j = 0 := by simp [a, S.A_of_le h]

lemma A_succ_lt {i j : ℕ} (h : j < i) (k : ι) :
    S.A (i+1) j k = S.rho i k * (S.A i j k - S.g i k * ((S.a i j : ℝ) : 𝕜)) := by
  simp [A, h, a]

lemma A_succ_self (i : ℕ) (k : ι) : S.A (i+1) i k = S.rho i k * S.g i k := by simp [A]

lemma C_succ {i j : ℕ} (h : j ≤ i) (k : ι) : S.C (i+1) j k = S.rho i k * S.C i j k := by
  simp only [C]
  rw [Finset.prod_Ico_succ_top h]; ring

lemma C_self (i : ℕ) : S.C i i = S.V *ᵥ star S.b := by
  funext k; simp [C]

/-- The predicted state is the linear combination of the data with coefficients `A`. -/
lemma x_eq_sum (y : ℕ → ℝ) (i : ℕ) (k : ι) : S.x y i k = ∑ j ∈ range i, S.A i j k * (y j : 𝕜) := by
  induction i generalizing k with
  | zero => simp [x]
  | succ i ih =>
    have hm : RCLike.re (S.b ⬝ᵥ S.x y i) = ∑ j ∈ range i, S.a i j * y j := by
      have : S.b ⬝ᵥ S.x y i = ∑ j ∈ range i, (S.b ⬝ᵥ S.A i j) * (y j : 𝕜) := by
        simp only [dotProduct, ih, Finset.mul_sum, Finset.sum_mul]
        rw [Finset.sum_comm]
        refine Finset.sum_congr rfl fun j _ => Finset.sum_congr rfl fun k _ => by ring
      rw [this, map_sum]
      refine Finset.sum_congr rfl fun j _ => ?_
      simp [a]
    rw [Finset.sum_range_succ, S.A_succ_self]
    have : ∑ j ∈ range i, S.A (i+1) j k * (y j : 𝕜)
        = S.rho i k * (S.x y i k - S.g i k * ((RCLike.re (S.b ⬝ᵥ S.x y i) : ℝ) : 𝕜)) := by
      rw [hm, ih]
      push_cast
      rw [Finset.mul_sum, ← Finset.sum_sub_distrib, Finset.mul_sum]
      refine Finset.sum_congr rfl fun j hj => ?_
      rw [S.A_succ_lt (Finset.mem_range.mp hj)]; ring
    rw [this]
    simp only [x]
    push_cast
    ring

lemma m_eq_sum (y : ℕ → ℝ) (i : ℕ) : S.m y i = ∑ j ∈ range i, S.a i j * y j := by
  have : S.b ⬝ᵥ S.x y i = ∑ j ∈ range i, (S.b ⬝ᵥ S.A i j) * (y j : 𝕜) := by
    simp only [dotProduct, x_eq_sum, Finset.mul_sum, Finset.sum_mul]
    rw [Finset.sum_comm]
    refine Finset.sum_congr rfl fun j _ => Finset.sum_congr rfl fun k _ => by ring
  rw [m, this, map_sum]
  refine Finset.sum_congr rfl fun j _ => ?_
  simp [a]

/-- Conjugation symmetry of the state space: the quantities of state `τ k` are the conjugates of those of
state `k`; for a real state space `τ` is the identity. -/
structure ConjSym (τ : Equiv.Perm ι) : Prop where
  herm : S.V.IsHermitian
  b : ∀ k, S.b (τ k) = star (S.b k)
  rho : ∀ i k, S.rho i (τ k) = star (S.rho i k)
  V : ∀ k l, S.V (τ k) (τ l) = star (S.V k l)

variable {S} {τ : Equiv.Perm ι}

lemma dot_real {b z : ι → 𝕜} (hb : ∀ k, b (τ k) = star (b k)) (hz : ∀ k, z (τ k) = star (z k)) :
    ((RCLike.re (b ⬝ᵥ z) : ℝ) : 𝕜) = b ⬝ᵥ z := by
  rw [← RCLike.conj_eq_iff_re, starRingEnd_apply]
  simp only [dotProduct, star_sum, star_mul']
  rw [← Equiv.sum_comp τ (fun k => b k * z k)]
  exact Finset.sum_congr rfl fun k _ => by rw [hb, hz]

lemma mulVec_sym {V : Matrix ι ι 𝕜} {b : ι → 𝕜} (hb : ∀ k, b (τ k) = star (b k))
    (hV : ∀ k l, V (τ k) (τ l) = star (V k l)) (k : ι) :
    (V *ᵥ star b) (τ k) = star ((V *ᵥ star b) k) := by
  simp only [Matrix.mulVec, dotProduct, star_sum, star_mul']
  rw [← Equiv.sum_comp τ (fun l => V (τ k) l * star b l)]
  refine Finset.sum_congr rfl fun l _ => ?_
  rw [hV]; simp [hb]

lemma ConjSym.P (h : S.ConjSym τ) (i : ℕ) :
    (S.P i).IsHermitian ∧ (∀ k l, S.P i (τ k) (τ l) = star (S.P i k l)) := by
  induction i with
  | zero => exact ⟨h.herm, h.V⟩
  | succ i ih =>
    obtain ⟨hH, hS⟩ := ih
    constructor
    · ext k l
      have h1 := congrFun (congrFun hH k) l
      have h2 := congrFun (congrFun h.herm k) l
      rw [Matrix.conjTranspose_apply] at h1 h2
      rw [P_succ, Matrix.conjTranspose_apply]
      simp only [stepP, Matrix.of_apply]
      simp only [star_add, star_mul', star_sub, star_star, h1, h2]
      have : star ((S.v i : ℝ) : 𝕜) = ((S.v i : ℝ) : 𝕜) := RCLike.conj_ofReal _
      rw [this]; ring
    · intro k l
      have hg : ∀ k, S.gainOf (S.P i) (S.v i) (τ k) = star (S.gainOf (S.P i) (S.v i) k) := by
        intro k
        have : star ((S.v i : ℝ) : 𝕜) = ((S.v i : ℝ) : 𝕜) := RCLike.conj_ofReal _
        simp only [gainOf]
        rw [mulVec_sym h.b hS, star_div₀, this]
      have : star ((S.v i : ℝ) : 𝕜) = ((S.v i : ℝ) : 𝕜) := RCLike.conj_ofReal _
      rw [P_succ]
      simp only [stepP, Matrix.of_apply, star_add, star_mul', star_sub, h.rho, hS, hg, h.V, this]

lemma ConjSym.g (h : S.ConjSym τ) (i : ℕ) (k : ι) : S.g i (τ k) = star (S.g i k) := by
  have : star ((S.v i : ℝ) : 𝕜) = ((S.v i : ℝ) : 𝕜) := RCLike.conj_ofReal _
  simp only [SS.g, gainOf]
  rw [mulVec_sym h.b (h.P i).2, star_div₀, this]

lemma ConjSym.C (h : S.ConjSym τ) (i j : ℕ) (k : ι) : S.C i j (τ k) = star (S.C i j k) := by
  simp only [SS.C, star_mul', star_prod, h.rho]
  rw [mulVec_sym h.b h.V]

lemma ConjSym.A (h : S.ConjSym τ) (i j : ℕ) (k : ι) : S.A i j (τ k) = star (S.A i j k) := by
  induction i generalizing k with
  | zero => simp [SS.A]
  | succ i ih =>
    rcases lt_trichotomy j i with hj | hj | hj
    · rw [S.A_succ_lt hj, S.A_succ_lt hj, ih, h.rho, h.g]
      have : star ((S.a i j : ℝ) : 𝕜) = ((S.a i j : ℝ) : 𝕜) := RCLike.conj_ofReal _
      simp only [star_mul', star_sub, this]
    · subst hj
      rw [S.A_succ_self, S.A_succ_self, h.rho, h.g, star_mul']
    · rw [S.A_of_le (by omega : i + 1 ≤ j)]; simp

lemma ConjSym.a_eq (h : S.ConjSym τ) (i j : ℕ) : ((S.a i j : ℝ) : 𝕜) = S.b ⬝ᵥ S.A i j :=
  dot_real h.b (h.A i j)

lemma ConjSym.bC (h : S.ConjSym τ) (i j : ℕ) :
    ((RCLike.re (S.b ⬝ᵥ S.C i j) : ℝ) : 𝕜) = S.b ⬝ᵥ S.C i j :=
  dot_real h.b (h.C i j)

lemma ConjSym.bP (h : S.ConjSym τ) (i : ℕ) :
    ((RCLike.re (S.b ⬝ᵥ (S.P i *ᵥ star S.b)) : ℝ) : 𝕜) = S.b ⬝ᵥ (S.P i *ᵥ star S.b) :=
  dot_real h.b (mulVec_sym h.b (h.P i).2)

lemma K_of_lt {i j : ℕ} (h : j < i) : S.K i j = RCLike.re (S.b ⬝ᵥ S.C i j) := by
  simp [K, h.le, h.ne']

lemma K_self (i : ℕ) : S.K i i = RCLike.re (S.b ⬝ᵥ (S.V *ᵥ star S.b)) + S.e2 i := by
  simp [K, C_self]

/-- Normal equations at the level of the state. -/
lemma ConjSym.invariant (h : S.ConjSym τ) (i : ℕ) (hv : ∀ l < i, S.v l ≠ 0) :
    (∀ k < i, ∀ u, ∑ j ∈ range i, S.A i j u * ((S.K j k : ℝ) : 𝕜) = S.C i k u) ∧
    (∀ u w, S.P i u w = S.V u w - ∑ j ∈ range i, S.A i j u * star (S.C i j w)) := by
  induction i with
  | zero =>
    refine ⟨fun k hk => absurd hk (Nat.not_lt_zero _), fun u w => ?_⟩
    simp [SS.P]
  | succ i ih =>
    obtain ⟨ih1, ih2⟩ := ih fun l hl => hv l (Nat.lt_succ_of_lt hl)
    have hvi : ((S.v i : ℝ) : 𝕜) ≠ 0 := by
      rw [Ne, RCLike.ofReal_eq_zero]; exact hv i (Nat.lt_succ_self i)
    have hK : ∀ k, k < i → ((S.K i k : ℝ) : 𝕜) = S.b ⬝ᵥ S.C i k := by
      intro k hk; rw [K_of_lt hk, h.bC]
    -- dot products of sums
    have dotA : ∀ c : ℕ → 𝕜, ∑ j ∈ range i, (S.b ⬝ᵥ S.A i j) * c j
        = S.b ⬝ᵥ (fun u => ∑ j ∈ range i, S.A i j u * c j) := by
      intro c
      simp only [dotProduct, Finset.mul_sum, Finset.sum_mul]
      rw [Finset.sum_comm]
      exact Finset.sum_congr rfl fun _ _ => Finset.sum_congr rfl fun _ _ => by ring
    have hg : ∀ u, ((S.v i : ℝ) : 𝕜) * S.g i u = (S.P i *ᵥ star S.b) u := by
      intro u
      simp only [SS.g, gainOf]
      field_simp
    have hvv : ((S.v i : ℝ) : 𝕜) = S.b ⬝ᵥ (S.P i *ᵥ star S.b) + ((S.e2 i : ℝ) : 𝕜) := by
      rw [← h.bP]; simp [v, obsVar]
    -- (V - P) b^H
    have hS : ∀ u, ∑ j ∈ range i, S.A i j u * ((S.K j i : ℝ) : 𝕜)
        = (S.V *ᵥ star S.b) u - (S.P i *ᵥ star S.b) u := by
      intro u
      have : (S.P i *ᵥ star S.b) u = (S.V *ᵥ star S.b) u
          - ∑ j ∈ range i, S.A i j u * ((S.K j i : ℝ) : 𝕜) := by
        simp only [Matrix.mulVec, dotProduct]
        simp_rw [ih2, sub_mul, Finset.sum_sub_distrib, Finset.sum_mul]
        congr 1
        rw [Finset.sum_comm]
        refine Finset.sum_congr rfl fun j hj => ?_
        rw [K_symm, ← RCLike.conj_ofReal, hK j (Finset.mem_range.mp hj), starRingEnd_apply]
        simp only [dotProduct, star_sum, star_mul', Finset.mul_sum, Pi.star_apply]
        exact Finset.sum_congr rfl fun _ _ => by ring
      rw [this]; ring
    have split : ∀ (k : ℕ) (u : ι), ∑ j ∈ range (i+1), S.A (i+1) j u * ((S.K j k : ℝ) : 𝕜)
        = S.rho i u * (∑ j ∈ range i, S.A i j u * ((S.K j k : ℝ) : 𝕜)
            - S.g i u * (S.b ⬝ᵥ fun u => ∑ j ∈ range i, S.A i j u * ((S.K j k : ℝ) : 𝕜))
            + S.g i u * ((S.K i k : ℝ) : 𝕜)) := by
      intro k u
      rw [Finset.sum_range_succ, S.A_succ_self, ← dotA]
      have : ∑ j ∈ range i, S.A (i+1) j u * ((S.K j k : ℝ) : 𝕜)
          = S.rho i u * (∑ j ∈ range i, S.A i j u * ((S.K j k : ℝ) : 𝕜)
            - S.g i u * ∑ j ∈ range i, S.b ⬝ᵥ S.A i j * ((S.K j k : ℝ) : 𝕜)) := by
        rw [Finset.mul_sum (a := S.g i u), ← Finset.sum_sub_distrib, Finset.mul_sum]
        refine Finset.sum_congr rfl fun j hj => ?_
        rw [S.A_succ_lt (Finset.mem_range.mp hj), h.a_eq]; ring
      rw [this]; ring
    constructor
    · intro k hk u
      rw [split, S.C_succ (Nat.lt_succ_iff.mp hk)]
      rcases Nat.lt_succ_iff_lt_or_eq.mp hk with hlt | rfl
      · have e1 : (fun u => ∑ j ∈ range i, S.A i j u * ((S.K j k : ℝ) : 𝕜)) = S.C i k := by
          funext u; exact ih1 k hlt u
        rw [e1, ih1 k hlt u, hK k hlt]; ring
      · have e1 : (fun u => ∑ j ∈ range k, S.A k j u * ((S.K j k : ℝ) : 𝕜))
            = S.V *ᵥ star S.b - S.P k *ᵥ star S.b := by
          funext u; rw [hS]; rfl
        rw [e1, hS, C_self, dotProduct_sub]
        have hKk : ((S.K k k : ℝ) : 𝕜) = S.b ⬝ᵥ (S.V *ᵥ star S.b) + ((S.e2 k : ℝ) : 𝕜) := by
          rw [K_self, RCLike.ofReal_add]
          have := h.bC k k
          rw [C_self] at this
          rw [this]
        rw [hKk]
        have : S.g k u * (S.b ⬝ᵥ (S.P k *ᵥ star S.b) + ((S.e2 k : ℝ) : 𝕜)) = (S.P k *ᵥ star S.b) u := by
          rw [← hvv, mul_comm]; exact hg u
        linear_combination S.rho k u * this
    · intro u w
      rw [P_succ]
      simp only [stepP, Matrix.of_apply]
      have hgg : S.gainOf (S.P i) (S.v i) = S.g i := rfl
      rw [hgg]
      -- b P = v g^H
      have hbP : ∀ w, ∑ k, S.b k * S.P i k w = ((S.v i : ℝ) : 𝕜) * star (S.g i w) := by
        intro w
        have e := congrArg star (hg w)
        rw [star_mul'] at e
        have hr : star ((S.v i : ℝ) : 𝕜) = ((S.v i : ℝ) : 𝕜) := RCLike.conj_ofReal _
        rw [hr] at e
        rw [e]
        simp only [Matrix.mulVec, dotProduct, star_sum, star_mul', Pi.star_apply, star_star]
        refine Finset.sum_congr rfl fun k _ => ?_
        have h1 := congrFun (congrFun (h.P i).1 k) w
        rw [Matrix.conjTranspose_apply] at h1
        rw [h1]; ring
      rw [Finset.sum_range_succ, S.A_succ_self]
      have e2 : ∑ j ∈ range i, S.A (i+1) j u * star (S.C (i+1) j w)
          = S.rho i u * star (S.rho i w) * (∑ j ∈ range i, S.A i j u * star (S.C i j w)
            - S.g i u * ∑ j ∈ range i, (S.b ⬝ᵥ S.A i j) * star (S.C i j w)) := by
        rw [Finset.mul_sum (a := S.g i u), ← Finset.sum_sub_distrib, Finset.mul_sum]
        refine Finset.sum_congr rfl fun j hj => ?_
        rw [S.A_succ_lt (Finset.mem_range.mp hj), S.C_succ (Finset.mem_range.mp hj).le, h.a_eq,
          star_mul']; ring
      have e3 : ∑ j ∈ range i, S.A i j u * star (S.C i j w) = S.V u w - S.P i u w := by
        rw [ih2]; ring
      have e4 : ∑ j ∈ range i, (S.b ⬝ᵥ S.A i j) * star (S.C i j w)
          = ∑ k, S.b k * S.V k w - ((S.v i : ℝ) : 𝕜) * star (S.g i w) := by
        rw [dotA, ← hbP, ← Finset.sum_sub_distrib]
        simp only [dotProduct]
        refine Finset.sum_congr rfl fun k _ => ?_
        rw [ih2 k w]; ring
      have e5 : star (S.C (i+1) i w) = star (S.rho i w) * ∑ k, S.b k * S.V k w := by
        rw [S.C_succ le_rfl, C_self, star_mul']
        congr 1
        simp only [Matrix.mulVec, dotProduct, star_sum, star_mul', Pi.star_apply, star_star]
        refine Finset.sum_congr rfl fun k _ => ?_
        have h1 := congrFun (congrFun h.herm k) w
        rw [Matrix.conjTranspose_apply] at h1
        rw [h1]; ring
      rw [e2, e3, e4, e5]
      ring

/-- covariance matrix of the first `N` observations -/
noncomputable def Kmat (S : SS 𝕜 ι) (N : ℕ) : Matrix (Fin N) (Fin N) ℝ := Matrix.of fun i j => S.K i j

/-- coefficient matrix of the one-step predictors -/
noncomputable def Amat (S : SS 𝕜 ι) (N : ℕ) : Matrix (Fin N) (Fin N) ℝ := Matrix.of fun i j => S.a i j

/-- The Kalman recursion solves the normal equations of the law of the observations. -/
theorem ConjSym.normalEq (h : S.ConjSym τ) (N : ℕ) (hv : ∀ l < N, S.v l ≠ 0) :
    NormalEq (S.Kmat N) (S.Amat N) (fun i => S.v i) where
  sym i j := S.K_symm i j
  lower i j hij := S.a_of_le hij
  normal i k hk := by
    simp only [Kmat, Amat, Matrix.of_apply]
    have hk' : (k : ℕ) < i := hk
    have := (h.invariant i fun l hl => hv l (hl.trans i.2)).1 k hk'
    have h2 : ∑ j ∈ range (i : ℕ), S.a i j * S.K j k = S.K i k := by
      have h3 : ((∑ j ∈ range (i : ℕ), S.a i j * S.K j k : ℝ) : 𝕜) = ((S.K i k : ℝ) : 𝕜) := by
        push_cast
        rw [K_of_lt hk', h.bC]
        have e : S.C i k = fun u => ∑ j ∈ range (i:ℕ), S.A i j u * ((S.K j k : ℝ) : 𝕜) := by
          funext u; exact (this u).symm
        rw [e]
        simp only [h.a_eq, dotProduct, Finset.mul_sum, Finset.sum_mul]
        rw [Finset.sum_comm]
        exact Finset.sum_congr rfl fun _ _ => Finset.sum_congr rfl fun _ _ => by ring
      exact_mod_cast h3
    rw [← h2, Finset.sum_fin_eq_sum_range]
    symm
    apply Finset.sum_subset_zero_on_sdiff (Finset.range_subset_range.mpr i.2.le)
    · intro j hj
      rw [Finset.mem_sdiff, Finset.mem_range, Finset.mem_range, not_lt] at hj
      simp [hj.1, S.a_of_le hj.2]
    · intro j hj
      have : j < N := (Finset.mem_range.mp hj).trans i.2
      simp [this]
  dvar i := by
    simp only [Kmat, Amat, Matrix.of_apply]
    have := (h.invariant i fun l hl => hv l (hl.trans i.2)).2
    have h2 : S.v i = S.K i i - ∑ j ∈ range (i:ℕ), S.a i j * S.K j i := by
      have h3 : ((S.v i : ℝ) : 𝕜) = ((S.K i i - ∑ j ∈ range (i : ℕ), S.a i j * S.K j i : ℝ) : 𝕜) := by
        have hvv : ((S.v i : ℝ) : 𝕜) = S.b ⬝ᵥ (S.P i *ᵥ star S.b) + ((S.e2 i : ℝ) : 𝕜) := by
          rw [← h.bP]; simp [v, obsVar]
        have hKk : ((S.K i i : ℝ) : 𝕜) = S.b ⬝ᵥ (S.V *ᵥ star S.b) + ((S.e2 i : ℝ) : 𝕜) := by
          rw [K_self, RCLike.ofReal_add]
          have := h.bC i i
          rw [C_self] at this
          rw [this]
        rw [RCLike.ofReal_sub, RCLike.ofReal_sum, hvv, hKk]
        simp only [RCLike.ofReal_mul]
        have e : ∑ j ∈ range (i:ℕ), ((S.a i j : ℝ) : 𝕜) * ((S.K j i : ℝ) : 𝕜)
            = S.b ⬝ᵥ (S.V *ᵥ star S.b) - S.b ⬝ᵥ (S.P i *ᵥ star S.b) := by
          rw [← dotProduct_sub, ← Matrix.sub_mulVec]
          have e1 : ∀ j ∈ range (i:ℕ), ((S.a i j : ℝ) : 𝕜) * ((S.K j i : ℝ) : 𝕜)
              = ∑ k, ∑ w, S.b k * (S.A i j k * star (S.C i j w) * star (S.b w)) := by
            intro j hj
            rw [h.a_eq, K_symm, K_of_lt (Finset.mem_range.mp hj), ← RCLike.conj_ofReal, h.bC,
              starRingEnd_apply]
            simp only [dotProduct, star_sum, star_mul', Finset.mul_sum, Finset.sum_mul]
            refine (Finset.sum_comm).trans ?_
            exact Finset.sum_congr rfl fun _ _ => Finset.sum_congr rfl fun _ _ => by ring
          rw [Finset.sum_congr rfl e1, Finset.sum_comm]
          simp only [dotProduct, Matrix.mulVec, Finset.mul_sum, Pi.star_apply]
          refine Finset.sum_congr rfl fun k _ => ?_
          rw [Finset.sum_comm]
          refine Finset.sum_congr rfl fun w _ => ?_
          rw [← Finset.mul_sum, ← Finset.sum_mul]
          congr 2
          rw [Matrix.sub_apply, this k w]; ring
        rw [e]; ring
      exact_mod_cast h3
    rw [h2, Finset.sum_fin_eq_sum_range]
    congr 1
    apply Finset.sum_subset_zero_on_sdiff (Finset.range_subset_range.mpr i.2.le)
    · intro j hj
      rw [Finset.mem_sdiff, Finset.mem_range, Finset.mem_range, not_lt] at hj
      simp [hj.1, S.a_of_le hj.2]
    · intro j hj
      have : j < N := (Finset.mem_range.mp hj).trans i.2
      simp [this]

end SS
end Verif.Theory
