import Verif.Model.Steps
import Verif.Theory.Frame
import Mathlib.LinearAlgebra.Matrix.Block
import Mathlib.LinearAlgebra.Matrix.PosDef

/-!
Rank-1 update and downdate of a Cholesky factor by `CholUpdateR1`.
-/

namespace Verif.Theory

open Verif.Model
open scoped Matrix

variable {d : ℕ}

/-- Upper triangular with positive diagonal. -/
structure Upper (L : Matrix (Fin d) (Fin d) ℝ) : Prop where
  tri : ∀ i j, j < i → L i j = 0
  pos : ∀ i, 0 < L i i

theorem Upper.block {L : Matrix (Fin d) (Fin d) ℝ} (h : Upper L) : L.BlockTriangular id := fun i j hij => h.tri i j hij

theorem Upper.det_ne {L : Matrix (Fin d) (Fin d) ℝ} (h : Upper L) : L.det ≠ 0 := by
  rw [Matrix.det_of_isUpperTriangular h.block]
  exact Finset.prod_ne_zero_iff.mpr fun i _ => (h.pos i).ne'

/-- A vector that a triangular factor maps to a multiple of a unit vector. -/
theorem Upper.solve {L : Matrix (Fin d) (Fin d) ℝ} (h : Upper L) (k : Fin d) :
    ∃ z : Fin d → ℝ, z k = 1 ∧ (∀ j, k < j → z j = 0) ∧ ∀ i, L.mulVec z i = if i = k then L k k else 0 := by
  have hdet : IsUnit L.det := isUnit_iff_ne_zero.mpr h.det_ne
  let _ := L.invertibleOfIsUnitDet hdet
  have hb := Matrix.blockTriangular_inv_of_blockTriangular h.block
  refine ⟨fun j => L⁻¹ j k * L k k, ?_, fun j hj => by show L⁻¹ j k * L k k = 0; rw [hb hj, zero_mul], fun i => ?_⟩
  · have h1 : (L * L⁻¹) k k = 1 := by rw [Matrix.mul_nonsing_inv _ hdet]; simp
    rw [Matrix.mul_apply, Finset.sum_eq_single k (fun j _ hjk => ?_) (by simp)] at h1
    · show L⁻¹ k k * L k k = 1
      rw [mul_comm]; exact h1
    · rcases lt_or_gt_of_ne hjk with hlt | hlt
      · rw [h.tri k j hlt, zero_mul]
      · rw [hb hlt, mul_zero]
  · have h1 : (L * L⁻¹) i k = (1 : Matrix (Fin d) (Fin d) ℝ) i k := by rw [Matrix.mul_nonsing_inv _ hdet]
    rw [Matrix.mul_apply] at h1
    simp only [Matrix.mulVec, dotProduct, ← mul_assoc, ← Finset.sum_mul, h1, Matrix.one_apply]
    split <;> simp_all

/-- The part of `v` not yet processed before row `m`. -/
def rest (m : ℕ) (v : Fin d → ℝ) : Fin d → ℝ := fun j => if m ≤ (j : ℕ) then v j else 0

/-- Invariant of the loop before row `m`. -/
structure CholInv (σ : ℝ) (M : Matrix (Fin d) (Fin d) ℝ) (m : ℕ) (Lv : Matrix (Fin d) (Fin d) ℝ × (Fin d → ℝ)) : Prop where
  up : Upper Lv.1
  eq : ∀ i j, ∑ k, Lv.1 k i * Lv.1 k j + σ * rest m Lv.2 i * rest m Lv.2 j = M i j

/-- Quadratic form of a Gram matrix plus a rank-1 term. -/
theorem quad_gram (L : Matrix (Fin d) (Fin d) ℝ) (σ : ℝ) (w z : Fin d → ℝ) {M : Matrix (Fin d) (Fin d) ℝ}
    (h : ∀ i j, ∑ k, L k i * L k j + σ * w i * w j = M i j) :
    z ⬝ᵥ M.mulVec z = ∑ k, L.mulVec z k ^ 2 + σ * (∑ j, w j * z j) ^ 2 := by
  have h1 : z ⬝ᵥ M.mulVec z = ∑ i, ∑ j, z i * z j * M i j := by
    simp only [dotProduct, Matrix.mulVec, Finset.mul_sum]
    exact Finset.sum_congr rfl fun i _ => Finset.sum_congr rfl fun j _ => by ring
  have h2 : ∑ k, L.mulVec z k ^ 2 = ∑ i, ∑ j, z i * z j * ∑ k, L k i * L k j := by
    have h4 : ∀ k, L.mulVec z k ^ 2 = ∑ i, ∑ j, z i * z j * (L k i * L k j) := fun k => by
      simp only [Matrix.mulVec, dotProduct, sq]
      rw [Finset.sum_mul_sum]
      exact Finset.sum_congr rfl fun i _ => Finset.sum_congr rfl fun j _ => by ring
    simp only [h4]
    rw [Finset.sum_comm]
    refine Finset.sum_congr rfl fun i _ => ?_
    rw [Finset.sum_comm]
    exact Finset.sum_congr rfl fun j _ => by rw [Finset.mul_sum]
  have h3 : (∑ j, w j * z j) ^ 2 = ∑ i, ∑ j, z i * z j * (w i * w j) := by
    rw [sq, Finset.sum_mul_sum]
    exact Finset.sum_congr rfl fun i _ => Finset.sum_congr rfl fun j _ => by ring
  rw [h1, h2, h3, Finset.mul_sum, ← Finset.sum_add_distrib]
  refine Finset.sum_congr rfl fun i _ => ?_
  rw [Finset.mul_sum, ← Finset.sum_add_distrib]
  refine Finset.sum_congr rfl fun j _ => ?_
  rw [← h]; ring

/-- The pivot of the next row is positive. -/
theorem CholInv.pivot {σ : ℝ} {M : Matrix (Fin d) (Fin d) ℝ} (hM : ∀ z, z ≠ 0 → 0 < z ⬝ᵥ M.mulVec z)
    {L : Matrix (Fin d) (Fin d) ℝ} {v : Fin d → ℝ} {k : Fin d} (h : CholInv σ M k (L, v)) :
    0 < L k k * L k k + σ * v k * v k := by
  obtain ⟨z, z1, z2, z3⟩ := h.up.solve k
  have hz : z ≠ 0 := fun h0 => by rw [h0] at z1; simp at z1
  have hq := hM z hz
  rw [quad_gram L σ (rest k v) z h.eq] at hq
  have h1 : ∑ i, L.mulVec z i ^ 2 = L k k ^ 2 := by
    rw [Finset.sum_eq_single k]
    · rw [z3]; simp
    · intro i _ hi; rw [z3]; simp [hi]
    · simp
  have h2 : ∑ j, rest k v j * z j = v k := by
    rw [Finset.sum_eq_single k]
    · rw [z1]; simp [rest]
    · intro j _ hj
      rcases lt_or_gt_of_ne hj with hlt | hlt
      · have : ¬ (k : ℕ) ≤ (j : ℕ) := by have := Fin.lt_def.mp hlt; omega
        simp [rest, this]
      · rw [z2 j hlt, mul_zero]
    · simp
  rw [h1, h2] at hq
  linarith [hq, sq (L k k), sq (v k)]

theorem CholInv.row {σ : ℝ} {M : Matrix (Fin d) (Fin d) ℝ}
    (hM : ∀ z, z ≠ 0 → 0 < z ⬝ᵥ M.mulVec z) {Lv : Matrix (Fin d) (Fin d) ℝ × (Fin d → ℝ)} {k : Fin d}
    (h : CholInv σ M k Lv) : ∃ Lv', cholRow σ k Lv = .ok Lv' ∧ CholInv σ M (k + 1) Lv' := by
  obtain ⟨L, v⟩ := Lv
  have hx := h.pivot hM
  have hut : ∀ i j, j < i → L i j = 0 := h.up.tri
  have hup : ∀ i, 0 < L i i := h.up.pos
  have hl := hup k
  set x := L k k * L k k + σ * v k * v k with hxdef
  have hr : 0 < √x := Real.sqrt_pos.mpr hx
  have hrr : √x * √x = x := Real.mul_self_sqrt hx.le
  have hrest : ∀ j : Fin d, k < j → rest k v j = v j := fun j hj => by simp [rest, (Fin.lt_def.mp hj).le]
  have hrest0 : ∀ j : Fin d, j < k → rest k v j = 0 := fun j hj => by
    have : ¬ (k : ℕ) ≤ j := by have := Fin.lt_def.mp hj; omega
    simp [rest, this]
  have hrestk : rest k v k = v k := by simp [rest]
  unfold cholRow
  simp only [← hxdef, not_lt.mpr hx.le, if_false]
  by_cases hk : (k : ℕ) + 1 < d
  · have hc : √x / L k k ≠ 0 := (div_pos hr hl).ne'
    simp only [hk, if_true, dv, hl.ne', if_false, res_bind_ok, hc]
    refine ⟨_, rfl, ⟨fun i j hij => ?_, fun i => ?_⟩, fun i j => ?_⟩
    · show Matrix.of _ i j = 0
      simp only [Matrix.of_apply]
      by_cases hi : i = k
      · subst hi
        simp [hij.ne, not_lt.mpr hij.le, hut i j hij]
      · simp [hi, hut i j hij]
    · show 0 < Matrix.of _ i i
      simp only [Matrix.of_apply]
      by_cases hi : i = k
      · subst hi; simp [hr]
      · simp [hi, hup i]
    · rw [← h.eq i j]
      dsimp only
      rw [← Finset.add_sum_erase _ _ (Finset.mem_univ k),
        ← Finset.add_sum_erase (a := k) _ (fun l => L l i * L l j) (Finset.mem_univ k)]
      have he : ∀ l ∈ Finset.univ.erase k, ∀ m, (Matrix.of (fun a b => if a = k then (if b = k then √x else if k < b then
          (L k b + σ * (v k / L k k) * v b) / (√x / L k k) else L k b) else L a b) : Matrix (Fin d) (Fin d) ℝ) l m = L l m := by
        intro l hl' m
        simp only [Matrix.of_apply, if_neg (Finset.ne_of_mem_erase hl')]
      have hs : ∀ (w : Fin d → ℝ) (m : Fin d), rest (k + 1) w m = if k < m then w m else 0 := fun w m => by
        simp only [rest, Nat.succ_le_iff, Fin.lt_def]
      rw [Finset.sum_congr rfl fun l hl' => by rw [he l hl' i, he l hl' j]]
      have hii : ∀ (m : Fin d) (a b c : ℝ), (if k < m then (if k < m then a else b) else c) = if k < m then a else c := by
        intro m a b c; split_ifs <;> rfl
      simp only [hs, Matrix.of_apply, if_true, hii]
      suffices hg : ∀ i' j' : Fin d, i' ≤ j' →
          (if i' = k then √x else if k < i' then (L k i' + σ * (v k / L k k) * v i') / (√x / L k k) else L k i') *
          (if j' = k then √x else if k < j' then (L k j' + σ * (v k / L k k) * v j') / (√x / L k k) else L k j') +
          σ * (if k < i' then √x / L k k * v i' - v k / L k k * (if i' = k then √x else if k < i' then
            (L k i' + σ * (v k / L k k) * v i') / (√x / L k k) else L k i') else 0) *
          (if k < j' then √x / L k k * v j' - v k / L k k * (if j' = k then √x else if k < j' then
            (L k j' + σ * (v k / L k k) * v j') / (√x / L k k) else L k j') else 0) =
          L k i' * L k j' + σ * rest k v i' * rest k v j' by
        have : ∀ a b c e : ℝ, a + c = b + e → ∀ t, a + t + c = b + t + e := fun a b c e he t => by linarith
        refine this _ _ _ _ ?_ _
        rcases le_total i j with hij | hij
        · exact hg i j hij
        · have key : ∀ p q r t l m a b : ℝ, q * p + σ * t * r = m * l + σ * b * a → p * q + σ * r * t = l * m + σ * a * b := by
            intro p q r t l m a b h; linarith
          exact key _ _ _ _ _ _ _ _ (hg j i hij)
      intro i' j' hij
      rcases lt_trichotomy i' k with hi | hi | hi
      · have h0 : L k i' = 0 := hut k i' hi
        simp [hi.ne, not_lt.mpr hi.le, hrest0 i' hi, h0]
      · subst hi
        rcases hij.lt_or_eq with hj | hj
        · simp only [if_true, lt_irrefl, if_false, hj.ne', hj, hrestk, hrest j' hj]
          field_simp
          ring
        · subst hj
          simp only [if_true, lt_irrefl, if_false, hrestk]
          rw [hrr, hxdef]; ring
      · have hj := lt_of_lt_of_le hi hij
        simp only [hi.ne', if_false, hi, if_true, hj.ne', hj, hrest i' hi, hrest j' hj]
        field_simp
        have h3 : √x ^ 2 = L k k ^ 2 + σ * v k ^ 2 := by rw [sq, hrr, hxdef]; ring
        rw [h3]; ring
  · simp only [hk, if_false]
    refine ⟨_, rfl, ⟨fun i j hij => ?_, fun i => ?_⟩, fun i j => ?_⟩
    · show Matrix.of _ i j = 0
      simp only [Matrix.of_apply]
      rw [if_neg (by rintro ⟨rfl, rfl⟩; exact lt_irrefl _ hij)]
      exact hut i j hij
    · show 0 < Matrix.of _ i i
      simp only [Matrix.of_apply]
      by_cases hi : i = k
      · subst hi; simp [hr]
      · simp [hi, hup i]
    · rw [← h.eq i j]
      dsimp only
      have hlast : ∀ m : Fin d, m ≠ k → m < k := fun m hm => by
        have h1 := m.2
        have h2 : (m : ℕ) ≠ k := fun he => hm (Fin.ext he)
        exact Fin.lt_def.mpr (by omega)
      have h0 : ∀ m, rest (k + 1) v m = 0 := fun m => by
        have := m.2
        have : ¬ (k : ℕ) + 1 ≤ m := by omega
        simp [rest, this]
      simp only [h0, mul_zero, add_zero]
      rw [← Finset.add_sum_erase _ _ (Finset.mem_univ k),
        ← Finset.add_sum_erase (a := k) _ (fun l => L l i * L l j) (Finset.mem_univ k)]
      have he : ∀ l ∈ Finset.univ.erase k, ∀ m, (Matrix.of (fun a b => if a = k ∧ b = k then √x else L a b) :
          Matrix (Fin d) (Fin d) ℝ) l m = L l m := by
        intro l hl' m
        simp [Finset.ne_of_mem_erase hl']
      rw [Finset.sum_congr rfl fun l hl' => by rw [he l hl' i, he l hl' j]]
      simp only [Matrix.of_apply, true_and]
      by_cases hi : i = k
      · by_cases hj : j = k
        · subst hi; subst hj
          simp only [if_true, hrestk]
          rw [hrr, hxdef]; ring
        · have := hlast j hj
          simp [hj, hut k j this, hrest0 j this]
      · have := hlast i hi
        simp [hi, hut k i this, hrest0 i this]

theorem cholLoop_spec {σ : ℝ} {L M : Matrix (Fin d) (Fin d) ℝ} (hL : Upper L) {v : Fin d → ℝ}
    (hM : ∀ z, z ≠ 0 → 0 < z ⬝ᵥ M.mulVec z) (heq : ∀ i j, ∑ k, L k i * L k j + σ * v i * v j = M i j) (m : ℕ) (hm : m ≤ d) :
    ∃ Lv, cholLoop σ (L, v) m = .ok Lv ∧ CholInv σ M m Lv := by
  induction m with
  | zero => exact ⟨_, rfl, hL, fun i j => by rw [← heq]; simp [rest]⟩
  | succ m ih =>
      obtain ⟨Lv, h1, h2⟩ := ih (by omega)
      obtain ⟨Lv', h3, h4⟩ := CholInv.row (k := ⟨m, by omega⟩) hM h2
      refine ⟨Lv', ?_, h4⟩
      unfold cholLoop
      rw [h1]
      simp only [show m < d by omega, dif_pos]
      exact h3

/-- `CholUpdateR1` turns the factor of `LᵀL` into the factor of `LᵀL ± vvᵀ`, if that matrix is positive definite. -/
theorem cholUpdateR1_spec {L : Matrix (Fin d) (Fin d) ℝ} (hL : Upper L) (v : Fin d → ℝ) (down : Bool)
    {M : Matrix (Fin d) (Fin d) ℝ} (hM : ∀ z, z ≠ 0 → 0 < z ⬝ᵥ M.mulVec z)
    (heq : M = Lᵀ * L + (if down then -1 else 1 : ℝ) • Matrix.vecMulVec v v) :
    ∃ L', cholUpdateR1 L v down = .ok L' ∧ Upper L' ∧ L'ᵀ * L' = M := by
  obtain ⟨Lv, h1, h2⟩ := cholLoop_spec (σ := if down then -1 else 1) hL hM (v := v)
    (fun i j => by rw [heq]; cases down <;> simp [Matrix.mul_apply, Matrix.vecMulVec_apply]) d le_rfl
  refine ⟨Lv.1, by unfold cholUpdateR1; rw [h1]; rfl, h2.up, ?_⟩
  ext i j
  rw [← h2.eq i j]
  have hi : ¬ d ≤ (i : ℕ) := by omega
  simp [rest, hi, Matrix.mul_apply]

end Verif.Theory
