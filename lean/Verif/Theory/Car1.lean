import Verif.Theory.KF1Refine
import Verif.Spec.Gauss

/-! Helper lemmas: construction of filter objects from increasing data; the CAR(1) state space and the CAR(1)
covariance. -/

namespace Verif.Theory

open Verif.Model Verif.Spec Finset Matrix

/-- total extension of a finite sequence -/
noncomputable def ext0 {n : ℕ} (f : Fin n → ℝ) (i : ℕ) : ℝ := if h : i < n then f ⟨i, h⟩ else 0

@[simp] lemma ext0_fin {n : ℕ} (f : Fin n → ℝ) (i : Fin n) : ext0 f i = f i := by simp [ext0]

lemma ext0_of_lt {n : ℕ} (f : Fin n → ℝ) {i : ℕ} (h : i < n) : ext0 f i = f ⟨i, h⟩ := by simp [ext0, h]

lemma ofFn_eq_rangeMap {n : ℕ} (f : Fin n → ℝ) : List.ofFn f = (List.range n).map (ext0 f) := by
  apply List.ext_getElem
  · simp
  · intro i h1 h2
    have : i < n := by simpa using h1
    simp [ext0, this]

lemma ofFn_eq_rangeMap' {n : ℕ} (f : ℕ → ℝ) : List.ofFn (fun i : Fin n => f i) = (List.range n).map f := by
  apply List.ext_getElem <;> simp

lemma diffs_rangeMap {n : ℕ} (hn : 2 ≤ n) (t : ℕ → ℝ) :
    diffs ((List.range n).map t) = .ok ((List.range (n-1)).map fun i => t (i+1) - t i) := by
  have h : ¬ ((List.range n).map t).length < 2 := by simp; omega
  rw [diffs, if_neg h]
  congr 1
  apply List.ext_getElem
  · simp
  · intro i h1 h2
    simp

lemma init_sorted (srt : List ℝ → List ℕ) (s : KFBase) {n : ℕ} (hn : 2 ≤ n) {t : ℕ → ℝ}
    (hs : s.time = (List.range n).map t) (ht : ∀ i, i + 1 < n → t i < t (i+1)) :
    s.init srt = .ok { s with
      dt := (List.range (n-1)).map fun i => t (i+1) - t i,
      mean := List.replicate n 0, var := List.replicate n 0 } := by
  have hd : ∀ d ∈ (List.range (n-1)).map (fun i => t (i+1) - t i), 0 < d := by
    intro d hd
    obtain ⟨i, hi, rfl⟩ := List.mem_map.mp hd
    have := ht i (by have := List.mem_range.mp hi; omega)
    linarith
  have h1 : ¬ ∃ d ∈ (List.range (n-1)).map (fun i => t (i+1) - t i), d < 0 := by
    rintro ⟨d, hm, hneg⟩; have := hd d hm; linarith
  have h2 : ¬ ((∀ d ∈ (List.range (n-1)).map (fun i => t (i+1) - t i), 0 ≤ d) ∧
      ∃ d ∈ (List.range (n-1)).map (fun i => t (i+1) - t i), d = 0) := by
    rintro ⟨_, d, hm, h0⟩; have := hd d hm; linarith
  simp only [KFBase.init, initSort, hs, diffs_rangeMap hn, res_bind_ok, if_neg h1, res_pure, initDedup, if_neg h2]
  simp

lemma holds_init (srt : List ℝ → List ℕ) {n : ℕ} (hn : 2 ≤ n) (t y e : ℕ → ℝ) (σ2 : ℝ)
    (ht : ∀ i, i + 1 < n → t i < t (i+1)) :
    ∃ b, (KFBase.raw ((List.range n).map t) ((List.range n).map y) ((List.range n).map e) σ2).init srt = .ok b ∧
      Holds b n t y e ∧ b.sigsqr = σ2 := by
  refine ⟨_, init_sorted srt _ hn rfl ht, ?_, rfl⟩
  constructor <;> simp [KFBase.raw]

lemma strictMono_ext0 {n : ℕ} {t : Fin n → ℝ} (ht : StrictMono t) (i : ℕ) (hi : i + 1 < n) :
    ext0 t i < ext0 t (i+1) := by
  rw [ext0_of_lt t (by omega : i < n), ext0_of_lt t hi]
  exact ht (by simp [Fin.lt_def])

lemma le_of_step {t : ℕ → ℝ} {n : ℕ} (ht : ∀ i, i + 1 < n → t i ≤ t (i+1)) {i j : ℕ} (hij : j ≤ i) (hi : i < n) :
    t j ≤ t i := by
  induction i with
  | zero => have : j = 0 := by omega
            rw [this]
  | succ i ih =>
    rcases Nat.lt_or_ge i j with h | h
    · have : j = i + 1 := by omega
      rw [this]
    · exact (ih h (by omega)).trans (ht i hi)

/-- Covariance of the CAR(1) state space. -/
lemma car1SS_K (σ2 ω : ℝ) (t e : ℕ → ℝ) (N : ℕ) (ht : ∀ i, i + 1 < N → t i ≤ t (i+1)) {i j : ℕ} (hi : i < N)
    (hj : j < N) :
    (car1SS σ2 ω t e).K i j = car1Acf σ2 ω |t i - t j| + if i = j then e i ^ 2 else 0 := by
  have base : ∀ i j, j ≤ i → i < N →
      (car1SS σ2 ω t e).K i j = car1Acf σ2 ω |t i - t j| + if i = j then e i ^ 2 else 0 := by
    intro i j hij hi
    have := le_of_step ht hij hi
    rw [SS.K_of_exp (S := car1SS σ2 ω t e) (t := t) (E := fun _ d => Real.exp (-ω * d)) (by simp)
      (by intro _ a b; rw [← Real.exp_add]; congr 1; ring) N (by intro i hi k; rfl) hij hi]
    rw [abs_of_nonneg (by linarith)]
    simp [car1SS, car1Acf, dotProduct, Matrix.mulVec]
    ring
  rcases le_total j i with h | h
  · exact base i j h hi
  · rw [SS.K_symm, base j i h hj, abs_sub_comm]
    by_cases hij : i = j
    · subst hij; simp
    · simp [hij, Ne.symm hij]

open scoped ComplexOrder in
lemma car1SS_v_pos {σ2 ω : ℝ} (hσ : 0 < σ2) (hω : 0 < ω) (t e : ℕ → ℝ) (N : ℕ)
    (ht : ∀ i, i + 1 < N → t i ≤ t (i+1)) (hts : ∀ i, i + 1 < N → t i < t (i+1) ∨ e (i+1) ≠ 0) (i : ℕ) (hi : i < N) :
    0 < (car1SS σ2 ω t e).v i ∧ e i ^ 2 ≤ (car1SS σ2 ω t e).v i := by
  have hq : 0 < σ2 / (2 * ω) := by positivity
  have psd : ∀ M : Matrix Unit Unit ℝ, 0 ≤ M () () → M.PosSemidef := by
    intro M hM
    apply Matrix.PosSemidef.of_dotProduct_mulVec_nonneg
    · ext; simp
    · intro x
      simp only [dotProduct, Matrix.mulVec, Finset.univ_unique, Finset.sum_singleton, Pi.star_apply, star_trivial,
        PUnit.default_eq_unit]
      nlinarith [mul_nonneg hM (mul_self_nonneg (x ()))]
  have hQv : ∀ i, (car1SS σ2 ω t e).Q ((car1SS σ2 ω t e).rho i) () ()
      = σ2 / (2 * ω) * (1 - Real.exp (-ω * (t (i+1) - t i)) ^ 2) := by
    intro i
    simp [SS.Q, car1SS, Matrix.diagonal_mul, Matrix.mul_diagonal]
    ring
  have hexp : ∀ i, i + 1 < N → Real.exp (-ω * (t (i+1) - t i)) ^ 2 ≤ 1 := by
    intro i hi
    have h1 : Real.exp (-ω * (t (i+1) - t i)) ≤ 1 := by
      rw [Real.exp_le_one_iff]; nlinarith [ht i hi]
    have := Real.exp_pos (-ω * (t (i+1) - t i))
    nlinarith
  have key := (car1SS_isCar1 σ2 ω t e).conjSym.v_pos N (by
      apply psd; simp [car1SS]; positivity) (by intro i _; simp [car1SS]; positivity)
    (Or.inl (by simp [car1SS, dotProduct, Matrix.mulVec]; positivity)) (by
      intro i hi
      refine ⟨?_, ?_⟩
      · apply psd; rw [hQv]
        exact mul_nonneg hq.le (by linarith [hexp i hi])
      · rcases hts i hi with h | h
        · left
          have : RCLike.re ((car1SS σ2 ω t e).b ⬝ᵥ ((car1SS σ2 ω t e).Q ((car1SS σ2 ω t e).rho i) *ᵥ
              star (car1SS σ2 ω t e).b)) = (car1SS σ2 ω t e).Q ((car1SS σ2 ω t e).rho i) () () := by
            simp [dotProduct, Matrix.mulVec]; simp [car1SS]
          rw [this, hQv]
          have h1 : Real.exp (-ω * (t (i+1) - t i)) < 1 := by
            rw [Real.exp_lt_one_iff]; nlinarith
          have := Real.exp_pos (-ω * (t (i+1) - t i))
          apply mul_pos hq; nlinarith
        · right; simp [car1SS]; positivity) i hi
  exact ⟨key.2.1, key.2.2⟩

end Verif.Theory
