import Verif.Theory.Generate
import Verif.Props.Spectrum

/-!
Property C49: the Python generators draw from the exact law of the process.

A vector `L z` with `z` independent standard normal draws is Gaussian with mean zero and covariance `L L^T`.
-/

namespace Verif.Props

open Verif.Model Verif.Spec Verif.Theory Matrix

variable {p n : ℕ}

/-- C49, CAR(1): for times in increasing order (repetitions allowed) `car1_process` returns a fixed linear map of its draws whose
covariance is that of the process; value `i` uses only the first `i + 1` draws. -/
theorem C49_car1 (hn : 1 ≤ n) {t : Fin n → ℝ} (ht : Monotone t) {sigsqr tau : ℝ} (hs : 0 ≤ sigsqr) (htau : 0 < tau) :
    ∃ L : Matrix (Fin n) (Fin n) ℝ, L * Lᵀ = obsCov (car1Acf sigsqr (1 / tau)) t 0 ∧
      (∀ i j, i < j → L i j = 0) ∧
      ∀ z : ℕ → ℝ, Py.car1Process (List.ofFn t) sigsqr tau z = .ok (List.ofFn (L *ᵥ fun j => z j)) :=
  car1Process_law hn ht hs htau

example : ∃ L : Matrix (Fin 2) (Fin 2) ℝ, L * Lᵀ = obsCov (car1Acf 4 (1 / 3)) ![0, 1] 0 ∧
    ∀ z : ℕ → ℝ, Py.car1Process (List.ofFn ![0, 1]) 4 3 z = .ok (List.ofFn (L *ᵥ fun j => z j)) := by
  have hm : Monotone (![0, 1] : Fin 2 → ℝ) := by
    intro i j hij
    fin_cases i <;> fin_cases j <;> simp at hij ⊢
  obtain ⟨L, h1, -, h2⟩ := C49_car1 (by norm_num) hm (sigsqr := 4) (tau := 3) (by norm_num) (by norm_num)
  exact ⟨L, h1, h2⟩

/-- C49, CAR(1), the limit of the previous theorem: `car1_process` does not sort; a single step back in time gives the square root of a
negative number. -/
theorem C49_car1_unsorted {t : Fin n → ℝ} (ht : ¬ Monotone t) {sigsqr tau : ℝ} (hs : 0 < sigsqr) (htau : 0 < tau) (z : ℕ → ℝ) :
    Py.car1Process (List.ofFn t) sigsqr tau z = .error .nonfinite := by
  have hex : ∃ m, m + 1 < n ∧ ext0 t (m + 1) < ext0 t m := by
    by_contra hno
    push Not at hno
    apply ht
    have hall : ∀ i k : ℕ, i ≤ k → k < n → ext0 t i ≤ ext0 t k := by
      intro i k hik
      induction k, hik using Nat.le_induction with
      | base => intro _; exact le_rfl
      | succ k hk ih => intro hn; exact (ih (by omega)).trans (hno k hn)
    intro i j hij
    have := hall i j hij j.2
    rwa [ext0_fin, ext0_fin] at this
  classical
  obtain ⟨hm, hb⟩ := Nat.find_spec hex
  have hmin : ∀ i < Nat.find hex, ext0 t i ≤ ext0 t (i + 1) := by
    intro i hi
    have := Nat.find_min hex hi
    push Not at this
    exact this (by omega)
  have hV : 0 < sigsqr * tau / 2 := by positivity
  have hsq : Py.sqrt (sigsqr * tau / 2) = .ok √(sigsqr * tau / 2) := by rw [Py.sqrt, if_neg (not_lt.mpr hV.le)]
  simp only [Py.car1Process]
  rw [if_neg (by rw [List.length_ofFn]; omega), hsq, res_bind_ok, List.length_ofFn]
  exact car1Loop_back hV htau z _ rfl _ hm hmin hb (n - 1) (by omega)

example : ∀ z, Py.car1Process (List.ofFn ![1, 0]) 4 3 z = .error .nonfinite := fun z =>
  C49_car1_unsorted (t := ![1, 0]) (fun h => by have := h (show (0 : Fin 2) ≤ 1 by simp); norm_num at this) (by norm_num) (by norm_num) z

/-- C49, CARMA: for distinct times in any order and admissible roots, `carma_process` sorts the times and returns a fixed linear map of its
draws whose covariance is that of the process at the sorted times. -/
theorem C49_carma (hp : 2 ≤ p) {time : List ℝ} (hn : time.length = n) (hn0 : 0 < n) (hnd : time.Nodup) {sigsqr : ℝ} (hs : 0 < sigsqr)
    {ω : Fin p → ℂ} (h : Admissible ω) {ma : List ℝ} (hl : ma.length ≤ p) (hne : ∃ x ∈ ma, x ≠ 0) :
    ∃ t : Fin n → ℝ, StrictMono t ∧ (List.ofFn t).Perm time ∧
      ∃ L : Matrix (Fin n) (Fin n) ℝ, L * Lᵀ = obsCov (carmaAcf sigsqr ω ma) t 0 ∧
        ∀ z : ℕ → ℝ, Py.carmaProcess time sigsqr ω ma z = .ok (List.ofFn (L *ᵥ fun j => z j), List.ofFn t) :=
  carmaProcess_law hp hn hn0 hnd hs h hl hne

example : ∃ t : Fin 2 → ℝ, StrictMono t ∧ (List.ofFn t).Perm [5, 3] ∧
    ∃ L : Matrix (Fin 2) (Fin 2) ℝ, L * Lᵀ = obsCov (carmaAcf 4 ![(-2 : ℂ), -1 + Complex.I, -1 - Complex.I] [1, 0.5]) t 0 ∧
      ∀ z : ℕ → ℝ, Py.carmaProcess [5, 3] 4 ![(-2 : ℂ), -1 + Complex.I, -1 - Complex.I] [1, 0.5] z =
        .ok (List.ofFn (L *ᵥ fun j => z j), List.ofFn t) :=
  C49_carma (n := 2) (time := [5, 3]) (sigsqr := 4) (ma := [1, 0.5]) (by norm_num) rfl (by norm_num) (by norm_num) (by norm_num) ex_admissible3 (by simp) ⟨1, by simp, one_ne_zero⟩

/-- C49: `carma_process` with one real root is the CAR(1) process with that rate. -/
theorem C49_carma1 (hn : 1 ≤ n) {t : Fin n → ℝ} (ht : Monotone t) {sigsqr root : ℝ} (hs : 0 ≤ sigsqr) (hr : root < 0) :
    ∃ L : Matrix (Fin n) (Fin n) ℝ, L * Lᵀ = obsCov (car1Acf sigsqr (-root)) t 0 ∧
      ∀ z : ℕ → ℝ, Py.carmaProcess1 (List.ofFn t) sigsqr root z = .ok (List.ofFn (L *ᵥ fun j => z j)) := by
  obtain ⟨L, h1, -, h2⟩ := C49_car1 hn ht hs (div_pos_of_neg_of_neg (by norm_num : (-1 : ℝ) < 0) hr)
  refine ⟨L, ?_, fun z => ?_⟩
  · rw [h1, one_div_div, div_neg, div_one]
  · rw [Py.carmaProcess1, dv_ok hr.ne, res_bind_ok, h2]

example : ∃ L : Matrix (Fin 1) (Fin 1) ℝ, L * Lᵀ = obsCov (car1Acf 4 (-(-2))) ![0] 0 := by
  obtain ⟨L, h, -⟩ := C49_carma1 (n := 1) le_rfl (t := ![0]) (fun i j _ => by simp [Subsingleton.elim i j]) (sigsqr := 4) (root := -2) (by norm_num) (by norm_num)
  exact ⟨L, h⟩

end Verif.Props
