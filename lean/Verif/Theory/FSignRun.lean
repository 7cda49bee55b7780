import Verif.Theory.FSign
import Verif.Model.FRun

/-! What the run functions compute from the values before the first iteration does not depend on their sign. -/

namespace Verif.Theory

open Verif.Model Verif.Spec

variable {A : Arith} (hA : SignFree A)
include hA

theorem sum_flip (y : List Dbl) : FRun.sum A (y.map .neg) = (FRun.sum A y).neg := by
  have key : ∀ (l : List Dbl) (acc : Dbl), (l.map .neg).foldl (fun a x => A.add a x) acc.neg = (l.foldl (fun a x => A.add a x) acc).neg := by
    intro l
    induction l with
    | nil => intro acc; rfl
    | cons x l ih => intro acc; simp only [List.map_cons, List.foldl_cons, add_nn hA]; exact ih _
  have := key y (.fin 0)
  rwa [zero_neg] at this

theorem sqSum_flip (y : List Dbl) : FRun.sqSum A (y.map .neg) = FRun.sqSum A y := by
  unfold FRun.sqSum
  rw [List.foldl_map]
  simp only [mul_n hA, n_mul hA, dbl_neg_neg]

theorem mean_flip (y : List Dbl) : FRun.mean A (y.map .neg) = (FRun.mean A y).neg := by
  unfold FRun.mean
  rw [sum_flip hA, n_div hA, List.length_map]

theorem var_flip (y : List Dbl) : FRun.var A (y.map .neg) = FRun.var A y := by
  unfold FRun.var
  rw [sqSum_flip hA, mean_flip hA, mul_n hA, n_mul hA, dbl_neg_neg, List.length_map]

theorem setup_flip (d : ℕ) (y : List Dbl) : FRun.setup A d (y.map .neg) = FRun.setup A d y := by
  unfold FRun.setup FRun.covar FRun.maxStdev
  simp only [var_flip hA, List.length_map]

end Verif.Theory
