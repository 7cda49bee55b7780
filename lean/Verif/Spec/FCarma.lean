import Verif.Spec.Binary64
import Verif.Model.FCarma
import Mathlib.LinearAlgebra.Matrix.NonsingularInverse
import Mathlib.Analysis.SpecialFunctions.Exp

/-!
What the theorems about the log-density of the CARMA classes in machine numbers assume, and exact complex arithmetic.
-/

namespace Verif.Spec

open Verif.Model Matrix
open scoped Classical

/-- A value that a variable of type `double` can have. -/
def IsDouble : Dbl → Prop
  | .fin x => F64 x
  | _ => True

/-- What the C standard asks of `log` and `exp` outside the finite range: `log` of a negative number is NaN. -/
structure Edges (A : Arith) : Prop where
  log_neg : ∀ x : ℝ, x < 0 → A.log (.fin x) = .nan
  log_pinf : A.log .pinf = .pinf
  log_ninf : A.log .ninf = .nan
  log_nan : A.log .nan = .nan
  exp_pinf : A.exp .pinf = .pinf
  exp_nan : A.exp .nan = .nan

/-- `exp` of a number of at least 720 (`2^1024` is about `exp(709.8)`) is infinite, as it is in the default rounding mode. -/
def Overflows (A : Arith) : Prop := ∀ x : ℝ, 720 ≤ x → A.exp (.fin x) = .pinf

/-- NaN is passed on by `pow` and by the matrix products. -/
structure NanLib (C : CArith) : Prop where
  rpow : ∀ n, 0 < n → C.rpow .nan n = .nan
  vecMul : ∀ (p : ℕ) v M, (∃ k : Fin p, (v k).1 = .nan) → ∀ j, (C.vecMul p v M j).1 = .nan
  form : ∀ (p : ℕ) v M, (∃ k : Fin p, (v k).1 = .nan) → (C.form p v M).1 = .nan

/-- The object after any number of earlier calls of `LogDensity` that returned, with any arguments, and of `SetMLE`. -/
inductive CalledP (C : CArith) {p : ℕ} (s : FCarP p) : FCarP p → Prop
  | none : CalledP C s s
  | call {s1 s2 : FCarP p} {θ : List Dbl} {v : Dbl} : CalledP C s s1 → FCarP.logDensity C s1 θ = .ok (s2, v) → CalledP C s s2
  | mle {s1 : FCarP p} (x : Bool) : CalledP C s s1 → CalledP C s (s1.setMLE x)

/-- Number of elements of `theta` that the class reads. -/
def dimOf (p : ℕ) : Kind → ℕ
  | .carp => p + 3
  | .zcar => p + 3
  | .carma q => p + q + 3
  | .zcarma => p + 4

/-- The orders for which the class is meant: at least two, and more autoregressive than moving-average terms. -/
def OrdersOk (p : ℕ) : Kind → Prop
  | .carma q => 2 ≤ p ∧ q < p
  | _ => 2 ≤ p

/-! ### exact complex arithmetic -/

/-- A complex number as a pair. -/
noncomputable def pair (z : ℂ) : CD := (.fin z.re, .fin z.im)

/-- The complex number a pair stands for, if both parts are finite. -/
noncomputable def val? : CD → Option ℂ
  | (.fin a, .fin b) => some ⟨a, b⟩
  | _ => none

/-- NaN in both parts. -/
def cnan : CD := (.nan, .nan)

/-- Exact results of an operation on one or two finite numbers; NaN otherwise. -/
noncomputable def lift1 (f : ℂ → ℂ) (z : CD) : CD := ((val? z).map fun z => pair (f z)).getD cnan
@[inherit_doc lift1]
noncomputable def lift2 (f : ℂ → ℂ → CD) (z w : CD) : CD := ((val? z).bind fun z => (val? w).map fun w => f z w).getD cnan

/-- Vectors and matrices, if all their entries are finite. -/
noncomputable def vec? {p : ℕ} (v : Fin p → CD) : Option (Fin p → ℂ) :=
  if h : ∀ k, (val? (v k)).isSome then some fun k => (val? (v k)).get (h k) else none
@[inherit_doc vec?]
noncomputable def mat? {p : ℕ} (M : Fin p → Fin p → CD) : Option (Matrix (Fin p) (Fin p) ℂ) :=
  if h : ∀ i k, (val? (M i k)).isSome then some (Matrix.of fun i k => (val? (M i k)).get (h i k)) else none

/-- Exact arithmetic: finite operands give the exact result. A quotient by zero is infinite, or NaN when the numerator is zero too. `solve` fails on
a singular matrix. -/
noncomputable def exactC : CArith where
  r := .exact
  rpow x n := match x with
    | .fin a => .fin (a ^ n)
    | .nan => .nan
    | .pinf => if n = 0 then .fin 1 else .pinf
    | .ninf => if n = 0 then .fin 1 else if n % 2 = 0 then .pinf else .ninf
  cmul := lift2 fun z w => pair (z * w)
  cdiv := lift2 fun z w => if w = 0 then (if z = 0 then cnan else (.pinf, .pinf)) else pair (z / w)
  cexp := lift1 Complex.exp
  cpow z n := lift1 (· ^ n) z
  cabs z := match z with
    | (.fin a, .fin b) => .fin ‖(⟨a, b⟩ : ℂ)‖
    | (.pinf, _) => .pinf
    | (.ninf, _) => .pinf
    | (_, .pinf) => .pinf
    | (_, .ninf) => .pinf
    | _ => .nan
  dot _ v w := ((vec? v).bind fun v => (vec? w).map fun w => pair (v ⬝ᵥ w)).getD cnan
  mulVec _ M v := ((mat? M).bind fun M => (vec? v).map fun v => fun k => pair ((M *ᵥ v) k)).getD fun _ => cnan
  vecMul _ v M := ((mat? M).bind fun M => (vec? v).map fun v => fun k => pair ((v ᵥ* M) k)).getD fun _ => cnan
  form _ v M := ((mat? M).bind fun M => (vec? v).map fun v => pair (v ⬝ᵥ (M *ᵥ star v))).getD cnan
  solve _ M v := match mat? M, vec? v with
    | some M, some v => if M.det = 0 then none else some fun k => pair ((M⁻¹ *ᵥ v) k)
    | _, _ => none

end Verif.Spec
