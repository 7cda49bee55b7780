import Verif.Model.FSamp
import Verif.Spec.Binary64

/-! Specification for C108: order and repetition of the data, with machine numbers. -/

namespace Verif.Spec

open Verif.Model

/-- `arma::sort_index` on finite doubles: positions that put the vector into nondecreasing order, in any order among equal elements. Nothing is asked
of infinities and NaN. -/
def SortsFinite (srt : List Dbl → List ℕ) : Prop := IsSortIndex fun l => srt (l.map .fin)

/-- Three vectors made of triples (time, value, error). Times are finite; values and errors are any doubles, NaN included. -/
def timesOf (data : List (ℝ × Dbl × Dbl)) : List Dbl := data.map fun d => .fin d.1
@[inherit_doc timesOf]
def valuesOf (data : List (ℝ × Dbl × Dbl)) : List Dbl := data.map fun d => d.2.1
@[inherit_doc timesOf]
def errorsOf (data : List (ℝ × Dbl × Dbl)) : List Dbl := data.map fun d => d.2.2

end Verif.Spec
