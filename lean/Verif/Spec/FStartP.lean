import Verif.Model.FStartP
import Verif.Spec.FCarma
import Verif.Spec.FStart
import Verif.Spec.FSamp

/-!
What C102 says of the parameters proposed by the search for a starting value.
-/

namespace Verif.Spec

open Verif.Model

/-- `g` is the smallest difference of consecutive times. -/
structure SmallestGap (ts : List ℝ) (g : ℝ) : Prop where
  mem : ∃ i, i + 1 < ts.length ∧ ts.getD (i + 1) 0 - ts.getD i 0 = g
  le : ∀ i, i + 1 < ts.length → g ≤ ts.getD (i + 1) 0 - ts.getD i 0

/-- The time span. -/
def spanOf (ts : List ℝ) : ℝ := ts.getD (ts.length - 1) 0 - ts.getD 0 0

/-- The frequency that lies, on a logarithmic scale, the fraction `u` of the way from one over the time span to one over the smallest gap. -/
noncomputable def freqAt (ts : List ℝ) (g u : ℝ) : ℝ := (1 / spanOf ts) ^ (1 - u) * (1 / g) ^ u

/-- Numbers going into a pass of `StartingValue`: the uniform draws `u` for the centroids and `w` for the widths, variance `v` and mean `m` of the values, draws `c`
(chi-squared), `z` (normal) and `c50` (chi-squared, 50 degrees of freedom). A draw for a centroid may be zero if the order is even; otherwise it is at
least `2^-40`. A uniform draw between bounds is between them. -/
structure PassInput (lib : StartLib) (p : ℕ) (kind : Kind) (ys : List ℝ) (d : PassDraws) (u w : List ℝ) (v m c z c50 : ℝ) : Prop where
  cent : d.cent = u.map .fin
  width : d.width = w.map .fin
  lenu : u.length = (p + 1) / 2
  lenw : w.length = (p + 1) / 2
  u01 : ∀ x ∈ u, 0 ≤ x ∧ x ≤ 1
  u0 : p % 2 = 1 → ∀ x ∈ u, 2 ^ (-40 : ℤ) ≤ x
  w01 : ∀ x ∈ w, 0 ≤ x ∧ x ≤ 1
  low : ∀ a b, F64 a → F64 b → a < b → ∃ r, d.low (.fin a) (.fin b) = .fin r ∧ F64 r ∧ a ≤ r ∧ r ≤ b
  ma : ∀ q, kind = .carma q → 0 < q ∧ ∃ l : List ℝ, d.ma = l.map .fin ∧ l.length = q ∧ ∀ x ∈ l, F64 x
  kappa : kind = .zcarma → ∃ k, d.kappa = .fin k ∧ 2 ^ (-200 : ℤ) ≤ k ∧ k ≤ 1 - 2 ^ (-53 : ℤ)
  var : lib.var (ys.map .fin) = .fin v
  mean : lib.mean (ys.map .fin) = .fin m
  chi : d.chi = .fin c
  norm : d.norm = .fin z
  chi50 : d.chi50 = .fin c50
  v_lo : 2 ^ (-200 : ℤ) ≤ v
  v_hi : v ≤ 2 ^ (200 : ℤ)
  m_hi : |m| ≤ 2 ^ (299 : ℤ)
  c_lo : 2 ^ (-200 : ℤ) ≤ c
  c_hi : c ≤ 2 ^ (200 : ℤ)
  z_hi : |z| ≤ 2 ^ (53 : ℤ)
  c50_lo : 0 ≤ c50

/-- The autoregressive parameters `l` are the ones meant for the draws `u` and `w`, up to `2^-40`: the second coefficient of quadratic factor number `i` is that of
a width `w i` of the way, the first one that of this width and a centroid that is `u' i` of the way, where `u'` has the draws `u` in descending order up to
`2^-40`; for odd `p` the last one belongs to a width that is between one over the time span and the last of these centroids. -/
structure ArDrawn (ts : List ℝ) (g : ℝ) (p : ℕ) (u w u' l : List ℝ) : Prop where
  len : l.length = p
  perm : u'.Perm u
  order : ∀ i j, i < j → j < u'.length → freqAt ts g (u'.getD j 0) ≤ (1 + 2 ^ (-40 : ℤ)) * freqAt ts g (u'.getD i 0)
  quad1 : ∀ i < p / 2, |l.getD (2 * i) 0 - Real.log ((2 * Real.pi * freqAt ts g (w.getD i 0)) ^ 2 + (2 * Real.pi * freqAt ts g (u'.getD i 0)) ^ 2)| ≤ 2 ^ (-40 : ℤ)
  quad2 : ∀ i < p / 2, |l.getD (2 * i + 1) 0 - Real.log (4 * Real.pi * freqAt ts g (w.getD i 0))| ≤ 2 ^ (-40 : ℤ)
  last : p % 2 = 1 → Real.log (2 * Real.pi / spanOf ts) - 2 ^ (-40 : ℤ) ≤ l.getD (p - 1) 0 ∧
    l.getD (p - 1) 0 ≤ Real.log (2 * Real.pi * freqAt ts g (u'.getD (p / 2 - 1) 0)) + 2 ^ (-40 : ℤ)

/-- The parameters of the subclasses are the ones meant: absolute values of the normal draws, and the logit of the uniform draw up to `2^-40`. -/
def ExtraDrawn (d : PassDraws) (ex : List ℝ) : Kind → Prop
  | .carma q => ex.length = q ∧ ∀ (i : ℕ) (z : ℝ), d.ma[i]? = some (.fin z) → ex[i]? = some |z|
  | .zcarma => ∃ x k, ex = [x] ∧ d.kappa = .fin k ∧ |x - Real.log (k / (1 - k))| ≤ 2 ^ (-40 : ℤ)
  | _ => ex = []

/-- The vector proposed by a pass for `n` values consists of doubles, close to what is meant. -/
structure PassDrawn (n : ℕ) (ts : List ℝ) (g : ℝ) (p : ℕ) (kind : Kind) (d : PassDraws) (u w : List ℝ) (v m c z : ℝ) (sd sc mu : ℝ) (u' l ex : List ℝ) : Prop where
  dbl : ∀ x ∈ sd :: sc :: mu :: (l ++ ex), F64 x
  pos : 0 < sd
  sd : |sd - startStdev n v c| ≤ 2 ^ (-49 : ℤ) * startStdev n v c
  sc1 : 1 / 2 ≤ sc
  sc2 : sc ≤ 2
  mu : |mu - (m + z * (startStdev n v c / n))| ≤ 2 ^ (-48 : ℤ) * (|m| + |z| * (startStdev n v c / n) + 2 ^ (-1000 : ℤ))
  ar : ArDrawn ts g p u w u' l
  extra : ExtraDrawn d ex kind

end Verif.Spec
