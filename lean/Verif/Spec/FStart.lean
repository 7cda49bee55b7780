import Verif.Model.FStart
import Verif.Model.Start
import Verif.Spec.Binary64

/-!
What C93 assumes of the numbers that go into the starting values.
-/

namespace Verif.Spec

open Verif.Model

/-- Numbers of moderate size going into `StartingValue`: variance `v` and mean `m` of the values, the median `g` of the time differences, draws `c`
(chi-squared), `z` (normal), `u` (uniform) and `c50` (chi-squared, 50 degrees of freedom), all of them doubles. The last may even be zero. -/
structure StartInput (A : Arith) (lib : StartLib) (ts ys : List ℝ) (d : StartDraws) (v m g c z u c50 : ℝ) : Prop where
  var : lib.var (ys.map .fin) = .fin v
  mean : lib.mean (ys.map .fin) = .fin m
  median : ∀ dt, FKF1.diffs A (ts.map .fin) = .ok dt → lib.median dt = .fin g
  chi : d.chi = .fin c
  norm : d.norm = .fin z
  unif : d.unif = .fin u
  chi50 : d.chi50 = .fin c50
  v_lo : 2 ^ (-200 : ℤ) ≤ v
  v_hi : v ≤ 2 ^ (200 : ℤ)
  m_hi : |m| ≤ 2 ^ (299 : ℤ)
  g_lo : 2 ^ (-300 : ℤ) ≤ g
  g_hi : g ≤ 2 ^ (300 : ℤ)
  c_lo : 2 ^ (-200 : ℤ) ≤ c
  c_hi : c ≤ 2 ^ (200 : ℤ)
  z_hi : |z| ≤ 2 ^ (53 : ℤ)
  u_lo : 1 ≤ u
  u_hi : u ≤ 50
  c50_lo : 0 ≤ c50

/-- `exp` does not overflow where it should not. -/
def ExpFinite (A : Arith) : Prop := ∀ x, x ≤ 600 → ∃ r, A.exp (.fin x) = .fin r ∧ r ≤ 2 ^ (1000 : ℤ)

/-- The standard deviation that `StartingValue` is meant to draw: the square root of a scaled inverse chi-squared variate. -/
noncomputable def startStdev (n : ℕ) (v c : ℝ) : ℝ := √(v / c * (n - 1 : ℝ))

/-- The rate `exp(l)` is within the frequency bounds of the prior, all of them as computed: between one over the time span and one over some gap. -/
def RateWithin (A : Arith) (ts : List ℝ) (l : ℝ) : Prop :=
  ∃ w, A.exp (.fin l) = .fin w ∧
    (∃ lo ≤ w, A.div (.fin 1) (A.sub (.fin (ts.getD (ts.length - 1) 0)) (.fin (ts.getD 0 0))) = .fin lo) ∧
    ∃ i hi, i + 1 < ts.length ∧ w ≤ hi ∧ A.div (.fin 1) (A.sub (.fin (ts.getD (i + 1) 0)) (.fin (ts.getD i 0))) = .fin hi

/-- Armadillo's functions without rounding. -/
structure ExactLib (lib : StartLib) : Prop where
  var : ∀ l : List ℝ, lib.var (l.map .fin) = .fin (armaVar l)
  mean : ∀ l : List ℝ, lib.mean (l.map .fin) = .fin (armaMean l)
  median : ∀ (l : List ℝ) (x : ℝ), armaMedian l = .ok x → lib.median (l.map .fin) = .fin x

end Verif.Spec
