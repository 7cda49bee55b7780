import Verif.Model.Float

/-!
`KalmanFilterp`, `CARp`, `ZCAR`, `CARMA` and `ZCARMA` once more with machine numbers: constructors, `LogDensity` and everything it calls.

A complex number is a pair of `Dbl`. Sums, differences and products with a `double` are taken component by component, as
`std::complex` does; where Armadillo multiplies or divides a complex vector by a `double`, it first turns the `double` into a complex number. The product and the quotient of two complex numbers, `exp`, `pow`, `abs` and the linear algebra (matrix products, `solve`) come
from the libraries, which promise nothing about order of summation or treatment of infinities; they are parameters, `CArith`.

As in `Verif/Model/Float.lean` a division by zero gives an infinity or NaN and the calculation goes on. Zero is unsigned.
-/

namespace Verif.Model

open scoped Classical

/-- `std::complex<double>`. -/
abbrev CD := Dbl × Dbl

/-- Real and complex machine arithmetic, and the linear algebra on vectors and matrices of complex numbers. `rpow` is `pow(double, int)`; `solve` gives
nothing where `arma::solve` throws; `form b P` is `as_scalar(b * P * b.t())`. -/
structure CArith where
  r : Arith
  rpow : Dbl → ℕ → Dbl
  cmul : CD → CD → CD
  cdiv : CD → CD → CD
  cexp : CD → CD
  cpow : CD → ℕ → CD
  cabs : CD → Dbl
  dot : (p : ℕ) → (Fin p → CD) → (Fin p → CD) → CD
  mulVec : (p : ℕ) → (Fin p → Fin p → CD) → (Fin p → CD) → Fin p → CD
  vecMul : (p : ℕ) → (Fin p → CD) → (Fin p → Fin p → CD) → Fin p → CD
  form : (p : ℕ) → (Fin p → CD) → (Fin p → Fin p → CD) → CD
  solve : (p : ℕ) → (Fin p → Fin p → CD) → (Fin p → CD) → Option (Fin p → CD)

namespace CArith
variable (C : CArith)

/-- Operations of `std::complex` that act on the components. -/
noncomputable def cadd (z w : CD) : CD := (C.r.add z.1 w.1, C.r.add z.2 w.2)
@[inherit_doc cadd]
noncomputable def csub (z w : CD) : CD := (C.r.sub z.1 w.1, C.r.sub z.2 w.2)
@[inherit_doc cadd]
noncomputable def cscale (x : Dbl) (z : CD) : CD := (C.r.mul x z.1, C.r.mul x z.2)

end CArith

/-- `std::conj` and unary minus; exact. -/
noncomputable def CD.conj (z : CD) : CD := (z.1, z.2.neg)
@[inherit_doc CD.conj]
noncomputable def CD.neg (z : CD) : CD := (z.1.neg, z.2.neg)

/-- A real number as a complex one. -/
noncomputable def CD.ofReal (x : Dbl) : CD := (x, .fin 0)

/-! ### filter -/

/-- Object of class `KalmanFilterp` whose `p_` is `p` (`src/include/kfilter.hpp` lines 374-388): `b` holds the members of the base class (its field
`omega` is not used), the rest what `Filter` reads and writes. The members `kalman_gain_`, `rho_`, `state_const_`, `state_slope_` are left out: `Filter`
writes the first two before it reads them and does not touch the others. -/
structure FKFp (p : ℕ) where
  b : FKF1
  omega : Fin p → CD
  ma : List Dbl
  state : Fin p → CD
  StateVar : Fin p → Fin p → CD
  rotma : Fin p → CD
  PredVar : Fin p → Fin p → CD
  innov : Dbl

namespace FKFp
variable (C : CArith) {p : ℕ}

/-- State arrays zeroed (`src/include/kfilter.hpp` lines 345-357). -/
noncomputable def zeroed (p : ℕ) (b : FKF1) (omega : Fin p → CD) (ma : List Dbl) (innov : Dbl) : FKFp p :=
  { b := b, omega := omega, ma := ma, state := fun _ => CD.ofReal (.fin 0), StateVar := fun _ _ => CD.ofReal (.fin 0),
    rotma := fun _ => CD.ofReal (.fin 0), PredVar := fun _ _ => CD.ofReal (.fin 0), innov := innov }

/-- Constructor taking data only (`src/include/kfilter.hpp` line 270), which runs `init()` twice. `p_` is left indeterminate by the code; it is set
by `SetOmega` before any use. -/
noncomputable def newData (p : ℕ) (srt : List Dbl → List ℕ) (time y yerr : List Dbl) : Res (FKFp p) := do
  let b ← FKF1.newData C.r srt time y yerr
  let b ← FKF1.initSort C.r srt b
  let b ← FKF1.initDedup C.r b
  return zeroed p b (fun _ => CD.ofReal (.fin 0)) [] .nan

/-- The matrix of eigenvectors (`src/kfilter.cpp` lines 144-149). -/
noncomputable def eigenMat (omega : Fin p → CD) : Fin p → Fin p → CD := fun i k =>
  if (i : ℕ) = 0 then CD.ofReal (.fin 1) else if (i : ℕ) = 1 then omega k else C.cpow (omega k) i

/-- `Rvector` (`src/kfilter.cpp` lines 152-153). -/
noncomputable def rvec (p : ℕ) : Fin p → CD := fun i => CD.ofReal (if (i : ℕ) + 1 = p then .fin 1 else .fin 0)

/-- Stationary state covariance (`src/kfilter.cpp` lines 165-172): upper triangle, then `symmatu`. -/
noncomputable def stateVar (sigsqr : Dbl) (omega J : Fin p → CD) : Fin p → Fin p → CD :=
  let upper : Fin p → Fin p → CD := fun i j =>
    C.cdiv (C.cmul (C.cscale sigsqr.neg (J i)) (J j).conj) (C.cadd (omega i) (omega j).conj)
  fun i j => if i ≤ j then upper i j else (upper j i).conj

/-- `KalmanFilterp::Reset()` (`src/kfilter.cpp` lines 138-186). `EigenMat.row(1)` does not exist for `p_ < 2`; the product in line 162 needs `p_`
coefficients. -/
noncomputable def reset (s : FKFp p) : Res (FKFp p) := do
  if p < 2 then .error .bounds
  let E := eigenMat C s.omega
  let J ← (match C.solve p E (rvec p) with
    | none => .error .runtime
    | some J => .ok J : Res (Fin p → CD))
  if s.ma.length ≠ p then .error .bounds
  let rotma := C.vecMul p (fun i => CD.ofReal (s.ma.getD i (.fin 0))) E
  let V := stateVar C s.b.sigsqr s.omega J
  let mean ← wr s.b.mean 0 (.fin 0)
  let e0 ← rd s.b.yerr 0
  let var ← wr s.b.var 0 (C.form p rotma V).1
  let v0 ← rd var 0
  let var ← wr var 0 (C.r.add v0 (C.r.mul e0 e0))
  let y0 ← rd s.b.y 0
  return { s with
    rotma := rotma, StateVar := V, PredVar := V, state := fun _ => CD.ofReal (.fin 0), innov := y0,
    b := { s.b with mean := mean, var := var, cur := 1 } }

/-- `KalmanFilterp::Update()` (`src/kfilter.cpp` lines 189-215). -/
noncomputable def update (s : FKFp p) : Res (FKFp p) := do
  let c := s.b.cur
  let c1 ← prevIdx c
  let vprev ← rd s.b.var c1
  let gain : Fin p → CD := fun k =>
    C.cdiv (C.mulVec p s.PredVar (fun l => (s.rotma l).conj) k) (CD.ofReal vprev)
  let state : Fin p → CD := fun k => C.cadd (s.state k) (C.cmul (gain k) (CD.ofReal s.innov))
  let P : Fin p → Fin p → CD := fun k l => 
    C.csub (s.PredVar k l) (C.cmul (CD.ofReal vprev) (C.cmul (gain k) (gain l).conj))
  let dt ← rd s.b.dt c1
  let rho : Fin p → CD := fun k => C.cexp (C.cmul (s.omega k) (CD.ofReal dt))
  let state : Fin p → CD := fun k => C.cmul (rho k) (state k)
  let P : Fin p → Fin p → CD := fun k l =>
    C.cadd (C.cmul (C.cmul (rho k) (rho l).conj) (C.csub (P k l) (s.StateVar k l))) (s.StateVar k l)
  let mean ← wr s.b.mean c (C.dot p s.rotma state).1
  let var ← wr s.b.var c (C.form p s.rotma P).1
  let vc ← rd var c
  let ec ← rd s.b.yerr c
  let var ← wr var c (C.r.add vc (C.r.mul ec ec))
  let yc ← rd s.b.y c
  let mc ← rd mean c
  return { s with
    state := state, PredVar := P, innov := C.r.sub yc mc,
    b := { s.b with mean := mean, var := var, cur := c + 1 } }

/-- `KalmanFilter::Filter()` (`src/include/kfilter.hpp` lines 126-132). -/
noncomputable def filter (s : FKFp p) : Res (FKFp p) := do
  let s ← reset C s
  iter (update C) (s.b.time.length - 1) s

end FKFp

/-! ### roots and moving-average coefficients -/

namespace FCarP
variable (C : CArith)

/-- The two roots of `s^2 + q2 s + q1` (`src/carpack.cpp` lines 149-162 and 534-547). -/
noncomputable def quadPair (q1 q2 : Dbl) : List CD :=
  let d := C.r.sub (C.r.mul q2 q2) (C.r.mul (.fin 4) q1)
  if d.gt (.fin 0) then
    [(C.r.mul (.fin (-0.5)) (C.r.add q2 (C.r.sqrt d)), .fin 0), (C.r.mul (.fin (-0.5)) (C.r.sub q2 (C.r.sqrt d)), .fin 0)]
  else
    let re := C.r.mul (.fin (-0.5)) q2
    let im := C.r.mul (.fin (-0.5)) (C.r.sqrt d.neg)
    [(re, im), (re, im.neg)]

/-- The loop over quadratic factors (`src/carpack.cpp` lines 143-163 with `off = 3`, lines 528-548 with `off = 3 + p_`). -/
noncomputable def rootLoop (θ : List Dbl) (off : ℕ) : ℕ → Res (List CD)
  | 0 => .ok []
  | k + 1 => do
      let l ← rootLoop θ off k
      let a ← rd θ (off + 2 * k)
      let b ← rd θ (off + 2 * k + 1)
      return l ++ quadPair C (C.r.exp a) (C.r.exp b)

/-- All `m` roots (`src/carpack.cpp` lines 139-171 and 524-554). -/
noncomputable def rootsFrom (θ : List Dbl) (off m : ℕ) : Res (List CD) := do
  let l ← rootLoop C θ off (m / 2)
  if m % 2 = 1 then
    let a ← rd θ (off + m - 1)
    return l ++ [CD.ofReal (C.r.exp a).neg]
  else
    return l

/-- A complex vector of `p` elements as a function. -/
noncomputable def vecOf (p : ℕ) (l : List CD) : Fin p → CD := fun k => l.getD k (CD.ofReal (.fin 0))

/-- Inner loop of `unique_roots` over `j` for one `i` (`src/carpack.cpp` lines 717-725). -/
noncomputable def uniqueInner (a : CD) : List CD → Dbl → Dbl
  | [], m => m
  | b :: l, m =>
      let d := C.cabs (C.cdiv (C.csub a b) (C.cadd a b))
      uniqueInner a l (if d.lt m then d else m)

/-- Outer loop over `i` (`src/carpack.cpp` lines 716-726). -/
noncomputable def uniqueOuter : List CD → Dbl → Dbl
  | [], m => m
  | a :: l, m => uniqueOuter l (uniqueInner C a l m)

/-- `unique_roots` (`src/carpack.cpp` lines 709-732). -/
noncomputable def uniqueRoots (roots : List CD) (tol : Dbl) : Bool :=
  decide ((uniqueOuter C roots (C.r.mul (.fin 100) tol)).gt tol)

/-- One pass of the recursion of `polycoefs` (`src/carpack.cpp` line 751). -/
noncomputable def polyStep (r : CD) (i : ℕ) (c : List CD) : List CD :=
  (List.range c.length).map fun j =>
    if 1 ≤ j ∧ j ≤ i + 1 then
      C.csub (c.getD j (CD.ofReal (.fin 0))) (C.cmul r (c.getD (j - 1) (CD.ofReal (.fin 0))))
    else c.getD j (CD.ofReal (.fin 0))

/-- The loop of `polycoefs` (`src/carpack.cpp` lines 749-752). -/
noncomputable def polyLoop : List CD → ℕ → List CD → List CD
  | [], _, c => c
  | r :: rs, i, c => polyLoop rs (i + 1) (polyStep C r i c)

/-- `polycoefs` (`src/carpack.cpp` lines 742-756). -/
noncomputable def polycoefs (roots : List CD) : List Dbl :=
  (polyLoop C roots 0 (CD.ofReal (.fin 1) :: List.replicate roots.length (CD.ofReal (.fin 0)))).map Prod.fst

/-- Denominator of the term of root `k` (`src/carpack.cpp` lines 385-393). -/
noncomputable def varDenom {p : ℕ} (roots : Fin p → CD) (k : Fin p) : CD :=
  C.cscale (C.r.mul (.fin (-2)) (roots k).1) ((List.finRange p).foldl (fun acc l =>
    if l ≠ k then C.cmul acc (C.cmul (C.csub (roots l) (roots k)) (C.cadd (roots l).conj (roots k))) else acc) (CD.ofReal (.fin 1)))

/-- `ma_sum1`, `ma_sum2` (`src/carpack.cpp` lines 395-401). -/
noncomputable def maSum (ma : List Dbl) (z : CD) : CD :=
  (List.range ma.length).foldl (fun acc l => C.cadd acc (C.cscale (ma.getD l (.fin 0)) (C.cpow z l))) (CD.ofReal (.fin 0))

/-- `CARp::Variance` with `sigma = 1` and `dt = 0` (`src/carpack.cpp` lines 377-409). -/
noncomputable def variance {p : ℕ} (roots : Fin p → CD) (ma : List Dbl) : Dbl :=
  C.r.mul (C.r.mul (.fin 1) (.fin 1)) ((List.finRange p).foldl (fun acc k => C.cadd acc (C.cdiv
    (C.cmul (C.cmul (maSum C ma (roots k)) (maSum C ma (roots k).neg)) (C.cexp (C.cscale (.fin 0) (roots k)))) (varDenom C roots k)))
    (CD.ofReal (.fin 0))).1

/-- `CARMA::ExtractMA` (`src/carpack.cpp` lines 522-580). -/
noncomputable def carmaMA (p q : ℕ) (θ : List Dbl) : Res (List Dbl) := do
  let roots ← rootsFrom C θ (3 + p) q
  let c := polycoefs C roots
  let cq ← rd c q
  let c := c.map fun x => C.r.div x cq
  if p ≤ q then .error .bounds
  return (List.range p).map fun i => if i ≤ q then c.getD (q - i) (.fin 0) else .fin 0

/-- Coefficients of `(1 + s/kappa)^(p-1)` (`src/carpack.cpp` lines 692-697, `src/include/carpack.hpp` lines 353-357). The binomial coefficient is taken
to be correctly rounded. -/
noncomputable def zMA (p : ℕ) (kappa : Dbl) : Res (List Dbl) :=
  if p = 0 then .error .bounds
  else .ok ((List.range p).map fun i => if i = 0 then .fin 1 else C.r.div (C.r.rnd ((p - 1).choose i)) (C.rpow kappa i))

/-- `inv_logit` (`src/carpack.cpp` line 705). -/
noncomputable def invLogit (x : Dbl) : Dbl := C.r.div (C.r.exp x) (C.r.add (.fin 1) (C.r.exp x))

end FCarP

/-! ### objects -/

/-- Object of class `CARp` or one of its subclasses (`src/include/carpack.hpp` lines 236-247, 285-461), the members that `LogDensity` uses. `ZCAR`'s own
`ma_coefs_`, which hides the one of `CARp`, is handed to the filter by the constructor and never used again. -/
structure FCarP (p : ℕ) where
  time : List Dbl
  y : List Dbl
  yerr : List Dbl
  maxStdev : Dbl
  maxFreq : Dbl
  minFreq : Dbl
  ignorePrior : Bool
  kf : FKFp p
  kind : Kind
  maCoefs : List Dbl
  orderLor : Bool
  kappaLow : Dbl
  kappaHigh : Dbl

namespace FCarP
variable (C : CArith) {p : ℕ}

/-- Constructors of `CARMA_Base` and `CARp` with `SetPrior` (`src/include/carpack.hpp` lines 56-72, 201-207, 289-298). The value
`10.0 * sqrt(arma::var(y_))` handed to `SetPrior` comes from Armadillo and is an argument here. -/
noncomputable def newCarp (p : ℕ) (srt : List Dbl → List ℕ) (time y yerr : List Dbl) (maxStdev : Dbl) : Res (FCarP p) := do
  let dt ← FKF1.diffs C.r time
  let dmin ← FCar1.vecMin dt
  let tmax ← FCar1.vecMax time
  let tmin ← FCar1.vecMin time
  let kf ← FKFp.newData C p srt time y yerr
  if p = 0 then .error .bounds
  let ma := .fin 1 :: List.replicate (p - 1) (.fin 0)
  return { time := time, y := y, yerr := yerr, maxStdev := maxStdev, maxFreq := C.r.div (.fin 1) dmin,
           minFreq := C.r.div (.fin 1) (C.r.sub tmax tmin), ignorePrior := false, kf := { kf with ma := ma }, kind := .carp, maCoefs := ma,
           orderLor := true, kappaLow := .nan, kappaHigh := .nan }

/-- Median as computed by Armadillo: the middle element, or the mean of the two middle elements, of the sorted vector; a NaN is rejected. -/
noncomputable def median (l : List Dbl) : Res Dbl :=
  if l = [] ∨ .nan ∈ l then .error .bounds
  else
    let s := l.mergeSort (fun a b => decide ¬ b.lt a)
    let n := l.length
    .ok (if n % 2 = 1 then s.getD (n / 2) (.fin 0)
      else C.r.div (C.r.add (s.getD (n / 2 - 1) (.fin 0)) (s.getD (n / 2) (.fin 0))) (.fin 2))

/-- The four constructors (`src/include/carpack.hpp` lines 289-298, 346-359, 374-379, 410-420). -/
noncomputable def new (kind : Kind) (p : ℕ) (srt : List Dbl → List ℕ) (time y yerr : List Dbl) (maxStdev : Dbl) : Res (FCarP p) := do
  let s ← newCarp C p srt time y yerr maxStdev
  match kind with
  | .carp => return s
  | .carma q => return { s with kind := .carma q }
  | .zcar => do
      let dt ← FKF1.diffs C.r time
      let dmin ← FCar1.vecMin dt
      let ma ← zMA C p (C.r.div (.fin 1) dmin)
      return { s with kind := .zcar, kf := { s.kf with ma := ma } }
  | .zcarma => do
      let dt ← FKF1.diffs C.r time
      let dmin ← FCar1.vecMin dt
      let tmax ← FCar1.vecMax time
      let tmin ← FCar1.vecMin time
      let med ← median C dt
      return { s with
        kind := .zcarma, kappaHigh := C.r.div (.fin 1) dmin,
        kappaLow := Dbl.max (C.r.div (.fin 1) (C.r.sub tmax tmin)) (C.r.div (.fin 1) (C.r.mul (.fin 10) med)) }

/-- `SetMLE` (`src/include/carpack.hpp` line 233). -/
def setMLE (s : FCarP p) (x : Bool) : FCarP p := { s with ignorePrior := x }

/-- `ExtractMA` (`src/include/carpack.hpp` lines 314, 389, 429; `src/carpack.cpp` lines 522-580, 687-698). -/
noncomputable def extractMA (s : FCarP p) (θ : List Dbl) : Res (List Dbl) :=
  match s.kind with
  | .carp => .ok s.maCoefs
  | .zcar => .ok s.maCoefs
  | .carma q => carmaMA C p q θ
  | .zcarma => do
      let x ← rd θ (3 + p)
      zMA C p (C.r.add (C.r.mul (C.r.sub s.kappaHigh s.kappaLow) (invLogit C x)) s.kappaLow)

/-- `ExtractSigsqr` (`src/include/carpack.hpp` lines 316-319, 391-395, 431-435). -/
noncomputable def extractSigsqr (s : FCarP p) (θ : List Dbl) : Res Dbl := do
  let roots ← rootsFrom C θ 3 p
  let ma ← extractMA C s θ
  let s0 ← rd θ 0
  return C.r.div (C.r.mul s0 s0) (variance C (vecOf p roots) ma)

/-- Some centroid exceeds its predecessor by more than 1e-8 (`src/carpack.cpp` lines 355-361). -/
noncomputable def unordered : List Dbl → Bool
  | a :: b :: l => decide ((C.r.sub b a).gt (C.r.rnd 1e-8)) || unordered (b :: l)
  | _ => false

/-- `CARp::CheckPriorBounds` (`src/carpack.cpp` lines 314-374). -/
noncomputable def checkPrior (s : FCarP p) (θ : List Dbl) : Res Bool := do
  if s.ignorePrior then return true
  let ysigma ← rd θ 0
  let scale ← rd θ 1
  let roots ← rootsFrom C θ 3 p
  let c := roots.map fun r => C.r.div (C.r.div r.2.abs (.fin 2)) (C.r.rnd Real.pi)
  let w := roots.map fun r => C.r.div (C.r.div r.1.neg (.fin 2)) (C.r.rnd Real.pi)
  let n1 := (c.filter fun x => x.lt s.maxFreq).length
  let n2 := (w.filter fun x => x.lt s.maxFreq).length
  let n3 := (w.filter fun x => x.gt s.minFreq).length
  let ok := uniqueRoots C roots (C.r.rnd 1e-4)
  let ok := if n1 ≠ c.length ∨ n2 ≠ w.length ∨ n3 ≠ w.length ∨ ysigma.gt s.maxStdev ∨ ysigma.lt (.fin 0) ∨
      scale.lt (.fin 0.5) ∨ scale.gt (.fin 2) then false else ok
  return if s.orderLor && unordered C c then false else ok

/-- `LogPrior` (`src/include/carpack.hpp` lines 118-126, 444-456). -/
noncomputable def logPrior (s : FCarP p) (θ : List Dbl) : Res Dbl :=
  match s.kind with
  | .zcarma => do
      let l ← FCar1.logPrior C.r θ
      let x ← rd θ (p + 3)
      return C.r.add l (C.r.sub x.neg (C.r.mul (.fin 2) (C.r.log (C.r.add (.fin 1) (C.r.exp x.neg)))))
  | _ => FCar1.logPrior C.r θ

/-- The filter with the parameters and data that `LogDensity` hands to it (`src/include/carpack.hpp` lines 140-153). -/
noncomputable def setUp (s : FCarP p) (θ : List Dbl) : Res (FKFp p) := do
  let roots ← rootsFrom C θ 3 p
  let ma ← extractMA C s θ
  let sigsqr ← extractSigsqr C s θ
  let scale ← rd θ 1
  let mu ← rd θ 2
  let yerr := s.yerr.map fun x => C.r.mul (C.r.sqrt scale) x
  let ycent := s.y.map fun x => C.r.sub x mu
  return FKFp.zeroed p { s.kf.b with sigsqr := sigsqr, yerr := yerr, y := ycent } (vecOf p roots) ma s.kf.innov

/-- `CARMA_Base::LogDensity` (`src/include/carpack.hpp` lines 131-176). A `runtime_error` from `Filter()` is caught and gives `-inf`; what `Reset` wrote
before it threw is not kept (it is written again by the next call). -/
noncomputable def logDensity (s : FCarP p) (θ : List Dbl) : Res (FCarP p × Dbl) := do
  let ok ← checkPrior C s θ
  if ok = false then return (s, .ninf)
  let kf ← setUp C s θ
  let mu ← rd θ 2
  match FKFp.filter C kf with
  | .error .runtime => return ({ s with kf := kf }, .ninf)
  | .error f => .error f
  | .ok kf => do
      let ll ← FCar1.likLoop C.r s.y kf.b.mean kf.b.var mu s.time.length
      let lp ← logPrior C s θ
      return ({ s with kf := kf }, C.r.add ll lp)

end FCarP
end Verif.Model
