import Verif.Spec.FCarma
import Verif.Theory.FConstruct
import Verif.Theory.FPredExact

/-!
With exact arithmetic the machine-number model of the CARMA classes agrees with the model in real numbers.
-/

namespace Verif.Theory

open Verif.Model Verif.Spec Matrix
open scoped Classical

/-! ### complex numbers -/

theorem val_pair (z : ℂ) : val? (pair z) = some z := rfl

theorem vec_pair {p : ℕ} (v : Fin p → ℂ) : vec? (fun k => pair (v k)) = some v := by
  unfold vec?
  rw [dif_pos (show ∀ k, (val? (pair (v k))).isSome = true from fun _ => rfl)]
  rfl

theorem mat_pair {p : ℕ} (M : Matrix (Fin p) (Fin p) ℂ) : mat? (fun i k => pair (M i k)) = some M := by
  unfold mat?
  rw [dif_pos (show ∀ i k : Fin p, (val? (pair (M i k))).isSome = true from fun _ _ => rfl)]
  rfl

theorem pair_add (z w : ℂ) : exactC.cadd (pair z) (pair w) = pair (z + w) := rfl
theorem pair_sub (z w : ℂ) : exactC.csub (pair z) (pair w) = pair (z - w) := by
  show (Arith.exact.sub (.fin z.re) (.fin w.re), Arith.exact.sub (.fin z.im) (.fin w.im)) = _
  rw [exf_sub, exf_sub]; rfl
theorem pair_mul (z w : ℂ) : exactC.cmul (pair z) (pair w) = pair (z * w) := rfl
theorem pair_div (z : ℂ) {w : ℂ} (h : w ≠ 0) : exactC.cdiv (pair z) (pair w) = pair (z / w) := by
  show (if w = 0 then _ else pair (z / w)) = _
  rw [if_neg h]
theorem pair_exp (z : ℂ) : exactC.cexp (pair z) = pair (Complex.exp z) := rfl
theorem pair_pow (z : ℂ) (n : ℕ) : exactC.cpow (pair z) n = pair (z ^ n) := rfl
theorem pair_conj (z : ℂ) : (pair z).conj = pair (star z) := rfl
theorem pair_neg (z : ℂ) : CD.neg (pair z) = pair (-z) := rfl
theorem pair_real (x : ℝ) : CD.ofReal (.fin x) = pair (x : ℂ) := rfl
theorem pair_scale (x : ℝ) (z : ℂ) : exactC.cscale (.fin x) (pair z) = pair ((x : ℂ) * z) := by
  show (Dbl.fin (x * z.re), Dbl.fin (x * z.im)) = _
  simp [pair]
theorem pair_fst (z : ℂ) : (pair z).1 = .fin z.re := rfl
theorem pair_zero : CD.ofReal (.fin 0) = pair 0 := rfl
theorem pair_one : CD.ofReal (.fin 1) = pair 1 := rfl

theorem pair_frac (a b : ℂ) : exactC.cabs (exactC.cdiv (exactC.csub (pair a) (pair b)) (exactC.cadd (pair a) (pair b))) = fracDiff a b := by
  rw [pair_sub, pair_add]
  unfold fracDiff
  by_cases h : a + b = 0
  · rw [if_pos h, h]
    show exactC.cabs (if (0 : ℂ) = 0 then _ else _) = _
    rw [if_pos rfl]
    split <;> rfl
  · rw [if_neg h, pair_div _ h]; rfl

/-! ### lists -/

theorem getD_pair (l : List ℂ) (i : ℕ) : (l.map pair).getD i (CD.ofReal (.fin 0)) = pair (l.getD i 0) := by
  rw [pair_zero, List.getD_map]
theorem getD_fin (l : List ℝ) (i : ℕ) : (l.map Dbl.fin).getD i (.fin 0) = .fin (l.getD i 0) := by
  rw [List.getD_map]

/-! ### roots -/

theorem quadPair_lift (a b : ℝ) : FCarP.quadPair exactC (.fin a) (.fin b) = (quadPair a b).map pair := by
  unfold FCarP.quadPair quadPair
  have e : exactC.r.sub (exactC.r.mul (.fin b) (.fin b)) (exactC.r.mul (.fin 4) (.fin a)) = .fin (b * b - 4 * a) := by
    show Arith.exact.sub (Arith.exact.mul _ _) (Arith.exact.mul _ _) = _
    rw [exf_mul, exf_mul, exf_sub]
  dsimp only
  rw [e]
  by_cases h : 0 < b * b - 4 * a
  · rw [if_pos h, if_pos (show (Dbl.fin (b * b - 4 * a)).gt (.fin 0) from h)]
    have es : exactC.r.sqrt (.fin (b * b - 4 * a)) = .fin √(b * b - 4 * a) := by
      show (if b * b - 4 * a < 0 then _ else _) = _
      rw [if_neg h.not_gt]
    rw [es]
    show [(Arith.exact.mul _ (Arith.exact.add _ _), _), (Arith.exact.mul _ (Arith.exact.sub _ _), _)] = _
    rw [exf_add, exf_sub, exf_mul, exf_mul]
    rfl
  · rw [if_neg h, if_neg (show ¬ (Dbl.fin (b * b - 4 * a)).gt (.fin 0) from h)]
    have es : exactC.r.sqrt (Dbl.neg (.fin (b * b - 4 * a))) = .fin √(-(b * b - 4 * a)) := by
      show (if -(b * b - 4 * a) < 0 then _ else _) = _
      rw [if_neg (by linarith)]
    rw [es]
    rfl

theorem rootLoop_lift {θ : List ℝ} {off k : ℕ} {l : List ℂ} (h : rootLoop θ off k = .ok l) :
    FCarP.rootLoop exactC (θ.map .fin) off k = .ok (l.map pair) := by
  induction k generalizing l with
  | zero => injection h with h; subst h; rfl
  | succ k ih =>
    simp only [rootLoop] at h
    obtain ⟨l1, h1, h⟩ := bind_ok h
    obtain ⟨a, h2, h⟩ := bind_ok h
    obtain ⟨b, h3, h⟩ := bind_ok h
    injection h with h
    subst h
    simp only [FCarP.rootLoop, ih h1, rd_lift h2, rd_lift h3, res_bind_ok]
    show Except.ok (_ ++ FCarP.quadPair exactC (.fin (Real.exp a)) (.fin (Real.exp b))) = _
    rw [quadPair_lift, List.map_append]

theorem rootsFrom_lift {θ : List ℝ} {off m : ℕ} {l : List ℂ} (h : rootsFrom θ off m = .ok l) :
    FCarP.rootsFrom exactC (θ.map .fin) off m = .ok (l.map pair) := by
  unfold rootsFrom at h
  obtain ⟨l1, h1, h⟩ := bind_ok h
  unfold FCarP.rootsFrom
  rw [rootLoop_lift h1, res_bind_ok]
  split at h
  · next hm =>
    obtain ⟨a, h2, h⟩ := bind_ok h
    injection h with h
    subst h
    rw [if_pos hm, rd_lift h2, res_bind_ok, List.map_append]
    rfl
  · next hm =>
    injection h with h
    subst h
    rw [if_neg hm]; rfl

theorem vecOf_lift (p : ℕ) (l : List ℂ) : FCarP.vecOf p (l.map pair) = fun k => pair (vecOf p l k) := by
  funext k
  exact getD_pair l k

theorem inner_lift (a : ℂ) (l : List ℂ) (m : Dbl) : FCarP.uniqueInner exactC (pair a) (l.map pair) m = uniqueInner a l m := by
  induction l generalizing m with
  | nil => rfl
  | cons b l ih =>
    rw [List.map_cons, FCarP.uniqueInner, uniqueInner]
    rw [pair_frac, ih]

theorem outer_lift (l : List ℂ) (m : Dbl) : FCarP.uniqueOuter exactC (l.map pair) m = uniqueOuter l m := by
  induction l generalizing m with
  | nil => rfl
  | cons b l ih => rw [List.map_cons, FCarP.uniqueOuter, uniqueOuter, inner_lift, ih]

theorem unique_lift (l : List ℂ) (tol : ℝ) : FCarP.uniqueRoots exactC (l.map pair) (.fin tol) = uniqueRoots l tol := by
  unfold FCarP.uniqueRoots uniqueRoots
  rw [show exactC.r.mul (.fin 100) (.fin tol) = .fin (100 * tol) from rfl, outer_lift]

theorem polyStep_lift (r : ℂ) (i : ℕ) (c : List ℂ) : FCarP.polyStep exactC (pair r) i (c.map pair) = (polyStep r i c).map pair := by
  unfold FCarP.polyStep polyStep
  rw [List.length_map, List.map_map]
  refine List.map_congr_left fun j _ => ?_
  rw [getD_pair, getD_pair, pair_mul, pair_sub]
  show _ = pair (if _ then _ else _)
  split <;> rfl

theorem polyLoop_lift (l : List ℂ) (i : ℕ) (c : List ℂ) : FCarP.polyLoop exactC (l.map pair) i (c.map pair) = (polyLoop l i c).map pair := by
  induction l generalizing i c with
  | nil => rfl
  | cons r l ih => rw [List.map_cons, FCarP.polyLoop, polyStep_lift, ih, polyLoop]

theorem polycoefs_lift (l : List ℂ) : FCarP.polycoefs exactC (l.map pair) = (polycoefs l).map .fin := by
  unfold FCarP.polycoefs polycoefs
  have : CD.ofReal (.fin 1) :: List.replicate (l.map pair).length (CD.ofReal (.fin 0)) = (1 :: List.replicate l.length 0 : List ℂ).map pair := by
    rw [List.map_cons, List.map_replicate, List.length_map]; rfl
  rw [this, polyLoop_lift, List.map_map, List.map_map]
  rfl

/-! ### moving-average coefficients -/

theorem mapDv_lift {l l' : List ℝ} {c : ℝ} (h : l.mapM (fun x => dv x c) = .ok l') :
    (l.map Dbl.fin).map (fun x => exactC.r.div x (.fin c)) = l'.map .fin := by
  induction l generalizing l' with
  | nil => injection h with h; subst h; rfl
  | cons a l ih =>
    rw [List.mapM_cons] at h
    obtain ⟨x, h1, h⟩ := bind_ok h
    obtain ⟨l1, h2, h⟩ := bind_ok h
    injection h with h
    subst h
    rw [List.map_cons, List.map_cons, List.map_cons, ih h2]
    congr 1
    exact dv_lift h1

theorem carmaMA_lift {p q : ℕ} {θ l : List ℝ} (h : carmaMA p q θ = .ok l) : FCarP.carmaMA exactC p q (θ.map .fin) = .ok (l.map .fin) := by
  unfold carmaMA at h
  obtain ⟨r, h1, h⟩ := bind_ok h
  obtain ⟨cq, h2, h⟩ := bind_ok h
  obtain ⟨c, h3, h⟩ := bind_ok h
  dsimp only at h
  split at h
  · cases h
  · next hq =>
    injection h with h
    subst h
    unfold FCarP.carmaMA
    rw [rootsFrom_lift h1, res_bind_ok]
    dsimp only
    rw [polycoefs_lift, rd_lift h2, res_bind_ok, mapDv_lift h3, if_neg hq]
    show Except.ok _ = _
    rw [List.map_map]
    congr 1
    refine List.map_congr_left fun i _ => ?_
    rw [getD_fin]
    show _ = Dbl.fin (if _ then _ else _)
    split <;> rfl

theorem zMA_lift {p : ℕ} {k : Dbl} {l : List ℝ} (h : zMA p k = .ok l) : FCarP.zMA exactC p k = .ok (l.map .fin) := by
  unfold zMA at h
  unfold FCarP.zMA
  split at h
  · cases h
  next hp =>
  rw [if_neg hp]
  cases k with
  | fin k =>
    dsimp only at h
    split at h
    · cases h
    next hk =>
    injection h with h
    subst h
    rw [List.map_map]
    congr 1
    refine List.map_congr_left fun i hi => ?_
    show _ = Dbl.fin (if _ then _ else _)
    split
    · rfl
    · next h0 =>
      have hi := List.mem_range.mp hi
      have hk0 : k ≠ 0 := fun h => hk ⟨h, by omega⟩
      show Arith.exact.div (.fin _) (.fin (k ^ i)) = _
      rw [exf_div _ (pow_ne_zero _ hk0)]
  | nan =>
    dsimp only at h
    split at h
    · cases h
    next hk =>
    injection h with h
    subst h
    rw [show p = 1 by omega]; rfl
  | pinf =>
    injection h with h
    subst h
    rw [List.map_map]
    congr 1
    refine List.map_congr_left fun i hi => ?_
    show _ = Dbl.fin (if _ then _ else _)
    split
    · rfl
    · next h0 =>
      show Arith.exact.div _ (if i = 0 then _ else _) = _
      rw [if_neg h0]; rfl
  | ninf =>
    injection h with h
    subst h
    rw [List.map_map]
    congr 1
    refine List.map_congr_left fun i hi => ?_
    show _ = Dbl.fin (if _ then _ else _)
    split
    · rfl
    · next h0 =>
      show Arith.exact.div _ (if i = 0 then _ else if _ then _ else _) = _
      rw [if_neg h0]
      split <;> rfl

/-! ### variance -/

theorem foldAdd_lift {α : Type} (l : List α) (f : α → ℂ) (a : ℂ) :
    l.foldl (fun acc k => exactC.cadd acc (pair (f k))) (pair a) = pair (a + (l.map f).sum) := by
  induction l generalizing a with
  | nil => simp
  | cons b l ih => rw [List.foldl_cons, pair_add, ih, List.map_cons, List.sum_cons, add_assoc]

theorem foldMul_lift {α : Type} (l : List α) (P : α → Prop) [DecidablePred P] (f : α → ℂ) (a : ℂ) :
    l.foldl (fun acc k => if P k then exactC.cmul acc (pair (f k)) else acc) (pair a) = pair (a * (l.map fun k => if P k then f k else 1).prod) := by
  induction l generalizing a with
  | nil => simp
  | cons b l ih =>
    rw [List.foldl_cons, List.map_cons, List.prod_cons]
    by_cases h : P b
    · rw [if_pos h, pair_mul, ih, if_pos h, mul_assoc]
    · rw [if_neg h, ih, if_neg h, one_mul]

theorem maSum_lift (ma : List ℝ) (z : ℂ) : FCarP.maSum exactC (ma.map .fin) (pair z) = pair (maSum ma z) := by
  unfold FCarP.maSum maSum
  have := foldAdd_lift (List.range ma.length) (fun l => (ma.getD l 0 : ℂ) * z ^ l) 0
  rw [zero_add] at this
  rw [List.length_map]
  refine Eq.trans ?_ (this.trans ?_)
  · congr 1
    funext acc l
    rw [getD_fin, pair_pow, pair_scale]
  · rfl

variable {p : ℕ}

theorem varDenom_lift (r : Fin p → ℂ) (k : Fin p) : FCarP.varDenom exactC (fun k => pair (r k)) k = pair (varDenom r k) := by
  unfold FCarP.varDenom varDenom
  have := foldMul_lift (List.finRange p) (fun l => l ≠ k) (fun l => (r l - r k) * (star (r l) + r k)) 1
  rw [one_mul] at this
  have e : (List.finRange p).foldl (fun acc l => if l ≠ k then exactC.cmul acc (exactC.cmul (exactC.csub (pair (r l)) (pair (r k)))
      (exactC.cadd (pair (r l)).conj (pair (r k)))) else acc) (CD.ofReal (.fin 1)) =
      pair (∏ l, if l ≠ k then (r l - r k) * (star (r l) + r k) else 1) := by
    rw [Fin.prod_univ_def]
    refine Eq.trans ?_ this
    congr 1
    try
      funext acc l
      rw [pair_sub, pair_conj, pair_add, pair_mul]
  rw [e, pair_fst, show exactC.r.mul (.fin (-2)) (.fin (r k).re) = .fin (-2 * (r k).re) from rfl, pair_scale]
  push_cast
  rfl

theorem variance_lift {r : Fin p → ℂ} {ma : List ℝ} {v : ℝ} (h : variance r ma 1 0 = .ok v) :
    FCarP.variance exactC (fun k => pair (r k)) (ma.map .fin) = .fin v := by
  unfold variance at h
  split at h
  · cases h
  next hd =>
  injection h with h
  unfold FCarP.variance
  have := foldAdd_lift (List.finRange p) (fun k => maSum ma (r k) * maSum ma (-r k) * Complex.exp (r k * ((0 : ℝ) : ℂ)) / varDenom r k) 0
  rw [zero_add] at this
  have e : (List.finRange p).foldl (fun acc k => exactC.cadd acc (exactC.cdiv (exactC.cmul (exactC.cmul (FCarP.maSum exactC (ma.map .fin) (pair (r k)))
      (FCarP.maSum exactC (ma.map .fin) (CD.neg (pair (r k))))) (exactC.cexp (exactC.cscale (.fin 0) (pair (r k))))) (FCarP.varDenom exactC (fun k => pair (r k)) k)))
      (CD.ofReal (.fin 0)) = pair (∑ k, maSum ma (r k) * maSum ma (-r k) * Complex.exp (r k * ((0 : ℝ) : ℂ)) / varDenom r k) := by
    refine Eq.trans ?_ (this.trans ?_)
    · congr 1
      funext acc k
      rw [varDenom_lift, pair_neg, maSum_lift, maSum_lift, pair_scale, pair_exp, pair_mul, pair_mul, pair_div _ (fun h => hd ⟨k, h⟩), mul_comm (r k)]
    · rw [Fin.sum_univ_def]
  rw [e, pair_fst]
  show Dbl.fin (1 * 1 * _) = _
  rw [h]

end Verif.Theory
