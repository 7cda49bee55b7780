import Verif.Theory.FTemps
import Verif.Props.FSamp
import Verif.Props.FCarma

/-!
C100: `RunCarmaSampler` in machine numbers.
-/

namespace Verif.Props

open Verif.Model Verif.Spec Verif.Theory
open scoped Classical

/-- the object `RunCarmaSampler` builds -/
lemma run_obj {C : CArith} {M : Mach} (hA : IsBinary64 M.A) (hC : C.r = M.A) {ts : List ℝ} {y yerr : List Dbl} (ht : MildTimes ts) (hy : ts.length ≤ y.length)
    (he : ts.length ≤ yerr.length) {p q : ℕ} {z : Bool} (ho : OrdersOk p (runKind q z)) (B : Dbl) (srt : List Dbl → List ℕ) :
    ∃ obj, FCarP.new C (runKind q z) p srt (ts.map .fin) y yerr B = .ok obj ∧ PShape (ts.map Dbl.fin).length obj ∧ obj.kind = runKind q z := by
  obtain ⟨ds, hd, hpos⟩ := mild_pos (A := C.r) (hC ▸ hA) ht
  obtain ⟨s, e, hs, hk, -⟩ := newp_ok (y := y) (yerr := yerr) (M := B) hd hpos (by rw [List.length_map]; exact hy) (by rw [List.length_map]; exact he) ho srt
  exact ⟨s, e, hs, hk⟩

/-- **C100, outcomes.** Times of moderate size, values from which the proposal covariance can be computed, orders the class is meant for, at least one
chain: `RunCarmaSampler` either does not leave the search for a starting value, or throws `runtime_error`, or returns `N` records of chain 0; every
recorded log-density is a finite number, equal to what `LogDensity` of a new object returns for the recorded sample, and the sample consists of doubles
and meets the prior bounds. The draws may be anything, also infinite or NaN. -/
theorem C100_run {C : CArith} {M : Mach} (hA : IsBinary64 M.A) (hS : Strict M.A) (hL : Ladder M.A) (hC : C.r = M.A) {ts : List ℝ} {y yerr : List Dbl}
    (ht : MildTimes ts) (hy : ts.length ≤ y.length) (he : ts.length ≤ yerr.length) {p q : ℕ} {z : Bool} (ho : OrdersOk p (runKind q z)) {B : Dbl}
    {L : List Dbl} (hset : FRun.setup M.A (nParams p q z) y = .ok (B, L)) (srt : List Dbl → List ℕ) (fuel N burnin thin : ℕ) {n : ℕ} (h0 : 0 < n)
    (hn : n ≤ 2 ^ 53) {init : List Dbl} (hi : init.length = nParams p q z → Doubles init) {r : FRng} (hr : Usable (nParams p q z) r) :
    ∃ obj, FCarP.new C (runKind q z) p srt (ts.map .fin) y yerr B = .ok obj ∧
      (frunCarma C M fuel srt N burnin (ts.map .fin) y yerr p q n z thin init r = .error .timeout ∨
       frunCarma C M fuel srt N burnin (ts.map .fin) y yerr p q n z thin init r = .error .runtime ∨
       ∃ par, frunCarma C M fuel srt N burnin (ts.map .fin) y yerr p q n z thin init r = .ok par ∧
         Chain C obj (nParams p q z) N par.samples par.logposts) := by
  obtain ⟨obj, e, hs, hk⟩ := run_obj (C := C) hA hC ht hy he ho B srt
  refine ⟨obj, e, ?_⟩
  have hd : dimOf p obj.kind = nParams p q z := by rw [hk, params_dim]
  have := carma_out hA hS hL hC fuel N burnin h0 hn thin hr hset e hs hk (E := StartErr) (R := fun _ _ => True) (Q := fun θ => (fcpVal C obj θ).isFin)
    (fun _ h => h) (init := init) (fun m o r' ho' hr' _ => walk_search hC hs (new_kma e) (hd ▸ hi) o r' ho' hr') trivial
  cases hx : frunCarma C M fuel srt N burnin (ts.map .fin) y yerr p q n z thin init r with
  | error f =>
    rw [hx] at this
    rcases this with h | h
    · exact .inl (by rw [h])
    · exact .inr (.inl (by rw [h]))
  | ok par =>
    rw [hx] at this
    exact .inr (.inr ⟨par, rfl, this⟩)

/-- **C100, the user's starting value.** If the user gives a vector of the right length whose log-density is finite, the run always returns. -/
theorem C100_init {C : CArith} {M : Mach} (hA : IsBinary64 M.A) (hS : Strict M.A) (hL : Ladder M.A) (hC : C.r = M.A) {ts : List ℝ} {y yerr : List Dbl}
    (ht : MildTimes ts) (hy : ts.length ≤ y.length) (he : ts.length ≤ yerr.length) {p q : ℕ} {z : Bool} (ho : OrdersOk p (runKind q z)) {B : Dbl}
    {L : List Dbl} (hset : FRun.setup M.A (nParams p q z) y = .ok (B, L)) (srt : List Dbl → List ℕ) (fuel N burnin thin : ℕ) {n : ℕ} (h0 : 0 < n)
    (hn : n ≤ 2 ^ 53) {r : FRng} (hr : Usable (nParams p q z) r) :
    ∃ obj, FCarP.new C (runKind q z) p srt (ts.map .fin) y yerr B = .ok obj ∧
      ∀ init : List Dbl, init.length = nParams p q z → Doubles init → ∀ o x, FCarP.logDensity C obj init = .ok (o, .fin x) →
       ∃ par, frunCarma C M fuel srt N burnin (ts.map .fin) y yerr p q n z thin init r = .ok par ∧
         Chain C obj (nParams p q z) N par.samples par.logposts := by
  obtain ⟨obj, e, hs, hk⟩ := run_obj (C := C) hA hC ht hy he ho B srt
  refine ⟨obj, e, fun init hi hD o x hx => ?_⟩
  have hd : dimOf p obj.kind = nParams p q z := by rw [hk, params_dim]
  have hfin : (fcpVal C obj init).isFin := by rw [fcpVal, hx]; trivial
  have := carma_out hA hS hL hC fuel N burnin h0 hn thin hr hset e hs hk (E := fun _ => False) (R := fun _ _ => True) (Q := fun θ => θ = init)
    (fun _ h => h ▸ hfin) (init := init) (fun m o r' ho' hr' _ => walk_given hC hs (hi.trans hd.symm) hD hfin o r' ho' hr') trivial
  cases hx : frunCarma C M fuel srt N burnin (ts.map .fin) y yerr p q n z thin init r with
  | error f => rw [hx] at this; exact absurd this id
  | ok par => rw [hx] at this; exact ⟨par, rfl, this⟩

/-- **C100, the search.** If among the first `fuel` proposals of the search there are `2 n - 1` that end it (each of the `n` chains but the first searches
twice, as two steps hold it), and none on which the library throws, the run returns. -/
theorem C100_search {C : CArith} {M : Mach} (hA : IsBinary64 M.A) (hS : Strict M.A) (hL : Ladder M.A) (hC : C.r = M.A) {ts : List ℝ} {y yerr : List Dbl}
    (ht : MildTimes ts) (hy : ts.length ≤ y.length) (he : ts.length ≤ yerr.length) {p q : ℕ} {z : Bool} (ho : OrdersOk p (runKind q z)) {B : Dbl}
    {L : List Dbl} (hset : FRun.setup M.A (nParams p q z) y = .ok (B, L)) (srt : List Dbl → List ℕ) (fuel N burnin thin : ℕ) {n : ℕ} (h0 : 0 < n)
    (hn : n ≤ 2 ^ 53) {init : List Dbl} (hi : init.length = nParams p q z → Doubles init) {r : FRng} (hr : Usable (nParams p q z) r) :
    ∃ obj, FCarP.new C (runKind q z) p srt (ts.map .fin) y yerr B = .ok obj ∧
      (2 * n - 1 ≤ finds C obj r fuel → (∀ k < fuel, ¬ Throws C obj (r.prior k) (r.yvar k)) →
       ∃ par, frunCarma C M fuel srt N burnin (ts.map .fin) y yerr p q n z thin init r = .ok par ∧
         Chain C obj (nParams p q z) N par.samples par.logposts) := by
  obtain ⟨obj, e, hs, hk⟩ := run_obj (C := C) hA hC ht hy he ho B srt
  refine ⟨obj, e, fun hfind hthrow => ?_⟩
  have hd : dimOf p obj.kind = nParams p q z := by rw [hk, params_dim]
  have := carma_out hA hS hL hC fuel N burnin h0 hn thin hr hset e hs hk (E := fun _ => False) (R := fun m r => ∃ F ≤ fuel, Enough C obj m F r)
    (Q := fun θ => (fcpVal C obj θ).isFin) (fun _ h => h) (init := init)
    (fun m o r' ho' hr' he' => walk_sure hC hs (new_kma e) (hd ▸ hi) m o r' ho' hr' he') ⟨fuel, le_rfl, hfind, hthrow⟩
  cases hx : frunCarma C M fuel srt N burnin (ts.map .fin) y yerr p q n z thin init r with
  | error f => rw [hx] at this; exact absurd this id
  | ok par => rw [hx] at this; exact ⟨par, rfl, this⟩

/-- **C100, the search is not protected.** `LogDensity` catches the exception of a singular system, but `StartingValue` runs the filter before it calls
`LogDensity`, outside any `try`: if the user's vector is not usable and the first proposal that does not fail quietly is one on which the library throws, the
run as a whole throws, however many good proposals would follow. -/
theorem C100_throws {C : CArith} {M : Mach} (hA : IsBinary64 M.A) (hL : Ladder M.A) (hC : C.r = M.A) {ts : List ℝ} {y yerr : List Dbl}
    (ht : MildTimes ts) (hy : ts.length ≤ y.length) (he : ts.length ≤ yerr.length) {p q : ℕ} {z : Bool} (ho : OrdersOk p (runKind q z)) {B : Dbl}
    {L : List Dbl} (hset : FRun.setup M.A (nParams p q z) y = .ok (B, L)) (srt : List Dbl → List ℕ) (fuel N burnin thin : ℕ) {n : ℕ} (h0 : 0 < n)
    (hn : n ≤ 2 ^ 53) {r : FRng} (hr : Usable (nParams p q z) r) :
    ∃ obj, FCarP.new C (runKind q z) p srt (ts.map .fin) y yerr B = .ok obj ∧
      ∀ init : List Dbl, (init.length = nParams p q z → ¬ ∃ o x, FCarP.logDensity C obj init = .ok (o, .fin x)) → ∀ k < fuel,
        (∀ j < k, ¬ Finds C obj (r.prior j) (r.yvar j)) → Throws C obj (r.prior k) (r.yvar k) →
        frunCarma C M fuel srt N burnin (ts.map .fin) y yerr p q n z thin init r = .error .runtime := by
  obtain ⟨obj, e, hs, hk⟩ := run_obj (C := C) hA hC ht hy he ho B srt
  refine ⟨obj, e, fun init hi k hF hb hthrow => ?_⟩
  refine carma_throws hA hL hC N burnin h0 hn thin hr hset e hs hk (fun hl hfin => hi hl ?_) hF hb hthrow
  have hd : dimOf p obj.kind = nParams p q z := by rw [hk, params_dim]
  obtain ⟨o, eo⟩ := fcpVal_ok (C := C) hs (θ := init) (by rw [hd, hl])
  cases hv : fcpVal C obj init with
  | fin x => exact ⟨o, x, by rw [← hv]; exact eo⟩
  | _ => rw [hv] at hfin; exact absurd hfin id

/-- **C100, the temperature of the recorded chain.** With two chains or more it is exactly 1, however `log(100)` and the ladder are rounded, provided that `exp(0)` is 1. -/
theorem C100_cold {C : CArith} {M : Mach} (hA : IsBinary64 C.r) (hL : Ladder C.r) (h0 : C.r.exp (.fin 0) = .fin 1) {fuel N burnin p q n thin : ℕ} {z : Bool}
    {srt : List Dbl → List ℕ} {time y yerr init : List Dbl} {r : FRng} (h2 : 2 ≤ n) (hn : n ≤ 2 ^ 53) {par}
    (h : frunCarma C M fuel srt N burnin time y yerr p q n z thin init r = .ok par) : par.temp = .fin 1 := by
  rw [(carma_temp h).2, ftemp_cold hA hL h2 hn, h0]

/-- **C100, one chain.** With `nwalkers = 1` the only chain, whose values are recorded, has a temperature of about 100: the samples are not draws from the posterior. -/
theorem C100_one_walker {C : CArith} {M : Mach} (hL : Ladder C.r) (hacc : Accurate C.r) (hx : ∀ t, C.r.exp (C.r.log (.fin 100)) = .fin t → t ≤ 2 ^ (1000 : ℤ))
    {fuel N burnin p q thin : ℕ} {z : Bool} {srt : List Dbl → List ℕ} {time y yerr init : List Dbl} {r : FRng} {par}
    (h : frunCarma C M fuel srt N burnin time y yerr p q 1 z thin init r = .ok par) : ∃ t, par.temp = .fin t ∧ |t - 100| ≤ 1e-6 := by
  obtain ⟨l, el, hlF, hl0, hl5⟩ := hL.log
  obtain ⟨t, et, ht⟩ := hL.exp l hlF hl0 (by linarith)
  have e : par.temp = .fin t := by
    rw [(carma_temp h).2, ftemperature, if_pos rfl, el, et]
  refine ⟨t, e, ?_⟩
  have F100 : F64 100 := by simpa using f64_int 100 (by norm_num)
  have a1 := hacc.log 100 l F100 (by norm_num) el
  have g0 : 0 ≤ Real.log 100 := Real.log_nonneg (by norm_num)
  have g5 : Real.log 100 ≤ 5 := by
    have e3 := Real.exp_one_gt_d9
    rw [Real.log_le_iff_le_exp (by norm_num), show (5 : ℝ) = ((5 : ℕ) : ℝ) * 1 by norm_num, Real.exp_nat_mul]
    exact le_trans (by norm_num : (100 : ℝ) ≤ 2.7 ^ 5) (pow_le_pow_left₀ (by norm_num) (by linarith) 5)
  rw [abs_of_nonneg g0] at a1
  obtain ⟨δ, hδ⟩ : ∃ δ, δ = l - Real.log 100 := ⟨_, rfl⟩
  have d1 : |δ| ≤ 1e-14 := by
    rw [hδ]
    refine a1.trans ?_
    norm_num at g5 ⊢
    linarith
  have ex : Real.exp l = 100 * Real.exp δ := by
    rw [hδ, sub_eq_add_neg, Real.exp_add, Real.exp_neg, Real.exp_log (by norm_num)]
    field_simp
  have b1 : |Real.exp δ - 1| ≤ 2e-14 := by
    have := Real.abs_exp_sub_one_le (x := δ) (d1.trans (by norm_num))
    linarith
  have c1 := abs_le.mp b1
  have a2 := hacc.exp l t hlF et (hx t (by rw [el, et]))
  rw [ex] at a2
  have b2 := abs_le.mp a2
  have h1074 : (2 : ℝ) ^ (-1074 : ℤ) ≤ 2 ^ (-50 : ℤ) := pw_le _ _ (by norm_num)
  generalize (2 : ℝ) ^ (-1074 : ℤ) = w at *
  norm_num at b2 c1 h1074 ⊢
  exact abs_le.mpr ⟨by linarith [b2.1, b2.2, c1.1, c1.2], by linarith [b2.1, b2.2, c1.1, c1.2]⟩

/-- **C100, no chain.** `nwalkers = 0` reads an element of an empty vector without a check. -/
theorem C100_no_walker {C : CArith} {M : Mach} {fuel N burnin p q thin : ℕ} {z : Bool} {srt : List Dbl → List ℕ} {time y yerr init : List Dbl} {r : FRng} {B : Dbl}
    {L : List Dbl} (hset : FRun.setup M.A (nParams p q z) y = .ok (B, L)) :
    frunCarma C M fuel srt N burnin time y yerr p q 0 z thin init r = .error .ub := by
  unfold FRun.setup at hset
  obtain ⟨l, e, -⟩ := bind_ok hset
  unfold frunCarma
  rw [show fensemble C fuel srt time y yerr p (runKind q z) (FRun.maxStdev M.A y) 0 0 = .ok [] from rfl, res_bind_ok, e, res_bind_ok]
  rfl

/-! ### library and examples -/

/-- **C100, the temperatures.** Correctly rounded `exp` and `log` are as the theorems ask. -/
theorem C100_nearest : Ladder (nearest EvenBelow) := by
  have hA := C72_nearest
  have e3 := Real.exp_one_gt_d9
  have e4 := Real.exp_one_lt_d9
  constructor
  · have h1 : 0 ≤ Real.log 100 := Real.log_nonneg (by norm_num)
    have h2 : Real.log 100 ≤ 5 := by
      rw [Real.log_le_iff_le_exp (by norm_num), show (5 : ℝ) = ((5 : ℕ) : ℝ) * 1 by norm_num, Real.exp_nat_mul]
      exact le_trans (by norm_num : (100 : ℝ) ≤ 2.7 ^ 5) (pow_le_pow_left₀ (by norm_num) (by linarith) 5)
    obtain ⟨l, e, hr, h3, h4⟩ := rnd_between hA f64_zero (by simpa using f64_int 5 (by norm_num)) h1 h2
    refine ⟨l, ?_, hr.f, h3, h4⟩
    show (if (0 : ℝ) < 100 then roundNearest EvenBelow (Real.log 100) else _) = _
    rw [if_pos (by norm_num)]
    exact e
  · intro x _ h0 h8
    have h1 : 1 ≤ Real.exp x := Real.one_le_exp h0
    have h2 : Real.exp x ≤ 2 ^ (12 : ℤ) := by
      refine (Real.exp_le_exp.mpr h8).trans ?_
      rw [show (8 : ℝ) = ((8 : ℕ) : ℝ) * 1 by norm_num, Real.exp_nat_mul]
      exact le_trans (pow_le_pow_left₀ (Real.exp_pos 1).le (by linarith) 8) (by norm_num : (2.72 : ℝ) ^ 8 ≤ _)
    obtain ⟨t, e, -, h3, -⟩ := rnd_between hA f64_one (f64_zpow 12 (by norm_num) (by norm_num)) h1 h2
    exact ⟨t, e, h3⟩

/-! Two equal quadratic factors. -/

lemma twin_singular {C : CArith} (hC : C.solve = exactC.solve) {p : ℕ} (hp : 4 ≤ p) {roots : List CD} {z : CD} (h0 : roots[0]? = some z)
    (h2 : roots[2]? = some z) : Singular C p roots := by
  unfold Singular
  rw [hC]
  simp only [exactC]
  split
  · next M v hM hv =>
    rw [if_pos]
    refine Matrix.det_zero_of_column_eq (i := ⟨0, by omega⟩) (j := ⟨2, by omega⟩) (by simp) fun k => ?_
    unfold mat? at hM
    split at hM
    · next h =>
      injection hM with hM
      subst hM
      have key : FKFp.eigenMat C (FCarP.vecOf p roots) k ⟨0, by omega⟩ = FKFp.eigenMat C (FCarP.vecOf p roots) k ⟨2, by omega⟩ := by
        unfold FKFp.eigenMat FCarP.vecOf
        simp only [List.getD_eq_getElem?_getD, h0, h2]
      simp only [Matrix.of_apply, key]
    · cases hM
  · rfl

lemma twin_loop {C : CArith} {θ : List Dbl} {a b : Dbl} (h3 : θ[3]? = some a) (h4 : θ[4]? = some b) (h5 : θ[5]? = some a) (h6 : θ[6]? = some b) (k : ℕ)
    {l : List CD} (e : FCarP.rootLoop C θ 3 (k + 2) = .ok l) : ∃ z, l[0]? = some z ∧ l[2]? = some z := by
  induction k generalizing l with
  | zero =>
    simp only [FCarP.rootLoop, res_bind_ok, rd_some h3, rd_some h4, rd_some h5, rd_some h6, Nat.reduceMul, Nat.reduceAdd] at e
    injection e with e
    subst e
    have : ∃ z w, FCarP.quadPair C (C.r.exp a) (C.r.exp b) = [z, w] := by
      unfold FCarP.quadPair
      dsimp only
      split_ifs <;> exact ⟨_, _, rfl⟩
    obtain ⟨z, w, e⟩ := this
    exact ⟨z, by rw [e]; rfl, by rw [e]; rfl⟩
  | succ k ih =>
    unfold FCarP.rootLoop at e
    obtain ⟨l', e', e⟩ := bind_ok e
    obtain ⟨x, -, e⟩ := bind_ok e
    obtain ⟨y, -, e⟩ := bind_ok e
    injection e with e
    subst e
    obtain ⟨z, k0, k2⟩ := ih e'
    exact ⟨z, by rw [List.getElem?_append_left (List.getElem?_eq_some_iff.mp k0).1, k0], by rw [List.getElem?_append_left (List.getElem?_eq_some_iff.mp k2).1, k2]⟩

/-- **C100, a proposal on which the library throws.** CARp or ZCAR of order 4 or more and a library whose `solve` fails on singular matrices: every proposal whose
first two quadratic factors are the same throws. (For two observation times `StartingAR` proposes nothing else.) -/
theorem C100_twin {C : CArith} (hC : C.solve = exactC.solve) {p : ℕ} (hp : 4 ≤ p) {kind : Kind} (hk : kind = .carp ∨ kind = .zcar) (hA : IsBinary64 C.r) (srt : List Dbl → List ℕ)
    {ts : List ℝ} {y yerr : List Dbl} (B : Dbl) (ht : MildTimes ts) (hy : ts.length ≤ y.length) (he : ts.length ≤ yerr.length) :
    ∃ obj, FCarP.new C kind p srt (ts.map .fin) y yerr B = .ok obj ∧
      ∀ (θ : List Dbl) (a b yvar : Dbl), θ.length = dimOf p kind → θ[3]? = some a → θ[4]? = some b → θ[5]? = some a → θ[6]? = some b →
        Throws C obj θ yvar := by
  have ho : OrdersOk p kind := by rcases hk with rfl | rfl <;> show 2 ≤ p <;> omega
  obtain ⟨ds, hd, hpos⟩ := mild_pos (A := C.r) hA ht
  obtain ⟨s, e, hs, hkind, -⟩ := newp_ok (y := y) (yerr := yerr) (M := B) hd hpos (by rw [List.length_map]; exact hy) (by rw [List.length_map]; exact he) ho srt
  refine ⟨s, e, fun θ a b yv hl h3 h4 h5 h6 => ?_⟩
  have hθ : dimOf p s.kind ≤ θ.length := by rw [hkind, hl]
  have hd3 := dim_three (p := p) s.kind
  obtain ⟨ma, em, lma⟩ := extractMA_ok (C := C) hs hθ
  obtain ⟨roots, er, -⟩ := rootsFrom_ok (C := C) (θ := θ) (off := 3) (m := p) (by omega)
  refine (pass_cases (C := C) hs ⟨hs, PLike.refl s, rfl, new_kma e⟩ hθ yv er em).2.1 (fun h => ?_) ?_
  · have := h.1
    rw [hkind] at this
    rcases hk with rfl | rfl <;> cases this
  · unfold FCarP.rootsFrom at er
    obtain ⟨l, el, er⟩ := bind_ok er
    obtain ⟨z, k0, k2⟩ := twin_loop h3 h4 h5 h6 (p / 2 - 2) (l := l) (by rw [show p / 2 - 2 + 2 = p / 2 by omega]; exact el)
    have : ∃ l', roots = l ++ l' := by
      split at er
      · obtain ⟨x, -, er⟩ := bind_ok er
        injection er with er
        exact ⟨_, er.symm⟩
      · injection er with er
        exact ⟨[], by rw [List.append_nil]; exact er.symm⟩
    obtain ⟨l', rfl⟩ := this
    exact twin_singular hC hp (z := z) (by rw [List.getElem?_append_left (List.getElem?_eq_some_iff.mp k0).1, k0])
      (by rw [List.getElem?_append_left (List.getElem?_eq_some_iff.mp k2).1, k2])

/-! Times 0, 1, 2^60, values 0, 1, 2, errors 1. -/

/-- the proposals `θ`, uniform draws 1/2, Student t draws NaN, variances 1 -/
noncomputable def fcRng (θ : List ℝ) : FRng := ⟨fun _ => .fin (1 / 2), fun _ => .nan, fun _ => θ.map .fin, fun _ => .fin 1⟩

lemma fc_doubles {θ : List ℝ} (h : ∀ x ∈ θ, x = 0 ∨ x = 1) : Doubles (θ.map .fin) := by
  intro x hx
  obtain ⟨y, hy, e⟩ := List.mem_map.mp hx
  injection e with e
  subst e
  rcases h y hy with rfl | rfl
  · exact f64_zero
  · exact f64_one

lemma fc_usable {θ : List ℝ} {d : ℕ} (hd : θ.length = d) (h : ∀ x ∈ θ, x = 0 ∨ x = 1) : Usable d (fcRng θ) :=
  ⟨fun _ => not_lt.mpr (by norm_num : (0 : ℝ) ≤ 1 / 2), fun _ => by simp [fcRng, hd], fun _ => fc_doubles h⟩

/-- **C100, a run that throws.** CAR(4) with 10 chains and no starting value given: the first proposal has two equal quadratic factors. -/
theorem C100_throws_witness (srt : List Dbl → List ℕ) (fuel N burnin thin : ℕ) :
    frunCarma libC fsMach (fuel + 1) srt N burnin ([0, 1, 2 ^ 60].map .fin) ([0, 1, 2].map .fin) ([1, 1, 1].map .fin) 4 0 10 false thin []
      (fcRng [1, 1, 0, 0, 0, 0, 0]) = .error .runtime := by
  obtain ⟨B, L, hset, -⟩ := fs_setup (A := fsMach.A) C72_nearest (d := 7)
  obtain ⟨obj, e, h⟩ := C100_throws (C := libC) (M := fsMach) C72_nearest C100_nearest rfl fl_times (y := [0, 1, 2].map .fin) (yerr := [1, 1, 1].map .fin) (by simp) (by simp)
    (p := 4) (q := 0) (z := false) (by show 2 ≤ 4; norm_num) hset srt (fuel + 1) N burnin thin (n := 10) (by norm_num) (by norm_num) (r := fcRng [1, 1, 0, 0, 0, 0, 0])
    (fc_usable rfl (by simp))
  obtain ⟨obj', e', h'⟩ := C100_twin (C := libC) rfl (p := 4) le_rfl (.inl rfl) libC_bin srt (.fin B) fl_times (y := [0, 1, 2].map .fin) (yerr := [1, 1, 1].map .fin) (by simp) (by simp)
  have : obj = obj' := by rw [show runKind 0 false = .carp from rfl, e'] at e; injection e with e; exact e.symm
  subst this
  exact h [] (fun hl => by simp [nParams] at hl) 0 (by omega) (by simp) (h' _ (.fin 0) (.fin 0) _ rfl rfl rfl rfl rfl)

/-! A library whose vector operations return constants, for which the log-density is easy to work out. -/

/-- library of the examples -/
noncomputable def toyC : CArith :=
  { libC with
    cabs := fun _ => .fin 1
    dot := fun _ _ _ => (.fin 0, .fin 0)
    form := fun _ _ _ => (.fin 1, .fin 0)
    solve := fun _ _ _ => some fun _ => (.fin 0, .fin 0) }

lemma toy_new {srt : List Dbl → List ℕ} {B : Dbl} {obj : FCarP 2}
    (e : FCarP.new toyC .carp 2 srt ([0, 1, 2 ^ 60].map .fin) ([0, 1, 2].map .fin) ([1, 1, 1].map .fin) B = .ok obj) :
    obj.maxFreq = .fin 1 ∧ obj.minFreq = .fin (2 ^ (-60 : ℤ)) ∧ obj.maxStdev = B ∧ obj.ignorePrior = false ∧ obj.y = [0, 1, 2].map .fin ∧
      obj.yerr = [1, 1, 1].map .fin ∧ obj.kind = .carp := by
  have hA : IsBinary64 toyC.r := C72_nearest
  have F60 : F64 (2 ^ 60 : ℝ) := by simpa using f64_zpow 60 (by norm_num) (by norm_num)
  have F59 : F64 (2 ^ 59 : ℝ) := by simpa using f64_zpow 59 (by norm_num) (by norm_num)
  obtain ⟨g, eg, -, g1, g2⟩ := rnd_sub hA (a := 2 ^ 60) (b := 1) F59 F60 (by norm_num) (by norm_num)
  have e1 : toyC.r.sub (.fin 1) (.fin 0) = .fin 1 := by rw [fl_sub, sub_zero, hA.id _ f64_one]
  have e2 : toyC.r.sub (.fin (2 ^ 60)) (.fin 0) = .fin (2 ^ 60) := by rw [fl_sub, sub_zero, hA.id _ F60]
  have h1 : ¬ g < 1 := by push Not; exact le_trans (by norm_num) g1
  have en : FCarP.newCarp toyC 2 srt ([0, 1, 2 ^ 60].map .fin) ([0, 1, 2].map .fin) ([1, 1, 1].map .fin) B = .ok obj := by
    unfold FCarP.new at e
    obtain ⟨s, e', k⟩ := bind_ok e
    injection k with k
    rw [← k]; exact e'
  clear e
  unfold FCarP.newCarp at en
  obtain ⟨dt, k1, e⟩ := bind_ok en
  obtain ⟨dmin, k2, e⟩ := bind_ok e
  obtain ⟨tmax, k3, e⟩ := bind_ok e
  obtain ⟨tmin, k4, e⟩ := bind_ok e
  obtain ⟨kf, k5, e⟩ := bind_ok e
  rw [if_neg (by norm_num)] at e
  injection e with e
  subst e
  have q1 : dt = [.fin 1, .fin g] := by
    unfold FKF1.diffs at k1
    rw [if_neg (by simp)] at k1
    injection k1 with k1
    rw [← k1, ← e1, ← eg]; rfl
  subst q1
  have q2 : dmin = .fin 1 := by
    injection k2 with k2
    rw [← k2]
    exact if_neg h1
  have q3 : tmax = .fin (2 ^ 60) := by
    injection k3 with k3
    rw [← k3]
    show Dbl.max (Dbl.max (.fin 0) (.fin 1)) (.fin (2 ^ 60)) = _
    rw [show Dbl.max (.fin 0) (.fin 1) = .fin 1 from if_pos (by norm_num : (0 : ℝ) < 1)]
    exact if_pos (by norm_num : (1 : ℝ) < 2 ^ 60)
  have q4 : tmin = .fin 0 := by
    injection k4 with k4
    rw [← k4]
    show Dbl.min (Dbl.min (.fin 0) (.fin 1)) (.fin (2 ^ 60)) = _
    rw [show Dbl.min (.fin 0) (.fin 1) = .fin 0 from if_neg (by norm_num : ¬ (1 : ℝ) < 0)]
    exact if_neg (by norm_num : ¬ (2 ^ 60 : ℝ) < 0)
  subst q2 q3 q4
  refine ⟨?_, ?_, rfl, rfl, rfl, rfl, rfl⟩
  · show toyC.r.div (.fin 1) (.fin 1) = _
    rw [fl_div _ _ one_ne_zero, div_one, hA.id _ f64_one]
  · show toyC.r.div (.fin 1) (toyC.r.sub (.fin (2 ^ 60)) (.fin 0)) = _
    rw [e2, fl_div _ _ (by positivity), show (1 : ℝ) / 2 ^ 60 = 2 ^ (-60 : ℤ) by norm_num, hA.id _ (f64_zpow _ (by norm_num) (by norm_num))]

lemma toy_roots : ∃ im, FCarP.rootsFrom toyC ([1, 1, 0, 0, 0].map .fin) 3 2 = .ok [(.fin (-1 / 2), .fin im), (.fin (-1 / 2), .fin (-im))] ∧ |im| ≤ 1 := by
  have hA : IsBinary64 toyC.r := C72_nearest
  have e0 : toyC.r.exp (.fin 0) = .fin 1 := by
    show roundNearest EvenBelow (Real.exp 0) = _
    rw [Real.exp_zero]; exact hA.id _ f64_one
  have F3 : F64 3 := by simpa using f64_int 3 (by norm_num)
  have F4 : F64 4 := by simpa using f64_int 4 (by norm_num)
  have d1 : toyC.r.mul (.fin 1) (.fin 1) = .fin 1 := by rw [fl_mul, mul_one, hA.id _ f64_one]
  have d2 : toyC.r.mul (.fin 4) (.fin 1) = .fin 4 := by rw [fl_mul, mul_one, hA.id _ F4]
  have d3 : toyC.r.sub (.fin 1) (.fin 4) = .fin (-3) := by rw [fl_sub, show (1 : ℝ) - 4 = -3 by norm_num, hA.id _ (f64_neg F3)]
  have s1 : √(3 : ℝ) ≤ 2 := by rw [Real.sqrt_le_left (by norm_num)]; norm_num
  obtain ⟨q, eq, -, q1, q2⟩ := rnd_between hA f64_zero f64_two (Real.sqrt_nonneg 3) s1
  have d4 : toyC.r.sqrt (.fin 3) = .fin q := by rw [hA.sqrt_fin _ (by norm_num), eq]
  obtain ⟨im, ei, -, i1, i2⟩ := rnd_mul hA (a := -0.5) (b := q) (f64_neg f64_one) f64_zero (by linarith) (by linarith)
  have d5 : toyC.r.mul (.fin (-0.5)) (.fin 1) = .fin (-1 / 2) := by
    rw [fl_mul, show (-0.5 : ℝ) * 1 = -(1 / 2) by norm_num, hA.id _ (f64_neg f64_half)]; norm_num
  refine ⟨im, ?_, abs_le.mpr ⟨by linarith, by linarith⟩⟩
  have : FCarP.quadPair toyC (.fin 1) (.fin 1) = [(.fin (-1 / 2), .fin im), (.fin (-1 / 2), .fin (-im))] := by
    unfold FCarP.quadPair
    dsimp only
    have hn : ¬ (Dbl.fin (-3)).gt (.fin 0) := fun h => absurd (show (0 : ℝ) < -3 from h) (by norm_num)
    rw [d1, d2, d3, if_neg hn, d5, show (Dbl.fin (-3)).neg = .fin 3 by simp [Dbl.neg], d4, ei]
    rfl
  show (FCarP.rootLoop toyC _ 3 1 >>= fun l => if 2 % 2 = 1 then _ else _) = _
  simp only [FCarP.rootLoop, res_bind_ok]
  show Except.ok (FCarP.quadPair toyC (toyC.r.exp (.fin 0)) (toyC.r.exp (.fin 0))) = _
  rw [e0, this]

lemma toy_check {obj : FCarP 2} {B : ℝ} (hB : 1 ≤ B) (h1 : obj.maxFreq = .fin 1) (h2 : obj.minFreq = .fin (2 ^ (-60 : ℤ))) (h3 : obj.maxStdev = .fin B)
    (h4 : obj.ignorePrior = false) : FCarP.checkPrior toyC obj ([1, 1, 0, 0, 0].map .fin) = .ok true := by
  have hA : IsBinary64 toyC.r := C72_nearest
  obtain ⟨im, er, hi⟩ := toy_roots
  obtain ⟨π', eπ, -, p1, p2⟩ := rnd_between hA (by simpa using f64_int 3 (by norm_num)) (by simpa using f64_int 4 (by norm_num)) Real.pi_gt_three.le Real.pi_le_four
  have hπ : π' ≠ 0 := by linarith
  have hi0 := abs_nonneg im
  obtain ⟨c1, ec1, -, c10, c11⟩ := rnd_div hA (a := |im|) (b := 2) two_ne_zero f64_zero f64_half (by linarith) (by linarith)
  obtain ⟨c, ec, -, c0, c2⟩ := rnd_div hA (a := c1) (b := π') hπ f64_zero f64_half (by positivity) (by rw [div_le_iff₀ (by linarith)]; linarith)
  have F4 : F64 (1 / 4) := by have := f64_zpow (-2) (by norm_num) (by norm_num); norm_num at this ⊢; exact this
  have ew1 : toyC.r.div (.fin (1 / 2)) (.fin 2) = .fin (1 / 4) := by rw [fl_div _ _ two_ne_zero, show (1 / 2 : ℝ) / 2 = 1 / 4 by norm_num, hA.id _ F4]
  obtain ⟨w, ew, -, w0, w2⟩ := rnd_div hA (a := 1 / 4) (b := π') hπ (f64_zpow (-4) (by norm_num) (by norm_num)) f64_half
    (by rw [le_div_iff₀ (by linarith)]; norm_num; linarith) (by rw [div_le_iff₀ (by linarith)]; linarith)
  have w1 : (2 : ℝ) ^ (-60 : ℤ) < w := lt_of_lt_of_le (by norm_num) w0
  obtain ⟨tol, et, -, t1, t2⟩ := rnd_between hA (x := 1e-4) (f64_zpow (-14) (by norm_num) (by norm_num)) (f64_zpow (-13) (by norm_num) (by norm_num)) (by norm_num) (by norm_num)
  obtain ⟨t100, eh, -, k1, -⟩ := rnd_mul hA (a := 100) (b := tol) (f64_zpow (-12) (by norm_num) (by norm_num)) f64_one (by norm_num at t1 ⊢; linarith) (by norm_num at t2 ⊢; linarith)
  obtain ⟨eps, ee, -, n1, -⟩ := rnd_between hA (x := 1e-8) f64_zero f64_one (by norm_num) (by norm_num)
  have hu : ∀ a b, FCarP.uniqueRoots toyC [a, b] (.fin tol) = true := by
    intro a b
    unfold FCarP.uniqueRoots
    rw [decide_eq_true_iff, eh]
    show Dbl.lt _ (if (Dbl.fin 1).lt (.fin t100) then .fin 1 else .fin t100)
    split
    · show tol < 1
      norm_num at t2; linarith
    · show tol < t100
      norm_num at t2 k1; linarith
  have ho : FCarP.unordered toyC [.fin c, .fin c] = false := by
    simp only [FCarP.unordered, Bool.or_false, decide_eq_false_iff_not]
    rw [fl_sub, sub_self, hA.id _ f64_zero, ee]
    exact not_lt.mpr n1
  have b1 : (Dbl.fin im).abs = .fin |im| := rfl
  have b2 : (Dbl.fin (-im)).abs = .fin |im| := by show Dbl.fin |(-im)| = _; rw [abs_neg]
  have b3 : (Dbl.fin (-1 / 2)).neg = .fin (1 / 2) := by simp [Dbl.neg]; norm_num
  have g1 : (Dbl.fin c).lt (.fin 1) := show c < 1 by linarith
  have g2 : (Dbl.fin w).lt (.fin 1) := show w < 1 by linarith
  have g3 : (Dbl.fin w).gt (.fin (2 ^ (-60 : ℤ))) := w1
  have g4 : ¬ (Dbl.fin 1).gt (.fin B) := not_lt.mpr hB
  have g5 : ¬ (Dbl.fin 1).lt (.fin 0) := not_lt.mpr (zero_le_one (α := ℝ))
  have g6 : ¬ (Dbl.fin 1).lt (.fin 0.5) := not_lt.mpr (by norm_num : (0.5 : ℝ) ≤ 1)
  have g7 : ¬ (Dbl.fin 1).gt (.fin 2) := not_lt.mpr (by norm_num : (1 : ℝ) ≤ 2)
  unfold FCarP.checkPrior
  rw [h4, if_neg (by simp), show rd (([1, 1, 0, 0, 0] : List ℝ).map Dbl.fin) 0 = .ok (.fin 1) from rfl, show rd (([1, 1, 0, 0, 0] : List ℝ).map Dbl.fin) 1 = .ok (.fin 1) from rfl, er,
    h1, h2, h3]
  simp only [res_bind_ok, List.map_cons, List.map_nil, b1, b2, b3, eπ, et, ec1, ec, ew1, ew, hu, ho, g1, g2, g3, g4, g5, g6, g7, decide_true,
    List.filter_cons, List.filter_nil, if_true, List.length_cons, ne_eq, not_true, or_self, if_false, Bool.and_false, Bool.false_eq_true]
  rfl

lemma toy_term {A : Arith} (hA : IsBinary64 A) {y : ℝ} (h0 : 0 ≤ y) (h2 : y ≤ 2) (hy : F64 y) : ∃ t, fterm A (.fin y) (.fin 0) (.fin 2) (.fin 0) = .fin t ∧ |t| ≤ 1024 := by
  have F1024 : F64 1024 := by simpa using f64_int 1024 (by norm_num)
  have F512 : F64 512 := by simpa using f64_int 512 (by norm_num)
  obtain ⟨l, el, -, hl⟩ := hA.log_pos 2 f64_two two_pos
  have hl := abs_le.mp hl
  obtain ⟨a, ea, -, a1, a2⟩ := rnd_mul hA (a := -0.5) (b := l) (f64_neg F512) F512 (by linarith) (by linarith)
  obtain ⟨b, eb, -, b1, b2⟩ := rnd_mul hA (a := 0.5) (b := y) f64_zero f64_one (by positivity) (by linarith)
  obtain ⟨c, ec, -, c1, c2⟩ := rnd_mul hA (a := b) (b := y) f64_zero f64_two (by positivity) (by nlinarith)
  obtain ⟨d, ed, -, d1, d2⟩ := rnd_div hA (a := c) (b := 2) two_ne_zero f64_zero f64_one (by positivity) (by linarith)
  obtain ⟨t, et, -, t1, t2⟩ := rnd_sub hA (a := a) (b := d) (f64_neg F1024) F1024 (by linarith) (by linarith)
  refine ⟨t, ?_, abs_le.mpr ⟨t1, t2⟩⟩
  unfold fterm
  rw [el, ea, fl_sub, sub_zero, hA.id _ hy, fl_sub, sub_zero, hA.id _ hy, eb, ec, ed, et]

/-- the log-density of the example is finite -/
lemma toy_fin {srt : List Dbl → List ℕ} {B : ℝ} (hB : 1 ≤ B) {obj : FCarP 2}
    (e : FCarP.new toyC .carp 2 srt ([0, 1, 2 ^ 60].map .fin) ([0, 1, 2].map .fin) ([1, 1, 1].map .fin) (.fin B) = .ok obj) (hs : PShape 3 obj) :
    ∃ o x, FCarP.logDensity toyC obj ([1, 1, 0, 0, 0].map .fin) = .ok (o, .fin x) := by
  have hA : IsBinary64 toyC.r := C72_nearest
  obtain ⟨h1, h2, h3, h4, h5, h6, h7⟩ := toy_new e
  have hθ : dimOf 2 obj.kind ≤ (([1, 1, 0, 0, 0] : List ℝ).map Dbl.fin).length := by rw [h7]; exact le_rfl
  have hc := toy_check hB h1 h2 h3 h4
  obtain ⟨k, ek, -⟩ := setUp_ok (C := toyC) hs hθ
  have F1024 : F64 1024 := by simpa using f64_int 1024 (by norm_num)
  have F15 : F64 (2 ^ (15 : ℤ)) := f64_zpow _ (by norm_num) (by norm_num)
  have F16 : F64 (2 ^ (16 : ℤ)) := f64_zpow _ (by norm_num) (by norm_num)
  have F25 : F64 25 := by simpa using f64_int 25 (by norm_num)
  have F26 : F64 26 := by simpa using f64_int 26 (by norm_num)
  -- errors handed to the filter
  have ey : k.b.yerr = [.fin 1, .fin 1, .fin 1] := by
    have q : toyC.r.mul (toyC.r.sqrt (.fin 1)) (.fin 1) = .fin 1 := by
      rw [hA.sqrt_fin _ zero_le_one, Real.sqrt_one, hA.id _ f64_one, fl_mul, mul_one, hA.id _ f64_one]
    unfold FCarP.setUp at ek
    obtain ⟨_, -, ek⟩ := bind_ok ek
    obtain ⟨_, -, ek⟩ := bind_ok ek
    obtain ⟨_, -, ek⟩ := bind_ok ek
    obtain ⟨sc, esc, ek⟩ := bind_ok ek
    obtain ⟨_, -, ek⟩ := bind_ok ek
    injection esc with esc
    injection ek with ek
    rw [← ek, ← esc]
    show obj.yerr.map _ = _
    rw [h6]
    simp only [List.map_cons, List.map_nil, q]
  have ev : toyC.r.add (.fin 1) (toyC.r.mul (.fin 1) (.fin 1)) = .fin 2 := by
    rw [fl_mul, mul_one, hA.id _ f64_one, fl_add, show (1 : ℝ) + 1 = 2 by norm_num, hA.id _ f64_two]
  -- prior
  obtain ⟨l, el, -, hl⟩ := hA.log_pos 1 f64_one one_pos
  have hl := abs_le.mp hl
  obtain ⟨m, em, -, m1, m2⟩ := rnd_mul hA (a := 26) (b := l) (f64_neg F15) F15 (by norm_num; linarith) (by norm_num; linarith)
  obtain ⟨lp, elp, -, p1, p2⟩ := rnd_sub hA (a := -25) (b := m) (f64_neg F16) F16 (by norm_num at m2 ⊢; linarith) (by norm_num at m1 ⊢; linarith)
  have hlp : FCarP.logPrior toyC obj ([1, 1, 0, 0, 0].map .fin) = .ok (.fin lp) := by
    unfold FCarP.logPrior
    rw [h7]
    show Except.ok (toyC.r.sub (toyC.r.div (toyC.r.mul (.fin (-0.5)) (.fin 50)) (.fin 1)) (toyC.r.mul (toyC.r.add (.fin 1) (toyC.r.div (.fin 50) (.fin 2)))
      (toyC.r.log (.fin 1)))) = _
    rw [fl_mul, show (-0.5 : ℝ) * 50 = -25 by norm_num, hA.id _ (f64_neg F25), fl_div _ _ one_ne_zero, div_one, hA.id _ (f64_neg F25), fl_div _ _ two_ne_zero,
      show (50 : ℝ) / 2 = 25 by norm_num, hA.id _ F25, fl_add, show (1 : ℝ) + 25 = 26 by norm_num, hA.id _ F26, el, em, elp]
  obtain ⟨o, eo⟩ := ld_value (C := toyC) hs hθ hc ek rfl hlp
  -- likelihood
  have hm : ∀ i, (seqOf toyC k (fun _ => (.fin 0, .fin 0)) i).m = .fin 0 := fun i => by cases i <;> rfl
  have hv : ∀ i < 3, (seqOf toyC k (fun _ => (.fin 0, .fin 0)) i).v = .fin 2 := by
    intro i hi
    have : (seqOf toyC k (fun _ => (.fin 0, .fin 0)) i).v = toyC.r.add (.fin 1) (toyC.r.mul (k.b.yerr.getD i .nan) (k.b.yerr.getD i .nan)) := by cases i <;> rfl
    rw [this, ey]
    rcases (by omega : i = 0 ∨ i = 1 ∨ i = 2) with rfl | rfl | rfl <;> exact ev
  have flik_le : ∀ j ≤ 3, ∃ x, flik toyC.r obj.y (fun i => ((seqOf toyC k (fun _ => (.fin 0, .fin 0)) i).m, (seqOf toyC k (fun _ => (.fin 0, .fin 0)) i).v)) (.fin 0) j = .fin x ∧
      |x| ≤ j * 1024 := by
    intro j
    induction j with
    | zero => exact fun _ => ⟨0, rfl, by simp⟩
    | succ j ih =>
      intro hj
      obtain ⟨x, ex, hx⟩ := ih (by omega)
      have : ∃ y : ℝ, obj.y.getD j .nan = .fin y ∧ 0 ≤ y ∧ y ≤ 2 ∧ F64 y := by
        rw [h5]
        rcases (by omega : j = 0 ∨ j = 1 ∨ j = 2) with rfl | rfl | rfl
        · exact ⟨0, rfl, by norm_num, by norm_num, f64_zero⟩
        · exact ⟨1, rfl, by norm_num, by norm_num, f64_one⟩
        · exact ⟨2, rfl, by norm_num, by norm_num, f64_two⟩
      obtain ⟨y, ey, y0, y2, hy⟩ := this
      obtain ⟨t, et, ht⟩ := toy_term hA y0 y2 hy
      have F : F64 (((j + 1 : ℕ) : ℝ) * 1024) := by
        have := f64_int ((j + 1 : ℕ) * 1024) (by rw [abs_of_nonneg (by positivity)]; norm_num; omega)
        push_cast at this ⊢; exact this
      have hx := abs_le.mp hx
      have ht := abs_le.mp ht
      obtain ⟨z, ez, -, z1, z2⟩ := rnd_add hA (a := x) (b := t) (f64_neg F) F (by push_cast; linarith) (by push_cast; linarith)
      refine ⟨z, ?_, abs_le.mpr ⟨z1, z2⟩⟩
      show toyC.r.add _ (fterm toyC.r _ _ _ _) = _
      dsimp only
      rw [ex, hm, hv j (by omega), ey, et, ez]
  obtain ⟨x, ex, hx⟩ := flik_le 3 le_rfl
  have hx := abs_le.mp hx
  obtain ⟨z, ez, -⟩ := rnd_add hA (a := x) (b := lp) (lo := -(2 ^ (17 : ℤ))) (hi := 2 ^ (17 : ℤ)) (f64_neg (f64_zpow _ (by norm_num) (by norm_num))) (f64_zpow _ (by norm_num) (by norm_num))
    (by norm_num at p1 hx ⊢; linarith [hx.1]) (by norm_num at p2 hx ⊢; linarith [hx.2])
  refine ⟨o, z, eo.trans ?_⟩
  rw [show (([1, 1, 0, 0, 0] : List ℝ).map Dbl.fin).getD 2 .nan = .fin 0 from rfl, ex, ez]

/-- the outcomes of a run of CARMA(3,1) with 10 chains and draws that are all 0 or 1, except for the Student t variates, which are NaN -/
example (srt : List Dbl → List ℕ) (fuel : ℕ) : ∃ obj B, FCarP.new libC (.carma 1) 3 srt ([0, 1, 2 ^ 60].map .fin) ([0, 1, 2].map .fin) ([1, 1, 1].map .fin) (.fin B) = .ok obj ∧
    (frunCarma libC fsMach fuel srt 5 7 ([0, 1, 2 ^ 60].map .fin) ([0, 1, 2].map .fin) ([1, 1, 1].map .fin) 3 1 10 false 2 [] (fcRng [1, 1, 0, 0, 0, 1, 1]) = .error .timeout ∨
     frunCarma libC fsMach fuel srt 5 7 ([0, 1, 2 ^ 60].map .fin) ([0, 1, 2].map .fin) ([1, 1, 1].map .fin) 3 1 10 false 2 [] (fcRng [1, 1, 0, 0, 0, 1, 1]) = .error .runtime ∨
     ∃ par, frunCarma libC fsMach fuel srt 5 7 ([0, 1, 2 ^ 60].map .fin) ([0, 1, 2].map .fin) ([1, 1, 1].map .fin) 3 1 10 false 2 [] (fcRng [1, 1, 0, 0, 0, 1, 1]) = .ok par ∧
       Chain libC obj 7 5 par.samples par.logposts) := by
  obtain ⟨B, L, hset, -⟩ := fs_setup (A := fsMach.A) C72_nearest (d := 7)
  obtain ⟨obj, e, h⟩ := C100_run (C := libC) (M := fsMach) C72_nearest C90_nearest C100_nearest rfl fl_times (y := [0, 1, 2].map .fin) (yerr := [1, 1, 1].map .fin) (by simp) (by simp)
    (p := 3) (q := 1) (z := false) (show 2 ≤ 3 ∧ 1 < 3 by norm_num) hset srt fuel 5 7 2 (n := 10) (by norm_num) (by norm_num) (init := []) (fun hl => by simp [nParams] at hl)
    (r := fcRng [1, 1, 0, 0, 0, 1, 1]) (fc_usable rfl (by simp))
  exact ⟨obj, B, e, h⟩

/-- a starting value that can be used: runs of CAR(2) that return without any search -/
lemma toy_run (srt : List Dbl → List ℕ) {n : ℕ} (h0 : 0 < n) (hn : n ≤ 2 ^ 53) : ∃ obj B par,
    FCarP.new toyC .carp 2 srt ([0, 1, 2 ^ 60].map .fin) ([0, 1, 2].map .fin) ([1, 1, 1].map .fin) (.fin B) = .ok obj ∧
    frunCarma toyC fsMach 0 srt 5 7 ([0, 1, 2 ^ 60].map .fin) ([0, 1, 2].map .fin) ([1, 1, 1].map .fin) 2 0 n false 2 ([1, 1, 0, 0, 0].map .fin)
      (fcRng [0, 0, 0, 0, 0]) = .ok par ∧ Chain toyC obj 5 5 par.samples par.logposts := by
  obtain ⟨B, L, hset, hB, -⟩ := fs_setup (A := fsMach.A) C72_nearest (d := 5)
  obtain ⟨obj', e', hs, -⟩ := run_obj (C := toyC) (M := fsMach) C72_nearest rfl fl_times (y := [0, 1, 2].map .fin) (yerr := [1, 1, 1].map .fin) (by simp) (by simp) (p := 2) (q := 0) (z := false)
    (show 2 ≤ 2 from le_rfl) (.fin B) srt
  obtain ⟨obj, e, h⟩ := C100_init (C := toyC) (M := fsMach) C72_nearest C90_nearest C100_nearest rfl fl_times (y := [0, 1, 2].map .fin) (yerr := [1, 1, 1].map .fin) (by simp) (by simp)
    (p := 2) (q := 0) (z := false) (show 2 ≤ 2 from le_rfl) hset srt 0 5 7 2 h0 hn
    (r := fcRng [0, 0, 0, 0, 0]) (fc_usable rfl (by simp))
  have : obj' = obj := by rw [e] at e'; injection e' with e'; exact e'.symm
  subst this
  obtain ⟨o, x, ho⟩ := toy_fin hB e hs
  obtain ⟨par, h1, h2⟩ := h _ rfl (fc_doubles (by simp)) o x ho
  exact ⟨obj', B, par, e, h1, h2⟩

lemma toy_exp : toyC.r.exp (.fin 0) = .fin 1 := by
  show roundNearest EvenBelow (Real.exp 0) = _
  rw [Real.exp_zero]
  exact C72_nearest.id _ f64_one

/-- ten chains -/
example (srt : List Dbl → List ℕ) : ∃ (obj : FCarP 2) (par : _), frunCarma toyC fsMach 0 srt 5 7 ([0, 1, 2 ^ 60].map .fin) ([0, 1, 2].map .fin) ([1, 1, 1].map .fin) 2 0 10 false 2
    ([1, 1, 0, 0, 0].map .fin) (fcRng [0, 0, 0, 0, 0]) = .ok par ∧ Chain toyC obj 5 5 par.samples par.logposts ∧ par.temp = .fin 1 := by
  obtain ⟨obj, _, par, -, h, hc⟩ := toy_run srt (n := 10) (by norm_num) (by norm_num)
  exact ⟨obj, par, h, hc, C100_cold C72_nearest C100_nearest toy_exp (by norm_num) (by norm_num) h⟩

/-- one chain -/
example (srt : List Dbl → List ℕ) : ∃ (obj : FCarP 2) (par : _) (t : _), frunCarma toyC fsMach 0 srt 5 7 ([0, 1, 2 ^ 60].map .fin) ([0, 1, 2].map .fin) ([1, 1, 1].map .fin) 2 0 1 false 2
    ([1, 1, 0, 0, 0].map .fin) (fcRng [0, 0, 0, 0, 0]) = .ok par ∧ Chain toyC obj 5 5 par.samples par.logposts ∧ par.temp = .fin t ∧ |t - 100| ≤ 1e-6 := by
  obtain ⟨obj, _, par, -, h, hc⟩ := toy_run srt (n := 1) (by norm_num) (by norm_num)
  have hx : ∀ t, toyC.r.exp (toyC.r.log (.fin 100)) = .fin t → t ≤ 2 ^ (1000 : ℤ) := by
    obtain ⟨l, el, -, -, h5⟩ := C100_nearest.log
    intro t et
    rw [show toyC.r.log (.fin 100) = .fin l from el] at et
    have h1 : Real.exp l ≤ 2 ^ (12 : ℤ) := by
      have e4 := Real.exp_one_lt_d9
      refine (Real.exp_le_exp.mpr h5).trans ?_
      rw [show (5 : ℝ) = ((5 : ℕ) : ℝ) * 1 by norm_num, Real.exp_nat_mul]
      exact le_trans (pow_le_pow_left₀ (Real.exp_pos 1).le (by linarith) 5) (by norm_num : (2.72 : ℝ) ^ 5 ≤ _)
    have := (rnd_rounds (A := toyC.r) C72_nearest et).le (f64_zpow 12 (by norm_num) (by norm_num)) h1
    exact this.trans (pw_le _ _ (by norm_num))
  obtain ⟨t, e, ht⟩ := C100_one_walker C100_nearest C75_nearest hx h
  exact ⟨obj, par, t, h, hc, e, ht⟩

/-- no chain -/
example (srt : List Dbl → List ℕ) : frunCarma libC fsMach 9 srt 5 7 ([0, 1, 2 ^ 60].map .fin) ([0, 1, 2].map .fin) ([1, 1, 1].map .fin) 2 0 0 false 2
    ([1, 1, 0, 0, 0].map .fin) (fcRng [0, 0, 0, 0, 0]) = .error .ub := by
  obtain ⟨B, L, hset, -⟩ := fs_setup (A := fsMach.A) C72_nearest (d := 5)
  exact C100_no_walker hset

/-- proposals that can be used: a run of CAR(2) with 10 chains that returns after 19 of them -/
example (srt : List Dbl → List ℕ) : ∃ obj B par, FCarP.new toyC .carp 2 srt ([0, 1, 2 ^ 60].map .fin) ([0, 1, 2].map .fin) ([1, 1, 1].map .fin) (.fin B) = .ok obj ∧
    frunCarma toyC fsMach 19 srt 5 7 ([0, 1, 2 ^ 60].map .fin) ([0, 1, 2].map .fin) ([1, 1, 1].map .fin) 2 0 10 false 2 []
      (fcRng [1, 1, 0, 0, 0]) = .ok par ∧ Chain toyC obj 5 5 par.samples par.logposts := by
  obtain ⟨B, L, hset, hB, -⟩ := fs_setup (A := fsMach.A) C72_nearest (d := 5)
  obtain ⟨obj', e', hs, hk⟩ := run_obj (C := toyC) (M := fsMach) C72_nearest rfl fl_times (y := [0, 1, 2].map .fin) (yerr := [1, 1, 1].map .fin) (by simp) (by simp) (p := 2) (q := 0) (z := false)
    (show 2 ≤ 2 from le_rfl) (.fin B) srt
  obtain ⟨obj, e, h⟩ := C100_search (C := toyC) (M := fsMach) C72_nearest C90_nearest C100_nearest rfl fl_times (y := [0, 1, 2].map .fin) (yerr := [1, 1, 1].map .fin) (by simp) (by simp)
    (p := 2) (q := 0) (z := false) (show 2 ≤ 2 from le_rfl) hset srt 19 5 7 2 (n := 10) (by norm_num) (by norm_num) (init := []) (fun hl => by simp [nParams] at hl)
    (r := fcRng [1, 1, 0, 0, 0]) (fc_usable rfl (by simp))
  have : obj' = obj := by rw [e] at e'; injection e' with e'; exact e'.symm
  subst this
  obtain ⟨o, x, ho⟩ := toy_fin hB e hs
  have hθ : dimOf 2 obj'.kind ≤ (([1, 1, 0, 0, 0] : List ℝ).map Dbl.fin).length := by rw [hk]; exact le_rfl
  have hpass : Finds toyC obj' (([1, 1, 0, 0, 0] : List ℝ).map .fin) (.fin 1) := by
    obtain ⟨ma, em, -⟩ := extractMA_ok (C := toyC) hs hθ
    obtain ⟨roots, er, -⟩ := rootsFrom_ok (C := toyC) (θ := ([1, 1, 0, 0, 0] : List ℝ).map .fin) (off := 3) (m := 2) (by simp)
    obtain ⟨o', eo, -⟩ := (pass_cases (C := toyC) hs ⟨hs, PLike.refl _, rfl, new_kma e⟩ hθ (.fin 1) er em).2.2 (fun k => by
      have := k.1; rw [hk] at this; cases this) (fun k => by cases k)
    exact ⟨o', x, by rw [eo, fcpVal, ho]⟩
  obtain ⟨par, h1, h2⟩ := h (by
      have : (List.range 19).filter (fun k => decide (Finds toyC obj' ((fcRng [1, 1, 0, 0, 0]).prior k) ((fcRng [1, 1, 0, 0, 0]).yvar k))) = List.range 19 :=
        List.filter_eq_self.mpr fun k _ => decide_eq_true hpass
      unfold finds
      rw [this]
      simp) (fun k _ ht => by
      obtain ⟨o', x', k2⟩ := hpass
      exact absurd (ht.symm.trans k2) (by simp))
  exact ⟨obj', B, par, e, h1, h2⟩

end Verif.Props
