import Verif.Theory.FCarmaLift
import Verif.Theory.FCarmaEdge
import Verif.Props.Density
import Verif.Props.FPredict

/-! C99: the log-density of the CARp, CARMA, ZCAR and ZCARMA classes in double-precision arithmetic. -/

namespace Verif.Props

open Verif.Model Verif.Spec Verif.Theory Polynomial
open scoped Classical

/-! A library for the examples: real operations round to nearest, complex ones are exact. -/

/-- library of the examples -/
noncomputable def libC : CArith := { exactC with r := nearest EvenBelow }

lemma libC_bin : IsBinary64 libC.r := C72_nearest

lemma libC_edges : Edges libC.r := nearest_edges EvenBelow

lemma libC_over : Overflows libC.r := nearest_overflows EvenBelow

lemma vec_nan {p : ℕ} {v : Fin p → CD} (h : ∃ k : Fin p, (v k).1 = .nan) : vec? v = none := by
  obtain ⟨k, hk⟩ := h
  unfold vec?
  refine dif_neg fun h => ?_
  have := h k
  rw [show v k = (.nan, (v k).2) from Prod.ext hk rfl] at this
  simp [val?] at this

lemma libC_nan : NanLib libC where
  rpow n _ := rfl
  vecMul p v M h j := by
    show (((mat? M).bind fun M => (vec? v).map fun v => fun k => pair (Matrix.vecMul v M k)).getD (fun _ => cnan) j).1 = _
    rw [vec_nan h]
    cases mat? M <;> rfl
  form p v M h := by
    show (((mat? M).bind fun M => (vec? v).map fun v => pair (dotProduct v (Matrix.mulVec M (star v)))).getD cnan).1 = _
    rw [vec_nan h]
    cases mat? M <;> rfl

/-! ### never plus infinity -/

/-- **C99, no plus infinity.** For every number of observations below `2^53`, times, values, errors (also infinite or NaN ones), every
history of calls and every vector of doubles, the value `LogDensity` returns is not `+inf`: it is a number, `-inf` or NaN. Nothing is
asked of the complex operations. For ZCARMA either `exp` overflows as usual or `theta(p+3)` is at least `-2^900`. -/
theorem C99_never_pinf {C : CArith} (hA : IsBinary64 C.r) (hE : Edges C.r) {kind : Kind} {p : ℕ} {srt : List Dbl → List ℕ} {time y yerr : List Dbl}
    {M : Dbl} (hn : time.length < 2 ^ 53) {s s1 s2 : FCarP p} (h : FCarP.new C kind p srt time y yerr M = .ok s) (hc : CalledP C s s1)
    {θ : List Dbl} (hθ : ∀ x ∈ θ, IsDouble x)
    (hx : kind = .zcarma → Overflows C.r ∨ ∀ x, θ[p + 3]? = some (.fin x) → -2 ^ (900 : ℤ) ≤ x) {v : Dbl}
    (e : FCarP.logDensity C s1 θ = .ok (s2, v)) : v ≠ .pinf := by
  have hi := fc_called hA (fc_new h) hc
  by_cases hb : kind = .zcarma → ∀ x, θ[p + 3]? = some (.fin x) → -2 ^ (900 : ℤ) ≤ x
  · exact fc_low hA hE hn hi hθ hb e
  · push Not at hb
    obtain ⟨hk, x, hx1, hx2⟩ := hb
    have hO := (hx hk).resolve_right fun h => absurd (h x hx1) (not_le.mpr hx2)
    have h720 : 720 ≤ -x := by
      have h1 : (2 : ℝ) ^ (10 : ℤ) ≤ 2 ^ (900 : ℤ) := pw_le _ _ (by norm_num)
      have h2 : (720 : ℝ) ≤ 2 ^ (10 : ℤ) := by norm_num
      exact (h2.trans h1).trans (by rw [le_neg]; exact hx2.le)
    rcases ld_edge_low hE hO (hi.kind.trans hk) hx1 h720 e with rfl | rfl <;> exact fun h => by cases h

/-! ### a value, and the same one after every history -/

/-- **C99, total and without memory.** Times at least `2^-300` apart, values and errors (any doubles) for all of them, orders `2 ≤ p` and `q < p`: the
constructor returns, and after any two histories that end with the same setting of `SetMLE` the two calls with any vector of the right
length both return, and return the same value. -/
theorem C99_same {C : CArith} (hA : IsBinary64 C.r) {kind : Kind} {p : ℕ} (srt : List Dbl → List ℕ) {ts : List ℝ} {y yerr : List Dbl} (M : Dbl)
    (ht : MildTimes ts) (hy : ts.length ≤ y.length) (he : ts.length ≤ yerr.length) (ho : OrdersOk p kind) :
    ∃ s, FCarP.new C kind p srt (ts.map .fin) y yerr M = .ok s ∧
      ∀ s1 s2, CalledP C s s1 → CalledP C s s2 → s1.ignorePrior = s2.ignorePrior → ∀ θ : List Dbl, dimOf p kind ≤ θ.length →
        ∃ s1' s2' v, FCarP.logDensity C s1 θ = .ok (s1', v) ∧ FCarP.logDensity C s2 θ = .ok (s2', v) := by
  obtain ⟨ds, hd, hpos⟩ := mild_pos hA ht
  obtain ⟨s, e, hs, hk, -⟩ := newp_ok (y := y) (yerr := yerr) (M := M) hd hpos (by rw [List.length_map]; exact hy) (by rw [List.length_map]; exact he) ho srt
  refine ⟨s, e, fun s1 s2 c1 c2 hi θ hθ => ?_⟩
  obtain ⟨a1, b1⟩ := called_kept hs c1
  obtain ⟨a2, b2⟩ := called_kept hs c2
  have hk1 : s1.kind = kind := b1.kind.trans hk
  obtain ⟨s1', v, e1, -, -, -, g⟩ := ld_ok (C := C) a1 (hk1 ▸ hθ)
  obtain ⟨s2', e2⟩ := g s2 a2 ⟨b2.time.trans b1.time.symm, b2.y.trans b1.y.symm, b2.yerr.trans b1.yerr.symm, b2.stdev.trans b1.stdev.symm,
    b2.hi.trans b1.hi.symm, b2.lo.trans b1.lo.symm, b2.kdt.trans b1.kdt.symm, b2.kind.trans b1.kind.symm, b2.ma.trans b1.ma.symm,
    b2.order.trans b1.order.symm, b2.klo.trans b1.klo.symm, b2.khi.trans b1.khi.symm⟩ hi.symm
  exact ⟨s1', s2', v, e1, e2⟩

/-- two observations, one with an infinite value; CARMA(3,2) after two calls with NaN parameters, and a new object -/
example (srt : List Dbl → List ℕ) : ∃ s s1 s2 : FCarP 3, FCarP.new libC (.carma 2) 3 srt ([0, 1].map .fin) [.fin 1, .pinf] [.fin 0, .fin 1] (.fin 1) = .ok s ∧
    CalledP libC s s1 ∧ ∃ v, FCarP.logDensity libC s1 (List.replicate 8 (.fin 1)) = .ok (s2, v) ∧ v ≠ .pinf := by
  obtain ⟨s, e, h⟩ := C99_same libC_bin (kind := .carma 2) (p := 3) srt (y := [.fin 1, .pinf]) (yerr := [.fin 0, .fin 1]) (.fin 1) fp_times
    (by simp) (by simp) ⟨by norm_num, by norm_num⟩
  obtain ⟨s1, _, v1, e1, -⟩ := h s s .none .none rfl (List.replicate 8 .nan) (by simp [dimOf])
  obtain ⟨s2, _, v2, e2, -⟩ := h s1 s1 (.call .none e1) (.call .none e1) rfl (List.replicate 8 (.fin 1)) (by simp [dimOf])
  refine ⟨s, s1, s2, e, .call .none e1, v2, e2, ?_⟩
  exact C99_never_pinf libC_bin libC_edges (by simp) e (.call .none e1)
    (fun x hx => by rw [(List.mem_replicate.mp hx).2]; exact f64_one) (fun hk => by cases hk) e2

/-! ### exact arithmetic gives the model in real numbers -/

/-- **C99, exact arithmetic.** Whenever the constructor of the model in real numbers returns, so does this one with exact arithmetic and the prior
bound `10 √var(y)`, and whenever `LogDensity` there returns a number or an infinity, this `LogDensity` returns the same. -/
theorem C99_exact {kind : Kind} {p : ℕ} {srt : List ℝ → List ℕ} {fsrt : List Dbl → List ℕ} (hs : ∀ l : List ℝ, fsrt (l.map .fin) = srt l)
    {ts ys es : List ℝ} {s : CarP p} (h : CarP.new kind p srt ts ys es = .ok s) :
    ∃ f, FCarP.new exactC kind p fsrt (ts.map .fin) (ys.map .fin) (es.map .fin) (.fin (10 * √(armaVar ys))) = .ok f ∧
      ∀ (x : Bool) (θ : List ℝ) (s' : CarP p) (v : Dbl), v ≠ .nan → logDensity { s with b := s.b.setMLE x } θ = .ok (s', v) →
        ∃ f', FCarP.logDensity exactC (f.setMLE x) (θ.map .fin) = .ok (f', v) := by
  obtain ⟨f, e, r⟩ := new_plift hs h
  refine ⟨f, e, fun x θ s' v hv hl => logDensity_lift ?_ hv hl⟩
  exact { r with mle := rfl }

/-- **C99, what is rounded.** With exact arithmetic the value is the logarithm of the Gaussian density of the data, and the prior terms, of C82. -/
theorem C99_exact_likelihood (srt : List Dbl → List ℕ) {n : ℕ} (hn : 2 ≤ n) {t : Fin n → ℝ} (ht : StrictMono t) (y e : Fin n → ℝ) {p : ℕ}
    (hp : 2 ≤ p) (kind : Kind) (hk : OrderOk p kind) (θ : List ℝ) (hθ : npar p kind ≤ θ.length) (h0 : at0 θ 0 ≠ 0) {dmin span : ℝ}
    (hd : IsMinGap t dmin) (hsp : IsSpan t span) {roots : List ℂ} (hr : arRoots p θ = .ok roots)
    (hb : CarpBounds (10 * √(sampleVar y)) (1 / dmin) (1 / span) roots θ) :
    ∃ (ω : Fin p → ℂ) (ma : List ℝ) (lo hi : ℝ) (f : (Fin n → ℝ) → ℝ) (s s' : FCarP p), List.ofFn ω = roots ∧
      ∏ k, (X - C (ω k)) = (factorPoly (at0 θ) 3 p).map Complex.ofRealHom ∧ (∀ z, maEval ma z = maPolySpec kind p lo hi θ z) ∧
      IsDensity (dataLaw (fun d => at0 θ 0 ^ 2 * (carmaAcf 1 ω ma d / carmaAcf 1 ω ma 0)) (at0 θ 2) t fun i => √(at0 θ 1) * e i) f ∧
      FCarP.new exactC kind p srt ((List.ofFn t).map .fin) ((List.ofFn y).map .fin) ((List.ofFn e).map .fin) (.fin (10 * √(sampleVar y))) = .ok s ∧
      FCarP.logDensity exactC s (θ.map .fin) = .ok (s', .fin (Real.log (f y) + n / 2 * Real.log (2 * Real.pi) +
        (Real.log (scaledInvChiDensity 50 1 (at0 θ 1)) + if kind = .zcarma then Real.log (logisticDensity (at0 θ (p + 3))) else 0))) := by
  obtain ⟨ω, ma, lo, hi, f, g1, g2, g3, g4, g5⟩ :=
    C82_carma_likelihood (fun l => srt (l.map .fin)) hn ht y e hp kind hk θ hθ h0 hd hsp hr hb
  obtain ⟨s, k1, g5⟩ := bind_ok g5
  obtain ⟨r, k2, g5⟩ := bind_ok g5
  injection g5 with g5
  obtain ⟨F, e1, hF⟩ := new_plift (fsrt := srt) (fun _ => rfl) k1
  obtain ⟨F', e2⟩ := logDensity_lift hF (by rw [g5]; exact fun h => by cases h) (show logDensity s θ = .ok (r.1, r.2) from k2)
  rw [armaVar_ofFn] at e1
  exact ⟨ω, ma, lo, hi, f, F, F', g1, g2, g3, g4, e1, by rw [e2, g5]⟩

/-! ### the parameter of ZCARMA -/

/-- **C99, negation for ZCARMA.** With `theta(p+3)` of magnitude at least 720 `LogDensity` returns `-inf` or NaN, whatever the data and the other
parameters and after every history: `inv_logit` is `inf/inf`, or `LogPrior` adds `x - inf`. -/
theorem C99_zcarma_edge {C : CArith} (hA : IsBinary64 C.r) (hE : Edges C.r) (hO : Overflows C.r) (hN : NanLib C) {p : ℕ} (hp : 2 ≤ p)
    (srt : List Dbl → List ℕ) {ts : List ℝ} {y yerr : List Dbl} (M : Dbl) (ht : MildTimes ts) (hy : ts.length ≤ y.length)
    (he : ts.length ≤ yerr.length) :
    ∃ s, FCarP.new C .zcarma p srt (ts.map .fin) y yerr M = .ok s ∧
      ∀ s1, CalledP C s s1 → ∀ (θ : List Dbl) (x : ℝ), θ[p + 3]? = some (.fin x) → 720 ≤ |x| →
        ∃ s2 v, FCarP.logDensity C s1 θ = .ok (s2, v) ∧ (v = .ninf ∨ v = .nan) := by
  obtain ⟨ds, hd, hpos⟩ := mild_pos hA ht
  obtain ⟨s, e, hs, hk, -⟩ := newp_ok (kind := .zcarma) (y := y) (yerr := yerr) (M := M) hd hpos (by rw [List.length_map]; exact hy) (by rw [List.length_map]; exact he) hp srt
  refine ⟨s, e, fun s1 c1 θ x hx h => ?_⟩
  obtain ⟨a1, b1⟩ := called_kept hs c1
  have hk1 : s1.kind = .zcarma := b1.kind.trans hk
  have hθ : dimOf p s1.kind ≤ θ.length := by
    rw [hk1]
    exact (List.getElem?_eq_some_iff.mp hx).1
  obtain ⟨s2, v, e1, -⟩ := ld_ok (C := C) a1 hθ
  exact ⟨s2, v, e1, ld_edge hE hO hN a1 hk1 hθ hx h e1⟩

/-! The parameters `[1, 1, 0, 1, 1, x]`: two roots with real part `-e/2`. -/

lemma e_between : 2.7 < Real.exp 1 ∧ Real.exp 1 < 2.72 :=
  ⟨by have := Real.exp_one_gt_d9; linarith, by have := Real.exp_one_lt_d9; linarith⟩

/-- the roots of `[1, 1, 0, 1, 1, x]` -/
noncomputable def eRoots : List ℂ := quadPair (Real.exp 1) (Real.exp 1)

lemma eRoots_eq (x : ℝ) : arRoots 2 [1, 1, 0, 1, 1, x] = .ok eRoots := by
  simp only [arRoots, rootsFrom, rootLoop, res_bind_ok]
  rfl

lemma e_bounds (x : ℝ) : CarpBounds 10 1 (1 / 10) eRoots [1, 1, 0, 1, 1, x] := by
  have p3 := Real.pi_gt_three
  have p4 := Real.pi_lt_d2
  have hp : 0 < 2 * Real.pi := by linarith
  obtain ⟨e1, e2⟩ := e_between
  unfold eRoots quadPair
  generalize Real.exp 1 = e at *
  have hd : ¬ 0 < e * e - 4 * e := by nlinarith
  have hs1 : 1 ≤ √(-(e * e - 4 * e)) := by
    rw [Real.le_sqrt' one_pos]
    nlinarith
  have hs2 : √(-(e * e - 4 * e)) ≤ 2 := by
    rw [Real.sqrt_le_left (by norm_num)]
    nlinarith [sq_nonneg (e - 2)]
  dsimp only
  rw [if_neg hd]
  generalize √(-(e * e - 4 * e)) = q at *
  have hq : |-(0.5 : ℝ) * q| = q / 2 := by rw [abs_mul, abs_of_pos (by linarith : 0 < q)]; norm_num; ring
  constructor
  · constructor <;> simp [at0] <;> norm_num
  · intro r hr
    simp only [List.mem_cons, List.not_mem_nil, or_false] at hr
    rw [div_lt_iff₀ hp]
    rcases hr with rfl | rfl
    · show |-(0.5 : ℝ) * q| < _
      rw [hq]; linarith
    · show |-(-(0.5 : ℝ) * q)| < _
      rw [abs_neg, hq]; linarith
  · intro r hr
    simp only [List.mem_cons, List.not_mem_nil, or_false] at hr
    rw [lt_div_iff₀ hp, div_lt_iff₀ hp]
    have : r.re = -0.5 * e := by rcases hr with rfl | rfl <;> rfl
    rw [this]
    constructor <;> linarith
  · refine List.Pairwise.cons (fun b hb => ?_) (List.pairwise_singleton _ _)
    simp only [List.mem_cons, List.not_mem_nil, or_false] at hb
    subst hb
    right
    have a1 : (⟨-0.5 * e, -0.5 * q⟩ - ⟨-0.5 * e, -(-0.5 * q)⟩ : ℂ) = ⟨0, -q⟩ := by
      apply Complex.ext
      · show -0.5 * e - -0.5 * e = 0; ring
      · show -0.5 * q - -(-0.5 * q) = -q; ring
    have a2 : (⟨-0.5 * e, -0.5 * q⟩ + ⟨-0.5 * e, -(-0.5 * q)⟩ : ℂ) = ((-e : ℝ) : ℂ) := by
      apply Complex.ext
      · show -0.5 * e + -0.5 * e = -e; ring
      · show -0.5 * q + -(-0.5 * q) = 0; ring
    rw [a1, a2, Complex.norm_real, Real.norm_eq_abs, abs_neg, abs_of_pos (by linarith : 0 < e)]
    have a3 : q ≤ ‖(⟨0, -q⟩ : ℂ)‖ := by
      have := Complex.abs_im_le_norm (⟨0, -q⟩ : ℂ)
      rwa [show (⟨0, -q⟩ : ℂ).im = -q from rfl, abs_neg, abs_of_pos (by linarith : 0 < q)] at this
    rw [lt_div_iff₀ (by linarith)]
    refine lt_of_lt_of_le ?_ a3
    linarith
  · intro i a b ha hb
    rcases i with _ | i
    · injection ha with ha
      injection hb with hb
      subst ha hb
      show |-(-(0.5 : ℝ) * q)| / _ ≤ |-(0.5 : ℝ) * q| / _ + _
      rw [abs_neg]
      linarith
    · simp at hb

lemma ex_mild : MildTimes (List.ofFn exT) := by
  have h1 : (2 : ℝ) ^ (-300 : ℤ) ≤ 1 := by rw [show (1 : ℝ) = 2 ^ (0 : ℤ) by norm_num]; exact pw_le _ _ (by norm_num)
  have h2 : (16 : ℝ) ≤ 2 ^ (300 : ℤ) := by rw [show (16 : ℝ) = 2 ^ (4 : ℤ) by norm_num]; exact pw_le _ _ (by norm_num)
  have e : List.ofFn exT = [0, 1, 10] := by simp [exT]
  rw [e]
  refine ⟨by simp, by norm_num, ?_, ?_⟩
  · intro i hi
    have hi : i = 0 ∨ i = 1 := by simp at hi; omega
    generalize (2 : ℝ) ^ (-300 : ℤ) = q' at *
    rcases hi with rfl | rfl <;> simp <;> linarith
  · intro s hs t ht
    simp only [List.mem_cons, List.not_mem_nil, or_false] at hs ht
    generalize (2 : ℝ) ^ (300 : ℤ) = q' at *
    rcases hs with rfl | rfl | rfl <;> rcases ht with rfl | rfl | rfl <;> norm_num <;> linarith

/-- **C99, witness.** Measurements 0, 1, 2 with errors 1 at times 0, 1, 10 and the doubles `[1, 1, 0, 1, 1, x]` for ZCARMA of order 2: for every `x` the exact
value is a finite number, and for every `x` with `|x| ≥ 720` the one in double precision is `-inf` or NaN. -/
theorem C99_zcarma_witness (srt : List Dbl → List ℕ) (M : Dbl) : ∃ f s : FCarP 2,
    FCarP.new exactC .zcarma 2 srt ((List.ofFn exT).map .fin) ((List.ofFn exY).map .fin) ((List.ofFn fun _ : Fin 3 => (1 : ℝ)).map .fin) (.fin 10) = .ok f ∧
    FCarP.new libC .zcarma 2 srt ((List.ofFn exT).map .fin) ((List.ofFn exY).map .fin) ((List.ofFn fun _ : Fin 3 => (1 : ℝ)).map .fin) M = .ok s ∧
    (∀ x : ℝ, ∃ f' v, FCarP.logDensity exactC f ([1, 1, 0, 1, 1, x].map .fin) = .ok (f', .fin v)) ∧
    ∀ x : ℝ, 720 ≤ |x| → ∃ s' v, FCarP.logDensity libC s ([1, 1, 0, 1, 1, x].map .fin) = .ok (s', v) ∧ (v = .ninf ∨ v = .nan) := by
  obtain ⟨dmin, span, s0, lo, hi, g1, g2, -⟩ :=
    C06_carma_logpost (fun l => srt (l.map .fin)) (by norm_num) exT_mono exY (fun _ => 1) (p := 2) le_rfl .zcarma trivial [1, 1, 0, 1, 1, 0]
      (by simp [npar])
  have key : ∀ x : ℝ, ∃ f f' v, FCarP.new exactC .zcarma 2 srt ((List.ofFn exT).map .fin) ((List.ofFn exY).map .fin)
      ((List.ofFn fun _ : Fin 3 => (1 : ℝ)).map .fin) (.fin 10) = .ok f ∧ FCarP.logDensity exactC f ([1, 1, 0, 1, 1, x].map .fin) = .ok (f', .fin v) := by
    intro x
    obtain ⟨_, _, _, _, _, f, f', -, -, -, -, e1, e2⟩ := C99_exact_likelihood srt (by norm_num) exT_mono exY (fun _ => 1) (p := 2) le_rfl .zcarma trivial
      [1, 1, 0, 1, 1, x] (by simp [npar]) (by simp [at0]) g1 g2 (eRoots_eq x)
      (by rw [exT_gap g1, exT_span g2, exY_var, Real.sqrt_one, mul_one, div_one]; exact e_bounds x)
    rw [exY_var, Real.sqrt_one, mul_one] at e1
    exact ⟨f, f', _, e1, e2⟩
  obtain ⟨f, -, -, ef, -⟩ := key 0
  obtain ⟨s, es, hs⟩ := C99_zcarma_edge libC_bin libC_edges libC_over libC_nan (p := 2) le_rfl srt (y := (List.ofFn exY).map .fin)
    (yerr := (List.ofFn fun _ : Fin 3 => (1 : ℝ)).map .fin) M ex_mild (by simp) (by simp)
  refine ⟨f, s, ef, es, fun x => ?_, fun x hx => hs s .none _ x rfl hx⟩
  obtain ⟨f1, f', v, e1, e2⟩ := key x
  have : f1 = f := by rw [e1] at ef; injection ef
  exact ⟨f', v, this ▸ e2⟩

end Verif.Props
