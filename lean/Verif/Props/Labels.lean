import Verif.Theory.Labels
import Verif.Props.Units

/-!
Property C79: which of the parameter vectors of one model are in the support of the posterior.
Specification: `Verif/Spec/Labels.lean`.
-/

namespace Verif.Props

open Verif.Model Verif.Spec Verif.Theory Polynomial
open scoped Classical

/-- **C79, values.** Two parameter vectors that describe the same model have the same log-posterior, unless one of them has its
centroids out of order; this one then has the value `-inf`. -/
theorem C79_same_model (srt : List ℝ → List ℕ) {n : ℕ} (hn : 2 ≤ n) {t : Fin n → ℝ} (ht : StrictMono t) (y e : Fin n → ℝ) {p : ℕ} (hp : 2 ≤ p)
    (kind : Kind) (hok : OrderOk p kind) {θ θ' : List ℝ} (hl : npar p kind ≤ θ.length) (hl' : npar p kind ≤ θ'.length)
    (hs : SameModel p kind θ θ') {roots roots' : List ℂ} (hr : arRoots p θ = .ok roots) (hr' : arRoots p θ' = .ok roots') :
    ∃ v v', ldp kind p srt t y e θ = .ok v ∧ ldp kind p srt t y e θ' = .ok v' ∧
      (CentOrder 1e-8 roots → CentOrder 1e-8 roots' → v' = v) ∧ (¬CentOrder 1e-8 roots → v = .ninf) ∧
      (¬CentOrder 1e-8 roots' → v' = .ninf) := by
  have hl3 := npar_ge (p := p) kind
  obtain ⟨dmin, span, s, lo, hi, a1, a2, -, -, l1, l2, a3, -, a4⟩ := carma_post srt hn ht y e hp kind hok
  obtain ⟨s1, a5⟩ := a4 θ hl
  obtain ⟨s2, a6⟩ := a4 θ' hl'
  rw [arRoots_spec (by omega)] at hr hr'
  cases hr
  cases hr'
  refine ⟨_, _, by rw [ldp, a3, res_bind_ok, a5]; rfl, by rw [ldp, a3, res_bind_ok, a6]; rfl, fun h1 h2 => ?_, fun h => ?_, fun h => ?_⟩
  · exact postVal_same hs (by omega) (by omega) _ _ _ _ _ _ _ _ h1 h2
  · simp only [postVal]
    rw [if_neg fun hb => h ((carpBounds_iff _ _ _ _ _).mp hb).2]
  · simp only [postVal]
    rw [if_neg fun hb => h ((carpBounds_iff _ _ _ _ _).mp hb).2]

/-- **C79, every model is represented.** For every parameter vector there is one that describes the same model, with the same
coordinates except for the order of the quadratic factors, and whose value is the largest among all vectors of this model: any
other has the same value or `-inf`. So the ordering of the centroids excludes no model. -/
theorem C79_represented (srt : List ℝ → List ℕ) {n : ℕ} (hn : 2 ≤ n) {t : Fin n → ℝ} (ht : StrictMono t) (y e : Fin n → ℝ) {p : ℕ} (hp : 2 ≤ p)
    (kind : Kind) (hok : OrderOk p kind) {θ : List ℝ} (hl : npar p kind ≤ θ.length) :
    ∃ π : Equiv.Perm (Fin (p / 2)), ∃ v, SameModel p kind θ (permFactors 3 p π θ) ∧ ldp kind p srt t y e (permFactors 3 p π θ) = .ok v ∧
      ∀ θ'' : List ℝ, npar p kind ≤ θ''.length → SameModel p kind θ θ'' →
        ldp kind p srt t y e θ'' = .ok v ∨ ldp kind p srt t y e θ'' = .ok .ninf := by
  have hl3 := npar_ge (p := p) kind
  obtain ⟨π, hπ⟩ := exists_ordered (p := p) (θ := θ) (by omega)
  have hlen := permFactors_length 3 p π θ
  have hsame := perm_ar_same (p := p) (kind := kind) (π := π) hl
  have hπ' : CentOrder 1e-8 (List.ofFn fun k : Fin p => arRootSpec p (at0 (permFactors 3 p π θ)) k) := by
    intro i a b ha hb
    have := hπ i a b ha hb
    linarith
  obtain ⟨v, -, h1, -, -⟩ := C79_same_model srt hn ht y e hp kind hok (by rw [hlen]; exact hl) (by rw [hlen]; exact hl)
    (⟨fun _ _ => rfl, rfl, by cases kind <;> first | trivial | rfl⟩ : SameModel p kind (permFactors 3 p π θ) (permFactors 3 p π θ))
    (arRoots_spec (by rw [hlen]; omega)) (arRoots_spec (by rw [hlen]; omega))
  refine ⟨π, v, hsame, h1, fun θ'' hl'' h'' => ?_⟩
  have hs2 : SameModel p kind (permFactors 3 p π θ) θ'' := by
    refine ⟨fun i hi => (h''.scale i hi).trans (hsame.scale i hi).symm, h''.ar.trans hsame.ar.symm, ?_⟩
    have m1 := h''.ma
    have m2 := hsame.ma
    cases kind with
    | carp => trivial
    | zcar => trivial
    | carma q => exact Eq.trans m1 (Eq.symm m2)
    | zcarma => exact Eq.trans m1 (Eq.symm m2)
  obtain ⟨w, w', g1, g2, g3, g4, g5⟩ := C79_same_model srt hn ht y e hp kind hok (by rw [hlen]; exact hl) hl'' hs2
    (arRoots_spec (by rw [hlen]; omega)) (arRoots_spec (by omega))
  cases h1.symm.trans g1
  by_cases ho : CentOrder 1e-8 (List.ofFn fun k : Fin p => arRootSpec p (at0 θ'') k)
  · left; rw [g2, g3 hπ' ho]
  · right; rw [g2, g5 ho]

/-- **C79, the part that holds: separate centroids identify the autoregressive parameters.** If two parameter vectors describe the same
model, neither has the value `-inf`, and the centroids of different factors differ by more than `1e-8` (so that no factor has two
real roots), then their autoregressive coordinates agree. Missing: models with several real roots, whose centroids are all 0
(`C79_real_copies`), and the moving average, whose factors are not ordered at all (`C79_ma_copies`). -/
theorem C79_identified_partial (srt : List ℝ → List ℕ) {n : ℕ} (hn : 2 ≤ n) {t : Fin n → ℝ} (ht : StrictMono t) (y e : Fin n → ℝ) {p : ℕ}
    (hp : 2 ≤ p) (kind : Kind) (hok : OrderOk p kind) {θ θ' : List ℝ} (hl : npar p kind ≤ θ.length) (hl' : npar p kind ≤ θ'.length)
    (hs : SameModel p kind θ θ') {roots : List ℂ} (hr : arRoots p θ = .ok roots) (hap : Apart 1e-8 roots)
    (hv : ldp kind p srt t y e θ ≠ .ok .ninf) (hv' : ldp kind p srt t y e θ' ≠ .ok .ninf) :
    ∀ j < p, at0 θ' (3 + j) = at0 θ (3 + j) := by
  have hl3 := npar_ge (p := p) kind
  have hr' := arRoots_spec (p := p) (θ := θ') (by omega)
  obtain ⟨v, v', h1, h2, -, h4, h5⟩ := C79_same_model srt hn ht y e hp kind hok hl hl' hs hr hr'
  rw [arRoots_spec (by omega)] at hr
  cases hr
  refine ar_unique (by omega) (by omega) hs.ar ?_ ?_ hap
  · by_contra hcon
    exact hv (by rw [h1, h4 hcon])
  · by_contra hcon
    exact hv' (by rw [h2, h5 hcon])

/-- **C79, copies from real roots.** When all autoregressive roots are real the ordering excludes nothing: all vectors that describe the
model have the same value. -/
theorem C79_real_copies (srt : List ℝ → List ℕ) {n : ℕ} (hn : 2 ≤ n) {t : Fin n → ℝ} (ht : StrictMono t) (y e : Fin n → ℝ) {p : ℕ}
    (hp : 2 ≤ p) (kind : Kind) (hok : OrderOk p kind) {θ θ' : List ℝ} (hl : npar p kind ≤ θ.length) (hl' : npar p kind ≤ θ'.length)
    (hs : SameModel p kind θ θ') {roots : List ℂ} (hr : arRoots p θ = .ok roots) (hreal : ∀ r ∈ roots, r.im = 0) :
    ldp kind p srt t y e θ' = ldp kind p srt t y e θ := by
  have hl3 := npar_ge (p := p) kind
  have hr' := arRoots_spec (p := p) (θ := θ') (by omega)
  obtain ⟨v, v', h1, h2, h3, -, -⟩ := C79_same_model srt hn ht y e hp kind hok hl hl' hs hr hr'
  rw [arRoots_spec (by omega)] at hr
  cases hr
  have hp := root_perm (p := p) (θ := θ) (θ' := θ') (by omega) (by omega) hs.ar
  rw [h1, h2, h3 (real_order (by norm_num) hreal) (real_order (by norm_num) fun z hz => hreal z (hp.subset hz))]

/-- **C79, copies from the moving average.** Exchanging the quadratic factors of the moving average never changes the value. -/
theorem C79_ma_copies (srt : List ℝ → List ℕ) {n : ℕ} (hn : 2 ≤ n) {t : Fin n → ℝ} (ht : StrictMono t) (y e : Fin n → ℝ) {p q : ℕ} (hp : 2 ≤ p)
    (hq : q < p) {θ : List ℝ} (hl : p + q + 3 ≤ θ.length) (π : Equiv.Perm (Fin (q / 2))) :
    ldp (.carma q) p srt t y e (permFactors (p + 3) q π θ) = ldp (.carma q) p srt t y e θ := by
  have hlen := permFactors_length (p + 3) q π θ
  have hrt : (fun k : Fin p => arRootSpec p (at0 (permFactors (p + 3) q π θ)) k) = fun k : Fin p => arRootSpec p (at0 θ) k :=
    funext fun k => perm_ma_root hl k
  obtain ⟨v, v', h1, h2, h3, h4, h5⟩ := C79_same_model srt hn ht y e hp (.carma q) hq (θ := θ) (θ' := permFactors (p + 3) q π θ)
    (by simp only [npar]; omega) (by simp only [npar]; omega) (perm_ma_same hl) (arRoots_spec (by omega)) (arRoots_spec (by omega))
  rw [hrt] at h3 h5
  by_cases ho : CentOrder 1e-8 (List.ofFn fun k : Fin p => arRootSpec p (at0 θ) k)
  · rw [h1, h2, h3 ho ho]
  · rw [h1, h2, h4 ho, h5 ho]

/-! ### examples and witness -/

/-- a vector of a CAR(4) model with coefficients `a, b` and `c, d` of the quadratic factors `s² + b s + a`, `s² + d s + c` -/
noncomputable def four (a b c d : ℝ) : List ℝ := [1, 1, 0, Real.log a, Real.log b, Real.log c, Real.log d]

lemma four_poly {a b c d : ℝ} (ha : 0 < a) (hb : 0 < b) (hc : 0 < c) (hd : 0 < d) : factorPoly (at0 (four a b c d)) 3 4 =
    (X ^ 2 + C b * X + C a) * (X ^ 2 + C d * X + C c) := by
  simp [factorPoly, quadFactor, four, at0, Finset.prod_range_succ, Real.exp_log, ha, hb, hc, hd]

lemma four_same {a b c d a' b' c' d' : ℝ} (ha : 0 < a) (hb : 0 < b) (hc : 0 < c) (hd : 0 < d) (ha' : 0 < a') (hb' : 0 < b') (hc' : 0 < c')
    (hd' : 0 < d') (h1 : b' + d' = b + d) (h2 : c' + a' + b' * d' = c + a + b * d) (h3 : b' * c' + a' * d' = b * c + a * d)
    (h4 : a' * c' = a * c) : SameModel 4 .carp (four a b c d) (four a' b' c' d') := by
  refine ⟨fun i hi => ?_, ?_, trivial⟩
  · interval_cases i <;> simp [four, at0]
  · rw [four_poly ha hb hc hd, four_poly ha' hb' hc' hd']
    have e : ∀ a b c d : ℝ, ((X : ℝ[X]) ^ 2 + C b * X + C a) * (X ^ 2 + C d * X + C c) =
        X ^ 4 + C (b + d) * X ^ 3 + C (c + a + b * d) * X ^ 2 + C (b * c + a * d) * X + C (a * c) := by
      intro a b c d
      simp only [map_add, map_mul]
      ring
    rw [e, e, h1, h2, h3, h4]

/-- the roots -1, -2, -3, -4 in three pairings and two orders -/
noncomputable def sixVectors : List (List ℝ) :=
  [four 2 3 12 7, four 12 7 2 3, four 3 4 8 6, four 8 6 3 4, four 4 5 6 5, four 6 5 4 5]

lemma six_roots : arRoots 4 (four 2 3 12 7) = .ok [⟨-2, 0⟩, ⟨-1, 0⟩, ⟨-4, 0⟩, ⟨-3, 0⟩] := by
  simp only [four, arRoots, rootsFrom, rootLoop, res_bind_ok, rd, res_pure, Nat.reduceDiv, Nat.reduceMul, Nat.reduceAdd]
  have a1 : √((3 : ℝ) * 3 - 4 * 2) = 1 := by rw [show (3 : ℝ) * 3 - 4 * 2 = 1 by norm_num, Real.sqrt_one]
  have a2 : √((7 : ℝ) * 7 - 4 * 12) = 1 := by rw [show (7 : ℝ) * 7 - 4 * 12 = 1 by norm_num, Real.sqrt_one]
  simp [quadPair, a1, a2, Real.exp_log]
  norm_num [a1, a2]

/-- **C79 fails: copies.** Six different vectors of a CAR(4) model, among them vectors with other factors, have the same finite
log-posterior: a process with four real roots appears six times in the posterior. -/
theorem C79_copies : ∃ (t y e : Fin 3 → ℝ) (v : ℝ), StrictMono t ∧ sixVectors.Nodup ∧ sixVectors.length = 6 ∧
    ∀ srt, ∀ θ ∈ sixVectors, ldp .carp 4 srt t y e θ = .ok (.fin v) := by
  have hpi := Real.pi_pos
  have p3 := Real.pi_gt_three
  have p4 := Real.pi_lt_d2
  have hr := six_roots
  have hroots : List.ofFn (fun j : Fin 4 => arRootSpec 4 (at0 (four 2 3 12 7)) j) = [⟨-2, 0⟩, ⟨-1, 0⟩, ⟨-4, 0⟩, ⟨-3, 0⟩] := by
    rw [arRoots_spec (by simp [four])] at hr
    injection hr
  have hreal : ∀ r ∈ ([⟨-2, 0⟩, ⟨-1, 0⟩, ⟨-4, 0⟩, ⟨-3, 0⟩] : List ℂ), r.im = 0 := by simp
  have hb : CarpBounds (10 * √(sampleVar exY)) (1 / 1) (1 / 10) [⟨-2, 0⟩, ⟨-1, 0⟩, ⟨-4, 0⟩, ⟨-3, 0⟩] (four 2 3 12 7) := by
    rw [exY_var, carpBounds_iff]
    refine ⟨⟨⟨?_, ?_, ?_, ?_⟩, ?_, ?_, ?_⟩, real_order (by norm_num) hreal⟩
    · simp [four, at0]
    · simp [four, at0]
    · simp [four, at0]; norm_num
    · simp [four, at0]
    · intro r hr
      rw [hreal r hr]
      simp
    · intro r hr
      simp only [List.mem_cons, List.not_mem_nil, or_false] at hr
      rcases hr with rfl | rfl | rfl | rfl <;> rw [lt_div_iff₀ (by positivity), div_lt_iff₀ (by positivity)] <;> constructor <;> simp <;> linarith
    · have key : ∀ a b : ℝ, a + b < 0 → -10 ≤ a + b → 1 ≤ |a - b| →
          (⟨a, 0⟩ : ℂ) + ⟨b, 0⟩ = 0 ∨ 1e-4 < ‖(⟨a, 0⟩ : ℂ) - ⟨b, 0⟩‖ / ‖(⟨a, 0⟩ : ℂ) + ⟨b, 0⟩‖ := by
        intro a b h0 h1 h2
        right
        have e1 : (⟨a, 0⟩ : ℂ) - ⟨b, 0⟩ = ((a - b : ℝ) : ℂ) := by apply Complex.ext <;> simp
        have e2 : (⟨a, 0⟩ : ℂ) + ⟨b, 0⟩ = ((a + b : ℝ) : ℂ) := by apply Complex.ext <;> simp
        rw [e1, e2, Complex.norm_real, Complex.norm_real, Real.norm_eq_abs, Real.norm_eq_abs, abs_of_neg h0, lt_div_iff₀ (by linarith)]
        linarith
      simp only [List.pairwise_cons, List.mem_cons, List.not_mem_nil, or_false, List.Pairwise.nil, and_true, false_imp_iff, implies_true,
        forall_eq_or_imp, forall_eq]
      refine ⟨⟨?_, ?_, ?_⟩, ⟨?_, ?_⟩, ?_⟩ <;> refine key _ _ ?_ ?_ ?_ <;> norm_num
  obtain ⟨v, hv⟩ : ∃ v, postVal .carp 4 exT exY (fun _ => 1) (10 * √(sampleVar exY)) (1 / 1) (1 / 10) 0 0 (four 2 3 12 7) = .fin v := by
    rw [postVal, if_pos (by rw [hroots]; exact hb), if_neg (by rintro ⟨-, i, hi⟩; norm_num at hi)]
    exact ⟨_, rfl⟩
  refine ⟨exT, exY, fun _ => 1, v, exT_mono, ?_, rfl, fun srt => ?_⟩
  · refine List.Nodup.of_map (List.map Real.exp) ?_
    simp [sixVectors, four, Real.exp_log]
  · have h0 : ldp .carp 4 srt exT exY (fun _ => 1) (four 2 3 12 7) = .ok (.fin v) := by
      obtain ⟨dmin, span, s, lo, hi, a1, a2, -, -, l1, l2, a3, -, a4⟩ := carma_post srt (by norm_num) exT_mono exY (fun _ => 1) (p := 4)
        (by norm_num) .carp trivial
      obtain ⟨s1, a5⟩ := a4 (four 2 3 12 7) (by simp [four, npar])
      rw [exT_gap a1, exT_span a2] at a5
      rw [ldp, a3, res_bind_ok, a5, ← hv]
      rfl
    have key : ∀ {a b c d : ℝ}, 0 < a → 0 < b → 0 < c → 0 < d → b + d = 10 → c + a + b * d = 35 → b * c + a * d = 50 → a * c = 24 →
        ldp .carp 4 srt exT exY (fun _ => 1) (four a b c d) = .ok (.fin v) := by
      intro a b c d ha hb hc hd h1 h2 h3 h4
      rw [C79_real_copies srt (by norm_num) exT_mono exY (fun _ => 1) (by norm_num) .carp trivial (by simp [four, npar]) (by simp [four, npar])
        (four_same (a := 2) (b := 3) (c := 12) (d := 7) (by norm_num) (by norm_num) (by norm_num) (by norm_num) ha hb hc hd
          (by rw [h1]; norm_num) (by rw [h2]; norm_num) (by rw [h3]; norm_num) (by rw [h4]; norm_num)) hr hreal, h0]
    intro θ hθ
    simp only [sixVectors, List.mem_cons, List.not_mem_nil, or_false] at hθ
    rcases hθ with rfl | rfl | rfl | rfl | rfl | rfl <;> apply key <;> norm_num

/-- the two factors of a moving average of order 4 exchanged: a different vector with the same value -/
example (srt : List ℝ → List ℕ) : permFactors 8 4 (Equiv.swap 0 1) [1, 1, 0, 1, 2, 3, 4, 5, 6, 7, 8, 9] = [1, 1, 0, 1, 2, 3, 4, 5, 8, 9, 6, 7] ∧
    ldp (.carma 4) 5 srt exT exY exY (permFactors 8 4 (Equiv.swap 0 1) [1, 1, 0, 1, 2, 3, 4, 5, 6, 7, 8, 9]) =
      ldp (.carma 4) 5 srt exT exY exY [1, 1, 0, 1, 2, 3, 4, 5, 6, 7, 8, 9] :=
  ⟨by simp [permFactors, at0], C79_ma_copies srt (by norm_num) exT_mono exY exY (by norm_num) (by norm_num) (by simp) _⟩

/-- two vectors of one model with complex roots, factors exchanged: hypotheses of `C79_same_model` -/
example : SameModel 4 .carp (four 2 2 5 2) (four 5 2 2 2) := by
  apply four_same <;> norm_num

/-- a vector that is not excluded -/
example (srt : List ℝ → List ℕ) : ldp .carp 4 srt exT exY (fun _ => 1) (four 5 2 2 2) ≠ .ok .ninf := by
  obtain ⟨dmin, span, s, lo, hi, a1, a2, -, -, l1, l2, a3, -, a4⟩ := carma_post srt (by norm_num) exT_mono exY (fun _ => 1) (p := 4)
    (by norm_num) .carp trivial
  obtain ⟨s1, a5⟩ := a4 (four 5 2 2 2) (by simp [four, npar])
  have hr : arRoots 4 (four 5 2 2 2) = .ok [⟨-1, -2⟩, ⟨-1, 2⟩, ⟨-1, -1⟩, ⟨-1, 1⟩] := by
    simp only [four, arRoots, rootsFrom, rootLoop, res_bind_ok, rd, res_pure, Nat.reduceDiv, Nat.reduceMul, Nat.reduceAdd]
    have a1 : √(-((2 : ℝ) * 2 - 4 * 2)) = 2 := by rw [show -((2 : ℝ) * 2 - 4 * 2) = 2 ^ 2 by norm_num, Real.sqrt_sq (by norm_num)]
    have a2 : √(-((2 : ℝ) * 2 - 4 * 5)) = 4 := by rw [show -((2 : ℝ) * 2 - 4 * 5) = 4 ^ 2 by norm_num, Real.sqrt_sq (by norm_num)]
    simp [Real.exp_log]
    simp only [quadPair, a1, a2]
    norm_num
  have hroots : List.ofFn (fun j : Fin 4 => arRootSpec 4 (at0 (four 5 2 2 2)) j) = [⟨-1, -2⟩, ⟨-1, 2⟩, ⟨-1, -1⟩, ⟨-1, 1⟩] := by
    rw [arRoots_spec (by simp [four])] at hr
    injection hr
  rw [ldp, a3, res_bind_ok, a5, exT_gap a1, exT_span a2, postVal, if_pos, if_neg]
  · intro h
    cases h
  · rintro ⟨-, i, hi⟩; norm_num at hi
  · rw [hroots, exY_var, Real.sqrt_one, mul_one, carpBounds_iff]
    have hpi := Real.pi_pos
    refine ⟨loose_perm (θ := four 5 2 2 2) ?_ (fun _ _ => rfl) (unit_loose (by simp [four, at0]) (by simp [four, at0])), ?_⟩
    · exact List.perm_append_comm (l₁ := ([⟨-1, -2⟩, ⟨-1, 2⟩] : List ℂ)) (l₂ := ([⟨-1, -1⟩, ⟨-1, 1⟩] : List ℂ))
    · intro i a b ha hb
      have key : ∀ x y : ℝ, y ≤ x → y / (2 * Real.pi) ≤ x / (2 * Real.pi) + 1e-8 := by
        intro x y h
        have := div_le_div_of_nonneg_right h (show 0 ≤ 2 * Real.pi by positivity)
        linarith
      apply key
      rcases i with _ | _ | _ | i
      all_goals simp at ha hb
      all_goals subst ha hb
      all_goals norm_num

/-- separate centroids: hypothesis of `C79_identified_partial` -/
example : Apart 1e-8 [⟨-1, -2⟩, ⟨-1, 2⟩, ⟨-1, -1⟩, ⟨-1, 1⟩] := by
  have hpi := Real.pi_pos
  have p4 := Real.pi_lt_four
  have key : ∀ a b : ℝ, |a| = 2 → |b| = 1 → 1e-8 < |(|a| / (2 * Real.pi) - |b| / (2 * Real.pi))| := by
    intro a b ha hb
    rw [ha, hb, ← sub_div, abs_of_pos (by positivity), lt_div_iff₀ (by positivity)]
    linarith
  simp only [Apart, List.pairwise_cons, List.mem_cons, List.not_mem_nil, or_false, List.Pairwise.nil, and_true, false_imp_iff, implies_true,
    forall_eq_or_imp, forall_eq]
  refine ⟨⟨Or.inl ⟨by apply Complex.ext <;> simp, by simp⟩, Or.inr ?_, Or.inr ?_⟩, ⟨Or.inr ?_, Or.inr ?_⟩,
    Or.inl ⟨by apply Complex.ext <;> simp, by simp⟩⟩ <;> apply key <;> norm_num

end Verif.Props
