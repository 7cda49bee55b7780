import Verif.Theory.UnitsPost
import Verif.Props.LogPost

/-!
Property C78: the log-posterior does not depend on units, on the origin of time and values, nor on the direction of time.
Specification of the change of units: `Verif/Spec/Units.lean`.
-/

namespace Verif.Props

open Verif.Model Verif.Spec Verif.Theory
open scoped Classical

/-- value of `LogDensity(theta)` of a new CAR(1) object -/
noncomputable def ld1 (srt : List ℝ → List ℕ) {n : ℕ} (t y e : Fin n → ℝ) (θ : List ℝ) : Res Dbl := do
  let s ← Car1.new srt (List.ofFn t) (List.ofFn y) (List.ofFn e)
  let r ← logDensity s θ
  return r.2

/-- value of `LogDensity(theta)` of a new object of class CARp, ZCAR, CARMA or ZCARMA -/
noncomputable def ldp (kind : Kind) (p : ℕ) (srt : List ℝ → List ℕ) {n : ℕ} (t y e : Fin n → ℝ) (θ : List ℝ) : Res Dbl := do
  let s ← CarP.new kind p srt (List.ofFn t) (List.ofFn y) (List.ofFn e)
  let r ← logDensity s θ
  return r.2

/-- **C78, CAR(1).** Let the data be given in other units and on another clock, possibly running backwards: times `c t + a`, values
`k y + m`, errors `k e`, with `c, k ≠ 0`. At the parameters in the new units the log-posterior of the new data is that of the old data
minus `n log |k|`, at every `theta` (also where it is `-inf` or NaN). -/
theorem C78_car1_units (srt srt' : List ℝ → List ℕ) {n : ℕ} (hn : 2 ≤ n) {c a k m : ℝ} (hc : c ≠ 0) (hk : k ≠ 0)
    {t y e t' y' e' : Fin n → ℝ} {σ : Equiv.Perm (Fin n)} (ht : StrictMono t) (ht' : StrictMono t')
    (h : Rescaled c a k m t y e t' y' e' σ) (θ : List ℝ) (hθ : 4 ≤ θ.length) :
    ∃ v, ld1 srt t y e θ = .ok v ∧ ld1 srt' t' y' e' (inUnits 1 .carp c k m θ) = .ok (v.add (.fin (-(n * Real.log |k|)))) := by
  obtain ⟨dmin, span, s, a1, a2, -, -, a3, a4⟩ := car1_post srt hn ht y e
  obtain ⟨dmin', span', s', b1, b2, -, -, b3, b4⟩ := car1_post srt' hn ht' y' e'
  obtain ⟨s1, a5⟩ := a4 θ hθ
  obtain ⟨s1', b5⟩ := b4 (inUnits 1 .carp c k m θ) (by rw [inUnits_length]; exact hθ)
  refine ⟨_, by rw [ld1, a3, res_bind_ok, a5]; rfl, ?_⟩
  rw [ld1, b3, res_bind_ok, b5, b1.unique (minGap_units hc ht ht' h a1), b2.unique (span_units hc h a2), sd_units (by omega) h,
    ← postVal1_units hc hk ht h hθ]
  rfl

/-- **C78, CARp, ZCAR, CARMA and ZCARMA, the part that holds for a change of the time unit.** The same, provided the ordering test on the
centroids of the roots gives the same answer with the tolerance `1e-8` taken in the old and in the new unit of frequency.
Missing: the tolerance is an absolute number, so that the test itself depends on the unit (`C78_unit_dependence`). -/
theorem C78_carma_units_partial (srt srt' : List ℝ → List ℕ) {n : ℕ} (hn : 2 ≤ n) {p : ℕ} (hp : 2 ≤ p) (kind : Kind) (hok : OrderOk p kind)
    {c a k m : ℝ} (hc : c ≠ 0) (hk : k ≠ 0) {t y e t' y' e' : Fin n → ℝ} {σ : Equiv.Perm (Fin n)} (ht : StrictMono t) (ht' : StrictMono t')
    (h : Rescaled c a k m t y e t' y' e' σ) (θ : List ℝ) (hθ : npar p kind ≤ θ.length) {roots : List ℂ} (hr : arRoots p θ = .ok roots)
    (hord : CentOrder 1e-8 roots ↔ CentOrder (|c| * 1e-8) roots) :
    ∃ v, ldp kind p srt t y e θ = .ok v ∧
      ldp kind p srt' t' y' e' (inUnits p kind c k m θ) = .ok (v.add (.fin (-(n * Real.log |k|)))) := by
  have hl3 := npar_ge (p := p) kind
  obtain ⟨dmin, span, s, lo, hi, a1, a2, d0, -, l1, l2, a3, kap, a4⟩ := carma_post srt hn ht y e hp kind hok
  obtain ⟨dmin', span', s', lo', hi', b1, b2, d0', -, l1', l2', b3, kap', b4⟩ := carma_post srt' hn ht' y' e' hp kind hok
  obtain ⟨s1, a5⟩ := a4 θ hθ
  obtain ⟨s1', b5⟩ := b4 (inUnits p kind c k m θ) (by rw [inUnits_length]; exact hθ)
  rw [arRoots_spec (by omega)] at hr
  cases hr
  have hd := b1.unique (minGap_units hc ht ht' h a1)
  refine ⟨_, by rw [ldp, a3, res_bind_ok, a5]; rfl, ?_⟩
  rw [ldp, b3, res_bind_ok, b5, hd, b2.unique (span_units hc h a2), sd_units (by omega) h,
    postVal_units (lo := lo) (hi := hi) hp hok hc hk ht h hθ l1 l2 ?_ hord]
  · rfl
  · rintro rfl
    obtain ⟨k1, k2, k3⟩ := kap rfl
    obtain ⟨k1', k2', k3'⟩ := kap' rfl
    exact ⟨kappa_units hn ht ht' h hc a3 b3 k1 k1', by rw [k3, k3', hd, div_div, mul_comm]⟩

/-- **C78, CARp, ZCAR, CARMA and ZCARMA: origin and direction of time, origin, sign and unit of the values.** For times `t + a` or `a - t`,
values `k y + m` and errors `k e` the log-posterior of the new data is that of the old data minus `n log |k|`, at every `theta`. -/
theorem C78_carma_origin (srt srt' : List ℝ → List ℕ) {n : ℕ} (hn : 2 ≤ n) {p : ℕ} (hp : 2 ≤ p) (kind : Kind) (hok : OrderOk p kind)
    {c a k m : ℝ} (hc : |c| = 1) (hk : k ≠ 0) {t y e t' y' e' : Fin n → ℝ} {σ : Equiv.Perm (Fin n)} (ht : StrictMono t) (ht' : StrictMono t')
    (h : Rescaled c a k m t y e t' y' e' σ) (θ : List ℝ) (hθ : npar p kind ≤ θ.length) :
    ∃ v, ldp kind p srt t y e θ = .ok v ∧
      ldp kind p srt' t' y' e' (inUnits p kind c k m θ) = .ok (v.add (.fin (-(n * Real.log |k|)))) := by
  have hl3 := npar_ge (p := p) kind
  exact C78_carma_units_partial srt srt' hn hp kind hok (by rintro rfl; simp at hc) hk ht ht' h θ hθ (arRoots_spec (by omega))
    (by rw [hc, one_mul])

/-! Examples: the data 0, 1, 10 of C05 with the clock running backwards, values in other units. -/

/-- the example series reversed, in milli-units and with another zero point -/
def revT : Fin 3 → ℝ := ![-10, -1, 0]
/-- its values -/
def revY : Fin 3 → ℝ := ![2005, 1005, 5]
/-- its errors -/
def revE : Fin 3 → ℝ := ![2000, 1000, 0]

lemma revT_mono : StrictMono revT := by
  refine Fin.strictMono_iff_lt_succ.mpr fun i => ?_
  fin_cases i <;> simp [revT]

lemma ex_rescaled : Rescaled (-1) 0 1000 5 exT exY exY revT revY revE Fin.revPerm := by
  constructor <;> intro i <;> fin_cases i <;> simp [revT, revY, revE, exT, exY, Fin.rev] <;> norm_num

example (srt : List ℝ → List ℕ) : ∃ v, ld1 srt exT exY exY [1, 1, 0, -1] = .ok v ∧
    ld1 srt revT revY revE (inUnits 1 .carp (-1) 1000 5 [1, 1, 0, -1]) = .ok (v.add (.fin (-((3 : ℕ) * Real.log |1000|)))) :=
  C78_car1_units srt srt (by norm_num) (by norm_num) (by norm_num) exT_mono revT_mono ex_rescaled _ (by simp)

example (srt : List ℝ → List ℕ) : ∃ v, ldp (.carma 1) 2 srt exT exY exY [1, 1, 0, Real.log 2, Real.log 3, 0.3] = .ok v ∧
    ldp (.carma 1) 2 srt revT revY revE (inUnits 2 (.carma 1) (-1) 1000 5 [1, 1, 0, Real.log 2, Real.log 3, 0.3]) =
      .ok (v.add (.fin (-((3 : ℕ) * Real.log |1000|)))) :=
  C78_carma_origin srt srt (by norm_num) (by norm_num) _ (by simp [OrderOk]) (by norm_num) (by norm_num) exT_mono revT_mono ex_rescaled _
    (by simp [npar])

/-- a change of the time unit under which the ordering test gives the same answer: centroids 0, 0 -/
example : arRoots 2 [1, 1, 0, Real.log 2, Real.log 3] = .ok [-2, -1] ∧
    (CentOrder 1e-8 [-2, -1] ↔ CentOrder (|86400| * 1e-8) [-2, -1]) := by
  refine ⟨ex_roots (by simp) (by simp [at0]) (by simp [at0]), iff_of_true ?_ ?_⟩ <;>
  · intro i a b ha hb
    rcases i with _ | i
    · simp at ha hb; subst ha hb; simp; try norm_num
    · simp at hb

/-! ### the time unit matters -/

/-- roots `-1 ∓ i, -1 ∓ 2i` from the factors `s² + 2s + 2` and `s² + 2s + 5` -/
lemma unit_roots {θ : List ℝ} (h : 7 ≤ θ.length) (h3 : at0 θ 3 = Real.log 2) (h4 : at0 θ 4 = Real.log 2) (h5 : at0 θ 5 = Real.log 5)
    (h6 : at0 θ 6 = Real.log 2) : arRoots 4 θ = .ok [⟨-1, -1⟩, ⟨-1, 1⟩, ⟨-1, -2⟩, ⟨-1, 2⟩] := by
  have e3 : rd θ 3 = .ok (Real.log 2) := by rw [rd_at0 (by omega), h3]
  have e4 : rd θ 4 = .ok (Real.log 2) := by rw [rd_at0 (by omega), h4]
  have e5 : rd θ 5 = .ok (Real.log 5) := by rw [rd_at0 (by omega), h5]
  have e6 : rd θ 6 = .ok (Real.log 2) := by rw [rd_at0 (by omega), h6]
  simp only [arRoots, rootsFrom, rootLoop, res_bind_ok, e3, e4, e5, e6, res_pure, Nat.reduceDiv, Nat.reduceMul, Nat.reduceAdd]
  rw [Real.exp_log (by norm_num), Real.exp_log (by norm_num)]
  have a1 : √(-((2 : ℝ) * 2 - 4 * 2)) = 2 := by rw [show -((2 : ℝ) * 2 - 4 * 2) = 2 ^ 2 by norm_num, Real.sqrt_sq (by norm_num)]
  have a2 : √(-((2 : ℝ) * 2 - 4 * 5)) = 4 := by rw [show -((2 : ℝ) * 2 - 4 * 5) = 4 ^ 2 by norm_num, Real.sqrt_sq (by norm_num)]
  simp only [quadPair, a1, a2]
  norm_num

lemma unit_loose {θ : List ℝ} (h0 : at0 θ 0 = 1) (h1 : at0 θ 1 = 1) :
    LooseBounds 10 (1 / 1) (1 / 10) [⟨-1, -1⟩, ⟨-1, 1⟩, ⟨-1, -2⟩, ⟨-1, 2⟩] θ := by
  have hpi := Real.pi_pos
  have p3 := Real.pi_gt_three
  have p4 := Real.pi_lt_four
  refine ⟨⟨?_, ?_, ?_, ?_⟩, ?_, ?_, ?_⟩
  · rw [h0]; norm_num
  · rw [h0]; norm_num
  · rw [h1]; norm_num
  · rw [h1]; norm_num
  · intro r hr
    simp only [List.mem_cons, List.not_mem_nil, or_false] at hr
    rcases hr with rfl | rfl | rfl | rfl <;> rw [div_lt_iff₀ (by positivity)] <;> simp <;> linarith
  · intro r hr
    simp only [List.mem_cons, List.not_mem_nil, or_false] at hr
    rcases hr with rfl | rfl | rfl | rfl <;> rw [lt_div_iff₀ (by positivity), div_lt_iff₀ (by positivity)] <;> constructor <;> simp <;> linarith
  · have key : ∀ a b : ℂ, a + b ≠ 0 → 1 ≤ Complex.normSq (a - b) → Complex.normSq (a + b) ≤ 100 → 1e-4 < ‖a - b‖ / ‖a + b‖ := by
      intro a b h0 h1 h2
      have q1 : 1 ≤ ‖a - b‖ := by
        rw [Complex.normSq_eq_norm_sq] at h1
        nlinarith [norm_nonneg (a - b)]
      have q2 : ‖a + b‖ ≤ 10 := by
        rw [Complex.normSq_eq_norm_sq] at h2
        nlinarith [norm_nonneg (a + b)]
      have q3 : 0 < ‖a + b‖ := norm_pos_iff.mpr h0
      rw [lt_div_iff₀ q3]; linarith
    have h0 : ∀ x y : ℝ, (⟨-1, x⟩ : ℂ) + ⟨-1, y⟩ ≠ 0 := by
      intro x y h
      have := congrArg Complex.re h
      norm_num at this
    simp only [List.pairwise_cons, List.mem_cons, List.not_mem_nil, or_false, List.Pairwise.nil, and_true, false_imp_iff, implies_true,
      forall_eq_or_imp, forall_eq]
    refine ⟨⟨?_, ?_, ?_⟩, ⟨?_, ?_⟩, ?_⟩ <;> right <;> refine key _ _ (h0 _ _) ?_ ?_ <;> simp [Complex.normSq_apply] <;> norm_num

/-- **C78 fails for the unit of time.** Data, parameters of a CAR(4) model and a change of the unit of time (like from gigaseconds to
seconds) for which the log-posterior is `-inf` in the old unit and finite in the new one: the centroids are tested for decreasing
order with the absolute tolerance `1e-8`, which admits any order when the unit of time is short. -/
theorem C78_unit_dependence : ∃ (t y e t' : Fin 3 → ℝ) (c : ℝ) (θ : List ℝ), StrictMono t ∧ StrictMono t' ∧ 0 < c ∧ θ.length = 7 ∧
    Rescaled c 0 1 0 t y e t' y e 1 ∧ ∀ srt, ldp .carp 4 srt t y e θ = .ok .ninf ∧
      ∃ v, ldp .carp 4 srt t' y e (inUnits 4 .carp c 1 0 θ) = .ok (.fin v) := by
  have hpi := Real.pi_pos
  have p3 := Real.pi_gt_three
  have p4 := Real.pi_lt_four
  have ht' : StrictMono fun i => (1e9 : ℝ) * exT i := fun i j h => mul_lt_mul_of_pos_left (exT_mono h) (by norm_num)
  have hR : Rescaled (1e9) 0 1 0 exT exY (fun _ => 1) (fun i => (1e9 : ℝ) * exT i) exY (fun _ => 1) 1 := by
    constructor <;> intro i <;> simp
  refine ⟨exT, exY, fun _ => 1, fun i => 1e9 * exT i, 1e9, [1, 1, 0, Real.log 2, Real.log 2, Real.log 5, Real.log 2], exT_mono, ht',
    by norm_num, rfl, hR, fun srt => ?_⟩
  set θ : List ℝ := [1, 1, 0, Real.log 2, Real.log 2, Real.log 5, Real.log 2] with hθ
  have hroots : List.ofFn (fun j : Fin 4 => arRootSpec 4 (at0 θ) j) = [⟨-1, -1⟩, ⟨-1, 1⟩, ⟨-1, -2⟩, ⟨-1, 2⟩] := by
    have h1 := unit_roots (θ := θ) (by simp [hθ]) (by simp [hθ, at0]) (by simp [hθ, at0]) (by simp [hθ, at0]) (by simp [hθ, at0])
    rw [arRoots_spec (by simp [hθ])] at h1
    injection h1
  have loose := unit_loose (θ := θ) (by simp [hθ, at0]) (by simp [hθ, at0])
  constructor
  · obtain ⟨dmin, span, s, lo, hi, a1, a2, -, -, l1, l2, a3, -, a4⟩ := carma_post srt (by norm_num) exT_mono exY (fun _ => 1) (p := 4)
      (by norm_num) .carp trivial
    obtain ⟨s1, a5⟩ := a4 θ (by simp [hθ, npar])
    rw [ldp, a3, res_bind_ok, a5, exT_gap a1, exT_span a2, exY_var, postVal, if_neg]
    · rfl
    · rw [hroots]
      intro hb
      have := hb.order 1 _ _ rfl rfl
      simp only at this
      rw [div_add' _ _ _ (by positivity), div_le_div_iff_of_pos_right (by positivity)] at this
      norm_num at this
      linarith
  · obtain ⟨dmin, span, s, lo, hi, a1, a2, -, -, l1, l2, a3, -, a4⟩ := carma_post srt (by norm_num) ht' exY (fun _ => 1) (p := 4)
      (by norm_num) .carp trivial
    obtain ⟨s1, a5⟩ := a4 (inUnits 4 .carp 1e9 1 0 θ) (by rw [inUnits_length]; simp [hθ, npar])
    obtain ⟨dm, sp, -, -, -, g1, g2, -⟩ := carma_post srt (by norm_num) exT_mono exY (fun _ => 1) (p := 4) (by norm_num) .carp trivial
    have hd := a1.unique (minGap_units (by norm_num) exT_mono ht' hR g1)
    have hs := a2.unique (span_units (by norm_num) hR g2)
    rw [exT_gap g1] at hd
    rw [exT_span g2] at hs
    have hω : (fun j : Fin 4 => arRootSpec 4 (at0 (inUnits 4 .carp 1e9 1 0 θ)) j) =
        fun j : Fin 4 => arRootSpec 4 (at0 θ) j / ((|(1e9 : ℝ)| : ℝ) : ℂ) :=
      funext fun j => arRootSpec_units (abs_pos.mpr (by norm_num)) (inUnits_ar (by simp [hθ])) j
    have hmap : List.ofFn (fun j : Fin 4 => arRootSpec 4 (at0 θ) j / ((|(1e9 : ℝ)| : ℝ) : ℂ)) =
        (List.ofFn fun j : Fin 4 => arRootSpec 4 (at0 θ) j).map (· / ((|(1e9 : ℝ)| : ℝ) : ℂ)) := by
      rw [List.map_ofFn]; rfl
    suffices hex : ∃ v, postVal .carp 4 (fun i => 1e9 * exT i) exY (fun _ => 1) (10 * √(sampleVar exY)) (1 / dmin) (1 / span) lo hi
        (inUnits 4 .carp 1e9 1 0 θ) = .fin v by
      obtain ⟨v, hv⟩ := hex
      exact ⟨v, by rw [ldp, a3, res_bind_ok, a5, hv]; rfl⟩
    rw [hd, hs, postVal, if_pos, if_neg]
    · exact ⟨_, rfl⟩
    · rintro ⟨-, i, hi⟩; norm_num at hi
    · rw [hω, hmap, hroots, exY_var, carpBounds_iff, centOrder_map (abs_pos.mpr (by norm_num))]
      refine ⟨?_, ?_⟩
      · have := (looseBounds_units (p := 4) (kind := .carp) (c := 1e9) (k := 1) (m := 0) (by norm_num) one_ne_zero (by simp [hθ]) (10 : ℝ) 1 10).mpr loose
        simpa using this
      · intro i a b ha hb
        have him : ∀ r ∈ ([⟨-1, -1⟩, ⟨-1, 1⟩, ⟨-1, -2⟩, ⟨-1, 2⟩] : List ℂ), |r.im| / (2 * Real.pi) ≤ 1 := fun r hr => by
          have := loose.cent r hr; linarith
        have h1 := him b (List.mem_of_getElem? hb)
        have h2 : 0 ≤ |a.im| / (2 * Real.pi) := by positivity
        have h3 : (10 : ℝ) ≤ |1e9| * 1e-8 := by rw [abs_of_pos (by norm_num)]; norm_num
        linarith

end Verif.Props
