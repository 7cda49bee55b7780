import Mathlib.Dynamics.Ergodic.Ergodic
import Mathlib.Dynamics.BirkhoffSum.Average
import Mathlib.MeasureTheory.Integral.DominatedConvergence

/-!
The pointwise ergodic theorem for ergodic maps of a probability space, by the maximal inequality.
-/

namespace Verif.Theory

open MeasureTheory Filter Topology

variable {Ω : Type} [MeasurableSpace Ω] {μ : Measure Ω} {T : Ω → Ω} {f : Ω → ℝ}

/-- The largest of the first sums along the orbit, the empty one included. -/
def maxSum (T : Ω → Ω) (f : Ω → ℝ) : ℕ → Ω → ℝ
  | 0, _ => 0
  | n + 1, x => max 0 (f x + maxSum T f n (T x))

omit [MeasurableSpace Ω] in
theorem maxSum_nonneg (n : ℕ) (x : Ω) : 0 ≤ maxSum T f n x := by
  cases n with
  | zero => exact le_rfl
  | succ n => exact le_max_left _ _

omit [MeasurableSpace Ω] in
theorem maxSum_mono (n : ℕ) (x : Ω) : maxSum T f n x ≤ maxSum T f (n + 1) x := by
  induction n generalizing x with
  | zero => exact maxSum_nonneg _ _
  | succ n ih => exact max_le_max le_rfl (by linarith [ih (T x)])

omit [MeasurableSpace Ω] in
theorem maxSum_mono' (x : Ω) : Monotone fun n => maxSum T f n x := monotone_nat_of_le_succ fun n => maxSum_mono n x

omit [MeasurableSpace Ω] in
theorem birkhoffSum_le_maxSum (n : ℕ) (x : Ω) : birkhoffSum T f n x ≤ maxSum T f n x := by
  induction n generalizing x with
  | zero => exact le_of_eq (birkhoffSum_zero _ _ _)
  | succ n ih =>
      rw [birkhoffSum_succ']
      exact le_max_of_le_right (by linarith [ih (T x)])

theorem maxSum_measurable (hT : Measurable T) (hf : Measurable f) (n : ℕ) : Measurable (maxSum T f n) := by
  induction n with
  | zero => exact measurable_const
  | succ n ih => exact measurable_const.max (hf.add (ih.comp hT))

theorem maxSum_integrable (hT : MeasurePreserving T μ μ) (hi : Integrable f μ) (n : ℕ) :
    Integrable (maxSum T f n) μ := by
  induction n with
  | zero => exact integrable_zero _ _ _
  | succ n ih =>
      have h : Integrable (fun x => f x + maxSum T f n (T x)) μ := hi.add (hT.integrable_comp_of_integrable ih)
      exact (integrable_zero Ω ℝ μ).sup h

/-- The maximal inequality. -/
theorem maximal (hT : MeasurePreserving T μ μ) (hf : Measurable f) (hi : Integrable f μ) (n : ℕ) :
    0 ≤ ∫ x in {x | 0 < maxSum T f n x}, f x ∂μ := by
  have hm := maxSum_measurable hT.measurable hf n
  have hM := maxSum_integrable hT hi n
  have hMT : Integrable (fun x => maxSum T f n (T x)) μ := hT.integrable_comp_of_integrable hM
  have hs : MeasurableSet {x | 0 < maxSum T f n x} := measurableSet_lt measurable_const hm
  have h0 : ∫ x, (maxSum T f n x - maxSum T f n (T x)) ∂μ = 0 := by
    rw [integral_sub hM hMT]
    have : ∫ x, maxSum T f n (T x) ∂μ = ∫ x, maxSum T f n x ∂μ := by
      have := integral_map (μ := μ) hT.measurable.aemeasurable (f := maxSum T f n) (by rw [hT.map_eq]; exact hM.aestronglyMeasurable)
      rw [hT.map_eq] at this
      exact this.symm
    rw [this, sub_self]
  rw [← integral_indicator hs]
  refine h0.symm.le.trans ?_
  refine integral_mono (hM.sub hMT) (hi.indicator hs) fun x => ?_
  by_cases hx : 0 < maxSum T f n x
  · rw [Set.indicator_of_mem (show x ∈ {x | 0 < maxSum T f n x} from hx)]
    cases n with
    | zero => exact absurd hx (lt_irrefl _)
    | succ n =>
        have e : maxSum T f (n + 1) x = f x + maxSum T f n (T x) := by
          have hx : 0 < max 0 (f x + maxSum T f n (T x)) := hx
          show max 0 (f x + maxSum T f n (T x)) = _
          rcases le_total 0 (f x + maxSum T f n (T x)) with h | h
          · exact max_eq_right h
          · rw [max_eq_left h] at hx; exact absurd hx (lt_irrefl _)
        have := maxSum_mono (T := T) (f := f) n (T x)
        show maxSum T f (n + 1) x - maxSum T f (n + 1) (T x) ≤ f x
        linarith
  · rw [Set.indicator_of_notMem (show x ∉ {x | 0 < maxSum T f n x} from hx)]
    have h1 := maxSum_nonneg (T := T) (f := f) n (T x)
    have h2 := maxSum_nonneg (T := T) (f := f) n x
    show maxSum T f n x - maxSum T f n (T x) ≤ 0
    linarith [not_lt.mp hx]

/-- If almost every orbit has a positive sum, the integral is not negative. -/
theorem integral_nonneg_of_sums (hT : MeasurePreserving T μ μ) (hf : Measurable f) (hi : Integrable f μ)
    (h : ∀ᵐ x ∂μ, ∃ n, 0 < birkhoffSum T f n x) : 0 ≤ ∫ x, f x ∂μ := by
  have hlim : Tendsto (fun n => ∫ x, Set.indicator {x | 0 < maxSum T f n x} f x ∂μ) atTop (𝓝 (∫ x, f x ∂μ)) := by
    refine tendsto_integral_of_dominated_convergence (fun x => |f x|) (fun n => ?_) hi.abs (fun n => ?_) ?_
    · exact (hi.indicator (measurableSet_lt measurable_const (maxSum_measurable hT.measurable hf n))).aestronglyMeasurable
    · exact Eventually.of_forall fun x => norm_indicator_le_norm_self _ _
    · filter_upwards [h] with x hx
      obtain ⟨n, hn⟩ := hx
      refine tendsto_const_nhds.congr' ?_
      filter_upwards [eventually_ge_atTop n] with m hm
      rw [Set.indicator_of_mem]
      exact (hn.trans_le (birkhoffSum_le_maxSum n x)).trans_le (maxSum_mono' x hm)
  refine ge_of_tendsto hlim (Eventually.of_forall fun n => ?_)
  rw [integral_indicator (measurableSet_lt measurable_const (maxSum_measurable hT.measurable hf n))]
  exact maximal hT hf hi n

theorem birkhoffSum_measurable (hT : Measurable T) (hf : Measurable f) (n : ℕ) : Measurable (birkhoffSum T f n) := by
  unfold birkhoffSum
  exact Finset.measurable_sum _ fun k _ => hf.comp (hT.iterate k)

/-- Orbits whose averages exceed `c`, by a fixed amount, again and again. -/
def exceeds (T : Ω → Ω) (f : Ω → ℝ) (c : ℝ) : Set Ω :=
  {x | ∃ k : ℕ, ∀ N : ℕ, ∃ n : ℕ, N ≤ n ∧ n * (c + 1 / (k + 1)) < birkhoffSum T f n x}

theorem exceeds_measurable (hT : Measurable T) (hf : Measurable f) (c : ℝ) : MeasurableSet (exceeds T f c) := by
  have e : exceeds T f c = ⋃ k : ℕ, ⋂ N : ℕ, ⋃ n : ℕ, ⋃ _ : N ≤ n, {x | n * (c + 1 / ((k : ℝ) + 1)) < birkhoffSum T f n x} := by
    ext x
    simp [exceeds]
  rw [e]
  exact .iUnion fun k => .iInter fun N => .iUnion fun n => .iUnion fun _ =>
    measurableSet_lt measurable_const (birkhoffSum_measurable hT hf n)

omit [MeasurableSpace Ω] in
theorem exceeds_shift {c d b : ℝ} (hcd : c < d) {u v : ℕ → ℝ} (huv : ∀ᶠ n in atTop, u n - b ≤ v n)
    (h : ∃ᶠ n : ℕ in atTop, n * d < u n) : ∃ᶠ n : ℕ in atTop, n * c < v n := by
  have hb : ∀ᶠ n : ℕ in atTop, b ≤ n * (d - c) := by
    have : Tendsto (fun n : ℕ => (n : ℝ) * (d - c)) atTop atTop := tendsto_natCast_atTop_atTop.atTop_mul_const (by linarith)
    exact this.eventually_ge_atTop b
  refine ((h.and_eventually huv).and_eventually hb).mono ?_
  rintro n ⟨⟨h1, h2⟩, h3⟩
  nlinarith

omit [MeasurableSpace Ω] in
theorem mem_exceeds {c : ℝ} {x : Ω} : x ∈ exceeds T f c ↔ ∃ k : ℕ, ∃ᶠ n : ℕ in atTop, n * (c + 1 / (k + 1)) < birkhoffSum T f n x := by
  simp [exceeds, frequently_atTop]

omit [MeasurableSpace Ω] in
theorem exceeds_invariant (c : ℝ) : T ⁻¹' exceeds T f c = exceeds T f c := by
  have hk : ∀ k : ℕ, c + 1 / ((k + 1 : ℕ) + 1) < c + 1 / ((k : ℝ) + 1) := by
    intro k
    have : 1 / (((k + 1 : ℕ) : ℝ) + 1) < 1 / ((k : ℝ) + 1) := by
      apply one_div_lt_one_div_of_lt
      · positivity
      · push_cast; linarith
    linarith
  ext x
  simp only [Set.mem_preimage, mem_exceeds]
  constructor
  · rintro ⟨k, h⟩
    refine ⟨k + 1, ?_⟩
    -- sums from `T x` are sums from `x` with one more term, without the first
    have h1 : ∃ᶠ n : ℕ in atTop, n * (c + 1 / ((k + 1 : ℕ) + 1)) < birkhoffSum T f (n + 1) x - (c + 1 / ((k + 1 : ℕ) + 1)) :=
      exceeds_shift (hk k) (b := -(f x - (c + 1 / ((k + 1 : ℕ) + 1)))) (Eventually.of_forall fun n => by rw [birkhoffSum_succ']; linarith) h
    rw [frequently_atTop] at h1 ⊢
    intro N
    obtain ⟨n, hn, h2⟩ := h1 N
    refine ⟨n + 1, by omega, ?_⟩
    push_cast at h2 ⊢
    linarith
  · rintro ⟨k, h⟩
    refine ⟨k + 1, ?_⟩
    have h1 : ∃ᶠ n : ℕ in atTop, n * (c + 1 / ((k + 1 : ℕ) + 1)) < birkhoffSum T f (n - 1) (T x) + (c + 1 / ((k + 1 : ℕ) + 1)) :=
      exceeds_shift (hk k) (b := f x - (c + 1 / ((k + 1 : ℕ) + 1))) (by
        filter_upwards [eventually_ge_atTop 1] with n hn
        obtain ⟨n, rfl⟩ := Nat.exists_eq_add_of_le' hn
        rw [birkhoffSum_succ', Nat.add_sub_cancel]; linarith) h
    rw [frequently_atTop] at h1 ⊢
    intro N
    obtain ⟨n, hn, h2⟩ := h1 (N + 1)
    obtain ⟨m, rfl⟩ : ∃ m, n = m + 1 := ⟨n - 1, by omega⟩
    refine ⟨m, by omega, ?_⟩
    rw [Nat.add_sub_cancel] at h2
    push_cast at h2 ⊢
    linarith

variable [IsProbabilityMeasure μ]

theorem ergodic_upper (hT : Ergodic T μ) (hf : Measurable f) (hi : Integrable f μ) {c : ℝ} (hc : ∫ x, f x ∂μ < c) :
    ∀ᵐ x ∂μ, ∀ k : ℕ, ∀ᶠ n : ℕ in atTop, birkhoffSum T f n x ≤ n * (c + 1 / (k + 1)) := by
  have hm := exceeds_measurable hT.measurable hf c
  rcases hT.toPreErgodic.ae_mem_or_ae_notMem hm (exceeds_invariant c) with h | h
  · exfalso
    have hg : 0 ≤ ∫ x, (f x - c) ∂μ := by
      refine integral_nonneg_of_sums hT.toMeasurePreserving (hf.sub_const c) (hi.sub (integrable_const c)) ?_
      filter_upwards [h] with x hx
      obtain ⟨k, hx⟩ := hx
      obtain ⟨n, hn, h1⟩ := hx 1
      refine ⟨n, ?_⟩
      have e : birkhoffSum T (fun x => f x - c) n x = birkhoffSum T f n x - n * c := by
        unfold birkhoffSum
        rw [Finset.sum_sub_distrib]
        simp
      have hk : 0 ≤ (n : ℝ) * (1 / ((k : ℝ) + 1)) := by positivity
      rw [e]
      linarith
    rw [integral_sub hi (integrable_const c)] at hg
    simp at hg
    linarith
  · filter_upwards [h] with x hx k
    rw [mem_exceeds] at hx
    push Not at hx
    exact (hx k)

/-- **The pointwise ergodic theorem.** -/
theorem ergodic_average (hT : Ergodic T μ) (hf : Measurable f) (hi : Integrable f μ) :
    ∀ᵐ x ∂μ, Tendsto (fun n : ℕ => birkhoffSum T f n x / n) atTop (𝓝 (∫ x, f x ∂μ)) := by
  have key : ∀ g : Ω → ℝ, Measurable g → Integrable g μ → ∀ᵐ x ∂μ, ∀ j : ℕ, ∀ᶠ n : ℕ in atTop,
      birkhoffSum T g n x ≤ n * (∫ x, g x ∂μ + 2 / (j + 1)) := by
    intro g hg hgi
    rw [ae_all_iff]
    intro j
    have hj : (0 : ℝ) < 1 / ((j : ℝ) + 1) := by positivity
    filter_upwards [ergodic_upper hT hg hgi (c := ∫ x, g x ∂μ + 1 / (j + 1)) (by linarith)] with x hx
    filter_upwards [hx j] with n hn
    refine hn.trans (le_of_eq ?_)
    ring
  filter_upwards [key f hf hi, key (fun x => -f x) hf.neg hi.neg] with x h1 h2
  rw [Metric.tendsto_atTop]
  intro ε hε
  obtain ⟨j, hj⟩ := exists_nat_one_div_lt (show 0 < ε / 2 by linarith)
  have hev := (h1 j).and ((h2 j).and (eventually_ge_atTop 1))
  rw [eventually_atTop] at hev
  obtain ⟨N, hN⟩ := hev
  refine ⟨N, fun n hn => ?_⟩
  obtain ⟨g1, g2, g3⟩ := hN n hn
  have hn0 : (0 : ℝ) < n := by exact_mod_cast g3
  have e : birkhoffSum T (fun x => -f x) n x = -birkhoffSum T f n x := by
    unfold birkhoffSum
    rw [Finset.sum_neg_distrib]
  rw [e, integral_neg] at g2
  have hj' : (2 : ℝ) / ((j : ℝ) + 1) < ε := by
    have : (2 : ℝ) / ((j : ℝ) + 1) = 2 * (1 / ((j : ℝ) + 1)) := by ring
    rw [this]; linarith
  rw [Real.dist_eq, abs_lt]
  constructor
  · rw [lt_sub_iff_add_lt, lt_div_iff₀ hn0]
    nlinarith
  · rw [sub_lt_iff_lt_add, div_lt_iff₀ hn0]
    nlinarith

end Verif.Theory
