import Verif.Props.Terminates

/-! C104: the searches for starting values are short. -/

namespace Verif.Props

open MeasureTheory ProbabilityTheory Verif.Model Verif.Spec Verif.Theory
open scoped ENNReal

variable {n : ℕ}

/-- **C104, tail.** For every number `n ≥ 3` of times and every order `2 ≤ p < 2500` there is a number `c < 1` such that for all data with `n` strictly
increasing times and values not all equal, every moving-average order, every number of walkers, every initial vector and all numbers of iterations, and
for independent draws with the laws the code asks for: the probability that `RunCarmaSampler` has not returned when every search for starting values is
stopped after `fuel` passes is at most `S * c ^ k` for `S * k ≤ fuel`, where `S` is the number of searches, one per step of the sampler. -/
theorem C104_tail (hn : 3 ≤ n) {p : ℕ} (hp : 2 ≤ p) (hp' : p < 2500) : ∃ c : ℝ≥0∞, c < 1 ∧
    ∀ {Ω : Type} [MeasurableSpace Ω] {P : Measure Ω} {R : Ω → Rng} {dof : ℕ → ℕ}, IsDraws P R dof → (∀ k, dof k = n - 1 ∨ dof k = 50) →
    ∀ (srt : List ℝ → List ℕ) {t : Fin n → ℝ}, StrictMono t → ∀ y e : Fin n → ℝ, (∃ i j, y i ≠ y j) → ∀ {q : ℕ} (z : Bool), (z = true ∨ q < p) →
    ∀ {nw : ℕ}, 1 ≤ nw → ∀ (N burnin thin : ℕ) (init : List ℝ) {k fuel : ℕ}, (2 * (nw - 1) + 1) * k ≤ fuel →
      P {ω | ¬ ∃ x, runCarmaSampler fuel srt N burnin (List.ofFn t) (List.ofFn y) (List.ofFn e) p q nw z thin init (R ω) = .ok x} ≤
        (2 * (nw - 1) + 1 : ℕ) * c ^ k := by
  refine ⟨1 - luckyChance p n, ENNReal.sub_lt_self (by simp) (by simp) (luckyChance_ne_zero p (by omega)), ?_⟩
  intro Ω _ P R dof hR hd srt t ht y e hy q z hq nw hw N burnin thin init k fuel hf
  set S := 2 * (nw - 1) + 1 with hS
  set B : ℕ → Set Ω := fun i => {ω | ∀ j, i * k ≤ j → j < i * k + k → ¬ ∀ l ∈ passDraws p j, drawOf (R ω) l ∈ luckySet p n l} with hB
  have hle : ∀ i, P (B i) ≤ (1 - luckyChance p n) ^ k := fun i =>
    block_tail hR.meas hR.indep (passDraws_disjoint p) (luckySet_meas p n) (lucky_low hR p hd) (i * k) k
  have hbad : P {ω | ¬ (Nice (R ω) ∧ ∀ k, (R ω).stud k ≠ 0)} = 0 := ae_iff.mp hR.nice
  have hsub : {ω | ¬ ∃ x, runCarmaSampler fuel srt N burnin (List.ofFn t) (List.ofFn y) (List.ofFn e) p q nw z thin init (R ω) = .ok x} ⊆
      {ω | ¬ (Nice (R ω) ∧ ∀ k, (R ω).stud k ≠ 0)} ∪ ⋃ i ∈ Finset.range S, B i := by
    intro ω hω
    by_contra hc
    rw [Set.mem_union, not_or] at hc
    obtain ⟨h1, h2⟩ := hc
    have h1 : Nice (R ω) ∧ ∀ k, (R ω).stud k ≠ 0 := by simpa using h1
    refine hω (carma_run_within srt hn ht y e hy hp hp' z hq hw burnin thin init h1.1 h1.2 (M := fun i => i * k)
      (fun a b hab => Nat.mul_le_mul_right k hab) (fun i hi => ?_) hf N)
    have h3 : ω ∉ B i := fun hm => h2 (Set.mem_iUnion₂.mpr ⟨i, Finset.mem_range.mpr hi, hm⟩)
    have h4 : ∃ j, i * k ≤ j ∧ j < i * k + k ∧ ∀ l ∈ passDraws p j, drawOf (R ω) l ∈ luckySet p n l := by
      by_contra hc
      exact h3 fun j a1 a2 a3 => hc ⟨j, a1, a2, a3⟩
    obtain ⟨j, a1, a2, a3⟩ := h4
    exact ⟨j, a1, by rw [Nat.add_mul, one_mul]; exact a2, lucky_of_mem a3⟩
  calc _ ≤ P ({ω | ¬ (Nice (R ω) ∧ ∀ k, (R ω).stud k ≠ 0)} ∪ ⋃ i ∈ Finset.range S, B i) := measure_mono hsub
    _ ≤ 0 + ∑ i ∈ Finset.range S, P (B i) :=
        (measure_union_le _ _).trans (add_le_add hbad.le (measure_biUnion_finset_le _ _))
    _ ≤ ∑ _i ∈ Finset.range S, (1 - luckyChance p n) ^ k := by rw [zero_add]; exact Finset.sum_le_sum fun i _ => hle i
    _ = _ := by rw [Finset.sum_const, Finset.card_range, nsmul_eq_mul]

/-- **C104, expected number of passes.** In the setting of `C104_tail` the sum over all bounds of the probability that the run has not returned, which is
the expected number of passes of the longest search, is at most `S^2 / (1 - c)`, with `c < 1` depending on the number of times and the order only. -/
theorem C104_mean (hn : 3 ≤ n) {p : ℕ} (hp : 2 ≤ p) (hp' : p < 2500) : ∃ c : ℝ≥0∞, c < 1 ∧
    ∀ {Ω : Type} [MeasurableSpace Ω] {P : Measure Ω} {R : Ω → Rng} {dof : ℕ → ℕ}, IsDraws P R dof → (∀ k, dof k = n - 1 ∨ dof k = 50) →
    ∀ (srt : List ℝ → List ℕ) {t : Fin n → ℝ}, StrictMono t → ∀ y e : Fin n → ℝ, (∃ i j, y i ≠ y j) → ∀ {q : ℕ} (z : Bool), (z = true ∨ q < p) →
    ∀ {nw : ℕ}, 1 ≤ nw → ∀ (N burnin thin : ℕ) (init : List ℝ),
      ∑' fuel, P {ω | ¬ ∃ x, runCarmaSampler fuel srt N burnin (List.ofFn t) (List.ofFn y) (List.ofFn e) p q nw z thin init (R ω) = .ok x} ≤
        (2 * (nw - 1) + 1 : ℕ) ^ 2 * (1 - c)⁻¹ := by
  obtain ⟨c, hc, h⟩ := C104_tail hn hp hp'
  refine ⟨c, hc, ?_⟩
  intro Ω _ P R dof hR hd srt t ht y e hy q z hq nw hw N burnin thin init
  have h := fun fuel => h hR hd srt ht y e hy z hq hw N burnin thin init (k := fuel / (2 * (nw - 1) + 1)) (fuel := fuel) (Nat.mul_div_le _ _)
  generalize hS : 2 * (nw - 1) + 1 = S at *
  have : NeZero S := ⟨by omega⟩
  refine (ENNReal.tsum_le_tsum h).trans (le_of_eq ?_)
  rw [ENNReal.tsum_mul_left, ← (Nat.divModEquiv S).symm.tsum_eq]
  have e1 : ∀ x : ℕ × Fin S, c ^ ((Nat.divModEquiv S).symm x / S) = c ^ x.1 := by
    intro x
    congr 1
    have := (Nat.divModEquiv S).apply_symm_apply x
    exact congrArg Prod.fst this
  simp only [e1]
  rw [ENNReal.tsum_prod', pow_two, mul_assoc]
  congr 1
  simp only [tsum_fintype, Finset.sum_const, Finset.card_univ, Fintype.card_fin, nsmul_eq_mul]
  rw [ENNReal.tsum_mul_left, ENNReal.tsum_geometric]

/-- the default call of `run_mcmc` on three points, CARMA(3,1) with ten walkers: nineteen searches -/
example (srt : List ℝ → List ℕ) (N burnin : ℕ) :
    haveI := fun i => drawLaw_prob (dof := passDof 3) (fun k => by unfold passDof; split <;> omega) i
    ∃ c : ℝ≥0∞, c < 1 ∧ ∀ k, (Measure.infinitePi (drawLaw (passDof 3))) {ω | ¬ ∃ x, runCarmaSampler (19 * k) srt N burnin (List.ofFn exT) (List.ofFn exY)
      (List.ofFn exT) 3 1 10 false 1 [] (rngOf ω) = .ok x} ≤ (19 : ℕ) * c ^ k := by
  obtain ⟨c, hc, h⟩ := C104_tail (n := 3) le_rfl (p := 3) (by norm_num) (by norm_num)
  exact ⟨c, hc, fun k => h (draws_exist fun k => by unfold passDof; split <;> omega) (fun k => by unfold passDof; split <;> simp) srt exT_mono exY exT ⟨0, 1, by simp [exY]⟩ false
    (Or.inr (by norm_num)) (nw := 10) (by norm_num) N burnin 1 [] le_rfl⟩

/-! ### the partner of the stretch move -/

lemma grab_timeout (idx k : ℕ) (r : Rng) : StretchProp.grab idx k r = .error .timeout ↔ ∀ i < k, r.int i = idx := by
  induction k generalizing r with
  | zero => exact ⟨fun _ i hi => absurd hi (by omega), fun _ => rfl⟩
  | succ k ih =>
    rw [StretchProp.grab]
    by_cases h0 : r.int 0 = idx
    · rw [if_pos h0, ih]
      constructor
      · intro h i hi
        cases i with
        | zero => exact h0
        | succ i => exact h i (by omega)
      · exact fun h i hi => h (i + 1) (by omega)
    · rw [if_neg h0]
      exact ⟨fun h => (by cases h), fun h => absurd (h 0 (by omega)) h0⟩

/-- **C104, the partner of the stretch move.** In an ensemble of `w` walkers the search for a partner of walker `idx` has not ended after `k` draws with
probability exactly `(1/w)^k`. -/
theorem C104_grab {Ω : Type*} [MeasurableSpace Ω] {P : Measure Ω} {w idx : ℕ} (hi : idx < w) {R : Ω → Rng} (hR : IsInts P (fun ω => (R ω).int) w) (k : ℕ) :
    P {ω | StretchProp.grab idx k (R ω) = .error .timeout} = ((w : ℝ≥0∞)⁻¹) ^ k := by
  have h1 := hR.indep.measure_inter_preimage_eq_mul (Finset.range k) (sets := fun _ => {idx}) fun _ _ => measurableSet_singleton idx
  have h2 : ∀ i ∈ Finset.range k, P ((fun ω => (R ω).int i) ⁻¹' {idx}) = (w : ℝ≥0∞)⁻¹ := fun i _ => hR.law i idx hi
  rw [Finset.prod_congr rfl h2, Finset.prod_const, Finset.card_range] at h1
  rw [← h1]
  congr 1
  ext ω
  rw [Set.mem_iInter₂]
  exact (grab_timeout idx k (R ω)).trans ⟨fun h i hi => h i (Finset.mem_range.mp hi), fun h i hi => h i (Finset.mem_range.mpr hi)⟩

/-- two walkers: three draws in vain with probability 1/8; such draws exist by the example at the end of `Terminates` -/
example {Ω : Type*} [MeasurableSpace Ω] {P : Measure Ω} {R : Ω → Rng} (hR : IsInts P (fun ω => (R ω).int) 2) :
    P {ω | StretchProp.grab 1 3 (R ω) = .error .timeout} = 8⁻¹ := by
  rw [C104_grab (by norm_num) hR, Nat.cast_ofNat, ← ENNReal.inv_pow]
  norm_num

end Verif.Props
