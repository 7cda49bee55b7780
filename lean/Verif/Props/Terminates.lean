import Verif.Theory.Draws
import Verif.Props.AnyInit
import Verif.Props.Proper

/-!
C77: with independent draws the searches of the code end with probability one.
-/

namespace Verif.Props

open MeasureTheory ProbabilityTheory Verif.Model Verif.Spec Verif.Theory

variable {n : ℕ} {t : Fin n → ℝ}

lemma tempered_length {d : ℕ} (a : Ram d) (report : ℤ) (m : ℕ) : (Theory.tempered a report m).length = 2 * m := by
  induction m with
  | zero => rfl
  | succ m ih => simp only [Theory.tempered, List.length_cons, ih]; omega

/-- If a lucky pass lies between the numbers `M i` and `M (i+1)` for every search `i`, then the run returns with `M` of the number of searches as bound. -/
lemma carma_run_within (srt : List ℝ → List ℕ) (hn : 3 ≤ n) (ht : StrictMono t) (y e : Fin n → ℝ) (hy : ∃ i j, y i ≠ y j)
    {p q : ℕ} (hp : 2 ≤ p) (hp' : p < 2500) (z : Bool) (hq : z = true ∨ q < p) {nw : ℕ} (hw : 1 ≤ nw) (burnin thin : ℕ)
    (init : List ℝ) {r : Rng} (hr : Nice r) (hs : ∀ k, r.stud k ≠ 0) {M : ℕ → ℕ} (hmono : Monotone M)
    (hL : ∀ i < 2 * (nw - 1) + 1, ∃ d, M i ≤ d ∧ d < M (i + 1) ∧ Lucky p n (passAt p r d)) {fuel : ℕ} (hfuel : M (2 * (nw - 1) + 1) ≤ fuel) (N : ℕ) : ∃ c, runCarmaSampler fuel srt N burnin (List.ofFn t) (List.ofFn y) (List.ofFn e) p q nw z thin init r = .ok c := by
  have hn2 : 2 ≤ n := by omega
  have hbl : Blocks (nParams p q z) r.stud := fun k => ⟨0, by unfold nParams; split <;> omega, hs _⟩
  have hv := popVar_eq (show 0 < n by omega) y
  have h0 := popVar_pos (show 0 < n by omega) hy
  obtain ⟨o, b, dmin, span, g1, g2, g3, g4, g5, g6, g7, g8⟩ := run_solid (q := q) srt hn2 ht y e hp z hq (10 * √(popVariance y))
  have hlen : 0 < (List.ofFn y).length := by simp; omega
  -- the number of passes made by the first `i` searches is at most `M i`
  obtain ⟨s, hS⟩ := carmaSampler_total N burnin thin r hv h0 hlen g1 hw
  have hB := carmaSampler_inv hS
  have hsl : s.steps.length = 2 * (nw - 1) + 1 := by
    obtain ⟨_, a, -, -, h⟩ := hB.steps
    rw [h, List.length_append, tempered_length]
    rfl
  rw [← hsl] at hfuel hL
  have hfit := carma_fit hB hv h0 hlen g1 g2 hbl
  have hkind : o.kind = runKind q z := (new_config g1).1
  set o' : CarP p := { o with b := b } with ho'
  have hok : o'.kind = runKind q z := hkind
  have hnp : npar p o'.kind = nParams p q z := by rw [hok, npar_runKind]
  have htime : b.time = List.ofFn t := by
    rw [setPrior_again (new_config g1).2.2] at g2
    injection g2 with g2
    rw [← g2]
    exact (new_time (new_config g1).2.2 : o.b.time = _)
  obtain ⟨dmin', b0, k1, k2, k3, k4, k5, -, -, k6, k7, -⟩ := base_fresh hn2 ht y e
  obtain rfl := k1.unique g4
  obtain rfl := k3.unique g5
  obtain ⟨d1, d2⟩ := gap_ratio hn ht g4 g5
  have hR0 : Ready2 o' n t y e := by
    refine ⟨g3, ⟨_, _, _, by show armaMax b.time = _; rw [htime]; exact k6, by show armaMin b.time = _; rw [htime]; exact k7,
      by linarith, g7, g8, ?_⟩, ?_, g6, h0⟩
    · rw [mul_one_div, div_le_div_iff₀ (by linarith) d1]
      linarith
    · rw [hok]; unfold runKind
      split
      · simp
      · split
        · simp
        · rename_i hq0
          intro hh
          injection hh with hh
          exact hq0 hh
  have hma := new_ma (show 0 < p by omega) g1
  have hfit' : Fit (Held o') s := by
    obtain ⟨var', o'', b'', c1, c2, c3, c4⟩ := hB.chain
    cases hv.symm.trans c1
    cases g1.symm.trans c2
    cases g2.symm.trans c3
    refine ⟨fun c hc => ⟨hfit.obj c hc, ?_⟩, hfit.len, hfit.steps, hfit.4⟩
    obtain ⟨i, hi⟩ := List.mem_iff_getElem?.mp hc
    rw [c4 i c hi]
    exact hma
  have hT := held_total hp (show 0 < n by omega) ht g3
  rw [hnp] at hT
  have hlen' : npar p o'.kind = CarP.thetaLen p o'.kind := by rw [hnp, hok, thetaLen_runKind]
  obtain ⟨s', h4, h5⟩ := run_sure hT hfit' (fuel := fuel) (N := N) (burnin := burnin) (thin := thin) (init := init)
    (R := fun i r' => ∃ j ≤ M i, AtPass p r j r') (by rw [hB.rng]; exact ⟨0, Nat.zero_le _, hr, ⟨by simp [skip_zero], by simp [skip_zero]⟩, rfl⟩)
    (fun i r' ⟨j, _, hj⟩ => by rw [hj.stud]; exact hbl)
    (by
      intro i hi a r' ha ⟨j, hj, hat⟩
      have hle : M (i + 1) ≤ M s.steps.length := hmono (show i + 1 ≤ s.steps.length from hi)
      obtain ⟨d, d1, d2, d3⟩ := hL i hi
      have hlucky : Lucky p n (passAt p r (j + (d - j))) := by rw [show j + (d - j) = d by omega]; exact d3
      have hf : d - j < fuel := by omega
      have fin : ∀ {x : Res (CarP p × List ℝ × Rng)}, (∃ s' θ r'', x = .ok (s', θ, r'') ∧ Held o' s' ∧ θ.length = npar p o'.kind ∧
          ∃ j', j' ≤ j + (d - j) + 1 ∧ AtPass p r j' r'') →
          ∃ s' θ r'', x = .ok (s', θ, r'') ∧ Held o' s' ∧ θ.length = nParams p q z ∧ ∃ j' ≤ M (i + 1), AtPass p r j' r'' := by
        rintro x ⟨s', θ, r'', m1, m2, m3, j', m4, m5⟩
        exact ⟨s', θ, r'', m1, m2, m3.trans hnp, j', by omega, m5⟩
      split
      · exact fin (setStart_sure hp hp' hn2 ht hR0 hlen' _ hf hlucky init ha hat)
      · exact fin (start_sure hp hp' hn2 ht hR0 _ hf hlucky ha hat))
    (by obtain ⟨_, a, -, -, h⟩ := hB.steps; rw [h]; simp)
    (by rw [hB.tracked, hB.length]; simp; omega)
  unfold runCarmaSampler
  simp only [hS, h4, res_bind_ok]
  rw [rdU_ok (List.getElem?_eq_getElem (show 0 < s'.chains.length by rw [h5, hB.length]; omega))]
  exact ⟨_, rfl⟩

/-- If lucky passes come again and again, the run returns. -/
lemma carma_run_sure (srt : List ℝ → List ℕ) (hn : 3 ≤ n) (ht : StrictMono t) (y e : Fin n → ℝ) (hy : ∃ i j, y i ≠ y j)
    {p q : ℕ} (hp : 2 ≤ p) (hp' : p < 2500) (z : Bool) (hq : z = true ∨ q < p) {nw : ℕ} (hw : 1 ≤ nw) (burnin thin : ℕ)
    (init : List ℝ) {r : Rng} (hr : Nice r) (hs : ∀ k, r.stud k ≠ 0) (hL : ∀ j, ∃ d, Lucky p n (passAt p r (j + d))) :
    ∃ F, ∀ fuel, F ≤ fuel → ∀ N, ∃ c, runCarmaSampler fuel srt N burnin (List.ofFn t) (List.ofFn y) (List.ofFn e) p q nw z thin init r = .ok c := by
  choose nxt hnxt using hL
  set M : ℕ → ℕ := fun i => Nat.rec 0 (fun _ m => m + nxt m + 1) i with hM
  have hM1 : ∀ i, M (i + 1) = M i + nxt (M i) + 1 := fun i => rfl
  have hmono : Monotone M := monotone_nat_of_le_succ fun i => by rw [hM1]; omega
  exact ⟨M (2 * (nw - 1) + 1), fun fuel hfuel N => carma_run_within srt hn ht y e hy hp hp' z hq hw burnin thin init hr hs (M := M) hmono
    (fun i _ => ⟨M i + nxt (M i), by omega, by rw [hM1]; omega, hnxt (M i)⟩) hfuel N⟩

variable {Ω : Type*} [MeasurableSpace Ω] {P : Measure Ω}

/-- **C77, the run returns.** For at least three strictly increasing times, values not all equal, `2 ≤ p < 2500`, `q < p` (or `z`), at least one
walker, any initial vector and any numbers of iterations: if the random numbers are independent draws with the laws the code asks for (the
chi-squared draws with `n - 1` or 50 degrees of freedom), then with probability one `RunCarmaSampler` returns: the searches for starting values,
whose loops have no bound, all end. The model is run with more and more passes allowed; from some number on the result is a normal return. -/
theorem C77_run_returns (srt : List ℝ → List ℕ) (hn : 3 ≤ n) (ht : StrictMono t) (y e : Fin n → ℝ) (hy : ∃ i j, y i ≠ y j)
    {p q : ℕ} (hp : 2 ≤ p) (hp' : p < 2500) (z : Bool) (hq : z = true ∨ q < p) {nw : ℕ} (hw : 1 ≤ nw) (N burnin thin : ℕ)
    (init : List ℝ) {R : Ω → Rng} {dof : ℕ → ℕ} (hR : IsDraws P R dof) (hd : ∀ k, dof k = n - 1 ∨ dof k = 50) :
    ∀ᵐ ω ∂P, ∃ F, ∀ fuel, F ≤ fuel →
      ∃ c, runCarmaSampler fuel srt N burnin (List.ofFn t) (List.ofFn y) (List.ofFn e) p q nw z thin init (R ω) = .ok c := by
  filter_upwards [hR.nice, hR.lucky (p := p) (show 2 ≤ n by omega) hd] with ω h1 h2
  obtain ⟨F, hF⟩ := carma_run_sure srt hn ht y e hy hp hp' z hq hw burnin thin init h1.1 h1.2 h2
  exact ⟨F, fun fuel hf => hF fuel hf N⟩

lemma grab_skip (idx : ℕ) {k : ℕ} {r : Rng} (h : r.int k ≠ idx) : ∃ m < k + 1, ∀ fuel, k < fuel → ∃ r', StretchProp.grab idx fuel r = .ok (r.int m, r') ∧ r.int m ≠ idx := by
  induction k generalizing r with
  | zero =>
      refine ⟨0, by omega, fun fuel hf => ?_⟩
      obtain ⟨f, rfl⟩ : ∃ f, fuel = f + 1 := ⟨fuel - 1, by omega⟩
      exact ⟨_, by rw [StretchProp.grab, if_neg h], h⟩
  | succ k ih =>
      by_cases h0 : r.int 0 = idx
      · obtain ⟨m, hm, g⟩ := ih (r := r.nextI.2) h
        refine ⟨m + 1, by omega, fun fuel hf => ?_⟩
        obtain ⟨f, rfl⟩ : ∃ f, fuel = f + 1 := ⟨fuel - 1, by omega⟩
        obtain ⟨r', g1, g2⟩ := g f (by omega)
        exact ⟨r', by rw [StretchProp.grab, if_pos h0]; exact g1, g2⟩
      · refine ⟨0, by omega, fun fuel hf => ?_⟩
        obtain ⟨f, rfl⟩ : ∃ f, fuel = f + 1 := ⟨fuel - 1, by omega⟩
        exact ⟨_, by rw [StretchProp.grab, if_neg h0], h0⟩

/-- **C77, `GrabParameter`.** In an ensemble of at least two walkers the search of the stretch move for a partner ends with probability one, and
the partner is another walker. -/
theorem C77_grab {w : ℕ} (hw : 2 ≤ w) (idx : ℕ) {R : Ω → Rng} (hR : IsInts P (fun ω => (R ω).int) w) :
    ∀ᵐ ω ∂P, ∃ F j, j ≠ idx ∧ ∀ fuel, F ≤ fuel → ∃ r', StretchProp.grab idx fuel (R ω) = .ok (j, r') := by
  have hP : IsProbabilityMeasure P := hR.indep.isProbabilityMeasure
  -- some walker is not `idx`
  have hne : ∃ i < w, i ≠ idx := by
    by_cases h : idx = 0
    · exact ⟨1, by omega, by omega⟩
    · exact ⟨0, by omega, by omega⟩
  obtain ⟨i, hi, hii⟩ := hne
  set c : ENNReal := 1 - (w : ENNReal)⁻¹ with hc
  have hwpos : (w : ENNReal)⁻¹ ≠ 0 := by simp
  have hc1 : c < 1 := ENNReal.sub_lt_self (by simp) (by simp) hwpos
  have hmk : ∀ k, MeasurableSet {ω | (R ω).int k = i} := fun k => hR.meas k (measurableSet_singleton i)
  have hall : P {ω | ∀ k, (R ω).int k ≠ i} = 0 := by
    have hle : ∀ m : ℕ, P {ω | ∀ k, (R ω).int k ≠ i} ≤ c ^ m := by
      intro m
      have h1 := hR.indep.measure_inter_preimage_eq_mul (Finset.range m) (sets := fun _ => {i}ᶜ) fun _ _ => (measurableSet_singleton i).compl
      have h2 : ∀ k ∈ Finset.range m, P ((fun ω => (R ω).int k) ⁻¹' {i}ᶜ) = c := by
        intro k _
        have : (fun ω => (R ω).int k) ⁻¹' {i}ᶜ = {ω | (R ω).int k = i}ᶜ := rfl
        rw [this, prob_compl_eq_one_sub (hmk k), hR.law k i hi]
      rw [Finset.prod_congr rfl h2, Finset.prod_const, Finset.card_range] at h1
      rw [← h1]
      refine measure_mono fun ω hω => Set.mem_iInter₂.mpr fun k _ => hω k
    have hz : Filter.Tendsto (fun m => c ^ m) Filter.atTop (nhds 0) := ENNReal.tendsto_pow_atTop_nhds_zero_of_lt_one hc1
    exact le_antisymm (ge_of_tendsto' hz hle) (zero_le)
  have hex : ∀ᵐ ω ∂P, ∃ k, (R ω).int k = i := by
    rw [ae_iff]
    simpa using hall
  filter_upwards [hex] with ω ⟨k, hk⟩
  obtain ⟨m, -, hm⟩ := grab_skip idx (k := k) (r := R ω) (by rw [hk]; exact hii)
  obtain ⟨-, -, h0⟩ := hm (k + 1) (by omega)
  refine ⟨k + 1, (R ω).int m, h0, fun fuel hf => ?_⟩
  obtain ⟨r', h1, -⟩ := hm fuel (by omega)
  exact ⟨r', h1⟩

/-- **C77, a single walker.** With one walker the search for a partner never ends. -/
theorem C77_grab_alone {R : Ω → Rng} (hR : IsInts P (fun ω => (R ω).int) 1) :
    ∀ᵐ ω ∂P, ∀ fuel, StretchProp.grab 0 fuel (R ω) = .error .timeout := by
  have hP : IsProbabilityMeasure P := hR.indep.isProbabilityMeasure
  have h0 : ∀ᵐ ω ∂P, ∀ k, (R ω).int k = 0 := by
    refine ae_all_iff.mpr fun k => ?_
    have h := hR.law k 0 one_pos
    simp only [Nat.cast_one, inv_one] at h
    have hm : MeasurableSet {ω | (R ω).int k = 0} := hR.meas k (measurableSet_singleton 0)
    rw [← prob_compl_eq_zero_iff hm] at h
    exact h
  filter_upwards [h0] with ω hω fuel
  have : ∀ r : Rng, (∀ k, r.int k = 0) → StretchProp.grab 0 fuel r = .error .timeout := by
    induction fuel with
    | zero => exact fun r _ => rfl
    | succ f ih =>
        intro r hr
        rw [StretchProp.grab, if_pos (hr 0)]
        exact ih _ fun k => hr _
  exact this _ hω

/-! ### such draws exist -/

/-- The random streams read off a family of numbers. -/
def rngOf (ω : Stream × ℕ → ℝ) : Rng where
  unif k := ω (.unif, k)
  norm k := ω (.norm, k)
  stud k := ω (.stud, k)
  chi2 k := ω (.chi2, k)
  int _ := 0
  randu k := ω (.randu, k)
  randn k := ω (.randn, k)

lemma drawOf_rngOf (ω : Stream × ℕ → ℝ) (i : Stream × ℕ) : drawOf (rngOf ω) i = ω i := by
  obtain ⟨s, k⟩ := i
  cases s <;> rfl

/-- Degrees of freedom as the passes ask for them: `n - 1` for the variance, then 50 for the scale of the errors. -/
def passDof (n : ℕ) (k : ℕ) : ℕ := if k % 2 = 0 then n - 1 else 50

lemma drawLaw_prob {dof : ℕ → ℕ} (hd : ∀ k, 0 < dof k) (i : Stream × ℕ) : IsProbabilityMeasure (drawLaw dof i) := by
  obtain ⟨s, k⟩ := i
  have hg : IsProbabilityMeasure (libLaw (.normal 0 1)) := by
    show IsProbabilityMeasure (gaussianReal _ _)
    infer_instance
  cases s
  · exact uniform_prob one_pos
  · exact hg
  · exact student_prob (by norm_num)
  · exact chi_prob (hd k)
  · exact uniform_prob one_pos
  · exact hg

/-- The product measure gives such draws. -/
lemma draws_exist {dof : ℕ → ℕ} (hd : ∀ k, 0 < dof k) :
    haveI := fun i => drawLaw_prob hd i
    IsDraws (Measure.infinitePi (drawLaw dof)) rngOf dof := by
  have := fun i => drawLaw_prob hd i
  refine ⟨fun i => ?_, ?_, fun i => ?_⟩
  · simp only [drawOf_rngOf]; exact measurable_pi_apply i
  · simp only [drawOf_rngOf]
    exact iIndepFun_infinitePi (X := fun _ x => x) fun _ => measurable_id
  · simp only [drawOf_rngOf]
    exact Measure.infinitePi_map_eval (drawLaw dof) i

/-- The default call of `run_mcmc` on three points, CARMA(3,1) with ten chains and an empty initial vector, returns with probability one. -/
example (srt : List ℝ → List ℕ) (N burnin : ℕ) :
    haveI := fun i => drawLaw_prob (dof := passDof 3) (fun k => by unfold passDof; split <;> omega) i
    ∀ᵐ ω ∂(Measure.infinitePi (drawLaw (passDof 3))), ∃ F, ∀ fuel, F ≤ fuel →
      ∃ c, runCarmaSampler fuel srt N burnin (List.ofFn exT) (List.ofFn exY) (List.ofFn exT) 3 1 10 false 1 [] (rngOf ω) = .ok c :=
  C77_run_returns srt le_rfl exT_mono exY exT ⟨0, 1, by simp [exY]⟩ (by norm_num) (by norm_num) false (Or.inr (by norm_num)) (by norm_num) N burnin 1 []
    (draws_exist fun k => by unfold passDof; split <;> omega) (fun k => by unfold passDof; split <;> omega)

/-- Uniform integers on the set of walkers exist. -/
example : ∃ (Ω : Type) (_ : MeasurableSpace Ω) (P : Measure Ω) (R : Ω → Rng), IsInts P (fun ω => (R ω).int) 2 := by
  let μ : Measure ℕ := (2 : ENNReal)⁻¹ • Measure.dirac 0 + (2 : ENNReal)⁻¹ • Measure.dirac 1
  have hμ : IsProbabilityMeasure μ := ⟨by simp [μ, ENNReal.inv_two_add_inv_two]⟩
  refine ⟨ℕ → ℕ, inferInstance, Measure.infinitePi fun _ => μ, fun ω => { fairRng with int := ω }, fun k => measurable_pi_apply k, ?_, fun k i hi => ?_⟩
  · exact iIndepFun_infinitePi (P := fun _ : ℕ => μ) (X := fun _ x => x) fun _ => measurable_id
  · have h := Measure.infinitePi_map_eval (fun _ : ℕ => μ) k
    have e : (Measure.infinitePi fun _ : ℕ => μ) {ω | ω k = i} = μ {i} := by
      have h2 := Measure.map_apply (μ := Measure.infinitePi fun _ : ℕ => μ) (measurable_pi_apply k) (measurableSet_singleton i)
      rw [h] at h2
      exact h2.symm
    show (Measure.infinitePi fun _ : ℕ => μ) {ω | ω k = i} = _
    rw [e]
    interval_cases i <;> simp [μ]

end Verif.Props
