import Mathlib.Probability.BorelCantelli
import Mathlib.Probability.Independence.InfinitePi
import Verif.Spec.Draws
import Verif.Theory.Laws
import Verif.Theory.Lucky

/-!
Independent draws: what holds with probability one, and that lucky passes occur again and again.
-/

namespace Verif.Theory

open MeasureTheory ProbabilityTheory Verif.Model Verif.Spec Filter
open scoped ENNReal

variable {Ω : Type*} [MeasurableSpace Ω] {P : Measure Ω}

/-- Events about disjoint groups of independent draws whose probabilities stay above a positive number occur infinitely often. -/
theorem infinitely_often {ι : Type*} [DecidableEq ι] {X : ι → Ω → ℝ} (hm : ∀ i, Measurable (X i)) (hi : iIndepFun X P) {S : ℕ → Finset ι}
    (hS : Pairwise fun a b => Disjoint (S a) (S b)) {A : ι → Set ℝ} (hA : ∀ i, MeasurableSet (A i)) {c : ℝ≥0∞} (hc : c ≠ 0)
    (hlow : ∀ j, c ≤ ∏ i ∈ S j, P (X i ⁻¹' A i)) : ∀ᵐ ω ∂P, ∀ j, ∃ d, ∀ i ∈ S (j + d), X i ω ∈ A i := by
  have : IsProbabilityMeasure P := hi.isProbabilityMeasure
  set E : ℕ → Set Ω := fun j => ⋂ i ∈ S j, X i ⁻¹' A i with hE
  have hEm : ∀ j, MeasurableSet (E j) := fun j => Finset.measurableSet_biInter _ fun i _ => hm i (hA i)
  have hprod : ∀ T : Finset ι, P (⋂ i ∈ T, X i ⁻¹' A i) = ∏ i ∈ T, P (X i ⁻¹' A i) := fun T =>
    hi.measure_inter_preimage_eq_mul T fun i _ => hA i
  have hind : iIndepSet E P := by
    rw [iIndepSet_iff_meas_biInter hEm]
    intro T
    have e : (⋂ j ∈ T, E j) = ⋂ i ∈ T.biUnion S, X i ⁻¹' A i := by
      rw [Finset.set_biInter_biUnion]
    rw [e, hprod, Finset.prod_biUnion fun a _ b _ hab => hS hab]
    exact Finset.prod_congr rfl fun j _ => (hprod (S j)).symm
  have hsum : ∑' j, P (E j) = ∞ := by
    have h1 : ∑' _ : ℕ, c = ∞ := ENNReal.tsum_const_eq_top_of_ne_zero hc
    refine top_le_iff.mp (h1 ▸ ENNReal.tsum_le_tsum fun j => ?_)
    rw [hE]; simp only; rw [hprod]
    exact hlow j
  have h1 := measure_limsup_eq_one hEm hind hsum
  have h2 : ∀ᵐ ω ∂P, ω ∈ limsup E atTop := by
    rw [← prob_compl_eq_zero_iff (MeasurableSet.measurableSet_limsup hEm)] at h1
    exact h1
  filter_upwards [h2] with ω hω j
  rw [mem_limsup_iff_frequently_mem, frequently_atTop] at hω
  obtain ⟨b, hb, hmem⟩ := hω j
  refine ⟨b - j, fun i hi => ?_⟩
  rw [show j + (b - j) = b by omega] at hi
  exact Set.mem_iInter₂.mp hmem i hi

/-- Such events fail for a whole block of `k` groups with a probability of at most `(1 - c) ^ k`. -/
theorem block_tail {ι : Type*} [DecidableEq ι] {X : ι → Ω → ℝ} (hm : ∀ i, Measurable (X i)) (hi : iIndepFun X P) {S : ℕ → Finset ι}
    (hS : Pairwise fun a b => Disjoint (S a) (S b)) {A : ι → Set ℝ} (hA : ∀ i, MeasurableSet (A i)) {c : ℝ≥0∞}
    (hlow : ∀ j, c ≤ ∏ i ∈ S j, P (X i ⁻¹' A i)) (a k : ℕ) :
    P {ω | ∀ j, a ≤ j → j < a + k → ¬ ∀ i ∈ S j, X i ω ∈ A i} ≤ (1 - c) ^ k := by
  have : IsProbabilityMeasure P := hi.isProbabilityMeasure
  set E : ℕ → Set Ω := fun j => ⋂ i ∈ S j, X i ⁻¹' A i with hE
  have hEm : ∀ j, MeasurableSet (E j) := fun j => Finset.measurableSet_biInter _ fun i _ => hm i (hA i)
  have hprod : ∀ T : Finset ι, P (⋂ i ∈ T, X i ⁻¹' A i) = ∏ i ∈ T, P (X i ⁻¹' A i) := fun T =>
    hi.measure_inter_preimage_eq_mul T fun i _ => hA i
  have hind : iIndepSet E P := by
    rw [iIndepSet_iff_meas_biInter hEm]
    intro T
    have e : (⋂ j ∈ T, E j) = ⋂ i ∈ T.biUnion S, X i ⁻¹' A i := by
      rw [Finset.set_biInter_biUnion]
    rw [e, hprod, Finset.prod_biUnion fun a _ b _ hab => hS hab]
    exact Finset.prod_congr rfl fun j _ => (hprod (S j)).symm
  have hc := iIndep.meas_biInter (s := fun j => (E j)ᶜ) (S := Finset.Ico a (a + k)) hind
    fun j _ => (MeasurableSpace.measurableSet_generateFrom (Set.mem_singleton _)).compl
  have hsub : {ω | ∀ j, a ≤ j → j < a + k → ¬ ∀ i ∈ S j, X i ω ∈ A i} ⊆ ⋂ j ∈ Finset.Ico a (a + k), (E j)ᶜ := by
    intro ω hω
    refine Set.mem_iInter₂.mpr fun j hj hmem => ?_
    obtain ⟨h1, h2⟩ := Finset.mem_Ico.mp hj
    exact hω j h1 h2 fun i hi => Set.mem_iInter₂.mp hmem i hi
  refine (measure_mono hsub).trans (hc.le.trans ?_)
  have hle : ∀ j ∈ Finset.Ico a (a + k), P (E j)ᶜ ≤ 1 - c := by
    intro j _
    rw [prob_compl_eq_one_sub (hEm j)]
    refine tsub_le_tsub_left ?_ _
    rw [hE]; simp only; rw [hprod]
    exact hlow j
  refine (Finset.prod_le_prod' hle).trans (le_of_eq ?_)
  rw [Finset.prod_const, Nat.card_Ico, Nat.add_sub_cancel_left]

/-! ### one draw -/

theorem uniform_Ioo {a b : ℝ} (ha : 0 ≤ a) (hb : b ≤ 1) : libLaw (.uniform 0 1) (Set.Ioo a b) = ENNReal.ofReal (b - a) := by
  show ((ENNReal.ofReal (1 - 0))⁻¹ • volume.restrict (Set.Ico 0 1)) (Set.Ioo a b) = _
  rw [Measure.smul_apply, Measure.restrict_apply measurableSet_Ioo, Set.inter_eq_left.mpr, Real.volume_Ioo]
  · simp
  · exact fun x hx => ⟨ha.trans hx.1.le, hx.2.trans_le hb⟩

theorem uniform_ae : ∀ᵐ x ∂(libLaw (.uniform 0 1)), 0 < x ∧ x < 1 := by
  have := uniform_prob (a := 0) (b := 1) one_pos
  have h := uniform_Ioo (a := 0) (b := 1) le_rfl le_rfl
  rw [sub_zero, ENNReal.ofReal_one] at h
  rw [← prob_compl_eq_zero_iff measurableSet_Ioo] at h
  exact h

theorem chi_pos_ae (n : ℕ) : ∀ᵐ x ∂(libLaw (.chiSquared n)), 0 < x := by
  show ∀ᵐ x ∂(gammaMeasure ((n : ℝ) / 2) (1 / 2)), 0 < x
  unfold gammaMeasure
  rw [ae_withDensity_iff (measurable_gammaPDF' _ _)]
  filter_upwards [gamma_pos_part ((n : ℝ) / 2) (1 / 2)] with x hx hne
  by_contra h
  exact hne (hx h)

theorem chi_prob {n : ℕ} (hn : 0 < n) : IsProbabilityMeasure (libLaw (.chiSquared n)) :=
  isProbabilityMeasure_gammaMeasure (by positivity) (by norm_num)

theorem chi_Ioi {n : ℕ} (hn : 0 < n) {c : ℝ} (hc : 0 ≤ c) : libLaw (.chiSquared n) (Set.Ioi c) ≠ 0 := by
  show gammaMeasure ((n : ℝ) / 2) (1 / 2) (Set.Ioi c) ≠ 0
  unfold gammaMeasure
  rw [withDensity_apply _ measurableSet_Ioi]
  intro h
  rw [setLIntegral_eq_zero_iff measurableSet_Ioi (measurable_gammaPDF' _ _)] at h
  have h2 : ∀ᵐ x : ℝ, x ∉ Set.Ioi c := by
    filter_upwards [h] with x hx hxc
    have hx0 : 0 < x := lt_of_le_of_lt hc hxc
    have := hx hxc
    have hp := gammaPDFReal_pos (a := (n : ℝ) / 2) (r := 1 / 2) (by positivity) (by norm_num) hx0
    rw [gammaPDF, ENNReal.ofReal_eq_zero] at this
    linarith
  rw [ae_iff] at h2
  simp only [not_not, Set.ofPred_mem_eq, Real.volume_Ioi] at h2
  exact absurd h2 (by simp)

theorem student_ne_zero : ∀ᵐ x ∂(libLaw (.studentT 8)), x ≠ 0 := by
  refine (withDensity_absolutelyContinuous volume _).ae_le (?_ : ∀ᵐ x : ℝ, x ≠ 0)
  exact ae_ne 0

/-! ### all draws -/

variable {R : Ω → Rng} {dof : ℕ → ℕ}

theorem _root_.Verif.Spec.IsDraws.ae (h : IsDraws P R dof) (i : Stream × ℕ) {q : ℝ → Prop} (hq : ∀ᵐ x ∂(drawLaw dof i), q x) :
    ∀ᵐ ω ∂P, q (drawOf (R ω) i) := by
  rw [← h.law i] at hq
  exact ae_of_ae_map (h.meas i).aemeasurable hq

theorem _root_.Verif.Spec.IsDraws.pre (h : IsDraws P R dof) (i : Stream × ℕ) {A : Set ℝ} (hA : MeasurableSet A) :
    P ((fun ω => drawOf (R ω) i) ⁻¹' A) = drawLaw dof i A := by
  rw [← h.law i, Measure.map_apply (h.meas i) hA]

theorem _root_.Verif.Spec.IsDraws.ne (h : IsDraws P R dof) {i j : Stream × ℕ} (hij : i ≠ j) [SFinite (drawLaw dof j)] [NullSingletonClass (drawLaw dof i)] [SFinite (drawLaw dof i)] :
    ∀ᵐ ω ∂P, drawOf (R ω) i ≠ drawOf (R ω) j := by
  have : IsProbabilityMeasure P := h.indep.isProbabilityMeasure
  have hp := (indepFun_iff_map_prod_eq_prod_map_map (h.meas i).aemeasurable (h.meas j).aemeasurable).mp (h.indep.indepFun hij)
  rw [h.law i, h.law j] at hp
  have hd : MeasurableSet {x : ℝ × ℝ | x.1 = x.2} := measurableSet_eq_fun measurable_fst measurable_snd
  have hz : ((drawLaw dof i).prod (drawLaw dof j)) {x : ℝ × ℝ | x.1 = x.2} = 0 := by
    rw [Measure.prod_apply_symm hd]
    simp
  have hae : ∀ᵐ x ∂(P.map fun ω => (drawOf (R ω) i, drawOf (R ω) j)), x.1 ≠ x.2 := by
    rw [hp, ae_iff]
    simpa using hz
  exact ae_of_ae_map ((h.meas i).prodMk (h.meas j)).aemeasurable hae

/-- With probability one the draws are in the ranges of their distributions, no two uniform draws of Armadillo agree, and no Student draw is 0. -/
theorem _root_.Verif.Spec.IsDraws.nice (h : IsDraws P R dof) : ∀ᵐ ω ∂P, Nice (R ω) ∧ ∀ k, (R ω).stud k ≠ 0 := by
  have h1 : ∀ᵐ ω ∂P, ∀ k, 0 < (R ω).unif k ∧ (R ω).unif k < 1 := ae_all_iff.mpr fun k => h.ae (.unif, k) uniform_ae
  have h2 : ∀ᵐ ω ∂P, ∀ k, 0 < (R ω).randu k ∧ (R ω).randu k < 1 := ae_all_iff.mpr fun k => h.ae (.randu, k) uniform_ae
  have h3 : ∀ᵐ ω ∂P, ∀ k, 0 < (R ω).chi2 k := ae_all_iff.mpr fun k => h.ae (.chi2, k) (chi_pos_ae (dof k))
  have h4 : ∀ᵐ ω ∂P, ∀ k, (R ω).stud k ≠ 0 := ae_all_iff.mpr fun k => h.ae (.stud, k) student_ne_zero
  have h5 : ∀ᵐ ω ∂P, ∀ i j, i ≠ j → (R ω).randu i ≠ (R ω).randu j := by
    refine ae_all_iff.mpr fun i => ae_all_iff.mpr fun j => ?_
    by_cases hij : i = j
    · exact ae_of_all _ fun ω hne => absurd hij hne
    · have hp : IsProbabilityMeasure (libLaw (.uniform 0 1)) := uniform_prob one_pos
      have i1 : SFinite (drawLaw dof (.randu, j)) := (inferInstance : SFinite (libLaw (.uniform 0 1)))
      have i2 : SFinite (drawLaw dof (.randu, i)) := (inferInstance : SFinite (libLaw (.uniform 0 1)))
      have i3 : NullSingletonClass (drawLaw dof (.randu, i)) := by
        show NullSingletonClass (libLaw (.uniform 0 1))
        rw [uniform_law]
        infer_instance
      filter_upwards [h.ne (i := (.randu, i)) (j := (.randu, j)) (by simpa using hij)] with ω hω _
      exact hω
  filter_upwards [h1, h2, h3, h4, h5] with ω k1 k2 k3 k4 k5
  refine ⟨⟨⟨⟨fun k => ⟨(k1 k).1.le, (k1 k).2⟩, k3, fun k => ⟨(k2 k).1.le, (k2 k).2.le⟩⟩, fun i j hij => ?_⟩, fun k => (k1 k).1⟩, k4⟩
  by_contra hne
  exact k5 i j hne hij

/-! ### lucky passes -/

/-- The draws used by pass `j`. -/
def passDraws (p j : ℕ) : Finset (Stream × ℕ) :=
  insert (.chi2, j * 2) ((Finset.range (2 * ((p + 1) / 2))).image fun i => (.randu, i + j * (2 * ((p + 1) / 2))))

/-- Where the draws of a lucky pass lie. -/
def luckySet (p n : ℕ) (i : Stream × ℕ) : Set ℝ :=
  match i.1 with
  | .chi2 => Set.Ioi (n / 100)
  | .randu =>
      let m := i.2 % (2 * ((p + 1) / 2))
      if m < (p + 1) / 2 then
        Set.Ioo ((((p + 1) / 2 : ℕ) - m) / (((p + 1) / 2 : ℕ) + 1)) ((((p + 1) / 2 : ℕ) - m + 1 / 10) / (((p + 1) / 2 : ℕ) + 1))
      else Set.Ioo 0 (1 / (((p + 1) / 2 : ℕ) + 1))
  | _ => Set.univ

theorem luckySet_meas (p n : ℕ) (i : Stream × ℕ) : MeasurableSet (luckySet p n i) := by
  unfold luckySet
  obtain ⟨s, k⟩ := i
  cases s
  · exact MeasurableSet.univ
  · exact MeasurableSet.univ
  · exact MeasurableSet.univ
  · exact measurableSet_Ioi
  · dsimp only
    split <;> exact measurableSet_Ioo
  · exact MeasurableSet.univ

theorem passDraws_disjoint (p : ℕ) : Pairwise fun a b => Disjoint (passDraws p a) (passDraws p b) := by
  intro a b hab
  rw [Finset.disjoint_left]
  intro x hx hy
  simp only [passDraws, Finset.mem_insert, Finset.mem_image, Finset.mem_range] at hx hy
  rcases hx with rfl | ⟨i, hi, rfl⟩
  · rcases hy with hy | ⟨j, hj, hy⟩
    · injection hy with _ hy
      omega
    · cases hy
  · rcases hy with hy | ⟨j, hj, hy⟩
    · cases hy
    · injection hy with _ hy
      generalize 2 * ((p + 1) / 2) = K at *
      have h1 : (i + a * K) / K = a := by
        rw [Nat.add_mul_div_right _ _ (by omega), Nat.div_eq_of_lt hi, zero_add]
      have h2 : (j + b * K) / K = b := by
        rw [Nat.add_mul_div_right _ _ (by omega), Nat.div_eq_of_lt hj, zero_add]
      rw [← hy, h2] at h1
      exact hab h1.symm

theorem lucky_of_mem {p n j : ℕ} {r : Rng} (h : ∀ i ∈ passDraws p j, drawOf r i ∈ luckySet p n i) : Lucky p n (passAt p r j) := by
  have hu : ∀ i < 2 * ((p + 1) / 2), r.randu (i + j * (2 * ((p + 1) / 2))) ∈ luckySet p n (.randu, i + j * (2 * ((p + 1) / 2))) := fun i hi =>
    h (.randu, i + j * (2 * ((p + 1) / 2))) (by
      simp only [passDraws, Finset.mem_insert, Finset.mem_image, Finset.mem_range]
      exact Or.inr ⟨i, hi, rfl⟩)
  have hm : ∀ i < 2 * ((p + 1) / 2), (i + j * (2 * ((p + 1) / 2))) % (2 * ((p + 1) / 2)) = i := fun i hi => by
    rw [Nat.add_mul_mod_self_right, Nat.mod_eq_of_lt hi]
  refine ⟨fun i hi => ?_, fun i hi => ?_, ?_⟩
  · have := hu i (by omega)
    simp only [luckySet, hm i (by omega), if_pos hi] at this
    exact this
  · have := hu (i + (p + 1) / 2) (by omega)
    simp only [luckySet, hm (i + (p + 1) / 2) (by omega), if_neg (show ¬ i + (p + 1) / 2 < (p + 1) / 2 by omega)] at this
    exact this
  · have := h (.chi2, j * 2) (by simp [passDraws])
    simp only [luckySet, drawOf] at this
    simpa [passAt, Rng.skip] using this

/-- A lower bound for the probability that a pass is lucky. -/
noncomputable def luckyChance (p n : ℕ) : ℝ≥0∞ :=
  min (libLaw (.chiSquared (n - 1 : ℕ)) (Set.Ioi (n / 100))) (libLaw (.chiSquared (50 : ℕ)) (Set.Ioi (n / 100))) *
    ENNReal.ofReal (1 / 10 / (((p + 1) / 2 : ℕ) + 1 : ℝ)) ^ (2 * ((p + 1) / 2))

theorem luckyChance_ne_zero (p : ℕ) {n : ℕ} (hn : 2 ≤ n) : luckyChance p n ≠ 0 := by
  have hn0 : (0 : ℝ) ≤ n / 100 := by positivity
  refine mul_ne_zero
    (lt_min (pos_iff_ne_zero.mpr (chi_Ioi (by omega) hn0)) (pos_iff_ne_zero.mpr (chi_Ioi (by omega) hn0))).ne' (pow_ne_zero _ ?_)
  rw [ne_eq, ENNReal.ofReal_eq_zero, not_le]
  positivity

theorem lucky_low (h : IsDraws P R dof) (p : ℕ) {n : ℕ} (hd : ∀ k, dof k = n - 1 ∨ dof k = 50) (j : ℕ) :
    luckyChance p n ≤ ∏ i ∈ passDraws p j, P ((fun ω => drawOf (R ω) i) ⁻¹' luckySet p n i) := by
  unfold luckyChance
  set K := (p + 1) / 2 with hK
  have hK0 : (0 : ℝ) < (K : ℝ) + 1 := by positivity
  set a : ℝ≥0∞ := ENNReal.ofReal (1 / 10 / ((K : ℝ) + 1)) with ha
  set b : ℝ≥0∞ := min (libLaw (.chiSquared (n - 1 : ℕ)) (Set.Ioi (n / 100))) (libLaw (.chiSquared (50 : ℕ)) (Set.Ioi (n / 100))) with hb
  have hnot : ((Stream.chi2, j * 2) : Stream × ℕ) ∉ (Finset.range (2 * K)).image fun i => ((.randu, i + j * (2 * K)) : Stream × ℕ) := by
    simp
  have hcard : ((Finset.range (2 * K)).image fun i => ((.randu, i + j * (2 * K)) : Stream × ℕ)).card = 2 * K := by
    rw [Finset.card_image_of_injective _ (fun x y hxy => by injection hxy with _ hxy; omega), Finset.card_range]
  rw [passDraws, ← hK, Finset.prod_insert hnot]
  refine mul_le_mul' ?_ ?_
  · rw [h.pre _ (luckySet_meas p n _)]
    show b ≤ libLaw (.chiSquared (dof (j * 2))) (Set.Ioi (n / 100))
    rcases hd (j * 2) with hd | hd
    · rw [hd]; exact min_le_left _ _
    · rw [hd]; exact min_le_right _ _
  · have hpow := Finset.prod_const (s := (Finset.range (2 * K)).image fun i => ((.randu, i + j * (2 * K)) : Stream × ℕ)) a
    rw [hcard] at hpow
    rw [← hpow]
    refine Finset.prod_le_prod' fun i hi => ?_
    rw [h.pre _ (luckySet_meas p n _)]
    obtain ⟨m, hm, rfl⟩ := Finset.mem_image.mp hi
    have hm := Finset.mem_range.mp hm
    show a ≤ libLaw (.uniform 0 1) _
    unfold luckySet
    simp only [← hK, Nat.add_mul_mod_self_right, Nat.mod_eq_of_lt hm]
    split
    · rename_i hmK
      have hmK : (m : ℝ) + 1 ≤ K := by exact_mod_cast hmK
      rw [uniform_Ioo, ha]
      · refine ENNReal.ofReal_le_ofReal (le_of_eq ?_)
        field_simp
        ring
      · apply div_nonneg _ hK0.le
        linarith
      · rw [div_le_one hK0]
        have : (0 : ℝ) ≤ m := Nat.cast_nonneg m
        linarith
    · rw [uniform_Ioo le_rfl, ha]
      · refine ENNReal.ofReal_le_ofReal ?_
        rw [sub_zero]
        exact div_le_div_of_nonneg_right (by norm_num) hK0.le
      · rw [div_le_one hK0]
        have : (0 : ℝ) ≤ K := Nat.cast_nonneg K
        linarith

theorem _root_.Verif.Spec.IsDraws.lucky (h : IsDraws P R dof) {p n : ℕ} (hn : 2 ≤ n) (hd : ∀ k, dof k = n - 1 ∨ dof k = 50) :
    ∀ᵐ ω ∂P, ∀ j, ∃ d, Lucky p n (passAt p (R ω) (j + d)) := by
  have := infinitely_often h.meas h.indep (passDraws_disjoint p) (luckySet_meas p n) (luckyChance_ne_zero p hn) (lucky_low h p hd)
  filter_upwards [this] with ω hω j
  obtain ⟨d, hd⟩ := hω j
  exact ⟨d, lucky_of_mem hd⟩

end Verif.Theory
