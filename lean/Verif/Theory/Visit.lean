import Verif.Theory.Reach
import Verif.Theory.Builders

/-!
Sweeps of parallel tempering with fixed proposals: every set of positive volume is reached, every null set is left.
-/

namespace Verif.Theory

open MeasureTheory Verif.Model Verif.Spec ENNReal Filter Topology

variable {d N : ℕ} {G : LogTarget d} {T : Fin N → ℝ} {ν : Measure ℝ} [IsProbabilityMeasure ν]

/-- The chains with number below `k`. -/
def below (N k : ℕ) : Finset (Fin N) := Finset.univ.filter fun i => (i : ℕ) < k

/-- The same without chain `r`. -/
def belowBut (N k r : ℕ) : Finset (Fin N) := Finset.univ.filter fun i => (i : ℕ) < k ∧ (i : ℕ) ≠ r

theorem mem_image_swap {I : Finset (Fin N)} {i j k : Fin N} : k ∈ I.image (Equiv.swap i j) ↔ Equiv.swap i j k ∈ I := by
  rw [Finset.mem_image]
  constructor
  · rintro ⟨m, hm, rfl⟩
    rw [Equiv.swap_apply_self]; exact hm
  · intro h; exact ⟨_, h, by simp⟩

theorem kinds_zero {l : List (StepSt d)} (h : l.map stepKind = stepOrder 0) : ∃ a, l = [.ram 0 a] := by
  rcases l with _ | ⟨st, _ | ⟨st', l⟩⟩
  · simp [stepOrder] at h
  · cases st with
    | ram i a =>
        simp [stepOrder, stepKind] at h
        exact ⟨a, by rw [h]⟩
    | exch e => simp [stepOrder, stepKind] at h
  · simp [stepOrder] at h

theorem kinds_succ {l : List (StepSt d)} {m : ℕ} (h : l.map stepKind = stepOrder (m + 1)) :
    ∃ a e l', l = .ram (m + 1) a :: .exch e :: l' ∧ e.idx = m + 1 ∧ l'.map stepKind = stepOrder m := by
  rcases l with _ | ⟨st, _ | ⟨st', l⟩⟩
  · simp [stepOrder] at h
  · simp [stepOrder] at h
  · simp only [stepOrder, List.map_cons, List.cons.injEq] at h
    obtain ⟨h1, h2, h3⟩ := h
    cases st with
    | exch e => simp [stepKind] at h1
    | ram i a =>
        cases st' with
        | ram i a => simp [stepKind] at h2
        | exch e =>
            simp only [stepKind, Prod.mk.injEq, true_and] at h1 h2
            exact ⟨a, e, l, by rw [h1], h2, h3⟩

theorem thick_list (hG : MeasTarget G) (hvol : volume {y | (G y).isSome = true} ≠ 0) (hν : volume ≪ ν) {f : (Fin N → Fin d → ℝ) → ℝ≥0∞}
    (hf : Measurable f) {k : ℕ} (h : Thick G (below N k) f) : ∀ {m : ℕ} {l : List (StepSt d)}, m < N → l.map stepKind = stepOrder m →
      (∀ i a, .ram i a ∈ l → a.chol.det ≠ 0) → Thick G (belowBut N k (min m (k - 1))) (avg (rngLaw ν) (listMap G T l) f) := by
  intro m
  induction m with
  | zero =>
      intro l hm hl hdet
      obtain ⟨a, rfl⟩ := kinds_zero hl
      rw [list_avg hG T _ _ hf]
      have e1 : avg (rngLaw ν) (listMap G T []) f = f := avg_id
      rw [e1]
      simp only [stepMap, hm, dif_pos]
      have := thick_ram (T := T) hG hvol (i := ⟨0, hm⟩) (hdet 0 a (by simp)) hν hf h
      convert this using 1
      ext i
      simp only [belowBut, below, Finset.mem_filter, Finset.mem_univ, true_and, Finset.mem_erase, Fin.ext_iff, ne_eq]
      constructor
      · rintro ⟨h1, h2⟩; exact ⟨by omega, h1⟩
      · rintro ⟨h1, h2⟩; exact ⟨h2, by omega⟩
  | succ m ih =>
      intro l hm hl hdet
      obtain ⟨a, e, l', rfl, he, hl'⟩ := kinds_succ hl
      have h1 := ih (by omega) hl' fun i a ha => hdet i a (by simp [ha])
      have m1 : Measurable (avg (rngLaw ν) (listMap G T l') f) := avg_measurable (list_regen (ν := ν) hG T l').meas hf
      have m2 : Measurable (avg (rngLaw ν) (stepMap G T (.exch e)) (avg (rngLaw ν) (listMap G T l') f)) := avg_measurable (step_regen (ν := ν) hG T _).meas m1
      rw [list_avg hG T _ _ hf, list_avg hG T _ _ hf]
      have hi : e.idx < N := by omega
      have h2 := thick_exch (T := T) (ν := ν) hG (i := ⟨e.idx, hi⟩) (j := ⟨e.idx - 1, by omega⟩) m1 h1
      have e2 : exchMap G T ⟨e.idx, hi⟩ ⟨e.idx - 1, by omega⟩ = stepMap G T (.exch e) := by simp only [stepMap, hi, dif_pos]
      rw [e2] at h2
      have h3 := thick_ram (T := T) hG hvol (i := ⟨m + 1, hm⟩) (hdet (m + 1) a (by simp)) hν m2 h2
      have e3 : ramMap G T ⟨m + 1, hm⟩ a.chol = stepMap G T (.ram (m + 1) a) := by simp only [stepMap, hm, dif_pos]
      rw [e3] at h3
      convert h3 using 1
      ext i
      simp only [belowBut, Finset.mem_erase, mem_image_swap, Finset.mem_filter, Finset.mem_univ, true_and, ne_eq]
      by_cases i1 : i = ⟨e.idx, hi⟩
      · subst i1
        simp only [Equiv.swap_apply_left, Fin.ext_iff]
        constructor
        · rintro ⟨g1, g2⟩; omega
        · rintro ⟨g1, g2, g3⟩; omega
      · by_cases i2 : i = ⟨e.idx - 1, by omega⟩
        · subst i2
          simp only [Equiv.swap_apply_right, Fin.ext_iff]
          constructor
          · rintro ⟨g1, g2⟩; refine ⟨by omega, by omega, by omega⟩
          · rintro ⟨g1, g2, g3⟩; omega
        · rw [Equiv.swap_apply_of_ne_of_ne i1 i2]
          have j1 : (i : ℕ) ≠ e.idx := fun hc => i1 (Fin.ext hc)
          have j2 : (i : ℕ) ≠ e.idx - 1 := fun hc => i2 (Fin.ext hc)
          simp only [Fin.ext_iff]
          constructor
          · rintro ⟨g1, g2⟩; refine ⟨by omega, by omega, by omega⟩
          · rintro ⟨g1, g2, g3⟩; omega

/-- A stack of steps for `N` chains, all proposals with invertible factors. -/
structure Stack (N : ℕ) (l : List (StepSt d)) : Prop where
  pos : 0 < N
  kinds : l.map stepKind = stepOrder (N - 1)
  det : ∀ i a, .ram i a ∈ l → a.chol.det ≠ 0

theorem avg_iterate (hG : MeasTarget G) (l : List (StepSt d)) {f : (Fin N → Fin d → ℝ) → ℝ≥0∞} (hf : Measurable f) (n : ℕ) :
    avg (rngLaw ν) (listMap G T l)^[n + 1] f = avg (rngLaw ν) (listMap G T l) (avg (rngLaw ν) (listMap G T l)^[n] f) := by
  rw [Function.iterate_succ]
  exact avg_comp ((list_regen (ν := ν) hG T l).iterate n).meas (list_regen hG T l) hf

theorem thick_sweeps (hG : MeasTarget G) (hvol : volume {y | (G y).isSome = true} ≠ 0) (hν : volume ≪ ν) {l : List (StepSt d)} (hl : Stack N l)
    {f : (Fin N → Fin d → ℝ) → ℝ≥0∞} (hf : Measurable f) (h : Thick G Finset.univ f) (n : ℕ) :
    Thick G (below N (N - n)) (avg (rngLaw ν) (listMap G T l)^[n] f) := by
  induction n with
  | zero =>
      have e : below N (N - 0) = Finset.univ := by ext i; simp [below]
      rw [e]
      simp only [Function.iterate_zero, avg_id]
      exact h
  | succ n ih =>
      rw [avg_iterate hG l hf]
      have m1 : Measurable (avg (rngLaw ν) (listMap G T l)^[n] f) := avg_measurable ((list_regen (ν := ν) hG T l).iterate n).meas hf
      have hp := hl.pos
      have := thick_list (T := T) hG hvol hν m1 ih (m := N - 1) (by omega) hl.kinds hl.det
      convert this using 1
      ext i
      simp only [below, belowBut, Finset.mem_filter, Finset.mem_univ, true_and, ne_eq]
      omega

/-- Every set of positive volume is reached in `N` sweeps or more. -/
theorem reach (hG : MeasTarget G) (hvol : volume {y | (G y).isSome = true} ≠ 0) (hν : volume ≪ ν) {l : List (StepSt d)} (hl : Stack N l)
    {A : Set (Fin N → Fin d → ℝ)} (hA : MeasurableSet A) (hpos : volume (A ∩ {x | Alive G x}) ≠ 0) {n : ℕ} (hn : N ≤ n)
    {x : Fin N → Fin d → ℝ} (hx : Alive G x) : rngLaw ν {w | ((listMap G T l)^[n] (x, w)).1 ∈ A} ≠ 0 := by
  have hf : Measurable (A.indicator (1 : (Fin N → Fin d → ℝ) → ℝ≥0∞)) := measurable_one.indicator hA
  have h0 : Thick G Finset.univ (A.indicator (1 : (Fin N → Fin d → ℝ) → ℝ≥0∞)) := by
    intro y _ hcon
    have e : ∀ v : Fin N → Fin d → ℝ, mix Finset.univ v y = v := fun v => by funext k; simp [mix]
    simp only [e] at hcon
    refine hpos (measure_mono_null (fun v hv => ?_) hcon)
    rintro hc
    exact hc ⟨hv.2, by rw [Set.indicator_of_mem hv.1]; exact one_ne_zero⟩
  have h1 := thick_sweeps (T := T) hG hvol hν hl hf h0 n x hx
  rw [← avg_indicator ((list_regen (ν := ν) hG T l).iterate n).meas hA]
  intro hcon
  refine h1 (Eventually.of_forall fun v hv => hv.2 ?_)
  have e : mix (below N (N - n)) v x = x := by
    funext k
    simp [mix, below, show N - n = 0 by omega]
  rw [e]; exact hcon

theorem small_list (hG : MeasTarget G) (hν : ν ≪ volume) {f : (Fin N → Fin d → ℝ) → ℝ≥0∞} (hf : Measurable f) {Q : Set (Fin d → ℝ)}
    {c C : ℝ≥0∞} (h : Small Q f fun j => C * c ^ (j : ℕ)) : ∀ {m : ℕ} {l : List (StepSt d)}, m < N → l.map stepKind = stepOrder m →
      (∀ i a, .ram i a ∈ l → a.chol.det ≠ 0) → (∀ i a, .ram (i : ℕ) a ∈ l → ∀ q ∈ Q, stay ν G (T i) a.chol q ≤ c) →
      Small Q (avg (rngLaw ν) (listMap G T l) f) fun j => C * c ^ (if (j : ℕ) ≤ m then (j : ℕ) + 1 else j) := by
  intro m
  induction m with
  | zero =>
      intro l hm hl hdet hc
      obtain ⟨a, rfl⟩ := kinds_zero hl
      rw [list_avg hG T _ _ hf]
      have e1 : avg (rngLaw ν) (listMap G T []) f = f := avg_id
      rw [e1]
      simp only [stepMap, hm, dif_pos]
      have := small_ram (T := T) hG (i := ⟨0, hm⟩) (hdet 0 a (by simp)) hν (hc ⟨0, hm⟩ a (by simp)) hf h
      refine this.mono fun j => le_of_eq ?_
      by_cases hj : j = ⟨0, hm⟩
      · subst hj
        simp [mul_comm]
      · have hj' : (j : ℕ) ≠ 0 := fun hc => hj (Fin.ext hc)
        rw [Function.update_of_ne hj, if_neg (by omega)]
  | succ m ih =>
      intro l hm hl hdet hc
      obtain ⟨a, e, l', rfl, he, hl'⟩ := kinds_succ hl
      have h1 := ih (by omega) hl' (fun i a ha => hdet i a (by simp [ha])) fun i a ha => hc i a (by simp [ha])
      have m1 : Measurable (avg (rngLaw ν) (listMap G T l') f) := avg_measurable (list_regen (ν := ν) hG T l').meas hf
      have m2 : Measurable (avg (rngLaw ν) (stepMap G T (.exch e)) (avg (rngLaw ν) (listMap G T l') f)) := avg_measurable (step_regen (ν := ν) hG T _).meas m1
      rw [list_avg hG T _ _ hf, list_avg hG T _ _ hf]
      have hi : e.idx < N := by omega
      have h2 := small_exch (T := T) (ν := ν) hG (i := ⟨e.idx, hi⟩) (j := ⟨e.idx - 1, by omega⟩) m1 (by
        dsimp only
        rw [if_neg (by omega), if_pos (by omega), show e.idx - 1 + 1 = e.idx by omega]) h1
      have e2 : exchMap G T ⟨e.idx, hi⟩ ⟨e.idx - 1, by omega⟩ = stepMap G T (.exch e) := by simp only [stepMap, hi, dif_pos]
      rw [e2] at h2
      have h3 := small_ram (T := T) hG (i := ⟨m + 1, hm⟩) (hdet (m + 1) a (by simp)) hν (hc ⟨m + 1, hm⟩ a (by simp)) m2 h2
      have e3 : ramMap G T ⟨m + 1, hm⟩ a.chol = stepMap G T (.ram (m + 1) a) := by simp only [stepMap, hm, dif_pos]
      rw [e3] at h3
      refine h3.mono fun j => le_of_eq ?_
      by_cases hj : j = ⟨m + 1, hm⟩
      · subst hj
        rw [Function.update_self]
        simp only [show ¬ m + 1 ≤ m by omega, if_false, le_refl, if_true]
        rw [pow_succ c (m + 1)]
        ring
      · have hj' : (j : ℕ) ≠ m + 1 := fun hc => hj (Fin.ext hc)
        rw [Function.update_of_ne hj]
        congr 2
        by_cases hjm : (j : ℕ) ≤ m
        · rw [if_pos hjm, if_pos (by omega)]
        · rw [if_neg hjm, if_neg (by omega)]

theorem small_sweeps (hG : MeasTarget G) (hν : ν ≪ volume) {l : List (StepSt d)} (hl : Stack N l) {f : (Fin N → Fin d → ℝ) → ℝ≥0∞}
    (hf : Measurable f) {Q : Set (Fin d → ℝ)} {c : ℝ≥0∞} (hc : ∀ i a, .ram (i : ℕ) a ∈ l → ∀ q ∈ Q, stay ν G (T i) a.chol q ≤ c) (n : ℕ) :
    ∀ {C : ℝ≥0∞}, Small Q f (fun j => C * c ^ (j : ℕ)) → Small Q (avg (rngLaw ν) (listMap G T l)^[n] f) fun j => C * c ^ n * c ^ (j : ℕ) := by
  induction n with
  | zero =>
      intro C h
      simp only [Function.iterate_zero, avg_id, pow_zero, mul_one]
      exact h
  | succ n ih =>
      intro C h
      rw [avg_iterate hG l hf]
      have m1 : Measurable (avg (rngLaw ν) (listMap G T l)^[n] f) := avg_measurable ((list_regen (ν := ν) hG T l).iterate n).meas hf
      have hp := hl.pos
      have := small_list (T := T) hG hν m1 (ih h) (m := N - 1) (by omega) hl.kinds hl.det hc
      refine this.mono fun j => le_of_eq ?_
      rw [if_pos (by omega), pow_succ, pow_succ]
      ring

/-- A common bound, below 1, for the probabilities to stay. -/
theorem stay_bound (hG : MeasTarget G) (hvol : volume {y | (G y).isSome = true} ≠ 0) (hν : volume ≪ ν) {l : List (StepSt d)} (hl : Stack N l)
    {x : Fin N → Fin d → ℝ} (hx : Alive G x) :
    ∃ c : ℝ≥0∞, c ≠ 0 ∧ c < 1 ∧ ∀ i a, .ram (i : ℕ) a ∈ l → ∀ q ∈ Set.range x, stay ν G (T i) a.chol q ≤ c := by
  let g : Fin N × Fin N × Fin l.length → ℝ≥0∞ := fun z => match l.get z.2.2 with
    | .ram _ a => stay ν G (T z.1) a.chol (x z.2.1)
    | .exch _ => 0
  have hg : ∀ z, g z < 1 := by
    intro z
    have hmem := List.get_mem l z.2.2
    show (match l.get z.2.2 with
      | .ram _ a => stay ν G (T z.1) a.chol (x z.2.1)
      | .exch _ => 0) < 1
    generalize l.get z.2.2 = st at hmem
    cases st with
    | ram i a => exact stay_lt_one hG hvol (hl.det i a hmem) hν _ (hx _)
    | exch e => exact zero_lt_one
  refine ⟨max (1 / 2) (Finset.univ.sup g), ?_, ?_, ?_⟩
  · exact (lt_max_of_lt_left (by simp)).ne'
  · refine max_lt ?_ ((Finset.sup_lt_iff (by simp)).mpr fun z _ => hg z)
    rw [one_div]
    exact ENNReal.inv_lt_one.mpr (by norm_num)
  · rintro i a ha q ⟨k, rfl⟩
    obtain ⟨n, hn⟩ := List.get_of_mem ha
    refine le_trans ?_ (le_max_right _ _)
    have : g (i, k, n) ≤ Finset.univ.sup g := Finset.le_sup (Finset.mem_univ _)
    refine le_trans (le_of_eq ?_) this
    show _ = match l.get n with
      | .ram _ a => stay ν G (T i) a.chol (x k)
      | .exch _ => 0
    rw [hn]

/-- Null sets are left. -/
theorem leave (hG : MeasTarget G) (hvol : volume {y | (G y).isSome = true} ≠ 0) (hν : volume ≪ ν) (hν' : ν ≪ volume) {l : List (StepSt d)}
    (hl : Stack N l) {A : Set (Fin N → Fin d → ℝ)} (hA : MeasurableSet A) (h0 : volume A = 0) {x : Fin N → Fin d → ℝ} (hx : Alive G x) :
    Tendsto (fun n => rngLaw ν {w | ((listMap G T l)^[n] (x, w)).1 ∈ A}) atTop (𝓝 0) := by
  obtain ⟨c, hc0, hc1, hc⟩ := stay_bound (T := T) hG hvol hν hl hx
  have hf : Measurable (A.indicator (1 : (Fin N → Fin d → ℝ) → ℝ≥0∞)) := measurable_one.indicator hA
  have hcN : c ^ N ≠ 0 := pow_ne_zero _ hc0
  have hcT : c ^ N ≠ ⊤ := ENNReal.pow_ne_top (hc1.trans one_lt_top).ne
  have hs : Small (Set.range x) (A.indicator (1 : (Fin N → Fin d → ℝ) → ℝ≥0∞)) fun j => (c ^ N)⁻¹ * c ^ (j : ℕ) := by
    intro O y _
    rcases O.eq_empty_or_nonempty with rfl | ⟨j, hj⟩
    · have hn : ∀ᵐ v : Fin N → Fin d → ℝ, v ∉ A := measure_eq_zero_iff_ae_notMem.mp h0
      refine hn.mono fun v hv => ?_
      have e : mix (∅ : Finset (Fin N))ᶜ v y = v := by funext k; simp [mix]
      rw [e, Set.indicator_of_notMem hv]
      exact zero_le
    · refine Eventually.of_forall fun v => ?_
      have h1 : (1 : ℝ≥0∞) ≤ (c ^ N)⁻¹ * c ^ (j : ℕ) := by
        rw [← ENNReal.inv_mul_cancel hcN hcT]
        exact mul_le_mul_right (pow_le_pow_right_of_le_one' hc1.le (by omega)) _
      have h2 : A.indicator (1 : (Fin N → Fin d → ℝ) → ℝ≥0∞) (mix Oᶜ v y) ≤ 1 := Set.indicator_le_self' (fun _ _ => zero_le) _
      exact h2.trans (h1.trans (Finset.single_le_sum (f := fun j : Fin N => (c ^ N)⁻¹ * c ^ (j : ℕ)) (fun _ _ => zero_le) hj))
  have hbound : ∀ n, rngLaw ν {w | ((listMap G T l)^[n] (x, w)).1 ∈ A} ≤ (∑ j : Fin N, (c ^ N)⁻¹ * c ^ (j : ℕ)) * c ^ n := by
    intro n
    have h1 := small_sweeps (T := T) hG hν' hl hf hc n hs Finset.univ x fun j _ => ⟨j, rfl⟩
    rw [← avg_indicator ((list_regen (ν := ν) hG T l).iterate n).meas hA]
    obtain ⟨v, hv⟩ := h1.exists
    have e : mix (Finset.univ : Finset (Fin N))ᶜ v x = x := by funext k; simp [mix]
    rw [e] at hv
    refine hv.trans (le_of_eq ?_)
    rw [Finset.sum_mul]
    exact Finset.sum_congr rfl fun j _ => by ring
  refine tendsto_of_tendsto_of_tendsto_of_le_of_le tendsto_const_nhds ?_ (fun _ => zero_le) hbound
  have hfin : (∑ j : Fin N, (c ^ N)⁻¹ * c ^ (j : ℕ)) ≠ ⊤ := by
    refine ENNReal.sum_ne_top.mpr fun j _ => ENNReal.mul_ne_top (ENNReal.inv_ne_top.mpr hcN) (ENNReal.pow_ne_top (hc1.trans one_lt_top).ne)
  have := ENNReal.Tendsto.const_mul (ENNReal.tendsto_pow_atTop_nhds_zero_of_lt_one hc1) (Or.inr hfin)
  simpa using this

end Verif.Theory
