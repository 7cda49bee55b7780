import Verif.Theory.Report
import Verif.Theory.KeepsLaw
import Verif.Props.IntRun

/-!
C71: what the steps print.
-/

namespace Verif.Spec

open Verif.Model

/-- The rates printed by RAM steps. -/
def ramRates (out : List Line) : List ℝ := out.filterMap fun l => match l with | .ram x => some x | .exch _ => none

/-- The rates printed by exchange steps. -/
def exchRates (out : List Line) : List ℝ := out.filterMap fun l => match l with | .ram _ => none | .exch x => some x

end Verif.Spec

namespace Verif.Props

open Verif.Model Verif.Spec Verif.Theory
open scoped Classical

/-- **C71, CARp, CARMA, ZCAR.** Everything the steps of a run print, in order, whenever `RunCarmaSampler` returns. With `s1` the sampler after
the starting values, in every sweep the steps are executed in the order of `stepOrder`; in sweep number `burnin` each RAM step prints the
fraction of its moves accepted so far, and whenever the number of sweeps is a positive multiple of `burnin + thin * N` each exchange step prints
the fraction of its swaps accepted since its last report. Nothing else is printed. -/
theorem C71_carma {N burnin nw thin : ℤ} (hb : IsInt burnin)
    (h : runCarmaSamplerI fuel srt N burnin time y yerr p q nw z thin init r = .ok (c, out)) :
    ∃ s s1, carmaSampler srt N.toNat burnin.toNat time y yerr p q nw.toNat z thin.toNat r = .ok s ∧ RunState fuel s init 0 s1 ∧
      s1.steps.map stepKind = stepOrder (nw.toNat - 1) ∧
      out = reports s1 burnin (burnin + thin * N) (burnin.toNat + thin.toNat * N.toNat) := by
  obtain ⟨hN, hw, h1, h2⟩ := C70_carma_domain h
  have hf := fits_of h1 h2
  unfold runCarmaSamplerI at h
  obtain ⟨s, e1, h⟩ := bind_ok_inv h
  obtain ⟨s', e2, h⟩ := bind_ok_inv h
  obtain ⟨c', e3, h⟩ := bind_ok_inv h
  injection h with h
  injection h with _ h
  obtain ⟨g1, g2⟩ := carmaSamplerI_fresh e1
  obtain ⟨t, k1, k2⟩ := rel_ok (carmaSampler_rel hf hw.le N.toNat thin.toNat) e1
  have hT : ∀ c ∈ s.chains, 0 < c.temp := by
    intro c hc
    obtain ⟨var, o, b, -, -, -, hch⟩ := (carmaSampler_inv k1).chain
    obtain ⟨i, hi⟩ := List.mem_iff_getElem?.mp hc
    rw [← k2.chains] at hi
    rw [hch i c hi]
    exact temp_pos _ _
  obtain ⟨s1, m1, m2⟩ := run_out k2 g1 g2 hT hN (fits_total hf hN (int_le hb)) e2
  exact ⟨t, s1, k1, m1, (C33_carma k1 m1).2.1, by rw [← h]; exact m2⟩

/-- **C71, CAR(1).** The same; the only step is the RAM step, so that nothing is printed by exchange steps. -/
theorem C71_car1 {N burnin thin : ℤ} (hb : IsInt burnin) (h : runCar1SamplerI fuel srt N burnin time y yerr thin init r = .ok (c, out)) :
    ∃ s s1, car1Sampler srt burnin.toNat time y yerr r = .ok s ∧ RunState fuel s init 0 s1 ∧
      s1.steps.map stepKind = [(true, 0)] ∧ ∀ R, out = reports s1 burnin R (burnin.toNat + thin.toNat * N.toNat) := by
  obtain ⟨hN, h1, h2⟩ := C70_car1_domain h
  have hf := fits_of h1 h2
  unfold runCar1SamplerI at h
  obtain ⟨s, e1, h⟩ := bind_ok_inv h
  obtain ⟨s', e2, h⟩ := bind_ok_inv h
  obtain ⟨c', e3, h⟩ := bind_ok_inv h
  injection h with h
  injection h with _ h
  obtain ⟨g1, g2⟩ := car1SamplerI_fresh 0 e1
  obtain ⟨t, k1, k2⟩ := rel_ok (car1Sampler_rel hf) e1
  have hB := car1Sampler_inv k1
  have hT : ∀ c ∈ s.chains, 0 < c.temp := by
    intro c hc
    obtain ⟨var, o, b, -, -, -, hch⟩ := hB.chain
    rw [← k2.chains, hch] at hc
    rw [List.mem_singleton.mp hc]
    exact zero_lt_one
  obtain ⟨s1, m1, m2⟩ := run_out k2 g1 g2 hT hN (fits_total hf hN (int_le hb)) e2
  have hk : s1.steps.map stepKind = [(true, 0)] := by
    obtain ⟨s0, s2, init', n1, -, n3, n4⟩ := m1
    cases n4
    obtain ⟨var, a, -, -, e⟩ := hB.steps
    rw [(startLoop_frame n3).2.2, n1.steps, e]
    rfl
  refine ⟨t, s1, k1, m1, hk, fun R => ?_⟩
  rw [← h, m2]
  unfold reports
  congr 1
  funext k
  have hl : s1.steps.length = 1 := by simpa using congrArg List.length hk
  rw [hl]
  have e0 : (s1.steps[0]?).map stepKind = some (true, 0) := by
    have := congrArg (·[0]?) hk
    simpa using this
  simp [List.range_succ, reportAt, e0]

/-! ### the rates for arguments that are not negative -/

lemma nAccepted_le {μ : Type} [Target μ] {d : ℕ} (s : Samp μ d) (j a b : ℕ) : nAccepted s j a b ≤ b - a := by
  unfold nAccepted
  refine (Finset.card_filter_le _ _).trans ?_
  simp

lemma flatMap_single {α : Type} (f : ℕ → List α) {n k : ℕ} (hk : k < n) (hf : ∀ i < n, i ≠ k → f i = []) : (List.range n).flatMap f = f k := by
  induction n with
  | zero => omega
  | succ n ih =>
      rw [List.range_succ, List.flatMap_append]
      by_cases hkn : k = n
      · subst hkn
        rw [List.flatMap_eq_nil_iff.mpr fun i hi => hf i (by have := List.mem_range.mp hi; omega) (by have := List.mem_range.mp hi; omega)]
        simp
      · rw [ih (by omega) fun i hi hne => hf i (by omega) hne]
        simp [hf n (by omega) (fun h => hkn h.symm)]

lemma flatMap_none {α : Type} (f : ℕ → List α) {n : ℕ} (hf : ∀ i < n, f i = []) : (List.range n).flatMap f = [] :=
  List.flatMap_eq_nil_iff.mpr fun i hi => hf i (List.mem_range.mp hi)

lemma stepOrder_even (m i : ℕ) (hi : i ≤ m) : (stepOrder m)[2 * i]? = some (true, m - i) := by
  induction m generalizing i with
  | zero => obtain rfl : i = 0 := by omega
            rfl
  | succ m ih =>
      cases i with
      | zero => rfl
      | succ i =>
          show (stepOrder m)[2 * i]? = _
          rw [ih i (by omega), Nat.add_sub_add_right]

lemma stepOrder_odd (m i : ℕ) (hi : i < m) : (stepOrder m)[2 * i + 1]? = some (false, m - i) := by
  induction m generalizing i with
  | zero => omega
  | succ m ih =>
      cases i with
      | zero => rfl
      | succ i =>
          show (stepOrder m)[2 * i + 1]? = _
          rw [ih i (by omega), Nat.add_sub_add_right]

lemma stepOrder_length (m : ℕ) : (stepOrder m).length = 2 * m + 1 := by
  induction m with
  | zero => rfl
  | succ m ih => show (stepOrder m).length + 1 + 1 = _; omega

lemma flatMap_even {α : Type} (f : ℕ → List α) (g : ℕ → α) (m : ℕ) (h0 : ∀ i ≤ m, f (2 * i) = [g i]) (h1 : ∀ i < m, f (2 * i + 1) = []) :
    (List.range (2 * m + 1)).flatMap f = (List.range (m + 1)).map g := by
  induction m with
  | zero => simpa [List.range_succ] using h0 0 le_rfl
  | succ m ih =>
      rw [show 2 * (m + 1) + 1 = 2 * m + 1 + 1 + 1 by ring, List.range_succ, List.range_succ, List.flatMap_append, List.flatMap_append,
        ih (fun i hi => h0 i (by omega)) (fun i hi => h1 i (by omega)), List.range_succ (n := m + 1), List.map_append]
      have e := h0 (m + 1) le_rfl
      rw [show 2 * (m + 1) = 2 * m + 1 + 1 by ring] at e
      simp [h1 m (by omega), e]

lemma flatMap_odd {α : Type} (f : ℕ → List α) (g : ℕ → α) (m : ℕ) (h0 : ∀ i ≤ m, f (2 * i) = []) (h1 : ∀ i < m, f (2 * i + 1) = [g i]) :
    (List.range (2 * m + 1)).flatMap f = (List.range m).map g := by
  induction m with
  | zero => simpa [List.range_succ] using h0 0 le_rfl
  | succ m ih =>
      rw [show 2 * (m + 1) + 1 = 2 * m + 1 + 1 + 1 by ring, List.range_succ, List.range_succ, List.flatMap_append, List.flatMap_append,
        ih (fun i hi => h0 i (by omega)) (fun i hi => h1 i (by omega)), List.range_succ (n := m), List.map_append]
      have e := h0 (m + 1) le_rfl
      rw [show 2 * (m + 1) = 2 * m + 1 + 1 by ring] at e
      simp [h1 m (by omega), e]

/-- **C71, rates.** For a burn-in and a thinning that are not negative: the RAM steps print one rate each, from the hottest chain down to
chain 0, if there is a burn-in at all; the exchange steps print one rate each, from the hottest chain down to chain 1, if there is a sweep at all.
The rate of a RAM step is the fraction of its moves accepted during the burn-in, the rate of an exchange step is the fraction of its swaps
accepted during the whole run. -/
theorem C71_carma_rates {N burnin nw thin : ℤ} (hb : IsInt burnin) (hb0 : 0 ≤ burnin) (ht : 0 ≤ thin)
    (h : runCarmaSamplerI fuel srt N burnin time y yerr p q nw z thin init r = .ok (c, out)) :
    ∃ s s1, carmaSampler srt N.toNat burnin.toNat time y yerr p q nw.toNat z thin.toNat r = .ok s ∧ RunState fuel s init 0 s1 ∧
      (∀ i < nw.toNat, ∃ a, s1.steps[2 * i]? = some (.ram (nw.toNat - 1 - i) a)) ∧
      (∀ i < nw.toNat - 1, ∃ e, s1.steps[2 * i + 1]? = some (.exch e) ∧ e.idx = nw.toNat - 1 - i) ∧
      ramRates out = (if 0 < burnin then (List.range nw.toNat).map fun i => (nAccepted s1 (2 * i) 0 burnin.toNat : ℝ) / burnin else []) ∧
      exchRates out = (if 0 < burnin + thin * N then
        (List.range (nw.toNat - 1)).map fun i => (nAccepted s1 (2 * i + 1) 0 (burnin + thin * N).toNat : ℝ) / (burnin + thin * N : ℤ) else []) := by
  obtain ⟨hN, hw, -, -⟩ := C70_carma_domain h
  obtain ⟨s, s1, k1, k2, k3, k4⟩ := C71_carma hb h
  have htot : ((burnin.toNat + thin.toNat * N.toNat : ℕ) : ℤ) = burnin + thin * N := by
    push_cast
    rw [Int.toNat_of_nonneg hb0, Int.toNat_of_nonneg ht, Int.toNat_of_nonneg hN]
  have hprod : 0 ≤ thin * N := mul_nonneg ht hN
  have hle : burnin.toNat ≤ burnin.toNat + thin.toNat * N.toNat := Nat.le_add_right _ _
  generalize burnin + thin * N = R at *
  generalize burnin.toNat + thin.toNat * N.toNat = n at *
  have hget : ∀ j : ℕ, (s1.steps[j]?).map stepKind = (stepOrder (nw.toNat - 1))[j]? := by
    intro j
    rw [← k3, List.getElem?_map]
  have hlen : s1.steps.length = 2 * (nw.toNat - 1) + 1 := by
    rw [← stepOrder_length, ← k3, List.length_map]
  have hev : ∀ i ≤ nw.toNat - 1, (s1.steps[2 * i]?).map stepKind = some (true, nw.toNat - 1 - i) := fun i hi => by
    rw [hget, stepOrder_even _ i (by omega)]
  have hod : ∀ i < nw.toNat - 1, (s1.steps[2 * i + 1]?).map stepKind = some (false, nw.toNat - 1 - i) := fun i hi => by
    rw [hget, stepOrder_odd _ i (by omega)]
  refine ⟨s, s1, k1, k2, fun i hi => ?_, fun i hi => ?_, ?_, ?_⟩
  · have := hev i (by omega)
    cases hx : s1.steps[2 * i]? with
    | none => rw [hx] at this; cases this
    | some st =>
        rw [hx] at this
        cases st with
        | exch e => cases this
        | ram j a =>
            injection this with this
            injection this with _ this
            exact ⟨a, by rw [this]⟩
  · have := hod i hi
    cases hx : s1.steps[2 * i + 1]? with
    | none => rw [hx] at this; cases this
    | some st =>
        rw [hx] at this
        cases st with
        | ram j a => cases this
        | exch e =>
            injection this with this
            injection this with _ this
            exact ⟨e, rfl, this⟩
  · rw [k4]
    unfold ramRates reports
    rw [List.filterMap_flatMap]
    simp only [List.filterMap_flatMap]
    split
    · rename_i hpos
      rw [flatMap_single _ (k := burnin.toNat - 1) (by omega)]
      · rw [hlen, flatMap_even _ (fun i => (nAccepted s1 (2 * i) 0 burnin.toNat : ℝ) / burnin), show nw.toNat - 1 + 1 = nw.toNat by omega]
        · intro i hi
          simp only [reportAt, hev i hi]
          rw [if_pos (by omega), show burnin.toNat - 1 + 1 = burnin.toNat by omega]
          have : ((burnin.toNat - 1 : ℕ) : ℝ) + 1 = (burnin : ℝ) := by
            have e : ((burnin.toNat - 1 : ℕ) : ℤ) + 1 = burnin := by omega
            exact_mod_cast congrArg (Int.cast : ℤ → ℝ) e
          simp [this]
        · intro i hi
          simp only [reportAt, hod i hi]
          split <;> simp
      · intro k hk hne
        refine flatMap_none _ fun j hj => ?_
        unfold reportAt
        split
        · rw [if_neg (by omega)]; rfl
        · split <;> simp
        · rfl
    · refine flatMap_none _ fun k hk => flatMap_none _ fun j hj => ?_
      unfold reportAt
      split
      · rw [if_neg (by omega)]; rfl
      · split <;> simp
      · rfl
  · rw [k4]
    unfold exchRates reports
    rw [List.filterMap_flatMap]
    simp only [List.filterMap_flatMap]
    split
    · rename_i hpos
      rw [flatMap_single _ (k := n - 1) (by omega)]
      · rw [hlen, flatMap_odd _ (fun i => (nAccepted s1 (2 * i + 1) 0 R.toNat : ℝ) / (R : ℤ))]
        · intro i hi
          simp only [reportAt, hev i hi]
          split <;> simp
        · intro i hi
          simp only [reportAt, hod i hi]
          have e : ((n - 1 : ℕ) : ℤ) + 1 = R := by omega
          rw [if_pos ⟨hpos, by rw [e]⟩, show n - 1 + 1 - R.toNat = 0 by omega, show n - 1 + 1 = R.toNat by omega]
          simp
      · intro k hk hne
        refine flatMap_none _ fun j hj => ?_
        unfold reportAt
        split
        · split <;> simp
        · rw [if_neg]
          · rfl
          · rintro ⟨-, hd⟩
            have := Int.le_of_dvd (by omega) hd
            omega
        · rfl
    · refine flatMap_none _ fun k hk => flatMap_none _ fun j hj => ?_
      unfold reportAt
      split
      · split <;> simp
      · rw [if_neg (by omega)]; rfl
      · rfl

/-- **C71, CAR(1), rates.** A run prints one number if there is a burn-in, the fraction of moves accepted during the burn-in; otherwise none. -/
theorem C71_car1_rates {N burnin thin : ℤ} (hb : IsInt burnin) (h : runCar1SamplerI fuel srt N burnin time y yerr thin init r = .ok (c, out)) :
    ∃ s s1, car1Sampler srt burnin.toNat time y yerr r = .ok s ∧ RunState fuel s init 0 s1 ∧
      out = if 0 < burnin then [.ram ((nAccepted s1 0 0 burnin.toNat : ℝ) / burnin)] else [] := by
  obtain ⟨s, s1, k1, k2, k3, k4⟩ := C71_car1 hb h
  refine ⟨s, s1, k1, k2, ?_⟩
  rw [k4 0]
  have hle : burnin.toNat ≤ burnin.toNat + thin.toNat * N.toNat := Nat.le_add_right _ _
  generalize burnin.toNat + thin.toNat * N.toNat = n at *
  have hl : s1.steps.length = 1 := by simpa using congrArg List.length k3
  have e0 : (s1.steps[0]?).map stepKind = some (true, 0) := by
    have := congrArg (·[0]?) k3
    simpa using this
  have hrep : ∀ k, (List.range s1.steps.length).flatMap (reportAt s1 burnin 0 k) =
      if burnin = k + 1 then [.ram ((nAccepted s1 0 0 (k + 1) : ℝ) / (k + 1))] else [] := by
    intro k
    rw [hl]
    simp [List.range_succ, reportAt, e0]
  unfold reports
  simp only [hrep]
  split
  · rename_i hpos
    rw [flatMap_single _ (k := burnin.toNat - 1) (by omega) fun i _ hne => if_neg (by omega), if_pos (by omega),
      show burnin.toNat - 1 + 1 = burnin.toNat by omega]
    have : ((burnin.toNat - 1 : ℕ) : ℝ) + 1 = (burnin : ℝ) := by
      have e : ((burnin.toNat - 1 : ℕ) : ℤ) + 1 = burnin := by omega
      exact_mod_cast congrArg (Int.cast : ℤ → ℝ) e
    rw [this]
  · exact flatMap_none _ fun k _ => if_neg (by omega)

lemma reportAt_unit {μ : Type} [Target μ] {d : ℕ} (s : Samp μ d) (B R : ℤ) (k j : ℕ) :
    (∀ x, Line.ram x ∈ reportAt s B R k j → 0 ≤ x ∧ x ≤ 1) ∧ ∀ x, Line.exch x ∈ reportAt s B R k j → 0 ≤ x ∧ x ≤ 1 := by
  unfold reportAt
  split
  · refine ⟨fun x hx => ?_, fun x hx => ?_⟩
    · split at hx
      · obtain rfl : x = _ := by simpa using hx
        have := nAccepted_le s j 0 (k + 1)
        refine ⟨by positivity, div_le_one_of_le₀ ?_ (by positivity)⟩
        exact_mod_cast this
      · simp at hx
    · split at hx <;> simp at hx
  · refine ⟨fun x hx => ?_, fun x hx => ?_⟩
    · split at hx <;> simp at hx
    · split at hx
      · rename_i hR
        obtain rfl : x = _ := by simpa using hx
        have := nAccepted_le s j (k + 1 - R.toNat) (k + 1)
        have h1 : ((nAccepted s j (k + 1 - R.toNat) (k + 1) : ℕ) : ℤ) ≤ R := by omega
        have h2 : (0 : ℝ) < R := by exact_mod_cast hR.1
        refine ⟨by positivity, div_le_one_of_le₀ ?_ h2.le⟩
        exact_mod_cast h1
      · simp at hx
  · exact ⟨fun x hx => by simp at hx, fun x hx => by simp at hx⟩

/-- **C71, fractions.** Every number printed by the steps of a run is between 0 and 1. -/
theorem C71_fractions {N burnin nw thin : ℤ} (hb : IsInt burnin)
    (h : runCarmaSamplerI fuel srt N burnin time y yerr p q nw z thin init r = .ok (c, out)) :
    (∀ x ∈ ramRates out, 0 ≤ x ∧ x ≤ 1) ∧ ∀ x ∈ exchRates out, 0 ≤ x ∧ x ≤ 1 := by
  obtain ⟨s, s1, -, -, -, k4⟩ := C71_carma hb h
  have key : ∀ l ∈ out, ∃ k j, l ∈ reportAt s1 burnin (burnin + thin * N) k j := by
    intro l hl
    rw [k4] at hl
    obtain ⟨k, -, hl⟩ := List.mem_flatMap.mp hl
    obtain ⟨j, -, hl⟩ := List.mem_flatMap.mp hl
    exact ⟨k, j, hl⟩
  constructor
  · intro x hx
    obtain ⟨l, hl, e⟩ := List.mem_filterMap.mp hx
    obtain ⟨k, j, hkj⟩ := key l hl
    cases l with
    | ram y => obtain rfl : y = x := by simpa using e
               exact (reportAt_unit s1 _ _ k j).1 y hkj
    | exch y => simp at e
  · intro x hx
    obtain ⟨l, hl, e⟩ := List.mem_filterMap.mp hx
    obtain ⟨k, j, hkj⟩ := key l hl
    cases l with
    | exch y => obtain rfl : y = x := by simpa using e
                exact (reportAt_unit s1 _ _ k j).2 y hkj
    | ram y => simp at e

/-- A run with two walkers returns and prints two rates of RAM steps and one of an exchange step. -/
example (srt : List ℝ → List ℕ) : ∃ c out, runCarmaSamplerI 0 srt 5 7 (List.ofFn exT) (List.ofFn exY) (List.ofFn exT) 2 0 2 false 3 exθ
    exRng = .ok (c, out) ∧ (ramRates out).length = 2 ∧ (exchRates out).length = 1 := by
  obtain ⟨c, h⟩ := ex_carma_run srt 0 5 7 3
  have hi : IsInt 7 := ⟨by norm_num, by norm_num⟩
  have e := C70_carma (fuel := 0) (srt := srt) (time := List.ofFn exT) (y := List.ofFn exY) (yerr := List.ofFn exT) (p := 2) (q := 0) (z := false)
    (init := exθ) (r := exRng) (N := 5) (burnin := 7) (nw := 2) (thin := 3) hi (by norm_num) (by norm_num)
    ⟨by norm_num, by norm_num⟩ ⟨by norm_num, by norm_num⟩
  rw [show ((5 : ℤ).toNat = 5) from rfl, show ((7 : ℤ).toNat = 7) from rfl, show ((2 : ℤ).toNat = 2) from rfl,
    show ((3 : ℤ).toNat = 3) from rfl, h] at e
  cases hx : runCarmaSamplerI 0 srt 5 7 (List.ofFn exT) (List.ofFn exY) (List.ofFn exT) 2 0 2 false 3 exθ exRng with
  | error f => rw [hx] at e; cases e
  | ok x =>
      obtain ⟨s, s1, -, -, -, -, k5, k6⟩ := C71_carma_rates hi (by norm_num) (by norm_num) (show _ = Except.ok (x.1, x.2) from hx)
      refine ⟨x.1, x.2, rfl, ?_, ?_⟩
      · rw [k5, if_pos (by norm_num)]; simp
      · rw [k6, if_pos (by norm_num)]; simp

end Verif.Props
