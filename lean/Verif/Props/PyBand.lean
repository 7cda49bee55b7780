import Mathlib.Algebra.Order.Floor.Semifield
import Verif.Theory.PyBand
import Verif.Props.PySample

/-!
Property C63: what `plot_power_spectrum` shows: frequencies, spectra of the samples, and the band between two percentiles with the median.
-/

namespace Verif.Props

open Verif.Model Verif.Spec Verif.Theory

open scoped Classical

variable {p : ℕ}

/-! ### percentiles and the band -/

/-- **C63.** A percentile `v` of `n` values lies between two of them; at least `1 + ⌊q/100·(n-1)⌋` values are at most `v` and at least
`n - ⌈q/100·(n-1)⌉` are at least `v`; a larger percentage does not give a smaller value. Out of range the call raises, and for no values the
result is NaN. -/
theorem C63_percentile {l : List ℝ} (hl : l ≠ []) {q : ℝ} (h0 : 0 ≤ q) (h1 : q ≤ 100) :
    ∃ v, Py.percentile l q = .ok v ∧ (∃ a ∈ l, a ≤ v) ∧ (∃ b ∈ l, v ≤ b) ∧
      ⌊q / 100 * ((l.length : ℝ) - 1)⌋₊ + 1 ≤ l.countP (fun x => decide (x ≤ v)) ∧
      l.length - ⌈q / 100 * ((l.length : ℝ) - 1)⌉₊ ≤ l.countP (fun x => decide (v ≤ x)) ∧
      ∀ q', q ≤ q' → q' ≤ 100 → ∃ v', Py.percentile l q' = .ok v' ∧ v ≤ v' := by
  have hpos : 0 < l.length := List.length_pos_iff.mpr hl
  have hn : (0 : ℝ) ≤ (l.length : ℝ) - 1 := by
    have : (1 : ℝ) ≤ l.length := by exact_mod_cast hpos
    linarith
  have hh : 0 ≤ q / 100 * ((l.length : ℝ) - 1) := by positivity
  have hle : q / 100 * ((l.length : ℝ) - 1) ≤ ((l.length - 1 : ℕ) : ℝ) := by
    rw [Nat.cast_sub hpos, Nat.cast_one]; nlinarith
  have hfl : ⌊q / 100 * ((l.length : ℝ) - 1)⌋₊ ≤ l.length - 1 := (Nat.floor_le_floor hle).trans_eq (Nat.floor_natCast _)
  refine ⟨_, percentile_ok hl h0 h1, (lerp_mem hl hh).1, (lerp_mem hl hh).2, ?_, ?_, fun q' h2 h3 => ⟨_, percentile_ok hl (h0.trans h2) h3, ?_⟩⟩
  · exact count_ge l (fun x => x ≤ _) (a := 0) (b := ⌊q / 100 * ((l.length : ℝ) - 1)⌋₊ + 1) (by omega) fun k _ hk =>
      (ordStat_mono l (by omega)).trans (lerp_le (ordStat_mono l) hh).1
  · exact count_ge l (fun x => _ ≤ x) le_rfl fun k hk _ => (lerp_le_ceil (ordStat_mono l) hh).trans (ordStat_mono l hk)
  · exact lerp_mono (ordStat_mono l) hh (by gcongr)

/-- **C63.** On equally spaced values the percentile interpolates linearly, and the median is the percentile at 50. -/
theorem C63_percentile_exact (a d : ℝ) (hd : 0 ≤ d) {n : ℕ} (hn : 0 < n) {l : List ℝ} (hl : l.Perm ((List.range n).map fun k : ℕ => a + d * k))
    {q : ℝ} (h0 : 0 ≤ q) (h1 : q ≤ 100) :
    Py.percentile l q = .ok (a + d * (q / 100 * ((n : ℝ) - 1))) ∧ Py.median l = Py.percentile l 50 := by
  have hlen : l.length = n := by rw [hl.length_eq]; simp
  have hne : l ≠ [] := by rw [← List.length_pos_iff]; omega
  have hs : Py.npSort l = (List.range n).map fun k : ℕ => a + d * k := by
    refine ((npSort_perm l).trans hl).eq_of_pairwise (fun _ _ _ _ => le_antisymm) (npSort_sorted l) ?_
    rw [List.pairwise_map]
    refine List.pairwise_lt_range.imp fun {i j} hij => ?_
    have : (i : ℝ) ≤ j := by exact_mod_cast hij.le
    nlinarith
  have ho : ∀ k < n, ordStat l k = a + d * k := by
    intro k hk
    rw [ordStat_eq (by omega)]
    simp [hs]
  have hpos' : (1 : ℝ) ≤ n := by exact_mod_cast hn
  constructor
  · rw [percentile_ok hne h0 h1, hlen]
    congr 1
    set h := q / 100 * ((n : ℝ) - 1) with hh
    have hh0 : 0 ≤ h := by have : 0 ≤ (n : ℝ) - 1 := by linarith
                           positivity
    have hle : h ≤ (n : ℝ) - 1 := by rw [hh]; nlinarith
    have hf := Nat.floor_le hh0
    have hfn : ⌊h⌋₊ < n := by
      have : (⌊h⌋₊ : ℝ) < n := by linarith
      exact_mod_cast this
    unfold lerp
    rw [ho _ hfn]
    rcases Nat.lt_or_ge (⌊h⌋₊ + 1) n with h2 | h2
    · rw [ho _ h2]; push_cast; ring
    · have h3 : (n : ℝ) ≤ ⌊h⌋₊ + 1 := by exact_mod_cast h2
      have h4 : h = ⌊h⌋₊ := by linarith
      have h5 : h - (⌊h⌋₊ : ℝ) = 0 := by linarith
      rw [h5, zero_mul, add_zero, ← h4]
  · rw [median_eq hne, percentile_ok hne (by norm_num) (by norm_num)]
    norm_num

/-- **C63.** Errors of the percentile. -/
theorem C63_percentile_fail (l : List ℝ) (q : ℝ) : (q < 0 ∨ 100 < q → Py.percentile l q = .error .runtime) ∧
    (0 ≤ q → q ≤ 100 → Py.percentile [] q = .error .nonfinite) :=
  ⟨fun h => if_pos h, fun h0 h1 => by rw [Py.percentile, if_neg (by push Not; exact ⟨h0, h1⟩), if_pos rfl]⟩

/-- **C63.** The three curves at one frequency, for `n` values of the spectrum and a percentage from 0 to 100: lower limit ≤ median ≤ upper
limit, all within the range of the values; at least half of the values on either side of the median; more than `pct/100·(n-1) - 1` of the values
inside the limits; fewer than `(100-pct)/200·(n-1) + 1` below and above; the order of the samples does not matter; a larger percentage
gives a wider band, and 100 percent the whole range. -/
theorem C63_band {l : List ℝ} (hl : l ≠ []) {pct : ℝ} (h0 : 0 ≤ pct) (h1 : pct ≤ 100) :
    ∃ lo md hi, Py.bandAt l pct = .ok (lo, md, hi) ∧ lo ≤ md ∧ md ≤ hi ∧ (∃ a ∈ l, a ≤ lo) ∧ (∃ b ∈ l, hi ≤ b) ∧
      l.length ≤ 2 * l.countP (fun x => decide (x ≤ md)) ∧ l.length ≤ 2 * l.countP (fun x => decide (md ≤ x)) ∧
      pct / 100 * ((l.length : ℝ) - 1) - 1 < l.countP (fun x => decide (lo ≤ x ∧ x ≤ hi)) ∧
      (l.countP (fun x => decide (x < lo)) : ℝ) < (100 - pct) / 200 * ((l.length : ℝ) - 1) + 1 ∧
      (l.countP (fun x => decide (hi < x)) : ℝ) < (100 - pct) / 200 * ((l.length : ℝ) - 1) + 1 ∧
      (∀ l', l.Perm l' → Py.bandAt l' pct = .ok (lo, md, hi)) ∧
      (∀ pct', pct ≤ pct' → pct' ≤ 100 → ∃ lo' hi', Py.bandAt l pct' = .ok (lo', md, hi') ∧ lo' ≤ lo ∧ hi ≤ hi') ∧
      (pct = 100 → ∀ x ∈ l, lo ≤ x ∧ x ≤ hi) := by
  have hpos : 0 < l.length := List.length_pos_iff.mpr hl
  have hnn : (1 : ℝ) ≤ l.length := by exact_mod_cast hpos
  set N : ℝ := (l.length : ℝ) - 1 with hN
  have hn : 0 ≤ N := by linarith
  have hcast : ((l.length - 1 : ℕ) : ℝ) = N := by rw [Nat.cast_sub hpos, Nat.cast_one]
  have hS := ordStat_mono l
  have hfl : ∀ {c : ℝ}, c ≤ 1 → ⌊c * N⌋₊ ≤ l.length - 1 := fun {c} hc => by
    refine (Nat.floor_le_floor (b := ((l.length - 1 : ℕ) : ℝ)) ?_).trans_eq (Nat.floor_natCast _)
    rw [hcast]; nlinarith
  -- counts on either side of an interpolated value
  have hbelow : ∀ c : ℝ, 0 ≤ c → c ≤ 1 → ⌊c * N⌋₊ + 1 ≤ l.countP (fun x => decide (x ≤ lerp (ordStat l) (c * N))) := fun c hc hc1 =>
    count_ge l (fun x => x ≤ _) (a := 0) (b := ⌊c * N⌋₊ + 1) (by have := hfl hc1; omega) fun k _ hk =>
      (hS (by omega)).trans (lerp_le hS (mul_nonneg hc hn)).1
  have habove : ∀ c : ℝ, 0 ≤ c → l.length - ⌈c * N⌉₊ ≤ l.countP (fun x => decide (lerp (ordStat l) (c * N) ≤ x)) := fun c hc =>
    count_ge l (fun x => _ ≤ x) le_rfl fun k hk _ => (lerp_le_ceil hS (mul_nonneg hc hn)).trans (hS hk)
  have hcl : ∀ {c : ℝ}, c ≤ 1 → ⌈c * N⌉₊ ≤ l.length - 1 := fun {c} hc => by
    refine Nat.ceil_le.mpr ?_
    rw [hcast]; nlinarith
  have hsplit : ∀ P : ℝ → Prop, l.countP (fun x => decide (P x)) + l.countP (fun x => decide (¬ P x)) = l.length := by
    intro P
    have := List.length_eq_countP_add_countP (fun x => decide (P x)) (l := l)
    simp only [decide_eq_true_eq] at this
    exact this.symm
  have c1 : 0 ≤ (100 - pct) / 2 / 100 := by linarith
  have c2 : (100 - pct) / 2 / 100 ≤ 1 / 2 := by linarith
  have c3 : 1 / 2 ≤ (100 - (100 - pct) / 2) / 100 := by linarith
  have c4 : (100 - (100 - pct) / 2) / 100 ≤ 1 := by linarith
  have c5 : 0 ≤ (100 - (100 - pct) / 2) / 100 := by linarith
  have hband : ∀ {x : ℝ}, 0 ≤ x → x ≤ 100 → Py.bandAt l x = .ok (lerp (ordStat l) ((100 - x) / 2 / 100 * N), lerp (ordStat l) (1 / 2 * N),
      lerp (ordStat l) ((100 - (100 - x) / 2) / 100 * N)) := fun h0 h1 => bandAt_ok hl h0 h1
  refine ⟨_, _, _, hband h0 h1, ?_, ?_, (lerp_mem hl (by positivity)).1, (lerp_mem hl (mul_nonneg c5 hn)).2, ?_, ?_, ?_, ?_, ?_, ?_, ?_, ?_⟩
  · exact lerp_mono hS (by positivity) (mul_le_mul_of_nonneg_right c2 hn)
  · exact lerp_mono hS (by positivity) (mul_le_mul_of_nonneg_right c3 hn)
  · have h2 := hbelow (1/2) (by norm_num) (by norm_num)
    have h3 : (l.length : ℝ) < 2 * (⌊(1/2 : ℝ) * N⌋₊ + 1) + 1 := by
      have := Nat.lt_floor_add_one ((1/2 : ℝ) * N)
      linarith
    have h4 : l.length < 2 * (⌊(1/2 : ℝ) * N⌋₊ + 1) + 1 := by exact_mod_cast h3
    omega
  · have h2 := habove (1/2) (by norm_num)
    have h3 : (⌈(1/2 : ℝ) * N⌉₊ : ℝ) < 1/2 * N + 1 := Nat.ceil_lt_add_one (by positivity)
    have h4 : (2 * ⌈(1/2 : ℝ) * N⌉₊ : ℝ) < l.length + 1 := by linarith
    have h5 : 2 * ⌈(1/2 : ℝ) * N⌉₊ < l.length + 1 := by exact_mod_cast h4
    omega
  · have h2 : ⌊(100 - (100 - pct) / 2) / 100 * N⌋₊ + 1 - ⌈(100 - pct) / 2 / 100 * N⌉₊ ≤ l.countP (fun x =>
        decide (lerp (ordStat l) ((100 - pct) / 2 / 100 * N) ≤ x ∧ x ≤ lerp (ordStat l) ((100 - (100 - pct) / 2) / 100 * N))) :=
      count_ge l (fun x => _ ≤ x ∧ x ≤ _) (a := ⌈(100 - pct) / 2 / 100 * N⌉₊) (b := ⌊(100 - (100 - pct) / 2) / 100 * N⌋₊ + 1) (by have := hfl c4; omega) fun k hk hk2 =>
        ⟨(lerp_le_ceil hS (mul_nonneg c1 hn)).trans (hS hk), (hS (by omega)).trans (lerp_le hS (mul_nonneg c5 hn)).1⟩
    have h3 := Nat.lt_floor_add_one ((100 - (100 - pct) / 2) / 100 * N)
    have h4 := Nat.ceil_lt_add_one (mul_nonneg c1 hn)
    have h5 : ((⌊(100 - (100 - pct) / 2) / 100 * N⌋₊ + 1 : ℕ) : ℝ) - ⌈(100 - pct) / 2 / 100 * N⌉₊ ≤
        ((⌊(100 - (100 - pct) / 2) / 100 * N⌋₊ + 1 - ⌈(100 - pct) / 2 / 100 * N⌉₊ : ℕ) : ℝ) := by
      rw [sub_le_iff_le_add]; norm_cast; omega
    have h6 : ((⌊(100 - (100 - pct) / 2) / 100 * N⌋₊ + 1 - ⌈(100 - pct) / 2 / 100 * N⌉₊ : ℕ) : ℝ) ≤ _ := Nat.cast_le.mpr h2
    refine lt_of_lt_of_le ?_ (h5.trans h6)
    push_cast
    nlinarith
  · have h2 := habove _ c1
    have h3 := hsplit fun x => lerp (ordStat l) ((100 - pct) / 2 / 100 * N) ≤ x
    simp only [not_le] at h3
    have h4 := Nat.ceil_lt_add_one (mul_nonneg c1 hn)
    have h5 : l.countP (fun x => decide (x < lerp (ordStat l) ((100 - pct) / 2 / 100 * N))) ≤ ⌈(100 - pct) / 2 / 100 * N⌉₊ := by omega
    have h6 : (l.countP (fun x => decide (x < lerp (ordStat l) ((100 - pct) / 2 / 100 * N))) : ℝ) ≤ ⌈(100 - pct) / 2 / 100 * N⌉₊ := by exact_mod_cast h5
    refine lt_of_le_of_lt h6 (h4.trans_le ?_)
    apply le_of_eq; ring
  · have h2 := hbelow _ c5 c4
    have h3 := hsplit fun x => x ≤ lerp (ordStat l) ((100 - (100 - pct) / 2) / 100 * N)
    simp only [not_le] at h3
    have h4 := Nat.lt_floor_add_one ((100 - (100 - pct) / 2) / 100 * N)
    have h5 : l.countP (fun x => decide (lerp (ordStat l) ((100 - (100 - pct) / 2) / 100 * N) < x)) + (⌊(100 - (100 - pct) / 2) / 100 * N⌋₊ + 1) ≤ l.length := by
      omega
    have h6 : (l.countP (fun x => decide (lerp (ordStat l) ((100 - (100 - pct) / 2) / 100 * N) < x)) : ℝ) +
        (⌊(100 - (100 - pct) / 2) / 100 * N⌋₊ + 1) ≤ l.length := by exact_mod_cast h5
    nlinarith
  · intro l' hp
    rw [← bandAt_perm hp, hband h0 h1]
  · intro pct' h2 h3
    refine ⟨_, _, hband (h0.trans h2) h3, ?_, ?_⟩
    · exact lerp_mono hS (mul_nonneg (by linarith) hn) (mul_le_mul_of_nonneg_right (by linarith) hn)
    · exact lerp_mono hS (mul_nonneg c5 hn) (mul_le_mul_of_nonneg_right (by linarith) hn)
  · rintro rfl x hx
    obtain ⟨k, hk, rfl⟩ := List.getElem_of_mem ((npSort_perm l).mem_iff.mpr hx)
    rw [npSort_length] at hk
    rw [← ordStat_eq hk]
    constructor
    · refine (lerp_le_ceil hS (mul_nonneg c1 hn)).trans (hS ?_)
      norm_num
    · refine le_trans (hS ?_) (lerp_le hS (mul_nonneg c5 hn)).1
      rw [show (100 - (100 - 100) / 2) / 100 * N = ((l.length - 1 : ℕ) : ℝ) by rw [hcast]; norm_num, Nat.floor_natCast]
      omega

/-- the hypotheses for four values and the default percentage -/
example : ∃ lo md hi, Py.bandAt [3, 1, 4, 2] 68 = .ok (lo, md, hi) ∧ lo ≤ md ∧ md ≤ hi := by
  obtain ⟨lo, md, hi, h, h1, h2, -⟩ := C63_band (l := [3, 1, 4, 2]) (by simp) (pct := 68) (by norm_num) (by norm_num)
  exact ⟨lo, md, hi, h, h1, h2⟩

example : Py.percentile [3, 1, 2] 75 = .ok 2.5 := by
  have hp : [(3:ℝ), 1, 2].Perm [1, 2, 3] := (List.Perm.swap 1 3 [2]).trans ((List.Perm.swap 2 3 []).cons 1)
  rw [(C63_percentile_exact 1 1 zero_le_one (n := 3) (by norm_num) (by convert hp using 1; norm_num [List.range_succ]) (q := 75) (by norm_num) (by norm_num)).1]
  norm_num

/-- **C63, coverage fails.** The band does not contain `pct` percent of the samples: with two samples 1 and 2 and the default 68 percent it
contains none of them. -/
theorem C63_coverage_negation : ∃ lo md hi, Py.bandAt [1, 2] 68 = .ok (lo, md, hi) ∧ ∀ x ∈ [(1:ℝ), 2], ¬ (lo ≤ x ∧ x ≤ hi) := by
  have hp : [(1:ℝ), 2].Perm ((List.range 2).map fun k : ℕ => 1 + 1 * (k:ℝ)) := by
    norm_num [List.range_succ]
  have e1 := (C63_percentile_exact 1 1 zero_le_one (n := 2) (by norm_num) hp (q := 16) (by norm_num) (by norm_num)).1
  have e2 := (C63_percentile_exact 1 1 zero_le_one (n := 2) (by norm_num) hp (q := 84) (by norm_num) (by norm_num)).1
  have e3 := (C63_percentile_exact 1 1 zero_le_one (n := 2) (by norm_num) hp (q := 50) (by norm_num) (by norm_num)).1
  have e4 := (C63_percentile_exact 1 1 zero_le_one (n := 2) (by norm_num) hp (q := 50) (by norm_num) (by norm_num)).2
  refine ⟨1.16, 1.5, 1.84, ?_, ?_⟩
  · simp only [Py.bandAt]
    rw [show ((100:ℝ) - 68) / 2 = 16 by norm_num, show (100:ℝ) - 16 = 84 by norm_num, e4, e1, e2, e3]
    simp only [res_bind_ok]
    norm_num
  · intro x hx
    simp at hx
    rcases hx with rfl | rfl <;> norm_num

/-! ### the frequencies -/

/-- **C63.** For at least two strictly increasing times there are 1000 frequencies, all positive, equally spaced in the logarithm, from one over
the length of the observations to half of one over the shortest gap. They increase strictly exactly if twice the shortest gap is less than the
length; with three or more times they never decrease; with two times they decrease strictly. -/
theorem C63_frequencies {n : ℕ} (hn : 2 ≤ n) {t : Fin n → ℝ} (ht : StrictMono t) : ∃ dmin span fs, IsMinGap t dmin ∧ IsSpan t span ∧ 0 < dmin ∧
    Py.freqGrid (List.ofFn t) 1000 = .ok fs ∧ fs.length = 1000 ∧ (∀ f ∈ fs, 0 < f) ∧ fs[0]? = some (1 / span) ∧ fs[999]? = some (1 / (2 * dmin)) ∧
    (∀ k < 998, ∃ a b c, fs[k]? = some a ∧ fs[k+1]? = some b ∧ fs[k+2]? = some c ∧ b * b = a * c) ∧
    (fs.Pairwise (· < ·) ↔ 2 * dmin < span) ∧ (3 ≤ n → fs.Pairwise (· ≤ ·)) ∧ (n = 2 → fs.Pairwise (· > ·)) := by
  obtain ⟨dmin, span, h1, h2, h3, h4, h5, h6, h7⟩ := freqGrid_eq hn ht 1000
  obtain ⟨g1, g2, g3, g4, -⟩ := linspace_spec (Real.log (1 / span)) (Real.log (1 / (2 * dmin))) (show 2 ≤ 1000 by norm_num)
  set A := Real.log (1 / span) with hA
  set B := Real.log (1 / (2 * dmin)) with hB
  have hA1 : Real.exp A = 1 / span := Real.exp_log (by positivity)
  have hB1 : Real.exp B = 1 / (2 * dmin) := Real.exp_log (by positivity)
  have hAB : A < B ↔ 2 * dmin < span := by
    rw [← Real.exp_lt_exp, hA1, hB1]
    exact one_div_lt_one_div h4 (by positivity)
  have hget : ∀ k : ℕ, k < 1000 → ((Py.linspace A B 1000).map Real.exp)[k]? = some (Real.exp (A + k / 999 * (B - A))) := by
    intro k hk
    rw [List.getElem?_map, g4 k hk]
    norm_num
  have hlen : ((Py.linspace A B 1000).map Real.exp).length = 1000 := by rw [List.length_map, g1]
  have hpos : ∀ f ∈ (Py.linspace A B 1000).map Real.exp, 0 < f := by
    intro f hf
    obtain ⟨x, -, rfl⟩ := List.mem_map.mp hf
    exact Real.exp_pos x
  generalize (Py.linspace A B 1000).map Real.exp = fs at h7 hget hlen hpos
  clear g1 g2 g3 g4
  have hge : ∀ (k : ℕ) (hk : k < fs.length), fs[k] = Real.exp (A + k / 999 * (B - A)) := by
    intro k hk
    have := hget k (hlen ▸ hk)
    rw [List.getElem?_eq_getElem hk] at this
    exact Option.some.inj this
  have hpw : ∀ (r : ℝ → ℝ → Prop), (∀ i j : ℕ, i < j → r (Real.exp (A + i / 999 * (B - A))) (Real.exp (A + j / 999 * (B - A)))) →
      fs.Pairwise r := by
    intro r hr
    rw [List.pairwise_iff_getElem]
    intro i j hi hj hij
    rw [hge, hge]
    exact hr i j hij
  refine ⟨dmin, span, _, h1, h2, h3, h7, hlen, hpos, ?_, ?_, ?_, ?_, ?_, ?_⟩
  · rw [hget 0 (by norm_num), ← hA1]; simp
  · rw [hget 999 (by norm_num), ← hB1]; norm_num
  · intro k hk
    refine ⟨_, _, _, hget k (by omega), hget (k+1) (by omega), hget (k+2) (by omega), ?_⟩
    rw [← Real.exp_add, ← Real.exp_add]
    congr 1; push_cast; ring
  · rw [← hAB]
    constructor
    · intro h
      have := List.pairwise_iff_getElem.mp h 0 999 (by rw [hlen]; norm_num) (by rw [hlen]; norm_num) (by norm_num)
      rw [hge, hge, Real.exp_lt_exp] at this
      norm_num at this
      linarith
    · intro h
      refine hpw _ fun i j hij => Real.exp_lt_exp.mpr ?_
      have : (i : ℝ) < j := by exact_mod_cast hij
      nlinarith
  · intro h
    have hle : A ≤ B := by
      rw [← Real.exp_le_exp, hA1, hB1]
      exact one_div_le_one_div_of_le (by positivity) (h5 h)
    refine hpw _ fun i j hij => Real.exp_le_exp.mpr ?_
    have : (i : ℝ) < j := by exact_mod_cast hij
    nlinarith
  · intro h
    have hlt : B < A := by
      rw [← Real.exp_lt_exp, hA1, hB1]
      refine one_div_lt_one_div_of_lt h4 ?_
      have := h6 h
      linarith
    refine hpw _ fun i j hij => Real.exp_lt_exp.mpr ?_
    have : (i : ℝ) < j := by exact_mod_cast hij
    nlinarith

/-- three times with unequal gaps: strictly increasing frequencies from 1/10 to 1/2 -/
example : ∃ fs, Py.freqGrid (List.ofFn exT) 1000 = .ok fs ∧ fs.Pairwise (· < ·) := by
  obtain ⟨dmin, span, fs, h1, h2, -, h3, -, -, -, -, -, h4, -⟩ := C63_frequencies (by norm_num) exT_mono
  refine ⟨fs, h3, h4.mpr ?_⟩
  have a1 : dmin ≤ 1 := h1.2 ⟨0, 1, by decide, by simp [exT]⟩
  have a2 : 10 ≤ span := h2.2 ⟨0, 2, by simp [exT]⟩
  linarith

/-! ### the spectra -/

/-- **C63, CARMA.** The curves of `plot_power_spectrum` for the samples `k < m`, `m > 0`, with autoregressive roots `ω k` (different, stable, closed under
conjugation) and a percentage from 0 to 100: one row for every frequency `f`, the band (C63_band) of the values
`S_k(f) = 2 ∫_0^∞ R_k(d) cos(2π f d) dd` of the power spectra of the samples, `R_k` the autocovariance function of sample `k`. -/
theorem C63_carma {n : ℕ} (hn : 2 ≤ n) {t : Fin n → ℝ} (ht : StrictMono t) {m : ℕ} (hm : 0 < m) (sigma : Fin m → ℝ) (ω : Fin m → Fin p → ℂ)
    (ma : Fin m → List ℝ) (hω : ∀ k, Admissible (ω k)) (hma : ∀ k, (ma k).length ≤ p) {pct : ℝ} (h0 : 0 ≤ pct) (h1 : pct ≤ 100) :
    ∃ fs rows, Py.freqGrid (List.ofFn t) 1000 = .ok fs ∧
      Py.psdBands p (List.ofFn t) (List.ofFn fun k => (sigma k, Py.arCoefs (List.ofFn (ω k)), ma k)) none pct = .ok rows ∧ rows.length = 1000 ∧
      ∀ (j : ℕ) (f : ℝ), fs[j]? = some f → ∃ lo md hi, rows[j]? = some (f, lo, md, hi) ∧ lo ≤ md ∧ md ≤ hi ∧
        Py.bandAt (List.ofFn fun k => 2 * ∫ d in Set.Ioi (0:ℝ), carmaAcf (sigma k ^ 2) (ω k) (ma k) d * Real.cos (2 * Real.pi * f * d)) pct =
          .ok (lo, md, hi) := by
  obtain ⟨-, -, fs, -, -, -, g1, g2, -⟩ := C63_frequencies hn ht
  have hb : ∀ f : ℝ, ∃ b : ℝ × ℝ × ℝ, Py.bandAt (List.ofFn fun k => 2 * ∫ d in Set.Ioi (0:ℝ), carmaAcf (sigma k ^ 2) (ω k) (ma k) d *
      Real.cos (2 * Real.pi * f * d)) pct = .ok b ∧ b.1 ≤ b.2.1 ∧ b.2.1 ≤ b.2.2 := by
    intro f
    obtain ⟨lo, md, hi, e, e1, e2, -⟩ := C63_band (l := List.ofFn fun k => 2 * ∫ d in Set.Ioi (0:ℝ), carmaAcf (sigma k ^ 2) (ω k) (ma k) d *
      Real.cos (2 * Real.pi * f * d)) (by simp [List.ofFn_eq_nil_iff]; omega) h0 h1
    exact ⟨(lo, md, hi), e, e1, e2⟩
  choose b b1 b2 b3 using hb
  have hpsd : ∀ f : ℝ, (List.ofFn fun k => (sigma k, Py.arCoefs (List.ofFn (ω k)), ma k)).mapM (fun s => Py.psdSample p f s.1 s.2.1 s.2.2) =
      .ok (List.ofFn fun k => 2 * ∫ d in Set.Ioi (0:ℝ), carmaAcf (sigma k ^ 2) (ω k) (ma k) d * Real.cos (2 * Real.pi * f * d)) := by
    intro f
    exact mapM_ofFn _ _ _ fun k => (C54_psd (hω k) (hma k) (sigma k) f).2
  refine ⟨fs, fs.map fun f => (f, b f), g1, ?_, by rw [List.length_map, g2], fun j f hj => ⟨(b f).1, (b f).2.1, (b f).2.2, ?_, b2 f, b3 f, b1 f⟩⟩
  · simp only [Py.psdBands, Py.usedSamples, res_bind_ok, g1]
    refine mapM_total fun f _ => ?_
    rw [hpsd, res_bind_ok, b1, res_bind_ok]
    rfl
  · rw [List.getElem?_map, hj]; rfl

/-- **C63, thinned.** With `nsamples = k > 0` the curves are those of the `k` samples number `⌊j m / k⌋`, `j < k`, of the `m` samples: spread evenly
over the whole run (for `k > m` some are repeated, C54). -/
theorem C63_carma_thinned (p : ℕ) (time : List ℝ) {m k : ℕ} (hm : 0 < m) (hk : 0 < k) (L : Fin m → ℝ × List ℝ × List ℝ) (pct : ℝ) :
    Py.psdBands p time (List.ofFn L) (some k) pct =
      Py.psdBands p time (List.ofFn fun j : Fin k => L ⟨j * m / k, (Nat.div_lt_iff_lt_mul hk).mpr (by
        rw [mul_comm m]; exact Nat.mul_lt_mul_of_pos_right j.2 hm)⟩) none pct := by
  have h : Py.usedSamples (List.ofFn L) (some k) = .ok (List.ofFn fun j : Fin k => L ⟨j * m / k, (Nat.div_lt_iff_lt_mul hk).mpr (by
        rw [mul_comm m]; exact Nat.mul_lt_mul_of_pos_right j.2 hm)⟩) := by
    have hidx : Py.thinIdx (List.ofFn L).length k = List.ofFn fun j : Fin k => (j : ℕ) * m / k := by
      rw [Py.thinIdx, List.length_ofFn, List.ofFn_eq_map, ← List.map_coe_finRange_eq_range, List.map_map]
      refine List.map_congr_left fun j _ => ?_
      show ⌊((j : ℕ) : ℝ) * ((m : ℝ) / k)⌋₊ = _
      rw [← mul_div_assoc, ← Nat.cast_mul, Nat.floor_div_natCast, Nat.floor_natCast]
    rw [Py.usedSamples, hidx]
    refine mapM_ofFn _ _ _ fun j => ?_
    have hlt : (j : ℕ) * m / k < m := (Nat.div_lt_iff_lt_mul hk).mpr (by rw [mul_comm m]; exact Nat.mul_lt_mul_of_pos_right j.2 hm)
    exact rd_ok (by simp [hlt])
  rw [Py.psdBands, Py.psdBands, h]
  rfl

/-- three of ten samples: the first, the fourth and the seventh -/
example (L : Fin 10 → ℝ × List ℝ × List ℝ) : Py.psdBands 2 [0, 1, 3] (List.ofFn L) (some 3) 68 = Py.psdBands 2 [0, 1, 3] [L 0, L 3, L 6] none 68 :=
  C63_carma_thinned 2 [0, 1, 3] (by norm_num) (by norm_num) L 68

/-- **C63, CAR(1).** The same for `Car1Sample`: the spectrum of a sample is the Fourier transform of the CAR(1) autocovariance function
`σ²/(2a) e^{-a d}`, `a = exp(log_omega)`. With `nsamples` given the call raises an `IndexError`, whatever the samples. -/
theorem C63_car1 {n : ℕ} (hn : 2 ≤ n) {t : Fin n → ℝ} (ht : StrictMono t) {m : ℕ} (hm : 0 < m) (sigma lo : Fin m → ℝ) {pct : ℝ} (h0 : 0 ≤ pct)
    (h1 : pct ≤ 100) :
    (∃ fs rows, Py.freqGrid (List.ofFn t) 1000 = .ok fs ∧ Py.psdBands1 (List.ofFn t) (List.ofFn fun k => (sigma k, lo k)) none pct = .ok rows ∧
      rows.length = 1000 ∧ ∀ (j : ℕ) (f : ℝ), fs[j]? = some f → ∃ l md hi, rows[j]? = some (f, l, md, hi) ∧ l ≤ md ∧ md ≤ hi ∧
        Py.bandAt (List.ofFn fun k => 2 * ∫ d in Set.Ioi (0:ℝ), car1Acf (sigma k ^ 2) (Real.exp (lo k)) d * Real.cos (2 * Real.pi * f * d)) pct =
          .ok (l, md, hi)) ∧
    ∀ k, Py.psdBands1 (List.ofFn t) (List.ofFn fun k => (sigma k, lo k)) (some k) pct = .error .bounds := by
  obtain ⟨-, -, fs, -, -, -, g1, g2, -⟩ := C63_frequencies hn ht
  have hb : ∀ f : ℝ, ∃ b : ℝ × ℝ × ℝ, Py.bandAt (List.ofFn fun k => 2 * ∫ d in Set.Ioi (0:ℝ), car1Acf (sigma k ^ 2) (Real.exp (lo k)) d *
      Real.cos (2 * Real.pi * f * d)) pct = .ok b ∧ b.1 ≤ b.2.1 ∧ b.2.1 ≤ b.2.2 := by
    intro f
    obtain ⟨lo, md, hi, e, e1, e2, -⟩ := C63_band (l := List.ofFn fun k => 2 * ∫ d in Set.Ioi (0:ℝ), car1Acf (sigma k ^ 2) (Real.exp (lo k)) d *
      Real.cos (2 * Real.pi * f * d)) (by simp [List.ofFn_eq_nil_iff]; omega) h0 h1
    exact ⟨(lo, md, hi), e, e1, e2⟩
  choose b b1 b2 b3 using hb
  have hpsd : ∀ f : ℝ, (List.ofFn fun k => (sigma k, lo k)).mapM (fun s => Py.psdSample1 f s.1 s.2) =
      .ok (List.ofFn fun k => 2 * ∫ d in Set.Ioi (0:ℝ), car1Acf (sigma k ^ 2) (Real.exp (lo k)) d * Real.cos (2 * Real.pi * f * d)) := by
    intro f
    exact mapM_ofFn _ _ _ fun k => psdSample1_eq f (sigma k) (lo k)
  refine ⟨⟨fs, fs.map fun f => (f, b f), g1, ?_, by rw [List.length_map, g2], fun j f hj => ⟨(b f).1, (b f).2.1, (b f).2.2, ?_, b2 f, b3 f, b1 f⟩⟩,
    fun k => rfl⟩
  · simp only [Py.psdBands1, res_bind_ok, g1]
    refine mapM_total fun f _ => ?_
    rw [hpsd, res_bind_ok, b1, res_bind_ok]
    rfl
  · rw [List.getElem?_map, hj]; rfl

/-- two samples of a third-order process at three times -/
example : ∃ rows, Py.psdBands 3 (List.ofFn exT) (List.ofFn fun k : Fin 2 => (![1, 2] k, Py.arCoefs (List.ofFn ![(-2 : ℂ), -1 + Complex.I,
    -1 - Complex.I]), [1, 0.5])) none 68 = .ok rows ∧ rows.length = 1000 := by
  obtain ⟨fs, rows, -, h, h1, -⟩ := C63_carma (by norm_num) exT_mono (m := 2) (by norm_num) ![1, 2] (fun _ => ![(-2 : ℂ), -1 + Complex.I, -1 - Complex.I])
    (fun _ => [1, 0.5]) (fun _ => ex_admissible3) (fun _ => by simp) (pct := 68) (by norm_num) (by norm_num)
  exact ⟨rows, h, h1⟩

example : ∃ rows, Py.psdBands1 (List.ofFn exT) (List.ofFn fun k : Fin 2 => (![1, 2] k, ![0, 1] k)) none 68 = .ok rows ∧ rows.length = 1000 := by
  obtain ⟨⟨fs, rows, -, h, h1, -⟩, -⟩ := C63_car1 (by norm_num) exT_mono (m := 2) (by norm_num) ![1, 2] ![0, 1] (pct := 68) (by norm_num) (by norm_num)
  exact ⟨rows, h, h1⟩

end Verif.Props
