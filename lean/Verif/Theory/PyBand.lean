import Verif.Model.PyBand
import Verif.Theory.PyFit
import Verif.Theory.MleBox
import Verif.Theory.Spectrum

/-! Lemmas on order statistics as numpy computes them. -/

namespace Verif.Theory

open Verif.Model Verif.Spec

open scoped Classical

/-- Linear interpolation of a sequence. -/
noncomputable def lerp (S : ℕ → ℝ) (h : ℝ) : ℝ := S ⌊h⌋₊ + (h - ⌊h⌋₊) * (S (⌊h⌋₊ + 1) - S ⌊h⌋₊)

lemma lerp_le {S : ℕ → ℝ} (hS : Monotone S) {h : ℝ} (h0 : 0 ≤ h) : S ⌊h⌋₊ ≤ lerp S h ∧ lerp S h ≤ S (⌊h⌋₊ + 1) := by
  have h1 := Nat.floor_le h0
  have h2 := Nat.lt_floor_add_one h
  have h3 := hS (Nat.le_succ ⌊h⌋₊)
  simp only [Nat.succ_eq_add_one] at h3
  unfold lerp
  constructor <;> nlinarith

lemma lerp_le_ceil {S : ℕ → ℝ} (hS : Monotone S) {h : ℝ} (h0 : 0 ≤ h) : lerp S h ≤ S ⌈h⌉₊ := by
  rcases (Nat.floor_le_ceil h).lt_or_eq with hlt | heq
  · exact (lerp_le hS h0).2.trans (hS hlt)
  · have h1 := Nat.floor_le h0
    have h2 := Nat.le_ceil h
    rw [← heq] at h2 ⊢
    unfold lerp
    have : h - (⌊h⌋₊ : ℝ) = 0 := by linarith
    rw [this]; linarith

lemma lerp_mono {S : ℕ → ℝ} (hS : Monotone S) {h k : ℝ} (h0 : 0 ≤ h) (hk : h ≤ k) : lerp S h ≤ lerp S k := by
  rcases (Nat.floor_le_floor hk).lt_or_eq with hlt | heq
  · exact (lerp_le hS h0).2.trans ((hS hlt).trans (lerp_le hS (h0.trans hk)).1)
  · have h3 := hS (Nat.le_succ ⌊h⌋₊)
    simp only [Nat.succ_eq_add_one] at h3
    unfold lerp
    rw [← heq]
    nlinarith

lemma npSort_length (l : List ℝ) : (Py.npSort l).length = l.length := List.length_mergeSort l

lemma npSort_perm (l : List ℝ) : (Py.npSort l).Perm l := List.mergeSort_perm l _

lemma npSort_sorted (l : List ℝ) : (Py.npSort l).Pairwise (· ≤ ·) := by
  have := List.pairwise_mergeSort (le := fun a b : ℝ => decide (a ≤ b)) (by simpa using fun a b c => le_trans) (by simpa using le_total) l
  simpa [Py.npSort] using this

/-- order statistics, constant after the last -/
noncomputable def ordStat (l : List ℝ) (k : ℕ) : ℝ := (Py.npSort l).getD (min k (l.length - 1)) 0

lemma ordStat_eq {l : List ℝ} {k : ℕ} (hk : k < l.length) : ordStat l k = (Py.npSort l)[k]'(by rwa [npSort_length]) := by
  unfold ordStat
  rw [min_eq_left (by omega)]
  have : k < (Py.npSort l).length := by rwa [npSort_length]
  simp [this]

lemma ordStat_mono (l : List ℝ) : Monotone (ordStat l) := by
  rcases Nat.eq_zero_or_pos l.length with h | h
  · have : Py.npSort l = [] := List.length_eq_zero_iff.mp (by rw [npSort_length, h])
    intro a b _; simp [ordStat, this]
  · intro a b hab
    have e : ∀ k, ordStat l k = ordStat l (min k (l.length - 1)) := fun k => by simp [ordStat]
    rw [e a, e b, ordStat_eq (show min a (l.length - 1) < l.length by omega), ordStat_eq (show min b (l.length - 1) < l.length by omega)]
    rcases (show min a (l.length - 1) ≤ min b (l.length - 1) by omega).lt_or_eq with hlt | heq
    · exact List.pairwise_iff_getElem.mp (npSort_sorted l) _ _ _ _ hlt
    · simp only [heq]; exact le_rfl

lemma ordStat_mem {l : List ℝ} (h : l ≠ []) (k : ℕ) : ordStat l k ∈ l := by
  have hpos : 0 < l.length := List.length_pos_iff.mpr h
  have e : ordStat l k = ordStat l (min k (l.length - 1)) := by simp [ordStat]
  rw [e, ordStat_eq (show min k (l.length - 1) < l.length by omega)]
  exact (npSort_perm l).mem_iff.mp (List.getElem_mem _)

lemma percentile_ok {l : List ℝ} (hl : l ≠ []) {q : ℝ} (h0 : 0 ≤ q) (h1 : q ≤ 100) :
    Py.percentile l q = .ok (lerp (ordStat l) (q / 100 * ((l.length : ℝ) - 1))) := by
  have hpos : 0 < l.length := List.length_pos_iff.mpr hl
  have hpos' : (1 : ℝ) ≤ l.length := by exact_mod_cast hpos
  have hfl : ⌊q / 100 * ((l.length : ℝ) - 1)⌋₊ ≤ l.length - 1 := by
    have : q / 100 * ((l.length : ℝ) - 1) ≤ ((l.length - 1 : ℕ) : ℝ) := by
      rw [Nat.cast_sub hpos, Nat.cast_one]
      nlinarith
    exact (Nat.floor_le_floor this).trans_eq (Nat.floor_natCast _)
  rw [Py.percentile, if_neg (by push Not; exact ⟨h0, h1⟩), if_neg hl]
  congr 1
  simp only [lerp, ordStat]
  rw [min_eq_left hfl]

lemma median_eq {l : List ℝ} (hl : l ≠ []) : Py.median l = .ok (lerp (ordStat l) (1 / 2 * ((l.length : ℝ) - 1))) := by
  have hpos : 0 < l.length := List.length_pos_iff.mpr hl
  rw [Py.median, if_neg hl]
  rcases Nat.mod_two_eq_zero_or_one l.length with h | h
  · obtain ⟨m, hm⟩ : ∃ m, l.length = 2 * (m + 1) := ⟨l.length / 2 - 1, by omega⟩
    have hfl : ⌊(1 / 2 * ((l.length : ℝ) - 1))⌋₊ = m := by
      rw [Nat.floor_eq_iff (by rw [hm]; push_cast; nlinarith [Nat.cast_nonneg (α := ℝ) m]), hm]
      push_cast
      constructor <;> linarith
    have e1 : l.length / 2 - 1 = m := by omega
    have e2 : l.length / 2 = m + 1 := by omega
    simp only [h, zero_ne_one, if_false]
    congr 1
    simp only [lerp, ordStat, hfl, e2]
    rw [min_eq_left (by omega), min_eq_left (by omega), hm]
    push_cast
    ring
  · obtain ⟨m, hm⟩ : ∃ m, l.length = 2 * m + 1 := ⟨l.length / 2, by omega⟩
    have hfl : ⌊(1 / 2 * ((l.length : ℝ) - 1))⌋₊ = m := by
      rw [Nat.floor_eq_iff (by rw [hm]; push_cast; nlinarith [Nat.cast_nonneg (α := ℝ) m]), hm]
      push_cast
      constructor <;> linarith
    have e2 : l.length / 2 = m := by omega
    simp only [h, if_true]
    congr 1
    simp only [lerp, ordStat, hfl, e2]
    rw [min_eq_left (by omega), hm]
    push_cast
    ring

/-! ### counting -/

lemma count_ge (l : List ℝ) (P : ℝ → Prop) [DecidablePred P] {a b : ℕ} (hb : b ≤ l.length) (h : ∀ k, a ≤ k → k < b → P (ordStat l k)) :
    b - a ≤ l.countP fun x => decide (P x) := by
  rw [← (npSort_perm l).countP_eq]
  have hsub : (((Py.npSort l).take b).drop a).Sublist (Py.npSort l) := (List.drop_sublist _ _).trans (List.take_sublist _ _)
  refine le_trans (le_of_eq ?_) hsub.countP_le
  rw [List.countP_eq_length.mpr]
  · rw [List.length_drop, List.length_take, npSort_length]; omega
  · intro x hx
    obtain ⟨k, hk, rfl⟩ := List.getElem_of_mem hx
    rw [List.length_drop, List.length_take, npSort_length] at hk
    simp only [List.getElem_drop, List.getElem_take, decide_eq_true_eq]
    have := h (a + k) (by omega) (by omega)
    rwa [ordStat_eq (by omega)] at this

/-! ### the band -/

lemma lerp_mem {l : List ℝ} (hl : l ≠ []) {h : ℝ} (h0 : 0 ≤ h) : (∃ a ∈ l, a ≤ lerp (ordStat l) h) ∧ ∃ b ∈ l, lerp (ordStat l) h ≤ b :=
  ⟨⟨_, ordStat_mem hl _, (lerp_le (ordStat_mono l) h0).1⟩, ⟨_, ordStat_mem hl _, (lerp_le (ordStat_mono l) h0).2⟩⟩

lemma npSort_congr {l l' : List ℝ} (h : l.Perm l') : Py.npSort l = Py.npSort l' :=
  (((npSort_perm l).trans h).trans (npSort_perm l').symm).eq_of_pairwise (fun _ _ _ _ => le_antisymm) (npSort_sorted l) (npSort_sorted l')

lemma bandAt_perm {l l' : List ℝ} (h : l.Perm l') (pct : ℝ) : Py.bandAt l pct = Py.bandAt l' pct := by
  have h1 := h.length_eq
  have h2 := npSort_congr h
  have h3 : (l = []) ↔ (l' = []) := by rw [← List.length_eq_zero_iff, ← List.length_eq_zero_iff, h1]
  simp only [Py.bandAt, Py.percentile, Py.median, h1, h2, h3]

lemma bandAt_ok {l : List ℝ} (hl : l ≠ []) {pct : ℝ} (h0 : 0 ≤ pct) (h1 : pct ≤ 100) :
    Py.bandAt l pct = .ok (lerp (ordStat l) ((100 - pct) / 2 / 100 * ((l.length : ℝ) - 1)), lerp (ordStat l) (1 / 2 * ((l.length : ℝ) - 1)),
      lerp (ordStat l) ((100 - (100 - pct) / 2) / 100 * ((l.length : ℝ) - 1))) := by
  simp only [Py.bandAt]
  rw [percentile_ok hl (by linarith) (by linarith), res_bind_ok, percentile_ok hl (by linarith) (by linarith), res_bind_ok, median_eq hl, res_bind_ok]
  rfl

/-! ### the frequencies -/

lemma arrMin_spec {l : List ℝ} {m : ℝ} (h : IsLeast {x | x ∈ l} m) : Py.arrMin l = .ok m := by
  have key : ∀ (l : List ℝ) (a m : ℝ), (∀ x ∈ a :: l, m ≤ x) → m ∈ a :: l → l.foldl min a = m := by
    intro l
    induction l with
    | nil => intro a M _ h; exact (List.mem_singleton.mp h).symm
    | cons b l ih =>
      intro a M h hM
      rw [List.foldl_cons]
      refine ih _ M (fun x hx => ?_) ?_
      · rcases List.mem_cons.mp hx with rfl | hx
        · exact le_min (h a (by simp)) (h b (by simp))
        · exact h x (by simp [hx])
      · rcases List.mem_cons.mp hM with rfl | hM
        · rw [min_eq_left (h b (by simp))]; simp
        · rcases List.mem_cons.mp hM with rfl | hM
          · rw [min_eq_right (h a (by simp))]; simp
          · simp [hM]
  match l, h with
  | [], h => exact absurd h.1 (by simp)
  | a :: l, h => rw [Py.arrMin, key l a m (fun x hx => h.2 hx) h.1]

lemma timeGaps_ofFn {n : ℕ} (t : Fin n → ℝ) :
    Py.timeGaps (List.ofFn t) = (List.range (n-1)).map fun i => ext0 t (i+1) - ext0 t i := by
  rw [Py.timeGaps]
  refine List.ext_getElem (by simp) fun i h1 h2 => ?_
  have hi : i < n - 1 := by simpa using h2
  simp [ext0_of_lt t (show i < n by omega), ext0_of_lt t (show i + 1 < n by omega)]

lemma gap_least {n : ℕ} (hn : 2 ≤ n) {t : Fin n → ℝ} (ht : StrictMono t) {d : ℝ} (hd : IsMinGap t d) :
    IsLeast {x | x ∈ (List.range (n-1)).map fun i => ext0 t (i+1) - ext0 t i} d := by
  have hex : ∃ m, IsLeast {x | x ∈ (List.range (n-1)).map fun i => ext0 t (i+1) - ext0 t i} m := by
    set l := (List.range (n-1)).map fun i => ext0 t (i+1) - ext0 t i with hl
    have hne : l ≠ [] := by rw [hl]; simp; omega
    exact ⟨ordStat l 0, ordStat_mem hne 0, fun x hx => by
      obtain ⟨k, hk, rfl⟩ := List.getElem_of_mem ((npSort_perm l).mem_iff.mpr hx)
      rw [npSort_length] at hk
      rw [← ordStat_eq hk]
      exact ordStat_mono l (Nat.zero_le k)⟩
  obtain ⟨m, hm⟩ := hex
  have := minGap_iff ht hm
  rwa [IsLeast.unique hd this]

lemma freqGrid_eq {n : ℕ} (hn : 2 ≤ n) {t : Fin n → ℝ} (ht : StrictMono t) (m : ℕ) :
    ∃ dmin span, IsMinGap t dmin ∧ IsSpan t span ∧ 0 < dmin ∧ 0 < span ∧ (3 ≤ n → 2 * dmin ≤ span) ∧ (n = 2 → dmin = span) ∧
      Py.freqGrid (List.ofFn t) m = .ok ((Py.linspace (Real.log (1 / span)) (Real.log (1 / (2 * dmin))) m).map Real.exp) := by
  obtain ⟨dmin, span, v, h1, h2, h3, h4, h5, h6, -⟩ := mleBox_eq hn ht t 1 0
  obtain ⟨k, rfl⟩ : ∃ k, n = k + 1 := ⟨n - 1, by omega⟩
  have hs : span = t (Fin.last k) - t 0 := by
    refine IsGreatest.unique h2 ⟨⟨0, Fin.last k, rfl⟩, ?_⟩
    rintro x ⟨i, j, rfl⟩
    have := ht.monotone (Fin.zero_le i)
    have := ht.monotone (Fin.le_last j)
    linarith
  have hpos : 0 < span := lt_of_lt_of_le h3 h4
  refine ⟨dmin, span, h1, h2, h3, hpos, h5, h6, ?_⟩
  simp only [Py.freqGrid]
  rw [timeGaps_ofFn, arrMin_spec (gap_least hn ht h1), res_bind_ok, arrMax_ofFn ht.monotone, res_bind_ok, arrMin_ofFn ht.monotone, res_bind_ok,
    dv_ok h3.ne', res_bind_ok, ← hs, dv_ok hpos.ne', res_bind_ok, if_neg]
  · rw [show (0.5 : ℝ) / dmin = 1 / (2 * dmin) by rw [show (0.5 : ℝ) = 1 / 2 by norm_num]; field_simp]
    rfl
  · push Not
    constructor <;> positivity

/-! ### CAR(1) as the first-order CARMA process -/

lemma car1_admissible {a : ℝ} (ha : 0 < a) : Admissible (p := 1) ![(-a : ℂ)] := by
  refine ⟨fun i j _ => Subsingleton.elim i j, fun k => ?_, fun k => ⟨k, ?_⟩⟩
  · fin_cases k; simpa using ha
  · fin_cases k; simp

lemma car1Acf_eq {a : ℝ} (ha : 0 < a) (σ2 d : ℝ) : carmaAcf (p := 1) σ2 ![(-a : ℂ)] [1] d = car1Acf σ2 a d := by
  have hi : ∀ s : ℝ, impulse (p := 1) ![(-a : ℂ)] [1] s = ((Real.exp (-a * s) : ℝ) : ℂ) := by
    intro s
    simp [impulse, maEval, arDeriv]
  have h2 : ∀ s : ℝ, (impulse (p := 1) ![(-a : ℂ)] [1] s * impulse (p := 1) ![(-a : ℂ)] [1] (s + d)).re =
      Real.exp (-(2 * a) * s) * Real.exp (-a * d) := by
    intro s
    rw [hi, hi, ← Complex.ofReal_mul, Complex.ofReal_re, ← Real.exp_add, ← Real.exp_add]
    congr 1; ring
  rw [carmaAcf, car1Acf]
  simp only [h2]
  rw [MeasureTheory.integral_mul_const, integral_exp_mul_Ioi (by linarith)]
  simp
  field_simp

lemma psdSample1_eq (f sigma lo : ℝ) : Py.psdSample1 f sigma lo =
    .ok (2 * ∫ d in Set.Ioi (0:ℝ), car1Acf (sigma ^ 2) (Real.exp lo) d * Real.cos (2 * Real.pi * f * d)) := by
  have ha := Real.exp_pos lo
  set a := Real.exp lo with hadef
  have h1 := wiener_khinchin (car1_admissible ha) (sigma ^ 2) [1] f
  simp only [car1Acf_eq ha] at h1
  rw [h1]
  have hi : ∀ s : ℝ, impulse (p := 1) ![(-a : ℂ)] [1] s * Complex.exp (-(2 * Real.pi * Complex.I * f) * s) =
      Complex.exp ((-(a + 2 * Real.pi * f * Complex.I)) * s) := by
    intro s
    simp only [impulse, maEval, arDeriv]
    simp
    rw [← Complex.exp_add]
    congr 1; ring
  simp only [hi]
  have hre : ((-(a + 2 * Real.pi * f * Complex.I) : ℂ)).re < 0 := by simp [ha]
  rw [integral_exp_mul_complex_Ioi hre]
  have hn : ‖(a + 2 * Real.pi * f * Complex.I : ℂ)‖ ^ 2 = a ^ 2 + (2 * Real.pi * f) ^ 2 := by
    rw [← Complex.normSq_eq_norm_sq, Complex.normSq_apply]
    simp
    ring
  have hpos : 0 < a ^ 2 + (2 * Real.pi * f) ^ 2 := by positivity
  rw [Py.psdSample1, dv_ok hpos.ne']
  simp only [Complex.ofReal_zero, mul_zero, Complex.exp_zero, norm_div, norm_neg, norm_one]
  rw [div_pow, hn]
  congr 1
  rw [one_pow, mul_one_div]

lemma mapM_ofFn {α β : Type} {m : ℕ} (x : Fin m → α) (g : α → Res β) (y : Fin m → β) (h : ∀ k, g (x k) = .ok (y k)) :
    (List.ofFn x).mapM g = .ok (List.ofFn y) := by
  induction m with
  | zero => rfl
  | succ m ih =>
    rw [List.ofFn_succ, List.ofFn_succ, List.mapM_cons, h 0, res_bind_ok, ih _ _ fun k => h k.succ]
    rfl

end Verif.Theory
