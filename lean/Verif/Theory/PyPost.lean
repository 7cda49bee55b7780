import Verif.Model.PyPost
import Verif.Spec.Summary
import Verif.Theory.PyBand
import Verif.Theory.PySample
import Mathlib.Algebra.Order.Chebyshev

/-! Lemmas on medians, the filters built from them, and summaries. -/

namespace Verif.Theory

open Verif.Model Verif.Spec

open scoped Classical

variable {p : ℕ}

/-! ### medians -/

lemma mid_eq {α : Type} [Field α] [CharZero α] {s : List α} {n : ℕ} (hn : 0 < n) {a b : α} (ha : s[(n - 1) / 2]? = some a)
    (hb : s[n / 2]? = some b) (z : α) :
    (if n % 2 = 1 then (.ok (s.getD (n / 2) z) : Res α) else .ok ((s.getD (n / 2 - 1) z + s.getD (n / 2) z) / 2)) = .ok ((a + b) / 2) := by
  rcases Nat.mod_two_eq_zero_or_one n with h | h
  · have e : n / 2 - 1 = (n - 1) / 2 := by omega
    rw [if_neg (by omega), e, List.getD_eq_getElem?_getD, List.getD_eq_getElem?_getD, ha, hb]
    rfl
  · have e : (n - 1) / 2 = n / 2 := by omega
    rw [e, hb] at ha
    cases ha
    rw [if_pos h, List.getD_eq_getElem?_getD, hb, add_self_div_two]
    rfl

lemma median_of {l : List ℝ} {m : ℝ} (h : IsMedian (· ≤ ·) l m) : Py.median l = .ok m := by
  obtain ⟨s, a, b, h1, h2, h3, h4, rfl⟩ := h
  have hs : Py.npSort l = s := ((npSort_perm l).trans h1.symm).eq_of_pairwise (fun _ _ _ _ => le_antisymm) (npSort_sorted l) h2
  have hl : s.length = l.length := h1.length_eq
  have hne : l ≠ [] := by
    rintro rfl
    rw [List.length_nil, List.length_eq_zero_iff] at hl
    subst hl
    simp at h4
  rw [hl] at h3 h4
  rw [Py.median, if_neg hne]
  simp only [hs]
  exact mid_eq (List.length_pos_iff.mpr hne) h3 h4 0

lemma median_exists {α : Type} [DivisionRing α] {le : α → α → Prop} [DecidableRel le] (htr : ∀ a b c, le a b → le b c → le a c)
    (hto : ∀ a b, le a b ∨ le b a) {l : List α} (h : l ≠ []) : ∃ m, IsMedian le l m := by
  have hp := List.mergeSort_perm l fun a b => decide (le a b)
  have hs : (l.mergeSort fun a b => decide (le a b)).Pairwise le := by
    have := List.pairwise_mergeSort (le := fun a b : α => decide (le a b)) (by simpa using htr) (by simpa using hto) l
    simpa using this
  have hl : 0 < (l.mergeSort fun a b => decide (le a b)).length := by rw [hp.length_eq]; exact List.length_pos_iff.mpr h
  exact ⟨_, _, _, _, hp, hs, List.getElem?_eq_getElem (by omega), List.getElem?_eq_getElem (by omega), rfl⟩

lemma lex_trans (a b c : ℂ) (h : LexLe a b) (h' : LexLe b c) : LexLe a c := by
  rcases h with h | ⟨h, h2⟩ <;> rcases h' with h' | ⟨h', h3⟩
  · exact .inl (h.trans h')
  · exact .inl (h.trans_eq h')
  · exact .inl (h ▸ h')
  · exact .inr ⟨h.trans h', h2.trans h3⟩

lemma lex_total (a b : ℂ) : LexLe a b ∨ LexLe b a := by
  rcases lt_trichotomy a.re b.re with h | h | h
  · exact .inl (.inl h)
  · rcases le_total a.im b.im with h2 | h2
    · exact .inl (.inr ⟨h, h2⟩)
    · exact .inr (.inr ⟨h.symm, h2⟩)
  · exact .inr (.inl h)

lemma lex_antisymm (a b : ℂ) (h : LexLe a b) (h' : LexLe b a) : a = b := by
  rcases h with h | ⟨h, h2⟩ <;> rcases h' with h' | ⟨h', h3⟩
  · exact absurd (h.trans h') (lt_irrefl _)
  · rw [h'] at h; exact absurd h (lt_irrefl _)
  · rw [h] at h'; exact absurd h' (lt_irrefl _)
  · exact Complex.ext h (le_antisymm h2 h3)

lemma medianC_of {l : List ℂ} {m : ℂ} (h : IsMedian LexLe l m) : Py.medianC l = .ok m := by
  obtain ⟨s, a, b, h1, h2, h3, h4, rfl⟩ := h
  have hp := List.mergeSort_perm l fun a b => decide (Py.cLe a b)
  have hsort : (l.mergeSort fun a b => decide (Py.cLe a b)).Pairwise LexLe := by
    have htr : ∀ a b c : ℂ, Py.cLe a b → Py.cLe b c → Py.cLe a c := lex_trans
    have hto : ∀ a b : ℂ, Py.cLe a b ∨ Py.cLe b a := lex_total
    have := List.pairwise_mergeSort (le := fun a b : ℂ => decide (Py.cLe a b)) (by simpa using htr) (by simpa using hto) l
    simp only [decide_eq_true_eq] at this
    exact this
  have hs : (l.mergeSort fun a b => decide (Py.cLe a b)) = s :=
    (hp.trans h1.symm).eq_of_pairwise (fun _ _ _ _ => lex_antisymm _ _) hsort h2
  have hl : s.length = l.length := h1.length_eq
  have hne : l ≠ [] := by
    rintro rfl
    rw [List.length_nil, List.length_eq_zero_iff] at hl
    subst hl
    simp at h4
  rw [hl] at h3 h4
  rw [Py.medianC, if_neg hne]
  simp only [hs]
  exact mid_eq (List.length_pos_iff.mpr hne) h3 h4 0

lemma median_single {α : Type} [Field α] [CharZero α] (le : α → α → Prop) (a : α) : IsMedian le [a] a :=
  ⟨[a], a, a, .refl _, by simp, by simp, by simp, by rw [add_self_div_two]⟩

lemma IsMedian.pos {l : List ℝ} {m : ℝ} (h : IsMedian (· ≤ ·) l m) (hl : ∀ x ∈ l, 0 < x) : 0 < m := by
  obtain ⟨s, a, b, h1, h2, h3, h4, rfl⟩ := h
  have := hl a (h1.mem_iff.mp (List.mem_of_getElem? h3))
  have := hl b (h1.mem_iff.mp (List.mem_of_getElem? h4))
  positivity

/-! ### filters from medians and means -/

lemma medianFilter_eq (srt : List ℝ → List ℕ) (time y ysig : List ℝ) {q : ℕ} {rows : List (List ℝ)}
    {d : List (List ℂ × List ℝ × ℝ × ℝ)} (hd : rows.mapM (Py.derived p q) = .ok d) {ω : Fin p → ℂ} {ma : ℕ → ℝ} {s mu : ℝ}
    (h1 : IsMedian (· ≤ ·) (d.map fun x => x.2.2.1) s) (h2 : IsMedian (· ≤ ·) (d.map fun x => x.2.2.2) mu)
    (h3 : ∀ k, IsMedian LexLe (d.map fun x => vecOf p x.1 k) (ω k)) (h4 : ∀ j < q + 1, IsMedian (· ≤ ·) (d.map fun x => x.2.1.getD j 0) (ma j)) :
    Py.medianFilter (p := p) srt time y ysig q rows =
      (KFp.new srt time (y.map fun v => v - mu) ysig (s ^ 2) ω ((List.range (q + 1)).map ma) >>= fun kf => .ok (kf, mu)) := by
  have e1 : (List.range p).mapM (fun k => Py.medianC (d.map fun x => x.1.getD k 0)) = .ok ((List.range p).map fun k => if h : k < p then ω ⟨k, h⟩ else 0) := by
    refine mapM_total fun k hk => ?_
    have hk := List.mem_range.mp hk
    rw [dif_pos hk]
    exact medianC_of (h3 ⟨k, hk⟩)
  have e2 : (List.range (q + 1)).mapM (fun j => Py.median (d.map fun x => x.2.1.getD j 0)) = .ok ((List.range (q + 1)).map ma) :=
    mapM_total fun j hj => median_of (h4 j (List.mem_range.mp hj))
  simp only [Py.medianFilter, hd, res_bind_ok, median_of h1, median_of h2, e1, e2]
  have e3 : vecOf p ((List.range p).map fun k => if h : k < p then ω ⟨k, h⟩ else 0) = ω := by
    funext k
    simp [vecOf]
  rw [e3]
  rfl

lemma derived1_eq {θ : List ℝ} (hθ : θ.length = 4) :
    Py.derived1 θ = .ok (√(2 * at0 θ 0 ^ 2 * Real.exp (at0 θ 3)), at0 θ 2, at0 θ 3) := by
  have hpos : 0 ≤ 2 * at0 θ 0 ^ 2 * Real.exp (at0 θ 3) := by positivity
  simp only [Py.derived1, Py.sampSigma1, res_bind_ok, rd_at0 (show 2 < θ.length by omega), rd_at0 (show 3 < θ.length by omega),
    rd_at0 (show 0 < θ.length by omega), py_sqrt_ok hpos]
  rfl

lemma derived1_all {rows : List (List ℝ)} (h : ∀ θ ∈ rows, θ.length = 4) :
    rows.mapM Py.derived1 = .ok (rows.map fun θ => (√(2 * at0 θ 0 ^ 2 * Real.exp (at0 θ 3)), at0 θ 2, at0 θ 3)) :=
  mapM_total fun θ hθ => derived1_eq (h θ hθ)

lemma npMean_eq {l : List ℝ} (h : l ≠ []) : Py.npMean l = .ok (l.sum / l.length) := if_neg h

/-! ### mean, median and standard deviation -/

lemma sum_abs_ge (l : List ℝ) (m c : ℝ) : (l.map fun x => |x - m|).sum + (m - c) * (2 * (l.countP fun x => decide (m ≤ x)) - l.length) ≤
    (l.map fun x => |x - c|).sum ∨ m < c := by
  by_cases hc : m < c
  · exact .inr hc
  push Not at hc
  left
  induction l with
  | nil => simp
  | cons x l ih =>
    simp only [List.map_cons, List.sum_cons, List.countP_cons, List.length_cons]
    by_cases hx : m ≤ x
    · have h1 : |x - m| = x - m := abs_of_nonneg (by linarith)
      have h2 : |x - c| = x - c := abs_of_nonneg (by linarith)
      simp only [hx, decide_true, if_true, h1, h2]
      push_cast
      linarith
    · have h1 : |x - m| = m - x := by rw [abs_sub_comm]; exact abs_of_nonneg (by linarith)
      have h2 := neg_abs_le (x - c)
      have h3 := le_abs_self (x - c)
      simp only [hx, decide_false, h1]
      simp only [Bool.false_eq_true, if_false]
      push_cast
      nlinarith [neg_le_abs (x - c)]

lemma map_neg_abs (l : List ℝ) (m : ℝ) : ((l.map fun x => -x).map fun x => |x - (-m)|) = l.map fun x => |x - m| := by
  rw [List.map_map]
  refine List.map_congr_left fun x _ => ?_
  simp only [Function.comp]
  rw [show -x - -m = -(x - m) by ring, abs_neg]

/-- a median minimises the sum of distances -/
lemma sum_abs_min {l : List ℝ} {m : ℝ} (h1 : l.length ≤ 2 * l.countP (fun x => decide (x ≤ m))) (h2 : l.length ≤ 2 * l.countP (fun x => decide (m ≤ x)))
    (c : ℝ) : (l.map fun x => |x - m|).sum ≤ (l.map fun x => |x - c|).sum := by
  have h1' : (l.length : ℝ) ≤ 2 * l.countP (fun x => decide (x ≤ m)) := by exact_mod_cast h1
  have h2' : (l.length : ℝ) ≤ 2 * l.countP (fun x => decide (m ≤ x)) := by exact_mod_cast h2
  rcases le_or_gt c m with h | h
  · rcases sum_abs_ge l m c with h3 | h3
    · have : 0 ≤ (m - c) * (2 * (l.countP fun x => decide (m ≤ x)) - l.length) := mul_nonneg (by linarith) (by linarith)
      linarith
    · exact absurd h (not_le.mpr h3)
  · rcases sum_abs_ge (l.map fun x => -x) (-m) (-c) with h3 | h3
    · rw [map_neg_abs, map_neg_abs, List.countP_map, List.length_map] at h3
      have e : (l.countP ((fun x => decide (-m ≤ x)) ∘ fun x => -x)) = l.countP fun x => decide (x ≤ m) :=
        List.countP_congr fun x _ => by simp
      rw [e] at h3
      have : 0 ≤ (-m - -c) * (2 * (l.countP fun x => decide (x ≤ m)) - l.length) := mul_nonneg (by linarith) (by linarith)
      linarith
    · linarith

lemma sum_sub_const (l : List ℝ) (m : ℝ) : (l.map fun x => x - m).sum = l.sum - l.length * m := by
  induction l with
  | nil => simp
  | cons a l ih => simp only [List.map_cons, List.sum_cons, ih, List.length_cons]; push_cast; ring

lemma abs_sum_le (l : List ℝ) (m : ℝ) : |l.sum - l.length * m| ≤ (l.map fun x => |x - m|).sum := by
  rw [← sum_sub_const]
  induction l with
  | nil => simp
  | cons a l ih =>
    simp only [List.map_cons, List.sum_cons]
    exact (abs_add_le _ _).trans (by linarith)

/-- Cauchy-Schwarz for lists -/
lemma sum_abs_sq (l : List ℝ) (c : ℝ) : (l.map fun x => |x - c|).sum ^ 2 ≤ l.length * (l.map fun x => (x - c) ^ 2).sum := by
  have := sq_sum_le_card_mul_sum_sq (s := (Finset.univ : Finset (Fin l.length))) (f := fun i => |l[i] - c|)
  have e1 : (l.map fun x => |x - c|).sum = ∑ i : Fin l.length, |l[i] - c| := by
    rw [← List.sum_ofFn]; congr 1; exact (List.ofFn_getElem_eq_map l fun x => |x - c|).symm
  have e2 : (l.map fun x => (x - c) ^ 2).sum = ∑ i : Fin l.length, |l[i] - c| ^ 2 := by
    simp only [sq_abs]
    rw [← List.sum_ofFn]; congr 1; exact (List.ofFn_getElem_eq_map l fun x => (x - c) ^ 2).symm
  rw [e1, e2]
  simpa using this

lemma mean_median {l : List ℝ} (hl : l ≠ []) {m : ℝ} (h1 : l.length ≤ 2 * l.countP (fun x => decide (x ≤ m)))
    (h2 : l.length ≤ 2 * l.countP (fun x => decide (m ≤ x))) : |l.sum / l.length - m| ≤ stdDev l := by
  have hpos : (0 : ℝ) < l.length := by exact_mod_cast List.length_pos_iff.mpr hl
  have a1 := abs_sum_le l m
  have a2 := sum_abs_min h1 h2 (l.sum / l.length)
  have a3 := sum_abs_sq l (l.sum / l.length)
  have a4 : 0 ≤ (l.map fun x => |x - l.sum / l.length|).sum := List.sum_nonneg (by simp)
  rw [stdDev]
  refine Real.le_sqrt_of_sq_le ?_
  rw [sq_abs]
  have e : l.sum / l.length - m = (l.sum - l.length * m) / l.length := by field_simp
  rw [e, div_pow, div_le_div_iff₀ (by positivity) hpos]
  have a5 : (l.sum - l.length * m) ^ 2 ≤ l.length * (l.map fun x => (x - l.sum / l.length) ^ 2).sum := by
    refine le_trans ?_ a3
    rw [← sq_abs]
    exact pow_le_pow_left₀ (abs_nonneg _) (a1.trans a2) 2
  nlinarith

lemma npStd_eq {l : List ℝ} (hl : l ≠ []) : Py.npStd l = .ok (stdDev l) := by
  have hpos : (l.length : ℝ) ≠ 0 := by exact_mod_cast (List.length_pos_iff.mpr hl).ne'
  simp only [Py.npStd, dv_ok hpos, res_bind_ok]
  rfl

lemma stdDev_zero {l : List ℝ} (hl : l ≠ []) : stdDev l = 0 ↔ ∀ x ∈ l, x = l.sum / l.length := by
  have hpos : (0 : ℝ) < l.length := by exact_mod_cast List.length_pos_iff.mpr hl
  have h0 : ∀ c : ℝ, ∀ l : List ℝ, 0 ≤ (l.map fun x => (x - c) ^ 2).sum := fun c l => List.sum_nonneg (by simp; intro a _; positivity)
  have key : ∀ c : ℝ, ∀ l : List ℝ, (l.map fun x => (x - c) ^ 2).sum = 0 ↔ ∀ x ∈ l, x = c := by
    intro c l
    induction l with
    | nil => simp
    | cons a l ih =>
      simp only [List.map_cons, List.sum_cons, List.forall_mem_cons]
      rw [add_eq_zero_iff_of_nonneg (sq_nonneg _) (h0 c l), ih, sq_eq_zero_iff, sub_eq_zero]
  rw [stdDev, Real.sqrt_eq_zero (div_nonneg (h0 _ _) hpos.le), div_eq_zero_iff, or_iff_left hpos.ne']
  exact key _ _

/-! ### `add_mle` -/

lemma quadLoop_length {quad : List ℝ} : ∀ {k : ℕ} {l : List ℂ}, Py.quadLoop quad k = .ok l → l.length = 2 * k
  | 0, l, h => by cases h; rfl
  | k + 1, l, h => by
    rw [Py.quadLoop] at h
    obtain ⟨l', h1, h⟩ := bind_ok_inv h
    obtain ⟨a, h2, h⟩ := bind_ok_inv h
    obtain ⟨b, h3, h⟩ := bind_ok_inv h
    injection h with h
    rw [← h, List.length_append, quadLoop_length h1]
    simp [Py.quadRoots]
    omega

lemma quadLoop_ok (quad : List ℝ) : ∀ k : ℕ, 2 * k ≤ quad.length → ∃ l, Py.quadLoop quad k = .ok l
  | 0, _ => ⟨[], rfl⟩
  | k + 1, h => by
    obtain ⟨l, hl⟩ := quadLoop_ok quad k (by omega)
    refine ⟨l ++ Py.quadRoots (at0 quad (2 * k)) (at0 quad (2 * k + 1)), ?_⟩
    rw [Py.quadLoop, hl, res_bind_ok, rd_at0 (show 2 * k < quad.length by omega), res_bind_ok, rd_at0 (show 2 * k + 1 < quad.length by omega), res_bind_ok]
    rfl

lemma mleRoots_eq {quad : List ℝ} {m : ℕ} (h : quad.length = m) (cleared : Bool) : Py.mleRoots false quad m m cleared = Py.quadAll quad m := by
  obtain ⟨l, hl⟩ := quadLoop_ok quad (m / 2) (by omega)
  have hlen := quadLoop_length hl
  simp only [Py.mleRoots, Py.halfRange, Py.quadAll, Bool.false_eq_true, if_false, res_bind_ok, hl]
  rw [if_neg (by omega)]
  by_cases hm : m % 2 = 1
  · have hq : quad ≠ [] := by rintro rfl; simp at h; omega
    rw [if_pos hm, if_pos hm, if_neg (by push Not; exact ⟨hq, by omega⟩), if_neg hq, res_bind_ok, res_bind_ok, if_neg (by omega)]
    rw [show m - l.length = 1 by omega]
    simp
  · rw [if_neg hm, if_neg hm, if_neg (by omega), show m - l.length = 0 by omega]
    simp

lemma mleRoots_long {quad : List ℝ} {m : ℕ} (h : m < quad.length) : Py.mleRoots false quad m quad.length false = .error .ub := by
  obtain ⟨l, hl⟩ := quadLoop_ok quad (m / 2) (by omega)
  have hlen := quadLoop_length hl
  simp only [Py.mleRoots, Py.halfRange, Bool.false_eq_true, if_false, res_bind_ok, hl]
  rw [if_neg (by omega)]
  by_cases hm : m % 2 = 1
  · have hq : quad ≠ [] := by rintro rfl; simp at h
    rw [if_pos hm, if_neg (by push Not; exact ⟨hq, by omega⟩), res_bind_ok, if_pos ⟨by omega, trivial⟩]
  · rw [if_neg hm, if_pos ⟨by omega, trivial⟩]

end Verif.Theory
