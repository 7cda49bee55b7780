import Verif.Theory.Build
import Verif.Spec.Prior

/-! Helper theory: `CheckPriorBounds`, and objects built from strictly increasing data. -/

namespace Verif.Theory

open Verif.Model Verif.Spec
open scoped Classical

lemma Dbl.lt_fin (a b : ℝ) : (Dbl.fin a).lt (.fin b) = decide (a < b) := by simp [Dbl.lt]
lemma Dbl.gt_fin (a b : ℝ) : (Dbl.fin a).gt (.fin b) = decide (b < a) := by simp [Dbl.gt, Dbl.lt]

lemma car1_check {b : CarBase} {fmax fmin : ℝ} (h1 : b.maxFreq = .fin fmax) (h2 : b.minFreq = .fin fmin) {θ : List ℝ}
    (hθ : 4 ≤ θ.length) : Car1.checkPrior b θ = .ok (decide (Car1Bounds b.maxStdev fmax fmin θ)) := by
  simp only [Car1.checkPrior, rd_at0 (show 0 < θ.length by omega), rd_at0 (show 1 < θ.length by omega),
    rd_at0 (show 3 < θ.length by omega), res_bind_ok, res_pure, h1, h2, Dbl.lt_fin, Dbl.gt_fin, decide_eq_true_eq]
  congr 1
  rw [decide_eq_decide]
  push Not
  constructor
  · rintro ⟨a, b, c, d, e, f⟩
    exact ⟨⟨d, c, e, f⟩, b, a⟩
  · rintro ⟨⟨d, c, e, f⟩, b, a⟩
    exact ⟨a, b, c, d, e, f⟩

lemma filter_full {α : Type} {l : List α} {P : α → Bool} : (l.filter P).length = l.length ↔ ∀ x ∈ l, P x = true := by
  rw [List.length_filter_eq_length_iff]

lemma unordered_iff (l : List ℝ) : CarP.unordered l = false ↔ ∀ (i : ℕ) (a b : ℝ), l[i]? = some a → l[i+1]? = some b →
    b - a ≤ 1e-8 := by
  induction l with
  | nil => simp [CarP.unordered]
  | cons a l ih =>
    match l, ih with
    | [], _ => simp [CarP.unordered]
    | c :: l, ih =>
      rw [CarP.unordered, Bool.or_eq_false_iff, ih]
      simp only [decide_eq_false_iff_not, gt_iff_lt, not_lt]
      constructor
      · rintro ⟨h1, h2⟩ i x y hx hy
        cases i with
        | zero => simp at hx hy; subst hx; subst hy; exact h1
        | succ i => exact h2 i x y (by simpa using hx) (by simpa using hy)
      · intro h
        exact ⟨h 0 a c (by simp) (by simp), fun i x y hx hy => h (i+1) x y (by simpa using hx) (by simpa using hy)⟩

lemma carp_check {b : CarBase} {fmax fmin : ℝ} (h1 : b.maxFreq = .fin fmax) (h2 : b.minFreq = .fin fmin)
    (h3 : b.ignorePrior = false) {p : ℕ} {θ : List ℝ} (hθ : 2 ≤ θ.length) {roots : List ℂ} (hr : arRoots p θ = .ok roots) :
    CarP.checkPrior b p true θ = .ok (decide (CarpBounds b.maxStdev fmax fmin roots θ)) := by
  have hpi := Real.pi_pos
  have e1 : ∀ x : ℝ, x / 2 / Real.pi = x / (2 * Real.pi) := fun x => by rw [div_div]
  have c1 : (((CarP.cents roots).filter fun x => (Dbl.fin x).lt b.maxFreq).length = (CarP.cents roots).length) ↔
      ∀ r ∈ roots, |r.im| / (2 * Real.pi) < fmax := by
    rw [filter_full]; simp [CarP.cents, h1, Dbl.lt_fin, e1]
  have c2 : (((CarP.widths roots).filter fun x => (Dbl.fin x).lt b.maxFreq).length = (CarP.widths roots).length) ↔
      ∀ r ∈ roots, -r.re / (2 * Real.pi) < fmax := by
    rw [filter_full]; simp [CarP.widths, h1, Dbl.lt_fin, e1]
  have c3 : (((CarP.widths roots).filter fun x => (Dbl.fin x).gt b.minFreq).length = (CarP.widths roots).length) ↔
      ∀ r ∈ roots, fmin < -r.re / (2 * Real.pi) := by
    rw [filter_full]; simp [CarP.widths, h2, Dbl.gt_fin, e1]
  have c4 : uniqueRoots roots 1e-4 = true ↔ roots.Pairwise fun a b => a + b = 0 ∨ 1e-4 < ‖a - b‖ / ‖a + b‖ := by
    rw [uniqueRoots_iff (by norm_num)]
    constructor
    · refine fun hp => hp.imp fun {a b} h => ?_
      rwa [Theory.Sep, norm_div] at h
    · refine fun hp => hp.imp fun {a b} h => ?_
      rwa [Theory.Sep, norm_div]
  have c5 : CarP.unordered (CarP.cents roots) = false ↔ ∀ i a b, roots[i]? = some a → roots[i+1]? = some b →
      |b.im| / (2 * Real.pi) ≤ |a.im| / (2 * Real.pi) + 1e-8 := by
    rw [unordered_iff]
    constructor
    · intro h i a b ha hb
      have := h i _ _ (by rw [CarP.cents, List.getElem?_map, ha]; rfl) (by rw [CarP.cents, List.getElem?_map, hb]; rfl)
      simp only [e1] at this; linarith
    · intro h i a b ha hb
      rw [CarP.cents, List.getElem?_map, Option.map_eq_some_iff] at ha hb
      obtain ⟨x, hx, rfl⟩ := ha
      obtain ⟨z, hz, rfl⟩ := hb
      have := h i x z hx hz
      rw [e1, e1]; linarith
  simp only [CarP.checkPrior, h3, Bool.false_eq_true, if_false, rd_at0 (show 0 < θ.length by omega),
    rd_at0 (show 1 < θ.length by omega), res_bind_ok, res_pure, hr, Bool.true_and, ne_eq, c1, c2, c3]
  congr 1
  by_cases hB : CarpBounds b.maxStdev fmax fmin roots θ
  · rw [decide_eq_true hB, c5.mpr hB.order, c4.mpr hB.sep]
    simp only [Bool.false_eq_true, if_false]
    rw [if_neg]
    push Not
    exact ⟨hB.cent, fun r hr => (hB.width r hr).2, fun r hr => (hB.width r hr).1, hB.sd_hi, hB.sd_lo, hB.err_lo, hB.err_hi⟩
  · rw [decide_eq_false hB]
    by_cases h5 : CarP.unordered (CarP.cents roots) = true
    · rw [if_pos h5]
    · rw [if_neg h5]
      split_ifs with h6
      · rfl
      · by_contra h7
        rw [Bool.not_eq_false] at h7
        push Not at h6
        obtain ⟨d1, d2, d3, d4, d5, d6, d7⟩ := h6
        exact hB ⟨⟨d5, d4, d6, d7⟩, d1, fun r hr => ⟨d3 r hr, d2 r hr⟩, c4.mp h7, c5.mp (by simpa using h5)⟩

/-! ### objects built from strictly increasing data -/

lemma KOk.congr {b : KFBase} {n : ℕ} {t t' : ℕ → ℝ} (h : KOk b n t) (he : ∀ i < n, t i = t' i) : KOk b n t' :=
  ⟨h.time_length, fun {i} hi => by rw [h.dt_get hi, he _ hi, he i (by omega)], h.mean, h.var⟩

/-- data members built from strictly increasing times -/
structure BaseOk {n : ℕ} (t yv e : Fin n → ℝ) (dmin span : ℝ) (b : CarBase) : Prop where
  time : b.time = List.ofFn t
  y : b.y = List.ofFn yv
  yerr : b.yerr = List.ofFn e
  sd : b.maxStdev = 10 * √(armaVar (List.ofFn yv))
  fmax : b.maxFreq = .fin (1 / dmin)
  fmin : b.minFreq = .fin (1 / span)
  ign : b.ignorePrior = false

lemma minGap_iff {n : ℕ} {t : Fin n → ℝ} (ht : StrictMono t) {d : ℝ} :
    IsLeast {x | x ∈ (List.range (n-1)).map fun i => ext0 t (i+1) - ext0 t i} d → IsMinGap t d := by
  rintro ⟨h1, h2⟩
  constructor
  · obtain ⟨i, hi, h⟩ := List.mem_map.mp h1
    rw [List.mem_range] at hi
    refine ⟨⟨i, by omega⟩, ⟨i+1, by omega⟩, by simp [Fin.lt_def], ?_⟩
    rw [← h, ext0_of_lt t (by omega), ext0_of_lt t (by omega)]
  · rintro x ⟨i, j, hij, rfl⟩
    have hij' : (i:ℕ) < j := hij
    have h3 : d ≤ ext0 t (i+1) - ext0 t i := h2 (List.mem_map.mpr ⟨i, List.mem_range.mpr (by omega), rfl⟩)
    have h4 : ext0 t (i+1) ≤ ext0 t j :=
      le_of_step (t := ext0 t) (n := n) (fun i hi => (strictMono_ext0 ht i hi).le) (by omega) j.2
    rw [ext0_fin] at h3 h4
    linarith

lemma base_fresh {n : ℕ} (hn : 2 ≤ n) {t : Fin n → ℝ} (ht : StrictMono t) (y e : Fin n → ℝ) :
    ∃ dmin b, IsMinGap t dmin ∧ 0 < dmin ∧ IsSpan t (t ⟨n-1, by omega⟩ - t ⟨0, by omega⟩) ∧
      dmin ≤ t ⟨n-1, by omega⟩ - t ⟨0, by omega⟩ ∧ (3 ≤ n → dmin < t ⟨n-1, by omega⟩ - t ⟨0, by omega⟩) ∧
      (n = 2 → dmin = t ⟨n-1, by omega⟩ - t ⟨0, by omega⟩) ∧
      armaMin ((List.range (n-1)).map fun i => ext0 t (i+1) - ext0 t i) = .ok dmin ∧
      armaMax (List.ofFn t) = .ok (t ⟨n-1, by omega⟩) ∧ armaMin (List.ofFn t) = .ok (t ⟨0, by omega⟩) ∧
      CarBase.new (List.ofFn t) (List.ofFn y) (List.ofFn e) = .ok b ∧
      BaseOk t y e dmin (t ⟨n-1, by omega⟩ - t ⟨0, by omega⟩) b := by
  obtain ⟨dmin, tmax, tmin, h1, h2, h3, h4, h5, h6, h7⟩ := carBase_new hn (ext0 t) (List.ofFn y) (List.ofFn e)
  obtain ⟨g1, g2, g3, g4, g5, g6⟩ := strict_bounds hn (fun i hi => strictMono_ext0 ht i hi) h1 h2 h3
  rw [ext0_of_lt t (by omega)] at g2 g3
  subst g2 g3
  rw [← ofFn_eq_rangeMap] at h5 h6 h7
  refine ⟨dmin, _, minGap_iff ht h1, g1, ?_, g4, g5, g6, h4, h5, h6, h7, ⟨rfl, rfl, rfl, rfl, ?_, ?_, rfl⟩⟩
  · constructor
    · exact ⟨⟨0, by omega⟩, ⟨n-1, by omega⟩, rfl⟩
    · rintro x ⟨i, j, rfl⟩
      have a1 : t j ≤ t ⟨n-1, by omega⟩ := ht.monotone (Fin.le_def.mpr (by simp; omega))
      have a2 : t ⟨0, by omega⟩ ≤ t i := ht.monotone (Fin.le_def.mpr (by simp))
      linarith
  · simp [Dbl.div, g1.ne']
  · have : t ⟨n-1, by omega⟩ - t ⟨0, by omega⟩ ≠ 0 := by linarith
    simp [Dbl.div, this]

lemma car1_fresh (srt : List ℝ → List ℕ) {n : ℕ} (hn : 2 ≤ n) {t : Fin n → ℝ} (ht : StrictMono t) (y e : Fin n → ℝ)
    {b : CarBase} (hb : CarBase.new (List.ofFn t) (List.ofFn y) (List.ofFn e) = .ok b) :
    ∃ s, Car1.new srt (List.ofFn t) (List.ofFn y) (List.ofFn e) = .ok s ∧ Car1.Ok b n (ext0 t) s := by
  obtain ⟨J, rfl, hJ, hi⟩ := init_strict srt hn (fun i hi => strictMono_ext0 ht i hi) (ext0 y) (ext0 e) 0
  refine ⟨⟨b, ⟨stored (List.range n) (ext0 t) (ext0 y) (ext0 e) 0, 0⟩⟩, ?_, ⟨rfl, ?_⟩⟩
  · simp only [← ofFn_eq_rangeMap] at hi
    simp only [Car1.new, hb, res_bind_ok, KF1.newData, KF1.new, hi, res_pure]
  · have := KOk.raw (J := List.range n) (t := ext0 t) (ext0 y) (ext0 e) 0
    rw [List.length_range] at this
    exact this.congr fun i hi => nth_range _ hi

lemma Ok.congr {p : ℕ} {s s0 : CarP p} {n : ℕ} {t t' : ℕ → ℝ} (h : CarP.Ok s0 n t s) (he : ∀ i < n, t i = t' i) :
    CarP.Ok s0 n t' s := ⟨h.eq, h.kf.congr he⟩

lemma carp_fresh {p : ℕ} (hp : 0 < p) (srt : List ℝ → List ℕ) {n : ℕ} (hn : 2 ≤ n) {t : Fin n → ℝ} (ht : StrictMono t)
    (y e : Fin n → ℝ) {b : CarBase} (hb : CarBase.new (List.ofFn t) (List.ofFn y) (List.ofFn e) = .ok b) (kind : Kind) :
    ∃ s : CarP p, CarP.new kind p srt (List.ofFn t) (List.ofFn y) (List.ofFn e) = .ok s ∧ CarP.Ok s n (ext0 t) s ∧
      CarP.Built kind b s ∧ (kind = .zcarma → ∃ dmin lo hi, IsMinGap t dmin ∧ s.kappaLow = .fin lo ∧ s.kappaHigh = .fin hi ∧
        hi = 1 / dmin ∧ 1 / (t ⟨n-1, by omega⟩ - t ⟨0, by omega⟩) ≤ lo ∧ 0 < lo ∧ lo ≤ hi ∧ (3 ≤ n → lo < hi) ∧
        (n = 2 → lo = hi)) := by
  obtain ⟨J, rfl, hJ, hi⟩ := init_strict srt hn (fun i hi => strictMono_ext0 ht i hi) (ext0 y) (ext0 e) 0
  obtain ⟨dmin, b', g1, g2, -, g3, g4, g5, g6, g7, g8, -, -⟩ := base_fresh hn ht y e
  have hex : ∃ s J, J = List.range n ∧ Sorted n (ext0 t) J ∧ CarP.new kind p srt (List.ofFn t) (List.ofFn y) (List.ofFn e) = .ok s ∧
      CarP.Ok s J.length (nth J (ext0 t)) s ∧ CarP.Built kind b s ∧ (kind = .zcarma → ∃ dmin tmax tmin med,
        armaMin ((List.range (n-1)).map fun i => ext0 t (i+1) - ext0 t i) = .ok dmin ∧
        armaMax ((List.range n).map (ext0 t)) = .ok tmax ∧
        armaMin ((List.range n).map (ext0 t)) = .ok tmin ∧
        armaMedian ((List.range (n-1)).map fun i => ext0 t (i+1) - ext0 t i) = .ok med ∧
        (∀ d, (∀ x ∈ (List.range (n-1)).map fun i => ext0 t (i+1) - ext0 t i, d ≤ x) → d ≤ med) ∧
        s.kappaHigh = Dbl.div (.fin 1) (.fin dmin) ∧
        s.kappaLow = Dbl.max (Dbl.div (.fin 1) (.fin (tmax - tmin))) (Dbl.div (.fin 1) (.fin (10 * med)))) := by
    rw [ofFn_eq_rangeMap t, ofFn_eq_rangeMap y, ofFn_eq_rangeMap e] at hb ⊢
    obtain ⟨s, J, a1, a2, a3, a4, a5⟩ := carp_new (p := p) (srt := srt) hp hn (ext0 t) (ext0 y) (ext0 e) ⟨_, hJ, hi⟩ hb kind
    have hJ' : J.length = n := a1.length_eq.mpr (by
      have := (Sorted.length_eq hJ).mp (by simp); exact this)
    refine ⟨s, List.range n, rfl, hJ, a2, ?_, a4, a5⟩
    have hJt : ∀ i < n, nth J (ext0 t) i = nth (List.range n) (ext0 t) i := by
      intro i hi
      have h1 := a1.sorted
      have h2 := hJ.sorted
      have hperm : (J.map (ext0 t)).Perm ((List.range n).map (ext0 t)) := by
        apply List.Perm.map
        have : J.Subperm (List.range n) := List.subperm_of_subset a1.nodup (fun j hj => by simpa using a1.lt j hj)
        exact this.perm_of_length_le (by simp [hJ'])
      have heq : J.map (ext0 t) = (List.range n).map (ext0 t) :=
        hperm.eq_of_pairwise (fun a b _ _ h1 h2 => absurd h1 (not_lt.mpr h2.le)) h1 h2
      rw [nth, nth, heq]
    rw [List.length_range]
    exact Ok.congr (hJ' ▸ a3) hJt
  obtain ⟨s, J, rfl, a1, a2, a3, a4, a5⟩ := hex
  refine ⟨s, a2, ?_, a4, fun hk => ?_⟩
  · rw [List.length_range] at a3
    exact Ok.congr a3 fun i hi => nth_range _ hi
  · obtain ⟨dm, tmax, tmin, med, k1, k2, k3, k4, k5, k6, k7⟩ := a5 hk
    rw [k1] at g6
    obtain rfl := Except.ok.inj g6
    rw [← ofFn_eq_rangeMap, g7] at k2
    rw [← ofFn_eq_rangeMap, g8] at k3
    obtain rfl := Except.ok.inj k2
    obtain rfl := Except.ok.inj k3
    set T := t ⟨n-1, by omega⟩ - t ⟨0, by omega⟩ with hT
    have hm : dm ≤ med := k5 dm fun x hx => by
      obtain ⟨i, hi, rfl⟩ := List.mem_map.mp hx
      rw [List.mem_range] at hi
      refine g1.2 ⟨⟨i, by omega⟩, ⟨i+1, by omega⟩, by simp [Fin.lt_def], ?_⟩
      rw [ext0_of_lt t (by omega), ext0_of_lt t (by omega)]
    have hmed : 0 < 10 * med := by linarith
    have hTp : 0 < T := by linarith
    refine ⟨dm, max (1 / T) (1 / (10 * med)), 1 / dm, g1, ?_, ?_, rfl, le_max_left _ _, ?_, ?_, ?_, ?_⟩
    · rw [k7]
      simp only [Dbl.div, hmed.ne', hTp.ne', if_false, Dbl.max, Dbl.lt]
      split_ifs with h
      · rw [max_eq_right h.le]
      · rw [max_eq_left (not_lt.mp h)]
    · rw [k6]; simp [Dbl.div, g2.ne']
    · exact lt_max_of_lt_left (by positivity)
    · apply max_le
      · exact one_div_le_one_div_of_le g2 g3
      · exact one_div_le_one_div_of_le g2 (by linarith)
    · intro h3
      apply max_lt
      · exact one_div_lt_one_div_of_lt g2 (g4 h3)
      · exact one_div_lt_one_div_of_lt g2 (by linarith)
    · intro h2
      have := g5 h2
      rw [← this]
      exact max_eq_left (one_div_le_one_div_of_le g2 (by linarith))

lemma armaVar_ofFn {n : ℕ} (y : Fin n → ℝ) : armaVar (List.ofFn y) = sampleVar y := by
  simp only [armaVar, armaMean, sampleVar, List.map_ofFn, List.sum_ofFn, List.length_ofFn, Function.comp_def]

end Verif.Theory
