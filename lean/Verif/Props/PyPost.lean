import Verif.Theory.PyPost
import Verif.Props.PySample
import Verif.Props.PyBand

/-!
Properties C64 (posterior summaries), C65 (`add_mle`) and C66 (filters for the other values of `bestfit`). Specification: `Verif/Spec/Summary.lean`.
-/

namespace Verif.Props

open Verif.Model Verif.Spec Verif.Theory

open scoped Classical

variable {p : ℕ}

/-! ### C64: posterior summaries -/

/-- More than the fraction `a` of the values lies on the outer side of either limit, a value equal to the limit included. -/
def Tails (l : List ℝ) (c : ℝ × ℝ) (a : ℝ) : Prop :=
  a * ((l.length : ℝ) - 1) < l.countP (fun x => decide (x ≤ c.1)) ∧ a * ((l.length : ℝ) - 1) < l.countP (fun x => decide (c.2 ≤ x))

/-- What the summary of the values `l` has to be. -/
structure GoodSummary (l : List ℝ) (s : Py.Summary) : Prop where
  med : IsMedian (· ≤ ·) l s.med
  std : s.std = stdDev l
  nested : s.c99.1 ≤ s.c95.1 ∧ s.c95.1 ≤ s.c68.1 ∧ s.c68.1 ≤ s.med ∧ s.med ≤ s.c68.2 ∧ s.c68.2 ≤ s.c95.2 ∧ s.c95.2 ≤ s.c99.2
  range : (∃ a ∈ l, a ≤ s.c99.1) ∧ ∃ b ∈ l, s.c99.2 ≤ b
  count68 : 0.68 * ((l.length : ℝ) - 1) - 1 < l.countP fun x => decide (s.c68.1 ≤ x ∧ x ≤ s.c68.2)
  count95 : 0.95 * ((l.length : ℝ) - 1) - 1 < l.countP fun x => decide (s.c95.1 ≤ x ∧ x ≤ s.c95.2)
  count99 : 0.99 * ((l.length : ℝ) - 1) - 1 < l.countP fun x => decide (s.c99.1 ≤ x ∧ x ≤ s.c99.2)
  tails : Tails l s.c68 0.16 ∧ Tails l s.c95 0.025 ∧ Tails l s.c99 0.005
  meanMed : |l.sum / l.length - s.med| ≤ s.std
  const : s.std = 0 ↔ ∀ x ∈ l, ∀ y ∈ l, x = y

lemma band_inv {l : List ℝ} {pct lo md hi : ℝ} (h : Py.bandAt l pct = .ok (lo, md, hi)) :
    Py.percentile l ((100 - pct) / 2) = .ok lo ∧ Py.percentile l (100 - (100 - pct) / 2) = .ok hi ∧ Py.median l = .ok md := by
  simp only [Py.bandAt] at h
  obtain ⟨a, h1, h⟩ := bind_ok_inv h
  obtain ⟨b, h2, h⟩ := bind_ok_inv h
  obtain ⟨c, h3, h⟩ := bind_ok_inv h
  injection h with h
  simp only [Prod.mk.injEq] at h
  obtain ⟨rfl, rfl, rfl⟩ := h
  exact ⟨h1, h2, h3⟩

lemma tails_of {l : List ℝ} (hl : l ≠ []) {lo hi q : ℝ} (h0 : 0 ≤ q) (h1 : q ≤ 50) (hlo : Py.percentile l q = .ok lo)
    (hhi : Py.percentile l (100 - q) = .ok hi) : Tails l (lo, hi) (q / 100) := by
  obtain ⟨_, e1, -, -, k1, -, -⟩ := C63_percentile hl h0 (by linarith)
  obtain ⟨_, e2, -, -, -, k2, -⟩ := C63_percentile hl (q := 100 - q) (by linarith) (by linarith)
  cases hlo.symm.trans e1
  cases hhi.symm.trans e2
  have hpos : 0 < l.length := List.length_pos_iff.mpr hl
  have hn : (0 : ℝ) ≤ (l.length : ℝ) - 1 := by
    have : (1 : ℝ) ≤ l.length := by exact_mod_cast hpos
    linarith
  constructor
  · refine (Nat.lt_floor_add_one _).trans_le ?_
    exact_mod_cast k1
  · have h2 := Nat.ceil_lt_add_one (a := (100 - q) / 100 * ((l.length : ℝ) - 1)) (mul_nonneg (by linarith) hn)
    have h3 : (l.length : ℝ) ≤ l.countP (fun x => decide (hi ≤ x)) + ⌈(100 - q) / 100 * ((l.length : ℝ) - 1)⌉₊ := by
      exact_mod_cast Nat.sub_le_iff_le_add.mp k2
    show q / 100 * ((l.length : ℝ) - 1) < l.countP (fun x => decide (hi ≤ x))
    have h4 : (100 - q) / 100 * ((l.length : ℝ) - 1) = (l.length : ℝ) - 1 - q / 100 * ((l.length : ℝ) - 1) := by ring
    linarith

lemma summary_good {l : List ℝ} (hl : l ≠ []) (neff : ℝ) : ∃ s, Py.summaryOf neff l = .ok s ∧ s.neff = neff ∧ GoodSummary l s := by
  have hpos : 0 < l.length := List.length_pos_iff.mpr hl
  have hpos' : (0 : ℝ) < l.length := by exact_mod_cast hpos
  obtain ⟨m, hm⟩ := median_exists (le := fun a b : ℝ => a ≤ b) (fun _ _ _ => le_trans) le_total hl
  obtain ⟨lo68, md, hi68, b68, o1, o2, -, -, k1, k2, n68, -, -, -, w68, -⟩ := C63_band hl (pct := 68) (by norm_num) (by norm_num)
  obtain ⟨lo95, md2, hi95, b95, -, -, -, -, -, -, n95, -, -, -, w95, -⟩ := C63_band hl (pct := 95) (by norm_num) (by norm_num)
  obtain ⟨lo99, md3, hi99, b99, -, -, r1, r2, -, -, n99, -⟩ := C63_band hl (pct := 99) (by norm_num) (by norm_num)
  obtain ⟨_, _, c95, o3, o4⟩ := w68 95 (by norm_num) (by norm_num)
  obtain ⟨_, _, c99, o5, o6⟩ := w95 99 (by norm_num) (by norm_num)
  cases b95.symm.trans c95
  cases b99.symm.trans c99
  obtain ⟨p1, p2, p3⟩ := band_inv b68
  obtain ⟨p4, p5, -⟩ := band_inv b95
  obtain ⟨p6, p7, -⟩ := band_inv b99
  norm_num at p1 p2 p4 p5 p6 p7
  cases (median_of hm).symm.trans p3
  refine ⟨⟨neff, m, stdDev l, (lo68, hi68), (lo95, hi95), (lo99, hi99)⟩, ?_, rfl, ⟨hm, rfl, ⟨o5, o3, o1, o2, o4, o6⟩, ⟨r1, r2⟩, ?_, ?_, ?_, ⟨?_, ?_, ?_⟩,
    mean_median hl k1 k2, ?_⟩⟩
  · simp only [Py.summaryOf, p3, res_bind_ok, npStd_eq hl]
    rw [p1, res_bind_ok, p2, res_bind_ok, show (2.5 : ℝ) = 5 / 2 by norm_num, p4, res_bind_ok, show (97.5 : ℝ) = 195 / 2 by norm_num, p5, res_bind_ok,
      show (0.5 : ℝ) = 1 / 2 by norm_num, p6, res_bind_ok, show (99.5 : ℝ) = 199 / 2 by norm_num, p7, res_bind_ok]
    rfl
  · convert n68 using 3; norm_num
  · convert n95 using 3; norm_num
  · convert n99 using 3; norm_num
  · have := tails_of hl (q := 16) (hi := hi68) (by norm_num) (by norm_num) p1 (by norm_num [p2])
    norm_num at this ⊢; exact this
  · have := tails_of hl (q := 5 / 2) (hi := hi95) (by norm_num) (by norm_num) p4 (by norm_num [p5])
    norm_num at this ⊢; exact this
  · have := tails_of hl (q := 1 / 2) (hi := hi99) (by norm_num) (by norm_num) p6 (by norm_num [p7])
    norm_num at this ⊢; exact this
  · show stdDev l = 0 ↔ _
    rw [stdDev_zero hl]
    constructor
    · intro h x hx y hy; rw [h x hx, h y hy]
    · intro h x hx
      have h1 : l.sum = l.length * x := by
        rw [List.eq_replicate_of_mem (fun y hy => h y hy x hx), List.sum_replicate, List.length_replicate, nsmul_eq_mul]
      rw [h1]; field_simp

/-- **C64.** After `newaxis`, for an estimate of the autocorrelation time `tau` that returns for every column something else than 0,
`posterior_summaries` of a vector or of an array with at least one row returns one summary per column: median; standard deviation; nested intervals of 68, 95 and 99
percent around the median, inside the range of the values, each with more than `pct·(n-1) - 1` of the values inside and
more than `(1-pct)/2·(n-1)` on either side (limits included); the mean is within one
standard deviation of the median; the standard deviation is 0 exactly for constant samples; the effective number is `n` over the autocorrelation time. -/
theorem C64_summaries (tau : List ℝ → Res ℝ) (ts : List ℝ → ℝ) {n : ℕ} (hn : 0 < n) (cols : List (List ℝ)) (hc : ∀ c ∈ cols, c.length = n)
    (ht : ∀ c ∈ cols, tau c = .ok (ts c) ∧ ts c ≠ 0) (tr : Py.Trace)
    (htr : tr = .mat n cols ∨ ∃ c, cols = [c] ∧ tr = .vec c) :
    ∃ out, Py.posteriorSummaries tau tr.newaxis = .ok out ∧ out.length = cols.length ∧
      ∀ (i : ℕ) (c : List ℝ), cols[i]? = some c → ∃ s, out[i]? = some s ∧ GoodSummary c s ∧ s.neff = n / ts c ∧ (1 ≤ ts c → s.neff ≤ n) := by
  have hax : tr.newaxis = .mat n cols := by
    rcases htr with rfl | ⟨c, rfl, rfl⟩
    · rfl
    · simp [Py.Trace.newaxis, hc c (by simp)]
  rw [hax]
  have hne : ∀ c ∈ cols, c ≠ [] := fun c h e => by have := hc c h; subst e; simp at this; omega
  have hs : ∀ c ∈ cols, ∃ s, Py.summaryOf (n / ts c) c = .ok s ∧ s.neff = n / ts c ∧ GoodSummary c s := fun c h => summary_good (hne c h) _
  have e1 : cols.mapM tau = .ok (cols.map ts) := mapM_total fun c h => (ht c h).1
  have e2 : (cols.map ts).mapM (fun t => dv (n : ℝ) t) = .ok ((cols.map ts).map fun t => n / t) := mapM_total fun t h => by
    obtain ⟨c, h1, rfl⟩ := List.mem_map.mp h
    exact dv_ok (ht c h1).2
  have e3 : ((cols.map ts).map fun t => (n : ℝ) / t).zip cols = cols.map fun c => ((n : ℝ) / ts c, c) := by
    rw [List.map_map]
    clear hax htr hs e1 e2 hc ht hne
    induction cols with
    | nil => rfl
    | cons a l ih => simp only [List.map_cons, List.zip_cons_cons, ih]; rfl
  set S : List ℝ → Py.Summary := fun c => if h : c ∈ cols then (hs c h).choose else ⟨0, 0, 0, 0, 0, 0⟩ with hS
  have hS1 : ∀ c (h : c ∈ cols), Py.summaryOf (n / ts c) c = .ok (S c) ∧ (S c).neff = n / ts c ∧ GoodSummary c (S c) := by
    intro c h
    have : S c = (hs c h).choose := by rw [hS]; exact dif_pos h
    rw [this]
    exact (hs c h).choose_spec
  refine ⟨cols.map S, ?_, by simp, fun i c hi => ⟨S c, by rw [List.getElem?_map, hi]; rfl, ?_⟩⟩
  · simp only [Py.posteriorSummaries, Py.effectiveSamples, e1, res_bind_ok, e2, e3, List.mapM_map]
    exact mapM_total fun c h => (hS1 c h).1
  · obtain ⟨-, g2, g3⟩ := hS1 c (List.mem_of_getElem? hi)
    refine ⟨g3, g2, fun h => ?_⟩
    rw [g2]
    exact div_le_self (by positivity) h

/-- **C64.** Without `newaxis` (samples read from a file) the summary of a vector raises an `IndexError`: the branch for vectors is never reached. -/
theorem C64_vector_raises (tau : List ℝ → Res ℝ) (l : List ℝ) : Py.posteriorSummaries tau (.vec l) = .error .bounds := rfl

/-- two columns with three samples -/
example : ∃ out, Py.posteriorSummaries (fun _ => .ok 2) (Py.Trace.newaxis (.mat 3 [[1, 5, 2], [0, 0, 0]])) = .ok out ∧ out.length = 2 := by
  obtain ⟨out, h, h1, -⟩ := C64_summaries (fun _ => .ok 2) (fun _ => 2) (n := 3) (by norm_num) [[1, 5, 2], [0, 0, 0]] (by simp) (by simp) _ (.inl rfl)
  exact ⟨out, h, h1⟩

/-! ### C65: `add_mle` -/

/-- **C65 fails.** In Python 3 `add_mle` never returns: it raises for all orders and estimates. -/
theorem C65_negation (p q : ℕ) (x : List ℝ) : Py.addMle true p q x = .error (if x.length < 3 then .bounds else .runtime) := by
  have hr : ∀ i, rd x i = if i < x.length then .ok (at0 x i) else .error .bounds := by
    intro i
    by_cases h : i < x.length
    · rw [if_pos h, rd_at0 h]
    · rw [if_neg h, rd, List.getElem?_eq_none (by omega)]
  simp only [Py.addMle, hr, Py.mleRoots, Py.halfRange]
  by_cases h : x.length < 3
  · rw [if_pos h]
    by_cases h0 : 0 < x.length
    · by_cases h1 : 1 < x.length
      · rw [if_pos h0, if_pos h1, if_neg (show ¬ 2 < x.length by omega)]; rfl
      · rw [if_pos h0, if_neg h1]; rfl
    · rw [if_neg h0]; rfl
  · rw [if_neg h, if_pos (show 0 < x.length by omega), if_pos (show 1 < x.length by omega), if_pos (show 2 < x.length by omega)]
    rfl

/-- **C65, the part that holds.** With integer division, for an estimate with the right number of entries and different roots, the dictionary
of `add_mle` describes one process, the one that C++ and the class derive from the same parameters: roots, widths and centroids, moving-average coefficients, `sigma` with
`sigma² = ExtractSigsqr`; the process has variance `var`, and `ar_coefs`, `ma_coefs`, `sigma` give its power spectrum. Missing: the integer division. -/
theorem C65_add_mle_partial {q : ℕ} (hq : q < p) (s : CarP p) (hs : Produces s q) (x : List ℝ) (hx : x.length = 3 + p + q) {roots : List ℂ}
    (hr : arRoots p x = .ok roots) (hnd : roots.Nodup) :
    ∃ m, Py.addMle false p q x = .ok m ∧ m.var = at0 x 0 ^ 2 ∧ m.scale = at0 x 1 ∧ m.mu = at0 x 2 ∧ m.roots = roots ∧
      m.width = CarP.widths roots ∧ m.cent = CarP.cents roots ∧ s.extractMA x = .ok (KFp.padMA p m.ma) ∧ 0 ≤ m.sigma ∧
      s.extractSigsqr x = .ok (m.sigma ^ 2) ∧ Py.derived p q x = .ok (m.roots, m.ma, m.sigma, m.mu) ∧
      carmaAcf (m.sigma ^ 2) (vecOf p roots) m.ma 0 = m.var ∧
      ∀ f, Py.powerSpectrum f m.sigma m.ar m.ma =
        .ok (2 * ∫ d in Set.Ioi (0:ℝ), carmaAcf (m.sigma ^ 2) (vecOf p roots) m.ma d * Real.cos (2 * Real.pi * f * d)) := by
  obtain ⟨roots', ma, -, d1, d2, d3, d4, d5, d6, d7, d8, d9⟩ := C53_derived hq s hs x hx
  cases hr.symm.trans d2
  obtain ⟨sigma, g1, g2, g3, g4⟩ := d9 hnd
  obtain ⟨roots', hr', hg⟩ := rootsFrom_spec x 3 p (by omega)
  cases hr.symm.trans hr'
  have ha := hg.admissible hnd
  obtain ⟨ma', h1, h2, h3, h4⟩ := sampMa_spec hq x hx
  cases d5.symm.trans h1
  have hl : ma.length ≤ p := by omega
  have hne : ∃ y ∈ ma, y ≠ 0 := ⟨1, List.mem_of_getElem? h3, one_ne_zero⟩
  have hpos : 0 < carmaAcf 1 (vecOf p roots) ma 0 := carmaAcf_pos ha one_pos hl hne
  have e1 : Py.mleRoots false (((x.drop 3).take p).map Real.exp) p p true = .ok roots := by
    rw [← d1]
    exact mleRoots_eq (by simp; omega) true
  have e2 : (if q = 0 then (.ok [1] : Res (List ℝ))
    else do
      let mr ← Py.mleRoots false ((x.drop (3 + p)).map Real.exp) q ((x.drop (3 + p)).map Real.exp).length false
      let c := Py.npPoly mr
      let cq ← rd c q
      if cq = 0 then .error .nonfinite
      else return ((c.map fun x => x / cq).map Complex.re).reverse) = .ok ma := by
    rw [← d5, Py.sampMa]
    split_ifs with hq0
    · rfl
    · have hlen : ((x.drop (3 + p)).map Real.exp).length = q := by simp; omega
      rw [hlen, mleRoots_eq hlen false]
      simp only [List.map_reverse]
  have hva : Py.carmaVariance 1 (vecOf p roots) ma 0 = .ok (carmaAcf 1 (vecOf p roots) ma 0) := by
    have := (C48_python_variance ha hl 1 0).1
    simpa using this
  have hsig : sigma = √(at0 x 0 ^ 2 / carmaAcf 1 (vecOf p roots) ma 0) := by
    rw [carmaAcf_scale] at g4
    rw [← g4, mul_div_cancel_right₀ _ hpos.ne', Real.sqrt_sq g2]
  have hadd : Py.addMle false p q x = .ok ⟨at0 x 0 ^ 2, at0 x 1, at0 x 2, roots, roots.map fun r => -r.re / (2 * Real.pi),
      roots.map fun r => |r.im| / (2 * Real.pi), Py.arCoefs roots, ma, sigma⟩ := by
    simp only [Py.addMle]
    rw [rd_at0 (show 0 < x.length by omega), res_bind_ok, rd_at0 (show 1 < x.length by omega), res_bind_ok, rd_at0 (show 2 < x.length by omega),
      res_bind_ok, e1, res_bind_ok]
    erw [e2]
    rw [res_bind_ok, hva, res_bind_ok, dv_ok hpos.ne', res_bind_ok, py_sqrt_ok (by positivity), res_bind_ok, hsig]
    rfl
  refine ⟨_, hadd, rfl, rfl, rfl, rfl, d3, d4, d7, g2, g3, ?_, g4, fun f => ?_⟩
  · simp only [Py.derived, d1, res_bind_ok, d5, g1, rd_at0 (show 2 < x.length by omega)]
    rfl
  · have := C43_autocovariance ha hl sigma f
    rwa [ofFn_vecOf hg.length] at this

/-- a CARMA(2,1) object and an estimate with roots `-2, -1` -/
example (srt : List ℝ → List ℕ) : ∃ s, CarP.new (.carma 1) 2 srt (List.ofFn exT) (List.ofFn exY) (List.ofFn exY) = .ok s ∧ Produces s 1 ∧
    [1, 1, 0, Real.log 2, Real.log 3, 0.3].length = 3 + 2 + 1 ∧
    arRoots 2 [1, 1, 0, Real.log 2, Real.log 3, 0.3] = .ok [-2, -1] ∧ [(-2 : ℂ), -1].Nodup := by
  obtain ⟨-, b, -, -, -, -, -, -, -, -, -, hb, -⟩ := base_fresh (by norm_num) exT_mono exY exY
  obtain ⟨s, h1, h2, h3, h4⟩ := carp_fresh (p := 2) (by norm_num) srt (by norm_num) exT_mono exY exY hb (.carma 1)
  exact ⟨s, h1, .inl h3.kind, rfl, ex_roots (by simp) (by simp [at0]) (by simp [at0]), by simp⟩

/-- **C65.** With an estimate of another order than the sample (as `choose_order` may return) the moving-average roots are read from an array that
is not initialised. -/
theorem C65_other_order {q : ℕ} (hq : 0 < q) (x : List ℝ) (hp : 0 < p) (hx : 3 + p + q < x.length) :
    Py.addMle false p q x = .error .ub := by
  have e1 : ∃ roots, Py.mleRoots false (((x.drop 3).take p).map Real.exp) p p true = .ok roots := by
    obtain ⟨roots, hr, -⟩ := rootsFrom_spec x 3 p (by omega)
    exact ⟨roots, (mleRoots_eq (by simp; omega) true).trans ((sampAr_eq x (by omega)).trans hr)⟩
  obtain ⟨roots, e1⟩ := e1
  have e2 := mleRoots_long (quad := (x.drop (3 + p)).map Real.exp) (m := q) (by simp; omega)
  simp only [Py.addMle, rd_at0 (show 0 < x.length by omega), rd_at0 (show 1 < x.length by omega), rd_at0 (show 2 < x.length by omega), res_bind_ok, e1,
    if_neg hq.ne', e2]
  rfl

example : (0 : ℕ) < 1 ∧ (0 : ℕ) < 2 ∧ 3 + 2 + 1 < [1, 1, 0, Real.log 2, Real.log 3, 0.3, 0.1].length := by simp

/-! ### C66: the other values of `bestfit` -/

/-- **C66, CARMA, the part that holds.** With `bestfit='median'` prediction uses the medians over the samples of the roots (real parts first, then
imaginary parts), of the moving-average coefficients, of `sigma` and of `mu`. Whenever these describe a process, `predict` returns the conditional
means and variances of that process given the data. Missing: medians of roots that are not closed under conjugation (`C66_median_negation`). -/
theorem C66_median_predict_partial (srt : List ℝ → List ℕ) {n : ℕ} (hn : 2 ≤ n) {t : Fin n → ℝ} (ht : StrictMono t)
    (y e : Fin n → ℝ) (hp : 2 ≤ p) {q : ℕ} (hq : q < p) (logpost : List Dbl) {rows : List (List ℝ)} {d : List (List ℂ × List ℝ × ℝ × ℝ)}
    (hd : rows.mapM (Py.derived p q) = .ok d) (xs : List ℝ) (hx : ∀ x ∈ xs, ∀ i, t i = x → e i ≠ 0) {ω : Fin p → ℂ} {ma : ℕ → ℝ} {s mu : ℝ}
    (h1 : IsMedian (· ≤ ·) (d.map fun x => x.2.2.1) s) (h2 : IsMedian (· ≤ ·) (d.map fun x => x.2.2.2) mu)
    (h3 : ∀ k, IsMedian LexLe (d.map fun x => vecOf p x.1 k) (ω k)) (h4 : ∀ j < q + 1, IsMedian (· ≤ ·) (d.map fun x => x.2.1.getD j 0) (ma j))
    (ha : Admissible ω) (hs : s ≠ 0) (hb : ∃ j < q + 1, ma j ≠ 0) :
    let R := carmaAcf (s ^ 2) ω ((List.range (q + 1)).map ma)
    Py.predictAll (Py.makeFilter (p := p) srt (List.ofFn t) (List.ofFn y) (List.ofFn e) q logpost rows .median) xs =
      .ok (xs.map fun x => (predMean R t e (fun i => y i - mu) x + mu, predVar R t e x)) := by
  intro R
  have hl : ((List.range (q + 1)).map ma).length ≤ p := by simp only [List.length_map, List.length_range]; omega
  have hb' : ∃ b ∈ (List.range (q + 1)).map ma, b ≠ 0 := by
    obtain ⟨j, hj, h⟩ := hb
    exact ⟨ma j, List.mem_map.mpr ⟨j, List.mem_range.mpr hj, rfl⟩, h⟩
  have hs2 : 0 < s ^ 2 := by positivity
  obtain ⟨kf, g1, g2⟩ := KFp.new_inv srt hn ht (fun i => y i - mu) e (s ^ 2) ω ((List.range (q + 1)).map ma)
  have hE := KFp.exact hp hs2 ha (padMA_length hl) (padMA_ne hb')
  have h6 := hE.predictAll mu (by omega) (incr_of_strictMono ht) xs g2 (fun x hxm i hi => by
    rw [ext0_of_lt t hi, ext0_of_lt e hi]; exact hx x hxm _)
  simp only [fst_ext0, carmaAcf_pad] at h6
  rw [Py.makeFilter, medianFilter_eq srt _ _ _ hd h1 h2 h3 h4, map_sub_ofFn, g1]
  exact h6

/-- **C66.** Medians exist for every nonempty set of samples. -/
theorem C66_medians_exist {l : List ℝ} (hl : l ≠ []) {c : List ℂ} (hc : c ≠ []) : (∃ m, IsMedian (· ≤ ·) l m) ∧ ∃ z, IsMedian LexLe c z :=
  ⟨median_exists (le := fun a b : ℝ => a ≤ b) (fun _ _ _ => le_trans) le_total hl, median_exists lex_trans lex_total hc⟩

/-- **C66, one sample.** With a single sample (its log-posterior may be anything) `map`, `median`, `mean` and a random draw give the same filter, fault
or not. -/
theorem C66_single (srt : List ℝ → List ℕ) (time y ysig : List ℝ) {q : ℕ} (hq : q < p) (v : Dbl) {θ : List ℝ} (hθ : θ.length = 3 + p + q)
    (fit : Py.BestFit) (hf : ∀ i, fit = .random i → i = 0) :
    Py.makeFilter (p := p) srt time y ysig q [v] [θ] fit = Py.makeFilter srt time y ysig q [v] [θ] .map := by
  have hmap : Py.mapFilter (p := p) srt time y ysig q [v] [θ] = Py.rowFilter srt time y ysig q [θ] 0 := by
    simp only [Py.mapFilter, Py.rowFilter, Py.derived, Py.argmax, List.foldl_nil, res_bind_ok, bind_assoc]
    rfl
  obtain ⟨roots, hr, hg⟩ := rootsFrom_spec θ 3 p (by omega)
  obtain ⟨ma, h1, h2, h3, h4⟩ := sampMa_spec hq θ hθ
  have hr : Py.sampAr p θ = .ok roots := (sampAr_eq θ (by omega)).trans hr
  have hrow : Py.rowFilter (p := p) srt time y ysig q [θ] 0 = (Py.sampSigma p θ roots ma >>= fun sigma =>
      KFp.new srt time (y.map fun v => v - at0 θ 2) ysig (sigma ^ 2) (vecOf p roots) ma >>= fun kf => .ok (kf, at0 θ 2)) := by
    simp only [Py.rowFilter, rd_ok (show [θ][0]? = some θ from rfl), res_bind_ok, Py.derived, hr, h1, rd_at0 (show 2 < θ.length by omega), bind_assoc]
    rfl
  have hder : [θ].mapM (Py.derived p q) = (Py.sampSigma p θ roots ma >>= fun sigma => .ok [(roots, ma, sigma, at0 θ 2)]) := by
    simp only [List.mapM_cons, List.mapM_nil, Py.derived, hr, h1, res_bind_ok, rd_at0 (show 2 < θ.length by omega), bind_assoc]
    rfl
  have hma : (List.range (q + 1)).map (fun j => ma.getD j 0) = ma := by
    refine List.ext_getElem (by simp [h2]) fun i a b => ?_
    simp [b]
  cases fit with
  | map => rfl
  | random i =>
    obtain rfl := hf i rfl
    simp only [Py.makeFilter]
    rw [hmap, if_neg (by simp)]
  | median =>
    simp only [Py.makeFilter]
    rw [hmap, hrow]
    cases hsig : Py.sampSigma p θ roots ma with
    | error f => rw [Py.medianFilter, hder, hsig]; rfl
    | ok sigma =>
      rw [hsig] at hder
      rw [medianFilter_eq srt time y ysig (d := [(roots, ma, sigma, at0 θ 2)]) hder (ω := vecOf p roots) (ma := fun j => ma.getD j 0)
        (median_single _ _) (median_single _ _) (fun k => median_single _ _) (fun j _ => median_single _ _), hma]
      rfl
  | mean =>
    simp only [Py.makeFilter]
    rw [hmap, hrow]
    cases hsig : Py.sampSigma p θ roots ma with
    | error f => rw [Py.meanFilter, hder, hsig]; rfl
    | ok sigma =>
      rw [hsig] at hder
      rw [meanFilter_eq srt time y ysig (d := [(roots, ma, sigma, at0 θ 2)]) hder (by simp)]
      simp only [avg, List.map_cons, List.map_nil, List.sum_cons, List.sum_nil, add_zero, List.length_cons, List.length_nil, zero_add, Nat.cast_one, div_one, hma]
      rfl

/-- one sample of a CARMA(2,1) sampler -/
example : [1, 2, 0, Real.log 2, Real.log 3, 0.3].length = 3 + 2 + 1 := rfl

/-- **C66, random draws, the part that holds.** With any other string a position `i` is drawn, and prediction is the one of sample `i`: the conditional means and
variances of its process given the data, with the measurement errors as supplied (cf. C55). -/
theorem C66_random_predict_partial (srt : List ℝ → List ℕ) {n : ℕ} (hn : 2 ≤ n) {t : Fin n → ℝ} (ht : StrictMono t)
    (y e : Fin n → ℝ) (hp : 2 ≤ p) {q : ℕ} (hq : q < p) {logpost : List Dbl} {rows : List (List ℝ)} {i : ℕ}
    (hi : i < logpost.length) {θ : List ℝ} (hrow : rows[i]? = some θ) (hθ : θ.length = 3 + p + q) (h0 : at0 θ 0 ≠ 0)
    {roots : List ℂ} (hr : arRoots p θ = .ok roots) (hnd : roots.Nodup) (xs : List ℝ)
    (hx : ∀ x ∈ xs, ∀ i, t i = x → e i ≠ 0) :
    ∃ (ω : Fin p → ℂ) (ma : List ℝ), List.ofFn ω = roots ∧ Admissible ω ∧
      (∀ z, maEval ma z = ((factorPoly (at0 θ) (3 + p) q).map Complex.ofRealHom).eval z / (factorPoly (at0 θ) (3 + p) q).coeff 0) ∧
      let R : ℝ → ℝ := fun d => at0 θ 0 ^ 2 * (carmaAcf 1 ω ma d / carmaAcf 1 ω ma 0)
      Py.predictAll (Py.makeFilter (p := p) srt (List.ofFn t) (List.ofFn y) (List.ofFn e) q logpost rows (.random i)) xs =
        .ok (xs.map fun x => (predMean R t e (fun i => y i - at0 θ 2) x + at0 θ 2, predVar R t e x)) := by
  have h1 : FirstMax [Dbl.fin 0] 0 := ⟨by simp, .fin 0, rfl, by simp [Dbl.lt], fun j hj => absurd hj (by omega)⟩
  obtain ⟨ω, ma, g1, g2, g3, g4⟩ := C55_carma_predict_partial srt hn ht y e hp hq h1 (rows := [θ]) rfl hθ h0 hr hnd xs hx
  refine ⟨ω, ma, g1, g2, g3, ?_⟩
  have e1 : Py.makeFilter (p := p) srt (List.ofFn t) (List.ofFn y) (List.ofFn e) q logpost rows (.random i) =
      Py.makeFilter srt (List.ofFn t) (List.ofFn y) (List.ofFn e) q [.fin 0] [θ] (.random 0) := by
    simp only [Py.makeFilter]
    rw [if_neg (by omega), if_neg (by simp), Py.rowFilter, Py.rowFilter, rd_ok hrow, rd_ok (show [θ][0]? = some θ from rfl)]
  rw [e1, C66_single srt _ _ _ hq _ hθ _ (fun i h => by injection h with h; exact h.symm)]
  exact g4

/-- the second of two samples -/
example : (1 : ℕ) < [Dbl.fin 0, .nan].length ∧ [[], [1, 2, 0, Real.log 2, Real.log 3, 0.3]][1]? = some [1, 2, 0, Real.log 2, Real.log 3, 0.3] ∧
    arRoots 2 [1, 2, 0, Real.log 2, Real.log 3, 0.3] = .ok [-2, -1] :=
  ⟨by simp, rfl, ex_roots (by simp) (by simp [at0]) (by simp [at0])⟩

/-- **C66, median, fails.** Two CARMA(2,0) samples with roots `-1/2 ∓ i √3/2` and `-2, -1`: for every data set the filter built from the medians
has roots that are not closed under conjugation, so it is not the filter of a real process. -/
theorem C66_median_negation (srt : List ℝ → List ℕ) {n : ℕ} (hn : 2 ≤ n) {t : Fin n → ℝ} (ht : StrictMono t) (y e : Fin n → ℝ) (logpost : List Dbl) :
    ∃ (kf : KFp 2) (mu : ℝ), Py.makeFilter srt (List.ofFn t) (List.ofFn y) (List.ofFn e) 0 logpost
      [[1, 1, 0, 0, 0], [1, 1, 0, Real.log 2, Real.log 3]] .median = .ok (kf, mu) ∧ ¬ ∀ k, ∃ l, kf.omega l = star (kf.omega k) := by
  have h3 : 0 < √3 := Real.sqrt_pos.mpr (by norm_num)
  have a1 := (sampAr_eq (p := 2) [1, 1, 0, 0, 0] (by simp)).symm.trans ex_sampAr
  have a2 := ex_roots (θ := [1, 1, 0, Real.log 2, Real.log 3]) (by simp) (by simp [at0]) (by simp [at0])
  obtain ⟨ma1, s1, d1, -⟩ := derived_spec (p := 2) (q := 0) (by norm_num) rfl a1 (by
    simp only [List.nodup_cons, List.mem_singleton, Complex.ext_iff, List.not_mem_nil, not_false_eq_true, List.nodup_nil, and_true]
    rintro ⟨-, h⟩
    linarith)
  obtain ⟨ma2, s2, d2, -⟩ := derived_spec (p := 2) (q := 0) (by norm_num) rfl a2 (by simp)
  have hd : [[1, 1, 0, 0, 0], [1, 1, 0, Real.log 2, Real.log 3]].mapM (Py.derived 2 0) = .ok [([⟨-0.5, -0.5 * √3⟩, ⟨-0.5, -(-0.5 * √3)⟩], ma1, s1, at0 [1, 1, 0, 0, 0] 2),
      ([-2, -1], ma2, s2, at0 [1, 1, 0, Real.log 2, Real.log 3] 2)] := by
    rw [List.mapM_cons, d1, List.mapM_cons, d2]; rfl
  obtain ⟨m1, g1⟩ := median_exists (le := fun a b : ℝ => a ≤ b) (fun _ _ _ => le_trans) le_total (l := [s1, s2]) (by simp)
  obtain ⟨m2, g2⟩ := median_exists (le := fun a b : ℝ => a ≤ b) (fun _ _ _ => le_trans) le_total
    (l := [at0 [1, 1, 0, 0, 0] 2, at0 [1, 1, 0, Real.log 2, Real.log 3] 2]) (by simp)
  obtain ⟨m3, g3⟩ := median_exists (le := fun a b : ℝ => a ≤ b) (fun _ _ _ => le_trans) le_total (l := [ma1.getD 0 0, ma2.getD 0 0]) (by simp)
  have g4 : ∀ k : Fin 2, IsMedian LexLe [vecOf 2 [⟨-0.5, -0.5 * √3⟩, ⟨-0.5, -(-0.5 * √3)⟩] k, vecOf 2 [-2, -1] k]
      (![⟨-1.25, -0.25 * √3⟩, ⟨-0.75, 0.25 * √3⟩] k) := by
    intro k
    refine ⟨[vecOf 2 [-2, -1] k, vecOf 2 [⟨-0.5, -0.5 * √3⟩, ⟨-0.5, -(-0.5 * √3)⟩] k], vecOf 2 [-2, -1] k,
      vecOf 2 [⟨-0.5, -0.5 * √3⟩, ⟨-0.5, -(-0.5 * √3)⟩] k, List.Perm.swap _ _ _, ?_, by simp, by simp, ?_⟩
    · simp only [List.pairwise_cons, List.mem_singleton, List.not_mem_nil, List.Pairwise.nil, and_true, forall_eq, IsEmpty.forall_iff, implies_true]
      left
      fin_cases k <;> simp [vecOf] <;> norm_num
    · fin_cases k <;> simp [vecOf, Complex.ext_iff] <;> norm_num <;> ring
  have hm := medianFilter_eq (p := 2) srt (List.ofFn t) (List.ofFn y) (List.ofFn e) hd (ma := fun _ => m3) g1 g2 g4 (fun j hj => by
    obtain rfl : j = 0 := by omega
    exact g3)
  rw [map_sub_ofFn] at hm
  obtain ⟨kf, i1, i2⟩ := KFp.new_inv (p := 2) srt hn ht (fun i => y i - m2) e (m1 ^ 2) ![⟨-1.25, -0.25 * √3⟩, ⟨-0.75, 0.25 * √3⟩] ((List.range (0 + 1)).map fun _ => m3)
  refine ⟨kf, m2, by rw [Py.makeFilter, hm, i1]; rfl, fun h => ?_⟩
  obtain ⟨j, hj⟩ := h 0
  rw [i2.om] at hj
  fin_cases j <;> simp [Complex.ext_iff] at hj <;> norm_num at hj
  linarith

/-- **C66, CAR(1).** `Car1Sample` with `bestfit='median'`: the medians of `sigma`, `mu` and `log_omega` always describe a CAR(1) process (if no sample has
standard deviation 0), and `predict` returns its conditional means and variances given the data, errors as supplied. -/
theorem C66_car1_median (srt : List ℝ → List ℕ) {n : ℕ} (hn : 2 ≤ n) {t : Fin n → ℝ} (ht : StrictMono t) (y e : Fin n → ℝ) (logpost : List Dbl)
    {rows : List (List ℝ)} (hne : rows ≠ []) (hθ : ∀ θ ∈ rows, θ.length = 4) (h0 : ∀ θ ∈ rows, at0 θ 0 ≠ 0)
    (xs : List ℝ) (hx : ∀ x ∈ xs, ∀ i, t i = x → e i ≠ 0) :
    ∃ s mu lo, IsMedian (· ≤ ·) (rows.map fun θ => √(2 * at0 θ 0 ^ 2 * Real.exp (at0 θ 3))) s ∧ IsMedian (· ≤ ·) (rows.map fun θ => at0 θ 2) mu ∧
      IsMedian (· ≤ ·) (rows.map fun θ => at0 θ 3) lo ∧ 0 < s ∧
      let R := car1Acf (s ^ 2) (Real.exp lo)
      Py.predictAll (Py.makeFilter1 srt (List.ofFn t) (List.ofFn y) (List.ofFn e) logpost rows .median) xs =
        .ok (xs.map fun x => (predMean R t e (fun i => y i - mu) x + mu, predVar R t e x)) := by
  have hne' : ∀ (f : List ℝ → ℝ), rows.map f ≠ [] := fun f => by simpa using hne
  obtain ⟨s, h1⟩ := median_exists (le := fun a b : ℝ => a ≤ b) (fun _ _ _ => le_trans) le_total (hne' fun θ => √(2 * at0 θ 0 ^ 2 * Real.exp (at0 θ 3)))
  obtain ⟨mu, h2⟩ := median_exists (le := fun a b : ℝ => a ≤ b) (fun _ _ _ => le_trans) le_total (hne' fun θ => at0 θ 2)
  obtain ⟨lo, h3⟩ := median_exists (le := fun a b : ℝ => a ≤ b) (fun _ _ _ => le_trans) le_total (hne' fun θ => at0 θ 3)
  have hs : 0 < s := IsMedian.pos h1 fun x hx => by
    obtain ⟨θ, hθ, rfl⟩ := List.mem_map.mp hx
    have := h0 θ hθ
    have := Real.exp_pos (at0 θ 3)
    exact Real.sqrt_pos.mpr (by positivity)
  refine ⟨s, mu, lo, h1, h2, h3, hs, ?_⟩
  intro R
  obtain ⟨kf, g1, g2⟩ := KF1.new_inv srt hn ht (fun i => y i - mu) e (s ^ 2) (Real.exp lo)
  have h6 := (KF1.exact (show 0 < s ^ 2 by positivity) (Real.exp_pos lo)).predictAll mu (by omega) (incr_of_strictMono ht) xs g2 (fun x hxm i hi => by
    rw [ext0_of_lt t hi, ext0_of_lt e hi]; exact hx x hxm _)
  simp only [fst_ext0] at h6
  have hf : Py.makeFilter1 srt (List.ofFn t) (List.ofFn y) (List.ofFn e) logpost rows .median = .ok (kf, mu) := by
    simp only [Py.makeFilter1, Py.medianFilter1, derived1_all hθ, res_bind_ok, List.map_map, Function.comp_def]
    rw [median_of h1, res_bind_ok, median_of h2, res_bind_ok, median_of h3, res_bind_ok, map_sub_ofFn, g1]
    rfl
  rw [hf]
  exact h6

/-- **C66, CAR(1).** `Car1Sample` with any other string, including one meant for a random draw: the means of `sigma²`, `mu` and `log_omega`. They always describe a CAR(1)
process, and `predict` returns its conditional means and variances given the data, errors as supplied. -/
theorem C66_car1_mean (srt : List ℝ → List ℕ) {n : ℕ} (hn : 2 ≤ n) {t : Fin n → ℝ} (ht : StrictMono t) (y e : Fin n → ℝ) (logpost : List Dbl)
    {rows : List (List ℝ)} (hne : rows ≠ []) (hθ : ∀ θ ∈ rows, θ.length = 4) (h0 : ∃ θ ∈ rows, at0 θ 0 ≠ 0)
    (xs : List ℝ) (hx : ∀ x ∈ xs, ∀ i, t i = x → e i ≠ 0) (fit : Py.BestFit) (hfit : fit = .mean ∨ ∃ i, fit = .random i) :
    let mu := (rows.map fun θ => at0 θ 2).sum / rows.length
    let R := car1Acf ((rows.map fun θ => 2 * at0 θ 0 ^ 2 * Real.exp (at0 θ 3)).sum / rows.length) (Real.exp ((rows.map fun θ => at0 θ 3).sum / rows.length))
    Py.predictAll (Py.makeFilter1 srt (List.ofFn t) (List.ofFn y) (List.ofFn e) logpost rows fit) xs =
      .ok (xs.map fun x => (predMean R t e (fun i => y i - mu) x + mu, predVar R t e x)) := by
  intro mu R
  have hlen : (0 : ℝ) < rows.length := by exact_mod_cast List.length_pos_iff.mpr hne
  have hnn : ∀ x ∈ rows.map fun θ => 2 * at0 θ 0 ^ 2 * Real.exp (at0 θ 3), 0 ≤ x := fun x hx => by
    obtain ⟨θ, -, rfl⟩ := List.mem_map.mp hx
    positivity
  have hs : (0 : ℝ) < (rows.map fun θ => 2 * at0 θ 0 ^ 2 * Real.exp (at0 θ 3)).sum / rows.length := by
    refine div_pos ?_ hlen
    obtain ⟨θ, h1, h2⟩ := h0
    have h3 := List.single_le_sum hnn _ (List.mem_map.mpr ⟨θ, h1, rfl⟩)
    have := Real.exp_pos (at0 θ 3)
    exact lt_of_lt_of_le (by positivity) h3
  obtain ⟨kf, g1, g2⟩ := KF1.new_inv srt hn ht (fun i => y i - mu) e ((rows.map fun θ => 2 * at0 θ 0 ^ 2 * Real.exp (at0 θ 3)).sum / rows.length)
    (Real.exp ((rows.map fun θ => at0 θ 3).sum / rows.length))
  have h6 := (KF1.exact hs (Real.exp_pos _)).predictAll mu (by omega) (incr_of_strictMono ht) xs g2 (fun x hxm i hi => by
    rw [ext0_of_lt t hi, ext0_of_lt e hi]; exact hx x hxm _)
  simp only [fst_ext0] at h6
  have hf : Py.meanFilter1 srt (List.ofFn t) (List.ofFn y) (List.ofFn e) rows = .ok (kf, mu) := by
    have e1 : (rows.map fun θ => √(2 * at0 θ 0 ^ 2 * Real.exp (at0 θ 3)) ^ 2) = rows.map fun θ => 2 * at0 θ 0 ^ 2 * Real.exp (at0 θ 3) :=
      List.map_congr_left fun θ _ => Real.sq_sqrt (by positivity)
    simp only [Py.meanFilter1, derived1_all hθ, res_bind_ok, List.map_map, Function.comp_def, e1]
    rw [npMean_eq (by simpa using hne), res_bind_ok, npMean_eq (by simpa using hne), res_bind_ok, npMean_eq (by simpa using hne), res_bind_ok, map_sub_ofFn]
    simp only [List.length_map]
    rw [g1]
    rfl
  have : Py.makeFilter1 srt (List.ofFn t) (List.ofFn y) (List.ofFn e) logpost rows fit = .ok (kf, mu) := by
    rcases hfit with rfl | ⟨i, rfl⟩ <;> exact hf
  rw [this]
  exact h6

/-- **C66, CAR(1), random draws fail.** Two samples with means 0 and 2: whichever is drawn, the filter has the mean 1, that of neither. -/
theorem C66_car1_random_negation (srt : List ℝ → List ℕ) {n : ℕ} (hn : 2 ≤ n) {t : Fin n → ℝ} (ht : StrictMono t) (y e : Fin n → ℝ) (logpost : List Dbl) (i : ℕ) :
    ∃ kf mu, Py.makeFilter1 srt (List.ofFn t) (List.ofFn y) (List.ofFn e) logpost [[1, 1, 0, 0], [1, 1, 2, 0]] (.random i) = .ok (kf, mu) ∧
      ∀ θ ∈ [[(1:ℝ), 1, 0, 0], [1, 1, 2, 0]], mu ≠ at0 θ 2 := by
  obtain ⟨kf, g1, g2⟩ := KF1.new_inv srt hn ht (fun i => y i - 1) e 2 1
  refine ⟨kf, 1, ?_, by simp [at0]⟩
  simp only [Py.makeFilter1, Py.meanFilter1]
  rw [derived1_all (by simp), res_bind_ok]
  simp only [List.map_cons, List.map_nil]
  rw [npMean_eq (by simp), res_bind_ok, npMean_eq (by simp), res_bind_ok, npMean_eq (by simp), res_bind_ok]
  norm_num [at0]
  rw [Function.comp_def, g1]
  rfl

/-- three samples, times away from the data -/
example : [[1, 1, 0, 0], [2, 1, 1, (0.5:ℝ)], [3, 1, 1, 0.2]] ≠ [] ∧ (∀ θ ∈ [[1, 1, 0, 0], [2, 1, 1, (0.5:ℝ)], [3, 1, 1, 0.2]], θ.length = 4 ∧ at0 θ 0 ≠ 0) ∧
    ∀ x ∈ [(5 : ℝ)], ∀ i, exT i = x → exY i ≠ 0 := by
  refine ⟨by simp, by simp [at0], ?_⟩
  intro x hx i
  simp at hx; subst hx
  fin_cases i <;> simp [exT, exY]

end Verif.Props
