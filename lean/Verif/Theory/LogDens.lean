import Verif.Theory.FilterTotal
import Verif.Theory.Variance
import Verif.Theory.Unique

/-! Helper theory: value of `LogDensity`. -/

namespace Verif.Theory

open Verif.Model Verif.Spec Finset Matrix
open scoped Classical

lemma likLoop_eq {y mean var : List ℝ} {Y m v : ℕ → ℝ} (mu : ℝ) (k : ℕ) (hy : ∀ i < k, y[i]? = some (Y i))
    (hm : ∀ i < k, mean[i]? = some (m i)) (hv : ∀ i < k, var[i]? = some (v i)) (h0 : ∀ i < k, 0 ≤ v i) :
    likLoop y mean var mu k = .ok (if ∃ i < k, v i = 0 then .nan else
      .fin (∑ i ∈ range k, (-(1/2) * Real.log (v i) - (1/2) * ((Y i - mu - m i) ^ 2 / v i)))) := by
  induction k with
  | zero => simp [likLoop]
  | succ k ih =>
    rw [likLoop, ih (fun i hi => hy i (by omega)) (fun i hi => hm i (by omega)) (fun i hi => hv i (by omega))
      (fun i hi => h0 i (by omega))]
    simp only [res_bind_ok, rd_ok (hy k (by omega)), rd_ok (hm k (by omega)), rd_ok (hv k (by omega)), res_pure]
    congr 1
    rcases (h0 k (by omega)).lt_or_eq with hk | hk
    · have hex : (∃ i < k + 1, v i = 0) ↔ ∃ i < k, v i = 0 := by
        constructor
        · rintro ⟨i, hi, hz⟩
          have : i ≠ k := by rintro rfl; exact hk.ne' hz
          exact ⟨i, by omega, hz⟩
        · rintro ⟨i, hi, hz⟩; exact ⟨i, by omega, hz⟩
      simp only [hex]
      split
      · rfl
      · rw [Finset.sum_range_succ]
        simp only [Dbl.log, if_pos hk, Dbl.mul, Dbl.div, if_neg hk.ne', Dbl.sub, Dbl.neg, Dbl.add]
        congr 1
        have := hk.ne'
        field_simp
        ring
    · have hex : ∃ i < k + 1, v i = 0 := ⟨k, by omega, hk.symm⟩
      rw [if_pos hex, ← hk]
      simp only [Dbl.log, lt_irrefl, if_false, if_true, Dbl.mul, Dbl.infTimes, Dbl.div]
      split_ifs with h1 h2 h3 h4 h5 <;> simp [Dbl.sub, Dbl.neg, Dbl.add] <;> norm_num at * <;> nlinarith [mul_self_nonneg (Y k - m k - mu)]

/-- reading past the end of the filter results is caught -/
lemma likLoop_short {y mean var : List ℝ} (mu : ℝ) {k n : ℕ} (hk : n < k) (hm : mean.length = n) {x : Dbl}
    (h : likLoop y mean var mu n = .ok x) (hy : k ≤ y.length) : likLoop y mean var mu k = .error .bounds := by
  obtain ⟨d, rfl⟩ : ∃ d, k = n + 1 + d := ⟨k - (n + 1), by omega⟩
  induction d with
  | zero =>
    rw [add_zero, likLoop, h]
    have h1 : rd y n = .ok (y[n]'(by omega)) := rd_ok (List.getElem?_eq_getElem (by omega))
    simp only [res_bind_ok, h1, rd_short (show mean.length ≤ n by omega)]
    rfl
  | succ d ih =>
    rw [← add_assoc, likLoop, ih (by omega) (by omega)]; rfl

/-- value of `CARMA_Base::LogPrior` as a function of `theta(1)` -/
noncomputable def priorVal (s : ℝ) : Dbl :=
  (Dbl.div (.fin (-0.5 * 50)) (.fin s)).sub (Dbl.mul (.fin (1 + 50 / 2)) (Dbl.log (.fin s)))

lemma baseLogPrior_eq {θ : List ℝ} (h : 2 ≤ θ.length) : baseLogPrior θ = .ok (priorVal (at0 θ 1)) := by
  simp only [baseLogPrior, rd_at0 (show 1 < θ.length by omega), res_bind_ok, res_pure, priorVal]

lemma priorVal_pos {s : ℝ} (h : 0 < s) : priorVal s = .fin (-25 / s - 26 * Real.log s) := by
  simp only [priorVal, Dbl.div, if_neg h.ne', Dbl.log, if_pos h, Dbl.mul, Dbl.sub, Dbl.neg, Dbl.add, sub_eq_add_neg]
  norm_num

lemma priorVal_zero : priorVal 0 = .nan := by
  simp only [priorVal, Dbl.div, if_true, Dbl.log, lt_irrefl, if_false, Dbl.mul, Dbl.sub, Dbl.infTimes]
  norm_num [Dbl.neg, Dbl.add]

lemma add_nan (x : Dbl) : x.add .nan = .nan := by cases x <;> rfl
lemma nan_add (x : Dbl) : Dbl.add .nan x = .nan := by cases x <;> rfl

/-- the part of a filter object that survives between evaluations -/
structure KOk (b : KFBase) (n : ℕ) (t : ℕ → ℝ) : Prop where
  time_length : b.time.length = n
  dt_get : ∀ {i : ℕ}, i + 1 < n → b.dt[i]? = some (t (i+1) - t i)
  mean : b.mean.length = n
  var : b.var.length = n

lemma KOk.feeds {b : KFBase} {n : ℕ} {t : ℕ → ℝ} (h : KOk b n t) {N : ℕ} (hN : n ≤ N) (y e : ℕ → ℝ) {ys es : List ℝ}
    (hy : ys = (List.range N).map y) (he : es = (List.range N).map e) (scale mu : ℝ) (sg : ℝ) :
    Feeds (((b.setSigsqr sg).setTimeSeriesErr (es.map fun x => √scale * x)).setTimeSeries (ys.map fun x => x - mu)) n t
      (fun i => y i - mu) (fun i => √scale * e i) where
  time_length := h.time_length
  dt_get := h.dt_get
  y_get {i} hi := by
    have : i < N := by omega
    simp [KFBase.setTimeSeries, KFBase.setTimeSeriesErr, hy, this]
  yerr_get {i} hi := by
    have : i < N := by omega
    simp [KFBase.setTimeSeries, KFBase.setTimeSeriesErr, he, this]
  mean := h.mean
  var := h.var

lemma KOk.of_same {b b' : KFBase} {n : ℕ} {t : ℕ → ℝ} (h : KOk b n t) (hs : SameData b b') (hm : b'.mean.length = n)
    (hv : b'.var.length = n) : KOk b' n t :=
  ⟨by rw [hs.time]; exact h.time_length, by rw [hs.dt]; exact h.dt_get, hm, hv⟩

lemma realizes_lik {𝕜 ι : Type} [RCLike 𝕜] [Fintype ι] {S : SS 𝕜 ι} {r : ℝ → ℝ} {t e : ℕ → ℝ} {n : ℕ}
    (h : Realizes S r t e n) (y : ℕ → ℝ) :
    (if ∃ i < n, S.v i = 0 then Dbl.nan else
      .fin (∑ i ∈ range n, (-(1/2) * Real.log (S.v i) - (1/2) * ((y i - S.m y i) ^ 2 / S.v i)))) =
      .fin (logGauss (obsCov r (fst n t) (fst n e)) (fst n y)) := by
  rw [if_neg (by rintro ⟨i, hi, h0⟩; exact (h.pos i hi).ne' h0), h.logGauss y]

/-! ### `LogDensity` for any model class -/

section generic
variable {μ σ : Type} [Kalman σ] [CarModel μ σ]

/-- the filter as `LogDensity` hands it to `Filter()` -/
noncomputable def loaded (b : CarBase) (kf : σ) (θ : List ℝ) : σ :=
  Kalman.setBase kf (((Kalman.base kf).setTimeSeriesErr (b.yerr.map fun x => √(at0 θ 1) * x)).setTimeSeries
    (b.y.map fun x => x - at0 θ 2))

lemma logDensity_false {s : μ} {θ : List ℝ} (h : CarModel.checkPrior s θ = .ok false) :
    logDensity s θ = .ok (s, .ninf) := by
  simp only [logDensity, h, res_bind_ok, if_true, res_pure]

lemma logDensity_ok {s : μ} {θ : List ℝ} (hθ : 3 ≤ θ.length) (hc : CarModel.checkPrior s θ = .ok true) {kf kf' : σ}
    {bad : Bool} (hp : CarModel.setParams s θ = .ok (kf, bad)) {lp : Dbl} (hlp : CarModel.logPrior s θ = .ok lp)
    (hf : Kalman.filter (loaded (CarModel.base s) kf θ) = .ok kf')
    {r : Res Dbl} (hl : likLoop (CarModel.base s).y (Kalman.base kf').mean (Kalman.base kf').var (at0 θ 2)
      (CarModel.base s).time.length = r) :
    logDensity s θ = r.bind fun ll => .ok (CarModel.setKf s kf', if bad ∨ at0 θ 1 < 0 then .nan else ll.add lp) := by
  have hf' := hf
  rw [loaded] at hf'
  simp only [logDensity, hc, res_bind_ok, Bool.true_eq_false, if_false, hp, rd_at0 (show 1 < θ.length by omega),
    rd_at0 (show 2 < θ.length by omega), hf', hl, hlp, res_pure]
  rfl

lemma logDensity_runtime {s : μ} {θ : List ℝ} (hθ : 3 ≤ θ.length) (hc : CarModel.checkPrior s θ = .ok true) {kf : σ}
    {bad : Bool} (hp : CarModel.setParams s θ = .ok (kf, bad))
    (hf : Kalman.filter (loaded (CarModel.base s) kf θ) = .error .runtime) :
    logDensity s θ = .ok (CarModel.setKf s (loaded (CarModel.base s) kf θ), .ninf) := by
  have hf' := hf
  rw [loaded] at hf'
  simp only [logDensity, hc, res_bind_ok, Bool.true_eq_false, if_false, hp, rd_at0 (show 1 < θ.length by omega),
    rd_at0 (show 2 < θ.length by omega), hf', res_pure]
  rfl

lemma logDensity_nonfinite {s : μ} {θ : List ℝ} (hθ : 3 ≤ θ.length) (hc : CarModel.checkPrior s θ = .ok true) {kf : σ}
    {bad : Bool} (hp : CarModel.setParams s θ = .ok (kf, bad)) {lp : Dbl} (hlp : CarModel.logPrior s θ = .ok lp)
    (hf : Kalman.filter (loaded (CarModel.base s) kf θ) = .error .nonfinite)
    {r : Res Dbl} (hl : likLoop (CarModel.base s).y (Kalman.base (loaded (CarModel.base s) kf θ)).mean
      (Kalman.base (loaded (CarModel.base s) kf θ)).var (at0 θ 2) (CarModel.base s).time.length = r) :
    logDensity s θ = r.bind fun _ => .ok (CarModel.setKf s (loaded (CarModel.base s) kf θ), .nan) := by
  have hf' := hf
  rw [loaded] at hf' hl
  simp only [logDensity, hc, res_bind_ok, Bool.true_eq_false, if_false, hp, rd_at0 (show 1 < θ.length by omega),
    rd_at0 (show 2 < θ.length by omega), hf', hl, hlp, res_pure]
  rfl

end generic

lemma likLoop_total {y mean var : List ℝ} (mu : ℝ) (k : ℕ) (hy : k ≤ y.length) (hm : k ≤ mean.length)
    (hv : k ≤ var.length) : ∃ x, likLoop y mean var mu k = .ok x := by
  induction k with
  | zero => exact ⟨_, rfl⟩
  | succ k ih =>
    obtain ⟨x, hx⟩ := ih (by omega) (by omega) (by omega)
    have h1 : y[k]? = some (y[k]'(by omega)) := List.getElem?_eq_getElem _
    have h2 : mean[k]? = some (mean[k]'(by omega)) := List.getElem?_eq_getElem _
    have h3 : var[k]? = some (var[k]'(by omega)) := List.getElem?_eq_getElem _
    rw [likLoop, hx]
    simp only [res_bind_ok, rd_ok h1, rd_ok h2, rd_ok h3, res_pure]
    exact ⟨_, rfl⟩

/-! ### CAR(1) -/

/-- the data members and the filter of a CAR(1) object are consistent -/
structure Car1.Ok (b : CarBase) (n : ℕ) (t : ℕ → ℝ) (s : Car1) : Prop where
  base : s.b = b
  kf : KOk s.kf.b n t

/-- value of the log-likelihood part -/
noncomputable def likVal (r : ℝ → ℝ) (n : ℕ) (t y e : ℕ → ℝ) (zero : Prop) (mu : ℝ) : Dbl :=
  if zero ∧ ∃ i < n, e i = 0 then .nan else .fin (logGauss (obsCov r (fst n t) (fst n e)) (fst n fun i => y i - mu))

lemma car1_checkPrior_total (b : CarBase) {θ : List ℝ} (h : 4 ≤ θ.length) : ∃ r, Car1.checkPrior b θ = .ok r := by
  simp only [Car1.checkPrior, rd_at0 (show 0 < θ.length by omega), rd_at0 (show 1 < θ.length by omega),
    rd_at0 (show 3 < θ.length by omega), res_bind_ok, res_pure]
  exact ⟨_, rfl⟩

lemma car1_checkPrior_scale {b : CarBase} {θ : List ℝ} (h : 4 ≤ θ.length) (hc : Car1.checkPrior b θ = .ok true) :
    0.5 ≤ at0 θ 1 ∧ at0 θ 1 ≤ 2 ∧ 0 ≤ at0 θ 0 ∧ at0 θ 0 ≤ b.maxStdev := by
  simp only [Car1.checkPrior, rd_at0 (show 0 < θ.length by omega), rd_at0 (show 1 < θ.length by omega),
    rd_at0 (show 3 < θ.length by omega), res_bind_ok, res_pure, Except.ok.injEq, decide_eq_true_eq, not_or, not_lt,
    gt_iff_lt] at hc
  exact ⟨hc.2.2.2.2.1, hc.2.2.2.2.2, hc.2.2.2.1, hc.2.2.1⟩

lemma car1_ld_true {s : Car1} {b : CarBase} {n N : ℕ} {t y e : ℕ → ℝ} (hs : Car1.Ok b n t s) (hn : 0 < n) (hN : n ≤ N)
    (ht : ∀ i, i + 1 < n → t i < t (i+1)) (hb : b.time.length = N) (hy : b.y = (List.range N).map y)
    (he : b.yerr = (List.range N).map e) {θ : List ℝ} (hθ : 4 ≤ θ.length) (hc : Car1.checkPrior b θ = .ok true) :
    (n = N → ∃ s', Car1.Ok b n t s' ∧ logDensity s θ = .ok (s', (likVal
      (car1Acf (2 * at0 θ 0 * at0 θ 0 * Real.exp (at0 θ 3)) (Real.exp (at0 θ 3))) n t y (fun i => √(at0 θ 1) * e i)
      (at0 θ 0 = 0) (at0 θ 2)).add (priorVal (at0 θ 1)))) ∧
    (n < N → logDensity s θ = .error .bounds) := by
  obtain ⟨hs1, hs2, hs3, -⟩ := car1_checkPrior_scale hθ hc
  have hbase := hs.base
  have hω := Real.exp_pos (at0 θ 3)
  set ω := Real.exp (at0 θ 3) with hωd
  set σ2 := 2 * at0 θ 0 * at0 θ 0 * ω with hσd
  have hσ : 0 ≤ σ2 := by positivity
  have hσ0 : σ2 = 0 ↔ at0 θ 0 = 0 := by simp [hσd, hω.ne']
  have hsc : ¬ at0 θ 1 < 0 := by linarith
  set kf : KF1 := ⟨((s.kf.b.setSigsqr σ2).setTimeSeriesErr (b.yerr.map fun x => √(at0 θ 1) * x)).setTimeSeries
      (b.y.map fun x => x - at0 θ 2), ω⟩ with hkf
  have hF : Feeds kf.b n t (fun i => y i - at0 θ 2) (fun i => √(at0 θ 1) * e i) := hs.kf.feeds hN y e hy he _ _ _
  have hI : Incr n t (fun i => √(at0 θ 1) * e i) := fun i hi => ⟨(ht i hi).le, Or.inl (ht i hi)⟩
  have hpar : CarModel.setParams s θ = .ok ((⟨s.kf.b.setSigsqr σ2, ω⟩ : KF1), false) := by
    simp only [CarModel.setParams, Car1.setParams, rd_at0 (show 3 < θ.length by omega),
      rd_at0 (show 0 < θ.length by omega), res_bind_ok, res_pure]
    rfl
  have hload : loaded (CarModel.base s) (⟨s.kf.b.setSigsqr σ2, ω⟩ : KF1) θ = kf := by rw [hkf, ← hbase]; rfl
  have hlp : CarModel.logPrior s θ = .ok (priorVal (at0 θ 1)) := baseLogPrior_eq (by omega)
  have hc' : CarModel.checkPrior s θ = .ok true := by rw [← hc, ← hbase]; rfl
  have hb' : (CarModel.base s).time.length = N := by rw [← hb, ← hbase]; rfl
  have hby : (CarModel.base s).y = b.y := by rw [← hbase]; rfl
  have hylen : ∀ i < n, b.y[i]? = some (y i) := fun i hi => by rw [hy]; exact rangeMap_get y (by omega)
  set S := car1SS σ2 ω t (fun i => √(at0 θ 1) * e i) with hS
  have hz := fun i (hi : i < n) => car1_v_zero_iff hσ hω t (fun i => √(at0 θ 1) * e i) n hI hi
  have hlik : ∀ kf' : KF1, kf'.b.mean = (List.range n).map (S.m fun i => y i - at0 θ 2) →
      kf'.b.var = (List.range n).map S.v → likLoop b.y kf'.b.mean kf'.b.var (at0 θ 2) n
        = .ok (likVal (car1Acf σ2 ω) n t y (fun i => √(at0 θ 1) * e i) (at0 θ 0 = 0) (at0 θ 2)) := by
    intro kf' hm hv
    rw [likLoop_eq (at0 θ 2) n hylen (m := S.m fun i => y i - at0 θ 2) (v := S.v)
      (fun i hi => by rw [hm]; exact rangeMap_get _ hi) (fun i hi => by rw [hv]; exact rangeMap_get _ hi)
      (fun i hi => (hz i hi).1)]
    congr 1
    rw [likVal]
    by_cases hdeg : at0 θ 0 = 0 ∧ ∃ i < n, √(at0 θ 1) * e i = 0
    · rw [if_pos hdeg]
      obtain ⟨h0, i, hi, hi0⟩ := hdeg
      rw [if_pos ⟨i, hi, (hz i hi).2.mpr ⟨hσ0.mpr h0, hi0⟩⟩]
    · rw [if_neg hdeg]
      have hR := car1_realizes' hσ hω t (fun i => √(at0 θ 1) * e i) n hI (by
        by_cases h0 : at0 θ 0 = 0
        · right; intro i hi hi0; exact hdeg ⟨h0, i, hi, hi0⟩
        · left; exact lt_of_le_of_ne hσ (fun h => h0 (hσ0.mp h.symm)))
      exact realizes_lik hR fun i => y i - at0 θ 2
  by_cases hall : ∀ j < n - 1, S.v j ≠ 0
  · obtain ⟨kf', h1, hm, hv, hsame, -⟩ := KF1.filter_ok kf hF hn hω.ne' hall
    have hlk := hlik kf' hm hv
    refine ⟨fun hnN => ⟨{ s with kf := kf' }, ⟨hbase, ?_⟩, ?_⟩, fun hlt => ?_⟩
    · have h0 : KOk kf.b n t := ⟨hF.time_length, hF.dt_get, hF.mean, hF.var⟩
      exact h0.of_same hsame (by rw [hm]; simp) (by rw [hv]; simp)
    · rw [logDensity_ok (by omega) hc' hpar hlp (hload ▸ h1) rfl, hb', hby, ← hnN]
      simp only [Kalman.base, hlk, hsc]
      rfl
    · rw [logDensity_ok (by omega) hc' hpar hlp (hload ▸ h1) rfl, hb', hby]
      simp only [Kalman.base]
      rw [likLoop_short (at0 θ 2) hlt (by simp [hm]) hlk (by rw [hy]; simp)]; rfl
  · push Not at hall
    have h1 := KF1.filter_nonfinite kf hF hω.ne' hall
    obtain ⟨j, hj, hj0⟩ := hall
    have hdeg : at0 θ 0 = 0 ∧ ∃ i < n, √(at0 θ 1) * e i = 0 := by
      have := (hz j (by omega)).2.mp hj0
      exact ⟨hσ0.mp this.1, j, by omega, this.2⟩
    obtain ⟨x, hx⟩ := likLoop_total (y := b.y) (mean := kf.b.mean) (var := kf.b.var) (at0 θ 2) n (by rw [hy]; simpa using hN)
      hF.mean.ge hF.var.ge
    refine ⟨fun hnN => ⟨{ s with kf := kf }, ⟨hbase, ⟨hF.time_length, hF.dt_get, hF.mean, hF.var⟩⟩, ?_⟩, fun hlt => ?_⟩
    · rw [logDensity_nonfinite (by omega) hc' hpar hlp (hload ▸ h1) rfl, hb', hby, hload, ← hnN]
      simp only [Kalman.base, hx]
      rw [likVal, if_pos hdeg, nan_add]
      rfl
    · rw [logDensity_nonfinite (by omega) hc' hpar hlp (hload ▸ h1) rfl, hb', hby, hload]
      simp only [Kalman.base]
      rw [likLoop_short (at0 θ 2) hlt hF.mean hx (by rw [hy]; simp)]; rfl

/-! ### CARp and its subclasses -/

section carp
variable {p : ℕ}

lemma vecOf_get {l : List ℂ} (hl : l.length = p) (k : Fin p) : vecOf p l k = l[(k:ℕ)]'(by rw [hl]; exact k.2) := by
  simp [vecOf, List.getD_eq_getElem?_getD, hl]

lemma vecOf_mem {l : List ℂ} (hl : l.length = p) (k : Fin p) : vecOf p l k ∈ l := by
  rw [vecOf_get hl]; exact List.getElem_mem _

lemma mem_vecOf {l : List ℂ} (hl : l.length = p) {r : ℂ} (hr : r ∈ l) : ∃ k, vecOf p l k = r := by
  obtain ⟨i, hi, h⟩ := List.mem_iff_getElem.mp hr
  exact ⟨⟨i, hl ▸ hi⟩, by rw [vecOf_get hl]; exact h⟩

lemma vecOf_injective {l : List ℂ} (hl : l.length = p) : Function.Injective (vecOf p l) ↔ l.Nodup := by
  constructor
  · intro h
    rw [List.nodup_iff_injective_getElem]
    intro i j hij
    have := @h ⟨i, hl ▸ i.2⟩ ⟨j, hl ▸ j.2⟩ (by rw [vecOf_get hl, vecOf_get hl]; exact hij)
    exact Fin.ext (by simpa using this)
  · intro h i j hij
    rw [vecOf_get hl, vecOf_get hl] at hij
    exact Fin.ext ((List.Nodup.getElem_inj_iff h).mp hij)

lemma GoodRoots.admissible {l : List ℂ} {P : Polynomial ℝ} (h : GoodRoots l p P) (hn : l.Nodup) :
    Admissible (vecOf p l) where
  inj := (vecOf_injective h.length).mpr hn
  stable k := h.neg _ (vecOf_mem h.length k)
  conj k := mem_vecOf h.length (h.conj.mem_iff.mp (List.mem_map_of_mem (vecOf_mem h.length k)))

/-- an object of class `CARp` (or a subclass) obtained from `s0` by evaluations: only the filter differs -/
structure CarP.Ok (s0 : CarP p) (n : ℕ) (t : ℕ → ℝ) (s : CarP p) : Prop where
  eq : s = { s0 with kf := s.kf }
  kf : KOk s.kf.b n t

lemma carp_sigsqr {s : CarP p} {θ : List ℝ} {roots : List ℂ} (hr : arRoots p θ = .ok roots) {ma : List ℝ}
    (hm : s.extractMA θ = .ok ma) (h0 : 0 < θ.length) (ha : Admissible (vecOf p roots)) (hl : ma.length ≤ p)
    (hne : ∃ x ∈ ma, x ≠ 0) :
    s.extractSigsqr θ = .ok (at0 θ 0 ^ 2 / carmaAcf 1 (vecOf p roots) ma 0) := by
  have hpos : 0 < carmaAcf 1 (vecOf p roots) ma 0 := carmaAcf_pos ha one_pos hl hne
  have hv := variance_eq ha hl 1 0
  rw [one_pow] at hv
  simp only [CarP.extractSigsqr, hr, hm, rd_at0 h0, res_bind_ok, hv, dv, if_neg hpos.ne', ← pow_two]

lemma carp_setParams {s : CarP p} {θ : List ℝ} {roots : List ℂ} (hr : arRoots p θ = .ok roots) {ma : List ℝ}
    (hm : s.extractMA θ = .ok ma) (h0 : 0 < θ.length) : ∃ v bad,
    CarModel.setParams s θ = .ok (((({ s.kf with b := s.kf.b.setSigsqr v } : KFp p).setOmega (vecOf p roots)).setMA ma), bad) := by
  have : ∃ r, s.extractSigsqr θ = r ∧ (r = .error .nonfinite ∨ ∃ v, r = .ok v) := by
    refine ⟨_, rfl, ?_⟩
    simp only [CarP.extractSigsqr, hr, hm, rd_at0 h0, res_bind_ok, variance]
    split_ifs
    · left; rfl
    · simp only [res_bind_ok, dv]
      split_ifs
      · left; rfl
      · right; exact ⟨_, rfl⟩
  obtain ⟨r, h1, rfl | ⟨v, rfl⟩⟩ := this
  · exact ⟨0, true, by simp only [CarModel.setParams, CarP.setParams, hr, hm, res_bind_ok, h1, res_pure]⟩
  · exact ⟨v, false, by simp only [CarModel.setParams, CarP.setParams, hr, hm, res_bind_ok, h1, res_pure]⟩

/-- repeated roots: the linear system of `Reset` is singular, and `LogDensity` is `-inf` -/
lemma carp_ld_repeated {s s0 : CarP p} {n : ℕ} {t : ℕ → ℝ} (hs : CarP.Ok s0 n t s) (hp : 2 ≤ p) {θ : List ℝ}
    (hθ : 3 ≤ θ.length) (hc : CarP.checkPrior s0.b p s0.orderLor θ = .ok true) {roots : List ℂ}
    (hr : arRoots p θ = .ok roots) (hlen : roots.length = p) {ma : List ℝ} (hm : s0.extractMA θ = .ok ma)
    (hnd : ¬ roots.Nodup) : ∃ s', CarP.Ok s0 n t s' ∧ logDensity s θ = .ok (s', .ninf) := by
  have hm' : s.extractMA θ = .ok ma := by rw [← hm, hs.eq]; rfl
  have hc' : CarModel.checkPrior s θ = .ok true := by rw [← hc, hs.eq]; rfl
  obtain ⟨v, bad, hpar⟩ := carp_setParams hr hm' (by omega)
  refine ⟨_, ?_, logDensity_runtime hθ hc' hpar (KFp.filter_runtime _ rfl hp ?_)⟩
  · constructor
    · rw [hs.eq]; rfl
    · exact ⟨hs.kf.time_length, hs.kf.dt_get, hs.kf.mean, hs.kf.var⟩
  · intro hi; exact hnd ((vecOf_injective hlen).mp hi)

/-- value of `LogDensity` for different roots -/
lemma carp_ld_distinct {s s0 : CarP p} {n N : ℕ} {t y e : ℕ → ℝ} (hs : CarP.Ok s0 n t s) (hp : 2 ≤ p) (hn : 0 < n)
    (hN : n ≤ N) (ht : ∀ i, i + 1 < n → t i < t (i+1)) (hb : s0.b.time.length = N) (hy : s0.b.y = (List.range N).map y)
    (he : s0.b.yerr = (List.range N).map e) {θ : List ℝ} (hθ : 3 ≤ θ.length)
    (hc : CarP.checkPrior s0.b p s0.orderLor θ = .ok true) {roots : List ℂ} (hr : arRoots p θ = .ok roots)
    (ha : Admissible (vecOf p roots)) {ma : List ℝ} (hm : s0.extractMA θ = .ok ma) (hml : ma.length = p)
    (hne : ∃ x ∈ ma, x ≠ 0) {lp : Dbl} (hlp : s0.logPrior θ = .ok lp) :
    (n = N → ∃ s', CarP.Ok s0 n t s' ∧ logDensity s θ = .ok (s', if at0 θ 1 < 0 then .nan else (likVal
      (carmaAcf (at0 θ 0 ^ 2 / carmaAcf 1 (vecOf p roots) ma 0) (vecOf p roots) ma) n t y (fun i => √(at0 θ 1) * e i)
      (at0 θ 0 = 0) (at0 θ 2)).add lp)) ∧
    (n < N → logDensity s θ = .error .bounds) := by
  have hm' : s.extractMA θ = .ok ma := by rw [← hm, hs.eq]; rfl
  have hc' : CarModel.checkPrior s θ = .ok true := by rw [← hc, hs.eq]; rfl
  have hlp' : CarModel.logPrior s θ = .ok lp := by rw [← hlp, hs.eq]; rfl
  have hpos : 0 < carmaAcf 1 (vecOf p roots) ma 0 := carmaAcf_pos ha one_pos hml.le hne
  set ω := vecOf p roots with hωd
  set σ2 := at0 θ 0 ^ 2 / carmaAcf 1 ω ma 0 with hσd
  have hσ : 0 ≤ σ2 := by positivity
  have hσ0 : σ2 = 0 ↔ at0 θ 0 = 0 := by simp [hσd, hpos.ne']
  have hsig := carp_sigsqr hr hm' (by omega) ha hml.le hne
  have hb' : (CarModel.base s).time.length = N := by rw [← hb, hs.eq]; rfl
  have hby : (CarModel.base s).y = s0.b.y := by rw [hs.eq]; rfl
  have hbe : (CarModel.base s).yerr = s0.b.yerr := by rw [hs.eq]; rfl
  set kf0 : KFp p := ((({ s.kf with b := s.kf.b.setSigsqr σ2 } : KFp p).setOmega ω).setMA ma) with hkf0
  have hpar : CarModel.setParams s θ = .ok (kf0, false) := by
    simp only [CarModel.setParams, CarP.setParams, hr, hm', res_bind_ok, hsig, res_pure]
    rfl
  set kf : KFp p := loaded (CarModel.base s) kf0 θ with hkf
  have hF : Feeds kf.b n t (fun i => y i - at0 θ 2) (fun i => √(at0 θ 1) * e i) :=
    hs.kf.feeds hN y e (hby.trans hy) (hbe.trans he) _ _ _
  have hI : Incr n t (fun i => √(at0 θ 1) * e i) := fun i hi => ⟨(ht i hi).le, Or.inl (ht i hi)⟩
  have hylen : ∀ i < n, s0.b.y[i]? = some (y i) := fun i hi => by rw [hy]; exact rangeMap_get y (by omega)
  set S := carmaSS σ2 ω ma t (fun i => √(at0 θ 1) * e i) with hS
  have hrow := obsRow_ne_zero ha.inj hml hne
  have hz := fun i (hi : i < n) => carma_v_zero_iff ha hσ hrow t (fun i => √(at0 θ 1) * e i) n hI hi
  have hRdy : KFp.Ready kf S :=
    ⟨rfl, hp, ⟨_, jvec_eq ha.inj, stateVar_eq ha.stable σ2⟩, rotate_eq hml⟩
  have hlik : ∀ kf' : KFp p, kf'.b.mean = (List.range n).map (S.m fun i => y i - at0 θ 2) →
      kf'.b.var = (List.range n).map S.v → likLoop s0.b.y kf'.b.mean kf'.b.var (at0 θ 2) n
        = .ok (likVal (carmaAcf σ2 ω ma) n t y (fun i => √(at0 θ 1) * e i) (at0 θ 0 = 0) (at0 θ 2)) := by
    intro kf' hm hv
    rw [likLoop_eq (at0 θ 2) n hylen (m := S.m fun i => y i - at0 θ 2) (v := S.v)
      (fun i hi => by rw [hm]; exact rangeMap_get _ hi) (fun i hi => by rw [hv]; exact rangeMap_get _ hi)
      (fun i hi => (hz i hi).1)]
    congr 1
    rw [likVal]
    by_cases hdeg : at0 θ 0 = 0 ∧ ∃ i < n, √(at0 θ 1) * e i = 0
    · rw [if_pos hdeg]
      obtain ⟨h0, i, hi, hi0⟩ := hdeg
      rw [if_pos ⟨i, hi, (hz i hi).2.mpr ⟨hσ0.mpr h0, hi0⟩⟩]
    · rw [if_neg hdeg]
      have hR := carma_realizes' ha hσ hrow t (fun i => √(at0 θ 1) * e i) n hI (by
        by_cases h0 : at0 θ 0 = 0
        · right; intro i hi hi0; exact hdeg ⟨h0, i, hi, hi0⟩
        · left; exact lt_of_le_of_ne hσ (fun h => h0 (hσ0.mp h.symm)))
      exact realizes_lik hR fun i => y i - at0 θ 2
  have hset : ∀ kf' : KFp p, CarModel.setKf s kf' = ({ s0 with kf := kf' } : CarP p) := by
    intro kf'; rw [hs.eq]; rfl
  by_cases hall : ∀ j < n - 1, S.v j ≠ 0
  · obtain ⟨kf', h1, hm, hv, hsame, -⟩ := KFp.filter_ok kf hF hn rfl hRdy hall
    have hlk := hlik kf' hm hv
    refine ⟨fun hnN => ⟨{ s0 with kf := kf' }, ⟨rfl, ?_⟩, ?_⟩, fun hlt => ?_⟩
    · have h0 : KOk kf.b n t := ⟨hF.time_length, hF.dt_get, hF.mean, hF.var⟩
      exact h0.of_same hsame (by rw [hm]; simp) (by rw [hv]; simp)
    · rw [logDensity_ok (by omega) hc' hpar hlp' h1 rfl, hb', hby, ← hnN, hset]
      simp only [Kalman.base, hlk, Bool.false_eq_true, false_or]
      rfl
    · rw [logDensity_ok (by omega) hc' hpar hlp' h1 rfl, hb', hby]
      simp only [Kalman.base]
      rw [likLoop_short (at0 θ 2) hlt (by simp [hm]) hlk (by rw [hy]; simp)]; rfl
  · push Not at hall
    have h1 := KFp.filter_nonfinite kf hF rfl hRdy hall
    obtain ⟨j, hj, hj0⟩ := hall
    have hdeg : at0 θ 0 = 0 ∧ ∃ i < n, √(at0 θ 1) * e i = 0 := by
      have := (hz j (by omega)).2.mp hj0
      exact ⟨hσ0.mp this.1, j, by omega, this.2⟩
    obtain ⟨x, hx⟩ := likLoop_total (y := s0.b.y) (mean := kf.b.mean) (var := kf.b.var) (at0 θ 2) n
      (by rw [hy]; simpa using hN) hF.mean.ge hF.var.ge
    refine ⟨fun hnN => ⟨{ s0 with kf := kf }, ⟨rfl, ⟨hF.time_length, hF.dt_get, hF.mean, hF.var⟩⟩, ?_⟩, fun hlt => ?_⟩
    · rw [logDensity_nonfinite (by omega) hc' hpar hlp' h1 rfl, hb', hby, ← hnN, hset]
      simp only [Kalman.base, ← hkf, hx]
      rw [likVal, if_pos hdeg, nan_add, ite_self]
      rfl
    · rw [logDensity_nonfinite (by omega) hc' hpar hlp' h1 rfl, hb', hby]
      simp only [Kalman.base, ← hkf]
      rw [likLoop_short (at0 θ 2) hlt hF.mean hx (by rw [hy]; simp)]; rfl

end carp

end Verif.Theory
