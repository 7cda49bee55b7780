import Verif.Theory.RunValue

/-!
`CAR1::StartingValue` always returns.
-/

namespace Verif.Theory

open Verif.Model Verif.Spec

open scoped Classical

theorem runFilter1_total {n : ℕ} (hn : 0 < n) {t y e : ℕ → ℝ} {b : CarBase} {k : KFBase} (hk : KOk k n t)
    (hy : b.y = (List.range n).map y) (he : b.yerr = (List.range n).map e) {ω : ℝ} (hω : ω ≠ 0) (sg : ℝ) {scale : ℝ} (hsc : 0 ≤ scale) (mu : ℝ) :
    ∃ kf', runFilter b ({ omega := ω, b := k.setSigsqr sg } : KF1) scale mu = .ok kf' := by
  have hF := hk.feeds le_rfl y e hy he scale mu sg
  set kf : KF1 := { omega := ω, b := ((k.setSigsqr sg).setTimeSeriesErr (b.yerr.map fun x => √scale * x)).setTimeSeries (b.y.map fun x => x - mu) } with hkf
  have e1 : Kalman.setBase ({ omega := ω, b := k.setSigsqr sg } : KF1)
      (((Kalman.base ({ omega := ω, b := k.setSigsqr sg } : KF1)).setTimeSeriesErr (b.yerr.map fun x => √scale * x)).setTimeSeries
        (b.y.map fun x => x - mu)) = kf := rfl
  unfold runFilter sqrtR
  rw [if_neg (not_lt.mpr hsc), res_bind_ok]
  dsimp only
  rw [e1]
  by_cases hv : ∃ j < n - 1, (car1SS kf.b.sigsqr kf.omega t fun i => √scale * e i).v j = 0
  · rw [KF1.filter_nonfinite kf hF hω hv]
    exact ⟨_, rfl⟩
  · push Not at hv
    obtain ⟨s', h, -⟩ := KF1.filter_ok kf hF hn hω hv
    rw [h]
    exact ⟨_, rfl⟩

theorem dbl_min_fin (a b : ℝ) : Dbl.min (.fin a) (.fin b) = .fin (min a b) := by
  unfold Dbl.min
  by_cases h : b < a
  · rw [if_pos (by exact h), min_eq_right h.le]
  · rw [if_neg (by exact h), min_eq_left (not_lt.mp h)]

theorem armaVar_nonneg (l : List ℝ) (h : 2 ≤ l.length) : 0 ≤ armaVar l := by
  unfold armaVar
  refine div_nonneg (List.sum_nonneg ?_) ?_
  · intro x hx
    obtain ⟨a, -, rfl⟩ := List.mem_map.mp hx
    positivity
  · have : (2 : ℝ) ≤ l.length := by exact_mod_cast h
    linarith

/-- What remains of the streams after a starting value. -/
def after1 (r : Rng) : Rng := { r with chi2 := Rng.skip 2 r.chi2, norm := Rng.skip 1 r.norm, unif := Rng.skip 1 r.unif }

theorem car1_start_total {s0 : Car1} {n : ℕ} (hn : 2 ≤ n) {t y e : Fin n → ℝ} (ht : StrictMono t) (hs : Solid1 s0 n t y e)
    (htime : s0.b.time = List.ofFn t) {fmax : ℝ} (hf : s0.b.maxFreq = .fin fmax) {s : Car1} (ha : Car1.Core s0 s) {r : Rng}
    (c0 : 0 < r.chi2 0) (c1 : 0 < r.chi2 1) (hu : 0 ≤ r.unif 0) :
    ∃ s' med sd scale mu, armaMedian ((List.range (n-1)).map fun i => ext0 t (i+1) - ext0 t i) = .ok med ∧ 0 < med ∧
      s.start r = .ok (s', [sd, scale, mu, min (-Real.log (med * (1 + (50 - 1) * r.unif 0))) fmax], after1 r) := by
  have hb : s.b = s0.b := ha.1.symm
  obtain ⟨med, hm1, hm2⟩ := armaMedian_ge (l := (List.range (n-1)).map fun i => ext0 t (i+1) - ext0 t i) (by simp; omega)
  have hmed : 0 < med := by
    obtain ⟨dmin, -, -, h0, -, -, -, -, h, -⟩ := base_fresh hn ht y e
    refine lt_of_lt_of_le h0 (hm2 _ fun x hx => ?_)
    obtain ⟨m, g1, g2⟩ := armaMin_spec (l := (List.range (n-1)).map fun i => ext0 t (i+1) - ext0 t i) (by simp; omega)
    cases h.symm.trans g1
    exact g2.2 hx
  have hd : diffs s.b.time = .ok ((List.range (n-1)).map fun i => ext0 t (i+1) - ext0 t i) := by
    rw [hb, htime, ofFn_eq_rangeMap, diffs_rangeMap hn]
  have hly : s.b.y.length = n := by rw [hb, hs.y, List.length_ofFn]
  set v := armaVar s.b.y / r.chi2 0 * ((s.b.y.length - 1 : ℕ) : ℝ) with hv
  have hv0 : 0 ≤ v := by
    have := armaVar_nonneg s.b.y (by omega)
    positivity
  have hsc1 : scaledInvChi2 (s.b.y.length - 1) (armaVar s.b.y) (r.chi2 0) = .ok v := by
    simp only [scaledInvChi2, dv, if_neg c0.ne', res_bind_ok, res_pure]; rfl
  have hsd : sqrtR v = .ok √v := by rw [sqrtR, if_neg (not_lt.mpr hv0)]
  have hl : logR (med * (1 + (50 - 1) * r.unif 0)) = .ok (Real.log (med * (1 + (50 - 1) * r.unif 0))) := by
    rw [logR, if_pos (by positivity)]
  have hlo : finR (Dbl.min (.fin (-1 * Real.log (med * (1 + (50 - 1) * r.unif 0)))) s.b.maxFreq) =
      .ok (min (-Real.log (med * (1 + (50 - 1) * r.unif 0))) fmax) := by
    rw [hb, hf, dbl_min_fin, neg_one_mul]; rfl
  set lo := min (-Real.log (med * (1 + (50 - 1) * r.unif 0))) fmax with hlod
  set mu := armaMean s.b.y + √v / s.b.y.length * r.norm 0 with hmu
  set r3 : Rng := { r with chi2 := Rng.skip 1 r.chi2, norm := Rng.skip 1 r.norm, unif := Rng.skip 1 r.unif } with hr3
  set scale : ℝ := max (min (1 / r.chi2 1 * (50 : ℕ)) 1.99) 0.51 with hscale
  have hscale0 : 0 ≤ scale := le_trans (by norm_num) (le_max_right _ _)
  have hst : startScale r3 = .ok (scale, after1 r) := by
    have e : r3.chi2 0 = r.chi2 1 := rfl
    simp only [startScale, Rng.nextC, scaledInvChi2, dv, e, if_neg c1.ne', res_bind_ok, res_pure]
    rfl
  obtain ⟨kf', hkf⟩ := runFilter1_total (b := s.b) (show 0 < n by omega) (hs.k.of_time ha.2) (y := ext0 y) (e := ext0 e)
    (by rw [hb, hs.y, ofFn_eq_rangeMap]) (by rw [hb, hs.yerr, ofFn_eq_rangeMap]) (Real.exp_pos lo).ne'
    (√v * √(2 * Real.exp lo) * (√v * √(2 * Real.exp lo))) hscale0 mu
  refine ⟨{ s with kf := kf' }, med, √v, scale, mu, hm1, hmed, ?_⟩
  unfold Car1.start
  simp only [Rng.nextC, Rng.nextN, Rng.nextU, hsc1, hsd, hd, hm1, hl, hlo, res_bind_ok]
  have hst' := hst
  rw [hr3] at hst'
  simp only [hst', res_bind_ok]
  have hkf' := hkf
  rw [hmu] at hkf'
  simp only [hkf', res_bind_ok]
  rfl

end Verif.Theory
