import Verif.Theory.Total

/-!
`SetStartingValue` returns a given vector with finite log-density, for objects in any state.
-/

namespace Verif.Theory

open Verif.Model Verif.Spec

section
variable {μ σ : Type} [Kalman σ] [CarModel μ σ]

/-- What a finite log-density says about the evaluation. -/
theorem logDensity_fin_inv {s s' : μ} {θ : List ℝ} {x : ℝ} (h : logDensity (σ := σ) s θ = .ok (s', .fin x)) :
    ∃ (kf kf' : σ) (scale mu : ℝ), CarModel.checkPrior s θ = .ok true ∧ CarModel.setParams s θ = .ok (kf, false) ∧
      rd θ 1 = .ok scale ∧ rd θ 2 = .ok mu ∧ 0 ≤ scale ∧
      Kalman.filter (Kalman.setBase kf (((Kalman.base kf).setTimeSeriesErr ((CarModel.base s).yerr.map fun x => √scale * x)).setTimeSeries
        ((CarModel.base s).y.map fun x => x - mu))) = .ok kf' ∧ s' = CarModel.setKf s kf' := by
  unfold logDensity at h
  obtain ⟨ok, h1, h⟩ := bind_ok_inv h
  by_cases hk : ok = false
  · simp only [hk, if_true] at h
    injection h with h
    injection h with _ h
    cases h
  have hk' : ok = true := by simpa using hk
  subst hk'
  simp only [Bool.true_eq_false, if_false] at h
  obtain ⟨⟨kf, bad⟩, h2, h⟩ := bind_ok_inv h
  obtain ⟨scale, h3, h⟩ := bind_ok_inv h
  obtain ⟨mu, h4, h⟩ := bind_ok_inv h
  dsimp only at h
  split at h
  · injection h with h; injection h with _ h; cases h
  · obtain ⟨_, -, h⟩ := bind_ok_inv h
    obtain ⟨_, -, h⟩ := bind_ok_inv h
    injection h with h; injection h with _ h; cases h
  · cases h
  · rename_i kf' hf
    obtain ⟨ll, -, h⟩ := bind_ok_inv h
    obtain ⟨lp, -, h⟩ := bind_ok_inv h
    injection h with h
    injection h with h5 h6
    split at h6
    · cases h6
    · rename_i hb
      push Not at hb
      have hbad : bad = false := by simpa using hb.1
      subst hbad
      exact ⟨kf, kf', scale, mu, h1, h2, h3, h4, hb.2, hf, h5.symm⟩

/-- `runFilter` succeeds on a filter equivalent to one whose `Filter()` returned. -/
theorem runFilter_same {P : σ → σ → Prop} (hF : Framed σ P) {b : CarBase} {k1 k2 k1' : σ} {scale mu : ℝ} (hsc : 0 ≤ scale)
    (hs : Same P (Kalman.setBase k1 (((Kalman.base k1).setTimeSeriesErr (b.yerr.map fun x => √scale * x)).setTimeSeries
        (b.y.map fun x => x - mu)))
      (Kalman.setBase k2 (((Kalman.base k2).setTimeSeriesErr (b.yerr.map fun x => √scale * x)).setTimeSeries
        (b.y.map fun x => x - mu))))
    (hf : Kalman.filter (Kalman.setBase k1 (((Kalman.base k1).setTimeSeriesErr (b.yerr.map fun x => √scale * x)).setTimeSeries
        (b.y.map fun x => x - mu))) = .ok k1') : ∃ k2', runFilter b k2 scale mu = .ok k2' := by
  have h := hF.filter _ _ hs
  rw [hf] at h
  unfold runFilter sqrtR
  simp only [if_neg (not_lt.mpr hsc), res_bind_ok]
  split
  · exact ⟨_, rfl⟩
  · exact ⟨_, rfl⟩
  · rename_i f _ hx
    rw [hx] at h
    exact h.elim

end

theorem rd_rdU {α : Type} {l : List α} {i : ℕ} {x : α} (h : rd l i = .ok x) : rdU l i = .ok x := by
  unfold rd at h
  unfold rdU
  split at h
  · exact h
  · cases h

/-- A filter produced by `LogDensity` agrees with the one it was given. -/
theorem same_trans_params {p : ℕ} {s : CarP p} (hs : CarP.Core s s) {θ : List ℝ} {kf kf' : KFp p} {ye yc : List ℝ}
    (hp : CarModel.setParams s θ = .ok (kf, false))
    (hf : Kalman.filter (Kalman.setBase kf (((Kalman.base kf).setTimeSeriesErr ye).setTimeSeries yc)) = .ok kf') :
    BTime s.kf.b kf'.b ∧ KFp.Par kf kf' ∧ kf'.b.sigsqr = kf.b.sigsqr ∧
      Same KFp.Par (Kalman.setBase kf (((Kalman.base kf).setTimeSeriesErr ye).setTimeSeries yc))
        (Kalman.setBase kf (((Kalman.base kf).setTimeSeriesErr ye).setTimeSeries yc)) := by
  have hpr := CarP.cored.params s s θ hs
  rw [hp] at hpr
  obtain ⟨-, -, -, ht, -⟩ := hpr
  set k1 : KFp p := Kalman.setBase kf (((Kalman.base kf).setTimeSeriesErr ye).setTimeSeries yc) with hk1
  have hb1 : k1.b = (kf.b.setTimeSeriesErr ye).setTimeSeries yc := by rw [hk1]; rfl
  have ht' : BTime s.kf.b kf.b := ht
  have hs1 : Same KFp.Par k1 k1 := by
    refine ⟨?_, rfl, rfl, rfl⟩
    show BSame k1.b k1.b
    rw [hb1]
    exact ⟨rfl, rfl, rfl, rfl, rfl, ht'.mlen', ht'.mlen', ht'.vlen', ht'.vlen'⟩
  have hfr := KFp.framed.filter k1 k1 hs1
  rw [hf] at hfr
  obtain ⟨h1, -⟩ := hfr
  have hb : BSame k1.b kf'.b := h1.1
  refine ⟨?_, h1.2, ?_, hs1⟩
  · have := hb.toTime
    rw [hb1] at this
    exact ht'.trans ⟨this.time, this.dt, this.mlen, this.mlen', this.vlen, this.vlen'⟩
  · have := hb.sigsqr
    rw [hb1] at this
    exact this.symm

/-- `SetStartingValue(init)` of CARp, CARMA, ZCAR and ZCARMA objects returns `init` if it has the right length and finite log-density. -/
theorem CarP.setStart_exact {p : ℕ} {s : CarP p} (hs : CarP.Core s s) (fuel : ℕ) {init : List ℝ}
    (hl : init.length = CarP.thetaLen p s.kind) {s1 : CarP p} {x : ℝ} (h : logDensity s init = .ok (s1, .fin x)) (r : Rng) :
    ∃ s', CarP.setStart fuel s init r = .ok (s', init, r) := by
  obtain ⟨kf, kf', scale, mu, h1, h2, h3, h4, h5, h6, h7⟩ := logDensity_fin_inv h
  obtain ⟨g1, g2, g3, g4⟩ := same_trans_params hs h2 h6
  have hpar : s.setParams init = .ok (kf, false) := h2
  unfold CarP.setParams at hpar
  obtain ⟨roots, a1, hpar⟩ := bind_ok_inv hpar
  obtain ⟨ma, a2, hpar⟩ := bind_ok_inv hpar
  split at hpar
  rotate_left
  · injection hpar with hpar; injection hpar with _ hpar; cases hpar
  · cases hpar
  rename_i v hv
  injection hpar with hpar
  injection hpar with hpar _
  unfold CarP.extractSigsqr at hv
  rw [a1, a2] at hv
  simp only [res_bind_ok] at hv
  obtain ⟨s0, b1, hv⟩ := bind_ok_inv hv
  have hs1 : s1 = ({ s with kf := kf' } : CarP p) := h7
  have hma : s1.extractMA init = .ok ma := by rw [hs1]; exact a2
  unfold CarP.setStart
  simp only [hl, ne_eq, not_true, if_false, h, res_bind_ok, Dbl.isFin, h3, h4, b1, a1, hma]
  rw [hv]
  simp only [res_bind_ok]
  obtain ⟨k2', hk⟩ := runFilter_same KFp.framed (b := s.b) (k1 := kf) (k2 := s1.startKf roots ma v) (k1' := kf') h5 (by
    refine ⟨?_, ?_⟩
    · have hsk : (s1.startKf roots ma v).b = s1.kf.b.setSigsqr v := by
        unfold CarP.startKf
        cases s1.kind <;> rfl
      show BSame ((kf.b.setTimeSeriesErr _).setTimeSeries _) (((s1.startKf roots ma v).b.setTimeSeriesErr _).setTimeSeries _)
      rw [hsk]
      have hp2 := CarP.cored.params s s init hs
      rw [h2] at hp2
      have ht : BTime s.kf.b kf.b := hp2.2.2.2.1
      have ht2 : BTime s.kf.b s1.kf.b := by rw [hs1]; exact g1
      have ht3 := ht.symm.trans ht2
      have hsig : kf.b.sigsqr = v := by rw [← hpar]; rfl
      exact ⟨ht3.time, ht3.dt, rfl, rfl, hsig, ht3.mlen, ht3.mlen', ht3.vlen, ht3.vlen'⟩
    · have hk : s1.kf = kf' := by rw [hs1]
      have hom : kf.omega = vecOf p roots := by rw [← hpar]; rfl
      have hps : kf.pset = true := by rw [← hpar]; rfl
      have hmm : kf.ma = ma := by rw [← hpar]; rfl
      have hk2 : s1.kf.ma = ma := by rw [hk, ← g2.2.1, hmm]
      show KFp.Par kf (Kalman.setBase (s1.startKf roots ma v) _)
      refine ⟨?_, ?_, ?_⟩
      · rw [hom]; unfold CarP.startKf; cases s1.kind <;> rfl
      · rw [hmm]; unfold CarP.startKf; cases s1.kind <;> first | rfl | exact hk2.symm
      · rw [hps]; unfold CarP.startKf; cases s1.kind <;> rfl) h6
  have hb : s1.b = s.b := by rw [hs1]
  rw [hb, hk]
  exact ⟨_, rfl⟩

/-- The same for CAR(1). -/
theorem Car1.setStart_exact {s : Car1} (hs : Car1.Core s s) {init : List ℝ}
    (hl : init.length = 4) {s1 : Car1} {x : ℝ} (h : logDensity s init = .ok (s1, .fin x)) (r : Rng) :
    ∃ s', Car1.setStart s init r = .ok (s', init, r) := by
  obtain ⟨kf, kf', scale, mu, h1, h2, h3, h4, h5, h6, h7⟩ := logDensity_fin_inv h
  have hpr := Car1.cored.params s s init hs
  rw [h2] at hpr
  have ht : BTime s.kf.b kf.b := hpr.2.2.2.1
  have hpar : Car1.setParams s.kf init = .ok (kf, false) := h2
  unfold Car1.setParams at hpar
  obtain ⟨lo, a1, hpar⟩ := bind_ok_inv hpar
  obtain ⟨sd, a2, hpar⟩ := bind_ok_inv hpar
  injection hpar with hpar
  injection hpar with hpar _
  have hs1 : s1 = ({ s with kf := kf' } : Car1) := h7
  set ye := s.b.yerr.map fun x => √scale * x
  set yc := s.b.y.map fun x => x - mu
  have hsame : Same (fun a b : KF1 => a.omega = b.omega) (Kalman.setBase kf (((Kalman.base kf).setTimeSeriesErr ye).setTimeSeries yc))
      (Kalman.setBase kf (((Kalman.base kf).setTimeSeriesErr ye).setTimeSeries yc)) := by
    refine ⟨?_, rfl⟩
    show BSame ((kf.b.setTimeSeriesErr _).setTimeSeries _) ((kf.b.setTimeSeriesErr _).setTimeSeries _)
    exact ⟨rfl, rfl, rfl, rfl, rfl, ht.mlen', ht.mlen', ht.vlen', ht.vlen'⟩
  have hfr := KF1.framed.filter _ _ hsame
  have h6' : Kalman.filter (Kalman.setBase kf (((Kalman.base kf).setTimeSeriesErr ye).setTimeSeries yc)) = .ok kf' := h6
  rw [h6'] at hfr
  have hb : BSame ((kf.b.setTimeSeriesErr ye).setTimeSeries yc) kf'.b := hfr.1.1
  unfold Car1.setStart
  simp only [hl, ne_eq, not_true, if_false, h, res_bind_ok, Dbl.isFin, rd_rdU a1, rd_rdU a2, rd_rdU h3, rd_rdU h4]
  obtain ⟨k2', hk⟩ := runFilter_same KF1.framed (b := s.b) (k1 := kf)
    (k2 := { s1.kf with omega := Real.exp lo, b := s1.kf.b.setSigsqr (sd * √(2 * Real.exp lo) * (sd * √(2 * Real.exp lo))) }) (k1' := kf') h5 (by
    refine ⟨?_, ?_⟩
    · show BSame ((kf.b.setTimeSeriesErr _).setTimeSeries _) (((s1.kf.b.setSigsqr _).setTimeSeriesErr _).setTimeSeries _)
      have hkk : s1.kf = kf' := by rw [hs1]
      have ht3 : BTime kf.b s1.kf.b := by
        rw [hkk]
        have := hb.toTime
        exact ⟨this.time, this.dt, this.mlen, this.mlen', this.vlen, this.vlen'⟩
      refine ⟨ht3.time, ht3.dt, rfl, rfl, ?_, ht3.mlen, ht3.mlen', ht3.vlen, ht3.vlen'⟩
      rw [← hpar]
      show _ = sd * √(2 * Real.exp lo) * (sd * √(2 * Real.exp lo))
      have := Real.mul_self_sqrt (show 0 ≤ 2 * Real.exp lo by positivity)
      have e : sd * √(2 * Real.exp lo) * (sd * √(2 * Real.exp lo)) = sd * sd * (√(2 * Real.exp lo) * √(2 * Real.exp lo)) := by ring
      rw [e, this]
      show 2 * sd * sd * Real.exp lo = _
      ring
    · show kf.omega = _
      rw [← hpar]; rfl) h6
  have hb' : s1.b = s.b := by rw [hs1]
  rw [hb']
  simp only [hk, res_bind_ok]
  exact ⟨_, rfl⟩

end Verif.Theory
