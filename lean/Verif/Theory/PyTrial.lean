import Verif.Spec.PyTrial
import Verif.Theory.PyRun
import Verif.Theory.MleBox
import Verif.Theory.RunTotal

/-!
Lemmas about one trial of `get_mle`.
-/

namespace Verif.Theory

open Verif.Model Verif.Spec

/-- The object returned by `RunCar1Sampler` agrees with a new one but for the filter. -/
theorem run_core1 {fuel N burnin thin : ℕ} {srt : List ℝ → List ℕ} {time y yerr init : List ℝ} {r : Rng} {c : Par Car1}
    (h : runCar1Sampler fuel srt N burnin time y yerr thin init r = .ok c) :
    ∃ var o b, popVar y = .ok var ∧ Car1.new srt time y yerr = .ok o ∧ o.b.setPrior (10 * √var) = .ok b ∧ Car1.Core { o with b := b } c.obj := by
  obtain ⟨s, h1, h⟩ := bind_ok_inv h
  obtain ⟨s', h2, h⟩ := bind_ok_inv h
  have hB := car1Sampler_inv h1
  obtain ⟨s0, s1, init', g1, -, g3, -, ⟨t, g5, g6⟩, -⟩ := run_spec h2
  obtain ⟨var, o, b, c1, k1, k2, k3, k4, -, hk⟩ := car1_sound hB g1 g3
  obtain ⟨-, c', e1, e2, -⟩ := hk _ _ g5
  refine ⟨var, o, b, k1, k2, k3, ?_⟩
  have hg := g6.chains
  rw [e1] at hg
  rcases hs : s'.chains with _ | ⟨x, l⟩
  · rw [hs] at hg; cases hg
  · rw [hs] at hg
    obtain ⟨hx, -⟩ := List.forall₂_cons.mp hg
    have := rdU_inv h
    rw [hs] at this
    simp only [List.getElem?_cons_zero, Option.some.injEq] at this
    subst this
    obtain ⟨_, _, rfl⟩ := hx
    exact e2

open scoped Classical in
/-- The CAR(1) density inside the bounds, for an object in any state. -/
theorem solid1_inside {s0 s : Car1} {n : ℕ} (hn : 0 < n) {t y e : Fin n → ℝ} (ht : StrictMono t) (hs : Solid1 s0 n t y e) (hc : Car1.Core s0 s)
    {fmax fmin : ℝ} (f1 : s0.b.maxFreq = .fin fmax) (f2 : s0.b.minFreq = .fin fmin) {θ : List ℝ} (hθ : θ.length = 4)
    (hbd : Car1Bounds s0.b.maxStdev fmax fmin θ) (h0 : at0 θ 0 ≠ 0) :
    ∃ s1, logDensity s θ = .ok (s1, .fin (logGauss (obsCov (fun d => at0 θ 0 ^ 2 * Real.exp (-Real.exp (at0 θ 3) * d)) t
      fun i => √(at0 θ 1) * e i) (fun i => y i - at0 θ 2) + logPriorSpec θ)) := by
  have hc0 := car1_check f1 f2 (θ := θ) (by omega)
  rw [decide_eq_true hbd] at hc0
  have hpos : 0 < at0 θ 1 := by have := hbd.err_lo; linarith
  obtain ⟨s', -, h3⟩ := (car1_ld_true (s := s) (b := s0.b) (y := ext0 y) (e := ext0 e) ⟨hc.1.symm, hs.k.of_time hc.2⟩ hn le_rfl
    (fun i hi => strictMono_ext0 ht i hi) hs.time (by rw [hs.y, ofFn_eq_rangeMap])
    (by rw [hs.yerr, ofFn_eq_rangeMap]) (by omega) hc0).1 rfl
  refine ⟨s', ?_⟩
  rw [h3, likVal, if_neg (fun h => h0 h.1)]
  have e1 : car1Acf (2 * at0 θ 0 * at0 θ 0 * Real.exp (at0 θ 3)) (Real.exp (at0 θ 3)) =
      fun d => at0 θ 0 ^ 2 * Real.exp (-Real.exp (at0 θ 3) * d) := by
    have hexp := Real.exp_pos (at0 θ 3)
    funext d; rw [car1Acf]; congr 1; field_simp
  have e2 : fst n (fun i => √(at0 θ 1) * ext0 e i) = fun i => √(at0 θ 1) * e i := by funext i; simp [fst]
  have e3 : fst n (fun i => ext0 y i - at0 θ 2) = fun i => y i - at0 θ 2 := by funext i; simp [fst]
  rw [priorVal_pos hpos, e1, e2, e3, fst_ext0, Dbl.add, logPriorSpec]

/-- What the bounds of a CAR(1) trial say. -/
theorem car1_box {n : ℕ} (hn : 3 ≤ n) {t : Fin n → ℝ} (ht : StrictMono t) {y : Fin n → ℝ} (hy : ∃ i j, y i ≠ y j) (q : ℕ) :
    ∃ dmin span box, IsMinGap t dmin ∧ IsSpan t span ∧ 0 < √(popVariance y) ∧ Py.mleBox (List.ofFn t) (List.ofFn y) 1 q = .ok box ∧
      box.length = 4 ∧ ∀ x, InBox box x → x.length = 4 ∧ (√(popVariance y) / 10 ≤ at0 x 0 ∧ at0 x 0 ≤ 10 * √(popVariance y)) ∧
        (0.9 ≤ at0 x 1 ∧ at0 x 1 ≤ 1.1) ∧ (1 / span ≤ Real.exp (at0 x 3) ∧ Real.exp (at0 x 3) ≤ 0.9 / dmin) := by
  obtain ⟨dmin, span, v, h1, h2, h3, h4, h5, -, hpv, hv, h6⟩ := mleBox_eq (show 2 ≤ n by omega) ht y 1 q
  rw [if_pos rfl] at h6
  have hv' : v = popVariance y := by
    have := (popVar_eq (show 0 < n by omega) y).symm.trans hpv
    injection this with this
  rw [hv'] at h6
  have hspan : 0 < span := lt_of_lt_of_le h3 h4
  have hlo : 0 < 1 / span := by positivity
  have hhi : 0 < 0.9 * (1 / dmin) := by positivity
  refine ⟨dmin, span, _, h1, h2, Real.sqrt_pos.mpr (popVar_pos (by omega) hy), h6, rfl, fun x hx => ⟨hx.length, ?_, ?_, ?_, ?_⟩⟩
  · exact hx.mem 0 _ _ rfl
  · exact hx.mem 1 _ _ rfl
  · exact (Real.log_le_iff_le_exp hlo).mp (hx.mem 3 _ _ rfl).1
  · have := (Real.le_log_iff_exp_le hhi).mp (hx.mem 3 _ _ rfl).2
    rwa [mul_one_div] at this

/-- The moving average polynomial and the roots of `θ` give the value in maximum-likelihood mode, for an object in any state. -/
theorem solid_mle {p : ℕ} (hp : 2 ≤ p) {s0 s : CarP p} {n : ℕ} (hn : 0 < n) {t y e : Fin n → ℝ} (ht : StrictMono t) (hs : Solid s0 n t y e)
    (hz : s0.kind ≠ .zcarma) (hc : CarP.Core s0 s) {θ : List ℝ} (hθ : npar p s0.kind ≤ θ.length) (hpos : 0 < at0 θ 1) (h0 : at0 θ 0 ≠ 0) :
    ∃ roots, arRoots p θ = .ok roots ∧
      (roots.Nodup → ∃ (ω : Fin p → ℂ) (ma : List ℝ) (s' : CarP p), List.ofFn ω = roots ∧ Admissible ω ∧ ma.length = p ∧
        (∀ z, maEval ma z = maPolySpec s0.kind p 1 1 θ z) ∧
        logDensity ({ s with b := s.b.setMLE true } : CarP p) θ = .ok (s', .fin (logGauss
          (obsCov (fun d => at0 θ 0 ^ 2 * (carmaAcf 1 ω ma d / carmaAcf 1 ω ma 0)) t fun i => √(at0 θ 1) * e i)
          (fun i => y i - at0 θ 2) + logPriorSpec θ))) ∧
      (¬ roots.Nodup → ∃ s', logDensity ({ s with b := s.b.setMLE true } : CarP p) θ = .ok (s', .ninf)) := by
  have hl3 := npar_ge (p := p) s0.kind
  obtain ⟨roots, hr, hg⟩ := rootsFrom_spec θ 3 p (by omega)
  have hcore : CarP.Core (mleOf s0) (mleOf s) := mleOf_core hc
  have hok : CarP.Ok (mleOf s0) n (ext0 t) (mleOf s) := CarP.Ok.of_core hs.k hcore
  have hchk : CarP.checkPrior (mleOf s0).b p (mleOf s0).orderLor θ = .ok true := carp_check_mle rfl _ _ _
  have hkap : KappaOk (mleOf s0) 1 1 := fun h => absurd h hz
  refine ⟨roots, hr, fun hnd => ?_, fun hnd => ?_⟩
  · obtain ⟨ma, m1, m2, m3, s', m4, m5⟩ := carp_value hp (s0 := mleOf s0) (s := mleOf s) hn ht hok hs.time hs.y hs.yerr hs.ma hs.order one_pos le_rfl
      hkap hθ hchk hpos (Or.inl h0) hr hnd
    refine ⟨vecOf p roots, ma, s', ofFn_vecOf hg.length, hg.admissible hnd, m1, m3, ?_⟩
    have hl : logitPrior (mleOf s0).kind p θ = 0 := by
      unfold logitPrior
      split
      · rename_i h; exact absurd h hz
      · rfl
    rw [hl, add_zero] at m5
    exact m5
  · obtain ⟨ma, h5, -⟩ := extractMA_spec (s := mleOf s0) (lo := 1) (hi := 1) (θ := θ) (show 0 < p by omega) hs.ma hs.order one_pos le_rfl hkap hθ
    obtain ⟨s', -, h6⟩ := carp_ld_repeated hok hp (by omega) hchk hr hg.length h5 hnd
    exact ⟨s', h6⟩

end Verif.Theory
