import Verif.Model.PyRun
import Verif.Theory.PyModel
import Verif.Theory.PySample
import Verif.Theory.RunValue
import Verif.Props.PySample
import Verif.Props.Run

/-!
Lemmas for `CarmaModel.run_mcmc`: the state of the C++ object after a run, the values it returns in maximum-likelihood mode, the rows of the
table of samples.
-/

namespace Verif.Theory

open Verif.Model Verif.Spec Verif.Props

open scoped Classical

/-! ### the kept data as functions -/

theorem carmaModel_fn {srt : List ℝ → List ℕ} (hs : IsSortIndex srt) (data : List (ℝ × ℝ × ℝ))
    (h2 : ∃ d1 ∈ data, ∃ d2 ∈ data, d1.1 ≠ d2.1) :
    ∃ (n : ℕ) (t y e : Fin n → ℝ), 2 ≤ n ∧ StrictMono t ∧
      Py.carmaModel srt (data.map fun d => d.1) (data.map fun d => d.2.1) (data.map fun d => d.2.2) =
        .ok (List.ofFn t, List.ofFn y, List.ofFn e) ∧
      (∀ i, (t i, y i, e i) ∈ data) ∧ (∀ d ∈ data, ∃ i, t i = d.1) := by
  obtain ⟨kept, k1, k2, k3, k4, -⟩ := carmaModel_spec hs data
  have hof : ∀ f : ℝ × ℝ × ℝ → ℝ, List.ofFn (fun i : Fin kept.length => f kept[i]) = kept.map f := fun f => by
    refine List.ext_getElem (by simp) fun i h1 h2 => by simp
  have hmono : StrictMono fun i : Fin kept.length => (kept[i]).1 := by
    intro i j hij
    exact List.pairwise_iff_getElem.mp k3 i j i.2 j.2 hij
  have hall : ∀ d ∈ data, ∃ i : Fin kept.length, (kept[i]).1 = d.1 := fun d hd => by
    obtain ⟨d', h1, h2⟩ := List.mem_map.mp (k4 d hd)
    obtain ⟨i, hi, rfl⟩ := List.getElem_of_mem h1
    exact ⟨⟨i, hi⟩, h2⟩
  have hn : 2 ≤ kept.length := by
    obtain ⟨d1, hd1, d2, hd2, hne⟩ := h2
    obtain ⟨i, hi⟩ := hall d1 hd1
    obtain ⟨j, hj⟩ := hall d2 hd2
    by_contra hlt
    have : i = j := by ext; omega
    exact hne (by rw [← hi, ← hj, this])
  refine ⟨kept.length, fun i => (kept[i]).1, fun i => (kept[i]).2.1, fun i => (kept[i]).2.2, hn, hmono, ?_,
    fun i => k2.subset (List.getElem_mem _), hall⟩
  rw [k1, hof fun d => d.1, hof fun d => d.2.1, hof fun d => d.2.2]

/-! ### maximum-likelihood mode -/

/-- The object after `SetMLE(true)`. -/
noncomputable def mleOf {p : ℕ} (s : CarP p) : CarP p := { s with b := s.b.setMLE true }

theorem mleOf_core {p : ℕ} {s s' : CarP p} (h : CarP.Core s s') : CarP.Core (mleOf s) (mleOf s') :=
  ⟨by show s.b.setMLE true = s'.b.setMLE true; rw [h.b], h.kind, h.ma, h.ord, h.zma, h.lo, h.hi, h.kf⟩

/-- A finite value is not changed by switching to maximum-likelihood mode. -/
theorem mle_ld {p : ℕ} {s s1 : CarP p} {θ : List ℝ} {x : ℝ} (h : logDensity s θ = .ok (s1, .fin x)) :
    ∃ s2, logDensity (mleOf s) θ = .ok (s2, .fin x) := by
  have hc : CarModel.checkPrior s θ = .ok true := prior_true_of_fin h
  have hc' : CarModel.checkPrior (mleOf s) θ = .ok true := carp_check_mle rfl _ _ _
  have hp : CarModel.setParams (mleOf s) θ = CarModel.setParams s θ := rfl
  have hl : CarModel.logPrior (mleOf s) θ = CarModel.logPrior s θ := rfl
  have hy : (CarModel.base (mleOf s)).y = (CarModel.base s).y := rfl
  have he : (CarModel.base (mleOf s)).yerr = (CarModel.base s).yerr := rfl
  have ht : (CarModel.base (mleOf s)).time = (CarModel.base s).time := rfl
  unfold logDensity at h ⊢
  simp only [hc, hc', hp, hl, hy, he, ht, res_bind_ok] at h ⊢
  obtain ⟨⟨kf, bad⟩, h1, h⟩ := bind_ok_inv h
  obtain ⟨scale, h2, h⟩ := bind_ok_inv h
  obtain ⟨mu, h3, h⟩ := bind_ok_inv h
  simp only [h1, h2, h3, res_bind_ok]
  split at h
  · injection h with h; injection h with _ h; cases h
  · obtain ⟨_, h4, h⟩ := bind_ok_inv h
    obtain ⟨_, h5, h⟩ := bind_ok_inv h
    injection h with h; injection h with _ h; cases h
  · cases h
  · rename_i kf' hk
    obtain ⟨ll, h4, h⟩ := bind_ok_inv h
    obtain ⟨lp, h5, h⟩ := bind_ok_inv h
    injection h with h
    injection h with _ h
    simp only [hk, h4, h5, res_bind_ok]
    exact ⟨_, by rw [h]; rfl⟩

theorem loglikLoop_eq {p : ℕ} {s0 : CarP p} : ∀ (rows : List (List ℝ)) (obj : CarP p), CarP.Core (mleOf s0) obj → ∀ f : List ℝ → ℝ,
    (∀ θ ∈ rows, ∃ s1, logDensity s0 θ = .ok (s1, .fin (f θ))) → Py.loglikLoop obj rows = .ok (rows.map fun θ => Dbl.fin (f θ))
  | [], _, _, _, _ => rfl
  | θ :: l, obj, hc, f, h => by
      obtain ⟨s1, h1⟩ := h θ (by simp)
      obtain ⟨s2, h2⟩ := mle_ld h1
      have hd := CarP.cored.density hc θ
      rw [h2] at hd
      unfold Py.loglikLoop
      cases hx : logDensity obj θ with
      | error e => rw [hx] at hd; exact hd.elim
      | ok a =>
          rw [hx] at hd
          obtain ⟨-, hd1, hd2⟩ := hd
          obtain ⟨o', v⟩ := a
          simp only at hd1 hd2
          subst hd2
          simp only [res_bind_ok]
          rw [loglikLoop_eq l o' (CarP.cored.trans _ _ _ hc hd1) f fun θ' hθ' => h θ' (by simp [hθ'])]
          rfl

/-! ### the object after a run -/

theorem run_core {fuel N burnin p q nw thin : ℕ} {z : Bool} {srt : List ℝ → List ℕ} {time y yerr init : List ℝ} {r : Rng}
    {c : Par (CarP p)} (h : runCarmaSampler fuel srt N burnin time y yerr p q nw z thin init r = .ok c) :
    ∃ var o b, popVar y = .ok var ∧ CarP.new (runKind q z) p srt time y yerr = .ok o ∧ o.b.setPrior (10 * √var) = .ok b ∧
      CarP.Core { o with b := b } c.obj := by
  obtain ⟨s, h1, h⟩ := bind_ok_inv h
  obtain ⟨s', h2, h⟩ := bind_ok_inv h
  have hB := carmaSampler_inv h1
  obtain ⟨s0, s1, init', g1, -, g3, -, ⟨t, g5, g6⟩, -⟩ := run_spec h2
  obtain ⟨⟨var, o, b, k1, k2, k3, hc⟩, -⟩ := carma_sound hB g1 g3 g5
  obtain ⟨c0, e1, x, y, e2⟩ := g6.symm.get (rdU_inv h)
  refine ⟨var, o, b, k1, k2, k3, ?_⟩
  have := (hc c0 (List.mem_of_getElem? e1)).core
  rw [e2] at this
  exact this

theorem car1_run_len {fuel N burnin thin : ℕ} {srt : List ℝ → List ℕ} {time y yerr init : List ℝ} {r : Rng}
    {c : Par Car1} (h : runCar1Sampler fuel srt N burnin time y yerr thin init r = .ok c) : ∀ θ ∈ c.samples, θ.length = 4 := by
  obtain ⟨s, h1, h⟩ := bind_ok_inv h
  obtain ⟨s', h2, h⟩ := bind_ok_inv h
  have hB := car1Sampler_inv h1
  obtain ⟨s0, s1, init', g1, -, g3, -, -, g7⟩ := run_spec h2
  obtain ⟨var, o, b, c1, k1, k2, k3, k4, -, hk⟩ := car1_sound hB g1 g3
  obtain ⟨c', e1, e2, e3, e4⟩ := g7 "CAR(1)" 0 (by rw [hB.tracked]; simp) (by obtain ⟨_, _, _, -, -, -, h⟩ := hB.chain; rw [h]; simp)
  rw [rdU_inv h] at e1
  injection e1 with e1
  subst e1
  intro θ hθ
  obtain ⟨k, hk', rfl⟩ := List.getElem_of_mem hθ
  obtain ⟨t, c', f1, f2, f3, f4⟩ := e4 k (e2 ▸ hk')
  obtain ⟨-, c2, m1, -, -, m4, -⟩ := hk _ t f1
  rw [m1] at f2
  injection f2 with f2
  subst f2
  rw [List.getElem?_eq_getElem hk'] at f3
  injection f3 with f3
  rw [f3]; exact m4

theorem mkRow1_eq {θ : List ℝ} (h : θ.length = 4) :
    Py.mkRow1 θ = .ok ⟨at0 θ 0 ^ 2, at0 θ 1, at0 θ 2, at0 θ 3, √(2 * at0 θ 0 ^ 2 * Real.exp (at0 θ 3))⟩ := by
  have : 0 ≤ 2 * at0 θ 0 ^ 2 * Real.exp (at0 θ 3) := by positivity
  simp only [Py.mkRow1, Py.sampSigma1, rd_at0 (show 0 < θ.length by omega), rd_at0 (show 1 < θ.length by omega),
    rd_at0 (show 2 < θ.length by omega), rd_at0 (show 3 < θ.length by omega), res_bind_ok, py_sqrt_ok this]
  rfl

theorem sampLoglik1_total {θ : List ℝ} (h : θ.length = 4) (l : Dbl) : ∃ v, Py.sampLoglik1 l θ = .ok v := by
  rw [Py.sampLoglik1, baseLogPrior_eq (by omega)]
  exact ⟨_, rfl⟩

theorem sampLoglik1_fin {θ : List ℝ} (h : θ.length = 4) (hpos : 0 < at0 θ 1) (L : ℝ) :
    Py.sampLoglik1 (.fin (L + logPriorSpec θ)) θ = .ok (.fin L) := by
  rw [Py.sampLoglik1, baseLogPrior_eq (by omega), priorVal_pos hpos]
  simp only [res_bind_ok, Dbl.sub, Dbl.neg, Dbl.add, res_pure]
  rw [show -25 / at0 θ 1 - 26 * Real.log (at0 θ 1) = logPriorSpec θ from rfl, add_neg_cancel_right]

/-! ### rows -/

theorem produces_run {p q : ℕ} {o : CarP p} (hk : o.kind = runKind q false) (hm : o.maCoefs = carMA p) : Produces o q := by
  by_cases h : q = 0
  · exact Or.inr ⟨by rw [hk]; simp [runKind, h], h, hm⟩
  · exact Or.inl (by rw [hk]; simp [runKind, h])

/-- A recorded row: what Python derives from it and the log-density that was recorded. -/
theorem row_spec {p q n : ℕ} (hp : 2 ≤ p) (hq : q < p) (hn : 0 < n) {t y e : Fin n → ℝ} (ht : StrictMono t) {s0 : CarP p}
    (hs : Solid s0 n t y e) (hk : s0.kind = runKind q false) {fmax fmin : ℝ} (f1 : s0.b.maxFreq = .fin fmax)
    (f2 : s0.b.minFreq = .fin fmin) {θ : List ℝ} (hθ : θ.length = 3 + p + q) {s1 : CarP p} {x : ℝ}
    (hx : logDensity s0 θ = .ok (s1, .fin x)) :
    ∃ (r : Py.Row) (ω : Fin p → ℂ), Py.mkRow p q θ = .ok r ∧ r.var = at0 θ 0 ^ 2 ∧ r.scale = at0 θ 1 ∧ r.mu = at0 θ 2 ∧
      r.roots = List.ofFn ω ∧ Admissible ω ∧ arRoots p θ = .ok r.roots ∧ CarpBounds s0.b.maxStdev fmax fmin r.roots θ ∧
      (∏ k, (Polynomial.X - Polynomial.C (ω k)) = (factorPoly (at0 θ) 3 p).map Complex.ofRealHom) ∧
      r.widths = (List.ofFn fun k => -(ω k).re / (2 * Real.pi)) ∧ r.cents = (List.ofFn fun k => |(ω k).im| / (2 * Real.pi)) ∧
      (∀ z, Py.polyval r.ar z = ∏ k, (z - ω k)) ∧
      r.ma.length = q + 1 ∧ (∀ z, maEval r.ma z = maPolySpec (runKind q false) p 1 1 θ z) ∧
      0 ≤ r.sigma ∧ carmaAcf (r.sigma ^ 2) ω r.ma 0 = r.var ∧
      x = logGauss (obsCov (carmaAcf (r.sigma ^ 2) ω r.ma) t fun i => √r.scale * e i) (fun i => y i - r.mu) + logPriorSpec θ := by
  have hnz : s0.kind ≠ .zcarma := by
    rw [hk]; unfold runKind; split
    · simp
    · split <;> simp
  have hnp : npar p s0.kind = 3 + p + q := by rw [hk, npar_runKind]; simp [nParams]
  have hkap : KappaOk s0 1 1 := fun hz => absurd hz hnz
  obtain ⟨roots, ω, ma, h1, h2, h3, h4, h5, h6, h7, h8, h9⟩ := solid_value hp hn ht hs (lo := 1) (hi := 1) one_pos le_rfl hkap f1 f2
    (θ := θ) (by rw [hnp, hθ]) hx
  obtain ⟨roots', ma', k0, k1, k2, k3, k4, k5, k6, k7, k8, k9⟩ := C53_derived hq s0 (produces_run hk hs.ma) θ hθ
  cases h1.symm.trans k2
  have hnd : roots.Nodup := by rw [← h3]; exact List.nodup_ofFn.mpr h4.inj
  obtain ⟨sigma, m1, m2, m3, m4⟩ := k9 hnd
  obtain ⟨ma2, n1, n2, n3, n4⟩ := extractMA_spec (by omega) hs.ma hs.order (lo := 1) (hi := 1) one_pos le_rfl hkap (θ := θ) (by rw [hnp, hθ])
  cases n1.symm.trans k7
  have hv : vecOf p roots = ω := by
    rw [← h3]
    funext k
    simp [vecOf]
  have hacf : ∀ σ2 d, carmaAcf σ2 ω ma d = carmaAcf σ2 ω ma' d := by
    intro σ2 d
    have : ∀ z, maEval ma z = maEval (KFp.padMA p ma') z := fun z => by rw [h8, n4]
    have e : impulse ω ma = impulse ω (KFp.padMA p ma') := by
      funext s; unfold impulse; simp only [this]
    rw [← carmaAcf_pad σ2 ω ma']
    unfold carmaAcf; rw [e]
  rw [hv] at m4
  refine ⟨⟨at0 θ 0 ^ 2, at0 θ 1, at0 θ 2, roots, Py.sampWidths roots, Py.sampCents roots, Py.arCoefs roots, ma', sigma⟩, ω, ?_, rfl, rfl, rfl,
    h3.symm, h4, h1, h2, h5, ?_, ?_, ?_, k6, ?_, m2, m4, ?_⟩
  · simp only [Py.mkRow, rd_at0 (show 0 < θ.length by omega), rd_at0 (show 1 < θ.length by omega), rd_at0 (show 2 < θ.length by omega),
      res_bind_ok, k1, k5, m1]
    rfl
  · show Py.sampWidths roots = _
    rw [← h3, Py.sampWidths, List.map_ofFn]; rfl
  · show Py.sampCents roots = _
    rw [← h3, Py.sampCents, List.map_ofFn]; rfl
  · intro z
    show Py.polyval (Py.arCoefs roots) z = _
    have hperm : (roots.map star).Perm roots := by
      obtain ⟨l, g1, g2⟩ := rootsFrom_spec θ 3 p (by omega)
      have g1 : arRoots p θ = .ok l := g1
      cases h1.symm.trans g1
      exact g2.conj
    rw [arCoefs_eval hperm, ← h3, List.map_ofFn, List.prod_ofFn]
    rfl
  · intro z
    show maEval ma' z = _
    rw [← hk, ← n4, KFp.padMA, maEval_append_zeros]
  · show x = logGauss (obsCov (carmaAcf (sigma ^ 2) ω ma') t fun i => √(at0 θ 1) * e i) (fun i => y i - at0 θ 2) + logPriorSpec θ
    have e1 : logitPrior s0.kind p θ = 0 := by
      cases hkk : s0.kind <;> first | rfl | exact absurd hkk hnz
    rw [h9, e1, add_zero]
    have hl : ma'.length ≤ p := by omega
    have hne : ∃ x ∈ ma, x ≠ 0 := ⟨1, List.mem_of_getElem? h7, one_ne_zero⟩
    have hpos : 0 < carmaAcf 1 ω ma 0 := carmaAcf_pos h4 one_pos h6.le hne
    have e2 : (fun d => at0 θ 0 ^ 2 * (carmaAcf 1 ω ma d / carmaAcf 1 ω ma 0)) = carmaAcf (sigma ^ 2) ω ma' := by
      funext d
      rw [← m4, carmaAcf_scale ω ma' (sigma ^ 2) 0, carmaAcf_scale ω ma' (sigma ^ 2) d, ← hacf, ← hacf]
      field_simp
    rw [e2]

end Verif.Theory
