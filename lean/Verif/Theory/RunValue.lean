import Verif.Theory.RunTotal

/-!
Values of finite log-densities of the objects built by the run functions; chains of the CAR(1) sampler.
-/

namespace Verif.Theory

open Verif.Model Verif.Spec Polynomial

theorem bounds_nodup {p : ℕ} {roots : List ℂ} {P : ℝ[X]} (hg : GoodRoots roots p P) {sd fmax fmin : ℝ} {θ : List ℝ}
    (hbd : CarpBounds sd fmax fmin roots θ) : roots.Nodup := by
  refine List.Pairwise.imp_of_mem ?_ hbd.sep
  rintro a c ha hc' (h | h) rfl
  · have := congrArg Complex.re h
    have := hg.neg a ha
    simp at *; linarith
  · simp at h; linarith

theorem prior_true_of_fin {μ σ : Type} [Kalman σ] [CarModel μ σ] {s s' : μ} {θ : List ℝ} {x : ℝ}
    (h : logDensity s θ = .ok (s', .fin x)) : CarModel.checkPrior s θ = .ok true := by
  unfold logDensity at h
  obtain ⟨ok, h1, h⟩ := bind_ok_inv h
  cases ok with
  | true => exact h1
  | false =>
      simp only [if_true] at h
      injection h with h
      cases h

open scoped Classical in
/-- The value of a finite log-density. -/
theorem solid_value {p : ℕ} (hp : 2 ≤ p) {s0 : CarP p} {n : ℕ} (hn : 0 < n) {t y e : Fin n → ℝ} (ht : StrictMono t)
    (hs : Solid s0 n t y e) {lo hi : ℝ} (hlo : 0 < lo) (hlh : lo ≤ hi) (hkap : KappaOk s0 lo hi)
    {fmax fmin : ℝ} (f1 : s0.b.maxFreq = .fin fmax) (f2 : s0.b.minFreq = .fin fmin) {θ : List ℝ}
    (hθ : θ.length = npar p s0.kind) {s1 : CarP p} {x : ℝ} (hx : logDensity s0 θ = .ok (s1, .fin x)) :
    ∃ (roots : List ℂ) (ω : Fin p → ℂ) (ma : List ℝ), arRoots p θ = .ok roots ∧ CarpBounds s0.b.maxStdev fmax fmin roots θ ∧
      List.ofFn ω = roots ∧ Admissible ω ∧ ∏ k, (X - C (ω k)) = (factorPoly (at0 θ) 3 p).map Complex.ofRealHom ∧
      ma.length = p ∧ ma[0]? = some 1 ∧ (∀ z, maEval ma z = maPolySpec s0.kind p lo hi θ z) ∧
      x = logGauss (obsCov (fun d => at0 θ 0 ^ 2 * (carmaAcf 1 ω ma d / carmaAcf 1 ω ma 0)) t fun i => √(at0 θ 1) * e i)
        (fun i => y i - at0 θ 2) + (logPriorSpec θ + logitPrior s0.kind p θ) := by
  have hl3 := npar_ge (p := p) s0.kind
  obtain ⟨roots, hr, hg⟩ := rootsFrom_spec θ 3 p (by omega)
  have hc0 := carp_check f1 f2 hs.ign (θ := θ) (p := p) (by omega) hr
  have hc1 : CarP.checkPrior s0.b p s0.orderLor θ = .ok true := prior_true_of_fin hx
  have hbd : CarpBounds s0.b.maxStdev fmax fmin roots θ := by
    rw [hs.lor, hc0] at hc1
    exact of_decide_eq_true (by injection hc1)
  have hnd := bounds_nodup hg hbd
  have hpos : 0 < at0 θ 1 := by have := hbd.err_lo; linarith
  have hok := CarP.Ok.of_core hs.k hs.core
  have he : at0 θ 0 ≠ 0 ∨ ∀ i, e i ≠ 0 := by
    by_contra hcon
    push Not at hcon
    obtain ⟨h0, i, hi0⟩ := hcon
    obtain ⟨ma, h1, h2, h3, h4⟩ := extractMA_spec (by omega) hs.ma hs.order hlo hlh hkap (le_of_eq hθ.symm)
    obtain ⟨s', -, h6⟩ := (carp_ld_distinct (y := ext0 y) (e := ext0 e) hok hp hn le_rfl (fun i hi => strictMono_ext0 ht i hi)
      hs.time (by rw [hs.y, ofFn_eq_rangeMap]) (by rw [hs.yerr, ofFn_eq_rangeMap]) (by omega) hc1 hr
      (hg.admissible hnd) h1 h2 (head_ne h3) (logPrior_spec (le_of_eq hθ.symm) hpos)).1 rfl
    rw [h6, if_neg (by linarith), likVal, if_pos ⟨h0, i, i.2, by rw [ext0_of_lt e i.2, hi0, mul_zero]⟩, nan_add] at hx
    injection hx with hx
    injection hx with _ hx
    cases hx
  obtain ⟨ma, h1, h2, h3, s', -, h5⟩ := carp_value hp hn ht hok hs.time hs.y hs.yerr hs.ma hs.order hlo hlh hkap (le_of_eq hθ.symm) hc1 hpos he hr hnd
  rw [h5] at hx
  injection hx with hx
  injection hx with _ hx
  injection hx with hx
  refine ⟨roots, vecOf p roots, ma, hr, hbd, ofFn_vecOf hg.length, hg.admissible hnd, ?_, h1, h2, h3, hx.symm⟩
  rw [← hg.poly, prod_vecOf hg.length]

open scoped Classical in
/-- The same for CAR(1). -/
theorem solid1_value {s0 : Car1} {n : ℕ} (hn : 0 < n) {t y e : Fin n → ℝ} (ht : StrictMono t) (hs : Solid1 s0 n t y e)
    {fmax fmin : ℝ} (f1 : s0.b.maxFreq = .fin fmax) (f2 : s0.b.minFreq = .fin fmin) {θ : List ℝ}
    (hθ : θ.length = 4) {s1 : Car1} {x : ℝ} (hx : logDensity s0 θ = .ok (s1, .fin x)) :
    Car1Bounds s0.b.maxStdev fmax fmin θ ∧
      x = logGauss (obsCov (fun d => at0 θ 0 ^ 2 * Real.exp (-Real.exp (at0 θ 3) * d)) t fun i => √(at0 θ 1) * e i)
        (fun i => y i - at0 θ 2) + logPriorSpec θ := by
  have hc0 := car1_check f1 f2 (θ := θ) (by omega)
  have hc1 : Car1.checkPrior s0.b θ = .ok true := prior_true_of_fin hx
  have hbd : Car1Bounds s0.b.maxStdev fmax fmin θ := by
    rw [hc0] at hc1
    exact of_decide_eq_true (by injection hc1)
  refine ⟨hbd, ?_⟩
  have hpos : 0 < at0 θ 1 := by have := hbd.err_lo; linarith
  obtain ⟨s', -, h3⟩ := (car1_ld_true (b := s0.b) (y := ext0 y) (e := ext0 e) ⟨rfl, hs.k⟩ hn le_rfl
    (fun i hi => strictMono_ext0 ht i hi) hs.time (by rw [hs.y, ofFn_eq_rangeMap])
    (by rw [hs.yerr, ofFn_eq_rangeMap]) (by omega) hc1).1 rfl
  rw [h3] at hx
  injection hx with hx
  injection hx with _ hx
  rw [likVal] at hx
  split at hx
  · rw [nan_add] at hx; cases hx
  · have e1 : car1Acf (2 * at0 θ 0 * at0 θ 0 * Real.exp (at0 θ 3)) (Real.exp (at0 θ 3)) =
        fun d => at0 θ 0 ^ 2 * Real.exp (-Real.exp (at0 θ 3) * d) := by
      have hexp := Real.exp_pos (at0 θ 3)
      funext d; rw [car1Acf]; congr 1; field_simp
    have e2 : fst n (fun i => √(at0 θ 1) * ext0 e i) = fun i => √(at0 θ 1) * e i := by funext i; simp [fst]
    have e3 : fst n (fun i => ext0 y i - at0 θ 2) = fun i => y i - at0 θ 2 := by funext i; simp [fst]
    rw [priorVal_pos hpos, e1, e2, e3, fst_ext0, Dbl.add] at hx
    injection hx with hx
    rw [← hx, logPriorSpec]

/-! ### non-constant values -/

theorem popVar_spec {n : ℕ} (hn : 0 < n) (y : Fin n → ℝ) :
    (∑ i, y i ^ 2) / n - ((∑ i, y i) / n) ^ 2 = popVariance y := by
  unfold popVariance
  have h0 : ((n : ℕ) : ℝ) ≠ 0 := by positivity
  set m := (∑ i, y i) / n with hm
  have hs : ∑ i, y i = n * m := by rw [hm]; field_simp
  have : ∑ i, (y i - m) ^ 2 = ∑ i, y i ^ 2 - n * m ^ 2 := by
    have : ∀ i, (y i - m) ^ 2 = y i ^ 2 - 2 * m * y i + m ^ 2 := fun i => by ring
    simp only [this, Finset.sum_add_distrib, Finset.sum_sub_distrib, ← Finset.mul_sum, hs, Finset.sum_const, Finset.card_univ,
      Fintype.card_fin, nsmul_eq_mul]
    ring
  rw [this]
  field_simp

theorem popVar_pos {n : ℕ} (hn : 0 < n) {y : Fin n → ℝ} (h : ∃ i j, y i ≠ y j) :
    0 < popVariance y := by
  unfold popVariance
  set m := (∑ i, y i) / n with hm
  refine div_pos ?_ (by positivity)
  obtain ⟨i, j, hij⟩ := h
  have : ∃ k, y k ≠ m := by
    by_contra hc
    push Not at hc
    exact hij ((hc i).trans (hc j).symm)
  obtain ⟨k, hk⟩ := this
  exact Finset.sum_pos' (fun _ _ => sq_nonneg _) ⟨k, Finset.mem_univ _, by have := sub_ne_zero.mpr hk; positivity⟩

theorem popVar_const {n : ℕ} (hn : 0 < n) {y : Fin n → ℝ} (h : ∀ i j, y i = y j) :
    popVariance y = 0 := by
  rw [← popVar_spec hn]
  have h0 : ((n : ℕ) : ℝ) ≠ 0 := by positivity
  have : ∀ i, y i = y ⟨0, hn⟩ := fun i => h i _
  simp only [this, Finset.sum_const, Finset.card_univ, Fintype.card_fin, nsmul_eq_mul]
  field_simp
  ring

theorem popVar_eq {n : ℕ} (hn : 0 < n) (y : Fin n → ℝ) : popVar (List.ofFn y) = .ok (popVariance y) := by
  rw [popVar_ofFn hn, popVar_spec hn]

/-! ### chains of the CAR(1) sampler -/

/-- A one-chain list whose chain cannot leave its value. -/
def Stuck {μ : Type} (v : List ℝ) (l : Dbl) (ps : List (Par μ)) : Prop :=
  ps.length = 1 ∧ (¬ l.isFin) ∧ ∀ c ∈ ps, c.value = v ∧ c.logpost = l

theorem Stuck.step {μ : Type} {d : ℕ} {f : List ℝ → Res Dbl} {v : List ℝ} {l : Dbl} {ps ps' : List (Par μ)} (h : Stuck v l ps)
    (hs : ChainStep f d ps ps') : Stuck v l ps' := by
  obtain ⟨h1, h2, h3⟩ := h
  cases hs with
  | move i s s' θ hi _ _ hm =>
      refine ⟨by rw [List.length_set]; exact h1, h2, mem_set_of h3 ?_⟩
      cases hm with
      | reject o => exact h3 s (List.mem_of_getElem? hi)
      | accept o lp _ _ hfin => rw [(h3 s (List.mem_of_getElem? hi)).2] at hfin; exact absurd hfin h2
  | exch i _ hx =>
      cases hx with
      | keep => exact ⟨h1, h2, h3⟩
      | swap o this other h0 g1 g2 =>
          have := (List.getElem?_eq_some_iff.mp g1).1
          omega

/-- What holds of the chain of the CAR(1) sampler after starting values and any number of sweeps. -/
theorem car1_sound {srt : List ℝ → List ℕ} {burnin : ℕ} {time y yerr : List ℝ} {r : Rng}
    {s : Samp Car1 4} (hb : Car1Built srt burnin time y yerr r s)
    {s0 s1 : Samp Car1 4} (h0 : SampRec s s0) {fuel : ℕ} {init : Option (List ℝ)}
    (h1 : s0.startLoop fuel init s0.steps.length = .ok s1) :
    ∃ var o b c1, popVar y = .ok var ∧ Car1.new srt time y yerr = .ok o ∧ o.b.setPrior (10 * √var) = .ok b ∧ s1.chains = [c1] ∧
      (∃ o1 θ1 r1, startCall fuel init { o with b := b } r = .ok (o1, θ1, r1) ∧ c1.value = θ1) ∧
      ∀ k t, s1.iterate k = .ok t → t.tracked = s.tracked ∧ ∃ c, t.chains = [c] ∧ Car1.Core { o with b := b } c.obj ∧
        (logDensity { o with b := b } c.value).map Prod.snd = .ok c.logpost ∧ c.value.length = 4 ∧
        (c1.logpost.isFin → c.logpost.isFin) ∧ (¬ c1.logpost.isFin → c.value = c1.value ∧ c.logpost = c1.logpost) ∧
        c.temp = 1 ∧ c.label = "CAR(1)" ∧ c.track = true := by
  obtain ⟨var, o, b, hv, ho, hp, hc⟩ := hb.chain
  set o' : Car1 := { o with b := b } with ho'
  have hnew := Car1.new_fresh ho
  have hcore : Car1.Core o' o' := ⟨rfl, rfl, rfl, hnew.mlen, hnew.mlen, hnew.vlen, hnew.vlen⟩
  have hl : s0.chains.length = 1 := by rw [← h0.chains.length_eq, hc]; rfl
  obtain ⟨c0, hc0⟩ := List.length_eq_one_iff.mp hl
  have hc0' : c0.obj = o' ∧ c0.temp = 1 ∧ c0.label = "CAR(1)" ∧ c0.track = true := by
    obtain ⟨c, g1, x, y, g2⟩ := h0.symm.get (i := 0) (by rw [hc0]; rfl)
    rw [hc] at g1
    injection g1 with g1
    rw [g2] at g1
    exact ⟨(congrArg Par.obj g1).symm, (congrArg Par.temp g1).symm, (congrArg Par.label g1).symm, (congrArg Par.track g1).symm⟩
  have hinv0 : ∀ c ∈ s0.chains, Car1.Core o' c.obj := by
    intro c hcm
    rw [hc0, List.mem_singleton] at hcm
    rw [hcm, hc0'.1]; exact hcore
  obtain ⟨var', a, -, -, hst⟩ := hb.steps
  have hst0 : s0.steps = [.ram 0 a] := by rw [← h0.steps]; exact hst
  have hS := startLoop_spec (pure_car1 o') (G := fun θ lp => θ.length = 4)
    (fun a r a' θ r' lp ha hst hl => by
      cases init with
      | none => exact car1_start_length hst
      | some i => exact car1_setStart_length hst) hinv0 h1
  obtain ⟨a1, a2, a3, a4, -, a6⟩ := hS
  have hl1 : s1.chains.length = 1 := by
    have := congrArg List.length a2
    simpa [hl] using this
  obtain ⟨c1, hc1⟩ := List.length_eq_one_iff.mp hl1
  have hc1' := a6 0 c1 (by rw [hc1]; rfl) ⟨0, _, by rw [hst0]; simp, by rw [hst0]; rfl, rfl⟩
  have hfix1 : c1.temp = 1 ∧ c1.label = "CAR(1)" ∧ c1.track = true := by
    rw [hc1, hc0] at a2
    have e := List.singleton_inj.mp a2
    have e1 := congrArg (fun x => x.1) e
    have e2 := congrArg (fun x => x.2.1) e
    have e3 := congrArg (fun x => x.2.2.1) e
    exact ⟨e1.trans hc0'.2.1, e2.trans hc0'.2.2.1, e3.trans hc0'.2.2.2⟩
  refine ⟨var, o, b, c1, hv, ho, hp, hc1, ?_, fun k t h2 => ?_⟩
  · rw [hst0] at h1
    obtain ⟨u, g1, g2⟩ := bind_ok_inv (show s0.startLoop fuel init 0 >>= _ = _ from h1)
    cases g1
    obtain ⟨st, p, o2, θ, r', o3, lp, b1, b2, b3, b4, rfl⟩ := startOne_inv g2
    rw [hst0] at b1
    injection b1 with b1
    subst b1
    rw [hc0] at b2
    injection b2 with b2
    subst b2
    refine ⟨o2, θ, r', ?_, ?_⟩
    · show startCall fuel init o' r = _
      rw [← hc0'.1, ← hb.rng, h0.rng]; exact b3
    · have : (s0.chains.set 0 { c0 with obj := o3, value := θ, logpost := lp }) = [c1] := hc1
      rw [hc0] at this
      injection this with this
      rw [← this]
  set Q : List (Par Car1) → Prop := fun ps => Valued (fun θ => (logDensity o' θ).map Prod.snd) ps ∧ Sized 4 ps ∧
    (c1.logpost.isFin → Finite ps) ∧ (¬ c1.logpost.isFin → Stuck c1.value c1.logpost ps)
  have mem1 : ∀ {P : Par Car1 → Prop}, P c1 → ∀ c ∈ s1.chains, P c := by
    intro P h c hc
    rw [hc1, List.mem_singleton] at hc
    rw [hc]; exact h
  obtain ⟨b1, b2, b3, -⟩ := samp_iterate (pure_car1 o') (Q := Q)
    (fun ps ps' h hs => ⟨h.1.step hs, h.2.1.step hs, fun hf => (h.2.2.1 hf).step hs, fun hf => (h.2.2.2 hf).step hs⟩) a1
    ⟨mem1 hc1'.1, mem1 hc1'.2, fun hf => mem1 hf, fun hf => ⟨hl1, hf, mem1 ⟨rfl, rfl⟩⟩⟩ h2
  have hfix := (iterate_fixed h2).1
  have hl2 : t.chains.length = 1 := by
    have := congrArg List.length hfix
    simpa [hl1] using this
  obtain ⟨c, hcc⟩ := List.length_eq_one_iff.mp hl2
  have hm : c ∈ t.chains := by rw [hcc]; exact List.mem_singleton_self _
  rw [hcc, hc1] at hfix
  have e := List.singleton_inj.mp hfix
  have e1 := congrArg (fun x => x.1) e
  have e2 := congrArg (fun x => x.2.1) e
  have e3 := congrArg (fun x => x.2.2.1) e
  exact ⟨b1.trans (a3.trans h0.tracked.symm), c, hcc, b2 c hm, b3.1 c hm, b3.2.1 c hm, fun hf => b3.2.2.1 hf c hm,
    fun hf => (b3.2.2.2 hf).2.2 c hm, e1.trans hfix1.1, e2.trans hfix1.2.1, e3.trans hfix1.2.2⟩

end Verif.Theory
