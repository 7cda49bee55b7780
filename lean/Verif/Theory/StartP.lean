import Verif.Theory.Start1
import Verif.Theory.Lorentz

/-!
`StartingValue` of the classes derived from `CARp`: one pass of the loop always returns, so the call either returns or goes on for ever.
-/

namespace Verif.Theory

open Verif.Model Verif.Spec

open scoped Classical

variable {p : ℕ}

/-! ### the filter keeps a moving-average vector of `p` elements -/

/-- A filter over given times with `p` moving-average coefficients. -/
theorem setParams_ma {s : CarP p} {θ : List ℝ} {kf : KFp p} {bad : Bool} (h : s.setParams θ = .ok (kf, bad)) :
    ∃ ma, s.extractMA θ = .ok ma ∧ kf.ma = ma := by
  unfold CarP.setParams at h
  obtain ⟨roots, h1, h⟩ := bind_ok_inv h
  obtain ⟨ma, h2, h⟩ := bind_ok_inv h
  refine ⟨ma, h2, ?_⟩
  split at h
  · injection h with h; injection h with h _; rw [← h]; rfl
  · injection h with h; injection h with h _; rw [← h]; rfl
  · cases h

theorem filter_ma {kf kf' : KFp p} (hs : KFp.Same kf kf) (h : Kalman.filter kf = .ok kf') : kf'.ma = kf.ma := by
  have hfr := KFp.framed.filter kf kf ⟨hs.b, hs.omega, hs.ma, hs.pset⟩
  rw [h] at hfr
  exact hfr.1.2.2.1.symm

theorem logDensity_ma {s s' : CarP p} (hc : CarP.Core s s) (hma : s.kf.ma.length = p) {θ : List ℝ} {v : Dbl}
    (hex : ∀ ma, s.extractMA θ = .ok ma → ma.length = p) (h : logDensity s θ = .ok (s', v)) : s'.kf.ma.length = p := by
  unfold logDensity at h
  obtain ⟨ok, h1, h⟩ := bind_ok_inv h
  split at h
  · injection h with h; injection h with h _; rw [← h]; exact hma
  obtain ⟨⟨kf, bad⟩, h2, h⟩ := bind_ok_inv h
  obtain ⟨scale, h3, h⟩ := bind_ok_inv h
  obtain ⟨mu, h4, h⟩ := bind_ok_inv h
  dsimp only at h
  obtain ⟨ma, k1, k2⟩ := setParams_ma (s := s) h2
  have hlen : kf.ma.length = p := by rw [k2]; exact hex ma k1
  have hp := CarP.cored.params s s θ hc
  rw [h2] at hp
  have ht : BTime s.kf.b kf.b := hp.2.2.2.1
  split at h
  · injection h with h; injection h with h _; rw [← h]; exact hlen
  · obtain ⟨_, -, h⟩ := bind_ok_inv h
    obtain ⟨_, -, h⟩ := bind_ok_inv h
    injection h with h; injection h with h _; rw [← h]; exact hlen
  · cases h
  · rename_i kf' hf
    obtain ⟨_, -, h⟩ := bind_ok_inv h
    obtain ⟨_, -, h⟩ := bind_ok_inv h
    injection h with h; injection h with h _
    rw [← h]
    show kf'.ma.length = p
    rw [filter_ma ⟨?_, rfl, rfl, rfl⟩ hf]
    · exact hlen
    · exact ⟨rfl, rfl, rfl, rfl, rfl, ht.mlen', ht.mlen', ht.vlen', ht.vlen'⟩

/-! ### random numbers still to come -/

/-- `r'` is `r` after draws that leave the Student stream alone. -/
structure Drawn (r r' : Rng) : Prop where
  unif : ∃ k, r'.unif = Rng.skip k r.unif
  chi2 : ∃ k, r'.chi2 = Rng.skip k r.chi2
  randu : ∃ k, r'.randu = Rng.skip k r.randu
  stud : r'.stud = r.stud

theorem skip_zero {α : Type} (f : ℕ → α) : Rng.skip 0 f = f := rfl

theorem skip_skip {α : Type} (j k : ℕ) (f : ℕ → α) : Rng.skip j (Rng.skip k f) = Rng.skip (j + k) f := by
  funext i
  unfold Rng.skip
  rw [add_assoc]

theorem Drawn.refl (r : Rng) : Drawn r r := ⟨⟨0, rfl⟩, ⟨0, rfl⟩, ⟨0, rfl⟩, rfl⟩

theorem Drawn.trans {a b c : Rng} (h : Drawn a b) (g : Drawn b c) : Drawn a c := by
  obtain ⟨⟨k1, h1⟩, ⟨k2, h2⟩, ⟨k3, h3⟩, h4⟩ := h
  obtain ⟨⟨j1, g1⟩, ⟨j2, g2⟩, ⟨j3, g3⟩, g4⟩ := g
  exact ⟨⟨j1 + k1, by rw [g1, h1, skip_skip]⟩, ⟨j2 + k2, by rw [g2, h2, skip_skip]⟩, ⟨j3 + k3, by rw [g3, h3, skip_skip]⟩, g4.trans h4⟩

/-- Draws in the ranges of their distributions, without two equal draws of `randu`. -/
structure Fair (r : Rng) : Prop where
  ok : r.Ok
  inj : Function.Injective r.randu

theorem Drawn.fair {r r' : Rng} (h : Drawn r r') (g : Fair r) : Fair r' := by
  obtain ⟨⟨k1, h1⟩, ⟨k2, h2⟩, ⟨k3, h3⟩, -⟩ := h
  refine ⟨⟨fun k => ?_, fun k => ?_, fun k => ?_⟩, ?_⟩
  · rw [h1]; exact g.ok.unif _
  · rw [h2]; exact g.ok.chi2 _
  · rw [h3]; exact g.ok.randu _
  · rw [h3]
    intro i j hij
    have := g.inj hij
    omega

/-! ### Lorentzian parameters -/

theorem getD_pos {l : List ℝ} (h : ∀ x ∈ l, 0 < x) {i : ℕ} (hi : i < l.length) : 0 < l.getD i 0 := by
  rw [List.getD_eq_getElem?_getD, List.getElem?_eq_getElem hi]
  exact h _ (List.getElem_mem hi)

theorem lorentz_total (hp : 2 ≤ p) {b : CarBase} {t1 t0 fmax : ℝ} (h1 : armaMax b.time = .ok t1) (h0 : armaMin b.time = .ok t0)
    (hlt : t0 < t1) (hf : b.maxFreq = .fin fmax) (hpos : 0 < fmax) (r : Rng) :
    ∃ cent width r', CarP.lorentz p b r = .ok (cent, width, r') ∧ cent.length = (p + 1) / 2 ∧ width.length = (p + 1) / 2 ∧
      (∀ i < (p + 1) / 2, 0 < width.getD i 0) ∧ (∀ i < p / 2, 0 < cent.getD i 0) ∧
      (∀ i < p / 2, width.getD i 0 =
        Real.exp (Real.log (fmax / (1 / (t1 - t0))) * r.randu (i + (p + 1) / 2) + Real.log (1 / (t1 - t0)))) ∧ Drawn r r' := by
  have hd : 0 < t1 - t0 := by linarith
  have hm : 0 < 1 / (t1 - t0) := by positivity
  have hr : 0 < fmax / (1 / (t1 - t0)) := by positivity
  set lm := Real.log (1 / (t1 - t0)) with hlm
  set lr := Real.log (fmax / (1 / (t1 - t0))) with hlr
  set k := (p + 1) / 2 with hk
  set c0 := (((List.range k).map r.randu).map fun x => Real.exp (lr * x + lm)).mergeSort (fun a b => decide (b ≤ a)) with hc0
  set w0 := ((List.range k).map (Rng.skip k r.randu)).map fun x => Real.exp (lr * x + lm) with hw0
  have hcl : c0.length = k := by simp [hc0]
  have hwl : w0.length = k := by simp [hw0]
  have hcp : ∀ x ∈ c0, 0 < x := by
    intro x hx
    rw [hc0, List.mem_mergeSort] at hx
    obtain ⟨a, -, rfl⟩ := List.mem_map.mp hx
    exact Real.exp_pos _
  have hwp : ∀ x ∈ w0, 0 < x := by
    intro x hx
    obtain ⟨a, -, rfl⟩ := List.mem_map.mp hx
    exact Real.exp_pos _
  have hwv : ∀ i < k, w0.getD i 0 = Real.exp (lr * r.randu (i + k) + lm) := by
    intro i hi
    rw [List.getD_eq_getElem?_getD, hw0]
    simp [hi, Rng.skip]
  have e1 : dv 1 (t1 - t0) = .ok (1 / (t1 - t0)) := by rw [dv, if_neg hd.ne']
  have e2 : dv fmax (1 / (t1 - t0)) = .ok (fmax / (1 / (t1 - t0))) := by rw [dv, if_neg hm.ne']
  have e3 : logR (fmax / (1 / (t1 - t0))) = .ok lr := by rw [logR, if_pos hr]
  have e4 : logR (1 / (t1 - t0)) = .ok lm := by rw [logR, if_pos hm]
  unfold CarP.lorentz
  simp only [h1, h0, hf, finR, e1, e2, e3, e4, res_bind_ok, Rng.vecU]
  rw [← hk, ← hc0, ← hw0]
  by_cases hodd : p % 2 = 1
  · have hk2 : p / 2 < k := by omega
    have hc1 : c0.length = k := hcl
    rw [if_pos hodd, wr, if_pos (by omega), res_bind_ok, prevIdx, if_neg (by omega), res_bind_ok]
    have hget : rd (c0.set (p / 2) 0) (p / 2 - 1) = .ok (c0.getD (p / 2 - 1) 0) := rd_ok (by
      rw [List.getElem?_set_ne (by omega), List.getD_eq_getElem?_getD, List.getElem?_eq_getElem (by omega : p / 2 - 1 < c0.length)]; rfl)
    have hcpos := getD_pos hcp (i := p / 2 - 1) (by omega)
    rw [hget, res_bind_ok, logR, if_pos hcpos, res_bind_ok]
    simp only [Rng.nextU]
    rw [wr, if_pos (by omega), res_bind_ok]
    refine ⟨_, _, _, rfl, by simpa using hcl, by simpa using hwl, ?_, ?_, ?_, ⟨1, rfl⟩, ⟨0, rfl⟩, ⟨k + k, ?_⟩, rfl⟩
    · intro i hi
      refine getD_pos (fun x hx => ?_) (by simpa [hwl] using hi)
      rcases List.mem_or_eq_of_mem_set hx with hx | rfl
      · exact hwp x hx
      · exact Real.exp_pos _
    · intro i hi
      rw [List.getD_eq_getElem?_getD, List.getElem?_set_ne (by omega), ← List.getD_eq_getElem?_getD]
      exact getD_pos hcp (by omega)
    · intro i hi
      rw [List.getD_eq_getElem?_getD, List.getElem?_set_ne (by omega), ← List.getD_eq_getElem?_getD]
      exact hwv i (by omega)
    · exact skip_skip _ _ _
  · rw [if_neg hodd]
    refine ⟨_, _, _, rfl, hcl, hwl, fun i hi => getD_pos hwp (by omega), fun i hi => getD_pos hcp (by omega),
      fun i hi => hwv i (by omega), ⟨0, rfl⟩, ⟨0, rfl⟩, ⟨k + k, ?_⟩, rfl⟩
    exact skip_skip _ _ _

/-- Roots of Lorentzians with different widths (or at most one pair) are different. -/
theorem lorRoots_nodup {w c : ℕ → ℝ} (hc : ∀ i < p / 2, 0 < c i) (hw : p ≤ 3 ∨ ∀ i < p / 2, ∀ j < p / 2, w i = w j → i = j) :
    (lorRoots p w c).Nodup := by
  have hpi := Real.pi_pos
  have him : ∀ k < p / 2, ∀ x ∈ lorPair (w k) (c k), x.im ≠ 0 ∧ x.re = -(2 * Real.pi * w k) := by
    intro k hk x hx
    have : 0 < 2 * Real.pi * c k := by have := hc k hk; positivity
    simp only [lorPair, List.mem_cons, List.not_mem_nil, or_false] at hx
    rcases hx with rfl | rfl
    · exact ⟨by simpa using (hc k hk).ne', rfl⟩
    · exact ⟨by simpa using (hc k hk).ne', rfl⟩
  unfold lorRoots
  rw [List.nodup_append]
  refine ⟨?_, by split <;> simp, ?_⟩
  · rw [List.nodup_flatMap]
    refine ⟨fun k hk => ?_, ?_⟩
    · have hk : k < p / 2 := List.mem_range.mp hk
      have : 0 < 2 * Real.pi * c k := by have := hc k hk; positivity
      simp only [lorPair, List.nodup_cons, List.mem_cons, List.not_mem_nil, or_false, not_false_eq_true, List.nodup_nil, and_true, Complex.mk.injEq,
        true_and]
      linarith
    · refine List.Pairwise.imp_of_mem (fun {a b} ha hb hab => ?_) List.nodup_range
      have ha : a < p / 2 := List.mem_range.mp ha
      have hb : b < p / 2 := List.mem_range.mp hb
      intro x hx hx'
      have e := (him a ha x hx).2.symm.trans (him b hb x hx').2
      rcases hw with hw | hw
      · omega
      · refine hab (hw a ha b hb ?_)
        have : (2 * Real.pi) * w a = (2 * Real.pi) * w b := by linarith
        exact mul_left_cancel₀ (by positivity) this
  · intro x hx y hy hxy
    obtain ⟨k, hk, hx⟩ := List.mem_flatMap.mp hx
    have := (him k (List.mem_range.mp hk) x hx).1
    split at hy
    · rw [List.mem_singleton] at hy
      rw [hxy, hy] at this
      simp at this
    · simp at hy

/-! ### one pass -/

theorem startKf_b (s : CarP p) (roots : List ℂ) (ma : List ℝ) (v : ℝ) : (s.startKf roots ma v).b = s.kf.b.setSigsqr v := by
  unfold CarP.startKf
  cases s.kind <;> rfl

theorem startKf_omega (s : CarP p) (roots : List ℂ) (ma : List ℝ) (v : ℝ) :
    (s.startKf roots ma v).omega = vecOf p roots ∧ (s.startKf roots ma v).pset = true := by
  unfold CarP.startKf
  cases s.kind <;> exact ⟨rfl, rfl⟩

theorem startKf_ma {s : CarP p} (h : s.kf.ma.length = p) (roots : List ℂ) {ma : List ℝ} (hm : ma.length = p) (v : ℝ) :
    (s.startKf roots ma v).ma.length = p := by
  unfold CarP.startKf
  cases s.kind
  · exact h
  · exact h
  · exact hm
  · exact hm

/-- The filter run on distinct stable roots never throws. -/
theorem runFilterP_total (hp : 2 ≤ p) {n : ℕ} (hn : 0 < n) {t y e : ℕ → ℝ} {b : CarBase} {kf : KFp p} (hk : KOk kf.b n t)
    (hy : b.y = (List.range n).map y) (he : b.yerr = (List.range n).map e) (ha : Admissible kf.omega) (hps : kf.pset = true)
    (hma : kf.ma.length = p) {scale : ℝ} (hsc : 0 ≤ scale) (mu : ℝ) :
    ∃ kf', runFilter b kf scale mu = .ok kf' ∧ kf'.ma.length = p := by
  have hF := hk.feeds le_rfl y e hy he scale mu kf.b.sigsqr
  set k1 : KFp p := { kf with b := (kf.b.setTimeSeriesErr (b.yerr.map fun x => √scale * x)).setTimeSeries (b.y.map fun x => x - mu) } with hk1
  have e1 : Kalman.setBase kf (((Kalman.base kf).setTimeSeriesErr (b.yerr.map fun x => √scale * x)).setTimeSeries
        (b.y.map fun x => x - mu)) = k1 := rfl
  have hF' : Feeds k1.b n t (fun i => y i - mu) (fun i => √scale * e i) := hF
  have hR : KFp.Ready k1 (carmaSS kf.b.sigsqr kf.omega kf.ma t (fun i => √scale * e i)) :=
    ⟨hps, hp, ⟨_, jvec_eq ha.inj, stateVar_eq ha.stable _⟩, rotate_eq hma⟩
  unfold runFilter sqrtR
  rw [if_neg (not_lt.mpr hsc), res_bind_ok]
  dsimp only
  rw [e1]
  by_cases hv : ∃ j < n - 1, (carmaSS kf.b.sigsqr kf.omega kf.ma t (fun i => √scale * e i)).v j = 0
  · rw [KFp.filter_nonfinite k1 hF' rfl hR hv]
    exact ⟨_, rfl, hma⟩
  · push Not at hv
    obtain ⟨s', h, -, -, -, -, h2, -⟩ := KFp.filter_ok k1 hF' hn rfl hR hv
    rw [h]
    exact ⟨_, rfl, by rw [h2]; exact hma⟩

/-- Objects on which the starting values are computed. -/
structure Held (s0 s : CarP p) : Prop where
  core : CarP.Core s0 s
  ma : s.kf.ma.length = p

theorem extractMA_core {s0 s : CarP p} (h : CarP.Core s0 s) (θ : List ℝ) : s.extractMA θ = s0.extractMA θ := by
  obtain ⟨h1, h2, h3, h4, h5, h6, h7, -⟩ := h
  unfold CarP.extractMA
  simp only [h2, h3, h6, h7]

theorem held_total (hp : 2 ≤ p) {s0 : CarP p} {n : ℕ} (hn : 0 < n) {t y e : Fin n → ℝ} (ht : StrictMono t)
    (hs : Solid s0 n t y e) : Total (CarP p) (Held s0) (npar p s0.kind) where
  ld o θ ho hθ := by
    obtain ⟨o', v, h, h'⟩ := (carp_total hp hn ht hs).ld o θ ho.core hθ
    refine ⟨o', v, h, h', ?_⟩
    refine logDensity_ma (CarP.cored.left (CarP.cored.symm _ _ ho.core)) ho.ma (fun ma hma => ?_) h
    obtain ⟨lo, hi, hlo, hlh, hkap⟩ := hs.kap
    obtain ⟨ma', h1, h2, -⟩ := extractMA_spec (by omega) hs.ma hs.order hlo hlh hkap (le_of_eq hθ.symm)
    rw [extractMA_core ho.core, h1] at hma
    injection hma with hma
    rw [← hma]; exact h2
  stale o θ ho hθ := (carp_total hp hn ht hs).stale o θ ho.core hθ

theorem startScale_total {r : Rng} (h : Fair r) : ∃ sc r', startScale r = .ok (sc, r') ∧ 0 ≤ sc ∧ Drawn r r' := by
  have h0 := h.ok.chi2 0
  refine ⟨max (min (1 / r.chi2 0 * (50 : ℕ)) 1.99) 0.51, { r with chi2 := Rng.skip 1 r.chi2 }, ?_, le_trans (by norm_num) (le_max_right _ _), ⟨0, rfl⟩, ⟨1, rfl⟩, ⟨0, rfl⟩, rfl⟩
  have e : dv 1 (r.chi2 0) = .ok (1 / r.chi2 0) := if_neg h0.ne'
  unfold startScale scaledInvChi2
  simp only [Rng.nextC, e, res_bind_ok]
  rfl

theorem startExtra_total {kind : Kind} (hk : kind ≠ .carma 0) (r : Rng) :
    ∃ x r', CarP.startExtra kind r = .ok (x, r') ∧ Drawn r r' ∧ ∀ l, x = some l → l.length + (p + 3) = npar p kind := by
  cases kind with
  | carp => exact ⟨_, _, rfl, Drawn.refl r, by rintro l ⟨⟩; simp [npar]⟩
  | zcar => exact ⟨_, _, rfl, Drawn.refl r, by rintro l ⟨⟩; simp [npar]⟩
  | carma q =>
      have : q ≠ 0 := by rintro rfl; exact hk rfl
      refine ⟨some ((r.vecN q).1.map fun x => |x|), (r.vecN q).2, by rw [CarP.startExtra, if_neg this], ⟨⟨0, rfl⟩, ⟨0, rfl⟩, ⟨0, rfl⟩, rfl⟩, ?_⟩
      rintro l ⟨⟩
      simp [npar, Rng.vecN]; omega
  | zcarma =>
      unfold CarP.startExtra
      dsimp only
      split
      · exact ⟨_, _, rfl, ⟨⟨1, rfl⟩, ⟨0, rfl⟩, ⟨0, rfl⟩, rfl⟩, by rintro l ⟨⟩⟩
      · exact ⟨_, _, rfl, ⟨⟨1, rfl⟩, ⟨0, rfl⟩, ⟨0, rfl⟩, rfl⟩, by rintro l ⟨⟩; simp [npar]; omega⟩

/-- What the starting values need to know about an object: its times and its frequency limit. -/
structure Ready0 (s0 : CarP p) (n : ℕ) (t y e : Fin n → ℝ) : Prop where
  solid : Solid s0 n t y e
  times : ∃ t1 t0 fmax, armaMax s0.b.time = .ok t1 ∧ armaMin s0.b.time = .ok t0 ∧ t0 < t1 ∧ s0.b.maxFreq = .fin fmax ∧ 0 < fmax ∧
    (p ≤ 3 ∨ fmax ≠ 1 / (t1 - t0))
  kind : s0.kind ≠ .carma 0

theorem startAR_total (hp : 2 ≤ p) {s0 : CarP p} {n : ℕ} {t y e : Fin n → ℝ} (hs : Ready0 s0 n t y e) {r : Rng} (hr : Fair r) :
    ∃ loga r', CarP.startAR p s0.b r = .ok (loga, r') ∧ loga.length = p ∧ Drawn r r' ∧ ∃ roots : List ℂ, roots.Nodup ∧
      ∀ a b c rest, arRoots p (a :: b :: c :: (loga ++ rest)) = .ok roots := by
  obtain ⟨t1, t0, fmax, h1, h0, hlt, hf, hpos, hne⟩ := hs.times
  obtain ⟨cent, width, r', g1, g2, g3, g4, g5, g6, g7⟩ := lorentz_total hp h1 h0 hlt hf hpos r
  obtain ⟨l, k1, k2, k3⟩ := logaOf_lor (p := p) (cent := cent) (width := width) (by omega) (by omega) g4 fun i hi => (g5 i hi).le
  refine ⟨l, r', ?_, k2, g7, _, ?_, k3⟩
  · unfold CarP.startAR
    simp only [g1, k1, res_bind_ok]
    rfl
  · refine lorRoots_nodup g5 (hne.imp_right fun hne i hi j hj hij => ?_)
    rw [g6 i hi, g6 j hj, Real.exp_eq_exp] at hij
    have hd : 0 < t1 - t0 := by linarith
    have hlr : Real.log (fmax / (1 / (t1 - t0))) ≠ 0 := by
      apply Real.log_ne_zero_of_pos_of_ne_one (by positivity)
      intro h
      exact hne (by field_simp at h ⊢; linarith)
    have := hr.inj (mul_left_cancel₀ hlr (add_right_cancel hij))
    omega

theorem startTail_total (hp : 2 ≤ p) {s0 : CarP p} {n : ℕ} (hn : 0 < n) {t y e : Fin n → ℝ} (ht : StrictMono t) (hs : Solid s0 n t y e)
    {s : CarP p} (ho : Held s0 s) {loga extra ma : List ℝ} (hl : loga.length = p) (hx : extra.length + (p + 3) = npar p s0.kind)
    (hma : ma.length = p) {roots : List ℂ} (hnd : roots.Nodup)
    (hro : ∀ a b c rest, arRoots p (a :: b :: c :: (loga ++ rest)) = .ok roots) (sd mu v : ℝ) {r : Rng} (hr : Fair r) :
    ∃ s' θ lp r', s.startTail loga extra ma sd mu v r = .ok (s', θ, lp, r') ∧ Held s0 s' ∧ θ.length = npar p s0.kind ∧ Drawn r r' := by
  obtain ⟨sc, r', h1, h2, h3⟩ := startScale_total hr
  have hb : s.b = s0.b := ho.core.b.symm
  obtain ⟨roots', q1, q2⟩ := rootsFrom_spec (0 :: 0 :: 0 :: (loga ++ [])) 3 p (by simp [hl]; omega)
  have q3 : roots' = roots := by
    have := (hro 0 0 0 []).symm.trans q1
    injection this with this
    exact this.symm
  rw [q3] at q2
  obtain ⟨w1, w2⟩ := startKf_omega s roots ma v
  obtain ⟨kf', h4, h5⟩ := runFilterP_total hp hn (b := s.b) (kf := s.startKf roots ma v) (t := ext0 t) (y := ext0 y) (e := ext0 e)
    (by rw [startKf_b]; exact hs.k.of_time (ho.core.kf.trans ⟨rfl, rfl, ho.core.kf.mlen', ho.core.kf.mlen', ho.core.kf.vlen', ho.core.kf.vlen'⟩))
    (by rw [hb, hs.y, ofFn_eq_rangeMap]) (by rw [hb, hs.yerr, ofFn_eq_rangeMap]) (by rw [w1]; exact q2.admissible hnd) w2
    (startKf_ma ho.ma roots hma v) h2 mu
  have hc := CarP.cored.trans _ _ _ ho.core (CarP.runFilter_core (CarP.cored.left (CarP.cored.symm _ _ ho.core)) h4)
  obtain ⟨o', lp, h6, h7⟩ := (held_total hp hn ht hs).ld { s with kf := kf' } (sd :: sc :: mu :: (loga ++ extra)) ⟨hc, h5⟩ (by simp [hl]; omega)
  refine ⟨o', sd :: sc :: mu :: (loga ++ extra), lp, r', ?_, h7, by simp [hl]; omega, h3⟩
  have h6' : logDensity ({ s with kf := kf' } : CarP p) (sd :: sc :: mu :: (loga ++ extra)) = .ok (o', lp) := h6
  unfold CarP.startTail
  simp only [h1, hro, h4, h6', res_bind_ok]
  rfl

theorem startPass_total (hp : 2 ≤ p) {s0 : CarP p} {n : ℕ} (hn : 2 ≤ n) {t y e : Fin n → ℝ} (ht : StrictMono t) (hs : Ready0 s0 n t y e)
    {s : CarP p} (ho : Held s0 s) {r : Rng} (hr : Fair r) :
    ∃ s' θ lp r', s.startPass r = .ok (s', θ, lp, r') ∧ Held s0 s' ∧ (lp.isFin → θ.length = npar p s0.kind) ∧ Drawn r r' := by
  have hb : s.b = s0.b := ho.core.b.symm
  have hkd : s.kind = s0.kind := ho.core.kind.symm
  obtain ⟨loga, r1, h1, h2, h3, roots, h4, h5⟩ := startAR_total hp hs hr
  obtain ⟨x, r2, g1, g2, g3⟩ := startExtra_total (p := p) hs.kind r1
  have l2 := h3.trans g2
  unfold CarP.startPass
  rw [hb, h1, hkd]
  simp only [res_bind_ok, g1]
  cases x with
  | none => exact ⟨_, _, _, _, rfl, ho, fun h => h.elim, l2⟩
  | some extra =>
      have g3 := g3 extra rfl
      obtain ⟨lo, hi, hlo, hlh, hkap⟩ := hs.solid.kap
      obtain ⟨ma, k1, k2, -⟩ := extractMA_spec (θ := 0 :: 0 :: 0 :: (loga ++ extra)) (by omega) hs.solid.ma hs.solid.order hlo hlh hkap (by simp [h2]; omega)
      have hr2 := l2.fair hr
      have hc0 := hr2.ok.chi2 0
      simp only [extractMA_core ho.core, k1, res_bind_ok, Rng.nextC, Rng.nextN]
      set yv := armaVar s0.b.y / r2.chi2 0 * ((s0.b.y.length - 1 : ℕ) : ℝ) with hyv
      have hv0 : 0 ≤ yv := by
        have := armaVar_nonneg s0.b.y (by rw [hs.solid.y]; simpa using hn)
        positivity
      have e1 : scaledInvChi2 (s0.b.y.length - 1) (armaVar s0.b.y) (r2.chi2 0) = .ok yv := by
        simp only [scaledInvChi2, dv, if_neg hc0.ne', res_bind_ok, res_pure]; rfl
      have e2 : sqrtR yv = .ok √yv := by rw [sqrtR, if_neg (not_lt.mpr hv0)]
      simp only [e1, e2, h5, res_bind_ok]
      obtain ⟨roots', q1, q2⟩ := rootsFrom_spec (0 :: 0 :: 0 :: (loga ++ [])) 3 p (by simp [h2]; omega)
      have q3 : roots' = roots := by
        have := (h5 0 0 0 []).symm.trans q1
        injection this with this
        exact this.symm
      rw [q3] at q2
      rw [variance_eq (q2.admissible h4) (le_of_eq k2), res_bind_ok]
      set r3 : Rng := { r2 with chi2 := Rng.skip 1 r2.chi2, norm := Rng.skip 1 r2.norm } with hr3
      have l3 : Drawn r2 r3 := ⟨⟨0, rfl⟩, ⟨1, rfl⟩, ⟨0, rfl⟩, rfl⟩
      have key : ∀ sd mu v, ∃ s' θ lp r', s.startTail loga extra ma sd mu v r3 = .ok (s', θ, lp, r') ∧ Held s0 s' ∧
          (lp.isFin → θ.length = npar p s0.kind) ∧ Drawn r r' := by
        intro sd mu v
        obtain ⟨s', θ, lp, r', m1, m2, m3, m4⟩ := startTail_total hp (show 0 < n by omega) ht hs.solid ho h2 g3 k2 h4 h5 sd mu v (l3.fair hr2)
        exact ⟨s', θ, lp, r', m1, m2, fun _ => m3, l2.trans (l3.trans m4)⟩
      rw [dv]
      split
      · rename_i heq
        split at heq
        · cases heq
        · exact key _ _ _
      · split
        · exact ⟨_, _, _, _, rfl, ho, fun h => h.elim, l2.trans l3⟩
        · exact key _ _ _
      · rename_i heq
        split at heq
        · rename_i hne _ 
          injection heq with heq
          exact absurd heq.symm (by assumption)
        · cases heq

/-- `StartingValue` returns, or its loop never ends. -/
theorem start_or (hp : 2 ≤ p) {s0 : CarP p} {n : ℕ} (hn : 2 ≤ n) {t y e : Fin n → ℝ} (ht : StrictMono t) (hs : Ready0 s0 n t y e)
    (fuel : ℕ) {s : CarP p} (ho : Held s0 s) {r : Rng} (hr : Fair r) :
    (∃ s' θ r', CarP.start fuel s r = .ok (s', θ, r') ∧ Held s0 s' ∧ θ.length = npar p s0.kind ∧ Drawn r r') ∨
      CarP.start fuel s r = .error .timeout := by
  induction fuel generalizing s r with
  | zero => exact Or.inr rfl
  | succ fuel ih =>
      obtain ⟨s', θ, lp, r', h1, h2, h3, h4⟩ := startPass_total hp hn ht hs ho hr
      unfold CarP.start
      simp only [h1, res_bind_ok]
      by_cases hf : lp.isFin
      · rw [if_pos hf]
        exact Or.inl ⟨_, _, _, rfl, h2, h3 hf, h4⟩
      · rw [if_neg hf]
        refine (ih h2 (h4.fair hr)).imp_left ?_
        rintro ⟨a, b, c, k1, k2, k3, k4⟩
        exact ⟨a, b, c, k1, k2, k3, h4.trans k4⟩

theorem runFilter_ma {b : CarBase} {kf kf' : KFp p} (hb : BTime kf.b kf.b) {sc mu : ℝ} (h : runFilter b kf sc mu = .ok kf') : kf'.ma = kf.ma := by
  unfold runFilter at h
  obtain ⟨rs, -, h⟩ := bind_ok_inv h
  dsimp only at h
  split at h
  · rename_i k hk
    injection h with h
    rw [← h]
    refine (filter_ma ?_ hk).trans rfl
    exact ⟨⟨rfl, rfl, rfl, rfl, rfl, hb.mlen, hb.mlen, hb.vlen, hb.vlen⟩, rfl, rfl, rfl⟩
  · injection h with h
    rw [← h]; rfl
  · cases h

/-- `SetStartingValue` returns, or its loop never ends. -/
theorem setStart_or (hp : 2 ≤ p) {s0 : CarP p} {n : ℕ} (hn : 2 ≤ n) {t y e : Fin n → ℝ} (ht : StrictMono t) (hs : Ready0 s0 n t y e)
    (hlen : npar p s0.kind = CarP.thetaLen p s0.kind) (fuel : ℕ) (init : List ℝ) {s : CarP p} (ho : Held s0 s) {r : Rng} (hr : Fair r) :
    (∃ s' θ r', CarP.setStart fuel s init r = .ok (s', θ, r') ∧ Held s0 s' ∧ θ.length = npar p s0.kind ∧ Drawn r r') ∨
      CarP.setStart fuel s init r = .error .timeout := by
  by_cases hl : init.length = CarP.thetaLen p s.kind
  · have hl0 : init.length = npar p s0.kind := by rw [hlen, ho.core.kind]; exact hl
    obtain ⟨s1, lp, h1, h2⟩ := (held_total hp (show 0 < n by omega) ht hs.solid).ld s init ho hl0
    have h1' : logDensity s init = .ok (s1, lp) := h1
    by_cases hf : lp.isFin
    · cases lp with
      | fin x =>
        obtain ⟨s', h3⟩ := CarP.setStart_exact (CarP.cored.left (CarP.cored.symm _ _ ho.core)) fuel hl h1' r
        refine Or.inl ⟨s', init, r, h3, ⟨CarP.cored.trans _ _ _ ho.core
          (CarP.setStart_core fuel (CarP.cored.left (CarP.cored.symm _ _ ho.core)) h3).1, ?_⟩, hl0, Drawn.refl r⟩
        unfold CarP.setStart at h3
        simp only [hl, ne_eq, not_true, if_false, h1', res_bind_ok, Dbl.isFin] at h3
        obtain ⟨sc, -, h3⟩ := bind_ok_inv h3
        obtain ⟨mu, -, h3⟩ := bind_ok_inv h3
        obtain ⟨s0', -, h3⟩ := bind_ok_inv h3
        obtain ⟨ro, -, h3⟩ := bind_ok_inv h3
        obtain ⟨ma, k1, h3⟩ := bind_ok_inv h3
        obtain ⟨v, -, h3⟩ := bind_ok_inv h3
        obtain ⟨kf, k2, h3⟩ := bind_ok_inv h3
        have hma : ma.length = p := by
          obtain ⟨lo, hi, hlo, hlh, hkap⟩ := hs.solid.kap
          obtain ⟨ma', g1, g2, -⟩ := extractMA_spec (by omega) hs.solid.ma hs.solid.order hlo hlh hkap (le_of_eq hl0.symm)
          rw [extractMA_core h2.core, g1] at k1
          injection k1 with k1
          rw [← k1]; exact g2
        injection h3 with h3
        injection h3 with h3 _
        rw [← h3]
        show kf.ma.length = p
        rw [runFilter_ma (by rw [startKf_b]; exact ⟨rfl, rfl, h2.core.kf.mlen', h2.core.kf.mlen', h2.core.kf.vlen', h2.core.kf.vlen'⟩) k2]
        exact startKf_ma h2.ma ro hma v
      | _ => exact hf.elim
    · unfold CarP.setStart
      simp only [hl, ne_eq, not_true, if_false, h1', res_bind_ok, hf, not_false_eq_true, if_true]
      exact start_or hp hn ht hs fuel h2 hr
  · unfold CarP.setStart
    rw [if_pos hl]
    exact start_or hp hn ht hs fuel ho hr

/-! ### the sampler -/

section
variable {μ : Type} [Target μ] {d : ℕ} {inv : μ → Prop}

/-- The starting-value call returns for every object, or never ends. -/
def StartsOr (inv : μ → Prop) (d fuel : ℕ) (init : Option (List ℝ)) (R : Rng → Prop) : Prop :=
  ∀ o r, inv o → R r → (∃ o' θ r', startCall fuel init o r = .ok (o', θ, r') ∧ inv o' ∧ θ.length = d ∧ R r') ∨
    startCall fuel init o r = .error .timeout

theorem startLoop_or (hT : Total μ inv d) {s : Samp μ d} (hs : Fit inv s) {fuel : ℕ} {init : Option (List ℝ)} {R : Rng → Prop}
    (hR : R s.rng) (hb : ∀ r, R r → Blocks d r.stud) (hst : StartsOr inv d fuel init R) {m : ℕ} (hm : m ≤ s.steps.length) :
    (∃ s', s.startLoop fuel init m = .ok s' ∧ Fit inv s' ∧ R s'.rng ∧ s'.chains.length = s.chains.length ∧ s'.steps = s.steps) ∨
      s.startLoop fuel init m = .error .timeout := by
  induction m with
  | zero => exact Or.inl ⟨s, rfl, hs, hR, rfl, rfl⟩
  | succ m ih =>
      rcases ih (by omega) with ⟨t, h1, h2, h3, h3', h3''⟩ | h1
      · have g : t.steps[m]? = some (t.steps[m]'(by rw [h3'']; omega)) := List.getElem?_eq_getElem _
        have hgs := h2.steps _ (List.mem_of_getElem? g)
        generalize (t.steps[m]'(by rw [h3'']; omega)) = st at *
        have hi : st.chain < t.chains.length := by
          cases st with
          | ram i a => exact hgs.1
          | exch e => exact hgs.2
        have gi : t.chains[st.chain]? = some (t.chains[st.chain]'hi) := List.getElem?_eq_getElem hi
        have mi := List.mem_of_getElem? gi
        generalize (t.chains[st.chain]'hi) = c at *
        rcases hst c.obj t.rng (h2.obj _ mi) h3 with ⟨o', θ, r', h4, h5, h6, h7⟩ | h4
        · left
          obtain ⟨c', h8, h9, h10⟩ := save_total hT (s := { c with obj := o' }) h5 h6
          refine ⟨{ t with chains := t.chains.set st.chain c', rng := r' }, ?_, ⟨mem_set_of h2.obj h9, mem_set_of h2.len (by rw [h10]; exact h6), ?_, hb _ h7⟩, h7, by simpa using h3', h3''⟩
          · unfold Samp.startLoop
            rw [h1]
            simp only [res_bind_ok, Samp.startOne, rdU_ok g, rdU_ok gi]
            unfold startCall at h4
            cases init with
            | none => simp only at h4 ⊢; rw [h4]; simp only [res_bind_ok, h8]; rfl
            | some i => simp only at h4 ⊢; rw [h4]; simp only [res_bind_ok, h8]; rfl
          · simp only [List.length_set]
            exact h2.steps
        · right
          unfold Samp.startLoop
          rw [h1]
          simp only [res_bind_ok, Samp.startOne, rdU_ok g, rdU_ok gi]
          unfold startCall at h4
          cases init with
          | none => simp only at h4 ⊢; rw [h4]; rfl
          | some i => simp only at h4 ⊢; rw [h4]; rfl
      · right
        unfold Samp.startLoop
        rw [h1]; rfl

theorem run_or (hT : Total μ inv d) {s : Samp μ d} (hs : Fit inv s) {fuel N burnin thin : ℕ} {init : List ℝ} {R : Rng → Prop}
    (hR : R s.rng) (hb : ∀ r, R r → Blocks d r.stud) (hst : StartsOr inv d fuel (if init.length = d then some init else none) R)
    (hne : s.steps ≠ []) (ht : ∀ x ∈ s.tracked, x.2 < s.chains.length) :
    (∃ s', s.run fuel N burnin thin init = .ok s' ∧ s'.chains.length = s.chains.length) ∨ s.run fuel N burnin thin init = .error .timeout := by
  obtain ⟨s0, h1⟩ := setSizes_total N ht
  obtain ⟨h2, h3⟩ := setSizes_spec h1
  have hf := hs.of_rec h2
  have hR0 : R s0.rng := by rw [← h2.rng]; exact hR
  have hpos : 0 < s0.steps.length := by rw [← h2.steps]; exact List.length_pos_iff.mpr hne
  have g : s0.steps[0]? = some (s0.steps[0]'hpos) := List.getElem?_eq_getElem _
  have hgs := hf.steps _ (List.mem_of_getElem? g)
  generalize (s0.steps[0]'hpos) = st at *
  have hi : st.chain < s0.chains.length := by
    cases st with
    | ram i a => exact hgs.1
    | exch e => exact hgs.2
  have gi : s0.chains[st.chain]? = some (s0.chains[st.chain]'hi) := List.getElem?_eq_getElem hi
  have hl := hf.len _ (List.mem_of_getElem? gi)
  rcases startLoop_or hT hf hR0 hb hst (m := s0.steps.length) le_rfl with ⟨s1, h4, h5, -, h6, -⟩ | h4
  · left
    obtain ⟨s2, h7, h8⟩ := iterate_total hT h5 burnin
    obtain ⟨b1, b2, b3⟩ := startLoop_frame h4
    obtain ⟨c1, c2⟩ := iterate_fixed h7
    obtain ⟨s3, h9, -, -, -, h10⟩ := sampleLoop_total hT h8 (N := N) (thin := thin) (k := N) le_rfl fun x hx => by
      have hx0 : x ∈ s.tracked := by rw [h2.tracked, ← b2, ← c2]; exact hx
      have hxl : x.2 < s0.chains.length := by rw [← h2.chains.length_eq]; exact ht x hx0
      have e0 : s0.chains[x.2]? = some (s0.chains[x.2]'hxl) := List.getElem?_eq_getElem _
      obtain ⟨k1, k2⟩ := h3 _ _ e0 ⟨x.1, hx0⟩
      obtain ⟨p1, e3, e4⟩ := fixed_get b1 e0
      obtain ⟨p2, e5, e6⟩ := fixed_get c1 e3
      have e7 := e6.trans e4
      refine ⟨p2, e5, ?_, ?_⟩
      · rw [← k1]; exact congrArg (fun x => x.2.2.2.1.length) e7
      · rw [← k2]; exact congrArg (fun x => x.2.2.2.2.length) e7
    refine ⟨s3, ?_, ?_⟩
    · unfold Samp.run
      rw [h1]
      simp only [res_bind_ok, rdU_ok g, rdU_ok gi, hl, h4, h7, h9]
    · have e1 := congrArg List.length c1
      have e2 := congrArg List.length b1
      simp only [List.length_map] at e1 e2
      rw [h10, e1, e2, h2.chains.length_eq]
  · right
    unfold Samp.run
    rw [h1]
    simp only [res_bind_ok, rdU_ok g, rdU_ok gi, hl, h4]
    rfl

end

end Verif.Theory
