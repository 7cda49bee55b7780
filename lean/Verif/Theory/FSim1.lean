import Verif.Theory.FSim

/-!
`RunCar1Sampler` with machine numbers and exact arithmetic against the model over the reals.
-/

namespace Verif.Theory

open Verif.Model Verif.Spec
open scoped Classical

theorem crel_shape {n : ℕ} (hn : 0 < n) {s : Car1} {f : FCar1} (h : CRel n s f) : FShape f := by
  have ht : f.time.length = n := by rw [h.time, List.length_map, h.ltime]
  refine ⟨by omega, by rw [h.fltime, ht], ?_, by rw [h.flmean, ht], by rw [h.flvar, ht], ?_, ?_⟩
  · rw [ht, h.dt, List.length_map]; exact h.ldt
  · rw [ht, h.y, List.length_map, h.ly]
  · rw [ht, h.yerr, List.length_map, h.lyerr]

theorem car1_target {n : ℕ} (hn : 0 < n) : SameTarget (μ := Car1) (ν := FCar1) 4 (CRel n) := by
  constructor
  · intro o o' θ o1 v h hθ e
    obtain ⟨s', f', w, e1, e2, h'⟩ := crel_call hn h (θ := θ) (by omega)
    have e' : logDensity o θ = .ok (o1, v) := e
    rw [e1] at e'
    cases e'
    exact ⟨f', e2, h'⟩
  · intro o o' θ v h hθ _
    exact (car1_honest (A := Arith.exact) o').stale o' (θ.map .fin) ⟨crel_shape hn h, FLike.refl o'⟩ (by simpa using hθ)

theorem runFilter_keeps {b : CarBase} {kf kf' : KF1} {scale mu : ℝ} (h : runFilter b kf scale mu = .ok kf') :
    kf'.b.time = kf.b.time ∧ kf'.b.dt = kf.b.dt ∧ kf'.b.mean.length = kf.b.mean.length ∧ kf'.b.var.length = kf.b.var.length := by
  unfold runFilter at h
  obtain ⟨rs, -, h⟩ := bind_ok_inv h
  dsimp only at h
  split at h
  · next k hk => cases h; have t := filter_kf_same hk; exact t
  · cases h; exact ⟨rfl, rfl, rfl, rfl⟩
  · cases h

theorem filter_rel {n : ℕ} (hn : 0 < n) {s : Car1} {f : FCar1} (h : CRel n s f) {om sg scale mu : ℝ} {kf' : KF1}
    (e : runFilter s.b { s.kf with omega := om, b := s.kf.b.setSigsqr sg } scale mu = .ok kf') {θ : List Dbl} (hθ : θ.length = 4) :
    ∃ f', FCar1.startFilter Arith.exact f θ = .ok f' ∧ CRel n { s with kf := kf' } f' := by
  obtain ⟨k1, k2, k3, k4⟩ := runFilter_keeps e
  obtain ⟨f', e', h'⟩ := hist_start (A := Arith.exact) (s0 := f) (s := f) ⟨crel_shape hn h, FLike.refl f⟩ hθ
  have ht : f'.time.length = n := by rw [h'.like.time, h.time, List.length_map, h.ltime]
  refine ⟨f', e', ?_⟩
  exact ⟨by rw [h'.like.time, h.time], h.ltime, by rw [h'.like.y, h.y], h.ly, by rw [h'.like.yerr, h.yerr], h.lyerr, by rw [h'.like.stdev, h.stdev],
    by rw [h'.like.hi, h.hi], by rw [h'.like.lo, h.lo], (congrArg List.length k1).trans h.kltime, by rw [h'.shape.ktime, ht],
    by rw [h'.like.kdt, h.dt]; exact congrArg _ k2.symm, by have := h.ldt; show n ≤ kf'.b.dt.length + 1; rw [k2]; exact this,
    k3.trans h.lmean, k4.trans h.lvar, by rw [h'.shape.kmean, ht], by rw [h'.shape.kvar, ht]⟩

theorem start_sim {n : ℕ} (hn : 0 < n) {s s1 : Car1} {f : FCar1} (h : CRel n s f) {r r1 : Rng} {θ : List ℝ} (e : s.start r = .ok (s1, θ, r1)) :
    θ.length = 4 ∧ r1.unif = (fun k => r.unif (k + 1)) ∧ r1.stud = r.stud ∧ ∀ r' : FRng, r'.prior 0 = θ.map .fin →
      ∃ f1, FCar1.start Arith.exact f r' = .ok (f1, θ.map .fin, { r' with prior := FRng.skip 1 r'.prior }) ∧ CRel n s1 f1 := by
  unfold Car1.start at e
  dsimp only at e
  obtain ⟨v, -, e⟩ := bind_ok_inv e
  obtain ⟨sd, -, e⟩ := bind_ok_inv e
  obtain ⟨dt, -, e⟩ := bind_ok_inv e
  obtain ⟨med, -, e⟩ := bind_ok_inv e
  obtain ⟨l, -, e⟩ := bind_ok_inv e
  obtain ⟨lo, -, e⟩ := bind_ok_inv e
  obtain ⟨⟨scale, r2⟩, e2, e⟩ := bind_ok_inv e
  obtain ⟨kf, e1, e⟩ := bind_ok_inv e
  cases e
  unfold startScale at e2
  obtain ⟨m, -, e2⟩ := bind_ok_inv e2
  cases e2
  refine ⟨rfl, rfl, rfl, fun r' hr' => ?_⟩
  obtain ⟨f1, e3, h1⟩ := filter_rel hn h e1 (θ := r'.prior 0) (by rw [hr']; rfl)
  refine ⟨f1, ?_, h1⟩
  unfold FCar1.start
  dsimp only
  rw [e3, ← hr']
  rfl

theorem setStart_sim {n : ℕ} (hn : 0 < n) {s s1 : Car1} {f : FCar1} (h : CRel n s f) {init : List ℝ} {r r1 : Rng} {θ : List ℝ}
    (e : s.setStart init r = .ok (s1, θ, r1)) :
    θ.length = 4 ∧ (r1.unif = r.unif ∨ r1.unif = fun k => r.unif (k + 1)) ∧ r1.stud = r.stud ∧ ∀ r' : FRng, r'.prior 0 = θ.map .fin →
      ∃ f1 r1', FCar1.setStart Arith.exact f (init.map .fin) r' = .ok (f1, θ.map .fin, r1') ∧ r1'.unif = r'.unif ∧ r1'.stud = r'.stud ∧
        CRel n s1 f1 := by
  unfold Car1.setStart at e
  by_cases hi : init.length = 4
  · rw [if_neg (not_not.mpr hi)] at e
    obtain ⟨⟨s2, v⟩, e1, e⟩ := bind_ok_inv e
    obtain ⟨s2', f2, w, e2, e3, h2⟩ := crel_call hn h (θ := init) (by omega)
    rw [e1] at e2
    cases e2
    have hi' : (init.map Dbl.fin).length = 4 := by simpa using hi
    have e3' : ∀ r', FCar1.setStart Arith.exact f (init.map .fin) r' = (if ¬ v.isFin then FCar1.start Arith.exact f2 r' else do
        let s ← FCar1.startFilter Arith.exact f2 (init.map .fin)
        pure (s, init.map .fin, r')) := by
      intro r'
      unfold FCar1.setStart
      rw [if_neg (not_not.mpr hi'), e3, res_bind_ok]
    dsimp only at e
    by_cases hv : v.isFin
    · rw [if_neg (not_not.mpr hv)] at e
      obtain ⟨sd, -, e⟩ := bind_ok_inv e
      obtain ⟨scale, -, e⟩ := bind_ok_inv e
      obtain ⟨mu, -, e⟩ := bind_ok_inv e
      obtain ⟨lo, -, e⟩ := bind_ok_inv e
      obtain ⟨kf, e4, e⟩ := bind_ok_inv e
      cases e
      refine ⟨hi, .inl rfl, rfl, fun r' hr' => ?_⟩
      obtain ⟨f1, e5, h1⟩ := filter_rel hn h2 e4 (θ := init.map .fin) (by simpa using hi)
      exact ⟨f1, r', by rw [e3', if_neg (not_not.mpr hv), e5]; rfl, rfl, rfl, h1⟩
    · rw [if_pos hv] at e
      obtain ⟨a, b, c, d⟩ := start_sim hn h2 e
      refine ⟨a, .inr b, c, fun r' hr' => ?_⟩
      obtain ⟨f1, e4, h1⟩ := d r' hr'
      exact ⟨f1, { r' with prior := FRng.skip 1 r'.prior }, by rw [e3', if_pos hv]; exact e4, rfl, rfl, h1⟩
  · rw [if_pos hi] at e
    obtain ⟨a, b, c, d⟩ := start_sim hn h e
    refine ⟨a, .inr b, c, fun r' hr' => ?_⟩
    obtain ⟨f1, e4, h1⟩ := d r' hr'
    exact ⟨f1, { r' with prior := FRng.skip 1 r'.prior }, by unfold FCar1.setStart; rw [if_pos (by simpa using hi)]; exact e4, rfl, rfl, h1⟩

variable {M : Mach}

theorem fcar1_run_sim (hM : ExactMach M) {n : ℕ} (hn : 0 < n) {obj : Car1} {fobj : FCar1} (h : CRel n obj fobj) {a : Ram 4} {l : List Dbl} {burnin : ℕ}
    (ha : SameRam a (FRam.new M.A 4 l (.fin 0.25) burnin)) (fuel N thin : ℕ) (init : List ℝ) {r : Rng} {s1 : Samp Car1 4}
    (e : Samp.run fuel { chains := [Par.new obj 4 1 "CAR(1)" true], steps := [.ram 0 a], tracked := [("CAR(1)", 0)], rng := r } N burnin thin init = .ok s1) :
    ∃ r' t1, FromStream r r' ∧ (car1Samp M fobj l burnin r').run M N burnin thin (init.map .fin) = .ok t1 ∧ SameSamp 4 (CRel n) s1 t1 := by
  have hT := car1_target hn
  unfold Samp.run at e
  obtain ⟨s2, e1, e⟩ := bind_ok_inv e
  cases e1
  obtain ⟨st, e2, e⟩ := bind_ok_inv e
  cases e2
  obtain ⟨par, e2, e⟩ := bind_ok_inv e
  cases e2
  dsimp only at e
  obtain ⟨s3, e3, e⟩ := bind_ok_inv e
  obtain ⟨s4, e4, e⟩ := bind_ok_inv e
  -- the start
  change Samp.startLoop fuel (if init.length = 4 then some init else none) _ 1 = _ at e3
  obtain ⟨s2, e5, e3⟩ := bind_ok_inv e3
  cases e5
  obtain ⟨st, e2, e3⟩ := bind_ok_inv e3
  cases e2
  obtain ⟨par, e2, e3⟩ := bind_ok_inv e3
  cases e2
  have key : ∃ (o1 : Car1) (θ : List ℝ) (r1 : Rng) (p1 : Par Car1), s3 = { chains := [p1], steps := [.ram 0 a], tracked := [("CAR(1)", 0)], rng := r1 } ∧
      ({ Par.setSampleSize (Par.new obj 4 1 "CAR(1)" true) N with obj := o1 } : Par Car1).save θ = .ok p1 ∧
      θ.length = 4 ∧ (r1.unif = r.unif ∨ r1.unif = fun k => r.unif (k + 1)) ∧ r1.stud = r.stud ∧ ∀ r' : FRng, r'.prior 0 = θ.map .fin →
      ∃ f1 r1', (match (if init.length = 4 then some (init.map Dbl.fin) else none : Option (List Dbl)) with
        | some i => FTarget.setStart Arith.exact fobj i r'
        | none => FTarget.start Arith.exact fobj r') = .ok (f1, θ.map .fin, r1') ∧ r1'.unif = r'.unif ∧ r1'.stud = r'.stud ∧ CRel n o1 f1 := by
    by_cases hi : init.length = 4
    · rw [if_pos hi] at e3
      obtain ⟨⟨o1, θ, r1⟩, e6, e3⟩ := bind_ok_inv e3
      obtain ⟨p1, e7, e3⟩ := bind_ok_inv e3
      cases e3
      have e6' : Car1.setStart obj init r = .ok (o1, θ, r1) := e6
      obtain ⟨b1, b2, b3, b4⟩ := setStart_sim hn h e6'
      refine ⟨o1, θ, r1, p1, rfl, e7, b1, b2, b3, fun r' hr' => ?_⟩
      rw [if_pos hi]
      exact b4 r' hr'
    · rw [if_neg hi] at e3
      obtain ⟨⟨o1, θ, r1⟩, e6, e3⟩ := bind_ok_inv e3
      obtain ⟨p1, e7, e3⟩ := bind_ok_inv e3
      cases e3
      have e6' : Car1.start obj r = .ok (o1, θ, r1) := e6
      obtain ⟨b1, b2, b3, b4⟩ := start_sim hn h e6'
      refine ⟨o1, θ, r1, p1, rfl, e7, b1, .inr b2, b3, fun r' hr' => ?_⟩
      rw [if_neg hi]
      obtain ⟨f1, c1, c2⟩ := b4 r' hr'
      exact ⟨f1, _, c1, rfl, rfl, c2⟩
  obtain ⟨o1, θ, r1, p1, es, e7, hθ, hu, hst, hk⟩ := key
  obtain ⟨f1, r1', m1, m2, m3, m4⟩ := hk { unif := fun k => .fin (r1.unif k), stud := fun k => .fin (r1.stud k), prior := fun _ => θ.map .fin, yvar := fun _ => .nan } rfl
  have hP : SamePar 4 (CRel n) ({ Par.setSampleSize (Par.new obj 4 1 "CAR(1)" true) N with obj := o1 } : Par Car1)
      { obj := f1, value := List.replicate 4 (.fin 0), logpost := .nan, temp := .fin 1, samples := List.replicate N [], logposts := List.replicate N (.fin 0) } :=
    ⟨m4, rfl, rfl, rfl, rfl, by simp [Par.setSampleSize, Par.new, resize], by simp [Par.setSampleSize, Par.new, resize]⟩
  obtain ⟨q1, m5, hq⟩ := save_sim hT hP hθ e7
  refine ⟨{ unif := fun k => .fin (r1.unif k), stud := fun k => .fin (r1.stud k), prior := fun _ => θ.map .fin, yvar := fun _ => .nan }, ?_⟩
  have h3 : SameSamp 4 (CRel n) s3 { chains := [q1], steps := [.ram 0 (FRam.new M.A 4 l (.fin 0.25) burnin)], tracked := 0, rng := r1' } := by
    rw [es]
    refine ⟨.cons hq .nil, .cons (.ram 0 ha) .nil, ⟨"CAR(1)", rfl⟩, ?_, ?_⟩
    · intro k; show r1'.unif k = _; rw [m2]
    · intro k; show r1'.stud k = _; rw [m3]
  obtain ⟨t4, m6, h4⟩ := iterate_sim hM hT h3 burnin s4 e4
  obtain ⟨t1, m7, h1⟩ := sampleLoop_sim hM hT thin h4 N s1 e
  refine ⟨t1, ⟨fun k => by show Dbl.fin (r1.stud k) = _; rw [hst], ?_⟩, ?_, h1⟩
  · rcases hu with hu | hu
    · exact .inl fun k => by show Dbl.fin (r1.unif k) = _; rw [hu]
    · exact .inr fun k => by show Dbl.fin (r1.unif k) = _; rw [hu]
  · rw [car1_run_eq]
    have : FSamp.startLoop M.A (if (init.map Dbl.fin).length = 4 then some (init.map Dbl.fin) else none)
        { car1Samp M fobj l burnin { unif := fun k => .fin (r1.unif k), stud := fun k => .fin (r1.stud k), prior := fun _ => θ.map .fin, yvar := fun _ => .nan } with
          chains := (car1Samp M fobj l burnin { unif := fun k => .fin (r1.unif k), stud := fun k => .fin (r1.stud k), prior := fun _ => θ.map .fin, yvar := fun _ => .nan }).chains.map
            fun c => c.setSampleSize N } 1 =
        .ok { chains := [q1], steps := [.ram 0 (FRam.new M.A 4 l (.fin 0.25) burnin)], tracked := 0, rng := r1' } := by
      rw [List.length_map]
      simp only [FSamp.startLoop, res_bind_ok, FSamp.startOne]
      simp only [car1Samp, rdU, List.map_cons, List.map_nil, List.getElem?_cons_zero, res_bind_ok, FStep.chain]
      have m1' := m1
      rw [← hM.arith] at m1'
      by_cases hi : init.length = 4
      · rw [if_pos hi] at m1' ⊢
        dsimp only at m1' ⊢
        rw [show ((FPar.setSampleSize _ N : FPar FCar1)).obj = fobj from rfl, m1', res_bind_ok]
        dsimp only
        rw [show M.A = Arith.exact from hM.arith]
        have : (FPar.setSampleSize { obj := fobj, value := List.replicate 4 (Dbl.fin 0), logpost := Dbl.nan, temp := Dbl.fin 1, samples := [], logposts := [] } N) =
          ({ obj := fobj, value := List.replicate 4 (Dbl.fin 0), logpost := Dbl.nan, temp := Dbl.fin 1, samples := List.replicate N [], logposts := List.replicate N (.fin 0) } : FPar FCar1) := by
          simp [FPar.setSampleSize]
        rw [this, m5, res_bind_ok]
        rfl
      · rw [if_neg hi] at m1' ⊢
        dsimp only at m1' ⊢
        rw [show ((FPar.setSampleSize _ N : FPar FCar1)).obj = fobj from rfl, m1', res_bind_ok]
        dsimp only
        rw [show M.A = Arith.exact from hM.arith]
        have : (FPar.setSampleSize { obj := fobj, value := List.replicate 4 (Dbl.fin 0), logpost := Dbl.nan, temp := Dbl.fin 1, samples := [], logposts := [] } N) =
          ({ obj := fobj, value := List.replicate 4 (Dbl.fin 0), logpost := Dbl.nan, temp := Dbl.fin 1, samples := List.replicate N [], logposts := List.replicate N (.fin 0) } : FPar FCar1) := by
          simp [FPar.setSampleSize]
        rw [this, m5, res_bind_ok]
        rfl
    rw [this, res_bind_ok, m6, res_bind_ok, m7]

end Verif.Theory
