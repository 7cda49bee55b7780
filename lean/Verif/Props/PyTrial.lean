import Verif.Theory.PyTrial
import Verif.Props.MleBox
import Verif.Props.PyModel
import Verif.Props.PyRun
import Verif.Props.Terminates

/-!
Property C97: one trial of `get_mle`, and the best of several. The optimiser is a parameter.
-/

namespace Verif.Props

open MeasureTheory Verif.Model Verif.Spec Verif.Theory

/-- The optimiser that returns its starting point is lawful. -/
noncomputable def lazyOpt : Py.Minimise := fun f x0 _ => (f x0).map fun v => ⟨v, x0⟩

lemma lazyOpt_lawful : Lawful lazyOpt := by
  intro f x0 box v0 h1 h2 h3
  refine ⟨⟨v0, x0⟩, by simp [lazyOpt, h3, Except.map], h1, h3, ?_⟩
  cases v0 <;> simp [Dbl.lt]

/-- The first sample of a run of one sample, and what `getSamples` gives. -/
lemma one_sample {μ : Type} {c : Par μ} (h : c.samples.length = 1) : ∃ θ, c.samples = [θ] ∧ Py.getSamples c = .ok [θ] := by
  obtain ⟨θ, hθ⟩ := List.length_eq_one_iff.mp h
  exact ⟨θ, hθ, by simp [Py.getSamples, hθ]⟩

/-- **C97, CAR(1).** At least three observations, not all equal, draws in range without a proposal made of zeros, and a lawful optimiser: a trial
of `get_mle(1, q)` returns. The estimate lies in the search region, its value `fun` is a number, minus the log-likelihood minus the log-prior
of the error scale, and not above that of a starting point in the search region with error scale one. -/
theorem C97_car1 {n : ℕ} (hn : 3 ≤ n) {t : Fin n → ℝ} (ht : StrictMono t) (y e : Fin n → ℝ) (hy : ∃ i j, y i ≠ y j) (q fuel : ℕ)
    (srt : List ℝ → List ℕ) {opt : Py.Minimise} (ho : Lawful opt) {u : ℕ → ℝ} (hu : ∀ j, 0 ≤ u j ∧ u j < 1) {r : Rng} (hr : r.Ok)
    (hb : Blocks 4 r.stud) :
    ∃ m x0, Py.mleTrial fuel srt (List.ofFn t) (List.ofFn y) (List.ofFn e) 1 q opt u r = .ok m ∧ Car1Search t y m.x ∧
      m.fn = .fin (-car1Loglik t y e m.x - logPriorSpec m.x) ∧ Car1Search t y x0 ∧ at0 x0 1 = 1 ∧
      -car1Loglik t y e m.x - logPriorSpec m.x ≤ -car1Loglik t y e x0 - logPriorSpec x0 := by
  obtain ⟨c, hc⟩ := C46_car1_run_returns_any_init srt (show 2 ≤ n by omega) ht y e hy fuel 1 25 1 [] hr hb
  obtain ⟨-, -, -, -, -, -, hlen, -⟩ := C30_car1 hc
  obtain ⟨θ, hs, hg⟩ := one_sample hlen
  have hθ : θ.length = 4 := car1_run_len hc θ (by rw [hs]; simp)
  obtain ⟨var, o, b, k1, k2, k3, k4⟩ := run_core1 hc
  cases (popVar_eq (show 0 < n by omega) y).symm.trans k1
  obtain ⟨o2, b2, dmin, span, m1, -, m2, m3, m4, m5, m6, m7, m8⟩ := run_solid1 srt (show 2 ≤ n by omega) ht y e (10 * √(popVariance y))
  cases m1.symm.trans k2
  cases m2.symm.trans k3
  obtain ⟨dmin', span', box, d1, d2, hpos, hbox, hbl, hin⟩ := car1_box hn ht hy q
  obtain rfl := d1.unique m4
  obtain rfl := d2.unique m5
  obtain ⟨box', b1, -, -, b4⟩ := C52_start_in_box hn ht hy 1 q
  cases hbox.symm.trans b1
  obtain ⟨x0, x1, x2, x3, x4, -⟩ := b4 θ u (by rw [hθ, hbl]) hu
  have hx0 : InBox box x0 := ⟨by rw [x2, hθ, hbl], fun j lo hi h => by simpa [at0] using x4 j lo hi h⟩
  have hsearch : ∀ x, InBox box x → Car1Search t y x := fun x hx => by
    obtain ⟨e1, e2, e3, e4⟩ := hin x hx
    refine ⟨e1, e2, e3, fun dm sp g1 g2 => ?_⟩
    obtain rfl := g1.unique d1
    obtain rfl := g2.unique d2
    exact e4
  have hdpos : 0 < dmin' := by
    obtain ⟨dm, _, _, e1, -, e2, -⟩ := mleBox_eq (show 2 ≤ n by omega) ht y 1 q
    obtain rfl := e1.unique d1
    exact e2
  have hval : ∀ x, InBox box x → Py.objective c.obj x = .ok (.fin (-car1Loglik t y e x - logPriorSpec x)) := fun x hx => by
    obtain ⟨e1, e2, e3, e4, e5⟩ := hin x hx
    have h0 : 0 < at0 x 0 := lt_of_lt_of_le (by linarith) e2.1
    obtain ⟨s1, h1⟩ := solid1_inside (show 0 < n by omega) ht m3 k4 m7 m8 (θ := x) e1
      ⟨⟨h0.le, by rw [show ({ o with b := b } : Car1).b.maxStdev = 10 * √(popVariance y) from m6]; exact e2.2, by linarith [e3.1], by linarith [e3.2]⟩,
        e4, e5.trans (by gcongr; norm_num)⟩ h0.ne'
    unfold Py.objective
    rw [h1]
    simp only [Except.map, Dbl.neg, car1Loglik]
    congr 2
    ring
  obtain ⟨m, h1, h2, h3, h4⟩ := ho (Py.objective c.obj) x0 box _ hx0 (fun x hx => ⟨_, hval x hx, by simp⟩) (hval x0 hx0)
  rw [hval m.x h2] at h3
  injection h3 with h3
  refine ⟨m, x0, ?_, hsearch _ h2, h3.symm, hsearch _ hx0, by simpa [at0] using x3, ?_⟩
  · unfold Py.mleTrial
    simp only [if_true, hc, hg, res_bind_ok, rd, List.getElem?_cons_zero, x1, hbox]
    exact h1
  · rw [← h3] at h4
    simpa [Dbl.lt] using h4

/-- **C97, CARMA(p,q), `q < p`.** If the short run of the sampler returns, so does the trial. Its value is that of minus the log-likelihood minus
the log-prior of the error scale if the AR roots of the estimate are different, and infinite if not; it is never NaN. If the AR roots of the
starting point are different, so are those of the estimate. -/
theorem C97_carma {n : ℕ} (hn : 3 ≤ n) {t : Fin n → ℝ} (ht : StrictMono t) (y e : Fin n → ℝ) (hy : ∃ i j, y i ≠ y j) {p q : ℕ} (hp : 2 ≤ p)
    (hq : q < p) {fuel : ℕ} {srt : List ℝ → List ℕ} {opt : Py.Minimise} (ho : Lawful opt) {u : ℕ → ℝ} (hu : ∀ j, 0 ≤ u j ∧ u j < 1) {r : Rng}
    {c : Par (CarP p)}
    (hc : runCarmaSampler fuel srt 1 25 (List.ofFn t) (List.ofFn y) (List.ofFn e) p q 10 false 1 [] r = .ok c) :
    ∃ m box x0 roots roots0, Py.mleTrial fuel srt (List.ofFn t) (List.ofFn y) (List.ofFn e) p q opt u r = .ok m ∧
      Py.mleBox (List.ofFn t) (List.ofFn y) p q = .ok box ∧ InBox box m.x ∧ arRoots p m.x = .ok roots ∧
      (roots.Nodup → ∃ v, m.fn = .fin v ∧ CarmaObjective t y e p q roots m.x v) ∧ (¬ roots.Nodup → m.fn = .pinf) ∧
      InBox box x0 ∧ at0 x0 1 = 1 ∧ arRoots p x0 = .ok roots0 ∧ (roots0.Nodup → roots.Nodup) := by
  obtain ⟨v1, o1, b1, -, -, -, hlen, -, hrow⟩ := C30_carma hc
  obtain ⟨θ, hs, hg⟩ := one_sample hlen
  have hθ : θ.length = 3 + p + q := by
    obtain ⟨θ', x, o', h1, -, h3, -⟩ := hrow 0 (by norm_num)
    rw [hs] at h1
    cases h1
    simpa [nParams] using h3
  obtain ⟨var, o, b, k1, k2, k3, k4⟩ := run_core hc
  cases (popVar_eq (show 0 < n by omega) y).symm.trans k1
  obtain ⟨o2, b2, dmin, span, m1, m2, m3, m4, m5, m6, m7, m8⟩ := run_solid (q := q) srt (show 2 ≤ n by omega) ht y e hp false (Or.inr hq)
    (10 * √(popVariance y))
  cases m1.symm.trans k2
  cases m2.symm.trans k3
  have hkind : o.kind = runKind q false := (new_config k2).1
  obtain ⟨box, b1, b2, -, b4⟩ := C52_start_in_box hn ht hy p q
  rw [if_neg (by omega)] at b2
  obtain ⟨x0, x1, x2, x3, x4, -⟩ := b4 θ u (by rw [hθ, b2]) hu
  have hx0 : InBox box x0 := ⟨by rw [x2, hθ, b2], fun j lo hi h => by simpa [at0] using x4 j lo hi h⟩
  obtain ⟨dm, sp, v, -, -, -, -, -, -, -, hv, hbx⟩ := mleBox_eq (show 2 ≤ n by omega) ht y p q
  cases b1.symm.trans hbx
  have hsd : 0 < √v := by rw [hv]; exact Real.sqrt_pos.mpr (dev_pos hy)
  rw [if_neg (by omega)] at hx0 b1 b2
  set box := [some (√v / 10, 10 * √v), some (0.9, 1.1), none] ++
    List.replicate p (some (Real.log (min ((1 / sp) ^ 2) (2 * (1 / sp))), Real.log (max ((0.9 * (1 / dm)) ^ 2) (2 * (0.9 * (1 / dm)))))) ++
      List.replicate q none with hboxd
  have hval : ∀ x, InBox box x → ∃ roots, arRoots p x = .ok roots ∧
      (roots.Nodup → ∃ v, Py.objective ({ c.obj with b := c.obj.b.setMLE true } : CarP p) x = .ok (.fin v) ∧ CarmaObjective t y e p q roots x v) ∧
      (¬ roots.Nodup → Py.objective ({ c.obj with b := c.obj.b.setMLE true } : CarP p) x = .ok .pinf) := fun x hx => by
    have e0 := hx.mem 0 _ _ (by rw [hboxd]; rfl)
    have e1 := hx.mem 1 _ _ (by rw [hboxd]; rfl)
    have hl : npar p ({ o with b := b } : CarP p).kind ≤ x.length := by
      show npar p o.kind ≤ _
      rw [hx.length, b2, hkind, npar_runKind]; simp [nParams]
    have hz : ({ o with b := b } : CarP p).kind ≠ .zcarma := by
      show o.kind ≠ _
      rw [hkind]; unfold runKind; simp only [Bool.false_eq_true, if_false]; split <;> simp
    obtain ⟨roots, hr, h1, h2⟩ := solid_mle hp (show 0 < n by omega) ht m3 hz k4 hl (lt_of_lt_of_le (by norm_num) e1.1)
      (lt_of_lt_of_le (by linarith) e0.1).ne'
    refine ⟨roots, hr, fun hnd => ?_, fun hnd => ?_⟩
    · obtain ⟨ω, ma, s', g1, g2, g3, g4, g5⟩ := h1 hnd
      refine ⟨_, ?_, ω, ma, g1, g2, g3, ?_, rfl⟩
      · unfold Py.objective
        rw [g5]
        simp only [Except.map, Dbl.neg]
        congr 2
        ring
      · intro z; rw [g4 z]; exact congrArg (fun k => maPolySpec k p 1 1 x z) hkind
    · obtain ⟨s', g1⟩ := h2 hnd
      unfold Py.objective
      rw [g1]; rfl
  have hnn : ∀ x, InBox box x → ∃ v, Py.objective ({ c.obj with b := c.obj.b.setMLE true } : CarP p) x = .ok v ∧ v ≠ .nan := fun x hx => by
    obtain ⟨roots, -, h1, h2⟩ := hval x hx
    by_cases hnd : roots.Nodup
    · obtain ⟨v, h3, -⟩ := h1 hnd; exact ⟨_, h3, by simp⟩
    · exact ⟨_, h2 hnd, by simp⟩
  obtain ⟨v0, w1, w2⟩ := hnn x0 hx0
  obtain ⟨m, h1, h2, h3, h4⟩ := ho _ x0 box v0 hx0 hnn w1
  obtain ⟨roots, q1, q2, q3⟩ := hval m.x h2
  obtain ⟨roots0, r1, r2, r3⟩ := hval x0 hx0
  refine ⟨m, box, x0, roots, roots0, ?_, b1, h2, q1, fun hnd => ?_, fun hnd => ?_, hx0, by simpa [at0] using x3, r1, fun hnd0 => ?_⟩
  · unfold Py.mleTrial
    rw [if_neg (by omega)]
    simp only [hc, hg, res_bind_ok, rd, List.getElem?_cons_zero, x1, b1]
    exact h1
  · obtain ⟨w, g1, g2⟩ := q2 hnd
    rw [g1] at h3
    injection h3 with h3
    exact ⟨w, h3.symm, g2⟩
  · rw [q3 hnd] at h3
    injection h3 with h3
    exact h3.symm
  · by_contra hnd
    obtain ⟨w, g1, -⟩ := r2 hnd0
    rw [g1] at w1
    injection w1 with w1
    rw [q3 hnd] at h3
    injection h3 with h3
    rw [← w1, ← h3] at h4
    simp [Dbl.lt] at h4

/-- **C97, CARMA(p,q), the trial returns.** With independent draws of the laws the code asks for, `2 ≤ p < 2500` and `q < p`, a trial returns with
probability one, with a point of the search region. -/
theorem C97_carma_returns {Ω : Type*} [MeasurableSpace Ω] {P : Measure Ω} {n : ℕ} (hn : 3 ≤ n) {t : Fin n → ℝ} (ht : StrictMono t)
    (y e : Fin n → ℝ) (hy : ∃ i j, y i ≠ y j) {p q : ℕ} (hp : 2 ≤ p) (hp' : p < 2500) (hq : q < p) (srt : List ℝ → List ℕ) {opt : Py.Minimise}
    (ho : Lawful opt) {u : ℕ → ℝ} (hu : ∀ j, 0 ≤ u j ∧ u j < 1) {R : Ω → Rng} {dof : ℕ → ℕ} (hR : IsDraws P R dof)
    (hd : ∀ k, dof k = n - 1 ∨ dof k = 50) :
    ∀ᵐ ω ∂P, ∃ F, ∀ fuel, F ≤ fuel → ∃ m box, Py.mleTrial fuel srt (List.ofFn t) (List.ofFn y) (List.ofFn e) p q opt u (R ω) = .ok m ∧
      Py.mleBox (List.ofFn t) (List.ofFn y) p q = .ok box ∧ InBox box m.x := by
  filter_upwards [C77_run_returns srt hn ht y e hy hp hp' false (Or.inr hq) (show 1 ≤ 10 by norm_num) 1 25 1 [] hR hd] with ω ⟨F, hF⟩
  refine ⟨F, fun fuel hf => ?_⟩
  obtain ⟨c, hc⟩ := hF fuel hf
  obtain ⟨m, box, x0, roots, roots0, h1, h2, h3, -⟩ := C97_carma hn ht y e hy hp hq ho hu hc
  exact ⟨m, box, h1, h2, h3⟩

/-- **C97, CAR(1), several trials.** `N ≥ 1` trials with any draws in range: `get_mle` returns one of the estimates; its value is a number, and
no trial has a smaller one. (The failure of C51, a first trial with value NaN, does not occur for `p = 1`.) -/
theorem C97_car1_best {n : ℕ} (hn : 3 ≤ n) {t : Fin n → ℝ} (ht : StrictMono t) (y e : Fin n → ℝ) (hy : ∃ i j, y i ≠ y j) (q fuel : ℕ)
    (srt : List ℝ → List ℕ) {opt : Py.Minimise} (ho : Lawful opt) {N : ℕ} (hN : 1 ≤ N) (u : Fin N → ℕ → ℝ) (hu : ∀ k j, 0 ≤ u k j ∧ u k j < 1)
    (r : Fin N → Rng) (hr : ∀ k, (r k).Ok ∧ Blocks 4 (r k).stud) :
    ∃ (ms : Fin N → Py.Mle) (m : Py.Mle), (∀ k, Py.mleTrial fuel srt (List.ofFn t) (List.ofFn y) (List.ofFn e) 1 q opt (u k) (r k) = .ok (ms k)) ∧
      Py.getMle (List.ofFn ms) = .ok m ∧ (∃ k, m = ms k) ∧ Car1Search t y m.x ∧
      m.fn = .fin (-car1Loglik t y e m.x - logPriorSpec m.x) ∧
      ∀ k, -car1Loglik t y e m.x - logPriorSpec m.x ≤ -car1Loglik t y e (ms k).x - logPriorSpec (ms k).x := by
  choose ms x0 h1 h2 h3 h4 h5 h6 using fun k => C97_car1 hn ht y e hy q fuel srt ho (hu k) (hr k).1 (hr k).2
  obtain ⟨m, g1, g2, g3, g4⟩ := C51_best_partial (List.ofFn ms) (ms ⟨0, by omega⟩) (by simp [show 0 < N by omega])
    (by rw [h3]; simp)
  rw [List.mem_ofFn] at g1
  obtain ⟨k, rfl⟩ := g1
  refine ⟨ms, ms k, h1, g2, ⟨k, rfl⟩, h2 k, h3 k, fun j => ?_⟩
  have := g4 (ms j) (by rw [List.mem_ofFn]; exact ⟨j, rfl⟩)
  rw [h3, h3] at this
  simpa [Dbl.lt] using this

/-- **C97 fails: `fun` is not minus the log-likelihood.** It exceeds it by more than 24 everywhere in the search region, so that the deviance
`2 * fun` used for the AICc is too large by more than 48. -/
theorem C97_not_loglik {n : ℕ} {t y : Fin n → ℝ} (e : Fin n → ℝ) {x : List ℝ} (h : Car1Search t y x) :
    -car1Loglik t y e x + 24 < -car1Loglik t y e x - logPriorSpec x := by
  obtain ⟨h1, h2⟩ := h.scale
  have hpos : 0 < at0 x 1 := by linarith
  have hlog : 1 - 1 / at0 x 1 ≤ Real.log (at0 x 1) := by
    have := Real.log_le_sub_one_of_pos (show 0 < 1 / at0 x 1 by positivity)
    rw [one_div, Real.log_inv] at this
    rw [one_div]; linarith
  have hinv : 1 / at0 x 1 ≤ 1.2 := by
    rw [div_le_iff₀ hpos]; nlinarith
  unfold logPriorSpec
  have : -25 / at0 x 1 = -25 * (1 / at0 x 1) := by ring
  rw [this]
  linarith

/-! ### examples -/

/-- A CAR(1) trial on three points with the optimiser that stays where it is. -/
example (srt : List ℝ → List ℕ) (fuel q : ℕ) : ∃ m, Py.mleTrial fuel srt (List.ofFn exT) (List.ofFn exY) (List.ofFn exT) 1 q lazyOpt (fun _ => 0)
    fairRng = .ok m ∧ Car1Search exT exY m.x := by
  obtain ⟨m, x0, h1, h2, -⟩ := C97_car1 le_rfl exT_mono exY exT ⟨0, 1, by simp [exY]⟩ q fuel srt lazyOpt_lawful (u := fun _ => 0)
    (fun _ => by norm_num) fairRng_ok (fun k => ⟨0, by simp, by simp [fairRng]⟩)
  exact ⟨m, h1, h2⟩

/-- A CARMA(3,1) trial on three points. -/
example (srt : List ℝ → List ℕ) :
    haveI := fun i => drawLaw_prob (dof := passDof 3) (fun k => by unfold passDof; split <;> omega) i
    ∀ᵐ ω ∂(Measure.infinitePi (drawLaw (passDof 3))), ∃ F, ∀ fuel, F ≤ fuel → ∃ m box, Py.mleTrial fuel srt (List.ofFn exT) (List.ofFn exY)
      (List.ofFn exT) 3 1 lazyOpt (fun _ => 0) (rngOf ω) = .ok m ∧ Py.mleBox (List.ofFn exT) (List.ofFn exY) 3 1 = .ok box ∧ InBox box m.x :=
  C97_carma_returns le_rfl exT_mono exY exT ⟨0, 1, by simp [exY]⟩ (by norm_num) (by norm_num) (by norm_num) srt lazyOpt_lawful (fun _ => by norm_num)
    (draws_exist fun k => by unfold passDof; split <;> omega) (fun k => by unfold passDof; split <;> omega)

/-- The search region of these three points is not empty. -/
example : ∃ x, Car1Search exT exY x ∧ -car1Loglik exT exY exT x + 24 < -car1Loglik exT exY exT x - logPriorSpec x := by
  obtain ⟨m, x0, -, h2, -⟩ := C97_car1 le_rfl exT_mono exY exT ⟨0, 1, by simp [exY]⟩ 0 0 (fun _ => []) lazyOpt_lawful (u := fun _ => 0)
    (fun _ => by norm_num) fairRng_ok (fun k => ⟨0, by simp, by simp [fairRng]⟩)
  exact ⟨m.x, h2, C97_not_loglik exT h2⟩

/-- Two trials. -/
example (srt : List ℝ → List ℕ) : ∃ (ms : Fin 2 → Py.Mle) (m : Py.Mle), Py.getMle (List.ofFn ms) = .ok m ∧ Car1Search exT exY m.x := by
  obtain ⟨ms, m, -, h2, -, h3, -⟩ := C97_car1_best le_rfl exT_mono exY exT ⟨0, 1, by simp [exY]⟩ 0 0 srt lazyOpt_lawful (N := 2) (by norm_num)
    (fun _ _ => 0) (fun _ _ => by norm_num) (fun _ => fairRng) (fun _ => ⟨fairRng_ok, fun k => ⟨0, by simp, by simp [fairRng]⟩⟩)
  exact ⟨ms, m, h2, h3⟩

end Verif.Props
