import Verif.Theory.ErrFreeMa
import Verif.Theory.KeepsLaw
import Verif.Props.Run

/-!
C68: whether the posterior densities the samplers work with can be normalised.
-/

namespace Verif.Props

open Verif.Model Verif.Spec Verif.Theory MeasureTheory
open scoped ENNReal

variable {fuel : ℕ} {srt : List ℝ → List ℕ} {N burnin thin : ℕ} {init : List ℝ} {r : Rng} {p q nw n : ℕ} {z : Bool} {t y e : Fin n → ℝ}

theorem gap_ratio (hn : 3 ≤ n) (ht : StrictMono t) {dmin span : ℝ} (h1 : IsMinGap t dmin) (h2 : IsSpan t span) : 0 < dmin ∧ 2 * dmin ≤ span := by
  obtain ⟨⟨i, j, hij, rfl⟩, hle⟩ := h1
  have hd := ht hij
  refine ⟨by linarith, ?_⟩
  have a1 := hle ⟨⟨0, by omega⟩, ⟨1, by omega⟩, by simp [Fin.lt_def], rfl⟩
  have a2 := hle ⟨⟨1, by omega⟩, ⟨2, by omega⟩, by simp [Fin.lt_def], rfl⟩
  have a3 := h2.2 ⟨⟨0, by omega⟩, ⟨2, by omega⟩, rfl⟩
  linarith

/-- The chains of a CARMA run evaluate the posterior density. -/
theorem run_evaluates (hn : 2 ≤ n) (ht : StrictMono t) (hp : 2 ≤ p) (hq : z = true ∨ q < p) {s : Samp (CarP p) (nParams p q z)}
    (hs : carmaSampler srt N burnin (List.ofFn t) (List.ofFn y) (List.ofFn e) p q nw z thin r = .ok s) {k : ℕ}
    {u : Samp (CarP p) (nParams p q z)} (h : RunState fuel s init k u) {dmin span : ℝ} (h1 : IsMinGap t dmin) (h2 : IsSpan t span) :
    ∀ c ∈ u.chains, Evaluates c.obj (carmaTarget (m := nParams p q z) (runKind q z) p t y e (10 * √(popVariance y)) (1 / dmin) (1 / span) 1 1) := by
  have hv := popVar_eq (show 0 < n by omega) y
  obtain ⟨o, b, dmin', span', g1, g2, g3, g4, g5, g6, g7, g8⟩ := run_solid (q := q) srt hn ht y e hp z hq (10 * √(popVariance y))
  obtain rfl := h1.unique g4
  obtain rfl := h2.unique g5
  have hB := carmaSampler_inv hs
  have hkind : ({ o with b := b } : CarP p).kind = runKind q z := (new_config g1).1
  have hkap : KappaOk ({ o with b := b } : CarP p) 1 1 := by
    intro hk
    rw [hkind] at hk
    unfold runKind at hk
    split at hk
    · cases hk
    · split at hk <;> cases hk
  have hT : HasTarget (CarP p) (CarP.Core { o with b := b })
      (carmaTarget (m := nParams p q z) (runKind q z) p t y e (10 * √(popVariance y)) (1 / dmin) (1 / span) 1 1) := by
    rw [← hkind, ← g6]
    exact solid_target hp (show 0 < n by omega) ht g3 one_pos le_rfl hkap g7 g8 (by rw [hkind, npar_runKind])
  obtain ⟨s0, s1, init', k1, -, k3, k4⟩ := h
  obtain ⟨⟨var, o', b', c1, c2, c3, hc⟩, -⟩ := carma_sound hB (SampRec.of_same k1) k3 (iterate_of_sweeps k4)
  cases hv.symm.trans c1
  cases g1.symm.trans c2
  cases g2.symm.trans c3
  intro c hcm x
  obtain ⟨o', v, e1, -, e2⟩ := hT.ld c.obj x (hc c hcm).core
  exact ⟨o', v, e1, e2⟩

theorem ratio_pow (hp : p < 2500) : 1 / 2 < (0.9998 : ℝ) ^ p := by
  have h1 := one_add_mul_le_pow (show (-2 : ℝ) ≤ -0.0002 by norm_num) p
  have h2 : (p : ℝ) ≤ 2499 := by exact_mod_cast (show p ≤ 2499 by omega)
  have h3 : (1 : ℝ) + -0.0002 = 0.9998 := by norm_num
  rw [h3] at h1
  linarith

theorem apart_of_ne {n : ℕ} {y e : Fin n → ℝ} {T : ℝ} (he : ∀ i, e i ≠ 0) (hT : 0 < T := by first | norm_num | exact temp_pos _ _) :
    ErrorsApart y e T := by
  classical
  left
  rw [Finset.filter_eq_empty_iff.mpr fun i _ => he i]
  simpa using hT

theorem car1_proper {T : ℝ} (hn : 3 ≤ n) (ht : StrictMono t) (he : ErrorsApart y e T) (hy : ∃ i j, y i ≠ y j) {dmin span : ℝ}
    (h1 : IsMinGap t dmin) (h2 : IsSpan t span) (hT : 0 < T) : IsProper (car1Target t y e (10 * √(popVariance y)) (1 / dmin) (1 / span)) T := by
  obtain ⟨d1, d2⟩ := gap_ratio hn ht h1 h2
  have hspan : 0 < span := by linarith
  have hsd : 0 < 10 * √(popVariance y) := by have := Real.sqrt_pos.mpr (popVar_pos (show 0 < n by omega) hy); linarith
  exact ⟨car1_pos hsd (by positivity) (one_div_lt_one_div_of_lt d1 (by linarith)), car1_bounded_apart (by omega) ht he (by positivity) hT⟩

theorem car_mass_pos (hn : 3 ≤ n) (ht : StrictMono t) (hy : ∃ i j, y i ≠ y j) (hp' : p < 2500) {dmin span : ℝ} (h1 : IsMinGap t dmin)
    (h2 : IsSpan t span) {T : ℝ} :
    0 < mass (carmaTarget (m := nParams p q z) (runKind q z) p t y e (10 * √(popVariance y)) (1 / dmin) (1 / span) 1 1) T := by
  obtain ⟨d1, d2⟩ := gap_ratio hn ht h1 h2
  have hspan : 0 < span := by linarith
  have hsd : 0 < 10 * √(popVariance y) := by have := Real.sqrt_pos.mpr (popVar_pos (show 0 < n by omega) hy); linarith
  refine carma_pos (by positivity) hsd (by unfold nParams; split <;> omega) (lam := 0.9998) (by norm_num) (by norm_num) ?_ _
  rw [div_mul_eq_mul_div, one_mul, div_lt_div_iff₀ hspan d1]
  nlinarith [ratio_pow hp']

theorem car_kinds (hq : z = true ∨ q = 0) : nParams p q z = p + 3 ∧ (runKind q z = .carp ∨ runKind q z = .zcar) := by
  constructor
  · unfold nParams
    rcases hq with rfl | rfl
    · rw [if_pos rfl]; omega
    · split <;> omega
  · unfold runKind
    rcases hq with rfl | rfl
    · exact Or.inr (if_pos rfl)
    · cases z
      · exact Or.inl rfl
      · exact Or.inr rfl

theorem car_proper {T : ℝ} (hn : 3 ≤ n) (ht : StrictMono t) (he : ErrorsApart y e T) (hy : ∃ i j, y i ≠ y j) (hp : 2 ≤ p) (hp' : p < 2500)
    (hq : z = true ∨ q = 0) {dmin span : ℝ} (h1 : IsMinGap t dmin) (h2 : IsSpan t span) (hT : 0 < T) :
    IsProper (carmaTarget (m := nParams p q z) (runKind q z) p t y e (10 * √(popVariance y)) (1 / dmin) (1 / span) 1 1) T := by
  obtain ⟨d1, d2⟩ := gap_ratio hn ht h1 h2
  have hspan : 0 < span := by linarith
  exact ⟨car_mass_pos hn ht hy hp' h1 h2, car_bounded_apart (by omega) (by omega) ht he (by positivity) hT (car_kinds (p := p) hq).2 (car_kinds hq).1⟩

/-- The chain of a CAR(1) run evaluates the posterior density. -/
theorem run1_evaluates (hn : 2 ≤ n) (ht : StrictMono t) {s : Samp Car1 4}
    (hs : car1Sampler srt burnin (List.ofFn t) (List.ofFn y) (List.ofFn e) r = .ok s) {k : ℕ} {u : Samp Car1 4} (h : RunState fuel s init k u) :
    ∃ dmin span, IsMinGap t dmin ∧ IsSpan t span ∧ u.chains ≠ [] ∧
      ∀ c ∈ u.chains, Evaluates c.obj (car1Target t y e (10 * √(popVariance y)) (1 / dmin) (1 / span)) := by
  have hv := popVar_eq (show 0 < n by omega) y
  obtain ⟨o, b, dmin, span, g1, g1', g2, g3, g4, g5, g6, g7, g8⟩ := run_solid1 srt hn ht y e (10 * √(popVariance y))
  have hB := car1Sampler_inv hs
  have hT := solid1_target (show 0 < n by omega) ht g3 (fmax := 1 / dmin) (fmin := 1 / span) g7 g8
  rw [show ({ o with b := b } : Car1).b.maxStdev = 10 * √(popVariance y) from g6] at hT
  obtain ⟨s0, s1, init', k1, -, k3, k4⟩ := h
  obtain ⟨var, o', b', c1, m1, m2, m3, m4, -, hm⟩ := car1_sound hB (SampRec.of_same k1) k3
  cases hv.symm.trans m1
  cases g1.symm.trans m2
  cases g2.symm.trans m3
  obtain ⟨-, c, e1, e2, -⟩ := hm k u (iterate_of_sweeps k4)
  refine ⟨dmin, span, g4, g5, by rw [e1]; simp, fun c' hc' x => ?_⟩
  rw [e1, List.mem_singleton] at hc'
  obtain ⟨o', v, q1, -, q2⟩ := hT.ld c'.obj x (by rw [hc']; exact e2)
  exact ⟨o', v, q1, q2⟩

theorem car1_mass_top {T : ℝ} (hn : 3 ≤ n) (ht : StrictMono t) (he : ¬ ErrorsApart y e T) (hy : ∃ i j, y i ≠ y j) {dmin span : ℝ}
    (h1 : IsMinGap t dmin) (h2 : IsSpan t span) (hT : 0 < T) :
    mass (car1Target t y e (10 * √(popVariance y)) (1 / dmin) (1 / span)) T = ∞ := by
  obtain ⟨d1, d2⟩ := gap_ratio hn ht h1 h2
  have hspan : 0 < span := by linarith
  have hsd : 0 < 10 * √(popVariance y) := by have := Real.sqrt_pos.mpr (popVar_pos (show 0 < n by omega) hy); linarith
  exact car1_unbounded (y := y) ht hT he hsd (show 0 < 1 / span by positivity) (one_div_lt_one_div_of_lt d1 (by linarith))

theorem car_mass_top {T : ℝ} (hn : 3 ≤ n) (ht : StrictMono t) (he : ¬ ErrorsApart y e T) (hy : ∃ i j, y i ≠ y j) (hp : 2 ≤ p) (hp' : p < 2500)
    (hq : z = true ∨ q = 0) {dmin span : ℝ} (h1 : IsMinGap t dmin) (h2 : IsSpan t span) (hT : 0 < T) :
    mass (carmaTarget (m := nParams p q z) (runKind q z) p t y e (10 * √(popVariance y)) (1 / dmin) (1 / span) 1 1) T = ∞ := by
  obtain ⟨d1, d2⟩ := gap_ratio hn ht h1 h2
  have hspan : 0 < span := by linarith
  have hsd : 0 < 10 * √(popVariance y) := by have := Real.sqrt_pos.mpr (popVar_pos (show 0 < n by omega) hy); linarith
  refine car_unbounded (by omega) ht hT he hsd (by positivity) (car_kinds (p := p) hq).2 (car_kinds hq).1 (lam := 0.9998) (by norm_num) (by norm_num) ?_
  rw [div_mul_eq_mul_div, one_mul, div_lt_div_iff₀ hspan d1]
  nlinarith [ratio_pow hp']

theorem carma_mass_top {T : ℝ} (hn : 3 ≤ n) (ht : StrictMono t) (hp : 2 ≤ p) (hq : 1 ≤ q) (hqp : q < p) {dmin span : ℝ}
    (h1 : IsMinGap t dmin) (h2 : IsSpan t span) (hT : 0 < T)
    (h0 : mass (carmaTarget (m := nParams p q false) (runKind q false) p t y e (10 * √(popVariance y)) (1 / dmin) (1 / span) 1 1) T ≠ 0) :
    mass (carmaTarget (m := nParams p q false) (runKind q false) p t y e (10 * √(popVariance y)) (1 / dmin) (1 / span) 1 1) T = ∞ := by
  obtain ⟨d1, d2⟩ := gap_ratio hn ht h1 h2
  have hspan : 0 < span := by linarith
  have hm : nParams p q false = p + q + 3 := by
    show 3 + p + q = p + q + 3
    omega
  have hk : runKind q false = .carma q := by
    unfold runKind
    rw [if_neg (by simp), if_neg (by omega)]
  rw [hk] at h0 ⊢
  exact carma_unbounded_any (by omega) ht (by positivity) hT hq hqp hm h0

/-- **C68, CAR(1).** At least three times, values that are not all equal. The density the chain of `RunCar1Sampler` works with, to the power
`1/T`, is proportional to a probability density if and only if fewer than `2T` measurements are without error or two of those without error
have different values. -/
theorem C68_car1_proper_partial (hn : 3 ≤ n) (ht : StrictMono t) (hy : ∃ i j, y i ≠ y j) {s : Samp Car1 4}
    (hs : car1Sampler srt burnin (List.ofFn t) (List.ofFn y) (List.ofFn e) r = .ok s) {k : ℕ} {u : Samp Car1 4} (h : RunState fuel s init k u) :
    ∃ G : LogTarget 4, u.chains ≠ [] ∧ (∀ c ∈ u.chains, Evaluates c.obj G) ∧ ∀ T, 0 < T → (IsProper G T ↔ ErrorsApart y e T) := by
  obtain ⟨dmin, span, h1, h2, h3, h4⟩ := run1_evaluates (by omega) ht hs h
  refine ⟨_, h3, h4, fun T hT => ⟨fun hP => ?_, fun he => car1_proper hn ht he hy h1 h2 hT⟩⟩
  by_contra he
  exact hP.2.ne (car1_mass_top hn ht he hy h1 h2 hT)

/-- **C68, negation for CAR(1) and repeated values without error.** If at least `2T` measurements are without error and all measurements
without error have the same value, the density the chain of `RunCar1Sampler` works with, to the power `1/T`, has infinite mass: as the standard
deviation tends to 0 with the mean at that value the likelihood grows without bound, too fast for the uniform prior of the standard deviation.
The chain has temperature 1, so two equal values without error suffice. -/
theorem C68_car1_negation (hn : 3 ≤ n) (ht : StrictMono t) (hy : ∃ i j, y i ≠ y j) {s : Samp Car1 4}
    (hs : car1Sampler srt burnin (List.ofFn t) (List.ofFn y) (List.ofFn e) r = .ok s) {k : ℕ} {u : Samp Car1 4} (h : RunState fuel s init k u) :
    ∃ G : LogTarget 4, u.chains ≠ [] ∧ (∀ c ∈ u.chains, Evaluates c.obj G) ∧ ∀ T, 0 < T → ¬ ErrorsApart y e T → mass G T = ∞ := by
  obtain ⟨dmin, span, h1, h2, h3, h4⟩ := run1_evaluates (by omega) ht hs h
  exact ⟨_, h3, h4, fun T hT he => car1_mass_top hn ht he hy h1 h2 hT⟩

theorem chains_ne_nil {s : Samp (CarP p) (nParams p q z)}
    (hs : carmaSampler srt N burnin (List.ofFn t) (List.ofFn y) (List.ofFn e) p q nw z thin r = .ok s) {k : ℕ}
    {u : Samp (CarP p) (nParams p q z)} (h : RunState fuel s init k u) : u.chains ≠ [] := by
  have hpos := (carmaSampler_inv hs).pos
  have hlen := (carma_chains hs h).1
  intro h0
  rw [h0, List.length_nil] at hlen
  omega

/-- **C68, CARp and ZCAR.** The same for the samplers of autoregressive models; the bound on `p` ensures that the prior leaves room for `p`
separated roots. The chain of index `i` has temperature `temperature nw i`, of which the smallest is 1, or 100 for a single walker. The part of
C68 that holds. -/
theorem C68_car_proper_partial (hn : 3 ≤ n) (ht : StrictMono t) (hy : ∃ i j, y i ≠ y j) (hp : 2 ≤ p) (hp' : p < 2500)
    (hq : z = true ∨ q = 0) {s : Samp (CarP p) (nParams p q z)}
    (hs : carmaSampler srt N burnin (List.ofFn t) (List.ofFn y) (List.ofFn e) p q nw z thin r = .ok s) {k : ℕ}
    {u : Samp (CarP p) (nParams p q z)} (h : RunState fuel s init k u) :
    ∃ G : LogTarget (nParams p q z), u.chains ≠ [] ∧ (∀ c ∈ u.chains, Evaluates c.obj G) ∧ ∀ T, 0 < T → (IsProper G T ↔ ErrorsApart y e T) := by
  obtain ⟨o, b, dmin, span, g1, g2, g3, g4, g5, g6, g7, g8⟩ := run_solid (q := q) srt (by omega) ht y e hp z
    (hq.imp id fun h => by omega) (10 * √(popVariance y))
  refine ⟨_, chains_ne_nil hs h, run_evaluates (by omega) ht hp (hq.imp id fun h => by omega) hs h g4 g5,
    fun T hT => ⟨fun hP => ?_, fun he => car_proper hn ht he hy hp hp' hq g4 g5 hT⟩⟩
  by_contra he
  exact hP.2.ne (car_mass_top hn ht he hy hp hp' hq g4 g5 hT)

/-- **C68, negation for CARp and ZCAR and repeated values without error.** As for CAR(1). -/
theorem C68_car_negation (hn : 3 ≤ n) (ht : StrictMono t) (hy : ∃ i j, y i ≠ y j) (hp : 2 ≤ p) (hp' : p < 2500)
    (hq : z = true ∨ q = 0) {s : Samp (CarP p) (nParams p q z)}
    (hs : carmaSampler srt N burnin (List.ofFn t) (List.ofFn y) (List.ofFn e) p q nw z thin r = .ok s) {k : ℕ}
    {u : Samp (CarP p) (nParams p q z)} (h : RunState fuel s init k u) :
    ∃ G : LogTarget (nParams p q z), u.chains ≠ [] ∧ (∀ c ∈ u.chains, Evaluates c.obj G) ∧ ∀ T, 0 < T → ¬ ErrorsApart y e T → mass G T = ∞ := by
  obtain ⟨o, b, dmin, span, g1, g2, g3, g4, g5, g6, g7, g8⟩ := run_solid (q := q) srt (by omega) ht y e hp z
    (hq.imp id fun h => by omega) (10 * √(popVariance y))
  exact ⟨_, chains_ne_nil hs h, run_evaluates (by omega) ht hp (hq.imp id fun h => by omega) hs h g4 g5,
    fun T hT he => car_mass_top hn ht he hy hp hp' hq g4 g5 hT⟩

/-- **C68, negation for CARMA.** With moving-average parameters (`q ≥ 1`) the density the chains of `RunCarmaSampler` work with has infinite
mass, at every temperature and whatever the measurement errors are: there is no prior on the moving-average parameters, and the likelihood does
not decay in them. For every `p` the density cannot be normalised. -/
theorem C68_carma_negation (hn : 3 ≤ n) (ht : StrictMono t) (hy : ∃ i j, y i ≠ y j) (hp : 2 ≤ p)
    (hq : 1 ≤ q) (hqp : q < p) {s : Samp (CarP p) (nParams p q false)}
    (hs : carmaSampler srt N burnin (List.ofFn t) (List.ofFn y) (List.ofFn e) p q nw false thin r = .ok s) {k : ℕ}
    {u : Samp (CarP p) (nParams p q false)} (h : RunState fuel s init k u) :
    ∃ G : LogTarget (nParams p q false), u.chains ≠ [] ∧ (∀ c ∈ u.chains, Evaluates c.obj G) ∧
      ∀ T, 0 < T → ¬ IsProper G T ∧ (p < 2500 → mass G T = ∞) := by
  obtain ⟨o, b, dmin, span, g1, g2, g3, g4, g5, g6, g7, g8⟩ := run_solid (q := q) srt (by omega) ht y e hp false
    (Or.inr hqp) (10 * √(popVariance y))
  exact ⟨_, chains_ne_nil hs h, run_evaluates (by omega) ht hp (Or.inr hqp) hs h g4 g5, fun T hT =>
    ⟨fun hP => hP.2.ne (carma_mass_top hn ht hp hq hqp g4 g5 hT hP.1.ne'),
     fun hp' => carma_mass_top hn ht hp hq hqp g4 g5 hT (car_mass_pos hn ht hy hp' g4 g5).ne'⟩⟩

/-- A CARMA(2,q) run on any three values and errors with enough variance. -/
theorem ex_ma_states_of (srt : List ℝ → List ℕ) (k : ℕ) {q : ℕ} (hq : q < 2) {nw : ℕ} (hnw : 0 < nw) {y : Fin 3 → ℝ} (e : Fin 3 → ℝ)
    (hy : ∃ i j, y i ≠ y j) (hv : 1 ≤ 10 * √(popVariance y)) : ∃ s u, carmaSampler srt 0 k (List.ofFn exT) (List.ofFn y)
    (List.ofFn e) 2 q nw false 1 exRng = .ok s ∧ RunState 0 s (exθ ++ List.replicate q 0) k u := by
  have e1 : ∀ j, j < 5 → at0 (exθ ++ List.replicate q 0) j = at0 exθ j := by
    intro j hj
    simp only [at0, List.getD_eq_getElem?_getD]
    rw [List.getElem?_append_left (by simpa [exθ] using hj)]
  have h1 := ex_roots (θ := exθ ++ List.replicate q 0) (by simp [exθ]) (by rw [e1 3 (by norm_num)]; simp [exθ, at0])
    (by rw [e1 4 (by norm_num)]; simp [exθ, at0])
  have h2 := ex_bounds (θ := exθ ++ List.replicate q 0) (by rw [e1 0 (by norm_num)]; simp [exθ, at0]) (by rw [e1 1 (by norm_num)]; simp [exθ, at0])
  obtain ⟨c, h⟩ := C46_carma_run_returns srt (by norm_num) exT_mono y e hy le_rfl (q := q) false (Or.inr hq)
    (nw := nw) hnw 0 0 k 1 (init := exθ ++ List.replicate q 0) (by simp [exθ, nParams]; omega) h1 ex_gap.1 ex_gap.2 (by
      rw [one_div_one]
      exact { h2 with sd_hi := by rw [e1 0 (by norm_num)]; simpa [exθ, at0] using hv }) (Or.inl (by rw [e1 0 (by norm_num)]; simp [exθ, at0]))
    (r := exRng) (fun k => ⟨0, by simp only [nParams]; norm_num, by simp [exRng]⟩)
  obtain ⟨s, h1, h⟩ := bind_ok_inv h
  obtain ⟨s', h2, h⟩ := bind_ok_inv h
  obtain ⟨u, h3⟩ := run_state h2
  exact ⟨s, u, h1, h3⟩

/-- A CARMA(2,q) run with measurement errors 1. -/
theorem ex_ma_states (srt : List ℝ → List ℕ) (k : ℕ) {q : ℕ} (hq : q < 2) {nw : ℕ} (hnw : 0 < nw) : ∃ s u, carmaSampler srt 0 k (List.ofFn exT) (List.ofFn exY)
    (List.ofFn fun _ : Fin 3 => (1 : ℝ)) 2 q nw false 1 exRng = .ok s ∧ RunState 0 s (exθ ++ List.replicate q 0) k u := by
  refine ex_ma_states_of srt k hq hnw _ ⟨0, 1, by simp [exY]⟩ ?_
  rw [ex_popVariance]
  have : (1 / 10 : ℝ) ≤ √(2 / 3) := Real.le_sqrt_of_sq_le (by norm_num)
  linarith

/-- The same with two walkers. -/
theorem ex_ma_state (srt : List ℝ → List ℕ) (k : ℕ) {q : ℕ} (hq : q < 2) : ∃ s u, carmaSampler srt 0 k (List.ofFn exT) (List.ofFn exY)
    (List.ofFn fun _ : Fin 3 => (1 : ℝ)) 2 q 2 false 1 exRng = .ok s ∧ RunState 0 s (exθ ++ List.replicate q 0) k u :=
  ex_ma_states srt k hq two_pos

/-- A CAR(2) run and a CARMA(2,1) run on the same data: the first density is proper, the second has infinite mass. -/
example (srt : List ℝ → List ℕ) (k : ℕ) : (∃ (s u : Samp (CarP 2) (nParams 2 0 false)) (G : LogTarget (nParams 2 0 false)),
      carmaSampler srt 0 k (List.ofFn exT) (List.ofFn exY) (List.ofFn fun _ : Fin 3 => (1 : ℝ)) 2 0 2 false 1 exRng = .ok s ∧
      RunState 0 s (exθ ++ []) k u ∧ (∀ c ∈ u.chains, Evaluates c.obj G) ∧ IsProper G 1) ∧
    ∃ (s u : Samp (CarP 2) (nParams 2 1 false)) (G : LogTarget (nParams 2 1 false)),
      carmaSampler srt 0 k (List.ofFn exT) (List.ofFn exY) (List.ofFn fun _ : Fin 3 => (1 : ℝ)) 2 1 2 false 1 exRng = .ok s ∧
      RunState 0 s (exθ ++ [0]) k u ∧ (∀ c ∈ u.chains, Evaluates c.obj G) ∧ mass G 1 = ∞ := by
  constructor
  · obtain ⟨s, u, h1, h2⟩ := ex_ma_state srt k (q := 0) (by norm_num)
    obtain ⟨G, -, h3, h4⟩ := C68_car_proper_partial le_rfl exT_mono ⟨0, 1, by simp [exY]⟩ le_rfl (by norm_num) (Or.inr rfl) h1 h2
    exact ⟨s, u, G, h1, h2, h3, (h4 1 one_pos).mpr (apart_of_ne fun _ => one_ne_zero)⟩
  · obtain ⟨s, u, h1, h2⟩ := ex_ma_state srt k (q := 1) (by norm_num)
    obtain ⟨G, -, h3, h4⟩ := C68_carma_negation le_rfl exT_mono ⟨0, 1, by simp [exY]⟩ le_rfl le_rfl (by norm_num) h1 h2
    exact ⟨s, u, G, h1, h2, h3, (h4 1 one_pos).2 (by norm_num)⟩

/-- A CAR(1) run on any three values and errors. -/
theorem ex_one_state (srt : List ℝ → List ℕ) (k : ℕ) {y : Fin 3 → ℝ} (e : Fin 3 → ℝ) (hy : ∃ i j, y i ≠ y j) : ∃ s u,
    car1Sampler srt k (List.ofFn exT) (List.ofFn y) (List.ofFn e) exRng = .ok s ∧ RunState 0 s [] k u := by
  obtain ⟨c, h⟩ := C46_car1_run_returns_any_init srt (by norm_num) exT_mono y e hy 0 0 k 1 [] (r := exRng)
    ⟨fun _ => by norm_num [exRng], fun _ => by norm_num [exRng], fun _ => by norm_num [exRng]⟩ (fun k => ⟨0, by norm_num, by simp [exRng]⟩)
  obtain ⟨s, h1, h⟩ := bind_ok_inv h
  obtain ⟨s', h2, h⟩ := bind_ok_inv h
  obtain ⟨u, h3⟩ := run_state h2
  have e : k + 1 * 0 = k := by ring
  rw [e] at h3
  exact ⟨s, u, h1, h3⟩

/-- Measurements without error whose values differ. -/
theorem ex_apart (T : ℝ) : ErrorsApart exY (fun _ => 0) T := Or.inr ⟨0, 1, rfl, rfl, by simp [exY]⟩

/-- Two measurements of the value 1 without error and a third of the value 0 with error 1. -/
theorem ex_not_apart : ¬ ErrorsApart ![1, 1, 0] ![0, 0, 1] 1 := by
  classical
  rintro (h | ⟨i, j, h1, h2, h3⟩)
  · have : ({0, 1} : Finset (Fin 3)) ⊆ Finset.univ.filter fun i => (![0, 0, 1] : Fin 3 → ℝ) i = 0 := by
      intro i hi
      fin_cases i <;> simp_all
    have h2 : (2 : ℝ) ≤ _ := Nat.cast_le.mpr (Finset.card_le_card this)
    convert absurd (h2.trans_lt (by convert h)) _
    norm_num
  · fin_cases i <;> fin_cases j <;> simp at h1 h2 h3

/-- CAR(1) runs on three values: with measurement errors 1 and with no measurement error the densities are proper; with the value 1 measured
twice without error the density has infinite mass. -/
example (srt : List ℝ → List ℕ) (k : ℕ) : (∃ (s u : Samp Car1 4) (G : LogTarget 4),
      car1Sampler srt k (List.ofFn exT) (List.ofFn exY) (List.ofFn fun _ : Fin 3 => (1 : ℝ)) exRng = .ok s ∧
      RunState 0 s [] k u ∧ (∀ c ∈ u.chains, Evaluates c.obj G) ∧ IsProper G (1 / 2)) ∧
    (∃ (s u : Samp Car1 4) (G : LogTarget 4),
      car1Sampler srt k (List.ofFn exT) (List.ofFn exY) (List.ofFn fun _ : Fin 3 => (0 : ℝ)) exRng = .ok s ∧
      RunState 0 s [] k u ∧ (∀ c ∈ u.chains, Evaluates c.obj G) ∧ IsProper G 1) ∧
    ∃ (s u : Samp Car1 4) (G : LogTarget 4),
      car1Sampler srt k (List.ofFn exT) (List.ofFn ![1, 1, 0]) (List.ofFn ![0, 0, 1]) exRng = .ok s ∧
      RunState 0 s [] k u ∧ (∀ c ∈ u.chains, Evaluates c.obj G) ∧ mass G 1 = ∞ := by
  refine ⟨?_, ?_, ?_⟩
  · obtain ⟨s, u, h1, h3⟩ := ex_one_state srt k (fun _ => 1) (y := exY) ⟨0, 1, by simp [exY]⟩
    obtain ⟨G, -, h4, h5⟩ := C68_car1_proper_partial le_rfl exT_mono ⟨0, 1, by simp [exY]⟩ h1 h3
    exact ⟨s, u, G, h1, h3, h4, (h5 _ (by norm_num)).mpr (apart_of_ne fun _ => one_ne_zero)⟩
  · obtain ⟨s, u, h1, h3⟩ := ex_one_state srt k (fun _ => 0) (y := exY) ⟨0, 1, by simp [exY]⟩
    obtain ⟨G, -, h4, h5⟩ := C68_car1_proper_partial le_rfl exT_mono ⟨0, 1, by simp [exY]⟩ h1 h3
    exact ⟨s, u, G, h1, h3, h4, (h5 1 one_pos).mpr (ex_apart 1)⟩
  · obtain ⟨s, u, h1, h3⟩ := ex_one_state srt k ![0, 0, 1] (y := ![1, 1, 0]) ⟨0, 2, by simp⟩
    obtain ⟨G, -, h4, h5⟩ := C68_car1_negation le_rfl exT_mono ⟨0, 2, by simp⟩ h1 h3
    exact ⟨s, u, G, h1, h3, h4, h5 1 one_pos ex_not_apart⟩

/-- CAR(2) runs: without measurement errors the density is proper; with the value 1 measured twice without error it has infinite mass. -/
example (srt : List ℝ → List ℕ) (k : ℕ) : (∃ (s u : Samp (CarP 2) (nParams 2 0 false)) (G : LogTarget (nParams 2 0 false)),
      carmaSampler srt 0 k (List.ofFn exT) (List.ofFn exY) (List.ofFn fun _ : Fin 3 => (0 : ℝ)) 2 0 2 false 1 exRng = .ok s ∧
      RunState 0 s (exθ ++ []) k u ∧ (∀ c ∈ u.chains, Evaluates c.obj G) ∧ IsProper G 1) ∧
    ∃ (s u : Samp (CarP 2) (nParams 2 0 false)) (G : LogTarget (nParams 2 0 false)),
      carmaSampler srt 0 k (List.ofFn exT) (List.ofFn ![1, 1, 0]) (List.ofFn ![0, 0, 1]) 2 0 2 false 1 exRng = .ok s ∧
      RunState 0 s (exθ ++ []) k u ∧ (∀ c ∈ u.chains, Evaluates c.obj G) ∧ mass G 1 = ∞ := by
  constructor
  · obtain ⟨s, u, h1, h2⟩ := ex_ma_states_of srt k (q := 0) (by norm_num) two_pos (y := exY) (fun _ => 0) ⟨0, 1, by simp [exY]⟩ (by
      rw [ex_popVariance]
      have : (1 / 10 : ℝ) ≤ √(2 / 3) := Real.le_sqrt_of_sq_le (by norm_num)
      linarith)
    obtain ⟨G, -, h3, h4⟩ := C68_car_proper_partial le_rfl exT_mono ⟨0, 1, by simp [exY]⟩ le_rfl (by norm_num) (Or.inr rfl) h1 h2
    exact ⟨s, u, G, h1, h2, h3, (h4 1 one_pos).mpr (ex_apart 1)⟩
  · obtain ⟨s, u, h1, h2⟩ := ex_ma_states_of srt k (q := 0) (by norm_num) two_pos (y := ![1, 1, 0]) ![0, 0, 1] ⟨0, 2, by simp⟩ (by
      have : (1 / 10 : ℝ) ≤ √(popVariance ![(1 : ℝ), 1, 0]) := Real.le_sqrt_of_sq_le (by
        simp only [popVariance, Fin.sum_univ_three, Matrix.cons_val]
        norm_num)
      linarith)
    obtain ⟨G, -, h3, h4⟩ := C68_car_negation le_rfl exT_mono ⟨0, 2, by simp⟩ le_rfl (by norm_num) (Or.inr rfl) h1 h2
    exact ⟨s, u, G, h1, h2, h3, h4 1 one_pos ex_not_apart⟩

end Verif.Props
