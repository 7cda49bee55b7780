import Verif.Theory.Start1
import Verif.Props.Examples
import Verif.Props.Toy

/-!
C46: the run functions return on sensible input, and fail on constant data.
-/

namespace Verif.Props

open Verif.Model Verif.Spec Verif.Theory

lemma isFin_inv {v : Dbl} (h : v.isFin) : ∃ x, v = .fin x := by
  cases v with
  | fin x => exact ⟨x, rfl⟩
  | _ => cases h

lemma new_time {time y yerr : List ℝ} {b : CarBase} (h : CarBase.new time y yerr = .ok b) : b.time = time := by
  unfold CarBase.new CarBase.setPrior at h
  obtain ⟨_, -, h⟩ := bind_ok_inv h
  obtain ⟨_, -, h⟩ := bind_ok_inv h
  obtain ⟨_, -, h⟩ := bind_ok_inv h
  obtain ⟨_, -, h⟩ := bind_ok_inv h
  injection h with h
  rw [← h]

variable {n : ℕ} {t : Fin n → ℝ}

open scoped Classical in
/-- **C46, CARp, CARMA, ZCAR.** For strictly increasing times, values not all equal, `p ≥ 2`, `q < p`, at least one walker, an initial vector
of the right length inside the prior bounds (with `theta(0) ≠ 0`, or all errors nonzero), and Student draws that are not all zero within
a proposal, `RunCarmaSampler` ends without a fault, for all sample sizes, burn-ins, thinning intervals and other random numbers. -/
theorem C46_carma_run_returns (srt : List ℝ → List ℕ) (hn : 2 ≤ n) (ht : StrictMono t) (y e : Fin n → ℝ) (hy : ∃ i j, y i ≠ y j)
    {p q : ℕ} (hp : 2 ≤ p) (z : Bool) (hq : z = true ∨ q < p) {nw : ℕ} (hw : 1 ≤ nw) (fuel N burnin thin : ℕ) {init : List ℝ}
    (hl : init.length = nParams p q z) {roots : List ℂ} (hr : arRoots p init = .ok roots) {dmin span : ℝ} (h1 : IsMinGap t dmin)
    (h2 : IsSpan t span) (hb : CarpBounds (10 * √(popVariance y)) (1 / dmin) (1 / span) roots init)
    (he : at0 init 0 ≠ 0 ∨ ∀ i, e i ≠ 0) {r : Rng} (hs : Blocks (nParams p q z) r.stud) :
    ∃ c, runCarmaSampler fuel srt N burnin (List.ofFn t) (List.ofFn y) (List.ofFn e) p q nw z thin init r = .ok c := by
  have hv := popVar_eq (show 0 < n by omega) y
  have h0 := popVar_pos (show 0 < n by omega) hy
  obtain ⟨o, b, dmin', span', g1, g2, g3, g4, g5, g6, g7, g8⟩ := run_solid (q := q) srt hn ht y e hp z hq (10 * √(popVariance y))
  obtain rfl := h1.unique g4
  obtain rfl := h2.unique g5
  have hlen : 0 < (List.ofFn y).length := by simp; omega
  obtain ⟨s, hS⟩ := carmaSampler_total N burnin thin r hv h0 hlen g1 hw
  have hB := carmaSampler_inv hS
  have hfit := carma_fit hB hv h0 hlen g1 g2 hs
  have hkind : o.kind = runKind q z := (new_config g1).1
  have hT := carp_total hp (show 0 < n by omega) ht g3
  have hnp : npar p ({ o with b := b } : CarP p).kind = nParams p q z := by
    show npar p o.kind = _
    rw [hkind, npar_runKind]
  rw [hnp] at hT
  have hst : Starts (CarP.Core { o with b := b }) (nParams p q z) fuel (if init.length = nParams p q z then some init else none) (fun r' => r' = r) := by
    rw [if_pos hl]
    rintro a r' ha rfl
    obtain ⟨a1, v, k1, k2⟩ := hT.ld a init ha hl
    obtain ⟨lo, hi, hlo, hlh, hkap⟩ := g3.kap
    have hpos : 0 < at0 init 1 := by have := hb.err_lo; linarith
    obtain ⟨roots', hr', hg⟩ := rootsFrom_spec init 3 p (by
      have := npar_ge (p := p) (runKind q z)
      rw [npar_runKind] at this; omega)
    cases hr.symm.trans hr'
    have hnd := bounds_nodup hg hb
    have hc : CarP.checkPrior ({ o with b := b } : CarP p).b p ({ o with b := b } : CarP p).orderLor init = .ok true := by
      rw [g3.lor]
      have := carp_check g7 g8 g3.ign (p := p) (θ := init) (by have := npar_ge (p := p) (runKind q z); rw [npar_runKind] at this; omega) hr
      rw [this]
      congr 1
      exact decide_eq_true (by rw [g6]; exact hb)
    obtain ⟨ma, -, -, -, a', k3, k4⟩ := carp_value hp (show 0 < n by omega) ht (CarP.Ok.of_core g3.k ha) g3.time g3.y g3.yerr g3.ma g3.order hlo hlh
      hkap (θ := init) (by rw [hnp]; omega) hc hpos he hr hnd
    obtain ⟨a2, k5⟩ := CarP.setStart_exact (CarP.cored.left (CarP.cored.symm _ _ ha)) fuel (init := init)
      (by rw [← ha.kind]; show _ = CarP.thetaLen p o.kind; rw [hkind, thetaLen_runKind]; exact hl) k4 r'
    refine ⟨a2, init, r', k5, ?_, hl, rfl⟩
    exact CarP.cored.trans _ _ _ ha (CarP.setStart_core fuel (CarP.cored.left (CarP.cored.symm _ _ ha)) k5).1
  obtain ⟨s', h3, h4⟩ := run_total hT hfit (N := N) (burnin := burnin) (thin := thin) (R := fun r' => r' = r) hB.rng
    (fun r' hr' => by rw [hr']; exact hs) hst
    (by obtain ⟨_, a, -, -, h⟩ := hB.steps; rw [h]; simp)
    (by rw [hB.tracked, hB.length]; simp; omega)
  unfold runCarmaSampler
  simp only [hS, h3, res_bind_ok]
  rw [rdU_ok (List.getElem?_eq_getElem (show 0 < s'.chains.length by rw [h4, hB.length]; omega))]
  exact ⟨_, rfl⟩

/-- A CAR(1) run returns if the calls for starting values do. -/
lemma car1_run_of_starts (srt : List ℝ → List ℕ) (hn : 2 ≤ n) (ht : StrictMono t) (y e : Fin n → ℝ) (hy : ∃ i j, y i ≠ y j)
    (fuel N burnin thin : ℕ) (init : List ℝ) {r : Rng} {R : Rng → Prop} (hR : R r) (hRb : ∀ r, R r → Blocks 4 r.stud)
    (hst : ∀ o b, Car1.new srt (List.ofFn t) (List.ofFn y) (List.ofFn e) = .ok o → o.b.setPrior (10 * √(popVariance y)) = .ok b →
      Starts (Car1.Core { o with b := b }) 4 fuel (if init.length = 4 then some init else none) R) :
    ∃ c, runCar1Sampler fuel srt N burnin (List.ofFn t) (List.ofFn y) (List.ofFn e) thin init r = .ok c := by
  have hv := popVar_eq (show 0 < n by omega) y
  have h0 := popVar_pos (show 0 < n by omega) hy
  obtain ⟨o, b, dmin', span', g1, g1', g2, g3, g4, g5, g6, g7, g8⟩ := run_solid1 srt hn ht y e (10 * √(popVariance y))
  have hlen : 0 < (List.ofFn y).length := by simp; omega
  obtain ⟨s, hS⟩ := car1Sampler_total burnin r hv h0 hlen g1 g1'
  have hB := car1Sampler_inv hS
  have hT := car1_total (show 0 < n by omega) ht g3
  obtain ⟨var', o', b', c1, c2, c3, c4⟩ := hB.chain
  cases hv.symm.trans c1
  cases g1.symm.trans c2
  cases g2.symm.trans c3
  obtain ⟨var', a, d1, d2, d3⟩ := hB.steps
  cases hv.symm.trans d1
  obtain ⟨a', e1, e2, -⟩ := ramNew_total (d := 4) h0 hlen burnin
  cases e1.symm.trans d2
  have hfit : Fit (Car1.Core { o with b := b }) s := by
    refine ⟨fun c hc => ?_, fun c hc => ?_, fun st hst => ?_, by rw [hB.rng]; exact hRb r hR⟩
    · rw [c4, List.mem_singleton] at hc
      rw [hc]; exact g3.core
    · rw [c4, List.mem_singleton] at hc
      rw [hc]; simp [Par.new]
    · rw [d3, List.mem_singleton] at hst
      rw [hst, c4]
      exact (⟨one_pos, e2⟩ : 0 < 1 ∧ GoodRam a)
  obtain ⟨s', h3, h4⟩ := run_total hT hfit (N := N) (burnin := burnin) (thin := thin) (R := R) (by rw [hB.rng]; exact hR)
    hRb (hst o b g1 g2) (by rw [d3]; simp) (by rw [hB.tracked, c4]; simp)
  unfold runCar1Sampler
  simp only [hS, h3, res_bind_ok]
  rw [rdU_ok (List.getElem?_eq_getElem (show 0 < s'.chains.length by rw [h4, c4]; simp))]
  exact ⟨_, rfl⟩

open scoped Classical in
/-- **C46, CAR(1), good initial vector.** -/
theorem C46_car1_run_returns (srt : List ℝ → List ℕ) (hn : 2 ≤ n) (ht : StrictMono t) (y e : Fin n → ℝ) (hy : ∃ i j, y i ≠ y j)
    (fuel N burnin thin : ℕ) {init : List ℝ} (hl : init.length = 4) {dmin span : ℝ} (h1 : IsMinGap t dmin)
    (h2 : IsSpan t span) (hb : Car1Bounds (10 * √(popVariance y)) (1 / dmin) (1 / span) init)
    (he : at0 init 0 ≠ 0 ∨ ∀ i, e i ≠ 0) {r : Rng} (hs : Blocks 4 r.stud) :
    ∃ c, runCar1Sampler fuel srt N burnin (List.ofFn t) (List.ofFn y) (List.ofFn e) thin init r = .ok c := by
  refine car1_run_of_starts srt hn ht y e hy fuel N burnin thin init (R := fun r' => r' = r) rfl (fun r' hr' => by rw [hr']; exact hs)
    fun o b k1 k2 => ?_
  obtain ⟨o', b', dmin', span', g1, g1', g2, g3, g4, g5, g6, g7, g8⟩ := run_solid1 srt hn ht y e (10 * √(popVariance y))
  obtain rfl := h1.unique g4
  obtain rfl := h2.unique g5
  cases g1.symm.trans k1
  cases g2.symm.trans k2
  have hpos : 0 < at0 init 1 := by have := hb.err_lo; linarith
  rw [if_pos hl]
  rintro a r' ha rfl
  have hc : Car1.checkPrior b init = .ok true := by
    rw [car1_check g7 g8 (by omega)]
    congr 1
    exact decide_eq_true (by rw [g6]; exact hb)
  obtain ⟨a1, -, k4⟩ := (car1_ld_true (s := a) (b := b) (y := ext0 y) (e := ext0 e) ⟨ha.1.symm, g3.k.of_time ha.2⟩ (by omega) le_rfl
    (fun i hi => strictMono_ext0 ht i hi) g3.time (by rw [← ofFn_eq_rangeMap]; exact g3.y)
    (by rw [← ofFn_eq_rangeMap]; exact g3.yerr) (by omega) hc).1 rfl
  rw [likVal, if_neg, priorVal_pos hpos, Dbl.add] at k4
  · obtain ⟨a2, k5⟩ := Car1.setStart_exact (Car1.cored.left (Car1.cored.symm _ _ ha)) hl k4 r'
    exact ⟨a2, init, r', k5, Car1.cored.trans _ _ _ ha (Car1.setStart_core (Car1.cored.left (Car1.cored.symm _ _ ha)) k5), hl, rfl⟩
  · rintro ⟨h0, i, hi, hi0⟩
    rcases he with he | he
    · exact he h0
    · rw [ext0_of_lt e hi, mul_eq_zero] at hi0
      rcases hi0 with hi0 | hi0
      · exact (Real.sqrt_pos.mpr hpos).ne' hi0
      · exact he _ hi0

/-- **C46, CAR(1), any initial vector.** With draws in the ranges of their distributions and Student draws that are not all zero within a
proposal, `RunCar1Sampler` returns for strictly increasing times and values not all equal, whatever the initial vector. -/
theorem C46_car1_run_returns_any_init (srt : List ℝ → List ℕ) (hn : 2 ≤ n) (ht : StrictMono t) (y e : Fin n → ℝ) (hy : ∃ i j, y i ≠ y j)
    (fuel N burnin thin : ℕ) (init : List ℝ) {r : Rng} (hr : r.Ok) (hs : Blocks 4 r.stud) :
    ∃ c, runCar1Sampler fuel srt N burnin (List.ofFn t) (List.ofFn y) (List.ofFn e) thin init r = .ok c := by
  refine car1_run_of_starts srt hn ht y e hy fuel N burnin thin init (R := fun r => r.Ok ∧ Blocks 4 r.stud) ⟨hr, hs⟩ (fun r h => h.2)
    fun o b k1 k2 => ?_
  obtain ⟨o', b', dmin, span, g1, g1', g2, g3, g4, g5, g6, g7, g8⟩ := run_solid1 srt hn ht y e (10 * √(popVariance y))
  cases g1.symm.trans k1
  cases g2.symm.trans k2
  have htime : b.time = List.ofFn t := by
    rw [setPrior_again g1'] at g2
    injection g2 with g2
    rw [← g2]
    exact (new_time g1' : o.b.time = _)
  have hstart : ∀ a r, Car1.Core { o with b := b } a → r.Ok ∧ Blocks 4 r.stud → ∃ a' θ r', a.start r = .ok (a', θ, r') ∧
      Car1.Core { o with b := b } a' ∧ θ.length = 4 ∧ r'.Ok ∧ Blocks 4 r'.stud := by
    intro a r ha ⟨hr, hs⟩
    obtain ⟨a', med, sd, scale, mu, -, -, k⟩ := car1_start_total hn ht g3 htime g7 ha (hr.chi2 0) (hr.chi2 1) (hr.unif 0).1
    exact ⟨a', _, _, k, Car1.cored.trans _ _ _ ha (Car1.start_core (Car1.cored.left (Car1.cored.symm _ _ ha)) k), rfl,
      ⟨fun k => hr.unif _, fun k => hr.chi2 _, hr.randu⟩, hs⟩
  split
  · rename_i hl
    intro a r ha hR
    obtain ⟨a1, v, m1, m2⟩ := (car1_total (show 0 < n by omega) ht g3).ld a init ha hl
    by_cases hv : v.isFin
    · obtain ⟨x, rfl⟩ := isFin_inv hv
      obtain ⟨a2, k5⟩ := Car1.setStart_exact (Car1.cored.left (Car1.cored.symm _ _ ha)) hl m1 r
      exact ⟨a2, init, r, k5, Car1.cored.trans _ _ _ ha (Car1.setStart_core (Car1.cored.left (Car1.cored.symm _ _ ha)) k5), hl, hR⟩
    · obtain ⟨a2, θ, r', k5, k6⟩ := hstart a1 r m2 hR
      refine ⟨a2, θ, r', ?_, k6⟩
      show Car1.setStart a init r = _
      have m1' : logDensity a init = .ok (a1, v) := m1
      unfold Car1.setStart
      simp only [hl, ne_eq, not_true, if_false, m1', res_bind_ok, hv, not_false_eq_true, if_true]
      exact k5
  · intro a r ha hR
    exact hstart a r ha hR

/-- **C46, constant data.** If all values are equal both run functions end with the exception of `arma::chol`, whatever else they are given:
the initial proposal covariance has zeros on its diagonal. -/
theorem C46_constant_values_fail (srt : List ℝ → List ℕ) (hn : 2 ≤ n) (ht : StrictMono t) (y e : Fin n → ℝ) (hy : ∀ i j, y i = y j)
    (fuel N burnin thin : ℕ) (init : List ℝ) (r : Rng) :
    runCar1Sampler fuel srt N burnin (List.ofFn t) (List.ofFn y) (List.ofFn e) thin init r = .error .runtime ∧
    ∀ p q nw z, 2 ≤ p → (z = true ∨ q < p) → 1 ≤ nw →
      runCarmaSampler fuel srt N burnin (List.ofFn t) (List.ofFn y) (List.ofFn e) p q nw z thin init r = .error .runtime := by
  have hv := popVar_eq (show 0 < n by omega) y
  rw [popVar_const (by omega) hy] at hv
  have hram : ∀ d : ℕ, 0 < d → Ram.new (propCovar d 0 (List.ofFn y).length) 0.25 burnin = .error .runtime := by
    intro d hd
    unfold Ram.new cholDiag
    rw [if_pos ⟨⟨0, hd⟩, by simp [propCovar]⟩]
    rfl
  constructor
  · obtain ⟨o, b, -, -, g1, g1', g2, -⟩ := run_solid1 srt hn ht y e (10 * √0)
    unfold runCar1Sampler car1Sampler
    simp only [hv, g1, g2, res_bind_ok, hram 4 (by omega)]
    rfl
  · intro p q nw z hp hq hw
    obtain ⟨o, b, -, -, g1, g2, -⟩ := run_solid (q := q) srt hn ht y e hp z hq (10 * √0)
    obtain ⟨l, hl⟩ := ensemble_total (n := nw) g1 g2 nw
    have hlen := (ensemble_inv hl).1
    have hd := hram (nParams p q z) (by unfold nParams; split <;> omega)
    unfold runCarmaSampler carmaSampler
    simp only [hv, hl, res_bind_ok]
    obtain ⟨m, hm⟩ : ∃ m, nw - 1 = m := ⟨_, rfl⟩
    rw [hm]
    cases m with
    | zero =>
        simp only [temperedSteps, res_bind_ok]
        rw [rdU_ok (List.getElem?_eq_getElem (show 0 < l.length by omega))]
        simp only [res_bind_ok, hd]
        rfl
    | succ m =>
        simp only [temperedSteps, hd]
        rfl

lemma ex_popVariance : popVariance exY = 2 / 3 := by
  simp [popVariance, exY, Fin.sum_univ_three]; norm_num

lemma ex_run_bounds : ∃ roots, arRoots 2 exθ = .ok roots ∧ CarpBounds (10 * √(popVariance exY)) (1 / 1) (1 / 10) roots exθ := by
  refine ⟨_, ex_roots (by simp [exθ]) (by simp [exθ, at0]) (by simp [exθ, at0]), ?_⟩
  have := ex_bounds (θ := exθ) (by simp [exθ, at0]) (by simp [exθ, at0])
  rw [ex_popVariance, one_div_one]
  have hs : (1 : ℝ) ≤ 10 * √(2 / 3) := by
    have : (1 / 10 : ℝ) ≤ √(2 / 3) := Real.le_sqrt_of_sq_le (by norm_num)
    linarith
  exact { this with sd_hi := by simpa [exθ, at0] using hs }

lemma ex_gap : IsMinGap exT 1 ∧ IsSpan exT 10 := by
  obtain ⟨dmin, b, g1, -, g3, -⟩ := base_fresh (by norm_num) exT_mono exY exT
  exact ⟨exT_gap g1 ▸ g1, exT_span g3 ▸ g3⟩

/-- The hypotheses of the theorem on CARp runs can be met: a run of a CAR(2) sampler with two walkers on three points, whatever the sorting
function, the number of samples, the burn-in and the thinning. -/
theorem ex_carma_run (srt : List ℝ → List ℕ) (fuel N burnin thin : ℕ) : ∃ c, runCarmaSampler fuel srt N burnin (List.ofFn exT) (List.ofFn exY)
    (List.ofFn exT) 2 0 2 false thin exθ exRng = .ok c := by
  obtain ⟨roots, h1, h2⟩ := ex_run_bounds
  exact C46_carma_run_returns srt (by norm_num) exT_mono exY exT ⟨0, 1, by simp [exY]⟩ le_rfl false (Or.inr (by norm_num)) (by norm_num)
    fuel N burnin thin (by simp [exθ, nParams]) h1 ex_gap.1 ex_gap.2 h2 (Or.inl (by simp [at0, exθ]))
    (fun k => ⟨0, by simp [nParams], by simp [exRng]⟩)

example (srt : List ℝ → List ℕ) (fuel N burnin thin : ℕ) : ∃ c, runCarmaSampler fuel srt N burnin (List.ofFn exT) (List.ofFn exY)
    (List.ofFn exT) 2 0 2 false thin exθ exRng = .ok c := ex_carma_run srt fuel N burnin thin

lemma ex_car1_run_bounds : Car1Bounds (10 * √(popVariance exY)) (1 / 1) (1 / 10) [1, 1, 0, -1] := by
  have := ex_car1_bounds ex_gap.1 ex_gap.2
  rw [ex_popVariance]
  have hs : (1 : ℝ) ≤ 10 * √(2 / 3) := by
    have : (1 / 10 : ℝ) ≤ √(2 / 3) := Real.le_sqrt_of_sq_le (by norm_num)
    linarith
  exact { this with sd_hi := by simpa [at0] using hs }

/-- The same for CAR(1). -/
theorem ex_car1_run (srt : List ℝ → List ℕ) (fuel N burnin thin : ℕ) : ∃ c, runCar1Sampler fuel srt N burnin (List.ofFn exT) (List.ofFn exY)
    (List.ofFn exT) thin [1, 1, 0, -1] exRng = .ok c :=
  C46_car1_run_returns srt (by norm_num) exT_mono exY exT ⟨0, 1, by simp [exY]⟩ fuel N burnin thin rfl ex_gap.1 ex_gap.2
    ex_car1_run_bounds (Or.inl (by simp [at0])) (fun k => ⟨0, by norm_num, by simp [exRng]⟩)

example (srt : List ℝ → List ℕ) (fuel N burnin thin : ℕ) : ∃ c, runCar1Sampler fuel srt N burnin (List.ofFn exT) (List.ofFn exY)
    (List.ofFn exT) thin [1, 1, 0, -1] exRng = .ok c := ex_car1_run srt fuel N burnin thin

/-- Draws in range; an empty initial vector. -/
example (srt : List ℝ → List ℕ) (fuel N burnin thin : ℕ) : ∃ c, runCar1Sampler fuel srt N burnin (List.ofFn exT) (List.ofFn exY)
    (List.ofFn exT) thin [] exRng = .ok c :=
  C46_car1_run_returns_any_init srt (by norm_num) exT_mono exY exT ⟨0, 1, by simp [exY]⟩ fuel N burnin thin []
    ⟨fun _ => by norm_num [exRng], fun _ => by norm_num [exRng], fun _ => by norm_num [exRng]⟩ (fun k => ⟨0, by norm_num, by simp [exRng]⟩)

/-- Constant data: three points of value 5. -/
example : ∀ i j : Fin 3, (fun _ => 5 : Fin 3 → ℝ) i = (fun _ => 5 : Fin 3 → ℝ) j := fun _ _ => rfl

end Verif.Props
