import Verif.Theory.IntRun
import Verif.Props.Run

/-!
C70: the run functions at `int` arguments.
-/

namespace Verif.Spec

/-- The values of an `int` of 32 bits. -/
def IsInt (z : ℤ) : Prop := -2 ^ 31 ≤ z ∧ z < 2 ^ 31

end Verif.Spec

namespace Verif.Props

open Verif.Model Verif.Spec Verif.Theory
open scoped Classical

lemma fits_of {N burnin thin : ℤ} (h1 : IsInt (thin * N)) (h2 : IsInt (burnin + thin * N)) : Fits N burnin thin := by
  obtain ⟨a, b⟩ := h1
  obtain ⟨c, e⟩ := h2
  norm_num at a b c e
  exact ⟨a, by omega, c, by omega⟩

lemma of_fits {N burnin thin : ℤ} (h : Fits N burnin thin) : IsInt (thin * N) ∧ IsInt (burnin + thin * N) := by
  obtain ⟨a, b, c, e⟩ := h
  exact ⟨⟨by norm_num; exact a, by norm_num; omega⟩, by norm_num; exact c, by norm_num; omega⟩

lemma int_le {z : ℤ} (h : IsInt z) : z ≤ 2147483647 := by
  have := h.2
  norm_num at this
  omega

lemma finish_rel {μ : Type} {d : ℕ} {s' : SampI μ d} {t' : Samp μ d} (h : t'.chains = s'.chains) :
    ResRel (fun (a : Par μ × List Line) b => b = a.1) (do let c ← rdU s'.chains 0; return (c, s'.out)) (rdU t'.chains 0) := by
  rw [h]
  unfold rdU
  cases s'.chains[0]? with
  | none => exact ResRel.err _
  | some c => exact (rfl : c = c)

lemma map_of_rel {α β : Type} {x : Res (α × β)} {y : Res α} (h : ResRel (fun a b => b = a.1) x y) : x.map Prod.fst = y := by
  cases x with
  | error e => cases y with
    | error f => exact congrArg Except.error (h : e = f)
    | ok b => exact h.elim
  | ok a => cases y with
    | error f => exact h.elim
    | ok b => exact congrArg Except.ok (h : b = a.1).symm

/-- **C70, CARp, CARMA, ZCAR.** For `int` arguments with a sample size and a number of walkers that are not negative, when neither the product
`thin * N` nor the sum `burnin + thin * N` leaves the range of `int`, no counter overflows during the run: the function does what it does
with unbounded counters, where a negative burn-in or thinning counts as 0. -/
theorem C70_carma {N burnin nw thin : ℤ} (hb : IsInt burnin) (hN : 0 ≤ N) (hw : 0 ≤ nw) (h1 : IsInt (thin * N)) (h2 : IsInt (burnin + thin * N)) :
    (runCarmaSamplerI fuel srt N burnin time y yerr p q nw z thin init r).map Prod.fst =
      runCarmaSampler fuel srt N.toNat burnin.toNat time y yerr p q nw.toNat z thin.toNat init r := by
  have hf := fits_of h1 h2
  apply map_of_rel
  unfold runCarmaSamplerI runCarmaSampler
  refine ResRel.bind (carmaSampler_rel hf hw N.toNat thin.toNat) ?_
  intro s t h
  refine ResRel.bind (run_rel h fuel hN init (fits_total hf hN (int_le hb))) ?_
  intro s' t' h'
  exact finish_rel h'

/-- **C70, CAR(1).** The same. -/
theorem C70_car1 {N burnin thin : ℤ} (hb : IsInt burnin) (hN : 0 ≤ N) (h1 : IsInt (thin * N)) (h2 : IsInt (burnin + thin * N)) :
    (runCar1SamplerI fuel srt N burnin time y yerr thin init r).map Prod.fst =
      runCar1Sampler fuel srt N.toNat burnin.toNat time y yerr thin.toNat init r := by
  have hf := fits_of h1 h2
  apply map_of_rel
  unfold runCar1SamplerI runCar1Sampler
  refine ResRel.bind (car1Sampler_rel hf) ?_
  intro s t h
  refine ResRel.bind (run_rel h fuel hN init (fits_total hf hN (int_le hb))) ?_
  intro s' t' h'
  exact finish_rel h'

/-- Ten million samples, a burn-in of a million, thinning by a hundred. -/
example : IsInt 1000000 ∧ IsInt (100 * 10000000) ∧ IsInt (1000000 + 100 * 10000000) := by
  refine ⟨⟨by norm_num, by norm_num⟩, ⟨by norm_num, by norm_num⟩, by norm_num, by norm_num⟩

/-- A run with a negative burn-in and a negative thinning returns. -/
lemma exI_run (srt : List ℝ → List ℕ) : ∃ c out, runCarmaSamplerI 0 srt 5 (-3) (List.ofFn exT) (List.ofFn exY) (List.ofFn exT) 2 0 2 false (-2) exθ
    exRng = .ok (c, out) := by
  obtain ⟨c, h⟩ := ex_carma_run srt 0 5 0 0
  have e := C70_carma (fuel := 0) (srt := srt) (time := List.ofFn exT) (y := List.ofFn exY) (yerr := List.ofFn exT) (p := 2) (q := 0) (z := false)
    (init := exθ) (r := exRng) (N := 5) (burnin := -3) (nw := 2) (thin := -2) ⟨by norm_num, by norm_num⟩ (by norm_num) (by norm_num)
    ⟨by norm_num, by norm_num⟩ ⟨by norm_num, by norm_num⟩
  rw [show ((5 : ℤ).toNat = 5) from rfl, show ((-3 : ℤ).toNat = 0) from rfl, show ((2 : ℤ).toNat = 2) from rfl,
    show ((-2 : ℤ).toNat = 0) from rfl, h] at e
  cases hx : runCarmaSamplerI 0 srt 5 (-3) (List.ofFn exT) (List.ofFn exY) (List.ofFn exT) 2 0 2 false (-2) exθ exRng with
  | error f => rw [hx] at e; cases e
  | ok x => exact ⟨x.1, x.2, rfl⟩

/-! ### outside these arguments -/

lemma rel_ok {α β : Type} {R : α → β → Prop} {x : Res α} {y : Res β} (h : ResRel R x y) {a : α} (hx : x = .ok a) : ∃ b, y = .ok b ∧ R a b := by
  subst hx
  cases y with
  | error f => exact h.elim
  | ok b => exact ⟨b, rfl, h⟩

lemma rel_ok' {α β : Type} {R : α → β → Prop} {x : Res α} {y : Res β} (h : ResRel R x y) {b : β} (hy : y = .ok b) : ∃ a, x = .ok a ∧ R a b := by
  subst hy
  cases x with
  | error f => exact h.elim
  | ok a => exact ⟨a, rfl, h⟩

lemma run_negative {μ : Type} [Target μ] {d : ℕ} {s : SampI μ d} {lab : String} (ht : s.tracked = [(lab, 0)]) (hc : 0 < s.chains.length) {N burnin thin : ℤ}
    (hN : N < 0) (fuel : ℕ) (init : List ℝ) : s.run fuel N burnin thin init = .error .bounds := by
  unfold SampI.run
  rw [ht]
  unfold SampI.setSizes SampI.setSizes rdU
  dsimp only [res_bind_ok]
  rw [List.getElem?_eq_getElem hc]
  dsimp only [res_bind_ok]
  rw [if_pos hN]
  rfl

/-- **C70, overflow.** If the product `thin * N` or the sum `burnin + thin * N` is not an `int`, the behaviour of `RunCarmaSampler` is undefined
for all data and models for which a sampler can be built, although the number is needed for a message only. -/
theorem C70_carma_overflow {N burnin nw thin : ℤ} (hw : 0 ≤ nw) (hf : ¬ (IsInt (thin * N) ∧ IsInt (burnin + thin * N)))
    {N' thin' burnin' : ℕ} (hs : carmaSampler srt N' burnin' time y yerr p q nw.toNat z thin' r = .ok s) :
    runCarmaSamplerI fuel srt N burnin time y yerr p q nw z thin init r = .error .ub := by
  unfold carmaSampler at hs
  obtain ⟨var, h1, hs⟩ := bind_ok_inv hs
  obtain ⟨ch, h2, hs⟩ := bind_ok_inv hs
  unfold runCarmaSamplerI carmaSamplerI
  rw [h1]
  dsimp only [res_bind_ok]
  rw [if_neg (by omega)]
  rw [h2]
  dsimp only [res_bind_ok]
  have e := report_ub (N := N) (burnin := burnin) (thin := thin) fun h => hf (of_fits h)
  cases hx : int32 (thin * N) with
  | error f => rw [hx] at e; cases e; rfl
  | ok m => rw [hx] at e; dsimp only [res_bind_ok] at e ⊢; rw [e]; rfl

/-- **C70, overflow, CAR(1).** The same, though `RunCar1Sampler` never uses the number. -/
theorem C70_car1_overflow {N burnin thin : ℤ} (hf : ¬ (IsInt (thin * N) ∧ IsInt (burnin + thin * N))) {burnin' : ℕ}
    (hs : car1Sampler srt burnin' time y yerr r = .ok s) :
    runCar1SamplerI fuel srt N burnin time y yerr thin init r = .error .ub := by
  unfold car1Sampler at hs
  obtain ⟨var, h1, hs⟩ := bind_ok_inv hs
  unfold runCar1SamplerI car1SamplerI
  rw [h1]
  dsimp only [res_bind_ok]
  have e := report_ub (N := N) (burnin := burnin) (thin := thin) fun h => hf (of_fits h)
  cases hx : int32 (thin * N) with
  | error f => rw [hx] at e; cases e; rfl
  | ok m => rw [hx] at e; dsimp only [res_bind_ok] at e ⊢; rw [e]; rfl

/-- Fifty thousand samples with thinning by fifty thousand. -/
example (srt : List ℝ → List ℕ) : runCarmaSamplerI 0 srt 50000 1000 (List.ofFn exT) (List.ofFn exY) (List.ofFn exT) 2 0 2 false 50000 exθ
    exRng = .error .ub := by
  obtain ⟨c, h⟩ := ex_carma_run srt 0 5 7 3
  obtain ⟨s, h1, h⟩ := bind_ok_inv h
  exact C70_carma_overflow (nw := 2) (by norm_num) (fun h => absurd h.1.2 (by norm_num)) h1

example (srt : List ℝ → List ℕ) : runCar1SamplerI 0 srt 50000 1000 (List.ofFn exT) (List.ofFn exY) (List.ofFn exT) 50000 [1, 1, 0, -1]
    exRng = .error .ub := by
  obtain ⟨c, h⟩ := ex_car1_run srt 0 5 7 3
  obtain ⟨s, h1, h⟩ := bind_ok_inv h
  exact C70_car1_overflow (fun h => absurd h.1.2 (by norm_num)) h1

/-- **C70, negative sample size.** If a sampler can be built, the run throws. -/
theorem C70_carma_negative {N burnin nw thin : ℤ} (hN : N < 0) (hw : 0 ≤ nw) (h1 : IsInt (thin * N)) (h2 : IsInt (burnin + thin * N)) {N' thin' : ℕ}
    (hs : carmaSampler srt N' burnin.toNat time y yerr p q nw.toNat z thin' r = .ok s) :
    runCarmaSamplerI fuel srt N burnin time y yerr p q nw z thin init r = .error .bounds := by
  obtain ⟨s', e1, e2⟩ := rel_ok' (carmaSampler_rel (fits_of h1 h2) hw N' thin') hs
  have hB := carmaSampler_inv hs
  unfold runCarmaSamplerI
  rw [e1]
  dsimp only [res_bind_ok]
  rw [run_negative (e2.tracked.symm.trans hB.tracked) (by rw [← e2.chains, hB.length]; exact hB.pos) hN]
  rfl

/-- The same for CAR(1). -/
theorem C70_car1_negative {N burnin thin : ℤ} (hN : N < 0) (h1 : IsInt (thin * N)) (h2 : IsInt (burnin + thin * N))
    (hs : car1Sampler srt burnin.toNat time y yerr r = .ok s) :
    runCar1SamplerI fuel srt N burnin time y yerr thin init r = .error .bounds := by
  obtain ⟨s', e1, e2⟩ := rel_ok' (car1Sampler_rel (fits_of h1 h2)) hs
  have hB := car1Sampler_inv hs
  obtain ⟨-, o, b, -, -, -, hc⟩ := hB.chain
  unfold runCar1SamplerI
  rw [e1]
  dsimp only [res_bind_ok]
  rw [run_negative (e2.tracked.symm.trans hB.tracked) (by rw [← e2.chains, hc]; simp) hN]
  rfl

example (srt : List ℝ → List ℕ) : runCarmaSamplerI 0 srt (-5) 7 (List.ofFn exT) (List.ofFn exY) (List.ofFn exT) 2 0 2 false 3 exθ
    exRng = .error .bounds := by
  obtain ⟨c, h⟩ := ex_carma_run srt 0 5 7 3
  obtain ⟨s, h1, h⟩ := bind_ok_inv h
  exact C70_carma_negative (nw := 2) (by norm_num) (by norm_num) ⟨by norm_num, by norm_num⟩ ⟨by norm_num, by norm_num⟩ h1

/-- **C70, the arguments of runs that return.** The conditions of `C70_carma` hold in every run that returns. -/
theorem C70_carma_domain {N burnin nw thin : ℤ} (h : runCarmaSamplerI fuel srt N burnin time y yerr p q nw z thin init r = .ok x) :
    0 ≤ N ∧ 0 < nw ∧ IsInt (thin * N) ∧ IsInt (burnin + thin * N) := by
  have hw : 0 ≤ nw := by
    by_contra hw
    unfold runCarmaSamplerI carmaSamplerI at h
    obtain ⟨s, h1, h⟩ := bind_ok_inv h
    obtain ⟨var, -, h1⟩ := bind_ok_inv h1
    rw [if_pos (by omega)] at h1
    cases h1
  have hf : Fits N burnin thin := by
    by_contra hf
    unfold runCarmaSamplerI carmaSamplerI at h
    obtain ⟨s, h1, h⟩ := bind_ok_inv h
    obtain ⟨var, -, h1⟩ := bind_ok_inv h1
    rw [if_neg (by omega)] at h1
    obtain ⟨ch, -, h1⟩ := bind_ok_inv h1
    obtain ⟨m, h2, h1⟩ := bind_ok_inv h1
    obtain ⟨m', h3, h1⟩ := bind_ok_inv h1
    have e := report_ub hf
    rw [h2] at e
    dsimp only [res_bind_ok] at e
    rw [h3] at e
    cases e
  obtain ⟨i1, i2⟩ := of_fits hf
  obtain ⟨s, h1, h2⟩ := bind_ok_inv h
  obtain ⟨t, e1, e2⟩ := rel_ok (carmaSampler_rel hf hw 0 0) h1
  have hp := (carmaSampler_inv e1).pos
  refine ⟨?_, by omega, i1, i2⟩
  by_contra hN
  rw [C70_carma_negative (by omega) hw i1 i2 e1] at h
  cases h

/-- The same for CAR(1). -/
theorem C70_car1_domain {N burnin thin : ℤ} (h : runCar1SamplerI fuel srt N burnin time y yerr thin init r = .ok x) :
    0 ≤ N ∧ IsInt (thin * N) ∧ IsInt (burnin + thin * N) := by
  have hf : Fits N burnin thin := by
    by_contra hf
    unfold runCar1SamplerI car1SamplerI at h
    obtain ⟨s, h1, h⟩ := bind_ok_inv h
    obtain ⟨var, -, h1⟩ := bind_ok_inv h1
    obtain ⟨m, h2, h1⟩ := bind_ok_inv h1
    obtain ⟨m', h3, h1⟩ := bind_ok_inv h1
    have e := report_ub hf
    rw [h2] at e
    dsimp only [res_bind_ok] at e
    rw [h3] at e
    cases e
  obtain ⟨i1, i2⟩ := of_fits hf
  obtain ⟨s, h1, h2⟩ := bind_ok_inv h
  obtain ⟨t, e1, e2⟩ := rel_ok (car1Sampler_rel hf) h1
  refine ⟨?_, i1, i2⟩
  by_contra hN
  rw [C70_car1_negative (by omega) i1 i2 e1] at h
  cases h

/-! ### thinning that is not positive -/

lemma thin_zero {μ : Type} [Target μ] {d : ℕ} {s s' : Samp μ d} {lab : String} (ht : (lab, 0) ∈ s.tracked) (hc : 0 < s.chains.length)
    (h : s.run fuel N burnin 0 init = .ok s') {c : Par μ} (h0 : s'.chains[0]? = some c) :
    c.samples.length = N ∧ ∀ k < N, c.samples[k]? = c.samples[0]? ∧ c.logposts[k]? = c.logposts[0]? := by
  obtain ⟨s0, s1, init', -, -, -, -, -, g⟩ := run_spec h
  obtain ⟨c', e1, e2, e3, e4⟩ := g lab 0 ht hc
  rw [h0] at e1
  injection e1 with e1
  subst e1
  refine ⟨e2, fun k hk => ?_⟩
  obtain ⟨t, q, a1, a2, a3, a4⟩ := e4 k hk
  obtain ⟨t', q', b1, b2, b3, b4⟩ := e4 0 (by omega)
  rw [zero_mul] at a1 b1
  rw [a1] at b1
  injection b1 with b1
  subst b1
  rw [a2] at b2
  injection b2 with b2
  subst b2
  exact ⟨a3.trans b3.symm, a4.trans b4.symm⟩

/-- **C70, thinning.** With a thinning that is not positive, every run that returns has recorded the same value `N` times. -/
theorem C70_carma_thin {N burnin nw thin : ℤ} (hb : IsInt burnin) (ht : thin ≤ 0)
    (h : runCarmaSamplerI fuel srt N burnin time y yerr p q nw z thin init r = .ok (c, out)) :
    c.samples.length = N.toNat ∧ ∀ k < N.toNat, c.samples[k]? = c.samples[0]? ∧ c.logposts[k]? = c.logposts[0]? := by
  obtain ⟨hN, hw, h1, h2⟩ := C70_carma_domain h
  have e := C70_carma (fuel := fuel) (srt := srt) (time := time) (y := y) (yerr := yerr) (p := p) (q := q) (z := z) (init := init) (r := r) hb hN hw.le h1 h2
  rw [h, Int.toNat_of_nonpos ht] at e
  replace e : _ = Except.ok c := e.symm
  obtain ⟨s, g1, e⟩ := bind_ok_inv e
  obtain ⟨s', g2, e⟩ := bind_ok_inv e
  have hB := carmaSampler_inv g1
  exact thin_zero (lab := runLabel q z) (by rw [hB.tracked]; simp) (by rw [hB.length]; exact hB.pos) g2 (rdU_inv e)

/-- The same for CAR(1). -/
theorem C70_car1_thin {N burnin thin : ℤ} (hb : IsInt burnin) (ht : thin ≤ 0)
    (h : runCar1SamplerI fuel srt N burnin time y yerr thin init r = .ok (c, out)) :
    c.samples.length = N.toNat ∧ ∀ k < N.toNat, c.samples[k]? = c.samples[0]? ∧ c.logposts[k]? = c.logposts[0]? := by
  obtain ⟨hN, h1, h2⟩ := C70_car1_domain h
  have e := C70_car1 (fuel := fuel) (srt := srt) (time := time) (y := y) (yerr := yerr) (init := init) (r := r) hb hN h1 h2
  rw [h, Int.toNat_of_nonpos ht] at e
  replace e : _ = Except.ok c := e.symm
  obtain ⟨s, g1, e⟩ := bind_ok_inv e
  obtain ⟨s', g2, e⟩ := bind_ok_inv e
  have hB := car1Sampler_inv g1
  obtain ⟨-, o, b, -, -, -, hc⟩ := hB.chain
  exact thin_zero (lab := "CAR(1)") (by rw [hB.tracked]; simp) (by rw [hc]; simp) g2 (rdU_inv e)

/-- the run of `exI_run`: five times the same sample; CAR(1) likewise -/
example (srt : List ℝ → List ℕ) : (∃ c out, runCarmaSamplerI 0 srt 5 (-3) (List.ofFn exT) (List.ofFn exY) (List.ofFn exT) 2 0 2 false (-2) exθ
    exRng = .ok (c, out) ∧ c.samples.length = 5 ∧ c.samples[4]? = c.samples[0]?) ∧
    ∃ c out, runCar1SamplerI 0 srt 5 7 (List.ofFn exT) (List.ofFn exY) (List.ofFn exT) 0 [1, 1, 0, -1] exRng = .ok (c, out) ∧
      c.samples.length = 5 ∧ c.samples[4]? = c.samples[0]? := by
  constructor
  · obtain ⟨c, out, h⟩ := exI_run srt
    have := C70_carma_thin ⟨by norm_num, by norm_num⟩ (by norm_num) h
    exact ⟨c, out, h, this.1, (this.2 4 (by decide)).1⟩
  · obtain ⟨c, h⟩ := ex_car1_run srt 0 5 7 0
    have e := C70_car1 (fuel := 0) (srt := srt) (time := List.ofFn exT) (y := List.ofFn exY) (yerr := List.ofFn exT) (init := [1, 1, 0, -1]) (r := exRng)
      (N := 5) (burnin := 7) (thin := 0) ⟨by norm_num, by norm_num⟩ (by norm_num) ⟨by norm_num, by norm_num⟩ ⟨by norm_num, by norm_num⟩
    rw [show ((5 : ℤ).toNat = 5) from rfl, show ((7 : ℤ).toNat = 7) from rfl, show ((0 : ℤ).toNat = 0) from rfl, h] at e
    cases hx : runCar1SamplerI 0 srt 5 7 (List.ofFn exT) (List.ofFn exY) (List.ofFn exT) 0 [1, 1, 0, -1] exRng with
    | error f => rw [hx] at e; cases e
    | ok x =>
      obtain ⟨c', out⟩ := x
      have := C70_car1_thin ⟨by norm_num, by norm_num⟩ (by norm_num) hx
      exact ⟨c', out, rfl, this.1, (this.2 4 (by decide)).1⟩

end Verif.Props
