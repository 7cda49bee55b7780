import Verif.Theory.FSim1
import Verif.Theory.FConstruct
import Verif.Props.FRun
import Verif.Props.Safety
import Verif.Props.Toy

/-!
The sampler with machine numbers and exact arithmetic is the sampler over the reals: C90.
-/

namespace Verif.Props

open Verif.Model Verif.Spec Verif.Theory
open scoped Classical

/-- **C90, refinement of the sampler.** With exact arithmetic the machine sampler does what the sampler over the reals does, with any number of chains and any
stack of adaptive and exchange steps: burn-in and recording take the same state to the same state, and succeed whenever the sampler over the reals does. -/
theorem C90_exact_sampler {M : Mach} (hM : ExactMach M) {μ ν : Type} [Target μ] [FTarget ν] {d : ℕ} {R : μ → ν → Prop}
    (hT : SameTarget (μ := μ) (ν := ν) d R) {s : Samp μ d} {t : FSamp ν d} (h : SameSamp d R s t) :
    (∀ n s1, s.iterate n = .ok s1 → ∃ t1, t.iterate M n = .ok t1 ∧ SameSamp d R s1 t1) ∧
    ∀ thin N s1, s.sampleLoop thin N = .ok s1 → ∃ t1, t.sampleLoop M thin N = .ok t1 ∧ SameSamp d R s1 t1 :=
  ⟨iterate_sim hM hT h, fun thin => sampleLoop_sim hM hT thin h⟩

/-! ### example -/

/-- exact machine -/
noncomputable def exMach : Mach where
  A := Arith.exact
  pow := fun x y => match x, y with
    | .fin x, .fin y => .fin (x ^ y)
    | _, _ => .nan
  dot := fun l l' => (List.zipWith Dbl.mul l l').foldr Dbl.add (.fin 0)
  norm := fun l => Arith.exact.sqrt ((List.zipWith Dbl.mul l l).foldr Dbl.add (.fin 0))

lemma exMach_dot : ∀ {d : ℕ} (a b : Fin d → ℝ), exMach.dot (List.ofFn fun i => .fin (a i)) (List.ofFn fun i => .fin (b i)) = .fin (∑ i, a i * b i) := by
  intro d
  induction d with
  | zero => intro a b; simp [exMach]
  | succ d ih =>
    intro a b
    have := ih (fun i => a i.succ) (fun i => b i.succ)
    simp only [exMach] at this ⊢
    rw [List.ofFn_succ, List.ofFn_succ, List.zipWith_cons_cons, List.foldr_cons, this, Fin.sum_univ_succ]
    rfl

lemma exMach_exact : ExactMach exMach where
  arith := rfl
  pow := fun _ _ => rfl
  dot := exMach_dot
  norm := fun a => by
    have := exMach_dot a a
    simp only [exMach] at this ⊢
    rw [this, exf_sqrt (not_lt.mpr (Finset.sum_nonneg fun i _ => mul_self_nonneg _))]
    simp only [pow_two]

/-- the toy target with machine numbers -/
structure FToy where
  calls : ℕ

noncomputable instance : FTarget FToy where
  ld A s θ := .ok (⟨s.calls + 1⟩, if θ.length = 1 then A.div (A.mul (A.mul (.fin (-1)) (θ.getD 0 .nan)) (θ.getD 0 .nan)) (.fin 2) else .ninf)
  start _ s r := .ok (s, [.fin 0], r)
  setStart _ s init r := .ok (s, if init.length = 1 then init else [.fin 0], r)
  staleLd _ _ _ := .ok .nan

lemma toy_same : SameTarget (μ := Toy) (ν := FToy) 1 (fun _ _ => True) where
  ld := fun o o' θ o1 v _ hθ e => by
    refine ⟨⟨o'.calls + 1⟩, ?_, trivial⟩
    have e : (Except.ok (⟨o.calls + 1⟩, if θ.length = 1 then .fin (-(θ.getD 0 0) ^ 2 / 2) else .ninf) : Res (Toy × Dbl)) = .ok (o1, v) := e
    rw [if_pos hθ] at e
    injection e with e
    injection e with _ e
    show (Except.ok ((⟨o'.calls + 1⟩ : FToy), if (θ.map Dbl.fin).length = 1 then _ else _) : Res (FToy × Dbl)) = _
    rw [if_pos (by simpa using hθ), ← e]
    obtain ⟨x, rfl⟩ := List.length_eq_one_iff.mp hθ
    show Except.ok (_, Arith.exact.div (Arith.exact.mul (Arith.exact.mul (.fin (-1)) (.fin x)) (.fin x)) (.fin 2)) = _
    rw [exf_mul, exf_mul, exf_div _ (by norm_num)]
    congr 3
    show _ = -x ^ 2 / 2
    ring
  stale := fun _ _ _ _ _ _ _ => ⟨.nan, rfl⟩

lemma toy_swap : (Dbl.fin (1 / 2)).lt (swapProb 10 1 (.fin (-1 ^ 2 / 2)) (.fin (-2 ^ 2 / 2))) := by
  have : swapProb 10 1 (.fin (-1 ^ 2 / 2)) (.fin (-2 ^ 2 / 2)) = .fin 1 := by
    unfold swapProb
    have e : ((Dbl.div (.fin 1) (.fin 10)).mul ((Dbl.fin (-2 ^ 2 / 2)).sub (.fin (-1 ^ 2 / 2)))).add
        ((Dbl.div (.fin 1) (.fin 1)).mul ((Dbl.fin (-1 ^ 2 / 2)).sub (.fin (-2 ^ 2 / 2)))) = .fin (27 / 20) := by
      simp only [Dbl.div, Dbl.sub, Dbl.neg, Dbl.mul, Dbl.add]
      rw [if_neg (by norm_num), if_neg (by norm_num)]
      simp only [Dbl.mul, Dbl.add]
      norm_num
    dsimp only
    rw [e]
    have : Dbl.min (Dbl.fin (27 / 20)).exp (.fin 1) = .fin 1 := by
      unfold Dbl.min
      exact if_pos (show (1 : ℝ) < Real.exp (27 / 20) from Real.one_lt_exp_iff.mpr (by norm_num))
    rw [this]
    exact if_pos trivial
  rw [this]
  show (1 / 2 : ℝ) < 1
  norm_num

/-- two chains of the toy target at 2 and 1 with temperatures 1 and 10, one exchange between them, recorded once: the first chain gets the value of the second -/
example : ∃ t1 : FSamp FToy 1, FSamp.sampleLoop exMach 1
    { chains := [⟨⟨0⟩, [.fin 2], .fin (-2 ^ 2 / 2), .fin 1, [[]], [.nan]⟩, ⟨⟨0⟩, [.fin 1], .fin (-1 ^ 2 / 2), .fin 10, [], []⟩],
      steps := [.exch 1], tracked := 0, rng := ⟨fun _ => .fin (1 / 2), fun _ => .fin 1, fun _ => [], fun _ => .nan⟩ } 1 = .ok t1 ∧
    (t1.chains.map fun c => c.samples) = [[[.fin 1]], []] := by
  obtain ⟨s1, e, hs⟩ : ∃ s1 : Samp Toy 1, Samp.sampleLoop 1
      { chains := [⟨⟨0⟩, [2], .fin (-2 ^ 2 / 2), 1, "", false, [[]], [.nan]⟩, Toy.par 1 10],
        steps := [.exch ⟨1, 0, 0, 0, .nan⟩], tracked := [("", 0)], rng := exRng } 1 = .ok s1 ∧
      (s1.chains.map fun c => c.samples) = [[[1]], []] := by
    obtain ⟨c0, hc0⟩ : ∃ c0 : Par Toy, c0 = ⟨⟨0⟩, [2], .fin (-2 ^ 2 / 2), 1, "", false, [[]], [.nan]⟩ := ⟨_, rfl⟩
    have hx : ∃ e1 c1 r1, Exch.doStep ⟨1, 0, 0, 0, .nan⟩ [c0, Toy.par 1 10] exRng =
        .ok (e1, [{ c0 with value := [1], logpost := .fin (-1 ^ 2 / 2) }, c1], r1) ∧ c1.samples = [] := by
      unfold Exch.doStep
      rw [show rdU [c0, Toy.par 1 10] (Exch.idx ⟨1, 0, 0, 0, .nan⟩) = .ok (Toy.par 1 10) from rfl, res_bind_ok,
        show (if Exch.idx ⟨1, 0, 0, 0, .nan⟩ = 0 then .error .ub else .ok (Exch.idx ⟨1, 0, 0, 0, .nan⟩ - 1) : Res ℕ) = .ok 0 from rfl, res_bind_ok,
        show rdU [c0, Toy.par 1 10] 0 = .ok c0 from rfl, res_bind_ok]
      dsimp only
      have hu : (Dbl.fin exRng.nextU.1).lt (swapProb (Toy.par 1 10).temp c0.temp (Toy.par 1 10).logpost c0.logpost) := by
        rw [hc0]; exact toy_swap
      rw [if_pos hu]
      exact ⟨_, _, _, rfl, rfl⟩
    obtain ⟨e1, c1, r1, hx, hc1⟩ := hx
    rw [← hc0]
    simp only [Samp.sampleLoop, res_bind_ok, Samp.iterate, iter, Samp.sweep, List.length_cons, List.length_nil, Samp.stepLoop, Samp.doStep]
    rw [show rdU [StepSt.exch (d := 1) ⟨1, 0, 0, 0, .nan⟩] 0 = .ok (.exch ⟨1, 0, 0, 0, .nan⟩) from rfl, res_bind_ok]
    dsimp only
    rw [hx, res_bind_ok, hc0]
    exact ⟨_, rfl, by rw [← hc1]; rfl⟩
  obtain ⟨t1, f, h⟩ := (C90_exact_sampler exMach_exact toy_same (t :=
    { chains := [⟨⟨0⟩, [.fin 2], .fin (-2 ^ 2 / 2), .fin 1, [[]], [.nan]⟩, ⟨⟨0⟩, [.fin 1], .fin (-1 ^ 2 / 2), .fin 10, [], []⟩],
      steps := [.exch 1], tracked := 0, rng := ⟨fun _ => .fin (1 / 2), fun _ => .fin 1, fun _ => [], fun _ => .nan⟩ })
    ⟨.cons ⟨trivial, rfl, rfl, rfl, rfl, rfl, rfl⟩ (.cons ⟨trivial, rfl, rfl, rfl, rfl, rfl, rfl⟩ .nil), .cons (.exch _) .nil, ⟨"", rfl⟩,
      fun _ => rfl, fun _ => rfl⟩).2 1 1 s1 e
  refine ⟨t1, f, ?_⟩
  have : ∀ (l : List (Par Toy)) (m : List (FPar FToy)), List.Forall₂ (SamePar 1 fun _ _ => True) l m →
      (m.map fun c => c.samples) = (l.map fun c => c.samples).map fun x => x.map fun θ => θ.map .fin := by
    intro l m hlm
    induction hlm with
    | nil => rfl
    | cons h1 _ ih => rw [List.map_cons, ih, h1.samples]; rfl
  rw [this _ _ h.chains, hs]
  rfl

/-- **C90, refinement of the run.** With exact arithmetic, different times and the same sort, every run of the CAR(1) sampler over the reals that returns is a run of the machine sampler with
the same random variates: it returns the same samples and the same log-densities. -/
theorem C90_exact_run {M : Mach} (hM : ExactMach M) {n : ℕ} (hn : 2 ≤ n) {t : Fin n → ℝ} (ht : Function.Injective t) (y e : Fin n → ℝ)
    {srt : List ℝ → List ℕ} (hsrt : IsSortIndex srt) {srt' : List Dbl → List ℕ} (hs : srt' ((List.ofFn t).map .fin) = srt (List.ofFn t))
    (fuel N burnin thin : ℕ) (init : List ℝ) {r : Rng} {par : Par Car1}
    (h : runCar1Sampler fuel srt N burnin (List.ofFn t) (List.ofFn y) (List.ofFn e) thin init r = .ok par) :
    ∃ r' par', FromStream r r' ∧
      frunCar1 M srt' N burnin ((List.ofFn t).map .fin) ((List.ofFn y).map .fin) ((List.ofFn e).map .fin) thin (init.map .fin) r' = .ok par' ∧
      par'.value = par.value.map .fin ∧ par'.samples = par.samples.map (fun θ => θ.map .fin) ∧ par'.logposts = par.logposts := by
  unfold runCar1Sampler at h
  obtain ⟨s, h1, h⟩ := bind_ok_inv h
  obtain ⟨s1, h2, h⟩ := bind_ok_inv h
  unfold car1Sampler at h1
  rw [popVar_eq (by omega), res_bind_ok] at h1
  dsimp only at h1
  obtain ⟨obj, h3, h1⟩ := bind_ok_inv h1
  obtain ⟨b, h4, h1⟩ := bind_ok_inv h1
  obtain ⟨a, h5, h1⟩ := bind_ok_inv h1
  obtain ⟨s', f, k1, k2, hR⟩ := crel_new_any (ts := List.ofFn t) (ys := List.ofFn y) (es := List.ofFn e) (by simpa using hn) (by simp) (by simp)
    (List.nodup_ofFn.mpr ht) hsrt hs
  rw [h3] at k1
  cases k1
  have hb : b = { obj.b with maxStdev := 10 * √(popVariance y) } := by
    unfold Car1.new at h3
    obtain ⟨b0, h6, h3⟩ := bind_ok_inv h3
    obtain ⟨kf, -, h3⟩ := bind_ok_inv h3
    cases h3
    have := setPrior_again h6 (10 * √(popVariance y))
    rw [h4] at this
    injection this
  have hset := C89_exact (n := n) (by omega) y 4 0.25 burnin
  rw [List.length_ofFn] at h5
  rw [h5] at hset
  unfold FRun.setup at hset
  obtain ⟨l, hl, hset⟩ := bind_ok_inv hset
  have hset' : (Except.ok (FRun.maxStdev Arith.exact ((List.ofFn y).map .fin), l) : Res (Dbl × List Dbl)) =
    .ok (.fin (10 * √(popVariance y)), List.ofFn fun i => .fin (a.chol i i)) := hset
  injection hset' with hset'
  injection hset' with m1 m2
  have hnew : FCar1.new Arith.exact srt' ((List.ofFn t).map .fin) ((List.ofFn y).map .fin) ((List.ofFn e).map .fin) (.fin (10 * √(popVariance y))) =
      .ok { f with maxStdev := .fin (10 * √(popVariance y)) } := by
    unfold FCar1.new at k2 ⊢
    obtain ⟨x1, g1, k2⟩ := bind_ok_inv k2
    obtain ⟨x2, g2, k2⟩ := bind_ok_inv k2
    obtain ⟨x3, g3, k2⟩ := bind_ok_inv k2
    obtain ⟨x4, g4, k2⟩ := bind_ok_inv k2
    obtain ⟨x5, g5, k2⟩ := bind_ok_inv k2
    injection k2 with k2
    subst k2
    rw [g1, res_bind_ok, g2, res_bind_ok, g3, res_bind_ok, g4, res_bind_ok, g5]
    rfl
  have hRel : CRel n { obj with b := b } { f with maxStdev := .fin (10 * √(popVariance y)) } := by
    rw [List.length_ofFn] at hR
    subst hb
    exact ⟨hR.time, hR.ltime, hR.y, hR.ly, hR.yerr, hR.lyerr, rfl, hR.hi, hR.lo, hR.kltime, hR.fltime, hR.dt, hR.ldt, hR.lmean, hR.lvar, hR.flmean, hR.flvar⟩
  have ha : SameRam a (FRam.new M.A 4 l (.fin 0.25) burnin) := by
    unfold Ram.new at h5
    obtain ⟨L, h7, h5⟩ := bind_ok_inv h5
    injection h5 with h5
    subst h5
    unfold cholDiag at h7
    split_ifs at h7
    injection h7 with h7
    rw [hM.arith, m2]
    refine ⟨fun i j => ?_, exf_div _ (by norm_num), rfl, rfl, rfl, rfl⟩
    simp only [FRam.new]
    by_cases hij : i = j
    · subst hij
      rw [if_pos rfl, List.getD_eq_getElem _ _ (by simp), List.getElem_ofFn]
    · rw [if_neg hij, ← h7, Matrix.diagonal_apply_ne _ hij]
  have hs0 : s = { chains := [Par.new { obj with b := b } 4 1 "CAR(1)" true], steps := [.ram 0 a], tracked := [("CAR(1)", 0)], rng := r } := by
    unfold Samp.addStep at h1
    obtain ⟨p, h8, h1⟩ := bind_ok_inv h1
    cases h8
    injection h1 with h1
    exact h1.symm
  rw [hs0] at h2
  obtain ⟨r', t1, hf, g1, hsame⟩ := fcar1_run_sim hM (by omega) hRel ha fuel N thin init h2
  obtain ⟨q, g2, hq⟩ := rdU_sim hsame.chains h
  refine ⟨r', q, hf, ?_, hq.value, hq.samples, hq.logposts⟩
  unfold frunCar1
  rw [show M.A = Arith.exact from hM.arith] at *
  rw [m1, hnew, res_bind_ok, hl, res_bind_ok]
  unfold car1Samp at g1
  rw [show M.A = Arith.exact from hM.arith] at g1
  dsimp only
  rw [g1, res_bind_ok, g2]

/-- three observations: the run of C46 -/
example (fuel N burnin thin : ℕ) : ∃ (srt : List ℝ → List ℕ) (srt' : List Dbl → List ℕ) (r' : FRng) (par : Par Car1) (par' : FPar FCar1),
    runCar1Sampler fuel srt N burnin (List.ofFn exT) (List.ofFn exY) (List.ofFn exT) thin [1, 1, 0, -1] exRng = .ok par ∧
    frunCar1 exMach srt' N burnin ((List.ofFn exT).map .fin) ((List.ofFn exY).map .fin) ((List.ofFn exT).map .fin) thin ([1, 1, 0, -1].map .fin) r' = .ok par' ∧
    par'.samples = par.samples.map fun θ => θ.map .fin := by
  obtain ⟨srt, hs⟩ := sortIndex_exists
  obtain ⟨c, hc⟩ := ex_car1_run srt fuel N burnin thin
  obtain ⟨r', par', -, h1, -, h2, -⟩ := C90_exact_run exMach_exact (by norm_num) exT_mono.injective exY exT hs (srt' := fun _ => srt (List.ofFn exT)) rfl fuel N burnin thin _ hc
  exact ⟨srt, _, r', c, par', hc, h1, h2⟩

end Verif.Props
