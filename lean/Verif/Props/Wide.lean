import Verif.Theory.Wide
import Verif.Props.PyRun
import Verif.Model.PyTrial

/-!
Property C96: orders `q ≥ p`. The checks of the Python class (`carma_pack.py:42-51`: a comparison inside `try`, which raises nothing) and of
the C++ constructor (`BOOST_ASSERT_MSG`, removed by `NDEBUG`) have no effect.
-/

namespace Verif.Props

open Verif.Model Verif.Spec Verif.Theory

/-- **C96, the log-density.** For a `CARMA(p,q)` object with `q ≥ p`, in any state, no vector has a log-density other than minus infinity:
outside the prior the object is left alone and minus infinity is returned; inside, or with the prior switched off by `SetMLE(true)`, a vector of
`p + q + 3` values makes `getLogDensity` throw (access out of bounds). -/
theorem C96_density {p q : ℕ} (h : p ≤ q) (s : CarP p) (hk : s.kind = .carma q) (θ : List ℝ) :
    (∀ s' v, logDensity s θ = .ok (s', v) → s' = s ∧ v = .ninf ∧ s.b.ignorePrior = false) ∧
    (p + q + 3 ≤ θ.length → logDensity s θ = .ok (s, .ninf) ∨ logDensity s θ = .error .bounds) ∧
    (p + q + 3 ≤ θ.length → s.b.ignorePrior = true → logDensity s θ = .error .bounds) := by
  refine ⟨fun s' v hh => ?_, fun hl => ?_, fun hl hi => ?_⟩
  · obtain ⟨h1, h2, h3⟩ := logDensity_wide h hk hh
    refine ⟨h1, h2, ?_⟩
    by_contra hne
    have hi : s.b.ignorePrior = true := by simpa using hne
    unfold CarP.checkPrior at h3
    rw [hi, if_pos rfl] at h3
    injection h3 with h3
    exact absurd h3 (by simp)
  · obtain ⟨c, hc⟩ := checkPrior_decided (p := p) s.b s.orderLor (θ := θ) (by omega)
    cases c with
    | true => exact Or.inr (logDensity_wide_bounds h hk (by omega) hc)
    | false =>
        left
        unfold logDensity
        rw [show CarModel.checkPrior s θ = .ok false from hc, res_bind_ok, if_pos rfl]
        rfl
  · refine logDensity_wide_bounds h hk (by omega) ?_
    unfold CarP.checkPrior
    rw [hi, if_pos rfl]
    rfl

/-- a CARMA(2,3) object with the prior switched off, and the vector of ones -/
example (srt : List ℝ → List ℕ) : ∃ s : CarP 2, s.kind = .carma 3 ∧ s.b.ignorePrior = true ∧ logDensity s (List.replicate 8 1) = .error .bounds := by
  obtain ⟨dmin, b0, -, -, -, -, -, -, -, -, -, g10, -⟩ := base_fresh (by norm_num) exT_mono exY exT
  obtain ⟨o, h1, -⟩ := carp_fresh (p := 2) (by omega) srt (by norm_num) exT_mono exY exT g10 (.carma 3)
  refine ⟨{ o with b := { o.b with ignorePrior := true } }, (new_config h1).1, rfl, ?_⟩
  exact (C96_density (q := 3) (by omega) { o with b := { o.b with ignorePrior := true } } (new_config h1).1 (List.replicate 8 1)).2.2 (by simp) rfl

/-- **C96, runs.** With `q ≥ p ≥ 1` and no `do_zcarma`, `RunCarmaSampler` returns for no data, no settings, no initial vector and no draws. -/
theorem C96_run_never {p q : ℕ} (hp : 1 ≤ p) (h : p ≤ q) (fuel : ℕ) (srt : List ℝ → List ℕ) (N burnin : ℕ) (time y yerr : List ℝ) (nw thin : ℕ)
    (init : List ℝ) (r : Rng) (c : Par (CarP p)) : runCarmaSampler fuel srt N burnin time y yerr p q nw false thin init r ≠ .ok c := by
  intro hh
  obtain ⟨s, h1, hh⟩ := bind_ok_inv hh
  obtain ⟨s', h2, hh⟩ := bind_ok_inv hh
  have hB := carmaSampler_inv h1
  obtain ⟨s0, s1, init', g1, -, g3, -⟩ := run_spec h2
  obtain ⟨⟨var, o, b, k1, k2, k3, hc⟩, -, hl⟩ := carma_sound hB g1 g3 (k := 0) rfl
  have hlen : 0 < s1.chains.length := by
    have := congrArg List.length hl
    simp only [List.length_map] at this
    rw [this, hB.length]; exact hB.pos
  have hS := hc _ (List.getElem_mem hlen)
  obtain ⟨x, hx⟩ := isFin_inv hS.fin
  have hval := hS.valued
  generalize (s1.chains[0]'hlen) = cc at *
  have hk : ({ o with b := b } : CarP p).kind = .carma q := by
    show o.kind = _
    rw [(new_config k2).1]
    simp [runKind, show q ≠ 0 by omega]
  cases hld : logDensity ({ o with b := b } : CarP p) cc.value with
  | error f => rw [hld] at hval; cases hval
  | ok w =>
    rw [hld] at hval
    have hval : w.2 = cc.logpost := by injection hval
    obtain ⟨w1, w2⟩ := w
    obtain ⟨-, e2, -⟩ := logDensity_wide h hk hld
    simp only at hval
    rw [hx, e2] at hval
    cases hval

/-- **C96, how a run ends.** On data on which the sampler is built (strictly increasing times, values not all equal, a walker), and for
`p ≥ 2`, the outcome is the exception of the write out of bounds, in the first pass of the search for starting values of the first chain,
whatever the initial vector and the draws. -/
theorem C96_run_throws {n : ℕ} {t : Fin n → ℝ} (srt : List ℝ → List ℕ) (hn : 2 ≤ n) (ht : StrictMono t) (y e : Fin n → ℝ)
    (hy : ∃ i j, y i ≠ y j) {p q : ℕ} (hp : 2 ≤ p) (h : p ≤ q) {nw : ℕ} (hw : 1 ≤ nw) (fuel N burnin thin : ℕ) (init : List ℝ) (r : Rng) :
    runCarmaSampler (fuel + 1) srt N burnin (List.ofFn t) (List.ofFn y) (List.ofFn e) p q nw false thin init r = .error .bounds := by
  have hv := popVar_eq (show 0 < n by omega) y
  have h0 := popVar_pos (show 0 < n by omega) hy
  have hlen : 0 < (List.ofFn y).length := by simp; omega
  obtain ⟨dmin, b0, g1, g2, g3, g4, -, -, -, g6, g7, g10, g11⟩ := base_fresh hn ht y e
  obtain ⟨o, h1, h2, h3, -⟩ := carp_fresh (p := p) (by omega) srt hn ht y e g10 (runKind q false)
  obtain ⟨s, hS⟩ := carmaSampler_total N burnin thin r hv h0 hlen h1 hw
  have hB := carmaSampler_inv hS
  obtain ⟨var, o', b, k1, k2, k3, hc⟩ := hB.chain
  cases h1.symm.trans k2
  have hob : o.b = b0 := h3.base
  rw [setPrior_again (new_config h1).2.2] at k3
  injection k3 with k3
  have hkind : o.kind = .carma q := by
    rw [(new_config k2).1]
    simp [runKind, show q ≠ 0 by omega]
  obtain ⟨var', a, -, -, hsteps⟩ := hB.steps
  have hst0 : ∃ st, s.steps[0]? = some st ∧ st.chain < s.chains.length := by
    rw [hsteps, hB.length]
    cases hnw : nw - 1 with
    | zero => exact ⟨_, rfl, by simp [StepSt.chain]; omega⟩
    | succ m => exact ⟨_, rfl, by simp [StepSt.chain]; omega⟩
  obtain ⟨st, e1, e2⟩ := hst0
  have e3 : s.chains[st.chain]? = some (s.chains[st.chain]'e2) := List.getElem?_eq_getElem e2
  have hcc := hc _ _ e3
  have hobj : (s.chains[st.chain]'e2).obj = { o with b := b } := by rw [hcc]; rfl
  have hrun : s.run (fuel + 1) N burnin thin init = .error .bounds := by
    refine run_error (by rw [hB.tracked, hB.length]; simp; omega) e1 e3 fun i => ?_
    rw [hobj]
    have f1 : armaMax ({ o with b := b } : CarP p).b.time = .ok (t ⟨n-1, by omega⟩) := by
      show armaMax b.time = _
      rw [← k3]; show armaMax o.b.time = _; rw [hob, g11.time]; exact g6
    have f2 : armaMin ({ o with b := b } : CarP p).b.time = .ok (t ⟨0, by omega⟩) := by
      show armaMin b.time = _
      rw [← k3]; show armaMin o.b.time = _; rw [hob, g11.time]; exact g7
    have f3 : ({ o with b := b } : CarP p).b.maxFreq = .fin (1 / dmin) := by
      show b.maxFreq = _
      rw [← k3]; show o.b.maxFreq = _; rw [hob]; exact g11.fmax
    cases i with
    | none => exact start_wide hp h (s := { o with b := b }) hkind f1 f2 (by linarith) f3 (by positivity) fuel _
    | some i => exact setStart_wide hp h (s := { o with b := b }) hkind f1 f2 (by linarith) f3 (by positivity) fuel i _
  unfold runCarmaSampler
  simp only [hS, hrun, res_bind_ok]
  rfl

/-- **C96, `run_mcmc`.** A fit that returns has `p = 1` or `q < p`, for any data. -/
theorem C96_fit {fuel : ℕ} {srt srt' : List ℝ → List ℕ} {time y ysig : List ℝ} {p q N : ℕ} (hp : 1 ≤ p) {nburnin ntemp : Option ℕ} {thin : ℕ}
    {init : Option (List ℝ)} {r : Rng} {F : Py.Fit} (h : Py.fit fuel srt srt' time y ysig p q N nburnin ntemp thin init r = .ok F) :
    p = 1 ∨ q < p := by
  by_contra hne
  push Not at hne
  unfold Py.fit at h
  obtain ⟨⟨t, v, e⟩, -, h⟩ := bind_ok_inv h
  simp only [Py.runMcmc, if_neg hne.1] at h
  obtain ⟨c, hc, -⟩ := bind_ok_inv h
  exact C96_run_never hp hne.2 _ _ _ _ _ _ _ _ _ _ _ c hc

/-- **C96 is false for `p = 1`.** Orders `(1, q)` with `q ≥ 1` are not refused: the fit is the CAR(1) fit, with the same result for every `q`. -/
theorem C96_one_ignores_q (fuel : ℕ) (srt srt' : List ℝ → List ℕ) (time y ysig : List ℝ) (q q' N : ℕ) (nburnin ntemp : Option ℕ) (thin : ℕ)
    (init : Option (List ℝ)) (r : Rng) :
    Py.fit fuel srt srt' time y ysig 1 q N nburnin ntemp thin init r = Py.fit fuel srt srt' time y ysig 1 q' N nburnin ntemp thin init r := by
  unfold Py.fit Py.runMcmc
  simp only [if_true]

/-- **C96, the flag.** With `do_zcarma` the run is that of a `ZCAR(p)` model and `q` is not looked at. -/
theorem C96_zcar_ignores_q (fuel : ℕ) (srt : List ℝ → List ℕ) (N burnin : ℕ) (time y yerr : List ℝ) (p q q' nw thin : ℕ) (init : List ℝ) (r : Rng) :
    runCarmaSampler fuel srt N burnin time y yerr p q nw true thin init r =
      runCarmaSampler fuel srt N burnin time y yerr p q' nw true thin init r := by
  have he : ensemble srt time y yerr p q nw true = ensemble srt time y yerr p q' nw true := by
    funext sd k
    induction k with
    | zero => rfl
    | succ k ih => unfold ensemble; rw [ih]; rfl
  unfold runCarmaSampler carmaSampler
  rw [he]
  rfl

/-- **C96, `get_mle`.** No trial of `get_mle(p, q)` with `q ≥ p ≥ 2` returns, whatever the optimiser. -/
theorem C96_trial {p q : ℕ} (hp : 2 ≤ p) (h : p ≤ q) (fuel : ℕ) (srt : List ℝ → List ℕ) (time y ysig : List ℝ) (opt : Py.Minimise) (u : ℕ → ℝ)
    (r : Rng) (m : Py.Mle) : Py.mleTrial fuel srt time y ysig p q opt u r ≠ .ok m := by
  intro hh
  unfold Py.mleTrial at hh
  rw [if_neg (by omega)] at hh
  obtain ⟨c, hc, -⟩ := bind_ok_inv hh
  exact C96_run_never (by omega) h _ _ _ _ _ _ _ _ _ _ _ c hc

/-- **C96, `choose_order`.** A list of orders that contains a pair with `q ≥ p ≥ 2` makes `choose_order` fail. (The fit of a pair, if it
returns, returns one of its trials.) -/
theorem C96_choose_order (n : ℕ) (mle : ℕ → ℕ → Res Py.Mle) (pq0 : ℕ × ℕ) (pmax : ℕ) (qmax : Option ℕ) (l : List (ℕ × ℕ))
    {fuel : ℕ} {srt : List ℝ → List ℕ} {time y ysig : List ℝ} {opt : Py.Minimise}
    (hmle : ∀ p q m, mle p q = .ok m → ∃ u r, Py.mleTrial fuel srt time y ysig p q opt u r = .ok m)
    (hl : ∃ pq ∈ l, 2 ≤ pq.1 ∧ pq.1 ≤ pq.2) (x) : Py.chooseOrder n mle pq0 pmax qmax (some l) ≠ .ok x := by
  intro h
  unfold Py.chooseOrder at h
  obtain ⟨mles, h1, -⟩ := bind_ok_inv h
  obtain ⟨pq, k1, k2, k3⟩ := hl
  have key : ∀ (l : List (ℕ × ℕ)) (mles : List Py.Mle), (l.mapM fun pq => mle pq.1 pq.2) = .ok mles → ∀ pq ∈ l, ∃ m, mle pq.1 pq.2 = .ok m := by
    intro l
    induction l with
    | nil => intro _ _ pq hpq; simp at hpq
    | cons a l ih =>
        intro ms hms pq hpq
        rw [List.mapM_cons] at hms
        obtain ⟨m, g1, hms⟩ := bind_ok_inv hms
        obtain ⟨ms', g2, -⟩ := bind_ok_inv hms
        rcases List.mem_cons.mp hpq with rfl | hpq
        · exact ⟨m, g1⟩
        · exact ih ms' g2 pq hpq
  obtain ⟨m, hm⟩ := key _ _ h1 pq k1
  obtain ⟨u, r, hr⟩ := hmle _ _ _ hm
  exact C96_trial k2 k3 _ _ _ _ _ _ _ _ _ hr

/-! ### examples -/

/-- A fit of order `(1, 5)` that returns. -/
theorem C96_witness (srt srt' : List ℝ → List ℕ) (hs : IsSortIndex srt) (fuel : ℕ) : ∃ T,
    Py.fit fuel srt srt' (exData.map fun d => d.1) (exData.map fun d => d.2.1) (exData.map fun d => d.2.2) 1 5 5 none none 1 none fairRng =
      .ok (.car1 T) := by
  obtain ⟨n, t, y, e, h1, h2⟩ := C58_car1_returns hs srt' exData exData_two 5 fuel 5 1 none none none (r := fairRng) fairRng_ok
    (fun k => ⟨0, by simp, by simp [fairRng]⟩)
  exact (h2 (exData_vary h1)).1 (by norm_num)

/-- Order `(2, 2)` on three points throws. -/
example (srt : List ℝ → List ℕ) (fuel : ℕ) (init : List ℝ) (r : Rng) :
    runCarmaSampler (fuel + 1) srt 10 5 (List.ofFn exT) (List.ofFn exY) (List.ofFn exT) 2 2 10 false 1 init r = .error .bounds :=
  C96_run_throws srt (by norm_num) exT_mono exY exT ⟨0, 1, by simp [exY]⟩ le_rfl le_rfl (by norm_num) fuel 10 5 1 init r

/-- orders (1,0) and (2,2), one trial for each -/
example (fuel : ℕ) (srt : List ℝ → List ℕ) (opt : Py.Minimise) (u : ℕ → ℝ) (r : Rng) (x) :
    Py.chooseOrder 3 (fun p q => Py.mleTrial fuel srt (List.ofFn exT) (List.ofFn exY) (List.ofFn exT) p q opt u r) (1, 0) 2 none
      (some [(1, 0), (2, 2)]) ≠ .ok x :=
  C96_choose_order 3 _ _ _ _ _ (fun _ _ _ h => ⟨u, r, h⟩) ⟨(2, 2), by simp, le_rfl, le_rfl⟩ x

end Verif.Props
