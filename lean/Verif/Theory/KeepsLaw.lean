import Verif.Theory.StationaryRef
import Verif.Theory.Adapt

/-!
Samplers whose steps no longer adapt leave the joint law of chains and draws unchanged.
-/

namespace Verif.Theory

open Verif.Model Verif.Spec MeasureTheory

/-- A sampler whose proposals no longer adapt. -/
theorem keeps_law {μ : Type} [Target μ] {d M : ℕ} {inv : μ → Prop} {G : LogTarget d} (hT : HasTarget μ inv G) (hG : MeasTarget G)
    {T : Fin M → ℝ} (hpos : ∀ i, 0 < T i) {t : Samp μ d} (hinv : ∀ c ∈ t.chains, inv c.obj)
    (htemp : ∀ (i : Fin M) c, t.chains[(i : ℕ)]? = some c → c.temp = T i) (hst : ∀ st ∈ t.steps, InRange M st)
    (hfro : ∀ i a, .ram i a ∈ t.steps → a.maxiter ≤ a.niter) (ν : Measure ℝ) [IsProbabilityMeasure ν]
    (hν : ν.map (fun x => -x) = ν) : KeepsLaw G T ν t := by
  intro m
  refine ⟨sweepsMap G T t.steps m, sweepsMap_preserving hG T hst hν m, fun u z hu hz => ?_⟩
  have hAt : At inv G T t.steps u z := by
    refine ⟨hz.length, fun i c hc => ?_, hz.stud, hz.unif, ?_⟩
    · have ho := congrArg (fun l => l[(i : ℕ)]?) hu.obj
      have ht := congrArg (fun l => l[(i : ℕ)]?) hu.temp
      simp only [List.getElem?_map, hc, Option.map_some] at ho ht
      cases hc' : t.chains[(i : ℕ)]? with
      | none => rw [hc'] at ho; cases ho
      | some c' =>
          rw [hc', Option.map_some, Option.some.injEq] at ho ht
          refine ⟨?_, ?_, hz.value i c hc, hz.logpost i c hc⟩
          · rw [ho]; exact hinv _ (List.mem_of_getElem? hc')
          · rw [ht]; exact htemp i c' hc'
    · rw [hu.steps]
      rw [List.forall₂_same]
      intro st hst
      cases st with
      | ram i a => exact ⟨rfl, rfl, hfro i a hst⟩
      | exch e => exact (rfl : e.idx = e.idx)
  obtain ⟨u', h1, h2⟩ := at_sweeps hT hpos hst hAt m
  exact ⟨u', sweeps_of_iterate h1, ⟨h2.length, fun i c hc => (h2.chain i c hc).2.2.1, fun i c hc => (h2.chain i c hc).2.2.2, h2.stud, h2.unif⟩⟩

/-- The steps of a run after the burn-in. -/
theorem steps_frozen {μ : Type} [Target μ] {d M : ℕ} {s1 t : Samp μ d} {k burnin : ℕ} (h : Sweeps s1 k t) (hk : burnin ≤ k)
    (hs : ∀ st ∈ s1.steps, InRange M st) (hf : ∀ i a, .ram i a ∈ s1.steps → a.niter = 0 ∧ a.maxiter = burnin) :
    (∀ st ∈ t.steps, InRange M st) ∧ ∀ i a, .ram i a ∈ t.steps → a.maxiter ≤ a.niter := by
  have key : ∀ st' ∈ t.steps, ∃ st ∈ s1.steps, Later st st' ∧ ∀ i a, st = .ram i a → ∃ b, st' = .ram i b ∧ b.niter = a.niter + k := by
    intro st' hst'
    obtain ⟨j, hj⟩ := List.mem_iff_getElem?.mp hst'
    have hlt : j < s1.steps.length := by
      rw [← iterate_steps_length (iterate_of_sweeps h)]; exact (List.getElem?_eq_some_iff.mp hj).1
    obtain ⟨st2, g1, g2⟩ := sweeps_later h (List.getElem?_eq_getElem hlt)
    rw [hj] at g1
    injection g1 with g1
    subst g1
    exact ⟨_, List.getElem_mem hlt, g2⟩
  constructor
  · intro st' hst'
    obtain ⟨st, h1, h2, -⟩ := key st' hst'
    have := hs st h1
    cases st with
    | ram i a =>
        cases st' with
        | ram j b => obtain ⟨rfl, -⟩ := h2; exact this
        | exch f => exact h2.elim
    | exch e =>
        cases st' with
        | ram j b => exact h2.elim
        | exch f =>
            have h2 : f.idx = e.idx := h2
            have this : 0 < e.idx ∧ e.idx < M := this
            exact (show 0 < f.idx ∧ f.idx < M by rw [h2]; exact this)
  · intro i b hb
    obtain ⟨st, h1, h2, h3⟩ := key _ hb
    cases st with
    | exch e => exact h2.elim
    | ram j a =>
        obtain ⟨-, h5, -⟩ := h2
        obtain ⟨b', e1, e2⟩ := h3 j a rfl
        injection e1 with _ e1
        subst e1
        have := hf j a h1
        omega

theorem ram_new_fresh {d burnin : ℕ} {cov : Matrix (Fin d) (Fin d) ℝ} {x : ℝ} {a : Ram d} (h : Ram.new cov x burnin = .ok a) :
    a.niter = 0 ∧ a.maxiter = burnin := by
  unfold Ram.new at h
  obtain ⟨_, -, h⟩ := bind_ok_inv h
  injection h with h
  rw [← h]; exact ⟨rfl, rfl⟩

theorem temp_pos (nw i : ℕ) : 0 < temperature nw i := by
  unfold temperature
  split <;> exact Real.exp_pos _

/-- No chain is colder than the first. -/
theorem temp_cold (nw i : ℕ) : (if nw = 1 then 100 else 1 : ℝ) ≤ temperature nw i := by
  have h : 0 ≤ Real.log 100 := Real.log_nonneg (by norm_num)
  unfold temperature
  split
  · exact (Real.exp_log (by norm_num)).ge
  · exact Real.one_le_exp (by positivity)

theorem list_ofFn_of_length {α : Type} {l : List α} {d : ℕ} (h : l.length = d) : ∃ x : Fin d → α, l = List.ofFn x := by
  subst h
  exact ⟨l.get, (List.ofFn_get l).symm⟩

theorem agrees_of_valued {μ : Type} [Target μ] {d : ℕ} {inv : μ → Prop} {G : LogTarget d} (hT : HasTarget μ inv G) {o : μ} (ho : inv o)
    {x : Fin d → ℝ} {v : Dbl} (h : (Target.ld o (List.ofFn x)).map Prod.snd = .ok v) : Agrees v (G x) := by
  obtain ⟨o', v', h1, -, h3⟩ := hT.ld o x ho
  rw [h1] at h
  injection h with h
  have h : v' = v := h
  rw [← h]; exact h3

end Verif.Theory
