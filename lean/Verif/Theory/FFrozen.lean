import Verif.Theory.FFinite

/-!
A NaN in the factor of the proposals stops the chain.
-/

namespace Verif.Theory

open Verif.Model Verif.Spec
open scoped Classical

variable {μ : Type} [FTarget μ] {d : ℕ} {inv : μ → Prop} {f : List Dbl → Dbl} {M : Mach}

/-- the adaptation keeps a NaN on the diagonal -/
theorem adapt_nan (hS : Strict M.A) (a : FRam d) (u w : Fin d → Dbl) (j : Fin d) (h : a.chol j j = .nan) : (a.adapt M u w).chol j j = .nan := by
  unfold FRam.adapt
  split_ifs
  · exact cholUpdate_nan hS _ _ _ j h
  · exact h

/-- the step's own state afterwards -/
noncomputable def ramNext (M : Mach) (a : FRam d) (al : Dbl) (u : Fin d → Dbl) : FRam d :=
  { ({ a with alpha := al } : FRam d).adapt M u (a.scaled M u) with niter := (({ a with alpha := al } : FRam d).adapt M u (a.scaled M u)).niter + 1 }

/-- a rejected proposal, or one equal to the old value: value and log-density stay, and the factor is adapted -/
theorem ram_stay (hf : HonestLd M.A d inv f) (a : FRam d) {c : FPar μ} (hc : FGood d inv f c) {r : FRng} (hr : Usable d r) {θ : List Dbl}
    (hθ : θ = List.ofFn fun i : Fin d => M.A.add (c.value.getD i .nan) (a.scaled M (fun i : Fin d => r.stud i) i))
    (h : ¬ (f θ).isFin ∨ θ = c.value) :
    ∃ al o r', a.doStep M c r = .ok (ramNext M a al (fun i : Fin d => r.stud i), { c with obj := o }, r') ∧ inv o ∧ Usable d r' ∧
      (¬ (f θ).isFin → al = .fin 0) ∧
      ((f θ).isFin → (M.A.div (M.A.sub (f θ) c.logpost) c.temp).isFin → al = Dbl.min (M.A.exp (M.A.div (M.A.sub (f θ) c.logpost) c.temp)) (.fin 1)) := by
  have lθ : θ.length = d := by rw [hθ]; simp
  obtain ⟨o, eo, ho⟩ := hf.ld c.obj θ hc.obj lθ
  obtain ⟨r1, hr1⟩ : ∃ r1 : FRng, r1 = { r with stud := FRng.skip d r.stud } := ⟨_, rfl⟩
  have u1 : Usable d r1 := by rw [hr1]; exact ⟨hr.unif, hr.prior, hr.doubles⟩
  obtain ⟨al, hal⟩ : ∃ al, al = M.A.div (M.A.sub (f θ) c.logpost) c.temp := ⟨_, rfl⟩
  rw [← hal]
  by_cases hfin : al.isFin
  · have hb := fin_sub (fin_div (hal ▸ hfin))
    have hsame : θ = c.value := h.resolve_left fun k => k hb.1
    have ea : FRam.accept M c θ r1 = .ok (decide ((r1.unif 0).lt (Dbl.min (M.A.exp al) (.fin 1))), { c with obj := o },
        Dbl.min (M.A.exp al) (.fin 1), { r1 with unif := FRng.skip 1 r1.unif }) := by
      simp only [FRam.accept, eo, res_bind_ok, ← hal, hfin, not_true_eq_false, if_false]; rfl
    have u2 : Usable d { r1 with unif := FRng.skip 1 r1.unif } := ⟨fun k => u1.unif (k + 1), u1.prior, u1.doubles⟩
    by_cases hu : (r1.unif 0).lt (Dbl.min (M.A.exp al) (.fin 1))
    · obtain ⟨o2, e2, h2⟩ := save_ok hf (c := { c with obj := o }) ho lθ
      refine ⟨Dbl.min (M.A.exp al) (.fin 1), o2, { r1 with unif := FRng.skip 1 r1.unif }, ?_, h2, u2, fun k => absurd hb.1 k, fun _ _ => rfl⟩
      unfold FRam.doStep
      simp only [hc.len, ne_eq, not_true_eq_false, if_false]
      rw [← hθ, ← hr1, ea, res_bind_ok]
      simp only [hu, decide_true, if_true, e2, res_bind_ok]
      rw [hsame, ← hc.lp]
      rfl
    · refine ⟨Dbl.min (M.A.exp al) (.fin 1), o, { r1 with unif := FRng.skip 1 r1.unif }, ?_, ho, u2, fun k => absurd hb.1 k, fun _ _ => rfl⟩
      unfold FRam.doStep
      simp only [hc.len, ne_eq, not_true_eq_false, if_false]
      rw [← hθ, ← hr1, ea, res_bind_ok]
      simp only [hu, decide_false, Bool.false_eq_true, if_false, res_pure, res_bind_ok]
      rfl
  · have ea : FRam.accept M c θ r1 = .ok (false, { c with obj := o }, .fin 0, r1) := by
      simp only [FRam.accept, eo, res_bind_ok, ← hal, hfin, not_false_eq_true, if_true]; rfl
    refine ⟨.fin 0, o, r1, ?_, ho, u1, fun _ => rfl, fun _ k => absurd k hfin⟩
    unfold FRam.doStep
    simp only [hc.len, ne_eq, not_true_eq_false, if_false]
    rw [← hθ, ← hr1, ea, res_bind_ok]
    simp only [Bool.false_eq_true, if_false, res_pure, res_bind_ok]
    rfl

/-- one chain, one step, and a NaN in the factor -/
structure FFrozen (inv : μ → Prop) (f : List Dbl → Dbl) (θ₀ : List Dbl) (c : FPar μ) (s : FSamp μ d) : Prop where
  chains : s.chains = [c]
  steps : ∃ a j, s.steps = [.ram 0 a] ∧ a.chol j j = .nan
  tracked : s.tracked = 0
  good : FGood d inv f c
  value : c.value = θ₀
  rng : Usable d s.rng

theorem frozen_sweep (hS : Strict M.A) (hZ : ZeroAndNan M) (hf : HonestLd M.A d inv f) (hnan : ∀ θ : List Dbl, θ.length = d → .nan ∈ θ → ¬ (f θ).isFin)
    {θ₀ : List Dbl} {c : FPar μ} {s : FSamp μ d} (h : FFrozen inv f θ₀ c s) :
    ∃ s' c', s.sweep M = .ok s' ∧ FFrozen inv f θ₀ c' s' ∧ c'.samples = c.samples ∧ c'.logposts = c.logposts := by
  obtain ⟨a, j, hst, hj⟩ := h.steps
  have hno : ¬ (f (List.ofFn fun i : Fin d => M.A.add (c.value.getD i .nan) (a.scaled M (fun i : Fin d => s.rng.stud i) i))).isFin := by
    refine hnan _ (by simp) ?_
    rw [List.mem_ofFn]
    refine ⟨j, ?_⟩
    have : a.scaled M (fun i : Fin d => s.rng.stud i) j = .nan := hZ.dot_nan _ _ (by simp) (List.mem_ofFn.mpr ⟨j, hj⟩)
    rw [this, fl_add_nan]
  obtain ⟨al, o, r', e, ho, hu, -, -⟩ := ram_stay hf a h.good h.rng rfl (.inl hno)
  refine ⟨{ s with chains := [{ c with obj := o }], steps := [.ram 0 (ramNext M a al fun i : Fin d => s.rng.stud i)], rng := r' }, { c with obj := o }, ?_,
    ⟨rfl, ⟨_, j, rfl, ?_⟩, h.tracked, ⟨ho, h.good.len, h.good.lp, h.good.num, h.good.temp⟩, h.value, hu⟩, rfl, rfl⟩
  · unfold FSamp.sweep
    rw [hst]
    simp only [List.length_singleton, FSamp.stepLoop, res_bind_ok, FSamp.doStep, hst, h.chains, rdU, List.getElem?_cons_zero, e]
    rfl
  · exact adapt_nan hS _ _ _ j hj

theorem frozen_iterate (hS : Strict M.A) (hZ : ZeroAndNan M) (hf : HonestLd M.A d inv f) (hnan : ∀ θ : List Dbl, θ.length = d → .nan ∈ θ → ¬ (f θ).isFin)
    {θ₀ : List Dbl} {c : FPar μ} {s : FSamp μ d} (h : FFrozen inv f θ₀ c s) (n : ℕ) :
    ∃ s' c', s.iterate M n = .ok s' ∧ FFrozen inv f θ₀ c' s' ∧ c'.samples = c.samples ∧ c'.logposts = c.logposts := by
  induction n with
  | zero => exact ⟨s, c, rfl, h, rfl, rfl⟩
  | succ n ih =>
    obtain ⟨s1, c1, e1, h1, a1, b1⟩ := ih
    obtain ⟨s2, c2, e2, h2, a2, b2⟩ := frozen_sweep hS hZ hf hnan h1
    refine ⟨s2, c2, ?_, h2, a2.trans a1, b2.trans b1⟩
    unfold FSamp.iterate at e1 ⊢
    simp only [iter, e1, res_bind_ok, e2]

theorem frozen_sample (hS : Strict M.A) (hZ : ZeroAndNan M) (hf : HonestLd M.A d inv f) (hnan : ∀ θ : List Dbl, θ.length = d → .nan ∈ θ → ¬ (f θ).isFin)
    {θ₀ : List Dbl} {c : FPar μ} {s : FSamp μ d} (h : FFrozen inv f θ₀ c s) (thin : ℕ) {N k : ℕ} (l1 : c.samples.length = N) (l2 : c.logposts.length = N)
    (hk : k ≤ N) : ∃ s' c', s.sampleLoop M thin k = .ok s' ∧ FFrozen inv f θ₀ c' s' ∧ c'.samples.length = N ∧ c'.logposts.length = N ∧
      ∀ j < k, c'.samples[j]? = some θ₀ := by
  induction k with
  | zero => exact ⟨s, c, rfl, h, l1, l2, fun j hj => absurd hj (by omega)⟩
  | succ k ih =>
    obtain ⟨s1, c1, e1, h1, a1, b1, w1⟩ := ih (by omega)
    obtain ⟨s2, c2, e2, h2, a2, b2⟩ := frozen_iterate hS hZ hf hnan h1 thin
    have ew1 : wrU c2.samples k c2.value = .ok (c2.samples.set k c2.value) := by simp [wrU, a2, a1]; omega
    have ew2 : wrU c2.logposts k c2.logpost = .ok (c2.logposts.set k c2.logpost) := by simp [wrU, b2, b1]; omega
    refine ⟨{ s2 with chains := [{ c2 with samples := c2.samples.set k c2.value, logposts := c2.logposts.set k c2.logpost }] },
      { c2 with samples := c2.samples.set k c2.value, logposts := c2.logposts.set k c2.logpost }, ?_,
      ⟨rfl, h2.steps, h2.tracked, ⟨h2.good.obj, h2.good.len, h2.good.lp, h2.good.num, h2.good.temp⟩, h2.value, h2.rng⟩, ?_, ?_, ?_⟩
    · simp only [FSamp.sampleLoop, e1, res_bind_ok, e2, FSamp.saveValues, h2.chains, h2.tracked, rdU, List.getElem?_cons_zero, FPar.addToSample, ew1, ew2]
      rfl
    · simp [a2, a1]
    · simp [b2, b1]
    · intro j hj
      show (c2.samples.set k c2.value)[j]? = _
      by_cases e : k = j
      · subst e
        rw [List.getElem?_set_self (by rw [a2, a1]; omega), h2.value]
      · rw [List.getElem?_set_ne e, a2]
        exact w1 j (by omega)

theorem nonfin_mul_zero {x : Dbl} (h : ¬ x.isFin) {A : Arith} : A.mul x (.fin 0) = .nan := by
  cases x with
  | fin x => exact absurd trivial h
  | _ => simp [Arith.mul, Dbl.mul, Dbl.infTimes, Arith.fl]

theorem div_zero_nonfin {A : Arith} (x : Dbl) : ¬ (A.div x (.fin 0)).isFin := by
  intro h
  have := fin_fl h
  cases x with
  | fin a => simp only [Dbl.div, if_true] at this; exact infTimes_not _ this
  | pinf => simp [Dbl.div, Dbl.isFin] at this
  | ninf => simp [Dbl.div, Dbl.isFin] at this
  | nan => exact this

/-- draws that are all zero while the factor is adapted -/
theorem zero_sweep {d : ℕ} {inv : μ → Prop} (hA : IsBinary64 M.A) (hS : Strict M.A) (hZ : ZeroAndNan M) (hf : HonestLd M.A (d + 1) inv f)
    {θr : List ℝ} {c : FPar μ} {a : FRam (d + 1)} {r : FRng} (hc : FGood (d + 1) inv f c) (hv : c.value = θr.map .fin) (hr : Usable (d + 1) r)
    (hfin : c.logpost.isFin) (ht : c.temp = .fin 1) (ha : ∀ i j, (a.chol i j).isFin) (hn : a.niter < a.maxiter) (hu : ∀ k < d + 1, r.stud k = .fin 0) :
    ∃ s' c', FSamp.sweep M { chains := [c], steps := [.ram 0 a], tracked := 0, rng := r } = .ok s' ∧ FFrozen inv f c.value c' s' ∧
      c'.samples = c.samples ∧ c'.logposts = c.logposts := by
  have hu0 : (List.ofFn fun i : Fin (d + 1) => r.stud i) = List.replicate (d + 1) (.fin 0) := by
    rw [← List.ofFn_const]
    congr 1
    funext i
    exact hu i i.2
  have hw : ∀ j, a.scaled M (fun i : Fin (d + 1) => r.stud i) j = .fin 0 := by
    intro j
    unfold FRam.scaled
    rw [hu0]
    refine hZ.dot_zero _ _ (by simp) fun x hx => ?_
    obtain ⟨i, rfl⟩ := List.mem_ofFn.mp hx
    exact ha i j
  have lr : θr.length = d + 1 := by have := hc.len; rw [hv] at this; simpa using this
  have hθ : (List.ofFn fun i : Fin (d + 1) => M.A.add (c.value.getD i .nan) (a.scaled M (fun i : Fin (d + 1) => r.stud i) i)) = c.value := by
    apply List.ext_getElem
    · simp [hc.len]
    · intro i h1 h2
      rw [List.getElem_ofFn, hw, List.getD_eq_getElem _ _ h2]
      have hx : ∃ x, c.value[i] = .fin x := by
        simp only [hv, List.getElem_map]; exact ⟨_, rfl⟩
      obtain ⟨x, hx⟩ := hx
      have hF : F64 x := hc.num x (hx ▸ List.getElem_mem h2)
      rw [hx, fl_add, add_zero]
      exact hA.id _ hF
  obtain ⟨v, hv'⟩ := (isFin_iff _).mp hfin
  obtain ⟨al, o, r', e, ho, hu', -, hal⟩ := ram_stay hf a hc hr rfl (.inr hθ)
  have hq : M.A.div (M.A.sub (f c.value) c.logpost) c.temp = .fin 0 := by
    rw [← hc.lp, hv', ht, fl_sub, sub_self, hA.id _ f64_zero, fl_div _ _ one_ne_zero, zero_div, hA.id _ f64_zero]
  rw [hθ, hq] at hal
  have hal' := hal (by rw [← hc.lp]; exact hfin) trivial
  obtain ⟨e0, he0, -, p0, p1⟩ := hA.exp_neg 0 le_rfl
  have alf : al.isFin := by
    rw [hal', he0]
    unfold Dbl.min
    split_ifs <;> trivial
  refine ⟨{ chains := [{ c with obj := o }], steps := [.ram 0 (ramNext M a al fun i : Fin (d + 1) => r.stud i)], tracked := 0, rng := r' }, { c with obj := o }, ?_,
    ⟨rfl, ⟨_, 0, rfl, ?_⟩, rfl, ⟨ho, hc.len, hc.lp, hc.num, hc.temp⟩, rfl, hu'⟩, rfl, rfl⟩
  · simp only [FSamp.sweep, List.length_singleton, FSamp.stepLoop, res_bind_ok, FSamp.doStep, rdU, List.getElem?_cons_zero, e]
    rfl
  · show (FRam.adapt M _ _ _).chol 0 0 = _
    unfold FRam.adapt
    rw [if_pos ⟨hn, alf⟩]
    refine cholUpdate_first hS _ _ _ ?_
    dsimp only
    rw [hw, hu0, hZ.norm_zero]
    exact nonfin_mul_zero (div_zero_nonfin _)

end Verif.Theory
