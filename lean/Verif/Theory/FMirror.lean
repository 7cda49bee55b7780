import Verif.Spec.FMirror
import Verif.Theory.FSignP
import Verif.Theory.FSignRun

/-!
Changing the sign of the data commutes with every step of the sampler.
-/

namespace Verif.Theory

open Verif.Model Verif.Spec
open scoped Classical

/-! ### vectors -/

theorem flipMu_length (θ : List Dbl) : (flipMu θ).length = θ.length := by unfold flipMu; rw [List.length_set]

theorem flipMu_get (θ : List Dbl) (i : ℕ) (h : i < θ.length) : (flipMu θ).getD i .nan = sg (i = 2) (θ.getD i .nan) := by
  unfold flipMu sg
  rw [List.getD_eq_getElem?_getD, List.getElem?_set, List.getD_eq_getElem?_getD, List.getD_eq_getElem?_getD]
  by_cases e : i = 2
  · subst e
    rw [if_pos rfl, if_pos h, if_pos rfl, List.getElem?_eq_getElem h]; rfl
  · rw [if_neg (Ne.symm e), if_neg e]

theorem flipMu_ofFn {d : ℕ} (f : Fin d → Dbl) : flipMu (List.ofFn f) = List.ofFn fun i => sg (i.val = 2) (f i) := by
  refine List.ext_getElem (by rw [flipMu_length]; simp) fun i h1 h2 => ?_
  have h : i < d := by simpa using h2
  have := flipMu_get (List.ofFn f) i (by simpa using h)
  rw [List.getD_eq_getElem?_getD, List.getElem?_eq_getElem h1, List.getD_eq_getElem?_getD, List.getElem?_eq_getElem (by simpa using h)] at this
  simp only [Option.getD_some, List.getElem_ofFn] at this ⊢
  exact this

theorem flipMu_zeros (n : ℕ) : flipMu (List.replicate n (.fin 0)) = List.replicate n (.fin 0) := by
  refine List.ext_getElem (flipMu_length _) fun i h1 h2 => ?_
  have h := flipMu_get (List.replicate n (.fin 0)) i (by simpa using h2)
  rw [List.getD_eq_getElem?_getD, List.getElem?_eq_getElem h1, List.getD_eq_getElem?_getD, List.getElem?_eq_getElem h2] at h
  simp only [Option.getD_some, List.getElem_replicate, sg, zero_neg, ite_self] at h ⊢
  exact h

/-! ### the factor of the proposal covariance -/

section ram
variable {A : Arith} (hA : SignFree A) {d : ℕ}

/-- conjugation of a matrix with the diagonal matrix of signs -/
noncomputable def flipMat (L : Fin d → Fin d → Dbl) : Fin d → Fin d → Dbl := fun i j => sg (i.val = 2) (sg (j.val = 2) (L i j))
/-- product of a vector with it -/
noncomputable def flipVec (v : Fin d → Dbl) : Fin d → Dbl := fun i => sg (i.val = 2) (v i)

theorem flipMat_diag (L : Fin d → Fin d → Dbl) (k : Fin d) : flipMat L k k = L k k := by
  unfold flipMat sg; split_ifs
  · exact dbl_neg_neg _
  · rfl

include hA

theorem flip_cholRow (s : Dbl) (L : Fin d → Fin d → Dbl) (v : Fin d → Dbl) (k : Fin d) :
    fcholRow A s (flipMat L, flipVec v) k = (flipMat (fcholRow A s (L, v) k).1, flipVec (fcholRow A s (L, v) k).2) := by
  have hr : A.mul (A.mul s (flipVec v k)) (flipVec v k) = A.mul (A.mul s (v k)) (v k) := by
    unfold flipVec sg; split_ifs
    · rw [mul_n hA, mul_n hA, n_mul hA, dbl_neg_neg]
    · rfl
  have hs : A.div (flipVec v k) (L k k) = sg (k.val = 2) (A.div (v k) (L k k)) := by
    unfold flipVec sg; split_ifs
    · exact n_div hA _ _
    · rfl
  have e1 : (fcholRow A s (flipMat L, flipVec v) k).1 = flipMat (fcholRow A s (L, v) k).1 := by
    funext i j
    simp only [fcholRow, flipMat_diag, hr, hs]
    by_cases hi : i = k
    · subst hi
      by_cases hj : j = i
      · subst hj
        simp only [if_true, flipMat, sg]
        split_ifs
        · rw [dbl_neg_neg]
        · rfl
      · by_cases hk : i < j
        · simp only [if_true, if_neg hj, if_pos hk, flipMat, flipVec, sg]
          split_ifs <;> simp only [mul_n hA, n_mul hA, dbl_neg_neg, add_nn hA, n_div hA]
        · simp only [if_true, if_neg hj, if_neg hk, flipMat]
    · simp only [if_neg hi, flipMat]
  refine Prod.ext e1 ?_
  funext j
  show (if k < j then A.sub (A.mul _ (flipVec v j)) (A.mul _ ((fcholRow A s (flipMat L, flipVec v) k).1 k j)) else flipVec v j) = _
  simp only [e1, flipMat_diag, hr, hs]
  show _ = flipVec (fun j => if k < j then A.sub (A.mul _ (v j)) (A.mul _ ((fcholRow A s (L, v) k).1 k j)) else v j) j
  simp only [flipVec]
  split_ifs with hk
  · simp only [flipMat, sg]
    split_ifs <;> simp only [mul_n hA, n_mul hA, dbl_neg_neg, sub_nn hA]
  · rfl

theorem flip_cholUpdate (L : Fin d → Fin d → Dbl) (v : Fin d → Dbl) (b : Bool) :
    fcholUpdateR1 A (flipMat L) (flipVec v) b = flipMat (fcholUpdateR1 A L v b) := by
  unfold fcholUpdateR1
  have key : ∀ (l : List (Fin d)) (L : Fin d → Fin d → Dbl) (v : Fin d → Dbl) (s : Dbl),
      (l.foldl (fcholRow A s) (flipMat L, flipVec v)).1 = flipMat (l.foldl (fcholRow A s) (L, v)).1 := by
    intro l
    induction l with
    | nil => intro L v s; rfl
    | cons k l ih =>
      intro L v s
      rw [List.foldl_cons, List.foldl_cons, flip_cholRow hA]
      exact ih _ _ s
  exact key _ L v _

end ram

/-! ### objects -/

/-- An involution of the parameter objects that belongs to the change of sign. -/
structure Mirrors (μ : Type) [FTarget μ] (A : Arith) (d : ℕ) where
  flip : μ → μ
  ld : ∀ s θ, FTarget.ld A (flip s) (flipMu θ) = Except.map (fun r => (flip r.1, r.2)) (FTarget.ld A s θ)
  stale : ∀ s θ, FTarget.staleLd A (flip s) (flipMu θ) = FTarget.staleLd A s θ
  start : ∀ s r, FTarget.start A (flip s) (mirror d r) =
    Except.map (fun x => (flip x.1, flipMu x.2.1, mirror d x.2.2)) (FTarget.start A s r)
  setStart : ∀ s i r, FTarget.setStart A (flip s) (flipMu i) (mirror d r) =
    Except.map (fun x => (flip x.1, flipMu x.2.1, mirror d x.2.2)) (FTarget.setStart A s i r)

section steps
variable {μ : Type} [FTarget μ] {M : Mach} {d : ℕ} (hM : SignFreeM M) (F : Mirrors μ M.A d)

/-- a chain of the mirrored run -/
noncomputable def Mirrors.par {A : Arith} (F : Mirrors μ A d) (s : FPar μ) : FPar μ :=
  ⟨F.flip s.obj, flipMu s.value, s.logpost, s.temp, s.samples.map flipMu, s.logposts⟩

omit [FTarget μ] in
theorem recorded_par [FTarget μ] {A : Arith} (F : Mirrors μ A d) (s : FPar μ) : recorded (F.par s) = flipRecorded (recorded s) := rfl

/-- a RAM step of the mirrored run -/
noncomputable def flipRam (a : FRam d) : FRam d := { a with chol := flipMat a.chol }

/-- a step of the mirrored run -/
noncomputable def flipStep : FStep d → FStep d
  | .ram i a => .ram i (flipRam a)
  | .exch i => .exch i

/-- the sampler of the mirrored run -/
noncomputable def Mirrors.samp {A : Arith} (F : Mirrors μ A d) (s : FSamp μ d) : FSamp μ d :=
  ⟨s.chains.map F.par, s.steps.map flipStep, s.tracked, mirror d s.rng⟩

theorem wrU_map' {α β : Type} (f : α → β) (l : List α) (i : ℕ) (a : α) : wrU (l.map f) i (f a) = Except.map (List.map f) (wrU l i a) := by
  unfold wrU; rw [List.length_map]; split_ifs
  · rw [← List.map_set]; rfl
  · rfl

theorem par_save {A : Arith} (F : Mirrors μ A d) (s : FPar μ) (θ : List Dbl) : (F.par s).save A (flipMu θ) = Except.map F.par (s.save A θ) := by
  unfold FPar.save
  rw [show (F.par s).obj = F.flip s.obj from rfl, F.ld, emap_bind, ebind_map]
  rfl

theorem par_saveStale {A : Arith} (F : Mirrors μ A d) (s : FPar μ) (θ : List Dbl) : (F.par s).saveStale A (flipMu θ) = Except.map F.par (s.saveStale A θ) := by
  unfold FPar.saveStale
  rw [show (F.par s).obj = F.flip s.obj from rfl, F.stale, ebind_map]
  rfl

theorem mirror_unif (r : FRng) : (⟨FRng.skip 1 (mirror d r).unif, (mirror d r).stud, (mirror d r).prior, (mirror d r).yvar⟩ : FRng) =
    mirror d ⟨FRng.skip 1 r.unif, r.stud, r.prior, r.yvar⟩ := rfl

theorem mirror_stud (r : FRng) : (⟨(mirror d r).unif, FRng.skip d (mirror d r).stud, (mirror d r).prior, (mirror d r).yvar⟩ : FRng) =
    mirror d ⟨r.unif, FRng.skip d r.stud, r.prior, r.yvar⟩ := by
  unfold mirror
  congr 1
  funext i
  simp only [FRng.skip, Nat.add_mod_right]

theorem par_accept (F : Mirrors μ M.A d) (s : FPar μ) (θ : List Dbl) (r : FRng) : FRam.accept M (F.par s) (flipMu θ) (mirror d r) =
    Except.map (fun x => (x.1, F.par x.2.1, x.2.2.1, mirror d x.2.2.2)) (FRam.accept M s θ r) := by
  unfold FRam.accept
  rw [show (F.par s).obj = F.flip s.obj from rfl, F.ld, emap_bind, ebind_map]
  refine ebind_congr fun x => ?_
  show (if _ then _ else _) = Except.map _ (if _ then _ else _)
  rw [apply_ite (Except.map _)]
  refine if_congr Iff.rfl rfl rfl

include hM

theorem flip_adapt (a : FRam d) (u w : Fin d → Dbl) : (flipRam a).adapt M (flipVec u) (flipVec w) = flipRam (a.adapt M u w) := by
  unfold FRam.adapt
  by_cases h : a.niter < a.maxiter ∧ a.alpha.isFin
  · rw [if_pos h, if_pos (show (flipRam a).niter < (flipRam a).maxiter ∧ (flipRam a).alpha.isFin from h)]
    simp only [flipRam]
    have hn : M.norm (List.ofFn (flipVec u)) = M.norm (List.ofFn u) := hM.norm d (fun i => i.val = 2) u
    rw [hn, ← flip_cholUpdate hM.real]
    congr 2
    funext i
    unfold flipVec sg
    split_ifs
    · exact mul_n hM.real _ _
    · rfl
  · rw [if_neg h, if_neg (show ¬ ((flipRam a).niter < (flipRam a).maxiter ∧ (flipRam a).alpha.isFin) from h)]

theorem flip_scaled (a : FRam d) (u : Fin d → Dbl) : (flipRam a).scaled M (flipVec u) = flipVec (a.scaled M u) := by
  funext j
  unfold FRam.scaled
  show M.dot (List.ofFn fun i => sg (i.val = 2) (sg (j.val = 2) (a.chol i j))) (List.ofFn fun i => sg (i.val = 2) (u i)) = _
  rw [hM.dot_both d (fun i => i.val = 2)]
  unfold flipVec sg
  split_ifs
  · rw [← hM.dot_neg, List.map_ofFn]; rfl
  · rfl

theorem flip_doStep (a : FRam d) (s : FPar μ) (r : FRng) : (flipRam a).doStep M (F.par s) (mirror d r) =
    Except.map (fun x => (flipRam x.1, F.par x.2.1, mirror d x.2.2)) (a.doStep M s r) := by
  unfold FRam.doStep
  rw [show (F.par s).value = flipMu s.value from rfl, flipMu_length]
  by_cases hl : s.value.length ≠ d
  · simp only [if_pos hl]; rfl
  simp only [if_neg hl, pure_bind]
  push Not at hl
  have hu : (fun i : Fin d => (mirror d r).stud i) = flipVec fun i : Fin d => r.stud i := by
    funext i
    show sg (i.val % d = 2) _ = sg (i.val = 2) _
    simp only [Nat.mod_eq_of_lt i.isLt]
  rw [hu, flip_scaled hM]
  have hθ : (List.ofFn fun i : Fin d => M.A.add ((flipMu s.value).getD i .nan) (flipVec (a.scaled M fun i => r.stud i) i)) =
      flipMu (List.ofFn fun i : Fin d => M.A.add (s.value.getD i .nan) (a.scaled M (fun i => r.stud i) i)) := by
    rw [flipMu_ofFn]
    congr 1
    funext i
    rw [flipMu_get _ _ (by omega)]
    unfold flipVec sg
    split_ifs
    · exact add_nn hM.real _ _
    · rfl
  rw [hθ, mirror_stud, par_accept, emap_bind, ebind_map]
  refine ebind_congr fun x => ?_
  simp only
  have e2 := flip_adapt hM ({ a with alpha := x.2.2.1 } : FRam d) (fun i => r.stud i) (a.scaled M fun i => r.stud i)
  by_cases h : x.1 = true
  · simp only [if_pos h]
    rw [par_save, emap_bind, ebind_map]
    refine ebind_congr fun s' => ?_
    rw [emap_pure]
    show pure ((⟨(FRam.adapt M (flipRam { a with alpha := x.2.2.1 }) _ _).chol, _, _, _, _, _⟩ : FRam d), _, _) = _
    rw [e2]
    show pure ((⟨_, (FRam.adapt M (flipRam { a with alpha := x.2.2.1 }) _ _).gamma, (FRam.adapt M (flipRam { a with alpha := x.2.2.1 }) _ _).target,
      (FRam.adapt M (flipRam { a with alpha := x.2.2.1 }) _ _).niter + 1, (FRam.adapt M (flipRam { a with alpha := x.2.2.1 }) _ _).maxiter,
      (FRam.adapt M (flipRam { a with alpha := x.2.2.1 }) _ _).alpha⟩ : FRam d), _, _) = _
    rw [e2]
    rfl
  · simp only [if_neg h]
    rw [emap_pure]
    show pure ((⟨(FRam.adapt M (flipRam { a with alpha := x.2.2.1 }) _ _).chol, _, _, _, _, _⟩ : FRam d), _, _) = _
    rw [e2]
    show pure ((⟨_, (FRam.adapt M (flipRam { a with alpha := x.2.2.1 }) _ _).gamma, (FRam.adapt M (flipRam { a with alpha := x.2.2.1 }) _ _).target,
      (FRam.adapt M (flipRam { a with alpha := x.2.2.1 }) _ _).niter + 1, (FRam.adapt M (flipRam { a with alpha := x.2.2.1 }) _ _).maxiter,
      (FRam.adapt M (flipRam { a with alpha := x.2.2.1 }) _ _).alpha⟩ : FRam d), _, _) = _
    rw [e2]
    rfl

omit hM

theorem flip_exchange {A : Arith} (F : Mirrors μ A d) (i : ℕ) (ps : List (FPar μ)) (r : FRng) : fexchange A i (ps.map F.par) (mirror d r) =
    Except.map (fun x => (x.1.map F.par, mirror d x.2)) (fexchange A i ps r) := by
  unfold fexchange
  rw [rdU_map', emap_bind, ebind_map]
  refine ebind_congr fun this => ?_
  rw [ebind_map]
  refine ebind_congr fun j => ?_
  rw [rdU_map', emap_bind, ebind_map]
  refine ebind_congr fun other => ?_
  rw [mirror_unif]
  show (if _ then _ else _) = Except.map _ (if _ then _ else _)
  rw [apply_ite (Except.map _)]
  refine if_congr Iff.rfl ?_ rfl
  rw [show (F.par other).value = flipMu other.value from rfl, show (F.par this).value = flipMu this.value from rfl, par_save, emap_bind, ebind_map]
  refine ebind_congr fun t' => ?_
  rw [par_saveStale, emap_bind, ebind_map]
  refine ebind_congr fun o' => ?_
  rw [emap_pure, List.map_set, List.map_set]
  rfl

include hM

theorem flip_sampStep (s : FSamp μ d) (k : ℕ) : (F.samp s).doStep M k = Except.map F.samp (s.doStep M k) := by
  unfold FSamp.doStep
  rw [show (F.samp s).steps = s.steps.map flipStep from rfl, rdU_map', emap_bind, ebind_map]
  refine ebind_congr fun st => ?_
  cases st with
  | ram i a =>
    simp only [flipStep]
    rw [show (F.samp s).chains = s.chains.map F.par from rfl, rdU_map', emap_bind, ebind_map]
    refine ebind_congr fun par => ?_
    rw [show (F.samp s).rng = mirror d s.rng from rfl, flip_doStep hM F, emap_bind, ebind_map]
    refine ebind_congr fun x => ?_
    rw [emap_pure]
    show pure (⟨_, _, _, _⟩ : FSamp μ d) = pure ⟨(s.chains.set i x.2.1).map F.par, (s.steps.set k (.ram i x.1)).map flipStep, _, _⟩
    rw [List.map_set, List.map_set]
    rfl
  | exch i =>
    simp only [flipStep]
    rw [show (F.samp s).chains = s.chains.map F.par from rfl, show (F.samp s).rng = mirror d s.rng from rfl, flip_exchange, emap_bind, ebind_map]
    rfl

theorem flip_stepLoop (s : FSamp μ d) : ∀ m, (F.samp s).stepLoop M m = Except.map F.samp (s.stepLoop M m)
  | 0 => rfl
  | m + 1 => by
    unfold FSamp.stepLoop
    rw [flip_stepLoop s m, emap_bind, ebind_map]
    exact ebind_congr fun s => flip_sampStep hM F s m

theorem flip_iterate (s : FSamp μ d) (n : ℕ) : (F.samp s).iterate M n = Except.map F.samp (s.iterate M n) := by
  unfold FSamp.iterate
  refine iter_map (fun s => ?_) n s
  unfold FSamp.sweep
  rw [flip_stepLoop hM F, show (F.samp s).steps.length = s.steps.length from List.length_map ..]

omit hM

theorem flip_startOne {A : Arith} (F : Mirrors μ A d) (init : Option (List Dbl)) (s : FSamp μ d) (k : ℕ) :
    FSamp.startOne A (init.map flipMu) (F.samp s) k = Except.map F.samp (FSamp.startOne A init s k) := by
  unfold FSamp.startOne
  rw [show (F.samp s).steps = s.steps.map flipStep from rfl, rdU_map', emap_bind, ebind_map]
  refine ebind_congr fun st => ?_
  rw [show (flipStep st).chain = st.chain by cases st <;> rfl, show (F.samp s).chains = s.chains.map F.par from rfl, rdU_map', emap_bind, ebind_map]
  refine ebind_congr fun par => ?_
  have tail : ∀ x : μ × List Dbl × FRng, (FPar.save A { F.par par with obj := F.flip x.1 } (flipMu x.2.1) >>= fun q =>
      (pure ⟨(s.chains.map F.par).set st.chain q, s.steps.map flipStep, s.tracked, mirror d x.2.2⟩ : Res (FSamp μ d))) =
      Except.map F.samp (FPar.save A { par with obj := x.1 } x.2.1 >>= fun q =>
      (pure ⟨s.chains.set st.chain q, s.steps, s.tracked, x.2.2⟩ : Res (FSamp μ d))) := by
    intro x
    show (FPar.save A (F.par { par with obj := x.1 }) (flipMu x.2.1) >>= _) = _
    rw [par_save, emap_bind, ebind_map]
    refine ebind_congr fun q => ?_
    rw [emap_pure]
    show _ = pure (⟨(s.chains.set st.chain q).map F.par, _, _, _⟩ : FSamp μ d)
    rw [List.map_set]
  cases init with
  | none =>
    simp only [Option.map_none]
    rw [show (F.par par).obj = F.flip par.obj from rfl, show (F.samp s).rng = mirror d s.rng from rfl, F.start, emap_bind, ebind_map]
    exact ebind_congr tail
  | some i =>
    simp only [Option.map_some]
    rw [show (F.par par).obj = F.flip par.obj from rfl, show (F.samp s).rng = mirror d s.rng from rfl, F.setStart, emap_bind, ebind_map]
    exact ebind_congr tail

theorem flip_startLoop {A : Arith} (F : Mirrors μ A d) (init : Option (List Dbl)) (s : FSamp μ d) :
    ∀ m, FSamp.startLoop A (init.map flipMu) (F.samp s) m = Except.map F.samp (FSamp.startLoop A init s m)
  | 0 => rfl
  | m + 1 => by
    unfold FSamp.startLoop
    rw [flip_startLoop F init s m, emap_bind, ebind_map]
    exact ebind_congr fun s => flip_startOne F init s m

theorem flip_saveValues {A : Arith} (F : Mirrors μ A d) (s : FSamp μ d) (k : ℕ) : (F.samp s).saveValues k = Except.map F.samp (s.saveValues k) := by
  unfold FSamp.saveValues
  rw [show (F.samp s).chains = s.chains.map F.par from rfl, show (F.samp s).tracked = s.tracked from rfl, rdU_map', emap_bind, ebind_map]
  refine ebind_congr fun par => ?_
  have e : (F.par par).addToSample k = Except.map F.par (par.addToSample k) := by
    unfold FPar.addToSample
    rw [show (F.par par).samples = par.samples.map flipMu from rfl, show (F.par par).value = flipMu par.value from rfl, wrU_map', emap_bind, ebind_map]
    refine ebind_congr fun l => ?_
    rw [ebind_map]
    rfl
  rw [e, emap_bind, ebind_map]
  refine ebind_congr fun q => ?_
  rw [emap_pure]
  show pure (⟨_, _, _, _⟩ : FSamp μ d) = pure ⟨(s.chains.set s.tracked q).map F.par, _, _, _⟩
  rw [List.map_set]
  rfl

theorem flip_setSampleSize {A : Arith} (F : Mirrors μ A d) (s : FPar μ) (n : ℕ) : (F.par s).setSampleSize n = F.par (s.setSampleSize n) := by
  unfold FPar.setSampleSize
  simp only [Mirrors.par, List.length_map, List.map_append, List.map_take, List.map_replicate]
  rfl

include hM

theorem flip_sampleLoop (thin : ℕ) (s : FSamp μ d) : ∀ k, (F.samp s).sampleLoop M thin k = Except.map F.samp (s.sampleLoop M thin k)
  | 0 => rfl
  | k + 1 => by
    unfold FSamp.sampleLoop
    rw [flip_sampleLoop thin s k, emap_bind, ebind_map]
    refine ebind_congr fun s => ?_
    rw [flip_iterate hM F, emap_bind, ebind_map]
    exact ebind_congr fun s => flip_saveValues F s k

theorem flip_run (s : FSamp μ d) (n burnin thin : ℕ) (init : List Dbl) :
    (F.samp s).run M n burnin thin (flipMu init) = Except.map F.samp (s.run M n burnin thin init) := by
  unfold FSamp.run
  rw [show (F.samp s).chains = s.chains.map F.par from rfl, show (F.samp s).tracked = s.tracked from rfl, rdU_map', emap_bind, ebind_map]
  refine ebind_congr fun par => ?_
  rw [flip_setSampleSize, ← List.map_set]
  show (rdU (s.steps.map flipStep) 0 >>= _) = Except.map _ (rdU s.steps 0 >>= _)
  rw [rdU_map', emap_bind, ebind_map]
  refine ebind_congr fun st => ?_
  simp only
  rw [show (flipStep st).chain = st.chain by cases st <;> rfl, rdU_map', emap_bind, ebind_map]
  refine ebind_congr fun q => ?_
  have key : ∀ s' : FSamp μ d, (FSamp.startLoop M.A (if (flipMu init).length = (F.par q).value.length then some (flipMu init) else none) (F.samp s')
      (F.samp s').steps.length >>= fun s => FSamp.iterate M s burnin >>= fun s => FSamp.sampleLoop M thin s n) =
      Except.map F.samp (FSamp.startLoop M.A (if init.length = q.value.length then some init else none) s' s'.steps.length >>= fun s =>
        FSamp.iterate M s burnin >>= fun s => FSamp.sampleLoop M thin s n) := by
    intro s'
    have e : (if (flipMu init).length = (F.par q).value.length then some (flipMu init) else none) =
        (if init.length = q.value.length then some init else none).map flipMu := by
      rw [show (F.par q).value = flipMu q.value from rfl, flipMu_length, flipMu_length]
      split_ifs <;> rfl
    rw [e, show (F.samp s').steps.length = s'.steps.length from List.length_map .., flip_startLoop, emap_bind, ebind_map]
    refine ebind_congr fun s => ?_
    rw [flip_iterate hM F, emap_bind, ebind_map]
    exact ebind_congr fun s => flip_sampleLoop hM F thin s n
  exact key ⟨s.chains.set s.tracked (par.setSampleSize n), s.steps, s.tracked, s.rng⟩

end steps
end Verif.Theory
