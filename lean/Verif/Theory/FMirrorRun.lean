import Verif.Theory.FMirror

/-!
Changing the sign of the data commutes with the run functions.
-/

namespace Verif.Theory

open Verif.Model Verif.Spec
open scoped Classical

theorem flip_ramNew (A : Arith) (d : ℕ) (l : List Dbl) (t : Dbl) (m : ℕ) : flipRam (FRam.new A d l t m) = FRam.new A d l t m := by
  unfold flipRam FRam.new
  congr 1
  funext i j
  unfold flipMat sg
  by_cases h : i = j
  · subst h
    simp only [if_true]
    split_ifs
    · exact dbl_neg_neg _
    · rfl
  · simp only [if_neg h, zero_neg, ite_self]

theorem covar_flip {A : Arith} (hA : SignFree A) (d : ℕ) (y : List Dbl) : FRun.covar A d (y.map .neg) = FRun.covar A d y := by
  unfold FRun.covar
  simp only [var_flip hA, List.length_map]

theorem maxStdev_flip {A : Arith} (hA : SignFree A) (y : List Dbl) : FRun.maxStdev A (y.map .neg) = FRun.maxStdev A y := by
  unfold FRun.maxStdev
  rw [var_flip hA]

/-! ### CAR(1) -/

section car1
variable {A : Arith} (hA : SignFree A)
include hA

theorem flipCar1_startFilter (s : FCar1) (θ : List Dbl) : FCar1.startFilter A (flipCar1 s) (flipMu θ) = Except.map flipCar1 (FCar1.startFilter A s θ) := by
  unfold FCar1.startFilter
  rw [rd_flipMu (i := 0) (by decide), rd_flipMu (i := 1) (by decide), rd_flipMu (i := 3) (by decide), rd_flipMu_two]
  simp only [emap_bind, ebind_map]
  refine ebind_congr fun sd => ebind_congr fun sc => ebind_congr fun mu => ebind_congr fun lo => ?_
  have e := flip1_filter hA ⟨s.kf.mean, s.kf.var, s.kf.time, s.kf.dt, s.y.map fun x => A.sub x mu, s.yerr.map fun x => A.mul (A.sqrt sc) x,
    A.mul (A.mul sd (A.sqrt (A.mul (.fin 2) (A.exp lo)))) (A.mul sd (A.sqrt (A.mul (.fin 2) (A.exp lo)))), A.exp lo, s.kf.cur, s.kf.yconst, s.kf.yslope⟩
  simp only [flip1, flipCar1, map_sub_neg hA] at e ⊢
  rw [e]
  simp only [emap_bind, flip1]
  rfl

theorem flipCar1_start (d : ℕ) (s : FCar1) (r : FRng) : FCar1.start A (flipCar1 s) (mirror d r) =
    Except.map (fun x => (flipCar1 x.1, flipMu x.2.1, mirror d x.2.2)) (FCar1.start A s r) := by
  unfold FCar1.start
  simp only
  rw [show (mirror d r).prior 0 = flipMu (r.prior 0) from rfl, flipCar1_startFilter hA, emap_bind, ebind_map]
  rfl

theorem flipCar1_setStart (d : ℕ) (s : FCar1) (i : List Dbl) (r : FRng) : FCar1.setStart A (flipCar1 s) (flipMu i) (mirror d r) =
    Except.map (fun x => (flipCar1 x.1, flipMu x.2.1, mirror d x.2.2)) (FCar1.setStart A s i r) := by
  unfold FCar1.setStart
  rw [flipMu_length]
  by_cases h : i.length ≠ 4
  · simp only [if_pos h]
    exact flipCar1_start hA d s r
  simp only [if_neg h]
  rw [flipCar1_logDensity hA, emap_bind, ebind_map]
  refine ebind_congr fun x => ?_
  by_cases hf : x.2.isFin
  · simp only [hf, not_true, if_false]
    rw [flipCar1_startFilter hA, emap_bind, ebind_map]
    rfl
  · simp only [hf, not_false_iff, if_true]
    exact flipCar1_start hA d x.1 r

theorem flipCar1_stale (s : FCar1) (θ : List Dbl) : FCar1.staleDensity A (flipCar1 s) (flipMu θ) = FCar1.staleDensity A s θ := by
  unfold FCar1.staleDensity
  rw [rd_flipMu_two, flip_logPrior, emap_bind]
  refine ebind_congr fun mu => ?_
  simp only [flipCar1, flip1, flip_likLoop hA]

/-- the involution for CAR(1) -/
noncomputable def mirrorCar1 : Mirrors FCar1 A 4 where
  flip := flipCar1
  ld := flipCar1_logDensity hA
  stale := flipCar1_stale hA
  start := flipCar1_start hA 4
  setStart := flipCar1_setStart hA 4

end car1

theorem mirror_run1 {M : Mach} (hM : SignFreeM M) (srt : List Dbl → List ℕ) (n burnin : ℕ) (time y yerr : List Dbl) (thin : ℕ) (init : List Dbl) (r : FRng) :
    frunCar1 M srt n burnin time (y.map .neg) yerr thin (flipMu init) (mirror 4 r) =
      Except.map (mirrorCar1 hM.real).par (frunCar1 M srt n burnin time y yerr thin init r) := by
  unfold frunCar1
  rw [covar_flip hM.real, maxStdev_flip hM.real, flipCar1_new, emap_bind, ebind_map]
  refine ebind_congr fun obj => ?_
  rw [ebind_map]
  refine ebind_congr fun l => ?_
  have e := flip_run hM (mirrorCar1 hM.real) ⟨[⟨obj, List.replicate 4 (.fin 0), .nan, .fin 1, [], []⟩], [.ram 0 (FRam.new M.A 4 l (.fin 0.25) burnin)], 0, r⟩
    n burnin thin init
  simp only [Mirrors.samp, List.map_cons, List.map_nil, flipStep, flip_ramNew, Mirrors.par, flipMu_zeros] at e
  simp only
  rw [show (mirrorCar1 hM.real).flip obj = flipCar1 obj from rfl] at e
  rw [e, emap_bind, ebind_map]
  refine ebind_congr fun s => ?_
  exact rdU_map' _ _ _

/-! ### CARMA -/

section carma
variable {C : CArith} (hC : SignFreeC C) {p : ℕ}
include hC

theorem flipCarP_startFilter (s : FCarP p) (θ : List Dbl) (roots : List CD) (ma : List Dbl) (sig : Dbl) :
    FCarP.startFilter C (flipCarP s) (flipMu θ) roots ma sig = Except.map flipCarP (FCarP.startFilter C s θ roots ma sig) := by
  unfold FCarP.startFilter
  rw [rd_flipMu (by decide), rd_flipMu_two]
  simp only [emap_bind, ebind_map]
  refine ebind_congr fun sc => ebind_congr fun mu => ?_
  have e := flipP_filter hC (FKFp.zeroed p { s.kf.b with sigsqr := sig, yerr := s.yerr.map fun x => C.r.mul (C.r.sqrt sc) x, y := s.y.map fun x => C.r.sub x mu }
    (FCarP.vecOf p roots) (s.startMA ma) s.kf.innov)
  simp only [flipP, flip1, flipCarP, map_sub_neg hC.real, FKFp.zeroed, cd_zero_neg, FCarP.startMA] at e ⊢
  rw [e]
  simp only [emap_bind]
  rfl

theorem flipCarP_startPass (s : FCarP p) (θ : List Dbl) (v : Dbl) :
    FCarP.startPass C (flipCarP s) (flipMu θ) v = Except.map (fun x => (flipCarP x.1, x.2)) (FCarP.startPass C s θ v) := by
  unfold FCarP.startPass
  rw [flip_extractMA, flip_rootsFrom θ le_rfl, ebind_map]
  refine ebind_congr fun ma => ?_
  rw [ebind_map]
  refine ebind_congr fun roots => ?_
  simp only [show (flipCarP s).kind = s.kind from rfl]
  split_ifs
  · rfl
  · rw [flipCarP_startFilter hC, emap_bind, ebind_map]
    exact ebind_congr fun s => flipCarP_logDensity hC s θ

theorem flipCarP_start (d : ℕ) : ∀ (fuel : ℕ) (s : FCarP p) (r : FRng), FCarP.start C fuel (flipCarP s) (mirror d r) =
    Except.map (fun x => (flipCarP x.1, flipMu x.2.1, mirror d x.2.2)) (FCarP.start C fuel s r)
  | 0, _, _ => rfl
  | fuel + 1, s, r => by
    unfold FCarP.start
    rw [show (mirror d r).prior 0 = flipMu (r.prior 0) from rfl, show (mirror d r).yvar 0 = r.yvar 0 from rfl, flipCarP_startPass hC, emap_bind, ebind_map]
    refine ebind_congr fun x => ?_
    by_cases hf : x.2.isFin
    · simp only [hf, if_true]; rfl
    · simp only [hf]
      exact flipCarP_start d fuel x.1 ⟨r.unif, r.stud, FRng.skip 1 r.prior, FRng.skip 1 r.yvar⟩

theorem flipCarP_setStart (d fuel : ℕ) (s : FCarP p) (i : List Dbl) (r : FRng) : FCarP.setStart C fuel (flipCarP s) (flipMu i) (mirror d r) =
    Except.map (fun x => (flipCarP x.1, flipMu x.2.1, mirror d x.2.2)) (FCarP.setStart C fuel s i r) := by
  unfold FCarP.setStart
  rw [flipMu_length, show (flipCarP s).kind = s.kind from rfl]
  by_cases h : i.length ≠ CarP.thetaLen p s.kind
  · simp only [if_pos h]
    exact flipCarP_start hC d fuel s r
  simp only [if_neg h]
  rw [flipCarP_logDensity hC, emap_bind, ebind_map]
  refine ebind_congr fun x => ?_
  by_cases hf : x.2.isFin
  · simp only [hf, not_true, if_false]
    rw [rd_flipMu (by decide), flip_rootsFrom i le_rfl, flip_extractMA, ebind_map]
    refine ebind_congr fun s0 => ?_
    rw [ebind_map]
    refine ebind_congr fun roots => ?_
    rw [ebind_map]
    refine ebind_congr fun ma => ?_
    rw [flipCarP_startFilter hC, emap_bind, ebind_map]
    rfl
  · simp only [hf, not_false_iff, if_true]
    exact flipCarP_start hC d fuel x.1 r

theorem flipCarP_stale (s : FCarP p) (θ : List Dbl) : FCarP.staleDensity C (flipCarP s) (flipMu θ) = FCarP.staleDensity C s θ := by
  unfold FCarP.staleDensity
  rw [rd_flipMu_two, flip_logPriorP, emap_bind]
  refine ebind_congr fun mu => ?_
  simp only [flipCarP, flipP, flip1, flip_likLoop hC.real]

/-- the involution for CARMA -/
noncomputable def mirrorWalk {A : Arith} (hA : SignFree A) (fuel d : ℕ) : Mirrors (FWalk C p fuel) A d where
  flip w := ⟨flipCarP w.o⟩
  ld s θ := by
    show (FCarP.logDensity { C with r := A } (flipCarP s.o) (flipMu θ) >>= _) = Except.map _ (FCarP.logDensity { C with r := A } s.o θ >>= _)
    rw [flipCarP_logDensity (C := { C with r := A }) ⟨hA, hC.cmul, hC.dot⟩, emap_bind, ebind_map]; rfl
  stale s θ := flipCarP_stale (C := { C with r := A }) ⟨hA, hC.cmul, hC.dot⟩ s.o θ
  start s r := by
    show (FCarP.start { C with r := A } fuel (flipCarP s.o) (mirror d r) >>= _) = Except.map _ (FCarP.start { C with r := A } fuel s.o r >>= _)
    rw [flipCarP_start (C := { C with r := A }) ⟨hA, hC.cmul, hC.dot⟩, emap_bind, ebind_map]; rfl
  setStart s i r := by
    show (FCarP.setStart { C with r := A } fuel (flipCarP s.o) (flipMu i) (mirror d r) >>= _) =
      Except.map _ (FCarP.setStart { C with r := A } fuel s.o i r >>= _)
    rw [flipCarP_setStart (C := { C with r := A }) ⟨hA, hC.cmul, hC.dot⟩, emap_bind, ebind_map]; rfl

theorem flip_ensemble {A : Arith} (hA : SignFree A) (fuel d : ℕ) (srt : List Dbl → List ℕ) (time y yerr : List Dbl) (kind : Kind) (B : Dbl) (n : ℕ) :
    ∀ m, fensemble C fuel srt time (y.map .neg) yerr p kind B n m =
      Except.map (List.map (mirrorWalk hC hA fuel d).par) (fensemble C fuel srt time y yerr p kind B n m)
  | 0 => rfl
  | m + 1 => by
    unfold fensemble
    rw [flip_ensemble hA fuel d srt time y yerr kind B n m, emap_bind, ebind_map]
    refine ebind_congr fun l => ?_
    rw [flipCarP_new, emap_bind, ebind_map]
    refine ebind_congr fun obj => ?_
    rw [emap_pure, List.map_append, List.map_cons, List.map_nil]
    simp only [Mirrors.par, flipMu_zeros]
    rfl

end carma

theorem flip_steps {d : ℕ} (a : FRam d) : ∀ m, (fsteps a m).map flipStep = fsteps (flipRam a) m
  | 0 => rfl
  | m + 1 => by simp only [fsteps, List.map_cons, flipStep, flip_steps a m]

theorem mirror_runP {C : CArith} (hC : SignFreeC C) {M : Mach} (hM : SignFreeM M) (fuel : ℕ) (srt : List Dbl → List ℕ) (n burnin : ℕ) (time y yerr : List Dbl)
    (p q nw : ℕ) (z : Bool) (thin : ℕ) (init : List Dbl) (r : FRng) :
    frunCarma C M fuel srt n burnin time (y.map .neg) yerr p q nw z thin (flipMu init) (mirror (nParams p q z) r) =
      Except.map (mirrorWalk hC hM.real fuel (nParams p q z)).par (frunCarma C M fuel srt n burnin time y yerr p q nw z thin init r) := by
  unfold frunCarma
  rw [covar_flip hM.real, maxStdev_flip hM.real, flip_ensemble hC hM.real fuel (nParams p q z), emap_bind, ebind_map]
  refine ebind_congr fun chains => ?_
  rw [ebind_map]
  refine ebind_congr fun l => ?_
  simp only
  rw [rdU_map', emap_bind, ebind_map]
  refine ebind_congr fun _ => ?_
  have e := flip_run hM (mirrorWalk hC hM.real fuel (nParams p q z)) ⟨chains, fsteps (FRam.new M.A (nParams p q z) l (.fin 0.25) burnin) (nw - 1) ++
    [.ram 0 (FRam.new M.A (nParams p q z) l (.fin 0.25) burnin)], 0, r⟩ n burnin thin init
  simp only [Mirrors.samp, List.map_append, flip_steps, List.map_cons, List.map_nil, flipStep, flip_ramNew] at e
  rw [e, emap_bind, ebind_map]
  refine ebind_congr fun s => ?_
  exact rdU_map' _ _ _

end Verif.Theory
