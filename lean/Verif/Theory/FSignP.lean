import Verif.Theory.FSign

/-!
Changing the sign of the data commutes with every operation of the CARMA filter and its log-density.
-/

namespace Verif.Theory

open Verif.Model Verif.Spec

variable {p : ℕ} {C : CArith}

@[inherit_doc flip1]
noncomputable def flipP (s : FKFp p) : FKFp p := { s with b := flip1 s.b, state := fun k => (s.state k).neg, innov := s.innov.neg }

/-- the constant coefficients change their sign, the slopes do not -/
noncomputable def flipK (c : FKFp.Coefs p) : FKFp.Coefs p := (fun k => (c.1 k).neg, c.2)

theorem cd_zero_neg : (CD.ofReal (.fin 0)).neg = CD.ofReal (.fin 0) := by simp [CD.neg, CD.ofReal, Dbl.neg]
theorem cd_ofReal_neg (x : Dbl) : CD.ofReal x.neg = (CD.ofReal x).neg := by simp [CD.neg, CD.ofReal, Dbl.neg]
theorem cd_neg_fst (z : CD) : z.neg.1 = z.1.neg := rfl

theorem flipP_newData (p : ℕ) (srt : List Dbl → List ℕ) (time y yerr : List Dbl) :
    FKFp.newData C p srt time (y.map .neg) yerr = Except.map flipP (FKFp.newData C p srt time y yerr) := by
  unfold FKFp.newData
  rw [flip1_newData, emap_bind, ebind_map]
  refine ebind_congr fun b => ?_
  rw [flip1_initSort, emap_bind, ebind_map]
  refine ebind_congr fun b => ?_
  rw [flip1_initDedup, emap_bind, ebind_map]
  refine ebind_congr fun b => ?_
  simp only [emap_pure, FKFp.zeroed, flipP, cd_zero_neg]
  rfl

theorem flipP_new (srt : List Dbl → List ℕ) (time y yerr : List Dbl) (sigsqr : Dbl) (omega : Fin p → CD) (ma : List Dbl) :
    FKFp.new C srt time (y.map .neg) yerr sigsqr omega ma = Except.map flipP (FKFp.new C srt time y yerr sigsqr omega ma) := by
  unfold FKFp.new
  rw [flip1_newData, emap_bind, ebind_map]
  refine ebind_congr fun b => ?_
  simp only [emap_pure, FKFp.zeroed, flipP, cd_zero_neg]
  rfl

theorem flipP_reset (s : FKFp p) : FKFp.reset C (flipP s) = Except.map flipP (FKFp.reset C s) := by
  unfold FKFp.reset
  by_cases hp : p < 2
  · simp only [if_pos hp]; rfl
  simp only [if_neg hp, pure_bind]
  rw [show (flipP s).omega = s.omega from rfl, show (flipP s).ma = s.ma from rfl, ebind_map]
  refine ebind_congr fun J => ?_
  by_cases hm : s.ma.length ≠ p
  · simp only [if_pos hm]; rfl
  simp only [if_neg hm, pure_bind]
  simp only [flipP, flip1, wr_zero, rd_map', emap_bind, ebind_map, emap_pure, cd_zero_neg]

section sign
variable (hC : SignFreeC C)
include hC

theorem cadd_nn (z w : CD) : C.cadd z.neg w.neg = (C.cadd z w).neg := by
  simp only [CArith.cadd, CD.neg, add_nn hC.real]

theorem csub_nn (z w : CD) : C.csub z.neg w.neg = (C.csub z w).neg := by
  simp only [CArith.csub, CD.neg, sub_nn hC.real]

theorem flipP_update (s : FKFp p) : FKFp.update C (flipP s) = Except.map flipP (FKFp.update C s) := by
  simp only [FKFp.update, flipP, flip1, rd_map', cd_ofReal_neg, hC.cmul, cadd_nn hC, hC.dot, cd_neg_fst, wr_map', emap_bind, ebind_map, emap_pure,
    sub_nn hC.real]

theorem flipP_filter (s : FKFp p) : FKFp.filter C (flipP s) = Except.map flipP (FKFp.filter C s) := by
  unfold FKFp.filter
  rw [flipP_reset, emap_bind, ebind_map]
  exact ebind_congr fun s => iter_map (flipP_update hC) _ s

theorem flipP_initCoefs (s : FKFp p) (x : Dbl) (i : ℕ) (m v : Dbl) : FKFp.initCoefs C (flipP s) x i m.neg v =
    Except.map (fun r => (flipP r.1, flipK r.2)) (FKFp.initCoefs C s x i m v) := by
  simp only [FKFp.initCoefs, flipP, flip1, flipK, cd_ofReal_neg, hC.cmul, csub_nn hC, hC.dot, cd_neg_fst, emap_bind, ebind_map, emap_pure]

theorem flipP_updateCoefs (s : FKFp p) (c : FKFp.Coefs p) : FKFp.updateCoefs C (flipP s) (flipK c) =
    Except.map (fun r => (flipP r.1, flipK r.2)) (FKFp.updateCoefs C s c) := by
  simp only [FKFp.updateCoefs, flipP, flip1, flipK, rd_map', sub_nn hC.real, cd_ofReal_neg, hC.cmul, cadd_nn hC, hC.dot, cd_neg_fst, emap_bind, ebind_map,
    emap_pure]

theorem flipP_predictPast (s : FKFp p) (x : Dbl) (i : ℕ) : FKFp.predictPast C (flipP s) x i =
    Except.map (fun r => (flipP r.1, flipMV r.2)) (FKFp.predictPast C s x i) := by
  unfold FKFp.predictPast
  split_ifs
  · simp only [emap_pure, flipMV, zero_neg]; rfl
  · simp only [flipP, flip1, flipMV, cd_ofReal_neg, hC.cmul, cadd_nn hC, hC.dot, cd_neg_fst, ebind_map, emap_pure]

theorem flipP_accum (s : FKFp p) (i : ℕ) (a : Dbl × Dbl) : FKFp.accum C (flipP s) i (flipVM a) = Except.map flipVM (FKFp.accum C s i a) := by
  simp only [FKFp.accum, flipP, flip1, flipVM, rd_map', sub_nn hC.real, mul_n hC.real, n_div hC.real, add_nn hC.real, emap_bind, ebind_map, emap_pure]

theorem flipP_coefLoop : ∀ (k i : ℕ) (s : FKFp p) (c : FKFp.Coefs p) (a : Dbl × Dbl), FKFp.coefLoop C k i (flipP s) (flipK c) (flipVM a) =
    Except.map (fun r => (flipP r.1, flipVM r.2)) (FKFp.coefLoop C k i s c a)
  | 0, _, _, _, _ => rfl
  | k + 1, i, s, c, a => by
    unfold FKFp.coefLoop
    rw [flipP_updateCoefs hC, emap_bind, ebind_map]
    refine ebind_congr fun r => ?_
    simp only [flipP_accum hC, emap_bind, ebind_map]
    exact ebind_congr fun a => flipP_coefLoop k (i + 1) r.1 r.2 a

theorem flipP_predict (s : FKFp p) (x : Dbl) : FKFp.predict C (flipP s) x =
    Except.map (fun r => (flipP r.1, flipMV r.2)) (FKFp.predict C s x) := by
  unfold FKFp.predict
  rw [ebind_map]
  refine ebind_congr fun ip => ?_
  rw [flipP_reset, emap_bind, ebind_map]
  refine ebind_congr fun s => ?_
  rw [iter_map (flipP_update hC), emap_bind, ebind_map]
  refine ebind_congr fun s => ?_
  rw [flipP_predictPast hC, emap_bind, ebind_map]
  refine ebind_congr ?_
  rintro ⟨s, m, v⟩
  simp only [flipMV, show (flipP s).b.time = s.b.time from rfl]
  split_ifs
  · rfl
  · simp only [n_mul hC.real, n_div hC.real, flipP_initCoefs hC, emap_bind, ebind_map]
    refine ebind_congr fun r => ?_
    have e := flipP_accum hC r.1 ip (C.r.div (.fin 1) v, C.r.mul m (C.r.div (.fin 1) v))
    simp only [flipVM] at e
    rw [e, emap_bind]
    refine ebind_congr fun a => ?_
    have e := flipP_coefLoop hC (r.1.b.time.length - (ip + 1)) (ip + 1) r.1 r.2 a
    rw [show (flipP r.1).b.time = r.1.b.time from rfl, e, emap_bind]
    refine ebind_congr fun r => ?_
    simp only [flipVM, emap_pure, n_mul hC.real]

theorem flipP_simStep (s : FKFp p) (t z : Dbl) : FKFp.simStep C (flipP s) t z.neg =
    Except.map (fun r => (flipP r.1, r.2.neg)) (FKFp.simStep C s t z) := by
  unfold FKFp.simStep
  rw [flipP_predict hC, emap_bind, ebind_map]
  refine ebind_congr fun r => ?_
  simp only [flipP, flip1, flipMV, FKF1.drawNormal, n_mul hC.real, add_nn hC.real, insertRow_map', emap_bind, ebind_map, emap_pure, replicate_neg]

theorem flipP_simLoop : ∀ (ts : List Dbl) (zs : ℕ → Dbl) (s : FKFp p), FKFp.simLoop C (flipP s) ts (fun k => (zs k).neg) =
    Except.map (fun r => (flipP r.1, r.2.map .neg)) (FKFp.simLoop C s ts zs)
  | [], _, _ => rfl
  | t :: ts, zs, s => by
    unfold FKFp.simLoop
    rw [flipP_simStep hC, emap_bind, ebind_map]
    refine ebind_congr fun r => ?_
    have e := flipP_simLoop ts (fun k => zs (k + 1)) r.1
    simp only [e, emap_bind, ebind_map, emap_pure, List.map_cons]

theorem flipP_simulate (s : FKFp p) (ts : List Dbl) (zs : ℕ → Dbl) : FKFp.simulate C (flipP s) ts (fun k => (zs k).neg) =
    Except.map (fun r => (flipP r.1, r.2.map .neg)) (FKFp.simulate C s ts zs) := by
  unfold FKFp.simulate
  rw [ebind_map]
  refine ebind_congr fun sorted => ?_
  rw [flipP_simLoop hC, emap_bind, ebind_map]
  refine ebind_congr fun r => ?_
  simp only [flipP, flip1, ebind_map, emap_pure, replicate_neg]

theorem flipP_call (s : FKFp p) (c : Call (Fin p → CD)) : callP C (flipP s) c.flip = Except.map (fun r => (flipP r.1, r.2.flip)) (callP C s c) := by
  cases c <;> try rfl
  · simp only [callP, Call.flip, flipP_filter hC]; cases FKFp.filter C s <;> rfl
  · rename_i x; simp only [callP, Call.flip, flipP_predict hC]; cases FKFp.predict C s x <;> rfl
  · rename_i x z; simp only [callP, Call.flip, flipP_simulate hC]; cases FKFp.simulate C s x z <;> rfl
  · simp only [callP, Call.flip, FKFp.setOmega, FKFp.zeroed, emap_ok, flipP, cd_zero_neg]; rfl

end sign

/-! ### log-density -/

@[inherit_doc flipCar1]
noncomputable def flipCarP (s : FCarP p) : FCarP p := { s with y := s.y.map .neg, kf := flipP s.kf }

theorem flipCarP_new (kind : Kind) (p : ℕ) (srt : List Dbl → List ℕ) (time y yerr : List Dbl) (M : Dbl) :
    FCarP.new C kind p srt time (y.map .neg) yerr M = Except.map flipCarP (FCarP.new C kind p srt time y yerr M) := by
  have e : FCarP.newCarp C p srt time (y.map .neg) yerr M = Except.map flipCarP (FCarP.newCarp C p srt time y yerr M) := by
    unfold FCarP.newCarp
    simp only [flipP_newData, emap_bind, ebind_map]
    refine ebind_congr fun dt => ebind_congr fun dmin => ebind_congr fun tmax => ebind_congr fun tmin => ebind_congr fun kf => ?_
    split_ifs <;> rfl
  unfold FCarP.new
  rw [e, emap_bind, ebind_map]
  refine ebind_congr fun s => ?_
  cases kind
  · rfl
  · simp only [ebind_map, emap_pure]; rfl
  · rfl
  · simp only [ebind_map, emap_pure]; rfl

theorem flip_rootLoop (θ : List Dbl) {off : ℕ} (h : 3 ≤ off) : ∀ k, FCarP.rootLoop C (flipMu θ) off k = FCarP.rootLoop C θ off k
  | 0 => rfl
  | k + 1 => by
    unfold FCarP.rootLoop
    rw [flip_rootLoop θ h k, rd_flipMu (by omega), rd_flipMu (by omega)]

theorem flip_rootsFrom (θ : List Dbl) {off : ℕ} (h : 3 ≤ off) (m : ℕ) : FCarP.rootsFrom C (flipMu θ) off m = FCarP.rootsFrom C θ off m := by
  unfold FCarP.rootsFrom
  rw [flip_rootLoop θ h]
  by_cases hm : m % 2 = 1
  · simp only [if_pos hm]
    rw [rd_flipMu (by omega)]
  · simp only [if_neg hm]

theorem flip_extractMA (s : FCarP p) (θ : List Dbl) : FCarP.extractMA C (flipCarP s) (flipMu θ) = FCarP.extractMA C s θ := by
  unfold FCarP.extractMA FCarP.carmaMA
  rw [show (flipCarP s).kind = s.kind from rfl]
  cases s.kind
  · rfl
  · rfl
  · simp only
    rw [flip_rootsFrom θ (by omega)]
  · simp only
    rw [rd_flipMu (by omega)]
    rfl

theorem flip_extractSigsqr (s : FCarP p) (θ : List Dbl) : FCarP.extractSigsqr C (flipCarP s) (flipMu θ) = FCarP.extractSigsqr C s θ := by
  unfold FCarP.extractSigsqr
  rw [flip_rootsFrom θ le_rfl, flip_extractMA, rd_flipMu (by decide)]

theorem flip_checkPrior (s : FCarP p) (θ : List Dbl) : FCarP.checkPrior C (flipCarP s) (flipMu θ) = FCarP.checkPrior C s θ := by
  unfold FCarP.checkPrior
  rw [flip_rootsFrom θ le_rfl, rd_flipMu (by decide), rd_flipMu (by decide)]
  rfl

theorem flip_logPriorP (s : FCarP p) (θ : List Dbl) : FCarP.logPrior C (flipCarP s) (flipMu θ) = FCarP.logPrior C s θ := by
  unfold FCarP.logPrior
  rw [show (flipCarP s).kind = s.kind from rfl, flip_logPrior, rd_flipMu (by omega)]

theorem flip_setUp (hC : SignFreeC C) (s : FCarP p) (θ : List Dbl) : FCarP.setUp C (flipCarP s) (flipMu θ) = Except.map flipP (FCarP.setUp C s θ) := by
  unfold FCarP.setUp
  rw [flip_rootsFrom θ le_rfl, flip_extractMA, flip_extractSigsqr, rd_flipMu (by decide), rd_flipMu_two]
  simp only [emap_bind, ebind_map, emap_pure]
  refine ebind_congr fun roots => ebind_congr fun ma => ebind_congr fun sig => ebind_congr fun sc => ebind_congr fun mu => ?_
  simp only [flipCarP, map_sub_neg hC.real, FKFp.zeroed, flipP, flip1, cd_zero_neg]

theorem flipCarP_logDensity (hC : SignFreeC C) (s : FCarP p) (θ : List Dbl) : FCarP.logDensity C (flipCarP s) (flipMu θ) =
    Except.map (fun r => (flipCarP r.1, r.2)) (FCarP.logDensity C s θ) := by
  unfold FCarP.logDensity
  rw [flip_checkPrior, flip_setUp hC, rd_flipMu_two, flip_logPriorP, ebind_map]
  refine ebind_congr fun ok => ?_
  by_cases h : ok = false
  · simp only [h, if_true, emap_pure]
  simp only [if_neg h, emap_bind, ebind_map]
  refine ebind_congr fun kf => ebind_congr fun mu => ?_
  rw [flipP_filter hC]
  cases FKFp.filter C kf with
  | error f => cases f <;> rfl
  | ok k =>
    simp only [emap_ok, ebind_map, emap_pure]
    rw [show (flipCarP s).y = s.y.map .neg from rfl, show (flipP k).b.mean = k.b.mean.map .neg from rfl, flip_likLoop hC.real]
    rfl

end Verif.Theory
