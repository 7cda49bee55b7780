import Verif.Theory.FSignP

/-!
Replacing the measurement errors by their absolute values commutes with every operation of the filters and the log-densities.
-/

namespace Verif.Theory

open Verif.Model Verif.Spec

theorem dbl_abs_sq (a : Dbl) : Dbl.mul a.abs a.abs = Dbl.mul a a := by
  cases a <;> simp [Dbl.abs, Dbl.mul]

theorem abs_sq (A : Arith) (a : Dbl) : A.mul a.abs a.abs = A.mul a a := by
  unfold Arith.mul
  rw [dbl_abs_sq]

theorem dbl_zero_abs : (Dbl.fin 0).abs = .fin 0 := by simp [Dbl.abs]

theorem insertRow_zero_abs (l : List Dbl) (i : ℕ) : insertRow (l.map Dbl.abs) i (Dbl.fin 0) = Except.map (List.map Dbl.abs) (insertRow l i (Dbl.fin 0)) := by
  conv_lhs => rw [← dbl_zero_abs]
  exact insertRow_map' _ _ _ _

/-! ### CAR(1) filter -/

/-- The same object with the absolute values of the errors. -/
noncomputable def abs1 (s : FKF1) : FKF1 := { s with yerr := s.yerr.map .abs }

section car1
variable {A : Arith}

theorem abs1_initSort (srt : List Dbl → List ℕ) (s : FKF1) : FKF1.initSort A srt (abs1 s) = Except.map abs1 (FKF1.initSort A srt s) := by
  unfold FKF1.initSort
  rw [ebind_map]
  refine ebind_congr fun dt => ?_
  split_ifs
  · simp only [abs1, gather_map', emap_bind, ebind_map, emap_pure]
  · rfl

theorem abs1_initDedup (s : FKF1) : FKF1.initDedup A (abs1 s) = Except.map abs1 (FKF1.initDedup A s) := by
  unfold FKF1.initDedup
  split_ifs with h1 h2 h2
  · simp only [ebind_map, emap_pure, bind_assoc, pure_bind]
    simp only [abs1, gather_map', emap_bind]
    rfl
  · exact absurd h1 h2
  · exact absurd h2 h1
  · simp only [abs1, emap_pure, pure_bind]

theorem abs1_newData (srt : List Dbl → List ℕ) (time y yerr : List Dbl) :
    FKF1.newData A srt time y (yerr.map .abs) = Except.map abs1 (FKF1.newData A srt time y yerr) := by
  have key : ∀ s : FKF1, (FKF1.initSort A srt (abs1 s) >>= FKF1.initDedup A) = Except.map abs1 (FKF1.initSort A srt s >>= FKF1.initDedup A) := by
    intro s
    rw [ebind_map, abs1_initSort, emap_bind]
    exact ebind_congr fun _ => abs1_initDedup _
  exact key ⟨[], [], time, [], y, yerr, .nan, .nan, 0, .nan, .nan⟩

theorem abs1_new (srt : List Dbl → List ℕ) (time y yerr : List Dbl) (sigsqr omega : Dbl) :
    FKF1.new A srt time y (yerr.map .abs) sigsqr omega = Except.map abs1 (FKF1.new A srt time y yerr sigsqr omega) := by
  unfold FKF1.new
  rw [abs1_newData, emap_bind, ebind_map]
  rfl

theorem abs1_reset (s : FKF1) : FKF1.reset A (abs1 s) = Except.map abs1 (FKF1.reset A s) := by
  simp only [FKF1.reset, abs1, rd_map', abs_sq, emap_bind, ebind_map, emap_pure]

theorem abs1_update (s : FKF1) : FKF1.update A (abs1 s) = Except.map abs1 (FKF1.update A s) := by
  simp only [FKF1.update, abs1, rd_map', abs_sq, emap_bind, ebind_map, emap_pure]

theorem abs1_filter (s : FKF1) : FKF1.filter A (abs1 s) = Except.map abs1 (FKF1.filter A s) := by
  unfold FKF1.filter
  rw [abs1_reset, emap_bind, ebind_map]
  exact ebind_congr fun s => iter_map abs1_update _ s

theorem abs1_initCoefs (s : FKF1) (x : Dbl) (i : ℕ) : FKF1.initCoefs A (abs1 s) x i = Except.map abs1 (FKF1.initCoefs A s x i) := by
  simp only [FKF1.initCoefs, abs1, rd_map', abs_sq, emap_bind, ebind_map, emap_pure]

theorem abs1_updateCoefs (s : FKF1) : FKF1.updateCoefs A (abs1 s) = Except.map abs1 (FKF1.updateCoefs A s) := by
  simp only [FKF1.updateCoefs, abs1, rdU_map', rd_map', abs_sq, emap_bind, ebind_map, emap_pure]

theorem abs1_predictPast (s : FKF1) (x : Dbl) (i : ℕ) : FKF1.predictPast A (abs1 s) x i = FKF1.predictPast A s x i := by
  unfold FKF1.predictPast
  split_ifs
  · rfl
  · simp only [abs1, rd_map', abs_sq, emap_bind]

theorem abs1_accum (s : FKF1) (i : ℕ) (a : Dbl × Dbl) : FKF1.accum A (abs1 s) i a = FKF1.accum A s i a := by
  simp only [FKF1.accum, abs1]

theorem abs1_coefLoop : ∀ (k i : ℕ) (s : FKF1) (a : Dbl × Dbl), FKF1.coefLoop A k i (abs1 s) a =
    Except.map (fun r => (abs1 r.1, r.2)) (FKF1.coefLoop A k i s a)
  | 0, _, _, _ => rfl
  | k + 1, i, s, a => by
    unfold FKF1.coefLoop
    rw [abs1_updateCoefs, emap_bind, ebind_map]
    refine ebind_congr fun s => ?_
    rw [abs1_accum, ebind_map]
    exact ebind_congr fun a => abs1_coefLoop k (i + 1) s a

theorem abs1_predict (s : FKF1) (x : Dbl) : FKF1.predict A (abs1 s) x = Except.map (fun r => (abs1 r.1, r.2)) (FKF1.predict A s x) := by
  unfold FKF1.predict
  rw [ebind_map]
  refine ebind_congr fun ip => ?_
  rw [abs1_reset, emap_bind, ebind_map]
  refine ebind_congr fun s => ?_
  rw [iter_map abs1_update, emap_bind, ebind_map]
  refine ebind_congr fun s => ?_
  rw [abs1_predictPast, ebind_map]
  refine ebind_congr ?_
  rintro ⟨m, v⟩
  simp only [show (abs1 s).time = s.time from rfl]
  split_ifs
  · rfl
  · simp only [abs1_initCoefs, emap_bind, ebind_map, abs1_accum]
    refine ebind_congr fun s => ebind_congr fun a => ?_
    have e := abs1_coefLoop (A := A) (s.time.length - (ip + 1)) (ip + 1) s a
    rw [show (abs1 s).time = s.time from rfl, e, emap_bind]
    rfl

theorem abs1_simStep (s : FKF1) (t z : Dbl) : FKF1.simStep A (abs1 s) t z = Except.map (fun r => (abs1 r.1, r.2)) (FKF1.simStep A s t z) := by
  unfold FKF1.simStep
  rw [abs1_predict, emap_bind, ebind_map]
  refine ebind_congr fun r => ?_
  simp only [abs1, insertRow_zero_abs, emap_bind, ebind_map, emap_pure]

theorem abs1_simLoop : ∀ (ts : List Dbl) (zs : ℕ → Dbl) (s : FKF1), FKF1.simLoop A (abs1 s) ts zs =
    Except.map (fun r => (abs1 r.1, r.2)) (FKF1.simLoop A s ts zs)
  | [], _, _ => rfl
  | t :: ts, zs, s => by
    unfold FKF1.simLoop
    rw [abs1_simStep, emap_bind, ebind_map]
    refine ebind_congr fun r => ?_
    have e := abs1_simLoop ts (fun k => zs (k + 1)) r.1
    simp only [e, emap_bind, ebind_map, emap_pure]

theorem abs1_simulate (s : FKF1) (ts : List Dbl) (zs : ℕ → Dbl) : FKF1.simulate A (abs1 s) ts zs =
    Except.map (fun r => (abs1 r.1, r.2)) (FKF1.simulate A s ts zs) := by
  unfold FKF1.simulate
  rw [ebind_map]
  refine ebind_congr fun sorted => ?_
  rw [abs1_simLoop, emap_bind, ebind_map]
  refine ebind_congr fun r => ?_
  simp only [abs1, ebind_map, emap_pure]

/-- a call with the absolute values of the errors -/
noncomputable def absCall {W : Type} : Call W → Call W
  | .setYerr e => .setYerr (e.map .abs)
  | c => c

theorem abs1_call (s : FKF1) (c : Call Dbl) : call1 A (abs1 s) (absCall c) = Except.map (fun r => (abs1 r.1, r.2)) (call1 A s c) := by
  cases c <;> try rfl
  · simp only [call1, absCall, abs1_filter]; cases FKF1.filter A s <;> rfl
  · rename_i x; simp only [call1, absCall, abs1_predict]; cases FKF1.predict A s x <;> rfl
  · rename_i x z; simp only [call1, absCall, abs1_simulate]; cases FKF1.simulate A s x z <;> rfl

end car1

/-! ### CARMA filter -/

section carma
variable {p : ℕ} {C : CArith}

@[inherit_doc abs1]
noncomputable def absP (s : FKFp p) : FKFp p := { s with b := abs1 s.b }

theorem absP_newData (p : ℕ) (srt : List Dbl → List ℕ) (time y yerr : List Dbl) :
    FKFp.newData C p srt time y (yerr.map .abs) = Except.map absP (FKFp.newData C p srt time y yerr) := by
  unfold FKFp.newData
  rw [abs1_newData, emap_bind, ebind_map]
  refine ebind_congr fun b => ?_
  rw [abs1_initSort, emap_bind, ebind_map]
  refine ebind_congr fun b => ?_
  rw [abs1_initDedup, emap_bind, ebind_map]
  rfl

theorem absP_new (srt : List Dbl → List ℕ) (time y yerr : List Dbl) (sigsqr : Dbl) (omega : Fin p → CD) (ma : List Dbl) :
    FKFp.new C srt time y (yerr.map .abs) sigsqr omega ma = Except.map absP (FKFp.new C srt time y yerr sigsqr omega ma) := by
  unfold FKFp.new
  rw [abs1_newData, emap_bind, ebind_map]
  rfl

theorem absP_reset (s : FKFp p) : FKFp.reset C (absP s) = Except.map absP (FKFp.reset C s) := by
  unfold FKFp.reset
  by_cases hp : p < 2
  · simp only [if_pos hp]; rfl
  simp only [if_neg hp, pure_bind]
  rw [show (absP s).omega = s.omega from rfl, show (absP s).ma = s.ma from rfl, ebind_map]
  refine ebind_congr fun J => ?_
  by_cases hm : s.ma.length ≠ p
  · simp only [if_pos hm]; rfl
  simp only [if_neg hm, pure_bind]
  simp only [absP, abs1, rd_map', abs_sq, emap_bind, ebind_map, emap_pure]

theorem absP_update (s : FKFp p) : FKFp.update C (absP s) = Except.map absP (FKFp.update C s) := by
  simp only [FKFp.update, absP, abs1, rd_map', abs_sq, emap_bind, ebind_map, emap_pure]

theorem absP_filter (s : FKFp p) : FKFp.filter C (absP s) = Except.map absP (FKFp.filter C s) := by
  unfold FKFp.filter
  rw [absP_reset, emap_bind, ebind_map]
  exact ebind_congr fun s => iter_map absP_update _ s

theorem absP_initCoefs (s : FKFp p) (x : Dbl) (i : ℕ) (m v : Dbl) : FKFp.initCoefs C (absP s) x i m v =
    Except.map (fun r => (absP r.1, r.2)) (FKFp.initCoefs C s x i m v) := by
  simp only [FKFp.initCoefs, absP, abs1, rd_map', abs_sq, emap_bind, ebind_map, emap_pure]

theorem absP_updateCoefs (s : FKFp p) (c : FKFp.Coefs p) : FKFp.updateCoefs C (absP s) c =
    Except.map (fun r => (absP r.1, r.2)) (FKFp.updateCoefs C s c) := by
  simp only [FKFp.updateCoefs, absP, abs1, rd_map', abs_sq, emap_bind, ebind_map, emap_pure]

theorem absP_predictPast (s : FKFp p) (x : Dbl) (i : ℕ) : FKFp.predictPast C (absP s) x i =
    Except.map (fun r => (absP r.1, r.2)) (FKFp.predictPast C s x i) := by
  unfold FKFp.predictPast
  split_ifs
  · simp only [emap_pure]; rfl
  · simp only [absP, abs1, ebind_map, emap_pure]

theorem absP_accum (s : FKFp p) (i : ℕ) (a : Dbl × Dbl) : FKFp.accum C (absP s) i a = FKFp.accum C s i a := by
  simp only [FKFp.accum, absP, abs1]

theorem absP_coefLoop : ∀ (k i : ℕ) (s : FKFp p) (c : FKFp.Coefs p) (a : Dbl × Dbl), FKFp.coefLoop C k i (absP s) c a =
    Except.map (fun r => (absP r.1, r.2)) (FKFp.coefLoop C k i s c a)
  | 0, _, _, _, _ => rfl
  | k + 1, i, s, c, a => by
    unfold FKFp.coefLoop
    rw [absP_updateCoefs, emap_bind, ebind_map]
    refine ebind_congr fun r => ?_
    simp only [absP_accum, ebind_map]
    exact ebind_congr fun a => absP_coefLoop k (i + 1) r.1 r.2 a

theorem absP_predict (s : FKFp p) (x : Dbl) : FKFp.predict C (absP s) x = Except.map (fun r => (absP r.1, r.2)) (FKFp.predict C s x) := by
  unfold FKFp.predict
  rw [ebind_map]
  refine ebind_congr fun ip => ?_
  rw [absP_reset, emap_bind, ebind_map]
  refine ebind_congr fun s => ?_
  rw [iter_map absP_update, emap_bind, ebind_map]
  refine ebind_congr fun s => ?_
  rw [absP_predictPast, emap_bind, ebind_map]
  refine ebind_congr ?_
  rintro ⟨s, m, v⟩
  simp only [show (absP s).b.time = s.b.time from rfl]
  split_ifs
  · rfl
  · simp only [absP_initCoefs, emap_bind, ebind_map, absP_accum]
    refine ebind_congr fun r => ebind_congr fun a => ?_
    have e := absP_coefLoop (C := C) (r.1.b.time.length - (ip + 1)) (ip + 1) r.1 r.2 a
    rw [show (absP r.1).b.time = r.1.b.time from rfl, e, emap_bind]
    rfl

theorem absP_simStep (s : FKFp p) (t z : Dbl) : FKFp.simStep C (absP s) t z = Except.map (fun r => (absP r.1, r.2)) (FKFp.simStep C s t z) := by
  unfold FKFp.simStep
  rw [absP_predict, emap_bind, ebind_map]
  refine ebind_congr fun r => ?_
  simp only [absP, abs1, insertRow_zero_abs, emap_bind, ebind_map, emap_pure]

theorem absP_simLoop : ∀ (ts : List Dbl) (zs : ℕ → Dbl) (s : FKFp p), FKFp.simLoop C (absP s) ts zs =
    Except.map (fun r => (absP r.1, r.2)) (FKFp.simLoop C s ts zs)
  | [], _, _ => rfl
  | t :: ts, zs, s => by
    unfold FKFp.simLoop
    rw [absP_simStep, emap_bind, ebind_map]
    refine ebind_congr fun r => ?_
    have e := absP_simLoop ts (fun k => zs (k + 1)) r.1
    simp only [e, emap_bind, ebind_map, emap_pure]

theorem absP_simulate (s : FKFp p) (ts : List Dbl) (zs : ℕ → Dbl) : FKFp.simulate C (absP s) ts zs =
    Except.map (fun r => (absP r.1, r.2)) (FKFp.simulate C s ts zs) := by
  unfold FKFp.simulate
  rw [ebind_map]
  refine ebind_congr fun sorted => ?_
  rw [absP_simLoop, emap_bind, ebind_map]
  refine ebind_congr fun r => ?_
  simp only [absP, abs1, ebind_map, emap_pure]

theorem absP_call (s : FKFp p) (c : Call (Fin p → CD)) : callP C (absP s) (absCall c) = Except.map (fun r => (absP r.1, r.2)) (callP C s c) := by
  cases c <;> try rfl
  · simp only [callP, absCall, absP_filter]; cases FKFp.filter C s <;> rfl
  · rename_i x; simp only [callP, absCall, absP_predict]; cases FKFp.predict C s x <;> rfl
  · rename_i x z; simp only [callP, absCall, absP_simulate]; cases FKFp.simulate C s x z <;> rfl

end carma

/-! ### log-densities -/

section dens
variable {A : Arith} (hA : SignFree A)

/-- The same object with the absolute values of the errors, in the model and in its filter. -/
noncomputable def absCar1 (s : FCar1) : FCar1 := { s with yerr := s.yerr.map .abs, kf := abs1 s.kf }

theorem absCar1_new (srt : List Dbl → List ℕ) (time y yerr : List Dbl) (M : Dbl) :
    FCar1.new A srt time y (yerr.map .abs) M = Except.map absCar1 (FCar1.new A srt time y yerr M) := by
  simp only [FCar1.new, abs1_newData, emap_bind, ebind_map, emap_pure]
  rfl

theorem dbl_abs_neg (a : Dbl) : a.neg.abs = a.abs := by cases a <;> simp [Dbl.neg, Dbl.abs]

theorem abs_cases (a : Dbl) : a.abs = a ∨ a.abs = a.neg := by
  cases a with
  | fin x => rcases abs_choice x with h | h <;> simp [Dbl.abs, Dbl.neg, h]
  | _ => simp [Dbl.abs, Dbl.neg]

include hA

theorem abs_scaled (c : Dbl) (l : List Dbl) : ((l.map Dbl.abs).map fun x => A.mul c x).map Dbl.abs = (l.map fun x => A.mul c x).map Dbl.abs := by
  rw [List.map_map, List.map_map, List.map_map]
  refine List.map_congr_left fun x _ => ?_
  rcases abs_cases x with h | h
  · simp only [Function.comp, h]
  · simp only [Function.comp, h, mul_n hA, dbl_abs_neg]

omit hA in
/-- outcomes that agree up to the map on objects -/
theorem same_map {α β γ δ : Type} {g : α → β} {h : γ → δ} {x x' : Res α} (e : Except.map g x = Except.map g x') {k k' : α → Res γ}
    (hk : ∀ a a', g a = g a' → Except.map h (k a) = Except.map h (k' a')) : Except.map h (x >>= k) = Except.map h (x' >>= k') := by
  cases x with
  | error f =>
    cases x' with
    | error f' => injection e with e; rw [e]; rfl
    | ok a' => cases e
  | ok a =>
    cases x' with
    | error f' => cases e
    | ok a' => injection e with e; exact hk a a' e

theorem absCar1_logDensity (s : FCar1) (θ : List Dbl) : Except.map (fun r => (absCar1 r.1, r.2)) (FCar1.logDensity A (absCar1 s) θ) =
    Except.map (fun r => (absCar1 r.1, r.2)) (FCar1.logDensity A s θ) := by
  have idem : absCar1 (absCar1 s) = absCar1 s := by
    have : ∀ l : List Dbl, (l.map .abs).map .abs = l.map Dbl.abs := fun l => by
      rw [List.map_map]
      exact List.map_congr_left fun x _ => by cases x <;> simp [Dbl.abs]
    simp only [absCar1, abs1, this]
  unfold FCar1.logDensity
  rw [show FCar1.checkPrior A (absCar1 s) θ = FCar1.checkPrior A s θ from rfl, ebind_map, ebind_map]
  refine ebind_congr fun ok => ?_
  by_cases h : ok = false
  · simp only [h, if_true, emap_pure, ebind_map, idem]
  simp only [if_neg h, pure_bind]
  rw [ebind_map, ebind_map]
  refine ebind_congr fun lo => ?_
  rw [ebind_map, ebind_map]
  refine ebind_congr fun s0 => ?_
  rw [ebind_map, ebind_map]
  refine ebind_congr fun sc => ?_
  rw [ebind_map, ebind_map]
  refine ebind_congr fun mu => ?_
  refine same_map (g := abs1) ?_ fun a a' ha => ?_
  · rw [← abs1_filter, ← abs1_filter]
    congr 1
    simp only [abs1, absCar1, abs_scaled hA]
  · have hm : a.mean = a'.mean := (congrArg FKF1.mean ha : _)
    have hv : a.var = a'.var := (congrArg FKF1.var ha : _)
    rw [hm, hv, show (absCar1 s).y = s.y from rfl, show (absCar1 s).time = s.time from rfl]
    rw [ebind_map, ebind_map]
    refine ebind_congr fun ll => ?_
    rw [ebind_map, ebind_map]
    refine ebind_congr fun lp => ?_
    simp only [emap_pure]
    have : ∀ l : List Dbl, (l.map .abs).map .abs = l.map Dbl.abs := fun l => by
      rw [List.map_map]
      exact List.map_congr_left fun x _ => by cases x <;> simp [Dbl.abs]
    simp only [absCar1, ha, this]

omit hA
variable {p : ℕ} {C : CArith}

@[inherit_doc absCar1]
noncomputable def absCarP (s : FCarP p) : FCarP p := { s with yerr := s.yerr.map .abs, kf := absP s.kf }

theorem absCarP_new (kind : Kind) (p : ℕ) (srt : List Dbl → List ℕ) (time y yerr : List Dbl) (M : Dbl) :
    FCarP.new C kind p srt time y (yerr.map .abs) M = Except.map absCarP (FCarP.new C kind p srt time y yerr M) := by
  have e : FCarP.newCarp C p srt time y (yerr.map .abs) M = Except.map absCarP (FCarP.newCarp C p srt time y yerr M) := by
    unfold FCarP.newCarp
    simp only [absP_newData, emap_bind, ebind_map]
    refine ebind_congr fun dt => ebind_congr fun dmin => ebind_congr fun tmax => ebind_congr fun tmin => ebind_congr fun kf => ?_
    split_ifs <;> rfl
  unfold FCarP.new
  rw [e, emap_bind, ebind_map]
  refine ebind_congr fun s => ?_
  cases kind
  · rfl
  · simp only [ebind_map, emap_pure]; rfl
  · rfl
  · simp only [ebind_map, emap_pure]; rfl

theorem absP_setUp (hA : SignFree C.r) (s : FCarP p) (θ : List Dbl) : Except.map absP (FCarP.setUp C (absCarP s) θ) = Except.map absP (FCarP.setUp C s θ) := by
  unfold FCarP.setUp
  rw [show FCarP.extractMA C (absCarP s) θ = FCarP.extractMA C s θ from rfl, show FCarP.extractSigsqr C (absCarP s) θ = FCarP.extractSigsqr C s θ from rfl]
  simp only [ebind_map, emap_pure]
  refine ebind_congr fun roots => ebind_congr fun ma => ebind_congr fun sig => ebind_congr fun sc => ebind_congr fun mu => ?_
  simp only [absCarP, FKFp.zeroed, absP, abs1, abs_scaled hA]

theorem absCarP_logDensity (hA : SignFree C.r) (s : FCarP p) (θ : List Dbl) : Except.map (fun r => (absCarP r.1, r.2)) (FCarP.logDensity C (absCarP s) θ) =
    Except.map (fun r => (absCarP r.1, r.2)) (FCarP.logDensity C s θ) := by
  have two : ∀ l : List Dbl, (l.map .abs).map .abs = l.map Dbl.abs := fun l => by
    rw [List.map_map]
    exact List.map_congr_left fun x _ => by cases x <;> simp [Dbl.abs]
  unfold FCarP.logDensity
  rw [show FCarP.checkPrior C (absCarP s) θ = FCarP.checkPrior C s θ from rfl, show FCarP.logPrior C (absCarP s) θ = FCarP.logPrior C s θ from rfl, ebind_map, ebind_map]
  refine ebind_congr fun ok => ?_
  by_cases h : ok = false
  · simp only [h, if_true, emap_pure, absCarP, absP, abs1, two]
  simp only [if_neg h]
  refine same_map (g := absP) (absP_setUp hA s θ) fun kf kf' hk => ?_
  rw [ebind_map, ebind_map]
  refine ebind_congr fun mu => ?_
  have ef : Except.map absP (FKFp.filter C kf) = Except.map absP (FKFp.filter C kf') := by rw [← absP_filter, ← absP_filter, hk]
  cases e1 : FKFp.filter C kf with
  | error f =>
    rw [e1] at ef
    cases e2 : FKFp.filter C kf' with
    | error f' =>
      rw [e2] at ef
      injection ef with ef
      subst ef
      cases f <;> simp only [emap_pure, emap_err, absCarP, hk, two]
    | ok k' => rw [e2] at ef; cases ef
  | ok k =>
    rw [e1] at ef
    cases e2 : FKFp.filter C kf' with
    | error f' => rw [e2] at ef; cases ef
    | ok k' =>
      rw [e2] at ef
      injection ef with ef
      have hm : k.b.mean = k'.b.mean := (congrArg (fun q => q.b.mean) ef : _)
      have hv : k.b.var = k'.b.var := (congrArg (fun q => q.b.var) ef : _)
      simp only [hm, hv, show (absCarP s).y = s.y from rfl, show (absCarP s).time = s.time from rfl, ebind_map]
      refine ebind_congr fun ll => ebind_congr fun lp => ?_
      simp only [emap_pure, absCarP, ef, two]

/-- sequences of calls answer the same on objects that agree up to the map -/
theorem answers_same {S K R : Type} {f : S → K → Res (S × R)} {g : S → S}
    (h : ∀ s s', g s = g s' → ∀ c, Except.map (fun r => (g r.1, r.2)) (f s c) = Except.map (fun r => (g r.1, r.2)) (f s' c)) (cs : List K) :
    ∀ s s', g s = g s' → answers f s cs = answers f s' cs := by
  induction cs with
  | nil => intro s s' _; rfl
  | cons c cs ih =>
    intro s s' hs
    unfold answers
    have := same_map (h := id) (h s s' hs c) (k := fun r => answers f r.1 cs >>= fun l => return r.2 :: l) (k' := fun r => answers f r.1 cs >>= fun l => return r.2 :: l)
      (fun a a' ha => by
        simp only [Prod.mk.injEq] at ha
        rw [ih _ _ ha.1, ha.2])
    have hid : ∀ x : Res (List R), Except.map id x = x := fun x => by cases x <;> rfl
    rw [hid, hid] at this
    exact this

end dens
end Verif.Theory
