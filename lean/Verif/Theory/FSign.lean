import Verif.Spec.FSign

/-!
Changing the sign of the data commutes with every operation of the CAR(1) filter and its log-density.
-/

namespace Verif.Theory

open Verif.Model Verif.Spec

/-! ### machine numbers -/

theorem dbl_neg_neg (a : Dbl) : a.neg.neg = a := by cases a <;> simp [Dbl.neg]

theorem infTimes_neg (x : ℝ) : Dbl.infTimes (-x) = (Dbl.infTimes x).neg := by
  unfold Dbl.infTimes
  rcases lt_trichotomy x 0 with h | h | h
  · rw [if_pos (by linarith), if_neg (by linarith), if_pos h]; rfl
  · subst h; simp [Dbl.neg]
  · rw [if_neg (by linarith), if_pos (by linarith), if_pos h]; rfl

theorem dbl_add_neg (a b : Dbl) : Dbl.add a.neg b.neg = (Dbl.add a b).neg := by
  cases a <;> cases b <;> simp [Dbl.neg, Dbl.add]; ring

theorem dbl_mul_neg (a b : Dbl) : Dbl.mul a b.neg = (Dbl.mul a b).neg := by
  cases a <;> cases b <;> simp [Dbl.neg, Dbl.mul, infTimes_neg] <;> cases (Dbl.infTimes _) <;> simp

theorem dbl_neg_mul (a b : Dbl) : Dbl.mul a.neg b = (Dbl.mul a b).neg := by
  cases a <;> cases b <;> simp [Dbl.neg, Dbl.mul, infTimes_neg] <;> cases (Dbl.infTimes _) <;> simp

theorem dbl_neg_div (a b : Dbl) : Dbl.div a.neg b = (Dbl.div a b).neg := by
  cases a <;> cases b <;> simp only [Dbl.neg, Dbl.div]
  · split_ifs
    · exact infTimes_neg _
    · rw [neg_div]
  all_goals first | simp | (split_ifs <;> rfl)

section arith
variable {A : Arith} (hA : SignFree A)
include hA

theorem fl_neg (a : Dbl) : A.fl a.neg = (A.fl a).neg := by
  cases a <;> simp [Arith.fl, Dbl.neg]
  exact hA _

theorem add_nn (a b : Dbl) : A.add a.neg b.neg = (A.add a b).neg := by rw [Arith.add, dbl_add_neg, fl_neg hA]; rfl
theorem sub_nn (a b : Dbl) : A.sub a.neg b.neg = (A.sub a b).neg := by rw [Arith.sub, Dbl.sub, dbl_add_neg, fl_neg hA]; rfl
theorem mul_n (a b : Dbl) : A.mul a b.neg = (A.mul a b).neg := by rw [Arith.mul, dbl_mul_neg, fl_neg hA]; rfl
theorem n_mul (a b : Dbl) : A.mul a.neg b = (A.mul a b).neg := by rw [Arith.mul, dbl_neg_mul, fl_neg hA]; rfl
theorem n_div (a b : Dbl) : A.div a.neg b = (A.div a b).neg := by rw [Arith.div, dbl_neg_div, fl_neg hA]; rfl

end arith

theorem zero_neg : (Dbl.fin 0).neg = .fin 0 := by simp [Dbl.neg]

/-! ### lists and outcomes -/

section res
variable {α β γ : Type}

theorem emap_bind (x : Res α) (f : α → β) (k : β → Res γ) : (Except.map f x >>= k) = x >>= fun a => k (f a) := by cases x <;> rfl
theorem ebind_map (x : Res α) (k : α → Res β) (f : β → γ) : Except.map f (x >>= k) = x >>= fun a => Except.map f (k a) := by cases x <;> rfl
theorem emap_ok (a : α) (f : α → β) : Except.map f (.ok a : Res α) = .ok (f a) := rfl
theorem emap_pure (a : α) (f : α → β) : Except.map f (pure a : Res α) = pure (f a) := rfl
theorem emap_err (e : Fault) (f : α → β) : Except.map f (.error e : Res α) = .error e := rfl
theorem ebind_congr {x : Res α} {f g : α → Res β} (h : ∀ a, f a = g a) : (x >>= f) = x >>= g := by rw [funext h]

theorem rd_map' (f : α → β) (l : List α) (i : ℕ) : rd (l.map f) i = Except.map f (rd l i) := by
  unfold rd; rw [List.getElem?_map]; cases l[i]? <;> rfl
theorem rdU_map' (f : α → β) (l : List α) (i : ℕ) : rdU (l.map f) i = Except.map f (rdU l i) := by
  unfold rdU; rw [List.getElem?_map]; cases l[i]? <;> rfl
theorem wr_map' (f : α → β) (l : List α) (i : ℕ) (a : α) : wr (l.map f) i (f a) = Except.map (List.map f) (wr l i a) := by
  unfold wr; rw [List.length_map]; split_ifs
  · rw [← List.map_set]; rfl
  · rfl
theorem wr_zero (l : List Dbl) (i : ℕ) : wr (l.map Dbl.neg) i (Dbl.fin 0) = Except.map (List.map Dbl.neg) (wr l i (Dbl.fin 0)) := by
  conv_lhs => rw [← zero_neg]
  exact wr_map' _ _ _ _
theorem insertRow_map' (f : α → β) (l : List α) (i : ℕ) (a : α) : insertRow (l.map f) i (f a) = Except.map (List.map f) (insertRow l i a) := by
  unfold insertRow; rw [List.length_map]; split_ifs
  · show _ = Except.ok _
    rw [List.map_insertIdx]
  · rfl
theorem gather_map' (f : α → β) (l : List α) (idx : List ℕ) : gather (l.map f) idx = Except.map (List.map f) (gather l idx) := by
  unfold gather
  induction idx with
  | nil => rfl
  | cons i idx ih =>
    rw [List.mapM_cons, List.mapM_cons, rd_map', ih, emap_bind, ebind_map]
    refine ebind_congr fun a => ?_
    rw [emap_bind, ebind_map]
    rfl
theorem iter_map {S : Type} {g : S → S} {f : S → Res S} (h : ∀ s, f (g s) = Except.map g (f s)) (k : ℕ) (s : S) :
    iter f k (g s) = Except.map g (iter f k s) := by
  induction k with
  | zero => rfl
  | succ k ih =>
    show (iter f k (g s) >>= f) = Except.map g (iter f k s >>= f)
    rw [ih, emap_bind, ebind_map]
    exact ebind_congr h

end res

/-! ### CAR(1) filter -/

/-- Everything in the unit of the data changes its sign. -/
noncomputable def flip1 (s : FKF1) : FKF1 := { s with mean := s.mean.map .neg, y := s.y.map .neg, yconst := s.yconst.neg }

section car1
variable {A : Arith} (hA : SignFree A)

theorem replicate_neg (n : ℕ) : (List.replicate n (Dbl.fin 0)).map Dbl.neg = List.replicate n (.fin 0) := by rw [List.map_replicate, zero_neg]

theorem flip1_initSort (srt : List Dbl → List ℕ) (s : FKF1) : FKF1.initSort A srt (flip1 s) = Except.map flip1 (FKF1.initSort A srt s) := by
  unfold FKF1.initSort
  rw [ebind_map]
  refine ebind_congr fun dt => ?_
  split_ifs
  · simp only [flip1, gather_map', emap_bind, ebind_map, emap_pure]
  · rfl

theorem flip1_initDedup (s : FKF1) : FKF1.initDedup A (flip1 s) = Except.map flip1 (FKF1.initDedup A s) := by
  unfold FKF1.initDedup
  split_ifs with h1 h2 h2
  · simp only [ebind_map, emap_pure, bind_assoc, pure_bind]
    simp only [flip1, gather_map', emap_bind, replicate_neg]
    rfl
  · exact absurd h1 h2
  · exact absurd h2 h1
  · simp only [flip1, emap_pure, pure_bind, replicate_neg]

theorem flip1_newData (srt : List Dbl → List ℕ) (time y yerr : List Dbl) :
    FKF1.newData A srt time (y.map .neg) yerr = Except.map flip1 (FKF1.newData A srt time y yerr) := by
  have key : ∀ s : FKF1, (FKF1.initSort A srt (flip1 s) >>= FKF1.initDedup A) = Except.map flip1 (FKF1.initSort A srt s >>= FKF1.initDedup A) := by
    intro s
    rw [ebind_map, flip1_initSort, emap_bind]
    exact ebind_congr fun _ => flip1_initDedup _
  exact key ⟨[], [], time, [], y, yerr, .nan, .nan, 0, .nan, .nan⟩

theorem flip1_new (srt : List Dbl → List ℕ) (time y yerr : List Dbl) (sigsqr omega : Dbl) :
    FKF1.new A srt time (y.map .neg) yerr sigsqr omega = Except.map flip1 (FKF1.new A srt time y yerr sigsqr omega) := by
  unfold FKF1.new
  rw [flip1_newData, emap_bind, ebind_map]
  rfl

include hA

omit hA in
theorem flip1_reset (s : FKF1) : FKF1.reset A (flip1 s) = Except.map flip1 (FKF1.reset A s) := by
  simp only [FKF1.reset, flip1, wr_zero, emap_bind, ebind_map, emap_pure, zero_neg]

theorem flip1_update (s : FKF1) : FKF1.update A (flip1 s) = Except.map flip1 (FKF1.update A s) := by
  simp only [FKF1.update, flip1, rd_map', sub_nn hA, mul_n hA, add_nn hA, wr_map', emap_bind, ebind_map, emap_pure]

theorem flip1_filter (s : FKF1) : FKF1.filter A (flip1 s) = Except.map flip1 (FKF1.filter A s) := by
  unfold FKF1.filter
  rw [flip1_reset, emap_bind, ebind_map]
  exact ebind_congr fun s => iter_map (flip1_update hA) _ s

omit hA in
theorem flip1_initCoefs (s : FKF1) (x : Dbl) (i : ℕ) : FKF1.initCoefs A (flip1 s) x i = Except.map flip1 (FKF1.initCoefs A s x i) := by
  simp only [FKF1.initCoefs, flip1, ebind_map, emap_pure, zero_neg]

theorem flip1_updateCoefs (s : FKF1) : FKF1.updateCoefs A (flip1 s) = Except.map flip1 (FKF1.updateCoefs A s) := by
  simp only [FKF1.updateCoefs, flip1, rdU_map', mul_n hA, n_mul hA, add_nn hA, emap_bind, ebind_map, emap_pure]

/-- mean and variance with the sign of the mean changed -/
noncomputable def flipMV (r : Dbl × Dbl) : Dbl × Dbl := (r.1.neg, r.2)
/-- precision and weighted mean with the sign of the latter changed -/
noncomputable def flipVM (r : Dbl × Dbl) : Dbl × Dbl := (r.1, r.2.neg)

theorem flip1_predictPast (s : FKF1) (x : Dbl) (i : ℕ) : FKF1.predictPast A (flip1 s) x i = Except.map flipMV (FKF1.predictPast A s x i) := by
  unfold FKF1.predictPast
  split_ifs
  · simp only [flip1, emap_pure, flipMV, zero_neg]
  · simp only [flip1, flipMV, rd_map', sub_nn hA, mul_n hA, n_mul hA, add_nn hA, emap_bind, ebind_map, emap_pure]

theorem flip1_accum (s : FKF1) (i : ℕ) (a : Dbl × Dbl) : FKF1.accum A (flip1 s) i (flipVM a) = Except.map flipVM (FKF1.accum A s i a) := by
  simp only [FKF1.accum, flip1, flipVM, rd_map', sub_nn hA, mul_n hA, n_div hA, add_nn hA, emap_bind, ebind_map, emap_pure]

theorem flip1_coefLoop : ∀ (k i : ℕ) (s : FKF1) (a : Dbl × Dbl), FKF1.coefLoop A k i (flip1 s) (flipVM a) =
    Except.map (fun r => (flip1 r.1, flipVM r.2)) (FKF1.coefLoop A k i s a)
  | 0, _, _, _ => rfl
  | k + 1, i, s, a => by
    unfold FKF1.coefLoop
    rw [flip1_updateCoefs hA, emap_bind, ebind_map]
    refine ebind_congr fun s => ?_
    rw [flip1_accum hA, emap_bind, ebind_map]
    exact ebind_congr fun a => flip1_coefLoop k (i + 1) s a

theorem flip1_predict (s : FKF1) (x : Dbl) : FKF1.predict A (flip1 s) x =
    Except.map (fun r => (flip1 r.1, flipMV r.2)) (FKF1.predict A s x) := by
  unfold FKF1.predict
  rw [ebind_map]
  refine ebind_congr fun ip => ?_
  rw [flip1_reset, emap_bind, ebind_map]
  refine ebind_congr fun s => ?_
  rw [iter_map (flip1_update hA), emap_bind, ebind_map]
  refine ebind_congr fun s => ?_
  rw [flip1_predictPast hA, emap_bind, ebind_map]
  refine ebind_congr ?_
  rintro ⟨m, v⟩
  simp only [flipMV, show (flip1 s).time = s.time from rfl]
  split_ifs
  · rfl
  · simp only [flip1_initCoefs, emap_bind, ebind_map]
    refine ebind_congr fun s => ?_
    have e := flip1_accum hA s ip (A.div (.fin 1) v, A.mul m (A.div (.fin 1) v))
    simp only [flipVM, ← n_mul hA] at e
    rw [e, emap_bind]
    refine ebind_congr fun a => ?_
    have e := flip1_coefLoop hA (s.time.length - (ip + 1)) (ip + 1) s a
    rw [show (flip1 s).time = s.time from rfl, e, emap_bind]
    refine ebind_congr fun r => ?_
    simp only [flipVM, emap_pure, n_mul hA]

theorem flip1_simStep (s : FKF1) (t z : Dbl) : FKF1.simStep A (flip1 s) t z.neg =
    Except.map (fun r => (flip1 r.1, r.2.neg)) (FKF1.simStep A s t z) := by
  unfold FKF1.simStep
  rw [flip1_predict hA, emap_bind, ebind_map]
  refine ebind_congr fun r => ?_
  simp only [flip1, flipMV, FKF1.drawNormal, n_mul hA, add_nn hA, insertRow_map', emap_bind, ebind_map, emap_pure, replicate_neg]

theorem flip1_simLoop : ∀ (ts : List Dbl) (zs : ℕ → Dbl) (s : FKF1), FKF1.simLoop A (flip1 s) ts (fun k => (zs k).neg) =
    Except.map (fun r => (flip1 r.1, r.2.map .neg)) (FKF1.simLoop A s ts zs)
  | [], _, _ => rfl
  | t :: ts, zs, s => by
    unfold FKF1.simLoop
    rw [flip1_simStep hA, emap_bind, ebind_map]
    refine ebind_congr fun r => ?_
    have e := flip1_simLoop ts (fun k => zs (k + 1)) r.1
    simp only [e, emap_bind, ebind_map, emap_pure, List.map_cons]

theorem flip1_simulate (s : FKF1) (ts : List Dbl) (zs : ℕ → Dbl) : FKF1.simulate A (flip1 s) ts (fun k => (zs k).neg) =
    Except.map (fun r => (flip1 r.1, r.2.map .neg)) (FKF1.simulate A s ts zs) := by
  unfold FKF1.simulate
  rw [ebind_map]
  refine ebind_congr fun sorted => ?_
  rw [flip1_simLoop hA, emap_bind, ebind_map]
  refine ebind_congr fun r => ?_
  simp only [flip1, ebind_map, emap_pure, replicate_neg]

theorem flip1_call (s : FKF1) (c : Call Dbl) : call1 A (flip1 s) c.flip = Except.map (fun r => (flip1 r.1, r.2.flip)) (call1 A s c) := by
  cases c <;> try rfl
  · simp only [call1, Call.flip, flip1_filter hA]; cases FKF1.filter A s <;> rfl
  · rename_i x; simp only [call1, Call.flip, flip1_predict hA]; cases FKF1.predict A s x <;> rfl
  · rename_i x z; simp only [call1, Call.flip, flip1_simulate hA]; cases FKF1.simulate A s x z <;> rfl

end car1

theorem answers_map {S K R : Type} {f : S → K → Res (S × R)} {g : S → S} {gk : K → K} {gr : R → R}
    (h : ∀ s c, f (g s) (gk c) = Except.map (fun r => (g r.1, gr r.2)) (f s c)) (s : S) (cs : List K) :
    answers f (g s) (cs.map gk) = Except.map (List.map gr) (answers f s cs) := by
  induction cs generalizing s with
  | nil => rfl
  | cons c cs ih =>
    simp only [List.map_cons, answers, h, ih, emap_bind, ebind_map, emap_pure]

/-! ### CAR(1) log-density -/

theorem rd_flipMu {i : ℕ} (h : i ≠ 2) (θ : List Dbl) : rd (flipMu θ) i = rd θ i := by
  unfold rd flipMu
  rw [List.getElem?_set_ne (Ne.symm h)]

theorem rd_flipMu_two (θ : List Dbl) : rd (flipMu θ) 2 = Except.map .neg (rd θ 2) := by
  unfold rd flipMu
  rw [List.getElem?_set]
  by_cases h : 2 < θ.length
  · rw [if_pos rfl, if_pos h, List.getD_eq_getElem?_getD, List.getElem?_eq_getElem h]; rfl
  · rw [if_pos rfl, if_neg h, List.getElem?_eq_none (by omega)]; rfl

/-- the CAR(1) object for the data with the other sign -/
noncomputable def flipCar1 (s : FCar1) : FCar1 := { s with y := s.y.map .neg, kf := flip1 s.kf }

section dens1
variable {A : Arith} (hA : SignFree A)

theorem flipCar1_new (srt : List Dbl → List ℕ) (time y yerr : List Dbl) (M : Dbl) :
    FCar1.new A srt time (y.map .neg) yerr M = Except.map flipCar1 (FCar1.new A srt time y yerr M) := by
  simp only [FCar1.new, flip1_newData, emap_bind, ebind_map, emap_pure]
  rfl

theorem flip_logPrior (θ : List Dbl) : FCar1.logPrior A (flipMu θ) = FCar1.logPrior A θ := by
  unfold FCar1.logPrior
  rw [rd_flipMu (by decide)]

include hA

theorem flip_likLoop (y mean var : List Dbl) (mu : Dbl) : ∀ k, FCar1.likLoop A (y.map .neg) (mean.map .neg) var mu.neg k = FCar1.likLoop A y mean var mu k
  | 0 => rfl
  | k + 1 => by
    unfold FCar1.likLoop
    rw [flip_likLoop y mean var mu k]
    simp only [rd_map', emap_bind, sub_nn hA, mul_n hA, n_mul hA, dbl_neg_neg]

theorem map_sub_neg (y : List Dbl) (mu : Dbl) : (y.map .neg).map (fun x => A.sub x mu.neg) = (y.map fun x => A.sub x mu).map .neg := by
  rw [List.map_map, List.map_map]
  exact List.map_congr_left fun x _ => sub_nn hA _ _

theorem flipCar1_logDensity (s : FCar1) (θ : List Dbl) : FCar1.logDensity A (flipCar1 s) (flipMu θ) =
    Except.map (fun r => (flipCar1 r.1, r.2)) (FCar1.logDensity A s θ) := by
  unfold FCar1.logDensity
  have e : FCar1.checkPrior A (flipCar1 s) (flipMu θ) = FCar1.checkPrior A s θ := by
    unfold FCar1.checkPrior
    rw [rd_flipMu (by decide), rd_flipMu (by decide), rd_flipMu (by decide)]
    rfl
  rw [e, ebind_map]
  refine ebind_congr fun ok => ?_
  by_cases h : ok = false
  · simp only [h, if_true, emap_pure, ebind_map, emap_ok]
  simp only [if_neg h, pure_bind]
  rw [rd_flipMu (by decide), rd_flipMu (by decide), rd_flipMu (by decide), rd_flipMu_two, flip_logPrior]
  simp only [ebind_map, emap_bind]
  refine ebind_congr fun lo => ebind_congr fun s0 => ebind_congr fun sc => ebind_congr fun mu => ?_
  have e := flip1_filter hA ⟨s.kf.mean, s.kf.var, s.kf.time, s.kf.dt, s.y.map fun x => A.sub x mu, s.yerr.map fun x => A.mul (A.sqrt sc) x,
    A.mul (A.mul (A.mul (.fin 2) s0) s0) (A.exp lo), A.exp lo, s.kf.cur, s.kf.yconst, s.kf.yslope⟩
  simp only [flip1, flipCar1, map_sub_neg hA] at e ⊢
  rw [e]
  simp only [emap_bind, flip1, flip_likLoop hA]
  rfl

end dens1
end Verif.Theory
