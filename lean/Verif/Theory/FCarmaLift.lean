import Verif.Theory.FCarmaExact
import Verif.Theory.FSimExact
import Verif.Theory.Faults

/-!
With exact arithmetic the filter, the prior, the constructors and `LogDensity` of the machine-number model agree with the model in real numbers.
-/

namespace Verif.Theory

open Verif.Model Verif.Spec Matrix
open scoped Classical

variable {p : ℕ}

/-! ### filter -/

/-- the filter with all its numbers as machine numbers; what is not used is arbitrary -/
noncomputable def liftP (s : KFp p) (a b c i : Dbl) : FKFp p :=
  { b := { mean := s.b.mean.map .fin, var := s.b.var.map .fin, time := s.b.time.map .fin, dt := s.b.dt.map .fin, y := s.b.y.map .fin,
           yerr := s.b.yerr.map .fin, sigsqr := .fin s.b.sigsqr, omega := a, cur := s.b.cur, yconst := b, yslope := c },
    omega := fun k => pair (s.omega k), ma := s.ma.map .fin, state := fun k => pair (s.state k), StateVar := fun k l => pair (s.StateVar k l),
    rotma := fun k => pair (s.rotma k), PredVar := fun k l => pair (s.PredVar k l), innov := i }

theorem eigenMat_lift (w : Fin p → ℂ) : FKFp.eigenMat exactC (fun k => pair (w k)) = fun i k => pair (KFp.eigenMat w i k) := by
  funext i k
  unfold FKFp.eigenMat KFp.eigenMat
  rw [Matrix.of_apply]
  split
  · next h => rw [h, pow_zero]; rfl
  · split
    · next h => rw [h, pow_one]
    · rfl

theorem rvec_lift (p : ℕ) : FKFp.rvec p = fun i => pair (KFp.rvec p i) := by
  funext i
  unfold FKFp.rvec KFp.rvec
  split <;> rfl

theorem solve_lift (w : Fin p → ℂ) : exactC.solve p (FKFp.eigenMat exactC fun k => pair (w k)) (FKFp.rvec p) =
    if (KFp.eigenMat w).det = 0 then none else some fun k => pair (((KFp.eigenMat w)⁻¹ *ᵥ KFp.rvec p) k) := by
  rw [eigenMat_lift, rvec_lift]
  show (match mat? (fun i k : Fin p => pair (KFp.eigenMat w i k)), vec? (fun i : Fin p => pair (KFp.rvec p i)) with
    | some M, some v => if M.det = 0 then none else some fun k => pair ((M⁻¹ *ᵥ v) k)
    | _, _ => none) = _
  rw [mat_pair, vec_pair]

theorem vecMul_lift (v : Fin p → ℂ) (M : Matrix (Fin p) (Fin p) ℂ) : exactC.vecMul p (fun k => pair (v k)) (fun i k => pair (M i k)) =
    fun k => pair ((v ᵥ* M) k) := by
  show ((mat? _).bind fun M => (vec? _).map fun v => fun k => pair ((v ᵥ* M) k)).getD (fun _ => cnan) = _
  rw [mat_pair, vec_pair]; rfl

theorem mulVec_lift (v : Fin p → ℂ) (M : Matrix (Fin p) (Fin p) ℂ) : exactC.mulVec p (fun i k => pair (M i k)) (fun k => pair (v k)) =
    fun k => pair ((M *ᵥ v) k) := by
  show ((mat? _).bind fun M => (vec? _).map fun v => fun k => pair ((M *ᵥ v) k)).getD (fun _ => cnan) = _
  rw [mat_pair, vec_pair]; rfl

theorem dot_lift (v w : Fin p → ℂ) : exactC.dot p (fun k => pair (v k)) (fun k => pair (w k)) = pair (v ⬝ᵥ w) := by
  show ((vec? _).bind fun v => (vec? _).map fun w => pair (v ⬝ᵥ w)).getD cnan = _
  rw [vec_pair, vec_pair]; rfl

theorem form_lift (v : Fin p → ℂ) (M : Matrix (Fin p) (Fin p) ℂ) : exactC.form p (fun k => pair (v k)) (fun i k => pair (M i k)) =
    pair (v ⬝ᵥ (M *ᵥ star v)) := by
  show ((mat? _).bind fun M => (vec? _).map fun v => pair (v ⬝ᵥ (M *ᵥ star v))).getD cnan = _
  rw [mat_pair, vec_pair]; rfl

theorem stateVar_lift {q : ℝ} {w J : Fin p → ℂ} {V : Matrix (Fin p) (Fin p) ℂ} (h : KFp.stateVar q w J = .ok V) :
    FKFp.stateVar exactC (.fin q) (fun k => pair (w k)) (fun k => pair (J k)) = fun i j => pair (V i j) := by
  unfold KFp.stateVar at h
  dsimp only at h
  split at h
  · cases h
  next hd =>
  injection h with h
  have up : ∀ i j, i ≤ j → exactC.cdiv (exactC.cmul (exactC.cscale (Dbl.fin q).neg (pair (J i))) (pair (J j)).conj)
      (exactC.cadd (pair (w i)) (pair (w j)).conj) = pair (-(q : ℂ) * J i * star (J j) / (w i + star (w j))) := by
    intro i j hij
    rw [neg_fin, pair_scale, pair_conj, pair_conj, pair_add, pair_mul, pair_div _ (fun h0 => hd ⟨i, j, hij, h0⟩)]
    push_cast
    rfl
  funext i j
  unfold FKFp.stateVar
  dsimp only
  rw [← h, Matrix.of_apply]
  by_cases hij : i ≤ j
  · rw [if_pos hij, if_pos hij, up i j hij]
  · rw [if_neg hij, if_neg hij, up j i (le_of_not_ge hij), pair_conj]

theorem resetp_lift {s s' : KFp p} (h : KFp.reset s = .ok s') (a b c i : Dbl) :
    FKFp.reset exactC (liftP s a b c i) = .ok (liftP s' a b c (.fin s'.innov)) := by
  unfold KFp.reset at h
  dsimp only at h
  split at h
  · cases h
  split at h
  · cases h
  next hp =>
  obtain ⟨J, h1, h⟩ := bind_ok h
  obtain ⟨rot, h2, h⟩ := bind_ok h
  obtain ⟨V, h3, h⟩ := bind_ok h
  obtain ⟨mean, h4, h⟩ := bind_ok h
  obtain ⟨e0, h5, h⟩ := bind_ok h
  obtain ⟨var, h6, h⟩ := bind_ok h
  obtain ⟨v0, h7, h⟩ := bind_ok h
  obtain ⟨var', h8, h⟩ := bind_ok h
  obtain ⟨y0, h9, h⟩ := bind_ok h
  injection h with h
  subst h
  unfold KFp.jvec at h1
  split at h1
  · cases h1
  next hdet =>
  injection h1 with h1
  subst h1
  unfold KFp.rotate at h2
  split at h2
  swap
  · cases h2
  next hlen =>
  injection h2 with h2
  subst h2
  unfold FKFp.reset
  rw [if_neg hp]
  dsimp only
  rw [show (liftP s a b c i).omega = fun k => pair (s.omega k) from rfl, solve_lift, if_neg hdet]
  dsimp only
  rw [res_bind_ok, if_neg (by show ¬ (s.ma.map Dbl.fin).length ≠ p; rw [List.length_map]; exact not_not.mpr hlen)]
  have em : (fun k : Fin p => CD.ofReal ((liftP s a b c i).ma.getD (k : ℕ) (.fin 0))) = fun k : Fin p => pair ((s.ma.getD (k : ℕ) 0 : ℝ) : ℂ) := by
    funext k
    rw [show (liftP s a b c i).ma = s.ma.map .fin from rfl, getD_fin, pair_real]
  rw [em, eigenMat_lift, vecMul_lift, show (liftP s a b c i).b.sigsqr = .fin s.b.sigsqr from rfl, stateVar_lift h3, form_lift]
  simp only [liftP, wr_lift h4, rd_lift h5, res_bind_ok, pair_fst]
  have h6' : wr s.b.var 0 ((fun i : Fin p => ((s.ma.getD i 0 : ℝ) : ℂ)) ᵥ* KFp.eigenMat s.omega ⬝ᵥ
      (V *ᵥ star ((fun i : Fin p => ((s.ma.getD i 0 : ℝ) : ℂ)) ᵥ* KFp.eigenMat s.omega))).re = .ok var := h6
  simp only [wr_lift h6', rd_lift h7, res_bind_ok]
  rw [show exactC.r.add (.fin v0) (exactC.r.mul (.fin e0) (.fin e0)) = .fin (v0 + e0 * e0) from rfl, wr_lift h8, res_bind_ok, rd_lift h9]
  rfl

theorem updatep_lift {s s' : KFp p} (h : KFp.update s = .ok s') (a b c : Dbl) :
    FKFp.update exactC (liftP s a b c (.fin s.innov)) = .ok (liftP s' a b c (.fin s'.innov)) := by
  unfold KFp.update at h
  dsimp only at h
  obtain ⟨c1, h1, h⟩ := bind_ok h
  obtain ⟨vp, h2, h⟩ := bind_ok h
  obtain ⟨g, h3, h⟩ := bind_ok h
  obtain ⟨dt, h4, h⟩ := bind_ok h
  obtain ⟨mean, h5, h⟩ := bind_ok h
  obtain ⟨var, h6, h⟩ := bind_ok h
  obtain ⟨vc, h7, h⟩ := bind_ok h
  obtain ⟨ec, h8, h⟩ := bind_ok h
  obtain ⟨var', h9, h⟩ := bind_ok h
  obtain ⟨yc, h10, h⟩ := bind_ok h
  obtain ⟨mc, h11, h⟩ := bind_ok h
  injection h with h
  subst h
  unfold KFp.gainOf at h3
  split at h3
  · cases h3
  next hv =>
  injection h3 with h3
  have hv' : (vp : ℂ) ≠ 0 := by exact_mod_cast hv
  have eg : (fun k => exactC.cdiv (exactC.mulVec p (fun k l : Fin p => pair (s.PredVar k l)) (fun l => (pair (s.rotma l)).conj) k) (CD.ofReal (.fin vp))) =
      fun k => pair (g k) := by
    funext k
    rw [show (fun l => (pair (s.rotma l)).conj) = fun l => pair ((star s.rotma) l) from rfl, mulVec_lift, pair_real, pair_div _ hv', ← h3]
  have es : (fun k => exactC.cmul (exactC.cexp (exactC.cmul (pair (s.omega k)) (CD.ofReal (.fin dt))))
      (exactC.cadd (pair (s.state k)) (exactC.cmul (pair (g k)) (CD.ofReal (.fin s.innov))))) =
      fun k => pair (KFp.rhoOf s.omega dt k * (s.state k + g k * (s.innov : ℂ))) := by
    funext k
    rw [pair_real, pair_real, pair_mul, pair_mul, pair_exp, pair_add, pair_mul]
    rfl
  have eP : (fun k l : Fin p => exactC.cadd (exactC.cmul (exactC.cmul (exactC.cexp (exactC.cmul (pair (s.omega k)) (CD.ofReal (.fin dt))))
      (exactC.cexp (exactC.cmul (pair (s.omega l)) (CD.ofReal (.fin dt)))).conj)
      (exactC.csub (exactC.csub (pair (s.PredVar k l)) (exactC.cmul (CD.ofReal (.fin vp)) (exactC.cmul (pair (g k)) (pair (g l)).conj)))
      (pair (s.StateVar k l)))) (pair (s.StateVar k l))) =
      fun k l : Fin p => pair (KFp.timeVar (KFp.rhoOf s.omega dt) (KFp.measVar s.PredVar vp g) s.StateVar k l) := by
    funext k l
    rw [pair_real, pair_real, pair_conj, pair_mul, pair_mul, pair_mul, pair_mul, pair_exp, pair_exp, pair_conj, pair_sub, pair_sub, pair_mul, pair_mul,
      pair_add]
    rfl
  unfold FKFp.update
  dsimp only [liftP]
  rw [h1, res_bind_ok, rd_lift h2, res_bind_ok, rd_lift h4, res_bind_ok]
  have eg' := fun k => congrFun eg k
  simp only [eg']
  have es' := fun k => congrFun es k
  have eP' := fun k l => congrFun (congrFun eP k) l
  simp only [es', eP']
  rw [dot_lift, form_lift, pair_fst, pair_fst, wr_lift h5, res_bind_ok]
  have h6' := wr_lift h6
  unfold KFp.quad at h6'
  rw [h6', res_bind_ok, rd_lift h7, res_bind_ok, rd_lift h8, res_bind_ok]
  rw [show exactC.r.add (.fin vc) (exactC.r.mul (.fin ec) (.fin ec)) = .fin (vc + ec * ec) from rfl, wr_lift h9, res_bind_ok, rd_lift h10, res_bind_ok,
    rd_lift h11, res_bind_ok, show exactC.r.sub (.fin yc) (.fin mc) = .fin (yc - mc) from exf_sub _ _]
  rfl

theorem iterp_lift {s s' : KFp p} {k : ℕ} (h : iter KFp.update k s = .ok s') (a b c : Dbl) :
    iter (FKFp.update exactC) k (liftP s a b c (.fin s.innov)) = .ok (liftP s' a b c (.fin s'.innov)) := by
  induction k generalizing s' with
  | zero => cases h; rfl
  | succ k ih =>
    obtain ⟨s2, h2, h⟩ := bind_ok h
    rw [iter, ih h2, res_bind_ok, updatep_lift h]

theorem filterp_lift {s s' : KFp p} (h : Kalman.filter s = .ok s') (a b c i : Dbl) :
    FKFp.filter exactC (liftP s a b c i) = .ok (liftP s' a b c (.fin s'.innov)) := by
  unfold Kalman.filter at h
  obtain ⟨s1, h1, h⟩ := bind_ok h
  unfold FKFp.filter
  rw [resetp_lift h1, res_bind_ok, ← iterp_lift h]
  congr 1
  show (s1.b.time.map Dbl.fin).length - 1 = s1.b.time.length - 1
  rw [List.length_map]

/-- anything but a singular system -/
def NotRuntime (e : Fault) : Prop := e ≠ .runtime

theorem filter_runtime_only {s : KFp p} (h : Kalman.filter s = .error .runtime) : 2 ≤ p ∧ (KFp.eigenMat s.omega).det = 0 := by
  have hu : ∀ s : KFp p, Only NotRuntime (KFp.update s) := by
    intro s
    have hb : NotRuntime .bounds := by simp [NotRuntime]
    unfold KFp.update
    exact (Only.prevIdx hb _).bind fun _ _ => (Only.rd hb _ _).bind fun _ _ =>
      Only.bind (by unfold KFp.gainOf; split; exacts [Only.error (by simp [NotRuntime]), Only.ok _]) fun _ _ =>
      (Only.rd hb _ _).bind fun _ _ => (Only.wr hb _ _ _).bind fun _ _ => (Only.wr hb _ _ _).bind fun _ _ =>
      (Only.rd hb _ _).bind fun _ _ => (Only.rd hb _ _).bind fun _ _ => (Only.wr hb _ _ _).bind fun _ _ =>
      (Only.rd hb _ _).bind fun _ _ => (Only.rd hb _ _).bind fun _ _ => Only.pure _
  by_contra hn
  have hr : Only NotRuntime (KFp.reset s) := by
    have hb : NotRuntime .bounds := by simp [NotRuntime]
    unfold KFp.reset
    dsimp only
    split
    · exact Only.error (by simp [NotRuntime])
    split
    · exact Only.error hb
    next hp =>
    have hd : (KFp.eigenMat s.omega).det ≠ 0 := fun h0 => hn ⟨by omega, h0⟩
    refine Only.bind (by unfold KFp.jvec; rw [if_neg hd]; exact Only.ok _) fun _ _ => ?_
    refine Only.bind (by unfold KFp.rotate; split; exacts [Only.ok _, Only.error hb]) fun _ _ => ?_
    refine Only.bind (by unfold KFp.stateVar; dsimp only; split; exacts [Only.error (by simp [NotRuntime]), Only.ok _]) fun _ _ => ?_
    exact (Only.wr hb _ _ _).bind fun _ _ => (Only.rd hb _ _).bind fun _ _ => (Only.wr hb _ _ _).bind fun _ _ =>
      (Only.rd hb _ _).bind fun _ _ => (Only.wr hb _ _ _).bind fun _ _ => (Only.rd hb _ _).bind fun _ _ => Only.pure _
  exact (hr.bind fun _ _ => Only.iter hu _ _) _ h rfl

theorem filter_runtime_lift {w : Fin p → ℂ} (hp : 2 ≤ p) (h : (KFp.eigenMat w).det = 0) {f : FKFp p} (hf : f.omega = fun k => pair (w k)) :
    FKFp.filter exactC f = .error .runtime := by
  unfold FKFp.filter FKFp.reset
  dsimp only
  rw [if_neg (by omega), hf, solve_lift, if_pos h]
  rfl

/-! ### prior -/

theorem unordered_lift (l : List ℝ) : FCarP.unordered exactC (l.map .fin) = CarP.unordered l := by
  induction l with
  | nil => rfl
  | cons a l ih =>
    cases l with
    | nil => rfl
    | cons b l =>
      rw [List.map_cons] at ih
      rw [List.map_cons, List.map_cons, FCarP.unordered, CarP.unordered, ih, show exactC.r.sub (.fin b) (.fin a) = .fin (b - a) from exf_sub _ _]
      rfl

theorem baseLogPrior_lift {θ : List ℝ} {v : Dbl} (h : baseLogPrior θ = .ok v) : FCar1.logPrior Arith.exact (θ.map .fin) = .ok v := by
  unfold baseLogPrior at h
  obtain ⟨s, h1, h⟩ := bind_ok h
  unfold FCar1.logPrior
  rw [rd_lift h1, res_bind_ok, ← h, exf_mul, exf_div _ (by norm_num : (2 : ℝ) ≠ 0), exf_add, ex_sub, ex_div, ex_mul]
  rfl

/-! ### objects -/

/-- the objects hold the same data -/
structure PRel (s : CarP p) (f : FCarP p) : Prop where
  time : f.time = s.b.time.map .fin
  y : f.y = s.b.y.map .fin
  yerr : f.yerr = s.b.yerr.map .fin
  stdev : f.maxStdev = .fin s.b.maxStdev
  hi : f.maxFreq = s.b.maxFreq
  lo : f.minFreq = s.b.minFreq
  mle : f.ignorePrior = s.b.ignorePrior
  kind : f.kind = s.kind
  ma : f.maCoefs = s.maCoefs.map .fin
  lor : f.orderLor = s.orderLor
  low : f.kappaLow = s.kappaLow
  high : f.kappaHigh = s.kappaHigh
  ktime : f.kf.b.time = s.kf.b.time.map .fin
  kdt : f.kf.b.dt = s.kf.b.dt.map .fin
  kmean : f.kf.b.mean = s.kf.b.mean.map .fin
  kvar : f.kf.b.var = s.kf.b.var.map .fin
  kcur : f.kf.b.cur = s.kf.b.cur

theorem logPrior_lift {s : CarP p} {f : FCarP p} (r : PRel s f) {θ : List ℝ} {v : Dbl} (h : s.logPrior θ = .ok v) :
    FCarP.logPrior exactC f (θ.map .fin) = .ok v := by
  unfold CarP.logPrior at h
  unfold FCarP.logPrior
  rw [r.kind]
  split at h
  · next hz =>
    obtain ⟨l, h1, h⟩ := bind_ok h
    obtain ⟨x, h2, h⟩ := bind_ok h
    rw [hz]
    dsimp only
    rw [show FCar1.logPrior exactC.r (θ.map .fin) = .ok l from baseLogPrior_lift h1, res_bind_ok, rd_lift h2, res_bind_ok, ← h]
    have : exactC.r.sub (Dbl.fin x).neg (exactC.r.mul (.fin 2) (exactC.r.log (exactC.r.add (.fin 1) (exactC.r.exp (Dbl.fin x).neg)))) =
        .fin (-x - 2 * Real.log (1 + Real.exp (-x))) := by
      have hp : 0 < 1 + Real.exp (-x) := by positivity
      show Arith.exact.sub (.fin (-x)) (Arith.exact.mul (.fin 2) (Dbl.log (.fin (1 + Real.exp (-x))))) = _
      have : Dbl.log (.fin (1 + Real.exp (-x))) = .fin (Real.log (1 + Real.exp (-x))) := by
        simp [Dbl.log, hp]
      rw [this, exf_mul, exf_sub]
    rw [this, show exactC.r.add l _ = _ from ex_add _ _]
  · next hk =>
    have : FCar1.logPrior exactC.r (θ.map .fin) = .ok v := baseLogPrior_lift h
    split
    · next hz => exact absurd hz hk
    · exact this

theorem extractMA_lift {s : CarP p} {f : FCarP p} (r : PRel s f) {θ l : List ℝ} (h : s.extractMA θ = .ok l) :
    FCarP.extractMA exactC f (θ.map .fin) = .ok (l.map .fin) := by
  unfold CarP.extractMA at h
  unfold FCarP.extractMA
  rw [r.kind]
  cases hk : s.kind with
  | carp => rw [hk] at h; injection h with h; subst h; dsimp only; rw [r.ma]
  | zcar => rw [hk] at h; injection h with h; subst h; dsimp only; rw [r.ma]
  | carma q => rw [hk] at h; exact carmaMA_lift h
  | zcarma =>
    rw [hk] at h
    dsimp only at h
    unfold CarP.zcarmaMA at h
    obtain ⟨x, h1, h⟩ := bind_ok h
    dsimp only
    rw [rd_lift h1, res_bind_ok, r.low, r.high]
    have hp : 1 + Real.exp x ≠ 0 := by positivity
    have : FCarP.invLogit exactC (.fin x) = .fin (invLogit x) := by
      show Arith.exact.div (.fin (Real.exp x)) (.fin (1 + Real.exp x)) = _
      rw [exf_div _ hp]; rfl
    rw [this, show exactC.r.sub s.kappaHigh s.kappaLow = _ from ex_sub _ _, show exactC.r.mul _ _ = _ from ex_mul _ _,
      show exactC.r.add _ _ = _ from ex_add _ _]
    exact zMA_lift h

theorem sigsqr_lift {s : CarP p} {f : FCarP p} (r : PRel s f) {θ : List ℝ} {v : ℝ} (h : s.extractSigsqr θ = .ok v) :
    FCarP.extractSigsqr exactC f (θ.map .fin) = .ok (.fin v) := by
  unfold CarP.extractSigsqr at h
  obtain ⟨l, h1, h⟩ := bind_ok h
  obtain ⟨ma, h2, h⟩ := bind_ok h
  obtain ⟨s0, h3, h⟩ := bind_ok h
  obtain ⟨w, h4, h⟩ := bind_ok h
  unfold FCarP.extractSigsqr
  rw [rootsFrom_lift (show rootsFrom θ 3 p = .ok l from h1), res_bind_ok, extractMA_lift r h2, res_bind_ok, rd_lift h3, res_bind_ok, vecOf_lift,
    variance_lift h4]
  show Except.ok (Arith.exact.div (Arith.exact.mul _ _) _) = _
  rw [exf_mul, dv_lift h]

theorem filter_len (l : List ℝ) (P : ℝ → Prop) (Q : Dbl → Prop) (h : ∀ x, Q (.fin x) ↔ P x) :
    ((l.map Dbl.fin).filter fun x => Q x).length = (l.filter fun x => P x).length := by
  rw [List.filter_map, List.length_map]
  congr 1
  refine List.filter_congr fun x _ => ?_
  simp [h x]

theorem checkPrior_lift {s : CarP p} {f : FCarP p} (r : PRel s f) {θ : List ℝ} {v : Bool} (h : CarP.checkPrior s.b p s.orderLor θ = .ok v) :
    FCarP.checkPrior exactC f (θ.map .fin) = .ok v := by
  unfold CarP.checkPrior at h
  unfold FCarP.checkPrior
  rw [r.mle]
  dsimp only at h ⊢
  split at h
  · next hm => rw [if_pos hm]; exact h
  next hm =>
  rw [if_neg hm]
  obtain ⟨y0, h1, h⟩ := bind_ok h
  obtain ⟨sc, h2, h⟩ := bind_ok h
  obtain ⟨l, h3, h⟩ := bind_ok h
  rw [rd_lift h1, res_bind_ok, rd_lift h2, res_bind_ok, rootsFrom_lift (show rootsFrom θ 3 p = .ok l from h3), res_bind_ok, ← h]
  have ec : (l.map pair).map (fun r => exactC.r.div (exactC.r.div r.2.abs (.fin 2)) (exactC.r.rnd Real.pi)) = (CarP.cents l).map .fin := by
    unfold CarP.cents
    rw [List.map_map, List.map_map]
    refine List.map_congr_left fun z _ => ?_
    show Arith.exact.div (Arith.exact.div (.fin |z.im|) (.fin 2)) (.fin Real.pi) = _
    rw [exf_div _ two_ne_zero, exf_div _ Real.pi_ne_zero]; rfl
  have ew : (l.map pair).map (fun r => exactC.r.div (exactC.r.div r.1.neg (.fin 2)) (exactC.r.rnd Real.pi)) = (CarP.widths l).map .fin := by
    unfold CarP.widths
    rw [List.map_map, List.map_map]
    refine List.map_congr_left fun z _ => ?_
    show Arith.exact.div (Arith.exact.div (.fin (-z.re)) (.fin 2)) (.fin Real.pi) = _
    rw [exf_div _ two_ne_zero, exf_div _ Real.pi_ne_zero]; rfl
  rw [ec, ew, r.hi, r.lo, r.stdev, r.lor, unordered_lift, show exactC.r.rnd 1e-4 = .fin 1e-4 from rfl, unique_lift]
  simp only [List.length_map, List.filter_map]
  rfl

/-! ### log-density -/

theorem setUp_lift {s : CarP p} {f : FCarP p} (r : PRel s f) {θ : List ℝ} {kf : KFp p} (h : s.setParams θ = .ok (kf, false)) {sc mu : ℝ}
    (hs : rd θ 1 = .ok sc) (hsc : 0 ≤ sc) (hm : rd θ 2 = .ok mu) : ∃ a b c i, FCarP.setUp exactC f (θ.map .fin) = .ok (liftP
      (Kalman.setBase kf (((Kalman.base kf).setTimeSeriesErr (s.b.yerr.map fun x => √sc * x)).setTimeSeries (s.b.y.map fun x => x - mu))) a b c i) := by
  unfold CarP.setParams at h
  obtain ⟨l, h1, h⟩ := bind_ok h
  obtain ⟨ma, h2, h⟩ := bind_ok h
  split at h
  · next v hv =>
    injection h with h
    injection h with h _
    subst h
    refine ⟨f.kf.b.omega, f.kf.b.yconst, f.kf.b.yslope, f.kf.innov, ?_⟩
    unfold FCarP.setUp
    rw [rootsFrom_lift (show rootsFrom θ 3 p = .ok l from h1), res_bind_ok, extractMA_lift r h2, res_bind_ok, sigsqr_lift r hv, res_bind_ok, rd_lift hs,
      res_bind_ok, rd_lift hm, res_bind_ok]
    have e1 : (f.yerr.map fun x => exactC.r.mul (exactC.r.sqrt (.fin sc)) x) = (s.b.yerr.map fun x => √sc * x).map .fin := by
      rw [r.yerr, List.map_map, List.map_map]
      refine List.map_congr_left fun x _ => ?_
      show Arith.exact.mul (if sc < 0 then _ else _) _ = _
      rw [if_neg hsc.not_gt]; rfl
    have e2 : (f.y.map fun x => exactC.r.sub x (.fin mu)) = (s.b.y.map fun x => x - mu).map .fin := by
      rw [r.y, List.map_map, List.map_map]
      refine List.map_congr_left fun x _ => ?_
      exact exf_sub _ _
    rw [e1, e2, vecOf_lift]
    unfold FKFp.zeroed liftP
    dsimp only [Kalman.setBase, Kalman.base]
    congr 1
    have k1 := r.ktime
    have k2 := r.kdt
    have k3 := r.kmean
    have k4 := r.kvar
    have k5 := r.kcur
    cases hb : f.kf.b
    rw [hb] at k1 k2 k3 k4 k5
    dsimp only at k1 k2 k3 k4 k5
    subst k1 k2 k3 k4 k5
    rfl
  · injection h with h
    injection h with _ h
    cases h
  · cases h

theorem setUp_omega {s : CarP p} {f : FCarP p} (r : PRel s f) {θ : List ℝ} {kf : KFp p} {bad : Bool} (h : s.setParams θ = .ok (kf, bad)) {sc mu : ℝ}
    (hs : rd θ 1 = .ok sc) (hm : rd θ 2 = .ok mu) : ∃ k, FCarP.setUp exactC f (θ.map .fin) = .ok k ∧ k.omega = fun k => pair (kf.omega k) := by
  unfold CarP.setParams at h
  obtain ⟨l, h1, h⟩ := bind_ok h
  obtain ⟨ma, h2, h⟩ := bind_ok h
  have e1 := rootsFrom_lift (show rootsFrom θ 3 p = .ok l from h1)
  have e2 := extractMA_lift r h2
  have key : ∀ s0, rd θ 0 = .ok s0 → ∃ k, FCarP.setUp exactC f (θ.map .fin) = .ok k ∧ k.omega = fun k => pair (vecOf p l k) := by
    intro s0 h0
    unfold FCarP.setUp FCarP.extractSigsqr
    rw [e1, e2, rd_lift hs, rd_lift hm, rd_lift h0]
    simp only [res_bind_ok, res_pure]
    refine ⟨_, rfl, ?_⟩
    show FCarP.vecOf p (l.map pair) = _
    rw [vecOf_lift]
  split at h
  · next v hv =>
    injection h with h
    injection h with h _
    subst h
    unfold CarP.extractSigsqr at hv
    obtain ⟨_, _, hv⟩ := bind_ok hv
    obtain ⟨_, _, hv⟩ := bind_ok hv
    obtain ⟨s0, h0, hv⟩ := bind_ok hv
    exact key s0 h0
  · next hv =>
    injection h with h
    injection h with h _
    subst h
    cases h0 : rd θ 0 with
    | ok s0 => exact key s0 h0
    | error e =>
      unfold CarP.extractSigsqr at hv
      rw [h1, res_bind_ok, h2, res_bind_ok, h0] at hv
      injection hv with hv
      exact absurd (Only.rd (P := fun e => e = .bounds) rfl _ _ e h0) (by rw [hv]; simp)
  · cases h

theorem logDensity_lift {s s' : CarP p} {f : FCarP p} (r : PRel s f) {θ : List ℝ} {v : Dbl} (hv : v ≠ .nan)
    (h : Verif.Model.logDensity s θ = .ok (s', v)) : ∃ f', FCarP.logDensity exactC f (θ.map .fin) = .ok (f', v) := by
  unfold Verif.Model.logDensity at h
  obtain ⟨ok, h1, h⟩ := bind_ok h
  unfold FCarP.logDensity
  rw [checkPrior_lift r h1, res_bind_ok]
  dsimp only at h ⊢
  split at h
  · next ho =>
    rw [if_pos ho]
    injection h with h
    injection h with _ h
    exact ⟨f, by rw [h]; rfl⟩
  next ho =>
  rw [if_neg ho]
  obtain ⟨⟨kf, bad⟩, h2, h⟩ := bind_ok h
  obtain ⟨sc, h3, h⟩ := bind_ok h
  obtain ⟨mu, h4, h⟩ := bind_ok h
  dsimp only at h
  split at h
  · next hr =>
    obtain ⟨g1, g2⟩ := filter_runtime_only hr
    obtain ⟨k, k1, k2⟩ := setUp_omega r h2 h3 h4
    rw [k1, res_bind_ok, rd_lift h4, res_bind_ok, filter_runtime_lift g1 g2 k2]
    injection h with h
    injection h with _ h
    exact ⟨_, by rw [← h]; rfl⟩
  · obtain ⟨_, _, h⟩ := bind_ok h
    obtain ⟨_, _, h⟩ := bind_ok h
    injection h with h
    injection h with _ h
    exact absurd h.symm hv
  · cases h
  · next k hk =>
    obtain ⟨ll, h5, h⟩ := bind_ok h
    obtain ⟨lp, h6, h⟩ := bind_ok h
    injection h with h
    injection h with _ hval
    by_cases hb : bad = true ∨ sc < 0
    · rw [if_pos hb] at hval; exact absurd hval.symm hv
    rw [if_neg hb] at hval
    push Not at hb
    have hbad : bad = false := by simpa using hb.1
    subst hbad
    obtain ⟨a, b, c, i, k1⟩ := setUp_lift r h2 h3 hb.2 h4
    have hk' : Kalman.filter (Kalman.setBase kf (((Kalman.base kf).setTimeSeriesErr (s.b.yerr.map fun x => √sc * x)).setTimeSeries
      (s.b.y.map fun x => x - mu))) = .ok k := hk
    rw [k1, res_bind_ok, rd_lift h4, res_bind_ok, filterp_lift hk']
    dsimp only
    have e := lik_exact (y := s.b.y) (mean := k.b.mean) (var := k.b.var) (fm := k.b.mean.map .fin) (fv := k.b.var.map .fin) (mu := mu)
      (n := s.b.time.length) (fun _ _ => List.getElem?_map) (fun _ _ => List.getElem?_map)
    rw [r.y, r.time, List.length_map]
    rw [show FCar1.likLoop exactC.r (s.b.y.map .fin) (liftP k a b c (.fin k.innov)).b.mean (liftP k a b c (.fin k.innov)).b.var (.fin mu) s.b.time.length
      = .ok ll from e.trans h5, res_bind_ok, logPrior_lift r h6, res_bind_ok]
    rw [show exactC.r.add ll lp = _ from ex_add _ _]
    rw [← hval]
    exact ⟨_, rfl⟩

/-! ### constructors -/

theorem kfnew_lift {srt : List ℝ → List ℕ} {fsrt : List Dbl → List ℕ} (hs : ∀ l : List ℝ, fsrt (l.map .fin) = srt l) {ts ys es : List ℝ} {k : KFp p}
    (h : KFp.newData p srt ts ys es = .ok k) : ∃ f, FKFp.newData exactC p fsrt (ts.map .fin) (ys.map .fin) (es.map .fin) = .ok f ∧ f.b = liftK k.b := by
  unfold KFp.newData KFBase.init at h
  obtain ⟨b2, h2, h⟩ := bind_ok h
  obtain ⟨b1, h1, h2⟩ := bind_ok h2
  obtain ⟨b4, h4, h⟩ := bind_ok h
  obtain ⟨b3, h3, h4⟩ := bind_ok h4
  injection h with h
  subst h
  have e1 := initSort_exact (k := KFBase.raw ts ys es 0) (srt := srt) (srt' := fsrt) (hs _)
  rw [h1] at e1
  have e2 := initDedup_exact b1
  rw [h2] at e2
  have e3 := initSort_exact (k := b2) (srt := srt) (srt' := fsrt) (hs _)
  rw [h3] at e3
  have e4 := initDedup_exact b3
  rw [h4] at e4
  have e0 : FKF1.newData exactC.r fsrt (ts.map .fin) (ys.map .fin) (es.map .fin) = .ok (liftK b2) :=
    (congrArg (· >>= FKF1.initDedup Arith.exact) e1).trans e2
  unfold FKFp.newData
  rw [e0, res_bind_ok, show FKF1.initSort exactC.r fsrt (liftK b2) = .ok (liftK b3) from e3, res_bind_ok,
    show FKF1.initDedup exactC.r (liftK b3) = .ok (liftK b4) from e4, res_bind_ok]
  exact ⟨_, rfl, rfl⟩

theorem median_lift {l : List ℝ} {m : ℝ} (h : armaMedian l = .ok m) : FCarP.median exactC (l.map .fin) = .ok (.fin m) := by
  unfold armaMedian at h
  split at h
  · cases h
  next hl =>
  injection h with h
  unfold FCarP.median
  rw [if_neg (by simp [hl])]
  dsimp only
  have e : (l.map Dbl.fin).mergeSort (fun a b => decide ¬ b.lt a) = (l.mergeSort fun a b => decide (a ≤ b)).map .fin := by
    rw [List.map_mergeSort]
    intro a _ b _
    simp [Dbl.lt]
  rw [e, List.length_map, getD_fin, getD_fin, ← h, show exactC.r.add (.fin _) (.fin _) = .fin _ from exf_add _ _,
    show exactC.r.div (.fin _) (.fin 2) = .fin _ from exf_div _ two_ne_zero]
  split <;> rfl

/-- a fresh filter has `current_index_ = 0` -/
theorem newData_cur {srt : List ℝ → List ℕ} {ts ys es : List ℝ} {k : KFp p} (h : KFp.newData p srt ts ys es = .ok k) : k.b.cur = 0 := by
  have hsort : ∀ {s s' : KFBase}, initSort srt s = .ok s' → s'.cur = s.cur := by
    intro s s' h
    unfold initSort at h
    obtain ⟨_, _, h⟩ := bind_ok h
    dsimp only at h
    split at h
    · obtain ⟨_, _, h⟩ := bind_ok h
      obtain ⟨_, _, h⟩ := bind_ok h
      obtain ⟨_, _, h⟩ := bind_ok h
      obtain ⟨_, _, h⟩ := bind_ok h
      injection h with h; subst h; rfl
    · injection h with h; subst h; rfl
  have hded : ∀ {s s' : KFBase}, initDedup s = .ok s' → s'.cur = s.cur := by
    intro s s' h
    unfold initDedup at h
    obtain ⟨s1, h1, h⟩ := bind_ok h
    injection h with h; subst h
    show s1.cur = _
    split at h1
    · obtain ⟨_, _, h1⟩ := bind_ok h1
      obtain ⟨_, _, h1⟩ := bind_ok h1
      obtain ⟨_, _, h1⟩ := bind_ok h1
      obtain ⟨_, _, h1⟩ := bind_ok h1
      injection h1 with h1; subst h1; rfl
    · injection h1 with h1; subst h1; rfl
  unfold KFp.newData KFBase.init at h
  obtain ⟨b2, h2, h⟩ := bind_ok h
  obtain ⟨b1, h1, h2⟩ := bind_ok h2
  obtain ⟨b4, h4, h⟩ := bind_ok h
  obtain ⟨b3, h3, h4⟩ := bind_ok h4
  injection h with h
  subst h
  show b4.cur = 0
  rw [hded h4, hsort h3, hded h2, hsort h1]
  rfl

theorem carp_lift {srt : List ℝ → List ℕ} {fsrt : List Dbl → List ℕ} (hs : ∀ l : List ℝ, fsrt (l.map .fin) = srt l) {ts ys es : List ℝ} {s : CarP p}
    (h : CarP.newCarp p srt ts ys es = .ok s) :
    ∃ f, FCarP.newCarp exactC p fsrt (ts.map .fin) (ys.map .fin) (es.map .fin) (.fin (10 * √(armaVar ys))) = .ok f ∧ PRel s f := by
  unfold CarP.newCarp CarBase.new CarBase.setPrior at h
  obtain ⟨b, h1, h⟩ := bind_ok h
  obtain ⟨ds, g1, h1⟩ := bind_ok h1
  obtain ⟨dmin, g2, h1⟩ := bind_ok h1
  obtain ⟨tmax, g3, h1⟩ := bind_ok h1
  obtain ⟨tmin, g4, h1⟩ := bind_ok h1
  injection h1 with h1
  subst h1
  obtain ⟨kf, h2, h⟩ := bind_ok h
  dsimp only at h g1 g2 g3 g4
  split at h
  · cases h
  next hp =>
  injection h with h
  subst h
  obtain ⟨k, k1, k2⟩ := kfnew_lift hs h2
  have hc := newData_cur h2
  have e1 := diffs_lift g1
  have e2 := vecMin_exact ds
  have e3 := vecMax_exact ts
  have e4 := vecMin_exact ts
  rw [g2] at e2; rw [g3] at e3; rw [g4] at e4
  unfold FCarP.newCarp
  rw [show FKF1.diffs exactC.r _ = _ from e1, res_bind_ok, e2]
  dsimp only [Except.map]
  rw [res_bind_ok, e3]
  dsimp only [Except.map]
  rw [res_bind_ok, e4]
  dsimp only [Except.map]
  rw [res_bind_ok, k1, res_bind_ok, if_neg hp]
  refine ⟨_, rfl, ⟨rfl, rfl, rfl, rfl, ex_div _ _, ?_, rfl, rfl, ?_, rfl, rfl, rfl, ?_, ?_, ?_, ?_, ?_⟩⟩
  · show Arith.exact.div (.fin 1) (Arith.exact.sub (.fin tmax) (.fin tmin)) = _
    rw [exf_sub, ex_div]
  · show _ = (1 :: List.replicate (p - 1) 0 : List ℝ).map Dbl.fin
    rw [List.map_cons, List.map_replicate]
  · show k.b.time = _; rw [k2]; rfl
  · show k.b.dt = _; rw [k2]; rfl
  · show k.b.mean = _; rw [k2]; rfl
  · show k.b.var = _; rw [k2]; rfl
  · show k.b.cur = kf.b.cur; rw [k2, hc]; rfl

theorem new_plift {srt : List ℝ → List ℕ} {fsrt : List Dbl → List ℕ} (hs : ∀ l : List ℝ, fsrt (l.map .fin) = srt l) {kind : Kind} {ts ys es : List ℝ}
    {s : CarP p} (h : CarP.new kind p srt ts ys es = .ok s) :
    ∃ f, FCarP.new exactC kind p fsrt (ts.map .fin) (ys.map .fin) (es.map .fin) (.fin (10 * √(armaVar ys))) = .ok f ∧ PRel s f := by
  unfold FCarP.new
  cases kind with
  | carp =>
    obtain ⟨f, e, r⟩ := carp_lift hs (show CarP.newCarp p srt ts ys es = .ok s from h)
    rw [e, res_bind_ok]
    exact ⟨f, rfl, r⟩
  | carma q =>
    obtain ⟨s1, h1, h⟩ := bind_ok (show CarP.newCarma p q srt ts ys es = .ok s from h)
    injection h with h
    subst h
    obtain ⟨f, e, r⟩ := carp_lift hs h1
    rw [e, res_bind_ok]
    exact ⟨_, rfl, ⟨r.time, r.y, r.yerr, r.stdev, r.hi, r.lo, r.mle, rfl, r.ma, r.lor, r.low, r.high, r.ktime, r.kdt, r.kmean, r.kvar, r.kcur⟩⟩
  | zcar =>
    obtain ⟨s1, h1, h⟩ := bind_ok (show CarP.newZcar p srt ts ys es = .ok s from h)
    obtain ⟨ds, g1, h⟩ := bind_ok h
    obtain ⟨dmin, g2, h⟩ := bind_ok h
    obtain ⟨ma, g3, h⟩ := bind_ok h
    injection h with h
    subst h
    obtain ⟨f, e, r⟩ := carp_lift hs h1
    have e2 := vecMin_exact ds
    rw [g2] at e2
    rw [e, res_bind_ok]
    dsimp only
    rw [show FKF1.diffs exactC.r _ = _ from diffs_lift g1, res_bind_ok, e2]
    dsimp only [Except.map]
    rw [res_bind_ok, show exactC.r.div (.fin 1) (.fin dmin) = _ from ex_div _ _, zMA_lift g3, res_bind_ok]
    exact ⟨_, rfl, ⟨r.time, r.y, r.yerr, r.stdev, r.hi, r.lo, r.mle, rfl, r.ma, r.lor, r.low, r.high, r.ktime, r.kdt, r.kmean, r.kvar, r.kcur⟩⟩
  | zcarma =>
    obtain ⟨s1, h1, h⟩ := bind_ok (show CarP.newZcarma p srt ts ys es = .ok s from h)
    obtain ⟨ds, g1, h⟩ := bind_ok h
    obtain ⟨dmin, g2, h⟩ := bind_ok h
    obtain ⟨tmax, g3, h⟩ := bind_ok h
    obtain ⟨tmin, g4, h⟩ := bind_ok h
    obtain ⟨med, g5, h⟩ := bind_ok h
    injection h with h
    subst h
    obtain ⟨f, e, r⟩ := carp_lift hs h1
    have e2 := vecMin_exact ds
    have e3 := vecMax_exact ts
    have e4 := vecMin_exact ts
    rw [g2] at e2; rw [g3] at e3; rw [g4] at e4
    rw [e, res_bind_ok]
    dsimp only
    rw [show FKF1.diffs exactC.r _ = _ from diffs_lift g1, res_bind_ok, e2]
    dsimp only [Except.map]
    rw [res_bind_ok, e3]
    dsimp only [Except.map]
    rw [res_bind_ok, e4]
    dsimp only [Except.map]
    rw [res_bind_ok, median_lift g5, res_bind_ok]
    refine ⟨_, rfl, ⟨r.time, r.y, r.yerr, r.stdev, r.hi, r.lo, r.mle, rfl, r.ma, r.lor, ?_, ex_div _ _, r.ktime, r.kdt, r.kmean, r.kvar, r.kcur⟩⟩
    show Dbl.max (Arith.exact.div (.fin 1) (Arith.exact.sub (.fin tmax) (.fin tmin))) (Arith.exact.div (.fin 1) (Arith.exact.mul (.fin 10) (.fin med))) = _
    rw [exf_sub, exf_mul, ex_div, ex_div]

end Verif.Theory
