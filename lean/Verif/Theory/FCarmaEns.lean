import Verif.Theory.FCarmaRun
import Verif.Theory.FRun

/-!
The ensemble of `RunCarmaSampler` and its run, in machine numbers.
-/

namespace Verif.Theory

open Verif.Model Verif.Spec
open scoped Classical

variable {C : CArith} {p : ℕ} {A : Arith}

theorem new_kma {kind : Kind} {srt : List Dbl → List ℕ} {time y yerr : List Dbl} {B : Dbl} {s : FCarP p}
    (h : FCarP.new C kind p srt time y yerr B = .ok s) : s.kf.ma.length = p := by
  unfold FCarP.new at h
  obtain ⟨s1, h1, h⟩ := bind_ok h
  have k1 : s1.kf.ma.length = p := by
    unfold FCarP.newCarp at h1
    obtain ⟨_, -, h1⟩ := bind_ok h1
    obtain ⟨_, -, h1⟩ := bind_ok h1
    obtain ⟨_, -, h1⟩ := bind_ok h1
    obtain ⟨_, -, h1⟩ := bind_ok h1
    obtain ⟨_, -, h1⟩ := bind_ok h1
    split at h1
    · cases h1
    · injection h1 with h1
      subst h1
      simp
      omega
  cases kind with
  | carp => injection h with h; subst h; exact k1
  | carma q => injection h with h; subst h; exact k1
  | zcar =>
    obtain ⟨_, -, h⟩ := bind_ok h
    obtain ⟨_, -, h⟩ := bind_ok h
    obtain ⟨ma, hma, h⟩ := bind_ok h
    injection h with h
    subst h
    unfold FCarP.zMA at hma
    split at hma
    · cases hma
    · injection hma with hma
      subst hma
      simp
  | zcarma =>
    obtain ⟨_, -, h⟩ := bind_ok h
    obtain ⟨_, -, h⟩ := bind_ok h
    obtain ⟨_, -, h⟩ := bind_ok h
    obtain ⟨_, -, h⟩ := bind_ok h
    obtain ⟨_, -, h⟩ := bind_ok h
    injection h with h
    subst h
    exact k1

/-! ### temperatures -/

theorem f64_small {k : ℕ} (hk : k < 2 ^ 53) : F64 (k : ℝ) := by
  simpa using f64_nat_zpow k 0 hk (by norm_num) (by norm_num)

theorem temp_ok (hA : IsBinary64 A) (hL : Ladder A) {n i : ℕ} (hi : i < n) (hn : n ≤ 2 ^ 53) : ∃ t, ftemperature A n i = .fin t ∧ 1 ≤ t := by
  obtain ⟨l, el, hlF, hl0, hl5⟩ := hL.log
  unfold ftemperature
  split
  · rw [el]
    exact hL.exp l hlF hl0 (by linarith)
  · next hne =>
    obtain ⟨N, hN⟩ : ∃ N : ℕ, N = n - 1 := ⟨_, rfl⟩
    have hNi : i < N := by omega
    have hN1 : N < 2 ^ 53 := by omega
    have hNr : (0 : ℝ) < N := by exact_mod_cast (by omega : 0 < N)
    have hN2 : (N : ℝ) ≤ 2 ^ 53 := by exact_mod_cast hN1.le
    have r1 : A.rnd ((n - 1 : ℕ) : ℝ) = .fin N := by rw [← hN]; exact hA.id _ (f64_small hN1)
    have r2 : A.rnd (i : ℝ) = .fin i := hA.id _ (f64_small (by omega))
    have e1 : A.sub (A.log (.fin 100)) (.fin 0) = .fin l := by rw [el, fl_sub, sub_zero]; exact hA.id l hlF
    have hX : |l / N| ≤ 5 / N := by
      rw [abs_of_nonneg (by positivity)]
      gcongr
    obtain ⟨st, e2, hstF, hst⟩ := rnd_close hA hX (by
      have h1 : (2 : ℝ) ^ (-1000 : ℤ) ≤ 2 ^ (-53 : ℤ) := pw_le _ _ (by norm_num)
      have h2 : (2 : ℝ) ^ (-53 : ℤ) = 1 / 2 ^ 53 := by norm_num
      refine h1.trans ?_
      rw [h2, div_le_div_iff₀ (by positivity) hNr]
      nlinarith) (by
      have h1 : (2 : ℝ) ^ (3 : ℤ) ≤ 2 ^ (971 : ℤ) := pw_le _ _ (by norm_num)
      refine le_trans ?_ h1
      rw [div_le_iff₀ hNr]
      have : (1 : ℝ) ≤ N := by exact_mod_cast (by omega : 1 ≤ N)
      norm_num
      linarith)
    have st0 : 0 ≤ st := by
      obtain h | ⟨r, h, -, h0⟩ := rnd_nonneg hA (x := l / N) (by positivity)
      · rw [h] at e2; cases e2
      · rw [h] at e2; injection e2 with e2; rw [← e2]; exact h0
    have hu : uu ≤ 1 / 2 := by rw [show uu = (2 : ℝ) ^ (-52 : ℤ) from rfl]; norm_num
    have hi0 : (0 : ℝ) ≤ i := by positivity
    have hiN : (i : ℝ) ≤ N := by exact_mod_cast hNi.le
    have stN : st * N ≤ 15 / 2 := by
      have h1 := (abs_le.mp hst).2
      have h2 : st ≤ l / N + uu * (5 / N) := by linarith
      have h3 : st * N ≤ (l / N + uu * (5 / N)) * N := mul_le_mul_of_nonneg_right h2 hNr.le
      have h4 : (l / N + uu * (5 / N)) * N = l + uu * 5 := by field_simp
      rw [h4] at h3
      linarith
    have hb : (i : ℝ) * st ≤ 8 := by nlinarith
    have F8 : F64 8 := by simpa using f64_small (k := 8) (by norm_num)
    obtain ⟨x, e3, -, hx0, hx8⟩ := rnd_mul hA (a := (i : ℝ)) (b := st) f64_zero F8 (by positivity) hb
    have hxF : F64 x := hA.range _ _ e3
    have e4 : A.add (.fin 0) (.fin x) = .fin x := by
      show A.rnd (0 + x) = _
      rw [zero_add]; exact hA.id x hxF
    rw [r1, r2, e1, fl_div _ _ hNr.ne', e2, e3, e4]
    exact hL.exp x hxF hx0 hx8

/-! ### ensemble -/

/-- a chain before its starting value is set -/
noncomputable def walker (C : CArith) (fuel : ℕ) (obj : FCarP p) (d n i : ℕ) : FPar (FWalk C p fuel) :=
  { obj := ⟨obj⟩, value := List.replicate d (.fin 0), logpost := .nan, temp := ftemperature C.r n i, samples := [], logposts := [] }

theorem ens_ok {fuel : ℕ} {srt : List Dbl → List ℕ} {time y yerr : List Dbl} {kind : Kind} {B : Dbl} {obj : FCarP p}
    (h : FCarP.new C kind p srt time y yerr B = .ok obj) (n m : ℕ) :
    fensemble C fuel srt time y yerr p kind B n m = .ok ((List.range m).map (walker C fuel obj (CarP.thetaLen p kind) n)) := by
  induction m with
  | zero => rfl
  | succ m ih =>
    rw [fensemble, ih, res_bind_ok, h, res_bind_ok, List.range_succ, List.map_append]
    rfl

theorem steps_ok {d : ℕ} (a : FRam d) (m : ℕ) : ∀ st ∈ fsteps a m, ∀ k, m < k → FStepOk k st := by
  induction m with
  | zero => intro st h; cases h
  | succ m ih =>
    intro st h k hk
    simp only [fsteps, List.mem_cons] at h
    rcases h with rfl | rfl | h
    · exact hk
    · exact ⟨by omega, hk⟩
    · exact ih st h k (by omega)

theorem steps_cover {d : ℕ} (a : FRam d) (m : ℕ) {i : ℕ} (h0 : 0 < i) (hi : i ≤ m) : ∃ st ∈ fsteps a m, st.chain = i := by
  induction m with
  | zero => omega
  | succ m ih =>
    by_cases e : i = m + 1
    · exact ⟨.ram (m + 1) a, by simp [fsteps], e.symm⟩
    · obtain ⟨st, h, k⟩ := ih (by omega)
      exact ⟨st, by simp [fsteps, h], k⟩

theorem steps_len {d : ℕ} (a : FRam d) (m : ℕ) : (fsteps a m).length = 2 * m := by
  induction m with
  | zero => rfl
  | succ m ih => simp [fsteps, ih]; ring

/-- the sampler of `RunCarmaSampler` -/
noncomputable def carmaSamp (C : CArith) (fuel : ℕ) (obj : FCarP p) (d : ℕ) (a : FRam d) (n : ℕ) (r : FRng) : FSamp (FWalk C p fuel) d :=
  { chains := (List.range n).map (walker C fuel obj d n), steps := fsteps a (n - 1) ++ [.ram 0 a], tracked := 0, rng := r }

theorem carma_built (hA : IsBinary64 C.r) (hL : Ladder C.r) {N : ℕ} {obj : FCarP p} (hs : PShape N obj) (hk : obj.kf.ma.length = p) (fuel : ℕ) {d : ℕ}
    (a : FRam d) {n : ℕ} (h0 : 0 < n) (hn : n ≤ 2 ^ 53) {r : FRng} (hr : Usable d r) :
    FBuilt (fun w : FWalk C p fuel => CInv N obj w.o) (carmaSamp C fuel obj d a n r) := by
  have ln : (carmaSamp C fuel obj d a n r).chains.length = n := by simp [carmaSamp]
  refine ⟨?_, ?_, by rw [ln]; exact h0, ?_, ?_, hr⟩
  · intro c hc
    simp only [carmaSamp, List.mem_map, List.mem_range] at hc
    obtain ⟨i, hi, rfl⟩ := hc
    exact ⟨⟨hs, PLike.refl obj, rfl, hk⟩, by simp [walker], temp_ok hA hL hi hn⟩
  · intro st hst
    rw [ln]
    simp only [carmaSamp, List.mem_append, List.mem_singleton] at hst
    rcases hst with h | rfl
    · exact steps_ok a _ st h n (by omega)
    · exact h0
  · intro i hi
    rw [ln] at hi
    by_cases e : i = 0
    · exact ⟨.ram 0 a, by simp [carmaSamp], e.symm⟩
    · obtain ⟨st, h, k⟩ := steps_cover a (n - 1) (i := i) (by omega) (by omega)
      exact ⟨st, by simp [carmaSamp, h], k⟩
  · intro c hc
    simp only [carmaSamp, List.mem_map, List.mem_range] at hc
    obtain ⟨i, hi, rfl⟩ := hc
    exact ⟨rfl, rfl⟩

theorem params_dim (q : ℕ) (z : Bool) : nParams p q z = dimOf p (runKind q z) := by
  unfold nParams runKind
  split
  · simp [dimOf]; omega
  · split
    · simp [dimOf]; omega
    · simp [dimOf]; omega

theorem frun_eq {M : Mach} (fuel : ℕ) {srt : List Dbl → List ℕ} (N burnin : ℕ) {time y yerr : List Dbl} {q n : ℕ} (hn : 0 < n) {z : Bool}
    (thin : ℕ) (init : List Dbl) (r : FRng) {B : Dbl} {L : List Dbl} (hset : FRun.setup M.A (nParams p q z) y = .ok (B, L)) {obj : FCarP p}
    (hnew : FCarP.new C (runKind q z) p srt time y yerr B = .ok obj) :
    frunCarma C M fuel srt N burnin time y yerr p q n z thin init r =
      ((carmaSamp C fuel obj (nParams p q z) (FRam.new M.A (nParams p q z) L (.fin 0.25) burnin) n r).run M N burnin thin init >>= fun s =>
        rdU s.chains 0) := by
  unfold FRun.setup at hset
  obtain ⟨l, hl, hset⟩ := bind_ok hset
  injection hset with hset
  injection hset with h1 h2
  subst h1 h2
  unfold frunCarma
  rw [ens_ok hnew, res_bind_ok, hl, res_bind_ok]
  dsimp only
  have r0 : rdU ((List.range n).map (walker C fuel obj (CarP.thetaLen p (runKind q z)) n)) 0 = .ok (walker C fuel obj (CarP.thetaLen p (runKind q z)) n 0) := by
    simp [rdU, hn]
  rw [r0, res_bind_ok]
  have hd : CarP.thetaLen p (runKind q z) = nParams p q z := by rw [thetaLen_dim, params_dim]
  rw [hd]
  rfl

theorem fcpVal_ok {n : ℕ} {s : FCarP p} (h : PShape n s) {θ : List Dbl} (hθ : dimOf p s.kind ≤ θ.length) :
    ∃ o, FCarP.logDensity C s θ = .ok (o, fcpVal C s θ) := by
  obtain ⟨s', v, e, -⟩ := ld_ok (C := C) h hθ
  exact ⟨s', by rw [fcpVal, e]⟩

/-- the value of the log-density -/
theorem ld_value {n : ℕ} {s : FCarP p} (h : PShape n s) {θ : List Dbl} (hθ : dimOf p s.kind ≤ θ.length) (hc : FCarP.checkPrior C s θ = .ok true) {k : FKFp p}
    (ek : FCarP.setUp C s θ = .ok k) {J : Fin p → CD} (hJ : C.solve p (FKFp.eigenMat C k.omega) (FKFp.rvec p) = some J) {lp : Dbl}
    (elp : FCarP.logPrior C s θ = .ok lp) :
    ∃ s', FCarP.logDensity C s θ = .ok (s', C.r.add (flik C.r s.y (fun i => ((seqOf C k J i).m, (seqOf C k J i).v)) (θ.getD 2 .nan) n) lp) := by
  have hd := dim_three (p := p) s.kind
  have emu := frd_getD (show 2 < θ.length by omega)
  obtain ⟨k', ek', hk, hma, -⟩ := setUp_ok (C := C) h hθ
  rw [ek] at ek'
  injection ek' with ek'
  subst ek'
  obtain ⟨kf, ef, hf⟩ := (hist_filterp (C := C) (OrdersOk.two h.orders) h.pos hk hma).2 J hJ
  have elik := hist_lik (A := C.r) (y := s.y) (mu := θ.getD 2 .nan) (mv := fun i => ((seqOf C k J i).m, (seqOf C k J i).v)) h.y hf.lmean.ge hf.lvar.ge
    hf.mean hf.var
  refine ⟨{ s with kf := kf }, ?_⟩
  unfold FCarP.logDensity
  rw [hc, res_bind_ok, if_neg (by simp), ek, res_bind_ok, emu, res_bind_ok, ef]
  dsimp only
  rw [h.time, elik, res_bind_ok, elp]; rfl

/-- a finite log-density means that the prior bounds hold -/
theorem fin_check {s o : FCarP p} {θ : List Dbl} {x : ℝ} (h : FCarP.logDensity C s θ = .ok (o, .fin x)) : FCarP.checkPrior C s θ = .ok true := by
  unfold FCarP.logDensity at h
  obtain ⟨ok, e, h⟩ := bind_ok h
  split at h
  · injection h with h
    injection h with _ h
    cases h
  · next hn => rw [e]; simpa using hn

/-- the run, whatever is known about the search -/
theorem carma_out {M : Mach} (hA : IsBinary64 M.A) (hS : Strict M.A) (hL : Ladder M.A) (hC : C.r = M.A) (fuel : ℕ) {srt : List Dbl → List ℕ} (N burnin : ℕ)
    {time y yerr : List Dbl} {q n : ℕ} (h0 : 0 < n) (hn : n ≤ 2 ^ 53) {z : Bool} (thin : ℕ) {init : List Dbl} {r : FRng}
    (hr : Usable (nParams p q z) r) {B : Dbl} {L : List Dbl} (hset : FRun.setup M.A (nParams p q z) y = .ok (B, L)) {obj : FCarP p} {K : ℕ}
    (hnew : FCarP.new C (runKind q z) p srt time y yerr B = .ok obj) (hs : PShape K obj) (hkind : obj.kind = runKind q z)
    {E : Fault → Prop} {R : ℕ → FRng → Prop} {Q : List Dbl → Prop} (hQ : ∀ θ, Q θ → (fcpVal C obj θ).isFin)
    (hsearch : ∀ m o r, CInv K obj o.o → Usable (dimOf p obj.kind) r → R (m + 1) r → OutE E
      (Found (dimOf p obj.kind) (fun w : FWalk C p fuel => CInv K obj w.o) Q (R m))
      (search M.A (if init.length = dimOf p obj.kind then some init else none) o r)) (hR : R (2 * n - 1) r) :
    OutE E (fun par => Chain C obj (nParams p q z) N par.samples par.logposts)
      (frunCarma C M fuel srt N burnin time y yerr p q n z thin init r) := by
  have hd : dimOf p obj.kind = nParams p q z := by rw [hkind, params_dim]
  have hb := carma_built (C := C) (hC ▸ hA) (hC ▸ hL) hs (new_kma hnew) fuel (FRam.new M.A (nParams p q z) L (.fin 0.25) burnin) h0 hn hr
  have hf := walk_honest (fuel := fuel) hC hs
  rw [hd] at hf hsearch
  rw [frun_eq fuel N burnin h0 thin init r hset hnew]
  refine OutE.bind (frun_out hA hS hf hb N burnin thin hsearch (by
    show R ((fsteps _ (n - 1) ++ [_]).length) r
    rw [List.length_append, steps_len, List.length_singleton, show 2 * (n - 1) + 1 = 2 * n - 1 by omega]; exact hR)) fun s' h => ?_
  obtain ⟨θ₀, c, hq, hc, l1, l2, hrec⟩ := h
  have hc0 : s'.chains[0]? = some c := hc
  have : rdU s'.chains 0 = .ok c := by simp [rdU, hc0]
  rw [this]
  refine ⟨l1, l2, fun j hj => ?_⟩
  obtain ⟨θ, v, g1, g2, g3, g4⟩ := hrec j hj
  have hfin := g4.finite (hQ θ₀ hq)
  obtain ⟨x, rfl⟩ : ∃ x, v = .fin x := by
    cases v with
    | fin x => exact ⟨x, rfl⟩
    | _ => exact absurd hfin id
  obtain ⟨o, eo⟩ := fcpVal_ok (C := C) hs (θ := θ) (by rw [hd, g3])
  rw [← g4.value] at eo
  exact ⟨θ, x, o, g1, g2, g3, g4.doubles, eo, fin_check eo⟩

/-! ### a pass that throws -/

theorem start_throws {n d : ℕ} {s0 s : FCarP p} (h0 : PShape n s0) (hk : s0.kf.ma.length = p) (hd : d = dimOf p s0.kind) (h : CInv n s0 s) {fuel k : ℕ}
    (hF : k < fuel) {r : FRng} (hr : Usable d r) (hb : ∀ j < k, ¬ Finds C s0 (r.prior j) (r.yvar j)) (ht : Throws C s0 (r.prior k) (r.yvar k)) :
    FCarP.start C fuel s r = .error .runtime := by
  induction fuel generalizing s r k with
  | zero => omega
  | succ fuel ih =>
    unfold FCarP.start
    rcases pass_like (C := C) h0 hk h (θ := r.prior 0) (by rw [hr.prior 0, hd]) (r.yvar 0) with ⟨-, e⟩ | ⟨hn, s', v, e, hi, hv, -⟩
    · rw [e]; rfl
    · cases k with
      | zero => exact absurd ht hn
      | succ k =>
        rw [e, res_bind_ok]
        dsimp only
        rw [if_neg fun h => hb 0 (by omega) (hv.mp h)]
        exact ih hi (by omega) (usable_next hr) (fun j hj => hb (j + 1) (by omega)) ht

theorem startLoop_err {μ : Type} [FTarget μ] {d : ℕ} {i : Option (List Dbl)} {s : FSamp μ d} {e : Fault} (h : FSamp.startOne A i s 0 = .error e) {m : ℕ}
    (hm : 0 < m) : FSamp.startLoop A i s m = .error e := by
  induction m with
  | zero => omega
  | succ m ih =>
    cases m with
    | zero => exact h
    | succ m =>
      rw [FSamp.startLoop, ih (by omega)]
      rfl

theorem carma_throws {M : Mach} (hA : IsBinary64 M.A) (hL : Ladder M.A) (hC : C.r = M.A) {fuel : ℕ} {srt : List Dbl → List ℕ} (N burnin : ℕ)
    {time y yerr : List Dbl} {q n : ℕ} (h0 : 0 < n) (hn : n ≤ 2 ^ 53) {z : Bool} (thin : ℕ) {init : List Dbl} {r : FRng}
    (hr : Usable (nParams p q z) r) {B : Dbl} {L : List Dbl} (hset : FRun.setup M.A (nParams p q z) y = .ok (B, L)) {obj : FCarP p} {K : ℕ}
    (hnew : FCarP.new C (runKind q z) p srt time y yerr B = .ok obj) (hs : PShape K obj) (hkind : obj.kind = runKind q z)
    (hi : init.length = nParams p q z → ¬ (fcpVal C obj init).isFin) {k : ℕ} (hF : k < fuel)
    (hb : ∀ j < k, ¬ Finds C obj (r.prior j) (r.yvar j)) (ht : Throws C obj (r.prior k) (r.yvar k)) :
    frunCarma C M fuel srt N burnin time y yerr p q n z thin init r = .error .runtime := by
  have hd : dimOf p obj.kind = nParams p q z := by rw [hkind, params_dim]
  have hkma := new_kma hnew
  have hbuilt := carma_built (C := C) (hC ▸ hA) (hC ▸ hL) hs hkma fuel (FRam.new M.A (nParams p q z) L (.fin 0.25) burnin) h0 hn hr
  have hself : CInv K obj obj := ⟨hs, PLike.refl obj, rfl, hkma⟩
  rw [frun_eq fuel N burnin h0 thin init r hset hnew]
  obtain ⟨S, hS⟩ : ∃ S, S = carmaSamp C fuel obj (nParams p q z) (FRam.new M.A (nParams p q z) L (.fin 0.25) burnin) n r := ⟨_, rfl⟩
  rw [← hS] at hbuilt ⊢
  have et := List.getElem?_eq_getElem hbuilt.tracked
  obtain ⟨P, hP⟩ : ∃ P, P = S.chains[S.tracked]'hbuilt.tracked := ⟨_, rfl⟩
  rw [← hP] at et
  obtain ⟨st, hst, -⟩ := hbuilt.cover S.tracked hbuilt.tracked
  have hpos : 0 < S.steps.length := List.length_pos_of_mem hst
  obtain ⟨l0, raw0, st0⟩ := sized_raw hbuilt et N
  have one : FSamp.startOne M.A (if init.length = nParams p q z then some init else none) (sized S P N) 0 = .error .runtime := by
    have hout := startOne_out (E := fun e => e = .runtime) (R := fun _ r' => r' = r) (Q := fun _ => False) (m := 0)
      (hd ▸ walk_honest (fuel := fuel) hC hs) raw0 st0 hbuilt.rng (i := if init.length = nParams p q z then some init else none) (k := 0) (by
        intro o r' ho hr' e
        subst e
        have hst : ∀ s', CInv K obj s' → FCarP.start C fuel s' r' = .error .runtime :=
          fun s' h' => start_throws hs hkma hd.symm h' hF hr hb ht
        rw [← hC]
        by_cases hl : init.length = nParams p q z
        · rw [if_pos hl]
          obtain ⟨s', h', e'⟩ := setStart_else (C := C) hs ho fuel (hl.trans hd.symm) (thetaLen_dim _) (hi hl) r'
          show OutE _ _ (FCarP.setStart C fuel o.o init r' >>= fun a => pure ((⟨a.1⟩ : FWalk C p fuel), a.2.1, a.2.2))
          rw [e', hst s' h']
          rfl
        · rw [if_neg hl]
          show OutE _ _ (FCarP.start C fuel o.o r' >>= fun a => pure ((⟨a.1⟩ : FWalk C p fuel), a.2.1, a.2.2))
          rw [hst o.o ho]
          rfl) (by rw [hS]; rfl) hpos
    cases hx : FSamp.startOne M.A (if init.length = nParams p q z then some init else none) (sized S P N) 0 with
    | error e => rw [hx] at hout; rw [show e = .runtime from hout]
    | ok s' =>
      rw [hx] at hout
      obtain ⟨_, _, _, _, _, _, _, hf, _⟩ := hout
      exact absurd hf id
  rw [run_eq hbuilt N burnin thin init et, startLoop_err one hpos]
  rfl

end Verif.Theory
