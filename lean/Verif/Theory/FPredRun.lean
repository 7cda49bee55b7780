import Verif.Theory.FPredNum

/-!
`KalmanFilter1::Predict` in binary64 arithmetic: finite results, and the NaN near an observation.
-/

namespace Verif.Theory

open Verif.Model Verif.Spec
open scoped Classical

variable {A : Arith}

/-! ### the search -/

theorem scan_eq {x : ℝ} : ∀ {l : List ℝ} {i : ℕ}, Follows l x i → FKF1.scan (.fin x) (l.map .fin) = i
  | [], i, h => by have := h.le; simp at this; subst this; rfl
  | a :: l, 0, h => by
      have : x ≤ a := by simpa using h.next (by simp)
      simp only [List.map_cons, FKF1.scan]
      rw [if_neg]
      simpa [Dbl.gt, Dbl.lt] using this
  | a :: l, i + 1, h => by
      have h0 : a < x := by simpa using h.past 0 (by omega)
      have hf : Follows l x i := ⟨by simpa using h.le, fun j hj => by simpa using h.past (j + 1) (by omega), fun hi => by
        simpa using h.next (by simpa using hi)⟩
      simp only [List.map_cons, FKF1.scan]
      rw [if_pos (show Dbl.gt (.fin x) (.fin a) from h0), scan_eq hf]

theorem find_eq {x : ℝ} {l : List ℝ} {i : ℕ} (hl : l ≠ []) (h : Follows l x i) : FKF1.find (l.map .fin) (.fin x) = .ok i := by
  rw [FKF1.find, if_neg (by simpa using hl), scan_eq h]

/-! ### the forward part -/

theorem iterU_num (hA : IsBinary64 A) {s : FKF1} (h : FSafe A 300 298 s) {k : ℕ} (hk : k + 1 ≤ s.time.length) :
    ∃ s1 s', FKF1.reset A s = .ok s1 ∧ iter (FKF1.update A) k s1 = .ok s' ∧ FDone A 300 298 s s' (k + 1) := by
  obtain ⟨s1, e1, d1⟩ := fReset hA (by norm_num) (by norm_num) h
  refine ⟨s1, ?_⟩
  induction k with
  | zero => exact ⟨s1, e1, rfl, d1⟩
  | succ k ih =>
    obtain ⟨s2, -, e2, d2⟩ := ih (by omega)
    obtain ⟨s3, e3, d3⟩ := fUpdate hA (by norm_num) (by norm_num) (by norm_num) (by norm_num) (c := k + 1) (by omega) (by rw [d2.time]; omega) d2
    exact ⟨s3, e1, by simp only [iter, e2, res_bind_ok, e3], d3⟩

/-- the variance of one step when the factor is less than 1 -/
theorem step_pos (hA : IsBinary64 A) {ρ S lo : ℝ} {u : Dbl} (Fρ : F64 ρ) (ρ0 : 0 ≤ ρ) (ρ1 : ρ < 1) (hlo : F64 lo) (h : lo ≤ S * 2 ^ (-53 : ℤ)) (S0 : 0 ≤ S)
    {V : ℝ} (hV : A.add (A.mul (.fin S) (A.sub (.fin 1) (A.mul (.fin ρ) (.fin ρ)))) u = .fin V) (hu : ∃ x, 0 ≤ x ∧ u = .fin x) {hi : ℝ} (hhi : F64 hi) (hS : S ≤ hi) :
    lo ≤ V := by
  obtain ⟨x, x0, rfl⟩ := hu
  obtain ⟨rr, err, -, rr0, rr1⟩ := rnd_mul hA (a := ρ) (b := ρ) f64_zero Fρ (by positivity) (by nlinarith)
  have h1 := f64_lt_one Fρ ρ1
  have F53 : F64 (2 ^ (-53 : ℤ)) := f64_zpow _ (by omega) (by omega)
  obtain ⟨c, ec, -, c0, c1⟩ := rnd_sub hA (a := 1) (b := rr) F53 f64_one (by linarith) (by linarith)
  obtain ⟨q, eq, rq, q0, q1⟩ := rnd_mul hA (a := S) (b := c) hlo hhi
    (h.trans (mul_le_mul_of_nonneg_left c0 S0)) ((mul_le_of_le_one_right S0 c1).trans hS)
  rw [err, ec, eq, fl_add] at hV
  exact q0.trans ((rnd_rounds hA hV).ge rq.f (by linarith))

theorem diff_num (hA : IsBinary64 A) {v E P : ℝ} (hv : F64 v) (E0 : 0 ≤ E) (Ev : E ≤ v) (eP : A.sub (.fin v) (.fin E) = .fin P) :
    F64 P ∧ 0 ≤ P ∧ P ≤ v := by
  rw [fl_sub] at eP
  have R := rnd_rounds hA eP
  exact ⟨R.f, R.ge f64_zero (sub_nonneg.mpr Ev), R.le hv (sub_le_self _ E0)⟩

/-- mean and variance given the past -/
theorem past_num (hA : IsBinary64 A) {s s' : FKF1} (h : PSafe A s) {c : ℕ} (hc : 0 < c) (hcn : c ≤ s.time.length) (hd : FDone A 300 298 s s' c)
    (ks : KSame s s') {x t : ℝ} (ht : s.time[c - 1]? = some (.fin t)) (hx : t ≤ x) {w : ℝ} (hw : s.omega = .fin w) :
    ∃ ρ v P γ m V, decayTo A w t x = .fin ρ ∧ s'.var[c - 1]? = some (.fin v) ∧ FKF1.predictPast A s' (.fin x) c = .ok (.fin m, .fin V) ∧
      |m| ≤ 2 * 2 ^ (300 : ℤ) ∧ 0 ≤ V ∧ V ≤ 2 ^ (300 : ℤ) ∧ (ρ ≠ 1 → 2 ^ (-351 : ℤ) ≤ V) ∧
      ∃ e E S, s.yerr[c - 1]? = some (.fin e) ∧ A.mul (.fin e) (.fin e) = .fin E ∧ A.sub (.fin v) (.fin E) = .fin P ∧
        A.div (.fin P) (.fin v) = .fin γ ∧ 0 ≤ S ∧ S ≤ 2 ^ (298 : ℤ) ∧
        A.add (A.mul (.fin S) (A.sub (.fin 1) (A.mul (.fin ρ) (.fin ρ))))
          (A.mul (A.mul (A.mul (.fin ρ) (.fin ρ)) (.fin P)) (A.sub (.fin 1) (.fin γ))) = .fin V := by
  have h' := h.same ks
  obtain ⟨w', ew, Fw, w0⟩ := h.omega
  rw [hw] at ew; injection ew with ew; subst ew
  obtain ⟨S, eS, S0, S1⟩ := h'.statv
  obtain ⟨m, v, e, E, em, ev, ee, eE, Fm, hm, Fv, hEv, hv⟩ := hd.bound (c - 1) (by omega)
  obtain ⟨e', E', ee', eE', E0, E1⟩ := h'.err (i := c - 1) (by rw [ks.time]; omega)
  rw [ee] at ee'
  injection ee' with ee'; injection ee' with ee'; subst ee'
  rw [eE] at eE'; injection eE' with eE'; subst eE'
  obtain ⟨y, ey, hy⟩ := h'.ys (c - 1) (by rw [ks.time]; omega)
  obtain ⟨ρ, eρ, Fρ, ρ0, ρ1⟩ := decay_num hA w0 (gap_sub hA hx)
  have hp := p298_pos
  have v0 : 0 < v := hp.trans_le (E0.trans hEv)
  obtain ⟨P, γ, M, V, eP, eγ, eM, FM, hM, eV, FV, V0, V1⟩ := step_num hA (a := 300) (b := 298) (by norm_num) (by norm_num) (by norm_num) (by norm_num)
    Fρ ρ0 ρ1 Fm hm hy Fv (hp.le.trans E0) v0 hEv hv (hp.le.trans S0) S1
  have V2 : V ≤ 2 ^ (300 : ℤ) := by
    refine V1.trans ?_
    rw [← pw_mul 2 298 300 (by norm_num)]
    exact mul_le_mul_of_nonneg_right (by norm_num) (by positivity)
  refine ⟨ρ, v, P, γ, M, V, eρ, ev, ?_, hM, V0, V2, ?_, e, E, S, by rw [← ks.yerr]; exact ee, eE, eP, eγ, hp.le.trans S0, S1, eV⟩
  · have ht' : s'.time[c - 1]? = some (.fin t) := by rw [ks.time]; exact ht
    have eS' := eS
    rw [ks.omega, hw] at eS'
    have eρ' : A.exp (A.mul (A.sub (.fin x) (.fin t)).neg (.fin w)) = .fin ρ := eρ
    simp only [FKF1.predictPast]
    rw [if_neg (by omega), rdU_some ht', res_bind_ok, rd_some ev, res_bind_ok, rd_some ee, res_bind_ok, rd_some em, res_bind_ok, rd_some ey, res_bind_ok]
    simp only [ks.omega, hw, eρ', eE, eP, eγ, eS', eM, eV]
    rfl
  · intro hne
    obtain ⟨γ0, γ1⟩ := gain_num hA Fv v0 (hp.le.trans E0) hEv eP eγ
    obtain ⟨FP, P0, P1⟩ := diff_num hA Fv (hp.le.trans E0) hEv eP
    obtain ⟨rr, err, -, rr0, rr1⟩ := mul01_pos hA f64_one ρ0 ρ1 ρ0 ρ1
    obtain ⟨k, ek, -, k0, k1⟩ := one_sub_num hA γ0 γ1
    obtain ⟨rp, erp, Frp, rp0, rp1⟩ := rnd_mul hA (a := rr) (b := P) f64_zero FP (mul_nonneg rr0 P0) (mul_le_of_le_one_left P0 rr1)
    obtain ⟨u, eu, -, u0, -⟩ := mul01_pos hA Frp.f rp0 le_rfl k0 k1
    have F1 : F64 (2 ^ (-351 : ℤ)) := f64_zpow (-351) (by omega) (by omega)
    have F2 : F64 (2 ^ (298 : ℤ)) := f64_zpow 298 (by omega) (by omega)
    have h351 : (2 : ℝ) ^ (-351 : ℤ) ≤ S * 2 ^ (-53 : ℤ) := by
      rw [← pw_mul (-298) (-53) (-351) (by norm_num)]
      exact mul_le_mul_of_nonneg_right S0 (by positivity)
    generalize (2 : ℝ) ^ (-351 : ℤ) = lo at F1 h351 ⊢
    exact step_pos hA Fρ ρ0 (lt_of_le_of_ne ρ1 hne) F1 h351 (hp.le.trans S0) eV ⟨u, u0, by rw [err, erp, ek, eu]⟩ F2 S1

/-! ### the result -/

theorem predict_back (hA : IsBinary64 A) {s : FKF1} (h : PSafe A s) {x : ℝ} (hf : FKF1.find s.time (.fin x) = .ok 0) :
    ∃ s' m v, FKF1.predict A s (.fin x) = .ok (s', (.fin m, .fin v)) ∧ 0 < v := by
  obtain ⟨s1, s2, e1, e2, d⟩ := iterU_num hA h.toFSafe (k := 0) h.pos
  cases e2
  have ks := reset_ksame e1
  have h1 := h.same ks
  obtain ⟨S, eS, S0, S1⟩ := h1.statv
  obtain ⟨s3, acc, s4, acc', μ, pv, e3, ht, e4, e5, e6, e7, p0, -⟩ := finish_num hA h1 (x := x) (i := 0) (m := 0) h1.pos (by rw [abs_zero]; positivity)
    ((pw_le (-351) (-298) (by norm_num)).trans S0) (S1.trans (pw_le _ _ (by norm_num)))
  refine ⟨s4, μ, pv, ?_, p0⟩
  simp only [FKF1.predict, hf, res_bind_ok, e1]
  have hpp : FKF1.predictPast A s1 (.fin x) 0 = .ok (.fin 0, .fin S) := by
    simp only [FKF1.predictPast, if_true, eS]; rfl
  rw [show (0 : ℕ) - 1 = 0 from rfl]
  simp only [iter, res_bind_ok, hpp]
  rw [if_neg (by have := h1.pos; omega), e3, res_bind_ok, e4, res_bind_ok, e5, res_bind_ok]
  simp only [e6, e7]
  rfl

theorem predict_fwd (hA : IsBinary64 A) {s : FKF1} (h : PSafe A s) {x t w : ℝ} {i : ℕ} (hi : 0 < i) (hin : i ≤ s.time.length)
    (hf : FKF1.find s.time (.fin x) = .ok i) (ht : s.time[i - 1]? = some (.fin t)) (hx : t ≤ x) (hw : s.omega = .fin w) :
    (i = s.time.length → ∃ s' m v, FKF1.predict A s (.fin x) = .ok (s', (.fin m, .fin v)) ∧ 0 ≤ v ∧ (decayTo A w t x ≠ .fin 1 → 0 < v)) ∧
    (i < s.time.length → decayTo A w t x ≠ .fin 1 → ∃ s' m v, FKF1.predict A s (.fin x) = .ok (s', (.fin m, .fin v)) ∧ 0 < v) := by
  obtain ⟨s1, s2, e1, e2, d⟩ := iterU_num hA h.toFSafe (k := i - 1) (by omega)
  rw [Nat.sub_add_cancel hi] at d
  have ks := (reset_ksame e1).trans (iter_ksame e2)
  obtain ⟨ρ, v, P, γ, m, V, eρ, ev, ep, hm, V0, V1, Vp, -⟩ := past_num hA h hi hin d ks ht hx hw
  have pos : (0 : ℝ) < 2 ^ (-351 : ℤ) := by positivity
  refine ⟨fun he => ⟨s2, m, V, ?_, V0, fun hr => pos.trans_le (Vp ?_)⟩, fun hlt hr => ?_⟩
  · simp only [FKF1.predict, hf, res_bind_ok, e1, e2, ep]
    rw [if_pos (by rw [ks.time]; exact he)]
    rfl
  · intro h1; subst h1; exact hr eρ
  · have h1 := h.same ks
    obtain ⟨s3, acc, s4, acc', μ, pv, e3, ht3, e4, e5, e6, e7, p0, -⟩ := finish_num hA h1 (x := x) (i := i) (by rw [ks.time]; exact hlt) hm
      (Vp (by intro h1; subst h1; exact hr eρ)) V1
    refine ⟨s4, μ, pv, ?_, p0⟩
    simp only [FKF1.predict, hf, res_bind_ok, e1, e2, ep]
    rw [if_neg (by rw [ks.time]; omega), e3, res_bind_ok, e4, res_bind_ok, e5, res_bind_ok]
    simp only [e6, e7]
    rfl

/-! ### the past determines the value exactly -/

theorem add_fin_inv {a b : Dbl} {r : ℝ} (h : A.add a b = .fin r) : ∃ y, b = .fin y := by
  cases a <;> cases b <;> first | exact ⟨_, rfl⟩ | cases h

/-- an infinity or NaN -/
def Wild (d : Dbl) : Prop := d = .pinf ∨ d = .ninf ∨ d = .nan

theorem wild_add {d : Dbl} (h : Wild d) (y : ℝ) : A.add d (.fin y) = d := by
  rcases h with rfl | rfl | rfl <;> rfl

theorem accum_wild (hA : IsBinary64 A) {s : FKF1} {c j : ℕ} (h : PCoef A s (c + 1) j) (hc : c < s.time.length) (hj : j + 1 < 2 ^ 53) {q : Dbl}
    (hq : Wild q) : FKF1.accum A s c (.pinf, q) = .ok (.pinf, q) := by
  obtain ⟨⟨p', q'⟩, e, ⟨p, hp, -⟩, ⟨r, hr, -⟩⟩ := accum_num hA h hc (p0 := 0) (acc := (.fin 0, .fin 0)) (k := 0) ⟨⟨0, rfl, f64_zero, le_rfl, by simp⟩, ⟨0, rfl, by simp⟩⟩
    (by norm_num) hj
  unfold FKF1.accum at e ⊢
  obtain ⟨v, e1, e⟩ := bind_ok e
  obtain ⟨y, e2, e⟩ := bind_ok e
  rw [e1, res_bind_ok, e2, res_bind_ok]
  cases e
  obtain ⟨a, ha⟩ := add_fin_inv hp
  obtain ⟨b, hb⟩ := add_fin_inv hr
  rw [ha, hb, wild_add hq, wild_add (.inl rfl)]
  rfl

theorem coefLoop_wild (hA : IsBinary64 A) {q : Dbl} (hq : Wild q) : ∀ {k i j : ℕ} {s : FKF1}, PCoef A s i j → 0 < i → i + k = s.time.length →
    j + k + 1 < 2 ^ 53 → ∃ s', FKF1.coefLoop A k i s (.pinf, q) = .ok (s', (.pinf, q))
  | 0, i, j, s, _, _, _, _ => ⟨s, rfl⟩
  | k + 1, i, j, s, h, h0, hi, hj => by
      obtain ⟨s1, e1, h1, ks⟩ := updateCoefs_num hA h h0 (by omega) (by omega)
      have e2 := accum_wild hA h1 (by rw [ks.time]; omega) (by omega) hq
      obtain ⟨s', e3⟩ := coefLoop_wild hA hq (k := k) h1 (by omega) (by rw [ks.time]; omega) (by omega)
      exact ⟨s', by rw [FKF1.coefLoop, e1, res_bind_ok, e2, res_bind_ok, e3]⟩

theorem mul_inf_wild (m : ℝ) : Wild (A.mul (.fin m) .pinf) := by
  show Wild (A.fl (Dbl.infTimes m))
  unfold Dbl.infTimes
  split_ifs
  · exact .inl rfl
  · exact .inr (.inl rfl)
  · exact .inr (.inr rfl)

theorem wild_mul_zero {d : Dbl} (h : Wild d) : A.mul d (.fin 0) = .nan := by
  rcases h with rfl | rfl | rfl
  · show A.fl (Dbl.infTimes 0) = _
    simp [Dbl.infTimes, Arith.fl]
  · show A.fl (Dbl.infTimes (-0)) = _
    simp [Dbl.infTimes, Arith.fl]
  · rfl

/-- If the computed variance given the past is zero and there are later observations, the result is NaN with variance zero. -/
theorem predict_zero (hA : IsBinary64 A) {s s1 s2 : FKF1} (h : PSafe A s) {x m : ℝ} {i : ℕ} (hi : i < s.time.length)
    (hf : FKF1.find s.time (.fin x) = .ok i) (e1 : FKF1.reset A s = .ok s1) (e2 : iter (FKF1.update A) (i - 1) s1 = .ok s2)
    (ep : FKF1.predictPast A s2 (.fin x) i = .ok (.fin m, .fin 0)) : ∃ s', FKF1.predict A s (.fin x) = .ok (s', (.nan, .fin 0)) := by
  have ks := (reset_ksame e1).trans (iter_ksame e2)
  have h1 := h.same ks
  have hmax := h.max
  obtain ⟨s3, e3, h3⟩ := initCoefs_num hA h1 (x := x) (i := i) (by rw [ks.time]; exact hi)
  have ks3 := ks.trans (initCoefs_ksame e3)
  have hq := mul_inf_wild (A := A) m
  have e4 := accum_wild hA h3 (by rw [ks3.time]; exact hi) (by norm_num) hq
  obtain ⟨s4, e5⟩ := coefLoop_wild hA hq (k := s3.time.length - (i + 1)) h3 (by omega) (by rw [ks3.time]; omega) (by rw [ks3.time]; omega)
  have d0 : A.div (.fin 1) (.fin 0) = .pinf := by
    show A.fl (if (0 : ℝ) = 0 then Dbl.infTimes 1 else _) = _
    simp [Dbl.infTimes, Arith.fl]
  have d1 : A.div (.fin 1) .pinf = .fin 0 := hA.id 0 f64_zero
  refine ⟨s4, ?_⟩
  simp only [FKF1.predict, hf, res_bind_ok, e1, e2, ep]
  rw [if_neg (by rw [ks.time]; omega), e3, res_bind_ok, d0, e4, res_bind_ok, e5, res_bind_ok]
  simp only [d1, wild_mul_zero hq]
  rfl

/-- later updates do not change an entry of `var` -/
theorem iter_keeps (hA : IsBinary64 A) {s s1 s2 s' : FKF1} (h : FSafe A 300 298 s) {i k : ℕ} (hik : i ≤ k) (hk : k + 1 ≤ s.time.length)
    (e1 : FKF1.reset A s = .ok s1) (e2 : iter (FKF1.update A) i s1 = .ok s2) (e3 : iter (FKF1.update A) k s1 = .ok s') :
    s'.var[i]? = s2.var[i]? := by
  induction k generalizing s' with
  | zero =>
    obtain rfl : i = 0 := by omega
    rw [e2] at e3; cases e3; rfl
  | succ k ih =>
    rcases Nat.lt_or_ge i (k + 1) with hlt | hge
    · obtain ⟨s3, e4, e5⟩ := bind_ok e3
      obtain ⟨t1, t2, f1, f2, d⟩ := iterU_num hA h (k := k) (by omega)
      rw [e1] at f1; cases f1
      rw [e4] at f2; cases f2
      rw [update_keeps e5 d.cur (by omega)]
      exact ih (by omega) (by omega) e4
    · obtain rfl : i = k + 1 := by omega
      rw [e2] at e3; cases e3; rfl

/-- NaN near an observation whose error is lost in rounding. -/
theorem predict_nan (hA : IsBinary64 A) {s sf : FKF1} (h : PSafe A s) {x t w e E v : ℝ} {i : ℕ} (hi : 0 < i) (hin : i < s.time.length)
    (hf : FKF1.find s.time (.fin x) = .ok i) (ht : s.time[i - 1]? = some (.fin t)) (hx : t ≤ x) (hw : s.omega = .fin w)
    (hr : decayTo A w t x = .fin 1) (hF : FKF1.filter A s = .ok sf) (hv : sf.var[i - 1]? = some (.fin v)) (he : s.yerr[i - 1]? = some (.fin e))
    (hE : A.mul (.fin e) (.fin e) = .fin E) (hsub : A.sub (.fin v) (.fin E) = .fin v) :
    ∃ s', FKF1.predict A s (.fin x) = .ok (s', (.nan, .fin 0)) := by
  obtain ⟨s1, s2, e1, e2, d⟩ := iterU_num hA h.toFSafe (k := i - 1) (by omega)
  rw [Nat.sub_add_cancel hi] at d
  have ks := (reset_ksame e1).trans (iter_ksame e2)
  obtain ⟨ρ, v', P, γ, m, V, eρ, ev, ep, -, -, -, -, e', E', S, ee', eE', eP, eγ, S0, S1, eV⟩ := past_num hA h hi hin.le d ks ht hx hw
  rw [hr] at eρ; cases eρ
  rw [he] at ee'; cases ee'
  rw [hE] at eE'; cases eE'
  have ev' : s2.var[i - 1]? = some (.fin v) := by
    unfold FKF1.filter at hF
    rw [e1, res_bind_ok] at hF
    rw [← hv]
    have hl := (reset_ksame e1).time
    rw [hl] at hF
    exact (iter_keeps hA h.toFSafe (by omega) (by omega) e1 e2 hF).symm
  rw [ev] at ev'; cases ev'
  rw [hsub] at eP; cases eP
  obtain ⟨m0, v0, e0, E0, -, ev0, ee0, eE0, -, -, Fv, hEv, -⟩ := d.bound (i - 1) (by omega)
  obtain ⟨e9, E9, ee9, eE9, E90, -⟩ := h.err (i := i - 1) (by omega)
  rw [d.yerr, ee9] at ee0; cases ee0
  rw [eE9] at eE0; cases eE0
  rw [ev] at ev0; cases ev0
  have vp : v ≠ 0 := (p298_pos.trans_le (E90.trans hEv)).ne'
  have g1 : γ = 1 := by
    rw [fl_div _ _ vp, div_self vp, hA.id 1 f64_one] at eγ
    injection eγ with eγ; exact eγ.symm
  subst g1
  have z1 : A.mul (.fin 1) (.fin 1) = .fin 1 := by rw [fl_mul, one_mul]; exact hA.id 1 f64_one
  have z2 : A.sub (.fin 1) (.fin 1) = .fin 0 := by rw [fl_sub, sub_self]; exact hA.id 0 f64_zero
  have z3 : ∀ z : ℝ, A.mul (.fin z) (.fin 0) = .fin 0 := fun z => by rw [fl_mul, mul_zero]; exact hA.id 0 f64_zero
  have z4 : A.mul (.fin 1) (.fin v) = .fin v := by rw [fl_mul, one_mul]; exact hA.id v Fv
  have z5 : A.add (.fin 0) (.fin 0) = .fin 0 := by rw [fl_add, add_zero]; exact hA.id 0 f64_zero
  rw [z1, z2, z3, z4, z3, z5] at eV
  cases eV
  exact predict_zero hA h hin hf e1 e2 ep

end Verif.Theory
