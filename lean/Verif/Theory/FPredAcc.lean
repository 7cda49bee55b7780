import Verif.Theory.FPredList

/-!
Accuracy of `KalmanFilter1::Predict`: from the recursions to the object that holds the data.
-/

namespace Verif.Theory

open Verif.Model Verif.Spec
open scoped Classical

variable {A : Arith}

theorem exact_forms (w q : ℝ) (q0 : 0 ≤ q) :
    Arith.exact.exp (Arith.exact.mul (Arith.exact.mul (.fin (-1)) (.fin w)) (.fin q)) = .fin (Real.exp (-(w * q))) ∧
    Arith.exact.exp (Arith.exact.mul (Arith.exact.mul (.fin (-1)) (.fin q)) (.fin w)) = .fin (Real.exp (-(w * q))) ∧
    Arith.exact.exp (Arith.exact.mul (Dbl.fin q).neg (.fin w)) = .fin (Real.exp (-(w * q))) ∧
    Arith.exact.exp (Arith.exact.mul (Dbl.fin q).abs.neg (.fin w)) = .fin (Real.exp (-(w * q))) := by
  have ab : (Dbl.fin q).abs = .fin q := by rw [Dbl.abs, abs_of_nonneg q0]
  refine ⟨?_, ?_, ?_, ?_⟩
  · rw [exf_mul, exf_mul, exf_exp]; congr 2; ring
  · rw [exf_mul, exf_mul, exf_exp]; congr 2; ring
  · rw [neg_fin, exf_mul, exf_exp]; congr 2; ring
  · rw [ab, neg_fin, exf_mul, exf_exp]; congr 2; ring

/-- the stationary variance -/
theorem statq_err (hA : IsBinary64 A) {b c : ℤ} (hb1 : -300 ≤ b) (hb2 : b ≤ 300) {q w : ℝ} (hw : F64 w) (w0 : 2 ^ (-148 : ℤ) ≤ w) (w1 : w ≤ 2 ^ (148 : ℤ))
    (h1 : 2 ^ c ≤ q / (2 * w)) (h2 : 2 * (q / (2 * w)) ≤ 2 ^ b) :
    ∃ S, A.div (.fin q) (A.mul (.fin 2) (.fin w)) = .fin S ∧ 0 ≤ S ∧ S ≤ 2 ^ b ∧ |S - q / (2 * w)| ≤ 3 * (uu * 2 ^ b) := by
  have wp : 0 < w := lt_of_lt_of_le (by positivity) w0
  have F2w : F64 (2 * w) := by simpa using f64_scale hw wp (w1.trans (pw_le _ _ (by norm_num))) 1 (by norm_num)
  have eW : A.mul (.fin 2) (.fin w) = .fin (2 * w) := by rw [fl_mul]; exact hA.id _ F2w
  have FB : F64 (2 ^ b) := f64_zpow b (by omega) (by omega)
  have hC : (0 : ℝ) < 2 ^ c := by positivity
  have hB : (0 : ℝ) < 2 ^ b := by positivity
  have s0 : 0 ≤ q / (2 * w) := hC.le.trans h1
  have s1 : q / (2 * w) ≤ 2 ^ b := by linarith
  obtain ⟨S, eS, rS, S0, S1⟩ := rnd_div hA (a := q) (b := 2 * w) (by positivity) f64_zero FB s0 s1
  refine ⟨S, by rw [eW, eS], S0, S1, ?_⟩
  have := rounds_pos rS s0 s1 (pw_le _ _ (by omega)) (s1.trans (pw_le _ _ (by omega)))
  have : 0 < uu * 2 ^ b := mul_pos uu_pos hB
  linarith

/-- the measurement variances -/
theorem noise_err (hA : IsBinary64 A) {b c : ℤ} (hb1 : -300 ≤ b) (hb2 : b ≤ 300) (hc1 : -300 ≤ c) (hc2 : c ≤ 300) {e : ℝ} (h1 : 2 ^ c ≤ e ^ 2) (h2 : 2 * e ^ 2 ≤ 2 ^ b) :
    ∃ E, A.mul (.fin e) (.fin e) = .fin E ∧ F64 E ∧ 0 < E ∧ E ≤ 2 ^ b ∧ |E - e ^ 2| ≤ 6 * uu * e ^ 2 := by
  have hC : (0 : ℝ) < 2 ^ c := by positivity
  have FB : F64 (2 ^ b) := f64_zpow b (by omega) (by omega)
  have FC : F64 (2 ^ c) := f64_zpow c (by omega) (by omega)
  have e0 : 0 < e ^ 2 := hC.trans_le h1
  have s1 : e ^ 2 ≤ 2 ^ b := by linarith
  obtain ⟨E, eE, rE, E0, E1⟩ := rnd_mul hA (a := e) (b := e) FC FB (by rw [← sq]; exact h1) (by rw [← sq]; exact s1)
  refine ⟨E, eE, rE.1, hC.trans_le E0, E1, ?_⟩
  rw [← sq] at rE
  have := rounds_pos rE e0.le le_rfl ((pw_le _ _ (by omega)).trans h1) (s1.trans (pw_le _ _ (by omega)))
  have : 0 < uu * e ^ 2 := mul_pos uu_pos e0
  linarith

theorem mem_getD {l : List ℝ} {i : ℕ} (h : i < l.length) (d : ℝ) : l.getD i d ∈ l := by
  rw [List.getD_eq_getElem _ _ h]; exact List.getElem_mem _

theorem mem_getD0 {l : List ℝ} (h : 0 < l.length) (i : ℕ) : l.getD i (l.getD 0 0) ∈ l := by
  rcases lt_or_ge i l.length with hi | hi
  · exact mem_getD hi _
  · rw [List.getD_eq_default _ _ hi]; exact mem_getD h _

/-- evaluation of `predict` from the factors to the two neighbouring times -/
theorem predict_of {ts ys es : List ℝ} {q w : ℝ} {s s0 s1 : FKF1} {S : ℝ} {ρ E : ℕ → ℝ} (hN : NHolds A ts ys es q w s)
    (hP : PHolds A ts.length (.fin S) (fun i => .fin (ρ i)) (fun i => .fin (ρ i)) (fun i => .fin (ys.getD i 0)) (fun i => .fin (E i)) s)
    (h2 : 2 ≤ ts.length) {x : ℝ} {i : ℕ} (hf : Follows ts x i) (h0 : FKF1.reset A s = .ok s0) (h1 : iter (FKF1.update A) (i - 1) s0 = .ok s1) {rp rn : ℝ}
    (hp : 0 < i → A.exp (A.mul (A.sub (.fin x) (.fin (ts.getD (i - 1) 0))).neg (.fin w)) = .fin rp)
    (hq : i < ts.length → A.exp (A.mul (A.sub (.fin (ts.getD i 0)) (.fin x)).abs.neg (.fin w)) = .fin rn) :
    ∃ s', FKF1.predict A s (.fin x) = .ok (s', pval A ts.length (.fin S) (fun i => .fin (ρ i)) (fun i => .fin (ρ i)) (fun i => .fin (ys.getD i 0))
      (fun i => .fin (E i)) i (.fin rp) (.fin rn)) := by
  have k := (reset_ksame h0).trans (iter_ksame h1)
  refine predict_eval hP hf.le (by omega) (by rw [hN.time]; exact find_eq (by intro e; rw [e] at h2; simp at h2) hf) h0 h1
    ⟨k.lmean.trans hN.mean, k.lvar.trans hN.var⟩ (fun hi => ⟨.fin (ts.getD (i - 1) 0), ?_, ?_⟩)
    (fun hi => ⟨.fin (ts.getD i 0), ?_, ?_⟩)
  · rw [hN.time]; exact getElem?_map_fin (by have := hf.le; omega)
  · rw [hN.omega]; exact hp hi
  · rw [hN.time]; exact getElem?_map_fin hi
  · rw [hN.omega]; exact hq hi

/-- accuracy of `Predict` -/
theorem predict_acc (hA : IsBinary64 A) (hacc : Accurate A) {ts ys es : List ℝ} {q w : ℝ} (h : MildPred ts ys es q w) {a b c : ℤ} {N : ℝ}
    (hs : SizedPred ts ys es q w a b c N) (t : Tiny ts.length N (2 ^ b / 2 ^ c)) {s sx sx' : FKF1} (hP : PNew A ts ys es q w s)
    (hN : NHolds A ts ys es q w s) (hX : NHolds Arith.exact ts ys es q w sx) {x : ℝ} (hx : ∀ t ∈ ts, |x - t| ≤ 2 ^ (300 : ℤ)) {i : ℕ} (hf : Follows ts x i)
    {M V : ℝ} (ex : FKF1.predict Arith.exact sx (.fin x) = .ok (sx', (.fin M, .fin V))) :
    ∃ s' m v, FKF1.predict A s (.fin x) = .ok (s', (.fin m, .fin v)) ∧
      |v - V| ≤ 1024 * (uu * (2 ^ b / 2 ^ c) * ts.length * (ts.length + N ^ 2) * (2 ^ b / 2 ^ c)) * V ∧
      |m - M| ≤ 8192 * (uu * (2 ^ b / 2 ^ c) * ts.length * (ts.length + N ^ 2) * (2 ^ b / 2 ^ c)) * (ts.length * (2 ^ b / 2 ^ c) * 2 ^ a) ∧
      (i = ts.length → |v - V| ≤ 192 * (uu * 2 ^ b) * N ∧ |m - M| ≤ 1440 * (uu * (2 ^ b / 2 ^ c) * N * N) * 2 ^ a) := by
  have h2 := h.two
  have wp : 0 < w := lt_of_lt_of_le (by positivity) h.w_lo
  have u0 := uu_pos
  have Y0 : (0 : ℝ) < 2 ^ a := by positivity
  have C0 : (0 : ℝ) < 2 ^ c := by positivity
  have sz : ∀ i < ts.length, es.getD i 0 = es.getD i (es.getD 0 0) := fun i hi => by
    rw [List.getD_eq_getElem _ _ (by rw [h.lene]; exact hi), List.getD_eq_getElem _ _ (by rw [h.lene]; exact hi)]
  have em : ∀ i, es.getD i (es.getD 0 0) ∈ es := mem_getD0 (by rw [h.lene]; omega)
  have gaps : ∀ i, i + 1 < ts.length → 0 < ts.getD (i + 1) 0 - ts.getD i 0 ∧ ts.getD (i + 1) 0 - ts.getD i 0 ≤ 2 ^ (300 : ℤ) := fun i hi => by
    have g := h.gap i hi
    have p : (0 : ℝ) < 2 ^ (-300 : ℤ) := by positivity
    exact ⟨by linarith, h.span _ (mem_getD (by omega) 0) _ (mem_getD hi 0)⟩
  obtain ⟨S', eS, S'0, S'1, hS⟩ := statq_err hA hs.b_lo hs.b_hi h.w_dbl h.w_lo h.w_hi hs.stat_lo hs.stat_hi
  have hEx : ∀ i, ∃ E, A.mul (.fin (es.getD i (es.getD 0 0))) (.fin (es.getD i (es.getD 0 0))) = .fin E ∧ F64 E ∧ 0 < E ∧ E ≤ 2 ^ b ∧
      |E - (es.getD i (es.getD 0 0)) ^ 2| ≤ 6 * uu * (es.getD i (es.getD 0 0)) ^ 2 := fun i =>
    noise_err hA hs.b_lo hs.b_hi hs.c_lo hs.c_hi (hs.e_lo _ (em i)) (hs.e_hi _ (em i))
  choose E' hE' using hEx
  obtain ⟨ρ, hρ⟩ : ∃ ρ : ℕ → ℝ, ρ = fun i => if i + 1 < ts.length then Real.exp (-(w * (ts.getD (i + 1) 0 - ts.getD i 0))) else 0 := ⟨_, rfl⟩
  have ρt : ∀ i, i + 1 < ts.length → ρ i = Real.exp (-(w * (ts.getD (i + 1) 0 - ts.getD i 0))) := fun i hi => by rw [hρ]; exact if_pos hi
  have ρf : ∀ i, ¬ i + 1 < ts.length → ρ i = 0 := fun i hi => by rw [hρ]; exact if_neg hi
  have hR : ∀ i, ∃ r, F64 r ∧ 0 ≤ r ∧ r ≤ 1 ∧ |r - ρ i| ≤ 3 * uu ∧ (i + 1 < ts.length →
      A.exp (A.mul (A.mul (.fin (-1)) (.fin w)) (A.sub (.fin (ts.getD (i + 1) 0)) (.fin (ts.getD i 0)))) = .fin r ∧
      A.exp (A.mul (A.mul (.fin (-1)) (A.sub (.fin (ts.getD (i + 1) 0)) (.fin (ts.getD i 0)))) (.fin w)) = .fin r) := fun i => by
    by_cases hi : i + 1 < ts.length
    · obtain ⟨d, r, ed, Fd, d0, er, Fr, r0, r1, rr⟩ := rate_err hA hacc h.w_lo h.w_hi (gaps i hi).1.le (gaps i hi).2
      have f := rate_forms hA h.w_dbl (D := A.sub (.fin (ts.getD (i + 1) 0)) (.fin (ts.getD i 0))) (by rw [fl_sub]) ed Fd d0 er
      exact ⟨r, Fr, r0, r1, by rw [ρt i hi]; exact rr, fun _ => ⟨f.1, f.2.1⟩⟩
    · exact ⟨0, f64_zero, le_rfl, zero_le_one, by rw [ρf i hi, sub_zero, abs_zero]; positivity, fun h => absurd h hi⟩
  choose ρ' hρ' using hR
  have y0 : ∀ i, |ys.getD i 0| ≤ 2 ^ a := fun i => by
    rcases lt_or_ge i ys.length with hi | hi
    · exact hs.y _ (mem_getD hi 0)
    · rw [List.getD_eq_default _ _ hi, abs_zero]; exact Y0.le
  have R : RIn (2 ^ a) (2 ^ b) (2 ^ c) (q / (2 * w)) ρ (fun i => ys.getD i 0) (fun i => (es.getD i (es.getD 0 0)) ^ 2) := by
    refine ⟨Y0.le, C0, by linarith [hs.stat_hi], hs.stat_lo, fun i => ?_, fun i => ?_, fun i => hs.e_lo _ (em i), fun i => by linarith [hs.e_hi _ (em i)], y0⟩
    · by_cases hi : i + 1 < ts.length
      · rw [ρt i hi]; exact (Real.exp_pos _).le
      · rw [ρf i hi]
    · by_cases hi : i + 1 < ts.length
      · rw [ρt i hi]; exact Real.exp_le_one_iff.mpr (neg_nonpos.mpr (mul_nonneg wp.le (gaps i hi).1.le))
      · rw [ρf i hi]; exact zero_le_one
  have F : FIn a b c ts.length N (2 ^ b / 2 ^ c) S' (q / (2 * w)) ρ' ρ (fun i => ys.getD i 0) E' (fun i => (es.getD i (es.getD 0 0)) ^ 2) := by
    refine ⟨R, hs.a_lo, hs.a_hi, hs.b_lo, hs.b_hi, hs.c_lo, hs.c_hi, by omega, by have := h.max; omega, hs.one, ?_, rfl, S'0, S'1, hS,
      fun i => (hρ' i).1, fun i => (hρ' i).2.1, fun i => (hρ' i).2.2.1, fun i => (hρ' i).2.2.2.1, fun i => (hE' i).2.1, fun i => (hE' i).2.2.1,
      fun i => (hE' i).2.2.2.1, fun i => (hE' i).2.2.2.2⟩
    refine hs.memory.imp_right fun hm i => ?_
    by_cases hi : i + 1 < ts.length
    · rw [ρt i hi, ← neg_mul]; exact hm i hi
    · rw [ρf i hi, sub_nonneg, div_le_one (by linarith [hs.one])]; exact hs.one
  have PF := holds_pred hN h.leny h.lene eS (E := E') (ρ := ρ') (fun i hi => by rw [sz i hi]; exact (hE' i).1) (fun i hi => (hρ' i).2.2.2.2 hi)
  have PX := holds_pred hX h.leny h.lene (S := q / (2 * w)) (E := fun i => (es.getD i (es.getD 0 0)) ^ 2) (ρ := ρ)
    (by rw [exf_mul, exf_div _ (by positivity)]) (fun i hi => by rw [sz i hi, exf_mul, sq])
    (fun i hi => by
      rw [exf_sub, ρt i hi]
      have f := exact_forms w (ts.getD (i + 1) 0 - ts.getD i 0) (gaps i hi).1.le
      exact ⟨f.1, f.2.1⟩)
  -- the two neighbouring times
  have hp : ∃ rp' rp, F64 rp' ∧ 0 ≤ rp' ∧ rp' ≤ 1 ∧ 0 ≤ rp ∧ rp ≤ 1 ∧ |rp' - rp| ≤ 3 * uu ∧
      (0 < i → A.exp (A.mul (A.sub (.fin x) (.fin (ts.getD (i - 1) 0))).neg (.fin w)) = .fin rp') ∧
      (0 < i → Arith.exact.exp (Arith.exact.mul (Arith.exact.sub (.fin x) (.fin (ts.getD (i - 1) 0))).neg (.fin w)) = .fin rp) := by
    rcases Nat.eq_zero_or_pos i with h0 | h0
    · exact ⟨0, 0, f64_zero, le_rfl, zero_le_one, le_rfl, zero_le_one, by rw [sub_zero, abs_zero]; positivity, fun h => absurd h0 h.ne', fun h => absurd h0 h.ne'⟩
    · have g1 := hf.past (i - 1) (by omega)
      have g2 := hx _ (mem_getD (l := ts) (i := i - 1) (by have := hf.le; omega) 0)
      have g0 : 0 ≤ x - ts.getD (i - 1) 0 := by linarith
      rw [abs_of_nonneg g0] at g2
      obtain ⟨d, r, ed, Fd, d0, er, Fr, r0, r1, rr⟩ := rate_err hA hacc h.w_lo h.w_hi g0 g2
      have f := rate_forms hA h.w_dbl (D := A.sub (.fin x) (.fin (ts.getD (i - 1) 0))) (by rw [fl_sub]) ed Fd d0 er
      refine ⟨r, _, Fr, r0, r1, (Real.exp_pos _).le, Real.exp_le_one_iff.mpr (neg_nonpos.mpr (mul_nonneg wp.le g0)), rr, fun _ => f.2.2.1, fun _ => ?_⟩
      rw [exf_sub]; exact (exact_forms w _ g0).2.2.1
  have hn : ∃ rn' rn, 0 ≤ rn' ∧ rn' ≤ 1 ∧ 0 ≤ rn ∧ rn ≤ 1 ∧ |rn' - rn| ≤ 3 * uu ∧
      (i < ts.length → A.exp (A.mul (A.sub (.fin (ts.getD i 0)) (.fin x)).abs.neg (.fin w)) = .fin rn') ∧
      (i < ts.length → Arith.exact.exp (Arith.exact.mul (Arith.exact.sub (.fin (ts.getD i 0)) (.fin x)).abs.neg (.fin w)) = .fin rn) := by
    by_cases h0 : i < ts.length
    · have g1 := hf.next h0
      have g2 := hx _ (mem_getD (l := ts) h0 0)
      have g0 : 0 ≤ ts.getD i 0 - x := by linarith
      rw [abs_sub_comm, abs_of_nonneg g0] at g2
      obtain ⟨d, r, ed, Fd, d0, er, Fr, r0, r1, rr⟩ := rate_err hA hacc h.w_lo h.w_hi g0 g2
      have f := rate_forms hA h.w_dbl (D := A.sub (.fin (ts.getD i 0)) (.fin x)) (by rw [fl_sub]) ed Fd d0 er
      refine ⟨r, _, r0, r1, (Real.exp_pos _).le, Real.exp_le_one_iff.mpr (neg_nonpos.mpr (mul_nonneg wp.le g0)), rr, fun _ => f.2.2.2, fun _ => ?_⟩
      rw [exf_sub]; exact (exact_forms w _ g0).2.2.2
    · exact ⟨0, 0, le_rfl, zero_le_one, le_rfl, zero_le_one, by rw [sub_zero, abs_zero]; positivity, fun h => absurd h h0, fun h => absurd h h0⟩
  obtain ⟨rp', rp, Fp, p'0, p'1, p0, p1, hpe, fp', fp⟩ := hp
  obtain ⟨rn', rn, n'0, n'1, n0, n1, hne, fn', fn⟩ := hn
  -- exact side
  have X : (rpval ts.length (q / (2 * w)) ρ (fun i => ys.getD i 0) (fun i => (es.getD i (es.getD 0 0)) ^ 2) i rp rn) = (M, V) := by
    have ex' := ex
    unfold FKF1.predict at ex'
    obtain ⟨ip, e1, ex'⟩ := bind_ok ex'
    obtain ⟨x0, e2, ex'⟩ := bind_ok ex'
    obtain ⟨x1, e3, -⟩ := bind_ok ex'
    have ei : ip = i := by
      rw [hX.time, find_eq (by intro e; rw [e] at h2; simp at h2) hf] at e1
      injection e1 with e1
      exact e1.symm
    rw [ei] at e3
    obtain ⟨s', es'⟩ := predict_of hX PX h2 hf e2 e3 fp fn
    rw [ex, pval_exact R p0 p1 n0 n1] at es'
    injection es' with es'
    injection es' with _ es'
    injection es' with es1 es2
    injection es1 with es1
    injection es2 with es2
    rw [es1, es2]
  obtain ⟨s0, s1, e0, e1, -⟩ := iterU_num hA hP.safe.toFSafe (k := i - 1) (by rw [hP.time, List.length_map]; have := hf.le; omega)
  obtain ⟨s', hs'⟩ := predict_of hN PF h2 hf e0 e1 fp' fn'
  obtain ⟨m, v, emv, r1, r2, r3⟩ := pval_err hA F t hf.le Fp p'0 p'1 p0 p1 hpe n'0 n'1 n0 n1 hne
  rw [X] at r1 r2 r3
  rw [emv] at hs'
  exact ⟨s', m, v, hs', r1, r2, r3⟩

end Verif.Theory
