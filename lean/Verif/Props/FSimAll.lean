import Verif.Props.FSimulate
import Verif.Spec.FSimAll
import Verif.Theory.FSimAll

/-!
`KalmanFilter1::Simulate` in double precision: all values are finite (C94).
-/

namespace Verif.Props

open Verif.Model Verif.Spec Verif.Theory
open scoped Classical

lemma MildSim.pred {ts ys es : List ℝ} {q w : ℝ} (h : MildSim ts ys es q w) : MildPred ts ys es q w where
  toMildTimes := h.toMildTimes
  leny := h.leny
  lene := h.lene
  y := fun y hy => (h.y y hy).trans (pw_le _ _ (by norm_num))
  e := fun e he => ⟨(pw_le _ _ (by norm_num)).trans (h.e e he).1, (h.e e he).2.trans (pw_le _ _ (by norm_num))⟩
  sig_lo := (pw_le _ _ (by norm_num)).trans h.sig_lo
  sig_hi := h.sig_hi.trans (pw_le _ _ (by norm_num))
  w_dbl := h.w_dbl
  w_lo := (pw_le _ _ (by norm_num)).trans h.w_lo
  w_hi := h.w_hi.trans (pw_le _ _ (by norm_num))

lemma MildTimes.sorted {ts : List ℝ} (h : MildTimes ts) : ts.Pairwise (· ≤ ·) := by
  refine List.isChain_iff_pairwise.mp (List.isChain_iff_getElem.mpr fun i hi => ?_)
  have hg := h.gap i hi
  rw [List.getD_eq_getElem _ _ (by omega), List.getD_eq_getElem _ _ hi] at hg
  have : (0 : ℝ) < 2 ^ (-300 : ℤ) := by positivity
  linarith

lemma simInv_new {A : Arith} (hA : IsBinary64 A) {ts ys es : List ℝ} {q w : ℝ} (h : MildSim ts ys es q w) (hmax : ts.length ≤ 2 ^ 24) {s : FKF1}
    (hw : Whole A s) (hs : PNew A ts ys es q w s) : SimInv A w 1 ts [] s ts ys es := by
  have p50 : (0 : ℝ) < 2 ^ (-50 : ℤ) := by positivity
  have w0 := p50.trans_le h.w_lo
  refine ⟨hw, hmax, hs.time, hs.y, hs.yerr, hs.omega, h.w_dbl, w0, ?_, MildTimes.sorted h.toMildTimes, by simp, ?_⟩
  · have e1 : (2 : ℝ) * 2 ^ (-50 : ℤ) = 2 ^ (-49 : ℤ) := by norm_num
    have e2 : (2 : ℝ) * 2 ^ (50 : ℤ) = 2 ^ (51 : ℤ) := by norm_num
    obtain ⟨u, eu, -, u0, u1⟩ := rnd_mul hA (a := 2) (b := w) (lo := 2 ^ (-49 : ℤ)) (hi := 2 ^ (51 : ℤ)) (f64_zpow _ (by omega) (by omega))
      (f64_zpow _ (by omega) (by omega)) (by rw [← e1]; linarith [h.w_lo]) (by rw [← e2]; linarith [h.w_hi])
    have pu : (0 : ℝ) < u := lt_of_lt_of_le (by positivity) u0
    have q1 : (2 : ℝ) ^ (-102 : ℤ) ≤ q / u := by
      rw [le_div_iff₀ pu]
      refine (mul_le_mul_of_nonneg_left u1 (by positivity)).trans (le_trans ?_ h.sig_lo)
      norm_num
    have q2 : q / u ≤ 2 ^ (102 : ℤ) := by
      rw [div_le_iff₀ pu]
      refine h.sig_hi.trans (le_trans ?_ (mul_le_mul_of_nonneg_left u0 (by positivity)))
      norm_num
    obtain ⟨S, eS, -, S0, S1⟩ := rnd_div hA (a := q) (b := u) pu.ne' (lo := 2 ^ (-102 : ℤ)) (hi := 2 ^ (102 : ℤ)) (f64_zpow _ (by omega) (by omega))
      (f64_zpow _ (by omega) (by omega)) q1 q2
    exact ⟨S, by rw [hs.sigsqr, hs.omega, eu, eS], S0, S1⟩
  · intro i hi
    refine .inl ⟨?_, ?_⟩
    · rw [List.getD_eq_getElem _ _ (by rw [h.leny]; exact hi)]
      exact h.y _ (List.getElem_mem _)
    · have hi' : i < es.length := by rw [h.lene]; exact hi
      rw [List.getD_eq_getElem _ _ hi']
      obtain ⟨e0, e1⟩ := h.e _ (List.getElem_mem hi')
      generalize es[i] = e at *
      have pe := p50.trans_le e0
      obtain ⟨V, eV, -, V0, V1⟩ := rnd_mul hA (a := e) (b := e) (lo := 2 ^ (-102 : ℤ)) (hi := 2 ^ (102 : ℤ)) (f64_zpow _ (by omega) (by omega))
        (f64_zpow _ (by omega) (by omega)) (by
          refine le_trans ?_ (mul_le_mul e0 e0 p50.le pe.le)
          norm_num) (by
          refine (mul_le_mul e1 e1 pe.le (by positivity)).trans ?_
          norm_num)
      exact ⟨V, eV, V0, V1⟩

/-- **C94, all values.** Data and parameters of moderate size, measurement errors all positive, requested times that are spaced, standard normal
draws of moderate size, and at most `2^24` points in all: whatever calls of `Filter`, `Predict` and `Simulate` came before, `Simulate` returns
one finite number per requested time.

The requested times may come in any order, and may lie before, between, on or after the observations. Two of them being equal, or so close that
the decay factor is 1, makes the later values NaN: `C94_twice_nan`, `C94_close_nan`. -/
theorem C94_all_finite {A : Arith} (hA : IsBinary64 A) {ts ys es : List ℝ} {sigsqr w : ℝ} (h : MildSim ts ys es sigsqr w) (srt : List Dbl → List ℕ)
    {times : List ℝ} (hsp : Spaced A w ts times) (hl : ts.length + times.length ≤ 2 ^ 24) {zs : ℕ → ℝ} (hz : ∀ k < times.length, |zs k| ≤ 2 ^ (100 : ℤ)) :
    ∃ s, FKF1.new A srt (ts.map .fin) (ys.map .fin) (es.map .fin) (.fin sigsqr) (.fin w) = .ok s ∧ ∀ s1, Used A s s1 →
      ∃ (s' : FKF1) (xs : List ℝ), FKF1.simulate A s1 (times.map .fin) (fun k => .fin (zs k)) = .ok (s', xs.map .fin) ∧ xs.length = times.length ∧
        ∀ v ∈ xs, |v| ≤ 2 ^ (426 : ℤ) := by
  obtain ⟨s, e, hs⟩ := newPred_num hA (MildSim.pred h) srt
  have hw : Whole A s := new_whole (by simp [h.leny]) (by simp [h.lene]) e
  refine ⟨s, e, fun s1 hu => ?_⟩
  have h2 := h.two
  obtain ⟨s', xs, s3, g, -, -, g'⟩ := simulate_some hw (nan_nmem times) (fun k => .fin (zs k))
  obtain ⟨so, p1, p2⟩ : ∃ so : List ℝ, so.Perm times ∧ so.Pairwise (· ≤ ·) :=
    ⟨_, List.mergeSort_perm times fun a b => decide (a ≤ b), List.pairwise_mergeSort' (fun a b : ℝ => a ≤ b) times⟩
  have p3 : so.Pairwise (· < ·) := by
    have hn : so.Pairwise (· ≠ ·) := p1.nodup_iff.mpr hsp.nodup
    exact (p2.and hn).imp fun ⟨a, b⟩ => lt_of_le_of_ne a b
  have hlen := p1.length_eq
  rw [sort_fin p1 p2] at g'
  have hmem : ∀ u, u ∈ ts ++ ([] ++ so) ↔ u ∈ ts ++ times := by
    intro u
    simp only [List.mem_append, List.nil_append, p1.mem_iff]
  obtain ⟨s4, ys', e4, l4, b4⟩ := simLoop_num hA p3 (simInv_new hA h (by omega) hw hs) one_pos (by omega) (by omega) (zs := zs)
    (fun k hk => hz k (by omega)) (by simp) (by
      intro x hx t ht htx hu
      exact hsp.decay x (p1.mem_iff.mp hx) t ((hmem t).mp ht) htx fun u hu' => hu u ((hmem u).mpr hu'))
  rw [e4] at g'
  injection g' with g'
  injection g' with _ g'
  subst g'
  obtain ⟨s6, g6⟩ := simulate_pre (Used.ksame hw hu) g
  refine ⟨s6, ys', g6, by omega, fun v hv => (b4 v hv).trans ?_⟩
  rw [← pw_mul 26 400 426 (by norm_num)]
  refine mul_le_mul_of_nonneg_right ?_ (by positivity)
  have : ((1 + 2 * so.length : ℕ) : ℝ) ≤ ((2 ^ 26 : ℕ) : ℝ) := by exact_mod_cast (by omega : 1 + 2 * so.length ≤ 2 ^ 26)
  exact this.trans (by norm_num)

lemma fsa_decay {t x d : ℝ} (hd : x - t = d) (hF : F64 d) (h1 : 1 / 2 ≤ d) : decayTo (nearest EvenBelow) 1 t x ≠ .fin 1 := by
  have hA := C72_nearest
  have e1 : decayTo (nearest EvenBelow) 1 t x = (nearest EvenBelow).exp (.fin (-d)) := by
    unfold decayTo
    rw [fl_sub, hd, hA.id _ hF, neg_fin, fl_mul, mul_one, hA.id _ (f64_neg hF)]
  have f34 : F64 (3 / 4) := ⟨3, -2, by norm_num, by norm_num, by norm_num, by norm_num⟩
  have hle : Real.exp (-d) ≤ 3 / 4 := by
    have h2 := Real.add_one_le_exp d
    rw [Real.exp_neg]
    calc (Real.exp d)⁻¹ ≤ (3 / 2)⁻¹ := inv_anti₀ (by norm_num) (by linarith)
      _ ≤ 3 / 4 := by norm_num
  obtain ⟨r, er, r0, r1⟩ := near_between (tie := EvenBelow) f64_zero f34 (Real.exp_pos _).le hle
  rw [e1]
  intro hc
  have : (nearest EvenBelow).exp (.fin (-d)) = .fin r := er
  rw [this] at hc
  cases hc
  norm_num at r1

/-- the hypotheses of `C94_all_finite` are met: observations at 0 and 1, and requests after, between, on and before them, out of order -/
example (srt : List Dbl → List ℕ) : ∃ s s' a b c d e, FKF1.new (nearest EvenBelow) srt [.fin 0, .fin 1] [.fin 1, .fin 2]
      [.fin (2 ^ (-30 : ℤ)), .fin (2 ^ (-30 : ℤ))] (.fin 2) (.fin 1) = .ok s ∧
    FKF1.simulate (nearest EvenBelow) s [.fin 3, .fin (1 / 2), .fin 1, .fin 2, .fin (-1)] (fun k => .fin k) =
      .ok (s', [.fin a, .fin b, .fin c, .fin d, .fin e]) := by
  have hm : MildSim [0, 1] [1, 2] [2 ^ (-30 : ℤ), 2 ^ (-30 : ℤ)] 2 1 := by
    have h := fp_mild
    refine ⟨h.toMildTimes, rfl, rfl, ?_, ?_, ?_, ?_, h.w_dbl, ?_, ?_⟩
    · intro y hy
      simp only [List.mem_cons, List.not_mem_nil, or_false] at hy
      rcases hy with rfl | rfl <;> norm_num
    · intro e he
      simp only [List.mem_cons, List.not_mem_nil, or_false, or_self] at he
      subst he
      norm_num
    all_goals norm_num
  have fh : F64 (1 / 2) := ⟨1, -1, by norm_num, by norm_num, by norm_num, by norm_num⟩
  have hsp : Spaced (nearest EvenBelow) 1 [0, 1] [3, 1 / 2, 1, 2, -1] := by
    refine ⟨by norm_num, ?_⟩
    intro x hx t ht htx hu
    simp only [List.cons_append, List.nil_append, List.mem_cons, List.not_mem_nil, or_false] at hx ht
    have h0 := hu 0 (by simp)
    have h1 := hu 1 (by simp)
    have h2 := hu 2 (by simp)
    have hh := hu (1 / 2) (by simp)
    rcases hx with rfl | rfl | rfl | rfl | rfl <;> rcases ht with rfl | rfl | rfl | rfl | rfl | rfl | rfl <;>
      first
        | (exfalso; revert htx; norm_num; done)
        | (exfalso; revert h0; norm_num; done)
        | (exfalso; revert h1; norm_num; done)
        | (exfalso; revert h2; norm_num; done)
        | (exfalso; revert hh; norm_num; done)
        | (refine fsa_decay (d := 1 / 2) ?_ fh le_rfl; norm_num; done)
        | (refine fsa_decay (d := 1) ?_ f64_one (by norm_num); norm_num; done)
  obtain ⟨s, e, hs⟩ := C94_all_finite C72_nearest hm srt hsp (by norm_num) (zs := fun k => k) (by
    intro k hk
    rw [abs_of_nonneg (Nat.cast_nonneg k)]
    have : (k : ℝ) ≤ 5 := by exact_mod_cast hk.le
    exact this.trans (by norm_num))
  obtain ⟨s', xs, g, l, -⟩ := hs s .none
  match xs, l, g with
  | [a, b, c, d, f], _, g => exact ⟨s, s', a, b, c, d, f, e, g⟩

end Verif.Props
