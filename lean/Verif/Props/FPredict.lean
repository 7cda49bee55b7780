import Verif.Theory.FPredNew
import Verif.Theory.FPredExact
import Verif.Theory.FPredSame
import Verif.Props.Float
import Verif.Props.Car1

/-!
`KalmanFilter1::Predict` in double precision: C91.
-/

namespace Verif.Props

open Verif.Model Verif.Spec Verif.Theory
open scoped Classical

/-- **C91.** Data and parameters of moderate size, measurement errors all positive. The constructor returns, and after any earlier calls
`Predict(x)` returns for every `x`, whatever the double `x`:
before the first observation and between observations it gives a finite mean and a finite positive variance, provided (between observations)
that the decay factor since the preceding observation is not rounded to 1; after the last observation it always gives a finite mean and
a finite variance that is not negative, and positive under the same proviso. -/
theorem C91_predict_finite_partial {A : Arith} (hA : IsBinary64 A) {ts ys es : List ℝ} {sigsqr w : ℝ} (h : MildPred ts ys es sigsqr w)
    (srt : List Dbl → List ℕ) :
    ∃ s, FKF1.new A srt (ts.map .fin) (ys.map .fin) (es.map .fin) (.fin sigsqr) (.fin w) = .ok s ∧
      ∀ s1, Asked A s s1 → ∀ x i, Follows ts x i →
        (i < ts.length → (0 < i → decayTo A w (ts.getD (i - 1) 0) x ≠ .fin 1) →
          ∃ s2 m v, FKF1.predict A s1 (.fin x) = .ok (s2, (.fin m, .fin v)) ∧ 0 < v) ∧
        (i = ts.length →
          ∃ s2 m v, FKF1.predict A s1 (.fin x) = .ok (s2, (.fin m, .fin v)) ∧ 0 ≤ v ∧ (decayTo A w (ts.getD (i - 1) 0) x ≠ .fin 1 → 0 < v)) := by
  obtain ⟨s, e, hs⟩ := newPred_num hA h srt
  refine ⟨s, e, fun s1 ha x i hf => ?_⟩
  have h1 := PNew.same hs (Asked.same ha)
  have h2 := h.two
  have hl : s1.time.length = ts.length := by rw [h1.time, List.length_map]
  have ef : FKF1.find s1.time (.fin x) = .ok i := by
    rw [h1.time]; exact find_eq (by intro e; rw [e] at h2; simp at h2) hf
  have ht : 0 < i → s1.time[i - 1]? = some (.fin (ts.getD (i - 1) 0)) := fun h0 => by
    rw [h1.time]; exact getElem?_map_fin (by have := hf.le; omega)
  have hx : 0 < i → ts.getD (i - 1) 0 ≤ x := fun h0 => (hf.past (i - 1) (by omega)).le
  refine ⟨fun hi hr => ?_, fun hi => ?_⟩
  · rcases Nat.eq_zero_or_pos i with rfl | h0
    · exact predict_back hA h1.safe ef
    · exact (predict_fwd hA h1.safe h0 (by rw [hl]; exact hf.le) ef (ht h0) (hx h0) h1.omega).2 (by rw [hl]; exact hi) (hr h0)
  · have h0 : 0 < i := by omega
    exact (predict_fwd hA h1.safe h0 (by rw [hl]; exact hf.le) ef (ht h0) (hx h0) h1.omega).1 (by rw [hl]; exact hi)

/-! Two observations, at 0 and 1, measured with an error of `2^-30`. -/

lemma fp_times : MildTimes [0, 1] := by
  have h1 : (2 : ℝ) ^ (-300 : ℤ) ≤ 1 := by rw [show (1 : ℝ) = 2 ^ (0 : ℤ) by norm_num]; exact pw_le _ _ (by norm_num)
  have h2 : (1 : ℝ) ≤ 2 ^ (300 : ℤ) := by rw [show (1 : ℝ) = 2 ^ (0 : ℤ) by norm_num]; exact pw_le _ _ (by norm_num)
  refine ⟨by simp, by norm_num, ?_, ?_⟩
  · intro i hi
    have hi : i = 0 := by simp at hi; omega
    subst hi
    rw [show ([0, 1] : List ℝ).getD 0 0 = 0 from rfl, show ([0, 1] : List ℝ).getD (0 + 1) 0 = 1 from rfl, zero_add]
    exact h1
  · intro s hs t ht
    simp only [List.mem_cons, List.not_mem_nil, or_false] at hs ht
    generalize (2 : ℝ) ^ (300 : ℤ) = q' at *
    rcases hs with rfl | rfl <;> rcases ht with rfl | rfl <;> norm_num <;> linarith

lemma fp_mild : MildPred [0, 1] [1, 2] [2 ^ (-30 : ℤ), 2 ^ (-30 : ℤ)] 2 1 := by
  have a1 : (2 : ℝ) ≤ 2 ^ (300 : ℤ) := by
    nth_rewrite 1 [← zpow_one (2 : ℝ)]; exact pw_le _ _ (by norm_num)
  have a2 : (2 : ℝ) ^ (-148 : ℤ) ≤ 1 := by rw [show (1 : ℝ) = 2 ^ (0 : ℤ) by norm_num]; exact pw_le _ _ (by norm_num)
  have a3 : (2 : ℝ) ≤ 2 ^ (148 : ℤ) := by
    nth_rewrite 1 [← zpow_one (2 : ℝ)]; exact pw_le _ _ (by norm_num)
  refine ⟨fp_times, rfl, rfl, ?_, ?_, a2.trans (by norm_num), a3, f64_one, a2, le_trans (by norm_num) a3⟩
  · intro y hy
    simp only [List.mem_cons, List.not_mem_nil, or_false] at hy
    rcases hy with rfl | rfl
    · rw [abs_one]; exact le_trans (by norm_num) a1
    · rw [abs_two]; exact a1
  · intro e he
    simp only [List.mem_cons, List.not_mem_nil, or_false, or_self] at he
    subst he
    exact ⟨pw_le _ _ (by norm_num), pw_le _ _ (by norm_num)⟩

/-- the hypotheses of C91 are met: a request at 1/2 follows the first observation, and the decay factor, `exp(-1/2)` rounded, is not 1 -/
example : IsBinary64 (nearest EvenBelow) ∧ MildPred [0, 1] [1, 2] [2 ^ (-30 : ℤ), 2 ^ (-30 : ℤ)] 2 1 ∧ Follows [0, 1] (1 / 2) 1 ∧
    decayTo (nearest EvenBelow) 1 (([0, 1] : List ℝ).getD (1 - 1) 0) (1 / 2) ≠ .fin 1 := by
  have hA := C72_nearest
  have fh : F64 (1 / 2) := ⟨1, -1, by norm_num, by norm_num, by norm_num, by norm_num⟩
  refine ⟨hA, fp_mild, ⟨by simp, ?_, fun _ => by norm_num⟩, ?_⟩
  · intro j hj
    obtain rfl : j = 0 := by omega
    norm_num
  · have e1 : decayTo (nearest EvenBelow) 1 (([0, 1] : List ℝ).getD (1 - 1) 0) (1 / 2) = (nearest EvenBelow).exp (.fin (-(1 / 2))) := by
      unfold decayTo
      rw [show ([0, 1] : List ℝ).getD (1 - 1) 0 = 0 from rfl, fl_sub, sub_zero, hA.id _ fh, neg_fin, fl_mul, mul_one, hA.id _ (f64_neg fh)]
    have f34 : F64 (3 / 4) := ⟨3, -2, by norm_num, by norm_num, by norm_num, by norm_num⟩
    have hle : Real.exp (-(1 / 2)) ≤ 3 / 4 := by
      have h1 := Real.add_one_le_exp (1 / 2)
      rw [Real.exp_neg]
      calc (Real.exp (1 / 2))⁻¹ ≤ (3 / 2)⁻¹ := inv_anti₀ (by norm_num) (by linarith)
        _ ≤ 3 / 4 := by norm_num
    obtain ⟨r, er, r0, r1⟩ := near_between (tie := EvenBelow) f64_zero f34 (Real.exp_pos _).le hle
    rw [e1]
    intro hc
    have : (nearest EvenBelow).exp (.fin (-(1 / 2))) = .fin r := er
    rw [this] at hc
    cases hc
    norm_num at r1

/-- **C91, negation.** Between two observations the result is NaN, with variance 0, whenever the decay factor since the preceding
observation is rounded to 1 and the measurement variance of that observation is lost when it is subtracted from the variance that
`Filter()` computes for it. -/
theorem C91_predict_nan {A : Arith} (hA : IsBinary64 A) {ts ys es : List ℝ} {sigsqr w : ℝ} (h : MildPred ts ys es sigsqr w)
    (srt : List Dbl → List ℕ) :
    ∃ s sf, FKF1.new A srt (ts.map .fin) (ys.map .fin) (es.map .fin) (.fin sigsqr) (.fin w) = .ok s ∧ FKF1.filter A s = .ok sf ∧
      ∀ x i, Follows ts x i → 0 < i → i < ts.length → decayTo A w (ts.getD (i - 1) 0) x = .fin 1 →
        A.sub (sf.var.getD (i - 1) .nan) (A.mul (.fin (es.getD (i - 1) 0)) (.fin (es.getD (i - 1) 0))) = sf.var.getD (i - 1) .nan →
        ∀ s1, Asked A s s1 → ∃ s2, FKF1.predict A s1 (.fin x) = .ok (s2, (.nan, .fin 0)) := by
  obtain ⟨s, e, hs⟩ := newPred_num hA h srt
  have h2 := h.two
  have hl : s.time.length = ts.length := by rw [hs.time, List.length_map]
  obtain ⟨s0, sf, e1, e2, d⟩ := iterU_num hA hs.safe.toFSafe (k := s.time.length - 1) (by omega)
  have eF : FKF1.filter A s = .ok sf := by
    rw [FKF1.filter, e1, res_bind_ok, (reset_ksame e1).time, e2]
  refine ⟨s, sf, e, eF, fun x i hf h0 hi hr hsub s1 ha => ?_⟩
  obtain ⟨m, v, e', E, -, ev, ee, eE, -⟩ := d.bound (i - 1) (by omega)
  have hi' : i - 1 < es.length := by rw [h.lene]; omega
  rw [d.yerr, hs.yerr, getElem?_map_fin hi'] at ee
  cases ee
  rw [List.getD_eq_getElem?_getD, ev, eE] at hsub
  obtain ⟨s2, hp⟩ := predict_nan hA hs.safe h0 (by omega)
    (by rw [hs.time]; exact find_eq (by intro e; rw [e] at h2; simp at h2) hf)
    (by rw [hs.time]; exact getElem?_map_fin (by omega)) (hf.past (i - 1) (by omega)).le hs.omega hr eF ev
    (by rw [hs.yerr]; exact getElem?_map_fin hi') eE hsub
  exact predict_pre (Asked.same ha) hp

/-- **C91, earlier calls.** For any arithmetic and any object: `Predict(x)` gives the same pair of numbers whatever calls of `Filter`
and `Predict` came before. -/
theorem C91_predict_repeatable {A : Arith} {s s1 : FKF1} (h : Asked A s s1) (x : Dbl) (r : Dbl × Dbl) :
    (∃ s2, FKF1.predict A s x = .ok (s2, r)) ↔ ∃ s2, FKF1.predict A s1 x = .ok (s2, r) :=
  ⟨fun ⟨_, e⟩ => predict_pre (Asked.same h) e, fun ⟨_, e⟩ => predict_pre (Asked.same h).symm e⟩

/-- **C91, exact arithmetic.** With nothing rounded the floating-point model is the model in real numbers: for any data (times in any order,
repeated times), with the same order used for sorting, whenever the constructor and `Predict` return in real numbers they return the
same numbers. -/
theorem C91_exact_refines {srt : List ℝ → List ℕ} {srt' : List Dbl → List ℕ} (hs : ∀ l : List ℝ, srt' (l.map .fin) = srt l) {ts ys es : List ℝ}
    {sigsqr w x m v : ℝ} {s s' : KF1} (h : KF1.new srt ts ys es sigsqr w = .ok s) (h' : KF1.predict s x = .ok (s', (m, v))) :
    ∃ f f', FKF1.new Arith.exact srt' (ts.map .fin) (ys.map .fin) (es.map .fin) (.fin sigsqr) (.fin w) = .ok f ∧
      FKF1.predict Arith.exact f (.fin x) = .ok (f', (.fin m, .fin v)) :=
  ⟨_, _, new_lift hs h, predict_lift h' _ _⟩

/-- such functions for sorting exist, and the constructor and `Predict` in real numbers return by C02 -/
example (srt : List ℝ → List ℕ) : ∃ srt' : List Dbl → List ℕ, ∀ l : List ℝ, srt' (l.map .fin) = srt l := by
  refine ⟨fun l => srt (l.map fun d => match d with | .fin x => x | _ => 0), fun l => ?_⟩
  dsimp only
  rw [List.map_map]
  congr 1
  exact (List.map_congr_left fun x _ => rfl).trans (List.map_id l)

/-- times of the example as a vector -/
def fpT : Fin 2 → ℝ := ![0, 1]

lemma fp_decay : decayTo (nearest EvenBelow) 1 (([0, 1] : List ℝ).getD (1 - 1) 0) (2 ^ (-60 : ℤ)) = .fin 1 := by
  have hA := C72_nearest
  have f60 : F64 (2 ^ (-60 : ℤ)) := f64_zpow (-60) (by norm_num) (by norm_num)
  unfold decayTo
  rw [show ([0, 1] : List ℝ).getD (1 - 1) 0 = 0 from rfl, fl_sub, sub_zero, hA.id _ f60, neg_fin, fl_mul, mul_one, hA.id _ (f64_neg f60)]
  refine near_one (tie := EvenBelow) ?_ (Real.exp_le_one_iff.mpr (by norm_num))
  have := Real.add_one_le_exp (-(2 : ℝ) ^ (-60 : ℤ))
  refine lt_of_lt_of_le ?_ this
  norm_num

/-- **C91, witness.** Observations at times 0 and 1, both measured to `2^-30` (about `1e-9`), a unit rate and a process variance of 1. At
`2^-60` after the first observation the exact conditional distribution has a finite mean and a positive variance, and the code in real
numbers returns them; in double precision it returns NaN and the variance 0. -/
theorem C91_witness (srt : List ℝ → List ℕ) (srt' : List Dbl → List ℕ) :
    (∃ s s', KF1.new srt (List.ofFn fpT) (List.ofFn ![1, 2]) (List.ofFn fun _ : Fin 2 => 2 ^ (-30 : ℤ)) 2 1 = .ok s ∧
      Kalman.predict s (2 ^ (-60 : ℤ)) = .ok (s', (predMean (car1Acf 2 1) fpT (fun _ => 2 ^ (-30 : ℤ)) ![1, 2] (2 ^ (-60 : ℤ)),
        predVar (car1Acf 2 1) fpT (fun _ => 2 ^ (-30 : ℤ)) (2 ^ (-60 : ℤ)))) ∧
      0 < predVar (car1Acf 2 1) fpT (fun _ => 2 ^ (-30 : ℤ)) (2 ^ (-60 : ℤ))) ∧
    (∃ s s', FKF1.new (nearest EvenBelow) srt' ((List.ofFn fpT).map .fin) ((List.ofFn ![1, 2]).map .fin)
        ((List.ofFn fun _ : Fin 2 => (2 : ℝ) ^ (-30 : ℤ)).map .fin) (.fin 2) (.fin 1) = .ok s ∧
      FKF1.predict (nearest EvenBelow) s (.fin (2 ^ (-60 : ℤ))) = .ok (s', (.nan, .fin 0))) := by
  have hA := C72_nearest
  constructor
  · have hmono : StrictMono fpT := by
      refine Fin.strictMono_iff_lt_succ.mpr fun i => ?_
      fin_cases i; simp [fpT]
    exact C02_car1_predict_exact srt le_rfl hmono ![1, 2] (fun _ => 2 ^ (-30 : ℤ)) (by norm_num) one_pos _ (fun _ _ => by positivity)
  · have e1 : List.ofFn fpT = [0, 1] := by simp [List.ofFn_succ, fpT]
    have e2 : List.ofFn ![(1 : ℝ), 2] = [1, 2] := by simp [List.ofFn_succ]
    have e3 : (List.ofFn fun _ : Fin 2 => (2 : ℝ) ^ (-30 : ℤ)) = [2 ^ (-30 : ℤ), 2 ^ (-30 : ℤ)] := by
      simp [List.ofFn_succ]
    rw [e1, e2, e3]
    obtain ⟨s, sf, e, eF, h⟩ := C91_predict_nan hA fp_mild srt'
    have hP : PNew (nearest EvenBelow) [0, 1] [1, 2] [2 ^ (-30 : ℤ), 2 ^ (-30 : ℤ)] 2 1 s := by
      obtain ⟨s', e', hs'⟩ := newPred_num hA fp_mild srt'
      rw [e] at e'; cases e'; exact hs'
    have f60 : F64 (2 ^ (-60 : ℤ)) := f64_zpow (-60) (by norm_num) (by norm_num)
    have f2 : F64 2 := ⟨2, 0, by norm_num, by norm_num, by norm_num, by norm_num⟩
    have eE : (nearest EvenBelow).mul (.fin (2 ^ (-30 : ℤ))) (.fin (2 ^ (-30 : ℤ))) = .fin (2 ^ (-60 : ℤ)) := by
      rw [fl_mul, pw_mul (-30) (-30) (-60) (by norm_num), hA.id _ f60]
    have eS : (nearest EvenBelow).div (.fin 2) ((nearest EvenBelow).mul (.fin 2) (.fin 1)) = .fin 1 := by
      rw [fl_mul, mul_one, hA.id _ f2, fl_div _ _ two_ne_zero, div_self two_ne_zero, hA.id _ f64_one]
    have eV : (nearest EvenBelow).add (.fin 1) (.fin (2 ^ (-60 : ℤ))) = .fin 1 := by
      rw [fl_add]
      exact near_one_up (tie := EvenBelow) (by norm_num) (by norm_num)
    have ev : sf.var[0]? = some (.fin 1) := by
      obtain ⟨s1, g1, g2⟩ := bind_ok eF
      have k1 := reset_ksame g1
      have hl : s1.time.length = 2 := by rw [k1.time, hP.time]; rfl
      have v1 : s1.var[0]? = some (.fin 1) := by
        unfold FKF1.reset at g1
        obtain ⟨m, -, g1⟩ := bind_ok g1
        obtain ⟨e0, g3, g1⟩ := bind_ok g1
        obtain ⟨v, g4, g1⟩ := bind_ok g1
        cases g1
        rw [hP.yerr] at g3
        cases g3
        rw [hP.sigsqr, hP.omega, eS, eE, eV] at g4
        unfold wr at g4
        rw [if_pos (by rw [hP.safe.lvar, hP.time]; simp)] at g4
        cases g4
        simp [hP.safe.lvar, hP.time]
      rw [iter_keeps hA hP.safe.toFSafe (i := 0) (k := s1.time.length - 1) (by omega) (by rw [hl, hP.time]; simp) g1 rfl g2]
      exact v1
    obtain ⟨s2, hp⟩ := h (2 ^ (-60 : ℤ)) 1 ⟨by simp, fun j hj => by
        obtain rfl : j = 0 := by omega
        norm_num, fun _ => by norm_num⟩ one_pos (by simp) fp_decay (by
        rw [List.getD_eq_getElem?_getD, show (1 - 1 : ℕ) = 0 from rfl, ev]
        simp only [List.getD_cons_zero, Option.getD_some]
        rw [eE, fl_sub]
        exact near_one (tie := EvenBelow) (by norm_num) (by norm_num)) s .none
    exact ⟨s, s2, e, hp⟩

/-- an object and the same object after `Filter`; both answer a request at -1 -/
example : ∃ s s1 s2 r, Asked (nearest EvenBelow) s s1 ∧ s.cur = 0 ∧ s1.cur = 2 ∧ FKF1.predict (nearest EvenBelow) s (.fin (-1)) = .ok (s2, r) := by
  have hA := C72_nearest
  obtain ⟨s, e, hs⟩ := newPred_num hA fp_mild (fun _ => [])
  obtain ⟨s0, sf, e1, e2, d⟩ := iterU_num hA hs.safe.toFSafe (k := s.time.length - 1) (by have := hs.safe.pos; omega)
  have eF : FKF1.filter (nearest EvenBelow) s = .ok sf := by
    rw [FKF1.filter, e1, res_bind_ok, (reset_ksame e1).time, e2]
  have hf : Follows [0, 1] (-1) 0 := ⟨by simp, fun j hj => absurd hj (Nat.not_lt_zero j), fun _ => by norm_num⟩
  obtain ⟨s2, m, v, hp, -⟩ := predict_back hA hs.safe (x := -1) (by rw [hs.time]; exact find_eq (by simp) hf)
  have hc : s.cur = 0 := by
    obtain ⟨b, g, e⟩ := bind_ok e
    cases e
    show b.cur = 0
    unfold FKF1.newData at g
    obtain ⟨b1, g1, g2⟩ := bind_ok g
    unfold FKF1.initSort at g1
    obtain ⟨dt, -, g1⟩ := bind_ok g1
    have c1 : b1.cur = 0 := by
      split at g1
      · obtain ⟨_, -, g1⟩ := bind_ok g1
        obtain ⟨_, -, g1⟩ := bind_ok g1
        obtain ⟨_, -, g1⟩ := bind_ok g1
        obtain ⟨_, -, g1⟩ := bind_ok g1
        cases g1; rfl
      · cases g1; rfl
    unfold FKF1.initDedup at g2
    obtain ⟨b2, g3, g2⟩ := bind_ok g2
    cases g2
    split at g3
    · obtain ⟨_, -, g3⟩ := bind_ok g3
      obtain ⟨_, -, g3⟩ := bind_ok g3
      obtain ⟨_, -, g3⟩ := bind_ok g3
      obtain ⟨_, -, g3⟩ := bind_ok g3
      cases g3; exact c1
    · cases g3; exact c1
  refine ⟨s, sf, s2, _, .filter .none eF, hc, ?_, hp⟩
  rw [d.cur, hs.time]
  rfl

end Verif.Props
