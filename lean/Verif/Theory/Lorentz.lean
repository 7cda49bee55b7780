import Verif.Model.Start
import Verif.Model.Py
import Verif.Spec.Lorentz
import Verif.Spec.Param
import Verif.Theory.KFBasic

/-! Helper lemmas: Lorentzian parameters to coefficients to roots. -/

namespace Verif.Theory

open Verif.Model Verif.Spec

/-- logarithms of the coefficients of one quadratic factor -/
noncomputable def lorLog (w c : ℝ) : ℝ × ℝ :=
  (Real.log ((2 * Real.pi * w) ^ 2 + (2 * Real.pi * c) ^ 2), Real.log (2 * (2 * Real.pi * w)))

lemma quadPair_lor {w c : ℝ} (hw : 0 < w) (hc : 0 ≤ c) :
    quadPair (Real.exp (lorLog w c).1) (Real.exp (lorLog w c).2) = lorPair w c := by
  have hpi := Real.pi_pos
  have h1 : 0 < 2 * Real.pi * w := by positivity
  have h2 : 0 ≤ 2 * Real.pi * c := by positivity
  rw [lorLog, Real.exp_log (by positivity), Real.exp_log (by positivity)]
  set a := 2 * Real.pi * w
  set b := 2 * Real.pi * c
  have hd : 2 * a * (2 * a) - 4 * (a ^ 2 + b ^ 2) = -(4 * b ^ 2) := by ring
  have hs : √(4 * b ^ 2) = 2 * b := by
    rw [show 4 * b ^ 2 = (2 * b) ^ 2 by ring, Real.sqrt_sq (by positivity)]
  simp only [quadPair]
  rw [hd, if_neg (by nlinarith [sq_nonneg b]), neg_neg, hs, lorPair]
  congr 1
  · apply Complex.ext <;> norm_num <;> ring
  · congr 1
    apply Complex.ext <;> norm_num <;> ring

/-- the loop of `StartingAR` on positive widths -/
lemma logaLoop_lor {cent width : List ℝ} (k : ℕ) (hc : k ≤ cent.length) (hw : k ≤ width.length) (hpos : ∀ i < k, 0 < width.getD i 0) :
    ∃ l, CarP.logaLoop cent width k = .ok l ∧ l.length = 2 * k ∧ ∀ i < k,
      l[2 * i]? = some (lorLog (width.getD i 0) (cent.getD i 0)).1 ∧ l[2 * i + 1]? = some (lorLog (width.getD i 0) (cent.getD i 0)).2 := by
  induction k with
  | zero => exact ⟨[], rfl, rfl, fun i hi => by omega⟩
  | succ k ih =>
      obtain ⟨l, h1, h2, h3⟩ := ih (by omega) (by omega) fun i hi => hpos i (by omega)
      have hk := hpos k (by omega)
      have hpi := Real.pi_pos
      have hp : 0 < 2 * Real.pi * width.getD k 0 := by positivity
      have e1 : rd width k = .ok (width.getD k 0) := rd_ok (by
        rw [List.getD_eq_getElem?_getD, List.getElem?_eq_getElem (by omega : k < width.length)]; rfl)
      have e2 : rd cent k = .ok (cent.getD k 0) := rd_ok (by
        rw [List.getD_eq_getElem?_getD, List.getElem?_eq_getElem (by omega : k < cent.length)]; rfl)
      have q1 : -2 * Real.pi * width.getD k 0 * (-2 * Real.pi * width.getD k 0) + 2 * Real.pi * cent.getD k 0 * (2 * Real.pi * cent.getD k 0) =
          (2 * Real.pi * width.getD k 0) ^ 2 + (2 * Real.pi * cent.getD k 0) ^ 2 := by ring
      have q2 : -2 * (-2 * Real.pi * width.getD k 0) = 2 * (2 * Real.pi * width.getD k 0) := by ring
      refine ⟨l ++ [(lorLog (width.getD k 0) (cent.getD k 0)).1, (lorLog (width.getD k 0) (cent.getD k 0)).2], ?_, ?_, ?_⟩
      · simp only [CarP.logaLoop, h1, e1, e2, res_bind_ok, logR, q1, q2]
        rw [if_pos (by positivity), if_pos (by positivity)]
        rfl
      · simp [h2]; ring
      · intro i hi
        rcases Nat.lt_or_ge i k with h | h
        · rw [List.getElem?_append_left (by omega), List.getElem?_append_left (by omega)]
          exact h3 i h
        · obtain rfl : i = k := by omega
          rw [List.getElem?_append_right (by omega), List.getElem?_append_right (by omega), h2]
          simp [lorLog]

lemma rootLoop_lor {θ : List ℝ} {off : ℕ} {w c : ℕ → ℝ} (k : ℕ) (hw : ∀ i < k, 0 < w i) (hc : ∀ i < k, 0 ≤ c i)
    (h : ∀ i < k, θ[off + 2 * i]? = some (lorLog (w i) (c i)).1 ∧ θ[off + 2 * i + 1]? = some (lorLog (w i) (c i)).2) :
    rootLoop θ off k = .ok ((List.range k).flatMap fun i => lorPair (w i) (c i)) := by
  induction k with
  | zero => rfl
  | succ k ih =>
      rw [rootLoop, ih (fun i hi => hw i (by omega)) (fun i hi => hc i (by omega)) (fun i hi => h i (by omega)), res_bind_ok,
        rd_ok (h k (by omega)).1, res_bind_ok, rd_ok (h k (by omega)).2, res_bind_ok, quadPair_lor (hw k (by omega)) (hc k (by omega)),
        List.range_succ, List.flatMap_append]
      simp

lemma logaOf_lor {p : ℕ} {cent width : List ℝ} (hc : p / 2 ≤ cent.length) (hw : (p + 1) / 2 ≤ width.length)
    (hwp : ∀ i < (p + 1) / 2, 0 < width.getD i 0) (hcp : ∀ i < p / 2, 0 ≤ cent.getD i 0) :
    ∃ l, CarP.logaOf p cent width = .ok l ∧ l.length = p ∧ ∀ a b c rest,
      arRoots p (a :: b :: c :: (l ++ rest)) = .ok (lorRoots p (fun i => width.getD i 0) fun i => cent.getD i 0) := by
  obtain ⟨l, h1, h2, h3⟩ := logaLoop_lor (cent := cent) (width := width) (p / 2) hc (by omega) fun i hi => hwp i (by omega)
  have hpi := Real.pi_pos
  by_cases hodd : p % 2 = 1
  · have hk := hwp (p / 2) (by omega)
    have hp : 0 < 2 * Real.pi * width.getD (p / 2) 0 := by positivity
    have e1 : rd width (p / 2) = .ok (width.getD (p / 2) 0) := rd_ok (by
      rw [List.getD_eq_getElem?_getD, List.getElem?_eq_getElem (by omega : p / 2 < width.length)]; rfl)
    refine ⟨l ++ [Real.log (2 * Real.pi * width.getD (p / 2) 0)], ?_, by simp [h2]; omega, ?_⟩
    · rw [CarP.logaOf, h1, res_bind_ok, if_pos hodd, e1, res_bind_ok, logR,
        show -(-2 * Real.pi * width.getD (p / 2) 0) = 2 * Real.pi * width.getD (p / 2) 0 by ring, if_pos hp]
      rfl
    · intro a b c rest
      have hr := rootLoop_lor (θ := a :: b :: c :: (l ++ [Real.log (2 * Real.pi * width.getD (p / 2) 0)] ++ rest)) (off := 3)
        (w := fun i => width.getD i 0) (c := fun i => cent.getD i 0) (p / 2) (fun i hi => hwp i (by omega)) hcp (by
          intro i hi
          rw [show 3 + 2 * i = 2 * i + 1 + 1 + 1 by ring, List.append_assoc]
          simp only [List.getElem?_cons_succ]
          rw [List.getElem?_append_left (by omega), List.getElem?_append_left (by omega)]
          exact h3 i hi)
      have e2 : rd (a :: b :: c :: (l ++ [Real.log (2 * Real.pi * width.getD (p / 2) 0)] ++ rest)) (3 + p - 1) =
          .ok (Real.log (2 * Real.pi * width.getD (p / 2) 0)) := rd_ok (by
        rw [show 3 + p - 1 = (p - 1) + 1 + 1 + 1 by omega, List.append_assoc]
        simp only [List.getElem?_cons_succ]
        rw [List.getElem?_append_right (by omega), show p - 1 - l.length = 0 by omega]
        simp)
      rw [arRoots, rootsFrom, hr, res_bind_ok, if_pos hodd, e2, res_bind_ok, Real.exp_log hp, lorRoots, if_pos hodd]
      rfl
  · refine ⟨l, ?_, by rw [h2]; omega, ?_⟩
    · rw [CarP.logaOf, h1, res_bind_ok, if_neg hodd]; rfl
    · intro a b c rest
      have hr := rootLoop_lor (θ := a :: b :: c :: (l ++ rest)) (off := 3)
        (w := fun i => width.getD i 0) (c := fun i => cent.getD i 0) (p / 2) (fun i hi => hwp i (by omega)) hcp (by
          intro i hi
          rw [show 3 + 2 * i = 2 * i + 1 + 1 + 1 by ring]
          simp only [List.getElem?_cons_succ]
          rw [List.getElem?_append_left (by omega), List.getElem?_append_left (by omega)]
          exact h3 i hi)
      rw [arRoots, rootsFrom, hr, res_bind_ok, if_neg hodd, lorRoots, if_neg hodd, List.append_nil]
      rfl

/-- `get_ar_roots` -/
lemma py_rootLoop {width cent : List ℝ} (k : ℕ) (hw : k ≤ width.length) (hk : k ≤ cent.length) (hc : ∀ i < k, 1e-10 < cent.getD i 0) :
    ∃ l, Py.rootLoop width cent k = .ok l ∧
      (l.map fun z => ((-2 * Real.pi : ℝ) : ℂ) * z) = (List.range k).flatMap fun i => lorPair (width.getD i 0) (cent.getD i 0) := by
  induction k with
  | zero => exact ⟨[], rfl, rfl⟩
  | succ k ih =>
      obtain ⟨l, h1, h2⟩ := ih (by omega) (by omega) fun i hi => hc i (by omega)
      have e1 : rd width k = .ok (width.getD k 0) := rd_ok (by
        rw [List.getD_eq_getElem?_getD, List.getElem?_eq_getElem (by omega : k < width.length)]; rfl)
      have e2 : rd cent k = .ok (cent.getD k 0) := rd_ok (by
        rw [List.getD_eq_getElem?_getD, List.getElem?_eq_getElem (by omega : k < cent.length)]; rfl)
      refine ⟨l ++ [⟨width.getD k 0, cent.getD k 0⟩, star ⟨width.getD k 0, cent.getD k 0⟩], ?_, ?_⟩
      · rw [Py.rootLoop, h1, res_bind_ok, e1, res_bind_ok, e2, res_bind_ok, if_pos (hc k (by omega))]; rfl
      · rw [List.map_append, h2, List.range_succ, List.flatMap_append]
        congr 1
        simp only [List.map_cons, List.map_nil, List.flatMap_cons, List.flatMap_nil, List.append_nil, lorPair]
        congr 1
        · apply Complex.ext <;> simp
        · congr 1
          apply Complex.ext <;> simp

end Verif.Theory
