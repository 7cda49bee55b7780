import Mathlib.Analysis.Complex.ExponentialBounds
import Verif.Theory.StartP

/-!
Lorentzian parameters drawn by `StartingAR` that satisfy the prior: well separated centroids, and widths below all of them.
-/

namespace Verif.Theory

open Verif.Model Verif.Spec

variable {p : ℕ}

/-! ### roots -/

theorem lorRoots_pairwise {w c : ℕ → ℝ} {R : ℂ → ℂ → Prop}
    (h1 : ∀ i < p / 2, R ⟨-(2 * Real.pi * w i), -(2 * Real.pi * c i)⟩ ⟨-(2 * Real.pi * w i), 2 * Real.pi * c i⟩)
    (h2 : ∀ i j, i < j → j < p / 2 → ∀ a ∈ lorPair (w i) (c i), ∀ b ∈ lorPair (w j) (c j), R a b)
    (h3 : p % 2 = 1 → ∀ i < p / 2, ∀ a ∈ lorPair (w i) (c i), R a ((-(2 * Real.pi * w (p / 2)) : ℝ) : ℂ)) :
    (lorRoots p w c).Pairwise R := by
  unfold lorRoots
  rw [List.pairwise_append]
  refine ⟨?_, by split <;> simp, ?_⟩
  · rw [List.pairwise_flatMap]
    refine ⟨fun i hi => ?_, ?_⟩
    · simpa [lorPair] using h1 i (List.mem_range.mp hi)
    · refine List.Pairwise.imp_of_mem (fun {a b} ha hb hab => ?_) List.pairwise_lt_range
      exact h2 a b hab (List.mem_range.mp hb)
  · intro a ha b hb
    obtain ⟨i, hi, ha⟩ := List.mem_flatMap.mp ha
    split at hb
    · rename_i hodd
      rw [List.mem_singleton] at hb
      rw [hb]
      exact h3 hodd i (List.mem_range.mp hi) a ha
    · simp at hb

theorem sep_of {a b : ℂ} {D S : ℝ} (hD : D ≤ |a.im - b.im|) (hS : |a.re| + |b.re| + |a.im| + |b.im| ≤ S) (h : 1e-4 * S < D) :
    a + b = 0 ∨ 1e-4 < ‖a - b‖ / ‖a + b‖ := by
  by_cases h0 : a + b = 0
  · exact Or.inl h0
  · right
    have hpos : 0 < ‖a + b‖ := norm_pos_iff.mpr h0
    have h1 : D ≤ ‖a - b‖ := hD.trans (by simpa using Complex.abs_im_le_norm (a - b))
    have h2 : ‖a + b‖ ≤ S := by
      refine (Complex.norm_le_abs_re_add_abs_im _).trans (le_trans ?_ hS)
      have e1 := abs_add_le a.re b.re
      have e2 := abs_add_le a.im b.im
      simp only [Complex.add_re, Complex.add_im]
      linarith
    rw [lt_div_iff₀ hpos]
    nlinarith

theorem mem_lorPair {w c : ℝ} (hw : 0 < w) (hc : 0 < c) {x : ℂ} (hx : x ∈ lorPair w c) :
    |x.re| = 2 * Real.pi * w ∧ |x.im| = 2 * Real.pi * c ∧ x.re = -(2 * Real.pi * w) := by
  have hpi := Real.pi_pos
  simp only [lorPair, List.mem_cons, List.not_mem_nil, or_false] at hx
  rcases hx with rfl | rfl
  · exact ⟨by rw [abs_neg, abs_of_pos (by positivity)], by rw [abs_neg, abs_of_pos (by positivity)], rfl⟩
  · exact ⟨by rw [abs_neg, abs_of_pos (by positivity)], by rw [abs_of_pos (by positivity)], rfl⟩

theorem lorRoots_mem {w c : ℕ → ℝ} {x : ℂ} (hx : x ∈ lorRoots p w c) :
    (∃ i < p / 2, x ∈ lorPair (w i) (c i)) ∨ p % 2 = 1 ∧ x = ((-(2 * Real.pi * w (p / 2)) : ℝ) : ℂ) := by
  unfold lorRoots at hx
  rw [List.mem_append] at hx
  rcases hx with hx | hx
  · obtain ⟨i, hi, hx⟩ := List.mem_flatMap.mp hx
    exact Or.inl ⟨i, List.mem_range.mp hi, hx⟩
  · split at hx
    · rename_i hodd
      exact Or.inr ⟨hodd, List.mem_singleton.mp hx⟩
    · simp at hx

/-- Roots of well separated Lorentzians whose widths are below all centroids satisfy the prior. -/
theorem lorRoots_bounds {w c : ℕ → ℝ} {fmin fmax : ℝ} (hf : 0 < fmin) (hw : ∀ i < (p + 1) / 2, fmin < w i)
    (hwf : ∀ i < (p + 1) / 2, w i < fmax) (hcf : ∀ i < p / 2, c i < fmax)
    (hwc : ∀ i < (p + 1) / 2, ∀ j < p / 2, w i ≤ c j) (hgap : ∀ i j, i < j → j < p / 2 → 4e-4 * c i < c i - c j)
    {sd : ℝ} {θ : List ℝ} (hsc : ScaleBounds sd θ) : CarpBounds sd fmax fmin (lorRoots p w c) θ := by
  have hpi := Real.pi_pos
  have h2p : 0 < 2 * Real.pi := by positivity
  have hw0 : ∀ i < (p + 1) / 2, 0 < w i := fun i hi => hf.trans (hw i hi)
  have hc0 : ∀ i < p / 2, 0 < c i := fun i hi => (hw0 i (by omega)).trans_le (hwc i (by omega) i hi)
  have hdesc : ∀ i j, i < j → j < p / 2 → c j ≤ c i := by
    intro i j hij hj
    have := hgap i j hij hj
    have := hc0 i (by omega)
    linarith
  refine ⟨hsc, ?_, ?_, ?_, ?_⟩
  · intro x hx
    rw [div_lt_iff₀ h2p]
    rcases lorRoots_mem hx with ⟨i, hi, hx⟩ | ⟨hodd, rfl⟩
    · rw [(mem_lorPair (hw0 i (by omega)) (hc0 i hi) hx).2.1]
      nlinarith [hcf i hi]
    · have : (0 : ℝ) < fmax := (hw0 (p / 2) (by omega)).trans (hwf (p / 2) (by omega))
      simp only [Complex.ofReal_im, abs_zero]
      positivity
  · intro x hx
    rw [lt_div_iff₀ h2p, div_lt_iff₀ h2p]
    rcases lorRoots_mem hx with ⟨i, hi, hx⟩ | ⟨hodd, rfl⟩
    · rw [(mem_lorPair (hw0 i (by omega)) (hc0 i hi) hx).2.2]
      constructor
      · nlinarith [hw i (by omega)]
      · nlinarith [hwf i (by omega)]
    · simp only [Complex.ofReal_re]
      constructor
      · nlinarith [hw (p / 2) (by omega)]
      · nlinarith [hwf (p / 2) (by omega)]
  · apply lorRoots_pairwise
    · intro i hi
      have a1 := hc0 i hi
      have a2 := hw0 i (by omega)
      have a3 := hwc i (by omega) i hi
      refine sep_of (D := 4 * Real.pi * c i) (S := 8 * Real.pi * c i) ?_ ?_ ?_
      · simp only
        rw [abs_of_neg (by nlinarith [mul_pos h2p a1])]
        linarith
      · simp only [abs_neg]
        rw [abs_of_pos (by positivity), abs_of_pos (by positivity)]
        nlinarith
      · nlinarith [mul_pos hpi a1]
    · intro i j hij hj a ha b hb
      have a1 := hc0 i (by omega)
      have b1 := hc0 j hj
      obtain ⟨x1, x2, -⟩ := mem_lorPair (hw0 i (by omega)) a1 ha
      obtain ⟨y1, y2, -⟩ := mem_lorPair (hw0 j (by omega)) b1 hb
      have a3 := hwc i (by omega) j hj
      have a4 := hwc j (by omega) j hj
      have a5 := hdesc i j hij hj
      refine sep_of (D := 2 * Real.pi * (c i - c j)) (S := 8 * Real.pi * c i) ?_ ?_ ?_
      · have := abs_sub_abs_le_abs_sub a.im b.im
        rw [x2, y2] at this
        linarith
      · rw [x1, x2, y1, y2]
        nlinarith
      · nlinarith [hgap i j hij hj]
    · intro hodd i hi a ha
      have a1 := hc0 i hi
      have a2 := hw0 (p / 2) (by omega)
      obtain ⟨x1, x2, -⟩ := mem_lorPair (hw0 i (by omega)) a1 ha
      have a3 := hwc i (by omega) i hi
      have a4 := hwc (p / 2) (by omega) i hi
      refine sep_of (D := 2 * Real.pi * c i) (S := 6 * Real.pi * c i) ?_ ?_ ?_
      · rw [Complex.ofReal_im, sub_zero, x2]
      · rw [Complex.ofReal_im, Complex.ofReal_re, x1, x2, abs_zero, abs_neg, abs_of_pos (by positivity)]
        nlinarith
      · nlinarith [mul_pos hpi a1]
  · have hpw : (lorRoots p w c).Pairwise fun a b => |b.im| ≤ |a.im| := by
      apply lorRoots_pairwise
      · intro i hi
        simp [abs_neg]
      · intro i j hij hj a ha b hb
        rw [(mem_lorPair (hw0 i (by omega)) (hc0 i (by omega)) ha).2.1, (mem_lorPair (hw0 j (by omega)) (hc0 j hj) hb).2.1]
        nlinarith [hdesc i j hij hj]
      · intro hodd i hi a ha
        simp
    intro i a b ha hb
    obtain ⟨hi1, rfl⟩ := List.getElem?_eq_some_iff.mp ha
    obtain ⟨hi2, rfl⟩ := List.getElem?_eq_some_iff.mp hb
    have := List.pairwise_iff_getElem.mp hpw i (i + 1) hi1 hi2 (by omega)
    have := div_le_div_of_nonneg_right this h2p.le
    linarith

/-! ### draws -/

/-- Draws of the next pass that lead to a starting value inside the prior. -/
structure Lucky (p n : ℕ) (r : Rng) : Prop where
  cent : ∀ i < (p + 1) / 2, (((p + 1) / 2 : ℕ) - i : ℝ) / (((p + 1) / 2 : ℕ) + 1) < r.randu i ∧
    r.randu i < (((p + 1) / 2 : ℕ) - i + 1 / 10 : ℝ) / (((p + 1) / 2 : ℕ) + 1)
  width : ∀ i < (p + 1) / 2, 0 < r.randu (i + (p + 1) / 2) ∧ r.randu (i + (p + 1) / 2) < 1 / (((p + 1) / 2 : ℕ) + 1 : ℝ)
  chi2 : (n : ℝ) / 100 < r.chi2 0

/-- The Lorentzian parameters drawn by a lucky pass. -/
theorem lorentz_lucky (hp : 2 ≤ p) (hp' : p < 2500) {b : CarBase} {t1 t0 fmax : ℝ} (h1 : armaMax b.time = .ok t1) (h0 : armaMin b.time = .ok t0)
    (hlt : t0 < t1) (hf : b.maxFreq = .fin fmax) (hfm : 2 * (1 / (t1 - t0)) ≤ fmax) {n : ℕ} {r : Rng} (hL : Lucky p n r)
    (hu : ∀ k, 0 < r.unif k ∧ r.unif k < 1) {cent width : List ℝ} {r' : Rng} (h : CarP.lorentz p b r = .ok (cent, width, r')) {sd : ℝ} {θ : List ℝ}
    (hsc : ScaleBounds sd θ) :
    CarpBounds sd fmax (1 / (t1 - t0)) (lorRoots p (fun i => width.getD i 0) fun i => cent.getD i 0) θ := by
  have hd : 0 < t1 - t0 := by linarith
  have hm : 0 < 1 / (t1 - t0) := by positivity
  have hpos : 0 < fmax := by linarith
  have hr : 0 < fmax / (1 / (t1 - t0)) := by positivity
  have hr2 : 2 ≤ fmax / (1 / (t1 - t0)) := by rwa [le_div_iff₀ hm]
  set lm := Real.log (1 / (t1 - t0)) with hlm
  set lr := Real.log (fmax / (1 / (t1 - t0))) with hlr
  have elm : Real.exp lm = 1 / (t1 - t0) := Real.exp_log hm
  have elr : Real.exp (lr + lm) = fmax := by
    rw [Real.exp_add, elm, hlr, Real.exp_log hr]
    field_simp
  have hlr2 : 0.69 < lr := by
    have := Real.log_le_log (by norm_num) hr2
    have := Real.log_two_gt_d9
    rw [hlr]; linarith
  set k := (p + 1) / 2 with hk
  have hkR : (k : ℝ) + 1 ≤ 1251 := by
    have : k + 1 ≤ 1251 := by omega
    exact_mod_cast this
  have hk0 : (0 : ℝ) < (k : ℝ) + 1 := by positivity
  have hL1 := hL.cent
  have hL2 := hL.width
  rw [← hk] at hL1 hL2
  -- gaps between the draws
  have hgapu : ∀ i j, i < j → j < k → 0.9 / ((k : ℝ) + 1) < r.randu i - r.randu j := by
    intro i j hij hj
    have a := (hL1 i (by omega)).1
    have b := (hL1 j hj).2
    have hc : (i : ℝ) + 1 ≤ j := by exact_mod_cast hij
    have : ((k : ℝ) - j + 1 / 10) / ((k : ℝ) + 1) + 0.9 / ((k : ℝ) + 1) ≤ ((k : ℝ) - i) / ((k : ℝ) + 1) := by
      rw [← add_div]
      apply div_le_div_of_nonneg_right _ hk0.le
      linarith
    linarith
  have hgapc : ∀ i j, i < j → j < k → 4e-4 * Real.exp (lr * r.randu i + lm) < Real.exp (lr * r.randu i + lm) - Real.exp (lr * r.randu j + lm) := by
    intro i j hij hj
    have hg := hgapu i j hij hj
    have hg' : 0.9 / 1251 ≤ 0.9 / ((k : ℝ) + 1) := div_le_div_of_nonneg_left (by norm_num) hk0 hkR
    have hx : 4.9e-4 < lr * (r.randu i - r.randu j) := by
      have : 0.9 / 1251 < r.randu i - r.randu j := by linarith
      nlinarith
    have he := Real.add_one_le_exp (lr * (r.randu i - r.randu j))
    have e : Real.exp (lr * r.randu i + lm) = Real.exp (lr * (r.randu i - r.randu j)) * Real.exp (lr * r.randu j + lm) := by
      rw [← Real.exp_add]; congr 1; ring
    have hp0 := Real.exp_pos (lr * r.randu j + lm)
    rw [e]
    nlinarith
  have hulo : ∀ i < k, 1 / ((k : ℝ) + 1) < r.randu i := by
    intro i hi
    refine lt_of_le_of_lt ?_ (hL1 i hi).1
    apply div_le_div_of_nonneg_right _ hk0.le
    have : (i : ℝ) + 1 ≤ k := by exact_mod_cast hi
    linarith
  have huhi : ∀ i < k, r.randu i < 1 := by
    intro i hi
    refine (hL1 i hi).2.trans_le ?_
    rw [div_le_one hk0]
    have : (0 : ℝ) ≤ i := Nat.cast_nonneg i
    linarith
  set c0 := (((List.range k).map r.randu).map fun x => Real.exp (lr * x + lm)).mergeSort (fun a b => decide (b ≤ a)) with hc0
  set w0 := ((List.range k).map (Rng.skip k r.randu)).map fun x => Real.exp (lr * x + lm) with hw0
  have hc1 : c0 = ((List.range k).map r.randu).map fun x => Real.exp (lr * x + lm) := by
    rw [hc0]
    apply List.mergeSort_of_pairwise
    rw [List.map_map, List.pairwise_map]
    refine List.Pairwise.imp_of_mem (fun {a b} ha hb hab => ?_) List.pairwise_lt_range
    have := hgapc a b hab (List.mem_range.mp hb)
    have := Real.exp_pos (lr * r.randu a + lm)
    simp only [Function.comp, decide_eq_true_eq]
    linarith
  have hcl : c0.length = k := by simp [hc0]
  have hwl : w0.length = k := by simp [hw0]
  have hcv : ∀ i < k, c0.getD i 0 = Real.exp (lr * r.randu i + lm) := by
    intro i hi
    rw [List.getD_eq_getElem?_getD, hc1]
    simp [hi]
  have hwv : ∀ i < k, w0.getD i 0 = Real.exp (lr * r.randu (i + k) + lm) := by
    intro i hi
    rw [List.getD_eq_getElem?_getD, hw0]
    simp [hi, Rng.skip]
  have hcpos : ∀ i < k, 0 < c0.getD i 0 := fun i hi => by rw [hcv i hi]; exact Real.exp_pos _
  have e1 : dv 1 (t1 - t0) = .ok (1 / (t1 - t0)) := by rw [dv, if_neg hd.ne']
  have e2 : dv fmax (1 / (t1 - t0)) = .ok (fmax / (1 / (t1 - t0))) := by rw [dv, if_neg hm.ne']
  have e3 : logR (fmax / (1 / (t1 - t0))) = .ok lr := by rw [logR, if_pos hr]
  have e4 : logR (1 / (t1 - t0)) = .ok lm := by rw [logR, if_pos hm]
  -- values of the centroids and widths
  have key : (∀ i < p / 2, cent.getD i 0 = Real.exp (lr * r.randu i + lm)) ∧
      (∀ i < p / 2, width.getD i 0 = Real.exp (lr * r.randu (i + k) + lm)) ∧
      (p % 2 = 1 → width.getD (p / 2) 0 = Real.exp (lm + (lr * r.randu (p / 2 - 1)) * r.unif 0)) := by
    unfold CarP.lorentz at h
    simp only [h1, h0, hf, finR, e1, e2, e3, e4, res_bind_ok, Rng.vecU] at h
    rw [← hk, ← hc0, ← hw0] at h
    by_cases hodd : p % 2 = 1
    · rw [if_pos hodd, wr, if_pos (by omega), res_bind_ok, prevIdx, if_neg (by omega), res_bind_ok] at h
      have hget : rd (c0.set (p / 2) 0) (p / 2 - 1) = .ok (c0.getD (p / 2 - 1) 0) := rd_ok (by
        rw [List.getElem?_set_ne (by omega), List.getD_eq_getElem?_getD, List.getElem?_eq_getElem (by omega : p / 2 - 1 < c0.length)]; rfl)
      rw [hget, res_bind_ok, logR, if_pos (hcpos _ (by omega)), res_bind_ok] at h
      simp only [Rng.nextU] at h
      rw [wr, if_pos (by omega), res_bind_ok] at h
      injection h with h
      injection h with g1 g2
      injection g2 with g2 g3
      refine ⟨fun i hi => ?_, fun i hi => ?_, fun _ => ?_⟩
      · rw [← g1, List.getD_eq_getElem?_getD, List.getElem?_set_ne (by omega), ← List.getD_eq_getElem?_getD]
        exact hcv i (by omega)
      · rw [← g2, List.getD_eq_getElem?_getD, List.getElem?_set_ne (by omega), ← List.getD_eq_getElem?_getD]
        exact hwv i (by omega)
      · rw [← g2, List.getD_eq_getElem?_getD, List.getElem?_set_self (by omega), Option.getD_some, hcv _ (by omega), Real.log_exp]
        congr 1
        ring
    · rw [if_neg hodd] at h
      injection h with h
      injection h with g1 g2
      injection g2 with g2 g3
      refine ⟨fun i hi => ?_, fun i hi => ?_, fun hh => absurd hh hodd⟩
      · rw [← g1]; exact hcv i (by omega)
      · rw [← g2]; exact hwv i (by omega)
  obtain ⟨k1, k2, k3⟩ := key
  -- every width, up to the last one
  have hwlo : ∀ i < k, 1 / (t1 - t0) < width.getD i 0 ∧ ∀ j < p / 2, width.getD i 0 ≤ cent.getD j 0 := by
    intro i hi
    by_cases hi2 : i < p / 2
    · have a := hL2 i hi
      rw [k2 i hi2, ← elm]
      refine ⟨Real.exp_lt_exp.mpr (by nlinarith), fun j hj => ?_⟩
      rw [k1 j hj]
      refine Real.exp_le_exp.mpr ?_
      have := hulo j (by omega)
      nlinarith
    · have hip : i = p / 2 := by omega
      subst hip
      have hodd : p % 2 = 1 := by omega
      rw [k3 hodd, ← elm]
      have u := hu 0
      have a := hulo (p / 2 - 1) (by omega)
      have ap : 0 < r.randu (p / 2 - 1) := lt_trans (by positivity) a
      have ap' : 0 < lr * r.randu (p / 2 - 1) := mul_pos (by linarith) ap
      refine ⟨Real.exp_lt_exp.mpr (by nlinarith), fun j hj => ?_⟩
      rw [k1 j hj]
      refine Real.exp_le_exp.mpr ?_
      have : r.randu (p / 2 - 1) ≤ r.randu j := by
        rcases Nat.lt_or_ge j (p / 2 - 1) with hj' | hj'
        · have h1 := hgapu j (p / 2 - 1) hj' (by omega)
          have h2 : 0 < 0.9 / ((k : ℝ) + 1) := by positivity
          linarith
        · have : j = p / 2 - 1 := by omega
          rw [this]
      nlinarith [mul_le_mul_of_nonneg_left this (show 0 ≤ lr by linarith)]
  have hcf : ∀ i < p / 2, cent.getD i 0 < fmax := by
    intro i hi
    rw [k1 i hi, ← elr]
    refine Real.exp_lt_exp.mpr ?_
    have := huhi i (by omega)
    nlinarith
  refine lorRoots_bounds hm (fun i hi => (hwlo i hi).1) (fun i hi => ?_) hcf (fun i hi => (hwlo i hi).2) (fun i j hij hj => ?_) hsc
  · exact ((hwlo i hi).2 0 (by omega)).trans_lt (hcf 0 (by omega))
  · simp only [k1 i (by omega), k1 j hj]
    exact hgapc i j hij (by omega)

end Verif.Theory
