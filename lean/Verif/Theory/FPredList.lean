import Verif.Theory.FPredFin
import Verif.Theory.FPredNew
import Verif.Theory.FPredSame

/-!
Rounding errors of `KalmanFilter1::Predict`: decay factors and the object that holds the data.
-/

namespace Verif.Theory

open Verif.Model Verif.Spec
open scoped Classical

variable {A : Arith}

/-- a decay factor -/
theorem rate_err (hA : IsBinary64 A) (hacc : Accurate A) {w q : ℝ} (w0 : 2 ^ (-148 : ℤ) ≤ w) (w1 : w ≤ 2 ^ (148 : ℤ)) (q0 : 0 ≤ q)
    (q1 : q ≤ 2 ^ (300 : ℤ)) :
    ∃ d ρ, A.rnd q = .fin d ∧ F64 d ∧ 0 ≤ d ∧ A.exp (A.rnd (-(w * d))) = .fin ρ ∧ F64 ρ ∧ 0 ≤ ρ ∧ ρ ≤ 1 ∧ |ρ - Real.exp (-(w * q))| ≤ 3 * uu := by
  have u0 := uu_pos
  have u1 := uu_small
  have wp : 0 < w := lt_of_lt_of_le (by positivity) w0
  have p3 : (0 : ℝ) < 2 ^ (300 : ℤ) := by positivity
  have F600 : F64 (2 ^ (600 : ℤ)) := f64_zpow _ (by norm_num) (by norm_num)
  obtain ⟨d, ed, rd, d0, d1⟩ := rnd_between hA f64_zero f64_300 q0 q1
  have wd1 : w * d ≤ 2 ^ (600 : ℤ) := by
    calc w * d ≤ 2 ^ (300 : ℤ) * 2 ^ (300 : ℤ) := mul_le_mul (w1.trans (pw_le _ _ (by norm_num))) d1 d0 p3.le
      _ = _ := pw_mul _ _ _ (by norm_num)
  have wd0 : 0 ≤ w * d := mul_nonneg wp.le d0
  obtain ⟨z, ez, rz, z0, z1⟩ := rnd_between hA (f64_neg F600) f64_zero (neg_le_neg wd1) (neg_nonpos.mpr wd0)
  obtain ⟨ρ, eρ, Fρ, ρ0, ρ1⟩ := hA.exp_neg z z1
  refine ⟨d, ρ, ed, rd.1, d0, by rw [ez, eρ], Fρ, ρ0, ρ1, ?_⟩
  have X0 : 0 ≤ w * q := mul_nonneg wp.le q0
  have E : |Real.exp z - Real.exp (-(w * q))| ≤ 19 / 10 * uu := by
    rcases le_or_gt (2 ^ (-300 : ℤ)) q with hq | hq
    · have qp : 0 < q := lt_of_lt_of_le (by positivity) hq
      have xp : 0 < w * q := mul_pos wp qp
      have de : |d - q| ≤ uu * q := rounds_pos rd q0 le_rfl ((pw_le _ _ (by norm_num)).trans hq) (q1.trans (pw_le _ _ (by norm_num)))
      have hd : q / 2 ≤ d := by nlinarith [(abs_le.mp de).1]
      have wdl : 2 ^ (-1000 : ℤ) ≤ w * d := by
        have h1 : (2 : ℝ) ^ (-301 : ℤ) ≤ d := by
          have e : (2 : ℝ) ^ (-301 : ℤ) * 2 ^ (1 : ℤ) = 2 ^ (-300 : ℤ) := pw_mul _ _ _ (by norm_num)
          rw [zpow_one] at e
          linarith
        calc (2 : ℝ) ^ (-1000 : ℤ) ≤ 2 ^ (-449 : ℤ) := pw_le _ _ (by norm_num)
          _ = 2 ^ (-148 : ℤ) * 2 ^ (-301 : ℤ) := (pw_mul _ _ _ (by norm_num)).symm
          _ ≤ w * d := mul_le_mul w0 h1 (by positivity) wp.le
      have ze : |z - -(w * d)| ≤ uu * (w * d) := rounds_err rz (by rw [abs_neg, abs_of_nonneg wd0]) wdl (wd1.trans (pw_le _ _ (by norm_num)))
      have hwd : |w * d - w * q| ≤ uu * (w * q) := by
        rw [← mul_sub, abs_mul, abs_of_pos wp]
        have := mul_le_mul_of_nonneg_left de wp.le
        linarith
      have hx : |(-z) - w * q| ≤ 5 * uu * (w * q) := by
        have h1 : |(-z) - w * d| ≤ uu * (w * d) := by
          rw [show (-z) - w * d = -(z - -(w * d)) by ring, abs_neg]; exact ze
        have h2 : w * d ≤ w * q + uu * (w * q) := by linarith [(abs_le.mp hwd).2]
        have := tri h1 hwd
        have k := usq xp.le
        have k0 : 0 < uu * (w * q) := mul_pos u0 xp
        have h3 := mul_le_mul_of_nonneg_left h2 u0.le
        linarith
      have E := exp_err u0 u1 xp.le hx
      rwa [neg_neg] at E
    · obtain ⟨d', ed', -, -, dl⟩ := rnd_between hA f64_zero f64_m300 q0 hq.le
      rw [ed] at ed'
      obtain rfl : d = d' := by injection ed'
      have F152 : F64 (2 ^ (-152 : ℤ)) := f64_zpow _ (by norm_num) (by norm_num)
      have m : (2 : ℝ) ^ (148 : ℤ) * 2 ^ (-300 : ℤ) = 2 ^ (-152 : ℤ) := pw_mul _ _ _ (by norm_num)
      have wl : w * d ≤ 2 ^ (-152 : ℤ) := by rw [← m]; exact mul_le_mul w1 dl d0 (by positivity)
      have wq : w * q ≤ 2 ^ (-152 : ℤ) := by rw [← m]; exact mul_le_mul w1 hq.le q0 (by positivity)
      obtain ⟨z', ez', -, zl, -⟩ := rnd_between hA (f64_neg F152) f64_zero (neg_le_neg wl) (neg_nonpos.mpr wd0)
      rw [ez] at ez'
      obtain rfl : z = z' := by injection ez'
      have t : (2 : ℝ) ^ (-152 : ℤ) ≤ uu := pw_le _ _ (by norm_num)
      have a1 := Real.add_one_le_exp z
      have a2 := Real.add_one_le_exp (-(w * q))
      have b1 : Real.exp z ≤ 1 := Real.exp_le_one_iff.mpr z1
      have b2 : Real.exp (-(w * q)) ≤ 1 := Real.exp_le_one_iff.mpr (neg_nonpos.mpr X0)
      rw [abs_le]
      constructor <;> linarith
  have r1 := hacc.exp z ρ rz.1 eρ (ρ1.trans (by rw [show (1 : ℝ) = 2 ^ (0 : ℤ) by norm_num]; exact pw_le _ _ (by norm_num)))
  have ez1 : Real.exp z ≤ 1 := Real.exp_le_one_iff.mpr z1
  have e52 : (2 : ℝ) ^ (-52 : ℤ) = uu := rfl
  rw [e52] at r1
  have := tri r1 E
  have t := uu_tiny
  nlinarith

/-- the decay factors as `Predict` computes them -/
theorem rate_forms (hA : IsBinary64 A) {w q d ρ : ℝ} {D : Dbl} (Fw : F64 w) (hD : D = A.rnd q) (ed : A.rnd q = .fin d) (Fd : F64 d) (d0 : 0 ≤ d)
    (eρ : A.exp (A.rnd (-(w * d))) = .fin ρ) :
    A.exp (A.mul (A.mul (.fin (-1)) (.fin w)) D) = .fin ρ ∧ A.exp (A.mul (A.mul (.fin (-1)) D) (.fin w)) = .fin ρ ∧
      A.exp (A.mul D.neg (.fin w)) = .fin ρ ∧ A.exp (A.mul D.abs.neg (.fin w)) = .fin ρ := by
  rw [hD, ed]
  have ab : (Dbl.fin d).abs = .fin d := by rw [Dbl.abs, abs_of_nonneg d0]
  refine ⟨?_, ?_, ?_, ?_⟩
  · rw [fl_mul (-1) w, neg_one_mul, hA.id _ (f64_neg Fw), fl_mul, neg_mul, eρ]
  · rw [fl_mul (-1) d, neg_one_mul, hA.id _ (f64_neg Fd), fl_mul, neg_mul, mul_comm, eρ]
  · rw [neg_fin, fl_mul, neg_mul, mul_comm, eρ]
  · rw [ab, neg_fin, fl_mul, neg_mul, mul_comm, eρ]

/-- what an object holds, whatever the arithmetic -/
structure NHolds (A : Arith) (ts ys es : List ℝ) (q w : ℝ) (s : FKF1) : Prop where
  time : s.time = ts.map .fin
  y : s.y = ys.map .fin
  yerr : s.yerr = es.map .fin
  sigsqr : s.sigsqr = .fin q
  omega : s.omega = .fin w
  dt : ∀ i, i + 1 < ts.length → s.dt[i]? = some (A.sub (.fin (ts.getD (i + 1) 0)) (.fin (ts.getD i 0)))
  mean : s.mean.length = ts.length
  var : s.var.length = ts.length

theorem NHolds.same {ts ys es : List ℝ} {q w : ℝ} {s s' : FKF1} (h : NHolds A ts ys es q w s) (k : KSame s s') : NHolds A ts ys es q w s' :=
  ⟨k.time.trans h.time, k.y.trans h.y, k.yerr.trans h.yerr, k.sigsqr.trans h.sigsqr, k.omega.trans h.omega, by rw [k.dt]; exact h.dt,
    k.lmean.trans h.mean, k.lvar.trans h.var⟩

theorem new_holds {ts ys es : List ℝ} {q w : ℝ} (h2 : 2 ≤ ts.length)
    (hd : ∀ i, i + 1 < ts.length → ∃ d, A.sub (.fin (ts.getD (i + 1) 0)) (.fin (ts.getD i 0)) = .fin d ∧ 0 < d) {srt : List Dbl → List ℕ} {s : FKF1}
    (e : FKF1.new A srt (ts.map .fin) (ys.map .fin) (es.map .fin) (.fin q) (.fin w) = .ok s) : NHolds A ts ys es q w s := by
  have key : ∀ i, i < ts.length - 1 → ∃ d, A.sub (.fin (ts.getD (i + 1) 0)) (.fin (ts.getD i 0)) = .fin d ∧ 0 < d := fun i hi => hd i (by omega)
  choose! f hf using key
  obtain ⟨ds, hds⟩ : ∃ ds, ds = (List.range (ts.length - 1)).map f := ⟨_, rfl⟩
  have eds : FKF1.diffs A (ts.map .fin) = .ok (ds.map .fin) := by
    rw [FKF1.diffs, if_neg (by simp; omega), hds]
    congr 1
    apply List.ext_getElem
    · simp
    · intro i h1 h2
      have hi : i < ts.length - 1 := by simpa using h2
      have := (hf i hi).1
      rw [List.getD_eq_getElem _ _ (by omega), List.getD_eq_getElem _ _ (by omega)] at this
      simpa using this
  have pos : ∀ x ∈ ds, 0 < x := by
    intro x hx
    rw [hds] at hx
    obtain ⟨i, hi, rfl⟩ := List.mem_map.mp hx
    exact (hf i (by simpa using hi)).2
  have nneg : ¬ ∃ d ∈ ds.map Dbl.fin, d.lt (.fin 0) := by
    rintro ⟨d, hd, hlt⟩
    obtain ⟨x, hx, rfl⟩ := List.mem_map.mp hd
    exact absurd (pos x hx) (not_lt.mpr (le_of_lt hlt))
  have nz : ¬ ((∀ d ∈ ds.map Dbl.fin, ¬ d.lt (.fin 0)) ∧ ∃ d ∈ ds.map Dbl.fin, d = .fin 0) := by
    rintro ⟨-, d, hd, rfl⟩
    obtain ⟨x, hx, e⟩ := List.mem_map.mp hd
    injection e with e
    exact absurd (pos x hx) (not_lt.mpr e.le)
  have e' : FKF1.new A srt (ts.map .fin) (ys.map .fin) (es.map .fin) (.fin q) (.fin w) = .ok {
      mean := List.replicate (ts.map Dbl.fin).length (.fin 0), var := List.replicate (ts.map Dbl.fin).length (.fin 0),
      time := ts.map .fin, dt := ds.map .fin, y := ys.map .fin, yerr := es.map .fin, sigsqr := .fin q, omega := .fin w,
      cur := 0, yconst := .nan, yslope := .nan } := by
    simp only [FKF1.new, eds, res_bind_ok, FKF1.newData, FKF1.initSort, if_neg nneg]
    rw [res_pure, res_bind_ok, FKF1.initDedup, if_neg nz]
    rfl
  rw [e] at e'
  injection e' with e'
  subst e'
  refine ⟨rfl, rfl, rfl, rfl, rfl, fun i hi => ?_, by simp, by simp⟩
  have hi' : i < ts.length - 1 := by omega
  rw [(hf i hi').1, hds]
  simp [hi']

/-- a place among the times -/
theorem exists_follows (ts : List ℝ) (x : ℝ) : ∃ i, Follows ts x i := by
  have h : ∃ i, ¬ (i < ts.length ∧ ts.getD i 0 < x) := ⟨ts.length, fun h => lt_irrefl _ h.1⟩
  refine ⟨Nat.find h, ?_, ?_, ?_⟩
  · exact Nat.find_min' h fun h => lt_irrefl _ h.1
  · intro j hj
    exact (not_not.mp (Nat.find_min h hj)).2
  · intro hi
    by_contra hc
    exact Nat.find_spec h ⟨hi, not_le.mp hc⟩

/-- what the filter computes, from what it holds -/
theorem holds_pred {ts ys es : List ℝ} {q w : ℝ} {s : FKF1} (h : NHolds A ts ys es q w s) (ly : ys.length = ts.length) (le : es.length = ts.length) {S : ℝ}
    (hS : A.div (.fin q) (A.mul (.fin 2) (.fin w)) = .fin S) {ρ E : ℕ → ℝ}
    (hE : ∀ i < ts.length, A.mul (.fin (es.getD i 0)) (.fin (es.getD i 0)) = .fin (E i))
    (hρ : ∀ i, i + 1 < ts.length → A.exp (A.mul (A.mul (.fin (-1)) (.fin w)) (A.sub (.fin (ts.getD (i + 1) 0)) (.fin (ts.getD i 0)))) = .fin (ρ i) ∧
      A.exp (A.mul (A.mul (.fin (-1)) (A.sub (.fin (ts.getD (i + 1) 0)) (.fin (ts.getD i 0)))) (.fin w)) = .fin (ρ i)) :
    PHolds A ts.length (.fin S) (fun i => .fin (ρ i)) (fun i => .fin (ρ i)) (fun i => .fin (ys.getD i 0)) (fun i => .fin (E i)) s where
  time := by rw [h.time, List.length_map]
  S := by rw [h.sigsqr, h.omega]; exact hS
  y := fun i hi => by rw [h.y]; exact getElem?_map_fin (by omega)
  E := fun i hi => ⟨_, by rw [h.yerr]; exact getElem?_map_fin (by omega), hE i hi⟩
  ρ := fun i hi => ⟨_, h.dt i hi, by rw [h.omega]; exact (hρ i hi).1, by rw [h.omega]; exact (hρ i hi).2⟩
  mean := h.mean
  var := h.var

end Verif.Theory
