import Verif.Theory.FPredRun

/-!
Construction of a filter object from data and parameters of moderate size.
-/

namespace Verif.Theory

open Verif.Model Verif.Spec
open scoped Classical

variable {A : Arith}

/-- what a constructed object holds -/
structure PNew (A : Arith) (ts ys es : List ℝ) (q w : ℝ) (s : FKF1) : Prop where
  safe : PSafe A s
  time : s.time = ts.map .fin
  yerr : s.yerr = es.map .fin
  omega : s.omega = .fin w
  ldt : s.dt.length + 1 = ts.length
  y : s.y = ys.map .fin
  sigsqr : s.sigsqr = .fin q

theorem newPred_num (hA : IsBinary64 A) {ts ys es : List ℝ} {q w : ℝ} (h : MildPred ts ys es q w) (srt : List Dbl → List ℕ) :
    ∃ s, FKF1.new A srt (ts.map .fin) (ys.map .fin) (es.map .fin) (.fin q) (.fin w) = .ok s ∧ PNew A ts ys es q w s := by
  have h2 := h.two
  obtain ⟨ds, eds, lds, hds, hgap⟩ := diffs_num hA h.toMildTimes
  have pos : (0 : ℝ) < 2 ^ (-300 : ℤ) := by positivity
  have nneg : ¬ ∃ d ∈ ds.map Dbl.fin, d.lt (.fin 0) := by
    rintro ⟨d, hd, hlt⟩
    obtain ⟨x, hx, rfl⟩ := List.mem_map.mp hd
    exact absurd (pos.trans_le (hds x hx).1) (not_lt.mpr (le_of_lt hlt))
  have nz : ¬ ((∀ d ∈ ds.map Dbl.fin, ¬ d.lt (.fin 0)) ∧ ∃ d ∈ ds.map Dbl.fin, d = .fin 0) := by
    rintro ⟨-, d, hd, rfl⟩
    obtain ⟨x, hx, e⟩ := List.mem_map.mp hd
    injection e with e
    exact absurd (pos.trans_le (hds x hx).1) (not_lt.mpr e.le)
  refine ⟨{ mean := List.replicate (ts.map Dbl.fin).length (.fin 0), var := List.replicate (ts.map Dbl.fin).length (.fin 0),
            time := ts.map .fin, dt := ds.map .fin, y := ys.map .fin, yerr := es.map .fin, sigsqr := .fin q, omega := .fin w,
            cur := 0, yconst := .nan, yslope := .nan }, ?_, ?_⟩
  · simp only [FKF1.new, eds, res_bind_ok, FKF1.newData, FKF1.initSort, if_neg nneg]
    rw [res_pure, res_bind_ok, FKF1.initDedup, if_neg nz]
    rfl
  · have p148 : (0 : ℝ) < 2 ^ (-148 : ℤ) := by positivity
    have hE : ∀ i < ts.length, ∃ e E, (es.map Dbl.fin)[i]? = some (.fin e) ∧ A.mul (.fin e) (.fin e) = .fin E ∧ 2 ^ (-298 : ℤ) ≤ E ∧ E ≤ 2 ^ (298 : ℤ) := by
      intro i hi
      have hi' : i < es.length := by rw [h.lene]; exact hi
      obtain ⟨l, u⟩ := h.e (es.getD i 0) (by rw [List.getD_eq_getElem _ _ hi']; exact List.getElem_mem _)
      obtain ⟨E, eE, -, E1, E2⟩ := rnd_mul hA (a := es.getD i 0) (b := es.getD i 0) (f64_zpow (-296) (by omega) (by omega))
        (f64_zpow 296 (by omega) (by omega))
        (by rw [← pw_mul (-148) (-148) (-296) (by norm_num)]; exact mul_le_mul l l p148.le (p148.le.trans l))
        (by rw [← pw_mul 148 148 296 (by norm_num)]; exact mul_le_mul u u (p148.le.trans l) (by positivity))
      exact ⟨_, E, getElem?_map_fin hi', eE, (pw_le _ _ (by norm_num)).trans E1, E2.trans (pw_le _ _ (by norm_num))⟩
    obtain ⟨d, ed, Fd, d1, d2⟩ := rnd_mul hA (a := 2) (b := w) (f64_zpow (-147) (by omega) (by omega)) (f64_zpow 149 (by omega) (by omega))
      (by rw [← pw_mul 1 (-148) (-147) (by norm_num), zpow_one]; exact mul_le_mul_of_nonneg_left h.w_lo (by norm_num))
      (by rw [← pw_mul 1 148 149 (by norm_num), zpow_one]; exact mul_le_mul_of_nonneg_left h.w_hi (by norm_num))
    have d0 : 0 < d := lt_of_lt_of_le (by positivity) d1
    obtain ⟨S, eS, -, S1, S2⟩ := rnd_div hA (a := q) (b := d) d0.ne' (f64_zpow (-297) (by omega) (by omega)) (f64_zpow 295 (by omega) (by omega))
      (by
        rw [le_div_iff₀ d0]
        refine le_trans (mul_le_mul_of_nonneg_left d2 (by positivity)) ?_
        rw [pw_mul (-297) 149 (-148) (by norm_num)]; exact h.sig_lo)
      (by
        rw [div_le_iff₀ d0]
        refine le_trans h.sig_hi ?_
        rw [← pw_mul 295 (-147) 148 (by norm_num)]; exact mul_le_mul_of_nonneg_left d1 (by positivity))
    have hS : A.div (.fin q) (A.mul (.fin 2) (.fin w)) = .fin S := by rw [ed, eS]
    have S1' : (2 : ℝ) ^ (-298 : ℤ) ≤ S := (pw_le _ _ (by norm_num)).trans S1
    have S2' : S ≤ (2 : ℝ) ^ (298 : ℤ) := S2.trans (pw_le _ _ (by norm_num))
    refine ⟨⟨⟨by simp; omega, by simp; omega, by simp, by simp, ⟨w, rfl, h.w_dbl, p148.trans_le h.w_lo⟩, ⟨S, hS, p298_pos.le.trans S1', S2'⟩, ?_, ?_, ?_⟩,
      ?_, ?_, ?_, ⟨S, hS, S1'⟩⟩, rfl, rfl, rfl, by rw [List.length_map]; exact lds, rfl, rfl⟩
    · intro d hd
      obtain ⟨x, hx, rfl⟩ := List.mem_map.mp hd
      exact .inr ⟨x, pos.le.trans (hds x hx).1, rfl⟩
    · intro i hi
      have hi' : i < ys.length := by rw [h.leny]; simpa using hi
      exact ⟨_, getElem?_map_fin hi', h.y _ (by rw [List.getD_eq_getElem _ _ hi']; exact List.getElem_mem _)⟩
    · intro i hi
      obtain ⟨e, E, a1, a2, a3, a4⟩ := hE i (by simpa using hi)
      exact ⟨e, E, a1, a2, p298_pos.trans_le a3, a4⟩
    · rw [List.length_map]; exact h.max
    · intro i hi
      exact ⟨_, getElem?_map_fin (by simpa using hi)⟩
    · intro i hi
      obtain ⟨e, E, a1, a2, a3, -⟩ := hE i (by simpa using hi)
      exact ⟨e, E, a1, a2, a3⟩

theorem PNew.same {ts ys es : List ℝ} {q w : ℝ} {s s' : FKF1} (h : PNew A ts ys es q w s) (k : KSame s s') : PNew A ts ys es q w s' :=
  ⟨h.safe.same k, k.time.trans h.time, k.yerr.trans h.yerr, k.omega.trans h.omega, by rw [k.dt]; exact h.ldt, k.y.trans h.y, k.sigsqr.trans h.sigsqr⟩

end Verif.Theory
