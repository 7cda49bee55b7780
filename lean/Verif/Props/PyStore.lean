import Verif.Theory.PyStore
import Verif.Props.Generate

/-!
Property C98: `carma_process` and the element type of the array of times; repeated times.
-/

namespace Verif.Props

open Verif.Model Verif.Spec Verif.Theory Matrix

variable {p N : ℕ}

/-- **C98, doubles.** With an array of doubles the function is the one of C49. -/
theorem C98_doubles (time : List ℝ) (sigsqr : ℝ) (roots : Fin p → ℂ) (ma : List ℝ) (z : ℕ → ℝ) :
    Py.carmaProcessAs id time sigsqr roots ma z = Py.carmaProcess time sigsqr roots ma z := by
  unfold Py.carmaProcessAs Py.carmaProcess
  simp only [genLoopAs_id, id]

/-- **C98, what is returned.** Distinct times in any order, admissible roots, any conversion on assignment: value `i` is the conversion of a
draw from the conditional law of the process given the values stored before. -/
theorem C98_values (hp : 2 ≤ p) (hN : 0 < N) {t : Fin N → ℝ} (ht : StrictMono t) {time : List ℝ} (hperm : (List.ofFn t).Perm time) {sigsqr : ℝ}
    (hs : 0 < sigsqr) {ω : Fin p → ℂ} (h : Admissible ω) {ma : List ℝ} (hl : ma.length ≤ p) (hne : ∃ x ∈ ma, x ≠ 0) (st : ℝ → ℝ) (z : ℕ → ℝ) :
    ∃ x : Fin N → ℝ, Py.carmaProcessAs st time sigsqr ω ma z = .ok (List.ofFn x, List.ofFn t) ∧
      ∀ i, x i = st (stepMean (carmaAcf sigsqr ω ma) t 0 x i + √(stepVar (carmaAcf sigsqr ω ma) t 0 i) * z i) := by
  have hR := gen_pos ht.monotone le_rfl (fun i hi => (strictMono_ext0 ht i hi).ne) hs h hl hne
  set S := carmaSS sigsqr ω (KFp.padMA p ma) (ext0 t) (fun _ => 0) with hS
  obtain ⟨yy, hyy⟩ := stored_exists S st z N
  have e1 := carmaProcessAs_loop hp hN ht.monotone hperm hs h hl hne st z yy (hyy 0 hN)
  have e2 := genLoopAs_eq (S := S) (ω := ω) (time := List.ofFn t) (t := ext0 t) (st := st) (yy := yy) (z := z) (N - 1)
    (fun i hi => ofFn_get t (by omega)) (fun i hi => rfl) (fun i hi => by simp [hS, carmaSS, expSS]) (fun i hi => hR.pos i (by omega))
    (hR.pos _ (by omega)).le (fun i hi => hyy i (by omega))
  refine ⟨fun i => yy i, ?_, fun i => ?_⟩
  · rw [e1, e2]
    simp only [Except.map]
    rw [Nat.sub_add_cancel hN, range_map_ofFn]
  · obtain ⟨f1, f2⟩ := hR.filter yy i
    rw [fst_ext0, carmaAcf_pad] at f1 f2
    have g := hyy i i.2
    rw [f1, f2] at g
    exact g

/-- **C98 is false for integer times.** Whatever the times, parameters and draws, with an integer array every value returned is an integer. -/
theorem C98_integers {time : List ℝ} {sigsqr : ℝ} {roots : Fin p → ℂ} {ma : List ℝ} {z : ℕ → ℝ} {ys ts : List ℝ}
    (h : Py.carmaProcessAs Py.toInt time sigsqr roots ma z = .ok (ys, ts)) : ∀ y ∈ ys, ∃ n : ℤ, y = n := by
  unfold Py.carmaProcessAs at h
  split at h
  · cases h
  obtain ⟨J, -, h⟩ := bind_ok_inv h
  obtain ⟨b, -, h⟩ := bind_ok_inv h
  obtain ⟨V, -, h⟩ := bind_ok_inv h
  obtain ⟨sd, -, h⟩ := bind_ok_inv h
  split at h
  · obtain ⟨_, h', _⟩ := bind_ok_inv h; cases h'
  obtain ⟨g, h1, h⟩ := bind_ok_inv h
  cases h
  intro y hy
  obtain ⟨v, rfl⟩ := genLoopAs_range (by intro x hx; exact ⟨_, List.mem_singleton.mp hx⟩) h1 y hy
  exact toInt_int v

/-- **C98 is false for integer times: a series of zeros.** If each draw times the standard deviation of the process is less than one in size,
the values are all zero. -/
theorem C98_zeros (hp : 2 ≤ p) (hN : 0 < N) {t : Fin N → ℝ} (ht : StrictMono t) {time : List ℝ} (hperm : (List.ofFn t).Perm time) {sigsqr : ℝ}
    (hs : 0 < sigsqr) {ω : Fin p → ℂ} (h : Admissible ω) {ma : List ℝ} (hl : ma.length ≤ p) (hne : ∃ x ∈ ma, x ≠ 0) {z : ℕ → ℝ}
    (hz : ∀ i < N, √(carmaAcf sigsqr ω ma 0) * |z i| < 1) :
    Py.carmaProcessAs Py.toInt time sigsqr ω ma z = .ok (List.replicate N 0, List.ofFn t) := by
  obtain ⟨x, h1, h2⟩ := C98_values hp hN ht hperm hs h hl hne Py.toInt z
  have hR := gen_pos ht.monotone le_rfl (fun i hi => (strictMono_ext0 ht i hi).ne) hs h hl hne
  have hx : ∀ k, ∀ hk : k < N, x ⟨k, hk⟩ = 0 := by
    intro k
    induction k using Nat.strong_induction_on with
    | _ k ih =>
      intro hk
      rw [h2 ⟨k, hk⟩]
      have hm : stepMean (carmaAcf sigsqr ω ma) t 0 x ⟨k, hk⟩ = 0 := by
        unfold stepMean condMean
        have : (x ∘ Fin.castLE (show k ≤ N from hk.le)) = 0 := by
          funext j; exact ih j j.2 (by omega)
        show _ ⬝ᵥ (_ *ᵥ (x ∘ Fin.castLE (show k ≤ N from hk.le))) = 0
        rw [this]; simp
      rw [hm, zero_add]
      apply toInt_small
      have hv := stepVar_le hR hk
      rw [carmaAcf_pad] at hv
      obtain ⟨-, f2⟩ := hR.filter (fun _ => 0) ⟨k, hk⟩
      rw [fst_ext0, carmaAcf_pad] at f2
      have f2' : (carmaSS sigsqr ω (KFp.padMA p ma) (ext0 t) (fun _ => 0)).v k = stepVar (carmaAcf sigsqr ω ma) t 0 ⟨k, hk⟩ := f2
      rw [abs_mul, abs_of_nonneg (Real.sqrt_nonneg _), ← f2']
      exact (mul_le_mul_of_nonneg_right (Real.sqrt_le_sqrt hv) (abs_nonneg _)).trans_lt (hz k hk)
  rw [h1]
  congr 2
  rw [← List.ofFn_const]
  congr 1
  funext i
  exact hx i i.2

/-- **C98 is false for integer times: the law.** No matrix with the covariance of the process gives the values from the draws (compare C49). -/
theorem C98_integer_negation (hp : 2 ≤ p) (hN : 0 < N) {t : Fin N → ℝ} (ht : StrictMono t) {time : List ℝ} (hperm : (List.ofFn t).Perm time)
    {sigsqr : ℝ} (hs : 0 < sigsqr) {ω : Fin p → ℂ} (h : Admissible ω) {ma : List ℝ} (hl : ma.length ≤ p) (hne : ∃ x ∈ ma, x ≠ 0) :
    ¬ ∃ L : Matrix (Fin N) (Fin N) ℝ, L * Lᵀ = obsCov (carmaAcf sigsqr ω ma) t 0 ∧
      ∀ z : ℕ → ℝ, Py.carmaProcessAs Py.toInt time sigsqr ω ma z = .ok (List.ofFn (L *ᵥ fun j => z j), List.ofFn t) := by
  rintro ⟨L, h1, h2⟩
  have hR := gen_pos ht.monotone le_rfl (fun i hi => (strictMono_ext0 ht i hi).ne) hs h hl hne
  have hv := stepVar_le hR hN
  rw [carmaAcf_pad] at hv
  have hr : 0 < carmaAcf sigsqr ω ma 0 := (hR.pos 0 hN).trans_le hv
  set r0 := carmaAcf sigsqr ω ma 0 with hr0
  have hsq : 0 < √r0 := Real.sqrt_pos.mpr hr
  have hL : ∀ i j, L i j = 0 := by
    intro i j
    set z : ℕ → ℝ := fun k => if k = j then 1 / (2 * √r0) else 0 with hz
    have h3 := h2 z
    rw [C98_zeros hp hN ht hperm hs h hl hne (z := z) (fun k hk => ?_)] at h3
    · injection h3 with h3
      injection h3 with h3
      rw [← List.ofFn_const, List.ofFn_inj] at h3
      have h4 := congrFun h3 i
      simp only [Matrix.mulVec, dotProduct, hz] at h4
      rw [Finset.sum_eq_single j] at h4
      · rw [if_pos rfl] at h4
        have : (1 / (2 * √r0)) ≠ 0 := by positivity
        rcases mul_eq_zero.mp h4.symm with h5 | h5
        · exact h5
        · exact absurd h5 this
      · intro l _ hl
        rw [if_neg (fun e => hl (Fin.ext e)), mul_zero]
      · simp
    · simp only [hz]
      split_ifs
      · rw [abs_of_pos (by positivity)]
        rw [mul_one_div, div_lt_one (by positivity)]
        linarith
      · simp
  have h3 := congrFun (congrFun h1 ⟨0, hN⟩) ⟨0, hN⟩
  simp only [Matrix.mul_apply, hL, zero_mul, Finset.sum_const_zero, obsCov, Matrix.of_apply, sub_self, abs_zero, Pi.zero_apply] at h3
  simp at h3
  linarith

/-- **C98, repeated times.** Times in any order, with repetitions; sorted they are `t`. `carma_process` (for `p ≥ 2`) returns if and only if no two
neighbours are equal, except perhaps the last two; otherwise it divides by a variance of zero. -/
theorem C98_repeated (hp : 2 ≤ p) (hN : 0 < N) {t : Fin N → ℝ} (ht : Monotone t) {time : List ℝ} (hperm : (List.ofFn t).Perm time) {sigsqr : ℝ}
    (hs : 0 < sigsqr) {ω : Fin p → ℂ} (h : Admissible ω) {ma : List ℝ} (hl : ma.length ≤ p) (hne : ∃ x ∈ ma, x ≠ 0) (st : ℝ → ℝ) (z : ℕ → ℝ) :
    ((∃ i j k : Fin N, i < j ∧ j < k ∧ t i = t j) → Py.carmaProcessAs st time sigsqr ω ma z = .error .nonfinite) ∧
    ((¬ ∃ i j k : Fin N, i < j ∧ j < k ∧ t i = t j) → ∃ x : Fin N → ℝ, Py.carmaProcessAs st time sigsqr ω ma z = .ok (List.ofFn x, List.ofFn t)) := by
  set S := carmaSS sigsqr ω (KFp.padMA p ma) (ext0 t) (fun _ => 0) with hS
  obtain ⟨yy, hyy⟩ := stored_exists S st z N
  have e1 := carmaProcessAs_loop hp hN ht hperm hs h hl hne st z yy (hyy 0 hN)
  refine ⟨fun hrep => ?_, fun hno => ?_⟩
  · classical
    have hex : ∃ k, k + 2 < N ∧ ext0 t k = ext0 t (k + 1) := by
      obtain ⟨i, j, k, hij, hjk, he⟩ := hrep
      refine ⟨i, by have := k.2; omega, ?_⟩
      refine le_antisymm (mono_ext0 ht (by omega) (by have := k.2; omega)) ?_
      have := mono_ext0 ht (show (i : ℕ) + 1 ≤ j from hij) j.2
      rwa [ext0_of_lt t j.2, ← he, ← ext0_of_lt t i.2] at this
    obtain ⟨hk1, hk2⟩ := Nat.find_spec hex
    set k := Nat.find hex
    have hd : ∀ i < k, ext0 t i ≠ ext0 t (i + 1) := fun i hi he => Nat.find_min hex hi ⟨by omega, he⟩
    have hR := gen_pos ht (m := k + 1) (by omega) (fun i hi => hd i (by omega)) hs h hl hne
    have hv := gen_zero ht (by omega) hd hk2 hs h hl hne
    have e2 := genLoopAs_eq (S := S) (ω := ω) (time := List.ofFn t) (t := ext0 t) (st := st) (yy := yy) (z := z) (k + 1)
      (fun i hi => ofFn_get t (by omega)) (fun i hi => rfl) (fun i hi => by simp [hS, carmaSS, expSS]) (fun i hi => hR.pos i hi)
      hv.ge (fun i hi => hyy i (by omega))
    have e3 : Py.genLoopAs st ω S.b S.V (List.ofFn t) z
        { state := 0, pred := S.V, mean := 0, var := S.v 0, innov := yy 0, y := [yy 0] } (k + 2) = .error .nonfinite := by
      rw [Py.genLoopAs, e2, res_bind_ok, rd_ok (ofFn_get t (by omega)), res_bind_ok, rd_ok (ofFn_get t (by omega)), res_bind_ok]
      unfold Py.genStepAs KFp.gainOf
      rw [if_pos (show S.v (k + 1) = 0 from hv)]
      rfl
    rw [e1, genLoopAs_error e3 (show k + 2 ≤ N - 1 by omega)]
    rfl
  · have hd : ∀ i, i + 2 < N → ext0 t i ≠ ext0 t (i + 1) := by
      intro i hi he
      apply hno
      refine ⟨⟨i, by omega⟩, ⟨i + 1, by omega⟩, ⟨i + 2, hi⟩, by simp [Fin.lt_def], by simp [Fin.lt_def], ?_⟩
      rwa [ext0_of_lt t (show i < N by omega), ext0_of_lt t (show i + 1 < N by omega)] at he
    have hvN : (∀ i < N - 1, 0 < S.v i) ∧ 0 ≤ S.v (N - 1) := by
      rcases Nat.lt_or_ge N 2 with h2 | h2
      · obtain rfl : N = 1 := by omega
        have hR := gen_pos ht le_rfl (fun i hi => by omega) hs h hl hne
        exact ⟨fun i hi => by omega, (hR.pos 0 hN).le⟩
      · by_cases hlast : ext0 t (N - 2) = ext0 t (N - 2 + 1)
        · have hR := gen_pos ht (m := N - 1) (by omega) (fun i hi => hd i (by omega)) hs h hl hne
          have hv := gen_zero ht (k := N - 2) (by omega) (fun i hi => hd i (by omega)) hlast hs h hl hne
          rw [show N - 2 + 1 = N - 1 by omega] at hv
          exact ⟨fun i hi => hR.pos i hi, hv.ge⟩
        · have hR := gen_pos ht le_rfl (fun i hi => by
            rcases Nat.lt_or_ge (i + 2) N with h3 | h3
            · exact hd i h3
            · obtain rfl : i = N - 2 := by omega
              exact hlast) hs h hl hne
          exact ⟨fun i hi => hR.pos i (by omega), (hR.pos _ (by omega)).le⟩
    have e2 := genLoopAs_eq (S := S) (ω := ω) (time := List.ofFn t) (t := ext0 t) (st := st) (yy := yy) (z := z) (N - 1)
      (fun i hi => ofFn_get t (by omega)) (fun i hi => rfl) (fun i hi => by simp [hS, carmaSS, expSS]) hvN.1
      hvN.2 (fun i hi => hyy i (by omega))
    refine ⟨fun i => yy i, ?_⟩
    rw [e1, e2]
    simp only [Except.map]
    rw [Nat.sub_add_cancel hN, range_map_ofFn]

/-! ### examples -/

lemma exI_mono : StrictMono (![0, 3, 5] : Fin 3 → ℝ) := by
  intro i j hij
  fin_cases i <;> fin_cases j <;> simp at hij ⊢ <;> norm_num

/-- Integer times 5, 0, 3 and small draws: zeros. -/
example {z : ℕ → ℝ} (hz : ∀ i < 3, √(carmaAcf 4 ![(-2 : ℂ), -1 + Complex.I, -1 - Complex.I] [1, 0.5] 0) * |z i| < 1) :
    Py.carmaProcessAs Py.toInt [5, 0, 3] 4 ![(-2 : ℂ), -1 + Complex.I, -1 - Complex.I] [1, 0.5] z = .ok ([0, 0, 0], [0, 3, 5]) := by
  have := C98_zeros (by norm_num) (by norm_num) exI_mono (time := [5, 0, 3]) (by
    rw [show List.ofFn (![0, 3, 5] : Fin 3 → ℝ) = [0, 3, 5] by simp [List.ofFn_succ]]
    exact (List.perm_append_comm (l₁ := [0, 3]) (l₂ := [5]))) (sigsqr := 4) (by norm_num) ex_admissible3
    (ma := [1, 0.5]) (by simp) ⟨1, by simp, one_ne_zero⟩ hz
  simpa [List.ofFn_succ] using this

/-- The time 1 twice and a later one: no values. -/
example (z : ℕ → ℝ) : Py.carmaProcessAs id [1, 2, 1] 4 ![(-2 : ℂ), -1 + Complex.I, -1 - Complex.I] [1, 0.5] z = .error .nonfinite :=
  (C98_repeated (N := 3) (t := ![1, 1, 2]) (by norm_num) (by norm_num) (by
    intro i j hij
    fin_cases i <;> fin_cases j <;> simp at hij ⊢) (time := [1, 2, 1]) (by
    simp [List.ofFn_succ, List.Perm.swap]) (sigsqr := 4) (by norm_num) ex_admissible3
    (ma := [1, 0.5]) (by simp) ⟨1, by simp, one_ne_zero⟩ id z).1 ⟨0, 1, 2, by decide, by decide, by simp⟩

end Verif.Props
