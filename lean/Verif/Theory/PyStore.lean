import Verif.Model.PyStore
import Verif.Theory.Generate
import Verif.Theory.ErrorFree
import Verif.Theory.Run

/-!
Theory of `carma_process` with a conversion on assignment.
-/

namespace Verif.Theory

open Verif.Model Verif.Spec Finset Matrix

variable {p : ℕ}

lemma genLoopAs_id (roots b : Fin p → ℂ) (V : Matrix (Fin p) (Fin p) ℂ) (time : List ℝ) (z : ℕ → ℝ) (g0 : Py.Gen p) (k : ℕ) :
    Py.genLoopAs id roots b V time z g0 k = Py.genLoop roots b V time z g0 k := by
  induction k with
  | zero => rfl
  | succ k ih => rw [Py.genLoopAs, Py.genLoop, ih]; rfl

/-- every value has been through the conversion -/
lemma genLoopAs_range {st : ℝ → ℝ} {roots b : Fin p → ℂ} {V : Matrix (Fin p) (Fin p) ℂ} {time : List ℝ} {z : ℕ → ℝ} {g0 g : Py.Gen p} {k : ℕ}
    (h0 : ∀ x ∈ g0.y, ∃ v, x = st v) (h : Py.genLoopAs st roots b V time z g0 k = .ok g) : ∀ x ∈ g.y, ∃ v, x = st v := by
  induction k generalizing g with
  | zero => cases h; exact h0
  | succ k ih =>
      obtain ⟨g1, h1, h⟩ := bind_ok_inv h
      obtain ⟨t1, -, h⟩ := bind_ok_inv h
      obtain ⟨t0, -, h⟩ := bind_ok_inv h
      obtain ⟨gain, -, h⟩ := bind_ok_inv h
      obtain ⟨sd, -, h⟩ := bind_ok_inv h
      cases h
      intro x hx
      rcases List.mem_append.mp hx with hx | hx
      · exact ih h1 x hx
      · exact ⟨_, List.mem_singleton.mp hx⟩

lemma SS.m_congr {S : SS ℂ (Fin p)} {y y' : ℕ → ℝ} {i : ℕ} (h : ∀ j < i, y j = y' j) : S.m y i = S.m y' i := by
  rw [S.m_eq_sum, S.m_eq_sum]
  exact Finset.sum_congr rfl fun j hj => by rw [h j (Finset.mem_range.mp hj)]

/-- the sequence of stored values -/
lemma stored_exists (S : SS ℂ (Fin p)) (st : ℝ → ℝ) (z : ℕ → ℝ) (N : ℕ) : ∃ yy : ℕ → ℝ, ∀ i < N, yy i = st (S.m yy i + √(S.v i) * z i) := by
  induction N with
  | zero => exact ⟨fun _ => 0, fun i hi => by omega⟩
  | succ N ih =>
      obtain ⟨yy, h⟩ := ih
      refine ⟨Function.update yy N (st (S.m yy N + √(S.v N) * z N)), fun i hi => ?_⟩
      have hm : S.m (Function.update yy N (st (S.m yy N + √(S.v N) * z N))) i = S.m yy i :=
        SS.m_congr fun j hj => Function.update_of_ne (by omega) _ _
      rw [hm]
      rcases Nat.lt_or_ge i N with h' | h'
      · rw [Function.update_of_ne (by omega)]; exact h i h'
      · obtain rfl : i = N := by omega
        rw [Function.update_self]

lemma genLoopAs_eq {S : SS ℂ (Fin p)} {ω : Fin p → ℂ} {time : List ℝ} {t : ℕ → ℝ} {st : ℝ → ℝ} {yy z : ℕ → ℝ} (k : ℕ)
    (htime : ∀ i ≤ k, time[i]? = some (t i)) (hrho : ∀ i < k, S.rho i = KFp.rhoOf ω (t (i + 1) - t i)) (he : ∀ i ≤ k, S.e2 i = 0)
    (hv : ∀ i < k, 0 < S.v i) (hvk : 0 ≤ S.v k) (hy : ∀ i ≤ k, yy i = st (S.m yy i + √(S.v i) * z i)) :
    Py.genLoopAs st ω S.b S.V time z { state := 0, pred := S.V, mean := 0, var := S.v 0, innov := yy 0, y := [yy 0] } k =
      .ok { state := S.x yy k, pred := S.P k, mean := S.m yy k, var := S.v k, innov := yy k - S.m yy k, y := (List.range (k + 1)).map yy } := by
  induction k with
  | zero =>
      have hm0 : S.m yy 0 = 0 := by simp [SS.m, SS.x]
      rw [Py.genLoopAs, hm0, sub_zero]; rfl
  | succ k ih =>
      have hvk' := hv k (by omega)
      rw [Py.genLoopAs, ih (fun i hi => htime i (by omega)) (fun i hi => hrho i (by omega)) (fun i hi => he i (by omega)) (fun i hi => hv i (by omega))
        hvk'.le (fun i hi => hy i (by omega)), res_bind_ok, rd_ok (htime (k + 1) le_rfl), res_bind_ok, rd_ok (htime k (by omega)), res_bind_ok]
      have hx : (fun i => (S.x yy k i + ((yy k - S.m yy k : ℝ) : ℂ) * S.gainOf (S.P k) (S.v k) i) * S.rho k i) = S.x yy (k+1) := by
        funext i
        simp only [SS.x, SS.m, SS.g]
        exact (mul_comm _ _).trans (by congr 2; exact mul_comm _ _)
      have hP : KFp.timeVar (S.rho k) (KFp.measVar (S.P k) (S.v k) (S.gainOf (S.P k) (S.v k))) S.V = S.P (k+1) := stepP_eq S _ _ _
      have hvar : KFp.quad S.b (S.P (k+1)) = S.v (k+1) := by
        have := quad_eq (S := S) (S.P (k + 1)) (S.e2 (k + 1))
        rw [he (k + 1) le_rfl, add_zero] at this
        rw [this, SS.v, he (k + 1) le_rfl]
      have hmm : (S.b ⬝ᵥ S.x yy (k+1)).re = S.m yy (k+1) := rfl
      simp only [Py.genStepAs, gain_eq S _ hvk'.ne', res_bind_ok, ← hrho k (by omega), hx, hP, hvar, hmm]
      rw [show Py.sqrt (S.v (k + 1)) = .ok √(S.v (k + 1)) by rw [Py.sqrt, if_neg (not_lt.mpr hvk)], res_bind_ok,
        ← hy (k + 1) le_rfl, List.range_succ (n := k + 1), List.map_append]
      rfl

/-- a failed pass fails the loop -/
lemma genLoopAs_error {st : ℝ → ℝ} {roots b : Fin p → ℂ} {V : Matrix (Fin p) (Fin p) ℂ} {time : List ℝ} {z : ℕ → ℝ} {g0 : Py.Gen p} {k m : ℕ}
    {f : Fault} (h : Py.genLoopAs st roots b V time z g0 k = .error f) (hkm : k ≤ m) : Py.genLoopAs st roots b V time z g0 m = .error f := by
  induction m, hkm using Nat.le_induction with
  | base => exact h
  | succ m _ ih => rw [Py.genLoopAs, ih]; rfl

lemma sort_mono {time : List ℝ} {N : ℕ} {t : Fin N → ℝ} (ht : Monotone t) (hp : (List.ofFn t).Perm time) :
    time.mergeSort (fun a b => decide (a ≤ b)) = List.ofFn t := by
  have hs : (time.mergeSort (fun a b => decide (a ≤ b))).Pairwise (fun a b => a ≤ b) := by
    have := List.pairwise_mergeSort (le := fun a b : ℝ => decide (a ≤ b)) (by intro a b c; simpa using le_trans) (by intro a b; simpa using le_total a b) time
    simpa using this
  have hs' : (List.ofFn t).Pairwise (fun a b => a ≤ b) := by
    rw [List.pairwise_iff_getElem]
    intro i j hi hj hij
    simp only [List.getElem_ofFn]
    exact ht (by simpa [Fin.le_def] using hij.le)
  exact ((List.mergeSort_perm _ _).trans hp.symm).eq_of_pairwise (fun a b _ _ h1 h2 => le_antisymm h1 h2) hs hs'

/-- what happens before the loop -/
lemma carmaProcessAs_loop (hp : 2 ≤ p) {time : List ℝ} {N : ℕ} (hN0 : 0 < N) {t : Fin N → ℝ} (ht : Monotone t)
    (hperm : (List.ofFn t).Perm time) {sigsqr : ℝ} (hs : 0 < sigsqr) {ω : Fin p → ℂ} (h : Admissible ω) {ma : List ℝ} (hl : ma.length ≤ p)
    (hne : ∃ x ∈ ma, x ≠ 0) (st : ℝ → ℝ) (z yy : ℕ → ℝ) :
    let S := carmaSS sigsqr ω (KFp.padMA p ma) (ext0 t) (fun _ => 0)
    yy 0 = st (S.m yy 0 + √(S.v 0) * z 0) →
      Py.carmaProcessAs st time sigsqr ω ma z = (Py.genLoopAs st ω S.b S.V (List.ofFn t) z
        { state := 0, pred := S.V, mean := 0, var := S.v 0, innov := yy 0, y := [yy 0] } (N - 1)).map fun g => (g.y, List.ofFn t) := by
  intro S hy
  have hR := carma_realizes h hs (obsRow_ne_zero h.inj (padMA_length hl) (padMA_ne hne)) (ext0 t) (fun _ => 0) 1
    (fun i hi => by omega)
  have hv0 : KFp.quad S.b S.V = S.v 0 := by
    have := quad_eq (S := S) S.V (S.e2 0)
    have he : S.e2 0 = 0 := by simp [S, carmaSS, expSS]
    rw [he, add_zero] at this
    rw [this, SS.v, he]; rfl
  have hm0 : S.m yy 0 = 0 := by simp [SS.m, SS.x]
  have hy0 : st (0 + √(S.v 0) * z 0) = yy 0 := by rw [hy, hm0]
  simp only [Py.carmaProcessAs]
  rw [if_neg (by omega), jvec_eq h.inj, res_bind_ok, rotate_eq (padMA_length hl), res_bind_ok, py_stateVar_eq h.stable, res_bind_ok,
    sort_mono ht hperm]
  rw [show KFp.quad (obsRow ω (KFp.padMA p ma)) (carmaV sigsqr ω) = S.v 0 from hv0,
    show Py.sqrt (S.v 0) = .ok √(S.v 0) by rw [Py.sqrt, if_neg (not_lt.mpr (hR.pos 0 one_pos).le)], res_bind_ok,
    if_neg (by rw [List.length_ofFn]; omega), hy0, List.length_ofFn]
  have key : ∀ x : Res (Py.Gen p), (x >>= fun g => (pure (g.y, List.ofFn t) : Res (List ℝ × List ℝ))) = x.map fun g => (g.y, List.ofFn t) := by
    intro x; cases x <;> rfl
  exact key _

lemma mono_ext0 {N : ℕ} {t : Fin N → ℝ} (ht : Monotone t) {i j : ℕ} (hij : i ≤ j) (hj : j < N) : ext0 t i ≤ ext0 t j := by
  rw [ext0_of_lt t (show i < N by omega), ext0_of_lt t hj]
  exact ht (by simpa [Fin.le_def] using hij)

/-- first `m` times distinct: the variances are positive -/
lemma gen_pos {N : ℕ} {t : Fin N → ℝ} (ht : Monotone t) {m : ℕ} (hm : m ≤ N)
    (hd : ∀ i, i + 1 < m → ext0 t i ≠ ext0 t (i + 1)) {sigsqr : ℝ} (hs : 0 < sigsqr) {ω : Fin p → ℂ} (h : Admissible ω) {ma : List ℝ} (hl : ma.length ≤ p)
    (hne : ∃ x ∈ ma, x ≠ 0) :
    Realizes (carmaSS sigsqr ω (KFp.padMA p ma) (ext0 t) (fun _ => 0)) (carmaAcf sigsqr ω (KFp.padMA p ma)) (ext0 t) (fun _ => 0) m :=
  carma_realizes h hs (obsRow_ne_zero h.inj (padMA_length hl) (padMA_ne hne)) (ext0 t) (fun _ => 0) m
    (fun i hi => ⟨mono_ext0 ht (by omega) (by omega), Or.inl (lt_of_le_of_ne (mono_ext0 ht (by omega) (by omega)) (hd i hi))⟩)

/-- two equal times: no variance is left at the second -/
lemma gen_zero {N : ℕ} {t : Fin N → ℝ} (ht : Monotone t) {k : ℕ} (hk : k + 1 < N) (hd : ∀ i < k, ext0 t i ≠ ext0 t (i + 1))
    (he : ext0 t k = ext0 t (k + 1)) {sigsqr : ℝ} (hs : 0 < sigsqr) {ω : Fin p → ℂ} (h : Admissible ω) {ma : List ℝ} (hl : ma.length ≤ p)
    (hne : ∃ x ∈ ma, x ≠ 0) : (carmaSS sigsqr ω (KFp.padMA p ma) (ext0 t) (fun _ => 0)).v (k + 1) = 0 := by
  obtain ⟨τ, hτ⟩ := carmaSS_conjSym h sigsqr (KFp.padMA p ma) (ext0 t) (fun _ => 0)
  have hR := gen_pos ht (m := k + 1) (by omega) (fun i hi => hd i (by omega)) hs h hl hne
  exact SS.v_repeat _ hτ (fun a ha b hb => carmaSS_K h sigsqr _ (ext0 t) (fun _ => 0) (k + 2) (fun i hi => mono_ext0 ht (by omega) (by omega)) ha hb)
    he.symm rfl rfl (fun l hl => (hR.pos l hl).ne')

/-- the variance of a step is at most that of the process -/
lemma stepVar_le {S : SS ℂ (Fin p)} {r : ℝ → ℝ} {t : ℕ → ℝ} {N : ℕ} (h : Realizes S r t (fun _ => 0) N) {i : ℕ} (hi : i < N) : S.v i ≤ r 0 := by
  obtain ⟨L, hL, hL2⟩ := sequential_law h
  set k : Fin N := ⟨i, hi⟩
  have hz : ∀ j, j < i → ∀ hj : j < N, (L *ᵥ Pi.single k 1) ⟨j, hj⟩ = 0 := by
    intro j
    induction j using Nat.strong_induction_on with
    | _ j ih =>
      intro hji hj
      rw [hL2 _ ⟨j, hj⟩, Pi.single_eq_of_ne (by simp [k]; omega), mul_zero, add_zero]
      rw [SS.m_congr (y' := fun _ => 0) fun l hl => ?_]
      · rw [S.m_eq_sum]; simp
      · rw [ext0_of_lt _ (by simp at hl; omega)]
        simp only at hl
        exact ih l hl (by omega) (by omega)
  have hkk : L k k = √(S.v i) := by
    have h1 := hL2 (Pi.single k 1) k
    rw [Pi.single_eq_same, mul_one, SS.m_congr (y' := fun _ => 0) fun l hl => ?_] at h1
    · rw [S.m_eq_sum] at h1
      simpa using h1
    · have hl' : l < i := hl
      rw [ext0_of_lt _ (by omega)]
      exact hz l hl' (by omega)
  have hd : ∑ j, L k j * L k j = r 0 := by
    have := congrFun (congrFun hL k) k
    simpa [Matrix.mul_apply, obsCov] using this
  have hle : L k k * L k k ≤ ∑ j, L k j * L k j := Finset.single_le_sum (f := fun j => L k j * L k j) (fun j _ => mul_self_nonneg _) (Finset.mem_univ k)
  rw [hkk, Real.mul_self_sqrt (h.pos i hi).le] at hle
  linarith

lemma toInt_small {x : ℝ} (h : |x| < 1) : Py.toInt x = 0 := by
  obtain ⟨h1, h2⟩ := abs_lt.mp h
  unfold Py.toInt
  split_ifs with h0
  · rw [Int.floor_eq_zero_iff.mpr ⟨h0, h2⟩]; simp
  · have : ⌈x⌉ = 0 := by rw [Int.ceil_eq_iff]; push_cast; constructor <;> linarith
    rw [this]; simp

lemma toInt_int (x : ℝ) : ∃ n : ℤ, Py.toInt x = n := by
  unfold Py.toInt
  split_ifs
  · exact ⟨_, rfl⟩
  · exact ⟨_, rfl⟩

end Verif.Theory
