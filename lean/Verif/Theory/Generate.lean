import Verif.Theory.CarmaSS
import Verif.Model.Py

/-! Helper theory: the Python generators `car1_process` and `carma_process` draw from the exact law of the process. -/

namespace Verif.Theory

open Verif.Model Verif.Spec Finset Matrix

/-! ### CAR(1) -/

/-- coefficients of the draws in the values of a first-order recursion -/
def arL (r s : ℕ → ℝ) : ℕ → ℕ → ℝ
  | 0, j => if j = 0 then s 0 else 0
  | i + 1, j => r i * arL r s i j + if j = i + 1 then s (i + 1) else 0

lemma arL_of_lt (r s : ℕ → ℝ) {i j : ℕ} (h : i < j) : arL r s i j = 0 := by
  induction i with
  | zero => rw [arL, if_neg (by omega)]
  | succ i ih => rw [arL, ih (by omega), if_neg (by omega)]; simp

/-- value `i` of the recursion -/
def arY (r s z : ℕ → ℝ) : ℕ → ℝ
  | 0 => s 0 * z 0
  | i + 1 => r i * arY r s z i + s (i + 1) * z (i + 1)

lemma arY_eq (r s z : ℕ → ℝ) {i n : ℕ} (h : i < n) : arY r s z i = ∑ j ∈ range n, arL r s i j * z j := by
  induction i with
  | zero =>
      rw [arY]
      simp only [arL, ite_mul, zero_mul]
      rw [Finset.sum_ite_eq' (range n) 0 fun j => s 0 * z j, if_pos (by simpa using h)]
  | succ i ih =>
      rw [arY, ih (by omega)]
      simp only [arL, add_mul, ite_mul, zero_mul, Finset.sum_add_distrib]
      rw [Finset.sum_ite_eq' (range n) (i + 1) fun j => s (i + 1) * z j, if_pos (by simpa using h), Finset.mul_sum]
      simp only [mul_assoc]

/-- covariance of the values -/
lemma arL_cov {r s : ℕ → ℝ} {V : ℝ} (h0 : s 0 ^ 2 = V) {n : ℕ} (hs : ∀ i, i + 1 < n → s (i + 1) ^ 2 = V * (1 - r i ^ 2)) :
    ∀ i < n, (∑ j ∈ range n, arL r s i j * arL r s i j = V) ∧
      ∀ k < i, ∑ j ∈ range n, arL r s i j * arL r s k j = V * ∏ l ∈ Ico k i, r l := by
  intro i
  induction i with
  | zero =>
      intro hn
      refine ⟨?_, fun k hk => by omega⟩
      simp only [arL, ite_mul, zero_mul]
      rw [Finset.sum_ite_eq' (range n) 0 fun j => s 0 * if j = 0 then s 0 else 0, if_pos (by simpa using hn), if_pos rfl, ← h0]; ring
  | succ i ih =>
      intro hn
      obtain ⟨h1, h2⟩ := ih (by omega)
      have key : ∀ k, ∑ j ∈ range n, arL r s (i + 1) j * arL r s k j =
          r i * (∑ j ∈ range n, arL r s i j * arL r s k j) + s (i + 1) * arL r s k (i + 1) := by
        intro k
        simp only [arL, add_mul, ite_mul, zero_mul, Finset.sum_add_distrib]
        rw [Finset.sum_ite_eq' (range n) (i + 1) fun j => s (i + 1) * arL r s k j, if_pos (by simpa using hn), Finset.mul_sum]
        simp only [mul_assoc]
      have hle : ∀ k ≤ i, ∑ j ∈ range n, arL r s (i + 1) j * arL r s k j = V * ∏ l ∈ Ico k (i + 1), r l := by
        intro k hk
        rw [key, arL_of_lt r s (by omega : k < i + 1), Finset.prod_Ico_succ_top hk]
        rcases Nat.lt_or_ge k i with h | h
        · rw [h2 k h]; ring
        · obtain rfl : k = i := by omega
          rw [h1]; simp; ring
      refine ⟨?_, fun k hk => hle k (by omega)⟩
      have e : ∑ j ∈ range n, arL r s i j * arL r s (i + 1) j = V * r i := by
        have := hle i le_rfl
        simp only [Nat.Ico_succ_singleton, Finset.prod_singleton] at this
        rw [← this]
        exact Finset.sum_congr rfl fun j _ => mul_comm _ _
      have e2 : arL r s (i + 1) (i + 1) = s (i + 1) := by
        rw [arL, arL_of_lt r s (by omega : i < i + 1), if_pos rfl]; ring
      rw [key, e, e2]
      nlinarith [hs i hn]

lemma ofFn_get {n : ℕ} (t : Fin n → ℝ) {i : ℕ} (h : i < n) : (List.ofFn t)[i]? = some (ext0 t i) := by
  rw [List.getElem?_ofFn, dif_pos h, ext0_of_lt t h]

/-- transition factors and standard deviations of `car1_process` -/
noncomputable def car1R (t : ℕ → ℝ) (tau : ℝ) (i : ℕ) : ℝ := Real.exp (-(t (i + 1) - t i) / tau)

noncomputable def car1S (t : ℕ → ℝ) (V tau : ℝ) : ℕ → ℝ
  | 0 => √V
  | i + 1 => √(V * (1 - car1R t tau i ^ 2))

lemma car1R_le {t : ℕ → ℝ} {tau : ℝ} (htau : 0 < tau) {i : ℕ} (h : t i ≤ t (i + 1)) : 0 ≤ 1 - car1R t tau i ^ 2 := by
  have h1 : car1R t tau i ≤ 1 := by
    rw [car1R, Real.exp_le_one_iff]
    exact div_nonpos_of_nonpos_of_nonneg (by linarith) htau.le
  have h2 : 0 < car1R t tau i := Real.exp_pos _
  nlinarith

lemma car1Loop_eq {n : ℕ} {t : Fin n → ℝ} {V tau : ℝ} (hV : 0 ≤ V) (htau : 0 < tau) (z : ℕ → ℝ) (k : ℕ) (hk : k < n)
    (ht : ∀ i < k, ext0 t i ≤ ext0 t (i + 1)) :
    Py.car1Loop (List.ofFn t) V tau z (√V * z 0) k =
      .ok ((List.range (k + 1)).map (arY (car1R (ext0 t) tau) (car1S (ext0 t) V tau) z)) := by
  induction k with
  | zero => simp [Py.car1Loop, arY, car1S]
  | succ k ih =>
      have hle := ht k (by omega)
      have hnn : 0 ≤ V * (1 - car1R (ext0 t) tau k ^ 2) := mul_nonneg hV (car1R_le htau hle)
      have hy : ((List.range (k + 1)).map (arY (car1R (ext0 t) tau) (car1S (ext0 t) V tau) z))[k]? =
          some (arY (car1R (ext0 t) tau) (car1S (ext0 t) V tau) z k) := by
        rw [List.getElem?_map, List.getElem?_range (by omega)]; rfl
      have hr : Real.exp (-(ext0 t (k + 1) - ext0 t k) / tau) = car1R (ext0 t) tau k := rfl
      rw [Py.car1Loop, ih (by omega) fun i hi => ht i (by omega), res_bind_ok, rd_ok (ofFn_get t hk), res_bind_ok,
        rd_ok (ofFn_get t (by omega : k < n)), res_bind_ok, dv_ok htau.ne', res_bind_ok, hr]
      simp only [Py.sqrt]
      rw [if_neg (not_lt.mpr hnn), res_bind_ok, rd_ok hy, res_bind_ok, List.range_succ (n := k + 1), List.map_append]
      rfl

lemma range_map_ofFn {n : ℕ} (f : ℕ → ℝ) : (List.range n).map f = List.ofFn fun i : Fin n => f i := by
  apply List.ext_getElem
  · simp
  · intro i h1 h2; simp

/-- joint law of `car1_process` -/
lemma car1Process_law {n : ℕ} (hn : 1 ≤ n) {t : Fin n → ℝ} (ht : Monotone t) {sigsqr tau : ℝ} (hs : 0 ≤ sigsqr) (htau : 0 < tau) :
    ∃ L : Matrix (Fin n) (Fin n) ℝ, L * Lᵀ = obsCov (car1Acf sigsqr (1 / tau)) t 0 ∧
      (∀ i j, i < j → L i j = 0) ∧
      ∀ z : ℕ → ℝ, Py.car1Process (List.ofFn t) sigsqr tau z = .ok (List.ofFn (L *ᵥ fun j => z j)) := by
  set V := sigsqr * tau / 2 with hVdef
  have hV : 0 ≤ V := by positivity
  have hmono : ∀ i, i + 1 < n → ext0 t i ≤ ext0 t (i + 1) := fun i hi => by
    rw [ext0_of_lt t (by omega : i < n), ext0_of_lt t hi]
    exact ht (by simp)
  set r := car1R (ext0 t) tau with hr
  set s := car1S (ext0 t) V tau with hsdef
  have hcov := arL_cov (r := r) (s := s) (V := V) (n := n) (by rw [hsdef, car1S, Real.sq_sqrt hV]) (by
    intro i hi
    rw [hsdef, car1S, Real.sq_sqrt (mul_nonneg hV (car1R_le htau (hmono i hi)))])
  have hprod : ∀ k i, k ≤ i → ∏ l ∈ Ico k i, r l = Real.exp (-(ext0 t i - ext0 t k) / tau) := by
    intro k i hki
    induction i, hki using Nat.le_induction with
    | base => simp
    | succ i hi ih =>
        rw [Finset.prod_Ico_succ_top hi, ih, hr, car1R, ← Real.exp_add]
        congr 1; ring
  have hlt : ∀ i k : Fin n, k < i → ∑ j ∈ range n, arL r s i j * arL r s k j = car1Acf sigsqr (1 / tau) |t i - t k| := by
    intro i k h
    rw [(hcov i i.2).2 k h, hprod k i (by exact_mod_cast h.le), car1Acf, ext0_fin, ext0_fin,
      abs_of_nonneg (sub_nonneg.mpr (ht h.le))]
    congr 1
    · rw [hVdef]; field_simp
    · congr 1; ring
  refine ⟨Matrix.of fun i j => arL r s i j, ?_, fun i j h => ?_, fun z => ?_⟩
  · ext i k
    rw [Matrix.mul_apply]
    simp only [Matrix.transpose_apply, Matrix.of_apply, obsCov, Pi.zero_apply, ne_eq, OfNat.ofNat_ne_zero, not_false_eq_true, zero_pow, ite_self, add_zero]
    rw [Fin.sum_univ_eq_sum_range (fun j => arL r s i j * arL r s k j)]
    rcases lt_trichotomy i k with h | rfl | h
    · rw [← abs_neg, neg_sub, ← hlt k i h]
      exact Finset.sum_congr rfl fun j _ => mul_comm _ _
    · rw [(hcov i i.2).1, sub_self, abs_zero, car1Acf, mul_zero, Real.exp_zero, mul_one, hVdef]; field_simp
    · exact hlt i k h
  · simp only [Matrix.of_apply]
    exact arL_of_lt r s (by exact_mod_cast h)
  · have hsq : Py.sqrt V = .ok √V := by rw [Py.sqrt, if_neg (not_lt.mpr hV)]
    simp only [Py.car1Process]
    rw [if_neg (by rw [List.length_ofFn]; omega), ← hVdef, hsq, res_bind_ok, List.length_ofFn,
      car1Loop_eq hV htau z (n - 1) (by omega) fun i hi => hmono i (by omega), Nat.sub_add_cancel hn, range_map_ofFn]
    congr 2
    funext i
    rw [← hr, ← hsdef, arY_eq r s z i.2, Matrix.mulVec, dotProduct]
    simp only [Matrix.of_apply]
    rw [Fin.sum_univ_eq_sum_range (fun j => arL r s i j * z j)]

/-- a step back in time -/
lemma car1Loop_back {n : ℕ} {t : Fin n → ℝ} {V tau : ℝ} (hV : 0 < V) (htau : 0 < tau) (z : ℕ → ℝ) (y0 : ℝ) (hy : y0 = √V * z 0) (m : ℕ)
    (hm : m + 1 < n) (ht : ∀ i < m, ext0 t i ≤ ext0 t (i + 1)) (hb : ext0 t (m + 1) < ext0 t m) (k : ℕ) (hk : m < k) :
    Py.car1Loop (List.ofFn t) V tau z y0 k = .error .nonfinite := by
  induction k, hk using Nat.le_induction with
  | base =>
      have hr : 1 < Real.exp (-(ext0 t (m + 1) - ext0 t m) / tau) := by
        rw [Real.one_lt_exp_iff]; exact div_pos (by linarith) htau
      rw [Py.car1Loop, hy, car1Loop_eq hV.le htau z m (by omega) ht, res_bind_ok, rd_ok (ofFn_get t hm), res_bind_ok,
        rd_ok (ofFn_get t (by omega : m < n)), res_bind_ok, dv_ok htau.ne', res_bind_ok]
      simp only [Py.sqrt]
      have h1 : 1 - Real.exp (-(ext0 t (m + 1) - ext0 t m) / tau) ^ 2 < 0 := by nlinarith
      rw [if_pos (mul_neg_of_pos_of_neg hV h1)]
      rfl
  | succ k hk ih => rw [Py.car1Loop, ih]; rfl

/-! ### CARMA -/

section carma

variable {p : ℕ}

/-- drawing the values one after the other from their conditional laws -/
lemma sequential_law {S : SS ℂ (Fin p)} {r : ℝ → ℝ} {t : ℕ → ℝ} {N : ℕ} (h : Realizes S r t (fun _ => 0) N) :
    ∃ L : Matrix (Fin N) (Fin N) ℝ, L * Lᵀ = obsCov r (fst N t) 0 ∧
      ∀ z : Fin N → ℝ, ∀ i : Fin N, (L *ᵥ z) i = S.m (ext0 (L *ᵥ z)) i + √(S.v i) * z i := by
  obtain ⟨τ, hτ⟩ := h.sym
  have hne := hτ.normalEq N fun l hl => (h.pos l hl).ne'
  have hK := h.Kmat
  have hdet : IsUnit (1 - S.Amat N).det := by rw [hne.det_one_sub]; exact isUnit_one
  set M := 1 - S.Amat N with hM
  set D : Matrix (Fin N) (Fin N) ℝ := diagonal fun i => √(S.v i) with hD
  have hfac := hne.factor
  have hMi : M⁻¹ * M = 1 := Matrix.nonsing_inv_mul _ hdet
  have hMi' : M * M⁻¹ = 1 := Matrix.mul_nonsing_inv _ hdet
  refine ⟨M⁻¹ * D, ?_, fun z i => ?_⟩
  · have hDD : D * Dᵀ = diagonal fun i : Fin N => S.v i := by
      rw [hD, Matrix.diagonal_transpose, Matrix.diagonal_mul_diagonal]
      congr 1
      funext i
      exact Real.mul_self_sqrt (h.pos i i.2).le
    have hzero : (fst N fun _ => (0:ℝ)) = (0 : Fin N → ℝ) := rfl
    rw [← hzero, ← hK, Matrix.transpose_mul, Matrix.mul_assoc, ← Matrix.mul_assoc D, hDD]
    rw [← hM] at hfac
    rw [← show M * S.Kmat N * Mᵀ = diagonal fun i : Fin N => S.v i from hfac]
    have hT : Mᵀ * (M⁻¹)ᵀ = 1 := by rw [← Matrix.transpose_mul, hMi, Matrix.transpose_one]
    rw [Matrix.mul_assoc M, Matrix.mul_assoc M, Matrix.mul_assoc (S.Kmat N), hT, Matrix.mul_one, ← Matrix.mul_assoc, hMi, Matrix.one_mul]
  · set y := (M⁻¹ * D) *ᵥ z with hy
    have e1 : M *ᵥ y = D *ᵥ z := by
      rw [hy, Matrix.mulVec_mulVec, ← Matrix.mul_assoc, hMi', Matrix.one_mul]
    have e2 := congrFun e1 i
    rw [hM, Matrix.sub_mulVec, Matrix.one_mulVec, hD, Matrix.mulVec_diagonal] at e2
    have e3 : (S.Amat N *ᵥ y) i = S.m (ext0 y) i := by
      rw [SS.m_eq_sum, Matrix.mulVec, dotProduct]
      have e4 : ∀ j : Fin N, S.Amat N i j * y j = S.a i j * ext0 y j := fun j => by rw [ext0_fin]; rfl
      simp only [e4]
      rw [Fin.sum_univ_eq_sum_range (fun j => S.a i j * ext0 y j)]
      symm
      apply Finset.sum_subset (fun j hj => Finset.mem_range.mpr (by have := Finset.mem_range.mp hj; omega))
      intro j _ hj
      rw [S.a_of_le (by simpa using hj), zero_mul]
    rw [← e3]
    simp only [Pi.sub_apply] at e2
    linarith

lemma genLoop_eq {S : SS ℂ (Fin p)} {ω : Fin p → ℂ} {time : List ℝ} {t : ℕ → ℝ} {yy z : ℕ → ℝ} (k : ℕ)
    (htime : ∀ i ≤ k, time[i]? = some (t i)) (hrho : ∀ i < k, S.rho i = KFp.rhoOf ω (t (i + 1) - t i)) (he : ∀ i ≤ k, S.e2 i = 0)
    (hv : ∀ i ≤ k, 0 < S.v i) (hy : ∀ i ≤ k, yy i = S.m yy i + √(S.v i) * z i) :
    Py.genLoop ω S.b S.V time z { state := 0, pred := S.V, mean := 0, var := S.v 0, innov := yy 0, y := [yy 0] } k =
      .ok { state := S.x yy k, pred := S.P k, mean := S.m yy k, var := S.v k, innov := yy k - S.m yy k, y := (List.range (k + 1)).map yy } := by
  induction k with
  | zero =>
      have hm0 : S.m yy 0 = 0 := by simp [SS.m, SS.x]
      rw [Py.genLoop, hm0, sub_zero]; rfl
  | succ k ih =>
      have hvk := hv k (by omega)
      rw [Py.genLoop, ih (fun i hi => htime i (by omega)) (fun i hi => hrho i (by omega)) (fun i hi => he i (by omega)) (fun i hi => hv i (by omega))
        (fun i hi => hy i (by omega)), res_bind_ok, rd_ok (htime (k + 1) le_rfl), res_bind_ok, rd_ok (htime k (by omega)), res_bind_ok]
      have hx : (fun i => (S.x yy k i + ((yy k - S.m yy k : ℝ) : ℂ) * S.gainOf (S.P k) (S.v k) i) * S.rho k i) = S.x yy (k+1) := by
        funext i
        simp only [SS.x, SS.m, SS.g]
        exact (mul_comm _ _).trans (by congr 2; exact mul_comm _ _)
      have hP : KFp.timeVar (S.rho k) (KFp.measVar (S.P k) (S.v k) (S.gainOf (S.P k) (S.v k))) S.V = S.P (k+1) := stepP_eq S _ _ _
      have hvar : KFp.quad S.b (S.P (k+1)) = S.v (k+1) := by
        have := quad_eq (S := S) (S.P (k + 1)) (S.e2 (k + 1))
        rw [he (k + 1) le_rfl, add_zero] at this
        rw [this, SS.v, he (k + 1) le_rfl]
      have hmm : (S.b ⬝ᵥ S.x yy (k+1)).re = S.m yy (k+1) := rfl
      simp only [Py.genStep, gain_eq S _ hvk.ne', res_bind_ok, ← hrho k (by omega), hx, hP, hvar, hmm]
      rw [show Py.sqrt (S.v (k + 1)) = .ok √(S.v (k + 1)) by rw [Py.sqrt, if_neg (not_lt.mpr (hv (k + 1) le_rfl).le)], res_bind_ok,
        ← hy (k + 1) le_rfl, List.range_succ (n := k + 1), List.map_append]
      rfl

lemma py_stateVar_eq {ω : Fin p → ℂ} (h : ∀ k, (ω k).re < 0) (σ2 : ℝ) :
    Py.stateVar σ2 ω (fun k => 1 / arDeriv ω k) = .ok (carmaV σ2 ω) := by
  rw [Py.stateVar, if_neg (fun ⟨i, j, h0⟩ => pair_ne_zero h i j h0)]
  congr 1
  ext i j
  simp only [carmaV, Matrix.of_apply]; ring

/-- a list without repetitions, sorted -/
lemma sort_strictMono {time : List ℝ} {N : ℕ} (hN : time.length = N) (h : time.Nodup) :
    ∃ t : Fin N → ℝ, StrictMono t ∧ time.mergeSort (fun a b => decide (a ≤ b)) = List.ofFn t ∧ (List.ofFn t).Perm time := by
  set l := time.mergeSort (fun a b => decide (a ≤ b)) with hl
  have hp : l.Perm time := List.mergeSort_perm _ _
  have hlen : l.length = N := hp.length_eq.trans hN
  have hs : l.Pairwise (fun a b => a ≤ b) := by
    have := List.pairwise_mergeSort (le := fun a b : ℝ => decide (a ≤ b)) (by intro a b c; simpa using le_trans) (by intro a b; simpa using le_total a b) time
    simpa using this
  have hn : l.Nodup := hp.nodup_iff.mpr h
  refine ⟨fun i => l[(i : ℕ)]'(by omega), ?_, ?_, ?_⟩
  · intro i j hij
    have h1 : l[(i : ℕ)]'(by omega) ≤ l[(j : ℕ)]'(by omega) := List.pairwise_iff_getElem.mp hs i j (by omega) (by omega) hij
    refine lt_of_le_of_ne h1 fun he => ?_
    exact hij.ne (Fin.ext ((List.Nodup.getElem_inj_iff hn).mp he))
  · apply List.ext_getElem
    · simp [hlen]
    · intro i h1 h2; simp
  · have : List.ofFn (fun i : Fin N => l[(i : ℕ)]'(by omega)) = l := by
      apply List.ext_getElem
      · simp [hlen]
      · intro i h1 h2; simp
    rw [this]; exact hp

/-- joint law of `carma_process` -/
lemma carmaProcess_law (hp : 2 ≤ p) {time : List ℝ} {N : ℕ} (hN : time.length = N) (hN0 : 0 < N) (hnd : time.Nodup) {sigsqr : ℝ} (hs : 0 < sigsqr) {ω : Fin p → ℂ}
    (h : Admissible ω) {ma : List ℝ} (hl : ma.length ≤ p) (hne : ∃ x ∈ ma, x ≠ 0) :
    ∃ t : Fin N → ℝ, StrictMono t ∧ (List.ofFn t).Perm time ∧
      ∃ L : Matrix (Fin N) (Fin N) ℝ, L * Lᵀ = obsCov (carmaAcf sigsqr ω ma) t 0 ∧
        ∀ z : ℕ → ℝ, Py.carmaProcess time sigsqr ω ma z = .ok (List.ofFn (L *ᵥ fun j => z j), List.ofFn t) := by
  obtain ⟨t, ht, hsort, hperm⟩ := sort_strictMono hN hnd
  have hR := carma_realizes h hs (obsRow_ne_zero h.inj (padMA_length hl) (padMA_ne hne)) (ext0 t) (fun _ => 0) N
    (fun i hi => ⟨(strictMono_ext0 ht i hi).le, Or.inl (strictMono_ext0 ht i hi)⟩)
  set S := carmaSS sigsqr ω (KFp.padMA p ma) (ext0 t) (fun _ => 0) with hS
  obtain ⟨L, hL, hL2⟩ := sequential_law hR
  refine ⟨t, ht, hperm, L, ?_, fun z => ?_⟩
  · rw [hL, fst_ext0, carmaAcf_pad]
  set yy := ext0 (L *ᵥ fun j : Fin N => z j) with hyy
  have hy : ∀ i ≤ N - 1, yy i = S.m yy i + √(S.v i) * z i := by
    intro i hi
    have := hL2 (fun j : Fin N => z j) ⟨i, by omega⟩
    rw [hyy, ext0_of_lt _ (by omega : i < N)]
    exact this
  have hv0 : KFp.quad S.b S.V = S.v 0 := by
    have := quad_eq (S := S) S.V (S.e2 0)
    have he : S.e2 0 = 0 := by simp [hS, carmaSS, expSS]
    rw [he, add_zero] at this
    rw [this, SS.v, he]; rfl
  have hm0 : S.m yy 0 = 0 := by simp [SS.m, SS.x]
  have hy0 : 0 + √(S.v 0) * z 0 = yy 0 := by rw [hy 0 (by omega), hm0]
  simp only [Py.carmaProcess]
  rw [if_neg (by omega), jvec_eq h.inj, res_bind_ok, rotate_eq (padMA_length hl), res_bind_ok, py_stateVar_eq h.stable, res_bind_ok, hsort]
  rw [show KFp.quad (obsRow ω (KFp.padMA p ma)) (carmaV sigsqr ω) = S.v 0 from hv0,
    show Py.sqrt (S.v 0) = .ok √(S.v 0) by rw [Py.sqrt, if_neg (not_lt.mpr (hR.pos 0 hN0).le)], res_bind_ok, if_neg (by rw [List.length_ofFn]; omega), hy0,
    List.length_ofFn]
  have hg := genLoop_eq (S := S) (ω := ω) (time := List.ofFn t) (t := ext0 t) (yy := yy) (z := z) (N - 1)
    (fun i hi => ofFn_get t (by omega)) (fun i hi => rfl) (fun i hi => by simp [hS, carmaSS, expSS]) (fun i hi => hR.pos i (by omega)) hy
  rw [show Py.genLoop ω (obsRow ω (KFp.padMA p ma)) (carmaV sigsqr ω) (List.ofFn t) z
    { state := 0, pred := carmaV sigsqr ω, mean := 0, var := S.v 0, innov := yy 0, y := [yy 0] } (N - 1) = _ from hg, res_bind_ok]
  simp only [pure, Except.pure]
  rw [Nat.sub_add_cancel hN0, range_map_ofFn]
  congr 3
  funext i
  rw [hyy, ext0_fin]

end carma

end Verif.Theory
