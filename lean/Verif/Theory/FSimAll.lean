import Verif.Theory.FSimBack
import Verif.Theory.FSimulate
import Verif.Theory.FPredNew

/-!
`Simulate` of a CAR(1) filter in binary64 arithmetic: all simulated values are finite.
-/

namespace Verif.Theory

open Verif.Model Verif.Spec
open scoped Classical

variable {A : Arith}

/-! ### one prediction -/

theorem spredict_num (hA : IsBinary64 A) {n : ℕ} (n0 : 0 < n) (n1 : n + 1 ≤ 2 ^ 25) {s : FKF1} {i : ℕ} (h : STail A n i s) {x w : ℝ}
    (hin : i ≤ s.time.length) (hf : FKF1.find s.time (.fin x) = .ok i) (hw : s.omega = .fin w)
    (hpre : 0 < i → ∃ t, s.time[i - 1]? = some (.fin t) ∧ t ≤ x ∧ decayTo A w t x ≠ .fin 1) :
    ∃ s' m v, FKF1.predict A s (.fin x) = .ok (s', (.fin m, .fin v)) ∧ F64 v ∧ 0 < v ∧ v ≤ 2 ^ (104 : ℤ) ∧
      |m| ≤ (n + 1 : ℕ) * 2 ^ (400 : ℤ) * (1 + 2 ^ (-26 : ℤ)) + 2 ^ (356 : ℤ) := by
  have hB1 : (1 : ℝ) ≤ (n + 1 : ℕ) * 2 ^ (400 : ℤ) := by
    refine le_trans (one_le_zpow₀ (by norm_num) (by norm_num)) (le_mul_of_one_le_left (by positivity : (0 : ℝ) ≤ 2 ^ (400 : ℤ)) ?_)
    push_cast; linarith [Nat.cast_nonneg (α := ℝ) n]
  have hB2 : ((n + 1 : ℕ) : ℝ) * 2 ^ (400 : ℤ) ≤ 2 ^ (430 : ℤ) := by
    have h2 : ((n + 1 : ℕ) : ℝ) ≤ ((2 ^ 25 : ℕ) : ℝ) := by exact_mod_cast n1
    rw [← pw_mul 30 400 430 (by norm_num)]
    exact mul_le_mul_of_nonneg_right (h2.trans (by norm_num)) (by positivity)
  have hpos := h.fwd.pos
  obtain ⟨s1, s2, e1, e2, d⟩ := siter_num hA n0 n1 h.fwd (k := i - 1) (by omega)
  have ks := d.same
  have h1 := h.same ks
  -- mean and variance given the past
  obtain ⟨m, v, ep, hm, Fv, v0, v1⟩ : ∃ m v, FKF1.predictPast A s2 (.fin x) i = .ok (.fin m, .fin v) ∧ |m| ≤ (n + 1 : ℕ) * 2 ^ (400 : ℤ) ∧ F64 v ∧
      2 ^ (-155 : ℤ) ≤ v ∧ v ≤ 2 ^ (104 : ℤ) := by
    rcases Nat.eq_zero_or_pos i with hi | hi
    · subst hi
      obtain ⟨S, eS, S0, S1⟩ := h1.fwd.stat
      refine ⟨0, S, ?_, by rw [abs_zero]; positivity, fl_f64 hA eS, (pw_le _ _ (by norm_num)).trans S0, S1.trans (pw_le _ _ (by norm_num))⟩
      simp only [FKF1.predictPast, if_true, eS]; rfl
    · rw [Nat.sub_add_cancel hi] at d
      obtain ⟨t, ht, hx, hne⟩ := hpre hi
      exact spast_num hA n0 n1 h.fwd hi hin d ht hx hw hne
  rcases hin.lt_or_eq with hlt | heq
  · obtain ⟨s3, acc, s4, acc', μ, pv, e3, ht3, e4, e5, e6, e7, Fp, p0, p1, hμ⟩ := tfinish_num hA (x := x) h1 (by rw [ks.time]; exact hlt) hm hB1 hB2 v0 v1
    refine ⟨s4, μ, pv, ?_, Fp, p0, p1, hμ⟩
    simp only [FKF1.predict, hf, res_bind_ok, e1, e2, ep]
    rw [if_neg (by rw [ks.time]; omega), e3, res_bind_ok, e4, res_bind_ok, e5, res_bind_ok]
    simp only [e6, e7]
    rfl
  · refine ⟨s2, m, v, ?_, Fv, lt_of_lt_of_le (by positivity) v0, v1, hm.trans ?_⟩
    · simp only [FKF1.predict, hf, res_bind_ok, e1, e2, ep]
      rw [if_pos (by rw [ks.time]; exact heq)]
      rfl
    · have h5 : (0 : ℝ) ≤ 2 ^ (356 : ℤ) := by positivity
      have h6 : (0 : ℝ) ≤ 2 ^ (-26 : ℤ) := by positivity
      generalize ((n + 1 : ℕ) : ℝ) * 2 ^ (400 : ℤ) = B at hB1
      generalize (2 : ℝ) ^ (356 : ℤ) = C at h5
      nlinarith

/-- the draw -/
theorem sdraw_num (hA : IsBinary64 A) {n : ℕ} (n1 : n + 2 ≤ 2 ^ 25) {m v z : ℝ} (v0 : 0 < v) (v1 : v ≤ 2 ^ (104 : ℤ)) (hz : |z| ≤ 2 ^ (100 : ℤ))
    (hm : |m| ≤ (n + 1 : ℕ) * 2 ^ (400 : ℤ) * (1 + 2 ^ (-26 : ℤ)) + 2 ^ (356 : ℤ)) :
    ∃ x, A.add (A.mul (.fin z) (A.sqrt (.fin v))) (.fin m) = .fin x ∧ |x| ≤ (n + 2 : ℕ) * 2 ^ (400 : ℤ) := by
  have hs : √v ≤ 2 ^ (52 : ℤ) := by
    rw [Real.sqrt_le_left (by positivity)]
    refine v1.trans_eq ?_
    norm_num
  obtain ⟨r, er, rr, r0, r1⟩ := rnd_between hA f64_zero (f64_zpow 52 (by omega) (by omega)) (Real.sqrt_nonneg v) hs
  have F152 : F64 (2 ^ (152 : ℤ)) := f64_zpow _ (by omega) (by omega)
  have hzr : |z * r| ≤ 2 ^ (152 : ℤ) := by
    rw [abs_mul, abs_of_nonneg r0, ← pw_mul 100 52 152 (by norm_num)]
    exact mul_le_mul hz r1 r0 (by positivity)
  obtain ⟨q, eq, rq, q0, q1⟩ := rnd_mul hA (a := z) (b := r) (f64_neg F152) F152 (abs_le.mp hzr).1 (abs_le.mp hzr).2
  have FN : F64 ((n + 2 : ℕ) * 2 ^ (400 : ℤ)) := f64_nat_zpow _ _ (by omega) (by omega) (by omega)
  have hqm : |q + m| ≤ (n + 2 : ℕ) * 2 ^ (400 : ℤ) := by
    refine (abs_add_le q m).trans ((add_le_add (abs_le.mpr ⟨q0, q1⟩) hm).trans ?_)
    have hn : ((n + 1 : ℕ) : ℝ) * 2 ^ (-26 : ℤ) ≤ 1 / 2 := by
      have h2 : ((n + 1 : ℕ) : ℝ) ≤ ((2 ^ 25 : ℕ) : ℝ) := by exact_mod_cast (by omega : n + 1 ≤ 2 ^ 25)
      refine (mul_le_mul_of_nonneg_right h2 (by positivity)).trans ?_
      norm_num
    have e4 : (4 : ℝ) * 2 ^ (356 : ℤ) ≤ 2 ^ (400 : ℤ) := by
      rw [← pw_mul 44 356 400 (by norm_num)]
      exact mul_le_mul_of_nonneg_right (by norm_num) (by positivity)
    have e5 : (4 : ℝ) * 2 ^ (152 : ℤ) ≤ 2 ^ (400 : ℤ) := by
      rw [← pw_mul 248 152 400 (by norm_num)]
      refine mul_le_mul_of_nonneg_right ?_ (by positivity)
      exact (by norm_num : (4 : ℝ) ≤ 2 ^ (2 : ℤ)).trans (pw_le _ _ (by norm_num))
    have hQ : (0 : ℝ) < 2 ^ (400 : ℤ) := by positivity
    rw [cast_succ_mul (n + 1)]
    generalize (2 : ℝ) ^ (400 : ℤ) = Q at *
    generalize (2 : ℝ) ^ (356 : ℤ) = C at *
    generalize (2 : ℝ) ^ (152 : ℤ) = D at *
    generalize ((n + 1 : ℕ) : ℝ) = N at *
    generalize (2 : ℝ) ^ (-26 : ℤ) = d at *
    nlinarith
  obtain ⟨x, ex, rx, x0, x1⟩ := rnd_add hA (a := q) (b := m) (f64_neg FN) FN (abs_le.mp hqm).1 (abs_le.mp hqm).2
  exact ⟨x, by rw [hA.sqrt_fin v v0.le, er, eq, ex], abs_le.mpr ⟨x0, x1⟩⟩

/-! ### the object between two steps -/

theorem getD_insertIdx {l : List ℝ} {k : ℕ} (hk : k ≤ l.length) (a : ℝ) (j : ℕ) :
    (l.insertIdx k a).getD j 0 = if j < k then l.getD j 0 else if j = k then a else l.getD (j - 1) 0 := by
  rw [List.getD_eq_getElem?_getD, List.getElem?_insertIdx]
  split_ifs <;> simp_all [List.getD_eq_getElem?_getD]

theorem rho_decay (hA : IsBinary64 A) {w : ℝ} (hw : F64 w) (d : Dbl) (hd : Gap d) :
    A.exp (A.mul (A.mul (.fin (-1)) (.fin w)) d) = A.exp (A.mul d.neg (.fin w)) := by
  have e : A.mul (.fin (-1)) (.fin w) = .fin (-w) := by
    rw [fl_mul, neg_one_mul]; exact hA.id _ (f64_neg hw)
  rw [e]
  congr 1
  rcases hd with rfl | ⟨x, -, rfl⟩
  · show A.fl (Dbl.infTimes (-w)) = A.fl (Dbl.infTimes (-w))
    rfl
  · rw [show (Dbl.fin x).neg = .fin (-x) from rfl, fl_mul, fl_mul]
    congr 1
    ring

theorem diffs_get {T : List ℝ} {d : List Dbl} (h : FKF1.diffs A (T.map .fin) = .ok d) {i : ℕ} (hi : i + 1 < T.length) :
    d[i]? = some (A.sub (.fin (T.getD (i + 1) 0)) (.fin (T.getD i 0))) := by
  unfold FKF1.diffs at h
  split at h
  · cases h
  · cases h
    rw [List.getElem?_zipWith, List.getElem?_tail, List.getElem?_map, List.getElem?_map, List.getElem?_eq_getElem hi,
      List.getElem?_eq_getElem (by omega : i < T.length)]
    simp [List.getD_eq_getElem?_getD, List.getElem?_eq_getElem hi, List.getElem?_eq_getElem (by omega : i < T.length)]

theorem diffs_len {l d : List Dbl} (h : FKF1.diffs A l = .ok d) : d.length = l.length - 1 := by
  unfold FKF1.diffs at h
  split at h
  · cases h
  · cases h
    simp

/-- The object while values are simulated: `R` holds the times asked for so far. -/
structure SimInv (A : Arith) (w : ℝ) (n : ℕ) (ts R : List ℝ) (s : FKF1) (T Y E : List ℝ) : Prop where
  whole : Whole A s
  max : T.length ≤ 2 ^ 24
  time : s.time = T.map .fin
  y : s.y = Y.map .fin
  yerr : s.yerr = E.map .fin
  omega : s.omega = .fin w
  wF : F64 w
  w0 : 0 < w
  stat : ∃ S, A.div s.sigsqr (A.mul (.fin 2) s.omega) = .fin S ∧ 2 ^ (-102 : ℤ) ≤ S ∧ S ≤ 2 ^ (102 : ℤ)
  sorted : T.Pairwise (· ≤ ·)
  mem : ∀ a, a ∈ T ↔ a ∈ ts ∨ a ∈ R
  pts : ∀ i < T.length,
    (|Y.getD i 0| ≤ 2 ^ (100 : ℤ) ∧ ∃ V, A.mul (.fin (E.getD i 0)) (.fin (E.getD i 0)) = .fin V ∧ 2 ^ (-102 : ℤ) ≤ V ∧ V ≤ 2 ^ (102 : ℤ)) ∨
    (T.getD i 0 ∈ R ∧ E.getD i 0 = 0 ∧ |Y.getD i 0| ≤ n * 2 ^ (400 : ℤ) ∧ (0 < i → decayTo A w (T.getD (i - 1) 0) (T.getD i 0) ≠ .fin 1))

variable {w : ℝ} {n : ℕ} {ts R T Y E : List ℝ} {s : FKF1}

theorem SimInv.lenT (h : SimInv A w n ts R s T Y E) : s.time.length = T.length := by rw [h.time, List.length_map]
theorem SimInv.lenY (h : SimInv A w n ts R s T Y E) : Y.length = T.length := by
  have := h.whole.y; rwa [h.y, h.lenT, List.length_map] at this
theorem SimInv.lenE (h : SimInv A w n ts R s T Y E) : E.length = T.length := by
  have := h.whole.yerr; rwa [h.yerr, h.lenT, List.length_map] at this

theorem sorted_getD (h : T.Pairwise (· ≤ ·)) {i j : ℕ} (hij : i ≤ j) (hj : j < T.length) : T.getD i 0 ≤ T.getD j 0 := by
  rcases hij.lt_or_eq with hlt | rfl
  · rw [List.getD_eq_getElem _ _ (by omega), List.getD_eq_getElem _ _ hj]
    exact List.pairwise_iff_getElem.mp h i j (by omega) hj hlt
  · exact le_rfl

theorem SimInv.gap (hA : IsBinary64 A) (h : SimInv A w n ts R s T Y E) : ∀ d ∈ s.dt, Gap d := by
  intro d hd
  obtain ⟨i, hi, rfl⟩ := List.getElem_of_mem hd
  have hl := diffs_len h.whole.dt
  rw [h.lenT] at hl
  have hdt := h.whole.dt
  rw [h.time] at hdt
  have e := diffs_get hdt (i := i) (by omega)
  rw [List.getElem?_eq_getElem hi] at e
  injection e with e
  rw [e]
  exact gap_sub hA (sorted_getD h.sorted (by omega) (by omega))

theorem getElem?_fin {l : List ℝ} {i : ℕ} (h : i < l.length) : (l.map Dbl.fin)[i]? = some (.fin (l.getD i 0)) := by
  rw [List.getElem?_map, List.getElem?_eq_getElem h, List.getD_eq_getElem _ _ h]; rfl

theorem SimInv.tail (hA : IsBinary64 A) (h : SimInv A w n ts R s T Y E) (n0 : 0 < n) {i0 : ℕ} (hR : ∀ i, i0 ≤ i → i < T.length → T.getD i 0 ∉ R) :
    STail A n i0 s := by
  have h2 := h.whole.two
  have lT := h.lenT
  have lY := h.lenY
  have lE := h.lenE
  have hn : (2 : ℝ) ^ (100 : ℤ) ≤ n * 2 ^ (400 : ℤ) := by
    refine (pw_le 100 400 (by norm_num)).trans (le_mul_of_one_le_left (by positivity) ?_)
    exact_mod_cast n0
  refine ⟨⟨by omega, by rw [diffs_len h.whole.dt]; omega, h.whole.mean, h.whole.var, ⟨w, h.omega, h.wF, h.w0⟩, h.stat, h.gap hA, ?_, ?_⟩,
    by rw [lT]; exact h.max, ?_, ?_, ?_⟩
  · intro i hi
    refine ⟨Y.getD i 0, by rw [h.y]; exact getElem?_fin (by omega), ?_⟩
    rcases h.pts i (by omega) with p | p
    · exact p.1.trans hn
    · exact p.2.2.1
  · intro i hi
    rcases h.pts i (by omega) with p | p
    · obtain ⟨V, eV, V0, V1⟩ := p.2
      have pos : (0 : ℝ) < 2 ^ (-102 : ℤ) := by positivity
      exact ⟨E.getD i 0, V, by rw [h.yerr]; exact getElem?_fin (by omega), eV, pos.le.trans V0, V1, fun _ hV => absurd hV (pos.trans_le V0).ne'⟩
    · refine ⟨E.getD i 0, 0, by rw [h.yerr]; exact getElem?_fin (by omega), ?_, le_rfl, by positivity, ?_⟩
      · rw [p.2.1, fl_mul, mul_zero]; exact hA.id 0 f64_zero
      · intro hi0 _ d hd
        have hg := h.gap hA d (List.mem_of_getElem? hd)
        rw [h.omega, rho_decay hA h.wF d hg]
        have hdt := h.whole.dt
        rw [h.time] at hdt
        have e := diffs_get hdt (i := i - 1) (by omega)
        rw [hd, Nat.sub_add_cancel hi0] at e
        injection e with e
        rw [e]
        exact p.2.2.2 hi0
  · intro i hi
    exact ⟨_, by rw [h.time]; exact getElem?_fin (by omega)⟩
  · intro i hi hl
    rcases h.pts i (by omega) with p | p
    · exact ⟨_, by rw [h.y]; exact getElem?_fin (by omega), p.1⟩
    · exact absurd p.1 (hR i hi (by omega))
  · intro i hi hl
    rcases h.pts i (by omega) with p | p
    · obtain ⟨V, r⟩ := p.2
      exact ⟨_, V, by rw [h.yerr]; exact getElem?_fin (by omega), r⟩
    · exact absurd p.1 (hR i hi (by omega))

theorem scan_lt {x : ℝ} {l : List ℝ} {j : ℕ} (hj : j < FKF1.scan (.fin x) (l.map .fin)) : l.getD j 0 < x := by
  induction l generalizing j with
  | nil => simp [FKF1.scan] at hj
  | cons a l ih =>
    rw [List.map_cons, FKF1.scan] at hj
    split at hj
    · rename_i h
      cases j with
      | zero => exact h
      | succ j => exact ih (by omega)
    · omega

theorem scan_ge {x : ℝ} {l : List ℝ} (hs : l.Pairwise (· ≤ ·)) {j : ℕ} (hj : FKF1.scan (.fin x) (l.map .fin) ≤ j) (hl : j < l.length) : x ≤ l.getD j 0 := by
  induction l generalizing j with
  | nil => simp at hl
  | cons a l ih =>
    rw [List.map_cons, FKF1.scan] at hj
    have hp := List.pairwise_cons.mp hs
    split at hj
    · cases j with
      | zero => omega
      | succ j => exact ih hp.2 (by omega) (by simpa using hl)
    · rename_i h
      have ha : x ≤ a := not_lt.mp h
      cases j with
      | zero => exact ha
      | succ j =>
        have hl' : j < l.length := by simpa using hl
        refine ha.trans (hp.1 _ ?_)
        show l.getD j 0 ∈ l
        rw [List.getD_eq_getElem _ _ hl']
        exact List.getElem_mem hl'

theorem scan_len (x : ℝ) (l : List ℝ) : FKF1.scan (.fin x) (l.map .fin) ≤ l.length := by
  have := scan_le (.fin x) (l.map Dbl.fin); rwa [List.length_map] at this

theorem sorted_insert {x : ℝ} (hs : T.Pairwise (· ≤ ·)) : (T.insertIdx (FKF1.scan (.fin x) (T.map .fin)) x).Pairwise (· ≤ ·) := by
  have hk := scan_len x T
  rw [List.pairwise_iff_getElem]
  intro i j hi hj hij
  have lI := List.length_insertIdx_of_le_length hk (a := x)
  rw [lI] at hi hj
  rw [← List.getD_eq_getElem _ 0, ← List.getD_eq_getElem _ 0, getD_insertIdx hk, getD_insertIdx hk]
  split_ifs with c1 c2 c3 c4 c5 c6 <;> first
    | exact sorted_getD hs (by omega) (by omega)
    | exact (scan_lt c1).le
    | exact le_rfl
    | (exfalso; omega)
    | skip
  · exact scan_ge hs (by omega) (by omega)

/-- one simulated value -/
theorem simStep_num (hA : IsBinary64 A) {so : List ℝ} (h : SimInv A w n ts R s T Y E) (n0 : 0 < n) (n1 : n + 2 ≤ 2 ^ 25) (hmax : T.length + 1 ≤ 2 ^ 24) {x z : ℝ}
    (hz : |z| ≤ 2 ^ (100 : ℤ)) (hR : ∀ a ∈ R, a < x) (hso : ∀ a ∈ so, x < a)
    (hsp : ∀ t ∈ ts ++ (R ++ x :: so), t < x → (∀ u ∈ ts ++ (R ++ x :: so), ¬ (t < u ∧ u < x)) → decayTo A w t x ≠ .fin 1) :
    ∃ s' v T' Y' E', FKF1.simStep A s (.fin x) (.fin z) = .ok (s', .fin v) ∧ |v| ≤ (n + 2 : ℕ) * 2 ^ (400 : ℤ) ∧ T'.length = T.length + 1 ∧
      SimInv A w (n + 2) ts (x :: R) s' T' Y' E' := by
  obtain ⟨k, hk⟩ : ∃ k, k = FKF1.scan (.fin x) (T.map .fin) := ⟨_, rfl⟩
  have hkl : k ≤ T.length := hk ▸ scan_len x T
  have lY := h.lenY
  have lE := h.lenE
  have h2 := h.whole.two
  rw [h.lenT] at h2
  have hlt : ∀ j < k, T.getD j 0 < x := fun j hj => scan_lt (hk ▸ hj)
  have hge : ∀ j, k ≤ j → j < T.length → x ≤ T.getD j 0 := fun j hj => scan_ge h.sorted (hk ▸ hj)
  have hnR : ∀ i, k ≤ i → i < T.length → T.getD i 0 ∉ R := fun i h1 h2 h3 => absurd (hR _ h3) (not_lt.mpr (hge i h1 h2))
  have ht := h.tail hA n0 hnR
  have hdec : 0 < k → decayTo A w (T.getD (k - 1) 0) x ≠ .fin 1 := by
    intro k0
    have m1 : T.getD (k - 1) 0 ∈ T := by
      rw [List.getD_eq_getElem _ _ (by omega)]; exact List.getElem_mem _
    refine hsp _ ?_ (hlt _ (by omega)) ?_
    · rcases (h.mem _).mp m1 with h1 | h1
      · exact List.mem_append_left _ h1
      · exact List.mem_append_right _ (List.mem_append_left _ h1)
    · intro u hu ⟨u1, u2⟩
      have hT : u ∈ T → False := by
        intro hu
        obtain ⟨j, hj, rfl⟩ := List.getElem_of_mem hu
        rw [← List.getD_eq_getElem _ 0] at u1 u2
        rcases Nat.lt_or_ge j k with hjk | hjk
        · exact absurd u1 (not_lt.mpr (sorted_getD h.sorted (by omega) (by omega)))
        · exact absurd u2 (not_lt.mpr (hge j hjk hj))
      rcases List.mem_append.mp hu with hu | hu
      · exact hT ((h.mem _).mpr (.inl hu))
      · rcases List.mem_append.mp hu with hu | hu
        · exact hT ((h.mem _).mpr (.inr hu))
        · rcases List.mem_cons.mp hu with rfl | hu
          · exact lt_irrefl _ u2
          · exact absurd u2 (not_lt.mpr (hso _ hu).le)
  have hf : FKF1.find s.time (.fin x) = .ok k := by rw [find_some h.whole, h.time, hk]
  obtain ⟨sp, m, v, ep, Fv, v0, v1, hm⟩ := spredict_num hA n0 (by omega) ht (by rw [h.lenT]; exact hkl) hf h.omega (fun k0 =>
    ⟨_, by rw [h.time]; exact getElem?_fin (by omega), (hlt _ (by omega)).le, hdec k0⟩)
  obtain ⟨xv, ex, hx⟩ := sdraw_num hA n1 v0 v1 hz hm
  obtain ⟨s1, s', mu, v', x', p1, p2, p3, w1, t1, y1, r1, q1, o1⟩ := simStep_some h.whole (.fin x) (.fin z)
  rw [ep] at p1
  injection p1 with p1
  injection p1 with _ p1
  injection p1 with p1 p1'
  subst p1 p1'
  rw [ex] at p3
  subst p3
  have hsc : FKF1.scan (.fin x) s.time = k := by rw [h.time, hk]
  rw [hsc] at t1 y1 r1
  have lT' := List.length_insertIdx_of_le_length hkl (a := x)
  refine ⟨s', xv, T.insertIdx k x, Y.insertIdx k xv, E.insertIdx k 0, p2, hx, lT', ?_⟩
  refine ⟨w1, by rw [lT']; exact hmax, by rw [t1, h.time, List.map_insertIdx], by rw [y1, h.y, List.map_insertIdx], by rw [r1, h.yerr, List.map_insertIdx],
    o1.trans h.omega, h.wF, h.w0, by rw [q1, o1]; exact h.stat, by rw [hk]; exact sorted_insert h.sorted, ?_, ?_⟩
  · intro a
    rw [List.mem_insertIdx hkl, h.mem, List.mem_cons]
    tauto
  · intro j hj
    rw [lT'] at hj
    rw [getD_insertIdx hkl, getD_insertIdx (by rw [lY]; exact hkl), getD_insertIdx (by rw [lE]; exact hkl), getD_insertIdx hkl]
    rcases lt_trichotomy j k with hjk | hjk | hjk
    · rw [if_pos hjk, if_pos hjk, if_pos hjk]
      rcases h.pts j (by omega) with p | p
      · exact .inl p
      · refine .inr ⟨List.mem_cons_of_mem _ p.1, p.2.1, p.2.2.1.trans ?_, fun j0 => ?_⟩
        · refine mul_le_mul_of_nonneg_right ?_ (by positivity)
          push_cast; linarith
        · rw [if_pos (by omega)]
          exact p.2.2.2 j0
    · subst hjk
      rw [if_neg (lt_irrefl _), if_pos rfl, if_neg (lt_irrefl _), if_pos rfl, if_neg (lt_irrefl _), if_pos rfl]
      refine .inr ⟨List.mem_cons_self, rfl, hx, fun j0 => ?_⟩
      rw [if_pos (by omega)]
      exact hdec j0
    · rw [if_neg (by omega), if_neg (by omega), if_neg (by omega), if_neg (by omega), if_neg (by omega), if_neg (by omega)]
      rcases h.pts (j - 1) (by omega) with p | p
      · exact .inl p
      · exact absurd p.1 (hnR _ (by omega) (by omega))

/-- all simulated values -/
theorem simLoop_num (hA : IsBinary64 A) {so : List ℝ} (hso : so.Pairwise (· < ·)) {R : List ℝ} (h : SimInv A w n ts R s T Y E) (n0 : 0 < n)
    (n1 : n + 2 * so.length ≤ 2 ^ 25) (hmax : T.length + so.length ≤ 2 ^ 24) {zs : ℕ → ℝ} (hz : ∀ k < so.length, |zs k| ≤ 2 ^ (100 : ℤ))
    (hR : ∀ a ∈ R, ∀ x ∈ so, a < x)
    (hsp : ∀ x ∈ so, ∀ t ∈ ts ++ (R ++ so), t < x → (∀ u ∈ ts ++ (R ++ so), ¬ (t < u ∧ u < x)) → decayTo A w t x ≠ .fin 1) :
    ∃ (s' : FKF1) (xs : List ℝ), FKF1.simLoop A s (so.map .fin) (fun k => .fin (zs k)) = .ok (s', xs.map .fin) ∧ xs.length = so.length ∧
      ∀ v ∈ xs, |v| ≤ ((n + 2 * so.length : ℕ) : ℝ) * 2 ^ (400 : ℤ) := by
  induction so generalizing n R s T Y E zs with
  | nil => exact ⟨s, [], rfl, rfl, by simp⟩
  | cons x so ih =>
    have hp := List.pairwise_cons.mp hso
    have hl : (x :: so).length = so.length + 1 := rfl
    rw [hl] at n1 hmax
    obtain ⟨s1, v, T1, Y1, E1, e1, hv, l1, h1⟩ := simStep_num hA h n0 (by omega) (by omega) (hz 0 (by simp)) (fun a ha => hR a ha x (by simp)) hp.1
      (hsp x (by simp))
    have hmem : ∀ u, u ∈ ts ++ ((x :: R) ++ so) ↔ u ∈ ts ++ (R ++ x :: so) := by
      intro u
      simp only [List.mem_append, List.mem_cons]
      tauto
    obtain ⟨s2, xs, e2, l2, h2⟩ := ih hp.2 h1 (by omega) (by omega) (by omega) (zs := fun k => zs (k + 1)) (fun k hk => hz (k + 1) (by rw [hl]; omega)) (by
        intro a ha y hy
        rcases List.mem_cons.mp ha with rfl | ha
        · exact hp.1 y hy
        · exact hR a ha y (List.mem_cons_of_mem _ hy)) (by
        intro y hy t ht hty hu
        refine hsp y (List.mem_cons_of_mem _ hy) t ((hmem t).mp ht) hty fun u hu' => hu u ((hmem u).mpr hu'))
    refine ⟨s2, v :: xs, ?_, by simp [l2], ?_⟩
    · rw [List.map_cons, FKF1.simLoop, e1, res_bind_ok]
      dsimp only
      rw [e2, res_bind_ok]
      rfl
    · intro a ha
      have hmono : ((n + 2 + 2 * so.length : ℕ) : ℝ) = (n + 2 * (x :: so).length : ℕ) := by rw [hl]; congr 1; ring
      rcases List.mem_cons.mp ha with rfl | ha
      · refine hv.trans (mul_le_mul_of_nonneg_right ?_ (by positivity))
        rw [← hmono]
        exact_mod_cast (by omega : n + 2 ≤ n + 2 + 2 * so.length)
      · rw [← hmono]
        exact h2 a ha

end Verif.Theory
