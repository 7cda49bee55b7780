import Verif.Theory.Faults
import Verif.Spec.Carma

/-!
C45: faults of the filters. Nothing is assumed about the object unless stated.
-/

namespace Verif.Props

open Verif.Model Verif.Spec Verif.Theory

variable {p : ℕ}

/-! ### construction -/

lemma init_short (srt : List ℝ → List ℕ) {b : KFBase} (h : b.time.length < 2) : b.init srt = .error .bounds := by
  simp only [KFBase.init, initSort, diffs, if_pos h]; rfl

/-- **C45, too few points.** Constructing a filter on fewer than two times is a bounds error. -/
theorem C45_few_points (srt : List ℝ → List ℕ) (time y yerr : List ℝ) (h : time.length < 2) (sigsqr omega : ℝ) (om : Fin p → ℂ) (ma : List ℝ) :
    KF1.new srt time y yerr sigsqr omega = .error .bounds ∧ KF1.newData srt time y yerr = .error .bounds ∧
      KFp.new srt time y yerr sigsqr om ma = .error .bounds ∧ KFp.newData p srt time y yerr = .error .bounds := by
  have h' : ∀ s, (KFBase.raw time y yerr s).init srt = .error .bounds := fun s => init_short srt h
  refine ⟨?_, ?_, ?_, ?_⟩ <;> simp only [KF1.newData, KF1.new, KFp.new, KFp.newData, h'] <;> rfl

/-- a checked gather fails if some index is out of range -/
lemma gather_short {l : List ℝ} {idx : List ℕ} (h : ∃ i ∈ idx, l.length ≤ i) : gather l idx = .error .bounds := by
  unfold gather
  induction idx with
  | nil => simp at h
  | cons a idx ih =>
      rw [List.mapM_cons]
      by_cases ha : l.length ≤ a
      · have : rd l a = .error .bounds := by simp [rd, List.getElem?_eq_none ha]
        rw [this]; rfl
      · have : rd l a = .ok (l[a]'(by omega)) := by simp [rd, List.getElem?_eq_getElem (by omega : a < l.length)]
        rw [this, res_bind_ok, ih (by
          obtain ⟨i, hi, hi'⟩ := h
          rcases List.mem_cons.mp hi with rfl | hi
          · omega
          · exact ⟨i, hi, hi'⟩)]
        rfl

/-- a checked gather with good indices returns -/
lemma gather_long {l : List ℝ} {idx : List ℕ} (h : ∀ i ∈ idx, i < l.length) : ∃ l', gather l idx = .ok l' ∧ l'.length = idx.length := by
  unfold gather
  induction idx with
  | nil => exact ⟨[], rfl, rfl⟩
  | cons a idx ih =>
      obtain ⟨l', h1, h2⟩ := ih fun i hi => h i (List.mem_cons_of_mem _ hi)
      have ha : a < l.length := h a List.mem_cons_self
      have : rd l a = .ok (l[a]'ha) := by simp [rd, List.getElem?_eq_getElem ha]
      rw [List.mapM_cons, this, res_bind_ok, h1]
      exact ⟨_, rfl, by simp [h2]⟩

lemma init_unsorted {srt : List ℝ → List ℕ} (hs : IsSortIndex srt) {b : KFBase} (hn : ∃ i, i + 1 < b.time.length ∧ b.time.getD (i + 1) 0 < b.time.getD i 0)
    (h : b.y.length < b.time.length ∨ b.yerr.length < b.time.length) : b.init srt = .error .bounds := by
  obtain ⟨i, hi, hlt⟩ := hn
  have h2 : ¬ b.time.length < 2 := by omega
  have hneg : ∃ d ∈ List.zipWith (fun b a => b - a) b.time.tail b.time, d < 0 := by
    refine ⟨b.time.getD (i + 1) 0 - b.time.getD i 0, ?_, by linarith⟩
    rw [List.mem_iff_getElem?]
    refine ⟨i, ?_⟩
    rw [List.getElem?_zipWith]
    simp [hi, (by omega : i < b.time.length)]
  have hp := (hs b.time).1
  have hmem : ∀ k, k < b.time.length → k ∈ srt b.time := fun k hk => hp.mem_iff.mpr (by simpa using hk)
  have hmem' : ∀ k ∈ srt b.time, k < b.time.length := fun k hk => by simpa using hp.mem_iff.mp hk
  simp only [KFBase.init, initSort, diffs, if_neg h2, res_bind_ok, if_pos hneg]
  obtain ⟨t', e1, -⟩ := gather_long hmem'
  rw [e1, res_bind_ok]
  by_cases hy : b.y.length < b.time.length
  · rw [gather_short ⟨b.y.length, hmem _ hy, le_rfl⟩]; rfl
  · obtain ⟨y', e2, -⟩ := gather_long (l := b.y) (idx := srt b.time) fun k hk => (hmem' k hk).trans_le (not_lt.mp hy)
    rw [e2, res_bind_ok, gather_short ⟨b.yerr.length, hmem _ (h.resolve_left hy), le_rfl⟩]; rfl

/-- **C45, short vectors, unsorted times.** If some time is smaller than its predecessor and the values or the errors are fewer than the times,
construction is a bounds error. -/
theorem C45_unsorted_short {srt : List ℝ → List ℕ} (hs : IsSortIndex srt) (time y yerr : List ℝ)
    (hn : ∃ i, i + 1 < time.length ∧ time.getD (i + 1) 0 < time.getD i 0)
    (h : y.length < time.length ∨ yerr.length < time.length) (sigsqr omega : ℝ) (om : Fin p → ℂ) (ma : List ℝ) :
    KF1.new srt time y yerr sigsqr omega = .error .bounds ∧ KFp.new srt time y yerr sigsqr om ma = .error .bounds := by
  have h' : ∀ s, (KFBase.raw time y yerr s).init srt = .error .bounds := fun s => init_unsorted hs hn h
  refine ⟨?_, ?_⟩ <;> simp only [KF1.new, KFp.new, h'] <;> rfl

/-! ### `Filter()` on arbitrary objects -/

/-- **C45, CAR(1), what a return implies.** Whatever the object, if `Filter()` returns then the decay rate is not zero, the result vectors, the errors
and the time differences are long enough for the number of times, and the values are at most one short.
Missing from the full statement "mismatched lengths end in a fault": vectors that are too long, and values one short, are not noticed
(`C45_mismatch_unnoticed`); an object given fewer than two times through `SetTime` is not noticed (`C45_set_time_unnoticed`). -/
theorem C45_car1_filter_needs_partial {s s' : KF1} (h : Kalman.filter s = .ok s') :
    s.omega ≠ 0 ∧ s.b.time.length ≤ s.b.mean.length ∧ s.b.time.length ≤ s.b.var.length ∧ s.b.time.length ≤ s.b.yerr.length ∧
      s.b.time.length ≤ s.b.dt.length + 1 ∧ s.b.time.length ≤ s.b.y.length + 1 ∧
      s'.b.mean.length = s.b.mean.length ∧ s'.b.var.length = s.b.var.length := by
  obtain ⟨s1, h1, h⟩ := bind_ok_inv h
  have hr := KF1.reset_used h1
  have ht : (Kalman.base s1).time.length = s.b.time.length := congrArg List.length hr.1.same.time
  rw [ht] at h
  obtain ⟨u, -, hy⟩ := KF1.iter_used h1 _ h
  have := u.m; have := u.v; have := u.e; have := u.dt
  exact ⟨hr.2.2, by omega, by omega, by omega, by omega, by omega, u.mean, u.var⟩

/-- **C45, CAR(1), faults.** Whatever the object, if `Filter()` fails it is a failed bounds check or a division by zero; never undefined
behaviour. -/
theorem C45_car1_filter_faults {s : KF1} {e : Fault} (h : Kalman.filter s = .error e) : e = .bounds ∨ e = .nonfinite :=
  KF1.filter_only s e h

/-- **C45, CARMA, what a return implies.** Whatever the object, if `Filter()` returns then the order is at least 2, the roots are distinct and no
two of them (nor one and itself) are mirror images in the imaginary axis, there are `p` moving average coefficients, and the vectors are long
enough for the number of times. The gaps of the full statement are those of `C45_car1_filter_needs_partial`, except that here values one short
are noticed. -/
theorem C45_carma_filter_needs_partial {s s' : KFp p} (h : Kalman.filter s = .ok s') :
    2 ≤ p ∧ Function.Injective s.omega ∧ (∀ i j, s.omega i + star (s.omega j) ≠ 0) ∧ s.ma.length = p ∧
      s.b.time.length ≤ s.b.mean.length ∧ s.b.time.length ≤ s.b.var.length ∧ s.b.time.length ≤ s.b.yerr.length ∧
      s.b.time.length ≤ s.b.dt.length + 1 ∧ s.b.time.length ≤ s.b.y.length := by
  obtain ⟨s1, h1, h⟩ := bind_ok_inv h
  obtain ⟨u0, -, r1, r2, r3, -, r4⟩ := KFp.reset_used h1
  have ht : (Kalman.base s1).time.length = s.b.time.length := congrArg List.length u0.same.time
  rw [ht] at h
  obtain ⟨u, hy⟩ := KFp.iter_used h1 _ h
  have := u.m; have := u.v; have := u.e; have := u.dt
  exact ⟨r1, r2, r4, r3, by omega, by omega, by omega, by omega, by omega⟩

/-- **C45, CARMA, faults.** Whatever the object, once its roots have been set: if `Filter()` fails it is a failed bounds check, the exception of
the singular linear system, or a division by zero; never undefined behaviour. -/
theorem C45_carma_filter_faults {s : KFp p} (hp : s.pset = true) {e : Fault} (h : Kalman.filter s = .error e) :
    e = .bounds ∨ e = .runtime ∨ e = .nonfinite :=
  KFp.filter_only s hp e h

/-- **C45, CARMA, order 1 and repeated roots.** -/
theorem C45_carma_bad_order {s : KFp p} (hps : s.pset = true) : (p < 2 → Kalman.filter s = .error .bounds) ∧
    (2 ≤ p → ¬ Function.Injective s.omega → Kalman.filter s = .error .runtime) := by
  refine ⟨fun hp => ?_, fun hp hi => KFp.filter_runtime s hps hp hi⟩
  simp only [Kalman.filter, Kalman.reset, KFp.reset, hps, Bool.true_eq_false, if_false, if_pos hp]
  rfl

/-- **C45, before `SetOmega`.** `Filter()` on an object built from data only reads the order before it has been set. -/
theorem C45_carma_unset_order {s : KFp p} (hps : s.pset = false) : Kalman.filter s = .error .ub := by
  simp only [Kalman.filter, Kalman.reset, KFp.reset, hps, if_true]
  rfl

/-! ### no fault under the preconditions -/

/-- **C45, CAR(1), exactly when it fails.** For strictly increasing times, `0 ≤ sigsqr` and `0 < omega`, construction succeeds and `Filter()` returns
unless `sigsqr = 0` and one of the measurement errors, other than the last, is zero. -/
theorem C45_car1_filter_iff (srt : List ℝ → List ℕ) {n : ℕ} (hn : 2 ≤ n) {t : Fin n → ℝ} (ht : StrictMono t) (y e : Fin n → ℝ)
    {sigsqr omega : ℝ} (hs : 0 ≤ sigsqr) (ho : 0 < omega) :
    ∃ s, KF1.new srt (List.ofFn t) (List.ofFn y) (List.ofFn e) sigsqr omega = .ok s ∧
      ((∃ s', Kalman.filter s = .ok s') ↔ ¬ (sigsqr = 0 ∧ ∃ i : Fin n, (i : ℕ) + 1 < n ∧ e i = 0)) ∧
      (sigsqr = 0 → (∃ i : Fin n, (i : ℕ) + 1 < n ∧ e i = 0) → Kalman.filter s = .error .nonfinite) := by
  obtain ⟨s, h1, h2⟩ := KF1.new_inv srt hn ht y e sigsqr omega
  obtain ⟨H, rfl, rfl⟩ := h2
  have key : ∀ i < n, _ := fun i hi => car1_v_zero_iff hs ho (ext0 t) (ext0 e) n (incr_of_strictMono ht) hi
  have bad : s.b.sigsqr = 0 → (∃ i : Fin n, (i : ℕ) + 1 < n ∧ e i = 0) → Kalman.filter s = .error .nonfinite := by
    rintro h0 ⟨i, hi, hi'⟩
    refine KF1.filter_nonfinite s H.feeds ho.ne' ⟨i, by omega, ((key i i.2).2).mpr ⟨h0, ?_⟩⟩
    rw [ext0_of_lt e i.2]; exact hi'
  refine ⟨s, h1, ⟨?_, ?_⟩, bad⟩
  · rintro ⟨s', hs'⟩ ⟨h0, hi⟩
    rw [bad h0 hi] at hs'; cases hs'
  · intro hno
    obtain ⟨s', h3, -⟩ := KF1.filter_ok s H.feeds (by omega) ho.ne' fun j hj h0 => by
      obtain ⟨k1, k2⟩ := ((key j (by omega)).2).mp h0
      refine hno ⟨k1, ⟨j, by omega⟩, by simp; omega, ?_⟩
      rwa [ext0_of_lt e (by omega : j < n)] at k2
    exact ⟨s', h3⟩

/-- **C45, CARMA, exactly when it fails.** The same for admissible roots and at most `p` moving average coefficients, not all zero; with more than `p`
coefficients `Filter()` is a bounds error. -/
theorem C45_carma_filter_iff (srt : List ℝ → List ℕ) {n : ℕ} (hn : 2 ≤ n) {t : Fin n → ℝ} (ht : StrictMono t) (y e : Fin n → ℝ) (hp : 2 ≤ p)
    {sigsqr : ℝ} (hs : 0 ≤ sigsqr) {omega : Fin p → ℂ} (ho : Admissible omega) {ma : List ℝ} :
    ∃ s, KFp.new srt (List.ofFn t) (List.ofFn y) (List.ofFn e) sigsqr omega ma = .ok s ∧
      (ma.length ≤ p → (∃ x ∈ ma, x ≠ 0) →
        ((∃ s', Kalman.filter s = .ok s') ↔ ¬ (sigsqr = 0 ∧ ∃ i : Fin n, (i : ℕ) + 1 < n ∧ e i = 0)) ∧
        (sigsqr = 0 → (∃ i : Fin n, (i : ℕ) + 1 < n ∧ e i = 0) → Kalman.filter s = .error .nonfinite)) ∧
      (p < ma.length → Kalman.filter s = .error .bounds) := by
  obtain ⟨s, h1, h2⟩ := KFp.new_inv srt hn ht y e sigsqr omega ma
  refine ⟨s, h1, fun hl hne => ?_, fun hl => ?_⟩
  · have hR := fun t' e' => h2.ready hp ho (padMA_length hl) t' e'
    have key : ∀ i < n, _ := fun i hi => carma_v_zero_iff ho hs (obsRow_ne_zero ho.inj (padMA_length hl) (padMA_ne hne)) (ext0 t) (ext0 e) n
      (incr_of_strictMono ht) hi
    have bad : sigsqr = 0 → (∃ i : Fin n, (i : ℕ) + 1 < n ∧ e i = 0) → Kalman.filter s = .error .nonfinite := by
      rintro h0 ⟨i, hi, hi'⟩
      refine KFp.filter_nonfinite s h2.holds.feeds h2.om (hR _ _) ⟨i, by omega, ((key i i.2).2).mpr ⟨h0, ?_⟩⟩
      rw [ext0_of_lt e i.2]; exact hi'
    refine ⟨⟨?_, ?_⟩, bad⟩
    · rintro ⟨s', hs'⟩ ⟨h0, hi⟩
      rw [bad h0 hi] at hs'; cases hs'
    · intro hno
      obtain ⟨s', h3, -⟩ := KFp.filter_ok s h2.holds.feeds (by omega) h2.om (hR _ _) fun j hj h0 => by
        obtain ⟨k1, k2⟩ := ((key j (by omega)).2).mp h0
        refine hno ⟨k1, ⟨j, by omega⟩, by simp; omega, ?_⟩
        rwa [ext0_of_lt e (by omega : j < n)] at k2
      exact ⟨s', h3⟩
  · have hlen : s.ma.length ≠ p := by
      rw [h2.ma, KFp.padMA]; simp; omega
    have hd : (KFp.eigenMat s.omega).det ≠ 0 := eigenMat_det_ne_zero.mpr (by rw [h2.om]; exact ho.inj)
    simp only [Kalman.filter, Kalman.reset, KFp.reset, h2.pset, Bool.true_eq_false, if_false, if_neg (not_lt.mpr hp), KFp.jvec, if_neg hd,
      res_bind_ok, KFp.rotate, if_neg hlen]
    rfl

/-! ### mismatches that are not noticed -/

lemma two_point_init (srt : List ℝ → List ℕ) (y e : List ℝ) (σ2 : ℝ) :
    (KFBase.raw [0, 1] y e σ2).init srt = .ok { KFBase.raw [0, 1] y e σ2 with dt := [1], mean := [0, 0], var := [0, 0] } := by
  have h := init_sorted srt (KFBase.raw [0, 1] y e σ2) (n := 2) le_rfl (t := fun i => i) (by simp [KFBase.raw, List.range_succ])
    (fun i _ => by simp)
  rw [h]
  simp [KFBase.raw, List.range_succ, List.replicate]

/-- **C45 fails for mismatched lengths.** Two times with three values, or with one value, pass the constructor and `Filter()` of the CAR(1)
class without a fault; so do three measurement errors. -/
theorem C45_mismatch_unnoticed (srt : List ℝ → List ℕ) :
    (∃ s, (KF1.new srt [0, 1] [1, 2, 3] [1, 1] 1 1 >>= Kalman.filter) = .ok s) ∧
    (∃ s, (KF1.new srt [0, 1] [1] [1, 1] 1 1 >>= Kalman.filter) = .ok s) ∧
    (∃ s, (KF1.new srt [0, 1] [1, 2] [1, 1, 1] 1 1 >>= Kalman.filter) = .ok s) := by
  have key : ∀ y e : List ℝ, y[0]? = some 1 → e[0]? = some 1 → e[1]? = some 1 → ∃ s, (KF1.new srt [0, 1] y e 1 1 >>= Kalman.filter) = .ok s := by
    intro y e hy he he'
    rw [KF1.new, two_point_init]
    simp only [res_bind_ok, res_pure, Kalman.filter, Kalman.reset, Kalman.update, Kalman.base, KF1.reset, wr, rd, KFBase.raw, he, dv]
    norm_num
    simp only [iter, res_bind_ok, KF1.update, prevIdx, wr, rd, he', dv]
    norm_num
    simp only [he, hy]
    exact ⟨_, rfl⟩
  exact ⟨key _ _ rfl rfl rfl, key _ _ rfl rfl rfl, key _ _ rfl rfl rfl⟩

/-- **C45 fails after `SetTime`.** The setters do not check lengths: an object whose times have been replaced by an empty vector is filtered
without a fault, and the results keep their old size. -/
theorem C45_set_time_unnoticed (srt : List ℝ → List ℕ) : ∃ s s', KF1.new srt [0, 1] [1, 2] [1, 1] 1 1 = .ok s ∧
    Kalman.filter { s with b := s.b.setTime [] } = .ok s' ∧ s'.b.mean.length = 2 := by
  have h1 : KF1.new srt [0, 1] [1, 2] [1, 1] 1 1 = .ok ⟨{ KFBase.raw [0, 1] [1, 2] [1, 1] 1 with dt := [1], mean := [0, 0], var := [0, 0] }, 1⟩ := by
    rw [KF1.new, two_point_init]; rfl
  have h2 : ∃ s', Kalman.filter (⟨({ KFBase.raw [0, 1] [1, 2] [1, 1] 1 with dt := [1], mean := [0, 0], var := [0, 0] } : KFBase).setTime [], 1⟩ : KF1) =
      .ok s' := by
    simp only [KFBase.setTime, Kalman.filter, Kalman.reset, Kalman.update, Kalman.base, KF1.reset, KFBase.raw, wr, rd, dv]
    norm_num
    exact ⟨_, rfl⟩
  obtain ⟨s', h2⟩ := h2
  refine ⟨_, s', h1, h2, ?_⟩
  have := (C45_car1_filter_needs_partial h2).2.2.2.2.2.2.1
  rw [this]; rfl

/-! ### examples -/

/-- Unsorted times with too few values. -/
example : ∃ i, i + 1 < [(2 : ℝ), 1, 3].length ∧ [(2 : ℝ), 1, 3].getD (i + 1) 0 < [(2 : ℝ), 1, 3].getD i 0 := ⟨0, by simp, by simp⟩

/-- An object on which `Filter()` returns, and one on which it fails. -/
example (srt : List ℝ → List ℕ) : (∃ s s', KF1.new srt [0, 1] [1, 2] [1, 1] 1 1 = .ok s ∧ Kalman.filter s = .ok s') ∧
    ∃ s e, KF1.new srt [0, 1] [1, 2] [1, 1] 1 0 = .ok s ∧ Kalman.filter s = .error e := by
  refine ⟨?_, ?_⟩
  · obtain ⟨s, h1, h2, -⟩ := C45_car1_filter_iff srt (n := 2) le_rfl (t := ![0, 1]) (by intro i j h; fin_cases i <;> fin_cases j <;> simp_all)
      ![1, 2] ![1, 1] (sigsqr := 1) (omega := 1) (by norm_num) (by norm_num)
    obtain ⟨s', h3⟩ := h2.mpr (by norm_num)
    exact ⟨s, s', by simpa using h1, h3⟩
  · refine ⟨_, .nonfinite, by rw [KF1.new, two_point_init]; rfl, ?_⟩
    simp [Kalman.filter, Kalman.reset, KF1.reset, KFBase.raw, wr, dv]

/-- A repeated root. -/
example : ¬ Function.Injective (fun _ => -1 : Fin 2 → ℂ) := fun h => absurd (@h 0 1 rfl) (by simp)

end Verif.Props
