import Verif.Theory.FSimP
import Verif.Theory.FPredictPExact
import Verif.Props.Carma
import Verif.Props.FCarma

/-! C103: `Predict` and `Simulate` of a CARMA filter in double-precision arithmetic. -/

namespace Verif.Props

open Verif.Model Verif.Spec Verif.Theory
open scoped Classical

variable {p : ℕ}

/-! ### the system of the examples -/

/-- the system of the examples, in exact arithmetic, can be solved exactly if the roots are distinct -/
lemma libC_solvable (omega : Fin p → ℂ) : Solvable libC (fun k => pair (omega k)) ↔ Function.Injective omega := by
  have e : Solvable libC (fun k => pair (omega k)) ↔ ∃ J, exactC.solve p (FKFp.eigenMat exactC fun k => pair (omega k)) (FKFp.rvec p) = some J := Iff.rfl
  rw [e, solve_lift, ← eigenMat_det_ne_zero]
  constructor
  · rintro ⟨J, hJ⟩ h0
    rw [if_pos h0] at hJ
    cases hJ
  · intro h
    exact ⟨_, if_neg h⟩

/-- two distinct roots, and one root twice -/
lemma libC_roots : Solvable libC (fun k => pair ((![-1, -2] : Fin 2 → ℂ) k)) ∧ ¬ Solvable libC (fun k => pair ((![-1, -1] : Fin 2 → ℂ) k)) := by
  rw [libC_solvable, libC_solvable]
  constructor
  · intro i j h
    fin_cases i <;> fin_cases j <;> simp at h ⊢
  · intro h
    have := @h 0 1 (by simp)
    simp at this

lemma one_coef : [Dbl.fin 1].length ≤ 2 := by simp

/-! ### a value, and the same one after every history -/

/-- **C103, construction.** Times at least `2^-300` apart, any values, errors and parameters: the constructor returns. -/
theorem C103_new {C : CArith} (hA : IsBinary64 C.r) (srt : List Dbl → List ℕ) {ts : List ℝ} (ht : MildTimes ts) (y yerr : List Dbl) (sigsqr : Dbl)
    (omega : Fin p → CD) (ma : List Dbl) : ∃ s, FKFp.new C srt (ts.map .fin) y yerr sigsqr omega ma = .ok s ∧ s.b.time = ts.map .fin ∧ s.b.y = y ∧
      s.b.yerr = yerr ∧ s.b.sigsqr = sigsqr ∧ s.omega = omega ∧ s.ma = ma ++ List.replicate (p - ma.length) (.fin 0) := by
  obtain ⟨ds, hd, hpos⟩ := mild_pos hA ht
  unfold FKFp.new FKF1.newData
  rw [newData_pos hd hpos srt rfl, res_bind_ok]
  exact ⟨_, rfl, rfl, rfl, rfl, rfl, rfl, rfl⟩

/-- **C103, Predict.** Any data that the constructor accepts (times in any order; values and errors for all of them, any doubles), any parameters, at most `p`
moving-average coefficients, `2 ≤ p`, any library. If the linear system in the roots can be solved, `Predict(x)` returns for every double `x`, the same pair of
numbers after every history of calls; otherwise every such call throws `std::runtime_error`. It never reads or writes outside a vector. -/
theorem C103_predict {C : CArith} (hp : 2 ≤ p) {srt : List Dbl → List ℕ} {time y yerr ma : List Dbl} {sigsqr : Dbl} {omega : Fin p → CD} {s : FKFp p}
    (hy : y.length = time.length) (he : yerr.length = time.length) (hm : ma.length ≤ p) (h : FKFp.new C srt time y yerr sigsqr omega ma = .ok s) :
    (Solvable C omega → ∀ x, ∃ r, ∀ s1, UsedP C s s1 → ∃ s2, FKFp.predict C s1 x = .ok (s2, r)) ∧
    (¬ Solvable C omega → ∀ x s1, UsedP C s s1 → FKFp.predict C s1 x = .error .runtime) := by
  obtain ⟨hw, -, ho, hma⟩ := newp_whole hy he h
  have hl : s.ma.length = p := by rw [hma, List.length_append, List.length_replicate]; omega
  constructor
  · rintro ⟨J, hJ⟩ x
    refine ⟨predOf C s J x, fun s1 h1 => ?_⟩
    obtain ⟨k, e, -⟩ := predict_same hp hw hl x (by rw [ho]; exact hJ) (UsedP.same hp hw hl h1)
    exact ⟨k, e⟩
  · intro hs x s1 h1
    have k1 := UsedP.same hp hw hl h1
    refine predict_none hp (Whole.psame hw k1) x ?_
    rw [k1.omega, ho]
    exact Option.eq_none_iff_forall_ne_some.mpr fun J hJ => hs ⟨J, hJ⟩

/-- **C103, Simulate.** Same setting. A requested time that is NaN is rejected. Otherwise, if the system can be solved, `Simulate` returns one value per
requested time, the same values after every history (with the same draws), and leaves data and parameters as they were; if it cannot be solved and a time is
requested, `Simulate` throws `std::runtime_error`. -/
theorem C103_simulate {C : CArith} (hp : 2 ≤ p) {srt : List Dbl → List ℕ} {time y yerr ma : List Dbl} {sigsqr : Dbl} {omega : Fin p → CD} {s : FKFp p}
    (hy : y.length = time.length) (he : yerr.length = time.length) (hm : ma.length ≤ p) (h : FKFp.new C srt time y yerr sigsqr omega ma = .ok s)
    (times : List Dbl) (zs : ℕ → Dbl) :
    (Dbl.nan ∈ times → ∀ s1, UsedP C s s1 → FKFp.simulate C s1 times zs = .error .bounds) ∧
    (Dbl.nan ∉ times → Solvable C omega → ∃ xs, xs.length = times.length ∧ ∀ s1, UsedP C s s1 → ∃ s2, FKFp.simulate C s1 times zs = .ok (s2, xs) ∧
      s2.b.time = s.b.time ∧ s2.b.dt = s.b.dt ∧ s2.b.y = s.b.y ∧ s2.b.yerr = s.b.yerr ∧ s2.b.sigsqr = sigsqr ∧ s2.omega = omega ∧ s2.ma = s.ma) ∧
    (Dbl.nan ∉ times → times ≠ [] → ¬ Solvable C omega → ∀ s1, UsedP C s s1 → FKFp.simulate C s1 times zs = .error .runtime) := by
  obtain ⟨hw, hg, ho, hma⟩ := newp_whole hy he h
  have hl : s.ma.length = p := by rw [hma, List.length_append, List.length_replicate]; omega
  refine ⟨fun hn s1 _ => ?_, fun hn hs => ?_, fun hn h0 hs s1 h1 => ?_⟩
  · unfold FKFp.simulate FKF1.sortTimes
    rw [if_pos hn]
    rfl
  · obtain ⟨J, hJ⟩ := hs
    obtain ⟨xs, l, hx⟩ := simulate_same hp hw hl hn zs (show C.solve p (FKFp.eigenMat C s.omega) (FKFp.rvec p) = some J by rw [ho]; exact hJ)
    refine ⟨xs, l, fun s1 h1 => ?_⟩
    obtain ⟨k, e, q⟩ := hx s1 (UsedP.same hp hw hl h1)
    exact ⟨k, e, q.time, q.dt, q.y, q.yerr, q.sig.trans hg, q.omega.trans ho, q.ma⟩
  · have k1 := UsedP.same hp hw hl h1
    refine simulate_none hp (Whole.psame hw k1) hn h0 zs ?_
    rw [k1.omega, ho]
    exact Option.eq_none_iff_forall_ne_some.mpr fun J hJ => hs ⟨J, hJ⟩

/-- **C103, Filter.** Same setting: `Filter` returns after every history, with the same means and variances, exactly if the system can be solved. -/
theorem C103_filter {C : CArith} (hp : 2 ≤ p) {srt : List Dbl → List ℕ} {time y yerr ma : List Dbl} {sigsqr : Dbl} {omega : Fin p → CD} {s : FKFp p}
    (hy : y.length = time.length) (he : yerr.length = time.length) (hm : ma.length ≤ p) (h : FKFp.new C srt time y yerr sigsqr omega ma = .ok s) :
    (Solvable C omega → ∃ m v, m.length = s.b.time.length ∧ v.length = s.b.time.length ∧ ∀ s1, UsedP C s s1 → ∃ s2, FKFp.filter C s1 = .ok s2 ∧
      s2.b.mean = m ∧ s2.b.var = v) ∧
    (¬ Solvable C omega → ∀ s1, UsedP C s s1 → FKFp.filter C s1 = .error .runtime) := by
  obtain ⟨hw, -, ho, hma⟩ := newp_whole hy he h
  have hl : s.ma.length = p := by rw [hma, List.length_append, List.length_replicate]; omega
  have h2 := hw.two
  have key : ∀ s1, UsedP C s s1 → _ := fun s1 h1 =>
    hist_filterp (C := C) hp (s := s1) (n := s.b.time.length) (by omega)
      ((UsedP.same hp hw hl h1).time ▸ whole_shape (Whole.psame hw (UsedP.same hp hw hl h1)))
      (by rw [(UsedP.same hp hw hl h1).ma]; exact hl)
  constructor
  · rintro ⟨J, hJ⟩
    refine ⟨(List.range s.b.time.length).map fun i => (seqOf C s J i).m, (List.range s.b.time.length).map fun i => (seqOf C s J i).v, by simp, by simp, ?_⟩
    intro s1 h1
    have k1 := UsedP.same hp hw hl h1
    obtain ⟨s2, e2, q⟩ := (key s1 h1).2 J (by rw [k1.omega, ho]; exact hJ)
    rw [k1.like.seq] at q
    have ext : ∀ (l : List Dbl) (f : ℕ → Dbl), l.length = s.b.time.length → (∀ i < s.b.time.length, l.getD i .nan = f i) →
        l = (List.range s.b.time.length).map f := by
      intro l f hlen hf
      refine List.ext_getElem (by simp [hlen]) fun i h1 h2 => ?_
      have := hf i (by omega)
      rw [List.getD_eq_getElem _ _ h1] at this
      simp [this]
    exact ⟨s2, e2, ext _ _ q.lmean q.mean, ext _ _ q.lvar q.var⟩
  · intro hs s1 h1
    have k1 := UsedP.same hp hw hl h1
    refine (key s1 h1).1 ?_
    rw [k1.omega, ho]
    exact Option.eq_none_iff_forall_ne_some.mpr fun J hJ => hs ⟨J, hJ⟩

/-- infinite and undefined data, both outcomes; a second call with a time that is NaN -/
example (srt : List Dbl → List ℕ) : (∃ (s s1 s2 s3 : FKFp 2) (r r' : Dbl × Dbl) (x : Dbl),
    FKFp.new libC srt ([0, 1].map .fin) [.pinf, .fin 1] [.fin 0, .nan] (.fin 1) (fun k => pair (![-1, -2] k)) [.fin 1] = .ok s ∧
    FKFp.predict libC s (.fin 0) = .ok (s1, r) ∧ FKFp.simulate libC s1 [.fin 2] (fun _ => .fin 1) = .ok (s2, [x]) ∧
    FKFp.predict libC s2 .nan = .ok (s3, r') ∧ FKFp.simulate libC s3 [.nan] (fun _ => .fin 1) = .error .bounds) ∧
    ∃ s : FKFp 2, FKFp.new libC srt ([0, 1].map .fin) [.pinf, .fin 1] [.fin 0, .nan] (.fin 1) (fun k => pair (![-1, -1] k)) [.fin 1] = .ok s ∧
      FKFp.predict libC s (.fin 0) = .error .runtime ∧ FKFp.filter libC s = .error .runtime := by
  constructor
  · obtain ⟨s, e, -⟩ := C103_new libC_bin srt fp_times [.pinf, .fin 1] [.fin 0, .nan] (.fin 1) (fun k => pair ((![-1, -2] : Fin 2 → ℂ) k)) [.fin 1]
    have P := (C103_predict le_rfl (by rfl) (by rfl) one_coef e).1 libC_roots.1
    obtain ⟨r, h1⟩ := P (.fin 0)
    obtain ⟨s1, e1⟩ := h1 s .none
    obtain ⟨xs, l, h2⟩ := (C103_simulate le_rfl (by rfl) (by rfl) one_coef e [.fin 2] fun _ => .fin 1).2.1 (by simp) libC_roots.1
    obtain ⟨s2, e2, -⟩ := h2 s1 (.predict .none e1)
    obtain ⟨x, rfl⟩ := List.length_eq_one_iff.mp l
    obtain ⟨r', h3⟩ := P .nan
    obtain ⟨s3, e3⟩ := h3 s2 (.simulate (.predict .none e1) e2)
    exact ⟨s, s1, s2, s3, r, r', x, e, e1, e2, e3, (C103_simulate le_rfl (by rfl) (by rfl) one_coef e [.nan] fun _ => .fin 1).1 (by simp) s3
      (.predict (.simulate (.predict .none e1) e2) e3)⟩
  · obtain ⟨s, e, -⟩ := C103_new libC_bin srt fp_times [.pinf, .fin 1] [.fin 0, .nan] (.fin 1) (fun k => pair ((![-1, -1] : Fin 2 → ℂ) k)) [.fin 1]
    exact ⟨s, e, (C103_predict le_rfl (by rfl) (by rfl) one_coef e).2 libC_roots.2 _ s .none, (C103_filter le_rfl (by rfl) (by rfl) one_coef e).2 libC_roots.2 s .none⟩

/-! ### not a number -/

/-- **C103, NaN data.** Whatever the library: a NaN among the values at or after the requested time makes the predicted mean NaN, after every history. -/
theorem C103_nan {C : CArith} (hA : IsBinary64 C.r) (hp : 2 ≤ p) {srt : List Dbl → List ℕ} {ts : List ℝ} (ht : MildTimes ts) {y yerr ma : List Dbl}
    {sigsqr : Dbl} {omega : Fin p → CD} {s s1 s2 : FKFp p} (hy : y.length = ts.length) (he : yerr.length = ts.length) (hm : ma.length ≤ p)
    (h : FKFp.new C srt (ts.map .fin) y yerr sigsqr omega ma = .ok s) (h1 : UsedP C s s1) {x : ℝ} {i j : ℕ} (hf : Follows ts x i) (hij : i ≤ j)
    (hj : y[j]? = some .nan) {r : Dbl × Dbl} (e : FKFp.predict C s1 (.fin x) = .ok (s2, r)) : r.1 = .nan := by
  obtain ⟨s', e', t', y', -⟩ := C103_new hA srt ht y yerr sigsqr omega ma
  have hss : s' = s := by rw [h] at e'; injection e' with e'; exact e'.symm
  subst hss
  obtain ⟨hw, -, ho, hma⟩ := newp_whole (by rw [List.length_map]; exact hy) (by rw [List.length_map]; exact he) h
  have hl : s'.ma.length = p := by rw [hma, List.length_append, List.length_replicate]; omega
  have k1 := UsedP.same hp hw hl h1
  have hJ : ∃ J, C.solve p (FKFp.eigenMat C s'.omega) (FKFp.rvec p) = some J := by
    cases hs : C.solve p (FKFp.eigenMat C s'.omega) (FKFp.rvec p) with
    | some J => exact ⟨J, rfl⟩
    | none => rw [predict_none hp (Whole.psame hw k1) _ (by rw [k1.omega]; exact hs)] at e; cases e
  obtain ⟨J, hJ⟩ := hJ
  obtain ⟨s3, e3, -⟩ := predict_same hp hw hl (.fin x) hJ k1
  rw [e] at e3
  injection e3 with e3
  injection e3 with _ e3
  rw [e3]
  have hjl : j < y.length := by
    by_contra hc
    rw [List.getElem?_eq_none (by omega)] at hj
    cases hj
  have hsc : FKF1.scan (.fin x) s'.b.time = i := by rw [t']; exact scan_eq hf
  have hn : s'.b.time.length = ts.length := by rw [t', List.length_map]
  have hyj : s'.b.y.getD j .nan = .nan := by rw [y', List.getD_eq_getElem?_getD, hj]; rfl
  have stay : ∀ (c : CoefP p) (v : Dbl) (a : Dbl × Dbl), a.2 = .nan → (addObs C c v a).2 = .nan := by
    intro c v a h
    show C.r.add a.2 _ = _
    rw [h, fl_nan_add]
  have turn : ∀ (c : CoefP p) (a : Dbl × Dbl), (addObs C c .nan a).2 = .nan := by
    intro c a
    show C.r.add a.2 (C.r.div (C.r.mul c.ys (C.r.sub .nan c.yc)) c.v) = _
    have e1 : C.r.sub .nan c.yc = .nan := by cases c.yc <;> rfl
    have e2 : ∀ z : Dbl, C.r.mul z .nan = .nan := by intro z; cases z <;> rfl
    have e3 : ∀ z : Dbl, C.r.div .nan z = .nan := by intro z; cases z <;> rfl
    rw [e1, e2, e3, fl_add_nan]
  have all : ∀ (c : CoefP p) (a : Dbl × Dbl) (k : ℕ), j - i ≤ k → (aseq C s' J i c a k).2 = .nan := by
    intro c a k
    induction k with
    | zero =>
      intro hk
      rw [aseq, show i = j by omega, hyj]
      exact turn c a
    | succ k ih =>
      intro hk
      rw [aseq]
      by_cases hc : j - i ≤ k
      · exact stay _ _ _ (ih hc)
      · rw [show i + 1 + k = j by omega, hyj]
        exact turn _ _
  unfold predOf
  dsimp only
  rw [hsc, if_neg (by omega)]
  dsimp only
  rw [all _ _ _ (by omega)]
  generalize C.r.div (.fin 1) _ = z
  cases z <;> rfl

/-- the second value is not a number, and a prediction between the two times is asked for -/
example (srt : List Dbl → List ℕ) : ∃ (s s1 : FKFp 2) (r : Dbl × Dbl),
    FKFp.new libC srt ([0, 1].map .fin) [.fin 1, .nan] [.fin 0, .fin 1] (.fin 1) (fun k => pair (![-1, -2] k)) [.fin 1] = .ok s ∧
    Follows [0, 1] (1 / 2) 1 ∧ FKFp.predict libC s (.fin (1 / 2)) = .ok (s1, r) ∧ r.1 = .nan := by
  obtain ⟨s, e, -⟩ := C103_new libC_bin srt fp_times [.fin 1, .nan] [.fin 0, .fin 1] (.fin 1) (fun k => pair ((![-1, -2] : Fin 2 → ℂ) k)) [.fin 1]
  obtain ⟨r, h1⟩ := (C103_predict le_rfl (by rfl) (by rfl) one_coef e).1 libC_roots.1 (.fin (1 / 2))
  obtain ⟨s1, e1⟩ := h1 s .none
  have F : Follows [0, 1] (1 / 2) 1 := by
    refine ⟨by simp, fun j hj => ?_, fun _ => by norm_num [List.getD_cons_succ]⟩
    obtain rfl : j = 0 := by omega
    norm_num
  exact ⟨s, s1, r, e, F, e1, C103_nan libC_bin le_rfl fp_times (by rfl) (by rfl) one_coef e .none F le_rfl rfl e1⟩

/-! ### exact arithmetic -/

/-- **C103, exact arithmetic.** Whenever the constructor, `Predict` or `Simulate` return in real numbers, they return the same numbers in exact machine
arithmetic. -/
theorem C103_exact_refines {srt : List ℝ → List ℕ} {srt' : List Dbl → List ℕ} (hs : ∀ l : List ℝ, srt' (l.map .fin) = srt l) {ts ys es ma : List ℝ} {sigsqr : ℝ}
    {omega : Fin p → ℂ} {s : KFp p} (h : KFp.new srt ts ys es sigsqr omega ma = .ok s) :
    ∃ f, FKFp.new exactC srt' (ts.map .fin) (ys.map .fin) (es.map .fin) (.fin sigsqr) (fun k => pair (omega k)) (ma.map .fin) = .ok f ∧
      (∀ x m v s', KFp.predict s x = .ok (s', (m, v)) → ∃ f', FKFp.predict exactC f (.fin x) = .ok (f', (.fin m, .fin v))) ∧
      (∀ times zs s' xs, Kalman.simulate s times zs = .ok (s', xs) →
        ∃ f', FKFp.simulate exactC f (times.map .fin) (fun k => .fin (zs k)) = .ok (f', xs.map .fin)) := by
  obtain ⟨a, e⟩ := newp_lift hs h
  refine ⟨_, e, fun x m v s' h' => ?_, fun times zs s' xs h' => simulatep_lift h' _ _ _ _⟩
  obtain ⟨b', c', n', e'⟩ := predictp_lift h' a .nan .nan .nan
  exact ⟨_, e'⟩

/-- **C103, what is rounded.** Admissible roots, at most `p` coefficients, not all zero, increasing times. With exact arithmetic `Predict(x)` returns the mean
and the variance of the process at `x` given all observations, for every `x` that is not the time of an observation without error; and `Simulate` returns
the values of C22: each is the conditional mean plus the conditional standard deviation times its draw, given the data and the values already drawn. -/
theorem C103_exact (srt : List Dbl → List ℕ) {n : ℕ} (hn : 2 ≤ n) {t : Fin n → ℝ} (ht : StrictMono t) (y e : Fin n → ℝ) (hp : 2 ≤ p) {sigsqr : ℝ}
    (hs : 0 < sigsqr) {omega : Fin p → ℂ} (ho : Admissible omega) {ma : List ℝ} (hl : ma.length ≤ p) (hne : ∃ x ∈ ma, x ≠ 0) :
    ∃ f, FKFp.new exactC srt ((List.ofFn t).map .fin) ((List.ofFn y).map .fin) ((List.ofFn e).map .fin) (.fin sigsqr) (fun k => pair (omega k))
        (ma.map .fin) = .ok f ∧
      (∀ x : ℝ, (∀ i, t i = x → e i ≠ 0) → ∃ f', FKFp.predict exactC f (.fin x) =
        .ok (f', (.fin (predMean (carmaAcf sigsqr omega ma) t e y x), .fin (predVar (carmaAcf sigsqr omega ma) t e x)))) ∧
      (∀ (ts : List ℝ) (zs : ℕ → ℝ), ts.Nodup → (∀ x ∈ ts, ∀ i, t i = x → e i ≠ 0) → ∃ f' sorted, sorted.Perm ts ∧ sorted.Pairwise (· ≤ ·) ∧
        FKFp.simulate exactC f (ts.map .fin) (fun k => .fin (zs k)) =
          .ok (f', (simSpec (carmaAcf sigsqr omega ma) (List.ofFn fun i => ⟨t i, y i, e i⟩) sorted zs).map .fin)) := by
  obtain ⟨s, -, -, e0, -⟩ := C22_carma_simulate_exact (fun l => srt (l.map .fin)) hn ht y e hp hs ho hl hne [] (by simp) (by simp) (fun _ => 0)
  obtain ⟨f, ef, hP, hS⟩ := C103_exact_refines (srt' := srt) (fun _ => rfl) e0
  refine ⟨f, ef, fun x hx => ?_, fun ts zs hnd hx => ?_⟩
  · obtain ⟨s', s'', e1, e2, -⟩ := C04_carma_predict_exact (fun l => srt (l.map .fin)) hn ht y e hp hs ho hl hne x hx
    rw [e0] at e1
    injection e1 with e1
    subst e1
    exact hP _ _ _ _ e2
  · obtain ⟨s', s'', sorted, e1, p1, p2, e2⟩ := C22_carma_simulate_exact (fun l => srt (l.map .fin)) hn ht y e hp hs ho hl hne ts hnd hx zs
    rw [e0] at e1
    injection e1 with e1
    subst e1
    obtain ⟨f', e3⟩ := hS _ _ _ _ e2
    exact ⟨f', sorted, p1, p2, e3⟩

/-- three times, a real root and a complex pair; a prediction between the first two times -/
example (srt : List Dbl → List ℕ) (omega : Fin 3 → ℂ) (h : omega = ![(-2 : ℂ), -1 + Complex.I, -1 - Complex.I]) : ∃ f f' : FKFp 3,
    FKFp.new exactC srt ((List.ofFn exT).map .fin) ((List.ofFn exY).map .fin) ((List.ofFn fun _ : Fin 3 => (1 : ℝ)).map .fin) (.fin 1)
      (fun k => pair (omega k)) [.fin 1] = .ok f ∧
    FKFp.predict exactC f (.fin (1 / 2)) = .ok (f', (.fin (predMean (carmaAcf 1 omega [1]) exT (fun _ => 1) exY (1 / 2)),
      .fin (predVar (carmaAcf 1 omega [1]) exT (fun _ => 1) (1 / 2)))) := by
  have ho : Admissible omega := by
    subst h
    refine ⟨?_, ?_, ?_⟩
    · intro i j h
      fin_cases i <;> fin_cases j <;> simp [Complex.ext_iff] at h ⊢ <;> norm_num at h
    · intro k; fin_cases k <;> simp
    · intro k
      fin_cases k
      · exact ⟨0, by simp⟩
      · exact ⟨2, by simp [Complex.ext_iff]⟩
      · exact ⟨1, by simp⟩
  obtain ⟨f, e, hP, -⟩ := C103_exact srt (by norm_num) exT_mono exY (fun _ => 1) (by norm_num) one_pos ho (ma := [1]) (by norm_num) ⟨1, by simp, one_ne_zero⟩
  obtain ⟨f', e'⟩ := hP (1 / 2) (fun _ _ => one_ne_zero)
  exact ⟨f, f', e, e'⟩

end Verif.Props
