import Verif.Theory.PyKalman
import Verif.Props.Carma

/-!
Property C59: the numpy filter `KalmanFilterDeprecated` of `carma_pack.py`. `junk` is the content of the uninitialised arrays that
`np.empty_like` returns; `w` holds the squares of the measurement errors, which is what this class is given.
Specification: `Verif/Spec/Gauss.lean` and `Verif/Spec/Carma.lean`.
-/

namespace Verif.Props

open Verif.Model Verif.Spec Verif.Theory Verif.Model.Py

variable {p : ℕ}

/-- an object of the class, built from the data -/
lemma dk_new_inv {n : ℕ} (t y w : Fin n → ℝ) (hw : ∀ i, 0 ≤ w i) (sigsqr : ℝ) (omega : Fin p → ℂ) {ma : List ℝ} (hl : ma.length ≤ p) :
    ∃ s, DK.new (List.ofFn t) (List.ofFn y) (List.ofFn w) sigsqr omega ma = .ok s ∧
      DK.Inv sigsqr omega (KFp.padMA p ma) s n (ext0 t) (ext0 y) (ext0 fun i => Real.sqrt (w i)) := by
  have hew : (fun i => Real.sqrt (w i) ^ 2) = w := funext fun i => Real.sq_sqrt (hw i)
  refine ⟨_, if_neg (by omega), ?_, ?_, ?_, rfl, rfl, rfl⟩
  · exact ofFn_eq_rangeMap t
  · exact ofFn_eq_rangeMap y
  · show List.ofFn w = _
    conv_lhs => rw [← hew]
    rw [ofFn_eq_rangeMap]
    refine List.map_congr_left fun i hi => ?_
    have hi' : i < n := List.mem_range.mp hi
    simp only [ext0, hi', dif_pos]

/-- **C59, filter.** Whatever the uninitialised memory holds, `filter()` returns the exact one-step conditional means and variances of the
series, already for a single observation. -/
theorem C59_numpy_filter_exact (junk : ℕ → ℝ) {n : ℕ} (hn : 1 ≤ n) {t : Fin n → ℝ} (ht : StrictMono t) (y : Fin n → ℝ) {w : Fin n → ℝ}
    (hw : ∀ i, 0 ≤ w i) (hp : 2 ≤ p) {sigsqr : ℝ} (hs : 0 < sigsqr) {omega : Fin p → ℂ} (ho : Admissible omega)
    {ma : List ℝ} (hl : ma.length ≤ p) (hne : ∃ x ∈ ma, x ≠ 0) :
    ∃ s, (DK.new (List.ofFn t) (List.ofFn y) (List.ofFn w) sigsqr omega ma >>= DK.filter junk)
      = .ok (s, List.ofFn (stepMean (carmaAcf sigsqr omega ma) t (fun i => Real.sqrt (w i)) y),
          List.ofFn (stepVar (carmaAcf sigsqr omega ma) t fun i => Real.sqrt (w i))) := by
  obtain ⟨s, h1, h2⟩ := dk_new_inv t y w hw sigsqr omega hl
  obtain ⟨s', h3, -⟩ := DK.filter_exact junk hp hs ho (padMA_length hl) (padMA_ne hne) h2 (by omega) (incr_of_strictMono ht)
  simp only [fst_ext0, carmaAcf_pad] at h3
  exact ⟨s', by rw [h1]; exact h3⟩

/-- **C59, prediction.** For every time after the first observation that is not the time of an error-free observation, `predict` returns the
exact conditional mean and variance of the process given the whole series. -/
theorem C59_numpy_predict_exact (junk : ℕ → ℝ) {n : ℕ} (hn : 1 ≤ n) {t : Fin n → ℝ} (ht : StrictMono t) (y : Fin n → ℝ) {w : Fin n → ℝ}
    (hw : ∀ i, 0 ≤ w i) (hp : 2 ≤ p) {sigsqr : ℝ} (hs : 0 < sigsqr) {omega : Fin p → ℂ} (ho : Admissible omega)
    {ma : List ℝ} (hl : ma.length ≤ p) (hne : ∃ x ∈ ma, x ≠ 0) {x : ℝ} (h0 : t ⟨0, hn⟩ < x) (hx : ∀ i, t i = x → w i ≠ 0) :
    ∃ s, (DK.new (List.ofFn t) (List.ofFn y) (List.ofFn w) sigsqr omega ma >>= fun s => DK.predict junk s x)
      = .ok (s, predMean (carmaAcf sigsqr omega ma) t (fun i => Real.sqrt (w i)) y x,
          predVar (carmaAcf sigsqr omega ma) t (fun i => Real.sqrt (w i)) x) := by
  obtain ⟨s, h1, h2⟩ := dk_new_inv t y w hw sigsqr omega hl
  have hx' : ∀ i < n, ext0 t i = x → ext0 (fun i => Real.sqrt (w i)) i ≠ 0 := by
    intro i hi
    rw [ext0_of_lt _ hi, ext0_of_lt _ hi]
    intro h h'
    exact hx _ h ((Real.sqrt_eq_zero (hw _)).mp h')
  obtain ⟨s', h3, -⟩ := DK.predict_exact junk hp hs ho (padMA_length hl) (padMA_ne hne) h2 (by omega) (incr_of_strictMono ht) x
    (by rw [ext0_of_lt t hn]; exact h0) hx'
  simp only [fst_ext0, carmaAcf_pad] at h3
  exact ⟨s', by rw [h1]; exact h3⟩

/-- **C59, simulation.** `simulate` draws every value from its exact conditional law given the data and the values drawn before it, in increasing
order of the times, and puts the data back afterwards. -/
theorem C59_numpy_simulate_exact (junk : ℕ → ℝ) {n : ℕ} (hn : 1 ≤ n) {t : Fin n → ℝ} (ht : StrictMono t) (y : Fin n → ℝ) {w : Fin n → ℝ}
    (hw : ∀ i, 0 ≤ w i) (hp : 2 ≤ p) {sigsqr : ℝ} (hs : 0 < sigsqr) {omega : Fin p → ℂ} (ho : Admissible omega)
    {ma : List ℝ} (hl : ma.length ≤ p) (hne : ∃ x ∈ ma, x ≠ 0) {ts : List ℝ} (hnd : ts.Nodup) (h0 : ∀ x ∈ ts, t ⟨0, hn⟩ < x)
    (hx : ∀ x ∈ ts, ∀ i, t i = x → w i ≠ 0) (zs : ℕ → ℝ) :
    ∃ s sorted, sorted.Perm ts ∧ sorted.Pairwise (· ≤ ·) ∧
      (DK.new (List.ofFn t) (List.ofFn y) (List.ofFn w) sigsqr omega ma >>= fun s => DK.simulate junk s ts zs)
        = .ok (s, simSpec (carmaAcf sigsqr omega ma) (List.ofFn fun i => ⟨t i, y i, Real.sqrt (w i)⟩) sorted zs) ∧
      s.time = List.ofFn t ∧ s.y = List.ofFn y ∧ s.yvar = List.ofFn w := by
  obtain ⟨s, h1, h2⟩ := dk_new_inv t y w hw sigsqr omega hl
  have hperm := List.mergeSort_perm ts (fun a b => decide (a ≤ b))
  obtain ⟨s', h3, -⟩ := DK.simLoop_exact junk hp hs ho (padMA_length hl) (padMA_ne hne) (ts.mergeSort fun a b => decide (a ≤ b)) h2 (by omega)
    (incr_of_strictMono ht) zs (hperm.nodup_iff.mpr hnd)
    (fun x hxm => by rw [ext0_of_lt t hn]; exact h0 x (hperm.mem_iff.mp hxm)) (by
    intro x hxm i hi
    rw [ext0_of_lt _ hi, ext0_of_lt _ hi]
    intro h h'
    exact hx x (hperm.mem_iff.mp hxm) _ h ((Real.sqrt_eq_zero (hw _)).mp h'))
  rw [obsList_ext0, carmaAcf_pad] at h3
  have e : s.time = List.ofFn t ∧ s.y = List.ofFn y ∧ s.yvar = List.ofFn w := by
    simp only [DK.new] at h1
    split at h1
    · cases h1
    · injection h1 with h1; subst h1; exact ⟨rfl, rfl, rfl⟩
  refine ⟨{ s' with time := s.time, y := s.y, yvar := s.yvar }, ts.mergeSort fun a b => decide (a ≤ b), hperm,
    List.pairwise_mergeSort' (fun a b : ℝ => a ≤ b) ts, ?_, e⟩
  rw [h1, res_bind_ok]
  simp only [DK.simulate, h3, res_bind_ok, res_pure]

/-- **C59, agreement with the compiled filter.** With measurement errors `e ≥ 0` handed to the compiled filter and `e²` to the numpy one, both
predict the same mean and variance at every time after the first observation. -/
theorem C59_numpy_agrees_with_compiled (srt : List ℝ → List ℕ) (junk : ℕ → ℝ) {n : ℕ} (hn : 2 ≤ n) {t : Fin n → ℝ} (ht : StrictMono t)
    (y : Fin n → ℝ) {e : Fin n → ℝ} (he : ∀ i, 0 ≤ e i) (hp : 2 ≤ p) {sigsqr : ℝ} (hs : 0 < sigsqr) {omega : Fin p → ℂ} (ho : Admissible omega)
    {ma : List ℝ} (hl : ma.length ≤ p) (hne : ∃ x ∈ ma, x ≠ 0) {x : ℝ} (h0 : t ⟨0, by omega⟩ < x) (hx : ∀ i, t i = x → e i ≠ 0) :
    ∃ m v, (KFp.new srt (List.ofFn t) (List.ofFn y) (List.ofFn e) sigsqr omega ma >>= fun s => Kalman.predict s x).map Prod.snd = .ok (m, v) ∧
      (DK.new (List.ofFn t) (List.ofFn y) (List.ofFn fun i => e i ^ 2) sigsqr omega ma >>= fun s => DK.predict junk s x).map Prod.snd
        = .ok (m, v) := by
  obtain ⟨s, s', h1, h2, -⟩ := C04_carma_predict_exact srt hn ht y e hp hs ho hl hne x hx
  obtain ⟨s2, h3⟩ := C59_numpy_predict_exact junk (by omega) ht y (w := fun i => e i ^ 2) (fun i => sq_nonneg _) hp hs ho hl hne h0
    (fun i h => pow_ne_zero 2 (hx i h))
  have hee : (fun i => Real.sqrt (e i ^ 2)) = e := funext fun i => Real.sqrt_sq (he i)
  rw [hee] at h3
  exact ⟨_, _, by rw [h1, res_bind_ok, h2]; rfl, by rw [h3]; rfl⟩

/-- **C59, limit: no backcasting.** At or before the first observation `predict` raises (`np.max` of an empty array), where the compiled filter
returns the exact conditional law (C04). -/
theorem C59_numpy_backcast_raises (junk : ℕ → ℝ) {n : ℕ} (hn : 1 ≤ n) {t : Fin n → ℝ} (ht : StrictMono t) (y : Fin n → ℝ) {w : Fin n → ℝ}
    (hw : ∀ i, 0 ≤ w i) (hp : 2 ≤ p) {sigsqr : ℝ} {omega : Fin p → ℂ} (ho : Admissible omega)
    {ma : List ℝ} (hl : ma.length ≤ p) {x : ℝ} (h0 : x ≤ t ⟨0, hn⟩) :
    (DK.new (List.ofFn t) (List.ofFn y) (List.ofFn w) sigsqr omega ma >>= fun s => DK.predict junk s x) = .error .runtime := by
  obtain ⟨s, h1, h2⟩ := dk_new_inv t y w hw sigsqr omega hl
  have e : s.time = List.ofFn t := by
    simp only [DK.new] at h1
    split at h1
    · cases h1
    · injection h1 with h1; subst h1; rfl
  have hlb : DK.lastBelow s.time x = .error .runtime := by
    have : ((List.range s.time.length).filter fun i => decide (s.time.getD i 0 < x)) = [] := by
      rw [List.filter_eq_nil_iff]
      intro i hi
      have hi' : i < n := by simpa [e] using hi
      have : s.time.getD i 0 = t ⟨i, hi'⟩ := by rw [e]; simp [hi']
      rw [this, decide_eq_true_eq, not_lt]
      exact h0.trans (ht.monotone (Nat.zero_le i))
    rw [DK.lastBelow, this]; rfl
  rw [h1, res_bind_ok, DK.predict, DK.reset_eq junk s h2 (by omega) (h2.ready hp ho (padMA_length hl) (ext0 t) (ext0 fun i => Real.sqrt (w i))) rfl,
    res_bind_ok]
  simp only [DK.st, hlb]
  rfl

/-- **C59, limit: no first-order models.** With a single root the class cannot be used at all: `reset`, and with it `filter`, `predict` and
`simulate`, indexes a second row of a one-row matrix. -/
theorem C59_numpy_one_root_raises (junk : ℕ → ℝ) (hp : p < 2) (s : DK p) (x : ℝ) (ts : List ℝ) (hts : ts ≠ []) (zs : ℕ → ℝ) :
    DK.filter junk s = .error .bounds ∧ DK.predict junk s x = .error .bounds ∧ DK.simulate junk s ts zs = .error .bounds := by
  have hr : DK.reset junk s = .error .bounds := by simp only [DK.reset, hp, if_true]; rfl
  have hpred : ∀ x, DK.predict junk s x = .error .bounds := fun x => by rw [DK.predict, hr]; rfl
  refine ⟨by rw [DK.filter, hr]; rfl, hpred x, ?_⟩
  have hperm := List.mergeSort_perm ts (fun a b => decide (a ≤ b))
  cases h : ts.mergeSort fun a b => decide (a ≤ b) with
  | nil => rw [h] at hperm; exact absurd hperm.symm.eq_nil hts
  | cons a l =>
    simp only [DK.simulate, h, DK.simLoop, hpred]
    rfl

/-- **C59, limit: repeated roots.** With two equal roots the eigenvector matrix is singular and `solve` raises. -/
theorem C59_numpy_repeated_root_raises (junk : ℕ → ℝ) (s : DK p) (hp : 2 ≤ p) (h : ¬ Function.Injective s.roots) :
    DK.filter junk s = .error .runtime := by
  have hr : DK.reset junk s = .error .runtime := by
    have hj : KFp.jvec s.roots = .error .runtime :=
      if_pos (by by_contra hd; exact h (eigenMat_det_ne_zero.mp hd))
    simp only [DK.reset, show ¬ p < 2 by omega, if_false, hj]; rfl
  rw [DK.filter, hr]; rfl

/-- the hypotheses of the theorems above: three observations, the middle one without error, a real root and a complex pair -/
example (junk : ℕ → ℝ) : ∃ s, (DK.new (List.ofFn ![(0 : ℝ), 1, 3]) (List.ofFn ![(1 : ℝ), -2, 0]) (List.ofFn ![(0.5 : ℝ), 0, 2]) 2
      ![(-2 : ℂ), -1 + Complex.I, -1 - Complex.I] [1, 0.5] >>= fun s => DK.predict junk s 3)
      = .ok (s, predMean (carmaAcf 2 ![(-2 : ℂ), -1 + Complex.I, -1 - Complex.I] [1, 0.5]) ![0, 1, 3]
          (fun i => Real.sqrt ((![(0.5 : ℝ), 0, 2] : Fin 3 → ℝ) i)) ![1, -2, 0] 3,
          predVar (carmaAcf 2 ![(-2 : ℂ), -1 + Complex.I, -1 - Complex.I] [1, 0.5]) ![0, 1, 3]
          (fun i => Real.sqrt ((![(0.5 : ℝ), 0, 2] : Fin 3 → ℝ) i)) 3) := by
  refine C59_numpy_predict_exact junk (by norm_num) ?_ _ ?_ (by norm_num) (by norm_num) ?_ (by norm_num) ⟨1, by simp, one_ne_zero⟩ (by norm_num) ?_
  · intro i j h; fin_cases i <;> fin_cases j <;> simp at h ⊢
  · intro i; fin_cases i <;> norm_num
  · refine ⟨?_, ?_, ?_⟩
    · intro i j h
      fin_cases i <;> fin_cases j <;> simp [Complex.ext_iff] at h ⊢ <;> norm_num at h
    · intro k; fin_cases k <;> simp
    · intro k
      fin_cases k
      · exact ⟨0, by simp⟩
      · exact ⟨2, by simp [Complex.ext_iff]⟩
      · exact ⟨1, by simp⟩
  · intro i h; fin_cases i <;> simp at h ⊢

/-- a time before the first observation, and two equal roots -/
example : (-1 : ℝ) ≤ (![(0 : ℝ), 1, 3] : Fin 3 → ℝ) ⟨0, by norm_num⟩ ∧ ¬ Function.Injective (![-1, -1] : Fin 2 → ℂ) :=
  ⟨by norm_num, fun h => absurd (@h 0 1 rfl) (by decide)⟩

end Verif.Props
