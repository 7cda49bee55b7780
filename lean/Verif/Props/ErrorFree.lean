import Verif.Theory.ErrorFree
import Verif.Props.Car1
import Verif.Props.Carma
import Verif.Props.PyKalman

/-!
Property C60: prediction and simulation at the time of an observation without measurement error.
Specification: `Verif/Spec/Gauss.lean` and `Verif/Spec/Carma.lean`.
-/

namespace Verif.Props

open Verif.Model Verif.Spec Verif.Theory Verif.Model.Py

variable {p : ℕ}

lemma realizes_isUnit {𝕜 : Type*} [RCLike 𝕜] {ι : Type*} [Fintype ι] [DecidableEq ι] {S : SS 𝕜 ι} {r : ℝ → ℝ} {t e : ℕ → ℝ} {N : ℕ}
    (h : Realizes S r t e N) : IsUnit (obsCov r (fst N t) (fst N e)).det := by
  obtain ⟨τ, hτ⟩ := h.sym
  have := (hτ.normalEq N fun l hl => (h.pos l hl).ne').isUnit_det fun i => (h.pos i i.2).ne'
  rwa [h.Kmat] at this

/-- **C60, what should be returned, CAR(1).** At the time of an error-free observation the conditional law given the series is that observation,
without uncertainty. -/
theorem C60_car1_law {n : ℕ} {t : Fin n → ℝ} (ht : StrictMono t) (y : Fin n → ℝ) {e : Fin n → ℝ} {sigsqr omega : ℝ} (hs : 0 < sigsqr) (ho : 0 < omega)
    {i : Fin n} (he : e i = 0) :
    predMean (car1Acf sigsqr omega) t e y (t i) = y i ∧ predVar (car1Acf sigsqr omega) t e (t i) = 0 := by
  have := realizes_isUnit (car1_realizes hs ho (ext0 t) (ext0 e) n (incr_of_strictMono ht))
  simp only [fst_ext0] at this
  exact pred_errorFree this y he

/-- **C60, what should be returned, CARMA.** -/
theorem C60_carma_law {n : ℕ} {t : Fin n → ℝ} (ht : StrictMono t) (y : Fin n → ℝ) {e : Fin n → ℝ} {sigsqr : ℝ} (hs : 0 < sigsqr)
    {omega : Fin p → ℂ} (ho : Admissible omega) {ma : List ℝ} (hl : ma.length ≤ p) (hne : ∃ x ∈ ma, x ≠ 0) {i : Fin n} (he : e i = 0) :
    predMean (carmaAcf sigsqr omega ma) t e y (t i) = y i ∧ predVar (carmaAcf sigsqr omega ma) t e (t i) = 0 := by
  have := realizes_isUnit (carma_realizes ho hs (obsRow_ne_zero ho.inj (padMA_length hl) (padMA_ne hne)) (ext0 t) (ext0 e) n
    (incr_of_strictMono ht))
  simp only [fst_ext0, carmaAcf_pad] at this
  exact pred_errorFree this y he

/-- **C60, negation, CAR(1).** `Predict` at the time of any error-free observation divides by a zero variance: the result is NaN, not the
observation. -/
theorem C60_car1_negation (srt : List ℝ → List ℕ) {n : ℕ} (hn : 2 ≤ n) {t : Fin n → ℝ} (ht : StrictMono t) (y : Fin n → ℝ) {e : Fin n → ℝ}
    {sigsqr omega : ℝ} (hs : 0 < sigsqr) (ho : 0 < omega) {i : Fin n} (he : e i = 0) :
    (KF1.new srt (List.ofFn t) (List.ofFn y) (List.ofFn e) sigsqr omega >>= fun s => Kalman.predict s (t i)) = .error .nonfinite := by
  obtain ⟨s, h1, h2⟩ := KF1.new_inv srt hn ht y e sigsqr omega
  rw [h1]
  exact KF1.predict_errorFree hs ho h2 (by omega) (incr_of_strictMono ht) _
    ⟨i, i.2, by rw [ext0_of_lt t i.2], by rw [ext0_of_lt e i.2]; exact he⟩

/-- **C60, negation, CARMA.** -/
theorem C60_carma_negation (srt : List ℝ → List ℕ) {n : ℕ} (hn : 2 ≤ n) {t : Fin n → ℝ} (ht : StrictMono t) (y : Fin n → ℝ) {e : Fin n → ℝ}
    (hp : 2 ≤ p) {sigsqr : ℝ} (hs : 0 < sigsqr) {omega : Fin p → ℂ} (ho : Admissible omega)
    {ma : List ℝ} (hl : ma.length ≤ p) (hne : ∃ x ∈ ma, x ≠ 0) {i : Fin n} (he : e i = 0) :
    (KFp.new srt (List.ofFn t) (List.ofFn y) (List.ofFn e) sigsqr omega ma >>= fun s => Kalman.predict s (t i)) = .error .nonfinite := by
  obtain ⟨s, h1, h2⟩ := KFp.new_inv srt hn ht y e sigsqr omega ma
  rw [h1]
  exact KFp.predict_errorFree hp hs ho (padMA_length hl) (padMA_ne hne) h2 (by omega) (incr_of_strictMono ht) _
    ⟨i, i.2, by rw [ext0_of_lt t i.2], by rw [ext0_of_lt e i.2]; exact he⟩

/-- **C60, negation, numpy filter.** The same division, for every observation but the first, where the class raises instead (C59). -/
theorem C60_numpy_negation (junk : ℕ → ℝ) {n : ℕ} {t : Fin n → ℝ} (ht : StrictMono t) (y : Fin n → ℝ) {w : Fin n → ℝ}
    (hw : ∀ i, 0 ≤ w i) (hp : 2 ≤ p) {sigsqr : ℝ} (hs : 0 < sigsqr) {omega : Fin p → ℂ} (ho : Admissible omega)
    {ma : List ℝ} (hl : ma.length ≤ p) (hne : ∃ x ∈ ma, x ≠ 0) {i : Fin n} (hi : 0 < (i : ℕ)) (he : w i = 0) :
    (DK.new (List.ofFn t) (List.ofFn y) (List.ofFn w) sigsqr omega ma >>= fun s => DK.predict junk s (t i)) = .error .nonfinite := by
  obtain ⟨s, h1, h2⟩ := dk_new_inv t y w hw sigsqr omega hl
  have hn : 0 < n := by have := i.2; omega
  rw [h1]
  exact DK.predict_errorFree junk hp hs ho (padMA_length hl) (padMA_ne hne) h2 hn (incr_of_strictMono ht) _
    (by rw [ext0_of_lt t hn]; exact ht (show (⟨0, hn⟩ : Fin n) < i from hi))
    ⟨i, i.2, by rw [ext0_of_lt t i.2], by rw [ext0_of_lt _ i.2]; simp [he]⟩

/-- **C60, simulation, CAR(1).** `Simulate` returns numbers exactly when the requested times are pairwise different and none is the time of an
error-free observation; otherwise it ends in NaN (a value already drawn counts as an error-free observation). -/
theorem C60_car1_simulate_iff (srt : List ℝ → List ℕ) {n : ℕ} (hn : 2 ≤ n) {t : Fin n → ℝ} (ht : StrictMono t) (y e : Fin n → ℝ)
    {sigsqr omega : ℝ} (hs : 0 < sigsqr) (ho : 0 < omega) (ts : List ℝ) (zs : ℕ → ℝ) :
    ((∃ s l, (KF1.new srt (List.ofFn t) (List.ofFn y) (List.ofFn e) sigsqr omega >>= fun s => Kalman.simulate s ts zs) = .ok (s, l)) ↔
      ts.Nodup ∧ ∀ x ∈ ts, ∀ i, t i = x → e i ≠ 0) ∧
    ((KF1.new srt (List.ofFn t) (List.ofFn y) (List.ofFn e) sigsqr omega >>= fun s => Kalman.simulate s ts zs) = .error .nonfinite ↔
      ¬ (ts.Nodup ∧ ∀ x ∈ ts, ∀ i, t i = x → e i ≠ 0)) := by
  by_cases h : ts.Nodup ∧ ∀ x ∈ ts, ∀ i, t i = x → e i ≠ 0
  · obtain ⟨s, s', so, h1, -, -, h2⟩ := C22_car1_simulate_exact srt hn ht y e hs ho ts h.1 h.2 zs
    rw [h1, res_bind_ok, h2]
    exact ⟨⟨fun _ => h, fun _ => ⟨_, _, rfl⟩⟩, ⟨fun h => (by cases h), fun h' => absurd h h'⟩⟩
  · obtain ⟨s, h1, h2⟩ := KF1.new_inv srt hn ht y e sigsqr omega
    have hperm := List.mergeSort_perm ts (fun a b => decide (a ≤ b))
    have h3 := (KF1.exact hs ho).simLoop_stuck (fun x hI hn ht hx => KF1.predict_errorFree hs ho hI hn ht x hx)
      (ts.mergeSort fun a b => decide (a ≤ b)) h2 (by omega) (incr_of_strictMono ht) zs (by
        rintro ⟨ha, hb⟩
        refine h ⟨hperm.nodup_iff.mp ha, fun x hx i hti => ?_⟩
        have := hb x (hperm.mem_iff.mpr hx) i i.2
        rw [ext0_of_lt t i.2, ext0_of_lt e i.2] at this
        exact this hti)
    have h4 : (KF1.new srt (List.ofFn t) (List.ofFn y) (List.ofFn e) sigsqr omega >>= fun s => Kalman.simulate s ts zs) = .error .nonfinite := by
      rw [h1, res_bind_ok, Kalman.simulate, h3]; rfl
    rw [h4]
    refine ⟨⟨?_, fun h' => absurd h' h⟩, fun _ => h, fun _ => rfl⟩
    rintro ⟨_, _, h'⟩; cases h'

/-- **C60, simulation, CARMA.** -/
theorem C60_carma_simulate_iff (srt : List ℝ → List ℕ) {n : ℕ} (hn : 2 ≤ n) {t : Fin n → ℝ} (ht : StrictMono t) (y e : Fin n → ℝ)
    (hp : 2 ≤ p) {sigsqr : ℝ} (hs : 0 < sigsqr) {omega : Fin p → ℂ} (ho : Admissible omega)
    {ma : List ℝ} (hl : ma.length ≤ p) (hne : ∃ x ∈ ma, x ≠ 0) (ts : List ℝ) (zs : ℕ → ℝ) :
    ((∃ s l, (KFp.new srt (List.ofFn t) (List.ofFn y) (List.ofFn e) sigsqr omega ma >>= fun s => Kalman.simulate s ts zs) = .ok (s, l)) ↔
      ts.Nodup ∧ ∀ x ∈ ts, ∀ i, t i = x → e i ≠ 0) ∧
    ((KFp.new srt (List.ofFn t) (List.ofFn y) (List.ofFn e) sigsqr omega ma >>= fun s => Kalman.simulate s ts zs) = .error .nonfinite ↔
      ¬ (ts.Nodup ∧ ∀ x ∈ ts, ∀ i, t i = x → e i ≠ 0)) := by
  by_cases h : ts.Nodup ∧ ∀ x ∈ ts, ∀ i, t i = x → e i ≠ 0
  · obtain ⟨s, s', so, h1, -, -, h2⟩ := C22_carma_simulate_exact srt hn ht y e hp hs ho hl hne ts h.1 h.2 zs
    rw [h1, res_bind_ok, h2]
    exact ⟨⟨fun _ => h, fun _ => ⟨_, _, rfl⟩⟩, ⟨fun h => (by cases h), fun h' => absurd h h'⟩⟩
  · obtain ⟨s, h1, h2⟩ := KFp.new_inv srt hn ht y e sigsqr omega ma
    have hperm := List.mergeSort_perm ts (fun a b => decide (a ≤ b))
    have h3 := (KFp.exact hp hs ho (padMA_length hl) (padMA_ne hne)).simLoop_stuck
      (fun x hI hn ht hx => KFp.predict_errorFree hp hs ho (padMA_length hl) (padMA_ne hne) hI hn ht x hx)
      (ts.mergeSort fun a b => decide (a ≤ b)) h2 (by omega) (incr_of_strictMono ht) zs (by
        rintro ⟨ha, hb⟩
        refine h ⟨hperm.nodup_iff.mp ha, fun x hx i hti => ?_⟩
        have := hb x (hperm.mem_iff.mpr hx) i i.2
        rw [ext0_of_lt t i.2, ext0_of_lt e i.2] at this
        exact this hti)
    have h4 : (KFp.new srt (List.ofFn t) (List.ofFn y) (List.ofFn e) sigsqr omega ma >>= fun s => Kalman.simulate s ts zs) = .error .nonfinite := by
      rw [h1, res_bind_ok, Kalman.simulate, h3]; rfl
    rw [h4]
    refine ⟨⟨?_, fun h' => absurd h' h⟩, fun _ => h, fun _ => rfl⟩
    rintro ⟨_, _, h'⟩; cases h'

/-- the observation 7 at time 1 has no error: the law there is (7, 0), the code ends in NaN -/
example (srt : List ℝ → List ℕ) :
    predMean (car1Acf 2 3) ![0, 1] ![0.5, 0] ![4, 7] 1 = 7 ∧ predVar (car1Acf 2 3) ![0, 1] ![0.5, 0] 1 = 0 ∧
    (KF1.new srt (List.ofFn ![(0 : ℝ), 1]) (List.ofFn ![(4 : ℝ), 7]) (List.ofFn ![(0.5 : ℝ), 0]) 2 3 >>= fun s => Kalman.predict s 1)
      = .error .nonfinite := by
  have ht : StrictMono (![0, 1] : Fin 2 → ℝ) := by
    intro i j h; fin_cases i <;> fin_cases j <;> simp at h ⊢
  have h1 := C60_car1_law ht (![4, 7] : Fin 2 → ℝ) (e := ![0.5, 0]) (sigsqr := 2) (omega := 3) (by norm_num) (by norm_num) (i := 1) (by simp)
  have h2 := C60_car1_negation srt (by norm_num) ht (![4, 7] : Fin 2 → ℝ) (e := ![0.5, 0]) (sigsqr := 2) (omega := 3) (by norm_num) (by norm_num)
    (i := 1) (by simp)
  exact ⟨h1.1, h1.2, h2⟩

/-- asking twice for the same time -/
example (srt : List ℝ → List ℕ) (zs : ℕ → ℝ) :
    (KF1.new srt (List.ofFn ![(0 : ℝ), 1]) (List.ofFn ![(4 : ℝ), 7]) (List.ofFn ![(0.5 : ℝ), 0]) 2 3 >>= fun s => Kalman.simulate s [5, 5] zs)
      = .error .nonfinite := by
  have ht : StrictMono (![0, 1] : Fin 2 → ℝ) := by
    intro i j h; fin_cases i <;> fin_cases j <;> simp at h ⊢
  exact (C60_car1_simulate_iff srt (by norm_num) ht _ _ (by norm_num) (by norm_num) [5, 5] zs).2.mpr (by simp)

end Verif.Props
