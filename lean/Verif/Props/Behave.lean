import Verif.Spec.Behave
import Verif.Theory.Behave
import Verif.Props.Equi

/-! C80: the predictions of the C++ filters obey the laws of conditional distributions, and the filter's one-step
predictions are the predictions of `Predict` from the measurements seen so far. -/

namespace Verif.Props

open Verif.Model Verif.Spec Verif.Theory Filter Topology

variable {p : ℕ}

/-- the laws follow from exactness for a well-behaved autocovariance -/
lemma laws_of_exact {P : Predictor (Res (ℝ × ℝ))} {r : ℝ → ℝ} (h : GoodAcf r)
    (hP : ∀ {n : ℕ}, 2 ≤ n → ∀ {t : Fin n → ℝ}, StrictMono t → ∀ (y e : Fin n → ℝ) (x : ℝ), (∀ i, t i = x → e i ≠ 0) →
      P n t y e x = .ok (predMean r t e y x, predVar r t e x) ∧ 0 < predVar r t e x) : PredictLaws .ok P r where
  bounds hn t ht y e x hx := by
    obtain ⟨h1, h2⟩ := hP hn ht y e x hx
    refine ⟨_, _, h1, h2, h.var_le ht e x, h.var_one ht e x, ?_⟩
    rintro j rfl
    have h3 := h.var_one ht e (t j) j
    have h0 := h.r0
    have he : 0 < e j ^ 2 := by have := hx j rfl; positivity
    rw [sub_self, abs_zero] at h3
    refine h3.trans_lt ?_
    rw [sub_lt_iff_lt_add, ← sub_lt_iff_lt_add', lt_div_iff₀ (by positivity)]
    nlinarith [mul_pos he he]
  less hk t ht f hf y e x hx := by
    have hn := hk.trans (by simpa using Fintype.card_le_of_injective f hf.injective)
    exact ⟨_, _, _, _, (hP hn ht y e x hx).1, (hP hk (ht.comp hf) _ _ x fun i hi => hx (f i) hi).1, h.var_sub ht e x hf⟩
  worse hn t ht y y' e e' he x hx :=
    ⟨_, _, _, _, (hP hn ht y e x hx).1, (hP hn ht y' e' x fun i hi h0 => hx i hi (by
      have := he i
      rw [h0, abs_zero] at this
      exact abs_nonpos_iff.mp this)).1, h.var_err ht he x⟩
  cont hn t ht y e :=
    ⟨_, h.pred_cont t e y, fun x hx => (hP hn ht y e x hx).1, h.pred_lim abs_sub_top t e y, h.pred_lim abs_sub_bot t e y,
      fun i hi => Prod.ext_iff.mpr (pred_errorFree ((Matrix.isUnit_iff_isUnit_det _).mp (h.pos ht e).isUnit) y hi)⟩

/-- **C80, CAR(1).** `Predict` on a CAR(1) filter: the variance is positive, never above the stationary variance
`sigsqr / (2 omega)` nor above what any single measurement alone leaves, below the error variance at a measured time; it
does not grow when measurements are added or errors reduced; the prediction is continuous in time, relaxes to
mean 0 and the stationary variance far from the data, and tends to an error-free measurement at its time. -/
theorem C80_car1_predict (srt : List ℝ → List ℕ) {sigsqr omega : ℝ} (hs : 0 < sigsqr) (ho : 0 < omega) :
    PredictLaws .ok (fun _ t y e x => pred1 srt sigsqr omega t y e x)
      fun d => sigsqr / (2 * omega) * Real.exp (-omega * d) :=
  laws_of_exact (car1_good hs ho) fun hn _ ht y e x hx =>
    ⟨pred1_eq srt hn ht y e hs ho x hx, by
      obtain ⟨-, -, -, -, h⟩ := C02_car1_predict_exact srt hn ht y e hs ho x hx
      exact h⟩

/-- **C80, CARMA.** The same laws for a CARMA filter, with the autocovariance of the CARMA process. -/
theorem C80_carma_predict (srt : List ℝ → List ℕ) (hp : 2 ≤ p) {sigsqr : ℝ} (hs : 0 < sigsqr) {omega : Fin p → ℂ}
    (ho : Admissible omega) {ma : List ℝ} (hl : ma.length ≤ p) (hne : ∃ x ∈ ma, x ≠ 0) :
    PredictLaws .ok (fun _ t y e x => predp srt sigsqr omega ma t y e x) (carmaAcf sigsqr omega ma) :=
  laws_of_exact (carma_good ho hs hl hne) fun hn _ ht y e x hx =>
    ⟨predp_eq srt hn ht y e hp hs ho hl hne x hx, by
      obtain ⟨-, -, -, -, h⟩ := C04_carma_predict_exact srt hn ht y e hp hs ho hl hne x hx
      exact h⟩

lemma step_init (r : ℝ → ℝ) {n k : ℕ} (hk : k < n) (t e y : Fin n → ℝ) :
    stepMean r t e y ⟨k, hk⟩ = predMean r (t ∘ Fin.castLE hk.le) (e ∘ Fin.castLE hk.le) (y ∘ Fin.castLE hk.le) (t ⟨k, hk⟩) ∧
    stepVar r t e ⟨k, hk⟩ = predVar r (t ∘ Fin.castLE hk.le) (e ∘ Fin.castLE hk.le) (t ⟨k, hk⟩) + e ⟨k, hk⟩ ^ 2 := by
  refine ⟨rfl, ?_⟩
  simp only [stepVar, predVar, condVar]
  exact add_sub_right_comm _ _ _

/-- **C80, CAR(1), filter and predictor agree.** The mean and variance that `Filter()` leaves for measurement `k ≥ 2` are
what `Predict`, on an object holding only the measurements before it, returns for its time, with the variance of its error
added. -/
theorem C80_car1_coherent (srt srt' : List ℝ → List ℕ) {n k : ℕ} (h2 : 2 ≤ k) (hk : k < n) {t : Fin n → ℝ} (ht : StrictMono t)
    (y e : Fin n → ℝ) {sigsqr omega : ℝ} (hs : 0 < sigsqr) (ho : 0 < omega) :
    ∃ M W m w, out1 srt sigsqr omega t y e = .ok (M, W) ∧
      pred1 srt' sigsqr omega (t ∘ Fin.castLE hk.le) (y ∘ Fin.castLE hk.le) (e ∘ Fin.castLE hk.le) (t ⟨k, hk⟩) = .ok (m, w) ∧
      M[k]? = some m ∧ W[k]? = some (w + e ⟨k, hk⟩ ^ 2) := by
  refine ⟨_, _, _, _, out1_eq srt (h2.trans hk.le) ht y e hs ho,
    pred1_eq srt' h2 (ht.comp (Fin.strictMono_castLE hk.le)) _ _ hs ho _ ?_, ?_, ?_⟩
  · intro i hi
    have := ht.injective hi
    have h3 : (i : ℕ) = k := congrArg Fin.val this
    exact absurd i.2 (by omega)
  · simp [hk, (step_init _ hk t e y).1]
  · simp [hk, (step_init _ hk t e y).2]

/-- **C80, CARMA, filter and predictor agree.** -/
theorem C80_carma_coherent (srt srt' : List ℝ → List ℕ) {n k : ℕ} (h2 : 2 ≤ k) (hk : k < n) {t : Fin n → ℝ} (ht : StrictMono t)
    (y e : Fin n → ℝ) (hp : 2 ≤ p) {sigsqr : ℝ} (hs : 0 < sigsqr) {omega : Fin p → ℂ} (ho : Admissible omega)
    {ma : List ℝ} (hl : ma.length ≤ p) (hne : ∃ x ∈ ma, x ≠ 0) :
    ∃ M W m w, outp srt sigsqr omega ma t y e = .ok (M, W) ∧
      predp srt' sigsqr omega ma (t ∘ Fin.castLE hk.le) (y ∘ Fin.castLE hk.le) (e ∘ Fin.castLE hk.le) (t ⟨k, hk⟩) = .ok (m, w) ∧
      M[k]? = some m ∧ W[k]? = some (w + e ⟨k, hk⟩ ^ 2) := by
  refine ⟨_, _, _, _, outp_eq srt (h2.trans hk.le) ht y e hp hs ho hl hne,
    predp_eq srt' h2 (ht.comp (Fin.strictMono_castLE hk.le)) _ _ hp hs ho hl hne _ ?_, ?_, ?_⟩
  · intro i hi
    have := ht.injective hi
    have h3 : (i : ℕ) = k := congrArg Fin.val this
    exact absurd i.2 (by omega)
  · simp [hk, (step_init _ hk t e y).1]
  · simp [hk, (step_init _ hk t e y).2]

/-- far from the three example measurements the prediction is the unconditional law: variance 2/(2·3) = 1/3 -/
example (srt : List ℝ → List ℕ) : ∃ g : ℝ → ℝ × ℝ, (∀ x, 10 < x → pred1 srt 2 3 exT exY exY x = .ok (g x)) ∧
    Tendsto g atTop (𝓝 (0, 1 / 3)) := by
  obtain ⟨g, -, h1, h2, -⟩ := (C80_car1_predict srt two_pos three_pos).cont (by norm_num) exT_mono exY exY
  refine ⟨g, fun x hx => h1 x fun i hi => ?_, by convert h2 using 2; norm_num⟩
  exfalso
  fin_cases i <;> simp [exT] at hi <;> linarith

example (srt : List ℝ → List ℕ) : PredictLaws .ok
    (fun _ t y e x => predp srt 2 ![(-2 : ℂ), -1 + Complex.I, -1 - Complex.I] [1, 0.5] t y e x)
    (carmaAcf 2 ![(-2 : ℂ), -1 + Complex.I, -1 - Complex.I] [1, 0.5]) :=
  C80_carma_predict srt (by norm_num) two_pos ex_admissible3 (by simp) ⟨1, by simp, one_ne_zero⟩

/-- the third example measurement from the first two -/
example (srt : List ℝ → List ℕ) : ∃ M W m w, out1 srt 2 3 exT exY exY = .ok (M, W) ∧
    pred1 srt 2 3 (exT ∘ Fin.castLE (by norm_num : 2 ≤ 3)) (exY ∘ Fin.castLE (by norm_num : 2 ≤ 3))
      (exY ∘ Fin.castLE (by norm_num : 2 ≤ 3)) (exT 2) = .ok (m, w) ∧ M[2]? = some m ∧ W[2]? = some (w + exY 2 ^ 2) :=
  C80_car1_coherent srt srt le_rfl (by norm_num) exT_mono exY exY two_pos three_pos

end Verif.Props
