import Verif.Theory.Equi
import Verif.Props.Car1
import Verif.Props.Carma
import Verif.Props.Spectrum
import Verif.Props.LogPost
import Verif.Theory.Frame

/-!
Property C17: linearity of the filters in the data, and behaviour under a shift of the times, a change of units and a reversal of time.
-/

namespace Verif.Props

open Verif.Model Verif.Spec Verif.Theory

variable {p : ℕ}

/-- the vectors `mean` and `var` after `Filter()` on a new CAR(1) filter -/
noncomputable def out1 (srt : List ℝ → List ℕ) (sigsqr omega : ℝ) {n : ℕ} (t y e : Fin n → ℝ) : Res (List ℝ × List ℝ) := do
  let s ← KF1.new srt (List.ofFn t) (List.ofFn y) (List.ofFn e) sigsqr omega
  let s ← Kalman.filter s
  return (s.b.mean, s.b.var)

/-- the same for a CARMA filter -/
noncomputable def outp (srt : List ℝ → List ℕ) (sigsqr : ℝ) (omega : Fin p → ℂ) (ma : List ℝ) {n : ℕ} (t y e : Fin n → ℝ) :
    Res (List ℝ × List ℝ) := do
  let s ← KFp.new srt (List.ofFn t) (List.ofFn y) (List.ofFn e) sigsqr omega ma
  let s ← Kalman.filter s
  return (s.b.mean, s.b.var)

/-- mean and variance returned by `Predict(x)` on a new CAR(1) filter -/
noncomputable def pred1 (srt : List ℝ → List ℕ) (sigsqr omega : ℝ) {n : ℕ} (t y e : Fin n → ℝ) (x : ℝ) : Res (ℝ × ℝ) := do
  let s ← KF1.new srt (List.ofFn t) (List.ofFn y) (List.ofFn e) sigsqr omega
  let r ← Kalman.predict s x
  return r.2

/-- the same for a CARMA filter -/
noncomputable def predp (srt : List ℝ → List ℕ) (sigsqr : ℝ) (omega : Fin p → ℂ) (ma : List ℝ) {n : ℕ} (t y e : Fin n → ℝ) (x : ℝ) :
    Res (ℝ × ℝ) := do
  let s ← KFp.new srt (List.ofFn t) (List.ofFn y) (List.ofFn e) sigsqr omega ma
  let r ← Kalman.predict s x
  return r.2

lemma zipWith_ofFn' {n : ℕ} (f : ℝ → ℝ → ℝ) (u v : Fin n → ℝ) :
    List.zipWith f (List.ofFn u) (List.ofFn v) = List.ofFn fun i => f (u i) (v i) := by
  refine List.ext_getElem (by simp) fun i h1 h2 => by simp

lemma out1_eq (srt : List ℝ → List ℕ) {n : ℕ} (hn : 2 ≤ n) {t : Fin n → ℝ} (ht : StrictMono t)
    (y e : Fin n → ℝ) {sigsqr omega : ℝ} (hs : 0 < sigsqr) (ho : 0 < omega) :
    out1 srt sigsqr omega t y e = .ok (List.ofFn (stepMean (car1Acf sigsqr omega) t e y), List.ofFn (stepVar (car1Acf sigsqr omega) t e)) := by
  obtain ⟨s, h1, h2, h3⟩ := C01_car1_filter_exact srt hn ht y e hs ho
  obtain ⟨s0, g1, g2⟩ := bind_ok_inv h1
  rw [out1, g1, res_bind_ok, g2, res_bind_ok, h2, h3]; rfl

lemma outp_eq (srt : List ℝ → List ℕ) {n : ℕ} (hn : 2 ≤ n) {t : Fin n → ℝ} (ht : StrictMono t)
    (y e : Fin n → ℝ) (hp : 2 ≤ p) {sigsqr : ℝ} (hs : 0 < sigsqr) {omega : Fin p → ℂ} (ho : Admissible omega)
    {ma : List ℝ} (hl : ma.length ≤ p) (hne : ∃ x ∈ ma, x ≠ 0) :
    outp srt sigsqr omega ma t y e =
      .ok (List.ofFn (stepMean (carmaAcf sigsqr omega ma) t e y), List.ofFn (stepVar (carmaAcf sigsqr omega ma) t e)) := by
  obtain ⟨s, h1, h2, h3⟩ := C03_carma_filter_exact srt hn ht y e hp hs ho hl hne
  obtain ⟨s0, g1, g2⟩ := bind_ok_inv h1
  rw [outp, g1, res_bind_ok, g2, res_bind_ok, h2, h3]; rfl

lemma pred1_eq (srt : List ℝ → List ℕ) {n : ℕ} (hn : 2 ≤ n) {t : Fin n → ℝ} (ht : StrictMono t)
    (y e : Fin n → ℝ) {sigsqr omega : ℝ} (hs : 0 < sigsqr) (ho : 0 < omega) (x : ℝ) (hx : ∀ i, t i = x → e i ≠ 0) :
    pred1 srt sigsqr omega t y e x = .ok (predMean (car1Acf sigsqr omega) t e y x, predVar (car1Acf sigsqr omega) t e x) := by
  obtain ⟨s, s', h1, h2, -⟩ := C02_car1_predict_exact srt hn ht y e hs ho x hx
  rw [pred1, h1, res_bind_ok, h2]; rfl

lemma predp_eq (srt : List ℝ → List ℕ) {n : ℕ} (hn : 2 ≤ n) {t : Fin n → ℝ} (ht : StrictMono t)
    (y e : Fin n → ℝ) (hp : 2 ≤ p) {sigsqr : ℝ} (hs : 0 < sigsqr) {omega : Fin p → ℂ} (ho : Admissible omega)
    {ma : List ℝ} (hl : ma.length ≤ p) (hne : ∃ x ∈ ma, x ≠ 0) (x : ℝ) (hx : ∀ i, t i = x → e i ≠ 0) :
    predp srt sigsqr omega ma t y e x = .ok (predMean (carmaAcf sigsqr omega ma) t e y x, predVar (carmaAcf sigsqr omega ma) t e x) := by
  obtain ⟨s, s', h1, h2, -⟩ := C04_carma_predict_exact srt hn ht y e hp hs ho hl hne x hx
  rw [predp, h1, res_bind_ok, h2]; rfl

lemma car1Acf_mul (c sigsqr omega : ℝ) : car1Acf (c ^ 2 * sigsqr) omega = fun x => c ^ 2 * car1Acf sigsqr omega x := by
  funext x; simp only [car1Acf]; ring

lemma carmaAcf_mul (c sigsqr : ℝ) (omega : Fin p → ℂ) (ma : List ℝ) :
    carmaAcf (c ^ 2 * sigsqr) omega ma = fun x => c ^ 2 * carmaAcf sigsqr omega ma x := by
  funext x; rw [carmaAcf_scale, carmaAcf_scale (σ2 := sigsqr)]; ring

/-- **C17, CAR(1) filter.** Means are linear in the data and variances do not depend on them; a shift of all times changes nothing;
multiplying data and errors by `c` and the driving variance by `c²` multiplies means by `c` and variances by `c²`. -/
theorem C17_car1_filter (srt : List ℝ → List ℕ) {n : ℕ} (hn : 2 ≤ n) {t : Fin n → ℝ} (ht : StrictMono t)
    (y z e : Fin n → ℝ) {sigsqr omega : ℝ} (hs : 0 < sigsqr) (ho : 0 < omega) (a b d : ℝ) {c : ℝ} (hc : c ≠ 0) :
    ∃ m m' w : List ℝ, m.length = n ∧ m'.length = n ∧ w.length = n ∧
      out1 srt sigsqr omega t y e = .ok (m, w) ∧ out1 srt sigsqr omega t z e = .ok (m', w) ∧
      out1 srt sigsqr omega t (fun i => a * y i + b * z i) e = .ok (List.zipWith (fun u v => a * u + b * v) m m', w) ∧
      out1 srt sigsqr omega (fun i => t i + d) y e = .ok (m, w) ∧
      out1 srt (c ^ 2 * sigsqr) omega t (fun i => c * y i) (fun i => c * e i) = .ok (m.map (c * ·), w.map (c ^ 2 * ·)) := by
  have hc2 : 0 < c ^ 2 * sigsqr := by positivity
  have ht' : StrictMono fun i => t i + d := fun i j h => add_lt_add_left (ht h) d
  refine ⟨_, _, _, by simp, by simp, by simp, out1_eq srt hn ht y e hs ho, out1_eq srt hn ht z e hs ho, ?_, ?_, ?_⟩
  · rw [out1_eq srt hn ht _ e hs ho]
    rw [zipWith_ofFn', funext (stepMean_lin _ t e y z a b)]
  · rw [out1_eq srt hn ht' y e hs ho]
    rw [funext (stepMean_shift _ t e y d), funext (stepVar_shift _ t e d)]
  · rw [out1_eq srt hn ht _ _ hc2 ho, car1Acf_mul, List.map_ofFn, List.map_ofFn]
    rw [funext (stepMean_scale _ t e y hc), funext (stepVar_scale _ t e hc)]; rfl

/-- **C17, CARMA filter.** -/
theorem C17_carma_filter (srt : List ℝ → List ℕ) {n : ℕ} (hn : 2 ≤ n) {t : Fin n → ℝ} (ht : StrictMono t)
    (y z e : Fin n → ℝ) (hp : 2 ≤ p) {sigsqr : ℝ} (hs : 0 < sigsqr) {omega : Fin p → ℂ} (ho : Admissible omega)
    {ma : List ℝ} (hl : ma.length ≤ p) (hne : ∃ x ∈ ma, x ≠ 0) (a b d : ℝ) {c : ℝ} (hc : c ≠ 0) :
    ∃ m m' w : List ℝ, m.length = n ∧ m'.length = n ∧ w.length = n ∧
      outp srt sigsqr omega ma t y e = .ok (m, w) ∧ outp srt sigsqr omega ma t z e = .ok (m', w) ∧
      outp srt sigsqr omega ma t (fun i => a * y i + b * z i) e = .ok (List.zipWith (fun u v => a * u + b * v) m m', w) ∧
      outp srt sigsqr omega ma (fun i => t i + d) y e = .ok (m, w) ∧
      outp srt (c ^ 2 * sigsqr) omega ma t (fun i => c * y i) (fun i => c * e i) = .ok (m.map (c * ·), w.map (c ^ 2 * ·)) := by
  have hc2 : 0 < c ^ 2 * sigsqr := by positivity
  have ht' : StrictMono fun i => t i + d := fun i j h => add_lt_add_left (ht h) d
  refine ⟨_, _, _, by simp, by simp, by simp, outp_eq srt hn ht y e hp hs ho hl hne, outp_eq srt hn ht z e hp hs ho hl hne, ?_, ?_, ?_⟩
  · rw [outp_eq srt hn ht _ e hp hs ho hl hne]
    rw [zipWith_ofFn', funext (stepMean_lin _ t e y z a b)]
  · rw [outp_eq srt hn ht' y e hp hs ho hl hne]
    rw [funext (stepMean_shift _ t e y d), funext (stepVar_shift _ t e d)]
  · rw [outp_eq srt hn ht _ _ hp hc2 ho hl hne, carmaAcf_mul, List.map_ofFn, List.map_ofFn]
    rw [funext (stepMean_scale _ t e y hc), funext (stepVar_scale _ t e hc)]; rfl

/-- the same equations for `Predict`, and its invariance under reversal of time -/
structure PredEqui {n : ℕ} (f : ℝ → (Fin n → ℝ) → (Fin n → ℝ) → (Fin n → ℝ) → ℝ → Res (ℝ × ℝ)) (sigsqr : ℝ) (t y z e : Fin n → ℝ)
    (x a b c d m m' v : ℝ) : Prop where
  first : f sigsqr t y e x = .ok (m, v)
  second : f sigsqr t z e x = .ok (m', v)
  linear : f sigsqr t (fun i => a * y i + b * z i) e x = .ok (a * m + b * m', v)
  shift : f sigsqr (fun i => t i + d) y e (x + d) = .ok (m, v)
  scale : f (c ^ 2 * sigsqr) t (fun i => c * y i) (fun i => c * e i) x = .ok (c * m, c ^ 2 * v)
  reverse : f sigsqr (fun i => -t i.rev) (fun i => y i.rev) (fun i => e i.rev) (-x) = .ok (m, v)

/-- **C17, CAR(1) prediction.** Predicted means are linear in the data; shifts, changes of units and reversal of time act as they should. -/
theorem C17_car1_predict (srt : List ℝ → List ℕ) {n : ℕ} (hn : 2 ≤ n) {t : Fin n → ℝ} (ht : StrictMono t)
    (y z e : Fin n → ℝ) {sigsqr omega : ℝ} (hs : 0 < sigsqr) (ho : 0 < omega) (a b d : ℝ) {c : ℝ} (hc : c ≠ 0) (x : ℝ)
    (hx : ∀ i, t i = x → e i ≠ 0) :
    ∃ m m' v, PredEqui (fun s => pred1 srt s omega) sigsqr t y z e x a b c d m m' v := by
  have hc2 : 0 < c ^ 2 * sigsqr := by positivity
  have ht' : StrictMono fun i => t i + d := fun i j h => add_lt_add_left (ht h) d
  have hr : StrictMono fun i : Fin n => -t i.rev := fun i j h => neg_lt_neg (ht (Fin.rev_lt_rev.mpr h))
  refine ⟨_, _, _, pred1_eq srt hn ht y e hs ho x hx, pred1_eq srt hn ht z e hs ho x hx, ?_, ?_, ?_, ?_⟩
  · rw [pred1_eq srt hn ht _ e hs ho x hx, predMean_lin]
  · rw [pred1_eq srt hn ht' y e hs ho (x + d) fun i h => hx i (by linarith), predMean_shift, predVar_shift]
  · rw [pred1_eq srt hn ht _ _ hc2 ho x fun i h => mul_ne_zero hc (hx i h), car1Acf_mul, predMean_scale _ _ _ _ hc, predVar_scale _ _ _ hc]
  · rw [pred1_eq srt hn hr _ _ hs ho (-x) fun i h => hx _ (by linarith), predMean_rev, predVar_rev]

/-- **C17, CARMA prediction.** -/
theorem C17_carma_predict (srt : List ℝ → List ℕ) {n : ℕ} (hn : 2 ≤ n) {t : Fin n → ℝ} (ht : StrictMono t)
    (y z e : Fin n → ℝ) (hp : 2 ≤ p) {sigsqr : ℝ} (hs : 0 < sigsqr) {omega : Fin p → ℂ} (ho : Admissible omega)
    {ma : List ℝ} (hl : ma.length ≤ p) (hne : ∃ x ∈ ma, x ≠ 0) (a b d : ℝ) {c : ℝ} (hc : c ≠ 0) (x : ℝ) (hx : ∀ i, t i = x → e i ≠ 0) :
    ∃ m m' v, PredEqui (fun s => predp srt s omega ma) sigsqr t y z e x a b c d m m' v := by
  have hc2 : 0 < c ^ 2 * sigsqr := by positivity
  have ht' : StrictMono fun i => t i + d := fun i j h => add_lt_add_left (ht h) d
  have hr : StrictMono fun i : Fin n => -t i.rev := fun i j h => neg_lt_neg (ht (Fin.rev_lt_rev.mpr h))
  refine ⟨_, _, _, predp_eq srt hn ht y e hp hs ho hl hne x hx, predp_eq srt hn ht z e hp hs ho hl hne x hx, ?_, ?_, ?_, ?_⟩
  · rw [predp_eq srt hn ht _ e hp hs ho hl hne x hx, predMean_lin]
  · rw [predp_eq srt hn ht' y e hp hs ho hl hne (x + d) fun i h => hx i (by linarith), predMean_shift, predVar_shift]
  · rw [predp_eq srt hn ht _ _ hp hc2 ho hl hne x fun i h => mul_ne_zero hc (hx i h), carmaAcf_mul, predMean_scale _ _ _ _ hc,
      predVar_scale _ _ _ hc]
  · rw [predp_eq srt hn hr _ _ hp hs ho hl hne (-x) fun i h => hx _ (by linarith), predMean_rev, predVar_rev]

/-- a series in other units and on another clock -/
example (srt : List ℝ → List ℕ) : ∃ m m' v, PredEqui (fun s => pred1 srt s 3) 2 exT exY exY exY 0.5 1 (-2) 1000 7 m m' v :=
  C17_car1_predict srt (by norm_num) exT_mono exY exY exY two_pos three_pos 1 (-2) 7 (by norm_num) 0.5 (by
    intro i; fin_cases i <;> simp [exT, exY] <;> norm_num)

example (srt : List ℝ → List ℕ) : ∃ m m' v,
    PredEqui (fun s => predp srt s ![(-2 : ℂ), -1 + Complex.I, -1 - Complex.I] [1, 0.5]) 2 exT exY exY exY 0.5 1 (-2) 1000 7 m m' v :=
  C17_carma_predict srt (by norm_num) exT_mono exY exY exY (by norm_num) two_pos ex_admissible3 (by simp) ⟨1, by simp, one_ne_zero⟩
    1 (-2) 7 (by norm_num) 0.5 (by intro i; fin_cases i <;> simp [exT, exY] <;> norm_num)

end Verif.Props
