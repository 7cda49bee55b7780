import Verif.Theory.FStart
import Verif.Props.Safety
import Verif.Props.FSamp

/-!
Starting values of a CAR(1) run with machine numbers: C93. Specification: `Verif/Spec/FStart.lean`.
-/

namespace Verif.Props

open Verif.Model Verif.Spec Verif.Theory
open scoped Classical

lemma theta_doubles {sd sc mu l : ℝ} (h1 : F64 sd) (h2 : F64 sc) (h3 : F64 mu) (h4 : F64 l) : ∀ x ∈ [sd, sc, mu, l], F64 x := by
  intro x hx
  simp only [List.mem_cons, List.not_mem_nil, or_false] at hx
  rcases hx with rfl | rfl | rfl | rfl <;> assumption

lemma min_f64 {a b : ℝ} (ha : F64 a) (hb : F64 b) : F64 (min a b) := by
  rcases min_choice a b with h | h <;> rwa [h]

/-- **C93.** `CAR1::StartingValue` in binary64 arithmetic with any rounding mode, for times of moderate size and any numbers of moderate size from Armadillo and from the
generators: it returns, whatever was called before, four doubles. The standard deviation is positive and within a relative `2^-49` of the square root of the scaled inverse
chi-squared variate; the scale of the measurement errors is between 0.5 and 2, even if the chi-squared variate was zero; the mean is the mean of the values plus the normal
variate times the standard deviation over `n`, to `2^-48`; the last is the smaller of `-log(g u)` (to `2^-49 (1 + |log(g u)|)` if the library's `log` is accurate) and the
largest frequency. -/
theorem C93_values {A : Arith} (hA : IsBinary64 A) {ts ys es : List ℝ} {B : ℝ} (hm : MildTimes ts) (hy : ys.length = ts.length) (he : es.length = ts.length)
    (srt : List Dbl → List ℕ) {lib : StartLib} {d : StartDraws} {v m g c z u c50 : ℝ} (hi : StartInput A lib ts ys d v m g c z u c50) :
    ∃ s sd sc mu l hi, FCar1.new A srt (ts.map .fin) (ys.map .fin) (es.map .fin) (.fin B) = .ok s ∧ s.maxFreq = .fin hi ∧
      (∀ s1, Called A s s1 → ∃ s2, s1.startingValue A lib d = .ok (s2, [sd, sc, mu, min l hi].map .fin)) ∧
      (∀ x ∈ [sd, sc, mu, min l hi], F64 x) ∧ 0 < sd ∧ 1 / 2 ≤ sc ∧ sc ≤ 2 ∧
      |sd - startStdev ts.length v c| ≤ 2 ^ (-49 : ℤ) * startStdev ts.length v c ∧
      |mu - (m + z * (startStdev ts.length v c / ts.length))| ≤ 2 ^ (-48 : ℤ) * (|m| + |z| * (startStdev ts.length v c / ts.length) + 2 ^ (-1000 : ℤ)) ∧
      (Accurate A → |l - -Real.log (g * u)| ≤ 2 ^ (-49 : ℤ) * (1 + |Real.log (g * u)|)) := by
  obtain ⟨s, e, h⟩ := new_num hA (ys := ys) (es := es) (M := B) hm srt
  have h0 : 0 < ts.length := lt_of_lt_of_le (by norm_num) hm.two
  obtain ⟨sd, sc, mu, l, hf, ehf, Fhf, ed, k⟩ := start_num hA hm hy h hi
  refine ⟨s, sd, sc, mu, l, hf, e, ehf, fun s1 hc => ?_, theta_doubles k.f1 k.f2 k.f3 (min_f64 k.f4 Fhf), k.pos, k.sc1, k.sc2, k.sd, k.mu, k.l⟩
  have h1 := h.called hc
  have ed1 : s1.drawStart A lib d = s.drawStart A lib d := by
    unfold FCar1.drawStart
    rw [h1.y, h1.time, h.y, h.time, called_maxFreq hc]
  obtain ⟨s2, e2, -⟩ := hist_start (A := A) (s0 := s1) (s := s1) ⟨h1.shape h0 hy he, FLike.refl s1⟩ (θ := [sd, sc, mu, min l hf].map .fin) rfl
  refine ⟨s2, ?_⟩
  unfold FCar1.startingValue
  rw [ed1, ed, res_bind_ok, e2]
  rfl

/-! Ten times a unit apart, values 0 and 1 in turn, and draws that are exact numbers. -/

noncomputable def fstTs : List ℝ := [0, 1, 2, 3, 4, 5, 6, 7, 8, 9]
noncomputable def fstYs : List ℝ := [0, 1, 0, 1, 0, 1, 0, 1, 0, 1]
noncomputable def fstEs : List ℝ := [1, 1, 1, 1, 1, 1, 1, 1, 1, 1]

/-- variance 5/18 (rounded below as 1/4), mean 1/2, median 1 -/
noncomputable def fstLib : StartLib := ⟨fun _ => .fin (1 / 4), fun _ => .fin (1 / 2), fun _ => .fin 1⟩

noncomputable def fstDraws (u : ℝ) : StartDraws := ⟨.fin 9, .fin (-1), .fin u, .fin 0⟩

lemma fst_input (A : Arith) {u : ℝ} (h1 : 1 ≤ u) (h2 : u ≤ 50) : StartInput A fstLib fstTs fstYs (fstDraws u) (1 / 4) (1 / 2) 1 9 (-1) u 0 where
  var := rfl
  mean := rfl
  median := fun _ _ => rfl
  chi := rfl
  norm := rfl
  unif := rfl
  chi50 := rfl
  v_lo := le_trans (pw_le _ (-2) (by norm_num)) (by norm_num)
  v_hi := le_trans (by norm_num) (pw_le 0 _ (by norm_num))
  m_hi := le_trans (by rw [abs_of_pos] <;> norm_num) (pw_le 0 _ (by norm_num))
  g_lo := le_trans (pw_le _ 0 (by norm_num)) (by norm_num)
  g_hi := le_trans (by norm_num) (pw_le 0 _ (by norm_num))
  c_lo := le_trans (pw_le _ 0 (by norm_num)) (by norm_num)
  c_hi := le_trans (by norm_num) (pw_le 4 _ (by norm_num))
  z_hi := le_trans (by norm_num) (pw_le 0 _ (by norm_num))
  u_lo := h1
  u_hi := h2
  c50_lo := le_rfl

lemma fst_times : MildTimes fstTs := by
  have q1 : (2 : ℝ) ^ (-300 : ℤ) ≤ 1 := by rw [show (1 : ℝ) = 2 ^ (0 : ℤ) by norm_num]; exact pw_le _ _ (by norm_num)
  have q2 : (9 : ℝ) ≤ 2 ^ (300 : ℤ) := le_trans (by norm_num : (9 : ℝ) ≤ 2 ^ (4 : ℤ)) (pw_le _ _ (by norm_num))
  refine ⟨by simp [fstTs], by simp [fstTs], ?_, ?_⟩
  · generalize (2 : ℝ) ^ (-300 : ℤ) = q at *
    intro i hi
    simp only [fstTs, List.length_cons, List.length_nil] at hi
    have : i < 9 := by omega
    interval_cases i <;> simp [fstTs] <;> linarith
  · generalize (2 : ℝ) ^ (300 : ℤ) = q at *
    have b : ∀ t ∈ fstTs, 0 ≤ t ∧ t ≤ 9 := by
      intro t ht
      simp only [fstTs, List.mem_cons, List.not_mem_nil, or_false] at ht
      rcases ht with rfl | rfl | rfl | rfl | rfl | rfl | rfl | rfl | rfl | rfl <;> norm_num
    intro s hs t ht
    have := b s hs
    have := b t ht
    linarith

/-- the chi-squared variates 9 and 0, the normal variate -1 and the uniform variate 3: the standard deviation is `sqrt(1/4)` to `2^-50` -/
example (srt : List Dbl → List ℕ) : ∃ s s2 sd sc mu l, FCar1.new (nearest EvenBelow) srt (fstTs.map .fin) (fstYs.map .fin) (fstEs.map .fin) (.fin 5) = .ok s ∧
    s.startingValue (nearest EvenBelow) fstLib (fstDraws 3) = .ok (s2, [sd, sc, mu, l].map .fin) ∧ |sd - 1 / 2| ≤ 2 ^ (-50 : ℤ) := by
  obtain ⟨s, sd, sc, mu, l, hi, e, -, h, -, -, -, -, h1, -⟩ := C93_values (B := 5) C72_nearest fst_times (ys := fstYs) (es := fstEs) rfl rfl srt
    (fst_input (nearest EvenBelow) (u := 3) (by norm_num) (by norm_num))
  obtain ⟨s2, e2⟩ := h s .none
  refine ⟨s, s2, sd, sc, mu, _, e, e2, ?_⟩
  have : startStdev fstTs.length (1 / 4) 9 = 1 / 2 := by
    rw [startStdev, show (1 / 4 / 9 * ((fstTs.length : ℕ) - 1 : ℝ)) = (1 / 2) ^ 2 by simp [fstTs]; norm_num]
    exact Real.sqrt_sq (by norm_num)
  rw [this] at h1
  exact h1.trans (by norm_num)

/-- **C93, when the start can be used.** For data of moderate size the log-density at the values drawn is finite exactly if the standard deviation drawn is at most the bound of the
prior and the rate is within the frequency bounds; otherwise it is `-inf`. Nothing else can go wrong, and nothing is drawn again. -/
theorem C93_decides {A : Arith} (hA : IsBinary64 A) {ts ys es : List ℝ} {B : ℝ} (hm : Mild ts ys es B) (srt : List Dbl → List ℕ) {lib : StartLib} {d : StartDraws}
    {v m g c z u c50 : ℝ} (hi : StartInput A lib ts ys d v m g c z u c50) :
    ∃ s sd sc mu l, FCar1.new A srt (ts.map .fin) (ys.map .fin) (es.map .fin) (.fin B) = .ok s ∧ s.drawStart A lib d = .ok ([sd, sc, mu, l].map .fin) ∧
      ∀ s1, Called A s s1 →
        (sd ≤ B ∧ RateWithin A ts l → ∃ s2 x, FCar1.logDensity A s1 ([sd, sc, mu, l].map .fin) = .ok (s2, .fin x)) ∧
        (¬ (sd ≤ B ∧ RateWithin A ts l) → FCar1.logDensity A s1 ([sd, sc, mu, l].map .fin) = .ok (s1, .ninf)) := by
  obtain ⟨s, e, h⟩ := new_num hA (ys := ys) (es := es) (M := B) hm.toMildTimes srt
  obtain ⟨sd, sc, mu, l, hf, ehf, Fhf, ed, k⟩ := start_num hA hm.toMildTimes hm.leny h hi
  obtain ⟨s', e', hd⟩ := C72_car1_finite hA hm srt
  rw [e] at e'; cases e'
  refine ⟨s, sd, sc, mu, _, e, ed, fun s1 hc => ?_⟩
  obtain ⟨n1, n2⟩ := hd s1 hc [sd, sc, mu, min l hf] le_rfl (theta_doubles k.f1 k.f2 k.f3 (min_f64 k.f4 Fhf)) k.mu1
  refine ⟨fun ⟨hB, w, e1, e2, e3⟩ => ?_, fun hn => n1 fun ⟨w, e1, e2, e3, _, e5, _⟩ => hn ⟨e5, w, e1, e2, e3⟩⟩
  obtain ⟨s2, x, e, -⟩ := n2 ⟨w, e1, e2, e3, k.pos.le, hB, k.sc1, k.sc2⟩
  exact ⟨s2, x, e⟩

lemma fst_mild : Mild fstTs fstYs fstEs 5 := by
  refine ⟨fst_times, rfl, rfl, ?_, ?_, le_trans (by norm_num : (5 : ℝ) ≤ 2 ^ (4 : ℤ)) (pw_le _ _ (by norm_num))⟩
  · have : (1 : ℝ) ≤ 2 ^ (300 : ℤ) := by rw [show (1 : ℝ) = 2 ^ (0 : ℤ) by norm_num]; exact pw_le _ _ (by norm_num)
    generalize (2 : ℝ) ^ (300 : ℤ) = q at *
    intro y hy
    simp only [fstYs, List.mem_cons, List.not_mem_nil, or_false] at hy
    rcases hy with rfl | rfl | rfl | rfl | rfl | rfl | rfl | rfl | rfl | rfl <;> simp <;> linarith
  · intro e he
    simp only [fstEs, List.mem_cons, List.not_mem_nil, or_false, or_self] at he
    subst he
    constructor <;> (rw [show (1 : ℝ) = 2 ^ (0 : ℤ) by norm_num]; exact pw_le _ _ (by norm_num))

/-- the concrete data meet the hypotheses -/
example : Mild fstTs fstYs fstEs 5 ∧ StartInput (nearest EvenBelow) fstLib fstTs fstYs (fstDraws 3) (1 / 4) (1 / 2) 1 9 (-1) 3 0 :=
  ⟨fst_mild, fst_input _ (by norm_num) (by norm_num)⟩

/-- **C93, default rounding.** Correctly rounded `exp` does not overflow below 600. -/
theorem C93_nearest : ExpFinite (nearest EvenBelow) := by
  intro x hx
  have h0 : F64 (0 : ℝ) := f64_zero
  have h1 : F64 ((2 : ℝ) ^ (1000 : ℤ)) := ⟨2 ^ 52, 948, by norm_num, by norm_num, by norm_num, by
    push_cast
    rw [show (4503599627370496 : ℝ) = 2 ^ (52 : ℤ) by norm_num, pw_mul 52 948 1000 (by norm_num)]⟩
  have h2 : Real.exp x ≤ 2 ^ (1000 : ℤ) := by
    rw [← Real.le_log_iff_exp_le (by positivity), Real.log_zpow]
    have := Real.log_two_gt_d9
    push_cast
    linarith
  obtain ⟨r, er, -, r2⟩ := near_between (tie := EvenBelow) h0 h1 (Real.exp_pos x).le h2
  exact ⟨r, er, r2⟩

/-- a concrete value -/
example : ∃ r, (nearest EvenBelow).exp (.fin 3) = .fin r := by
  obtain ⟨r, e, -⟩ := C93_nearest 3 (by norm_num)
  exact ⟨r, e⟩

/-- what a run with starting values that are drawn amounts to -/
lemma from_eq {M : Mach} {srt : List Dbl → List ℕ} {ts ys es : List Dbl} {B : Dbl} {L : List Dbl} {obj : FCar1} {lib : StartLib} {d : StartDraws} {θ : List Dbl}
    (hset : FRun.setup M.A 4 ys = .ok (B, L)) (e : FCar1.new M.A srt ts ys es B = .ok obj) (ed : obj.drawStart M.A lib d = .ok θ)
    (N burnin thin : ℕ) (init : List Dbl) (r : FRng) :
    frunCar1From M lib srt N burnin ts ys es thin init d r = frunCar1 M srt N burnin ts ys es thin init { r with prior := fun _ => θ } := by
  unfold FRun.setup at hset
  obtain ⟨l, e1, e2⟩ := bind_ok_inv hset
  injection e2 with e2
  injection e2 with e2 e3
  unfold frunCar1From
  rw [e2, e, res_bind_ok, ed, res_bind_ok]

lemma from_usable {r : FRng} (hu : ∀ k, ¬ (r.unif k).lt (.fin 0)) {θ : List ℝ} (hθ : θ.length = 4) (hF : ∀ x ∈ θ, F64 x) :
    Usable 4 { r with prior := fun _ => θ.map .fin } := by
  refine ⟨hu, fun _ => by simpa using hθ, fun _ x hx => ?_⟩
  obtain ⟨y, hy, e⟩ := List.mem_map.mp hx
  injection e with e
  exact e ▸ hF y hy

/-- the comparison with the largest frequency changes nothing as long as some gap is at most `g u` -/
lemma start_inert {A : Arith} (hA : IsBinary64 A) (hacc : Accurate A) {ts ys es : List ℝ} {B : ℝ} {s : FCar1} (hm : MildTimes ts) (h : FObj A ts ys es B s)
    {lib : StartLib} {d : StartDraws} {v m g c z u c50 : ℝ} (hi : StartInput A lib ts ys d v m g c z u c50) {hf : ℝ} (ehf : s.maxFreq = .fin hf)
    {sd sc mu l : ℝ} (k : FDrawn A ts.length v m g c z u sd sc mu l) {i : ℕ} (hil : i + 1 < ts.length) (hg : ts.getD (i + 1) 0 - ts.getD i 0 ≤ g * u) : l ≤ hf := by
  obtain ⟨x1, x2⟩ := gu_range hi.g_lo hi.g_hi hi.u_lo hi.u_hi
  have d1 : 2 ^ (-300 : ℤ) ≤ ts.getD (i + 1) 0 - ts.getD i 0 := by have := hm.gap i hil; linarith
  have d0 : 0 < ts.getD (i + 1) 0 - ts.getD i 0 := lt_of_lt_of_le (by positivity) d1
  obtain ⟨-, t2, t3⟩ := span_num hm
  obtain ⟨r, er, hr⟩ := recip_num hA d1 ((t3 i hil).trans t2)
  have hM := h.hiM i hil
  rw [ehf, er] at hM
  exact (log_below (log_range x1 x2) d0 hg (k.l hacc) hr).trans (not_lt.mp hM)

/-- **C93, runs that work.** With an accurate library: if the product of the median gap and the uniform variate is between some gap and the time span, by a margin of `2^-40`, and the standard
deviation drawn is below the bound of the prior, then the comparison of the logarithm with the largest frequency has no effect, the run starts within the prior bounds,
and it returns `N` samples of finite doubles within the prior bounds with finite log-densities, whatever the generators give afterwards. -/
theorem C93_run_inside_partial {M : Mach} (hA : IsBinary64 M.A) (hS : Strict M.A) (hacc : Accurate M.A) (hE : ExpFinite M.A) {ts ys es : List ℝ} {B : ℝ} (hm : Mild ts ys es B)
    {L : List Dbl} (hset : FRun.setup M.A 4 (ys.map .fin) = .ok (.fin B, L)) (srt : List Dbl → List ℕ) (N burnin thin : ℕ) {init : List Dbl} (hinit : init.length ≠ 4)
    {lib : StartLib} {d : StartDraws} {v m g c z u c50 : ℝ} (hi : StartInput M.A lib ts ys d v m g c z u c50) {r : FRng} (hu : ∀ k, ¬ (r.unif k).lt (.fin 0))
    (hgap : ∃ i, i + 1 < ts.length ∧ (ts.getD (i + 1) 0 - ts.getD i 0) * (1 + 2 ^ (-40 : ℤ)) ≤ g * u)
    (hspan : g * u * (1 + 2 ^ (-40 : ℤ)) ≤ ts.getD (ts.length - 1) 0 - ts.getD 0 0) (hsd : startStdev ts.length v c * (1 + 2 ^ (-49 : ℤ)) ≤ B) :
    ∃ obj par sd sc mu l, FCar1.new M.A srt (ts.map .fin) (ys.map .fin) (es.map .fin) (.fin B) = .ok obj ∧
      obj.drawStart M.A lib d = .ok ([sd, sc, mu, l].map .fin) ∧ |l - -Real.log (g * u)| ≤ 2 ^ (-49 : ℤ) * (1 + |Real.log (g * u)|) ∧
      Within M.A ts B [sd, sc, mu, l] ∧
      frunCar1From M lib srt N burnin (ts.map .fin) (ys.map .fin) (es.map .fin) thin init d r = .ok par ∧ par.samples.length = N ∧ par.logposts.length = N ∧
      ∀ j < N, ∃ (θ : List ℝ) (x : ℝ), par.samples[j]? = some (θ.map .fin) ∧ par.logposts[j]? = some (.fin x) ∧ θ.length = 4 ∧ (∀ x ∈ θ, F64 x) ∧ Within M.A ts B θ := by
  obtain ⟨i, hil, hgu⟩ := hgap
  obtain ⟨x1, x2⟩ := gu_range hi.g_lo hi.g_hi hi.u_lo hi.u_hi
  have x0 : 0 < g * u := lt_of_lt_of_le (by positivity) x1
  obtain ⟨obj, e, h⟩ := new_num hA (ys := ys) (es := es) (M := B) hm.toMildTimes srt
  obtain ⟨sd, sc, mu, l, hf, ehf, Fhf, ed, k⟩ := start_num hA hm.toMildTimes hm.leny h hi
  obtain ⟨t1, t2, t3⟩ := span_num hm.toMildTimes
  have d1 : 2 ^ (-300 : ℤ) ≤ ts.getD (i + 1) 0 - ts.getD i 0 := by have := hm.gap i hil; linarith
  have d2 := (t3 i hil).trans t2
  obtain ⟨D, hD⟩ : ∃ D, D = ts.getD (i + 1) 0 - ts.getD i 0 := ⟨_, rfl⟩
  obtain ⟨T, hT⟩ : ∃ T, T = ts.getD (ts.length - 1) 0 - ts.getD 0 0 := ⟨_, rfl⟩
  have D0 : 0 < D := by rw [hD]; exact lt_of_lt_of_le (by positivity) d1
  have T0 : 0 < T := by rw [hT]; exact lt_of_lt_of_le (by positivity) t1
  have gD : D ≤ g * u := by
    rw [← hD] at hgu
    norm_num at hgu
    linarith
  have inert := start_inert hA hacc hm.toMildTimes h hi ehf k hil (hD ▸ gD)
  rw [min_eq_left inert] at ed
  obtain ⟨w, ew, w1, w2⟩ := rate_num hacc hE x1 x2 k.f4 (k.l hacc)
  obtain ⟨rl, erl, hrl⟩ := recip_num hA t1 t2
  obtain ⟨rh, erh, hrh⟩ := recip_num hA d1 d2
  have us : uu = 1 / 2 ^ 52 := by unfold uu; norm_num
  have lo : rl ≤ w := by
    refine hrl.bounds.2.trans (le_trans ?_ w1)
    rw [← hT, mul_one_div, div_le_div_iff₀ T0 x0, us]
    rw [← hT] at hspan
    norm_num at hspan ⊢
    nlinarith
  have hi' : w ≤ rh := by
    refine w2.trans (le_trans ?_ hrh.bounds.1)
    rw [← hD, mul_one_div, div_le_div_iff₀ x0 D0, us]
    rw [← hD] at hgu
    norm_num at hgu ⊢
    nlinarith
  have sdB : sd ≤ B := by
    have := (abs_le.mp k.sd).2
    linarith
  have hw : Within M.A ts B [sd, sc, mu, l] := ⟨w, ew, ⟨rl, lo, erl⟩, ⟨i, rh, hil, hi', erh⟩, k.pos.le, sdB, k.sc1, k.sc2⟩
  have hF := theta_doubles k.f1 k.f2 k.f3 k.f4
  obtain ⟨obj', e', θ₀, o₀, v₀, par, hst, e₀, er, n1, n2, hrec⟩ := C90_car1_run hA hS hm.toMildTimes hm.leny hm.lene hset srt N burnin thin (init := init)
    (fun h => absurd h hinit) (from_usable hu (θ := [sd, sc, mu, l]) rfl hF)
  rw [e] at e'; cases e'
  refine ⟨obj, par, sd, sc, mu, l, e, ed, k.l hacc, hw, by rw [from_eq hset e ed, er], n1, n2, fun j hj => ?_⟩
  have e0 : θ₀ = [sd, sc, mu, l].map .fin := by rw [hst, if_neg fun h => hinit h.1]
  obtain ⟨s1, e1, hd⟩ := C72_car1_finite hA hm srt
  rw [e] at e1; cases e1
  obtain ⟨s2, x, ex, -⟩ := (hd obj .none [sd, sc, mu, l] le_rfl hF k.mu1).2 hw
  have v0 : v₀.isFin := by
    rw [e0, ex] at e₀
    cases e₀
    trivial
  obtain ⟨θ, y, o, q1, q2, -, q3, -⟩ := hrec j hj
  obtain ⟨hfin, θr, rfl, k1, k2, k3⟩ := q3 v0
  obtain ⟨x', rfl⟩ := (isFin_iff _).mp hfin
  exact ⟨θr, x', q1, q2, k1, k2, k3⟩

/-- **C93, runs that cannot work.** With an accurate library: if the product of the median gap and the uniform variate exceeds the time span by a margin of `2^-40`, then the log-density at
the start is `-inf`, and all `N` samples of the run are the start. -/
theorem C93_run_outside_negation {M : Mach} (hA : IsBinary64 M.A) (hS : Strict M.A) (hacc : Accurate M.A) (hE : ExpFinite M.A) {ts ys es : List ℝ} {B : ℝ} (hm : Mild ts ys es B)
    {L : List Dbl} (hset : FRun.setup M.A 4 (ys.map .fin) = .ok (.fin B, L)) (srt : List Dbl → List ℕ) (N burnin thin : ℕ) {init : List Dbl} (hinit : init.length ≠ 4)
    {lib : StartLib} {d : StartDraws} {v m g c z u c50 : ℝ} (hi : StartInput M.A lib ts ys d v m g c z u c50) {r : FRng} (hu : ∀ k, ¬ (r.unif k).lt (.fin 0))
    (hspan : (ts.getD (ts.length - 1) 0 - ts.getD 0 0) * (1 + 2 ^ (-40 : ℤ)) ≤ g * u) :
    ∃ par θ, frunCar1From M lib srt N burnin (ts.map .fin) (ys.map .fin) (es.map .fin) thin init d r = .ok par ∧ par.samples.length = N ∧ par.logposts.length = N ∧
      ∀ j < N, par.samples[j]? = some θ ∧ par.logposts[j]? = some .ninf := by
  obtain ⟨x1, x2⟩ := gu_range hi.g_lo hi.g_hi hi.u_lo hi.u_hi
  have x0 : 0 < g * u := lt_of_lt_of_le (by positivity) x1
  obtain ⟨obj, e, h⟩ := new_num hA (ys := ys) (es := es) (M := B) hm.toMildTimes srt
  obtain ⟨sd, sc, mu, l, hf, ehf, Fhf, ed, k⟩ := start_num hA hm.toMildTimes hm.leny h hi
  obtain ⟨t1, t2, t3⟩ := span_num hm.toMildTimes
  have h01 : 0 + 1 < ts.length := hm.two
  obtain ⟨T, hT⟩ : ∃ T, T = ts.getD (ts.length - 1) 0 - ts.getD 0 0 := ⟨_, rfl⟩
  have T0 : 0 < T := by rw [hT]; exact lt_of_lt_of_le (by positivity) t1
  have gT : T ≤ g * u := by
    rw [← hT] at hspan
    norm_num at hspan
    linarith
  have inert := start_inert hA hacc hm.toMildTimes h hi ehf k h01 ((t3 0 h01).trans (hT ▸ gT))
  rw [min_eq_left inert] at ed
  obtain ⟨w, ew, -, w2⟩ := rate_num hacc hE x1 x2 k.f4 (k.l hacc)
  obtain ⟨rl, erl, hrl⟩ := recip_num hA t1 t2
  have us : uu = 1 / 2 ^ 52 := by unfold uu; norm_num
  have lo : w < rl := by
    refine w2.trans_lt (lt_of_lt_of_le ?_ hrl.bounds.1)
    rw [← hT, mul_one_div, div_lt_div_iff₀ x0 T0, us]
    rw [← hT] at hspan
    norm_num at hspan ⊢
    nlinarith
  have hw : ¬ Within M.A ts B [sd, sc, mu, l] := by
    rintro ⟨w', ew', ⟨lo', h1, h2⟩, -⟩
    rw [erl] at h2
    injection h2 with h2
    have e2 := ew.symm.trans ew'
    injection e2 with e2
    linarith
  have hF := theta_doubles k.f1 k.f2 k.f3 k.f4
  obtain ⟨obj', e', θ₀, o₀, v₀, par, hst, e₀, er, n1, n2, hrec⟩ := C90_car1_run hA hS hm.toMildTimes hm.leny hm.lene hset srt N burnin thin (init := init)
    (fun h => absurd h hinit) (from_usable hu (θ := [sd, sc, mu, l]) rfl hF)
  rw [e] at e'; cases e'
  have e0 : θ₀ = [sd, sc, mu, l].map .fin := by rw [hst, if_neg fun h => hinit h.1]
  obtain ⟨s1, e1, hd⟩ := C72_car1_finite hA hm srt
  rw [e] at e1; cases e1
  have ex := (hd obj .none [sd, sc, mu, l] le_rfl hF k.mu1).1 hw
  rw [e0, ex] at e₀
  cases e₀
  refine ⟨par, θ₀, by rw [from_eq hset e ed, er], n1, n2, fun j hj => ?_⟩
  obtain ⟨θ, y, o, q1, q2, q4, -, q3⟩ := hrec j hj
  obtain rfl := q3 id
  rw [e0, ex] at q4
  cases q4
  exact ⟨q1, q2⟩

lemma fst_setup {A : Arith} (hA : IsBinary64 A) : ∃ B L, FRun.setup A 4 (fstYs.map .fin) = .ok (.fin B, L) ∧ 1 ≤ B ∧ B ≤ 10 := by
  have e1 : popVariance (n := 10) ![0, 1, 0, 1, 0, 1, 0, 1, 0, 1] = 1 / 4 := by simp [popVariance, Fin.sum_univ_succ]; norm_num
  have e2 : meanSquare (n := 10) ![0, 1, 0, 1, 0, 1, 0, 1, 0, 1] = 1 / 2 := by simp [meanSquare, Fin.sum_univ_succ]; norm_num
  have h : ModerateValues (n := 10) ![0, 1, 0, 1, 0, 1, 0, 1, 0, 1] := by
    refine ⟨by norm_num, by norm_num, ?_, ?_⟩
    · rw [e2]; exact le_trans (pw_le (-300) (-1) (by norm_num)) (by norm_num)
    · rw [e2]; exact le_trans (by norm_num) (pw_le 0 300 (by norm_num))
  obtain ⟨B, L, h1, h2, -, -⟩ := C89_setup_partial hA h 4 (δ := 96 * 2 ^ (-52 : ℤ)) (by rw [e1, e2]; push_cast; ring) (by rw [e1, e2]; norm_num)
  rw [e1] at h2
  have s1 : √(1 / 4 : ℝ) = 1 / 2 := by rw [show (1 / 4 : ℝ) = (1 / 2) ^ 2 by norm_num]; exact Real.sqrt_sq (by norm_num)
  rw [s1] at h2
  obtain ⟨h3, h4⟩ := abs_le.mp h2
  norm_num at h3 h4
  refine ⟨B, L, by simpa [List.ofFn_succ, fstYs] using h1, ?_, ?_⟩ <;> linarith

lemma fst_stdev : startStdev fstTs.length (1 / 4) 9 = 1 / 2 := by
  rw [startStdev, show (1 / 4 / 9 * ((fstTs.length : ℕ) - 1 : ℝ)) = (1 / 2) ^ 2 by simp [fstTs]; norm_num]
  exact Real.sqrt_sq (by norm_num)

/-- uniform variate 3, median gap 1, time span 9: a run of five samples works even if every Student t variate is NaN -/
example (srt : List Dbl → List ℕ) : ∃ par, frunCar1From fsMach fstLib srt 5 7 (fstTs.map .fin) (fstYs.map .fin) (fstEs.map .fin) 2 [] (fstDraws 3) (fsRng .nan) = .ok par ∧
    ∀ j < 5, ∃ x, par.logposts[j]? = some (.fin x) := by
  obtain ⟨B, L, hset, b1, b2⟩ := fst_setup C72_nearest
  have hm : Mild fstTs fstYs fstEs B := { fst_mild with stdev := b2.trans (le_trans (by norm_num : (10 : ℝ) ≤ 2 ^ (4 : ℤ)) (pw_le _ _ (by norm_num))) }
  obtain ⟨-, par, -, -, -, -, -, -, -, -, h, -, -, hr⟩ := C93_run_inside_partial (M := fsMach) C72_nearest C90_nearest C75_nearest C93_nearest hm hset srt 5 7 2 (init := []) (by simp)
    (fst_input _ (u := 3) (by norm_num) (by norm_num)) (fs_usable .nan).unif ⟨0, by simp [fstTs], by simp [fstTs]; norm_num⟩ (by simp [fstTs]; norm_num)
    (by rw [fst_stdev]; norm_num; linarith)
  refine ⟨par, h, fun j hj => ?_⟩
  obtain ⟨-, x, -, h2, -⟩ := hr j hj
  exact ⟨x, h2⟩

/-- uniform variate 12: the same run never moves -/
example (srt : List Dbl → List ℕ) : ∃ par θ, frunCar1From fsMach fstLib srt 5 7 (fstTs.map .fin) (fstYs.map .fin) (fstEs.map .fin) 2 [] (fstDraws 12) (fsRng (.fin 1)) = .ok par ∧
    ∀ j < 5, par.samples[j]? = some θ ∧ par.logposts[j]? = some .ninf := by
  obtain ⟨B, L, hset, b1, b2⟩ := fst_setup C72_nearest
  have hm : Mild fstTs fstYs fstEs B := { fst_mild with stdev := b2.trans (le_trans (by norm_num : (10 : ℝ) ≤ 2 ^ (4 : ℤ)) (pw_le _ _ (by norm_num))) }
  obtain ⟨par, θ, h, -, -, hr⟩ := C93_run_outside_negation (M := fsMach) C72_nearest C90_nearest C75_nearest C93_nearest hm hset srt 5 7 2 (init := []) (by simp)
    (fst_input _ (u := 12) (by norm_num) (by norm_num)) (fs_usable (.fin 1)).unif (by simp [fstTs]; norm_num)
  exact ⟨par, θ, h, hr⟩

/-! ### without rounding -/

/-- the draws of the model with real numbers -/
noncomputable def drawsOf (r : Rng) : StartDraws := ⟨.fin (r.chi2 0), .fin (r.norm 0), .fin (1 + (50 - 1) * r.unif 0), .fin (r.chi2 1)⟩

/-- same draws, same vector -/
lemma draw_exact {n : ℕ} {s s' : Car1} {f : FCar1} (h : CRel n s f) {lib : StartLib} (hl : ExactLib lib) {r r' : Rng} {θ : List ℝ} (e : s.start r = .ok (s', θ, r')) :
    f.drawStart Arith.exact lib (drawsOf r) = .ok (θ.map .fin) := by
  unfold Car1.start at e
  dsimp only [Rng.nextC, Rng.nextN, Rng.nextU] at e
  obtain ⟨v, e1, e⟩ := bind_ok_inv e
  obtain ⟨sd, e2, e⟩ := bind_ok_inv e
  obtain ⟨dt, e3, e⟩ := bind_ok_inv e
  obtain ⟨med, e4, e⟩ := bind_ok_inv e
  obtain ⟨l, e5, e⟩ := bind_ok_inv e
  obtain ⟨lo, e6, e⟩ := bind_ok_inv e
  obtain ⟨⟨scale, r2⟩, e7, e⟩ := bind_ok_inv e
  obtain ⟨kf, -, e⟩ := bind_ok_inv e
  cases e
  have chi : ∀ {k : ℕ} {a c x : ℝ}, scaledInvChi2 k a c = .ok x → FCar1.scaledInvChi Arith.exact k (.fin a) (.fin c) = .fin x := by
    intro k a c x hx
    unfold scaledInvChi2 dv at hx
    by_cases hc : c = 0
    · rw [if_pos hc] at hx; cases hx
    · rw [if_neg hc] at hx
      cases hx
      unfold FCar1.scaledInvChi
      rw [exf_div _ hc]
      rfl
  have hsd : Arith.exact.sqrt (.fin v) = .fin sd := by
    unfold sqrtR at e2
    by_cases hv : v < 0
    · rw [if_pos hv] at e2; cases e2
    · rw [if_neg hv] at e2
      cases e2
      show (if v < 0 then Dbl.nan else _) = _
      rw [if_neg hv]
  have hlog : Arith.exact.log (.fin (med * (1 + (50 - 1) * r.unif 0))) = .fin l := by
    unfold logR at e5
    by_cases hp : 0 < med * (1 + (50 - 1) * r.unif 0)
    · rw [if_pos hp] at e5
      cases e5
      simp only [Arith.exact, Dbl.log, if_pos hp]
    · rw [if_neg hp] at e5; cases e5
  have hlo : Dbl.min (.fin (-1 * l)) s.b.maxFreq = .fin lo := by
    generalize Dbl.min (.fin (-1 * l)) s.b.maxFreq = q at e6 ⊢
    cases q <;> cases e6
    rfl
  have hsc : ∃ m, FCar1.scaledInvChi Arith.exact 50 (.fin 1) (.fin (r.chi2 1)) = .fin m ∧ scale = max (min m 1.99) 0.51 := by
    unfold startScale at e7
    dsimp only [Rng.nextC] at e7
    obtain ⟨m, e8, e7⟩ := bind_ok_inv e7
    cases e7
    exact ⟨m, chi e8, rfl⟩
  obtain ⟨m, hm, rfl⟩ := hsc
  unfold FCar1.drawStart drawsOf
  dsimp only
  rw [h.y, h.time, diffs_exact, e3, hl.var, hl.mean, List.length_map, chi e1, hsd]
  show Except.ok [_, _, _, _] = _
  rw [hl.median _ _ e4, h.hi, hm]
  show Except.ok [_, _, _, Dbl.min (Arith.exact.mul _ (Arith.exact.log (.fin _))) _] = _
  rw [hlog, exf_mul, hlo]
  show Except.ok [_, Dbl.max (Dbl.min (.fin m) (.fin 1.99)) (.fin 0.51), _, _] = _
  rw [min_fin, max_fin]
  have hmu : Arith.exact.add (Arith.exact.mul (.fin (r.norm 0)) (Arith.exact.div (.fin sd) (Arith.exact.rnd (s.b.y.length : ℕ)))) (.fin (armaMean s.b.y)) =
      .fin (armaMean s.b.y + sd / s.b.y.length * r.norm 0) := by
    have h0 : (s.b.y.length : ℝ) ≠ 0 := by
      have : 2 ≤ s.b.time.length := by
        by_contra hc
        unfold diffs at e3
        rw [if_pos (by omega)] at e3
        cases e3
      have := h.ltime
      have := h.ly
      exact Nat.cast_ne_zero.mpr (by omega)
    show Arith.exact.add (Arith.exact.mul _ (Arith.exact.div _ (.fin (s.b.y.length : ℝ)))) _ = _
    rw [exf_div _ h0, exf_mul, exf_add]
    congr 1
    ring
  rw [hmu]
  rfl

/-- **C93, without rounding.** With exact arithmetic and exact vector functions the machine model of `StartingValue` is the model with real numbers: for strictly increasing times both objects are
built, and both functions return with the same vector, for all draws in the ranges of their distributions. -/
theorem C93_exact {n : ℕ} (hn : 2 ≤ n) {t : Fin n → ℝ} (ht : StrictMono t) (y e : Fin n → ℝ) (srt : List ℝ → List ℕ) (srt' : List Dbl → List ℕ) {lib : StartLib} (hl : ExactLib lib)
    {r : Rng} (c0 : 0 < r.chi2 0) (c1 : 0 < r.chi2 1) (hu : 0 ≤ r.unif 0) :
    ∃ s f s' f' θ r', Car1.new srt (List.ofFn t) (List.ofFn y) (List.ofFn e) = .ok s ∧
      FCar1.new Arith.exact srt' ((List.ofFn t).map .fin) ((List.ofFn y).map .fin) ((List.ofFn e).map .fin) (.fin (10 * √(armaVar (List.ofFn y)))) = .ok f ∧
      s.start r = .ok (s', θ, r') ∧ f.startingValue Arith.exact lib (drawsOf r) = .ok (f', θ.map .fin) := by
  obtain ⟨s, f, h1, h2, h⟩ := crel_new (ts := List.ofFn t) (ys := List.ofFn y) (es := List.ofFn e) (by simpa using hn) (by simp) (by simp) (fun i hi => by
    have hi' : i + 1 < n := by simpa using hi
    rw [List.getD_eq_getElem _ _ (by simp; omega), List.getD_eq_getElem _ _ hi]
    simp only [List.getElem_ofFn]
    exact ht (by simp)) srt srt'
  obtain ⟨o, b, dmin, span, g1, g2, g3, g4, -, -, -, g7, -⟩ := run_solid1 srt hn ht y e s.b.maxStdev
  rw [h1] at g1
  cases g1
  have hb : b = s.b := by
    have := setPrior_again g2 s.b.maxStdev
    rw [g3] at this
    injection this
  subst hb
  obtain ⟨s', med, sd, scale, mu, -, -, k⟩ := car1_start_total hn ht g4 (new_time g2) g7 g4.core c0 c1 hu
  have k' : s.start r = .ok (s', _, _) := k
  have hd := draw_exact h hl k'
  obtain ⟨-, -, -, hs⟩ := start_sim (by simp; omega) h k'
  obtain ⟨f', e1, -⟩ := hs ⟨fun _ => .nan, fun _ => .nan, fun _ => _, fun _ => .nan⟩ rfl
  refine ⟨s, f, s', f', _, _, h1, h2, k', ?_⟩
  unfold FCar1.start at e1
  obtain ⟨f2, e2, e1⟩ := bind_ok_inv e1
  cases e1
  unfold FCar1.startingValue
  rw [hd, res_bind_ok]
  have e3 : FCar1.startFilter Arith.exact f (([sd, scale, mu, min (-Real.log (med * (1 + (50 - 1) * r.unif 0))) (1 / dmin)] : List ℝ).map .fin) = .ok f' := e2
  rw [e3]
  rfl

/-- exact vector functions exist, and the draws 1, 1 and 1/2 are in range: times 0, 1, 10 -/
example (srt : List ℝ → List ℕ) (srt' : List Dbl → List ℕ) {lib : StartLib} (hl : ExactLib lib) : ∃ s s' θ r', Car1.new srt (List.ofFn exT) (List.ofFn exY) (List.ofFn exT) = .ok s ∧
    s.start exRng = .ok (s', θ, r') := by
  obtain ⟨s, f, s', f', θ, r', h1, -, h2, -⟩ := C93_exact (by norm_num) exT_mono exY exT srt srt' hl (r := exRng) (by norm_num [exRng]) (by norm_num [exRng]) (by norm_num [exRng])
  exact ⟨s, s', θ, r', h1, h2⟩

/-- such functions -/
noncomputable def exactLib : StartLib where
  var l := .fin (armaVar (l.map fun | .fin x => x | _ => 0))
  mean l := .fin (armaMean (l.map fun | .fin x => x | _ => 0))
  median l := match armaMedian (l.map fun | .fin x => x | _ => 0) with | .ok x => .fin x | .error _ => .nan

lemma exact_lib : ExactLib exactLib := by
  have e : ∀ l : List ℝ, (l.map Dbl.fin).map (fun | .fin x => x | _ => 0) = l := fun l => by simp [Function.comp_def]
  refine ⟨fun l => ?_, fun l => ?_, fun l x hx => ?_⟩
  · simp only [exactLib]; rw [e]
  · simp only [exactLib]; rw [e]
  · simp only [exactLib]; rw [e, hx]

end Verif.Props
