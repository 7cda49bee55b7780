import Verif.Theory.FExact
import Verif.Theory.FConstruct
import Verif.Theory.Nearest
import Verif.Props.LogPost

/-!
The CAR(1) log-density in floating-point arithmetic: C72, C73, C74.
Specification: `Verif/Spec/Binary64.lean`.
-/

namespace Verif.Props

open Verif.Model Verif.Spec Verif.Theory
open scoped Classical

/-- **C72.** In binary64 arithmetic with any rounding mode, for data of moderate size and any number of observations, the CAR(1)
object is constructed, and after any earlier calls `LogDensity` returns for every `theta` of at least four doubles with
`|theta(2)| <= 2^300`: `-inf` outside the prior bounds, a finite number inside. Inside them every computed mean is finite, and
every computed variance is at least the computed error variance of its observation, so it is positive. -/
theorem C72_car1_finite {A : Arith} (hA : IsBinary64 A) {ts ys es : List ℝ} {M : ℝ} (hm : Mild ts ys es M) (srt : List Dbl → List ℕ) :
    ∃ s, FCar1.new A srt (ts.map .fin) (ys.map .fin) (es.map .fin) (.fin M) = .ok s ∧
      ∀ s1, Called A s s1 → ∀ θ : List ℝ, 4 ≤ θ.length → (∀ x ∈ θ, F64 x) → |θ.getD 2 0| ≤ 2 ^ (300 : ℤ) →
        (¬ Within A ts M θ → FCar1.logDensity A s1 (θ.map .fin) = .ok (s1, .ninf)) ∧
        (Within A ts M θ → ∃ s2 v, FCar1.logDensity A s1 (θ.map .fin) = .ok (s2, .fin v) ∧
          ∀ i < ts.length, ∃ m v p E, s2.kf.mean[i]? = some (.fin m) ∧ s2.kf.var[i]? = some (.fin v) ∧ |m| ≤ 2 ^ (302 : ℤ) ∧
            A.mul (A.sqrt (.fin (θ.getD 1 0))) (.fin (es.getD i 0)) = .fin p ∧ A.mul (.fin p) (.fin p) = .fin E ∧
            2 ^ (-298 : ℤ) ≤ E ∧ E ≤ v ∧ v ≤ 2 ^ (300 : ℤ)) := by
  obtain ⟨s, e, h⟩ := new_num hA (ys := ys) (es := es) (M := M) hm.toMildTimes srt
  refine ⟨s, e, fun s1 hc θ hl hF hmu => ⟨fun hn => ?_, fun hw => ?_⟩⟩
  · have h1 := h.called hc
    rcases within_num hA h1 hl with ⟨hw, -⟩ | ⟨-, hf⟩
    · exact absurd ((inBounds_iff h1).mp hw) hn
    · simp only [FCar1.logDensity, hf, res_bind_ok, if_pos]
      rfl
  · have h1 := h.called hc
    exact logdens_num hA hm h1 hl hF hmu ((inBounds_iff h1).mpr hw)

/-- **C72, default rounding.** Rounding to nearest with ties to even, and correctly rounded `exp`, `log` and `sqrt`, is such an
arithmetic. -/
theorem C72_nearest : IsBinary64 (nearest EvenBelow) := nearest_isBinary64 _

/-! Times 0, 1, 2^60 and values 0, 1, 2. -/

lemma fl_w : ∃ w, (nearest EvenBelow).exp (.fin (-40)) = .fin w ∧ F64 w ∧ 2 ^ (-60 : ℤ) ≤ w ∧ w ≤ 2 ^ (-57 : ℤ) := by
  have e40 : Real.exp (-40) = (Real.exp 1 ^ 40)⁻¹ := by
    rw [← Real.exp_nat_mul, ← Real.exp_neg]; norm_num
  have u : Real.exp 1 ^ 40 ≤ 2 ^ 60 :=
    (pow_le_pow_left₀ (Real.exp_pos 1).le (Real.exp_one_lt_d9.le.trans (by norm_num : (2.7182818286 : ℝ) ≤ 2.72)) 40).trans (by norm_num)
  have l : (2 : ℝ) ^ 57 ≤ Real.exp 1 ^ 40 :=
    le_trans (by norm_num : (2 : ℝ) ^ 57 ≤ 2.7 ^ 40)
      (pow_le_pow_left₀ (by norm_num) (le_trans (by norm_num : (2.7 : ℝ) ≤ 2.7182818283) Real.exp_one_gt_d9.le) 40)
  have h1 : (2 : ℝ) ^ (-60 : ℤ) ≤ Real.exp (-40) := by
    rw [e40, show (2 : ℝ) ^ (-60 : ℤ) = (2 ^ 60)⁻¹ by norm_num]
    exact inv_anti₀ (pow_pos (Real.exp_pos 1) 40) u
  have h2 : Real.exp (-40) ≤ (2 : ℝ) ^ (-57 : ℤ) := by
    rw [e40, show (2 : ℝ) ^ (-57 : ℤ) = (2 ^ 57)⁻¹ by norm_num]
    exact inv_anti₀ (by norm_num) l
  obtain ⟨w, ew, w1, w2⟩ := near_between (tie := EvenBelow) (f64_zpow (-60) (by norm_num) (by norm_num))
    (f64_zpow (-57) (by norm_num) (by norm_num)) h1 h2
  exact ⟨w, ew, near_range ew, w1, w2⟩

lemma fl_within : Within (nearest EvenBelow) [0, 1, 2 ^ 60] 10 [1, 1, 0, -40] := by
  have hA := C72_nearest
  obtain ⟨w, ew, -, w1, w2⟩ := fl_w
  have f60 : F64 (2 ^ 60) := f64_zpow 60 (by norm_num) (by norm_num)
  have fm60 : F64 (2 ^ (-60 : ℤ)) := f64_zpow (-60) (by norm_num) (by norm_num)
  refine ⟨w, ew, ⟨2 ^ (-60 : ℤ), w1, ?_⟩, ⟨0, 1, by simp, w2.trans (by norm_num), ?_⟩, by simp, by simp, by norm_num, by norm_num⟩
  · simp only [List.length_cons, List.length_nil, List.getD_cons_succ, List.getD_cons_zero, Nat.add_sub_cancel, fl_sub, sub_zero]
    rw [hA.id _ f60, fl_div _ _ (by norm_num), show (1 : ℝ) / 2 ^ 60 = 2 ^ (-60 : ℤ) by norm_num, hA.id _ fm60]
  · simp only [List.getD_cons_succ, List.getD_cons_zero, fl_sub, sub_zero]
    rw [hA.id _ f64_one, fl_div _ _ (by norm_num), div_one, hA.id _ f64_one]

lemma fl_times : MildTimes [0, 1, 2 ^ 60] := by
  refine ⟨by simp, by norm_num, ?_, ?_⟩
  · intro i hi
    have : (2 : ℝ) ^ (-300 : ℤ) ≤ 1 := by rw [show (1 : ℝ) = 2 ^ (0 : ℤ) by norm_num]; exact pw_le _ _ (by norm_num)
    generalize (2 : ℝ) ^ (-300 : ℤ) = q at *
    rcases i with _ | _ | i
    · simpa using this
    · simp; linarith
    · simp at hi; omega
  · have : (2 : ℝ) ^ 60 ≤ 2 ^ (300 : ℤ) := by
      rw [show (2 : ℝ) ^ 60 = 2 ^ (60 : ℤ) by norm_num]; exact pw_le _ _ (by norm_num)
    generalize (2 : ℝ) ^ (300 : ℤ) = q at *
    intro s hs t ht
    simp only [List.mem_cons, List.not_mem_nil, or_false] at hs ht
    rcases hs with rfl | rfl | rfl <;> rcases ht with rfl | rfl | rfl <;> norm_num at * <;> linarith

lemma fl_mild : Mild [0, 1, 2 ^ 60] [0, 1, 2] [1, 1, 1] 10 := by
  have h300 : (2 : ℝ) ≤ 2 ^ (300 : ℤ) := by
    rw [show (2 : ℝ) = 2 ^ (1 : ℤ) by norm_num, ← zpow_mul]; exact pw_le _ _ (by norm_num)
  have h148 : (10 : ℝ) ≤ 2 ^ (148 : ℤ) := le_trans (by norm_num : (10 : ℝ) ≤ 2 ^ (4 : ℤ)) (pw_le _ _ (by norm_num))
  have hm148 : (2 : ℝ) ^ (-148 : ℤ) ≤ 1 := by rw [show (1 : ℝ) = 2 ^ (0 : ℤ) by norm_num]; exact pw_le _ _ (by norm_num)
  refine ⟨fl_times, rfl, rfl, ?_, ?_, h148⟩
  · intro y hy
    generalize (2 : ℝ) ^ (300 : ℤ) = q at *
    simp only [List.mem_cons, List.not_mem_nil, or_false] at hy
    rcases hy with rfl | rfl | rfl <;> norm_num <;> linarith
  · intro e he
    simp only [List.mem_cons, List.not_mem_nil, or_false, or_self] at he
    subst he
    exact ⟨hm148, le_trans (by norm_num) h148⟩

lemma fl_theta : ∀ x ∈ ([1, 1, 0, -40] : List ℝ), F64 x := by
  intro x hx
  simp only [List.mem_cons, List.not_mem_nil, or_false] at hx
  rcases hx with rfl | rfl | rfl | rfl
  · exact f64_one
  · exact f64_one
  · exact f64_zero
  · exact ⟨-40, 0, by norm_num, by norm_num, by norm_num, by norm_num⟩

/-- concrete data of moderate size, and a `theta` of doubles inside the bounds -/
example : Mild [0, 1, 2 ^ 60] [0, 1, 2] [1, 1, 1] 10 ∧ Within (nearest EvenBelow) [0, 1, 2 ^ 60] 10 [1, 1, 0, -40] ∧
    (∀ x ∈ ([1, 1, 0, -40] : List ℝ), F64 x) := ⟨fl_mild, fl_within, fl_theta⟩

/-- **C73.** In binary64 arithmetic with any rounding mode, for data without measurement errors: as soon as the factor
`exp(-w dt)` between two neighbouring observations is rounded to 1, a computed variance is zero and `LogDensity` is NaN, at every
`theta` inside the prior bounds. -/
theorem C73_error_free_nan {A : Arith} (hA : IsBinary64 A) {ts ys : List ℝ} {M : ℝ} (hm : MildTimes ts) (hM : M ≤ 2 ^ (148 : ℤ))
    (hy : ys.length = ts.length) (srt : List Dbl → List ℕ) :
    ∃ s, FCar1.new A srt (ts.map .fin) (ys.map .fin) (List.replicate ts.length (.fin 0)) (.fin M) = .ok s ∧
      ∀ s1, Called A s s1 → ∀ θ : List ℝ, 4 ≤ θ.length → Within A ts M θ → ∀ i, i + 1 < ts.length →
        A.exp (A.mul (A.mul (.fin (-1)) (A.exp (.fin (θ.getD 3 0)))) (A.sub (.fin (ts.getD (i + 1) 0)) (.fin (ts.getD i 0)))) = .fin 1 →
        ∃ s2, FCar1.logDensity A s1 (θ.map .fin) = .ok (s2, .nan) ∧ ∃ k < ts.length, s2.kf.var[k]? = some (.fin 0) := by
  obtain ⟨s, e, h⟩ := new_num hA (ys := ys) (es := List.replicate ts.length 0) (M := M) hm srt
  rw [List.map_replicate] at e
  refine ⟨s, e, fun s1 hc θ hl hw i hi hr => ?_⟩
  have h1 := h.called hc
  exact logdens_nan hA hm hM hy rfl h1 hl ((inBounds_iff h1).mpr hw) hi hr

/-- the factor between the first two times of the example is rounded to 1 -/
lemma fl_rho : (nearest EvenBelow).exp ((nearest EvenBelow).mul ((nearest EvenBelow).mul (.fin (-1)) ((nearest EvenBelow).exp (.fin (-40))))
    ((nearest EvenBelow).sub (.fin 1) (.fin 0))) = .fin 1 := by
  have hA := C72_nearest
  obtain ⟨w, ew, Fw, w1, w2⟩ := fl_w
  rw [ew, fl_sub, sub_zero, hA.id _ f64_one, fl_mul, neg_one_mul, hA.id _ (f64_neg Fw), fl_mul, mul_one, hA.id _ (f64_neg Fw)]
  show roundNearest EvenBelow (Real.exp (-w)) = _
  refine near_one ?_ (Real.exp_le_one_iff.mpr ?_)
  · have := Real.add_one_le_exp (-w)
    norm_num at w2 ⊢
    linarith
  · have : (0 : ℝ) < 2 ^ (-60 : ℤ) := by positivity
    linarith

/-- times of the example as a vector -/
def flT : Fin 3 → ℝ := ![0, 1, 2 ^ 60]

/-- **C73, witness.** Three observations without errors and a `theta` inside the prior bounds, for which the exact log-density is
finite and the one computed in double precision is NaN. -/
theorem C73_witness (srt : List ℝ → List ℕ) (srt' : List Dbl → List ℕ) :
    (∃ s s' v, Car1.new srt (List.ofFn flT) (List.ofFn exY) (List.ofFn fun _ : Fin 3 => 0) = .ok s ∧ logDensity s [1, 1, 0, -40] = .ok (s', .fin v)) ∧
    (∃ s s', FCar1.new (nearest EvenBelow) srt' ((List.ofFn flT).map .fin) ((List.ofFn exY).map .fin) ((List.ofFn fun _ : Fin 3 => (0 : ℝ)).map .fin)
      (.fin (10 * √(sampleVar exY))) = .ok s ∧ FCar1.logDensity (nearest EvenBelow) s (([1, 1, 0, -40] : List ℝ).map .fin) = .ok (s', .nan)) := by
  constructor
  · have hmono : StrictMono flT := by
      refine Fin.strictMono_iff_lt_succ.mpr fun i => ?_
      fin_cases i <;> simp [flT]; norm_num
    obtain ⟨dmin, span, s, g1, g2, e, h⟩ := C05_car1_logpost srt (by norm_num) hmono exY (fun _ => 0) [1, 1, 0, -40] (by simp)
    have hd : dmin = 1 := by
      obtain ⟨⟨i, j, hij, hd⟩, h2⟩ := g1
      have h3 : dmin ≤ 1 := h2 ⟨0, 1, by decide, by simp [flT]⟩
      refine le_antisymm h3 ?_
      rw [hd]
      fin_cases i <;> fin_cases j <;> simp [flT] at hij ⊢ <;> norm_num
    have hs : span = 2 ^ 60 := by
      obtain ⟨⟨i, j, hd⟩, h2⟩ := g2
      have h3 : 2 ^ 60 ≤ span := h2 ⟨0, 2, by simp [flT]⟩
      refine le_antisymm ?_ h3
      rw [hd]
      fin_cases i <;> fin_cases j <;> simp [flT] <;> norm_num
    obtain ⟨s', e'⟩ := h (by
      rw [hd, hs, exY_var]
      have h1 : Real.exp (-40) ≤ 1 := Real.exp_le_one_iff.mpr (by norm_num)
      have e40 : Real.exp (-40) = (Real.exp 1 ^ 40)⁻¹ := by rw [← Real.exp_nat_mul, ← Real.exp_neg]; norm_num
      have u : Real.exp 1 ^ 40 ≤ 2 ^ 60 :=
        (pow_le_pow_left₀ (Real.exp_pos 1).le (Real.exp_one_lt_d9.le.trans (by norm_num : (2.7182818286 : ℝ) ≤ 2.72)) 40).trans (by norm_num)
      have h2 : (1 : ℝ) / 2 ^ 60 ≤ Real.exp (-40) := by
        rw [e40, one_div]; exact inv_anti₀ (pow_pos (Real.exp_pos 1) 40) u
      refine ⟨⟨by simp [at0], by simp [at0], by simp [at0]; norm_num, by simp [at0]⟩, by simpa [at0] using h2, by simpa [at0] using h1⟩) (.inl (by simp [at0]))
    exact ⟨s, s', _, e, e'⟩
  · have e1 : List.ofFn flT = [0, 1, 2 ^ 60] := by simp [List.ofFn_succ, flT]
    have e2 : List.ofFn exY = [0, 1, 2] := by simp [List.ofFn_succ, exY]
    have e3 : (List.ofFn fun _ : Fin 3 => (0 : ℝ)).map Dbl.fin = List.replicate ([0, 1, 2 ^ 60] : List ℝ).length (.fin 0) := by
      simp [List.ofFn_succ, List.replicate]
    have e4 : 10 * √(sampleVar exY) = 10 := by rw [exY_var]; simp
    rw [e1, e2, e3, e4]
    have h148 : (10 : ℝ) ≤ 2 ^ (148 : ℤ) := le_trans (by norm_num : (10 : ℝ) ≤ 2 ^ (4 : ℤ)) (pw_le _ _ (by norm_num))
    obtain ⟨s, e, h⟩ := C73_error_free_nan C72_nearest fl_times h148 (ys := [0, 1, 2]) rfl srt'
    obtain ⟨s', e', -⟩ := h s .none [1, 1, 0, -40] (by simp) fl_within 0 (by simp) (by simpa using fl_rho)
    exact ⟨s, s', e, e'⟩

/-- **C74.** With nothing rounded the floating-point model is the model in real numbers: for strictly increasing times both
constructors return, and from then on every call of `LogDensity`, in any order and with any arguments of at least four numbers,
gives the same value in both, including `-inf` and NaN. -/
theorem C74_exact_refines {ts ys es : List ℝ} (hn : 2 ≤ ts.length) (hy : ys.length = ts.length) (he : es.length = ts.length)
    (hinc : ∀ i, i + 1 < ts.length → ts.getD i 0 < ts.getD (i + 1) 0) (srt : List ℝ → List ℕ) (srt' : List Dbl → List ℕ) :
    ∃ s f, Car1.new srt ts ys es = .ok s ∧
      FCar1.new Arith.exact srt' (ts.map .fin) (ys.map .fin) (es.map .fin) (.fin (10 * √(armaVar ys))) = .ok f ∧
      ∃ R : Car1 → FCar1 → Prop, R s f ∧ ∀ s f (θ : List ℝ), R s f → 4 ≤ θ.length →
        ∃ s' f' v, logDensity s θ = .ok (s', v) ∧ FCar1.logDensity Arith.exact f (θ.map .fin) = .ok (f', v) ∧ R s' f' := by
  obtain ⟨s, f, h1, h2, h⟩ := crel_new hn hy he hinc srt srt'
  exact ⟨s, f, h1, h2, CRel ts.length, h, fun _ _ _ hr hl => crel_call (by omega) hr hl⟩

/-- three increasing times -/
example : ∀ i, i + 1 < ([0, 1, 10] : List ℝ).length → ([0, 1, 10] : List ℝ).getD i 0 < ([0, 1, 10] : List ℝ).getD (i + 1) 0 := by
  intro i hi
  rcases i with _ | _ | i
  · simp
  · simp
  · simp at hi; omega

/-- **C74, construction.** For any data whatever (times in any order, repeated times, vectors of different lengths), provided the same order is
used for sorting: the two constructors fail together with the same error, or both return, and then the two objects hold the same data, bounds and
filter: the same points in the same order, with the same differences of times. -/
theorem C74_construct {ts : List ℝ} (ys es : List ℝ) {srt : List ℝ → List ℕ} {srt' : List Dbl → List ℕ} (hs : srt' (ts.map .fin) = srt ts) :
    (∀ e, Car1.new srt ts ys es = .error e →
      FCar1.new Arith.exact srt' (ts.map .fin) (ys.map .fin) (es.map .fin) (.fin (10 * √(armaVar ys))) = .error e) ∧
    (∀ s, Car1.new srt ts ys es = .ok s →
      ∃ f, FCar1.new Arith.exact srt' (ts.map .fin) (ys.map .fin) (es.map .fin) (.fin (10 * √(armaVar ys))) = .ok f ∧
        f.time = s.b.time.map .fin ∧ f.y = s.b.y.map .fin ∧ f.yerr = s.b.yerr.map .fin ∧ f.maxStdev = .fin s.b.maxStdev ∧ f.maxFreq = s.b.maxFreq ∧
        f.minFreq = s.b.minFreq ∧ f.kf.time = s.kf.b.time.map .fin ∧ f.kf.dt = s.kf.b.dt.map .fin ∧ f.kf.y = s.kf.b.y.map .fin ∧
        f.kf.yerr = s.kf.b.yerr.map .fin ∧ f.kf.mean = s.kf.b.mean.map .fin ∧ f.kf.var = s.kf.b.var.map .fin) :=
  ⟨fun e h => by rw [new_exact hs, h]; rfl, fun s h => ⟨_, by rw [new_exact hs, h]; rfl, rfl, rfl, rfl, rfl, rfl, rfl, rfl, rfl, rfl, rfl, rfl, rfl⟩⟩

/-- the second of two points with the same time is dropped, in both models -/
example (srt : List ℝ → List ℕ) (srt' : List Dbl → List ℕ) (hs : srt' ([0, 0, 1].map .fin) = srt [0, 0, 1]) :
    ∃ f, FCar1.new Arith.exact srt' ([0, 0, 1].map .fin) ([5, 6, 7].map .fin) ([1, 2, 3].map .fin) (.fin (10 * √(armaVar [5, 6, 7]))) = .ok f ∧
      f.kf.time = [.fin 0, .fin 1] ∧ f.kf.y = [.fin 5, .fin 7] ∧ f.kf.yerr = [.fin 1, .fin 3] := by
  have h : ∃ s, Car1.new srt [0, 0, 1] [5, 6, 7] [1, 2, 3] = .ok s ∧ s.kf.b.time = [0, 1] ∧ s.kf.b.y = [5, 7] ∧ s.kf.b.yerr = [1, 3] := by
    have hu : uniqueIdx [0, 1] = [0, 2] := by simp [uniqueIdx, List.range_succ]
    have k1 : initSort srt (KFBase.raw [0, 0, 1] [5, 6, 7] [1, 2, 3] 0) = .ok { KFBase.raw [0, 0, 1] [5, 6, 7] [1, 2, 3] 0 with dt := [0, 1] } := by
      have : diffs [0, 0, 1] = .ok [0, 1] := by simp [diffs]
      rw [initSort, show (KFBase.raw [0, 0, 1] [5, 6, 7] [1, 2, 3] 0).time = [0, 0, 1] from rfl, this, res_bind_ok, if_neg (by norm_num)]
      rfl
    have k2 : initDedup { KFBase.raw [0, 0, 1] [5, 6, 7] [1, 2, 3] 0 with dt := [0, 1] } =
        .ok { KFBase.raw [0, 1] [5, 7] [1, 3] 0 with dt := [1], mean := [0, 0], var := [0, 0] } := by
      have : diffs [0, 1] = .ok [1] := by simp [diffs]
      rw [initDedup, if_pos (by simp)]
      show (gather [0, 0, 1] (uniqueIdx [0, 1]) >>= _) >>= _ = _
      rw [hu, show gather [0, 0, 1] [0, 2] = .ok [(0 : ℝ), 1] from rfl, res_bind_ok]
      show (gather [5, 6, 7] [0, 2] >>= _) >>= _ = _
      rw [show gather [5, 6, 7] [0, 2] = .ok [(5 : ℝ), 7] from rfl, res_bind_ok]
      show (gather [1, 2, 3] [0, 2] >>= _) >>= _ = _
      rw [show gather [1, 2, 3] [0, 2] = .ok [(1 : ℝ), 3] from rfl, res_bind_ok, this, res_bind_ok, res_pure, res_bind_ok]
      rfl
    have k3 : (KFBase.raw [0, 0, 1] [5, 6, 7] [1, 2, 3] 0).init srt =
        .ok { KFBase.raw [0, 1] [5, 7] [1, 3] 0 with dt := [1], mean := [0, 0], var := [0, 0] } := by rw [KFBase.init, k1, res_bind_ok, k2]
    have k4 : diffs [0, 0, 1] = .ok [0, 1] := by simp [diffs]
    simp only [Car1.new, CarBase.new, CarBase.setPrior, KF1.newData, KF1.new, k4, res_bind_ok, armaMin, armaMax, k3]
    exact ⟨_, rfl, rfl, rfl, rfl⟩
  obtain ⟨s, h1, h2, h3, h4⟩ := h
  obtain ⟨f, f1, -, -, -, -, -, -, f2, -, f3, f4, -⟩ := (C74_construct [5, 6, 7] [1, 2, 3] hs).2 s h1
  exact ⟨f, f1, by rw [f2, h2]; rfl, by rw [f3, h3]; rfl, by rw [f4, h4]; rfl⟩

/-- **C74, times in any order.** The same as `C74_exact_refines` for different times in any order, sorted by the filter. -/
theorem C74_any_order {ts ys es : List ℝ} (hn : 2 ≤ ts.length) (hy : ys.length = ts.length) (he : es.length = ts.length) (hd : ts.Nodup)
    {srt : List ℝ → List ℕ} (hsrt : IsSortIndex srt) {srt' : List Dbl → List ℕ} (hs : srt' (ts.map .fin) = srt ts) :
    ∃ s f, Car1.new srt ts ys es = .ok s ∧
      FCar1.new Arith.exact srt' (ts.map .fin) (ys.map .fin) (es.map .fin) (.fin (10 * √(armaVar ys))) = .ok f ∧
      ∃ R : Car1 → FCar1 → Prop, R s f ∧ ∀ s f (θ : List ℝ), R s f → 4 ≤ θ.length →
        ∃ s' f' v, logDensity s θ = .ok (s', v) ∧ FCar1.logDensity Arith.exact f (θ.map .fin) = .ok (f', v) ∧ R s' f' := by
  obtain ⟨s, f, h1, h2, h⟩ := crel_new_any hn hy he hd hsrt hs
  exact ⟨s, f, h1, h2, CRel ts.length, h, fun _ _ _ hr hl => crel_call (by omega) hr hl⟩

/-- three different times out of order, and a sort with the same order for both kinds of numbers -/
example : ([1, 10, 0] : List ℝ).Nodup ∧ ∃ (srt : List ℝ → List ℕ) (srt' : List Dbl → List ℕ), IsSortIndex srt ∧ srt' ([1, 10, 0].map .fin) = srt [1, 10, 0] := by
  refine ⟨by norm_num, ?_⟩
  obtain ⟨srt, h⟩ := sortIndex_exists
  exact ⟨srt, fun _ => srt [1, 10, 0], h, rfl⟩

end Verif.Props
