import Verif.Theory.FCar1Run
import Verif.Props.FloatAcc
import Verif.Props.FRun

/-!
The sampler with machine numbers: C90.
-/

namespace Verif.Props

open Verif.Model Verif.Spec Verif.Theory
open scoped Classical

lemma startOf_iff {A : Arith} {obj : FCar1} (hs : FShape obj) (init drawn : List Dbl) : StartOf A obj init drawn (car1Start A obj init drawn) := by
  unfold StartOf car1Start startVal
  by_cases h4 : init.length = 4
  · obtain ⟨o, e, -⟩ := hist_ld (A := A) (s0 := obj) ⟨hs, FLike.refl obj⟩ h4
    rw [if_pos h4]
    dsimp only
    by_cases hf : (fcarVal A obj init).isFin
    · obtain ⟨x, hx⟩ := (isFin_iff _).mp hf
      rw [if_pos hf, if_pos ⟨h4, o, x, by rw [e, hx]⟩]
    · rw [if_neg hf, if_neg]
      rintro ⟨-, o', x, e'⟩
      rw [e] at e'
      injection e' with e'
      injection e' with _ e'
      exact hf (by rw [e']; trivial)
  · rw [if_neg h4, if_neg fun h => h4 h.1]

lemma start_len {A : Arith} {obj : FCar1} {init : List Dbl} {r : FRng} (hr : Usable 4 r) : (car1Start A obj init (r.prior 0)).length = 4 := by
  unfold car1Start startVal
  split_ifs with h
  · dsimp only
    split_ifs
    · exact h
    · exact hr.prior 0
  · exact hr.prior 0

/-- a run of `RunCar1Sampler` is a run of its sampler -/
lemma frun_eq {M : Mach} {srt : List Dbl → List ℕ} {ts ys es : List Dbl} {B : Dbl} {L : List Dbl} {obj : FCar1}
    (hset : FRun.setup M.A 4 ys = .ok (B, L)) (e : FCar1.new M.A srt ts ys es B = .ok obj) (N burnin thin : ℕ) (init : List Dbl) (r : FRng) :
    frunCar1 M srt N burnin ts ys es thin init r = ((car1Samp M obj L burnin r).run M N burnin thin init >>= fun s => rdU s.chains 0) := by
  unfold FRun.setup at hset
  obtain ⟨l, e1, e2⟩ := bind_ok_inv hset
  injection e2 with e2
  injection e2 with e2 e3
  subst e3
  unfold frunCar1
  rw [e2, e, res_bind_ok, e1, res_bind_ok]
  rfl

/-! Times 0, 1, 2^60, values 0, 1, 2, errors 1; sums from left to right. -/

lemma fs_setup {A : Arith} (hA : IsBinary64 A) {d : ℕ} : ∃ B L, FRun.setup A d ([0, 1, 2].map .fin) = .ok (.fin B, L) ∧ 1 ≤ B ∧ B ≤ 10 ∧ ∀ x ∈ L, x.isFin := by
  have e1 : popVariance (n := 3) ![0, 1, 2] = 2 / 3 := by simp [popVariance, Fin.sum_univ_three]; norm_num
  have e2 : meanSquare (n := 3) ![0, 1, 2] = 5 / 3 := by simp [meanSquare, Fin.sum_univ_three]; norm_num
  have h : ModerateValues (n := 3) ![0, 1, 2] := by
    refine ⟨by norm_num, by norm_num, ?_, ?_⟩
    · rw [e2]; exact le_trans (pw_le (-300) 0 (by norm_num)) (by norm_num)
    · rw [e2]; exact le_trans (by norm_num) (pw_le 4 300 (by norm_num))
  obtain ⟨B, L, h1, h2, h3, h4⟩ := C89_setup_partial hA h d (δ := 20 * 2 ^ (-52 : ℤ) * (5 / 2)) (by rw [e1, e2]; push_cast; ring) (by rw [e1, e2]; norm_num)
  rw [e1] at h2
  refine ⟨B, L, by simpa [List.ofFn_succ] using h1, ?_, ?_, fun x hx => ?_⟩
  · have s1 : (0.8 : ℝ) ≤ √(2 / 3) := Real.le_sqrt_of_sq_le (by norm_num)
    have := (abs_le.mp h2).1
    generalize √(2 / 3 : ℝ) = q at *
    norm_num at this s1
    linarith
  · have s1 : √(2 / 3) ≤ 0.9 := by rw [Real.sqrt_le_left (by norm_num)]; norm_num
    have s2 := Real.sqrt_nonneg (2 / 3)
    have := (abs_le.mp h2).2
    generalize √(2 / 3 : ℝ) = q at *
    norm_num at this s1
    linarith
  · obtain ⟨i, hi, rfl⟩ := List.getElem_of_mem hx
    obtain ⟨l, e, -⟩ := h4 i (by omega)
    rw [List.getElem?_eq_getElem hi] at e
    injection e with e
    rw [e]; trivial

/-- products summed from left to right -/
noncomputable def fsMach : Mach where
  A := nearest EvenBelow
  pow := fun x _ => x
  dot := fun l l' => (List.zipWith (nearest EvenBelow).mul l l').foldl (nearest EvenBelow).add (.fin 0)
  norm := fun l => (nearest EvenBelow).sqrt ((List.zipWith (nearest EvenBelow).mul l l).foldl (nearest EvenBelow).add (.fin 0))

lemma fold_nan (A : Arith) (l : List Dbl) : l.foldl A.add .nan = .nan := by
  induction l with
  | nil => rfl
  | cons a l ih => rw [List.foldl_cons, fl_nan_add, ih]

lemma fold_has_nan (A : Arith) (l : List Dbl) (x : Dbl) (h : .nan ∈ l) : l.foldl A.add x = .nan := by
  induction l generalizing x with
  | nil => cases h
  | cons a l ih =>
    rw [List.foldl_cons]
    rcases List.mem_cons.mp h with rfl | h
    · rw [fl_add_nan, fold_nan]
    · exact ih _ h

lemma zip_nan (A : Arith) (l l' : List Dbl) (hl : l.length = l'.length) (h : .nan ∈ l) : .nan ∈ List.zipWith A.mul l l' := by
  induction l generalizing l' with
  | nil => cases h
  | cons a l ih =>
    cases l' with
    | nil => cases hl
    | cons b l' =>
      rw [List.zipWith_cons_cons, List.mem_cons]
      rcases List.mem_cons.mp h with rfl | h
      · exact .inl (nan_mul b).symm
      · exact .inr (ih l' (by simpa using hl) h)

lemma fold_zero {A : Arith} (hA : IsBinary64 A) (l : List Dbl) (h : ∀ x ∈ l, x = .fin 0) : l.foldl A.add (.fin 0) = .fin 0 := by
  induction l with
  | nil => rfl
  | cons a l ih =>
    rw [List.foldl_cons, h a (by simp), fl_add, add_zero, hA.id _ f64_zero]
    exact ih fun x hx => h x (by simp [hx])

lemma zip_zero {A : Arith} (hA : IsBinary64 A) (l : List Dbl) (n : ℕ) (hn : l.length = n) (h : ∀ x ∈ l, x.isFin) :
    ∀ x ∈ List.zipWith A.mul l (List.replicate n (.fin 0)), x = .fin 0 := by
  induction l generalizing n with
  | nil => simp
  | cons a l ih =>
    subst hn
    obtain ⟨y, rfl⟩ := (isFin_iff a).mp (h a (by simp))
    rw [List.length_cons, List.replicate_succ, List.zipWith_cons_cons]
    intro x hx
    rcases List.mem_cons.mp hx with rfl | hx
    · rw [fl_mul, mul_zero, hA.id _ f64_zero]
    · exact ih _ rfl (fun x hx => h x (by simp [hx])) x hx

lemma fs_zero : ZeroAndNan fsMach where
  dot_nan := fun l l' hl h => fold_has_nan _ _ _ (zip_nan _ l l' hl h)
  dot_zero := fun l n hn h => fold_zero C72_nearest _ (zip_zero C72_nearest l n hn h)
  norm_zero := fun n => by
    have h : ∀ x ∈ List.replicate n (Dbl.fin 0), x.isFin := fun x hx => by rw [(List.mem_replicate.mp hx).2]; trivial
    show (nearest EvenBelow).sqrt _ = _
    rw [fold_zero C72_nearest _ (zip_zero C72_nearest _ n (by simp) h)]
    show (if (0 : ℝ) < 0 then Dbl.nan else _) = _
    rw [if_neg (lt_irrefl _), Real.sqrt_zero]
    exact C72_nearest.id _ f64_zero

/-- uniform draws 1/2, Student t draws `t` -/
noncomputable def fsRng (t : Dbl) : FRng := ⟨fun _ => .fin (1 / 2), fun _ => t, fun _ => [1, 1, 0, -40].map .fin, fun _ => .nan⟩

lemma fs_usable (t : Dbl) : Usable 4 (fsRng t) := by
  refine ⟨fun _ => not_lt.mpr (by norm_num : (0 : ℝ) ≤ 1 / 2), fun _ => rfl, fun _ x hx => ?_⟩
  obtain ⟨y, hy, e⟩ := List.mem_map.mp hx
  injection e with e
  exact e ▸ fl_theta y hy

lemma fs_within {B : ℝ} (hB : 1 ≤ B) : Within (nearest EvenBelow) [0, 1, 2 ^ 60] B [1, 1, 0, -40] := by
  obtain ⟨w, ew, h1, h2, h3, -, h5⟩ := fl_within
  exact ⟨w, ew, h1, h2, h3, by simpa using hB, h5⟩

lemma fs_mild {B : ℝ} (hB : B ≤ 10) : Mild [0, 1, 2 ^ 60] [0, 1, 2] [1, 1, 1] B :=
  { fl_mild with stdev := hB.trans fl_mild.stdev }

/-- **C90.** `RunCar1Sampler` in binary64 arithmetic with any rounding mode, for times of moderate size, any values for which the first lines of the run function get
past the Cholesky factorisation with a finite bound for the standard deviation, any measurement errors, any starting values, and any numbers from the generators (a
Student t variate may even be infinite or NaN; uniform variates are not negative): the run returns, with `N` samples and `N` log-densities. Each recorded log-density is
the number that `LogDensity` of a new object returns for the recorded sample. If the log-density at the start is finite, every recorded log-density is finite and every
recorded sample consists of finite doubles within the prior bounds; otherwise every recorded sample is the start. -/
theorem C90_car1_run {M : Mach} (hA : IsBinary64 M.A) (hS : Strict M.A) {ts ys es : List ℝ} (hm : MildTimes ts) (hy : ys.length = ts.length)
    (he : es.length = ts.length) {B : ℝ} {L : List Dbl} (hset : FRun.setup M.A 4 (ys.map .fin) = .ok (.fin B, L)) (srt : List Dbl → List ℕ)
    (N burnin thin : ℕ) {init : List Dbl} (hi : init.length = 4 → Doubles init) {r : FRng} (hr : Usable 4 r) :
    ∃ obj, FCar1.new M.A srt (ts.map .fin) (ys.map .fin) (es.map .fin) (.fin B) = .ok obj ∧
      ∃ θ₀ o₀ v₀ par, StartOf M.A obj init (r.prior 0) θ₀ ∧ FCar1.logDensity M.A obj θ₀ = .ok (o₀, v₀) ∧
        frunCar1 M srt N burnin (ts.map .fin) (ys.map .fin) (es.map .fin) thin init r = .ok par ∧
        par.samples.length = N ∧ par.logposts.length = N ∧
        ∀ j < N, ∃ θ v o, par.samples[j]? = some θ ∧ par.logposts[j]? = some v ∧ FCar1.logDensity M.A obj θ = .ok (o, v) ∧
          (v₀.isFin → v.isFin ∧ ∃ θr : List ℝ, θ = θr.map .fin ∧ θr.length = 4 ∧ (∀ x ∈ θr, F64 x) ∧ Within M.A ts B θr) ∧
          (¬ v₀.isFin → θ = θ₀) := by
  obtain ⟨obj, e, h⟩ := new_num hA (ys := ys) (es := es) (M := B) hm srt
  have h0 : 0 < ts.length := lt_of_lt_of_le (by norm_num) hm.two
  have hs := h.shape h0 hy he
  have hinv : FInv obj obj := ⟨hs, FLike.refl obj⟩
  obtain ⟨s0, s1, s', c0, c, e1, ⟨p, hp, rfl⟩, -, -, -, -, -, i0, l0, e2, i1, n1, n2, hrec⟩ := run_ok hA hS (car1_honest obj) (car1_built (M := M) hs L burnin hr) N burnin thin hi
  obtain ⟨c1, r1, e3, g1, v1, -⟩ := car1_started (M := M) hs L N burnin hr hi
  have ec : c0.value = car1Start M.A obj init (r.prior 0) := by
    rw [← v1]
    cases hp
    have e4 := e1.symm.trans e3
    injection e4 with e4
    rw [e4] at i0
    have : some c1 = some c0 := i0
    injection this with this
    rw [this]
  obtain ⟨o₀, e₀, -⟩ := hist_ld (A := M.A) hinv (start_len (A := M.A) (obj := obj) (init := init) hr)
  refine ⟨obj, e, _, o₀, _, c, startOf_iff hs _ _, e₀, ?_, n1, n2, fun j hj => ?_⟩
  · rw [frun_eq hset e, e2, res_bind_ok]
    simp only [rdU]
    rw [show s'.chains[0]? = some c from i1]
  · obtain ⟨θ, v, q1, q2, q3, q4⟩ := hrec j hj
    obtain ⟨o, eo, -⟩ := hist_ld (A := M.A) hinv q3
    rw [ec] at q4
    refine ⟨θ, v, o, q1, q2, by rw [eo, q4.value], fun k => ⟨q4.finite k, ?_⟩, q4.stuck⟩
    obtain ⟨θr, rfl, hw⟩ := car1_finite hA hS h h0 q3 (q4.value ▸ q4.finite k)
    exact ⟨θr, rfl, by simpa using q3, fun x hx => q4.doubles x (List.mem_map_of_mem hx), hw⟩

/-- five samples when every Student t variate is NaN; only the arithmetic and the shapes matter -/
example (srt : List Dbl → List ℕ) : ∃ par, frunCar1 fsMach srt 5 7 ([0, 1, 2 ^ 60].map .fin) ([0, 1, 2].map .fin) ([1, 1, 1].map .fin) 2 [] (fsRng .nan) = .ok par ∧
    par.samples.length = 5 := by
  obtain ⟨B, L, hset, -, -, -⟩ := fs_setup C72_nearest
  obtain ⟨-, -, -, -, -, par, -, -, h, hn, -⟩ := C90_car1_run (M := fsMach) C72_nearest ⟨rfl, rfl, rfl, rfl⟩ fl_times (ys := [0, 1, 2]) (es := [1, 1, 1]) rfl rfl hset srt 5 7 2 (init := [])
    (fun h => by cases h) (fs_usable .nan)
  exact ⟨par, h, hn⟩

/-- **C90, default rounding.** Correctly rounded library functions hand on NaN and infinities as C90 assumes. -/
theorem C90_nearest : Strict (nearest EvenBelow) := ⟨rfl, rfl, rfl, rfl⟩

/-- **C90, accuracy.** If moreover values and errors are of moderate size, the library functions are accurate, and the user's starting values are four doubles within the prior
bounds with a mean of at most `2^300`, then the run starts there, and every recorded log-density is finite and within the bound of C75 of the exact log-posterior of the recorded
sample: the two differ by at most `2^-38 n (n + N²) κ (1 + χ)`. -/
theorem C90_car1_accurate {M : Mach} (hA : IsBinary64 M.A) (hS : Strict M.A) (hacc : Accurate M.A) {ts ys es : List ℝ} {B : ℝ} (hm : Mild ts ys es B)
    {L : List Dbl} (hset : FRun.setup M.A 4 (ys.map .fin) = .ok (.fin B, L)) (srt : List Dbl → List ℕ) (N burnin thin : ℕ)
    {θi : List ℝ} (hi4 : θi.length = 4) (hiF : ∀ x ∈ θi, F64 x) (hiw : Within M.A ts B θi) (himu : |θi.getD 2 0| ≤ 2 ^ (300 : ℤ)) {r : FRng} (hr : Usable 4 r) :
    ∃ par, frunCar1 M srt N burnin (ts.map .fin) (ys.map .fin) (es.map .fin) thin (θi.map .fin) r = .ok par ∧
      par.samples.length = N ∧ par.logposts.length = N ∧
      ∀ j < N, ∃ (θ : List ℝ) (v : ℝ), par.samples[j]? = some (θ.map .fin) ∧ par.logposts[j]? = some (.fin v) ∧ Within M.A ts B θ ∧
        ∀ (a b c : ℤ) (K : ℝ), Sized ts ys es θ a b c K →
          |v - (logGauss (obsCov (fun d => θ.getD 0 0 ^ 2 * Real.exp (-Real.exp (θ.getD 3 0) * d)) (fun i : Fin ts.length => ts.getD i 0)
              fun i => √(θ.getD 1 0) * es.getD i 0) (fun i => ys.getD i 0 - θ.getD 2 0) + logPriorSpec θ)| ≤
            2 ^ (-38 : ℤ) * (ts.length * (ts.length + K ^ 2)) * (2 ^ b / 2 ^ c) * (1 + 2 ^ (2 * a - c)) := by
  have hiD : (θi.map Dbl.fin).length = 4 → Doubles (θi.map .fin) := by
    intro _ x hx
    obtain ⟨y, hy, e⟩ := List.mem_map.mp hx
    injection e with e
    exact e ▸ hiF y hy
  obtain ⟨obj, e, θ₀, o₀, v₀, par, hst, e₀, er, n1, n2, hrec⟩ :=
    C90_car1_run hA hS hm.toMildTimes hm.leny hm.lene hset srt N burnin thin hiD hr
  obtain ⟨s1, e1, h1⟩ := C72_car1_finite hA hm srt
  rw [e] at e1; cases e1
  obtain ⟨s2, v, ev, -⟩ := (h1 obj .none θi (by omega) hiF himu).2 hiw
  have e0 : θ₀ = θi.map .fin := by
    rw [hst, if_pos ⟨by simpa using hi4, s2, v, ev⟩]
  have v0 : v₀.isFin := by
    rw [e0, ev] at e₀
    cases e₀
    trivial
  obtain ⟨s3, e3, h3⟩ := C75_car1_accurate hA hacc hm srt
  rw [e] at e3; cases e3
  refine ⟨par, er, n1, n2, fun j hj => ?_⟩
  obtain ⟨θ, v', o, q1, q2, q3, q4, -⟩ := hrec j hj
  obtain ⟨hf, θr, rfl, k4, kF, kw⟩ := q4 v0
  obtain ⟨x, rfl⟩ := (isFin_iff _).mp hf
  refine ⟨θr, x, q1, q2, kw, fun a b c K hz => ?_⟩
  obtain ⟨s4, v4, e4, hb⟩ := h3 obj .none θr (by omega) kF kw a b c K hz
  rw [q3] at e4
  cases e4
  exact hb

/-- five samples near 0, 1, 2: log-densities within `2^-24` -/
example (srt : List Dbl → List ℕ) : ∃ par, frunCar1 fsMach srt 5 7 ([0, 1, 2 ^ 60].map .fin) ([0, 1, 2].map .fin) ([1, 1, 1].map .fin) 2 ([1, 1, 0, -40].map .fin)
    (fsRng (.fin 1)) = .ok par ∧ ∀ j < 5, ∃ (θ : List ℝ) (v : ℝ), par.samples[j]? = some (θ.map .fin) ∧ par.logposts[j]? = some (.fin v) ∧
      (Sized [0, 1, 2 ^ 60] [0, 1, 2] [1, 1, 1] θ 2 9 (-1) 3 → |v - (logGauss (obsCov (fun d => θ.getD 0 0 ^ 2 * Real.exp (-Real.exp (θ.getD 3 0) * d))
        (fun i : Fin 3 => [0, 1, 2 ^ 60].getD i 0) fun i => √(θ.getD 1 0) * [1, 1, 1].getD i 0) (fun i => [0, 1, 2].getD i 0 - θ.getD 2 0) + logPriorSpec θ)|
        ≤ 1 / 2 ^ 16) := by
  obtain ⟨B, L, hset, h1, h2, -⟩ := fs_setup C72_nearest
  obtain ⟨par, h, -, -, hr⟩ := C90_car1_accurate (M := fsMach) C72_nearest C90_nearest C75_nearest (fs_mild h2) hset srt 5 7 2 rfl fl_theta (fs_within h1)
    (by simp only [List.getD_cons_succ, List.getD_cons_zero, abs_zero]; positivity) (fs_usable (.fin 1))
  refine ⟨par, h, fun j hj => ?_⟩
  obtain ⟨θ, v, q1, q2, -, q3⟩ := hr j hj
  refine ⟨θ, v, q1, q2, fun hz => (q3 2 9 (-1) 3 hz).trans ?_⟩
  norm_num

/-- **C90, tempered chains.** The same for the sampler with several chains and exchanges between neighbouring chains, for any parameter object whose log-density always returns and
depends on the vector alone: the run returns with `N` records; each log-density is the one of its sample, and finite unless that of the start was not. Temperatures are at least 1. -/
theorem C90_ensemble {M : Mach} (hA : IsBinary64 M.A) (hS : Strict M.A) {μ : Type} [FTarget μ] {d : ℕ} {inv : μ → Prop} {f : List Dbl → Dbl}
    (hf : Honest M.A d inv f) {s : FSamp μ d} (h : FBuilt inv s) (N burnin thin : ℕ) {init : List Dbl} (hi : init.length = d → Doubles init) :
    ∃ s' c θ₀, s.run M N burnin thin init = .ok s' ∧ s'.chains[s.tracked]? = some c ∧ c.samples.length = N ∧ c.logposts.length = N ∧
      ∀ j < N, ∃ θ v, c.samples[j]? = some θ ∧ c.logposts[j]? = some v ∧ θ.length = d ∧ Recorded f θ₀ θ v := by
  obtain ⟨s0, s1, s', c0, c, -, -, -, -, -, -, -, -, -, e2, i1, n1, n2, hrec⟩ := run_ok hA hS hf h N burnin thin hi
  exact ⟨s', c, c0.value, e2, i1, n1, n2, hrec⟩

/-- two CAR(1) chains with temperatures 1 and 10, an exchange between them -/
example (srt : List Dbl → List ℕ) (a : FRam 4) : ∃ (obj : FCar1) (s' : FSamp FCar1 4) (c : FPar FCar1),
    FSamp.run fsMach { chains := [⟨obj, List.replicate 4 (.fin 0), .nan, .fin 1, [], []⟩, ⟨obj, List.replicate 4 (.fin 0), .nan, .fin 10, [], []⟩],
                       steps := [.ram 1 a, .exch 1, .ram 0 a], tracked := 0, rng := fsRng .pinf } 5 7 2 [] = .ok s' ∧
      s'.chains[0]? = some c ∧ c.samples.length = 5 := by
  obtain ⟨obj, e, h⟩ := new_num C72_nearest (ys := [0, 1, 2]) (es := [1, 1, 1]) (M := 10) fl_times srt
  have hs := h.shape (by simp) rfl rfl
  refine ⟨obj, ?_⟩
  obtain ⟨s', c, -, h1, h2, h3, -⟩ := C90_ensemble (M := fsMach) C72_nearest C90_nearest (car1_honest obj)
    (s := { chains := [⟨obj, List.replicate 4 (.fin 0), .nan, .fin 1, [], []⟩, ⟨obj, List.replicate 4 (.fin 0), .nan, .fin 10, [], []⟩],
            steps := [.ram 1 a, .exch 1, .ram 0 a], tracked := 0, rng := fsRng .pinf }) (by
      refine ⟨?_, ?_, by simp, ?_, ?_, fs_usable _⟩
      · intro c hc
        simp only [List.mem_cons, List.not_mem_nil, or_false] at hc
        rcases hc with rfl | rfl
        · exact ⟨⟨hs, FLike.refl obj⟩, by simp, 1, rfl, le_rfl⟩
        · exact ⟨⟨hs, FLike.refl obj⟩, by simp, 10, rfl, by norm_num⟩
      · intro st hst
        simp only [List.mem_cons, List.not_mem_nil, or_false] at hst
        rcases hst with rfl | rfl | rfl <;> simp [FStepOk]
      · intro i hi
        simp only [List.length_cons, List.length_nil] at hi
        interval_cases i
        · exact ⟨.ram 0 a, by simp, rfl⟩
        · exact ⟨.ram 1 a, by simp, rfl⟩
      · intro c hc
        simp only [List.mem_cons, List.not_mem_nil, or_false] at hc
        rcases hc with rfl | rfl <;> exact ⟨rfl, rfl⟩) 5 7 2 (init := []) (fun h => by cases h)
  exact ⟨s', c, h1, h2, h3⟩

/-- **C90, NaN in the factor.** Once the Cholesky factor of the proposals of a single chain has a NaN on its diagonal, the chain never moves again: the factor keeps the NaN, and
every proposal has a NaN in it. -/
theorem C90_nan_stuck {M : Mach} (hS : Strict M.A) (hZ : ZeroAndNan M) {μ : Type} [FTarget μ] {d : ℕ} {inv : μ → Prop} {f : List Dbl → Dbl}
    (hf : Honest M.A d inv f) (hnan : ∀ θ : List Dbl, θ.length = d → .nan ∈ θ → ¬ (f θ).isFin) {s : FSamp μ d} {c : FPar μ} {a : FRam d} {i : Fin d}
    (hc : s.chains = [c]) (hs : s.steps = [.ram 0 a]) (ht : s.tracked = 0) (ha : a.chol i i = .nan) (ho : inv c.obj) (hl : c.value.length = d)
    (hv : c.logpost = f c.value) (hd : Doubles c.value) (hT : ∃ t, c.temp = .fin t ∧ 1 ≤ t) (hr : Usable d s.rng) (n : ℕ) :
    ∃ s' c', s.iterate M n = .ok s' ∧ s'.chains = [c'] ∧ c'.value = c.value ∧ c'.logpost = c.logpost := by
  obtain ⟨s', c', e, h, -, -⟩ := frozen_iterate hS hZ hf.toHonestLd hnan (θ₀ := c.value) ⟨hc, ⟨a, i, hs, ha⟩, ht, ⟨ho, hl, hv, hd, hT⟩, rfl, hr⟩ n
  exact ⟨s', c', e, h.chains, h.value, by rw [h.good.lp, h.value, hv]⟩

/-- a CAR(1) chain whose factor is all NaN, 100 iterations -/
example (srt : List Dbl → List ℕ) : ∃ (obj : FCar1) (v : Dbl) (s' : FSamp FCar1 4) (c' : FPar FCar1), v.isFin ∧
    FSamp.iterate fsMach { chains := [⟨obj, [1, 1, 0, -40].map .fin, v, .fin 1, [], []⟩],
                           steps := [.ram 0 ⟨fun _ _ => .nan, .fin (2 / 3), .fin 0.25, 0, 9, .nan⟩], tracked := 0, rng := fsRng (.fin 1) } 100 = .ok s' ∧
    s'.chains = [c'] ∧ c'.value = [1, 1, 0, -40].map .fin := by
  obtain ⟨obj, e, h⟩ := new_num C72_nearest (ys := [0, 1, 2]) (es := [1, 1, 1]) (M := 10) fl_times srt
  have hs := h.shape (by simp) rfl rfl
  obtain ⟨s1, e1, h1⟩ := C72_car1_finite C72_nearest fl_mild srt
  rw [e] at e1; cases e1
  obtain ⟨s2, v, ev, -⟩ := (h1 obj .none [1, 1, 0, -40] (by simp) fl_theta (by simp only [List.getD_cons_succ, List.getD_cons_zero, abs_zero]; positivity)).2 fl_within
  have hv : .fin v = fcarVal (nearest EvenBelow) obj ([1, 1, 0, -40].map .fin) := by
    obtain ⟨o, eo, -⟩ := hist_ld (A := nearest EvenBelow) (s0 := obj) ⟨hs, FLike.refl obj⟩ (θ := [1, 1, 0, -40].map .fin) rfl
    rw [ev] at eo
    injection eo with eo
    injection eo
  have hnan : ∀ θ : List Dbl, θ.length = 4 → .nan ∈ θ → ¬ (fcarVal (nearest EvenBelow) obj θ).isFin := by
    intro θ h4 hn hf
    obtain ⟨θr, rfl, -⟩ := car1_finite C72_nearest C90_nearest h (by simp) h4 hf
    obtain ⟨x, -, hx⟩ := List.mem_map.mp hn
    cases hx
  obtain ⟨s', c', q1, q2, q3, -⟩ := C90_nan_stuck (M := fsMach) C90_nearest fs_zero (car1_honest obj) hnan
    (s := { chains := [⟨obj, [1, 1, 0, -40].map .fin, .fin v, .fin 1, [], []⟩],
            steps := [.ram 0 ⟨fun _ _ => .nan, .fin (2 / 3), .fin 0.25, 0, 9, .nan⟩], tracked := 0, rng := fsRng (.fin 1) }) (i := 2) rfl rfl rfl rfl
    ⟨hs, FLike.refl obj⟩ rfl hv ((fs_usable (.fin 1)).doubles 0) ⟨1, rfl, le_rfl⟩ (fs_usable _) 100
  exact ⟨obj, .fin v, s', c', trivial, q1, q2, q3⟩

lemma setup_len {A : Arith} {d : ℕ} {y : List Dbl} {B : Dbl} {L : List Dbl} (h : FRun.setup A d y = .ok (B, L)) : L.length = d := by
  unfold FRun.setup at h
  obtain ⟨l, e1, e2⟩ := bind_ok_inv h
  injection e2 with e2
  injection e2 with e2 e3
  subst e3
  unfold FRun.chol at e1
  split_ifs at e1
  injection e1 with e1
  rw [← e1]
  simp [FRun.covar]

/-- **C90, negation.** How a NaN gets there: `AdaptiveMetro::DoStep` divides by the norm of the Student t variates. If they are all zero in the first iteration of the burn-in, the
factor of the proposals gets a NaN and all `N` samples returned are the starting value, whatever comes from the generators later and however long the run. -/
theorem C90_zero_draw {M : Mach} (hA : IsBinary64 M.A) (hS : Strict M.A) (hZ : ZeroAndNan M) {ts ys es : List ℝ} (hm : MildTimes ts) (hy : ys.length = ts.length)
    (he : es.length = ts.length) {B : ℝ} {L : List Dbl} (hset : FRun.setup M.A 4 (ys.map .fin) = .ok (.fin B, L)) (hL : ∀ x ∈ L, x.isFin)
    (srt : List Dbl → List ℕ) (N thin : ℕ) {burnin : ℕ} (hb : 0 < burnin) {init : List Dbl} (hi : init.length = 4 → Doubles init) {r : FRng} (hr : Usable 4 r)
    (hz : ∀ k < 4, r.stud k = .fin 0) :
    ∃ obj, FCar1.new M.A srt (ts.map .fin) (ys.map .fin) (es.map .fin) (.fin B) = .ok obj ∧
      ∃ θ₀ par, StartOf M.A obj init (r.prior 0) θ₀ ∧ frunCar1 M srt N burnin (ts.map .fin) (ys.map .fin) (es.map .fin) thin init r = .ok par ∧
        ∀ j < N, par.samples[j]? = some θ₀ := by
  obtain ⟨obj, e, θ₀, o₀, v₀, par, hst, e₀, er, n1, n2, hrec⟩ := C90_car1_run hA hS hm hy he hset srt N burnin thin hi hr
  refine ⟨obj, e, θ₀, par, hst, er, fun j hj => ?_⟩
  by_cases hv : v₀.isFin
  swap
  · obtain ⟨θ, v, o, q1, -, -, -, q2⟩ := hrec j hj
    rw [q1, q2 hv]
  obtain ⟨obj', e', h⟩ := new_num hA (ys := ys) (es := es) (M := B) hm srt
  rw [e] at e'; cases e'
  have h0 : 0 < ts.length := lt_of_lt_of_le (by norm_num) hm.two
  have hs := h.shape h0 hy he
  have hθ₀ : θ₀ = car1Start M.A obj init (r.prior 0) := hst.trans (startOf_iff hs init (r.prior 0)).symm
  have l₀ : θ₀.length = 4 := hθ₀ ▸ start_len hr
  have hinv : FInv obj obj := ⟨hs, FLike.refl obj⟩
  have ev : v₀ = fcarVal M.A obj θ₀ := by
    obtain ⟨o, eo, -⟩ := hist_ld (A := M.A) hinv l₀
    rw [e₀] at eo; cases eo; rfl
  have hnan : ∀ θ : List Dbl, θ.length = 4 → .nan ∈ θ → ¬ (fcarVal M.A obj θ).isFin := by
    intro θ h4 hn hf
    obtain ⟨θr, rfl, -⟩ := car1_finite hA hS h h0 h4 hf
    obtain ⟨x, -, hx⟩ := List.mem_map.mp hn
    cases hx
  obtain ⟨c1, r1, e3, g1, v1, t1, k1, k2, u1, z1⟩ := car1_started (M := M) hs L N burnin hr hi
  rw [← hθ₀] at v1
  obtain ⟨θr, hθr, -⟩ := car1_finite hA hS h h0 l₀ (ev ▸ hv)
  have lL := setup_len hset
  obtain ⟨s2, c2, e4, f2, a2, b2⟩ := zero_sweep (a := FRam.new M.A 4 L (.fin 0.25) burnin) (r := r1) hA hS hZ (car1_honest obj).toHonestLd g1 (v1.trans hθr) u1
    (by rw [g1.lp, v1, ← ev]; exact hv) t1 (by
      intro i j
      simp only [FRam.new]
      split_ifs
      · rw [List.getD_eq_getElem _ _ (by omega)]
        exact hL _ (List.getElem_mem _)
      · trivial) hb (by rw [z1]; exact hz)
  have hit : ∀ n, ∃ s' c', FSamp.iterate M { car1Samp M obj L burnin r with chains := [c1], rng := r1 } (n + 1) = .ok s' ∧
      FFrozen (FInv obj) (fcarVal M.A obj) c1.value c' s' ∧ c'.samples = c1.samples ∧ c'.logposts = c1.logposts := by
    intro n
    induction n with
    | zero => exact ⟨s2, c2, by rw [FSamp.iterate]; exact e4, f2, a2, b2⟩
    | succ n ih =>
      obtain ⟨s', c', w1, w2, w3, w4⟩ := ih
      obtain ⟨s3, c3, w5, w6, w7, w8⟩ := frozen_sweep hS hZ (car1_honest obj).toHonestLd hnan w2
      refine ⟨s3, c3, ?_, w6, w7.trans w3, w8.trans w4⟩
      unfold FSamp.iterate at w1 ⊢
      simp only [iter] at w1 ⊢
      rw [w1]
      exact w5
  obtain ⟨n, rfl⟩ : ∃ n, burnin = n + 1 := ⟨burnin - 1, by omega⟩
  obtain ⟨s3, c3, w1, w2, w3, w4⟩ := hit n
  obtain ⟨s4, c4, x1, x2, x3, x4, x5⟩ := frozen_sample hS hZ (car1_honest obj).toHonestLd hnan w2 thin (N := N) (k := N) (by rw [w3, k1]; simp) (by rw [w4, k2]; simp) le_rfl
  rw [frun_eq hset e, car1_run_eq, e3, res_bind_ok, w1, res_bind_ok, x1, res_bind_ok, x2.chains] at er
  have : Except.ok c4 = (Except.ok par : Res (FPar FCar1)) := er
  injection this with this
  rw [← this, ← v1]
  exact x5 j hj

/-- all Student t variates zero -/
example (srt : List Dbl → List ℕ) : ∃ par, frunCar1 fsMach srt 5 7 ([0, 1, 2 ^ 60].map .fin) ([0, 1, 2].map .fin) ([1, 1, 1].map .fin) 2 [] (fsRng (.fin 0)) = .ok par ∧
    ∀ j < 5, par.samples[j]? = some (([1, 1, 0, -40] : List ℝ).map .fin) := by
  obtain ⟨B, L, hset, -, -, hL⟩ := fs_setup C72_nearest
  obtain ⟨_, -, θ₀, par, hs, h, hn⟩ := C90_zero_draw (M := fsMach) C72_nearest ⟨rfl, rfl, rfl, rfl⟩ fs_zero fl_times (ys := [0, 1, 2]) (es := [1, 1, 1]) rfl rfl hset hL srt 5 2 (burnin := 7)
    (by norm_num) (init := []) (fun h => by cases h) (fs_usable (.fin 0)) fun _ _ => rfl
  have e : θ₀ = ([1, 1, 0, -40] : List ℝ).map .fin := hs.trans (if_neg fun h => by cases h.1)
  exact ⟨par, h, e ▸ hn⟩

end Verif.Props
