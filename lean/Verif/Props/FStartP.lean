import Verif.Theory.FStartAR
import Verif.Props.FCarmaRun
import Verif.Props.FStart
import Verif.Props.FCarma

/-!
The parameters proposed by the search for a starting value, with machine numbers: C102. Specification: `Verif/Spec/FStartP.lean`.
-/

namespace Verif.Props

open Verif.Model Verif.Spec Verif.Theory
open scoped Classical

variable {p : ℕ} {C : CArith}

lemma logit_num {A : Arith} (hA : IsBinary64 A) (hacc : Accurate A) {k : ℝ} (k1 : 2 ^ (-200 : ℤ) ≤ k) (k2 : k ≤ 1 - 2 ^ (-53 : ℤ)) :
    ∃ x, FCarP.logit A (.fin k) = .fin x ∧ F64 x ∧ |x - Real.log (k / (1 - k))| ≤ 2 ^ (-40 : ℤ) := by
  have us := uu_small
  have u0 := uu_pos
  have hu : (2 : ℝ) ^ (-40 : ℤ) = 4096 * uu := by unfold uu; norm_num
  have k0 : 0 < k := lt_of_lt_of_le (by positivity) k1
  have p53 : (0 : ℝ) < 2 ^ (-53 : ℤ) := by positivity
  have j1 : (2 : ℝ) ^ (-53 : ℤ) ≤ 1 - k := by linarith
  have one : (1 : ℝ) ≤ 2 ^ (300 : ℤ) := le_trans (by norm_num : (1 : ℝ) ≤ 2 ^ (0 : ℤ)) (pw_le _ _ (by norm_num))
  have lk := log_rng ((pw_le (-300) (-200) (by norm_num)).trans k1) ((by linarith : k ≤ 1).trans one)
  have lj := log_rng ((pw_le (-300) (-53) (by norm_num)).trans j1) ((by linarith : 1 - k ≤ 1).trans one)
  have j0 : 0 < 1 - k := by linarith
  obtain ⟨a1, a2⟩ := abs_le.mp lk
  obtain ⟨b1, b2⟩ := abs_le.mp lj
  obtain ⟨s, es, -, s0, hs⟩ := rnd_log hA j0 (lj.trans (by norm_num))
  obtain ⟨c1, c2⟩ := abs_le.mp hs
  have e1 : Real.log (k / s) = Real.log k - Real.log s := Real.log_div k0.ne' s0.ne'
  obtain ⟨t, et, Ft, t0, ht⟩ := rnd_log hA (x := k / s) (by positivity) (by rw [e1, abs_le]; constructor <;> linarith)
  rw [e1] at ht
  obtain ⟨d1, d2⟩ := abs_le.mp ht
  obtain ⟨x, ex, Fx, hx⟩ := acc_log hA hacc (K := 417) Ft t0 (by rw [abs_le]; constructor <;> linarith)
  obtain ⟨f1, f2⟩ := abs_le.mp hx
  refine ⟨x, ?_, Fx, ?_⟩
  · unfold FCarP.logit
    rw [fl_sub, es, fl_div _ _ s0.ne', et, ex]
  · rw [Real.log_div k0.ne' j0.ne', hu, abs_le]
    constructor <;> linarith

lemma extra_num {A : Arith} (hA : IsBinary64 A) (hacc : Accurate A) {s : FCarP p} {kind : Kind} (hk : s.kind = kind) {d : PassDraws}
    (hma : ∀ q, kind = .carma q → 0 < q ∧ ∃ l : List ℝ, d.ma = l.map .fin ∧ l.length = q ∧ ∀ x ∈ l, F64 x)
    (hka : kind = .zcarma → ∃ k, d.kappa = .fin k ∧ 2 ^ (-200 : ℤ) ≤ k ∧ k ≤ 1 - 2 ^ (-53 : ℤ)) :
    ∃ ex : List ℝ, s.startExtra A d = .ok (ex.map .fin) ∧ (∀ x ∈ ex, F64 x) ∧ ExtraDrawn d ex kind ∧ p + ex.length + 3 = dimOf p kind := by
  unfold FCarP.startExtra
  rw [hk]
  cases kind with
  | carp => exact ⟨[], rfl, by simp, rfl, rfl⟩
  | zcar => exact ⟨[], rfl, by simp, rfl, rfl⟩
  | carma q =>
    obtain ⟨h0, l, e, hl, hF⟩ := hma q rfl
    refine ⟨l.map (|·|), ?_, ?_, ⟨by simpa using hl, fun i z hz => ?_⟩, by simp [dimOf, hl]⟩
    · show (if q = 0 then _ else _) = _
      rw [if_neg (by omega), e, List.map_map, List.map_map]
      rfl
    · intro x hx
      obtain ⟨y, hy, rfl⟩ := List.mem_map.mp hx
      rcases abs_choice y with h | h <;> rw [h]
      · exact hF y hy
      · exact f64_neg (hF y hy)
    · rw [e, List.getElem?_map] at hz
      obtain ⟨y, hy, e'⟩ := Option.map_eq_some_iff.mp hz
      injection e' with e'
      subst e'
      rw [List.getElem?_map, hy]
      rfl
  | zcarma =>
    obtain ⟨k, e, k1, k2⟩ := hka rfl
    obtain ⟨x, ex, Fx, hx⟩ := logit_num hA hacc k1 k2
    refine ⟨[x], ?_, by simpa using Fx, ⟨x, k, rfl, e, hx⟩, by simp [dimOf]⟩
    show Except.ok [FCarP.logit A d.kappa] = _
    rw [e, ex]
    rfl

/-- **C102.** The parameters that a pass of `StartingValue` proposes, in binary64 arithmetic with any rounding mode and an accurate library, for times of moderate size (at least three of
them if the order is odd), orders the class is meant for, and draws in the ranges of their distributions: no undefined behaviour, no exception; the vector has the right number of entries,
all of them finite doubles; standard deviation, mean and scale are what is meant; and so are the autoregressive parameters, up to `2^-40`: those of a process whose widths and centroids
are the frequencies chosen by the uniform draws between one over the time span and one over the smallest gap, the centroids in descending order. -/
theorem C102_pass (hA : IsBinary64 C.r) (hacc : Accurate C.r) (hE : ExpFinite C.r) {ts ys : List ℝ} {yerr : List Dbl} (ht : MildTimes ts) (hy : ys.length = ts.length)
    (he : ts.length ≤ yerr.length) {kind : Kind} (ho : OrdersOk p kind) (h3 : p % 2 = 1 → 3 ≤ ts.length) {g : ℝ} (hg : SmallestGap ts g) (srt : List Dbl → List ℕ) (B : Dbl) :
    ∃ obj, FCarP.new C kind p srt (ts.map .fin) (ys.map .fin) yerr B = .ok obj ∧
      ∀ {lib : StartLib} {d : PassDraws} {u w : List ℝ} {v m c z c50 : ℝ}, PassInput lib p kind ys d u w v m c z c50 →
        ∃ sd sc mu u' l ex yv, obj.drawPass C.r lib d = .ok ((sd :: sc :: mu :: (l ++ ex)).map .fin, yv) ∧ C.r.sqrt yv = .fin sd ∧
          3 + (l.length + ex.length) = dimOf p kind ∧ PassDrawn ts.length ts g p kind d u w v m c z sd sc mu u' l ex := by
  obtain ⟨ds, hd, hpos⟩ := mild_pos hA ht
  obtain ⟨s, e, -, -, -⟩ := newp_ok (C := C) (y := ys.map .fin) (yerr := yerr) (M := B) hd hpos (by rw [List.length_map, List.length_map, hy])
    (by rw [List.length_map]; exact he) ho srt
  refine ⟨s, e, fun {lib d u w v m c z c50} hi => ?_⟩
  obtain ⟨et, ey, ek, dt, dmin, e1, e2, e3⟩ := newp_fields e
  have eg := min_gap hA ht hg e1 e2
  rw [← eg] at e3
  obtain ⟨u', l, el, hlF, har⟩ := startAR_num hA hacc hE ht hg et e3 (OrdersOk.two ho) h3 hi.cent hi.width hi.lenu hi.lenw hi.u01 hi.u0 hi.w01 hi.low
  obtain ⟨ex, ee, hexF, hex, hdim⟩ := extra_num hA hacc ek hi.ma hi.kappa
  have h2 := ht.two
  have hx := ht.max
  have c1 : ((ts.length - 1 : ℕ) : ℝ) = ts.length - 1 := by rw [Nat.cast_sub (by omega)]; simp
  have c0 : 0 < c := lt_of_lt_of_le (by positivity) hi.c_lo
  obtain ⟨sd, esd, Fsd, hS, S1, S2⟩ := sd_num hA hi.v_lo hi.v_hi hi.c_lo hi.c_hi (k := ts.length - 1) (by omega) (by omega)
  obtain ⟨mu, emu, Fmu, -, hmu⟩ := mu_num hA hS S1 S2 hi.z_hi hi.m_hi (n := ts.length) (by omega) (by omega)
  obtain ⟨sc, esc, Fsc, sc1, sc2⟩ := scale_num hA hi.c50_lo
  have eS : √(v / c * ((ts.length - 1 : ℕ) : ℝ)) = startStdev ts.length v c := by rw [startStdev, c1]
  rw [eS] at hS S1 S2 hmu
  have us := uu_small
  have u0 := uu_pos
  have S0 : 0 < startStdev ts.length v c := lt_of_lt_of_le (by positivity) S1
  obtain ⟨b1, -⟩ := hS.bounds
  refine ⟨sd, sc, mu, u', l, ex, FCar1.scaledInvChi C.r (ts.length - 1) (.fin v) (.fin c), ?_, esd, by rw [har.len]; omega, ?_⟩
  · unfold FCarP.drawPass
    rw [el, res_bind_ok, ee, res_bind_ok]
    dsimp only
    rw [ey, hi.var, hi.mean, hi.chi, hi.norm, hi.chi50, List.length_map, hy, esd, emu, esc, ← List.map_append]
    rfl
  · refine ⟨?_, by nlinarith, ?_, sc1, sc2, hmu, har, hex⟩
    · intro x hx
      simp only [List.mem_cons, List.mem_append] at hx
      rcases hx with rfl | rfl | rfl | hx | hx
      · exact Fsd
      · exact Fsc
      · exact Fmu
      · exact hlF x hx
      · exact hexF x hx
    · refine le_trans (show |_| ≤ _ from hS) (mul_le_mul_of_nonneg_right ?_ S0.le)
      unfold uu
      norm_num

/-- what a run with computed proposals amounts to -/
lemma fromp_eq {M : Mach} (hC : C.r = M.A) {q : ℕ} {zc : Bool} {srt : List Dbl → List ℕ} {time y yerr : List Dbl} {B : Dbl} {L : List Dbl} {obj : FCarP p} (lib : StartLib)
    (hset : FRun.setup M.A (nParams p q zc) y = .ok (B, L)) (e : FCarP.new C (runKind q zc) p srt time y yerr B = .ok obj) (fuel N burnin n thin : ℕ) (init : List Dbl)
    (ds : ℕ → PassDraws) (r : FRng) :
    frunCarmaFrom C M lib fuel srt N burnin time y yerr p q n zc thin init ds r =
      frunCarma C M fuel srt N burnin time y yerr p q n zc thin init (passRng M.A lib obj ds r) := by
  unfold FRun.setup at hset
  obtain ⟨l, e1, e2⟩ := bind_ok_inv hset
  injection e2 with e2
  injection e2 with e2 e3
  unfold frunCarmaFrom
  rw [e2, e, res_bind_ok, hC]

/-- **C102, runs.** `RunCarmaSampler` with the proposals of its search computed from the draws: if the draws of all passes are in the ranges of their distributions, the run either does not
leave the search, or throws `runtime_error`, or returns `N` records as in C100. No pass fails. -/
theorem C102_run {M : Mach} (hA : IsBinary64 M.A) (hS : Strict M.A) (hL : Ladder M.A) (hacc : Accurate M.A) (hE : ExpFinite M.A) (hC : C.r = M.A) {ts ys : List ℝ} {yerr : List Dbl}
    (ht : MildTimes ts) (hy : ys.length = ts.length) (he : ts.length ≤ yerr.length) {q : ℕ} {zc : Bool} (ho : OrdersOk p (runKind q zc)) (h3 : p % 2 = 1 → 3 ≤ ts.length)
    {B : Dbl} {L : List Dbl} (hset : FRun.setup M.A (nParams p q zc) (ys.map .fin) = .ok (B, L)) (srt : List Dbl → List ℕ) (fuel N burnin thin : ℕ) {n : ℕ} (h0 : 0 < n)
    (hn : n ≤ 2 ^ 53) {init : List Dbl} (hi : init.length = nParams p q zc → Doubles init) {r : FRng} (hu : ∀ k, ¬ (r.unif k).lt (.fin 0)) {lib : StartLib} {ds : ℕ → PassDraws}
    (hd : ∀ k, ∃ u w v m c z c50, PassInput lib p (runKind q zc) ys (ds k) u w v m c z c50) :
    ∃ obj, FCarP.new C (runKind q zc) p srt (ts.map .fin) (ys.map .fin) yerr B = .ok obj ∧ (∀ k, ∃ θ v, obj.drawPass M.A lib (ds k) = .ok (θ, v)) ∧
      (frunCarmaFrom C M lib fuel srt N burnin (ts.map .fin) (ys.map .fin) yerr p q n zc thin init ds r = .error .timeout ∨
       frunCarmaFrom C M lib fuel srt N burnin (ts.map .fin) (ys.map .fin) yerr p q n zc thin init ds r = .error .runtime ∨
       ∃ par, frunCarmaFrom C M lib fuel srt N burnin (ts.map .fin) (ys.map .fin) yerr p q n zc thin init ds r = .ok par ∧
         Chain C obj (nParams p q zc) N par.samples par.logposts) := by
  obtain ⟨g, hg⟩ := exists_gap ht
  obtain ⟨obj, e, hp⟩ := C102_pass (C := C) (hC ▸ hA) (hC ▸ hacc) (hC ▸ hE) ht hy he ho h3 hg srt B
  have hpass : ∀ k, ∃ θ : List ℝ, ∃ v, obj.drawPass M.A lib (ds k) = .ok (θ.map .fin, v) ∧ θ.length = nParams p q zc ∧ ∀ x ∈ θ, F64 x := by
    intro k
    obtain ⟨u, w, v, m, c, z, c50, hk⟩ := hd k
    obtain ⟨sd, sc, mu, u', l, ex, yv, h, -, hl, hP⟩ := hp hk
    rw [hC] at h
    exact ⟨_, yv, h, by rw [params_dim, ← hl]; simp; omega, hP.dbl⟩
  have hr : Usable (nParams p q zc) (passRng M.A lib obj ds r) := by
    refine ⟨hu, fun k => ?_, fun k => ?_⟩
    · obtain ⟨θ, v, h, hl, -⟩ := hpass k
      show List.length (match obj.drawPass M.A lib (ds k) with | .ok (θ, _) => θ | .error _ => []) = _
      rw [h]
      simpa using hl
    · obtain ⟨θ, v, h, -, hF⟩ := hpass k
      show Doubles (match obj.drawPass M.A lib (ds k) with | .ok (θ, _) => θ | .error _ => [])
      rw [h]
      intro x hx
      obtain ⟨y, hy, e⟩ := List.mem_map.mp hx
      injection e with e
      exact e ▸ hF y hy
  rw [fromp_eq hC lib hset e]
  obtain ⟨obj', e', h⟩ := C100_run (C := C) hA hS hL hC ht (by rw [List.length_map, hy]) he ho hset srt fuel N burnin thin h0 hn hi hr
  rw [e] at e'
  injection e' with e'
  subst e'
  refine ⟨obj, e, fun k => ?_, h⟩
  obtain ⟨θ, v, h, -⟩ := hpass k
  exact ⟨_, v, h⟩

/-! ### examples -/

lemma fst_setup6 {A : Arith} (hA : IsBinary64 A) : ∃ B L, FRun.setup A 6 (fstYs.map .fin) = .ok (.fin B, L) ∧ 1 ≤ B ∧ B ≤ 10 := by
  have e1 : popVariance (n := 10) ![0, 1, 0, 1, 0, 1, 0, 1, 0, 1] = 1 / 4 := by simp [popVariance, Fin.sum_univ_succ]; norm_num
  have e2 : meanSquare (n := 10) ![0, 1, 0, 1, 0, 1, 0, 1, 0, 1] = 1 / 2 := by simp [meanSquare, Fin.sum_univ_succ]; norm_num
  have h : ModerateValues (n := 10) ![0, 1, 0, 1, 0, 1, 0, 1, 0, 1] := by
    refine ⟨by norm_num, by norm_num, ?_, ?_⟩
    · rw [e2]; exact le_trans (pw_le (-300) (-1) (by norm_num)) (by norm_num)
    · rw [e2]; exact le_trans (by norm_num) (pw_le 0 300 (by norm_num))
  obtain ⟨B, L, h1, h2, -, -⟩ := C89_setup_partial hA h 6 (δ := 96 * 2 ^ (-52 : ℤ)) (by rw [e1, e2]; push_cast; ring) (by rw [e1, e2]; norm_num)
  rw [e1] at h2
  have s1 : √(1 / 4 : ℝ) = 1 / 2 := by rw [show (1 / 4 : ℝ) = (1 / 2) ^ 2 by norm_num]; exact Real.sqrt_sq (by norm_num)
  rw [s1] at h2
  obtain ⟨h3, h4⟩ := abs_le.mp h2
  norm_num at h3 h4
  refine ⟨B, L, by simpa [List.ofFn_succ, fstYs] using h1, ?_, ?_⟩ <;> linarith

/-- draws of a pass for order 3 -/
noncomputable def fpDraws : PassDraws :=
  ⟨[.fin (1 / 2), .fin (1 / 4)], [.fin 1, .fin 0], fun a _ => a, [.fin (-1), .fin 2], .fin (1 / 2), .fin 9, .fin (-1), .fin 0⟩

lemma fst_passes {kind : Kind} (hk : ∀ q, kind = .carma q → q = 2) : PassInput fstLib 3 kind fstYs fpDraws [1 / 2, 1 / 4] [1, 0] (1 / 4) (1 / 2) 9 (-1) 0 where
  cent := rfl
  width := rfl
  lenu := rfl
  lenw := rfl
  u01 := by intro x hx; simp only [List.mem_cons, List.not_mem_nil, or_false] at hx; rcases hx with rfl | rfl <;> norm_num
  u0 := by intro _ x hx; simp only [List.mem_cons, List.not_mem_nil, or_false] at hx; rcases hx with rfl | rfl <;> norm_num
  w01 := by intro x hx; simp only [List.mem_cons, List.not_mem_nil, or_false] at hx; rcases hx with rfl | rfl <;> norm_num
  low := fun a b ha _ hab => ⟨a, rfl, ha, le_rfl, hab.le⟩
  ma := by
    intro q h
    have := hk q h
    subst this
    refine ⟨by norm_num, [-1, 2], rfl, rfl, ?_⟩
    intro x hx
    simp only [List.mem_cons, List.not_mem_nil, or_false] at hx
    rcases hx with rfl | rfl
    · exact f64_neg f64_one
    · exact f64_two
  kappa := fun _ => ⟨1 / 2, rfl, le_trans (pw_le _ (-1) (by norm_num)) (by norm_num), by norm_num⟩
  var := rfl
  mean := rfl
  chi := rfl
  norm := rfl
  chi50 := rfl
  v_lo := le_trans (pw_le _ (-2) (by norm_num)) (by norm_num)
  v_hi := le_trans (by norm_num) (pw_le 0 _ (by norm_num))
  m_hi := le_trans (by rw [abs_of_pos] <;> norm_num) (pw_le 0 _ (by norm_num))
  c_lo := le_trans (pw_le _ 0 (by norm_num)) (by norm_num)
  c_hi := le_trans (by norm_num) (pw_le 4 _ (by norm_num))
  z_hi := le_trans (by norm_num) (pw_le 0 _ (by norm_num))
  c50_lo := le_rfl

/-- CARMA(3,2), times 0, ..., 9, default rounding: the draw 1 for the first width gives the logarithm of `4 pi` to `2^-40`, and the moving-average draws -1, 2 give 1, 2 -/
example (srt : List Dbl → List ℕ) : ∃ (obj : FCarP 3) (θ : List ℝ) (v : Dbl), FCarP.new libC (.carma 2) 3 srt (fstTs.map .fin) (fstYs.map .fin) (fstEs.map .fin) (.fin 5) = .ok obj ∧
    obj.drawPass libC.r fstLib fpDraws = .ok (θ.map .fin, v) ∧ |θ.getD 4 0 - Real.log (4 * Real.pi)| ≤ 2 ^ (-40 : ℤ) ∧ θ.drop 6 = [1, 2] := by
  have hg : SmallestGap fstTs 1 := by
    refine ⟨⟨0, by simp [fstTs], by simp [fstTs]⟩, fun i hi => ?_⟩
    simp only [fstTs, List.length_cons, List.length_nil] at hi
    have : i < 9 := by omega
    interval_cases i <;> simp [fstTs] <;> norm_num
  obtain ⟨obj, e, h⟩ := C102_pass (C := libC) C72_nearest C75_nearest C93_nearest fst_times (ys := fstYs) (yerr := fstEs.map .fin) rfl (by simp [fstEs, fstTs]) (p := 3)
    (kind := .carma 2) ⟨by norm_num, by norm_num⟩ (fun _ => by simp [fstTs]) hg srt (.fin 5)
  obtain ⟨sd, sc, mu, u', l, ex, yv, h1, -, h2, hP⟩ := h (fst_passes (kind := .carma 2) fun q h => by injection h with h; exact h.symm)
  refine ⟨obj, _, yv, e, h1, ?_, ?_⟩
  · have hq := hP.ar.quad2 0 (by norm_num)
    have e1 : freqAt fstTs 1 1 = 1 := by simp [freqAt]
    simp only [List.getD_cons_zero, e1, mul_one] at hq
    have hl := hP.ar.len
    rw [show (sd :: sc :: mu :: (l ++ ex)).getD 4 0 = l.getD 1 0 by
      show (l ++ ex).getD 1 0 = _
      exact List.getD_append _ _ _ _ (by omega)]
    exact hq
  · obtain ⟨hl, hx⟩ := hP.extra
    have hl3 := hP.ar.len
    have x0 := hx 0 (-1) rfl
    have x1 := hx 1 2 rfl
    show (l ++ ex).drop 3 = _
    rw [← hl3, List.drop_left]
    match ex, hl with
    | [a, b], _ =>
      simp only [List.getElem?_cons_zero, Option.some.injEq, List.getElem?_cons_succ] at x0 x1
      rw [x0, x1]
      norm_num

/-- ZCARMA(3): the last parameter is the logit of 1/2, zero, to `2^-40` -/
example (srt : List Dbl → List ℕ) : ∃ (obj : FCarP 3) (θ : List ℝ) (v : Dbl) (x : ℝ), FCarP.new libC .zcarma 3 srt (fstTs.map .fin) (fstYs.map .fin) (fstEs.map .fin) (.fin 5) = .ok obj ∧
    obj.drawPass libC.r fstLib fpDraws = .ok (θ.map .fin ++ [.fin x], v) ∧ |x| ≤ 2 ^ (-40 : ℤ) := by
  obtain ⟨g, hg⟩ := exists_gap fst_times
  obtain ⟨obj, e, h⟩ := C102_pass (C := libC) C72_nearest C75_nearest C93_nearest fst_times (ys := fstYs) (yerr := fstEs.map .fin) rfl (by simp [fstEs, fstTs]) (p := 3)
    (kind := .zcarma) (show 2 ≤ 3 by norm_num) (fun _ => by simp [fstTs]) hg srt (.fin 5)
  obtain ⟨sd, sc, mu, u', l, ex, yv, h1, -, -, hP⟩ := h (fst_passes (kind := .zcarma) fun q h => by cases h)
  obtain ⟨x, k, rfl, hk, hx⟩ := hP.extra
  injection hk with hk
  subst hk
  refine ⟨obj, sd :: sc :: mu :: l, yv, x, e, by rw [h1]; simp, ?_⟩
  rw [show (1 / 2 : ℝ) / (1 - 1 / 2) = 1 by norm_num, Real.log_one, sub_zero] at hx
  exact hx

/-- runs of CAR(3) on these data with 10 chains; the draws of all passes are the same -/
example (srt : List Dbl → List ℕ) (fuel N : ℕ) :
    frunCarmaFrom libC fsMach fstLib fuel srt N 7 (fstTs.map .fin) (fstYs.map .fin) (fstEs.map .fin) 3 0 10 false 2 [] (fun _ => fpDraws) (fsRng .nan) ≠ .error .ub := by
  obtain ⟨B, L, hset, -⟩ := fst_setup6 C72_nearest
  obtain ⟨obj, -, -, h⟩ := C102_run (C := libC) (M := fsMach) C72_nearest C90_nearest C100_nearest C75_nearest C93_nearest rfl fst_times (ys := fstYs) (yerr := fstEs.map .fin) rfl
    (by simp [fstEs, fstTs]) (p := 3) (q := 0) (zc := false) (show 2 ≤ 3 by norm_num) (fun _ => by simp [fstTs]) hset srt fuel N 7 2 (n := 10) (by norm_num) (by norm_num)
    (init := []) (by simp [nParams]) (r := fsRng .nan) (fs_usable .nan).unif (lib := fstLib) (ds := fun _ => fpDraws)
    (fun _ => ⟨_, _, _, _, _, _, _, fst_passes (kind := runKind 0 false) fun q h => by cases h⟩)
  rcases h with h | h | ⟨par, h, -⟩ <;> rw [h] <;> simp

end Verif.Props
