import Verif.Theory.PostMeas
import Verif.Theory.StationaryRef
import Verif.Theory.RunValue

/-!
The objects of the two run functions evaluate the posterior densities of `Verif.Spec.PostTarget`.
-/

namespace Verif.Theory

open Verif.Model Verif.Spec
open scoped Classical

/-- The roots of the quadratic factors in order. -/
noncomputable def pairRoot (θ : ℕ → ℝ) (k : ℕ) : ℂ :=
  let a := Real.exp (θ (3 + 2 * (k / 2)))
  let b := Real.exp (θ (3 + 2 * (k / 2) + 1))
  let s : ℝ := if k % 2 = 0 then 1 else -1
  if 0 < b ^ 2 - 4 * a then ⟨-(b + s * √(b ^ 2 - 4 * a)) / 2, 0⟩ else ⟨-b / 2, -s * √(4 * a - b ^ 2) / 2⟩

theorem quadPair_pairRoot (θ : ℕ → ℝ) (k : ℕ) :
    quadPair (Real.exp (θ (3 + 2 * k))) (Real.exp (θ (3 + 2 * k + 1))) = [pairRoot θ (2 * k), pairRoot θ (2 * k + 1)] := by
  unfold pairRoot quadPair
  have e1 : 2 * k / 2 = k := by omega
  have e2 : (2 * k + 1) / 2 = k := by omega
  have e3 : 2 * k % 2 = 0 := by omega
  have e4 : ¬ (2 * k + 1) % 2 = 0 := by omega
  simp only [e1, e2, e3, e4, if_true, if_false]
  generalize Real.exp (θ (3 + 2 * k)) = a
  generalize Real.exp (θ (3 + 2 * k + 1)) = b
  have e5 : b * b - 4 * a = b ^ 2 - 4 * a := by ring
  have e6 : -(b ^ 2 - 4 * a) = 4 * a - b ^ 2 := by ring
  rw [e5]
  split
  · congr 1
    · congr 1; ring
    · congr 2; ring
  · rw [e6]
    congr 1
    · congr 1 <;> ring
    · congr 2 <;> ring

theorem rootLoop_pairRoot (θ : List ℝ) (k : ℕ) (h : 3 + 2 * k ≤ θ.length) :
    rootLoop θ 3 k = .ok ((List.range (2 * k)).map (pairRoot (at0 θ))) := by
  induction k with
  | zero => rfl
  | succ k ih =>
      simp only [rootLoop, ih (by omega), rd_at0 (show 3 + 2 * k < θ.length by omega), rd_at0 (show 3 + 2 * k + 1 < θ.length by omega),
        res_bind_ok, res_pure, quadPair_pairRoot]
      rw [show 2 * (k + 1) = 2 * k + 1 + 1 by ring, List.range_succ, List.range_succ]
      simp

theorem arRoots_spec {p : ℕ} {θ : List ℝ} (h : 3 + p ≤ θ.length) :
    arRoots p θ = .ok (List.ofFn fun k : Fin p => arRootSpec p (at0 θ) k) := by
  have hl := rootLoop_pairRoot θ (p / 2) (by omega)
  have e : (List.ofFn fun k : Fin p => arRootSpec p (at0 θ) k) = (List.range p).map fun k => arRootSpec p (at0 θ) k := by
    refine List.ext_getElem (by simp) fun i h1 h2 => ?_
    simp
  have e0 : ∀ k < 2 * (p / 2), arRootSpec p (at0 θ) k = pairRoot (at0 θ) k := by
    intro k hk
    unfold arRootSpec pairRoot
    rw [if_pos hk]
  have e1 : (List.range (2 * (p / 2))).map (fun k => arRootSpec p (at0 θ) k) = (List.range (2 * (p / 2))).map (pairRoot (at0 θ)) :=
    List.map_congr_left fun k hk => e0 k (List.mem_range.mp hk)
  rw [e]
  unfold arRoots rootsFrom
  simp only [hl, res_bind_ok]
  by_cases hm : p % 2 = 1
  · rw [if_pos hm, rd_at0 (show 3 + p - 1 < θ.length by omega)]
    simp only [res_bind_ok, res_pure]
    have hp : List.range p = List.range (2 * (p / 2)) ++ [2 * (p / 2)] := by
      rw [← List.range_succ]; congr 1; omega
    rw [hp, List.map_append, e1, List.map_cons, List.map_nil]
    congr 3
    unfold arRootSpec
    rw [if_neg (by omega)]
  · rw [if_neg hm, res_pure, ← e1]
    congr 3
    omega

theorem impulse_response {p : ℕ} {ω : Fin p → ℂ} {ma : List ℝ} {β : ℂ → ℂ} (h : ∀ z, maEval ma z = β z) (d : ℝ) :
    carmaAcf 1 ω ma d = responseAcf ω β d := by
  have e : impulse ω ma = response ω β := by
    funext s
    simp only [impulse, response, h]
  rw [carmaAcf, responseAcf, e, one_mul]

theorem vecOf_ofFn {p : ℕ} (f : Fin p → ℂ) : vecOf p (List.ofFn f) = f := by
  funext k
  rw [vecOf_get (by simp)]
  simp

variable {n : ℕ} {t y e : Fin n → ℝ}

theorem solid1_target (hn : 0 < n) (ht : StrictMono t) {s0 : Car1} (hs : Solid1 s0 n t y e) {fmax fmin : ℝ}
    (f1 : s0.b.maxFreq = .fin fmax) (f2 : s0.b.minFreq = .fin fmin) :
    HasTarget Car1 (Car1.Core s0) (car1Target t y e s0.b.maxStdev fmax fmin) where
  stale o x ho := (car1_total hn ht hs).stale o _ ho (by simp)
  ld o x ho := by
    obtain ⟨o', v, h1, h2⟩ := (car1_total hn ht hs).ld o (List.ofFn x) ho (by simp)
    refine ⟨o', v, h1, h2, ?_⟩
    have hθ : 4 ≤ (List.ofFn x).length := by simp
    have hc := car1_check f1 f2 hθ
    have a0 : at0 (List.ofFn x) 0 = x 0 := by simp [at0]
    have a1 : at0 (List.ofFn x) 1 = x 1 := by simp [at0]
    have a2 : at0 (List.ofFn x) 2 = x 2 := by simp [at0]
    have a3 : at0 (List.ofFn x) 3 = x 3 := by simp [at0]
    have h1' : logDensity o (List.ofFn x) = .ok (o', v) := h1
    unfold car1Target
    by_cases hb : Car1Bounds s0.b.maxStdev fmax fmin (List.ofFn x)
    · rw [decide_eq_true hb] at hc
      have hpos : 0 < at0 (List.ofFn x) 1 := by have := hb.err_lo; linarith
      have hok : Car1.Ok s0.b n (ext0 t) o := ⟨ho.1.symm, hs.k.of_time ho.2⟩
      obtain ⟨s', -, h3⟩ := (car1_ld_true (y := ext0 y) (e := ext0 e) hok hn le_rfl
        (fun i hi => strictMono_ext0 ht i hi) hs.time (by rw [hs.y, ofFn_eq_rangeMap])
        (by rw [hs.yerr, ofFn_eq_rangeMap]) hθ hc).1 rfl
      rw [h1'] at h3
      injection h3 with h3
      injection h3 with _ h3
      rw [h3]
      by_cases he : x 0 ≠ 0 ∨ ∀ i, e i ≠ 0
      · rw [if_pos ⟨hb, he⟩]
        show _ = _
        rw [likVal, if_neg]
        · have e1 : car1Acf (2 * at0 (List.ofFn x) 0 * at0 (List.ofFn x) 0 * Real.exp (at0 (List.ofFn x) 3)) (Real.exp (at0 (List.ofFn x) 3)) =
              fun d => x 0 ^ 2 * Real.exp (-Real.exp (x 3) * d) := by
            have hexp := Real.exp_pos (at0 (List.ofFn x) 3)
            funext d; rw [car1Acf, ← a0, ← a3]; congr 1; field_simp
          have e2 : fst n (fun i => √(at0 (List.ofFn x) 1) * ext0 e i) = fun i => √(x 1) * e i := by rw [a1]; funext i; simp [fst]
          have e3 : fst n (fun i => ext0 y i - at0 (List.ofFn x) 2) = fun i => y i - x 2 := by rw [a2]; funext i; simp [fst]
          rw [priorVal_pos hpos, e1, e2, e3, fst_ext0, Dbl.add, logPriorSpec]
        · rintro ⟨h0, i, hi, hi0⟩
          rcases he with he | he
          · exact he (a0 ▸ h0)
          · rw [ext0_of_lt e hi, mul_eq_zero] at hi0
            rcases hi0 with hi0 | hi0
            · exact (Real.sqrt_pos.mpr hpos).ne' hi0
            · exact he _ hi0
      · rw [if_neg (fun h => he h.2)]
        push Not at he
        obtain ⟨h0, i, hi0⟩ := he
        rw [likVal, if_pos ⟨a0.trans h0, i, i.2, by rw [ext0_of_lt e i.2, hi0, mul_zero]⟩, nan_add]
        exact id
    · rw [decide_eq_false hb] at hc
      have hf : CarModel.checkPrior o (List.ofFn x) = .ok false := by
        show Car1.checkPrior o.b _ = _
        rw [← ho.1]; exact hc
      rw [logDensity_false hf] at h1'
      injection h1' with h1'
      injection h1' with _ h1'
      rw [← h1', if_neg (fun h => hb h.1)]
      exact id

theorem solid_target {p : ℕ} (hp : 2 ≤ p) (hn : 0 < n) (ht : StrictMono t) {s0 : CarP p} (hs : Solid s0 n t y e) {lo hi : ℝ} (hlo : 0 < lo)
    (hlh : lo ≤ hi) (hkap : KappaOk s0 lo hi) {fmax fmin : ℝ} (f1 : s0.b.maxFreq = .fin fmax) (f2 : s0.b.minFreq = .fin fmin)
    {m : ℕ} (hm : m = npar p s0.kind) :
    HasTarget (CarP p) (CarP.Core s0) (carmaTarget (m := m) s0.kind p t y e s0.b.maxStdev fmax fmin lo hi) where
  stale o x ho := (carp_total hp hn ht hs).stale o _ ho (by simp [hm])
  ld o x ho := by
    obtain ⟨o', v, h1, h2⟩ := (carp_total hp hn ht hs).ld o (List.ofFn x) ho (by simp [hm])
    refine ⟨o', v, h1, h2, ?_⟩
    have hl3 := npar_ge (p := p) s0.kind
    have hθ : npar p s0.kind ≤ (List.ofFn x).length := by simp [hm]
    have hr := arRoots_spec (p := p) (θ := List.ofFn x) (by omega)
    have h1' : logDensity o (List.ofFn x) = .ok (o', v) := h1
    unfold carmaTarget
    dsimp only
    generalize List.ofFn x = θ at *
    generalize hω : (fun k : Fin p => arRootSpec p (at0 θ) k) = ω at *
    have hc := carp_check f1 f2 hs.ign (θ := θ) (p := p) (by omega) hr
    obtain ⟨roots', hr', hg⟩ := rootsFrom_spec θ 3 p (by omega)
    cases hr.symm.trans hr'
    by_cases hb : CarpBounds s0.b.maxStdev fmax fmin (List.ofFn ω) θ
    · replace hc : CarP.checkPrior s0.b p s0.orderLor θ = .ok true := by rw [hs.lor, hc, decide_eq_true hb]
      have hpos : 0 < at0 θ 1 := by have := hb.err_lo; linarith
      have hnd := bounds_nodup hg hb
      have hok := CarP.Ok.of_core hs.k ho
      by_cases he : at0 θ 0 ≠ 0 ∨ ∀ i, e i ≠ 0
      · rw [if_pos ⟨hb, he⟩]
        obtain ⟨ma, -, -, k3, s', -, k5⟩ := carp_value hp hn ht hok hs.time hs.y hs.yerr hs.ma hs.order hlo hlh hkap hθ hc hpos he hr hnd
        rw [k5] at h1'
        injection h1' with h1'
        injection h1' with _ h1'
        rw [← h1', vecOf_ofFn]
        show _ = _
        simp only [impulse_response k3]
      · rw [if_neg (fun h => he h.2)]
        push Not at he
        obtain ⟨h0, i, hi0⟩ := he
        obtain ⟨ma, g1, g2, g3, g4⟩ := extractMA_spec (by omega) hs.ma hs.order hlo hlh hkap hθ
        obtain ⟨s', -, h6⟩ := (carp_ld_distinct (y := ext0 y) (e := ext0 e) hok hp hn le_rfl (fun i hi => strictMono_ext0 ht i hi)
          hs.time (by rw [hs.y, ofFn_eq_rangeMap]) (by rw [hs.yerr, ofFn_eq_rangeMap]) (by omega) hc hr
          (hg.admissible hnd) g1 g2 (head_ne g3) (logPrior_spec hθ hpos)).1 rfl
        rw [h6, if_neg (by linarith), likVal, if_pos ⟨h0, i, i.2, by rw [ext0_of_lt e i.2, hi0, mul_zero]⟩, nan_add] at h1'
        injection h1' with h1'
        injection h1' with _ h1'
        rw [← h1']
        exact id
    · rw [decide_eq_false hb] at hc
      have hf : CarModel.checkPrior o θ = .ok false := by
        show CarP.checkPrior o.b p o.orderLor θ = _
        rw [← ho.b, ← ho.ord, hs.lor]; exact hc
      rw [logDensity_false hf] at h1'
      injection h1' with h1'
      injection h1' with _ h1'
      rw [← h1', if_neg (fun h => hb h.1)]
      exact id

end Verif.Theory
