import Verif.Theory.RunRef
import Verif.Theory.Lucky

/-!
The starting values of the autoregressive models as explicit functions of the draws.
-/

namespace Verif.Theory

open Verif.Model Verif.Spec

open scoped Classical

/-- Constants of the starting values. -/
structure StartC where
  lr : ℝ
  lm : ℝ
  var : ℝ
  mean : ℝ
  n : ℕ

/-- The constants of an object. -/
structure Consts (C : StartC) (b : CarBase) : Prop where
  freq : ∃ t1 t0 mf fm ra, armaMax b.time = .ok t1 ∧ armaMin b.time = .ok t0 ∧ dv 1 (t1 - t0) = .ok mf ∧ finR b.maxFreq = .ok fm ∧
    dv fm mf = .ok ra ∧ logR ra = .ok C.lr ∧ logR mf = .ok C.lm
  var : C.var = armaVar b.y
  mean : C.mean = armaMean b.y
  n : C.n = b.y.length

/-- The draws left after `j` passes. -/
def passR (p : ℕ) (r : Rng) (j : ℕ) : Rng :=
  { r with randu := Rng.skip (j * (2 * ((p + 1) / 2))) r.randu, chi2 := Rng.skip (j * 2) r.chi2, norm := Rng.skip j r.norm,
           unif := Rng.skip (j * (p % 2)) r.unif }

/-- The centroids drawn by a pass, in decreasing order. -/
noncomputable def centL (C : StartC) (p : ℕ) (r : Rng) : List ℝ :=
  ((List.range ((p + 1) / 2)).map fun i => Real.exp (C.lr * r.randu i + C.lm)).mergeSort (fun a b => decide (b ≤ a))

/-- The widths drawn by a pass, for centroids `c`. -/
noncomputable def widT (C : StartC) (p : ℕ) (c : ℕ → ℝ) (r : Rng) (k : ℕ) : ℝ :=
  if p % 2 = 1 ∧ k = p / 2 then Real.exp (C.lm + (Real.log (c (p / 2 - 1)) - C.lm) * r.unif 0)
  else Real.exp (C.lr * r.randu (k + (p + 1) / 2) + C.lm)

/-- The coefficients of the quadratic factors. -/
noncomputable def logaT (c w : ℕ → ℝ) : ℕ → List ℝ
  | 0 => []
  | k + 1 => logaT c w k ++ [Real.log (-2 * Real.pi * w k * (-2 * Real.pi * w k) + 2 * Real.pi * c k * (2 * Real.pi * c k)), Real.log (-2 * (-2 * Real.pi * w k))]

/-- The parameter vector of a pass, for centroids `c`. -/
noncomputable def thetaT (C : StartC) (p : ℕ) (c : ℕ → ℝ) (r : Rng) : List ℝ :=
  √(C.var / r.chi2 0 * ((C.n - 1 : ℕ) : ℝ)) :: max (min (1 / r.chi2 1 * ((50 : ℕ) : ℝ)) 1.99) 0.51 ::
    (C.mean + √(C.var / r.chi2 0 * ((C.n - 1 : ℕ) : ℝ)) / (C.n : ℝ) * r.norm 0) ::
    (logaT c (widT C p c r) (p / 2) ++ if p % 2 = 1 then [Real.log (-(-2 * Real.pi * widT C p c r (p / 2)))] else [])

/-- The parameter vector of a pass. -/
noncomputable def thetaR (C : StartC) (p : ℕ) (r : Rng) : List ℝ := thetaT C p (fun k => (centL C p r).getD k 0) r

theorem logaT_length (c w : ℕ → ℝ) (k : ℕ) : (logaT c w k).length = 2 * k := by
  induction k with
  | zero => rfl
  | succ k ih => rw [logaT, List.length_append, ih]; simp; omega

theorem thetaT_length (C : StartC) (p : ℕ) (c : ℕ → ℝ) (r : Rng) : (thetaT C p c r).length = p + 3 := by
  unfold thetaT
  simp only [List.length_cons, List.length_append, logaT_length]
  split
  · simp; omega
  · simp; omega

theorem logR_inv {x y : ℝ} (h : logR x = .ok y) : y = Real.log x := by
  unfold logR at h
  split at h
  · injection h with h; exact h.symm
  · cases h

theorem sqrtR_inv {x y : ℝ} (h : sqrtR x = .ok y) : y = √x := by
  unfold sqrtR at h
  split at h
  · cases h
  · injection h with h; exact h.symm

theorem rd_getD {l : List ℝ} {i : ℕ} {x : ℝ} (h : rd l i = .ok x) : x = l.getD i 0 ∧ i < l.length := by
  unfold rd at h
  split at h
  · rename_i h1
    injection h with h
    rw [List.getD_eq_getElem?_getD, h1, ← h]
    exact ⟨rfl, (List.getElem?_eq_some_iff.mp h1).1⟩
  · cases h

theorem logaLoop_T {cent width : List ℝ} {k : ℕ} {l : List ℝ} (h : CarP.logaLoop cent width k = .ok l) {c w : ℕ → ℝ}
    (hc : ∀ i < k, cent.getD i 0 = c i) (hw : ∀ i < k, width.getD i 0 = w i) : l = logaT c w k := by
  induction k generalizing l with
  | zero => injection h with h; exact h.symm
  | succ k ih =>
      unfold CarP.logaLoop at h
      obtain ⟨l', h1, h⟩ := bind_ok_inv h
      obtain ⟨w', h2, h⟩ := bind_ok_inv h
      obtain ⟨c', h3, h⟩ := bind_ok_inv h
      obtain ⟨q1, h4, h⟩ := bind_ok_inv h
      obtain ⟨q2, h5, h⟩ := bind_ok_inv h
      injection h with h
      rw [← h, ih h1 (fun i hi => hc i (by omega)) (fun i hi => hw i (by omega)), logR_inv h4, logR_inv h5, (rd_getD h2).1, (rd_getD h3).1,
        hc k (by omega), hw k (by omega), logaT]

variable {p : ℕ}

theorem lorentz_T {C : StartC} {b : CarBase} (hC : Consts C b) (hp : 2 ≤ p) {r r' : Rng} {cent width : List ℝ} (h : CarP.lorentz p b r = .ok (cent, width, r')) :
    (∀ i < p / 2, cent.getD i 0 = (centL C p r).getD i 0) ∧
    (∀ i < (p + 1) / 2, width.getD i 0 = widT C p (fun k => (centL C p r).getD k 0) r i) ∧
    r' = { r with randu := Rng.skip (2 * ((p + 1) / 2)) r.randu, unif := Rng.skip (p % 2) r.unif } := by
  obtain ⟨t1, t0, mf, fm, ra, g1, g2, g3, g4, g5, g6, g7⟩ := hC.freq
  unfold CarP.lorentz at h
  simp only [g1, g2, g3, g4, g5, g6, g7, res_bind_ok, Rng.vecU, Rng.nextU, List.map_map] at h
  have e : Rng.skip ((p + 1) / 2) (Rng.skip ((p + 1) / 2) r.randu) = Rng.skip (2 * ((p + 1) / 2)) r.randu := by
    rw [skip_skip, two_mul]
  have hcl : (centL C p r).length = (p + 1) / 2 := by simp [centL]
  have hce : (List.map ((fun x => Real.exp (C.lr * x + C.lm)) ∘ r.randu) (List.range ((p + 1) / 2))).mergeSort (fun a b => decide (b ≤ a)) = centL C p r := rfl
  rw [hce] at h
  have hwd : ∀ i < (p + 1) / 2, (List.map ((fun x => Real.exp (C.lr * x + C.lm)) ∘ Rng.skip ((p + 1) / 2) r.randu) (List.range ((p + 1) / 2))).getD i 0 =
      Real.exp (C.lr * r.randu (i + (p + 1) / 2) + C.lm) := by
    intro i hi
    simp [List.getD_eq_getElem?_getD, hi, Rng.skip]
  by_cases hodd : p % 2 = 1
  · simp only [hodd, if_true] at h
    obtain ⟨cent', k1, h⟩ := bind_ok_inv h
    obtain ⟨i0, k2, h⟩ := bind_ok_inv h
    obtain ⟨c, k3, h⟩ := bind_ok_inv h
    obtain ⟨lc, k4, h⟩ := bind_ok_inv h
    obtain ⟨width', k5, h⟩ := bind_ok_inv h
    injection h with h
    injection h with h1 h
    injection h with h2 h3
    have hi0 : i0 = p / 2 - 1 := by
      unfold prevIdx at k2
      split at k2
      · cases k2
      · injection k2 with k2; exact k2.symm
    have hc' : cent' = (centL C p r).set (p / 2) 0 := by
      unfold wr at k1
      split at k1
      · injection k1 with k1; exact k1.symm
      · cases k1
    have hcget : ∀ i < p / 2, cent'.getD i 0 = (centL C p r).getD i 0 := by
      intro i hi
      rw [hc', List.getD_eq_getElem?_getD, List.getD_eq_getElem?_getD, List.getElem?_set_ne (by omega)]
    refine ⟨?_, ?_, ?_⟩
    · rw [← h1]; exact hcget
    · intro i hi
      have hw' : width' = (List.map ((fun x => Real.exp (C.lr * x + C.lm)) ∘ Rng.skip ((p + 1) / 2) r.randu) (List.range ((p + 1) / 2))).set (p / 2)
          (Real.exp (C.lm + (lc - C.lm) * r.unif 0)) := by
        unfold wr at k5
        split at k5
        · injection k5 with k5; exact k5.symm
        · cases k5
      rw [← h2, hw', List.getD_eq_getElem?_getD]
      unfold widT
      by_cases hi2 : i = p / 2
      · rw [if_pos ⟨hodd, hi2⟩, hi2, List.getElem?_set_self (by simp; omega), Option.getD_some, logR_inv k4, (rd_getD k3).1, hi0, hcget _ (by omega)]
      · rw [if_neg fun hh => hi2 hh.2, List.getElem?_set_ne (by omega), ← List.getD_eq_getElem?_getD, hwd i hi]
    · rw [← h3, hodd]
      simp only [e]
  · simp only [hodd, if_false] at h
    injection h with h
    injection h with h1 h
    injection h with h2 h3
    refine ⟨fun i _ => by rw [← h1], ?_, ?_⟩
    · intro i hi
      rw [← h2, hwd i hi, widT, if_neg fun hh => hodd hh.1]
    · rw [← h3, show p % 2 = 0 by omega]
      simp only [e, skip_zero]

theorem startAR_T {C : StartC} {b : CarBase} (hC : Consts C b) (hp : 2 ≤ p) {r r' : Rng} {l : List ℝ} (h : CarP.startAR p b r = .ok (l, r')) :
    l = logaT (fun k => (centL C p r).getD k 0) (widT C p (fun k => (centL C p r).getD k 0) r) (p / 2) ++
      (if p % 2 = 1 then [Real.log (-(-2 * Real.pi * widT C p (fun k => (centL C p r).getD k 0) r (p / 2)))] else []) ∧
    r' = { r with randu := Rng.skip (2 * ((p + 1) / 2)) r.randu, unif := Rng.skip (p % 2) r.unif } := by
  unfold CarP.startAR at h
  obtain ⟨⟨cent, width, r1⟩, h1, h⟩ := bind_ok_inv h
  obtain ⟨l', h2, h⟩ := bind_ok_inv h
  injection h with h
  injection h with h3 h4
  obtain ⟨g1, g2, g3⟩ := lorentz_T hC hp h1
  refine ⟨?_, by rw [← h4]; exact g3⟩
  rw [← h3]
  unfold CarP.logaOf at h2
  obtain ⟨l'', h5, h2⟩ := bind_ok_inv h2
  have e := logaLoop_T h5 g1 (fun i hi => g2 i (by omega))
  by_cases hodd : p % 2 = 1
  · simp only [hodd, if_true] at h2 ⊢
    obtain ⟨w, h6, h2⟩ := bind_ok_inv h2
    obtain ⟨x, h7, h2⟩ := bind_ok_inv h2
    injection h2 with h2
    rw [← h2, e, logR_inv h7, (rd_getD h6).1, g2 _ (by omega)]
  · simp only [hodd, if_false] at h2 ⊢
    injection h2 with h2
    rw [← h2, e, List.append_nil]

theorem startTail_T {s s' : CarP p} (hs : CarP.Core s s) {loga extra ma : List ℝ} {sd mu v : ℝ} {r r' : Rng} {θ : List ℝ} {lp : Dbl}
    (h : s.startTail loga extra ma sd mu v r = .ok (s', θ, lp, r')) :
    θ = sd :: max (min (1 / r.chi2 0 * ((50 : ℕ) : ℝ)) 1.99) 0.51 :: mu :: (loga ++ extra) ∧ r' = { r with chi2 := Rng.skip 1 r.chi2 } ∧
      ∃ s1, CarP.Core s s1 ∧ logDensity s1 θ = .ok (s', lp) := by
  unfold CarP.startTail at h
  obtain ⟨⟨sc, r1⟩, h1, h⟩ := bind_ok_inv h
  obtain ⟨roots, h2, h⟩ := bind_ok_inv h
  obtain ⟨kf, h3, h⟩ := bind_ok_inv h
  obtain ⟨⟨s2, lp2⟩, h4, h⟩ := bind_ok_inv h
  injection h with h
  injection h with g1 h
  injection h with g2 h
  injection h with g3 g4
  subst g1 g2 g3 g4
  unfold startScale at h1
  obtain ⟨m, h5, h1⟩ := bind_ok_inv h1
  injection h1 with h1
  injection h1 with h1 h6
  unfold scaledInvChi2 at h5
  obtain ⟨q, h7, h5⟩ := bind_ok_inv h5
  injection h5 with h5
  obtain ⟨-, h7⟩ := dv_inv h7
  refine ⟨?_, h6.symm, _, CarP.runFilter_core hs h3, h4⟩
  rw [← h1, ← h5, h7]

theorem startPass_T {C : StartC} (hp : 2 ≤ p) {s s' : CarP p} (hC : Consts C s.b) (hk : s.kind = .carp ∨ s.kind = .zcar) (hs : CarP.Core s s) {r r' : Rng} {θ : List ℝ} {lp : Dbl}
    (h : s.startPass r = .ok (s', θ, lp, r')) :
    θ = thetaR C p r ∧ r' = passR p r 1 ∧ ∃ s1, CarP.Core s s1 ∧ logDensity s1 θ = .ok (s', lp) := by
  unfold CarP.startPass at h
  obtain ⟨⟨loga, r1⟩, h1, h⟩ := bind_ok_inv h
  obtain ⟨k1, k2⟩ := startAR_T hC hp h1
  have hx : CarP.startExtra s.kind r1 = .ok (some [], r1) := by rcases hk with hk | hk <;> rw [hk] <;> rfl
  have hsk : CarP.skipsBad s.kind = false := by rcases hk with hk | hk <;> rw [hk] <;> rfl
  simp only [hx, res_bind_ok] at h
  obtain ⟨ma, h2, h⟩ := bind_ok_inv h
  obtain ⟨yvar, h3, h⟩ := bind_ok_inv h
  obtain ⟨sd, h4, h⟩ := bind_ok_inv h
  obtain ⟨roots, h5, h⟩ := bind_ok_inv h
  have key : ∀ v, s.startTail loga [] ma sd (armaMean s.b.y + sd / s.b.y.length * r1.nextC.2.nextN.1) v r1.nextC.2.nextN.2 = .ok (s', θ, lp, r') →
      θ = thetaR C p r ∧ r' = passR p r 1 ∧ ∃ s1, CarP.Core s s1 ∧ logDensity s1 θ = .ok (s', lp) := by
    intro v hv
    obtain ⟨e1, e2, e3⟩ := startTail_T hs hv
    unfold scaledInvChi2 at h3
    obtain ⟨q, h7, h3⟩ := bind_ok_inv h3
    injection h3 with h3
    obtain ⟨-, h7⟩ := dv_inv h7
    have hsd : sd = √(C.var / r.chi2 0 * ((C.n - 1 : ℕ) : ℝ)) := by
      rw [sqrtR_inv h4, ← h3, h7, hC.var, hC.n, k2]
      rfl
    refine ⟨?_, ?_, e3⟩
    · rw [e1, k1, hsd, thetaR, thetaT, List.append_nil, hC.mean, hC.n, k2]
      rfl
    · rw [e2, k2, passR]
      simp only [Rng.nextC, Rng.nextN, one_mul, skip_skip]
  split at h
  · exact key _ h
  · rw [hsk] at h
    exact key _ h
  · cases h

/-- A list as a vector. -/
def vec (d : ℕ) (θ : List ℝ) : Fin d → ℝ := fun i => θ.getD i 0

theorem ofFn_vec {d : ℕ} {θ : List ℝ} (h : θ.length = d) : List.ofFn (vec d θ) = θ := by
  subst h
  refine List.ext_getElem (by simp) fun i h1 h2 => ?_
  simp [vec, List.getD_eq_getElem?_getD, h2]

theorem passR_passR (p : ℕ) (r : Rng) (i j : ℕ) : passR p (passR p r i) j = passR p r (i + j) := by
  unfold passR
  simp only [skip_skip]
  have e1 : j * (2 * ((p + 1) / 2)) + i * (2 * ((p + 1) / 2)) = (i + j) * (2 * ((p + 1) / 2)) := by ring
  have e2 : j * 2 + i * 2 = (i + j) * 2 := by ring
  have e3 : j * (p % 2) + i * (p % 2) = (i + j) * (p % 2) := by ring
  rw [e1, e2, e3, Nat.add_comm j i]

theorem passR_zero (p : ℕ) (r : Rng) : passR p r 0 = r := by
  unfold passR
  simp only [Nat.zero_mul, skip_zero]

section
variable {d : ℕ} {G : LogTarget d} {s0 : CarP p} {C : StartC}

/-- Pass `J` gives a value where the density is not 0. -/
def AliveAt (G : LogTarget d) (C : StartC) (p : ℕ) (r : Rng) (J : ℕ) : Prop := (G (vec d (thetaR C p (passR p r J)))).isSome = true

/-- The first pass from pass `j` on that gives a value where the density is not 0. -/
noncomputable def nextAlive (G : LogTarget d) (C : StartC) (p : ℕ) (r : Rng) (j : ℕ) : ℕ := j + sInf {k | AliveAt G C p r (j + k)}

theorem nextAlive_eq {r : Rng} {j J : ℕ} (h1 : j ≤ J) (h2 : AliveAt G C p r J) (h3 : ∀ i, j ≤ i → i < J → ¬ AliveAt G C p r i) : nextAlive G C p r j = J := by
  have hmem : J - j ∈ {k | AliveAt G C p r (j + k)} := by
    show AliveAt G C p r (j + (J - j))
    rwa [show j + (J - j) = J by omega]
  have hle := Nat.sInf_le hmem
  have hm : AliveAt G C p r (j + sInf {k | AliveAt G C p r (j + k)}) := Nat.sInf_mem ⟨_, hmem⟩
  unfold nextAlive
  by_contra hc
  exact h3 _ (by omega) (by omega) hm

theorem nextAlive_ge (G : LogTarget d) (C : StartC) (p : ℕ) (r : Rng) (j : ℕ) : j ≤ nextAlive G C p r j := Nat.le_add_right _ _

/-- The search for a starting value returns the value of the first pass where the density is not 0. -/
theorem start_T (hT : HasTarget (CarP p) (CarP.Core s0) G) (hd : d = p + 3) (hp : 2 ≤ p) (hC : Consts C s0.b) (hk : s0.kind = .carp ∨ s0.kind = .zcar)
    {r0 : Rng} {fuel : ℕ} {s s' : CarP p} (hs : CarP.Core s0 s) {j : ℕ} {θ : List ℝ} {r' : Rng}
    (h : CarP.start fuel s (passR p r0 j) = .ok (s', θ, r')) :
    θ = thetaR C p (passR p r0 (nextAlive G C p r0 j)) ∧ r' = passR p r0 (nextAlive G C p r0 j + 1) ∧ CarP.Core s0 s' ∧ j ≤ nextAlive G C p r0 j := by
  suffices hmain : ∃ J, j ≤ J ∧ AliveAt G C p r0 J ∧ (∀ i, j ≤ i → i < J → ¬ AliveAt G C p r0 i) ∧ θ = thetaR C p (passR p r0 J) ∧
      r' = passR p r0 (J + 1) ∧ CarP.Core s0 s' by
    obtain ⟨J, h1, h2, h3, h4, h5, h6⟩ := hmain
    rw [nextAlive_eq h1 h2 h3]
    exact ⟨h4, h5, h6, h1⟩
  induction fuel generalizing s j with
  | zero => cases h
  | succ fuel ih =>
      unfold CarP.start at h
      obtain ⟨⟨s1, θ1, lp, r1⟩, h1, h⟩ := bind_ok_inv h
      obtain ⟨k1, k2, s2, k3, k4⟩ := startPass_T (C := C) hp (by rw [← hs.b]; exact hC) (by rw [← hs.kind]; exact hk) (CarP.cored.left (CarP.cored.symm _ _ hs)) h1
      have hc2 : CarP.Core s0 s2 := CarP.cored.trans _ _ _ hs k3
      have hθ : List.ofFn (vec d (thetaR C p (passR p r0 j))) = θ1 := by
        rw [k1]; exact ofFn_vec (by rw [thetaR, thetaT_length, hd])
      obtain ⟨o', v, q1, q2, q3⟩ := hT.ld s2 (vec d (thetaR C p (passR p r0 j))) hc2
      rw [hθ] at q1
      have q1 : logDensity s2 θ1 = .ok (o', v) := q1
      rw [k4] at q1
      injection q1 with q1
      injection q1 with q4 q5
      subst q4 q5
      have hal : lp.isFin ↔ AliveAt G C p r0 j := agrees_fin q3
      rw [passR_passR] at k2
      dsimp only at h
      by_cases hf : lp.isFin
      · rw [if_pos hf] at h
        injection h with h
        injection h with e1 h
        injection h with e2 e3
        refine ⟨j, le_rfl, hal.mp hf, fun i h1 h2 => by omega, by rw [← e2, k1], by rw [← e3, k2], by rw [← e1]; exact q2⟩
      · rw [if_neg hf, k2] at h
        obtain ⟨J, h1, h2, h3, h4⟩ := ih q2 h
        refine ⟨J, by omega, h2, fun i hi1 hi2 => ?_, h4⟩
        rcases Nat.eq_or_lt_of_le hi1 with rfl | hi1
        · exact mt hal.mpr hf
        · exact h3 i hi1 hi2

/-- The same with an initial vector. -/
theorem setStart_T (hT : HasTarget (CarP p) (CarP.Core s0) G) (hd : d = p + 3) (hp : 2 ≤ p) (hC : Consts C s0.b) (hk : s0.kind = .carp ∨ s0.kind = .zcar)
    {r0 : Rng} {fuel : ℕ} {s s' : CarP p} (hs : CarP.Core s0 s) {j : ℕ} {init θ : List ℝ} (hl : init.length = d) {r' : Rng}
    (h : CarP.setStart fuel s init (passR p r0 j) = .ok (s', θ, r')) :
    ((G (vec d init)).isSome = true → θ = init ∧ r' = passR p r0 j ∧ CarP.Core s0 s') ∧
    (¬ (G (vec d init)).isSome = true →
      θ = thetaR C p (passR p r0 (nextAlive G C p r0 j)) ∧ r' = passR p r0 (nextAlive G C p r0 j + 1) ∧ CarP.Core s0 s' ∧ j ≤ nextAlive G C p r0 j) := by
  have hss := CarP.cored.left (CarP.cored.symm _ _ hs)
  have hcore := CarP.cored.trans _ _ _ hs (CarP.setStart_core fuel hss h).1
  have hl' : init.length = CarP.thetaLen p s.kind := by
    rw [← hs.kind]
    rcases hk with hk | hk <;> rw [hk, hl, hd] <;> rfl
  obtain ⟨o', v, q1, q2, q3⟩ := hT.ld s (vec d init) hs
  rw [ofFn_vec hl] at q1
  have q1 : logDensity s init = .ok (o', v) := q1
  refine ⟨fun ha => ?_, fun ha => ?_⟩
  · rw [agrees_some q3 ha] at q1
    obtain ⟨s2, h2⟩ := CarP.setStart_exact hss fuel hl' q1 (passR p r0 j)
    rw [h2] at h
    injection h with h
    injection h with e1 h
    injection h with e2 e3
    exact ⟨e2.symm, e3.symm, hcore⟩
  · have hf : ¬ v.isFin := mt (agrees_fin q3).mp ha
    unfold CarP.setStart at h
    simp only [hl', ne_eq, not_true, if_false, q1, res_bind_ok, hf, not_false_eq_true, if_true] at h
    exact start_T hT hd hp hC hk q2 h

/-- The chains after the starting values of the first `m` steps of the stack `l`, and the number of passes made. -/
noncomputable def startX (G : LogTarget d) (C : StartC) (p : ℕ) (r : Rng) (ini : Option (Fin d → ℝ)) (N : ℕ) (l : List (Bool × ℕ)) : ℕ → (Fin N → Fin d → ℝ) × ℕ
  | 0 => (fun _ _ => 0, 0)
  | m + 1 =>
      let x := startX G C p r ini N l m
      match l[m]? with
      | none => x
      | some w => if h : w.2 < N then
          match ini with
          | some v => (Function.update x.1 ⟨w.2, h⟩ v, x.2)
          | none => (Function.update x.1 ⟨w.2, h⟩ (vec d (thetaR C p (passR p r (nextAlive G C p r x.2)))), nextAlive G C p r x.2 + 1)
        else x

/-- What the run does with the initial vector. -/
noncomputable def iniOf (G : LogTarget d) (init : List ℝ) : Option (Fin d → ℝ) :=
  if init.length = d ∧ (G (vec d init)).isSome = true then some (vec d init) else none

theorem stepKind_chain (st : StepSt d) : (stepKind st).2 = st.chain := by cases st <;> rfl

theorem startLoop_T (hT : HasTarget (CarP p) (CarP.Core s0) G) (hd : d = p + 3) (hp : 2 ≤ p) (hC : Consts C s0.b) (hk : s0.kind = .carp ∨ s0.kind = .zcar)
    {r0 : Rng} {fuel N : ℕ} {l : List (Bool × ℕ)} {s s' : Samp (CarP p) d} (hr : s.rng = r0) (hlen : s.chains.length = N)
    (hc : ∀ c ∈ s.chains, CarP.Core s0 c.obj ∧ c.value = List.replicate d 0) (hst : s.steps.map stepKind = l) (init : List ℝ) {m : ℕ}
    (h : s.startLoop fuel (if init.length = d then some init else none) m = .ok s') :
    s'.chains.length = N ∧ s'.steps = s.steps ∧ s'.rng = passR p r0 (startX G C p r0 (iniOf G init) N l m).2 ∧
      ∀ (i : Fin N) c, s'.chains[(i : ℕ)]? = some c → CarP.Core s0 c.obj ∧ c.value = List.ofFn ((startX G C p r0 (iniOf G init) N l m).1 i) := by
  induction m generalizing s' with
  | zero =>
      injection h with h
      subst h
      refine ⟨hlen, rfl, by rw [hr]; exact (passR_zero p r0).symm, fun i c hi => ?_⟩
      obtain ⟨h1, h2⟩ := hc c (List.mem_of_getElem? hi)
      refine ⟨h1, h2.trans ?_⟩
      show _ = List.ofFn fun _ : Fin d => (0 : ℝ)
      rw [List.ofFn_const]
  | succ m ih =>
      obtain ⟨s1, h1, h⟩ := bind_ok_inv h
      obtain ⟨a1, a2, a3, a4⟩ := ih h1
      unfold Samp.startOne at h
      obtain ⟨st, g1, h⟩ := bind_ok_inv h
      obtain ⟨c, g2, h⟩ := bind_ok_inv h
      obtain ⟨⟨o, θ, r'⟩, g3, h⟩ := bind_ok_inv h
      obtain ⟨c', g4, h⟩ := bind_ok_inv h
      injection h with h
      have g1 := rdU_inv g1
      have g2 := rdU_inv g2
      have hi : st.chain < N := by rw [← a1]; exact (List.getElem?_eq_some_iff.mp g2).1
      obtain ⟨b1, -⟩ := a4 ⟨st.chain, hi⟩ c g2
      have hlm : l[m]? = some (stepKind st) := by rw [← hst, List.getElem?_map, ← a2, g1]; rfl
      have hkc := stepKind_chain st
      -- what the call returned
      have hcall : ∃ x' : Fin d → ℝ, ∃ j', startX G C p r0 (iniOf G init) N l (m + 1) = (Function.update (startX G C p r0 (iniOf G init) N l m).1 ⟨st.chain, hi⟩ x', j') ∧
          θ = List.ofFn x' ∧ r' = passR p r0 j' ∧ CarP.Core s0 o := by
        rw [a3] at g3
        have hX : ∀ (ini : Option (Fin d → ℝ)), startX G C p r0 ini N l (m + 1) = match ini with
            | some v => (Function.update (startX G C p r0 ini N l m).1 ⟨st.chain, hi⟩ v, (startX G C p r0 ini N l m).2)
            | none => (Function.update (startX G C p r0 ini N l m).1 ⟨st.chain, hi⟩ (vec d (thetaR C p (passR p r0 (nextAlive G C p r0 (startX G C p r0 ini N l m).2)))),
                nextAlive G C p r0 (startX G C p r0 ini N l m).2 + 1) := by
          intro ini
          rw [startX, hlm]
          simp only [hkc, hi, dif_pos]
        have hfresh : ∀ {x y}, θ = thetaR C p (passR p r0 x) → r' = passR p r0 y → θ = List.ofFn (vec d (thetaR C p (passR p r0 x))) := by
          intro x y e _
          rw [e, ofFn_vec (by rw [thetaR, thetaT_length, hd])]
        by_cases hl : init.length = d
        · simp only [hl, if_true] at g3
          obtain ⟨q1, q2⟩ := setStart_T hT hd hp hC hk b1 hl g3
          by_cases ha : (G (vec d init)).isSome = true
          · obtain ⟨e1, e2, e3⟩ := q1 ha
            have hini : iniOf G init = some (vec d init) := if_pos ⟨hl, ha⟩
            refine ⟨vec d init, _, by rw [hX, hini], by rw [e1, ofFn_vec hl], by rw [hini] at e2; exact e2, e3⟩
          · obtain ⟨e1, e2, e3, -⟩ := q2 ha
            have hini : iniOf G init = none := if_neg fun hh => ha hh.2
            rw [hini] at e1 e2 ⊢
            exact ⟨_, _, by rw [hX], hfresh e1 e2, e2, e3⟩
        · simp only [hl, if_false] at g3
          obtain ⟨e1, e2, e3, -⟩ := start_T hT hd hp hC hk b1 g3
          have hini : iniOf G init = none := if_neg fun hh => hl hh.1
          rw [hini] at e1 e2 ⊢
          exact ⟨_, _, by rw [hX], hfresh e1 e2, e2, e3⟩
      obtain ⟨x', j', e1, e2, e3, e4⟩ := hcall
      -- saving the value
      have hsv : c'.value = θ ∧ CarP.Core s0 c'.obj := by
        obtain ⟨o2, v2, q1, q2, -⟩ := hT.ld o x' e4
        unfold Par.save at g4
        rw [e2] at g4
        simp only [q1, res_bind_ok] at g4
        injection g4 with g4
        rw [← g4, e2]
        exact ⟨rfl, q2⟩
      rw [← h, e1]
      refine ⟨by simpa using a1, a2, e3, fun i c'' hi' => ?_⟩
      rcases getElem?_set_cases hi' with ⟨hqi, rfl⟩ | ⟨hqi, hq⟩
      · obtain rfl : i = ⟨st.chain, hi⟩ := Fin.ext hqi
        exact ⟨hsv.2, by simp only [Function.update_self]; rw [hsv.1, e2]⟩
      · have hne : i ≠ ⟨st.chain, hi⟩ := fun hh => hqi (congrArg Fin.val hh)
        simp only [Function.update_of_ne hne]
        exact a4 i c'' hq

/-- Every chain holds 0, the initial vector, or the value of a pass made before. -/
theorem startX_cases (r : Rng) (ini : Option (Fin d → ℝ)) {N : ℕ} (l : List (Bool × ℕ)) (m : ℕ) (i : Fin N) :
    (startX G C p r ini N l m).1 i = 0 ∨ ini = some ((startX G C p r ini N l m).1 i) ∨
      ∃ J < (startX G C p r ini N l m).2, (startX G C p r ini N l m).1 i = vec d (thetaR C p (passR p r J)) := by
  induction m with
  | zero => exact Or.inl rfl
  | succ m ih =>
      rw [startX]
      split
      · exact ih
      · rename_i w _
        by_cases h : w.2 < N
        · simp only [h, dif_pos]
          by_cases hi : i = ⟨w.2, h⟩
          · subst hi
            cases ini with
            | some v => right; left; simp
            | none =>
                right; right
                exact ⟨_, Nat.lt_succ_self _, by simp⟩
          · cases ini with
            | some v => simpa only [Function.update_of_ne hi] using ih
            | none =>
                simp only [Function.update_of_ne hi]
                rcases ih with h1 | h1 | ⟨J, h1, h2⟩
                · exact Or.inl h1
                · exact Or.inr (Or.inl h1)
                · exact Or.inr (Or.inr ⟨J, Nat.lt_succ_of_lt (lt_of_lt_of_le h1 (nextAlive_ge G C p r _)), h2⟩)
        · simp only [h, dif_neg, not_false_eq_true]
          exact ih

end

end Verif.Theory
