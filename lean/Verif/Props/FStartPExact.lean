import Verif.Props.FStartP
import Verif.Props.RunLaw

/-!
The proposal of a pass of `StartingValue` without rounding is the one of the model with real numbers.
-/

namespace Verif.Props

open Verif.Model Verif.Spec Verif.Theory
open scoped Classical

/-- the draws of a pass in the model with real numbers -/
noncomputable def passOf (p : ℕ) (kind : Kind) (r : Rng) : PassDraws where
  cent := ((List.range ((p + 1) / 2)).map r.randu).map .fin
  width := ((List.range ((p + 1) / 2)).map (Rng.skip ((p + 1) / 2) r.randu)).map .fin
  low a b := .fin (numOf a + (numOf b - numOf a) * r.unif 0)
  ma := ((List.range (match kind with | .carma q => q | _ => 0)).map r.randn).map .fin
  kappa := .fin (r.unif (p % 2))
  chi := .fin (r.chi2 0)
  norm := .fin (r.norm 0)
  chi50 := .fin (r.chi2 1)

lemma wr_fin (l : List ℝ) (i : ℕ) (x : ℝ) : wr (l.map Dbl.fin) i (.fin x) = (wr l i x).map fun l => l.map Dbl.fin := by
  unfold wr
  rw [List.length_map]
  split
  · show Except.ok _ = Except.ok ((l.set i x).map Dbl.fin)
    rw [List.map_set]
  · rfl

lemma logR_fin {x y : ℝ} (h : logR x = .ok y) : 0 < x ∧ y = Real.log x ∧ Arith.exact.log (.fin x) = .fin y := by
  unfold logR at h
  split at h
  · next hx =>
    injection h with h
    subst h
    refine ⟨hx, rfl, ?_⟩
    show (if 0 < x then Dbl.fin (Real.log x) else _) = _
    rw [if_pos hx]
  · cases h

lemma loga_lift {cent width : List ℝ} : ∀ {k : ℕ} {l : List ℝ}, CarP.logaLoop cent width k = .ok l →
    FCarP.logaTerms Arith.exact (cent.map .fin) (width.map .fin) k = .ok (l.map .fin) := by
  intro k
  induction k with
  | zero => intro l h; cases h; rfl
  | succ k ih =>
    intro l h
    unfold CarP.logaLoop at h
    obtain ⟨l0, e0, h⟩ := bind_ok_inv h
    obtain ⟨w, e1, h⟩ := bind_ok_inv h
    obtain ⟨c, e2, h⟩ := bind_ok_inv h
    obtain ⟨a, e3, h⟩ := bind_ok_inv h
    obtain ⟨b, e4, h⟩ := bind_ok_inv h
    cases h
    unfold FCarP.logaTerms
    rw [ih e0, res_bind_ok, rd_exact, e1]
    show (do let c ← rd (cent.map Dbl.fin) k; _) = _
    rw [rd_exact, e2]
    show Except.ok (l0.map Dbl.fin ++ [Arith.exact.log (.fin (-2 * Real.pi * w * (-2 * Real.pi * w) + 2 * Real.pi * c * (2 * Real.pi * c))),
      Arith.exact.log (.fin (-2 * (-2 * Real.pi * w)))]) = _
    rw [(logR_fin e3).2.2, (logR_fin e4).2.2]
    simp

lemma inR_fin {x : Dbl} {y : ℝ} (h : finR x = .ok y) : x = .fin y := by
  cases x <;> cases h
  rfl

lemma dv_fin {x y z : ℝ} (h : dv x y = .ok z) : Arith.exact.div (.fin x) (.fin y) = .fin z := by
  unfold dv at h
  split at h
  · cases h
  · next hy =>
    injection h with h
    subst h
    exact exf_div _ hy

lemma freqs_fin (lr lm : ℝ) (l : List ℝ) : FCarP.freqs Arith.exact (.fin lr) (.fin lm) (l.map .fin) = (l.map fun x => Real.exp (lr * x + lm)).map .fin := by
  unfold FCarP.freqs
  rw [List.map_map, List.map_map]
  rfl

/-- same draws, same centroids and widths -/
lemma lorentz_lift {p : ℕ} {s : CarP p} {f : FCarP p} (R : PRel s f) {C : StartC} (hC : Consts C s.b) (h0 : 0 ≤ C.lr) {kind : Kind} {r r' : Rng} (hr : ∀ k, 0 ≤ r.randu k)
    {cent width : List ℝ} (h : CarP.lorentz p s.b r = .ok (cent, width, r')) :
    f.lorentzDraws Arith.exact (passOf p kind r) = .ok (cent.map .fin, width.map .fin) := by
  obtain ⟨t1, t0, mf, fm, ra, g1, g2, g3, g4, g5, g6, g7⟩ := hC.freq
  unfold CarP.lorentz at h
  rw [g1, res_bind_ok, g2, res_bind_ok, g3, res_bind_ok, g4, res_bind_ok, g5, res_bind_ok, g6, res_bind_ok, g7, res_bind_ok] at h
  dsimp only [Rng.vecU, Rng.nextU] at h
  have m1 : FCar1.vecMax (s.b.time.map .fin) = .ok (.fin t1) := by rw [vecMax_exact, g1]; rfl
  have m2 : FCar1.vecMin (s.b.time.map .fin) = .ok (.fin t0) := by rw [vecMin_exact, g2]; rfl
  unfold FCarP.lorentzDraws
  rw [R.time, m1, res_bind_ok, m2, res_bind_ok]
  dsimp only
  rw [exf_sub, dv_fin g3, R.hi, inR_fin g4, dv_fin g5, (logR_fin g6).2.2, (logR_fin g7).2.2]
  dsimp only [passOf]
  have hnan : Dbl.nan ∉ FCarP.freqs Arith.exact (.fin C.lr) (.fin C.lm) (((List.range ((p + 1) / 2)).map r.randu).map .fin) := by rw [freqs_fin]; simp
  refine (@if_neg _ _ hnan _ _ _).trans ?_
  rw [freqs_fin, freqs_fin]
  generalize hu : (List.range ((p + 1) / 2)).map r.randu = u at h ⊢
  generalize (List.range ((p + 1) / 2)).map (Rng.skip ((p + 1) / 2) r.randu) = w at h ⊢
  have es : ((u.map fun x => Real.exp (C.lr * x + C.lm)).map Dbl.fin).mergeSort (fun a b => decide ¬ a.lt b) =
      ((u.map fun x => Real.exp (C.lr * x + C.lm)).mergeSort (fun a b => decide (b ≤ a))).map .fin := by
    rw [List.map_mergeSort]
    intro a _ b _
    simp [Dbl.lt]
  rw [es]
  by_cases hp : p % 2 = 1
  · rw [if_pos hp] at h ⊢
    obtain ⟨c1, e1, h⟩ := bind_ok_inv h
    obtain ⟨i, e2, h⟩ := bind_ok_inv h
    obtain ⟨c, e3, h⟩ := bind_ok_inv h
    obtain ⟨lc, e4, h⟩ := bind_ok_inv h
    obtain ⟨w1, e5, h⟩ := bind_ok_inv h
    cases h
    have hlc : C.lm ≤ lc := by
      have hm : c ∈ cent := by
        unfold rd at e3
        split at e3
        · next hx => injection e3 with e3; subst e3; exact List.mem_of_getElem? hx
        · cases e3
      unfold wr at e1
      split at e1
      · injection e1 with e1
        subst e1
        obtain ⟨hc0, rfl, -⟩ := logR_fin e4
        rcases List.mem_or_eq_of_mem_set hm with hm | rfl
        · rw [List.mem_mergeSort, List.mem_map] at hm
          obtain ⟨x, hx, rfl⟩ := hm
          rw [Real.log_exp]
          rw [← hu, List.mem_map] at hx
          obtain ⟨k, -, rfl⟩ := hx
          nlinarith [hr k]
        · exact absurd hc0 (lt_irrefl _)
      · cases e1
    rw [wr_fin, e1]
    show (do let i ← prevIdx (p / 2); _) = _
    rw [e2, res_bind_ok, rd_exact, e3]
    show (if _ then _ else _) = _
    rw [(logR_fin e4).2.2, if_neg (by simp [Dbl.lt, hlc])]
    show (do let width ← wr _ (p / 2) (Dbl.fin (Real.exp (C.lm + (lc - C.lm) * r.unif 0))); _) = _
    rw [wr_fin, e5]
    rfl
  · rw [if_neg hp] at h ⊢
    cases h
    rfl

lemma lor_rng {p : ℕ} {b : CarBase} {r r' : Rng} {cent width : List ℝ} (h : CarP.lorentz p b r = .ok (cent, width, r')) :
    r' = { r with randu := Rng.skip (2 * ((p + 1) / 2)) r.randu, unif := Rng.skip (p % 2) r.unif } := by
  unfold CarP.lorentz at h
  obtain ⟨_, -, h⟩ := bind_ok_inv h
  obtain ⟨_, -, h⟩ := bind_ok_inv h
  obtain ⟨_, -, h⟩ := bind_ok_inv h
  obtain ⟨_, -, h⟩ := bind_ok_inv h
  obtain ⟨_, -, h⟩ := bind_ok_inv h
  obtain ⟨_, -, h⟩ := bind_ok_inv h
  obtain ⟨_, -, h⟩ := bind_ok_inv h
  dsimp only [Rng.vecU, Rng.nextU] at h
  have e : Rng.skip ((p + 1) / 2) (Rng.skip ((p + 1) / 2) r.randu) = Rng.skip (2 * ((p + 1) / 2)) r.randu := by rw [skip_skip]; congr 1; omega
  by_cases hp : p % 2 = 1
  · rw [if_pos hp] at h
    obtain ⟨_, -, h⟩ := bind_ok_inv h
    obtain ⟨_, -, h⟩ := bind_ok_inv h
    obtain ⟨_, -, h⟩ := bind_ok_inv h
    obtain ⟨_, -, h⟩ := bind_ok_inv h
    obtain ⟨_, -, h⟩ := bind_ok_inv h
    cases h
    rw [e, hp]
  · rw [if_neg hp] at h
    cases h
    rw [e, show p % 2 = 0 by omega, skip_zero]

/-- same draws, same coefficients -/
lemma ar_lift {p : ℕ} {s : CarP p} {f : FCarP p} (R : PRel s f) {C : StartC} (hC : Consts C s.b) (h0 : 0 ≤ C.lr) {kind : Kind} {r r' : Rng} (hr : ∀ k, 0 ≤ r.randu k)
    {l : List ℝ} (h : CarP.startAR p s.b r = .ok (l, r')) :
    f.startAR Arith.exact (passOf p kind r) = .ok (l.map .fin) ∧
      r' = { r with randu := Rng.skip (2 * ((p + 1) / 2)) r.randu, unif := Rng.skip (p % 2) r.unif } := by
  unfold CarP.startAR at h
  obtain ⟨⟨cent, width, r1⟩, h1, h⟩ := bind_ok_inv h
  obtain ⟨l', h2, h⟩ := bind_ok_inv h
  cases h
  refine ⟨?_, lor_rng h1⟩
  unfold FCarP.startAR
  rw [lorentz_lift R hC h0 hr h1, res_bind_ok]
  unfold CarP.logaOf at h2
  unfold FCarP.logaFrom
  obtain ⟨l0, e0, h2⟩ := bind_ok_inv h2
  dsimp only
  rw [loga_lift e0, res_bind_ok]
  by_cases hp : p % 2 = 1
  · rw [if_pos hp] at h2 ⊢
    obtain ⟨w, e1, h2⟩ := bind_ok_inv h2
    obtain ⟨x, e2, h2⟩ := bind_ok_inv h2
    cases h2
    rw [rd_exact, e1]
    show Except.ok (l0.map Dbl.fin ++ [Arith.exact.log (.fin (-(-2 * Real.pi * w)))]) = _
    rw [(logR_fin e2).2.2]
    simp
  · rw [if_neg hp] at h2 ⊢
    cases h2
    rfl

/-- same draws, same parameters of the subclass -/
lemma extra_lift {p : ℕ} {s : CarP p} {f : FCarP p} (R : PRel s f) {r r1 r' : Rng} (e : r1 = { r with randu := Rng.skip (2 * ((p + 1) / 2)) r.randu, unif := Rng.skip (p % 2) r.unif })
    (hr : ∀ k, r.unif k < 1) {l : List ℝ} (h : CarP.startExtra s.kind r1 = .ok (some l, r')) :
    f.startExtra Arith.exact (passOf p s.kind r) = .ok (l.map .fin) ∧ r'.chi2 = r.chi2 ∧ r'.norm = r.norm := by
  subst e
  unfold CarP.startExtra at h
  unfold FCarP.startExtra
  rw [R.kind]
  cases hk : s.kind with
  | carp => rw [hk] at h; cases h; exact ⟨rfl, rfl, rfl⟩
  | zcar => rw [hk] at h; cases h; exact ⟨rfl, rfl, rfl⟩
  | carma q =>
    rw [hk] at h
    dsimp only [Rng.vecN] at h ⊢
    by_cases hq : q = 0
    · rw [if_pos hq] at h; cases h
    · rw [if_neg hq] at h ⊢
      cases h
      refine ⟨?_, rfl, rfl⟩
      simp only [passOf, List.map_map]
      rfl
  | zcarma =>
    rw [hk] at h
    dsimp only [Rng.nextU] at h ⊢
    by_cases hq : Rng.skip (p % 2) r.unif 0 ≤ 0
    · rw [if_pos hq] at h; cases h
    · rw [if_neg hq] at h
      cases h
      refine ⟨?_, rfl, rfl⟩
      have e0 : Rng.skip (p % 2) r.unif 0 = r.unif (p % 2) := by simp [Rng.skip]
      rw [e0] at hq ⊢
      push Not at hq
      have h1 : 0 < 1 - r.unif (p % 2) := by linarith [hr (p % 2)]
      have : FCarP.logit Arith.exact (passOf p .zcarma r).kappa = .fin (logit (r.unif (p % 2))) := by
        unfold FCarP.logit
        show Arith.exact.log (Arith.exact.div (.fin _) (.fin (1 - r.unif (p % 2)))) = _
        rw [exf_div _ h1.ne']
        show (if 0 < r.unif (p % 2) / (1 - r.unif (p % 2)) then Dbl.fin (Real.log _) else _) = _
        rw [if_pos (by positivity)]
        rfl
      rw [this]
      rfl

lemma pass_lift {p : ℕ} {s s' : CarP p} {f : FCarP p} (R : PRel s f) (hy : s.b.y ≠ []) {C : StartC} (hC : Consts C s.b) (h0 : 0 ≤ C.lr) {r r' : Rng} (hr : ∀ k, 0 ≤ r.randu k)
    (hu : ∀ k, r.unif k < 1) {lib : StartLib} (hl : ExactLib lib) {θ : List ℝ} {lp : Dbl} (h : s.startPass r = .ok (s', θ, lp, r')) (hθ : θ ≠ []) :
    ∃ v, f.drawPass Arith.exact lib (passOf p s.kind r) = .ok (θ.map .fin, .fin v) ∧ θ.head? = some √v := by
  unfold CarP.startPass at h
  obtain ⟨⟨loga, r1⟩, e1, h⟩ := bind_ok_inv h
  obtain ⟨⟨ex, r2⟩, e2, h⟩ := bind_ok_inv h
  dsimp only at h
  obtain ⟨a1, a2⟩ := ar_lift R hC h0 (kind := s.kind) hr e1
  cases ex with
  | none => cases h; exact absurd rfl hθ
  | some ex =>
    obtain ⟨b1, b2, b3⟩ := extra_lift R a2 hu e2
    dsimp only [Rng.nextC, Rng.nextN] at h
    obtain ⟨ma, -, h⟩ := bind_ok_inv h
    obtain ⟨v, e3, h⟩ := bind_ok_inv h
    obtain ⟨sd, e4, h⟩ := bind_ok_inv h
    obtain ⟨roots, -, h⟩ := bind_ok_inv h
    rw [b2] at e3
    have tail : ∀ {x : ℝ} {r3 : Rng}, r3.chi2 = Rng.skip 1 r.chi2 → s.startTail loga ex ma sd (armaMean s.b.y + sd / s.b.y.length * r2.norm 0) x r3 = .ok (s', θ, lp, r') →
        ∃ m, scaledInvChi2 50 1 (r.chi2 1) = .ok m ∧ θ = sd :: max (min m 1.99) 0.51 :: (armaMean s.b.y + sd / s.b.y.length * r.norm 0) :: (loga ++ ex) := by
      intro x r3 hc ht
      unfold CarP.startTail at ht
      obtain ⟨⟨sc, r4⟩, g1, ht⟩ := bind_ok_inv ht
      dsimp only at ht
      obtain ⟨_, -, ht⟩ := bind_ok_inv ht
      obtain ⟨_, -, ht⟩ := bind_ok_inv ht
      obtain ⟨_, -, ht⟩ := bind_ok_inv ht
      cases ht
      unfold startScale at g1
      dsimp only [Rng.nextC] at g1
      obtain ⟨m, g2, g1⟩ := bind_ok_inv g1
      cases g1
      rw [hc] at g2
      refine ⟨m, g2, ?_⟩
      rw [b3]
    have hθ' : ∃ m, scaledInvChi2 50 1 (r.chi2 1) = .ok m ∧ θ = sd :: max (min m 1.99) 0.51 :: (armaMean s.b.y + sd / s.b.y.length * r.norm 0) :: (loga ++ ex) := by
      split at h
      · exact tail (by rw [b2]) h
      · split at h
        · cases h; exact absurd rfl hθ
        · exact tail (by rw [b2]) h
      · cases h
    obtain ⟨m, e5, rfl⟩ := hθ'
    have chi : ∀ {k : ℕ} {a c x : ℝ}, scaledInvChi2 k a c = .ok x → FCar1.scaledInvChi Arith.exact k (.fin a) (.fin c) = .fin x := by
      intro k a c x hx
      unfold scaledInvChi2 dv at hx
      by_cases hc : c = 0
      · rw [if_pos hc] at hx; cases hx
      · rw [if_neg hc] at hx
        cases hx
        unfold FCar1.scaledInvChi
        rw [exf_div _ hc]
        rfl
    have hsd : Arith.exact.sqrt (.fin v) = .fin sd ∧ sd = √v := by
      unfold sqrtR at e4
      by_cases hv : v < 0
      · rw [if_pos hv] at e4; cases e4
      · rw [if_neg hv] at e4
        cases e4
        refine ⟨?_, rfl⟩
        show (if v < 0 then Dbl.nan else _) = _
        rw [if_neg hv]
    refine ⟨v, ?_, by rw [List.head?_cons, hsd.2]⟩
    unfold FCarP.drawPass
    rw [a1, res_bind_ok, b1, res_bind_ok]
    dsimp only [passOf]
    have hn : (s.b.y.length : ℝ) ≠ 0 := Nat.cast_ne_zero.mpr (by simpa using hy)
    rw [R.y, List.length_map, hl.var, hl.mean, chi e3, hsd.1, chi e5]
    show Except.ok (_ :: Dbl.max (Dbl.min (.fin m) (.fin 1.99)) (.fin 0.51) :: Arith.exact.add (Arith.exact.mul (.fin (r.norm 0)) (Arith.exact.div (.fin sd) (.fin (s.b.y.length : ℝ)))) _ :: _, _) = _
    rw [exf_div _ hn, exf_mul, exf_add, min_fin, max_fin, show r.norm 0 * (sd / (s.b.y.length : ℝ)) + armaMean s.b.y = armaMean s.b.y + sd / s.b.y.length * r.norm 0 by ring]
    simp

/-- **C102, without rounding.** With exact arithmetic and exact vector functions the machine model of a pass is the model with real numbers: for strictly increasing times both objects are built, and
whatever vector a pass of the latter proposes, the former proposes from the same draws. -/
theorem C102_exact {n : ℕ} (hn : 2 ≤ n) {t : Fin n → ℝ} (ht : StrictMono t) (y e : Fin n → ℝ) {p : ℕ} (hp : 2 ≤ p) (kind : Kind) (srt : List ℝ → List ℕ) (fsrt : List Dbl → List ℕ)
    (hs : ∀ l : List ℝ, fsrt (l.map .fin) = srt l) {lib : StartLib} (hl : ExactLib lib) :
    ∃ s f, CarP.new kind p srt (List.ofFn t) (List.ofFn y) (List.ofFn e) = .ok s ∧
      FCarP.new exactC kind p fsrt ((List.ofFn t).map .fin) ((List.ofFn y).map .fin) ((List.ofFn e).map .fin) (.fin (10 * √(armaVar (List.ofFn y)))) = .ok f ∧
      ∀ (r r' : Rng) (s' : CarP p) (θ : List ℝ) (lp : Dbl), (∀ k, 0 ≤ r.randu k) → (∀ k, r.unif k < 1) → s.startPass r = .ok (s', θ, lp, r') → θ ≠ [] →
        ∃ v, f.drawPass Arith.exact lib (passOf p kind r) = .ok (θ.map .fin, .fin v) ∧ θ.head? = some √v := by
  obtain ⟨dmin, b0, g1, g2, g3, g4, -, -, -, k6, k7, g10, g11⟩ := base_fresh hn ht y e
  obtain ⟨s, h1, h2, h3, -⟩ := carp_fresh (p := p) (by omega) srt hn ht y e g10 kind
  obtain ⟨f, e1, R⟩ := new_plift hs h1
  have hb : s.b = b0 := h3.base
  obtain ⟨C, hC⟩ := consts_exist hn ht y e (b := s.b) (by rw [hb, g11.time]) g1 (by rw [hb, g11.fmax])
  have h0 : 0 ≤ C.lr := by
    obtain ⟨t1, t0, mf, fm, ra, j1, j2, j3, j4, j5, j6, -⟩ := hC.freq
    rw [hb, g11.time] at j1 j2
    rw [k6] at j1
    rw [k7] at j2
    injection j1 with j1
    injection j2 with j2
    rw [hb, g11.fmax] at j4
    injection j4 with j4
    have hd : dmin ≤ t1 - t0 := by
      obtain ⟨⟨i, j, -, hij⟩, -⟩ := g1
      rw [← j1, ← j2]
      exact g3.2 ⟨i, j, hij⟩
    obtain ⟨-, e6, -⟩ := logR_fin j6
    have hs : 0 < t1 - t0 := lt_of_lt_of_le g2 hd
    unfold dv at j3 j5
    rw [if_neg hs.ne'] at j3
    injection j3 with j3
    rw [← j3, if_neg (one_div_pos.mpr hs).ne'] at j5
    injection j5 with j5
    rw [e6, ← j5, ← j4]
    refine Real.log_nonneg ?_
    rw [div_div_eq_mul_div, one_div, div_one, ← div_eq_inv_mul, le_div_iff₀ g2]
    linarith
  refine ⟨s, f, h1, e1, fun r r' s' θ lp hr hu hpass hθ => ?_⟩
  have := pass_lift R (by rw [hb, g11.y]; intro h; have := congrArg List.length h; simp at this; omega) hC h0 hr hu hl hpass hθ
  rwa [h3.kind] at this

/-- a pass of CAR(3) proposes the same vector of six elements in both models -/
example (srt : List ℝ → List ℕ) (fsrt : List Dbl → List ℕ) (hs : ∀ l : List ℝ, fsrt (l.map .fin) = srt l) : ∃ s f s' θ lp r' v, CarP.new .carp 3 srt (List.ofFn exT) (List.ofFn exY) (List.ofFn exT) = .ok s ∧
    FCarP.new exactC .carp 3 fsrt ((List.ofFn exT).map .fin) ((List.ofFn exY).map .fin) ((List.ofFn exT).map .fin) (.fin (10 * √(armaVar (List.ofFn exY)))) = .ok f ∧
    s.startPass { exRng with randu := fun k => 1 / (k + 2) } = .ok (s', θ, lp, r') ∧ θ.length = 6 ∧
      f.drawPass Arith.exact exactLib (passOf 3 .carp { exRng with randu := fun k => 1 / (k + 2) }) = .ok (θ.map .fin, .fin v) := by
  have hn : 2 ≤ 3 := by norm_num
  obtain ⟨s, f, h1, h2, h⟩ := C102_exact hn exT_mono exY exT (p := 3) (by norm_num) .carp srt fsrt hs (lib := exactLib) exact_lib
  obtain ⟨o, b, dmin, span, g1, g2, g3, g4, g5, g6, g7, g8⟩ := run_solid (p := 3) (q := 0) srt hn exT_mono exY exT (by norm_num) false (Or.inr (by norm_num)) s.b.maxStdev
  have e0 : o = s := by
    have : Except.ok o = Except.ok s := g1.symm.trans h1
    injection this
  subst e0
  have e1 : b = o.b := by
    rw [setPrior_again (new_config g1).2.2] at g2
    injection g2 with g2
    exact g2.symm
  subst e1
  obtain ⟨dmin', b0, k1, k2, k3, k4, k5, -, -, k6, k7, -⟩ := base_fresh hn exT_mono exY exT
  obtain rfl := k1.unique g4
  have hk : o.kind = .carp := (new_config g1).1
  have htime : o.b.time = List.ofFn exT := new_time (new_config g1).2.2
  have hR : Ready0 o 3 exT exY exT := ⟨g3, ⟨_, _, _, by rw [htime]; exact k6, by rw [htime]; exact k7, by linarith, g7, by positivity, Or.inl le_rfl⟩, by rw [hk]; simp⟩
  obtain ⟨s', θ, lp, r', e2, -⟩ := startPass_total (p := 3) (by norm_num) hn exT_mono hR ⟨g3.core, new_ma (by norm_num) g1⟩ (r := { exRng with randu := fun k => 1 / (k + 2) })
    ⟨⟨fun _ => by norm_num [exRng], fun _ => by norm_num [exRng], fun k => by
      dsimp only
      have : (0 : ℝ) ≤ k := Nat.cast_nonneg k
      exact ⟨by positivity, by rw [div_le_one (by positivity)]; linarith⟩⟩, fun a b hab => by
      dsimp only at hab
      rw [one_div, one_div, inv_inj] at hab
      exact_mod_cast add_right_cancel hab⟩
  obtain ⟨C, hC⟩ := consts_exist hn exT_mono exY exT (b := o.b) htime g4 g7
  obtain ⟨hθ, -⟩ := startPass_T (p := 3) (by norm_num) hC (Or.inl hk) g3.core e2
  have hlen : θ.length = 6 := by rw [hθ]; exact thetaT_length _ _ _ _
  obtain ⟨v, e3, -⟩ := h _ _ _ _ _ (fun k => by dsimp only; positivity) (fun k => by norm_num [exRng]) e2 (by intro hx; rw [hx] at hlen; cases hlen)
  exact ⟨o, f, s', θ, lp, r', v, h1, h2, e2, hlen, e3⟩

end Verif.Props
