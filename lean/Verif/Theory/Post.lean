import Verif.Theory.Prior
import Verif.Spec.Post

/-! The value of `LogDensity` of the classes derived from `CARp`, in terms of the specification. -/

namespace Verif.Theory

open Verif.Model Verif.Spec Polynomial
open scoped Classical

variable {p : ℕ}

lemma ofFn_vecOf {l : List ℂ} (h : l.length = p) : List.ofFn (vecOf p l) = l := by
  subst h
  refine List.ext_getElem (by simp) fun i h1 h2 => ?_
  simp [vecOf, h2]

lemma prod_vecOf {l : List ℂ} (h : l.length = p) : ∏ k, (X - C (vecOf p l k)) = rootPoly l := by
  conv_rhs => rw [← ofFn_vecOf h]
  rw [rootPoly, List.map_ofFn, List.prod_ofFn]; rfl

lemma npar_ge (kind : Kind) : p + 3 ≤ npar p kind := by cases kind <;> simp [npar]

lemma maEval_carMA (z : ℂ) : maEval (carMA p) z = 1 := by
  rw [carMA, show (1 : ℝ) :: List.replicate (p-1) 0 = [1] ++ List.replicate (p-1) 0 from rfl, maEval_append_zeros]
  simp [maEval]

lemma invLogit_eq (x : ℝ) : invLogit x = 1 / (1 + Real.exp (-x)) := by
  have he := Real.exp_pos x
  rw [invLogit, Real.exp_neg]; field_simp; ring

/-- bounds of `kappa` of a ZCARMA object; no condition for other kinds -/
def KappaOk (s : CarP p) (lo hi : ℝ) : Prop := s.kind = .zcarma → s.kappaLow = .fin lo ∧ s.kappaHigh = .fin hi

/-- the moving-average coefficients used by the code are those of the specification -/
lemma extractMA_spec (hp : 0 < p) {s : CarP p} (hma : s.maCoefs = carMA p) (hk : OrderOk p s.kind) {lo hi : ℝ}
    (hlo : 0 < lo) (hlh : lo ≤ hi) (hkap : KappaOk s lo hi) {θ : List ℝ} (hθ : npar p s.kind ≤ θ.length) :
    ∃ ma, s.extractMA θ = .ok ma ∧ ma.length = p ∧ ma[0]? = some 1 ∧ ∀ z, maEval ma z = maPolySpec s.kind p lo hi θ z := by
  have hok : CarP.MaOk s θ := by
    unfold CarP.MaOk
    cases hkind : s.kind with
    | carp => exact hma
    | zcar => exact hma
    | carma q => rw [hkind] at hk hθ; exact ⟨hk, hθ⟩
    | zcarma => rw [hkind] at hθ; exact ⟨hθ, lo, hi, (hkap hkind).1, (hkap hkind).2, hlo, hlh⟩
  obtain ⟨ma, h1, h2, h3⟩ := CarP.MaOk.extract hp hok
  refine ⟨ma, h1, h2, h3, fun z => ?_⟩
  unfold CarP.extractMA at h1
  cases hkind : s.kind with
  | carp => rw [hkind] at h1; cases h1; rw [hma, maPolySpec, maEval_carMA]
  | zcar => rw [hkind] at h1; cases h1; rw [hma, maPolySpec, maEval_carMA]
  | carma q =>
    rw [hkind] at h1 hk hθ
    have hspec := carmaMA_spec hk θ (by simp only [npar] at hθ; omega)
    rw [add_comm 3 p] at hspec
    cases hspec.symm.trans h1
    obtain ⟨l, _, g⟩ := rootsFrom_spec θ (p + 3) q (by simp only [npar] at hθ; omega)
    rw [maEval_coeffs (by rw [g.natDegree]; exact hk), coeff_zero_eq_eval_zero]; rfl
  | zcarma =>
    rw [hkind] at h1 hθ
    obtain ⟨e1, e2⟩ := hkap hkind
    simp only [npar] at hθ
    have h3 : 0 < invLogit (at0 θ (p + 3)) := by rw [invLogit]; positivity
    simp only [CarP.zcarmaMA, add_comm 3 p, rd_at0 (show p + 3 < θ.length by omega), res_bind_ok, e1, e2] at h1
    have h5 : (((Dbl.fin hi).sub (.fin lo)).mul (.fin (invLogit (at0 θ (p + 3))))).add (.fin lo)
        = .fin ((hi - lo) * invLogit (at0 θ (p + 3)) + lo) := by
      simp [Dbl.sub, Dbl.neg, Dbl.add, Dbl.mul, sub_eq_add_neg]
    have h6 : 0 < (hi - lo) * invLogit (at0 θ (p + 3)) + lo := by nlinarith
    rw [h5, zMA_fin hp h6.ne'] at h1
    cases h1
    rw [maEval_binom hp, maPolySpec, invLogit_eq]
    congr 4; ring

lemma logPrior_spec {s : CarP p} {θ : List ℝ} (hθ : npar p s.kind ≤ θ.length) (h : 0 < at0 θ 1) :
    s.logPrior θ = .ok (.fin (logPriorSpec θ + logitPrior s.kind p θ)) := by
  have h2 : 2 ≤ θ.length := by have := npar_ge (p := p) s.kind; omega
  unfold CarP.logPrior
  cases hk : s.kind with
  | zcarma =>
    rw [hk] at hθ; simp only [npar] at hθ
    simp only [baseLogPrior_eq h2, priorVal_pos h, res_bind_ok, rd_at0 (show p + 3 < θ.length by omega)]
    rfl
  | _ => simp only [baseLogPrior_eq h2, priorVal_pos h, logitPrior, add_zero]; rfl

/-- value of `LogDensity` for `theta` passing `CheckPriorBounds`, for different roots and positive error scale -/
lemma carp_value (hp : 2 ≤ p) {s0 s : CarP p} {n : ℕ} (hn : 0 < n) {t : Fin n → ℝ} (ht : StrictMono t) {y e : Fin n → ℝ}
    (hs : CarP.Ok s0 n (ext0 t) s) (hbt : s0.b.time.length = n) (hby : s0.b.y = List.ofFn y)
    (hbe : s0.b.yerr = List.ofFn e) (hma : s0.maCoefs = carMA p) (hk : OrderOk p s0.kind) {lo hi : ℝ}
    (hlo : 0 < lo) (hlh : lo ≤ hi) (hkap : KappaOk s0 lo hi) {θ : List ℝ} (hθ : npar p s0.kind ≤ θ.length)
    (hc : CarP.checkPrior s0.b p s0.orderLor θ = .ok true) (hpos : 0 < at0 θ 1) (he : at0 θ 0 ≠ 0 ∨ ∀ i, e i ≠ 0)
    {roots : List ℂ} (hr : arRoots p θ = .ok roots) (hnd : roots.Nodup) :
    ∃ ma : List ℝ, ma.length = p ∧ ma[0]? = some 1 ∧ (∀ z, maEval ma z = maPolySpec s0.kind p lo hi θ z) ∧
      ∃ s', CarP.Ok s0 n (ext0 t) s' ∧ logDensity s θ = .ok (s', .fin (logGauss (obsCov (fun d => at0 θ 0 ^ 2 *
        (carmaAcf 1 (vecOf p roots) ma d / carmaAcf 1 (vecOf p roots) ma 0)) t fun i => √(at0 θ 1) * e i)
        (fun i => y i - at0 θ 2) + (logPriorSpec θ + logitPrior s0.kind p θ))) := by
  have hl3 := npar_ge (p := p) s0.kind
  obtain ⟨ma, h1, h2, h3, h4⟩ := extractMA_spec (by omega) hma hk hlo hlh hkap hθ
  refine ⟨ma, h2, h3, h4, ?_⟩
  obtain ⟨roots', hr', hg⟩ := rootsFrom_spec θ 3 p (by omega)
  cases hr.symm.trans hr'
  have ha := hg.admissible hnd
  obtain ⟨s', h5, h6⟩ := (carp_ld_distinct (y := ext0 y) (e := ext0 e) hs hp hn le_rfl (fun i hi => strictMono_ext0 ht i hi)
    hbt (by rw [hby, ofFn_eq_rangeMap]) (by rw [hbe, ofFn_eq_rangeMap]) (by omega) hc hr ha h1 h2
    (head_ne h3) (logPrior_spec hθ hpos)).1 rfl
  refine ⟨s', h5, ?_⟩
  rw [h6, if_neg (by linarith), likVal, if_neg]
  · have e1 : carmaAcf (at0 θ 0 ^ 2 / carmaAcf 1 (vecOf p roots) ma 0) (vecOf p roots) ma =
        fun d => at0 θ 0 ^ 2 * (carmaAcf 1 (vecOf p roots) ma d / carmaAcf 1 (vecOf p roots) ma 0) := by
      funext d; rw [carmaAcf_scale]; ring
    have e2 : fst n (fun i => √(at0 θ 1) * ext0 e i) = fun i => √(at0 θ 1) * e i := by funext i; simp [fst]
    have e3 : fst n (fun i => ext0 y i - at0 θ 2) = fun i => y i - at0 θ 2 := by funext i; simp [fst]
    rw [e1, e2, e3, fst_ext0, Dbl.add]
  · rintro ⟨h0, i, hi, hi0⟩
    rcases he with he | he
    · exact he h0
    · rw [ext0_of_lt e hi, mul_eq_zero] at hi0
      rcases hi0 with hi0 | hi0
      · exact (Real.sqrt_pos.mpr hpos).ne' hi0
      · exact he _ hi0

end Verif.Theory
