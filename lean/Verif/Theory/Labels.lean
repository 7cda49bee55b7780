import Mathlib.Data.Fin.Tuple.Sort
import Mathlib.Data.List.GetD
import Verif.Theory.UnitsPost
import Verif.Spec.Labels

/-! Helper theory for C79: parameter vectors that describe the same model. -/

namespace Verif.Theory

open Verif.Model Verif.Spec Finset Matrix Polynomial
open scoped Classical

variable {n p : ℕ}

/-! ### same polynomial, same roots -/

lemma root_perm {θ θ' : List ℝ} (h : 3 + p ≤ θ.length) (h' : 3 + p ≤ θ'.length) (ha : factorPoly (at0 θ') 3 p = factorPoly (at0 θ) 3 p) :
    (List.ofFn fun k : Fin p => arRootSpec p (at0 θ') k).Perm (List.ofFn fun k : Fin p => arRootSpec p (at0 θ) k) := by
  obtain ⟨r, hr, hg⟩ := rootsFrom_spec θ 3 p (by omega)
  obtain ⟨r', hr', hg'⟩ := rootsFrom_spec θ' 3 p (by omega)
  cases hr.symm.trans (arRoots_spec (p := p) h)
  cases hr'.symm.trans (arRoots_spec (p := p) h')
  have hp : ∀ l : List ℂ, (rootPoly l).roots = (l : Multiset ℂ) := by
    intro l
    have := roots_multiset_prod_X_sub_C (l : Multiset ℂ)
    rw [Multiset.map_coe, Multiset.prod_coe] at this
    exact this
  have : rootPoly (List.ofFn fun k : Fin p => arRootSpec p (at0 θ') k) = rootPoly (List.ofFn fun k : Fin p => arRootSpec p (at0 θ) k) := by
    rw [hg.poly, hg'.poly, ha]
  have := congrArg Polynomial.roots this
  rw [hp, hp] at this
  exact Multiset.coe_eq_coe.mp this

lemma perm_reindex {ω ω' : Fin p → ℂ} (h : (List.ofFn ω').Perm (List.ofFn ω)) (hi : Function.Injective ω') :
    ∃ σ : Equiv.Perm (Fin p), ∀ k, ω' k = ω (σ k) := by
  have hex : ∀ k, ∃ l, ω l = ω' k := fun k => (List.mem_ofFn' ω _).mp (h.subset ((List.mem_ofFn' ω' _).mpr ⟨k, rfl⟩))
  choose f hf using hex
  have hfi : Function.Injective f := fun a b hab => hi (by rw [← hf, ← hf, hab])
  exact ⟨Equiv.ofBijective f (Finite.injective_iff_bijective.mp hfi), fun k => (hf k).symm⟩

lemma response_perm (ω : Fin p → ℂ) (σ : Equiv.Perm (Fin p)) (β : ℂ → ℂ) (s : ℝ) : response (fun k => ω (σ k)) β s = response ω β s := by
  rw [response, response, ← Equiv.sum_comp σ fun k => β (ω k) / arDeriv ω k * Complex.exp (ω k * s)]
  refine Finset.sum_congr rfl fun k _ => ?_
  have e : arDeriv (fun k => ω (σ k)) k = arDeriv ω (σ k) := ?_
  · rw [e]
  unfold arDeriv
  refine Finset.prod_bij (fun l _ => σ l) (fun l hl => ?_) (fun a _ b _ hab => σ.injective hab) (fun l hl => ?_) (fun _ _ => rfl)
  · simp only [mem_erase, mem_univ, and_true] at hl ⊢
    exact fun h => hl (σ.injective h)
  · simp only [mem_erase, mem_univ, and_true] at hl
    exact ⟨σ.symm l, by simp only [mem_erase, mem_univ, and_true]; rintro rfl; exact hl (by simp), by simp⟩

lemma acf_perm (ω : Fin p → ℂ) (σ : Equiv.Perm (Fin p)) (β : ℂ → ℂ) (d : ℝ) : responseAcf (fun k => ω (σ k)) β d = responseAcf ω β d := by
  simp only [responseAcf, response_perm]

lemma loose_perm {sd fmax fmin : ℝ} {r r' : List ℂ} {θ θ' : List ℝ} (h : r'.Perm r) (hs : ∀ i < 3, at0 θ' i = at0 θ i)
    (hb : LooseBounds sd fmax fmin r θ) : LooseBounds sd fmax fmin r' θ' := by
  obtain ⟨⟨h1, h2, h3, h4⟩, h5, h6, h7⟩ := hb
  have s0 := hs 0 (by omega)
  have s1 := hs 1 (by omega)
  refine ⟨⟨by rw [s0]; exact h1, by rw [s0]; exact h2, by rw [s1]; exact h3, by rw [s1]; exact h4⟩, fun x hx => h5 x (h.subset hx),
    fun x hx => h6 x (h.subset hx), ?_⟩
  refine (h.pairwise_iff (R := fun a b : ℂ => a + b = 0 ∨ 1e-4 < ‖a - b‖ / ‖a + b‖) ?_).mpr h7
  intro a b hab
  rw [add_comm b a, norm_sub_rev]
  exact hab

lemma same_ma {kind : Kind} {θ θ' : List ℝ} (h : SameModel p kind θ θ') (lo hi : ℝ) : maPolySpec kind p lo hi θ' = maPolySpec kind p lo hi θ := by
  have := h.ma
  funext z
  cases kind with
  | carp => rfl
  | zcar => rfl
  | carma q => simp only at this; simp only [maPolySpec, this]
  | zcarma => simp only at this; simp only [maPolySpec, this]

lemma same_logit {kind : Kind} {θ θ' : List ℝ} (h : SameModel p kind θ θ') : logitPrior kind p θ' = logitPrior kind p θ := by
  have := h.ma
  cases kind with
  | zcarma => simp only at this; simp only [logitPrior, this]
  | _ => rfl

lemma loose_nodup {sd fmax fmin : ℝ} {θ : List ℝ} (h : 3 + p ≤ θ.length)
    (hb : CarpBounds sd fmax fmin (List.ofFn fun k : Fin p => arRootSpec p (at0 θ) k) θ) :
    Function.Injective fun k : Fin p => arRootSpec p (at0 θ) k := by
  obtain ⟨r, hr, hg⟩ := rootsFrom_spec θ 3 p (by omega)
  cases hr.symm.trans (arRoots_spec (p := p) h)
  exact List.nodup_ofFn.mp (bounds_nodup hg hb)

/-- values of two parameter vectors of one model -/
theorem postVal_same {kind : Kind} {θ θ' : List ℝ} (h : SameModel p kind θ θ') (hl : 3 + p ≤ θ.length) (hl' : 3 + p ≤ θ'.length)
    (t y e : Fin n → ℝ) (sd fmax fmin lo hi : ℝ) (ho : CentOrder 1e-8 (List.ofFn fun k : Fin p => arRootSpec p (at0 θ) k))
    (ho' : CentOrder 1e-8 (List.ofFn fun k : Fin p => arRootSpec p (at0 θ') k)) :
    postVal kind p t y e sd fmax fmin lo hi θ' = postVal kind p t y e sd fmax fmin lo hi θ := by
  have hp := root_perm hl hl' h.ar
  have hiff : CarpBounds sd fmax fmin (List.ofFn fun k : Fin p => arRootSpec p (at0 θ') k) θ' ↔
      CarpBounds sd fmax fmin (List.ofFn fun k : Fin p => arRootSpec p (at0 θ) k) θ := by
    rw [carpBounds_iff, carpBounds_iff]
    exact ⟨fun hb => ⟨loose_perm hp.symm (fun i hi => (h.scale i hi).symm) hb.1, ho⟩, fun hb => ⟨loose_perm hp h.scale hb.1, ho'⟩⟩
  rw [postVal, postVal]
  by_cases hb : CarpBounds sd fmax fmin (List.ofFn fun k : Fin p => arRootSpec p (at0 θ) k) θ
  · rw [if_pos (hiff.mpr hb), if_pos hb]
    obtain ⟨σ, hσ⟩ := perm_reindex hp (loose_nodup hl' (hiff.mpr hb))
    have hω : (fun k : Fin p => arRootSpec p (at0 θ') k) = fun k => (fun k : Fin p => arRootSpec p (at0 θ) k) (σ k) := funext hσ
    have hacf : ∀ d, responseAcf (fun k : Fin p => arRootSpec p (at0 θ') k) (maPolySpec kind p lo hi θ') d =
        responseAcf (fun k : Fin p => arRootSpec p (at0 θ) k) (maPolySpec kind p lo hi θ) d := by
      intro d
      rw [hω, same_ma h]
      exact acf_perm (fun k : Fin p => arRootSpec p (at0 θ) k) σ _ d
    simp only [hacf, same_logit h, h.scale 0 (by omega), h.scale 1 (by omega), h.scale 2 (by omega), logPriorSpec]
  · rw [if_neg (fun h => hb (hiff.mp h)), if_neg hb]

/-! ### exchanging factors -/

lemma permFactors_length (off m : ℕ) (π : Equiv.Perm (Fin (m / 2))) (θ : List ℝ) : (permFactors off m π θ).length = θ.length := by
  simp [permFactors]

lemma permFactors_at {off m : ℕ} {π : Equiv.Perm (Fin (m / 2))} {θ : List ℝ} {j : ℕ} (hj : j < θ.length) :
    at0 (permFactors off m π θ) j =
      if h : off ≤ j ∧ (j - off) / 2 < m / 2 then at0 θ (off + 2 * π ⟨(j - off) / 2, h.2⟩ + (j - off) % 2) else at0 θ j := by
  rw [permFactors, at0, List.getD_eq_getElem?_getD, List.getElem?_mapIdx, List.getElem?_eq_getElem hj]
  simp only [Option.map_some, Option.getD_some]
  split
  · rfl
  · rw [at0, List.getD_eq_getElem _ _ hj]

lemma permFactors_lo {off m : ℕ} {π : Equiv.Perm (Fin (m / 2))} {θ : List ℝ} {j : ℕ} (hj : j < θ.length) (h : j < off) :
    at0 (permFactors off m π θ) j = at0 θ j := by
  rw [permFactors_at hj, dif_neg (by omega)]

lemma permFactors_hi {off m : ℕ} {π : Equiv.Perm (Fin (m / 2))} {θ : List ℝ} {j : ℕ} (hj : j < θ.length) (h : off + 2 * (m / 2) ≤ j) :
    at0 (permFactors off m π θ) j = at0 θ j := by
  rw [permFactors_at hj, dif_neg (by omega)]

lemma permFactors_mid {off m : ℕ} {π : Equiv.Perm (Fin (m / 2))} {θ : List ℝ} (hl : off + m ≤ θ.length) (i : Fin (m / 2)) {b : ℕ} (hb : b < 2) :
    at0 (permFactors off m π θ) (off + 2 * i + b) = at0 θ (off + 2 * π i + b) := by
  have hi := i.2
  rw [permFactors_at (by omega), dif_pos ⟨by omega, by omega⟩]
  have e1 : (⟨(off + 2 * i + b - off) / 2, by omega⟩ : Fin (m / 2)) = i := Fin.ext (by simp; omega)
  rw [e1]
  congr 1; omega

lemma permFactors_poly {off m : ℕ} {π : Equiv.Perm (Fin (m / 2))} {θ : List ℝ} (hl : off + m ≤ θ.length) :
    factorPoly (at0 (permFactors off m π θ)) off m = factorPoly (at0 θ) off m := by
  rw [factorPoly, factorPoly]
  congr 1
  · rw [Finset.prod_range, Finset.prod_range, ← Equiv.prod_comp π fun i : Fin (m / 2) => quadFactor (at0 θ (off + 2 * i)) (at0 θ (off + 2 * i + 1))]
    refine Finset.prod_congr rfl fun i _ => ?_
    have h0 := permFactors_mid (π := π) hl i (b := 0) (by omega)
    have h1 := permFactors_mid (π := π) hl i (b := 1) (by omega)
    rw [add_zero, add_zero] at h0
    rw [h0, h1]
  · split
    · rw [permFactors_hi (by omega) (by omega)]
    · rfl

lemma factorPoly_congr {f g : ℕ → ℝ} {off m : ℕ} (h : ∀ j < m, f (off + j) = g (off + j)) : factorPoly f off m = factorPoly g off m := by
  rw [factorPoly, factorPoly]
  congr 1
  · refine Finset.prod_congr rfl fun i hi => ?_
    have := mem_range.mp hi
    rw [h (2 * i) (by omega), add_assoc, h (2 * i + 1) (by omega)]
  · split
    · have := h (m - 1) (by omega)
      rw [show off + m - 1 = off + (m - 1) by omega, this]
    · rfl

lemma perm_ar_same {kind : Kind} {π : Equiv.Perm (Fin (p / 2))} {θ : List ℝ} (hl : npar p kind ≤ θ.length) :
    SameModel p kind θ (permFactors 3 p π θ) := by
  have hl3 := npar_ge (p := p) kind
  refine ⟨fun i hi => permFactors_lo (by omega) hi, permFactors_poly (by omega), ?_⟩
  cases kind with
  | carp => trivial
  | zcar => trivial
  | carma q =>
    simp only [npar] at hl
    exact factorPoly_congr fun j hj => permFactors_hi (by omega) (by omega)
  | zcarma =>
    simp only [npar] at hl
    exact permFactors_hi (by omega) (by omega)

lemma perm_ma_same {q : ℕ} {π : Equiv.Perm (Fin (q / 2))} {θ : List ℝ} (hl : p + q + 3 ≤ θ.length) :
    SameModel p (.carma q) θ (permFactors (p + 3) q π θ) :=
  ⟨fun i hi => permFactors_lo (by omega) (by omega), factorPoly_congr fun j hj => permFactors_lo (by omega) (by omega),
    permFactors_poly (by omega)⟩

lemma perm_ma_root {q : ℕ} {π : Equiv.Perm (Fin (q / 2))} {θ : List ℝ} (hl : p + q + 3 ≤ θ.length) (k : Fin p) :
    arRootSpec p (at0 (permFactors (p + 3) q π θ)) k = arRootSpec p (at0 θ) k := by
  have hk := k.2
  rw [arRootSpec, arRootSpec]
  split
  · rw [permFactors_lo (by omega) (by omega), permFactors_lo (by omega) (by omega)]
  · rw [permFactors_lo (by omega) (by omega)]

/-! ### ordering -/

lemma arRoot_pair (f : ℕ → ℝ) {i b : ℕ} (hi : i < p / 2) (hb : b < 2) : arRootSpec p f (2 * i + b) =
    if 0 < Real.exp (f (3 + 2 * i + 1)) ^ 2 - 4 * Real.exp (f (3 + 2 * i)) then
      ⟨-(Real.exp (f (3 + 2 * i + 1)) + (if b = 0 then 1 else -1) * √(Real.exp (f (3 + 2 * i + 1)) ^ 2 - 4 * Real.exp (f (3 + 2 * i)))) / 2, 0⟩
    else ⟨-Real.exp (f (3 + 2 * i + 1)) / 2, -(if b = 0 then 1 else -1) * √(4 * Real.exp (f (3 + 2 * i)) - Real.exp (f (3 + 2 * i + 1)) ^ 2) / 2⟩ := by
  have e1 : (2 * i + b) / 2 = i := by omega
  have e2 : (2 * i + b) % 2 = b := by omega
  rw [arRootSpec, if_pos (by omega)]
  simp only [e1, e2]

lemma arRoot_pair_im (f : ℕ → ℝ) (i : ℕ) (hi : i < p / 2) : |(arRootSpec p f (2 * i + 1)).im| = |(arRootSpec p f (2 * i)).im| := by
  have h0 := arRoot_pair f hi (b := 0) (by omega)
  rw [add_zero] at h0
  rw [h0, arRoot_pair f hi (by omega)]
  split
  · rfl
  · norm_num [abs_div]

lemma arRoot_pair_conj (f : ℕ → ℝ) (i : ℕ) (hi : i < p / 2) (hc : (arRootSpec p f (2 * i + 1)).im ≠ 0) :
    arRootSpec p f (2 * i) = star (arRootSpec p f (2 * i + 1)) := by
  have h0 := arRoot_pair f hi (b := 0) (by omega)
  rw [add_zero] at h0
  rw [arRoot_pair f hi (by omega)] at hc ⊢
  rw [h0]
  split at hc
  · exact absurd rfl hc
  · rename_i hd
    rw [if_neg hd, if_neg hd]
    apply Complex.ext <;> simp
    ring

lemma arRoot_last_im (f : ℕ → ℝ) {k : ℕ} (hk : 2 * (p / 2) ≤ k) : (arRootSpec p f k).im = 0 := by
  rw [arRootSpec, if_neg (by omega)]; exact Complex.ofReal_im _

lemma perm_ar_root {π : Equiv.Perm (Fin (p / 2))} {θ : List ℝ} (hl : 3 + p ≤ θ.length) (i : Fin (p / 2)) {b : ℕ} (hb : b < 2) :
    arRootSpec p (at0 (permFactors 3 p π θ)) (2 * i + b) = arRootSpec p (at0 θ) (2 * π i + b) := by
  have hi := i.2
  have hi' := (π i).2
  have h0 := permFactors_mid (π := π) hl i (b := 0) (by omega)
  have h1 := permFactors_mid (π := π) hl i (b := 1) (by omega)
  rw [add_zero, add_zero] at h0
  rw [arRoot_pair _ hi hb, arRoot_pair _ hi' hb, h0, h1]

lemma centOrder_ofFn {tol : ℝ} {ω : Fin p → ℂ} : CentOrder tol (List.ofFn ω) ↔
    ∀ k (h : k + 1 < p), |(ω ⟨k + 1, h⟩).im| / (2 * Real.pi) ≤ |(ω ⟨k, by omega⟩).im| / (2 * Real.pi) + tol := by
  constructor
  · intro h k hk
    exact h k _ _ (by rw [List.getElem?_ofFn, dif_pos (by omega)]) (by rw [List.getElem?_ofFn, dif_pos hk])
  · intro h k a b ha hb
    rw [List.getElem?_ofFn] at ha hb
    split at hb
    · rename_i hk
      rw [dif_pos (by omega)] at ha
      cases ha
      cases hb
      exact h k hk
    · cases hb

/-- some order of the factors has decreasing centroids -/
lemma exists_ordered {θ : List ℝ} (hl : 3 + p ≤ θ.length) : ∃ π : Equiv.Perm (Fin (p / 2)),
    CentOrder 0 (List.ofFn fun k : Fin p => arRootSpec p (at0 (permFactors 3 p π θ)) k) := by
  have hpi := Real.pi_pos
  set f : Fin (p / 2) → ℝ := fun i => -|(arRootSpec p (at0 θ) (2 * i)).im| with hf
  refine ⟨Tuple.sort f, ?_⟩
  have hmono := Tuple.monotone_sort f
  rw [centOrder_ofFn]
  intro k hk
  rw [add_zero, div_le_div_iff_of_pos_right (by positivity)]
  show |(arRootSpec p (at0 (permFactors 3 p (Tuple.sort f) θ)) (k + 1)).im| ≤ |(arRootSpec p (at0 (permFactors 3 p (Tuple.sort f) θ)) k).im|
  by_cases hlast : 2 * (p / 2) ≤ k + 1
  · rw [arRoot_last_im _ hlast, abs_zero]; exact abs_nonneg _
  · rcases Nat.even_or_odd' k with ⟨i, rfl | rfl⟩
    · rw [arRoot_pair_im _ i (by omega)]
    · rw [arRoot_pair_im _ i (by omega)]
      have a1 := perm_ar_root (π := Tuple.sort f) hl ⟨i, by omega⟩ (b := 0) (by omega)
      have a2 := perm_ar_root (π := Tuple.sort f) hl ⟨i + 1, by omega⟩ (b := 0) (by omega)
      simp only [add_zero] at a1 a2
      rw [show 2 * i + 1 + 1 = 2 * (i + 1) by ring, a1, a2]
      have := hmono (show (⟨i, by omega⟩ : Fin (p / 2)) ≤ ⟨i + 1, by omega⟩ by simp)
      simp only [Function.comp, hf] at this
      linarith

/-! ### uniqueness -/

/-- decreasing centroid, and the root with the negative imaginary part first -/
def Before (a b : ℂ) : Prop := |b.im| < |a.im| ∨ |a.im| = |b.im| ∧ a.im < b.im

lemma before_trans {a b c : ℂ} (h1 : Before a b) (h2 : Before b c) : Before a c := by
  rcases h1 with h1 | ⟨h1, h1'⟩ <;> rcases h2 with h2 | ⟨h2, h2'⟩
  · exact Or.inl (h2.trans h1)
  · exact Or.inl (by rw [← h2]; exact h1)
  · exact Or.inl (by rw [h1]; exact h2)
  · exact Or.inr ⟨h1.trans h2, h1'.trans h2'⟩

lemma before_asymm {a b : ℂ} (h1 : Before a b) (h2 : Before b a) : False := by
  rcases h1 with h1 | ⟨h1, h1'⟩ <;> rcases h2 with h2 | ⟨h2, h2'⟩ <;> linarith

lemma arRoot_even_im (f : ℕ → ℝ) (i : ℕ) (hi : i < p / 2) : (arRootSpec p f (2 * i)).im ≤ 0 := by
  have h0 := arRoot_pair f hi (b := 0) (by omega)
  rw [add_zero] at h0
  rw [h0]
  split
  · exact le_refl _
  · have := Real.sqrt_nonneg (4 * Real.exp (f (3 + 2 * i)) - Real.exp (f (3 + 2 * i + 1)) ^ 2)
    norm_num
    linarith

lemma arRoot_odd_im (f : ℕ → ℝ) (i : ℕ) (hi : i < p / 2) : 0 ≤ (arRootSpec p f (2 * i + 1)).im := by
  rw [arRoot_pair f hi (by omega)]
  split
  · exact le_refl _
  · have := Real.sqrt_nonneg (4 * Real.exp (f (3 + 2 * i)) - Real.exp (f (3 + 2 * i + 1)) ^ 2)
    norm_num
    positivity

lemma chain_before {θ : List ℝ} (ho : CentOrder 1e-8 (List.ofFn fun k : Fin p => arRootSpec p (at0 θ) k))
    (ha : Apart 1e-8 (List.ofFn fun k : Fin p => arRootSpec p (at0 θ) k)) :
    (List.ofFn fun k : Fin p => arRootSpec p (at0 θ) k).Pairwise Before := by
  have hpi := Real.pi_pos
  have step : ∀ k, k + 1 < p → Before (arRootSpec p (at0 θ) k) (arRootSpec p (at0 θ) (k + 1)) := by
    intro k hk
    have h1 := centOrder_ofFn.mp ho k hk
    have h2 := (List.pairwise_iff_getElem.mp ha) k (k + 1) (by simp; omega) (by simp; omega) (by omega)
    simp only [List.getElem_ofFn] at h1 h2
    rcases h2 with ⟨h2, h3⟩ | h2
    · right
      refine ⟨by rw [h2]; simp, ?_⟩
      rw [h2]
      simp only [Complex.star_def, Complex.conj_im]
      rcases Nat.even_or_odd' k with ⟨i, rfl | rfl⟩
      · by_cases hlast : 2 * (p / 2) ≤ 2 * i
        · exact absurd (arRoot_last_im _ hlast) h3
        · have := lt_of_le_of_ne (arRoot_even_im (p := p) (at0 θ) i (by omega)) h3
          linarith
      · exfalso
        by_cases hlast : 2 * (p / 2) ≤ 2 * i + 1
        · exact h3 (arRoot_last_im _ hlast)
        · have o1 := lt_of_le_of_ne (arRoot_odd_im (p := p) (at0 θ) i (by omega)) (Ne.symm h3)
          have h4 := arRoot_pair_conj (p := p) (at0 θ) i (by omega) h3
          have h5 := (List.pairwise_iff_getElem.mp ha) (2 * i) (2 * i + 1 + 1) (by simp; omega) (by simp; omega) (by omega)
          simp only [List.getElem_ofFn] at h5
          rw [h2, h4] at h5
          rcases h5 with ⟨h5, -⟩ | h5
          · have := congrArg Complex.im h5
            simp at this
            exact h3 (by linarith)
          · rw [sub_self, abs_zero] at h5
            norm_num at h5
    · left
      rw [lt_abs] at h2
      have : |(arRootSpec p (at0 θ) (k + 1)).im| / (2 * Real.pi) < |(arRootSpec p (at0 θ) k).im| / (2 * Real.pi) := by
        rcases h2 with h2 | h2 <;> linarith
      exact (div_lt_div_iff_of_pos_right (by positivity)).mp this
  rw [List.pairwise_ofFn]
  intro i j hij
  obtain ⟨d, hd⟩ : ∃ d, (j : ℕ) = i + d + 1 := ⟨j - i - 1, by have := Fin.lt_def.mp hij; omega⟩
  have hj := j.2
  simp only [hd]
  rw [hd] at hj
  clear hd
  induction d with
  | zero => exact step _ (by omega)
  | succ d ih => exact before_trans (ih (by omega)) (step _ (by omega))

lemma apart_perm {tol : ℝ} {r r' : List ℂ} (h : r'.Perm r) (ha : Apart tol r) : Apart tol r' := by
  refine (h.pairwise_iff (R := fun a b : ℂ => b = star a ∧ a.im ≠ 0 ∨ tol < |(|a.im| / (2 * Real.pi) - |b.im| / (2 * Real.pi))|) ?_).mpr ha
  rintro a b (⟨rfl, h2⟩ | h1)
  · exact Or.inl ⟨by simp, by simpa using h2⟩
  · right; rw [abs_sub_comm]; exact h1

lemma coords_of_roots {f g : ℕ → ℝ} (h : ∀ k < p, arRootSpec p f k = arRootSpec p g k) : ∀ j < p, f (3 + j) = g (3 + j) := by
  have key : ∀ (f : ℕ → ℝ) {i : ℕ}, i < p / 2 → Real.exp (f (3 + 2 * i + 1)) = -(arRootSpec p f (2 * i) + arRootSpec p f (2 * i + 1)).re ∧
      Real.exp (f (3 + 2 * i)) = (arRootSpec p f (2 * i) * arRootSpec p f (2 * i + 1)).re := by
    intro f i hi
    have h0 := arRoot_pair f hi (b := 0) (by omega)
    rw [add_zero] at h0
    rw [h0, arRoot_pair f hi (by omega)]
    split
    · rename_i hd
      have hs := Real.sq_sqrt hd.le
      simp only [Complex.add_re, Complex.mul_re]
      constructor
      · norm_num; ring
      · norm_num; nlinarith
    · rename_i hd
      have hs := Real.sq_sqrt (show 0 ≤ 4 * Real.exp (f (3 + 2 * i)) - Real.exp (f (3 + 2 * i + 1)) ^ 2 by linarith)
      simp only [Complex.add_re, Complex.mul_re]
      constructor
      · norm_num
      · norm_num; nlinarith
  intro j hj
  by_cases hlast : 2 * (p / 2) ≤ j
  · have e := h j hj
    rw [arRootSpec, arRootSpec, if_neg (by omega), if_neg (by omega)] at e
    have e := Complex.ofReal_injective e
    have := Real.exp_injective (neg_injective e)
    rw [show 3 + p - 1 = 3 + j by omega] at this
    exact this
  · have hi : j / 2 < p / 2 := by omega
    obtain ⟨a1, a2⟩ := key f hi
    obtain ⟨b1, b2⟩ := key g hi
    rw [h _ (by omega), h _ (by omega)] at a1 a2
    rcases Nat.even_or_odd' j with ⟨i, rfl | rfl⟩
    · rw [show 2 * i / 2 = i by omega] at *
      exact Real.exp_injective (a2.trans b2.symm)
    · rw [show (2 * i + 1) / 2 = i by omega] at *
      exact Real.exp_injective (a1.trans b1.symm)

/-- ordered vectors of one model with separate centroids have the same autoregressive coordinates -/
theorem ar_unique {θ θ' : List ℝ} (hl : 3 + p ≤ θ.length) (hl' : 3 + p ≤ θ'.length) (ha : factorPoly (at0 θ') 3 p = factorPoly (at0 θ) 3 p)
    (ho : CentOrder 1e-8 (List.ofFn fun k : Fin p => arRootSpec p (at0 θ) k))
    (ho' : CentOrder 1e-8 (List.ofFn fun k : Fin p => arRootSpec p (at0 θ') k))
    (hap : Apart 1e-8 (List.ofFn fun k : Fin p => arRootSpec p (at0 θ) k)) : ∀ j < p, at0 θ' (3 + j) = at0 θ (3 + j) := by
  have hp := root_perm hl hl' ha
  have hE := List.Perm.eq_of_pairwise (le := Before) (fun a b _ _ h1 h2 => (before_asymm h1 h2).elim)
    (chain_before ho' (apart_perm hp hap)) (chain_before ho hap) hp
  have hω := List.ofFn_injective hE
  exact coords_of_roots fun k hk => congrFun hω ⟨k, hk⟩

/-- real roots are in order -/
lemma real_order {tol : ℝ} (h0 : 0 ≤ tol) {r : List ℂ} (h : ∀ z ∈ r, z.im = 0) : CentOrder tol r := by
  intro i a b ha hb
  rw [h a (List.mem_of_getElem? ha), h b (List.mem_of_getElem? hb)]
  simpa using h0

end Verif.Theory
