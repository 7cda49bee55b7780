import Verif.Props.Data
import Verif.Theory.Quirk

/-!
Properties that the code violates, with witnesses: rest of C19 (data order), C20 (ZCAR), C42 (maximum-likelihood mode).
-/

namespace Verif.Props

open Verif.Model Verif.Spec Verif.Theory
open scoped Classical

/-! ### C19: repeated times -/

/-- **C19 fails: repeated times end in a fault.** For nondecreasing times with a repetition (and not all equal) the model classes
have infinite `max_freq`, and `LogDensity(theta)` of every `theta` inside the remaining bounds reads past the end of the
filter's vectors: a bounds error, which is not caught. -/
theorem C19_repeated_fault {srt : List ℝ → List ℕ} (hs : IsSortIndex srt) {n : ℕ} {t : Fin n → ℝ} (ht : Monotone t)
    (y e : Fin n → ℝ) {i j k l : Fin n} (hij : i < j) (heq : t i = t j) (hkl : t k < t l) :
    ∃ span, IsSpan t span ∧
    (∃ s, Car1.new srt (List.ofFn t) (List.ofFn y) (List.ofFn e) = .ok s ∧
      ∀ (θ : List ℝ) (F : ℝ), 4 ≤ θ.length → Car1Bounds (10 * √(sampleVar y)) F (1 / span) θ →
        logDensity s θ = .error .bounds) ∧
    (∀ p, 2 ≤ p → ∃ s, CarP.new .carp p srt (List.ofFn t) (List.ofFn y) (List.ofFn e) = .ok s ∧
      ∀ (θ : List ℝ) (F : ℝ) (roots : List ℂ), p + 3 ≤ θ.length → arRoots p θ = .ok roots →
        CarpBounds (10 * √(sampleVar y)) F (1 / span) roots θ → logDensity s θ = .error .bounds) := by
  simp only [← armaVar_ofFn]
  have hn : 2 ≤ n := by have := i.2; have := j.2; omega
  have hne : ∃ i < n, ∃ j < n, ext0 t i ≠ ext0 t j := by
    refine ⟨k, k.2, l, l.2, ?_⟩
    rw [ext0_of_lt t k.2, ext0_of_lt t l.2]; exact hkl.ne
  obtain ⟨dmin, tmax, tmin, m1, m2, m3, -, -, -, hb⟩ := carBase_new hn (ext0 t) ((List.range n).map (ext0 y))
    ((List.range n).map (ext0 e))
  have hmono : ∀ a b, a ≤ b → b < n → ext0 t a ≤ ext0 t b := by
    intro a b hab hb
    rw [ext0_of_lt t (show a < n by omega), ext0_of_lt t hb]; exact ht hab
  have hd0 : dmin = 0 := by
    apply le_antisymm
    · have : dmin ≤ _ := m1.2 (List.mem_map.mpr ⟨i, by have := j.2; simp; omega, rfl⟩)
      have h1 := hmono (i+1) j (by omega) j.2
      rw [ext0_of_lt t j.2, ← heq] at h1
      rw [ext0_of_lt t i.2] at this
      linarith
    · obtain ⟨a, ha, h⟩ := List.mem_map.mp m1.1
      rw [← h]; simp at ha; have := hmono a (a+1) (by omega) (by omega); linarith
  have hspan : IsSpan t (tmax - tmin) := by
    obtain ⟨a, ha, h1⟩ := List.mem_map.mp m2.1
    obtain ⟨b, hb', h2⟩ := List.mem_map.mp m3.1
    simp only [List.mem_range] at ha hb'
    rw [ext0_of_lt t ha] at h1; rw [ext0_of_lt t hb'] at h2
    refine ⟨⟨⟨b, hb'⟩, ⟨a, ha⟩, by rw [h1, h2]⟩, ?_⟩
    rintro x ⟨c, d, rfl⟩
    have h3 : ext0 t d ≤ tmax := m2.2 (List.mem_map.mpr ⟨d, by simp, rfl⟩)
    have h4 : tmin ≤ ext0 t c := m3.2 (List.mem_map.mpr ⟨c, by simp, rfl⟩)
    rw [ext0_of_lt t d.2] at h3; rw [ext0_of_lt t c.2] at h4
    simp only [Fin.eta] at h3 h4; linarith
  have hspan0 : tmax - tmin ≠ 0 := by
    have : t l - t k ≤ tmax - tmin := hspan.2 ⟨k, l, rfl⟩
    intro h; linarith
  set b : CarBase := { time := (List.range n).map (ext0 t), y := (List.range n).map (ext0 y), yerr := (List.range n).map (ext0 e), maxStdev := 10 * √(armaVar ((List.range n).map (ext0 y))), maxFreq := Dbl.div (.fin 1) (.fin dmin), minFreq := Dbl.div (.fin 1) (.fin (tmax - tmin)), ignorePrior := false } with hbdef
  have hmax : b.maxFreq = .pinf := by simp [hbdef, Dbl.div, hd0, Dbl.infTimes]
  have hmin : b.minFreq = .fin (1 / (tmax - tmin)) := by simp [hbdef, Dbl.div, hspan0]
  have hJn : ∀ J, Sorted n (ext0 t) J → J.length < n := by
    intro J hJ
    refine lt_of_le_of_ne hJ.length_le fun h => ?_
    have := hJ.length_eq.mp h (show (i : ℕ) ∈ Set.Iio n from i.2) (show (j : ℕ) ∈ Set.Iio n from j.2)
      (by rw [ext0_of_lt t i.2, ext0_of_lt t j.2]; exact heq)
    omega
  refine ⟨_, hspan, ?_, ?_⟩
  · simp only [ofFn_eq_rangeMap t, ofFn_eq_rangeMap y, ofFn_eq_rangeMap e]
    obtain ⟨s, J, h1, h2, h3⟩ := car1_new (srt := srt) (ext0 t) (ext0 y) (ext0 e) (init_any hs hn _ _ _ _ hne) hb
    refine ⟨s, h2, fun θ F hθ hB => ?_⟩
    have hc : Car1.checkPrior b θ = .ok true := by
      simp only [Car1.checkPrior, rd_at0 (show 0 < θ.length by omega), rd_at0 (show 1 < θ.length by omega),
        rd_at0 (show 3 < θ.length by omega), res_bind_ok, res_pure, hmax, hmin]
      congr 1
      rw [decide_eq_true_eq]
      push Not
      exact ⟨id, not_lt.mpr hB.lo, hB.sd_hi, hB.sd_lo, hB.err_lo, hB.err_hi⟩
    exact (car1_ld_true (y := ext0 y) (e := ext0 e) h3 (by have := h1.two; omega) (hJn J h1).le h1.incr (by simp [hbdef])
      rfl rfl hθ hc).2 (hJn J h1)
  · intro p hp
    simp only [ofFn_eq_rangeMap t, ofFn_eq_rangeMap y, ofFn_eq_rangeMap e]
    obtain ⟨s, J, h1, h2, h3, h4, -⟩ := carp_new (srt := srt) (show 0 < p by omega) hn (ext0 t) (ext0 y) (ext0 e)
      (init_any hs hn _ _ _ _ hne) hb .carp
    refine ⟨s, h2, fun θ F roots hθ hr hB => ?_⟩
    have hc := carp_check_pinf hmax hmin rfl (show 2 ≤ θ.length by omega) hr hB
    obtain ⟨roots', hr', hg⟩ := rootsFrom_spec θ 3 p (by omega)
    cases hr.symm.trans hr'
    have hnd : roots.Nodup := by
      refine List.Pairwise.imp_of_mem ?_ hB.sep
      rintro a c ha hc' (h | h) rfl
      · have := congrArg Complex.re h
        have := hg.neg a ha
        simp at *; linarith
      · simp at h; linarith
    have hm : s.extractMA θ = .ok (carMA p) := by rw [CarP.extractMA, h4.kind, h4.ma]
    exact (carp_ld_distinct (y := ext0 y) (e := ext0 e) h3 hp (by have := h1.two; omega) (hJn J h1).le h1.incr
      (by rw [h4.base]; simp [hbdef]) (by rw [h4.base]) (by rw [h4.base]) (by omega) (by rw [h4.base, h4.lor]; exact hc) hr
      (hg.admissible hnd) hm (by simp [carMA]; omega) ⟨1, by simp [carMA], one_ne_zero⟩
      (logPrior_spec (by rw [h4.kind]; exact hθ) (by have := hB.err_lo; linarith))).2 (hJn J h1)

/-- times with a repetition, and a CAR(1) parameter inside the bounds -/
example : Monotone (![0, 1, 1, 10] : Fin 4 → ℝ) ∧ (![0, 1, 1, 10] : Fin 4 → ℝ) 1 = (![0, 1, 1, 10] : Fin 4 → ℝ) 2 ∧
    Car1Bounds 10 5 (1 / 10) [1, 1, 0, 0] := by
  refine ⟨?_, by simp, ?_⟩
  · refine Fin.monotone_iff_le_succ.mpr fun i => ?_
    fin_cases i <;> simp
  · constructor <;> [constructor; skip; skip] <;> simp [at0] <;> norm_num

/-- **C19 fails in maximum-likelihood mode too: values are paired with the wrong times.** For different times supplied in any
order, the filter sorts its own copy of the times, but `LogDensity` overwrites the filter's values and errors with the model's
copies, which keep the supplied order. The result is the log-likelihood of the series in which the `i`-th supplied value sits
at the `i`-th smallest time. (CARp and CARMA; `t = τ ∘ σ⁻¹` sorted.) -/
theorem C19_mle_scrambled {srt : List ℝ → List ℕ} (hs : IsSortIndex srt) {n : ℕ} (hn : 2 ≤ n) {t : Fin n → ℝ}
    (ht : Function.Injective t) (y e : Fin n → ℝ) {p : ℕ} (hp : 2 ≤ p) (kind : Kind) (hk : OrderOk p kind)
    (hz : kind ≠ .zcarma) (θ : List ℝ)
    (hθ : npar p kind ≤ θ.length) (hpos : 0 < at0 θ 1) (he : at0 θ 0 ≠ 0 ∨ ∀ i, e i ≠ 0) {roots : List ℂ}
    (hr : arRoots p θ = .ok roots) (hnd : roots.Nodup) :
    ∃ (s : CarP p) (τ : Fin n → ℝ), StrictMono τ ∧ Set.range τ = Set.range t ∧
      CarP.new kind p srt (List.ofFn t) (List.ofFn y) (List.ofFn e) = .ok s ∧
      ∃ (ω : Fin p → ℂ) (ma : List ℝ) (s' : CarP p), List.ofFn ω = roots ∧ ma.length = p ∧
        (∀ z, maEval ma z = maPolySpec kind p 1 1 θ z) ∧
        logDensity ({ s with b := s.b.setMLE true } : CarP p) θ = .ok (s', .fin (logGauss
          (obsCov (fun d => at0 θ 0 ^ 2 * (carmaAcf 1 ω ma d / carmaAcf 1 ω ma 0)) τ fun i => √(at0 θ 1) * e i)
          (fun i => y i - at0 θ 2) + (logPriorSpec θ + logitPrior kind p θ))) := by
  have hne : ∃ i < n, ∃ j < n, ext0 t i ≠ ext0 t j := by
    refine ⟨0, by omega, 1, by omega, ?_⟩
    rw [ext0_of_lt t (show 0 < n by omega), ext0_of_lt t (show 1 < n by omega)]
    intro h; have := ht h; simp at this
  obtain ⟨dmin, tmax, tmin, -, -, -, -, -, -, hb⟩ := carBase_new hn (ext0 t) ((List.range n).map (ext0 y))
    ((List.range n).map (ext0 e))
  obtain ⟨s, J, hJ, h2, h3, h4, -⟩ := carp_new (srt := srt) (show 0 < p by omega) hn (ext0 t) (ext0 y) (ext0 e)
      (init_any hs hn _ _ _ _ hne) hb kind
  have hJn : J.length = n := hJ.length_eq.mpr fun a ha b hb hab => by
    rw [ext0_of_lt t ha, ext0_of_lt t hb] at hab
    exact congrArg Fin.val (ht hab)
  set τ : Fin n → ℝ := fun i => nth J (ext0 t) i with hτ
  have hτe : ∀ i < n, ext0 τ i = nth J (ext0 t) i := fun i hi => ext0_of_lt τ hi
  have hmono : StrictMono τ := by
    intro i j hij
    have := hJ.sorted
    rw [← nth_map] at this
    exact pairwise_range_map.mp this i j hij (by rw [hJn]; exact j.2)
  have hrange : Set.range τ = Set.range t := by
    have hsub : Set.range τ ⊆ Set.range t := by
      rintro _ ⟨i, rfl⟩
      have hi : (i : ℕ) < J.length := by rw [hJn]; exact i.2
      simp only [hτ, nth, List.getD_eq_getElem?_getD, List.getElem?_map, List.getElem?_eq_getElem hi, Option.map_some,
        Option.getD_some]
      have hlt := hJ.lt _ (List.getElem_mem hi)
      exact ⟨⟨_, hlt⟩, (ext0_of_lt t hlt).symm⟩
    refine Set.eq_of_subset_of_ncard_le hsub ?_ (Set.finite_range t)
    rw [← Set.image_univ, ← Set.image_univ, Set.ncard_image_of_injective _ ht, Set.ncard_image_of_injective _ hmono.injective]
  rw [hJn] at h3
  set s0 : CarP p := { s with b := s.b.setMLE true } with hs0
  have hok : CarP.Ok s0 n (ext0 τ) s0 := ⟨rfl, h3.kf.congr fun i hi => (hτe i hi).symm⟩
  have hkind : s0.kind = kind := h4.kind
  obtain ⟨roots', hr', hg⟩ := rootsFrom_spec θ 3 p (by have := npar_ge (p := p) kind; omega)
  cases hr.symm.trans hr'
  obtain ⟨ma, m1, m2, m3, s', m4, m5⟩ := carp_value hp (s0 := s0) (s := s0) (y := y) (e := e) (lo := 1) (hi := 1) (by omega)
    hmono hok
    (show s.b.time.length = n by rw [h4.base]; simp) (show s.b.y = _ by rw [h4.base, ofFn_eq_rangeMap])
    (show s.b.yerr = _ by rw [h4.base, ofFn_eq_rangeMap]) h4.ma (by rw [hkind]; exact hk) one_pos le_rfl
    (fun h => (hz (hkind ▸ h)).elim) (by rw [hkind]; exact hθ) (carp_check_mle rfl _ _ _) hpos he hr hnd
  rw [hkind] at m3 m5
  refine ⟨s, τ, hmono, hrange, ?_, vecOf p roots, ma, s', ofFn_vecOf hg.length, m1, m3, m5⟩
  rw [ofFn_eq_rangeMap t, ofFn_eq_rangeMap y, ofFn_eq_rangeMap e]; exact h2

/-- different times, not in order -/
example : Function.Injective (![1, 0, 10] : Fin 3 → ℝ) := by
  intro i j h; fin_cases i <;> fin_cases j <;> simp at h ⊢

/-! ### C20: the z-parametrised CAR model -/

/-- **C20 fails: ZCAR is CARp.** `ZCAR` stores its moving-average coefficients in a member that hides `CARp::ma_coefs_`, but
`ExtractMA` is inherited from `CARp` and reads the latter. For all data and every `theta` the value (or fault) of
`LogDensity` of a ZCAR object is that of the CARp object built from the same data. -/
theorem C20_zcar_is_carp {p : ℕ} {srt : List ℝ → List ℕ} {time y yerr : List ℝ} {s1 s2 : CarP p}
    (h1 : CarP.new .zcar p srt time y yerr = .ok s1) (h2 : CarP.new .carp p srt time y yerr = .ok s2) (θ : List ℝ) :
    (logDensity s1 θ).map Prod.snd = (logDensity s2 θ).map Prod.snd := by
  simp only [CarP.new] at h1 h2
  have hk2 : s2.kind = .carp := by
    rw [CarP.newCarp] at h2
    cases hb : CarBase.new time y yerr with
    | error f => rw [hb] at h2; cases h2
    | ok b =>
      cases hk : KFp.newData p srt time y yerr with
      | error f => rw [hb, hk] at h2; cases h2
      | ok k =>
        rw [hb, hk] at h2
        by_cases hp : p = 0
        · simp only [res_bind_ok, hp, if_true] at h2; cases h2
        · simp only [res_bind_ok, hp, if_false, res_pure] at h2; cases h2; rfl
  have hs1 : ∃ ma zma, s1 = { s2 with kind := .zcar, zma := zma, kf := s2.kf.setMA ma } := by
    simp only [CarP.newZcar, h2, res_bind_ok] at h1
    cases hd : diffs time with
    | error f => rw [hd] at h1; cases h1
    | ok dt =>
      cases hm : armaMin dt with
      | error f => simp only [hd, res_bind_ok, hm] at h1; cases h1
      | ok dmin =>
        cases hz : zMA p (Dbl.div (.fin 1) (.fin dmin)) with
        | error f => simp only [hd, res_bind_ok, hm, hz] at h1; cases h1
        | ok ma =>
          simp only [hd, res_bind_ok, hm, hz, res_pure] at h1
          exact ⟨ma, ma, (Except.ok.inj h1).symm⟩
  obtain ⟨ma, zma, rfl⟩ := hs1
  have hex : ∀ θ, CarP.extractMA ({ s2 with kind := .zcar, zma := zma, kf := s2.kf.setMA ma } : CarP p) θ = s2.extractMA θ := by
    intro θ; simp only [CarP.extractMA, hk2]
  have hsig : ∀ θ, CarP.extractSigsqr ({ s2 with kind := .zcar, zma := zma, kf := s2.kf.setMA ma } : CarP p) θ =
      s2.extractSigsqr θ := by
    intro θ; simp only [CarP.extractSigsqr, hex]
  have hset : CarModel.setParams ({ s2 with kind := .zcar, zma := zma, kf := s2.kf.setMA ma } : CarP p) θ =
      CarModel.setParams s2 θ := by
    simp only [CarModel.setParams, CarP.setParams, hex, hsig]
    rfl
  have hlp : CarModel.logPrior ({ s2 with kind := .zcar, zma := zma, kf := s2.kf.setMA ma } : CarP p) θ =
      CarModel.logPrior s2 θ := by
    simp only [CarModel.logPrior, CarP.logPrior, hk2]
  have hck : CarModel.checkPrior ({ s2 with kind := .zcar, zma := zma, kf := s2.kf.setMA ma } : CarP p) θ =
      CarModel.checkPrior s2 θ := rfl
  have hbase : CarModel.base ({ s2 with kind := .zcar, zma := zma, kf := s2.kf.setMA ma } : CarP p) = CarModel.base s2 := rfl
  simp only [logDensity, hset, hlp, hck, hbase]
  cases CarModel.checkPrior s2 θ with
  | error f => rfl
  | ok ok =>
    cases ok with
    | false => rfl
    | true =>
      simp only [res_bind_ok, Bool.true_eq_false, if_false]
      cases CarModel.setParams s2 θ with
      | error f => rfl
      | ok kb =>
        simp only [res_bind_ok]
        cases rd θ 1 with
        | error f => rfl
        | ok scale =>
          cases rd θ 2 with
          | error f => rfl
          | ok mu =>
            simp only [res_bind_ok]
            split
            · rfl
            · cases likLoop _ _ _ _ _ with
              | error f => rfl
              | ok l =>
                cases CarModel.logPrior s2 θ <;> rfl
            · rfl
            · cases likLoop _ _ _ _ _ with
              | error f => rfl
              | ok l =>
                cases CarModel.logPrior s2 θ <;> rfl

/-- both objects exist for strictly increasing data -/
example (srt : List ℝ → List ℕ) : (∃ s : CarP 2, CarP.new .zcar 2 srt (List.ofFn exT) (List.ofFn exY) (List.ofFn exY) = .ok s) ∧
    ∃ s : CarP 2, CarP.new .carp 2 srt (List.ofFn exT) (List.ofFn exY) (List.ofFn exY) = .ok s := by
  obtain ⟨d, s, -, -, -, -, -, h⟩ := C13_default_bounds srt (by norm_num) exT_mono exY exY
  obtain ⟨s1, h1, -⟩ := h 2 .zcar (by norm_num)
  obtain ⟨s2, h2, -⟩ := h 2 .carp (by norm_num)
  exact ⟨⟨s1, h1⟩, s2, h2⟩

/-- autocorrelation of the example roots `-2, -1` with moving-average coefficients `1, c` -/
lemma ex_acf {c d : ℝ} : carmaAcf 1 ![(-2 : ℂ), -1] [1, c] d =
    (1 - c ^ 2) / 6 * Real.exp (-d) - (1 - 4 * c ^ 2) / 12 * Real.exp (-(2 * d)) := by
  have ha : Admissible ![(-2 : ℂ), -1] := by
    refine ⟨?_, ?_, ?_⟩
    · intro i j h; fin_cases i <;> fin_cases j <;> simp at h ⊢
    · intro k; fin_cases k <;> simp
    · intro k; exact ⟨k, by fin_cases k <;> simp⟩
  rw [carmaAcf_closed ha 1 (by simp)]
  have e1 : Complex.exp (-2 * d) = (Real.exp (-(2 * d)) : ℂ) := by push_cast; congr 1; ring
  have e2 : Complex.exp (-1 * d) = (Real.exp (-d) : ℂ) := by push_cast; congr 1; ring
  have a0 : arDeriv ![(-2 : ℂ), -1] 0 = -1 := by
    have : (Finset.univ.erase (0 : Fin 2)) = {1} := by decide
    rw [arDeriv, this]; simp; norm_num
  have a1 : arDeriv ![(-2 : ℂ), -1] 1 = 1 := by
    have : (Finset.univ.erase (1 : Fin 2)) = {0} := by decide
    rw [arDeriv, this]; simp; norm_num
  rw [Fin.sum_univ_two, a0, a1]
  simp only [Matrix.cons_val_zero, Matrix.cons_val_one, Fin.prod_univ_two, e1, e2]
  have m : ∀ z : ℂ, maEval [1, c] z = 1 + c * z := by intro z; simp [maEval, Finset.sum_range_succ]
  simp only [m]
  have : (1 + (c:ℂ) * -2) * (1 + c * - -2) * (Real.exp (-(2 * d)) : ℂ) / (-1 * ((- -2 - -2) * (- -2 - -1))) +
      (1 + c * -1) * (1 + c * - -1) * (Real.exp (-d) : ℂ) / (1 * ((- -1 - -2) * (- -1 - -1))) =
      (((1 - c ^ 2) / 6 * Real.exp (-d) - (1 - 4 * c ^ 2) / 12 * Real.exp (-(2 * d)) : ℝ) : ℂ) := by
    push_cast; ring
  rw [this, Complex.ofReal_re, one_mul]

lemma ma_two {ma : List ℝ} (hl : ma.length = 2) {c : ℝ} (h : ∀ z, maEval ma z = 1 + c * z) : ma = [1, c] := by
  match ma, hl with
  | [a, b], _ =>
    have h0 := h 0
    have h1 := h 1
    simp [maEval, Finset.sum_range_succ] at h0 h1
    subst h0
    simp at h1
    rw [h1]

open Polynomial in
/-- **C20 fails, witness.** Times 0, 1, 10, unit errors, `p = 2`, a `theta` inside the bounds with roots `-2, -1`: for some
data `LogDensity` of the ZCAR object is finite but is not the log-density under the process with moving-average
polynomial `(1 + s/kappa)^(p-1)`, `kappa = 1 / min dt`, plus the log-prior. -/
theorem C20_negation (srt : List ℝ → List ℕ) : ∃ (t y e : Fin 3 → ℝ) (θ : List ℝ) (s s' : CarP 2) (ω : Fin 2 → ℂ) (v dmin : ℝ),
    StrictMono t ∧ IsMinGap t dmin ∧ CarP.new .zcar 2 srt (List.ofFn t) (List.ofFn y) (List.ofFn e) = .ok s ∧
    Admissible ω ∧ ∏ k, (X - C (ω k)) = (factorPoly (at0 θ) 3 2).map Complex.ofRealHom ∧
    logDensity s θ = .ok (s', .fin v) ∧
    ∀ ma : List ℝ, ma.length = 2 → (∀ z, maEval ma z = (1 + z / ((1 / dmin : ℝ) : ℂ)) ^ (2 - 1)) →
      v ≠ logGauss (obsCov (fun d => at0 θ 0 ^ 2 * (carmaAcf 1 ω ma d / carmaAcf 1 ω ma 0)) t fun i => √(at0 θ 1) * e i)
        (fun i => y i - at0 θ 2) + logPriorSpec θ := by
  set θ : List ℝ := [1, 1, 0, Real.log 2, Real.log 3] with hθ
  have a0 : at0 θ 0 = 1 := by simp [hθ, at0]
  have a1 : at0 θ 1 = 1 := by simp [hθ, at0]
  have a2 : at0 θ 2 = 0 := by simp [hθ, at0]
  have hroots := ex_roots (θ := θ) (by simp [hθ]) (by simp [hθ, at0]) (by simp [hθ, at0])
  -- the two correlation functions
  set r1 : ℝ → ℝ := fun d => 2 * Real.exp (-d) - Real.exp (-(2 * d)) with hr1
  set r2 : ℝ → ℝ := fun d => Real.exp (-(2 * d)) with hr2
  have hsq : ∀ d : ℝ, Real.exp (-(2 * d)) = Real.exp (-d) ^ 2 := fun d => by rw [← Real.exp_nat_mul]; congr 1; push_cast; ring
  have hlt : ∀ d : ℝ, 0 < d → Real.exp (-d) < 1 := fun d hd => by
    rw [← Real.exp_zero]; exact Real.exp_lt_exp.mpr (by linarith)
  have b1 : ∀ d, 0 < d → |r1 d| < 1 := by
    intro d hd
    have h1 := hlt d hd; have h2 := Real.exp_pos (-d)
    simp only [hr1, hsq]
    rw [abs_lt]; constructor <;> nlinarith
  have b2 : ∀ d, 0 < d → |r2 d| < 1 := by
    intro d hd
    simp only [hr2]
    rw [abs_of_pos (Real.exp_pos _)]
    exact hlt (2 * d) (by linarith)
  have hne : obsCov r1 exT (fun _ => 1) ≠ obsCov r2 exT fun _ => 1 := by
    intro h
    have := congrFun (congrFun h 0) 1
    simp [obsCov, exT, hr1, hr2] at this
    have h3 : Real.exp (-2) < Real.exp (-1) := Real.exp_lt_exp.mpr (by norm_num)
    linarith
  obtain ⟨y, hy, hyne⟩ : ∃ y : Fin 3 → ℝ, 1 / 100 ≤ armaVar (List.ofFn y) ∧
      logGauss (obsCov r1 exT fun _ => 1) y ≠ logGauss (obsCov r2 exT fun _ => 1) y := by
    by_contra hcon
    push Not at hcon
    exact hne (logGauss_inj (obsCov_symm _ _ _) (obsCov_symm _ _ _) (obsCov_det_ne (by simp [hr1]; norm_num) b1 exT_mono)
      (obsCov_det_ne (by simp [hr2]) b2 exT_mono) hcon)
  obtain ⟨dmin, span, s, lo, hi, g1, g2, -, -, -, h1, -, roots, hr, h2⟩ :=
    C06_carma_logpost srt (by norm_num) exT_mono y (fun _ => 1) (p := 2) (by norm_num) .zcar trivial θ (by simp [npar, hθ])
  cases hroots.symm.trans hr
  have hsd : (1:ℝ) ≤ 10 * √(armaVar (List.ofFn y)) := by
    have : √(1 / 100 : ℝ) ≤ √(armaVar (List.ofFn y)) := Real.sqrt_le_sqrt hy
    have h3 : √(1 / 100 : ℝ) = 1 / 10 := by
      rw [show (1 / 100 : ℝ) = (1 / 10) ^ 2 by norm_num, Real.sqrt_sq (by norm_num)]
    rw [h3] at this; linarith
  have hB : CarpBounds (10 * √(armaVar (List.ofFn y))) (1 / dmin) (1 / span) [-2, -1] θ := by
    have := ex_bounds a0 a1
    rw [exT_gap g1, exT_span g2, one_div_one]
    exact { this with sd_hi := by rw [a0]; exact hsd }
  obtain ⟨ω, ma, s', hω, hadm, hprod, m1, m2, m3, hld⟩ := h2 hB (Or.inl (by rw [a0]; norm_num))
  have hω' : ω = ![-2, -1] := by
    apply List.ofFn_injective
    rw [hω]; simp [List.ofFn_succ]
  have hma : ma = [1, 0] := ma_two m1 fun z => by rw [m3]; simp [maPolySpec]
  refine ⟨exT, y, fun _ => 1, θ, s, s', ω, _, dmin, exT_mono, g1, h1, hadm, hprod, hld, ?_⟩
  intro ma2 l2 hma2
  have hma2' : ma2 = [1, 1] := ma_two l2 fun z => by rw [hma2, exT_gap g1]; simp
  have e1 : (fun d => at0 θ 0 ^ 2 * (carmaAcf 1 ω ma d / carmaAcf 1 ω ma 0)) = r1 := by
    funext d
    rw [hma, hω', ex_acf, ex_acf, a0]
    simp only [hr1]; norm_num; ring
  have e2 : (fun d => at0 θ 0 ^ 2 * (carmaAcf 1 ω ma2 d / carmaAcf 1 ω ma2 0)) = r2 := by
    funext d
    rw [hma2', hω', ex_acf, ex_acf, a0]
    simp only [hr2]; norm_num
  rw [e1, e2, a1, a2]
  simp only [Real.sqrt_one, mul_one, sub_zero, logitPrior, add_zero]
  intro h
  exact hyne (by linarith)

/-! ### C42: maximum-likelihood mode -/

/-- **C42, the part that holds.** In maximum-likelihood mode the bounds play no role for CARp and its subclasses: for every
`theta` with positive error scale and different roots `LogDensity(theta)` is the Gaussian log-likelihood plus the
log-prior of the error scale (and, for ZCARMA, of `kappa`). Missing: the log-prior terms should not be there
(`C42_negation`), and CAR1 ignores the flag (`C42_car1_ignores_flag`). -/
theorem C42_mle_value_partial (srt : List ℝ → List ℕ) {n : ℕ} (hn : 2 ≤ n) {t : Fin n → ℝ} (ht : StrictMono t)
    (y e : Fin n → ℝ) {p : ℕ} (hp : 2 ≤ p) (kind : Kind) (hk : OrderOk p kind) (θ : List ℝ)
    (hθ : npar p kind ≤ θ.length) (hpos : 0 < at0 θ 1) (he : at0 θ 0 ≠ 0 ∨ ∀ i, e i ≠ 0) :
    ∃ s lo hi, CarP.new kind p srt (List.ofFn t) (List.ofFn y) (List.ofFn e) = .ok s ∧ 0 < lo ∧ lo ≤ hi ∧
      (kind = .zcarma → s.kappaLow = .fin lo ∧ s.kappaHigh = .fin hi) ∧
      ∃ roots, arRoots p θ = .ok roots ∧
        (roots.Nodup → ∃ (ω : Fin p → ℂ) (ma : List ℝ) (s' : CarP p), List.ofFn ω = roots ∧ Admissible ω ∧
          ma.length = p ∧ ma[0]? = some 1 ∧ (∀ z, maEval ma z = maPolySpec kind p lo hi θ z) ∧
          logDensity ({ s with b := s.b.setMLE true } : CarP p) θ = .ok (s', .fin (logGauss
            (obsCov (fun d => at0 θ 0 ^ 2 * (carmaAcf 1 ω ma d / carmaAcf 1 ω ma 0)) t fun i => √(at0 θ 1) * e i)
            (fun i => y i - at0 θ 2) + (logPriorSpec θ + logitPrior kind p θ)))) ∧
        (¬ roots.Nodup → ∃ s', logDensity ({ s with b := s.b.setMLE true } : CarP p) θ = .ok (s', .ninf)) := by
  obtain ⟨dmin, b, g1, g2, g3, g4, -, -, -, -, -, hb, hB⟩ := base_fresh hn ht y e
  obtain ⟨s, h1, h2, h3, h4⟩ := carp_fresh (show 0 < p by omega) srt hn ht y e hb kind
  have hkk : ∃ lo hi : ℝ, 0 < lo ∧ lo ≤ hi ∧ (kind = .zcarma → s.kappaLow = .fin lo ∧ s.kappaHigh = .fin hi) := by
    by_cases hk : kind = .zcarma
    · obtain ⟨d, lo, hi, k1, k2, k3, k4, k5, k6, k7, k8, k9⟩ := h4 hk
      exact ⟨lo, hi, k6, k7, fun _ => ⟨k2, k3⟩⟩
    · exact ⟨1, 2, one_pos, one_le_two, fun h => (hk h).elim⟩
  obtain ⟨lo, hi, hlo, hlh, hkap⟩ := hkk
  have hl3 := npar_ge (p := p) kind
  obtain ⟨roots, hr, hg⟩ := rootsFrom_spec θ 3 p (by omega)
  have hkind : s.kind = kind := h3.kind
  set s0 : CarP p := { s with b := s.b.setMLE true } with hs0
  have hok : CarP.Ok s0 n (ext0 t) s0 := ⟨rfl, h2.kf⟩
  have hc : CarP.checkPrior s0.b p s0.orderLor θ = .ok true := carp_check_mle rfl _ _ _
  refine ⟨s, lo, hi, h1, hlo, hlh, hkap, roots, hr, fun hnd => ?_, fun hnd => ?_⟩
  · obtain ⟨ma, m1, m2, m3, s', m4, m5⟩ := carp_value hp (s0 := s0) (s := s0) (by omega) ht hok
      (show s.b.time.length = _ by rw [h3.base, hB.time, List.length_ofFn]) (show s.b.y = _ by rw [h3.base, hB.y])
      (show s.b.yerr = _ by rw [h3.base, hB.yerr]) h3.ma (by rw [show s0.kind = kind from hkind]; exact hk) hlo hlh
      (fun h => hkap (hkind ▸ h)) (by rw [show s0.kind = kind from hkind]; exact hθ) hc hpos he hr hnd
    rw [show s0.kind = kind from hkind] at m3 m5
    exact ⟨vecOf p roots, ma, s', ofFn_vecOf hg.length, hg.admissible hnd, m1, m2, m3, m5⟩
  · obtain ⟨ma, h5, -⟩ := extractMA_spec (s := s0) (lo := lo) (hi := hi) (θ := θ) (show 0 < p by omega) h3.ma
      (by rw [show s0.kind = kind from hkind]; exact hk) hlo hlh (fun h => hkap (hkind ▸ h))
      (by rw [show s0.kind = kind from hkind]; exact hθ)
    obtain ⟨s', -, h6⟩ := carp_ld_repeated hok hp (by omega) hc hr hg.length h5 hnd
    exact ⟨s', h6⟩

/-- a `theta` outside the bounds, with different roots (`theta(0)` far above `max_stdev`, scale 3) -/
example : ∃ roots, arRoots 2 [1000, 3, 0, Real.log 2, Real.log 3] = .ok roots ∧ roots.Nodup ∧
    0 < at0 [1000, 3, 0, Real.log 2, Real.log 3] 1 ∧ ¬ CarpBounds 10 1 (1 / 10) roots [1000, 3, 0, Real.log 2, Real.log 3] := by
  refine ⟨_, ex_roots (by simp) (by simp [at0]) (by simp [at0]), by simp, by simp [at0], fun h => ?_⟩
  have := h.err_hi
  simp [at0] at this
  norm_num at this

/-- **C42 fails.** For every model kind, data set and such `theta` with different roots the value in maximum-likelihood mode is
strictly below the Gaussian log-likelihood: the log-prior, always negative, is still added. -/
theorem C42_negation (srt : List ℝ → List ℕ) {n : ℕ} (hn : 2 ≤ n) {t : Fin n → ℝ} (ht : StrictMono t)
    (y e : Fin n → ℝ) {p : ℕ} (hp : 2 ≤ p) (kind : Kind) (hk : OrderOk p kind) (θ : List ℝ)
    (hθ : npar p kind ≤ θ.length) (hpos : 0 < at0 θ 1) (he : at0 θ 0 ≠ 0 ∨ ∀ i, e i ≠ 0) {roots : List ℂ}
    (hr : arRoots p θ = .ok roots) (hnd : roots.Nodup) :
    ∃ s lo hi, CarP.new kind p srt (List.ofFn t) (List.ofFn y) (List.ofFn e) = .ok s ∧
      (kind = .zcarma → s.kappaLow = .fin lo ∧ s.kappaHigh = .fin hi) ∧
      ∃ (ω : Fin p → ℂ) (ma : List ℝ) (s' : CarP p) (v : ℝ), List.ofFn ω = roots ∧
        (∀ z, maEval ma z = maPolySpec kind p lo hi θ z) ∧
        logDensity ({ s with b := s.b.setMLE true } : CarP p) θ = .ok (s', .fin v) ∧
        v < logGauss (obsCov (fun d => at0 θ 0 ^ 2 * (carmaAcf 1 ω ma d / carmaAcf 1 ω ma 0)) t fun i => √(at0 θ 1) * e i)
          (fun i => y i - at0 θ 2) := by
  obtain ⟨s, lo, hi, h1, -, -, h2, roots', hr', h3, -⟩ := C42_mle_value_partial srt hn ht y e hp kind hk θ hθ hpos he
  cases hr.symm.trans hr'
  obtain ⟨ω, ma, s', h4, -, -, -, h5, h6⟩ := h3 hnd
  have g1 := logPriorSpec_neg hpos
  have g2 := logitPrior_nonpos kind p θ
  exact ⟨s, lo, hi, h1, h2, ω, ma, s', _, h4, h5, h6, by linarith⟩

/-- **C42 fails for CAR1.** The flag has no effect: the bounds are enforced in maximum-likelihood mode as well. -/
theorem C42_car1_ignores_flag (s : Car1) (x : Bool) (θ : List ℝ) :
    (logDensity ({ s with b := s.b.setMLE x } : Car1) θ).map Prod.snd = (logDensity s θ).map Prod.snd := by
  have h1 : CarModel.checkPrior ({ s with b := s.b.setMLE x } : Car1) θ = CarModel.checkPrior s θ := rfl
  have h2 : CarModel.setParams ({ s with b := s.b.setMLE x } : Car1) θ = CarModel.setParams s θ := rfl
  have h3 : CarModel.logPrior ({ s with b := s.b.setMLE x } : Car1) θ = CarModel.logPrior s θ := rfl
  have h4 : (CarModel.base ({ s with b := s.b.setMLE x } : Car1)).y = (CarModel.base s).y := rfl
  have h5 : (CarModel.base ({ s with b := s.b.setMLE x } : Car1)).yerr = (CarModel.base s).yerr := rfl
  have h6 : (CarModel.base ({ s with b := s.b.setMLE x } : Car1)).time = (CarModel.base s).time := rfl
  simp only [logDensity, h1, h2, h3, h4, h5, h6]
  cases CarModel.checkPrior s θ with
  | error f => rfl
  | ok ok =>
    cases ok with
    | false => rfl
    | true =>
      simp only [res_bind_ok, Bool.true_eq_false, if_false]
      cases CarModel.setParams s θ with
      | error f => rfl
      | ok kb =>
        simp only [res_bind_ok]
        cases rd θ 1 with
        | error f => rfl
        | ok scale =>
          cases rd θ 2 with
          | error f => rfl
          | ok mu =>
            simp only [res_bind_ok]
            split
            · rfl
            · cases likLoop _ _ _ _ _ with
              | error f => rfl
              | ok l => cases CarModel.logPrior s θ <;> rfl
            · rfl
            · cases likLoop _ _ _ _ _ with
              | error f => rfl
              | ok l => cases CarModel.logPrior s θ <;> rfl

end Verif.Props
