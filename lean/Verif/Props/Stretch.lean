import Mathlib.MeasureTheory.Measure.Lebesgue.Basic
import Verif.Spec.Power
import Verif.Spec.Balance
import Verif.Model.Proposals
import Verif.Props.Mcmc

/-!
The power-law generator (C35) and the stretch move (C34).
-/

namespace Verif.Props

open Verif.Model Verif.Spec Verif.Theory

open MeasureTheory

/-! ### C35 -/

section
variable {lower upper slope u : ℝ}

lemma power_integral (hl : 0 < lower) (hs : slope ≠ -1) {x : ℝ} (hx : 0 < x) :
    ∫ s in lower..x, s ^ slope = (x ^ (slope + 1) - lower ^ (slope + 1)) / (slope + 1) :=
  integral_rpow (Or.inr ⟨hs, by
    rw [Set.mem_uIcc]; rintro (⟨h, -⟩ | ⟨h, -⟩) <;> linarith⟩)

lemma power_ne (hl : 0 < lower) (hlu : lower < upper) (hs : slope ≠ -1) : upper ^ (slope + 1) - lower ^ (slope + 1) ≠ 0 := by
  have h0 : slope + 1 ≠ 0 := fun h => hs (by linarith)
  rw [sub_ne_zero]
  intro h
  have := (Real.rpow_left_injOn h0) (Set.mem_ofPred_eq ▸ (hl.trans hlu).le) (Set.mem_ofPred_eq ▸ hl.le) h
  linarith

lemma powerCdf_eq (hl : 0 < lower) (hlu : lower < upper) (hs : slope ≠ -1) {x : ℝ} (hx : 0 < x) :
    powerCdf lower upper slope x = (x ^ (slope + 1) - lower ^ (slope + 1)) / (upper ^ (slope + 1) - lower ^ (slope + 1)) := by
  have h0 : slope + 1 ≠ 0 := fun h => hs (by linarith)
  rw [powerCdf, power_integral hl hs hx, power_integral hl hs (hl.trans hlu)]
  have := power_ne hl hlu hs
  field_simp

lemma powerCdf_strictMono (hl : 0 < lower) (hlu : lower < upper) (hs : slope ≠ -1) {x x' : ℝ} (hx : 0 < x) (h : x < x') :
    powerCdf lower upper slope x < powerCdf lower upper slope x' := by
  rw [powerCdf_eq hl hlu hs hx, powerCdf_eq hl hlu hs (hx.trans h)]
  have h0 : slope + 1 ≠ 0 := fun h => hs (by linarith)
  rcases lt_or_gt_of_ne h0 with hneg | hpos
  · have a1 := Real.rpow_lt_rpow_of_neg hl hlu hneg
    have a2 := Real.rpow_lt_rpow_of_neg hx h hneg
    exact div_lt_div_of_neg_of_lt (by linarith) (by linarith)
  · have a1 := Real.rpow_lt_rpow hl.le hlu hpos
    have a2 := Real.rpow_lt_rpow hx.le h hpos
    exact div_lt_div_of_pos_right (by linarith) (by linarith)

lemma powerlaw_ok (hs : slope ≠ -1) : powerlaw lower upper slope u =
    .ok (((upper ^ (slope + 1) - lower ^ (slope + 1)) * u + lower ^ (slope + 1)) ^ (1 / (slope + 1))) := by
  have h0 : slope + 1 ≠ 0 := fun h => hs (by linarith)
  simp only [powerlaw, dv, if_neg h0, res_bind_ok, res_pure]

/-- **C35, inversion.** For `0 < lower < upper`, `slope ≠ -1` and `u` in `[0,1]` the generator returns a number between `lower` and `upper` at
which the distribution function equals `u`. -/
theorem C35_inverts (hl : 0 < lower) (hlu : lower < upper) (hs : slope ≠ -1) (h0 : 0 ≤ u) (h1 : u ≤ 1) :
    ∃ x, powerlaw lower upper slope u = .ok x ∧ lower ≤ x ∧ x ≤ upper ∧ powerCdf lower upper slope x = u := by
  have hne : slope + 1 ≠ 0 := fun h => hs (by linarith)
  have hu := hl.trans hlu
  have hL := Real.rpow_pos_of_pos hl (slope + 1)
  have hU := Real.rpow_pos_of_pos hu (slope + 1)
  set L := lower ^ (slope + 1) with hLd
  set U := upper ^ (slope + 1) with hUd
  set base := (U - L) * u + L with hb
  have e : base = U * u + L * (1 - u) := by rw [hb]; ring
  have hpos : 0 < base := by
    rw [e]
    rcases h0.lt_or_eq with h | h
    · have := mul_pos hU h
      have := mul_nonneg hL.le (sub_nonneg.mpr h1)
      linarith
    · rw [← h]; simpa using hL
  have hroot : (base ^ (1 / (slope + 1))) ^ (slope + 1) = base := by
    rw [← Real.rpow_mul hpos.le, one_div_mul_cancel hne, Real.rpow_one]
  have hx := Real.rpow_pos_of_pos hpos (1 / (slope + 1))
  have hcdf : powerCdf lower upper slope (base ^ (1 / (slope + 1))) = u := by
    rw [powerCdf_eq hl hlu hs hx, hroot, hb]
    have := power_ne hl hlu hs
    field_simp
    ring
  refine ⟨_, powerlaw_ok hs, ?_, ?_, hcdf⟩
  · by_contra h
    have := powerCdf_strictMono hl hlu hs hx (not_le.mp h)
    rw [hcdf, powerCdf_eq hl hlu hs hl, sub_self, zero_div] at this
    linarith
  · by_contra h
    have := powerCdf_strictMono hl hlu hs hu (not_le.mp h)
    rw [hcdf, powerCdf_eq hl hlu hs hu, div_self (power_ne hl hlu hs)] at this
    linarith

/-- **C35, distribution.** For a uniform draw the probability that the generator returns at most `x` is the distribution function at `x`. -/
theorem C35_distribution (hl : 0 < lower) (hlu : lower < upper) (hs : slope ≠ -1) {x : ℝ} (h1 : lower ≤ x) (h2 : x ≤ upper) :
    volume {u : ℝ | 0 ≤ u ∧ u ≤ 1 ∧ ∃ v, powerlaw lower upper slope u = .ok v ∧ v ≤ x} = ENNReal.ofReal (powerCdf lower upper slope x) := by
  have hx : 0 < x := hl.trans_le h1
  have hmono : ∀ {a b : ℝ}, 0 < a → a ≤ b → powerCdf lower upper slope a ≤ powerCdf lower upper slope b := fun ha hab => by
    rcases hab.lt_or_eq with h | h
    · exact (powerCdf_strictMono hl hlu hs ha h).le
    · rw [h]
  have hle1 : powerCdf lower upper slope x ≤ 1 := by
    have := hmono hx h2
    rwa [powerCdf_eq hl hlu hs (hl.trans hlu), div_self (power_ne hl hlu hs)] at this
  have hset : {u : ℝ | 0 ≤ u ∧ u ≤ 1 ∧ ∃ v, powerlaw lower upper slope u = .ok v ∧ v ≤ x} = Set.Icc 0 (powerCdf lower upper slope x) := by
    ext u
    constructor
    · rintro ⟨g0, g1, v, g2, g3⟩
      obtain ⟨v', k1, k2, -, k4⟩ := C35_inverts hl hlu hs g0 g1
      cases g2.symm.trans k1
      exact ⟨g0, by rw [← k4]; exact hmono (hl.trans_le k2) g3⟩
    · rintro ⟨g0, g1⟩
      obtain ⟨v, k1, k2, -, k4⟩ := C35_inverts hl hlu hs g0 (g1.trans hle1)
      refine ⟨g0, g1.trans hle1, v, k1, ?_⟩
      by_contra h
      have := powerCdf_strictMono hl hlu hs hx (not_le.mp h)
      linarith
  rw [hset, Real.volume_Icc, sub_zero]

/-- **C35, excluded slope.** With `slope = -1` the code divides by zero. -/
theorem C35_minus_one : powerlaw lower upper (-1) u = .error .nonfinite := by
  have : dv 1 (-1 + 1) = .error .nonfinite := by rw [dv, if_pos (by norm_num)]
  simp only [powerlaw, this]
  rfl

/-- Slope 1 on `[1,3]`: the draw 1/2 gives √5, where the distribution function `(x² - 1)/8` equals 1/2. -/
example : powerlaw 1 3 1 (1 / 2) = .ok √5 := by
  rw [powerlaw_ok (by norm_num)]
  norm_num [Real.sqrt_eq_rpow]

end

/-! ### C34 -/

lemma grab_spec {idx n : ℕ} {r r' : Rng} {j : ℕ} (h : StretchProp.grab idx n r = .ok (j, r')) :
    j ≠ idx ∧ (∃ k < n, r.int k = j ∧ ∀ i < k, r.int i = idx) ∧ r'.unif = r.unif := by
  induction n generalizing r with
  | zero => cases h
  | succ n ih =>
      unfold StretchProp.grab at h
      split at h
      · rename_i h0
        obtain ⟨h1, ⟨k, hk, h2, h3⟩, h4⟩ := ih h
        refine ⟨h1, ⟨k + 1, by omega, h2, fun i hi => ?_⟩, h4⟩
        cases i with
        | zero => exact h0
        | succ i => exact h3 i (by omega)
      · rename_i h0
        injection h with h
        injection h with h h'
        rw [← h, ← h']
        exact ⟨h0, ⟨0, by omega, rfl, fun i hi => by omega⟩, rfl⟩

/-- **C34, the move.** If `Draw` returns: the partner is another walker of the ensemble, namely the first integer draw that is not the index
of the walker; the stretch factor lies in `[1/a, a]` and is the power-law draw; the proposed vector lies on the line through the two
walkers, and the walker is obtained back from it with the factor `1/z`, which is in the same range. -/
theorem C34_draw {p p' : StretchProp} {v new : List ℝ} {r r' : Rng} (ha : 1 < p.support) (hu : ∀ k, 0 ≤ r.unif k ∧ r.unif k ≤ 1)
    (h : p.draw v r = .ok (p', new, r')) : ∃ other, p'.other ≠ p.idx ∧ p.values[p'.other]? = some other ∧
      (∃ k, r.int k = p'.other ∧ ∀ i < k, r.int i = p.idx) ∧
      1 / p.support ≤ p'.scale ∧ p'.scale ≤ p.support ∧
      1 / p.support ≤ 1 / p'.scale ∧ 1 / p'.scale ≤ p.support ∧
      powerCdf (1 / p.support) p.support (-(1 / 2)) p'.scale = r.unif 0 ∧
      new.length = v.length ∧ (∀ k < v.length, new.getD k 0 = other.getD k 0 + p'.scale * (v.getD k 0 - other.getD k 0) ∧
        v.getD k 0 = other.getD k 0 + 1 / p'.scale * (new.getD k 0 - other.getD k 0)) := by
  unfold StretchProp.draw at h
  obtain ⟨⟨j, r1⟩, h1, h⟩ := bind_ok_inv h
  obtain ⟨other, h2, h⟩ := bind_ok_inv h
  obtain ⟨lo, h3, h⟩ := bind_ok_inv h
  obtain ⟨z, h4, h⟩ := bind_ok_inv h
  dsimp only at h h4
  split at h
  · cases h
  rename_i hlen
  injection h with h
  injection h with hp h
  injection h with hn _
  obtain ⟨g1, ⟨k, -, g2, g3⟩, g4⟩ := grab_spec h1
  have hapos : 0 < p.support := by linarith
  have hlo : lo = 1 / p.support := by
    rw [dv, if_neg hapos.ne'] at h3
    injection h3 with h3; exact h3.symm
  have hlt : 1 / p.support < p.support := by
    rw [div_lt_iff₀ hapos]; nlinarith
  have e12 : (-0.5 : ℝ) = -(1 / 2) := by norm_num
  rw [hlo, e12, g4] at h4
  obtain ⟨z', k1, k2, k3, k4⟩ := C35_inverts (slope := -(1 / 2)) (lower := 1 / p.support) (upper := p.support) (by positivity) hlt
    (by norm_num) (hu 0).1 (hu 0).2
  cases h4.symm.trans k1
  have hz : 0 < z := lt_of_lt_of_le (by positivity) k2
  have hlen : v.length = other.length := by simpa using hlen
  refine ⟨other, by rw [← hp]; exact g1, by rw [← hp]; exact rdU_inv h2, ⟨k, by rw [← hp]; exact g2, g3⟩, ?_⟩
  rw [← hp]
  refine ⟨k2, k3, one_div_le_one_div_of_le hz k3, ?_, k4, ?_, fun i hi => ?_⟩
  · have := one_div_le_one_div_of_le (by positivity) k2
    rwa [one_div_one_div] at this
  · rw [← hn, List.length_zipWith]; omega
  · have hi' : i < other.length := by omega
    have : new.getD i 0 = other.getD i 0 + z * (v.getD i 0 - other.getD i 0) := by
      rw [← hn]
      simp [List.getD_eq_getElem?_getD, hi, hi']
    refine ⟨this, ?_⟩
    dsimp only
    rw [this]
    field_simp
    ring

/-- **C34, the correction.** Let the walker's value be the one stored in the ensemble. If the proposal differs from it by at least `1e-10` in
some coordinate, the log proposal ratio used by the Metropolis-Hastings step is `(d - 1) log z`. Missing: smaller moves, for which it is 0
(`C34_small_move_uncorrected`). -/
theorem C34_correction_partial {p : StretchProp} {v new : List ℝ} (hv : p.values[p.idx]? = some v) (hz : 0 < p.scale)
    (hfar : ∃ k < new.length, 1e-10 ≤ |v.getD k 0 - new.getD k 0|) :
    Proposer.ld p v new = .fin (((v.length : ℝ) - 1) * Real.log p.scale) ∧ Proposer.ld p new v = .fin 0 := by
  have hcur : p.values.getD p.idx [] = v := by rw [List.getD_eq_getElem?_getD, hv]; rfl
  constructor
  · show StretchProp.ld p v = _
    unfold StretchProp.ld
    rw [hcur]
    dsimp only
    rw [if_pos (fun k _ => by simp; norm_num)]
    simp [Dbl.log, Dbl.mul, hz]
  · show StretchProp.ld p new = _
    unfold StretchProp.ld
    rw [hcur]
    dsimp only
    rw [if_neg]
    intro h
    obtain ⟨k, hk, hk'⟩ := hfar
    exact absurd (h k hk) (not_lt.mpr hk')

/-- **C34, the step.** A Metropolis-Hastings step with the stretch proposal, for a walker whose value is the one in the ensemble: a proposal
at least `1e-10` away is accepted if and only if the uniform draw is below `a(x,y)` with log proposal ratio `(d - 1) log z`, `z` being the factor
of the move (`C34_draw`). -/
theorem C34_step_partial {μ : Type} [Target μ] {inv : μ → Prop} {f : List ℝ → Res Dbl} (hf : HistoryFree μ inv f) {m m' : Metro StretchProp}
    {s s' : Par μ} {r r' : Rng} (hs : inv s.obj) (h : m.doStep s r = .ok (m', s', r')) {lx ly : ℝ} (hx : s.logpost = .fin lx)
    (ht : s.temp ≠ 0) (ha : 1 < m.prop.support) (hu : ∀ k, 0 ≤ r.unif k ∧ r.unif k ≤ 1) (hv : m.prop.values[m.prop.idx]? = some s.value)
    {θ : List ℝ} {q : StretchProp} {r1 : Rng} (hθ : m.prop.draw s.value r = .ok (q, θ, r1)) (hy : f θ = .ok (.fin ly))
    (hfar : ∃ k < θ.length, 1e-10 ≤ |s.value.getD k 0 - θ.getD k 0|) :
    (r1.unif 0 < accProb s.temp lx ly (((s.value.length : ℝ) - 1) * Real.log q.scale) 0 → s'.value = θ ∧ s'.logpost = .fin ly) ∧
    (¬ r1.unif 0 < accProb s.temp lx ly (((s.value.length : ℝ) - 1) * Real.log q.scale) 0 →
      s'.value = s.value ∧ s'.logpost = s.logpost) := by
  obtain ⟨-, -, -, -, h1, -⟩ := C34_draw ha hu hθ
  have hz : 0 < q.scale := lt_of_lt_of_le (by have : 0 < m.prop.support := by linarith
                                              positivity) h1
  have hq : q.values = m.prop.values ∧ q.idx = m.prop.idx := by
    unfold StretchProp.draw at hθ
    obtain ⟨⟨j, r1⟩, -, hθ⟩ := bind_ok_inv hθ
    obtain ⟨other, -, hθ⟩ := bind_ok_inv hθ
    obtain ⟨lo, -, hθ⟩ := bind_ok_inv hθ
    obtain ⟨z, -, hθ⟩ := bind_ok_inv hθ
    dsimp only at hθ
    split at hθ
    · cases hθ
    injection hθ with hθ
    injection hθ with hp _
    rw [← hp]
    exact ⟨rfl, rfl⟩
  obtain ⟨g1, g2⟩ := C34_correction_partial (p := q) (v := s.value) (new := θ) (by rw [hq.1, hq.2]; exact hv) hz hfar
  exact C23_metro_accepts hf hs h hx ht hθ hy g2 g1

/-- **C34, density of the factor.** `g(1/z) = z g(z)`, and `g` is a probability density on `[1/a, a]`. -/
theorem C34_density {a : ℝ} (ha : 1 < a) : (∀ z, 0 < z → stretchDens a (1 / z) = z * stretchDens a z) ∧
    (∫ z in (1 / a)..a, stretchDens a z) = 1 := by
  constructor
  · intro z hz
    unfold stretchDens
    rw [one_div z, Real.inv_rpow hz.le, ← Real.rpow_neg hz.le, neg_neg, ← mul_div_assoc]
    congr 1
    nth_rewrite 2 [← Real.rpow_one z]
    rw [← Real.rpow_add hz]
    norm_num
  · unfold stretchDens
    rw [intervalIntegral.integral_div, div_self]
    have hlt : 1 / a < a := by
      rw [div_lt_iff₀ (by linarith)]; nlinarith
    rw [power_integral (by positivity) (by norm_num) (by linarith)]
    exact div_ne_zero (power_ne (by positivity) hlt (by norm_num)) (by norm_num)

/-- **C34, reversibility.** On the ray from the partner through the walker, at distances `ρ` and `ρ'` from the partner, the target in `d`
dimensions has density `π ρ^(d-1)` and the proposal density is `g(ρ'/ρ)/ρ`. With the correction `(d - 1) log z` the move satisfies detailed
balance, at any temperature. -/
theorem C34_balance {a : ℝ} (d : ℕ) (hd : 1 ≤ d) (T lx ly : ℝ) {ρ ρ' : ℝ} (h : 0 < ρ) (h' : 0 < ρ') :
    Real.exp lx ^ (1 / T) * ρ ^ (d - 1) * (stretchDens a (ρ' / ρ) / ρ) * accProb T lx ly (((d : ℝ) - 1) * Real.log (ρ' / ρ)) 0 =
      Real.exp ly ^ (1 / T) * ρ' ^ (d - 1) * (stretchDens a (ρ / ρ') / ρ') * accProb T ly lx (((d : ℝ) - 1) * Real.log (ρ / ρ')) 0 := by
  have hsym : stretchDens a (ρ / ρ') / ρ' = stretchDens a (ρ' / ρ) / ρ := by
    have : stretchDens a (1 / (ρ' / ρ)) = (ρ' / ρ) * stretchDens a (ρ' / ρ) := by
      unfold stretchDens
      have hz : 0 < ρ' / ρ := by positivity
      rw [one_div (ρ' / ρ), Real.inv_rpow hz.le, ← Real.rpow_neg hz.le, neg_neg, ← mul_div_assoc]
      congr 1
      nth_rewrite 2 [← Real.rpow_one (ρ' / ρ)]
      rw [← Real.rpow_add hz]
      norm_num
    rw [one_div_div] at this
    rw [this]
    field_simp
  rw [hsym]
  have hcast : ((d - 1 : ℕ) : ℝ) = (d : ℝ) - 1 := by push_cast [Nat.cast_sub hd]; ring
  have hpow : ∀ x : ℝ, 0 < x → x ^ (d - 1) = Real.exp (((d : ℝ) - 1) * Real.log x) := by
    intro x hx
    rw [← hcast, ← Real.log_pow, Real.exp_log (by positivity)]
  have key : ∀ A B : ℝ, Real.exp A * min 1 (Real.exp (B - A)) = Real.exp B * min 1 (Real.exp (A - B)) := by
    intro A B
    rcases le_total A B with h | h
    · rw [min_eq_left (Real.one_le_exp (by linarith)), min_eq_right (Real.exp_le_one_iff.mpr (by linarith)), ← Real.exp_add]
      simp
    · rw [min_eq_right (Real.exp_le_one_iff.mpr (by linarith)), min_eq_left (Real.one_le_exp (by linarith)), ← Real.exp_add]
      simp
  have k := key (lx / T + ((d : ℝ) - 1) * Real.log ρ) (ly / T + ((d : ℝ) - 1) * Real.log ρ')
  rw [Real.exp_add, Real.exp_add] at k
  rw [hpow ρ h, hpow ρ' h']
  unfold accProb
  rw [← Real.exp_mul, ← Real.exp_mul, show lx * (1 / T) = lx / T by ring, show ly * (1 / T) = ly / T by ring,
    Real.log_div h'.ne' h.ne', Real.log_div h.ne' h'.ne',
    show (ly - lx) / T + ((d : ℝ) - 1) * (Real.log ρ' - Real.log ρ) - 0 =
      ly / T + ((d : ℝ) - 1) * Real.log ρ' - (lx / T + ((d : ℝ) - 1) * Real.log ρ) by ring,
    show (lx - ly) / T + ((d : ℝ) - 1) * (Real.log ρ - Real.log ρ') - 0 =
      lx / T + ((d : ℝ) - 1) * Real.log ρ - (ly / T + ((d : ℝ) - 1) * Real.log ρ') by ring]
  linear_combination (stretchDens a (ρ' / ρ) / ρ) * k

/-- **C34 fails for small moves.** If every coordinate of the proposal is within `1e-10` of the walker, both log-densities are
`(d - 1) log z`, so the correction cancels: the ratio used is 0 and not `(d - 1) log z`. -/
theorem C34_small_move_uncorrected {p : StretchProp} {v new : List ℝ} (hv : p.values[p.idx]? = some v) (hlen : new.length = v.length)
    (hnear : ∀ k < new.length, |v.getD k 0 - new.getD k 0| < 1e-10) : Proposer.ld p v new = Proposer.ld p new v := by
  have hcur : p.values.getD p.idx [] = v := by rw [List.getD_eq_getElem?_getD, hv]; rfl
  show StretchProp.ld p v = StretchProp.ld p new
  unfold StretchProp.ld
  rw [hcur]
  dsimp only
  rw [if_pos (fun k _ => by simp; norm_num), if_pos hnear, hlen]

/-- **C34, one walker.** In an ensemble of one, where the only integer that can be drawn is the walker's own index, the search for a partner
never ends. -/
theorem C34_one_walker_hangs {p : StretchProp} {v : List ℝ} {r : Rng} (h : ∀ k, r.int k = p.idx) : p.draw v r = .error .timeout := by
  have : ∀ n (r : Rng), (∀ k, r.int k = p.idx) → StretchProp.grab p.idx n r = .error .timeout := by
    intro n
    induction n with
    | zero => intro r _; rfl
    | succ n ih =>
        intro r hr
        unfold StretchProp.grab
        rw [if_pos (hr 0)]
        exact ih _ fun k => hr (k + 1)
  unfold StretchProp.draw
  rw [this p.fuel r h]
  rfl

/-! Examples: a stretch proposal of walker 0 in an ensemble of two walkers in the plane. -/

noncomputable def exStretch : StretchProp := ⟨[[0, 0], [1, 2]], 0, 2, 1, 1, 10⟩

noncomputable def exStretchRng : Rng := ⟨fun _ => 1 / 2, fun _ => 0, fun _ => 1, fun _ => 1, fun k => k, fun _ => 1 / 2, fun _ => 0⟩

/-- The first integer drawn is 0 and rejected, the second is 1. -/
example : ∃ p' new r', exStretch.draw [0, 0] exStretchRng = .ok (p', new, r') ∧ p'.other = 1 := by
  have hg : StretchProp.grab 0 10 exStretchRng = .ok (1, exStretchRng.nextI.2.nextI.2) := by
    simp [StretchProp.grab, exStretchRng, Rng.nextI, Rng.skip]
  have e12 : (-0.5 : ℝ) ≠ -1 := by norm_num
  simp only [StretchProp.draw, exStretch, hg, res_bind_ok]
  simp only [dv, rdU, powerlaw_ok e12]
  norm_num

/-- A far proposal. -/
example : exStretch.values[exStretch.idx]? = some [0, 0] ∧ ∃ k < [(3 : ℝ), 3].length, 1e-10 ≤ |[(0 : ℝ), 0].getD k 0 - [(3 : ℝ), 3].getD k 0| :=
  ⟨rfl, 0, by simp, by norm_num⟩

/-- A near proposal: walkers `1e-11` apart, factor 2. -/
example : ∃ p : StretchProp, p.values[p.idx]? = some [0, 0] ∧ p.scale = 2 ∧
    ∀ k < [(-1e-11 : ℝ), 0].length, |[(0 : ℝ), 0].getD k 0 - [(-1e-11 : ℝ), 0].getD k 0| < 1e-10 := by
  refine ⟨⟨[[0, 0], [1e-11, 0]], 0, 2, 2, 1, 10⟩, rfl, rfl, fun k hk => ?_⟩
  have : k = 0 ∨ k = 1 := by simp at hk; omega
  rcases this with rfl | rfl <;> norm_num [abs_lt]

/-- A step of a walker at 1 with the other walker at 0: the factor is 25/16, the proposal 25/16, and the step returns. -/
example : ∃ q r1 z, (⟨[[1], [0]], 0, 4, 1, 1, 10⟩ : StretchProp).draw (Toy.par 1 1).value exStretchRng = .ok (q, [25 / 16], r1) ∧
    (⟨⟨[[1], [0]], 0, 4, 1, 1, 10⟩, -1, 0, 0, .nan⟩ : Metro StretchProp).doStep (Toy.par 1 1) exStretchRng = .ok z ∧
    (∀ k, 0 ≤ exStretchRng.unif k ∧ exStretchRng.unif k ≤ 1) ∧ 1e-10 ≤ |(Toy.par 1 1).value.getD 0 0 - [(25 / 16 : ℝ)].getD 0 0| := by
  have hg : StretchProp.grab 0 10 exStretchRng = .ok (1, exStretchRng.nextI.2.nextI.2) := by
    simp [StretchProp.grab, exStretchRng, Rng.nextI, Rng.skip]
  have e12 : (-0.5 : ℝ) ≠ -1 := by norm_num
  have h4 : (4 : ℝ) ^ (1 / 2 : ℝ) = 2 := by
    rw [← Real.sqrt_eq_rpow, show (4 : ℝ) = 2 ^ 2 by norm_num, Real.sqrt_sq (by norm_num)]
  have hq : (1 / 4 : ℝ) ^ (1 / 2 : ℝ) = 1 / 2 := by
    rw [← Real.sqrt_eq_rpow, show (1 / 4 : ℝ) = (1 / 2) ^ 2 by norm_num, Real.sqrt_sq (by norm_num)]
  have hd : (⟨[[1], [0]], 0, 4, 1, 1, 10⟩ : StretchProp).draw (Toy.par 1 1).value exStretchRng =
      .ok (⟨[[1], [0]], 0, 4, 25 / 16, 1, 10⟩, [25 / 16], exStretchRng.nextI.2.nextI.2.nextU.2) := by
    have hu : exStretchRng.nextI.2.nextI.2.unif 0 = 1 / 2 := rfl
    have hv : ((4 ^ (-0.5 + 1 : ℝ) - (1 / 4) ^ (-0.5 + 1 : ℝ)) * (1 / 2) + (1 / 4) ^ (-0.5 + 1 : ℝ) : ℝ) ^ (1 / (-0.5 + 1) : ℝ) = 25 / 16 := by
      rw [show (-0.5 + 1 : ℝ) = 1 / 2 by norm_num, h4, hq, show (1 / (1 / 2) : ℝ) = (2 : ℕ) by norm_num, Real.rpow_natCast]
      norm_num
    simp only [StretchProp.draw, hg, res_bind_ok, Toy.par]
    simp only [dv, rdU, powerlaw_ok e12, hu]
    norm_num at hv ⊢
  have ht : ∃ z, (⟨⟨[[1], [0]], 0, 4, 1, 1, 10⟩, -1, 0, 0, .nan⟩ : Metro StretchProp).doStep (Toy.par 1 1) exStretchRng = .ok z := by
    have hd' : Proposer.draw (⟨[[1], [0]], 0, 4, 1, 1, 10⟩ : StretchProp) (Toy.par 1 1).value exStretchRng = _ := hd
    unfold Metro.doStep
    dsimp only
    rw [hd', res_bind_ok]
    simp only [Target.ld, res_bind_ok, res_pure, Par.save]
    have two : ∀ (c : Prop) [Decidable c] (a b : Metro StretchProp × Par Toy × Rng),
        ∃ z, (if c then (.ok a : Res _) else .ok b) = .ok z := fun c _ a b => by
      split
      · exact ⟨_, rfl⟩
      · exact ⟨_, rfl⟩
    exact two _ _ _
  obtain ⟨z, hz⟩ := ht
  exact ⟨_, _, z, hd, hz, fun k => by simp only [exStretchRng]; norm_num, by simp only [Toy.par]; norm_num [abs_of_neg]⟩

end Verif.Props
