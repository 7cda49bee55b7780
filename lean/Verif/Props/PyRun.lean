import Verif.Theory.PyRun
import Verif.Props.AnyInit
import Verif.Props.Safety

/-!
C58: `CarmaModel(time, y, ysig, p, q).run_mcmc(nsamples, ..)` from the user's data to the table of samples.
-/

namespace Verif.Props

open Verif.Model Verif.Spec Verif.Theory

open scoped Classical

/-- `t`, `y`, `e` are observations taken from `data`, one for every time that occurs, in increasing order of time. -/
structure Kept (data : List (ℝ × ℝ × ℝ)) {n : ℕ} (t y e : Fin n → ℝ) : Prop where
  mono : StrictMono t
  mem : ∀ i, (t i, y i, e i) ∈ data
  all : ∀ d ∈ data, ∃ i, t i = d.1

/-- The values stored for one sample describe one CARMA process: `roots` are the (different, stable, conjugate) roots of the autoregressive
polynomial `ar`, `widths` and `cents` their Lorentzian parameters, `sigma` the driving noise for which the process has variance `var`; and `x`
is the log-posterior of the data under that process with mean `mu` and error variances scaled by `scale`. -/
structure Describes {n : ℕ} (t y e : Fin n → ℝ) (p : ℕ) (r : Py.Row) (x : ℝ) : Prop where
  process : ∃ ω : Fin p → ℂ, r.roots = List.ofFn ω ∧ Admissible ω ∧ (∀ z, Py.polyval r.ar z = ∏ k, (z - ω k)) ∧
    r.widths = (List.ofFn fun k => -(ω k).re / (2 * Real.pi)) ∧ r.cents = (List.ofFn fun k => |(ω k).im| / (2 * Real.pi)) ∧
    0 ≤ r.sigma ∧ carmaAcf (r.sigma ^ 2) ω r.ma 0 = r.var ∧
    x = logGauss (obsCov (carmaAcf (r.sigma ^ 2) ω r.ma) t fun i => √r.scale * e i) (fun i => y i - r.mu) +
      (-25 / r.scale - 26 * Real.log r.scale)

/-- What `run_mcmc` promises about the table of samples of a CARMA(p,q) model. -/
structure TableOk {n : ℕ} (t y e : Fin n → ℝ) (p q N : ℕ) (T : Py.Table) : Prop where
  order : T.p = p ∧ T.q = q
  rows : T.rows.length = N
  length : T.trace.length = N ∧ T.logpost.length = N
  row : ∀ k < N, ∃ θ r x, T.trace[k]? = some θ ∧ T.rows[k]? = some r ∧ T.logpost[k]? = some (.fin x) ∧ θ.length = 3 + p + q ∧
    r.var = at0 θ 0 ^ 2 ∧ r.scale = at0 θ 1 ∧ r.mu = at0 θ 2 ∧ r.ma.length = q + 1 ∧
    (∀ z, Py.polyval r.ar z = ((factorPoly (at0 θ) 3 p).map Complex.ofRealHom).eval z) ∧
    (∀ z, maEval r.ma z = maPolySpec (runKind q false) p 1 1 θ z) ∧ Describes t y e p r x ∧
    ∀ dmin span, IsMinGap t dmin → IsSpan t span → CarpBounds (10 * √(popVariance y)) (1 / dmin) (1 / span) r.roots θ

theorem columns_eq {l : List (List ℝ)} {m : ℕ} (hne : l ≠ []) (h : ∀ x ∈ l, x.length = m) : Py.columns l = .ok m := by
  cases l with
  | nil => exact absurd rfl hne
  | cons a l =>
      have ha := h a (by simp)
      rw [Py.columns, if_pos fun x hx => (h x (by simp [hx])).trans ha.symm, ha]

/-- The table built from a run that returned. -/
theorem carmaSample_run {srt : List ℝ → List ℕ} {n : ℕ} (hn : 2 ≤ n) {t : Fin n → ℝ} (ht : StrictMono t) (y e : Fin n → ℝ) {p q : ℕ}
    (hp : 2 ≤ p) (hq : q < p) {fuel N burnin nw thin : ℕ} (hN : 1 ≤ N) {init : List ℝ} {r : Rng} {c : Par (CarP p)}
    (h : runCarmaSampler fuel srt N burnin (List.ofFn t) (List.ofFn y) (List.ofFn e) p q nw false thin init r = .ok c) :
    ∃ T, Py.carmaSample c q = .ok T ∧ TableOk t y e p q N T ∧ T.loglik = T.logpost := by
  obtain ⟨var, o, b, g1, g2, g3, g4, g5, g6⟩ := C30_carma h
  obtain ⟨var', o', b', k1, k2, k3, k4⟩ := run_core h
  cases g1.symm.trans k1
  cases g2.symm.trans k2
  cases g3.symm.trans k3
  cases (popVar_eq (show 0 < n by omega) y).symm.trans g1
  obtain ⟨o2, b2, dmin, span, m1, m2, m3, m4, m5, m6, m7, m8⟩ := run_solid (q := q) srt hn ht y e hp false (Or.inr hq) (10 * √(popVariance y))
  cases m1.symm.trans g2
  cases m2.symm.trans g3
  have hkind : o.kind = runKind q false := (new_config g2).1
  have hne : c.samples ≠ [] := fun h0 => by rw [h0] at g4; simp at g4; omega
  have hlen : ∀ θ ∈ c.samples, θ.length = 3 + p + q := fun θ hθ => by
    obtain ⟨k, hk, rfl⟩ := List.getElem_of_mem hθ
    obtain ⟨θ', x, o', h1, -, h3, -⟩ := g6 k (g4 ▸ hk)
    rw [List.getElem?_eq_getElem hk] at h1
    cases h1
    simpa [nParams] using h3
  have hld : ∀ θ ∈ c.samples, ∃ x s1, logDensity ({ o with b := b } : CarP p) θ = .ok (s1, .fin x) := fun θ hθ => by
    obtain ⟨k, hk, rfl⟩ := List.getElem_of_mem hθ
    obtain ⟨θ', x, o', h1, -, -, h4⟩ := g6 k (g4 ▸ hk)
    rw [List.getElem?_eq_getElem hk] at h1
    cases h1
    exact ⟨x, o', h4⟩
  have hrow : ∀ θ ∈ c.samples, ∃ r, Py.mkRow p q θ = .ok r := fun θ hθ => by
    obtain ⟨x, s1, h1⟩ := hld θ hθ
    obtain ⟨r, ω, h2, -⟩ := row_spec hp hq (by omega) ht m3 hkind m7 m8 (hlen θ hθ) h1
    exact ⟨r, h2⟩
  have hrowsome : Nonempty Py.Row := ⟨(hrow _ (List.getElem_mem (show 0 < c.samples.length by omega))).choose⟩
  set f : List ℝ → ℝ := fun θ => if h : θ ∈ c.samples then (hld θ h).choose else 0 with hf
  set g : List ℝ → Py.Row := fun θ => if h : θ ∈ c.samples then (hrow θ h).choose else hrowsome.some with hg
  have hf' : ∀ θ ∈ c.samples, ∃ s1, logDensity ({ o with b := b } : CarP p) θ = .ok (s1, .fin (f θ)) := fun θ hθ => by
    rw [hf]; simp only [dif_pos hθ]; exact (hld θ hθ).choose_spec
  have hg' : ∀ θ ∈ c.samples, Py.mkRow p q θ = .ok (g θ) := fun θ hθ => by
    rw [hg]; simp only [dif_pos hθ]; exact (hrow θ hθ).choose_spec
  have hlik := loglikLoop_eq (s0 := ({ o with b := b } : CarP p)) c.samples (mleOf c.obj) (mleOf_core k4) f hf'
  have hpost : c.logposts = c.samples.map fun θ => Dbl.fin (f θ) := by
    refine List.ext_getElem (by rw [List.length_map, g4, g5]) fun k h1 h2 => ?_
    obtain ⟨θ', x, o', a1, a2, -, a4⟩ := g6 k (g5 ▸ h1)
    have hk : k < c.samples.length := by simpa using h2
    rw [List.getElem?_eq_getElem hk] at a1
    rw [List.getElem?_eq_getElem h1] at a2
    cases a1
    injection a2 with a2
    obtain ⟨s1, a5⟩ := hf' _ (List.getElem_mem hk)
    rw [a4] at a5
    injection a5 with a5
    injection a5 with _ a5
    rw [a2, List.getElem_map, a5]
  refine ⟨⟨p, q, c.samples, c.logposts, c.samples.map g, c.samples.map fun θ => Dbl.fin (f θ)⟩, ?_, ⟨⟨rfl, rfl⟩, by simp [g4], ⟨g4, g5⟩, ?_⟩,
    hpost.symm⟩
  · have e1 : 3 + p + q - 3 - q = p := by omega
    have e2 : c.samples.take c.logposts.length = c.samples := by rw [List.take_of_length_le (by omega)]
    have hlik' : Py.loglikLoop { c.obj with b := c.obj.b.setMLE true } c.samples = _ := hlik
    unfold Py.carmaSample
    simp only [Py.getSamples, if_neg hne, columns_eq hne hlen, res_bind_ok, e1, mapM_total hg', e2, hlik', if_neg (show ¬ c.samples.length < c.logposts.length by omega)]
    rfl
  · intro k hk
    obtain ⟨θ, x, o', a1, a2, a3, a4⟩ := g6 k hk
    have hm := List.mem_of_getElem? a1
    obtain ⟨r, ω, h1, h2, h3, h4, h5, h6, h7, h8, h9, h10, h11, h12, h13, h14, h15, h16, h17⟩ :=
      row_spec hp hq (by omega) ht m3 hkind m7 m8 (hlen θ hm) a4
    have hgr : g θ = r := by
      have := hg' θ hm
      rw [h1] at this; injection this with this; exact this.symm
    refine ⟨θ, r, x, a1, by simp [List.getElem?_map, a1, hgr], a2, hlen θ hm, h2, h3, h4, h13, fun z => ?_, h14,
      ⟨ω, h5, h6, h12, h10, h11, h15, h16, ?_⟩, fun dmin' span' d1 d2 => ?_⟩
    · rw [h12, ← h9, Polynomial.eval_prod]; simp
    · rw [h17, h3]; rfl
    · obtain rfl := d1.unique m4
      obtain rfl := d2.unique m5
      rw [← m6]; exact h8

/-- **C58, CARMA(p,q), `q < p`.** Data with at least two different times, in any order and with repetitions: if `run_mcmc` returns, it returns
a table with `nsamples` rows. Each row has the right number of parameters, inside the prior bounds of the kept observations. The stored roots,
coefficients, Lorentzian parameters, `var` and `sigma` describe one process, and the stored `logpost` is the Gaussian log-posterior of the kept
observations under that process. -/
theorem C58_carma {srt : List ℝ → List ℕ} (hs : IsSortIndex srt) (srt' : List ℝ → List ℕ) (data : List (ℝ × ℝ × ℝ))
    (h2 : ∃ d1 ∈ data, ∃ d2 ∈ data, d1.1 ≠ d2.1) {p q : ℕ} (hp : 2 ≤ p) (hq : q < p) {fuel N thin : ℕ} {nburnin ntemp : Option ℕ}
    {init : Option (List ℝ)} {r : Rng} {F : Py.Fit}
    (h : Py.fit fuel srt srt' (data.map fun d => d.1) (data.map fun d => d.2.1) (data.map fun d => d.2.2) p q N nburnin ntemp thin init r =
      .ok F) :
    ∃ (n : ℕ) (t y e : Fin n → ℝ) (T : Py.Table), 2 ≤ n ∧ Kept data t y e ∧ F = .carma T ∧ 1 ≤ N ∧ TableOk t y e p q N T := by
  obtain ⟨n, t, y, e, k1, k2, k3, k4, k5⟩ := carmaModel_fn hs data h2
  simp only [Py.fit, k3, res_bind_ok, Py.runMcmc, if_neg (show ¬ p = 1 by omega)] at h
  obtain ⟨c, hc, h⟩ := bind_ok_inv h
  have hN : 1 ≤ N := by
    by_contra h0
    obtain ⟨-, -, -, -, -, -, g4, -⟩ := C30_carma hc
    have : c.samples = [] := List.eq_nil_of_length_eq_zero (by omega)
    simp [Py.carmaSample, Py.getSamples, this, Bind.bind, Except.bind] at h
  obtain ⟨T, hT, hok, -⟩ := carmaSample_run k1 k2 y e hp hq hN hc
  rw [hT] at h
  injection h with h
  exact ⟨n, t, y, e, T, k1, ⟨k2, k4, k5⟩, h.symm, hN, hok⟩

/-- **C58, the stored log-likelihoods.** For CARMA models the column `loglik` is equal to the column `logpost`. (It should differ by the
log-prior: C56.) -/
theorem C58_loglik_is_logpost {srt : List ℝ → List ℕ} (hs : IsSortIndex srt) (srt' : List ℝ → List ℕ) (data : List (ℝ × ℝ × ℝ))
    (h2 : ∃ d1 ∈ data, ∃ d2 ∈ data, d1.1 ≠ d2.1) {p q : ℕ} (hp : 2 ≤ p) (hq : q < p) {fuel N thin : ℕ} {nburnin ntemp : Option ℕ}
    {init : Option (List ℝ)} {r : Rng} {T : Py.Table}
    (h : Py.fit fuel srt srt' (data.map fun d => d.1) (data.map fun d => d.2.1) (data.map fun d => d.2.2) p q N nburnin ntemp thin init r =
      .ok (.carma T)) : T.loglik = T.logpost := by
  obtain ⟨-, -, -, -, -, -, -, -, hN, -⟩ := C58_carma hs srt' data h2 hp hq h
  obtain ⟨n, t, y, e, k1, k2, k3, k4, k5⟩ := carmaModel_fn hs data h2
  simp only [Py.fit, k3, res_bind_ok, Py.runMcmc, if_neg (show ¬ p = 1 by omega)] at h
  obtain ⟨c, hc, h⟩ := bind_ok_inv h
  obtain ⟨T', hT, -, hl⟩ := carmaSample_run k1 k2 y e hp hq hN hc
  rw [hT] at h
  injection h with h
  injection h with h
  rw [← h]; exact hl

/-- **C58, outcome for CARMA(p,q), `q < p`.** Let the kept values be not all equal, at least three observations be kept (or `p ≤ 3`), `nsamples`
and the number of temperatures be positive, and the draws be in the ranges of their distributions, without two equal draws of `randu` and
without a proposal made of zeros. Then `run_mcmc` returns a table, or the search for starting values never ends. No exception is raised. -/
theorem C58_carma_outcome {srt : List ℝ → List ℕ} (hs : IsSortIndex srt) (srt' : List ℝ → List ℕ) (data : List (ℝ × ℝ × ℝ))
    (h2 : ∃ d1 ∈ data, ∃ d2 ∈ data, d1.1 ≠ d2.1) {p q : ℕ} (hp : 2 ≤ p) (hq : q < p) (fuel : ℕ) {N : ℕ} (hN : 1 ≤ N) (thin : ℕ)
    (nburnin : Option ℕ) {ntemp : Option ℕ} (hw : ∀ m, ntemp = some m → 1 ≤ m) (init : Option (List ℝ)) {r : Rng} (hr : r.Ok)
    (hi : Function.Injective r.randu) (hb : Blocks (3 + p + q) r.stud) :
    ∃ (n : ℕ) (t y e : Fin n → ℝ), Kept data t y e ∧ ((∃ i j, y i ≠ y j) → 3 ≤ n ∨ p ≤ 3 →
      (∃ T, Py.fit fuel srt srt' (data.map fun d => d.1) (data.map fun d => d.2.1) (data.map fun d => d.2.2) p q N nburnin ntemp thin init r =
        .ok (.carma T)) ∨
      Py.fit fuel srt srt' (data.map fun d => d.1) (data.map fun d => d.2.1) (data.map fun d => d.2.2) p q N nburnin ntemp thin init r =
        .error .timeout) := by
  obtain ⟨n, t, y, e, k1, k2, k3, k4, k5⟩ := carmaModel_fn hs data h2
  refine ⟨n, t, y, e, ⟨k2, k4, k5⟩, fun hy h3 => ?_⟩
  have hnt : 1 ≤ ntemp.getD (max 10 (p + q)) := by
    cases ntemp with
    | none => simp only [Option.getD_none]; omega
    | some m => exact hw m rfl
  simp only [Py.fit, k3, res_bind_ok, Py.runMcmc, if_neg (show ¬ p = 1 by omega)]
  rcases C46_carma_run_any_init srt' k1 k2 y e hy hp false (Or.inr hq) h3 hnt fuel N (nburnin.getD (N / 2)) thin (init.getD []) hr hi
    (by simpa [nParams] using hb) with ⟨c, h⟩ | h
  · obtain ⟨T, hT, -⟩ := carmaSample_run k1 k2 y e hp hq hN h
    left
    rw [h, res_bind_ok, hT]
    exact ⟨T, rfl⟩
  · right; rw [h]; rfl

/-- **C58, data with two different times only.** For `p ≥ 2` `run_mcmc` never returns a sample, whatever the values, the arguments and the
random numbers. -/
theorem C58_two_times {srt : List ℝ → List ℕ} (hs : IsSortIndex srt) (srt' : List ℝ → List ℕ) (data : List (ℝ × ℝ × ℝ)) {a b : ℝ}
    (hab : a < b) (h2 : ∀ x, (∃ d ∈ data, d.1 = x) ↔ x = a ∨ x = b) {p q : ℕ} (hp : 2 ≤ p) (hq : q < p) (fuel N thin : ℕ)
    (nburnin ntemp : Option ℕ) (init : Option (List ℝ)) (r : Rng) (F : Py.Fit) :
    Py.fit fuel srt srt' (data.map fun d => d.1) (data.map fun d => d.2.1) (data.map fun d => d.2.2) p q N nburnin ntemp thin init r ≠ .ok F := by
  intro h
  obtain ⟨d1, hd1, e1⟩ := (h2 a).mpr (Or.inl rfl)
  obtain ⟨d2, hd2, e2⟩ := (h2 b).mpr (Or.inr rfl)
  obtain ⟨n, t, y, e, k1, k2, k3, k4, k5⟩ := carmaModel_fn hs data ⟨d1, hd1, d2, hd2, by rw [e1, e2]; exact hab.ne⟩
  have hn : n = 2 := by
    by_contra hne
    have h3 : 3 ≤ n := by omega
    have hm : ∀ i, t i = a ∨ t i = b := fun i => (h2 (t i)).mp ⟨_, k4 i, rfl⟩
    have c1 : t ⟨0, by omega⟩ < t ⟨1, by omega⟩ := k2 (by simp)
    have c2 : t ⟨1, by omega⟩ < t ⟨2, by omega⟩ := k2 (by simp)
    rcases hm ⟨0, by omega⟩ with g0 | g0 <;> rcases hm ⟨1, by omega⟩ with g1 | g1 <;> rcases hm ⟨2, by omega⟩ with g2 | g2 <;>
      rw [g0, g1] at c1 <;> rw [g1, g2] at c2 <;> linarith
  subst hn
  simp only [Py.fit, k3, res_bind_ok, Py.runMcmc, if_neg (show ¬ p = 1 by omega)] at h
  obtain ⟨c, hc, -⟩ := bind_ok_inv h
  exact C46_two_points_never_return srt' k2 y e hp false (Or.inr hq) _ _ _ _ _ _ _ c hc

/-! ### CAR(1) -/

/-- The values stored for one sample of a CAR(1) model describe an Ornstein-Uhlenbeck process; `L` is the log-likelihood of the data. -/
structure Describes1 {n : ℕ} (t y e : Fin n → ℝ) (r : Py.Row1) (L : ℝ) : Prop where
  sigma : 0 ≤ r.sigma
  var : car1Acf (r.sigma ^ 2) (Real.exp r.logOmega) 0 = r.var
  value : L = logGauss (obsCov (car1Acf (r.sigma ^ 2) (Real.exp r.logOmega)) t fun i => √r.scale * e i) fun i => y i - r.mu

/-- What `run_mcmc` promises about the table of samples of a CAR(1) model: lengths, and for every row the meaning of the stored values; or the
chain never left a starting value of infinite or undefined log-posterior. -/
structure Table1Ok {n : ℕ} (t y e : Fin n → ℝ) (N : ℕ) (T : Py.Table1) : Prop where
  length : T.trace.length = N ∧ T.rows.length = N ∧ T.logpost.length = N ∧ T.loglik.length = N
  row : ∀ k < N, ∃ θ r, T.trace[k]? = some θ ∧ T.rows[k]? = some r ∧ θ.length = 4 ∧ r.var = at0 θ 0 ^ 2 ∧ r.scale = at0 θ 1 ∧
    r.mu = at0 θ 2 ∧ r.logOmega = at0 θ 3
  value : (∀ k < N, ∃ θ r L, T.trace[k]? = some θ ∧ T.rows[k]? = some r ∧ Describes1 t y e r L ∧ T.loglik[k]? = some (.fin L) ∧
      T.logpost[k]? = some (.fin (L + (-25 / r.scale - 26 * Real.log r.scale))) ∧
      ∀ dmin span, IsMinGap t dmin → IsSpan t span → Car1Bounds (10 * √(popVariance y)) (1 / dmin) (1 / span) θ) ∨
    ∃ θ l, ¬ Dbl.isFin l ∧ ∀ k < N, T.trace[k]? = some θ ∧ T.logpost[k]? = some l

theorem car1Sample_run {srt : List ℝ → List ℕ} {n : ℕ} (hn : 2 ≤ n) {t : Fin n → ℝ} (ht : StrictMono t) (y e : Fin n → ℝ)
    {fuel N burnin thin : ℕ} (hN : 1 ≤ N) {init : List ℝ} {r : Rng} {c : Par Car1}
    (h : runCar1Sampler fuel srt N burnin (List.ofFn t) (List.ofFn y) (List.ofFn e) thin init r = .ok c) :
    ∃ T, Py.car1Sample c = .ok T ∧ Table1Ok t y e N T := by
  obtain ⟨-, -, dmin, span, -, -, -, -, g1, g2, -⟩ := run_solid1 srt hn ht y e (10 * √(popVariance y))
  obtain ⟨k1, k2, k3⟩ := C47_car1 srt hn ht y e h g1 g2
  have hlen := car1_run_len h
  have hne : c.samples ≠ [] := fun h0 => by rw [h0] at k1; simp at k1; omega
  set f : List ℝ → Py.Row1 := fun θ => ⟨at0 θ 0 ^ 2, at0 θ 1, at0 θ 2, at0 θ 3, √(2 * at0 θ 0 ^ 2 * Real.exp (at0 θ 3))⟩ with hf
  set g : Dbl × List ℝ → Dbl := fun x => if h : x.2.length = 4 then (sampLoglik1_total h x.1).choose else .nan with hg
  have hm1 : c.samples.mapM Py.mkRow1 = .ok (c.samples.map f) := mapM_total fun θ hθ => mkRow1_eq (hlen θ hθ)
  have hm2 : ((c.logposts.zip c.samples).mapM fun x => Py.sampLoglik1 x.1 x.2) = .ok ((c.logposts.zip c.samples).map g) :=
    mapM_total fun x hx => by
      have hl := hlen x.2 (List.of_mem_zip hx).2
      rw [hg]; simp only [dif_pos hl]
      exact (sampLoglik1_total hl x.1).choose_spec
  refine ⟨⟨c.samples, c.logposts, c.samples.map f, (c.logposts.zip c.samples).map g⟩, ?_, ⟨⟨k1, by simp [k1], k2, by simp [k1, k2]⟩,
    fun k hk => ?_, ?_⟩⟩
  · unfold Py.car1Sample
    simp only [Py.getSamples, if_neg hne, columns_eq hne hlen, res_bind_ok, hm1, hm2,
      if_neg (show ¬ c.samples.length < c.logposts.length by omega)]
    rfl
  · have hk' : k < c.samples.length := by omega
    exact ⟨c.samples[k], f c.samples[k], List.getElem?_eq_getElem hk', by simp [hk'], hlen _ (List.getElem_mem hk'), rfl, rfl, rfl, rfl⟩
  · rcases k3 with k3 | k3
    · left
      intro k hk
      obtain ⟨θ, x, a1, a2, a3, a4, a5⟩ := k3 k hk
      have hpos : 0 < at0 θ 1 := by have := a4.err_lo; linarith
      have h0 : 0 ≤ 2 * at0 θ 0 ^ 2 * Real.exp (at0 θ 3) := by positivity
      have hacf : car1Acf ((f θ).sigma ^ 2) (Real.exp (f θ).logOmega) = fun d => at0 θ 0 ^ 2 * Real.exp (-Real.exp (at0 θ 3) * d) := by
        funext d
        have he := (Real.exp_pos (at0 θ 3)).ne'
        simp only [hf, car1Acf, Real.sq_sqrt h0]
        field_simp
      refine ⟨θ, f θ, logGauss (obsCov (car1Acf ((f θ).sigma ^ 2) (Real.exp (f θ).logOmega)) t fun i => √(f θ).scale * e i)
        (fun i => y i - (f θ).mu), a1, by simp [a1], ⟨Real.sqrt_nonneg _, ?_, rfl⟩, ?_, ?_, fun dmin' span' d1 d2 => ?_⟩
      · rw [hacf]; simp [hf]
      · have hz : (c.logposts.zip c.samples)[k]? = some (.fin x, θ) := by
          rw [List.getElem?_zip_eq_some]; exact ⟨a2, a1⟩
        show ((c.logposts.zip c.samples).map g)[k]? = _
        rw [List.getElem?_map, hz, hg]
        simp only [Option.map_some, dif_pos a3]
        have h1 := (sampLoglik1_total a3 (.fin x)).choose_spec
        have h2 := sampLoglik1_fin a3 hpos (logGauss (obsCov (fun d => at0 θ 0 ^ 2 * Real.exp (-Real.exp (at0 θ 3) * d)) t
          fun i => √(at0 θ 1) * e i) fun i => y i - at0 θ 2)
        rw [← a5] at h2
        have h3 := h1.symm.trans h2
        injection h3 with h3
        rw [h3, hacf]
      · show c.logposts[k]? = _
        rw [a2, hacf, a5]
        rfl
      · obtain rfl := d1.unique g1
        obtain rfl := d2.unique g2
        exact a4
    · exact Or.inr k3

/-- **C58, CAR(1).** With `p = 1` (any `q`, which is ignored), data with at least two different times in any order and with repetitions: if
`run_mcmc` returns, the table has `nsamples` rows; each row describes an Ornstein-Uhlenbeck process with variance `var`; `loglik` is the
Gaussian log-likelihood of the kept observations under it and `logpost` adds the log-prior of the error scale — or no proposal was ever
accepted from a starting value whose log-posterior is not a number. -/
theorem C58_car1 {srt : List ℝ → List ℕ} (hs : IsSortIndex srt) (srt' : List ℝ → List ℕ) (data : List (ℝ × ℝ × ℝ))
    (h2 : ∃ d1 ∈ data, ∃ d2 ∈ data, d1.1 ≠ d2.1) {q fuel N thin : ℕ} {nburnin ntemp : Option ℕ}
    {init : Option (List ℝ)} {r : Rng} {F : Py.Fit}
    (h : Py.fit fuel srt srt' (data.map fun d => d.1) (data.map fun d => d.2.1) (data.map fun d => d.2.2) 1 q N nburnin ntemp thin init r =
      .ok F) :
    ∃ (n : ℕ) (t y e : Fin n → ℝ) (T : Py.Table1), 2 ≤ n ∧ Kept data t y e ∧ F = .car1 T ∧ 1 ≤ N ∧ Table1Ok t y e N T := by
  obtain ⟨n, t, y, e, k1, k2, k3, k4, k5⟩ := carmaModel_fn hs data h2
  simp only [Py.fit, k3, res_bind_ok, Py.runMcmc, if_true] at h
  obtain ⟨c, hc, h⟩ := bind_ok_inv h
  have hN : 1 ≤ N := by
    by_contra h0
    obtain ⟨-, -, -, -, -, -, g4, -⟩ := C30_car1 hc
    have : c.samples = [] := List.eq_nil_of_length_eq_zero (by omega)
    simp [Py.car1Sample, Py.getSamples, this, Bind.bind, Except.bind] at h
  obtain ⟨T, hT, hok⟩ := car1Sample_run k1 k2 y e hN hc
  rw [hT] at h
  injection h with h
  exact ⟨n, t, y, e, T, k1, ⟨k2, k4, k5⟩, h.symm, hN, hok⟩

/-- **C58, CAR(1), no failure.** If the kept values are not all equal, `nsamples ≥ 1`, and the draws are in range without a proposal made of
zeros, `run_mcmc` returns; with `nsamples = 0` the behaviour is undefined (`getSamples` reads the first of no samples). -/
theorem C58_car1_returns {srt : List ℝ → List ℕ} (hs : IsSortIndex srt) (srt' : List ℝ → List ℕ) (data : List (ℝ × ℝ × ℝ))
    (h2 : ∃ d1 ∈ data, ∃ d2 ∈ data, d1.1 ≠ d2.1) (q fuel N thin : ℕ) (nburnin ntemp : Option ℕ) (init : Option (List ℝ)) {r : Rng}
    (hr : r.Ok) (hb : Blocks 4 r.stud) :
    ∃ (n : ℕ) (t y e : Fin n → ℝ), Kept data t y e ∧ ((∃ i j, y i ≠ y j) →
      (1 ≤ N → ∃ T, Py.fit fuel srt srt' (data.map fun d => d.1) (data.map fun d => d.2.1) (data.map fun d => d.2.2) 1 q N nburnin ntemp thin
        init r = .ok (.car1 T)) ∧
      (N = 0 → Py.fit fuel srt srt' (data.map fun d => d.1) (data.map fun d => d.2.1) (data.map fun d => d.2.2) 1 q N nburnin ntemp thin
        init r = .error .ub)) := by
  obtain ⟨n, t, y, e, k1, k2, k3, k4, k5⟩ := carmaModel_fn hs data h2
  refine ⟨n, t, y, e, ⟨k2, k4, k5⟩, fun hy => ?_⟩
  simp only [Py.fit, k3, res_bind_ok, Py.runMcmc, if_true]
  obtain ⟨c, h⟩ := C46_car1_run_returns_any_init srt' k1 k2 y e hy fuel N (nburnin.getD (N / 2)) thin (init.getD []) hr hb
  rw [h, res_bind_ok]
  refine ⟨fun hN => ?_, fun hN => ?_⟩
  · obtain ⟨T, hT, -⟩ := car1Sample_run k1 k2 y e hN h
    rw [hT]; exact ⟨T, rfl⟩
  · obtain ⟨-, -, -, -, -, -, g4, -⟩ := C30_car1 h
    have : c.samples = [] := List.eq_nil_of_length_eq_zero (by omega)
    simp [Py.car1Sample, Py.getSamples, this, Bind.bind, Except.bind]

/-! ### examples -/

/-- Data out of order with a repeated time: three times, four entries. -/
def exData : List (ℝ × ℝ × ℝ) := [(10, 2, 0.1), (0, 0, 0.2), (1, 1, 0.3), (0, 5, 0.4)]

theorem exData_two : ∃ d1 ∈ exData, ∃ d2 ∈ exData, d1.1 ≠ d2.1 :=
  ⟨(10, 2, 0.1), by simp [exData], (0, 0, 0.2), by simp [exData], by norm_num⟩

/-- Whichever of the repeated entries is kept, the kept values are not all equal. -/
theorem exData_vary {n : ℕ} {t y e : Fin n → ℝ} (h : Kept exData t y e) : ∃ i j, y i ≠ y j := by
  obtain ⟨i, hi⟩ := h.all (10, 2, 0.1) (by simp [exData])
  obtain ⟨j, hj⟩ := h.all (1, 1, 0.3) (by simp [exData])
  have h1 := h.mem i
  have h2 := h.mem j
  rw [hi] at h1
  rw [hj] at h2
  simp [exData] at h1 h2
  refine ⟨i, j, ?_⟩
  rw [h1.1, h2.1]; norm_num

/-- The hypotheses of the CAR(1) theorems hold for these data and a run of five samples returns. -/
example (srt srt' : List ℝ → List ℕ) (hs : IsSortIndex srt) (q fuel : ℕ) : ∃ T,
    Py.fit fuel srt srt' (exData.map fun d => d.1) (exData.map fun d => d.2.1) (exData.map fun d => d.2.2) 1 q 5 none none 1 none fairRng =
      .ok (.car1 T) := by
  obtain ⟨n, t, y, e, h1, h2⟩ := C58_car1_returns hs srt' exData exData_two q fuel 5 1 none none none (r := fairRng) fairRng_ok
    (fun k => ⟨0, by simp, by simp [fairRng]⟩)
  exact (h2 (exData_vary h1)).1 (by norm_num)

/-- The CARMA outcome theorem applies to them, with all optional arguments left out. -/
example (srt srt' : List ℝ → List ℕ) (hs : IsSortIndex srt) (fuel : ℕ) :
    (∃ T, Py.fit fuel srt srt' (exData.map fun d => d.1) (exData.map fun d => d.2.1) (exData.map fun d => d.2.2) 3 1 5 none none 1 none fairRng =
      .ok (.carma T)) ∨
    Py.fit fuel srt srt' (exData.map fun d => d.1) (exData.map fun d => d.2.1) (exData.map fun d => d.2.2) 3 1 5 none none 1 none fairRng =
      .error .timeout := by
  obtain ⟨n, t, y, e, h1, h2⟩ := C58_carma_outcome hs srt' exData exData_two (p := 3) (q := 1) (by norm_num) (by norm_num) fuel (N := 5)
    (by norm_num) 1 none (ntemp := none) (by simp) none (r := fairRng) fairRng_ok fairRng_inj (fun k => ⟨0, by simp, by simp [fairRng]⟩)
  exact h2 (exData_vary h1) (Or.inr le_rfl)

/-- A CAR(2) run on unsorted data that returns, with a given starting value. -/
theorem exFit_returns (srt srt' : List ℝ → List ℕ) (hs : IsSortIndex srt) (fuel : ℕ) : ∃ F,
    Py.fit fuel srt srt' ([((10 : ℝ), (2 : ℝ), (10 : ℝ)), (0, 0, 0), (1, 1, 1)].map fun d => d.1)
      ([((10 : ℝ), (2 : ℝ), (10 : ℝ)), (0, 0, 0), (1, 1, 1)].map fun d => d.2.1)
      ([((10 : ℝ), (2 : ℝ), (10 : ℝ)), (0, 0, 0), (1, 1, 1)].map fun d => d.2.2) 2 0 5 (some 7) (some 2) 3 (some exθ) exRng = .ok F := by
  obtain ⟨kept, k1, -, k3, -, k5⟩ := carmaModel_spec hs [((10 : ℝ), (2 : ℝ), (10 : ℝ)), (0, 0, 0), (1, 1, 1)]
  have hk : kept = [(0, 0, 0), (1, 1, 1), (10, 2, 10)] := by
    refine List.Perm.eq_of_pairwise (le := fun a b => a.1 < b.1) (fun a b _ _ h1 h2 => absurd (h1.trans h2) (lt_irrefl _)) k3 (by simp)
      ((k5 (by simp)).trans ?_)
    exact (List.perm_append_comm (l₁ := [((10 : ℝ), (2 : ℝ), (10 : ℝ))]) (l₂ := [(0, 0, 0), (1, 1, 1)]))
  subst hk
  obtain ⟨c, hc⟩ := ex_carma_run srt' fuel 5 7 3
  have e1 : List.ofFn exT = [0, 1, 10] := by simp [exT, List.ofFn_succ]
  have e2 : List.ofFn exY = [0, 1, 2] := by simp [exY, List.ofFn_succ]
  obtain ⟨T, hT, -⟩ := carmaSample_run (by norm_num) exT_mono exY exT (le_refl 2) (by norm_num) (by norm_num) hc
  rw [e1, e2] at hc
  simp only [List.map_cons, List.map_nil] at k1
  simp only [Py.fit, k1, res_bind_ok, Py.runMcmc, if_neg (show ¬ 2 = 1 by norm_num), List.map_cons, List.map_nil, Option.getD_some, hc, hT]
  exact ⟨_, rfl⟩

/-- The hypotheses of `C58_carma` and `C58_loglik_is_logpost` hold for it. -/
example (srt : List ℝ → List ℕ) (hs : IsSortIndex srt) : ∃ (n : ℕ) (t y e : Fin n → ℝ) (T : Py.Table), TableOk t y e 2 0 5 T ∧ T.loglik = T.logpost := by
  obtain ⟨F, hF⟩ := exFit_returns srt srt hs 0
  have h2 : ∃ d1 ∈ [((10 : ℝ), (2 : ℝ), (10 : ℝ)), (0, 0, 0), (1, 1, 1)], ∃ d2 ∈ [((10 : ℝ), (2 : ℝ), (10 : ℝ)), (0, 0, 0), (1, 1, 1)],
    d1.1 ≠ d2.1 := ⟨(10, 2, 10), by simp, (0, 0, 0), by simp, by norm_num⟩
  obtain ⟨n, t, y, e, T, -, -, rfl, -, h⟩ := C58_carma hs srt _ h2 le_rfl (by norm_num) hF
  exact ⟨n, t, y, e, T, h, C58_loglik_is_logpost hs srt _ h2 le_rfl (by norm_num) hF⟩

/-- Data with exactly two different times. -/
example : ∀ x : ℝ, (∃ d ∈ [((1 : ℝ), (2 : ℝ), (0.1 : ℝ)), (0, 3, 0.1), (1, 7, 0.2)], d.1 = x) ↔ x = 0 ∨ x = 1 := by
  intro x
  simp only [List.mem_cons, List.not_mem_nil, or_false, exists_eq_or_imp, exists_eq_left]
  constructor
  · rintro (h | h | h) <;> simp [← h]
  · rintro (h | h) <;> simp [h]

end Verif.Props
