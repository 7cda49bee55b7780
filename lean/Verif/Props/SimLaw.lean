import Verif.Theory.SimLaw
import Verif.Props.Equi
import Verif.Props.PyKalman
import Verif.Props.PySample

/-! C81: the joint law of simulated values. -/

namespace Verif.Props

open Verif.Model Verif.Spec Verif.Theory

variable {p : ℕ}

/-- values returned by `Simulate(ts)` on a new CAR(1) filter -/
noncomputable def sim1 (srt : List ℝ → List ℕ) (sigsqr omega : ℝ) {n : ℕ} (t y e : Fin n → ℝ) (ts : List ℝ) (zs : ℕ → ℝ) : Res (List ℝ) := do
  let s ← KF1.new srt (List.ofFn t) (List.ofFn y) (List.ofFn e) sigsqr omega
  let r ← Kalman.simulate s ts zs
  return r.2

/-- the same for a CARMA filter -/
noncomputable def simp' (srt : List ℝ → List ℕ) (sigsqr : ℝ) (omega : Fin p → ℂ) (ma : List ℝ) {n : ℕ} (t y e : Fin n → ℝ) (ts : List ℝ)
    (zs : ℕ → ℝ) : Res (List ℝ) := do
  let s ← KFp.new srt (List.ofFn t) (List.ofFn y) (List.ofFn e) sigsqr omega ma
  let r ← Kalman.simulate s ts zs
  return r.2

/-- the same for the numpy filter, which takes error variances -/
noncomputable def simDK (junk : ℕ → ℝ) (sigsqr : ℝ) (omega : Fin p → ℂ) (ma : List ℝ) {n : ℕ} (t y w : Fin n → ℝ) (ts : List ℝ)
    (zs : ℕ → ℝ) : Res (List ℝ) := do
  let s ← Py.DK.new (List.ofFn t) (List.ofFn y) (List.ofFn w) sigsqr omega ma
  let r ← Py.DK.simulate junk s ts zs
  return r.2

lemma sorted_eq {m : ℕ} {x : Fin m → ℝ} (hx : StrictMono x) {ts sorted : List ℝ} (hp : ts.Perm (List.ofFn x)) (h1 : sorted.Perm ts)
    (h2 : sorted.Pairwise (· ≤ ·)) : sorted = List.ofFn x :=
  (h1.trans hp).eq_of_pairwise (fun _ _ _ _ => le_antisymm) h2 (List.pairwise_ofFn.mpr fun _ _ h => (hx h).le)

lemma apart_of_mono {n : ℕ} {t : Fin n → ℝ} (ht : StrictMono t) (e : Fin n → ℝ) : Apart0 t e := fun _ _ _ _ h => ht.injective h

lemma draws_of_eq {n m : ℕ} {R : Type} {ok : List ℝ → R} {S : (Fin n → ℝ) → (ℕ → ℝ) → R} {r : ℝ → ℝ} {t e : Fin n → ℝ} {x : Fin m → ℝ}
    (h : GoodAcf r) (ht : StrictMono t) (hxm : StrictMono x) (hx : ∀ k i, t i = x k → e i ≠ 0)
    (hS : ∀ y zs, S y zs = ok (simSpec r (List.ofFn fun i => ⟨t i, y i, e i⟩) (List.ofFn x) zs)) : DrawsProcess ok S r t e x := by
  obtain ⟨V, h1, h2, h3⟩ := sim_law h hxm.injective (apart_of_mono ht e) hx
  exact ⟨V, h1, fun y zs => by rw [hS]; exact congrArg ok (h2 y zs), h3⟩

lemma mem_perm {m : ℕ} {x : Fin m → ℝ} {ts : List ℝ} (hp : ts.Perm (List.ofFn x)) {n : ℕ} {t e : Fin n → ℝ} (hx : ∀ k i, t i = x k → e i ≠ 0) :
    ∀ u ∈ ts, ∀ i, t i = u → e i ≠ 0 := by
  intro u hu i hi
  obtain ⟨k, rfl⟩ := (List.mem_ofFn' x u).mp (hp.mem_iff.mp hu)
  exact hx k i hi

/-- **C81, CAR(1).** With independent standard normal draws, `Simulate` on a CAR(1) filter, asked for different times in any
order, returns in increasing order of the times a sample of the process from its joint law given the measurements. If the
measurements are themselves a realization of the process with measurement errors, then measurements and simulated values
together have the joint law of the process. -/
theorem C81_car1_simulate (srt : List ℝ → List ℕ) {n : ℕ} (hn : 2 ≤ n) {t : Fin n → ℝ} (ht : StrictMono t) (e : Fin n → ℝ) {sigsqr omega : ℝ}
    (hs : 0 < sigsqr) (ho : 0 < omega) {m : ℕ} {x : Fin m → ℝ} (hxm : StrictMono x) {ts : List ℝ} (hts : ts.Perm (List.ofFn x))
    (hx : ∀ k i, t i = x k → e i ≠ 0) :
    DrawsProcess .ok (fun y zs => sim1 srt sigsqr omega t y e ts zs) (car1Acf sigsqr omega) t e x := by
  refine draws_of_eq (car1_good hs ho) ht hxm hx fun y zs => ?_
  obtain ⟨s, s', sorted, h1, h2, h3, h4⟩ := C22_car1_simulate_exact srt hn ht y e hs ho ts
    (hts.nodup_iff.mpr (List.nodup_ofFn.mpr hxm.injective)) (mem_perm hts hx) zs
  rw [sim1, h1, res_bind_ok, h4, ← sorted_eq hxm hts h2 h3]
  rfl

/-- **C81, CARMA.** The same for a CARMA filter. -/
theorem C81_carma_simulate (srt : List ℝ → List ℕ) {n : ℕ} (hn : 2 ≤ n) {t : Fin n → ℝ} (ht : StrictMono t) (e : Fin n → ℝ) (hp : 2 ≤ p)
    {sigsqr : ℝ} (hs : 0 < sigsqr) {omega : Fin p → ℂ} (ho : Admissible omega) {ma : List ℝ} (hl : ma.length ≤ p) (hne : ∃ x ∈ ma, x ≠ 0)
    {m : ℕ} {x : Fin m → ℝ} (hxm : StrictMono x) {ts : List ℝ} (hts : ts.Perm (List.ofFn x)) (hx : ∀ k i, t i = x k → e i ≠ 0) :
    DrawsProcess .ok (fun y zs => simp' srt sigsqr omega ma t y e ts zs) (carmaAcf sigsqr omega ma) t e x := by
  refine draws_of_eq (carma_good ho hs hl hne) ht hxm hx fun y zs => ?_
  obtain ⟨s, s', sorted, h1, h2, h3, h4⟩ := C22_carma_simulate_exact srt hn ht y e hp hs ho hl hne ts
    (hts.nodup_iff.mpr (List.nodup_ofFn.mpr hxm.injective)) (mem_perm hts hx) zs
  rw [simp', h1, res_bind_ok, h4, ← sorted_eq hxm hts h2 h3]
  rfl

/-- **C81, numpy filter.** The same for the filter written in numpy, for times after the first measurement. -/
theorem C81_numpy_simulate (junk : ℕ → ℝ) {n : ℕ} (hn : 1 ≤ n) {t : Fin n → ℝ} (ht : StrictMono t) {w : Fin n → ℝ} (hw : ∀ i, 0 ≤ w i) (hp : 2 ≤ p)
    {sigsqr : ℝ} (hs : 0 < sigsqr) {omega : Fin p → ℂ} (ho : Admissible omega) {ma : List ℝ} (hl : ma.length ≤ p) (hne : ∃ x ∈ ma, x ≠ 0)
    {m : ℕ} {x : Fin m → ℝ} (hxm : StrictMono x) {ts : List ℝ} (hts : ts.Perm (List.ofFn x)) (h0 : ∀ k, t ⟨0, hn⟩ < x k)
    (hx : ∀ k i, t i = x k → w i ≠ 0) :
    DrawsProcess .ok (fun y zs => simDK junk sigsqr omega ma t y w ts zs) (carmaAcf sigsqr omega ma) t (fun i => √(w i)) x := by
  refine draws_of_eq (carma_good ho hs hl hne) ht hxm (fun k i h => (Real.sqrt_ne_zero (hw i)).mpr (hx k i h)) fun y zs => ?_
  obtain ⟨s, sorted, h2, h3, h4, -⟩ := C59_numpy_simulate_exact junk hn ht y hw hp hs ho hl hne
    (hts.nodup_iff.mpr (List.nodup_ofFn.mpr hxm.injective)) (by
      intro u hu
      obtain ⟨k, rfl⟩ := (List.mem_ofFn' x u).mp (hts.mem_iff.mp hu)
      exact h0 k) (mem_perm hts hx) zs
  obtain ⟨s0, g1, g2⟩ := bind_ok_inv h4
  rw [simDK, g1, res_bind_ok, g2, ← sorted_eq hxm hts h2 h3]
  rfl

/-- **C55, joint law of simulated values.** `simulate` with the best sample `θ` of a CARMA sampler: the values are the mean of `θ` plus a sample
from the joint law, given the measurements minus that mean, of the process described by `θ`. (`_partial`: with the errors as supplied instead of
scaled by the error scale of `θ`, see `C55_negation`.) -/
theorem C55_simulate_law_partial (srt : List ℝ → List ℕ) {n : ℕ} (hn : 2 ≤ n) {t : Fin n → ℝ} (ht : StrictMono t) (e : Fin n → ℝ) (hp : 2 ≤ p)
    {q : ℕ} (hq : q < p) {logpost : List Dbl} {rows : List (List ℝ)} {i : ℕ} (hi : FirstMax logpost i) {θ : List ℝ} (hrow : rows[i]? = some θ)
    (hθ : θ.length = 3 + p + q) (h0 : at0 θ 0 ≠ 0) {roots : List ℂ} (hr : arRoots p θ = .ok roots) (hnd : roots.Nodup)
    {m : ℕ} {x : Fin m → ℝ} (hxm : StrictMono x) {ts : List ℝ} (hts : ts.Perm (List.ofFn x)) (hx : ∀ k i, t i = x k → e i ≠ 0) :
    ∃ (ω : Fin p → ℂ) (ma : List ℝ), List.ofFn ω = roots ∧ Admissible ω ∧
      (∀ z, maEval ma z = ((factorPoly (at0 θ) (3 + p) q).map Complex.ofRealHom).eval z / (factorPoly (at0 θ) (3 + p) q).coeff 0) ∧
      DrawsProcess (fun l => .ok (l.map fun v => v + at0 θ 2)) (fun y zs => Py.simulate (Py.mapFilter (p := p) srt (List.ofFn t)
          (List.ofFn fun i => y i + at0 θ 2) (List.ofFn e) q logpost rows) ts zs)
        (fun d => at0 θ 0 ^ 2 * (carmaAcf 1 ω ma d / carmaAcf 1 ω ma 0)) t e x := by
  have hnd' := hts.nodup_iff.mpr (List.nodup_ofFn.mpr hxm.injective)
  obtain ⟨ma, h1, h2, h3, h4, -⟩ := mapFilter_spec srt (fun i : Fin n => t i) (List.ofFn t) (List.ofFn e) (by omega) hq hi hrow hθ hr hnd
  obtain ⟨roots', hr', hg⟩ := rootsFrom_spec θ 3 p (by omega)
  cases hr.symm.trans hr'
  have hpos : 0 < carmaAcf 1 (vecOf p roots) ma 0 := carmaAcf_pos h3 one_pos h1 h2
  have hs : 0 < at0 θ 0 ^ 2 / carmaAcf 1 (vecOf p roots) ma 0 := by positivity
  have eR : carmaAcf (at0 θ 0 ^ 2 / carmaAcf 1 (vecOf p roots) ma 0) (vecOf p roots) ma =
      fun d => at0 θ 0 ^ 2 * (carmaAcf 1 (vecOf p roots) ma d / carmaAcf 1 (vecOf p roots) ma 0) := by
    funext d; rw [carmaAcf_scale]; ring
  refine ⟨vecOf p roots, ma, ofFn_vecOf hg.length, h3, h4, draws_of_eq (eR ▸ carma_good h3 hs h1 h2) ht hxm hx fun y zs => ?_⟩
  obtain ⟨ω', ma', sorted, g1, -, g3, g4, g5, g6⟩ := C55_carma_simulate_partial srt hn ht (fun i => y i + at0 θ 2) e hp hq hi hrow hθ h0 hr hnd
    ts hnd' (mem_perm hts hx) zs
  have hω : ω' = vecOf p roots := List.ofFn_injective (g1.trans (ofFn_vecOf hg.length).symm)
  subst hω
  have hacf : carmaAcf 1 (vecOf p roots) ma' = carmaAcf 1 (vecOf p roots) ma := by
    funext d
    have : impulse (vecOf p roots) ma' = impulse (vecOf p roots) ma := by
      funext s
      simp only [impulse, g3, h4]
    rw [carmaAcf, carmaAcf, this]
  simp only [add_sub_cancel_right, hacf] at g6
  rw [← sorted_eq hxm hts g4 g5]
  exact g6

/-- two request times in decreasing order, one of them a measured time -/
example (srt : List ℝ → List ℕ) : DrawsProcess .ok (fun y zs => sim1 srt 2 3 exT y (fun _ => 1) [5, 1] zs) (car1Acf 2 3) exT (fun _ => 1) ![1, 5] :=
  C81_car1_simulate srt (by norm_num) exT_mono _ two_pos three_pos (Fin.strictMono_iff_lt_succ.mpr fun i => by fin_cases i; simp)
    (by simpa [List.ofFn_succ] using List.Perm.swap (1 : ℝ) 5 []) fun _ _ _ => one_ne_zero

example (srt : List ℝ → List ℕ) : DrawsProcess .ok
    (fun y zs => simp' srt 2 ![(-2 : ℂ), -1 + Complex.I, -1 - Complex.I] [1, 0.5] exT y (fun _ => 1) [5, 1] zs)
    (carmaAcf 2 ![(-2 : ℂ), -1 + Complex.I, -1 - Complex.I] [1, 0.5]) exT (fun _ => 1) ![1, 5] :=
  C81_carma_simulate srt (by norm_num) exT_mono _ (by norm_num) two_pos ex_admissible3 (by simp) ⟨1, by simp, one_ne_zero⟩
    (Fin.strictMono_iff_lt_succ.mpr fun i => by fin_cases i; simp)
    (by simpa [List.ofFn_succ] using List.Perm.swap (1 : ℝ) 5 []) fun _ _ _ => one_ne_zero

example (junk : ℕ → ℝ) : DrawsProcess .ok
    (fun y zs => simDK junk 2 ![(-2 : ℂ), -1 + Complex.I, -1 - Complex.I] [1, 0.5] exT y (fun _ => 1) [5, 1] zs)
    (carmaAcf 2 ![(-2 : ℂ), -1 + Complex.I, -1 - Complex.I] [1, 0.5]) exT (fun _ => √1) ![1, 5] :=
  C81_numpy_simulate junk (by norm_num) exT_mono (fun _ => zero_le_one) (by norm_num) two_pos ex_admissible3 (by simp) ⟨1, by simp, one_ne_zero⟩
    (Fin.strictMono_iff_lt_succ.mpr fun i => by fin_cases i; simp)
    (by simpa [List.ofFn_succ] using List.Perm.swap (1 : ℝ) 5 []) (by intro k; fin_cases k <;> simp [exT]) fun _ _ _ => one_ne_zero

/-- the other hypotheses of `C55_simulate_law_partial` are met by the example after `C55_carma_simulate_partial` -/
example : StrictMono ![(1 : ℝ), 5] ∧ [(5 : ℝ), 1].Perm (List.ofFn ![(1 : ℝ), 5]) :=
  ⟨Fin.strictMono_iff_lt_succ.mpr fun i => by fin_cases i; simp, by simpa [List.ofFn_succ] using List.Perm.swap (1 : ℝ) 5 []⟩

end Verif.Props
