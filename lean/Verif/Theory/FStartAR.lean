import Verif.Theory.FStartPass

/-!
`CARp::StartingAR` in double precision.
-/

namespace Verif.Theory

open Verif.Model Verif.Spec
open scoped Classical

variable {A : Arith} {p : ℕ}

theorem gap_rng {ts : List ℝ} (hm : MildTimes ts) {g : ℝ} (hg : SmallestGap ts g) : 2 ^ (-300 : ℤ) ≤ g ∧ g ≤ 2 ^ (300 : ℤ) ∧ (3 ≤ ts.length → 2 * g ≤ spanOf ts) := by
  obtain ⟨s1, s2, s3⟩ := span_num hm
  obtain ⟨i, hi, e⟩ := hg.mem
  refine ⟨by rw [← e]; linarith [hm.gap i hi], by rw [← e]; exact (s3 i hi).trans s2, fun h3 => ?_⟩
  have h0 := hg.le 0 (by omega)
  have h1 := hg.le 1 (by omega)
  have := times_mono hm (ts.length - 1 - 2) 2 (by omega)
  rw [show 2 + (ts.length - 1 - 2) = ts.length - 1 by omega] at this
  unfold spanOf
  simp only [Nat.zero_add, Nat.reduceAdd] at h0 h1
  linarith

theorem exists_gap {ts : List ℝ} (hm : MildTimes ts) : ∃ g, SmallestGap ts g := by
  have h2 := hm.two
  obtain ⟨i, hi, h⟩ := Finset.exists_min_image (Finset.range (ts.length - 1)) (fun i => ts.getD (i + 1) 0 - ts.getD i 0) ⟨0, by simp; omega⟩
  simp only [Finset.mem_range] at hi h
  exact ⟨_, ⟨i, by omega, rfl⟩, fun j hj => h j (by omega)⟩

/-- the loop as used: centroids and widths are frequencies computed from draws -/
theorem terms_of (hA : IsBinary64 A) (hacc : Accurate A) {T g lr lm : ℝ} (T1 : |Real.log T| ≤ 208) (g1 : |Real.log g| ≤ 208)
    (fr : ∀ x, 0 ≤ x → x ≤ 1 → 0 < frOf A lr lm x ∧ |Real.log (frOf A lr lm x) - zOf T g x| ≤ 1280 * uu) {cent width : List Dbl} {n : ℕ} {u w : List ℝ}
    (lu : n ≤ u.length) (lw : n ≤ w.length) (u01 : ∀ x ∈ u, 0 ≤ x ∧ x ≤ 1) (w01 : ∀ x ∈ w, 0 ≤ x ∧ x ≤ 1)
    (hc : ∀ i < n, rd cent i = .ok (.fin (frOf A lr lm (u.getD i 0)))) (hw : ∀ i < n, rd width i = .ok (.fin (frOf A lr lm (w.getD i 0)))) :
    ∃ l : List ℝ, FCarP.logaTerms A cent width n = .ok (l.map .fin) ∧ l.length = 2 * n ∧ (∀ x ∈ l, F64 x) ∧ ∀ i < n,
      |l.getD (2 * i) 0 - Real.log ((2 * Real.pi * Real.exp (zOf T g (w.getD i 0))) ^ 2 + (2 * Real.pi * Real.exp (zOf T g (u.getD i 0))) ^ 2)| ≤ 2 ^ (-40 : ℤ) ∧
      |l.getD (2 * i + 1) 0 - Real.log (4 * Real.pi * Real.exp (zOf T g (w.getD i 0)))| ≤ 2 ^ (-40 : ℤ) := by
  refine terms_num hA hacc (W := fun i => zOf T g (w.getD i 0)) (K := fun i => zOf T g (u.getD i 0)) (fun i hi => ?_) n le_rfl
  obtain ⟨a1, a2⟩ := u01 _ (getD_mem (i := i) (by omega))
  obtain ⟨b1, b2⟩ := w01 _ (getD_mem (i := i) (by omega))
  obtain ⟨p1, p2⟩ := fr _ a1 a2
  obtain ⟨q1, q2⟩ := fr _ b1 b2
  exact ⟨_, _, hw i hi, hc i hi, q1, p1, q2, p2, zOf_rng T1 g1 b1 b2, zOf_rng T1 g1 a1 a2⟩

theorem order_num {T g lr lm : ℝ} (fr : ∀ x, 0 ≤ x → x ≤ 1 → 0 < frOf A lr lm x ∧ |Real.log (frOf A lr lm x) - zOf T g x| ≤ 1280 * uu) {u : List ℝ}
    (u01 : ∀ x ∈ u, 0 ≤ x ∧ x ≤ 1) (hs : u.Pairwise fun a b => frOf A lr lm b ≤ frOf A lr lm a) {i j : ℕ} (hij : i < j) (hj : j < u.length) :
    Real.exp (zOf T g (u.getD j 0)) ≤ (1 + 2 ^ (-40 : ℤ)) * Real.exp (zOf T g (u.getD i 0)) := by
  have us := uu_small
  have u0 := uu_pos
  have hu : (2 : ℝ) ^ (-40 : ℤ) = 4096 * uu := by unfold uu; norm_num
  obtain ⟨a1, a2⟩ := u01 _ (getD_mem (i := i) (by omega))
  obtain ⟨b1, b2⟩ := u01 _ (getD_mem (i := j) (by omega))
  obtain ⟨p1, p2⟩ := fr _ a1 a2
  obtain ⟨q1, q2⟩ := fr _ b1 b2
  have h := List.pairwise_iff_getElem.mp hs i j (by omega) hj hij
  rw [← List.getD_eq_getElem u 0 hj, ← List.getD_eq_getElem u 0 (by omega : i < u.length)] at h
  have hl := Real.log_le_log q1 h
  obtain ⟨c1, c2⟩ := abs_le.mp p2
  obtain ⟨d1, d2⟩ := abs_le.mp q2
  have h1 : zOf T g (u.getD j 0) ≤ 2560 * uu + zOf T g (u.getD i 0) := by linarith
  refine (Real.exp_le_exp.mpr h1).trans ?_
  rw [Real.exp_add, hu]
  refine mul_le_mul_of_nonneg_right ?_ (Real.exp_pos _).le
  have := (abs_le.mp (Real.abs_exp_sub_one_sub_id_le (x := 2560 * uu) (by rw [abs_le]; constructor <;> linarith))).2
  nlinarith

theorem startAR_num (hA : IsBinary64 A) (hacc : Accurate A) (hE : ExpFinite A) {ts : List ℝ} (hm : MildTimes ts) {g : ℝ} (hg : SmallestGap ts g) {s : FCarP p}
    (ht : s.time = ts.map .fin) (hmax : s.maxFreq = A.div (.fin 1) (A.rnd g)) (hp : 2 ≤ p) (h3 : p % 2 = 1 → 3 ≤ ts.length) {d : PassDraws} {u w : List ℝ}
    (hc : d.cent = u.map .fin) (hw : d.width = w.map .fin) (lu : u.length = (p + 1) / 2) (lw : w.length = (p + 1) / 2) (u01 : ∀ x ∈ u, 0 ≤ x ∧ x ≤ 1)
    (u0 : p % 2 = 1 → ∀ x ∈ u, 2 ^ (-40 : ℤ) ≤ x) (w01 : ∀ x ∈ w, 0 ≤ x ∧ x ≤ 1)
    (hlow : ∀ a b, F64 a → F64 b → a < b → ∃ r, d.low (.fin a) (.fin b) = .fin r ∧ F64 r ∧ a ≤ r ∧ r ≤ b) :
    ∃ u' l : List ℝ, s.startAR A d = .ok (l.map .fin) ∧ (∀ x ∈ l, F64 x) ∧ ArDrawn ts g p u w u' l := by
  obtain ⟨g1, g2, hTg⟩ := gap_rng hm hg
  obtain ⟨s1, s2, -⟩ := span_num hm
  change 2 ^ (-300 : ℤ) ≤ spanOf ts at s1
  change spanOf ts ≤ 2 ^ (300 : ℤ) at s2
  have g0 : 0 < g := lt_of_lt_of_le (by positivity) g1
  have T0 : 0 < spanOf ts := lt_of_lt_of_le (by positivity) s1
  have lg := log_rng g1 g2
  have lT := log_rng s1 s2
  obtain ⟨dg, edg, -⟩ := rnd_log hA g0 (lg.trans (by norm_num))
  obtain ⟨dT, edT, -⟩ := rnd_log hA T0 (lT.trans (by norm_num))
  obtain ⟨M, eM, -, M0, hM⟩ := inv_num hA g1 g2 edg
  obtain ⟨m, em, Fm, m0, hmn⟩ := inv_num hA s1 s2 edT
  obtain ⟨lr, lm, elr, elm, Flm, hlr, hlm⟩ := logs_num hA hacc lT lg M0 m0 Fm hM hmn
  obtain ⟨tmax, tmin⟩ := time_ends hm
  have fx : ∀ x, 0 ≤ x → x ≤ 1 → A.exp (A.add (A.mul (.fin lr) (.fin x)) (.fin lm)) = .fin (frOf A lr lm x) ∧ F64 (frOf A lr lm x) ∧ 0 < frOf A lr lm x ∧
      |Real.log (frOf A lr lm x) - zOf (spanOf ts) g x| ≤ 1280 * uu := by
    intro x h0 h1
    obtain ⟨y, e, F, y0, hy⟩ := freq_num hA hacc hE lT lg hlr hlm h0 h1
    have : frOf A lr lm x = y := by unfold frOf; rw [e]; rfl
    rw [this]
    exact ⟨e, F, y0, hy⟩
  have fr : ∀ x, 0 ≤ x → x ≤ 1 → 0 < frOf A lr lm x ∧ |Real.log (frOf A lr lm x) - zOf (spanOf ts) g x| ≤ 1280 * uu := fun x a b => (fx x a b).2.2
  obtain ⟨f, hf⟩ : ∃ f, f = frOf A lr lm := ⟨_, rfl⟩
  obtain ⟨u', hu'⟩ : ∃ u', u' = u.mergeSort fun a b => decide (f b ≤ f a) := ⟨_, rfl⟩
  have perm : u'.Perm u := by rw [hu']; exact List.mergeSort_perm _ _
  have lu' : u'.length = (p + 1) / 2 := by rw [perm.length_eq, lu]
  have u01' : ∀ x ∈ u', 0 ≤ x ∧ x ≤ 1 := fun x hx => u01 x (perm.mem_iff.mp hx)
  have hpair : u'.Pairwise fun a b => f b ≤ f a := by rw [hu']; exact sort_pair f u
  have ecent : FCarP.freqs A (.fin lr) (.fin lm) d.cent = (u.map f).map .fin := by
    rw [hc, hf]; exact freqs_num fun x hx => ⟨_, (fx x (u01 x hx).1 (u01 x hx).2).1⟩
  have ewid : FCarP.freqs A (.fin lr) (.fin lm) d.width = (w.map f).map .fin := by
    rw [hw, hf]; exact freqs_num fun x hx => ⟨_, (fx x (w01 x hx).1 (w01 x hx).2).1⟩
  have esort : ((u.map f).map Dbl.fin).mergeSort (fun a b => decide ¬ a.lt b) = (u'.map f).map .fin := by rw [hu']; exact sort_num f u
  have eT : A.sub (.fin (ts.getD (ts.length - 1) 0)) (.fin (ts.getD 0 0)) = .fin dT := by rw [fl_sub]; exact edT
  have hM' : s.maxFreq = .fin M := by rw [hmax, edg, eM]
  have edraw : s.lorentzDraws A d = if p % 2 = 1 then (do
      let cent ← wr ((u'.map f).map Dbl.fin) (p / 2) (.fin 0)
      let i ← prevIdx (p / 2)
      let c ← rd cent i
      let hi := A.log c
      if hi.lt (.fin lm) ∨ Dbl.fin lm = .nan ∨ hi = .nan then .error .ub
      let width ← wr ((w.map f).map Dbl.fin) (p / 2) (A.exp (d.low (.fin lm) hi))
      return (cent, width))
    else .ok ((u'.map f).map Dbl.fin, (w.map f).map Dbl.fin) := by
    unfold FCarP.lorentzDraws
    rw [ht, tmax, res_bind_ok, tmin, res_bind_ok]
    simp only
    rw [eT, em, hM', elr, elm, ecent, ewid, esort, if_neg (by simp)]
    rfl
  have order : ∀ i j, i < j → j < u'.length → freqAt ts g (u'.getD j 0) ≤ (1 + 2 ^ (-40 : ℤ)) * freqAt ts g (u'.getD i 0) := by
    intro i j hij hj
    rw [freqAt_exp T0 g0, freqAt_exp T0 g0]
    exact order_num fr u01' (by rw [← hf]; exact hpair) hij hj
  rcases Nat.mod_two_eq_zero_or_one p with hpar | hpar
  · rw [if_neg (by omega)] at edraw
    have hcl : ∀ i < p / 2, rd ((u'.map f).map Dbl.fin) i = .ok (.fin (frOf A lr lm (u'.getD i 0))) := by
      intro i hi
      rw [rd_fin (by rw [List.length_map]; omega), getD_map_lt f (by omega), hf]
    have hwl : ∀ i < p / 2, rd ((w.map f).map Dbl.fin) i = .ok (.fin (frOf A lr lm (w.getD i 0))) := by
      intro i hi
      rw [rd_fin (by rw [List.length_map]; omega), getD_map_lt f (by omega), hf]
    obtain ⟨l, el, hl, hF, hv⟩ := terms_of hA hacc lT lg fr (n := p / 2) (by omega) (by omega) u01' w01 hcl hwl
    refine ⟨u', l, ?_, hF, by omega, perm, order, ?_, ?_, by omega⟩
    · unfold FCarP.startAR
      rw [edraw, res_bind_ok]
      unfold FCarP.logaFrom
      dsimp only
      rw [el, res_bind_ok, if_neg (by omega)]
      rfl
    · intro i hi
      rw [freqAt_exp T0 g0, freqAt_exp T0 g0]
      exact (hv i hi).1
    · intro i hi
      rw [freqAt_exp T0 g0]
      exact (hv i hi).2
  · rw [if_pos hpar] at edraw
    have hp3 : 3 ≤ p := by omega
    have hk : p / 2 - 1 < u'.length := by omega
    obtain ⟨x, hx⟩ : ∃ x, x = u'.getD (p / 2 - 1) 0 := ⟨_, rfl⟩
    have xm : x ∈ u := by rw [hx]; exact perm.mem_iff.mp (getD_mem hk)
    obtain ⟨x0, x1⟩ := u01 x xm
    obtain ⟨-, Fc, c0, hcx⟩ := fx x x0 x1
    obtain ⟨hi, ehi, Fhi, hlt, hlast⟩ := last_num hA hacc hE lT lg (hTg (h3 hpar)) g0 Flm hlm Fc c0 hcx (u0 hpar x xm) x1
    obtain ⟨r, er, Fr, r1, r2⟩ := hlow lm hi Flm Fhi hlt
    obtain ⟨b, eb, y, ey, Fy, y1, y2⟩ := hlast r Fr r1 r2
    have edraw' : s.lorentzDraws A d = .ok (((u'.map f).map Dbl.fin).set (p / 2) (.fin 0), ((w.map f).map Dbl.fin).set (p / 2) (.fin b)) := by
      have w1 : ∀ (l : List Dbl) (v : Dbl), p / 2 < l.length → wr l (p / 2) v = .ok (l.set (p / 2) v) := by
        intro l v h; unfold wr; rw [if_pos h]
      have rc : rd (((u'.map f).map Dbl.fin).set (p / 2) (.fin 0)) (p / 2 - 1) = .ok (.fin (frOf A lr lm x)) := by
        have : rd (((u'.map f).map Dbl.fin).set (p / 2) (.fin 0)) (p / 2 - 1) = rd ((u'.map f).map Dbl.fin) (p / 2 - 1) := by
          unfold rd; rw [List.getElem?_set_ne (by omega)]
        rw [this, rd_fin (by rw [List.length_map]; exact hk), getD_map_lt f hk, ← hx, hf]
      rw [edraw, w1 _ _ (by rw [List.length_map, List.length_map]; omega), res_bind_ok]
      unfold prevIdx
      rw [if_neg (by omega), res_bind_ok, rc, res_bind_ok]
      dsimp only
      rw [ehi, if_neg (by
        rintro (h | h | h)
        · exact absurd (show hi < lm from h) (by linarith)
        · cases h
        · cases h), er, eb, w1 _ _ (by rw [List.length_map, List.length_map]; omega)]
      rfl
    have hcl : ∀ i < p / 2, rd (((u'.map f).map Dbl.fin).set (p / 2) (.fin 0)) i = .ok (.fin (frOf A lr lm (u'.getD i 0))) := by
      intro i hi
      have : rd (((u'.map f).map Dbl.fin).set (p / 2) (.fin 0)) i = rd ((u'.map f).map Dbl.fin) i := by
        unfold rd; rw [List.getElem?_set_ne (by omega)]
      rw [this, rd_fin (by rw [List.length_map]; omega), getD_map_lt f (by omega), hf]
    have hwl : ∀ i < p / 2, rd (((w.map f).map Dbl.fin).set (p / 2) (.fin b)) i = .ok (.fin (frOf A lr lm (w.getD i 0))) := by
      intro i hi
      have : rd (((w.map f).map Dbl.fin).set (p / 2) (.fin b)) i = rd ((w.map f).map Dbl.fin) i := by
        unfold rd; rw [List.getElem?_set_ne (by omega)]
      rw [this, rd_fin (by rw [List.length_map]; omega), getD_map_lt f (by omega), hf]
    obtain ⟨l, el, hl, hF, hv⟩ := terms_of hA hacc lT lg fr (n := p / 2) (by omega) (by omega) u01' w01 hcl hwl
    have hp2 : 2 * (p / 2) + 1 = p := by omega
    refine ⟨u', l ++ [y], ?_, ?_, ?_, perm, order, ?_, ?_, fun _ => ?_⟩
    · unfold FCarP.startAR
      rw [edraw', res_bind_ok]
      unfold FCarP.logaFrom
      dsimp only
      rw [el, res_bind_ok, if_pos hpar]
      have rw' : rd (((w.map f).map Dbl.fin).set (p / 2) (.fin b)) (p / 2) = .ok (.fin b) := by
        refine rd_some ?_
        rw [List.getElem?_set_self (by rw [List.length_map, List.length_map]; omega)]
      rw [rw', res_bind_ok, ey]
      simp [pure, Except.pure]
    · intro z hz
      rw [List.mem_append, List.mem_singleton] at hz
      rcases hz with hz | rfl
      · exact hF z hz
      · exact Fy
    · rw [List.length_append, hl, List.length_singleton]; exact hp2
    · intro i hi
      rw [List.getD_append _ _ _ _ (by omega), freqAt_exp T0 g0, freqAt_exp T0 g0]
      exact (hv i hi).1
    · intro i hi
      rw [List.getD_append _ _ _ _ (by omega), freqAt_exp T0 g0]
      exact (hv i hi).2
    · rw [List.getD_append_right _ _ _ _ (by omega), hl, show p - 1 - 2 * (p / 2) = 0 by omega, freqAt_exp T0 g0, ← hx,
        Real.log_div (by positivity) T0.ne', Real.log_mul (by positivity) (Real.exp_pos _).ne', Real.log_exp]
      exact ⟨y1, y2⟩

end Verif.Theory
