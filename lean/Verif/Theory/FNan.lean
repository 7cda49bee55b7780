import Verif.Theory.FObj

/-!
A zero variance makes the log-density NaN; data without measurement errors have a zero variance as soon as one factor `rho` is
rounded to 1.
-/

namespace Verif.Theory

open Verif.Model Verif.Spec
open scoped Classical

variable {A : Arith}

theorem fl_nan_add (x : Dbl) : A.add .nan x = .nan := by cases x <;> rfl
theorem fl_add_nan (x : Dbl) : A.add x .nan = .nan := by cases x <;> rfl

/-- `0.5 * c * c` is not negative -/
theorem half_sq (hA : IsBinary64 A) (c : Dbl) :
    A.mul (A.mul (.fin 0.5) c) c = .nan ∨ A.mul (A.mul (.fin 0.5) c) c = .pinf ∨ ∃ x, 0 ≤ x ∧ A.mul (A.mul (.fin 0.5) c) c = .fin x := by
  have hp : ∀ x : ℝ, 0 < x → Dbl.infTimes x = .pinf := fun x h => by simp [Dbl.infTimes, h]
  have hn : ∀ x : ℝ, x < 0 → Dbl.infTimes x = .ninf := fun x h => by simp [Dbl.infTimes, h, not_lt.mpr h.le]
  have hz : Dbl.infTimes 0 = .nan := by simp [Dbl.infTimes]
  cases c with
  | nan => exact .inl rfl
  | pinf =>
    right; left
    show A.mul (A.fl (Dbl.infTimes 0.5)) .pinf = _
    rw [hp _ (by norm_num)]; rfl
  | ninf =>
    right; left
    show A.mul (A.fl (Dbl.infTimes (-0.5))) .ninf = _
    rw [hn _ (by norm_num)]; rfl
  | fin x =>
    rw [fl_mul]
    rcases le_total 0 x with hx | hx
    · rcases rnd_nonneg hA (x := 0.5 * x) (by norm_num; linarith) with h | ⟨r, h, -, hr⟩
      · rw [h]
        show A.fl (Dbl.infTimes x) = _ ∨ A.fl (Dbl.infTimes x) = _ ∨ ∃ z, 0 ≤ z ∧ A.fl (Dbl.infTimes x) = _
        rcases eq_or_lt_of_le hx with rfl | hx
        · left; rw [hz]; rfl
        · right; left; rw [hp _ hx]; rfl
      · rw [h, fl_mul]
        rcases rnd_nonneg hA (x := r * x) (by positivity) with h | ⟨z, h, -, hz⟩
        · exact .inr (.inl h)
        · exact .inr (.inr ⟨z, hz, h⟩)
    · rcases rnd_nonpos hA (x := 0.5 * x) (by norm_num; linarith) with h | ⟨r, h, hr⟩
      · rw [h]
        show A.fl (Dbl.infTimes (-x)) = _ ∨ A.fl (Dbl.infTimes (-x)) = _ ∨ ∃ z, 0 ≤ z ∧ A.fl (Dbl.infTimes (-x)) = _
        rcases eq_or_lt_of_le hx with rfl | hx
        · left; rw [neg_zero, hz]; rfl
        · right; left; rw [hp _ (by linarith)]; rfl
      · rw [h, fl_mul]
        rcases rnd_nonneg hA (x := r * x) (mul_nonneg_of_nonpos_of_nonpos hr hx) with h | ⟨z, h, -, hz⟩
        · exact .inr (.inl h)
        · exact .inr (.inr ⟨z, hz, h⟩)

/-- what is needed for a zero variance to give NaN -/
structure ZeroNan (A : Arith) : Prop where
  log_zero : A.log (.fin 0) = .ninf
  half : ∀ c, A.mul (A.mul (.fin 0.5) c) c = .nan ∨ A.mul (A.mul (.fin 0.5) c) c = .pinf ∨ ∃ x, 0 ≤ x ∧ A.mul (A.mul (.fin 0.5) c) c = .fin x

theorem zeroNan (hA : IsBinary64 A) : ZeroNan A := ⟨hA.log_zero, half_sq hA⟩

/-- the term of an observation with variance zero is NaN -/
theorem term_zero (hA : ZeroNan A) (c : Dbl) :
    A.sub (A.mul (.fin (-0.5)) (A.log (.fin 0))) (A.div (A.mul (A.mul (.fin 0.5) c) c) (.fin 0)) = .nan := by
  have e1 : A.mul (.fin (-0.5)) .ninf = .pinf := by
    show A.fl (Dbl.infTimes (- -0.5)) = _
    rw [show Dbl.infTimes (- -0.5) = .pinf by rw [Dbl.infTimes, if_pos (by norm_num)]]; rfl
  rw [hA.log_zero, e1]
  rcases hA.half c with h | h | ⟨x, hx, h⟩
  · rw [h]; rfl
  · rw [h]
    have : A.div .pinf (.fin 0) = .pinf := by
      show A.fl (if (0 : ℝ) < 0 then _ else _) = _
      rw [if_neg (lt_irrefl _)]; rfl
    rw [this]; rfl
  · rw [h]
    have : A.div (.fin x) (.fin 0) = .nan ∨ A.div (.fin x) (.fin 0) = .pinf := by
      show A.fl (if (0 : ℝ) = 0 then Dbl.infTimes x else _) = _ ∨ A.fl (if (0 : ℝ) = 0 then Dbl.infTimes x else _) = _
      rw [if_pos rfl]
      rcases eq_or_lt_of_le hx with rfl | hx
      · left; simp [Dbl.infTimes, Arith.fl]
      · right; simp [Dbl.infTimes, Arith.fl, hx]
    rcases this with h | h <;> rw [h] <;> rfl

theorem lik_total {y mean var : List Dbl} {mu : Dbl} {n : ℕ} (hy : n ≤ y.length) (hm : n ≤ mean.length) (hv : n ≤ var.length) :
    ∃ l, FCar1.likLoop A y mean var mu n = .ok l := by
  induction n with
  | zero => exact ⟨_, rfl⟩
  | succ k ih =>
    obtain ⟨l, el⟩ := ih (by omega) (by omega) (by omega)
    simp only [FCar1.likLoop, el, res_bind_ok, rd_some (List.getElem?_eq_getElem (show k < y.length by omega)),
      rd_some (List.getElem?_eq_getElem (show k < mean.length by omega)), rd_some (List.getElem?_eq_getElem (show k < var.length by omega))]
    exact ⟨_, rfl⟩

theorem lik_nan (hA : ZeroNan A) {y mean var : List Dbl} {mu : Dbl} {n : ℕ} (hy : n ≤ y.length) (hm : n ≤ mean.length)
    (hv : n ≤ var.length) {k : ℕ} (hk : k < n) (hz : var[k]? = some (.fin 0)) : FCar1.likLoop A y mean var mu n = .ok .nan := by
  induction n with
  | zero => omega
  | succ j ih =>
    rcases Nat.lt_succ_iff_lt_or_eq.mp hk with hk | rfl
    · simp only [FCar1.likLoop, ih (by omega) (by omega) (by omega) hk, res_bind_ok, rd_some (List.getElem?_eq_getElem (show j < y.length by omega)),
        rd_some (List.getElem?_eq_getElem (show j < mean.length by omega)), rd_some (List.getElem?_eq_getElem (show j < var.length by omega)),
        fl_nan_add]
      rfl
    · obtain ⟨l, el⟩ := lik_total (A := A) (mu := mu) (show k ≤ y.length by omega) (show k ≤ mean.length by omega) (show k ≤ var.length by omega)
      simp only [FCar1.likLoop, el, res_bind_ok, rd_some (List.getElem?_eq_getElem (show k < y.length by omega)),
        rd_some (List.getElem?_eq_getElem (show k < mean.length by omega)), rd_some hz, term_zero hA, fl_add_nan]
      rfl

/-! ### data without measurement errors -/

/-- state of the filter when entries up to `c` are filled in -/
structure FZero (s : FKF1) (S : ℝ) (w : ℝ) (n c : ℕ) : Prop where
  ltime : s.time.length = n
  ldt : n ≤ s.dt.length + 1
  lmean : s.mean.length = n
  lvar : s.var.length = n
  ly : s.y.length = n
  yerr : s.yerr = List.replicate n (.fin 0)
  omega : s.omega = .fin w
  cur : s.cur = c
  last : (∃ k < c, s.var[k]? = some (.fin 0)) ∨ ∃ v, 0 < v ∧ F64 v ∧ s.var[c - 1]? = some (.fin v)

theorem zReset (hA : IsBinary64 A) {s : FKF1} {S w : ℝ} {n : ℕ} (hn : 0 < n) (hS : A.div s.sigsqr (A.mul (.fin 2) s.omega) = .fin S)
    (hS0 : 0 ≤ S) (hSF : F64 S)
    (h1 : s.time.length = n) (h2 : n ≤ s.dt.length + 1) (h3 : s.mean.length = n) (h4 : s.var.length = n) (h5 : s.y.length = n)
    (h6 : s.yerr = List.replicate n (.fin 0)) (h7 : s.omega = .fin w) :
    ∃ s', FKF1.reset A s = .ok s' ∧ FZero s' S w n 1 ∧ s'.sigsqr = s.sigsqr ∧ s'.dt = s.dt := by
  have he : s.yerr[0]? = some (.fin 0) := by rw [h6]; simp [hn]
  have e0 : A.mul (.fin 0) (.fin 0) = .fin 0 := by rw [fl_mul, mul_zero]; exact hA.id _ f64_zero
  have e1 : A.add (.fin S) (.fin 0) = .fin S := by rw [fl_add, add_zero]; exact hA.id _ hSF
  refine ⟨{ s with mean := s.mean.set 0 (.fin 0), var := s.var.set 0 (.fin S), yconst := .fin 0, yslope := .fin 0, cur := 1 }, ?_, ?_, rfl, rfl⟩
  · simp only [FKF1.reset, res_bind_ok, rd_some he, wr_ok (show 0 < s.mean.length by omega), wr_ok (show 0 < s.var.length by omega), hS, e0, e1]
    rfl
  · refine ⟨h1, h2, by simpa using h3, by simpa using h4, h5, h6, h7, rfl, ?_⟩
    rcases eq_or_lt_of_le hS0 with rfl | hS0
    · exact .inl ⟨0, by omega, by simp [show 0 < s.var.length by omega]⟩
    · exact .inr ⟨S, hS0, hSF, by simp [show 0 < s.var.length by omega]⟩

theorem zUpdate (hA : IsBinary64 A) {s : FKF1} {S w : ℝ} {n c : ℕ} (hc : 0 < c) (hcn : c < n)
    (hS : A.div s.sigsqr (A.mul (.fin 2) s.omega) = .fin S) (hS0 : 0 ≤ S) (hSF : F64 S) (hw : F64 w) (hw0 : 0 < w)
    (hdt : ∀ d ∈ s.dt, ∃ x, 0 ≤ x ∧ d = .fin x) (h : FZero s S w n c) :
    ∃ s', FKF1.update A s = .ok s' ∧ FZero s' S w n (c + 1) ∧ s'.sigsqr = s.sigsqr ∧ s'.dt = s.dt ∧
      (A.exp (A.mul (A.mul (.fin (-1)) (.fin w)) (s.dt.getD (c - 1) .nan)) = .fin 1 → ∃ k < c + 1, s'.var[k]? = some (.fin 0)) := by
  obtain ⟨h1, h2, h3, h4, h5, h6, h7, h8, h9⟩ := h
  have he1 : s.yerr[c - 1]? = some (.fin 0) := by rw [h6, List.getElem?_replicate, if_pos (by omega)]
  have he2 : s.yerr[c]? = some (.fin 0) := by rw [h6, List.getElem?_replicate, if_pos (by omega)]
  have hdl : c - 1 < s.dt.length := by omega
  have hd := rd_some (List.getElem?_eq_getElem hdl)
  have hdD : s.dt.getD (c - 1) .nan = s.dt[c - 1] := List.getD_eq_getElem _ _ hdl
  obtain ⟨ρ, eρ, Fρ, ρ0, ρ1⟩ := rho_num hA hw hw0 (.inr (hdt _ (List.getElem_mem hdl)))
  have e0 : A.mul (.fin 0) (.fin 0) = .fin 0 := by rw [fl_mul, mul_zero]; exact hA.id _ f64_zero
  have l1 : c < s.mean.length := by omega
  have l2 : c < s.var.length := by omega
  have hp : prevIdx c = .ok (c - 1) := by simp [prevIdx]; omega
  have hm := rd_some (List.getElem?_eq_getElem (show c - 1 < s.mean.length by omega))
  have hy := rd_some (List.getElem?_eq_getElem (show c - 1 < s.y.length by omega))
  -- the new entry of the variance, whatever it is
  have shape : ∀ v, s.var[c - 1]? = some v → ∃ M V, FKF1.update A s = .ok { s with
      mean := s.mean.set c M
      var := (s.var.set c V).set c (A.add V (.fin 0))
      cur := c + 1 } ∧
      V = A.add (A.mul (.fin S) (A.sub (.fin 1) (A.mul (.fin ρ) (.fin ρ))))
        (A.mul (A.mul (A.mul (.fin ρ) (.fin ρ)) (A.sub v (.fin 0))) (A.sub (.fin 1) (A.div (A.sub v (.fin 0)) v))) := by
    intro v hv
    refine ⟨A.add (A.mul (.fin ρ) s.mean[c - 1]) (A.mul (A.mul (.fin ρ) (A.div (A.sub v (.fin 0)) v)) (A.sub s.y[c - 1] s.mean[c - 1])), _, ?_, rfl⟩
    rw [h7] at hS
    simp only [FKF1.update, h8, hp, res_bind_ok, hd, rd_some hv, rd_some he1, hm, hy, wr_ok l1, wr_ok l2, h7, hS, eρ, e0, rd_some he2]
    rw [rd_some (by rw [List.getElem?_set_self l2]), res_bind_ok, wr_ok (by simpa using l2)]
    rfl
  have hvl : s.var[c - 1]? = some s.var[c - 1] := List.getElem?_eq_getElem (by omega)
  rcases h9 with ⟨k, hk, hz⟩ | ⟨v, v0, Fv, hv⟩
  · obtain ⟨M, V, e, -⟩ := shape _ hvl
    have hz' : ((s.var.set c V).set c (A.add V (.fin 0)))[k]? = some (.fin 0) := by
      simpa [List.getElem?_set, show c ≠ k by omega] using hz
    refine ⟨_, e, ⟨h1, h2, by simpa using h3, by simpa using h4, h5, h6, h7, rfl, .inl ⟨k, by omega, hz'⟩⟩, rfl, rfl, fun _ => ⟨k, by omega, hz'⟩⟩
  · obtain ⟨M, V, e, eV⟩ := shape _ hv
    have a1 : A.sub (.fin v) (.fin 0) = .fin v := by rw [fl_sub, sub_zero]; exact hA.id _ Fv
    have a2 : A.div (.fin v) (.fin v) = .fin 1 := by rw [fl_div _ _ v0.ne', div_self v0.ne']; exact hA.id _ f64_one
    have a3 : A.sub (.fin 1) (.fin 1) = .fin 0 := by rw [fl_sub, sub_self]; exact hA.id _ f64_zero
    obtain ⟨rr, err, rrr, rr0, rr1⟩ := rnd_mul hA (a := ρ) (b := ρ) f64_zero f64_one (by positivity) (by nlinarith)
    obtain ⟨q, eq, rq, q0, q1⟩ := rnd_sub hA (a := 1) (b := rr) f64_zero f64_one (by linarith) (by linarith)
    obtain ⟨qc, eqc, rqc, qc0, qc1⟩ := rnd_mul hA (a := S) (b := q) f64_zero hSF (by positivity) (by nlinarith)
    obtain ⟨rp, erp, rrp, rp0, rp1⟩ := rnd_mul hA (a := rr) (b := v) f64_zero Fv (by positivity) (by nlinarith)
    have a4 : A.mul (.fin rp) (.fin 0) = .fin 0 := by rw [fl_mul, mul_zero]; exact hA.id _ f64_zero
    have a5 : A.add (.fin qc) (.fin 0) = .fin qc := by rw [fl_add, add_zero]; exact hA.id _ rqc.f
    rw [a1, a2, a3, err, eq, eqc, erp, a4, a5] at eV
    subst eV
    rw [a5] at e
    have hc' : ((s.var.set c (.fin qc)).set c (.fin qc))[c]? = some (.fin qc) := by
      rw [List.getElem?_set_self (by simpa using l2)]
    refine ⟨_, e, ⟨h1, h2, by simpa using h3, by simpa using h4, h5, h6, h7, rfl, ?_⟩, rfl, rfl, fun h => ?_⟩
    · rcases eq_or_lt_of_le qc0 with h | h
      · exact .inl ⟨c, by omega, by rw [hc', h]⟩
      · exact .inr ⟨qc, h, rqc.f, hc'⟩
    · rw [hdD, eρ] at h
      injection h with h
      subst h
      have b1 : rr = 1 := le_antisymm rr1 (rrr.ge f64_one (by norm_num))
      subst b1
      have b2 : q = 0 := le_antisymm (rq.le f64_zero (by norm_num)) q0
      subst b2
      have b3 : qc = 0 := le_antisymm (rqc.le f64_zero (by norm_num)) qc0
      exact ⟨c, by omega, by rw [hc', b3]⟩

/-- `Update` writes at `current_index_` only -/
theorem update_keeps {s s' : FKF1} {c : ℕ} (h : FKF1.update A s = .ok s') (hc : s.cur = c) {j : ℕ} (hj : j ≠ c) :
    s'.var[j]? = s.var[j]? := by
  unfold FKF1.update at h
  obtain ⟨_, -, h⟩ := bind_ok h
  obtain ⟨_, -, h⟩ := bind_ok h
  obtain ⟨_, -, h⟩ := bind_ok h
  obtain ⟨_, -, h⟩ := bind_ok h
  obtain ⟨_, -, h⟩ := bind_ok h
  obtain ⟨_, -, h⟩ := bind_ok h
  obtain ⟨mean, h1, h⟩ := bind_ok h
  obtain ⟨var, h2, h⟩ := bind_ok h
  obtain ⟨_, -, h⟩ := bind_ok h
  obtain ⟨_, -, h⟩ := bind_ok h
  obtain ⟨var', h3, h⟩ := bind_ok h
  cases h
  unfold wr at h2 h3
  split at h2
  · split at h3
    · cases h2; cases h3
      simp [List.getElem?_set, hc, Ne.symm hj]
    · cases h3
  · cases h2

theorem zFilter (hA : IsBinary64 A) {s : FKF1} {S w : ℝ} {n : ℕ} (hn : 0 < n) (hS : A.div s.sigsqr (A.mul (.fin 2) s.omega) = .fin S)
    (hS0 : 0 ≤ S) (hSF : F64 S) (hw : F64 w) (hw0 : 0 < w) (hdt : ∀ d ∈ s.dt, ∃ x, 0 ≤ x ∧ d = .fin x)
    (h1 : s.time.length = n) (h2 : n ≤ s.dt.length + 1) (h3 : s.mean.length = n) (h4 : s.var.length = n) (h5 : s.y.length = n)
    (h6 : s.yerr = List.replicate n (.fin 0)) (h7 : s.omega = .fin w) {i : ℕ} (hi : i + 1 < n)
    (hr : A.exp (A.mul (A.mul (.fin (-1)) (.fin w)) (s.dt.getD i .nan)) = .fin 1) :
    ∃ s', FKF1.filter A s = .ok s' ∧ s'.mean.length = n ∧ s'.var.length = n ∧ ∃ k < n, s'.var[k]? = some (.fin 0) := by
  obtain ⟨s1, e1, z1, g1, d1⟩ := zReset hA hn hS hS0 hSF h1 h2 h3 h4 h5 h6 h7
  have loop : ∀ k, k + 1 ≤ n → ∃ s', iter (FKF1.update A) k s1 = .ok s' ∧ FZero s' S w n (k + 1) ∧ s'.sigsqr = s.sigsqr ∧ s'.dt = s.dt ∧
      (i < k → ∃ j < k + 1, s'.var[j]? = some (.fin 0)) := by
    intro k
    induction k with
    | zero => exact fun _ => ⟨s1, rfl, z1, g1, d1, fun h => absurd h (by omega)⟩
    | succ k ih =>
      intro hk
      obtain ⟨s2, e2, z2, g2, d2, c2⟩ := ih (by omega)
      obtain ⟨s3, e3, z3, g3, d3, c3⟩ := zUpdate hA (c := k + 1) (by omega) (by omega) (by rw [g2, z2.omega, ← h7]; exact hS) hS0 hSF hw hw0
        (by rw [d2]; exact hdt) z2
      refine ⟨s3, by simp only [iter, e2, res_bind_ok, e3], z3, g3.trans g2, d3.trans d2, fun hik => ?_⟩
      rcases Nat.lt_succ_iff_lt_or_eq.mp hik with hik | rfl
      · -- the earlier zero is kept: it is the case `last`
        obtain ⟨j, hj, hz⟩ := c2 hik
        have hs := update_keeps e3 z2.cur (j := j) (by omega)
        exact ⟨j, by omega, by rw [hs, hz]⟩
      · exact c3 (by rw [d2]; simpa using hr)
  obtain ⟨s', e', z', g', d', c'⟩ := loop (n - 1) (by omega)
  obtain ⟨j, hj, hz⟩ := c' (by omega)
  refine ⟨s', ?_, z'.lmean, z'.lvar, j, by omega, hz⟩
  have ht : s1.time.length = n := z1.ltime
  simp only [FKF1.filter, e1, res_bind_ok, ht, e']

theorem fl_f64 (hA : IsBinary64 A) {d : Dbl} {x : ℝ} (h : A.fl d = .fin x) : F64 x := by
  cases d with
  | fin y => exact hA.range _ _ h
  | _ => cases h

/-- data without errors and a factor rounded to 1: NaN -/
theorem logdens_nan (hA : IsBinary64 A) {ts ys es : List ℝ} {M : ℝ} (hm : MildTimes ts) (hM : M ≤ 2 ^ (148 : ℤ))
    (hy : ys.length = ts.length) (hes : es = List.replicate ts.length 0) {s : FCar1} (h : FObj A ts ys es M s)
    {θ : List ℝ} (hl : 4 ≤ θ.length) (hw : InBounds A s θ) {i : ℕ} (hi : i + 1 < ts.length)
    (hr : A.exp (A.mul (A.mul (.fin (-1)) (A.exp (.fin (θ.getD 3 0)))) (A.sub (.fin (ts.getD (i + 1) 0)) (.fin (ts.getD i 0)))) = .fin 1) :
    ∃ s', FCar1.logDensity A s (θ.map .fin) = .ok (s', .nan) ∧ ∃ k < ts.length, s'.kf.var[k]? = some (.fin 0) := by
  have hc : FCar1.checkPrior A s (θ.map .fin) = .ok true := by
    rcases within_num hA h hl with ⟨-, hc⟩ | ⟨hn, -⟩
    · exact hc
    · exact absurd hw hn
  obtain ⟨lo', elo', lo1⟩ := h.lo
  obtain ⟨hi', ehi', hi1⟩ := h.hi
  obtain ⟨w, lo, hi', M', ew, elo, ehi, eM, l1, l2, s1, s2, c1, c2⟩ := hw
  rw [elo'] at elo; cases elo
  rw [ehi'] at ehi; cases ehi
  rw [h.stdev] at eM; cases eM
  obtain ⟨Fw, -⟩ := hA.exp_range _ _ ew
  have pos : (0 : ℝ) < 2 ^ (-300 : ℤ) := by positivity
  have hw0 : 0 < w := lt_of_lt_of_le pos (lo1.trans l1)
  have hw1 : w ≤ 2 ^ (300 : ℤ) := l2.trans hi1
  obtain ⟨S, eS, S0, S1⟩ := stat_num hA s1 (s2.trans hM) Fw hw0 hw1
  have FS : F64 S := fl_f64 hA eS
  have n0 := hm.two
  obtain ⟨q, eq, -⟩ : ∃ q, A.sqrt (.fin (θ.getD 1 0)) = .fin q ∧ True := by
    rw [hA.sqrt_fin _ (le_trans (by norm_num) c1)]
    obtain ⟨q, eq, -⟩ := rnd_between hA (x := √(θ.getD 1 0)) f64_zero (f64_zpow 1 (by norm_num) (by norm_num)) (Real.sqrt_nonneg _) (by
      rw [Real.sqrt_le_left (by norm_num)]; exact c2.trans (by norm_num))
    exact ⟨q, eq, trivial⟩
  have hyerr : s.yerr.map (fun x => A.mul (A.sqrt (.fin (θ.getD 1 0))) x) = List.replicate ts.length (.fin 0) := by
    rw [h.yerr, hes, List.map_replicate, List.map_replicate, eq, fl_mul, mul_zero, hA.id _ f64_zero]
  set sig := A.mul (A.mul (A.mul (.fin 2) (.fin (θ.getD 0 0))) (.fin (θ.getD 0 0))) (.fin w) with hsig
  set k0 : FKF1 := { s.kf with
    sigsqr := sig, omega := .fin w, yerr := s.yerr.map (fun x => A.mul (A.sqrt (.fin (θ.getD 1 0))) x),
    y := s.y.map (fun x => A.sub x (.fin (θ.getD 2 0))) } with hk0
  have kyl : k0.y.length = ts.length := by simp [hk0, h.y, hy]
  obtain ⟨k1, ek1, lm, lv, k, hk, hz⟩ := zFilter hA (s := k0) (n := ts.length) (by omega) eS S0 FS Fw hw0 h.kdts (by simp [hk0, h.ktime]) h.kdt
    h.kmean h.kvar kyl hyerr rfl hi (by rw [show k0.dt = s.kf.dt from rfl, h.kgap i hi, ← ew]; exact hr)
  have ell := lik_nan (zeroNan hA) (y := s.y) (mu := .fin (θ.getD 2 0)) (n := ts.length) (by simp [h.y, hy]) lm.ge lv.ge hk hz
  have hθ1 : (θ.map Dbl.fin)[1]? = some (.fin (θ.getD 1 0)) := getElem?_map_fin (by omega)
  refine ⟨{ s with kf := k1 }, ?_, k, hk, hz⟩
  simp only [FCar1.logDensity, hc, res_bind_ok, rd_some (getElem?_map_fin (show 0 < θ.length by omega)),
    rd_some hθ1, rd_some (getElem?_map_fin (show 2 < θ.length by omega)), rd_some (getElem?_map_fin (show 3 < θ.length by omega)), ew]
  rw [if_neg (by simp)]
  simp only [res_bind_ok, ← hsig, ← hk0, ek1]
  simp only [h.time, List.length_map, ell, res_bind_ok, FCar1.logPrior, rd_some hθ1, res_pure, fl_nan_add]

end Verif.Theory
