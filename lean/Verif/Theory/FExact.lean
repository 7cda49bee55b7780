import Verif.Theory.FNan
import Verif.Theory.LogDens

/-!
With exact arithmetic the floating-point model of the CAR(1) log-density agrees with the model in real numbers.
-/

namespace Verif.Theory

open Verif.Model Verif.Spec
open scoped Classical

theorem fl_exact (d : Dbl) : Arith.exact.fl d = d := by cases d <;> rfl
theorem ex_add (a b : Dbl) : Arith.exact.add a b = a.add b := fl_exact _
theorem ex_sub (a b : Dbl) : Arith.exact.sub a b = a.sub b := fl_exact _
theorem ex_mul (a b : Dbl) : Arith.exact.mul a b = a.mul b := fl_exact _
theorem ex_div (a b : Dbl) : Arith.exact.div a b = a.div b := fl_exact _
theorem exf_add (a b : ℝ) : Arith.exact.add (.fin a) (.fin b) = .fin (a + b) := rfl
theorem exf_sub (a b : ℝ) : Arith.exact.sub (.fin a) (.fin b) = .fin (a - b) := by
  rw [ex_sub, sub_eq_add_neg]; rfl
theorem exf_mul (a b : ℝ) : Arith.exact.mul (.fin a) (.fin b) = .fin (a * b) := rfl
theorem exf_div (a : ℝ) {b : ℝ} (h : b ≠ 0) : Arith.exact.div (.fin a) (.fin b) = .fin (a / b) := by
  rw [ex_div]; simp [Dbl.div, h]
theorem exf_exp (a : ℝ) : Arith.exact.exp (.fin a) = .fin (Real.exp a) := rfl

theorem zeroNan_exact : ZeroNan Arith.exact := by
  refine ⟨by show Dbl.log (.fin 0) = _; simp [Dbl.log], fun c => ?_⟩
  simp only [ex_mul]
  cases c with
  | nan => exact .inl rfl
  | pinf =>
    right; left
    rw [show Dbl.mul (.fin 0.5) .pinf = .pinf by
      show Dbl.infTimes 0.5 = _
      rw [Dbl.infTimes, if_pos (by norm_num)]]; rfl
  | ninf =>
    right; left
    rw [show Dbl.mul (.fin 0.5) .ninf = .ninf by
      show Dbl.infTimes (-0.5) = _
      rw [Dbl.infTimes, if_neg (by norm_num), if_pos (by norm_num)]]; rfl
  | fin x => exact .inr (.inr ⟨0.5 * x * x, by nlinarith [mul_self_nonneg x], rfl⟩)

/-- the filters agree on the entries before `c` -/
structure KRel (n c : ℕ) (s : KF1) (k : FKF1) : Prop where
  time : s.b.time.length = n
  ktime : k.time.length = n
  dt : k.dt = s.b.dt.map .fin
  ldt : n ≤ s.b.dt.length + 1
  y : k.y = s.b.y.map .fin
  ly : s.b.y.length = n
  yerr : k.yerr = s.b.yerr.map .fin
  lyerr : s.b.yerr.length = n
  sigsqr : k.sigsqr = .fin s.b.sigsqr
  omega : k.omega = .fin s.omega
  cur : s.b.cur = c
  kcur : k.cur = c
  lmean : s.b.mean.length = n
  lvar : s.b.var.length = n
  klmean : k.mean.length = n
  klvar : k.var.length = n
  mean : ∀ i < c, k.mean[i]? = s.b.mean[i]?.map .fin
  var : ∀ i < c, k.var[i]? = s.b.var[i]?.map .fin

theorem kreset {n : ℕ} {s : KF1} {k : FKF1} (hn : 0 < n) (hw : s.omega ≠ 0)
    (h1 : s.b.time.length = n) (h2 : k.time.length = n) (h3 : k.dt = s.b.dt.map .fin) (h4 : n ≤ s.b.dt.length + 1)
    (h5 : k.y = s.b.y.map .fin) (h6 : s.b.y.length = n) (h7 : k.yerr = s.b.yerr.map .fin) (h8 : s.b.yerr.length = n)
    (h9 : k.sigsqr = .fin s.b.sigsqr) (h10 : k.omega = .fin s.omega) (h11 : s.b.mean.length = n) (h12 : s.b.var.length = n)
    (h13 : k.mean.length = n) (h14 : k.var.length = n) :
    ∃ s' k', s.reset = .ok s' ∧ k.reset Arith.exact = .ok k' ∧ KRel n 1 s' k' := by
  have hw2 : 2 * s.omega ≠ 0 := mul_ne_zero two_ne_zero hw
  have e1 : s.b.yerr[0]? = some s.b.yerr[0] := List.getElem?_eq_getElem (by omega)
  have e2 : k.yerr[0]? = some (.fin s.b.yerr[0]) := by rw [h7, List.getElem?_map, e1]; rfl
  have d1 : dv s.b.sigsqr (2 * s.omega) = .ok (s.b.sigsqr / (2 * s.omega)) := by simp [dv, hw]
  set v := s.b.sigsqr / (2 * s.omega) + s.b.yerr[0] * s.b.yerr[0] with hv
  refine ⟨{ s with b := { s.b with mean := s.b.mean.set 0 0, var := s.b.var.set 0 v, yconst := 0, yslope := 0, cur := 1 } },
    { k with mean := k.mean.set 0 (.fin 0), var := k.var.set 0 (.fin v), yconst := .fin 0, yslope := .fin 0, cur := 1 }, ?_, ?_, ?_⟩
  · simp only [KF1.reset, wr_ok (show 0 < s.b.mean.length by omega), res_bind_ok, d1, rd_some e1, wr_ok (show 0 < s.b.var.length by omega)]
    rfl
  · simp only [FKF1.reset, wr_ok (show 0 < k.mean.length by omega), res_bind_ok, rd_some e2, wr_ok (show 0 < k.var.length by omega),
      h9, h10, exf_mul, exf_div _ hw2, exf_add]
    rfl
  · refine ⟨h1, h2, h3, h4, h5, h6, h7, h8, h9, h10, rfl, rfl, by simpa using h11, by simpa using h12, by simpa using h13, by simpa using h14, ?_, ?_⟩
    · intro i hi
      obtain rfl : i = 0 := by omega
      simp [show 0 < s.b.mean.length by omega, show 0 < k.mean.length by omega]
    · intro i hi
      obtain rfl : i = 0 := by omega
      simp [show 0 < s.b.var.length by omega, show 0 < k.var.length by omega]

theorem getElem?_set_prefix {a : List Dbl} {b : List ℝ} {c : ℕ} {x : ℝ} (ha : c < a.length) (hb : c < b.length)
    (h : ∀ i < c, a[i]? = b[i]?.map .fin) : ∀ i < c + 1, (a.set c (.fin x))[i]? = (b.set c x)[i]?.map .fin := by
  intro i hi
  rcases Nat.lt_succ_iff_lt_or_eq.mp hi with hi | rfl
  · rw [List.getElem?_set_ne (by omega), List.getElem?_set_ne (by omega), h i hi]
  · rw [List.getElem?_set_self ha, List.getElem?_set_self hb]; rfl

theorem kupdate {n c : ℕ} {s : KF1} {k : FKF1} (hc : 0 < c) (hcn : c < n) (hw : s.omega ≠ 0) (h : KRel n c s k) :
    (∃ s' k', s.update = .ok s' ∧ k.update Arith.exact = .ok k' ∧ KRel n (c + 1) s' k' ∧ s'.omega = s.omega) ∨
    (s.update = .error .nonfinite ∧ k.var[c - 1]? = some (.fin 0)) := by
  obtain ⟨h1, h2, h3, h4, h5, h6, h7, h8, h9, h10, h11, h12, h13, h14, h15, h16, h17, h18⟩ := h
  have hw2 : 2 * s.omega ≠ 0 := mul_ne_zero two_ne_zero hw
  have hp : prevIdx c = .ok (c - 1) := by simp [prevIdx]; omega
  have d1 : dv s.b.sigsqr (2 * s.omega) = .ok (s.b.sigsqr / (2 * s.omega)) := by simp [dv, hw]
  have a1 : s.b.dt[c - 1]? = some s.b.dt[c - 1] := List.getElem?_eq_getElem (by omega)
  have a2 : s.b.var[c - 1]? = some s.b.var[c - 1] := List.getElem?_eq_getElem (by omega)
  have a3 : s.b.yerr[c - 1]? = some s.b.yerr[c - 1] := List.getElem?_eq_getElem (by omega)
  have a4 : s.b.mean[c - 1]? = some s.b.mean[c - 1] := List.getElem?_eq_getElem (by omega)
  have a5 : s.b.y[c - 1]? = some s.b.y[c - 1] := List.getElem?_eq_getElem (by omega)
  have a6 : s.b.yerr[c]? = some s.b.yerr[c] := List.getElem?_eq_getElem (by omega)
  have b1 : k.dt[c - 1]? = some (.fin s.b.dt[c - 1]) := by rw [h3, List.getElem?_map, a1]; rfl
  have b2 : k.var[c - 1]? = some (.fin s.b.var[c - 1]) := by rw [h18 _ (by omega), a2]; rfl
  have b3 : k.yerr[c - 1]? = some (.fin s.b.yerr[c - 1]) := by rw [h7, List.getElem?_map, a3]; rfl
  have b4 : k.mean[c - 1]? = some (.fin s.b.mean[c - 1]) := by rw [h17 _ (by omega), a4]; rfl
  have b5 : k.y[c - 1]? = some (.fin s.b.y[c - 1]) := by rw [h5, List.getElem?_map, a5]; rfl
  have b6 : k.yerr[c]? = some (.fin s.b.yerr[c]) := by rw [h7, List.getElem?_map, a6]; rfl
  by_cases hv : s.b.var[c - 1] = 0
  · right
    refine ⟨?_, by rw [b2, hv]⟩
    simp only [KF1.update, h11, hp, res_bind_ok, rd_some a1, rd_some a2, rd_some a3]
    rw [hv, dv, if_pos rfl]; rfl
  · left
    have d2 : ∀ x, dv x s.b.var[c - 1] = .ok (x / s.b.var[c - 1]) := fun x => by simp [dv, hv]
    have l1 : c < s.b.mean.length := by omega
    have l2 : c < s.b.var.length := by omega
    have l3 : c < k.mean.length := by omega
    have l4 : c < k.var.length := by omega
    set ρ := Real.exp (-1 * s.omega * s.b.dt[c - 1]) with hρ
    set pv := s.b.var[c - 1] - s.b.yerr[c - 1] * s.b.yerr[c - 1] with hpv
    set r := pv / s.b.var[c - 1] with hr
    set m := ρ * s.b.mean[c - 1] + ρ * r * (s.b.y[c - 1] - s.b.mean[c - 1]) with hm
    set V := s.b.sigsqr / (2 * s.omega) * (1 - ρ * ρ) + ρ * ρ * pv * (1 - r) with hV
    set W := V + s.b.yerr[c] * s.b.yerr[c] with hW
    refine ⟨{ s with b := { s.b with mean := s.b.mean.set c m, var := (s.b.var.set c V).set c W, cur := c + 1 } },
      { k with mean := k.mean.set c (.fin m), var := (k.var.set c (.fin V)).set c (.fin W), cur := c + 1 }, ?_, ?_, ?_, rfl⟩
    · simp only [KF1.update, h11, hp, res_bind_ok, rd_some a1, rd_some a2, rd_some a3, rd_some a4, rd_some a5, rd_some a6, d1, d2,
        wr_ok l1, wr_ok l2, rd_some (List.getElem?_set_self l2), wr_ok (show c < (s.b.var.set c V).length by simpa using l2), ← hρ, ← hpv, ← hr, ← hm, ← hV]
      rfl
    · simp only [FKF1.update, h12, hp, res_bind_ok, rd_some b1, rd_some b2, rd_some b3, rd_some b4, rd_some b5, rd_some b6,
        wr_ok l3, wr_ok l4, rd_some (List.getElem?_set_self l4), h9, h10, exf_mul, exf_sub, exf_add, exf_exp, exf_div _ hw2, exf_div _ hv,
        ← hρ, ← hpv, ← hr, ← hm, ← hV, ← hW]
      rw [wr_ok (by simpa using l4)]
      rfl
    · refine ⟨h1, h2, h3, h4, h5, h6, h7, h8, h9, h10, rfl, rfl, by simpa using h13, by simpa using h14, by simpa using h15, by simpa using h16,
        getElem?_set_prefix l3 l1 h17, ?_⟩
      refine getElem?_set_prefix (by simpa using l4) (by simpa using l2) fun i hi => ?_
      rw [List.getElem?_set_ne (by omega), List.getElem?_set_ne (by omega), h18 i hi]

/-- lengths are enough for `Update` to return -/
theorem fupdate_total {A : Arith} {n c : ℕ} {k : FKF1} (hc : 0 < c) (hcn : c < n) (h1 : n ≤ k.dt.length + 1) (h2 : k.y.length = n)
    (h3 : k.yerr.length = n) (h4 : k.mean.length = n) (h5 : k.var.length = n) (h6 : k.cur = c) :
    ∃ k', k.update A = .ok k' ∧ k'.dt = k.dt ∧ k'.y = k.y ∧ k'.yerr = k.yerr ∧ k'.mean.length = n ∧ k'.var.length = n ∧ k'.cur = c + 1 := by
  have hp : prevIdx c = .ok (c - 1) := by simp [prevIdx]; omega
  have l3 : c < k.mean.length := by omega
  have l4 : c < k.var.length := by omega
  have e : ∃ M V W, k.update A = .ok { k with mean := k.mean.set c M, var := (k.var.set c V).set c W, cur := c + 1 } := by
    simp only [FKF1.update, h6, hp, res_bind_ok, rd_some (List.getElem?_eq_getElem (show c - 1 < k.dt.length by omega)),
      rd_some (List.getElem?_eq_getElem (show c - 1 < k.var.length by omega)), rd_some (List.getElem?_eq_getElem (show c - 1 < k.yerr.length by omega)),
      rd_some (List.getElem?_eq_getElem (show c - 1 < k.mean.length by omega)), rd_some (List.getElem?_eq_getElem (show c - 1 < k.y.length by omega)),
      rd_some (List.getElem?_eq_getElem (show c < k.yerr.length by omega)), wr_ok l3, wr_ok l4, rd_some (List.getElem?_set_self l4)]
    rw [wr_ok (by simpa using l4)]
    exact ⟨_, _, _, rfl⟩
  obtain ⟨M, V, W, e⟩ := e
  exact ⟨_, e, rfl, rfl, rfl, by simpa using h4, by simpa using h5, rfl⟩

theorem kfilter_of {s s1 : KF1} {r : Res KF1} (h1 : s.reset = .ok s1) (h2 : iter KF1.update (s1.b.time.length - 1) s1 = r) :
    Kalman.filter s = r := by
  show (do let s ← KF1.reset s; iter KF1.update (s.b.time.length - 1) s : Res KF1) = r
  rw [h1, res_bind_ok, h2]

theorem kfilter {n : ℕ} {s : KF1} {k : FKF1} (hn : 0 < n) (hw : s.omega ≠ 0)
    (h1 : s.b.time.length = n) (h2 : k.time.length = n) (h3 : k.dt = s.b.dt.map .fin) (h4 : n ≤ s.b.dt.length + 1)
    (h5 : k.y = s.b.y.map .fin) (h6 : s.b.y.length = n) (h7 : k.yerr = s.b.yerr.map .fin) (h8 : s.b.yerr.length = n)
    (h9 : k.sigsqr = .fin s.b.sigsqr) (h10 : k.omega = .fin s.omega) (h11 : s.b.mean.length = n) (h12 : s.b.var.length = n)
    (h13 : k.mean.length = n) (h14 : k.var.length = n) :
    (∃ s' k', Kalman.filter s = .ok s' ∧ k.filter Arith.exact = .ok k' ∧ KRel n n s' k') ∨
    (Kalman.filter s = .error .nonfinite ∧ ∃ k', k.filter Arith.exact = .ok k' ∧ k'.mean.length = n ∧ k'.var.length = n ∧
      ∃ j < n, k'.var[j]? = some (.fin 0)) := by
  have hw2 : 2 * s.omega ≠ 0 := mul_ne_zero two_ne_zero hw
  obtain ⟨s1, k1, e1, e2, r1⟩ := kreset hn hw h1 h2 h3 h4 h5 h6 h7 h8 h9 h10 h11 h12 h13 h14
  have w1 : s1.omega ≠ 0 := by
    have := r1.omega
    obtain ⟨_, -, e2⟩ := bind_ok e2
    obtain ⟨_, -, e2⟩ := bind_ok e2
    obtain ⟨_, -, e2⟩ := bind_ok e2
    cases e2
    rw [h10] at this
    injection this with this
    rw [← this]; exact hw
  have loop : ∀ m, m + 1 ≤ n →
      (∃ s' k', iter KF1.update m s1 = .ok s' ∧ iter (FKF1.update Arith.exact) m k1 = .ok k' ∧ KRel n (m + 1) s' k' ∧ s'.omega ≠ 0) ∨
      (iter KF1.update m s1 = .error .nonfinite ∧ ∃ k', iter (FKF1.update Arith.exact) m k1 = .ok k' ∧ n ≤ k'.dt.length + 1 ∧
        k'.y.length = n ∧ k'.yerr.length = n ∧ k'.mean.length = n ∧ k'.var.length = n ∧ k'.cur = m + 1 ∧ ∃ j < m + 1, k'.var[j]? = some (.fin 0)) := by
    intro m
    induction m with
    | zero => exact fun _ => .inl ⟨s1, k1, rfl, rfl, r1, w1⟩
    | succ m ih =>
      intro hm
      rcases ih (by omega) with ⟨s', k', i1, i2, r, w⟩ | ⟨i1, k', i2, q1, q2, q3, q4, q5, q6, j, hj, hz⟩
      · rcases kupdate (Nat.succ_pos m) (by omega) w r with ⟨s2, k2, u1, u2, r2, w2⟩ | ⟨u1, u2⟩
        · exact .inl ⟨s2, k2, by simp only [iter, i1, res_bind_ok, u1], by simp only [iter, i2, res_bind_ok, u2], r2, w2 ▸ w⟩
        · right
          refine ⟨by simp only [iter, i1, res_bind_ok, u1], ?_⟩
          obtain ⟨k2, u, g1, g2, g3, g4, g5, g6⟩ := fupdate_total (A := Arith.exact) (Nat.succ_pos m) (show m + 1 < n by omega)
            (by rw [r.dt, List.length_map]; exact r.ldt) (by rw [r.y, List.length_map]; exact r.ly) (by rw [r.yerr, List.length_map]; exact r.lyerr)
            r.klmean r.klvar r.kcur
          refine ⟨k2, by simp only [iter, i2, res_bind_ok, u], by rw [g1, r.dt, List.length_map]; exact r.ldt,
            by rw [g2, r.y, List.length_map]; exact r.ly, by rw [g3, r.yerr, List.length_map]; exact r.lyerr, g4, g5, g6, m, by omega, ?_⟩
          rw [update_keeps u r.kcur (by omega)]
          simpa using u2
      · right
        refine ⟨by simp only [iter, i1]; rfl, ?_⟩
        obtain ⟨k2, u, g1, g2, g3, g4, g5, g6⟩ := fupdate_total (A := Arith.exact) (Nat.succ_pos m) (show m + 1 < n by omega) q1 q2 q3 q4 q5 q6
        exact ⟨k2, by simp only [iter, i2, res_bind_ok, u], by rw [g1]; exact q1, by rw [g2]; exact q2, by rw [g3]; exact q3, g4, g5, g6, j, by omega, by
          rw [update_keeps u q6 (by omega)]; exact hz⟩
  have t1 : s1.b.time.length = n := r1.time
  have t2 : k1.time.length = n := r1.ktime
  rcases loop (n - 1) (by omega) with ⟨s', k', i1, i2, r, -⟩ | ⟨i1, k', i2, -, -, -, q4, q5, -, j, hj, hz⟩
  · left
    rw [show n - 1 + 1 = n by omega] at r
    exact ⟨s', k', kfilter_of e1 (by rw [t1]; exact i1), by simp only [FKF1.filter, e2, res_bind_ok, t2, i2], r⟩
  · right
    exact ⟨kfilter_of e1 (by rw [t1]; exact i1), k', by simp only [FKF1.filter, e2, res_bind_ok, t2, i2], q4, q5, j, by omega, hz⟩

theorem lik_exact {y mean var : List ℝ} {fm fv : List Dbl} {mu : ℝ} {n : ℕ} (hm : ∀ i < n, fm[i]? = mean[i]?.map .fin)
    (hv : ∀ i < n, fv[i]? = var[i]?.map .fin) :
    FCar1.likLoop Arith.exact (y.map .fin) fm fv (.fin mu) n = likLoop y mean var mu n := by
  have rdm : ∀ (l : List ℝ) (i : ℕ), rd (l.map Dbl.fin) i = (rd l i).map Dbl.fin := by
    intro l i
    unfold rd
    rw [List.getElem?_map]
    cases l[i]? <;> rfl
  have rdp : ∀ (f : List Dbl) (l : List ℝ) (i : ℕ), f[i]? = l[i]?.map .fin → rd f i = (rd l i).map Dbl.fin := by
    intro f l i h
    unfold rd
    rw [h]
    cases l[i]? <;> rfl
  induction n with
  | zero => rfl
  | succ k ih =>
    rw [FCar1.likLoop, likLoop, ih (fun i hi => hm i (by omega)) (fun i hi => hv i (by omega))]
    congr 1
    funext acc
    rw [rdm, rdp _ _ _ (hm k (by omega)), rdp _ _ _ (hv k (by omega))]
    cases rd y k with
    | error f => rfl
    | ok yk =>
      cases rd mean k with
      | error f => rfl
      | ok mk =>
        cases rd var k with
        | error f => rfl
        | ok vk =>
          simp only [Except.map, res_bind_ok, exf_sub, exf_mul, ex_add, ex_sub, ex_mul, ex_div]
          rfl

/-! ### objects -/

/-- the objects hold the same data -/
structure CRel (n : ℕ) (s : Car1) (f : FCar1) : Prop where
  time : f.time = s.b.time.map .fin
  ltime : s.b.time.length = n
  y : f.y = s.b.y.map .fin
  ly : s.b.y.length = n
  yerr : f.yerr = s.b.yerr.map .fin
  lyerr : s.b.yerr.length = n
  stdev : f.maxStdev = .fin s.b.maxStdev
  hi : f.maxFreq = s.b.maxFreq
  lo : f.minFreq = s.b.minFreq
  kltime : s.kf.b.time.length = n
  fltime : f.kf.time.length = n
  dt : f.kf.dt = s.kf.b.dt.map .fin
  ldt : n ≤ s.kf.b.dt.length + 1
  lmean : s.kf.b.mean.length = n
  lvar : s.kf.b.var.length = n
  flmean : f.kf.mean.length = n
  flvar : f.kf.var.length = n

theorem filter_kf_same {s s' : KF1} (h : Kalman.filter s = .ok s') : s'.b.time = s.b.time ∧ s'.b.dt = s.b.dt ∧ s'.b.mean.length = s.b.mean.length ∧
    s'.b.var.length = s.b.var.length := by
  have hres : ∀ {s s' : KF1}, s.reset = .ok s' → s'.b.time = s.b.time ∧ s'.b.dt = s.b.dt ∧ s'.b.mean.length = s.b.mean.length ∧
      s'.b.var.length = s.b.var.length := by
    intro s s' h
    unfold KF1.reset at h
    obtain ⟨_, h1, h⟩ := bind_ok h
    obtain ⟨_, -, h⟩ := bind_ok h
    obtain ⟨_, -, h⟩ := bind_ok h
    obtain ⟨_, h2, h⟩ := bind_ok h
    cases h
    exact ⟨rfl, rfl, wr_len h1, wr_len h2⟩
  have hupd : ∀ {s s' : KF1}, s.update = .ok s' → s'.b.time = s.b.time ∧ s'.b.dt = s.b.dt ∧ s'.b.mean.length = s.b.mean.length ∧
      s'.b.var.length = s.b.var.length := by
    intro s s' h
    unfold KF1.update at h
    obtain ⟨_, -, h⟩ := bind_ok h
    obtain ⟨_, -, h⟩ := bind_ok h
    obtain ⟨_, -, h⟩ := bind_ok h
    obtain ⟨_, -, h⟩ := bind_ok h
    obtain ⟨_, -, h⟩ := bind_ok h
    obtain ⟨_, -, h⟩ := bind_ok h
    obtain ⟨_, -, h⟩ := bind_ok h
    obtain ⟨_, h1, h⟩ := bind_ok h
    obtain ⟨_, -, h⟩ := bind_ok h
    obtain ⟨_, h2, h⟩ := bind_ok h
    obtain ⟨_, -, h⟩ := bind_ok h
    obtain ⟨_, -, h⟩ := bind_ok h
    obtain ⟨_, h3, h⟩ := bind_ok h
    cases h
    exact ⟨rfl, rfl, wr_len h1, (wr_len h3).trans (wr_len h2)⟩
  have hit : ∀ (m : ℕ) {s s' : KF1}, iter KF1.update m s = .ok s' → s'.b.time = s.b.time ∧ s'.b.dt = s.b.dt ∧
      s'.b.mean.length = s.b.mean.length ∧ s'.b.var.length = s.b.var.length := by
    intro m
    induction m with
    | zero => intro s s' h; cases h; exact ⟨rfl, rfl, rfl, rfl⟩
    | succ m ih =>
      intro s s' h
      obtain ⟨s2, h2, h⟩ := bind_ok h
      obtain ⟨a1, a2, a3, a4⟩ := ih h2
      obtain ⟨b1, b2, b3, b4⟩ := hupd h
      exact ⟨b1.trans a1, b2.trans a2, b3.trans a3, b4.trans a4⟩
  unfold Kalman.filter at h
  obtain ⟨s1, h1, h⟩ := bind_ok h
  obtain ⟨a1, a2, a3, a4⟩ := hres h1
  obtain ⟨b1, b2, b3, b4⟩ := hit _ h
  exact ⟨b1.trans a1, b2.trans a2, b3.trans a3, b4.trans a4⟩

theorem crel_call {n : ℕ} (hn : 0 < n) {s : Car1} {f : FCar1} (h : CRel n s f) {θ : List ℝ} (hl : 4 ≤ θ.length) :
    ∃ s' f' v, logDensity s θ = .ok (s', v) ∧ FCar1.logDensity Arith.exact f (θ.map .fin) = .ok (f', v) ∧ CRel n s' f' := by
  have g0 : θ[0]? = some (θ.getD 0 0) := by rw [List.getElem?_eq_getElem (by omega), List.getD_eq_getElem _ _ (by omega)]
  have g1 : θ[1]? = some (θ.getD 1 0) := by rw [List.getElem?_eq_getElem (by omega), List.getD_eq_getElem _ _ (by omega)]
  have g2 : θ[2]? = some (θ.getD 2 0) := by rw [List.getElem?_eq_getElem (by omega), List.getD_eq_getElem _ _ (by omega)]
  have g3 : θ[3]? = some (θ.getD 3 0) := by rw [List.getElem?_eq_getElem (by omega), List.getD_eq_getElem _ _ (by omega)]
  have f0 : (θ.map Dbl.fin)[0]? = some (.fin (θ.getD 0 0)) := getElem?_map_fin (by omega)
  have f1 : (θ.map Dbl.fin)[1]? = some (.fin (θ.getD 1 0)) := getElem?_map_fin (by omega)
  have f2 : (θ.map Dbl.fin)[2]? = some (.fin (θ.getD 2 0)) := getElem?_map_fin (by omega)
  have f3 : (θ.map Dbl.fin)[3]? = some (.fin (θ.getD 3 0)) := getElem?_map_fin (by omega)
  generalize q0 : θ.getD 0 0 = t0 at *
  generalize q1 : θ.getD 1 0 = t1 at *
  generalize q2 : θ.getD 2 0 = t2 at *
  generalize q3 : θ.getD 3 0 = t3 at *
  -- the prior check
  set P : Prop := (Dbl.fin (Real.exp t3)).gt s.b.maxFreq ∨ (Dbl.fin (Real.exp t3)).lt s.b.minFreq ∨ t0 > s.b.maxStdev ∨ t0 < 0 ∨
    t1 < 0.5 ∨ t1 > 2 with hP
  have c1 : Car1.checkPrior s.b θ = .ok (decide ¬ P) := by
    simp only [Car1.checkPrior, rd_some g0, rd_some g1, rd_some g3, res_bind_ok]; rfl
  have c2 : FCar1.checkPrior Arith.exact f (θ.map .fin) = .ok (decide ¬ P) := by
    simp only [FCar1.checkPrior, rd_some f0, rd_some f1, rd_some f3, res_bind_ok, h.hi, h.lo, h.stdev]; rfl
  by_cases hp : P
  · refine ⟨s, f, .ninf, ?_, ?_, h⟩
    · show (do let ok ← Car1.checkPrior s.b θ; _ : Res (Car1 × Dbl)) = _
      rw [c1, decide_eq_false (by simpa using hp)]
      rfl
    · simp only [FCar1.logDensity, c2, decide_eq_false (not_not.mpr hp), res_bind_ok, if_pos]
      rfl
  · have hpos : (0.5 : ℝ) ≤ t1 := by
      rw [hP] at hp; push Not at hp; exact hp.2.2.2.2.1
    have hpos' : 0 < t1 := lt_of_lt_of_le (by norm_num) hpos
    have hnn : ¬ t1 < 0 := not_lt.mpr hpos'.le
    -- the filters
    set kf : KF1 := { omega := Real.exp t3, b := { s.kf.b with
      sigsqr := 2 * t0 * t0 * Real.exp t3, yerr := s.b.yerr.map fun x => √t1 * x, y := s.b.y.map fun x => x - t2 } } with hkf
    set k : FKF1 := { f.kf with
      sigsqr := .fin (2 * t0 * t0 * Real.exp t3), omega := .fin (Real.exp t3),
      yerr := f.yerr.map fun x => Arith.exact.mul (Arith.exact.sqrt (.fin t1)) x, y := f.y.map fun x => Arith.exact.sub x (.fin t2) } with hk
    have esq : Arith.exact.sqrt (.fin t1) = .fin √t1 := by
      show (if t1 < 0 then _ else _) = _
      rw [if_neg hnn]
    have ky : k.y = kf.b.y.map .fin := by
      show f.y.map _ = (s.b.y.map _).map _
      rw [h.y, List.map_map, List.map_map]
      refine List.map_congr_left fun x _ => ?_
      exact exf_sub x t2
    have kye : k.yerr = kf.b.yerr.map .fin := by
      show f.yerr.map _ = (s.b.yerr.map _).map _
      rw [h.yerr, List.map_map, List.map_map, esq]
      refine List.map_congr_left fun x _ => ?_
      exact exf_mul _ x
    have hlp : ∃ lp, baseLogPrior θ = .ok lp ∧ FCar1.logPrior Arith.exact (θ.map .fin) = .ok lp := by
      refine ⟨_, by simp only [baseLogPrior, rd_some g1, res_bind_ok]; rfl, ?_⟩
      simp only [FCar1.logPrior, rd_some f1, res_bind_ok, exf_mul, ex_sub, ex_div, ex_mul, ex_add]
      rw [show Dbl.div (.fin 50) (.fin 2) = .fin (50 / 2) by simp [Dbl.div]]
      rfl
    obtain ⟨lp, lp1, lp2⟩ := hlp
    have hc : CarModel.checkPrior (σ := KF1) s θ = .ok true := by rw [← decide_eq_true hp, ← c1]; rfl
    have hpar : CarModel.setParams (σ := KF1) s θ = .ok ({ s.kf with omega := Real.exp t3, b := s.kf.b.setSigsqr (2 * t0 * t0 * Real.exp t3) }, false) := by
      show Car1.setParams s.kf θ = _
      simp only [Car1.setParams, rd_some g3, rd_some g0, res_bind_ok]; rfl
    have hload : loaded (CarModel.base (σ := KF1) s) ({ s.kf with omega := Real.exp t3, b := s.kf.b.setSigsqr (2 * t0 * t0 * Real.exp t3) } : KF1) θ = kf := by
      rw [loaded, show at0 θ 1 = t1 from q1, show at0 θ 2 = t2 from q2]; rfl
    have e2 : ∀ (r : Res (FCar1 × Dbl)), (do
        let kf ← FKF1.filter Arith.exact k
        let ll ← FCar1.likLoop Arith.exact f.y kf.mean kf.var (.fin t2) f.time.length
        let lp ← FCar1.logPrior Arith.exact (θ.map .fin)
        return ({ f with kf := kf }, Arith.exact.add ll lp)) = r → FCar1.logDensity Arith.exact f (θ.map .fin) = r := by
      intro r hr
      rw [← hr]
      simp only [FCar1.logDensity, c2, decide_eq_true hp, res_bind_ok, rd_some f0, rd_some f1, rd_some f2, rd_some f3, exf_exp, exf_mul]
      rw [if_neg (by simp)]
    have lt : f.time.length = n := by rw [h.time, List.length_map, h.ltime]
    rcases kfilter (s := kf) (k := k) hn (Real.exp_pos t3).ne' h.kltime h.fltime h.dt h.ldt ky (by simp [hkf, h.ly]) kye (by simp [hkf, h.lyerr])
      rfl rfl h.lmean h.lvar h.flmean h.flvar with ⟨kf', k', r1, r2, rel⟩ | ⟨r1, k', r2, z1, z2, j, hj, hz⟩
    · have hlik := lik_exact (y := s.b.y) (mu := t2) rel.mean rel.var
      have hex : ∃ ll, likLoop s.b.y kf'.b.mean kf'.b.var t2 n = .ok ll := by
        obtain ⟨l, el⟩ := lik_total (A := Arith.exact) (y := s.b.y.map .fin) (mean := k'.mean) (var := k'.var) (mu := .fin t2) (n := n)
          (by simp [h.ly]) rel.klmean.ge rel.klvar.ge
        exact ⟨l, by rw [← hlik, el]⟩
      obtain ⟨ll, ell⟩ := hex
      obtain ⟨m1, m2, m3, m4⟩ := filter_kf_same r1
      refine ⟨{ s with kf := kf' }, { f with kf := k' }, ll.add lp, ?_, e2 _ ?_, ?_⟩
      · rw [logDensity_ok (by omega) hc hpar lp1 (by rw [hload]; exact r1) (r := .ok ll) (by
          rw [show at0 θ 2 = t2 from q2, ← ell, ← h.ltime]; rfl), show at0 θ 1 = t1 from q1]
        simp only [Except.bind, hnn, or_false, if_false, Bool.false_eq_true]
        rfl
      · rw [r2, res_bind_ok, h.y, lt, hlik, ell, res_bind_ok, lp2, res_bind_ok, ex_add]
        rfl
      · exact ⟨h.time, h.ltime, h.y, h.ly, h.yerr, h.lyerr, h.stdev, h.hi, h.lo, rel.time, rel.ktime, rel.dt, rel.ldt, rel.lmean, rel.lvar, rel.klmean, rel.klvar⟩
    · have hex : ∃ ll, likLoop s.b.y kf.b.mean kf.b.var t2 n = .ok ll := by
        obtain ⟨l, el⟩ := lik_total (A := Arith.exact) (y := s.b.y.map .fin) (mean := kf.b.mean.map .fin) (var := kf.b.var.map .fin) (mu := .fin t2) (n := n)
          (by simp [h.ly]) (by simp [hkf, h.lmean]) (by simp [hkf, h.lvar])
        exact ⟨l, by rw [← el, lik_exact (fun i _ => List.getElem?_map ..) (fun i _ => List.getElem?_map ..)]⟩
      obtain ⟨ll, ell⟩ := hex
      have hnan := lik_nan zeroNan_exact (y := f.y) (mean := k'.mean) (var := k'.var) (mu := .fin t2) (n := n) (by rw [h.y, List.length_map]; exact h.ly.ge)
        z1.ge z2.ge hj hz
      have hsame := filter_same r2
      refine ⟨{ s with kf := kf }, { f with kf := k' }, .nan, ?_, e2 _ ?_, ?_⟩
      · rw [logDensity_nonfinite (by omega) hc hpar lp1 (by rw [hload]; exact r1) (r := .ok ll) (by
          rw [hload, show at0 θ 2 = t2 from q2, ← ell, ← h.ltime]; rfl), hload]
        rfl
      · rw [r2, res_bind_ok, lt, hnan, res_bind_ok, lp2, res_bind_ok, fl_nan_add]
        rfl
      · exact ⟨h.time, h.ltime, h.y, h.ly, h.yerr, h.lyerr, h.stdev, h.hi, h.lo, h.kltime, by rw [hsame.time]; exact h.fltime,
          by rw [hsame.dt]; exact h.dt, h.ldt, h.lmean, h.lvar, z1, z2⟩

/-! ### construction -/

theorem diffs_exact (t : List ℝ) : FKF1.diffs Arith.exact (t.map .fin) = (diffs t).map (List.map Dbl.fin) := by
  unfold FKF1.diffs diffs
  rw [List.length_map]
  split
  · rfl
  · show _ = Except.ok _
    congr 1
    rw [← List.map_tail, List.zipWith_map_left, List.zipWith_map_right, List.map_zipWith]
    congr 1

theorem foldMin_exact (l : List ℝ) (a : ℝ) : (l.map Dbl.fin).foldl Dbl.min (.fin a) = .fin (l.foldl min a) := by
  induction l generalizing a with
  | nil => rfl
  | cons b l ih =>
    rw [List.map_cons, List.foldl_cons, List.foldl_cons, ← ih]
    congr 1
    by_cases h : b < a
    · simp [Dbl.min, Dbl.lt, h, h.le]
    · simp [Dbl.min, Dbl.lt, h, not_lt.mp h]

theorem foldMax_exact (l : List ℝ) (a : ℝ) : (l.map Dbl.fin).foldl Dbl.max (.fin a) = .fin (l.foldl max a) := by
  induction l generalizing a with
  | nil => rfl
  | cons b l ih =>
    rw [List.map_cons, List.foldl_cons, List.foldl_cons, ← ih]
    congr 1
    by_cases h : a < b
    · simp [Dbl.max, Dbl.lt, h, h.le]
    · simp [Dbl.max, Dbl.lt, h, not_lt.mp h]

theorem vecMin_exact (l : List ℝ) : FCar1.vecMin (l.map .fin) = (armaMin l).map .fin := by
  cases l with
  | nil => rfl
  | cons a l => show Except.ok _ = Except.ok _; rw [foldMin_exact]

theorem vecMax_exact (l : List ℝ) : FCar1.vecMax (l.map .fin) = (armaMax l).map .fin := by
  cases l with
  | nil => rfl
  | cons a l => show Except.ok _ = Except.ok _; rw [foldMax_exact]

theorem crel_new {ts ys es : List ℝ} (hn : 2 ≤ ts.length) (hy : ys.length = ts.length) (he : es.length = ts.length)
    (hinc : ∀ i, i + 1 < ts.length → ts.getD i 0 < ts.getD (i + 1) 0) (srt : List ℝ → List ℕ) (srt' : List Dbl → List ℕ) :
    ∃ s f, Car1.new srt ts ys es = .ok s ∧
      FCar1.new Arith.exact srt' (ts.map .fin) (ys.map .fin) (es.map .fin) (.fin (10 * √(armaVar ys))) = .ok f ∧ CRel ts.length s f := by
  obtain ⟨ds, hds⟩ : ∃ ds, diffs ts = .ok ds := ⟨_, by rw [diffs, if_neg (by omega)]⟩
  have hds' : ds = List.zipWith (fun b a => b - a) ts.tail ts := by
    rw [diffs, if_neg (by omega)] at hds; injection hds with hds; exact hds.symm
  have lds : ds.length = ts.length - 1 := by rw [hds']; simp
  have pos : ∀ d ∈ ds, 0 < d := by
    intro d hd
    obtain ⟨i, hi, rfl⟩ := List.getElem_of_mem hd
    have := hinc i (by omega)
    rw [List.getD_eq_getElem _ _ (by omega), List.getD_eq_getElem _ _ (by omega)] at this
    simp only [hds', List.getElem_zipWith, List.getElem_tail]
    linarith
  have hfd : FKF1.diffs Arith.exact (ts.map .fin) = .ok (ds.map .fin) := by rw [diffs_exact, hds]; rfl
  have dne : ds ≠ [] := by intro h; rw [h] at lds; simp at lds; omega
  have tne : ts ≠ [] := by intro h; rw [h] at hn; simp at hn
  obtain ⟨dmin, hdm⟩ : ∃ x, armaMin ds = .ok x := by cases ds with | nil => exact absurd rfl dne | cons a l => exact ⟨_, rfl⟩
  obtain ⟨tmax, htx⟩ : ∃ x, armaMax ts = .ok x := by cases ts with | nil => exact absurd rfl tne | cons a l => exact ⟨_, rfl⟩
  obtain ⟨tmin, htn⟩ : ∃ x, armaMin ts = .ok x := by cases ts with | nil => exact absurd rfl tne | cons a l => exact ⟨_, rfl⟩
  have n1 : ¬ ∃ d ∈ ds, d < 0 := by rintro ⟨d, hd, h⟩; have := pos d hd; linarith
  have n2 : ¬ ((∀ d ∈ ds, 0 ≤ d) ∧ ∃ d ∈ ds, d = 0) := by rintro ⟨-, d, hd, rfl⟩; exact lt_irrefl _ (pos _ hd)
  have f1 : ¬ ∃ d ∈ ds.map Dbl.fin, d.lt (.fin 0) := by
    rintro ⟨d, hd, hlt⟩
    obtain ⟨x, hx, rfl⟩ := List.mem_map.mp hd
    exact n1 ⟨x, hx, hlt⟩
  have f2 : ¬ ((∀ d ∈ ds.map Dbl.fin, ¬ d.lt (.fin 0)) ∧ ∃ d ∈ ds.map Dbl.fin, d = .fin 0) := by
    rintro ⟨-, d, hd, rfl⟩
    obtain ⟨x, hx, e⟩ := List.mem_map.mp hd
    injection e with e
    exact (pos x hx).ne' e
  refine ⟨{ b := { time := ts, y := ys, yerr := es, maxStdev := 10 * √(armaVar ys), maxFreq := Dbl.div (.fin 1) (.fin dmin),
                   minFreq := Dbl.div (.fin 1) (.fin (tmax - tmin)), ignorePrior := false },
            kf := { b := { KFBase.raw ts ys es 0 with dt := ds, mean := List.replicate ts.length 0, var := List.replicate ts.length 0 }, omega := 0 } },
    { time := ts.map .fin, y := ys.map .fin, yerr := es.map .fin, maxStdev := .fin (10 * √(armaVar ys)),
      maxFreq := Dbl.div (.fin 1) (.fin dmin), minFreq := Dbl.div (.fin 1) (.fin (tmax - tmin)),
      kf := { mean := List.replicate (ts.map Dbl.fin).length (.fin 0), var := List.replicate (ts.map Dbl.fin).length (.fin 0),
              time := ts.map .fin, dt := ds.map .fin, y := ys.map .fin, yerr := es.map .fin, sigsqr := .nan, omega := .nan,
              cur := 0, yconst := .nan, yslope := .nan } }, ?_, ?_, ?_⟩
  · have k1 : (KFBase.raw ts ys es 0).init srt = .ok { KFBase.raw ts ys es 0 with dt := ds, mean := List.replicate ts.length 0, var := List.replicate ts.length 0 } := by
      simp only [KFBase.init, initSort, show (KFBase.raw ts ys es 0).time = ts from rfl, hds, res_bind_ok, if_neg n1]
      rw [res_pure, res_bind_ok, initDedup, if_neg n2]
      rfl
    simp only [Car1.new, CarBase.new, CarBase.setPrior, hds, res_bind_ok, hdm, htx, htn, KF1.newData, KF1.new, k1]
    rfl
  · simp only [FCar1.new, hfd, res_bind_ok, vecMin_exact, vecMax_exact, hdm, htx, htn, FKF1.newData, FKF1.initSort, if_neg f1, Except.map]
    rw [res_pure, res_bind_ok, FKF1.initDedup, if_neg f2]
    simp only [res_pure, res_bind_ok, exf_sub, ex_div]
  · exact ⟨rfl, rfl, rfl, hy, rfl, he, rfl, rfl, rfl, rfl, by simp, rfl, by show _ ≤ ds.length + 1; omega, by simp, by simp, by simp, by simp⟩

end Verif.Theory
