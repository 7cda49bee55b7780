import Verif.Theory.PyModel
import Verif.Props.LogPost
import Verif.Theory.Frame

/-!
Properties C40 (order selection), C41 (`qmax`), C50 (data preparation) and C51 (best trial) of the Python class `CarmaModel`.
-/

namespace Verif.Props

open Verif.Model Verif.Spec Verif.Theory

/-! ### C40 -/

private lemma big : (100 : ℝ) ≤ 10 ^ 300 := by
  have : (10 : ℝ) ^ 2 ≤ 10 ^ 300 := pow_le_pow_right₀ (by norm_num) (by norm_num)
  exact le_trans (by norm_num) this

private lemma zip_fit (fit : ℕ × ℕ → Py.Mle) (l : List (ℕ × ℕ)) : ((l.map fit).zip l) = l.map fun pq => (fit pq, pq) := by
  induction l with
  | nil => rfl
  | cons a l ih => simp [ih]

/-- **C40.** Whatever the candidate list, fits and data size (no candidate with exactly `p + q + 3` observations), `choose_order` returns one
AICc per candidate. If some AICc is below 1e300 it stores and returns the first candidate whose AICc no other candidate beats; otherwise it
keeps the order it had and returns the first fit. AICc values are those of the formula, with `2 + p + q` parameters. -/
theorem C40_choose_order (n : ℕ) (mle : ℕ → ℕ → Res Py.Mle) (pq0 : ℕ × ℕ) (pmax : ℕ) (qmax : Option ℕ) (l : List (ℕ × ℕ))
    (fit : ℕ × ℕ → Py.Mle) (hl : l ≠ []) (hfit : ∀ pq ∈ l, mle pq.1 pq.2 = .ok (fit pq)) (hn : ∀ pq ∈ l, pq.1 + pq.2 + 3 ≠ n) :
    ∃ (best : Py.Mle) (A : List Model.Dbl) (pq : ℕ × ℕ), Py.chooseOrder n mle pq0 pmax qmax (some l) = .ok (best, l, A, pq) ∧ A.length = l.length ∧
      (∀ (i : ℕ) (o : ℕ × ℕ) (f : ℝ), l[i]? = some o → (fit o).fn = .fin f → A[i]? = some (Model.Dbl.fin (aiccSpec n (2 + o.1 + o.2) f))) ∧
      ((∃ a ∈ A, a.lt (.fin (10 ^ 300))) → ∃ i : ℕ, FirstMin A i ∧ l[i]? = some pq ∧ best = fit pq) ∧
      ((∀ a ∈ A, ¬ a.lt (.fin (10 ^ 300))) → pq = pq0 ∧ ∃ o, l[0]? = some o ∧ best = fit o) := by
  obtain ⟨o, l', rfl⟩ : ∃ o l', l = o :: l' := by cases l with
    | nil => exact absurd rfl hl
    | cons o l' => exact ⟨o, l', rfl⟩
  set l := o :: l' with hl0
  have h1 : (l.mapM fun pq : ℕ × ℕ => mle pq.1 pq.2) = .ok (l.map fit) := mapM_total hfit
  have hz : ((l.map fit).zip l) = l.map fun pq => (fit pq, pq) := zip_fit fit l
  obtain ⟨s, idx, h2, h3, h4, h5, h6⟩ := orderLoop n (fit o) (.fin (10 ^ 300)) pq0 ((l.map fit).zip l) (by
    rw [hz]; intro m hm
    obtain ⟨pq, hpq, rfl⟩ := List.mem_map.mp hm
    exact hn pq hpq)
  rw [hz] at h3 h6
  refine ⟨s.best, s.aiccs, s.pq, ?_, by rw [h3]; simp only [List.length_map, hl0], ?_, ?_, ?_⟩
  · simp only [Py.chooseOrder, Option.getD_some]
    rw [h1, res_bind_ok, show rd (l.map fit) 0 = .ok (fit o) from rfl, res_bind_ok, h2, res_bind_ok]; rfl
  · intro i o f hi hf
    rw [h3]
    simp only [List.map_map, List.getElem?_map, hi, Option.map_some, Function.comp_apply]
    have := aiccVal_fin n o f (fit o).x
    rw [← hf] at this
    exact congrArg some this
  · intro ⟨a, ha, hlt⟩
    cases idx with
    | none => exact absurd hlt (h4.2 a ha)
    | some i =>
      refine ⟨i, h4.2.2, ?_⟩
      have := h6 i rfl
      rw [List.getElem?_map] at this
      cases hli : l[i]? with
      | none => rw [hli] at this; cases this
      | some x =>
        rw [hli] at this
        simp only [Option.map_some, Option.some.injEq, Prod.mk.injEq] at this
        exact ⟨by rw [this.2], by rw [← this.1, this.2]⟩
  · intro hno
    cases idx with
    | none =>
      obtain ⟨h7, h8⟩ := h5 rfl
      exact ⟨h8, o, rfl, h7⟩
    | some i =>
      exact absurd h4.2.1 (hno _ (List.mem_of_getElem? h4.1))

/-- a case: 10 observations, orders (1,0) and (2,0) -/
example : ∀ pq ∈ [(1, 0), (2, 0)], pq.1 + pq.2 + 3 ≠ 10 := by simp

/-- **C40, exceptions.** An empty candidate list is an `IndexError`; a candidate with exactly `p + q + 3` observations a
`ZeroDivisionError`. -/
theorem C40_exceptions (n : ℕ) (mle : ℕ → ℕ → Res Py.Mle) (pq0 : ℕ × ℕ) (pmax : ℕ) (qmax : Option ℕ) (l : List (ℕ × ℕ))
    (fit : ℕ × ℕ → Py.Mle) (hfit : ∀ pq ∈ l, mle pq.1 pq.2 = .ok (fit pq)) :
    Py.chooseOrder n mle pq0 pmax qmax (some []) = .error .bounds ∧
    ((∃ pq ∈ l, pq.1 + pq.2 + 3 = n) → Py.chooseOrder n mle pq0 pmax qmax (some l) = .error .runtime) := by
  refine ⟨rfl, fun ⟨pq, hpq, hpn⟩ => ?_⟩
  have h1 : (l.mapM fun pq : ℕ × ℕ => mle pq.1 pq.2) = .ok (l.map fit) := mapM_total hfit
  have hz : ((l.map fit).zip l) = l.map fun pq => (fit pq, pq) := zip_fit fit l
  obtain ⟨o, l', rfl⟩ : ∃ o l', l = o :: l' := by cases l with
    | nil => simp at hpq
    | cons o l' => exact ⟨o, l', rfl⟩
  simp only [Py.chooseOrder, Option.getD_some]
  rw [h1, res_bind_ok, show rd ((o :: l').map fit) 0 = .ok (fit o) from rfl, res_bind_ok, orderLoop_zero n _ _ ?_]; rfl
  rw [hz]
  exact ⟨(fit pq, pq), List.mem_map_of_mem (f := fun pq => (fit pq, pq)) hpq, hpn⟩

/-- **C40, the number of parameters.** The fit has `3 + p + q` free parameters (the length of `theta`), the criterion is computed with
`2 + p + q`. The order chosen can differ from the one minimising AICc with the number of parameters fitted. -/
theorem C40_param_count : ∃ (n : ℕ) (f : ℕ × ℕ → ℝ) (best : Py.Mle) (A : List Model.Dbl),
    Py.chooseOrder n (fun p q => .ok ⟨.fin (f (p, q)), []⟩) (1, 0) 2 none (some [(1, 0), (2, 0)]) =
      .ok (best, [(1, 0), (2, 0)], A, (2, 0)) ∧
    aiccSpec n (3 + 1 + 0) (f (1, 0)) < aiccSpec n (3 + 2 + 0) (f (2, 0)) := by
  refine ⟨10, fun pq => if pq.1 = 1 then 4 else 0, ⟨.fin 0, []⟩, [.fin 18, .fin 16], ?_, ?_⟩
  · have e1 : Py.aicc 10 (1, 0) (.fin 4) = .ok (.fin 18) := by
      have := aicc_ok (n := 10) (m := (⟨.fin 4, []⟩, (1, 0))) (by norm_num)
      rw [aiccVal_fin] at this
      rw [this, aiccSpec]; norm_num
    have e2 : Py.aicc 10 (2, 0) (.fin 0) = .ok (.fin 16) := by
      have := aicc_ok (n := 10) (m := (⟨.fin 0, []⟩, (2, 0))) (by norm_num)
      rw [aiccVal_fin] at this
      rw [this, aiccSpec]; norm_num
    have c1 : (Model.Dbl.fin 18).lt (.fin (10 ^ 300)) := lt_of_lt_of_le (by norm_num) big
    have c2 : (Model.Dbl.fin 16).lt (.fin 18) := by simp only [Model.Dbl.lt]; norm_num
    simp only [Py.chooseOrder, Option.getD_some, List.mapM_cons, List.mapM_nil, if_true,
      show ¬ ((2 : ℕ) = 1) by norm_num, if_false, pure_bind, res_bind_ok, List.foldlM_cons, List.foldlM_nil, List.zip_cons_cons,
      List.zip_nil_right, Py.orderStep, e1, e2, rd, List.getElem?_cons_zero, if_pos c1, if_pos c2]
    rfl
  · simp only [aiccSpec, if_true, show ¬ ((2 : ℕ) = 1) by norm_num, if_false]; norm_num

/-! ### C41 -/

/-- **C41, what holds.** Without a list, `choose_order` searches each pair with `q < p ≤ pmax` exactly once, whatever `qmax`. The claim that
`qmax` limits `q` is false, see `C41_negation`. -/
theorem C41_search_partial (n : ℕ) (mle : ℕ → ℕ → Res Py.Mle) (pq0 : ℕ × ℕ) (pmax : ℕ) (qmax : Option ℕ) {best : Py.Mle}
    {l : List (ℕ × ℕ)} {A : List Model.Dbl} {pq : ℕ × ℕ} (h : Py.chooseOrder n mle pq0 pmax qmax none = .ok (best, l, A, pq)) :
    l.Nodup ∧ (∀ p q, (p, q) ∈ l ↔ q < p ∧ p ≤ pmax) ∧
      ∀ qmax', Py.chooseOrder n mle pq0 pmax qmax' none = .ok (best, l, A, pq) := by
  have hl : l = Py.pqList pmax qmax := by
    simp only [Py.chooseOrder, Option.getD_none] at h
    obtain ⟨a, -, h⟩ := bind_ok_inv h
    obtain ⟨b, -, h⟩ := bind_ok_inv h
    obtain ⟨c, -, h⟩ := bind_ok_inv h
    cases h; rfl
  subst hl
  refine ⟨?_, fun p q => mem_pqList pmax qmax p q, fun qmax' => h⟩
  rw [Py.pqList, List.nodup_flatMap]
  refine ⟨fun i _ => (List.nodup_range).map fun a b hab => by simpa using hab, ?_⟩
  refine List.Pairwise.imp ?_ (List.nodup_range (n := pmax))
  intro i j hij x hx hy
  simp only [List.mem_map, List.mem_range] at hx hy
  obtain ⟨q1, -, rfl⟩ := hx
  obtain ⟨q2, -, h2⟩ := hy
  simp only [Prod.mk.injEq] at h2
  omega

/-- a call that returns: constant fits, 20 observations -/
example : ∃ r, Py.chooseOrder 20 (fun _ _ => .ok ⟨.fin 0, []⟩) (1, 0) 2 none none = .ok r := by
  obtain ⟨b, A, pq, h, -⟩ := C40_choose_order 20 (fun _ _ => .ok ⟨.fin 0, []⟩) (1, 0) 2 none (Py.pqList 2 none)
    (fun _ => ⟨.fin 0, []⟩) (by decide) (fun _ _ => rfl) (by decide)
  exact ⟨_, h⟩

/-- **C41 is false.** With `pmax = 2` and `qmax = 0` the pair (2,1) is searched, and chosen when its fit is the best. -/
theorem C41_negation : ∃ (n : ℕ) (mle : ℕ → ℕ → Res Py.Mle) (best : Py.Mle) (l : List (ℕ × ℕ)) (A : List Model.Dbl),
    Py.chooseOrder n mle (1, 0) 2 (some 0) none = .ok (best, l, A, (2, 1)) ∧ (2, 1) ∈ l := by
  have hl : Py.pqList 2 (some 0) = [(1, 0), (2, 0), (2, 1)] := by decide
  obtain ⟨b, A, pq, h1, h2, h3, h4, -⟩ := C40_choose_order 20
    (fun p q => .ok ⟨if q = 1 then .fin (-100) else .fin 0, []⟩) (1, 0) 2 (some 0)
    (Py.pqList 2 (some 0)) (fun pq => ⟨if pq.2 = 1 then .fin (-100) else .fin 0, []⟩) (by decide) (fun _ _ => rfl) (by decide)
  have a0 := h3 0 (1, 0) 0 (by rw [hl]; rfl) (by simp)
  have a1 := h3 1 (2, 0) 0 (by rw [hl]; rfl) (by simp)
  have a2 := h3 2 (2, 1) (-100) (by rw [hl]; rfl) (by simp)
  obtain ⟨i, ⟨a, g1, g2, -⟩, g3, -⟩ := h4 ⟨_, List.mem_of_getElem? a2, by
    simp only [Model.Dbl.lt, aiccSpec]; exact lt_of_lt_of_le (by norm_num) big⟩
  have hi : i = 2 := by
    have h100 := g2 _ (List.mem_of_getElem? a2)
    rw [hl] at g3
    match i, g1, g3 with
    | 0, g1, _ =>
      rw [a0] at g1; cases g1
      exfalso; apply h100
      simp only [Model.Dbl.lt, aiccSpec]; norm_num
    | 1, g1, _ =>
      rw [a1] at g1; cases g1
      exfalso; apply h100
      simp only [Model.Dbl.lt, aiccSpec]; norm_num
    | 2, _, _ => rfl
    | k + 3, _, g3 => simp at g3
  subst hi
  have : pq = (2, 1) := by rw [hl] at g3; simpa using g3.symm
  subst this
  exact ⟨20, fun _ q => .ok ⟨if q = 1 then .fin (-100) else .fin 0, []⟩, b, Py.pqList 2 (some 0), A, h1, by rw [hl]; decide⟩

/-! ### C50 -/

/-- **C50.** `CarmaModel(time, y, ysig)` on arrays of equal length never fails and keeps triples of the input, in strictly increasing order of
time, one for each distinct time; when the times are distinct it keeps all of them. Sorting may break ties in any way. -/
theorem C50_data {srt : List ℝ → List ℕ} (hs : IsSortIndex srt) (data : List (ℝ × ℝ × ℝ)) :
    ∃ kept : List (ℝ × ℝ × ℝ),
      Py.carmaModel srt (data.map fun d => d.1) (data.map fun d => d.2.1) (data.map fun d => d.2.2) =
        .ok (kept.map fun d => d.1, kept.map fun d => d.2.1, kept.map fun d => d.2.2) ∧
      kept.Subperm data ∧ (kept.Pairwise fun a b => a.1 < b.1) ∧ (∀ d ∈ data, d.1 ∈ kept.map fun d => d.1) ∧
      ((data.map fun d => d.1).Nodup → kept.Perm data) :=
  carmaModel_spec hs data

/-- **C50, order of the input.** With distinct times the order in which the data are given has no effect. -/
theorem C50_order {srt1 srt2 : List ℝ → List ℕ} (h1 : IsSortIndex srt1) (h2 : IsSortIndex srt2) {d1 d2 : List (ℝ × ℝ × ℝ)}
    (hp : d1.Perm d2) (hnd : (d1.map fun d => d.1).Nodup) :
    Py.carmaModel srt1 (d1.map fun d => d.1) (d1.map fun d => d.2.1) (d1.map fun d => d.2.2) =
      Py.carmaModel srt2 (d2.map fun d => d.1) (d2.map fun d => d.2.1) (d2.map fun d => d.2.2) := by
  obtain ⟨k1, a1, -, b1, -, c1⟩ := carmaModel_spec h1 d1
  obtain ⟨k2, a2, -, b2, -, c2⟩ := carmaModel_spec h2 d2
  have : k1 = k2 := by
    have hperm : k1.Perm k2 := (c1 hnd).trans (hp.trans (c2 ((hp.map _).nodup_iff.mp hnd)).symm)
    exact hperm.eq_of_pairwise (fun a b _ _ h1 h2 => absurd (h1.trans h2) (lt_irrefl _)) b1 b2
  rw [a1, a2, this]

example : ([((2 : ℝ), (5 : ℝ), (0.1 : ℝ)), (1, 4, 0.2), (3, 7, 0.3)].map fun d => d.1).Nodup := by simp

/-- **C50, consequence.** Data with at least two distinct times, in any order and with repetitions: the object the C++ code builds from what
`CarmaModel` hands over has the CAR(1) log-posterior of the kept observations. (Handed to the C++ code directly, unsorted data give `-inf`
everywhere: C19.) -/
theorem C50_car1_posterior {srt : List ℝ → List ℕ} (hs : IsSortIndex srt) (srt' : List ℝ → List ℕ) (data : List (ℝ × ℝ × ℝ))
    (h2 : ∃ d1 ∈ data, ∃ d2 ∈ data, d1.1 ≠ d2.1) (θ : List ℝ) (hθ : 4 ≤ θ.length) :
    ∃ (n : ℕ) (t y e : Fin n → ℝ) (dmin span : ℝ) (s : Car1), 2 ≤ n ∧ StrictMono t ∧
      Py.carmaModel srt (data.map fun d => d.1) (data.map fun d => d.2.1) (data.map fun d => d.2.2) =
        .ok (List.ofFn t, List.ofFn y, List.ofFn e) ∧
      (∀ i, (t i, y i, e i) ∈ data) ∧ (∀ d ∈ data, ∃ i, t i = d.1) ∧ IsMinGap t dmin ∧ IsSpan t span ∧
      Car1.new srt' (List.ofFn t) (List.ofFn y) (List.ofFn e) = .ok s ∧
      (Car1Bounds (10 * √(sampleVar y)) (1 / dmin) (1 / span) θ → (at0 θ 0 ≠ 0 ∨ ∀ i, e i ≠ 0) →
        ∃ s', logDensity s θ = .ok (s', .fin (logGauss
          (obsCov (fun d => at0 θ 0 ^ 2 * Real.exp (-Real.exp (at0 θ 3) * d)) t fun i => √(at0 θ 1) * e i)
          (fun i => y i - at0 θ 2) + logPriorSpec θ))) := by
  obtain ⟨kept, k1, k2, k3, k4, -⟩ := carmaModel_spec hs data
  have hof : ∀ f : ℝ × ℝ × ℝ → ℝ, List.ofFn (fun i : Fin kept.length => f kept[i]) = kept.map f := fun f => by
    refine List.ext_getElem (by simp) fun i h1 h2 => by simp
  have hmono : StrictMono fun i : Fin kept.length => (kept[i]).1 := by
    intro i j hij
    exact List.pairwise_iff_getElem.mp k3 i j i.2 j.2 hij
  have hall : ∀ d ∈ data, ∃ i : Fin kept.length, (kept[i]).1 = d.1 := fun d hd => by
    obtain ⟨d', h1, h2⟩ := List.mem_map.mp (k4 d hd)
    obtain ⟨i, hi, rfl⟩ := List.getElem_of_mem h1
    exact ⟨⟨i, hi⟩, h2⟩
  have hn : 2 ≤ kept.length := by
    obtain ⟨d1, hd1, d2, hd2, hne⟩ := h2
    obtain ⟨i, hi⟩ := hall d1 hd1
    obtain ⟨j, hj⟩ := hall d2 hd2
    by_contra hlt
    have : i = j := by ext; omega
    exact hne (by rw [← hi, ← hj, this])
  obtain ⟨dmin, span, s, g1, g2, g3, g4⟩ := C05_car1_logpost srt' hn hmono (fun i => (kept[i]).2.1) (fun i => (kept[i]).2.2) θ hθ
  refine ⟨kept.length, fun i => (kept[i]).1, fun i => (kept[i]).2.1, fun i => (kept[i]).2.2, dmin, span, s, hn, hmono, ?_, fun i => k2.subset (List.getElem_mem _), hall, g1, g2, g3, g4⟩
  rw [k1, hof fun d => d.1, hof fun d => d.2.1, hof fun d => d.2.2]

example : ∃ d1 ∈ [((2 : ℝ), (5 : ℝ), (0.1 : ℝ)), (1, 4, 0.2), (2, 7, 0.3)],
    ∃ d2 ∈ [((2 : ℝ), (5 : ℝ), (0.1 : ℝ)), (1, 4, 0.2), (2, 7, 0.3)], d1.1 ≠ d2.1 :=
  ⟨(2, 5, 0.1), by simp, (1, 4, 0.2), by simp, by norm_num⟩

/-! ### C51 -/

/-- **C51, what holds.** When the first trial's value is a number, `get_mle` returns one of the trials and no trial has a smaller value. (Trials
that are NaN are passed over.) -/
theorem C51_best_partial (trials : List Py.Mle) (first : Py.Mle) (h : trials[0]? = some first) (hnan : first.fn ≠ .nan) :
    ∃ m ∈ trials, Py.getMle trials = .ok m ∧ m.fn ≠ .nan ∧ ∀ m' ∈ trials, ¬ m'.fn.lt m.fn := by
  obtain ⟨h1, h2⟩ := foldl_better trials first
  refine ⟨_, ?_, by simp only [Py.getMle, rd, h, res_bind_ok]; rfl, ?_, h1⟩
  · rcases h2 with h2 | ⟨h2, -⟩
    · rw [h2]; exact List.mem_of_getElem? h
    · exact h2
  · rcases h2 with h2 | ⟨-, h2⟩
    · rw [h2]; exact hnan
    · intro h3; rw [h3] at h2
      cases first.fn <;> simp [Model.Dbl.lt] at h2

example : ([⟨.fin 3, []⟩, ⟨.nan, []⟩, ⟨.fin 1, []⟩] : List Py.Mle)[0]? = some ⟨.fin 3, []⟩ := rfl

/-- **C51 is false in general.** When the first trial is NaN, `get_mle` returns it, however good the others; with no trials it raises
`IndexError`. -/
theorem C51_nan_first (first : Py.Mle) (rest : List Py.Mle) (hnan : first.fn = .nan) :
    Py.getMle (first :: rest) = .ok first ∧ Py.getMle [] = .error .bounds := by
  refine ⟨?_, rfl⟩
  simp only [Py.getMle, rd, List.getElem?_cons_zero, res_bind_ok]
  rw [foldl_nan _ _ hnan]; rfl

example : Py.getMle [⟨.nan, []⟩, ⟨.fin 1, []⟩] = .ok ⟨.nan, []⟩ := (C51_nan_first ⟨.nan, []⟩ [⟨.fin 1, []⟩] rfl).1

end Verif.Props
