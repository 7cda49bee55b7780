import Verif.Theory.FCar1Run
import Verif.Theory.FExact
import Verif.Theory.Adapt
import Verif.Model.Sampler

/-!
The sampler with machine numbers and exact arithmetic is the sampler over the reals.
-/

namespace Verif.Theory

open Verif.Model Verif.Spec
open scoped Classical

variable {d : ℕ}

theorem exf_sqrt {x : ℝ} (h : ¬ x < 0) : Arith.exact.sqrt (.fin x) = .fin √x := if_neg h

theorem cholRow_sim {sign : ℝ} {k : Fin d} {L L1 : Matrix (Fin d) (Fin d) ℝ} {v v1 : Fin d → ℝ} (h : cholRow sign k (L, v) = .ok (L1, v1)) :
    fcholRow Arith.exact (.fin sign) (fun i j => .fin (L i j), fun i => .fin (v i)) k = (fun i j => .fin (L1 i j), fun i => .fin (v1 i)) := by
  unfold cholRow at h
  dsimp only at h
  by_cases hx : L k k * L k k + sign * v k * v k < 0
  · rw [if_pos hx] at h; cases h
  rw [if_neg hx] at h
  by_cases hk : (k : ℕ) + 1 < d
  · rw [if_pos hk] at h
    obtain ⟨c, hc, h⟩ := bind_ok_inv h
    obtain ⟨s, hs, h⟩ := bind_ok_inv h
    unfold dv at hc hs
    split_ifs at hc hs with hL
    injection hc with hc
    injection hs with hs
    subst hc hs
    by_cases c0 : √(L k k * L k k + sign * v k * v k) / L k k = 0
    · rw [if_pos c0] at h; cases h
    rw [if_neg c0] at h
    injection h with h
    injection h with h1 h2
    subst h1 h2
    unfold fcholRow
    dsimp only
    have e0 : Arith.exact.sqrt (Arith.exact.add (Arith.exact.mul (.fin (L k k)) (.fin (L k k))) (Arith.exact.mul (Arith.exact.mul (.fin sign) (.fin (v k))) (.fin (v k))))
        = .fin √(L k k * L k k + sign * v k * v k) := exf_sqrt hx
    rw [e0, exf_div _ hL, exf_div _ hL]
    have e1 : ∀ i j, (if i = k then (if j = k then Dbl.fin √(L k k * L k k + sign * v k * v k) else if k < j then
        Arith.exact.div (Arith.exact.add (.fin (L k j)) (Arith.exact.mul (Arith.exact.mul (.fin sign) (.fin (v k / L k k))) (.fin (v j))))
          (.fin (√(L k k * L k k + sign * v k * v k) / L k k)) else .fin (L k j)) else .fin (L i j)) =
        .fin (if i = k then (if j = k then √(L k k * L k k + sign * v k * v k) else if k < j then
          (L k j + sign * (v k / L k k) * v j) / (√(L k k * L k k + sign * v k * v k) / L k k) else L k j) else L i j) := by
      intro i j
      split_ifs
      · rfl
      · rw [exf_mul, exf_mul, exf_add, exf_div _ c0]
      · rfl
      · rfl
    refine Prod.ext (funext fun i => funext fun j => e1 i j) (funext fun j => ?_)
    show (if k < j then _ else _) = Dbl.fin (if k < j then _ else _)
    by_cases hj : k < j
    · refine (if_pos hj).trans ((?_ : _ = _).trans (congrArg Dbl.fin (if_pos hj)).symm)
      rw [e1, exf_mul, exf_mul, exf_sub]
      rfl
    · rw [if_neg hj, if_neg hj]
  · rw [if_neg hk] at h
    injection h with h
    injection h with h1 h2
    subst h1 h2
    have last : ∀ j : Fin d, ¬ k < j := fun j hj => by
      have := j.2
      have : (k : ℕ) < j := hj
      omega
    have e0 : Arith.exact.sqrt (Arith.exact.add (Arith.exact.mul (.fin (L k k)) (.fin (L k k))) (Arith.exact.mul (Arith.exact.mul (.fin sign) (.fin (v k))) (.fin (v k))))
        = .fin √(L k k * L k k + sign * v k * v k) := exf_sqrt hx
    unfold fcholRow
    dsimp only
    rw [e0]
    refine Prod.ext (funext fun i => funext fun j => ?_) (funext fun j => if_neg (last j))
    show (if i = k then (if j = k then _ else if k < j then _ else _) else _) = _
    rw [if_neg (last j)]
    show _ = Dbl.fin (if i = k ∧ j = k then _ else L i j)
    by_cases hi : i = k
    · subst hi
      by_cases hj : j = i
      · subst hj; simp
      · rw [if_pos rfl, if_neg hj, if_neg fun h => hj h.2]
    · rw [if_neg hi, if_neg fun h => hi h.1]

theorem cholLoop_sim {sign : ℝ} {L L1 : Matrix (Fin d) (Fin d) ℝ} {v v1 : Fin d → ℝ} {m : ℕ} (hm : m ≤ d) (h : cholLoop sign (L, v) m = .ok (L1, v1)) :
    ((List.finRange d).take m).foldl (fcholRow Arith.exact (.fin sign)) (fun i j => .fin (L i j), fun i => .fin (v i)) =
      (fun i j => .fin (L1 i j), fun i => .fin (v1 i)) := by
  induction m generalizing L1 v1 with
  | zero => cases h; rfl
  | succ m ih =>
    unfold cholLoop at h
    obtain ⟨⟨L2, v2⟩, h1, h2⟩ := bind_ok_inv h
    have hlt : m < d := by omega
    rw [dif_pos hlt] at h2
    rw [List.take_add_one, List.foldl_append, ih (by omega) h1, List.getElem?_eq_getElem (by simpa using hlt)]
    simp only [List.getElem_finRange, Option.toList_some, List.foldl_cons, List.foldl_nil]
    exact cholRow_sim h2

theorem cholUpdate_sim {L L1 : Matrix (Fin d) (Fin d) ℝ} {v : Fin d → ℝ} {b : Bool} (h : cholUpdateR1 L v b = .ok L1) :
    fcholUpdateR1 Arith.exact (fun i j => .fin (L i j)) (fun i => .fin (v i)) b = fun i j => .fin (L1 i j) := by
  unfold cholUpdateR1 at h
  obtain ⟨⟨L2, v2⟩, h1, h2⟩ := bind_ok_inv h
  cases h2
  have := cholLoop_sim le_rfl h1
  rw [List.take_of_length_le (by simp)] at this
  unfold fcholUpdateR1
  rw [show (if b then Dbl.fin (-1) else .fin 1) = .fin (if b then -1 else 1) by cases b <;> rfl, this]

theorem SameRam.chol_eq {a : Ram d} {b : FRam d} (h : SameRam a b) : b.chol = fun i j => .fin (a.chol i j) := funext fun i => funext fun j => h.chol i j

variable {M : Mach}

theorem stepSize_sim (hM : ExactMach M) {a : Ram d} {b : FRam d} (h : SameRam a b) :
    Dbl.min (.fin 1) (M.A.div (.fin d) (M.pow (.fin b.niter) b.gamma)) = a.stepSize := by
  rw [h.gamma, h.niter, hM.pow, hM.arith, ex_div]
  rfl

theorem stepSize_nonneg {a : Ram d} {x : ℝ} (h : a.stepSize = .fin x) : 0 ≤ x := by
  unfold Ram.stepSize Dbl.min at h
  have p : (0 : ℝ) ≤ (a.niter : ℝ) ^ a.gamma := Real.rpow_nonneg (Nat.cast_nonneg _) _
  by_cases q : (a.niter : ℝ) ^ a.gamma = 0
  · rw [q] at h
    split_ifs at h with hl
    · rw [Dbl.div, if_pos rfl] at h hl
      unfold Dbl.infTimes at h
      split_ifs at h
    · injection h with h
      linarith
  · rw [Dbl.div, if_neg q] at h
    split_ifs at h
    · injection h with h
      rw [← h]
      positivity
    · injection h with h
      linarith

theorem adapt_sim (hM : ExactMach M) {a a1 : Ram d} {b : FRam d} (h : SameRam a b) {u w : Fin d → ℝ} (e : a.adapt u w = .ok a1) :
    SameRam a1 (b.adapt M (fun i => .fin (u i)) fun i => .fin (w i)) := by
  unfold Ram.adapt at e
  unfold FRam.adapt
  rw [h.alpha, h.niter, h.maxiter]
  cases ha : a.alpha with
  | fin al =>
    rw [ha] at e
    dsimp only at e
    by_cases hn : a.niter < a.maxiter
    · rw [if_pos hn] at e
      rw [if_pos ⟨hn, trivial⟩]
      obtain ⟨st, e1, e⟩ := bind_ok_inv e
      obtain ⟨f, e2, e⟩ := bind_ok_inv e
      obtain ⟨L, e3, e⟩ := bind_ok_inv e
      cases e
      have hst : a.stepSize = .fin st := by
        cases hq : a.stepSize with
        | fin x => rw [hq] at e1; cases e1; rfl
        | pinf => rw [hq] at e1; cases e1
        | ninf => rw [hq] at e1; cases e1
        | nan => rw [hq] at e1; cases e1
      have s0 := stepSize_nonneg hst
      unfold dv at e2
      split_ifs at e2 with n0
      injection e2 with e2
      subst e2
      have hs := stepSize_sim hM h
      rw [h.niter] at hs
      refine ⟨fun i j => ?_, h.gamma, h.target, rfl, rfl, rfl⟩
      dsimp only
      rw [hs, hst, h.target, hM.norm, hM.arith, exf_sub]
      show fcholUpdateR1 Arith.exact b.chol (fun i => Arith.exact.mul (Arith.exact.div (Arith.exact.sqrt (Arith.exact.mul (.fin st) (.fin |al - a.target|))) _) _) _ i j = _
      rw [exf_mul, exf_sqrt (not_lt.mpr (mul_nonneg s0 (abs_nonneg _))), show √(∑ i, u i ^ 2) = norm2 u from rfl, exf_div _ n0, SameRam.chol_eq h]
      have := cholUpdate_sim e3
      rw [← congrFun (congrFun this i) j]
      rfl
    · rw [if_neg hn] at e
      cases e
      rw [if_neg fun k => hn k.1]
      exact h
  | pinf => rw [ha] at e; cases e; rw [if_neg fun k => k.2]; exact h
  | ninf => rw [ha] at e; cases e; rw [if_neg fun k => k.2]; exact h
  | nan => rw [ha] at e; cases e; rw [if_neg fun k => k.2]; exact h

/-! ### steps -/

variable {μ ν : Type} [Target μ] [FTarget ν] {R : μ → ν → Prop}

theorem save_sim (hT : SameTarget (μ := μ) (ν := ν) d R) {p p1 : Par μ} {q : FPar ν} (h : SamePar d R p q) {θ : List ℝ} (hθ : θ.length = d)
    (e : p.save θ = .ok p1) : ∃ q1, q.save Arith.exact (θ.map .fin) = .ok q1 ∧ SamePar d R p1 q1 := by
  unfold Par.save at e
  obtain ⟨⟨o, v⟩, e1, e⟩ := bind_ok_inv e
  cases e
  obtain ⟨o', e2, hR⟩ := hT.ld _ _ θ o v h.obj hθ e1
  exact ⟨{ q with obj := o', value := θ.map .fin, logpost := v }, by simp only [FPar.save, e2, res_bind_ok]; rfl,
    hR, hθ, rfl, rfl, h.temp, h.samples, h.logposts⟩

theorem SameDraws.skipU {r : Rng} {r' : FRng} (h : SameDraws r r') : SameDraws r.nextU.2 { r' with unif := FRng.skip 1 r'.unif } :=
  ⟨fun k => h.unif (k + 1), h.stud⟩

theorem accept_sim (hM : ExactMach M) (hT : SameTarget (μ := μ) (ν := ν) d R) {p : Par μ} {q : FPar ν} (h : SamePar d R p q) {a : Ram d} {b : FRam d} (hab : SameRam a b)
    {θ : List ℝ} (hθ : θ.length = d) {r : Rng} {r' : FRng} (hr : SameDraws r r') {res : Accepted μ d} (e : a.accept p θ r = .ok res) :
    ∃ q1 r1, FRam.accept M q (θ.map .fin) r' = .ok (res.ok, q1, res.ram.alpha, r1) ∧ SamePar d R res.par q1 ∧ SameDraws res.rng r1 ∧
      SameRam res.ram { b with alpha := res.ram.alpha } := by
  unfold Ram.accept at e
  obtain ⟨⟨o, v⟩, e1, e⟩ := bind_ok_inv e
  obtain ⟨o', e2, hR⟩ := hT.ld _ _ θ o v h.obj hθ e1
  have hq : M.A.div (M.A.sub v q.logpost) q.temp = Dbl.div (v.sub p.logpost) (.fin p.temp) := by
    rw [hM.arith, ex_sub, ex_div, h.logpost, h.temp]
  have hp : SamePar d R { p with obj := o } { q with obj := o' } := ⟨hR, h.len, h.value, h.logpost, h.temp, h.samples, h.logposts⟩
  dsimp only at e
  unfold FRam.accept
  rw [hM.arith] at hq ⊢
  rw [e2, res_bind_ok]
  dsimp only
  rw [hq]
  by_cases hf : (Dbl.div (v.sub p.logpost) (.fin p.temp)).isFin
  · rw [if_neg (not_not.mpr hf)] at e ⊢
    rw [hr.unif 0, show Arith.exact.exp = Dbl.exp from rfl]
    by_cases hu : (Dbl.fin r.nextU.1).lt (Dbl.min (Dbl.div (v.sub p.logpost) (.fin p.temp)).exp (.fin 1))
    · have e' := (if_pos hu).symm.trans e
      cases e'
      refine ⟨{ q with obj := o' }, _, ?_, hp, SameDraws.skipU hr, hab.chol, hab.gamma, hab.target, hab.niter, hab.maxiter, rfl⟩
      have : decide ((Dbl.fin (r.unif 0)).lt (Dbl.min (Dbl.div (v.sub p.logpost) (.fin p.temp)).exp (.fin 1))) = true := decide_eq_true hu
      rw [this]
      rfl
    · have e' := (if_neg hu).symm.trans e
      cases e'
      refine ⟨{ q with obj := o' }, _, ?_, hp, SameDraws.skipU hr, hab.chol, hab.gamma, hab.target, hab.niter, hab.maxiter, rfl⟩
      have : decide ((Dbl.fin (r.unif 0)).lt (Dbl.min (Dbl.div (v.sub p.logpost) (.fin p.temp)).exp (.fin 1))) = false := decide_eq_false hu
      rw [this]
      rfl
  · rw [if_pos hf] at e ⊢
    cases e
    exact ⟨{ q with obj := o' }, r', rfl, hp, hr, hab.chol, hab.gamma, hab.target, hab.niter, hab.maxiter, rfl⟩

theorem ram_sim (hM : ExactMach M) (hT : SameTarget (μ := μ) (ν := ν) d R) {p p1 : Par μ} {q : FPar ν} (h : SamePar d R p q) {a a1 : Ram d} {b : FRam d} (hab : SameRam a b)
    {r r1 : Rng} {r' : FRng} (hr : SameDraws r r') (e : a.doStep p r = .ok (a1, p1, r1)) :
    ∃ b1 q1 r1', b.doStep M q r' = .ok (b1, q1, r1') ∧ SameRam a1 b1 ∧ SamePar d R p1 q1 ∧ SameDraws r1 r1' := by
  unfold Ram.doStep at e
  have hl : ¬ p.value.length ≠ d := not_not.mpr h.len
  rw [if_neg hl] at e
  have hlq : q.value.length = d := by rw [h.value]; simpa using h.len
  have hu : (fun i : Fin d => r'.stud i) = fun i : Fin d => .fin (r.stud i) := funext fun i => hr.stud i
  have hw : b.scaled M (fun i : Fin d => r'.stud i) = fun j => .fin (∑ i : Fin d, a.chol i j * r.stud i) := by
    funext j
    unfold FRam.scaled
    rw [hu, show (fun i => b.chol i j) = fun i => .fin (a.chol i j) from funext fun i => hab.chol i j]
    exact hM.dot _ _
  obtain ⟨θ, hθ⟩ : ∃ θ, θ = List.ofFn fun i : Fin d => p.value.getD i 0 + ∑ k : Fin d, a.chol k i * r.stud k := ⟨_, rfl⟩
  have hθq : (List.ofFn fun i : Fin d => M.A.add (q.value.getD i .nan) (b.scaled M (fun i : Fin d => r'.stud i) i)) = θ.map .fin := by
    rw [hθ, List.map_ofFn, hM.arith]
    congr 1
    funext i
    rw [hw, h.value, List.getD_eq_getElem _ _ (by simp [h.len]), List.getElem_map, exf_add, Function.comp, List.getD_eq_getElem _ _ (by simp [h.len])]
  have lθ : θ.length = d := by rw [hθ]; simp
  dsimp only at e
  rw [← hθ] at e
  obtain ⟨res, e1, e⟩ := bind_ok_inv e
  obtain ⟨q1, r2, e2, h1, hr1, hab1⟩ := accept_sim hM hT h hab lθ (r := { r with stud := Rng.skip d r.stud }) (r' := { r' with stud := FRng.skip d r'.stud })
    ⟨hr.unif, fun k => hr.stud (k + d)⟩ e1
  obtain ⟨p2, e3, e⟩ : ∃ p2, (if res.ok then res.par.save θ else pure res.par) = .ok p2 ∧
      (res.ram.adapt (fun i : Fin d => r.stud i) (fun j => ∑ i : Fin d, a.chol i j * r.stud i) >>= fun a =>
        pure ({ a with niter := a.niter + 1 }, p2, res.rng)) = Except.ok (a1, p1, r1) := by
    cases hb : res.ok with
    | true =>
      rw [hb] at e
      obtain ⟨p2, e3, e⟩ := bind_ok_inv e
      exact ⟨p2, e3, e⟩
    | false =>
      rw [hb] at e
      exact ⟨_, rfl, e⟩
  obtain ⟨a2, e4, e⟩ := bind_ok_inv e
  cases e
  have had := adapt_sim hM hab1 e4
  have hsv : ∃ q2, (if res.ok then q1.save Arith.exact (θ.map .fin) else pure q1) = .ok q2 ∧ SamePar d R p1 q2 := by
    cases hb : res.ok with
    | true =>
      rw [hb] at e3
      obtain ⟨q2, e5, h2⟩ := save_sim hT h1 lθ e3
      exact ⟨q2, e5, h2⟩
    | false =>
      rw [hb] at e3
      cases e3
      exact ⟨q1, rfl, h1⟩
  obtain ⟨q2, e5, h2⟩ := hsv
  refine ⟨{ ({ b with alpha := res.ram.alpha } : FRam d).adapt M (fun i : Fin d => r'.stud i) (b.scaled M fun i : Fin d => r'.stud i) with
    niter := (({ b with alpha := res.ram.alpha } : FRam d).adapt M (fun i : Fin d => r'.stud i) (b.scaled M fun i : Fin d => r'.stud i)).niter + 1 },
    q2, r2, ?_, ?_, h2, hr1⟩
  · unfold FRam.doStep
    rw [if_neg (not_not.mpr hlq)]
    dsimp only
    rw [hθq, e2, res_bind_ok]
    dsimp only
    rw [show M.A = Arith.exact from hM.arith]
    cases hb : res.ok with
    | true =>
      rw [hb] at e5
      have e5' : q1.save Arith.exact (θ.map .fin) = .ok q2 := e5
      rw [if_pos rfl, e5', res_bind_ok]
      rfl
    | false =>
      rw [hb] at e5
      cases e5
      rfl
  · rw [hw, hu]
    exact ⟨had.chol, had.gamma, had.target, congrArg (· + 1) had.niter, had.maxiter, had.alpha⟩

/-! ### exchange -/

omit [FTarget ν] [Target μ] in
theorem swap_sim (t u : ℝ) (a b : Dbl) : fswapProb Arith.exact (.fin t) (.fin u) a b = swapProb t u a b := by
  unfold fswapProb swapProb
  simp only [ex_add, ex_sub, ex_mul, ex_div]
  rfl

theorem rdU_sim {α β : Type} {P : α → β → Prop} {l : List α} {m : List β} (h : List.Forall₂ P l m) {i : ℕ} {a : α} (e : rdU l i = .ok a) :
    ∃ b, rdU m i = .ok b ∧ P a b := by
  unfold rdU at e ⊢
  cases hi : l[i]? with
  | none => rw [hi] at e; cases e
  | some x =>
    rw [hi] at e
    cases e
    obtain ⟨hl, rfl⟩ := List.getElem?_eq_some_iff.mp hi
    have hm : i < m.length := h.length_eq ▸ hl
    rw [List.getElem?_eq_getElem hm]
    exact ⟨_, rfl, h.get hl hm⟩

theorem set_sim {α β : Type} {P : α → β → Prop} {l : List α} {m : List β} (h : List.Forall₂ P l m) (i : ℕ) {a : α} {b : β} (hab : P a b) :
    List.Forall₂ P (l.set i a) (m.set i b) := by
  induction h generalizing i with
  | nil => exact .nil
  | cons hx ht ih =>
    cases i with
    | zero => exact .cons hab ht
    | succ i => exact .cons hx (ih i)

theorem exch_sim (hM : ExactMach M) (hT : SameTarget (μ := μ) (ν := ν) d R) {ps ps1 : List (Par μ)} {qs : List (FPar ν)} (h : List.Forall₂ (SamePar d R) ps qs)
    {e e1 : Exch} {r r1 : Rng} {r' : FRng} (hr : SameDraws r r') (ee : e.doStep ps r = .ok (e1, ps1, r1)) :
    e1.idx = e.idx ∧ ∃ qs1 r1', fexchange M.A e.idx qs r' = .ok (qs1, r1') ∧ List.Forall₂ (SamePar d R) ps1 qs1 ∧ SameDraws r1 r1' := by
  unfold Exch.doStep at ee
  obtain ⟨this, e1', ee⟩ := bind_ok_inv ee
  obtain ⟨j, e2, ee⟩ := bind_ok_inv ee
  obtain ⟨other, e3, ee⟩ := bind_ok_inv ee
  obtain ⟨this', f1, h1⟩ := rdU_sim h e1'
  obtain ⟨other', f3, h3⟩ := rdU_sim h e3
  dsimp only at ee
  obtain ⟨⟨ps2, acc⟩, e4, ee⟩ := bind_ok_inv ee
  cases ee
  refine ⟨rfl, ?_⟩
  unfold fexchange
  rw [f1, res_bind_ok, e2, res_bind_ok, f3, res_bind_ok]
  dsimp only
  rw [show M.A = Arith.exact from hM.arith, h1.temp, h3.temp, h1.logpost, h3.logpost, swap_sim, hr.unif 0]
  by_cases hu : (Dbl.fin r.nextU.1).lt (swapProb this.temp other.temp this.logpost other.logpost)
  · rw [if_pos hu] at e4
    obtain ⟨t', e5, e4⟩ := bind_ok_inv e4
    obtain ⟨o', e6, e4⟩ := bind_ok_inv e4
    cases e4
    obtain ⟨tq, f5, h5⟩ := save_sim hT h1 h3.len e5
    unfold Par.saveStale at e6
    obtain ⟨v, e7, e6⟩ := bind_ok_inv e6
    cases e6
    obtain ⟨v', f7⟩ := hT.stale _ _ _ _ h3.obj h1.len e7
    refine ⟨(qs.set e.idx { tq with logpost := other.logpost }).set j { other' with value := this.value.map .fin, logpost := this.logpost },
      { r' with unif := FRng.skip 1 r'.unif }, ?_, set_sim (set_sim h _ ?_) _ ?_, SameDraws.skipU hr⟩
    · rw [if_pos (show (Dbl.fin (r.unif 0)).lt (swapProb this.temp other.temp this.logpost other.logpost) from hu), h3.value, f5, res_bind_ok]
      unfold FPar.saveStale
      rw [h1.value, f7]
      rfl
    · exact ⟨h5.obj, h5.len, h5.value, rfl, h5.temp, h5.samples, h5.logposts⟩
    · exact ⟨h3.obj, h1.len, rfl, rfl, h3.temp, h3.samples, h3.logposts⟩
  · rw [if_neg hu] at e4
    cases e4
    exact ⟨qs, { r' with unif := FRng.skip 1 r'.unif }, if_neg hu, h, SameDraws.skipU hr⟩

/-! ### sampler -/

theorem doStep_sim (hM : ExactMach M) (hT : SameTarget (μ := μ) (ν := ν) d R) {s s1 : Samp μ d} {t : FSamp ν d} (h : SameSamp d R s t) (k : ℕ) (e : s.doStep k = .ok s1) :
    ∃ t1, t.doStep M k = .ok t1 ∧ SameSamp d R s1 t1 := by
  unfold Samp.doStep at e
  obtain ⟨st, e1, e⟩ := bind_ok_inv e
  obtain ⟨st', f1, hst⟩ := rdU_sim h.steps e1
  unfold FSamp.doStep
  rw [f1, res_bind_ok]
  cases hst with
  | @ram a b i hab =>
    dsimp only at e ⊢
    obtain ⟨p, e2, e⟩ := bind_ok_inv e
    obtain ⟨⟨a1, p1, r1⟩, e3, e⟩ := bind_ok_inv e
    cases e
    obtain ⟨q, f2, hp⟩ := rdU_sim h.chains e2
    obtain ⟨b1, q1, r1', f3, hab1, hp1, hr1⟩ := ram_sim hM hT hp hab h.draws e3
    rw [f2, res_bind_ok, f3, res_bind_ok]
    exact ⟨_, rfl, set_sim h.chains _ hp1, set_sim h.steps _ (.ram i hab1), h.tracked, hr1⟩
  | exch x =>
    dsimp only at e ⊢
    obtain ⟨⟨x1, ps1, r1⟩, e3, e⟩ := bind_ok_inv e
    cases e
    obtain ⟨hx, qs1, r1', f3, hp1, hr1⟩ := exch_sim hM hT h.chains h.draws e3
    rw [f3, res_bind_ok]
    refine ⟨_, rfl, hp1, ?_, h.tracked, hr1⟩
    have : List.Forall₂ SameStep (s.steps.set k (.exch x1)) (t.steps.set k (.exch x1.idx)) := set_sim h.steps k (.exch x1)
    rw [hx] at this
    have hk : t.steps.set k (.exch x.idx) = t.steps := by
      unfold rdU at f1
      cases hi : t.steps[k]? with
      | none => rw [hi] at f1; cases f1
      | some y =>
        rw [hi] at f1
        cases f1
        obtain ⟨hl, hy⟩ := List.getElem?_eq_some_iff.mp hi
        rw [← hy]
        exact List.set_getElem_self hl
    rw [hk] at this
    exact this

theorem stepLoop_sim (hM : ExactMach M) (hT : SameTarget (μ := μ) (ν := ν) d R) {s : Samp μ d} {t : FSamp ν d} (h : SameSamp d R s t) :
    ∀ (m : ℕ) (s1 : Samp μ d), s.stepLoop m = .ok s1 → ∃ t1, t.stepLoop M m = .ok t1 ∧ SameSamp d R s1 t1
  | 0, s1, e => by cases e; exact ⟨t, rfl, h⟩
  | m + 1, s1, e => by
      obtain ⟨s2, e1, e⟩ := bind_ok_inv e
      obtain ⟨t2, f1, h2⟩ := stepLoop_sim hM hT h m s2 e1
      obtain ⟨t1, f2, h1⟩ := doStep_sim hM hT h2 m e
      exact ⟨t1, by rw [FSamp.stepLoop, f1, res_bind_ok, f2], h1⟩

theorem sweep_sim (hM : ExactMach M) (hT : SameTarget (μ := μ) (ν := ν) d R) {s s1 : Samp μ d} {t : FSamp ν d} (h : SameSamp d R s t) (e : s.sweep = .ok s1) :
    ∃ t1, t.sweep M = .ok t1 ∧ SameSamp d R s1 t1 := by
  unfold FSamp.sweep
  rw [← h.steps.length_eq]
  exact stepLoop_sim hM hT h _ s1 e

theorem iterate_sim (hM : ExactMach M) (hT : SameTarget (μ := μ) (ν := ν) d R) {s : Samp μ d} {t : FSamp ν d} (h : SameSamp d R s t) :
    ∀ (n : ℕ) (s1 : Samp μ d), s.iterate n = .ok s1 → ∃ t1, t.iterate M n = .ok t1 ∧ SameSamp d R s1 t1
  | 0, s1, e => by cases e; exact ⟨t, rfl, h⟩
  | n + 1, s1, e => by
      obtain ⟨s2, e1, e⟩ := bind_ok_inv e
      obtain ⟨t2, f1, h2⟩ := iterate_sim hM hT h n s2 e1
      obtain ⟨t1, f2, h1⟩ := sweep_sim hM hT h2 e
      refine ⟨t1, ?_, h1⟩
      unfold FSamp.iterate at f1 ⊢
      rw [iter, f1, res_bind_ok, f2]

theorem wrU_sim {α β : Type} (f : α → β) {l l1 : List α} {k : ℕ} {a : α} (e : wrU l k a = .ok l1) : wrU (l.map f) k (f a) = .ok (l1.map f) := by
  unfold wrU at e ⊢
  by_cases hk : k < l.length
  · rw [if_pos hk] at e
    cases e
    rw [if_pos (by simpa using hk), List.map_set]
  · rw [if_neg hk] at e; cases e

theorem record_sim {s s1 : Samp μ d} {t : FSamp ν d} (h : SameSamp d R s t) (k : ℕ) (e : s.saveValues k s.tracked = .ok s1) :
    ∃ t1, t.saveValues k = .ok t1 ∧ SameSamp d R s1 t1 := by
  obtain ⟨label, ht⟩ := h.tracked
  rw [ht] at e
  unfold Samp.saveValues at e
  obtain ⟨s2, e1, e⟩ := bind_ok_inv e
  cases e1
  obtain ⟨p, e2, e⟩ := bind_ok_inv e
  obtain ⟨p1, e3, e⟩ := bind_ok_inv e
  cases e
  obtain ⟨q, f2, hp⟩ := rdU_sim h.chains e2
  unfold Par.addToSample at e3
  obtain ⟨l1, e4, e3⟩ := bind_ok_inv e3
  obtain ⟨l2, e5, e3⟩ := bind_ok_inv e3
  cases e3
  unfold FSamp.saveValues FPar.addToSample
  rw [f2, res_bind_ok, hp.samples, hp.value, wrU_sim (fun θ : List ℝ => θ.map Dbl.fin) e4, res_bind_ok, hp.logposts, hp.logpost, e5, res_bind_ok]
  exact ⟨_, rfl, set_sim h.chains _ ⟨hp.obj, hp.len, rfl, rfl, hp.temp, rfl, rfl⟩, h.steps, ⟨label, ht⟩, h.draws⟩

theorem sampleLoop_sim (hM : ExactMach M) (hT : SameTarget (μ := μ) (ν := ν) d R) (thin : ℕ) {s : Samp μ d} {t : FSamp ν d} (h : SameSamp d R s t) :
    ∀ (n : ℕ) (s1 : Samp μ d), s.sampleLoop thin n = .ok s1 → ∃ t1, t.sampleLoop M thin n = .ok t1 ∧ SameSamp d R s1 t1
  | 0, s1, e => by cases e; exact ⟨t, rfl, h⟩
  | n + 1, s1, e => by
      obtain ⟨s2, e1, e⟩ := bind_ok_inv e
      obtain ⟨s3, e2, e⟩ := bind_ok_inv e
      obtain ⟨t2, f1, h2⟩ := sampleLoop_sim hM hT thin h n s2 e1
      obtain ⟨t3, f2, h3⟩ := iterate_sim hM hT h2 thin s3 e2
      obtain ⟨t1, f3, h1⟩ := record_sim h3 n e
      exact ⟨t1, by rw [FSamp.sampleLoop, f1, res_bind_ok, f2, res_bind_ok, f3], h1⟩

end Verif.Theory
