import Verif.Theory.RunNull

/-!
The sweeps of the sampler, adaptive or not, are the maps of `Verif.Theory.RunMap`.
-/

namespace Verif.Theory

open Verif.Model Verif.Spec MeasureTheory

open scoped Classical

variable {μ : Type} [Target μ] {d N : ℕ} {inv : μ → Prop} {G : LogTarget d}

/-- A RAM step that returns. -/
theorem ram_any (hT : HasTarget μ inv G) {a a' : Ram d} {s s' : Par μ} (hs : inv s.obj) {x : Fin d → ℝ}
    (hx : s.value = List.ofFn x) (hl : Agrees s.logpost (G x)) (ht : s.temp ≠ 0) {r r' : Rng} (hg : a.gamma = 2 / 3) (htg : a.target = 0.25)
    (h : a.doStep s r = .ok (a', s', r')) {y : Fin d → ℝ} (hy : y = propT (fun i j => a.chol i j) x r.stud) :
    (a'.gamma = 2 / 3 ∧ a'.target = 0.25 ∧ a'.maxiter = a.maxiter ∧ a'.niter = a.niter + 1 ∧
      a'.chol = if a.niter < a.maxiter then adaptT a.niter (alphaT G s.temp x y, fun i j => a.chol i j, fun m => r.stud m) else a.chol) ∧
      inv s'.obj ∧ s'.temp = s.temp ∧ r'.stud = Rng.skip d r.stud ∧
      (((G x).isSome = true ∧ (G y).isSome = true) →
        r'.unif = Rng.skip 1 r.unif ∧
        (r.unif 0 < min 1 (Real.exp (((G y).getD 0 - (G x).getD 0) / s.temp)) → s'.value = List.ofFn y ∧ Agrees s'.logpost (G y)) ∧
        (¬ r.unif 0 < min 1 (Real.exp (((G y).getD 0 - (G x).getD 0) / s.temp)) → s'.value = List.ofFn x ∧ Agrees s'.logpost (G x))) ∧
      (¬ ((G x).isSome = true ∧ (G y).isSome = true) → r'.unif = r.unif ∧ s'.value = List.ofFn x ∧ Agrees s'.logpost (G x)) := by
  have hlen : s.value.length = d := by rw [hx]; simp
  have hθ : (List.ofFn fun i : Fin d => s.value.getD i 0 + ∑ k, a.chol k i * r.stud k) = List.ofFn y := by
    rw [hy]
    congr 1
    funext j
    rw [hx, getD_ofFn]
    rfl
  obtain ⟨o, v, h1, h2, h3⟩ := hT.ld s.obj y hs
  unfold Ram.doStep at h
  simp only [hlen, ne_eq, not_true, if_false, hθ] at h
  by_cases hb : (G x).isSome = true ∧ (G y).isSome = true
  · have e1 := agrees_some hl hb.1
    have e2 := agrees_some h3 hb.2
    rw [e2] at h1
    have hacc := accept_fin (a := a) (r := { r with stud := Rng.skip d r.stud }) h1 e1 ht
    have hal : alphaT G s.temp x y = min 1 (Real.exp (((G y).getD 0 - (G x).getD 0) / s.temp)) := by
      rw [alphaT, if_pos hb]
    rw [hacc] at h
    simp only [res_bind_ok] at h
    by_cases hu : r.unif 0 < min 1 (Real.exp (((G y).getD 0 - (G x).getD 0) / s.temp))
    · obtain ⟨o', v', g1, g2, g3⟩ := hT.ld o y h2
      have hsave : ({ s with obj := o } : Par μ).save (List.ofFn y) = .ok { s with obj := o', value := List.ofFn y, logpost := v' } := by
        unfold Par.save
        simp only [g1, res_bind_ok]
        rfl
      simp only [hu, if_true, hsave, res_bind_ok] at h
      obtain ⟨b, hb1, h⟩ := bind_ok_inv h
      obtain ⟨k1, k2, k3, k4, k5⟩ := adapt_inv (a := { a with alpha := .fin (min 1 (Real.exp (((G y).getD 0 - (G x).getD 0) / s.temp))), naccept := a.naccept + 1 })
        rfl hg htg rfl hb1
      injection h with h
      injection h with h9 h
      injection h with h10 h11
      rw [← h9, ← h10, ← h11]
      rw [← hal] at k5
      exact ⟨⟨k1.trans hg, k2.trans htg, k4, congrArg (· + 1) k3, k5⟩, g2, rfl, rfl, fun _ => ⟨rfl, fun _ => ⟨rfl, g3⟩, fun hn => absurd hu hn⟩, fun hn => absurd hb hn⟩
    · simp only [hu, if_false, res_pure, res_bind_ok, Bool.false_eq_true] at h
      obtain ⟨b, hb1, h⟩ := bind_ok_inv h
      obtain ⟨k1, k2, k3, k4, k5⟩ := adapt_inv (a := { a with alpha := .fin (min 1 (Real.exp (((G y).getD 0 - (G x).getD 0) / s.temp))) })
        rfl hg htg rfl hb1
      injection h with h
      injection h with h9 h
      injection h with h10 h11
      rw [← h9, ← h10, ← h11]
      rw [← hal] at k5
      exact ⟨⟨k1.trans hg, k2.trans htg, k4, congrArg (· + 1) k3, k5⟩, h2, rfl, rfl, fun _ => ⟨rfl, fun hn => absurd hn hu, fun _ => ⟨hx, hl⟩⟩, fun hn => absurd hb hn⟩
  · have hnf : ¬ (Dbl.div (v.sub s.logpost) (.fin s.temp)).isFin := by
      intro hcon
      have := dbl_sub_fin (dbl_div_fin hcon)
      exact hb ⟨(agrees_fin hl).mp this.2, (agrees_fin h3).mp this.1⟩
    have hal : alphaT G s.temp x y = 0 := by rw [alphaT, if_neg hb]
    have hacc : a.accept s (List.ofFn y) { r with stud := Rng.skip d r.stud } =
        .ok ⟨false, { s with obj := o }, { a with alpha := .fin 0 }, { r with stud := Rng.skip d r.stud }⟩ := by
      unfold Ram.accept
      rw [h1]
      simp only [res_bind_ok, hnf, not_false_eq_true, if_true]
      rfl
    rw [hacc] at h
    simp only [res_bind_ok, Bool.false_eq_true, if_false, res_pure] at h
    obtain ⟨b, hb1, h⟩ := bind_ok_inv h
    obtain ⟨k1, k2, k3, k4, k5⟩ := adapt_inv (a := { a with alpha := .fin 0 }) rfl hg htg rfl hb1
    injection h with h
    injection h with h9 h
    injection h with h10 h11
    rw [← h9, ← h10, ← h11]
    rw [← hal] at k5
    exact ⟨⟨k1.trans hg, k2.trans htg, k4, congrArg (· + 1) k3, k5⟩, h2, rfl, rfl, fun hn => absurd hn hb, fun _ => ⟨rfl, hx, hl⟩⟩

/-- The sampler stands at `z`, after the first `m` steps of sweep `k`. -/
structure Stand (inv : μ → Prop) (G : LogTarget d) (T : Fin N → ℝ) (B : ℕ) (l : List (Bool × ℕ)) (k m : ℕ) (s : Samp μ d) (z : RunZ N d) : Prop where
  length : s.chains.length = N
  chain : ∀ (i : Fin N) c, s.chains[(i : ℕ)]? = some c → inv c.obj ∧ c.temp = T i ∧ c.value = List.ofFn (z.1.1 i) ∧ Agrees c.logpost (G (z.1.1 i))
  stud : s.rng.stud = z.2.1
  unif : s.rng.unif = z.2.2
  kinds : s.steps.map stepKind = l
  ram : ∀ (j : ℕ) (i : Fin N) a, s.steps[j]? = some (.ram i a) →
    a.chol = Matrix.of (z.1.2.1 i) ∧ a.gamma = 2 / 3 ∧ a.target = 0.25 ∧ a.maxiter = B ∧ a.niter = if j < m then k + 1 else k

theorem steps_set_cases {l : List (StepSt d)} {i k : ℕ} {p c : StepSt d} (h : (l.set i p)[k]? = some c) :
    (k = i ∧ c = p) ∨ (k ≠ i ∧ l[k]? = some c) := by
  by_cases hk : k = i
  · subst hk
    rw [List.getElem?_set_self'] at h
    cases hl : l[k]? with
    | none => rw [hl] at h; cases h
    | some x => rw [hl] at h; exact Or.inl ⟨rfl, by simpa using h.symm⟩
  · rw [List.getElem?_set_ne (by omega)] at h
    exact Or.inr ⟨hk, h⟩

theorem stand_ram (hT : HasTarget μ inv G) {T : Fin N → ℝ} (hpos : ∀ i, 0 < T i) {B k m : ℕ} {l : List (Bool × ℕ)} (hnd : l.Nodup) {i : ℕ} (hi : i < N)
    (hm : l[m]? = some (true, i)) {s s' : Samp μ d} {z : RunZ N d} (h : Stand inv G T B l k m s z) (hd : s.doStep m = .ok s') :
    Stand inv G T B l k (m + 1) s' (ramX G T B k ⟨i, hi⟩ z) := by
  unfold Samp.doStep at hd
  obtain ⟨st, g1, hd⟩ := bind_ok_inv hd
  have g1 := rdU_inv g1
  have hkd : stepKind st = (true, i) := by
    have := h.kinds ▸ hm
    rw [List.getElem?_map, g1] at this
    simpa using this
  cases st with
  | exch e => cases hkd
  | ram i' a =>
      obtain rfl : i' = i := by injection hkd
      obtain ⟨c, g2, hd⟩ := bind_ok_inv hd
      obtain ⟨⟨a', c', r'⟩, g3, hd⟩ := bind_ok_inv hd
      injection hd with hd
      have g2 := rdU_inv g2
      obtain ⟨c1, c2, c3, c4⟩ := h.chain ⟨i', hi⟩ c g2
      obtain ⟨a1, a2, a3, a4, a5⟩ := h.ram m ⟨i', hi⟩ a g1
      rw [if_neg (lt_irrefl m)] at a5
      have hy : propT (z.1.2.1 ⟨i', hi⟩) (z.1.1 ⟨i', hi⟩) z.2.1 = propT (fun i j => a.chol i j) (z.1.1 ⟨i', hi⟩) s.rng.stud := by
        rw [a1, h.stud]; rfl
      obtain ⟨⟨e1, e2, e3, e4, e5⟩, e6, e7, e8, e9, e10⟩ := ram_any hT c1 c3 c4 (by rw [c2]; exact (hpos _).ne') a2 a3 g3 hy
      rw [c2] at e5 e9
      rw [a4, a5] at e5
      -- the factors after the step
      have hL : ∀ (L' : Fin N → Fin d → Fin d → ℝ), L' = (propX G T B k ⟨i', hi⟩ (z.1, z.2.1)).2.1 → ∀ (j : ℕ) (q : Fin N) b,
          (s.steps.set m (.ram i' a'))[j]? = some (.ram q b) →
          b.chol = Matrix.of (L' q) ∧ b.gamma = 2 / 3 ∧ b.target = 0.25 ∧ b.maxiter = B ∧ b.niter = if j < m + 1 then k + 1 else k := by
        rintro L' rfl j q b hj
        rcases steps_set_cases hj with ⟨rfl, hb⟩ | ⟨hne, hj⟩
        · injection hb with hb1 hb2
          obtain rfl : q = ⟨i', hi⟩ := Fin.ext hb1
          rw [hb2]
          refine ⟨?_, e1, e2, e3.trans a4, by rw [e4, a5, if_pos (by omega)]⟩
          rw [e5]
          unfold propX
          by_cases hkB : k < B
          · simp only [hkB, if_true, Function.update_self]
            rw [a1, h.stud]
            rfl
          · simp only [hkB, if_false]
            exact a1
        · obtain ⟨b1, b2, b3, b4, b5⟩ := h.ram j q b hj
          have hqi : q ≠ ⟨i', hi⟩ := by
            rintro rfl
            refine hne ?_
            have h1 : l[j]? = some (true, i') := by rw [← h.kinds, List.getElem?_map, hj]; rfl
            obtain ⟨p1, p1'⟩ := List.getElem?_eq_some_iff.mp h1
            obtain ⟨p2, p2'⟩ := List.getElem?_eq_some_iff.mp hm
            exact (hnd.getElem_inj_iff).mp (p1'.trans p2'.symm)
          refine ⟨?_, b2, b3, b4, ?_⟩
          · rw [b1]
            unfold propX
            by_cases hkB : k < B
            · simp only [hkB, if_true, Function.update_of_ne hqi]
            · simp only [hkB, if_false]
          · rw [b5]
            by_cases hjm : j < m
            · rw [if_pos hjm, if_pos (by omega)]
            · rw [if_neg hjm, if_neg (by omega)]
      have hkinds : (s.steps.set m (.ram i' a')).map stepKind = l := by
        rw [List.map_set, h.kinds]
        obtain ⟨p2, p2'⟩ := List.getElem?_eq_some_iff.mp hm
        have : stepKind (.ram i' a' : StepSt d) = l[m] := p2'.symm
        rw [this, List.set_getElem_self]
      have build : ∀ (w : Fin N → Fin d → ℝ) (u' : ℕ → ℝ), (∀ q, q ≠ ⟨i', hi⟩ → w q = z.1.1 q) → c'.value = List.ofFn (w ⟨i', hi⟩) →
          Agrees c'.logpost (G (w ⟨i', hi⟩)) → r'.unif = u' →
          Stand inv G T B l k (m + 1) s' ((w, (propX G T B k ⟨i', hi⟩ (z.1, z.2.1)).2), Rng.skip d z.2.1, u') := by
        intro w u' hw hv hLp hu
        rw [← hd]
        refine ⟨by simpa using h.length, ?_, by rw [← h.stud]; exact e8, hu, hkinds, hL _ rfl⟩
        intro q c'' hq
        rcases getElem?_set_cases hq with ⟨hqi, rfl⟩ | ⟨hqi, hq⟩
        · obtain rfl : q = ⟨i', hi⟩ := Fin.ext hqi
          exact ⟨e6, e7.trans c2, hv, hLp⟩
        · have hne : q ≠ ⟨i', hi⟩ := fun hc => hqi (congrArg Fin.val hc)
          have := h.chain q c'' hq
          rw [← hw q hne] at this
          exact this
      unfold ramX accX metroMap
      by_cases hF : (G (z.1.1 ⟨i', hi⟩)).isSome = true ∧ (G (propT (z.1.2.1 ⟨i', hi⟩) (z.1.1 ⟨i', hi⟩) z.2.1)).isSome = true
      · obtain ⟨f1, f2, f3⟩ := e9 hF
        have hF' : ((propX G T B k ⟨i', hi⟩ (z.1, z.2.1), Rng.skip d z.2.1) : RunX N d × (ℕ → ℝ)) ∈
            {z : RunX N d × (ℕ → ℝ) | (G (z.1.1 ⟨i', hi⟩)).isSome = true ∧ (G z.1.2.2).isSome = true} := hF
        simp only [hF', if_true]
        by_cases hu : z.2.2 0 < min 1 (Real.exp (((G (propT (z.1.2.1 ⟨i', hi⟩) (z.1.1 ⟨i', hi⟩) z.2.1)).getD 0 - (G (z.1.1 ⟨i', hi⟩)).getD 0) / T ⟨i', hi⟩))
        · have hu2 : z.2.2 0 < min 1 (Real.exp (((G (propX G T B k ⟨i', hi⟩ (z.1, z.2.1)).2.2).getD 0 -
            (G ((propX G T B k ⟨i', hi⟩ (z.1, z.2.1)).1 ⟨i', hi⟩)).getD 0) / T ⟨i', hi⟩)) := hu
          simp only [hu2, if_true]
          rw [← h.unif] at hu
          obtain ⟨k1, k2⟩ := f2 hu
          have hs : Function.update z.1.1 ⟨i', hi⟩ (propT (z.1.2.1 ⟨i', hi⟩) (z.1.1 ⟨i', hi⟩) z.2.1) ⟨i', hi⟩ = propT (z.1.2.1 ⟨i', hi⟩) (z.1.1 ⟨i', hi⟩) z.2.1 :=
            Function.update_self _ _ _
          exact build (Function.update z.1.1 ⟨i', hi⟩ (propT (z.1.2.1 ⟨i', hi⟩) (z.1.1 ⟨i', hi⟩) z.2.1)) (Rng.skip 1 z.2.2)
            (fun q hq => Function.update_of_ne hq _ _) (by rw [hs]; exact k1) (by rw [hs]; exact k2) (by rw [f1, h.unif])
        · have hu2 : ¬ z.2.2 0 < min 1 (Real.exp (((G (propX G T B k ⟨i', hi⟩ (z.1, z.2.1)).2.2).getD 0 -
            (G ((propX G T B k ⟨i', hi⟩ (z.1, z.2.1)).1 ⟨i', hi⟩)).getD 0) / T ⟨i', hi⟩)) := hu
          simp only [hu2, if_false]
          rw [← h.unif] at hu
          obtain ⟨k1, k2⟩ := f3 hu
          exact build z.1.1 (Rng.skip 1 z.2.2) (fun q _ => rfl) k1 k2 (by rw [f1, h.unif])
      · obtain ⟨f1, f2, f3⟩ := e10 hF
        have hF' : ((propX G T B k ⟨i', hi⟩ (z.1, z.2.1), Rng.skip d z.2.1) : RunX N d × (ℕ → ℝ)) ∉
            {z : RunX N d × (ℕ → ℝ) | (G (z.1.1 ⟨i', hi⟩)).isSome = true ∧ (G z.1.2.2).isSome = true} := hF
        simp only [hF', if_false]
        exact build z.1.1 z.2.2 (fun q _ => rfl) f2 f3 (by rw [f1, h.unif])

theorem stand_exch (hT : HasTarget μ inv G) {T : Fin N → ℝ} (hpos : ∀ i, 0 < T i) {B k m : ℕ} {l : List (Bool × ℕ)} {i : ℕ} (hN : i < N) (h0 : 0 < i)
    (hm : l[m]? = some (false, i)) {s s' : Samp μ d} {z : RunZ N d} (h : Stand inv G T B l k m s z) (hd : s.doStep m = .ok s') :
    Stand inv G T B l k (m + 1) s' (exchX G T ⟨i, hN⟩ ⟨i - 1, by omega⟩ z) := by
  unfold Samp.doStep at hd
  obtain ⟨st, g1, hd⟩ := bind_ok_inv hd
  have g1 := rdU_inv g1
  have hkd : stepKind st = (false, i) := by
    have := h.kinds ▸ hm
    rw [List.getElem?_map, g1] at this
    simpa using this
  cases st with
  | ram i' a => cases hkd
  | exch e =>
      obtain rfl : e.idx = i := by injection hkd
      have hj : e.idx - 1 < N := by omega
      have hc : s.chains[e.idx]? = some (s.chains[e.idx]'(by rw [h.length]; exact hN)) := List.getElem?_eq_getElem _
      have ho : s.chains[e.idx - 1]? = some (s.chains[e.idx - 1]'(by rw [h.length]; exact hj)) := List.getElem?_eq_getElem _
      generalize s.chains[e.idx]'(by rw [h.length]; exact hN) = this at hc
      generalize s.chains[e.idx - 1]'(by rw [h.length]; exact hj) = other at ho
      obtain ⟨c1, c2, c3, c4⟩ := h.chain ⟨e.idx, hN⟩ this hc
      obtain ⟨o1, o2, o3, o4⟩ := h.chain ⟨e.idx - 1, hj⟩ other ho
      dsimp only at hd
      unfold Exch.doStep at hd
      rw [rdU_ok hc] at hd
      simp only [res_bind_ok, show e.idx ≠ 0 by omega, if_false, rdU_ok ho] at hd
      have hprob : swapProb this.temp other.temp this.logpost other.logpost = .fin (swapAcc G T ⟨e.idx, hN⟩ ⟨e.idx - 1, hj⟩ (z.1.1, z.2.1)) := by
        rw [c2, o2]
        obtain ⟨p1, p2⟩ := Props.C26_swap_probability (hpos ⟨e.idx, hN⟩) (hpos ⟨e.idx - 1, hj⟩) this.logpost other.logpost
        unfold swapAcc
        by_cases hb : (G (z.1.1 ⟨e.idx, hN⟩)).isSome = true ∧ (G (z.1.1 ⟨e.idx - 1, hj⟩)).isSome = true
        · rw [if_pos hb]
          exact p1 _ _ (agrees_some c4 hb.1) (agrees_some o4 hb.2)
        · rw [if_neg hb]
          exact p2 fun hcon => hb ⟨(agrees_fin c4).mp hcon.1, (agrees_fin o4).mp hcon.2⟩
      rw [hprob] at hd
      have hlt : (Dbl.fin s.rng.nextU.1).lt (.fin (swapAcc G T ⟨e.idx, hN⟩ ⟨e.idx - 1, hj⟩ (z.1.1, z.2.1))) ↔
          z.2.2 0 < swapAcc G T ⟨e.idx, hN⟩ ⟨e.idx - 1, hj⟩ (z.1.1, z.2.1) := by
        rw [← h.unif]; exact Iff.rfl
      have hkinds : ∀ e' : Exch, e'.idx = e.idx → (s.steps.set m (.exch e')).map stepKind = l := by
        intro e' he'
        rw [List.map_set, h.kinds]
        obtain ⟨p2, p2'⟩ := List.getElem?_eq_some_iff.mp hm
        have : stepKind (.exch e' : StepSt d) = l[m] := by rw [p2']; show (false, e'.idx) = _; rw [he']
        rw [this, List.set_getElem_self]
      have hram : ∀ e' : Exch, ∀ (j : ℕ) (q : Fin N) b, (s.steps.set m (.exch e'))[j]? = some (.ram q b) →
          b.chol = Matrix.of (z.1.2.1 q) ∧ b.gamma = 2 / 3 ∧ b.target = 0.25 ∧ b.maxiter = B ∧ b.niter = if j < m + 1 then k + 1 else k := by
        intro e' j q b hj
        rcases steps_set_cases hj with ⟨rfl, hb⟩ | ⟨hne, hj⟩
        · cases hb
        · obtain ⟨b1, b2, b3, b4, b5⟩ := h.ram j q b hj
          refine ⟨b1, b2, b3, b4, ?_⟩
          rw [b5]
          by_cases hjm : j < m
          · rw [if_pos hjm, if_pos (by omega)]
          · rw [if_neg hjm, if_neg (by omega)]
      unfold exchX metroMap
      simp only [Set.mem_univ, if_true]
      by_cases hu : z.2.2 0 < swapAcc G T ⟨e.idx, hN⟩ ⟨e.idx - 1, hj⟩ (z.1.1, z.2.1)
      · obtain ⟨q, v, q1, q2, q3⟩ := hT.ld this.obj (z.1.1 ⟨e.idx - 1, hj⟩) c1
        obtain ⟨w, w1⟩ := hT.stale other.obj (z.1.1 ⟨e.idx, hN⟩) o1
        have s1 : this.save other.value = .ok { this with obj := q, value := other.value, logpost := v } := by
          unfold Par.save; rw [o3, q1]; rfl
        have s2 : other.saveStale this.value = .ok { other with value := this.value, logpost := w } := by
          unfold Par.saveStale; rw [c3, w1]; rfl
        simp only [hlt.mpr hu, hu, if_true, s1, s2, res_bind_ok, res_pure] at hd ⊢
        injection hd with hd
        rw [← hd]
        refine ⟨by simpa using h.length, ?_, h.stud, by rw [← h.unif]; rfl, hkinds _ rfl, hram _⟩
        intro m' c' hm
        rcases getElem?_set_cases hm with ⟨hmi, rfl⟩ | ⟨hmi, hm⟩
        · obtain rfl : m' = ⟨e.idx - 1, hj⟩ := Fin.ext hmi
          refine ⟨o1, o2, ?_, ?_⟩
          · simp only [swapMove, Equiv.swap_apply_right]; exact c3
          · simp only [swapMove, Equiv.swap_apply_right]; exact c4
        · rcases getElem?_set_cases hm with ⟨hmi', rfl⟩ | ⟨hmi', hm⟩
          · obtain rfl : m' = ⟨e.idx, hN⟩ := Fin.ext hmi'
            refine ⟨q2, c2, ?_, ?_⟩
            · simp only [swapMove, Equiv.swap_apply_left]; exact o3
            · simp only [swapMove, Equiv.swap_apply_left]; exact o4
          · have n1 : m' ≠ ⟨e.idx, hN⟩ := fun hc => hmi' (congrArg Fin.val hc)
            have n2 : m' ≠ ⟨e.idx - 1, hj⟩ := fun hc => hmi (congrArg Fin.val hc)
            simp only [swapMove, Equiv.swap_apply_of_ne_of_ne n1 n2]
            exact h.chain m' c' hm
      · simp only [mt hlt.mp hu, hu, if_false, res_bind_ok, res_pure] at hd ⊢
        injection hd with hd
        rw [← hd]
        exact ⟨h.length, h.chain, h.stud, by rw [← h.unif]; rfl, hkinds _ rfl, hram _⟩

theorem stand_loop (hT : HasTarget μ inv G) {T : Fin N → ℝ} (hpos : ∀ i, 0 < T i) {B k : ℕ} {l : List (Bool × ℕ)} (hnd : l.Nodup)
    (hr : ∀ b i, (b, i) ∈ l → i < N ∧ (b = false → 0 < i)) {s : Samp μ d} {z : RunZ N d} (h : Stand inv G T B l k 0 s z) {m : ℕ} (hml : m ≤ l.length)
    {s' : Samp μ d} (hd : s.stepLoop m = .ok s') : Stand inv G T B l k m s' (loopX G T B l k m z) := by
  induction m generalizing s' with
  | zero => injection hd with hd; rw [← hd]; exact h
  | succ m ih =>
      obtain ⟨s1, h1, hd⟩ := bind_ok_inv hd
      have hs1 := ih (by omega) h1
      have hm : l[m]? = some (l[m]'(by omega)) := List.getElem?_eq_getElem _
      obtain ⟨b, i⟩ : Bool × ℕ := l[m]'(by omega)
      obtain ⟨⟨b, i⟩, hw⟩ : ∃ w, l[m]? = some w := ⟨_, hm⟩
      obtain ⟨r1, r2⟩ := hr b i (List.mem_of_getElem? hw)
      rw [loopX, hw]
      simp only [stepX, r1, dif_pos]
      cases b with
      | true => exact stand_ram hT hpos hnd r1 hw hs1 hd
      | false => exact stand_exch hT hpos r1 (r2 rfl) hw hs1 hd

theorem stand_sweeps (hT : HasTarget μ inv G) {T : Fin N → ℝ} (hpos : ∀ i, 0 < T i) {B : ℕ} {l : List (Bool × ℕ)} (hnd : l.Nodup)
    (hr : ∀ b i, (b, i) ∈ l → i < N ∧ (b = false → 0 < i)) {s : Samp μ d} {z : RunZ N d} (h : Stand inv G T B l 0 0 s z) {n : ℕ}
    {s' : Samp μ d} (hd : s.iterate n = .ok s') : Stand inv G T B l n 0 s' (runX G T B l n z) := by
  induction n generalizing s' with
  | zero => injection hd with hd; rw [← hd]; exact h
  | succ n ih =>
      obtain ⟨s1, h1, hd⟩ := bind_ok_inv hd
      have hs1 := ih h1
      have hlen : s1.steps.length = l.length := by rw [← hs1.kinds, List.length_map]
      have hd : s1.stepLoop s1.steps.length = .ok s' := hd
      rw [hlen] at hd
      have h2 := stand_loop hT hpos hnd hr hs1 le_rfl hd
      have hlen' : s'.steps.length = l.length := by rw [← h2.kinds, List.length_map]
      refine ⟨h2.length, h2.chain, h2.stud, h2.unif, h2.kinds, fun j i a hj => ?_⟩
      obtain ⟨b1, b2, b3, b4, b5⟩ := h2.ram j i a hj
      refine ⟨b1, b2, b3, b4, ?_⟩
      have hjl : j < l.length := by
        rw [← hlen']
        exact (List.getElem?_eq_some_iff.mp hj).1
      rw [b5, if_pos hjl, if_neg (by omega)]

theorem stepOrder_nodup (m : ℕ) : (stepOrder m).Nodup := by
  induction m with
  | zero => simp [stepOrder]
  | succ m ih =>
      have h : ∀ b, (b, m + 1) ∉ stepOrder m := fun b hb => by
        have := (stepOrder_le _ hb).1
        omega
      simp only [stepOrder, List.nodup_cons, List.mem_cons, Prod.mk.injEq, Bool.true_eq_false, false_and, false_or]
      exact ⟨h _, h _, ih⟩

theorem stepOrder_range {N : ℕ} (hN : 0 < N) : ∀ b i, (b, i) ∈ stepOrder (N - 1) → i < N ∧ (b = false → 0 < i) := by
  intro b i h
  have := stepOrder_le _ h
  exact ⟨by omega, this.2⟩

end Verif.Theory
