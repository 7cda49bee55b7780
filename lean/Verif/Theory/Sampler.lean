import Verif.Theory.Mcmc

/-!
Recording of samples: it does not influence the chains; contents of the recorded vectors; starting values.
-/

namespace Verif.Theory

open Verif.Model Verif.Spec

variable {μ : Type} [Target μ] {inv : μ → Prop} {f : List ℝ → Res Dbl} {d : ℕ}

/-! ### steps do not look at the recorded samples -/

omit [Target μ] in
/-- A parameter with other recorded samples. -/
def rec (x : List (List ℝ)) (y : List Dbl) (p : Par μ) : Par μ := { p with samples := x, logposts := y }

/-- Same up to recorded samples. -/
def SameRec (p q : Par μ) : Prop := ∃ x y, q = rec x y p

omit [Target μ] in
theorem SameRec.refl (p : Par μ) : SameRec p p := ⟨p.samples, p.logposts, rfl⟩

omit [Target μ] in
theorem SameRec.symm {p q : Par μ} (h : SameRec p q) : SameRec q p := by
  obtain ⟨x, y, rfl⟩ := h; exact ⟨p.samples, p.logposts, rfl⟩

omit [Target μ] in
theorem SameRec.trans {p q r : Par μ} (h : SameRec p q) (h' : SameRec q r) : SameRec p r := by
  obtain ⟨x, y, rfl⟩ := h; obtain ⟨x', y', rfl⟩ := h'; exact ⟨x', y', rfl⟩

theorem ResRel.bind_eq {α γ δ : Type} {S : γ → δ → Prop} (x : Res α) {f : α → Res γ} {g : α → Res δ}
    (hf : ∀ a, ResRel S (f a) (g a)) : ResRel S (x >>= f) (x >>= g) := by
  cases x with
  | error e => rfl
  | ok a => exact hf a

theorem ResRel.ite {γ δ : Type} {S : γ → δ → Prop} {c : Prop} {_ : Decidable c} {x x' : Res γ} {y y' : Res δ}
    (h : ResRel S x y) (h' : ResRel S x' y') : ResRel S (if c then x else x') (if c then y else y') := by
  by_cases hc : c
  · rw [if_pos hc, if_pos hc]; exact h
  · rw [if_neg hc, if_neg hc]; exact h'

theorem save_rec {p q : Par μ} (h : SameRec p q) (θ : List ℝ) : ResRel SameRec (p.save θ) (q.save θ) := by
  obtain ⟨x, y, rfl⟩ := h
  exact ResRel.bind_eq _ fun a => ⟨x, y, rfl⟩

theorem saveStale_rec {p q : Par μ} (h : SameRec p q) (θ : List ℝ) : ResRel SameRec (p.saveStale θ) (q.saveStale θ) := by
  obtain ⟨x, y, rfl⟩ := h
  exact ResRel.bind_eq _ fun a => ⟨x, y, rfl⟩

theorem accept_rec (a : Ram d) {p q : Par μ} (h : SameRec p q) (θ : List ℝ) (r : Rng) :
    ResRel (fun z w => z.ok = w.ok ∧ SameRec z.par w.par ∧ z.ram = w.ram ∧ z.rng = w.rng) (a.accept p θ r) (a.accept q θ r) := by
  obtain ⟨x, y, rfl⟩ := h
  refine ResRel.bind_eq _ fun z => ?_
  dsimp only [rec]
  refine ResRel.ite ⟨rfl, ⟨x, y, rfl⟩, rfl, rfl⟩ (ResRel.ite ?_ ?_) <;> exact ⟨rfl, ⟨x, y, rfl⟩, rfl, rfl⟩

theorem ramStep_rec (a : Ram d) {p q : Par μ} (h : SameRec p q) (r : Rng) :
    ResRel (fun z w => z.1 = w.1 ∧ SameRec z.2.1 w.2.1 ∧ z.2.2 = w.2.2) (a.doStep p r) (a.doStep q r) := by
  have hv : q.value = p.value := by obtain ⟨x, y, rfl⟩ := h; rfl
  unfold Ram.doStep
  rw [hv]
  refine ResRel.ite rfl ?_
  refine ResRel.bind (accept_rec a h _ _) fun z w hzw => ?_
  obtain ⟨h1, h2, h3, h4⟩ := hzw
  rw [h1, h3, h4]
  refine ResRel.ite (ResRel.bind (save_rec h2 _) fun p' q' h5 => ?_) (ResRel.bind (ResRel.pure h2) fun p' q' h5 => ?_) <;>
    exact ResRel.bind_eq _ fun b => ⟨rfl, h5, rfl⟩

omit [Target μ] in
theorem rdU_rec {ps qs : List (Par μ)} (h : List.Forall₂ SameRec ps qs) (i : ℕ) : ResRel SameRec (rdU ps i) (rdU qs i) := by
  induction h generalizing i with
  | nil => rfl
  | cons h1 h2 ih =>
      cases i with
      | zero => exact h1
      | succ i => exact ih i

omit [Target μ] in
theorem set_rec {ps qs : List (Par μ)} (h : List.Forall₂ SameRec ps qs) (i : ℕ) {p q : Par μ} (hp : SameRec p q) :
    List.Forall₂ SameRec (ps.set i p) (qs.set i q) := by
  induction h generalizing i with
  | nil => exact .nil
  | cons h1 h2 ih =>
      cases i with
      | zero => exact .cons hp h2
      | succ i => exact .cons h1 (ih i)

theorem exchStep_rec (e : Exch) {ps qs : List (Par μ)} (h : List.Forall₂ SameRec ps qs) (r : Rng) :
    ResRel (fun z w => z.1 = w.1 ∧ List.Forall₂ SameRec z.2.1 w.2.1 ∧ z.2.2 = w.2.2) (e.doStep ps r) (e.doStep qs r) := by
  unfold Exch.doStep
  refine ResRel.bind (rdU_rec h _) fun p q hpq => ?_
  refine ResRel.bind_eq _ fun j => ?_
  refine ResRel.bind (rdU_rec h _) fun p' q' hpq' => ?_
  have hp := hpq
  have hp' := hpq'
  obtain ⟨x, y, rfl⟩ := hpq
  obtain ⟨x', y', rfl⟩ := hpq'
  dsimp only [rec]
  refine ResRel.bind (R := fun (z w : List (Par μ) × ℕ) => List.Forall₂ SameRec z.1 w.1 ∧ z.2 = w.2) (ResRel.ite ?_ ?_)
    fun z w hzw => ?_
  · refine ResRel.bind (save_rec hp _) fun a b hab => ?_
    refine ResRel.bind (saveStale_rec hp' _) fun a' b' hab' => ?_
    refine ⟨set_rec (set_rec h _ ?_) _ ?_, rfl⟩
    · obtain ⟨u, v, rfl⟩ := hab; exact ⟨u, v, rfl⟩
    · obtain ⟨u, v, rfl⟩ := hab'; exact ⟨u, v, rfl⟩
  · exact ⟨h, rfl⟩
  · obtain ⟨h1, h2⟩ := hzw
    exact ⟨by rw [h2], h1, rfl⟩

/-- Two states of the sampler that differ in recorded samples only. -/
structure SampRec (s t : Samp μ d) : Prop where
  chains : List.Forall₂ SameRec s.chains t.chains
  steps : s.steps = t.steps
  tracked : s.tracked = t.tracked
  rng : s.rng = t.rng

omit [Target μ] in
theorem SampRec.refl (s : Samp μ d) : SampRec s s := ⟨List.forall₂_same.mpr fun p _ => SameRec.refl p, rfl, rfl, rfl⟩

omit [Target μ] in
theorem SampRec.trans {s t u : Samp μ d} (h : SampRec s t) (h' : SampRec t u) : SampRec s u := by
  refine ⟨?_, h.steps.trans h'.steps, h.tracked.trans h'.tracked, h.rng.trans h'.rng⟩
  have h1 := h.chains
  have h2 := h'.chains
  generalize s.chains = a at h1
  generalize t.chains = b at h1 h2
  generalize u.chains = c at h2
  induction h1 generalizing c with
  | nil => cases h2; exact .nil
  | cons h3 h4 ih =>
      cases h2 with
      | cons h5 h6 => exact .cons (h3.trans h5) (ih _ h6)

theorem doStep_rec {s t : Samp μ d} (h : SampRec s t) (k : ℕ) : ResRel SampRec (s.doStep k) (t.doStep k) := by
  unfold Samp.doStep
  rw [h.steps]
  refine ResRel.bind_eq _ fun st => ?_
  cases st with
  | ram i a =>
      refine ResRel.bind (rdU_rec h.chains _) fun p q hpq => ?_
      rw [h.rng]
      refine ResRel.bind (ramStep_rec a hpq _) fun z w hzw => ?_
      obtain ⟨h1, h2, h3⟩ := hzw
      exact ⟨set_rec h.chains _ h2, by rw [h1], h.tracked, h3⟩
  | exch e =>
      rw [h.rng]
      refine ResRel.bind (exchStep_rec e h.chains _) fun z w hzw => ?_
      obtain ⟨h1, h2, h3⟩ := hzw
      exact ⟨h2, by rw [h1], h.tracked, h3⟩

theorem stepLoop_rec {s t : Samp μ d} (h : SampRec s t) (m : ℕ) : ResRel SampRec (s.stepLoop m) (t.stepLoop m) := by
  induction m with
  | zero => exact h
  | succ m ih => exact ResRel.bind ih fun a b hab => doStep_rec hab m

theorem sweep_rec {s t : Samp μ d} (h : SampRec s t) : ResRel SampRec s.sweep t.sweep := by
  unfold Samp.sweep
  rw [h.steps]
  exact stepLoop_rec h _

theorem iterate_rec {s t : Samp μ d} (h : SampRec s t) (n : ℕ) : ResRel SampRec (s.iterate n) (t.iterate n) := by
  unfold Samp.iterate
  induction n with
  | zero => exact h
  | succ n ih => exact ResRel.bind ih fun a b hab => sweep_rec hab

/-! ### steps keep temperatures, labels, tracking flags and samples, for any target -/

theorem save_fixed {p q : Par μ} {θ : List ℝ} (h : p.save θ = .ok q) : fixedOf q = fixedOf p := by
  obtain ⟨z, -, h⟩ := bind_ok_inv h
  cases h; rfl

theorem ramStep_fixed {a a' : Ram d} {p q : Par μ} {r r' : Rng} (h : a.doStep p r = .ok (a', q, r')) :
    fixedOf q = fixedOf p := by
  unfold Ram.doStep at h
  by_cases hc : p.value.length ≠ d
  · simp only [hc, if_true, ne_eq, not_false_eq_true] at h; cases h
  simp only [hc, if_false] at h
  obtain ⟨res, h1, h⟩ := bind_ok_inv h
  obtain ⟨o, lp, h2, h3, h4⟩ := accept_inv h1
  split at h
  · obtain ⟨s1, h5, h⟩ := bind_ok_inv h
    obtain ⟨b, -, h⟩ := bind_ok_inv h
    injection h with h
    injection h with _ h
    injection h with h _
    rw [← h, save_fixed h5, h3]; rfl
  · obtain ⟨s1, h5, h⟩ := bind_ok_inv h
    obtain ⟨b, -, h⟩ := bind_ok_inv h
    injection h with h
    injection h with _ h
    injection h with h _
    injection h5 with h5
    rw [← h, ← h5, h3]; rfl

theorem exchStep_fixed {e e' : Exch} {ps qs : List (Par μ)} {r r' : Rng} (h : e.doStep ps r = .ok (e', qs, r')) :
    qs.map fixedOf = ps.map fixedOf := by
  unfold Exch.doStep at h
  obtain ⟨this, h1, h⟩ := bind_ok_inv h
  obtain ⟨j, h2, h⟩ := bind_ok_inv h
  obtain ⟨other, h3, h⟩ := bind_ok_inv h
  have h1 := rdU_inv h1
  have h3 := rdU_inv h3
  have hj : 0 < e.idx ∧ j = e.idx - 1 := by
    split at h2
    · cases h2
    · injection h2 with h2; exact ⟨by omega, h2.symm⟩
  obtain ⟨h0, rfl⟩ := hj
  dsimp only at h
  split at h
  · obtain ⟨⟨ps1, n⟩, h4, h⟩ := bind_ok_inv h
    obtain ⟨this', h5, h4⟩ := bind_ok_inv h4
    obtain ⟨other', h6, h4⟩ := bind_ok_inv h4
    injection h4 with h4
    injection h4 with h4 _
    obtain ⟨lp, h7, h6⟩ := bind_ok_inv h6
    injection h6 with h6
    injection h with h
    injection h with he h
    injection h with h _
    have h5 := save_fixed h5
    rw [← h, ← h4]
    refine (map_set_same (p := other) ?_ (by rw [← h6]; rfl)).trans (map_set_same h1 h5)
    rw [List.getElem?_set_ne (by omega)]
    exact h3
  · injection h with h
    injection h with he h
    injection h with h _
    rw [← h]

theorem doStep_fixed {s t : Samp μ d} {k : ℕ} (h : s.doStep k = .ok t) : t.chains.map fixedOf = s.chains.map fixedOf := by
  unfold Samp.doStep at h
  obtain ⟨st, h1, h⟩ := bind_ok_inv h
  cases st with
  | ram i a =>
      obtain ⟨par, h2, h⟩ := bind_ok_inv h
      obtain ⟨⟨a', par', r'⟩, h3, h⟩ := bind_ok_inv h
      cases h
      exact map_set_same (rdU_inv h2) (ramStep_fixed h3)
  | exch e =>
      obtain ⟨⟨e', ps', r'⟩, h3, h⟩ := bind_ok_inv h
      cases h
      exact exchStep_fixed h3

theorem doStep_tracked {s t : Samp μ d} {k : ℕ} (h : s.doStep k = .ok t) : t.tracked = s.tracked := by
  unfold Samp.doStep at h
  obtain ⟨st, h1, h⟩ := bind_ok_inv h
  cases st with
  | ram i a =>
      obtain ⟨par, h2, h⟩ := bind_ok_inv h
      obtain ⟨⟨a', par', r'⟩, h3, h⟩ := bind_ok_inv h
      cases h; rfl
  | exch e =>
      obtain ⟨⟨e', ps', r'⟩, h3, h⟩ := bind_ok_inv h
      cases h; rfl

theorem stepLoop_fixed {s t : Samp μ d} {m : ℕ} (h : s.stepLoop m = .ok t) :
    t.chains.map fixedOf = s.chains.map fixedOf ∧ t.tracked = s.tracked := by
  induction m generalizing t with
  | zero => cases h; exact ⟨rfl, rfl⟩
  | succ m ih =>
      obtain ⟨u, h1, h⟩ := bind_ok_inv h
      exact ⟨(doStep_fixed h).trans (ih h1).1, (doStep_tracked h).trans (ih h1).2⟩

theorem iterate_fixed {s t : Samp μ d} {n : ℕ} (h : s.iterate n = .ok t) :
    t.chains.map fixedOf = s.chains.map fixedOf ∧ t.tracked = s.tracked := by
  unfold Samp.iterate at h
  induction n generalizing t with
  | zero => cases h; exact ⟨rfl, rfl⟩
  | succ m ih =>
      obtain ⟨u, h1, h⟩ := bind_ok_inv h
      obtain ⟨h2, h3⟩ := stepLoop_fixed h
      exact ⟨h2.trans (ih h1).1, h3.trans (ih h1).2⟩

theorem iter_add {σ : Type} (g : σ → Res σ) (m n : ℕ) (s : σ) : iter g (m + n) s = iter g m s >>= iter g n := by
  induction n with
  | zero => show iter g m s = _; cases iter g m s <;> rfl
  | succ n ih =>
      show iter g (m + n) s >>= g = _
      rw [ih]
      cases iter g m s <;> rfl

theorem iterate_add (s : Samp μ d) (m n : ℕ) : s.iterate (m + n) = s.iterate m >>= fun t => t.iterate n :=
  iter_add _ _ _ _

/-! ### recording -/

omit [Target μ] in
theorem wrU_inv {α : Type} {l l' : List α} {i : ℕ} {x : α} (h : wrU l i x = .ok l') : i < l.length ∧ l' = l.set i x := by
  unfold wrU at h
  split at h
  · rename_i hi; injection h with h; exact ⟨hi, h.symm⟩
  · cases h

omit [Target μ] in
theorem set_rec_right {ps : List (Par μ)} {i : ℕ} {p q : Par μ} (hi : ps[i]? = some p) (hp : SameRec p q) :
    List.Forall₂ SameRec ps (ps.set i q) := by
  have := set_rec (List.forall₂_same.mpr fun p _ => SameRec.refl p) i (ps := ps) (qs := ps) hp
  have e : ps.set i p = ps := by
    obtain ⟨hl, hg⟩ := List.getElem?_eq_some_iff.mp hi
    rw [← hg, List.set_getElem_self]
  rwa [e] at this

omit [Target μ] in
/-- What `SaveValues` writes. -/
theorem saveValues_spec {s s' : Samp μ d} {k : ℕ} {l : List (String × ℕ)} (h : s.saveValues k l = .ok s') :
    SampRec s s' ∧ ∀ i p, s.chains[i]? = some p → ∃ p', s'.chains[i]? = some p' ∧
      ((∃ lab, (lab, i) ∈ l) → k < p.samples.length ∧ k < p.logposts.length ∧
        p' = rec (p.samples.set k p.value) (p.logposts.set k p.logpost) p) ∧
      ((¬ ∃ lab, (lab, i) ∈ l) → p' = p) := by
  induction l generalizing s' with
  | nil => cases h; exact ⟨SampRec.refl s, fun i p hp => ⟨p, hp, by simp, fun _ => rfl⟩⟩
  | cons x l ih =>
      obtain ⟨lab, j⟩ := x
      obtain ⟨t, h1, h⟩ := bind_ok_inv h
      obtain ⟨q, h2, h⟩ := bind_ok_inv h
      obtain ⟨q', h3, h⟩ := bind_ok_inv h
      cases h
      have h2 := rdU_inv h2
      obtain ⟨x, h4, h3⟩ := bind_ok_inv h3
      obtain ⟨y, h5, h3⟩ := bind_ok_inv h3
      cases h3
      obtain ⟨k1, rfl⟩ := wrU_inv h4
      obtain ⟨k2, rfl⟩ := wrU_inv h5
      obtain ⟨g1, g2⟩ := ih h1
      refine ⟨g1.trans ⟨set_rec_right h2 ⟨_, _, rfl⟩, rfl, rfl, rfl⟩, fun i p hp => ?_⟩
      obtain ⟨p', e1, e2, e3⟩ := g2 i p hp
      by_cases hij : i = j
      · subst hij
        rw [e1] at h2
        injection h2 with h2
        subst h2
        refine ⟨_, by rw [List.getElem?_set_self' , e1]; rfl, fun _ => ?_, fun hn => absurd ⟨lab, List.mem_cons_self⟩ hn⟩
        by_cases hm : ∃ lab, (lab, i) ∈ l
        · obtain ⟨a1, a2, a3⟩ := e2 hm
          refine ⟨a1, a2, ?_⟩
          rw [a3]
          simp [rec]
        · have := e3 hm
          subst this
          exact ⟨k1, k2, rfl⟩
      · refine ⟨p', by rw [List.getElem?_set_ne (by omega)]; exact e1, fun hm => e2 ?_, fun hm => e3 ?_⟩
        · obtain ⟨lab', hm⟩ := hm
          rcases List.mem_cons.mp hm with hm | hm
          · exact absurd (congrArg Prod.snd hm) hij
          · exact ⟨lab', hm⟩
        · exact fun ⟨lab', hx⟩ => hm ⟨lab', List.mem_cons_of_mem _ hx⟩

omit [Target μ] in
theorem SampRec.get {s t : Samp μ d} (h : SampRec s t) {i : ℕ} {p : Par μ} (hp : s.chains[i]? = some p) :
    ∃ q, t.chains[i]? = some q ∧ SameRec p q := by
  have := rdU_rec h.chains i
  unfold rdU at this
  rw [hp] at this
  cases hq : t.chains[i]? with
  | none => rw [hq] at this; exact this.elim
  | some q => rw [hq] at this; exact ⟨q, rfl, this⟩

omit [Target μ] in
theorem SampRec.symm {s t : Samp μ d} (h : SampRec s t) : SampRec t s :=
  ⟨(List.Forall₂.flip h.chains).imp fun a b (h : SameRec b a) => SameRec.symm h, h.steps.symm, h.tracked.symm, h.rng.symm⟩

omit [Target μ] in
/-- Look up a chain before steps from what it is after them. -/
theorem fixed_get {ps qs : List (Par μ)} (h : qs.map fixedOf = ps.map fixedOf) {i : ℕ} {p : Par μ} (hp : ps[i]? = some p) :
    ∃ q, qs[i]? = some q ∧ fixedOf q = fixedOf p := by
  have := congrArg (fun l => l[i]?) h
  simp only [List.getElem?_map, hp, Option.map_some] at this
  cases hq : qs[i]? with
  | none => rw [hq] at this; cases this
  | some q =>
      rw [hq] at this
      injection this with this
      exact ⟨q, rfl, this⟩

/-- Contents of the recorded vectors. -/
theorem sampleLoop_spec {thin : ℕ} {s s' : Samp μ d} {k : ℕ} (h : s.sampleLoop thin k = .ok s') :
    s'.tracked = s.tracked ∧ (∃ t, s.iterate (thin * k) = .ok t ∧ SampRec t s') ∧
    ∀ i p, s.chains[i]? = some p → ∃ p', s'.chains[i]? = some p' ∧
      ((¬ ∃ lab, (lab, i) ∈ s.tracked) → p'.samples = p.samples ∧ p'.logposts = p.logposts) ∧
      ((∃ lab, (lab, i) ∈ s.tracked) → p'.samples.length = p.samples.length ∧ p'.logposts.length = p.logposts.length ∧
        k ≤ p.samples.length ∧ ∀ j < k, ∃ t q, s.iterate (thin * (j + 1)) = .ok t ∧ t.chains[i]? = some q ∧
          p'.samples[j]? = some q.value ∧ p'.logposts[j]? = some q.logpost) := by
  induction k generalizing s' with
  | zero =>
      cases h
      exact ⟨rfl, ⟨s, rfl, SampRec.refl s⟩, fun i p hp => ⟨p, hp, fun _ => ⟨rfl, rfl⟩, fun _ => ⟨rfl, rfl, Nat.zero_le _, by simp⟩⟩⟩
  | succ k ih =>
      obtain ⟨s1, h1, h⟩ := bind_ok_inv h
      obtain ⟨s2, h2, h⟩ := bind_ok_inv h
      obtain ⟨a1, ⟨t, a2, a3⟩, a4⟩ := ih h1
      obtain ⟨b1, b2⟩ := saveValues_spec h
      obtain ⟨c1, c2⟩ := iterate_fixed h2
      have e := iterate_rec a3 thin
      rw [h2] at e
      obtain ⟨t2, ht2, e⟩ : ∃ t2, t.iterate thin = .ok t2 ∧ SampRec t2 s2 := by
        cases ht2 : t.iterate thin with
        | error f => rw [ht2] at e; exact e.elim
        | ok t2 => rw [ht2] at e; exact ⟨t2, rfl, e⟩
      have hit : s.iterate (thin * (k + 1)) = .ok t2 := by
        rw [Nat.mul_succ, iterate_add, a2]; exact ht2
      refine ⟨b1.tracked.symm.trans (c2.trans a1), ⟨t2, hit, e.trans b1⟩, fun i p hp => ?_⟩
      obtain ⟨p1, d1, d2, d3⟩ := a4 i p hp
      obtain ⟨p2, d4, d5⟩ := fixed_get c1 d1
      have d6 : p2.samples = p1.samples := congrArg (fun x => x.2.2.2.1) d5
      have d7 : p2.logposts = p1.logposts := congrArg (fun x => x.2.2.2.2) d5
      obtain ⟨p3, f1, f2, f3⟩ := b2 i p2 d4
      have htr : s2.tracked = s.tracked := c2.trans a1
      rw [htr] at f2 f3
      refine ⟨p3, f1, fun hn => ?_, fun hy => ?_⟩
      · rw [f3 hn, d6, d7]; exact d2 hn
      · obtain ⟨g1, g2, g3⟩ := f2 hy
        obtain ⟨g4, g5, g6, g7⟩ := d3 hy
        rw [g3]
        refine ⟨by simp [rec, d6, g4], by simp [rec, d7, g5], by rw [d6, g4] at g1; omega, fun j hj => ?_⟩
        by_cases hjk : j = k
        · subst hjk
          obtain ⟨q, q1, x, y, q2⟩ := e.symm.get d4
          exact ⟨t2, q, hit, q1, by rw [q2]; simp [rec, g1], by rw [q2]; simp [rec, g2]⟩
        · obtain ⟨t', q, q1, q2, q3, q4⟩ := g7 j (by omega)
          refine ⟨t', q, q1, q2, ?_, ?_⟩
          · simp only [rec]
            rw [List.getElem?_set_ne (by omega), d6]; exact q3
          · simp only [rec]
            rw [List.getElem?_set_ne (by omega), d7]; exact q4

end Verif.Theory
