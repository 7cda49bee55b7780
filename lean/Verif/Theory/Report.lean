import Verif.Spec.Report
import Verif.Theory.IntRun
import Verif.Theory.Run
import Verif.Props.Mcmc

/-!
Counters of the steps and what they print.
-/

namespace Verif.Theory

open Verif.Model Verif.Spec
open scoped Classical

variable {μ : Type} [Target μ] {d : ℕ}

theorem int32_inv {z w : ℤ} (h : int32 z = .ok w) : w = z := by
  unfold int32 at h
  split at h
  · cases h; rfl
  · cases h

/-- `Accept` counts the accepted moves. -/
theorem acceptI_inv {a : RamI d} {s : Par μ} {θ : List ℝ} {r : Rng} {res : AcceptedI μ d} (h : a.accept s θ r = .ok res) (ht : s.temp ≠ 0) :
    (res.ok = true ↔ ∃ o x l, Target.ld s.obj θ = .ok (o, .fin x) ∧ s.logpost = .fin l ∧ r.unif 0 < min 1 (Real.exp ((x - l) / s.temp))) ∧
      res.ram.naccept = a.naccept + (if res.ok = true then 1 else 0) ∧ res.ram.niter = a.niter ∧ res.ram.maxiter = a.maxiter ∧ res.par.temp = s.temp := by
  unfold RamI.accept at h
  obtain ⟨⟨o, lp⟩, h1, h⟩ := bind_ok_inv h
  dsimp only at h
  split at h
  · rename_i hn
    cases h
    refine ⟨⟨fun h => absurd h (by simp), ?_⟩, by simp, rfl, rfl, rfl⟩
    rintro ⟨o', x, l, g1, g2, g3⟩
    rw [h1] at g1
    injection g1 with g1
    injection g1 with _ g1
    subst g1
    rw [g2] at hn
    exact absurd (by simp [Dbl.sub, Dbl.neg, Dbl.add, Dbl.div, ht, Dbl.isFin]) hn
  · rename_i hn
    have hn' := not_not.mp hn
    have hfin := dbl_sub_fin (dbl_div_fin hn')
    obtain ⟨x, rfl⟩ := dbl_isFin_iff.mp hfin.1
    obtain ⟨l, hl⟩ := dbl_isFin_iff.mp hfin.2
    have e : Dbl.div ((Dbl.fin x).sub s.logpost) (.fin s.temp) = .fin ((x - l) / s.temp) := by
      rw [hl]
      simp only [Dbl.sub, Dbl.neg, Dbl.add, Dbl.div, ht, if_false, sub_eq_add_neg]
    have e2 : Dbl.min (Dbl.div ((Dbl.fin x).sub s.logpost) (.fin s.temp)).exp (.fin 1) = .fin (min 1 (Real.exp ((x - l) / s.temp))) := by
      rw [e]; exact dbl_min_one _
    split at h
    · rename_i hu
      rw [e2] at hu
      obtain ⟨n, h2, h⟩ := bind_ok_inv h
      have h2 := int32_inv h2
      cases h
      exact ⟨⟨fun _ => ⟨o, x, l, h1, hl, hu⟩, fun _ => rfl⟩, by simpa using h2, rfl, rfl, rfl⟩
    · rename_i hu
      rw [e2] at hu
      cases h
      refine ⟨⟨fun h => absurd h (by simp), ?_⟩, by simp, rfl, rfl, rfl⟩
      rintro ⟨o', x', l', g1, g2, g3⟩
      rw [h1] at g1
      injection g1 with g1
      injection g1 with _ g1
      injection g1 with g1
      rw [hl] at g2
      injection g2 with g2
      subst g1 g2
      exact absurd g3 hu

/-- Counters of a RAM step, and its report. -/
theorem ramI_inv {a a' : RamI d} {s s' : Par μ} {r r' : Rng} {l : List Line} (h : a.doStep s r = .ok (a', s', r', l)) (ht : s.temp ≠ 0) :
    a'.niter = a.niter + 1 ∧ a'.naccept = a.naccept + (if RamAccepts s a.chol r then 1 else 0) ∧ a'.maxiter = a.maxiter ∧ s'.temp = s.temp ∧
      l = if a.niter + 1 = a.maxiter then [.ram (a'.naccept / a'.niter)] else [] := by
  unfold RamI.doStep at h
  split at h
  · cases h
  obtain ⟨res, h1, h⟩ := bind_ok_inv h
  obtain ⟨g1, g2, g3, g4, g5⟩ := acceptI_inv h1 ht
  have key : ∀ {s2 : Par μ}, s2.temp = s.temp → (do
      let a ← res.ram.adapt (fun i => r.stud i) (fun j => ∑ i, a.chol i j * r.stud i)
      let n ← int32 (a.niter + 1)
      return ({ a with niter := n }, s2, res.rng, if n = a.maxiter then [Line.ram (a.naccept / n)] else []) :
        Res (RamI d × Par μ × Rng × List Line)) = .ok (a', s', r', l) →
      a'.niter = a.niter + 1 ∧ a'.naccept = a.naccept + (if RamAccepts s a.chol r then 1 else 0) ∧ a'.maxiter = a.maxiter ∧ s'.temp = s.temp ∧
        l = if a.niter + 1 = a.maxiter then [.ram (a'.naccept / a'.niter)] else [] := by
    intro s2 hs2 h
    obtain ⟨b, h3, h⟩ := bind_ok_inv h
    obtain ⟨n, h4, h⟩ := bind_ok_inv h
    obtain ⟨k1, k2, k3, -, -, -⟩ := adaptI_inv h3
    have h4 := int32_inv h4
    cases h
    have hacc : (res.ok = true) = RamAccepts s a.chol r := propext g1
    refine ⟨by rw [h4, k1, g3], by show b.naccept = _; rw [k2, g2]; simp only [hacc], by show b.maxiter = _; rw [k3, g4], hs2, ?_⟩
    show (if n = b.maxiter then _ else _) = _
    rw [h4, k1, g3, k3, g4]
  dsimp only at h
  split at h
  · obtain ⟨s2, h2, h⟩ := bind_ok_inv h
    refine key ?_ h
    obtain ⟨x, -, h2⟩ := bind_ok_inv h2
    cases h2
    exact g5
  · exact key g5 h

theorem swap_lt {T T' : ℝ} (h : 0 < T) (h' : 0 < T') (l l' : Dbl) (u : ℝ) : (Dbl.fin u).lt (swapProb T T' l l') ↔ u < swapRatio T T' l l' := by
  obtain ⟨p1, p2⟩ := Props.C26_swap_probability h h' l l'
  cases l <;> cases l'
  case fin.fin a b =>
    rw [p1 a b rfl rfl]
    unfold swapSpec
    rw [show b / T + a / T' - (a / T + b / T') = (1 / T - 1 / T') * (b - a) by ring]
    rfl
  all_goals
    rw [p2 (by simp [Dbl.isFin])]
    rfl

/-- Counters of an exchange step, and its report. -/
theorem exchI_inv {e e' : ExchI} {ps ps' : List (Par μ)} {r r' : Rng} {l : List Line} (h : e.doStep ps r = .ok (e', ps', r', l))
    (hT : ∀ c ∈ ps, 0 < c.temp) :
    ∃ acc, acc = e.naccept + (if SwapAccepts ps e.idx r then 1 else 0) ∧ e'.idx = e.idx ∧ e'.reportIter = e.reportIter ∧
      (∀ c ∈ ps', 0 < c.temp) ∧ (e.niter + 1 = e.reportIter → e'.niter = 0 ∧ e'.naccept = 0 ∧ l = [.exch (acc / (e.niter + 1))]) ∧
      (e.niter + 1 ≠ e.reportIter → e'.niter = e.niter + 1 ∧ e'.naccept = acc ∧ l = []) := by
  unfold ExchI.doStep at h
  obtain ⟨this, h1, h⟩ := bind_ok_inv h
  obtain ⟨j, h2, h⟩ := bind_ok_inv h
  obtain ⟨other, h3, h⟩ := bind_ok_inv h
  have hj : j = e.idx - 1 := by
    split at h2
    · cases h2
    · cases h2; rfl
  subst hj
  have h1 := rdU_inv h1
  have h3 := rdU_inv h3
  have t1 := hT _ (List.mem_of_getElem? h1)
  have t3 := hT _ (List.mem_of_getElem? h3)
  have hacc : (Dbl.fin r.nextU.1).lt (swapProb this.temp other.temp this.logpost other.logpost) ↔ SwapAccepts ps e.idx r := by
    rw [swap_lt t1 t3]
    constructor
    · exact fun h => ⟨this, other, h1, h3, h⟩
    · rintro ⟨c, c', g1, g2, g3⟩
      rw [h1] at g1
      rw [h3] at g2
      injection g1 with g1
      injection g2 with g2
      subst g1 g2
      exact g3
  dsimp only at h
  obtain ⟨⟨ps2, acc⟩, h4, h⟩ := bind_ok_inv h
  obtain ⟨n, h5, h⟩ := bind_ok_inv h
  have h5 := int32_inv h5
  have h6 : acc = e.naccept + (if SwapAccepts ps e.idx r then 1 else 0) ∧ ∀ c ∈ ps2, 0 < c.temp := by
    split at h4
    · rename_i hlt
      rw [if_pos (hacc.mp hlt)]
      obtain ⟨this', k1, h4⟩ := bind_ok_inv h4
      obtain ⟨other', k2, h4⟩ := bind_ok_inv h4
      obtain ⟨m, k3, h4⟩ := bind_ok_inv h4
      have k3 := int32_inv k3
      obtain ⟨x1, -, k1⟩ := bind_ok_inv k1
      obtain ⟨x2, -, k2⟩ := bind_ok_inv k2
      cases k1
      cases k2
      cases h4
      exact ⟨k3, mem_set_cases (mem_set_cases hT t1) t3⟩
    · rename_i hlt
      rw [if_neg fun h => hlt (hacc.mpr h)]
      cases h4
      exact ⟨by simp, hT⟩
  refine ⟨acc, h6.1, ?_⟩
  dsimp only at h
  split at h
  · rename_i hn
    rw [h5] at hn
    cases h
    exact ⟨rfl, rfl, h6.2, fun _ => ⟨rfl, rfl, by rw [h5]; push_cast; rfl⟩, fun hne => absurd hn hne⟩
  · rename_i hn
    rw [h5] at hn
    cases h
    exact ⟨rfl, rfl, h6.2, fun he => absurd he hn, fun _ => ⟨h5, rfl, rfl⟩⟩

theorem nAccepted_succ (s : Samp μ d) (j : ℕ) {a n : ℕ} (h : a ≤ n) :
    nAccepted s j a (n + 1) = nAccepted s j a n + if AcceptedIn s j n then 1 else 0 := by
  unfold nAccepted
  rw [← Finset.insert_Ico_right_eq_Ico_add_one h, Finset.filter_insert]
  split
  · rw [Finset.card_insert_of_notMem (by simp)]
  · simp

/-- The record does not matter for acceptance. -/
theorem stepAccepts_rec {s t : Samp μ d} (h : SampRec s t) (j : ℕ) (ht : StepAccepts t j) : StepAccepts s j := by
  rcases ht with ⟨i, a, c, h1, h2, h3⟩ | ⟨e, h1, c, c', h2, h3, h4⟩
  · obtain ⟨c0, g1, x, y, rfl⟩ := h.symm.get h2
    refine Or.inl ⟨i, a, _, by rw [h.steps]; exact h1, g1, ?_⟩
    rw [h.rng]
    exact h3
  · obtain ⟨c0, g1, x, y, rfl⟩ := h.symm.get h2
    obtain ⟨c1, g2, x', y', rfl⟩ := h.symm.get h3
    refine Or.inr ⟨e, by rw [h.steps]; exact h1, _, _, g1, g2, ?_⟩
    rw [h.rng]
    exact h4

theorem acceptedIn_iff {s τ0 τ τ' : Samp μ d} {n m : ℕ} (h1 : Sweeps s n τ0) (h2 : Done τ0 m τ) (h3 : SampRec τ τ') :
    AcceptedIn s m n ↔ StepAccepts τ' m := by
  constructor
  · rintro ⟨t, u, g1, g2, g3⟩
    have e1 := (iterate_of_sweeps h1).symm.trans (iterate_of_sweeps g1)
    injection e1 with e1
    subst e1
    have e2 := (stepLoop_of_done h2).symm.trans (stepLoop_of_done g2)
    injection e2 with e2
    subst e2
    exact stepAccepts_rec h3.symm m g3
  · exact fun h => ⟨τ0, τ, h1, h2, stepAccepts_rec h3 m h⟩

/-! ### the invariant -/

omit [Target μ] in
/-- Kind and chain of a step. -/
def kindI : StepI d → Bool × ℕ
  | .ram i _ => (true, i)
  | .exch e => (false, e.idx)

/-- Counters of a RAM step after `n` iterations. -/
structure RamInv (s1 : Samp μ d) (B : ℤ) (j n : ℕ) (a : RamI d) : Prop where
  maxiter : a.maxiter = B
  niter : a.niter = n
  naccept : a.naccept = nAccepted s1 j 0 n

/-- Counters of an exchange step after `n` iterations, `ρ` of them since the last report. -/
structure ExInv (s1 : Samp μ d) (R : ℤ) (j n ρ : ℕ) (e : ExchI) : Prop where
  report : e.reportIter = R
  le : ρ ≤ n
  niter : e.niter = ρ
  naccept : e.naccept = nAccepted s1 j (n - ρ) n
  lt : 0 < R → (ρ : ℤ) < R
  dvd : R ∣ (n - ρ : ℤ) ∨ R ≤ 0

theorem ram_count {s1 : Samp μ d} {B R : ℤ} {j n i : ℕ} {a a' : RamI d} {s s' : Par μ} {r r' : Rng} {l : List Line} (ha : RamInv s1 B j n a)
    (h : a.doStep s r = .ok (a', s', r', l)) (ht : s.temp ≠ 0) (hk : (s1.steps[j]?).map stepKind = some (true, i))
    (hacc : RamAccepts s a.chol r ↔ AcceptedIn s1 j n) : RamInv s1 B j (n + 1) a' ∧ l = reportAt s1 B R n j := by
  obtain ⟨h1, h2, h3, h4, h5⟩ := ramI_inv h ht
  have hn : a'.niter = ((n + 1 : ℕ) : ℤ) := by rw [h1, ha.niter]; push_cast; rfl
  have hc : a'.naccept = nAccepted s1 j 0 (n + 1) := by
    rw [h2, ha.naccept, nAccepted_succ s1 j (Nat.zero_le n)]
    simp only [hacc]
    push_cast
    rfl
  refine ⟨⟨h3.trans ha.maxiter, hn, hc⟩, ?_⟩
  rw [h5]
  unfold reportAt
  rw [hk, hn, hc, ha.niter, ha.maxiter]
  dsimp only
  by_cases hB : (n : ℤ) + 1 = B
  · rw [if_pos hB, if_pos hB.symm]; push_cast; rfl
  · rw [if_neg hB, if_neg fun h => hB h.symm]

theorem exch_count {s1 : Samp μ d} {B R : ℤ} {j n i ρ : ℕ} {e e' : ExchI} {ps ps' : List (Par μ)} {r r' : Rng} {l : List Line}
    (he : ExInv s1 R j n ρ e) (h : e.doStep ps r = .ok (e', ps', r', l)) (hT : ∀ c ∈ ps, 0 < c.temp)
    (hk : (s1.steps[j]?).map stepKind = some (false, i)) (hacc : SwapAccepts ps e.idx r ↔ AcceptedIn s1 j n) :
    (∃ ρ', ExInv s1 R j (n + 1) ρ' e') ∧ e'.idx = e.idx ∧ (∀ c ∈ ps', 0 < c.temp) ∧ l = reportAt s1 B R n j := by
  obtain ⟨acc, h1, h2, h3, h4, h5, h6⟩ := exchI_inv h hT
  have hle := he.le
  have hc : acc = nAccepted s1 j (n - ρ) (n + 1) := by
    rw [h1, he.naccept, nAccepted_succ s1 j (Nat.sub_le n ρ)]
    simp only [hacc]
    push_cast
    rfl
  rw [he.niter, he.report] at h5 h6
  have hR := he.lt
  have hd := he.dvd
  unfold reportAt
  rw [hk]
  dsimp only
  by_cases hr : (ρ : ℤ) + 1 = R
  · obtain ⟨g1, g2, g3⟩ := h5 hr
    have hd1 : R ∣ (n : ℤ) + 1 := by
      rcases hd with hd | hd
      · have := dvd_add_self_right.mpr hd
        rwa [show (n : ℤ) - ρ + R = n + 1 by omega] at this
      · omega
    refine ⟨⟨0, h3.trans he.report, by omega, by simpa using g1, ?_, fun h => by simpa using h, Or.inl ?_⟩, h2, h4, ?_⟩
    · rw [g2]; simp [nAccepted]
    · push_cast; rw [sub_zero]; exact hd1
    · rw [if_pos ⟨by omega, hd1⟩, g3, hc, show n + 1 - R.toNat = n - ρ by omega, ← hr]
      push_cast
      rfl
  · obtain ⟨g1, g2, g3⟩ := h6 hr
    refine ⟨⟨ρ + 1, h3.trans he.report, by omega, by rw [g1]; push_cast; rfl, ?_, fun h => ?_, ?_⟩, h2, h4, ?_⟩
    · rw [g2, hc, show n + 1 - (ρ + 1) = n - ρ by omega]
    · have := hR h; push_cast; omega
    · rcases hd with hd | hd
      · left; push_cast; rwa [show (n : ℤ) + 1 - (ρ + 1) = n - ρ by ring]
      · exact Or.inr hd
    · rw [g3, if_neg]
      rintro ⟨hp, hd'⟩
      rcases hd with hd | hd
      · have := Int.le_of_dvd (by omega) ((Int.dvd_sub hd' hd : R ∣ (n : ℤ) + 1 - (n - ρ)))
        have := hR hp
        omega
      · omega

/-- State of the sampler after `n` sweeps and `m` steps of the next one. -/
structure Inv (s1 : Samp μ d) (B R : ℤ) (n m : ℕ) (σ : SampI μ d) : Prop where
  sim : ∃ τ0 τ τ', Sweeps s1 n τ0 ∧ Done τ0 m τ ∧ SampRec τ τ' ∧ RelSamp (fun j => if j < m then n + 1 else n) σ τ'
  temp : ∀ c ∈ σ.chains, 0 < c.temp
  ram : ∀ j i a, σ.steps[j]? = some (.ram i a) → RamInv s1 B j (if j < m then n + 1 else n) a
  exch : ∀ j e, σ.steps[j]? = some (.exch e) → ∃ ρ, ExInv s1 R j (if j < m then n + 1 else n) ρ e
  kind : ∀ j : ℕ, (s1.steps[j]?).map stepKind = (σ.steps[j]?).map kindI
  out : σ.out = reports s1 B R n ++ (List.range m).flatMap (reportAt s1 B R n)

theorem inv_step {s1 : Samp μ d} {B R : ℤ} {n m : ℕ} {σ σ' : SampI μ d} (h : Inv s1 B R n m σ) (hn : n < 2147483647) (hs : σ.doStep m = .ok σ') :
    Inv s1 B R n (m + 1) σ' := by
  obtain ⟨τ0, τ, τ', s2, s3, s4, s5⟩ := h.sim
  have hsim : ∃ τ0 τ τ', Sweeps s1 n τ0 ∧ Done τ0 (m + 1) τ ∧ SampRec τ τ' ∧ RelSamp (fun j => if j < m + 1 then n + 1 else n) σ' τ' := by
    have r1 := doStep_rel s5 (k := m) (by simpa using hn)
    rw [hs] at r1
    cases ht : τ'.doStep m with
    | error e => rw [ht] at r1; exact r1.elim
    | ok u =>
        rw [ht] at r1
        have r2 := doStep_rec s4 m
        rw [ht] at r2
        cases hu : τ.doStep m with
        | error e => rw [hu] at r2; exact r2.elim
        | ok v =>
            rw [hu] at r2
            refine ⟨τ0, v, u, s2, .next s3 hu, r2, RelSamp.mono (r1 : RelSamp _ σ' u) fun j _ => ?_⟩
            by_cases hj : j = m
            · subst hj; simp
            · rw [Function.update_of_ne hj]
              split <;> split <;> omega
  have hacc := acceptedIn_iff s2 s3 s4
  have hother : ∀ {j : ℕ}, j ≠ m → (if j < m + 1 then n + 1 else n) = if j < m then n + 1 else n := by
    intro j hj
    split <;> split <;> omega
  unfold SampI.doStep at hs
  obtain ⟨st, h1, hs⟩ := bind_ok_inv hs
  have h1 := rdU_inv h1
  have hk := h.kind m
  rw [h1] at hk
  have hτ : ∃ b, τ'.steps[m]? = some b := by
    have := (List.getElem?_eq_some_iff.mp h1).1
    exact ⟨_, List.getElem?_eq_getElem (show m < τ'.steps.length by rw [s5.length]; exact this)⟩
  obtain ⟨b, hb⟩ := hτ
  have hrel := s5.steps m st b h1 hb
  have hlt : m < σ.steps.length := (List.getElem?_eq_some_iff.mp h1).1
  cases st with
  | ram i a =>
      cases b with
      | exch f => exact hrel.elim
      | ram i' b =>
          obtain ⟨rfl, hrel⟩ := hrel
          obtain ⟨par, h2, hs⟩ := bind_ok_inv hs
          obtain ⟨⟨a', par', rng', l⟩, h3, hs⟩ := bind_ok_inv hs
          have h2 := rdU_inv h2
          have ht := h.temp _ (List.mem_of_getElem? h2)
          have hA : RamAccepts par a.chol σ.rng ↔ AcceptedIn s1 m n := by
            rw [hacc]
            constructor
            · intro hA
              refine Or.inl ⟨i', b, par, hb, by rw [s5.chains]; exact h2, ?_⟩
              rw [hrel.chol, s5.rng]
              exact hA
            · rintro (⟨i2, a2, c2, k1, k2, k3⟩ | ⟨e, k1, -⟩)
              · rw [hb] at k1
                injection k1 with k1
                injection k1 with k0 k1
                subst k0 k1
                rw [s5.chains, h2] at k2
                injection k2 with k2
                subst k2
                rw [hrel.chol, s5.rng] at k3
                exact k3
              · rw [hb] at k1; cases k1
          have hri : RamInv s1 B m n a := by simpa using h.ram m i' a h1
          obtain ⟨c1, c2⟩ := ram_count (R := R) hri h3 ht.ne' hk hA
          cases hs
          refine ⟨hsim, mem_set_cases h.temp (by rw [(ramI_inv h3 ht.ne').2.2.2.1]; exact ht), fun j i a0 hj => ?_, fun j e hj => ?_, fun j => ?_, ?_⟩
          · by_cases hjm : j = m
            · subst hjm
              simp only [List.getElem?_set_self hlt] at hj
              cases hj
              simpa using c1
            · simp only [List.getElem?_set_ne (Ne.symm hjm)] at hj
              rw [hother hjm]
              exact h.ram j i a0 hj
          · by_cases hjm : j = m
            · subst hjm
              simp only [List.getElem?_set_self hlt] at hj
              cases hj
            · simp only [List.getElem?_set_ne (Ne.symm hjm)] at hj
              rw [hother hjm]
              exact h.exch j e hj
          · by_cases hjm : j = m
            · subst hjm
              simp only [List.getElem?_set_self hlt]
              exact hk
            · simp only [List.getElem?_set_ne (Ne.symm hjm)]
              exact h.kind j
          · show σ.out ++ l = _
            rw [h.out, c2, List.range_succ, List.flatMap_append, List.append_assoc]
            simp
  | exch e =>
      cases b with
      | ram i' b => exact hrel.elim
      | exch f =>
          obtain ⟨⟨e', ps', rng', l⟩, h3, hs⟩ := bind_ok_inv hs
          have hrel : RelExch _ e f := hrel
          have hA : SwapAccepts σ.chains e.idx σ.rng ↔ AcceptedIn s1 m n := by
            rw [hacc]
            constructor
            · intro hA
              refine Or.inr ⟨f, hb, ?_⟩
              rw [hrel.idx, s5.rng, s5.chains]
              exact hA
            · rintro (⟨i2, a2, c2, k1, k2, k3⟩ | ⟨e2, k1, k2⟩)
              · rw [hb] at k1; cases k1
              · rw [hb] at k1
                injection k1 with k1
                injection k1 with k1
                subst k1
                rw [hrel.idx, s5.rng, s5.chains] at k2
                exact k2
          obtain ⟨ρ, hri⟩ := h.exch m e h1
          rw [if_neg (lt_irrefl m)] at hri
          obtain ⟨c1, c3, c4, c2⟩ := exch_count (B := B) hri h3 h.temp hk hA
          cases hs
          refine ⟨hsim, c4, fun j i a0 hj => ?_, fun j e0 hj => ?_, fun j => ?_, ?_⟩
          · by_cases hjm : j = m
            · subst hjm
              simp only [List.getElem?_set_self hlt] at hj
              cases hj
            · simp only [List.getElem?_set_ne (Ne.symm hjm)] at hj
              rw [hother hjm]
              exact h.ram j i a0 hj
          · by_cases hjm : j = m
            · subst hjm
              simp only [List.getElem?_set_self hlt] at hj
              cases hj
              simpa using c1
            · simp only [List.getElem?_set_ne (Ne.symm hjm)] at hj
              rw [hother hjm]
              exact h.exch j e0 hj
          · by_cases hjm : j = m
            · subst hjm
              simp only [List.getElem?_set_self hlt]
              rw [hk]
              show some (false, e.idx) = some (false, e'.idx)
              rw [c3]
            · simp only [List.getElem?_set_ne (Ne.symm hjm)]
              exact h.kind j
          · show σ.out ++ l = _
            rw [h.out, c2, List.range_succ, List.flatMap_append, List.append_assoc]
            simp

theorem inv_loop {s1 : Samp μ d} {B R : ℤ} {n m : ℕ} {σ σ' : SampI μ d} (h : Inv s1 B R n 0 σ) (hn : n < 2147483647) (hs : σ.stepLoop m = .ok σ') :
    Inv s1 B R n m σ' := by
  induction m generalizing σ' with
  | zero => cases hs; exact h
  | succ m ih =>
      obtain ⟨u, h1, hs⟩ := bind_ok_inv hs
      exact inv_step (ih h1) hn hs

theorem Inv.length {s1 : Samp μ d} {B R : ℤ} {n m : ℕ} {σ : SampI μ d} (h : Inv s1 B R n m σ) : σ.steps.length = s1.steps.length := by
  have key : ∀ j : ℕ, j < s1.steps.length ↔ j < σ.steps.length := by
    intro j
    have e := h.kind j
    constructor
    · intro hj
      by_contra hc
      rw [List.getElem?_eq_getElem hj, List.getElem?_eq_none (by omega)] at e
      cases e
    · intro hj
      by_contra hc
      rw [List.getElem?_eq_getElem hj, List.getElem?_eq_none (by omega)] at e
      cases e
  have h1 := key s1.steps.length
  have h2 := key σ.steps.length
  omega

theorem inv_sweep {s1 : Samp μ d} {B R : ℤ} {n : ℕ} {σ σ' : SampI μ d} (h : Inv s1 B R n 0 σ) (hn : n < 2147483647) (hs : σ.sweep = .ok σ') :
    Inv s1 B R (n + 1) 0 σ' := by
  have h' := inv_loop h hn hs
  have hl := h'.length
  have hl0 := h.length
  obtain ⟨τ0, τ, τ', s2, s3, s4, s5⟩ := h'.sim
  have hin : ∀ {j : ℕ} {x}, σ'.steps[j]? = some x → (if j < σ.steps.length then n + 1 else n) = if j < 0 then n + 1 + 1 else n + 1 := by
    intro j x hj
    have := (List.getElem?_eq_some_iff.mp hj).1
    rw [if_pos (by omega), if_neg (by omega)]
  refine ⟨⟨τ, τ, τ', .next s2 (by rw [hl0] at s3; exact s3), .none, s4, s5.mono fun j hj => ?_⟩, h'.temp,
    fun j i a hj => ?_, fun j e hj => ?_, h'.kind, ?_⟩
  · split <;> split <;> omega
  · rw [← hin hj]; exact h'.ram j i a hj
  · rw [← hin hj]; exact h'.exch j e hj
  · rw [h'.out, hl0]
    unfold reports
    rw [List.range_succ, List.flatMap_append]
    simp

theorem inv_iter {s1 : Samp μ d} {B R : ℤ} {n : ℕ} {σ σ' : SampI μ d} (h : Inv s1 B R n 0 σ) {m : ℕ} (hn : n + m ≤ 2147483647)
    (hs : iter SampI.sweep m σ = .ok σ') : Inv s1 B R (n + m) 0 σ' := by
  induction m generalizing σ' with
  | zero => cases hs; exact h
  | succ m ih =>
      obtain ⟨u, h1, hs⟩ := bind_ok_inv hs
      exact inv_sweep (n := n + m) (ih (by omega) h1) (by omega) hs

omit [Target μ] in
theorem saveValuesI_frame {σ σ' : SampI μ d} {k : ℕ} {l : List (String × ℕ)} (h : σ.saveValues k l = .ok σ') :
    σ'.steps = σ.steps ∧ σ'.out = σ.out ∧ σ'.chains.map Par.temp = σ.chains.map Par.temp := by
  induction l generalizing σ' with
  | nil => cases h; exact ⟨rfl, rfl, rfl⟩
  | cons x l ih =>
      obtain ⟨lab, j⟩ := x
      obtain ⟨t, h1, h⟩ := bind_ok_inv h
      obtain ⟨q, h2, h⟩ := bind_ok_inv h
      obtain ⟨q', h3, h⟩ := bind_ok_inv h
      obtain ⟨g1, g2, g3⟩ := ih h1
      cases h
      refine ⟨g1, g2, (map_set_same (rdU_inv h2) ?_).trans g3⟩
      unfold Par.addToSample at h3
      obtain ⟨_, _, h3⟩ := bind_ok_inv h3
      obtain ⟨_, _, h3⟩ := bind_ok_inv h3
      cases h3
      rfl

theorem inv_save {s1 : Samp μ d} {B R : ℤ} {n k : ℕ} {σ σ' : SampI μ d} {l : List (String × ℕ)} (h : Inv s1 B R n 0 σ)
    (hs : σ.saveValues k l = .ok σ') : Inv s1 B R n 0 σ' := by
  obtain ⟨g1, g2, g3⟩ := saveValuesI_frame hs
  obtain ⟨τ0, τ, τ', s2, s3, s4, s5⟩ := h.sim
  refine ⟨?_, fun c hc => ?_, by rw [g1]; exact h.ram, by rw [g1]; exact h.exch, by rw [g1]; exact h.kind, by rw [g2]; exact h.out⟩
  · have r1 := saveValues_rel s5 k l
    rw [hs] at r1
    cases ht : τ'.saveValues k l with
    | error e => rw [ht] at r1; exact r1.elim
    | ok u =>
        rw [ht] at r1
        exact ⟨τ0, τ, u, s2, s3, s4.trans (saveValues_spec ht).1, r1⟩
  · have : c.temp ∈ σ'.chains.map Par.temp := List.mem_map_of_mem hc
    rw [g3] at this
    obtain ⟨c0, h0, e⟩ := List.mem_map.mp this
    rw [← e]
    exact h.temp c0 h0

theorem inv_sample {s1 : Samp μ d} {B R : ℤ} {n : ℕ} {σ σ' : SampI μ d} (h : Inv s1 B R n 0 σ) {thin : ℤ} {m : ℕ}
    (hn : n + thin.toNat * m ≤ 2147483647) (hs : σ.sampleLoop thin m = .ok σ') : Inv s1 B R (n + thin.toNat * m) 0 σ' := by
  induction m generalizing σ' with
  | zero => cases hs; simpa using h
  | succ m ih =>
      have e : n + thin.toNat * (m + 1) = n + thin.toNat * m + thin.toNat := by ring
      rw [e] at hn ⊢
      obtain ⟨u, h1, hs⟩ := bind_ok_inv hs
      obtain ⟨v, h2, hs⟩ := bind_ok_inv hs
      exact inv_save (inv_iter (ih (by omega) h1) hn h2) hs

omit [Target μ] in
theorem setSizesI_frame {σ σ' : SampI μ d} {N : ℤ} {l : List (String × ℕ)} (h : σ.setSizes N l = .ok σ') :
    σ'.steps = σ.steps ∧ σ'.out = σ.out ∧ σ'.chains.map Par.temp = σ.chains.map Par.temp := by
  induction l generalizing σ' with
  | nil => cases h; exact ⟨rfl, rfl, rfl⟩
  | cons x l ih =>
      obtain ⟨lab, j⟩ := x
      obtain ⟨t, h1, h⟩ := bind_ok_inv h
      obtain ⟨q, h2, h⟩ := bind_ok_inv h
      obtain ⟨g1, g2, g3⟩ := ih h1
      split at h
      · cases h
      · cases h
        exact ⟨g1, g2, (map_set_same (rdU_inv h2) (by rfl)).trans g3⟩

theorem startLoopI_frame {fuel : ℕ} {init : Option (List ℝ)} {σ σ' : SampI μ d} {m : ℕ} (h : σ.startLoop fuel init m = .ok σ') :
    σ'.steps = σ.steps ∧ σ'.out = σ.out ∧ σ'.chains.map Par.temp = σ.chains.map Par.temp := by
  induction m generalizing σ' with
  | zero => cases h; exact ⟨rfl, rfl, rfl⟩
  | succ m ih =>
      obtain ⟨t, h1, h⟩ := bind_ok_inv h
      obtain ⟨g1, g2, g3⟩ := ih h1
      unfold SampI.startOne at h
      obtain ⟨st, k1, h⟩ := bind_ok_inv h
      obtain ⟨q, k2, h⟩ := bind_ok_inv h
      obtain ⟨⟨o, θ, r'⟩, k3, h⟩ := bind_ok_inv h
      obtain ⟨q', k4, h⟩ := bind_ok_inv h
      obtain ⟨⟨o', lp⟩, k5, k4⟩ := bind_ok_inv k4
      cases k4
      cases h
      exact ⟨g1, g2, (map_set_same (rdU_inv k2) (by rfl)).trans g3⟩

/-- Fresh step: nothing counted yet. -/
def FreshStep (B R : ℤ) : StepI d → Prop
  | .ram _ a => a.maxiter = B ∧ a.niter = 0 ∧ a.naccept = 0
  | .exch e => e.reportIter = R ∧ e.niter = 0 ∧ e.naccept = 0

/-- Everything printed by a run. -/
theorem run_out {s : SampI μ d} {t : Samp μ d} (h : RelSamp (fun _ => 0) s t) {B R : ℤ} (hfresh : ∀ st ∈ s.steps, FreshStep B R st)
    (hout : s.out = []) (hT : ∀ c ∈ s.chains, 0 < c.temp) {fuel : ℕ} {N burnin thin : ℤ} (hN : 0 ≤ N) {init : List ℝ}
    (hm : burnin.toNat + thin.toNat * N.toNat ≤ 2147483647) {s' : SampI μ d} (hs : s.run fuel N burnin thin init = .ok s') :
    ∃ s1, RunState fuel t init 0 s1 ∧ s'.out = reports s1 B R (burnin.toNat + thin.toNat * N.toNat) := by
  unfold SampI.run at hs
  obtain ⟨s0, h1, hs⟩ := bind_ok_inv hs
  obtain ⟨st, h2, hs⟩ := bind_ok_inv hs
  obtain ⟨par, h3, hs⟩ := bind_ok_inv hs
  obtain ⟨s1, h4, hs⟩ := bind_ok_inv hs
  obtain ⟨s2, h5, hs⟩ := bind_ok_inv hs
  generalize hi : (if init.length = par.value.length then some init else none) = init' at h4
  have hi' : init' = none ∨ init' = some init := by rw [← hi]; split <;> simp
  obtain ⟨a1, a2, a3⟩ := setSizesI_frame h1
  obtain ⟨b1, b2, b3⟩ := startLoopI_frame h4
  have r1 := setSizes_rel h hN s.tracked
  rw [h1] at r1
  cases ht0 : t.setSizes N.toNat s.tracked with
  | error e => rw [ht0] at r1; exact r1.elim
  | ok t0 =>
      rw [ht0] at r1
      have r1 : RelSamp _ s0 t0 := r1
      have r2 := startLoop_rel r1 fuel init' s0.steps.length
      rw [h4] at r2
      cases ht1 : t0.startLoop fuel init' s0.steps.length with
      | error e => rw [ht1] at r2; exact r2.elim
      | ok t1 =>
          rw [ht1] at r2
          have r2 : RelSamp _ s1 t1 := r2
          have hsteps : s1.steps = s.steps := b1.trans a1
          have hkind : ∀ j : ℕ, (t1.steps[j]?).map stepKind = (s1.steps[j]?).map kindI := by
            intro j
            by_cases hj : j < s1.steps.length
            · have hj' : j < t1.steps.length := by rw [r2.length]; exact hj
              have := r2.steps j _ _ (List.getElem?_eq_getElem hj) (List.getElem?_eq_getElem hj')
              rw [List.getElem?_eq_getElem hj, List.getElem?_eq_getElem hj']
              generalize s1.steps[j] = x at this
              generalize t1.steps[j] = y at this
              cases x <;> cases y
              · obtain ⟨rfl, -⟩ := this; rfl
              · exact this.elim
              · exact this.elim
              · show some (false, _) = some (false, _)
                rw [(this : RelExch _ _ _).idx]
            · rw [List.getElem?_eq_none (show t1.steps.length ≤ j by rw [r2.length]; omega), List.getElem?_eq_none (show s1.steps.length ≤ j by omega)]
              rfl
          have hinv : Inv t1 B R 0 0 s1 := by
            refine ⟨⟨t1, t1, t1, .none, .none, SampRec.refl t1, by simpa using r2⟩, fun c hc => ?_, fun j i a hj => ?_, fun j e hj => ?_, hkind, ?_⟩
            · have : c.temp ∈ s1.chains.map Par.temp := List.mem_map_of_mem hc
              rw [b3.trans a3] at this
              obtain ⟨c0, h0, e⟩ := List.mem_map.mp this
              rw [← e]
              exact hT c0 h0
            · rw [hsteps] at hj
              obtain ⟨g1, g2, g3⟩ := hfresh _ (List.mem_of_getElem? hj)
              exact ⟨g1, by simpa using g2, by simpa [nAccepted] using g3⟩
            · rw [hsteps] at hj
              obtain ⟨g1, g2, g3⟩ := hfresh _ (List.mem_of_getElem? hj)
              exact ⟨0, g1, by simp, by simpa using g2, by simpa [nAccepted] using g3, fun h => by simpa using h, Or.inl (by simp)⟩
            · rw [b2, a2, hout]; simp [reports]
          refine ⟨t1, ⟨t0, t1, init', (setSizes_spec ht0).1.sameState, hi', ?_, .none⟩, ?_⟩
          · rw [r1.length]; exact ht1
          · have := inv_sample (inv_iter (m := burnin.toNat) hinv (by omega) h5) (by omega) hs
            rw [this.out]
            simp

/-! ### the samplers of the run functions are fresh -/

omit [Target μ] in
theorem addStepI_fresh {B R : ℤ} {s s' : SampI μ d} {st : StepI d} (h : s.addStep st = .ok s') (hs : ∀ x ∈ s.steps, FreshStep B R x)
    (hst : FreshStep B R st) : (∀ x ∈ s'.steps, FreshStep B R x) ∧ s'.out = s.out := by
  unfold SampI.addStep at h
  obtain ⟨par, -, h⟩ := bind_ok_inv h
  have key : ∀ x ∈ s.steps ++ [st], FreshStep B R x := by
    intro x hx
    rcases List.mem_append.mp hx with hx | hx
    · exact hs x hx
    · rw [List.mem_singleton.mp hx]; exact hst
  injection h with h
  rw [← h]
  split <;> exact ⟨key, rfl⟩

theorem newI_fresh {covar : Matrix (Fin d) (Fin d) ℝ} {target : ℝ} {B R : ℤ} {a : RamI d} {i : ℕ} (h : RamI.new covar target B = .ok a) :
    FreshStep B R (.ram i a) := by
  unfold RamI.new at h
  obtain ⟨L, -, h⟩ := bind_ok_inv h
  cases h
  exact ⟨rfl, rfl, rfl⟩

omit [Target μ] in
theorem temperedI_fresh {covar : Matrix (Fin d) (Fin d) ℝ} {B R : ℤ} {m : ℕ} {s s' : SampI μ d} (h : temperedStepsI covar B R m s = .ok s')
    (hs : ∀ x ∈ s.steps, FreshStep B R x) : (∀ x ∈ s'.steps, FreshStep B R x) ∧ s'.out = s.out := by
  induction m generalizing s with
  | zero => cases h; exact ⟨hs, rfl⟩
  | succ m ih =>
      unfold temperedStepsI at h
      obtain ⟨a, h1, h⟩ := bind_ok_inv h
      obtain ⟨s1, h2, h⟩ := bind_ok_inv h
      obtain ⟨s2, h3, h⟩ := bind_ok_inv h
      obtain ⟨g1, g2⟩ := addStepI_fresh h2 hs (newI_fresh h1)
      obtain ⟨g3, g4⟩ := addStepI_fresh (R := R) h3 g1 ⟨rfl, rfl, rfl⟩
      obtain ⟨g5, g6⟩ := ih h g3
      exact ⟨g5, g6.trans (g4.trans g2)⟩

theorem carmaSamplerI_fresh {N burnin thin nw : ℤ} {p q : ℕ} {z : Bool} {s : SampI (CarP p) (nParams p q z)}
    (h : carmaSamplerI srt N burnin time y yerr p q nw z thin r = .ok s) :
    (∀ x ∈ s.steps, FreshStep burnin (burnin + thin * N) x) ∧ s.out = [] := by
  unfold carmaSamplerI at h
  obtain ⟨var, -, h⟩ := bind_ok_inv h
  split at h
  · cases h
  obtain ⟨ch, -, h⟩ := bind_ok_inv h
  obtain ⟨m, h1, h⟩ := bind_ok_inv h
  obtain ⟨rep, h2, h⟩ := bind_ok_inv h
  obtain ⟨s1, h3, h⟩ := bind_ok_inv h
  obtain ⟨par, -, h⟩ := bind_ok_inv h
  obtain ⟨a, h4, h⟩ := bind_ok_inv h
  have h1 := int32_inv h1
  have h2 := int32_inv h2
  rw [h1] at h2
  rw [h2] at h3
  obtain ⟨g1, g2⟩ := temperedI_fresh h3 (by simp)
  obtain ⟨g3, g4⟩ := addStepI_fresh h g1 (newI_fresh h4)
  exact ⟨g3, g4.trans g2⟩

theorem car1SamplerI_fresh {N burnin thin : ℤ} (R : ℤ) {s : SampI Car1 4} (h : car1SamplerI srt N burnin time y yerr thin r = .ok s) :
    (∀ x ∈ s.steps, FreshStep burnin R x) ∧ s.out = [] := by
  unfold car1SamplerI at h
  obtain ⟨var, -, h⟩ := bind_ok_inv h
  obtain ⟨m, h1, h⟩ := bind_ok_inv h
  obtain ⟨rep, h2, h⟩ := bind_ok_inv h
  obtain ⟨o, -, h⟩ := bind_ok_inv h
  obtain ⟨b, -, h⟩ := bind_ok_inv h
  obtain ⟨a, h4, h⟩ := bind_ok_inv h
  obtain ⟨g3, g4⟩ := addStepI_fresh (R := R) h (by simp) (newI_fresh h4)
  exact ⟨g3, g4⟩

end Verif.Theory
