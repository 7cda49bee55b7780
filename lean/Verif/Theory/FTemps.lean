import Verif.Theory.FCarmaEns

/-! The temperatures of the chains do not change. -/

namespace Verif.Theory

open Verif.Model Verif.Spec
open scoped Classical

variable {μ : Type} [FTarget μ] {M : Mach} {d : ℕ}

/-- temperatures of the chains -/
def temps (l : List (FPar μ)) : List Dbl := l.map FPar.temp

omit [FTarget μ] in
theorem temps_set {l : List (FPar μ)} {i : ℕ} {a b : FPar μ} (h : rdU l i = .ok a) (e : b.temp = a.temp) : temps (l.set i b) = temps l := by
  unfold temps
  rw [List.map_set, e]
  refine List.ext_getElem? fun j => ?_
  have hi : l[i]? = some a := by
    unfold rdU at h
    split at h
    · next x hx => injection h with h; rw [hx, h]
    · cases h
  rw [List.getElem?_set]
  split_ifs with h1 h2
  · subst h1; rw [List.getElem?_map, hi]; rfl
  · subst h1; rw [List.getElem?_eq_none (by omega)]
  · rfl

theorem save_temp {A : Arith} {a b : FPar μ} {θ : List Dbl} (h : a.save A θ = .ok b) : b.temp = a.temp := by
  unfold FPar.save at h
  obtain ⟨x, -, h⟩ := bind_ok h
  injection h with h
  rw [← h]

theorem saveStale_temp {A : Arith} {a b : FPar μ} {θ : List Dbl} (h : a.saveStale A θ = .ok b) : b.temp = a.temp := by
  unfold FPar.saveStale at h
  obtain ⟨x, -, h⟩ := bind_ok h
  injection h with h
  rw [← h]

theorem accept_temp {s : FPar μ} {θ : List Dbl} {r : FRng} {x} (h : FRam.accept M s θ r = .ok x) : x.2.1.temp = s.temp := by
  unfold FRam.accept at h
  obtain ⟨y, -, h⟩ := bind_ok h
  dsimp only at h
  split at h <;> (injection h with h; rw [← h])

theorem ram_temp {a : FRam d} {s : FPar μ} {r : FRng} {x} (h : a.doStep M s r = .ok x) : x.2.1.temp = s.temp := by
  unfold FRam.doStep at h
  split at h
  · cases h
  obtain ⟨y, e, h⟩ := bind_ok h
  dsimp only at h
  have hy := accept_temp e
  split at h
  · obtain ⟨t, et, h⟩ := bind_ok h
    injection h with h
    rw [← h]
    exact (save_temp et).trans hy
  · injection h with h
    rw [← h]
    exact hy

theorem doStep_temps {s t : FSamp μ d} {k : ℕ} (h : s.doStep M k = .ok t) : temps t.chains = temps s.chains := by
  unfold FSamp.doStep at h
  obtain ⟨st, -, h⟩ := bind_ok h
  cases st with
  | ram i a =>
    dsimp only at h
    obtain ⟨c, ec, h⟩ := bind_ok h
    obtain ⟨x, ex, h⟩ := bind_ok h
    injection h with h
    rw [← h]
    exact temps_set ec (ram_temp ex)
  | exch i =>
    dsimp only at h
    obtain ⟨x, ex, h⟩ := bind_ok h
    injection h with h
    rw [← h]
    dsimp only
    unfold fexchange at ex
    obtain ⟨a, ea, ex⟩ := bind_ok ex
    obtain ⟨j, ej, ex⟩ := bind_ok ex
    obtain ⟨b, eb, ex⟩ := bind_ok ex
    dsimp only at ex
    split at ex
    · obtain ⟨a', ea', ex⟩ := bind_ok ex
      obtain ⟨b', eb', ex⟩ := bind_ok ex
      injection ex with ex
      rw [← ex]
      have hij : i ≠ j := by
        split at ej
        · cases ej
        · injection ej with ej; omega
      have : rdU (s.chains.set i { a' with logpost := b.logpost }) j = .ok b := by
        unfold rdU at eb ⊢
        rw [List.getElem?_set_ne hij]
        exact eb
      have h1 := saveStale_temp eb'
      have h2 := save_temp ea'
      exact (temps_set this (b := { b' with logpost := a.logpost }) h1).trans (temps_set ea (b := { a' with logpost := b.logpost }) h2)
    · injection ex with ex
      rw [← ex]

theorem stepLoop_temps {s t : FSamp μ d} {m : ℕ} (h : s.stepLoop M m = .ok t) : temps t.chains = temps s.chains := by
  induction m generalizing t with
  | zero => injection h with h; rw [h]
  | succ m ih =>
    obtain ⟨u, e, h⟩ := bind_ok h
    rw [doStep_temps h, ih e]

theorem iterate_temps {s t : FSamp μ d} {n : ℕ} (h : s.iterate M n = .ok t) : temps t.chains = temps s.chains := by
  unfold FSamp.iterate at h
  induction n generalizing t with
  | zero => injection h with h; rw [h]
  | succ n ih =>
    obtain ⟨u, e, h⟩ := bind_ok h
    rw [stepLoop_temps h, ih e]

theorem startLoop_temps {A : Arith} {init : Option (List Dbl)} {s t : FSamp μ d} {m : ℕ} (h : FSamp.startLoop A init s m = .ok t) :
    temps t.chains = temps s.chains := by
  induction m generalizing t with
  | zero => injection h with h; rw [h]
  | succ m ih =>
    obtain ⟨u, e, h⟩ := bind_ok h
    rw [← ih e]
    unfold FSamp.startOne at h
    obtain ⟨st, -, h⟩ := bind_ok h
    obtain ⟨c, ec, h⟩ := bind_ok h
    obtain ⟨x, -, h⟩ := bind_ok h
    obtain ⟨y, ey, h⟩ := bind_ok h
    injection h with h
    rw [← h]
    have h1 := save_temp ey
    exact temps_set ec h1

theorem sampleLoop_temps {thin : ℕ} {s t : FSamp μ d} {k : ℕ} (h : FSamp.sampleLoop M thin s k = .ok t) : temps t.chains = temps s.chains := by
  induction k generalizing t with
  | zero => injection h with h; rw [h]
  | succ k ih =>
    obtain ⟨u, e, h⟩ := bind_ok h
    obtain ⟨v, ev, h⟩ := bind_ok h
    rw [← ih e, ← iterate_temps ev]
    unfold FSamp.saveValues at h
    obtain ⟨c, ec, h⟩ := bind_ok h
    obtain ⟨y, ey, h⟩ := bind_ok h
    injection h with h
    rw [← h]
    refine temps_set ec ?_
    unfold FPar.addToSample at ey
    obtain ⟨_, -, ey⟩ := bind_ok ey
    obtain ⟨_, -, ey⟩ := bind_ok ey
    injection ey with ey
    rw [← ey]

theorem run_temps {s t : FSamp μ d} {N burnin thin : ℕ} {init : List Dbl} (h : s.run M N burnin thin init = .ok t) : temps t.chains = temps s.chains := by
  unfold FSamp.run at h
  obtain ⟨c, ec, h⟩ := bind_ok h
  dsimp only at h
  obtain ⟨st, -, h⟩ := bind_ok h
  obtain ⟨_, -, h⟩ := bind_ok h
  obtain ⟨u, eu, h⟩ := bind_ok h
  obtain ⟨v, ev, h⟩ := bind_ok h
  rw [sampleLoop_temps h, iterate_temps ev, startLoop_temps eu]
  exact temps_set ec rfl

theorem ens_temps {C : CArith} {fuel : ℕ} {srt : List Dbl → List ℕ} {time y yerr : List Dbl} {p : ℕ} {kind : Kind} {B : Dbl} {n m : ℕ}
    {l : List (FPar (FWalk C p fuel))} (h : fensemble C fuel srt time y yerr p kind B n m = .ok l) : temps l = (List.range m).map (ftemperature C.r n) := by
  induction m generalizing l with
  | zero => injection h with h; rw [← h]; rfl
  | succ m ih =>
    obtain ⟨l', e, h⟩ := bind_ok h
    obtain ⟨obj, -, h⟩ := bind_ok h
    injection h with h
    rw [← h, List.range_succ, List.map_append, ← ih e]
    simp [temps]

/-- the chain that is returned has the temperature of chain 0 -/
theorem carma_temp {C : CArith} {M : Mach} {fuel : ℕ} {srt : List Dbl → List ℕ} {N burnin : ℕ} {time y yerr : List Dbl} {p q n : ℕ} {z : Bool} {thin : ℕ}
    {init : List Dbl} {r : FRng} {par} (h : frunCarma C M fuel srt N burnin time y yerr p q n z thin init r = .ok par) :
    0 < n ∧ par.temp = ftemperature C.r n 0 := by
  unfold frunCarma at h
  obtain ⟨l, el, h⟩ := bind_ok h
  obtain ⟨L, -, h⟩ := bind_ok h
  dsimp only at h
  obtain ⟨c0, -, h⟩ := bind_ok h
  obtain ⟨s, es, h⟩ := bind_ok h
  have h1 : temps s.chains = (List.range n).map (ftemperature C.r n) := (run_temps es).trans (ens_temps el)
  have h2 : (temps s.chains)[0]? = some par.temp := by
    unfold rdU at h
    split at h
    · next x hx => injection h with h; rw [temps, List.getElem?_map, hx, h]; rfl
    · cases h
  rw [h1] at h2
  cases n with
  | zero => cases h2
  | succ n =>
    rw [List.getElem?_map, List.getElem?_range (by omega)] at h2
    injection h2 with h2
    exact ⟨by omega, h2.symm⟩

theorem ftemp_cold {A : Arith} (hA : IsBinary64 A) (hL : Ladder A) {n : ℕ} (h2 : 2 ≤ n) (hn : n ≤ 2 ^ 53) : ftemperature A n 0 = A.exp (.fin 0) := by
  obtain ⟨l, el, hlF, hl0, hl5⟩ := hL.log
  unfold ftemperature
  rw [if_neg (by omega)]
  obtain ⟨N, hN⟩ : ∃ N : ℕ, N = n - 1 := ⟨_, rfl⟩
  have hN1 : N < 2 ^ 53 := by omega
  have hNr : (1 : ℝ) ≤ N := by exact_mod_cast (by omega : 1 ≤ N)
  have r1 : A.rnd ((n - 1 : ℕ) : ℝ) = .fin N := by rw [← hN]; exact hA.id _ (f64_small hN1)
  have e1 : A.sub (A.log (.fin 100)) (.fin 0) = .fin l := by rw [el, fl_sub, sub_zero]; exact hA.id l hlF
  obtain ⟨st, e2, -⟩ := rnd_div hA (a := l) (b := N) (by positivity) f64_zero (by simpa using f64_small (k := 8) (by norm_num)) (by positivity)
    (by rw [div_le_iff₀ (by positivity)]; linarith)
  rw [r1, e1, e2, Nat.cast_zero, hA.id _ f64_zero, fl_mul, zero_mul, hA.id _ f64_zero, fl_add, add_zero, hA.id _ f64_zero]

end Verif.Theory
