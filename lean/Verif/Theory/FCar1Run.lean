import Verif.Theory.FFrozen

/-!
`RunCar1Sampler` with machine numbers.
-/

namespace Verif.Theory

open Verif.Model Verif.Spec
open scoped Classical

theorem start_stud {A : Arith} {o o' : FCar1} {r r' : FRng} {θ : List Dbl} (h : FCar1.start A o r = .ok (o', θ, r')) : r'.stud = r.stud := by
  unfold FCar1.start at h
  obtain ⟨s1, -, h⟩ := bind_ok_inv h
  cases h
  rfl

theorem setStart_stud {A : Arith} {o o' : FCar1} {i : List Dbl} {r r' : FRng} {θ : List Dbl} (h : FCar1.setStart A o i r = .ok (o', θ, r')) :
    r'.stud = r.stud := by
  unfold FCar1.setStart at h
  split_ifs at h
  · exact start_stud h
  · obtain ⟨⟨s1, v⟩, -, h⟩ := bind_ok_inv h
    dsimp only at h
    split_ifs at h
    · obtain ⟨s2, -, h⟩ := bind_ok_inv h
      cases h
      rfl
    · exact start_stud h

theorem startOne_stud {A : Arith} {d : ℕ} {i : Option (List Dbl)} {s s' : FSamp FCar1 d} {k : ℕ} (h : FSamp.startOne A i s k = .ok s') :
    s'.rng.stud = s.rng.stud := by
  unfold FSamp.startOne at h
  obtain ⟨st, -, h⟩ := bind_ok_inv h
  obtain ⟨par, -, h⟩ := bind_ok_inv h
  cases i with
  | none =>
    obtain ⟨⟨o, θ, r⟩, h1, h⟩ := bind_ok_inv h
    obtain ⟨p, -, h⟩ := bind_ok_inv h
    cases h
    exact start_stud (A := A) h1
  | some l =>
    obtain ⟨⟨o, θ, r⟩, h1, h⟩ := bind_ok_inv h
    obtain ⟨p, -, h⟩ := bind_ok_inv h
    cases h
    exact setStart_stud (A := A) h1

variable {M : Mach}

/-- the sampler of `RunCar1Sampler` -/
noncomputable def car1Samp (M : Mach) (obj : FCar1) (l : List Dbl) (burnin : ℕ) (r : FRng) : FSamp FCar1 4 :=
  { chains := [{ obj := obj, value := List.replicate 4 (.fin 0), logpost := .nan, temp := .fin 1, samples := [], logposts := [] }],
    steps := [.ram 0 (FRam.new M.A 4 l (.fin 0.25) burnin)], tracked := 0, rng := r }

/-- where it starts -/
noncomputable def car1Start (A : Arith) (obj : FCar1) (init drawn : List Dbl) : List Dbl :=
  startVal (fcarVal A obj) (if init.length = 4 then some init else none) drawn

theorem car1_built {obj : FCar1} (hs : FShape obj) (l : List Dbl) (burnin : ℕ) {r : FRng} (hr : Usable 4 r) :
    FBuilt (FInv obj) (car1Samp M obj l burnin r) := by
  refine ⟨?_, ?_, by simp [car1Samp], ?_, ?_, hr⟩
  · intro c hc
    simp only [car1Samp, List.mem_singleton] at hc
    subst hc
    exact ⟨⟨hs, FLike.refl obj⟩, by simp, 1, rfl, le_rfl⟩
  · intro st hst
    simp only [car1Samp, List.mem_singleton] at hst
    subst hst
    simp [FStepOk, car1Samp]
  · intro i hi
    refine ⟨.ram 0 (FRam.new M.A 4 l (.fin 0.25) burnin), by simp [car1Samp], ?_⟩
    simp [car1Samp] at hi
    subst hi
    rfl
  · intro c hc
    simp only [car1Samp, List.mem_singleton] at hc
    subst hc
    exact ⟨rfl, rfl⟩

/-- the state once starting values are set -/
theorem car1_started {obj : FCar1} (hs : FShape obj) (l : List Dbl) (N burnin : ℕ) {r : FRng} (hr : Usable 4 r) {init : List Dbl}
    (hi : init.length = 4 → Doubles init) :
    ∃ c r', FSamp.startLoop M.A (if init.length = 4 then some init else none)
        { car1Samp M obj l burnin r with chains := (car1Samp M obj l burnin r).chains.map fun c => c.setSampleSize N } 1 =
        .ok { car1Samp M obj l burnin r with chains := [c], rng := r' } ∧
      FGood 4 (FInv obj) (fcarVal M.A obj) c ∧ c.value = car1Start M.A obj init (r.prior 0) ∧ c.temp = .fin 1 ∧
      c.samples = List.replicate N [] ∧ c.logposts = List.replicate N (.fin 0) ∧ Usable 4 r' ∧ r'.stud = r.stud := by
  obtain ⟨s, hs0⟩ : ∃ s : FSamp FCar1 4, s = { car1Samp M obj l burnin r with chains := (car1Samp M obj l burnin r).chains.map fun c => c.setSampleSize N } :=
    ⟨_, rfl⟩
  have hb := car1_built (M := M) hs l burnin hr
  have hio : ∀ l ∈ (if init.length = 4 then some init else none : Option (List Dbl)), l.length = 4 ∧ Doubles l := by
    intro l hl
    split_ifs at hl with hd
    · cases hl; exact ⟨hd, hi hd⟩
    · cases hl
  obtain ⟨c, o, r', e1, ho, hu, e2, hg⟩ := startOne_ok (A := M.A) (car1_honest obj) (s := s) (by
      intro c hc
      rw [hs0] at hc
      obtain ⟨c', hc', rfl⟩ := List.mem_map.mp hc
      have := hb.raw c' hc'
      exact ⟨this.obj, this.len, this.temp⟩)
    (by rw [hs0]; have := hb.steps; simpa using this) (by rw [hs0]; exact hr) hio (k := 0) (by rw [hs0]; exact Nat.one_pos)
  have hst := startOne_stud e2
  subst hs0
  have e0 : c = ({ obj := obj, value := List.replicate 4 (.fin 0), logpost := .nan, temp := .fin 1, samples := List.replicate N [], logposts := List.replicate N (.fin 0) } : FPar FCar1) := by
    have : some (({ obj := obj, value := List.replicate 4 (.fin 0), logpost := .nan, temp := .fin 1, samples := [], logposts := [] } : FPar FCar1).setSampleSize N)
      = some c := e1
    injection this with this
    rw [← this]
    simp [FPar.setSampleSize]
  refine ⟨_, r', ?_, hg, rfl, ?_, ?_, ?_, hu, hst⟩
  · simp only [FSamp.startLoop, res_bind_ok]
    exact e2
  · rw [e0]
  · rw [e0]
  · rw [e0]

/-- the run after the start -/
theorem car1_run_eq {obj : FCar1} (l : List Dbl) (N burnin thin : ℕ) (r : FRng) (init : List Dbl) :
    (car1Samp M obj l burnin r).run M N burnin thin init =
      (FSamp.startLoop M.A (if init.length = 4 then some init else none)
        { car1Samp M obj l burnin r with chains := (car1Samp M obj l burnin r).chains.map fun c => c.setSampleSize N } 1 >>= fun s =>
        s.iterate M burnin >>= fun s => s.sampleLoop M thin N) := by
  rfl

end Verif.Theory
