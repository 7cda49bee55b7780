import Verif.Theory.FSign
import Verif.Theory.Data
import Verif.Theory.Binary64

/-!
`init()` with machine numbers takes the same decisions as with real numbers: a difference of two doubles is rounded to a number with the same sign, and to zero
only if they are equal.
-/

namespace Verif.Theory

open Verif.Model Verif.Spec
open scoped Classical

/-- a difference of two doubles -/
def DiffOk (d : ℝ) : Prop := ∃ a b, F64 a ∧ F64 b ∧ d = b - a

theorem f64_multiple {x : ℝ} (h : F64 x) : ∃ k : ℤ, x = k * 2 ^ (-1074 : ℤ) := by
  obtain ⟨m, e, -, he, -, rfl⟩ := h
  refine ⟨m * 2 ^ (e + 1074).toNat, ?_⟩
  push_cast
  rw [mul_assoc, ← zpow_natCast, Int.toNat_of_nonneg (by omega), ← zpow_add₀ (by norm_num)]
  congr 2
  omega

theorem diff_gap {d : ℝ} (h : DiffOk d) (h0 : 0 < d) : 2 ^ (-1074 : ℤ) ≤ d := by
  obtain ⟨a, b, ha, hb, rfl⟩ := h
  obtain ⟨k, rfl⟩ := f64_multiple ha
  obtain ⟨l, rfl⟩ := f64_multiple hb
  have hp : (0 : ℝ) < 2 ^ (-1074 : ℤ) := by positivity
  generalize (2 : ℝ) ^ (-1074 : ℤ) = u at *
  have h1 : (0 : ℝ) < (l - k : ℤ) := by
    push_cast
    by_contra hn
    nlinarith
  have h2 : (1 : ℝ) ≤ (l - k : ℤ) := by
    have : (0 : ℤ) < l - k := by exact_mod_cast h1
    exact_mod_cast this
  push_cast at h2
  nlinarith

theorem diff_neg {d : ℝ} (h : DiffOk d) : DiffOk (-d) := by
  obtain ⟨a, b, ha, hb, rfl⟩ := h
  exact ⟨b, a, hb, ha, by ring⟩

theorem f64_least : F64 (2 ^ (-1074 : ℤ)) := ⟨1, -1074, by norm_num, le_rfl, by norm_num, by norm_num⟩

section
variable {A : Arith} (hA : IsBinary64 A)
include hA

theorem diff_pos {d : ℝ} (h : DiffOk d) (h0 : 0 < d) : (Dbl.fin 0).lt (A.rnd d) := by
  have hm := hA.mono _ _ (diff_gap h h0)
  rw [hA.id _ f64_least] at hm
  have hp : (0 : ℝ) < 2 ^ (-1074 : ℤ) := by positivity
  generalize (2 : ℝ) ^ (-1074 : ℤ) = u at *
  cases e : A.rnd d with
  | nan => exact absurd e (hA.no_nan d)
  | pinf => trivial
  | ninf => rw [e] at hm; exact absurd trivial hm
  | fin r =>
    rw [e] at hm
    have hm : ¬ r < u := hm
    show (0 : ℝ) < r
    linarith [not_lt.mp hm]

theorem diff_neg_lt {d : ℝ} (h : DiffOk d) (h0 : d < 0) : (A.rnd d).lt (.fin 0) := by
  have hm := hA.mono _ _ (show d ≤ -(2 ^ (-1074 : ℤ)) by linarith [diff_gap (diff_neg h) (by linarith)])
  rw [hA.id _ (f64_neg f64_least)] at hm
  have hp : (0 : ℝ) < 2 ^ (-1074 : ℤ) := by positivity
  generalize (2 : ℝ) ^ (-1074 : ℤ) = u at *
  cases e : A.rnd d with
  | nan => exact absurd e (hA.no_nan d)
  | ninf => trivial
  | pinf => rw [e] at hm; exact absurd trivial hm
  | fin r =>
    rw [e] at hm
    have hm : ¬ -u < r := hm
    show r < (0 : ℝ)
    linarith [not_lt.mp hm]

theorem rnd_lt_iff {d : ℝ} (h : DiffOk d) : (A.rnd d).lt (.fin 0) ↔ d < 0 := by
  refine ⟨fun hl => ?_, diff_neg_lt hA h⟩
  by_contra hn
  rcases (not_lt.mp hn).eq_or_lt with h0 | h0
  · rw [← h0, hA.id _ f64_zero] at hl
    exact lt_irrefl (0 : ℝ) hl
  · have := diff_pos hA h h0
    cases e : A.rnd d with
    | nan => exact hA.no_nan d e
    | pinf => rw [e] at hl; exact hl
    | ninf => rw [e] at this; exact this
    | fin r =>
      rw [e] at hl this
      exact lt_asymm (show r < (0 : ℝ) from hl) this

theorem rnd_zero_iff {d : ℝ} (h : DiffOk d) : A.rnd d = .fin 0 ↔ d = 0 := by
  refine ⟨fun e => ?_, fun e => by rw [e]; exact hA.id _ f64_zero⟩
  rcases lt_trichotomy d 0 with h0 | h0 | h0
  · have := diff_neg_lt hA h h0
    rw [e] at this
    exact absurd this (lt_irrefl (0 : ℝ))
  · exact h0
  · have := diff_pos hA h h0
    rw [e] at this
    exact absurd this (lt_irrefl (0 : ℝ))

end

/-! ### simulation -/

/-- the machine object for a real one, whose values and errors stand for doubles -/
noncomputable def dec (A : Arith) (φ ψ : ℝ → Dbl) (s : KFBase) : FKF1 :=
  ⟨s.mean.map .fin, s.var.map .fin, s.time.map .fin, s.dt.map A.rnd, s.y.map φ, s.yerr.map ψ, .nan, .nan, 0, .nan, .nan⟩

theorem diffs_dec (A : Arith) (t : List ℝ) : FKF1.diffs A (t.map .fin) = Except.map (List.map A.rnd) (diffs t) := by
  unfold FKF1.diffs diffs
  rw [List.length_map]
  split_ifs
  · rfl
  · show _ = Except.ok _
    rw [← List.map_tail, List.zipWith_map, List.map_zipWith]
    rfl

theorem gather_mem {α : Type} {l : List α} : ∀ {idx : List ℕ} {l' : List α}, gather l idx = .ok l' → ∀ x ∈ l', x ∈ l
  | [], l', h => by
    injection h with h
    subst h
    simp
  | i :: idx, l', h => by
    unfold gather at h
    rw [List.mapM_cons] at h
    cases e : rd l i with
    | error f => rw [e] at h; cases h
    | ok a =>
      cases e2 : (idx.mapM (rd l)) with
      | error f => rw [e, e2] at h; cases h
      | ok r =>
        rw [e, e2] at h
        injection h with h
        subst h
        intro x hx
        rcases List.mem_cons.mp hx with rfl | hx
        · unfold rd at e
          cases e3 : l[i]? with
          | none => rw [e3] at e; cases e
          | some y =>
            rw [e3] at e
            injection e with e
            rw [← e]
            exact List.mem_of_getElem? e3
        · exact gather_mem (idx := idx) e2 x hx

theorem diffs_ok {t dt : List ℝ} (ht : ∀ x ∈ t, F64 x) (h : diffs t = .ok dt) : ∀ d ∈ dt, DiffOk d := by
  unfold diffs at h
  split_ifs at h
  injection h with h
  subst h
  intro d hd
  obtain ⟨i, hi, rfl⟩ := List.getElem_of_mem hd
  rw [List.getElem_zipWith]
  exact ⟨_, _, ht _ (List.getElem_mem _), ht _ (List.mem_of_mem_tail (List.getElem_mem _)), rfl⟩

section
variable {A : Arith} (hA : IsBinary64 A) (φ ψ : ℝ → Dbl)
include hA

theorem dec_initSort (srt : List Dbl → List ℕ) {s : KFBase} (h : ∀ x ∈ s.time, F64 x) :
    FKF1.initSort A srt (dec A φ ψ s) = Except.map (dec A φ ψ) (initSort (fun l => srt (l.map .fin)) s) := by
  unfold FKF1.initSort initSort
  rw [show (dec A φ ψ s).time = s.time.map .fin from rfl, diffs_dec]
  cases e : diffs s.time with
  | error f => rfl
  | ok dt =>
    have hd := diffs_ok h e
    have hc : (∃ d ∈ dt.map A.rnd, d.lt (.fin 0)) ↔ ∃ d ∈ dt, d < 0 := by
      constructor
      · rintro ⟨_, hm, hl⟩
        obtain ⟨d, hd', rfl⟩ := List.mem_map.mp hm
        exact ⟨d, hd', (rnd_lt_iff hA (hd d hd')).mp hl⟩
      · rintro ⟨d, hd', hl⟩
        exact ⟨_, List.mem_map_of_mem hd', (rnd_lt_iff hA (hd d hd')).mpr hl⟩
    simp only [emap_ok]
    show (if ∃ d ∈ dt.map A.rnd, d.lt (.fin 0) then _ else _) = Except.map _ (if ∃ d ∈ dt, d < 0 then _ else _)
    by_cases hn : ∃ d ∈ dt, d < 0
    · rw [if_pos hn, if_pos (hc.mpr hn)]
      simp only [show (dec A φ ψ s).y = s.y.map φ from rfl, show (dec A φ ψ s).yerr = s.yerr.map ψ from rfl, gather_map', diffs_dec, emap_bind, ebind_map, emap_pure]
      rfl
    · rw [if_neg hn, if_neg (fun q => hn (hc.mp q))]
      rfl

theorem dec_initDedup {s : KFBase} (h : ∀ d ∈ s.dt, DiffOk d) : FKF1.initDedup A (dec A φ ψ s) = Except.map (dec A φ ψ) (initDedup s) := by
  unfold FKF1.initDedup initDedup
  have hc : ((∀ d ∈ s.dt.map A.rnd, ¬ d.lt (.fin 0)) ∧ ∃ d ∈ s.dt.map A.rnd, d = .fin 0) ↔ ((∀ d ∈ s.dt, 0 ≤ d) ∧ ∃ d ∈ s.dt, d = 0) := by
    refine and_congr ?_ ?_
    · constructor
      · intro q d hd
        exact not_lt.mp fun hl => q _ (List.mem_map_of_mem hd) ((rnd_lt_iff hA (h d hd)).mpr hl)
      · intro q _ hm hl
        obtain ⟨d, hd, rfl⟩ := List.mem_map.mp hm
        exact absurd ((rnd_lt_iff hA (h d hd)).mp hl) (not_lt.mpr (q d hd))
    · constructor
      · rintro ⟨_, hm, hl⟩
        obtain ⟨d, hd, rfl⟩ := List.mem_map.mp hm
        exact ⟨d, hd, (rnd_zero_iff hA (h d hd)).mp hl⟩
      · rintro ⟨d, hd, hl⟩
        exact ⟨_, List.mem_map_of_mem hd, (rnd_zero_iff hA (h d hd)).mpr hl⟩
  have hi : (0 :: ((List.range (s.dt.map A.rnd).length).filter (fun i => (s.dt.map A.rnd).getD i (.fin 0) ≠ .fin 0)).map (1 + ·)) = uniqueIdx s.dt := by
    unfold uniqueIdx
    rw [List.length_map]
    congr 2
    refine List.filter_congr fun i hi => ?_
    have hi := List.mem_range.mp hi
    simp only [List.getD_eq_getElem?_getD, List.getElem?_map, List.getElem?_eq_getElem hi, Option.map_some, Option.getD_some]
    exact decide_eq_decide.mpr (not_congr (rnd_zero_iff hA (h _ (List.getElem_mem hi))))
  have zeros : ∀ n, List.replicate n (Dbl.fin 0) = (List.replicate n (0 : ℝ)).map .fin := fun n => by rw [List.map_replicate]
  simp only [show (dec A φ ψ s).dt = s.dt.map A.rnd from rfl]
  by_cases hn : (∀ d ∈ s.dt, 0 ≤ d) ∧ ∃ d ∈ s.dt, d = 0
  · rw [if_pos hn, if_pos (hc.mpr hn), hi]
    simp only [show (dec A φ ψ s).y = s.y.map φ from rfl, show (dec A φ ψ s).yerr = s.yerr.map ψ from rfl, show (dec A φ ψ s).time = s.time.map .fin from rfl,
      gather_map', diffs_dec, emap_bind, ebind_map, emap_pure, bind_assoc, pure_bind, List.length_map, zeros]
    rfl
  · rw [if_neg hn, if_neg (fun q => hn (hc.mp q))]
    simp only [pure_bind, emap_pure, show (dec A φ ψ s).time = s.time.map .fin from rfl, List.length_map, zeros]
    rfl

omit hA in
theorem initSort_ok {srt : List ℝ → List ℕ} {s s' : KFBase} (h : ∀ x ∈ s.time, F64 x) (e : initSort srt s = .ok s') : ∀ d ∈ s'.dt, DiffOk d := by
  unfold initSort at e
  cases e1 : diffs s.time with
  | error f => rw [e1] at e; cases e
  | ok dt =>
    rw [e1] at e
    have e : (if ∃ d ∈ dt, d < 0 then _ else _ : Res KFBase) = .ok s' := e
    split_ifs at e
    · cases e2 : gather s.time (srt s.time) with
      | error f => rw [e2] at e; cases e
      | ok time =>
        cases e3 : gather s.y (srt s.time) with
        | error f => rw [e2, e3] at e; cases e
        | ok y =>
          cases e4 : gather s.yerr (srt s.time) with
          | error f => rw [e2, e3, e4] at e; cases e
          | ok yerr =>
            cases e5 : diffs time with
            | error f => rw [e2, e3, e4] at e; simp only [bind, Except.bind, e5] at e; cases e
            | ok dt' =>
              rw [e2, e3, e4] at e
              simp only [bind, Except.bind, e5] at e
              injection e with e
              rw [← e]
              exact diffs_ok (fun x hx => h x (gather_mem e2 x hx)) e5
    · injection e with e
      rw [← e]
      exact diffs_ok h e1

theorem dec_init (srt : List Dbl → List ℕ) {s : KFBase} (h : ∀ x ∈ s.time, F64 x) :
    (FKF1.initSort A srt (dec A φ ψ s) >>= FKF1.initDedup A) = Except.map (dec A φ ψ) (s.init fun l => srt (l.map .fin)) := by
  unfold KFBase.init
  rw [ebind_map, dec_initSort hA φ ψ srt h, emap_bind]
  cases e2 : initSort (fun l => srt (l.map .fin)) s with
  | error f => rfl
  | ok s' => exact dec_initDedup hA φ ψ (initSort_ok h e2)

theorem dec_newData (srt : List Dbl → List ℕ) (time y yerr : List ℝ) (sig : ℝ) (h : ∀ x ∈ time, F64 x) :
    FKF1.newData A srt (time.map .fin) (y.map φ) (yerr.map ψ) =
      Except.map (dec A φ ψ) ((KFBase.raw time y yerr sig).init fun l => srt (l.map .fin)) :=
  dec_init hA φ ψ srt (s := KFBase.raw time y yerr sig) h

end
end Verif.Theory
