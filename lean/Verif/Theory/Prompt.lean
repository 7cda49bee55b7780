import Verif.Model.Prompt
import Verif.Spec.Prompt
import Verif.Theory.Frame

/-! Helper lemmas: extraction of words and numbers from typed text. -/

namespace Verif.Theory

open Verif.Model Verif.Model.Prompt Verif.Spec

lemma dec_lt {n : ℕ} (h : n < 10) : dec n = [digitChar n] := by rw [dec, dif_pos h]

lemma dec_ge {n : ℕ} (h : ¬ n < 10) : dec n = dec (n / 10) ++ [digitChar (n % 10)] := by rw [dec, dif_neg h]

lemma digitChar_isDigit {d : ℕ} (h : d < 10) : (digitChar d).isDigit = true ∧ digitVal (digitChar d) = d ∧ isWs (digitChar d) = false := by
  interval_cases d <;> decide

lemma dec_ne_nil (n : ℕ) : dec n ≠ [] := by
  by_cases h : n < 10
  · rw [dec_lt h]; simp
  · rw [dec_ge h]; simp

lemma dec_digits (n : ℕ) : ∀ c ∈ dec n, c.isDigit = true := by
  induction n using Nat.strong_induction_on with
  | _ n ih =>
      by_cases h : n < 10
      · rw [dec_lt h]; intro c hc
        rw [List.mem_singleton.mp hc]; exact (digitChar_isDigit h).1
      · rw [dec_ge h]; intro c hc
        rcases List.mem_append.mp hc with h1 | h1
        · exact ih (n / 10) (by omega) c h1
        · rw [List.mem_singleton.mp h1]; exact (digitChar_isDigit (by omega)).1

lemma dec_val (n : ℕ) : digitsVal (dec n) = n := by
  induction n using Nat.strong_induction_on with
  | _ n ih =>
      by_cases h : n < 10
      · rw [dec_lt h, digitsVal]
        simp [(digitChar_isDigit h).2.1]
      · rw [dec_ge h, digitsVal, List.foldl_append]
        have := ih (n / 10) (by omega)
        rw [digitsVal] at this
        rw [this]
        simp only [List.foldl_cons, List.foldl_nil]
        rw [(digitChar_isDigit (by omega : n % 10 < 10)).2.1]; omega

lemma isWs_of_digit {c : Char} (h : c.isDigit = true) : isWs c = false := by
  simp only [Char.isDigit, Bool.and_eq_true, decide_eq_true_eq] at h
  simp only [isWs, Bool.or_eq_false_iff, decide_eq_false_iff_not]
  refine ⟨⟨⟨⟨⟨?_, ?_⟩, ?_⟩, ?_⟩, ?_⟩, ?_⟩ <;> rintro rfl <;> revert h <;> decide

lemma isWs_nl : isWs '\n' = true := by decide

lemma word_not_ws {w : List Char} (h : Word w) : ∀ c ∈ w, isWs c = false := by
  intro c hc
  obtain ⟨h1, h2, h3, h4, h5, h6⟩ := h.2 c hc
  simp [isWs, h1, h2, h3, h4, h5, h6]

lemma dec_word (n : ℕ) : Word (dec n) := by
  refine ⟨dec_ne_nil n, fun c hc => ?_⟩
  have := isWs_of_digit (dec_digits n c hc)
  simp only [isWs, Bool.or_eq_false_iff, decide_eq_false_iff_not] at this
  tauto

lemma decInt_word (z : ℤ) : Word (decInt z) := by
  rw [decInt]
  split
  · refine ⟨by simp, fun c hc => ?_⟩
    rcases List.mem_cons.mp hc with rfl | h
    · decide
    · exact (dec_word _).2 c h
  · exact dec_word _

/-- white space in front, a word, a line feed -/
lemma skipWs_word {pre w rest : List Char} (hp : ∀ c ∈ pre, isWs c = true) (hw : w ≠ []) (hn : ∀ c ∈ w, isWs c = false) :
    skipWs (pre ++ (w ++ rest)) = w ++ rest := by
  rw [skipWs, List.dropWhile_append_of_pos hp]
  obtain ⟨a, l, rfl⟩ := List.exists_cons_of_ne_nil hw
  rw [List.cons_append, List.dropWhile_cons_of_neg (by simp [hn a (by simp)])]

lemma takeWhile_append_stop {α : Type} {P : α → Bool} {w : List α} {a : α} {rest : List α} (hw : ∀ c ∈ w, P c = true) (ha : P a = false) :
    (w ++ a :: rest).takeWhile P = w ∧ (w ++ a :: rest).dropWhile P = a :: rest := by
  rw [List.takeWhile_append_of_pos hw, List.dropWhile_append_of_pos hw, List.takeWhile_cons_of_neg (by simp [ha]), List.dropWhile_cons_of_neg (by simp [ha])]
  simp

lemma readStr_word {pre w rest : List Char} {old : Str} (hp : ∀ c ∈ pre, isWs c = true) (hw : Word w) :
    readStr ⟨pre ++ (w ++ '\n' :: rest), true⟩ old = (w, ⟨'\n' :: rest, true⟩) := by
  have hn := word_not_ws hw
  obtain ⟨h1, h2⟩ := takeWhile_append_stop (P := fun x => !isWs x) (w := w) (a := '\n') (rest := rest)
    (fun c hc => by simp [hn c hc]) (by simp [isWs_nl])
  simp only [readStr, skipWs_word hp hw.1 hn, h1, h2]
  simp

lemma readNum_int {pre rest : List Char} {ty : IntTy} {z : ℤ} {old : Option ℤ} (hp : ∀ c ∈ pre, isWs c = true) :
    readNum ty ⟨pre ++ (decInt z ++ '\n' :: rest), true⟩ old =
      (some (ty.conv (decide (z < 0)) z.natAbs).1, ⟨'\n' :: rest, (ty.conv (decide (z < 0)) z.natAbs).2⟩) := by
  have hw := decInt_word z
  have hdig := dec_digits z.natAbs
  obtain ⟨h1, h2⟩ := takeWhile_append_stop (P := Char.isDigit) (w := dec z.natAbs) (a := '\n') (rest := rest) hdig (by decide)
  have hsign : readSign (decInt z ++ '\n' :: rest) = (decide (z < 0), dec z.natAbs ++ '\n' :: rest) := by
    rw [decInt]
    by_cases hz : z < 0
    · rw [if_pos hz]; simp [readSign, hz]
    · rw [if_neg hz]
      obtain ⟨a, l, hal⟩ := List.exists_cons_of_ne_nil (dec_ne_nil z.natAbs)
      have ha : a.isDigit = true := hdig a (by rw [hal]; simp)
      rw [hal, List.cons_append, readSign]
      · simp [hz]
      · intro _ h; rw [(List.cons.inj h).1] at ha; revert ha; decide
      · intro _ h; rw [(List.cons.inj h).1] at ha; revert ha; decide
  simp only [readNum, skipWs_word hp hw.1 (word_not_ws hw), hsign, h1, h2]
  simp [dec_ne_nil, dec_val]

lemma conv_int {z : ℤ} (h : Int32 z) : IntTy.int.conv (decide (z < 0)) z.natAbs = (z, true) := by
  have e : (if decide (z < 0) = true then -(z.natAbs : ℤ) else (z.natAbs : ℤ)) = z := by
    by_cases hz : z < 0
    · simp only [hz, decide_true, if_true]; omega
    · simp only [hz, decide_false]
      rw [if_neg (by simp)]; omega
  simp only [IntTy.conv, e]
  rw [if_neg (by have := h.1; omega), if_neg (by have := h.2; omega)]

lemma conv_ulong {n : ℕ} (h : n ≤ 18446744073709551615) : IntTy.ulong.conv (decide ((n : ℤ) < 0)) (n : ℤ).natAbs = ((n : ℤ), true) := by
  simp only [IntTy.conv]
  rw [if_neg (by simp; omega), if_neg (by simp)]
  simp

lemma typed_cons (w : List Char) (ws : List (List Char)) : typed (w :: ws) = w ++ '\n' :: typed ws := by simp [typed]

/-- white space before the typed text: none at first, a line feed afterwards -/
def Pre (pre : List Char) : Prop := ∀ c ∈ pre, isWs c = true

lemma pre_nl : Pre ['\n'] := by intro c hc; rw [List.mem_singleton.mp hc]; decide

variable {G : Type}

lemma askData_typed {dir : Str} {fs : FS} {g : G} {clock : ℤ} {d : Str} {rest : List Str} (hd : Word d) (hok : fs.readable (dir ++ '/' :: d) = true) :
    ∀ (bad : List Str) (pre : List Char), Pre pre → (∀ b ∈ bad, Word b ∧ fs.readable (dir ++ '/' :: b) = false) → ∀ fuel, bad.length < fuel →
      askData dir fuel (⟨⟨pre ++ typed (bad ++ d :: rest), true⟩, fs, g, clock⟩ : World G) =
        .ok (dir ++ '/' :: d, ⟨⟨'\n' :: typed rest, true⟩, fs, g, clock⟩)
  | [], pre, hp, _, fuel + 1, _ => by
      rw [List.nil_append, typed_cons]
      simp only [askData, readStr_word hp hd]
      rw [if_pos hok]
  | b :: bad, pre, hp, hb, fuel + 1, hf => by
      rw [List.cons_append, typed_cons]
      obtain ⟨h1, h2⟩ := hb b (by simp)
      simp only [askData, readStr_word hp h1]
      rw [if_neg (by simp [h2])]
      exact askData_typed hd hok bad ['\n'] pre_nl (fun c hc => hb c (by simp [hc])) fuel (by simpa using hf)

lemma askOut_typed {dir : Str} {fs : FS} {g : G} {clock : ℤ} {d : Str} {rest : List Str} (hd : Word d) (hok : fs.wOk (dir ++ '/' :: d) = true) :
    ∀ (bad : List Str) (pre : List Char), Pre pre → (∀ b ∈ bad, Word b ∧ fs.wOk (dir ++ '/' :: b) = false) → ∀ fuel, bad.length < fuel →
      askOut dir fuel (⟨⟨pre ++ typed (bad ++ d :: rest), true⟩, fs, g, clock⟩ : World G) =
        .ok (dir ++ '/' :: d, ⟨⟨'\n' :: typed rest, true⟩, fs.create (dir ++ '/' :: d) [], g, clock⟩)
  | [], pre, hp, _, fuel + 1, _ => by
      rw [List.nil_append, typed_cons]
      simp only [askOut, readStr_word hp hd, FS.writeTest, hok, if_true]
  | b :: bad, pre, hp, hb, fuel + 1, hf => by
      rw [List.cons_append, typed_cons]
      obtain ⟨h1, h2⟩ := hb b (by simp)
      simp only [askOut, readStr_word hp h1, FS.writeTest, h2]
      exact askOut_typed hd hok bad ['\n'] pre_nl (fun c hc => hb c (by simp [hc])) fuel (by simpa using hf)

lemma askNum_typed {lo z : ℤ} {rest : List Str} (hz : Int32 z) (hlo : lo ≤ z) :
    ∀ (bad : List ℤ) (pre : List Char), Pre pre → (∀ b ∈ bad, Int32 b ∧ b < lo) → ∀ fuel, bad.length < fuel → ∀ x,
      askNum lo fuel x ⟨pre ++ typed (bad.map decInt ++ decInt z :: rest), true⟩ = .ok (z, ⟨'\n' :: typed rest, true⟩)
  | [], pre, hp, _, fuel + 1, _, x => by
      rw [List.map_nil, List.nil_append, typed_cons]
      simp only [askNum, readNum_int hp, conv_int hz]
      rw [if_neg (by omega)]
  | b :: bad, pre, hp, hb, fuel + 1, hf, x => by
      rw [List.map_cons, List.cons_append, typed_cons]
      obtain ⟨h1, h2⟩ := hb b (by simp)
      simp only [askNum, readNum_int hp, conv_int h1]
      rw [if_pos h2]
      exact askNum_typed hz hlo bad ['\n'] pre_nl (fun c hc => hb c (by simp [hc])) fuel (by simpa using hf) _

lemma askData_inv {dir : Str} {fuel : ℕ} {w w' : World G} {name : Str} (h : askData dir fuel w = .ok (name, w')) :
    w.fs.readable name = true ∧ w'.fs = w.fs ∧ w'.rng = w.rng ∧ w'.clock = w.clock ∧ ∃ s, name = dir ++ '/' :: s := by
  induction fuel generalizing w with
  | zero => exact absurd h (by simp [askData])
  | succ fuel ih =>
      rw [askData] at h
      by_cases hr : w.fs.readable (dir ++ '/' :: (readStr w.cin []).1) = true
      · simp only [hr, if_true, Except.ok.injEq, Prod.mk.injEq] at h
        obtain ⟨rfl, rfl⟩ := h
        exact ⟨hr, rfl, rfl, rfl, _, rfl⟩
      · simp only [hr, Bool.false_eq_true, if_false] at h
        have := ih h
        exact this

lemma askOut_inv {dir : Str} {fuel : ℕ} {w w' : World G} {name : Str} (h : askOut dir fuel w = .ok (name, w')) :
    w.fs.wOk name = true ∧ w'.fs = w.fs.create name [] ∧ w'.rng = w.rng ∧ w'.clock = w.clock ∧ ∃ s, name = dir ++ '/' :: s := by
  induction fuel generalizing w with
  | zero => exact absurd h (by simp [askOut])
  | succ fuel ih =>
      rw [askOut] at h
      by_cases hr : w.fs.wOk (dir ++ '/' :: (readStr w.cin [' ']).1) = true
      · simp only [FS.writeTest, hr, if_true, Except.ok.injEq, Prod.mk.injEq] at h
        obtain ⟨rfl, rfl⟩ := h
        exact ⟨hr, rfl, rfl, rfl, _, rfl⟩
      · simp only [FS.writeTest, hr, Bool.false_eq_true, if_false] at h
        have := ih h
        exact this

lemma askNum_inv {lo v : ℤ} {fuel : ℕ} {x : Option ℤ} {c c' : Cin} (h : askNum lo fuel x c = .ok (v, c')) : lo ≤ v := by
  induction fuel generalizing x c with
  | zero => exact absurd h (by simp [askNum])
  | succ fuel ih =>
      rw [askNum] at h
      rcases hx : readNum .int c x with ⟨x', c''⟩
      rw [hx] at h
      cases x' with
      | none => exact absurd h (by simp)
      | some v' =>
          simp only at h
          by_cases hv : v' < lo
          · rw [if_pos hv] at h; exact ih h
          · rw [if_neg hv] at h
            cases h; omega

end Verif.Theory
