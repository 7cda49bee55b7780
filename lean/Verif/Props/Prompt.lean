import Verif.Theory.Prompt

/-! Properties C38 (interactive prompt) and C39 (saving and recovering the generator). -/

namespace Verif.Props

open Verif.Model Verif.Model.Prompt Verif.Spec Verif.Theory

variable {G : Type}

/-- C38: whatever is typed, if the prompt returns, the numbers are valid, the data file can be read, the output file can be written, and
the only file changed is the output file, which is now empty. -/
theorem C38_validated (E : Engine G) {fuel : ℕ} {dir : Str} {w w' : World G} {o : Opts} (h : prompt E fuel dir w = .ok (o, w')) :
    1 ≤ o.sampleSize ∧ 1 ≤ o.thin ∧ 0 ≤ o.burnin ∧ o.chains = 1 ∧ w.fs.readable o.dataFile = true ∧ w.fs.wOk o.outFile = true ∧
      w'.fs.files o.outFile = some [] ∧ ∀ n, n ≠ o.outFile → w'.fs.files n = w.fs.files n := by
  obtain ⟨⟨data, w1⟩, h1, h⟩ := bind_ok_inv h
  obtain ⟨⟨out, w2⟩, h2, h⟩ := bind_ok_inv h
  obtain ⟨⟨size, c1⟩, h3, h⟩ := bind_ok_inv h
  obtain ⟨⟨thin, c2⟩, h4, h⟩ := bind_ok_inv h
  obtain ⟨⟨burnin, c3⟩, h5, h⟩ := bind_ok_inv h
  obtain ⟨d1, d2, d3, d4, -⟩ := askData_inv h1
  obtain ⟨o1, o2, o3, o4, -⟩ := askOut_inv h2
  have hs := askNum_inv h3
  have ht := askNum_inv h4
  have hb := askNum_inv h5
  rcases hx : readNum .ulong c3 none with ⟨x, c4⟩
  simp only at h
  rw [hx] at h
  cases x with
  | none => exact absurd h (by simp)
  | some seed =>
      simp only [pure, Except.pure, Except.ok.injEq, Prod.mk.injEq] at h
      obtain ⟨rfl, rfl⟩ := h
      have hfs : ∀ (s : ℤ) (u : World G), (seedFrom E dir s u).fs = u.fs := by
        intro s u
        simp only [seedFrom, setSeed, recoverSeed]
        split_ifs <;> rfl
      refine ⟨hs, ht, hb, rfl, d1, by rw [← d2]; exact o1, ?_, ?_⟩
      · rw [hfs]; simp only [o2, FS.create, if_true]
      · intro n hn
        rw [hfs]; simp only [o2, d2, FS.create, if_neg hn]

/-- C38, a consequence: naming the data file as the output file erases the data before they are read. -/
theorem C38_same_file_erased (E : Engine G) {fuel : ℕ} {dir : Str} {w w' : World G} {o : Opts} (h : prompt E fuel dir w = .ok (o, w'))
    (hsame : o.outFile = o.dataFile) : w'.fs.files o.dataFile = some [] := by
  rw [← hsame]; exact (C38_validated E h).2.2.2.2.2.2.1

/-- C38: typed line by line, the first acceptable answer to each question is taken: after unreadable names `badD` the readable `d`, after
unwritable names `badO` the writable `out`, and after numbers that are too small the first one that is not. -/
theorem C38_first_valid (E : Engine G) {dir : Str} {fs : FS} {g : G} {clock : ℤ} {badD badO : List Str} {d out : Str}
    (hd : Word d) (hdr : fs.readable (dir ++ '/' :: d) = true) (hbd : ∀ b ∈ badD, Word b ∧ fs.readable (dir ++ '/' :: b) = false)
    (ho : Word out) (how : fs.wOk (dir ++ '/' :: out) = true) (hbo : ∀ b ∈ badO, Word b ∧ fs.wOk (dir ++ '/' :: b) = false)
    {badS badT badB : List ℤ} {size thin burnin : ℤ} (hs : Int32 size) (hs1 : 1 ≤ size) (hbs : ∀ b ∈ badS, Int32 b ∧ b < 1)
    (ht : Int32 thin) (ht1 : 1 ≤ thin) (hbt : ∀ b ∈ badT, Int32 b ∧ b < 1)
    (hb : Int32 burnin) (hb0 : 0 ≤ burnin) (hbb : ∀ b ∈ badB, Int32 b ∧ b < 0) {seed : ℕ} (hseed : seed ≤ 18446744073709551615)
    {rest : List Str} {fuel : ℕ} (hf : badD.length < fuel ∧ badO.length < fuel ∧ badS.length < fuel ∧ badT.length < fuel ∧ badB.length < fuel) :
    prompt E fuel dir ⟨⟨typed (badD ++ d :: (badO ++ out :: (badS.map decInt ++ decInt size :: (badT.map decInt ++ decInt thin ::
        (badB.map decInt ++ decInt burnin :: (dec seed :: rest)))))), true⟩, fs, g, clock⟩ =
      .ok (⟨size, thin, burnin, 1, dir ++ '/' :: d, dir ++ '/' :: out⟩,
        seedFrom E dir seed ⟨⟨'\n' :: typed rest, true⟩, fs.create (dir ++ '/' :: out) [], g, clock⟩) := by
  obtain ⟨f1, f2, f3, f4, f5⟩ := hf
  have e1 := fun rest => askData_typed (g := g) (clock := clock) (rest := rest) hd hdr badD [] (fun c hc => by simp at hc) hbd fuel f1
  have e2 := fun rest => askOut_typed (g := g) (clock := clock) (rest := rest) ho how badO ['\n'] pre_nl hbo fuel f2
  have e3 := fun rest => askNum_typed (rest := rest) hs hs1 badS ['\n'] pre_nl hbs fuel f3 none
  have e4 := fun rest => askNum_typed (rest := rest) ht ht1 badT ['\n'] pre_nl hbt fuel f4 none
  have e5 := fun rest => askNum_typed (rest := rest) hb hb0 badB ['\n'] pre_nl hbb fuel f5 none
  simp only [List.nil_append, List.singleton_append] at e1 e2 e3 e4 e5
  have e6 : readNum .ulong ⟨'\n' :: typed (dec seed :: rest), true⟩ none = (some (seed : ℤ), ⟨'\n' :: typed rest, true⟩) := by
    have h6 := readNum_int (ty := .ulong) (z := (seed : ℤ)) (old := none) (rest := typed rest) pre_nl
    have hdec : decInt (seed : ℤ) = dec seed := by rw [decInt, if_neg (by omega)]; rfl
    rw [conv_ulong hseed, hdec] at h6
    rw [typed_cons]
    exact h6
  rw [prompt, e1]
  simp only [bind, Except.bind]
  rw [e2]
  simp only
  rw [e3]
  simp only
  rw [e4]
  simp only
  rw [e5]
  simp only
  rw [e6]
  rfl

/-- C38, where the prompt goes wrong: a burn-in that is not a number counts as 0, the stream stays failed, and the seed is read from a
variable that was never stored to. -/
theorem C38_word_for_burnin (E : Engine G) {dir : Str} {fs : FS} {g : G} {clock : ℤ} {d out : Str}
    (hd : Word d) (hdr : fs.readable (dir ++ '/' :: d) = true) (ho : Word out) (how : fs.wOk (dir ++ '/' :: out) = true)
    {size thin : ℤ} (hs : Int32 size) (hs1 : 1 ≤ size) (ht : Int32 thin) (ht1 : 1 ≤ thin) {c : Char} {word : Str} {rest : List Str}
    (hw : Word (c :: word)) (hc : c.isDigit = false ∧ c ≠ '-' ∧ c ≠ '+') {fuel : ℕ} (hf : 0 < fuel) :
    prompt E fuel dir ⟨⟨typed (d :: out :: decInt size :: decInt thin :: (c :: word) :: rest), true⟩, fs, g, clock⟩ = .error .ub := by
  have e1 := fun rest => askData_typed (g := g) (clock := clock) (rest := rest) hd hdr [] [] (fun c hc => by simp at hc) (by simp) fuel hf
  have e2 := fun rest => askOut_typed (g := g) (clock := clock) (rest := rest) ho how [] ['\n'] pre_nl (by simp) fuel hf
  have e3 := fun rest => askNum_typed (rest := rest) hs hs1 [] ['\n'] pre_nl (by simp) fuel hf none
  have e4 := fun rest => askNum_typed (rest := rest) ht ht1 [] ['\n'] pre_nl (by simp) fuel hf none
  simp only [List.nil_append, List.singleton_append, List.map_nil] at e1 e2 e3 e4
  obtain ⟨fuel, rfl⟩ := Nat.exists_eq_add_of_lt hf
  have hskip : skipWs ('\n' :: typed ((c :: word) :: rest)) = (c :: word) ++ '\n' :: typed rest := by
    have := skipWs_word (pre := ['\n']) (w := c :: word) (rest := '\n' :: typed rest) pre_nl (by simp) (word_not_ws hw)
    rw [typed_cons]; exact this
  have hsign : readSign ((c :: word) ++ '\n' :: typed rest) = (false, (c :: word) ++ '\n' :: typed rest) := by
    rw [List.cons_append, readSign]
    · intro _ h; exact hc.2.1 (List.cons.inj h).1
    · intro _ h; exact hc.2.2 (List.cons.inj h).1
  have e5 : askNum 0 (0 + fuel + 1) none ⟨'\n' :: typed ((c :: word) :: rest), true⟩ = .ok (0, ⟨(c :: word) ++ '\n' :: typed rest, false⟩) := by
    rw [askNum]
    simp only [readNum, hskip, hsign]
    simp [hc.1]
  rw [prompt, e1]
  simp only [bind, Except.bind]
  rw [e2]
  simp only
  rw [e3]
  simp only
  rw [e4]
  simp only
  rw [e5]
  simp only [readNum]
  rfl

/-- C38, where the prompt goes wrong: a sample size that is not a number makes the prompt ask for ever. -/
theorem C38_word_for_size_hangs (E : Engine G) {dir : Str} {fs : FS} {g : G} {clock : ℤ} {d out : Str}
    (hd : Word d) (hdr : fs.readable (dir ++ '/' :: d) = true) (ho : Word out) (how : fs.wOk (dir ++ '/' :: out) = true)
    {c : Char} {word : Str} {rest : List Str} (hw : Word (c :: word)) (hc : c.isDigit = false ∧ c ≠ '-' ∧ c ≠ '+') (fuel : ℕ) :
    prompt E fuel dir ⟨⟨typed (d :: out :: (c :: word) :: rest), true⟩, fs, g, clock⟩ = .error .timeout := by
  rcases Nat.eq_zero_or_pos fuel with rfl | hf
  · rfl
  have e1 := fun rest => askData_typed (g := g) (clock := clock) (rest := rest) hd hdr [] [] (fun c hc => by simp at hc) (by simp) fuel hf
  have e2 := fun rest => askOut_typed (g := g) (clock := clock) (rest := rest) ho how [] ['\n'] pre_nl (by simp) fuel hf
  simp only [List.nil_append, List.singleton_append] at e1 e2
  obtain ⟨fuel, rfl⟩ := Nat.exists_eq_add_of_lt hf
  have hskip : skipWs ('\n' :: typed ((c :: word) :: rest)) = (c :: word) ++ '\n' :: typed rest := by
    have := skipWs_word (pre := ['\n']) (w := c :: word) (rest := '\n' :: typed rest) pre_nl (by simp) (word_not_ws hw)
    rw [typed_cons]; exact this
  have hsign : readSign ((c :: word) ++ '\n' :: typed rest) = (false, (c :: word) ++ '\n' :: typed rest) := by
    rw [List.cons_append, readSign]
    · intro _ h; exact hc.2.1 (List.cons.inj h).1
    · intro _ h; exact hc.2.2 (List.cons.inj h).1
  have hloop : ∀ k buf, askNum 1 k (some 0) ⟨buf, false⟩ = .error .timeout := by
    intro k buf
    induction k with
    | zero => rfl
    | succ k ih =>
        rw [askNum]
        simp only [readNum, if_true]
        rw [if_pos (by norm_num)]
        exact ih
  have e5 : askNum 1 (0 + fuel + 1) none ⟨'\n' :: typed ((c :: word) :: rest), true⟩ = .error .timeout := by
    rw [askNum]
    simp only [readNum, hskip, hsign]
    simp [hc.1, hloop]
  rw [prompt, e1]
  simp only [bind, Except.bind]
  rw [e2]
  simp only
  rw [e5]

/-! ### a concrete session -/

/-- a toy generator: a counter, printed in unary -/
def exEngine : Engine ℕ where
  seed s := s.toNat
  draw g := (g, g + 1)
  print g := List.replicate g 'x'
  parse s _ := s.length

/-- every file can be written; `/tmp/in` can be read -/
def exFS : FS := ⟨fun n => if n = "/tmp/in".toList then some ['1'] else none, fun _ => true, fun _ => true⟩

/-- a missing file and a negative sample size are rejected, the next answers taken -/
example : prompt exEngine 2 "/tmp".toList ⟨⟨typed ["no".toList, "in".toList, "out".toList, decInt (-3), decInt 100, decInt 2, decInt 50, dec 7], true⟩, exFS, 0, 5⟩ =
    .ok (⟨100, 2, 50, 1, "/tmp/in".toList, "/tmp/out".toList⟩, ⟨⟨['\n'], true⟩, exFS.create "/tmp/out".toList [], 7, 5⟩) := by
  have := C38_first_valid exEngine (dir := "/tmp".toList) (fs := exFS) (g := 0) (clock := 5) (badD := ["no".toList]) (badO := []) (d := "in".toList)
    (out := "out".toList) (by constructor <;> decide) (by decide) (by intro b hb; rw [List.mem_singleton.mp hb]; exact ⟨by constructor <;> decide, by decide⟩)
    (by constructor <;> decide) (by decide) (by simp) (badS := [-3]) (badT := []) (badB := []) (size := 100) (thin := 2) (burnin := 50)
    (by constructor <;> decide) (by decide) (by intro b hb; rw [List.mem_singleton.mp hb]; exact ⟨by constructor <;> decide, by decide⟩)
    (by constructor <;> decide) (by decide) (by simp) (by constructor <;> decide) (by decide) (by simp) (seed := 7) (by decide) (rest := []) (fuel := 2)
    (by decide)
  exact this

/-- the data file named as output file -/
example : ∃ o w', prompt exEngine 1 "/tmp".toList ⟨⟨typed ["in".toList, "in".toList, decInt 100, decInt 2, decInt 50, dec 7], true⟩, exFS, 0, 5⟩ = .ok (o, w') ∧
    o.outFile = o.dataFile := by
  have := C38_first_valid exEngine (dir := "/tmp".toList) (fs := exFS) (g := 0) (clock := 5) (badD := []) (badO := []) (d := "in".toList)
    (out := "in".toList) (by constructor <;> decide) (by decide) (by simp)
    (by constructor <;> decide) (by decide) (by simp) (badS := []) (badT := []) (badB := []) (size := 100) (thin := 2) (burnin := 50)
    (by constructor <;> decide) (by decide) (by simp)
    (by constructor <;> decide) (by decide) (by simp) (by constructor <;> decide) (by decide) (by simp) (seed := 7) (by decide) (rest := []) (fuel := 1)
    (by decide)
  exact ⟨_, _, this, rfl⟩

example : prompt exEngine 9 "/tmp".toList ⟨⟨typed ["in".toList, "out".toList, decInt 100, decInt 2, "none".toList], true⟩, exFS, 0, 5⟩ = .error .ub :=
  C38_word_for_burnin exEngine (by constructor <;> decide) (by decide) (by constructor <;> decide) (by decide) (by constructor <;> decide) (by decide)
    (by constructor <;> decide) (by decide) (c := 'n') (word := "one".toList) (by constructor <;> decide) (by decide) (by decide)

example : prompt exEngine 9 "/tmp".toList ⟨⟨typed ["in".toList, "out".toList, "many".toList], true⟩, exFS, 0, 5⟩ = .error .timeout :=
  C38_word_for_size_hangs exEngine (by constructor <;> decide) (by decide) (by constructor <;> decide) (by decide)
    (c := 'm') (word := "any".toList) (by constructor <;> decide) (by decide) 9

/-! ### C39 -/

/-- C39: with a generator whose text form reads back to an equivalent generator, saving to a file that can be written and read, drawing any
number of values and recovering gives the draws that followed the saving. -/
theorem C39_save_recover (E : Engine G) (hE : ∀ g g' n, draws E n (E.parse (E.print g) g') = draws E n g) {name : Str} {w : World G}
    (hw : w.fs.wOk name = true) (hr : w.fs.rOk name = true) (m n : ℕ) :
    draws E n (recoverSeed E name { saveSeed E name w with rng := advance E m (saveSeed E name w).rng }).rng = draws E n w.rng := by
  have hs : saveSeed E name w = { w with fs := w.fs.create name (E.print w.rng) } := by rw [saveSeed, if_pos hw]
  rw [hs]
  have hread : (w.fs.create name (E.print w.rng)).readable name = true := by simp [FS.readable, FS.create, hr]
  simp only [recoverSeed]
  rw [if_pos hread]
  simp only [FS.create, if_true, Option.getD_some]
  exact hE _ _ _

example : draws exEngine 3 (recoverSeed exEngine "s".toList { saveSeed exEngine "s".toList ⟨⟨[], true⟩, exFS, 4, 0⟩ with
    rng := advance exEngine 10 (saveSeed exEngine "s".toList ⟨⟨[], true⟩, exFS, 4, 0⟩).rng }).rng = [4, 5, 6] :=
  C39_save_recover exEngine (fun g g' n => by simp [exEngine]) rfl rfl 10 3

/-- C39: if the file cannot be opened, neither function changes the generator; saving changes no other file. -/
theorem C39_unopenable (E : Engine G) (name : Str) (w : World G) :
    (saveSeed E name w).rng = w.rng ∧ (∀ n, n ≠ name → (saveSeed E name w).fs.files n = w.fs.files n) ∧
      (w.fs.wOk name = false → saveSeed E name w = w) ∧ (w.fs.readable name = false → recoverSeed E name w = w) := by
  refine ⟨?_, ?_, fun h => ?_, fun h => ?_⟩
  · rw [saveSeed]; split_ifs <;> rfl
  · intro n hn
    rw [saveSeed]; split_ifs
    · simp only [FS.create, if_neg hn]
    · rfl
  · rw [saveSeed, if_neg (by simp [h])]
  · rw [recoverSeed, if_neg (by simp [h])]

example : exFS.readable "s".toList = false := by decide

/-- C39: how the answer to the seed question acts: 0 takes the clock; 1 takes `seed.txt` in the directory if it can be read and the clock
otherwise; anything else is the seed. The file system is not touched. -/
theorem C39_seed_choice (E : Engine G) (dir : Str) (seed : ℤ) (w : World G) :
    (seedFrom E dir seed w).fs = w.fs ∧
      (seedFrom E dir seed w).rng =
        if seed = 0 ∨ seed = 1 ∧ w.fs.readable (dir ++ "/seed.txt".toList) = false then E.seed w.clock
        else if seed = 1 then E.parse ((w.fs.files (dir ++ "/seed.txt".toList)).getD []) w.rng else E.seed seed := by
  constructor
  · simp only [seedFrom, setSeed, recoverSeed]
    split_ifs <;> rfl
  · simp only [seedFrom]
    generalize dir ++ "/seed.txt".toList = nm
    by_cases h0 : seed = 0
    · subst h0; simp [setSeed]
    · by_cases h1 : seed = 1
      · subst h1
        by_cases hr : w.fs.readable nm = true
        · simp [recoverSeed, hr]
        · simp [setSeed, hr]
      · simp [setSeed, h0, h1]

example : (seedFrom exEngine "/tmp".toList 1 ⟨⟨[], true⟩, exFS.create "/tmp/seed.txt".toList "xxx".toList, 9, 5⟩).rng = 3 := by
  rw [(C39_seed_choice exEngine _ _ _).2]; decide

end Verif.Props
