import Verif.Model.Fault

/-!
Model of the interactive prompt `mcmc_options_prompt` (`src/samplers.cpp` lines 142-249), of the file tests `write_to_file`,
`read_from_file` (lines 252-277) and of the seed functions of `src/random.cpp` (lines 24-55).

The generator is `boost::random::mt19937`; its seeding and its text form are library code and appear as the structure `Engine`. Standard
input is a list of characters with the state bits of the stream; extraction follows C++11 `std::num_get` in the "C" locale: white space is
skipped, a text that is no number gives 0 and a failed stream, a number out of range gives the nearest bound and a failed stream, and on a
stream that has failed or ended nothing is stored. Reading a variable that was never stored to is undefined behaviour. Text printed to the
terminal is not modelled.
-/

namespace Verif.Model.Prompt

open Verif.Model

/-- file names and texts -/
abbrev Str := List Char

/-- `std::cin`: the characters not yet read, and whether no state bit is set. -/
structure Cin where
  buf : List Char
  good : Bool

/-- `isspace` in the "C" locale -/
def isWs (c : Char) : Bool := c = ' ' || c = '\t' || c = '\n' || c = '\r' || c = Char.ofNat 11 || c = Char.ofNat 12

def skipWs (l : List Char) : List Char := l.dropWhile isWs

/-- `std::cin >> s` for a string holding `old`. -/
def readStr (c : Cin) (old : Str) : Str × Cin :=
  if c.good = false then (old, c)
  else
    let s := skipWs c.buf
    if s = [] then (old, ⟨[], false⟩)
    else
      let rest := s.dropWhile fun x => !isWs x
      (s.takeWhile (fun x => !isWs x), ⟨rest, !rest.isEmpty⟩)

/-- value of a digit -/
def digitVal (c : Char) : ℕ := c.toNat - '0'.toNat

/-- value of a string of digits -/
def digitsVal (l : List Char) : ℕ := l.foldl (fun acc c => 10 * acc + digitVal c) 0

/-- the sign in front of a number -/
def readSign : List Char → Bool × List Char
  | '-' :: l => (true, l)
  | '+' :: l => (false, l)
  | l => (false, l)

/-- what `num_get` stores for the number with sign `neg` and absolute value `m`: the value and whether it is in range -/
inductive IntTy where
  /-- `int`, 32 bits -/
  | int
  /-- `unsigned long`, 64 bits -/
  | ulong

/-- Stored value and success (C++11 22.4.2.1.2; a minus sign before an unsigned number wraps around, as for `strtoull`). -/
def IntTy.conv : IntTy → Bool → ℕ → ℤ × Bool
  | .int, neg, m =>
      let v : ℤ := if neg then -(m : ℤ) else m
      if v < -2147483648 then (-2147483648, false) else if 2147483647 < v then (2147483647, false) else (v, true)
  | .ulong, neg, m =>
      if 18446744073709551615 < m then (18446744073709551615, false)
      else if neg = true ∧ m ≠ 0 then (18446744073709551616 - (m : ℤ), true) else (m, true)

/-- `std::cin >> x` for an integer variable holding `old` (`none`: never stored to). -/
def readNum (ty : IntTy) (c : Cin) (old : Option ℤ) : Option ℤ × Cin :=
  if c.good = false then (old, c)
  else
    let s := skipWs c.buf
    if s = [] then (old, ⟨[], false⟩)
    else
      let (neg, s) := readSign s
      let ds := s.takeWhile Char.isDigit
      let rest := s.dropWhile Char.isDigit
      if ds = [] then (some 0, ⟨rest, false⟩)
      else
        let (v, ok) := ty.conv neg (digitsVal ds)
        (some v, ⟨rest, ok && !rest.isEmpty⟩)

/-- Files: contents of the existing ones and permissions. -/
structure FS where
  files : Str → Option Str
  rOk : Str → Bool
  wOk : Str → Bool

/-- `read_from_file` (`src/samplers.cpp` lines 264-274): the file can be opened for reading. -/
def FS.readable (fs : FS) (name : Str) : Bool := fs.rOk name && (fs.files name).isSome

/-- Opening an `ofstream` creates the file or removes its contents. -/
def FS.create (fs : FS) (name : Str) (text : Str) : FS := { fs with files := fun n => if n = name then some text else fs.files n }

/-- `write_to_file` (`src/samplers.cpp` lines 252-261). -/
def FS.writeTest (fs : FS) (name : Str) : Bool × FS := if fs.wOk name then (true, fs.create name []) else (false, fs)

/-- The library part of the generator: seeding, drawing, writing to and reading from text (a failed read leaves some state). -/
structure Engine (G : Type) where
  seed : ℤ → G
  draw : G → ℕ × G
  print : G → Str
  parse : Str → G → G

/-- Everything the prompt reads or changes. -/
structure World (G : Type) where
  cin : Cin
  fs : FS
  rng : G
  clock : ℤ

variable {G : Type}

/-- `RandomGenerator::SetSeed` (`src/random.cpp` lines 24-27). -/
def setSeed (E : Engine G) (seed : ℤ) (w : World G) : World G := { w with rng := E.seed seed }

/-- `RandomGenerator::SaveSeed` (`src/random.cpp` lines 31-41). -/
def saveSeed (E : Engine G) (name : Str) (w : World G) : World G :=
  if w.fs.wOk name then { w with fs := w.fs.create name (E.print w.rng) } else w

/-- `RandomGenerator::RecoverSeed` (`src/random.cpp` lines 45-55). -/
def recoverSeed (E : Engine G) (name : Str) (w : World G) : World G :=
  if w.fs.readable name then { w with rng := E.parse ((w.fs.files name).getD []) w.rng } else w

/-- One draw from the global generator. -/
def drawOne (E : Engine G) (w : World G) : ℕ × World G := ((E.draw w.rng).1, { w with rng := (E.draw w.rng).2 })

/-- The values of the next `n` draws. -/
def draws (E : Engine G) : ℕ → G → List ℕ
  | 0, _ => []
  | n + 1, g => (E.draw g).1 :: draws E n (E.draw g).2

/-- The generator after `n` draws. -/
def advance (E : Engine G) : ℕ → G → G
  | 0, g => g
  | n + 1, g => advance E n (E.draw g).2

/-- The loop asking for the data file (lines 150-163). -/
def askData (dir : Str) : ℕ → World G → Res (Str × World G)
  | 0, _ => .error .timeout
  | fuel + 1, w =>
      let (s, cin) := readStr w.cin []
      let name := dir ++ '/' :: s
      if w.fs.readable name then .ok (name, { w with cin := cin }) else askData dir fuel { w with cin := cin }

/-- The loop asking for the output file (lines 164-177). -/
def askOut (dir : Str) : ℕ → World G → Res (Str × World G)
  | 0, _ => .error .timeout
  | fuel + 1, w =>
      let (s, cin) := readStr w.cin [' ']
      let name := dir ++ '/' :: s
      let (ok, fs) := w.fs.writeTest name
      if ok then .ok (name, { w with cin := cin, fs := fs }) else askOut dir fuel { w with cin := cin, fs := fs }

/-- The loops asking for a number not less than `lo` (lines 178-204); `x` is the variable. -/
def askNum (lo : ℤ) : ℕ → Option ℤ → Cin → Res (ℤ × Cin)
  | 0, _, _ => .error .timeout
  | fuel + 1, x, c =>
      let (x, c) := readNum .int c x
      match x with
      | none => .error .ub
      | some v => if v < lo then askNum lo fuel (some v) c else .ok (v, c)

/-- `MCMCOptions` (`src/include/samplers.hpp` lines 39-51). -/
structure Opts where
  sampleSize : ℤ
  thin : ℤ
  burnin : ℤ
  chains : ℤ
  dataFile : Str
  outFile : Str

/-- The choice of the seed (lines 222-246). -/
def seedFrom (E : Engine G) (dir : Str) (seed : ℤ) (w : World G) : World G :=
  if seed = 0 then setSeed E w.clock w
  else if seed = 1 then
    let name := dir ++ "/seed.txt".toList
    if w.fs.readable name then recoverSeed E name w else setSeed E w.clock w
  else setSeed E seed w

/-- `mcmc_options_prompt` (lines 142-249); every loop may run `fuel` times. -/
def prompt (E : Engine G) (fuel : ℕ) (dir : Str) (w : World G) : Res (Opts × World G) := do
  let (data, w) ← askData dir fuel w
  let (out, w) ← askOut dir fuel w
  let (size, cin) ← askNum 1 fuel none w.cin
  let (thin, cin) ← askNum 1 fuel none cin
  let (burnin, cin) ← askNum 0 fuel none cin
  let (seed, cin) := readNum .ulong cin none
  match seed with
  | none => .error .ub
  | some seed =>
      return ({ sampleSize := size, thin := thin, burnin := burnin, chains := 1, dataFile := data, outFile := out },
        seedFrom E dir seed { w with cin := cin })

end Verif.Model.Prompt
