import Verif.Model.PyRun

/-!
The dictionary of samples of `MCMCSample` (`src/carmcmc/samplers.py`), reading it from files, and the copies handed to the user. Numpy arrays
are views of a memory, so that sharing is visible: an array is the list of the addresses of its entries, row by row. (A column is an array
with rows of length 1; the difference between shapes `(n,)` and `(n, 1)` is kept in `Py.Trace` instead.)
-/

namespace Verif.Model.Py

open Verif.Model

/-- Text. -/
abbrev Str := List Char

/-- `file.readline()` on an open text file (`samplers.py:67`): the characters up to the end of the first line, with the newline character. -/
def readline : Str → Str
  | [] => []
  | c :: cs => if c = '\n' then [c] else c :: readline cs

/-- The part of a file that `np.genfromtxt(fname, skip_header=1)` reads (`samplers.py:69`). -/
def afterHeader (content : Str) : Str := content.drop (readline content).length

/-- An array: the addresses of its entries. -/
abbrev Arr := List (List ℕ)

/-- The entries of an array in a memory. -/
def readArr (mem : List ℝ) (a : Arr) : Res (List (List ℝ)) := a.mapM fun row => row.mapM fun i => rd mem i

/-- Addresses of a new array with these entries, from address `b` on. -/
def allocRows (b : ℕ) : List (List ℝ) → Arr
  | [] => []
  | r :: l => List.range' b r.length :: allocRows (b + r.length) l

/-- A new array. -/
def newArr (mem : List ℝ) (v : List (List ℝ)) : Arr × List ℝ := (allocRows mem.length v, mem ++ v.flatten)

/-- The memory and the dictionary `self._samples`. -/
structure Samples where
  mem : List ℝ
  dict : List (Str × Arr)

/-- `MCMCSample.generate_from_file` (`samplers.py:57-73`). `fs` gives the contents of files, none if a file cannot be opened; `parse` is what
`genfromtxt` makes of text, or its exception. -/
def generateFromFile (fs : Str → Option Str) (parse : Str → Res (List (List ℝ))) : List Str → Samples → Res Samples
  | [], s => .ok s
  | f :: l, s => do
      let content ← match fs f with
        | none => .error .runtime
        | some c => .ok c
      let name := readline content
      let trace ← parse (afterHeader content)
      if (s.dict.lookup name).isNone then
        let (a, mem) := newArr s.mem trace
        generateFromFile fs parse l ⟨mem, s.dict ++ [(name, a)]⟩
      else generateFromFile fs parse l s

/-- `get_samples` (`samplers.py:47-55`): the stored array is copied. A missing key raises `KeyError`. -/
def getCopy (name : Str) (s : Samples) : Res (Arr × Samples) :=
  match s.dict.lookup name with
  | none => .error .bounds
  | some a => do
      let v ← readArr s.mem a
      let (a', mem) := newArr s.mem v
      return (a', ⟨mem, s.dict⟩)

/-- What the user does with an array they were given: assignments to entries. -/
def assign (s : Samples) (w : List (ℕ × ℝ)) : Samples := ⟨w.foldl (fun m x => m.set x.1 x.2) s.mem, s.dict⟩

/-! ### constructors -/

/-- The methods of a class that `MCMCSample.__init__` calls; the base class has no `set_logpost` and no `generate_from_trace`. -/
structure Hooks (S : Type) where
  setLogpost : Option (List Dbl → S → Res S)
  fromTrace : Option (List (List ℝ) → S → Res S)
  fromFile : List Str → S → Res S

/-- `MCMCSample.__init__` (`samplers.py:27-45`); calling a missing method raises `AttributeError`. -/
def sampleInit {S : Type} (h : Hooks S) (filename : Option Str) (logpost : Option (List Dbl)) (trace : Option (List (List ℝ))) (s : S) : Res S := do
  let s ← match logpost with
    | none => .ok s
    | some l => match h.setLogpost with
        | none => .error .runtime
        | some f => f l s
  match trace with
  | some t => match h.fromTrace with
      | none => .error .runtime
      | some f => f t s
  | none => match filename with
      | some f => h.fromFile [f] s
      | none => .ok s

/-- The base class. -/
def baseHooks (fs : Str → Option Str) (parse : Str → Res (List (List ℝ))) : Hooks Samples := ⟨none, none, generateFromFile fs parse⟩

/-- Columns of a `CarmaSample`: `p` and the keys `var`, `measerr_scale`, `mu`, `quad_coefs`, `logpost`, `ar_roots`. The other derived columns
(`psd_width`, `psd_centroid`, `ar_coefs`, `ma_coefs`, `sigma`, `loglik`) are treated by the code in the same way as `ar_roots`. -/
structure Cols where
  p : ℕ := 0
  var : List ℝ := []
  scale : List ℝ := []
  mu : List ℝ := []
  quad : List (List ℝ) := []
  logpost : List Dbl := []
  roots : List (List ℂ) := []

/-- `CarmaSample.set_logpost` (`carma_pack.py:402-407`). -/
def setLogpost (l : List Dbl) (c : Cols) : Res Cols := .ok { c with logpost := l }

/-- `CarmaSample.generate_from_trace` (`carma_pack.py:409-425`). `names != self._samples.keys()` compares a list with a view of the keys and is
always true. -/
noncomputable def fromTrace (q : ℕ) (trace : List (List ℝ)) (c : Cols) : Res Cols := do
  let m ← columns trace
  let p := m - 3 - q
  let var ← trace.mapM fun r => do return (← rd r 0) ^ 2
  let scale ← trace.mapM fun r => rd r 1
  let mu ← trace.mapM fun r => rd r 2
  return { c with p := p, var := var, scale := scale, mu := mu, quad := trace.map fun r => ((r.drop 3).take p).map Real.exp }

/-- `CarmaSample.generate_from_file` (`carma_pack.py:427-437`): the last column is the log-posterior. -/
noncomputable def fromFile (fs : Str → Option Str) (parse : Str → Res (List (List ℝ))) (q : ℕ) (files : List Str) (c : Cols) : Res Cols := do
  let f ← match files with
    | [] => .error .bounds
    | f :: _ => .ok f
  let content ← match fs f with
    | none => .error .runtime
    | some x => .ok x
  let trace ← parse (afterHeader content)
  let _ ← columns trace
  let last ← trace.mapM fun r => match r.getLast? with
    | none => .error .bounds
    | some x => .ok x
  let c ← fromTrace q (trace.map List.dropLast) c
  setLogpost (last.map Dbl.fin) c

/-- The methods of `CarmaSample`. -/
noncomputable def carmaHooks (fs : Str → Option Str) (parse : Str → Res (List (List ℝ))) (q : ℕ) : Hooks Cols :=
  ⟨some setLogpost, some (fromTrace q), fromFile fs parse q⟩

/-- `CarmaSample._ar_roots` (`carma_pack.py:439-468`). -/
noncomputable def arRootsCol (c : Cols) : Res Cols := do
  let roots ← c.quad.mapM fun r => quadAll r c.p
  return { c with roots := roots }

/-- `CarmaSample.__init__` (`carma_pack.py:281-294`) with its argument `filename`, up to the call of `_ar_roots`. -/
noncomputable def carmaInit {p : ℕ} (fs : Str → Option Str) (parse : Str → Res (List (List ℝ))) (c : Par (CarP p)) (q : ℕ) (filename : Option Str) :
    Res Cols := do
  let trace ← getSamples c
  let o ← sampleInit (carmaHooks fs parse q) filename (some c.logposts) (some trace) {}
  arRootsCol o

end Verif.Model.Py
