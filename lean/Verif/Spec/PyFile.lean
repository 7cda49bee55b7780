import Verif.Model.PyFile

/-! What a user can do with a samples object (C87). -/

namespace Verif.Spec

open Verif.Model.Py

/-- One action: load files, ask for a copy of the samples of a parameter, or assign to an entry of an array obtained before. The state is the
object together with the arrays handed out so far. (A load that raises at some file leaves the object as after loading the files before it,
which is again a load.) -/
inductive Use : Samples × List Arr → Samples × List Arr → Prop
  | load {fs parse files s s' h} : generateFromFile fs parse files s = .ok s' → Use (s, h) (s', h)
  | get {name s a s' h} : getCopy name s = .ok (a, s') → Use (s, h) (s', a :: h)
  | put {s h a row i} (x : ℝ) : a ∈ h → row ∈ a → i ∈ row → Use (s, h) (assign s [(i, x)], h)

/-- Any number of actions. -/
inductive Uses : Samples × List Arr → Samples × List Arr → Prop
  | refl (c) : Uses c c
  | tail {a b c} : Uses a b → Use b c → Uses a c

end Verif.Spec
