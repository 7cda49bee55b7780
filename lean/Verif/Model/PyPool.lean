import Verif.Model.PyModel
import Mathlib.Logic.Relation
import Mathlib.Logic.Function.Basic

/-!
`CarmaModel.get_mle` with its trials: in one process, or in several worker processes (`multiprocessing.Pool`).

A trial, `_get_mle_single` (`carma_pack.py:195-252`), starts from random values: it uses the generator of the C++ code (`rng` in `src/random.cpp`
line 20), that of Armadillo and that of numpy. Their states together are the type `S`; a trial is a function `trial : S → R × S`. All trials of a call have
the same arguments (line 109). A trial that raises is left out.

A worker is a fork of the calling process (the start method of Linux up to Python 3.13), so it begins with a copy of the caller's generators;
nothing in the code seeds them again. Results go back to the caller, generator states do not. A worker that dies is left out.
-/

namespace Verif.Model.Py

/-- Batch size of `Pool.map`: `chunksize, extra = divmod(n, len(pool) * 4)`, plus one if there is a remainder. -/
def chunkSize (n njobs : ℕ) : ℕ := n / (njobs * 4) + if n % (njobs * 4) = 0 then 0 else 1

/-- `Pool._get_tasks`: slices of `c` tasks. -/
def batches (c : ℕ) (l : List ℕ) : List (List ℕ) :=
  if h : c = 0 ∨ l = [] then [] else l.take c :: batches c (l.drop c)
termination_by l.length
decreasing_by
  push Not at h
  have := List.length_pos_of_ne_nil h.2
  rw [List.length_drop]
  omega

/-- The pool while `map` runs: batches not yet handed out, and of each worker the generators, the rest of its batch, and the results it has
sent with the number of the trial. -/
structure Pool (J : ℕ) (S R : Type) where
  queue : List (List ℕ)
  gen : Fin J → S
  todo : Fin J → List ℕ
  out : Fin J → List (ℕ × R)

/-- A step of the pool: an idle worker takes the next batch, or a worker runs the next trial of its batch. Workers run side by side, so any
worker may make the next step. -/
inductive PoolStep {J : ℕ} {S R : Type} (trial : S → R × S) : Pool J S R → Pool J S R → Prop
  | take {st : Pool J S R} (w : Fin J) {b : List ℕ} {q : List (List ℕ)} : st.todo w = [] → st.queue = b :: q →
      PoolStep trial st { st with queue := q, todo := Function.update st.todo w b }
  | run {st : Pool J S R} (w : Fin J) {i : ℕ} {l : List ℕ} : st.todo w = i :: l →
      PoolStep trial st { st with
        gen := Function.update st.gen w (trial (st.gen w)).2
        todo := Function.update st.todo w l
        out := Function.update st.out w (st.out w ++ [(i, (trial (st.gen w)).1)]) }

/-- The pool at the start of `pool.map(_get_mle_single, args)` with `n` trials (`carma_pack.py:115-118`). The warm-up in line 117 draws nothing. -/
def Pool.start {R : Type} (J n : ℕ) {S : Type} (s : S) : Pool J S R :=
  ⟨batches (chunkSize n J) (List.range n), fun _ => s, fun _ => [], fun _ => []⟩

/-- `pool.map` may return the list `rs`: some execution ends with every batch handed out and done, and `rs` holds the results in the order of the
trials. -/
def PoolMap {S R : Type} (trial : S → R × S) (J n : ℕ) (s : S) (rs : List R) : Prop :=
  ∃ st : Pool J S R, Relation.ReflTransGen (PoolStep trial) (Pool.start J n s) st ∧ st.queue = [] ∧ (∀ w, st.todo w = []) ∧ rs.length = n ∧
    ∀ (i : ℕ) (h : i < rs.length), ∃ w, (i, rs[i]) ∈ st.out w

/-- `n` trials one after the other in the calling process. -/
def seqTrials {S R : Type} (trial : S → R × S) : ℕ → S → List R × S
  | 0, s => ([], s)
  | n + 1, s => ((trial s).1 :: (seqTrials trial n (trial s).2).1, (seqTrials trial n (trial s).2).2)

/-- `CarmaModel.get_mle(p, q, ntrials, njobs)` (`carma_pack.py:106-129`) from generators `s`: result and generators afterwards. `cpu` is
`multiprocessing.cpu_count()`. With one process the trials are run by `map`, in Python 2 a list; in Python 3 it is a lazy object and line 121 raises
`TypeError` before any trial has run. `Pool(n)` with `n < 1` raises `ValueError`. -/
inductive GetMle {S : Type} (py3 : Bool) (cpu : ℕ) (trial : S → Mle × S) (ntrials : ℕ) (njobs : ℤ) (s : S) : Res Mle → S → Prop
  | one : (if njobs = -1 then (cpu : ℤ) else njobs) = 1 → py3 = false →
      GetMle py3 cpu trial ntrials njobs s (getMle (seqTrials trial ntrials s).1) (seqTrials trial ntrials s).2
  | one3 : (if njobs = -1 then (cpu : ℤ) else njobs) = 1 → py3 = true → GetMle py3 cpu trial ntrials njobs s (.error .runtime) s
  | none : (if njobs = -1 then (cpu : ℤ) else njobs) < 1 → GetMle py3 cpu trial ntrials njobs s (.error .runtime) s
  | pool {J : ℕ} {rs : List Mle} : (if njobs = -1 then (cpu : ℤ) else njobs) = J → 2 ≤ J → PoolMap trial J ntrials s rs →
      GetMle py3 cpu trial ntrials njobs s (getMle rs) s

end Verif.Model.Py
