import Verif.Theory.PyFile
import Verif.Spec.PyFile
import Verif.Props.PyRun

/-! C87: samples read from files and the copies given to the user. -/

namespace Verif.Props

open Verif.Model Verif.Model.Py Verif.Spec Verif.Theory

/-- a new object -/
lemma inside_empty : Inside ⟨[], []⟩ := by intro x hx; cases hx

/-- **C87, files.** `generate_from_file` stores the samples of a file under the first line of the file *with its newline*; the first file
with a given first line is the one that counts, and `get_samples` with that key returns what `genfromtxt` reads from the rest of the file.

The full property, with the name in the first line as key, is false: `C87_name_negation`. -/
theorem C87_from_files_partial {fs : Str → Option Str} {parse : Str → Res (List (List ℝ))} {pre post : List Str} {f h body : Str} {s : Samples}
    (hgen : generateFromFile fs parse (pre ++ f :: post) ⟨[], []⟩ = .ok s) (hf : fs f = some (h ++ '\n' :: body)) (hh : '\n' ∉ h)
    (hpre : ∀ g ∈ pre, ∀ c, fs g = some c → ¬ (h ++ ['\n']) <+: c) :
    ∃ v a s', parse body = .ok v ∧ getCopy (h ++ ['\n']) s = .ok (a, s') ∧ readArr s'.mem a = .ok v := by
  obtain ⟨-, -, -, -, -, h6⟩ := generate_spec inside_empty hgen
  obtain ⟨v, a, h1, h2, h3⟩ := h6 (h ++ ['\n']) pre f post _ rfl hf (readline_eq hh) rfl fun g hg c hc e =>
    hpre g hg c hc (e ▸ readline_prefix c)
  rw [afterHeader_eq hh] at h1
  refine ⟨v, _, _, h1, getCopy_ok h2 h3, ?_⟩
  have := readArr_new s.mem v []
  rwa [List.append_nil] at this

/-- two files, of which the second has the same first line -/
example : generateFromFile (fun f => if f = "a".toList then some "mu\n1\n".toList else some "mu\n2\n".toList)
    (fun b => if b = "1\n".toList then .ok [[1]] else .ok [[2]]) ["a".toList, "b".toList] ⟨[], []⟩ = .ok ⟨[1], [("mu\n".toList, [[0]])]⟩ := by
  simp [generateFromFile, readline, afterHeader, newArr, allocRows, bind, Except.bind]

/-- **C87, negation.** No parameter can be asked for by its name: after loading any files, each with at least one newline in it,
`get_samples(name)` raises `KeyError` for all names without newline. -/
theorem C87_name_negation {fs : Str → Option Str} {parse : Str → Res (List (List ℝ))} {files : List Str} {s : Samples}
    (hgen : generateFromFile fs parse files ⟨[], []⟩ = .ok s) (hnl : ∀ f ∈ files, ∀ c, fs f = some c → '\n' ∈ c) {name : Str}
    (hname : '\n' ∉ name) : getCopy name s = .error .bounds := by
  obtain ⟨-, -, -, -, h5, -⟩ := generate_spec inside_empty hgen
  rw [getCopy, h5 name rfl fun f hf c hc e => hname (e ▸ newline_readline (hnl f hf c hc))]

/-- the file of the example above -/
example : '\n' ∈ "mu\n1\n".toList ∧ '\n' ∉ "mu".toList := by decide

/-- invariant: stored arrays and arrays handed out are in memory and share no address -/
structure Apart (c : Samples × List Arr) : Prop where
  inside : Inside c.1
  below : ∀ a ∈ c.2, Below c.1.mem.length a
  apart : ∀ x ∈ c.1.dict, ∀ row ∈ x.2, ∀ i ∈ row, ∀ a ∈ c.2, ∀ r ∈ a, i ∉ r

lemma use_apart {c d : Samples × List Arr} (h : Use c d) (hc : Apart c) :
    Apart d ∧ ∀ k a, c.1.dict.lookup k = some a → d.1.dict.lookup k = some a ∧ readArr d.1.mem a = readArr c.1.mem a := by
  cases h with
  | @load fs parse files s s' h hg =>
    obtain ⟨g1, ⟨x, g2⟩, g3, g4, -, -⟩ := generate_spec hc.inside hg
    refine ⟨⟨g1, ?_, ?_⟩, ?_⟩
    · intro a ha row hr i hi
      have := hc.below a ha row hr i hi
      show i < s'.mem.length
      rw [g2]
      change i < s.mem.length at this
      change i < (s.mem ++ x).length
      rw [List.length_append]
      omega
    · intro y hy row hr i hi a ha r hra hir
      rcases g4 y hy with hy | hy
      · exact hc.apart y hy row hr i hi a ha r hra hir
      · have h1 := hy row hr i hi
        change s.mem.length ≤ i at h1
        have h2 := hc.below a ha r hra i hir
        change i < s.mem.length at h2
        omega
    · intro k a hk
      refine ⟨g3 k a hk, ?_⟩
      show readArr s'.mem a = _
      rw [g2]
      exact readArr_append (hc.inside _ (lookup_mem hk)) x
  | @get name s a s' h hg =>
    obtain ⟨b, v, -, -, rfl, rfl⟩ := getCopy_spec hg
    refine ⟨⟨?_, ?_, ?_⟩, ?_⟩
    · intro y hy row hr i hi
      have := hc.inside y hy row hr i hi
      change i < s.mem.length at this
      show i < (s.mem ++ v.flatten).length
      rw [List.length_append]
      omega
    · intro a' ha row hr i hi
      show i < (s.mem ++ v.flatten).length
      rw [List.length_append]
      rcases List.mem_cons.mp ha with rfl | ha
      · exact (allocRows_mem hr hi).2
      · have := hc.below a' ha row hr i hi
        change i < s.mem.length at this
        omega
    · intro y hy row hr i hi a' ha r hra hir
      rcases List.mem_cons.mp ha with rfl | ha
      · have h1 := hc.inside y hy row hr i hi
        change i < s.mem.length at h1
        have h2 := (allocRows_mem hra hir).1
        omega
      · exact hc.apart y hy row hr i hi a' ha r hra hir
    · intro k a' hk
      exact ⟨hk, readArr_append (hc.inside _ (lookup_mem hk)) _⟩
  | @put s h a row i x ha hr hi =>
    have hlen : (assign s [(i, x)]).mem.length = s.mem.length := by simp [assign]
    refine ⟨⟨?_, ?_, hc.apart⟩, ?_⟩
    · intro y hy row hr i hi
      show i < (assign s _).mem.length
      rw [hlen]
      exact hc.inside y hy row hr i hi
    · intro a ha row hr i hi
      show i < (assign s _).mem.length
      rw [hlen]
      exact hc.below a ha row hr i hi
    · intro k b hk
      refine ⟨hk, ?_⟩
      refine readArr_congr fun row' hr' j hj => ?_
      have hne : i ≠ j := by
        rintro rfl
        exact hc.apart _ (lookup_mem hk) row' hr' i hj a ha row hr hi
      show (s.mem.set i x)[j]? = s.mem[j]?
      rw [List.getElem?_set_ne hne]

/-- **C87, copies.** Whatever is done with an object, in any order - loading files, asking for samples, assigning to the arrays obtained -
samples once stored under a key stay as they are. -/
theorem C87_copies_safe {c d : Samples × List Arr} (hc : Uses (⟨[], []⟩, []) c) (hd : Uses c d) {k : Str} {a : Arr}
    (hk : c.1.dict.lookup k = some a) : d.1.dict.lookup k = some a ∧ ∃ v, readArr c.1.mem a = .ok v ∧ readArr d.1.mem a = .ok v := by
  have key : ∀ {c d : Samples × List Arr}, Uses c d → Apart c →
      Apart d ∧ ∀ k a, c.1.dict.lookup k = some a → d.1.dict.lookup k = some a ∧ readArr d.1.mem a = readArr c.1.mem a := by
    intro c d h hc
    induction h with
    | refl => exact ⟨hc, fun k a hk => ⟨hk, rfl⟩⟩
    | tail _ hu ih =>
      obtain ⟨h1, h2⟩ := ih
      obtain ⟨h3, h4⟩ := use_apart hu h1
      refine ⟨h3, fun k a hk => ?_⟩
      obtain ⟨k1, k2⟩ := h2 k a hk
      obtain ⟨k3, k4⟩ := h4 k a k1
      exact ⟨k3, k4.trans k2⟩
  have ha : Apart ((⟨[], []⟩, []) : Samples × List Arr) :=
    { inside := inside_empty, below := fun a h => (List.not_mem_nil h).elim, apart := fun x h => (List.not_mem_nil h).elim }
  obtain ⟨hA, -⟩ := key hc ha
  obtain ⟨-, h2⟩ := key hd hA
  obtain ⟨k1, k2⟩ := h2 k a hk
  obtain ⟨v, hv⟩ : ∃ v, readArr c.1.mem a = .ok v := by
    have hb : Below c.1.mem.length a := hA.inside _ (lookup_mem hk)
    clear k1 k2 h2 hk
    induction a with
    | nil => exact ⟨[], rfl⟩
    | cons r a ih =>
      obtain ⟨v, hv⟩ := ih fun row hr => hb row (by simp [hr])
      obtain ⟨w, hw⟩ : ∃ w, r.mapM (fun i => rd c.1.mem i) = .ok w := by
        have hr := hb r (by simp)
        clear hb
        induction r with
        | nil => exact ⟨[], rfl⟩
        | cons i r ih =>
          obtain ⟨w, hw⟩ := ih fun i hi => hr i (by simp [hi])
          have hi := hr i (by simp)
          refine ⟨c.1.mem[i] :: w, ?_⟩
          rw [List.mapM_cons, hw]
          simp [rd, hi]
      refine ⟨w :: v, ?_⟩
      rw [readArr] at hv ⊢
      rw [List.mapM_cons, hw, hv]
      rfl
  exact ⟨k1, v, hv, k2.trans hv⟩

/-- a file is loaded, its samples are asked for and overwritten: the stored value 1 is unchanged, the copy holds 7 -/
example : ∃ s : Samples, ∃ h, Uses (⟨[], []⟩, []) (s, h) ∧ s = ⟨[1, 7], [("mu\n".toList, [[0]])]⟩ ∧ h = [[[1]]] := by
  refine ⟨_, _, .tail (.tail (.tail (.refl _) (.load (fs := fun _ => some "mu\n1\n".toList) (parse := fun _ => .ok [[1]])
    (files := ["a".toList]) (s' := ⟨[1], [("mu\n".toList, [[0]])]⟩) ?_)) (.get (name := "mu\n".toList) (a := [[1]])
    (s' := ⟨[1, 1], [("mu\n".toList, [[0]])]⟩) ?_)) (.put (a := [[1]]) (row := [1]) (i := 1) 7 (by simp) (by simp) (by simp)), ?_, rfl⟩
  · simp [generateFromFile, readline, afterHeader, newArr, allocRows, bind, Except.bind]
  · simp [getCopy, readArr, rd, newArr, allocRows, bind, Except.bind, pure, Except.pure]
  · simp [assign]

/-! ### constructors -/

lemma columns_rows {p q : ℕ} {trace : List (List ℝ)} {rows : List Row} (h : trace.mapM (mkRow p q) = .ok rows) :
    (trace.mapM fun r => do return (← rd r 0) ^ 2) = (.ok (rows.map Row.var) : Res (List ℝ)) ∧
      (trace.mapM fun r => rd r 1) = .ok (rows.map Row.scale) ∧ (trace.mapM fun r => rd r 2) = .ok (rows.map Row.mu) ∧
      ((trace.map fun r => ((r.drop 3).take p).map Real.exp).mapM fun r => quadAll r p) = .ok (rows.map Row.roots) := by
  induction trace generalizing rows with
  | nil => cases h; exact ⟨rfl, rfl, rfl, rfl⟩
  | cons r l ih =>
    rw [List.mapM_cons] at h
    obtain ⟨x, hx, h⟩ := bind_ok_inv h
    obtain ⟨xs, hxs, h⟩ := bind_ok_inv h
    cases h
    obtain ⟨i1, i2, i3, i4⟩ := ih hxs
    rw [mkRow] at hx
    obtain ⟨a, ha, hx⟩ := bind_ok_inv hx
    obtain ⟨b, hb, hx⟩ := bind_ok_inv hx
    obtain ⟨c, hc, hx⟩ := bind_ok_inv hx
    obtain ⟨ro, hro, hx⟩ := bind_ok_inv hx
    obtain ⟨ma, -, hx⟩ := bind_ok_inv hx
    obtain ⟨sg, -, hx⟩ := bind_ok_inv hx
    cases hx
    simp only [List.map_cons, List.mapM_cons]
    rw [i1, i2, i3, i4, ha, hb, hc]
    rw [sampAr] at hro
    rw [hro]
    exact ⟨rfl, rfl, rfl, rfl⟩

/-- **C87, the argument `filename`.** The constructor of `CarmaSample` ignores it: whatever file is named, existing or not, the samples are
those of the C++ sampler. (`carmaSample` succeeds for all runs: C58.) -/
theorem C87_filename_ignored {p : ℕ} (fs : Str → Option Str) (parse : Str → Res (List (List ℝ))) {c : Par (CarP p)} {q : ℕ} {tb : Table}
    (h : carmaSample c q = .ok tb) (filename : Option Str) :
    ∃ o, carmaInit fs parse c q filename = .ok o ∧ o.p = tb.p ∧ o.var = tb.rows.map Row.var ∧ o.scale = tb.rows.map Row.scale ∧
      o.mu = tb.rows.map Row.mu ∧ o.roots = tb.rows.map Row.roots ∧ o.logpost = tb.logpost := by
  rw [carmaSample] at h
  obtain ⟨trace, h1, h⟩ := bind_ok_inv h
  obtain ⟨m, h2, h⟩ := bind_ok_inv h
  obtain ⟨rows, h3, h⟩ := bind_ok_inv h
  obtain ⟨ll, -, h⟩ := bind_ok_inv h
  split_ifs at h
  cases h
  obtain ⟨i1, i2, i3, i4⟩ := columns_rows h3
  refine ⟨⟨m - 3 - q, rows.map Row.var, rows.map Row.scale, rows.map Row.mu, trace.map fun r => ((r.drop 3).take (m - 3 - q)).map Real.exp,
    c.logposts, rows.map Row.roots⟩, ?_, rfl, rfl, rfl, rfl, rfl, rfl⟩
  have hft : fromTrace q trace { ({} : Cols) with logpost := c.logposts } = .ok ⟨m - 3 - q, rows.map Row.var, rows.map Row.scale,
      rows.map Row.mu, trace.map fun r => ((r.drop 3).take (m - 3 - q)).map Real.exp, c.logposts, []⟩ := by
    rw [fromTrace, h2, res_bind_ok, i1, res_bind_ok, i2, res_bind_ok, i3]
    rfl
  rw [carmaInit, h1, res_bind_ok]
  have : sampleInit (carmaHooks fs parse q) filename (some c.logposts) (some trace) {} = fromTrace q trace { ({} : Cols) with logpost := c.logposts } :=
    rfl
  rw [this, hft, res_bind_ok, arRootsCol, i4]
  rfl

/-- **C87, reading a file into a `CarmaSample`.** `generate_from_file` replaces the parameters and the log-posterior, and leaves the
columns derived from the old parameters in place. -/
theorem C87_reload_partial {fs : Str → Option Str} {parse : Str → Res (List (List ℝ))} {q : ℕ} {f h body : Str} {o o' : Cols}
    {tr : List (List ℝ)} (hf : fs f = some (h ++ '\n' :: body)) (hh : '\n' ∉ h) (hp : parse body = .ok tr)
    (hr : fromFile fs parse q [f] o = .ok o') :
    o'.roots = o.roots ∧ o'.var.length = tr.length ∧ (∀ (i : ℕ) (r : List ℝ) (x : ℝ), tr[i]? = some r → r[0]? = some x → 1 < r.length → o'.var[i]? = some (x ^ 2)) ∧
      (∀ (i : ℕ) (r : List ℝ) (x : ℝ), tr[i]? = some r → r.getLast? = some x → o'.logpost[i]? = some (Dbl.fin x)) := by
  rw [fromFile] at hr
  obtain ⟨f', e1, hr⟩ := bind_ok_inv hr
  cases e1
  simp only [hf] at hr
  obtain ⟨c, e2, hr⟩ := bind_ok_inv hr
  cases e2
  rw [afterHeader_eq hh, hp, res_bind_ok] at hr
  obtain ⟨m, -, hr⟩ := bind_ok_inv hr
  obtain ⟨last, e4, hr⟩ := bind_ok_inv hr
  obtain ⟨o1, e5, hr⟩ := bind_ok_inv hr
  cases hr
  rw [fromTrace] at e5
  obtain ⟨m', -, e5⟩ := bind_ok_inv e5
  obtain ⟨var, e6, e5⟩ := bind_ok_inv e5
  obtain ⟨sc, -, e5⟩ := bind_ok_inv e5
  obtain ⟨mu, -, e5⟩ := bind_ok_inv e5
  cases e5
  have hlast : ∀ {tr : List (List ℝ)} {l : List ℝ}, (tr.mapM fun r => (match r.getLast? with
      | none => .error .bounds
      | some x => .ok x : Res ℝ)) = .ok l → ∀ (i : ℕ) (r : List ℝ) (x : ℝ), tr[i]? = some r → r.getLast? = some x → l[i]? = some x := by
    intro tr
    induction tr with
    | nil => intro l _ i r x h; simp at h
    | cons r0 tr ih =>
      intro l hl i r x h1 h2
      rw [List.mapM_cons] at hl
      obtain ⟨y, hy, hl⟩ := bind_ok_inv hl
      obtain ⟨ys, hys, hl⟩ := bind_ok_inv hl
      cases hl
      cases i with
      | zero =>
        obtain rfl : r0 = r := by simpa using h1
        rw [h2] at hy
        cases hy
        rfl
      | succ i => exact ih hys i r x (by simpa using h1) h2
  have hvar : ∀ {tr : List (List ℝ)} {l : List ℝ}, ((tr.map List.dropLast).mapM fun r => (do return (← rd r 0) ^ 2 : Res ℝ)) = .ok l →
      l.length = tr.length ∧ ∀ (i : ℕ) (r : List ℝ) (x : ℝ), tr[i]? = some r → r[0]? = some x → 1 < r.length → l[i]? = some (x ^ 2) := by
    intro tr
    induction tr with
    | nil => intro l h; cases h; exact ⟨rfl, fun i r x h => by simp at h⟩
    | cons r0 tr ih =>
      intro l hl
      rw [List.map_cons, List.mapM_cons] at hl
      obtain ⟨y, hy, hl⟩ := bind_ok_inv hl
      obtain ⟨ys, hys, hl⟩ := bind_ok_inv hl
      cases hl
      obtain ⟨i1, i2⟩ := ih hys
      refine ⟨by simp [i1], fun i r x h1 h2 h3 => ?_⟩
      cases i with
      | zero =>
        obtain rfl : r0 = r := by simpa using h1
        obtain ⟨z, hz, hy⟩ := bind_ok_inv hy
        cases hy
        have : r0.dropLast[0]? = some x := by rw [List.getElem?_dropLast, if_pos (by omega), h2]
        rw [rd, this] at hz
        cases hz
        rfl
      | succ i => exact i2 i r x (by simpa using h1) h2 h3
  obtain ⟨v1, v2⟩ := hvar e6
  refine ⟨rfl, v1, v2, fun i r x h1 h2 => ?_⟩
  show (last.map Dbl.fin)[i]? = _
  rw [List.getElem?_map, hlast e4 i r x h1 h2]
  rfl

/-- **C87, negation for files read into a `CarmaSample`.** An object whose column `ar_roots` holds the roots of its coefficients, and a file
after which it does not. -/
theorem C87_reload_negation : ∃ (fs : Str → Option Str) (parse : Str → Res (List (List ℝ))) (o o' : Cols),
    arRootsCol o = .ok o ∧ fromFile fs parse 0 ["a".toList] o = .ok o' ∧ arRootsCol o' ≠ .ok o' := by
  refine ⟨fun _ => some "x\n".toList, fun _ => .ok [[1, 1, 0, 1, 5]], ⟨1, [1], [1], [0], [[1]], [.fin 5], [[-1]]⟩,
    ⟨1, [1], [1], [0], [[Real.exp 1]], [.fin 5], [[-1]]⟩, ?_, ?_, ?_⟩
  · simp [arRootsCol, quadAll, quadLoop, bind, Except.bind, pure, Except.pure]
  · simp [fromFile, fromTrace, setLogpost, columns, rd, bind, Except.bind, pure, Except.pure]
  · intro h
    simp [arRootsCol, quadAll, quadLoop, bind, Except.bind, pure, Except.pure] at h
    have : Real.exp 1 = 1 := by
      have := congrArg Complex.re h
      rw [← Complex.ofReal_one, Complex.exp_ofReal_re] at this
      exact this
    have h2 := Real.add_one_lt_exp (x := 1) one_ne_zero
    linarith

/-- **C87, arguments of the base class.** `MCMCSample` itself has neither `set_logpost` nor `generate_from_trace`: the arguments `logpost` and
`trace` of its constructor raise, for all values. -/
theorem C87_base_arguments (fs : Str → Option Str) (parse : Str → Res (List (List ℝ))) (filename : Option Str) (logpost : Option (List Dbl))
    (trace : Option (List (List ℝ))) (s : Samples) (h : logpost.isSome ∨ trace.isSome) :
    sampleInit (baseHooks fs parse) filename logpost trace s = .error .runtime := by
  cases logpost with
  | some l => rfl
  | none =>
    cases trace with
    | some t => rfl
    | none => simp at h

example : (none : Option (List Dbl)).isSome ∨ (some [[(1 : ℝ)]]).isSome := Or.inr rfl

end Verif.Props
