import Verif.Model.PyFile
import Verif.Theory.PyRun

/-! Helper theory for C87: reading lines, arrays in memory. -/

namespace Verif.Theory

open Verif.Model Verif.Model.Py

lemma readline_eq {h body : Str} (hh : '\n' ∉ h) : readline (h ++ '\n' :: body) = h ++ ['\n'] := by
  induction h with
  | nil => simp [readline]
  | cons c h ih =>
    have hc : c ≠ '\n' := fun e => hh (by simp [e])
    have := ih fun e => hh (by simp [e])
    simp [readline, hc, this]

lemma afterHeader_eq {h body : Str} (hh : '\n' ∉ h) : afterHeader (h ++ '\n' :: body) = body := by
  rw [afterHeader, readline_eq hh, show h ++ '\n' :: body = (h ++ ['\n']) ++ body by simp]
  exact List.drop_left

lemma readline_prefix (c : Str) : readline c <+: c := by
  induction c with
  | nil => simp [readline]
  | cons a c ih =>
    rw [readline]
    split_ifs
    · exact ⟨c, rfl⟩
    · obtain ⟨t, ht⟩ := ih
      exact ⟨t, by simp [ht]⟩

lemma newline_readline {c : Str} (h : '\n' ∈ c) : '\n' ∈ readline c := by
  induction c with
  | nil => cases h
  | cons a c ih =>
    rw [readline]
    split_ifs with ha
    · simp [ha]
    · rcases List.mem_cons.mp h with h | h
      · exact absurd h.symm ha
      · exact List.mem_cons_of_mem _ (ih h)

/-! ### arrays -/

lemma mapM_congr {α β : Type} {f g : α → Res β} {l : List α} (h : ∀ x ∈ l, f x = g x) : l.mapM f = l.mapM g := by
  induction l with
  | nil => rfl
  | cons a l ih => rw [List.mapM_cons, List.mapM_cons, h a (by simp), ih fun x hx => h x (by simp [hx])]

lemma readArr_congr {m m' : List ℝ} {a : Arr} (h : ∀ row ∈ a, ∀ i ∈ row, m[i]? = m'[i]?) : readArr m a = readArr m' a :=
  mapM_congr fun row hr => mapM_congr fun i hi => by rw [rd, rd, h row hr i hi]

lemma readRow (m r x : List ℝ) : (List.range' m.length r.length).mapM (fun i => rd (m ++ r ++ x) i) = .ok r := by
  induction r generalizing m with
  | nil => rfl
  | cons a r ih =>
    rw [List.length_cons, List.range'_succ, List.mapM_cons]
    have h1 : rd (m ++ (a :: r) ++ x) m.length = .ok a := by simp [rd]
    have h2 := ih (m ++ [a])
    simp only [List.length_append, List.length_cons, List.length_nil, zero_add, List.append_assoc, List.singleton_append] at h2
    rw [h1]
    simp only [List.append_assoc, List.cons_append] at h2 ⊢
    refine (congrArg (fun z : Res (List ℝ) => z >>= fun bs => Except.ok (a :: bs)) h2).trans rfl

lemma readArr_new (m : List ℝ) (v : List (List ℝ)) (x : List ℝ) : readArr (m ++ v.flatten ++ x) (allocRows m.length v) = .ok v := by
  induction v generalizing m with
  | nil => rfl
  | cons r v ih =>
    have h1 := readRow m r (v.flatten ++ x)
    have h2 := ih (m ++ r)
    rw [List.length_append] at h2
    rw [readArr] at h2 ⊢
    rw [allocRows, List.mapM_cons]
    simp only [List.flatten_cons, List.append_assoc] at h1 h2 ⊢
    rw [h1]
    refine (congrArg (fun z : Res (List (List ℝ)) => z >>= fun bs => Except.ok (r :: bs)) h2).trans rfl

lemma allocRows_mem {b : ℕ} {v : List (List ℝ)} {row : List ℕ} (h : row ∈ allocRows b v) {i : ℕ} (hi : i ∈ row) :
    b ≤ i ∧ i < b + v.flatten.length := by
  induction v generalizing b with
  | nil => cases h
  | cons r v ih =>
    rw [allocRows] at h
    rw [List.flatten_cons, List.length_append]
    rcases List.mem_cons.mp h with h | h
    · subst h
      rw [List.mem_range'_1] at hi
      omega
    · have := ih h
      omega

/-- all addresses of an array are below a bound -/
def Below (n : ℕ) (a : Arr) : Prop := ∀ row ∈ a, ∀ i ∈ row, i < n

lemma readArr_append {m : List ℝ} {a : Arr} (h : Below m.length a) (x : List ℝ) : readArr (m ++ x) a = readArr m a :=
  readArr_congr fun row hr i hi => List.getElem?_append_left (h row hr i hi)

/-! ### the dictionary -/

/-- all arrays of the dictionary are in memory -/
def Inside (s : Samples) : Prop := ∀ x ∈ s.dict, Below s.mem.length x.2

lemma lookup_mem {l : List (Str × Arr)} {k : Str} {a : Arr} (h : l.lookup k = some a) : (k, a) ∈ l := by
  induction l with
  | nil => cases h
  | cons y l ih =>
    obtain ⟨k', b⟩ := y
    rw [List.lookup_cons] at h
    by_cases hk : k == k'
    · simp [hk] at h
      have : k = k' := by simpa using hk
      subst this; subst h
      simp
    · simp [hk] at h
      exact List.mem_cons_of_mem _ (ih h)

lemma lookup_append (l : List (Str × Arr)) (k k' : Str) (a : Arr) :
    (l ++ [(k', a)]).lookup k = (l.lookup k).or (if k = k' then some a else none) := by
  induction l with
  | nil =>
    by_cases h : k = k'
    · simp [h]
    · have : (k == k') = false := by simpa using h
      simp [List.lookup_cons, this, h]
  | cons y l ih =>
    obtain ⟨k'', b⟩ := y
    rw [List.cons_append, List.lookup_cons, List.lookup_cons, ih]
    by_cases h : k == k'' <;> simp [h]

/-- what a call of `generate_from_file` does to the memory and the dictionary -/
lemma generate_spec {fs : Str → Option Str} {parse : Str → Res (List (List ℝ))} {files : List Str} {s s' : Samples}
    (hs : Inside s) (h : generateFromFile fs parse files s = .ok s') :
    Inside s' ∧ (∃ x, s'.mem = s.mem ++ x) ∧ (∀ k a, s.dict.lookup k = some a → s'.dict.lookup k = some a) ∧
      (∀ x ∈ s'.dict, x ∈ s.dict ∨ ∀ row ∈ x.2, ∀ i ∈ row, s.mem.length ≤ i) ∧
      (∀ k, s.dict.lookup k = none → (∀ f ∈ files, ∀ c, fs f = some c → readline c ≠ k) → s'.dict.lookup k = none) ∧
      ∀ k pre f post c, files = pre ++ f :: post → fs f = some c → readline c = k → s.dict.lookup k = none →
        (∀ g ∈ pre, ∀ d, fs g = some d → readline d ≠ k) →
        ∃ v a, parse (afterHeader c) = .ok v ∧ s'.dict.lookup k = some a ∧ readArr s'.mem a = .ok v := by
  induction files generalizing s with
  | nil =>
    cases h
    refine ⟨hs, ⟨[], by simp⟩, fun _ _ h => h, fun x hx => Or.inl hx, fun _ h _ => h, ?_⟩
    intro k pre f post c hf
    simp at hf
  | cons f0 l ih =>
    rw [generateFromFile] at h
    cases hc : fs f0 with
    | none => rw [hc] at h; cases h
    | some c0 =>
      rw [hc] at h
      change (do let trace ← parse (afterHeader c0); _) = _ at h
      cases hp : parse (afterHeader c0) with
      | error e => rw [hp] at h; cases h
      | ok v0 =>
        rw [hp] at h
        change (if (s.dict.lookup (readline c0)).isNone = true then _ else _) = _ at h
        split_ifs at h with hn
        · change generateFromFile fs parse l ⟨s.mem ++ v0.flatten, s.dict ++ [(readline c0, allocRows s.mem.length v0)]⟩ = .ok s' at h
          have hnone : s.dict.lookup (readline c0) = none := by simpa using hn
          have hin : Inside ⟨s.mem ++ v0.flatten, s.dict ++ [(readline c0, allocRows s.mem.length v0)]⟩ := by
            intro x hx row hr i hi
            show i < (s.mem ++ v0.flatten).length
            rw [List.length_append]
            rcases List.mem_append.mp hx with hx | hx
            · have := hs x hx row hr i hi; omega
            · rw [List.mem_singleton.mp hx] at hr
              exact (allocRows_mem hr hi).2
          obtain ⟨i1, ⟨x, i2⟩, i3, i4, i5, i6⟩ := ih hin h
          have hlk : ∀ k, (s.dict ++ [(readline c0, allocRows s.mem.length v0)]).lookup k =
              (s.dict.lookup k).or (if k = readline c0 then some (allocRows s.mem.length v0) else none) := fun k => lookup_append _ _ _ _
          refine ⟨i1, ⟨v0.flatten ++ x, by rw [i2, List.append_assoc]⟩, ?_, ?_, ?_, ?_⟩
          · intro k a hk
            exact i3 k a (by rw [hlk, hk]; rfl)
          · intro y hy
            rcases i4 y hy with hy | hy
            · rcases List.mem_append.mp hy with hy | hy
              · exact Or.inl hy
              · right
                intro row hr i hi
                rw [List.mem_singleton.mp hy] at hr
                exact (allocRows_mem hr hi).1
            · right
              intro row hr i hi
              have := hy row hr i hi
              change (s.mem ++ v0.flatten).length ≤ i at this
              rw [List.length_append] at this
              omega
          · intro k hk hall
            have hne : k ≠ readline c0 := fun e => hall f0 (by simp) c0 hc e.symm
            exact i5 k (by rw [hlk, hk]; simp [hne]) fun f hf => hall f (by simp [hf])
          · intro k pre f post c hfl hfc hck hk hpre
            cases pre with
            | nil =>
              obtain ⟨rfl, rfl⟩ : f0 = f ∧ l = post := by simpa using hfl
              cases hc.symm.trans hfc
              refine ⟨v0, _, hp, i3 k (allocRows s.mem.length v0) (by rw [hlk, hk, hck]; simp), ?_⟩
              rw [i2]
              exact readArr_new _ _ _
            | cons g pre =>
              obtain ⟨rfl, rfl⟩ : f0 = g ∧ l = pre ++ f :: post := by simpa using hfl
              have hne : k ≠ readline c0 := fun e => hpre f0 (by simp) c0 hc e.symm
              exact i6 k pre f post c rfl hfc hck (by rw [hlk, hk]; simp [hne]) fun g hg => hpre g (by simp [hg])
        · have hsome : s.dict.lookup (readline c0) ≠ none := by
            intro e; rw [e] at hn; simp at hn
          obtain ⟨i1, i2, i3, i4, i5, i6⟩ := ih hs h
          refine ⟨i1, i2, i3, i4, fun k hk hall => i5 k hk fun f hf => hall f (by simp [hf]), ?_⟩
          intro k pre f post c hfl hfc hck hk hpre
          cases pre with
          | nil =>
            obtain ⟨rfl, rfl⟩ : f0 = f ∧ l = post := by simpa using hfl
            cases hc.symm.trans hfc
            rw [hck] at hsome
            exact absurd hk hsome
          | cons g pre =>
            obtain ⟨rfl, rfl⟩ : f0 = g ∧ l = pre ++ f :: post := by simpa using hfl
            exact i6 k pre f post c rfl hfc hck hk fun g hg => hpre g (by simp [hg])

lemma getCopy_spec {name : Str} {s s' : Samples} {a : Arr} (h : getCopy name s = .ok (a, s')) :
    ∃ b v, s.dict.lookup name = some b ∧ readArr s.mem b = .ok v ∧ a = allocRows s.mem.length v ∧ s' = ⟨s.mem ++ v.flatten, s.dict⟩ := by
  rw [getCopy] at h
  cases hl : s.dict.lookup name with
  | none => rw [hl] at h; cases h
  | some b =>
    rw [hl] at h
    change (do let v ← readArr s.mem b; _) = _ at h
    cases hv : readArr s.mem b with
    | error e => rw [hv] at h; cases h
    | ok v => rw [hv] at h; cases h; exact ⟨b, v, rfl, hv, rfl, rfl⟩

lemma getCopy_ok {name : Str} {s : Samples} {b : Arr} {v : List (List ℝ)} (hl : s.dict.lookup name = some b) (hv : readArr s.mem b = .ok v) :
    getCopy name s = .ok (allocRows s.mem.length v, ⟨s.mem ++ v.flatten, s.dict⟩) := by
  rw [getCopy, hl]
  show (do let v ← readArr s.mem b; _) = _
  rw [hv]
  rfl

end Verif.Theory
