import Verif.Theory.PyPool
import Verif.Props.PyModel

/-!
Property C95: the trials of `get_mle` are different random starts, however many processes run them.
-/

namespace Verif.Props

open Verif.Model Verif.Model.Py Verif.Spec Verif.Theory Relation

variable {S R : Type}

/-- **C95, one process.** With one process (Python 2) the trials of `c` successive calls are the first `c n` trials of the generators, each used once:
call number `j` returns the best of the trials `j n, ..., j n + n - 1`. -/
theorem C95_sequential {cpu : ℕ} {trial : S → Mle × S} {n : ℕ} {njobs : ℤ} (hj : jobs cpu njobs = 1) (s : S) (c : ℕ) :
    (∃ l s', MleCalls false cpu trial n njobs s l s' ∧ l.length = c) ∧
    ∀ l s', MleCalls false cpu trial n njobs s l s' → l.length = c →
      l = (List.range c).map (fun j => getMle ((List.range n).map fun k => nthTrial trial s (j * n + k))) ∧ s' = genAfter trial s (c * n) := by
  have hadd : ∀ a b, genAfter trial (genAfter trial s a) b = genAfter trial s (a + b) := fun a b => by
    rw [genAfter, genAfter, genAfter, ← Function.iterate_add_apply, add_comm]
  constructor
  · induction c with
    | zero => exact ⟨[], s, .nil, rfl⟩
    | succ c ih =>
      obtain ⟨l, s', h, hl⟩ := ih
      exact ⟨_, _, .snoc h (.one hj rfl), by simp [hl]⟩
  · intro l s' h
    induction h generalizing c with
    | nil => rintro rfl; exact ⟨rfl, by simp [genAfter]⟩
    | @snoc l r s1 s2 h1 h2 ih =>
      intro hc
      rw [List.length_append, List.length_singleton] at hc
      subst hc
      obtain ⟨i1, i2⟩ := ih l.length rfl
      subst i2
      have key : r = getMle (seqTrials trial n (genAfter trial s (l.length * n))).1 ∧ s2 = (seqTrials trial n (genAfter trial s (l.length * n))).2 := by
        cases h2 with
        | one => exact ⟨rfl, rfl⟩
        | one3 _ h => cases h
        | none h => unfold jobs at hj; omega
        | pool h h' => unfold jobs at hj; omega
      obtain ⟨e1, e2⟩ := seqTrials_eq trial n (genAfter trial s (l.length * n))
      rw [key.1, key.2, e1, e2, hadd]
      refine ⟨?_, by congr 1; ring⟩
      rw [List.range_succ, List.map_append, ← i1]
      congr 1
      rw [List.map_singleton]
      congr 2
      refine List.map_congr_left fun k _ => ?_
      rw [nthTrial, nthTrial, hadd]

/-- **C95, the pool works.** A pool of at least one worker: no execution goes on for ever, every execution can be completed, and at the end there is
exactly one result for every trial. -/
theorem C95_pool_returns (trial : S → R × S) {J : ℕ} (hJ : 0 < J) (n : ℕ) (s : S) :
    (¬ ∃ f : ℕ → Pool J S R, ∀ k, PoolStep trial (f k) (f (k + 1))) ∧
    ∀ st : Pool J S R, ReflTransGen (PoolStep trial) (Pool.start J n s) st →
      (∃ st', ReflTransGen (PoolStep trial) st st' ∧ st'.queue = [] ∧ ∀ w, st'.todo w = []) ∧
      (st.queue = [] → (∀ w, st.todo w = []) → ∃! rs : List R, rs.length = n ∧ ∀ (i : ℕ) (h : i < rs.length), ∃ w, (i, rs[i]) ∈ st.out w) := by
  refine ⟨?_, fun st h => ⟨pool_ends hJ st, fun hq ht => pool_returns h hq ht⟩⟩
  rintro ⟨f, hf⟩
  have : ∀ k, Pool.left (f k) + k ≤ Pool.left (f 0) := by
    intro k
    induction k with
    | zero => exact le_rfl
    | succ k ih => have := left_step (hf k); omega
  have := this (Pool.left (f 0) + 1)
  omega

/-- **C95, negation: what several processes try.** Whatever the scheduling of a pool of `J` workers, the results of `n` trials are the results of the
first `m` trials of one process, for some `m` with `n / J ≤ m ≤ n`; each of them occurs, no other does. -/
theorem C95_parallel_trials {trial : S → R × S} {J n : ℕ} {s : S} {rs : List R} (h : PoolMap trial J n s rs) :
    rs.length = n ∧ ∃ m, m ≤ n ∧ n ≤ J * m ∧ ∀ r, r ∈ rs ↔ ∃ k < m, r = nthTrial trial s k := by
  obtain ⟨m, h1, h2, h3, -⟩ := poolMap_results h
  obtain ⟨_, _, _, _, hl, _⟩ := h
  exact ⟨hl, m, h1, h2, h3⟩

lemma dbl_eq {a b : Dbl} (ha : a ≠ .nan) (hb : b ≠ .nan) (h1 : ¬ a.lt b) (h2 : ¬ b.lt a) : a = b := by
  cases a <;> cases b <;> simp_all [Dbl.lt]
  exact le_antisymm h2 h1

/-- **C95, negation: what several processes find.** `get_mle` with two or more processes returns a fit whose value is the one that one process
finds with `m` trials, `n / J ≤ m ≤ n`; it leaves the caller's generators as they were. -/
theorem C95_parallel_value {py3 : Bool} {cpu : ℕ} {trial : S → Mle × S} {n : ℕ} (hn : 0 < n) {njobs : ℤ} {J : ℕ} (hj : jobs cpu njobs = J) (hJ : 2 ≤ J)
    {s s' : S} {r : Res Mle} (h : GetMle py3 cpu trial n njobs s r s') :
    s' = s ∧ ∃ m, m ≤ n ∧ n ≤ J * m ∧ ∃ a b, r = .ok a ∧ (∃ k < m, a = nthTrial trial s k) ∧ getMle (seqTrials trial m s).1 = .ok b ∧ a.fn = b.fn := by
  cases h with
  | one h => unfold jobs at hj; omega
  | one3 h => unfold jobs at hj; omega
  | none h => unfold jobs at hj; omega
  | @pool J' rs h1 h2 h =>
    obtain rfl : J' = J := by unfold jobs at hj; omega
    obtain ⟨m, m1, m2, m3, m4⟩ := poolMap_results h
    obtain ⟨_, _, _, _, hl, _⟩ := h
    refine ⟨rfl, m, m1, m2, ?_⟩
    have hm : 0 < m := by
      rcases Nat.eq_zero_or_pos m with rfl | h0
      · omega
      · exact h0
    have f0 : rs[0]? = some (nthTrial trial s 0) := by
      have := List.getElem?_eq_getElem (l := rs) (i := 0) (by omega)
      rw [this, m4 _ this]
    have g0 : (seqTrials trial m s).1[0]? = some (nthTrial trial s 0) := by
      rw [(seqTrials_eq trial m s).1, List.getElem?_map, List.getElem?_range hm]; rfl
    have gm : ∀ r, r ∈ (seqTrials trial m s).1 ↔ ∃ k < m, r = nthTrial trial s k := fun r => by
      rw [(seqTrials_eq trial m s).1]
      simp only [List.mem_map, List.mem_range]
      exact ⟨fun ⟨k, h1, h2⟩ => ⟨k, h1, h2.symm⟩, fun ⟨k, h1, h2⟩ => ⟨k, h1, h2.symm⟩⟩
    by_cases hnan : (nthTrial trial s 0).fn = .nan
    · obtain ⟨t1, e1⟩ : ∃ t, rs = nthTrial trial s 0 :: t := by
        cases rs with
        | nil => simp at f0
        | cons a t => simp at f0; exact ⟨t, by rw [f0]⟩
      obtain ⟨t2, e2⟩ : ∃ t, (seqTrials trial m s).1 = nthTrial trial s 0 :: t := by
        cases hh : (seqTrials trial m s).1 with
        | nil => rw [hh] at g0; simp at g0
        | cons a t => rw [hh] at g0; simp at g0; exact ⟨t, by rw [g0]⟩
      rw [e1, e2]
      exact ⟨_, _, (C51_nan_first _ t1 hnan).1, ⟨0, hm, rfl⟩, (C51_nan_first _ t2 hnan).1, rfl⟩
    · obtain ⟨a, a1, a2, a3, a4⟩ := C51_best_partial rs _ f0 hnan
      obtain ⟨b, b1, b2, b3, b4⟩ := C51_best_partial _ _ g0 hnan
      refine ⟨a, b, a2, (m3 a).mp a1, b2, dbl_eq a3 b3 ?_ ?_⟩
      · exact b4 a ((gm a).mpr ((m3 a).mp a1))
      · exact a4 b ((m3 b).mpr ((gm b).mp b1))

/-- **C95, negation: asking again.** However many calls of `get_mle` with `n` trials and two or more processes are made one after the other,
all of them return one of the same `n` fits, the first `n` trials of the generators. -/
theorem C95_parallel_again {py3 : Bool} {cpu : ℕ} {trial : S → Mle × S} {n : ℕ} (hn : 0 < n) {njobs : ℤ} {J : ℕ} (hj : jobs cpu njobs = J) (hJ : 2 ≤ J)
    {s s' : S} {l : List (Res Mle)} (h : MleCalls py3 cpu trial n njobs s l s') :
    s' = s ∧ ∀ r ∈ l, ∃ k < n, r = .ok (nthTrial trial s k) := by
  induction h with
  | nil => exact ⟨rfl, by simp⟩
  | snoc h1 h2 ih =>
    obtain ⟨rfl, ih⟩ := ih
    obtain ⟨e, m, m1, -, a, -, ha, ⟨k, hk, hk'⟩, -⟩ := C95_parallel_value hn hj hJ h2
    refine ⟨e, fun r hr => ?_⟩
    rcases List.mem_append.mp hr with hr | hr
    · exact ih r hr
    · rw [List.mem_singleton] at hr
      exact ⟨k, by omega, by rw [hr, ha, hk']⟩

/-- **C95, negation: how few trials there can be.** When the workers take the batches in turns, the `n` trials are all among the first `c ⌈⌈n/c⌉/J⌉` of one
process, `c` being the batch size. -/
theorem C95_parallel_few (trial : S → R × S) {J : ℕ} (hJ : 0 < J) (n : ℕ) (s : S) :
    ∃ rs : List R, PoolMap trial J n s rs ∧ ∀ r ∈ rs, ∃ k < chunkSize n J * (((n + chunkSize n J - 1) / chunkSize n J + J - 1) / J), r = nthTrial trial s k :=
  poolMap_turns hJ n s

/-- 100 trials, the default, in 8 processes: no more than 16 of them different -/
example (trial : S → R × S) (s : S) : ∃ rs : List R, PoolMap trial 8 100 s rs ∧ ∀ r ∈ rs, ∃ k < 16, r = nthTrial trial s k :=
  C95_parallel_few trial (by norm_num) 100 s

/-- **C95, negation: all the same.** With at least as many workers as trials, all trials can be the same one. -/
theorem C95_parallel_same (trial : S → R × S) {J n : ℕ} (hn : n ≤ J) (s : S) : ∃ rs : List R, PoolMap trial J n s rs ∧ ∀ r ∈ rs, r = nthTrial trial s 0 := by
  rcases Nat.eq_zero_or_pos n with rfl | h0
  · refine ⟨[], ⟨_, .refl, ?_, fun _ => rfl, rfl, fun i h => absurd h (Nat.not_lt_zero i)⟩, by simp⟩
    simp only [Pool.start]
    rw [batches]
    simp
  obtain ⟨rs, h1, h2⟩ := C95_parallel_few trial (show 0 < J by omega) n s
  have hc : chunkSize n J = 1 := by
    unfold chunkSize
    rw [Nat.div_eq_of_lt (by omega), Nat.mod_eq_of_lt (by omega), if_neg (by omega)]
  rw [hc] at h2
  refine ⟨rs, h1, fun r hr => ?_⟩
  obtain ⟨k, hk, e⟩ := h2 r hr
  have : ((n + 1 - 1) / 1 + J - 1) / J = 1 := by
    rw [Nat.div_one, Nat.div_eq_iff (by omega)]
    constructor <;> omega
  rw [this] at hk
  obtain rfl : k = 0 := by omega
  exact e

/-- **C95, Python 3.** With one process, the default, `get_mle` raises under Python 3 and runs no trial. -/
theorem C95_python3 {cpu : ℕ} {trial : S → Mle × S} {n : ℕ} {njobs : ℤ} (hj : jobs cpu njobs = 1) {s s' : S} {r : Res Mle}
    (h : GetMle true cpu trial n njobs s r s') : r = .error .runtime ∧ s' = s := by
  cases h with
  | one _ h => cases h
  | one3 => exact ⟨rfl, rfl⟩
  | none h => unfold jobs at hj; omega
  | pool h h' => unfold jobs at hj; omega

/-- the default arguments -/
example (trial : S → Mle × S) (s : S) : jobs 8 1 = 1 ∧ GetMle true 8 trial 100 1 s (.error .runtime) s := ⟨rfl, .one3 rfl rfl⟩

/-- trials that get better one after the other -/
noncomputable def poolToy (s : ℕ) : Mle × ℕ := (⟨.fin (-s), []⟩, s + 1)

lemma poolToy_gen (k : ℕ) : genAfter poolToy 0 k = k := by
  induction k with
  | zero => rfl
  | succ k ih => rw [genAfter, Function.iterate_succ_apply', ← genAfter, ih]; rfl

lemma poolToy_nth (k : ℕ) : nthTrial poolToy 0 k = ⟨.fin (-k), []⟩ := by
  rw [nthTrial, poolToy_gen]; rfl

/-- **C95, witness.** Four trials that get better one after the other. One process returns the fourth; four processes can return the first, and
repeating the call does not help: no call of any number returns anything but the first four. -/
theorem C95_witness :
    GetMle false 4 poolToy 4 1 0 (.ok ⟨.fin (-3), []⟩) 4 ∧ GetMle false 4 poolToy 4 (-1) 0 (.ok ⟨.fin 0, []⟩) 0 ∧
    ∀ l s', MleCalls false 4 poolToy 4 (-1) 0 l s' → ∀ r ∈ l, ∃ k < 4, r = .ok (nthTrial poolToy 0 k) := by
  refine ⟨?_, ?_, fun l s' h => (C95_parallel_again (J := 4) (by norm_num) rfl (by norm_num) h).2⟩
  · have h := GetMle.one (py3 := false) (cpu := 4) (trial := poolToy) (ntrials := 4) (njobs := 1) (s := 0) rfl rfl
    obtain ⟨e1, e2⟩ := seqTrials_eq poolToy 4 0
    rw [e2, poolToy_gen, e1] at h
    have e : getMle ((List.range 4).map (nthTrial poolToy 0)) = .ok ⟨.fin (-3), []⟩ := by
      obtain ⟨m, hm, e, hn, hb⟩ := C51_best_partial ((List.range 4).map (nthTrial poolToy 0)) (nthTrial poolToy 0 0) rfl (by rw [poolToy_nth]; simp)
      rw [e]
      simp only [List.mem_map, List.mem_range] at hm
      obtain ⟨k, hk, rfl⟩ := hm
      have := hb (nthTrial poolToy 0 3) (List.mem_map.mpr ⟨3, by simp, rfl⟩)
      rw [poolToy_nth, poolToy_nth] at this
      simp only [Dbl.lt, not_lt, Nat.cast_ofNat, neg_le_neg_iff] at this
      have h3 : (3 : ℝ) ≤ k := by linarith
      have h3 : 3 ≤ k := by exact_mod_cast h3
      obtain rfl : k = 3 := by omega
      rw [poolToy_nth]
      norm_num
    rw [e] at h
    exact h
  · obtain ⟨rs, h1, h2⟩ := C95_parallel_same poolToy (J := 4) (n := 4) le_rfl 0
    have h := GetMle.pool (py3 := false) (cpu := 4) (trial := poolToy) (ntrials := 4) (njobs := -1) (s := 0) (J := 4) rfl (by norm_num) h1
    have hl := (C95_parallel_trials h1).1
    have f0 : rs[0]? = some ⟨.fin 0, []⟩ := by
      rw [List.getElem?_eq_getElem (by omega), h2 _ (List.getElem_mem _), poolToy_nth]
      simp
    obtain ⟨m, hm, e, -⟩ := C51_best_partial rs _ f0 (by simp)
    rw [e, h2 m hm, poolToy_nth] at h
    simpa using h

/-- the hypotheses of `C95_sequential` and `C95_parallel_value` are met -/
example : jobs 4 1 = 1 ∧ jobs 4 (-1) = 4 ∧ GetMle false 4 poolToy 4 (-1) 0 (.ok ⟨.fin 0, []⟩) 0 := ⟨rfl, rfl, C95_witness.2.1⟩

end Verif.Props
