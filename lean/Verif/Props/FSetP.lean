import Verif.Theory.FSetP
import Verif.Props.FPredictP
import Verif.Props.FSimulate

/-! C105: setters of the filters, and that an object has no memory beyond what its getters show. -/

namespace Verif.Props

open Verif.Model Verif.Spec Verif.Theory
open scoped Classical

variable {p : ℕ}

/-- **C105.** Two CARMA filters a program can have (`LiveP`: any constructor, any data, any history of calls and setters, also changes of the order). If
their getters show the same data and parameters, then every further call has the same outcome for both: the same numbers, or the same exception. Any
library, any doubles, any order. -/
theorem C105_shown {C : CArith} {s1 s1' : FKFp p} (h1 : LiveP C s1) (h1' : LiveP C s1') (hs : SameShown s1 s1') :
    (∀ x, (FKFp.predict C s1 x).map Prod.snd = (FKFp.predict C s1' x).map Prod.snd) ∧
    (∀ times zs, (FKFp.simulate C s1 times zs).map Prod.snd = (FKFp.simulate C s1' times zs).map Prod.snd) ∧
    (FKFp.filter C s1).map (fun k => (k.b.mean, k.b.var)) = (FKFp.filter C s1').map (fun k => (k.b.mean, k.b.var)) := by
  have w1 := LiveP.whole h1
  have w2 := LiveP.whole h1'
  have k := SameShown.psame w1 w2 hs
  rcases reset_cases (C := C) s1 with ⟨hp, J, hJ, hm⟩ | ⟨f, hf⟩
  · refine ⟨fun x => ?_, fun times zs => ?_, ?_⟩
    · obtain ⟨a, e1, -⟩ := predict_same hp w1 hm x hJ (.refl s1)
      obtain ⟨b, e2, -⟩ := predict_same hp w1 hm x hJ k
      rw [e1, e2]; rfl
    · by_cases hn : Dbl.nan ∈ times
      · unfold FKFp.simulate FKF1.sortTimes
        rw [if_pos hn]; rfl
      · obtain ⟨xs, -, hx⟩ := simulate_same hp w1 hm hn zs hJ
        obtain ⟨a, e1, -⟩ := hx s1 (.refl s1)
        obtain ⟨b, e2, -⟩ := hx s1' k
        rw [e1, e2]; rfl
    · have h2 := w1.two
      obtain ⟨a, e1, q1⟩ := (hist_filterp (C := C) hp (by omega) (whole_shape w1) hm).2 J hJ
      obtain ⟨b, e2, q2⟩ := (hist_filterp (C := C) hp (n := s1.b.time.length) (by omega) (k.time ▸ whole_shape w2) (by rw [k.ma]; exact hm)).2 J
        (by rw [k.omega]; exact hJ)
      rw [k.like.seq] at q2
      have ext : ∀ l l' : List Dbl, l.length = s1.b.time.length → l'.length = s1.b.time.length →
          (∀ i < s1.b.time.length, l.getD i .nan = l'.getD i .nan) → l = l' := by
        intro l l' e1 e2 h
        refine List.ext_getElem (e1.trans e2.symm) fun i i1 i2 => ?_
        have := h i (by omega)
        rwa [List.getD_eq_getElem _ _ i1, List.getD_eq_getElem _ _ i2] at this
      rw [e1, e2]
      show Except.ok (a.b.mean, a.b.var) = Except.ok (b.b.mean, b.b.var)
      rw [ext a.b.mean b.b.mean q1.lmean q2.lmean fun i hi => (q1.mean i hi).trans (q2.mean i hi).symm,
        ext a.b.var b.b.var q1.lvar q2.lvar fun i hi => (q1.var i hi).trans (q2.var i hi).symm]
  · have r1 := hf s1 rfl rfl
    have r2 := hf s1' k.omega k.ma
    refine ⟨fun x => by rw [predict_err w1 x r1, predict_err w2 x r2], fun times zs => ?_, by rw [filter_err r1, filter_err r2]⟩
    by_cases hn : Dbl.nan ∈ times
    · unfold FKFp.simulate FKF1.sortTimes
      rw [if_pos hn]; rfl
    by_cases h0 : times = []
    · subst h0
      obtain ⟨a, e1, -⟩ := simulate_empty (C := C) w1 zs
      obtain ⟨b, e2, -⟩ := simulate_empty (C := C) w2 zs
      rw [e1, e2]; rfl
    · rw [simulate_err w1 hn h0 zs r1, simulate_err w2 hn h0 zs r2]

/-- **C105, outcomes.** What decides: if the order is less than 2, every call throws (`std::logic_error`, there is no second row); if the system in the roots
set last cannot be solved, it throws `std::runtime_error`; if the number of coefficients set last is not the order, `std::logic_error` from the product of
matrices. Otherwise `Predict` returns for every double, and the getters show the same as before. -/
theorem C105_outcome {C : CArith} {s1 : FKFp p} (h1 : LiveP C s1) (x : Dbl) :
    (p < 2 → FKFp.predict C s1 x = .error .bounds) ∧
    (2 ≤ p → ¬ Solvable C s1.omega → FKFp.predict C s1 x = .error .runtime) ∧
    (2 ≤ p → Solvable C s1.omega → s1.ma.length ≠ p → FKFp.predict C s1 x = .error .bounds) ∧
    (2 ≤ p → Solvable C s1.omega → s1.ma.length = p → ∃ s2 r, FKFp.predict C s1 x = .ok (s2, r) ∧ SameShown s1 s2) := by
  have w1 := LiveP.whole h1
  refine ⟨fun hp => predict_err w1 x (reset_low (by omega) s1),
    fun hp hs => predict_none hp w1 x (Option.eq_none_iff_forall_ne_some.mpr fun J hJ => hs ⟨J, hJ⟩), ?_, ?_⟩
  · rintro hp ⟨J, hJ⟩ hm
    exact predict_err w1 x (reset_short hp hJ hm)
  · rintro hp ⟨J, hJ⟩ hm
    obtain ⟨s2, e, k⟩ := predict_det hp w1 hm x hJ
    exact ⟨s2, _, e, ⟨k.time, k.y, k.yerr, k.sig, k.omega, k.ma⟩⟩

lemma roots34 : Solvable libC (fun k => pair ((![-3, -4] : Fin 2 → ℂ) k)) := by
  rw [libC_solvable]
  intro i j h
  fin_cases i <;> fin_cases j <;> simp at h ⊢

/-- A filter of order 3 with other values, errors and parameters, among them a root twice, is given the right ones: it predicts like a filter built with
them; with one coefficient too many it throws. -/
example (srt : List Dbl → List ℕ) (x : Dbl) : ∃ (s : FKFp 3) (s1 s' : FKFp 2),
    FKFp.new libC srt ([0, 1].map .fin) [.nan, .pinf] [.fin 1, .nan] .ninf (fun k => pair (![-1, -1, -2] k)) [.fin 1] = .ok s ∧
    FKFp.predict libC s x = .error .runtime ∧
    s1 = ((((s.setY [.fin 1, .fin 2]).setYerr [.fin 0, .fin 1]).setSigsqr (.fin 2)).setOmega fun k => pair (![-3, -4] k)).setMA [.fin 1, .fin 0] ∧
    FKFp.new libC srt ([0, 1].map .fin) [.fin 1, .fin 2] [.fin 0, .fin 1] (.fin 2) (fun k => pair (![-3, -4] k)) [.fin 1] = .ok s' ∧
    (FKFp.predict libC s1 x).map Prod.snd = (FKFp.predict libC s' x).map Prod.snd ∧
    (∃ s2 r', FKFp.predict libC s' x = .ok (s2, r')) ∧
    FKFp.predict libC (s1.setMA [.fin 1, .fin 0, .fin 0]) x = .error .bounds := by
  obtain ⟨s, e, t1, y1, e1, -, o1, -⟩ :=
    C103_new libC_bin srt fp_times [.nan, .pinf] [.fin 1, .nan] .ninf (fun k => pair ((![-1, -1, -2] : Fin 3 → ℂ) k)) [.fin 1]
  obtain ⟨s', e', t', y', g', q', o', m'⟩ :=
    C103_new libC_bin srt fp_times [.fin 1, .fin 2] [.fin 0, .fin 1] (.fin 2) (fun k => pair ((![-3, -4] : Fin 2 → ℂ) k)) [.fin 1]
  have w0 : LiveP libC s := .new (by rfl) (by rfl) e
  have w' : LiveP libC s' := .new (by rfl) (by rfl) e'
  have w2 : LiveP libC (((((s.setY [.fin 1, .fin 2]).setYerr [.fin 0, .fin 1]).setSigsqr (.fin 2)).setOmega fun k =>
      pair ((![-3, -4] : Fin 2 → ℂ) k)).setMA [.fin 1, .fin 0]) :=
    .ma _ (.omega _ (.sigsqr _ (.yerr _ (.y _ w0 (by rw [y1]; rfl)) (by show 2 = s.b.yerr.length; rw [e1]; rfl))))
  refine ⟨s, _, s', e, ?_, rfl, e', ?_, ?_, ?_⟩
  · refine (C105_outcome w0 x).2.1 (by omega) ?_
    rw [o1, libC_solvable]
    intro h
    exact absurd (@h 0 1 rfl) (by decide)
  · refine (C105_shown w2 w' ⟨?_, y', g', q', o', m'⟩).1 x
    show s'.b.time = s.b.time
    rw [t', t1]
  · obtain ⟨s2, r', h, -⟩ := (C105_outcome w' x).2.2.2 le_rfl (by rw [o']; exact roots34) (by rw [m']; rfl)
    exact ⟨s2, r', h⟩
  · exact (C105_outcome (.ma [.fin 1, .fin 0, .fin 0] w2) x).2.2.1 le_rfl roots34 (by show 3 ≠ 2; decide)

/-- **C105, setters.** A filter a program can have, of any order, with increasing times of moderate size. After all the setters, in any order, with `y`,
`yerr`, `sigsqr`, `omega` and as many coefficients `ma` as roots, it answers like one built with these by the constructor, and like one built from data
only and then given the parameters. With another number of coefficients every `Predict` throws. -/
theorem C105_set {C : CArith} (hA : IsBinary64 C.r) {p₀ : ℕ} {srt : List Dbl → List ℕ} {ts : List ℝ} (ht : MildTimes ts) {s1 : FKFp p₀} (h1 : LiveP C s1)
    (hs1 : s1.b.time = ts.map .fin) {y yerr : List Dbl} (hy : y.length = ts.length) (he : yerr.length = ts.length) (sigsqr : Dbl) (omega : Fin p → CD)
    (ma : List Dbl) :
    ∃ s2 s', FKFp.new C srt (ts.map .fin) y yerr sigsqr omega ma = .ok s' ∧
      s2 = ((((s1.setY y).setYerr yerr).setSigsqr sigsqr).setOmega omega).setMA ma ∧
      s2 = ((((s1.setMA ma).setOmega omega).setSigsqr sigsqr).setYerr yerr).setY y ∧
      (ma.length = p → (∀ x, (FKFp.predict C s2 x).map Prod.snd = (FKFp.predict C s' x).map Prod.snd) ∧
        (∀ times zs, (FKFp.simulate C s2 times zs).map Prod.snd = (FKFp.simulate C s' times zs).map Prod.snd) ∧
        (FKFp.filter C s2).map (fun k => (k.b.mean, k.b.var)) = (FKFp.filter C s').map (fun k => (k.b.mean, k.b.var))) ∧
      (ma.length ≠ p → 2 ≤ p → Solvable C omega → ∀ x, FKFp.predict C s2 x = .error .bounds) := by
  obtain ⟨s', e', t', y', g', q', o', m'⟩ := C103_new hA srt ht y yerr sigsqr omega ma
  have hw := LiveP.whole h1
  have hl : s1.b.time.length = ts.length := by rw [hs1, List.length_map]
  have w2 : LiveP C (((((s1.setY y).setYerr yerr).setSigsqr sigsqr).setOmega omega).setMA ma) :=
    .ma _ (.omega _ (.sigsqr _ (.yerr _ (.y _ h1 (by rw [hw.y, hl, hy])) (by show _ = s1.b.yerr.length; rw [hw.yerr, hl, he]))))
  refine ⟨_, s', e', rfl, rfl, fun hm => ?_, fun hm hp hs x => (C105_outcome w2 x).2.2.1 hp hs hm⟩
  refine C105_shown w2 (.new (by simpa using hy) (by simpa using he) e') ⟨?_, y', g', q', o', by rw [m', hm, Nat.sub_self]; exact List.append_nil _⟩
  show s'.b.time = s1.b.time
  rw [t', hs1]

example (srt : List Dbl → List ℕ) (x : Dbl) : ∃ (s : FKFp 3) (s' : FKFp 2),
    FKFp.new libC srt ([0, 1].map .fin) [.nan, .pinf] [.fin 1, .nan] .ninf (fun k => pair (![-1, -1, -2] k)) [.fin 1, .nan, .nan] = .ok s ∧
    FKFp.new libC srt ([0, 1].map .fin) [.fin 1, .fin 2] [.fin 0, .fin 1] (.fin 2) (fun k => pair (![-1, -2] k)) [.fin 1, .fin 3] = .ok s' ∧
    (FKFp.predict libC (((((s.setY [.fin 1, .fin 2]).setYerr [.fin 0, .fin 1]).setSigsqr (.fin 2)).setOmega fun k => pair (![-1, -2] k)).setMA
      [.fin 1, .fin 3]) x).map Prod.snd = (FKFp.predict libC s' x).map Prod.snd := by
  obtain ⟨s, e, t, -⟩ :=
    C103_new libC_bin srt fp_times [.nan, .pinf] [.fin 1, .nan] .ninf (fun k => pair ((![-1, -1, -2] : Fin 3 → ℂ) k)) [.fin 1, .nan, .nan]
  obtain ⟨_, s', e', rfl, -, h, -⟩ := C105_set libC_bin (srt := srt) fp_times (.new (by rfl) (by rfl) e) t (y := [.fin 1, .fin 2])
    (yerr := [.fin 0, .fin 1]) (by rfl) (by rfl) (.fin 2) (fun k => pair ((![-1, -2] : Fin 2 → ℂ) k)) [.fin 1, .fin 3]
  exact ⟨s, s', e, e', (h (by rfl)).1 x⟩

/-- **C105, constructors.** The constructor taking data only, followed by the setters of the parameters: it answers like the constructor taking everything
if the number of coefficients is the order. (It runs `init()` twice; the second run finds nothing to do.) -/
theorem C105_data {C : CArith} (hA : IsBinary64 C.r) (p₀ : ℕ) {srt : List Dbl → List ℕ} {ts : List ℝ} (ht : MildTimes ts) {y yerr : List Dbl}
    (hy : y.length = ts.length) (he : yerr.length = ts.length) (sigsqr : Dbl) (omega : Fin p → CD) {ma : List Dbl} (hm : ma.length = p) :
    ∃ s s', FKFp.newData C p₀ srt (ts.map .fin) y yerr = .ok s ∧ FKFp.new C srt (ts.map .fin) y yerr sigsqr omega ma = .ok s' ∧
      ∀ x, (FKFp.predict C (((s.setSigsqr sigsqr).setOmega omega).setMA ma) x).map Prod.snd = (FKFp.predict C s' x).map Prod.snd := by
  obtain ⟨s', e', t', y', g', q', o', m'⟩ := C103_new hA srt ht y yerr sigsqr omega ma
  obtain ⟨s, e, ts', ys, es⟩ : ∃ s, FKFp.newData C p₀ srt (ts.map .fin) y yerr = .ok s ∧ s.b.time = ts.map .fin ∧ s.b.y = y ∧ s.b.yerr = yerr := by
    obtain ⟨ds, hd, hpos⟩ := mild_pos hA ht
    obtain ⟨b0, e0, t0, y0, g0⟩ : ∃ b0, FKF1.newData C.r srt (ts.map .fin) y yerr = .ok b0 ∧ b0.time = ts.map .fin ∧ b0.y = y ∧ b0.yerr = yerr :=
      ⟨_, newData_pos hd hpos srt rfl, rfl, rfl, rfl⟩
    unfold FKFp.newData
    rw [e0, res_bind_ok]
    obtain ⟨b1, h1, h2⟩ := bind_ok (newData_pos hd hpos srt t0)
    rw [h1, res_bind_ok, h2, res_bind_ok]
    exact ⟨_, rfl, t0, y0, g0⟩
  refine ⟨s, s', e, e', (C105_shown (.ma ma (.data sigsqr omega (by simpa using hy) (by simpa using he) e))
    (.new (by simpa using hy) (by simpa using he) e') ⟨t'.trans ts'.symm, y'.trans ys.symm, g'.trans es.symm, q', o', ?_⟩).1⟩
  rw [m', hm, Nat.sub_self]
  exact List.append_nil _

example (srt : List Dbl → List ℕ) (x : Dbl) : ∃ (s : FKFp 0) (s' : FKFp 2), FKFp.newData libC 0 srt ([0, 1].map .fin) [.fin 1, .nan] [.fin 0, .fin 1] = .ok s ∧
    FKFp.new libC srt ([0, 1].map .fin) [.fin 1, .nan] [.fin 0, .fin 1] (.fin 2) (fun k => pair (![-1, -2] k)) [.fin 1, .fin 3] = .ok s' ∧
    (FKFp.predict libC (((s.setSigsqr (.fin 2)).setOmega fun k => pair ((![-1, -2] : Fin 2 → ℂ) k)).setMA [.fin 1, .fin 3]) x).map Prod.snd =
      (FKFp.predict libC s' x).map Prod.snd := by
  obtain ⟨s, s', e, e', h⟩ := C105_data libC_bin 0 (srt := srt) fp_times (y := [.fin 1, .nan]) (yerr := [.fin 0, .fin 1]) (by rfl) (by rfl) (.fin 2)
    (fun k => pair ((![-1, -2] : Fin 2 → ℂ) k)) (ma := [.fin 1, .fin 3]) (by rfl)
  exact ⟨s, s', e, e', h x⟩

/-- **C105, CAR(1).** The same for two CAR(1) filters; here `Predict` and `Filter` always return, and `Simulate` whenever no requested time is NaN. -/
theorem C105_car1 {A : Arith} {s1 s1' : FKF1} (h1 : Live1 A s1) (h1' : Live1 A s1') (hs : SameShown1 s1 s1') :
    (∀ x, ∃ a b r, FKF1.predict A s1 x = .ok (a, r) ∧ FKF1.predict A s1' x = .ok (b, r)) ∧
    (∀ times zs, if Dbl.nan ∈ times then FKF1.simulate A s1 times zs = .error .bounds ∧ FKF1.simulate A s1' times zs = .error .bounds
      else ∃ a b xs, FKF1.simulate A s1 times zs = .ok (a, xs) ∧ FKF1.simulate A s1' times zs = .ok (b, xs) ∧ xs.length = times.length) ∧
    ∃ a b, FKF1.filter A s1 = .ok a ∧ FKF1.filter A s1' = .ok b ∧ b.mean = a.mean ∧ b.var = a.var := by
  have w1 := Live1.whole h1
  have w2 := Live1.whole h1'
  have k := SameShown1.ksame w1 w2 hs
  refine ⟨fun x => ?_, fun times zs => ?_, ?_⟩
  · obtain ⟨a, r, e⟩ := predict_some w1 x
    obtain ⟨b, e'⟩ := predict_pre k e
    exact ⟨a, b, r, e, e'⟩
  · split
    · exact ⟨C94_rejects A s1 ‹_› zs, C94_rejects A s1' ‹_› zs⟩
    · obtain ⟨a, xs, -, e, l, -⟩ := simulate_some w1 ‹_› zs
      obtain ⟨b, e'⟩ := simulate_pre k e
      exact ⟨a, b, xs, e, e', l⟩
  · obtain ⟨a, e⟩ := filter_some w1
    obtain ⟨b, e', m, v⟩ := filter_pre k w1 e
    exact ⟨a, b, e, e', m, v⟩

/-- **C105, CAR(1), setters.** Likewise: after any history and all the setters, in any order, the object predicts and filters like one built with the
new values by either constructor. -/
theorem C105_car1_set {A : Arith} (hA : IsBinary64 A) {srt : List Dbl → List ℕ} {ts : List ℝ} (ht : MildTimes ts) {s1 : FKF1} (h1 : Live1 A s1)
    (hs1 : s1.time = ts.map .fin) {y yerr : List Dbl} (hy : y.length = ts.length) (he : yerr.length = ts.length) (sigsqr w : Dbl) :
    ∃ s2 s' s'', FKF1.new A srt (ts.map .fin) y yerr sigsqr w = .ok s' ∧ FKF1.newData A srt (ts.map .fin) y yerr = .ok s'' ∧
      s2 = (((s1.setY y).setYerr yerr).setSigsqr sigsqr).setOmega w ∧ s2 = (((s1.setOmega w).setSigsqr sigsqr).setYerr yerr).setY y ∧
      s' = (s''.setSigsqr sigsqr).setOmega w ∧
      (∀ x, ∃ a b r, FKF1.predict A s2 x = .ok (a, r) ∧ FKF1.predict A s' x = .ok (b, r)) ∧
      ∃ a b, FKF1.filter A s2 = .ok a ∧ FKF1.filter A s' = .ok b ∧ b.mean = a.mean ∧ b.var = a.var := by
  obtain ⟨s'', e'', t'', y'', g''⟩ : ∃ s, FKF1.newData A srt (ts.map .fin) y yerr = .ok s ∧ s.time = ts.map .fin ∧ s.y = y ∧ s.yerr = yerr := by
    obtain ⟨ds, hd, hpos⟩ := mild_pos hA ht
    unfold FKF1.newData
    rw [newData_pos hd hpos srt rfl]
    exact ⟨_, rfl, rfl, rfl, rfl⟩
  have e' : FKF1.new A srt (ts.map .fin) y yerr sigsqr w = .ok ((s''.setSigsqr sigsqr).setOmega w) := by
    unfold FKF1.new
    rw [e'', res_bind_ok]
    rfl
  have hw := Live1.whole h1
  have hl : s1.time.length = ts.length := by rw [hs1, List.length_map]
  have w2 : Live1 A ((((s1.setY y).setYerr yerr).setSigsqr sigsqr).setOmega w) :=
    .omega _ (.sigsqr _ (.yerr _ (.y _ h1 (by rw [hw.y, hl, hy])) (by show _ = s1.yerr.length; rw [hw.yerr, hl, he])))
  have := C105_car1 w2 (.new (by simpa using hy) (by simpa using he) e') ⟨t''.trans hs1.symm, y'', g'', rfl, rfl⟩
  exact ⟨_, _, s'', e', e'', rfl, rfl, rfl, this.1, this.2.2⟩

/-- Built with a rate that is NaN and with other values, filtered, and then given the right ones: it predicts like a filter built with them. -/
example (srt : List Dbl → List ℕ) (x : Dbl) : ∃ s s' k : FKF1, ∃ a b r,
    FKF1.new (nearest EvenBelow) srt ([0, 1].map .fin) [.nan, .pinf] [.fin 1, .nan] (.fin 1) .nan = .ok s ∧
    FKF1.new (nearest EvenBelow) srt ([0, 1].map .fin) [.fin 1, .fin 2] [.fin 0, .fin 1] (.fin 1) (.fin 3) = .ok s' ∧
    FKF1.filter (nearest EvenBelow) s = .ok k ∧
    FKF1.predict (nearest EvenBelow) ((((k.setY [.fin 1, .fin 2]).setYerr [.fin 0, .fin 1]).setSigsqr (.fin 1)).setOmega (.fin 3)) x = .ok (a, r) ∧
    FKF1.predict (nearest EvenBelow) s' x = .ok (b, r) := by
  obtain ⟨s, e, t⟩ : ∃ s, FKF1.new (nearest EvenBelow) srt ([0, 1].map .fin) [.nan, .pinf] [.fin 1, .nan] (.fin 1) .nan = .ok s ∧ s.time = [0, 1].map .fin := by
    obtain ⟨ds, hd, hpos⟩ := mild_pos C72_nearest fp_times
    unfold FKF1.new FKF1.newData
    rw [newData_pos hd hpos srt rfl, res_bind_ok]
    exact ⟨_, rfl, rfl⟩
  have l : Live1 (nearest EvenBelow) s := .new (by rfl) (by rfl) e
  obtain ⟨k, f⟩ := filter_some (Live1.whole l)
  obtain ⟨_, s', _, e', -, rfl, -, -, h, -⟩ := C105_car1_set C72_nearest fp_times (srt := srt) (.filter l f) ((filter_ksame f).time.trans t) (y := [.fin 1, .fin 2])
    (yerr := [.fin 0, .fin 1]) (by rfl) (by rfl) (.fin 1) (.fin 3)
  obtain ⟨a, b, r, h1, h2⟩ := h x
  exact ⟨s, s', k, a, b, r, e, e', f, h1, h2⟩

/-- **C105 leaves out `SetTime`, and must.** `SetTime` with any new times of the same number does not change what `Filter` computes: the gaps between
the times were stored by the constructor, so the values are those for the old times, though the getter shows the new ones. -/
theorem C105_set_time {C : CArith} {s1 : FKFp p} (h1 : LiveP C s1)
    {t : List Dbl} (ht : t.length = s1.b.time.length) :
    (FKFp.filter C (s1.setTime t)).map (fun k => (k.b.mean, k.b.var)) = (FKFp.filter C s1).map (fun k => (k.b.mean, k.b.var)) ∧
    (s1.setTime t).b.time = t := by
  refine ⟨?_, rfl⟩
  have w1 := LiveP.whole h1
  rcases reset_cases (C := C) s1 with ⟨hp, J, hJ, hm⟩ | ⟨f, hf⟩
  · have h2 := w1.two
    have sh := whole_shape (s := s1) w1
    obtain ⟨a, e1, q1⟩ := (hist_filterp (C := C) hp (by omega) sh hm).2 J hJ
    obtain ⟨b, e2, q2⟩ := (hist_filterp (C := C) (s := s1.setTime t) hp (n := s1.b.time.length) (by omega)
      ⟨ht, sh.dt, sh.mean, sh.var, sh.y, sh.yerr⟩ hm).2 J hJ
    have ext : ∀ l l' : List Dbl, l.length = s1.b.time.length → l'.length = s1.b.time.length →
        (∀ i < s1.b.time.length, l.getD i .nan = l'.getD i .nan) → l = l' := by
      intro l l' e1 e2 h
      refine List.ext_getElem (e1.trans e2.symm) fun i i1 i2 => ?_
      have := h i (by omega)
      rwa [List.getD_eq_getElem _ _ i1, List.getD_eq_getElem _ _ i2] at this
    rw [e1, e2]
    show Except.ok (b.b.mean, b.b.var) = Except.ok (a.b.mean, a.b.var)
    rw [ext b.b.mean a.b.mean q2.lmean q1.lmean fun i hi => (q2.mean i hi).trans (q1.mean i hi).symm,
      ext b.b.var a.b.var q2.lvar q1.lvar fun i hi => (q2.var i hi).trans (q1.var i hi).symm]
  · rw [filter_err (hf s1 rfl rfl), filter_err (hf (s1.setTime t) rfl rfl)]

/-- A filter built for the times 0 and 1 and then given the times 0 and 1000. -/
example (srt : List Dbl → List ℕ) : ∃ s k : FKFp 2,
    FKFp.new libC srt ([0, 1].map .fin) [.fin 1, .fin 2] [.fin 0, .fin 1] (.fin 2) (fun k => pair (![-1, -2] k)) [.fin 1] = .ok s ∧
    FKFp.filter libC s = .ok k ∧ (FKFp.filter libC (s.setTime [.fin 0, .fin 1000])).map (fun k => (k.b.mean, k.b.var)) = .ok (k.b.mean, k.b.var) := by
  obtain ⟨s, e, t1, -⟩ :=
    C103_new libC_bin srt fp_times [.fin 1, .fin 2] [.fin 0, .fin 1] (.fin 2) (fun k => pair ((![-1, -2] : Fin 2 → ℂ) k)) [.fin 1]
  obtain ⟨m, v, -, -, hf⟩ := (C103_filter le_rfl (by rfl) (by rfl) one_coef e).1 libC_roots.1
  obtain ⟨k, hk, -⟩ := hf s .none
  refine ⟨s, k, e, hk, ?_⟩
  have := (C105_set_time (.new (by rfl) (by rfl) e) (t := [.fin 0, .fin 1000]) (by rw [t1]; rfl)).1
  rw [this, hk]; rfl

end Verif.Props
