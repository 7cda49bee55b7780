import Verif.Theory.Lorentz

/-! Property C44: Lorentzian widths and centroids become the right autoregressive roots. -/

namespace Verif.Props

open Verif.Model Verif.Spec Verif.Theory

/-- C44: `StartingAR` turns widths and centroids into `p` numbers (C++ lines 293-310 of `carpack.cpp`); whatever stands around them in
the parameter vector, `ARRoots` recovers the roots `-2 pi w -+ 2 pi i c`. -/
theorem C44_roundtrip {p : ℕ} {cent width : List ℝ} (hc : p / 2 ≤ cent.length) (hw : (p + 1) / 2 ≤ width.length)
    (hwp : ∀ i < (p + 1) / 2, 0 < width.getD i 0) (hcp : ∀ i < p / 2, 0 ≤ cent.getD i 0) :
    ∃ l, CarP.logaOf p cent width = .ok l ∧ l.length = p ∧ ∀ a b c rest,
      arRoots p (a :: b :: c :: (l ++ rest)) = .ok (lorRoots p (fun i => width.getD i 0) fun i => cent.getD i 0) :=
  logaOf_lor hc hw hwp hcp

example : ∃ l, CarP.logaOf 3 [1] [1 / 2, 2] = .ok l ∧ l.length = 3 ∧ ∀ a b c rest,
    arRoots 3 (a :: b :: c :: (l ++ rest)) = .ok (lorRoots 3 (fun i => [1 / 2, 2].getD i 0) fun i => [1].getD i 0) :=
  C44_roundtrip (by norm_num) (by norm_num)
    (by intro i hi
        have : i = 0 ∨ i = 1 := by omega
        rcases this with rfl | rfl <;> norm_num)
    (by intro i hi
        obtain rfl : i = 0 := by omega
        norm_num)

/-- C44: Python's `get_ar_roots` gives the same roots in the same order as long as every centroid exceeds `1e-10`. -/
theorem C44_python {cent width : List ℝ} (hl : width.length = cent.length ∨ width.length = cent.length + 1)
    (hc : ∀ i < cent.length, 1e-10 < cent.getD i 0) :
    Py.getArRoots width cent = .ok (lorRoots (cent.length + width.length) (fun i => width.getD i 0) fun i => cent.getD i 0) := by
  obtain ⟨l, h1, h2⟩ := py_rootLoop (width := width) (cent := cent) cent.length (by omega) le_rfl hc
  rcases hl with h | h
  · rw [Py.getArRoots, h1, res_bind_ok, if_neg (by omega), show (pure l : Res (List ℂ)) = .ok l from rfl, res_bind_ok, lorRoots, if_neg (by omega), List.append_nil,
      show (cent.length + width.length) / 2 = cent.length by omega, ← h2]
    rfl
  · have e1 : rd width cent.length = .ok (width.getD cent.length 0) := rd_ok (by
      rw [List.getD_eq_getElem?_getD, List.getElem?_eq_getElem (by omega : cent.length < width.length)]; rfl)
    rw [Py.getArRoots, h1, res_bind_ok, if_pos h, e1, res_bind_ok, show (pure (l ++ [((width.getD cent.length 0 : ℝ) : ℂ)]) : Res (List ℂ)) = .ok _ from rfl, res_bind_ok, lorRoots, if_pos (by omega),
      show (cent.length + width.length) / 2 = cent.length by omega, ← h2]
    simp only [pure, Except.pure, List.map_append, List.map_cons, List.map_nil]
    congr 3
    push_cast
    ring

example : Py.getArRoots [1 / 2, 2] [1] = .ok (lorRoots 3 (fun i => [1 / 2, 2].getD i 0) fun i => [1].getD i 0) :=
  C44_python (Or.inr rfl) (by
    intro i hi
    obtain rfl : i = 0 := by simpa using hi
    norm_num)

/-- C44, a difference: a Lorentzian centred at zero is a double root for the C++ code and a single root for the Python function, which
leaves out the conjugate. -/
theorem C44_zero_centroid {w : ℝ} (hw : 0 < w) :
    Py.getArRoots [w] [0] = .ok [((-(2 * Real.pi * w) : ℝ) : ℂ)] ∧
      ∃ l, CarP.logaOf 2 [0] [w] = .ok l ∧ ∀ a b c, arRoots 2 (a :: b :: c :: l) = .ok [((-(2 * Real.pi * w) : ℝ) : ℂ), ((-(2 * Real.pi * w) : ℝ) : ℂ)] := by
  constructor
  · have e1 : rd [w] 0 = .ok w := rfl
    have e2 : rd [(0:ℝ)] 0 = .ok 0 := rfl
    simp only [Py.getArRoots, List.length_cons, List.length_nil, zero_add, Py.rootLoop, e1, e2, res_bind_ok]
    rw [if_neg (by norm_num)]
    simp only [pure, Except.pure, res_bind_ok]
    rw [if_neg (by norm_num)]
    simp only [res_bind_ok, List.nil_append, List.map_cons, List.map_nil]
    congr 2
    apply Complex.ext <;> simp
  · obtain ⟨l, h1, -, h2⟩ := C44_roundtrip (p := 2) (cent := [0]) (width := [w]) (by norm_num) (by norm_num)
      (by intro i hi; obtain rfl : i = 0 := by omega
          simpa using hw)
      (by intro i hi; obtain rfl : i = 0 := by omega
          simp)
    refine ⟨l, h1, fun a b c => ?_⟩
    have := h2 a b c []
    rw [List.append_nil] at this
    rw [this]
    simp only [lorRoots, lorPair]
    norm_num
    apply Complex.ext <;> simp

example : ∃ l, CarP.logaOf 2 [0] [1] = .ok l := let ⟨l, h, _⟩ := (C44_zero_centroid (w := 1) one_pos).2; ⟨l, h⟩

end Verif.Props
