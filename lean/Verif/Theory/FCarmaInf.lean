import Verif.Spec.FCarma
import Verif.Theory.FNan
import Verif.Theory.FHist
import Verif.Theory.FObj
import Verif.Theory.FLink
import Verif.Theory.Nearest

/-!
The log-density of the CARMA classes in machine numbers is never `+inf`.
-/

namespace Verif.Theory

open Verif.Model Verif.Spec
open scoped Classical

variable {A : Arith}

/-- not `+inf`, and at most `K` if finite -/
def Low (K : ℝ) : Dbl → Prop
  | .fin x => x ≤ K
  | .pinf => False
  | _ => True

theorem low_fl (hA : IsBinary64 A) {K : ℝ} (hK : F64 K) {d : Dbl} (h : Low K d) : Low K (A.fl d) := by
  cases d with
  | fin x =>
    have m := hA.mono x K h
    rw [hA.id K hK] at m
    show Low K (A.rnd x)
    cases e : A.rnd x with
    | fin r => rw [e] at m; exact not_lt.mp m
    | pinf => rw [e] at m; exact m trivial
    | ninf => trivial
    | nan => trivial
  | pinf => exact h
  | ninf => trivial
  | nan => trivial

theorem low_add (hA : IsBinary64 A) {K L : ℝ} (hK : F64 (K + L)) {a b : Dbl} (h : Low K a) (h' : Low L b) : Low (K + L) (A.add a b) := by
  refine low_fl hA hK ?_
  cases a <;> cases b <;> first | trivial | exact add_le_add h h' | exact h.elim | exact h'.elim

theorem double_fl (hA : IsBinary64 A) (d : Dbl) : IsDouble (A.fl d) := by
  cases d with
  | fin x =>
    show IsDouble (A.rnd x)
    cases e : A.rnd x with
    | fin r => exact hA.range x r e
    | _ => trivial
  | _ => trivial

theorem f64_512 : F64 512 := by simpa using f64_int 512 (by norm_num)

theorem half_log (hA : IsBinary64 A) {r : ℝ} (h : |r| ≤ 1024) : ∃ t, A.mul (.fin (-0.5)) (.fin r) = .fin t ∧ t ≤ 512 := by
  obtain ⟨h1, h2⟩ := abs_le.mp h
  obtain ⟨t, et, -, -, t2⟩ := rnd_mul hA (a := -0.5) (b := r) (f64_neg f64_512) f64_512 (by norm_num; linarith) (by norm_num; linarith)
  exact ⟨t, et, t2⟩

/-- one term of the sum -/
theorem term_low (hA : IsBinary64 A) (hE : Edges A) {v : Dbl} (hv : IsDouble v) (c : Dbl) :
    Low 512 (A.sub (A.mul (.fin (-0.5)) (A.log v)) (A.div (A.mul (A.mul (.fin 0.5) c) c) v)) := by
  have hz := zeroNan hA
  cases v with
  | nan => rw [hE.log_nan]; cases A.mul (A.mul (.fin 0.5) c) c <;> trivial
  | ninf => rw [hE.log_ninf]; trivial
  | pinf =>
    have e : A.mul (.fin (-0.5)) .pinf = .ninf := by
      show A.fl (Dbl.infTimes (-0.5)) = _
      rw [Dbl.infTimes, if_neg (by norm_num), if_pos (by norm_num)]; rfl
    rw [hE.log_pinf, e]
    rcases hz.half c with h | h | ⟨x, hx, h⟩
    · rw [h]; trivial
    · rw [h]; trivial
    · rw [h]
      obtain ⟨r, er⟩ : ∃ r, A.div (.fin x) .pinf = .fin r := ⟨0, hA.id 0 f64_zero⟩
      rw [er]; trivial
  | fin v =>
    rcases lt_trichotomy v 0 with h | rfl | h
    · rw [hE.log_neg v h]
      trivial
    · rw [term_zero hz]; trivial
    · obtain ⟨r, er, -, hr⟩ := hA.log_pos v hv h
      obtain ⟨t, et, t1⟩ := half_log hA hr
      rw [er, et]
      rcases hz.half c with h' | h' | ⟨x, hx, h'⟩
      · rw [h']; trivial
      · have e : A.div .pinf (.fin v) = .pinf := by
          show A.fl (if v < 0 then _ else _) = _
          rw [if_neg h.not_gt]; rfl
        rw [h', e]; trivial
      · rw [h', fl_div _ _ h.ne']
        rcases rnd_nonneg hA (div_nonneg hx h.le) with e | ⟨r, e, -, r0⟩
        · rw [e]; trivial
        · rw [e]
          refine low_fl hA f64_512 ?_
          show t + -r ≤ 512
          linarith

theorem f64_nat512 (k : ℕ) (hk : k < 2 ^ 53) : F64 (k * 512) := by
  have := f64_nat_zpow k 9 hk (by norm_num) (by norm_num)
  norm_num at this
  exact this

theorem lik_low (hA : IsBinary64 A) (hE : Edges A) {y mean var : List Dbl} {mu : Dbl} (hv : ∀ v ∈ var, IsDouble v) {n : ℕ} (hn : n < 2 ^ 53)
    {l : Dbl} (h : FCar1.likLoop A y mean var mu n = .ok l) : Low (n * 512) l := by
  induction n generalizing l with
  | zero =>
    injection h with h
    subst h
    show (0 : ℝ) ≤ _
    positivity
  | succ k ih =>
    simp only [FCar1.likLoop] at h
    obtain ⟨acc, h1, h⟩ := bind_ok h
    obtain ⟨yk, -, h⟩ := bind_ok h
    obtain ⟨mk, -, h⟩ := bind_ok h
    obtain ⟨vk, h4, h⟩ := bind_ok h
    injection h with h
    subst h
    have e : ((k + 1 : ℕ) : ℝ) * 512 = k * 512 + 512 := by push_cast; ring
    rw [e]
    exact low_add hA (by rw [← e]; exact f64_nat512 _ hn) (ih (by omega) h1) (term_low hA hE (hv _ (List.mem_of_getElem? (rd_ok_inv h4))) _)

/-! ### prior -/

theorem f64_32768 : F64 32768 := by simpa using f64_int 32768 (by norm_num)

/-- `LogPrior` of the base class -/
theorem prior_low (hA : IsBinary64 A) (hE : Edges A) {θ : List Dbl} (hθ : ∀ x ∈ θ, IsDouble x) {l : Dbl} (h : FCar1.logPrior A θ = .ok l) :
    Low 32768 l := by
  unfold FCar1.logPrior at h
  obtain ⟨s, h1, h⟩ := bind_ok h
  injection h with h
  subst h
  have hs := hθ _ (List.mem_of_getElem? (rd_ok_inv h1))
  have F25 : F64 (-25) := by simpa using f64_int (-25) (by norm_num)
  have F26 : F64 26 := by simpa using f64_int 26 (by norm_num)
  have e25 : A.mul (.fin (-0.5)) (.fin 50) = .fin (-25) := by
    rw [fl_mul, show (-0.5 : ℝ) * 50 = -25 by norm_num]; exact hA.id _ F25
  have e26 : A.add (.fin 1) (A.div (.fin 50) (.fin 2)) = .fin 26 := by
    rw [fl_div _ _ (by norm_num), show (50 : ℝ) / 2 = 25 by norm_num, hA.id 25 (by simpa using f64_int 25 (by norm_num)), fl_add,
      show (1 : ℝ) + 25 = 26 by norm_num]; exact hA.id _ F26
  rw [e25, e26]
  cases s with
  | nan => trivial
  | ninf => rw [hE.log_ninf]; exact (sub_nan (A := A) _).symm ▸ trivial
  | pinf =>
    have e : A.mul (.fin 26) .pinf = .pinf := by
      show A.fl (Dbl.infTimes 26) = _
      rw [Dbl.infTimes, if_pos (by norm_num)]; rfl
    rw [hE.log_pinf, e, show A.div (.fin (-25)) .pinf = .fin 0 from hA.id 0 f64_zero]
    trivial
  | fin s =>
    rcases lt_trichotomy s 0 with hn | rfl | hp
    · rw [hE.log_neg s hn, show A.mul (.fin 26) .nan = .nan from rfl, sub_nan]; trivial
    · have e : A.mul (.fin 26) .ninf = .ninf := by
        show A.fl (Dbl.infTimes (-26)) = _
        rw [Dbl.infTimes, if_neg (by norm_num), if_pos (by norm_num)]; rfl
      have e' : A.div (.fin (-25)) (.fin 0) = .ninf := by
        show A.fl (if (0 : ℝ) = 0 then Dbl.infTimes (-25) else _) = _
        rw [if_pos rfl, Dbl.infTimes, if_neg (by norm_num), if_pos (by norm_num)]; rfl
      rw [hA.log_zero, e, e']
      trivial
    · obtain ⟨r, er, -, hr⟩ := hA.log_pos s hs hp
      obtain ⟨r1, r2⟩ := abs_le.mp hr
      obtain ⟨t, et, -, t1, -⟩ := rnd_mul hA (a := 26) (b := r) (f64_neg f64_32768) f64_32768 (by linarith) (by linarith)
      rw [er, et, fl_div _ _ hp.ne']
      rcases rnd_nonpos hA (x := -25 / s) (div_nonpos_of_nonpos_of_nonneg (by norm_num) hp.le) with e | ⟨u, e, u0⟩
      · rw [e]; trivial
      · rw [e]
        refine low_fl hA f64_32768 ?_
        show u + -t ≤ 32768
        linarith

theorem Low.mono {K L : ℝ} (h : K ≤ L) {d : Dbl} (hd : Low K d) : Low L d := by
  cases d with
  | fin x => exact le_trans (a := x) hd h
  | pinf => exact hd
  | _ => trivial

theorem low_dbl (hA : IsBinary64 A) {k k' : ℤ} (e : 1 + k = k') (h1 : -1074 ≤ k) (h2 : k' ≤ 971) {a b : Dbl} (h : Low (2 ^ k) a) (h' : Low (2 ^ k) b) :
    Low (2 ^ k') (A.add a b) := by
  have e2 : (2 : ℝ) ^ k' = 2 ^ k + 2 ^ k := by rw [← pw_two k k' e]; ring
  rw [e2]
  exact low_add hA (by rw [← e2]; exact f64_zpow _ (by omega) h2) h h'

/-- what `ZCARMA::LogPrior` adds -/
theorem zprior_low (hA : IsBinary64 A) (hE : Edges A) {x : Dbl} (hx : ∀ r, x = .fin r → -2 ^ (900 : ℤ) ≤ r) :
    Low (2 ^ (901 : ℤ)) (A.sub x.neg (A.mul (.fin 2) (A.log (A.add (.fin 1) (A.exp x.neg))))) := by
  have two_pinf : A.mul (.fin 2) .pinf = .pinf := by
    show A.fl (Dbl.infTimes 2) = _
    rw [Dbl.infTimes, if_pos (by norm_num)]; rfl
  have key : ∀ d : Dbl, (d = .pinf ∨ ∃ r, d = .fin r ∧ F64 r ∧ 0 ≤ r) → ∀ z : ℝ, z ≤ 2 ^ (900 : ℤ) →
      Low (2 ^ (901 : ℤ)) (A.sub (.fin z) (A.mul (.fin 2) (A.log (A.add (.fin 1) d)))) := by
    intro d hd z hz
    have inf : Low (2 ^ (901 : ℤ)) (A.sub (.fin z) (A.mul (.fin 2) (A.log .pinf))) := by
      rw [hE.log_pinf, two_pinf]; trivial
    rcases hd with rfl | ⟨r, rfl, Fr, r0⟩
    · exact inf
    · rw [fl_add]
      rcases rnd_nonneg hA (x := 1 + r) (by linarith) with e | ⟨u, e, Fu, -⟩
      · rw [e]; exact inf
      · rw [e]
        have u1 : 1 ≤ u := (rnd_rounds hA e).ge f64_one (by linarith)
        obtain ⟨l, el, -, hl⟩ := hA.log_pos u Fu (by linarith)
        obtain ⟨l1, l2⟩ := abs_le.mp hl
        obtain ⟨t, et, -, t1, -⟩ := rnd_mul hA (a := 2) (b := l) (f64_neg f64_32768) f64_32768 (by linarith) (by linarith)
        rw [el, et]
        refine low_fl hA (f64_zpow _ (by norm_num) (by norm_num)) ?_
        show z + -t ≤ _
        have h15 : (32768 : ℝ) ≤ 2 ^ (900 : ℤ) := (by norm_num : (32768 : ℝ) ≤ 2 ^ (15 : ℤ)).trans (pw_le _ _ (by norm_num))
        rw [← pw_two 900 901 (by norm_num)]
        generalize (2 : ℝ) ^ (900 : ℤ) = R at *
        linarith
  cases x with
  | nan => trivial
  | pinf =>
    show Low _ (A.sub .ninf (A.mul (.fin 2) (A.log (A.add (.fin 1) (A.exp .ninf)))))
    rw [hA.exp_ninf, fl_add, show (1 : ℝ) + 0 = 1 by norm_num, hA.id 1 f64_one]
    obtain ⟨l, el, -, -⟩ := hA.log_pos 1 f64_one (by norm_num)
    rw [el, fl_mul]
    cases A.rnd (2 * l) <;> trivial
  | ninf =>
    show Low _ (A.sub .pinf (A.mul (.fin 2) (A.log (A.add (.fin 1) (A.exp .pinf)))))
    rw [hE.exp_pinf, show A.add (.fin 1) .pinf = .pinf from rfl, hE.log_pinf, two_pinf]
    trivial
  | fin r =>
    refine key _ ?_ _ (by have := hx r rfl; linarith)
    show A.exp (.fin (-r)) = _ ∨ _
    rcases hA.exp_other (-r) with e | ⟨u, e⟩
    · exact .inl e
    · exact .inr ⟨u, e, (hA.exp_range _ _ e).1, (hA.exp_range _ _ e).2⟩

/-! ### filter -/

variable {C : CArith} {p : ℕ}

/-- only doubles in `var`, and as many elements as before -/
def DVar (s : FKFp p) : Prop := ∀ v ∈ s.b.var, IsDouble v

theorem mem_set_double {l : List Dbl} {i : ℕ} {x : Dbl} (hx : IsDouble x) (h : ∀ v ∈ l, IsDouble v) : ∀ v ∈ l.set i x, IsDouble v := by
  intro v hv
  rcases List.mem_or_eq_of_mem_set hv with h' | rfl
  · exact h v h'
  · exact hx

theorem dvar_write (hA : IsBinary64 C.r) {var v1 v2 : List Dbl} {i : ℕ} {a x z : Dbl} (h : ∀ v ∈ var, IsDouble v) (h1 : wr var i a = .ok v1)
    (h2 : wr v1 i (C.r.add x z) = .ok v2) : ∀ v ∈ v2, IsDouble v := by
  obtain ⟨-, rfl⟩ := wr_ok_inv h1
  obtain ⟨-, rfl⟩ := wr_ok_inv h2
  rw [List.set_set]
  exact mem_set_double (double_fl hA _) h

theorem dvar_reset (hA : IsBinary64 C.r) {s s' : FKFp p} (h : DVar s) (e : FKFp.reset C s = .ok s') : DVar s' := by
  unfold FKFp.reset at e
  dsimp only at e
  split at e
  · cases e
  obtain ⟨J, -, e⟩ := bind_ok e
  split at e
  · cases e
  obtain ⟨mean, -, e⟩ := bind_ok e
  obtain ⟨e0, -, e⟩ := bind_ok e
  obtain ⟨v1, h1, e⟩ := bind_ok e
  obtain ⟨x, -, e⟩ := bind_ok e
  obtain ⟨v2, h2, e⟩ := bind_ok e
  obtain ⟨y0, -, e⟩ := bind_ok e
  injection e with e
  subst e
  exact dvar_write hA h h1 h2

theorem dvar_update (hA : IsBinary64 C.r) {s s' : FKFp p} (h : DVar s) (e : FKFp.update C s = .ok s') : DVar s' := by
  unfold FKFp.update at e
  obtain ⟨_, -, e⟩ := bind_ok e
  obtain ⟨_, -, e⟩ := bind_ok e
  obtain ⟨_, -, e⟩ := bind_ok e
  obtain ⟨mean, -, e⟩ := bind_ok e
  obtain ⟨v1, h1, e⟩ := bind_ok e
  obtain ⟨x, -, e⟩ := bind_ok e
  obtain ⟨ec, -, e⟩ := bind_ok e
  obtain ⟨v2, h2, e⟩ := bind_ok e
  obtain ⟨y0, -, e⟩ := bind_ok e
  obtain ⟨m0, -, e⟩ := bind_ok e
  injection e with e
  subst e
  exact dvar_write hA h h1 h2

theorem dvar_iter (hA : IsBinary64 C.r) {k : ℕ} {s s' : FKFp p} (h : DVar s) (e : iter (FKFp.update C) k s = .ok s') : DVar s' := by
  induction k generalizing s' with
  | zero => injection e with e; subst e; exact h
  | succ k ih =>
    obtain ⟨s1, h1, e⟩ := bind_ok e
    exact dvar_update hA (ih h1) e

theorem dvar_filter (hA : IsBinary64 C.r) {s s' : FKFp p} (h : DVar s) (e : FKFp.filter C s = .ok s') : DVar s' := by
  unfold FKFp.filter at e
  obtain ⟨s1, h1, e⟩ := bind_ok e
  exact dvar_iter hA (dvar_reset hA h h1) e

/-- what is kept from call to call -/
structure FCInv (n : ℕ) (kind : Kind) (s : FCarP p) : Prop where
  time : s.time.length = n
  kind : s.kind = kind
  var : DVar s.kf

theorem setUp_var {s : FCarP p} {θ : List Dbl} {kf : FKFp p} (h : FCarP.setUp C s θ = .ok kf) : kf.b.var = s.kf.b.var := by
  unfold FCarP.setUp at h
  obtain ⟨_, -, h⟩ := bind_ok h
  obtain ⟨_, -, h⟩ := bind_ok h
  obtain ⟨_, -, h⟩ := bind_ok h
  obtain ⟨_, -, h⟩ := bind_ok h
  obtain ⟨_, -, h⟩ := bind_ok h
  injection h with h
  subst h
  rfl

theorem fc_call (hA : IsBinary64 C.r) {n : ℕ} {kind : Kind} {s s' : FCarP p} (h : FCInv n kind s) {θ : List Dbl} {v : Dbl}
    (e : FCarP.logDensity C s θ = .ok (s', v)) : FCInv n kind s' := by
  unfold FCarP.logDensity at e
  obtain ⟨ok, -, e⟩ := bind_ok e
  split at e
  · injection e with e
    injection e with e _
    subst e
    exact h
  obtain ⟨kf, h1, e⟩ := bind_ok e
  obtain ⟨mu, -, e⟩ := bind_ok e
  have hv : DVar kf := by intro v hv; rw [setUp_var h1] at hv; exact h.var v hv
  split at e
  · injection e with e
    injection e with e _
    subst e
    exact ⟨h.time, h.kind, hv⟩
  · cases e
  · rename_i kf' ef
    obtain ⟨ll, -, e⟩ := bind_ok e
    obtain ⟨lp, -, e⟩ := bind_ok e
    injection e with e
    injection e with e _
    subst e
    exact ⟨h.time, h.kind, dvar_filter hA hv ef⟩

theorem fc_called (hA : IsBinary64 C.r) {n : ℕ} {kind : Kind} {s s' : FCarP p} (h : FCInv n kind s) (hc : CalledP C s s') : FCInv n kind s' := by
  induction hc with
  | none => exact h
  | call _ e ih => exact fc_call hA ih e
  | mle x _ ih => exact ⟨ih.time, ih.kind, ih.var⟩

theorem fc_low (hA : IsBinary64 C.r) (hE : Edges C.r) {n : ℕ} (hn : n < 2 ^ 53) {kind : Kind} {s s' : FCarP p} (h : FCInv n kind s) {θ : List Dbl}
    (hθ : ∀ x ∈ θ, IsDouble x) (hx : kind = .zcarma → ∀ x, θ[p + 3]? = some (.fin x) → -2 ^ (900 : ℤ) ≤ x) {v : Dbl}
    (e : FCarP.logDensity C s θ = .ok (s', v)) : v ≠ .pinf := by
  unfold FCarP.logDensity at e
  obtain ⟨ok, -, e⟩ := bind_ok e
  split at e
  · injection e with e
    injection e with _ e
    subst e
    exact fun h => by cases h
  obtain ⟨kf, h1, e⟩ := bind_ok e
  obtain ⟨mu, -, e⟩ := bind_ok e
  have hv : DVar kf := by intro v hv; rw [setUp_var h1] at hv; exact h.var v hv
  split at e
  · injection e with e
    injection e with _ e
    subst e
    exact fun h => by cases h
  · cases e
  · rename_i kf' ef
    obtain ⟨ll, h2, e⟩ := bind_ok e
    obtain ⟨lp, h3, e⟩ := bind_ok e
    injection e with e
    injection e with _ e
    subst e
    rw [h.time] at h2
    have L1 := lik_low hA hE (dvar_filter hA hv ef) hn h2
    have p902 : ∀ x : ℝ, x ≤ 2 ^ (62 : ℤ) → x ≤ 2 ^ (902 : ℤ) := fun x hx => hx.trans (pw_le _ _ (by norm_num))
    have L1' : Low (2 ^ (902 : ℤ)) ll := L1.mono (p902 _ (by
      have : (n : ℝ) ≤ 2 ^ 53 := by exact_mod_cast hn.le
      rw [show (2 : ℝ) ^ (62 : ℤ) = 2 ^ 53 * 512 by norm_num]
      linarith))
    have L2 : Low (2 ^ (902 : ℤ)) lp := by
      unfold FCarP.logPrior at h3
      rw [h.kind] at h3
      have hb : FCar1.logPrior C.r θ = .ok lp → Low (2 ^ (902 : ℤ)) lp := fun h => (prior_low hA hE hθ h).mono (p902 _ (by norm_num))
      cases kind with
      | zcarma =>
        obtain ⟨l, h4, h3⟩ := bind_ok h3
        obtain ⟨x, h5, h3⟩ := bind_ok h3
        injection h3 with h3
        subst h3
        have l15 : (32768 : ℝ) ≤ 2 ^ (901 : ℤ) := (by norm_num : (32768 : ℝ) ≤ 2 ^ (15 : ℤ)).trans (pw_le _ _ (by norm_num))
        refine low_dbl hA (k := 901) (by norm_num) (by norm_num) (by norm_num) ((prior_low hA hE hθ h4).mono l15)
          (zprior_low hA hE fun r hr => ?_)
        subst hr
        exact hx rfl r (rd_ok_inv h5)
      | carp => exact hb h3
      | zcar => exact hb h3
      | carma q => exact hb h3
    have := low_dbl hA (k := 902) (k' := 903) (by norm_num) (by norm_num) (by norm_num) L1' L2
    intro hp
    rw [hp] at this
    exact this

/-! ### constructors -/

theorem initDedup_var {s s' : FKF1} (e : FKF1.initDedup A s = .ok s') : ∀ v ∈ s'.var, v = .fin 0 := by
  unfold FKF1.initDedup at e
  obtain ⟨s1, -, e⟩ := bind_ok e
  injection e with e
  subst e
  intro v hv
  exact (List.mem_replicate.mp hv).2

theorem newCarp_inv {srt : List Dbl → List ℕ} {time y yerr : List Dbl} {M : Dbl} {s : FCarP p} (e : FCarP.newCarp C p srt time y yerr M = .ok s) :
    s.time = time ∧ s.kind = .carp ∧ DVar s.kf := by
  unfold FCarP.newCarp at e
  obtain ⟨_, -, e⟩ := bind_ok e
  obtain ⟨_, -, e⟩ := bind_ok e
  obtain ⟨_, -, e⟩ := bind_ok e
  obtain ⟨_, -, e⟩ := bind_ok e
  obtain ⟨kf, h, e⟩ := bind_ok e
  dsimp only at e
  split at e
  · cases e
  injection e with e
  subst e
  refine ⟨rfl, rfl, ?_⟩
  unfold FKFp.newData at h
  obtain ⟨_, -, h⟩ := bind_ok h
  obtain ⟨_, -, h⟩ := bind_ok h
  obtain ⟨b, h1, h⟩ := bind_ok h
  injection h with h
  subst h
  intro v hv
  rw [initDedup_var h1 v hv]
  exact f64_zero

theorem fc_new {kind : Kind} {srt : List Dbl → List ℕ} {time y yerr : List Dbl} {M : Dbl} {s : FCarP p}
    (e : FCarP.new C kind p srt time y yerr M = .ok s) : FCInv time.length kind s := by
  unfold FCarP.new at e
  obtain ⟨s0, h, e⟩ := bind_ok e
  obtain ⟨h1, h2, h3⟩ := newCarp_inv h
  cases kind with
  | carp => injection e with e; subst e; exact ⟨by rw [h1], h2, h3⟩
  | carma q => injection e with e; subst e; exact ⟨by rw [h1], rfl, h3⟩
  | zcar =>
    obtain ⟨_, -, e⟩ := bind_ok e
    obtain ⟨_, -, e⟩ := bind_ok e
    obtain ⟨_, -, e⟩ := bind_ok e
    injection e with e; subst e; exact ⟨by rw [h1], rfl, h3⟩
  | zcarma =>
    obtain ⟨_, -, e⟩ := bind_ok e
    obtain ⟨_, -, e⟩ := bind_ok e
    obtain ⟨_, -, e⟩ := bind_ok e
    obtain ⟨_, -, e⟩ := bind_ok e
    obtain ⟨_, -, e⟩ := bind_ok e
    injection e with e; subst e; exact ⟨by rw [h1], rfl, h3⟩

theorem nearest_edges (tie : ℝ → Prop) : Edges (nearest tie) where
  log_neg x h := by
    show (if 0 < x then _ else if x = 0 then _ else _) = _
    rw [if_neg h.not_gt, if_neg h.ne]
  log_pinf := rfl
  log_ninf := rfl
  log_nan := rfl
  exp_pinf := rfl
  exp_nan := rfl

end Verif.Theory
