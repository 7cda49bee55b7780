import Verif.Theory.Realize

/-! Helper theory: the conditional law does not depend on the order of the observations; `Simulate`. -/

namespace Verif.Theory

open Verif.Model Verif.Spec Finset Matrix

lemma perm_equiv {α : Type} {l l' : List α} (h : l.Perm l') :
    ∃ σ : Fin l.length ≃ Fin l'.length, ∀ i, l'.get (σ i) = l.get i := by
  induction h with
  | nil => exact ⟨Equiv.refl _, fun i => i.elim0⟩
  | @cons a l l' _ ih =>
    obtain ⟨σ, hσ⟩ := ih
    refine ⟨((finSuccEquiv _).trans (Equiv.optionCongr σ)).trans (finSuccEquiv _).symm, fun i => ?_⟩
    refine Fin.cases ?_ (fun i => ?_) i
    · rfl
    · simpa using hσ i
  | swap a b l =>
    refine ⟨Equiv.swap 0 1, fun i => ?_⟩
    refine Fin.cases ?_ (fun i => ?_) i
    · rfl
    · refine Fin.cases ?_ (fun i => ?_) i
      · rfl
      · rw [Equiv.swap_apply_of_ne_of_ne]
        · rfl
        · simp [Fin.ext_iff]
        · simp [Fin.ext_iff]
  | trans _ _ ih1 ih2 =>
    obtain ⟨σ, hσ⟩ := ih1
    obtain ⟨σ', hσ'⟩ := ih2
    exact ⟨σ.trans σ', fun i => by simp only [Equiv.trans_apply, hσ', hσ]⟩

lemma cond_reindex {n m : ℕ} (σ : Fin n ≃ Fin m) (K : Matrix (Fin m) (Fin m) ℝ) (k y : Fin m → ℝ) :
    (k ∘ σ) ⬝ᵥ ((K.submatrix σ σ)⁻¹ *ᵥ (y ∘ σ)) = k ⬝ᵥ (K⁻¹ *ᵥ y) := by
  rw [Matrix.inv_submatrix_equiv]
  have : (K⁻¹.submatrix σ σ) *ᵥ (y ∘ σ) = (K⁻¹ *ᵥ y) ∘ σ := by
    rw [Matrix.submatrix_mulVec_equiv]
    congr 1
    simp [Function.comp_assoc]
  rw [this]
  simp only [dotProduct, Function.comp]
  exact Equiv.sum_comp σ (fun i => k i * (K⁻¹ *ᵥ y) i)

lemma pred_reindex {n m : ℕ} (σ : Fin n ≃ Fin m) (r : ℝ → ℝ) (t e y : Fin m → ℝ) (x : ℝ) :
    predMean r (t ∘ σ) (e ∘ σ) (y ∘ σ) x = predMean r t e y x ∧
    predVar r (t ∘ σ) (e ∘ σ) x = predVar r t e x := by
  have hK : obsCov r (t ∘ σ) (e ∘ σ) = (obsCov r t e).submatrix σ σ := by
    ext i j; simp [obsCov]
  have hk : (fun j => r |x - (t ∘ σ) j|) = (fun j => r |x - t j|) ∘ σ := rfl
  constructor
  · rw [predMean, condMean, hK, hk, cond_reindex]; rfl
  · rw [predVar, condVar, hK, hk, cond_reindex]; rfl

lemma predL_perm {l l' : List Obs} (h : l.Perm l') (r : ℝ → ℝ) (x : ℝ) :
    predMeanL r l x = predMeanL r l' x ∧ predVarL r l x = predVarL r l' x := by
  obtain ⟨σ, hσ⟩ := perm_equiv h
  have := pred_reindex σ r (fun i => (l'.get i).time) (fun i => (l'.get i).err) (fun i => (l'.get i).val) x
  simp only [Function.comp_def, hσ] at this
  exact this

lemma simSpec_perm {l l' : List Obs} (h : l.Perm l') (r : ℝ → ℝ) (ts : List ℝ) (z : ℕ → ℝ) :
    simSpec r l ts z = simSpec r l' ts z := by
  induction ts generalizing l l' z with
  | nil => rfl
  | cons t ts ih =>
    obtain ⟨h1, h2⟩ := predL_perm h r t
    simp only [simSpec, h1, h2]
    rw [ih (List.Perm.append_right _ h)]

/-- the first `n` observations as a list -/
def obsList (n : ℕ) (t y e : ℕ → ℝ) : List Obs := (List.range n).map fun i => ⟨t i, y i, e i⟩

lemma obsList_ins {n p : ℕ} (hp : p ≤ n) (x v d : ℝ) (t y e : ℕ → ℝ) :
    (obsList (n+1) (ins p x t) (ins p v y) (ins p d e)).Perm (obsList n t y e ++ [⟨x, v, d⟩]) := by
  have h1 : obsList (n+1) (ins p x t) (ins p v y) (ins p d e) = (obsList n t y e).insertIdx p ⟨x, v, d⟩ := by
    rw [obsList, obsList, rangeMap_insertIdx hp]
    apply List.map_congr_left
    intro i _
    rcases lt_trichotomy i p with h | h | h
    · rw [ins_lt _ _ h, ins_lt _ _ h, ins_lt _ _ h, ins_lt _ _ h]
    · subst h; simp
    · obtain ⟨j, rfl⟩ : ∃ j, i = j + 1 := ⟨i - 1, by omega⟩
      rw [ins_gt _ _ (by omega), ins_gt _ _ (by omega), ins_gt _ _ (by omega), ins_gt _ _ (by omega)]
  rw [h1]
  refine (List.perm_insertIdx _ _ (by simpa [obsList] using hp)).trans ?_
  exact (List.perm_append_singleton _ _).symm

lemma predMeanL_obsList (r : ℝ → ℝ) (n : ℕ) (t y e : ℕ → ℝ) (x : ℝ) :
    predMeanL r (obsList n t y e) x = predMean r (fst n t) (fst n e) (fst n y) x ∧
    predVarL r (obsList n t y e) x = predVar r (fst n t) (fst n e) x := by
  have hl : (obsList n t y e).length = n := by simp [obsList]
  have hget : ∀ i : Fin (obsList n t y e).length, (obsList n t y e).get i = ⟨t i, y i, e i⟩ := by
    intro i
    rw [List.get_eq_getElem]
    simp only [obsList, List.getElem_map, List.getElem_range]
  have := pred_reindex (finCongr hl) r (fst n t) (fst n e) (fst n y) x
  rw [← this.1, ← this.2]
  simp only [predMeanL, predVarL]
  constructor
  · congr 1 <;> (funext i; rw [hget]; rfl)
  · congr 1 <;> (funext i; rw [hget]; rfl)

lemma obsList_ext0 {n : ℕ} (t y e : Fin n → ℝ) :
    obsList n (ext0 t) (ext0 y) (ext0 e) = List.ofFn fun i => (⟨t i, y i, e i⟩ : Obs) := by
  apply List.ext_getElem
  · simp [obsList]
  · intro i h1 h2
    have : i < n := by simpa [obsList] using h1
    simp [obsList, ext0_of_lt _ this]

variable {σ : Type} [Kalman σ] {r : ℝ → ℝ} {I : σ → ℕ → (ℕ → ℝ) → (ℕ → ℝ) → (ℕ → ℝ) → Prop}

namespace Exact

/-- one step of the simulation loop -/
lemma simStep (E : Exact r I) {s : σ} {n : ℕ} {t y e : ℕ → ℝ} (hI : I s n t y e) (hn : 0 < n) (ht : Incr n t e)
    (x z : ℝ) (hx : ∀ i < n, t i = x → e i ≠ 0) :
    ∃ s' p, p ≤ n ∧ (∀ i < p, t i < x) ∧ (p < n → x ≤ t p) ∧
      let v := predMeanL r (obsList n t y e) x + Real.sqrt (predVarL r (obsList n t y e) x) * z
      Kalman.simStep s x z = .ok (s', v) ∧
      I s' (n+1) (ins p x t) (ins p v y) (ins p 0 e) ∧ (Kalman.base s').sigsqr = (Kalman.base s).sigsqr := by
  obtain ⟨s1, h1, hI1, hsig⟩ := E.predict x hI hn ht hx
  have hpos := E.predVar_pos x hI hn ht hx
  have H := E.holds hI1
  obtain ⟨p, hf, hp, hlt, hge⟩ := H.scan hn x
  obtain ⟨hm, hvv⟩ := predMeanL_obsList r n t y e x
  set v := predMeanL r (obsList n t y e) x + Real.sqrt (predVarL r (obsList n t y e) x) * z with hv
  have hvd : drawNormal (predMean r (fst n t) (fst n e) (fst n y) x) (predVar r (fst n t) (fst n e) x) z = .ok v := by
    rw [drawNormal, if_neg (not_lt.mpr hpos.le), hv, hm, hvv]
  have hins : ∀ (l : List ℝ) (f : ℕ → ℝ) (a : ℝ), l = (List.range n).map f →
      insertRow l p a = .ok ((List.range (n+1)).map (ins p a f)) := by
    intro l f a hl
    rw [insertRow, if_pos (by rw [hl]; simpa using hp), hl, rangeMap_insertIdx hp]
  have hb' : Holds { Kalman.base s1 with
      time := (List.range (n+1)).map (ins p x t),
      dt := (List.range (n+1-1)).map (fun i => ins p x t (i+1) - ins p x t i),
      y := (List.range (n+1)).map (ins p v y), yerr := (List.range (n+1)).map (ins p 0 e),
      mean := List.replicate ((List.range (n+1)).map (ins p x t)).length 0,
      var := List.replicate ((List.range (n+1)).map (ins p x t)).length 0 }
      (n+1) (ins p x t) (ins p v y) (ins p 0 e) := by
    constructor <;> simp
  have hI2 := E.setBase hI1 hb' rfl
  refine ⟨_, p, hp, hlt, hge, ?_, hI2, ?_⟩
  · simp only [Kalman.simStep, h1, res_bind_ok, hvd, hf, hins _ _ _ H.time, hins _ _ _ H.y, hins _ _ _ H.yerr,
      diffs_rangeMap (by omega : 2 ≤ n + 1), res_pure]
  · rw [E.base_set]; exact hsig

lemma simLoop (E : Exact r I) (ts : List ℝ) : ∀ {s : σ} {n : ℕ} {t y e : ℕ → ℝ} (_ : I s n t y e) (_ : 0 < n)
    (_ : Incr n t e) (zs : ℕ → ℝ) (_ : ts.Nodup) (_ : ∀ x ∈ ts, ∀ i < n, t i = x → e i ≠ 0),
    ∃ s' n' t' y' e', Kalman.simLoop s ts zs = .ok (s', simSpec r (obsList n t y e) ts zs) ∧ I s' n' t' y' e' ∧
      (Kalman.base s').sigsqr = (Kalman.base s).sigsqr := by
  induction ts with
  | nil => intro s n t y e hI _ _ zs _ _; exact ⟨s, n, t, y, e, rfl, hI, rfl⟩
  | cons x ts ih =>
    intro s n t y e hI hn ht zs hnd hx
    obtain ⟨s1, p, hp, hlt, hge, h1, hI1, hs1⟩ := E.simStep hI hn ht x (zs 0) (hx x (by simp))
    set v := predMeanL r (obsList n t y e) x + Real.sqrt (predVarL r (obsList n t y e) x) * zs 0 with hv
    have ht1 : Incr (n+1) (ins p x t) (ins p 0 e) := ins_incr ht hp hlt hge (hx x (by simp))
    obtain ⟨s2, n', t', y', e', h2, hI2, hs2⟩ := ih hI1 (by omega) ht1 (fun k => zs (k+1)) hnd.of_cons (by
      intro x' hx' i hi heq
      rcases lt_trichotomy i p with h | h | h
      · rw [ins_lt _ _ h] at heq ⊢
        exact hx x' (by simp [hx']) i (by omega) heq
      · subst h
        rw [ins_self] at heq
        subst heq
        simp at hnd; exact absurd hx' hnd.1
      · obtain ⟨j, rfl⟩ : ∃ j, i = j + 1 := ⟨i - 1, by omega⟩
        rw [ins_gt _ _ (by omega)] at heq ⊢
        exact hx x' (by simp [hx']) j (by omega) heq)
    refine ⟨s2, n', t', y', e', ?_, hI2, hs2.trans hs1⟩
    simp only [Kalman.simLoop, h1, res_bind_ok, h2, res_pure, simSpec]
    rw [← hv, simSpec_perm (obsList_ins hp x v 0 t y e)]

/-- `Simulate` -/
theorem simulate (E : Exact r I) {s : σ} {n : ℕ} {t y e : ℕ → ℝ} (hI : I s n t y e) (hn : 2 ≤ n) (ht : Incr n t e)
    (ts : List ℝ) (zs : ℕ → ℝ) (hnd : ts.Nodup) (hx : ∀ x ∈ ts, ∀ i < n, t i = x → e i ≠ 0) :
    ∃ s', Kalman.simulate s ts zs
        = .ok (s', simSpec r (obsList n t y e) (ts.mergeSort fun a b => decide (a ≤ b)) zs) ∧
      I s' n t y e ∧ (Kalman.base s').sigsqr = (Kalman.base s).sigsqr := by
  have hperm := List.mergeSort_perm ts (fun a b => decide (a ≤ b))
  have H := E.holds hI
  obtain ⟨s1, n', t', y', e', h1, hI1, hs1⟩ := E.simLoop (ts.mergeSort fun a b => decide (a ≤ b)) hI (by omega) ht zs
    (hperm.nodup_iff.mpr hnd) (fun x hxm => hx x (hperm.mem_iff.mp hxm))
  have hb' : Holds { Kalman.base s1 with
      time := (Kalman.base s).time,
      dt := (List.range (n-1)).map (fun i => t (i+1) - t i),
      y := (Kalman.base s).y, yerr := (Kalman.base s).yerr,
      mean := List.replicate (Kalman.base s).time.length 0,
      var := List.replicate (Kalman.base s).time.length 0 } n t y e := by
    refine ⟨H.time, rfl, H.y, H.yerr, ?_, ?_⟩ <;> simp [H.time_length]
  refine ⟨_, ?_, E.setBase hI1 hb' rfl, ?_⟩
  · simp only [Kalman.simulate, h1, res_bind_ok]
    rw [H.time, diffs_rangeMap hn]
    simp only [res_bind_ok, res_pure, ← H.time]
  · rw [E.base_set]; exact hs1

end Exact
end Verif.Theory
