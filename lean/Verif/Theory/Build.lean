import Verif.Theory.Init
import Verif.Theory.LogDens

/-! Helper theory: the constructors of the model classes. -/

namespace Verif.Theory

open Verif.Model Verif.Spec
open scoped Classical

lemma foldl_min_spec (l : List ℝ) (a : ℝ) : IsLeast {x | x ∈ a :: l} (l.foldl min a) := by
  induction l generalizing a with
  | nil => constructor <;> simp [lowerBounds]
  | cons b l ih =>
    obtain ⟨h1, h2⟩ := ih (min a b)
    rw [List.foldl_cons]
    constructor
    · simp only [Set.mem_ofPred_eq, List.mem_cons] at h1 ⊢
      rcases h1 with h1 | h1
      · rcases min_choice a b with h | h
        · left; rw [h1, h]
        · right; left; rw [h1, h]
      · right; right; exact h1
    · intro x hx
      simp only [Set.mem_ofPred_eq, List.mem_cons] at hx
      have hm := h2 (show min a b ∈ {x | x ∈ min a b :: l} by simp)
      rcases hx with rfl | rfl | hx
      · exact hm.trans (min_le_left _ _)
      · exact hm.trans (min_le_right _ _)
      · exact h2 (by simp [hx])

lemma foldl_max_spec (l : List ℝ) (a : ℝ) : IsGreatest {x | x ∈ a :: l} (l.foldl max a) := by
  induction l generalizing a with
  | nil => constructor <;> simp [upperBounds]
  | cons b l ih =>
    obtain ⟨h1, h2⟩ := ih (max a b)
    rw [List.foldl_cons]
    constructor
    · simp only [Set.mem_ofPred_eq, List.mem_cons] at h1 ⊢
      rcases h1 with h1 | h1
      · rcases max_choice a b with h | h
        · left; rw [h1, h]
        · right; left; rw [h1, h]
      · right; right; exact h1
    · intro x hx
      simp only [Set.mem_ofPred_eq, List.mem_cons] at hx
      have hm := h2 (show max a b ∈ {x | x ∈ max a b :: l} by simp)
      rcases hx with rfl | rfl | hx
      · exact (le_max_left _ _).trans hm
      · exact (le_max_right _ _).trans hm
      · exact h2 (by simp [hx])

lemma armaMin_spec {l : List ℝ} (h : l ≠ []) : ∃ m, armaMin l = .ok m ∧ IsLeast {x | x ∈ l} m := by
  match l, h with
  | a :: l, _ => exact ⟨_, rfl, foldl_min_spec l a⟩

lemma armaMax_spec {l : List ℝ} (h : l ≠ []) : ∃ m, armaMax l = .ok m ∧ IsGreatest {x | x ∈ l} m := by
  match l, h with
  | a :: l, _ => exact ⟨_, rfl, foldl_max_spec l a⟩

lemma armaMedian_ge {l : List ℝ} (h : l ≠ []) : ∃ m, armaMedian l = .ok m ∧ ∀ d, (∀ x ∈ l, d ≤ x) → d ≤ m := by
  refine ⟨_, by rw [armaMedian, if_neg h], fun d hd => ?_⟩
  have hl : 0 < l.length := List.length_pos_iff.mpr h
  have hlen : (l.mergeSort fun a b => decide (a ≤ b)).length = l.length := List.length_mergeSort _
  have hmem : ∀ i < l.length, d ≤ (l.mergeSort fun a b => decide (a ≤ b)).getD i 0 := by
    intro i hi
    rw [List.getD_eq_getElem?_getD, List.getElem?_eq_getElem (by omega)]
    exact hd _ ((List.mergeSort_perm l _).mem_iff.mp (List.getElem_mem _))
  split_ifs
  · exact hmem _ (by omega)
  · have := hmem (l.length / 2 - 1) (by omega)
    have := hmem (l.length / 2) (by omega)
    linarith

lemma carBase_new {n : ℕ} (hn : 2 ≤ n) (t : ℕ → ℝ) (y e : List ℝ) :
    ∃ dmin tmax tmin, IsLeast {x | x ∈ (List.range (n-1)).map fun i => t (i+1) - t i} dmin ∧
      IsGreatest {x | x ∈ (List.range n).map t} tmax ∧ IsLeast {x | x ∈ (List.range n).map t} tmin ∧
      armaMin ((List.range (n-1)).map fun i => t (i+1) - t i) = .ok dmin ∧ armaMax ((List.range n).map t) = .ok tmax ∧
      armaMin ((List.range n).map t) = .ok tmin ∧
      CarBase.new ((List.range n).map t) y e = .ok
        { time := (List.range n).map t, y := y, yerr := e, maxStdev := 10 * √(armaVar y),
          maxFreq := Dbl.div (.fin 1) (.fin dmin), minFreq := Dbl.div (.fin 1) (.fin (tmax - tmin)), ignorePrior := false } := by
  have h1 : (List.range (n-1)).map (fun i => t (i+1) - t i) ≠ [] := by simp; omega
  have h2 : (List.range n).map t ≠ [] := by simp; omega
  obtain ⟨dmin, hd1, hd2⟩ := armaMin_spec h1
  obtain ⟨tmax, ht1, ht2⟩ := armaMax_spec h2
  obtain ⟨tmin, hs1, hs2⟩ := armaMin_spec h2
  refine ⟨dmin, tmax, tmin, hd2, ht2, hs2, hd1, ht1, hs1, ?_⟩
  simp only [CarBase.new, CarBase.setPrior, diffs_rangeMap hn, res_bind_ok, hd1, ht1, hs1, res_pure]

/-- extreme times and smallest difference of strictly increasing data -/
lemma strict_bounds {n : ℕ} (hn : 2 ≤ n) {t : ℕ → ℝ} (ht : ∀ i, i + 1 < n → t i < t (i+1)) {dmin tmax tmin : ℝ}
    (h1 : IsLeast {x | x ∈ (List.range (n-1)).map fun i => t (i+1) - t i} dmin)
    (h2 : IsGreatest {x | x ∈ (List.range n).map t} tmax) (h3 : IsLeast {x | x ∈ (List.range n).map t} tmin) :
    0 < dmin ∧ tmax = t (n-1) ∧ tmin = t 0 ∧ dmin ≤ tmax - tmin ∧ (3 ≤ n → dmin < tmax - tmin) ∧
      (n = 2 → dmin = tmax - tmin) := by
  have hle := fun {i j} (hij : j ≤ i) (hi : i < n) => le_of_step (t := t) (n := n) (fun i hi => (ht i hi).le) hij hi
  have hd0 : 0 < dmin := by
    obtain ⟨i, hi, h⟩ := List.mem_map.mp h1.1
    rw [← h]; have := ht i (by simp at hi; omega); linarith
  have hmax : tmax = t (n-1) := by
    refine le_antisymm ?_ (h2.2 (List.mem_map.mpr ⟨n-1, by simp; omega, rfl⟩))
    obtain ⟨i, hi, h⟩ := List.mem_map.mp h2.1
    rw [← h]; rw [List.mem_range] at hi; exact hle (by omega) (by omega)
  have hmin : tmin = t 0 := by
    refine le_antisymm (h3.2 (List.mem_map.mpr ⟨0, by simp; omega, rfl⟩)) ?_
    obtain ⟨i, hi, h⟩ := List.mem_map.mp h3.1
    rw [← h]; rw [List.mem_range] at hi; exact hle (by omega) (by omega)
  have hd1 : dmin ≤ t 1 - t 0 := h1.2 (List.mem_map.mpr ⟨0, by simp; omega, rfl⟩)
  refine ⟨hd0, hmax, hmin, ?_, fun h => ?_, fun h => ?_⟩
  · rw [hmax, hmin]; have := hle (i := n-1) (j := 1) (by omega) (by omega); linarith
  · rw [hmax, hmin]
    have h4 := ht 1 (by omega)
    have h5 := hle (i := n-1) (j := 2) (by omega) (by omega)
    norm_num at h4; linarith
  · subst h
    rw [hmax, hmin]
    refine le_antisymm hd1 ?_
    obtain ⟨i, hi, h⟩ := List.mem_map.mp h1.1
    have : i = 0 := by simpa using hi
    subst this; rw [← h]

/-- filter data built from arbitrary triples with at least two distinct times: sorted times, as many as there are distinct
input times -/
structure Sorted (n : ℕ) (t : ℕ → ℝ) (J : List ℕ) : Prop where
  lt : ∀ j ∈ J, j < n
  nodup : J.Nodup
  two : 2 ≤ J.length
  sorted : (J.map t).Pairwise (· < ·)
  all : ∀ i < n, t i ∈ J.map t

/-- `i`-th stored time -/
def nth (J : List ℕ) (t : ℕ → ℝ) : ℕ → ℝ := fun i => (J.map t).getD i 0

lemma nth_map (J : List ℕ) (t : ℕ → ℝ) : (List.range J.length).map (nth J t) = J.map t := by
  conv_rhs => rw [eq_rangeMap_getD (J.map t), List.length_map]
  rfl

lemma Sorted.incr {n : ℕ} {t : ℕ → ℝ} {J : List ℕ} (h : Sorted n t J) (i : ℕ) (hi : i + 1 < J.length) :
    nth J t i < nth J t (i+1) := by
  have := h.sorted
  rw [← nth_map] at this
  exact pairwise_range_map.mp this i (i+1) (by omega) hi

lemma Sorted.length_le {n : ℕ} {t : ℕ → ℝ} {J : List ℕ} (h : Sorted n t J) : J.length ≤ n := by
  have h1 : J.toFinset ⊆ Finset.range n := by intro j hj; simpa using h.lt j (by simpa using hj)
  have h2 := Finset.card_le_card h1
  rwa [List.toFinset_card_of_nodup h.nodup, Finset.card_range] at h2

/-- all points are kept iff the times are distinct -/
lemma Sorted.length_eq {n : ℕ} {t : ℕ → ℝ} {J : List ℕ} (h : Sorted n t J) :
    J.length = n ↔ Set.InjOn t (Set.Iio n) := by
  constructor
  · intro hl i hi j hj hij
    have h1 : J.toFinset = Finset.range n := by
      apply Finset.eq_of_subset_of_card_le
      · intro j hj; simpa using h.lt j (by simpa using hj)
      · rw [List.toFinset_card_of_nodup h.nodup, Finset.card_range, hl]
    have hm : ∀ k < n, k ∈ J := fun k hk => by
      have : k ∈ J.toFinset := by rw [h1]; simpa using hk
      simpa using this
    have hnd : (J.map t).Nodup := h.sorted.imp (fun h => ne_of_lt h)
    exact List.inj_on_of_nodup_map hnd (hm i hi) (hm j hj) hij
  · intro hinj
    apply le_antisymm h.length_le
    have h1 : Finset.range n ⊆ J.toFinset := by
      intro i hi
      rw [Finset.mem_range] at hi
      obtain ⟨j, hj, hji⟩ := List.mem_map.mp (h.all i hi)
      have := hinj (h.lt j hj) hi hji
      simpa [← this] using hj
    have h2 := Finset.card_le_card h1
    rwa [List.toFinset_card_of_nodup h.nodup, Finset.card_range] at h2

/-- data already strictly increasing are kept -/
lemma Sorted.range {n : ℕ} (hn : 2 ≤ n) {t : ℕ → ℝ} (ht : ∀ i, i + 1 < n → t i < t (i+1)) : Sorted n t (List.range n) where
  lt j hj := by simpa using hj
  nodup := List.nodup_range
  two := by simpa using hn
  sorted := pairwise_range_map.mpr fun i j hij hj =>
    lt_of_lt_of_le (ht i (by omega)) (le_of_step (t := t) (n := n) (fun i hi => (ht i hi).le) (by omega) hj)
  all i hi := List.mem_map_of_mem (by simpa using hi)

lemma nth_range {n : ℕ} (t : ℕ → ℝ) {i : ℕ} (hi : i < n) : nth (List.range n) t i = t i := by simp [nth, hi]

/-- filter members after `init()` kept the points `J` -/
def stored (J : List ℕ) (t y e : ℕ → ℝ) (σ2 : ℝ) : KFBase :=
  { KFBase.raw (J.map t) (J.map y) (J.map e) σ2 with
          dt := (List.range (J.length-1)).map fun i => (J.map t).getD (i+1) 0 - (J.map t).getD i 0
          mean := List.replicate J.length 0
          var := List.replicate J.length 0 }

lemma KOk.raw {J : List ℕ} {t : ℕ → ℝ} (y e : ℕ → ℝ) (σ2 : ℝ) :
    KOk (stored J t y e σ2) J.length (nth J t) where
  time_length := by simp [stored, KFBase.raw]
  dt_get {i} hi := by
    have := rangeMap_get (n := J.length - 1) (fun i => (J.map t).getD (i+1) 0 - (J.map t).getD i 0) (i := i) (by omega)
    exact this
  mean := by simp [stored]
  var := by simp [stored]

lemma car1_new {srt : List ℝ → List ℕ} {n : ℕ} (t y e : ℕ → ℝ)
    (hJ : ∃ J, Sorted n t J ∧ (KFBase.raw ((List.range n).map t) ((List.range n).map y) ((List.range n).map e) 0).init srt =
        .ok (stored J t y e 0)) {b : CarBase}
    (hb : CarBase.new ((List.range n).map t) ((List.range n).map y) ((List.range n).map e) = .ok b) :
    ∃ s J, Sorted n t J ∧ Car1.new srt ((List.range n).map t) ((List.range n).map y) ((List.range n).map e) = .ok s ∧
      Car1.Ok b J.length (nth J t) s := by
  obtain ⟨J, hJ, hi⟩ := hJ
  refine ⟨⟨b, ⟨stored J t y e 0, 0⟩⟩, J, hJ, ?_, ⟨rfl, KOk.raw y e 0⟩⟩
  simp only [Car1.new, hb, res_bind_ok, KF1.newData, KF1.new, hi, res_pure]

lemma init_any {srt : List ℝ → List ℕ} (hs : IsSortIndex srt) {n : ℕ} (hn : 2 ≤ n) (t y e : ℕ → ℝ) (σ2 : ℝ)
    (hne : ∃ i < n, ∃ j < n, t i ≠ t j) : ∃ J, Sorted n t J ∧
      (KFBase.raw ((List.range n).map t) ((List.range n).map y) ((List.range n).map e) σ2).init srt =
        .ok (stored J t y e σ2) := by
  obtain ⟨J, h1, h2, h3, h4, h5, h6⟩ := init_spec hs hn t y e σ2 hne
  exact ⟨J, ⟨h1, h2, h3, h4, h5⟩, h6⟩

/-- re-running `init()` on stored data changes nothing -/
lemma init_again {srt : List ℝ → List ℕ} {n : ℕ} {t : ℕ → ℝ} {J : List ℕ} (h : Sorted n t J) (y e : ℕ → ℝ) (σ2 : ℝ) :
    KFBase.init srt (stored J t y e σ2) = .ok (stored J t y e σ2) := by
  have := init_sorted srt (stored J t y e σ2) h.two (t := nth J t) (nth_map J t).symm h.incr
  rw [this]; rfl

/-- strictly increasing data: whatever the sort, they are stored as given -/
lemma init_strict (srt : List ℝ → List ℕ) {n : ℕ} (hn : 2 ≤ n) {t : ℕ → ℝ} (ht : ∀ i, i + 1 < n → t i < t (i+1))
    (y e : ℕ → ℝ) (σ2 : ℝ) : ∃ J, J = List.range n ∧ Sorted n t J ∧
      (KFBase.raw ((List.range n).map t) ((List.range n).map y) ((List.range n).map e) σ2).init srt =
        .ok (stored J t y e σ2) := by
  refine ⟨_, rfl, Sorted.range hn ht, ?_⟩
  rw [init_sorted srt _ hn rfl ht]
  rw [stored]
  congr 2
  · simp
  · simp
  · simp only [List.length_range]
    apply List.map_congr_left
    intro i hi
    rw [List.mem_range] at hi
    simp [show i + 1 < n by omega, show i < n by omega]

section carp
variable {p : ℕ}

lemma zMA_total (hp : 0 < p) (d : ℝ) : ∃ ma, zMA p (Dbl.div (.fin 1) (.fin d)) = .ok ma ∧ ma.length = p := by
  by_cases hd : d = 0
  · subst hd
    have : Dbl.div (.fin 1) (.fin 0) = .pinf := by simp [Dbl.div, Dbl.infTimes]
    rw [this]
    simp [zMA, hp.ne']
  · have : (1:ℝ) / d ≠ 0 := by simp [hd]
    simp only [zMA, hp.ne', if_false, Dbl.div, if_neg hd, this, false_and]
    exact ⟨_, rfl, by simp⟩

/-- the moving-average coefficients of a pure autoregression -/
def carMA (p : ℕ) : List ℝ := 1 :: List.replicate (p - 1) 0

structure CarP.Built (kind : Kind) (b : CarBase) (s : CarP p) : Prop where
  base : s.b = b
  kind : s.kind = kind
  ma : s.maCoefs = carMA p
  lor : s.orderLor = true

lemma carp_new {srt : List ℝ → List ℕ} (hp : 0 < p) {n : ℕ} (hn : 2 ≤ n) (t y e : ℕ → ℝ)
    (hJ : ∃ J, Sorted n t J ∧ (KFBase.raw ((List.range n).map t) ((List.range n).map y) ((List.range n).map e) 0).init srt =
        .ok (stored J t y e 0)) {b : CarBase}
    (hb : CarBase.new ((List.range n).map t) ((List.range n).map y) ((List.range n).map e) = .ok b) (kind : Kind) :
    ∃ s J, Sorted n t J ∧ CarP.new kind p srt ((List.range n).map t) ((List.range n).map y) ((List.range n).map e) = .ok s ∧
      CarP.Ok s J.length (nth J t) s ∧ CarP.Built kind b s ∧ (kind = .zcarma → ∃ dmin tmax tmin med,
        armaMin ((List.range (n-1)).map fun i => t (i+1) - t i) = .ok dmin ∧ armaMax ((List.range n).map t) = .ok tmax ∧
        armaMin ((List.range n).map t) = .ok tmin ∧
        armaMedian ((List.range (n-1)).map fun i => t (i+1) - t i) = .ok med ∧
        (∀ d, (∀ x ∈ (List.range (n-1)).map fun i => t (i+1) - t i, d ≤ x) → d ≤ med) ∧
        s.kappaHigh = Dbl.div (.fin 1) (.fin dmin) ∧
        s.kappaLow = Dbl.max (Dbl.div (.fin 1) (.fin (tmax - tmin))) (Dbl.div (.fin 1) (.fin (10 * med)))) := by
  obtain ⟨J, hJ, hi⟩ := hJ
  obtain ⟨dmin, tmax, tmin, -, -, -, ha1, ha2, ha3, -⟩ := carBase_new hn t ((List.range n).map y) ((List.range n).map e)
  obtain ⟨med, hm1, hm2⟩ := armaMedian_ge (l := (List.range (n-1)).map fun i => t (i+1) - t i) (by simp; omega)
  obtain ⟨zm, hz, -⟩ := zMA_total hp dmin
  have hi2 := init_again (srt := srt) hJ y e 0
  have h1 : CarP.newCarp p srt ((List.range n).map t) ((List.range n).map y) ((List.range n).map e) = .ok
      { b := b, kf := ({ KFp.zeroed p (stored J t y e 0) (fun _ => 0) [] 0 with pset := false } : KFp p).setMA (carMA p),
        kind := .carp, maCoefs := carMA p, orderLor := true, zma := [], kappaLow := .nan, kappaHigh := .nan } := by
    simp only [CarP.newCarp, hb, res_bind_ok, KFp.newData, hi, hi2, res_pure, hp.ne', if_false, carMA]
  have hK : KOk (stored J t y e 0) J.length (nth J t) := KOk.raw y e 0
  set s1 : CarP p := { b := b, kf := ({ KFp.zeroed p (stored J t y e 0) (fun _ => 0) [] 0 with pset := false } : KFp p).setMA (carMA p), kind := .carp, maCoefs := carMA p, orderLor := true, zma := [], kappaLow := .nan, kappaHigh := .nan } with hs1
  cases kind with
  | carp =>
    exact ⟨s1, J, hJ, h1, ⟨rfl, hK⟩, ⟨rfl, rfl, rfl, rfl⟩, nofun⟩
  | zcar =>
    refine ⟨{ s1 with kind := .zcar, zma := zm, kf := s1.kf.setMA zm }, J, hJ, ?_, ⟨rfl, hK⟩, ⟨rfl, rfl, rfl, rfl⟩, nofun⟩
    simp only [CarP.new, CarP.newZcar, h1, res_bind_ok, diffs_rangeMap hn, ha1, hz, res_pure]
  | carma q =>
    refine ⟨{ s1 with kind := .carma q }, J, hJ, ?_, ⟨rfl, hK⟩, ⟨rfl, rfl, rfl, rfl⟩, nofun⟩
    simp only [CarP.new, CarP.newCarma, h1, res_bind_ok, res_pure]
  | zcarma =>
    refine ⟨{ s1 with kind := .zcarma, kappaHigh := Dbl.div (.fin 1) (.fin dmin), kappaLow := Dbl.max (Dbl.div (.fin 1)
      (.fin (tmax - tmin))) (Dbl.div (.fin 1) (.fin (10 * med))) }, J, hJ, ?_, ⟨rfl, hK⟩, ⟨rfl, rfl, rfl, rfl⟩,
      fun _ => ⟨dmin, tmax, tmin, med, ha1, ha2, ha3, hm1, hm2, rfl, rfl⟩⟩
    simp only [CarP.new, CarP.newZcarma, h1, res_bind_ok, diffs_rangeMap hn, ha1, ha2, ha3, hm1, res_pure]

/-- what is needed to extract moving-average coefficients from `theta` -/
def CarP.MaOk (s : CarP p) (θ : List ℝ) : Prop :=
  match s.kind with
  | .carp => s.maCoefs = carMA p
  | .zcar => s.maCoefs = carMA p
  | .carma q => q < p ∧ p + q + 3 ≤ θ.length
  | .zcarma => p + 4 ≤ θ.length ∧ ∃ lo hi : ℝ, s.kappaLow = .fin lo ∧ s.kappaHigh = .fin hi ∧ 0 < lo ∧ lo ≤ hi

lemma head_ne {ma : List ℝ} (h : ma[0]? = some 1) : ∃ x ∈ ma, x ≠ 0 :=
  ⟨1, List.mem_of_getElem? h, one_ne_zero⟩

lemma CarP.MaOk.extract {s : CarP p} {θ : List ℝ} (hp : 0 < p) (h : CarP.MaOk s θ) :
    ∃ ma, s.extractMA θ = .ok ma ∧ ma.length = p ∧ ma[0]? = some 1 := by
  unfold CarP.MaOk at h
  unfold CarP.extractMA
  cases hk : s.kind with
  | carp => rw [hk] at h; exact ⟨_, rfl, by rw [h, carMA]; simp; omega, by rw [h]; rfl⟩
  | zcar => rw [hk] at h; exact ⟨_, rfl, by rw [h, carMA]; simp; omega, by rw [h]; rfl⟩
  | carma q =>
    rw [hk] at h
    have h0 : 0 < (factorPoly (at0 θ) (p + 3) q).coeff 0 := factorPoly_pos (at0 θ) (p + 3) q 0 (Nat.zero_le _)
    have hspec := carmaMA_spec h.1 θ (by omega)
    rw [add_comm 3 p] at hspec
    refine ⟨_, hspec, by simp, ?_⟩
    rw [rangeMap_get _ (by omega), div_self h0.ne']
  | zcarma =>
    rw [hk] at h
    obtain ⟨hl, lo, hi, e1, e2, h1, h2⟩ := h
    have h3 : 0 < invLogit (at0 θ (3 + p)) := by rw [invLogit]; positivity
    simp only [CarP.zcarmaMA, rd_at0 (show 3 + p < θ.length by omega), res_bind_ok, e1, e2]
    have h5 : (((Dbl.fin hi).sub (.fin lo)).mul (.fin (invLogit (at0 θ (3 + p))))).add (.fin lo)
        = .fin ((hi - lo) * invLogit (at0 θ (3 + p)) + lo) := by
      simp [Dbl.sub, Dbl.neg, Dbl.add, Dbl.mul, sub_eq_add_neg]
    have h6 : 0 < (hi - lo) * invLogit (at0 θ (3 + p)) + lo := by nlinarith
    rw [h5, zMA_fin hp h6.ne']
    refine ⟨_, rfl, by simp, ?_⟩
    rw [rangeMap_get _ hp]; simp

end carp

end Verif.Theory
