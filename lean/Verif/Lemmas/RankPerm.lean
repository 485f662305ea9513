import Verif.Spec.RankPerm
import Mathlib.Data.List.Basic
import Mathlib.Data.List.Perm.Subperm
import Mathlib.Data.List.Range
import Mathlib.Data.List.Nodup
import Mathlib.Tactic.Common
/-! Auxiliary facts about the relabelling heuristic. -/
namespace ExtMpi.RankPerm
open ExtMpi.Schedule

theorem partition_perm (ks : List Nat) (hk : ks.Nodup) (l : List Entry) (h : ∀ e, e ∈ l → e.color ∈ ks) :
    (ks.flatMap fun c => l.filter fun e => e.color == c).Perm l := by
  induction ks generalizing l with
  | nil =>
    cases l with
    | nil => simp
    | cons e l => exact absurd (h e List.mem_cons_self) (by simp)
  | cons k ks ih =>
    obtain ⟨h1, h2⟩ := List.nodup_cons.1 hk
    have h3 := ih h2 (l.filter fun e => !(e.color == k)) (by
      intro e he
      obtain ⟨he1, he2⟩ := List.mem_filter.1 he
      have := h e he1
      simp only [List.mem_cons] at this
      rcases this with h | h
      · simp [h] at he2
      · exact h)
    have h4 : (ks.flatMap fun c => (l.filter fun e => !(e.color == k)).filter fun e => e.color == c) =
        ks.flatMap fun c => l.filter fun e => e.color == c := by
      apply List.flatMap_congr
      intro c hc
      rw [List.filter_filter]
      apply List.filter_congr
      intro e _
      by_cases hec : e.color = c
      · have : ¬ c = k := fun h => h1 (h ▸ hc)
        simp [hec, this]
      · simp [hec]
    rw [h4] at h3
    rw [List.flatMap_cons]
    exact (List.Perm.append_left _ h3).trans (List.filter_append_perm _ l)

theorem perm_range_of (l : List Nat) (n : Nat) (h1 : l.Nodup) (h2 : ∀ x, x ∈ l → x < n) (h3 : n ≤ l.length) :
    l.Perm (List.range n) :=
  (List.subperm_of_subset h1 (fun x hx => List.mem_range.2 (h2 x hx))).perm_of_length_le (by simpa using h3)

theorem picks_even (nc : Nat) (h : nc % 2 = 0) : (picks nc).Perm (List.range nc) := by
  unfold picks
  rw [if_pos h]
  apply perm_range_of
  · apply List.Nodup.map_on _ List.nodup_range
    intro x hx y hy he
    have := List.mem_range.1 hx
    have := List.mem_range.1 hy
    split at he <;> split at he <;> omega
  · intro x hx
    obtain ⟨i, hi, rfl⟩ := List.mem_map.1 hx
    have := List.mem_range.1 hi
    split <;> omega
  · simp

theorem picks_odd (nc : Nat) (h : nc % 2 = 1) : (0 :: picks nc).Perm (List.range nc) := by
  unfold picks
  rw [if_neg (by omega)]
  apply perm_range_of
  · rw [List.nodup_cons]
    constructor
    · intro hm
      obtain ⟨i, hi, he⟩ := List.mem_map.1 hm
      have := List.mem_range.1 hi
      split at he <;> omega
    · apply List.Nodup.map_on _ List.nodup_range
      intro x hx y hy he
      have := List.mem_range.1 hx
      have := List.mem_range.1 hy
      split at he <;> split at he <;> omega
  · intro x hx
    rcases List.mem_cons.1 hx with rfl | hx
    · omega
    · obtain ⟨i, hi, rfl⟩ := List.mem_map.1 hx
      have := List.mem_range.1 hi
      split <;> omega
  · simp; omega

theorem mapM_get {α : Type} (arr : List α) (is : List Nat) (h : ∀ i, i ∈ is → i < arr.length) :
    ∃ ks, (is.mapM fun i => arr[i]?) = some ks ∧ ks.map some = is.map fun i => arr[i]? := by
  induction is with
  | nil => exact ⟨[], rfl, rfl⟩
  | cons i is ih =>
    obtain ⟨ks, h1, h2⟩ := ih fun j hj => h j (List.mem_cons_of_mem _ hj)
    have hi := h i List.mem_cons_self
    refine ⟨arr[i] :: ks, ?_, ?_⟩
    · rw [List.mapM_cons, h1, List.getElem?_eq_getElem hi]
      rfl
    · rw [List.map_cons, List.map_cons, h2, List.getElem?_eq_getElem hi]

theorem map_get_range {α : Type} (arr : List α) :
    ((List.range arr.length).map fun i => arr[i]?) = arr.map some := by
  apply List.ext_getElem?
  intro i
  rw [List.getElem?_map, List.getElem?_map]
  by_cases h : i < arr.length
  · simp [h]
  · simp [h]

theorem perm_of_map_some {α : Type} {a b : List α} (h : (a.map some).Perm (b.map some)) : a.Perm b := by
  have := h.filterMap id
  simpa [List.filterMap_map] using this

theorem zipIdx_flatMap {α β : Type} (l : List α) (f : α → List β) (k : Nat) :
    (l.zipIdx k).flatMap (fun x => f x.1) = l.flatMap f := by
  induction l generalizing k with
  | nil => rfl
  | cons a l ih => rw [List.zipIdx_cons, List.flatMap_cons, List.flatMap_cons, ih]

theorem map_key_ofColor (l : List Entry) (c d : Nat) :
    (ofColor l c d).map Entry.key = (l.filter fun e => e.color == c).map Entry.key := by
  unfold ofColor
  rw [List.map_map]
  rfl

/-- Invariant of the rounds. -/
structure Inv (sizes : List Int) (nc : Nat) (l : List Entry) : Prop where
  keys : (l.map Entry.key).Perm (List.range sizes.length)
  colors : ∀ e, e ∈ l → e.color < nc
  used : ∀ c, c < nc → ∃ e, e ∈ l ∧ e.color = c
  values : ∀ e, e ∈ l → e.value ∈ sizes

theorem inv_initial (sizes : List Int) : Inv sizes sizes.length (initial sizes) where
  keys := by
    unfold initial
    rw [List.map_map]
    have : (Entry.key ∘ fun x : Int × Nat => (⟨x.1, x.2, x.2⟩ : Entry)) = Prod.snd := rfl
    rw [this, List.zipIdx_map_snd, List.range_eq_range']
  colors := by
    intro e he
    obtain ⟨x, hx, rfl⟩ := List.mem_map.1 he
    have := List.snd_lt_of_mem_zipIdx hx
    simpa using this
  used := by
    intro c hc
    refine ⟨⟨sizes[c], c, c⟩, List.mem_map.2 ⟨(sizes[c], c), ?_, rfl⟩, rfl⟩
    rw [List.mem_zipIdx_iff_getElem?]
    simp [hc]
  values := by
    intro e he
    obtain ⟨x, hx, rfl⟩ := List.mem_map.1 he
    rw [List.mem_zipIdx_iff_getElem?] at hx
    exact List.mem_of_getElem? hx

theorem sums_length (nc : Nat) (l : List Entry) : (sums nc l).length = nc := by simp [sums]

theorem sums_keys (nc : Nat) (l : List Entry) : (sums nc l).map Prod.snd = List.range nc := by
  unfold sums
  rw [List.map_map]
  exact List.map_id _

theorem flatMap_zip_keys (l : List Entry) (ks : List Sum) (g : Nat → Nat) :
    (ks.zipIdx.flatMap fun x => ofColor l x.1.2 (g x.2)).map Entry.key =
      ((ks.map Prod.snd).flatMap fun c => l.filter fun e => e.color == c).map Entry.key := by
  rw [List.map_flatMap, List.map_flatMap]
  simp only [map_key_ofColor]
  rw [zipIdx_flatMap ks fun x => ((l.filter fun e => e.color == x.2).map Entry.key), List.flatMap_map]

theorem mem_ofColor (l : List Entry) (c d : Nat) (e : Entry) (he : e ∈ l) (hc : e.color = c) :
    { e with color := d } ∈ ofColor l c d := by
  unfold ofColor
  exact List.mem_map.2 ⟨e, List.mem_filter.2 ⟨he, by simp [hc]⟩, rfl⟩

theorem of_mem_ofColor (l : List Entry) (c d : Nat) (x : Entry) (h : x ∈ ofColor l c d) :
    x.color = d ∧ ∃ e, e ∈ l ∧ x.value = e.value := by
  unfold ofColor at h
  obtain ⟨e, he, rfl⟩ := List.mem_map.1 h
  exact ⟨rfl, e, (List.mem_filter.1 he).1, rfl⟩

theorem regroup_inv (sizes : List Int) (nc : Nat) (l : List Entry) (arr : List Sum) (h : Inv sizes nc l)
    (ha : (arr.map Prod.snd).Perm (List.range nc)) (h0 : nc % 2 = 1 → ∃ v t, arr = (v, 0) :: t) :
    ∃ l', regroup nc arr l = some l' ∧ l'.length = l.length ∧ Inv sizes ((nc + 1) / 2) l' := by
  have hlen : arr.length = nc := by simpa using ha.length_eq
  have hpl : (picks nc).length = if nc % 2 = 0 then nc else nc - 1 := by
    unfold picks
    split <;> simp
  have hbound : ∀ i, i ∈ picks nc → i < arr.length := by
    intro i hi
    rcases Nat.mod_two_eq_zero_or_one nc with he | ho
    · have := (picks_even nc he).mem_iff.1 hi
      rw [hlen]; exact List.mem_range.1 this
    · have := (picks_odd nc ho).mem_iff.1 (List.mem_cons_of_mem _ hi)
      rw [hlen]; exact List.mem_range.1 this
  obtain ⟨ks, hk1, hk2⟩ := mapM_get arr (picks nc) hbound
  have hkl : ks.length = (picks nc).length := by
    have := congrArg List.length hk2
    simpa using this
  rcases Nat.mod_two_eq_zero_or_one nc with he | ho
  · -- even
    have hkarr : ks.Perm arr := by
      apply perm_of_map_some
      rw [hk2, ← map_get_range, hlen]
      exact (picks_even nc he).map _
    have hkk : (ks.map Prod.snd).Perm (List.range nc) := (hkarr.map _).trans ha
    refine ⟨ks.zipIdx.flatMap fun x => ofColor l x.1.2 (x.2 / 2), ?_, ?_⟩
    · unfold regroup
      rw [hk1]
      simp only [Option.map_some, if_pos he]
    have hkeys : ((ks.zipIdx.flatMap fun x => ofColor l x.1.2 (x.2 / 2)).map Entry.key).Perm (l.map Entry.key) := by
      rw [flatMap_zip_keys l ks fun i => i / 2]
      apply List.Perm.map
      apply partition_perm _ (hkk.nodup_iff.2 List.nodup_range)
      intro e he
      exact hkk.mem_iff.2 (List.mem_range.2 (h.colors e he))
    refine ⟨by simpa using hkeys.length_eq, ?_, ?_, ?_, ?_⟩
    · exact hkeys.trans h.keys
    · intro e hm
      obtain ⟨x, hx, hm⟩ := List.mem_flatMap.1 hm
      have h1 := List.snd_lt_of_mem_zipIdx hx
      rw [(of_mem_ofColor _ _ _ _ hm).1]
      rw [hkl, hpl, if_pos he] at h1
      omega
    · intro c hc
      have hi : 2 * c < ks.length := by rw [hkl, hpl, if_pos he]; omega
      have hm : ks[2 * c].2 ∈ ks.map Prod.snd := List.mem_map.2 ⟨_, List.getElem_mem hi, rfl⟩
      obtain ⟨e, he1, he2⟩ := h.used _ (List.mem_range.1 (hkk.mem_iff.1 hm))
      refine ⟨{ e with color := c }, List.mem_flatMap.2 ⟨(ks[2 * c], 2 * c), ?_, ?_⟩, rfl⟩
      · rw [List.mem_zipIdx_iff_getElem?]; simp [hi]
      · have := mem_ofColor l ks[2 * c].2 (2 * c / 2) e he1 he2
        rwa [show 2 * c / 2 = c by omega] at this ⊢
    · intro e hm
      obtain ⟨x, hx, hm⟩ := List.mem_flatMap.1 hm
      obtain ⟨_, e', h1, h2⟩ := of_mem_ofColor _ _ _ _ hm
      rw [h2]; exact h.values e' h1
  · -- odd
    obtain ⟨v, t, rfl⟩ := h0 ho
    have hkarr : (((v, 0) :: ks : List Sum)).Perm ((v, 0) :: t) := by
      apply perm_of_map_some
      rw [List.map_cons, hk2, ← map_get_range, hlen]
      exact (picks_odd nc ho).map fun i => ((v, 0) :: t)[i]?
    have hkk : (0 :: ks.map Prod.snd).Perm (List.range nc) := (hkarr.map Prod.snd).trans ha
    refine ⟨(l.filter fun e => e.color == 0) ++ ks.zipIdx.flatMap fun x => ofColor l x.1.2 (x.2 / 2 + 1), ?_, ?_⟩
    · unfold regroup
      rw [hk1]
      simp only [Option.map_some, if_neg (show ¬ nc % 2 = 0 by omega)]
    have hkeys : (((l.filter fun e => e.color == 0) ++
        ks.zipIdx.flatMap fun x => ofColor l x.1.2 (x.2 / 2 + 1)).map Entry.key).Perm (l.map Entry.key) := by
      rw [List.map_append, flatMap_zip_keys l ks fun i => i / 2 + 1, ← List.map_append]
      apply List.Perm.map
      have := partition_perm _ (hkk.nodup_iff.2 List.nodup_range) l (by
        intro e he
        exact hkk.mem_iff.2 (List.mem_range.2 (h.colors e he)))
      rwa [List.flatMap_cons] at this
    refine ⟨by simpa using hkeys.length_eq, ?_, ?_, ?_, ?_⟩
    · exact hkeys.trans h.keys
    · intro e hm
      rcases List.mem_append.1 hm with hm | hm
      · have := (List.mem_filter.1 hm).2
        simp only [beq_iff_eq] at this
        omega
      · obtain ⟨x, hx, hm⟩ := List.mem_flatMap.1 hm
        have h1 := List.snd_lt_of_mem_zipIdx hx
        rw [(of_mem_ofColor _ _ _ _ hm).1]
        rw [hkl, hpl, if_neg (by omega)] at h1
        omega
    · intro c hc
      by_cases hc0 : c = 0
      · obtain ⟨e, he1, he2⟩ := h.used 0 (by omega)
        exact ⟨e, List.mem_append_left _ (List.mem_filter.2 ⟨he1, by simp [he2]⟩), by omega⟩
      have hi : 2 * (c - 1) < ks.length := by rw [hkl, hpl, if_neg (by omega)]; omega
      have hm : ks[2 * (c - 1)].2 ∈ 0 :: ks.map Prod.snd :=
        List.mem_cons_of_mem _ (List.mem_map.2 ⟨_, List.getElem_mem hi, rfl⟩)
      obtain ⟨e, he1, he2⟩ := h.used _ (List.mem_range.1 (hkk.mem_iff.1 hm))
      refine ⟨{ e with color := c }, List.mem_append_right _
        (List.mem_flatMap.2 ⟨(ks[2 * (c - 1)], 2 * (c - 1)), ?_, ?_⟩), rfl⟩
      · rw [List.mem_zipIdx_iff_getElem?]; simp [hi]
      · have := mem_ofColor l ks[2 * (c - 1)].2 (2 * (c - 1) / 2 + 1) e he1 he2
        rwa [show 2 * (c - 1) / 2 + 1 = c by omega] at this ⊢
    · intro e hm
      rcases List.mem_append.1 hm with hm | hm
      · exact h.values e (List.mem_filter.1 hm).1
      · obtain ⟨x, hx, hm⟩ := List.mem_flatMap.1 hm
        obtain ⟨_, e', h1, h2⟩ := of_mem_ofColor _ _ _ _ hm
        rw [h2]; exact h.values e' h1

/-- The sorted array starts with colour 0 when the number of colours is odd. -/
def HeadZero (sort : List Sum → List Sum) (sizes : List Int) : Prop :=
  ∀ nc l, Inv sizes nc l → ((sort (sums nc l)).map Prod.snd).Perm (List.range nc) ∧
    (nc % 2 = 1 → ∃ v t, sort (sums nc l) = (v, 0) :: t)

theorem rounds_inv (sort : List Sum → List Sum) (sizes : List Int) (hs : HeadZero sort sizes) (fuel nc : Nat)
    (hf : nc < fuel) (l : List Entry) (h : Inv sizes nc l) :
    ∃ l', rounds sort fuel nc l = some l' ∧ (l'.map Entry.key).Perm (List.range sizes.length) := by
  induction fuel generalizing nc l with
  | zero => cases hf
  | succ fuel ih =>
    obtain ⟨h1, h2⟩ := hs nc l h
    obtain ⟨l', hr, hl, hi⟩ := regroup_inv sizes nc l _ h h1 h2
    have hround : round sort nc l = some l' := by
      unfold round
      rw [hr]
      simp [hl]
    rw [rounds, hround]
    show ∃ l'', (if (nc + 1) / 2 > 1 then rounds sort fuel ((nc + 1) / 2) l' else some l') = some l'' ∧ _
    by_cases hn : (nc + 1) / 2 > 1
    · rw [if_pos hn]
      exact ih _ (by omega) l' hi
    · rw [if_neg hn]
      exact ⟨l', rfl, hi.keys⟩

theorem mem_sums (nc : Nat) (l : List Entry) (x : Sum) (h : x ∈ sums nc l) :
    x.2 < nc ∧ (nc % 2 = 1 → x.2 = 0 → x.1 = 0) ∧
      (x.2 ≠ 0 → x.1 = ((l.filter fun e => e.color == x.2).map Entry.value).sum) := by
  unfold sums at h
  obtain ⟨c, hc, rfl⟩ := List.mem_map.1 h
  refine ⟨List.mem_range.1 hc, ?_, ?_⟩
  · intro ho h0
    exact if_pos ⟨ho, h0⟩
  · intro h0
    exact if_neg fun h => h0 h.2

theorem zero_mem_sums (nc : Nat) (l : List Entry) (h : nc % 2 = 1) : ((0, 0) : Sum) ∈ sums nc l := by
  unfold sums
  refine List.mem_map.2 ⟨0, List.mem_range.2 (by omega), ?_⟩
  rw [if_pos ⟨h, rfl⟩]

theorem sum_nonneg' (l : List Int) (h : ∀ x, x ∈ l → 0 ≤ x) : 0 ≤ l.sum := by
  induction l with
  | nil => simp
  | cons a l ih =>
    rw [List.sum_cons]
    have := h a List.mem_cons_self
    have := ih fun x hx => h x (List.mem_cons_of_mem _ hx)
    omega

theorem sum_pos' (l : List Int) (hn : l ≠ []) (h : ∀ x, x ∈ l → 0 < x) : 0 < l.sum := by
  cases l with
  | nil => exact absurd rfl hn
  | cons a l =>
    rw [List.sum_cons]
    have := h a List.mem_cons_self
    have := sum_nonneg' l fun x hx => Int.le_of_lt (h x (List.mem_cons_of_mem _ hx))
    omega

theorem headZero_positive (sort : List Sum → List Sum) (sizes : List Int) (hs : Sorts sort)
    (hp : ∀ s, s ∈ sizes → 0 < s) : HeadZero sort sizes := by
  intro nc l h
  obtain ⟨h1, h2⟩ := hs (sums nc l)
  refine ⟨by rw [← sums_keys nc l]; exact h1.map _, ?_⟩
  intro ho
  have hz := h1.mem_iff.2 (zero_mem_sums nc l ho)
  have hm : ∀ x, x ∈ sort (sums nc l) → x ∈ sums nc l := fun x hx => h1.mem_iff.1 hx
  generalize sort (sums nc l) = a at hz hm h2
  cases a with
  | nil => cases hz
  | cons x t =>
    obtain ⟨v, k⟩ := x
    refine ⟨v, t, ?_⟩
    have hle : v ≤ 0 := by
      rcases List.mem_cons.1 hz with h | h
      · cases h; omega
      · exact (List.pairwise_cons.1 h2).1 _ h
    obtain ⟨m1, m2, m3⟩ := mem_sums nc l (v, k) (hm _ List.mem_cons_self)
    by_cases hk : k = 0
    · rw [hk]
    · exfalso
      have := m3 hk
      obtain ⟨e, he1, he2⟩ := h.used k m1
      have hpos : 0 < ((l.filter fun e => e.color == k).map Entry.value).sum := by
        apply sum_pos'
        · intro hn
          have : e ∈ l.filter fun e => e.color == k := List.mem_filter.2 ⟨he1, by simp [he2]⟩
          rw [List.map_eq_nil_iff.1 hn] at this
          cases this
        · intro x hx
          obtain ⟨e', h', rfl⟩ := List.mem_map.1 hx
          exact hp _ (h.values e' (List.mem_filter.1 h').1)
      simp only at this
      omega

theorem sums_increasing (nc : Nat) (l : List Entry) : (sums nc l).Pairwise fun a b => a.2 < b.2 := by
  unfold sums
  rw [List.pairwise_map]
  exact List.pairwise_lt_range

theorem headZero_stable (sort : List Sum → List Sum) (sizes : List Int) (hs : SortsStably sort)
    (hp : ∀ s, s ∈ sizes → 0 ≤ s) : HeadZero sort sizes := by
  intro nc l h
  obtain ⟨h1, h2⟩ := hs (sums nc l) (sums_increasing nc l)
  refine ⟨by rw [← sums_keys nc l]; exact h1.map _, ?_⟩
  intro ho
  have hz := h1.mem_iff.2 (zero_mem_sums nc l ho)
  have hm : ∀ x, x ∈ sort (sums nc l) → x ∈ sums nc l := fun x hx => h1.mem_iff.1 hx
  generalize sort (sums nc l) = a at hz hm h2
  cases a with
  | nil => cases hz
  | cons x t =>
    obtain ⟨v, k⟩ := x
    refine ⟨v, t, ?_⟩
    by_cases hk : k = 0
    · rw [hk]
    exfalso
    obtain ⟨m1, m2, m3⟩ := mem_sums nc l (v, k) (hm _ List.mem_cons_self)
    have hnn : 0 ≤ v := by
      rw [show v = _ from m3 hk]
      apply sum_nonneg'
      intro x hx
      obtain ⟨e', h', rfl⟩ := List.mem_map.1 hx
      exact hp _ (h.values e' (List.mem_filter.1 h').1)
    rcases List.mem_cons.1 hz with h | h
    · cases h; exact hk rfl
    · have := (List.pairwise_cons.1 h2).1 _ h
      simp only at this
      omega

end ExtMpi.RankPerm
