import Verif.Spec.Tags
import Mathlib.Data.List.Nodup
/-! Tags keep the messages of different requests apart, and they grow without bound. -/
namespace ExtMpi.Tags

theorem le_maxOver {f : Nat → Nat} {G : Comm} {p : Nat} (h : p ∈ G) : f p ≤ maxOver f G := by
  induction G with
  | nil => cases h
  | cons q G ih =>
    rcases List.mem_cons.1 h with rfl | h
    · exact Nat.le_max_left _ _
    · exact Nat.le_trans (ih h) (Nat.le_max_right _ _)

theorem maxOver_le {f : Nat → Nat} {G : Comm} {b : Nat} (h : ∀ p, p ∈ G → f p ≤ b) : maxOver f G ≤ b := by
  induction G with
  | nil => exact Nat.zero_le _
  | cons q G ih => exact Nat.max_le.2 ⟨h q (by simp), ih fun p hp => h p (by simp [hp])⟩

theorem le_bump (tm : Nat → Nat) (G : Comm) (p : Nat) : tm p ≤ bump tm G p := by
  unfold bump
  split
  · rename_i h
    have := le_maxOver (f := tm) h
    omega
  · exact Nat.le_refl _

/-- A later tag is not below the value of `tag_max` of any of its processes. -/
theorem tag_ge (Gs : List Comm) : ∀ (tm : Nat → Nat) (j : Nat) (G : Comm) (p t : Nat),
    Gs[j]? = some G → p ∈ G → (tagsFrom tm Gs)[j]? = some t → tm p ≤ t := by
  induction Gs with
  | nil => intro tm j G p t h; simp at h
  | cons G0 Gs ih =>
    intro tm j G p t h hp ht
    cases j with
    | zero =>
      simp only [tagsFrom, List.getElem?_cons_zero, Option.some.injEq] at h ht
      subst h ht
      exact le_maxOver hp
    | succ j =>
      simp only [tagsFrom, List.getElem?_cons_succ] at h ht
      exact Nat.le_trans (le_bump tm G0 p) (ih _ j G p t h hp ht)

theorem tags_length (Gs : List Comm) : ∀ tm : Nat → Nat, (tagsFrom tm Gs).length = Gs.length := by
  induction Gs with
  | nil => intro tm; rfl
  | cons G0 Gs ih => intro tm; simp [tagsFrom, ih]

/-- A process never gets the same tag twice. -/
theorem tag_lt (Gs : List Comm) : ∀ (tm : Nat → Nat) (i j : Nat) (G H : Comm) (p t s : Nat), i < j →
    Gs[i]? = some G → Gs[j]? = some H → p ∈ G → p ∈ H →
    (tagsFrom tm Gs)[i]? = some t → (tagsFrom tm Gs)[j]? = some s → t < s := by
  induction Gs with
  | nil => intro tm i j G H p t s _ h; simp at h
  | cons G0 Gs ih =>
    intro tm i j G H p t s hij hG hH hp hq ht hs
    obtain ⟨j, rfl⟩ : ∃ k, j = k + 1 := ⟨j - 1, by omega⟩
    simp only [tagsFrom, List.getElem?_cons_succ] at hH hs
    cases i with
    | zero =>
      simp only [tagsFrom, List.getElem?_cons_zero, Option.some.injEq] at hG ht
      subst hG ht
      have h := tag_ge Gs _ j H p s hH hq hs
      rw [bump, if_pos hp] at h
      omega
    | succ i =>
      simp only [tagsFrom, List.getElem?_cons_succ] at hG ht
      exact ih _ i j G H p t s (by omega) hG hH hp hq ht hs

theorem getD_of {A : Type} {l : List A} {i : Nat} {x d : A} (h : l[i]? = some x) : l.getD i d = x := by
  rw [List.getD_eq_getElem?_getD, h]; rfl

theorem envelope_of {Gs : List Comm} {w : Way} (h : Valid Gs w) : ∃ G t, Gs[w.req]? = some G ∧ (tags Gs)[w.req]? = some t ∧
    ∃ (h1 : w.src < G.length) (h2 : w.dst < G.length), envelope Gs w = (G[w.src], G[w.dst], t) := by
  obtain ⟨G, hG, h1, h2⟩ := h
  have hl : w.req < (tags Gs).length := by
    rw [tags, tags_length]; exact (List.getElem?_eq_some_iff.1 hG).1
  refine ⟨G, _, hG, List.getElem?_eq_getElem hl, h1, h2, ?_⟩
  rw [envelope, getD_of hG, getD_of (List.getElem?_eq_getElem h1), getD_of (List.getElem?_eq_getElem h2),
    getD_of (List.getElem?_eq_getElem hl)]

/-- **C100.** What MPI sees of a message determines the request, the sender and the receiver. -/
theorem envelope_inj (Gs : List Comm) (hG : ∀ G, G ∈ Gs → G.Nodup) (v w : Way) (hv : Valid Gs v) (hw : Valid Gs w) :
    envelope Gs v = envelope Gs w ↔ v = w := by
  constructor
  · intro he
    obtain ⟨G, t, g1, g2, g3, g4, g5⟩ := envelope_of hv
    obtain ⟨H, s, k1, k2, k3, k4, k5⟩ := envelope_of hw
    rw [g5, k5] at he
    injection he with e1 e2
    injection e2 with e2 e3
    subst e3
    have hmem : G[v.src] ∈ H := by rw [e1]; exact List.getElem_mem _
    have hr : v.req = w.req := by
      rcases Nat.lt_trichotomy v.req w.req with h | h | h
      · exact absurd (tag_lt Gs _ _ _ G H G[v.src] t t h g1 k1 (List.getElem_mem _) hmem g2 k2) (by omega)
      · exact h
      · exact absurd (tag_lt Gs _ _ _ H G G[v.src] t t h k1 g1 hmem (List.getElem_mem _) k2 g2) (by omega)
    rw [hr] at g1
    have : G = H := Option.some.inj (g1.symm.trans k1)
    subst this
    have hn := hG G (List.mem_of_getElem? g1)
    have h1 := (List.Nodup.getElem_inj_iff hn).1 e1
    have h2 := (List.Nodup.getElem_inj_iff hn).1 e2
    cases v; cases w
    simp_all
  · rintro rfl; rfl

/-- Two requests on overlapping communicators. -/
example : envelope [[4, 7], [7, 4, 2]] ⟨0, 0, 1⟩ = (4, 7, 0) ∧ envelope [[4, 7], [7, 4, 2]] ⟨1, 1, 0⟩ = (4, 7, 1) := by decide

/-- Messages with a tag. -/
def sel {X : Type} (tag : Nat) (l : List (Nat × X)) : List X := (l.filter fun e => e.1 = tag).map Prod.snd

theorem sel_append {X : Type} (tag : Nat) (l : List (Nat × X)) (t : Nat) (x : X) :
    sel tag (l ++ [(t, x)]) = if t = tag then sel tag l ++ [x] else sel tag l := by
  unfold sel
  by_cases h : t = tag <;> simp [List.filter_append, h]

theorem takeTag_spec {X : Type} (tag : Nat) (l : List (Nat × X)) :
    match takeTag tag l with
    | none => sel tag l = []
    | some (x, r) => sel tag l = x :: sel tag r ∧ ∀ t, t ≠ tag → sel t r = sel t l := by
  induction l with
  | nil => rfl
  | cons e l ih =>
    obtain ⟨t, x⟩ := e
    unfold takeTag
    by_cases h : t = tag
    · rw [if_pos h]
      dsimp only
      refine ⟨by simp [sel, h], fun t' ht => ?_⟩
      have : t ≠ t' := by omega
      simp [sel, this]
    · rw [if_neg h]
      cases hk : takeTag tag l with
      | none =>
        rw [hk] at ih
        dsimp only [Option.map] at ih ⊢
        simp only [sel, List.filter_cons, h, decide_false] at ih ⊢
        simpa using ih
      | some r =>
        rw [hk] at ih
        obtain ⟨i1, i2⟩ := ih
        dsimp only [Option.map]
        refine ⟨?_, fun t' ht => ?_⟩
        · have e1 : ∀ l', sel tag ((t, x) :: l') = sel tag l' := fun l' => by simp [sel, h]
          rw [e1, e1, i1]
        · have e2 := i2 t' ht
          by_cases h' : t = t'
          · simp only [sel, List.filter_cons, h', decide_true, if_true, List.map_cons] at e2 ⊢
            rw [e2]
          · simp only [sel, List.filter_cons, h', decide_false] at e2 ⊢
            simpa using e2

theorem received_eq {X : Type} (Gs : List Comm) (hG : ∀ G, G ∈ Gs → G.Nodup) (es : List (Ev X)) :
    ∀ (W : Wire X) (C : Way → List X), (∀ e, e ∈ es → Valid Gs e.way) →
      (∀ w, Valid Gs w → C w = sel (envelope Gs w).2.2 (W (envelope Gs w).1 (envelope Gs w).2.1)) →
      received Gs W es = separate C es := by
  induction es with
  | nil => intro W C _ _; rfl
  | cons e es ih =>
    intro W C hv hC
    have hv' := fun e' he' => hv e' (List.mem_cons_of_mem _ he')
    have hinj := fun w hw v => envelope_inj Gs hG w v hw
    cases e with
    | send w x =>
      have hw : Valid Gs w := hv _ (List.mem_cons_self ..)
      simp only [received, separate]
      refine ih _ _ hv' fun v hvv => ?_
      by_cases hvw : v = w
      · subst hvw
        rw [if_pos rfl, if_pos rfl, sel_append, if_pos rfl, hC v hvv]
      · rw [if_neg hvw, hC v hvv]
        have hne : envelope Gs v ≠ envelope Gs w := fun h => hvw ((hinj v hvv w hw).1 h)
        split
        · rename_i hpq
          rw [sel_append, if_neg]
          intro ht
          injection hpq with p1 p2
          exact hne (Prod.ext p1 (Prod.ext p2 ht.symm))
        · rfl
    | recv w =>
      have hw : Valid Gs w := hv _ (List.mem_cons_self ..)
      simp only [received, separate]
      have hs := takeTag_spec (envelope Gs w).2.2 (W (envelope Gs w).1 (envelope Gs w).2.1)
      have hCw := hC w hw
      cases hk : takeTag (envelope Gs w).2.2 (W (envelope Gs w).1 (envelope Gs w).2.1) with
      | none =>
        rw [hk] at hs
        dsimp only at hs
        rw [hCw, hs]
      | some r =>
        obtain ⟨x, l⟩ := r
        rw [hk] at hs
        obtain ⟨s1, s2⟩ := hs
        rw [hCw, s1]
        dsimp only
        congr 1
        refine ih _ _ hv' fun v hvv => ?_
        by_cases hvw : v = w
        · subst hvw
          rw [if_pos rfl, if_pos rfl]
        · rw [if_neg hvw, hC v hvv]
          have hne : envelope Gs v ≠ envelope Gs w := fun h => hvw ((hinj v hvv w hw).1 h)
          split
          · rename_i hpq
            injection hpq with p1 p2
            rw [s2 _ fun ht => hne (Prod.ext p1 (Prod.ext p2 ht)), p1, p2]
          · rfl

/-- **C100.** However the messages of the requests are sent and received, what is received is what would be received if
every request had its own queues. -/
theorem apart {X : Type} (Gs : List Comm) (hG : ∀ G, G ∈ Gs → G.Nodup) (es : List (Ev X))
    (hv : ∀ e, e ∈ es → Valid Gs e.way) : received Gs (fun _ _ => []) es = separate (fun _ => []) es :=
  received_eq Gs hG es _ _ hv fun _ _ => rfl

/-- The second request is received first. -/
example : received [[4, 7], [7, 4, 2]] (fun _ _ => []) [.send ⟨0, 0, 1⟩ "a", .send ⟨1, 1, 0⟩ "b", .recv ⟨1, 1, 0⟩,
    .recv ⟨0, 0, 1⟩] = some ["b", "a"] := by decide

/-! ## The range of the tags -/

theorem tag_le (Gs : List Comm) : ∀ (tm : Nat → Nat) (b i t : Nat), (∀ p, tm p ≤ b) → (tagsFrom tm Gs)[i]? = some t →
    t ≤ b + i := by
  induction Gs with
  | nil => intro tm b i t _ h; simp [tagsFrom] at h
  | cons G Gs ih =>
    intro tm b i t hb h
    have hm : maxOver tm G ≤ b := maxOver_le fun p _ => hb p
    cases i with
    | zero =>
      simp only [tagsFrom, List.getElem?_cons_zero, Option.some.injEq] at h
      omega
    | succ i =>
      simp only [tagsFrom, List.getElem?_cons_succ] at h
      have := ih (bump tm G) (b + 1) i t (fun p => by
        unfold bump
        split
        · omega
        · exact Nat.le_trans (hb p) (Nat.le_succ b)) h
      omega

/-- **C101**, part that holds: the tags of the first `UB + 1` initialisations are not above `UB`. -/
theorem range_partial (Gs : List Comm) (UB : Nat) (h : Gs.length ≤ UB + 1) (t : Nat) (ht : t ∈ tags Gs) : t ≤ UB := by
  obtain ⟨i, hi⟩ := List.getElem?_of_mem ht
  have h1 := tag_le Gs _ 0 i t (fun _ => Nat.le_refl 0) hi
  have h2 : i < (tags Gs).length := (List.getElem?_eq_some_iff.1 hi).1
  rw [tags, tags_length] at h2
  omega

example : tags [[0, 1], [2], [1, 2], [0, 1, 2], [3]] = [0, 0, 1, 2, 0] := by decide

theorem tags_replicate (G : Comm) (p : Nat) (hp : p ∈ G) (n : Nat) : ∀ (tm : Nat → Nat) (b : Nat), (∀ q, q ∈ G → tm q = b) →
    tagsFrom tm (List.replicate n G) = (List.range n).map fun i => b + i := by
  induction n with
  | zero => intro tm b _; rfl
  | succ n ih =>
    intro tm b hb
    have hm : maxOver tm G = b :=
      Nat.le_antisymm (maxOver_le fun q hq => Nat.le_of_eq (hb q hq)) (hb p hp ▸ le_maxOver hp)
    rw [List.replicate_succ, tagsFrom, hm, List.range_succ_eq_map, List.map_cons, List.map_map,
      ih (bump tm G) (b + 1) fun q hq => by rw [bump, if_pos hq, hm]]
    congr 1
    apply List.map_congr_left
    intro i _
    simp only [Function.comp]
    omega

/-- **C101**, violated: a program that initialises and frees one request again and again gets tags beyond every bound, also
beyond the `MPI_TAG_UB` of any MPI. -/
theorem range_violated (G : Comm) (hG : G ≠ []) (UB : Nat) : ∃ n t, t ∈ tags (List.replicate n G) ∧ UB < t := by
  obtain ⟨p, hp⟩ := List.exists_mem_of_ne_nil G hG
  refine ⟨UB + 2, UB + 1, ?_, by omega⟩
  rw [tags, tags_replicate G p hp (UB + 2) _ 0 fun _ _ => rfl]
  exact List.mem_map.2 ⟨UB + 1, List.mem_range.2 (by omega), by omega⟩

end ExtMpi.Tags
