import Verif.Lemmas.Relabel
import Verif.Props.Recursive
import Mathlib.Data.List.Sort
/-! # Relabelling of nodes (C23, C45) -/
namespace ExtMpi.RankPerm
open ExtMpi.Schedule

/-! ## The heuristic -/

theorem heuristic_of_headZero (sort : List Sum → List Sum) (sizes : List Int) (h : HeadZero sort sizes) :
    ∃ perm, heuristic sort sizes = some perm ∧ IsPerm sizes.length perm := by
  obtain ⟨l, h1, h2⟩ := rounds_inv sort sizes h _ sizes.length (Nat.lt_succ_self _) (initial sizes) (inv_initial sizes)
  exact ⟨l.map Entry.key, by unfold heuristic; rw [h1]; rfl, h2⟩

/-- C23, part: positive sizes; whatever `qsort` does with equal elements the heuristic gives a permutation. -/
theorem heuristic_positive_partial (sort : List Sum → List Sum) (hs : Sorts sort) (sizes : List Int)
    (hp : ∀ s, s ∈ sizes → 0 < s) : ∃ perm, heuristic sort sizes = some perm ∧ IsPerm sizes.length perm :=
  heuristic_of_headZero sort sizes (headZero_positive sort sizes hs hp)

/-- C23, part: sizes that may be zero, with a `qsort` that keeps equal elements in order. -/
theorem heuristic_stable_partial (sort : List Sum → List Sum) (hs : SortsStably sort) (sizes : List Int)
    (hp : ∀ s, s ∈ sizes → 0 ≤ s) : ∃ perm, heuristic sort sizes = some perm ∧ IsPerm sizes.length perm :=
  heuristic_of_headZero sort sizes (headZero_stable sort sizes hs hp)

/-- Order by value and key. -/
def Le (a b : Sum) : Prop := a.1 < b.1 ∨ a.1 = b.1 ∧ a.2 ≤ b.2

instance : DecidableRel Le := fun a b => inferInstanceAs (Decidable (a.1 < b.1 ∨ a.1 = b.1 ∧ a.2 ≤ b.2))
instance : Std.Total Le := ⟨fun a b => by unfold Le; omega⟩
instance : IsTrans Sum Le := ⟨fun a b c => by unfold Le; omega⟩

/-- Order by value, equal values by decreasing key. -/
def LeRev (a b : Sum) : Prop := a.1 < b.1 ∨ a.1 = b.1 ∧ b.2 ≤ a.2

instance : DecidableRel LeRev := fun a b => inferInstanceAs (Decidable (a.1 < b.1 ∨ a.1 = b.1 ∧ b.2 ≤ a.2))
instance : Std.Total LeRev := ⟨fun a b => by unfold LeRev; omega⟩
instance : IsTrans Sum LeRev := ⟨fun a b c => by unfold LeRev; omega⟩

def sortStably (l : List Sum) : List Sum := l.insertionSort Le

def sortReversing (l : List Sum) : List Sum := l.insertionSort LeRev

theorem sortReversing_sorts : Sorts sortReversing := by
  intro l
  refine ⟨List.perm_insertionSort _ _, (List.pairwise_insertionSort LeRev l).imp ?_⟩
  intro a b h
  unfold LeRev at h
  omega

theorem sortStably_sorts : Sorts sortStably := by
  intro l
  refine ⟨List.perm_insertionSort _ _, (List.pairwise_insertionSort Le l).imp ?_⟩
  intro a b h
  unfold Le at h
  omega

theorem sortStably_stable : SortsStably sortStably := by
  intro l hl
  have hperm : (sortStably l).Perm l := List.perm_insertionSort _ _
  refine ⟨hperm, ?_⟩
  have hne : (sortStably l).Pairwise fun a b => a.2 ≠ b.2 := by
    have h1 : l.Pairwise fun a b => a.2 ≠ b.2 := hl.imp fun h => by omega
    exact (hperm.pairwise_iff fun h => Ne.symm h).2 h1
  refine (List.pairwise_insertionSort Le l).imp₂ ?_ hne
  intro a b h1 h2
  unfold Le at h1
  omega

/-- C23 is violated for vectors with a node without data if `qsort` is not stable: node 0 occurs twice and node
1 not at all. -/
theorem heuristic_violated : ∃ (sort : List Sum → List Sum) (sizes : List Int), Sorts sort ∧
    (∀ s, s ∈ sizes → 0 ≤ s) ∧ heuristic sort sizes = some [0, 0, 2] :=
  ⟨sortReversing, [5, 0, 2], sortReversing_sorts, by decide, by decide +kernel⟩

example : heuristic sortStably [5, 0, 2] = some [1, 2, 0] := by decide +kernel

example : ∃ perm, heuristic sortStably [7, 1, 3, 3, 9] = some perm ∧ IsPerm 5 perm :=
  heuristic_positive_partial sortStably sortStably_sorts [7, 1, 3, 3, 9] (by decide)

example : ∃ perm, heuristic sortStably [5, 0, 2] = some perm ∧ IsPerm 3 perm :=
  heuristic_stable_partial sortStably sortStably_stable [5, 0, 2] (by decide)

/-! ## Forward and backward -/

theorem back_spec (N : Nat) (perm : List Nat) (hp : IsPerm N perm) (x : Nat) (hx : x < N) :
    ∃ i, back perm x = some i ∧ i < N ∧ perm[i]? = some x := by
  have hlen : perm.length = N := by simpa using hp.length_eq
  have hm : x ∈ perm := hp.mem_iff.2 (List.mem_range.2 hx)
  obtain ⟨i, hi⟩ := List.mem_iff_getElem?.1 hm
  cases hb : back perm x with
  | none =>
    unfold back at hb
    have := List.find?_eq_none.1 hb i (by
      rw [List.mem_reverse, List.mem_range]
      exact (List.getElem?_eq_some_iff.1 hi).1)
    simp [hi] at this
  | some j =>
    unfold back at hb
    have h1 := List.find?_some hb
    have h2 := List.mem_of_find?_eq_some hb
    rw [List.mem_reverse, List.mem_range] at h2
    exact ⟨j, rfl, by omega, by simpa using h1⟩

theorem back_perm (N : Nat) (perm : List Nat) (hp : IsPerm N perm) (t x : Nat) (h : perm[t]? = some x) :
    back perm x = some t := by
  have hm : x ∈ perm := List.mem_of_getElem? h
  obtain ⟨i, h1, _, h3⟩ := back_spec N perm hp x (List.mem_range.1 (hp.mem_iff.1 hm))
  have hnd : perm.Nodup := hp.nodup_iff.2 List.nodup_range
  obtain ⟨l1, g1⟩ := List.getElem?_eq_some_iff.1 h
  obtain ⟨l2, g2⟩ := List.getElem?_eq_some_iff.1 h3
  have : t = i := (hnd.getElem_inj_iff (hi := l1) (hj := l2)).1 (by rw [g1, g2])
  rw [h1, this]

theorem inverse_of (N : Nat) (perm : List Nat) (hp : IsPerm N perm) :
    ∃ π ρ : Nat → Nat, Inverse N π ρ ∧ (∀ t, t < N → perm[t]? = some (π t)) ∧ ∀ x, x < N → back perm x = some (ρ x) := by
  have hlen : perm.length = N := by simpa using hp.length_eq
  have h1 : ∀ t, ∃ x, t < N → perm[t]? = some x ∧ x < N := by
    intro t
    by_cases ht : t < N
    · have := List.getElem?_eq_getElem (l := perm) (show t < perm.length by omega)
      exact ⟨_, fun _ => ⟨this, List.mem_range.1 (hp.mem_iff.1 (List.mem_of_getElem? this))⟩⟩
    · exact ⟨0, fun h => absurd h ht⟩
  have h2 : ∀ x, ∃ i, x < N → back perm x = some i ∧ i < N ∧ perm[i]? = some x := by
    intro x
    by_cases hx : x < N
    · obtain ⟨i, hi⟩ := back_spec N perm hp x hx
      exact ⟨i, fun _ => hi⟩
    · exact ⟨0, fun h => absurd h hx⟩
  obtain ⟨π, hπ⟩ := Classical.axiomOfChoice h1
  obtain ⟨ρ, hρ⟩ := Classical.axiomOfChoice h2
  refine ⟨π, ρ, ⟨fun t ht => (hπ t ht).2, fun x hx => (hρ x hx).2.1, ?_, ?_⟩, fun t ht => (hπ t ht).1, fun x hx => (hρ x hx).1⟩
  · intro t ht
    have a := back_perm N perm hp t (π t) (hπ t ht).1
    rw [(hρ _ (hπ t ht).2).1] at a
    exact Option.some.inj a
  · intro x hx
    have a := (hρ x hx).2.2
    rw [(hπ _ (hρ x hx).2.1).1] at a
    exact Option.some.inj a

theorem forward_backward (sort : List Sum → List Sum) (p : Params) (h : HeadZero sort p.sizes)
    (hs : p.socket < p.sizes.length) :
    ∃ q r, forward sort p = some q ∧ IsPerm p.sizes.length q.perm ∧ q.socket < p.sizes.length ∧
      backward q = some r ∧ r.socket = p.socket ∧ r.sizes = p.sizes := by
  obtain ⟨perm, hperm, hp⟩ : ∃ perm, (if p.sizes.any fun s => some s != p.sizes.head? then heuristic sort p.sizes
      else some (List.range p.sizes.length)) = some perm ∧ IsPerm p.sizes.length perm := by
    split
    · exact heuristic_of_headZero sort p.sizes h
    · exact ⟨_, rfl, List.Perm.refl _⟩
  obtain ⟨π, ρ, hi, hπ, hρ⟩ := inverse_of _ perm hp
  have hget : ∀ i, i < p.sizes.length → p.sizes[i]? = some (p.sizes[i]?.getD 0) := by
    intro i hi
    rw [List.getElem?_eq_getElem hi]
    rfl
  have e1 : ((List.range p.sizes.length).mapM fun i => (back perm i).bind fun j => p.sizes[j]?) =
      some ((List.range p.sizes.length).map fun i => p.sizes[ρ i]?.getD 0) := by
    apply mapM_some
    intro i hi'
    have hi' := List.mem_range.1 hi'
    rw [hρ i hi']
    exact hget _ (hi.lt' i hi')
  refine ⟨⟨ρ p.socket, (List.range p.sizes.length).map fun i => p.sizes[ρ i]?.getD 0, perm⟩, ⟨p.socket, p.sizes, perm⟩,
    ?_, hp, hi.lt' _ hs, ?_, rfl, rfl⟩
  · unfold forward
    rw [hperm]
    simp only [Option.bind_some, hρ _ hs, e1, Option.map_some]
  · unfold backward
    simp only [hπ _ (hi.lt' _ hs), hi.right _ hs, Option.bind_some, List.length_map, List.length_range]
    have e2 : ((List.range p.sizes.length).mapM fun i => (perm[i]?).bind fun j =>
        ((List.range p.sizes.length).map fun i => p.sizes[ρ i]?.getD 0)[j]?) = some p.sizes := by
      rw [mapM_some _ (fun i => p.sizes[i]?.getD 0)]
      · congr 1
        apply List.ext_getElem?
        intro i
        by_cases h : i < p.sizes.length
        · simp [h]
        · simp [h]
      · intro i hi'
        have hi' := List.mem_range.1 hi'
        rw [hπ i hi', Option.bind_some, List.getElem?_map, List.getElem?_range (hi.lt i hi'), Option.map_some, hi.left i hi']
    rw [e2]
    rfl

/-- C23, part: the backward pass restores the node and the sizes, for positive sizes. -/
theorem forward_backward_positive_partial (sort : List Sum → List Sum) (hs : Sorts sort) (p : Params)
    (hp : ∀ s, s ∈ p.sizes → 0 < s) (ho : p.socket < p.sizes.length) :
    ∃ q r, forward sort p = some q ∧ IsPerm p.sizes.length q.perm ∧ q.socket < p.sizes.length ∧
      backward q = some r ∧ r.socket = p.socket ∧ r.sizes = p.sizes :=
  forward_backward sort p (headZero_positive sort p.sizes hs hp) ho

/-- C23, part: the same for sizes that may be zero and a stable `qsort`. -/
theorem forward_backward_stable_partial (sort : List Sum → List Sum) (hs : SortsStably sort) (p : Params)
    (hp : ∀ s, s ∈ p.sizes → 0 ≤ s) (ho : p.socket < p.sizes.length) :
    ∃ q r, forward sort p = some q ∧ IsPerm p.sizes.length q.perm ∧ q.socket < p.sizes.length ∧
      backward q = some r ∧ r.socket = p.socket ∧ r.sizes = p.sizes :=
  forward_backward sort p (headZero_stable sort p.sizes hs hp) ho

example : ∃ q r, forward sortStably ⟨1, [5, 0, 2], []⟩ = some q ∧ IsPerm 3 q.perm ∧ q.socket < 3 ∧
    backward q = some r ∧ r.socket = 1 ∧ r.sizes = [5, 0, 2] :=
  forward_backward_stable_partial sortStably sortStably_stable ⟨1, [5, 0, 2], []⟩ (by decide) (by decide)

/-- C45 is violated: label `i` stands for node `perm[i]`, but the size stored for it is that of another node. -/
theorem sizes_violated : ∃ q, forward sortStably ⟨0, [5, 0, 2], []⟩ = some q ∧ q.perm = [1, 2, 0] ∧
    q.sizes = [2, 5, 0] ∧ (q.perm.map fun i : Nat => [(5 : Int), 0, 2][i]?) = [some 0, some 2, some 5] :=
  ⟨⟨2, [2, 5, 0], [1, 2, 0]⟩, by decide +kernel, rfl, rfl, by decide⟩

/-- C45, part: the sizes are right when the permutation is its own inverse. -/
theorem sizes_involution_partial (sort : List Sum → List Sum) (p q : Params) (hf : forward sort p = some q)
    (hp : IsPerm p.sizes.length q.perm) (hinv : ∀ i x : Nat, q.perm[i]? = some x → q.perm[x]? = some i) :
    ∀ i x : Nat, q.perm[i]? = some x → q.sizes[i]? = p.sizes[x]? := by
  intro i x hx
  unfold forward at hf
  cases h1 : (if p.sizes.any fun s => some s != p.sizes.head? then heuristic sort p.sizes
      else some (List.range p.sizes.length)) with
  | none => rw [h1] at hf; cases hf
  | some perm =>
    rw [h1, Option.bind_some] at hf
    cases h2 : back perm p.socket with
    | none => rw [h2] at hf; cases hf
    | some so =>
      rw [h2, Option.bind_some] at hf
      cases h3 : (List.range p.sizes.length).mapM fun i => (back perm i).bind fun j => p.sizes[j]? with
      | none => rw [h3] at hf; cases hf
      | some sizes =>
        rw [h3] at hf
        cases hf
        simp only at hp hinv hx ⊢
        have hlen : perm.length = p.sizes.length := by simpa using hp.length_eq
        have hi : i < p.sizes.length := by
          have := (List.getElem?_eq_some_iff.1 hx).1
          omega
        have hb : back perm i = some x := back_perm _ perm hp x i (hinv i x hx)
        have hm : ∀ (n : Nat) (is : List Nat) (ys : List Int), (is.mapM fun i => (back perm i).bind fun j => p.sizes[j]?) = some ys →
            ∀ k j : Nat, is[k]? = some j → ys[k]? = (back perm j).bind fun j => p.sizes[j]? := by
          intro _ is
          induction is with
          | nil => intro ys _ k j hk; simp at hk
          | cons a is ih =>
            intro ys h k j hk
            rw [List.mapM_cons] at h
            cases ha : (back perm a).bind fun j => p.sizes[j]? with
            | none => rw [ha] at h; cases h
            | some y =>
              rw [ha] at h
              cases hys : is.mapM fun i => (back perm i).bind fun j => p.sizes[j]? with
              | none => rw [hys] at h; cases h
              | some ys' =>
                rw [hys] at h
                cases h
                cases k with
                | zero => cases hk; rw [ha]; rfl
                | succ k => exact ih ys' hys k j hk
        rw [hm 0 _ _ h3 i i (by simp [hi]), hb]
        rfl

example : ∃ q, forward sortStably ⟨1, [5, 1, 2, 4], []⟩ = some q ∧ q.perm = [1, 0, 2, 3] ∧ q.sizes = [1, 5, 2, 4] :=
  ⟨⟨0, [1, 5, 2, 4], [1, 0, 2, 3]⟩, by decide +kernel, rfl, rfl⟩

/-! ## Relabelled schedules -/

/-- C23: running the translated schedules on the original nodes gives what the schedules give on the
relabelled nodes. -/
theorem relabel_exec {V : Type} [AddCommSemigroup V] (N : Nat) (perm : List Nat) (hp : IsPerm N perm)
    (sched sched' : Nat → List Block) (hr : Relabelled N perm sched sched')
    (hok : ∀ t, t < N → ∀ b, b ∈ sched t → (∀ l, l ∈ b → LineOk N l) ∧ Separate N t b)
    (inp inp' junk junk' : Nat → Nat → V)
    (hin : ∀ t f x g, perm[t]? = some x → perm[f]? = some g → inp t f = inp' x g)
    (hju : ∀ t x, perm[t]? = some x → junk t = junk' x)
    (out : Nat → Nat → Option V) (hex : Exec N copyOut sched inp junk out) :
    ∃ out', Exec N copyOut sched' inp' junk' out' ∧
      ∀ t f x g, perm[t]? = some x → perm[f]? = some g → out' x g = out t f := by
  obtain ⟨π, ρ, hi, hπ, hρ⟩ := inverse_of N perm hp
  have hlen : perm.length = N := by simpa using hp.length_eq
  have hsch : ∀ x, x < N → sched' x = (sched (ρ x)).map fun b => b.map (rl π) := by
    intro x hx
    obtain ⟨t, h1, h2⟩ := hr x hx
    rw [hρ x hx] at h1
    cases h1
    rw [relabel_eq N perm π hπ _ fun b hb => (hok _ (hi.lt' x hx) b hb).1] at h2
    exact (Option.some.inj h2).symm
  obtain ⟨b0, bs, la, s', h1, h2, h3⟩ := hex
  have hb0 : ∀ t, t < N → ∀ l, l ∈ b0 t → LineOk N l := fun t ht =>
    (hok t ht (b0 t) (by rw [(h1 t ht).1]; exact List.mem_cons_self)).1
  have hla : ∀ t, t < N → ∀ l, l ∈ la t → LineOk N l := fun t ht =>
    (hok t ht (la t) (by
      rw [(h1 t ht).1]
      exact List.mem_cons_of_mem _ (List.mem_of_getLast? (h1 t ht).2))).1
  obtain ⟨s1', hrun, hs1⟩ := run_rl hi bs _ s' h2
    (fun t ht b hb => hok t ht b (by rw [(h1 t ht).1]; exact List.mem_cons_of_mem _ hb))
    (fun x => (bs (ρ x)).map fun b => b.map (rl π)) (fun _ _ => rfl)
    (fun x => copyIn ((b0 (ρ x)).map (rl π)) (inp' x) (junk' x)) (by
      intro x hx
      have hx' := hi.lt' x hx
      show copyIn ((b0 (ρ x)).map (rl π)) (inp' x) (junk' x) = copyIn (b0 (ρ x)) (inp (ρ x)) (junk (ρ x))
      rw [hju (ρ x) x (by rw [hπ _ hx', hi.right x hx])]
      apply copyIn_rl (b0 (ρ x)) (hb0 _ hx')
      intro f hf
      exact (hin (ρ x) f x (π f) (by rw [hπ _ hx', hi.right x hx]) (hπ f hf)).symm)
  refine ⟨fun x => copyOut ((la (ρ x)).map (rl π)) (s1' x), ⟨fun x => (b0 (ρ x)).map (rl π), _, fun x => (la (ρ x)).map (rl π),
    s1', ?_, hrun, fun _ _ => rfl⟩, ?_⟩
  · intro x hx
    have hx' := hi.lt' x hx
    constructor
    · rw [hsch x hx, (h1 _ hx').1]
      rfl
    · rw [List.getLast?_map, (h1 _ hx').2]
      rfl
  · intro t f x g hx hg
    have ht : t < N := by have := (List.getElem?_eq_some_iff.1 hx).1; omega
    have hf : f < N := by have := (List.getElem?_eq_some_iff.1 hg).1; omega
    rw [hπ t ht] at hx
    rw [hπ f hf] at hg
    cases hx
    cases hg
    show copyOut ((la (ρ (π t))).map (rl π)) (s1' (π t)) (π f) = out t f
    rw [hi.left t ht, copyOut_rl hi _ (hla t ht) _ f hf, hs1 _ (hi.lt t ht), hi.left t ht, h3 t ht]

/-- C23: if the schedules compute an allreduce on the relabelled nodes, the translated ones compute it on the original
nodes. -/
theorem relabel_allreduce {V : Type} [AddCommMonoid V] (N : Nat) (perm : List Nat) (hp : IsPerm N perm)
    (sched sched' : Nat → List Block) (hr : Relabelled N perm sched sched')
    (hok : ∀ t, t < N → ∀ b, b ∈ sched t → (∀ l, l ∈ b → LineOk N l) ∧ Separate N t b)
    (hc : Computes (V := V) N copyOut sched (AllreducePost N)) :
    Computes (V := V) N copyOut sched' (AllreducePost N) := by
  obtain ⟨π, ρ, hi, hπ, hρ⟩ := inverse_of N perm hp
  have hlen : perm.length = N := by simpa using hp.length_eq
  have key : ∀ inp' junk' : Nat → Nat → V, ∃ out', Exec N copyOut sched' inp' junk' out' ∧ AllreducePost N inp' out' := by
    intro inp' junk'
    obtain ⟨⟨out, he⟩, hpost⟩ := hc (fun t f => inp' (π t) (π f)) (fun t => junk' (π t))
    have hpost := hpost out he
    have hlt : ∀ t x, perm[t]? = some x → t < N ∧ π t = x := by
      intro t x h
      have ht : t < N := by have := (List.getElem?_eq_some_iff.1 h).1; omega
      rw [hπ t ht] at h
      exact ⟨ht, Option.some.inj h⟩
    obtain ⟨out', he', ho⟩ := relabel_exec N perm hp sched sched' hr hok _ inp' _ junk'
      (by intro t f x g hx hg; rw [(hlt t x hx).2, (hlt f g hg).2])
      (by intro t x hx; rw [(hlt t x hx).2]) out he
    refine ⟨out', he', ?_⟩
    intro x g hx hg
    rw [ho (ρ x) (ρ g) x g (by rw [hπ _ (hi.lt' x hx), hi.right x hx]) (by rw [hπ _ (hi.lt' g hg), hi.right g hg]),
      hpost _ _ (hi.lt' x hx) (hi.lt' g hg)]
    congr 1
    simp only [hi.right g hg]
    refine Finset.sum_nbij' π ρ ?_ ?_ ?_ ?_ ?_
    · intro a ha; exact Finset.mem_range.2 (hi.lt a (Finset.mem_range.1 ha))
    · intro a ha; exact Finset.mem_range.2 (hi.lt' a (Finset.mem_range.1 ha))
    · intro a ha; exact hi.left a (Finset.mem_range.1 ha)
    · intro a ha; exact hi.right a (Finset.mem_range.1 ha)
    · intro a _; rfl
  intro inp' junk'
  obtain ⟨out', h1, h2⟩ := key inp' junk'
  refine ⟨⟨out', h1⟩, ?_⟩
  intro out'' h x g hx hg
  rw [← h2 x g hx hg, Exec.det h h1 x hx]

/-- Sufficient test for `Separate`: the ranges are disjoint. -/
theorem separate_of (N t : Nat) (b : Block)
    (h : ∀ q, q ∈ List.range N → ∀ r, r ∈ List.range N → q = r ∨ ∀ n0, n0 ∈ (recvIdx b q).take 1 → ∀ k0, k0 ∈ (recvIdx b r).take 1 →
      n0 + (recvIdx b q).length ≤ k0 ∨ k0 + (recvIdx b r).length ≤ n0) : Separate N t b := by
  rintro q r n hq hr hne ⟨n0, ns, h1, h2, h3⟩ ⟨k0, ks, h4, h5, h6⟩
  have := (h q (List.mem_range.2 hq) r (List.mem_range.2 hr)).resolve_left hne n0 (by rw [h1]; simp) k0 (by rw [h4]; simp)
  rw [h1, h4, List.length_cons, List.length_cons] at this
  omega

/-- Allreduce on three nodes with two ports, relabelled by a cycle. -/
example : ∃ sched sched' : Nat → List Block, Relabelled 3 [1, 2, 0] sched sched' ∧
    (∀ t, Recursive.generate false [2] t = some (sched t)) ∧
    Computes (V := Nat) 3 copyOut sched' (AllreducePost 3) := by
  obtain ⟨sched, h1, h2⟩ := Recursive.allreduce_correct (V := Nat) [] [2] [] (by decide) (by decide) (by decide)
    (by decide) (by decide)
  have hok : ∀ t, t < 3 → ∀ b, b ∈ sched t → (∀ l, l ∈ b → LineOk 3 l) ∧ Separate 3 t b := by
    have hall : ∀ t, t < 3 → ∀ s, s ∈ (Recursive.generate false [2] t).toList → ∀ b, b ∈ s → (∀ l, l ∈ b → LineOk 3 l) ∧
        ∀ q, q ∈ List.range 3 → ∀ r, r ∈ List.range 3 → q = r ∨ ∀ n0, n0 ∈ (recvIdx b q).take 1 → ∀ k0, k0 ∈ (recvIdx b r).take 1 →
          n0 + (recvIdx b q).length ≤ k0 ∨ k0 + (recvIdx b r).length ≤ n0 := by
      unfold LineOk
      decide +kernel
    intro t ht b hb
    obtain ⟨g1, g2⟩ := hall t ht (sched t) (by
      have := h1 t
      simp only [List.map_nil, List.append_nil, List.nil_append, List.map_cons] at this
      simp [show Recursive.generate false [2] t = _ from this]) b hb
    exact ⟨g1, separate_of 3 t b g2⟩
  have hback : ∀ x, x < 3 → ∃ t, back [1, 2, 0] x = some t ∧ t < 3 := by decide
  have hperm : IsPerm 3 [1, 2, 0] := by unfold IsPerm; decide
  obtain ⟨π, ρ, hi, hπ, hρ⟩ := inverse_of 3 [1, 2, 0] hperm
  have hr : Relabelled 3 [1, 2, 0] sched fun x => (sched (ρ x)).map fun b => b.map (rl π) := by
    intro x hx
    exact ⟨ρ x, hρ x hx, relabel_eq 3 _ π hπ _ fun b hb => (hok _ (hi.lt' x hx) b hb).1⟩
  exact ⟨sched, _, hr, h1, relabel_allreduce 3 _ hperm sched _ hr hok h2⟩

end ExtMpi.RankPerm
