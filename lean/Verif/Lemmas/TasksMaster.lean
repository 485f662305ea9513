import Verif.Lemmas.TasksFree
/-! The program of a node between copy-in and copy-out, distributed among its processes. -/
namespace ExtMpi.TasksNode
open RawCode Schedule RankPerm

/-- The blocks after block 0 with the processes of the instructions. -/
def masterBlocks (N ns : Nat) (sz : Nat → Nat) (perm : List Nat) (a : Nat) : Bool → List Block → Master
  | _, [] => [(none, .barrier)]
  | first, b :: bs => (if first then [] else [(none, .barrier)]) ++
      tagged (recvOwner N ns perm a b) (sendOwner N ns perm a b) (blockCode N sz b a) ++ masterBlocks N ns sz perm a false bs

theorem masterBlocks_snd (N ns : Nat) (sz : Nat → Nat) (perm : List Nat) (a : Nat) (bs : List Block) : ∀ first,
    (masterBlocks N ns sz perm a first bs).map Prod.snd = blocksCode N sz a first bs := by
  induction bs with
  | nil => intro first; rfl
  | cons b bs ih =>
    intro first
    rw [masterBlocks, blocksCode, List.map_append, List.map_append, tagged_snd, ih]
    cases first <;> rfl

theorem masterBlocks_share {N ns : Nat} (sz : Nat → Nat) {perm : List Nat} (hp : IsPerm N perm) {a r : Nat} (ha : a < N)
    (hr : r < ns) (bs : List Block) : (∀ b, b ∈ bs → Good N b) → ∀ first,
    code (blocksLines N ns sz a r first (bs.map (tasksBlock N ns perm a r))) =
      share ns r (masterBlocks N ns sz perm a first bs) := by
  induction bs with
  | nil => intro _ first; rfl
  | cons b bs ih =>
    intro hb first
    rw [List.map_cons, blocksLines, masterBlocks, code_append, code_append, share_append, share_append,
      ih (fun b' h => hb b' (List.mem_cons_of_mem _ h)),
      block_share (tasksBlock_split hp ha hr b (hb b List.mem_cons_self)) hr]
    cases first <;> rfl

/-! ## Instructions of a block -/

theorem mem_posts {sz : Nat → Nat} {b : Block} {t : Nat} {i : Instr} (L : List Nat) : ∀ k, i ∈ posts sz b t k L →
    ∃ j n q, i = .irecv ⟨.shm j, 0⟩ n q ∧ k ≤ j ∧ j < postsEnd sz b t k L ∧ q ∈ L ∧ q ≠ t := by
  have hle : ∀ (L : List Nat) k, k ≤ postsEnd sz b t k L := by
    intro L
    induction L with
    | nil => intro k; exact Nat.le_refl _
    | cons q L ih =>
      intro k
      rw [postsEnd]
      split
      · exact Nat.le_trans (by omega) (ih (k + 1))
      · exact ih k
  induction L with
  | nil => intro k h; cases h
  | cons q L ih =>
    intro k h
    rw [posts] at h
    rw [postsEnd]
    by_cases c : q ≠ t ∧ total sz b (recvIdx b q) ≠ 0
    · rw [if_pos c] at h ⊢
      rcases List.mem_cons.1 h with rfl | h
      · exact ⟨k, _, q, rfl, Nat.le_refl _, hle L (k + 1), List.mem_cons_self, c.1⟩
      · obtain ⟨j, n, q', e, h1, h2, h3, h4⟩ := ih (k + 1) h
        exact ⟨j, n, q', e, by omega, h2, List.mem_cons_of_mem _ h3, h4⟩
    · rw [if_neg c] at h ⊢
      obtain ⟨j, n, q', e, h1, h2, h3, h4⟩ := ih k h
      exact ⟨j, n, q', e, h1, h2, List.mem_cons_of_mem _ h3, h4⟩

theorem mem_copyIf {red : Bool} {dst src : Addr} {n : Nat} {i : Instr} (h : i ∈ copyIf red dst src n) : i = .copy red dst src n := by
  unfold copyIf at h
  split at h
  · cases h
  · exact List.mem_singleton.1 h

theorem mem_pack {sz : Nat → Nat} {b : Block} {k : Nat} {i : Instr} (ls : List Nat) : ∀ p, i ∈ pack sz b k p ls →
    ∃ x y n, i = .copy false ⟨.shm k, x⟩ ⟨.shm 0, y⟩ n := by
  induction ls with
  | nil => intro p h; cases h
  | cons l ls ih =>
    intro p h
    rw [pack] at h
    rcases List.mem_append.1 h with h | h
    · exact ⟨_, _, _, mem_copyIf h⟩
    · exact ih _ h

theorem mem_sends {sz : Nat → Nat} {b : Block} {t : Nat} {i : Instr} (L : List Nat) : ∀ k, i ∈ sends sz b t k L →
    (∃ red dst src n, i = .copy red dst src n) ∨ i = .barrier ∨ ∃ a n q, i = .isend a n q ∧ q ∈ L ∧ q ≠ t := by
  induction L with
  | nil => intro k h; cases h
  | cons q L ih =>
    intro k h
    rw [sends] at h
    have up : ∀ k', i ∈ sends sz b t k' L → (∃ red dst src n, i = .copy red dst src n) ∨ i = .barrier ∨
        ∃ a n q', i = .isend a n q' ∧ q' ∈ q :: L ∧ q' ≠ t := by
      intro k' h
      rcases ih k' h with h | h | ⟨a, n, q', e, h1, h2⟩
      · exact .inl h
      · exact .inr (.inl h)
      · exact .inr (.inr ⟨a, n, q', e, List.mem_cons_of_mem _ h1, h2⟩)
    by_cases c : q ≠ t ∧ total sz b (sendIdx b q) ≠ 0
    · rw [if_pos c] at h
      rcases List.mem_append.1 h with h | h
      · rcases List.mem_append.1 h with h | h
        · obtain ⟨x, y, n, e⟩ := mem_pack _ _ h
          exact .inl ⟨_, _, _, _, e⟩
        · rcases List.mem_cons.1 h with h | h
          · exact .inr (.inl h)
          · exact .inr (.inr ⟨_, _, q, List.mem_singleton.1 h, List.mem_cons_self, c.1⟩)
      · exact up _ h
    · rw [if_neg c] at h
      exact up _ h

theorem mem_unpack {sz : Nat → Nat} {b : Block} {t : Nat} {i : Instr} (L : List Nat) : ∀ k, i ∈ unpack sz b t k L →
    ∃ red dst src n, i = .copy red dst src n := by
  induction L with
  | nil => intro k h; cases h
  | cons q L ih =>
    intro k h
    rw [unpack] at h
    split at h
    · rcases List.mem_append.1 h with h | h
      · cases hc : recvIdx b q with
        | nil => rw [hc] at h; cases h
        | cons n0 l =>
          rw [hc] at h
          exact ⟨_, _, _, _, List.mem_singleton.1 h⟩
      · exact ih _ h
    · exact ih _ h

theorem mem_reductions {sz : Nat → Nat} {b : Block} {i : Instr} (h : i ∈ reductions sz b) :
    ∃ red dst src n, i = .copy red dst src n := by
  unfold reductions at h
  obtain ⟨x, _, h⟩ := List.mem_flatMap.1 h
  obtain ⟨y, _, h⟩ := List.mem_flatMap.1 h
  exact ⟨_, _, _, _, mem_copyIf h⟩

theorem mem_copyReductions {sz : Nat → Nat} {b : Block} {i : Instr} (h : i ∈ copyReductions sz b) :
    ∃ red dst src n, i = .copy red dst src n := by
  unfold copyReductions at h
  obtain ⟨x, _, h⟩ := List.mem_flatMap.1 h
  obtain ⟨y, _, h⟩ := List.mem_flatMap.1 h
  exact ⟨_, _, _, _, mem_copyIf h⟩

theorem mem_tagged {ro so : Nat → Nat} {is : List Instr} {x : Option Nat × Instr} (h : x ∈ tagged ro so is) :
    x.2 ∈ is ∧ x.1 = tag ro so x.2 := by
  obtain ⟨i, hi, rfl⟩ := List.mem_map.1 h
  exact ⟨hi, rfl⟩

theorem block_wf {N ns a : Nat} (hns : 0 < ns) (ha : a < N) (sz : Nat → Nat) (b : Block) (ro so : Nat → Nat)
    (hro : ∀ q, ro q < ns) (hso : ∀ q, so q < ns) :
    ∀ x, x ∈ tagged ro so (blockCode N sz b a) → WF N ns a x := by
  intro x hx
  obtain ⟨h1, h2⟩ := mem_tagged hx
  obtain ⟨o, i⟩ := x
  dsimp only at h1 h2
  subst h2
  have hcopy : (∃ red dst src n, i = .copy red dst src n) → WF N ns a (tag ro so i, i) := by
    rintro ⟨_, _, _, _, rfl⟩
    exact hns
  unfold blockCode at h1
  rcases List.mem_append.1 h1 with h1 | h1
  · rcases List.mem_append.1 h1 with h1 | h1
    · rcases List.mem_append.1 h1 with h1 | h1
      · rcases List.mem_append.1 h1 with h1 | h1
        · rcases List.mem_append.1 h1 with h1 | h1
          · rcases List.mem_append.1 h1 with h1 | h1
            · obtain ⟨j, n, q, rfl, _, _, h3, h4⟩ := mem_posts _ _ h1
              exact ⟨hro q, (mem_recvOrder N a q ha).1 h3, h4⟩
            · rcases mem_sends _ _ h1 with h | rfl | ⟨_, n, q, rfl, h3, h4⟩
              · exact hcopy h
              · trivial
              · exact ⟨hso q, (mem_sendOrder N a q ha).1 h3, h4⟩
          · rcases List.mem_cons.1 h1 with rfl | h1
            · trivial
            · rw [List.mem_singleton.1 h1]; trivial
        · exact hcopy (mem_unpack _ _ h1)
      · rw [List.mem_singleton.1 h1]; trivial
    · exact hcopy (mem_reductions h1)
  · exact hcopy (mem_copyReductions h1)

theorem masterBlocks_wf {N ns a : Nat} (hns : 0 < ns) (ha : a < N) (sz : Nat → Nat) (perm : List Nat) (bs : List Block) :
    ∀ first x, x ∈ masterBlocks N ns sz perm a first bs → WF N ns a x := by
  induction bs with
  | nil =>
    intro first x hx
    rw [masterBlocks, List.mem_singleton] at hx
    subst hx; trivial
  | cons b bs ih =>
    intro first x hx
    rw [masterBlocks] at hx
    rcases List.mem_append.1 hx with hx | hx
    · rcases List.mem_append.1 hx with hx | hx
      · cases first
        · rw [if_neg (by simp), List.mem_singleton] at hx
          subst hx; trivial
        · cases hx
      · exact block_wf hns ha sz b _ _ (fun q => Nat.mod_lt _ hns) (fun q => Nat.mod_lt _ hns) x hx
    · exact ih false x hx

/-! ## No conflicts -/

/-- Messages with different buffers below `k`. -/
def Msgs (k : Nat) (P : Master) : Prop :=
  (P.Pairwise fun x y => x.1 ≠ y.1 → ¬Conflict x.2 y.2) ∧
  ∀ x, x ∈ P → ∃ j, 0 < j ∧ j < k ∧ ∀ y, y ∈ writes x.2 ++ reads x.2 → y.1.reg = .shm j

theorem posts_pairwise (sz : Nat → Nat) (b : Block) (t : Nat) (L : List Nat) : ∀ k,
    (posts sz b t k L).Pairwise fun i i' => ¬Conflict i i' := by
  induction L with
  | nil => intro k; exact List.Pairwise.nil
  | cons q L ih =>
    intro k
    rw [posts]
    split
    · rw [List.pairwise_cons]
      refine ⟨fun i hi => ?_, ih (k + 1)⟩
      obtain ⟨j, n, q', rfl, h1, _⟩ := mem_posts _ _ hi
      rintro (⟨x, y, hx, hy, ho⟩ | ⟨x, y, hx, hy, ho⟩)
      · rw [writes, List.mem_singleton] at hx
        subst hx
        have hy' : y = (⟨.shm j, 0⟩, n) := by
          rcases List.mem_append.1 hy with hy | hy
          · exact List.mem_singleton.1 hy
          · cases hy
        subst hy'
        have := ho.1
        simp only [Reg.shm.injEq] at this
        omega
      · cases hx
    · exact ih k

theorem mfree_sends {sz : Nat → Nat} {b : Block} {t : Nat} {ro so : Nat → Nat} {R : Master} (hR : mfree R) (L : List Nat) :
    ∀ k P, 0 < k → Msgs k P → mfree (P ++ (tagged ro so (sends sz b t k L) ++ (none, .waitall) :: (none, .barrier) :: R)) := by
  induction L with
  | nil =>
    intro k P _ hP
    have : P ++ (tagged ro so (sends sz b t k []) ++ (none, .waitall) :: (none, .barrier) :: R) =
        (P ++ [(none, .waitall)]) ++ (none, .barrier) :: R := by simp [sends, tagged]
    rw [this]
    refine mfree_barrier (mfree_of_pairwise ?_) hR _
    rw [List.pairwise_append]
    refine ⟨hP.1, List.pairwise_singleton _ _, fun x _ y hy _ => ?_⟩
    rw [List.mem_singleton.1 hy]
    exact no_conflict_right (.inl rfl)
  | cons q L ih =>
    intro k P hk hP
    rw [sends]
    by_cases c : q ≠ t ∧ total sz b (sendIdx b q) ≠ 0
    · rw [if_pos c]
      have e : P ++ (tagged ro so (pack sz b k 0 (sendIdx b q) ++
          [.barrier, .isend ⟨.shm k, 0⟩ (total sz b (sendIdx b q)) q] ++ sends sz b t (k + 1) L) ++
            (none, .waitall) :: (none, .barrier) :: R) =
          (P ++ tagged ro so (pack sz b k 0 (sendIdx b q))) ++ (none, .barrier) ::
            ([(some (so q), .isend ⟨.shm k, 0⟩ (total sz b (sendIdx b q)) q)] ++ (tagged ro so (sends sz b t (k + 1) L) ++
              (none, .waitall) :: (none, .barrier) :: R)) := by
        simp [tagged, tag]
      rw [e]
      refine mfree_barrier (mfree_of_pairwise ?_) (ih (k + 1) _ (by omega) ⟨List.pairwise_singleton _ _, ?_⟩) _
      · rw [List.pairwise_append]
        refine ⟨hP.1, ?_, ?_⟩
        · rw [List.pairwise_iff_forall_sublist]
          intro x y hxy hne
          have hx : x ∈ tagged ro so (pack sz b k 0 (sendIdx b q)) := hxy.subset List.mem_cons_self
          have hy : y ∈ tagged ro so (pack sz b k 0 (sendIdx b q)) := hxy.subset (List.mem_cons_of_mem _ List.mem_cons_self)
          obtain ⟨x1, x2⟩ := mem_tagged hx
          obtain ⟨y1, y2⟩ := mem_tagged hy
          obtain ⟨_, _, _, ex⟩ := mem_pack _ _ x1
          obtain ⟨_, _, _, ey⟩ := mem_pack _ _ y1
          exact absurd (by rw [x2, y2, ex, ey]; rfl) hne
        · intro x hx y hy _
          obtain ⟨j, hj0, hjk, hj⟩ := hP.2 x hx
          obtain ⟨y1, _⟩ := mem_tagged hy
          obtain ⟨u, v, n, ey⟩ := mem_pack _ _ y1
          rw [ey]
          rintro (⟨z, w, hz, hw, ho⟩ | ⟨z, w, hz, hw, ho⟩)
          · have h1 := hj z (List.mem_append_left _ hz)
            have h2 : w.1.reg = .shm k ∨ w.1.reg = .shm 0 := by
              rcases List.mem_append.1 hw with hw | hw
              · rw [writes, List.mem_singleton] at hw; left; rw [hw]
              · rw [reads, List.mem_singleton] at hw; right; rw [hw]
            have := ho.1
            rw [h1] at this
            rcases h2 with h2 | h2 <;> rw [h2] at this <;> simp only [Reg.shm.injEq] at this <;> omega
          · have h1 := hj z (List.mem_append_right _ hz)
            rw [writes, List.mem_singleton] at hw
            have := ho.1
            rw [h1, hw] at this
            simp only [Reg.shm.injEq] at this
            omega
      · intro x hx
        rw [List.mem_singleton.1 hx]
        refine ⟨k, hk, by omega, fun y hy => ?_⟩
        rcases List.mem_append.1 hy with hy | hy
        · cases hy
        · rw [reads, List.mem_singleton] at hy; rw [hy]
    · rw [if_neg c]
      exact ih k P hk hP

theorem pairwise_copies {ro so : Nat → Nat} {is : List Instr} (h : ∀ i, i ∈ is → ∃ red dst src n, i = .copy red dst src n) :
    (tagged ro so is).Pairwise fun x y => x.1 ≠ y.1 → ¬Conflict x.2 y.2 := by
  rw [List.pairwise_iff_forall_sublist]
  intro x y hxy hne
  obtain ⟨x1, x2⟩ := mem_tagged (hxy.subset List.mem_cons_self)
  obtain ⟨y1, y2⟩ := mem_tagged (hxy.subset (List.mem_cons_of_mem _ List.mem_cons_self))
  obtain ⟨_, _, _, _, ex⟩ := h _ x1
  obtain ⟨_, _, _, _, ey⟩ := h _ y1
  exact absurd (by rw [x2, y2, ex, ey]; rfl) hne

theorem mfree_block {N : Nat} {sz : Nat → Nat} {b : Block} {a : Nat} {ro so : Nat → Nat} {R : Master} (hR : mfree R) :
    mfree (tagged ro so (blockCode N sz b a) ++ (none, .barrier) :: R) := by
  have hle : ∀ (L : List Nat) k, k ≤ postsEnd sz b a k L := by
    intro L
    induction L with
    | nil => intro k; exact Nat.le_refl _
    | cons q L ih =>
      intro k
      rw [postsEnd]
      split
      · exact Nat.le_trans (by omega) (ih (k + 1))
      · exact ih k
  have e : tagged ro so (blockCode N sz b a) ++ (none, .barrier) :: R =
      tagged ro so (posts sz b a 1 (recvOrder N a)) ++ (tagged ro so (sends sz b a (postsEnd sz b a 1 (recvOrder N a)) (sendOrder N a)) ++
        (none, .waitall) :: (none, .barrier) :: (tagged ro so (unpack sz b a 1 (recvOrder N a)) ++ (none, .barrier) ::
          (tagged ro so (reductions sz b ++ copyReductions sz b) ++ (none, .barrier) :: R))) := by
    unfold blockCode
    simp [tagged, tag]
  rw [e]
  refine mfree_sends (mfree_barrier (mfree_of_pairwise (pairwise_copies fun i hi => mem_unpack _ _ hi))
    (mfree_barrier (mfree_of_pairwise (pairwise_copies fun i hi => ?_)) hR _) _) _ _ _
    (Nat.lt_of_lt_of_le Nat.one_pos (hle _ 1)) ⟨?_, fun x hx => ?_⟩
  · rcases List.mem_append.1 hi with h | h
    · exact mem_reductions h
    · exact mem_copyReductions h
  · unfold tagged
    rw [List.pairwise_map]
    exact List.Pairwise.imp (fun {_ _} h => fun _ => h) (posts_pairwise sz b a (recvOrder N a) 1)
  · obtain ⟨x1, _⟩ := mem_tagged hx
    obtain ⟨j, n, q, ex, h1, h2, _⟩ := mem_posts _ _ x1
    refine ⟨j, by omega, h2, fun y hy => ?_⟩
    rw [ex] at hy
    rcases List.mem_append.1 hy with hy | hy
    · rw [writes, List.mem_singleton] at hy; rw [hy]
    · cases hy

theorem sealed_tagged {ro so : Nat → Nat} {is : List Instr} (h : Instr.waitall ∉ is) : Sealed (tagged ro so is) :=
  sealed_none fun hm => h (mem_tagged hm).1

theorem sealed_block {N : Nat} {sz : Nat → Nat} {b : Block} {a : Nat} {ro so : Nat → Nat} : Sealed (tagged ro so (blockCode N sz b a)) := by
  have hc : ∀ {l : List Instr}, (∀ i, i ∈ l → ∃ red dst src n, i = .copy red dst src n) → Instr.waitall ∉ l := by
    intro l h hm
    obtain ⟨_, _, _, _, e⟩ := h _ hm
    cases e
  unfold blockCode
  simp only [tagged_append]
  refine .append (.append (.append (.append (.append (.append (sealed_tagged fun h => ?_) (sealed_tagged fun h => ?_)) ?_)
    (sealed_tagged (hc fun i hi => ?_))) (sealed_tagged (by simp))) (sealed_tagged (hc fun i hi => ?_))) (sealed_tagged (hc fun i hi => ?_))
  · obtain ⟨_, _, _, e, _⟩ := mem_posts _ _ h
    cases e
  · rcases mem_sends _ _ h with ⟨_, _, _, _, e⟩ | e | ⟨_, _, _, e, _⟩ <;> cases e
  · intro A B e
    cases A with
    | nil => exact ⟨[], (List.cons.inj e).2.symm⟩
    | cons x A =>
      cases A with
      | nil => cases (List.cons.inj (List.cons.inj e).2).1
      | cons y A =>
        have := congrArg List.length e
        simp [tagged] at this
  · obtain ⟨_, _, _, _, e⟩ := mem_unpack _ _ hi; exact ⟨_, _, _, _, e⟩
  · obtain ⟨_, _, _, _, e⟩ := mem_reductions hi; exact ⟨_, _, _, _, e⟩
  · obtain ⟨_, _, _, _, e⟩ := mem_copyReductions hi; exact ⟨_, _, _, _, e⟩

theorem masterBlocks_sealed {N ns a : Nat} (sz : Nat → Nat) (perm : List Nat) (bs : List Block) :
    ∀ first, Sealed (masterBlocks N ns sz perm a first bs) := by
  induction bs with
  | nil => intro first; exact sealed_none (by simp [masterBlocks])
  | cons b bs ih =>
    intro first
    rw [masterBlocks]
    refine .append (.append ?_ sealed_block) (ih false)
    cases first
    · exact sealed_none (by simp)
    · exact sealed_none (by simp)

theorem masterBlocks_free {N ns a : Nat} (sz : Nat → Nat) (perm : List Nat) {E : Master} (hE : mfree E) (bs : List Block) :
    ∀ first, mfree (masterBlocks N ns sz perm a first bs ++ E) := by
  have key : ∀ bs, ∃ R, masterBlocks N ns sz perm a false bs ++ E = (none, .barrier) :: R ∧ mfree R := by
    intro bs
    induction bs with
    | nil => exact ⟨E, rfl, hE⟩
    | cons b bs ih =>
      obtain ⟨R, h1, h2⟩ := ih
      refine ⟨tagged (recvOwner N ns perm a b) (sendOwner N ns perm a b) (blockCode N sz b a) ++ (none, .barrier) :: R, ?_,
        mfree_block h2⟩
      rw [masterBlocks, List.append_assoc, List.append_assoc, h1]
      rfl
  intro first
  cases first with
  | false =>
    obtain ⟨R, h1, h2⟩ := key bs
    rw [h1]
    exact mfree_barrier (A := []) trivial h2 none
  | true =>
    cases bs with
    | nil => exact mfree_barrier (A := []) trivial hE none
    | cons b bs =>
      obtain ⟨R, h1, h2⟩ := key bs
      rw [masterBlocks, if_pos rfl, List.nil_append, List.append_assoc, h1]
      exact mfree_block h2

/-! ## Tags -/

theorem sendTags_append (q : Nat) (A B : Master) : sendTags q (A ++ B) = sendTags q A ++ sendTags q B := List.filterMap_append
theorem recvTags_append (q : Nat) (A B : Master) : recvTags q (A ++ B) = recvTags q A ++ recvTags q B := List.filterMap_append

theorem sendTags_none {q : Nat} {M : Master} (h : ∀ x, x ∈ M → ∀ a n p, x.2 ≠ .isend a n p) : sendTags q M = [] := by
  unfold sendTags
  rw [List.filterMap_eq_nil_iff]
  rintro ⟨o, i⟩ hx
  have := h _ hx
  cases o <;> cases i <;> simp_all

theorem recvTags_none {q : Nat} {M : Master} (h : ∀ x, x ∈ M → ∀ a n p, x.2 ≠ .irecv a n p) : recvTags q M = [] := by
  unfold recvTags
  rw [List.filterMap_eq_nil_iff]
  rintro ⟨o, i⟩ hx
  have := h _ hx
  cases o <;> cases i <;> simp_all

theorem sendTags_copies {q : Nat} {ro so : Nat → Nat} {is : List Instr} (h : ∀ i, i ∈ is → ∃ red dst src n, i = .copy red dst src n) :
    sendTags q (tagged ro so is) = [] ∧ recvTags q (tagged ro so is) = [] := by
  constructor
  · apply sendTags_none
    intro x hx a n p e
    obtain ⟨_, _, _, _, e'⟩ := h _ (mem_tagged hx).1
    rw [e'] at e; cases e
  · apply recvTags_none
    intro x hx a n p e
    obtain ⟨_, _, _, _, e'⟩ := h _ (mem_tagged hx).1
    rw [e'] at e; cases e

theorem sendTags_sends {sz : Nat → Nat} {b : Block} {t q : Nat} {ro so : Nat → Nat} (hq : q ≠ t) (L : List Nat) (hL : L.Nodup) :
    ∀ k, sendTags q (tagged ro so (sends sz b t k L)) =
      if q ∈ L ∧ total sz b (sendIdx b q) ≠ 0 then [so q] else [] := by
  induction L with
  | nil => intro k; simp [sends, tagged, sendTags]
  | cons p L ih =>
    intro k
    rw [List.nodup_cons] at hL
    rw [sends]
    by_cases c : p ≠ t ∧ total sz b (sendIdx b p) ≠ 0
    · rw [if_pos c, tagged_append, tagged_append, sendTags_append, sendTags_append,
        (sendTags_copies fun i hi => by obtain ⟨_, _, _, e⟩ := mem_pack _ _ hi; exact ⟨_, _, _, _, e⟩).1, ih hL.2]
      by_cases e : p = q
      · subst e
        rw [if_neg (fun h => hL.1 h.1), if_pos ⟨List.mem_cons_self, c.2⟩]
        simp [tagged, tag, sendTags]
      · have : sendTags q (tagged ro so [.barrier, .isend ⟨.shm k, 0⟩ (total sz b (sendIdx b p)) p]) = [] := by
          simp [tagged, tag, sendTags, e]
        rw [this]
        simp [List.mem_cons, Ne.symm e]
    · rw [if_neg c, ih hL.2]
      by_cases e : p = q
      · subst e
        have : total sz b (sendIdx b p) = 0 := by
          by_contra g
          exact c ⟨hq, g⟩
        rw [if_neg (fun h => h.2 this), if_neg (fun h => h.2 this)]
      · simp [List.mem_cons, Ne.symm e]

theorem recvTags_posts {sz : Nat → Nat} {b : Block} {t q : Nat} {ro so : Nat → Nat} (hq : q ≠ t) (L : List Nat) (hL : L.Nodup) :
    ∀ k, recvTags q (tagged ro so (posts sz b t k L)) =
      if q ∈ L ∧ total sz b (recvIdx b q) ≠ 0 then [ro q] else [] := by
  induction L with
  | nil => intro k; simp [posts, tagged, recvTags]
  | cons p L ih =>
    intro k
    rw [List.nodup_cons] at hL
    rw [posts]
    by_cases c : p ≠ t ∧ total sz b (recvIdx b p) ≠ 0
    · rw [if_pos c]
      have e0 : tagged ro so (.irecv ⟨.shm k, 0⟩ (total sz b (recvIdx b p)) p :: posts sz b t (k + 1) L) =
        (some (ro p), .irecv ⟨.shm k, 0⟩ (total sz b (recvIdx b p)) p) :: tagged ro so (posts sz b t (k + 1) L) := rfl
      rw [e0, recvTags_cons, ih hL.2]
      by_cases e : p = q
      · subst e
        rw [if_neg (fun h => hL.1 h.1), if_pos ⟨List.mem_cons_self, c.2⟩]
        simp [recvTags]
      · have : recvTags q [(some (ro p), .irecv ⟨.shm k, 0⟩ (total sz b (recvIdx b p)) p)] = [] := by
          simp [recvTags, e]
        rw [this]
        simp [List.mem_cons, Ne.symm e]
    · rw [if_neg c, ih hL.2]
      by_cases e : p = q
      · subst e
        have : total sz b (recvIdx b p) = 0 := by
          by_contra g
          exact c ⟨hq, g⟩
        rw [if_neg (fun h => h.2 this), if_neg (fun h => h.2 this)]
      · simp [List.mem_cons, Ne.symm e]

theorem sendTags_block {N : Nat} {sz : Nat → Nat} {b : Block} {a q : Nat} {ro so : Nat → Nat} (ha : a < N) (hqN : q < N) (hq : q ≠ a) :
    sendTags q (tagged ro so (blockCode N sz b a)) = if total sz b (sendIdx b q) ≠ 0 then [so q] else [] := by
  unfold blockCode
  simp only [tagged_append, sendTags_append]
  rw [sendTags_sends hq _ (sendOrder_nodup N a ha), (sendTags_copies fun i hi => mem_unpack _ _ hi).1,
    (sendTags_copies fun i hi => mem_reductions hi).1, (sendTags_copies fun i hi => mem_copyReductions hi).1,
    sendTags_none (M := tagged ro so (posts sz b a 1 (recvOrder N a))) (fun x hx u n p e => by
      obtain ⟨_, _, _, e', _⟩ := mem_posts _ _ (mem_tagged hx).1
      rw [e'] at e; cases e)]
  simp [mem_sendOrder N a q ha, hqN, tagged, tag, sendTags]

theorem recvTags_block {N : Nat} {sz : Nat → Nat} {b : Block} {a q : Nat} {ro so : Nat → Nat} (ha : a < N) (hqN : q < N) (hq : q ≠ a) :
    recvTags q (tagged ro so (blockCode N sz b a)) = if total sz b (recvIdx b q) ≠ 0 then [ro q] else [] := by
  unfold blockCode
  simp only [tagged_append, recvTags_append]
  rw [recvTags_posts hq _ (recvOrder_nodup N a ha), (sendTags_copies fun i hi => mem_unpack _ _ hi).2,
    (sendTags_copies fun i hi => mem_reductions hi).2, (sendTags_copies fun i hi => mem_copyReductions hi).2,
    recvTags_none (M := tagged ro so (sends sz b a (postsEnd sz b a 1 (recvOrder N a)) (sendOrder N a))) (fun x hx u n p e => by
      rcases mem_sends _ _ (mem_tagged hx).1 with ⟨_, _, _, _, e'⟩ | e' | ⟨_, _, _, e', _⟩ <;> rw [e'] at e <;> cases e)]
  simp [mem_recvOrder N a q ha, hqN, tagged, tag, recvTags]

/-- Sender and receiver of every message of a block have the same local number. -/
def Agree (N ns : Nat) (perm : List Nat) (bs : Nat → Block) : Prop :=
  ∀ a q, a < N → q < N → a ≠ q → recvIdx (bs q) a ≠ [] →
    sendOwner N ns perm a (bs a) q = recvOwner N ns perm q (bs q) a

theorem masterBlocks_tags {V : Type} [Add V] {N ns : Nat} (sz : Nat → Nat) (perm : List Nat) (p : Nat → List Block)
    (v v' : Nat → Nat → V) (hrun : Run N p v v') :
    (∀ k, (∀ a, a < N → k < (p a).length) → Agree N ns perm fun a => (p a).getD k []) → ∀ first a q, a < N → q < N → a ≠ q →
      sendTags q (masterBlocks N ns sz perm a first (p a)) = recvTags a (masterBlocks N ns sz perm q first (p q)) := by
  induction hrun with
  | @done p s hp =>
    intro _ first a q ha hq hne
    rw [hp a ha, hp q hq]; rfl
  | @step p s s'' hd tl s' hp hstep hrest ih =>
    intro hag first a q ha hq hne
    rw [hp a ha, hp q hq, masterBlocks, masterBlocks, sendTags_append, sendTags_append, recvTags_append, recvTags_append]
    rw [ih (fun k hk => by
      have := hag (k + 1) (fun a ha => by rw [hp a ha, List.length_cons]; have := hk a ha; omega)
      intro a q ha hq hne
      have h := this a q ha hq hne
      dsimp only at h
      rw [hp a ha, hp q hq] at h
      exact h) false a q ha hq hne]
    congr 1
    have h0 := hag 0 (fun a ha => by rw [hp a ha, List.length_cons]; omega) a q ha hq hne
    dsimp only at h0
    rw [hp a ha, hp q hq] at h0
    rw [List.getD_cons_zero, List.getD_cons_zero] at h0
    rw [sendTags_block ha hq (Ne.symm hne), recvTags_block hq ha hne]
    have hv := hstep q hq
    unfold nodeStep at hv
    obtain ⟨_, h2⟩ := Option.ite_none_right_eq_some.1 hv
    obtain ⟨w, h3, _⟩ := Option.map_eq_some_iff.1 h2
    obtain ⟨n0, len, hs⟩ := sized_of_step sz N hd s q w hq h3 a ha hne
    have htot : total sz (hd a) (sendIdx (hd a) q) = total sz (hd q) (recvIdx (hd q) a) := by
      have := hs.take len (Nat.le_refl _)
      rw [← hs.length, List.take_length, hs.length] at this
      rw [this, hs.recv]
    rw [htot]
    cases first
    · by_cases z : total sz (hd q) (recvIdx (hd q) a) = 0
      · simp [z, sendTags, recvTags]
      · have := h0 (fun e => z (by rw [e]; rfl))
        rw [this]
        simp [sendTags, recvTags]
    · by_cases z : total sz (hd q) (recvIdx (hd q) a) = 0
      · simp [z, sendTags, recvTags]
      · have := h0 (fun e => z (by rw [e]; rfl))
        rw [this]
        simp [sendTags, recvTags]

end ExtMpi.TasksNode
