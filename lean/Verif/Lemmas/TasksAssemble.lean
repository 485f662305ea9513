import Verif.Lemmas.TasksAgree
import Verif.Lemmas.RawCodeCopy
/-! The whole program of a node, distributed among its processes. -/
namespace ExtMpi.TasksNode
open RawCode Schedule RankPerm

/-- Copies and barriers only. -/
def Copies (ns : Nat) (M : Master) : Prop :=
  ∀ x, x ∈ M → okI x.2 ∧ (x = (none, .barrier) ∨ ∃ r red dst src n, r < ns ∧ x = (some r, .copy red dst src n))

theorem Copies.wf {N ns a : Nat} {M : Master} (h : Copies ns M) : ∀ x, x ∈ M → WF N ns a x := by
  intro x hx
  rcases (h x hx).2 with rfl | ⟨r, _, _, _, _, hr, rfl⟩
  · trivial
  · exact hr

theorem Copies.tags {ns q : Nat} {M : Master} (h : Copies ns M) : sendTags q M = [] ∧ recvTags q M = [] := by
  constructor
  · refine sendTags_none fun x hx u n p e => ?_
    rcases (h x hx).2 with rfl | ⟨_, _, _, _, _, _, rfl⟩ <;> cases e
  · refine recvTags_none fun x hx u n p e => ?_
    rcases (h x hx).2 with rfl | ⟨_, _, _, _, _, _, rfl⟩ <;> cases e

theorem Copies.sealed {ns : Nat} {M : Master} (h : Copies ns M) : Sealed M := by
  refine sealed_none fun hm => ?_
  rcases (h _ hm).2 with e | ⟨_, _, _, _, _, _, e⟩ <;> cases e

/-- The instructions of a node: copy-in, a barrier, the blocks, copy-out. -/
def nodeMaster (N ns : Nat) (sz : Nat → Nat) (perm : List Nat) (I O : Nat → Master) (bs : Nat → List Block) (a : Nat) : Master :=
  if a < N then I a ++ (none, .barrier) :: (masterBlocks N ns (mmsize N sz) perm a true (bs a) ++ O a) else []

/-- Instructions of the nodes of which shares of the processes are correct. -/
structure MastersOk {X : Type} [Add X] (N ns : Nat) (M : Nat → Master) (m : Nat → Mem X) (post : (Nat → Mem X) → Prop) : Prop where
  wf : ∀ a, a < N → ∀ x, x ∈ M a → WF N ns a x
  free : ∀ a, a < N → mfree (M a)
  waits : ∀ a, a < N → Sealed (M a)
  tags : ∀ a q, a < N → q < N → a ≠ q → sendTags q (M a) = recvTags a (M q)
  run : ∃ k e, URun N k (initial (fun a => (M a).map Prod.snd) m) e ∧ Final N e ∧
    ∀ mem : Nat → Mem X, (∀ a, a < N → mem a = (e.proc a).mem) → post mem

theorem MastersOk.tcorrect {X : Type} [Add X] {N ns : Nat} {M : Nat → Master} {m : Nat → Mem X} {post : (Nat → Mem X) → Prop}
    (h : MastersOk N ns M m post) : TCorrect N ns (fun p => share ns (p % ns) (M (p / ns))) m post := by
  obtain ⟨k, e, h1, h2, h3⟩ := h.run
  exact tcorrect_of_masters h.wf h.free h.waits h.tags h1 h2 h3

theorem MastersOk.imp {X : Type} [Add X] {N ns : Nat} {M : Nat → Master} {m : Nat → Mem X} {post post' : (Nat → Mem X) → Prop}
    (h : MastersOk N ns M m post) (hi : ∀ mem, post mem → post' mem) : MastersOk N ns M m post' := by
  obtain ⟨k, e, h1, h2, h3⟩ := h.run
  exact ⟨h.wf, h.free, h.waits, h.tags, k, e, h1, h2, fun mem hm => hi mem (h3 mem hm)⟩

theorem assembleM {X V : Type} [Add X] [Add V] {N ns : Nat} (hns : 0 < ns) (sz : Nat → Nat) {perm : List Nat}
    (m : Nat → Mem X) (I O M : Nat → Master) (bs : Nat → List Block) (v s' : Nat → Nat → V)
    (hrun : Run N bs v s')
    (hag : ∀ k, (∀ a, a < N → k < (bs a).length) → Agree N ns perm fun a => (bs a).getD k [])
    (hM : ∀ a, a < N → M a = I a ++ (masterBlocks N ns (mmsize N sz) perm a true (bs a) ++ O a))
    (hI : ∀ a, a < N → Copies ns (I a)) (hO : ∀ a, a < N → Copies ns (O a)) (fM : ∀ a, a < N → mfree (M a))
    (A B : Nat → Mem X → Prop)
    (hin : ∀ a, a < N → A a (((I a).map Prod.snd).foldl exec1 (m a)))
    (hmid : ∀ (S : State X) (R : Nat → List Instr) (m1 : Nat → Mem X),
      Quiet N S (fun t => blocksCode N (mmsize N sz) t true (bs t) ++ R t) m1 → (∀ t, t < N → A t (m1 t)) →
      ∃ S' m2, Reach N S S' ∧ Quiet N S' R m2 ∧ (∀ t, t < N → B t (m2 t)) ∧
        ∀ t, t < N → ∀ r, (∀ k, r ≠ .shm k) → m2 t r = m1 t r)
    (P : Nat → Mem X → Prop)
    (hout : ∀ a, a < N → ∀ m2, B a m2 →
      (∀ r, (∀ k, r ≠ .shm k) → m2 r = ((I a).map Prod.snd).foldl exec1 (m a) r) →
      P a (((O a).map Prod.snd).foldl exec1 m2)) :
    MastersOk N ns M m fun mem => ∀ a, a < N → P a (mem a) := by
  have hmap : ∀ a, a < N → (M a).map Prod.snd =
      (I a).map Prod.snd ++ (blocksCode N (mmsize N sz) a true (bs a) ++ (O a).map Prod.snd) := by
    intro a ha
    rw [hM a ha, List.map_append, List.map_append, masterBlocks_snd]
  obtain ⟨S1, a1, a2⟩ := Quiet.copies (is := fun a => (I a).map Prod.snd)
    (R := fun a => blocksCode N (mmsize N sz) a true (bs a) ++ (O a).map Prod.snd)
    ((quiet_initial N (fun a => (M a).map Prod.snd) m).congr hmap)
    (fun a ha i hi => by
      obtain ⟨x, hx, rfl⟩ := List.mem_map.1 hi
      exact (hI a ha x hx).1)
  obtain ⟨S2, m2, c1, c2, c3, c4⟩ := hmid S1 _ _ a2 hin
  obtain ⟨S3, d1, d2⟩ := Quiet.copies (R := fun _ => []) (is := fun a => (O a).map Prod.snd)
    (c2.congr fun t ht => (List.append_nil _).symm) (fun a ha i hi => by
      obtain ⟨x, hx, rfl⟩ := List.mem_map.1 hi
      exact (hO a ha x hx).1)
  obtain ⟨n, hn⟩ := (a1.trans c1).trans d1
  refine ⟨fun a ha x hx => ?_, fM, fun a ha => ?_, fun a q ha hq hne => ?_, n, S3, hn, fun t ht => ?_, fun mem hmem a ha => ?_⟩
  · rw [hM a ha] at hx
    rcases List.mem_append.1 hx with hx | hx
    · exact (hI a ha).wf x hx
    rcases List.mem_append.1 hx with hx | hx
    · exact masterBlocks_wf hns ha _ _ _ _ x hx
    · exact (hO a ha).wf x hx
  · rw [hM a ha]
    exact (hI a ha).sealed.append ((masterBlocks_sealed _ _ _ _).append (hO a ha).sealed)
  · rw [hM a ha, hM q hq, sendTags_append, recvTags_append, (hI a ha).tags.1, (hI q hq).tags.2,
      sendTags_append, recvTags_append, (hO a ha).tags.1, (hO q hq).tags.2,
      masterBlocks_tags (ns := ns) (mmsize N sz) perm bs _ _ hrun hag true a q ha hq hne]
  · rw [d2.proc t ht]
    exact ⟨rfl, fun q => ⟨rfl, rfl, d2.chan q t, d2.chan t q⟩⟩
  · rw [hmem a ha, d2.proc a ha]
    exact hout a ha (m2 a) (c3 a ha) fun r hr => c4 a ha r hr

theorem assembleT {X : Type} [Add X] {N ns : Nat} (hns : 0 < ns) (sz : Nat → Nat) {perm : List Nat}
    (f : Nat → Nat → Nat) (m : Nat → Mem X) (I O : Nat → Master) (bs : Nat → List Block) (v s' : Nat → Nat → Nat → X)
    (hrun : Run N bs v s') (hlay : ∀ t, t < N → ∀ b, b ∈ bs t → Lay (mmsize N sz) b (f t))
    (hag : ∀ k, (∀ a, a < N → k < (bs a).length) → Agree N ns perm fun a => (bs a).getD k [])
    (hI : ∀ a, a < N → Copies ns (I a)) (hO : ∀ a, a < N → Copies ns (O a))
    (fI : ∀ a, a < N → mfree (I a)) (fO : ∀ a, a < N → mfree (O a))
    (hin : ∀ a, a < N → Rep (f a) (((I a).map Prod.snd).foldl exec1 (m a)) (v a))
    (P : Nat → Mem X → Prop)
    (hout : ∀ a, a < N → ∀ m2, Rep (f a) m2 (s' a) →
      (∀ r, (∀ k, r ≠ .shm k) → m2 r = ((I a).map Prod.snd).foldl exec1 (m a) r) →
      P a (((O a).map Prod.snd).foldl exec1 m2)) :
    MastersOk N ns (nodeMaster N ns sz perm I O bs) m fun mem => ∀ a, a < N → P a (mem a) := by
  have hM : ∀ a, a < N → nodeMaster N ns sz perm I O bs a =
      (I a ++ [(none, .barrier)]) ++ (masterBlocks N ns (mmsize N sz) perm a true (bs a) ++ O a) := fun a ha => by
    rw [nodeMaster, if_pos ha, List.append_assoc]; rfl
  have hex : ∀ a, ((I a ++ [(none, Instr.barrier)]).map Prod.snd).foldl exec1 (m a) = ((I a).map Prod.snd).foldl exec1 (m a) := by
    intro a
    rw [List.map_append, List.foldl_append]; rfl
  refine assembleM hns sz m (fun a => I a ++ [(none, .barrier)]) O _ bs v s' hrun hag hM (fun a ha x hx => ?_) hO (fun a ha => ?_)
    (fun a mem => Rep (f a) mem (v a)) (fun a mem => Rep (f a) mem (s' a)) (fun a ha => ?_) (fun S R m1 hQ hA => ?_) P
    (fun a ha m2 h1 h2 => hout a ha m2 h1 fun r hr => ?_)
  · rcases List.mem_append.1 hx with hx | hx
    · exact hI a ha x hx
    · rw [List.mem_singleton.1 hx]; exact ⟨trivial, .inl rfl⟩
  · rw [hM a ha, List.append_assoc]
    exact mfree_barrier (fI a ha) (masterBlocks_free _ _ (fO a ha) _ _) _
  · rw [hex]; exact hin a ha
  · exact blocks_run N (mmsize N sz) f bs _ s' hrun hlay true S R m1 hQ hA
  · rw [← hex]; exact h2 r hr

/-! ## Shares of copies -/

/-- Lists of copies of the processes one after the other. -/
def perProc (ns : Nat) (L : Nat → List Instr) : Master := (List.range ns).flatMap fun r => (L r).map fun i => (some r, i)

theorem share_perProc {ns : Nat} {L : Nat → List Instr} (h : ∀ r i, i ∈ L r → ∃ red dst src n, i = .copy red dst src n) {r : Nat}
    (hr : r < ns) : share ns r (perProc ns L) = L r := by
  have one : ∀ k, share ns r ((L k).map fun i => (some k, i)) = if k = r then L r else [] := by
    intro k
    unfold share
    rw [List.filterMap_map]
    by_cases e : k = r
    · subst e
      rw [if_pos rfl]
      have : ∀ i, i ∈ L k → ((fun x : Option Nat × Instr => if x.1 = none ∨ x.1 = some k then some (toProc ns k x.2) else none) ∘
          fun i => (some k, i)) i = some i := by
        intro i hi
        obtain ⟨_, _, _, _, rfl⟩ := h k i hi
        simp [toProc]
      rw [List.filterMap_congr this, List.filterMap_some]
    · rw [if_neg e, List.filterMap_eq_nil_iff]
      intro i _
      simp [e]
  unfold perProc
  have : ∀ K, K ≤ ns → share ns r ((List.range K).flatMap fun r => (L r).map fun i => (some r, i)) = if r < K then L r else [] := by
    intro K
    induction K with
    | zero => intro _; rfl
    | succ K ih =>
      intro hK
      rw [List.range_succ, List.flatMap_append, share_append, ih (by omega), List.flatMap_singleton, one]
      by_cases e : K = r
      · subst e; simp
      · by_cases c : r < K
        · simp [c, e, show r < K + 1 by omega]
        · simp [c, e, show ¬r < K + 1 by omega]
  rw [this ns (Nat.le_refl _), if_pos hr]

theorem perProc_snd (ns : Nat) (L : Nat → List Instr) : (perProc ns L).map Prod.snd = (List.range ns).flatMap L := by
  unfold perProc
  rw [List.map_flatMap]
  apply List.flatMap_congr
  intro r _
  rw [List.map_map]
  exact List.map_id _

theorem mem_perProc {ns : Nat} {L : Nat → List Instr} {x : Option Nat × Instr} (h : x ∈ perProc ns L) :
    ∃ r, r < ns ∧ x.1 = some r ∧ x.2 ∈ L r := by
  obtain ⟨r, hr, h⟩ := List.mem_flatMap.1 h
  obtain ⟨i, hi, rfl⟩ := List.mem_map.1 h
  exact ⟨r, List.mem_range.1 hr, rfl, hi⟩

theorem perProc_copies {ns : Nat} {L : Nat → List Instr}
    (h : ∀ r i, i ∈ L r → (∃ red dst src n, i = .copy red dst src n) ∧ okI i) : Copies ns (perProc ns L) := by
  intro x hx
  obtain ⟨r, hr, h1, h2⟩ := mem_perProc hx
  obtain ⟨⟨red, dst, src, n, e⟩, h3⟩ := h r _ h2
  exact ⟨h3, .inr ⟨r, red, dst, src, n, hr, by rw [← h1, ← e]⟩⟩

theorem perProc_free {ns : Nat} {L : Nat → List Instr}
    (h : ∀ r r', r < ns → r' < ns → r ≠ r' → ∀ i i', i ∈ L r → i' ∈ L r' → ¬Conflict i i') : mfree (perProc ns L) := by
  apply mfree_of_pairwise
  rw [List.pairwise_iff_forall_sublist]
  intro x y hxy hne
  obtain ⟨r, hr, h1, h2⟩ := mem_perProc (hxy.subset List.mem_cons_self)
  obtain ⟨r', hr', h1', h2'⟩ := mem_perProc (hxy.subset (List.mem_cons_of_mem _ List.mem_cons_self))
  exact h r r' hr hr' (fun e => hne (by rw [h1, h1', e])) _ _ h2 h2'

/-! ## Addresses -/

/-- Instructions on the shared memory. -/
def OnShm : Instr → Prop
  | .copy _ dst src _ => (∃ k, dst.reg = .shm k) ∧ ∃ k, src.reg = .shm k
  | .irecv a _ _ => ∃ k, a.reg = .shm k
  | .isend a _ _ => ∃ k, a.reg = .shm k
  | _ => True

theorem place_shm {u : Users} {t : Nat} {a : Addr} (h : ∃ k, a.reg = .shm k) : place u t a = a := by
  obtain ⟨k, h⟩ := h
  obtain ⟨r, o⟩ := a
  dsimp only at h
  subst h
  rfl

theorem placed_onShm {u : Users} {t : Nat} {i : Instr} (h : OnShm i) : placed u t i = i := by
  cases i with
  | copy red dst src n =>
    rw [placed, place_shm h.1, place_shm h.2]
  | irecv a n q => rw [placed, place_shm h]
  | isend a n q => rw [placed, place_shm h]
  | waitall => rfl
  | barrier => rfl

theorem onShm_block {N : Nat} {sz : Nat → Nat} {b : Block} {a : Nat} : ∀ i, i ∈ blockCode N sz b a → OnShm i := by
  have hc : ∀ {red o o' n k k'}, OnShm (.copy red ⟨.shm k, o⟩ ⟨.shm k', o'⟩ n) := ⟨⟨_, rfl⟩, ⟨_, rfl⟩⟩
  have hp : ∀ (k : Nat) (ls : List Nat) p i, i ∈ pack sz b k p ls → OnShm i := by
    intro k ls p i hi
    obtain ⟨_, _, _, rfl⟩ := TasksNode.mem_pack _ _ hi
    exact hc
  have hs : ∀ (L : List Nat) k i, i ∈ sends sz b a k L → OnShm i := by
    intro L
    induction L with
    | nil => intro k i h; cases h
    | cons q L ih =>
      intro k i h
      rw [sends] at h
      split at h
      · rcases List.mem_append.1 h with h | h
        · rcases List.mem_append.1 h with h | h
          · exact hp _ _ _ i h
          · rcases List.mem_cons.1 h with rfl | h
            · trivial
            · rw [List.mem_singleton.1 h]; exact ⟨k, rfl⟩
        · exact ih _ i h
      · exact ih _ i h
  have hu : ∀ (L : List Nat) k i, i ∈ unpack sz b a k L → OnShm i := by
    intro L
    induction L with
    | nil => intro k i h; cases h
    | cons q L ih =>
      intro k i h
      rw [unpack] at h
      split at h
      · rcases List.mem_append.1 h with h | h
        · cases hcs : recvIdx b q with
          | nil => rw [hcs] at h; cases h
          | cons n0 l =>
            rw [hcs] at h
            rw [List.mem_singleton.1 h]
            exact hc
        · exact ih _ i h
      · exact ih _ i h
  intro i h1
  unfold blockCode at h1
  rcases List.mem_append.1 h1 with h1 | h1
  · rcases List.mem_append.1 h1 with h1 | h1
    · rcases List.mem_append.1 h1 with h1 | h1
      · rcases List.mem_append.1 h1 with h1 | h1
        · rcases List.mem_append.1 h1 with h1 | h1
          · rcases List.mem_append.1 h1 with h1 | h1
            · obtain ⟨j, n, q, rfl, _⟩ := mem_posts _ _ h1
              exact ⟨j, rfl⟩
            · exact hs _ _ i h1
          · rcases List.mem_cons.1 h1 with rfl | h1
            · trivial
            · rw [List.mem_singleton.1 h1]; trivial
        · exact hu _ _ i h1
      · rw [List.mem_singleton.1 h1]; trivial
    · unfold reductions at h1
      obtain ⟨x, _, h1⟩ := List.mem_flatMap.1 h1
      obtain ⟨y, _, h1⟩ := List.mem_flatMap.1 h1
      rw [TasksNode.mem_copyIf h1]
      exact hc
  · unfold copyReductions at h1
    obtain ⟨x, _, h1⟩ := List.mem_flatMap.1 h1
    obtain ⟨y, _, h1⟩ := List.mem_flatMap.1 h1
    rw [TasksNode.mem_copyIf h1]
    exact hc

theorem onShm_masterBlocks {N ns : Nat} {sz : Nat → Nat} {perm : List Nat} {a : Nat} (bs : List Block) :
    ∀ first x, x ∈ masterBlocks N ns sz perm a first bs → OnShm x.2 := by
  induction bs with
  | nil => intro first x h; rw [masterBlocks, List.mem_singleton] at h; subst h; trivial
  | cons b bs ih =>
    intro first x h
    rw [masterBlocks] at h
    rcases List.mem_append.1 h with h | h
    · rcases List.mem_append.1 h with h | h
      · cases first
        · rw [if_neg (by simp), List.mem_singleton] at h; subst h; trivial
        · cases h
      · exact onShm_block _ (mem_tagged h).1
    · exact ih _ x h

theorem placed_share {ns r : Nat} {u : Users} {t : Nat} {M : Master} (h : ∀ x, x ∈ M → OnShm x.2) :
    (share ns r M).map (placed u t) = share ns r M := by
  conv_rhs => rw [← List.map_id (share ns r M)]
  apply List.map_congr_left
  intro i hi
  unfold share at hi
  obtain ⟨x, hx, hi⟩ := List.mem_filterMap.1 hi
  split at hi
  · cases hi
    refine placed_onShm ?_
    have := h x hx
    obtain ⟨o, i⟩ := x
    cases i <;> exact this
  · cases hi

end ExtMpi.TasksNode
