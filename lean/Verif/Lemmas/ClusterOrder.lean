import Verif.Lemmas.ClusterElem
import Verif.Lemmas.ClusterBridge
import Verif.Lemmas.ClusterCopy
/-! The order of the accesses of the processes of a node, from the copy-in to the copy-out. -/
namespace ExtMpi.Cluster
open RawCode Schedule
open TasksNode
open OnNode (Skel Item Elem R Cell code leadSk dis nodeW)

/-! ## Synchronisations -/

/-- The partners in the synchronisations of a skeleton. -/
def syncs : Skel → List (Nat → Nat)
  | [] => []
  | .ops _ :: S => syncs S
  | .sync _ w :: S => w :: syncs S

theorem syncs_append (A B : Skel) : syncs (A ++ B) = syncs A ++ syncs B := by
  induction A with
  | nil => rfl
  | cons I A ih => cases I <;> simp [syncs, ih]

/-- Number of synchronisations before item `i`. -/
def seg (S : Skel) (i : Nat) : Nat := (syncs (S.take i)).length

theorem seg_mono (S : Skel) {i j : Nat} (h : i ≤ j) : seg S i ≤ seg S j := by
  obtain ⟨k, rfl⟩ := Nat.exists_eq_add_of_le h
  unfold seg
  rw [List.take_add, syncs_append, List.length_append]
  omega

theorem seg_succ {S : Skel} {k : Nat} {I : Item} (h : S[k]? = some I) : seg S (k + 1) = seg S k + (syncs [I]).length := by
  unfold seg
  rw [List.take_add_one, h, syncs_append, List.length_append]
  rfl

theorem seg_full (S : Skel) : seg S S.length = (syncs S).length := by unfold seg; rw [List.take_length]

theorem seg_append_left (A B : Skel) {i : Nat} (h : i ≤ A.length) : seg (A ++ B) i = seg A i := by
  unfold seg; rw [List.take_append_of_le_length h]

theorem seg_append_right (A B : Skel) (i : Nat) : seg (A ++ B) (A.length + i) = (syncs A).length + seg B i := by
  unfold seg
  rw [List.take_length_add_append, syncs_append, List.length_append]

theorem syncs_get {S : Skel} {k b : Nat} {w : Nat → Nat} (h : S[k]? = some (.sync b w)) : (syncs S)[seg S k]? = some w := by
  have hk : k < S.length := (List.getElem?_eq_some_iff.1 h).1
  have hS : S = S.take k ++ .sync b w :: S.drop (k + 1) := by
    conv_lhs => rw [← List.take_append_drop k S]
    rw [List.drop_eq_getElem_cons hk]
    congr 2
    exact (List.getElem?_eq_some_iff.1 h).2
  have : syncs S = syncs (S.take k) ++ w :: syncs (S.drop (k + 1)) := by
    conv_lhs => rw [hS]
    rw [syncs_append]; rfl
  rw [this]
  unfold seg
  rw [List.getElem?_append_right (Nat.le_refl _), Nat.sub_self]
  rfl

/-- Process of the node that process `p` waits for in its barrier number `k`. -/
def partOf (ns : Nat) (ws : Nat → List (Nat → Nat)) (p k : Nat) : Nat := ((ws (p / ns)).getD (k - 1) id) (p % ns) % ns

theorem partOf_lt {ns : Nat} (h : 0 < ns) (ws : Nat → List (Nat → Nat)) (p k : Nat) : partOf ns ws p k < ns := Nat.mod_lt _ h

theorem partOf_get {ns : Nat} {ws : Nat → List (Nat → Nat)} {a r k : Nat} {w : Nat → Nat} (hr : r < ns)
    (h : (ws a)[k]? = some w) (hw : w r < ns) : partOf ns ws (a * ns + r) (k + 1) = w r := by
  unfold partOf
  rw [proc_div hr, proc_mod hr, Nat.add_sub_cancel, List.getD_eq_getElem?_getD, h]
  exact Nat.mod_eq_of_lt hw

/-- Knowledge by synchronisations is knowledge by barriers. -/
theorem kn_of_R {N ns a : Nat} (ha : a < N) {ws : Nat → List (Nat → Nat)} {S : Skel} (hP : OnNode.Partners ns S)
    {c : Nat} (hws : ∀ j w, (syncs S)[j]? = some w → (ws a)[c + j]? = some w) {p i q j : Nat} (h : R ns S p i q j) :
    (p = q ∧ i ≤ j) ∨ Kn N ns (single ns (partOf ns ws)) (a * ns + p) (c + seg S i + 1) (a * ns + q) (c + seg S j) := by
  induction h with
  | own h => exact .inl ⟨rfl, h⟩
  | @sync q k b w h hq =>
    right
    have hw : w q < ns := hP b w (List.mem_of_getElem? h) q hq
    rw [seg_succ h, ← Nat.add_assoc]
    refine .sync (proc_lt hw ha) (by rw [proc_div hq, proc_div hw]) ?_
    show _ % ns = _
    rw [proc_mod hw]
    exact (partOf_get hq (hws _ _ (syncs_get h)) hw).symm
  | @trans p i r k q j _ _ h1 h2 =>
    rcases h1 with ⟨rfl, h1⟩ | h1
    · rcases h2 with ⟨rfl, h2⟩ | h2
      · exact .inl ⟨rfl, by omega⟩
      · exact .inr (.mono h2 (by have := seg_mono S h1; omega) (Nat.le_refl _))
    · rcases h2 with ⟨rfl, h2⟩ | h2
      · exact .inr (.mono h1 (Nat.le_refl _) (by have := seg_mono S h2; omega))
      · exact .inr (.trans h1 h2)

/-! ## The copy-in as instructions of a node -/

/-- An access as an instruction. -/
def einstr (ns : Nat) (u : Users) (a : Nat) (e : Elem) : Instr :=
  .copy e.red (cellAddr ns u a e.dst) (cellAddr ns u a e.src) 1

def itemM (ns : Nat) (u : Users) (a : Nat) : Item → Master
  | .ops f => perProc ns fun r => (f r).map (einstr ns u a)
  | .sync _ _ => [(none, .barrier)]

/-- The instructions of a skeleton. -/
def skelM (ns : Nat) (u : Users) (a : Nat) (S : Skel) : Master := S.flatMap (itemM ns u a)

theorem skelM_append (ns : Nat) (u : Users) (a : Nat) (A B : Skel) : skelM ns u a (A ++ B) = skelM ns u a A ++ skelM ns u a B := by
  unfold skelM; rw [List.flatMap_append]

theorem mem_item {ns : Nat} {u : Users} {a : Nat} {I : Item} {x : Option Nat × Instr} (h : x ∈ itemM ns u a I) :
    (∃ b w, I = .sync b w ∧ x = (none, .barrier)) ∨ ∃ r e, r < ns ∧ e ∈ I.elems r ∧ x = (some r, einstr ns u a e) := by
  cases I with
  | ops f =>
    obtain ⟨r, hr, h1, h2⟩ := mem_perProc h
    obtain ⟨e, he, h3⟩ := List.mem_map.1 h2
    exact .inr ⟨r, e, hr, he, by rw [← h1, h3]⟩
  | sync b w => exact .inl ⟨b, w, rfl, List.mem_singleton.1 h⟩

theorem bars_zero {M : Master} (h : ∀ x, x ∈ M → x.2 ≠ .barrier) : bars M = 0 := by
  unfold bars
  rw [List.length_eq_zero_iff, List.filter_eq_nil_iff]
  intro x hx
  simpa [nb] using h x hx

theorem bars_item (ns : Nat) (u : Users) (a : Nat) (I : Item) : bars (itemM ns u a I) = (syncs [I]).length := by
  cases I with
  | ops f =>
    apply bars_zero
    intro x hx
    rcases mem_item hx with ⟨_, _, h, _⟩ | ⟨r, e, _, _, rfl⟩
    · cases h
    · intro h; cases h
  | sync b w => rfl

theorem bars_skel (ns : Nat) (u : Users) (a : Nat) (S : Skel) : bars (skelM ns u a S) = (syncs S).length := by
  induction S with
  | nil => rfl
  | cons I S ih =>
    show bars (itemM ns u a I ++ skelM ns u a S) = (syncs ([I] ++ S)).length
    rw [bars_append, bars_item, ih, syncs_append, List.length_append]

/-- Where an access of a skeleton is. -/
theorem skel_split {ns : Nat} {u : Users} {a : Nat} {S : Skel} {A B : Master} {r : Nat} {i : Instr}
    (h : skelM ns u a S = A ++ (some r, i) :: B) :
    ∃ k I e, S[k]? = some I ∧ e ∈ I.elems r ∧ r < ns ∧ i = einstr ns u a e ∧ bars A = seg S k ∧
      (skelM ns u a (S.take k)).length ≤ A.length ∧ A.length < (skelM ns u a (S.take (k + 1))).length := by
  induction S generalizing A with
  | nil => simp [skelM] at h
  | cons I S ih =>
    have hc : skelM ns u a (I :: S) = itemM ns u a I ++ skelM ns u a S := rfl
    have later : ∀ A', A = itemM ns u a I ++ A' → skelM ns u a S = A' ++ (some r, i) :: B → ∃ k I' e, (I :: S)[k]? = some I' ∧
        e ∈ I'.elems r ∧ r < ns ∧ i = einstr ns u a e ∧ bars A = seg (I :: S) k ∧
        (skelM ns u a ((I :: S).take k)).length ≤ A.length ∧ A.length < (skelM ns u a ((I :: S).take (k + 1))).length := by
      intro A' hA hS
      obtain ⟨k, I', e, h1, h2, h3, h4, h5, h6, h7⟩ := ih hS
      refine ⟨k + 1, I', e, h1, h2, h3, h4, ?_, ?_, ?_⟩
      · rw [hA, bars_append, h5, bars_item]
        show _ = (syncs ([I] ++ S.take k)).length
        rw [syncs_append, List.length_append]; rfl
      · rw [hA]
        show (itemM ns u a I ++ skelM ns u a (S.take k)).length ≤ _
        rw [List.length_append, List.length_append]; omega
      · rw [hA]
        show _ < (itemM ns u a I ++ skelM ns u a (S.take (k + 1))).length
        rw [List.length_append, List.length_append]; omega
    rw [hc] at h
    rcases List.append_eq_append_iff.1 h with ⟨L, h1, h2⟩ | ⟨L, h1, h2⟩
    · exact later L h1 h2
    · cases L with
      | nil =>
        rw [List.append_nil] at h1
        exact later [] (by rw [List.append_nil]; exact h1.symm) (by rw [List.nil_append] at h2 ⊢; exact h2.symm)
      | cons z L =>
        obtain ⟨rfl, _⟩ := List.cons.inj h2
        have hm : (some r, i) ∈ itemM ns u a I := by rw [h1]; exact List.mem_append_right _ List.mem_cons_self
        rcases mem_item hm with ⟨_, _, _, h⟩ | ⟨r', e, hr, he, h⟩
        · cases h
        · cases h
          refine ⟨0, I, e, rfl, he, hr, rfl, ?_, Nat.zero_le _, ?_⟩
          · show _ = 0
            have : bars (itemM ns u a I) = 0 := by
              rw [bars_item]
              cases I with
              | ops f => rfl
              | sync b w => cases he
            rw [h1, bars_append] at this
            omega
          · show _ < (itemM ns u a I ++ []).length
            rw [List.append_nil, h1, List.length_append, List.length_cons]; omega

/-! ## Order -/

/-- What is needed of the skeleton of the copy-in of a node. -/
structure SkelOk (ns : Nat) (S : Skel) : Prop where
  partners : OnNode.Partners ns S
  race : OnNode.RaceFree ns S
  shape : ∀ q, q < ns → ∀ (i : Nat) (I : Item) (e : Elem), S[i]? = some I → e ∈ I.elems q →
    (∃ x, e.dst = .shm 0 x) ∧ ((∃ x, e.src = .shm 0 x) ∨ ∃ y, e.src = .send q 0 y)
  ne : ∀ q, q < ns → ∀ (i : Nat) (I : Item) (e : Elem), S[i]? = some I → e ∈ I.elems q → e.dst ≠ e.src
  done : ∀ p q, p < ns → q < ns → ∀ (i : Nat) (I : Item) (e : Elem), S[i]? = some I → e ∈ I.elems q →
    R ns S q (i + 1) p S.length

theorem skelOk_nil (ns : Nat) : SkelOk ns [] where
  partners := fun _ _ h => absurd h List.not_mem_nil
  race := fun p q i j I J e f _ _ _ h => by cases h
  shape := fun q _ i I e h => by cases h
  ne := fun q _ i I e h => by cases h
  done := fun p q _ _ i I e h => by cases h

theorem overlap_cells {ns : Nat} {u : Users} {a x y : Nat}
    (h : overlap (cellAddr ns u a (.shm 0 x)) 1 (cellAddr ns u a (.shm 0 y)) 1) : x = y := by
  obtain ⟨_, h2, h3⟩ := h
  simp only [cellAddr] at h2 h3
  omega

theorem einstr_conflict {ns : Nat} {u : Users} {a q q' : Nat} {e f : Elem}
    (he : (∃ x, e.dst = .shm 0 x) ∧ ((∃ x, e.src = .shm 0 x) ∨ ∃ y, e.src = .send q 0 y))
    (hf : (∃ x, f.dst = .shm 0 x) ∧ ((∃ x, f.src = .shm 0 x) ∨ ∃ y, f.src = .send q' 0 y))
    (h : Conflict (einstr ns u a e) (einstr ns u a f)) : OnNode.Conflict e f := by
  obtain ⟨⟨x, hx⟩, hs⟩ := he
  obtain ⟨⟨x', hx'⟩, hs'⟩ := hf
  unfold OnNode.Conflict
  rcases h with ⟨z, z', hz, hz', ho⟩ | ⟨z, z', hz, hz', ho⟩
  · rw [List.mem_singleton.1 hz] at ho
    rcases List.mem_append.1 hz' with hz' | hz'
    · rw [List.mem_singleton.1 hz'] at ho
      rw [hx, hx'] at ho
      rw [hx, hx', overlap_cells (ns := ns) (u := u) (a := a) ho]; exact .inl rfl
    · rw [List.mem_singleton.1 hz'] at ho
      rcases hs' with ⟨y, hy⟩ | ⟨y, hy⟩
      · rw [hx, hy] at ho
        rw [hx, hy, overlap_cells (ns := ns) (u := u) (a := a) ho]; exact .inr (.inl rfl)
      · rw [hx, hy] at ho
        exact absurd ho.1 (by intro h; cases h)
  · rw [List.mem_singleton.1 hz, List.mem_singleton.1 hz'] at ho
    rcases hs with ⟨y, hy⟩ | ⟨y, hy⟩
    · rw [hx', hy] at ho
      rw [hx', hy, overlap_cells (ns := ns) (u := u) (a := a) ho]; exact .inr (.inr rfl)
    · rw [hx', hy] at ho
      exact absurd ho.1 (by intro h; cases h)

/-- Rounds of a barrier of the node. -/
abbrev K (ns : Nat) : Nat := Nat.clog 2 ns

theorem lead_succ (ns b j : Nat) : leadSk ns b (j + 1) = leadSk ns b j ++ dis b (K ns) (nodeW ns) := by
  unfold leadSk
  rw [List.range_succ, List.flatMap_append, List.flatMap_singleton]

theorem lead_add (ns b j k : Nat) : leadSk ns b (j + k) = leadSk ns b j ++ leadSk ns b k := by
  induction k with
  | zero => simp [leadSk]
  | succ k ih => rw [← Nat.add_assoc, lead_succ, ih, lead_succ, List.append_assoc]

theorem syncs_dis (b n : Nat) (W : Nat → Nat → Nat) : syncs (dis b n W) = (List.range n).map W := by
  unfold dis
  generalize List.range n = L
  induction L with
  | nil => rfl
  | cons k L ih => simp [syncs, ih]

theorem syncs_lead_length (ns b j : Nat) : (syncs (leadSk ns b j)).length = K ns * j := by
  induction j with
  | zero => rfl
  | succ j ih => rw [lead_succ, syncs_append, List.length_append, ih, syncs_dis, List.length_map, List.length_range]; rfl

theorem syncs_lead_get (ns b : Nat) {j k n : Nat} (hj : j < n) (hk : k < K ns) :
    (syncs (leadSk ns b n))[K ns * j + k]? = some (nodeW ns k) := by
  obtain ⟨d, rfl⟩ : ∃ d, n = j + 1 + d := ⟨n - (j + 1), by omega⟩
  rw [lead_add, lead_succ, syncs_append, syncs_append, List.append_assoc,
    List.getElem?_append_right (by rw [syncs_lead_length]; omega), syncs_lead_length, Nat.add_sub_cancel_left,
    List.getElem?_append_left (by rw [syncs_dis, List.length_map, List.length_range]; exact hk), syncs_dis,
    List.getElem?_map, List.getElem?_range hk]
  rfl

/-- The skeleton of all synchronisations of a node. -/
def fullSk (ns : Nat) (S : Skel) (M : Master) : Skel := S ++ leadSk ns 0 (bars M)

/-- Conflicting instructions of a part of a program, before which there are `c` barriers, are in the order given by the
barriers. -/
def OrderedAt (N ns : Nat) (W : Nat → Nat → Nat → Prop) (a c : Nat) (M : Master) : Prop :=
  ∀ A r i L r' i' B, M = A ++ (some r, i) :: (L ++ (some r', i') :: B) → r ≠ r' → r < ns → r' < ns → Conflict i i' →
    Kn N ns W (a * ns + r) (c + bars A + 1) (a * ns + r') (c + (bars A + bars L))

theorem OrderedAt.ordered {N ns : Nat} {W : Nat → Nat → Nat → Prop} {a : Nat} {M : Master} (h : OrderedAt N ns W a 0 M) :
    Ordered N ns W a M := by
  intro A r i L r' i' B h1 h2 h3 h4 h5
  have := h A r i L r' i' B h1 h2 h3 h4 h5
  rwa [Nat.zero_add, Nat.zero_add] at this

theorem ordered_node {N ns a : Nat} (ha : a < N) {u : Users} {S : Skel} (hS : SkelOk ns S) {M : Master} (hM : mfree M)
    {ws : Nat → List (Nat → Nat)} {c : Nat} (hws : ∀ j w, (syncs (fullSk ns S M))[j]? = some w → (ws a)[c + j]? = some w) :
    OrderedAt N ns (single ns (partOf ns ws)) a c (skelM ns u a S ++ elemM (K ns) M) := by
  intro A r i L r' i' B hE hne hr hr' hc
  have hns : 0 < ns := by omega
  have hP : OnNode.Partners ns (fullSk ns S M) := by
    intro b w hm
    rcases List.mem_append.1 hm with h | h
    · exact hS.partners b w h
    · exact OnNode.partners_lead hns b w h
  have kn : ∀ {p i q j}, p ≠ q → R ns (fullSk ns S M) p i q j →
      Kn N ns (single ns (partOf ns ws)) (a * ns + p) (c + seg (fullSk ns S M) i + 1) (a * ns + q) (c + seg (fullSk ns S M) j) :=
    fun hpq h => (kn_of_R ha hP hws h).resolve_left fun h => hpq h.1
  have hops : ∀ {S' : Skel} {k : Nat} {I : Item} {e : Elem} {q : Nat}, S'[k]? = some I → e ∈ I.elems q →
      seg S' (k + 1) = seg S' k := by
    intro S' k I e q h1 h2
    rw [seg_succ h1]
    cases I with
    | ops f => rfl
    | sync b w => cases h2
  -- an access of the copy-in
  have inSkel : ∀ C, skelM ns u a S = A ++ (some r, i) :: C →
      Kn N ns (single ns (partOf ns ws)) (a * ns + r) (c + bars A + 1) (a * ns + r') (c + (bars A + bars L)) := by
    intro C hC
    obtain ⟨k, I, e, h1, h2, _, h4, h5, h6, h7⟩ := skel_split hC
    have hk : k < S.length := (List.getElem?_eq_some_iff.1 h1).1
    rw [hC, List.append_assoc] at hE
    have hE := List.append_cancel_left hE
    rw [List.cons_append] at hE
    have hE := (List.cons.inj hE).2
    have hA1 : bars A + bars L = bars (A ++ (some r, i) :: L) := by
      rw [bars_append, bars_cons (some r, i), h4]
      show _ = bars A + (0 + bars L)
      omega
    -- the second access is in the copy-in or behind it
    have hcase : (∃ D, C = L ++ (some r', i') :: D) ∨ ∃ D, L = C ++ D := by
      rcases List.append_eq_append_iff.1 hE with ⟨D, e1, e2⟩ | ⟨D, e1, e2⟩
      · exact .inr ⟨D, e1⟩
      · cases D with
        | nil => exact .inr ⟨[], by rw [List.append_nil] at e1 ⊢; exact e1.symm⟩
        | cons z D =>
          obtain ⟨rfl, _⟩ := List.cons.inj e2
          exact .inl ⟨D, e1⟩
    rcases hcase with ⟨D, hD⟩ | ⟨D, hD⟩
    · have hC' : skelM ns u a S = (A ++ (some r, i) :: L) ++ (some r', i') :: D := by
        rw [hC, hD, List.append_assoc, List.cons_append]
      obtain ⟨k', I', e', g1, g2, _, g4, g5, g6, g7⟩ := skel_split hC'
      have hlen : A.length < (A ++ (some r, i) :: L).length := by rw [List.length_append, List.length_cons]; omega
      have hkk : k ≤ k' := by
        by_contra hlt
        have : (skelM ns u a (S.take (k' + 1))).length ≤ (skelM ns u a (S.take k)).length := by
          obtain ⟨d, hd⟩ := Nat.exists_eq_add_of_le (show k' + 1 ≤ k by omega)
          have ht : S.take (k' + 1 + d) = S.take (k' + 1) ++ (S.drop (k' + 1)).take d := List.take_add
          rw [hd, ht, skelM_append, List.length_append]
          omega
        omega
      have hcon := einstr_conflict (hS.shape r hr _ _ _ h1 h2) (hS.shape r' hr' _ _ _ g1 g2) (by rw [← h4, ← g4]; exact hc)
      have hR := (hS.race r r' k k' I I' e e' hr hr' hne h1 g1 h2 g2 hcon).resolve_right fun h => by
        have := h.le; omega
      have := kn hne (hR.append (leadSk ns 0 (bars M)))
      unfold fullSk at this
      have hk' : k' < S.length := (List.getElem?_eq_some_iff.1 g1).1
      rw [seg_append_left _ _ (by omega), seg_append_left _ _ (by omega), hops h1 h2, ← h5, ← g5, ← hA1] at this
      exact this
    · have := kn hne ((hS.done r' r hr' hr k I e h1 h2).append (leadSk ns 0 (bars M)))
      unfold fullSk at this
      rw [seg_append_left _ _ (by omega), seg_append_left _ _ (Nat.le_refl _), hops h1 h2, ← h5, seg_full,
        ← bars_skel ns u a] at this
      refine this.mono (Nat.le_refl _) (Nat.add_le_add_left ?_ c)
      rw [hA1, hC, hD, bars_append, bars_append, bars_cons, bars_cons (some r, i) (C ++ D), bars_append]
      omega
  have behind : ∀ A2, A = skelM ns u a S ++ A2 → elemM (K ns) M = A2 ++ (some r, i) :: (L ++ (some r', i') :: B) →
      Kn N ns (single ns (partOf ns ws)) (a * ns + r) (c + bars A + 1) (a * ns + r') (c + (bars A + bars L)) := by
    intro A2 h1 h2
    obtain ⟨A3, X, B3, P, Q, e1, e2, e3, e4, e5, e6⟩ := elemM_split h2
    have hxb : X.2 ≠ .barrier := by
      intro h
      rw [h] at e5
      have : i = .barrier := (List.mem_replicate.1 e5).2
      rw [this] at hc
      exact no_conflict_left (.inr rfl) hc
    have hz : bars P = 0 ∧ bars Q = 0 := by
      have : bars ((elemI (K ns) X.2).map fun j => (X.1, j)) = 0 := by
        apply bars_zero
        intro y hy
        obtain ⟨j, hj, rfl⟩ := List.mem_map.1 hy
        rcases mem_elemI hj with ⟨_, _, _, _, _, _, _, rfl⟩ | ⟨h, _⟩
        · intro h; cases h
        · dsimp only; rw [h]; exact hxb
      rw [e6, bars_append, bars_cons] at this
      omega
    -- the second access
    have hq : ∃ L2, L = Q ++ L2 ∧ elemM (K ns) B3 = L2 ++ (some r', i') :: B := by
      rcases List.append_eq_append_iff.1 e3 with ⟨D, g1, g2⟩ | ⟨D, g1, g2⟩
      · cases D with
        | nil =>
          rw [List.append_nil] at g1
          exact ⟨[], by rw [List.append_nil]; exact g1.symm, g2.symm⟩
        | cons z D =>
          obtain ⟨rfl, _⟩ := List.cons.inj g2
          have hm : (some r', i') ∈ (elemI (K ns) X.2).map fun j => (X.1, j) := by
            rw [e6, g1]
            exact List.mem_append_right _ (List.mem_cons_of_mem _ (List.mem_append_right _ List.mem_cons_self))
          obtain ⟨j, _, hj⟩ := List.mem_map.1 hm
          have : X.1 = some r' := congrArg Prod.fst hj
          rw [← e4] at this
          exact absurd (Option.some.inj this) hne
      · exact ⟨D, g1, g2⟩
    obtain ⟨L2, hL, hB3⟩ := hq
    obtain ⟨L3, Y, B4, P', Q', f1, f2, f3, f4, f5, f6⟩ := elemM_split hB3
    have hcon : Conflict X.2 Y.2 := elem_conflict e5 f5 hc
    have hyb : Y.2 ≠ .barrier := fun h => no_conflict_right (.inr h) hcon
    have hb : 1 ≤ bars L3 := by
      by_contra h
      rw [e1, f1] at hM
      refine (mfree_suffix hM).1 Y (takeWhile_nobar L3 B4 (by omega) _ hyb) ?_ hcon
      rw [← e4, ← f4]
      simpa using hne
    have hbM : bars A3 + 1 ≤ bars M := by
      rw [e1, f1, bars_append, bars_cons, bars_append]
      omega
    obtain ⟨d, hd⟩ := Nat.exists_eq_add_of_le hbM
    have hR : R ns (fullSk ns S M) r (S.length + (leadSk ns 0 (bars A3)).length) r'
        (S.length + ((leadSk ns 0 (bars A3)).length + K ns)) := by
      unfold fullSk
      rw [hd, lead_add, lead_succ, ← List.append_assoc, ← List.append_assoc]
      have := (OnNode.R_node (n := ns) (S ++ leadSk ns 0 (bars A3)) 0 hr hr').append (leadSk ns 0 d)
      rw [List.length_append, Nat.add_assoc] at this
      exact this
    have := kn hne hR
    have s1 : seg (fullSk ns S M) (S.length + (leadSk ns 0 (bars A3)).length) = (syncs S).length + K ns * bars A3 := by
      unfold fullSk
      rw [seg_append_right, hd, Nat.add_assoc, lead_add, seg_append_left _ _ (Nat.le_refl _), seg_full, syncs_lead_length]
    have s2 : seg (fullSk ns S M) (S.length + ((leadSk ns 0 (bars A3)).length + K ns)) =
        (syncs S).length + K ns * (bars A3 + 1) := by
      unfold fullSk
      have hl : (leadSk ns 0 (bars A3)).length + K ns = (leadSk ns 0 (bars A3 + 1)).length := by
        rw [lead_succ, List.length_append, OnNode.dis_length]
      rw [seg_append_right, hd, lead_add, hl, seg_append_left _ _ (Nat.le_refl _), seg_full, syncs_lead_length]
    rw [s1, s2] at this
    have hbA : bars A = (syncs S).length + K ns * bars A3 := by
      rw [h1, e2, bars_append, bars_append, bars_skel, bars_elem, hz.1, Nat.add_zero]
    refine this.mono (by omega) ?_
    have hbL : K ns * 1 ≤ bars L := by
      rw [hL, f2, bars_append, bars_append, bars_elem]
      have := Nat.mul_le_mul_left (K ns) hb
      omega
    rw [hbA, Nat.mul_add]
    omega
  rcases List.append_eq_append_iff.1 hE with ⟨A2, h1, h2⟩ | ⟨C, h1, h2⟩
  · exact behind A2 h1 h2
  · cases C with
    | nil =>
      rw [List.append_nil] at h1
      exact behind [] (by rw [List.append_nil]; exact h1.symm) h2.symm
    | cons z C =>
      obtain ⟨rfl, _⟩ := List.cons.inj h2
      exact inSkel C h1

end ExtMpi.Cluster
