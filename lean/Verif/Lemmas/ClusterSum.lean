import Verif.Lemmas.ClusterRun
import Verif.Lemmas.ClusterCopy
/-! Result of the copy-in of a node among several. -/
namespace ExtMpi.Cluster
open RawCode Schedule
open TasksNode
open OnNode (Skel Item Elem R Cell code runElems lockstep CopyOk LineOk Par)

/-- Cells of the copy-in. -/
def InCell (c : Cell) : Prop := (∃ x, c = .shm 0 x) ∨ ∃ q y, c = .send q 0 y

/-- Contents of a cell. -/
def cellOf {X : Type} (ns : Nat) (u : Users) (a : Nat) (m : Mem X) (c : Cell) : X :=
  m (cellAddr ns u a c).reg (cellAddr ns u a c).off

theorem exec_cell {X : Type} [Add X] {ns : Nat} {u : Users} {a : Nat} {e : Elem} (hd : ∃ x, e.dst = .shm 0 x) (hs : InCell e.src)
    {m : Mem X} {w : Cell → X} (h : ∀ c, InCell c → cellOf ns u a m c = w c) :
    (∀ c, InCell c → cellOf ns u a (exec1 m (einstr ns u a e)) c = e.run w c) ∧
    ∀ r, r ≠ .shm 0 → exec1 m (einstr ns u a e) r = m r := by
  obtain ⟨red, dst, src⟩ := e
  obtain ⟨x, hd⟩ := hd
  dsimp only at hd hs
  subst hd
  have hsrc : m (cellAddr ns u a src).reg ((cellAddr ns u a src).off + (x - x)) = w src := by
    rw [Nat.sub_self, Nat.add_zero]
    exact h src hs
  refine ⟨fun c hc => ?_, fun r hr => ?_⟩
  · have hcv := h c hc
    rcases hc with ⟨y, rfl⟩ | ⟨q, y, rfl⟩
    · by_cases e : y = x
      · subst e
        show copyMem red ⟨.shm 0, y⟩ (cellAddr ns u a src) 1 m (.shm 0) y = OnNode.accessed red (.shm 0 y) src w (.shm 0 y)
        unfold copyMem OnNode.accessed
        rw [if_pos ⟨rfl, Nat.le_refl _, Nat.lt_succ_self _⟩]
        dsimp only
        rw [hsrc, if_pos rfl]
        cases red
        · rfl
        · rw [if_pos rfl, if_pos rfl, ← hcv]; rfl
      · show copyMem red ⟨.shm 0, x⟩ (cellAddr ns u a src) 1 m (.shm 0) y = OnNode.accessed red (.shm 0 x) src w (.shm 0 y)
        unfold copyMem OnNode.accessed
        rw [if_neg (by dsimp only; omega), if_neg (by simpa using e)]
        exact hcv
    · show copyMem red ⟨.shm 0, x⟩ (cellAddr ns u a src) 1 m .send _ = OnNode.accessed red (.shm 0 x) src w (.send q 0 y)
      unfold copyMem OnNode.accessed
      rw [if_neg (by rintro ⟨h, _⟩; cases h), if_neg (by intro h; cases h)]
      exact hcv
  · funext i
    show copyMem red ⟨.shm 0, x⟩ (cellAddr ns u a src) 1 m r i = m r i
    unfold copyMem
    rw [if_neg fun h => hr h.1]

theorem execs_cell {X : Type} [Add X] {ns : Nat} {u : Users} {a : Nat} (es : List Elem)
    (hes : ∀ e, e ∈ es → (∃ x, e.dst = .shm 0 x) ∧ InCell e.src) : ∀ (m : Mem X) (w : Cell → X),
    (∀ c, InCell c → cellOf ns u a m c = w c) →
    (∀ c, InCell c → cellOf ns u a ((es.map (einstr ns u a)).foldl exec1 m) c = runElems es w c) ∧
    ∀ r, r ≠ .shm 0 → (es.map (einstr ns u a)).foldl exec1 m r = m r := by
  induction es with
  | nil => intro m w h; exact ⟨h, fun _ _ => rfl⟩
  | cons e es ih =>
    intro m w h
    obtain ⟨h1, h2⟩ := hes e List.mem_cons_self
    obtain ⟨g1, g2⟩ := exec_cell h1 h2 h
    obtain ⟨k1, k2⟩ := ih (fun e he => hes e (List.mem_cons_of_mem _ he)) _ _ g1
    exact ⟨k1, fun r hr => (k2 r hr).trans (g2 r hr)⟩

/-- The instructions of the skeleton have the effect of the execution in lockstep. -/
theorem skel_exec {X : Type} [Add X] {ns : Nat} {u : Users} {a : Nat} {S : Skel} (hS : SkelOk ns S) (m : Mem X) :
    (∀ c, InCell c → cellOf ns u a (((skelM ns u a S).map Prod.snd).foldl exec1 m) c = lockstep ns S (cellOf ns u a m) c) ∧
    ∀ r, r ≠ .shm 0 → ((skelM ns u a S).map Prod.snd).foldl exec1 m r = m r := by
  have key : ∀ (T : Skel) (m : Mem X), ((skelM ns u a T).map Prod.snd).foldl exec1 m =
      ((T.flatMap fun I => (List.range ns).flatMap fun p => I.elems p).map (einstr ns u a)).foldl exec1 m := by
    intro T
    induction T with
    | nil => intro m; rfl
    | cons I T ih =>
      intro m
      have e1 : skelM ns u a (I :: T) = itemM ns u a I ++ skelM ns u a T := rfl
      rw [e1, List.map_append, List.foldl_append, ih, List.flatMap_cons, List.map_append, List.foldl_append]
      congr 1
      cases I with
      | ops f =>
        show ((perProc ns fun r => (f r).map (einstr ns u a)).map Prod.snd).foldl exec1 m = _
        rw [perProc_snd, List.map_flatMap]
        rfl
      | sync b w =>
        have : ((List.range ns).flatMap fun p => (Item.sync b w).elems p) = [] := by
          rw [List.flatMap_eq_nil_iff]
          intro _ _
          rfl
        rw [this]
        rfl
  rw [key]
  refine execs_cell _ (fun e he => ?_) m _ fun _ _ => rfl
  obtain ⟨I, hI, he⟩ := List.mem_flatMap.1 he
  obtain ⟨q, hq, he⟩ := List.mem_flatMap.1 he
  obtain ⟨i, hi⟩ := List.mem_iff_getElem?.1 hI
  obtain ⟨h1, h2⟩ := hS.shape q (List.mem_range.1 hq) i I e hi he
  refine ⟨h1, ?_⟩
  rcases h2 with h2 | ⟨y, h2⟩
  · exact .inl h2
  · exact .inr ⟨q, y, h2⟩

section
variable {P : Par} {f0 : Nat} {fs : List Nat} {sz : Nat → Nat} {blk : Block} {σ : Nat → Nat}

theorem skelOk_multi (h : P.Multi f0 fs) (hl : LineOk sz P.len blk σ) : SkelOk P.n (P.multiSk f0 fs sz blk σ) := by
  have H := h.copyOk hl Nat
  have hc : ∀ inst x, ∃ y, (P.multi f0 sz blk σ).cell inst x = .shm 0 y := fun inst x => ⟨_, rfl⟩
  refine ⟨H.partners, H.race, fun q hq i I e hI he => ?_, H.ne, H.done⟩
  obtain ⟨⟨i1, x1, h1⟩, h2⟩ := H.shape q hq i I e hI he
  refine ⟨?_, ?_⟩
  · rw [h1]; exact hc _ _
  · rcases h2 with ⟨i2, x2, h2⟩ | ⟨y, h2⟩
    · rw [h2]; exact .inl (hc _ _)
    · exact .inr ⟨y, h2⟩

/-- The first vector of the shared memory of a node after the copy-in is the sum of the data of its processes. -/
theorem multi_sum {X : Type} [AddCommMonoid X] (h : P.Multi f0 fs) (hl : LineOk sz P.len blk σ) (u : Users) (a : Nat)
    (m : Mem X) :
    (∀ e, e < P.len → ((skelM P.n u a (P.multiSk f0 fs sz blk σ)).map Prod.snd).foldl exec1 m (.shm 0) e =
      ∑ q ∈ Finset.range P.n, m .send (u.send (a * P.n + q) + σ e)) ∧
    ∀ r, r ≠ .shm 0 → ((skelM P.n u a (P.multiSk f0 fs sz blk σ)).map Prod.snd).foldl exec1 m r = m r := by
  obtain ⟨g1, g2⟩ := skel_exec (u := u) (a := a) (skelOk_multi h hl) m
  refine ⟨fun e he => ?_, g2⟩
  have hcell : (P.multi f0 sz blk σ).cell 0 e = .shm 0 e := by
    show Cell.shm 0 (0 * P.len + 0 + e) = _
    rw [Nat.zero_mul, Nat.zero_add]
  have hz : ∀ inst x, P.n ≤ inst * f0 → inst * f0 < P.s → x < P.len →
      cellOf P.n u a m ((P.multi f0 sz blk σ).cell inst x) = 0 := by
    intro inst x h1 h2 _
    have := h.s_le
    omega
  have k := (h.copyOk hl X).sum (cellOf P.n u a m) hz e he
  rw [hcell] at k
  exact (g1 _ (.inl ⟨e, rfl⟩)).trans k

end
end ExtMpi.Cluster
