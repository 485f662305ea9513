import Verif.Lemmas.OnNodeSeq
import Verif.Model.SingleNode
/-! Programs of which some processes leave out the copies to the receive buffer. -/
namespace ExtMpi.SingleNode
open OnNode Schedule

/-- Not the receive buffer of another process than the root. -/
def kept (root : Nat) : Cell → Bool
  | .recv p _ _ => p == root
  | _ => true

def keptAct (root : Nat) : Act → Bool
  | .elem _ d _ => kept root d
  | _ => true

def onlyItem (root : Nat) : Item → Item
  | .ops f => .ops fun p => (f p).filter fun e => kept root e.dst
  | .sync b w => .sync b w

def only (root : Nat) (sk : Skel) : Skel := sk.map (onlyItem root)

theorem only_elems (root p : Nat) (I : Item) : (onlyItem root I).elems p = (I.elems p).filter fun e => kept root e.dst := by
  cases I <;> rfl

theorem only_get {root : Nat} {sk : Skel} {i : Nat} {I : Item} (h : (only root sk)[i]? = some I) :
    ∃ J, sk[i]? = some J ∧ I = onlyItem root J := by
  simp only [only, List.getElem?_map, Option.map_eq_some_iff] at h
  obtain ⟨J, h1, h2⟩ := h
  exact ⟨J, h1, h2.symm⟩

theorem only_code (root : Nat) (sk : Skel) (p : Nat) : code (only root sk) p = (code sk p).filter (keptAct root) := by
  unfold only code
  induction sk with
  | nil => rfl
  | cons I sk ih =>
    simp only [List.map_cons, List.flatMap_cons, List.filter_append]
    rw [ih]
    congr 1
    cases I with
    | ops f =>
      simp only [onlyItem, Item.acts, List.filter_map]
      rfl
    | sync b w => rfl

theorem only_R {root n : Nat} {sk : Skel} {p i q j : Nat} (h : R n sk p i q j) : R n (only root sk) p i q j := by
  induction h with
  | own h => exact .own h
  | @sync q k b w h hq =>
    refine .sync (b := b) ?_ hq
    simp only [only, List.getElem?_map, h, Option.map_some, onlyItem]
  | trans _ _ h1 h2 => exact .trans h1 h2

theorem only_race {root n : Nat} {sk : Skel} (h : RaceFree n sk) : RaceFree n (only root sk) := by
  intro p q i j I J e f hp hq hpq hI hJ he hf hc
  obtain ⟨I', hI', rfl⟩ := only_get hI
  obtain ⟨J', hJ', rfl⟩ := only_get hJ
  rw [only_elems] at he hf
  rcases h p q i j I' J' e f hp hq hpq hI' hJ' (List.mem_filter.1 he).1 (List.mem_filter.1 hf).1 hc with h | h
  · exact Or.inl (only_R h)
  · exact Or.inr (only_R h)

theorem only_partners {root n : Nat} {sk : Skel} (h : Partners n sk) : Partners n (only root sk) := by
  intro b w hm
  obtain ⟨I, hI, he⟩ := List.mem_map.1 hm
  cases I with
  | ops f => cases he
  | sync b' w' =>
    simp only [onlyItem, Item.sync.injEq] at he
    obtain ⟨rfl, rfl⟩ := he
    exact h _ _ hI

section
variable {X : Type} [AddCommMonoid X]

theorem run_filter (root : Nat) (es : List Elem) (hs : ∀ e ∈ es, kept root e.src = true) (m m' : Cell → X)
    (hm : ∀ c, kept root c = true → m c = m' c) (c : Cell) (hc : kept root c = true) :
    runElems (es.filter fun e => kept root e.dst) m c = runElems es m' c := by
  induction es generalizing m m' with
  | nil => exact hm c hc
  | cons e es ih =>
    have ih := ih (fun f hf => hs f (by simp [hf]))
    have hse := hs e (by simp)
    rw [List.filter_cons]
    by_cases hk : kept root e.dst = true
    · rw [if_pos hk]
      refine ih (e.run m) (e.run m') ?_
      intro c hc
      simp only [Elem.run, accessed]
      rw [hm _ hk, hm _ hse, hm _ hc]
    · rw [if_neg hk]
      refine ih m (e.run m') ?_
      intro c hc
      rw [hm c hc]
      simp only [Elem.run, accessed]
      rw [if_neg]
      rintro rfl
      exact hk hc

theorem only_lockstep {root n : Nat} {sk : Skel} (hs : ∀ I ∈ sk, ∀ p, p < n → ∀ e ∈ I.elems p, kept root e.src = true)
    (m : Cell → X) (c : Cell) : lockstep n (only root sk) m c = if kept root c = true then lockstep n sk m c else m c := by
  have hl : ((only root sk).flatMap fun I => (List.range n).flatMap fun p => I.elems p) =
      (sk.flatMap fun I => (List.range n).flatMap fun p => I.elems p).filter fun e => kept root e.dst := by
    unfold only
    rw [List.flatMap_map, List.filter_flatMap]
    apply List.flatMap_congr
    intro I _
    rw [List.filter_flatMap]
    apply List.flatMap_congr
    intro p _
    exact only_elems root p I
  unfold lockstep
  rw [hl]
  split
  · rename_i hc
    refine run_filter root _ ?_ m m (fun _ _ => rfl) c hc
    intro e he
    simp only [List.mem_flatMap, List.mem_range] at he
    obtain ⟨I, hI, p, hp, he⟩ := he
    exact hs I hI p hp e he
  · rename_i hc
    apply runElems_other
    intro e he hd
    rw [List.mem_filter] at he
    rw [← hd] at hc
    exact hc he.2
end

/-! ### The copy-in does not write to the receive buffer -/

/-- Region that is not a receive buffer. -/
def inShm : Reg → Bool
  | .shm _ => true
  | .fast _ => true
  | _ => false

def toShm : Instr → Bool
  | .copy _ d _ _ => inShm d.reg
  | _ => true

theorem toShm_acts (root n p : Nat) (is : List Instr) (h : ∀ i ∈ is, toShm i = true) :
    (is.flatMap (Instr.acts n p)).filter (keptAct root) = is.flatMap (Instr.acts n p) := by
  rw [List.filter_eq_self]
  intro a ha
  obtain ⟨i, hi, ha⟩ := List.mem_flatMap.1 ha
  have hi := h i hi
  cases i with
  | copy red d s size =>
    simp only [Instr.acts, List.mem_map] at ha
    obtain ⟨e, _, rfl⟩ := ha
    obtain ⟨r, o⟩ := d
    cases r <;> simp [toShm, inShm] at hi <;> simp [keptAct, Addr.cell, kept]
  | set b r => simp only [Instr.acts, List.mem_singleton] at ha; subst ha; rfl
  | wait b r => simp only [Instr.acts, List.mem_singleton] at ha; subst ha; rfl
  | barrier b =>
    simp only [Instr.acts, List.mem_flatMap] at ha
    obtain ⟨k, _, ha⟩ := ha
    simp only [List.mem_cons, List.not_mem_nil, or_false] at ha
    rcases ha with rfl | rfl <;> rfl

theorem setWait_shm {b : Nat} {ranks : List Int} {w : Int} {i : Instr} (h : i ∈ setWait b ranks w) : toShm i = true := by
  simp only [setWait, List.mem_cons, List.not_mem_nil, or_false] at h
  rcases h with rfl | rfl <;> rfl

theorem busy_shm {b busy : Nat} {ranks : List Int} {i : Instr} (h : i ∈ busyRounds b busy ranks) : toShm i = true := by
  obtain ⟨_, _, h⟩ := List.mem_flatMap.1 h
  exact setWait_shm h

theorem idle_shm {b num : Nat} {ranks : List Int} {i : Instr} (h : i ∈ idleRounds b num ranks) : toShm i = true := by
  obtain ⟨_, _, h⟩ := List.mem_flatMap.1 h
  exact setWait_shm h

theorem local_shm {b all busy : Nat} {ranks : List Int} {i : Instr} (h : i ∈ localBarrier b all busy ranks) :
    toShm i = true := by
  rcases List.mem_append.1 h with h | h
  · exact busy_shm h
  · exact idle_shm h

theorem localFinal_shm {b : Nat} {busy : Int} {ranks : List Int} {i : Instr} (h : i ∈ localBarrierFinal b busy ranks) :
    toShm i = true := by
  unfold localBarrierFinal at h
  split at h
  · exact busy_shm h
  · exact idle_shm h

theorem ring_shm {k : Nat} {reg : Reg} (hr : inShm reg = true) {start : Nat} {red : Bool} {sz : Nat → Nat} {len al sl : Nat}
    (blk : Block) {add : Nat} {i : Instr} (h : i ∈ ringSlice k reg start red sz len al sl add blk) : toShm i = true := by
  induction blk generalizing add with
  | nil => cases h
  | cons l ls ih =>
    simp only [ringSlice, List.mem_append] at h
    rcases h with h | h
    · by_cases h1 : al + sl ≤ add ∨ add + sz l.frac ≤ al
      · rw [if_pos h1] at h; cases h
      · rw [if_neg h1] at h
        generalize (if add + sz l.frac < _ then _ else _) = s at h
        by_cases h2 : s = 0
        · rw [if_pos h2] at h; cases h
        · rw [if_neg h2, List.mem_singleton] at h
          subst h
          exact hr
    · exact ih h

theorem copyin_shm {b k : Nat} {pl : Place} (hr : inShm pl.reg = true) {sz : Nat → Nat} {len u gb nr : Nat} {ranks : List Int}
    {blk : Block} {own : Nat} {i : Instr} (h : i ∈ reduceCopyin b k pl sz len u gb nr ranks blk own) : toShm i = true := by
  unfold reduceCopyin at h
  rcases List.mem_append.1 h with h | h
  · obtain ⟨j, _, h⟩ := List.mem_flatMap.1 h
    simp only [List.mem_append] at h
    rcases h with h | h
    · exact ring_shm hr _ h
    · split at h
      · exact setWait_shm h
      · cases h
  · exact localFinal_shm h

theorem half_shm {b : Nat} {reg : Reg} (hr : inShm reg = true) {n h' len u own : Nat} {i : Instr}
    (h : i ∈ almostHalf b reg n h' len u own) : toShm i = true := by
  unfold almostHalf at h
  split at h
  · simp only [List.mem_append, List.mem_singleton] at h
    rcases h with (h | rfl) | h
    · exact localFinal_shm h
    · exact hr
    · exact localFinal_shm h
  · rcases List.mem_append.1 h with h | h <;> exact localFinal_shm h

theorem step_shm {fast : Bool} {pl : Place} (hr : inShm pl.reg = true) {v len f0 gb f : Nat} {seg : Seg} {own : Nat} {i : Instr}
    (h : i ∈ stepReduce fast pl v len f0 gb f seg own) : toShm i = true := by
  unfold stepReduce at h
  split at h
  · cases h
  · obtain ⟨_, _, rfl⟩ := List.mem_map.1 h
    exact hr

theorem tree_shm {b : Nat} {fast : Bool} {pl : Place} (hr : inShm pl.reg = true) {ts u v s len f0 own : Nat} (fs : List Nat)
    {gb : Nat} {lay : Nat → Seg} {i : Instr} (h : i ∈ (treeSteps b fast pl ts u v s len f0 own gb lay fs).1) : toShm i = true := by
  induction fs generalizing gb lay with
  | nil => cases h
  | cons f fs ih =>
    simp only [treeSteps, List.mem_append] at h
    rcases h with (h | h) | h
    · exact local_shm h
    · exact step_shm hr h
    · exact ih h

theorem final_shm {b s : Nat} {subset : Bool} {busy : List Int} {own : Nat} {i : Instr} (h : i ∈ finalBarrier b s subset busy own) :
    toShm i = true := by
  unfold finalBarrier at h
  split at h
  · split at h
    · rw [List.mem_singleton] at h; subst h; rfl
    · simp only [List.mem_append, List.mem_cons, List.not_mem_nil, or_false] at h
      rcases h with h | rfl | rfl
      · exact localFinal_shm h
      · rfl
      · rfl
  · simp only [List.mem_append, List.mem_cons, List.not_mem_nil, or_false] at h
    rcases h with h | rfl | rfl
    · exact localFinal_shm h
    · rfl
    · rfl

theorem copies_shm {b : Nat} {fast : Bool} {pl : Place} (hr : inShm pl.reg = true) {ts u s len : Nat} {factors : List Nat}
    {subset : Bool} {own : Nat} {t : List Instr} (ht : reduceCopies b fast pl ts u s len factors subset own = some t) {i : Instr}
    (h : i ∈ t) : toShm i = true := by
  unfold reduceCopies at ht
  split at ht
  · cases ht
  · simp only at ht
    split at ht
    · cases ht
    · injection ht with ht
      subst ht
      rcases List.mem_append.1 h with h | h
      · exact tree_shm hr _ h
      · exact final_shm h

theorem copyIn_shm {P : Par} {sz : Nat → Nat} {blk : Block} {b k own : Nat} {c : List Instr}
    (hc : OnNode.copyIn P sz blk b k own = some c) {i : Instr} (h : i ∈ c) : toShm i = true := by
  have hr : inShm (P.place b).reg = true := by
    unfold Par.place
    split <;> rfl
  unfold OnNode.copyIn copyInWith at hc
  split at hc
  · cases hc
  · split at hc
    · cases hc
    · simp only at hc
      split at hc
      · obtain ⟨t, ht, rfl⟩ := Option.map_eq_some_iff.1 hc
        simp only [List.mem_append] at h
        rcases h with (h | h) | h
        · exact copyin_shm hr h
        · exact half_shm hr h
        · exact copies_shm hr ht h
      · obtain ⟨t, ht, rfl⟩ := Option.map_eq_some_iff.1 hc
        simp only [List.mem_append] at h
        rcases h with h | h
        · exact copyin_shm hr h
        · exact copies_shm hr ht h

/-- The program of the reduce is the one of the allreduce without some copies. -/
theorem reduce_acts {P : Par} {root lead b k own : Nat} {pr : List Instr} (h : allreduce P lead b k own = some pr) :
    ∃ pr', reduce P root lead b k own = some pr' ∧
      pr'.flatMap (Instr.acts P.n own) = (pr.flatMap (Instr.acts P.n own)).filter (keptAct root) := by
  unfold allreduce at h
  obtain ⟨c, hc, rfl⟩ := Option.map_eq_some_iff.1 h
  refine ⟨_, by unfold reduce; rw [hc]; rfl, ?_⟩
  have h1 := toShm_acts root P.n own (List.replicate lead (.barrier b) ++ c) (by
    intro i hi
    rcases List.mem_append.1 hi with hi | hi
    · rw [List.eq_of_mem_replicate hi]; rfl
    · exact copyIn_shm hc hi)
  rw [List.flatMap_append, List.flatMap_append (ys := OnNode.copyOut P b k), List.filter_append, h1]
  congr 1
  unfold OnNode.copyOut
  by_cases h0 : P.len = 0
  · simp [h0]
  · rw [if_neg h0]
    by_cases ho : own = root
    · rw [if_pos ho]
      simp [Instr.acts, List.filter_map, Function.comp_def, keptAct, kept, Addr.cell, ho]
    · rw [if_neg ho]
      simp [Instr.acts, List.filter_map, Function.comp_def, keptAct, kept, Addr.cell, ho]

end ExtMpi.SingleNode
