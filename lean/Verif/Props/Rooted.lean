import Verif.Lemmas.Rooted
import Verif.Spec.Collective
import Verif.Model.Cyclic
import Verif.Model.Recursive
/-! C37: the root's result after dropping communication that does not contribute to it. -/
namespace ExtMpi.Rooted
open Schedule

theorem wf_split (N : Nat) (r0 : Row) (rs : List Row) (h : Wf N (r0 :: rs)) : ∃ next rest, rs = next :: rest := by
  cases rs with
  | nil => cases h
  | cons a b => exact ⟨a, b, rfl⟩

theorem prune_first (N root : Nat) (r0 next : Row) (rest rows' : List Row) (v : Nat → Vals)
    (h : prune N root true (r0 :: next :: rest) = some (rows', v)) :
    ∃ rn vn, prune N root false (next :: rest) = some (rn, vn) ∧ rn ≠ [] ∧
      rows' = (fun t => endBlock (descend (r0 t) (inherit (r0 t) (vn t))) (r0 t)) :: rn := by
  rw [prune] at h
  cases hpn : prune N root false (next :: rest) with
  | none => rw [hpn] at h; cases h
  | some pr =>
    obtain ⟨rn, vn⟩ := pr
    rw [hpn] at h
    simp only [if_true, Option.some.injEq, Prod.mk.injEq] at h
    refine ⟨rn, vn, rfl, ?_, h.1.symm⟩
    rintro rfl
    cases rest with
    | nil => rw [prune] at hpn; simp at hpn
    | cons r2 rest2 =>
      rw [prune] at hpn
      split at hpn
      · cases hpn
      · split at hpn
        · simp at hpn
        · split at hpn <;> simp at hpn

/-- `drops_match_partial` with the condition on lines that come back for needed lines only. -/
theorem drops_match_sound (N root : Nat) (r0 : Row) (rs rows' : List Row) (v : Nat → Vals) (prev top : Nat → Nat) (hw : SoundRows N root prev top rs)
    (hp : prune N root true (r0 :: rs) = some (rows', v)) :
    ∀ row' ∈ rows'.tail, ∀ q < N, ∀ t < N, q ≠ t → sendFlags (row' q) t = recvFlags (row' t) q := by
  cases rs with
  | nil => cases hw
  | cons next rest =>
    obtain ⟨rn, vn, h1, _, rfl⟩ := prune_first N root r0 next rest rows' v hp
    exact rows_flags N root _ _ _ rn vn hw h1

/-- The pass drops a send if and only if it drops the matching receive: in every row the flags of the sends from `q` to
`t` are the flags of the receives of `t` from `q`, in the order in which MPI matches them. -/
theorem drops_match_partial (N root : Nat) (rows rows' : List Row) (v : Nat → Vals) (hw : Wf N rows)
    (hp : prune N root true rows = some (rows', v)) :
    ∀ row' ∈ rows'.tail, ∀ q < N, ∀ t < N, q ≠ t → sendFlags (row' q) t = recvFlags (row' t) q := by
  cases rows with
  | nil => cases hw
  | cons r0 rs => exact drops_match_sound N root r0 rs rows' v _ _ (WfRows.sound root rs hw) hp

/-- `backward_partial` with the condition on lines that come back for needed lines only. -/
theorem backward_sound {V : Type} [Add V] (N root : Nat) (hroot : root < N) (r0 : Row) (rs rows' : List Row) (v : Nat → Vals)
    (hw : SoundRows N root (fun t => (r0 t).length) (fun t => (r0 t).length) rs) (hp : prune N root true (r0 :: rs) = some (rows', v))
    (hu : Unmixed N rows'.tail)
    (inp junk : Nat → Nat → V) (out : Nat → Nat → Option V) (hx : Exec N copyOut (columns (r0 :: rs)) inp junk out) :
    (∃ out', ExecD N copyOut rows' inp junk out') ∧ ∀ out', ExecD N copyOut rows' inp junk out' → out' root = out root := by
  cases rs with
  | nil => cases hw
  | cons next rest =>
    obtain ⟨rn, vn, h1, hne, rfl⟩ := prune_first N root r0 next rest rows' v hp
    obtain ⟨b0, bs, last, send, e1, e2, e3⟩ := hx
    have hb : ∀ t < N, b0 t = r0 t ∧ bs t = (next :: rest).map fun r => r t := by
      intro t ht
      have := (e1 t ht).1
      unfold columns at this
      rw [List.map_cons] at this
      exact ⟨(List.cons.inj this).1.symm, (List.cons.inj this).2.symm⟩
    obtain ⟨lrow, hl⟩ : ∃ l, (next :: rest).getLast? = some l := ⟨(next :: rest).getLast (by simp), List.getLast?_eq_some_getLast _⟩
    obtain ⟨lrow', hl'⟩ : ∃ l, rn.getLast? = some l := ⟨rn.getLast hne, List.getLast?_eq_some_getLast _⟩
    have hlast : last root = lrow root := by
      have := (e1 root hroot).2
      rw [(hb root hroot).2, List.getLast?_map, hl] at this
      simpa using this.symm
    obtain ⟨k1, k2⟩ := rows_agree N root hroot (next :: rest) (fun t => (r0 t).length) (fun t => (r0 t).length) rn vn hw h1 hu bs (fun t ht => (hb t ht).2)
      (fun t => copyIn (b0 t) (inp t) (junk t))
      (fun t => copyIn (endBlock (descend (r0 t) (inherit (r0 t) (vn t))) (r0 t)) (inp t) (junk t)) send (by
        intro q hq j hj
        rw [(hb q hq).1]
        unfold copyIn endBlock
        rw [List.getElem?_mapIdx]
        rcases hj with ⟨hj, hn⟩ | hj
        · rw [List.getElem?_eq_getElem hj]
          simp only [Option.map_some]
          rw [dropLine_recv, dropLine_frac, if_pos (descend_le _ _ _ (by rw [need_inherit _ _ _ hj]; exact hn))]
        · rw [List.getElem?_eq_none hj]
          rfl) e2
    constructor
    · obtain ⟨send', h⟩ := k1
      exact ⟨fun t => copyOut (lrow' t) (send' t), _, rn, lrow', send', rfl, hl', h, fun _ _ => rfl⟩
    · rintro out' ⟨r0', rs', last', send', f1, f2, f3, f4⟩
      obtain ⟨rfl, rfl⟩ := List.cons.inj f1
      rw [f4 root hroot, e3 root hroot, hlast]
      exact (k2 send' f3 lrow last' hl f2).symm

/-- C37 for schedules in which the pass keeps or drops every message as a whole: the pruned schedule runs to completion,
whatever the buffers contained before, and the root gets the result it gets without pruning. -/
theorem backward_partial {V : Type} [Add V] (N root : Nat) (hroot : root < N) (rows rows' : List Row) (v : Nat → Vals)
    (hw : Wf N rows) (hp : prune N root true rows = some (rows', v)) (hu : Unmixed N rows'.tail)
    (inp junk : Nat → Nat → V) (out : Nat → Nat → Option V) (hx : Exec N copyOut (columns rows) inp junk out) :
    (∃ out', ExecD N copyOut rows' inp junk out') ∧ ∀ out', ExecD N copyOut rows' inp junk out' → out' root = out root := by
  cases rows with
  | nil => cases hw
  | cons r0 rs => exact backward_sound N root hroot r0 rs rows' v (WfRows.sound root rs hw) hp hu inp junk out hx

/-- A reduce made of an allreduce: the root gets the sums. -/
theorem reduce_partial {V : Type} [AddCommMonoid V] (N root : Nat) (hroot : root < N) (rows rows' : List Row) (v : Nat → Vals)
    (hw : Wf N rows) (hp : prune N root true rows = some (rows', v)) (hu : Unmixed N rows'.tail)
    (hc : Computes (V := V) N copyOut (columns rows) (AllreducePost N)) (inp junk : Nat → Nat → V) :
    (∃ out', ExecD N copyOut rows' inp junk out') ∧ ∀ out', ExecD N copyOut rows' inp junk out' →
      ∀ b < N, out' root b = some (∑ s ∈ Finset.range N, inp s b) := by
  obtain ⟨⟨out, h1⟩, h2⟩ := hc inp junk
  obtain ⟨k1, k2⟩ := backward_partial N root hroot rows rows' v hw hp hu inp junk out h1
  exact ⟨k1, fun out' h b hb => by rw [k2 out' h]; exact h2 out h1 root b hroot hb⟩

/-- A gather made of an allgather: the root gets block `b` of node `b`. -/
theorem gather_partial {V : Type} [Add V] (N root : Nat) (hroot : root < N) (rows rows' : List Row) (v : Nat → Vals)
    (hw : Wf N rows) (hp : prune N root true rows = some (rows', v)) (hu : Unmixed N rows'.tail)
    (hc : Computes (V := V) N copyOut (columns rows) (AllgatherPost N)) (inp junk : Nat → Nat → V) :
    (∃ out', ExecD N copyOut rows' inp junk out') ∧ ∀ out', ExecD N copyOut rows' inp junk out' →
      ∀ b < N, out' root b = some (inp b b) := by
  obtain ⟨⟨out, h1⟩, h2⟩ := hc inp junk
  obtain ⟨k1, k2⟩ := backward_partial N root hroot rows rows' v hw hp hu inp junk out h1
  exact ⟨k1, fun out' h b hb => by rw [k2 out' h]; exact h2 out h1 root b hroot hb⟩

/-! ### Concrete schedules -/

/-- Rows of the schedules of all nodes. -/
def rowsOf (sched : Nat → List Block) : List Row :=
  (List.range (sched 0).length).map fun i t => match (sched t)[i]? with | some b => b | none => []

/-- Decision procedure for `WfLocal`. -/
def locB (prev top : Nat) (b : Block) : Bool :=
  (b.all fun l => (l.reducefrom ++ l.copyreducefrom).all fun r => decide (r < b.length)) &&
  (b.zipIdx.all fun x => x.1.copyreducefrom.all fun r => b.zipIdx.all fun y => !(decide (y.2 = r) && decide (x.2 < r)) || y.1.reducefrom.isEmpty) &&
  (b.zipIdx.all fun x => decide (x.2 < prev) || decide (top ≤ x.2) || !x.1.recvfrom.isEmpty ||
    (!x.1.copyreducefrom.isEmpty && x.1.reducefrom.isEmpty &&
      b.zipIdx.all fun y => !y.1.reducefrom.contains x.2 && (!y.1.copyreducefrom.contains x.2 || decide (x.2 < y.2)))) &&
  (b.zipIdx.all fun x => decide (x.2 < prev) || x.1.sendto.all fun e => e.1 == -1)

theorem locB_sound (prev top : Nat) (b : Block) (h : locB prev top b = true) : WfLocal prev top b := by
  unfold locB at h
  simp only [Bool.and_eq_true] at h
  obtain ⟨⟨⟨h1, h2⟩, h3⟩, h4⟩ := h
  have mz : ∀ (j : Nat) (l : LineD), b[j]? = some l → (l, j) ∈ b.zipIdx := fun j l hl => List.mem_zipIdx_iff_getElem?.mpr hl
  refine ⟨?_, ?_, ?_, ?_⟩
  · intro l hl r hr
    have := List.all_eq_true.mp (List.all_eq_true.mp h1 l hl) r hr
    simpa using this
  · intro j r l lr hl hlr hr hjr
    have := List.all_eq_true.mp (List.all_eq_true.mp (List.all_eq_true.mp h2 (l, j) (mz j l hl)) r hr) (lr, r) (mz r lr hlr)
    simpa [hjr] using this
  · intro j l hl hj htop hrec
    have := List.all_eq_true.mp h3 (l, j) (mz j l hl)
    have hj2 : ¬ j < prev := by omega
    have hj3 : ¬ top ≤ j := by omega
    simp only [hj2, hj3, decide_false, hrec, Bool.false_or, List.isEmpty_nil, Bool.not_true, Bool.and_eq_true] at this
    obtain ⟨⟨a1, a2⟩, a3⟩ := this
    refine ⟨by simpa using a1, by simpa using a2, ?_⟩
    intro y ly hy
    have := List.all_eq_true.mp a3 (ly, y) (mz y ly hy)
    simp only [Bool.and_eq_true, Bool.or_eq_true, Bool.not_eq_true', decide_eq_true_eq] at this
    refine ⟨by simpa using this.1, fun hc => ?_⟩
    rcases this.2 with h | h
    · rw [List.contains_eq_mem] at h
      simp [hc] at h
    · exact h
  · intro j l hl hj e he
    have := List.all_eq_true.mp h4 (l, j) (mz j l hl)
    have hj2 : ¬ j < prev := by omega
    simp only [hj2, decide_false, Bool.false_or] at this
    simpa using List.all_eq_true.mp this e he

/-- Decision procedure for `Nodup`. -/
def nodupB : List Int → Bool
  | [] => true
  | a :: l => !l.contains a && nodupB l

theorem nodupB_sound (l : List Int) (h : nodupB l = true) : l.Nodup := by
  induction l with
  | nil => exact List.nodup_nil
  | cons a l ih =>
    rw [nodupB, Bool.and_eq_true] at h
    rw [List.nodup_cons]
    exact ⟨by simpa using h.1, ih h.2⟩

/-- Decision procedure for `WfMid`. -/
def midB (N : Nat) (prev top : Nat → Nat) (row : Row) : Bool :=
  (List.range N).all fun t => locB (prev t) (top t) (row t) &&
    ((row t).all fun l => nodupB (l.sendto.map Prod.fst) && nodupB (l.recvfrom.map Prod.fst) && (l.sendto.isEmpty || l.recvfrom.isEmpty)) &&
    (List.range N).all fun q => match recvIdx (row t) q with
      | [] => true
      | n0 :: ns => decide (n0 :: ns = List.range' n0 (ns.length + 1))

theorem midB_sound (N : Nat) (prev top : Nat → Nat) (row : Row) (h : midB N prev top row = true) : WfMid N prev top row := by
  unfold midB at h
  have key : ∀ t < N, _ := fun t ht => List.all_eq_true.mp h t (List.mem_range.mpr ht)
  simp only [Bool.and_eq_true] at key
  refine ⟨fun t ht => locB_sound _ _ _ (key t ht).1.1, ?_, ?_, ?_⟩
  · intro t ht l hl
    have := List.all_eq_true.mp (key t ht).1.2 l hl
    simp only [Bool.and_eq_true] at this
    exact ⟨nodupB_sound _ this.1.1, nodupB_sound _ this.1.2⟩
  · intro t ht l hl
    have := List.all_eq_true.mp (key t ht).1.2 l hl
    simp only [Bool.and_eq_true, Bool.or_eq_true, List.isEmpty_iff] at this
    exact this.2
  · intro t ht q hq
    have := List.all_eq_true.mp (key t ht).2 q (List.mem_range.mpr hq)
    cases hx : recvIdx (row t) q with
    | nil => exact ⟨0, rfl⟩
    | cons n0 ns =>
      rw [hx] at this
      exact ⟨n0, by simpa using this⟩

/-- Decision procedure for `WfLast`. -/
def lastB (N : Nat) (prev top : Nat → Nat) (row : Row) : Bool :=
  (List.range N).all fun t => locB (prev t) (top t) (row t) && (row t).all fun l => (l.sendto.all fun e => e.1 == -1) && l.recvfrom.isEmpty

theorem lastB_sound (N : Nat) (prev top : Nat → Nat) (row : Row) (h : lastB N prev top row = true) : WfLast N prev top row := by
  unfold lastB at h
  have key : ∀ t < N, _ := fun t ht => List.all_eq_true.mp h t (List.mem_range.mpr ht)
  simp only [Bool.and_eq_true] at key
  refine ⟨fun t ht => locB_sound _ _ _ (key t ht).1, ?_, ?_⟩
  · intro t ht l hl e he
    have := List.all_eq_true.mp (key t ht).2 l hl
    simp only [Bool.and_eq_true] at this
    simpa using List.all_eq_true.mp this.1 e he
  · intro t ht l hl
    have := List.all_eq_true.mp (key t ht).2 l hl
    simp only [Bool.and_eq_true, List.isEmpty_iff] at this
    exact this.2

/-- Decision procedure for `WfRows`. -/
def rowsB (N : Nat) : (Nat → Nat) → (Nat → Nat) → List Row → Bool
  | _, _, [] => false
  | prev, top, [last] => lastB N prev top last
  | prev, top, row :: next :: rows =>
    midB N prev top row && rowsB N (fun t => (row t).length) (fun t => max (top t) (row t).length) (next :: rows)

theorem rowsB_sound (N : Nat) (rows : List Row) : ∀ prev top, rowsB N prev top rows = true → WfRows N prev top rows := by
  induction rows with
  | nil => intro prev top h; cases h
  | cons row rows ih =>
    intro prev top h
    cases rows with
    | nil => exact lastB_sound N prev top row h
    | cons next rest =>
      rw [rowsB, Bool.and_eq_true] at h
      exact ⟨midB_sound N prev top row h.1, ih _ _ h.2⟩

/-- Decision procedure for `Wf`. -/
def wfB (N : Nat) : List Row → Bool
  | [] => false
  | r0 :: rows => rowsB N (fun t => (r0 t).length) (fun t => (r0 t).length) rows

theorem wfB_sound (N : Nat) (rows : List Row) (h : wfB N rows = true) : Wf N rows := by
  cases rows with
  | nil => cases h
  | cons r0 rows => exact rowsB_sound N rows _ _ h

/-- Decision procedure for `Unmixed`. -/
def unmixedB (N : Nat) (rows : List Row) : Bool :=
  rows.all fun row => (List.range N).all fun t => (List.range N).all fun q => (recvIdx (row t) q).isEmpty || (deadIdx (row t) q).isEmpty || q == t

theorem unmixedB_sound (N : Nat) (rows : List Row) (h : unmixedB N rows = true) : Unmixed N rows := by
  intro row hr t ht q hq hqt
  have := List.all_eq_true.mp (List.all_eq_true.mp (List.all_eq_true.mp h row hr) t (List.mem_range.mpr ht)) q (List.mem_range.mpr hq)
  simpa [hqt] using this

/-- All hypotheses of `backward_partial`. -/
def okB (N root : Nat) (rows : List Row) : Bool :=
  wfB N rows && match prune N root true rows with | some (rows', _) => unmixedB N rows'.tail | none => false

theorem okB_sound (N root : Nat) (rows : List Row) (h : okB N root rows = true) :
    Wf N rows ∧ ∃ rows' v, prune N root true rows = some (rows', v) ∧ Unmixed N rows'.tail := by
  unfold okB at h
  rw [Bool.and_eq_true] at h
  refine ⟨wfB_sound N rows h.1, ?_⟩
  cases hp : prune N root true rows with
  | none => rw [hp] at h; cases h.2
  | some x =>
    obtain ⟨rows', v⟩ := x
    rw [hp] at h
    exact ⟨rows', v, rfl, unmixedB_sound N _ h.2⟩

/-- A gather on five nodes with three steps, and a reduce on three nodes with a reduce-scatter and an allgather phase. -/
example : Wf 5 (rowsOf (Cyclic.allgather 5 [1, 1, 1])) ∧ ∃ rows' v,
    prune 5 3 true (rowsOf (Cyclic.allgather 5 [1, 1, 1])) = some (rows', v) ∧ Unmixed 5 rows'.tail :=
  okB_sound 5 3 _ (by decide +kernel)

example : Wf 3 (rowsOf (Recursive.allreduce [2] [2])) ∧ ∃ rows' v,
    prune 3 1 true (rowsOf (Recursive.allreduce [2] [2])) = some (rows', v) ∧ Unmixed 3 rows'.tail :=
  okB_sound 3 1 _ (by decide +kernel)

/-! ### Violation -/

/-- States of an execution in which unused send memory contains `0` and unused receive memory contains `777`. -/
def dirtyRun (N : Nat) : List Row → (Nat → Nat → Nat) → Option (Nat → Nat → Nat)
  | [], s => some s
  | r :: rs, s =>
    if (List.range N).all fun t => (nodeStepD N r (fun _ _ => 0) (fun _ _ => 777) s t).isSome then
      dirtyRun N rs fun t => match nodeStepD N r (fun _ _ => 0) (fun _ _ => 777) s t with | some x => x | none => s t
    else none

theorem dirtyRun_sound (N : Nat) (rs : List Row) (s s' : Nat → Nat → Nat) (h : dirtyRun N rs s = some s') : RunD N rs s s' := by
  induction rs generalizing s with
  | nil => rw [dirtyRun, Option.some.injEq] at h; subst h; exact RunD.done
  | cons r rs ih =>
    rw [dirtyRun] at h
    split at h
    · rename_i hall
      refine RunD.step _ (fun _ _ _ => 0) (fun _ _ _ => 777) (fun t ht => ?_) (ih _ h)
      have := List.all_eq_true.mp hall t (List.mem_range.mpr ht)
      obtain ⟨x, hx⟩ := Option.isSome_iff_exists.mp this
      rw [hx]
    · cases h

/-- Result `b` of the root in this execution. Message `b` of node `t` is `10 * t + b`. -/
def dirtyOut (N root : Nat) (rows : List Row) (b : Nat) : Option Nat :=
  match rows with
  | r0 :: rs =>
    match rs.getLast?, dirtyRun N rs fun t => copyIn (r0 t) (fun x => 10 * t + x) fun _ => 555 with
    | some last, some s => copyOut (last root) (s root) b
    | _, _ => none
  | _ => none

theorem dirtyOut_sound (N root : Nat) (rows : List Row) (b x : Nat) (h : dirtyOut N root rows b = some x) :
    ∃ out, ExecD N copyOut rows (fun t x => 10 * t + x) (fun _ _ => 555) out ∧ out root b = some x := by
  unfold dirtyOut at h
  split at h
  · rename_i r0 rs
    split at h
    · rename_i last s hl hs
      exact ⟨fun t => copyOut (last t) (s t), ⟨r0, rs, last, s, rfl, hl, dirtyRun_sound N rs _ _ hs, fun _ _ => rfl⟩, h⟩
    · cases h
  · cases h

/-- Rows that agree on all nodes. -/
def Same (N : Nat) (rows rows' : List Row) : Prop := List.Forall₂ (fun r r' => ∀ t < N, r t = r' t) rows rows'

theorem allBufs_congr {V : Type} (b : Block) (node : Nat) (m m' : Nat → List (Option Nat × V)) (qs : List Nat) (h : ∀ q ∈ qs, m q = m' q) :
    allBufs b node m qs = allBufs b node m' qs := by
  induction qs with
  | nil => rfl
  | cons q qs ih =>
    rw [allBufs, allBufs, h q List.mem_cons_self, ih fun q hq => h q (List.mem_cons_of_mem _ hq)]

theorem RunD.congr {V : Type} [Add V] {N : Nat} {rows rows' : List Row} (hs : Same N rows rows') :
    ∀ {s s2 s' : Nat → Nat → V}, RunD N rows s s' → (∀ t < N, s t = s2 t) → ∃ s2', RunD N rows' s2 s2' ∧ ∀ t < N, s' t = s2' t := by
  induction hs with
  | nil =>
    intro s s2 s' h hst
    cases h
    exact ⟨s2, RunD.done, hst⟩
  | @cons r r' rs rs' hr _ ih =>
    intro s s2 s' h hst
    cases h with
    | step s1 sd rd h1 h2 =>
      obtain ⟨s2', k1, k2⟩ := ih h2 (fun _ _ => rfl)
      refine ⟨s2', RunD.step s1 sd rd (fun t ht => ?_) k1, k2⟩
      rw [← h1 t ht]
      unfold nodeStepD
      rw [← hr t ht, ← hst t ht]
      have : allBufs (r t) t (fun q => messageD (r' q) (s2 q) t (sd t q)) (order N t) =
          allBufs (r t) t (fun q => messageD (r q) (s q) t (sd t q)) (order N t) := by
        apply allBufs_congr
        intro q hq
        have := (mem_order N t q ht).mp hq
        rw [hr q this, hst q this]
      rw [this]

theorem ExecD.congr {V O : Type} [Add V] {N : Nat} {co : Block → (Nat → V) → O} {rows rows' : List Row} (hs : Same N rows rows')
    {inp junk : Nat → Nat → V} {out : Nat → O} (h : ExecD N co rows inp junk out) : ExecD N co rows' inp junk out := by
  obtain ⟨r0, rs, last, s', rfl, e2, e3, e4⟩ := h
  cases hs with
  | @cons _ r0' _ rs' h0 hrs =>
    obtain ⟨s2', k1, k2⟩ := RunD.congr hrs e3 (s2 := fun t => copyIn (r0' t) (inp t) (junk t)) fun t ht => by rw [h0 t ht]
    have hl : ∃ last', rs'.getLast? = some last' ∧ ∀ t < N, last t = last' t := by
      clear e3 k1 h0
      induction hrs with
      | nil => cases e2
      | @cons a a' as as' ha has ih =>
        cases has with
        | nil =>
          simp only [List.getLast?_singleton, Option.some.injEq] at e2
          subst e2
          exact ⟨a', rfl, ha⟩
        | cons hb hbs =>
          obtain ⟨l', g1, g2⟩ := ih (by simpa using e2)
          exact ⟨l', by simpa using g1, g2⟩
    obtain ⟨last', g1, g2⟩ := hl
    exact ⟨r0', rs', last', s2', rfl, g1, k1, fun t ht => by rw [e4 t ht, g2 t ht, k2 t ht]⟩

/-- Rows given by a table. -/
def unTable (T : List (List Block)) : List Row := T.map fun l t => match l[t]? with | some b => b | none => []

theorem unTable_same (N : Nat) (rows : List Row) : Same N (unTable (rows.map fun r => (List.range N).map r)) rows := by
  induction rows with
  | nil => exact List.Forall₂.nil
  | cons r rows ih =>
    refine List.Forall₂.cons (fun t ht => ?_) ih
    dsimp only
    rw [List.getElem?_map, List.getElem?_range ht]
    rfl

/-- The cyclic allgather on seven nodes after pruning for root 0. In the third row node 6 has two lines for node 4, of which the
second one is dropped. -/
def pruned7 : List (List Block) :=
  [[[⟨0,[],[(-1,0)],[],[]⟩], [⟨1,[],[(-1,0)],[],[]⟩], [⟨2,[],[(-1,0)],[],[]⟩], [⟨3,[],[(-1,0)],[],[]⟩],
  [⟨4,[],[(-1,0)],[],[]⟩], [⟨5,[],[(-1,0)],[],[]⟩], [⟨6,[],[(-1,0)],[],[]⟩]], [[⟨0,[(-16, 0)],[],[],[]⟩, ⟨1,[],[(1,
  0)],[],[]⟩], [⟨1,[(0, 0)],[],[],[]⟩, ⟨2,[],[(-12, 0)],[],[]⟩], [⟨2,[(-11, 0)],[],[],[]⟩, ⟨3,[],[(3, 0)],[],[]⟩],
  [⟨3,[(2, 0)],[],[],[]⟩, ⟨4,[],[(-14, 0)],[],[]⟩], [⟨4,[(-13, 0)],[],[],[]⟩, ⟨5,[],[(5, 0)],[],[]⟩], [⟨5,[(4,
  0)],[],[],[]⟩, ⟨6,[],[(-16, 0)],[],[]⟩], [⟨6,[(-15, 0)],[],[],[]⟩, ⟨0,[],[(-10, 0)],[],[]⟩]], [[⟨0,[(-15, 0)],[],[],[]⟩,
  ⟨1,[(-15, 1)],[],[],[]⟩, ⟨2,[],[(2, 0)],[],[]⟩, ⟨3,[],[(2, 1)],[],[]⟩], [⟨1,[(-16, 0)],[],[],[]⟩, ⟨2,[(-16,
  1)],[],[],[]⟩, ⟨3,[],[(-13, 0)],[],[]⟩, ⟨4,[],[(-13, 1)],[],[]⟩], [⟨2,[(0, 0)],[],[],[]⟩, ⟨3,[(0, 1)],[],[],[]⟩,
  ⟨4,[],[(-14, 0)],[],[]⟩, ⟨5,[],[(-14, 1)],[],[]⟩], [⟨3,[(-11, 0)],[],[],[]⟩, ⟨4,[(-11, 1)],[],[],[]⟩, ⟨5,[],[(-15,
  0)],[],[]⟩, ⟨6,[],[(-15, 1)],[],[]⟩], [⟨4,[(-12, 0)],[],[],[]⟩, ⟨5,[(-12, 1)],[],[],[]⟩, ⟨6,[],[(6, 0)],[],[]⟩,
  ⟨0,[],[(-16, 1)],[],[]⟩], [⟨5,[(-13, 0)],[],[],[]⟩, ⟨6,[(-13, 1)],[],[],[]⟩, ⟨0,[],[(-10, 0)],[],[]⟩, ⟨1,[],[(-10,
  1)],[],[]⟩], [⟨6,[(4, 0)],[],[],[]⟩, ⟨0,[(-14, 1)],[],[],[]⟩, ⟨1,[],[(-11, 0)],[],[]⟩, ⟨2,[],[(-11, 1)],[],[]⟩]],
  [[⟨0,[(-13, 0)],[],[],[]⟩, ⟨1,[(-13, 1)],[],[],[]⟩, ⟨2,[(-13, 2)],[],[],[]⟩, ⟨3,[],[],[],[]⟩, ⟨4,[],[(4, 0)],[],[]⟩,
  ⟨5,[],[(4, 1)],[],[]⟩, ⟨6,[],[(4, 2)],[],[]⟩], [⟨1,[(-14, 0)],[],[],[]⟩, ⟨2,[(-14, 1)],[],[],[]⟩, ⟨3,[(-14,
  2)],[],[],[]⟩, ⟨4,[],[],[],[]⟩, ⟨5,[],[(-15, 0)],[],[]⟩, ⟨6,[],[(-15, 1)],[],[]⟩, ⟨0,[],[(-15, 2)],[],[]⟩], [⟨2,[(-15,
  0)],[],[],[]⟩, ⟨3,[(-15, 1)],[],[],[]⟩, ⟨4,[(-15, 2)],[],[],[]⟩, ⟨5,[],[],[],[]⟩, ⟨6,[],[(-16, 0)],[],[]⟩, ⟨0,[],[(-16,
  1)],[],[]⟩, ⟨1,[],[(-16, 2)],[],[]⟩], [⟨3,[(-16, 0)],[],[],[]⟩, ⟨4,[(-16, 1)],[],[],[]⟩, ⟨5,[(-16, 2)],[],[],[]⟩,
  ⟨6,[],[],[],[]⟩, ⟨0,[],[(-10, 0)],[],[]⟩, ⟨1,[],[(-10, 1)],[],[]⟩, ⟨2,[],[(-10, 2)],[],[]⟩], [⟨4,[(0, 0)],[],[],[]⟩,
  ⟨5,[(0, 1)],[],[],[]⟩, ⟨6,[(0, 2)],[],[],[]⟩, ⟨0,[],[],[],[]⟩, ⟨1,[],[(-11, 0)],[],[]⟩, ⟨2,[],[(-11, 1)],[],[]⟩,
  ⟨3,[],[(-11, 2)],[],[]⟩], [⟨5,[(-11, 0)],[],[],[]⟩, ⟨6,[(-11, 1)],[],[],[]⟩, ⟨0,[(-11, 2)],[],[],[]⟩, ⟨1,[],[],[],[]⟩,
  ⟨2,[],[(-12, 0)],[],[]⟩, ⟨3,[],[(-12, 1)],[],[]⟩, ⟨4,[],[(-12, 2)],[],[]⟩], [⟨6,[(-12, 0)],[],[],[]⟩, ⟨0,[(-12,
  1)],[],[],[]⟩, ⟨1,[(-12, 2)],[],[],[]⟩, ⟨2,[],[],[],[]⟩, ⟨3,[],[(-13, 0)],[],[]⟩, ⟨4,[],[(-13, 1)],[],[]⟩, ⟨5,[],[(-13,
  2)],[],[]⟩]], [[⟨0,[(-1,0)],[],[],[]⟩, ⟨1,[(-1, 1)],[],[],[]⟩, ⟨2,[(-1, 2)],[],[],[]⟩, ⟨3,[(-1, 3)],[],[],[]⟩, ⟨4,[(-1,
  4)],[],[],[]⟩, ⟨5,[(-1, 5)],[],[],[]⟩, ⟨6,[(-1, 6)],[],[],[]⟩], [⟨1,[(-1, 1)],[],[],[]⟩, ⟨2,[(-1, 2)],[],[],[]⟩,
  ⟨3,[(-1, 3)],[],[],[]⟩, ⟨4,[(-1, 4)],[],[],[]⟩, ⟨5,[(-1, 5)],[],[],[]⟩, ⟨6,[(-1, 6)],[],[],[]⟩, ⟨0,[(-1,0)],[],[],[]⟩],
  [⟨2,[(-1, 2)],[],[],[]⟩, ⟨3,[(-1, 3)],[],[],[]⟩, ⟨4,[(-1, 4)],[],[],[]⟩, ⟨5,[(-1, 5)],[],[],[]⟩, ⟨6,[(-1, 6)],[],[],[]⟩,
  ⟨0,[(-1,0)],[],[],[]⟩, ⟨1,[(-1, 1)],[],[],[]⟩], [⟨3,[(-1, 3)],[],[],[]⟩, ⟨4,[(-1, 4)],[],[],[]⟩, ⟨5,[(-1, 5)],[],[],[]⟩,
  ⟨6,[(-1, 6)],[],[],[]⟩, ⟨0,[(-1,0)],[],[],[]⟩, ⟨1,[(-1, 1)],[],[],[]⟩, ⟨2,[(-1, 2)],[],[],[]⟩], [⟨4,[(-1, 4)],[],[],[]⟩,
  ⟨5,[(-1, 5)],[],[],[]⟩, ⟨6,[(-1, 6)],[],[],[]⟩, ⟨0,[(-1,0)],[],[],[]⟩, ⟨1,[(-1, 1)],[],[],[]⟩, ⟨2,[(-1, 2)],[],[],[]⟩,
  ⟨3,[(-1, 3)],[],[],[]⟩], [⟨5,[(-1, 5)],[],[],[]⟩, ⟨6,[(-1, 6)],[],[],[]⟩, ⟨0,[(-1,0)],[],[],[]⟩, ⟨1,[(-1, 1)],[],[],[]⟩,
  ⟨2,[(-1, 2)],[],[],[]⟩, ⟨3,[(-1, 3)],[],[],[]⟩, ⟨4,[(-1, 4)],[],[],[]⟩], [⟨6,[(-1, 6)],[],[],[]⟩, ⟨0,[(-1,0)],[],[],[]⟩,
  ⟨1,[(-1, 1)],[],[],[]⟩, ⟨2,[(-1, 2)],[],[],[]⟩, ⟨3,[(-1, 3)],[],[],[]⟩, ⟨4,[(-1, 4)],[],[],[]⟩, ⟨5,[(-1,
  5)],[],[],[]⟩]]]

theorem pruned7_eq : ((prune 7 0 true (rowsOf (Cyclic.allgather 7 [1, 1, 1]))).map fun x => x.1.map fun r => (List.range 7).map r) = some pruned7 := by
  decide +kernel

/-- A gather on seven nodes to node 0 made of the cyclic allgather with one port in three steps: the root can get memory
nobody wrote instead of the block of node 6. The message from node 6 to node 4 has two lines of which one is dropped. The
schedule satisfies the conditions of `backward_partial` except `Unmixed`. -/
theorem gather_violated : ∃ rows rows' v inp junk out, (∀ t < 7, columns rows t = Cyclic.allgather 7 [1, 1, 1] t) ∧ Wf 7 rows ∧
    prune 7 0 true rows = some (rows', v) ∧ ExecD 7 copyOut rows' inp junk out ∧ inp 6 6 = 66 ∧ out 0 6 = some 777 := by
  have hp := pruned7_eq
  cases hx : prune 7 0 true (rowsOf (Cyclic.allgather 7 [1, 1, 1])) with
  | none => rw [hx] at hp; cases hp
  | some x =>
    obtain ⟨rows', v⟩ := x
    rw [hx] at hp
    simp only [Option.map_some, Option.some.injEq] at hp
    obtain ⟨out, h2, h3⟩ := dirtyOut_sound 7 0 (unTable pruned7) 6 777 (by decide +kernel)
    rw [← hp] at h2
    refine ⟨rowsOf (Cyclic.allgather 7 [1, 1, 1]), rows', v, _, _, out, ?_, wfB_sound _ _ (by decide +kernel), hx,
      ExecD.congr (unTable_same 7 rows') h2, rfl, h3⟩
    have : (List.range 7).all (fun t => decide (columns (rowsOf (Cyclic.allgather 7 [1, 1, 1])) t = Cyclic.allgather 7 [1, 1, 1] t)) = true := by
      decide +kernel
    intro t ht
    simpa using List.all_eq_true.mp this t (List.mem_range.mpr ht)

end ExtMpi.Rooted
