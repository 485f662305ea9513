import Verif.Lemmas.ForwardGather
import Verif.Props.Rooted
import Verif.Props.CyclicReduce
/-! C71, C72: broadcasts and scatters made of reductions by dropping the communication of lines without data of the root. -/
namespace ExtMpi.Forward
open Schedule Rooted

/-! ### Results -/

theorem copyOut_line {V : Type} (b : Block) (v : Nat → V) (f : Nat) (x : V) (h : copyOut b v f = some x) :
    ∃ (j : Nat) (l : LineD), b[j]? = some l ∧ l.sendto ≠ [] ∧ l.frac = f ∧ x = v j := by
  unfold copyOut at h
  have key : ∀ (c : List (LineD × Nat)) (o : Nat → Option V), (∀ y ∈ c, b[y.2]? = some y.1) →
      (c.foldl (fun out y => if y.1.sendto.any fun e => e.1 == -1 then upd out y.1.frac (some (v y.2)) else out) o) f = some x →
      o f = some x ∨ ∃ (j : Nat) (l : LineD), b[j]? = some l ∧ l.sendto ≠ [] ∧ l.frac = f ∧ x = v j := by
    intro c
    induction c with
    | nil => intro o _ h; exact Or.inl h
    | cons y c ih =>
      intro o hc h
      rw [List.foldl_cons] at h
      rcases ih _ (fun z hz => hc z (List.mem_cons_of_mem _ hz)) h with h | h
      · split at h
        · rename_i hs
          unfold upd at h
          split at h
          · rename_i hf
            rw [Option.some.injEq] at h
            refine Or.inr ⟨y.2, y.1, hc y List.mem_cons_self, ?_, hf.symm, h.symm⟩
            intro he
            rw [he] at hs
            cases hs
          · exact Or.inl h
        · exact Or.inl h
      · exact Or.inr h
  rcases key b.zipIdx (fun _ => none) (fun y hy => mem_zipIdx b y.1 y.2 hy) h with h | h
  · cases h
  · exact h

theorem copyOut_some {V : Type} (b : Block) (v : Nat → V) (j : Nat) (l : LineD) (hl : b[j]? = some l)
    (hs : (l.sendto.any fun e => e.1 == -1) = true) : ∃ x, copyOut b v l.frac = some x := by
  unfold copyOut
  have keep : ∀ (c : List (LineD × Nat)) (o : Nat → Option V), (∃ x, o l.frac = some x) →
      ∃ x, (c.foldl (fun out y => if y.1.sendto.any fun e => e.1 == -1 then upd out y.1.frac (some (v y.2)) else out) o) l.frac = some x := by
    intro c
    induction c with
    | nil => intro o h; exact h
    | cons y c ih =>
      intro o h
      rw [List.foldl_cons]
      apply ih
      split
      · unfold upd
        dsimp only
        split
        · exact ⟨_, rfl⟩
        · exact h
      · exact h
  have key : ∀ (c : List (LineD × Nat)) (o : Nat → Option V), (l, j) ∈ c →
      ∃ x, (c.foldl (fun out y => if y.1.sendto.any fun e => e.1 == -1 then upd out y.1.frac (some (v y.2)) else out) o) l.frac = some x := by
    intro c
    induction c with
    | nil => intro o h; cases h
    | cons y c ih =>
      intro o h
      rw [List.foldl_cons]
      rcases List.mem_cons.mp h with h | h
      · subst h
        apply keep
        rw [if_pos hs]
        unfold upd
        rw [if_pos rfl]
        exact ⟨_, rfl⟩
      · exact ih _ h
  exact key _ _ (List.mem_zipIdx_iff_getElem?.mpr hl)

/-- Values of block 0: the data the root copies in. -/
theorem first_marks (N root t : Nat) (b : Block)
    (h : ∀ l ∈ b, l.sendto = [] ∧ l.reducefrom = [] ∧ l.copyreducefrom = [] ∧ ∀ e ∈ l.recvfrom, e.1 = -1) :
    (finish (carry [] (seedF root t b) (clearIn root t b)) (clearIn root t b)).2.length = b.length ∧
    ∀ (j : Nat) (l : LineD), b[j]? = some l →
      val (finish (carry [] (seedF root t b) (clearIn root t b)) (clearIn root t b)).2 j = if t = root ∧ l.recvfrom ≠ [] then 2 else 0 := by
  have hc : ∀ l ∈ clearIn root t b, l.copyreducefrom = [] ∧ l.reducefrom = [] := by
    intro l hl
    obtain ⟨l0, hl0, rfl⟩ := List.mem_map.mp hl
    obtain ⟨_, h2, h3, _⟩ := h l0 hl0
    split
    · exact ⟨h3, h2⟩
    · exact ⟨h3, h2⟩
  have hlen : (clearIn root t b).length = b.length := by simp [clearIn]
  generalize hm : carry [] (seedF root t b) (clearIn root t b) = m
  refine ⟨by rw [(finish_line m _ fun l hl => (hc l hl).1).2.1, hlen], ?_⟩
  intro j l hl
  have hj : (clearIn root t b)[j]? = some (if t ≠ root ∧ (l.recvfrom.any fun e => e.1 == -1) = true then { l with recvfrom := [] } else l) := by
    unfold clearIn
    rw [List.getElem?_map, hl]
    rfl
  obtain ⟨h1, h2, h3, h4⟩ := h l (List.mem_of_getElem? hl)
  have hany : l.recvfrom ≠ [] → (l.recvfrom.any fun e => e.1 == -1) = true := by
    intro hne
    obtain ⟨e, he⟩ := List.exists_mem_of_ne_nil _ hne
    rw [List.any_eq_true]
    exact ⟨e, he, by rw [h4 e he]; rfl⟩
  have hanyi : (l.recvfrom.any fun e => e.1 == -1) = true ↔ l.recvfrom ≠ [] := by
    refine ⟨fun h hc => ?_, hany⟩
    rw [hc] at h
    cases h
  have hvm : val m j = if t = root ∧ l.recvfrom ≠ [] then 2 else 0 := by
    rw [← hm]
    unfold carry
    rw [val_mapIdx _ _ j _ hj]
    have hs : (if t ≠ root ∧ (l.recvfrom.any fun e => e.1 == -1) = true then { l with recvfrom := [] } else l).sendto = [] := by
      split
      · exact h1
      · exact h1
    rw [hs, if_neg (by simp), if_neg (by simp [val])]
    unfold val seedF
    rw [List.getElem?_map, hl]
    simp only [Option.map_some, hanyi]
  have hvs : val (settle m (clearIn root t b)) j = if t = root ∧ l.recvfrom ≠ [] then 2 else 0 := by
    unfold settle
    rw [val_mapIdx _ _ j _ hj, hvm]
    by_cases ht : t = root ∧ l.recvfrom ≠ []
    · rw [if_pos ht, if_neg (by omega)]
    · rw [if_neg ht]
      split <;> (split <;> rfl)
  obtain ⟨g1, g2, g3⟩ := loop_line ((clearIn root t b).mapIdx (dropF m)) (settle m (clearIn root t b)) (by simp [settle]) (by
    intro l hl
    obtain ⟨i, hi⟩ := List.mem_iff_getElem?.mp hl
    rw [List.getElem?_mapIdx] at hi
    obtain ⟨l0, hl0, rfl⟩ := Option.map_eq_some_iff.mp hi
    exact (hc l0 (List.mem_of_getElem? hl0)).1)
  obtain ⟨l', _, _, _, _, k⟩ := g3 j _ (by rw [List.getElem?_mapIdx, hj]; rfl)
  unfold finish
  have hr : (dropF m j (if t ≠ root ∧ (l.recvfrom.any fun e => e.1 == -1) = true then { l with recvfrom := [] } else l)).reducefrom = [] := by
    unfold dropF
    dsimp only
    split
    · exact h2
    · exact h2
  rw [hr] at k
  rcases k with ⟨e1, _, e3, e4⟩ | ⟨_, _, _, e4⟩
  · rw [e4, e3, ← hvs, e1]
    rfl
  · rw [e4, hvs]

/-- The states at the end of both programs. -/
theorem forward_exec (N root : Nat) (hroot : root < N) (r0 : Row) (rows rows' : List Row) (v : Nat → Marks)
    (hw : FWf N root r0 rows) (hf : forward N root (r0 :: rows) = some (rows', v)) (hu : Unmixed N rows'.tail) (hO : Ordered N rows'.tail) :
    ∃ (p : Nat → Marks) (cl : Nat → Nat → Bool) (last : Row), rows.getLast? = some last ∧ FLast N cl last ∧
      ∀ (V O : Type) [AddMonoid V] (co : Block → (Nat → V) → O) (inp : Nat → V) (junk : Nat → Nat → V) (out : Nat → O),
        Exec N co (columns (r0 :: rows)) (only root inp) (fun _ _ => 0) out →
        (∃ out', ExecF N root co rows' inp junk out') ∧
        ∃ send : Nat → Nat → V, (∀ t < N, out t = co (last t) (send t)) ∧
          ∀ out', ExecF N root co rows' inp junk out' →
            ∃ send' : Nat → Nat → V, (∀ t < N, out' t = co (last t) (send' t)) ∧ Inv N cl p send send' := by
  rw [forward] at hf
  dsimp only at hf
  cases hfn : forwardRows N (fun t => (finish (carry [] (seedF root t (r0 t)) (clearIn root t (r0 t))) (clearIn root t (r0 t))).2) rows with
  | none => rw [hfn] at hf; cases hf
  | some pr =>
    obtain ⟨rn, vn⟩ := pr
    rw [hfn] at hf
    simp only [Option.some.injEq, Prod.mk.injEq] at hf
    obtain ⟨rfl, _⟩ := hf
    rw [List.tail_cons] at hu hO
    obtain ⟨p, cl, last, last', k1, k2, k3, k4, k5⟩ := rows_forward N rows _ _ _ rn vn hw.rows hfn hu hO
      (fun t ht => (first_marks N root t (r0 t) (hw.first t ht)).1)
    refine ⟨p, cl, last, k1, k4, ?_⟩
    intro V O _ co inp junk out hx
    obtain ⟨b0, bs, lst, send, e1, e2, e3⟩ := hx
    have hb : ∀ t < N, b0 t = r0 t ∧ bs t = rows.map fun r => r t := by
      intro t ht
      have := (e1 t ht).1
      unfold columns at this
      rw [List.map_cons] at this
      exact ⟨(List.cons.inj this).1.symm, (List.cons.inj this).2.symm⟩
    have hlast : ∀ t < N, lst t = last t := by
      intro t ht
      have := (e1 t ht).2
      rw [(hb t ht).2, List.getLast?_map, k1] at this
      simpa using this.symm
    obtain ⟨f1, f2⟩ := k5 V bs (fun t => copyIn (b0 t) (only root inp t) fun _ => 0) (fun t => copyInRoot N root t inp (junk t)) send
      (fun t ht => (hb t ht).2) (by
        intro t ht j _
        dsimp only
        rw [(hb t ht).1]
        obtain ⟨m1, m2⟩ := first_marks N root t (r0 t) (hw.first t ht)
        by_cases hj : j < (r0 t).length
        · have hl : (r0 t)[j]? = some (r0 t)[j] := List.getElem?_eq_getElem hj
          generalize (r0 t)[j] = l at hl
          rw [m2 j l hl]
          unfold copyIn only
          rw [hl]
          dsimp only
          by_cases hc : t = root ∧ l.recvfrom ≠ []
          · rw [if_pos hc]
            obtain ⟨rfl, hne⟩ := hc
            refine ⟨fun _ => ?_, fun h => by cases h⟩
            obtain ⟨q1, q2⟩ := hw.rotated j l hl hne
            obtain ⟨e, he⟩ := List.exists_mem_of_ne_nil _ hne
            rw [if_pos (List.any_eq_true.mpr ⟨e, he, by rw [(hw.first t ht l (List.mem_of_getElem? hl)).2.2.2 e he]; rfl⟩), if_pos rfl]
            unfold copyInRoot
            rw [if_pos ⟨rfl, q1⟩, q2]
          · rw [if_neg hc]
            refine ⟨fun h => absurd rfl h, fun _ => ?_⟩
            split
            · rename_i hany
              rw [if_neg]
              rintro rfl
              apply hc
              refine ⟨rfl, fun h0 => ?_⟩
              rw [h0] at hany
              cases hany
            · rfl
        · have h0 := val_big (finish (carry [] (seedF root t (r0 t)) (clearIn root t (r0 t))) (clearIn root t (r0 t))).2 j (by omega)
          refine ⟨fun h => absurd h0 h, fun _ => ?_⟩
          unfold copyIn
          rw [List.getElem?_eq_none (by omega)]) e2
    constructor
    · obtain ⟨send', h⟩ := f1
      exact ⟨fun t => co (last' t) (send' t), _, rn, last', send', rfl, k2, h, fun _ _ => rfl⟩
    · refine ⟨send, fun t ht => by rw [e3 t ht, hlast t ht], ?_⟩
      rintro out' ⟨r0', rs', l', send', g1, g2, g3, g4⟩
      obtain ⟨rfl, rfl⟩ := List.cons.inj g1
      rw [k2, Option.some.injEq] at g2
      subst g2
      exact ⟨send', fun t ht => by rw [g4 t ht, k3 t ht], f2 send' g3⟩

theorem sum_only {V : Type} [AddCommMonoid V] (N root : Nat) (hroot : root < N) (inp : Nat → V) (b : Nat) :
    ∑ s ∈ Finset.range N, only root inp s b = inp b := by
  unfold only
  rw [Finset.sum_ite_eq' (Finset.range N) root fun _ => inp b, if_pos (Finset.mem_range.mpr hroot)]

/-- C71 for schedules in which the pass keeps or drops every message as a whole: made of a correct allreduce, the broadcast runs to
completion whatever the unused memory contains, and every node gets the messages of the root. -/
theorem bcast_partial {V : Type} [AddCommMonoid V] (N root : Nat) (hroot : root < N) (r0 : Row) (rows rows' : List Row) (v : Nat → Marks)
    (hw : FWf N root r0 rows) (hf : forward N root (r0 :: rows) = some (rows', v)) (hu : Unmixed N rows'.tail) (hO : Ordered N rows'.tail)
    (hc : ∀ (W : Type) [AddCommMonoid W], Computes (V := W) N copyOut (columns (r0 :: rows)) (AllreducePost N))
    (inp : Nat → V) (junk : Nat → Nat → V) :
    (∃ out, ExecF N root copyOut rows' inp junk out) ∧
      ∀ out, ExecF N root copyOut rows' inp junk out → ∀ t < N, ∀ b < N, out t b = some (inp b) := by
  obtain ⟨p, cl, last, h1, h2, h3⟩ := forward_exec N root hroot r0 rows rows' v hw hf hu hO
  obtain ⟨⟨o, ho⟩, hpost⟩ := hc V (only root inp) fun _ _ => 0
  obtain ⟨⟨on, hon⟩, hpostn⟩ := hc Nat (only root fun _ => 1) fun _ _ => 0
  obtain ⟨k1, send, k2, k3⟩ := h3 V _ copyOut inp junk o ho
  refine ⟨k1, fun out hout t ht b hb => ?_⟩
  obtain ⟨send', k4, k5⟩ := k3 out hout
  obtain ⟨⟨on', hon'⟩, sendn, n2, n3⟩ := h3 Nat _ copyOut (fun _ => 1) (fun _ _ => 0) on hon
  obtain ⟨sendn', _, n5⟩ := n3 on' hon'
  have q1 := hpost o ho t b ht hb
  rw [sum_only N root hroot, k2 t ht] at q1
  have q2 := hpostn on hon t b ht hb
  rw [sum_only N root hroot, n2 t ht] at q2
  obtain ⟨j, l, a1, a2, a3, a4⟩ := copyOut_line _ _ _ _ q1
  obtain ⟨jn, ln, c1, c2, c3, c4⟩ := copyOut_line _ _ _ _ q2
  have hjj : jn = j := h2.once t ht jn j ln l c1 a1 c2 a2 (by rw [c3, a3])
  subst hjj
  have hcl := h2.results t ht jn l a1 a2
  have hval : val (p t) jn ≠ 0 := by
    intro h0
    have := (n5 t ht jn hcl).2 h0
    omega
  have hs := (k5 t ht jn hcl).1 hval
  obtain ⟨e, he⟩ := List.exists_mem_of_ne_nil _ a2
  obtain ⟨x, hx⟩ := copyOut_some (last t) (send' t) jn l a1
    (List.any_eq_true.mpr ⟨e, he, by rw [(h2.plain t ht l (List.mem_of_getElem? a1)).2.2.2 e he]; rfl⟩)
  obtain ⟨j2, l2, d1, d2, d3, d4⟩ := copyOut_line _ _ _ _ hx
  have hj2 : j2 = jn := h2.once t ht j2 jn l2 l d1 a1 d2 a2 d3
  subst hj2
  rw [k4 t ht, ← a3, hx, d4, ← hs, ← a4, a3]

/-- C72 for schedules in which the pass keeps or drops every message as a whole: made of a correct reduce_scatter, the scatter runs to
completion whatever the unused memory contains, and every node gets its message of the root. -/
theorem scatter_partial {V : Type} [AddCommMonoid V] (N root : Nat) (hroot : root < N) (r0 : Row) (rows rows' : List Row) (v : Nat → Marks)
    (hw : FWf N root r0 rows) (hf : forward N root (r0 :: rows) = some (rows', v)) (hu : Unmixed N rows'.tail) (hO : Ordered N rows'.tail)
    (hc : ∀ (W : Type) [AddCommMonoid W], Computes (V := W) N copyOutFirst (columns (r0 :: rows)) (ReduceScatterPost N))
    (inp : Nat → V) (junk : Nat → Nat → V) :
    (∃ out, ExecF N root copyOutFirst rows' inp junk out) ∧
      ∀ out, ExecF N root copyOutFirst rows' inp junk out → ∀ t < N, out t = some (inp t) := by
  obtain ⟨p, cl, last, h1, h2, h3⟩ := forward_exec N root hroot r0 rows rows' v hw hf hu hO
  obtain ⟨⟨o, ho⟩, hpost⟩ := hc V (only root inp) fun _ _ => 0
  obtain ⟨⟨on, hon⟩, hpostn⟩ := hc Nat (only root fun _ => 1) fun _ _ => 0
  obtain ⟨k1, send, k2, k3⟩ := h3 V _ copyOutFirst inp junk o ho
  refine ⟨k1, fun out hout t ht => ?_⟩
  obtain ⟨send', k4, k5⟩ := k3 out hout
  obtain ⟨⟨on', hon'⟩, sendn, n2, n3⟩ := h3 Nat _ copyOutFirst (fun _ => 1) (fun _ _ => 0) on hon
  obtain ⟨sendn', _, n5⟩ := n3 on' hon'
  have q1 := hpost o ho t ht
  rw [sum_only N root hroot, k2 t ht] at q1
  have q2 := hpostn on hon t ht
  rw [sum_only N root hroot, n2 t ht] at q2
  rw [k4 t ht]
  unfold copyOutFirst at q1 q2 ⊢
  cases hx : (last t).zipIdx.find? fun x => !x.1.sendto.isEmpty with
  | none => rw [hx] at q1; cases q1
  | some x =>
    rw [hx] at q1 q2
    simp only [Option.map_some, Option.some.injEq] at q1 q2 ⊢
    have hmem := mem_zipIdx _ x.1 x.2 (List.mem_of_find?_eq_some hx)
    have hne : x.1.sendto ≠ [] := by
      have := List.find?_some hx
      simpa using this
    have hcl := h2.results t ht x.2 x.1 hmem hne
    have hval : val (p t) x.2 ≠ 0 := by
      intro h0
      have := (n5 t ht x.2 hcl).2 h0
      omega
    rw [← (k5 t ht x.2 hcl).1 hval, q1]

/-! ### Concrete schedules -/

/-- Decision procedure for `FMid`. -/
def fmidB (N : Nat) (clean : Nat → Nat → Bool) (row : Row) : Bool :=
  (List.range N).all fun t =>
    ((row t).all fun l => l.copyreducefrom.isEmpty && nodupB (l.sendto.map Prod.fst) && decide (l.recvfrom.length ≤ 1) &&
      (l.sendto.isEmpty || l.recvfrom.isEmpty)) &&
    ((row t).zipIdx.all fun x =>
      (x.1.reducefrom.all fun r => (row t).zipIdx.all fun y => !(decide (y.2 = r) && decide (x.2 < r)) || y.1.reducefrom.isEmpty) &&
      (!live clean row t x.2 || x.1.reducefrom.all fun r => live clean row t r) &&
      (x.1.sendto.isEmpty || clean t x.2)) &&
    (List.range N).all fun q => match recvIdx (row t) q with
      | [] => true
      | n0 :: ns => decide (n0 :: ns = List.range' n0 (ns.length + 1))

theorem fmidB_sound (N : Nat) (clean : Nat → Nat → Bool) (row : Row) (h : fmidB N clean row = true) : FMid N clean row := by
  unfold fmidB at h
  have key : ∀ t < N, _ := fun t ht => List.all_eq_true.mp h t (List.mem_range.mpr ht)
  simp only [Bool.and_eq_true] at key
  have kl : ∀ t < N, ∀ l ∈ row t, _ := fun t ht l hl => List.all_eq_true.mp (key t ht).1.1 l hl
  have kz : ∀ t < N, ∀ (j : Nat) (l : LineD), (row t)[j]? = some l → _ :=
    fun t ht j l hl => List.all_eq_true.mp (key t ht).1.2 (l, j) (List.mem_zipIdx_iff_getElem?.mpr hl)
  simp only [Bool.and_eq_true, List.isEmpty_iff, Bool.or_eq_true, decide_eq_true_eq] at kl
  refine ⟨fun t ht l hl => (kl t ht l hl).1.1.1, ?_, ?_, ?_, fun t ht l hl => ⟨nodupB_sound _ (kl t ht l hl).1.1.2, (kl t ht l hl).1.2⟩,
    fun t ht l hl => (kl t ht l hl).2, ?_⟩
  · intro t ht j r l lr hl hlr hr hjr
    have := kz t ht j l hl
    simp only [Bool.and_eq_true] at this
    have := List.all_eq_true.mp (List.all_eq_true.mp this.1.1 r hr) (lr, r) (List.mem_zipIdx_iff_getElem?.mpr hlr)
    simpa [hjr] using this
  · intro t ht j l hl hlv r hr
    have := kz t ht j l hl
    simp only [Bool.and_eq_true] at this
    have := this.1.2
    rw [hlv] at this
    exact List.all_eq_true.mp this r hr
  · intro t ht j l hl hs
    have := kz t ht j l hl
    simp only [Bool.and_eq_true, Bool.or_eq_true, List.isEmpty_iff] at this
    exact this.2.resolve_left hs
  · intro t ht q hq
    have := List.all_eq_true.mp (key t ht).2 q (List.mem_range.mpr hq)
    cases hx : recvIdx (row t) q with
    | nil => exact ⟨0, rfl⟩
    | cons n0 ns =>
      rw [hx] at this
      exact ⟨n0, by simpa using this⟩

/-- Decision procedure for `FLast`. -/
def flastB (N : Nat) (clean : Nat → Nat → Bool) (row : Row) : Bool :=
  (List.range N).all fun t =>
    ((row t).all fun l => l.recvfrom.isEmpty && l.reducefrom.isEmpty && l.copyreducefrom.isEmpty && l.sendto.all fun e => e.1 == -1) &&
    (row t).zipIdx.all fun x => (x.1.sendto.isEmpty || clean t x.2) &&
      (row t).zipIdx.all fun y => x.1.sendto.isEmpty || y.1.sendto.isEmpty || x.1.frac != y.1.frac || x.2 == y.2

theorem flastB_sound (N : Nat) (clean : Nat → Nat → Bool) (row : Row) (h : flastB N clean row = true) : FLast N clean row := by
  unfold flastB at h
  have key : ∀ t < N, _ := fun t ht => List.all_eq_true.mp h t (List.mem_range.mpr ht)
  simp only [Bool.and_eq_true] at key
  refine ⟨?_, ?_, ?_⟩
  · intro t ht l hl
    have := List.all_eq_true.mp (key t ht).1 l hl
    simp only [Bool.and_eq_true, List.isEmpty_iff, List.all_eq_true] at this
    exact ⟨this.1.1.1, this.1.1.2, this.1.2, fun e he => by simpa using this.2 e he⟩
  · intro t ht j l hl hs
    have := List.all_eq_true.mp (key t ht).2 (l, j) (List.mem_zipIdx_iff_getElem?.mpr hl)
    simp only [Bool.and_eq_true, Bool.or_eq_true, List.isEmpty_iff] at this
    exact this.1.resolve_left hs
  · intro t ht i j l l' hl hl' hs hs' hfr
    have := List.all_eq_true.mp (key t ht).2 (l, i) (List.mem_zipIdx_iff_getElem?.mpr hl)
    rw [Bool.and_eq_true] at this
    have := List.all_eq_true.mp this.2 (l', j) (List.mem_zipIdx_iff_getElem?.mpr hl')
    simpa [hs, hs', hfr] using this

/-- Decision procedure for `FRows`. -/
def frowsB (N : Nat) : (Nat → Nat) → (Nat → Nat → Bool) → List Row → Bool
  | _, _, [] => false
  | _, clean, [last] => flastB N clean last
  | prev, clean, row :: next :: rows =>
    fmidB N clean row && frowsB N (fun t => (row t).length) (cleanAfter prev clean row) (next :: rows)

theorem frowsB_sound (N : Nat) (rows : List Row) : ∀ prev clean, frowsB N prev clean rows = true → FRows N prev clean rows := by
  induction rows with
  | nil => intro prev clean h; cases h
  | cons row rows ih =>
    intro prev clean h
    cases rows with
    | nil => exact flastB_sound N clean row h
    | cons next rest =>
      rw [frowsB, Bool.and_eq_true] at h
      exact ⟨fmidB_sound N clean row h.1, ih _ _ h.2⟩

/-- Decision procedure for `FWf`. -/
def fwfB (N root : Nat) (r0 : Row) (rows : List Row) : Bool :=
  ((List.range N).all fun t => (r0 t).all fun l =>
    l.sendto.isEmpty && l.reducefrom.isEmpty && l.copyreducefrom.isEmpty && l.recvfrom.all fun e => e.1 == -1) &&
  ((r0 root).zipIdx.all fun x => x.1.recvfrom.isEmpty || (decide (x.2 < N) && x.1.frac == (x.2 + root) % N)) &&
  frowsB N (fun t => (r0 t).length) (fun _ _ => true) rows

theorem fwfB_sound (N root : Nat) (r0 : Row) (rows : List Row) (h : fwfB N root r0 rows = true) : FWf N root r0 rows := by
  unfold fwfB at h
  simp only [Bool.and_eq_true] at h
  obtain ⟨⟨h1, h2⟩, h3⟩ := h
  refine ⟨?_, ?_, frowsB_sound N rows _ _ h3⟩
  · intro t ht l hl
    have := List.all_eq_true.mp (List.all_eq_true.mp h1 t (List.mem_range.mpr ht)) l hl
    simp only [Bool.and_eq_true, List.isEmpty_iff, List.all_eq_true] at this
    exact ⟨this.1.1.1, this.1.1.2, this.1.2, fun e he => by simpa using this.2 e he⟩
  · intro n l hl hne
    have := List.all_eq_true.mp h2 (l, n) (List.mem_zipIdx_iff_getElem?.mpr hl)
    simpa [hne] using this

/-- Decision procedure for `Ordered`. -/
def orderedB (N : Nat) (rows : List Row) : Bool :=
  rows.all fun row => (List.range N).all fun t => (row t).zipIdx.all fun x => x.1.reducefrom.all fun r =>
    (row t).zipIdx.all fun y => !(decide (y.2 = r) && decide (r < x.2)) || y.1.copyreducefrom.isEmpty

theorem orderedB_sound (N : Nat) (rows : List Row) (h : orderedB N rows = true) : Ordered N rows := by
  intro row hrow t ht j r l lr hl hlr hr hrj
  have := List.all_eq_true.mp (List.all_eq_true.mp h row hrow) t (List.mem_range.mpr ht)
  have := List.all_eq_true.mp (List.all_eq_true.mp (List.all_eq_true.mp this (l, j) (List.mem_zipIdx_iff_getElem?.mpr hl)) r hr) (lr, r)
    (List.mem_zipIdx_iff_getElem?.mpr hlr)
  simpa [hrj] using this

/-- All hypotheses of `bcast_partial` and `scatter_partial` except the correctness of the reduction. -/
def okF (N root : Nat) (rows : List Row) : Bool :=
  match rows with
  | [] => false
  | r0 :: rs => fwfB N root r0 rs && match forward N root (r0 :: rs) with
    | some (rows', _) => unmixedB N rows'.tail && orderedB N rows'.tail
    | none => false

theorem okF_sound (N root : Nat) (rows : List Row) (h : okF N root rows = true) :
    ∃ r0 rs rows' v, rows = r0 :: rs ∧ FWf N root r0 rs ∧ forward N root (r0 :: rs) = some (rows', v) ∧ Unmixed N rows'.tail ∧ Ordered N rows'.tail := by
  cases rows with
  | nil => cases h
  | cons r0 rs =>
    unfold okF at h
    dsimp only at h
    rw [Bool.and_eq_true] at h
    obtain ⟨h1, h2⟩ := h
    cases hp : forward N root (r0 :: rs) with
    | none => rw [hp] at h2; cases h2
    | some x =>
      obtain ⟨rows', v⟩ := x
      rw [hp] at h2
      dsimp only at h2
      rw [Bool.and_eq_true] at h2
      exact ⟨r0, rs, rows', v, rfl, fwfB_sound N root r0 rs h1, hp, unmixedB_sound N _ h2.1, orderedB_sound N _ h2.2⟩

/-- Schedules of the cyclic algorithm. -/
def cyc (N : Nat) (negs ports : List Nat) (t : Nat) : List Block :=
  match CyclicReduce.core N negs ports t with | some s => s | none => []

example : okF 4 3 (rowsOf (cyc 4 [1, 1] [])) = true := by decide +kernel
example : okF 5 2 (rowsOf (cyc 5 [1, 2] [])) = true := by decide +kernel
example : okF 3 1 (rowsOf (cyc 3 [2] [2])) = true := by decide +kernel
example : okF 4 0 (rowsOf (Recursive.allreduce [1, 1] [1, 1])) = true := by decide +kernel

/-- What the nodes below `N` execute decides about a collective. -/
theorem computes_congr {V O : Type} [Add V] {N : Nat} {co : Block → (Nat → V) → O} {sched sched' : Nat → List Block}
    {post : (Nat → Nat → V) → (Nat → O) → Prop} (h : ∀ t < N, sched t = sched' t) (hc : Computes N co sched post) : Computes N co sched' post := by
  intro inp junk
  obtain ⟨⟨out, b0, bs, last, s', e1, e2, e3⟩, h2⟩ := hc inp junk
  refine ⟨⟨out, b0, bs, last, s', fun t ht => h t ht ▸ e1 t ht, e2, e3⟩, ?_⟩
  rintro out' ⟨b0, bs, last, s', e1, e2, e3⟩
  exact h2 out' ⟨b0, bs, last, s', fun t ht => (h t ht).symm ▸ e1 t ht, e2, e3⟩

/-- The rows of a schedule are its columns. -/
def colB (N : Nat) (sched : Nat → List Block) : Bool :=
  (List.range N).all fun t => decide (columns (rowsOf sched) t = sched t)

theorem colB_sound (N : Nat) (sched : Nat → List Block) (h : colB N sched = true) : ∀ t < N, sched t = columns (rowsOf sched) t :=
  fun t ht => (by simpa using List.all_eq_true.mp h t (List.mem_range.mpr ht) : columns (rowsOf sched) t = sched t).symm

/-- `bcast_partial` for a schedule whose conditions are checked by evaluation. -/
theorem bcast_of (N root : Nat) (hroot : root < N) (sched : Nat → List Block) (h1 : colB N sched = true) (h2 : okF N root (rowsOf sched) = true)
    (hc : ∀ (W : Type) [AddCommMonoid W], Computes (V := W) N copyOut sched (AllreducePost N)) :
    ∃ rows' v, forward N root (rowsOf sched) = some (rows', v) ∧ ∀ (V : Type) [AddCommMonoid V] (inp : Nat → V) (junk : Nat → Nat → V),
      (∃ out, ExecF N root copyOut rows' inp junk out) ∧
        ∀ out, ExecF N root copyOut rows' inp junk out → ∀ t < N, ∀ b < N, out t b = some (inp b) := by
  obtain ⟨r0, rs, rows', v, e, k1, k2, k3, k4⟩ := okF_sound N root _ h2
  refine ⟨rows', v, e ▸ k2, fun V _ inp junk => bcast_partial N root hroot r0 rs rows' v k1 k2 k3 k4 (fun W _ => ?_) inp junk⟩
  rw [← e]
  exact computes_congr (colB_sound N sched h1) (hc W)

/-- `scatter_partial` for a schedule whose conditions are checked by evaluation. -/
theorem scatter_of (N root : Nat) (hroot : root < N) (sched : Nat → List Block) (h1 : colB N sched = true) (h2 : okF N root (rowsOf sched) = true)
    (hc : ∀ (W : Type) [AddCommMonoid W], Computes (V := W) N copyOutFirst sched (ReduceScatterPost N)) :
    ∃ rows' v, forward N root (rowsOf sched) = some (rows', v) ∧ ∀ (V : Type) [AddCommMonoid V] (inp : Nat → V) (junk : Nat → Nat → V),
      (∃ out, ExecF N root copyOutFirst rows' inp junk out) ∧
        ∀ out, ExecF N root copyOutFirst rows' inp junk out → ∀ t < N, out t = some (inp t) := by
  obtain ⟨r0, rs, rows', v, e, k1, k2, k3, k4⟩ := okF_sound N root _ h2
  refine ⟨rows', v, e ▸ k2, fun V _ inp junk => scatter_partial N root hroot r0 rs rows' v k1 k2 k3 k4 (fun W _ => ?_) inp junk⟩
  rw [← e]
  exact computes_congr (colB_sound N sched h1) (hc W)

theorem cyc_scatter (N : Nat) (hN : 0 < N) (negs : List Nat) (hcov : N ≤ (negs.map (· + 1)).prod) (W : Type) [AddCommMonoid W] :
    Computes (V := W) N copyOutFirst (cyc N negs []) (ReduceScatterPost N) := by
  obtain ⟨sched, h1, h2⟩ := CyclicReduce.reduceScatter_correct (V := W) N hN negs hcov
  refine computes_congr (fun t _ => ?_) h2
  rw [cyc, h1 t]

theorem cyc_allreduce (N : Nat) (hN : 0 < N) (negs ports : List Nat) (hne : ports ≠ []) (hp : ∀ p, p ∈ ports → 0 < p)
    (hcov : N ≤ (ports.map (· + 1)).prod) (hfit : CyclicReduce.Fits N 1 ports) (W : Type) [AddCommMonoid W] :
    Computes (V := W) N copyOut (cyc N negs ports) (AllreducePost N) := by
  obtain ⟨sched, h1, h2⟩ := CyclicReduce.allreduce_correct_partial (V := W) N hN negs ports hne hp hcov hfit
  refine computes_congr (fun t _ => ?_) h2
  rw [cyc, h1 t]

/-- A scatter from node 3 of four nodes. -/
example : ∃ rows' v, forward 4 3 (rowsOf (cyc 4 [1, 1] [])) = some (rows', v) ∧ ∀ (V : Type) [AddCommMonoid V] (inp : Nat → V) (junk : Nat → Nat → V),
    (∃ out, ExecF 4 3 copyOutFirst rows' inp junk out) ∧
      ∀ out, ExecF 4 3 copyOutFirst rows' inp junk out → ∀ t < 4, out t = some (inp t) :=
  scatter_of 4 3 (by decide) _ (by decide +kernel) (by decide +kernel) fun W _ => cyc_scatter 4 (by decide) [1, 1] (by decide) W

/-- A broadcast from node 1 of three nodes. -/
example : ∃ rows' v, forward 3 1 (rowsOf (cyc 3 [2] [2])) = some (rows', v) ∧ ∀ (V : Type) [AddCommMonoid V] (inp : Nat → V) (junk : Nat → Nat → V),
    (∃ out, ExecF 3 1 copyOut rows' inp junk out) ∧
      ∀ out, ExecF 3 1 copyOut rows' inp junk out → ∀ t < 3, ∀ b < 3, out t b = some (inp b) :=
  bcast_of 3 1 (by decide) _ (by decide +kernel) (by decide +kernel)
    fun W _ => cyc_allreduce 3 (by decide) [2] [2] (by decide) (by decide) (by decide) (by simp [CyclicReduce.Fits]) W

/-! ### The cyclic scatter -/

/-- All rows of the cyclic reduce_scatter. -/
def cyclicRows (N : Nat) (negs : List Nat) : List Row := (fun t => CyclicReduce.firstBlock N t) :: (scatterRows N N negs ++ [endRow N])

theorem scatterRows_columns (N t : Nat) (negs : List Nat) : ∀ S,
    columns (scatterRows N S negs) t = CyclicReduce.scatterSteps N t (fun line => (line + t) % N) S S negs := by
  induction negs with
  | nil => intro S; rfl
  | cons p ps ih =>
    intro S
    have := ih (CyclicReduce.chunk S p)
    unfold columns at this ⊢
    rw [scatterRows, List.map_cons, List.map_cons, this]
    rfl

theorem cyclicRows_core (N : Nat) (hN : 0 < N) (negs : List Nat) (hcov : N ≤ (negs.map (· + 1)).prod) (t : Nat) :
    CyclicReduce.core N negs [] t = some (columns (cyclicRows N negs) t) := by
  unfold CyclicReduce.core
  simp only [List.isEmpty_nil, if_true, CyclicReduce.chunks_one N hN negs hcov]
  have := scatterRows_columns N t negs N
  unfold columns at this ⊢
  unfold cyclicRows
  rw [List.map_cons, List.map_append, this]
  rfl

/-- Block 0 only copies in. -/
theorem cyclic_first (N t : Nat) : ∀ l ∈ CyclicReduce.firstBlock N t, l.sendto = [] ∧ l.reducefrom = [] ∧ l.copyreducefrom = [] ∧ ∀ e ∈ l.recvfrom, e.1 = -1 := by
  intro l hl
  obtain ⟨n, hn⟩ := List.getElem?_of_mem hl
  obtain ⟨_, rfl⟩ := mk_get _ _ _ _ hn
  refine ⟨rfl, rfl, rfl, ?_⟩
  intro e he
  rw [List.mem_singleton] at he
  rw [he]

/-- Rows that follow the reduction steps. -/
theorem cyclic_wf (N root : Nat) (hN : 0 < N) (negs : List Nat) (rest : List Row)
    (h : ∀ (prev : Nat → Nat) (clean : Nat → Nat → Bool), (∀ t < N, ∀ n < CyclicReduce.chunks N negs, clean t n = true) → FRows N prev clean rest) :
    FWf N root (fun t => CyclicReduce.firstBlock N t) (scatterRows N N negs ++ rest) := by
  refine ⟨fun t _ => cyclic_first N t, ?_, scatterRows_wf N _ negs N _ _ hN (Nat.le_refl N) (fun _ _ _ _ => rfl) h⟩
  intro n l hl _
  obtain ⟨h1, rfl⟩ := mk_get _ _ _ _ hl
  exact ⟨h1, rfl⟩

/-- The pass over all rows. -/
theorem cyclic_passes (N root : Nat) (hroot : root < N) (negs : List Nat) (hwhole : Whole N N (fun _ => 0) negs) (rest : List Row) (hne : rest ≠ [])
    (h : ∀ (st : Nat → Nat) (prev : Nat → Marks), (∀ y < N, st y ≤ y ∧ y < st y + CyclicReduce.chunks N negs) →
      (∀ t < N, ∀ n < CyclicReduce.chunks N negs, val (prev t) n ≠ 0 ↔ Data N root st t n) → Passes N prev rest) :
    ∃ rows' v, forward N root ((fun t => CyclicReduce.firstBlock N t) :: (scatterRows N N negs ++ rest)) = some (rows', v) ∧
      Unmixed N rows'.tail ∧ Ordered N rows'.tail := by
  obtain ⟨rs, v, f1, f2, f3⟩ := scatterRows_forward N root hroot rest hne negs N (fun _ => 0)
    (fun t => (finish (carry [] (seedF root t (CyclicReduce.firstBlock N t)) (clearIn root t (CyclicReduce.firstBlock N t)))
      (clearIn root t (CyclicReduce.firstBlock N t))).2) (by omega) (Nat.le_refl N) (fun y hy => ⟨Nat.zero_le _, by omega⟩) (by
      intro t ht n hn
      have hl : (CyclicReduce.firstBlock N t)[n]? = some { frac := (n + t) % N, recvfrom := [(-1, (n : Int))] } := mk_at _ _ _ hn
      rw [(first_marks N root t _ (cyclic_first N t)).2 n _ hl]
      unfold Data Cyclic.dist
      by_cases hc : t = root
      · subst hc
        simp [hn]
      · simp only [hc, false_and, if_false, ne_eq, not_true_eq_false, false_iff]
        rintro ⟨_, h⟩
        split at h <;> omega) hwhole h
  refine ⟨(fun t => (finish (carry [] (seedF root t (CyclicReduce.firstBlock N t)) (clearIn root t (CyclicReduce.firstBlock N t)))
    (clearIn root t (CyclicReduce.firstBlock N t))).1) :: rs, v, ?_, f2, f3⟩
  rw [forward]
  dsimp only
  rw [f1]

/-- C72 for the cyclic algorithm: every number of nodes and every root, if the chunks of `Whole` are not mixed. -/
theorem scatter_cyclic_partial (N root : Nat) (hroot : root < N) (negs : List Nat) (hcov : N ≤ (negs.map (· + 1)).prod)
    (hwhole : Whole N N (fun _ => 0) negs) :
    ∃ rows rows' v, (∀ t, CyclicReduce.core N negs [] t = some (columns rows t)) ∧ forward N root rows = some (rows', v) ∧
      ∀ (V : Type) [AddCommMonoid V] (inp : Nat → V) (junk : Nat → Nat → V),
        (∃ out, ExecF N root copyOutFirst rows' inp junk out) ∧
          ∀ out, ExecF N root copyOutFirst rows' inp junk out → ∀ t < N, out t = some (inp t) := by
  have hN : 0 < N := by omega
  have hw := cyclic_wf N root hN negs [endRow N] fun _ clean hc => end_last N clean fun t ht => hc t ht 0 (CyclicReduce.chunks_pos N hN negs)
  obtain ⟨rows', v, f1, f2, f3⟩ := cyclic_passes N root hroot negs hwhole [endRow N] (by simp) fun _ prev _ _ =>
    end_passes N _ _ (end_last N (fun _ _ => true) fun _ _ => rfl) prev
  refine ⟨cyclicRows N negs, rows', v, cyclicRows_core N hN negs hcov, f1, fun V _ inp junk => ?_⟩
  refine scatter_partial N root hroot _ _ rows' v hw f1 f2 f3 (fun W _ => ?_) inp junk
  obtain ⟨sched, h1, h2⟩ := CyclicReduce.reduceScatter_correct (V := W) N hN negs hcov
  refine computes_congr (fun t _ => ?_) h2
  have := (cyclicRows_core N hN negs hcov t).symm.trans (h1 t)
  exact (Option.some.inj this).symm

theorem whole_exact (N : Nat) (ps : List Nat) : ∀ (S : Nat) (st : Nat → Nat), S = (ps.map (· + 1)).prod → S ∣ N → (∀ y < N, st y = y / S * S) →
    Whole N S st ps := by
  induction ps with
  | nil => intros; exact trivial
  | cons p ps ih =>
    intro S st hS hd hst
    rw [List.map_cons, List.prod_cons] at hS
    have hj : (S + p) / (p + 1) = (ps.map (· + 1)).prod := by
      rw [hS, Nat.add_comm, Nat.add_mul_div_left _ _ (by omega : 0 < p + 1), Nat.div_eq_of_lt (by omega), Nat.zero_add]
    obtain ⟨j, hjd⟩ : ∃ j, j = (ps.map (· + 1)).prod := ⟨_, rfl⟩
    have hj0 : 0 < j := hjd ▸ Recursive.factor_pos ps
    rw [← hjd] at hS hj
    obtain ⟨c, rfl⟩ := hd
    have hS0 : 0 < S := by rw [hS]; exact Nat.mul_pos (by omega) hj0
    rw [Whole, hj]
    constructor
    · intro d y y' _ hy hy' _ h1 h2
      rw [hst _ h1] at h2
      have hdy : (d + y) / S = d / S := by
        have hdm : d % S = 0 := by rw [← h2]; exact Nat.mul_mod_left _ _
        have := Nat.div_add_mod d S
        rw [hdm] at this
        rw [← this, Nat.add_zero, Nat.mul_add_div hS0, Nat.div_eq_of_lt hy, Nat.mul_div_cancel_left _ hS0]
        rfl
      have hdS : d / S * S = d := by rw [← hdy]; exact h2
      have hlt : d / S < c := by
        rw [Nat.div_lt_iff_lt_mul hS0, Nat.mul_comm]; omega
      have hle : (d / S + 1) * S ≤ S * c := by rw [Nat.mul_comm S]; exact Nat.mul_le_mul_right S hlt
      rw [Nat.add_mul, hdS, Nat.one_mul] at hle
      have h3 : d + y' < S * c := by omega
      refine ⟨h3, ?_⟩
      rw [hst _ h3]
      have : (d + y') / S = d / S := by
        have e : d + y' = d / S * S + y' := by rw [hdS]
        rw [e, Nat.mul_comm, Nat.mul_add_div hS0, Nat.div_eq_of_lt hy', Nat.add_zero]
      rw [this, hdS]
    · refine ih j _ hjd (Dvd.dvd.mul_right (hS ▸ Nat.dvd_mul_left j (p + 1)) c) ?_
      intro y hy
      unfold cut
      rw [hst y hy]
      have e1 : y / S * S = (y / S * (p + 1)) * j := by rw [Nat.mul_assoc, ← hS]
      have e2 := Nat.div_mul_le_self y S
      have e3 : y / j = y / S * (p + 1) + (y - y / S * S) / j := by
        have : y = (y / S * (p + 1)) * j + (y - y / S * S) := by rw [← e1]; omega
        conv_lhs => rw [this]
        rw [Nat.mul_comm _ j, Nat.mul_add_div hj0]
      rw [e3, Nat.add_mul, ← e1]

/-- C72 for the cyclic algorithm if the number of nodes is the product of the numbers of ports plus one, for every root. -/
theorem scatter_exact (negs : List Nat) (root : Nat) (hroot : root < (negs.map (· + 1)).prod) :
    ∃ rows rows' v, (∀ t, CyclicReduce.core (negs.map (· + 1)).prod negs [] t = some (columns rows t)) ∧
      forward (negs.map (· + 1)).prod root rows = some (rows', v) ∧
      ∀ (V : Type) [AddCommMonoid V] (inp : Nat → V) (junk : Nat → Nat → V),
        (∃ out, ExecF (negs.map (· + 1)).prod root copyOutFirst rows' inp junk out) ∧
          ∀ out, ExecF (negs.map (· + 1)).prod root copyOutFirst rows' inp junk out → ∀ t < (negs.map (· + 1)).prod, out t = some (inp t) :=
  scatter_cyclic_partial _ root hroot negs (Nat.le_refl _) (whole_exact _ negs _ _ rfl (Nat.dvd_refl _) fun y hy => by
    rw [Nat.div_eq_of_lt hy, Nat.zero_mul])

example := scatter_exact [1, 2, 1] 7 (by decide)

/-- Five nodes, chunks of three and of one line. -/
example : Whole 5 5 (fun _ => 0) [1, 2] := by
  refine ⟨?_, ?_, trivial⟩
  · intro d y y' h1 h2 h3 h4 h5 h6
    dsimp only at h6 ⊢
    omega
  · intro d y y' h1 h2 h3 h4 h5 h6
    norm_num at h4
    subst h4
    exact ⟨h5, h6⟩

/-- Seven nodes with one port: the condition fails. -/
example : ¬Whole 7 7 (fun _ => 0) [1, 1, 1] := by
  rintro ⟨_, h, _⟩
  have := h 4 2 3 (by decide) (by decide) (by decide) (by decide) (by decide) (by decide)
  exact absurd this.1 (by decide)

/-! ### The cyclic broadcast -/

/-- The last row of the allreduce. -/
def allRow (N : Nat) (u : List Bool) : Row := fun t => Recursive.mk (1 * N) fun n => CyclicReduce.renumberLine u (CyclicReduce.lLine N 1 t n)

theorem all_last (N : Nat) (u : List Bool) (clean : Nat → Nat → Bool) (hc : ∀ t < N, ∀ n < N, clean t n = true) : FLast N clean (allRow N u) := by
  have key : ∀ (t n : Nat) (l : LineD), (allRow N u t)[n]? = some l → n < N ∧ l.frac = (n + t) % N ∧ l.recvfrom = [] ∧ l.reducefrom = [] ∧
      l.copyreducefrom = [] ∧ ∀ e ∈ l.sendto, e.1 = -1 := by
    intro t n l h
    obtain ⟨h1, rfl⟩ := mk_get _ _ _ _ h
    refine ⟨by omega, ?_, rfl, rfl, rfl, ?_⟩
    · unfold CyclicReduce.renumberLine CyclicReduce.lLine CyclicReduce.num CyclicReduce.cl
      dsimp only
      rw [Nat.div_one, Nat.mod_one, Nat.add_zero]
    · intro e he
      unfold CyclicReduce.renumberLine CyclicReduce.lLine at he
      dsimp only at he
      split at he
      · rw [List.map_singleton, List.mem_singleton] at he
        rw [he]
        simp
      · cases he
  refine ⟨?_, ?_, ?_⟩
  · intro t _ l hl
    obtain ⟨n, hn⟩ := List.getElem?_of_mem hl
    exact (key t n l hn).2.2
  · intro t ht j l hl _
    exact hc t ht j (key t j l hl).1
  · intro t _ i j l l' hl hl' _ _ he
    obtain ⟨h1, h2, _⟩ := key t i l hl
    obtain ⟨h3, h4, _⟩ := key t j l' hl'
    rw [h2, h4] at he
    have := Nat.ModEq.add_right_cancel' (n := N) t he
    unfold Nat.ModEq at this
    rwa [Nat.mod_eq_of_lt h1, Nat.mod_eq_of_lt h3] at this

theorem comp_all (S : Nat) (U : Nat → Bool) (g : Nat → LineD) (h : ∀ n < S, U n = true) : CyclicReduce.comp S U g = Recursive.mk S g := by
  unfold CyclicReduce.comp Recursive.mk
  rw [List.filter_eq_self.2 fun n hn => h n (List.mem_range.1 hn)]

theorem gatherRows_columns (N t : Nat) (u : List Bool) (hu : ∀ n < N, u[n]? = some true) (ps : List Nat) : ∀ G,
    columns (gatherRows N u G ps) t = CyclicReduce.cBlocks u N 1 t G ps := by
  induction ps with
  | nil => intro G; rfl
  | cons p ps ih =>
    intro G
    have := ih (G * (p + 1))
    unfold columns at this ⊢
    have hall : ∀ n < 1 * min (G * (p + 1)) N, (u[n]? == some true) = true := by
      intro n hn
      rw [hu n (by omega)]; rfl
    rw [gatherRows, List.map_cons, List.map_cons, this, CyclicReduce.cBlocks, comp_all _ _ _ hall, comp_all _ _ _ hall]
    rfl

/-- The rows of the cyclic allreduce whose first part leaves one message per node. -/
theorem cyclic_rows (N : Nat) (hN : 0 < N) (negs ports : List Nat) (hneg : N ≤ (negs.map (· + 1)).prod) (hne : ports ≠ [])
    (hcov : N ≤ (ports.map (· + 1)).prod) (hfit : CyclicReduce.Fits N 1 ports) :
    ∃ u : List Bool, (∀ n < N, u[n]? = some true) ∧ ∀ t, CyclicReduce.core N negs ports t = some (columns ((fun t => CyclicReduce.firstBlock N t) ::
      (scatterRows N N negs ++ (gatherRows N u 1 ports ++ [allRow N u]))) t) := by
  obtain ⟨u, h1, _, h3, _, h5⟩ := CyclicReduce.core_blocks N hN negs ports hne hcov hfit
  have hone := CyclicReduce.chunks_one N hN negs hneg
  rw [hone] at h1 h3
  have hcl : ∀ x, CyclicReduce.cl 1 x = x := fun x => by unfold CyclicReduce.cl; rw [Nat.div_one, Nat.mod_one, Nat.add_zero]
  have hu : ∀ n < N, u[n]? = some true := by
    intro n hn
    refine h3 n (by omega) ?_
    intro n' a b
    rw [hcl, hcl, Nat.mod_eq_of_lt (by omega), Nat.mod_eq_of_lt hn]
    omega
  refine ⟨u, hu, fun t => ?_⟩
  rw [h5 t]
  have e1 := scatterRows_columns N t negs N
  have e2 := gatherRows_columns N t u hu ports 1
  simp only [hone]
  rw [comp_all _ _ _ (fun n hn => by rw [hu n (by omega)]; rfl)]
  unfold columns at e1 e2 ⊢
  rw [List.map_cons, List.map_append, List.map_append, e1, e2]
  rfl

/-- C71 for the cyclic algorithm with a complete first part: every number of nodes and every root, if the chunks of `Whole` are not mixed. -/
theorem bcast_cyclic_partial (N root : Nat) (hroot : root < N) (negs ports : List Nat) (hneg : N ≤ (negs.map (· + 1)).prod)
    (hwhole : Whole N N (fun _ => 0) negs) (hne : ports ≠ []) (hp : ∀ p, p ∈ ports → 0 < p) (hcov : N ≤ (ports.map (· + 1)).prod)
    (hfit : CyclicReduce.Fits N 1 ports) :
    ∃ rows rows' v, (∀ t, CyclicReduce.core N negs ports t = some (columns rows t)) ∧ forward N root rows = some (rows', v) ∧
      ∀ (V : Type) [AddCommMonoid V] (inp : Nat → V) (junk : Nat → Nat → V),
        (∃ out, ExecF N root copyOut rows' inp junk out) ∧
          ∀ out, ExecF N root copyOut rows' inp junk out → ∀ t < N, ∀ b < N, out t b = some (inp b) := by
  have hN : 0 < N := by omega
  obtain ⟨u, hu, hcore⟩ := cyclic_rows N hN negs ports hneg hne hcov hfit
  have hone := CyclicReduce.chunks_one N hN negs hneg
  have hw := cyclic_wf N root hN negs (gatherRows N u 1 ports ++ [allRow N u]) fun prev clean hc =>
    gatherRows_wf hu _ ports 1 prev clean (by omega) hfit (fun t ht n hn => hc t ht n (by rw [hone]; omega)) fun _ clean hc =>
      all_last N u clean fun t ht n hn => hc t ht n (by rw [Nat.one_mul]; omega)
  obtain ⟨rows', v, f1, f2, f3⟩ := cyclic_passes N root hroot negs hwhole (gatherRows N u 1 ports ++ [allRow N u]) (by simp) fun st prev hst hm =>
    gatherRows_passes hu _ (by simp) (fun prev => end_passes N _ _ (all_last N u (fun _ _ => true) fun _ _ _ _ => rfl) prev) ports 1 prev (by omega) hfit (by
      intro t ht n hn
      rw [hone] at hm hst
      have h0 : n = 0 := by omega
      subst h0
      rw [hm t ht 0 (by omega)]
      have hd := Cyclic.dist_lt N t root ht hroot
      have := hst _ hd
      exact ⟨by omega, by rw [Nat.add_zero]; omega⟩)
  refine ⟨_, rows', v, hcore, f1, fun V _ inp junk => ?_⟩
  refine bcast_partial N root hroot _ _ rows' v hw f1 f2 f3 (fun W _ => ?_) inp junk
  obtain ⟨sched, g1, g2⟩ := CyclicReduce.allreduce_correct_partial (V := W) N hN negs ports hne hp hcov hfit
  refine computes_congr (fun t _ => ?_) g2
  exact (Option.some.inj ((hcore t).symm.trans (g1 t))).symm

/-- C71 for the cyclic algorithm if the number of nodes is the product of the numbers of ports plus one in both parts, for every root. -/
theorem bcast_exact (negs ports : List Nat) (root : Nat) (hroot : root < (negs.map (· + 1)).prod)
    (hprod : (negs.map (· + 1)).prod = (ports.map (· + 1)).prod) (hne : ports ≠ []) (hp : ∀ p, p ∈ ports → 0 < p) :
    ∃ rows rows' v, (∀ t, CyclicReduce.core (negs.map (· + 1)).prod negs ports t = some (columns rows t)) ∧
      forward (negs.map (· + 1)).prod root rows = some (rows', v) ∧
      ∀ (V : Type) [AddCommMonoid V] (inp : Nat → V) (junk : Nat → Nat → V),
        (∃ out, ExecF (negs.map (· + 1)).prod root copyOut rows' inp junk out) ∧
          ∀ out, ExecF (negs.map (· + 1)).prod root copyOut rows' inp junk out →
            ∀ t < (negs.map (· + 1)).prod, ∀ b < (negs.map (· + 1)).prod, out t b = some (inp b) := by
  refine bcast_cyclic_partial _ root hroot negs ports (Nat.le_refl _) (whole_exact _ negs _ _ rfl (Nat.dvd_refl _) fun y hy => by
    rw [Nat.div_eq_of_lt hy, Nat.zero_mul]) hne hp (by omega) ?_
  rw [hprod]
  have key : ∀ (ps : List Nat) (G : Nat), CyclicReduce.Fits (G * (ps.map (· + 1)).prod) G ps := by
    intro ps
    induction ps with
    | nil => intro G; exact trivial
    | cons p ps ih =>
      intro G
      rw [List.map_cons, List.prod_cons]
      refine ⟨fun _ => Or.inr ?_, ?_⟩
      · have := Recursive.factor_pos ps
        unfold Recursive.factor at this
        rw [← Nat.mul_assoc]
        calc G * p ≤ G * (p + 1) := Nat.mul_le_mul_left G (by omega)
          _ ≤ _ := Nat.le_mul_of_pos_right _ this
      · have := ih (G * (p + 1))
        rw [Nat.mul_assoc] at this
        exact this
  have := key ports 1
  rwa [Nat.one_mul] at this

example := bcast_exact [1, 2, 1] [3, 2] 7 (by decide) (by decide) (by decide) (by decide)

/-! ### Violations -/

/-- Result of node `t` in the execution in which unused send memory contains `0` and unused receive memory contains `777`.
Message `b` of the root is `10 + b`. -/
def dirtyF {O : Type} (N root : Nat) (co : Block → (Nat → Nat) → Option O) (rows : List Row) (t : Nat) : Option O :=
  match rows with
  | _ :: rs =>
    match rs.getLast?, dirtyRun N rs fun t => copyInRoot N root t (fun x => 10 + x) fun _ => 555 with
    | some last, some s => co (last t) (s t)
    | _, _ => none
  | _ => none

theorem dirtyF_sound {O : Type} (N root : Nat) (co : Block → (Nat → Nat) → Option O) (rows : List Row) (t : Nat) (x : O)
    (h : dirtyF N root co rows t = some x) : ∃ out, ExecF N root co rows (fun x => 10 + x) (fun _ _ => 555) out ∧ out t = some x := by
  unfold dirtyF at h
  split at h
  · rename_i r0 rs
    split at h
    · rename_i last s hl hs
      exact ⟨fun t => co (last t) (s t), ⟨r0, rs, last, s, rfl, hl, dirtyRun_sound N rs _ _ hs, fun _ _ => rfl⟩, h⟩
    · cases h
  · cases h

theorem ExecF.congr {V O : Type} [Add V] {N root : Nat} {co : Block → (Nat → V) → O} {rows rows' : List Row} (hs : Same N rows rows')
    {inp : Nat → V} {junk : Nat → Nat → V} {out : Nat → O} (h : ExecF N root co rows inp junk out) : ExecF N root co rows' inp junk out := by
  obtain ⟨r0, rs, last, s', rfl, e2, e3, e4⟩ := h
  cases hs with
  | @cons _ r0' _ rs' h0 hrs =>
    obtain ⟨s2', k1, k2⟩ := RunD.congr hrs e3 (s2 := fun t => copyInRoot N root t inp (junk t)) fun t _ => rfl
    have hl : ∃ last', rs'.getLast? = some last' ∧ ∀ t < N, last t = last' t := by
      clear e3 k1 h0
      induction hrs with
      | nil => cases e2
      | @cons a a' as as' ha has ih =>
        cases has with
        | nil =>
          simp only [List.getLast?_singleton, Option.some.injEq] at e2
          subst e2
          exact ⟨a', rfl, ha⟩
        | cons hb hbs =>
          obtain ⟨l', g1, g2⟩ := ih (by simpa using e2)
          exact ⟨l', by simpa using g1, g2⟩
    obtain ⟨last', g1, g2⟩ := hl
    exact ⟨r0', rs', last', s2', rfl, g1, k1, fun t ht => by rw [e4 t ht, g2 t ht, k2 t ht]⟩

/-- A broadcast from node 1 of two nodes made of the recursive allreduce: node 0 gets the two messages exchanged. The copy-in
of the root rotates the messages by its number, the recursive schedule does not. -/
theorem bcast_violated : ∃ (rows rows' : List Row) (v : Nat → Marks) (inp : Nat → Nat) (junk : Nat → Nat → Nat) (out : Nat → Nat → Option Nat),
    (∀ t < 2, columns rows t = Recursive.allreduce [1] [1] t) ∧ forward 2 1 rows = some (rows', v) ∧
    ExecF 2 1 copyOut rows' inp junk out ∧ inp 0 = 10 ∧ inp 1 = 11 ∧ out 0 0 = some 11 := by
  cases hx : forward 2 1 (rowsOf (Recursive.allreduce [1] [1])) with
  | none =>
    have : (forward 2 1 (rowsOf (Recursive.allreduce [1] [1]))).isSome = true := by decide +kernel
    rw [hx] at this; cases this
  | some x =>
    obtain ⟨rows', v⟩ := x
    have h0 : (match forward 2 1 (rowsOf (Recursive.allreduce [1] [1])) with
        | some (rows', _) => dirtyF 2 1 (fun b s => copyOut b s 0) rows' 0
        | none => none) = some 11 := by decide +kernel
    rw [hx] at h0
    obtain ⟨out, ⟨r0, rs, last, s', e1, e2, e3, e4⟩, h3⟩ := dirtyF_sound 2 1 _ rows' 0 11 h0
    refine ⟨_, rows', v, _, _, fun t => copyOut (last t) (s' t), fun t ht =>
      (colB_sound 2 _ (by decide +kernel) t ht).symm, hx, ⟨r0, rs, last, s', e1, e2, e3, fun _ _ => rfl⟩, rfl, rfl, ?_⟩
    rw [← h3, e4 0 (by decide)]

/-- The cyclic reduce_scatter on seven nodes made into a scatter from node 0. In the fourth row node 4 has two lines for node 6, of which
the second one is dropped. -/
def forward7 : List (List Block) :=
  [[[⟨0,[],[(-1,0)],[],[]⟩, ⟨1,[],[(-1,1)],[],[]⟩, ⟨2,[],[(-1,2)],[],[]⟩, ⟨3,[],[(-1,3)],[],[]⟩,
  ⟨4,[],[(-1,4)],[],[]⟩, ⟨5,[],[(-1,5)],[],[]⟩, ⟨6,[],[(-1,6)],[],[]⟩], [⟨1,[],[],[],[]⟩,
  ⟨2,[],[],[],[]⟩, ⟨3,[],[],[],[]⟩, ⟨4,[],[],[],[]⟩, ⟨5,[],[],[],[]⟩, ⟨6,[],[],[],[]⟩,
  ⟨0,[],[],[],[]⟩], [⟨2,[],[],[],[]⟩, ⟨3,[],[],[],[]⟩, ⟨4,[],[],[],[]⟩, ⟨5,[],[],[],[]⟩,
  ⟨6,[],[],[],[]⟩, ⟨0,[],[],[],[]⟩, ⟨1,[],[],[],[]⟩], [⟨3,[],[],[],[]⟩, ⟨4,[],[],[],[]⟩,
  ⟨5,[],[],[],[]⟩, ⟨6,[],[],[],[]⟩, ⟨0,[],[],[],[]⟩, ⟨1,[],[],[],[]⟩, ⟨2,[],[],[],[]⟩],
  [⟨4,[],[],[],[]⟩, ⟨5,[],[],[],[]⟩, ⟨6,[],[],[],[]⟩, ⟨0,[],[],[],[]⟩, ⟨1,[],[],[],[]⟩,
  ⟨2,[],[],[],[]⟩, ⟨3,[],[],[],[]⟩], [⟨5,[],[],[],[]⟩, ⟨6,[],[],[],[]⟩, ⟨0,[],[],[],[]⟩,
  ⟨1,[],[],[],[]⟩, ⟨2,[],[],[],[]⟩, ⟨3,[],[],[],[]⟩, ⟨4,[],[],[],[]⟩], [⟨6,[],[],[],[]⟩,
  ⟨0,[],[],[],[]⟩, ⟨1,[],[],[],[]⟩, ⟨2,[],[],[],[]⟩, ⟨3,[],[],[],[]⟩, ⟨4,[],[],[],[]⟩,
  ⟨5,[],[],[],[]⟩]], [[⟨0,[],[],[],[]⟩, ⟨1,[],[],[],[]⟩, ⟨2,[],[],[],[]⟩, ⟨3,[],[],[],[]⟩,
  ⟨4,[(4,0)],[],[],[]⟩, ⟨5,[(4,1)],[],[],[]⟩, ⟨6,[(4,2)],[],[],[]⟩, ⟨0,[],[(-13,4)],[],[]⟩,
  ⟨1,[],[(-13,5)],[],[]⟩, ⟨2,[],[(-13,6)],[],[]⟩], [⟨1,[],[],[],[]⟩, ⟨2,[],[],[],[]⟩, ⟨3,[],[],[],[]⟩,
  ⟨4,[],[],[],[]⟩, ⟨5,[(-15,0)],[],[],[]⟩, ⟨6,[(-15,1)],[],[],[]⟩, ⟨0,[(-15,2)],[],[],[]⟩,
  ⟨1,[],[(-14,4)],[],[]⟩, ⟨2,[],[(-14,5)],[],[]⟩, ⟨3,[],[(-14,6)],[],[]⟩], [⟨2,[],[],[],[]⟩,
  ⟨3,[],[],[],[]⟩, ⟨4,[],[],[],[]⟩, ⟨5,[],[],[],[]⟩, ⟨6,[(-16,0)],[],[],[]⟩, ⟨0,[(-16,1)],[],[],[]⟩,
  ⟨1,[(-16,2)],[],[],[]⟩, ⟨2,[],[(-15,4)],[],[]⟩, ⟨3,[],[(-15,5)],[],[]⟩, ⟨4,[],[(-15,6)],[],[]⟩],
  [⟨3,[],[],[],[]⟩, ⟨4,[],[],[],[]⟩, ⟨5,[],[],[],[]⟩, ⟨6,[],[],[],[]⟩, ⟨0,[(-10,0)],[],[],[]⟩,
  ⟨1,[(-10,1)],[],[],[]⟩, ⟨2,[(-10,2)],[],[],[]⟩, ⟨3,[],[(-16,4)],[],[]⟩, ⟨4,[],[(-16,5)],[],[]⟩,
  ⟨5,[],[(-16,6)],[],[]⟩], [⟨4,[],[],[],[]⟩, ⟨5,[],[],[],[]⟩, ⟨6,[],[],[],[]⟩, ⟨0,[],[],[],[]⟩,
  ⟨1,[(-11,0)],[],[],[]⟩, ⟨2,[(-11,1)],[],[],[]⟩, ⟨3,[(-11,2)],[],[],[]⟩, ⟨4,[],[(0,4)],[],[]⟩,
  ⟨5,[],[(0,5)],[],[]⟩, ⟨6,[],[(0,6)],[],[]⟩], [⟨5,[],[],[],[]⟩, ⟨6,[],[],[],[]⟩, ⟨0,[],[],[],[]⟩,
  ⟨1,[],[],[],[]⟩, ⟨2,[(-12,0)],[],[],[]⟩, ⟨3,[(-12,1)],[],[],[]⟩, ⟨4,[(-12,2)],[],[],[]⟩,
  ⟨5,[],[(-11,4)],[],[]⟩, ⟨6,[],[(-11,5)],[],[]⟩, ⟨0,[],[(-11,6)],[],[]⟩], [⟨6,[],[],[],[]⟩,
  ⟨0,[],[],[],[]⟩, ⟨1,[],[],[],[]⟩, ⟨2,[],[],[],[]⟩, ⟨3,[(-13,0)],[],[],[]⟩, ⟨4,[(-13,1)],[],[],[]⟩,
  ⟨5,[(-13,2)],[],[],[]⟩, ⟨6,[],[(-12,4)],[],[]⟩, ⟨0,[],[(-12,5)],[],[]⟩, ⟨1,[],[(-12,6)],[],[]⟩]],
  [[⟨0,[],[],[],[]⟩, ⟨1,[],[],[],[]⟩, ⟨2,[],[],[],[]⟩, ⟨3,[],[],[],[]⟩, ⟨4,[],[],[],[]⟩,
  ⟨5,[],[],[],[]⟩, ⟨6,[],[],[],[]⟩, ⟨0,[],[],[],[]⟩, ⟨1,[],[],[],[]⟩, ⟨2,[],[],[],[]⟩],
  [⟨1,[],[],[],[]⟩, ⟨2,[],[],[],[]⟩, ⟨3,[],[],[],[]⟩, ⟨4,[],[],[],[]⟩, ⟨5,[],[],[],[]⟩,
  ⟨6,[],[],[],[]⟩, ⟨0,[],[],[],[]⟩, ⟨1,[],[],[],[]⟩, ⟨2,[],[],[],[]⟩, ⟨3,[],[],[],[]⟩],
  [⟨2,[],[],[],[]⟩, ⟨3,[],[],[],[]⟩, ⟨4,[],[],[],[]⟩, ⟨5,[],[],[],[]⟩, ⟨6,[],[],[],[]⟩,
  ⟨0,[],[],[],[]⟩, ⟨1,[],[],[],[]⟩, ⟨2,[],[],[],[]⟩, ⟨3,[],[],[],[]⟩, ⟨4,[],[],[],[]⟩],
  [⟨3,[],[],[],[]⟩, ⟨4,[],[],[],[]⟩, ⟨5,[],[],[],[]⟩, ⟨6,[],[],[],[]⟩, ⟨0,[],[],[],[]⟩,
  ⟨1,[],[],[],[]⟩, ⟨2,[],[],[],[]⟩, ⟨3,[],[],[],[]⟩, ⟨4,[],[],[],[]⟩, ⟨5,[],[],[],[]⟩],
  [⟨4,[],[],[],[7]⟩, ⟨5,[],[],[],[8]⟩, ⟨6,[],[],[],[9]⟩, ⟨0,[],[],[],[]⟩, ⟨1,[],[],[],[]⟩,
  ⟨2,[],[],[],[]⟩, ⟨3,[],[],[],[]⟩, ⟨4,[],[],[],[]⟩, ⟨5,[],[],[],[]⟩, ⟨6,[],[],[],[]⟩],
  [⟨5,[],[],[],[]⟩, ⟨6,[],[],[],[]⟩, ⟨0,[],[],[],[]⟩, ⟨1,[],[],[],[]⟩, ⟨2,[],[],[],[]⟩,
  ⟨3,[],[],[],[]⟩, ⟨4,[],[],[],[]⟩, ⟨5,[],[],[],[]⟩, ⟨6,[],[],[],[]⟩, ⟨0,[],[],[],[]⟩],
  [⟨6,[],[],[],[]⟩, ⟨0,[],[],[],[]⟩, ⟨1,[],[],[],[]⟩, ⟨2,[],[],[],[]⟩, ⟨3,[],[],[],[]⟩,
  ⟨4,[],[],[],[]⟩, ⟨5,[],[],[],[]⟩, ⟨6,[],[],[],[]⟩, ⟨0,[],[],[],[]⟩, ⟨1,[],[],[],[]⟩]],
  [[⟨0,[],[],[],[]⟩, ⟨1,[],[],[],[]⟩, ⟨2,[(2,0)],[],[],[]⟩, ⟨3,[(2,1)],[],[],[]⟩, ⟨0,[],[(-15,2)],[],[]⟩,
  ⟨1,[],[(-15,3)],[],[]⟩], [⟨1,[],[],[],[]⟩, ⟨2,[],[],[],[]⟩, ⟨3,[(-13,0)],[],[],[]⟩,
  ⟨4,[(-13,1)],[],[],[]⟩, ⟨1,[],[(-16,2)],[],[]⟩, ⟨2,[],[(-16,3)],[],[]⟩], [⟨2,[],[],[],[]⟩,
  ⟨3,[],[],[],[]⟩, ⟨4,[(-14,0)],[],[],[]⟩, ⟨5,[(-14,1)],[],[],[]⟩, ⟨2,[],[(0,2)],[],[]⟩,
  ⟨3,[],[(0,3)],[],[]⟩], [⟨3,[],[],[],[]⟩, ⟨4,[],[],[],[]⟩, ⟨5,[(-15,0)],[],[],[]⟩,
  ⟨6,[(-15,1)],[],[],[]⟩, ⟨3,[],[(-11,2)],[],[]⟩, ⟨4,[],[(-11,3)],[],[]⟩], [⟨4,[],[],[],[]⟩,
  ⟨5,[],[],[],[]⟩, ⟨6,[(6,0)],[],[],[]⟩, ⟨0,[(-16,1)],[],[],[]⟩, ⟨4,[],[(-12,2)],[],[]⟩,
  ⟨5,[],[(-12,3)],[],[]⟩], [⟨5,[],[],[],[]⟩, ⟨6,[],[],[],[]⟩, ⟨0,[(-10,0)],[],[],[]⟩,
  ⟨1,[(-10,1)],[],[],[]⟩, ⟨5,[],[(-13,2)],[],[]⟩, ⟨6,[],[(-13,3)],[],[]⟩], [⟨6,[],[],[],[]⟩,
  ⟨0,[],[],[],[]⟩, ⟨1,[(-11,0)],[],[],[]⟩, ⟨2,[(-11,1)],[],[],[]⟩, ⟨6,[],[(4,2)],[],[]⟩,
  ⟨0,[],[(-14,3)],[],[]⟩]], [[⟨0,[],[],[],[]⟩, ⟨1,[],[],[],[]⟩, ⟨2,[],[],[],[]⟩, ⟨3,[],[],[],[]⟩,
  ⟨0,[],[],[],[]⟩, ⟨1,[],[],[],[]⟩], [⟨1,[],[],[],[]⟩, ⟨2,[],[],[],[]⟩, ⟨3,[],[],[],[]⟩,
  ⟨4,[],[],[],[]⟩, ⟨1,[],[],[],[]⟩, ⟨2,[],[],[],[]⟩], [⟨2,[],[],[],[4]⟩, ⟨3,[],[],[],[5]⟩,
  ⟨4,[],[],[],[]⟩, ⟨5,[],[],[],[]⟩, ⟨2,[],[],[],[]⟩, ⟨3,[],[],[],[]⟩], [⟨3,[],[],[],[]⟩,
  ⟨4,[],[],[],[]⟩, ⟨5,[],[],[],[]⟩, ⟨6,[],[],[],[]⟩, ⟨3,[],[],[],[]⟩, ⟨4,[],[],[],[]⟩],
  [⟨4,[],[],[],[]⟩, ⟨5,[],[],[],[]⟩, ⟨6,[],[],[],[]⟩, ⟨0,[],[],[],[]⟩, ⟨4,[],[],[],[]⟩,
  ⟨5,[],[],[],[]⟩], [⟨5,[],[],[],[]⟩, ⟨6,[],[],[],[]⟩, ⟨0,[],[],[],[]⟩, ⟨1,[],[],[],[]⟩,
  ⟨5,[],[],[],[]⟩, ⟨6,[],[],[],[]⟩], [⟨6,[],[],[],[4]⟩, ⟨0,[],[],[],[]⟩, ⟨1,[],[],[],[]⟩,
  ⟨2,[],[],[],[]⟩, ⟨6,[],[],[],[]⟩, ⟨0,[],[],[],[]⟩]], [[⟨0,[],[],[],[]⟩, ⟨1,[(1,0)],[],[],[]⟩,
  ⟨0,[],[(-16,1)],[],[]⟩], [⟨1,[],[],[],[]⟩, ⟨2,[(-12,0)],[],[],[]⟩, ⟨1,[],[(0,1)],[],[]⟩],
  [⟨2,[],[],[],[]⟩, ⟨3,[(3,0)],[],[],[]⟩, ⟨2,[],[(-11,1)],[],[]⟩], [⟨3,[],[],[],[]⟩,
  ⟨4,[(-14,0)],[],[],[]⟩, ⟨3,[],[(2,1)],[],[]⟩], [⟨4,[],[],[],[]⟩, ⟨5,[(5,0)],[],[],[]⟩,
  ⟨4,[],[(-13,1)],[],[]⟩], [⟨5,[],[],[],[]⟩, ⟨6,[(-16,0)],[],[],[]⟩, ⟨5,[],[(4,1)],[],[]⟩],
  [⟨6,[],[],[],[]⟩, ⟨0,[(-10,0)],[],[],[]⟩, ⟨6,[],[(-15,1)],[],[]⟩]], [[⟨0,[],[],[],[]⟩, ⟨1,[],[],[],[]⟩,
  ⟨0,[],[],[],[]⟩], [⟨1,[],[],[],[2]⟩, ⟨2,[],[],[],[]⟩, ⟨1,[],[],[],[]⟩], [⟨2,[],[],[],[]⟩,
  ⟨3,[],[],[],[]⟩, ⟨2,[],[],[],[]⟩], [⟨3,[],[],[],[2]⟩, ⟨4,[],[],[],[]⟩, ⟨3,[],[],[],[]⟩],
  [⟨4,[],[],[],[]⟩, ⟨5,[],[],[],[]⟩, ⟨4,[],[],[],[]⟩], [⟨5,[],[],[],[2]⟩, ⟨6,[],[],[],[]⟩,
  ⟨5,[],[],[],[]⟩], [⟨6,[],[],[],[]⟩, ⟨0,[],[],[],[]⟩, ⟨6,[],[],[],[]⟩]], [[⟨0,[(-1,0)],[],[],[]⟩],
  [⟨1,[(-1,1)],[],[],[]⟩], [⟨2,[(-1,2)],[],[],[]⟩], [⟨3,[(-1,3)],[],[],[]⟩], [⟨4,[(-1,4)],[],[],[]⟩],
  [⟨5,[(-1,5)],[],[],[]⟩], [⟨6,[(-1,6)],[],[],[]⟩]]]


theorem forward7_eq : ((forward 7 0 (rowsOf (cyc 7 [1, 1, 1] []))).map fun x => x.1.map fun r => (List.range 7).map r) = some forward7 := by
  decide +kernel

/-- A scatter from node 0 of seven nodes made of the cyclic reduce_scatter with one port in three steps: node 6 gets memory
nobody wrote. The message from node 4 to node 6 has two lines of which one is dropped. The schedule satisfies the
conditions of `scatter_partial` except `Unmixed`. -/
theorem scatter_violated : ∃ (r0 : Row) (rows rows' : List Row) (v : Nat → Marks) (inp : Nat → Nat) (junk : Nat → Nat → Nat) (out : Nat → Option Nat),
    (∀ t < 7, CyclicReduce.core 7 [1, 1, 1] [] t = some (columns (r0 :: rows) t)) ∧ FWf 7 0 r0 rows ∧
    (∀ (W : Type) [AddCommMonoid W], Computes (V := W) 7 copyOutFirst (columns (r0 :: rows)) (ReduceScatterPost 7)) ∧
    forward 7 0 (r0 :: rows) = some (rows', v) ∧
    ExecF 7 0 copyOutFirst rows' inp junk out ∧ inp 6 = 16 ∧ out 6 = some 555 := by
  have hcol : ∀ t < 7, cyc 7 [1, 1, 1] [] t = columns (rowsOf (cyc 7 [1, 1, 1] [])) t := colB_sound 7 _ (by decide +kernel)
  have hp := forward7_eq
  cases hr : rowsOf (cyc 7 [1, 1, 1] []) with
  | nil => rw [hr] at hp; cases hp
  | cons r0 rs =>
    cases hx : forward 7 0 (rowsOf (cyc 7 [1, 1, 1] [])) with
    | none => rw [hx] at hp; cases hp
    | some x =>
      obtain ⟨rows', v⟩ := x
      rw [hx] at hp
      simp only [Option.map_some, Option.some.injEq] at hp
      obtain ⟨out, h2, h3⟩ := dirtyF_sound 7 0 copyOutFirst (unTable forward7) 6 555 (by decide +kernel)
      rw [← hp] at h2
      have hw : (match rowsOf (cyc 7 [1, 1, 1] []) with | r0 :: rs => fwfB 7 0 r0 rs | [] => false) = true := by decide +kernel
      rw [hr] at hw hx hcol
      refine ⟨r0, rs, rows', v, _, _, out, fun t ht => ?_, fwfB_sound 7 0 r0 rs hw, fun W _ => ?_, hx,
        ExecF.congr (unTable_same 7 rows') h2, rfl, h3⟩
      · rw [← hcol t ht, cyc]
        obtain ⟨sched, h1, -⟩ := CyclicReduce.reduceScatter_correct (V := Nat) 7 (by decide) [1, 1, 1] (by decide)
        rw [h1 t]
      · exact computes_congr hcol (cyc_scatter 7 (by decide) [1, 1, 1] (by decide) W)

end ExtMpi.Forward
