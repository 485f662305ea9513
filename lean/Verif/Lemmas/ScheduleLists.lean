import Verif.Lemmas.RecursivePhases
/-! Execution of blocks that are given as lists. -/
namespace ExtMpi.Schedule

theorem foldlM_some {V : Type} (f : V → Nat → Option V) (qs : List Nat) (v : V)
    (h : ∀ q, q ∈ qs → f v q = some v) : qs.foldlM f v = some v := by
  induction qs with
  | nil => rfl
  | cons q qs ih =>
    rw [List.foldlM_cons, h q List.mem_cons_self]
    exact ih fun q hq => h q (List.mem_cons_of_mem _ hq)

theorem mem_of_zipIdx {b : Block} {x : LineD × Nat} (h : x ∈ b.zipIdx) : x.1 ∈ b :=
  (List.mem_zipIdx h).2.2 ▸ List.getElem_mem _

theorem sendIdx_nil (b : Block) (q : Nat) (h : ∀ l, l ∈ b → ∀ e, e ∈ l.sendto → e.1 < 0) :
    sendIdx b q = [] := by
  unfold sendIdx
  rw [List.flatMap_eq_nil_iff]
  intro x hx
  rw [List.map_eq_nil_iff, List.filter_eq_nil_iff]
  intro e he
  have := h x.1 (mem_of_zipIdx hx) e he
  simp only [beq_iff_eq]
  omega

theorem recvIdx_nil (b : Block) (q : Nat) (h : ∀ l, l ∈ b → l.recvfrom = []) : recvIdx b q = [] := by
  unfold recvIdx
  rw [List.map_eq_nil_iff, List.filter_eq_nil_iff]
  intro x hx
  rw [h x.1 (mem_of_zipIdx hx)]
  simp

theorem reduces_list (b : Block) (node q : Nat)
    (h : ∀ l, l ∈ b → ∀ e, e ∈ l.recvfrom → e.1 ≠ (node : Int)) : reduces b node q = false := by
  unfold reduces
  cases hl : (recvIdx b q).getLast? with
  | none => rfl
  | some k =>
    simp only
    cases hk : b[k]? with
    | none => rfl
    | some l =>
      simp only [Option.bind_some]
      cases hr : l.recvfrom with
      | nil => rfl
      | cons a as =>
        have := h l (List.mem_of_getElem? hk) a (by rw [hr]; exact List.mem_cons_self)
        simpa using this

theorem copyReduceAll_none {V : Type} [Add V] (b : Block) (v : Nat → V)
    (h : ∀ l, l ∈ b → l.copyreducefrom = []) : copyReduceAll b v = v := by
  unfold copyReduceAll
  have : ∀ (xs : List (LineD × Nat)), (∀ x, x ∈ xs → x.1.copyreducefrom = []) →
      xs.foldl (fun v x =>
        match x.1.copyreducefrom with
        | [] => v
        | r0 :: rs => rs.foldl (fun v r => upd v x.2 (v x.2 + v r)) (upd v x.2 (v r0))) v = v := by
    intro xs
    induction xs with
    | nil => intro _; rfl
    | cons x xs ih =>
      intro hx
      rw [List.foldl_cons, hx x List.mem_cons_self]
      exact ih fun x h => hx x (List.mem_cons_of_mem _ h)
  exact this _ fun x hx => h x.1 (mem_of_zipIdx hx)

/-- A block without messages. -/
theorem local_step {V : Type} [Add V] (N : Nat) (bs : Nat → Block) (s : Nat → Nat → V) (t : Nat) (ht : t < N)
    (h1 : ∀ t, t < N → ∀ l, l ∈ bs t → l.recvfrom = [])
    (h2 : ∀ t, t < N → ∀ l, l ∈ bs t → ∀ e, e ∈ l.sendto → e.1 < 0)
    (h3 : ∀ l, l ∈ bs t → l.copyreducefrom = []) (h4 : reduceOk (bs t) = true) :
    nodeStep N bs s t = some (reduceAll (bs t) (s t)) := by
  rw [nodeStep_ok _ _ _ _ h4]
  unfold recvAll
  rw [foldlM_some]
  · rw [Option.map_some, copyReduceAll_none _ _ h3]
  · intro q hq
    by_cases hn : q = t
    · rw [if_pos hn]
    · rw [if_neg hn]
      have hqN : q < N := by
        obtain ⟨o, _, rfl⟩ := List.mem_map.1 hq
        exact Nat.mod_lt _ (by omega)
      have hm : message (bs q) (s q) t = [] := by
        unfold message
        rw [sendIdx_nil _ _ (h2 q hqN)]
        rfl
      show deliver (bs t) t q (message (bs q) (s q) t) (s t) = some (s t)
      rw [hm]
      unfold deliver
      rw [recvIdx_nil _ _ (h1 t ht)]
      rfl

/-- Receiving from several partners. The lines received from `q` are the positions `pos w` of the
items `w` in `W q`. -/
theorem recvAll_items {V : Type} [Add V] (N : Nat) (b : Block) (node : Nat) (hnode : node < N)
    (W : Nat → List Nat) (pos : Nat → Nat)
    (n0 : Nat → Nat) (y : Nat → Nat → V) (msgs : Nat → List (Option Nat × V)) (v : Nat → V)
    (hrecv : ∀ q, q < N → q ≠ node → recvIdx b q = (W q).map pos)
    (hpos : ∀ q, q < N → q ≠ node → (W q).map pos = List.range' (n0 q) (W q).length)
    (hred : ∀ q, q < N → q ≠ node → reduces b node q = false)
    (hmsg : ∀ q, q < N → q ≠ node → msgs q = (W q).map fun w => (fracOf b (pos w), y q w))
    (hdis : ∀ q q' w w', q < N → q' < N → q ≠ node → q' ≠ node → w ∈ W q → w' ∈ W q' →
      pos w = pos w' → q = q') :
    ∃ v', recvAll N b node msgs v = some v' ∧
      (∀ q w, q < N → q ≠ node → w ∈ W q → v' (pos w) = y q w) ∧
      (∀ n, (∀ q w, q < N → q ≠ node → w ∈ W q → pos w ≠ n) → v' n = v n) := by
  have hget : ∀ q k (h : k < (W q).length), q < N → q ≠ node → pos ((W q)[k]) = n0 q + k := by
    intro q k h hq hn
    have e := congrArg (fun l => l[k]?) (hpos q hq hn)
    simp only [List.getElem?_map, List.getElem?_eq_getElem h, Option.map_some] at e
    rw [List.getElem?_range' h] at e
    simpa using e
  obtain ⟨v', h1, h2, h3⟩ := recvFold_spec N b node n0 (fun q => (W q).length)
    (fun q k => match (W q)[k]? with
      | some w => y q w
      | none => v 0)
    (fun q hq hn => (hrecv q hq hn).trans (hpos q hq hn)) hred msgs
    (fun q hq hn => by
      rw [hmsg q hq hn]
      apply List.ext_getElem
      · simp
      · intro k k1 k2
        have hk : k < (W q).length := by simpa using k1
        simp only [List.getElem_map, List.getElem_range, List.getElem?_eq_getElem hk]
        rw [hget q k hk hq hn])
    (fun q q' n hq hq' hn hn' a1 a2 a3 a4 => by
      have k1 : n - n0 q < (W q).length := by omega
      have k2 : n - n0 q' < (W q').length := by omega
      apply hdis q q' _ _ hq hq' hn hn' (List.getElem_mem k1) (List.getElem_mem k2)
      rw [hget q _ k1 hq hn, hget q' _ k2 hq' hn']
      omega)
    ((List.range N).map fun o => (N + node - o) % N)
    (fun q hq => by
      obtain ⟨o, _, rfl⟩ := List.mem_map.1 hq
      exact Nat.mod_lt _ (by omega)) v
  refine ⟨v', h1, ?_, ?_⟩
  · intro q w hq hn hw
    obtain ⟨k, hk, rfl⟩ := List.mem_iff_getElem.1 hw
    rw [hget q k hk hq hn, h2 q (n0 q + k) (mem_order N node q hnode hq) hn (by omega) (by omega)]
    have e : n0 q + k - n0 q = k := by omega
    simp only [e, List.getElem?_eq_getElem hk]
  · intro n hn
    apply h3
    intro q hq hne hc
    have hqN : q < N := by
      obtain ⟨o, _, rfl⟩ := List.mem_map.1 hq
      exact Nat.mod_lt _ (by omega)
    have hk : n - n0 q < (W q).length := by omega
    apply hn q _ hqN hne (List.getElem_mem hk)
    rw [hget q _ hk hqN hne]
    omega

end ExtMpi.Schedule
