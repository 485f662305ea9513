import Verif.Props.Optimise
import Verif.Props.RankPerm
import Verif.Model.OnePerNode
import Verif.Lemmas.RawExec
/-! # From the counts of the user to the result, one process per node -/
namespace ExtMpi.OnePerNode
open RawCode Optimise Schedule

/-- Every receive buffer holds `cnt[s]` elements of the send buffer of process `s` from position `displs[s]` on; nothing else of the
buffers of the user changes. -/
def AllgathervMem {X : Type} (cnt displs : List Nat) (m mem : Nat → Mem X) : Prop :=
  ∀ t, t < cnt.length →
    (∀ s n d i : Nat, cnt[s]? = some n → displs[s]? = some d → i < n → mem t .recv (d + i) = m s .send i) ∧
    (∀ e, (∀ s n d : Nat, cnt[s]? = some n → displs[s]? = some d → ¬(d ≤ e ∧ e < d + n)) → mem t .recv e = m t .recv e) ∧
    mem t .send = m t .send

/-- Every buffer holds the element-wise sum of the first `len` elements of all buffers before; nothing else of the buffer changes. -/
def InPlaceMem {X : Type} [AddCommMonoid X] (N len : Nat) (m mem : Nat → Mem X) : Prop :=
  ∀ t, t < N → (∀ e, e < len → mem t .recv e = ∑ s ∈ Finset.range N, m s .recv e) ∧
    ∀ e, len ≤ e → mem t .recv e = m t .recv e

/-! ## Equal counts -/

theorem forward_equal (sort : List RankPerm.Sum → List RankPerm.Sum) (N n t : Nat) (ht : t < N) :
    RankPerm.forward sort ⟨t, (List.replicate N n).map fun (n : Nat) => (n : Int), []⟩ =
      some ⟨t, (List.replicate N n).map fun (n : Nat) => (n : Int), List.range N⟩ := by
  have hp : RankPerm.IsPerm N (List.range N) := List.Perm.refl _
  have hb : ∀ i, i < N → RankPerm.back (List.range N) i = some i := fun i hi =>
    RankPerm.back_perm N _ hp i i (by rw [List.getElem?_range hi])
  have hall : ((List.replicate N n).map fun (n : Nat) => (n : Int)) = List.replicate N (n : Int) := by simp
  have hany : ((List.replicate N (n : Int)).any fun s => some s != (List.replicate N (n : Int)).head?) = false := by
    rw [List.any_eq_false]
    intro s hs
    rw [List.mem_replicate] at hs
    rw [List.head?_replicate, if_neg hs.1, hs.2]
    simp
  unfold RankPerm.forward
  rw [hall]
  simp only [hany, List.length_replicate]
  rw [if_neg (by simp), Option.bind_some, hb t ht, Option.bind_some,
    RankPerm.mapM_some _ (fun _ => (n : Int)) (List.range N) (by
      intro i hi
      have hi := List.mem_range.1 hi
      rw [hb i hi, Option.bind_some]
      simp [hi])]
  simp

theorem backward_equal (N n t : Nat) (ht : t < N) :
    RankPerm.backward ⟨t, (List.replicate N n).map fun (n : Nat) => (n : Int), List.range N⟩ =
      some ⟨t, (List.replicate N n).map fun (n : Nat) => (n : Int), List.range N⟩ := by
  have hall : ((List.replicate N n).map fun (n : Nat) => (n : Int)) = List.replicate N (n : Int) := by simp
  unfold RankPerm.backward
  rw [hall]
  simp only [List.length_replicate]
  rw [List.getElem?_range ht, Option.bind_some,
    RankPerm.mapM_some _ (fun _ => (n : Int)) (List.range N) (by
      intro i hi
      have hi := List.mem_range.1 hi
      rw [List.getElem?_range hi, Option.bind_some]
      simp [hi])]
  simp

theorem relabel_range (N : Nat) (a : List Block) (ha : ∀ b, b ∈ a → ∀ l, l ∈ b → RankPerm.LineOk N l) :
    RankPerm.relabel (List.range N) a = some a := by
  rw [RankPerm.relabel_eq N _ id (fun t ht => by rw [List.getElem?_range ht]; rfl) a ha]
  have hrp : RankPerm.rp id = id := by
    funext e
    unfold RankPerm.rp
    split
    · rename_i h
      rw [Prod.ext_iff]
      exact ⟨by simp; omega, rfl⟩
    · rfl
  have hrl : RankPerm.rl id = id := by
    funext l
    unfold RankPerm.rl
    rw [hrp]
    simp
  rw [hrl]
  simp

theorem lineOk_gather (lb gb p t : Nat) (hgb : 0 < gb) (hd : gb * (p + 1) ∣ lb) (ht : t < lb) :
    ∀ l, l ∈ Recursive.gatherBlock lb gb p t → RankPerm.LineOk lb l := by
  intro l hl
  unfold Recursive.gatherBlock Recursive.mk at hl
  rw [List.mem_map] at hl
  obtain ⟨x, hx, rfl⟩ := hl
  have hx := List.mem_range.1 hx
  have hpl : ∀ i, ((Recursive.partner gb (gb * (p + 1)) t i : Nat) : Int) < lb := fun i => by
    exact_mod_cast Recursive.partner_lt gb (p + 1) lb t i hgb (by omega) hd ht
  refine ⟨hx, ?_, ?_⟩
  · intro e he
    simp only [Recursive.gatherSend] at he
    split at he
    · rw [List.mem_map] at he
      obtain ⟨i, _, rfl⟩ := he
      exact hpl i
    · cases he
  · intro e he
    simp only [Recursive.gatherRecv] at he
    split at he
    · rw [List.mem_singleton] at he
      rw [he]
      exact hpl _
    · cases he

theorem lineOk_allgather (ports : List Nat) (t : Nat) (ht : t < Recursive.factor ports) :
    ∀ b, b ∈ Recursive.allgather ports t → ∀ l, l ∈ b → RankPerm.LineOk (Recursive.factor ports) l := by
  obtain ⟨lb, hlb⟩ : ∃ lb, lb = Recursive.factor ports := ⟨_, rfl⟩
  have hsteps : ∀ (ps : List Nat) (gb : Nat), 0 < gb → gb * Recursive.factor ps ∣ lb →
      ∀ b, b ∈ Recursive.gatherSteps lb t gb ps → ∀ l, l ∈ b → RankPerm.LineOk lb l := by
    intro ps
    induction ps with
    | nil => intro gb _ _ b hb; cases hb
    | cons p ps ih =>
      intro gb hgb hd b hb
      rw [Recursive.factor_cons, ← Nat.mul_assoc] at hd
      rw [Recursive.gatherSteps, List.mem_cons] at hb
      rcases hb with rfl | hb
      · exact lineOk_gather lb gb p t hgb (Nat.dvd_trans (Nat.dvd_mul_right _ _) hd) (by omega)
      · exact ih _ (Nat.mul_pos hgb (by omega)) hd b hb
  intro b hb
  unfold Recursive.allgather at hb
  rw [← hlb] at hb ⊢
  rw [List.mem_cons, List.mem_append, List.mem_singleton] at hb
  rcases hb with rfl | hb | rfl
  · intro l hl
    unfold Recursive.gatherFirst Recursive.mk at hl
    rw [List.mem_map] at hl
    obtain ⟨x, hx, rfl⟩ := hl
    refine ⟨List.mem_range.1 hx, by simp, ?_⟩
    intro e he
    simp only at he
    split at he
    · rw [List.mem_singleton] at he; rw [he]; simp; omega
    · cases he
  · exact hsteps ports 1 (by omega) (by rw [Nat.one_mul, hlb]) b hb
  · intro l hl
    unfold Recursive.gatherLast Recursive.mk at hl
    rw [List.mem_map] at hl
    obtain ⟨x, hx, rfl⟩ := hl
    refine ⟨List.mem_range.1 hx, ?_, by simp⟩
    intro e he
    simp only [List.mem_singleton] at he
    rw [he]; simp; omega

theorem getD_replicate (N n k : Nat) (hk : k < N) :
    ((((List.replicate N n).map fun (n : Nat) => (n : Int)).getD k 0).toNat) = n := by
  simp [hk]

/-- C63, part: `MPI_Allgather`, that is equal positive counts and blocks one after the other. Missing: counts that are zero or
differ, other displacements (`allgatherv_zero_violated`, `allgatherv_order_violated`, `allgatherv_displs_violated`). -/
theorem allgather_equal_partial {X : Type} [Add X] (sort : List RankPerm.Sum → List RankPerm.Sum) (C : Nat) (hC : 0 < C)
    (port : Nat) (ports : List Nat) (hp : ∀ p, p ∈ port :: ports → 0 < p) (n N : Nat) (hn : 0 < n)
    (hN : N = ((port :: ports).map fun p => p + 1).prod) (m : Nat → Mem X) :
    ∃ prog : Nat → List Instr,
      (∀ t, t < N → allgatherv sort C (port :: ports) (List.replicate N n) ((List.range N).map (n * ·)) t = some (prog t)) ∧
      Correct N prog m fun mem => AllgathervMem (List.replicate N n) ((List.range N).map (n * ·)) m mem := by
  obtain ⟨sched, prog, h1, h2, h3⟩ := allgather_direct_partial C hC port ports hp
    (fun k => (((List.replicate N n).map fun (n : Nat) => (n : Int)).getD k 0).toNat)
    (fun k hk => by rw [getD_replicate N n k (by rw [hN]; exact hk)]; exact hn) m
  rw [← hN] at h2 h3
  have hN' : N = Recursive.factor (port :: ports) := hN
  refine ⟨prog, ?_, ?_⟩
  · intro t ht
    have hs : sched t = Recursive.allgather (port :: ports) t := by
      have := h1 t
      unfold Recursive.generate at this
      rw [if_pos rfl, if_pos (by
        rw [List.all_map, List.all_eq_true]
        intro p hpm
        have := hp p hpm
        simp [this])] at this
      have e : ((port :: ports).map fun p : Nat => (p : Int)).map Int.toNat = port :: ports := by
        rw [List.map_map]
        exact List.map_id _
      rw [e] at this
      exact (Option.some.inj this).symm
    unfold allgatherv
    rw [forward_equal sort N n t ht]
    show (Option.bind (Recursive.generate true ((port :: ports).map fun p : Nat => (p : Int)) t) _) = _
    rw [h1 t, Option.bind_some, hs]
    show (Option.bind (RankPerm.relabel (List.range N) (Recursive.allgather (port :: ports) t)) _) = _
    rw [relabel_range N _ (by rw [hN']; exact lineOk_allgather (port :: ports) t (by rw [← hN']; exact ht)), Option.bind_some,
      backward_equal N n t ht]
    show gatherProgram C (List.replicate N n).length _ port (Recursive.allgather (port :: ports) t) t = some (prog t)
    rw [List.length_replicate, ← hs]
    exact h2 t ht
  · refine Optimise.correct_imp h3 ?_
    intro mem hmem t ht
    rw [List.length_replicate] at ht
    obtain ⟨a1, a2, a3⟩ := hmem t ht
    dsimp only at a1 a2
    have hsum : ∀ s, s ≤ N → ∑ k ∈ Finset.range s, (((List.replicate N n).map fun (n : Nat) => (n : Int)).getD k 0).toNat = n * s := by
      intro s hs
      rw [Finset.sum_congr rfl fun k hk => getD_replicate N n k (by have := Finset.mem_range.1 hk; omega), Finset.sum_const,
        Finset.card_range, smul_eq_mul, Nat.mul_comm]
    have hget : ∀ s n' d : Nat, (List.replicate N n)[s]? = some n' → ((List.range N).map (n * ·))[s]? = some d →
        s < N ∧ n' = n ∧ d = n * s := by
      intro s n' d e1 e2
      rw [List.getElem?_replicate] at e1
      split at e1
      · rename_i hs
        rw [List.getElem?_map, List.getElem?_range hs] at e2
        cases e1; cases e2
        exact ⟨hs, rfl, rfl⟩
      · cases e1
    refine ⟨?_, ?_, a3⟩
    · intro s n' d i e1 e2 hi
      obtain ⟨hs, rfl, rfl⟩ := hget s n' d e1 e2
      have := a1 s i hs (by rw [getD_replicate N _ s hs]; exact hi)
      rwa [hsum s (by omega)] at this
    · intro e he
      apply a2
      rw [hsum N (Nat.le_refl N)]
      by_contra hlt
      have hd : e / n < N := Nat.div_lt_of_lt_mul (by omega)
      refine he (e / n) n (n * (e / n)) (by rw [List.getElem?_replicate, if_pos hd]) (by
        rw [List.getElem?_map, List.getElem?_range hd]; rfl) ⟨Nat.mul_div_le e n, ?_⟩
      have := Nat.lt_mul_div_succ e hn
      rwa [Nat.mul_add, Nat.mul_one] at this

/-- twelve processes with five elements each -/
example (m : Nat → Mem Nat) : ∃ prog : Nat → List Instr,
    (∀ t, t < 12 → allgatherv RankPerm.sortStably 64 [2, 3] (List.replicate 12 5) ((List.range 12).map (5 * ·)) t = some (prog t)) ∧
    Correct 12 prog m fun mem => AllgathervMem (List.replicate 12 5) ((List.range 12).map (5 * ·)) m mem :=
  allgather_equal_partial _ 64 (by decide) 2 [3] (by decide) 5 12 (by decide) (by decide) m

/-- C62, part: `MPI_Reduce_scatter_block`, that is equal counts. Missing: counts that differ (`reduceScatter_violated`). -/
theorem reduceScatter_equal_partial {X : Type} [AddCommMonoid X] (sort : List RankPerm.Sum → List RankPerm.Sum) (C : Nat) (hC : 0 < C)
    (ports : List Nat) (hne : ports ≠ []) (hp : ∀ p, p ∈ ports → 0 < p) (n N : Nat)
    (hN : N = (ports.map fun p => p + 1).prod) (m : Nat → Mem X) :
    ∃ prog : Nat → List Instr,
      (∀ t, t < N → reduceScatter sort C ports (List.replicate N n) t = some (prog t)) ∧
      Correct N prog m fun mem => ReduceScatterMem N (fun _ => n) m mem := by
  obtain ⟨sched, prog, h1, h2, h3⟩ := reduceScatter_direct C hC ports hne hp
    (fun k => (((List.replicate N n).map fun (n : Nat) => (n : Int)).getD k 0).toNat) m
  rw [← hN] at h2 h3
  refine ⟨prog, ?_, ?_⟩
  · intro t ht
    unfold reduceScatter
    rw [forward_equal sort N n t ht]
    show (Option.bind (Recursive.generate false (ports.map fun p : Nat => -(p : Int)) t) _) = _
    rw [h1 t, Option.bind_some, backward_equal N n t ht]
    show (if _ then _ else _) = _
    rw [if_pos (by simp [size, ht])]
    show userProgram C (List.replicate N n).length _ .reduceScatter _ (sched t) t = some (prog t)
    rw [List.length_replicate]
    exact h2 t ht
  · refine Optimise.correct_imp h3 ?_
    intro mem hmem t ht
    obtain ⟨a1, a2, a3⟩ := hmem t ht
    dsimp only at a1 a2
    rw [getD_replicate N n t ht] at a1 a2
    have hsum : ∑ k ∈ Finset.range t, (((List.replicate N n).map fun (n : Nat) => (n : Int)).getD k 0).toNat =
        ∑ _k ∈ Finset.range t, n :=
      Finset.sum_congr rfl fun k hk => getD_replicate N n k (by have := Finset.mem_range.1 hk; omega)
    rw [hsum] at a1
    exact ⟨a1, a2, a3⟩

/-- twelve processes with five elements each -/
example (m : Nat → Mem Nat) : ∃ prog : Nat → List Instr,
    (∀ t, t < 12 → reduceScatter RankPerm.sortStably 64 [2, 3] (List.replicate 12 5) t = some (prog t)) ∧
    Correct 12 prog m fun mem => ReduceScatterMem 12 (fun _ => 5) m mem :=
  reduceScatter_equal_partial _ 64 (by decide) [2, 3] (by decide) (by decide) 5 12 (by decide) m

/-! ## What does not hold -/

/-- Contents of the buffers: element `i` of a buffer of process `t` is `10 t + i + 1` in the send buffer and `100` times that in
the receive buffer. -/
def sample (t : Nat) : Mem Int := fun r i =>
  match r with
  | .send => 10 * t + i + 1
  | .recv => 100 * (10 * t + i + 1)
  | .shm _ => 0

/-- An execution of two processes that exchange one message each. -/
def exchange : List Lab := [.loc 0, .loc 0, .loc 1, .loc 1, .depart 0 1, .depart 1 0, .arrive 0 1, .arrive 1 0, .loc 0, .loc 0, .loc 0,
  .loc 1, .loc 1, .loc 1]

/-- C63 is violated by a count of zero: `swap_copyin` expects one message per partner and takes other lines for messages. -/
theorem allgatherv_zero_violated : ∀ t, t < 2 → allgatherv RankPerm.sortStably 8 [1] [1, 0] [0, 1] t = none := by
  decide +kernel

/-- Programs of two processes. -/
def both (f : Nat → Option (List Instr)) (t : Nat) : List Instr := (f t).getD []

/-- C63 is violated by counts that differ: the blocks arrive in the order of the labels. -/
theorem allgatherv_order_violated :
    (∀ t, t < 2 → (allgatherv RankPerm.sortStably 8 [1] [2, 1] [0, 2] t).isSome) ∧
    ¬Correct 2 (both (allgatherv RankPerm.sortStably 8 [1] [2, 1] [0, 2])) sample
      (AllgathervMem [2, 1] [0, 2] sample) := by
  refine ⟨by decide +kernel, ?_⟩
  obtain ⟨s, hs⟩ : ∃ s, execs 2 exchange (initial (both (allgatherv RankPerm.sortStably 8 [1] [2, 1] [0, 2])) sample) = some s :=
    Option.isSome_iff_exists.1 (by decide +kernel)
  have h1 : (execs 2 exchange (initial (both (allgatherv RankPerm.sortStably 8 [1] [2, 1] [0, 2])) sample)).map
      (fun s => (finalB 2 s, (s.proc 0).mem .recv 0)) = some (true, 11) := by decide +kernel
  rw [hs, Option.map_some, Option.some_inj, Prod.mk.injEq] at h1
  refine not_correct 2 _ _ _ exchange s hs h1.1 ?_
  intro h
  have h2 := (h 0 (by decide)).1 0 2 0 0 rfl rfl (by decide)
  have h3 := h1.2
  dsimp only at h2
  rw [show (0 : Nat) + 0 = 0 from rfl, h3] at h2
  exact absurd h2 (by decide)

/-- C64 is violated: displacements that leave a gap between the blocks have no effect. -/
theorem allgatherv_displs_violated :
    (∀ t, t < 2 → (allgatherv RankPerm.sortStably 8 [1] [1, 1] [0, 2] t).isSome) ∧
    ¬Correct 2 (both (allgatherv RankPerm.sortStably 8 [1] [1, 1] [0, 2])) sample
      (AllgathervMem [1, 1] [0, 2] sample) := by
  refine ⟨by decide +kernel, ?_⟩
  obtain ⟨s, hs⟩ : ∃ s, execs 2 exchange (initial (both (allgatherv RankPerm.sortStably 8 [1] [1, 1] [0, 2])) sample) = some s :=
    Option.isSome_iff_exists.1 (by decide +kernel)
  have h1 : (execs 2 exchange (initial (both (allgatherv RankPerm.sortStably 8 [1] [1, 1] [0, 2])) sample)).map
      (fun s => (finalB 2 s, (s.proc 0).mem .recv 2)) = some (true, 300) := by decide +kernel
  rw [hs, Option.map_some, Option.some_inj, Prod.mk.injEq] at h1
  refine not_correct 2 _ _ _ exchange s hs h1.1 ?_
  intro h
  have h2 := (h 0 (by decide)).1 1 1 2 0 rfl rfl (by decide)
  have h3 := h1.2
  dsimp only at h2
  rw [show (2 : Nat) + 0 = 2 from rfl, h3] at h2
  exact absurd h2 (by decide)

/-- Partner of a message. -/
def partnerOf : Instr → Option Nat
  | .irecv _ _ q => some q
  | .isend _ _ q => some q
  | _ => none

/-- C62 is violated by counts that differ: the labels of the permutation are taken for nodes. Process 0 gets and sends messages, but
none from or to process 1, so that its result cannot depend on the data of process 1. -/
theorem reduceScatter_violated : ∃ p : List Instr, reduceScatter RankPerm.sortStably 8 [1] [2, 1] 0 = some p ∧
    (∃ i, i ∈ p ∧ (partnerOf i).isSome) ∧ ∀ i, i ∈ p → ∀ q, partnerOf i = some q → q = 0 := by
  refine ⟨(reduceScatter RankPerm.sortStably 8 [1] [2, 1] 0).getD [], by decide +kernel, by decide +kernel, ?_⟩
  have : ∀ i, i ∈ (reduceScatter RankPerm.sortStably 8 [1] [2, 1] 0).getD [] → partnerOf i = none ∨ partnerOf i = some 0 := by
    decide +kernel
  intro i hi q hq
  rcases this i hi with h | h
  · rw [h] at hq; cases hq
  · rw [h] at hq; cases hq; rfl

/-- The allreduce programs of two processes with one element each, port count 1. -/
def pair (t : Nat) : Option (List Instr) := do
  let sched ← Recursive.generate false [1] t
  userProgram 8 2 (fun _ => 1) .allreduce (bigRecvbuf [1]) sched t

/-- C65 is violated: with `MPI_IN_PLACE` both processes send out of the buffer they receive into, which MPI does not allow. -/
theorem inPlace_violated : (∀ t, t < 2 → (pair t).isSome) ∧
    ¬Correct 2 (fun t => inPlace (both pair t)) sample (InPlaceMem 2 2 sample) := by
  refine ⟨by decide +kernel, ?_⟩
  obtain ⟨s, hs⟩ : ∃ s, execs 2 [.loc 0, .loc 1] (initial (fun t => inPlace (both pair t)) sample) = some s :=
    Option.isSome_iff_exists.1 (by decide +kernel)
  have h1 : (execs 2 [.loc 0, .loc 1] (initial (fun t => inPlace (both pair t)) sample)).map
      (fun s => (finalB 2 s, (List.range 2).map fun t => (s.proc t).rest)) = some (false,
        [[.isend ⟨.recv, 0⟩ 2 1, .waitall, .copy true ⟨.recv, 0⟩ ⟨.recv, 0⟩ 2, .waitall],
          [.isend ⟨.recv, 0⟩ 2 0, .waitall, .copy true ⟨.recv, 0⟩ ⟨.recv, 0⟩ 2, .waitall]]) := by decide +kernel
  have h2 : (execs 2 [.loc 0, .loc 1] (initial (fun t => inPlace (both pair t)) sample)).map
      (fun s => (List.range 2).all fun t => (exec 2 (.loc t) s).isNone && (List.range 2).all fun q =>
        (exec 2 (.depart q t) s).isNone && (exec 2 (.arrive q t) s).isNone) = some true := by decide +kernel
  rw [hs, Option.map_some, Option.some_inj] at h1 h2
  rw [Prod.mk.injEq] at h1
  simp only [List.all_eq_true, List.mem_range, Bool.and_eq_true, Option.isNone_iff_eq_none] at h2
  refine not_correct_stuck 2 _ _ _ _ s hs h1.1 ?_ fun t ht => ⟨(h2 t ht).1, fun q hq => (h2 t ht).2 q hq⟩
  intro t ht a n q rest h
  have h3 := h1.2
  rw [show (List.range 2).map (fun t => (s.proc t).rest) = [(s.proc 0).rest, (s.proc 1).rest] from rfl, List.cons.injEq,
    List.cons.injEq] at h3
  match t, ht with
  | 0, _ =>
    rw [h3.1] at h
    rcases h with h | h
    · cases h
    · cases h; omega
  | 1, _ =>
    rw [h3.2.1] at h
    rcases h with h | h
    · cases h
    · cases h; omega

end ExtMpi.OnePerNode
