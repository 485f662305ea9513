import Verif.Lemmas.RawCodeCopy
import Verif.Props.Recursive
import Verif.Props.Cyclic
import Mathlib.Algebra.BigOperators.Pi
/-! # The generated programs compute their collectives on memory (C52, C53, C54) -/
namespace ExtMpi.RawCode
open Schedule

theorem lo_eq_sum (sz : Nat → Nat) (n : Nat) : lo sz n = ∑ k ∈ Finset.range n, sz k := by
  induction n with
  | zero => rfl
  | succ n ih => rw [lo_succ, Finset.sum_range_succ, ih]

/-- Every element belongs to one of the pieces. -/
theorem exists_piece (sz : Nat → Nat) (N e : Nat) (h : e < lo sz N) : ∃ g i, g < N ∧ i < sz g ∧ e = lo sz g + i := by
  induction N with
  | zero => exact absurd h (Nat.not_lt_zero e)
  | succ N ih =>
    by_cases h1 : e < lo sz N
    · obtain ⟨g, i, hg, hi, he⟩ := ih h1
      exact ⟨g, i, by omega, hi, he⟩
    · rw [lo_succ] at h
      exact ⟨N, e - lo sz N, by omega, by omega, by omega⟩

/-! ## Shape of the blocks -/

/-- Line `n` belongs to message `n % lb`; partners are nodes or the user. -/
def Shape (lb : Nat) (b : Block) : Prop :=
  ∀ n l, b[n]? = some l → l.frac = n % lb ∧ ∀ e, e ∈ l.sendto ++ l.recvfrom → -1 ≤ e.1

theorem shape_mk {lb L : Nat} {g : Nat → LineD}
    (h : ∀ n, n < L → (g n).frac = n % lb ∧ (∀ e, e ∈ (g n).sendto → -1 ≤ e.1) ∧
      ∀ e, e ∈ (g n).recvfrom → -1 ≤ e.1) : Shape lb (Recursive.mk L g) := by
  intro n l hl
  obtain ⟨h1, rfl⟩ := mk_get hl
  obtain ⟨h2, h3, h4⟩ := h n h1
  refine ⟨h2, fun e he => ?_⟩
  rcases List.mem_append.1 he with he | he
  · exact h3 e he
  · exact h4 e he

theorem Shape.plain {lb : Nat} {b : Block} (h : Shape lb b) : Plain b := by
  intro l hl e he
  obtain ⟨n, hn⟩ := List.getElem?_of_mem hl
  have := (h n l hn).2 e he
  omega

theorem Shape.lay {lb : Nat} {b : Block} (h : Shape lb b) (sz : Nat → Nat) : Lay (mmsize lb sz) b fun n => sz (n % lb) := by
  intro n hn
  rw [lineSize, List.getElem?_eq_getElem hn]
  dsimp only
  rw [mmsize, (h n _ (List.getElem?_eq_getElem hn)).1, Nat.mod_mod]

theorem Shape.frac {lb : Nat} {b : Block} (h : Shape lb b) (hlb : 0 < lb) : ∀ l, l ∈ b → l.frac < lb := by
  intro l hl
  obtain ⟨n, hn⟩ := List.getElem?_of_mem hl
  rw [(h n l hn).1]
  exact Nat.mod_lt _ hlb

theorem shape_gatherSend (gb gn p task line : Nat) : ∀ e, e ∈ Recursive.gatherSend gb gn p task line → -1 ≤ e.1 := by
  intro e he
  unfold Recursive.gatherSend at he
  split_ifs at he
  · obtain ⟨i, _, rfl⟩ := List.mem_map.1 he
    dsimp only; omega
  · cases he

theorem shape_gatherRecv (gb gn task line : Nat) : ∀ e, e ∈ Recursive.gatherRecv gb gn task line → -1 ≤ e.1 := by
  intro e he
  unfold Recursive.gatherRecv at he
  split_ifs at he
  · rw [List.mem_singleton.1 he]
    dsimp only; omega
  · cases he

theorem shape_reduceSend (gb p task : Nat) (first : Bool) (r line : Nat) :
    ∀ e, e ∈ Recursive.reduceSend gb p task first r line → -1 ≤ e.1 := by
  intro e he
  unfold Recursive.reduceSend at he
  dsimp only at he
  split_ifs at he <;> first
    | cases he; done
    | (rw [List.mem_singleton.1 he]; dsimp only; omega)

theorem shape_reduceRecv (gb p task : Nat) (first last : Bool) (r line : Nat) :
    ∀ e, e ∈ Recursive.reduceRecv gb p task first last r line → -1 ≤ e.1 := by
  intro e he
  unfold Recursive.reduceRecv at he
  dsimp only at he
  split_ifs at he <;> first
    | cases he; done
    | (rw [List.mem_singleton.1 he]; dsimp only; omega)

theorem shape_gatherBlock (lb gb p task : Nat) : Shape lb (Recursive.gatherBlock lb gb p task) :=
  shape_mk fun n hn => ⟨(Nat.mod_eq_of_lt hn).symm, shape_gatherSend _ _ _ _ _, shape_gatherRecv _ _ _ _⟩

theorem shape_gatherSteps (lb task : Nat) (ps : List Nat) : ∀ gb b, b ∈ Recursive.gatherSteps lb task gb ps → Shape lb b := by
  induction ps with
  | nil => intro _ b hb; cases hb
  | cons p ps ih =>
    intro gb b hb
    rw [Recursive.gatherSteps] at hb
    rcases List.mem_cons.1 hb with rfl | hb
    · exact shape_gatherBlock _ _ _ _
    · exact ih _ b hb

theorem shape_gatherLast (lb : Nat) : Shape lb (Recursive.gatherLast lb) :=
  shape_mk fun n hn => ⟨(Nat.mod_eq_of_lt hn).symm, fun e he => by rw [List.mem_singleton.1 he],
    fun e he => by cases he⟩

theorem shape_gatherFirst (lb t : Nat) : Shape lb (Recursive.gatherFirst lb t) :=
  shape_mk fun n hn => by
    refine ⟨(Nat.mod_eq_of_lt hn).symm, fun e he => (by cases he), fun e he => ?_⟩
    dsimp only at he
    split_ifs at he
    · rw [List.mem_singleton.1 he]
    · cases he

theorem shape_allgather (ports : List Nat) (t : Nat) :
    ∀ b, b ∈ Recursive.allgather ports t → Shape (Recursive.factor ports) b := by
  intro b hb
  rw [Recursive.allgather] at hb
  rcases List.mem_cons.1 hb with rfl | hb
  · exact shape_gatherFirst _ _
  rcases List.mem_append.1 hb with hb | hb
  · exact shape_gatherSteps _ _ _ _ _ hb
  · rw [List.mem_singleton.1 hb]; exact shape_gatherLast _

/-! ## Allgather -/

/-- C53 for schedules with a constant layout of the lines: the program does what the schedule does. -/
theorem gather_program {X : Type} [Add X] (N : Nat) (sched : Nat → List Block) (sz : Nat → Nat) (m : Nat → Mem X)
    (f : Nat → Nat → Nat)
    (hexec : ∀ inp junk : Nat → Nat → Nat → X, ∃ out, Exec N copyOut sched inp junk out ∧ AllgatherPost N inp out)
    (hlay : ∀ t, t < N → ∀ b, b ∈ sched t → Lay (mmsize N sz) b (f t))
    (hplain : ∀ t, t < N → ∀ b, b ∈ sched t → Plain b)
    (hfrac : ∀ t, t < N → ∀ b, b ∈ sched t → ∀ l, l ∈ b → l.frac < N)
    (hfirst : ∀ t, t < N → ∀ b, (sched t).head? = some b → ∃ (n0 : Nat) (l0 : LineD), b[n0]? = some l0 ∧ l0.frac = t ∧
      ∀ (j : Nat) (l : LineD), b[j]? = some l → ((l.recvfrom.any fun e => e.1 == -1) = true ↔ j = n0)) :
    ∃ prog : Nat → List Instr, (∀ t, t < N → program N sz .allgather (sched t) t = some (prog t)) ∧
      Correct N prog m fun mem => AllgatherMem N sz m mem := by
  obtain ⟨out, hE, hpost⟩ := hexec (fun t _ i => m t .send i) (fun t n i => m t (.shm 0) (lo (f t) n + i))
  obtain ⟨prog, h1, h2⟩ := assemble N sz .allgather sched f m _ _ copyOut out hE
    (fun t ht b hb => hlay t ht b (List.mem_of_mem_tail hb))
    (fun t ht b hb => hplain t ht b (List.mem_of_mem_tail hb))
    (fun t ht b hb => hfrac t ht b (List.mem_of_mem_head? hb))
    (fun t ht b hb => hfrac t ht b (List.mem_of_getLast? hb))
    (fun t mem o => (∀ g w, g < N → o g = some w → ∀ i, i < sz g → mem .recv (moffset sz g + i) = w i) ∧
      (∀ i, moffset sz N ≤ i → mem .recv i = m t .recv i) ∧ mem .send = m t .send)
    (fun t ht b hb => by
      obtain ⟨n0, l0, g1, g2, g3⟩ := hfirst t ht b hb
      exact copyInCode_gather N sz (f t) b t n0 (m t) l0 (hlay t ht b (List.mem_of_mem_head? hb)) ht g1 g2 g3
        (hfrac t ht b (List.mem_of_mem_head? hb)))
    (fun t ht b hb m2 v hr hs => by
      obtain ⟨g1, g2, g3, g4⟩ := copyOutCode_all N sz (f t) .allgather (by intro h; cases h) b t m2 v
        (hlay t ht b (List.mem_of_getLast? hb)) (hfrac t ht b (List.mem_of_getLast? hb)) hr
      refine ⟨g1, g2, fun i hi => ?_, ?_⟩
      · rw [g3 i hi, hs .recv (by intro k h; cases h)]
      · rw [g4 .send (by intro h; cases h), hs .send (by intro k h; cases h)])
  refine ⟨prog, h1, ?_⟩
  obtain ⟨bound, hb⟩ := h2
  refine ⟨bound, fun k s hks => ?_⟩
  obtain ⟨hk, hs, h⟩ := hb k s hks
  refine ⟨hk, hs, h.imp (fun ⟨hF, hP⟩ => ⟨hF, fun t ht => ?_⟩) id⟩
  obtain ⟨p1, p2, p3⟩ := hP t ht
  refine ⟨fun q i hq hi => ?_, fun e he => ?_, p3⟩
  · rw [← lo_eq_sum]
    exact p1 q _ hq (hpost t q ht hq) i hi
  · rw [← lo_eq_sum] at he
    exact p2 e he

/-- C53, recursive algorithm. -/
theorem allgather_recursive {X : Type} [Add X] (ports : List Nat) (hp : ∀ p, p ∈ ports → 0 < p) (sz : Nat → Nat)
    (m : Nat → Mem X) :
    ∃ (sched : Nat → List Block) (prog : Nat → List Instr),
      (∀ t, Recursive.generate true (ports.map fun p : Nat => (p : Int)) t = some (sched t)) ∧
      (∀ t, t < (ports.map fun p => p + 1).prod →
        program (ports.map fun p => p + 1).prod sz .allgather (sched t) t = some (prog t)) ∧
      Correct (ports.map fun p => p + 1).prod prog m fun mem =>
        AllgatherMem (ports.map fun p => p + 1).prod sz m mem := by
  have hpos : 0 < Recursive.factor ports := Recursive.factor_pos _
  obtain ⟨prog, h1, h2⟩ := gather_program (X := X) (Recursive.factor ports) (Recursive.allgather ports) sz m
    (fun _ n => sz (n % Recursive.factor ports))
    (fun inp junk => Recursive.allgather_exec ports inp junk)
    (fun t _ b hb => (shape_allgather ports t b hb).lay sz)
    (fun t _ b hb => (shape_allgather ports t b hb).plain)
    (fun t _ b hb => (shape_allgather ports t b hb).frac hpos)
    (fun t ht b hb => by
      rw [Recursive.allgather, List.head?_cons] at hb
      cases hb
      refine ⟨t, { frac := t, recvfrom := [(-1, 0)] }, ?_, rfl, fun j l hl => ?_⟩
      · unfold Recursive.gatherFirst Recursive.mk
        rw [List.getElem?_map, List.getElem?_range ht]
        simp
      · obtain ⟨_, rfl⟩ := mk_get hl
        dsimp only
        by_cases hj : j = t
        · simp [hj]
        · simp [hj])
  exact ⟨Recursive.allgather ports, prog, Recursive.generate_allgather ports hp, h1, h2⟩

/-- Six nodes with counts 5, 0, 5, 0, 5, 0. -/
example (m : Nat → Mem Nat) : ∃ (sched : Nat → List Block) (prog : Nat → List Instr),
    (∀ t, Recursive.generate true [2, 1] t = some (sched t)) ∧
    (∀ t, t < 6 → program 6 (fun k => if k % 2 = 0 then 5 else 0) .allgather (sched t) t = some (prog t)) ∧
    Correct 6 prog m fun mem => AllgatherMem 6 (fun k => if k % 2 = 0 then 5 else 0) m mem :=
  allgather_recursive [2, 1] (by decide) _ m

/-! ### Cyclic algorithm -/

/-- Line `n` of node `t` belongs to message `t + n` (cyclically); partners are nodes or the user. -/
def Shifted (N t : Nat) (b : Block) : Prop :=
  ∀ n l, b[n]? = some l → l.frac = (t + n) % N ∧ ∀ e, e ∈ l.sendto ++ l.recvfrom → -1 ≤ e.1

theorem shifted_mk {N t L : Nat} {g : Nat → LineD}
    (h : ∀ n, n < L → (g n).frac = (t + n) % N ∧ (∀ e, e ∈ (g n).sendto → -1 ≤ e.1) ∧
      ∀ e, e ∈ (g n).recvfrom → -1 ≤ e.1) : Shifted N t (Recursive.mk L g) := by
  intro n l hl
  obtain ⟨h1, rfl⟩ := mk_get hl
  obtain ⟨h2, h3, h4⟩ := h n h1
  refine ⟨h2, fun e he => ?_⟩
  rcases List.mem_append.1 he with he | he
  · exact h3 e he
  · exact h4 e he

theorem shifted_send (N gb Lprev p task line L : Nat) (hL : L ≤ N) (hprev : Lprev = min gb N) (hfit : gb < N → Cyclic.Tight N gb p) :
    ∀ e, e ∈ Cyclic.gatherSend N gb L Lprev p task line → -1 ≤ e.1 := by
  intro e he
  unfold Cyclic.gatherSend at he
  split_ifs at he with h
  · obtain ⟨i, hi, rfl⟩ := List.mem_map.1 he
    rw [List.mem_range] at hi
    rw [hprev, Nat.min_eq_left (by omega : gb ≤ N)] at hi
    have h2 := (hfit (by omega)).reach hL h hi
    have h3 : (task : Int) + N - ((i : Int) + 1) * gb = ((task + N - gb * (i + 1) : Nat) : Int) := by
      rw [Nat.cast_sub (by omega)]
      push_cast
      rw [Int.mul_comm ((i : Int) + 1)]
    dsimp only
    rw [h3]
    have : (0 : Int) ≤ ((task + N - gb * (i + 1) : Nat) : Int).tmod N := Int.tmod_nonneg _ (by omega)
    omega
  · cases he

theorem shifted_recv (N gb L task line : Nat) : ∀ e, e ∈ Cyclic.gatherRecv N gb L task line → -1 ≤ e.1 := by
  intro e he
  unfold Cyclic.gatherRecv at he
  split_ifs at he
  · rw [List.mem_singleton.1 he]
    dsimp only; omega
  · cases he

theorem shifted_gatherSteps (N t : Nat) (ps : List Nat) : ∀ gb L, L = min gb N → Cyclic.Suits N gb ps →
    ∀ b, b ∈ (Cyclic.gatherSteps N t gb L ps).1 → Shifted N t b := by
  induction ps with
  | nil => intro _ _ _ _ b hb; cases hb
  | cons p ps ih =>
    intro gb L hL hfit b hb
    rw [Cyclic.gatherSteps] at hb
    rcases List.mem_cons.1 hb with rfl | hb
    · exact shifted_mk fun n _ => ⟨rfl, shifted_send _ _ _ _ _ _ _ (Nat.min_le_right _ _) hL hfit.1, shifted_recv _ _ _ _ _⟩
    · refine ih _ _ ?_ hfit.2 b hb
      rw [hL]
      by_cases c : gb < N
      · rw [Nat.min_eq_left (by omega : gb ≤ N)]
      · rw [Nat.min_eq_right (by omega : N ≤ gb)]
        have h1 : N * 1 ≤ N * (p + 1) := Nat.mul_le_mul_left N (by omega)
        have h2 : gb * 1 ≤ gb * (p + 1) := Nat.mul_le_mul_left gb (by omega)
        omega

theorem shifted_allgather (N t : Nat) (ht : t < N) (ports : List Nat) (hfit : Cyclic.Suits N 1 ports) :
    ∀ b, b ∈ Cyclic.allgather N ports t → Shifted N t b := by
  intro b hb
  unfold Cyclic.allgather at hb
  rcases List.mem_cons.1 hb with rfl | hb
  · refine shifted_mk fun n hn => ⟨?_, fun e he => (by cases he), fun e he => by rw [List.mem_singleton.1 he]⟩
    have : n = 0 := by omega
    subst this
    exact (Nat.mod_eq_of_lt ht).symm
  rcases List.mem_append.1 hb with hb | hb
  · exact shifted_gatherSteps N t ports 1 1 (by omega) hfit b hb
  · rw [List.mem_singleton.1 hb]
    exact shifted_mk fun n _ => ⟨rfl, fun e he => by rw [List.mem_singleton.1 he], fun e he => by cases he⟩

/-- C53, cyclic algorithm. Only for lists of ports that suit: for all others the messages of the schedule do not match
(`Cyclic.cyclic_matched_iff`), so this is the part of C53 that holds. -/
theorem allgather_cyclic {X : Type} [Add X] (N : Nat) (hN : 0 < N) (ports : List Nat) (hp : ∀ p, p ∈ ports → 0 < p)
    (hfit : Cyclic.Suits N 1 ports) (hreach : N ≤ (ports.map fun p => p + 1).prod) (sz : Nat → Nat) (m : Nat → Mem X) :
    ∃ prog : Nat → List Instr,
      (∀ t, t < N → program N sz .allgather (Cyclic.allgather N ports t) t = some (prog t)) ∧
      Correct N prog m fun mem => AllgatherMem N sz m mem :=
  gather_program N (Cyclic.allgather N ports) sz m (fun t n => sz ((t + n) % N))
    (fun inp junk => Cyclic.allgather_exec N hN ports hp hfit hreach inp junk)
    (fun t ht b hb n hn => by
      rw [lineSize, List.getElem?_eq_getElem hn]
      dsimp only
      rw [mmsize, (shifted_allgather N t ht ports hfit b hb n _ (List.getElem?_eq_getElem hn)).1, Nat.mod_mod])
    (fun t ht b hb l hl e he => by
      obtain ⟨n, hn⟩ := List.getElem?_of_mem hl
      have := (shifted_allgather N t ht ports hfit b hb n l hn).2 e he
      omega)
    (fun t ht b hb l hl => by
      obtain ⟨n, hn⟩ := List.getElem?_of_mem hl
      rw [(shifted_allgather N t ht ports hfit b hb n l hn).1]
      exact Nat.mod_lt _ hN)
    (fun t ht b hb => by
      unfold Cyclic.allgather at hb
      rw [List.head?_cons] at hb
      cases hb
      refine ⟨0, { frac := t, recvfrom := [(-1, 0)] }, rfl, rfl, fun j l hl => ?_⟩
      obtain ⟨hj, rfl⟩ := mk_get hl
      simp; omega)

/-- Seven nodes with counts 0, 3, 6, ..., three steps. -/
example (m : Nat → Mem Nat) : ∃ prog : Nat → List Instr,
    (∀ t, t < 7 → program 7 (fun k => 3 * k) .allgather (Cyclic.allgather 7 [1, 2, 1] t) t = some (prog t)) ∧
    Correct 7 prog m fun mem => AllgatherMem 7 (fun k => 3 * k) m mem :=
  allgather_cyclic 7 (by decide) [1, 2, 1] (by decide) (by simp [Cyclic.Suits, Cyclic.Tight]) (by decide) _ m

/-! ## Reductions -/

theorem shape_reduceFirst (lb : Nat) : Shape lb (Recursive.reduceFirst lb) :=
  shape_mk fun n hn => by
    by_cases h : n < lb
    · rw [if_pos h]
      exact ⟨(Nat.mod_eq_of_lt h).symm, fun e he => (by cases he), fun e he => by rw [List.mem_singleton.1 he]⟩
    · rw [if_neg h]
      refine ⟨?_, fun e he => (by cases he), fun e he => by cases he⟩
      dsimp only
      rw [Nat.mod_eq_sub_mod (by omega), Nat.mod_eq_of_lt (by omega)]

theorem shape_reduceSteps (lb t : Nat) (ps : List Nat) : ∀ first gb b,
    b ∈ Recursive.reduceSteps lb t first gb ps → Shape lb b := by
  induction ps with
  | nil => intro _ _ b hb; cases hb
  | cons p ps ih =>
    intro first gb b hb
    rw [Recursive.reduceSteps] at hb
    rcases List.mem_cons.1 hb with rfl | hb
    · exact shape_mk fun n _ => ⟨rfl, shape_reduceSend _ _ _ _ _ _, shape_reduceRecv _ _ _ _ _ _ _⟩
    · exact ih _ _ b hb

theorem shape_scatterLast (lb t : Nat) : Shape lb (Recursive.scatterLast lb t) :=
  shape_mk fun n hn => by
    by_cases h : n < lb
    · rw [if_pos h]
      exact ⟨(Nat.mod_eq_of_lt h).symm, fun e he => (by cases he), fun e he => by cases he⟩
    · rw [if_neg h]
      refine ⟨?_, fun e he => ?_, fun e he => by cases he⟩
      · dsimp only
        rw [Nat.mod_eq_sub_mod (by omega), Nat.mod_eq_of_lt (by omega)]
      · dsimp only at he
        split_ifs at he
        · rw [List.mem_singleton.1 he]
        · cases he

theorem shape_reduceScatter (ports : List Nat) (t : Nat) :
    ∀ b, b ∈ Recursive.reduceScatter ports t → Shape (Recursive.factor ports) b := by
  intro b hb
  rw [Recursive.reduceScatter] at hb
  rcases List.mem_cons.1 hb with rfl | hb
  · exact shape_reduceFirst _
  rcases List.mem_append.1 hb with hb | hb
  · exact shape_reduceSteps _ _ _ _ _ _ hb
  · rw [List.mem_singleton.1 hb]; exact shape_scatterLast _ _

theorem shape_middleSteps (lb gbm t : Nat) (ps : List Nat) : ∀ first gb b,
    b ∈ (Recursive.middleSteps lb gbm t first gb ps).1 → Shape lb b := by
  induction ps with
  | nil => intro _ _ b hb; cases hb
  | cons p ps ih =>
    intro first gb b hb
    rw [Recursive.middleSteps] at hb
    split_ifs at hb
    · rcases List.mem_cons.1 hb with rfl | hb
      · refine shape_mk fun n _ => ⟨rfl, fun e he => ?_, fun e he => ?_⟩
        · dsimp only at he
          split_ifs at he <;> first
            | cases he; done
            | (obtain ⟨i, _, rfl⟩ := List.mem_map.1 he; dsimp only; omega)
        · dsimp only at he
          split_ifs at he <;> first
            | cases he; done
            | (rw [List.mem_singleton.1 he]; dsimp only; omega)
      · exact ih _ _ b hb
    · cases hb

theorem shape_gatherSteps2 (lb t : Nat) (ps : List Nat) : ∀ gb b,
    b ∈ Recursive.gatherSteps2 lb t gb ps → Shape lb b := by
  induction ps with
  | nil => intro _ b hb; cases hb
  | cons p ps ih =>
    intro gb b hb
    rw [Recursive.gatherSteps2] at hb
    rcases List.mem_cons.1 hb with rfl | hb
    · refine shape_mk fun n _ => ⟨rfl, fun e he => ?_, fun e he => ?_⟩
      · dsimp only at he
        split_ifs at he
        · exact shape_gatherSend _ _ _ _ _ e he
        · cases he
      · dsimp only at he
        split_ifs at he
        · exact shape_gatherRecv _ _ _ _ e he
        · cases he
    · exact ih _ b hb

theorem shape_allreduce (negs ports : List Nat) (t : Nat) :
    ∀ b, b ∈ Recursive.allreduce negs ports t → Shape (Recursive.factor ports) b := by
  intro b hb
  unfold Recursive.allreduce at hb
  rcases List.mem_cons.1 hb with rfl | hb
  · exact shape_reduceFirst _
  rcases List.mem_append.1 hb with hb | hb
  · rcases List.mem_append.1 hb with hb | hb
    · rcases List.mem_append.1 hb with hb | hb
      · exact shape_reduceSteps _ _ _ _ _ _ hb
      · exact shape_middleSteps _ _ _ _ _ _ _ hb
    · exact shape_gatherSteps2 _ _ _ _ _ hb
  · rw [List.mem_singleton.1 hb]
    refine shape_mk fun n _ => ⟨rfl, fun e he => ?_, fun e he => by cases he⟩
    dsimp only at he
    split_ifs at he
    · rw [List.mem_singleton.1 he]
    · cases he

/-- Copy-in of the reductions. -/
theorem reduceFirst_in {X : Type} [Add X] (lb t : Nat) (sz : Nat → Nat) (kind : Kind) (hk : kind ≠ .allgather)
    (m : Mem X) :
    (∀ i, i ∈ copyInCode lb sz kind (Recursive.reduceFirst lb) t → okI i) ∧
    Rep (fun n => sz (n % lb)) ((copyInCode lb sz kind (Recursive.reduceFirst lb) t).foldl exec1 m)
      (copyIn (Recursive.reduceFirst lb) (fun g i => m .send (moffset sz g + i))
        fun n i => m (.shm 0) (lo (fun n => sz (n % lb)) n + i)) ∧
    Same0 m ((copyInCode lb sz kind (Recursive.reduceFirst lb) t).foldl exec1 m) := by
  apply copyInCode_reduce lb sz (fun n => sz (n % lb)) lb
    (lo_congr _ _ _ fun k hk => by rw [Nat.mod_eq_of_lt hk]) kind hk
  intro j l hl
  have hs := shape_reduceFirst lb j l hl
  obtain ⟨hj, he⟩ := mk_get hl
  have hpos : 0 < lb := by omega
  refine ⟨by rw [hs.1], by rw [hs.1]; exact Nat.mod_lt _ hpos, ?_⟩
  rw [he]
  by_cases h : j < lb
  · simp [h]
  · simp [h]

/-- C52: the allreduce programs of the recursive algorithm. -/
theorem allreduce_recursive {X : Type} [AddCommMonoid X] (negs mids gs : List Nat) (hne : mids ++ gs ≠ [])
    (hn : ∀ p, p ∈ negs → 0 < p) (hm : ∀ p, p ∈ mids → 0 < p) (hg : ∀ p, p ∈ gs → 0 < p)
    (hbal : (negs.map fun p => p + 1).prod = (gs.map fun p => p + 1).prod) (sz : Nat → Nat) (m : Nat → Mem X) :
    ∃ (sched : Nat → List Block) (prog : Nat → List Instr),
      (∀ t, Recursive.generate false ((negs.map fun p : Nat => -(p : Int)) ++
        ((mids ++ gs).map fun p : Nat => (p : Int))) t = some (sched t)) ∧
      (∀ t, t < ((mids ++ gs).map fun p => p + 1).prod →
        program ((mids ++ gs).map fun p => p + 1).prod sz .allreduce (sched t) t = some (prog t)) ∧
      Correct ((mids ++ gs).map fun p => p + 1).prod prog m fun mem =>
        AllreduceMem ((mids ++ gs).map fun p => p + 1).prod
          (∑ k ∈ Finset.range ((mids ++ gs).map fun p => p + 1).prod, sz k) m mem := by
  obtain ⟨N, hNe⟩ : ∃ N, N = Recursive.factor (mids ++ gs) := ⟨_, rfl⟩
  have hN' : ((mids ++ gs).map fun p => p + 1).prod = N := hNe.symm
  rw [hN']
  have hpos : 0 < N := by rw [hNe]; exact Recursive.factor_pos _
  obtain ⟨out, hE, hpost⟩ := Recursive.allreduce_exec (V := Nat → X) negs mids gs hne hn hm hg hbal
    (fun t g i => m t .send (moffset sz g + i)) (fun t n i => m t (.shm 0) (lo (fun n => sz (n % N)) n + i))
  rw [← hNe] at hE hpost
  have hshape : ∀ t b, b ∈ Recursive.allreduce negs (mids ++ gs) t → Shape N b := by
    rw [hNe]; exact shape_allreduce negs (mids ++ gs)
  obtain ⟨prog, h1, h2⟩ := assemble N sz .allreduce (Recursive.allreduce negs (mids ++ gs)) (fun _ n => sz (n % N)) m _ _
    copyOut out hE
    (fun t ht b hb => (hshape t b (List.mem_of_mem_tail hb)).lay sz)
    (fun t ht b hb => (hshape t b (List.mem_of_mem_tail hb)).plain)
    (fun t ht b hb => (hshape t b (List.mem_of_mem_head? hb)).frac hpos)
    (fun t ht b hb => (hshape t b (List.mem_of_getLast? hb)).frac hpos)
    (fun t mem o => (∀ g w, g < N → o g = some w → ∀ i, i < sz g → mem .recv (moffset sz g + i) = w i) ∧
      (∀ i, moffset sz N ≤ i → mem .recv i = m t .recv i) ∧ mem .send = m t .send)
    (fun t ht b hb => by
      unfold Recursive.allreduce at hb
      rw [List.head?_cons] at hb
      cases hb
      rw [← hNe]
      exact reduceFirst_in N t sz .allreduce (by intro h; cases h) (m t))
    (fun t ht b hb m2 v hr hs => by
      obtain ⟨g1, g2, g3, g4⟩ := copyOutCode_all N sz (fun n => sz (n % N)) .allreduce (by intro h; cases h) b t m2 v
        ((hshape t b (List.mem_of_getLast? hb)).lay sz) ((hshape t b (List.mem_of_getLast? hb)).frac hpos) hr
      refine ⟨g1, g2, fun i hi => ?_, ?_⟩
      · rw [g3 i hi, hs .recv (by intro k h; cases h)]
      · rw [g4 .send (by intro h; cases h), hs .send (by intro k h; cases h)])
  refine ⟨_, prog, Recursive.generate_allreduce negs mids gs hne hn hm hg, h1, ?_⟩
  obtain ⟨bound, hb⟩ := h2
  refine ⟨bound, fun k s hks => ?_⟩
  obtain ⟨hk, hs, h⟩ := hb k s hks
  refine ⟨hk, hs, h.imp (fun ⟨hF, hP⟩ => ⟨hF, fun t ht => ?_⟩) id⟩
  obtain ⟨p1, p2, p3⟩ := hP t ht
  refine ⟨fun e he => ?_, fun e he => ?_, p3⟩
  · rw [← lo_eq_sum] at he
    obtain ⟨g, i, hg', hi, rfl⟩ := exists_piece sz N e he
    have h3 := p1 g _ hg' (hpost t g ht hg') i hi
    rw [Finset.sum_apply] at h3
    exact h3
  · rw [← lo_eq_sum] at he
    exact p2 e he

/-- 24 nodes, a reduction step, a middle step and a gather step; pieces of different sizes. -/
example (m : Nat → Mem Nat) : ∃ (sched : Nat → List Block) (prog : Nat → List Instr),
    (∀ t, Recursive.generate false [-5, 3, 5] t = some (sched t)) ∧
    (∀ t, t < 24 → program 24 (fun k => k % 3) .allreduce (sched t) t = some (prog t)) ∧
    Correct 24 prog m fun mem => AllreduceMem 24 (∑ k ∈ Finset.range 24, k % 3) m mem :=
  allreduce_recursive [5] [3] [5] (by decide) (by decide) (by decide) (by decide) (by decide) _ m

/-- C54: the reduce_scatter programs of the recursive algorithm. -/
theorem reduceScatter_recursive {X : Type} [AddCommMonoid X] (ports : List Nat) (hne : ports ≠ [])
    (hp : ∀ p, p ∈ ports → 0 < p) (sz : Nat → Nat) (m : Nat → Mem X) :
    ∃ (sched : Nat → List Block) (prog : Nat → List Instr),
      (∀ t, Recursive.generate false (ports.map fun p : Nat => -(p : Int)) t = some (sched t)) ∧
      (∀ t, t < (ports.map fun p => p + 1).prod →
        program (ports.map fun p => p + 1).prod sz .reduceScatter (sched t) t = some (prog t)) ∧
      Correct (ports.map fun p => p + 1).prod prog m fun mem =>
        ReduceScatterMem (ports.map fun p => p + 1).prod sz m mem := by
  obtain ⟨N, hNe⟩ : ∃ N, N = Recursive.factor ports := ⟨_, rfl⟩
  have hN' : (ports.map fun p => p + 1).prod = N := hNe.symm
  rw [hN']
  have hpos : 0 < N := by rw [hNe]; exact Recursive.factor_pos _
  obtain ⟨out, hE, hpost⟩ := Recursive.reduceScatter_exec (V := Nat → X) ports hne hp
    (fun t g i => m t .send (moffset sz g + i)) (fun t n i => m t (.shm 0) (lo (fun n => sz (n % N)) n + i))
  rw [← hNe] at hE hpost
  have hshape : ∀ t b, b ∈ Recursive.reduceScatter ports t → Shape N b := by
    rw [hNe]; exact shape_reduceScatter ports
  obtain ⟨prog, h1, h2⟩ := assemble N sz .reduceScatter (Recursive.reduceScatter ports) (fun _ n => sz (n % N)) m _ _
    copyOutFirst out hE
    (fun t ht b hb => (hshape t b (List.mem_of_mem_tail hb)).lay sz)
    (fun t ht b hb => (hshape t b (List.mem_of_mem_tail hb)).plain)
    (fun t ht b hb => (hshape t b (List.mem_of_mem_head? hb)).frac hpos)
    (fun t ht b hb => (hshape t b (List.mem_of_getLast? hb)).frac hpos)
    (fun t mem o => (∀ w, o = some w → ∀ i, i < sz t → mem .recv i = w i) ∧
      (∀ i, sz t ≤ i → mem .recv i = m t .recv i) ∧ mem .send = m t .send)
    (fun t ht b hb => by
      unfold Recursive.reduceScatter at hb
      rw [List.head?_cons] at hb
      cases hb
      rw [← hNe]
      exact reduceFirst_in N t sz .reduceScatter (by intro h; cases h) (m t))
    (fun t ht b hb m2 v hr hs => by
      have hbl : b = Recursive.scatterLast N t := by
        unfold Recursive.reduceScatter at hb
        rw [← hNe] at hb
        rw [← List.cons_append, List.getLast?_concat] at hb
        exact (Option.some.inj hb).symm
      have hbs := hshape t b (List.mem_of_getLast? hb)
      obtain ⟨g1, g2, g3, g4⟩ := copyOutCode_own N sz (fun n => sz (n % N)) b t (N + t) m2 v
        { frac := t, sendto := [(-1, (t : Int))] } (hbs.lay sz) (hbs.frac hpos) hr (by
          rw [hbl]
          unfold Recursive.scatterLast Recursive.mk
          rw [List.getElem?_map, List.getElem?_range (by omega)]
          simp) rfl (fun j l hl => by
          rw [hbl] at hl
          obtain ⟨hj, rfl⟩ := mk_get hl
          by_cases hjn : j < N
          · rw [if_pos hjn]
            simp; omega
          · rw [if_neg hjn]
            by_cases hjt : j - N = t
            · simp [hjt]; omega
            · simp [hjt]; omega)
      refine ⟨g1, g2, fun i hi => ?_, ?_⟩
      · rw [g3 i hi, hs .recv (by intro k h; cases h)]
      · rw [g4 .send (by intro h; cases h), hs .send (by intro k h; cases h)])
  refine ⟨_, prog, Recursive.generate_reduceScatter ports hne hp, h1, ?_⟩
  obtain ⟨bound, hb⟩ := h2
  refine ⟨bound, fun k s hks => ?_⟩
  obtain ⟨hk, hs, h⟩ := hb k s hks
  refine ⟨hk, hs, h.imp (fun ⟨hF, hP⟩ => ⟨hF, fun t ht => ?_⟩) id⟩
  obtain ⟨p1, p2, p3⟩ := hP t ht
  refine ⟨fun i hi => ?_, p2, p3⟩
  have h3 := p1 _ (hpost t ht) i hi
  rw [Finset.sum_apply] at h3
  rw [← lo_eq_sum]
  exact h3

/-- Six nodes, node `t` gets `t` elements. -/
example (m : Nat → Mem Nat) : ∃ (sched : Nat → List Block) (prog : Nat → List Instr),
    (∀ t, Recursive.generate false [-2, -1] t = some (sched t)) ∧
    (∀ t, t < 6 → program 6 (fun k => k) .reduceScatter (sched t) t = some (prog t)) ∧
    Correct 6 prog m fun mem => ReduceScatterMem 6 (fun k => k) m mem :=
  reduceScatter_recursive [2, 1] (by decide) (by decide) _ m

/-- Programs that read the buffer of a receive before they wait for it are not correct, whatever they compute. -/
theorem early_read_incorrect {X : Type} [Add X] {N t : Nat} (ht : t < N) {prog : Nat → List Instr} {buf dst src : Addr} {n k q : Nat}
    {red : Bool} {rest : List Instr} (hp : prog t = .irecv buf n q :: .copy red dst src k :: rest) (ho : overlap buf n src k)
    (m : Nat → Mem X) (post : (Nat → Mem X) → Prop) : ¬Correct N prog m post := by
  rintro ⟨bound, h⟩
  have h1 : Steps N 1 (initial prog m) _ := .step (.loc ht (.irecv (p := (initial prog m).proc t) hp
    (fun _ _ hx => absurd hx List.not_mem_nil) (fun _ _ hx => absurd hx List.not_mem_nil))) .refl
  obtain ⟨_, hs, _⟩ := h _ _ h1
  have ha := hs t ht (.copy red dst src k) rest (by dsimp only; rw [setProc_same])
  dsimp only at ha
  rw [setProc_same] at ha
  refine ha.2.2.2 q (buf, n) ?_ ho
  show (buf, n) ∈ push _ q (buf, n) q
  unfold push
  rw [if_pos rfl]
  exact List.mem_append_right _ List.mem_cons_self

/-- Process 1 adds the message to its receive buffer without waiting. -/
example (m : Nat → Mem Nat) (post : (Nat → Mem Nat) → Prop) : ¬Correct 2
    (fun t => if t = 0 then [.isend ⟨.send, 0⟩ 1 1, .waitall] else
      [.irecv ⟨.shm 0, 0⟩ 1 0, .copy true ⟨.recv, 0⟩ ⟨.shm 0, 0⟩ 1, .waitall]) m post :=
  early_read_incorrect (t := 1) (by decide) rfl (by unfold overlap; decide) m post

end ExtMpi.RawCode
