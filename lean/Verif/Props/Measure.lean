import Verif.Model.Measure
import Verif.Props.Groups
import Verif.Props.Rooted
/-! # Number of sockets chosen by a measurement: property C113 -/
namespace ExtMpi.Measure
open PortChoice Schedule Groups Rooted

theorem best_spec (faster : Nat → Bool) : ∀ (js : List Nat) (b : Nat),
    js.foldl (fun b j => if faster j then j else b) b = b ∨
      (js.foldl (fun b j => if faster j then j else b) b ∈ js ∧ faster (js.foldl (fun b j => if faster j then j else b) b) = true)
  | [], b => .inl rfl
  | j :: js, b => by
    rw [List.foldl_cons]
    rcases best_spec faster js (if faster j then j else b) with h | ⟨h, h'⟩
    · by_cases hf : faster j = true
      · rw [h, if_pos hf]
        exact .inr ⟨List.mem_cons_self, hf⟩
      · rw [h, if_neg hf]
        exact .inl rfl
    · exact .inr ⟨List.mem_cons_of_mem _ h, h'⟩

theorem best_tried (size cores sockets : Nat) (oneOnly : Bool) (faster : Nat → Bool) :
    best faster (tried size cores sockets oneOnly) = 1 ∨
      ((best faster (tried size cores sockets oneOnly) = 2 ∨ best faster (tried size cores sockets oneOnly) = 4) ∧
        cores = size ∧ oneOnly = false ∧ cores % best faster (tried size cores sockets oneOnly) = 0) := by
  rcases best_spec faster (tried size cores sockets oneOnly) 1 with h | ⟨h, _⟩
  · exact .inl h
  · refine .inr ?_
    change best faster (tried size cores sockets oneOnly) ∈ _ at h
    obtain ⟨h1, h2⟩ := List.mem_filter.1 h
    have h2 := of_decide_eq_true h2
    by_cases hc : cores = size ∧ oneOnly = false
    · rw [if_pos hc] at h1
      refine ⟨?_, hc.1, hc.2, h2.2⟩
      simpa using h1
    · rw [if_neg hc] at h1
      cases h1

/-- C113: the measurement does not change the number of processes of a node, and it chooses several sockets only if all processes are on
one node. -/
theorem same_node (size cores sockets : Nat) (oneOnly : Bool) (faster : Nat → Bool) :
    (measure size cores sockets oneOnly faster).1 * (measure size cores sockets oneOnly faster).2 = sockets * cores ∧
      (size ≠ cores → measure size cores sockets oneOnly faster = (sockets, cores)) ∧
      (oneOnly = true → measure size cores sockets oneOnly faster = (sockets, cores)) := by
  unfold measure
  split
  · exact ⟨rfl, fun _ => rfl, fun _ => rfl⟩
  · split
    · next hs =>
      subst hs
      rcases best_tried size cores 1 oneOnly faster with h | ⟨_, h2, h3, h4⟩
      · rw [h]; exact ⟨by simp, fun _ => by simp, fun _ => by simp⟩
      · refine ⟨?_, fun hn => absurd h2.symm hn, fun ho => ?_⟩
        · show best faster (tried size cores 1 oneOnly) * (cores / best faster (tried size cores 1 oneOnly)) = 1 * cores
          rw [Nat.one_mul]
          exact Nat.mul_div_cancel' (Nat.dvd_of_mod_eq_zero h4)
        · rw [h3] at ho; cases ho
    · exact ⟨rfl, fun _ => rfl, fun _ => rfl⟩

/-- The groups of four sockets. -/
def plan4 : Plan where
  downs := [(2, [1]), (2, [1])]
  middle := none
  ups := [(2, [1]), (2, [1])]

/-- The groups of two sockets. -/
def plan2 : Plan where
  downs := [(2, [1])]
  middle := none
  ups := [(2, [1])]

theorem plan4_ok : plan4.Ok 4 where
  ne := by decide
  downs := by
    intro d hd
    have : d = (2, [1]) := by simpa [plan4] using hd
    subst this
    exact ⟨by decide, by decide, by decide⟩
  ups := by
    intro u hu
    have : u = (2, [1]) := by simpa [plan4] using hu
    subst this
    exact ⟨by decide, by decide, ⟨by decide, trivial⟩, by decide⟩
  middle := by intro m hm; cases hm
  same := by decide
  all := by decide

theorem plan2_ok : plan2.Ok 2 where
  ne := by decide
  downs := by
    intro d hd
    have : d = (2, [1]) := by simpa [plan2] using hd
    subst this
    exact ⟨by decide, by decide, by decide⟩
  ups := by
    intro u hu
    have : u = (2, [1]) := by simpa [plan2] using hu
    subst this
    exact ⟨by decide, by decide, ⟨by decide, trivial⟩, by decide⟩
  middle := by intro m hm; cases hm
  same := by decide
  all := by decide

theorem div_div (size j : Nat) (hj : 0 < j) (hs : 0 < size) (h : size % j = 0) : size / (size / j) = j :=
  Nat.div_div_self (Nat.dvd_of_mod_eq_zero h) (by omega)

/-- C113 for allreduce: all processes are on one node. Whatever number of sockets is found to be the fastest, if there are
several then the schedule between the sockets gives all of them the sum of all contributions. -/
theorem allreduce_measured (size : Nat) (hs : 0 < size) (faster : Nat → Bool)
    (h : (allreduceSetup size size 1 ([-1], [-1]) faster).sockets ≠ 1) :
    size / (allreduceSetup size size 1 ([-1], [-1]) faster).cores = (allreduceSetup size size 1 ([-1], [-1]) faster).sockets ∧
    ∃ sched : Nat → List Block,
      (∀ t, t < (allreduceSetup size size 1 ([-1], [-1]) faster).sockets →
        generateAny (allreduceSetup size size 1 ([-1], [-1]) faster).notRec (allreduceSetup size size 1 ([-1], [-1]) faster).sockets
          (allreduceSetup size size 1 ([-1], [-1]) faster).ports (allreduceSetup size size 1 ([-1], [-1]) faster).groups t =
          some (sched t)) ∧
      ∀ (V : Type) [AddCommMonoid V], Computes (V := V) (allreduceSetup size size 1 ([-1], [-1]) faster).sockets copyOut sched
        (AllreducePost (allreduceSetup size size 1 ([-1], [-1]) faster).sockets) := by
  have hrec : notRecursive (size / size) [-1] = true := by rw [Nat.div_self hs]; rfl
  by_cases h1 : size = 1
  · subst h1; exact absurd rfl h
  · have hm : measure size size 1 false faster = (best faster (tried size size 1 false), size / best faster (tried size size 1 false)) := by
      unfold measure
      rw [if_neg h1, if_pos rfl]
    unfold allreduceSetup at h ⊢
    rw [hm] at h ⊢
    simp only [if_true, hrec] at h ⊢
    rcases best_tried size size 1 false faster with hb | ⟨hb, _, _, hd⟩
    · exact absurd hb h
    · rcases hb with hb | hb
      · rw [hb] at hd ⊢
        exact ⟨div_div size 2 (by decide) hs hd, allreduce_correct plan2 2 plan2_ok⟩
      · rw [hb] at hd ⊢
        exact ⟨div_div size 4 (by decide) hs hd, allreduce_correct plan4 4 plan4_ok⟩

/-- Twelve processes and four sockets. -/
example : (allreduceSetup 12 12 1 ([-1], [-1]) fun _ => true) = ⟨true, 4, 3, [-1, -1, 1, 1], [-2, -2, -2, -2]⟩ := by decide

example : ∃ sched : Nat → List Block,
    (∀ t, t < 4 → generateAny true 4 [-1, -1, 1, 1] [-2, -2, -2, -2] t = some (sched t)) ∧
      ∀ (V : Type) [AddCommMonoid V], Computes (V := V) 4 copyOut sched (AllreducePost 4) :=
  (allreduce_measured 12 (by decide) (fun _ => true) (by decide)).2

/-- The first line of the last block is the own one. -/
def ownFirst (t : Nat) : Block → Bool
  | l :: ls => l.frac == t && l.sendto.any (fun e => e.1 == -1) && ls.all fun x => x.frac != t
  | [] => false

theorem fold_other {V : Type} (t : Nat) (v : Nat → V) : ∀ (ls : Block) (k : Nat) (out : Nat → Option V), (ls.all fun x => x.frac != t) = true →
    ((ls.zipIdx k).foldl (fun out x =>
      if x.1.sendto.any fun e => e.1 == -1 then upd out x.1.frac (some (v x.2)) else out) out) t = out t
  | [], _, _, _ => rfl
  | l :: ls, k, out, h => by
    rw [List.all_cons, Bool.and_eq_true] at h
    rw [List.zipIdx_cons, List.foldl_cons, fold_other t v ls _ _ h.2]
    have hne : l.frac ≠ t := by simpa using h.1
    split
    · simp [upd, hne.symm]
    · rfl

theorem first_own {V : Type} (t : Nat) (b : Block) (h : ownFirst t b = true) (v : Nat → V) : copyOutFirst b v = copyOut b v t := by
  cases b with
  | nil => cases h
  | cons l ls =>
    unfold ownFirst at h
    rw [Bool.and_eq_true, Bool.and_eq_true] at h
    obtain ⟨⟨h1, h2⟩, h3⟩ := h
    have h1 : l.frac = t := by simpa using h1
    have he : l.sendto ≠ [] := by rintro hn; rw [hn] at h2; cases h2
    unfold copyOut copyOutFirst
    rw [List.zipIdx_cons, List.foldl_cons, fold_other t v ls _ _ h3, if_pos h2]
    simp [he, upd, h1]

theorem scatter_of {N : Nat} {sched : Nat → List Block} (hl : ∀ t, t < N → ((sched t).getLast?.map (ownFirst t)) = some true)
    {V : Type} [AddCommMonoid V] (h : Computes (V := V) N copyOut sched (AllreducePost N)) :
    Computes (V := V) N copyOutFirst sched (ReduceScatterPost N) := by
  apply Computes.of
  · intro inp out out' h hpost t ht
    rw [← h t ht]; exact hpost t ht
  · intro inp junk
    obtain ⟨⟨out, he⟩, hp⟩ := h inp junk
    have hp := hp out he
    obtain ⟨b0, bs, last, s', h1, h2, h3⟩ := he
    refine ⟨fun t => copyOutFirst (last t) (s' t), ⟨b0, bs, last, s', h1, h2, fun _ _ => rfl⟩, fun t ht => ?_⟩
    have hlast : (sched t).getLast? = some (last t) := by
      obtain ⟨e1, e2⟩ := h1 t ht
      rw [e1, List.getLast?_cons, e2]
      rfl
    have ho := hl t ht
    rw [hlast] at ho
    show copyOutFirst (last t) (s' t) = _
    rw [first_own t _ (Option.some.inj ho), ← h3 t ht]
    exact hp t t ht ht

/-- C113 for reduce_scatter. -/
theorem reduceScatter_measured (size : Nat) (hs : 0 < size) (faster : Nat → Bool)
    (h : (reduceScatterSetup size size 1 ([-1], [-1]) faster).sockets ≠ 1) :
    size / (reduceScatterSetup size size 1 ([-1], [-1]) faster).cores = (reduceScatterSetup size size 1 ([-1], [-1]) faster).sockets ∧
    ∃ sched : Nat → List Block,
      (∀ t, t < (reduceScatterSetup size size 1 ([-1], [-1]) faster).sockets →
        generateAny (reduceScatterSetup size size 1 ([-1], [-1]) faster).notRec (reduceScatterSetup size size 1 ([-1], [-1]) faster).sockets
          (reduceScatterSetup size size 1 ([-1], [-1]) faster).ports (reduceScatterSetup size size 1 ([-1], [-1]) faster).groups t =
          some (sched t)) ∧
      ∀ (V : Type) [AddCommMonoid V], Computes (V := V) (reduceScatterSetup size size 1 ([-1], [-1]) faster).sockets copyOutFirst sched
        (ReduceScatterPost (reduceScatterSetup size size 1 ([-1], [-1]) faster).sockets) := by
  have hrec : notRecursive (size / size) [-1] = true := by rw [Nat.div_self hs]; rfl
  by_cases h1 : size = 1
  · subst h1; exact absurd rfl h
  · have hm : measure size size 1 false faster = (best faster (tried size size 1 false), size / best faster (tried size size 1 false)) := by
      unfold measure
      rw [if_neg h1, if_pos rfl]
    unfold reduceScatterSetup at h ⊢
    rw [hm] at h ⊢
    simp only [if_true, hrec] at h ⊢
    rcases best_tried size size 1 false faster with hb | ⟨hb, _, _, hd⟩
    · exact absurd hb h
    · rcases hb with hb | hb
      · rw [hb] at hd ⊢
        refine ⟨div_div size 2 (by decide) hs hd, ?_⟩
        obtain ⟨sched, s1, s2⟩ := allreduce_correct plan2 2 plan2_ok
        refine ⟨sched, s1, fun V _ => scatter_of (fun t ht => ?_) (s2 V)⟩
        have hg : (generateAny true 2 [-1, 1] [-2, -2] t).map (fun x => x.getLast?.map (ownFirst t)) = some (some true) := by
          have : t = 0 ∨ t = 1 := by omega
          rcases this with rfl | rfl <;> decide +kernel
        have hgen : generateAny true 2 [-1, 1] [-2, -2] t = some (sched t) := s1 t ht
        rw [hgen] at hg
        exact Option.some.inj hg
      · rw [hb] at hd ⊢
        refine ⟨div_div size 4 (by decide) hs hd, ?_⟩
        obtain ⟨sched, s1, s2⟩ := allreduce_correct plan4 4 plan4_ok
        refine ⟨sched, s1, fun V _ => scatter_of (fun t ht => ?_) (s2 V)⟩
        have hg : (generateAny true 4 [-1, -1, 1, 1] [-2, -2, -2, -2] t).map (fun x => x.getLast?.map (ownFirst t)) = some (some true) := by
          have : t = 0 ∨ t = 1 ∨ t = 2 ∨ t = 3 := by omega
          rcases this with rfl | rfl | rfl | rfl <;> decide +kernel
        have hgen : generateAny true 4 [-1, -1, 1, 1] [-2, -2, -2, -2] t = some (sched t) := s1 t ht
        rw [hgen] at hg
        exact Option.some.inj hg

example : ∃ sched : Nat → List Block,
    (∀ t, t < 2 → generateAny true 2 [-1, 1] [-2, -2] t = some (sched t)) ∧
      ∀ (V : Type) [AddCommMonoid V], Computes (V := V) 2 copyOutFirst sched (ReduceScatterPost 2) :=
  (reduceScatter_measured 6 (by decide) (fun j => decide (j = 2)) (by decide)).2

/-- The schedule of two sockets without a gather. -/
def half (t : Nat) : List Block := (generateAny true 2 [-1] [-1] t).getD []

/-- C113, negation for reduce: on a node with an even number of processes where two sockets are found to be faster, the
root never gets the part of the result that belongs to the other socket, for no root and no contents. -/
theorem reduce_violated (size : Nat) (hs : 0 < size) (he : size % 2 = 0) :
    ∃ (faster : Nat → Bool) (s : Setup), s = reduceSetup size size 1 ([-1], [-1]) faster ∧ s.sockets = 2 ∧ size / s.cores = 2 ∧
      ∃ sched : Nat → List Block, (∀ t, t < 2 → generateAny s.notRec 2 s.ports s.groups t = some (sched t)) ∧
        ∀ root, root < 2 → ∃ rows', RootNode.toRank 2 root (rowsOf sched) = some rows' ∧
          ∀ (V : Type) [AddCommMonoid V] (inp junk : Nat → Nat → V) (out : Nat → Nat → Option V),
            ExecD 2 copyOut rows' inp junk out → out root (1 - root) = none := by
  refine ⟨fun j => decide (j = 2), ⟨true, 2, size / 2, [-1], [-1]⟩, ?_, rfl, div_div size 2 (by decide) hs he, half, ?_, ?_⟩
  · have hrec : notRecursive (size / size) [-1] = true := by rw [Nat.div_self hs]; rfl
    have hb : best (fun j => decide (j = 2)) (tried size size 1 false) = 2 := by
      unfold tried
      by_cases h4 : size % 4 = 0 <;> simp [best, he, h4]
    unfold reduceSetup measure
    rw [if_neg (by omega), if_pos rfl, hb]
    simp only [hrec]
  · intro t ht
    have : t = 0 ∨ t = 1 := by omega
    show generateAny true 2 [-1] [-1] t = some (half t)
    rcases this with rfl | rfl <;> decide +kernel
  · intro root hr
    have hl : (RootNode.toRank 2 root (rowsOf half)).map (fun r => r.tail.getLast?.map fun l => l root) =
        some (some [⟨root, [(-1, root)], [], [], []⟩]) := by
      have : root = 0 ∨ root = 1 := by omega
      rcases this with rfl | rfl <;> decide +kernel
    obtain ⟨rows', h1, h2⟩ := Option.map_eq_some_iff.1 hl
    refine ⟨rows', h1, ?_⟩
    rintro V _ inp junk out ⟨r0, rs, last, s', rfl, hlast, _, ho⟩
    rw [List.tail_cons, hlast] at h2
    have h3 : last root = [⟨root, [(-1, root)], [], [], []⟩] := Option.some.inj h2
    rw [ho root hr, h3]
    have hne : (1 - root) ≠ root := by omega
    simp [copyOut, upd, hne]

/-- The other part of the result is right: the programs do run. -/
example : dirtyOut 2 0 ((RootNode.toRank 2 0 (rowsOf half)).getD []) 0 = some 10 := by decide +kernel

end ExtMpi.Measure
