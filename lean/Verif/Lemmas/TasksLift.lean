import Verif.Lemmas.TasksConfluence
import Verif.Lemmas.RawCodeLocal
/-! An execution with one process per node gives one with several. -/
namespace ExtMpi.TasksNode
open RawCode

variable {X : Type} [Add X] {W : Nat → Nat → Nat → Prop}

/-- The program of a node with the local number of the process that executes an instruction; `none`: all of them. -/
abbrev Master := List (Option Nat × Instr)

/-- The instruction with numbers of processes instead of nodes. -/
def toProc (ns r : Nat) : Instr → Instr
  | .irecv a n q => .irecv a n (q * ns + r)
  | .isend a n q => .isend a n (q * ns + r)
  | i => i

/-- The instructions of process `r`. -/
def share (ns r : Nat) (M : Master) : List Instr :=
  M.filterMap fun x => if x.1 = none ∨ x.1 = some r then some (toProc ns r x.2) else none

/-- Processes that send to node `q`, in order. -/
def sendTags (q : Nat) (M : Master) : List Nat :=
  M.filterMap fun x => match x with
    | (some o, .isend _ _ q') => if q' = q then some o else none
    | _ => none

/-- Processes that receive from node `q`, in order. -/
def recvTags (q : Nat) (M : Master) : List Nat :=
  M.filterMap fun x => match x with
    | (some o, .irecv _ _ q') => if q' = q then some o else none
    | _ => none

/-- Copies and messages have one process, waiting and barriers all; partners are other nodes. -/
def WF (N ns a : Nat) : Option Nat × Instr → Prop
  | (some o, .copy _ _ _ _) => o < ns
  | (some o, .irecv _ _ q) => o < ns ∧ q < N ∧ q ≠ a
  | (some o, .isend _ _ q) => o < ns ∧ q < N ∧ q ≠ a
  | (none, .waitall) => True
  | (none, .barrier) => True
  | _ => False

/-- Entries of one process. -/
def sel {Y : Type} (r : Nat) (l : List (Nat × Y)) : List Y := (l.filter fun x => x.1 == r).map Prod.snd

/-- Replace a value of two arguments. -/
def put2 {Y : Type} (f : Nat → Nat → Y) (a q : Nat) (y : Y) : Nat → Nat → Y := fun k l => if k = a ∧ l = q then y else f k l

theorem put2_same {Y : Type} (f : Nat → Nat → Y) (a q : Nat) (y : Y) : put2 f a q y a q = y := by simp [put2]

theorem put2_ne {Y : Type} (f : Nat → Nat → Y) (a q k l : Nat) (y : Y) (h : ¬(k = a ∧ l = q)) :
    put2 f a q y k l = f k l := by simp [put2, h]

theorem eq_iff {ns o : Nat} (ho : o < ns) (k q : Nat) : k = q * ns + o ↔ k / ns = q ∧ k % ns = o := by
  constructor
  · rintro rfl
    constructor
    · rw [Nat.mul_comm, Nat.mul_add_div (by omega), Nat.div_eq_of_lt ho, Nat.add_zero]
    · rw [Nat.mul_comm, Nat.mul_add_mod, Nat.mod_eq_of_lt ho]
  · rintro ⟨rfl, rfl⟩
    rw [Nat.mul_comm]; exact (Nat.div_add_mod k ns).symm

theorem proc_div {ns o : Nat} (ho : o < ns) (q : Nat) : (q * ns + o) / ns = q := ((eq_iff ho _ q).1 rfl).1

theorem proc_mod {ns o : Nat} (ho : o < ns) (q : Nat) : (q * ns + o) % ns = o := ((eq_iff ho _ q).1 rfl).2

theorem proc_lt {N ns o q : Nat} (ho : o < ns) (hq : q < N) : q * ns + o < N * ns := by
  calc q * ns + o < q * ns + ns := by omega
    _ = (q + 1) * ns := by rw [Nat.add_mul, Nat.one_mul]
    _ ≤ N * ns := Nat.mul_le_mul_right ns hq

theorem div_lt {N ns p : Nat} (hp : p < N * ns) : p / ns < N := by
  rw [Nat.div_lt_iff_lt_mul]
  · exact hp
  · rcases Nat.eq_zero_or_pos ns with h | h
    · rw [h, Nat.mul_zero] at hp; omega
    · exact h

theorem mod_lt' {N ns p : Nat} (hp : p < N * ns) : p % ns < ns := by
  apply Nat.mod_lt
  rcases Nat.eq_zero_or_pos ns with h | h
  · rw [h, Nat.mul_zero] at hp; omega
  · exact h

/-- The execution with several processes is where the one with one process per node is: `tr`, `ts` and `tc` are the
queues with the local numbers of the processes. -/
structure Lock (N ns : Nat) (R : Nat → Master) (tr ts : Nat → Nat → List (Nat × (Addr × Nat)))
    (tc : Nat → Nat → List (Nat × List X)) (S : State X) (T : TState X) : Prop where
  wf : ∀ a, a < N → ∀ x, x ∈ R a → WF N ns a x
  restS : ∀ a, a < N → (S.proc a).rest = (R a).map Prod.snd
  restT : ∀ p, p < N * ns → (T.task p).rest = share ns (p % ns) (R (p / ns))
  mem : ∀ a, a < N → T.mem a = (S.proc a).mem
  still : ∀ p, p < N * ns → (T.task p).waiting = false
  even : ∀ p p', p < N * ns → p' < N * ns → p / ns = p' / ns → (T.task p).entered = (T.task p').entered
  recvS : ∀ a q, (S.proc a).recvs q = (tr a q).map Prod.snd
  sendS : ∀ a q, (S.proc a).sends q = (ts a q).map Prod.snd
  chanS : ∀ a q, S.chan a q = (tc a q).map Prod.snd
  recvT : ∀ p k, (T.task p).recvs k = if k % ns = p % ns then sel (p % ns) (tr (p / ns) (k / ns)) else []
  sendT : ∀ p k, (T.task p).sends k = if k % ns = p % ns then sel (p % ns) (ts (p / ns) (k / ns)) else []
  chanT : ∀ p k, T.chan p k = if k % ns = p % ns then sel (p % ns) (tc (p / ns) (k / ns)) else []
  small : ∀ a q x, x ∈ ts a q → x.1 < ns
  smallC : ∀ a q x, x ∈ tc a q → x.1 < ns
  agree : ∀ a q, a < N → q < N → a ≠ q →
    (tc a q).map Prod.fst ++ (ts a q).map Prod.fst ++ sendTags q (R a) = (tr q a).map Prod.fst ++ recvTags a (R q)

theorem sel_sub {Y : Type} {r : Nat} {l : List (Nat × Y)} {y : Y} (h : y ∈ sel r l) : y ∈ l.map Prod.snd := by
  obtain ⟨x, hx, rfl⟩ := List.mem_map.1 h
  exact List.mem_map.2 ⟨x, (List.mem_filter.1 hx).1, rfl⟩

theorem Lock.recv_sub {N ns : Nat} {R : Nat → Master} {tr ts : Nat → Nat → List (Nat × (Addr × Nat))}
    {tc : Nat → Nat → List (Nat × List X)} {S : State X} {T : TState X} (h : Lock N ns R tr ts tc S T) {p k : Nat}
    {x : Addr × Nat} (hx : x ∈ (T.task p).recvs k) : x ∈ (S.proc (p / ns)).recvs (k / ns) := by
  rw [h.recvT] at hx
  split at hx
  · rw [h.recvS]; exact sel_sub hx
  · exact absurd hx List.not_mem_nil

theorem Lock.send_sub {N ns : Nat} {R : Nat → Master} {tr ts : Nat → Nat → List (Nat × (Addr × Nat))}
    {tc : Nat → Nat → List (Nat × List X)} {S : State X} {T : TState X} (h : Lock N ns R tr ts tc S T) {p k : Nat}
    {x : Addr × Nat} (hx : x ∈ (T.task p).sends k) : x ∈ (S.proc (p / ns)).sends (k / ns) := by
  rw [h.sendT] at hx
  split at hx
  · rw [h.sendS]; exact sel_sub hx
  · exact absurd hx List.not_mem_nil

theorem Lock.clear {N ns : Nat} {R : Nat → Master} {tr ts : Nat → Nat → List (Nat × (Addr × Nat))}
    {tc : Nat → Nat → List (Nat × List X)} {S : State X} {T : TState X} (h : Lock N ns R tr ts tc S T) {a : Nat}
    {i : Instr} (h1 : ∀ y, y ∈ writes i ++ reads i → (S.proc a).clearRecv y.1 y.2)
    (h2 : ∀ y, y ∈ writes i → (S.proc a).clearSend y.1 y.2)
    (h3 : ∀ x, x ∈ writes i → ∀ y, y ∈ reads i → ¬overlap x.1 x.2 y.1 y.2) : Clear ns T a i :=
  ⟨fun p hp k x hx y hy => h1 y hy (k / ns) x (hp ▸ h.recv_sub hx),
    fun p hp k x hx y hy => h2 y hy (k / ns) x (hp ▸ h.send_sub hx), h3⟩

/-- Executions without buffering of any length. -/
def TReach (N ns : Nat) (W : Nat → Nat → Nat → Prop) (T T' : TState X) : Prop := ∃ n, TURun N ns W n T T'

theorem TReach.refl (N ns : Nat) (T : TState X) : TReach N ns W T T := ⟨0, .refl⟩

theorem TReach.trans {N ns : Nat} {s s1 s2 : TState X} (h1 : TReach N ns W s s1) (h2 : TReach N ns W s1 s2) :
    TReach N ns W s s2 := by
  obtain ⟨n, h1⟩ := h1
  obtain ⟨m, h2⟩ := h2
  exact ⟨n + m, h1.trans h2⟩

theorem TReach.single {N ns : Nat} {l : Lab} {s s' : TState X} (hu : TUnbuffered l s) (h : TStep N ns W l s s') :
    TReach N ns W s s' := ⟨1, .step hu h .refl⟩

/-- All processes of node `a` before local number `j` have done a step. -/
def swept (ns a : Nat) (f : Task → Task) (T : TState X) (j : Nat) : TState X :=
  ⟨fun p => if p / ns = a ∧ p % ns < j then f (T.task p) else T.task p, T.mem, T.chan⟩

theorem sweep {N ns a : Nat} (ha : a < N) (f : Task → Task) (T : TState X) (i : Instr) (hi : ∀ m : Mem X, memAfter i m = m)
    (H : ∀ j, j < ns → LocOk N ns W (swept ns a f T j) (a * ns + j) i (f (T.task (a * ns + j)))) :
    TReach N ns W T (swept ns a f T ns) := by
  have key : ∀ j, j ≤ ns → TReach N ns W T (swept ns a f T j) := by
    intro j
    induction j with
    | zero =>
      intro _
      have : swept ns a f T 0 = T := by
        unfold swept
        simp only [Nat.not_lt_zero, and_false, if_false]
      rw [this]
      exact .refl _ _ _
    | succ j ih =>
      intro hj
      refine (ih (by omega)).trans (.single (l := .loc (a * ns + j)) trivial (TStep.ofLoc (proc_lt (by omega) ha) (H j (by omega)) ?_ ?_ rfl))
      · funext p
        unfold swept put
        dsimp only
        by_cases e : p = a * ns + j
        · rw [if_pos e, if_pos, e]
          rw [e, proc_div (by omega), proc_mod (by omega)]
          exact ⟨rfl, by omega⟩
        · rw [if_neg e]
          by_cases c : p / ns = a ∧ p % ns < j
          · rw [if_pos c, if_pos ⟨c.1, by omega⟩]
          · rw [if_neg c, if_neg]
            intro c'
            exact e ((eq_iff (by omega) p a).2 ⟨c'.1, by omega⟩)
      · dsimp only [swept]
        rw [hi, put_self]
  exact key ns (Nat.le_refl _)

theorem swept_at {ns a : Nat} (f : Task → Task) (T : TState X) (j : Nat) (hj : j < ns) :
    (swept ns a f T j).task (a * ns + j) = T.task (a * ns + j) := by
  unfold swept
  dsimp only
  rw [if_neg]
  rw [proc_div hj, proc_mod hj]
  omega

theorem swept_all {N ns a : Nat} (f : Task → Task) (T : TState X) (p : Nat) (hp : p < N * ns) :
    (swept ns a f T ns).task p = if p / ns = a then f (T.task p) else T.task p := by
  unfold swept
  dsimp only
  by_cases h : p / ns = a
  · rw [if_pos ⟨h, mod_lt' hp⟩, if_pos h]
  · rw [if_neg (fun c => h c.1), if_neg h]

end ExtMpi.TasksNode
