/-!
# Reductions in the order of arrival

`exec_waitany` and `reduce_waitany` of `/repo/src/mpi/ext_mpi_native_exec.c` and the pass
`/repo/src/core/waitany.c` that produces their input.

Memory is addressed in elements and holds values of any type with an addition; the byte code is a
list of instructions (its encoding is the subject of the byte code model).
-/
namespace ExtMpi.Waitany

/-- One reduction `p1[i] += p2[i]` for `i < size` (`src/mpi/ext_mpi_native_exec.c:137-148`). -/
structure Red where
  dst : Nat
  src : Nat
  size : Nat
  deriving DecidableEq, Repr

/-- Lines of the program before and after the pass. `quiet`: lines that produce no code for one process
per node (`socket_barrier`, `nop`, the lines with a trailing underscore), `loud`: other lines that
produce code (`node_barrier`). The operands of messages and copies play no role. -/
inductive Line where
  | waitall (n : Nat)
  | waitany (n : Nat) (nreduce : Int)
  | attached
  | reduce (r : Red)
  | memcpy (k : Nat)
  | isend (k : Nat)
  | irecv (k : Nat)
  | ret
  | quiet (k : Nat)
  | loud (k : Nat)
  deriving DecidableEq, Repr

/-- Byte code instructions of one process per node as far as they matter here. `other l`: the
instruction made from line `l` that is none of the named ones. -/
inductive Instr where
  | reduce (r : Red)
  | attached
  | waitall (n : Nat)
  | waitany (n : Nat) (numRedMax : Int)
  | other (l : Line)
  deriving DecidableEq, Repr

/-- Value `x` at address `a`. -/
def upd {V : Type} (m : Nat → V) (a : Nat) (x : V) : Nat → V := fun b => if b = a then x else m b

/-- The element loop of `reduce_waitany` (`src/mpi/ext_mpi_native_exec.c:97-118`); the operation is
the addition of `V`. -/
def redLoop {V : Type} [Add V] (dst src size : Nat) (m : Nat → V) : Nat → V :=
  (List.range size).foldl (fun m i => upd m (dst + i) (m (dst + i) + m (src + i))) m

/-- `reduce_waitany` (`src/mpi/ext_mpi_native_exec.c:84-122`). `none`: an array entry that has not
been set is read. -/
def reduceWaitany {V : Type} [Add V] (dst src size : List Nat) (num : Nat) (m : Nat → V) :
    Option (Nat → V) :=
  (List.range num).foldlM (fun m k => do
    let t ← dst[k]?
    let f ← src[k]?
    let s ← size[k]?
    some (redLoop t f s m)) m

/-- The collection of the reductions of every request (`src/mpi/ext_mpi_native_exec.c:128-158`);
`cap` is the number `abs(num_red_max)` of columns of the arrays. `none`: write beyond the arrays,
illegal opcode or end of the program. -/
def collect (cap : Nat) : List Instr → Nat → List Red → Option (List (List Red) × List Instr)
  | is, 0, _ => some ([], is)
  | .attached :: is, n + 1, cur => (collect cap is n []).map fun x => (cur :: x.1, x.2)
  | .reduce r :: is, n + 1, cur =>
    if cur.length < cap then collect cap is (n + 1) (cur ++ [r]) else none
  | .waitall _ :: _, _ + 1, _ => none
  | .waitany _ _ :: _, _ + 1, _ => none
  | .other _ :: _, _ + 1, _ => none
  | [], _ + 1, _ => none

/-- A request of the array waited for: a receive posted with the buffer at `base` whose message is
`data`, or a send of `len` elements at `base`. -/
inductive Req (V : Type) where
  | recv (base : Nat) (data : List V)
  | send (base len : Nat)

/-- What the request delivers to address `a`. -/
def Req.got {V : Type} : Req V → Nat → Option V
  | .recv base data, a => if base ≤ a then data[a - base]? else none
  | .send _ _, _ => none

/-- Events of the environment: MPI transfers the data of request `i` (writes the receive buffer or
reads the send buffer), respectively `MPI_Waitany` returns `i`. MPI is free to transfer at any time
before the request is returned. -/
inductive Ev where
  | land (i : Nat)
  | complete (i : Nat)
  deriving DecidableEq, Repr

/-- Memory and, for every send, the data that left. -/
structure St (V : Type) where
  mem : Nat → V
  out : Nat → Option (List V)

/-- Transfer of the data of request `i`. -/
def land {V : Type} (reqs : List (Req V)) (i : Nat) (s : St V) : Option (St V) :=
  match reqs[i]? with
  | none => none
  | some (.recv base data) =>
    some { s with mem := fun a => ((Req.recv base data).got a).getD (s.mem a) }
  | some (.send base len) =>
    some { s with out := upd s.out i (some ((List.range len).map fun k => s.mem (base + k))) }

/-- The loop for `num_red_max >= 0` (`src/mpi/ext_mpi_native_exec.c:159-164`). -/
def stepPos {V : Type} [Add V] (reqs : List (Req V)) (gs : List (List Red)) (s : St V) :
    Ev → Option (St V)
  | .land i => land reqs i s
  | .complete i => do
    let rs ← gs[i]?
    let m ← reduceWaitany (rs.map (·.dst)) (rs.map (·.src)) (rs.map (·.size)) rs.length s.mem
    some { s with mem := m }

/-- Local variables of the loop for `num_red_max < 0`
(`src/mpi/ext_mpi_native_exec.c:166-173`). -/
structure Acc where
  numWaitall : Nat
  target : Option Nat
  notMoved : Bool
  temp : List Nat

/-- The loop for `num_red_max < 0` (`src/mpi/ext_mpi_native_exec.c:174-201`). -/
def stepNeg {V : Type} [Add V] (reqs : List (Req V)) (gs : List (List Red)) (s : St V × Acc) :
    Ev → Option (St V × Acc)
  | .land i => (land reqs i s.1).map fun x => (x, s.2)
  | .complete i => do
    let rs ← gs[i]?
    let toTarget : Option (St V × Acc) := do
      let t ← s.2.target
      let ts ← gs[t]?
      let m ← reduceWaitany (ts.map (·.src)) (rs.map (·.src)) (rs.map (·.size)) rs.length s.1.mem
      some ({ s.1 with mem := m }, s.2)
    if rs.isEmpty then
      let nw := s.2.numWaitall - 1
      if nw = 0 ∧ s.2.notMoved = true then do
        let t ← s.2.target
        let ts ← gs[t]?
        let m ← reduceWaitany s.2.temp (ts.map (·.src)) (ts.map (·.size)) ts.length s.1.mem
        some ({ s.1 with mem := m }, { s.2 with numWaitall := nw, notMoved := false })
      else some (s.1, { s.2 with numWaitall := nw })
    else if s.2.numWaitall ≠ 0 then
      if s.2.notMoved = false then
        some (s.1, { s.2 with target := some i, notMoved := true, temp := rs.map (·.dst) })
      else toTarget
    else if s.2.notMoved = false then do
      let m ← reduceWaitany (rs.map (·.dst)) (rs.map (·.src)) (rs.map (·.size)) rs.length s.1.mem
      some ({ s.1 with mem := m }, s.2)
    else toTarget

/-- `exec_waitany` (`src/mpi/ext_mpi_native_exec.c:124-203`) with the behaviour `evs` of MPI; returns
the instructions after the last `OPCODE_ATTACHED`. -/
def execWaitany {V : Type} [Add V] (reqs : List (Req V)) (numWait : Nat) (numRedMax : Int)
    (is : List Instr) (evs : List Ev) (s : St V) : Option (St V × List Instr) := do
  let c ← collect numRedMax.natAbs is numWait []
  if numRedMax ≥ 0 then
    let s' ← evs.foldlM (stepPos reqs c.1) s
    some (s', c.2)
  else
    let nw := (c.1.filter (·.isEmpty)).length
    let s' ← evs.foldlM (stepNeg reqs c.1) (s, ⟨nw, none, false, []⟩)
    some (s'.1, c.2)

/-! ### The pass -/

/-- Variables `nwait`, `nattached` and `flag2` of `ext_mpi_generate_waitany`
(`src/core/waitany.c:11`). -/
structure PassSt where
  nwait : Nat
  nattached : Nat
  flag2 : Bool

/-- Lines that end the group of reductions (`src/core/waitany.c:51`). -/
def stops : Line → Bool
  | .memcpy _ | .ret | .irecv _ | .isend _ | .waitall _ => true
  | _ => false

/-- One iteration of the loop of the pass (`src/core/waitany.c:25-76`); `look` is the result `nreduce`
of the look-ahead in lines 31-46, which is modelled separately. -/
def passLine (look : Int) (s : PassSt) (l : Line) : PassSt × List Line :=
  match l with
  | .waitall n =>
    if s.nattached = s.nwait then (⟨n, 0, true⟩, [.waitany n look])
    else if s.flag2 then
      (⟨s.nwait, s.nwait, false⟩, List.replicate (s.nwait - s.nattached) .attached ++ [l])
    else (s, [l])
  | .reduce _ =>
    if s.flag2 then
      (⟨s.nwait, s.nattached + 1, if s.nattached + 1 = s.nwait then false else s.flag2⟩,
        [l, .attached])
    else (s, [l])
  | l =>
    if s.flag2 && stops l then
      (⟨s.nwait, s.nwait, false⟩, List.replicate (s.nwait - s.nattached) .attached ++ [l])
    else (s, [l])

/-- The loop of the pass; `look` gives the result of the look-ahead for the lines that follow
(`src/core/waitany.c:25-78`). -/
def passFrom (look : List Line → Int) (s : PassSt) : List Line → List Line
  | [] => []
  | l :: ls => (passLine (look ls) s l).2 ++ passFrom look (passLine (look ls) s l).1 ls

/-- `ext_mpi_generate_waitany` (`src/core/waitany.c:8-85`). -/
def pass (look : List Line → Int) (ls : List Line) : List Line := passFrom look ⟨0, 0, false⟩ ls

/-- The instruction produced by a line (`src/core/byte_code.c:386-639`), one process per node
(`num_cores == 1`): barriers inside a socket produce nothing, `waitall` with count 0 neither. -/
def Line.instr : Line → Option Instr
  | .reduce r => some (.reduce r)
  | .attached => some .attached
  | .quiet _ => none
  | .waitall n => if n = 0 then none else some (.waitall n)
  | .waitany n k => some (.waitany n k)
  | .memcpy k => some (.other (.memcpy k))
  | .isend k => some (.other (.isend k))
  | .irecv k => some (.other (.irecv k))
  | .ret => some (.other .ret)
  | .loud k => some (.other (.loud k))

/-- The program made from lines. -/
def code (ls : List Line) : List Instr := ls.filterMap Line.instr

/-- What MPI does during one wait: the requests, with the messages they receive, and the order of
events. -/
structure Env (V : Type) where
  reqs : List (Req V)
  evs : List Ev

/-- Data that leave when nothing is modified while the sends are pending. -/
def sentAt {V : Type} (reqs : List (Req V)) (m : Nat → V) : List (Option (List V)) :=
  reqs.map fun q => match q with
    | .recv _ _ => none
    | .send base len => some ((List.range len).map fun k => m (base + k))

/-- Execution of a program by `ext_mpi_exec_native` with `active_wait = 2`
(`src/mpi/ext_mpi_native_exec.c:205-420`): `m` and `m'` are the memory before and after, `es` the
behaviour of MPI in the successive waits and `outs` the data sent during each of them. `eff` is the effect
of the instructions that are not modelled in detail. During `PMPI_Waitall` the process does
nothing, so the result does not depend on the order of the transfers. With a count of 0
`exec_waitany` does nothing. -/
inductive Runs {V : Type} [Add V] (eff : Line → (Nat → V) → Nat → V) :
    List (Env V) → List Instr → (Nat → V) → (Nat → V) → List (List (Option (List V))) → Prop
  | nil {m} : Runs eff [] [] m m []
  | reduce {es is m m' outs r} : Runs eff es is (redLoop r.dst r.src r.size m) m' outs →
      Runs eff es (.reduce r :: is) m m' outs
  | attached {es is m m' outs} : Runs eff es is m m' outs → Runs eff es (.attached :: is) m m' outs
  | other {es is m m' outs l} : Runs eff es is (eff l m) m' outs →
      Runs eff es (.other l :: is) m m' outs
  | waitall {es is m m' outs n} {e : Env V} : e.reqs.length = n →
      Runs eff es is (fun a => (e.reqs.findSome? (·.got a)).getD (m a)) m' outs →
      Runs eff (e :: es) (.waitall n :: is) m m' (sentAt e.reqs m :: outs)
  | waitany0 {es is m m' outs k} : Runs eff es is m m' outs → Runs eff es (.waitany 0 k :: is) m m' outs
  | waitany {es is rest m s m' outs n k} {e : Env V} : e.reqs.length = n + 1 →
      execWaitany e.reqs (n + 1) k is e.evs ⟨m, fun _ => none⟩ = some (s, rest) →
      Runs eff es rest s.mem m' outs →
      Runs eff (e :: es) (.waitany (n + 1) k :: is) m m' ((List.range (n + 1)).map s.out :: outs)

end ExtMpi.Waitany
