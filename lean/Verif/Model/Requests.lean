import Verif.Model.RawCode
/-! # Several requests of one application

Model of `EXT_MPI_Start_native`, `EXT_MPI_Test_native` and `EXT_MPI_Wait_native`
(`/repo/src/mpi/ext_mpi_native.c:233-281`) as they are called by `MPI_Start`, `MPI_Test`, `MPI_Wait` and `MPI_Waitall`
(`/repo/src/mpi/ext_mpi_interface.c:128-179`, `213-221`), with one process per node. Any number of requests exist. The
program of every request runs as in `Verif.Model.RawCode`.

Simplifications. Every request has its own buffers; the application may copy anything it has got from one request into
the buffers of another one before it starts it. The messages of different requests do not meet, since they have different
tags (`ext_mpi_native.c:470-479`). -/
namespace ExtMpi.Requests
open RawCode

/-- Replace one value of a function. -/
def put {A : Type} (f : Nat → A) (i : Nat) (x : A) : Nat → A := fun k => if k = i then x else f k

/-- What a process has received so far: for every call of `MPI_Wait` the request and the content of the memory of this
request when the call returned. -/
abbrev Hist (X : Type) := List (Nat × Mem X)

/-- Calls of the application. Before a request is started the application changes its memory in any way that depends
on what has been received. The change includes the scratch memory: with two programs per request
(`ext_mpi_native.c:235-242`) the memory used by the execution before is not the one that is used now. -/
inductive Call (X : Type) where
  | start (h : Nat) (fill : Hist X → Mem X → Mem X)
  | wait (h : Nat)

/-- The process is at the end of the program and nothing is pending (`execution_pointer[handle] == NULL`). -/
def Idle {X : Type} (p : Proc X) : Prop := p.rest = [] ∧ ∀ q, p.recvs q = [] ∧ p.sends q = []

/-- All processes: the executions of all requests, the calls that are still to be made, and what has been received. -/
structure MState (X : Type) where
  core : Nat → State X
  calls : Nat → List (Call X)
  hist : Nat → Hist X

/-- Begin or end of a call of process `t`; `ps` is the state of the process in every request. `MPI_Start` sets
the execution pointer to the begin of the program and does nothing else (`ext_mpi_native.c:243-246`). `MPI_Wait`
returns when the execution of its request is at the end (`ext_mpi_native.c:275-280`). To start a request that is
active is erroneous in MPI and is not possible here. -/
inductive UStep {X : Type} (prog : Nat → Nat → List Instr) (t : Nat) :
    (Nat → Proc X) → List (Call X) → Hist X → (Nat → Proc X) → List (Call X) → Hist X → Prop
  | start {ps h fill r H} : Idle (ps h) →
      UStep prog t ps (.start h fill :: r) H (put ps h ⟨prog h t, fill H (ps h).mem, fun _ => [], fun _ => []⟩) r H
  | done {ps h r H} : Idle (ps h) → UStep prog t ps (.wait h :: r) H ps r (H ++ [(h, (ps h).mem)])

/-- What happens: a call of process `t` begins or ends, or a step of the execution of request `h`. -/
inductive MLab where
  | user (t : Nat)
  | core (h : Nat) (l : Lab)
  deriving DecidableEq, Repr

/-- One step. Process `t` executes instructions of request `h` while it is in `MPI_Wait` of this request
(`ext_mpi_native.c:269-281`; other requests do not progress) or, if `test` is set, at any time: calls of `MPI_Test`
(`ext_mpi_native.c:249-256`) may be anywhere between the other calls. -/
inductive MStep {X : Type} [Add X] (N : Nat) (prog : Nat → Nat → List Instr) (test : Bool) :
    MLab → MState X → MState X → Prop
  | user {s t ps r H} : t < N → UStep prog t (fun h => (s.core h).proc t) (s.calls t) (s.hist t) ps r H →
      MStep N prog test (.user t) s
        ⟨fun h => ⟨setProc (s.core h).proc t (ps h), (s.core h).chan⟩, put s.calls t r, put s.hist t H⟩
  | core {s h l c} : Step N l (s.core h) c →
      (∀ t, l = .loc t → test = true ∨ ∃ r, s.calls t = .wait h :: r) →
      MStep N prog test (.core h l) s ⟨put s.core h c, s.calls, s.hist⟩

/-- Executions of `k` steps. -/
inductive MSteps {X : Type} [Add X] (N : Nat) (prog : Nat → Nat → List Instr) (test : Bool) :
    Nat → MState X → MState X → Prop
  | refl {s} : MSteps N prog test 0 s s
  | step {k l s s1 s2} : MStep N prog test l s s1 → MSteps N prog test k s1 s2 → MSteps N prog test (k + 1) s s2

/-- Start: no request is active, nothing has been received; `m h t` is the memory of request `h` on process `t`. -/
def begin {X : Type} (m : Nat → Nat → Mem X) (calls : Nat → List (Call X)) : MState X :=
  ⟨fun h => initial (fun _ => []) (m h), calls, fun _ => []⟩

end ExtMpi.Requests
