import Verif.Model.Settings
/-! What users expect of the settings. -/
namespace ExtMpi.Settings

/-- All processes have the same settings. -/
def Same (size : Nat) (s : Nat → Settings) : Prop := ∀ r < size, s r = s 0

/-- All processes have the same settings apart from that of the self-test. -/
def SameBut (size : Nat) (s : Nat → Settings) : Prop := ∀ r < size, s r = { s 0 with debug := (s r).debug }

/-- Lists as `ext_mpi_scan_ports_groups` delivers them: no 0 inside, as many groups as ports. -/
def Env.Wf (e : Env) : Prop :=
  (∀ p g, e.ports = some (p, g) → (∀ x ∈ p, x ≠ 0) ∧ g.length = p.length) ∧ ∀ m l, e.copyin = some (m, l) → ∀ x ∈ l, x ≠ 0

/-- Settings that the environment asks for. -/
def wanted (e : Env) : Settings where
  sockets := match e.sockets with | some (.value v) => v | _ => -1
  notRecursive := if e.notRecursive then 1 else -1
  verbose := if e.verbose then 1 else 0
  debug := 1
  alternating := match e.alternating with | some '0' => 0 | some '1' => 1 | _ => -1
  tasks := match e.tasks with | some (.value v) => v | _ => -1
  ports := e.ports
  copyinMethod := match e.copyin with | some (m, _) => m | none => -1
  copyin := e.copyin.map (·.2)

/-- The lists of the environment have at most `n` entries. -/
def Env.ShortLists (e : Env) (n : Nat) : Prop :=
  (∀ p g, e.ports = some (p, g) → p.length ≤ n) ∧ ∀ m l, e.copyin = some (m, l) → l.length ≤ n

/-- Look-up: environment, info object, default. -/
inductive Lookup : Int → Option Scan → Int → Int → Prop
  | env (p : Int) (i : Option Scan) (d : Int) : 0 ≤ p → Lookup p i d p
  | info (p v d : Int) : p < 0 → Lookup p (some (.value v)) d v
  | default (p d : Int) : p < 0 → Lookup p none d d

/-- `t` processes on each of `sockets` sockets divide every node evenly. -/
def Even (cores : List Nat) (sockets t : Nat) : Prop := 0 < t ∧ ∀ x ∈ cores, t * sockets ∣ x

end ExtMpi.Settings
