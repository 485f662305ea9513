/-!
# Text form of settings

`/repo/src/core/ports_groups.c`. Strings are lists of characters without the terminating null character.
`%d` is modelled for arbitrary integers; the fixed buffer of 10000 characters of the printing
functions is not modelled.
-/
namespace ExtMpi.Text

/-- Decimal digit. -/
def digit (d : Nat) : Char := Char.ofNat (48 + d)

/-- Decimal digits of a number, most significant first. -/
def natDigits (n : Nat) : List Char :=
  if n < 10 then [digit n] else natDigits (n / 10) ++ [digit (n % 10)]
termination_by n
decreasing_by omega

/-- `sprintf(…, "%d", z)`. -/
def printInt (z : Int) : List Char :=
  if z < 0 then '-' :: natDigits z.natAbs else natDigits z.natAbs

def isDigit (c : Char) : Bool := 48 ≤ c.toNat && c.toNat ≤ 57

/-- Value of a sequence of digits. -/
def digitsVal (ds : List Char) : Nat := ds.foldl (fun a c => 10 * a + (c.toNat - 48)) 0

/-- `sscanf(s, "%d", &z)`: leading white space, sign, digits; `none` if no number is found. -/
def scanInt (s : List Char) : Option Int :=
  match s.dropWhile fun c => c == ' ' || c == '\n' || c == '\t' with
  | '-' :: r =>
    let ds := r.takeWhile isDigit
    if ds.isEmpty then none else some (-(digitsVal ds : Int))
  | '+' :: r =>
    let ds := r.takeWhile isDigit
    if ds.isEmpty then none else some (digitsVal ds : Int)
  | r =>
    let ds := r.takeWhile isDigit
    if ds.isEmpty then none else some (digitsVal ds : Int)

/-! ## Ports and groups

A setting is the list of the pairs of port and group before the terminating zero. -/

/-- Ports of the first group and the remaining setting: the group ends with the first non-positive
entry; without one the code runs past the end of the arrays (`src/core/ports_groups.c:43-50`). -/
def takeGroup : List (Int × Int) → Option (List Int × List (Int × Int))
  | [] => none
  | (p, g) :: r =>
    if g > 0 then (takeGroup r).map fun x => (p :: x.1, x.2) else some ([p], r)

/-- Ports of a group, separated by blanks, and the closing parenthesis
(`src/core/ports_groups.c:45-48`). -/
def printPorts : List Int → List Char
  | [] => []
  | [p] => printInt p ++ [')', ' ']
  | p :: ps => printInt p ++ ' ' :: printPorts ps

/-- The loop of `ext_mpi_print_ports_groups` (`src/core/ports_groups.c:42-50`). -/
def printLoop : Nat → List (Int × Int) → Option (List Char)
  | 0, _ => none
  | fuel + 1, l =>
    match l with
    | [] => some []
    | (p, g) :: r =>
      if p = 0 then some []
      else
        match takeGroup ((p, g) :: r) with
        | none => none
        | some (ps, r') =>
          (printLoop fuel r').map fun t => printInt (g.natAbs : Int) ++ '(' :: (printPorts ps ++ t)

/-- `ext_mpi_print_ports_groups`: the last blank is cut off; an empty setting makes the code write in
front of its buffer (`src/core/ports_groups.c:38-53`). -/
def printPortsGroups (l : List (Int × Int)) : Option (List Char) :=
  match printLoop (l.length + 1) l with
  | none => none
  | some [] => none
  | some (c :: t) => some (c :: t).dropLast

/-- Skipped characters between entries. -/
def skip (s : List Char) : List Char := s.dropWhile fun c => c == ' ' || c == ','

/-- Ports of one group up to the closing parenthesis (`src/core/ports_groups.c:84-99`). `none`: a
number is missing or the code runs past the end of the string. -/
def scanPorts : Nat → List Char → Option (List Int × List Char)
  | 0, _ => none
  | fuel + 1, s =>
    match s.dropWhile fun c => c != ' ' && c != ',' && c != ')' with
    | [] => none
    | c :: r =>
      match scanInt (s.takeWhile fun c => c != ' ' && c != ',' && c != ')') with
      | none => none
      | some p =>
        if c = ')' then some ([p], skip r)
        else (scanPorts fuel (skip r)).map fun x => (p :: x.1, x.2)

/-- Group numbers of a group with the given ports: the last one is negated
(`src/core/ports_groups.c:91`, `100`). -/
def withGroup (g : Int) : List Int → List (Int × Int)
  | [] => []
  | [p] => [(p, -g)]
  | p :: ps => (p, g) :: withGroup g ps

/-- The loop of `ext_mpi_scan_ports_groups` (`src/core/ports_groups.c:72-104`). -/
def scanLoop : Nat → List Char → Option (List (Int × Int))
  | 0, _ => none
  | fuel + 1, s =>
    match s with
    | [] => some []
    | _ =>
      match s.dropWhile fun c => c != ' ' && c != ',' && c != '(' with
      | [] => none
      | _ :: r =>
        match scanInt (s.takeWhile fun c => c != ' ' && c != ',' && c != '(') with
        | none => none
        | some g =>
          match scanPorts s.length (r.dropWhile fun c => c == ' ' || c == ',' || c == '(') with
          | none => none
          | some (ps, r') => (scanLoop fuel (skip r')).map fun t => withGroup g ps ++ t

/-- `ext_mpi_scan_ports_groups` (`src/core/ports_groups.c:56-106`). -/
def scanPortsGroups (s : List Char) : Option (List (Int × Int)) := scanLoop (s.length + 1) (skip s)

/-! ## Copy-in method -/

/-- `ext_mpi_print_copyin` (`src/core/ports_groups.c:6-16`). -/
def printCopyin (method : Int) (factors : List Int) : List Char :=
  (printInt method ++ ';' :: factors.flatMap fun f => printInt f ++ [' ']).dropLast

/-- Replacement of the first semicolon (`src/core/ports_groups.c:22-23`). -/
def cutSemicolon : List Char → List Char
  | [] => []
  | c :: r => if c = ';' then ' ' :: r else c :: cutSemicolon r

/-- The loop over the factors (`src/core/ports_groups.c:27-31`). -/
def scanFactors : Nat → List Char → Option (List Int)
  | 0, _ => none
  | fuel + 1, s =>
    match s with
    | [] => some []
    | _ =>
      match (s.dropWhile fun c => c != ' ').dropWhile fun c => c == ' ' with
      | [] => some []
      | r =>
        match scanInt r with
        | none => none
        | some f => (scanFactors fuel r).map fun t => f :: t

/-- `ext_mpi_scan_copyin` (`src/core/ports_groups.c:18-35`). -/
def scanCopyin (str : List Char) : Option (Int × List Int) :=
  let c := cutSemicolon str
  match scanInt c with
  | none => none
  | some m => (scanFactors (c.length + 1) c).map fun fs => (m, fs)

end ExtMpi.Text
