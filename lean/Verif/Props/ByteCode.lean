import Verif.Lemmas.ByteCode
/-!
# C29: size and contents of the byte code
-/
namespace ExtMpi.ByteCode
open Codec (Byte Word val)

/-- C29, size: the dry run returns `N`, and a real run into `N` bytes writes inside of them, returns `N` and
the same `size_to_return`. The pointers and ranks of the real run may differ from those of the dry
run, as for the second handle of a double-buffered collective (`src/mpi/ext_mpi_native.c:500-538`). -/
theorem size_in_advance {a a' : Args} {ls : List Ln} (h : ∀ l ∈ ls, LineOk a l) (h' : ∀ l ∈ ls, LineOk a' l)
    (hc : a'.numCores = a.numCores) (hh : a'.header.length = a.header.length)
    (hr : a'.commRow.length = a.commRow.length) (hcol : a'.commColumn.length = a.commColumn.length) :
    ∃ N ret, generate a none ls = some ⟨N, ret, none⟩ ∧
      ∀ mem : List Byte, mem.length = N → ∃ mem', generate a' (some mem) ls = some ⟨N, ret, some mem'⟩ ∧
        mem'.length = N := by
  obtain ⟨is, hp⟩ := program_exists h
  obtain ⟨is', hp'⟩ := program_exists h'
  have hs := program_size hc hp hp'
  refine ⟨_, _, by rw [generate_eq hp]; rfl, ?_⟩
  intro mem hm
  have hlen : (a'.header ++ is'.flatMap enc ++ a'.commRow ++ a'.commColumn).length = mem.length := by
    rw [hm]; simp only [List.length_append, Nat.zero_add]; omega
  have hle : 0 + (a'.header ++ is'.flatMap enc ++ a'.commRow ++ a'.commColumn).length ≤ mem.length := by omega
  refine ⟨overwrite mem 0 (a'.header ++ is'.flatMap enc ++ a'.commRow ++ a'.commColumn), ?_, ?_⟩
  · rw [generate_eq hp']
    simp only [put, if_pos hle, Option.map_some, Option.some.injEq, Result.mk.injEq, and_true]
    constructor
    · rw [hlen, hm]; simp
    · simp only [List.length_append]; omega
  · rw [overwrite_length hle, hm]

/-- C29, contents: after the real run the interpreter, started behind the header, reads exactly the
instructions that the lines of the program stand for, and stops directly in front of the two blocks
at the end, at position `size_to_return`. -/
theorem reads_back {a : Args} {ls : List Ln} {is : List Ins} (hp : Program a ls (is ++ [.ret]))
    (hg : Grouped 0 is) {mem mem' : List Byte} {N ret : Nat}
    (h : generate a (some mem) ls = some ⟨N, ret, some mem'⟩) (fuel : Nat) (hf : is.length < fuel) :
    ∃ tail, readCode fuel 0 (mem'.drop a.header.length) = some (is ++ [.ret], tail) ∧
      tail = mem'.drop ret ∧ (a.commRow ++ a.commColumn) <+: tail := by
  rw [generate_eq hp] at h
  simp only [put] at h
  split at h
  · rename_i hle
    simp only [Option.map_some, Option.some.injEq, Result.mk.injEq] at h
    obtain ⟨_, rfl, rfl⟩ := h
    refine ⟨a.commRow ++ a.commColumn ++ mem.drop
      (a.header ++ (is ++ [Ins.ret]).flatMap enc ++ a.commRow ++ a.commColumn).length, ?_, ?_, List.prefix_append _ _⟩
    · have : (overwrite mem 0 (a.header ++ (is ++ [Ins.ret]).flatMap enc ++ a.commRow ++ a.commColumn)).drop
          a.header.length = is.flatMap enc ++ enc .ret ++ (a.commRow ++ a.commColumn ++ mem.drop
          (a.header ++ (is ++ [Ins.ret]).flatMap enc ++ a.commRow ++ a.commColumn).length) := by
        unfold overwrite
        rw [List.take_zero, List.nil_append, List.append_assoc, List.append_assoc, List.append_assoc,
          List.drop_left, Nat.zero_add, List.flatMap_append]
        simp
      rw [this]
      exact readCode_grouped hg _ fuel hf
    · unfold overwrite
      rw [List.take_zero, List.nil_append, Nat.zero_add]
      generalize a.header ++ (is ++ [Ins.ret]).flatMap enc = A
      have e : ∀ r c d : List Byte, A ++ r ++ c ++ d = A ++ (r ++ c ++ d) := by intros; simp
      rw [e, List.drop_left]
  · cases h

/-- Every program whose operands exist stands for a list of instructions. -/
theorem program_total {a : Args} {ls : List Ln} (h : ∀ l ∈ ls, LineOk a l) : ∃ is, Program a ls is :=
  program_exists h

/-- Instructions that are not grouped stop the interpreter: a barrier inside of a group. -/
theorem ungrouped_stops (fuel : Nat) (rest : List Byte) (q : Ptr) :
    readCode fuel 0 (enc (.waitany 1 1 q) ++ enc .nodeBarrier ++ rest) = none := by
  have hb : ∀ {α β : Type} (x : α) (f : α → Option β), (some x >>= f) = f x := fun _ _ => rfl
  cases fuel with
  | zero => rfl
  | succ f =>
    simp only [List.append_assoc, readCode, fetch_enc, hb]
    rw [if_neg (by decide), show (val (1 : Word)).toNat = 1 from rfl]
    cases f with
    | zero => rfl
    | succ f => simp only [readCode, fetch_enc, hb]; rfl

/-! ### A program that meets the hypotheses -/

/-- Arguments for two processes per socket, sums of doubles. -/
def sampleArgs : Args where
  shmem := some [0x1000, 0x2000]
  sendbuf := 0x3000
  recvbuf := 0x4000
  locmem := 0x5000
  op := 1
  globalRanks := [0, 2]
  numCores := 2
  sizeRequest := 8
  header := List.replicate 88 0
  commRow := [1, 2, 3, 4]
  commColumn := [5, 6, 7, 8]

/-- Copy-in, exchange, reduction in order of arrival, copy-out. -/
def sampleLines : List Ln :=
  [.memcpy ⟨.shmem 0, 0⟩ ⟨.send, 0⟩ 16, .socketBarrier, .irecv ⟨.shmem 1, 64⟩ 16 1 0, .isend ⟨.shmem 0, 0⟩ 16 1 1,
   .waitany 2 1, .reduce ⟨.shmem 0, 0⟩ ⟨.shmem 1, 64⟩ 16, .attached, .attached, .setBarrier 1, .waitBarrier 0,
   .waitall 0, .memcpy ⟨.recv, 0⟩ ⟨.shmem 0, 0⟩ 16, .ret]

/-- Its instructions. -/
def sampleIns : List Ins :=
  [.memcpy 0x1000 0x3000 16, .socketBarrier, .irecv 0x2040 16 2 0x5000, .isend 0x1000 16 2 0x5008,
   .waitany 2 1 0x5000, .reduce 1 0x1000 0x2040 2, .attached, .attached, .set 1, .wait 0,
   .memcpy 0x4000 0x1000 16]

theorem two_cores : sampleArgs.numCores ≠ 1 := by decide

theorem sample_program : Program sampleArgs sampleLines (sampleIns ++ [.ret]) := by
  have h : Program sampleArgs sampleLines _ :=
    .cons (.memcpy rfl rfl) <| .cons (.socketMany two_cores) <| .cons (.irecv rfl rfl) <|
  .cons (.isend rfl rfl) <| .cons .waitany <| .cons (.reduce rfl rfl) <| .cons .attached <| .cons .attached <|
  .cons (.setMany two_cores) <| .cons (.waitMany two_cores) <| .cons .waitall0 <|
  .cons (.memcpy rfl rfl) <| .cons .ret .nil
  exact h

theorem sample_grouped : Grouped 0 sampleIns :=
  .plain (by simp) (by simp) <| .plain (by simp) (by simp) <| .plain (by simp) (by simp) <|
  .plain (by simp) (by simp) <| .waitany (by decide) <| .reduce <| .attached <| .attached <|
  .plain (by simp) (by simp) <| .plain (by simp) (by simp) <| .plain (by simp) (by simp) .nil

theorem sample_ok : ∀ l ∈ sampleLines, LineOk sampleArgs l := by
  intro l hl
  simp only [sampleLines, List.mem_cons, List.not_mem_nil, or_false] at hl
  rcases hl with rfl | rfl | rfl | rfl | rfl | rfl | rfl | rfl | rfl | rfl | rfl | rfl | rfl <;>
    first
      | trivial
      | exact ⟨⟨_, rfl⟩, ⟨_, rfl⟩⟩
      | exact ⟨⟨_, rfl⟩, by decide⟩

theorem sample_size : generate sampleArgs none sampleLines = some ⟨241, 233, none⟩ := by decide +kernel

example (mem : List Byte) (hm : mem.length = 241) : ∃ mem' tail,
    generate sampleArgs (some mem) sampleLines = some ⟨241, 233, some mem'⟩ ∧
    readCode 20 0 (mem'.drop 88) = some (sampleIns ++ [.ret], tail) := by
  obtain ⟨N, ret, h1, h2⟩ := size_in_advance sample_ok sample_ok rfl rfl rfl rfl
  rw [sample_size] at h1
  simp only [Option.some.injEq, Result.mk.injEq] at h1
  obtain ⟨rfl, rfl, _⟩ := h1
  obtain ⟨mem', h4, _⟩ := h2 mem hm
  obtain ⟨tail, h5, _⟩ := reads_back sample_program sample_grouped h4 20 (by decide)
  exact ⟨mem', tail, h4, h5⟩

end ExtMpi.ByteCode
