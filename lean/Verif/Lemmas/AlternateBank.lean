import Verif.Lemmas.AlternateDrop
import Verif.Model.ClusterAlternate
/-! Programs with another shared memory. -/
namespace ExtMpi.Cluster
open RawCode
open TasksNode

theorem bank_inj {b : Nat} {r r' : Reg} : bank b r = bank b r' ↔ r = r' := by
  constructor
  · intro h
    cases r <;> cases r' <;> simp_all [bank]
  · intro h; rw [h]

theorem overlap_bank {b : Nat} {x y : Addr} {n k : Nat} : overlap (bankA b x) n (bankA b y) k ↔ overlap x n y k := by
  unfold overlap bankA
  dsimp only
  rw [bank_inj]

/-- An operand in program `b`. -/
def bankE (b : Nat) (x : Addr × Nat) : Addr × Nat := (bankA b x.1, x.2)

theorem writes_bank (b : Nat) (i : Instr) : writes (bankI b i) = (writes i).map (bankE b) := by cases i <;> rfl

theorem reads_bank (b : Nat) (i : Instr) : reads (bankI b i) = (reads i).map (bankE b) := by cases i <;> rfl

theorem conflict_bank {b : Nat} {i j : Instr} : Conflict (bankI b i) (bankI b j) ↔ Conflict i j := by
  unfold Conflict
  rw [writes_bank, writes_bank, reads_bank, reads_bank, ← List.map_append]
  constructor
  · rintro (⟨x, y, hx, hy, ho⟩ | ⟨x, y, hx, hy, ho⟩)
    · obtain ⟨x, gx, rfl⟩ := List.mem_map.1 hx
      obtain ⟨y, gy, rfl⟩ := List.mem_map.1 hy
      exact .inl ⟨x, y, gx, gy, overlap_bank.1 ho⟩
    · obtain ⟨x, gx, rfl⟩ := List.mem_map.1 hx
      obtain ⟨y, gy, rfl⟩ := List.mem_map.1 hy
      exact .inr ⟨x, y, gx, gy, overlap_bank.1 ho⟩
  · rintro (⟨x, y, hx, hy, ho⟩ | ⟨x, y, hx, hy, ho⟩)
    · exact .inl ⟨_, _, List.mem_map_of_mem hx, List.mem_map_of_mem hy, overlap_bank.2 ho⟩
    · exact .inr ⟨_, _, List.mem_map_of_mem hx, List.mem_map_of_mem hy, overlap_bank.2 ho⟩

theorem bankI_barrier {b : Nat} {i : Instr} : bankI b i = .barrier ↔ i = .barrier := by cases i <;> simp [bankI]

/-- Instructions of a node in program `b`. -/
def bankM (b : Nat) (M : Master) : Master := M.map fun x => (x.1, bankI b x.2)

theorem bankM_append (b : Nat) (A B : Master) : bankM b (A ++ B) = bankM b A ++ bankM b B := List.map_append

theorem bars_bank (b : Nat) (M : Master) : bars (bankM b M) = bars M := by
  induction M with
  | nil => rfl
  | cons x M ih =>
    rw [show bankM b (x :: M) = (x.1, bankI b x.2) :: bankM b M from rfl, bars_cons, bars_cons x, ih]
    congr 1
    obtain ⟨o, i⟩ := x
    cases i <;> rfl

theorem bankM_replicate (b n : Nat) : bankM b (List.replicate n (none, .barrier)) = List.replicate n (none, .barrier) := by
  unfold bankM; rw [List.map_replicate]; rfl

theorem full_bank {ns b : Nat} {E : Master} {ws : List (Nat → Nat)} (h : Full ns E ws) : Full ns (bankM b E) ws := by
  obtain ⟨E1, E2, ws1, ws2, rfl, h2, h3⟩ := h
  exact ⟨bankM b E1, bankM b E2, ws1, ws2, by rw [bankM_append, bankM_append, bankM_replicate], h2, by rw [bars_bank, h3]⟩

theorem wf_bank {N ns a b : Nat} {o : Option Nat} {i : Instr} (h : WF N ns a (o, i)) : WF N ns a (o, bankI b i) := by
  cases o <;> cases i <;> exact h

theorem tags_bank (b q : Nat) (M : Master) : sendTags q (bankM b M) = sendTags q M ∧ recvTags q (bankM b M) = recvTags q M := by
  unfold sendTags recvTags bankM
  rw [List.filterMap_map, List.filterMap_map]
  constructor
  · congr 1
    funext x
    obtain ⟨o, i⟩ := x
    cases o <;> cases i <;> rfl
  · congr 1
    funext x
    obtain ⟨o, i⟩ := x
    cases o <;> cases i <;> rfl

theorem toProc_bank (b ns r : Nat) (i : Instr) : toProc ns r (bankI b i) = bankI b (toProc ns r i) := by cases i <;> rfl

theorem share_bank (b ns r : Nat) (M : Master) : share ns r (bankM b M) = (share ns r M).map (bankI b) := by
  unfold share bankM
  rw [List.filterMap_map, List.map_filterMap]
  congr 1
  funext x
  show (if x.1 = none ∨ x.1 = some r then some (toProc ns r (bankI b x.2)) else none) = _
  split
  · rw [toProc_bank]; rfl
  · rfl

/-- Actions in program `b`. -/
def bankC (b : Nat) : CInstr → CInstr
  | .op i => .op (bankI b i)
  | x => x

theorem toC_bank (b : Nat) (part : Nat → Nat) (rank : Nat) (l : List Instr) : ∀ c,
    toC part rank c (l.map (bankI b)) = (toC part rank c l).map (bankC b) := by
  induction l with
  | nil => intro c; rfl
  | cons i l ih =>
    intro c
    rw [List.map_cons]
    by_cases hi : i = .barrier
    · subst hi
      show CInstr.set _ :: .wait _ :: toC part rank (c + 1) (l.map (bankI b)) = _
      rw [ih]; rfl
    · rw [toC_op _ _ _ hi, toC_op _ _ _ (fun h => hi (bankI_barrier.1 h)), ih]; rfl

/-! ## The execution -/

variable {X : Type}

/-- The memory with shared memory `b` from `m`. -/
def upM (b : Nat) (base m : Mem X) : Mem X := fun r e =>
  match r with
  | .shm k => if k % 2 = b then m (.shm (k / 2)) e else base (.shm k) e
  | r => m r e

theorem upM_bank {b : Nat} (hb : b < 2) (base m : Mem X) (r : Reg) : upM b base m (bank b r) = m r := by
  funext e
  cases r with
  | shm k =>
    show (if (2 * k + b) % 2 = b then m (.shm ((2 * k + b) / 2)) e else _) = _
    rw [if_pos (by omega), show (2 * k + b) / 2 = k by omega]
  | send => rfl
  | recv => rfl

theorem bank_cases {b : Nat} (hb : b < 2) (r : Reg) :
    (∃ r', r = bank b r') ∨ (∀ r', r ≠ bank b r') ∧ ∀ base m : Mem X, upM b base m r = base r := by
  cases r with
  | send => exact .inl ⟨.send, rfl⟩
  | recv => exact .inl ⟨.recv, rfl⟩
  | shm k =>
    by_cases h : k % 2 = b
    · exact .inl ⟨.shm (k / 2), by show Reg.shm k = Reg.shm _; congr 1; omega⟩
    · refine .inr ⟨fun r' e => ?_, fun base m => ?_⟩
      · cases r' with
        | shm j =>
          have : k = 2 * j + b := Reg.shm.inj e
          omega
        | send => cases e
        | recv => cases e
      · funext e
        exact if_neg h

theorem upM_self {b : Nat} (hb : b < 2) (m : Mem X) : upM b m (fun r => m (bank b r)) = m := by
  funext r
  rcases bank_cases (X := X) hb r with ⟨r', rfl⟩ | ⟨_, h⟩
  · rw [upM_bank hb]
  · rw [h]

theorem copy_up [Add X] {b : Nat} (hb : b < 2) (red : Bool) (d s : Addr) (n : Nat) (base m : Mem X) :
    copyMem red (bankA b d) (bankA b s) n (upM b base m) = upM b base (copyMem red d s n m) := by
  funext r e
  rcases bank_cases (X := X) hb r with ⟨r, rfl⟩ | ⟨h1, h2⟩
  · rw [upM_bank hb]
    unfold copyMem bankA
    simp only [bank_inj, upM_bank hb]
  · rw [h2]
    unfold copyMem
    rw [if_neg (fun h => h1 _ h.1), h2]

theorem write_up {b : Nat} (hb : b < 2) (a : Addr) (msg : List X) (base m : Mem X) :
    writeMem (upM b base m) (bankA b a) msg = upM b base (writeMem m a msg) := by
  funext r e
  rcases bank_cases (X := X) hb r with ⟨r, rfl⟩ | ⟨h1, h2⟩
  · rw [upM_bank hb]
    unfold writeMem bankA
    simp only [bank_inj, upM_bank hb]
  · rw [h2]
    unfold writeMem
    rw [if_neg (fun h => h1 _ h.1), h2]

theorem read_up {b : Nat} (hb : b < 2) (a : Addr) (n : Nat) (base m : Mem X) :
    readMem (upM b base m) (bankA b a) n = readMem m a n := by
  unfold readMem
  show (List.range n).map (fun i => upM b base m (bank b a.reg) _) = _
  rw [upM_bank hb]
  rfl

/-- A process in program `b`. -/
def upP (b : Nat) (base : Mem X) (p : Proc X) : Proc X :=
  ⟨p.rest.map (bankI b), upM b base p.mem, fun q => (p.recvs q).map (bankE b), fun q => (p.sends q).map (bankE b)⟩

/-- All processes in program `b`. -/
def upS (b : Nat) (base : Nat → Mem X) (s : State X) : State X := ⟨fun t => upP b (base t) (s.proc t), s.chan⟩

theorem upS_put [Add X] (b : Nat) (base : Nat → Mem X) (f : Nat → Proc X) (t : Nat) (p : Proc X) (c : Nat → Nat → List (List X)) :
    upS b base ⟨setProc f t p, c⟩ = ⟨setProc (upS b base ⟨f, c⟩).proc t (upP b (base t) p), c⟩ := by
  unfold upS
  congr 1
  funext a
  by_cases h : a = t
  · subst h; simp only [setProc_same]
  · simp only [setProc_ne _ _ _ _ h]

theorem push_up (b : Nat) (f : Nat → List (Addr × Nat)) (q : Nat) (x : Addr × Nat) :
    (fun k => (push f q x k).map (bankE b)) = push (fun k => (f k).map (bankE b)) q (bankE b x) := by
  funext k
  unfold push
  split
  · rw [List.map_append]; rfl
  · rfl

theorem pop_up (b : Nat) (f : Nat → List (Addr × Nat)) (q : Nat) :
    (fun k => (pop f q k).map (bankE b)) = pop (fun k => (f k).map (bankE b)) q := by
  funext k
  unfold pop
  split
  · rw [List.map_tail]
  · rfl

theorem clearRecv_up {b : Nat} {base : Mem X} {p : Proc X} {a : Addr} {n : Nat} (h : p.clearRecv a n) :
    (upP b base p).clearRecv (bankA b a) n := by
  intro q x hx
  obtain ⟨y, hy, rfl⟩ := List.mem_map.1 hx
  exact fun ho => h q y hy (overlap_bank.1 ho)

theorem clearSend_up {b : Nat} {base : Mem X} {p : Proc X} {a : Addr} {n : Nat} (h : p.clearSend a n) :
    (upP b base p).clearSend (bankA b a) n := by
  intro q x hx
  obtain ⟨y, hy, rfl⟩ := List.mem_map.1 hx
  exact fun ho => h q y hy (overlap_bank.1 ho)

variable [Add X]

theorem lstep_up {b : Nat} (hb : b < 2) (base : Mem X) {p q : Proc X} (h : LStep p q) : LStep (upP b base p) (upP b base q) := by
  cases h with
  | @copy red d s n rest h1 h2 h3 h4 h5 =>
    have := LStep.copy (p := upP b base p) (red := red) (dst := bankA b d) (src := bankA b s) (n := n) (rest := rest.map (bankI b))
      (by show p.rest.map _ = _; rw [h1]; rfl) (fun h => h2 (overlap_bank.1 h)) (clearRecv_up h3) (clearSend_up h4) (clearRecv_up h5)
    rw [show (upP b base p).mem = upM b base p.mem from rfl, copy_up hb] at this
    exact this
  | @irecv a n q rest h1 h2 h3 =>
    have := LStep.irecv (p := upP b base p) (buf := bankA b a) (n := n) (q := q) (rest := rest.map (bankI b))
      (by show p.rest.map _ = _; rw [h1]; rfl) (clearRecv_up h2) (clearSend_up h3)
    unfold upP
    dsimp only
    rw [push_up]
    exact this
  | @isend a n q rest h1 h2 =>
    have := LStep.isend (p := upP b base p) (buf := bankA b a) (n := n) (q := q) (rest := rest.map (bankI b))
      (by show p.rest.map _ = _; rw [h1]; rfl) (clearRecv_up h2)
    unfold upP
    dsimp only
    rw [push_up]
    exact this
  | @waitall rest h1 h2 =>
    exact LStep.waitall (p := upP b base p) (rest := rest.map (bankI b)) (by show p.rest.map _ = _; rw [h1]; rfl) fun q => by
      show (p.recvs q).map _ = [] ∧ (p.sends q).map _ = []
      rw [(h2 q).1, (h2 q).2]
      exact ⟨rfl, rfl⟩
  | @barrier rest h1 => exact LStep.barrier (p := upP b base p) (rest := rest.map (bankI b)) (by show p.rest.map _ = _; rw [h1]; rfl)

theorem step_up {N b : Nat} (hb : b < 2) (base : Nat → Mem X) {l : Lab} {s s' : State X} (hu : Unbuffered l s) (h : Step N l s s') :
    Unbuffered l (upS b base s) ∧ Step N l (upS b base s) (upS b base s') := by
  cases h with
  | @loc _ t p ht hl =>
    refine ⟨trivial, ?_⟩
    rw [upS_put]
    exact Step.loc (s := upS b base s) ht (lstep_up hb (base t) hl)
  | @depart _ q t a n r hq ht hne hs =>
    refine ⟨⟨hu.1, fun h => hu.2 (List.map_eq_nil_iff.1 h)⟩, ?_⟩
    rw [upS_put]
    have := Step.depart (s := upS b base s) (a := bankA b a) (n := n) (r := r.map (bankE b)) hq ht hne (by
      show ((s.proc q).sends t).map _ = _
      rw [hs]; rfl)
    rw [show ((upS b base s).proc q).mem = upM b (base q) (s.proc q).mem from rfl, read_up hb] at this
    unfold upP
    dsimp only
    rw [pop_up]
    exact this
  | @arrive _ q t a n r msg ms hq ht hne hc hr hl =>
    refine ⟨trivial, ?_⟩
    rw [upS_put]
    have := Step.arrive (s := upS b base s) (a := bankA b a) (n := n) (r := r.map (bankE b)) hq ht hne hc (by
      show ((s.proc t).recvs q).map _ = _
      rw [hr]; rfl) hl
    rw [show ((upS b base s).proc t).mem = upM b (base t) (s.proc t).mem from rfl, write_up hb] at this
    unfold upP
    dsimp only
    rw [pop_up]
    exact this

theorem delayed_up {b : Nat} (base : Nat → Mem X) {l : Lab} {s : State X} (h : Delayed l s) : Delayed l (upS b base s) := by
  cases l with
  | loc t => exact trivial
  | depart q t =>
    obtain ⟨r, hr⟩ := h
    exact ⟨r.map (bankI b), by show (s.proc q).rest.map _ = _; rw [hr]; rfl⟩
  | arrive q t =>
    obtain ⟨r, hr⟩ := h
    exact ⟨r.map (bankI b), by show (s.proc t).rest.map _ = _; rw [hr]; rfl⟩

theorem run_up {N k b : Nat} (hb : b < 2) (base : Nat → Mem X) {s s' : State X} (h : URun N k s s') :
    URun N k (upS b base s) (upS b base s') := by
  induction h with
  | refl => exact .refl
  | step hu hd hs _ ih =>
    obtain ⟨h1, h2⟩ := step_up hb base hu hs
    exact .step h1 (delayed_up base hd) h2 ih

/-- The same in program `b`. -/
theorem Piece.bank {N ns b : Nat} (hb : b < 2) {E : Nat → Master} {ws : Nat → List (Nat → Nat)} {prog : Nat → List CInstr}
    {m : Nat → Mem X} {post : (Nat → Mem X) → Prop} (h : Piece N ns E ws prog (fun a r => m a (bank b r)) post) :
    Piece N ns (fun a => bankM b (E a)) ws (fun p => (prog p).map (bankC b)) m fun mem => post fun a r => mem a (Cluster.bank b r) where
  len := fun a ha => by rw [bars_bank]; exact h.len a ha
  part := h.part
  wf := fun a ha x hx => by
    obtain ⟨y, hy, rfl⟩ := List.mem_map.1 hx
    exact wf_bank (h.wf a ha y hy)
  ord := fun a ha V c hV A r i L r' i' B e hne hr hr' hc => by
    obtain ⟨A0, B0, e1, rfl, e2⟩ := List.map_eq_append_iff.1 e
    obtain ⟨x, C0, rfl, ex, e3⟩ := List.map_eq_cons_iff.1 e2
    obtain ⟨L0, D0, rfl, rfl, e4⟩ := List.map_eq_append_iff.1 e3
    obtain ⟨y, F0, rfl, ey, rfl⟩ := List.map_eq_cons_iff.1 e4
    obtain ⟨o, j⟩ := x
    obtain ⟨o', j'⟩ := y
    obtain ⟨rfl, rfl⟩ := Prod.mk.inj ex
    obtain ⟨rfl, rfl⟩ := Prod.mk.inj ey
    have := h.ord a ha V c hV A0 r j L0 r' j' F0 e1 hne hr hr' (conflict_bank.1 hc)
    rw [← bars_bank b A0, ← bars_bank b L0] at this
    exact this
  waits := fun a ha A B e => by
    obtain ⟨A0, B0, e1, rfl, e2⟩ := List.map_eq_append_iff.1 e
    obtain ⟨⟨o, j⟩, C0, rfl, ex, rfl⟩ := List.map_eq_cons_iff.1 e2
    obtain ⟨rfl, ej⟩ := Prod.mk.inj ex
    have hj : j = .waitall := by cases j <;> cases ej; rfl
    subst hj
    obtain ⟨B', v1, v2, rfl, h2, h3⟩ := h.waits a ha A0 C0 e1
    refine ⟨bankM b B', v1, v2, ?_, h2, by rw [h3]; exact (bars_bank b A0).symm⟩
    rw [List.map_append, List.map_replicate]
    rfl
  tags := fun a q ha hq hne => by rw [(tags_bank b q _).1, (tags_bank b a _).2]; exact h.tags a q ha hq hne
  code := fun p hp part c hc => by rw [share_bank, toC_bank, h.code p hp part c hc]
  run := by
    obtain ⟨k, e, h1, h2, h3⟩ := h.run
    have r1 := run_up hb m h1
    have hs : upS b m (initial (fun a => (E a).map Prod.snd) fun a r => m a (Cluster.bank b r)) =
        initial (fun a => (bankM b (E a)).map Prod.snd) m := by
      unfold upS initial upP bankM
      congr 1
      funext a
      dsimp only
      rw [upM_self hb, List.map_map, List.map_map]
      rfl
    rw [hs] at r1
    refine ⟨k, _, r1, fun t ht => ?_, fun mem hm => h3 _ fun a ha => ?_⟩
    · obtain ⟨g1, g2⟩ := h2 t ht
      refine ⟨by show (e.proc t).rest.map _ = []; rw [g1]; rfl, fun q => ?_⟩
      obtain ⟨g3, g4, g5, g6⟩ := g2 q
      exact ⟨by show ((e.proc t).recvs q).map _ = []; rw [g3]; rfl, by show ((e.proc t).sends q).map _ = []; rw [g4]; rfl, g5, g6⟩
    · funext r
      rw [hm a ha]
      exact upM_bank hb _ _ _

end ExtMpi.Cluster
