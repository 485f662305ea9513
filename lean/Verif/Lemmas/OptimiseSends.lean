import Verif.Model.Optimise
/-! # Programs as segments; sending without packing -/
namespace ExtMpi.Optimise
open RawCode

/-! ## The main loop -/

theorem sendFrom_length {d s : Addr} {n : Nat} {ls : List Instr} {i : Instr} {r : List Instr}
    (h : sendFrom d s n ls = some (i, r)) : r.length < ls.length := by
  induction ls generalizing n with
  | nil => cases h
  | cons l ls ih =>
    cases l with
    | copy red d' s' n' =>
      cases red with
      | true => cases h
      | false =>
        rw [sendFrom] at h
        split at h
        · have := ih h
          rw [List.length_cons]; omega
        · cases h
    | barrier =>
      cases ls with
      | nil => cases h
      | cons l2 ls2 =>
        cases l2 with
        | isend a m q =>
          rw [sendFrom] at h
          split at h
          · cases h
            rw [List.length_cons, List.length_cons]; omega
          · cases h
        | _ => cases h
    | _ => cases h

/-- More steps than lines make no difference. -/
theorem unpackedF_fuel (ls : List Instr) : ∀ f, ls.length ≤ f → unpackedF f ls = optimiseSends ls := by
  suffices ∀ k, ∀ ls : List Instr, ls.length ≤ k → ∀ f f', ls.length ≤ f → ls.length ≤ f' →
      unpackedF f ls = unpackedF f' ls from
    fun f h => this ls.length ls (Nat.le_refl _) f ls.length h (Nat.le_refl _)
  intro k
  induction k with
  | zero =>
    intro ls h f f' _ _
    have : ls = [] := List.length_eq_zero_iff.1 (by omega)
    subst this
    cases f <;> cases f' <;> rfl
  | succ k ih =>
    intro ls h f f' hf hf'
    cases ls with
    | nil => cases f <;> cases f' <;> rfl
    | cons l ls =>
      rw [List.length_cons] at h hf hf'
      obtain ⟨f, rfl⟩ : ∃ g, f = g + 1 := ⟨f - 1, by omega⟩
      obtain ⟨f', rfl⟩ : ∃ g, f' = g + 1 := ⟨f' - 1, by omega⟩
      have h0 := ih ls (by omega) f f' (by omega) (by omega)
      cases l with
      | copy red d s n =>
        cases red with
        | true => simp only [unpackedF]; rw [h0]
        | false =>
          simp only [unpackedF]
          cases hs : sendFrom d s n ls with
          | none => dsimp only; rw [h0]
          | some x =>
            obtain ⟨i, r⟩ := x
            have := sendFrom_length hs
            dsimp only
            rw [ih r (by omega) f f' (by omega) (by omega)]
      | _ => simp only [unpackedF]; rw [h0]

theorem optimiseSends_some {d s : Addr} {n : Nat} {ls : List Instr} {i : Instr} {r : List Instr}
    (h : sendFrom d s n ls = some (i, r)) : optimiseSends (.copy false d s n :: ls) = i :: optimiseSends r := by
  unfold optimiseSends
  rw [List.length_cons]
  simp only [unpackedF, h]
  rw [unpackedF_fuel r _ (by have := sendFrom_length h; omega)]
  rfl

/-- The line does not begin a packed message. -/
def Inert (l : Instr) (ls : List Instr) : Prop :=
  match l with
  | .copy false d s n => sendFrom d s n ls = none
  | _ => True

theorem optimiseSends_inert {l : Instr} {ls : List Instr} (h : Inert l ls) :
    optimiseSends (l :: ls) = l :: optimiseSends ls := by
  unfold optimiseSends
  rw [List.length_cons]
  cases l with
  | copy red d s n =>
    cases red with
    | true => rfl
    | false =>
      have h' : sendFrom d s n ls = none := h
      simp only [unpackedF, h']
  | _ => rfl

theorem optimiseSends_inerts (A B : List Instr) (h : ∀ A1 l A2, A = A1 ++ l :: A2 → Inert l (A2 ++ B)) :
    optimiseSends (A ++ B) = A ++ optimiseSends B := by
  induction A with
  | nil => rfl
  | cons l A ih =>
    rw [List.cons_append, optimiseSends_inert (h [] l A rfl), ih fun A1 l' A2 e => h (l :: A1) l' A2 (by rw [e]; rfl)]
    rfl

/-- Not a copy, which could begin a packed message. -/
def NoCopy : Instr → Prop
  | .copy false _ _ _ => False
  | _ => True

theorem NoCopy.inert {l : Instr} (h : NoCopy l) (ls : List Instr) : Inert l ls := by
  cases l with
  | copy red d s n =>
    cases red with
    | true => exact trivial
    | false => exact h.elim
  | _ => exact trivial

theorem optimiseSends_noCopy (A B : List Instr) (h : ∀ l, l ∈ A → NoCopy l) :
    optimiseSends (A ++ B) = A ++ optimiseSends B :=
  optimiseSends_inerts A B fun A1 l A2 e => (h l (by rw [e]; simp)).inert _

/-- Does not begin with a send. -/
def NoSend (ls : List Instr) : Prop := ∀ a n q r, ls ≠ .isend a n q :: r

def IsCopy : Instr → Prop
  | .copy _ _ _ _ => True
  | _ => False

theorem sendFrom_copies (cs X : List Instr) (hX : NoSend X) (hc : ∀ c, c ∈ cs → IsCopy c) (d s : Addr) (n : Nat) :
    sendFrom d s n (cs ++ .barrier :: X) = none := by
  induction cs generalizing n with
  | nil =>
    cases X with
    | nil => rfl
    | cons x X =>
      cases x with
      | isend a m q => exact absurd rfl (hX a m q X)
      | _ => rfl
  | cons c cs ih =>
    have h1 := hc c List.mem_cons_self
    cases c with
    | copy red d' s' n' =>
      cases red with
      | true => rfl
      | false =>
        rw [List.cons_append, sendFrom]
        split
        · exact ih (fun c h => hc c (List.mem_cons_of_mem _ h)) _
        · rfl
    | _ => exact h1.elim

theorem sendFrom_copies_end (cs : List Instr) (hc : ∀ c, c ∈ cs → IsCopy c) (d s : Addr) (n : Nat) :
    sendFrom d s n cs = none := by
  induction cs generalizing n with
  | nil => rfl
  | cons c cs ih =>
    have h1 := hc c List.mem_cons_self
    cases c with
    | copy red d' s' n' =>
      cases red with
      | true => rfl
      | false =>
        rw [sendFrom]
        split
        · exact ih (fun c h => hc c (List.mem_cons_of_mem _ h)) _
        · rfl
    | _ => exact h1.elim

theorem optimiseSends_copies (cs X : List Instr) (hX : NoSend X) (hc : ∀ c, c ∈ cs → IsCopy c) :
    optimiseSends (cs ++ .barrier :: X) = cs ++ .barrier :: optimiseSends X := by
  rw [optimiseSends_inerts cs (.barrier :: X), optimiseSends_inert (l := .barrier) trivial]
  intro A1 l A2 e
  unfold Inert
  split
  · exact sendFrom_copies A2 X hX (fun c h => hc c (by rw [e]; simp [h])) _ _ _
  · trivial

theorem optimiseSends_copies_end (cs : List Instr) (hc : ∀ c, c ∈ cs → IsCopy c) : optimiseSends cs = cs := by
  have := optimiseSends_inerts cs [] (by
    intro A1 l A2 e
    unfold Inert
    split
    · rw [List.append_nil]
      exact sendFrom_copies_end A2 (fun c h => hc c (by rw [e]; simp [h])) _ _ _
    · trivial)
  rw [List.append_nil] at this
  rw [this]
  show cs ++ [] = cs
  rw [List.append_nil]

/-! ## Segments -/

/-- A received message: scratch buffer, destination, size, partner. -/
structure RMsg where
  buf : Nat
  dst : Nat
  size : Nat
  partner : Nat

/-- A sent message: the lines that pack it, scratch buffer, source, size, partner. -/
structure SMsg where
  pack : List Instr
  buf : Nat
  src : Nat
  size : Nat
  partner : Nat

/-- One block of the program. -/
structure Seg where
  lead : List Instr
  recvs : List RMsg
  sends : List SMsg
  reds : List Instr

def sh (o : Nat) : Addr := ⟨.shm 0, o⟩

def RMsg.post (m : RMsg) : Instr := .irecv (sh m.buf) m.size m.partner
def RMsg.direct (m : RMsg) : Instr := .irecv (sh m.dst) m.size m.partner
def RMsg.unpack (m : RMsg) : Instr := .copy false (sh m.dst) (sh m.buf) m.size
def SMsg.packed (m : SMsg) : List Instr := m.pack ++ [.barrier, .isend (sh m.buf) m.size m.partner]
def SMsg.direct (m : SMsg) : Instr := .isend (sh m.src) m.size m.partner

/-- The code of the block as generated. -/
def Seg.code0 (g : Seg) : List Instr :=
  g.lead ++ g.recvs.map RMsg.post ++ g.sends.flatMap SMsg.packed ++ [.waitall, .barrier] ++ g.recvs.map RMsg.unpack ++
    .barrier :: g.reds

/-- The code after the first `j` receives have been redirected. -/
def Seg.code (g : Seg) (j : Nat) : List Instr :=
  g.lead ++ (g.recvs.take j).map RMsg.direct ++ (g.recvs.drop j).map RMsg.post ++ g.sends.map SMsg.direct ++
    [.waitall, .barrier] ++ (g.recvs.drop j).map RMsg.unpack ++ .barrier :: g.reds

/-- The pass finds the lines that pack the message. -/
def SMsg.Ok (m : SMsg) : Prop :=
  ∃ d s n cs, m.pack = .copy false d s n :: cs ∧
    ∀ R, sendFrom d s n (cs ++ (.barrier :: .isend (sh m.buf) m.size m.partner :: R)) = some (m.direct, R)

/-- Only barriers. -/
def Barriers (ls : List Instr) : Prop := ∀ l, l ∈ ls → l = .barrier

/-- Only reductions. -/
def Reds (ls : List Instr) : Prop := ∀ l, l ∈ ls → ∃ d s n, l = .copy true d s n

theorem optimiseSends_packed (ms : List SMsg) (h : ∀ m, m ∈ ms → m.Ok) (R : List Instr) :
    optimiseSends (ms.flatMap SMsg.packed ++ R) = ms.map SMsg.direct ++ optimiseSends R := by
  induction ms with
  | nil => rfl
  | cons m ms ih =>
    obtain ⟨d, s, n, cs, h1, h2⟩ := h m List.mem_cons_self
    rw [List.flatMap_cons, List.map_cons, List.append_assoc]
    have e : m.packed ++ (ms.flatMap SMsg.packed ++ R) = .copy false d s n ::
        (cs ++ (.barrier :: .isend (sh m.buf) m.size m.partner :: (ms.flatMap SMsg.packed ++ R))) := by
      unfold SMsg.packed
      rw [h1]
      simp
    rw [e, optimiseSends_some (h2 _), ih fun m' hm => h m' (List.mem_cons_of_mem _ hm)]
    rfl

theorem noSend_code0 (g : Seg) (hl : Barriers g.lead) (hs : ∀ m, m ∈ g.sends → m.Ok) (R : List Instr) :
    NoSend (g.code0 ++ R) := by
  intro a n q r e
  unfold Seg.code0 at e
  cases h1 : g.lead with
  | cons x xs =>
    rw [h1] at e
    have := hl x (by rw [h1]; exact List.mem_cons_self)
    subst this
    simp at e
  | nil =>
    rw [h1] at e
    cases h2 : g.recvs with
    | cons x xs => rw [h2] at e; simp [RMsg.post] at e
    | nil =>
      rw [h2] at e
      cases h3 : g.sends with
      | nil => rw [h3] at e; simp at e
      | cons x xs =>
        rw [h3] at e
        obtain ⟨d, s, n, cs, k1, _⟩ := hs x (by rw [h3]; exact List.mem_cons_self)
        simp [SMsg.packed, k1] at e

theorem optimiseSends_seg (g : Seg) (hl : Barriers g.lead) (hs : ∀ m, m ∈ g.sends → m.Ok) (hr : Reds g.reds)
    (R : List Instr) (hR : NoSend R) : optimiseSends (g.code0 ++ R) = g.code 0 ++ optimiseSends R := by
  have hX : NoSend (g.reds ++ R) := by
    intro a n q r e
    cases h1 : g.reds with
    | nil => rw [h1] at e; exact hR a n q r e
    | cons x xs =>
      rw [h1] at e
      obtain ⟨d, s, n', hx⟩ := hr x (by rw [h1]; exact List.mem_cons_self)
      subst hx
      simp at e
  have e0 : g.code0 ++ R = (g.lead ++ g.recvs.map RMsg.post) ++ (g.sends.flatMap SMsg.packed ++
      ([.waitall, .barrier] ++ (g.recvs.map RMsg.unpack ++ .barrier :: (g.reds ++ R)))) := by
    unfold Seg.code0; simp
  rw [e0, optimiseSends_noCopy, optimiseSends_packed g.sends hs, optimiseSends_noCopy,
    optimiseSends_copies _ _ hX, optimiseSends_noCopy g.reds]
  · unfold Seg.code; simp
  · intro l hl'
    obtain ⟨d, s, n, rfl⟩ := hr l hl'
    trivial
  · intro c hc
    obtain ⟨m, _, rfl⟩ := List.mem_map.1 hc
    trivial
  · intro l hl'
    simp at hl'
    rcases hl' with rfl | rfl <;> trivial
  · intro l hl'
    rcases List.mem_append.1 hl' with h | h
    · rw [hl l h]; trivial
    · obtain ⟨m, _, rfl⟩ := List.mem_map.1 h
      trivial

/-- A program: barriers and copy-in, the blocks, barrier and copy-out. -/
structure Prog where
  head : List Instr
  copyIn : List Instr
  segs : List Seg
  copyOut : List Instr

def Prog.code0 (p : Prog) : List Instr :=
  p.head ++ p.copyIn ++ .barrier :: (p.segs.flatMap Seg.code0 ++ .barrier :: p.copyOut)

def Prog.code (p : Prog) (j : Nat) : List Instr :=
  p.head ++ p.copyIn ++ .barrier :: (p.segs.flatMap (fun g => g.code j) ++ .barrier :: p.copyOut)

/-- What the passes assume: the blocks after the first one begin with a barrier. -/
structure Prog.Ok (p : Prog) : Prop where
  head : Barriers p.head
  copyIn : ∀ c, c ∈ p.copyIn → ∃ d s n, c = .copy false d s n ∧ s.reg = .send ∧ isShm d.reg = true
  copyOut : ∀ c, c ∈ p.copyOut → ∃ d s n, c = .copy false d s n ∧ d.reg = .recv ∧ isShm s.reg = true
  lead : ∀ g, g ∈ p.segs → Barriers g.lead
  first : ∀ g, g ∈ p.segs.tail → g.lead ≠ []
  sends : ∀ g, g ∈ p.segs → ∀ m, m ∈ g.sends → m.Ok
  reds : ∀ g, g ∈ p.segs → Reds g.reds

theorem optimiseSends_segs (gs : List Seg) (hl : ∀ g, g ∈ gs → Barriers g.lead)
    (hf : ∀ g, g ∈ gs.tail → g.lead ≠ []) (hs : ∀ g, g ∈ gs → ∀ m, m ∈ g.sends → m.Ok)
    (hr : ∀ g, g ∈ gs → Reds g.reds) (R : List Instr) :
    optimiseSends (gs.flatMap Seg.code0 ++ .barrier :: R) =
      gs.flatMap (fun g => g.code 0) ++ .barrier :: optimiseSends R := by
  induction gs with
  | nil =>
    rw [List.flatMap_nil, List.nil_append, optimiseSends_inert (l := .barrier) trivial]
    rfl
  | cons g gs ih =>
    rw [List.flatMap_cons, List.flatMap_cons, List.append_assoc, List.append_assoc,
      optimiseSends_seg g (hl g List.mem_cons_self) (hs g List.mem_cons_self) (hr g List.mem_cons_self),
      ih (fun g' h => hl g' (List.mem_cons_of_mem _ h)) (fun g' h => hf g' (List.mem_of_mem_tail h))
        (fun g' h => hs g' (List.mem_cons_of_mem _ h)) (fun g' h => hr g' (List.mem_cons_of_mem _ h))]
    cases gs with
    | nil => intro a n q r e; simp at e
    | cons g' gs =>
      rw [List.flatMap_cons, List.append_assoc]
      exact noSend_code0 g' (hl g' (by simp)) (hs g' (by simp)) _

/-- All messages are sent from where they are. -/
theorem Prog.Ok.optimiseSends {p : Prog} (h : p.Ok) : optimiseSends p.code0 = p.code 0 := by
  unfold Prog.code0 Prog.code
  rw [List.append_assoc, optimiseSends_noCopy p.head _ (fun l hl => by rw [h.head l hl]; trivial),
    optimiseSends_copies p.copyIn, optimiseSends_segs p.segs h.lead h.first h.sends h.reds,
    optimiseSends_copies_end p.copyOut, List.append_assoc]
  · intro c hc
    obtain ⟨d, s, n, rfl, _⟩ := h.copyOut c hc
    trivial
  · cases hg : p.segs with
    | nil => intro a n q r e; simp at e
    | cons g gs =>
      rw [List.flatMap_cons, List.append_assoc]
      exact noSend_code0 g (h.lead g (by rw [hg]; simp)) (h.sends g (by rw [hg]; simp)) _
  · intro c hc
    obtain ⟨d, s, n, rfl, _⟩ := h.copyIn c hc
    trivial

end ExtMpi.Optimise
