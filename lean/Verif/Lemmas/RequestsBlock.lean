import Verif.Lemmas.RequestsRun
import Verif.Model.Recursive
/-! # Two processes that wait for two requests in different orders -/
namespace ExtMpi.Requests
open RawCode

variable {X : Type} [Add X]

/-- The program waits for a message of process `q`. -/
def Receives (rest : List Instr) (q : Nat) : Prop :=
  ∃ pre buf n r, rest = pre ++ .irecv buf n q :: r ∧ Instr.waitall ∈ r

/-- The process cannot reach the end without a message of process `q`. -/
def Stuck (p : Proc X) (q : Nat) : Prop :=
  Receives p.rest q ∨ (p.recvs q ≠ [] ∧ Instr.waitall ∈ p.rest)

omit [Add X] in
theorem Stuck.not_idle {p : Proc X} {q : Nat} (h : Stuck p q) : ¬Idle p := by
  intro hi
  have hr := hi.1
  rcases h with ⟨pre, buf, n, r, e, _⟩ | ⟨_, e⟩
  · rw [hr] at e; cases pre <;> cases e
  · rw [hr] at e; cases e

theorem Stuck.lstep {p p' : Proc X} {q : Nat} (h : Stuck p q) (hl : LStep p p') : Stuck p' q := by
  rcases h with ⟨pre, buf, n, r, e, hw⟩ | ⟨h1, h2⟩
  · cases pre with
    | cons i pre =>
      have : p'.rest = pre ++ .irecv buf n q :: r := by
        cases hl <;> simp_all
      exact .inl ⟨pre, buf, n, r, this, hw⟩
    | nil =>
      right
      cases hl with
      | irecv h1 _ _ =>
        rw [e] at h1
        simp only [List.nil_append, List.cons.injEq, Instr.irecv.injEq] at h1
        obtain ⟨⟨_, _, rfl⟩, rfl⟩ := h1
        refine ⟨?_, hw⟩
        show push p.recvs q _ q ≠ []
        simp [push]
      | copy h1 => rw [e] at h1; cases h1
      | isend h1 => rw [e] at h1; cases h1
      | waitall h1 => rw [e] at h1; cases h1
      | barrier h1 => rw [e] at h1; cases h1
  · right
    cases hl with
    | @irecv buf n k r h3 _ _ =>
      rw [h3] at h2
      refine ⟨?_, ?_⟩
      · show push p.recvs k _ q ≠ []
        unfold push
        split
        · simp
        · exact h1
      · rcases List.mem_cons.1 h2 with e | e
        · cases e
        · exact e
    | copy h3 =>
      rw [h3] at h2
      refine ⟨h1, ?_⟩
      rcases List.mem_cons.1 h2 with e | e
      · cases e
      · exact e
    | isend h3 =>
      rw [h3] at h2
      refine ⟨h1, ?_⟩
      rcases List.mem_cons.1 h2 with e | e
      · cases e
      · exact e
    | waitall h3 h4 => exact absurd (h4 q).1 h1
    | barrier h3 =>
      rw [h3] at h2
      refine ⟨h1, ?_⟩
      rcases List.mem_cons.1 h2 with e | e
      · cases e
      · exact e

/-- The first wait of process `p` is for request `a`, in which it needs a message of process `q`; it has not returned from
it and has sent nothing to `q` in request `b`. -/
structure Side (p q a b : Nat) (s : MState X) : Prop where
  calls : ∃ st r, s.calls p = st ++ .wait a :: r ∧ (∀ c, c ∈ st → ∃ h f, c = .start h f) ∧
    ((∃ f, .start a f ∈ st) ∨ Stuck ((s.core a).proc p) q)
  hist : s.hist p = []
  sends : ((s.core b).proc p).sends q = []
  chan : (s.core b).chan p q = []

theorem side_step {N : Nat} {prog : Nat → Nat → List Instr} {p q a b : Nat} (hab : a ≠ b)
    {s s' : MState X} {l : MLab} (ha : Receives (prog a p) q)
    (h1 : Side p q a b s) (h2 : Side q p b a s) (hst : MStep N prog false l s s') :
    Side p q a b s' := by
  cases hst with
  | @user _ t ps r H ht hu =>
    by_cases e : t = p
    · subst e
      obtain ⟨st, rr, hc, hall, hor⟩ := h1.calls
      rw [hc] at hu
      cases st with
      | nil =>
        cases hu with
        | done hi =>
          rcases hor with ⟨f, hf⟩ | hs
          · cases hf
          · exact absurd hi hs.not_idle
      | cons c st =>
        obtain ⟨h, f, rfl⟩ := hall c List.mem_cons_self
        cases hu with
        | start hi =>
          refine ⟨⟨st, rr, put_same _ _ _, fun c hc => hall c (List.mem_cons_of_mem _ hc), ?_⟩, ?_, ?_, h1.chan⟩
          · by_cases eh : a = h
            · subst eh
              right; left
              show Receives (setProc (s.core a).proc t _ t).rest q
              rw [setProc_same, put_same]; exact ha
            · rcases hor with ⟨f', hf⟩ | hs
              · left
                refine ⟨f', ?_⟩
                rcases List.mem_cons.1 hf with g | g
                · cases g; exact absurd rfl eh
                · exact g
              · right
                show Stuck (setProc (s.core a).proc t _ t) q
                rw [setProc_same, put_ne _ _ _ _ eh]; exact hs
          · show put s.hist t _ t = []
            rw [put_same]; exact h1.hist
          · show (setProc (s.core b).proc t _ t).sends q = []
            rw [setProc_same]
            by_cases eh : b = h
            · rw [eh, put_same]
            · rw [put_ne _ _ _ _ eh]; exact h1.sends
    · have e2 : ∀ k, (setProc (s.core k).proc t (ps k)) p = (s.core k).proc p :=
        fun k => setProc_ne _ _ _ _ (fun g => e g.symm)
      refine ⟨?_, ?_, ?_, h1.chan⟩
      · show ∃ st r', put s.calls t r p = _ ∧ _ ∧ (_ ∨ Stuck (setProc (s.core a).proc t (ps a) p) q)
        rw [put_ne _ _ _ _ (fun g => e g.symm), e2]; exact h1.calls
      · show put s.hist t H p = []
        rw [put_ne _ _ _ _ (fun g => e g.symm)]; exact h1.hist
      · show (setProc (s.core b).proc t (ps b) p).sends q = []
        rw [e2]; exact h1.sends
  | @core _ k l c hstep hm =>
    have hstuck : Stuck ((s.core a).proc p) q → Stuck ((put s.core k c a).proc p) q := by
      intro hs
      by_cases ek : a = k
      · subst ek
        rw [put_same]
        cases hstep with
        | @loc _ t p' ht hl =>
          by_cases e : t = p
          · subst e; dsimp only; rw [setProc_same]; exact hs.lstep hl
          · dsimp only; rw [setProc_ne _ _ _ _ (fun g => e g.symm)]; exact hs
        | @depart _ q' t a' n r hq ht hne h =>
          by_cases e : q' = p
          · subst e; dsimp only; rw [setProc_same]; exact hs
          · dsimp only; rw [setProc_ne _ _ _ _ (fun g => e g.symm)]; exact hs
        | @arrive _ q' t a' n r msg ms hq ht hne h g hn =>
          by_cases e : t = p
          · subst e
            have : q ≠ q' := by
              rintro rfl
              rw [h2.chan] at h; cases h
            dsimp only
            rw [setProc_same]
            rcases hs with hs | ⟨hs, hw⟩
            · exact .inl hs
            · refine .inr ⟨?_, hw⟩
              show pop _ q' q ≠ []
              rw [pop_ne _ _ _ this]; exact hs
          · dsimp only; rw [setProc_ne _ _ _ _ (fun g => e g.symm)]; exact hs
      · rw [put_ne _ _ _ _ ek]; exact hs
    refine ⟨?_, h1.hist, ?_, ?_⟩
    · obtain ⟨st, r, hc, hall, hor⟩ := h1.calls
      exact ⟨st, r, hc, hall, hor.imp id hstuck⟩
    · show ((put s.core k c b).proc p).sends q = []
      by_cases ek : b = k
      · subst ek
        rw [put_same]
        cases hstep with
        | @loc _ t p' ht hl =>
          have e : t ≠ p := by
            rintro rfl
            rcases hm t rfl with g | ⟨r, g⟩
            · cases g
            · obtain ⟨st, rr, hc, hall, hor⟩ := h1.calls
              rw [hc] at g
              cases st with
              | nil => cases g; exact hab rfl
              | cons c st =>
                obtain ⟨h, f, rfl⟩ := hall c List.mem_cons_self
                cases g
          dsimp only
          rw [setProc_ne _ _ _ _ e.symm]; exact h1.sends
        | @depart _ q' t a' n r hq ht hne h =>
          by_cases e : q' = p
          · subst e
            dsimp only
            rw [setProc_same]
            show pop _ t q = []
            unfold pop
            split
            · rw [h1.sends]; rfl
            · exact h1.sends
          · dsimp only; rw [setProc_ne _ _ _ _ (fun g => e g.symm)]; exact h1.sends
        | @arrive _ q' t a' n r msg ms hq ht hne h g hn =>
          by_cases e : t = p
          · subst e; dsimp only; rw [setProc_same]; exact h1.sends
          · dsimp only; rw [setProc_ne _ _ _ _ (fun g => e g.symm)]; exact h1.sends
      · rw [put_ne _ _ _ _ ek]; exact h1.sends
    · show (put s.core k c b).chan p q = []
      by_cases ek : b = k
      · subst ek
        rw [put_same]
        cases hstep with
        | loc _ _ => exact h1.chan
        | @depart _ q' t a' n r hq ht hne h =>
          have : ¬(p = q' ∧ q = t) := by
            rintro ⟨rfl, rfl⟩
            rw [h1.sends] at h; cases h
          dsimp only
          rw [setChan_ne _ _ _ _ _ _ this]; exact h1.chan
        | @arrive _ q' t a' n r msg ms hq ht hne h g hn =>
          have : ¬(p = q' ∧ q = t) := by
            rintro ⟨rfl, rfl⟩
            rw [h1.chan] at h; cases h
          dsimp only
          rw [setChan_ne _ _ _ _ _ _ this]; exact h1.chan
      · rw [put_ne _ _ _ _ ek]; exact h1.chan

/-- Neither of the two processes returns from its first wait. -/
theorem crossed_blocks {N : Nat} {prog : Nat → Nat → List Instr} {p q a b : Nat} (hab : a ≠ b)
    (ha : Receives (prog a p) q) (hb : Receives (prog b q) p)
    (m : Nat → Nat → Mem X) (calls : Nat → List (Call X))
    (hp : ∃ st r, calls p = st ++ .wait a :: r ∧ (∀ c, c ∈ st → ∃ h f, c = .start h f) ∧ ∃ f, .start a f ∈ st)
    (hq : ∃ st r, calls q = st ++ .wait b :: r ∧ (∀ c, c ∈ st → ∃ h f, c = .start h f) ∧ ∃ f, .start b f ∈ st)
    {k : Nat} {s : MState X} (h : MSteps N prog false k (begin m calls) s) :
    s.hist p = [] ∧ s.hist q = [] := by
  have key : ∀ (k : Nat) (s0 s : MState X), MSteps N prog false k s0 s → Side p q a b s0 ∧ Side q p b a s0 →
      Side p q a b s ∧ Side q p b a s := by
    intro k s0 s h
    induction h with
    | refl => exact id
    | step hst _ ih =>
      rintro ⟨h1, h2⟩
      exact ih ⟨side_step hab ha h1 h2 hst, side_step hab.symm hb h2 h1 hst⟩
  obtain ⟨st, r, h1, h2, h3⟩ := hp
  obtain ⟨st', r', h1', h2', h3'⟩ := hq
  obtain ⟨g1, g2⟩ := key k _ s h
    ⟨⟨⟨st, r, h1, h2, .inl h3⟩, rfl, rfl, rfl⟩, ⟨⟨st', r', h1', h2', .inl h3'⟩, rfl, rfl, rfl⟩⟩
  exact ⟨g1.hist, g2.hist⟩

/-! ## The programs of the library receive -/

theorem posts_receives (sz : Nat → Nat) (b : Schedule.Block) (t q : Nat) (hq : q ≠ t)
    (hs : total sz b (Schedule.recvIdx b q) ≠ 0) (qs : List Nat) (hm : q ∈ qs) :
    ∀ k, ∃ pre buf n r, posts sz b t k qs = pre ++ .irecv buf n q :: r := by
  induction qs with
  | nil => cases hm
  | cons q' qs ih =>
    intro k
    rw [posts]
    by_cases e : q' = q
    · subst e
      rw [if_pos ⟨hq, hs⟩]
      exact ⟨[], _, _, _, rfl⟩
    · have hm' : q ∈ qs := by
        rcases List.mem_cons.1 hm with g | g
        · exact absurd g.symm e
        · exact g
      split
      · obtain ⟨pre, buf, n, r, h⟩ := ih hm' (k + 1)
        exact ⟨_ :: pre, buf, n, r, by rw [h]; rfl⟩
      · exact ih hm' k

theorem recvOrder_mem (N t q : Nat) (ht : t < N) (hq : q < N) : q ∈ recvOrder N t := by
  unfold recvOrder
  rw [List.mem_map]
  refine ⟨(N + t - q) % N, List.mem_range.2 (Nat.mod_lt _ (by omega)), ?_⟩
  by_cases h : q ≤ t
  · have : (N + t - q) % N = t - q := by
      rw [show N + t - q = (t - q) + N by omega, Nat.add_mod_right, Nat.mod_eq_of_lt (by omega)]
    rw [this, show N + t - (t - q) = q + N by omega, Nat.add_mod_right, Nat.mod_eq_of_lt hq]
  · have : (N + t - q) % N = N + t - q := Nat.mod_eq_of_lt (by omega)
    rw [this, show N + t - (N + t - q) = q by omega, Nat.mod_eq_of_lt hq]

/-- A program whose first step receives from `q` waits for a message of `q`. -/
theorem program_receives {N : Nat} {sz : Nat → Nat} {kind : Kind} {b0 b : Schedule.Block} {bs : List Schedule.Block}
    {t q : Nat} {prog : List Instr} (h : program N sz kind (b0 :: b :: bs) t = some prog) (ht : t < N) (hq : q < N)
    (hne : q ≠ t) (hs : total (mmsize N sz) b (Schedule.recvIdx b q) ≠ 0) : Receives prog q := by
  unfold program at h
  obtain ⟨bl, hbl⟩ : ∃ bl, (b0 :: b :: bs).getLast? = some bl := ⟨_, List.getLast?_eq_some_getLast (by simp)⟩
  rw [hbl] at h
  dsimp only at h
  split at h
  · cases h
    obtain ⟨pre, buf, n, r, e⟩ := posts_receives (mmsize N sz) b t q hne hs _ (recvOrder_mem N t q ht hq) 1
    rw [blocksCode, blockCode, e]
    refine ⟨copyInCode N sz kind b0 t ++ pre, buf, n, ?_, ?_, ?_⟩
    rotate_left
    · simp only [if_true, List.nil_append, List.append_assoc, List.cons_append]
      rfl
    · simp
  · cases h

/-- Sum with a positive term. -/
theorem total_pos (sz : Nat → Nat) (b : Schedule.Block) (ns : List Nat) (n : Nat) (hn : n ∈ ns)
    (h : 0 < lineSize sz b n) : total sz b ns ≠ 0 := by
  unfold total
  induction ns with
  | nil => cases hn
  | cons k ns ih =>
    rw [List.map_cons, List.sum_cons]
    rcases List.mem_cons.1 hn with e | e
    · subst e; omega
    · have := ih e; omega

/-- The first step of an allgather: process 0 receives from process 1 and the other way round. -/
theorem gather_receives (lb p t : Nat) (hp : 0 < p) (hlb : 2 ≤ lb) (ht : t < 2) (sz : Nat → Nat)
    (hsz : 0 < sz (1 - t)) :
    total (mmsize lb sz) (Recursive.gatherBlock lb 1 p t) (Schedule.recvIdx (Recursive.gatherBlock lb 1 p t) (1 - t)) ≠
      0 := by
  have hget : (Recursive.gatherBlock lb 1 p t)[1 - t]? = some
      { frac := 1 - t, sendto := Recursive.gatherSend 1 (1 * (p + 1)) p t (1 - t),
        recvfrom := Recursive.gatherRecv 1 (1 * (p + 1)) t (1 - t) } := by
    unfold Recursive.gatherBlock Recursive.mk
    rw [List.getElem?_map, List.getElem?_range (by omega)]
    rfl
  apply total_pos _ _ _ (1 - t)
  · unfold Schedule.recvIdx
    rw [List.mem_map]
    refine ⟨(⟨1 - t, Recursive.gatherSend 1 (1 * (p + 1)) p t (1 - t),
        Recursive.gatherRecv 1 (1 * (p + 1)) t (1 - t), [], []⟩, 1 - t), ?_, rfl⟩
    · rw [List.mem_filter]
      refine ⟨?_, ?_⟩
      · rw [List.mk_mem_zipIdx_iff_getElem?]
        exact hget
      · have ht' : t = 0 ∨ t = 1 := by omega
        rcases ht' with rfl | rfl
        · have : Recursive.gatherRecv 1 (1 * (p + 1)) 0 (1 - 0) = [(1, 1)] := by
            unfold Recursive.gatherRecv Recursive.partner Recursive.partnerIndex
            have h1 : 1 / (p + 1) = 0 := Nat.div_eq_of_lt (by omega)
            have h2 : (1 : Nat) % (p + 1) = 1 := Nat.mod_eq_of_lt (by omega)
            simp [h1, h2]
          dsimp only
          rw [this]
          decide
        · have : Recursive.gatherRecv 1 (1 * (p + 1)) 1 (1 - 1) = [(0, 0)] := by
            unfold Recursive.gatherRecv Recursive.partner Recursive.partnerIndex
            have h1 : 1 / (p + 1) = 0 := Nat.div_eq_of_lt (by omega)
            have h3 : p % (p + 1) = p := Nat.mod_eq_of_lt (by omega)
            have h4 : 1 + (p - 1 + 1) = p + 1 := by omega
            simp [h1, h3, h4]
          dsimp only
          rw [this]
          decide
  · unfold lineSize
    rw [hget]
    dsimp only
    unfold mmsize
    rw [Nat.mod_eq_of_lt (by omega)]
    exact hsz

end ExtMpi.Requests
