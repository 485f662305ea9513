import Verif.Lemmas.OptimiseDirect
/-! # Execution of the programs after the passes -/
namespace ExtMpi.Optimise
open RawCode Schedule

/-! ## The code of a step -/

/-- Without barriers, operands translated. -/
def clean (G : Addr → Nat → Addr) (ls : List Instr) : List Instr := (noBarriers ls).map (mapAddr G)

theorem clean_append (G : Addr → Nat → Addr) (A B : List Instr) : clean G (A ++ B) = clean G A ++ clean G B := by
  unfold clean noBarriers
  rw [List.filter_append, List.map_append]

theorem clean_barriers (G : Addr → Nat → Addr) (A : List Instr) (h : Barriers A) : clean G A = [] := by
  unfold clean noBarriers
  rw [List.filter_eq_nil_iff.2 fun l hl => by rw [h l hl]; decide]
  rfl

theorem clean_keep (G : Addr → Nat → Addr) (A : List Instr) (h : ∀ l, l ∈ A → l ≠ .barrier) : clean G A = A.map (mapAddr G) := by
  unfold clean noBarriers
  rw [List.filter_eq_self.2 fun l hl => by simpa using h l hl]

/-- The translation `G` puts the rows to the addresses `ρ`. -/
def Maps (sz : Nat → Nat) (L : Nat) (D : Nat → Nat → Prop) (ρ : Nat → Nat → Addr) (G : Addr → Nat → Addr) : Prop :=
  ∀ r k n, 0 < n → lo sz k + n ≤ L → Cells D r (lo sz k) n → G (flat L r (lo sz k)) n = ρ r (lo sz k)

section
variable {N : Nat} {bs : Nat → Block} {Dl : Nat → Nat → Prop} {W : Nat → Prop} {m0 n0 len : Nat → Nat → Nat} {dr : Nat → Nat}
  {sz : Nat → Nat}

theorem Good.headRecv (h : Good N bs Dl W m0 n0 len dr) {q t : Nat} (hN : 0 < N) (ht : t < N)
    (hq : q ∈ froms N (mmsize N sz) (bs t) t) :
    sh (off (mmsize N sz) (bs t) ((recvIdx (bs t) q).headD 0)) = flat (lo sz N) (n0 q t / N) (lo sz (n0 q t % N)) := by
  obtain ⟨a1, a2, a3, a4⟩ := h.from ht hq
  have hh : (recvIdx (bs t) q).headD 0 = n0 q t ∧ n0 q t ≤ (bs t).length := by
    have hlt := recvIdx_lt (bs t) q (n0 q t)
    rw [h.ex.recv q t a1 ht a2] at hlt ⊢
    obtain ⟨l, hl⟩ : ∃ l, len q t = l + 1 := ⟨len q t - 1, by omega⟩
    rw [hl, List.range'_succ] at hlt ⊢
    exact ⟨rfl, Nat.le_of_lt (hlt List.mem_cons_self)⟩
  rw [hh.1, off_row ((h.shape t ht).lay sz) hN hh.2]
  rfl

theorem Good.headSend (h : Good N bs Dl W m0 n0 len dr) {q t : Nat} (hN : 0 < N) (ht : t < N)
    (hq : q ∈ tos N (mmsize N sz) (bs t) t) :
    sh (off (mmsize N sz) (bs t) ((sendIdx (bs t) q).headD 0)) = flat (lo sz N) (m0 t q / N) (lo sz (m0 t q % N)) := by
  obtain ⟨a1, a2, a3, a4⟩ := h.to ht hq
  have hh : (sendIdx (bs t) q).headD 0 = m0 t q ∧ m0 t q ≤ (bs t).length := by
    have hlt := sendIdx_lt (bs t) q (m0 t q)
    rw [h.ex.send t q ht a1 (Ne.symm a2)] at hlt ⊢
    obtain ⟨l, hl⟩ : ∃ l, len t q = l + 1 := ⟨len t q - 1, by omega⟩
    rw [hl, List.range'_succ] at hlt ⊢
    exact ⟨rfl, Nat.le_of_lt (hlt List.mem_cons_self)⟩
  rw [hh.1, off_row ((h.shape t ht).lay sz) hN hh.2]
  rfl

theorem mlen_le {m0 len : Nat} (hr : m0 % N + len ≤ N) : lo sz (m0 % N) + mlen N sz m0 len ≤ lo sz N := by
  have h1 : lo sz (m0 % N) ≤ lo sz (m0 % N + len) := lo_mono sz (by omega)
  have h2 : lo sz (m0 % N + len) ≤ lo sz N := lo_mono sz hr
  unfold mlen
  omega

theorem Good.straight (h : Good N bs Dl W m0 n0 len dr) {t : Nat} (ht : t < N) : Straight N (bs t) t :=
  ⟨fun q hq hne => ⟨_, _, h.ex.send t q ht hq (Ne.symm hne)⟩, fun q hq hne => h.ex.red q t hq ht hne, h.cred t ht⟩

theorem zip_map {α : Type} (L : List Nat) (k : Nat) (f : Nat × Nat → α) (g : Nat → α) (h : ∀ q k, q ∈ L → f (q, k) = g q) :
    (L.zipIdx k).map f = L.map g := by
  induction L generalizing k with
  | nil => rfl
  | cons q L ih =>
    rw [List.zipIdx_cons, List.map_cons, List.map_cons, h q k List.mem_cons_self,
      ih _ fun q' k' h' => h q' k' (List.mem_cons_of_mem _ h')]

theorem clean_recvs (h : Good N bs Dl W m0 n0 len dr) (hN : 0 < N) {t : Nat} (ht : t < N) (st : Nat → Nat) (lead : List Instr)
    (ρ : Nat → Nat → Addr) (G : Addr → Nat → Addr) (hG : Maps sz (lo sz N) (cells N sz (Dl t)) ρ G) :
    clean G ((segOf N (mmsize N sz) st t lead (bs t)).recvs.map RMsg.direct) =
      (froms N (mmsize N sz) (bs t) t).map fun q =>
        .irecv (ρ (n0 q t / N) (lo sz (n0 q t % N))) (mlen N sz (m0 q t) (len q t)) q := by
  rw [clean_keep _ _ fun l hl => by obtain ⟨x, _, rfl⟩ := List.mem_map.1 hl; intro e; cases e]
  show ((((froms N (mmsize N sz) (bs t) t).zipIdx 1).map _).map RMsg.direct).map (mapAddr G) = _
  rw [List.map_map, List.map_map]
  apply zip_map
  intro q k hq
  obtain ⟨a1, a2, a3, a4⟩ := h.from ht hq
  have e := h.same q t a1 ht a2 a4
  have emlen : mlen N sz (n0 q t) (len q t) = mlen N sz (m0 q t) (len q t) := by unfold mlen; rw [e]
  show Instr.irecv (G (sh (off (mmsize N sz) (bs t) ((recvIdx (bs t) q).headD 0))) (total (mmsize N sz) (bs t) (recvIdx (bs t) q)))
    (total (mmsize N sz) (bs t) (recvIdx (bs t) q)) q = _
  rw [h.headRecv hN ht hq, h.recvTotal a1 ht a2, hG _ _ _ (by omega)
    (by rw [← emlen]; exact mlen_le (by rw [e]; exact h.srow q t a1 ht a2 a4)) (h.recvCells a1 ht a2 a4)]

theorem clean_sends (h : Good N bs Dl W m0 n0 len dr) (hN : 0 < N) {t : Nat} (ht : t < N) (st : Nat → Nat) (lead : List Instr)
    (ρ : Nat → Nat → Addr) (G : Addr → Nat → Addr) (hG : Maps sz (lo sz N) (cells N sz (Dl t)) ρ G) :
    clean G ((segOf N (mmsize N sz) st t lead (bs t)).sends.map SMsg.direct) =
      (tos N (mmsize N sz) (bs t) t).map fun q =>
        .isend (ρ (m0 t q / N) (lo sz (m0 t q % N))) (mlen N sz (m0 t q) (len t q)) q := by
  rw [clean_keep _ _ fun l hl => by obtain ⟨x, _, rfl⟩ := List.mem_map.1 hl; intro e; cases e]
  show ((((tos N (mmsize N sz) (bs t) t).zipIdx _).map _).map SMsg.direct).map (mapAddr G) = _
  rw [List.map_map, List.map_map]
  apply zip_map
  intro q k hq
  obtain ⟨a1, a2, a3, a4⟩ := h.to ht hq
  show Instr.isend (G (sh (off (mmsize N sz) (bs t) ((sendIdx (bs t) q).headD 0))) (total (mmsize N sz) (bs t) (sendIdx (bs t) q)))
    (total (mmsize N sz) (bs t) (sendIdx (bs t) q)) q = _
  rw [h.headSend hN ht hq, h.sendTotal ht a1 (Ne.symm a2), hG _ _ _ (by omega)
    (mlen_le (h.srow t q ht a1 (Ne.symm a2) a4)) (h.sendCells ht a1 (Ne.symm a2) a4)]

/-- The reductions of a step. -/
theorem clean_reds (h : Good N bs Dl W m0 n0 len dr) (hN : 0 < N) {t : Nat} (ht : t < N) (hok : reduceOk (bs t) = true)
    {st : Nat → Nat} (hst : Starts st) (ρ : Nat → Nat → Addr) (G : Addr → Nat → Addr)
    (hG : Maps sz (lo sz N) (cells N sz (Dl t)) ρ G) :
    ∃ us, Joined (tsOf N sz (bs t).zipIdx) us ∧
      clean G (join ((reductions (mmsize N sz) (bs t)).map (fl st))) = us.map (Red.instr ρ (dr t)) := by
  have hred := h.mod hN ht hok
  have hin := red_in (sz := sz) hN hred
  have hle : ∀ u, u ∈ tsOf N sz (bs t).zipIdx → u.pos + u.size ≤ lo sz N ∧ ∃ k, u.pos = lo sz k := by
    intro u hu
    obtain ⟨x, _, r, _, _, rfl⟩ := mem_tsOf hu
    exact ⟨lo_end sz (Nat.mod_lt _ hN), _, rfl⟩
  obtain ⟨us, h1, h2⟩ := joined_flat (lo sz N) (dr t) (tsOf N sz (bs t).zipIdx) (fun u hu => ⟨(hin u hu).1, (hle u hu).1⟩)
    (red_sorted (bs t) 0 hred)
  refine ⟨us, h2, ?_⟩
  rw [reds_eq hN ((h.shape t ht).lay sz) (fun n l hl => by rw [(h.shape t ht n l hl).1, Nat.mod_mod]) hok hred st hst.zero, h1,
    clean_keep _ _ fun l hl => by obtain ⟨x, _, rfl⟩ := List.mem_map.1 hl; intro e; cases e]
  rw [List.map_map]
  apply List.map_congr_left
  intro u hu
  have g1 := h2.prop (fun u => u.In (cells N sz (Dl t)) (dr t)) (by
    rintro a x n k ⟨a1, a2, a3, a4⟩ ⟨b1, b2, b3, b4⟩
    exact ⟨by dsimp only at *; omega, a2, a3.append b3, a4.append b4⟩) hin u hu
  have g2 := h2.prop (fun u => u.pos + u.size ≤ lo sz N ∧ ∃ k, u.pos = lo sz k) (by
    rintro a x n k ⟨a1, a2⟩ ⟨b1, b2⟩
    exact ⟨by dsimp only at *; omega, a2⟩) hle u hu
  obtain ⟨g3, k, g4⟩ := g2
  obtain ⟨c1, c2, c3, c4⟩ := g1
  show Instr.copy true (G (flat (lo sz N) (dr t) u.pos) u.size) (G (flat (lo sz N) u.row u.pos) u.size) u.size =
    Instr.copy true (ρ (dr t) u.pos) (ρ u.row u.pos) u.size
  rw [g4] at g3 c3 c4 ⊢
  rw [hG _ k _ c1 g3 c3, hG _ k _ c1 g3 c4]

theorem clean_seg (h : Good N bs Dl W m0 n0 len dr) (hN : 0 < N) {t : Nat} (ht : t < N) (hok : reduceOk (bs t) = true)
    {st : Nat → Nat} (hst : Starts st) {lead : List Instr} (hl : Barriers lead) (ρ : Nat → Nat → Addr) (G : Addr → Nat → Addr)
    (hG : Maps sz (lo sz N) (cells N sz (Dl t)) ρ G) :
    ∃ us, Joined (tsOf N sz (bs t).zipIdx) us ∧ clean G (segOf N (mmsize N sz) st t lead (bs t)).done =
      ((froms N (mmsize N sz) (bs t) t).map fun q =>
        .irecv (ρ (n0 q t / N) (lo sz (n0 q t % N))) (mlen N sz (m0 q t) (len q t)) q) ++
      (((tos N (mmsize N sz) (bs t) t).map fun q =>
        .isend (ρ (m0 t q / N) (lo sz (m0 t q % N))) (mlen N sz (m0 t q) (len t q)) q) ++
        (.waitall :: us.map (Red.instr ρ (dr t)))) := by
  obtain ⟨us, h1, h2⟩ := clean_reds h hN ht hok hst ρ G hG
  refine ⟨us, h1, ?_⟩
  unfold Seg.done
  rw [clean_append, clean_append, clean_append, clean_append, clean_recvs h hN ht st lead ρ G hG,
    clean_sends h hN ht st lead ρ G hG]
  rw [show clean G (segOf N (mmsize N sz) st t lead (bs t)).lead = [] from clean_barriers _ _ hl]
  rw [show clean G (join (segOf N (mmsize N sz) st t lead (bs t)).reds) = us.map (Red.instr ρ (dr t)) from h2]
  rw [show clean G [.waitall, .barrier, .barrier] = [.waitall] from rfl]
  simp only [List.nil_append, List.append_assoc, List.cons_append]
end

/-! ## All steps -/

/-- All steps of the nodes work directly in the rows. -/
inductive AllGood (N : Nat) (Dl : Nat → Nat → Prop) (W : Nat → Prop) : (Nat → List Block) → Prop
  | nil {p : Nat → List Block} : (∀ t, t < N → p t = []) → AllGood N Dl W p
  | cons {p : Nat → List Block} (hd : Nat → Block) (tl : Nat → List Block) (m0 n0 len : Nat → Nat → Nat) (dr : Nat → Nat) :
      (∀ t, t < N → p t = hd t :: tl t) → Good N hd Dl W m0 n0 len dr → AllGood N Dl W tl → AllGood N Dl W p

theorem AllGood.append {N : Nat} {Dl : Nat → Nat → Prop} {W : Nat → Prop} {p p' : Nat → List Block} (h : AllGood N Dl W p)
    (h' : AllGood N Dl W p') : AllGood N Dl W fun t => p t ++ p' t := by
  induction h with
  | @nil p hp =>
    cases h' with
    | nil hp' => exact .nil fun t ht => by rw [hp t ht, hp' t ht]; rfl
    | cons hd tl m0 n0 len dr hp' hg ha => exact .cons hd tl m0 n0 len dr (fun t ht => by rw [hp t ht, hp' t ht]; rfl) hg ha
  | cons hd tl m0 n0 len dr hp hg _ ih =>
    exact .cons hd (fun t => tl t ++ p' t) m0 n0 len dr (fun t ht => by rw [hp t ht]; rfl) hg ih

theorem AllGood.straight {N : Nat} {Dl : Nat → Nat → Prop} {W : Nat → Prop} {p : Nat → List Block} (h : AllGood N Dl W p) :
    ∀ t, t < N → ∀ b, b ∈ p t → Straight N b t := by
  induction h with
  | nil hp => intro t ht b hb; rw [hp t ht] at hb; cases hb
  | cons hd tl m0 n0 len dr hp hg _ ih =>
    intro t ht b hb
    rw [hp t ht] at hb
    rcases List.mem_cons.1 hb with rfl | hb
    · exact hg.straight ht
    · exact ih t ht b hb

variable {X : Type} [Add X]

theorem direct_blocks {N : Nat} {sz : Nat → Nat} (hN : 0 < N) {Dl : Nat → Nat → Prop} {W : Nat → Prop} {ρ : Nat → Nat → Nat → Addr}
    (hρ : ∀ t, t < N → Place (cells N sz (Dl t)) (ρ t)) (G : Nat → Addr → Nat → Addr)
    (hG : ∀ t, t < N → Maps sz (lo sz N) (cells N sz (Dl t)) (ρ t) (G t)) (st : Nat → Nat → Nat) (hst : ∀ t, t < N → Starts (st t))
    {p : Nat → List Block} (h : AllGood N Dl W p) :
    ∀ {s s' : Nat → Nat → Nat → X} (_ : Run N p s s') (first : Bool) (S : State X) (R : Nat → List Instr) (m : Nat → Mem X),
      Quiet N S (fun t => clean (G t) ((segsOf N (mmsize N sz) (st t) t first (p t)).flatMap Seg.done) ++ R t) m →
      (∀ t, t < N → RepC N sz (Dl t) (ρ t) (m t) (s t)) →
      ∃ S' m', Reach N S S' ∧ Quiet N S' R m' ∧ ∀ t, t < N → RepC N sz (Dl t) (ρ t) (m' t) (s' t) ∧
        ∀ r i, (∀ row x, cells N sz (Dl t) row x → W row → ρ t row x ≠ ⟨r, i⟩) → m' t r i = m t r i := by
  induction h with
  | @nil p hp =>
    intro s s' hrun first S R m hS hrep
    cases hrun with
    | done _ =>
      refine ⟨S, m, .refl _ _, hS.congr fun t ht => ?_, fun t ht => ⟨hrep t ht, fun _ _ _ => rfl⟩⟩
      rw [hp t ht]
      rfl
    | step hd tl s1 hp' _ _ =>
      have h1 := hp 0 hN
      rw [hp' 0 hN] at h1
      cases h1
  | @cons p hd tl m0 n0 len dr hp hg _ ih =>
    intro s s' hrun first S R m hS hrep
    cases hrun with
    | done hp' =>
      have h1 := hp 0 hN
      rw [hp' 0 hN] at h1
      cases h1
    | step hd' tl' s1 hp' hstep hrest =>
      have e : ∀ t, t < N → hd' t = hd t ∧ tl' t = tl t := by
        intro t ht
        have h1 := hp t ht
        rw [hp' t ht] at h1
        exact ⟨(List.cons.inj h1).1, (List.cons.inj h1).2⟩
      have hstep' : ∀ t, t < N → nodeStep N hd s t = some (s1 t) := by
        intro t ht
        rw [← hstep t ht]
        exact (nodeStep_congr N hd' hd s s t ht (fun q hq => (e q hq).1) (fun q hq => rfl)).symm
      have hok : ∀ t, t < N → reduceOk (hd t) = true := by
        intro t ht
        have h1 := hstep' t ht
        unfold nodeStep at h1
        exact (Option.ite_none_right_eq_some.1 h1).1
      have hus : ∀ t, ∃ us, t < N → Joined (tsOf N sz (hd t).zipIdx) us ∧
          clean (G t) (segOf N (mmsize N sz) (st t) t (if first then [] else [.barrier]) (hd t)).done =
          ((froms N (mmsize N sz) (hd t) t).map fun q =>
            .irecv (ρ t (n0 q t / N) (lo sz (n0 q t % N))) (mlen N sz (m0 q t) (len q t)) q) ++
          (((tos N (mmsize N sz) (hd t) t).map fun q =>
            .isend (ρ t (m0 t q / N) (lo sz (m0 t q % N))) (mlen N sz (m0 t q) (len t q)) q) ++
            (.waitall :: us.map (Red.instr (ρ t) (dr t)))) := by
        intro t
        by_cases ht : t < N
        · obtain ⟨us, h1, h2⟩ := clean_seg hg hN ht (hok t ht) (hst t ht) (lead := if first then [] else [.barrier])
            (by cases first
                · intro l hl; exact List.mem_singleton.1 hl
                · intro l hl; cases hl) (ρ t) (G t) (hG t ht)
          exact ⟨us, fun _ => ⟨h1, h2⟩⟩
        · exact ⟨[], fun h => absurd h ht⟩
      choose us hus using hus
      obtain ⟨S1, m1, r1, q1, c1⟩ := direct_block hN hg hρ s s1 hstep'
        (fun t q => ρ t (m0 t q / N) (lo sz (m0 t q % N))) (fun _ => []) us S
        (fun t => clean (G t) ((segsOf N (mmsize N sz) (st t) t false (tl t)).flatMap Seg.done) ++ R t) m (hg.apart hρ)
        (fun t i _ hi => by cases hi) (hg.data hρ hrep) hrep (fun t ht => (hus t ht).1) (hS.congr fun t ht => by
          rw [hp t ht, segsOf, List.flatMap_cons, clean_append, (hus t ht).2]
          simp only [List.append_assoc, List.cons_append, List.nil_append])
      obtain ⟨S2, m2, r2, q2, c2⟩ := ih (show Run N tl s1 s' from by
        exact Recursive.Run.congr hrest fun t ht => (e t ht).2.symm) false S1 R m1 q1 (fun t ht => (c1 t ht).1)
      refine ⟨S2, m2, r1.trans r2, q2, fun t ht => ⟨(c2 t ht).1, fun r i hri => ?_⟩⟩
      rw [(c2 t ht).2 r i hri, (c1 t ht).2 r i hri]
      rfl

end ExtMpi.Optimise
