import Verif.Lemmas.Schedule
import Verif.Spec.Collective
/-! A schedule that runs to completion has matching sends and receives. -/
namespace ExtMpi.Schedule

theorem deliver_length {V : Type} [Add V] (b : Block) (node q : Nat) (msg : List (Option Nat × V))
    (v v' : Nat → V) (h : deliver b node q msg v = some v') : msg.length = (recvIdx b q).length := by
  unfold deliver at h
  cases hr : recvIdx b q with
  | nil =>
    rw [hr] at h
    by_cases hm : msg.isEmpty = true
    · simpa using hm
    · simp [hm] at h
  | cons n0 ns =>
    rw [hr] at h
    by_cases hm : n0 :: ns = List.range' n0 (ns.length + 1) ∧
        msg.map Prod.fst = (List.range' n0 (ns.length + 1)).map (fracOf b)
    · have := congrArg List.length hm.2
      simpa using this
    · simp only [if_neg hm] at h
      cases h

theorem fold_deliver {V : Type} [Add V] (b : Block) (node : Nat) (msgs : Nat → List (Option Nat × V))
    (qs : List Nat) (v v' : Nat → V)
    (h : qs.foldlM (fun v q => if q = node then some v else deliver b node q (msgs q) v) v = some v') :
    ∀ q, q ∈ qs → q ≠ node → (msgs q).length = (recvIdx b q).length := by
  induction qs generalizing v with
  | nil => intro q hq; cases hq
  | cons q0 qs ih =>
    rw [List.foldlM_cons] at h
    intro q hq hne
    by_cases hn : q0 = node
    · rw [if_pos hn] at h
      rcases List.mem_cons.1 hq with e | e
      · exact absurd (e.trans hn) hne
      · exact ih v h q e hne
    · rw [if_neg hn] at h
      cases hd : deliver b node q0 (msgs q0) v with
      | none => rw [hd] at h; cases h
      | some v1 =>
        rw [hd] at h
        rcases List.mem_cons.1 hq with e | e
        · rw [e]; exact deliver_length _ _ _ _ _ _ hd
        · exact ih v1 h q e hne

theorem nodeStep_matched {V : Type} [Add V] (N : Nat) (bs : Nat → Block) (s : Nat → Nat → V) (t : Nat)
    (v : Nat → V) (ht : t < N) (h : nodeStep N bs s t = some v) (q : Nat) (hq : q < N) (hne : q ≠ t) :
    (sendIdx (bs q) t).length = (recvIdx (bs t) q).length := by
  unfold nodeStep recvAll at h
  have h := (Option.ite_none_right_eq_some.1 h).2
  obtain ⟨v1, h1, _⟩ := Option.map_eq_some_iff.1 h
  have := fold_deliver _ _ _ _ _ _ h1 q (mem_order N t q ht hq) hne
  rw [← this]
  simp [message]

theorem Run.matched {V : Type} [Add V] {N : Nat} {p : Nat → List Block} {s s' : Nat → Nat → V}
    (h : Run N p s s') : Matched N p := by
  induction h with
  | done h =>
    intro m q t bq bt hq ht hne h1
    rw [h q hq] at h1; cases h1
  | step hd tl s1 h1 h2 _ ih =>
    intro m q t bq bt hq ht hne e1 e2
    rw [h1 q hq] at e1
    rw [h1 t ht] at e2
    cases m with
    | zero =>
      cases Option.some.inj e1
      cases Option.some.inj e2
      exact nodeStep_matched N hd _ t _ ht (h2 t ht) q hq hne
    | succ m => exact ih m q t bq bt hq ht hne e1 e2

theorem Exec.matched {V O : Type} [Add V] {N : Nat} {co : Block → (Nat → V) → O} {sched : Nat → List Block}
    {inp junk : Nat → Nat → V} {out : Nat → O} (h : Exec N co sched inp junk out) :
    Matched N fun t => (sched t).tail := by
  obtain ⟨b0, bs, _, _, h1, h2, _⟩ := h
  intro m q t bq bt hq ht hne e1 e2
  simp only [(h1 q hq).1] at e1
  simp only [(h1 t ht).1] at e2
  exact h2.matched m q t bq bt hq ht hne e1 e2

/-- One good execution settles all of them. -/
theorem Computes.of {V O : Type} [Add V] {N : Nat} {co : Block → (Nat → V) → O} {sched : Nat → List Block}
    {post : (Nat → Nat → V) → (Nat → O) → Prop}
    (hcongr : ∀ inp out out', (∀ t, t < N → out t = out' t) → post inp out → post inp out')
    (h : ∀ inp junk, ∃ out, Exec N co sched inp junk out ∧ post inp out) :
    Computes N co sched post := by
  intro inp junk
  obtain ⟨out, h1, h2⟩ := h inp junk
  exact ⟨⟨out, h1⟩, fun out' h' => hcongr inp out out' (Exec.det h1 h') h2⟩

end ExtMpi.Schedule
