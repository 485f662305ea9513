import Verif.Lemmas.ClusterSchedules
import Verif.Props.RawCodeCyclic
/-! Messages of the steps of the cyclic reductions. -/
namespace ExtMpi.TasksNode
open RawCode Schedule RankPerm CyclicReduce

theorem idx_nil (q : Nat) : recvIdx [] q = [] ∧ sendIdx [] q = [] := ⟨rfl, rfl⟩

/-- If sent and received lines match, the received ones determine the messages. -/
theorem steps_of_matched {C : (Nat → Nat → Prop) → Prop} {N : Nat} {ls : Nat → List Block}
    (hlen : ∃ L, ∀ a, a < N → (ls a).length = L) (hgood : ∀ a, a < N → ∀ b, b ∈ ls a → Good N b) (hm : Matched N ls)
    (hC : ∀ k, ∃ P, C P ∧ ∀ a q, a < N → q < N → a ≠ q → (recvIdx ((ls q).getD k []) a ≠ [] ↔ P a q)) : Steps C N ls := by
  refine ⟨hlen, fun k => ?_, hgood⟩
  obtain ⟨P, h1, h2⟩ := hC k
  refine ⟨P, h1, fun a q ha hq hne => ⟨h2 a q ha hq hne, ?_⟩⟩
  rw [← h2 a q ha hq hne]
  obtain ⟨L, hL⟩ := hlen
  dsimp only
  have hla := hL a ha
  have hlq := hL q hq
  by_cases hk : k < L
  · have h3 := hm k a q _ _ ha hq hne (List.getElem?_eq_getElem (by omega)) (List.getElem?_eq_getElem (by omega))
    rw [List.getD_eq_getElem?_getD, List.getD_eq_getElem?_getD, List.getElem?_eq_getElem (by omega : k < (ls a).length),
      List.getElem?_eq_getElem (by omega : k < (ls q).length), Option.getD_some, Option.getD_some, Ne, Ne,
      ← List.length_eq_zero_iff, h3, List.length_eq_zero_iff]
  · rw [List.getD_eq_getElem?_getD, List.getD_eq_getElem?_getD, List.getElem?_eq_none (by omega),
      List.getElem?_eq_none (by omega)]
    simp [idx_nil]

theorem shift_dist (N : Nat) (F : Nat → Prop) : Shift N fun a q => F (Cyclic.dist N a q) := by
  intro a q a' q' ha hq ha' hq' h
  dsimp only
  rw [dist_mod ha hq, dist_mod ha' hq', h]

theorem shift_back (N : Nat) (F : Nat → Prop) : Shift N fun a q => F (Cyclic.dist N q a) := by
  intro a q a' q' ha hq ha' hq' h
  have e : Cyclic.dist N q a = Cyclic.dist N q' a' := by
    rw [dist_mod hq ha, dist_mod hq' ha']
    rw [dist_cases ha hq, dist_cases ha' hq'] at h
    rw [dist_cases hq ha, dist_cases hq' ha']
    split at h <;> split at h <;> split <;> split <;> omega
  dsimp only
  rw [e]

theorem cquiet_firstBlock (N t : Nat) : Quiet (firstBlock N t) := by
  intro l hl e he
  obtain ⟨x, _, rfl⟩ := List.mem_map.1 hl
  rw [List.nil_append] at he
  rw [List.mem_singleton.1 he]

theorem cquiet_lastBlock (S : Nat) (fr : Nat → Nat) : Quiet (lastBlock S fr) := by
  intro l hl e he
  obtain ⟨x, _, rfl⟩ := List.mem_map.1 hl
  dsimp only at he
  rw [List.append_nil] at he
  split at he
  · rw [List.mem_singleton.1 he]
  · cases he

theorem cquiet_scatterReduce (S p : Nat) (fr : Nat → Nat) : Quiet (scatterReduce S p fr) := by
  intro l hl e he
  obtain ⟨x, _, rfl⟩ := List.mem_map.1 hl
  cases he

theorem good_scatterBlock {N S p t : Nat} (hN : 0 < N) (hpl : Plain (scatterBlock N (chunk S p) S p t fun line => (line + t) % N)) :
    Good N (scatterBlock N (chunk S p) S p t fun line => (line + t) % N) := by
  intro l hl e he
  refine ⟨hpl l hl e he, ?_⟩
  obtain ⟨x, _, rfl⟩ := List.mem_map.1 hl
  dsimp only at he
  split at he
  · dsimp only at he
    rw [List.append_nil] at he
    split at he
    · rw [List.mem_singleton.1 he]
      dsimp only
      exact_mod_cast Nat.mod_lt _ hN
    · cases he
  · dsimp only at he
    rw [List.nil_append, List.mem_singleton] at he
    rw [he]
    exact Int.tmod_lt_of_pos _ (by omega)

/-- The reduction steps. -/
theorem steps_scatter (N : Nat) (hN : 0 < N) (ps : List Nat) : ∀ S, 0 < S → S ≤ N →
    Steps (Shift N) N fun t => scatterSteps N t (fun line => (line + t) % N) S S ps := by
  induction ps with
  | nil => intro _ _ _; exact .nil (shift_false N) N
  | cons p ps ih =>
    intro S hS hSN
    have hx := messages_exchange (scatter_exchange N S p hS hSN)
    refine Steps.cons (shift_back N fun d => Cyclic.msgLen (chunk S p) S d ≠ 0) hx (fun t ht => ?_)
      (Steps.cons (shift_false N) (messages_quiet fun t _ => cquiet_scatterReduce S p _)
        (fun t _ => (cquiet_scatterReduce S p _).good) (ih (chunk S p) (chunk_pos S p) (Nat.le_trans (chunk_le S p hS) hSN)))
    exact good_scatterBlock hN (scatter_plain N t (fun line => (line + t) % N) (p :: ps) S hS hSN _ List.mem_cons_self)

theorem cBlocks_length (u : List Bool) (N m t : Nat) (ps : List Nat) : ∀ G, (cBlocks u N m t G ps).length = 2 * ps.length := by
  induction ps with
  | nil => intro _; rfl
  | cons p ps ih => intro G; rw [cBlocks, List.length_cons, List.length_cons, ih, List.length_cons]; omega

theorem cBlocks_recv (u : List Bool) (N m : Nat) (hm : 0 < m) (ps : List Nat) : ∀ G, 0 < G → ∀ k, ∃ F : Nat → Prop,
    ∀ a q, a < N → q < N → (recvIdx ((cBlocks u N m q G ps).getD k []) a ≠ [] ↔ F (Cyclic.dist N a q)) := by
  induction ps with
  | nil => intro _ _ k; exact ⟨fun _ => False, fun a q _ _ => by rw [cBlocks]; simp [idx_nil]⟩
  | cons p ps ih =>
    intro G hG k
    match k with
    | 0 =>
      refine ⟨fun d => ∃ n, n < m * min (G * (p + 1)) N ∧ (u[n]? == some true) = true ∧ m * G ≤ n ∧ n / (m * G) * G = d,
        fun a q ha hq => ?_⟩
      rw [recvIdx_ne_nil]
      have hlt : ∀ n, n < m * min (G * (p + 1)) N → n < m * N := fun n hn =>
        Nat.lt_of_lt_of_le hn (Nat.mul_le_mul_left m (Nat.min_le_right _ _))
      constructor
      · rintro ⟨l, hl, e, he, h2⟩
        obtain ⟨n, h3, h4, rfl⟩ := mem_comp hl
        have := (recv_comp u N m G (m * min (G * (p + 1)) N) p a q n hm hG ha hq (hlt n h3)).1
          (List.any_eq_true.2 ⟨e, he, by simpa using h2⟩)
        exact ⟨n, h3, h4, this⟩
      · rintro ⟨n, h3, h4, h5⟩
        obtain ⟨e, he, h6⟩ := List.any_eq_true.1
          ((recv_comp u N m G (m * min (G * (p + 1)) N) p a q n hm hG ha hq (hlt n h3)).2 h5)
        exact ⟨_, List.mem_map.2 ⟨n, List.mem_filter.2 ⟨List.mem_range.2 h3, h4⟩, rfl⟩, e, he, by simpa using h6⟩
    | 1 =>
      refine ⟨fun _ => False, fun a q ha hq => ?_⟩
      rw [recvIdx_ne_nil, iff_false]
      rintro ⟨l, hl, e, he, h2⟩
      obtain ⟨n, h3, h4, rfl⟩ := mem_comp hl
      cases he
    | k + 2 => exact ih (G * (p + 1)) (Nat.mul_pos hG (by omega)) k

theorem cBlocks_bound (u : List Bool) (N m t : Nat) (hN : 0 < N) (ps : List Nat) : ∀ G b, b ∈ cBlocks u N m t G ps →
    ∀ l, l ∈ b → ∀ e, e ∈ l.sendto ++ l.recvfrom → e.1 < (N : Int) := by
  induction ps with
  | nil => intro _ b hb; cases hb
  | cons p ps ih =>
    intro G b hb
    rw [cBlocks] at hb
    rcases List.mem_cons.1 hb with rfl | hb
    · intro l hl e he
      obtain ⟨n, _, _, rfl⟩ := mem_comp hl
      rcases List.mem_append.1 he with he | he
      · obtain ⟨e', he', rfl⟩ := List.mem_map.1 he
        have he' := (List.mem_filter.1 he').1
        obtain ⟨i, _, rfl⟩ := List.mem_map.1 he'
        have := Int.tmod_lt_of_pos ((N : Int) + t - ((i : Int) + 1) * G) (b := (N : Int)) (by omega)
        split <;> exact this
      · obtain ⟨e', he', rfl⟩ := List.mem_map.1 he
        unfold gKeep gLine at he'
        dsimp only at he'
        split at he'
        · cases he'
        · rw [List.mem_singleton.1 he']
          dsimp only
          exact_mod_cast Nat.mod_lt _ hN
    rcases List.mem_cons.1 hb with rfl | hb
    · intro l hl e he
      obtain ⟨n, _, _, rfl⟩ := mem_comp hl
      cases he
    · exact ih _ b hb

/-- The steps after the reduction steps. -/
theorem steps_tail {N m : Nat} (hN : 0 < N) (hm : 0 < m) {ports : List Nat} {tl : Nat → List Block} {u : List Bool}
    (htl : ∀ t, tl t = cBlocks u N m t 1 ports ++
      [comp (m * N) (fun n => u[n]? == some true) fun n => renumberLine u (lLine N m t n)])
    (hlow : ∀ t b, t < N → b ∈ tl t → ∀ l, l ∈ b → ∀ e, e ∈ l.sendto ++ l.recvfrom → -1 ≤ e.1)
    (hmat : Matched N tl) : Steps (Shift N) N tl := by
  have hquiet : ∀ t, Quiet (comp (m * N) (fun n => u[n]? == some true) fun n => renumberLine u (lLine N m t n)) := by
    intro t l hl e he
    obtain ⟨n, _, _, rfl⟩ := mem_comp hl
    rcases List.mem_append.1 he with he | he
    · unfold renumberLine lLine at he
      simp only at he
      split at he
      · rw [List.map_singleton, List.mem_singleton] at he
        rw [he]; rfl
      · cases he
    · cases he
  refine steps_of_matched ⟨2 * ports.length + 1, fun a _ => by rw [htl, List.length_append, cBlocks_length]; rfl⟩
    (fun a ha b hb l hl e he => ?_) hmat fun k => ?_
  · refine ⟨by have := hlow a b ha hb l hl e he; omega, ?_⟩
    rw [htl] at hb
    rcases List.mem_append.1 hb with hb | hb
    · exact cBlocks_bound u N m a hN ports 1 b hb l hl e he
    · rw [List.mem_singleton.1 hb] at hl
      have := hquiet a l hl e he
      omega
  · by_cases hk : k < 2 * ports.length
    · obtain ⟨F, hF⟩ := cBlocks_recv u N m hm ports 1 (by omega) k
      refine ⟨_, shift_dist N F, fun a q ha hq _ => ?_⟩
      rw [← hF a q ha hq, htl, List.getD_eq_getElem?_getD, List.getD_eq_getElem?_getD,
        List.getElem?_append_left (by rw [cBlocks_length]; exact hk)]
    · refine ⟨_, shift_false N, fun a q ha hq _ => ?_⟩
      rw [htl, List.getD_eq_getElem?_getD, List.getElem?_append_right (by rw [cBlocks_length]; omega), cBlocks_length]
      cases k - 2 * ports.length with
      | zero => simp [(hquiet q).recvIdx]
      | succ j => simp [idx_nil]

end ExtMpi.TasksNode
