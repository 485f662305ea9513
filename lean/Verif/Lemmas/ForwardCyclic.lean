import Verif.Lemmas.ForwardRows
import Verif.Lemmas.CyclicScatter
/-! The scatter made of the cyclic reduce_scatter: which lines hold data of the root. -/
namespace ExtMpi.Forward
open Schedule Rooted CyclicReduce Cyclic

/-- The exchange of a reduction step on all nodes. -/
def exRow (N S p : Nat) : Row := fun t => scatterBlock N (chunk S p) S p t fun line => (line + t) % N

/-- The reductions of a step on all nodes. -/
def redRow (N S p : Nat) : Row := fun t => scatterReduce S p fun line => (line + t) % N

/-- The reduction steps of all nodes. -/
def scatterRows (N : Nat) : Nat → List Nat → List Row
  | _, [] => []
  | S, p :: ps => exRow N S p :: redRow N S p :: scatterRows N (chunk S p) ps

/-- The last row. -/
def endRow (N : Nat) : Row := fun t => lastBlock 1 fun line => (line + t) % N

theorem mk_get (n : Nat) (f : Nat → LineD) (i : Nat) (l : LineD) (h : (Recursive.mk n f)[i]? = some l) : i < n ∧ l = f i := by
  unfold Recursive.mk at h
  rw [List.getElem?_map] at h
  by_cases hi : i < n
  · rw [List.getElem?_range hi] at h
    simp only [Option.map_some, Option.some.injEq] at h
    exact ⟨hi, h.symm⟩
  · rw [List.getElem?_eq_none (by simpa using hi)] at h
    cases h

theorem mk_at (n : Nat) (f : Nat → LineD) (i : Nat) (h : i < n) : (Recursive.mk n f)[i]? = some (f i) := by
  unfold Recursive.mk
  rw [List.getElem?_map, List.getElem?_range h]
  rfl

theorem ring_range (N t k : Nat) (ht : t < N) (h0 : 0 < k) (hk : k < N) :
    (t + k) % N < N ∧ (t + k) % N ≠ t ∧ (N + t - k) % N < N ∧ (N + t - k) % N ≠ t := by
  refine ⟨Nat.mod_lt _ (by omega), ?_, Nat.mod_lt _ (by omega), ?_⟩
  · by_cases c : t + k < N
    · rw [Nat.mod_eq_of_lt c]; omega
    · rw [Nat.mod_eq_sub_mod (by omega), Nat.mod_eq_of_lt (by omega)]; omega
  · by_cases c : N + t - k < N
    · rw [Nat.mod_eq_of_lt c]; omega
    · rw [Nat.mod_eq_sub_mod (by omega), Nat.mod_eq_of_lt (by omega)]; omega

theorem chunk_mult (j x S : Nat) (hj : 0 < j) (h1 : j ≤ x) (h2 : x < S) : 0 < x / j ∧ 0 < x / j * j ∧ x / j * j < S := by
  have h3 : 0 < x / j := (Nat.one_le_div_iff hj).2 h1
  have := Nat.div_mul_le_self x j
  exact ⟨h3, Nat.mul_pos h3 hj, by omega⟩

/-- Lines of an exchange. -/
theorem ex_line (N S p t n : Nat) (hS : 0 < S) (hSN : S ≤ N) (ht : t < N) (l : LineD) (h : (exRow N S p t)[n]? = some l) :
    n < S + (S - chunk S p) ∧ l.reducefrom = [] ∧ l.copyreducefrom = [] ∧
    ((n < S ∧ l.recvfrom = [] ∧ (l.sendto = [] ∨ ∃ e, l.sendto = [e] ∧ 0 ≤ e.1 ∧ e.1 < N ∧ e.1 ≠ t)) ∨
      (S ≤ n ∧ l.sendto = [] ∧ ∃ e, l.recvfrom = [e] ∧ 0 ≤ e.1 ∧ e.1 < N ∧ e.1 ≠ t)) := by
  obtain ⟨j, hj⟩ : ∃ j, j = chunk S p := ⟨_, rfl⟩
  have hj0 : 0 < j := hj ▸ chunk_pos S p
  have hjS : j ≤ S := hj ▸ chunk_le S p hS
  unfold exRow scatterBlock at h
  simp only [← hj] at h ⊢
  obtain ⟨hn, rfl⟩ := mk_get _ _ _ _ h
  refine ⟨hn, by split <;> rfl, by split <;> rfl, ?_⟩
  by_cases hnS : n < S
  · refine Or.inl ⟨hnS, by rw [if_pos hnS], ?_⟩
    rw [if_pos hnS]
    by_cases hc : n / j > 0
    · rw [if_pos hc]
      refine Or.inr ⟨_, rfl, ?_⟩
      have h1 : j ≤ n := by
        by_contra hx
        rw [Nat.div_eq_of_lt (by omega)] at hc
        omega
      obtain ⟨_, c1, c2⟩ := chunk_mult j n S hj0 h1 hnS
      rw [Nat.mul_comm] at c1 c2
      obtain ⟨r1, r2, _⟩ := ring_range N t _ ht c1 (by omega)
      dsimp only
      omega
    · exact Or.inl (by rw [if_neg hc])
  · refine Or.inr ⟨by omega, by rw [if_neg hnS], ?_⟩
    rw [if_neg hnS]
    refine ⟨_, rfl, ?_⟩
    dsimp only
    obtain ⟨z, hz⟩ : ∃ z, z = n - S + j := ⟨_, rfl⟩
    rw [← hz]
    obtain ⟨_, c1, c2⟩ := chunk_mult j z S hj0 (by omega) (by omega)
    obtain ⟨_, _, r1, r2⟩ := ring_range N t _ ht c1 (by omega)
    have e1 : (N : Int) + t - (j : Int) * ((z / j : Nat) : Int) = ((N + t - z / j * j : Nat) : Int) := by
      have : ((N + t - z / j * j : Nat) : Int) = (N : Int) + t - ((z / j * j : Nat) : Int) := by omega
      rw [this]; push_cast; ring
    have e2 : ((N + t - z / j * j : Nat) : Int).tmod N = (((N + t - z / j * j) % N : Nat) : Int) := rfl
    rw [e1, e2]
    omega

theorem ex_length (N S p t : Nat) : (exRow N S p t).length = S + (S - chunk S p) := by simp [exRow, scatterBlock, Recursive.mk]

theorem red_length (N S p t : Nat) : (redRow N S p t).length = S + (S - chunk S p) := by simp [redRow, scatterReduce, Recursive.mk]

/-- Lines of the reductions. -/
theorem red_line (N S p t n : Nat) (l : LineD) (h : (redRow N S p t)[n]? = some l) :
    n < S + (S - chunk S p) ∧ l.sendto = [] ∧ l.recvfrom = [] ∧ l.copyreducefrom = [] ∧
    (∀ r ∈ l.reducefrom, n < S ∧ S ≤ r ∧ r < S + (S - chunk S p)) := by
  unfold redRow scatterReduce at h
  obtain ⟨hn, rfl⟩ := mk_get _ _ _ _ h
  refine ⟨hn, rfl, rfl, rfl, ?_⟩
  intro r hr
  dsimp only at hr
  split at hr
  · rename_i hx
    have := List.mem_range'_1.1 (List.mem_of_mem_filter hr)
    omega
  · cases hr

/-- Sources of a line that collects. -/
theorem red_sources (N S p t n : Nat) (hS : 0 < S) (hSN : S ≤ N) (hn : n < chunk S p) (l : LineD) (h : (redRow N S p t)[n]? = some l) (r : Nat) :
    r ∈ l.reducefrom ↔ ∃ y, chunk S p ≤ y ∧ y < S ∧ y % chunk S p = n ∧ r = S - chunk S p + y := by
  obtain ⟨j, hj⟩ : ∃ j, j = chunk S p := ⟨_, rfl⟩
  have hj0 : 0 < j := hj ▸ chunk_pos S p
  have hjS : j ≤ S := hj ▸ chunk_le S p hS
  unfold redRow scatterReduce at h
  simp only [← hj] at h hn ⊢
  obtain ⟨_, rfl⟩ := mk_get _ _ _ _ h
  dsimp only
  rw [if_pos (by omega), List.mem_filter, List.mem_range'_1]
  constructor
  · rintro ⟨⟨h1, h2⟩, h3⟩
    refine ⟨r - S + j, by omega, by omega, ?_, by omega⟩
    unfold scatterNum at h3
    rw [if_pos (by omega), if_neg (by omega), beq_iff_eq, ← hj] at h3
    have hm : (r - S + j) % j < j := Nat.mod_lt _ hj0
    exact (add_mod_inj N t _ _ (by omega) (by omega) h3).symm
  · rintro ⟨y, h1, h2, h3, rfl⟩
    refine ⟨by omega, ?_⟩
    unfold scatterNum
    rw [if_pos (by omega), if_neg (by omega), beq_iff_eq, ← hj]
    have : S - j + y - S + j = y := by omega
    rw [this, h3]

/-! ### Conditions -/

theorem ex_recvNodup (N S p t : Nat) (hS : 0 < S) (hSN : S ≤ N) (ht : t < N) :
    ∀ l ∈ exRow N S p t, (l.recvfrom.map Prod.fst).Nodup := by
  intro l hl
  obtain ⟨n, hn⟩ := List.getElem?_of_mem hl
  rcases (ex_line N S p t n hS hSN ht l hn).2.2.2 with ⟨_, h, _⟩ | ⟨_, _, e, h, _⟩
  · rw [h]; simp
  · rw [h]; simp

theorem ex_self (N S p t : Nat) (hS : 0 < S) (hSN : S ≤ N) (ht : t < N) : recvIdx (exRow N S p t) t = [] ∧ sendIdx (exRow N S p t) t = [] := by
  constructor
  · rw [List.eq_nil_iff_forall_not_mem]
    intro n hn
    obtain ⟨l, hl, e, he, h1⟩ := (mem_recvIdx _ _ _).mp hn
    rcases (ex_line N S p t n hS hSN ht l hl).2.2.2 with ⟨_, h, _⟩ | ⟨_, _, e', h, h2⟩
    · rw [h] at he; cases he
    · rw [h, List.mem_singleton] at he
      subst he
      exact h2.2.2 h1
  · rw [List.eq_nil_iff_forall_not_mem]
    intro n hn
    obtain ⟨l, hl, e, he, h1⟩ := mem_sendIdx _ _ _ hn
    rcases (ex_line N S p t n hS hSN ht l hl).2.2.2 with ⟨_, _, h | ⟨e', h, h2⟩⟩ | ⟨_, h, _⟩
    · rw [h] at he; cases he
    · rw [h, List.mem_singleton] at he
      subst he
      exact h2.2.2 h1
    · rw [h] at he; cases he

theorem ex_ok (N S p : Nat) (hS : 0 < S) (hSN : S ≤ N) : exchangeOk N (exRow N S p) = true := by
  unfold exchangeOk
  rw [List.all_eq_true]
  intro t ht
  have ht := List.mem_range.mp ht
  rw [Bool.and_eq_true, List.all_eq_true, List.all_eq_true]
  constructor
  · intro l hl
    obtain ⟨n, hn⟩ := List.getElem?_of_mem hl
    rw [Bool.and_eq_true, List.all_eq_true, List.all_eq_true]
    rcases (ex_line N S p t n hS hSN ht l hn).2.2.2 with ⟨_, h1, h2 | ⟨e, h2, h3⟩⟩ | ⟨_, h1, e, h2, h3⟩
    · rw [h1, h2]; exact ⟨fun _ h => (by cases h), fun _ h => (by cases h)⟩
    · rw [h1, h2]
      refine ⟨fun e' h => ?_, fun _ h => (by cases h)⟩
      rw [List.mem_singleton] at h
      subst h
      exact decide_eq_true h3
    · rw [h1, h2]
      refine ⟨fun _ h => (by cases h), fun e' h => ?_⟩
      rw [List.mem_singleton] at h
      subst h
      exact decide_eq_true h3
  · intro q hq
    have hq := List.mem_range.mp hq
    rw [recvEnt_eq _ _ (ex_recvNodup N S p q hS hSN hq), beq_iff_eq]
    by_cases hqt : t = q
    · subst hqt
      rw [(ex_self N S p t hS hSN ht).1, (ex_self N S p t hS hSN ht).2]
    · have he := scatter_exchange N S p hS hSN
      have h1 := he.send t q ht hq hqt
      have h2 := he.recv t q ht hq hqt
      unfold exRow
      rw [h1, h2, List.length_range', List.length_range']

theorem red_ok (N S p : Nat) : exchangeOk N (redRow N S p) = true := by
  unfold exchangeOk
  rw [List.all_eq_true]
  intro t ht
  rw [Bool.and_eq_true, List.all_eq_true, List.all_eq_true]
  constructor
  · intro l hl
    obtain ⟨n, hn⟩ := List.getElem?_of_mem hl
    obtain ⟨_, h1, h2, _⟩ := red_line N S p t n l hn
    rw [h1, h2]
    rfl
  · intro q hq
    have h1 : sendIdx (redRow N S p t) q = [] := by
      rw [List.eq_nil_iff_forall_not_mem]
      intro n hn
      obtain ⟨l, hl, e, he, _⟩ := mem_sendIdx _ _ _ hn
      rw [(red_line N S p t n l hl).2.1] at he
      cases he
    have h2 : recvEnt (redRow N S p q) t = [] := by
      rw [recvEnt_eq]
      · exact (no_recv _ (fun l hl => by
          obtain ⟨n, hn⟩ := List.getElem?_of_mem hl
          exact (red_line N S p q n l hn).2.2.1) t).1
      · intro l hl
        obtain ⟨n, hn⟩ := List.getElem?_of_mem hl
        rw [(red_line N S p q n l hn).2.2.1]
        simp
    rw [h1, h2]
    rfl

theorem ex_mid (N S p : Nat) (hS : 0 < S) (hSN : S ≤ N) (clean : Nat → Nat → Bool) (hc : ∀ t < N, ∀ n < S, clean t n = true) :
    FMid N clean (exRow N S p) := by
  have key : ∀ t < N, ∀ l ∈ exRow N S p t, ∃ n, (exRow N S p t)[n]? = some l := fun t _ l hl => List.getElem?_of_mem hl
  refine ⟨?_, ?_, ?_, ?_, ?_, ?_, ?_⟩
  · intro t ht l hl
    obtain ⟨n, hn⟩ := key t ht l hl
    exact (ex_line N S p t n hS hSN ht l hn).2.2.1
  · intro t ht j r l lr hl hlr
    rw [(ex_line N S p t r hS hSN ht lr hlr).2.1]
    intros; rfl
  · intro t ht j l hl _ r hr
    rw [(ex_line N S p t j hS hSN ht l hl).2.1] at hr
    cases hr
  · intro t ht j l hl hs
    rcases (ex_line N S p t j hS hSN ht l hl).2.2.2 with ⟨h, _⟩ | ⟨_, h, _⟩
    · exact hc t ht j h
    · exact absurd h hs
  · intro t ht l hl
    obtain ⟨n, hn⟩ := key t ht l hl
    rcases (ex_line N S p t n hS hSN ht l hn).2.2.2 with ⟨_, h1, h2 | ⟨e, h2, _⟩⟩ | ⟨_, h1, e, h2, _⟩ <;> rw [h1, h2] <;> simp
  · intro t ht l hl
    obtain ⟨n, hn⟩ := key t ht l hl
    rcases (ex_line N S p t n hS hSN ht l hn).2.2.2 with ⟨_, h1, _⟩ | ⟨_, h1, _⟩
    · exact Or.inr h1
    · exact Or.inl h1
  · intro t ht q hq
    by_cases hqt : q = t
    · subst hqt
      rw [(ex_self N S p q hS hSN ht).1]
      exact ⟨0, rfl⟩
    · have := (scatter_exchange N S p hS hSN).recv q t hq ht hqt
      unfold exRow
      rw [this, List.length_range']
      exact ⟨_, rfl⟩

theorem red_mid (N S p : Nat) (clean : Nat → Nat → Bool) (hc : ∀ t < N, ∀ n < S + (S - chunk S p), clean t n = true) :
    FMid N clean (redRow N S p) := by
  have key : ∀ t < N, ∀ l ∈ redRow N S p t, ∃ n, (redRow N S p t)[n]? = some l := fun t _ l hl => List.getElem?_of_mem hl
  refine ⟨?_, ?_, ?_, ?_, ?_, ?_, ?_⟩
  · intro t ht l hl
    obtain ⟨n, hn⟩ := key t ht l hl
    exact (red_line N S p t n l hn).2.2.2.1
  · intro t ht j r l lr hl hlr hr _
    have h1 := (red_line N S p t j l hl).2.2.2.2 r hr
    rw [List.eq_nil_iff_forall_not_mem]
    intro x hx
    have := (red_line N S p t r lr hlr).2.2.2.2 x hx
    omega
  · intro t ht j l hl _ r hr
    have h1 := (red_line N S p t j l hl).2.2.2.2 r hr
    unfold live
    rw [hc t ht r h1.2.2]
    rfl
  · intro t ht j l hl hs
    exact absurd (red_line N S p t j l hl).2.1 hs
  · intro t ht l hl
    obtain ⟨n, hn⟩ := key t ht l hl
    obtain ⟨_, h1, h2, _⟩ := red_line N S p t n l hn
    rw [h1, h2]; simp
  · intro t ht l hl
    obtain ⟨n, hn⟩ := key t ht l hl
    exact Or.inl (red_line N S p t n l hn).2.1
  · intro t ht q hq
    refine ⟨0, ?_⟩
    rw [(no_recv _ (fun l hl => by
      obtain ⟨n, hn⟩ := key t ht l hl
      exact (red_line N S p t n l hn).2.2.1) q).1]
    rfl

theorem end_last (N : Nat) (clean : Nat → Nat → Bool) (hc : ∀ t < N, clean t 0 = true) : FLast N clean (endRow N) := by
  have key : ∀ (t n : Nat) (l : LineD), (endRow N t)[n]? = some l → n = 0 ∧ l.recvfrom = [] ∧ l.reducefrom = [] ∧ l.copyreducefrom = [] ∧
      ∀ e ∈ l.sendto, e.1 = -1 := by
    intro t n l h
    unfold endRow lastBlock at h
    obtain ⟨h1, rfl⟩ := mk_get _ _ _ _ h
    refine ⟨by omega, rfl, rfl, rfl, ?_⟩
    intro e he
    dsimp only at he
    split at he
    · rw [List.mem_singleton] at he; rw [he]
    · cases he
  refine ⟨?_, ?_, ?_⟩
  · intro t ht l hl
    obtain ⟨n, hn⟩ := List.getElem?_of_mem hl
    exact (key t n l hn).2
  · intro t ht j l hl _
    rw [(key t j l hl).1]
    exact hc t ht
  · intro t ht i j l l' hl hl' _ _ _
    rw [(key t i l hl).1, (key t j l' hl').1]

/-- The rows of a scatter meet the conditions if those that follow do. -/
theorem scatterRows_wf (N : Nat) (rest : List Row) (ps : List Nat) : ∀ (S : Nat) (prev : Nat → Nat) (clean : Nat → Nat → Bool), 0 < S → S ≤ N →
    (∀ t < N, ∀ n < S, clean t n = true) →
    (∀ (prev : Nat → Nat) (clean : Nat → Nat → Bool), (∀ t < N, ∀ n < chunks S ps, clean t n = true) → FRows N prev clean rest) →
    FRows N prev clean (scatterRows N S ps ++ rest) := by
  induction ps with
  | nil =>
    intro S prev clean hS hSN hc hrest
    exact hrest prev clean hc
  | cons p ps ih =>
    intro S prev clean hS hSN hc hrest
    have hj0 := chunk_pos S p
    have hjS := chunk_le S p hS
    have h1 : ∀ t < N, ∀ n < S + (S - chunk S p), cleanAfter prev clean (exRow N S p) t n = true := by
      intro t ht n hn
      unfold cleanAfter live
      rw [if_pos (by rw [ex_length]; exact hn)]
      by_cases hnS : n < S
      · rw [hc t ht n hnS]; rfl
      · rw [Bool.or_eq_true]
        right
        have hlt : n < (exRow N S p t).length := by rw [ex_length]; exact hn
        rw [List.getElem?_eq_getElem hlt]
        rcases (ex_line N S p t n hS hSN ht _ (List.getElem?_eq_getElem hlt)).2.2.2 with ⟨h, _⟩ | ⟨_, _, e, h, _⟩
        · omega
        · simp [h]
    have h2 : ∀ t < N, ∀ n < S + (S - chunk S p),
        cleanAfter (fun t => (exRow N S p t).length) (cleanAfter prev clean (exRow N S p)) (redRow N S p) t n = true := by
      intro t ht n hn
      rw [cleanAfter, if_pos (by rw [red_length]; exact hn), live, h1 t ht n hn]
      rfl
    have := ih (chunk S p) (fun t => (redRow N S p t).length) _ hj0 (by omega) (fun t ht n hn => h2 t ht n (by omega)) hrest
    rw [scatterRows, List.cons_append, List.cons_append]
    refine ⟨ex_mid N S p hS hSN clean hc, ?_⟩
    cases hr : scatterRows N (chunk S p) ps ++ rest with
    | nil => rw [hr] at this; cases this
    | cons next rest =>
      rw [hr] at this
      exact ⟨red_mid N S p _ h1, this⟩

/-! ### Marks -/

theorem finish_marks (m : Marks) (b : Block) (hc : ∀ l ∈ b, l.copyreducefrom = []) (j : Nat) (l : LineD) (hl : b[j]? = some l) :
    (val (finish m b).2 j ≠ 0 ↔ val (settle m b) j ≠ 0 ∨ ∃ r ∈ l.reducefrom, (if r < j then val (finish m b).2 r else val (settle m b) r) ≠ 0) ∧
    ∃ l', (finish m b).1[j]? = some l' ∧ ∀ r ∈ l'.reducefrom, r ∈ l.reducefrom := by
  have hlen : (settle m b).length = (b.mapIdx (dropF m)).length := by simp [settle]
  obtain ⟨_, _, h3⟩ := loop_line (b.mapIdx (dropF m)) (settle m b) hlen (by
    intro l hl
    obtain ⟨i, hi, rfl⟩ := List.mem_mapIdx.mp hl
    exact hc b[i] (List.getElem_mem hi))
  obtain ⟨l', g1, _, _, _, g5⟩ := h3 j (dropF m j l) (by rw [List.getElem?_mapIdx, hl]; rfl)
  have hr : (dropF m j l).reducefrom = l.reducefrom := rfl
  rw [hr] at g5
  change (val (reduceLoop (settle m b) 0 (b.mapIdx (dropF m))).2 j ≠ 0 ↔ _) ∧ _
  have hmem : ∀ F : Nat → Nat, (l.reducefrom.filter fun r => F r != 0) = [] ↔ ¬∃ r ∈ l.reducefrom, F r ≠ 0 := by
    intro F
    rw [List.filter_eq_nil_iff]
    simp
  rcases g5 with ⟨e1, e2, e3, e4⟩ | ⟨e1, e2, e3, e4⟩
  · refine ⟨?_, l', g1, fun r hr => by rw [e2] at hr; cases hr⟩
    rw [e4, e1, e3]
    have := hmem fun r => if r < j then val (reduceLoop (settle m b) 0 (b.mapIdx (dropF m))).2 r else val (settle m b) r
    split
    · rename_i h
      have h := this.mp h
      constructor
      · intro h0; exact absurd rfl h0
      · rintro (h0 | h0)
        · exact absurd rfl h0
        · exact absurd h0 h
    · rename_i h
      refine ⟨fun _ => Or.inr ?_, fun _ => by decide⟩
      by_contra hx
      exact h (this.mpr hx)
  · refine ⟨?_, l', g1, fun r hr => ?_⟩
    · rw [e4]
      exact ⟨fun h => Or.inl h, fun _ => e1⟩
    · rw [e3] at hr
      exact List.mem_of_mem_filter hr

/-- Line `n` of node `t` holds data of the root: the messages are cut into intervals, `st y` is the first message of the interval
of message `y`. The nodes are counted from the root. -/
def Data (N root : Nat) (st : Nat → Nat) (t n : Nat) : Prop :=
  dist N t root + n < N ∧ st (dist N t root + n) = dist N t root

theorem dist_step (N t q root k : Nat) (ht : t < N) (hr : root < N) (hk : k < N) (hq : q = (t + N - k) % N) :
    (k ≤ dist N t root → dist N q root = dist N t root - k) ∧ (dist N q root + k < N → dist N t root = dist N q root + k) := by
  subst hq
  have : (t + N - k) % N = if t < k then t + N - k else t - k := by
    split
    · rw [Nat.mod_eq_of_lt (by omega)]
    · rw [Nat.mod_eq_sub_mod (by omega), Nat.mod_eq_of_lt (by omega)]; omega
  rw [this]
  unfold dist
  split <;> split <;> split <;> omega

/-- Marks after the exchange. -/
theorem ex_marks (N S p root : Nat) (hS : 0 < S) (hSN : S ≤ N) (st : Nat → Nat) (prev : Nat → Marks)
    (hm : ∀ t < N, ∀ n < S, val (prev t) n ≠ 0 ↔ Data N root st t n) (t : Nat) (ht : t < N) :
    (∀ n < S, val (finish (after prev (exRow N S p) t) (exRow N S p t)).2 n ≠ 0 ↔ Data N root st t n) ∧
    ∀ y, chunk S p ≤ y → y < S →
      (val (finish (after prev (exRow N S p) t) (exRow N S p t)).2 (S - chunk S p + y) ≠ 0 ↔
        Data N root st ((t + N - y / chunk S p * chunk S p) % N) y) ∧
      (2 ≤ val (after prev (exRow N S p) t) (S - chunk S p + y) ↔ Data N root st ((t + N - y / chunk S p * chunk S p) % N) y) := by
  obtain ⟨j, hj⟩ : ∃ j, j = chunk S p := ⟨_, rfl⟩
  have hj0 : 0 < j := hj ▸ chunk_pos S p
  have hjS : j ≤ S := hj ▸ chunk_le S p hS
  have hex := ex_ok N S p hS hSN
  have hmid := ex_mid N S p hS hSN (fun _ _ => true) fun _ _ _ _ => rfl
  have hfin : ∀ n < S + (S - j), val (finish (after prev (exRow N S p) t) (exRow N S p t)).2 n ≠ 0 ↔
      val (settle (after prev (exRow N S p) t) (exRow N S p t)) n ≠ 0 := by
    intro n hn
    have hlt : n < (exRow N S p t).length := by rw [ex_length, ← hj]; exact hn
    have hl := List.getElem?_eq_getElem hlt
    rw [(finish_marks _ _ (hmid.nocopy t ht) n _ hl).1, (ex_line N S p t n hS hSN ht _ hl).2.1]
    simp
  have hline : ∀ q < N, ∀ n < S, ∃ l, (exRow N S p q)[n]? = some l ∧ l.recvfrom = [] := by
    intro q hq n hn
    have hlt : n < (exRow N S p q).length := by rw [ex_length]; omega
    have hl := List.getElem?_eq_getElem hlt
    refine ⟨_, hl, ?_⟩
    rcases (ex_line N S p q n hS hSN hq _ hl).2.2.2 with ⟨_, h, _⟩ | ⟨h, _⟩
    · exact h
    · omega
  simp only [← hj]
  constructor
  · intro n hn
    obtain ⟨l, hl, hr⟩ := hline t ht n hn
    rw [hfin n (by omega), (after_unreceived t n l hl hr).2, val_before_ne hex t ht n l hl, hm t ht n hn]
  · intro y hy1 hy2
    obtain ⟨c0, c1, c2⟩ := chunk_mult j y S hj0 hy1 hy2
    obtain ⟨q, hq⟩ : ∃ q, q = (t + N - y / j * j) % N := ⟨_, rfl⟩
    obtain ⟨d1, d2, d3⟩ := dist_back N t (y / j * j) ht (by omega) c1
    rw [← hq] at d1 d2 d3 ⊢
    have hx := scatter_exchange N S p hS hSN
    have hrecv := hx.recv q t d1 ht d2
    have hsend := hx.send q t d1 ht d2
    rw [d3, ← hj] at hrecv hsend
    have h8 := (Recursive.div_eq_iff' j y (y / j) hj0).1 rfl
    have hl : msgLen j S (y / j * j) = min j (S - y / j * j) := by
      unfold msgLen
      have : j ≤ y / j * j := Nat.le_mul_of_pos_left j c0
      rw [if_pos ⟨Nat.mul_mod_left _ _, this, by omega⟩]
    have hl0 : msgLen j S (y / j * j) ≠ 0 := by rw [hl]; omega
    rw [if_neg hl0] at hrecv hsend
    have hlt : S - j + y < (exRow N S p t).length := by rw [ex_length, ← hj]; omega
    have hin : S - j + y ∈ recvIdx (exRow N S p t) q := by
      unfold exRow
      simp only [← hj]
      rw [hrecv, List.mem_range'_1, hl]
      omega
    obtain ⟨k, _, hk, a1, a2, _⟩ := after_received (prev := prev) hmid hex t ht _ _ (List.getElem?_eq_getElem hlt) q d1 hin
    have hky : k = y := by
      have hlk := lookup_range (S - j + y / j * j) (y - y / j * j) y (List.range' (y / j * j) (msgLen j S (y / j * j))) (by
        rw [List.getElem?_range' (by rw [hl]; omega)]
        congr 1
        omega)
      unfold exRow at hk
      simp only [← hj] at hk
      rw [hrecv, hsend] at hk
      rw [List.length_range'] at hlk
      have e : S - j + y / j * j + (y - y / j * j) = S - j + y := by omega
      rw [e, hk, Option.some.injEq] at hlk
      exact hlk
    subst hky
    obtain ⟨lq, hlq, hrq⟩ := hline q d1 k hy2
    have hb := (val_before_ne (prev := prev) hex q d1 k lq hlq).trans (hm q d1 k hy2)
    exact ⟨(hfin _ (by omega)).trans (a2.trans hb), a1.trans hb⟩

/-- Marks after the reductions. -/
theorem red_marks (N S p root : Nat) (hS : 0 < S) (hSN : S ≤ N) (hr : root < N) (st : Nat → Nat) (hst : ∀ y < N, st y ≤ y ∧ y < st y + S)
    (m1 : Nat → Marks) (t : Nat) (ht : t < N)
    (h1 : ∀ n < S, val (m1 t) n ≠ 0 ↔ Data N root st t n)
    (h2 : ∀ y, chunk S p ≤ y → y < S → (val (m1 t) (S - chunk S p + y) ≠ 0 ↔
        Data N root st ((t + N - y / chunk S p * chunk S p) % N) y)) (n : Nat) (hn : n < chunk S p) :
    val (finish (after m1 (redRow N S p) t) (redRow N S p t)).2 n ≠ 0 ↔ Data N root (cut (chunk S p) st) t n := by
  obtain ⟨j, hj⟩ : ∃ j, j = chunk S p := ⟨_, rfl⟩
  have hj0 : 0 < j := hj ▸ chunk_pos S p
  have hjS : j ≤ S := hj ▸ chunk_le S p hS
  have hex := red_ok N S p
  have hset : ∀ x < S + (S - j), val (settle (after m1 (redRow N S p) t) (redRow N S p t)) x ≠ 0 ↔ val (m1 t) x ≠ 0 := by
    intro x hx
    have hlt : x < (redRow N S p t).length := by rw [red_length, ← hj]; exact hx
    have hl := List.getElem?_eq_getElem hlt
    rw [(after_unreceived t x _ hl (red_line N S p t x _ hl).2.2.1).2, val_before_ne hex t ht x _ hl]
  have hlt : n < (redRow N S p t).length := by rw [red_length]; omega
  have hl := List.getElem?_eq_getElem hlt
  have hc : ∀ l ∈ redRow N S p t, l.copyreducefrom = [] := by
    intro l hl
    obtain ⟨i, hi⟩ := List.getElem?_of_mem hl
    exact (red_line N S p t i l hi).2.2.2.1
  rw [(finish_marks _ _ hc n _ hl).1]
  have hsrc := red_sources N S p t n hS hSN hn _ hl
  simp only [← hj] at hsrc hn h2 ⊢
  rw [hset n (by omega), h1 n (by omega)]
  have hD : ∀ x, x < N → cut j st x = st x + (x - st x) / j * j := fun _ _ => rfl
  constructor
  · rintro (h | ⟨r, hr1, hr2⟩)
    · refine ⟨h.1, ?_⟩
      unfold cut
      rw [h.2, Nat.add_sub_cancel_left, Nat.div_eq_of_lt hn]
      omega
    · obtain ⟨y, y1, y2, y3, rfl⟩ := (hsrc r).mp hr1
      rw [if_neg (by omega), hset _ (by omega), h2 y y1 y2] at hr2
      obtain ⟨c0, c1, c2⟩ := chunk_mult j y S hj0 y1 y2
      obtain ⟨q, hq⟩ : ∃ q, q = (t + N - y / j * j) % N := ⟨_, rfl⟩
      rw [← hq] at hr2
      obtain ⟨g1, g2⟩ := hr2
      have hyn : y / j * j + n = y := by
        have := Nat.div_add_mod y j
        rw [y3, Nat.mul_comm] at this; omega
      have hd := (dist_step N t q root (y / j * j) ht hr (by omega) hq).2 (by omega)
      have e : dist N t root + n = dist N q root + y := by omega
      refine ⟨by omega, ?_⟩
      rw [e]
      unfold cut
      rw [g2, Nat.add_sub_cancel_left, ← hd]
  · rintro ⟨g1, g2⟩
    obtain ⟨y0, hy0⟩ : ∃ y0, y0 = dist N t root + n := ⟨_, rfl⟩
    rw [← hy0] at g1 g2
    obtain ⟨s1, s2⟩ := hst y0 g1
    unfold cut at g2
    obtain ⟨y, hy⟩ : ∃ y, y = y0 - st y0 := ⟨_, rfl⟩
    rw [← hy] at g2
    have hyn : y = y / j * j + n := by omega
    by_cases hc0 : y / j = 0
    · rw [hc0] at g2 hyn
      left
      refine ⟨by omega, ?_⟩
      rw [← hy0]
      omega
    · right
      have hmod : y % j = n := by
        rw [hyn, Nat.mul_comm, Nat.mul_add_mod, Nat.mod_eq_of_lt hn]
      have y1 : j ≤ y := by
        have := Nat.le_mul_of_pos_left j (Nat.pos_of_ne_zero hc0)
        omega
      refine ⟨S - j + y, (hsrc _).mpr ⟨y, y1, by omega, hmod, rfl⟩, ?_⟩
      rw [if_neg (by omega), hset _ (by omega), h2 y y1 (by omega)]
      obtain ⟨c0, c1, c2⟩ := chunk_mult j y S hj0 y1 (by omega)
      have hd := (dist_step N t _ root (y / j * j) ht hr (by omega) rfl).1 (by omega)
      refine ⟨by omega, ?_⟩
      rw [hd]
      have e : dist N t root - y / j * j + y = y0 := by omega
      rw [e]
      omega

theorem cut_spec (N j : Nat) (hj : 0 < j) (st : Nat → Nat) (h : ∀ y < N, st y ≤ y) : ∀ y < N, cut j st y ≤ y ∧ y < cut j st y + j := by
  intro y hy
  have h1 := h y hy
  unfold cut
  have h2 := Nat.div_add_mod (y - st y) j
  have h3 := Nat.mod_lt (y - st y) hj
  rw [Nat.mul_comm] at h2
  omega

theorem chunk_eq (S p : Nat) (hS : 0 < S) : (S + p) / (p + 1) = chunk S p := by
  unfold chunk
  have : S + p = S - 1 + (p + 1) := by omega
  rw [this, Nat.add_div_right _ (by omega)]

/-- The pass over some rows succeeds, and keeps or drops every message as a whole. -/
def Passes (N : Nat) (prev : Nat → Marks) (rows : List Row) : Prop :=
  ∃ rows' v, forwardRows N prev rows = some (rows', v) ∧ Unmixed N rows' ∧ Ordered N rows'

theorem end_passes (N : Nat) (row : Row) (clean : Nat → Nat → Bool) (h : FLast N clean row) (prev : Nat → Marks) : Passes N prev [row] := by
  refine ⟨_, _, rfl, ?_, ?_⟩
  · intro r hrow t ht q hq hqt
    rw [List.mem_singleton] at hrow
    subst hrow
    dsimp only
    have hp := h.plain t ht
    rw [finish_plain _ _ hp]
    exact Or.inl (no_recv _ (fun l hl => (hp l hl).1) q).1
  · intro r0 hrow t ht j r l lr hl hlr hrl _
    rw [List.mem_singleton] at hrow
    subst hrow
    dsimp only at hl
    have hp := h.plain t ht
    rw [finish_plain _ _ hp] at hl
    rw [(hp l (List.mem_of_getElem? hl)).2.1] at hrl
    cases hrl

/-- The pass over the rows of a scatter: every message is dropped or kept as a whole if this holds for the rows
that follow. -/
theorem scatterRows_forward (N root : Nat) (hr : root < N) (rest : List Row) (hne : rest ≠ []) (ps : List Nat) :
    ∀ (S : Nat) (st : Nat → Nat) (prev : Nat → Marks), 0 < S → S ≤ N →
    (∀ y < N, st y ≤ y ∧ y < st y + S) → (∀ t < N, ∀ n < S, val (prev t) n ≠ 0 ↔ Data N root st t n) → Whole N S st ps →
    (∀ (st : Nat → Nat) (prev : Nat → Marks), (∀ y < N, st y ≤ y ∧ y < st y + chunks S ps) →
      (∀ t < N, ∀ n < chunks S ps, val (prev t) n ≠ 0 ↔ Data N root st t n) → Passes N prev rest) →
    Passes N prev (scatterRows N S ps ++ rest) := by
  induction ps with
  | nil =>
    intro S st prev hS hSN hst hm _ hrest
    exact hrest st prev hst hm
  | cons p ps ih =>
    intro S st prev hS hSN hst hm hw hrest
    obtain ⟨hw1, hw2⟩ := hw
    rw [chunk_eq S p hS] at hw1 hw2
    obtain ⟨j, hj⟩ : ∃ j, j = chunk S p := ⟨_, rfl⟩
    have hj0 : 0 < j := hj ▸ chunk_pos S p
    have hjS : j ≤ S := hj ▸ chunk_le S p hS
    have hmid := ex_mid N S p hS hSN (fun _ _ => true) fun _ _ _ _ => rfl
    have hex := ex_ok N S p hS hSN
    let m1 : Nat → Marks := fun t => (finish (after prev (exRow N S p) t) (exRow N S p t)).2
    have e1 := fun t ht => ex_marks N S p root hS hSN st prev hm t ht
    let m2 : Nat → Marks := fun t => (finish (after m1 (redRow N S p) t) (redRow N S p t)).2
    have e2 : ∀ t < N, ∀ n < chunk S p, val (m2 t) n ≠ 0 ↔ Data N root (cut (chunk S p) st) t n := fun t ht n hn =>
      red_marks N S p root hS hSN hr st hst m1 t ht (e1 t ht).1 (fun y y1 y2 => ((e1 t ht).2 y y1 y2).1) n hn
    obtain ⟨rows', v, f1, f2, f3⟩ := ih (chunk S p) (cut (chunk S p) st) m2 (chunk_pos S p) (by omega)
      (cut_spec N _ (chunk_pos S p) st fun y hy => (hst y hy).1) e2 hw2 hrest
    refine ⟨newRow prev (exRow N S p) :: newRow m1 (redRow N S p) :: rows', v, ?_, ?_, ?_⟩
    · rw [scatterRows, List.cons_append, List.cons_append]
      cases hrows : scatterRows N (chunk S p) ps ++ rest with
      | nil => exact absurd (List.append_eq_nil_iff.mp hrows).2 hne
      | cons next rest =>
        rw [hrows] at f1
        have g2 : forwardRows N m1 (redRow N S p :: next :: rest) = some (newRow m1 (redRow N S p) :: rows', v) := by
          rw [forwardRows, if_pos (red_ok N S p)]
          change (match forwardRows N m2 (next :: rest) with | some (rows', v') => some (newRow m1 (redRow N S p) :: rows', v') | none => none) = _
          rw [f1]
        rw [forwardRows, if_pos hex]
        change (match forwardRows N m1 (redRow N S p :: next :: rest) with | some (rows', v') => some (newRow prev (exRow N S p) :: rows', v') | none => none) = _
        rw [g2]
    · intro row hrow t ht q hq hqt
      rcases List.mem_cons.mp hrow with rfl | hrow
      · -- the exchange
        obtain ⟨sht, mapt, _⟩ := newRow_shape (prev := prev) hmid hex t ht
        obtain ⟨i1, i2, _⟩ := shape_idx N t (exRow N S p t) _ _ sht q
        rw [← mapt] at i1 i2
        rw [i1, i2]
        have hneed : ∀ k, need ((after prev (exRow N S p) t).map fun x => decide (2 ≤ x)) k = decide (2 ≤ val (after prev (exRow N S p) t) k) := by
          intro k
          unfold need val
          rw [List.getElem?_map]
          cases (after prev (exRow N S p) t)[k]? with
          | none => simp
          | some x =>
            dsimp only [Option.map_some]
            cases decide (2 ≤ x) <;> rfl
        -- lines of one message come from one chunk
        have hone : ∀ k ∈ recvIdx (exRow N S p t) q, ∃ y, k = S - j + y ∧ j ≤ y ∧ y < S ∧ y / j * j = dist N t q ∧
            (t + N - y / j * j) % N = q := by
          intro k hk
          have hx := (scatter_exchange N S p hS hSN).recv q t hq ht hqt
          unfold exRow at hk
          rw [hx, List.mem_range'_1, ← hj] at hk
          by_cases h0 : msgLen j S (dist N t q) = 0
          · rw [if_pos h0, h0] at hk; omega
          · rw [if_neg h0] at hk
            unfold msgLen at h0 hk
            split at h0
            · rename_i hc
              rw [if_pos hc] at hk
              have hdd := Nat.div_add_mod (dist N t q) j
              rw [hc.1, Nat.mul_comm] at hdd
              have hdiv : (k - (S - j)) / j = dist N t q / j :=
                (Recursive.div_eq_iff' j _ _ hj0).2 ⟨by omega, by omega⟩
              refine ⟨k - (S - j), by omega, by omega, by omega, by rw [hdiv]; omega, ?_⟩
              rw [hdiv]
              have : dist N t q / j * j = dist N t q := by omega
              rw [this]
              have hlt := dist_lt N t q ht hq
              unfold dist at hlt ⊢
              split
              · have : t + N - (t - q) = q + N := by omega
                rw [this, Nat.add_mod_right, Nat.mod_eq_of_lt hq]
              · have : t + N - (t + N - q) = q := by omega
                rw [this, Nat.mod_eq_of_lt hq]
            · exact absurd rfl h0
        have hdat : ∀ k ∈ recvIdx (exRow N S p t) q, ∃ y, k = S - j + y ∧ j ≤ y ∧ y < S ∧ y / j * j = dist N t q ∧
            (need ((after prev (exRow N S p) t).map fun x => decide (2 ≤ x)) k = true ↔ Data N root st q y) := by
          intro k hk
          obtain ⟨y, rfl, y1, y2, y3, y4⟩ := hone k hk
          refine ⟨y, rfl, y1, y2, y3, ?_⟩
          have := ((e1 t ht).2 y (by omega) y2).2
          rw [← hj, y4] at this
          rw [hneed, decide_eq_true_iff]
          exact this
        by_cases hany : ∃ k ∈ recvIdx (exRow N S p t) q, need ((after prev (exRow N S p) t).map fun x => decide (2 ≤ x)) k = true
        · right
          obtain ⟨k, hk, hk2⟩ := hany
          obtain ⟨y, _, y1, y2, y3, y4⟩ := hdat k hk
          have hd := y4.mp hk2
          rw [List.filter_eq_nil_iff]
          intro k' hk'
          obtain ⟨y', _, z1, z2, z3, z4⟩ := hdat k' hk'
          rw [Bool.not_eq_true', Bool.not_eq_false]
          apply z4.mpr
          have hsame : y / j = y' / j := Nat.eq_of_mul_eq_mul_right hj0 (y3.trans z3.symm)
          rw [← hj] at hw1
          exact hw1 _ y y' y1 y2 z2 hsame hd.1 hd.2
        · left
          rw [List.filter_eq_nil_iff]
          intro k hk hk2
          exact hany ⟨k, hk, hk2⟩
      · rcases List.mem_cons.mp hrow with rfl | hrow
        · have hmid2 := red_mid N S p (fun _ _ => true) fun _ _ _ _ => rfl
          obtain ⟨sht, mapt, _⟩ := newRow_shape (prev := m1) hmid2 (red_ok N S p) t ht
          obtain ⟨i1, _⟩ := shape_idx N t (redRow N S p t) _ _ sht q
          rw [← mapt] at i1
          left
          rw [i1, (no_recv _ (fun l hl => by
            obtain ⟨n, hn⟩ := List.getElem?_of_mem hl
            exact (red_line N S p t n l hn).2.2.1) q).1]
          rfl
        · exact f2 row hrow t ht q hq hqt
    · intro row hrow t ht i r l lr hl hlr hrl hri
      rcases List.mem_cons.mp hrow with rfl | hrow
      · have hlen := (finish_line (after prev (exRow N S p) t) (exRow N S p t) (hmid.nocopy t ht)).1
        have hi : i < (exRow N S p t).length := by rw [← hlen]; exact (List.getElem?_eq_some_iff.mp hl).1
        obtain ⟨l', g1, g2⟩ := (finish_marks (after prev (exRow N S p) t) _ (hmid.nocopy t ht) i _ (List.getElem?_eq_getElem hi)).2
        have : l = l' := Option.some.inj (hl.symm.trans g1)
        subst this
        have := g2 r hrl
        rw [(ex_line N S p t i hS hSN ht _ (List.getElem?_eq_getElem hi)).2.1] at this
        cases this
      · rcases List.mem_cons.mp hrow with rfl | hrow
        · have hmid2 := red_mid N S p (fun _ _ => true) fun _ _ _ _ => rfl
          have hlen := (finish_line (after m1 (redRow N S p) t) (redRow N S p t) (hmid2.nocopy t ht)).1
          have hi : i < (redRow N S p t).length := by rw [← hlen]; exact (List.getElem?_eq_some_iff.mp hl).1
          obtain ⟨l', g1, g2⟩ := (finish_marks (after m1 (redRow N S p) t) _ (hmid2.nocopy t ht) i _ (List.getElem?_eq_getElem hi)).2
          have : l = l' := Option.some.inj (hl.symm.trans g1)
          subst this
          have := (red_line N S p t i _ (List.getElem?_eq_getElem hi)).2.2.2.2 r (g2 r hrl)
          omega
        · exact f3 row hrow t ht i r l lr hl hlr hrl hri

end ExtMpi.Forward
