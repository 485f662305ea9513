import Verif.Lemmas.ForwardCyclic
import Verif.Lemmas.CyclicPhases
/-! The second part of the cyclic allreduce in a broadcast: all lines hold data of the root. -/
namespace ExtMpi.Forward
open Schedule Rooted CyclicReduce Cyclic

/-- A row without reductions in which a line is sent, or received, or none of both. -/
structure Moves (N : Nat) (clean : Nat → Nat → Bool) (row : Row) : Prop where
  plain : ∀ t < N, ∀ l ∈ row t, l.reducefrom = [] ∧ l.copyreducefrom = [] ∧ (l.sendto.map Prod.fst).Nodup ∧ l.recvfrom.length ≤ 1 ∧
    (l.sendto = [] ∨ l.recvfrom = [])
  held : ∀ t < N, ∀ (n : Nat) (l : LineD), (row t)[n]? = some l → l.recvfrom = [] → clean t n = true
  block : ∀ t < N, ∀ q < N, ∃ n0, recvIdx (row t) q = List.range' n0 (recvIdx (row t) q).length

theorem moves_mid {N : Nat} {clean : Nat → Nat → Bool} {row : Row} (h : Moves N clean row) : FMid N clean row := by
  refine ⟨fun t ht l hl => (h.plain t ht l hl).2.1, ?_, ?_, ?_, fun t ht l hl => ⟨(h.plain t ht l hl).2.2.1, (h.plain t ht l hl).2.2.2.1⟩,
    fun t ht l hl => (h.plain t ht l hl).2.2.2.2, h.block⟩
  · intro t ht j r l lr hl hlr _ _
    exact (h.plain t ht lr (List.mem_of_getElem? hlr)).1
  · intro t ht j l hl _ r hr
    rw [(h.plain t ht l (List.mem_of_getElem? hl)).1] at hr
    cases hr
  · intro t ht j l hl hs
    rcases (h.plain t ht l (List.mem_of_getElem? hl)).2.2.2.2 with h1 | h1
    · exact absurd h1 hs
    · exact h.held t ht j l hl h1

/-- All lines are clean after such a row. -/
theorem moves_clean {N : Nat} {clean : Nat → Nat → Bool} {row : Row} (h : Moves N clean row) (prev : Nat → Nat) (t : Nat) (ht : t < N)
    (n : Nat) (hn : n < (row t).length) : cleanAfter prev clean row t n = true := by
  unfold cleanAfter live
  rw [if_pos hn, Bool.or_eq_true, List.getElem?_eq_getElem hn]
  cases hr : ((row t)[n]).recvfrom with
  | nil => exact Or.inl (h.held t ht n _ (List.getElem?_eq_getElem hn) hr)
  | cons _ _ => right; simp [hr]

/-- If all lines that are not received hold data, all do afterwards, and nothing is dropped. -/
theorem moves_marks {N : Nat} {clean : Nat → Nat → Bool} {row : Row} (h : Moves N clean row) (hex : exchangeOk N row = true) (prev : Nat → Marks)
    (hm : ∀ t < N, ∀ (n : Nat) (l : LineD), (row t)[n]? = some l → l.recvfrom = [] → val (prev t) n ≠ 0) (t : Nat) (ht : t < N) :
    (∀ n < (row t).length, val (finish (after prev row t) (row t)).2 n ≠ 0) ∧
    (∀ q < N, ∀ n ∈ recvIdx (row t) q, 2 ≤ val (after prev row t) n) ∧
    ∀ (i : Nat) (l : LineD), (newRow prev row t)[i]? = some l → l.reducefrom = [] := by
  have hmid := moves_mid h
  have hrecv : ∀ q < N, ∀ n ∈ recvIdx (row t) q, 2 ≤ val (after prev row t) n ∧ val (settle (after prev row t) (row t)) n ≠ 0 := by
    intro q hq n hn
    obtain ⟨l, hl, _⟩ := (mem_recvIdx _ _ _).mp hn
    obtain ⟨k, hk, _, a1, a2, _, _⟩ := after_received (prev := prev) hmid hex t ht n l hl q hq hn
    obtain ⟨lk, hlk, e, he, _⟩ := mem_sendIdx _ _ _ hk
    have hb : val (before prev row q) k ≠ 0 := by
      rw [val_before_ne hex q hq k lk hlk]
      rcases (h.plain q hq lk (List.mem_of_getElem? hlk)).2.2.2.2 with h1 | h1
      · rw [h1] at he; cases he
      · exact hm q hq k lk hlk h1
    exact ⟨a1.mpr hb, a2.mpr hb⟩
  refine ⟨fun n hn => ?_, fun q hq n hn => (hrecv q hq n hn).1, fun i l hl => ?_⟩
  · have hl := List.getElem?_eq_getElem hn
    rw [(finish_marks _ _ (hmid.nocopy t ht) n _ hl).1]
    left
    cases hr : ((row t)[n]).recvfrom with
    | nil =>
      rw [(after_unreceived t n _ hl hr).2, val_before_ne hex t ht n _ hl]
      exact hm t ht n _ hl hr
    | cons e es =>
      have he : e ∈ ((row t)[n]).recvfrom := by rw [hr]; exact List.mem_cons_self
      have hr' := (exchangeOk_spec N row hex t ht).2.1 _ (List.mem_of_getElem? hl) e he
      refine (hrecv e.1.toNat (by omega) n ?_).2
      exact (mem_recvIdx _ _ _).mpr ⟨_, hl, e, he, by omega⟩
  · have hlen := (finish_line (after prev row t) (row t) (hmid.nocopy t ht)).1
    have hi : i < (row t).length := by rw [← hlen]; exact (List.getElem?_eq_some_iff.mp hl).1
    obtain ⟨l', g1, g2⟩ := (finish_marks (after prev row t) _ (hmid.nocopy t ht) i _ (List.getElem?_eq_getElem hi)).2
    have : l = l' := Option.some.inj (hl.symm.trans g1)
    subst this
    rw [List.eq_nil_iff_forall_not_mem]
    intro r hr
    have := g2 r hr
    rw [(h.plain t ht _ (List.getElem_mem hi)).1] at this
    cases this

/-- The pass over such a row. -/
theorem moves_passes {N : Nat} {clean : Nat → Nat → Bool} {row : Row} (h : Moves N clean row) (hex : exchangeOk N row = true) (prev : Nat → Marks)
    (hm : ∀ t < N, ∀ (n : Nat) (l : LineD), (row t)[n]? = some l → l.recvfrom = [] → val (prev t) n ≠ 0)
    (rest : List Row) (hne : rest ≠ []) (hrest : ∀ prev' : Nat → Marks, (∀ t < N, ∀ n < (row t).length, val (prev' t) n ≠ 0) → Passes N prev' rest) :
    Passes N prev (row :: rest) := by
  obtain ⟨rows', v, f1, f2, f3⟩ := hrest (fun t => (finish (after prev row t) (row t)).2) fun t ht => (moves_marks h hex prev hm t ht).1
  refine ⟨newRow prev row :: rows', v, ?_, ?_, ?_⟩
  · cases rest with
    | nil => exact absurd rfl hne
    | cons next rest =>
      rw [forwardRows, if_pos hex]
      change (match forwardRows N (fun t => (finish (after prev row t) (row t)).2) (next :: rest) with
        | some (rows', v') => some (newRow prev row :: rows', v') | none => none) = _
      rw [f1]
  · intro row' hrow t ht q hq hqt
    rcases List.mem_cons.mp hrow with rfl | hrow
    · obtain ⟨sht, mapt, _⟩ := newRow_shape (prev := prev) (moves_mid h) hex t ht
      obtain ⟨_, i2, _⟩ := shape_idx N t (row t) _ _ sht q
      rw [← mapt] at i2
      right
      rw [i2, List.filter_eq_nil_iff]
      intro n hn
      have h2 := (moves_marks h hex prev hm t ht).2.1 q hq n hn
      unfold need
      rw [List.getElem?_map]
      unfold val at h2
      cases hx : (after prev row t)[n]? with
      | none => rw [hx] at h2; simp at h2
      | some x =>
        rw [hx] at h2
        simp [h2]
    · exact f2 row' hrow t ht q hq hqt
  · intro row' hrow t ht i r l lr hl hlr hrl hri
    rcases List.mem_cons.mp hrow with rfl | hrow
    · rw [(moves_marks h hex prev hm t ht).2.2 i l hl] at hrl
      cases hrl
    · exact f3 row' hrow t ht i r l lr hl hlr hrl hri

/-! ### The gather steps -/

section
variable (N : Nat) (u : List Bool)

/-- The exchange of a gather step on all nodes. -/
def gRow (G p : Nat) : Row := fun t => Recursive.mk (1 * min (G * (p + 1)) N) fun n => renumberLine u (gKeep u N 1 G (1 * min (G * (p + 1)) N) p t n)

/-- The row without reductions that follows. -/
def dRow (G p : Nat) : Row := fun t => Recursive.mk (1 * min (G * (p + 1)) N) fun n => renumberLine u (rLine N 1 G t n)

/-- The gather steps of all nodes. -/
def gatherRows : Nat → List Nat → List Row
  | _, [] => []
  | G, p :: ps => gRow N u G p :: dRow N u G p :: gatherRows (G * (p + 1)) ps

variable {N u}

theorem g_recv {G p t n : Nat} (hG : 0 < G) (ht : t < N) (l : LineD) (h : (gRow N u G p t)[n]? = some l) :
    n < min (G * (p + 1)) N ∧ l.reducefrom = [] ∧ l.copyreducefrom = [] ∧
    ((n < G ∧ l.recvfrom = []) ∨ (G ≤ n ∧ l.sendto = [] ∧ ∃ e, l.recvfrom = [e] ∧ 0 ≤ e.1 ∧ e.1 < N ∧ e.1 ≠ t)) := by
  obtain ⟨hn, rfl⟩ := mk_get _ _ _ _ h
  rw [Nat.one_mul] at hn
  refine ⟨hn, rfl, rfl, ?_⟩
  unfold renumberLine gKeep gLine
  dsimp only
  rw [Nat.one_mul]
  by_cases c : n < G
  · left
    rw [if_pos c]
    exact ⟨c, rfl⟩
  · right
    have h0 : gatherPorts (1 * min (G * (p + 1)) N) G p n = 0 := by
      unfold gatherPorts
      rw [if_neg (by omega), if_neg (by omega), if_neg c]
    rw [h0, if_neg c]
    refine ⟨by omega, rfl, _, rfl, ?_⟩
    dsimp only
    unfold gatherNode
    obtain ⟨_, c1, c2⟩ := chunk_mult G n N hG (by omega) (by omega)
    have e : N + t + n / G * G = t + n / G * G + N := by omega
    rw [e, Nat.add_mod_right]
    obtain ⟨r1, r2, _⟩ := ring_range N t _ ht c1 c2
    omega

theorem g_send {G p t n : Nat} (hG : 0 < G) (ht : t < N) (hfit : G < N → p ≤ 2 ∨ G * p ≤ N) (l : LineD) (h : (gRow N u G p t)[n]? = some l) :
    (∀ e ∈ l.sendto, 0 ≤ e.1 ∧ e.1 < N ∧ e.1 ≠ t) ∧ (l.sendto.map Prod.fst).Nodup := by
  obtain ⟨hn, rfl⟩ := mk_get _ _ _ _ h
  obtain ⟨k, hk⟩ : ∃ k, k = gatherPorts (1 * min (G * (p + 1)) N) (1 * G) p n := ⟨_, rfl⟩
  have hkN : ∀ i < k, (i + 1) * G < N := by
    intro i hi
    by_cases hGN : G < N
    · by_cases hnG : n < 1 * G
      · have := (ports_iff N 1 G p n i (hfit hGN) hnG).1 (by rw [← hk]; exact hi)
        have e : 1 * G * (i + 1) = (i + 1) * G := by ring
        rw [e, Nat.one_mul] at this
        omega
      · unfold gatherPorts at hk
        rw [if_neg (by omega), if_neg (by omega), if_neg hnG] at hk
        omega
    · rcases ports_idle N 1 G p n (by omega) with h0 | h0
      · rw [h0] at hk; omega
      · omega
  have hval : ∀ i < k, ((N : Int) + t - ((i : Int) + 1) * G).tmod N = (((N + t - (i + 1) * G) % N : Nat) : Int) := by
    intro i hi
    have := hkN i hi
    have e : (N : Int) + t - ((i : Int) + 1) * G = ((N + t - (i + 1) * G : Nat) : Int) := by
      have : ((N + t - (i + 1) * G : Nat) : Int) = (N : Int) + t - (((i + 1) * G : Nat) : Int) := by omega
      rw [this]; push_cast; ring
    rw [e]; rfl
  have hsub : ((renumberLine u (gKeep u N 1 G (1 * min (G * (p + 1)) N) p t n)).sendto.map Prod.fst).Sublist
      ((List.range k).map fun i : Nat => ((N : Int) + t - ((i : Int) + 1) * G).tmod N) := by
    unfold renumberLine gKeep gLine
    dsimp only
    rw [List.map_map, ← hk]
    have h2 : ((List.filter (fun e : Int × Int => u[e.2.toNat]? == some true) (List.map (fun i : Nat =>
        (((N : Int) + t - ((i : Int) + 1) * G).tmod N, ((n + 1 * G * (i + 1) : Nat) : Int))) (List.range k))).map
        (Prod.fst ∘ fun e : Int × Int => if e.1 ≥ 0 then (e.1, (renumber u e.2.toNat : Int)) else e)).Sublist
        ((List.map (fun i : Nat => (((N : Int) + t - ((i : Int) + 1) * G).tmod N, ((n + 1 * G * (i + 1) : Nat) : Int))) (List.range k)).map Prod.fst) := by
      have : (Prod.fst ∘ fun e : Int × Int => if e.1 ≥ 0 then (e.1, (renumber u e.2.toNat : Int)) else e) = Prod.fst := by
        funext e
        simp only [Function.comp]
        split <;> rfl
      rw [this]
      exact List.Sublist.map _ List.filter_sublist
    rw [List.map_map] at h2
    exact h2
  constructor
  · intro e he
    have := hsub.subset (List.mem_map.mpr ⟨e, he, rfl⟩)
    obtain ⟨i, hi, hi2⟩ := List.mem_map.mp this
    have hi := List.mem_range.mp hi
    rw [hval i hi] at hi2
    obtain ⟨_, _, r1, r2⟩ := ring_range N t ((i + 1) * G) ht (Nat.mul_pos (by omega) hG) (hkN i hi)
    rw [← hi2]
    omega
  · refine hsub.nodup ?_
    rw [List.nodup_map_iff_inj_on List.nodup_range]
    intro i hi i' hi' e
    have hi := List.mem_range.mp hi
    have hi' := List.mem_range.mp hi'
    rw [hval i hi, hval i' hi', Nat.cast_inj] at e
    have a := hkN i hi
    have a' := hkN i' hi'
    have : (i + 1) * G = (i' + 1) * G := by
      have m : ∀ x, x < N → 0 < x → (N + t - x) % N = if t < x then N + t - x else t - x := by
        intro x hx _
        split
        · exact Nat.mod_eq_of_lt (by omega)
        · rw [Nat.mod_eq_sub_mod (by omega), Nat.mod_eq_of_lt (by omega)]; omega
      rw [m _ a (Nat.mul_pos (by omega) hG), m _ a' (Nat.mul_pos (by omega) hG)] at e
      split at e <;> split at e <;> omega
    have := Nat.eq_of_mul_eq_mul_right hG this
    omega

/-- The messages of a gather step. -/
theorem g_idx {G p q t : Nat} (hu : ∀ n < N, u[n]? = some true) (hG : 0 < G) (hGN : G < N) (hfit : p ≤ 2 ∨ G * p ≤ N) (hq : q < N) (ht : t < N)
    (hne : q ≠ t) :
    recvIdx (gRow N u G p t) q = (if dist N q t % G = 0 ∧ dist N q t < min (G * (p + 1)) N then
      List.range' (dist N q t) (min G (min (G * (p + 1)) N - dist N q t)) else []) ∧
    sendIdx (gRow N u G p q) t = (if dist N q t % G = 0 ∧ dist N q t < min (G * (p + 1)) N then
      List.range' 0 (min G (min (G * (p + 1)) N - dist N q t)) else []) := by
  obtain ⟨d, hd⟩ : ∃ d, d = dist N q t := ⟨_, rfl⟩
  obtain ⟨S, hS⟩ : ∃ S, S = min (G * (p + 1)) N := ⟨_, rfl⟩
  have hdpos : 0 < d := hd ▸ dist_pos N q t ht hne
  have hSN : S ≤ N := by omega
  have hrc : ∀ n < S, ((renumberLine u (gKeep u N 1 G (1 * min (G * (p + 1)) N) p t n)).recvfrom.any fun e => e.1 == (q : Int)) = true ↔
      G ≤ n ∧ n / G * G = d := by
    intro n hn
    have := recv_comp u N 1 G (1 * min (G * (p + 1)) N) p q t n (by omega) hG hq ht (by omega)
    rw [this, Nat.one_mul, hd]
  have hsc : ∀ n, (((renumberLine u (gKeep u N 1 G (1 * min (G * (p + 1)) N) p q n)).sendto.filter fun e => e.1 == (t : Int)).map fun _ => n) =
      if decide (d % G = 0 ∧ n < G ∧ n + d < S) then [n] else [] := by
    intro n
    have := send_comp u N 1 G p q t n hG hfit hq ht hne (by omega)
    rw [this]
    have e : (decide (dist N q t % G = 0 ∧ n < 1 * G ∧ n + dist N q t / G * (1 * G) < 1 * min (G * (p + 1)) N) &&
        (u[n + dist N q t / G * (1 * G)]? == some true)) = decide (d % G = 0 ∧ n < G ∧ n + d < S) := by
      rw [← hd, Nat.one_mul, Nat.one_mul, ← hS, Bool.eq_iff_iff, Bool.and_eq_true, decide_eq_true_iff, decide_eq_true_iff]
      have hdd := Nat.div_add_mod d G
      rw [Nat.mul_comm] at hdd
      constructor
      · rintro ⟨⟨a, b, c⟩, _⟩
        exact ⟨a, b, by omega⟩
      · rintro ⟨a, b, c⟩
        exact ⟨⟨a, b, by omega⟩, by rw [hu _ (by omega)]; rfl⟩
    rw [e]
  rw [← hd, ← hS]
  constructor
  · unfold gRow Recursive.mk
    rw [recvIdx_mk, Nat.one_mul, ← hS]
    split
    · rename_i hc
      obtain ⟨hc1, hc2⟩ := hc
      have hdd := Nat.div_add_mod d G
      rw [hc1, Nat.mul_comm] at hdd
      refine filter_range_interval S _ d _ (by omega) fun n hn => ?_
      have := hrc n hn
      rw [Nat.one_mul, ← hS] at this
      rw [this]
      have h3 : n / G * G = d ↔ n / G = d / G := by
        constructor
        · intro h; rw [← h, Nat.mul_div_cancel _ hG]
        · intro h; rw [h]; omega
      have h4 := Recursive.div_eq_iff' G n (d / G) hG
      have hk0 : G ≤ d := by
        by_contra hx
        rw [Nat.mod_eq_of_lt (by omega)] at hc1
        omega
      rw [h3, h4]
      omega
    · rename_i hc
      rw [List.filter_eq_nil_iff]
      intro n hn hx
      have hn := List.mem_range.1 hn
      have := hrc n hn
      rw [Nat.one_mul, ← hS] at this
      obtain ⟨h1, h2⟩ := this.mp hx
      apply hc
      refine ⟨by rw [← h2]; exact Nat.mul_mod_left _ _, ?_⟩
      have := Nat.div_mul_le_self n G
      omega
  · unfold gRow Recursive.mk
    rw [sendIdx_mk, Nat.one_mul, ← hS]
    have : ∀ n, (((renumberLine u (gKeep u N 1 G S p q n)).sendto.filter fun e => e.1 == (t : Int)).map fun _ => n) =
        if decide (d % G = 0 ∧ n < G ∧ n + d < S) then [n] else [] := by
      intro n
      have := hsc n
      rw [Nat.one_mul, ← hS] at this
      exact this
    rw [flatMap_single_filter _ _ _ fun n _ => this n]
    split
    · rename_i hc
      refine filter_range_interval S _ 0 _ (by omega) fun n hn => ?_
      rw [decide_eq_true_iff]
      omega
    · rename_i hc
      rw [List.filter_eq_nil_iff]
      intro n _ hx
      rw [decide_eq_true_iff] at hx
      exact hc ⟨hx.1, by omega⟩

theorem g_recvNodup {G p t : Nat} (hG : 0 < G) (ht : t < N) : ∀ l ∈ gRow N u G p t, (l.recvfrom.map Prod.fst).Nodup := by
  intro l hl
  obtain ⟨n, hn⟩ := List.getElem?_of_mem hl
  rcases (g_recv hG ht l hn).2.2.2 with ⟨_, h⟩ | ⟨_, _, e, h, _⟩
  · rw [h]; simp
  · rw [h]; simp

/-- Lines of a step after all lines are known. -/
theorem g_idle {G p t n : Nat} (hG : 0 < G) (hGN : N ≤ G) (ht : t < N) (l : LineD) (h : (gRow N u G p t)[n]? = some l) :
    l.sendto = [] ∧ l.recvfrom = [] := by
  have hr := g_recv hG ht l h
  have h2 : l.recvfrom = [] := by
    rcases hr.2.2.2 with ⟨_, h⟩ | ⟨h, _⟩
    · exact h
    · omega
  refine ⟨?_, h2⟩
  obtain ⟨hn, rfl⟩ := mk_get _ _ _ _ h
  unfold renumberLine gKeep gLine
  dsimp only
  rcases ports_idle N 1 G p n hGN with h0 | h0
  · rw [h0]; rfl
  · omega

theorem g_self {G p t : Nat} (hG : 0 < G) (ht : t < N) (hfit : G < N → p ≤ 2 ∨ G * p ≤ N) :
    recvIdx (gRow N u G p t) t = [] ∧ sendIdx (gRow N u G p t) t = [] := by
  constructor
  · rw [List.eq_nil_iff_forall_not_mem]
    intro n hn
    obtain ⟨l, hl, e, he, h1⟩ := (mem_recvIdx _ _ _).mp hn
    rcases (g_recv hG ht l hl).2.2.2 with ⟨_, h⟩ | ⟨_, _, e', h, h2⟩
    · rw [h] at he; cases he
    · rw [h, List.mem_singleton] at he
      subst he
      exact h2.2.2 h1
  · rw [List.eq_nil_iff_forall_not_mem]
    intro n hn
    obtain ⟨l, hl, e, he, h1⟩ := mem_sendIdx _ _ _ hn
    exact ((g_send hG ht hfit l hl).1 e he).2.2 h1

theorem g_ok (G p : Nat) (hu : ∀ n < N, u[n]? = some true) (hG : 0 < G) (hfit : G < N → p ≤ 2 ∨ G * p ≤ N) : exchangeOk N (gRow N u G p) = true := by
  unfold exchangeOk
  rw [List.all_eq_true]
  intro t ht
  have ht := List.mem_range.mp ht
  rw [Bool.and_eq_true, List.all_eq_true, List.all_eq_true]
  constructor
  · intro l hl
    obtain ⟨n, hn⟩ := List.getElem?_of_mem hl
    rw [Bool.and_eq_true, List.all_eq_true, List.all_eq_true]
    refine ⟨fun e he => decide_eq_true ((g_send hG ht hfit l hn).1 e he), fun e he => ?_⟩
    rcases (g_recv hG ht l hn).2.2.2 with ⟨_, h⟩ | ⟨_, _, e', h, h2⟩
    · rw [h] at he; cases he
    · rw [h, List.mem_singleton] at he
      subst he
      exact decide_eq_true h2
  · intro q hq
    have hq := List.mem_range.mp hq
    rw [recvEnt_eq _ _ (g_recvNodup hG hq), beq_iff_eq]
    by_cases hqt : t = q
    · subst hqt
      rw [(g_self hG ht hfit).1, (g_self hG ht hfit).2]
    · by_cases hGN : G < N
      · rw [(g_idx hu hG hGN (hfit hGN) ht hq hqt).1, (g_idx hu hG hGN (hfit hGN) ht hq hqt).2]
        split <;> simp
      · have h1 : recvIdx (gRow N u G p q) t = [] := (no_recv _ (fun l hl => by
          obtain ⟨n, hn⟩ := List.getElem?_of_mem hl
          exact (g_idle hG (by omega) hq l hn).2) t).1
        have h2 : sendIdx (gRow N u G p t) q = [] := by
          rw [List.eq_nil_iff_forall_not_mem]
          intro n hn
          obtain ⟨l, hl, e, he, _⟩ := mem_sendIdx _ _ _ hn
          rw [(g_idle hG (by omega) ht l hl).1] at he
          cases he
        rw [h1, h2]

theorem g_moves (G p : Nat) (hu : ∀ n < N, u[n]? = some true) (hG : 0 < G) (hfit : G < N → p ≤ 2 ∨ G * p ≤ N) (clean : Nat → Nat → Bool)
    (hc : ∀ t < N, ∀ n < min G N, clean t n = true) : Moves N clean (gRow N u G p) := by
  refine ⟨?_, ?_, ?_⟩
  · intro t ht l hl
    obtain ⟨n, hn⟩ := List.getElem?_of_mem hl
    obtain ⟨_, h1, h2, h3⟩ := g_recv hG ht l hn
    refine ⟨h1, h2, (g_send hG ht hfit l hn).2, ?_, ?_⟩
    · rcases h3 with ⟨_, h⟩ | ⟨_, _, e, h, _⟩ <;> rw [h] <;> simp
    · rcases h3 with ⟨_, h⟩ | ⟨_, h, _⟩
      · exact Or.inr h
      · exact Or.inl h
  · intro t ht n l hl hr
    obtain ⟨h0, _, _, h3⟩ := g_recv hG ht l hl
    rcases h3 with ⟨h, _⟩ | ⟨_, _, e, h, _⟩
    · exact hc t ht n (by omega)
    · rw [hr] at h; cases h
  · intro t ht q hq
    by_cases hqt : q = t
    · subst hqt
      rw [(g_self hG ht hfit).1]
      exact ⟨0, rfl⟩
    · by_cases hGN : G < N
      · rw [(g_idx hu hG hGN (hfit hGN) hq ht hqt).1]
        split
        · exact ⟨dist N q t, by simp⟩
        · exact ⟨0, rfl⟩
      · refine ⟨0, ?_⟩
        rw [(no_recv _ (fun l hl => by
          obtain ⟨n, hn⟩ := List.getElem?_of_mem hl
          exact (g_idle hG (by omega) ht l hn).2) q).1]
        rfl

theorem g_length (G p t : Nat) : (gRow N u G p t).length = min (G * (p + 1)) N := by simp [gRow, Recursive.mk]

theorem d_length (G p t : Nat) : (dRow N u G p t).length = min (G * (p + 1)) N := by simp [dRow, Recursive.mk]

theorem d_line {G p t n : Nat} (hG : 0 < G) (l : LineD) (h : (dRow N u G p t)[n]? = some l) :
    n < min (G * (p + 1)) N ∧ l.sendto = [] ∧ l.recvfrom = [] ∧ l.reducefrom = [] ∧ l.copyreducefrom = [] := by
  obtain ⟨hn, rfl⟩ := mk_get _ _ _ _ h
  rw [Nat.one_mul] at hn
  refine ⟨hn, rfl, rfl, ?_, rfl⟩
  unfold renumberLine rLine
  dsimp only
  rw [Nat.one_mul]
  split
  · rfl
  · rename_i hx
    have hsp := src_spec N 1 G n (by omega) hG (by omega) (by omega)
    have hcl : ∀ x, cl 1 x = x := fun x => by unfold cl; rw [Nat.div_one, Nat.mod_one, Nat.add_zero]
    cases hs : src N 1 G n with
    | none => rfl
    | some r =>
      rw [hs] at hsp
      obtain ⟨h1, h2, _⟩ := hsp
      have := Nat.div_mul_le_self n (1 * G)
      rw [hcl, hcl, Nat.mod_eq_of_lt (by omega), Nat.mod_eq_of_lt (by omega)] at h2
      omega

theorem d_ok (G p : Nat) (hG : 0 < G) : exchangeOk N (dRow N u G p) = true := by
  unfold exchangeOk
  rw [List.all_eq_true]
  intro t ht
  rw [Bool.and_eq_true, List.all_eq_true, List.all_eq_true]
  constructor
  · intro l hl
    obtain ⟨n, hn⟩ := List.getElem?_of_mem hl
    obtain ⟨_, h1, h2, _⟩ := d_line hG l hn
    rw [h1, h2]
    rfl
  · intro q hq
    have h1 : sendIdx (dRow N u G p t) q = [] := by
      rw [List.eq_nil_iff_forall_not_mem]
      intro n hn
      obtain ⟨l, hl, e, he, _⟩ := mem_sendIdx _ _ _ hn
      rw [(d_line hG l hl).2.1] at he
      cases he
    have h2 : recvEnt (dRow N u G p q) t = [] := by
      rw [recvEnt_eq]
      · exact (no_recv _ (fun l hl => by
          obtain ⟨n, hn⟩ := List.getElem?_of_mem hl
          exact (d_line hG l hn).2.2.1) t).1
      · intro l hl
        obtain ⟨n, hn⟩ := List.getElem?_of_mem hl
        rw [(d_line hG l hn).2.2.1]
        simp
    rw [h1, h2]
    rfl

theorem d_moves (G p : Nat) (hG : 0 < G) (clean : Nat → Nat → Bool)
    (hc : ∀ t < N, ∀ n < min (G * (p + 1)) N, clean t n = true) : Moves N clean (dRow N u G p) := by
  refine ⟨?_, ?_, ?_⟩
  · intro t ht l hl
    obtain ⟨n, hn⟩ := List.getElem?_of_mem hl
    obtain ⟨_, h1, h2, h3, h4⟩ := d_line hG l hn
    rw [h1, h2]
    exact ⟨h3, h4, by simp, by simp, Or.inl rfl⟩
  · intro t ht n l hl _
    exact hc t ht n (d_line hG l hl).1
  · intro t ht q hq
    refine ⟨0, ?_⟩
    rw [(no_recv _ (fun l hl => by
      obtain ⟨n, hn⟩ := List.getElem?_of_mem hl
      exact (d_line hG l hn).2.2.1) q).1]
    rfl

/-- The rows of the gather steps meet the conditions. -/
theorem gatherRows_wf (hu : ∀ n < N, u[n]? = some true) (rest : List Row) (ps : List Nat) :
    ∀ (G : Nat) (prev : Nat → Nat) (clean : Nat → Nat → Bool), 0 < G → CyclicReduce.Fits N G ps →
    (∀ t < N, ∀ n < min G N, clean t n = true) →
    (∀ (prev : Nat → Nat) (clean : Nat → Nat → Bool), (∀ t < N, ∀ n < min (G * (ps.map (· + 1)).prod) N, clean t n = true) → FRows N prev clean rest) →
    FRows N prev clean (gatherRows N u G ps ++ rest) := by
  induction ps with
  | nil =>
    intro G prev clean _ _ hc hrest
    exact hrest prev clean (by simpa using hc)
  | cons p ps ih =>
    intro G prev clean hG hfit hc hrest
    have m1 := g_moves G p hu hG hfit.1 clean hc
    have c1 : ∀ t < N, ∀ n < min (G * (p + 1)) N, cleanAfter prev clean (gRow N u G p) t n = true :=
      fun t ht n hn => moves_clean m1 prev t ht n (by rw [g_length]; exact hn)
    have m2 := d_moves (u := u) G p hG _ c1
    have := ih (G * (p + 1)) (fun t => (dRow N u G p t).length)
      (cleanAfter (fun t => (gRow N u G p t).length) (cleanAfter prev clean (gRow N u G p)) (dRow N u G p)) (Nat.mul_pos hG (by omega)) hfit.2
      (fun t ht n hn => moves_clean m2 _ t ht n (by rw [d_length]; exact hn)) (fun prev clean h => hrest prev clean (by
        rw [List.map_cons, List.prod_cons, ← Nat.mul_assoc]; exact h))
    rw [gatherRows, List.cons_append, List.cons_append]
    refine ⟨moves_mid m1, ?_⟩
    cases hr : gatherRows N u (G * (p + 1)) ps ++ rest with
    | nil => rw [hr] at this; cases this
    | cons next rest' =>
      rw [hr] at this
      exact ⟨moves_mid m2, this⟩

/-- The pass over the rows of the gather steps: all lines hold data. -/
theorem gatherRows_passes (hu : ∀ n < N, u[n]? = some true) (rest : List Row) (hne : rest ≠ []) (hrest : ∀ prev, Passes N prev rest) (ps : List Nat) :
    ∀ (G : Nat) (prev : Nat → Marks), 0 < G → CyclicReduce.Fits N G ps → (∀ t < N, ∀ n < min G N, val (prev t) n ≠ 0) →
    Passes N prev (gatherRows N u G ps ++ rest) := by
  induction ps with
  | nil => intro G prev _ _ _; exact hrest prev
  | cons p ps ih =>
    intro G prev hG hfit hm
    rw [gatherRows, List.cons_append, List.cons_append]
    have hne2 : gatherRows N u (G * (p + 1)) ps ++ rest ≠ [] := fun h => hne (List.append_eq_nil_iff.mp h).2
    refine moves_passes (g_moves G p hu hG hfit.1 (fun _ _ => true) fun _ _ _ _ => rfl) (g_ok G p hu hG hfit.1) prev ?_ _ (by simp) ?_
    · intro t ht n l hl hr
      obtain ⟨h0, _, _, h3⟩ := g_recv hG ht l hl
      rcases h3 with ⟨h, _⟩ | ⟨_, _, e, h, _⟩
      · exact hm t ht n (by omega)
      · rw [hr] at h; cases h
    · intro prev1 hm1
      refine moves_passes (d_moves G p hG (fun _ _ => true) fun _ _ _ _ => rfl) (d_ok G p hG) prev1 ?_ _ hne2 ?_
      · intro t ht n l hl _
        exact hm1 t ht n (by rw [g_length]; exact (d_line hG l hl).1)
      · intro prev2 hm2
        exact ih (G * (p + 1)) prev2 (Nat.mul_pos hG (by omega)) hfit.2 fun t ht n hn => hm2 t ht n (by rw [d_length]; exact hn)

end

end ExtMpi.Forward
