import Verif.Lemmas.RootedCyclic
import Verif.Lemmas.ForwardGather
/-! The steps of the cyclic allgather and of the second part of the cyclic allreduce are steps of a ring. -/
namespace ExtMpi.Rooted
open Schedule Cyclic Forward

theorem g_ring {N : Nat} {u : List Bool} (G p : Nat) (hu : ∀ n < N, u[n]? = some true) (hG : 0 < G) (hfit : G < N → p ≤ 2 ∨ G * p ≤ N) :
    Ring N G (min (G * (p + 1)) N) (gRow N u G p) := by
  have hout : ∀ q < N, ∀ t < N, q ≠ t → ¬G < N → ¬(dist N q t % G = 0 ∧ dist N q t < min (G * (p + 1)) N) := by
    intro q hq t ht hqt c h
    have h1 := dist_pos N q t ht hqt
    rw [Nat.mod_eq_of_lt (by omega)] at h
    omega
  refine ⟨fun t _ => by simp [gRow, Recursive.mk], ?_, ?_, ?_⟩
  · intro t ht n l hl
    obtain ⟨_, h1, h2, h3⟩ := g_recv hG ht l hl
    exact ⟨h1, h2, (g_send hG ht hfit l hl).2, (g_send hG ht hfit l hl).1, h3⟩
  · intro q hq t ht hqt
    by_cases c : G < N
    · exact (g_idx hu hG c (hfit c) hq ht hqt).1
    · rw [if_neg (hout q hq t ht hqt c)]
      exact (no_recv _ (fun l hl => by
        obtain ⟨n, hn⟩ := List.getElem?_of_mem hl
        exact (g_idle hG (by omega) ht l hn).2) q).1
  · intro q hq t ht hqt
    by_cases c : G < N
    · exact (g_idx hu hG c (hfit c) hq ht hqt).2
    · rw [if_neg (hout q hq t ht hqt c), List.eq_nil_iff_forall_not_mem]
      intro n hn
      obtain ⟨l, hl, e, he, _⟩ := mem_sendIdx _ _ _ hn
      rw [(g_idle hG (by omega) hq l hl).1] at he
      cases he

theorem d_idle {N : Nat} {u : List Bool} (G p : Nat) (hG : 0 < G) : Idle N (min (G * (p + 1)) N) (dRow N u G p) := by
  refine ⟨fun t _ => by simp [dRow, Recursive.mk], ?_⟩
  intro t ht l hl
  obtain ⟨n, hn⟩ := List.getElem?_of_mem hl
  exact (d_line hG l hn).2

theorem gatherRows_steps {N : Nat} {u : List Bool} (hu : ∀ n < N, u[n]? = some true) (ps : List Nat) : ∀ G, 0 < G → CyclicReduce.Fits N G ps →
    Steps N G ps (gatherRows N u G ps) := by
  induction ps with
  | nil => intro G _ _; exact .nil G
  | cons p ps ih =>
    intro G hG hfit
    exact .ring G p ps _ _ (g_ring G p hu hG hfit.1) (.idle _ ps _ _ (d_idle G p hG) (ih _ (Nat.mul_pos hG (by omega)) hfit.2))

/-! ### The cyclic allgather -/

/-- A step of the allgather on all nodes. -/
def agRow (N G p : Nat) : Row := fun t => gatherBlock N G (min G N) p t

/-- The steps of the allgather. -/
def agRows (N : Nat) : Nat → List Nat → List Row
  | _, [] => []
  | G, p :: ps => agRow N G p :: agRows N (G * (p + 1)) ps

theorem ag_min (N G p : Nat) : min (min G N * (p + 1)) N = min (G * (p + 1)) N := by
  by_cases c : G < N
  · rw [Nat.min_eq_left (by omega : G ≤ N)]
  · rw [Nat.min_eq_right (by omega : N ≤ G)]
    have h1 : N * 1 ≤ N * (p + 1) := Nat.mul_le_mul_left N (by omega)
    have h2 : G * 1 ≤ G * (p + 1) := Nat.mul_le_mul_left G (by omega)
    omega

theorem ag_get (N G p t n : Nat) (l : LineD) (h : (agRow N G p t)[n]? = some l) : n < min (G * (p + 1)) N ∧
    l = { frac := (t + n) % N, sendto := gatherSend N G (min (G * (p + 1)) N) (min G N) p t n, recvfrom := gatherRecv N G (min (G * (p + 1)) N) t n } := by
  unfold agRow gatherBlock at h
  simp only [ag_min] at h
  exact mk_get _ _ _ _ h

theorem ag_idle (N G p t n : Nat) (hGN : N ≤ G) (l : LineD) (h : (agRow N G p t)[n]? = some l) : l.sendto = [] ∧ l.recvfrom = [] := by
  obtain ⟨hn, rfl⟩ := ag_get N G p t n l h
  unfold gatherSend gatherRecv
  dsimp only
  rw [if_neg (by omega), if_neg (by omega)]
  exact ⟨rfl, rfl⟩

theorem ag_sends (N G L p t n : Nat) (hG : 0 < G) (hp : 0 < p) (ht : t < N) (hL : L ≤ N) (htight : G * p ≤ N) :
    (∀ e ∈ gatherSend N G L G p t n, 0 ≤ e.1 ∧ e.1 < N ∧ e.1 ≠ t) ∧ ((gatherSend N G L G p t n).map Prod.fst).Nodup := by
  unfold gatherSend
  split
  · rename_i hc
    have hkN : ∀ i < sendMax L G p n, (i + 1) * G < N := by
      intro i hi
      unfold sendMax at hi
      split at hi
      · have h2 : (i + 1 + 1) * G ≤ p * G := Nat.mul_le_mul_right G (by omega)
        rw [Nat.add_mul, Nat.one_mul] at h2
        rw [Nat.mul_comm p] at h2
        omega
      · have h2 : (i + 1) * G ≤ p * G := Nat.mul_le_mul_right G (by omega)
        omega
    have hval : ∀ i < sendMax L G p n, ((t : Int) + N - ((i : Int) + 1) * G).tmod N = (((N + t - (i + 1) * G) % N : Nat) : Int) := by
      intro i hi
      have := hkN i hi
      have e : (t : Int) + N - ((i : Int) + 1) * G = ((N + t - (i + 1) * G : Nat) : Int) := by
        have : ((N + t - (i + 1) * G : Nat) : Int) = (N : Int) + t - (((i + 1) * G : Nat) : Int) := by omega
        rw [this]; push_cast; ring
      rw [e]; rfl
    constructor
    · intro e he
      obtain ⟨i, hi, rfl⟩ := List.mem_map.mp he
      have hi := List.mem_range.mp hi
      dsimp only
      rw [hval i hi]
      obtain ⟨_, _, r1, r2⟩ := ring_range N t ((i + 1) * G) ht (Nat.mul_pos (by omega) hG) (hkN i hi)
      omega
    · rw [List.map_map, List.nodup_map_iff_inj_on List.nodup_range]
      intro i hi i' hi' e
      have hi := List.mem_range.mp hi
      have hi' := List.mem_range.mp hi'
      simp only [Function.comp] at e
      rw [hval i hi, hval i' hi', Nat.cast_inj] at e
      have a := hkN i hi
      have a' := hkN i' hi'
      have : (i + 1) * G = (i' + 1) * G := by
        have m : ∀ x, x < N → 0 < x → (N + t - x) % N = if t < x then N + t - x else t - x := by
          intro x hx _
          split
          · exact Nat.mod_eq_of_lt (by omega)
          · rw [Nat.mod_eq_sub_mod (by omega), Nat.mod_eq_of_lt (by omega)]; omega
        rw [m _ a (Nat.mul_pos (by omega) hG), m _ a' (Nat.mul_pos (by omega) hG)] at e
        split at e <;> split at e <;> omega
      have := Nat.eq_of_mul_eq_mul_right hG this
      omega
  · exact ⟨fun e he => (by cases he), by simp⟩

theorem ag_ring (N G p : Nat) (hG : 0 < G) (hp : 0 < p) (hfit : G < N → G * p ≤ N) : Ring N G (min (G * (p + 1)) N) (agRow N G p) := by
  obtain ⟨L, hL⟩ : ∃ L, L = min (G * (p + 1)) N := ⟨_, rfl⟩
  have hout : ∀ q < N, ∀ t < N, q ≠ t → ¬G < N → ¬(dist N q t % G = 0 ∧ dist N q t < min (G * (p + 1)) N) := by
    intro q hq t ht hqt c h
    have h1 := dist_pos N q t ht hqt
    rw [Nat.mod_eq_of_lt (by omega)] at h
    omega
  have hexch : G < N → Exchange N (agRow N G p) (fun _ _ => 0) (fun q t => if msgLen G L (dist N q t) = 0 then 0 else dist N q t)
      (fun q t => msgLen G L (dist N q t)) := by
    intro c
    have := Cyclic.exchange N G L p hG hp hL (.inl (hfit c))
    unfold agRow gatherBlock
    simp only [ag_min]
    rw [Nat.min_eq_left (by omega : G ≤ N), ← hL]
    exact this
  have hmsg : ∀ d, 0 < d → msgLen G L d = if d % G = 0 ∧ d < L then min G (L - d) else 0 := by
    intro d hd
    unfold msgLen
    by_cases c : d % G = 0 ∧ d < L
    · have := Nat.le_of_dvd hd (Nat.dvd_of_mod_eq_zero c.1)
      rw [if_pos c, if_pos ⟨c.1, this, c.2⟩]
    · rw [if_neg c, if_neg (fun h => c ⟨h.1, h.2.2⟩)]
  refine ⟨fun t _ => ?_, ?_, ?_, ?_⟩
  · unfold agRow gatherBlock
    simp only [ag_min]
    simp [Recursive.mk]
  · intro t ht n l hl
    by_cases c : G < N
    · obtain ⟨hn, rfl⟩ := ag_get N G p t n l hl
      rw [← hL] at hn ⊢
      rw [Nat.min_eq_left (by omega : G ≤ N)]
      obtain ⟨s1, s2⟩ := ag_sends N G L p t n hG hp ht (by omega) (hfit c)
      refine ⟨rfl, rfl, s2, s1, ?_⟩
      dsimp only
      by_cases hnG : n < G
      · left
        refine ⟨hnG, ?_⟩
        unfold gatherRecv
        rw [if_neg (by omega)]
      · right
        refine ⟨by omega, ?_, ?_⟩
        · unfold gatherSend
          rw [if_neg (by omega)]
        · unfold gatherRecv
          rw [if_pos ⟨by omega, by omega⟩]
          refine ⟨_, rfl, ?_⟩
          dsimp only
          obtain ⟨_, c1, c2⟩ := chunk_mult G n N hG (by omega) (by omega)
          have e : t + N + n / G * G = t + n / G * G + N := by omega
          rw [e, Nat.add_mod_right]
          obtain ⟨r1, r2, _⟩ := ring_range N t _ ht c1 c2
          omega
    · obtain ⟨h1, h2⟩ := ag_idle N G p t n (by omega) l hl
      obtain ⟨hn, hl2⟩ := ag_get N G p t n l hl
      refine ⟨by rw [hl2], by rw [hl2], by rw [h1]; simp, fun e he => (by rw [h1] at he; cases he), Or.inl ⟨by omega, h2⟩⟩
  · intro q hq t ht hqt
    by_cases c : G < N
    · rw [(hexch c).recv q t hq ht hqt, hmsg _ (dist_pos N q t ht hqt), ← hL]
      by_cases c2 : dist N q t % G = 0 ∧ dist N q t < L
      · rw [if_pos c2, if_pos c2, if_neg (by omega)]
      · rw [if_neg c2, if_neg c2]
        rfl
    · rw [if_neg (hout q hq t ht hqt c)]
      exact (no_recv _ (fun l hl => by
        obtain ⟨n, hn⟩ := List.getElem?_of_mem hl
        exact (ag_idle N G p t n (by omega) l hn).2) q).1
  · intro q hq t ht hqt
    by_cases c : G < N
    · rw [(hexch c).send q t hq ht hqt, hmsg _ (dist_pos N q t ht hqt), ← hL]
      by_cases c2 : dist N q t % G = 0 ∧ dist N q t < L
      · rw [if_pos c2, if_pos c2]
      · rw [if_neg c2, if_neg c2]
        rfl
    · rw [if_neg (hout q hq t ht hqt c), List.eq_nil_iff_forall_not_mem]
      intro n hn
      obtain ⟨l, hl, e, he, _⟩ := mem_sendIdx _ _ _ hn
      rw [(ag_idle N G p q n (by omega) l hl).1] at he
      cases he

theorem agRows_steps (N : Nat) (ps : List Nat) (hp : ∀ p, p ∈ ps → 0 < p) : ∀ G, 0 < G → Cyclic.Fits N G ps → Steps N G ps (agRows N G ps) := by
  induction ps with
  | nil => intro G _ _; exact .nil G
  | cons p ps ih =>
    intro G hG hfit
    exact .ring G p ps _ _ (ag_ring N G p hG (hp p List.mem_cons_self) hfit.1)
      (ih (fun q hq => hp q (List.mem_cons_of_mem _ hq)) _ (Nat.mul_pos hG (by omega)) hfit.2)

theorem agRows_columns (N t : Nat) (ps : List Nat) : ∀ G, gatherSteps N t G (min G N) ps =
    (columns (agRows N G ps) t, min (G * (ps.map (· + 1)).prod) N) := by
  induction ps with
  | nil => intro G; simp [gatherSteps, columns, agRows]
  | cons p ps ih =>
    intro G
    rw [gatherSteps]
    simp only [ag_min]
    rw [ih (G * (p + 1)), List.map_cons, List.prod_cons, ← Nat.mul_assoc]
    rfl

end ExtMpi.Rooted
