import Verif.Lemmas.ForwardCyclic
/-! Gathers and reduces made of the cyclic algorithms: which lines the root needs. -/
namespace ExtMpi.Rooted
open Schedule Cyclic Forward

/-- A step in which line `n` of node `t` is received from the node at distance `n / G * G` for `G ≤ n`. -/
structure Ring (N G S : Nat) (row : Row) : Prop where
  len : ∀ t < N, (row t).length = S
  line : ∀ t < N, ∀ (n : Nat) (l : LineD), (row t)[n]? = some l → l.reducefrom = [] ∧ l.copyreducefrom = [] ∧ (l.sendto.map Prod.fst).Nodup ∧
    (∀ e ∈ l.sendto, 0 ≤ e.1 ∧ e.1 < N ∧ e.1 ≠ t) ∧
    ((n < G ∧ l.recvfrom = []) ∨ (G ≤ n ∧ l.sendto = [] ∧ ∃ e, l.recvfrom = [e] ∧ 0 ≤ e.1 ∧ e.1 < N ∧ e.1 ≠ t))
  recv : ∀ q < N, ∀ t < N, q ≠ t → recvIdx (row t) q = if dist N q t % G = 0 ∧ dist N q t < S then
    List.range' (dist N q t) (min G (S - dist N q t)) else []
  send : ∀ q < N, ∀ t < N, q ≠ t → sendIdx (row q) t = if dist N q t % G = 0 ∧ dist N q t < S then
    List.range' 0 (min G (S - dist N q t)) else []

/-- A row without communication and reductions. -/
structure Idle (N S : Nat) (row : Row) : Prop where
  len : ∀ t < N, (row t).length = S
  line : ∀ t < N, ∀ l ∈ row t, l.sendto = [] ∧ l.recvfrom = [] ∧ l.reducefrom = [] ∧ l.copyreducefrom = []

theorem sendIdx_mem (b : Block) (t n : Nat) (l : LineD) (hl : b[n]? = some l) (e : Int × Int) (he : e ∈ l.sendto) (h : e.1 = (t : Int)) :
    n ∈ sendIdx b t := by
  unfold sendIdx
  refine List.mem_flatMap.mpr ⟨(l, n), List.mem_zipIdx_iff_getElem?.2 hl, ?_⟩
  exact List.mem_map.mpr ⟨e, List.mem_filter.mpr ⟨he, by simp [h]⟩, rfl⟩

theorem dist_self (N t : Nat) : dist N t t = 0 := by unfold dist; simp

section
variable {N G S : Nat} {row : Row}

theorem ring_recvNodup (h : Ring N G S row) (t : Nat) (ht : t < N) : ∀ l ∈ row t, (l.recvfrom.map Prod.fst).Nodup := by
  intro l hl
  obtain ⟨n, hn⟩ := List.getElem?_of_mem hl
  rcases (h.line t ht n l hn).2.2.2.2 with ⟨_, h⟩ | ⟨_, _, e, h, _⟩
  · rw [h]; simp
  · rw [h]; simp

theorem ring_self (h : Ring N G S row) (t : Nat) (ht : t < N) : recvIdx (row t) t = [] ∧ sendIdx (row t) t = [] := by
  constructor
  · rw [List.eq_nil_iff_forall_not_mem]
    intro n hn
    obtain ⟨l, hl, e, he, h1⟩ := (mem_recvIdx _ _ _).mp hn
    rcases (h.line t ht n l hl).2.2.2.2 with ⟨_, h⟩ | ⟨_, _, e', h, h2⟩
    · rw [h] at he; cases he
    · rw [h, List.mem_singleton] at he
      subst he
      exact h2.2.2 h1
  · rw [List.eq_nil_iff_forall_not_mem]
    intro n hn
    obtain ⟨l, hl, e, he, h1⟩ := mem_sendIdx _ _ _ hn
    exact ((h.line t ht n l hl).2.2.2.1 e he).2.2 h1

theorem ring_ok (h : Ring N G S row) : exchangeOk N row = true := by
  unfold exchangeOk
  rw [List.all_eq_true]
  intro t ht
  have ht := List.mem_range.mp ht
  rw [Bool.and_eq_true, List.all_eq_true, List.all_eq_true]
  constructor
  · intro l hl
    obtain ⟨n, hn⟩ := List.getElem?_of_mem hl
    rw [Bool.and_eq_true, List.all_eq_true, List.all_eq_true]
    refine ⟨fun e he => decide_eq_true ((h.line t ht n l hn).2.2.2.1 e he), fun e he => ?_⟩
    rcases (h.line t ht n l hn).2.2.2.2 with ⟨_, h⟩ | ⟨_, _, e', h, h2⟩
    · rw [h] at he; cases he
    · rw [h, List.mem_singleton] at he
      subst he
      exact decide_eq_true h2
  · intro q hq
    have hq := List.mem_range.mp hq
    rw [recvEnt_eq _ _ (ring_recvNodup h q hq), beq_iff_eq]
    by_cases hqt : t = q
    · subst hqt
      rw [(ring_self h t ht).1, (ring_self h t ht).2]
    · rw [h.recv t ht q hq hqt, h.send t ht q hq hqt]
      split <;> simp

theorem ring_mid (h : Ring N G S row) (prev top : Nat → Nat) (hp : ∀ t < N, min G S ≤ prev t) : WfMid N prev top row := by
  refine ⟨?_, ?_, ?_, ?_⟩
  · intro t ht
    refine ⟨?_, ?_, ?_, ?_⟩
    · intro l hl r hr
      obtain ⟨n, hn⟩ := List.getElem?_of_mem hl
      rw [(h.line t ht n l hn).1, (h.line t ht n l hn).2.1] at hr
      cases hr
    · intro j r l lr hl hlr hr
      rw [(h.line t ht j l hl).2.1] at hr
      cases hr
    · intro j l hl hj _ hr
      rcases (h.line t ht j l hl).2.2.2.2 with ⟨h1, _⟩ | ⟨_, _, e, h1, _⟩
      · have h2 := (List.getElem?_eq_some_iff.mp hl).1
        rw [h.len t ht] at h2
        have := hp t ht
        omega
      · rw [hr] at h1; cases h1
    · intro j l hl hj e he
      rcases (h.line t ht j l hl).2.2.2.2 with ⟨h1, _⟩ | ⟨_, h1, _⟩
      · have h2 := (List.getElem?_eq_some_iff.mp hl).1
        rw [h.len t ht] at h2
        have := hp t ht
        omega
      · rw [h1] at he; cases he
  · intro t ht l hl
    obtain ⟨n, hn⟩ := List.getElem?_of_mem hl
    exact ⟨(h.line t ht n l hn).2.2.1, ring_recvNodup h t ht l hl⟩
  · intro t ht l hl
    obtain ⟨n, hn⟩ := List.getElem?_of_mem hl
    rcases (h.line t ht n l hn).2.2.2.2 with ⟨_, h1⟩ | ⟨_, h1, _⟩
    · exact Or.inr h1
    · exact Or.inl h1
  · intro t ht q hq
    by_cases hqt : q = t
    · subst hqt
      rw [(ring_self h q ht).1]
      exact ⟨0, rfl⟩
    · rw [h.recv q hq t ht hqt]
      split
      · exact ⟨dist N q t, by simp⟩
      · exact ⟨0, rfl⟩

theorem idle_ok (h : Idle N S row) : exchangeOk N row = true := by
  unfold exchangeOk
  rw [List.all_eq_true]
  intro t ht
  have ht := List.mem_range.mp ht
  rw [Bool.and_eq_true, List.all_eq_true, List.all_eq_true]
  constructor
  · intro l hl
    obtain ⟨h1, h2, _⟩ := h.line t ht l hl
    rw [h1, h2]
    rfl
  · intro q hq
    have hq := List.mem_range.mp hq
    have h1 : sendIdx (row t) q = [] := by
      rw [List.eq_nil_iff_forall_not_mem]
      intro n hn
      obtain ⟨l, hl, e, he, _⟩ := mem_sendIdx _ _ _ hn
      rw [(h.line t ht l (List.mem_of_getElem? hl)).1] at he
      cases he
    have h2 : recvEnt (row q) t = [] := by
      rw [recvEnt_eq]
      · exact (no_recv _ (fun l hl => (h.line q hq l hl).2.1) t).1
      · intro l hl
        rw [(h.line q hq l hl).2.1]
        simp
    rw [h1, h2]
    rfl

theorem idle_mid (h : Idle N S row) (prev top : Nat → Nat) (hp : ∀ t < N, S ≤ prev t) : WfMid N prev top row := by
  refine ⟨?_, ?_, ?_, ?_⟩
  · intro t ht
    refine ⟨?_, ?_, ?_, ?_⟩
    · intro l hl r hr
      rw [(h.line t ht l hl).2.2.1, (h.line t ht l hl).2.2.2] at hr
      cases hr
    · intro j r l lr hl hlr hr
      rw [(h.line t ht l (List.mem_of_getElem? hl)).2.2.2] at hr
      cases hr
    · intro j l hl hj _ hr
      have h2 := (List.getElem?_eq_some_iff.mp hl).1
      rw [h.len t ht] at h2
      have := hp t ht
      omega
    · intro j l hl hj e he
      rw [(h.line t ht l (List.mem_of_getElem? hl)).1] at he
      cases he
  · intro t ht l hl
    obtain ⟨h1, h2, _⟩ := h.line t ht l hl
    rw [h1, h2]; simp
  · intro t ht l hl
    exact Or.inl (h.line t ht l hl).1
  · intro t ht q hq
    refine ⟨0, ?_⟩
    rw [(no_recv _ (fun l hl => (h.line t ht l hl).2.1) q).1]
    rfl

end

/-! ### Needs -/

theorem descend_plain (b : Block) (h : ∀ l ∈ b, l.reducefrom = [] ∧ l.copyreducefrom = []) (v : Vals) : descend b v = v := by
  unfold descend
  generalize (List.range b.length).reverse = js
  induction js generalizing v with
  | nil => rfl
  | cons j js ih =>
    rw [List.foldl_cons]
    have : markLine b v j = v := by
      unfold markLine
      split
      · rename_i l hl
        rw [(h l (List.mem_of_getElem? hl)).1, (h l (List.mem_of_getElem? hl)).2]
        simp
      · rfl
    rw [this, ih]

/-- Needs before a step. -/
theorem ring_needs {N G S : Nat} {row : Row} (h : Ring N G S row) (hG : 0 < G) (hSN : S ≤ N) (root : Nat) (hr : root < N) (st : Nat → Nat)
    (hst : ∀ y < N, st y ≤ y ∧ y < st y + S) (v : Nat → Vals)
    (hv : ∀ t < N, ∀ n < S, need (v t) n = true ↔ Data N root st t n) (t : Nat) (ht : t < N) :
    (∀ n < min G S, need (exchange row v t) n = true ↔ Data N root (cut G st) t n) ∧
    ∀ n, G ≤ n → n < S → (need (exchange row v t) n = true ↔ Data N root st t n) := by
  have hline : ∀ n < S, ∃ l, (row t)[n]? = some l := by
    intro n hn
    have hlt : n < (row t).length := by rw [h.len t ht]; exact hn
    exact ⟨_, List.getElem?_eq_getElem hlt⟩
  -- a partner wants the line at its distance
  have hwant : ∀ q < N, ∀ n ∈ sendIdx (row t) q, n < G ∧ 0 < dist N t q ∧ dist N t q % G = 0 ∧ dist N t q + n < S ∧
      (wanted row v t q n = true ↔ Data N root st q (dist N t q + n)) := by
    intro q hq n hn
    have hqt : t ≠ q := by
      rintro rfl
      rw [(ring_self h t ht).2] at hn
      cases hn
    have hs := h.send t ht q hq hqt
    have hrr := h.recv t ht q hq hqt
    rw [hs] at hn
    split at hn
    · rename_i hc
      rw [if_pos hc] at hs hrr
      have hn := (List.mem_range'_1.mp hn).2
      have hd0 := dist_pos N t q hq hqt
      refine ⟨by omega, hd0, hc.1, by omega, ?_⟩
      unfold wanted partnerLine
      rw [Int.toNat_natCast, recvEnt_eq _ _ (ring_recvNodup h q hq), hs, hrr]
      have := lookup_range 0 n (dist N t q + n) (List.range' (dist N t q) (min G (S - dist N t q))) (by
        rw [List.getElem?_range' (by omega)]
        congr 1
        omega)
      rw [List.length_range', Nat.zero_add] at this
      rw [this]
      dsimp only
      exact hv q hq _ (by omega)
    · cases hn
  constructor
  · intro n hn
    obtain ⟨l, hl⟩ := hline n (by omega)
    rw [need_exchange row v t n l hl, Bool.or_eq_true, List.any_eq_true, hv t ht n (by omega)]
    constructor
    · rintro (⟨e, he, hw⟩ | hd)
      · obtain ⟨p1, p2, p3⟩ := (h.line t ht n l hl).2.2.2.1 e he
        obtain ⟨q, hq⟩ : ∃ q, q = e.1.toNat := ⟨_, rfl⟩
        have hqe : e.1 = (q : Int) := by omega
        have hqN : q < N := by omega
        rw [hqe] at hw
        obtain ⟨_, w0, w1, w2, w3⟩ := hwant q hqN n (sendIdx_mem _ _ _ l hl e he hqe)
        obtain ⟨g1, g2⟩ := w3.mp hw
        -- distances
        have hq' : q = (t + N - dist N t q) % N := by
          have hlt := dist_lt N t q ht hqN
          unfold dist at hlt ⊢
          split
          · have : t + N - (t - q) = q + N := by omega
            rw [this, Nat.add_mod_right, Nat.mod_eq_of_lt hqN]
          · have : t + N - (t + N - q) = q := by omega
            rw [this, Nat.mod_eq_of_lt hqN]
        have hd := (dist_step N t q root (dist N t q) ht hr (dist_lt N t q ht hqN) hq').2 (by omega)
        refine ⟨by omega, ?_⟩
        have e1 : dist N t root + n = dist N q root + (dist N t q + n) := by omega
        rw [e1]
        unfold cut
        rw [g2, Nat.add_sub_cancel_left]
        have hdd := Nat.div_add_mod (dist N t q) G
        rw [w1, Nat.mul_comm] at hdd
        have : (dist N t q + n) / G = dist N t q / G := (Recursive.div_eq_iff' G _ _ hG).2 ⟨by omega, by omega⟩
        rw [this]
        omega
      · refine ⟨hd.1, ?_⟩
        unfold cut
        rw [hd.2, Nat.add_sub_cancel_left, Nat.div_eq_of_lt (by omega)]
        omega
    · rintro ⟨g1, g2⟩
      obtain ⟨y0, hy0⟩ : ∃ y0, y0 = dist N t root + n := ⟨_, rfl⟩
      rw [← hy0] at g1 g2
      obtain ⟨s1, s2⟩ := hst y0 g1
      unfold cut at g2
      obtain ⟨y, hy⟩ : ∃ y, y = y0 - st y0 := ⟨_, rfl⟩
      rw [← hy] at g2
      have hyn : y = y / G * G + n := by omega
      by_cases hc0 : y / G = 0
      · rw [hc0] at g2 hyn
        right
        refine ⟨by omega, ?_⟩
        rw [← hy0]
        omega
      · left
        have hkG : G ≤ y / G * G := Nat.le_mul_of_pos_left G (Nat.pos_of_ne_zero hc0)
        obtain ⟨q, hq⟩ : ∃ q, q = (t + N - y / G * G) % N := ⟨_, rfl⟩
        obtain ⟨d1, d2, d3⟩ := CyclicReduce.dist_back N t (y / G * G) ht (by omega) (by omega)
        rw [← hq] at d1 d2 d3
        have hin : n ∈ sendIdx (row t) q := by
          rw [h.send t ht q d1 (fun h => d2 h.symm), d3, if_pos ⟨Nat.mul_mod_left _ _, by omega⟩, List.mem_range'_1]
          omega
        obtain ⟨l', hl', e, he, heq⟩ := mem_sendIdx _ _ _ hin
        rw [hl, Option.some.injEq] at hl'
        subst hl'
        refine ⟨e, he, ?_⟩
        rw [heq]
        obtain ⟨_, _, _, _, w3⟩ := hwant q d1 n hin
        rw [w3, d3]
        have hd := (dist_step N t q root (y / G * G) ht hr (by omega) hq).1 (by omega)
        have e1 : dist N q root + (y / G * G + n) = y0 := by omega
        refine ⟨by omega, ?_⟩
        rw [e1, hd]
        omega
  · intro n hn hnS
    obtain ⟨l, hl⟩ := hline n hnS
    have hs : l.sendto = [] := by
      rcases (h.line t ht n l hl).2.2.2.2 with ⟨h1, _⟩ | ⟨_, h1, _⟩
      · omega
      · exact h1
    rw [need_exchange row v t n l hl, hs]
    simp only [List.any_nil, Bool.false_or]
    exact hv t ht n hnS

/-! ### The pass over rows -/

/-- The pass succeeds on the rows after block 0, no message is mixed, and the values have a property. -/
def Prunes (N root : Nat) (rows : List Row) (P : (Nat → Vals) → Prop) : Prop :=
  ∃ rows' v, prune N root false rows = some (rows', v) ∧ Unmixed N rows' ∧ P v

theorem prune_cons (N root : Nat) (row : Row) (rest rn : List Row) (vn : Nat → Vals) (hne : rest ≠ [])
    (h : prune N root false rest = some (rn, vn)) (hex : exchangeOk N row = true) :
    prune N root false (row :: rest) = some (midBlock row (fun t => descend (row t) (inherit (row t) (vn t))) :: rn,
      exchange row fun t => descend (row t) (inherit (row t) (vn t))) := by
  cases rest with
  | nil => exact absurd rfl hne
  | cons next rest =>
    rw [prune, h]
    simp only [Bool.false_eq_true, if_false]
    rw [if_pos hex]

theorem ring_prunes {N G S : Nat} {row : Row} (h : Ring N G S row) (hG : 0 < G) (hSN : S ≤ N) (root : Nat) (hr : root < N) (st : Nat → Nat)
    (hst : ∀ y < N, st y ≤ y ∧ y < st y + S)
    (hw : ∀ d y y', G ≤ y → y < S → y' < S → y / G = y' / G → d + y < N → st (d + y) = d → d + y' < N ∧ st (d + y') = d)
    (rest : List Row) (hne : rest ≠ []) (hrest : Prunes N root rest fun v => ∀ t < N, ∀ n < S, need (v t) n = true ↔ Data N root st t n) :
    Prunes N root (row :: rest) fun v => ∀ t < N, ∀ n < min G S, need (v t) n = true ↔ Data N root (cut G st) t n := by
  obtain ⟨rn, vn, p1, p2, p3⟩ := hrest
  have hex := ring_ok h
  have hplain : ∀ t < N, descend (row t) (inherit (row t) (vn t)) = inherit (row t) (vn t) := fun t ht => descend_plain _ (fun l hl => by
    obtain ⟨n, hn⟩ := List.getElem?_of_mem hl
    exact ⟨(h.line t ht n l hn).1, (h.line t ht n l hn).2.1⟩) _
  obtain ⟨v, hv⟩ : ∃ v, v = fun t => descend (row t) (inherit (row t) (vn t)) := ⟨_, rfl⟩
  have hneed : ∀ t < N, ∀ n < S, need (v t) n = true ↔ Data N root st t n := by
    intro t ht n hn
    rw [hv]
    dsimp only
    rw [hplain t ht, need_inherit _ _ _ (by rw [h.len t ht]; exact hn)]
    exact p3 t ht n hn
  have hk := fun t ht => ring_needs h hG hSN root hr st hst v hneed t ht
  have hp := prune_cons N root row rest rn vn hne p1 hex
  rw [← hv] at hp
  refine ⟨_, _, hp, ?_, fun t ht => (hk t ht).1⟩
  intro row' hrow t ht q hq hqt
  rcases List.mem_cons.mp hrow with rfl | hrow
  · obtain ⟨i1, i2, _⟩ := shape_idx N t (row t) _ _ (mid_shape N row v t ht hex) q
    change recvIdx (midBlock row v t) q = _ at i1
    change deadIdx (midBlock row v t) q = _ at i2
    rw [i1, i2, h.recv q hq t ht hqt]
    split
    · rename_i hc
      have hd0 := dist_pos N q t ht hqt
      have hdd := Nat.div_add_mod (dist N q t) G
      rw [hc.1, Nat.mul_comm] at hdd
      have hGd : G ≤ dist N q t := Nat.le_of_dvd hd0 (Nat.dvd_of_mod_eq_zero hc.1)
      by_cases hex : ∃ n ∈ List.range' (dist N q t) (min G (S - dist N q t)), need (exchange row v t) n = true
      · right
        obtain ⟨n, hn, hx⟩ := hex
        rw [List.mem_range'_1] at hn
        obtain ⟨x1, x2⟩ := ((hk t ht).2 n (by omega) (by omega)).mp hx
        rw [List.filter_eq_nil_iff]
        intro y hy
        rw [List.mem_range'_1] at hy
        have e1 : n / G = dist N q t / G := (Recursive.div_eq_iff' G _ _ hG).2 ⟨by omega, by omega⟩
        have e2 : y / G = dist N q t / G := (Recursive.div_eq_iff' G _ _ hG).2 ⟨by omega, by omega⟩
        have := hw (dist N t root) n y (by omega) (by omega) (by omega) (by rw [e1, e2]) x1 x2
        rw [((hk t ht).2 y (by omega) (by omega)).mpr this]
        simp
      · left
        rw [List.filter_eq_nil_iff]
        intro n hn hx
        exact hex ⟨n, hn, hx⟩
    · left; rfl
  · exact p2 row' hrow t ht q hq hqt

theorem idle_prunes {N S : Nat} {row : Row} (h : Idle N S row) (root : Nat) (P : Nat → Nat → Prop)
    (rest : List Row) (hne : rest ≠ []) (hrest : Prunes N root rest fun v => ∀ t < N, ∀ n < S, need (v t) n = true ↔ P t n) :
    Prunes N root (row :: rest) fun v => ∀ t < N, ∀ n < S, need (v t) n = true ↔ P t n := by
  obtain ⟨rn, vn, p1, p2, p3⟩ := hrest
  have hex := idle_ok h
  refine ⟨_, _, prune_cons N root row rest rn vn hne p1 hex, ?_, ?_⟩
  · intro row' hrow t ht q hq hqt
    rcases List.mem_cons.mp hrow with rfl | hrow
    · obtain ⟨i1, _, _⟩ := shape_idx N t (row t) _ _ (mid_shape N row (fun t => descend (row t) (inherit (row t) (vn t))) t ht hex) q
      left
      change recvIdx (midBlock row _ t) q = _ at i1
      rw [i1, (no_recv _ (fun l hl => (h.line t ht l hl).2.1) q).1]
      rfl
    · exact p2 row' hrow t ht q hq hqt
  · intro t ht n hn
    have hlt : n < (row t).length := by rw [h.len t ht]; exact hn
    rw [need_exchange row _ t n _ (List.getElem?_eq_getElem hlt), (h.line t ht _ (List.getElem_mem hlt)).1]
    simp only [List.any_nil, Bool.false_or]
    rw [descend_plain _ (fun l hl => (h.line t ht l hl).2.2), need_inherit _ _ _ hlt]
    exact p3 t ht n hn

/-- The last row: all lines are results. -/
structure Ends (N : Nat) (row : Row) : Prop where
  len : ∀ t < N, (row t).length = N
  line : ∀ t < N, ∀ l ∈ row t, (∃ x, l.sendto = [(-1, x)]) ∧ l.recvfrom = [] ∧ l.reducefrom = [] ∧ l.copyreducefrom = []

theorem ends_prunes {N : Nat} {row : Row} (h : Ends N row) (root : Nat) (hr : root < N) :
    Prunes N root [row] fun v => ∀ t < N, ∀ n < N, need (v t) n = true ↔ Data N root (fun _ => 0) t n := by
  refine ⟨_, _, rfl, ?_, ?_⟩
  · intro row' hrow t ht q hq hqt
    rw [List.mem_singleton] at hrow
    subst hrow
    left
    refine (no_recv _ (fun l hl => ?_) q).1
    unfold endBlock at hl
    obtain ⟨i, hi, rfl⟩ := List.mem_mapIdx.mp hl
    rw [dropLine_recv, (h.line t ht _ (List.getElem_mem hi)).2.1]
    simp
  · intro t ht n hn
    have hlt : n < (row t).length := by rw [h.len t ht]; exact hn
    dsimp only
    rw [descend_plain _ (fun l hl => (h.line t ht l hl).2.2)]
    unfold need seed
    rw [List.getElem?_map, List.getElem?_eq_getElem hlt]
    obtain ⟨x, hx⟩ := (h.line t ht _ (List.getElem_mem hlt)).1
    rw [Option.map_some, hx]
    unfold Data
    have hd := dist_lt N t root ht hr
    by_cases c : t = root
    · subst c
      rw [dist_self]
      simpa using hn
    · have := dist_pos N t root hr c
      simp [c]
      omega

theorem ends_wf {N : Nat} {row : Row} (h : Ends N row) (prev top : Nat → Nat) (hp : ∀ t < N, N ≤ prev t) : WfRows N prev top [row] := by
  refine ⟨?_, ?_, fun t ht l hl => (h.line t ht l hl).2.1⟩
  · intro t ht
    refine ⟨?_, ?_, ?_, ?_⟩
    · intro l hl r hr
      rw [(h.line t ht l hl).2.2.1, (h.line t ht l hl).2.2.2] at hr
      cases hr
    · intro j r l lr hl _ hr
      rw [(h.line t ht l (List.mem_of_getElem? hl)).2.2.2] at hr
      cases hr
    · intro j l hl hj
      have h2 := (List.getElem?_eq_some_iff.mp hl).1
      rw [h.len t ht] at h2
      have := hp t ht
      omega
    · intro j l hl hj
      have h2 := (List.getElem?_eq_some_iff.mp hl).1
      rw [h.len t ht] at h2
      have := hp t ht
      omega
  · intro t ht l hl e he
    obtain ⟨x, hx⟩ := (h.line t ht l hl).1
    rw [hx, List.mem_singleton] at he
    rw [he]

theorem wf_cons (N : Nat) (prev top : Nat → Nat) (row : Row) (rest : List Row) (hne : rest ≠ []) (h : WfMid N prev top row)
    (hr : WfRows N (fun t => (row t).length) (fun t => max (top t) (row t).length) rest) : WfRows N prev top (row :: rest) := by
  cases rest with
  | nil => exact absurd rfl hne
  | cons next rest => exact ⟨h, hr⟩

/-- Steps of a gather, which may be followed by rows without effect. -/
inductive Steps (N : Nat) : Nat → List Nat → List Row → Prop
  | nil (G : Nat) : Steps N G [] []
  | ring (G p : Nat) (ps : List Nat) (row : Row) (rows : List Row) : Ring N G (min (G * (p + 1)) N) row → Steps N (G * (p + 1)) ps rows →
      Steps N G (p :: ps) (row :: rows)
  | idle (G : Nat) (ps : List Nat) (row : Row) (rows : List Row) : Idle N (min G N) row → Steps N G ps rows → Steps N G ps (row :: rows)

theorem needSt_spec (N : Nat) (ps : List Nat) : ∀ G, 0 < G → N ≤ G * (ps.map (· + 1)).prod →
    ∀ y < N, needSt G ps y ≤ y ∧ y < needSt G ps y + G := by
  induction ps with
  | nil =>
    intro G hG hN y hy
    simp only [List.map_nil, List.prod_nil, Nat.mul_one] at hN
    unfold needSt
    omega
  | cons p ps ih =>
    intro G hG hN
    refine cut_spec N G hG _ fun y hy => (ih (G * (p + 1)) (Nat.mul_pos hG (by omega)) ?_ y hy).1
    rw [List.map_cons, List.prod_cons, ← Nat.mul_assoc] at hN
    exact hN

theorem steps_prunes {N G : Nat} {ps : List Nat} {rows : List Row} (h : Steps N G ps rows) (root : Nat) (hr : root < N) (last : Row) (hl : Ends N last) :
    0 < G → WholeUp N G ps → N ≤ G * (ps.map (· + 1)).prod →
    Prunes N root (rows ++ [last]) fun v => ∀ t < N, ∀ n < min G N, need (v t) n = true ↔ Data N root (needSt G ps) t n := by
  induction h with
  | nil G =>
    intro _ _ hN
    simp only [List.map_nil, List.prod_nil, Nat.mul_one] at hN
    obtain ⟨rn, v, a, b, c⟩ := ends_prunes hl root hr
    exact ⟨rn, v, a, b, fun t ht n hn => c t ht n (by omega)⟩
  | ring G p ps row rows hrow _ ih =>
    intro hG hw hN
    rw [List.map_cons, List.prod_cons, ← Nat.mul_assoc] at hN
    have hG' : 0 < G * (p + 1) := Nat.mul_pos hG (by omega)
    have hle : G ≤ G * (p + 1) := Nat.le_mul_of_pos_right G (by omega)
    obtain ⟨rn, v, a, b, c⟩ := ring_prunes hrow hG (Nat.min_le_right _ _) root hr (needSt (G * (p + 1)) ps) (fun y hy => by
      have := needSt_spec N ps _ hG' hN y hy
      omega) hw.1 (rows ++ [last]) (by simp) (ih hG' hw.2 hN)
    exact ⟨rn, v, a, b, fun t ht n hn => c t ht n (by omega)⟩
  | idle G ps row rows hrow _ ih =>
    intro hG hw hN
    exact idle_prunes hrow root _ (rows ++ [last]) (by simp) (ih hG hw hN)

theorem steps_wf {N G : Nat} {ps : List Nat} {rows : List Row} (h : Steps N G ps rows) (last : Row) (hl : Ends N last) :
    0 < G → N ≤ G * (ps.map (· + 1)).prod → ∀ prev top : Nat → Nat, (∀ t < N, min G N ≤ prev t) → WfRows N prev top (rows ++ [last]) := by
  induction h with
  | nil G =>
    intro _ hN prev top hp
    simp only [List.map_nil, List.prod_nil, Nat.mul_one] at hN
    refine ends_wf hl prev top fun t ht => ?_
    have := hp t ht
    omega
  | ring G p ps row rows hrow _ ih =>
    intro hG hN prev top hp
    rw [List.map_cons, List.prod_cons, ← Nat.mul_assoc] at hN
    have hG' : 0 < G * (p + 1) := Nat.mul_pos hG (by omega)
    refine wf_cons N prev top row _ (by simp) (ring_mid hrow prev top fun t ht => ?_) (ih hG' hN _ _ fun t ht => ?_)
    · have := hp t ht
      omega
    · rw [hrow.len t ht]
  | idle G ps row rows hrow _ ih =>
    intro hG hN prev top hp
    refine wf_cons N prev top row _ (by simp) (idle_mid hrow prev top hp) (ih hG hN _ _ fun t ht => ?_)
    rw [hrow.len t ht]

/-! ### The reductions -/

section
open CyclicReduce

theorem ex_wf (N S p : Nat) (hS : 0 < S) (hSN : S ≤ N) (prev top : Nat → Nat) (hp : ∀ t < N, S ≤ prev t) : WfMid N prev top (exRow N S p) := by
  have hf := ex_mid N S p hS hSN (fun _ _ => true) fun _ _ _ _ => rfl
  refine ⟨?_, ?_, ?_, hf.block⟩
  · intro t ht
    refine ⟨?_, ?_, ?_, ?_⟩
    · intro l hl r hr
      obtain ⟨n, hn⟩ := List.getElem?_of_mem hl
      rw [(ex_line N S p t n hS hSN ht l hn).2.1, (ex_line N S p t n hS hSN ht l hn).2.2.1] at hr
      cases hr
    · intro j r l lr hl _ hr
      rw [(ex_line N S p t j hS hSN ht l hl).2.2.1] at hr
      cases hr
    · intro j l hl hj _ hr
      rcases (ex_line N S p t j hS hSN ht l hl).2.2.2 with ⟨h, _⟩ | ⟨_, _, e, h, _⟩
      · have := hp t ht
        omega
      · rw [hr] at h; cases h
    · intro j l hl hj e he
      rcases (ex_line N S p t j hS hSN ht l hl).2.2.2 with ⟨h, _⟩ | ⟨_, h, _⟩
      · have := hp t ht
        omega
      · rw [h] at he; cases he
  · intro t ht l hl
    obtain ⟨n, hn⟩ := List.getElem?_of_mem hl
    rcases (ex_line N S p t n hS hSN ht l hn).2.2.2 with ⟨_, h, h' | ⟨e, h', _⟩⟩ | ⟨_, h', e, h, _⟩ <;> rw [h, h'] <;> simp
  · intro t ht l hl
    obtain ⟨n, hn⟩ := List.getElem?_of_mem hl
    rcases (ex_line N S p t n hS hSN ht l hn).2.2.2 with ⟨_, h, _⟩ | ⟨_, h, _⟩
    · exact Or.inr h
    · exact Or.inl h

theorem red_wf (N S p : Nat) (prev top : Nat → Nat) (hp : ∀ t < N, S + (S - chunk S p) ≤ prev t) : WfMid N prev top (redRow N S p) := by
  refine ⟨?_, ?_, ?_, ?_⟩
  · intro t ht
    refine ⟨?_, ?_, ?_, ?_⟩
    · intro l hl r hr
      obtain ⟨n, hn⟩ := List.getElem?_of_mem hl
      obtain ⟨_, _, _, h1, h2⟩ := red_line N S p t n l hn
      rw [h1, List.append_nil] at hr
      rw [red_length]
      exact (h2 r hr).2.2
    · intro j r l lr hl _ hr
      rw [(red_line N S p t j l hl).2.2.2.1] at hr
      cases hr
    · intro j l hl hj
      have h2 := (List.getElem?_eq_some_iff.mp hl).1
      rw [red_length] at h2
      have := hp t ht
      omega
    · intro j l hl _ e he
      rw [(red_line N S p t j l hl).2.1] at he
      cases he
  · intro t ht l hl
    obtain ⟨n, hn⟩ := List.getElem?_of_mem hl
    obtain ⟨_, h1, h2, _⟩ := red_line N S p t n l hn
    rw [h1, h2]; simp
  · intro t ht l hl
    obtain ⟨n, hn⟩ := List.getElem?_of_mem hl
    exact Or.inl (red_line N S p t n l hn).2.1
  · intro t ht q hq
    refine ⟨0, ?_⟩
    rw [(no_recv _ (fun l hl => by
      obtain ⟨n, hn⟩ := List.getElem?_of_mem hl
      exact (red_line N S p t n l hn).2.2.1) q).1]
    rfl

theorem ex_sent (N S p t n : Nat) (hS : 0 < S) (hc : chunk S p ≤ n) (hn : n < S) (l : LineD) (h : (exRow N S p t)[n]? = some l) : l.sendto ≠ [] := by
  obtain ⟨_, rfl⟩ := mk_get _ _ _ _ h
  have h3 : n / chunk S p > 0 := (Nat.one_le_div_iff (chunk_pos S p)).2 hc
  rw [if_pos hn]
  dsimp only
  rw [if_pos h3]
  simp

/-- If all lines are needed after a step they are needed before it, and nothing is dropped. -/
theorem step_prunes (N S p root : Nat) (hS : 0 < S) (hSN : S ≤ N) (rest : List Row) (hne : rest ≠ [])
    (h : Prunes N root rest fun v => ∀ t < N, ∀ n < chunk S p, need (v t) n = true) :
    Prunes N root (exRow N S p :: redRow N S p :: rest) fun v => ∀ t < N, ∀ n < S, need (v t) n = true := by
  obtain ⟨j, hj⟩ : ∃ j, j = chunk S p := ⟨_, rfl⟩
  have hj0 : 0 < j := hj ▸ chunk_pos S p
  have hjS : j ≤ S := hj ▸ chunk_le S p hS
  obtain ⟨rn, vn, p1, p2, p3⟩ := h
  have r1 := prune_cons N root (redRow N S p) rest rn vn hne p1 (red_ok N S p)
  obtain ⟨w, hw⟩ : ∃ w, w = exchange (redRow N S p) fun t => descend (redRow N S p t) (inherit (redRow N S p t) (vn t)) := ⟨_, rfl⟩
  rw [← hw] at r1
  have r2 := prune_cons N root (exRow N S p) _ _ w (by simp) r1 (ex_ok N S p hS hSN)
  -- needs before the reductions
  have hwn : ∀ t < N, ∀ n, (n < j ∨ (S ≤ n ∧ n < S + (S - j))) → need (w t) n = true := by
    intro t ht n hn
    have hlt : n < (redRow N S p t).length := by rw [red_length, ← hj]; omega
    have hl := List.getElem?_eq_getElem hlt
    rw [hw, need_exchange _ _ t n _ hl, (red_line N S p t n _ hl).2.1]
    simp only [List.any_nil, Bool.false_or]
    have hr : ∀ l ∈ redRow N S p t, ∀ r ∈ l.reducefrom ++ l.copyreducefrom, r < (redRow N S p t).length :=
      ((red_wf N S p (fun _ => S + (S - chunk S p)) (fun _ => 0) fun _ _ => Nat.le_refl _).loc t ht).range
    obtain ⟨_, E, e1, e2, e3⟩ := descend_spec (redRow N S p t) hr (inherit (redRow N S p t) (vn t)) (inherit_length _ _)
    have hlow : ∀ i < j, E i := by
      intro i hi
      refine e1 i ?_
      rw [need_inherit _ _ _ (by rw [red_length, ← hj]; omega)]
      exact p3 t ht i (by omega)
    rcases hn with hn | hn
    · exact e2 n (hlow n hn)
    · obtain ⟨y, hy⟩ : ∃ y, y = n - S + j := ⟨_, rfl⟩
      have hym := Nat.mod_lt y hj0
      have hlt2 : y % j < (redRow N S p t).length := by rw [red_length, ← hj]; omega
      have hl2 := List.getElem?_eq_getElem hlt2
      refine (e3 (y % j) _ (hlow _ hym) hl2 n ?_).1
      refine List.mem_append_left _ ((red_sources N S p t (y % j) hS hSN (by rw [← hj]; exact hym) _ hl2 n).mpr ⟨y, ?_, ?_, ?_, ?_⟩)
      · omega
      · omega
      · rw [← hj]
      · omega
  obtain ⟨v, hv⟩ : ∃ v, v = fun t => descend (exRow N S p t) (inherit (exRow N S p t) (w t)) := ⟨_, rfl⟩
  rw [← hv] at r2
  have hvn : ∀ t < N, ∀ n, (n < j ∨ (S ≤ n ∧ n < S + (S - j))) → need (v t) n = true := by
    intro t ht n hn
    rw [hv]
    dsimp only
    rw [descend_plain _ (fun l hl => by
      obtain ⟨i, hi⟩ := List.getElem?_of_mem hl
      exact ⟨(ex_line N S p t i hS hSN ht l hi).2.1, (ex_line N S p t i hS hSN ht l hi).2.2.1⟩),
      need_inherit _ _ _ (by rw [ex_length, ← hj]; omega)]
    exact hwn t ht n hn
  have hrecv : ∀ t < N, ∀ q, ∀ n ∈ recvIdx (exRow N S p t) q, need (v t) n = true := by
    intro t ht q n hn
    obtain ⟨l, hl, e, he, _⟩ := (mem_recvIdx _ _ _).mp hn
    obtain ⟨h1, _, _, h3⟩ := ex_line N S p t n hS hSN ht l hl
    rcases h3 with ⟨_, h, _⟩ | ⟨h, _⟩
    · rw [h] at he; cases he
    · exact hvn t ht n (Or.inr ⟨h, by omega⟩)
  have hle : ∀ t n, need (v t) n = true → n < (exRow N S p t).length → need (exchange (exRow N S p) v t) n = true := by
    intro t n h1 hlt
    rw [need_exchange _ _ t n _ (List.getElem?_eq_getElem hlt), h1, Bool.or_true]
  refine ⟨_, _, r2, ?_, ?_⟩
  · intro row' hrow t ht q hq hqt
    rcases List.mem_cons.mp hrow with rfl | hrow
    · obtain ⟨_, i2, _⟩ := shape_idx N t (exRow N S p t) _ _ (mid_shape N (exRow N S p) v t ht (ex_ok N S p hS hSN)) q
      right
      change deadIdx (midBlock (exRow N S p) v t) q = _ at i2
      rw [i2, List.filter_eq_nil_iff]
      intro n hn
      obtain ⟨l, hl, _⟩ := (mem_recvIdx _ _ _).mp hn
      rw [hle t n (hrecv t ht q n hn) (List.getElem?_eq_some_iff.mp hl).1]
      simp
    · rcases List.mem_cons.mp hrow with rfl | hrow
      · obtain ⟨i1, _, _⟩ := shape_idx N t (redRow N S p t) _ _ (mid_shape N (redRow N S p)
          (fun t => descend (redRow N S p t) (inherit (redRow N S p t) (vn t))) t ht (red_ok N S p)) q
        left
        change recvIdx (midBlock (redRow N S p) _ t) q = _ at i1
        rw [i1, (no_recv _ (fun l hl => by
          obtain ⟨n, hn⟩ := List.getElem?_of_mem hl
          exact (red_line N S p t n l hn).2.2.1) q).1]
        rfl
      · exact p2 row' hrow t ht q hq hqt
  · intro t ht n hn
    have hlt : n < (exRow N S p t).length := by rw [ex_length]; omega
    by_cases c : n < j
    · exact hle t n (hvn t ht n (Or.inl c)) hlt
    · have hl := List.getElem?_eq_getElem hlt
      have hs := ex_sent N S p t n hS (by omega) hn _ hl
      obtain ⟨e, he⟩ := List.exists_mem_of_ne_nil _ hs
      obtain ⟨x1, x2, x3⟩ := (exchangeOk_spec N _ (ex_ok N S p hS hSN) t ht).1 _ (List.mem_of_getElem? hl) e he
      rw [need_exchange _ _ t n _ hl, Bool.or_eq_true, List.any_eq_true]
      left
      refine ⟨e, he, ?_⟩
      obtain ⟨q, hq⟩ : ∃ q, q = e.1.toNat := ⟨_, rfl⟩
      have hqe : e.1 = (q : Int) := by omega
      obtain ⟨k, hk, hk2⟩ := wanted_of N (fun _ => S) (fun _ => 0) _ (ex_wf N S p hS hSN _ _ fun _ _ => Nat.le_refl _) v t q ht (by omega)
        (ex_ok N S p hS hSN) n (sendIdx_mem _ _ _ _ hl e he hqe)
      rw [hqe, hk2]
      exact hrecv q (by omega) t k hk

theorem scatter_prunes (N root : Nat) (rest : List Row) (hne : rest ≠ []) (ps : List Nat) : ∀ S, 0 < S → S ≤ N →
    (Prunes N root rest fun v => ∀ t < N, ∀ n < chunks S ps, need (v t) n = true) →
    Prunes N root (scatterRows N S ps ++ rest) fun v => ∀ t < N, ∀ n < S, need (v t) n = true := by
  induction ps with
  | nil => intro S _ _ h; exact h
  | cons p ps ih =>
    intro S hS hSN h
    refine step_prunes N S p root hS hSN (scatterRows N (chunk S p) ps ++ rest) (by simp [hne]) ?_
    exact ih (chunk S p) (chunk_pos S p) (Nat.le_trans (chunk_le S p hS) hSN) h

theorem scatter_wf (N : Nat) (rest : List Row) (hne : rest ≠ []) (ps : List Nat) : ∀ (S : Nat) (prev top : Nat → Nat), 0 < S → S ≤ N →
    (∀ t < N, S ≤ prev t) → (∀ prev top : Nat → Nat, (∀ t < N, chunks S ps ≤ prev t) → WfRows N prev top rest) →
    WfRows N prev top (scatterRows N S ps ++ rest) := by
  induction ps with
  | nil => intro S prev top _ _ hp h; exact h prev top hp
  | cons p ps ih =>
    intro S prev top hS hSN hp h
    have hc := chunk_le S p hS
    refine wf_cons N prev top (exRow N S p) (redRow N S p :: (scatterRows N (chunk S p) ps ++ rest)) (by simp) (ex_wf N S p hS hSN prev top hp) ?_
    refine wf_cons N _ _ (redRow N S p) _ (by simp [hne]) (red_wf N S p _ _ fun t _ => ?_) ?_
    · rw [ex_length]
    · refine ih (chunk S p) _ _ (chunk_pos S p) (Nat.le_trans hc hSN) (fun t _ => ?_) h
      rw [red_length]
      omega

end

end ExtMpi.Rooted
