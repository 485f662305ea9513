import Verif.Lemmas.OptimiseRows
import Verif.Lemmas.OptimiseExch
import Verif.Props.RawCode
import Verif.Lemmas.ScheduleLists
/-! # A step in the buffers of the rows -/
namespace ExtMpi.Optimise
open RawCode Schedule

/-- A step that works directly in the rows: the messages are intervals of lines of one row, of lines `Dl` only; nothing that
is sent is overwritten; rows that are written have the property `W`. -/
structure Good (N : Nat) (bs : Nat → Block) (Dl : Nat → Nat → Prop) (W : Nat → Prop) (m0 n0 len : Nat → Nat → Nat)
    (dr : Nat → Nat) : Prop where
  ex : Exchange N bs m0 n0 len
  shape : ∀ t, t < N → Shape N (bs t)
  srow : ∀ q t, q < N → t < N → q ≠ t → len q t ≠ 0 → m0 q t % N + len q t ≤ N
  same : ∀ q t, q < N → t < N → q ≠ t → len q t ≠ 0 → n0 q t % N = m0 q t % N
  sdom : ∀ q t k, q < N → t < N → q ≠ t → k < len q t → Dl q (m0 q t + k)
  rdom : ∀ q t k, q < N → t < N → q ≠ t → k < len q t → Dl t (n0 q t + k)
  wrow : ∀ q t, q < N → t < N → q ≠ t → len q t ≠ 0 → W (n0 q t / N)
  sep : ∀ t q q' n, t < N → q < N → q' < N → q ≠ t → q' ≠ t → n0 q t ≤ n → n < n0 q t + len q t →
    m0 t q' ≤ n → n < m0 t q' + len t q' → False
  cred : ∀ t, t < N → ∀ l, l ∈ bs t → l.copyreducefrom = []
  red : ∀ t, t < N → ∀ n l, (bs t)[n]? = some l → ∀ r, r ∈ l.reducefrom → n / N = dr t ∧ r / N ≠ dr t ∧ Dl t n ∧ Dl t r
  wred : ∀ t, t < N → W (dr t)

theorem range_bound {N : Nat} {sz : Nat → Nat} {m0 len k i : Nat} (hk : k < len) (hi : i < sz (m0 % N + k)) :
    lo sz (m0 % N) ≤ lo sz (m0 % N + k) ∧ lo sz (m0 % N + k) + i < lo sz (m0 % N) + mlen N sz m0 len := by
  have h1 : lo sz (m0 % N) ≤ lo sz (m0 % N + k) := lo_mono sz (by omega)
  have h2 : lo sz (m0 % N + k) + sz (m0 % N + k) ≤ lo sz (m0 % N + len) := lo_end sz (by omega)
  unfold mlen
  omega

/-- A common element of two intervals of lines belongs to a common line. -/
theorem common_line {N : Nat} {sz : Nat → Nat} {m0 len m1 len1 : Nat} (h0 : m0 % N + len ≤ N) (h1 : m1 % N + len1 ≤ N)
    (hrow : m0 / N = m1 / N) {x : Nat} (a1 : lo sz (m0 % N) ≤ x) (a2 : x < lo sz (m0 % N) + mlen N sz m0 len)
    (b1 : lo sz (m1 % N) ≤ x) (b2 : x < lo sz (m1 % N) + mlen N sz m1 len1) :
    ∃ n, m0 ≤ n ∧ n < m0 + len ∧ m1 ≤ n ∧ n < m1 + len1 := by
  unfold mlen at a2 b2
  obtain ⟨k, i, g1, g2, g3⟩ := piece sz (m0 % N) len x a1 (by omega)
  obtain ⟨k', i', g1', g2', g3'⟩ := piece sz (m1 % N) len1 x b1 (by omega)
  have e := same_piece sz g2 g2' (by omega)
  have hm := mod_add (m0 := m0) (show m0 % N + k < N by omega)
  have hm' := mod_add (m0 := m1) (show m1 % N + k' < N by omega)
  have : m0 + k = m1 + k' := line_eq (N := N) (by rw [hm.2, hm'.2, hrow]) (by rw [hm.1, hm'.1, e])
  exact ⟨m0 + k, by omega, by omega, by omega, by omega⟩

section
variable {N : Nat} {bs : Nat → Block} {Dl : Nat → Nat → Prop} {W : Nat → Prop} {m0 n0 len : Nat → Nat → Nat} {dr : Nat → Nat}
  {sz : Nat → Nat}

theorem Good.mod (h : Good N bs Dl W m0 n0 len dr) (hN : 0 < N) {t : Nat} (ht : t < N) (hok : reduceOk (bs t) = true) :
    RedOk N (Dl t) (dr t) (bs t).zipIdx := by
  intro x hx r hr
  obtain ⟨h1, h2⟩ := reduceOk_mem (bs t) hok x hx
  obtain ⟨g1, g2, g3, g4⟩ := h.red t ht x.2 x.1 h1 r hr
  refine ⟨g1, g2, ?_, g3, g4⟩
  have h3 := (h2 r (List.mem_append_left _ hr)).2
  unfold fracOf at h3
  cases hb : (bs t)[r]? with
  | none => rw [hb] at h3; cases h3
  | some l =>
    rw [hb] at h3
    have e1 := (h.shape t ht r l hb).1
    have e2 := (h.shape t ht x.2 x.1 h1).1
    have e3 : l.frac = x.1.frac := Option.some.inj h3
    rw [← e1, ← e2, e3]

theorem Good.recvTotal (h : Good N bs Dl W m0 n0 len dr) {q t : Nat} (hq : q < N) (ht : t < N) (hne : q ≠ t) :
    total (mmsize N sz) (bs t) (recvIdx (bs t) q) = mlen N sz (m0 q t) (len q t) := by
  rw [h.ex.recv q t hq ht hne]
  by_cases c : len q t = 0
  · rw [c]
    unfold mlen
    rw [Nat.add_zero, Nat.sub_self]
    rfl
  · have e := h.same q t hq ht hne c
    rw [total_row ((h.shape t ht).lay sz) (fun n hn => recvIdx_lt (bs t) q n (by rw [h.ex.recv q t hq ht hne]; exact hn))
      (by rw [e]; exact h.srow q t hq ht hne c)]
    unfold mlen
    rw [e]

theorem Good.sendTotal (h : Good N bs Dl W m0 n0 len dr) {q t : Nat} (hq : q < N) (ht : t < N) (hne : q ≠ t) :
    total (mmsize N sz) (bs q) (sendIdx (bs q) t) = mlen N sz (m0 q t) (len q t) := by
  rw [h.ex.send q t hq ht hne]
  by_cases c : len q t = 0
  · rw [c]
    unfold mlen
    rw [Nat.add_zero, Nat.sub_self]
    rfl
  · exact total_row ((h.shape q hq).lay sz) (fun n hn => sendIdx_lt (bs q) t n (by rw [h.ex.send q t hq ht hne]; exact hn))
      (h.srow q t hq ht hne c)

theorem Good.len_ne {sz : Nat → Nat} {q t : Nat} (h : mlen N sz (m0 q t) (len q t) ≠ 0) : len q t ≠ 0 := by
  intro e
  rw [e] at h
  unfold mlen at h
  rw [Nat.add_zero, Nat.sub_self] at h
  exact h rfl

theorem Good.from (h : Good N bs Dl W m0 n0 len dr) {t q : Nat} (ht : t < N) (hq : q ∈ froms N (mmsize N sz) (bs t) t) :
    q < N ∧ q ≠ t ∧ mlen N sz (m0 q t) (len q t) ≠ 0 ∧ len q t ≠ 0 := by
  obtain ⟨h1, h2, h3⟩ := (mem_froms ht).1 hq
  rw [h.recvTotal h1 ht h2] at h3
  exact ⟨h1, h2, h3, Good.len_ne h3⟩

theorem Good.to (h : Good N bs Dl W m0 n0 len dr) {t q : Nat} (ht : t < N) (hq : q ∈ tos N (mmsize N sz) (bs t) t) :
    q < N ∧ q ≠ t ∧ mlen N sz (m0 t q) (len t q) ≠ 0 ∧ len t q ≠ 0 := by
  obtain ⟨h1, h2, h3⟩ := (mem_tos ht).1 hq
  rw [h.sendTotal ht h1 (Ne.symm h2)] at h3
  exact ⟨h1, h2, h3, Good.len_ne h3⟩

theorem Good.recvCells (h : Good N bs Dl W m0 n0 len dr) {q t : Nat} (hq : q < N) (ht : t < N) (hne : q ≠ t)
    (hl : len q t ≠ 0) : Cells (cells N sz (Dl t)) (n0 q t / N) (lo sz (n0 q t % N)) (mlen N sz (m0 q t) (len q t)) := by
  have e := h.same q t hq ht hne hl
  have := cells_range (sz := sz) (Dl := Dl t) (m0 := n0 q t) (len := len q t) (by rw [e]; exact h.srow q t hq ht hne hl)
    (fun k hk => h.rdom q t k hq ht hne hk)
  unfold mlen at this ⊢
  rw [e] at this ⊢
  exact this

theorem Good.sendCells (h : Good N bs Dl W m0 n0 len dr) {q t : Nat} (hq : q < N) (ht : t < N) (hne : q ≠ t)
    (hl : len q t ≠ 0) : Cells (cells N sz (Dl q)) (m0 q t / N) (lo sz (m0 q t % N)) (mlen N sz (m0 q t) (len q t)) :=
  cells_range (h.srow q t hq ht hne hl) (fun k hk => h.sdom q t k hq ht hne hk)

/-- The standard addresses of the messages do not overlap. -/
theorem Good.apart (h : Good N bs Dl W m0 n0 len dr) {ρ : Nat → Nat → Nat → Addr}
    (hρ : ∀ t, t < N → Place (cells N sz (Dl t)) (ρ t)) : ∀ t q q', t < N → q ∈ froms N (mmsize N sz) (bs t) t →
      q' ∈ tos N (mmsize N sz) (bs t) t →
      ¬overlap (ρ t (n0 q t / N) (lo sz (n0 q t % N))) (mlen N sz (m0 q t) (len q t))
        (ρ t (m0 t q' / N) (lo sz (m0 t q' % N))) (mlen N sz (m0 t q') (len t q')) := by
  intro t q q' ht hq hq' ho
  obtain ⟨a1, a2, a3, a4⟩ := h.from ht hq
  obtain ⟨b1, b2, b3, b4⟩ := h.to ht hq'
  obtain ⟨g1, g2, g3⟩ := (hρ t ht).overlap (h.recvCells a1 ht a2 a4) (h.sendCells ht b1 (Ne.symm b2) b4) (by omega) (by omega) ho
  have e := h.same q t a1 ht a2 a4
  have emlen : mlen N sz (n0 q t) (len q t) = mlen N sz (m0 q t) (len q t) := by unfold mlen; rw [e]
  obtain ⟨n, c1, c2, c3, c4⟩ := common_line (sz := sz) (m0 := n0 q t) (len := len q t) (m1 := m0 t q') (len1 := len t q')
    (x := max (lo sz (n0 q t % N)) (lo sz (m0 t q' % N))) (by rw [e]; exact h.srow q t a1 ht a2 a4)
    (h.srow t q' ht b1 (Ne.symm b2) b4) g1 (by omega) (by omega) (by omega) (by omega)
  exact h.sep t q q' n ht a1 b1 a2 b2 c1 c2 c3 c4

/-- What the standard addresses of the messages hold. -/
theorem Good.data {X : Type} (h : Good N bs Dl W m0 n0 len dr) {ρ : Nat → Nat → Nat → Addr}
    (hρ : ∀ t, t < N → Place (cells N sz (Dl t)) (ρ t)) {m : Nat → Mem X} {v : Nat → Nat → Nat → X}
    (hrep : ∀ t, t < N → RepC N sz (Dl t) (ρ t) (m t) (v t)) :
    ∀ q t, q < N → t < N → q ≠ t → ∀ k i, k < len q t → i < sz (m0 q t % N + k) →
      m q (ρ q (m0 q t / N) (lo sz (m0 q t % N))).reg ((ρ q (m0 q t / N) (lo sz (m0 q t % N))).off +
        (lo sz (m0 q t % N + k) - lo sz (m0 q t % N) + i)) = v q (m0 q t + k) i := by
  intro q t hq ht hne k i hk hi
  have hl : len q t ≠ 0 := by omega
  have hr := h.srow q t hq ht hne hl
  have hm := mod_add (m0 := m0 q t) (show m0 q t % N + k < N by omega)
  have hb := range_bound (sz := sz) hk hi
  have e := (hρ q hq).at (h.sendCells hq ht hne hl) (lo sz (m0 q t % N + k) - lo sz (m0 q t % N) + i) (by omega)
  have g := hrep q hq (m0 q t + k) i (h.sdom q t k hq ht hne hk) (by rw [hm.1]; exact hi)
  rw [hm.1, hm.2, show lo sz (m0 q t % N + k) + i = lo sz (m0 q t % N) + (lo sz (m0 q t % N + k) - lo sz (m0 q t % N) + i) by omega,
    e] at g
  exact g

variable {X : Type} [Add X]

/-- A step with direct messages. -/
theorem direct_block (hN : 0 < N) (h : Good N bs Dl W m0 n0 len dr) {ρ : Nat → Nat → Nat → Addr}
    (hρ : ∀ t, t < N → Place (cells N sz (Dl t)) (ρ t)) (v v' : Nat → Nat → Nat → X)
    (hv : ∀ t, t < N → nodeStep N bs v t = some (v' t)) (sa : Nat → Nat → Addr) (mid : Nat → List Instr)
    (us : Nat → List Red) (S : State X) (R : Nat → List Instr) (m : Nat → Mem X)
    (hrs : ∀ t q q', t < N → q ∈ froms N (mmsize N sz) (bs t) t → q' ∈ tos N (mmsize N sz) (bs t) t →
      ¬overlap (ρ t (n0 q t / N) (lo sz (n0 q t % N))) (mlen N sz (m0 q t) (len q t)) (sa t q') (mlen N sz (m0 t q') (len t q')))
    (hmid : ∀ t i, t < N → i ∈ mid t → ∃ r d s n, i = .copy r d s n ∧ ¬overlap d n s n ∧
      (∀ q, q ∈ froms N (mmsize N sz) (bs t) t →
        ¬overlap (ρ t (n0 q t / N) (lo sz (n0 q t % N))) (mlen N sz (m0 q t) (len q t)) d n ∧
        ¬overlap (ρ t (n0 q t / N) (lo sz (n0 q t % N))) (mlen N sz (m0 q t) (len q t)) s n) ∧
      ∀ q, q ∈ tos N (mmsize N sz) (bs t) t → ¬overlap (sa t q) (mlen N sz (m0 t q) (len t q)) d n)
    (hsa : ∀ q t, q < N → t < N → q ≠ t → ∀ k i, k < len q t → i < sz (m0 q t % N + k) →
      m q (sa q t).reg ((sa q t).off + (lo sz (m0 q t % N + k) - lo sz (m0 q t % N) + i)) = v q (m0 q t + k) i)
    (hrep : ∀ t, t < N → RepC N sz (Dl t) (ρ t) ((mid t).foldl exec1 (m t)) (v t))
    (hus : ∀ t, t < N → Joined (tsOf N sz (bs t).zipIdx) (us t))
    (hS : Quiet N S (fun t =>
      ((froms N (mmsize N sz) (bs t) t).map fun q =>
        .irecv (ρ t (n0 q t / N) (lo sz (n0 q t % N))) (mlen N sz (m0 q t) (len q t)) q) ++
      (((tos N (mmsize N sz) (bs t) t).map fun q => .isend (sa t q) (mlen N sz (m0 t q) (len t q)) q) ++
        (mid t ++ .waitall :: ((us t).map (Red.instr (ρ t) (dr t)) ++ R t)))) m) :
    ∃ S' m', Reach N S S' ∧ Quiet N S' R m' ∧ ∀ t, t < N → RepC N sz (Dl t) (ρ t) (m' t) (v' t) ∧
      ∀ r i, (∀ row x, cells N sz (Dl t) row x → W row → ρ t row x ≠ ⟨r, i⟩) →
        m' t r i = (mid t).foldl exec1 (m t) r i := by
  have hok : ∀ t, t < N → reduceOk (bs t) = true ∧
      ∃ w, recvAll N (bs t) t (fun q => message (bs q) (v q) t) (v t) = some w ∧
        copyReduceAll (bs t) (reduceAll (bs t) w) = v' t := by
    intro t ht
    have h := hv t ht
    unfold nodeStep at h
    obtain ⟨h1, h2⟩ := Option.ite_none_right_eq_some.1 h
    obtain ⟨w, h3, h4⟩ := Option.map_eq_some_iff.1 h2
    exact ⟨h1, w, h3, h4⟩
  -- messages
  have hM : Msgs N (fun t => froms N (mmsize N sz) (bs t) t) (fun t => tos N (mmsize N sz) (bs t) t)
      (fun t q => ρ t (n0 q t / N) (lo sz (n0 q t % N))) sa (fun q t => mlen N sz (m0 q t) (len q t)) mid := by
    refine ⟨fun t ht => (recvOrder_nodup N t ht).filter _, fun t ht => (sendOrder_nodup N t ht).filter _,
      fun t q ht hq => ?_, fun t q ht hq => ?_, fun q t hq ht => ?_, fun t q q' ht hq hq' hne ho => ?_, hrs, hmid⟩
    · obtain ⟨a1, a2, _, _⟩ := h.from ht hq
      exact ⟨a1, a2⟩
    · obtain ⟨a1, a2, _, _⟩ := h.to ht hq
      exact ⟨a1, a2⟩
    · rw [mem_tos hq, mem_froms ht]
      constructor
      · rintro ⟨_, a2, a3⟩
        rw [h.sendTotal hq ht (Ne.symm a2)] at a3
        exact ⟨hq, Ne.symm a2, by rw [h.recvTotal hq ht (Ne.symm a2)]; exact a3⟩
      · rintro ⟨_, a2, a3⟩
        rw [h.recvTotal hq ht a2] at a3
        exact ⟨ht, Ne.symm a2, by rw [h.sendTotal hq ht a2]; exact a3⟩
    · obtain ⟨a1, a2, a3, a4⟩ := h.from ht hq
      obtain ⟨b1, b2, b3, b4⟩ := h.from ht hq'
      obtain ⟨g1, g2, g3⟩ := (hρ t ht).overlap (h.recvCells a1 ht a2 a4) (h.recvCells b1 ht b2 b4) (by omega) (by omega) ho
      have e := h.same q t a1 ht a2 a4
      have e' := h.same q' t b1 ht b2 b4
      have emlen : mlen N sz (n0 q t) (len q t) = mlen N sz (m0 q t) (len q t) := by unfold mlen; rw [e]
      have emlen' : mlen N sz (n0 q' t) (len q' t) = mlen N sz (m0 q' t) (len q' t) := by unfold mlen; rw [e']
      obtain ⟨n, c1, c2, c3, c4⟩ := common_line (sz := sz) (m0 := n0 q t) (len := len q t) (m1 := n0 q' t) (len1 := len q' t)
        (x := max (lo sz (n0 q t % N)) (lo sz (n0 q' t % N))) (by rw [e]; exact h.srow q t a1 ht a2 a4)
        (by rw [e']; exact h.srow q' t b1 ht b2 b4) g1 (by omega) (by omega) (by omega) (by omega)
      exact hne (h.ex.dis q q' t n a1 b1 ht a2 b2 c1 c2 c3 c4)
  obtain ⟨S1, m1, r1, q1, d1, k1⟩ := exchange_run hM S _ m hS
  -- memory after the messages
  have hrep1 : ∀ t, t < N → ∀ w, recvAll N (bs t) t (fun q => message (bs q) (v q) t) (v t) = some w →
      RepC N sz (Dl t) (ρ t) (m1 t) w := by
    intro t ht w hw n i hn hi
    obtain ⟨w', hw', c1, c2⟩ := h.ex.recvAll v t ht
    rw [hw] at hw'
    cases hw'
    by_cases c : ∃ q, q < N ∧ q ≠ t ∧ n0 q t ≤ n ∧ n < n0 q t + len q t
    · obtain ⟨q, hq, hne, a1, a2⟩ := c
      have hl : len q t ≠ 0 := by omega
      have e := h.same q t hq ht hne hl
      have hr := h.srow q t hq ht hne hl
      obtain ⟨k, rfl⟩ : ∃ k, n = n0 q t + k := ⟨n - n0 q t, by omega⟩
      have hk : k < len q t := by omega
      have hm := mod_add (m0 := n0 q t) (show n0 q t % N + k < N by omega)
      rw [hm.1] at hi ⊢
      rw [hm.2]
      have hb := range_bound (sz := sz) (m0 := n0 q t) hk hi
      have emlen : mlen N sz (n0 q t) (len q t) = mlen N sz (m0 q t) (len q t) := by unfold mlen; rw [e]
      rw [emlen] at hb
      have hin : q ∈ froms N (mmsize N sz) (bs t) t := by
        rw [mem_froms ht, h.recvTotal hq ht hne]
        exact ⟨hq, hne, by omega⟩
      have e1 := (hρ t ht).at (h.recvCells hq ht hne hl) (lo sz (n0 q t % N + k) - lo sz (n0 q t % N) + i) (by omega)
      rw [show lo sz (n0 q t % N + k) + i = lo sz (n0 q t % N) + (lo sz (n0 q t % N + k) - lo sz (n0 q t % N) + i) by omega, e1]
      dsimp only
      have e2 := d1 t ht q hin (lo sz (n0 q t % N + k) - lo sz (n0 q t % N) + i) (by omega)
      rw [e2, c1 q (n0 q t + k) hq hne (by omega) (by omega), show n0 q t + k - n0 q t = k by omega, e]
      exact hsa q t hq ht hne k i hk (by rw [← e]; exact hi)
    · rw [k1 t ht _ _ (fun q hq hin => ?_), hrep t ht n i hn hi, c2 n fun q hq hne hin => c ⟨q, hq, hne, hin.1, hin.2⟩]
      obtain ⟨a1, a2, a3, a4⟩ := h.from ht hq
      obtain ⟨g1, g2, g3⟩ := (hρ t ht).inside (h.recvCells a1 ht a2 a4) (cells_line hN hn hi) hin
      have e := h.same q t a1 ht a2 a4
      have emlen : mlen N sz (n0 q t) (len q t) = mlen N sz (m0 q t) (len q t) := by unfold mlen; rw [e]
      have hr := h.srow q t a1 ht a2 a4
      rw [← emlen] at g3
      unfold mlen at g3
      have hmono : lo sz (n0 q t % N) ≤ lo sz (n0 q t % N + len q t) := lo_mono sz (by omega)
      obtain ⟨k, j, p1, p2, p3⟩ := piece sz (n0 q t % N) (len q t) _ g2 (by omega)
      have hm := mod_add (m0 := n0 q t) (show n0 q t % N + k < N by omega)
      have : n = n0 q t + k := line_eq (N := N) (by rw [hm.2, g1]) (by rw [hm.1]; exact same_piece sz hi p2 (by omega))
      exact c ⟨q, a1, a2, by omega, by omega⟩
  -- reductions
  have hred : ∀ t, t < N → RedOk N (Dl t) (dr t) (bs t).zipIdx := fun t ht => h.mod hN ht (hok t ht).1
  have hin : ∀ t, t < N → ∀ u, u ∈ us t → u.In (cells N sz (Dl t)) (dr t) := by
    intro t ht
    refine (hus t ht).prop _ ?_ (red_in hN (hred t ht))
    rintro a x n k ⟨a1, a2, a3, a4⟩ ⟨b1, b2, b3, b4⟩
    exact ⟨by dsimp only at *; omega, a2, a3.append b3, a4.append b4⟩
  obtain ⟨S2, r2, q2⟩ := Quiet.copies (is := fun t => (us t).map (Red.instr (ρ t) (dr t))) q1 (fun t ht i hi => by
    obtain ⟨u, hu, rfl⟩ := List.mem_map.1 hi
    obtain ⟨a1, a2, a3, a4⟩ := hin t ht u hu
    intro ho
    exact a2 ((hρ t ht).overlap a3 a4 a1 a1 ho).1.symm)
  refine ⟨S2, _, r1.trans r2, q2, fun t ht => ⟨?_, fun r i hri => ?_⟩⟩
  · obtain ⟨_, w, hw, e⟩ := hok t ht
    rw [(hus t ht).exec (hρ t ht) (red_in hN (hred t ht)), ← e, copyReduceAll_none _ _ (h.cred t ht)]
    exact rep_reds hN (hρ t ht) _ (hred t ht) _ _ (hrep1 t ht w hw)
  · rw [foldl_keep, k1 t ht r i]
    · intro q hq hin
      obtain ⟨a1, a2, a3, a4⟩ := h.from ht hq
      obtain ⟨g1, g2, g3⟩ := hin
      have hc := h.recvCells (sz := sz) a1 ht a2 a4
      have hj : i - (ρ t (n0 q t / N) (lo sz (n0 q t % N))).off < mlen N sz (m0 q t) (len q t) := by omega
      refine hri _ _ (hc _ hj) (h.wrow q t a1 ht a2 a4) ?_
      rw [(hρ t ht).at hc _ hj, g1]
      congr 1
      omega
    · intro x hx
      obtain ⟨u, hu, rfl⟩ := List.mem_map.1 hx
      refine ⟨_, _, _, _, rfl, fun hi => ?_⟩
      obtain ⟨a1, a2, a3, a4⟩ := hin t ht u hu
      obtain ⟨g1, g2, g3⟩ := hi
      have hj : i - (ρ t (dr t) u.pos).off < u.size := by omega
      refine hri _ _ (a3 _ hj) (h.wred t ht) ?_
      rw [(hρ t ht).at a3 _ hj, g1]
      congr 1
      omega
end

end ExtMpi.Optimise
