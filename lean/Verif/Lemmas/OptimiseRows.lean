import Verif.Lemmas.OptimiseProg
/-! # Lines as intervals of rows -/
namespace ExtMpi.Optimise
open RawCode Schedule

/-! ## Offsets -/

theorem lo_zero (f : Nat → Nat) : lo f 0 = 0 := rfl

theorem lo_rows (N : Nat) (sz : Nat → Nat) (r k : Nat) (hk : k ≤ N) :
    lo (fun n => sz (n % N)) (r * N + k) = r * lo sz N + lo sz k := by
  have h1 : ∀ r k, k ≤ N → lo (fun n => sz (n % N)) (r * N + k) = lo (fun n => sz (n % N)) (r * N) + lo sz k := by
    intro r k
    induction k with
    | zero => intro _; rfl
    | succ k ih =>
      intro hk
      rw [← Nat.add_assoc, lo_succ, lo_succ, ih (by omega), show (r * N + k) % N = k from by rw [Nat.mul_comm, Nat.mul_add_mod, Nat.mod_eq_of_lt (by omega)]]
      omega
  have h2 : ∀ r, lo (fun n => sz (n % N)) (r * N) = r * lo sz N := by
    intro r
    induction r with
    | zero => rw [Nat.zero_mul, Nat.zero_mul]; rfl
    | succ r ih => rw [Nat.add_mul, Nat.one_mul, h1 r N (Nat.le_refl _), ih, Nat.add_mul, Nat.one_mul]
  rw [h1 r k hk, h2]

theorem piece (f : Nat → Nat) (a len e : Nat) (h1 : lo f a ≤ e) (h2 : e < lo f (a + len)) :
    ∃ k i, k < len ∧ i < f (a + k) ∧ e = lo f (a + k) + i := by
  induction len with
  | zero => rw [Nat.add_zero] at h2; omega
  | succ len ih =>
    by_cases c : e < lo f (a + len)
    · obtain ⟨k, i, g1, g2, g3⟩ := ih c
      exact ⟨k, i, by omega, g2, g3⟩
    · rw [← Nat.add_assoc, lo_succ] at h2
      exact ⟨len, e - lo f (a + len), by omega, by omega, by omega⟩

theorem same_piece (f : Nat → Nat) {k k' i i' : Nat} (h : i < f k) (h' : i' < f k') (e : lo f k + i = lo f k' + i') :
    k = k' := by
  rcases Nat.lt_trichotomy k k' with c | c | c
  · have := lo_end f c; omega
  · exact c
  · have := lo_end f c; omega

/-- Elements of the lines `len` from `m0`, which are in one row. -/
def mlen (N : Nat) (sz : Nat → Nat) (m0 len : Nat) : Nat := lo sz (m0 % N + len) - lo sz (m0 % N)

section
variable {N : Nat} {sz : Nat → Nat} {b : Block}

theorem total_row (hs : Lay (mmsize N sz) b fun n => sz (n % N)) {m0 len : Nat} (hm : ∀ n, n ∈ List.range' m0 len → n < b.length)
    (hr : m0 % N + len ≤ N) : total (mmsize N sz) b (List.range' m0 len) = mlen N sz m0 len := by
  rw [hs.total m0 len hm]
  have e : m0 = m0 / N * N + m0 % N := by rw [Nat.mul_comm]; exact (Nat.div_add_mod m0 N).symm
  have h1 := lo_rows N sz (m0 / N) (m0 % N + len) hr
  have h2 := lo_rows N sz (m0 / N) (m0 % N) (by omega)
  rw [← Nat.add_assoc, ← e] at h1
  rw [← e] at h2
  rw [h1, h2]
  unfold mlen
  omega

theorem off_row (hs : Lay (mmsize N sz) b fun n => sz (n % N)) (hN : 0 < N) {m0 : Nat} (hm : m0 ≤ b.length) :
    off (mmsize N sz) b m0 = m0 / N * lo sz N + lo sz (m0 % N) := by
  rw [hs.off hm]
  have e : m0 = m0 / N * N + m0 % N := by rw [Nat.mul_comm]; exact (Nat.div_add_mod m0 N).symm
  have h2 := lo_rows N sz (m0 / N) (m0 % N) (Nat.le_of_lt (Nat.mod_lt _ hN))
  rw [← e] at h2
  exact h2
end

/-! ## Lines in memory -/

/-- The elements of the lines `Dl`. -/
def cells (N : Nat) (sz : Nat → Nat) (Dl : Nat → Prop) (r i : Nat) : Prop :=
  ∃ k, k < N ∧ Dl (r * N + k) ∧ lo sz k ≤ i ∧ i < lo sz k + sz k

theorem cells_line {N : Nat} {sz : Nat → Nat} {Dl : Nat → Prop} (hN : 0 < N) {n i : Nat} (hD : Dl n) (hi : i < sz (n % N)) :
    cells N sz Dl (n / N) (lo sz (n % N) + i) := by
  refine ⟨n % N, Nat.mod_lt _ hN, ?_, by omega, by omega⟩
  rw [Nat.mul_comm, Nat.div_add_mod]
  exact hD

theorem mod_add {N m0 k : Nat} (h : m0 % N + k < N) : (m0 + k) % N = m0 % N + k ∧ (m0 + k) / N = m0 / N := by
  have hN : 0 < N := by omega
  have e : m0 + k = N * (m0 / N) + (m0 % N + k) := by
    have := Nat.div_add_mod m0 N
    omega
  constructor
  · rw [e, Nat.mul_add_mod, Nat.mod_eq_of_lt h]
  · rw [e, Nat.mul_add_div hN, Nat.div_eq_of_lt h, Nat.add_zero]

theorem cells_range {N : Nat} {sz : Nat → Nat} {Dl : Nat → Prop} {m0 len : Nat} (hr : m0 % N + len ≤ N)
    (hD : ∀ k, k < len → Dl (m0 + k)) : Cells (cells N sz Dl) (m0 / N) (lo sz (m0 % N)) (mlen N sz m0 len) := by
  intro j hj
  unfold mlen at hj
  obtain ⟨k, i, h1, h2, h3⟩ := piece sz (m0 % N) len (lo sz (m0 % N) + j) (by omega) (by omega)
  have hm := mod_add (m0 := m0) (show m0 % N + k < N by omega)
  rw [h3, ← hm.2, ← hm.1]
  exact cells_line (by omega) (hD k h1) (by rw [hm.1]; exact h2)

/-- The memory holds the values `v` of the lines `Dl`. -/
def RepC {X : Type} (N : Nat) (sz : Nat → Nat) (Dl : Nat → Prop) (ρ : Nat → Nat → Addr) (m : Mem X) (v : Nat → Nat → X) : Prop :=
  ∀ n i, Dl n → i < sz (n % N) → m (ρ (n / N) (lo sz (n % N) + i)).reg (ρ (n / N) (lo sz (n % N) + i)).off = v n i

theorem place_line {N : Nat} {sz : Nat → Nat} {Dl : Nat → Prop} {ρ : Nat → Nat → Addr} (hN : 0 < N)
    (hρ : Place (cells N sz Dl) ρ) {n i : Nat} (hD : Dl n) (hi : i < sz (n % N)) :
    ρ (n / N) (lo sz (n % N) + i) = ⟨(ρ (n / N) (lo sz (n % N))).reg, (ρ (n / N) (lo sz (n % N))).off + i⟩ :=
  hρ.at (fun j hj => cells_line hN hD hj) i hi

theorem line_eq {N n n' : Nat} (h1 : n / N = n' / N) (h2 : n % N = n' % N) : n = n' := by
  rw [← Nat.div_add_mod n N, ← Nat.div_add_mod n' N, h1, h2]

variable {X : Type} [Add X]

/-- Reduction of a line into another one. -/
theorem rep_red {N : Nat} {sz : Nat → Nat} {Dl : Nat → Prop} {ρ : Nat → Nat → Addr} (hN : 0 < N)
    (hρ : Place (cells N sz Dl) ρ) {m : Mem X} {v : Nat → Nat → X} (h : RepC N sz Dl ρ m v) {n r : Nat} (hn : Dl n) (hr : Dl r)
    (hk : r % N = n % N) :
    RepC N sz Dl ρ (copyMem true (ρ (n / N) (lo sz (n % N))) (ρ (r / N) (lo sz (n % N))) (sz (n % N)) m)
      (upd v n (v n + v r)) := by
  intro n' i hn' hi
  by_cases e : n' = n
  · subst e
    have e1 := place_line hN hρ hn' hi
    have e2 := place_line hN hρ hr (i := i) (by rw [hk]; exact hi)
    have g1 := h n' i hn' hi
    have g2 := h r i hr (by rw [hk]; exact hi)
    rw [hk] at e2 g2
    rw [e1] at g1 ⊢
    rw [e2] at g2
    dsimp only at g1 g2 ⊢
    rw [copyMem_in _ _ _ _ _ _ hi, if_pos rfl, g1, g2]
    simp [upd]
  · have : upd v n (v n + v r) n' = v n' := if_neg e
    rw [this, copyMem_out, h n' i hn' hi]
    intro hin
    obtain ⟨g1, g2, g3⟩ := hρ.inside (fun j hj => cells_line hN hn hj) (cells_line hN hn' hi) hin
    refine e (line_eq g1 ?_)
    exact same_piece sz (i := i) (i' := lo sz (n' % N) + i - lo sz (n % N)) hi (by omega) (by omega)

/-! ## Reductions of a block -/

/-- The reductions of a block within the rows. -/
def tsOf (N : Nat) (sz : Nat → Nat) (xs : List (LineD × Nat)) : List Red :=
  xs.flatMap fun x => x.1.reducefrom.flatMap fun r =>
    if sz (x.2 % N) = 0 then [] else [⟨r / N, lo sz (x.2 % N), sz (x.2 % N)⟩]

/-- All reductions go to row `dr` and come from other rows. -/
def RedOk (N : Nat) (Dl : Nat → Prop) (dr : Nat) (xs : List (LineD × Nat)) : Prop :=
  ∀ x, x ∈ xs → ∀ r, r ∈ x.1.reducefrom → x.2 / N = dr ∧ r / N ≠ dr ∧ r % N = x.2 % N ∧ Dl x.2 ∧ Dl r

theorem mem_tsOf {N : Nat} {sz : Nat → Nat} {xs : List (LineD × Nat)} {u : Red} (h : u ∈ tsOf N sz xs) :
    ∃ x, x ∈ xs ∧ ∃ r, r ∈ x.1.reducefrom ∧ sz (x.2 % N) ≠ 0 ∧ u = ⟨r / N, lo sz (x.2 % N), sz (x.2 % N)⟩ := by
  unfold tsOf at h
  obtain ⟨x, hx, h⟩ := List.mem_flatMap.1 h
  obtain ⟨r, hr, h⟩ := List.mem_flatMap.1 h
  split at h
  · cases h
  · exact ⟨x, hx, r, hr, ‹_›, List.mem_singleton.1 h⟩

theorem rep_reds {N : Nat} {sz : Nat → Nat} {Dl : Nat → Prop} {ρ : Nat → Nat → Addr} (hN : 0 < N)
    (hρ : Place (cells N sz Dl) ρ) {dr : Nat} (xs : List (LineD × Nat)) (hx : RedOk N Dl dr xs) :
    ∀ (m : Mem X) (v : Nat → Nat → X), RepC N sz Dl ρ m v →
      RepC N sz Dl ρ (((tsOf N sz xs).map (Red.instr ρ dr)).foldl exec1 m)
        (xs.foldl (fun v x => x.1.reducefrom.foldl (fun v r => upd v x.2 (v x.2 + v r)) v) v) := by
  induction xs with
  | nil => intro m v h; exact h
  | cons x xs ih =>
    intro m v h
    have e : tsOf N sz (x :: xs) = (x.1.reducefrom.flatMap fun r =>
      if sz (x.2 % N) = 0 then [] else [⟨r / N, lo sz (x.2 % N), sz (x.2 % N)⟩]) ++ tsOf N sz xs := rfl
    rw [e, List.map_append, List.foldl_append, List.foldl_cons]
    apply ih fun y hy => hx y (List.mem_cons_of_mem _ hy)
    have hx0 := hx x List.mem_cons_self
    clear ih hx e
    generalize x.1.reducefrom = rs at hx0
    induction rs generalizing m v with
    | nil => exact h
    | cons r rs ih =>
      obtain ⟨g1, g2, g3, g4, g5⟩ := hx0 r List.mem_cons_self
      rw [List.flatMap_cons, List.map_append, List.foldl_append, List.foldl_cons]
      refine ih _ _ ?_ (fun r' hr' => hx0 r' (List.mem_cons_of_mem _ hr'))
      by_cases hz : sz (x.2 % N) = 0
      · rw [if_pos hz]
        have := rep_red hN hρ h g4 g5 g3
        rw [hz, copyMem_zero] at this
        exact this
      · rw [if_neg hz]
        have := rep_red hN hρ h g4 g5 g3
        rw [g1] at this
        exact this

theorem red_in {N : Nat} {sz : Nat → Nat} {Dl : Nat → Prop} (hN : 0 < N) {dr : Nat} {xs : List (LineD × Nat)}
    (hx : RedOk N Dl dr xs) : ∀ u, u ∈ tsOf N sz xs → u.In (cells N sz Dl) dr := by
  intro u hu
  obtain ⟨x, h1, r, h2, h3, rfl⟩ := mem_tsOf hu
  obtain ⟨g1, g2, g3, g4, g5⟩ := hx x h1 r h2
  refine ⟨by dsimp only; omega, g2, fun j hj => ?_, fun j hj => ?_⟩
  · rw [← g1]; exact cells_line hN g4 hj
  · dsimp only at hj ⊢
    rw [← g3] at hj ⊢
    exact cells_line hN g5 hj

theorem red_sorted {N : Nat} {sz : Nat → Nat} {Dl : Nat → Prop} {dr : Nat} (b : Block) :
    ∀ k, RedOk N Dl dr (b.zipIdx k) → (tsOf N sz (b.zipIdx k)).Pairwise fun t u => t.pos ≤ u.pos := by
  induction b with
  | nil => intro k _; exact List.Pairwise.nil
  | cons l b ih =>
    intro k hx
    rw [List.zipIdx_cons] at hx ⊢
    have e : tsOf N sz ((l, k) :: b.zipIdx (k + 1)) = (l.reducefrom.flatMap fun r =>
      if sz (k % N) = 0 then [] else [⟨r / N, lo sz (k % N), sz (k % N)⟩]) ++ tsOf N sz (b.zipIdx (k + 1)) := rfl
    rw [e, List.pairwise_append]
    have hp : ∀ u, u ∈ (l.reducefrom.flatMap fun r =>
      if sz (k % N) = 0 then [] else [(⟨r / N, lo sz (k % N), sz (k % N)⟩ : Red)]) → u.pos = lo sz (k % N) ∧ l.reducefrom ≠ [] := by
      intro u hu
      obtain ⟨r, hr, hu⟩ := List.mem_flatMap.1 hu
      split at hu
      · cases hu
      · rw [List.mem_singleton.1 hu]
        exact ⟨rfl, List.ne_nil_of_mem hr⟩
    refine ⟨?_, ih (k + 1) fun y hy => hx y (List.mem_cons_of_mem _ hy), fun u hu w hw => ?_⟩
    · rw [List.pairwise_iff_forall_sublist]
      intro a c hac
      have h1 := hp a (hac.subset List.mem_cons_self)
      have h2 := hp c (hac.subset (List.mem_cons_of_mem _ List.mem_cons_self))
      rw [h1.1, h2.1]
    · obtain ⟨h1, h2⟩ := hp u hu
      obtain ⟨x, g1, r, g2, _, rfl⟩ := mem_tsOf hw
      obtain ⟨r0, hr0⟩ := List.exists_mem_of_ne_nil _ h2
      have k1 := hx (l, k) List.mem_cons_self r0 hr0
      have k2 := hx x (List.mem_cons_of_mem _ g1) r g2
      have hle : k < x.2 := by
        have := (List.mem_zipIdx_iff_le_and_getElem?_sub.1 g1).1
        omega
      rw [h1]
      apply lo_mono
      have d1 := Nat.div_add_mod k N
      have d2 := Nat.div_add_mod x.2 N
      rw [k1.1] at d1
      rw [k2.1] at d2
      omega

theorem reds_eq {N : Nat} {sz : Nat → Nat} {b : Block} (hN : 0 < N) (hs : Lay (mmsize N sz) b fun n => sz (n % N))
    (hf : ∀ n l, b[n]? = some l → l.frac % N = n % N) (hok : reduceOk b = true) {Dl : Nat → Prop} {dr : Nat}
    (hx : RedOk N Dl dr b.zipIdx) (st : Nat → Nat) (h0 : st 0 = 0) :
    (reductions (mmsize N sz) b).map (fl st) = (tsOf N sz b.zipIdx).map (Red.instr (flat (lo sz N)) dr) := by
  unfold reductions tsOf
  rw [List.map_flatMap, List.map_flatMap]
  apply List.flatMap_congr
  intro x hxm
  have hget := List.mem_zipIdx_iff_getElem?.1 hxm
  rw [List.map_flatMap, List.map_flatMap]
  apply List.flatMap_congr
  intro r hr
  obtain ⟨g1, g2, g3, _, _⟩ := hx x hxm r hr
  have hlen : x.2 < b.length := (List.getElem?_eq_some_iff.1 hget).1
  have hrl : r < b.length := by
    have h3 := (reduceOk_mem b hok x hxm).2 r (List.mem_append_left _ hr)
    by_contra hc
    have h4 := h3.2
    unfold fracOf at h4
    rw [List.getElem?_eq_none (by omega)] at h4
    cases h4
  have e1 : mmsize N sz x.1.frac = sz (x.2 % N) := by
    unfold mmsize
    rw [hf x.2 x.1 hget]
  unfold copyIf
  rw [e1]
  split
  · rfl
  · rw [List.map_singleton, List.map_singleton]
    congr 1
    simp only [fl, mapAddr, placeAt, Red.instr, flat, h0, Nat.zero_add]
    rw [off_row hs hN (Nat.le_of_lt hlen), off_row hs hN (Nat.le_of_lt hrl), g1, g3]

end ExtMpi.Optimise
