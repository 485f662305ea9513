import Verif.Lemmas.CyclicScatter
import Verif.Lemmas.CyclicDelete
/-! The gather steps of the cyclic allreduce. -/
namespace ExtMpi.CyclicReduce
open Schedule Cyclic

/-! ## Closed forms -/

/-- Distance of the message number of line `n` from the node. Every node contributes `m` lines. -/
def cl (m n : Nat) : Nat := n / m + n % m

/-- Message number of line `n` on node `t`. -/
def num (N m t n : Nat) : Nat := (cl m n + t) % N

/-- Source of the reduction of line `n`. -/
def src (N m G n : Nat) : Option Nat :=
  (List.range n).reverse.find? fun j =>
    cl m j % N == cl m n % N && (decide (j < m * G) || n / (m * G) * G % N != j / (m * G) * G % N)

theorem cl_add (m G k x : Nat) (hm : 0 < m) : cl m (x + k * (m * G)) = cl m x + k * G := by
  unfold cl
  have e : x + k * (m * G) = x + m * (k * G) := by ring
  rw [e, Nat.add_mul_div_left _ _ hm, Nat.add_mul_mod_self_left]
  omega

theorem cl_small (m n : Nat) (h : n < m) : cl m n = n := by
  unfold cl
  rw [Nat.div_eq_of_lt h, Nat.mod_eq_of_lt h, Nat.zero_add]

theorem split_line (s n : Nat) : n % s + n / s * s = n := by
  rw [Nat.mul_comm]; exact Nat.mod_add_div n s

theorem frac_eq (N m G t : Nat) (hm : 0 < m) (hG : 0 < G) (fr : Nat → Nat)
    (h : ∀ n, n < m * G → fr n = num N m t n) : gatherFrac N G (m * G) fr = num N m t := by
  funext n
  have hs : 0 < m * G := Nat.mul_pos hm hG
  unfold gatherFrac
  split
  · rename_i hn; exact h n hn
  · rw [h _ (Nat.mod_lt _ hs)]
    unfold num
    have e := cl_add m G (n / (m * G)) (n % (m * G)) hm
    rw [split_line] at e
    rw [e, Nat.add_assoc, Nat.mod_add_mod]
    have : cl m (n % (m * G)) + t + (N + n / (m * G) * G) = cl m (n % (m * G)) + n / (m * G) * G + t + N := by
      omega
    rw [this, Nat.add_mod_right]

theorem num_eq_iff (N m t a b : Nat) : num N m t a = num N m t b ↔ cl m a % N = cl m b % N := by
  unfold num
  constructor
  · intro h; exact Nat.ModEq.add_right_cancel' (n := N) t h
  · intro h; exact Nat.ModEq.add_right (n := N) t h

theorem node_eq_iff (N G s t a b : Nat) :
    gatherNode N G s t a = gatherNode N G s t b ↔ a / s * G % N = b / s * G % N := by
  unfold gatherNode
  constructor
  · intro h; exact Nat.ModEq.add_left_cancel' (n := N) (N + t) h
  · intro h; exact Nat.ModEq.add_left (n := N) (N + t) h

theorem source_eq (N m G t : Nat) (hm : 0 < m) (hG : 0 < G) (fr : Nat → Nat)
    (h : ∀ n, n < m * G → fr n = num N m t n) (n : Nat) : gatherSource N G (m * G) t fr n = src N m G n := by
  unfold gatherSource src
  rw [frac_eq N m G t hm hG fr h]
  congr 1
  funext j
  have e1 : (num N m t j == num N m t n) = (cl m j % N == cl m n % N) := by
    rw [Bool.eq_iff_iff]; simp only [beq_iff_eq]; exact num_eq_iff N m t j n
  have e2 : (gatherNode N G (m * G) t n != gatherNode N G (m * G) t j) =
      (n / (m * G) * G % N != j / (m * G) * G % N) := by
    rw [Bool.eq_iff_iff]; simp only [bne_iff_ne, ne_eq, not_iff_not]
    exact node_eq_iff N G (m * G) t n j
  rw [e1, e2]

/-- Line of the exchange. -/
def gLine (N m G S p t n : Nat) : LineD :=
  { frac := num N m t n
    sendto := (List.range (gatherPorts S (m * G) p n)).map fun i : Nat =>
      (((N : Int) + t - ((i : Int) + 1) * G).tmod N, ((n + m * G * (i + 1) : Nat) : Int))
    recvfrom :=
      if n < m * G then [] else [((gatherNode N G (m * G) t n : Int), ((n % (m * G) : Nat) : Int))] }

/-- Line of the reductions. -/
def rLine (N m G t n : Nat) : LineD :=
  { frac := num N m t n, reducefrom := if n < m * G then [] else (src N m G n).toList }

theorem gatherBlock_eq (N m G S p t : Nat) (hm : 0 < m) (hG : 0 < G) (fr : Nat → Nat)
    (h : ∀ n, n < m * G → fr n = num N m t n) :
    gatherBlock N G S (m * G) p t fr = Recursive.mk S (gLine N m G S p t) := by
  unfold gatherBlock gLine
  rw [frac_eq N m G t hm hG fr h]

theorem gatherReduce_eq (N m G S t : Nat) (hm : 0 < m) (hG : 0 < G) (fr : Nat → Nat)
    (h : ∀ n, n < m * G → fr n = num N m t n) :
    gatherReduce N G S (m * G) t fr = Recursive.mk S (rLine N m G t) := by
  unfold gatherReduce rLine
  rw [frac_eq N m G t hm hG fr h]
  congr 1
  funext n
  rw [source_eq N m G t hm hG fr h]

/-- The blocks of the gather steps. -/
def gBlocks (N m t : Nat) : Nat → List Nat → List Block
  | _, [] => []
  | G, p :: ps =>
    Recursive.mk (m * min (G * (p + 1)) N) (gLine N m G (m * min (G * (p + 1)) N) p t) ::
      Recursive.mk (m * min (G * (p + 1)) N) (rLine N m G t) :: gBlocks N m t (G * (p + 1)) ps

theorem gatherSteps_eq (N m t : Nat) (hm : 0 < m) (ps : List Nat) (G : Nat) (hG : 0 < G) (fr : Nat → Nat)
    (h : ∀ n, n < m * G → fr n = num N m t n) :
    (gatherSteps N m t G fr ps).1 = gBlocks N m t G ps ∧
      ∀ n, n < m * G → (gatherSteps N m t G fr ps).2 n = num N m t n := by
  induction ps generalizing G fr with
  | nil => exact ⟨rfl, h⟩
  | cons p ps ih =>
    have h' := frac_eq N m G t hm hG fr h
    obtain ⟨i1, i2⟩ := ih (G * (p + 1)) (Nat.mul_pos hG (by omega)) (gatherFrac N G (m * G) fr)
      (fun n _ => by rw [h'])
    unfold gatherSteps gBlocks
    simp only [i1, gatherBlock_eq N m G _ p t hm hG fr h, gatherReduce_eq N m G _ t hm hG fr h]
    refine ⟨trivial, ?_⟩
    intro n hn
    apply i2
    have : m * G ≤ m * (G * (p + 1)) := Nat.mul_le_mul_left m (Nat.le_mul_of_pos_right G (by omega))
    omega

theorem gatherSteps_num (N m t : Nat) (hm : 0 < m) (p : Nat) (ps : List Nat) (G : Nat) (hG : 0 < G)
    (fr : Nat → Nat) (h : ∀ n, n < m * G → fr n = num N m t n) :
    (gatherSteps N m t G fr (p :: ps)).2 = num N m t := by
  induction ps generalizing G fr p with
  | nil =>
    unfold gatherSteps gatherSteps
    exact frac_eq N m G t hm hG fr h
  | cons p' ps ih =>
    rw [gatherSteps]
    exact ih p' (G * (p + 1)) (Nat.mul_pos hG (by omega)) _ fun n _ => by rw [frac_eq N m G t hm hG fr h]

/-! ## The source of a reduction -/

theorem find_reverse (P : Nat → Bool) (n : Nat) :
    match (List.range n).reverse.find? P with
    | some r => r < n ∧ P r = true ∧ ∀ r', r < r' → r' < n → P r' = false
    | none => ∀ r', r' < n → P r' = false := by
  induction n with
  | zero => simp
  | succ n ih =>
    rw [List.range_succ, List.reverse_append, List.reverse_singleton, List.singleton_append, List.find?_cons]
    cases hP : P n with
    | true => exact ⟨by omega, hP, fun r' h1 h2 => by omega⟩
    | false =>
      simp only
      split at ih
      · rename_i r hr
        refine ⟨by omega, ih.2.1, fun r' h1 h2 => ?_⟩
        by_cases e : r' = n
        · rw [e]; exact hP
        · exact ih.2.2 r' h1 (by omega)
      · rename_i hr
        intro r' h
        by_cases e : r' = n
        · rw [e]; exact hP
        · exact ih r' (by omega)

theorem src_cond (N m G n j : Nat) (hm : 0 < m) (hG : 0 < G) (hn : m * G ≤ n) (hnN : n < m * N) (hj : j < n) :
    (decide (j < m * G) || n / (m * G) * G % N != j / (m * G) * G % N) = true ↔ j < n / (m * G) * (m * G) := by
  obtain ⟨s, hs⟩ : ∃ s, s = m * G := ⟨_, rfl⟩
  have hs0 : 0 < s := hs ▸ Nat.mul_pos hm hG
  have hlt : ∀ x, x < m * N → x / s * G < N := by
    intro x hx
    have h1 := Nat.div_mul_le_self x s
    have h2 : m * (x / s * G) < m * N := by
      have : m * (x / s * G) = x / s * s := by rw [hs]; ring
      omega
    exact Nat.lt_of_mul_lt_mul_left h2
  rw [← hs] at hn ⊢
  have h1 : 1 ≤ n / s := (Nat.one_le_div_iff hs0).2 hn
  have h2 : s ≤ n / s * s := Nat.le_mul_of_pos_left s h1
  rw [Bool.or_eq_true, decide_eq_true_eq, bne_iff_ne, Ne, Nat.mod_eq_of_lt (hlt n hnN),
    Nat.mod_eq_of_lt (hlt j (by omega))]
  have h3 : j / s ≤ n / s := Nat.div_le_div_right (by omega)
  have h5 := (Recursive.div_eq_iff' s j (j / s) hs0).1 rfl
  constructor
  · rintro (h | h)
    · omega
    · have h4 : j / s < n / s := by
        rcases Nat.lt_or_ge (j / s) (n / s) with c | c
        · exact c
        · exact absurd (by rw [Nat.le_antisymm c h3]) h
      have h6 : (j / s + 1) * s ≤ n / s * s := Nat.mul_le_mul_right s h4
      rw [Nat.add_mul, Nat.one_mul] at h6
      omega
  · intro h
    right
    intro e
    have := Nat.eq_of_mul_eq_mul_right hG e
    rw [this] at h
    omega

theorem src_spec (N m G n : Nat) (hm : 0 < m) (hG : 0 < G) (hn : m * G ≤ n) (hnN : n < m * N) :
    match src N m G n with
    | some r => r < n / (m * G) * (m * G) ∧ cl m r % N = cl m n % N ∧
        ∀ r', r < r' → r' < n / (m * G) * (m * G) → cl m r' % N ≠ cl m n % N
    | none => ∀ r', r' < n / (m * G) * (m * G) → cl m r' % N ≠ cl m n % N := by
  have hle : n / (m * G) * (m * G) ≤ n := Nat.div_mul_le_self _ _
  have h := find_reverse (fun j => cl m j % N == cl m n % N &&
    (decide (j < m * G) || n / (m * G) * G % N != j / (m * G) * G % N)) n
  have key : ∀ r', r' < n → (cl m r' % N == cl m n % N &&
      (decide (r' < m * G) || n / (m * G) * G % N != r' / (m * G) * G % N)) = false →
      r' < n / (m * G) * (m * G) → cl m r' % N ≠ cl m n % N := by
    intro r' h1 h2 h3 e
    rw [(src_cond N m G n r' hm hG hn hnN h1).2 h3, e] at h2
    simp at h2
  unfold src
  split
  · rename_i r hr
    rw [hr] at h
    simp only at h
    obtain ⟨h1, h2, h3⟩ := h
    rw [Bool.and_eq_true, beq_iff_eq, src_cond N m G n r hm hG hn hnN h1] at h2
    exact ⟨h2.2, h2.1, fun r' a b => key r' (by omega) (h3 r' a (by omega)) b⟩
  · rename_i hr
    rw [hr] at h
    exact fun r' b => key r' (by omega) (h r' (by omega)) b

/-! ## Ports -/

/-- Port counts that do not overshoot: as long as messages are missing, more than two ports are used
only if all partners are within the number of nodes. -/
def Fits (N : Nat) : Nat → List Nat → Prop
  | _, [] => True
  | G, p :: ps => (G < N → p ≤ 2 ∨ G * p ≤ N) ∧ Fits N (G * (p + 1)) ps

theorem ports_iff (N m G p n i : Nat) (hfit : p ≤ 2 ∨ G * p ≤ N)
    (hn : n < m * G) :
    i < gatherPorts (m * min (G * (p + 1)) N) (m * G) p n ↔
      i < p ∧ n + m * G * (i + 1) < m * min (G * (p + 1)) N := by
  obtain ⟨s, hs⟩ : ∃ s, s = m * G := ⟨_, rfl⟩
  obtain ⟨S, hS⟩ : ∃ S, S = m * min (G * (p + 1)) N := ⟨_, rfl⟩
  rw [← hs] at hn
  rw [← hs, ← hS]
  have hSp : G * p ≤ N → s * p ≤ S := by
    intro h
    rw [hs, hS, Nat.mul_assoc]
    apply Nat.mul_le_mul_left
    have : G * (p + 1) = G * p + G := by ring
    omega
  have hge : s * 1 ≤ s * (i + 1) := Nat.mul_le_mul_left s (by omega)
  unfold gatherPorts
  by_cases c1 : S ≤ n + s
  · rw [if_neg (by omega), if_pos ⟨hn, c1⟩]
    omega
  · by_cases c2 : S ≤ n + s * p
    · rw [if_pos ⟨hn, c2, by omega⟩]
      constructor
      · intro hi
        refine ⟨by omega, ?_⟩
        rcases hfit with h | h
        · have : i = 0 := by omega
          subst this
          omega
        · have h1 := hSp h
          have h2 : s * (i + 2) ≤ s * p := Nat.mul_le_mul_left s (by omega)
          have h3 : s * (i + 2) = s * (i + 1) + s := by ring
          omega
      · rintro ⟨h1, h2⟩
        by_contra hc
        have : i + 1 = p := by omega
        rw [this] at h2
        omega
    · rw [if_neg (by omega), if_neg (by omega), if_pos hn]
      constructor
      · intro hi
        refine ⟨hi, ?_⟩
        have h2 : s * (i + 1) ≤ s * p := Nat.mul_le_mul_left s (by omega)
        omega
      · exact fun h => h.1

/-- With all lines present nothing is sent. -/
theorem ports_idle (N m G p n : Nat) (hG : N ≤ G) : gatherPorts (m * min (G * (p + 1)) N) (m * G) p n = 0 ∨
    m * min (G * (p + 1)) N ≤ n := by
  have h1 : G ≤ G * (p + 1) := Nat.le_mul_of_pos_right G (by omega)
  rw [Nat.min_eq_right (by omega)]
  have h2 : m * N ≤ m * G := Nat.mul_le_mul_left m hG
  by_cases c : m * N ≤ n
  · exact .inr c
  · left
    unfold gatherPorts
    rw [if_neg (by omega), if_pos (by omega)]

/-! ## Exchange -/

/-- The cleaned line of an exchange: entries for unused lines are gone. -/
def gKeep (u : List Bool) (N m G S p t n : Nat) : LineD :=
  { gLine N m G S p t n with
    sendto := (gLine N m G S p t n).sendto.filter fun e => u[e.2.toNat]? == some true }

theorem send_comp (u : List Bool) (N m G p q t n : Nat) (hG : 0 < G)
    (hfit : p ≤ 2 ∨ G * p ≤ N) (hq : q < N) (ht : t < N) (hne : q ≠ t)
    (hm : 0 < m) :
    (((renumberLine u (gKeep u N m G (m * min (G * (p + 1)) N) p q n)).sendto.filter
      fun e => e.1 == (t : Int)).map fun _ => n) =
    if (decide (dist N q t % G = 0 ∧ n < m * G ∧ n + dist N q t / G * (m * G) < m * min (G * (p + 1)) N)) &&
      (u[n + dist N q t / G * (m * G)]? == some true) then [n] else [] := by
  obtain ⟨S, hS⟩ : ∃ S, S = m * min (G * (p + 1)) N := ⟨_, rfl⟩
  obtain ⟨d, hd⟩ : ∃ d, d = dist N q t := ⟨_, rfl⟩
  have hdpos : 0 < d := hd ▸ dist_pos N q t ht hne
  rw [← hS, ← hd]
  have e0 : ∀ l : LineD, ((renumberLine u l).sendto.filter fun e => e.1 == (t : Int)).map (fun _ => n) =
      (l.sendto.filter fun e => e.1 == (t : Int)).map fun _ => n := by
    intro l
    unfold renumberLine
    simp only
    rw [List.filter_map, List.map_map]
    have : (fun e : Int × Int => e.1 == (t : Int)) ∘ (fun e : Int × Int =>
        if e.1 ≥ 0 then (e.1, (renumber u e.2.toNat : Int)) else e) = fun e => e.1 == (t : Int) := by
      funext e
      simp only [Function.comp]
      split <;> rfl
    rw [this]
    rfl
  rw [e0]
  unfold gKeep gLine
  simp only
  rw [List.filter_filter, List.filter_map, List.map_map]
  by_cases hn : n < m * G
  · obtain ⟨gp, hgp⟩ : ∃ gp, gp = gatherPorts S (m * G) p n := ⟨_, rfl⟩
    have hpi : ∀ i, i < gp ↔ i < p ∧ n + m * G * (i + 1) < S := by
      intro i
      rw [hgp, hS]
      exact ports_iff N m G p n i hfit hn
    rw [← hgp]
    have hQ : ∀ i, i < gp → (((fun a : Int × Int => a.1 == (t : Int) && (u[a.2.toNat]? == some true)) ∘
        fun i : Nat => (((N : Int) + q - ((i : Int) + 1) * G).tmod N, ((n + m * G * (i + 1) : Nat) : Int))) i = true ↔
        ((i + 1) * G = d ∧ u[n + m * G * (i + 1)]? = some true)) := by
      intro i hi
      obtain ⟨h1, h2⟩ := (hpi i).1 hi
      have hlt : (i + 1) * G < N := by
        have h3 : m * ((i + 1) * G) < m * N := by
          have e1 : m * ((i + 1) * G) = m * G * (i + 1) := by ring
          have e2 : S ≤ m * N := by rw [hS]; exact Nat.mul_le_mul_left m (Nat.min_le_right _ _)
          omega
        exact Nat.lt_of_mul_lt_mul_left h3
      have hr := ring_back N q t ((i + 1) * G) hq ht hne (by omega)
      have e : (N : Int) + q - ((i : Int) + 1) * G = (q : Int) + N - (((i + 1) * G : Nat) : Int) := by
        push_cast; ring
      simp only [Function.comp, Bool.and_eq_true, beq_iff_eq, Int.toNat_natCast]
      rw [e, hr, hd]
    by_cases hdiv : d % G = 0 ∧ n + d / G * (m * G) < S ∧ u[n + d / G * (m * G)]? = some true
    · obtain ⟨hd1, hd2, hd3⟩ := hdiv
      have hdd := Nat.div_add_mod d G
      rw [hd1, Nat.mul_comm] at hdd
      have hk0 : 0 < d / G := by
        rcases Nat.eq_zero_or_pos (d / G) with h | h
        · rw [h] at hdd; omega
        · exact h
      have ek : d / G - 1 + 1 = d / G := by omega
      have hkgp : d / G - 1 < gp := by
        rw [hpi, ek]
        refine ⟨?_, by rw [Nat.mul_comm (m * G)]; exact hd2⟩
        have h3 : d / G * (m * G) < (p + 1) * (m * G) := by
          have e1 : m * (G * (p + 1)) = (p + 1) * (m * G) := by ring
          have : S ≤ m * (G * (p + 1)) := by rw [hS]; exact Nat.mul_le_mul_left m (Nat.min_le_left _ _)
          omega
        have := Nat.lt_of_mul_lt_mul_right h3
        omega
      rw [filter_range_interval gp _ (d / G - 1) 1 (by omega)]
      · rw [if_pos]
        · rfl
        · rw [Bool.and_eq_true, decide_eq_true_eq, beq_iff_eq]
          exact ⟨⟨hd1, hn, hd2⟩, hd3⟩
      · intro i hi
        rw [hQ i hi]
        constructor
        · rintro ⟨h, _⟩
          have : i + 1 = d / G := by
            apply Nat.eq_of_mul_eq_mul_right hG
            omega
          omega
        · intro h
          have : i + 1 = d / G := by omega
          rw [this, Nat.mul_comm (m * G)]
          exact ⟨by omega, hd3⟩
    · have : (List.range gp).filter ((fun a : Int × Int => a.1 == (t : Int) && (u[a.2.toNat]? == some true)) ∘
          fun i : Nat => (((N : Int) + q - ((i : Int) + 1) * G).tmod N, ((n + m * G * (i + 1) : Nat) : Int))) = [] := by
        rw [List.filter_eq_nil_iff]
        intro i hi
        have hi := List.mem_range.1 hi
        rw [hQ i hi]
        rintro ⟨h1, h2⟩
        have hk : d / G = i + 1 := by rw [← h1, Nat.mul_div_cancel _ hG]
        apply hdiv
        rw [hk, Nat.mul_comm (i + 1) (m * G)]
        exact ⟨by rw [← h1, Nat.mul_mod_left], ((hpi i).1 hi).2, h2⟩
      rw [this, if_neg]
      · rfl
      · rw [Bool.and_eq_true, decide_eq_true_eq, beq_iff_eq]
        rintro ⟨⟨h1, _, h2⟩, h3⟩
        exact hdiv ⟨h1, h2, h3⟩
  · have h0 : gatherPorts S (m * G) p n = 0 := by
      unfold gatherPorts
      rw [if_neg (by omega), if_neg (by omega), if_neg hn]
    rw [h0, if_neg]
    · rfl
    · rw [Bool.and_eq_true, decide_eq_true_eq]
      rintro ⟨⟨_, h, _⟩, _⟩
      exact hn h

theorem recv_comp (u : List Bool) (N m G S p q t n : Nat) (hm : 0 < m) (hG : 0 < G) (hq : q < N) (ht : t < N)
    (hn : n < m * N) :
    ((renumberLine u (gKeep u N m G S p t n)).recvfrom.any fun e => e.1 == (q : Int)) = true ↔
      m * G ≤ n ∧ n / (m * G) * G = dist N q t := by
  have h2 : m * (n / (m * G) * G) < m * N := by
    have h1 := Nat.div_mul_le_self n (m * G)
    have : m * (n / (m * G) * G) = n / (m * G) * (m * G) := by ring
    omega
  have hr := ring_iff N q t (n / (m * G) * G) hq ht (Nat.lt_of_mul_lt_mul_left h2)
  unfold renumberLine gKeep gLine
  simp only
  by_cases c : n < m * G
  · rw [if_pos c]
    simp only [List.map_nil, List.any_nil, Bool.false_eq_true, false_iff]
    omega
  · rw [if_neg c]
    simp only [List.map_cons, List.map_nil, List.any_cons, List.any_nil, Bool.or_false, beq_iff_eq, Nat.cast_inj]
    unfold gatherNode
    rw [Nat.add_comm N t, hr]
    constructor
    · intro h; exact ⟨by omega, h⟩
    · exact fun h => h.2

/-- The exchange of a gather step on the lines that are left. -/
theorem gather_exchange {V : Type} [Add V] (u : List Bool) (N m G p : Nat) (hm : 0 < m) (hG : 0 < G)
    (hGN : G < N) (hp : 0 < p) (hfit : p ≤ 2 ∨ G * p ≤ N)
    (hU : ∀ n, n < m * min (G * (p + 1)) N → m * G ≤ n → u[n]? = some true → u[n % (m * G)]? = some true)
    (s : Nat → Nat → V) :
    ∃ s1 : Nat → Nat → V,
      (∀ t, t < N → nodeStep N (fun t => comp (m * min (G * (p + 1)) N) (fun n => u[n]? == some true) fun n =>
        renumberLine u (gKeep u N m G (m * min (G * (p + 1)) N) p t n)) s t = some (s1 t)) ∧
      ∀ t n, t < N → n < m * min (G * (p + 1)) N → u[n]? = some true →
        s1 t (pos (fun n => u[n]? == some true) n) =
          if n < m * G then s t (pos (fun n => u[n]? == some true) n)
          else s ((t + n / (m * G) * G) % N) (pos (fun n => u[n]? == some true) (n % (m * G))) := by
  obtain ⟨U, hUdef⟩ : ∃ U : Nat → Bool, U = fun n => u[n]? == some true := ⟨_, rfl⟩
  have hUiff : ∀ n, U n = true ↔ u[n]? = some true := by intro n; rw [hUdef]; simp
  obtain ⟨S, hS⟩ : ∃ S, S = m * min (G * (p + 1)) N := ⟨_, rfl⟩
  obtain ⟨s0, hs0⟩ : ∃ s0, s0 = m * G := ⟨_, rfl⟩
  have hs0pos : 0 < s0 := hs0 ▸ Nat.mul_pos hm hG
  have hSN : S ≤ m * N := by rw [hS]; exact Nat.mul_le_mul_left m (Nat.min_le_right _ _)
  have hs0S : s0 < S := by
    rw [hs0, hS]
    apply Nat.mul_lt_mul_of_pos_left _ hm
    have : G * 2 ≤ G * (p + 1) := Nat.mul_le_mul_left G (by omega)
    omega
  obtain ⟨g, hg⟩ : ∃ g : Nat → Nat → LineD, g = fun t n => renumberLine u (gKeep u N m G S p t n) := ⟨_, rfl⟩
  obtain ⟨s1, hs1⟩ := Recursive.exists_state N s (fun t v => nodeStep N (fun t => comp S U (g t)) s t = some v ∧
      ∀ n, n < S → U n = true → v (pos U n) =
        if n < s0 then s t (pos U n) else s ((t + n / s0 * G) % N) (pos U (n % s0))) (by
    intro t ht
    -- items received from q
    have hbl : ∀ q, q < N → q ≠ t → dist N q t % G = 0 → dist N q t / G * s0 < S →
        ∀ n, n < S → (m * G ≤ n ∧ n / (m * G) * G = dist N q t ↔ dist N q t / G * s0 ≤ n ∧
          n < dist N q t / G * s0 + min s0 (S - dist N q t / G * s0)) := by
      intro q hq hne h1 h2 n hn
      obtain ⟨d, hd⟩ : ∃ d, d = dist N q t := ⟨_, rfl⟩
      have hdpos : 0 < d := hd ▸ dist_pos N q t ht hne
      rw [← hd] at h1 h2 ⊢
      have hdd := Nat.div_add_mod d G
      rw [h1, Nat.mul_comm] at hdd
      have hk0 : 0 < d / G := by
        rcases Nat.eq_zero_or_pos (d / G) with h | h
        · rw [h] at hdd; omega
        · exact h
      have hk1 : s0 ≤ d / G * s0 := Nat.le_mul_of_pos_left s0 hk0
      have h3 : n / s0 * G = d ↔ n / s0 = d / G := by
        constructor
        · intro h; rw [← h, Nat.mul_div_cancel _ hG]
        · intro h; rw [h]; omega
      have h4 := Recursive.div_eq_iff' s0 n (d / G) hs0pos
      rw [← hs0, h3, h4]
      omega
    obtain ⟨W, hW⟩ : ∃ W : Nat → List Nat, W = fun q =>
        if dist N q t % G = 0 ∧ dist N q t / G * s0 < S then
          (List.range' (dist N q t / G * s0) (min s0 (S - dist N q t / G * s0))).filter U else [] := ⟨_, rfl⟩
    have hmemW : ∀ q w, w ∈ W q → dist N q t % G = 0 ∧ dist N q t / G * s0 < S ∧ dist N q t / G * s0 ≤ w ∧
        w < dist N q t / G * s0 + min s0 (S - dist N q t / G * s0) ∧ U w = true := by
      intro q w hw
      rw [hW] at hw
      simp only at hw
      split at hw
      · rename_i hc
        obtain ⟨a1, a2⟩ := List.mem_filter.1 hw
        have := List.mem_range'_1.1 a1
        exact ⟨hc.1, hc.2, this.1, this.2, a2⟩
      · cases hw
    have hrecvcond : ∀ q n, q < N → n < S → (((g t n).recvfrom.any fun e => e.1 == (q : Int)) = true ↔
        m * G ≤ n ∧ n / (m * G) * G = dist N q t) := by
      intro q n hq hn
      rw [hg]
      exact recv_comp u N m G S p q t n hm hG hq ht (by omega)
    have hrecv : ∀ q, q < N → q ≠ t → recvIdx (comp S U (g t)) q = (W q).map (pos U) := by
      intro q hq hne
      rw [recvIdx_comp, hW]
      congr 1
      simp only
      split
      · rename_i hc
        have := hbl q hq hne hc.1 hc.2
        rw [← filter_range_interval S (fun n => (g t n).recvfrom.any fun e => e.1 == (q : Int))
          (dist N q t / G * s0) (min s0 (S - dist N q t / G * s0)) (by omega)
          (fun n hn => by rw [hrecvcond q n hq hn]; exact this n hn), List.filter_filter]
      · rename_i hc
        rw [List.filter_eq_nil_iff]
        intro n hn
        have hn := List.mem_range.1 hn
        rw [Bool.and_eq_true, hrecvcond q n hq hn]
        rintro ⟨_, h1, h2⟩
        apply hc
        rw [← h2, Nat.mul_div_cancel _ hG, Nat.mul_mod_left, ← hs0]
        have := Nat.div_mul_le_self n s0
        omega
    have hsend : ∀ q, q < N → q ≠ t → message (comp S U (g q)) (s q) t =
        (W q).map fun w => (fracOf (comp S U (g t)) (pos U w), s q (pos U (w - dist N q t / G * s0))) := by
      intro q hq hne
      obtain ⟨d, hd⟩ : ∃ d, d = dist N q t := ⟨_, rfl⟩
      obtain ⟨k, hk⟩ : ∃ k, k = d / G := ⟨_, rfl⟩
      unfold message
      rw [sendIdx_comp S U (g q) t (fun n => decide (d % G = 0 ∧ n < s0 ∧ n + k * s0 < S) &&
        (u[n + k * s0]? == some true)) (by
          intro n _ _
          rw [hg]
          have := send_comp u N m G p q t n hG hfit hq ht hne hm
          rw [← hS, ← hd, ← hk, ← hs0] at this
          exact this), List.map_map]
      have hWq : W q = if d % G = 0 ∧ k * s0 < S then
          (List.range' (k * s0) (min s0 (S - k * s0))).filter U else [] := by
        rw [hW]; simp only [← hd, ← hk]
      rw [hWq]
      by_cases hc : d % G = 0 ∧ k * s0 < S
      · rw [if_pos hc]
        obtain ⟨len, hlen⟩ : ∃ len, len = min s0 (S - k * s0) := ⟨_, rfl⟩
        rw [← hlen]
        have e1 : (List.range S).filter (fun n => U n && (decide (d % G = 0 ∧ n < s0 ∧ n + k * s0 < S) &&
            (u[n + k * s0]? == some true))) = (List.range len).filter fun n => U (n + k * s0) := by
          have hb : (List.range S).filter (fun n => decide (0 ≤ n ∧ n < 0 + len)) = List.range' 0 len :=
            filter_range_interval S _ 0 len (by omega) fun n _ => by simp
          rw [List.range_eq_range', ← List.range_eq_range', List.range_eq_range' (n := len), ← hb,
            List.filter_filter]
          apply List.filter_congr
          intro n hn
          rw [Bool.eq_iff_iff]
          simp only [Bool.and_eq_true, decide_eq_true_eq, hUiff, beq_iff_eq]
          constructor
          · rintro ⟨_, ⟨_, h1, h2⟩, h3⟩
            exact ⟨h3, by omega, by omega⟩
          · rintro ⟨h3, _, h4⟩
            refine ⟨?_, ⟨hc.1, by omega, by omega⟩, h3⟩
            by_cases hk0 : k = 0
            · rw [hk0, Nat.zero_mul, Nat.add_zero] at h3; exact h3
            · have hks : s0 ≤ k * s0 := Nat.le_mul_of_pos_left s0 (by omega)
              have := hU (n + k * s0) (by rw [← hS]; omega) (by rw [← hs0]; omega) h3
              rw [← hs0, Nat.add_mul_mod_self_right, Nat.mod_eq_of_lt (by omega)] at this
              exact this
        have e2 : (List.range' (k * s0) len).filter U =
            ((List.range len).filter fun n => U (n + k * s0)).map fun n => n + k * s0 := by
          rw [List.range'_eq_map_range, List.filter_map]
          have f1 : (fun x => k * s0 + x) = fun n => n + k * s0 := by funext x; omega
          rw [f1]
          rfl
        rw [e1, e2, List.map_map]
        apply List.map_congr_left
        intro n hn
        obtain ⟨n1, n2⟩ := List.mem_filter.1 hn
        have n1 := List.mem_range.1 n1
        have hUn : U n = true := by
          by_cases hk0 : k = 0
          · rw [hk0, Nat.zero_mul, Nat.add_zero] at n2; exact n2
          · have hks : s0 ≤ k * s0 := Nat.le_mul_of_pos_left s0 (by omega)
            have := hU (n + k * s0) (by rw [← hS]; omega) (by rw [← hs0]; omega) ((hUiff _).1 n2)
            rw [← hs0, Nat.add_mul_mod_self_right, Nat.mod_eq_of_lt (by omega)] at this
            exact (hUiff n).2 this
        simp only [Function.comp]
        rw [fracOf_comp S U (g q) n (by omega) hUn, fracOf_comp S U (g t) (n + k * s0) (by omega) n2]
        have e3 : n + k * s0 - dist N q t / G * s0 = n := by rw [← hd, ← hk]; omega
        rw [e3]
        have e4 : (g q n).frac = (g t (n + k * s0)).frac := by
          rw [hg]
          show num N m q n = num N m t (n + k * s0)
          unfold num
          rw [hs0, cl_add m G k n hm]
          have hkG : k * G = d := by
            have := Nat.div_add_mod d G
            rw [hc.1, Nat.mul_comm] at this
            rw [hk]; omega
          rw [hkG]
          have hr := (ring_iff N q t d hq ht (by rw [hd]; exact dist_lt N q t hq ht)).2 hd
          have e5 : t + N + d = t + d + N := by omega
          rw [e5, Nat.add_mod_right] at hr
          have e6 : cl m n + d + t = cl m n + (t + d) := by omega
          rw [e6, Nat.add_mod, ← hr, Nat.mod_mod, ← Nat.add_mod]
        rw [e4]
      · rw [if_neg hc]
        have : (List.range S).filter (fun n => U n && (decide (d % G = 0 ∧ n < s0 ∧ n + k * s0 < S) &&
            (u[n + k * s0]? == some true))) = [] := by
          rw [List.filter_eq_nil_iff]
          intro n _
          simp only [Bool.and_eq_true, decide_eq_true_eq]
          rintro ⟨_, ⟨h1, _, h2⟩, _⟩
          exact hc ⟨h1, by omega⟩
        rw [this]
        rfl
    obtain ⟨v, h1, h2, h3⟩ := recvAll_items N (comp S U (g t)) t ht W (pos U)
      (fun q => if dist N q t % G = 0 ∧ dist N q t / G * s0 < S then pos U (dist N q t / G * s0) else 0)
      (fun q w => s q (pos U (w - dist N q t / G * s0)))
      (fun q => message (comp S U (g q)) (s q) t) (s t) hrecv
      (by
        intro q _ _
        rw [hW]
        simp only
        split
        · exact filter_interval_pos U _ _
        · rfl)
      (by
        intro q hq hne
        apply reduces_list
        intro l hl e he
        obtain ⟨n, hn, _, rfl⟩ := mem_comp hl
        rw [hg] at he
        unfold renumberLine gKeep gLine at he
        simp only at he
        by_cases c : n < m * G
        · rw [if_pos c] at he; cases he
        · rw [if_neg c, List.map_singleton, List.mem_singleton] at he
          rw [he]
          simp only [ne_eq, Nat.cast_inj]
          unfold gatherNode
          have h2 : m * (n / (m * G) * G) < m * N := by
            have h1 := Nat.div_mul_le_self n (m * G)
            have : m * (n / (m * G) * G) = n / (m * G) * (m * G) := by ring
            omega
          rw [Nat.add_comm N t, ring_iff N t t _ ht ht (Nat.lt_of_mul_lt_mul_left h2)]
          have h0 : dist N t t = 0 := by unfold dist; simp
          rw [h0]
          have h4 : 1 ≤ n / (m * G) := (Nat.one_le_div_iff (by rw [← hs0]; exact hs0pos)).2 (by omega)
          have := Nat.mul_pos h4 hG
          omega)
      hsend
      (by
        intro q q' w w' hq hq' hne hne' hw hw' he
        obtain ⟨a1, a2, a3, a4, a5⟩ := hmemW q w hw
        obtain ⟨b1, b2, b3, b4, b5⟩ := hmemW q' w' hw'
        have hww := pos_inj U a5 b5 he
        subst hww
        have hwS : w < S := by omega
        have k1 := (hbl q hq hne a1 a2 w hwS).2 ⟨a3, a4⟩
        have k2 := (hbl q' hq' hne' b1 b2 w hwS).2 ⟨b3, b4⟩
        have key : dist N q t = dist N q' t := k1.2.symm.trans k2.2
        unfold dist at key
        split at key <;> split at key <;> omega)
    refine ⟨v, ?_, ?_⟩
    · have hok : reduceOk (comp S U (g t)) = true := by
        apply reduceOk_nil
        intro l hl
        obtain ⟨n, _, _, rfl⟩ := mem_comp hl
        rw [hg]
        exact ⟨rfl, rfl⟩
      rw [nodeStep_ok _ _ _ _ hok, h1, Option.map_some]
      rw [copyReduceAll_none]
      · congr 1
        unfold reduceAll
        rw [zipIdx_comp, List.foldl_map]
        generalize (List.range S).filter U = l
        have : ∀ l : List Nat, ∀ v : Nat → V, l.foldl (fun v n => List.foldl
            (fun v r => upd v (pos U n) (v (pos U n) + v r)) v (g t n).reducefrom) v = v := by
          intro l
          induction l with
          | nil => intro _; rfl
          | cons x xs ih =>
            intro v
            rw [List.foldl_cons]
            have : (g t x).reducefrom = [] := by rw [hg]; rfl
            rw [this]
            exact ih v
        exact this l v
      · intro l hl
        obtain ⟨n, _, _, rfl⟩ := mem_comp hl
        rw [hg]; rfl
    · intro n hn hUn
      by_cases hown : n < s0
      · rw [if_pos hown]
        apply h3
        intro q w hq hne hw he
        obtain ⟨a1, a2, a3, a4, a5⟩ := hmemW q w hw
        have hww := pos_inj U a5 hUn he
        subst hww
        have k1 := (hbl q hq hne a1 a2 w hn).2 ⟨a3, a4⟩
        omega
      · rw [if_neg hown]
        obtain ⟨k, hk⟩ : ∃ k, k = n / s0 := ⟨_, rfl⟩
        have hk1 : 1 ≤ k := by rw [hk]; exact (Nat.one_le_div_iff hs0pos).2 (by omega)
        have hdm : k * s0 ≤ n := by rw [hk]; exact Nat.div_mul_le_self n s0
        have hkG : k * G < N := by
          have h2 : m * (k * G) < m * N := by
            have : m * (k * G) = k * s0 := by rw [hs0]; ring
            omega
          exact Nat.lt_of_mul_lt_mul_left h2
        have hkG0 : 0 < k * G := Nat.mul_pos hk1 hG
        obtain ⟨q, hq⟩ : ∃ q, q = (t + N + k * G) % N := ⟨_, rfl⟩
        have hqN : q < N := by rw [hq]; exact Nat.mod_lt _ (by omega)
        have hdist : dist N q t = k * G := ((ring_iff N q t (k * G) hqN ht hkG).1 hq.symm).symm
        have hne : q ≠ t := by
          intro e
          rw [e] at hdist
          unfold dist at hdist
          rw [if_pos (Nat.le_refl t)] at hdist
          omega
        have hdk : dist N q t / G = k := by rw [hdist, Nat.mul_div_cancel _ hG]
        have hw : n ∈ W q := by
          rw [hW]
          simp only
          have c : dist N q t % G = 0 ∧ dist N q t / G * s0 < S := by
            rw [hdk, hdist, Nat.mul_mod_left]
            exact ⟨rfl, by omega⟩
          rw [if_pos c]
          apply List.mem_filter.2 ⟨?_, hUn⟩
          rw [List.mem_range'_1]
          apply (hbl q hqN hne c.1 c.2 n hn).1
          rw [← hs0, ← hk]
          exact ⟨by omega, hdist.symm⟩
        rw [h2 q n hqN hne hw]
        rw [hdk, ← hk]
        have e1 : n - k * s0 = n % s0 := by rw [mod_sub_div, hk]
        have e2 : (t + k * G) % N = q := by
          rw [hq]
          have : t + N + k * G = t + k * G + N := by omega
          rw [this, Nat.add_mod_right]
        rw [e1, e2])
  refine ⟨s1, fun t ht => ?_, fun t n ht hn hu => ?_⟩
  · have := (hs1 t ht).1
    rw [hg] at this
    rw [← hUdef, ← hS]
    exact this
  · have := (hs1 t ht).2 n (by rw [hS]; exact hn) ((hUiff n).2 hu)
    rw [← hUdef, ← hs0]
    exact this

end ExtMpi.CyclicReduce
