import Verif.Lemmas.CyclicGather
/-! Values of the lines in the gather steps of the cyclic allreduce, and which lines survive. -/
namespace ExtMpi.CyclicReduce
open Schedule Cyclic

/-! ## Values -/

/-- Sum of what the lines up to `n` with the number of line `n` stand for. -/
def part {V : Type} [AddCommMonoid V] (N m : Nat) (b : Nat → Nat → V) (t n : Nat) : V :=
  ∑ x ∈ (Finset.range (n + 1)).filter (fun x => cl m x % N = cl m n % N), b ((t + x / m) % N) (x % m)

theorem part_shift {V : Type} [AddCommMonoid V] (N m G k x t : Nat) (hm : 0 < m)
    (b : Nat → Nat → V) :
    part N m b ((t + k * G) % N) x =
      ∑ y ∈ (Finset.range (x + k * (m * G) + 1)).filter
        (fun y => k * (m * G) ≤ y ∧ cl m y % N = cl m (x + k * (m * G)) % N), b ((t + y / m) % N) (y % m) := by
  unfold part
  refine Finset.sum_bij (fun y _ => y + k * (m * G)) ?_ ?_ ?_ ?_
  · intro y hy
    obtain ⟨h1, h2⟩ := Finset.mem_filter.1 hy
    have h1 := Finset.mem_range.1 h1
    refine Finset.mem_filter.2 ⟨Finset.mem_range.2 (by omega), by omega, ?_⟩
    rw [cl_add m G k y hm, cl_add m G k x hm]
    exact Nat.ModEq.add_right (n := N) (k * G) h2
  · intro y _ y' _ h
    simpa using h
  · intro y hy
    obtain ⟨h1, h2, h3⟩ := Finset.mem_filter.1 hy
    have h1 := Finset.mem_range.1 h1
    refine ⟨y - k * (m * G), Finset.mem_filter.2 ⟨Finset.mem_range.2 (by omega), ?_⟩, by omega⟩
    obtain ⟨z, rfl⟩ : ∃ z, y = z + k * (m * G) := ⟨y - k * (m * G), by omega⟩
    rw [Nat.add_sub_cancel]
    rw [cl_add m G k z hm, cl_add m G k x hm] at h3
    exact Nat.ModEq.add_right_cancel' (n := N) (k * G) h3
  · intro y _
    have e : y + k * (m * G) = y + m * (k * G) := by ring
    rw [e, Nat.add_mul_div_left _ _ hm, Nat.add_mul_mod_self_left, Nat.mod_add_mod]
    have e2 : t + k * G + y / m = t + (y / m + k * G) := by omega
    rw [e2]

theorem part_step {V : Type} [AddCommMonoid V] (N m G n t : Nat) (hm : 0 < m) (hG : 0 < G)
    (hn : m * G ≤ n) (hnN : n < m * N) (b : Nat → Nat → V) :
    part N m b t n =
      match src N m G n with
      | some r => part N m b ((t + n / (m * G) * G) % N) (n % (m * G)) + part N m b t r
      | none => part N m b ((t + n / (m * G) * G) % N) (n % (m * G)) := by
  have hsh := part_shift N m G (n / (m * G)) (n % (m * G)) t hm b
  rw [split_line] at hsh
  have hle : n / (m * G) * (m * G) ≤ n := Nat.div_mul_le_self _ _
  have hsrc := src_spec N m G n hm hG hn hnN
  obtain ⟨a, ha⟩ : ∃ a, a = n / (m * G) * (m * G) := ⟨_, rfl⟩
  rw [← ha] at hsh hsrc hle
  rw [hsh]
  have hsplit : part N m b t n =
      (∑ y ∈ (Finset.range (n + 1)).filter (fun y => a ≤ y ∧ cl m y % N = cl m n % N),
        b ((t + y / m) % N) (y % m)) +
      ∑ y ∈ (Finset.range a).filter (fun y => cl m y % N = cl m n % N), b ((t + y / m) % N) (y % m) := by
    unfold part
    rw [← Finset.sum_union]
    · congr 1
      ext y
      simp only [Finset.mem_union, Finset.mem_filter, Finset.mem_range]
      constructor
      · rintro ⟨h1, h2⟩
        rcases Nat.lt_or_ge y a with h | h
        · exact .inr ⟨h, h2⟩
        · exact .inl ⟨h1, h, h2⟩
      · rintro (⟨h1, _, h2⟩ | ⟨h1, h2⟩)
        · exact ⟨h1, h2⟩
        · exact ⟨by omega, h2⟩
    · rw [Finset.disjoint_left]
      intro y h1 h2
      have := (Finset.mem_filter.1 h1).2.1
      have := Finset.mem_range.1 (Finset.mem_filter.1 h2).1
      omega
  rw [hsplit]
  split
  · rename_i r hr
    rw [hr] at hsrc
    obtain ⟨h1, h2, h3⟩ := hsrc
    congr 1
    unfold part
    rw [h2]
    apply Finset.sum_congr _ fun _ _ => rfl
    ext y
    simp only [Finset.mem_filter, Finset.mem_range]
    constructor
    · rintro ⟨h4, h5⟩
      refine ⟨?_, h5⟩
      by_contra hc
      exact h3 y (by omega) h4 h5
    · rintro ⟨h4, h5⟩
      exact ⟨by omega, h5⟩
  · rename_i hr
    rw [hr] at hsrc
    have hz : (Finset.range a).filter (fun y => cl m y % N = cl m n % N) = ∅ := by
      rw [Finset.filter_eq_empty_iff]
      intro y hy
      exact hsrc y (Finset.mem_range.1 hy)
    rw [hz, Finset.sum_empty, add_zero]

/-! ## Lines that survive -/

/-- The sources of used lines are used. -/
def Closed (N m : Nat) (u : List Bool) : Nat → List Nat → Prop
  | _, [] => True
  | G, p :: ps =>
    (∀ n : Nat, n < m * min (G * (p + 1)) N → m * G ≤ n → u[n]? = some true →
      u[n % (m * G)]? = some true ∧ ∀ r : Nat, src N m G n = some r → u[r]? = some true) ∧
    Closed N m u (G * (p + 1)) ps

theorem src_lt (N m G n r : Nat) (h : src N m G n = some r) : r < n := by
  have := List.mem_of_find?_eq_some h
  exact List.mem_range.1 (List.mem_reverse.1 this)

theorem closed_of_fixed (N m t : Nat) (u : List Bool) (hm : 0 < m) (bs : List Block) (hf : markAll bs u = u)
    (ps : List Nat) (G : Nat) (hG : 0 < G) (hsub : ∀ b, b ∈ gBlocks N m t G ps → b ∈ bs) :
    Closed N m u G ps := by
  induction ps generalizing G with
  | nil => trivial
  | cons p ps ih =>
    refine ⟨?_, ih (G * (p + 1)) (Nat.mul_pos hG (by omega)) fun b hb => hsub b (by
      rw [gBlocks]; exact List.mem_cons_of_mem _ (List.mem_cons_of_mem _ hb))⟩
    intro n hn hGn hu
    have hlen : n < u.length := (List.getElem?_eq_some_iff.1 hu).1
    have hs : 0 < m * G := Nat.mul_pos hm hG
    have hget : ∀ f : Nat → LineD, (Recursive.mk (m * min (G * (p + 1)) N) f)[n]? = some (f n) := by
      intro f
      unfold Recursive.mk
      rw [List.getElem?_map, List.getElem?_range hn]
      rfl
    constructor
    · have := (fixed_closed bs u hf _ (hsub _ (by rw [gBlocks]; exact List.mem_cons_self)) n _ (hget _) hu).2
      unfold gLine at this
      simp only [if_neg (by omega : ¬ n < m * G)] at this
      have h2 := this _ _ rfl
      simp only [Int.toNat_natCast] at h2
      exact h2 (by have := Nat.mod_lt n hs; omega)
    · intro r hr
      have := (fixed_closed bs u hf _ (hsub _ (by
        rw [gBlocks]; exact List.mem_cons_of_mem _ List.mem_cons_self)) n _ (hget _) hu).1
      unfold rLine at this
      simp only [if_neg (by omega : ¬ n < m * G), hr] at this
      have h2 := src_lt N m G n r hr
      exact this r [] rfl (by omega)

/-- The last line of every number is used. -/
def LastUsed (N m : Nat) (u : List Bool) (K : Nat) : Prop :=
  ∀ n : Nat, n < K → (∀ n', n < n' → n' < K → cl m n' % N ≠ cl m n % N) → u[n]? = some true

theorem exists_last (P : Nat → Prop) (K n : Nat) (hn : n < K) (hP : P n) :
    ∃ x, n ≤ x ∧ x < K ∧ P x ∧ ∀ x', x < x' → x' < K → ¬ P x' := by
  classical
  induction K with
  | zero => omega
  | succ K ih =>
    by_cases h : P K
    · exact ⟨K, by omega, by omega, h, fun x' h1 h2 => by omega⟩
    · have hne : n ≠ K := fun e => h (e ▸ hP)
      obtain ⟨x, h1, h2, h3, h4⟩ := ih (by omega)
      refine ⟨x, h1, by omega, h3, fun x' a b => ?_⟩
      by_cases e : x' = K
      · rw [e]; exact h
      · exact h4 x' a (by omega)

theorem lastUsed_back (N m : Nat) (u : List Bool) (hm : 0 < m) (ps : List Nat) (G : Nat) (hG : 0 < G)
    (hc : Closed N m u G ps) (hl : LastUsed N m u (m * min (G * (ps.map (· + 1)).prod) N)) :
    LastUsed N m u (m * min G N) := by
  induction ps generalizing G with
  | nil => simpa using hl
  | cons p ps ih =>
    have h := ih (G * (p + 1)) (Nat.mul_pos hG (by omega)) hc.2 (by
      rw [List.map_cons, List.prod_cons, ← Nat.mul_assoc] at hl; exact hl)
    by_cases hGN : N ≤ G
    · have h1 : G ≤ G * (p + 1) := Nat.le_mul_of_pos_right G (by omega)
      rw [Nat.min_eq_right (by omega)] at h ⊢
      exact h
    · rw [Nat.min_eq_left (by omega)]
      intro r hr hlast
      obtain ⟨S, hS⟩ : ∃ S, S = m * min (G * (p + 1)) N := ⟨_, rfl⟩
      have hSN : S ≤ m * N := by rw [hS]; exact Nat.mul_le_mul_left m (Nat.min_le_right _ _)
      have hsS : m * G ≤ S := by
        rw [hS]
        apply Nat.mul_le_mul_left
        have h1 : G ≤ G * (p + 1) := Nat.le_mul_of_pos_right G (by omega)
        omega
      have hcl := hc.1
      rw [← hS] at h hcl
      have chain : ∀ k n, n < k → r ≤ n → n < S → cl m n % N = cl m r % N → u[n]? = some true → u[r]? = some true := by
        intro k
        induction k with
        | zero => intro n h; omega
        | succ k ihk =>
          intro n hk hrn hnS hcn hu
          by_cases hn : n < m * G
          · have : n = r := by
              by_contra hne
              exact hlast n (by omega) hn hcn
            rw [← this]; exact hu
          · have hsp := src_spec N m G n hm hG (by omega) (by omega)
            have hge : m * G ≤ n / (m * G) * (m * G) :=
              Nat.le_mul_of_pos_left _ ((Nat.one_le_div_iff (Nat.mul_pos hm hG)).2 (by omega))
            cases hsr : src N m G n with
            | none =>
              rw [hsr] at hsp
              exact absurd hcn.symm (hsp r (by omega))
            | some r1 =>
              rw [hsr] at hsp
              obtain ⟨a1, a2, a3⟩ := hsp
              have hlt := src_lt N m G n r1 hsr
              apply ihk r1 (by omega) ?_ (by omega) (by rw [a2, hcn]) ((hcl n hnS (by omega) hu).2 r1 hsr)
              by_contra hcc
              exact a3 r (by omega) (by omega) hcn.symm
      obtain ⟨x, x1, x2, x3, x4⟩ := exists_last (fun x => cl m x % N = cl m r % N) S r (by omega) rfl
      exact chain (x + 1) x (by omega) x1 x2 x3 (h x x2 fun n' a b e => x4 n' a b (by rw [e]; exact x3))

theorem first_used (N m : Nat) (u : List Bool) (hN : 0 < N) (hmN : m ≤ N) (h : LastUsed N m u (m * min 1 N)) :
    ∀ n, n < m → u[n]? = some true := by
  intro n hn
  rw [Nat.min_eq_left (by omega), Nat.mul_one] at h
  apply h n hn
  intro n' h1 h2
  rw [cl_small m n' h2, cl_small m n hn, Nat.mod_eq_of_lt (by omega), Nat.mod_eq_of_lt (by omega)]
  omega

/-! ## One step -/

theorem gather_step {V : Type} [AddCommMonoid V] (u : List Bool) (N m G p : Nat) (hm : 0 < m) (hG : 0 < G)
    (hGN : G < N) (hp : 0 < p) (hfit : p ≤ 2 ∨ G * p ≤ N)
    (hlen : m * min (G * (p + 1)) N ≤ u.length)
    (hU : ∀ n : Nat, n < m * min (G * (p + 1)) N → m * G ≤ n → u[n]? = some true →
      u[n % (m * G)]? = some true ∧ ∀ r : Nat, src N m G n = some r → u[r]? = some true)
    (b : Nat → Nat → V) (s : Nat → Nat → V)
    (hs : ∀ t n, t < N → n < m * G → u[n]? = some true →
      s t (pos (fun n => u[n]? == some true) n) = part N m b t n) :
    ∃ s1 s2 : Nat → Nat → V,
      (∀ t, t < N → nodeStep N (fun t => comp (m * min (G * (p + 1)) N) (fun n => u[n]? == some true) fun n =>
        renumberLine u (gKeep u N m G (m * min (G * (p + 1)) N) p t n)) s t = some (s1 t)) ∧
      (∀ t, t < N → nodeStep N (fun t => comp (m * min (G * (p + 1)) N) (fun n => u[n]? == some true) fun n =>
        renumberLine u (rLine N m G t n)) s1 t = some (s2 t)) ∧
      ∀ t n, t < N → n < m * min (G * (p + 1)) N → u[n]? = some true →
        s2 t (pos (fun n => u[n]? == some true) n) = part N m b t n := by
  obtain ⟨s1, h1, h2⟩ := gather_exchange u N m G p hm hG hGN hp hfit (fun n a b c => (hU n a b c).1) s
  obtain ⟨S, hS⟩ : ∃ S, S = m * min (G * (p + 1)) N := ⟨_, rfl⟩
  have hSN : S ≤ m * N := by rw [hS]; exact Nat.mul_le_mul_left m (Nat.min_le_right _ _)
  obtain ⟨U, hUdef⟩ : ∃ U : Nat → Bool, U = fun n => u[n]? == some true := ⟨_, rfl⟩
  have hUiff : ∀ n, U n = true ↔ u[n]? = some true := by intro n; rw [hUdef]; simp
  have hs0 : 0 < m * G := Nat.mul_pos hm hG
  rw [← hS, ← hUdef] at h1 h2 ⊢
  rw [← hS] at hU hlen
  rw [← hUdef] at hs
  refine ⟨s1, fun t => reduceAll (comp S U fun n => renumberLine u (rLine N m G t n)) (s1 t), h1, ?_, ?_⟩
  · intro t ht
    apply local_step N (fun t => comp S U fun n => renumberLine u (rLine N m G t n)) s1 t ht
    · intro t _ l hl
      obtain ⟨n, _, _, rfl⟩ := mem_comp hl
      rfl
    · intro t _ l hl e he
      obtain ⟨n, _, _, rfl⟩ := mem_comp hl
      cases he
    · intro l hl
      obtain ⟨n, _, _, rfl⟩ := mem_comp hl
      rfl
    · apply reduceOk_comp _ _ _ (fun n m a b e => pos_inj U a b e)
      intro n hn hu x hx
      unfold renumberLine rLine at hx ⊢
      simp only [List.append_nil] at hx ⊢
      by_cases c : n < m * G
      · rw [if_pos c] at hx; cases hx
      · rw [if_neg c] at hx
        cases hr : src N m G n with
        | none => rw [hr] at hx; cases hx
        | some r =>
          have hlt := src_lt N m G n r hr
          have hfr := src_spec N m G n hm hG (by omega) (by omega)
          rw [hr] at hx hfr
          simp only [Option.toList_some, List.map_cons, List.map_nil, List.mem_singleton] at hx
          refine ⟨r, ?_, by omega, (hUiff r).2 ((hU n hn (by omega) ((hUiff n).1 hu)).2 r hr), by omega, ?_⟩
          · rw [hx, renumber_eq u r (by omega), hUdef]
          · unfold num
            rw [Nat.add_mod, hfr.2.1, ← Nat.add_mod]
  · intro t n ht
    have key := reduceAll_comp S U (fun n => renumberLine u (rLine N m G t n))
      (fun n => if n < m * G then none else src N m G n) (s1 t) (by
        intro n hn hu
        unfold renumberLine rLine
        simp only
        by_cases c : n < m * G
        · rw [if_pos c, if_pos c]; rfl
        · rw [if_neg c, if_neg c]
          cases hr : src N m G n with
          | none => rfl
          | some r =>
            have := src_lt N m G n r hr
            simp only [Option.toList_some, List.map_cons, List.map_nil]
            rw [renumber_eq u r (by omega), hUdef])
      (by
        intro n r hn hu hr
        by_cases c : n < m * G
        · rw [if_pos c] at hr; cases hr
        · rw [if_neg c] at hr
          exact ⟨src_lt N m G n r hr, (hUiff r).2 ((hU n hn (by omega) ((hUiff n).1 hu)).2 r hr)⟩)
    induction n using Nat.strong_induction_on with
    | _ n ih =>
      intro hn hu
      simp only
      rw [key.1 n hn ((hUiff n).2 hu), h2 t n ht hn hu]
      by_cases c : n < m * G
      · rw [if_pos c, if_pos c]
        exact hs t n ht c hu
      · rw [if_neg c, if_neg c]
        have hmod := Nat.mod_lt n hs0
        have hq : (t + n / (m * G) * G) % N < N := Nat.mod_lt _ (by omega)
        rw [hs _ _ hq hmod (hU n hn (by omega) hu).1, part_step N m G n t hm hG (by omega) (by omega) b]
        cases hr : src N m G n with
        | none => rfl
        | some r =>
          have := src_lt N m G n r hr
          have hi := ih r this (by omega) ((hU n hn (by omega) hu).2 r hr)
          dsimp only at hi ⊢
          rw [hi]

theorem idle_comp {V : Type} [AddCommMonoid V] (N S : Nat) (U : Nat → Bool) (g : Nat → Nat → LineD)
    (h1 : ∀ t n, n < S → (g t n).recvfrom = []) (h2 : ∀ t n, n < S → (g t n).sendto = [])
    (h3 : ∀ t n, n < S → (g t n).reducefrom = []) (h4 : ∀ t n, (g t n).copyreducefrom = [])
    (s : Nat → Nat → V) (t : Nat) (ht : t < N) :
    nodeStep N (fun t => comp S U (g t)) s t = some (s t) := by
  rw [local_step N (fun t => comp S U (g t)) s t ht]
  · congr 1
    unfold reduceAll
    rw [zipIdx_comp, List.foldl_map]
    have : ∀ l : List Nat, (∀ n, n ∈ l → n < S) → ∀ v : Nat → V, l.foldl (fun v n => List.foldl
        (fun v r => upd v (pos U n) (v (pos U n) + v r)) v (g t n).reducefrom) v = v := by
      intro l
      induction l with
      | nil => intro _ _; rfl
      | cons x xs ih =>
        intro hx v
        rw [List.foldl_cons, h3 t x (hx x List.mem_cons_self)]
        exact ih (fun n hn => hx n (List.mem_cons_of_mem _ hn)) v
    exact this _ (fun n hn => List.mem_range.1 (List.mem_filter.1 hn).1) (s t)
  · intro t _ l hl
    obtain ⟨n, hn, _, rfl⟩ := mem_comp hl
    exact h1 t n hn
  · intro t _ l hl e he
    obtain ⟨n, hn, _, rfl⟩ := mem_comp hl
    rw [h2 t n hn] at he; cases he
  · intro l hl
    obtain ⟨n, hn, _, rfl⟩ := mem_comp hl
    exact h4 t n
  · apply reduceOk_nil
    intro l hl
    obtain ⟨n, hn, _, rfl⟩ := mem_comp hl
    exact ⟨h3 t n hn, h4 t n⟩

/-! ## All steps -/

/-- The blocks of the gather steps without the unused lines. -/
def cBlocks (u : List Bool) (N m t : Nat) : Nat → List Nat → List Block
  | _, [] => []
  | G, p :: ps =>
    (comp (m * min (G * (p + 1)) N) (fun n => u[n]? == some true) fun n =>
      renumberLine u (gKeep u N m G (m * min (G * (p + 1)) N) p t n)) ::
    (comp (m * min (G * (p + 1)) N) (fun n => u[n]? == some true) fun n => renumberLine u (rLine N m G t n)) ::
    cBlocks u N m t (G * (p + 1)) ps

theorem step_le (N m G p : Nat) (ps : List Nat) :
    m * min (G * (p + 1)) N ≤ m * min (G * ((p :: ps).map (· + 1)).prod) N := by
  apply Nat.mul_le_mul_left
  rw [List.map_cons, List.prod_cons, ← Nat.mul_assoc]
  have h1 : 0 < (ps.map (· + 1)).prod := Recursive.factor_pos ps
  have h2 : G * (p + 1) ≤ G * (p + 1) * (ps.map (· + 1)).prod := Nat.le_mul_of_pos_right _ h1
  omega

theorem gather_phase {V : Type} [AddCommMonoid V] (u : List Bool) (N m : Nat) (hm : 0 < m) (b : Nat → Nat → V)
    (ps : List Nat) (G : Nat) (hG : 0 < G) (hp : ∀ p, p ∈ ps → 0 < p) (hfit : Fits N G ps)
    (hlen : m * min (G * (ps.map (· + 1)).prod) N ≤ u.length) (hU : Closed N m u G ps)
    (s : Nat → Nat → V)
    (hs : ∀ t n, t < N → n < m * min G N → u[n]? = some true →
      s t (pos (fun n => u[n]? == some true) n) = part N m b t n) :
    ∃ s' : Nat → Nat → V, Run N (fun t => cBlocks u N m t G ps) s s' ∧
      ∀ t n, t < N → n < m * min (G * (ps.map (· + 1)).prod) N → u[n]? = some true →
        s' t (pos (fun n => u[n]? == some true) n) = part N m b t n := by
  induction ps generalizing G s with
  | nil =>
    refine ⟨s, .done fun _ _ => rfl, ?_⟩
    intro t n ht hn
    simp only [List.map_nil, List.prod_nil, Nat.mul_one] at hn
    exact hs t n ht hn
  | cons p ps ih =>
    have hG' : 0 < G * (p + 1) := Nat.mul_pos hG (by omega)
    have hst := step_le N m G p ps
    have hassoc : G * ((p :: ps).map (· + 1)).prod = G * (p + 1) * (ps.map (· + 1)).prod := by
      rw [List.map_cons, List.prod_cons, ← Nat.mul_assoc]
    obtain ⟨s1, s2, h1, h2, h3⟩ : ∃ s1 s2 : Nat → Nat → V,
        (∀ t, t < N → nodeStep N (fun t => comp (m * min (G * (p + 1)) N) (fun n => u[n]? == some true) fun n =>
          renumberLine u (gKeep u N m G (m * min (G * (p + 1)) N) p t n)) s t = some (s1 t)) ∧
        (∀ t, t < N → nodeStep N (fun t => comp (m * min (G * (p + 1)) N) (fun n => u[n]? == some true) fun n =>
          renumberLine u (rLine N m G t n)) s1 t = some (s2 t)) ∧
        ∀ t n, t < N → n < m * min (G * (p + 1)) N → u[n]? = some true →
          s2 t (pos (fun n => u[n]? == some true) n) = part N m b t n := by
      by_cases hGN : G < N
      · exact gather_step u N m G p hm hG hGN (hp p List.mem_cons_self) (hfit.1 hGN) (by omega) hU.1 b s
          (by rw [Nat.min_eq_left (by omega)] at hs; exact hs)
      · have hge : G ≤ G * (p + 1) := Nat.le_mul_of_pos_right G (by omega)
        have hS : m * min (G * (p + 1)) N = m * min G N := by
          rw [Nat.min_eq_right (by omega), Nat.min_eq_right (by omega)]
        have hSG : m * min (G * (p + 1)) N ≤ m * G := by
          rw [Nat.min_eq_right (by omega)]
          exact Nat.mul_le_mul_left m (by omega)
        refine ⟨s, s, ?_, ?_, ?_⟩
        · intro t ht
          apply idle_comp N _ _ (fun t n => renumberLine u (gKeep u N m G (m * min (G * (p + 1)) N) p t n)) _ _ _ _ s t ht
          · intro t n hn
            unfold renumberLine gKeep gLine
            simp only
            rw [if_pos (by omega)]; rfl
          · intro t n hn
            unfold renumberLine gKeep gLine
            simp only
            rcases ports_idle N m G p n (by omega) with h | h
            · rw [h]; rfl
            · omega
          · intro t n hn; rfl
          · intro t n; rfl
        · intro t ht
          apply idle_comp N _ _ (fun t n => renumberLine u (rLine N m G t n)) _ _ _ _ s t ht
          · intro t n hn; rfl
          · intro t n hn; rfl
          · intro t n hn
            unfold renumberLine rLine
            simp only
            rw [if_pos (by omega)]; rfl
          · intro t n; rfl
        · rw [hS]; exact hs
    obtain ⟨s', h4, h5⟩ := ih (G * (p + 1)) hG' (fun p' hp' => hp p' (List.mem_cons_of_mem _ hp')) hfit.2
      (by rw [← hassoc]; exact hlen) hU.2 s2 h3
    refine ⟨s', ?_, by rw [hassoc]; exact h5⟩
    exact .step _ _ s1 (fun t _ => rfl) h1 (.step _ _ s2 (fun t _ => rfl) h2 h4)

/-! ## The clean-up gives these blocks -/

theorem comp_congr (S : Nat) (U : Nat → Bool) (f g : Nat → LineD) (h : ∀ n, n < S → U n = true → f n = g n) :
    comp S U f = comp S U g := by
  unfold comp
  apply List.map_congr_left
  intro n hn
  obtain ⟨h1, h2⟩ := List.mem_filter.1 hn
  exact h n (List.mem_range.1 h1) h2

theorem clean_block (u : List Bool) (S : Nat) (f g : Nat → LineD)
    (h : ∀ n : Nat, n < S → u[n]? = some true → keepSends u n (f n) = some (g n)) :
    ((Recursive.mk S f).zipIdx.mapM fun x => keepSends u x.2 x.1).map (dropLines u) =
      some (comp S (fun n => u[n]? == some true) fun n => renumberLine u (g n)) := by
  have e : (Recursive.mk S f).zipIdx = (List.range S).map fun n => (f n, n) := zipIdx_map_range S f
  rw [e]
  rw [mapM_mk _ (fun x : LineD × Nat => if u[x.2]? = some true then g x.2 else x.1)]
  · rw [Option.map_some, List.map_map]
    congr 1
    have : List.map ((fun x : LineD × Nat => if u[x.2]? = some true then g x.2 else x.1) ∘ fun n => (f n, n))
        (List.range S) = Recursive.mk S fun n => if u[n]? = some true then g n else f n := rfl
    rw [this, dropLines_mk]
    apply comp_congr
    intro n _ hu
    rw [if_pos (by simpa using hu)]
  · intro x hx
    obtain ⟨n, hn, rfl⟩ := List.mem_map.1 hx
    have hn := List.mem_range.1 hn
    simp only
    by_cases hu : u[n]? = some true
    · rw [if_pos hu]; exact h n hn hu
    · rw [if_neg hu]
      unfold keepSends
      rw [if_neg hu]

theorem mapM_map_eq {α β γ : Type} (f : α → Option β) (d : β → γ) (l : List α) (l' : List γ)
    (h : l.map (fun a => (f a).map d) = l'.map some) :
    ∃ l'', l.mapM f = some l'' ∧ l''.map d = l' := by
  induction l generalizing l' with
  | nil =>
    cases l' with
    | nil => exact ⟨[], rfl, rfl⟩
    | cons _ _ => simp at h
  | cons a l ih =>
    cases l' with
    | nil => simp at h
    | cons c l' =>
      simp only [List.map_cons, List.cons.injEq] at h
      obtain ⟨h1, h2⟩ := h
      obtain ⟨x, hx, rfl⟩ := Option.map_eq_some_iff.1 h1
      obtain ⟨l'', h3, rfl⟩ := ih l' h2
      refine ⟨x :: l'', ?_, rfl⟩
      rw [List.mapM_cons, hx, h3]
      rfl

theorem clean_blocks (u : List Bool) (N m t : Nat) (ps : List Nat) (G : Nat)
    (hfit : Fits N G ps) (hlen : m * min (G * (ps.map (· + 1)).prod) N ≤ u.length) :
    (gBlocks N m t G ps).map (fun b => (b.zipIdx.mapM fun x => keepSends u x.2 x.1).map (dropLines u)) =
      (cBlocks u N m t G ps).map some := by
  induction ps generalizing G with
  | nil => rfl
  | cons p ps ih =>
    have hst := step_le N m G p ps
    rw [gBlocks, cBlocks]
    simp only [List.map_cons]
    rw [ih (G * (p + 1)) hfit.2 (by
      rw [List.map_cons, List.prod_cons, ← Nat.mul_assoc] at hlen; exact hlen)]
    rw [clean_block u _ _ (gKeep u N m G (m * min (G * (p + 1)) N) p t), clean_block u _ _ (rLine N m G t)]
    · intro n hn hu
      unfold keepSends rLine
      rw [if_pos hu]
      rfl
    · intro n hn hu
      unfold keepSends
      rw [if_pos hu, if_pos]
      · rfl
      · rw [List.all_eq_true]
        intro e he
        unfold gLine at he
        obtain ⟨i, hi, rfl⟩ := List.mem_map.1 he
        have hi := List.mem_range.1 hi
        rw [decide_eq_true_eq]
        simp only [Int.toNat_natCast]
        by_cases hGN : G < N
        · by_cases c : n < m * G
          · have := (ports_iff N m G p n i (hfit.1 hGN) c).1 hi
            omega
          · unfold gatherPorts at hi
            rw [if_neg (by omega), if_neg (by omega), if_neg c] at hi
            omega
        · rcases ports_idle N m G p n (by omega) with h | h
          · omega
          · omega

end ExtMpi.CyclicReduce
