import Verif.Lemmas.GroupsLocal
/-! The nodes of a group and the message numbers. -/
namespace ExtMpi.Groups
open Schedule

theorem stride_eq (N : Nat) (sizes : List Nat) : stride N sizes = N / sizes.prod := by
  unfold stride
  have : ∀ (l : List Nat) (a : Nat), l.foldl (· / ·) a = a / l.prod := by
    intro l
    induction l with
    | nil => intro a; simp
    | cons x xs ih => intro a; rw [List.foldl_cons, ih, List.prod_cons, Nat.div_div_eq_div_mul]
  rw [this, List.prod_reverse]

theorem prod_pos' (l : List Nat) (h : ∀ a, a ∈ l → 0 < a) : 0 < l.prod := by
  induction l with
  | nil => simp
  | cons x xs ih =>
    rw [List.prod_cons]
    exact Nat.mul_pos (h x List.mem_cons_self) (ih fun a ha => h a (List.mem_cons_of_mem _ ha))

/-! ## Nodes -/

theorem global_div (N : Nat) (sizes : List Nat) (t j : Nat) (hst : 0 < stride N sizes) :
    globalOf N sizes t j / stride N sizes = j + sizes.head?.getD 1 * (t / stride N sizes / sizes.head?.getD 1) := by
  unfold globalOf comp0 comp1
  rw [Nat.add_comm, Nat.add_mul_div_right _ _ hst, Nat.div_eq_of_lt (Nat.mod_lt _ hst), Nat.zero_add]

theorem global_mod (N : Nat) (sizes : List Nat) (t j : Nat) (hst : 0 < stride N sizes) :
    globalOf N sizes t j % stride N sizes = t % stride N sizes := by
  unfold globalOf comp0 comp1
  rw [Nat.add_comm, Nat.add_mul_mod_self_right, Nat.mod_mod]

theorem global_local (N : Nat) (sizes : List Nat) (t j : Nat) (hst : 0 < stride N sizes)
    (hj : j < sizes.head?.getD 1) : localOf N sizes (globalOf N sizes t j) = j := by
  unfold localOf
  rw [global_div N sizes t j hst, Nat.add_mul_mod_self_left, Nat.mod_eq_of_lt hj]

theorem global_global (N : Nat) (sizes : List Nat) (t i j : Nat) (hst : 0 < stride N sizes)
    (hi : i < sizes.head?.getD 1) : globalOf N sizes (globalOf N sizes t i) j = globalOf N sizes t j := by
  have h1 := global_div N sizes t i hst
  have h2 := global_mod N sizes t i hst
  unfold globalOf at h1 h2 ⊢
  unfold comp0 comp1 at *
  rw [h1, h2]
  congr 3
  rw [Nat.add_mul_div_left _ _ (by omega), Nat.div_eq_of_lt hi, Nat.zero_add]

theorem global_self (N : Nat) (sizes : List Nat) (t : Nat) : globalOf N sizes t (localOf N sizes t) = t := by
  unfold globalOf localOf comp0 comp1
  rw [Nat.mod_add_div, Nat.div_add_mod' t (stride N sizes)]

theorem global_lt (N : Nat) (sizes : List Nat) (t j : Nat) (hst : 0 < stride N sizes)
    (hd : sizes.head?.getD 1 * stride N sizes ∣ N) (hj : j < sizes.head?.getD 1) (ht : t < N) :
    globalOf N sizes t j < N := by
  obtain ⟨Q, hQ⟩ := hd
  unfold globalOf comp0 comp1
  generalize sizes.head?.getD 1 = g at *
  generalize stride N sizes = st at *
  have hg : 0 < g := by omega
  have h1 : t / st / g < Q := by
    rw [Nat.div_div_eq_div_mul]
    apply Nat.div_lt_of_lt_mul
    rw [Nat.mul_comm st g, ← hQ]; exact ht
  have hm := Nat.mod_lt t hst
  have h2 : (j + g * (t / st / g) + 1) * st ≤ g * st * Q := by
    calc (j + g * (t / st / g) + 1) * st ≤ (g * (t / st / g + 1)) * st := Nat.mul_le_mul_right st (by rw [Nat.mul_add]; omega)
      _ ≤ (g * Q) * st := Nat.mul_le_mul_right st (Nat.mul_le_mul_left g h1)
      _ = g * st * Q := by ring
  rw [Nat.add_mul, Nat.one_mul] at h2
  omega

theorem global_mono (N : Nat) (sizes : List Nat) (t i j : Nat) (hst : 0 < stride N sizes) (h : i < j) :
    globalOf N sizes t i < globalOf N sizes t j := by
  unfold globalOf
  have := Nat.mul_lt_mul_of_pos_right (Nat.add_lt_add_right h (sizes.head?.getD 1 * comp1 N sizes t)) hst
  omega

/-- The classes of nodes that work together in a step. -/
theorem splitOf (N : Nat) (sizes : List Nat) (hst : 0 < stride N sizes) (hg : 0 < sizes.head?.getD 1)
    (hd : sizes.head?.getD 1 * stride N sizes ∣ N) :
    Split N (sizes.head?.getD 1) (fun t => globalOf N sizes t 0) (localOf N sizes) (globalOf N sizes) where
  locLt t _ := Nat.mod_lt _ hg
  back t _ := by rw [global_global N sizes t 0 _ hst hg, global_self]
  lt t j ht hj := by rw [global_global N sizes t 0 _ hst hg]; exact global_lt N sizes t j hst hd hj ht
  locEq t j _ hj := by rw [global_global N sizes t 0 _ hst hg]; exact global_local N sizes t j hst hj
  clsEq t j _ hj := by
    rw [global_global N sizes t 0 _ hst hg, global_global N sizes t j _ hst hj]
  mono t i j _ hij _ := by
    rw [global_global N sizes t 0 _ hst hg, global_global N sizes t 0 _ hst hg]
    exact global_mono N sizes t i j hst hij

/-! ## Message numbers -/

theorem expand_length (N : Nat) (sizes : List Nat) (h : sizes ≠ []) (t : Nat) :
    (expandFrac N sizes t).length = sizes.prod := by
  induction sizes generalizing t with
  | nil => exact absurd rfl h
  | cons g gs ih =>
    cases gs with
    | nil => simp [expandFrac]
    | cons g' gs =>
      rw [expandFrac, List.length_flatMap]
      simp [ih]

/-- Number `i * fac + k` of a node is number `k` of node `i + l` of the group. -/
theorem expand_get (N g : Nat) (gs : List Nat) (h : gs ≠ []) (t i k : Nat) (hi : i < g) (hk : k < gs.prod) :
    (expandFrac N (g :: gs) t)[i * gs.prod + k]? =
      (expandFrac N gs (globalOf N (g :: gs) t ((i + localOf N (g :: gs) t) % g)))[k]? := by
  cases gs with
  | nil => exact absurd rfl h
  | cons g' gs =>
    rw [expandFrac, flatMap_get _ (g' :: gs).prod (fun a => expand_length N _ h _) _ _ _ hk]
    simp [hi]

/-- Message number `k` of node `t`. -/
def numAt (N : Nat) (sizes : List Nat) (t k : Nat) : Nat := (expandFrac N sizes t)[k]?.getD 0

theorem expand_some (N : Nat) (sizes : List Nat) (h : sizes ≠ []) (t k : Nat) (hk : k < sizes.prod) :
    (expandFrac N sizes t)[k]? = some (numAt N sizes t k) := by
  unfold numAt
  rw [List.getElem?_eq_getElem (by rw [expand_length N sizes h]; exact hk)]
  rfl

theorem numAt_get (N g : Nat) (gs : List Nat) (h : gs ≠ []) (t i k : Nat) (hi : i < g) (hk : k < gs.prod) :
    numAt N (g :: gs) t (i * gs.prod + k) =
      numAt N gs (globalOf N (g :: gs) t ((i + localOf N (g :: gs) t) % g)) k := by
  unfold numAt
  rw [expand_get N g gs h t i k hi hk]

theorem numAt_one (N g : Nat) (hg : 0 < g) (t k : Nat) (hk : k < g) : numAt N [g] t k = (k * (N / g) + t) % N := by
  unfold numAt expandFrac
  rw [List.getElem?_map, List.getElem?_range hk]
  simp only [Option.map_some, Option.getD_some]
  rw [Nat.add_mul_mod_self_right, Nat.mod_eq_of_lt hk]

theorem shift_back (g a l : Nat) (ha : a < g) (hl : l < g) : ((a + g - l) % g + l) % g = a ∧ (a + g - l) % g < g := by
  refine ⟨?_, Nat.mod_lt _ (by omega)⟩
  rw [Nat.mod_add_mod]
  have : a + g - l + l = a + g := by omega
  rw [this, Nat.add_mod_right, Nat.mod_eq_of_lt ha]

/-- Every message number is covered that agrees with the node in the steps to come. -/
theorem expand_cover (N : Nat) (sizes : List Nat) (h : sizes ≠ []) (hpos : ∀ g, g ∈ sizes → 0 < g)
    (hd : sizes.prod ∣ N) (t f : Nat) (ht : t < N) (hf : f < N)
    (hmod : f % stride N sizes = t % stride N sizes) : ∃ k, k < sizes.prod ∧ numAt N sizes t k = f := by
  induction sizes generalizing t with
  | nil => exact absurd rfl h
  | cons g gs ih =>
    have hg := hpos g List.mem_cons_self
    cases gs with
    | nil =>
      rw [stride_eq, List.prod_singleton] at hmod
      rw [List.prod_singleton] at hd ⊢
      obtain ⟨st, hst⟩ := hd
      have hdiv : N / g = st := by rw [hst, Nat.mul_div_cancel_left _ hg]
      have hst0 : 0 < st := by
        rcases Nat.eq_zero_or_pos st with c | c
        · rw [c, Nat.mul_zero] at hst; omega
        · exact c
      rw [hdiv] at hmod
      have ha : f / st < g := Nat.div_lt_of_lt_mul (by rw [Nat.mul_comm, ← hst]; exact hf)
      have hb : t / st < g := Nat.div_lt_of_lt_mul (by rw [Nat.mul_comm, ← hst]; exact ht)
      have e1 := Nat.div_add_mod f st
      have e2 := Nat.div_add_mod t st
      generalize f / st = a at *
      generalize t / st = b at *
      by_cases c : b ≤ a
      · refine ⟨a - b, by omega, ?_⟩
        rw [numAt_one N g hg t _ (by omega), hdiv]
        have : (a - b) * st + t = f := by
          rw [Nat.sub_mul, Nat.mul_comm, Nat.mul_comm (b)]
          have := Nat.mul_le_mul_left st c
          omega
        rw [this, Nat.mod_eq_of_lt hf]
      · refine ⟨a + g - b, by omega, ?_⟩
        rw [numAt_one N g hg t _ (by omega), hdiv]
        have : (a + g - b) * st + t = f + N := by
          rw [Nat.sub_mul, Nat.add_mul, Nat.mul_comm, Nat.mul_comm (b), ← hst]
          have := Nat.mul_le_mul_left st (by omega : b ≤ g)
          rw [Nat.mul_comm st g, ← hst] at this
          omega
        rw [this, Nat.add_mod_right, Nat.mod_eq_of_lt hf]
    | cons g' gs =>
      obtain ⟨st, hst⟩ : ∃ st, st = stride N (g :: g' :: gs) := ⟨_, rfl⟩
      obtain ⟨P, hP⟩ : ∃ P, P = (g' :: gs).prod := ⟨_, rfl⟩
      have hP0 : 0 < P := by
        rw [hP]; exact prod_pos' _ fun a ha => hpos a (List.mem_cons_of_mem _ ha)
      obtain ⟨Q, hQ⟩ := hd
      rw [List.prod_cons, ← hP] at hQ
      have hstQ : st = Q := by
        rw [hst, stride_eq, List.prod_cons, ← hP, hQ, Nat.mul_div_cancel_left _ (Nat.mul_pos hg hP0)]
      have hst0 : 0 < st := by
        rcases Nat.eq_zero_or_pos st with c | c
        · rw [← hstQ, c, Nat.mul_zero] at hQ; omega
        · exact c
      have hst' : stride N (g' :: gs) = st * g := by
        rw [stride_eq, ← hP, hQ, ← hstQ, Nat.mul_comm g P, Nat.mul_assoc, Nat.mul_div_cancel_left _ hP0, Nat.mul_comm]
      have hj : f / st % g < g := Nat.mod_lt _ hg
      have hl : localOf N (g :: g' :: gs) t < g := Nat.mod_lt _ hg
      obtain ⟨k, hk, hk2⟩ := ih (by simp) (fun a ha => hpos a (List.mem_cons_of_mem _ ha))
        ⟨g * st, by rw [hQ, hstQ, ← hP]; ring⟩ (globalOf N (g :: g' :: gs) t (f / st % g))
        (global_lt N (g :: g' :: gs) t _ (by rw [← hst]; exact hst0)
          ⟨P, by rw [← hst, hQ, hstQ]; show g * P * Q = g * Q * P; ring⟩ hj ht) (by
        rw [hst', Nat.mod_mul, Nat.mod_mul]
        have h1 := global_div N (g :: g' :: gs) t (f / st % g) (by rw [← hst]; exact hst0)
        have h2 := global_mod N (g :: g' :: gs) t (f / st % g) (by rw [← hst]; exact hst0)
        rw [← hst] at h1 h2 hmod
        rw [h1, h2, hmod]
        show _ = t % st + st * ((f / st % g + g * (t / st / g)) % g)
        rw [Nat.add_mul_mod_self_left, Nat.mod_mod])
      obtain ⟨b1, b2⟩ := shift_back g (f / st % g) _ hj hl
      refine ⟨(f / st % g + g - localOf N (g :: g' :: gs) t) % g * (g' :: gs).prod + k, ?_, ?_⟩
      · show _ < (g :: (g' :: gs)).prod
        rw [List.prod_cons (a := g)]
        have := Nat.mul_le_mul_right (g' :: gs).prod b2
        rw [Nat.succ_mul] at this
        omega
      · rw [numAt_get N g (g' :: gs) (by simp) t _ k b2 hk, b1]
        exact hk2

/-- All message numbers are numbers of nodes. -/
theorem numAt_lt (N : Nat) (sizes : List Nat) (t k : Nat) (hN : 0 < N) : numAt N sizes t k < N := by
  have : ∀ f, f ∈ expandFrac N sizes t → f < N := by
    induction sizes generalizing t with
    | nil => intro f hf; cases hf
    | cons g gs ih =>
      cases gs with
      | nil =>
        intro f hf
        obtain ⟨i, _, rfl⟩ := List.mem_map.1 hf
        exact Nat.mod_lt _ hN
      | cons g' gs =>
        intro f hf
        rw [expandFrac] at hf
        obtain ⟨i, _, hf⟩ := List.mem_flatMap.1 hf
        exact ih _ f hf
  unfold numAt
  cases h : (expandFrac N sizes t)[k]? with
  | none => exact hN
  | some f => exact this f (List.mem_of_getElem? h)

end ExtMpi.Groups
