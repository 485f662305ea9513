import Verif.Spec.Forward
import Verif.Lemmas.Rooted
import Mathlib.Algebra.BigOperators.Group.List.Basic
/-! Simulation between a reduction in which only the root has data and the schedule of a broadcast. -/
namespace ExtMpi.Forward
open Schedule Rooted

/-! ## Values -/

theorem val_mapIdx (b : Block) (f : Nat → LineD → Nat) (j : Nat) (l : LineD) (h : b[j]? = some l) : val (b.mapIdx f) j = f j l := by
  unfold val
  rw [List.getElem?_mapIdx, h]
  rfl

theorem val_big (v : Marks) (j : Nat) (h : v.length ≤ j) : val v j = 0 := by
  unfold val
  rw [List.getElem?_eq_none h]

theorem val_set (v : Marks) (i x j : Nat) : val (v.set i x) j = if j = i ∧ i < v.length then x else val v j := by
  unfold val
  rw [List.getElem?_set]
  by_cases h : i = j
  · subst h
    rw [if_pos rfl]
    by_cases h2 : i < v.length
    · rw [if_pos h2, if_pos ⟨rfl, h2⟩]
    · rw [if_neg h2, if_neg (fun h => h2 h.2), List.getElem?_eq_none (by omega)]
  · rw [if_neg h, if_neg (fun h' => h h'.1.symm)]

/-- Lines with data. -/
def some? (v : Marks) : Vals := v.map fun x => x != 0

theorem need_some (v : Marks) (j : Nat) : need (some? v) j = (val v j != 0) := by
  unfold need some? val
  rw [List.getElem?_map]
  cases v[j]? with
  | none => rfl
  | some x =>
    dsimp only [Option.map_some]
    cases x != 0 <;> rfl

/-! ## Local reductions -/

theorem foldl_plus {V : Type} [AddMonoid V] (f : Nat → V) (rs : List Nat) (a : V) :
    rs.foldl (fun a r => a + f r) a = a + (rs.map f).sum := by
  induction rs generalizing a with
  | nil => simp
  | cons r rs ih => rw [List.foldl_cons, ih, List.map_cons, List.sum_cons, add_assoc]

theorem sum_valued {V : Type} [AddMonoid V] (f g : Nat → V) (p : Nat → Bool) (rs : List Nat)
    (h0 : ∀ r ∈ rs, p r = false → f r = 0) (h1 : ∀ r ∈ rs, p r = true → f r = g r) :
    (rs.map f).sum = ((rs.filter p).map g).sum := by
  induction rs with
  | nil => rfl
  | cons r rs ih =>
    have ih := ih (fun r hr => h0 r (List.mem_cons_of_mem _ hr)) (fun r hr => h1 r (List.mem_cons_of_mem _ hr))
    rw [List.map_cons, List.sum_cons, ih]
    cases hp : p r with
    | false => rw [h0 r List.mem_cons_self hp, zero_add, List.filter_cons_of_neg (by simp [hp])]
    | true => rw [h1 r List.mem_cons_self hp, List.filter_cons_of_pos (by simp [hp]), List.map_cons, List.sum_cons]

theorem adds_at {V : Type} [Add V] (x : Nat) (rs : List Nat) (v v0 : Nat → V) (h : ∀ r ∈ rs, r ≠ x) (hv : ∀ r, r ≠ x → v r = v0 r) :
    (rs.foldl (fun v r => upd v x (v x + v r)) v) x = rs.foldl (fun a r => a + v0 r) (v x) := by
  induction rs generalizing v with
  | nil => rfl
  | cons r rs ih =>
    rw [List.foldl_cons, List.foldl_cons, ih _ (fun r hr => h r (List.mem_cons_of_mem _ hr))]
    · rw [hv r (h r List.mem_cons_self)]
      unfold upd
      rw [if_pos rfl]
    · intro r' hr'
      rw [← hv r' hr']
      unfold upd
      rw [if_neg hr']

/-- A loop over the lines of a block that changes only the line itself: the final value of a line is computed from final
values of earlier and first values of later lines. -/
theorem lines_fold {V : Type} (g : (Nat → V) → LineD × Nat → Nat → V) (G : LineD → (Nat → V) → V → V)
    (sources : LineD → List Nat)
    (hother : ∀ v x j, j ≠ x.2 → g v x j = v j)
    (hself : ∀ v x, (∀ r ∈ sources x.1, r ≠ x.2) → g v x x.2 = G x.1 v (v x.2))
    (hG : ∀ l v v' a, (∀ r ∈ sources l, v r = v' r) → G l v a = G l v' a) (b : Block) :
    ∀ (k : Nat) (v : Nat → V), (∀ i l, b[i]? = some l → ∀ r ∈ sources l, r ≠ k + i) →
      (∀ x, x < k ∨ k + b.length ≤ x → (b.zipIdx k).foldl g v x = v x) ∧
      ∀ i l, b[i]? = some l → (b.zipIdx k).foldl g v (k + i) =
        G l (fun r => if r < k + i then (b.zipIdx k).foldl g v r else v r) (v (k + i)) := by
  induction b with
  | nil =>
    intro k v _
    exact ⟨fun _ _ => rfl, fun i l h => by simp at h⟩
  | cons l b ih =>
    intro k v hs
    have hs' : ∀ i l', b[i]? = some l' → ∀ r ∈ sources l', r ≠ k + 1 + i := by
      intro i l' h r hr
      have := hs (i + 1) l' (by simpa using h) r hr
      omega
    obtain ⟨h1, h2⟩ := ih (k + 1) (g v (l, k)) hs'
    rw [List.zipIdx_cons, List.foldl_cons]
    refine ⟨fun x hx => ?_, ?_⟩
    · rw [List.length_cons] at hx
      rw [h1 x (by omega), hother v (l, k) x (by dsimp only; omega)]
    · intro i l' hl
      cases i with
      | zero =>
        simp only [List.getElem?_cons_zero, Option.some.injEq] at hl
        subst hl
        simp only [Nat.add_zero]
        rw [h1 k (Or.inl (by omega)), hself v (l, k) (fun r hr => hs 0 l rfl r hr)]
        apply hG
        intro r hr
        have hrk := hs 0 l rfl r hr
        split
        · rw [h1 r (Or.inl (by omega)), hother v (l, k) r (by dsimp only; omega)]
        · rfl
      | succ i =>
        rw [show k + (i + 1) = k + 1 + i by omega]
        rw [h2 i l' (by simpa using hl), hother v (l, k) (k + 1 + i) (by dsimp only; omega)]
        apply hG
        intro r hr
        split
        · rfl
        · exact hother v (l, k) r (by dsimp only; omega)

theorem reduceAll_at {V : Type} [Add V] (b : Block) (v : Nat → V) (h : ∀ (i : Nat) (l : LineD), b[i]? = some l → ∀ r ∈ l.reducefrom, r ≠ i) :
    (∀ x, b.length ≤ x → reduceAll b v x = v x) ∧
    ∀ (i : Nat) (l : LineD), b[i]? = some l → reduceAll b v i =
      l.reducefrom.foldl (fun a r => a + (if r < i then reduceAll b v r else v r)) (v i) := by
  have := lines_fold (fun v (x : LineD × Nat) => x.1.reducefrom.foldl (fun v r => upd v x.2 (v x.2 + v r)) v)
    (fun (l : LineD) (v : Nat → V) (a : V) => l.reducefrom.foldl (fun a r => a + v r) a) (fun l : LineD => l.reducefrom)
    (fun v x j hj => adds_other x.2 _ v j hj) (fun v x hx => adds_at x.2 _ v v hx fun _ _ => rfl)
    (fun l v v' a hv => by
      revert hv a
      generalize l.reducefrom = rs
      induction rs with
      | nil => intros; rfl
      | cons r rs ih =>
        intro a hv
        rw [List.foldl_cons, List.foldl_cons, hv r List.mem_cons_self]
        exact ih _ fun r hr => hv r (List.mem_cons_of_mem _ hr)) b 0 v (by simpa using h)
  obtain ⟨h1, h2⟩ := this
  refine ⟨fun x hx => h1 x (Or.inr (by omega)), fun i l hl => ?_⟩
  have := h2 i l hl
  simp only [Nat.zero_add] at this
  exact this

theorem copyReduceAll_at {V : Type} [Add V] (b : Block) (v : Nat → V) (h : ∀ (i : Nat) (l : LineD), b[i]? = some l → ∀ r ∈ l.copyreducefrom, r ≠ i) :
    (∀ x, b.length ≤ x → copyReduceAll b v x = v x) ∧
    ∀ (i : Nat) (l : LineD), b[i]? = some l → copyReduceAll b v i = match l.copyreducefrom with
      | [] => v i
      | r0 :: rs => rs.foldl (fun a r => a + (if r < i then copyReduceAll b v r else v r))
          (if r0 < i then copyReduceAll b v r0 else v r0) := by
  have := lines_fold (fun v (x : LineD × Nat) => match x.1.copyreducefrom with
      | [] => v
      | r0 :: rs => rs.foldl (fun v r => upd v x.2 (v x.2 + v r)) (upd v x.2 (v r0)))
    (fun (l : LineD) (v : Nat → V) (a : V) => match l.copyreducefrom with
      | [] => a
      | r0 :: rs => rs.foldl (fun a r => a + v r) (v r0)) (fun l : LineD => l.copyreducefrom)
    (fun v x j hj => by
      cases x.1.copyreducefrom with
      | nil => rfl
      | cons r0 rs =>
        dsimp only
        rw [adds_other x.2 rs _ j hj]
        unfold upd
        rw [if_neg hj])
    (fun v x hx => by
      cases hc : x.1.copyreducefrom with
      | nil => rfl
      | cons r0 rs =>
        rw [hc] at hx
        dsimp only
        rw [adds_at x.2 rs _ v (fun r hr => hx r (List.mem_cons_of_mem _ hr)) (fun r hr => by unfold upd; rw [if_neg hr])]
        unfold upd
        rw [if_pos rfl])
    (fun l v v' a hv => by
      cases hc : l.copyreducefrom with
      | nil => rfl
      | cons r0 rs =>
        rw [hc] at hv
        dsimp only
        rw [hv r0 List.mem_cons_self]
        replace hv : ∀ r ∈ rs, v r = v' r := fun r hr => hv r (List.mem_cons_of_mem _ hr)
        clear hc
        generalize v' r0 = a
        induction rs generalizing a with
        | nil => rfl
        | cons r rs ih =>
          rw [List.foldl_cons, List.foldl_cons, hv r List.mem_cons_self]
          exact ih (fun r hr => hv r (List.mem_cons_of_mem _ hr)) _) b 0 v (by simpa using h)
  obtain ⟨h1, h2⟩ := this
  refine ⟨fun x hx => h1 x (Or.inr (by omega)), fun i l hl => ?_⟩
  have := h2 i l hl
  simp only [Nat.zero_add] at this
  exact this

/-! ## The loop over the lines -/

theorem reduceLoop_spec (ls : Block) : ∀ (v : Marks) (k : Nat),
    (reduceLoop v k ls).1.length = ls.length ∧ (reduceLoop v k ls).2.length = v.length ∧
    (∀ r, r < k ∨ k + ls.length ≤ r → val (reduceLoop v k ls).2 r = val v r) ∧
    ∀ i l, ls[i]? = some l → ∃ vi : Marks, (∀ r, val vi r = if r < k + i then val (reduceLoop v k ls).2 r else val v r) ∧
      (reduceLoop v k ls).1[i]? = some (reduceF vi (k + i) l).1 ∧
      (k + i < v.length → val (reduceLoop v k ls).2 (k + i) = (reduceF vi (k + i) l).2) := by
  induction ls with
  | nil =>
    intro v k
    exact ⟨rfl, rfl, fun _ _ => rfl, fun i l h => by simp at h⟩
  | cons l ls ih =>
    intro v k
    obtain ⟨h1, h2, h3, h4⟩ := ih (v.set k (reduceF v k l).2) (k + 1)
    rw [reduceLoop]
    dsimp only
    refine ⟨by rw [List.length_cons, List.length_cons, h1], by rw [h2, List.length_set], ?_, ?_⟩
    · intro r hr
      rw [List.length_cons] at hr
      rw [h3 r (by omega), val_set, if_neg (by omega)]
    · intro i l' hl
      cases i with
      | zero =>
        simp only [List.getElem?_cons_zero, Option.some.injEq] at hl
        subst hl
        refine ⟨v, fun r => ?_, by simp, fun hk => ?_⟩
        · split
          · rw [h3 r (Or.inl (by omega)), val_set, if_neg (by omega)]
          · rfl
        · simp only [Nat.add_zero]
          rw [h3 k (Or.inl (by omega)), val_set, if_pos ⟨rfl, by omega⟩]
      | succ i =>
        obtain ⟨vi, g1, g2, g3⟩ := h4 i l' (by simpa using hl)
        refine ⟨vi, fun r => ?_, ?_, fun hk => ?_⟩
        · rw [g1 r, show k + 1 + i = k + (i + 1) by omega]
          split
          · rfl
          · rw [val_set, if_neg (by omega)]
        · rw [List.getElem?_cons_succ, g2, show k + 1 + i = k + (i + 1) by omega]
        · rw [show k + (i + 1) = k + 1 + i by omega]
          exact g3 (by rw [List.length_set]; omega)

/-- The reductions of a line without copies. -/
theorem reduceF_spec (v : Marks) (j : Nat) (l : LineD) (h : l.copyreducefrom = []) :
    (reduceF v j l).1.frac = l.frac ∧ (reduceF v j l).1.sendto = l.sendto ∧ (reduceF v j l).1.recvfrom = l.recvfrom ∧
    ((val v j = 0 ∧ (reduceF v j l).1.reducefrom = [] ∧ (reduceF v j l).1.copyreducefrom = valued v l.reducefrom ∧
        (reduceF v j l).2 = if valued v l.reducefrom = [] then 0 else 1) ∨
      (val v j ≠ 0 ∧ (reduceF v j l).1.reducefrom = valued v l.reducefrom ∧ (reduceF v j l).1.copyreducefrom = [] ∧
        (reduceF v j l).2 = val v j)) := by
  unfold reduceF
  by_cases hv : val v j = 0
  · by_cases hr : l.reducefrom = []
    · simp [hv, hr, h, valued]
    · by_cases hx : valued v l.reducefrom = []
      · simp [hv, hr, h, hx]
      · simp [hv, hr, h, hx]
        rfl
  · simp [hv, h]

/-- What the loop makes of every line. -/
theorem loop_line (b : Block) (m : Marks) (hm : m.length = b.length) (hc : ∀ l ∈ b, l.copyreducefrom = []) :
    (reduceLoop m 0 b).1.length = b.length ∧ (reduceLoop m 0 b).2.length = b.length ∧
    ∀ j l, b[j]? = some l → ∃ l', (reduceLoop m 0 b).1[j]? = some l' ∧ l'.frac = l.frac ∧ l'.sendto = l.sendto ∧
      l'.recvfrom = l.recvfrom ∧
      ((val m j = 0 ∧ l'.reducefrom = [] ∧
          l'.copyreducefrom = l.reducefrom.filter (fun r => (if r < j then val (reduceLoop m 0 b).2 r else val m r) != 0) ∧
          val (reduceLoop m 0 b).2 j = if l'.copyreducefrom = [] then 0 else 1) ∨
        (val m j ≠ 0 ∧ l'.copyreducefrom = [] ∧
          l'.reducefrom = l.reducefrom.filter (fun r => (if r < j then val (reduceLoop m 0 b).2 r else val m r) != 0) ∧
          val (reduceLoop m 0 b).2 j = val m j)) := by
  obtain ⟨h1, h2, _, h4⟩ := reduceLoop_spec b m 0
  refine ⟨h1, by rw [h2, hm], ?_⟩
  intro j l hl
  have hj : j < b.length := (List.getElem?_eq_some_iff.mp hl).1
  obtain ⟨vi, g1, g2, g3⟩ := h4 j l hl
  rw [Nat.zero_add] at g1 g2 g3
  have g3 := g3 (by omega)
  have hvj : val vi j = val m j := by rw [g1 j, if_neg (by omega)]
  have hval : valued vi l.reducefrom =
      l.reducefrom.filter (fun r => (if r < j then val (reduceLoop m 0 b).2 r else val m r) != 0) := by
    unfold valued
    congr 1
    funext r
    rw [g1 r]
  obtain ⟨f1, f2, f3, f4⟩ := reduceF_spec vi j l (hc l (List.mem_of_getElem? hl))
  refine ⟨_, g2, f1, f2, f3, ?_⟩
  rw [g3, ← hval, ← hvj]
  rcases f4 with ⟨e1, e2, e3, e4⟩ | ⟨e1, e2, e3, e4⟩
  · exact Or.inl ⟨e1, e2, e3, by rw [e4, e3]⟩
  · exact Or.inr ⟨e1, e3, e2, e4⟩

/-- Local reductions: lines with data agree, lines without data are zero. -/
theorem local_forward {V : Type} [AddMonoid V] (b bd : Block) (m : Marks) (hm : m.length = b.length) (hlen : bd.length = b.length)
    (hsame : ∀ (j : Nat) (l ld : LineD), b[j]? = some l → bd[j]? = some ld → ld.reducefrom = l.reducefrom ∧ ld.copyreducefrom = l.copyreducefrom)
    (hc : ∀ l ∈ b, l.copyreducefrom = [])
    (hrange : ∀ (i : Nat) (l : LineD), b[i]? = some l → ∀ r ∈ l.reducefrom, r ≠ i ∧ r < b.length)
    (later : ∀ (j r : Nat) (l lr : LineD), b[j]? = some l → b[r]? = some lr → r ∈ l.reducefrom → j < r → lr.reducefrom = [])
    (liv : Nat → Bool) (known : ∀ (j : Nat) (l : LineD), b[j]? = some l → liv j = true → ∀ r ∈ l.reducefrom, liv r = true)
    (hO : ∀ (j r : Nat) (l lr : LineD), (reduceLoop m 0 bd).1[j]? = some l → (reduceLoop m 0 bd).1[r]? = some lr →
      r ∈ l.reducefrom → r < j → lr.copyreducefrom = [])
    (u u' : Nat → V) (hu : ∀ j, j < b.length → liv j = true → (val m j ≠ 0 → u j = u' j) ∧ (val m j = 0 → u j = 0)) :
    ∀ j, j < b.length → liv j = true →
      (val (reduceLoop m 0 bd).2 j ≠ 0 → copyReduceAll b (reduceAll b u) j =
        copyReduceAll (reduceLoop m 0 bd).1 (reduceAll (reduceLoop m 0 bd).1 u') j) ∧
      (val (reduceLoop m 0 bd).2 j = 0 → copyReduceAll b (reduceAll b u) j = 0) := by
  have hcd : ∀ l ∈ bd, l.copyreducefrom = [] := by
    intro l hl
    obtain ⟨j, hj⟩ := List.mem_iff_getElem?.mp hl
    have hjl : j < b.length := by rw [← hlen]; exact (List.getElem?_eq_some_iff.mp hj).1
    rw [(hsame j b[j] l (List.getElem?_eq_getElem hjl) hj).2]
    exact hc _ (List.getElem_mem hjl)
  obtain ⟨n1, n2, n3⟩ := loop_line bd m (by omega) hcd
  generalize hb' : (reduceLoop m 0 bd).1 = b' at *
  generalize (reduceLoop m 0 bd).2 = P at *
  have line : ∀ (j : Nat) (l : LineD), b[j]? = some l → ∃ l', b'[j]? = some l' ∧
      ((val m j = 0 ∧ l'.reducefrom = [] ∧
          l'.copyreducefrom = l.reducefrom.filter (fun r => (if r < j then val P r else val m r) != 0) ∧
          val P j = if l'.copyreducefrom = [] then 0 else 1) ∨
        (val m j ≠ 0 ∧ l'.copyreducefrom = [] ∧
          l'.reducefrom = l.reducefrom.filter (fun r => (if r < j then val P r else val m r) != 0) ∧ val P j = val m j)) := by
    intro j l hl
    have hj : j < b.length := (List.getElem?_eq_some_iff.mp hl).1
    obtain ⟨l', g1, _, _, _, g2⟩ := n3 j bd[j] (List.getElem?_eq_getElem (by omega))
    rw [(hsame j l bd[j] hl (List.getElem?_eq_getElem (by omega))).1] at g2
    exact ⟨l', g1, g2⟩
  have sub : ∀ (j : Nat) (l' : LineD), b'[j]? = some l' → ∀ r, r ∈ l'.reducefrom ∨ r ∈ l'.copyreducefrom → r ≠ j := by
    intro j l' hl' r hr
    have hj : j < b.length := by
      have := (List.getElem?_eq_some_iff.mp hl').1
      omega
    obtain ⟨l2, k1, k2⟩ := line j b[j] (List.getElem?_eq_getElem hj)
    rw [hl', Option.some.injEq] at k1
    subst k1
    apply (hrange j b[j] (List.getElem?_eq_getElem hj) r _).1
    rcases k2 with ⟨_, e2, e3, _⟩ | ⟨_, e2, e3, _⟩
    · rw [e2, e3] at hr
      rcases hr with hr | hr
      · cases hr
      · exact (List.mem_filter.mp hr).1
    · rw [e2, e3] at hr
      rcases hr with hr | hr
      · exact (List.mem_filter.mp hr).1
      · cases hr
  have hw0 : copyReduceAll b (reduceAll b u) = reduceAll b u := by
    funext x
    obtain ⟨a1, a2⟩ := copyReduceAll_at b (reduceAll b u) (fun i l hl r hr => by
      rw [hc l (List.mem_of_getElem? hl)] at hr; cases hr)
    by_cases hx : x < b.length
    · rw [a2 x b[x] (List.getElem?_eq_getElem hx), hc _ (List.getElem_mem hx)]
    · exact a1 x (by omega)
  rw [hw0]
  have hw := (reduceAll_at b u (fun i l hl r hr => (hrange i l hl r hr).1)).2
  have hy := (reduceAll_at b' u' (fun i l hl r hr => sub i l hl r (Or.inl hr))).2
  have hw' := (copyReduceAll_at b' (reduceAll b' u') (fun i l hl r hr => sub i l hl r (Or.inr hr))).2
  generalize reduceAll b u = w at *
  generalize reduceAll b' u' = y at *
  generalize copyReduceAll b' y = w' at *
  intro j
  induction j using Nat.strong_induction_on with
  | _ j ih =>
  intro hj hlj
  have hl : b[j]? = some b[j] := List.getElem?_eq_getElem hj
  generalize b[j] = l at hl
  have hwj := hw j l hl
  rw [foldl_plus] at hwj
  obtain ⟨l', hl', k⟩ := line j l hl
  -- sources without data
  have src0 : ∀ r ∈ l.reducefrom, ((if r < j then val P r else val m r) != 0) = false → (if r < j then w r else u r) = 0 := by
    intro r hr h0
    have hr2 := hrange j l hl r hr
    by_cases hrj : r < j
    · rw [if_pos hrj] at h0 ⊢
      exact (ih r hrj hr2.2 (known j l hl hlj r hr)).2 (by simpa using h0)
    · rw [if_neg hrj] at h0 ⊢
      exact (hu r hr2.2 (known j l hl hlj r hr)).2 (by simpa using h0)
  rcases k with ⟨e1, e2, e3, e4⟩ | ⟨e1, e2, e3, e4⟩
  · -- the line had no data
    rw [(hu j hj hlj).2 e1, zero_add] at hwj
    have hsum := sum_valued (fun r => if r < j then w r else u r) (fun r => if r < j then w' r else y r)
      (fun r => (if r < j then val P r else val m r) != 0) l.reducefrom src0 (by
        intro r hr h1
        have hr2 := hrange j l hl r hr
        by_cases hrj : r < j
        · rw [if_pos hrj] at h1
          rw [if_pos hrj, if_pos hrj]
          exact (ih r hrj hr2.2 (known j l hl hlj r hr)).1 (by simpa using h1)
        · rw [if_neg hrj] at h1
          rw [if_neg hrj, if_neg hrj]
          obtain ⟨lr', g1, g2⟩ := line r b[r] (List.getElem?_eq_getElem hr2.2)
          have hlat := later j r l b[r] hl (List.getElem?_eq_getElem hr2.2) hr (by omega)
          have : lr'.reducefrom = [] := by
            rcases g2 with ⟨_, a, _, _⟩ | ⟨_, _, a, _⟩
            · exact a
            · rw [a, hlat]; rfl
          have hyr := hy r lr' g1
          rw [this, List.foldl_nil] at hyr
          rw [hyr]
          exact (hu r hr2.2 (known j l hl hlj r hr)).1 (by simpa using h1))
    rw [hsum, ← e3] at hwj
    have hw'j := hw' j l' hl'
    refine ⟨fun hP => ?_, fun hP => ?_⟩
    · rw [hwj, hw'j]
      cases hcr : l'.copyreducefrom with
      | nil => rw [hcr, if_pos rfl] at e4; exact absurd e4 hP
      | cons r0 rs =>
        dsimp only
        rw [foldl_plus, List.map_cons, List.sum_cons]
    · cases hcr : l'.copyreducefrom with
      | nil => rw [hwj, hcr]; rfl
      | cons r0 rs => rw [hcr, if_neg (by simp)] at e4; omega
  · -- the line had data
    refine ⟨fun _ => ?_, fun hP => absurd (e4 ▸ hP) e1⟩
    have hw'j := hw' j l' hl'
    rw [e2] at hw'j
    dsimp only at hw'j
    rw [hw'j, hy j l' hl', foldl_plus, hwj, (hu j hj hlj).1 e1]
    congr 1
    rw [e3]
    refine sum_valued _ _ _ _ src0 ?_
    intro r hr h1
    have hr2 := hrange j l hl r hr
    by_cases hrj : r < j
    · have hmem : r ∈ l'.reducefrom := by rw [e3]; exact List.mem_filter.mpr ⟨hr, h1⟩
      rw [if_pos hrj] at h1
      rw [if_pos hrj, if_pos hrj]
      obtain ⟨lr', g1, _⟩ := line r b[r] (List.getElem?_eq_getElem hr2.2)
      have hcr := hO j r l' lr' hl' g1 hmem hrj
      have hw'r := hw' r lr' g1
      rw [hcr] at hw'r
      dsimp only at hw'r
      rw [← hw'r]
      exact (ih r hrj hr2.2 (known j l hl hlj r hr)).1 (by simpa using h1)
    · rw [if_neg hrj] at h1
      rw [if_neg hrj, if_neg hrj]
      exact (hu r hr2.2 (known j l hl hlj r hr)).1 (by simpa using h1)

end ExtMpi.Forward
