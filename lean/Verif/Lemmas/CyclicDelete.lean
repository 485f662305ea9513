import Verif.Model.CyclicReduce
import Verif.Lemmas.ScheduleLists
/-! Blocks from which unused lines have been deleted. -/
namespace ExtMpi.CyclicReduce
open Schedule

/-! ## Positions -/

/-- Position of line `n` if the lines outside of `U` are deleted. -/
def pos (U : Nat → Bool) (n : Nat) : Nat := (List.range n).countP U

theorem pos_succ (U : Nat → Bool) (n : Nat) : pos U (n + 1) = pos U n + if U n then 1 else 0 := by
  unfold pos
  rw [List.range_succ, List.countP_append]
  by_cases h : U n = true <;> simp [h]

theorem pos_mono (U : Nat → Bool) {a b : Nat} (h : a ≤ b) : pos U a ≤ pos U b := by
  induction h with
  | refl => exact Nat.le_refl _
  | step _ ih => rw [pos_succ]; omega

theorem pos_lt (U : Nat → Bool) {a b : Nat} (h : a < b) (ha : U a = true) : pos U a < pos U b := by
  have := pos_mono U (Nat.succ_le_of_lt h)
  rw [Nat.succ_eq_add_one, pos_succ, if_pos ha] at this
  omega

theorem pos_inj (U : Nat → Bool) {a b : Nat} (ha : U a = true) (hb : U b = true) (h : pos U a = pos U b) :
    a = b := by
  rcases Nat.lt_trichotomy a b with c | c | c
  · have := pos_lt U c ha; omega
  · exact c
  · have := pos_lt U c hb; omega

theorem pos_self (U : Nat → Bool) (m n : Nat) (h : ∀ x, x < m → U x = true) (hn : n ≤ m) : pos U n = n := by
  induction n with
  | zero => rfl
  | succ n ih => rw [pos_succ, ih (by omega), if_pos (h n (by omega))]

theorem filter_interval_pos (U : Nat → Bool) (a len : Nat) :
    ((List.range' a len).filter U).map (pos U) =
      List.range' (pos U a) ((List.range' a len).filter U).length := by
  have hl : ∀ len, pos U a + ((List.range' a len).filter U).length = pos U (a + len) := by
    intro len
    induction len with
    | zero => simp
    | succ k ih =>
      rw [← List.range'_append_1, List.filter_append, List.length_append, ← Nat.add_assoc, ih, ← Nat.add_assoc,
        pos_succ]
      by_cases h : U (a + k) = true <;> simp [h]
  induction len with
  | zero => simp
  | succ k ih =>
    rw [← List.range'_append_1, List.filter_append, List.map_append, ih]
    by_cases h : U (a + k) = true
    · simp only [List.range'_one, List.filter_cons_of_pos h, List.filter_nil, List.map_cons, List.map_nil,
        List.length_append, List.length_cons, List.length_nil]
      rw [← List.range'_append_1, hl]
      simp
    · simp [h]

theorem renumber_eq (u : List Bool) (n : Nat) (hn : n ≤ u.length) :
    renumber u n = pos (fun k => u[k]? == some true) n := by
  unfold renumber
  have : ∀ n, n ≤ u.length → (u.take n).countP (! ·) + pos (fun k => u[k]? == some true) n = n := by
    intro n
    induction n with
    | zero => intro _; simp [pos]
    | succ n ih =>
      intro h
      have := ih (by omega)
      rw [List.take_add_one, List.countP_append, pos_succ, List.getElem?_eq_getElem (by omega)]
      cases hb : u[n] <;> simp <;> omega
  have := this n hn
  omega

/-! ## Deleted blocks as lists -/

/-- The lines in `U` of a block of `S` lines. -/
def comp (S : Nat) (U : Nat → Bool) (g : Nat → LineD) : Block := ((List.range S).filter U).map g

theorem mem_comp {S : Nat} {U : Nat → Bool} {g : Nat → LineD} {l : LineD} (h : l ∈ comp S U g) :
    ∃ n, n < S ∧ U n = true ∧ l = g n := by
  obtain ⟨n, hn, rfl⟩ := List.mem_map.1 h
  obtain ⟨h1, h2⟩ := List.mem_filter.1 hn
  exact ⟨n, List.mem_range.1 h1, h2, rfl⟩

theorem comp_succ (S : Nat) (U : Nat → Bool) (g : Nat → LineD) :
    comp (S + 1) U g = comp S U g ++ if U S then [g S] else [] := by
  unfold comp
  rw [List.range_succ, List.filter_append, List.map_append]
  by_cases h : U S = true <;> simp [h]

theorem comp_length (S : Nat) (U : Nat → Bool) (g : Nat → LineD) : (comp S U g).length = pos U S := by
  unfold comp pos
  rw [List.length_map, List.countP_eq_length_filter]

theorem zipIdx_comp (S : Nat) (U : Nat → Bool) (g : Nat → LineD) :
    (comp S U g).zipIdx = ((List.range S).filter U).map fun n => (g n, pos U n) := by
  induction S with
  | zero => rfl
  | succ S ih =>
    rw [comp_succ, List.zipIdx_append, ih, List.range_succ, List.filter_append, List.map_append, comp_length]
    by_cases h : U S = true <;> simp [h]

theorem fracOf_comp (S : Nat) (U : Nat → Bool) (g : Nat → LineD) (n : Nat) (hn : n < S) (hu : U n = true) :
    fracOf (comp S U g) (pos U n) = some (g n).frac := by
  have hm : (g n, pos U n) ∈ (comp S U g).zipIdx := by
    rw [zipIdx_comp]
    exact List.mem_map.2 ⟨n, List.mem_filter.2 ⟨List.mem_range.2 hn, hu⟩, rfl⟩
  have := List.mem_zipIdx_iff_getElem?.1 hm
  unfold fracOf
  rw [this]
  rfl

theorem reduceOk_comp (S : Nat) (U : Nat → Bool) (g : Nat → LineD)
    (hinj : ∀ n m, U n = true → U m = true → pos U n = pos U m → n = m)
    (h : ∀ n, n < S → U n = true → ∀ x, x ∈ (g n).reducefrom ++ (g n).copyreducefrom →
      ∃ r, x = pos U r ∧ r < S ∧ U r = true ∧ r ≠ n ∧ (g r).frac = (g n).frac) :
    reduceOk (comp S U g) = true := by
  rw [reduceOk_iff]
  intro k l hl x hx
  have hm : (l, k) ∈ (comp S U g).zipIdx := List.mem_zipIdx_iff_getElem?.2 hl
  rw [zipIdx_comp] at hm
  obtain ⟨n, hn, he⟩ := List.mem_map.1 hm
  obtain ⟨h1, h2⟩ := List.mem_filter.1 hn
  cases he
  obtain ⟨r, rfl, hr1, hr2, hr3, hr4⟩ := h n (List.mem_range.1 h1) h2 x hx
  exact ⟨fun e => hr3 (hinj _ _ hr2 h2 e), by rw [fracOf_comp S U g r hr1 hr2, hr4]⟩

theorem recvIdx_comp (S : Nat) (U : Nat → Bool) (g : Nat → LineD) (q : Nat) :
    recvIdx (comp S U g) q =
      ((List.range S).filter fun n => U n && (g n).recvfrom.any fun e => e.1 == (q : Int)).map (pos U) := by
  unfold recvIdx
  rw [zipIdx_comp, List.filter_map, List.map_map, List.filter_filter]
  congr 1
  apply List.filter_congr
  intro n _
  simp only [Function.comp]
  rw [Bool.and_comm]

theorem sendIdx_comp (S : Nat) (U : Nat → Bool) (g : Nat → LineD) (q : Nat) (P : Nat → Bool)
    (h : ∀ n, n < S → U n = true → (((g n).sendto.filter fun e => e.1 == (q : Int)).map fun _ => n) =
      if P n then [n] else []) :
    sendIdx (comp S U g) q = ((List.range S).filter fun n => U n && P n).map (pos U) := by
  unfold sendIdx
  rw [zipIdx_comp, List.flatMap_map]
  have h2 : ∀ n, n ∈ (List.range S).filter U →
      (((g n).sendto.filter fun e => e.1 == (q : Int)).map fun _ => pos U n) =
        if P n then [pos U n] else [] := by
    intro n hn
    obtain ⟨h1, h2⟩ := List.mem_filter.1 hn
    have := congrArg (List.map (pos U)) (h n (List.mem_range.1 h1) h2)
    rw [List.map_map] at this
    rw [show (fun _ : Int × Int => pos U n) = pos U ∘ fun _ => n from rfl, this]
    split <;> rfl
  have h3 : ∀ l : List Nat, (∀ n, n ∈ l →
      (((g n).sendto.filter fun e => e.1 == (q : Int)).map fun _ => pos U n) =
        if P n then [pos U n] else []) →
      l.flatMap (fun n => ((g n).sendto.filter fun e => e.1 == (q : Int)).map fun _ => pos U n) =
        (l.filter P).map (pos U) := by
    intro l
    induction l with
    | nil => intro _; rfl
    | cons x xs ih =>
      intro hx
      rw [List.flatMap_cons, ih fun n hn => hx n (List.mem_cons_of_mem _ hn), hx x List.mem_cons_self]
      by_cases hp : P x = true
      · rw [if_pos hp, List.filter_cons_of_pos hp]; rfl
      · rw [if_neg hp, List.filter_cons_of_neg hp]; rfl
  rw [h3 _ h2, List.filter_filter]
  congr 1
  apply List.filter_congr
  intro n _
  rw [Bool.and_comm]

/-- Reductions along chains of earlier lines. -/
theorem reduceAll_comp {V : Type} [Add V] (S : Nat) (U : Nat → Bool) (g : Nat → LineD)
    (red : Nat → Option Nat) (v : Nat → V)
    (hg : ∀ n, n < S → U n = true → (g n).reducefrom = (red n).toList.map (pos U))
    (hred : ∀ n r, n < S → U n = true → red n = some r → r < n ∧ U r = true) :
    (∀ n, n < S → U n = true → reduceAll (comp S U g) v (pos U n) =
      match red n with
      | some r => v (pos U n) + reduceAll (comp S U g) v (pos U r)
      | none => v (pos U n)) ∧
    ∀ n, S ≤ n → U n = true → reduceAll (comp S U g) v (pos U n) = v (pos U n) := by
  unfold reduceAll
  rw [zipIdx_comp, List.foldl_map]
  induction S with
  | zero => exact ⟨fun n h => by omega, fun _ _ _ => rfl⟩
  | succ S ih =>
    obtain ⟨ih1, ih2⟩ := ih (fun n h => hg n (by omega)) (fun n r h => hred n r (by omega))
    rw [List.range_succ, List.filter_append, List.foldl_append]
    generalize hw : List.foldl (fun v n => List.foldl (fun v r => upd v (pos U n) (v (pos U n) + v r)) v
      (g n).reducefrom) v ((List.range S).filter U) = w at ih1 ih2 ⊢
    by_cases hS : U S = true
    · rw [List.filter_cons_of_pos hS, List.filter_nil, List.foldl_cons, List.foldl_nil, hg S (by omega) hS]
      cases hr : red S with
      | none =>
        simp only [Option.toList_none, List.map_nil, List.foldl_nil]
        refine ⟨?_, fun n h => ih2 n (by omega)⟩
        intro n hn hu
        by_cases e : n = S
        · subst e; rw [hr]; exact ih2 n (Nat.le_refl _) hu
        · exact ih1 n (by omega) hu
      | some r =>
        obtain ⟨hrS, hrU⟩ := hred S r (by omega) hS hr
        simp only [Option.toList_some, List.map_cons, List.map_nil, List.foldl_cons, List.foldl_nil]
        have hne : ∀ n, U n = true → n ≠ S → upd w (pos U S) (w (pos U S) + w (pos U r)) (pos U n) = w (pos U n) := by
          intro n hu hn
          unfold upd
          rw [if_neg]
          intro h
          exact hn (pos_inj U hu hS h)
        refine ⟨?_, ?_⟩
        · intro n hn hu
          by_cases e : n = S
          · subst e
            rw [hr]
            simp only
            rw [hne r hrU (by omega)]
            unfold upd
            rw [if_pos rfl, ih2 n (Nat.le_refl _) hu]
          · rw [hne n hu e, ih1 n (by omega) hu]
            cases hrn : red n with
            | none => rfl
            | some r' =>
              obtain ⟨a1, a2⟩ := hred n r' (by omega) hu hrn
              simp only
              rw [hne r' a2 (by omega)]
        · intro n hn hu
          rw [hne n hu (by omega), ih2 n (by omega) hu]
    · rw [List.filter_cons_of_neg hS, List.filter_nil, List.foldl_nil]
      refine ⟨?_, fun n h => ih2 n (by omega)⟩
      intro n hn hu
      have : n ≠ S := fun e => hS (e ▸ hu)
      exact ih1 n (by omega) hu

theorem copyOut_comp {V : Type} (S : Nat) (U : Nat → Bool) (g : Nat → LineD) (v : Nat → V) (n k : Nat)
    (hn : n < S) (hun : U n = true)
    (hs : ((g n).sendto.any fun e => e.1 == -1) = true) (hk : (g n).frac = k)
    (hu : ∀ m, m < S → U m = true → ((g m).sendto.any fun e => e.1 == -1) = true → (g m).frac = k → m = n) :
    copyOut (comp S U g) v k = some (v (pos U n)) := by
  unfold copyOut
  rw [zipIdx_comp, List.foldl_map]
  suffices H : ∀ K, K ≤ S → (n < K → ((List.range K).filter U).foldl (fun out n =>
      if (g n).sendto.any fun e => e.1 == -1 then upd out (g n).frac (some (v (pos U n))) else out)
      (fun _ => none) k = some (v (pos U n))) from H S (Nat.le_refl _) hn
  intro K
  induction K with
  | zero => intro _ h; omega
  | succ K ih =>
    intro hK hnK
    rw [List.range_succ, List.filter_append, List.foldl_append]
    by_cases e : n = K
    · subst e
      rw [List.filter_cons_of_pos hun, List.filter_nil, List.foldl_cons, List.foldl_nil, if_pos hs]
      unfold upd
      rw [if_pos hk.symm]
    · by_cases hUK : U K = true
      · rw [List.filter_cons_of_pos hUK, List.filter_nil, List.foldl_cons, List.foldl_nil]
        by_cases hc : ((g K).sendto.any fun e => e.1 == -1) = true
        · rw [if_pos hc]
          unfold upd
          rw [if_neg]
          · exact ih (by omega) (by omega)
          · intro hf
            exact e (hu K (by omega) hUK hc hf.symm).symm
        · rw [if_neg hc]
          exact ih (by omega) (by omega)
      · rw [List.filter_cons_of_neg hUK]
        exact ih (by omega) (by omega)

/-! ## The marked lines -/

/-- `u` is contained in `u'`. -/
def Sub (u u' : List Bool) : Prop := ∀ n : Nat, u[n]? = some true → u'[n]? = some true

theorem sub_set (u : List Bool) (r : Nat) : Sub u (u.set r true) := by
  intro n h
  have hn : n < u.length := (List.getElem?_eq_some_iff.1 h).1
  rw [List.getElem?_set]
  split
  · rw [if_pos (by omega)]
  · exact h

theorem sub_mark (n : Nat) (l : LineD) (u : List Bool) : Sub u (markLine n l u) := by
  unfold markLine
  split
  · intro k hk
    dsimp only
    have h1 : ∀ u' : List Bool, u'[k]? = some true → (match l.recvfrom with
        | e :: _ => u'.set e.2.toNat true
        | [] => u')[k]? = some true := by
      intro u' h
      split
      · exact sub_set _ _ k h
      · exact h
    apply h1
    split
    · exact sub_set _ _ k hk
    · exact hk
  · exact fun _ h => h

theorem length_mark (n : Nat) (l : LineD) (u : List Bool) : (markLine n l u).length = u.length := by
  unfold markLine
  split
  · dsimp only
    split <;> split <;> simp
  · rfl

theorem sub_foldr {α : Type} (f : α → List Bool → List Bool) (h : ∀ x u, Sub u (f x u)) (xs : List α)
    (u : List Bool) : Sub u (xs.foldr f u) := by
  induction xs with
  | nil => exact fun _ h => h
  | cons x xs ih => exact fun n hn => h x _ n (ih n hn)

theorem length_foldr {α : Type} (f : α → List Bool → List Bool) (h : ∀ x u, (f x u).length = u.length)
    (xs : List α) (u : List Bool) : (xs.foldr f u).length = u.length := by
  induction xs with
  | nil => rfl
  | cons x xs ih => rw [List.foldr_cons, h, ih]

theorem sub_block (b : Block) (u : List Bool) : Sub u (markBlock b u) :=
  sub_foldr (fun (x : LineD × Nat) u => markLine x.2 x.1 u) (fun x u => sub_mark x.2 x.1 u) b.zipIdx u

theorem length_block (b : Block) (u : List Bool) : (markBlock b u).length = u.length :=
  length_foldr (fun (x : LineD × Nat) u => markLine x.2 x.1 u) (fun x u => length_mark x.2 x.1 u) b.zipIdx u

theorem sub_all (bs : List Block) (u : List Bool) : Sub u (markAll bs u) := sub_foldr _ sub_block _ u

theorem length_all (bs : List Block) (u : List Bool) : (markAll bs u).length = u.length :=
  length_foldr _ length_block _ u

theorem sub_antisymm (u u' : List Bool) (hl : u'.length = u.length) (h : Sub u u') (h' : Sub u' u) : u' = u := by
  apply List.ext_getElem? fun n => ?_
  by_cases hn : n < u.length
  · have hn' : n < u'.length := by omega
    have a := h n
    have b := h' n
    rw [List.getElem?_eq_getElem hn, List.getElem?_eq_getElem hn'] at a b ⊢
    cases c : u[n] <;> cases d : u'[n] <;> simp_all
  · rw [List.getElem?_eq_none (by omega), List.getElem?_eq_none (by omega)]

theorem fixed_foldr {α : Type} (f : α → List Bool → List Bool) (h : ∀ x u, Sub u (f x u))
    (hl : ∀ x u, (f x u).length = u.length) (xs : List α) (u : List Bool) (hf : xs.foldr f u = u) :
    ∀ x, x ∈ xs → f x u = u := by
  induction xs with
  | nil => intro x hx; cases hx
  | cons y ys ih =>
    have hsub := sub_foldr f h ys u
    have hlen := length_foldr f hl ys u
    rw [List.foldr_cons] at hf
    have h2 : Sub (ys.foldr f u) u := by
      have := h y (ys.foldr f u)
      rwa [hf] at this
    have h3 : ys.foldr f u = u := sub_antisymm _ _ hlen hsub h2
    rw [h3] at hf
    intro x hx
    rcases List.mem_cons.1 hx with e | e
    · rw [e]; exact hf
    · exact ih h3 x e

/-- A set of lines that marking leaves unchanged contains the sources of its lines. -/
theorem fixed_closed (bs : List Block) (u : List Bool) (hf : markAll bs u = u) (b : Block) (hb : b ∈ bs)
    (n : Nat) (l : LineD) (hl : b[n]? = some l) (hu : u[n]? = some true) :
    (∀ r rs, l.reducefrom = r :: rs → r < u.length → u[r]? = some true) ∧
    ∀ e es, l.recvfrom = e :: es → e.2.toNat < u.length → u[e.2.toNat]? = some true := by
  have h1 : markBlock b u = u := fixed_foldr _ sub_block length_block bs u hf b hb
  have h2 : markLine n l u = u := fixed_foldr (fun (x : LineD × Nat) u => markLine x.2 x.1 u) (fun x u => sub_mark x.2 x.1 u)
    (fun x u => length_mark x.2 x.1 u) b.zipIdx u h1 (l, n) (List.mem_zipIdx_iff_getElem?.2 hl)
  unfold markLine at h2
  rw [if_pos hu] at h2
  dsimp only at h2
  constructor
  · intro r rs hr hlt
    rw [hr] at h2
    dsimp only at h2
    have : (u.set r true)[r]? = some true := by
      rw [List.getElem?_set_self hlt]
    rw [← h2]
    split
    · exact sub_set _ _ r this
    · exact this
  · intro e es he hlt
    rw [he] at h2
    dsimp only at h2
    rw [← h2, List.getElem?_set_self]
    split <;> simpa using hlt

theorem countTrue_lt (u u' : List Bool) (hl : u'.length = u.length) (h : Sub u u') (hne : u' ≠ u) :
    u.countP (fun x => x) < u'.countP fun x => x := by
  induction u generalizing u' with
  | nil =>
    exact absurd (List.length_eq_zero_iff.1 hl) hne
  | cons a u ih =>
    cases u' with
    | nil => simp at hl
    | cons a' u' =>
      have hl' : u'.length = u.length := by simpa using hl
      have h' : Sub u u' := fun n hn => by simpa using h (n + 1) (by simpa using hn)
      have ha : a = true → a' = true := fun e => by simpa using h 0 (by simp [e])
      have hle : u.countP (fun x => x) ≤ u'.countP fun x => x := by
        by_cases e : u' = u
        · rw [e]
        · exact Nat.le_of_lt (ih u' hl' h' e)
      by_cases e : u' = u
      · have hna : a' ≠ a := fun c => hne (by rw [c, e])
        subst e
        cases a <;> cases a' <;> simp_all
      · have := ih u' hl' h' e
        cases a <;> cases a' <;> simp_all <;> omega

/-- The loop ends, with a set of lines that is closed. -/
theorem markLoop_some (bs : List Block) (fuel : Nat) (u : List Bool)
    (hfuel : u.length < fuel + u.countP fun x => x) :
    ∃ u', markLoop bs fuel u = some u' ∧ Sub u u' ∧ u'.length = u.length ∧ markAll bs u' = u' := by
  induction fuel generalizing u with
  | zero =>
    have := List.countP_le_length (p := fun x : Bool => x) (l := u)
    omega
  | succ fuel ih =>
    unfold markLoop
    by_cases h : markAll bs u = u
    · rw [if_pos h]
      exact ⟨u, rfl, fun _ h => h, rfl, h⟩
    · rw [if_neg h]
      have hlt := countTrue_lt u (markAll bs u) (length_all bs u) (sub_all bs u) h
      have hlen := length_all bs u
      obtain ⟨u', h1, h2, h3, h4⟩ := ih (markAll bs u) (by omega)
      exact ⟨u', h1, fun n hn => h2 n (sub_all bs u n hn), h3.trans hlen, h4⟩

theorem linesUsed_some (bs : List Block) (last : Block) :
    ∃ u, linesUsed bs last = some u ∧ u.length = last.length ∧ markAll bs u = u ∧
      ∀ (n : Nat) (l : LineD), last[n]? = some l → l.sendto.length = 1 → u[n]? = some true := by
  unfold linesUsed
  obtain ⟨u, h1, h2, h3, h4⟩ := markLoop_some bs (last.length + 1) (last.map fun l => l.sendto.length == 1)
    (by rw [List.length_map]; omega)
  refine ⟨u, h1, by rw [h3, List.length_map], h4, ?_⟩
  intro n l hl hs
  apply h2
  rw [List.getElem?_map, hl]
  simp [hs]

/-! ## Independence of the node -/

/-- What marking looks at. -/
def marks (b : Block) : List (Option Nat × Option Nat) :=
  b.map fun l => (l.reducefrom.head?, l.recvfrom.head?.map fun e => e.2.toNat)

theorem markLine_congr (n : Nat) (l l' : LineD) (u : List Bool) (h1 : l.reducefrom.head? = l'.reducefrom.head?)
    (h2 : (l.recvfrom.head?.map fun e => e.2.toNat) = l'.recvfrom.head?.map fun e => e.2.toNat) :
    markLine n l u = markLine n l' u := by
  unfold markLine
  cases a : l.reducefrom <;> cases a' : l'.reducefrom <;> cases b : l.recvfrom <;> cases b' : l'.recvfrom <;>
    simp_all

theorem markBlock_congr (b b' : Block) (u : List Bool) (h : marks b = marks b') :
    markBlock b u = markBlock b' u := by
  unfold markBlock marks at *
  have : ∀ k (b b' : Block), (b.map fun l => (l.reducefrom.head?, l.recvfrom.head?.map fun e => e.2.toNat)) =
      (b'.map fun l => (l.reducefrom.head?, l.recvfrom.head?.map fun e => e.2.toNat)) →
      (b.zipIdx k).foldr (fun x u => markLine x.2 x.1 u) u = (b'.zipIdx k).foldr (fun x u => markLine x.2 x.1 u) u := by
    intro k b
    induction b generalizing k with
    | nil =>
      intro b' h
      cases b' with
      | nil => rfl
      | cons _ _ => simp at h
    | cons l b ih =>
      intro b' h
      cases b' with
      | nil => simp at h
      | cons l' b' =>
        simp only [List.map_cons, List.cons.injEq, Prod.mk.injEq] at h
        rw [List.zipIdx_cons, List.zipIdx_cons, List.foldr_cons, List.foldr_cons, ih (k + 1) b' h.2]
        exact markLine_congr _ _ _ _ h.1.1 h.1.2
  exact this 0 b b' h

theorem markAll_congr (bs bs' : List Block) (u : List Bool) (h : bs.map marks = bs'.map marks) :
    markAll bs u = markAll bs' u := by
  unfold markAll
  induction bs generalizing bs' with
  | nil =>
    cases bs' with
    | nil => rfl
    | cons _ _ => simp at h
  | cons b bs ih =>
    cases bs' with
    | nil => simp at h
    | cons b' bs' =>
      simp only [List.map_cons, List.cons.injEq] at h
      rw [List.foldr_cons, List.foldr_cons, ih bs' h.2]
      exact markBlock_congr _ _ _ h.1

theorem markLoop_congr (bs bs' : List Block) (h : bs.map marks = bs'.map marks) (fuel : Nat) (u : List Bool) :
    markLoop bs fuel u = markLoop bs' fuel u := by
  induction fuel generalizing u with
  | zero => rfl
  | succ fuel ih =>
    unfold markLoop
    rw [markAll_congr bs bs' u h, ih]

theorem linesUsed_congr (bs bs' : List Block) (last last' : Block) (h : bs.map marks = bs'.map marks)
    (hl : (last.map fun l => l.sendto.length == 1) = last'.map fun l => l.sendto.length == 1) :
    linesUsed bs last = linesUsed bs' last' := by
  unfold linesUsed
  have : last.length = last'.length := by
    have := congrArg List.length hl
    simpa using this
  rw [this, hl, markLoop_congr bs bs' h]

/-! ## Deletion of closed forms -/

theorem dropLines_mk (u : List Bool) (S : Nat) (f : Nat → LineD) :
    dropLines u (Recursive.mk S f) = comp S (fun n => u[n]? == some true) fun n => renumberLine u (f n) := by
  unfold dropLines Recursive.mk comp
  rw [zipIdx_map_range, List.filter_map, List.map_map]
  rfl

theorem mapM_mk {α β : Type} (f : α → Option β) (g : α → β) (l : List α) (h : ∀ x, x ∈ l → f x = some (g x)) :
    l.mapM f = some (l.map g) := by
  induction l with
  | nil => rfl
  | cons x xs ih =>
    rw [List.mapM_cons, h x List.mem_cons_self, ih fun x hx => h x (List.mem_cons_of_mem _ hx)]
    rfl

end ExtMpi.CyclicReduce
