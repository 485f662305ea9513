import Verif.Lemmas.Forward
/-! Messages and rows of schedules of broadcasts. -/
namespace ExtMpi.Forward
open Schedule Rooted

/-! ## Original messages -/

theorem lookup_range (n0 i k : Nat) (S : List Nat) (h : S[i]? = some k) :
    ((List.range' n0 S.length).zip S).lookup (n0 + i) = some k := by
  induction S generalizing n0 i with
  | nil => simp at h
  | cons a S ih =>
    rw [List.length_cons, List.range'_succ, List.zip_cons_cons, List.lookup_cons]
    cases i with
    | zero =>
      simp only [List.getElem?_cons_zero, Option.some.injEq] at h
      simp [h]
    | succ i =>
      have : (n0 + (i + 1) == n0) = false := by
        rw [beq_eq_false_iff_ne]; omega
      rw [this]
      have := ih (n0 + 1) i (by simpa using h)
      rw [show n0 + (i + 1) = n0 + 1 + i by omega]
      exact this

theorem lookup_surj (S R : List Nat) (hlen : S.length = R.length) (hS : S.Nodup) (n : Nat) (h : n ∈ R) :
    ∃ k ∈ S, (S.zip R).lookup k = some n := by
  induction S generalizing R with
  | nil =>
    cases R with
    | nil => cases h
    | cons _ _ => cases hlen
  | cons a S ih =>
    cases R with
    | nil => cases hlen
    | cons b R =>
      rw [List.nodup_cons] at hS
      rcases List.mem_cons.mp h with rfl | h
      · exact ⟨a, List.mem_cons_self, by simp [List.lookup_cons]⟩
      · obtain ⟨k, h1, h2⟩ := ih R (by simpa using hlen) hS.2 h
        refine ⟨k, List.mem_cons_of_mem _ h1, ?_⟩
        have : (k == a) = false := by
          rw [beq_eq_false_iff_ne]
          rintro rfl
          exact hS.1 h1
        rw [List.zip_cons_cons, List.lookup_cons, this]
        exact h2

/-- One original message. -/
theorem deliver_value {V : Type} [Add V] (bt bq : Block) (q t : Nat) (sq u w : Nat → V)
    (hb : ∃ n0, recvIdx bt q = List.range' n0 (recvIdx bt q).length) (hr : reduces bt t q = false)
    (hd : deliver bt t q (message bq sq t) u = some w) (j : Nat) :
    (j ∉ recvIdx bt q → w j = u j) ∧
    ∀ k, ((recvIdx bt q).zip (sendIdx bq t)).lookup j = some k → j ∈ recvIdx bt q → w j = sq k := by
  obtain ⟨n0, hb⟩ := hb
  obtain ⟨htag, hw⟩ := deliver_some bt t q _ u w n0 hb hr hd
  have hlen : (sendIdx bq t).length = (recvIdx bt q).length := by
    have := congrArg List.length htag
    rw [List.length_map, List.length_map, message_length] at this
    exact this
  rw [hw j]
  refine ⟨fun hj => ?_, fun k hk hj => ?_⟩
  · have : (if n0 ≤ j then (message bq sq t)[j - n0]? else none) = none := by
      split
      · rw [List.getElem?_eq_none_iff, message_length]
        by_contra hc
        apply hj
        rw [hb, List.mem_range'_1]
        omega
      · rfl
    rw [this]
  · rw [hb, List.mem_range'_1] at hj
    have hi : j - n0 < (sendIdx bq t).length := by omega
    have h2 := lookup_range n0 (j - n0) _ _ (List.getElem?_eq_getElem hi)
    rw [hlen, ← hb, show n0 + (j - n0) = j by omega, hk, Option.some.injEq] at h2
    rw [if_pos hj.1]
    unfold message
    rw [List.getElem?_map, List.getElem?_eq_getElem hi, ← h2]
    rfl

/-- All original messages of node `t`. -/
theorem recv_value {V : Type} [Add V] (row : Row) (t : Nat) (s : Nat → Nat → V) (qs : List Nat)
    (hb : ∀ q ∈ qs, ∃ n0, recvIdx (row t) q = List.range' n0 (recvIdx (row t) q).length)
    (hr : ∀ q ∈ qs, reduces (row t) t q = false) (u w : Nat → V)
    (h : qs.foldlM (fun v q => if q = t then some v else deliver (row t) t q (message (row q) (s q) t) v) u = some w) (j : Nat) :
    ((∀ q ∈ qs, q ≠ t → j ∉ recvIdx (row t) q) → w j = u j) ∧
    ∀ q ∈ qs, q ≠ t → (∀ q' ∈ qs, q' ≠ q → j ∉ recvIdx (row t) q') → j ∈ recvIdx (row t) q →
      ∀ k, ((recvIdx (row t) q).zip (sendIdx (row q) t)).lookup j = some k → w j = s q k := by
  induction qs generalizing u with
  | nil =>
    rw [List.foldlM_nil] at h
    cases h
    exact ⟨fun _ => rfl, fun q hq => by cases hq⟩
  | cons a qs ih =>
    rw [List.foldlM_cons] at h
    obtain ⟨v1, h1, h2⟩ := Option.bind_eq_some_iff.mp h
    have ih := ih (fun q hq => hb q (List.mem_cons_of_mem _ hq)) (fun q hq => hr q (List.mem_cons_of_mem _ hq)) v1 h2
    refine ⟨fun hj => ?_, fun q hq hqt ho hj k hk => ?_⟩
    · rw [ih.1 fun q hq => hj q (List.mem_cons_of_mem _ hq)]
      split at h1
      · cases h1; rfl
      · rename_i hat
        exact (deliver_value _ _ a t (s a) u v1 (hb a List.mem_cons_self) (hr a List.mem_cons_self) h1 j).1
          (hj a List.mem_cons_self hat)
    · by_cases hin : q ∈ qs
      · exact ih.2 q hin hqt (fun q' hq' => ho q' (List.mem_cons_of_mem _ hq')) hj k hk
      · have haq : q = a := by
          rcases List.mem_cons.mp hq with h | h
          · exact h
          · exact absurd h hin
        subst haq
        rw [if_neg hqt] at h1
        rw [ih.1 fun q' hq' _ => ho q' (List.mem_cons_of_mem _ hq') (fun e => hin (e ▸ hq'))]
        exact (deliver_value _ _ q t (s q) u v1 (hb q List.mem_cons_self) (hr q List.mem_cons_self) h1 j).2 k hk hj

/-! ## Marks of a row -/

section Row
variable (N : Nat) (prev : Nat → Marks) (row : Row)

/-- Values before the exchange. -/
def before (q : Nat) : Marks := carry (prev q) [] (row q)

/-- Values after the exchange. -/
def after (t : Nat) : Marks := exchangeF row (before prev row) t

variable {N prev row}

theorem val_before (hex : exchangeOk N row = true) (q : Nat) (hq : q < N) (j : Nat) (l : LineD) (hl : (row q)[j]? = some l) :
    val (before prev row q) j = if val (prev q) j ≠ 0 then 1 else 0 := by
  unfold before carry
  rw [val_mapIdx _ _ j l hl, if_neg]
  · rfl
  · intro hc
    obtain ⟨e, he, h1⟩ := Option.map_eq_some_iff.mp hc
    have := (exchangeOk_spec N row hex q hq).1 l (List.mem_of_getElem? hl) e (List.mem_of_mem_head? he)
    omega

theorem val_before_ne (hex : exchangeOk N row = true) (q : Nat) (hq : q < N) (j : Nat) (l : LineD) (hl : (row q)[j]? = some l) :
    val (before prev row q) j ≠ 0 ↔ val (prev q) j ≠ 0 := by
  rw [val_before hex q hq j l hl]
  split <;> simp_all

theorem after_unreceived (t j : Nat) (l : LineD) (hl : (row t)[j]? = some l) (h : l.recvfrom = []) :
    val (after prev row t) j = val (before prev row t) j ∧
    val (settle (after prev row t) (row t)) j = val (before prev row t) j := by
  have h1 : val (after prev row t) j = val (before prev row t) j := by
    unfold after exchangeF
    rw [val_mapIdx _ _ j l hl, h]
    rfl
  refine ⟨h1, ?_⟩
  unfold settle
  rw [val_mapIdx _ _ j l hl, if_neg (by simp [h]), h1]

/-- A received line. -/
theorem after_received {clean : Nat → Nat → Bool} (hw : FMid N clean row) (hex : exchangeOk N row = true) (t : Nat) (ht : t < N) (j : Nat)
    (l : LineD) (hl : (row t)[j]? = some l) (q : Nat) (hq : q < N) (hj : j ∈ recvIdx (row t) q) :
    ∃ k ∈ sendIdx (row q) t, ((recvIdx (row t) q).zip (sendIdx (row q) t)).lookup j = some k ∧
      (2 ≤ val (after prev row t) j ↔ val (before prev row q) k ≠ 0) ∧
      (val (settle (after prev row t) (row t)) j ≠ 0 ↔ val (before prev row q) k ≠ 0) ∧
      (∀ q', q' ≠ q → j ∉ recvIdx (row t) q') ∧ q ≠ t := by
  obtain ⟨l2, hl2, e, he, heq⟩ := (mem_recvIdx _ _ _).mp hj
  rw [hl, Option.some.injEq] at hl2
  subst hl2
  have hmem := List.mem_of_getElem? hl
  have hone : l.recvfrom = [e] := by
    have h1 := (hw.partners t ht l hmem).2
    match hx : l.recvfrom, h1, he with
    | [], _, he => cases he
    | [x], _, he => simp at he; rw [he]
    | _ :: _ :: _, h1, _ => simp at h1
  have hent : recvEnt (row t) q = recvIdx (row t) q := recvEnt_eq _ _ fun l hl => by
    have := (hw.partners t ht l hl).2
    match hx : l.recvfrom, this with
    | [], _ => simp
    | [x], _ => simp
    | _ :: _ :: _, h1 => simp at h1
  have hlen := (exchangeOk_spec N row hex q hq).2.2 t ht
  rw [hent] at hlen
  obtain ⟨k, h1, h2⟩ := lookup_zip _ _ hlen.symm j hj
  have hpart := (exchangeOk_spec N row hex t ht).2.1 l hmem e he
  have hinc : incoming row (before prev row) t e.1 j = val (before prev row q) k := by
    unfold incoming sourceLine
    rw [heq, Int.toNat_natCast, hent, h2]
  have hle : val (before prev row t) j ≤ 1 := by
    rw [val_before hex t ht j l hl]
    split <;> omega
  have hval : val (after prev row t) j = if val (before prev row q) k ≠ 0 then 2
      else if l.reducefrom = [] ∧ l.copyreducefrom = [] then 0 else val (before prev row t) j := by
    unfold after exchangeF
    rw [val_mapIdx _ _ j l hl, hone, List.foldl_cons, List.foldl_nil, hinc]
  have hiff : 2 ≤ val (after prev row t) j ↔ val (before prev row q) k ≠ 0 := by
    rw [hval]
    by_cases hz : val (before prev row q) k ≠ 0
    · rw [if_pos hz]; simp [hz]
    · rw [if_neg hz]
      constructor
      · intro h
        split at h <;> omega
      · exact fun h => absurd h hz
  refine ⟨k, h1, h2, hiff, ?_, ?_, ?_⟩
  · unfold settle
    rw [val_mapIdx _ _ j l hl]
    by_cases hz : 2 ≤ val (after prev row t) j
    · rw [if_neg (by omega)]
      simp only [← hiff, hz, iff_true]
      omega
    · rw [if_pos ⟨by omega, by rw [hone]; simp⟩, ← hiff]
      simp [hz]
  · intro q' hq' hc
    obtain ⟨l3, hl3, e', he', heq'⟩ := (mem_recvIdx _ _ _).mp hc
    rw [hl, Option.some.injEq] at hl3
    subst hl3
    rw [hone, List.mem_singleton] at he'
    subst he'
    omega
  · omega

/-- The new lines of a block. -/
def newLine (b b' : Block) (j : Nat) (l : LineD) : LineD :=
  if b[j]? = some l then (match b'[j]? with | some l' => l' | none => l) else l

theorem newLine_map (b b' : Block) (h : b'.length = b.length) : b' = b.mapIdx (newLine b b') := by
  apply List.ext_getElem?
  intro j
  rw [List.getElem?_mapIdx]
  by_cases hj : j < b.length
  · rw [List.getElem?_eq_getElem hj, List.getElem?_eq_getElem (by omega : j < b'.length)]
    unfold newLine
    simp only [Option.map_some]
    rw [if_pos (List.getElem?_eq_getElem hj), List.getElem?_eq_getElem (by omega : j < b'.length)]
  · rw [List.getElem?_eq_none (by omega), List.getElem?_eq_none (by omega)]
    rfl

/-- Lines after `finish`. -/
theorem finish_line (m : Marks) (b : Block) (hc : ∀ l ∈ b, l.copyreducefrom = []) :
    (finish m b).1.length = b.length ∧ (finish m b).2.length = b.length ∧
    ∀ (j : Nat) (l : LineD), b[j]? = some l → ∃ l', (finish m b).1[j]? = some l' ∧ l'.frac = l.frac ∧
      l'.sendto = (if val m j = 0 then l.sendto.map drop else l.sendto) ∧
      l'.recvfrom = (if val m j < 2 then l.recvfrom.map drop else l.recvfrom) := by
  have hlen : (settle m b).length = (b.mapIdx (dropF m)).length := by simp [settle]
  obtain ⟨h1, h2, h3⟩ := loop_line (b.mapIdx (dropF m)) (settle m b) hlen (by
    intro l hl
    obtain ⟨j, hj⟩ := List.mem_iff_getElem?.mp hl
    rw [List.getElem?_mapIdx] at hj
    obtain ⟨l0, hl0, rfl⟩ := Option.map_eq_some_iff.mp hj
    exact hc l0 (List.mem_of_getElem? hl0))
  unfold finish
  refine ⟨by rw [h1]; simp, by rw [h2]; simp, ?_⟩
  intro j l hl
  obtain ⟨l', g1, g2, g3, g4, _⟩ := h3 j (dropF m j l) (by rw [List.getElem?_mapIdx, hl]; rfl)
  exact ⟨l', g1, g2, g3, g4⟩

theorem drop_map (es : List (Int × Int)) (h : ∀ e ∈ es, 0 ≤ e.1) : es.map drop = es.map fun e => (-10 - e.1, e.2) := by
  apply List.map_congr_left
  intro e he
  unfold drop
  rw [if_pos (h e he)]

/-- New blocks of a row. -/
def newRow (prev : Nat → Marks) (row : Row) (t : Nat) : Block := (finish (after prev row t) (row t)).1

theorem newRow_shape {clean : Nat → Nat → Bool} (hw : FMid N clean row) (hex : exchangeOk N row = true) (t : Nat) (ht : t < N) :
    Shape N t (row t) (newLine (row t) (newRow prev row t)) ((after prev row t).map fun x => decide (2 ≤ x)) ∧
    newRow prev row t = (row t).mapIdx (newLine (row t) (newRow prev row t)) ∧
    ∀ (j : Nat) (l : LineD), (row t)[j]? = some l → (newLine (row t) (newRow prev row t) j l).sendto =
      l.sendto.map fun e => if (val (after prev row t) j != 0) = true then e else (-10 - e.1, e.2) := by
  obtain ⟨h1, h2, h3⟩ := finish_line (after prev row t) (row t) (hw.nocopy t ht)
  obtain ⟨p1, p2, _⟩ := exchangeOk_spec N row hex t ht
  have hn : ∀ j, need ((after prev row t).map fun x => decide (2 ≤ x)) j = decide (2 ≤ val (after prev row t) j) := by
    intro j
    unfold need val
    rw [List.getElem?_map]
    cases (after prev row t)[j]? with
    | none => simp
    | some x =>
      dsimp only [Option.map_some]
      cases decide (2 ≤ x) <;> rfl
  have hline : ∀ (j : Nat) (l : LineD), (row t)[j]? = some l → ∃ l', newLine (row t) (newRow prev row t) j l = l' ∧ l'.frac = l.frac ∧
      l'.sendto = (if val (after prev row t) j = 0 then l.sendto.map drop else l.sendto) ∧
      l'.recvfrom = (if val (after prev row t) j < 2 then l.recvfrom.map drop else l.recvfrom) := by
    intro j l hl
    obtain ⟨l', g1, g2⟩ := h3 j l hl
    refine ⟨l', ?_, g2⟩
    unfold newLine newRow
    rw [if_pos hl, g1]
  refine ⟨⟨?_, ?_, p2⟩, newLine_map _ _ h1, ?_⟩
  · intro j l
    by_cases hl : (row t)[j]? = some l
    · obtain ⟨l', g1, g2, _⟩ := hline j l hl
      rw [g1, g2]
    · unfold newLine
      rw [if_neg hl]
  · intro j l hl
    obtain ⟨l', g1, _, _, g2⟩ := hline j l hl
    rw [g1, g2, hn, drop_map _ fun e he => (p2 l (List.mem_of_getElem? hl) e he).1]
    by_cases h : val (after prev row t) j < 2
    · rw [if_pos h, if_neg (by simpa using h)]
    · rw [if_neg h, if_pos (by rw [decide_eq_true_eq]; omega)]
  · intro j l hl
    obtain ⟨l', g1, _, g2, _⟩ := hline j l hl
    rw [g1, g2, drop_map _ fun e he => (p1 l (List.mem_of_getElem? hl) e he).1]
    by_cases h : val (after prev row t) j = 0
    · simp [h]
    · simp [h]

theorem forward_link {clean : Nat → Nat → Bool} (hw : FMid N clean row) (hex : exchangeOk N row = true) (q t : Nat) (hq : q < N) (ht : t < N)
    (hqt : q ≠ t) (hun : recvIdx (newRow prev row t) q = [] ∨ deadIdx (newRow prev row t) q = []) :
    Link (row q) (newRow prev row q) (row t) (newRow prev row t) q t (some? (before prev row q))
      (some? (settle (after prev row t) (row t))) := by
  obtain ⟨sht, mapt, _⟩ := newRow_shape (prev := prev) hw hex t ht
  obtain ⟨shq, mapq, sendq⟩ := newRow_shape (prev := prev) hw hex q hq
  obtain ⟨i1, i2, i3⟩ := shape_idx N t (row t) _ _ sht q
  rw [← mapt] at i1 i2 i3
  obtain ⟨r1, r2⟩ := shape_noRed N t (row t) _ _ sht q
  rw [← mapt] at r2
  have hse := sendEnt_map N q (row q) _ (fun j _ => val (after prev row q) j != 0) t sendq (exchangeOk_spec N row hex q hq).1
  rw [← mapq] at hse
  have hse1 : sendEnt (newRow prev row q) t = (sendIdx (row q) t).map fun n => (n, val (before prev row q) n != 0) := by
    rw [hse]
    apply List.map_congr_left
    intro n hn
    obtain ⟨l, hl, e, he, _⟩ := mem_sendIdx _ _ _ hn
    rcases hw.apart q hq l (List.mem_of_getElem? hl) with h | h
    · rw [h] at he; cases he
    · rw [(after_unreceived q n l hl h).1]
  have hn : ∀ j, need ((after prev row t).map fun x => decide (2 ≤ x)) j = decide (2 ≤ val (after prev row t) j) := by
    intro j
    unfold need val
    rw [List.getElem?_map]
    cases (after prev row t)[j]? with
    | none => simp
    | some x =>
      dsimp only [Option.map_some]
      cases decide (2 ≤ x) <;> rfl
  have hneed : ∀ k ∈ recvIdx (row t) q, need ((after prev row t).map fun x => decide (2 ≤ x)) k =
      need (some? (settle (after prev row t) (row t))) k := by
    intro k hk
    obtain ⟨l, hl, _⟩ := (mem_recvIdx _ _ _).mp hk
    obtain ⟨n, _, _, a1, a2, _⟩ := after_received (prev := prev) hw hex t ht k l hl q hq hk
    rw [hn, need_some]
    have : 2 ≤ val (after prev row t) k ↔ val (settle (after prev row t) (row t)) k ≠ 0 := a1.trans a2.symm
    by_cases h : 2 ≤ val (after prev row t) k
    · simp [h, this.mp h]
    · simp only [h, decide_false]
      rw [this] at h
      simpa using h
  have hsrc : ∀ n ∈ sendIdx (row q) t, ∃ k ∈ recvIdx (row t) q, need ((after prev row t).map fun x => decide (2 ≤ x)) k =
      (val (before prev row q) n != 0) := by
    intro n hn'
    have hent : recvEnt (row t) q = recvIdx (row t) q := recvEnt_eq _ _ fun l hl => by
      have := (hw.partners t ht l hl).2
      match hx : l.recvfrom, this with
      | [], _ => simp
      | [x], _ => simp
      | _ :: _ :: _, h1 => simp at h1
    have hlen := (exchangeOk_spec N row hex q hq).2.2 t ht
    rw [hent] at hlen
    obtain ⟨k, hk, hlk⟩ := lookup_surj _ _ hlen.symm (recvIdx_nodup _ _) n hn'
    obtain ⟨l, hl, _⟩ := (mem_recvIdx _ _ _).mp hk
    obtain ⟨n2, _, a0, a1, _⟩ := after_received (prev := prev) hw hex t ht k l hl q hq hk
    rw [hlk, Option.some.injEq] at a0
    subst a0
    refine ⟨k, hk, ?_⟩
    rw [hn]
    by_cases h : 2 ≤ val (after prev row t) k
    · simp [h, a1.mp h]
    · simp only [h, decide_false]
      rw [a1] at h
      simpa using h
  have fr : ∀ q < N, ∀ n, fracOf (newRow prev row q) n = fracOf (row q) n := by
    intro q hq n
    obtain ⟨sh, mp, _⟩ := newRow_shape (prev := prev) hw hex q hq
    rw [mp]
    exact fracOf_mapIdx _ _ sh.frac n
  refine ⟨fr q hq, fr t ht, hw.block t ht q hq, i3, r1, r2, ?_⟩
  rcases hun with hun | hun
  · right
    rw [i1, List.filter_eq_nil_iff] at hun
    refine ⟨?_, ?_, ?_, ?_⟩
    · rw [sendIdx_eq, hse1, List.filterMap_eq_nil_iff]
      intro x hx
      obtain ⟨n, hn', rfl⟩ := List.mem_map.mp hx
      obtain ⟨k, hk, e⟩ := hsrc n hn'
      dsimp only
      rw [← e, if_neg (hun k hk)]
    · rw [i1, List.filter_eq_nil_iff]
      exact hun
    · rw [i2, List.filter_eq_self]
      intro k hk
      simpa using hun k hk
    · intro k hk
      rw [← hneed k hk]
      simpa using hun k hk
  · left
    rw [i2, List.filter_eq_nil_iff] at hun
    have hall : ∀ n ∈ sendIdx (row q) t, (val (before prev row q) n != 0) = true := by
      intro n hn'
      obtain ⟨k, hk, e⟩ := hsrc n hn'
      rw [← e]
      simpa using hun k hk
    have hse2 : sendEnt (newRow prev row q) t = (sendIdx (row q) t).map fun n => (n, true) := by
      rw [hse1]
      exact List.map_congr_left fun n hn => by rw [hall n hn]
    refine ⟨hse2, ?_, ?_, ?_, ?_⟩
    · rw [sendIdx_eq, hse2, List.filterMap_map]
      simp [Function.comp_def]
    · rw [i1, List.filter_eq_self]
      intro k hk
      simpa using hun k hk
    · rw [i2, List.filter_eq_nil_iff]
      exact hun
    · intro n hn'
      rw [need_some]
      exact hall n hn'

end Row

/-! ## Rows -/

/-- Lines that are clean and have data agree, clean lines without data are zero. -/
def Inv {V : Type} [Zero V] (N : Nat) (clean : Nat → Nat → Bool) (v : Nat → Marks) (s s' : Nat → Nat → V) : Prop :=
  ∀ t < N, ∀ j, clean t j = true → (val (v t) j ≠ 0 → s t j = s' t j) ∧ (val (v t) j = 0 → s t j = 0)

/-- One row. -/
theorem forward_step {V : Type} [AddMonoid V] (N : Nat) (row : Row) (prev : Nat → Marks) (len : Nat → Nat) (clean : Nat → Nat → Bool)
    (hw : FMid N clean row) (hex : exchangeOk N row = true) (hlen : ∀ t < N, (prev t).length = len t)
    (hun : ∀ t < N, ∀ q < N, q ≠ t → recvIdx (newRow prev row t) q = [] ∨ deadIdx (newRow prev row t) q = [])
    (hO : ∀ t < N, ∀ (j r : Nat) (l lr : LineD), (newRow prev row t)[j]? = some l → (newRow prev row t)[r]? = some lr → r ∈ l.reducefrom → r < j →
      lr.copyreducefrom = [])
    (s s' : Nat → Nat → V) (hinv : Inv N clean prev s s') (t : Nat) (ht : t < N) (sd rd : Nat → Nat → V) (w : Nat → V)
    (h : nodeStep N row s t = some w) :
    ∃ w', nodeStepD N (newRow prev row) sd rd s' t = some w' ∧
      ∀ j, cleanAfter len clean row t j = true →
        (val (finish (after prev row t) (row t)).2 j ≠ 0 → w j = w' j) ∧ (val (finish (after prev row t) (row t)).2 j = 0 → w j = 0) := by
  unfold nodeStep at h
  obtain ⟨hok, h⟩ := Option.ite_none_right_eq_some.1 h
  obtain ⟨u, hu, rfl⟩ := Option.map_eq_some_iff.mp h
  unfold recvAll at hu
  have hord := fun q => Rooted.mem_order N t q ht
  obtain ⟨bufs, u', hb, hu', hag⟩ := recv_agree row (newRow prev row) t (fun q => some? (before prev row q))
    (some? (settle (after prev row t) (row t))) s s' sd rd (order N t)
    (fun q hq hqt => forward_link hw hex q t ((hord q).mp hq) ht hqt (hun t ht q ((hord q).mp hq) hqt))
    (fun q hq _ n hn hnd => by
      have hq := (hord q).mp hq
      obtain ⟨l, hl, e, he, _⟩ := mem_sendIdx _ _ _ hn
      rw [need_some] at hnd
      have hne : val (before prev row q) n ≠ 0 := by simpa using hnd
      exact (hinv q hq n (hw.sent q hq n l hl (List.ne_nil_of_mem he))).1 ((val_before_ne hex q hq n l hl).mp hne))
    (s t) (s' t) u hu
  have horg := recv_value row t s (order N t) (fun q hq => hw.block t ht q ((hord q).mp hq))
    (fun q hq => (shape_noRed N t (row t) _ _ (newRow_shape (prev := prev) hw hex t ht).1 q).1) (s t) u hu
  unfold nodeStepD
  rw [hb]
  dsimp only
  rw [hu']
  refine ⟨_, rfl, ?_⟩
  -- lines in the block
  have hin : ∀ j, j < (row t).length → live clean row t j = true →
      (val (settle (after prev row t) (row t)) j ≠ 0 → u j = u' j) ∧ (val (settle (after prev row t) (row t)) j = 0 → u j = 0) := by
    intro j hj hlv
    have hl : (row t)[j]? = some (row t)[j] := List.getElem?_eq_getElem hj
    generalize (row t)[j] = l at hl
    by_cases hr : l.recvfrom = []
    · have hnot : ∀ q, j ∉ recvIdx (row t) q := by
        intro q hq
        obtain ⟨l2, hl2, e, he, _⟩ := (mem_recvIdx _ _ _).mp hq
        rw [hl, Option.some.injEq] at hl2
        subst hl2
        rw [hr] at he
        cases he
      have hcl : clean t j = true := by
        unfold live at hlv
        rw [hl] at hlv
        simpa [hr] using hlv
      have hv : val (settle (after prev row t) (row t)) j ≠ 0 ↔ val (prev t) j ≠ 0 := by
        rw [(after_unreceived t j l hl hr).2, val_before_ne hex t ht j l hl]
      have huj := (horg j).1 fun q _ _ => hnot q
      refine ⟨fun hne => ?_, fun h0 => ?_⟩
      · exact hag j (fun q _ _ hq => absurd hq (hnot q)) (Or.inl ((hinv t ht j hcl).1 (hv.mp hne)))
      · rw [huj]
        refine (hinv t ht j hcl).2 ?_
        by_contra hc
        exact hv.mpr hc h0
    · obtain ⟨e, he⟩ := List.exists_mem_of_ne_nil _ hr
      obtain ⟨p1, p2, p3⟩ := (exchangeOk_spec N row hex t ht).2.1 l (List.mem_of_getElem? hl) e he
      have hq : e.1.toNat < N := by omega
      have hm : j ∈ recvIdx (row t) e.1.toNat := (mem_recvIdx _ _ _).mpr ⟨l, hl, e, he, by omega⟩
      obtain ⟨k, k1, k2, _, k4, k5, k6⟩ := after_received (prev := prev) hw hex t ht j l hl _ hq hm
      refine ⟨fun hne => ?_, fun h0 => ?_⟩
      · refine hag j (fun _ _ _ _ => ?_) (Or.inr ⟨_, (hord _).mpr hq, k6, hm⟩)
        rw [need_some]
        simpa using hne
      · rw [(horg j).2 _ ((hord _).mpr hq) k6 (fun q' _ => k5 q') hm k k2]
        obtain ⟨lk, hlk, e', he', _⟩ := mem_sendIdx _ _ _ k1
        refine (hinv _ hq k (hw.sent _ hq k lk hlk (List.ne_nil_of_mem he'))).2 ?_
        by_contra hc
        exact k4.mpr ((val_before_ne hex _ hq k lk hlk).mpr hc) h0
  have hfin := finish_line (after prev row t) (row t) (hw.nocopy t ht)
  intro j hj
  unfold cleanAfter at hj
  by_cases hjl : j < (row t).length
  · rw [if_pos hjl] at hj
    refine local_forward (row t) ((row t).mapIdx (dropF (after prev row t))) (settle (after prev row t) (row t)) (by simp [settle]) (by simp) ?_
      (hw.nocopy t ht) ?_ (hw.later t ht) (live clean row t) (hw.known t ht) (hO t ht) u u' hin j hjl hj
    · intro j l ld h1 h2
      rw [List.getElem?_mapIdx, h1] at h2
      simp only [Option.map_some, Option.some.injEq] at h2
      subst h2
      exact ⟨rfl, rfl⟩
    · intro i l hl r hr
      unfold reduceOk at hok
      have := List.all_eq_true.mp hok (l, i) (List.mem_zipIdx_iff_getElem?.mpr hl)
      have := List.all_eq_true.mp this r (List.mem_append_left _ hr)
      rw [Bool.and_eq_true] at this
      refine ⟨by simpa using this.1, ?_⟩
      by_contra hc
      have h2 := this.2
      unfold fracOf at h2
      rw [List.getElem?_eq_none (by omega)] at h2
      cases h2
  · rw [if_neg hjl] at hj
    rw [Bool.and_eq_true, decide_eq_true_eq] at hj
    have h0 : val (finish (after prev row t) (row t)).2 j = 0 := val_big _ _ (by rw [hfin.2.1]; omega)
    refine ⟨fun hc => absurd h0 hc, fun _ => ?_⟩
    rw [beyond (row t) u j (by omega), (horg j).1 fun q _ _ hq => ?_]
    · exact (hinv t ht j hj.1).2 (val_big _ _ (by rw [hlen t ht]; exact hj.2))
    · obtain ⟨l, hl, _⟩ := (mem_recvIdx _ _ _).mp hq
      exact hjl (List.getElem?_eq_some_iff.mp hl).1

/-- The last row is unchanged. -/
theorem finish_plain (m : Marks) (b : Block) (h : ∀ l ∈ b, l.recvfrom = [] ∧ l.reducefrom = [] ∧ l.copyreducefrom = [] ∧ ∀ e ∈ l.sendto, e.1 = -1) :
    (finish m b).1 = b := by
  have hb : b.mapIdx (dropF m) = b := by
    apply List.ext_getElem?
    intro j
    rw [List.getElem?_mapIdx]
    cases hj : b[j]? with
    | none => rfl
    | some l0 =>
      obtain ⟨h1, h2, h3, h4⟩ := h l0 (List.mem_of_getElem? hj)
      have hs : l0.sendto.map drop = l0.sendto := by
        conv_rhs => rw [← List.map_id l0.sendto]
        apply List.map_congr_left
        intro e he
        unfold drop
        rw [if_neg (by rw [h4 e he]; omega)]
        rfl
      simp only [Option.map_some, Option.some.injEq]
      unfold dropF
      rw [hs, h1]
      cases l0
      simp_all
  unfold finish
  rw [hb]
  obtain ⟨h1, _, _, h4⟩ := reduceLoop_spec b (settle m b) 0
  apply List.ext_getElem?
  intro j
  cases hj : b[j]? with
  | none =>
    rw [List.getElem?_eq_none_iff] at hj ⊢
    omega
  | some l =>
    obtain ⟨vi, _, g2, _⟩ := h4 j l hj
    rw [g2]
    obtain ⟨e1, e2, e3, e4⟩ := h l (List.mem_of_getElem? hj)
    obtain ⟨f1, f2, f3, f4⟩ := reduceF_spec vi (0 + j) l e3
    generalize (reduceF vi (0 + j) l).1 = l' at *
    rw [e2] at f4
    have : l'.reducefrom = [] ∧ l'.copyreducefrom = [] := by
      rcases f4 with ⟨_, a, b, _⟩ | ⟨_, a, b, _⟩
      · exact ⟨a, by rw [b]; rfl⟩
      · exact ⟨by rw [a]; rfl, b⟩
    cases l; cases l'
    simp_all

/-- Blocks with results only. -/
def Plain (b : Block) : Prop := ∀ l ∈ b, l.recvfrom = [] ∧ l.reducefrom = [] ∧ l.copyreducefrom = [] ∧ ∀ e ∈ l.sendto, e.1 = -1

theorem plain_local {V : Type} [Add V] (b : Block) (h : Plain b) (v : Nat → V) : copyReduceAll b (reduceAll b v) = v := by
  have h1 : ∀ v : Nat → V, reduceAll b v = v := by
    intro v
    funext x
    obtain ⟨a1, a2⟩ := reduceAll_at b v (fun i l hl r hr => by rw [(h l (List.mem_of_getElem? hl)).2.1] at hr; cases hr)
    by_cases hx : x < b.length
    · rw [a2 x b[x] (List.getElem?_eq_getElem hx), (h _ (List.getElem_mem hx)).2.1]
      rfl
    · exact a1 x (by omega)
  rw [h1]
  funext x
  obtain ⟨a1, a2⟩ := copyReduceAll_at b v (fun i l hl r hr => by rw [(h l (List.mem_of_getElem? hl)).2.2.1] at hr; cases hr)
  by_cases hx : x < b.length
  · rw [a2 x b[x] (List.getElem?_eq_getElem hx), (h _ (List.getElem_mem hx)).2.2.1]
  · exact a1 x (by omega)

theorem plain_step {V : Type} [Add V] (N : Nat) (row : Row) (h : ∀ t < N, Plain (row t)) (s : Nat → Nat → V) (t : Nat) (ht : t < N)
    (w : Nat → V) (hs : nodeStep N row s t = some w) : w = s t := by
  unfold nodeStep at hs
  obtain ⟨_, hs⟩ := Option.ite_none_right_eq_some.1 hs
  obtain ⟨u, hu, rfl⟩ := Option.map_eq_some_iff.mp hs
  rw [plain_local _ (h t ht)]
  unfold recvAll at hu
  have hrec : ∀ q, recvIdx (row t) q = [] := fun q => (no_recv _ (fun l hl => (h t ht l hl).1) q).1
  funext j
  exact (recv_value row t s _ (fun q _ => ⟨0, by rw [hrec q]; rfl⟩) (fun q _ => by unfold reduces; rw [hrec q]; rfl) (s t) u hu j).1
    (fun q _ _ hc => by rw [hrec q] at hc; cases hc)

theorem plain_stepD {V : Type} [Add V] (N : Nat) (row : Row) (h : ∀ t < N, Plain (row t)) (sd rd s : Nat → Nat → V) (t : Nat) (ht : t < N) :
    nodeStepD N row sd rd s t = some (s t) := by
  unfold nodeStepD
  have hr := fun q => no_recv _ (fun l hl => (h t ht l hl).1) q
  have hb : ∀ qs : List Nat, (∀ q ∈ qs, q < N) → allBufs (row t) t (fun q => messageD (row q) (s q) t (sd q)) qs = some [] := by
    intro qs
    induction qs with
    | nil => intro _; rfl
    | cons q qs ih =>
      intro hq
      have ih := ih fun q' hq' => hq q' (List.mem_cons_of_mem _ hq')
      have hm : messageD (row q) (s q) t (sd q) = [] := by
        unfold messageD
        rw [(no_send _ (fun l hl => (h q (hq q List.mem_cons_self) l hl).2.2.2) t).2]
        rfl
      rw [allBufs]
      split
      · exact ih
      · rw [hm, ih]
        unfold bufsOf
        rw [(hr q).1, (hr q).2.1]
        rfl
  have hu : ∀ (qs : List Nat) (v : Nat → V), unpackAll (row t) t rd qs [] v = some v := by
    intro qs
    induction qs with
    | nil => intro v; rfl
    | cons q qs ih =>
      intro v
      rw [unpackAll_skip _ _ _ _ _ _ _ (Or.inr (hr q).2.2)]
      exact ih v
  rw [hb _ fun q hq => (Rooted.mem_order N t q ht).mp hq]
  dsimp only
  rw [hu, Option.map_some, plain_local _ (h t ht)]

/-- The rows after block 0. The marks of the results do not depend on the data. -/
theorem rows_forward (N : Nat) (rows : List Row) :
    ∀ (len : Nat → Nat) (clean : Nat → Nat → Bool) (prev : Nat → Marks) (rows' : List Row) (vfin : Nat → Marks),
    FRows N len clean rows → forwardRows N prev rows = some (rows', vfin) → Unmixed N rows' → Ordered N rows' →
    (∀ t < N, (prev t).length = len t) →
    ∃ (p : Nat → Marks) (cl : Nat → Nat → Bool) (last last' : Row), rows.getLast? = some last ∧ rows'.getLast? = some last' ∧
      (∀ t < N, last' t = last t) ∧ FLast N cl last ∧
      ∀ (V : Type) [AddMonoid V] (c : Nat → List Block) (s s' send : Nat → Nat → V), (∀ t < N, c t = rows.map fun r => r t) →
        Inv N clean prev s s' → Run N c s send →
        (∃ send', RunD N rows' s' send') ∧ ∀ send', RunD N rows' s' send' → Inv N cl p send send' := by
  induction rows with
  | nil => intro len clean prev rows' vfin h; cases h
  | cons row rows ih =>
    intro len clean prev rows' vfin hw hf hu hO hlen
    -- one step of the original
    have first : ∀ (V : Type) [AddMonoid V] (c : Nat → List Block) (s send : Nat → Nat → V) (_ : 0 < N),
        (∀ t < N, c t = (row :: rows).map fun r => r t) → Run N c s send →
        ∃ (s1 : Nat → Nat → V) (tl : Nat → List Block), (∀ t < N, nodeStep N row s t = some (s1 t)) ∧
          (∀ t < N, tl t = rows.map fun r => r t) ∧ Run N tl s1 send := by
      intro V _ c s send hN hc hrun
      cases hrun with
      | done h0 =>
        have := h0 0 hN
        rw [hc 0 hN] at this
        cases this
      | step hd tl s1 hhd hst hrest =>
        have hhd2 : ∀ t < N, hd t = row t ∧ tl t = rows.map fun r => r t := by
          intro t ht
          have := hhd t ht
          rw [hc t ht, List.map_cons] at this
          exact ⟨(List.cons.inj this).1.symm, (List.cons.inj this).2.symm⟩
        refine ⟨s1, tl, ?_, fun t ht => (hhd2 t ht).2, hrest⟩
        intro t ht
        rw [← hst t ht]
        exact (nodeStep_congr N hd row s s t ht (fun q hq => (hhd2 q hq).1) fun _ _ => rfl).symm
    cases rows with
    | nil =>
      unfold FRows at hw
      unfold forwardRows at hf
      simp only [Option.some.injEq, Prod.mk.injEq] at hf
      obtain ⟨rfl, _⟩ := hf
      have hsame : ∀ t < N, (finish (carry (prev t) [] (row t)) (row t)).1 = row t := fun t ht => finish_plain _ _ (hw.plain t ht)
      refine ⟨prev, clean, row, _, rfl, rfl, hsame, hw, ?_⟩
      intro V _ c s s' send hc hinv hrun
      have hstep : ∀ (sd rd : Nat → Nat → V) t, t < N →
          nodeStepD N (fun t => (finish (carry (prev t) [] (row t)) (row t)).1) sd rd s' t = some (s' t) :=
        fun sd rd t ht => plain_stepD N _ (fun t ht => by rw [hsame t ht]; exact hw.plain t ht) sd rd s' t ht
      refine ⟨⟨s', RunD.step s' (fun _ => s') (fun _ => s') (fun t ht => hstep _ _ t ht) RunD.done⟩, ?_⟩
      intro send' hr t ht j hj
      obtain ⟨s1, tl, h1, h2, h3⟩ := first V c s send (by omega) hc hrun
      have hsend : send = s1 := by
        cases h3 with
        | done _ => rfl
        | step hd2 tl2 s2 h4 _ _ =>
          have := h4 t ht
          rw [h2 t ht] at this
          cases this
      subst hsend
      cases hr with
      | step s1' sd rd hs1 hr2 =>
        cases hr2 with
        | done =>
          have e1 := hs1 t ht
          rw [hstep _ _ t ht, Option.some.injEq] at e1
          rw [← e1, plain_step N row hw.plain s t ht _ (h1 t ht)]
          exact hinv t ht j hj
    | cons next rest =>
      unfold FRows at hw
      obtain ⟨hm, hw2⟩ := hw
      rw [forwardRows] at hf
      split at hf
      · rename_i hex
        dsimp only at hf
        cases hfn : forwardRows N (fun t => (finish (exchangeF row (fun t => carry (prev t) [] (row t)) t) (row t)).2) (next :: rest) with
        | none => rw [hfn] at hf; cases hf
        | some pr =>
          obtain ⟨rn, vn⟩ := pr
          rw [hfn] at hf
          simp only [Option.some.injEq, Prod.mk.injEq] at hf
          obtain ⟨rfl, _⟩ := hf
          obtain ⟨p, cl, last, last', k1, k2, k3, k4, k5⟩ := ih _ _ _ rn vn hw2 hfn (fun r hr => hu r (List.mem_cons_of_mem _ hr))
            (fun r hr => hO r (List.mem_cons_of_mem _ hr)) (fun t ht => (finish_line _ (row t) (hm.nocopy t ht)).2.1)
          refine ⟨p, cl, last, last', by simpa using k1, ?_, k3, k4, ?_⟩
          · cases rn with
            | nil => cases k2
            | cons a l => simpa using k2
          · intro V _ c s s' send hc hinv hrun
            by_cases hN : 0 < N
            · obtain ⟨s1, tl, h1, h2, h3⟩ := first V c s send hN hc hrun
              have key : ∀ t < N, ∀ (sd rd : Nat → Nat → V), ∃ w', nodeStepD N (newRow prev row) sd rd s' t = some w' ∧
                  ∀ j, cleanAfter len clean row t j = true →
                    (val (finish (after prev row t) (row t)).2 j ≠ 0 → s1 t j = w' j) ∧
                    (val (finish (after prev row t) (row t)).2 j = 0 → s1 t j = 0) :=
                fun t ht sd rd => forward_step N row prev len clean hm hex hlen (hu _ List.mem_cons_self) (hO _ List.mem_cons_self)
                  s s' hinv t ht sd rd (s1 t) (h1 t ht)
              have hnext : ∀ (s1' : Nat → Nat → V), (∀ t < N, ∃ sd rd, nodeStepD N (newRow prev row) sd rd s' t = some (s1' t)) →
                  Inv N (cleanAfter len clean row) (fun t => (finish (after prev row t) (row t)).2) s1 s1' := by
                intro s1' h t ht
                obtain ⟨sd, rd, e⟩ := h t ht
                obtain ⟨w', e1, e2⟩ := key t ht sd rd
                rw [e, Option.some.injEq] at e1
                subst e1
                exact e2
              constructor
              · have hch : ∀ t < N, nodeStepD N (newRow prev row) s' s' s' t =
                    some ((fun t => if ht : t < N then (key t ht s' s').choose else s' t) t) := by
                  intro t ht
                  dsimp only
                  rw [dif_pos ht]
                  exact (key t ht s' s').choose_spec.1
                obtain ⟨⟨send', hs'⟩, _⟩ := k5 V tl s1 _ send h2 (hnext _ fun t ht => ⟨s', s', hch t ht⟩) h3
                exact ⟨send', RunD.step _ (fun _ => s') (fun _ => s') hch hs'⟩
              · intro send' hr
                cases hr with
                | step s1' sd rd hs1 hr2 =>
                  exact (k5 V tl s1 s1' send h2 (hnext s1' fun t ht => ⟨sd t, rd t, hs1 t ht⟩) h3).2 send' hr2
            · have hN0 : ∀ t, ¬ t < N := fun t ht => hN (by omega)
              refine ⟨?_, fun _ _ t ht => absurd ht (hN0 t)⟩
              have : ∀ rs : List Row, RunD N rs s' s' := by
                intro rs
                induction rs with
                | nil => exact RunD.done
                | cons r rs ih => exact RunD.step s' (fun _ => s') (fun _ => s') (fun t ht => absurd ht (hN0 t)) ih
              exact ⟨s', this _⟩
      · cases hf

end ExtMpi.Forward
