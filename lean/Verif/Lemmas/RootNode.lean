import Verif.Lemmas.Rooted
import Verif.Spec.RootNode
import Verif.Spec.Rooted
import Mathlib.Tactic.ByContra
/-! Schedules in which no message is left. -/
namespace ExtMpi.RootNode
open Schedule Rooted Forward

/-- No node sends anything to another one. -/
def Silent (N : Nat) (row : Row) : Prop := ∀ q < N, ∀ l ∈ row q, ∀ e ∈ l.sendto, e.1 < 0

theorem silent_idx {N : Nat} {row : Row} (h : Silent N row) {q : Nat} (hq : q < N) (t : Nat) : sendIdx (row q) t = [] := by
  unfold sendIdx
  rw [List.flatMap_eq_nil_iff]
  intro x hx
  rw [List.map_eq_nil_iff, List.filter_eq_nil_iff]
  intro e he hc
  have hl : x.1 ∈ row q := by
    obtain ⟨l, i⟩ := x
    exact List.mem_of_getElem? (List.mem_zipIdx_iff_getElem?.1 hx)
  have := h q hq _ hl e he
  have hc' : e.1 = (t : Int) := by simpa using hc
  omega

section
variable {V : Type} [Add V]

theorem allBufs_congr (b : Block) (node : Nat) (m m' : Nat → List (Option Nat × V)) (qs : List Nat) (h : ∀ q ∈ qs, m q = m' q) :
    allBufs b node m qs = allBufs b node m' qs := by
  induction qs with
  | nil => rfl
  | cons q qs ih =>
    rw [allBufs, allBufs, ih fun x hx => h x (by simp [hx]), h q (by simp)]

theorem unpack_some (b : Block) (node q : Nat) (buf : Nat → Option V) (dirt v v' : Nat → V) :
    (unpack b node q buf dirt v).isSome = (unpack b node q buf dirt v').isSome := by
  unfold unpack
  split
  · rfl
  · split <;> rfl

theorem unpackAll_some (b : Block) (node : Nat) (dirt : Nat → Nat → V) (qs : List Nat) (bufs : List (Nat → Option V))
    (v v' : Nat → V) : (unpackAll b node dirt qs bufs v).isSome = (unpackAll b node dirt qs bufs v').isSome := by
  induction qs generalizing bufs v v' with
  | nil => cases bufs <;> rfl
  | cons q qs ih =>
    cases bufs with
    | nil =>
      simp only [unpackAll]
      split
      · exact ih _ v v'
      · rfl
    | cons c cs =>
      simp only [unpackAll]
      split
      · exact ih _ v v'
      · have := unpack_some b node q c (dirt q) v v'
        cases h1 : unpack b node q c (dirt q) v <;> cases h2 : unpack b node q c (dirt q) v' <;> rw [h1, h2] at this <;>
          first | rfl | exact ih _ _ _ | cases this

theorem order_lt {N t q : Nat} (h : q ∈ order N t) : q < N := by
  unfold order at h
  obtain ⟨o, ho, rfl⟩ := List.mem_map.1 h
  exact Nat.mod_lt _ (by have := List.mem_range.1 ho; omega)

theorem bufs_silent {N : Nat} {row : Row} (h : Silent N row) (t : Nat) (sd s σ : Nat → Nat → V) :
    allBufs (row t) t (fun q => messageD (row q) (s q) t (sd q)) (order N t) =
      allBufs (row t) t (fun q => messageD (row q) (σ q) t (sd q)) (order N t) := by
  apply allBufs_congr
  intro q hq
  unfold messageD
  rw [silent_idx h (order_lt hq)]
  rfl

/-- What a node does in a silent row depends on its own values only. -/
theorem step_silent {N : Nat} {row : Row} (h : Silent N row) (t : Nat) (sd rd s σ : Nat → Nat → V) :
    (nodeStepD N row sd rd s t).isSome = (nodeStepD N row sd rd σ t).isSome ∧
      (s t = σ t → nodeStepD N row sd rd s t = nodeStepD N row sd rd σ t) := by
  unfold nodeStepD
  rw [bufs_silent h t sd s σ]
  cases allBufs (row t) t (fun q => messageD (row q) (σ q) t (sd q)) (order N t) with
  | none => exact ⟨rfl, fun _ => rfl⟩
  | some B =>
    simp only [Option.isSome_map]
    exact ⟨unpackAll_some _ _ _ _ _ _ _, fun he => by rw [he]⟩

theorem run_silent {N : Nat} {rows : List Row} {s s' : Nat → Nat → V} (hr : RunD N rows s s') (h : ∀ row ∈ rows, Silent N row)
    (σ : Nat → Nat → V) : ∃ σ', RunD N rows σ σ' ∧ ∀ t < N, s t = σ t → s' t = σ' t := by
  induction hr generalizing σ with
  | done => exact ⟨σ, .done, fun _ _ he => he⟩
  | @step row rows s s'' s1 sd rd h1 _ ih =>
    have hsil := h row (by simp)
    have hex : ∀ t, ∃ v, t < N → nodeStepD N row (sd t) (rd t) σ t = some v := by
      intro t
      by_cases ht : t < N
      · have := (step_silent hsil t (sd t) (rd t) s σ).1
        rw [h1 t ht] at this
        obtain ⟨v, hv⟩ := Option.isSome_iff_exists.1 this.symm
        exact ⟨v, fun _ => hv⟩
      · exact ⟨σ t, fun hc => absurd hc ht⟩
    choose σ1 hσ1 using hex
    obtain ⟨σ', k1, k2⟩ := ih (fun r hr => h r (by simp [hr])) σ1
    refine ⟨σ', .step σ1 sd rd (fun t ht => hσ1 t ht) k1, ?_⟩
    intro t ht he
    apply k2 t ht
    have := (step_silent hsil t (sd t) (rd t) s σ).2 he
    rw [h1 t ht, hσ1 t ht] at this
    injection this

/-- The output of a node does not depend on the input of other nodes. -/
theorem exec_silent {O : Type} {N : Nat} {co : Block → (Nat → V) → O} {rows : List Row} (h : ∀ row ∈ rows.tail, Silent N row)
    {inp junk : Nat → Nat → V} {out : Nat → O} (hx : ExecD N co rows inp junk out) (inp' : Nat → Nat → V) :
    ∃ out', ExecD N co rows inp' junk out' ∧ ∀ t < N, inp t = inp' t → out' t = out t := by
  obtain ⟨r0, rs, last, s', rfl, h2, h3, h4⟩ := hx
  obtain ⟨σ', k1, k2⟩ := run_silent h3 h (fun t => copyIn (r0 t) (inp' t) (junk t))
  refine ⟨fun t => co (last t) (σ' t), ⟨r0, rs, last, σ', rfl, h2, k1, fun _ _ => rfl⟩, ?_⟩
  intro t ht he
  rw [h4 t ht]
  dsimp only
  rw [k2 t ht (by rw [he])]

/-- Only the node that copies in can have data of the root. -/
theorem execF_silent {O : Type} {N root : Nat} {co : Block → (Nat → V) → O} {rows : List Row} (h : ∀ row ∈ rows.tail, Silent N row)
    {inp : Nat → V} {junk : Nat → Nat → V} {out : Nat → O} (hx : ExecF N root co rows inp junk out) (inp' : Nat → V) :
    ∃ out', ExecF N root co rows inp' junk out' ∧ ∀ t < N, t ≠ root → out' t = out t := by
  obtain ⟨r0, rs, last, s', rfl, h2, h3, h4⟩ := hx
  obtain ⟨σ', k1, k2⟩ := run_silent h3 h (fun t => copyInRoot N root t inp' (junk t))
  refine ⟨fun t => co (last t) (σ' t), ⟨r0, rs, last, σ', rfl, h2, k1, fun _ _ => rfl⟩, ?_⟩
  intro t ht he
  rw [h4 t ht]
  dsimp only
  rw [k2 t ht]
  funext n
  unfold copyInRoot
  rw [if_neg (by simp [he]), if_neg (by simp [he])]
end

/-! ### A root that is no node -/

def NoNeed (v : Vals) : Prop := ∀ j, need v j = false

theorem mark_none (b : Block) (v : Vals) (h : NoNeed v) : descend b v = v := by
  unfold descend
  generalize (List.range b.length).reverse = js
  induction js with
  | nil => rfl
  | cons j js ih =>
    rw [List.foldl_cons]
    have : markLine b v j = v := by
      unfold markLine
      split
      · rw [h j]; rfl
      · rfl
    rw [this]
    exact ih

theorem inherit_none (b : Block) (v : Vals) (h : NoNeed v) : NoNeed (inherit b v) := by
  intro j
  unfold need inherit
  rw [List.getElem?_map]
  cases hj : (List.range b.length)[j]? with
  | none => rfl
  | some x => simp [h x]

theorem seed_none (root t : Nat) (b : Block) (h : t ≠ root) : NoNeed (seed root t b) := by
  intro j
  unfold need seed
  rw [List.getElem?_map]
  cases b[j]? with
  | none => rfl
  | some x => simp [h]

theorem ok_sends {N : Nat} {row : Row} (h : exchangeOk N row = true) {t : Nat} (ht : t < N) {l : LineD} (hl : l ∈ row t) :
    (∀ e ∈ l.sendto, 0 ≤ e.1 ∧ e.1 < N) ∧ ∀ e ∈ l.recvfrom, 0 ≤ e.1 ∧ e.1 < N := by
  unfold exchangeOk at h
  have h1 := List.all_eq_true.1 h t (List.mem_range.2 ht)
  rw [Bool.and_eq_true] at h1
  have h2 := List.all_eq_true.1 h1.1 l hl
  rw [Bool.and_eq_true] at h2
  refine ⟨fun e he => ?_, fun e he => ?_⟩
  · have := of_decide_eq_true (List.all_eq_true.1 h2.1 e he)
    exact ⟨this.1, this.2.1⟩
  · have := of_decide_eq_true (List.all_eq_true.1 h2.2 e he)
    exact ⟨this.1, this.2.1⟩

theorem wanted_none {N : Nat} {row : Row} {v : Nat → Vals} (h : ∀ t < N, NoNeed (v t)) (t : Nat) {q : Int} (hq : 0 ≤ q ∧ q < N)
    (j : Nat) : wanted row v t q j = false := by
  unfold wanted
  split
  · exact h _ (by omega) _
  · rfl

theorem dropLine_sendto (v : Vals) (j : Nat) (l : LineD) : (dropLine v j l).sendto = l.sendto := by
  unfold dropLine
  split <;> rfl

/-- Rows after the pass if the root is no node: nothing is sent. -/
theorem prune_silent {N root : Nat} (hroot : N ≤ root) (rows : List Row) (prev top : Nat → Nat) (rows' : List Row) (v : Nat → Vals)
    (hw : SoundRows N root prev top rows) (hp : prune N root false rows = some (rows', v)) :
    (∀ row ∈ rows', Silent N row) ∧ ∀ t < N, NoNeed (v t) := by
  induction rows generalizing prev top rows' v with
  | nil => cases hw
  | cons row rows ih =>
    cases rows with
    | nil =>
      rw [prune] at hp
      simp only [Option.some.injEq, Prod.mk.injEq] at hp
      obtain ⟨rfl, rfl⟩ := hp
      have hw : WfLast N prev top row := hw
      have hv : ∀ t < N, NoNeed (descend (row t) (seed root t (row t))) := by
        intro t ht
        have := seed_none root t (row t) (by omega)
        rw [mark_none _ _ this]
        exact this
      refine ⟨?_, hv⟩
      intro r hr q hq l hl e he
      rw [List.mem_singleton] at hr
      subst hr
      obtain ⟨j, hj⟩ := List.mem_iff_getElem?.1 hl
      unfold endBlock at hj
      rw [List.getElem?_mapIdx] at hj
      obtain ⟨l0, hl0, rfl⟩ := Option.map_eq_some_iff.1 hj
      rw [dropLine_sendto] at he
      have := hw.sends q hq l0 (List.mem_of_getElem? hl0) e he
      omega
    | cons next rows =>
      rw [prune] at hp
      cases hpn : prune N root false (next :: rows) with
      | none => rw [hpn] at hp; cases hp
      | some pr =>
        obtain ⟨rn, vn⟩ := pr
        rw [hpn] at hp
        simp only [Bool.false_eq_true, if_false] at hp
        obtain ⟨ih1, ih2⟩ := ih _ _ rn vn hw.2.2 hpn
        split at hp
        · rename_i hok
          simp only [Option.some.injEq, Prod.mk.injEq] at hp
          obtain ⟨rfl, rfl⟩ := hp
          have hd : ∀ t < N, NoNeed (descend (row t) (inherit (row t) (vn t))) := by
            intro t ht
            have := inherit_none (row t) _ (ih2 t ht)
            rw [mark_none _ _ this]
            exact this
          refine ⟨?_, ?_⟩
          · intro r hr
            rcases List.mem_cons.1 hr with rfl | hr
            · intro q hq l hl e he
              obtain ⟨j, hj⟩ := List.mem_iff_getElem?.1 hl
              unfold midBlock at hj
              rw [List.getElem?_mapIdx] at hj
              obtain ⟨l0, hl0, rfl⟩ := Option.map_eq_some_iff.1 hj
              rw [dropLine_sendto] at he
              unfold dropSends at he
              obtain ⟨e0, he0, rfl⟩ := List.mem_map.1 he
              have := (ok_sends hok hq (List.mem_of_getElem? hl0)).1 e0 he0
              rw [wanted_none hd q this]
              simp only [Bool.false_eq_true, if_false]
              omega
            · exact ih1 r hr
          · intro t ht j
            unfold need exchange
            rw [List.getElem?_mapIdx]
            cases hl : (row t)[j]? with
            | none => rfl
            | some l =>
              simp only [Option.map_some]
              have : (l.sendto.any fun e => wanted row (fun t => descend (row t) (inherit (row t) (vn t))) t e.1 j) = false := by
                rw [List.any_eq_false]
                intro e he
                rw [wanted_none hd t ((ok_sends hok ht (List.mem_of_getElem? hl)).1 e he)]
                simp
              rw [this, hd t ht j]
              rfl
        · cases hp

theorem toRank_sound {N rank : Nat} (h : N ≤ rank) {r0 : Row} {rs rows' : List Row} {prev top : Nat → Nat} (hw : SoundRows N rank prev top rs)
    (hp : toRank N rank (r0 :: rs) = some rows') : ∀ row ∈ rows'.tail, Silent N row := by
  unfold toRank at hp
  obtain ⟨⟨rr, v⟩, hp, rfl⟩ := Option.map_eq_some_iff.1 hp
  cases rs with
  | nil => cases hw
  | cons next rest =>
    rw [prune] at hp
    cases hpn : prune N rank false (next :: rest) with
    | none => rw [hpn] at hp; cases hp
    | some pr =>
      obtain ⟨rn, vn⟩ := pr
      rw [hpn] at hp
      simp only [if_true, Option.some.injEq, Prod.mk.injEq] at hp
      obtain ⟨rfl, rfl⟩ := hp
      exact (prune_silent h _ _ _ rn vn hw hpn).1

theorem toRank_silent {N rank : Nat} (h : N ≤ rank) {rows rows' : List Row} (hw : Wf N rows) (hp : toRank N rank rows = some rows') :
    ∀ row ∈ rows'.tail, Silent N row := by
  cases rows with
  | nil => cases hw
  | cons r0 rs => exact toRank_sound h (WfRows.sound rank rs hw) hp

/-! ### The same for broadcasts -/

def NoMark (v : Marks) : Prop := ∀ j, val v j = 0

theorem loop_sendto (v : Marks) (ls : Block) (i : Nat) : (reduceLoop v i ls).1.map (·.sendto) = ls.map (·.sendto) := by
  induction ls generalizing v i with
  | nil => rfl
  | cons l ls ih =>
    simp only [reduceLoop, List.map_cons, ih]
    congr 1
    unfold reduceF
    dsimp only
    split_ifs <;> rfl

theorem loop_none (v : Marks) (h : NoMark v) (ls : Block) (i : Nat) : NoMark (reduceLoop v i ls).2 := by
  induction ls generalizing v i with
  | nil => exact h
  | cons l ls ih =>
    rw [reduceLoop]
    refine ih _ ?_ _
    have hv : ∀ rs, valued v rs = [] := by
      intro rs
      unfold valued
      rw [List.filter_eq_nil_iff]
      intro r _
      simp [h r]
    have hx : (reduceF v i l).2 = 0 := by
      unfold reduceF
      simp only [h i, hv, if_true, ne_eq, not_true_eq_false, if_false]
    rw [hx]
    intro j
    have := h j
    unfold val at this ⊢
    rw [List.getElem?_set]
    by_cases hij : i = j
    · rw [if_pos hij]
      by_cases hl : i < List.length v
      · rw [if_pos hl]
      · rw [if_neg hl]
    · rw [if_neg hij]
      exact this

theorem settle_none (v : Marks) (h : NoMark v) (b : Block) : NoMark (settle v b) := by
  intro j
  unfold val settle
  rw [List.getElem?_mapIdx]
  cases b[j]? with
  | none => rfl
  | some l => simp [h j]

theorem finish_none (v : Marks) (h : NoMark v) (b : Block) : NoMark (finish v b).2 :=
  loop_none _ (settle_none v h b) _ _

theorem finish_sends (v : Marks) (b : Block) {l : LineD} (hl : l ∈ (finish v b).1) :
    ∃ j l0, b[j]? = some l0 ∧ l.sendto = (dropF v j l0).sendto := by
  have h1 : l.sendto ∈ (finish v b).1.map (·.sendto) := List.mem_map_of_mem hl
  unfold finish at h1
  rw [loop_sendto] at h1
  obtain ⟨l1, hl1, h2⟩ := List.mem_map.1 h1
  obtain ⟨j, hj⟩ := List.mem_iff_getElem?.1 hl1
  rw [List.getElem?_mapIdx] at hj
  obtain ⟨l0, hl0, rfl⟩ := Option.map_eq_some_iff.1 hj
  exact ⟨j, l0, hl0, h2.symm⟩

theorem drop_neg (e : Int × Int) : (drop e).1 < 0 := by
  unfold drop
  split
  · simp only; omega
  · omega

theorem forwardRows_silent {N : Nat} (rows : List Row) (pl top : Nat → Nat) (hw : WfRows N pl top rows) (prev : Nat → Marks)
    (hprev : ∀ t < N, NoMark (prev t)) (rows' : List Row) (v : Nat → Marks) (hp : forwardRows N prev rows = some (rows', v)) :
    ∀ row ∈ rows', Silent N row := by
  induction rows generalizing pl top prev rows' v with
  | nil => cases hw
  | cons row rows ih =>
    cases rows with
    | nil =>
      rw [forwardRows] at hp
      simp only [Option.some.injEq, Prod.mk.injEq] at hp
      obtain ⟨rfl, rfl⟩ := hp
      have hw : WfLast N pl top row := hw
      intro r hr q hq l hl e he
      rw [List.mem_singleton] at hr
      subst hr
      obtain ⟨j, l0, hl0, hs⟩ := finish_sends _ _ hl
      rw [hs] at he
      have h0 := hw.sends q hq l0 (List.mem_of_getElem? hl0)
      unfold dropF at he
      simp only at he
      split at he
      · obtain ⟨e0, _, rfl⟩ := List.mem_map.1 he
        exact drop_neg e0
      · have := h0 e he
        omega
    | cons next rows =>
      rw [forwardRows] at hp
      split at hp
      · rename_i hok
        simp only at hp
        split at hp
        · rename_i rn vn hpn
          simp only [Option.some.injEq, Prod.mk.injEq] at hp
          obtain ⟨rfl, rfl⟩ := hp
          have hc : ∀ t < N, NoMark (carry (prev t) [] (row t)) := by
            intro t ht j
            unfold val carry
            rw [List.getElem?_mapIdx]
            cases hl : (row t)[j]? with
            | none => rfl
            | some l =>
              simp only [Option.map_some]
              rw [if_neg, if_neg (by simp [hprev t ht j])]
              · rfl
              · intro hc
                cases hs : l.sendto with
                | nil => rw [hs] at hc; cases hc
                | cons e es =>
                  rw [hs] at hc
                  simp only [List.head?_cons, Option.map_some, Option.some.injEq] at hc
                  have := ((ok_sends hok ht (List.mem_of_getElem? hl)).1 e (by rw [hs]; simp)).1
                  omega
          have hx : ∀ t < N, NoMark (exchangeF row (fun t => carry (prev t) [] (row t)) t) := by
            intro t ht j
            unfold val exchangeF
            rw [List.getElem?_mapIdx]
            cases hl : (row t)[j]? with
            | none => rfl
            | some l =>
              simp only [Option.map_some]
              have hrecv := (ok_sends hok ht (List.mem_of_getElem? hl)).2
              have key : ∀ (es : List (Int × Int)), (∀ e ∈ es, 0 ≤ e.1 ∧ e.1 < N) →
                  es.foldl (fun x e => if incoming row (fun t => carry (prev t) [] (row t)) t e.1 j ≠ 0 then 2
                    else if l.reducefrom = [] ∧ l.copyreducefrom = [] then 0 else x) 0 = 0 := by
                intro es
                induction es with
                | nil => intro _; rfl
                | cons e es ih =>
                  intro he
                  rw [List.foldl_cons]
                  have hi : incoming row (fun t => carry (prev t) [] (row t)) t e.1 j = 0 := by
                    unfold incoming
                    split
                    · have := he e (by simp)
                      exact hc _ (by omega) _
                    · rfl
                  rw [hi]
                  simp only [ne_eq, not_true_eq_false, if_false, ite_self]
                  exact ih fun e' he' => he e' (by simp [he'])
              rw [hc t ht j]
              exact key _ hrecv
          intro r hr
          rcases List.mem_cons.1 hr with rfl | hr
          · intro q hq l hl e he
            obtain ⟨j, l0, hl0, hs⟩ := finish_sends _ _ hl
            rw [hs] at he
            unfold dropF at he
            simp only at he
            rw [if_pos (hx q hq j)] at he
            obtain ⟨e0, _, rfl⟩ := List.mem_map.1 he
            exact drop_neg e0
          · exact ih _ _ hw.2 _ (fun t ht => finish_none _ (hx t ht) _) rn vn hpn r hr
        · cases hp
      · cases hp

theorem fromRank_silent {N rank : Nat} (h : N ≤ rank) {rows rows' : List Row} (hw : Wf N rows)
    (h0 : ∀ r0 ∈ rows.head?, ∀ t < N, ∀ l ∈ r0 t, l.sendto = []) (hp : fromRank N rank rows = some rows') :
    ∀ row ∈ rows'.tail, Silent N row := by
  unfold fromRank at hp
  obtain ⟨⟨rr, v⟩, hp, rfl⟩ := Option.map_eq_some_iff.1 hp
  cases rows with
  | nil => cases hw
  | cons r0 rs =>
    rw [forward] at hp
    split at hp
    · rename_i rn vn hpn
      simp only [Option.some.injEq, Prod.mk.injEq] at hp
      obtain ⟨rfl, rfl⟩ := hp
      refine forwardRows_silent rs _ _ hw _ ?_ rn vn hpn
      intro t ht
      apply finish_none
      intro j
      unfold val carry
      rw [List.getElem?_mapIdx]
      unfold clearIn
      rw [List.getElem?_map]
      cases hl : (r0 t)[j]? with
      | none => rfl
      | some l =>
        have hs : l.sendto = [] := h0 r0 (by simp) t ht l (List.mem_of_getElem? hl)
        simp only [Option.map_some]
        rw [if_neg, if_neg (by simp [val])]
        · unfold val seedF
          rw [List.getElem?_map, hl]
          simp only [Option.map_some]
          rw [if_neg (by omega)]
        · split <;> simp [hs]
    · cases hp

end ExtMpi.RootNode
