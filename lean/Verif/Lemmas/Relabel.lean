import Verif.Lemmas.RankPerm
import Verif.Lemmas.Schedule
import Verif.Spec.Collective
/-! Execution of relabelled schedules. -/
namespace ExtMpi.RankPerm
open ExtMpi.Schedule

/-- `π` and `ρ` are inverse permutations of the nodes. -/
structure Inverse (N : Nat) (π ρ : Nat → Nat) : Prop where
  lt : ∀ t, t < N → π t < N
  lt' : ∀ t, t < N → ρ t < N
  left : ∀ t, t < N → ρ (π t) = t
  right : ∀ t, t < N → π (ρ t) = t

def rp (π : Nat → Nat) (e : Int × Int) : Int × Int := if e.1 ≥ 0 then ((π e.1.toNat : Nat), e.2) else e

def rl (π : Nat → Nat) (l : LineD) : LineD :=
  { l with frac := π l.frac, sendto := l.sendto.map (rp π), recvfrom := l.recvfrom.map (rp π) }

theorem mapM_some {α β : Type} (f : α → Option β) (g : α → β) (l : List α) (h : ∀ a, a ∈ l → f a = some (g a)) :
    l.mapM f = some (l.map g) := by
  induction l with
  | nil => rfl
  | cons a l ih =>
    rw [List.mapM_cons, h a List.mem_cons_self, ih fun x hx => h x (List.mem_cons_of_mem _ hx)]
    rfl

theorem relabelPartner_eq (N : Nat) (perm : List Nat) (π : Nat → Nat) (hp : ∀ t, t < N → perm[t]? = some (π t))
    (e : Int × Int) (he : e.1 < N) : relabelPartner perm e = some (rp π e) := by
  unfold relabelPartner rp
  by_cases h : e.1 ≥ 0
  · rw [if_pos h, if_pos h, hp _ (by omega)]
    rfl
  · rw [if_neg h, if_neg h]

theorem relabelLine_eq (N : Nat) (perm : List Nat) (π : Nat → Nat) (hp : ∀ t, t < N → perm[t]? = some (π t))
    (l : LineD) (hl : LineOk N l) : relabelLine perm l = some (rl π l) := by
  unfold relabelLine rl
  rw [hp _ hl.1, mapM_some _ (rp π) l.sendto fun e he => relabelPartner_eq N perm π hp e (hl.2.1 e he),
    mapM_some _ (rp π) l.recvfrom fun e he => relabelPartner_eq N perm π hp e (hl.2.2 e he)]
  rfl

theorem relabel_eq (N : Nat) (perm : List Nat) (π : Nat → Nat) (hp : ∀ t, t < N → perm[t]? = some (π t))
    (a : List Block) (ha : ∀ b, b ∈ a → ∀ l, l ∈ b → LineOk N l) :
    relabel perm a = some (a.map fun b => b.map (rl π)) := by
  unfold relabel
  apply mapM_some
  intro b hb
  exact mapM_some _ (rl π) b fun l hl => relabelLine_eq N perm π hp l (ha b hb l hl)

theorem rp_eq (N : Nat) (π ρ : Nat → Nat) (hi : Inverse N π ρ) (e : Int × Int) (he : e.1 < N) (q : Nat) (hq : q < N) :
    ((rp π e).1 == ((π q : Nat) : Int)) = (e.1 == (q : Int)) := by
  unfold rp
  by_cases h : e.1 ≥ 0
  · rw [if_pos h]
    rw [Bool.eq_iff_iff, beq_iff_eq, beq_iff_eq]
    constructor
    · intro heq
      have h1 : π e.1.toNat = π q := by simp only at heq; omega
      have h2 := congrArg ρ h1
      rw [hi.left _ (by omega), hi.left _ hq] at h2
      omega
    · intro heq
      rw [heq]
      rfl
  · rw [if_neg h]
    rw [Bool.eq_iff_iff, beq_iff_eq, beq_iff_eq]
    omega

theorem rp_neg (π : Nat → Nat) (e : Int × Int) : ((rp π e).1 == (-1 : Int)) = (e.1 == (-1 : Int)) := by
  unfold rp
  by_cases h : e.1 ≥ 0
  · rw [if_pos h]
    rw [Bool.eq_iff_iff, beq_iff_eq, beq_iff_eq]
    simp only
    omega
  · rw [if_neg h]

variable {N : Nat} {π ρ : Nat → Nat}

theorem fracOf_rl (b : Block) (n : Nat) : fracOf (b.map (rl π)) n = (fracOf b n).map π := by
  unfold fracOf
  rw [List.getElem?_map]
  cases b[n]? <;> rfl

theorem sendIdx_rl (hi : Inverse N π ρ) (b : Block) (hb : ∀ l, l ∈ b → LineOk N l) (q : Nat) (hq : q < N) :
    sendIdx (b.map (rl π)) (π q) = sendIdx b q := by
  unfold sendIdx
  rw [List.zipIdx_map, List.flatMap_map]
  apply List.flatMap_congr
  intro x hx
  have hl := hb x.1 (by
    rw [List.mem_zipIdx_iff_getElem?] at hx
    exact List.mem_of_getElem? hx)
  show ((x.1.sendto.map (rp π)).filter fun e => e.1 == ((π q : Nat) : Int)).map _ = _
  rw [List.filter_map, List.map_map]
  have : x.1.sendto.filter ((fun e => e.1 == ((π q : Nat) : Int)) ∘ rp π) = x.1.sendto.filter fun e => e.1 == (q : Int) := by
    apply List.filter_congr
    intro e he
    exact rp_eq N π ρ hi e (hl.2.1 e he) q hq
  rw [this]
  rfl

theorem recvIdx_rl (hi : Inverse N π ρ) (b : Block) (hb : ∀ l, l ∈ b → LineOk N l) (q : Nat) (hq : q < N) :
    recvIdx (b.map (rl π)) (π q) = recvIdx b q := by
  unfold recvIdx
  rw [List.zipIdx_map, List.filter_map, List.map_map]
  have : b.zipIdx.filter ((fun x => x.1.recvfrom.any fun e => e.1 == ((π q : Nat) : Int)) ∘ Prod.map (rl π) id) =
      b.zipIdx.filter fun x => x.1.recvfrom.any fun e => e.1 == (q : Int) := by
    apply List.filter_congr
    intro x hx
    have hl := hb x.1 (by
      rw [List.mem_zipIdx_iff_getElem?] at hx
      exact List.mem_of_getElem? hx)
    show ((x.1.recvfrom.map (rp π)).any fun e => e.1 == ((π q : Nat) : Int)) = _
    rw [List.any_map, Bool.eq_iff_iff, List.any_eq_true, List.any_eq_true]
    constructor
    · rintro ⟨e, he, h⟩
      exact ⟨e, he, by rw [← rp_eq N π ρ hi e (hl.2.2 e he) q hq]; exact h⟩
    · rintro ⟨e, he, h⟩
      refine ⟨e, he, ?_⟩
      show ((rp π e).1 == ((π q : Nat) : Int)) = true
      rw [rp_eq N π ρ hi e (hl.2.2 e he) q hq]; exact h
  rw [this]
  rfl

theorem message_rl {V : Type} (hi : Inverse N π ρ) (b : Block) (hb : ∀ l, l ∈ b → LineOk N l) (v : Nat → V) (q : Nat)
    (hq : q < N) : message (b.map (rl π)) v (π q) = (message b v q).map fun x => (x.1.map π, x.2) := by
  unfold message
  rw [sendIdx_rl hi b hb q hq, List.map_map]
  apply List.map_congr_left
  intro n _
  rw [fracOf_rl]
  rfl

theorem reduces_rl (hi : Inverse N π ρ) (b : Block) (hb : ∀ l, l ∈ b → LineOk N l) (t q : Nat) (ht : t < N) (hq : q < N) :
    reduces (b.map (rl π)) (π t) (π q) = reduces b t q := by
  unfold reduces
  rw [recvIdx_rl hi b hb q hq]
  cases (recvIdx b q).getLast? with
  | none => rfl
  | some k =>
    simp only
    rw [List.getElem?_map]
    cases hk : b[k]? with
    | none => rfl
    | some l =>
      have hl := hb l (List.mem_of_getElem? hk)
      show ((l.recvfrom.map (rp π)).head?.map (fun e => e.1) == _) = (l.recvfrom.head?.map (fun e => e.1) == _)
      cases hr : l.recvfrom with
      | nil => rfl
      | cons e es =>
        have := rp_eq N π ρ hi e (hl.2.2 e (by rw [hr]; simp)) t ht
        rw [Bool.eq_iff_iff] at this ⊢
        simp only [beq_iff_eq, List.map_cons, List.head?_cons, Option.map_some, Option.some.injEq] at this ⊢
        exact this

theorem map_pi_inj (hi : Inverse N π ρ) (l1 l2 : List (Option Nat)) (h1 : ∀ f, some f ∈ l1 → f < N)
    (h2 : ∀ f, some f ∈ l2 → f < N) : l1.map (Option.map π) = l2.map (Option.map π) ↔ l1 = l2 := by
  have key : ∀ l : List (Option Nat), (∀ f, some f ∈ l → f < N) → (l.map (Option.map π)).map (Option.map ρ) = l := by
    intro l h
    rw [List.map_map]
    conv => rhs; rw [← List.map_id l]
    apply List.map_congr_left
    intro o ho
    cases o with
    | none => rfl
    | some f => exact congrArg some (hi.left f (h f ho))
  constructor
  · intro h
    rw [← key l1 h1, ← key l2 h2, h]
  · intro h; rw [h]

theorem fracOf_lt (b : Block) (hb : ∀ l, l ∈ b → LineOk N l) (n f : Nat) (h : fracOf b n = some f) : f < N := by
  unfold fracOf at h
  cases hk : b[n]? with
  | none => rw [hk] at h; cases h
  | some l =>
    rw [hk] at h
    cases h
    exact (hb l (List.mem_of_getElem? hk)).1

theorem deliver_rl {V : Type} [Add V] (hi : Inverse N π ρ) (b bq : Block) (hb : ∀ l, l ∈ b → LineOk N l)
    (hbq : ∀ l, l ∈ bq → LineOk N l) (t q : Nat) (ht : t < N) (hq : q < N) (w v : Nat → V) :
    deliver (b.map (rl π)) (π t) (π q) (message (bq.map (rl π)) w (π t)) v = deliver b t q (message bq w t) v := by
  unfold deliver
  rw [recvIdx_rl hi b hb q hq, reduces_rl hi b hb t q ht hq, message_rl hi bq hbq w t ht]
  cases recvIdx b q with
  | nil => simp
  | cons n0 ns =>
    simp only
    have hc : ((message bq w t).map fun x => (x.1.map π, x.2)).map Prod.fst =
        (List.range' n0 (ns.length + 1)).map (fracOf (b.map (rl π))) ↔
        (message bq w t).map Prod.fst = (List.range' n0 (ns.length + 1)).map (fracOf b) := by
      rw [← map_pi_inj hi ((message bq w t).map Prod.fst) ((List.range' n0 (ns.length + 1)).map (fracOf b))]
      · rw [List.map_map, List.map_map, List.map_map]
        have e : (List.range' n0 (ns.length + 1)).map (fracOf (b.map (rl π))) =
            (List.range' n0 (ns.length + 1)).map (Option.map π ∘ fracOf b) :=
          List.map_congr_left fun n _ => fracOf_rl b n
        rw [e]
        rfl
      · intro f hf
        obtain ⟨x, hx, hxf⟩ := List.mem_map.1 hf
        obtain ⟨n, _, rfl⟩ := List.mem_map.1 hx
        exact fracOf_lt bq hbq n f hxf
      · intro f hf
        obtain ⟨n, _, hnf⟩ := List.mem_map.1 hf
        exact fracOf_lt b hb n f hnf
    refine if_congr (and_congr Iff.rfl hc) ?_ rfl
    congr 1
    funext n
    by_cases hn : n0 ≤ n
    · simp only [if_pos hn, List.getElem?_map]
      cases (message bq w t)[n - n0]? <;> rfl
    · simp only [if_neg hn]

/-! ## Order of unpacking -/

theorem foldlM_perm {V : Type} (f : V → Nat → Option V) (l l' : List Nat) (h : l.Perm l')
    (hc : ∀ a, a ∈ l → ∀ b, b ∈ l → ∀ v, (f v a).bind (fun v => f v b) = (f v b).bind (fun v => f v a)) (v : V) :
    l.foldlM f v = l'.foldlM f v := by
  induction h generalizing v with
  | nil => rfl
  | cons a _ ih =>
    rw [List.foldlM_cons, List.foldlM_cons]
    congr 1
    funext v'
    exact ih (fun a ha b hb => hc a (List.mem_cons_of_mem _ ha) b (List.mem_cons_of_mem _ hb)) v'
  | swap a b l =>
    have := hc b (by simp) a (by simp) v
    simp only [List.foldlM_cons]
    show (f v b).bind (fun v => (f v a).bind fun v => l.foldlM f v) = (f v a).bind (fun v => (f v b).bind fun v => l.foldlM f v)
    rw [← Option.bind_assoc, this, Option.bind_assoc]
  | trans h1 _ ih1 ih2 =>
    rw [ih1 hc, ih2]
    intro a ha b hb
    exact hc a (h1.mem_iff.2 ha) b (h1.mem_iff.2 hb)

theorem deliver_comm {V : Type} [AddCommSemigroup V] (b : Block) (t q r : Nat) (hs : ∀ n, Covers b q n → Covers b r n →
      reduces b t q = true ∧ reduces b t r = true) (mq mr : List (Option Nat × V)) (v : Nat → V) :
    (deliver b t q mq v).bind (fun v => deliver b t r mr v) = (deliver b t r mr v).bind (fun v => deliver b t q mq v) := by
  unfold deliver
  cases hq : recvIdx b q with
  | nil =>
    simp only
    by_cases h1 : mq.isEmpty = true
    · simp only [if_pos h1, Option.bind_some, Option.bind_fun_some]
    · simp only [if_neg h1, Option.bind_none, Option.bind_fun_none]
  | cons n0 ns =>
    cases hr : recvIdx b r with
    | nil =>
      simp only
      by_cases h1 : mr.isEmpty = true
      · simp only [if_pos h1, Option.bind_some, Option.bind_fun_some]
      · simp only [if_neg h1, Option.bind_none, Option.bind_fun_none]
    | cons k0 ks =>
      simp only
      by_cases h1 : n0 :: ns = List.range' n0 (ns.length + 1) ∧
          mq.map Prod.fst = (List.range' n0 (ns.length + 1)).map (fracOf b)
      · by_cases h2 : k0 :: ks = List.range' k0 (ks.length + 1) ∧
            mr.map Prod.fst = (List.range' k0 (ks.length + 1)).map (fracOf b)
        · simp only [if_pos h1, if_pos h2, Option.bind_some]
          congr 1
          funext n
          have l1 : mq.length = ns.length + 1 := by simpa using congrArg List.length h1.2
          have l2 : mr.length = ks.length + 1 := by simpa using congrArg List.length h2.2
          cases e1 : (if n0 ≤ n then mq[n - n0]? else none) with
          | none => rfl
          | some x =>
            cases e2 : (if k0 ≤ n then mr[n - k0]? else none) with
            | none => rfl
            | some y =>
              have c1 : Covers b q n := by
                by_cases hn : n0 ≤ n
                · rw [if_pos hn] at e1
                  have := (List.getElem?_eq_some_iff.1 e1).1
                  exact ⟨n0, ns, hq, hn, by omega⟩
                · rw [if_neg hn] at e1; cases e1
              have c2 : Covers b r n := by
                by_cases hn : k0 ≤ n
                · rw [if_pos hn] at e2
                  have := (List.getElem?_eq_some_iff.1 e2).1
                  exact ⟨k0, ks, hr, hn, by omega⟩
                · rw [if_neg hn] at e2; cases e2
              obtain ⟨r1, r2⟩ := hs n c1 c2
              simp only [r1, r2, if_true]
              exact add_right_comm _ _ _
        · simp only [if_neg h2, Option.bind_none, Option.bind_fun_none]
      · simp only [if_neg h1, Option.bind_none, Option.bind_fun_none]

theorem order_perm (N t : Nat) (ht : t < N) :
    ((List.range N).map fun o => (N + t - o) % N).Perm (List.range N) := by
  apply perm_range_of
  · apply List.Nodup.map_on _ List.nodup_range
    intro x hx y hy he
    have hx := List.mem_range.1 hx
    have hy := List.mem_range.1 hy
    have key : ∀ z, z < N → (N + t - z) % N = if z ≤ t then t - z else N + t - z := by
      intro z hz
      split
      · rw [show N + t - z = (t - z) + N by omega, Nat.add_mod_right, Nat.mod_eq_of_lt (by omega)]
      · exact Nat.mod_eq_of_lt (by omega)
    rw [key x hx, key y hy] at he
    split at he <;> split at he <;> omega
  · intro x hx
    obtain ⟨o, _, rfl⟩ := List.mem_map.1 hx
    exact Nat.mod_lt _ (by omega)
  · simp

theorem reduceAll_rl {V : Type} [Add V] (b : Block) (v : Nat → V) : reduceAll (b.map (rl π)) v = reduceAll b v := by
  unfold reduceAll
  rw [List.zipIdx_map, List.foldl_map]
  rfl

theorem copyReduceAll_rl {V : Type} [Add V] (b : Block) (v : Nat → V) :
    copyReduceAll (b.map (rl π)) v = copyReduceAll b v := by
  unfold copyReduceAll
  rw [List.zipIdx_map, List.foldl_map]
  rfl

theorem reduceOk_rl (hi : Inverse N π ρ) (b : Block) (hb : ∀ l, l ∈ b → LineOk N l) :
    reduceOk (b.map (rl π)) = reduceOk b := by
  rw [Bool.eq_iff_iff, reduceOk_iff, reduceOk_iff]
  have key : ∀ (l : LineD) (r : Nat), l ∈ b → (fracOf (b.map (rl π)) r = some (rl π l).frac ↔
      fracOf b r = some l.frac) := by
    intro l r hl
    rw [fracOf_rl]
    constructor
    · intro h
      obtain ⟨f, hf, he⟩ := Option.map_eq_some_iff.1 h
      rw [hf]
      have h1 : f < N := fracOf_lt b hb r f hf
      have h2 : l.frac < N := (hb l hl).1
      have he : π f = π l.frac := he
      rw [← hi.left f h1, he, hi.left _ h2]
    · intro h
      rw [h]
      rfl
  constructor
  · intro h n l hl r hr
    have := h n (rl π l) (by rw [List.getElem?_map, hl]; rfl) r hr
    exact ⟨this.1, (key l r (List.mem_of_getElem? hl)).1 this.2⟩
  · intro h n l' hl' r hr
    rw [List.getElem?_map] at hl'
    obtain ⟨l, hl, rfl⟩ := Option.map_eq_some_iff.1 hl'
    have := h n l hl r hr
    exact ⟨this.1, (key l r (List.mem_of_getElem? hl)).2 this.2⟩

theorem nodeStep_rl {V : Type} [AddCommSemigroup V] (hi : Inverse N π ρ) (bs bs' : Nat → Block) (s s' : Nat → Nat → V)
    (hok : ∀ t, t < N → ∀ l, l ∈ bs t → LineOk N l) (hb : ∀ x, x < N → bs' x = (bs (ρ x)).map (rl π))
    (hs : ∀ x, x < N → s' x = s (ρ x)) (t : Nat) (ht : t < N) (hsep : Separate N t (bs t)) :
    nodeStep N bs' s' (π t) = nodeStep N bs s t := by
  unfold nodeStep
  have e1 : bs' (π t) = (bs t).map (rl π) := by rw [hb _ (hi.lt t ht), hi.left t ht]
  have e2 : s' (π t) = s t := by rw [hs _ (hi.lt t ht), hi.left t ht]
  have key : recvAll N (bs' (π t)) (π t) (fun q => message (bs' q) (s' q) (π t)) (s' (π t)) =
      recvAll N (bs t) t (fun q => message (bs q) (s q) t) (s t) := by
    unfold recvAll
    rw [e2, e1]
    have h1 : ∀ (qs : List Nat), (∀ x, x ∈ qs → x < N) → ∀ v : Nat → V, qs.foldlM
          (fun v q => if q = π t then some v else deliver ((bs t).map (rl π)) (π t) q (message (bs' q) (s' q) (π t)) v) v =
        (qs.map ρ).foldlM
          (fun v q => if q = t then some v else deliver (bs t) t q (message (bs q) (s q) t) v) v := by
      intro qs hqs v
      rw [List.foldlM_map]
      apply foldlM_congr
      intro x hx v
      have hx := hqs x hx
      have hc : x = π t ↔ ρ x = t := by
        constructor
        · intro h; rw [h, hi.left t ht]
        · intro h; rw [← h, hi.right x hx]
      refine if_congr hc rfl ?_
      rw [hb x hx, hs x hx]
      have := deliver_rl (V := V) hi (bs t) (bs (ρ x)) (hok t ht) (hok _ (hi.lt' x hx)) t (ρ x) ht (hi.lt' x hx) (s (ρ x)) v
      rwa [hi.right x hx] at this
    rw [h1 _ (by
      intro x hx
      obtain ⟨o, _, rfl⟩ := List.mem_map.1 hx
      exact Nat.mod_lt _ (by omega))]
    apply foldlM_perm
    · have p1 := (order_perm N (π t) (hi.lt t ht)).map ρ
      have p2 : ((List.range N).map ρ).Perm (List.range N) := by
        apply perm_range_of
        · apply List.Nodup.map_on _ List.nodup_range
          intro x hx y hy he
          have := congrArg π he
          rwa [hi.right x (List.mem_range.1 hx), hi.right y (List.mem_range.1 hy)] at this
        · intro x hx
          obtain ⟨y, hy, rfl⟩ := List.mem_map.1 hx
          exact hi.lt' y (List.mem_range.1 hy)
        · simp
      exact (p1.trans p2).trans (order_perm N t ht).symm
    · intro a ha c hc v
      have hlt : ∀ z, z ∈ ((List.range N).map fun o => (N + π t - o) % N).map ρ → z < N := by
        intro z hz
        obtain ⟨y, hy, rfl⟩ := List.mem_map.1 hz
        obtain ⟨o, _, rfl⟩ := List.mem_map.1 hy
        exact hi.lt' _ (Nat.mod_lt _ (by omega))
      by_cases hac : a = c
      · rw [hac]
      by_cases h1 : a = t
      · simp only [if_pos h1, Option.bind_some, Option.bind_fun_some]
      · by_cases h2 : c = t
        · simp only [if_pos h2, Option.bind_some, Option.bind_fun_some]
        · simp only [if_neg h1, if_neg h2]
          exact deliver_comm (bs t) t a c (fun n => hsep a c n (hlt a ha) (hlt c hc) hac) _ _ v
  rw [key, e1, reduceOk_rl hi (bs t) (hok t ht)]
  congr 1
  cases recvAll N (bs t) t (fun q => message (bs q) (s q) t) (s t) with
  | none => rfl
  | some v => simp only [Option.map_some, reduceAll_rl, copyReduceAll_rl]

theorem run_rl {V : Type} [AddCommSemigroup V] (hi : Inverse N π ρ) (p : Nat → List Block) (s s1 : Nat → Nat → V)
    (h : Run N p s s1) (hok : ∀ t, t < N → ∀ b, b ∈ p t → (∀ l, l ∈ b → LineOk N l) ∧ Separate N t b)
    (p' : Nat → List Block) (hp : ∀ x, x < N → p' x = (p (ρ x)).map fun b => b.map (rl π)) (s' : Nat → Nat → V)
    (hs : ∀ x, x < N → s' x = s (ρ x)) : ∃ s1', Run N p' s' s1' ∧ ∀ x, x < N → s1' x = s1 (ρ x) := by
  induction h generalizing p' s' with
  | done hd =>
    refine ⟨s', Run.done ?_, hs⟩
    intro x hx
    rw [hp x hx, hd _ (hi.lt' x hx)]
    rfl
  | @step p s s'' hd tl sm h1 h2 _ ih =>
    have hhd : ∀ t, t < N → (∀ l, l ∈ hd t → LineOk N l) ∧ Separate N t (hd t) :=
      fun t ht => hok t ht _ (by rw [h1 t ht]; exact List.mem_cons_self)
    obtain ⟨s1', hr, he⟩ := ih (fun t ht b hb => hok t ht b (by rw [h1 t ht]; exact List.mem_cons_of_mem _ hb))
      (fun x => (tl (ρ x)).map fun b => b.map (rl π)) (fun x _ => rfl) (fun x => sm (ρ x)) (fun x _ => rfl)
    refine ⟨s1', Run.step (fun x => (hd (ρ x)).map (rl π)) _ (fun x => sm (ρ x)) ?_ ?_ hr, he⟩
    · intro x hx
      rw [hp x hx, h1 _ (hi.lt' x hx)]
      rfl
    · intro x hx
      have := nodeStep_rl hi hd (fun x => (hd (ρ x)).map (rl π)) s s' (fun t ht => (hhd t ht).1) (fun _ _ => rfl) hs
        (ρ x) (hi.lt' x hx) (hhd _ (hi.lt' x hx)).2
      rw [hi.right x hx] at this
      rw [this]
      exact h2 _ (hi.lt' x hx)

theorem copyIn_rl {V : Type} (b : Block) (hb : ∀ l, l ∈ b → LineOk N l) (inp inp' junk : Nat → V)
    (h : ∀ f, f < N → inp' (π f) = inp f) : copyIn (b.map (rl π)) inp' junk = copyIn b inp junk := by
  funext n
  unfold copyIn
  rw [List.getElem?_map]
  cases hn : b[n]? with
  | none => rfl
  | some l =>
    have hl := hb l (List.mem_of_getElem? hn)
    have e : ((l.recvfrom.map (rp π)).any fun e => e.1 == -1) = l.recvfrom.any fun e => e.1 == -1 := by
      rw [List.any_map]
      congr 1
      funext e
      exact rp_neg π e
    show (if ((l.recvfrom.map (rp π)).any fun e => e.1 == -1) = true then inp' (π l.frac) else junk n) = _
    rw [e, h _ hl.1]

theorem copyOut_rl {V : Type} (hi : Inverse N π ρ) (b : Block) (hb : ∀ l, l ∈ b → LineOk N l) (v : Nat → V) (f : Nat)
    (hf : f < N) : copyOut (b.map (rl π)) v (π f) = copyOut b v f := by
  unfold copyOut
  rw [List.zipIdx_map, List.foldl_map]
  have hz : ∀ x, x ∈ b.zipIdx → x.1.frac < N := by
    intro x hx
    rw [List.mem_zipIdx_iff_getElem?] at hx
    exact (hb _ (List.mem_of_getElem? hx)).1
  suffices H : ∀ (l : List (LineD × Nat)) (o o' : Nat → Option V), (∀ x, x ∈ l → x.1.frac < N) → o' (π f) = o f →
      (l.foldl (fun out y => if (Prod.map (rl π) id y).1.sendto.any (fun e => e.1 == -1) then
        upd out (Prod.map (rl π) id y).1.frac (some (v (Prod.map (rl π) id y).2)) else out) o') (π f) =
      (l.foldl (fun out x => if x.1.sendto.any (fun e => e.1 == -1) then upd out x.1.frac (some (v x.2)) else out) o) f from
    H b.zipIdx _ _ hz rfl
  intro l
  induction l with
  | nil => intro o o' _ h; exact h
  | cons x l ih =>
    intro o o' hl h
    rw [List.foldl_cons, List.foldl_cons]
    apply ih _ _ fun y hy => hl y (List.mem_cons_of_mem _ hy)
    have e : ((Prod.map (rl π) id x).1.sendto.any fun e => e.1 == -1) = x.1.sendto.any fun e => e.1 == -1 := by
      show ((x.1.sendto.map (rp π)).any fun e => e.1 == -1) = _
      rw [List.any_map]
      congr 1
      funext e
      exact rp_neg π e
    rw [e]
    by_cases hx : x.1.sendto.any (fun e => e.1 == -1) = true
    · rw [if_pos hx, if_pos hx]
      unfold upd
      refine if_congr ?_ rfl h
      show π f = π x.1.frac ↔ f = x.1.frac
      constructor
      · intro hh
        have := congrArg ρ hh
        rwa [hi.left f hf, hi.left _ (hl x List.mem_cons_self)] at this
      · intro hh; rw [hh]
    · rw [if_neg hx, if_neg hx]
      exact h

theorem copyOutFirst_rl {V : Type} (b : Block) (v : Nat → V) : copyOutFirst (b.map (rl π)) v = copyOutFirst b v := by
  unfold copyOutFirst
  rw [List.zipIdx_map, List.find?_map]
  have : ((fun x : LineD × Nat => !x.1.sendto.isEmpty) ∘ Prod.map (rl π) id) = fun x => !x.1.sendto.isEmpty := by
    funext x
    show (!(x.1.sendto.map (rp π)).isEmpty) = _
    simp
  rw [this]
  cases b.zipIdx.find? fun x => !x.1.sendto.isEmpty <;> rfl

end ExtMpi.RankPerm
