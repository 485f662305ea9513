import Verif.Lemmas.Schedule
import Verif.Lemmas.RecursivePhases
/-! Which results cannot depend on which inputs: a change stays on the nodes its lines are sent to. -/
namespace ExtMpi.Schedule

/-- The line at position `n` has the number `n % lb`, and node `q`, if it is in `T`, sends lines with number `f` only to nodes in `T`. -/
structure Closed (N lb f : Nat) (T : Nat → Prop) (q : Nat) (b : Block) : Prop where
  frac : ∀ n l, b[n]? = some l → l.frac = n % lb
  send : T q → ∀ n l, b[n]? = some l → n % lb = f → ∀ e, e ∈ l.sendto → ∀ t, t < N → e.1 = (t : Int) → T t

theorem Closed.fracOf {N lb f : Nat} {T : Nat → Prop} {q : Nat} {b : Block} (h : Closed N lb f T q b) (n k : Nat) (e : fracOf b n = some k) :
    k = n % lb := by
  unfold Schedule.fracOf at e
  obtain ⟨l, hl, rfl⟩ := Option.map_eq_some_iff.1 e
  exact h.frac n l hl

theorem Closed.mk' {N lb f L : Nat} {T : Nat → Prop} {q : Nat} (g : Nat → LineD) (h1 : ∀ n, n < L → (g n).frac = n % lb)
    (h2 : T q → ∀ n, n < L → n % lb = f → ∀ e, e ∈ (g n).sendto → ∀ t, t < N → e.1 = (t : Int) → T t) :
    Closed N lb f T q (Recursive.mk L g) := by
  have key : ∀ (n : Nat) (l : LineD), (Recursive.mk L g)[n]? = some l → n < L ∧ l = g n := by
    intro n l hl
    unfold Recursive.mk at hl
    rw [List.getElem?_map] at hl
    obtain ⟨m, hm, rfl⟩ := Option.map_eq_some_iff.1 hl
    obtain ⟨hlt, e⟩ := List.getElem?_eq_some_iff.1 hm
    rw [List.getElem_range] at e
    subst e
    exact ⟨by simpa using hlt, rfl⟩
  refine ⟨fun n l hl => ?_, fun hT n l hl hn => ?_⟩
  · obtain ⟨a, rfl⟩ := key n l hl
    exact h1 n a
  · obtain ⟨a, rfl⟩ := key n l hl
    exact h2 hT n a hn

/-- Agreement on the lines whose number satisfies `C`. -/
def Agree {V : Type} (lb : Nat) (C : Nat → Prop) (v w : Nat → V) : Prop := ∀ n, C (n % lb) → v n = w n

/-- Messages of the same shape that agree on the pieces whose number satisfies `C`. -/
def MsgAgree {V : Type} (C : Nat → Prop) (m m' : List (Option Nat × V)) : Prop :=
  List.Forall₂ (fun x y => x.1 = y.1 ∧ ∀ k, x.1 = some k → C k → x.2 = y.2) m m'

theorem message_agree {V : Type} {N lb f : Nat} {T : Nat → Prop} {q t : Nat} {b : Block} (h : Closed N lb f T q b) (ht : t < N)
    (v w : Nat → V) (hv : Agree lb (fun k => ¬ (T q ∧ k = f)) v w) :
    MsgAgree (fun k => ¬ (T t ∧ k = f)) (message b v t) (message b w t) := by
  unfold message MsgAgree
  rw [List.forall₂_map_left_iff, List.forall₂_map_right_iff, List.forall₂_same]
  intro n hn
  refine ⟨rfl, fun k hk hC => ?_⟩
  have ek := h.fracOf n k hk
  apply hv
  rintro ⟨hT, hf⟩
  apply hC
  refine ⟨?_, by rw [ek, hf]⟩
  unfold sendIdx at hn
  rw [List.mem_flatMap] at hn
  obtain ⟨x, hx, hn⟩ := hn
  obtain ⟨e, he, rfl⟩ := List.mem_map.1 hn
  rw [List.mem_filter] at he
  have hx' := List.mem_zipIdx_iff_getElem?.1 hx
  exact h.send hT x.2 x.1 hx' hf e he.1 t ht (by simpa using he.2)

theorem MsgAgree.fst {V : Type} {C : Nat → Prop} {m m' : List (Option Nat × V)} (h : MsgAgree C m m') : m.map Prod.fst = m'.map Prod.fst := by
  induction h with
  | nil => rfl
  | cons a _ ih => simp only [List.map_cons, a.1, ih]

theorem MsgAgree.get {V : Type} {C : Nat → Prop} {m m' : List (Option Nat × V)} (h : MsgAgree C m m') (i : Nat) :
    (m[i]? = none ∧ m'[i]? = none) ∨ ∃ k x y, m[i]? = some (k, x) ∧ m'[i]? = some (k, y) ∧ ∀ j, k = some j → C j → x = y := by
  induction h generalizing i with
  | nil => left; simp
  | @cons a b l l' hab _ ih =>
    cases i with
    | zero =>
      right
      refine ⟨a.1, a.2, b.2, rfl, ?_, hab.2⟩
      rw [hab.1]; rfl
    | succ i => simpa using ih i

theorem deliver_agree {V : Type} [Add V] {lb : Nat} {C : Nat → Prop} {b : Block} (hb : ∀ n k, fracOf b n = some k → k = n % lb)
    (node q : Nat) (m m' : List (Option Nat × V)) (hm : MsgAgree C m m') (v w : Nat → V) (hv : Agree lb C v w) (v' w' : Nat → V)
    (h : deliver b node q m v = some v') (h' : deliver b node q m' w = some w') : Agree lb C v' w' := by
  unfold deliver at h h'
  cases hr : recvIdx b q with
  | nil =>
    rw [hr] at h h'
    dsimp only at h h'
    split at h
    · split at h'
      · cases h; cases h'; exact hv
      · cases h'
    · cases h
  | cons n0 ns =>
    rw [hr] at h h'
    dsimp only at h h'
    split at h
    · rename_i hc
      split at h'
      · cases h; cases h'
        intro n hn
        dsimp only
        by_cases c : n0 ≤ n
        · rw [if_pos c, if_pos c]
          rcases hm.get (n - n0) with ⟨e1, e2⟩ | ⟨k, x, y, e1, e2, e3⟩
          · rw [e1, e2]; exact hv n hn
          · rw [e1, e2]
            dsimp only
            have hk : ∃ j, k = some j ∧ C j := by
              have := congrArg (fun l : List (Option Nat) => l[n - n0]?) hc.2
              simp only [List.getElem?_map, e1, Option.map_some] at this
              cases hg : (List.range' n0 (ns.length + 1))[n - n0]? with
              | none => rw [hg] at this; cases this
              | some z =>
                rw [hg] at this
                have hz : z = n := by
                  rw [List.getElem?_eq_some_iff] at hg
                  obtain ⟨_, e⟩ := hg
                  rw [List.getElem_range'] at e
                  omega
                subst hz
                simp only [Option.map_some, Option.some.injEq] at this
                have hmem : z ∈ recvIdx b q := by
                  rw [hr, hc.1]
                  exact List.mem_of_getElem? hg
                unfold recvIdx at hmem
                obtain ⟨y, hy, rfl⟩ := List.mem_map.1 hmem
                have hy' := List.mem_zipIdx_iff_getElem?.1 (List.mem_filter.1 hy).1
                have hf : fracOf b y.2 = some y.1.frac := by unfold fracOf; rw [hy']; rfl
                refine ⟨y.1.frac, by rw [this, hf], ?_⟩
                rw [hb _ _ hf]; exact hn
            obtain ⟨j, hj, hC⟩ := hk
            rw [e3 j hj hC, hv n hn]
        · rw [if_neg c, if_neg c]; exact hv n hn
      · cases h'
    · cases h

theorem recvFold_agree {V : Type} [Add V] {lb : Nat} {C : Nat → Prop} {b : Block} (hb : ∀ n k, fracOf b n = some k → k = n % lb)
    (node N : Nat) (ms ms' : Nat → List (Option Nat × V)) (hm : ∀ q, q < N → MsgAgree C (ms q) (ms' q)) (qs : List Nat)
    (hq : ∀ q, q ∈ qs → q < N) : ∀ (v w v' w' : Nat → V), Agree lb C v w →
      qs.foldlM (fun v q => if q = node then some v else deliver b node q (ms q) v) v = some v' →
      qs.foldlM (fun v q => if q = node then some v else deliver b node q (ms' q) v) w = some w' → Agree lb C v' w' := by
  induction qs with
  | nil =>
    intro v w v' w' hv h h'
    simp only [List.foldlM_nil] at h h'
    cases h; cases h'; exact hv
  | cons q qs ih =>
    intro v w v' w' hv h h'
    rw [List.foldlM_cons] at h h'
    obtain ⟨v1, a1, a2⟩ := Option.bind_eq_some_iff.1 h
    obtain ⟨w1, b1, b2⟩ := Option.bind_eq_some_iff.1 h'
    refine ih (fun q hq' => hq q (List.mem_cons_of_mem _ hq')) v1 w1 v' w' ?_ a2 b2
    by_cases c : q = node
    · rw [if_pos c] at a1 b1
      cases a1; cases b1; exact hv
    · rw [if_neg c] at a1 b1
      exact deliver_agree hb node q _ _ (hm q (hq q List.mem_cons_self)) v w hv v1 w1 a1 b1

theorem upd_agree {V : Type} {lb : Nat} {C : Nat → Prop} {v w : Nat → V} (hv : Agree lb C v w) (n : Nat) (x y : V) (h : C (n % lb) → x = y) :
    Agree lb C (upd v n x) (upd w n y) := by
  intro k hk
  unfold upd
  by_cases c : k = n
  · rw [if_pos c, if_pos c]; rw [c] at hk; exact h hk
  · rw [if_neg c, if_neg c]; exact hv k hk

theorem adds_agree {V : Type} [Add V] {lb : Nat} {C : Nat → Prop} (n : Nat) (rs : List Nat) (hr : ∀ r, r ∈ rs → r % lb = n % lb) :
    ∀ v w : Nat → V, Agree lb C v w →
      Agree lb C (rs.foldl (fun v r => upd v n (v n + v r)) v) (rs.foldl (fun v r => upd v n (v n + v r)) w) := by
  induction rs with
  | nil => intro v w hv; exact hv
  | cons r rs ih =>
    intro v w hv
    simp only [List.foldl_cons]
    refine ih (fun r h => hr r (List.mem_cons_of_mem _ h)) _ _ (upd_agree hv n _ _ fun hC => ?_)
    rw [hv n hC, hv r (by rw [hr r List.mem_cons_self]; exact hC)]

theorem foldl_agree {V : Type} {lb : Nat} {C : Nat → Prop} (f : (Nat → V) → LineD × Nat → Nat → V) (xs : List (LineD × Nat))
    (hf : ∀ x, x ∈ xs → ∀ v w, Agree lb C v w → Agree lb C (f v x) (f w x)) :
    ∀ v w, Agree lb C v w → Agree lb C (xs.foldl f v) (xs.foldl f w) := by
  induction xs with
  | nil => intro v w hv; exact hv
  | cons x xs ih =>
    intro v w hv
    exact ih (fun y h => hf y (List.mem_cons_of_mem _ h)) _ _ (hf x List.mem_cons_self v w hv)

theorem local_agree {V : Type} [Add V] {lb : Nat} {C : Nat → Prop} {b : Block} (hb : ∀ n k, fracOf b n = some k → k = n % lb)
    (hok : reduceOk b = true) (v w : Nat → V) (hv : Agree lb C v w) :
    Agree lb C (copyReduceAll b (reduceAll b v)) (copyReduceAll b (reduceAll b w)) := by
  have src : ∀ x, x ∈ b.zipIdx → ∀ r, r ∈ x.1.reducefrom ++ x.1.copyreducefrom → r % lb = x.2 % lb := by
    intro x hx r hr
    unfold reduceOk at hok
    rw [List.all_eq_true] at hok
    have h1 := hok x hx
    rw [List.all_eq_true] at h1
    have h2 := h1 r hr
    simp only [Bool.and_eq_true, bne_iff_ne, beq_iff_eq] at h2
    have hx' := List.mem_zipIdx_iff_getElem?.1 hx
    have h3 : fracOf b x.2 = some x.1.frac := by unfold fracOf; rw [hx']; rfl
    rw [← hb r _ h2.2, ← hb x.2 _ h3]
  unfold copyReduceAll reduceAll
  refine foldl_agree _ _ (fun x hx v w hv => ?_) _ _ (foldl_agree _ _ (fun x hx v w hv => ?_) _ _ hv)
  · cases hc : x.1.copyreducefrom with
    | nil => exact hv
    | cons r0 rs =>
      dsimp only
      refine adds_agree x.2 rs (fun r h => src x hx r ?_) _ _ (upd_agree hv x.2 _ _ fun hC => ?_)
      · rw [hc, List.mem_append]; right; exact List.mem_cons_of_mem _ h
      · apply hv
        rw [src x hx r0 (by rw [hc, List.mem_append]; right; exact List.mem_cons_self)]
        exact hC
  · exact adds_agree x.2 _ (fun r h => src x hx r (List.mem_append_left _ h)) v w hv

theorem nodeStep_agree {V : Type} [Add V] {N lb f : Nat} {T : Nat → Prop} {bs bs' : Nat → Block} (hb : ∀ q, q < N → Closed N lb f T q (bs q))
    (hbs : ∀ q, q < N → bs' q = bs q) (s s' : Nat → Nat → V) (hs : ∀ q, q < N → Agree lb (fun k => ¬ (T q ∧ k = f)) (s q) (s' q)) (t : Nat)
    (ht : t < N) (v w : Nat → V) (h : nodeStep N bs s t = some v) (h' : nodeStep N bs' s' t = some w) :
    Agree lb (fun k => ¬ (T t ∧ k = f)) v w := by
  unfold nodeStep at h h'
  rw [hbs t ht] at h'
  split at h
  · rename_i hok
    rw [if_pos hok] at h'
    obtain ⟨v1, a1, rfl⟩ := Option.map_eq_some_iff.1 h
    obtain ⟨w1, b1, rfl⟩ := Option.map_eq_some_iff.1 h'
    refine local_agree (fun n k => (hb t ht).fracOf n k) hok v1 w1 ?_
    unfold recvAll at a1 b1
    refine recvFold_agree (fun n k => (hb t ht).fracOf n k) t N _ _ (fun q hq => ?_) _ (fun q hq => ?_) _ _ v1 w1 (hs t ht) a1 b1
    · rw [hbs q hq]
      exact message_agree (hb q hq) ht (s q) (s' q) (hs q hq)
    · obtain ⟨o, _, rfl⟩ := List.mem_map.1 hq
      exact Nat.mod_lt _ (by omega)
  · cases h

theorem Run.agree {V : Type} [Add V] {N lb f : Nat} {T : Nat → Prop} {p : Nat → List Block} {s a : Nat → Nat → V} (h : Run N p s a) :
    ∀ (p' : Nat → List Block) (s' a' : Nat → Nat → V), Run N p' s' a' → (∀ q, q < N → p' q = p q) →
      (∀ q, q < N → ∀ b, b ∈ p q → Closed N lb f T q b) → (∀ q, q < N → Agree lb (fun k => ¬ (T q ∧ k = f)) (s q) (s' q)) →
      ∀ q, q < N → Agree lb (fun k => ¬ (T q ∧ k = f)) (a q) (a' q) := by
  induction h with
  | @done p s hp =>
    intro p' s' a' h' hpp hb hs q hq
    cases h' with
    | done _ => exact hs q hq
    | step hd tl s1 h1 _ _ =>
      have := h1 q hq
      rw [hpp q hq, hp q hq] at this
      cases this
  | @step p s s'' hd tl s1 h1 h2 h3 ih =>
    intro p' s' a' h' hpp hb hs q hq
    cases h' with
    | done hp =>
      have := hp q hq
      rw [hpp q hq, h1 q hq] at this
      cases this
    | step hd' tl' s1' h1' h2' h3' =>
      have e : ∀ q, q < N → hd' q = hd q ∧ tl' q = tl q := by
        intro q hq
        have := h1' q hq
        rw [hpp q hq, h1 q hq] at this
        injection this with x y
        exact ⟨x.symm, y.symm⟩
      refine ih tl' s1' a' h3' (fun q hq => (e q hq).2) (fun q hq b hbm => hb q hq b (by rw [h1 q hq]; exact List.mem_cons_of_mem _ hbm)) ?_ q hq
      intro t ht
      exact nodeStep_agree (fun q hq => hb q hq (hd q) (by rw [h1 q hq]; exact List.mem_cons_self)) (fun q hq => (e q hq).1) s s' hs t ht _ _
        (h2 t ht) (h2' t ht)

theorem Run.split {V : Type} [Add V] {N : Nat} (n : Nat) : ∀ (a b : Nat → List Block) (s s'' : Nat → Nat → V),
    (∀ t, t < N → (a t).length = n) → Run N (fun t => a t ++ b t) s s'' → ∃ s', Run N a s s' ∧ Run N b s' s'' := by
  induction n with
  | zero =>
    intro a b s s'' hn h
    have e : ∀ t, t < N → a t = [] := fun t ht => List.length_eq_zero_iff.1 (hn t ht)
    exact ⟨s, Run.done e, Recursive.Run.congr h fun t ht => by rw [e t ht]; rfl⟩
  | succ n ih =>
    intro a b s s'' hn h
    cases h with
    | done hp =>
      by_cases c : 0 < N
      · have := hp 0 c
        have h2 := hn 0 c
        rw [List.append_eq_nil_iff.1 this |>.1] at h2
        cases h2
      · exact ⟨s, Run.done fun t ht => by omega, Run.done fun t ht => by omega⟩
    | step hd tl s1 h1 h2 h3 =>
      have e : ∀ t, t < N → a t = hd t :: (a t).tail ∧ tl t = (a t).tail ++ b t := by
        intro t ht
        have h4 : a t ++ b t = hd t :: tl t := h1 t ht
        have h5 := hn t ht
        cases ha : a t with
        | nil => rw [ha] at h5; cases h5
        | cons x xs =>
          rw [ha] at h4
          injection h4 with x1 x2
          exact ⟨by rw [x1]; rfl, x2.symm⟩
      obtain ⟨s', k1, k2⟩ := ih (fun t => (a t).tail) b s1 s'' (fun t ht => by
        rw [List.length_tail, hn t ht]; rfl) (Recursive.Run.congr h3 fun t ht => (e t ht).2.symm)
      exact ⟨s', Run.step hd _ s1 (fun t ht => (e t ht).1) h2 k1, k2⟩

/-- A change of the copied-in values that is confined to lines with number `f` on the nodes in `T₁` does not reach the results of nodes
outside of `T₂`, if the first blocks are closed for `T₁` and the others for `T₂`. -/
theorem Exec.agree {V O : Type} [Add V] {N lb f n : Nat} {T₁ T₂ : Nat → Prop} {co : Block → (Nat → V) → O} {sched : Nat → List Block}
    {inp inp' junk junk' : Nat → Nat → V} {out out' : Nat → O} (first : Nat → Block) (a b : Nat → List Block)
    (hs : ∀ t, t < N → sched t = first t :: (a t ++ b t)) (hn : ∀ t, t < N → (a t).length = n)
    (ha : ∀ q, q < N → ∀ x, x ∈ a q → Closed N lb f T₁ q x) (hb : ∀ q, q < N → ∀ x, x ∈ b q → Closed N lb f T₂ q x)
    (hT : ∀ q, q < N → T₁ q → T₂ q)
    (hin : ∀ q, q < N → Agree lb (fun k => ¬ (T₁ q ∧ k = f)) (copyIn (first q) (inp q) (junk q)) (copyIn (first q) (inp' q) (junk' q)))
    (h : Exec N co sched inp junk out) (h' : Exec N co sched inp' junk' out') (t : Nat) (ht : t < N) (hnt : ¬ T₂ t) : out t = out' t := by
  obtain ⟨b0, bs, last, s', h1, h2, h3⟩ := h
  obtain ⟨b0', bs', last', s'', h1', h2', h3'⟩ := h'
  have e : ∀ t, t < N → b0 t = first t ∧ bs t = a t ++ b t := fun t ht => by
    have := (h1 t ht).1
    rw [hs t ht] at this
    injection this with x y
    exact ⟨x.symm, y.symm⟩
  have e' : ∀ t, t < N → b0' t = first t ∧ bs' t = a t ++ b t := fun t ht => by
    have := (h1' t ht).1
    rw [hs t ht] at this
    injection this with x y
    exact ⟨x.symm, y.symm⟩
  obtain ⟨m, r1, r2⟩ := Run.split n a b _ _ hn (Recursive.Run.congr h2 fun t ht => (e t ht).2.symm)
  obtain ⟨m', r1', r2'⟩ := Run.split n a b _ _ hn (Recursive.Run.congr h2' fun t ht => (e' t ht).2.symm)
  have k1 := Run.agree r1 a _ m' r1' (fun _ _ => rfl) ha (fun q hq => by
    rw [(e q hq).1, (e' q hq).1]; exact hin q hq)
  have k2 := Run.agree r2 b _ s'' r2' (fun _ _ => rfl) hb (fun q hq k hk => k1 q hq k fun c => hk ⟨hT q hq c.1, c.2⟩) t ht
  have k3 : s' t = s'' t := funext fun n => k2 n fun c => hnt c.1
  have k4 : last t = last' t := by
    have x := (h1 t ht).2
    have y := (h1' t ht).2
    rw [(e t ht).2] at x
    rw [(e' t ht).2, x] at y
    exact Option.some.inj y
  rw [h3 t ht, h3' t ht, k3, k4]

end ExtMpi.Schedule
