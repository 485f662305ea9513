import Verif.Lemmas.Uncovered
import Mathlib.Algebra.Order.Monoid.Unbundled.WithTop
/-! The recursive reduce_scatter on fewer nodes than the product of its factors: values that were never written are added to the results. -/
namespace ExtMpi.Schedule

/-- An element that remains in every sum (for floating point numbers: not a number). -/
structure Absorbs {V : Type} [Add V] (z : V) : Prop where
  left : ∀ x, z + x = z
  right : ∀ x, x + z = z

theorem deliver_keeps {V : Type} [Add V] (b : Block) (node q : Nat) (m : List (Option Nat × V)) (v w : Nat → V) (n : Nat)
    (hn : ∀ l, b[n]? = some l → ∀ e, e ∈ l.recvfrom → e.1 ≠ (q : Int)) (h : deliver b node q m v = some w) : w n = v n := by
  unfold deliver at h
  cases hr : recvIdx b q with
  | nil =>
    rw [hr] at h
    dsimp only at h
    split at h
    · cases h; rfl
    · cases h
  | cons n0 ns =>
    rw [hr] at h
    dsimp only at h
    split at h
    · rename_i hc
      cases h
      dsimp only
      by_cases c : n0 ≤ n
      · rw [if_pos c]
        cases hm : m[n - n0]? with
        | none => rfl
        | some y =>
          exfalso
          have hlen : n - n0 < ns.length + 1 := by
            have h1 := (List.getElem?_eq_some_iff.1 hm).1
            have h2 := congrArg List.length hc.2
            simp only [List.length_map, List.length_range'] at h2
            omega
          have hmem : n ∈ recvIdx b q := by
            rw [hr, hc.1, List.mem_range']
            exact ⟨n - n0, hlen, by omega⟩
          unfold recvIdx at hmem
          obtain ⟨y, hy, rfl⟩ := List.mem_map.1 hmem
          have hy1 := List.mem_zipIdx_iff_getElem?.1 (List.mem_filter.1 hy).1
          have hy2 := (List.mem_filter.1 hy).2
          rw [List.any_eq_true] at hy2
          obtain ⟨e, he, hq⟩ := hy2
          exact hn y.1 hy1 e he (by simpa using hq)
      · rw [if_neg c]
    · cases h

theorem recvAll_keeps {V : Type} [Add V] (N : Nat) (b : Block) (node : Nat) (ms : Nat → List (Option Nat × V)) (v w : Nat → V) (n : Nat)
    (hN : node < N) (hn : ∀ l, b[n]? = some l → ∀ e, e ∈ l.recvfrom → ∀ q, q < N → e.1 ≠ (q : Int)) (h : recvAll N b node ms v = some w) :
    w n = v n := by
  unfold recvAll at h
  have : ∀ (qs : List Nat), (∀ q, q ∈ qs → q < N) → ∀ v w,
      qs.foldlM (fun v q => if q = node then some v else deliver b node q (ms q) v) v = some w → w n = v n := by
    intro qs
    induction qs with
    | nil =>
      intro _ v w h
      simp only [List.foldlM_nil] at h
      cases h; rfl
    | cons q qs ih =>
      intro hq v w h
      rw [List.foldlM_cons] at h
      obtain ⟨v1, a1, a2⟩ := Option.bind_eq_some_iff.1 h
      rw [ih (fun q h => hq q (List.mem_cons_of_mem _ h)) v1 w a2]
      by_cases c : q = node
      · rw [if_pos c] at a1; cases a1; rfl
      · rw [if_neg c] at a1
        exact deliver_keeps b node q _ v v1 n (fun l hl e he => hn l hl e he q (hq q List.mem_cons_self)) a1
  refine this _ (fun q hq => ?_) v w h
  obtain ⟨o, _, rfl⟩ := List.mem_map.1 hq
  exact Nat.mod_lt _ (by omega)

theorem adds_poison {V : Type} [Add V] {z : V} (hz : Absorbs z) (n : Nat) (rs : List Nat) : ∀ (v : Nat → V) (k : Nat), v k = z →
    (rs.foldl (fun v r => upd v n (v n + v r)) v) k = z := by
  induction rs with
  | nil => intro v k h; exact h
  | cons r rs ih =>
    intro v k h
    rw [List.foldl_cons]
    apply ih
    unfold upd
    split
    · rename_i e
      rw [← e, h, hz.left]
    · exact h

theorem adds_poison_of_mem {V : Type} [Add V] {z : V} (hz : Absorbs z) (n : Nat) (rs : List Nat) : ∀ (v : Nat → V) (r : Nat), r ∈ rs → v r = z →
    (rs.foldl (fun v r => upd v n (v n + v r)) v) n = z := by
  induction rs with
  | nil => intro v r h; cases h
  | cons r0 rs ih =>
    intro v r h hv
    rw [List.foldl_cons]
    rcases List.mem_cons.1 h with rfl | h
    · apply adds_poison hz
      unfold upd
      rw [if_pos rfl, hv, hz.right]
    · refine ih _ r h ?_
      unfold upd
      split
      · rename_i e
        rw [← e, hv, hz.left]
      · exact hv

theorem reduceAll_poison {V : Type} [Add V] {z : V} (hz : Absorbs z) (b : Block) (v : Nat → V) (r n : Nat) (hv : v r = z)
    (hn : n = r ∨ ∃ l, b[n]? = some l ∧ r ∈ l.reducefrom) : reduceAll b v n = z := by
  unfold reduceAll
  have keep : ∀ (xs : List (LineD × Nat)) (v : Nat → V) (k : Nat), v k = z →
      (xs.foldl (fun v x => x.1.reducefrom.foldl (fun v r => upd v x.2 (v x.2 + v r)) v) v) k = z := by
    intro xs
    induction xs with
    | nil => intro v k h; exact h
    | cons x xs ih => intro v k h; rw [List.foldl_cons]; exact ih _ k (adds_poison hz _ _ v k h)
  rcases hn with rfl | ⟨l, hl, hr⟩
  · exact keep _ _ _ hv
  · have hmem : (l, n) ∈ b.zipIdx := List.mem_zipIdx_iff_getElem?.2 hl
    obtain ⟨xs, ys, e⟩ := List.append_of_mem hmem
    rw [e, List.foldl_append, List.foldl_cons]
    apply keep
    exact adds_poison_of_mem hz n _ _ r hr (keep xs v r hv)

theorem copyReduceAll_idle {V : Type} [Add V] (b : Block) (h : ∀ l, l ∈ b → l.copyreducefrom = []) (v : Nat → V) : copyReduceAll b v = v := by
  unfold copyReduceAll
  have : ∀ (xs : List (LineD × Nat)), (∀ x, x ∈ xs → x.1.copyreducefrom = []) → ∀ v : Nat → V,
      xs.foldl (fun v x =>
        match x.1.copyreducefrom with
        | [] => v
        | r0 :: rs => rs.foldl (fun v r => upd v x.2 (v x.2 + v r)) (upd v x.2 (v r0))) v = v := by
    intro xs
    induction xs with
    | nil => intro _ v; rfl
    | cons x xs ih =>
      intro hx v
      rw [List.foldl_cons, hx x List.mem_cons_self]
      exact ih (fun y hy => hx y (List.mem_cons_of_mem _ hy)) v
  refine this _ (fun x hx => h x.1 ?_) v
  exact List.mem_of_getElem? (List.mem_zipIdx_iff_getElem?.1 hx)

/-- A value at a position `r` that receives nothing stays, and gets into the positions that `r` is added to. -/
theorem nodeStep_poison {V : Type} [Add V] {z : V} (hz : Absorbs z) {N : Nat} {bs : Nat → Block} {s : Nat → Nat → V} {t : Nat} {w : Nat → V} (L : Nat)
    (f : Nat → LineD) (hb : bs t = Recursive.mk L f) (hc : ∀ n, (f n).copyreducefrom = []) (ht : t < N) (r n : Nat) (hv : s t r = z)
    (hr : r < L → ∀ e, e ∈ (f r).recvfrom → ∀ q, q < N → e.1 ≠ (q : Int)) (hn : n = r ∨ n < L ∧ r ∈ (f n).reducefrom)
    (h : nodeStep N bs s t = some w) : w n = z := by
  have get : ∀ (n : Nat) (l : LineD), (Recursive.mk L f)[n]? = some l → n < L ∧ l = f n := by
    intro n l hl
    unfold Recursive.mk at hl
    rw [List.getElem?_map] at hl
    obtain ⟨m, hm, rfl⟩ := Option.map_eq_some_iff.1 hl
    obtain ⟨hlt, e⟩ := List.getElem?_eq_some_iff.1 hm
    rw [List.getElem_range] at e
    subst e
    exact ⟨by simpa using hlt, rfl⟩
  unfold nodeStep at h
  split at h
  · obtain ⟨v1, a1, rfl⟩ := Option.map_eq_some_iff.1 h
    rw [hb] at a1 ⊢
    have k := recvAll_keeps N _ t _ _ v1 r ht (fun l hl e he => by
      obtain ⟨h1, rfl⟩ := get r l hl
      exact hr h1 e he) a1
    rw [copyReduceAll_idle]
    · refine reduceAll_poison hz _ v1 r n (k.trans hv) ?_
      rcases hn with h | ⟨h1, h2⟩
      · exact .inl h
      · refine .inr ⟨f n, ?_, h2⟩
        unfold Recursive.mk
        rw [List.getElem?_map, List.getElem?_range h1]
        rfl
    · intro l hl
      unfold Recursive.mk at hl
      obtain ⟨m, -, rfl⟩ := List.mem_map.1 hl
      exact hc m
  · cases h

end ExtMpi.Schedule

namespace ExtMpi.Recursive
open Schedule

theorem reduceBlock_poison {V : Type} [Add V] {z : V} (hz : Absorbs z) {N : Nat} {bs : Nat → Block} {s : Nat → Nat → V} {w : Nat → V}
    (lb gb p t : Nat) (first last : Bool) (hb : bs t = reduceBlock lb gb p t first last) (ht : t < N) (htl : t < lb) (R R' : Nat)
    (hv : s t (t + R * lb) = z) (hr : ∀ e, e ∈ reduceRecv gb p t first last R t → ∀ q, q < N → e.1 ≠ (q : Int))
    (hn : R' = R ∨ R' < (if last then 2 + p else 3 + p) ∧ t + R * lb ∈ reduceFrom lb gb p t first last R' t)
    (h : nodeStep N bs s t = some w) : w (t + R' * lb) = z := by
  have hlb : 0 < lb := by omega
  have d : ∀ R, (t + R * lb) / lb = R := fun R => by rw [Nat.add_mul_div_right _ _ hlb, Nat.div_eq_of_lt htl, Nat.zero_add]
  have m : ∀ R, (t + R * lb) % lb = t := fun R => by rw [Nat.add_mul_mod_self_right, Nat.mod_eq_of_lt htl]
  refine nodeStep_poison hz _ _ hb (fun _ => rfl) ht (t + R * lb) _ hv (fun _ => ?_) ?_ h
  · dsimp only
    rw [d, m]; exact hr
  · rcases hn with rfl | ⟨h1, h2⟩
    · exact .inl rfl
    · refine .inr ⟨?_, ?_⟩
      · have : (R' + 1) * lb ≤ (if last then 2 + p else 3 + p) * lb := Nat.mul_le_mul_right _ h1
        rw [Nat.add_mul] at this
        omega
      · dsimp only
        rw [d, m]; exact h2

/-- The steps after the first one. -/
theorem reduceSteps_poison {V : Type} [Add V] {z : V} (hz : Absorbs z) (N lb t : Nat) (ht : t < N) (htl : t < lb) (ps : List Nat) :
    (∀ p, p ∈ ps → 0 < p) → ps ≠ [] → ∀ (gb : Nat) (s s' : Nat → Nat → V), Run N (fun t => reduceSteps lb t false gb ps) s s' →
      s t (t + 2 * lb) = z → s' t (t + 1 * lb) = z := by
  induction ps with
  | nil => intro _ h; exact absurd rfl h
  | cons p ps ih =>
    intro hp _ gb s s' h hs
    cases h with
    | done h => exact absurd (h t ht) (by simp [reduceSteps])
    | step hd tl s1 h1 h2 h3 =>
      have e : ∀ t, t < N → hd t = reduceBlock lb gb p t false ps.isEmpty ∧ tl t = reduceSteps lb t false (gb / (p + 1)) ps := by
        intro t ht
        have : reduceSteps lb t false gb (p :: ps) = hd t :: tl t := h1 t ht
        rw [reduceSteps] at this
        injection this with x y
        exact ⟨x.symm, y.symm⟩
      have hp0 := hp p List.mem_cons_self
      cases ps with
      | nil =>
        have k : s1 t (t + 1 * lb) = z := by
          refine reduceBlock_poison hz lb gb p t false true (e t ht).1 ht htl 2 1 hs (fun e he => ?_) (.inr ⟨by simp; omega, ?_⟩) (h2 t ht)
          · simp [reduceRecv] at he
          · simp only [reduceFrom, and_self, if_true, true_and, Bool.false_eq_true, if_false]
            exact List.mem_map.2 ⟨0, List.mem_range.2 hp0, by simp⟩
        cases h3 with
        | done _ => exact k
        | step hd' tl' s2 h1' _ _ =>
          have := h1' t ht
          rw [(e t ht).2, reduceSteps] at this
          cases this
      | cons p' ps =>
        refine ih (fun x hx => hp x (List.mem_cons_of_mem _ hx)) (by simp) _ s1 s' (Run.congr h3 fun t ht => ((e t ht).2).symm) ?_
        refine reduceBlock_poison hz lb gb p t false false (e t ht).1 ht htl 2 2 hs (fun e he => ?_) (.inl rfl) (h2 t ht)
        simp [reduceRecv] at he

/-- All steps: the node one stride below the first missing node adds a value that was never written. -/
theorem reduceSteps_short {V : Type} [Add V] {z : V} (hz : Absorbs z) (N p : Nat) (nl : List Nat) (hp : ∀ x, x ∈ p :: nl → 0 < x)
    (hs : factor nl ≤ N) (hN : N < factor (p :: nl)) (hN0 : 0 < N) (s s' : Nat → Nat → V)
    (h : Run N (fun t => reduceSteps (factor (p :: nl)) t true (factor (p :: nl)) (p :: nl)) s s')
    (hjunk : ∀ k, factor (p :: nl) ≤ k → s (N - factor nl) k = z) : s' (N - factor nl) (N - factor nl + 1 * factor (p :: nl)) = z := by
  obtain ⟨lb, hlb⟩ : ∃ lb, lb = factor (p :: nl) := ⟨_, rfl⟩
  obtain ⟨g, hg⟩ : ∃ g, g = factor nl := ⟨_, rfl⟩
  obtain ⟨t, ht⟩ : ∃ t, t = N - g := ⟨_, rfl⟩
  have hg0 : 0 < g := by rw [hg]; exact factor_pos nl
  have hf : lb = g * (p + 1) := by rw [hlb, factor_cons, ← hg, Nat.mul_comm]
  have hdiv : lb / (p + 1) = g := by rw [hf, Nat.mul_div_cancel _ (by omega)]
  rw [← hg] at hs hjunk ⊢
  rw [← hlb] at hN h hjunk ⊢
  rw [← ht] at hjunk ⊢
  have htN : t < N := by omega
  have htl : t < lb := by omega
  have hp0 := hp p List.mem_cons_self
  have hpart : partner g lb t 0 = N := by
    unfold partner
    rw [Nat.zero_add, Nat.mul_one, Nat.div_eq_of_lt htl, Nat.zero_mul, Nat.add_zero, Nat.mod_eq_of_lt (by omega)]
    omega
  have hno : ∀ q, q < N → (partner g lb t 0 : Int) ≠ (q : Int) := by
    intro q hq e
    rw [hpart] at e
    have := Int.ofNat.inj e
    omega
  have hz' : ∀ R, 1 ≤ R → s t (t + R * lb) = z := fun R hR => hjunk _ (by
    have := Nat.mul_le_mul_right lb hR
    omega)
  cases h with
  | done h => exact absurd (h t htN) (by simp [reduceSteps])
  | step hd tl s1 h1 h2 h3 =>
    have e : ∀ t, t < N → hd t = reduceBlock lb lb p t true nl.isEmpty ∧ tl t = reduceSteps lb t false (lb / (p + 1)) nl := by
      intro t ht
      have : reduceSteps lb t true lb (p :: nl) = hd t :: tl t := h1 t ht
      rw [reduceSteps] at this
      injection this with x y
      exact ⟨x.symm, y.symm⟩
    cases nl with
    | nil =>
      have k : s1 t (t + 1 * lb) = z := by
        by_cases c : p = 1
        · subst c
          refine reduceBlock_poison hz lb lb 1 t true true (e t htN).1 htN htl 1 1 (hz' 1 (by omega)) (fun e he => ?_) (.inl rfl) (h2 t htN)
          simp only [reduceRecv, hdiv, and_self, if_true, List.mem_singleton] at he
          rw [he]
          exact hno
        · refine reduceBlock_poison hz lb lb p t true true (e t htN).1 htN htl 3 1 (hz' 3 (by omega)) (fun e he => ?_) (.inr ⟨by simp; omega, ?_⟩)
            (h2 t htN)
          · have h4 : 3 ≤ 3 ∧ 3 < 3 + (p - 1) := by omega
            simp only [reduceRecv, hdiv, and_self, if_true, if_pos h4, List.mem_singleton, show ¬ (3 = 1) from by decide, if_false] at he
            rw [he]
            exact hno
          · simp only [reduceFrom, and_self, if_true, true_and]
            exact List.mem_map.2 ⟨1, List.mem_range.2 (by omega), by simp⟩
      cases h3 with
      | done _ => exact k
      | step hd' tl' s2 h1' _ _ =>
        have := h1' t htN
        rw [(e t htN).2, reduceSteps] at this
        cases this
    | cons p' ps =>
      refine reduceSteps_poison hz N lb t htN htl (p' :: ps) (fun x hx => hp x (List.mem_cons_of_mem _ hx)) (by simp) (lb / (p + 1)) s1 s'
        (Run.congr h3 fun t ht => ((e t ht).2).symm) ?_
      refine reduceBlock_poison hz lb lb p t true false (e t htN).1 htN htl 2 2 (hz' 2 (by omega)) (fun e he => ?_) (.inl rfl) (h2 t htN)
      have h4 : 2 ≤ 2 ∧ 2 < 2 + p := by omega
      simp only [reduceRecv, hdiv, and_self, if_true, if_pos h4, List.mem_singleton, Bool.false_eq_true, if_false] at he
      rw [he]
      exact hno

/-- The recursive reduce_scatter is wrong on fewer nodes than the product of its factors. -/
theorem reduceScatter_short (nl : List Nat) (p N : Nat) (hp : ∀ x, x ∈ p :: nl → 0 < x) (hs : factor nl ≤ N) (hN : N < factor (p :: nl)) :
    ¬ Computes (V := WithTop Nat) N copyOutFirst (reduceScatter (p :: nl)) (ReduceScatterPost N) := by
  intro hc
  have hz : Absorbs (⊤ : WithTop Nat) := ⟨fun x => WithTop.top_add x, fun x => WithTop.add_top x⟩
  have hg0 := factor_pos nl
  obtain ⟨⟨out, h⟩, k⟩ := hc (fun _ _ => 0) (fun _ _ => ⊤)
  have k1 := k out h (N - factor nl) (by omega)
  obtain ⟨b0, bs, last, s', h1, h2, h3⟩ := h
  have e : ∀ t, t < N → b0 t = reduceFirst (factor (p :: nl)) ∧
      bs t = reduceSteps (factor (p :: nl)) t true (factor (p :: nl)) (p :: nl) ++ [scatterLast (factor (p :: nl)) t] := by
    intro t ht
    have := (h1 t ht).1
    unfold reduceScatter at this
    injection this with x y
    exact ⟨x.symm, y.symm⟩
  obtain ⟨m, r1, r2⟩ := Schedule.Run.split (p :: nl).length (fun t => reduceSteps (factor (p :: nl)) t true (factor (p :: nl)) (p :: nl))
    (fun t => [scatterLast (factor (p :: nl)) t]) _ _ (fun t _ => reduceSteps_length _ _ _ _ _) (Run.congr h2 fun t ht => ((e t ht).2).symm)
  have ht : N - factor nl < N := by omega
  have k2 := reduceSteps_short hz N p nl hp hs hN (by omega) _ m r1 (fun k hk => by
    rw [(e _ ht).1]
    unfold copyIn
    split
    · rename_i l hl
      unfold reduceFirst mk at hl
      rw [List.getElem?_map] at hl
      obtain ⟨x, hx, rfl⟩ := Option.map_eq_some_iff.1 hl
      obtain ⟨hlt, e⟩ := List.getElem?_eq_some_iff.1 hx
      rw [List.getElem_range] at e
      subst e
      rw [if_neg (by omega : ¬ k < factor (p :: nl))]
      simp
    · rfl)
  obtain ⟨t, htd⟩ : ∃ t, t = N - factor nl := ⟨_, rfl⟩
  obtain ⟨lb, hlb⟩ : ∃ lb, lb = factor (p :: nl) := ⟨_, rfl⟩
  rw [← htd] at k1 k2 ht
  rw [← hlb] at k2
  have k3 : s' t (t + 1 * lb) = ⊤ := by
    cases r2 with
    | done h => exact absurd (h t ht) (by simp)
    | step hd tl s1 g1 g2 g3 =>
      have e2 : ∀ t, t < N → hd t = scatterLast lb t ∧ tl t = [] := by
        intro t ht
        have := g1 t ht
        rw [hlb]
        injection this with x y
        exact ⟨x.symm, y.symm⟩
      have : s1 t (t + 1 * lb) = ⊤ := by
        refine nodeStep_poison hz (2 * lb) _ (e2 t ht).1 (fun n => ?_) ht (t + 1 * lb) (t + 1 * lb) k2 (fun _ x hx => ?_) (.inl rfl) (g2 t ht)
        · split <;> rfl
        · rw [if_neg (by omega)] at hx
          cases hx
      cases g3 with
      | done _ => exact this
      | step hd' tl' s2 g1' _ _ =>
        have := g1' t ht
        rw [(e2 t ht).2] at this
        cases this
  have k4 : last t = scatterLast lb t := by
    have := (h1 t ht).2
    rw [(e t ht).2, List.getLast?_append_of_ne_nil _ (by simp), List.getLast?_singleton] at this
    rw [hlb]
    exact (Option.some.inj this).symm
  have k5 : copyOutFirst (scatterLast lb t) (s' t) = some (s' t (t + 1 * lb)) := by
    refine copyOutFirst_mk _ _ _ _ (by omega) ?_ (fun m hm => ?_)
    · rw [if_neg (by omega), if_pos (by omega)]
      simp
    · by_cases c : m < lb
      · rw [if_pos c]
      · rw [if_neg c, if_neg (by omega)]
  rw [h3 t ht, k4, k5, k3] at k1
  simp at k1

end ExtMpi.Recursive
