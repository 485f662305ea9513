import Verif.Lemmas.GroupsSplit
/-! The schedule of a group as a schedule of all nodes. -/
namespace ExtMpi.Groups
open Schedule

/-- Line `k` of the lines for one line. -/
def liftLine (N : Nat) (sizes : List Nat) (t : Nat) (l : LineD) (k : Nat) : LineD :=
  { frac := numAt N sizes.tail (globalOf N sizes t l.frac) k
    sendto := (l.sendto.map fun e => (e.1, e.2 + (k : Int))).map (partner N sizes t)
    recvfrom := (l.recvfrom.map fun e => (e.1, e.2 * (sizes.tail.prod : Int) + (k : Int))).map (partner N sizes t)
    reducefrom := l.reducefrom.map fun r => r * sizes.tail.prod + k
    copyreducefrom := [] }

/-- The lines of a block. -/
def liftBlock (N : Nat) (sizes : List Nat) (t : Nat) (b : Block) : Block :=
  b.flatMap fun l => (List.range sizes.tail.prod).map (liftLine N sizes t l)

theorem mapM_eq {α β : Type} (f : α → Option β) (g : α → β) (l : List α) (h : ∀ a, a ∈ l → f a = some (g a)) :
    l.mapM f = some (l.map g) := by
  induction l with
  | nil => rfl
  | cons a l ih =>
    rw [List.mapM_cons, h a List.mem_cons_self, ih fun x hx => h x (List.mem_cons_of_mem _ hx)]
    rfl

/-- The steps of `ext_mpi_generate_allreduce` on the schedule of a group. -/
theorem side_eq (N g : Nat) (gs : List Nat) (hgs : gs ≠ []) (hg : 0 < g) (t : Nat) (data : List Block)
    (hd : ∀ b, b ∈ data → ∀ l, l ∈ b → l.frac < g)
    (hhead : ((data.head?.bind List.head?).map LineD.frac).getD 0 = localOf N (g :: gs) t) :
    (fracMultiply gs.prod (expandFrac N (g :: gs) t) (reviseFrac g data)).map (revisePartners N (g :: gs) false t) =
      some (data.map (liftBlock N (g :: gs) t)) := by
  have hl : localOf N (g :: gs) t < g := Nat.mod_lt _ hg
  unfold fracMultiply reviseFrac
  rw [hhead]
  simp only
  rw [List.mapM_map]
  rw [mapM_eq _ (fun b : Block => b.flatMap fun l => (List.range gs.prod).map fun k : Nat =>
    ({ frac := numAt N gs (globalOf N (g :: gs) t l.frac) k
       sendto := l.sendto.map fun e => (e.1, e.2 + (k : Int))
       recvfrom := l.recvfrom.map fun e => (e.1, e.2 * (gs.prod : Int) + (k : Int))
       reducefrom := l.reducefrom.map fun r => r * gs.prod + k
       copyreducefrom := [] } : LineD)) data]
  · rw [Option.map_some]
    congr 1
    unfold revisePartners
    rw [List.map_map]
    apply List.map_congr_left
    intro b _
    simp only [Function.comp_apply, liftBlock, List.tail_cons]
    rw [List.map_flatMap]
    congr 1
    funext l
    rw [List.map_map]
    rfl
  · intro b hb
    rw [Function.comp_apply, List.mapM_map]
    rw [mapM_eq _ (fun l : LineD => (List.range gs.prod).map fun k : Nat =>
      ({ frac := numAt N gs (globalOf N (g :: gs) t l.frac) k
         sendto := l.sendto.map fun e => (e.1, e.2 + (k : Int))
         recvfrom := l.recvfrom.map fun e => (e.1, e.2 * (gs.prod : Int) + (k : Int))
         reducefrom := l.reducefrom.map fun r => r * gs.prod + k
         copyreducefrom := [] } : LineD)) b]
    · rw [Option.map_some, List.flatMap_def]
    · intro l hlb
      have hf := hd b hb l hlb
      rw [Function.comp_apply]
      apply mapM_eq
      intro k hk
      have hk := List.mem_range.1 hk
      have hs := shift_back g l.frac _ hf hl
      have e : l.frac + g - localOf N (g :: gs) t = g + l.frac - localOf N (g :: gs) t := by omega
      rw [e] at hs
      unfold multLine
      simp only
      rw [expand_get N g gs hgs t _ k hs.2 hk, hs.1, expand_some N gs hgs _ k hk]
      rfl

theorem partner_fst (N : Nat) (sizes : List Nat) (t : Nat) (e : Int × Int) :
    (partner N sizes t e).1 = glInt (globalOf N sizes t) e.1 := by
  unfold partner glInt
  split <;> rfl

theorem liftLine_sim (N : Nat) (sizes : List Nat) (t c k : Nat) (l : LineD)
    (hc : ∀ j, globalOf N sizes c j = globalOf N sizes t j) :
    LineSim (fun f k => numAt N sizes.tail (globalOf N sizes c f) k) (globalOf N sizes c) sizes.tail.prod 0 k l
      (liftLine N sizes t l k) := by
  have hc' : globalOf N sizes c = globalOf N sizes t := funext hc
  rw [hc']
  constructor
  · rfl
  · unfold liftLine
    rw [List.map_map, List.map_map]
    apply List.map_congr_left
    intro e _
    exact partner_fst N sizes t _
  · unfold liftLine
    rw [List.map_map, List.map_map]
    apply List.map_congr_left
    intro e _
    exact partner_fst N sizes t _
  · unfold liftLine
    simp
  · rfl

theorem liftBlock_sim (N : Nat) (sizes : List Nat) (t c : Nat) (b : Block)
    (hc : ∀ j, globalOf N sizes c j = globalOf N sizes t j) :
    BlockSim (fun f k => numAt N sizes.tail (globalOf N sizes c f) k) (globalOf N sizes c) sizes.tail.prod 0 b
      (liftBlock N sizes t b) := by
  refine ⟨[], b.map fun l => (List.range sizes.tail.prod).map (liftLine N sizes t l), ?_, rfl, fun _ h => (by cases h), ?_⟩
  · rw [liftBlock, List.flatMap_def, List.nil_append]
  · rw [List.forall₂_map_right_iff, List.forall₂_same]
    intro l _
    constructor
    · simp
    · intro k l' hk
      by_cases c1 : k < sizes.tail.prod
      · rw [List.getElem?_map, List.getElem?_range c1] at hk
        cases Option.some.inj hk
        exact liftLine_sim N sizes t c k l hc
      · rw [List.getElem?_eq_none (by simp; omega)] at hk
        cases hk

end ExtMpi.Groups
