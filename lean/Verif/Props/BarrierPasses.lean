import Verif.Spec.BarrierPasses
/-!
# C28: removal of barriers
-/
namespace ExtMpi.BarrierPasses

theorem epochsFrom_shift (n : Nat) (ls : List (Line Nat)) : epochsFrom n ls = (epochs ls).map (n + ·) := by
  unfold epochs
  suffices ∀ m, epochsFrom (n + m) ls = (epochsFrom m ls).map (n + ·) from this 0
  induction ls with
  | nil => intro m; rfl
  | cons l ls ih =>
    intro m
    cases l <;> simp only [epochsFrom, List.map_cons, ih]
    rw [Nat.add_assoc, ih]

theorem epochs_length (ls : List (Line Nat)) : (epochs ls).length = (works ls).length := by
  unfold epochs
  suffices ∀ m, (epochsFrom m ls).length = (works ls).length from this 0
  induction ls with
  | nil => intro m; rfl
  | cons l ls ih => intro m; cases l <;> simp [epochsFrom, works] <;> exact ih _

/-- What the loop does up to the next barrier. -/
theorem runSeg_spec (f : Bool) (ls : List (Line Nat)) :
    ids (runSeg f ls).1 = [] ∧
    (∀ n, epochsFrom n (runSeg f ls).1 = List.replicate (works (runSeg f ls).1).length n) ∧
    ((runSeg f ls).2.1 = true ↔ f = true ∧ works (runSeg f ls).1 = []) ∧
    match (runSeg f ls).2.2 with
    | none => ids ls = [] ∧ works ls = works (runSeg f ls).1 ∧ ∀ n, epochsFrom n ls = epochsFrom n (runSeg f ls).1
    | some (id, rest) => ids ls = id :: ids rest ∧ works ls = works (runSeg f ls).1 ++ works rest ∧
        ∀ n, epochsFrom n ls = epochsFrom n (runSeg f ls).1 ++ epochsFrom (n + 1) rest := by
  induction ls generalizing f with
  | nil => simp [runSeg, ids, works, epochsFrom]
  | cons l ls ih =>
    cases l with
    | barrier id => simp [runSeg, ids, works, epochsFrom]
    | nop => exact ih f
    | waitany0 => exact ih f
    | work k =>
      obtain ⟨h1, h2, h3, h4⟩ := ih false
      refine ⟨h1, ?_, ?_, ?_⟩
      · intro n
        simp only [runSeg, epochsFrom, h2 n]
        simp [works, List.replicate_succ]
      · have : (runSeg false ls).2.1 = false := by
          cases h : (runSeg false ls).2.1 with
          | false => rfl
          | true => exact absurd (h3.mp h).1 (by simp)
        simp [runSeg, this, works]
      · simp only [runSeg]
        revert h4
        cases (runSeg false ls).2.2 with
        | none =>
          rintro ⟨g1, g2, g3⟩
          refine ⟨g1, ?_, ?_⟩
          · show k :: works ls = k :: works _
            rw [g2]
          · intro n; simp only [epochsFrom, g3 n]
        | some x =>
          rintro ⟨g1, g2, g3⟩
          refine ⟨g1, ?_, ?_⟩
          · show k :: works ls = k :: works _ ++ _
            rw [g2]; rfl
          · intro n; simp only [epochsFrom, g3 n, List.cons_append]

section
variable {R C : Type} [Fintype R] [Fintype C]

theorem globalFlag_eq (f : R × C → Bool) (p : R × C) : globalFlag f p = decide (∀ q, f q = true) := by
  unfold globalFlag
  simp only [decide_eq_true_eq]
  congr 1
  apply propext
  constructor
  · rintro h ⟨r, c⟩; exact h c r
  · intro h c r; exact h (r, c)

theorem clean_end {α : Type} (fuel : Nat) (ps : R × C → Bool × List (Line α)) {w : R × C → List (Line α)} {fl : R × C → Bool}
    (h : ∀ p, runSeg (ps p).1 (ps p).2 = (w p, fl p, none)) : clean (fuel + 1) ps = some w := by
  unfold clean
  simp only [h, implies_true, if_true]

theorem clean_bar {α : Type} [Nonempty R] [Nonempty C] (fuel : Nat) (ps : R × C → Bool × List (Line α))
    {w rest : R × C → List (Line α)} {fl : R × C → Bool} {id : R × C → Nat}
    (h : ∀ p, runSeg (ps p).1 (ps p).2 = (w p, fl p, some (id p, rest p))) :
    clean (fuel + 1) ps = (clean fuel fun p => (true, rest p)).map fun out p =>
      w p ++ (if decide (∀ q, fl q = true) then [] else [.barrier (id p)]) ++ out p := by
  conv_lhs => unfold clean
  simp only [h, globalFlag_eq, reduceCtorEq, forall_const, if_false, ne_eq, not_false_eq_true, implies_true, if_true]

theorem ids_append (a b : List (Line Nat)) : ids (a ++ b) = ids a ++ ids b := by
  simp [ids, List.filterMap_append]

theorem works_append (a b : List (Line Nat)) : works (a ++ b) = works a ++ works b := by
  simp [works, List.filterMap_append]

theorem epochsFrom_append (n : Nat) (a b : List (Line Nat)) :
    epochsFrom n (a ++ b) = epochsFrom n a ++ epochsFrom (n + (ids a).length) b := by
  induction a generalizing n with
  | nil => rfl
  | cons l a ih =>
    cases l <;> simp only [List.cons_append, epochsFrom, ih] <;> simp [ids] <;> congr 1 <;> omega

/-- Order in terms of pairs of epochs. -/
def Ord (z1 z2 : List (Nat × Nat)) : Prop := ∀ x ∈ z1, ∀ y ∈ z2, (x.1 < y.1 ↔ x.2 < y.2)

theorem clean_main [Nonempty R] [Nonempty C] (fuel : Nat) : ∀ (ps : R × C → Bool × List (Line Nat)) (L : List Nat),
    (∀ p, ids (ps p).2 = L) → L.length < fuel →
    ∃ out K, clean fuel ps = some out ∧ K.Sublist L ∧ (∀ p, ids (out p) = K) ∧
      (∀ p, works (out p) = works (ps p).2) ∧
      ∀ p q, Ord ((epochs (ps p).2).zip (epochs (out p))) ((epochs (ps q).2).zip (epochs (out q))) := by
  induction fuel with
  | zero => intro ps L _ h; omega
  | succ fuel ih =>
    intro ps L hL hf
    let rs := fun p => runSeg (ps p).1 (ps p).2
    have hs := fun p => runSeg_spec (ps p).1 (ps p).2
    have pt : R × C := (Classical.arbitrary R, Classical.arbitrary C)
    cases L with
    | nil =>
      have hnone : ∀ p, (rs p).2.2 = none := by
        intro p
        have h4 := (hs p).2.2.2
        show (runSeg (ps p).1 (ps p).2).2.2 = none
        cases hx : (runSeg (ps p).1 (ps p).2).2.2 with
        | none => rfl
        | some x => rw [hx] at h4; have g := h4.1; rw [hL p] at g; cases g
      have hx : ∀ p, works (ps p).2 = works (rs p).1 ∧ ∀ n, epochsFrom n (ps p).2 = epochsFrom n (rs p).1 := by
        intro p
        obtain ⟨_, _, _, h4⟩ := hs p
        have hn := hnone p
        simp only [rs] at hn
        rw [hn] at h4
        exact h4.2
      refine ⟨fun p => (rs p).1, [], ?_, List.Sublist.refl _, fun p => (hs p).1, fun p => (hx p).1.symm, ?_⟩
      · unfold clean
        exact if_pos hnone
      · intro p q x hx' y hy
        unfold epochs at hx' hy
        rw [(hx p).2 0, (hs p).2.1 0, List.zip_replicate', List.mem_replicate] at hx'
        rw [(hx q).2 0, (hs q).2.1 0, List.zip_replicate', List.mem_replicate] at hy
        rw [hx'.2, hy.2]
    | cons id L =>
      have hsome : ∀ p, ∃ rest, (rs p).2.2 = some (id, rest) ∧ ids rest = L ∧
          works (ps p).2 = works (rs p).1 ++ works rest ∧
          ∀ n, epochsFrom n (ps p).2 = epochsFrom n (rs p).1 ++ epochsFrom (n + 1) rest := by
        intro p
        have h4 := (hs p).2.2.2
        cases hx : (runSeg (ps p).1 (ps p).2).2.2 with
        | none => rw [hx] at h4; have g := h4.1; rw [hL p] at g; cases g
        | some x =>
          obtain ⟨id', rest⟩ := x
          rw [hx] at h4
          obtain ⟨g1, g2, g3⟩ := h4
          rw [hL p] at g1
          obtain ⟨g4, g5⟩ := List.cons.inj g1
          exact ⟨rest, by rw [g4], g5.symm, g2, g3⟩
      choose rest hr1 hr2 hr3 hr4 using hsome
      obtain ⟨out, K, ho, hK, hi, hw, hord⟩ := ih (fun p => (true, rest p)) L hr2 (by simpa using hf)
      obtain ⟨flag, hflag⟩ : ∃ flag : Bool, flag = decide (∀ q, (rs q).2.1 = true) := ⟨_, rfl⟩
      obtain ⟨b, hbd⟩ : ∃ b : List (Line Nat), b = if flag then [] else [.barrier id] := ⟨_, rfl⟩
      have hb : ids b = if flag then [] else [id] := by
        rw [hbd]; cases flag <;> rfl
      have hbw : works b = [] := by rw [hbd]; cases flag <;> rfl
      refine ⟨fun p => (rs p).1 ++ b ++ out p, ids b ++ K, ?_, ?_, ?_, ?_, ?_⟩
      · rw [clean_bar fuel ps (w := fun p => (rs p).1) (fl := fun p => (rs p).2.1) (id := fun _ => id) (rest := rest)
          (fun p => by rw [← hr1 p]), ho, Option.map_some]
        congr 1
        funext p
        rw [← hflag, hbd]
      · rw [hb]
        cases flag
        · exact hK.cons_cons id
        · exact hK.cons id
      · intro p
        rw [ids_append, ids_append, (hs p).1, hi p]; rfl
      · intro p
        rw [works_append, works_append, hbw, hw p, hr3 p, List.append_nil]
      · have hE : ∀ p, ∀ x ∈ (epochs (ps p).2).zip (epochs ((rs p).1 ++ b ++ out p)),
            (x = (0, 0) ∧ flag = false) ∨ ∃ y ∈ (epochs (rest p)).zip (epochs (out p)),
              x = (1 + y.1, (if flag then 0 else 1) + y.2) := by
          intro p x hx
          have hlen : (ids b).length = if flag then 0 else 1 := by rw [hb]; cases flag <;> rfl
          have hbe : ∀ n, epochsFrom n b = [] := by intro n; rw [hbd]; cases flag <;> rfl
          unfold epochs at hx
          rw [hr4 p 0, epochsFrom_append, epochsFrom_append, hbe, List.append_nil, ids_append, (hs p).1,
            List.nil_append, hlen, List.zip_append rfl, List.mem_append] at hx
          rcases hx with hx | hx
          · left
            rw [(hs p).2.1 0, List.zip_replicate', List.mem_replicate] at hx
            refine ⟨hx.2, ?_⟩
            by_contra hc
            have hfl : flag = true := by cases h : flag; exact absurd h hc; rfl
            rw [hflag, decide_eq_true_eq] at hfl
            have := ((hs p).2.2.1.mp (hfl p)).2
            rw [this] at hx
            exact hx.1 rfl
          · right
            rw [epochsFrom_shift (0 + 1), epochsFrom_shift, List.zip_map, List.mem_map] at hx
            obtain ⟨y, hy, rfl⟩ := hx
            refine ⟨y, hy, ?_⟩
            simp [Prod.map]
        intro p q x hx y hy
        rcases hE p x hx with ⟨rfl, hfx⟩ | ⟨x', hx', rfl⟩ <;> rcases hE q y hy with ⟨rfl, hfy⟩ | ⟨y', hy', rfl⟩
        · exact Iff.rfl
        · simp only [hfx, Bool.false_eq_true, if_false]; omega
        · simp only [hfy, Bool.false_eq_true, if_false]; omega
        · have := hord p q x' hx' y' hy'
          simp only
          omega

/-- C28 for `ext_mpi_clean_barriers`: if all processes of a socket have the same barriers, the pass ends, and
the remaining barriers are the same on every process and in the same order. No work is lost, and two
pieces of work of any two processes are separated by a barrier after the pass iff they were before. -/
theorem clean_barriers [Nonempty R] [Nonempty C] (ps : R × C → List (Line Nat)) (L : List Nat)
    (h : ∀ p, ids (ps p) = L) (fuel : Nat) (hf : L.length < fuel) :
    ∃ out K, cleanBarriers fuel ps = some out ∧ K.Sublist L ∧ (∀ p, ids (out p) = K) ∧
      (∀ p, works (out p) = works (ps p)) ∧ ∀ p q, SameOrder (ps p) (out p) (ps q) (out q) := by
  obtain ⟨out, K, h1, h2, h3, h4, h5⟩ := clean_main fuel (fun p => (false, ps p)) L h hf
  refine ⟨out, K, h1, h2, h3, h4, ?_⟩
  intro p q i j a b a' b' ha hb ha' hb'
  apply h5 p q (a, a') _ (b, b')
  · rw [List.mem_iff_getElem?]; exact ⟨j, by rw [List.getElem?_zip_eq_some]; exact ⟨hb, hb'⟩⟩
  · rw [List.mem_iff_getElem?]; exact ⟨i, by rw [List.getElem?_zip_eq_some]; exact ⟨ha, ha'⟩⟩

/-- If the numbers of barriers differ the pass never ends. -/
theorem clean_deadlock (fuel : Nat) (ps : R × C → List (Line Nat)) (p q : R × C)
    (h : (ids (ps p)).length ≠ (ids (ps q)).length) : cleanBarriers fuel ps = none := by
  unfold cleanBarriers
  generalize hps : (fun p => (false, ps p)) = ps'
  have h' : (ids (ps' p).2).length ≠ (ids (ps' q).2).length := by rw [← hps]; exact h
  clear hps h
  induction fuel generalizing ps' with
  | zero => rfl
  | succ fuel ih =>
    have hp := (runSeg_spec (ps' p).1 (ps' p).2).2.2.2
    have hq := (runSeg_spec (ps' q).1 (ps' q).2).2.2.2
    unfold clean
    simp only
    by_cases h1 : ∀ p, (runSeg (ps' p).1 (ps' p).2).2.2 = none
    · rw [h1 p] at hp
      rw [h1 q] at hq
      rw [hp.1, hq.1] at h'
      exact absurd rfl h'
    · rw [if_neg h1]
      split
      · rename_i h2
        obtain ⟨x, hx⟩ := Option.ne_none_iff_exists'.mp (h2 p)
        obtain ⟨y, hy⟩ := Option.ne_none_iff_exists'.mp (h2 q)
        rw [hx] at hp
        rw [hy] at hq
        rw [ih]
        · rfl
        · simp only [hx, hy]
          rw [hp.1, hq.1, List.length_cons, List.length_cons] at h'
          omega
      · rfl

end

/-- C28 for `ext_mpi_generate_no_first_barrier`: exactly the first barrier is removed, on every process, and no
work. -/
theorem no_first (ls : List (Line Nat)) : ids (noFirst true ls) = (ids ls).tail ∧ works (noFirst true ls) = works ls := by
  have hfalse : ∀ ls : List (Line Nat), noFirst false ls = ls := by
    intro ls
    induction ls with
    | nil => rfl
    | cons l ls ih => cases l <;> simp [noFirst, ih]
  induction ls with
  | nil => exact ⟨rfl, rfl⟩
  | cons l ls ih =>
    cases l with
    | barrier id => simp only [noFirst, hfalse]; exact ⟨rfl, rfl⟩
    | nop => exact ih
    | waitany0 => exact ih
    | work k =>
      refine ⟨ih.1, ?_⟩
      show k :: works (noFirst true ls) = k :: works ls
      rw [ih.2]

/-- C28 for `ext_mpi_generate_no_socket_barriers`: all barriers are removed, no work, and only if there is a single
process. -/
theorem no_socket (n : Nat) (ls : List (Line Nat)) :
    (noSocket n ls = none ↔ n ≠ 1) ∧ ∀ out, noSocket n ls = some out → ids out = [] ∧ works out = works ls := by
  unfold noSocket
  constructor
  · split <;> simp_all
  · intro out h
    split at h
    · cases h
    · simp only [Option.some.injEq] at h
      subst h
      induction ls with
      | nil => exact ⟨rfl, rfl⟩
      | cons l ls ih =>
        cases l with
        | barrier id => exact ih
        | nop => exact ih
        | waitany0 => exact ih
        | work k =>
          refine ⟨ih.1, ?_⟩
          show k :: works _ = k :: works ls
          rw [ih.2]

/-- The passes in sequence keep the processes in step. -/
theorem in_step {R C : Type} [Fintype R] [Fintype C] [Nonempty R] [Nonempty C] (ps : R × C → List (Line Nat))
    (L : List Nat) (h : ∀ p, ids (ps p) = L) (fuel : Nat) (hf : L.length < fuel) :
    ∃ out, cleanBarriers fuel ps = some out ∧ ∀ p q (k : Nat),
      (ids (noFirst true (out p)))[k]? = (ids (noFirst true (out q)))[k]? := by
  obtain ⟨out, K, h1, _, h3, _, _⟩ := clean_barriers ps L h fuel hf
  refine ⟨out, h1, fun p q k => ?_⟩
  rw [(no_first _).1, (no_first _).1, h3, h3]

/-! ### Two processes -/

/-- Process 0 works between the barriers 0 and 1, process 1 between 1 and 2; no one between 2 and 3. -/
def sample : Fin 2 × Fin 1 → List (Line Nat)
  | (0, _) => [.barrier 0, .work 5, .barrier 1, .nop, .barrier 2, .nop, .barrier 3, .work 6]
  | (1, _) => [.barrier 0, .waitany0, .barrier 1, .work 7, .barrier 2, .barrier 3, .work 8]

theorem sample_ids : ∀ p, ids (sample p) = [0, 1, 2, 3] := by
  rintro ⟨r, c⟩
  match r with
  | 0 => rfl
  | 1 => rfl

example : ∃ out, cleanBarriers 5 sample = some out ∧
    out (0, 0) = [.barrier 0, .work 5, .barrier 1, .barrier 2, .work 6] ∧
    out (1, 0) = [.barrier 0, .barrier 1, .work 7, .barrier 2, .work 8] := ⟨_, rfl, by decide, by decide⟩

example : ∃ out K, cleanBarriers 5 sample = some out ∧ List.Sublist K [0, 1, 2, 3] ∧ ∀ p, ids (out p) = K := by
  obtain ⟨out, K, h1, h2, h3, _⟩ := clean_barriers sample [0, 1, 2, 3] sample_ids 5 (by decide)
  exact ⟨out, K, h1, h2, h3⟩

end ExtMpi.BarrierPasses
