import Verif.Lemmas.RawCodeCopy
import Verif.Lemmas.CyclicScatter
import Mathlib.Algebra.BigOperators.Pi
/-! # Programs whose blocks place the lines differently -/
namespace ExtMpi.RawCode
open Schedule

section
variable {X : Type} [Add X]

/-- Execution of the first blocks of a list of blocks. -/
theorem blocks_prefix (N : Nat) (sz : Nat → Nat) (f : Nat → Nat → Nat) (p : Nat → List Block)
    (v v' : Nat → Nat → Nat → X) (hrun : Run N p v v') (hl : ∀ t, t < N → ∀ b, b ∈ p t → Lay sz b (f t))
    (q : Nat → List Block) :
    ∀ (first : Bool) (S : State X) (R : Nat → List Instr) (m : Nat → Mem X),
      Quiet N S (fun t => blocksCode N sz t first (p t ++ q t) ++ R t) m → (∀ t, t < N → Rep (f t) (m t) (v t)) →
      ∃ first' S' m', Reach N S S' ∧ Quiet N S' (fun t => blocksCode N sz t first' (q t) ++ R t) m' ∧
        (∀ t, t < N → Rep (f t) (m' t) (v' t)) ∧ ∀ t, t < N → ∀ r, (∀ k, r ≠ .shm k) → m' t r = m t r := by
  induction hrun with
  | @done p s hp =>
    intro first S R m hS hrep
    exact ⟨first, S, m, .refl _ _, hS.congr fun t ht => by rw [hp t ht]; rfl, hrep, fun _ _ _ _ => rfl⟩
  | @step p s s'' hd tl s' hp hstep hrest ih =>
    intro first S R m hS hrep
    obtain ⟨S1, g1, g2⟩ := Quiet.copies (is := fun _ => if first then [] else [.barrier])
      (R := fun t => blockCode N sz (hd t) t ++ (blocksCode N sz t false (tl t ++ q t) ++ R t)) (hS.congr
      fun t ht => by rw [hp t ht, List.cons_append, blocksCode]; simp only [List.append_assoc])
      (fun t ht i hi => by
        cases first with
        | true => cases hi
        | false => rw [List.mem_singleton.1 hi]; exact trivial)
    have g2' : Quiet N S1 (fun t => blockCode N sz (hd t) t ++ (blocksCode N sz t false (tl t ++ q t) ++ R t)) m := by
      refine ⟨g2.chan, fun t ht => ?_⟩
      rw [g2.proc t ht]
      cases first <;> rfl
    obtain ⟨S2, m2, k1, k2, k3, k4⟩ := block_run N sz hd f
      (fun t ht => hl t ht _ (by rw [hp t ht]; exact List.mem_cons_self)) s s' hstep S1 _ m g2' hrep
    obtain ⟨first', S3, m3, l1, l2, l3, l4⟩ := ih
      (fun t ht b hb => hl t ht b (by rw [hp t ht]; exact List.mem_cons_of_mem _ hb)) false S2 R m2 k2 k3
    exact ⟨first', S3, m3, (g1.trans k1).trans l1, l2, l3, fun t ht r hr => by rw [l4 t ht r hr, k4 t ht r hr]⟩

/-- The whole program from the effect of its parts; `A` holds after the copy-in and `B` before the copy-out. -/
theorem assemble2 (N : Nat) (sz : Nat → Nat) (kind : Kind) (sched : Nat → List Block) (m : Nat → Mem X)
    (b0 last : Nat → Block) (bs : Nat → List Block)
    (hs : ∀ t, t < N → sched t = b0 t :: bs t ∧ (bs t).getLast? = some (last t))
    (hcov : ∀ t, t < N → ∀ b, b ∈ bs t → covered b = true)
    (hfrac0 : ∀ t, t < N → ∀ l, l ∈ b0 t → l.frac < N) (hfrac1 : ∀ t, t < N → ∀ l, l ∈ last t → l.frac < N)
    (A B P : Nat → Mem X → Prop)
    (hin : ∀ t, t < N → (∀ i, i ∈ copyInCode N sz kind (b0 t) t → okI i) ∧
      A t ((copyInCode N sz kind (b0 t) t).foldl exec1 (m t)) ∧
      Same0 (m t) ((copyInCode N sz kind (b0 t) t).foldl exec1 (m t)))
    (hmid : ∀ (S : State X) (R : Nat → List Instr) (m1 : Nat → Mem X),
      Quiet N S (fun t => blocksCode N (mmsize N sz) t true (bs t) ++ R t) m1 → (∀ t, t < N → A t (m1 t)) →
      ∃ S' m2, Reach N S S' ∧ Quiet N S' R m2 ∧ (∀ t, t < N → B t (m2 t)) ∧
        ∀ t, t < N → ∀ r, (∀ k, r ≠ .shm k) → m2 t r = m1 t r)
    (hout : ∀ t, t < N → ∀ m2, B t m2 → (∀ r, (∀ k, r ≠ .shm k) → m2 r = m t r) →
      (∀ i, i ∈ copyOutCode N sz kind (last t) t → okI i) ∧
      P t ((copyOutCode N sz kind (last t) t).foldl exec1 m2)) :
    ∃ prog : Nat → List Instr, (∀ t, t < N → program N sz kind (sched t) t = some (prog t)) ∧
      Correct N prog m fun mem => ∀ t, t < N → P t (mem t) := by
  refine ⟨fun t => copyInCode N sz kind (b0 t) t ++ blocksCode N (mmsize N sz) t true (bs t) ++
    copyOutCode N sz kind (last t) t, fun t ht => ?_, ?_⟩
  · obtain ⟨h1, h2⟩ := hs t ht
    have h3 : (sched t).getLast? = some (last t) := by rw [h1, List.getLast?_cons, h2]; rfl
    unfold program
    rw [h3, h1]
    dsimp only
    rw [if_pos]
    rw [Bool.and_eq_true]
    refine ⟨List.all_eq_true.2 fun b hb => hcov t ht b hb, List.all_eq_true.2 fun l hl => decide_eq_true ?_⟩
    rcases List.mem_append.1 hl with hl | hl
    · exact hfrac0 t ht l hl
    · exact hfrac1 t ht l hl
  · obtain ⟨S1, a1, a2⟩ := Quiet.copies (is := fun t => copyInCode N sz kind (b0 t) t)
      (R := fun t => blocksCode N (mmsize N sz) t true (bs t) ++ copyOutCode N sz kind (last t) t)
      ((quiet_initial N (fun t => copyInCode N sz kind (b0 t) t ++ blocksCode N (mmsize N sz) t true (bs t) ++
        copyOutCode N sz kind (last t) t) m).congr fun t ht => List.append_assoc _ _ _)
      (fun t ht => (hin t ht).1)
    obtain ⟨S2, m2, c1, c2, c3, c4⟩ := hmid S1 _ _ a2 (fun t ht => (hin t ht).2.1)
    have hO := fun t ht => hout t ht (m2 t) (c3 t ht) fun r hr => by
      rw [c4 t ht r hr, (hin t ht).2.2 r (hr 0)]
    obtain ⟨S3, d1, d2⟩ := Quiet.copies (R := fun _ => []) (is := fun t => copyOutCode N sz kind (last t) t)
      (c2.congr fun t ht => (List.append_nil _).symm) (fun t ht => (hO t ht).1)
    obtain ⟨n, hn⟩ := (a1.trans c1).trans d1
    refine correct_of_run hn (fun t ht => ?_) fun t ht => ?_
    · rw [d2.proc t ht]
      exact ⟨rfl, fun q => ⟨rfl, rfl, d2.chan q t, d2.chan t q⟩⟩
    · dsimp only
      rw [d2.proc t ht]
      exact (hO t ht).2

end

section
variable {X : Type} [AddCommMonoid X]
open CyclicReduce

/-- The first `S` lines of the nodes hold the contributions `collect`. -/
def Held (N : Nat) (sz : Nat → Nat) (c : Nat → Nat) (inp : Nat → Nat → Nat → X) (S : Nat) (t : Nat) (m : Mem X) : Prop :=
  ∀ n i, n < S → i < sz ((n + t) % N) →
    m (.shm 0) (lo (fun n => sz ((n + t) % N)) n + i) = collect N c inp t n i

theorem scatterBlock_frac {N gb S p task : Nat} {fr : Nat → Nat} {n : Nat} {l : LineD}
    (h : (scatterBlock N gb S p task fr)[n]? = some l) : l.frac = scatterNum S p fr n := by
  rw [(mk_get h).2]
  unfold scatterNum
  dsimp only
  split <;> rfl

/-- The reduction steps on memory. Every step places the received lines at another position, but the lines that are
left keep theirs. -/
theorem scatter_mem (N : Nat) (sz : Nat → Nat) (inp : Nat → Nat → Nat → X) (q : Nat → List Block)
    (R : Nat → List Instr) (ps : List Nat) :
    ∀ (S : Nat) (c : Nat → Nat) (first : Bool) (st : State X) (m : Nat → Mem X), 0 < S → S ≤ N → (∀ e, e < N → c e < S) →
      Quiet N st (fun t => blocksCode N (mmsize N sz) t first
        (scatterSteps N t (fun line => (line + t) % N) S S ps ++ q t) ++ R t) m →
      (∀ t, t < N → Held N sz c inp S t (m t)) →
      ∃ c' first' st' m', (∀ e, e < N → c' e < chunks S ps) ∧ Reach N st st' ∧
        Quiet N st' (fun t => blocksCode N (mmsize N sz) t first' (q t) ++ R t) m' ∧
        (∀ t, t < N → Held N sz c' inp (chunks S ps) t (m' t)) ∧
        ∀ t, t < N → ∀ r, (∀ k, r ≠ .shm k) → m' t r = m t r := by
  induction ps with
  | nil =>
    intro S c first st m hS hSN hc hQ hH
    exact ⟨c, first, st, m, hc, .refl _ _, hQ, hH, fun _ _ _ _ => rfl⟩
  | cons p ps ih =>
    intro S c first st m hS hSN hc hQ hH
    obtain ⟨j, hj⟩ : ∃ j, j = chunk S p := ⟨_, rfl⟩
    have hj0 : 0 < j := hj ▸ chunk_pos S p
    have hjS : j ≤ S := hj ▸ chunk_le S p hS
    have hN : 0 < N := by omega
    -- layout of the step
    obtain ⟨g, hg⟩ : ∃ g : Nat → Nat → Nat, g = fun t n => sz (scatterNum S p (fun line => (line + t) % N) n) := ⟨_, rfl⟩
    have hgS : ∀ t n, n < S → g t n = sz ((n + t) % N) := by
      intro t n hn
      rw [hg]
      dsimp only
      rw [scatterNum, if_pos hn]
    have hlo : ∀ t n, n ≤ S → lo (g t) n = lo (fun n => sz ((n + t) % N)) n := by
      intro t n hn
      exact lo_congr _ _ _ fun k hk => hgS t k (by omega)
    have hnum : ∀ t n, scatterNum S p (fun line => (line + t) % N) n < N := by
      intro t n
      unfold scatterNum
      split <;> exact Nat.mod_lt _ hN
    obtain ⟨v, hv⟩ : ∃ v : Nat → Nat → Nat → X, v = fun t n => if n < S then collect N c inp t n else
        fun i => m t (.shm 0) (lo (g t) n + i) := ⟨_, rfl⟩
    have hrep : ∀ t, t < N → Rep (g t) (m t) (v t) := by
      intro t ht n i hi
      rw [hv]
      dsimp only
      by_cases h : n < S
      · rw [if_pos h, hlo t n (by omega)]
        exact hH t ht n i h (by rw [← hgS t n h]; exact hi)
      · rw [if_neg h]
    obtain ⟨s1, s2, h1, h2, h3⟩ := scatter_step N S p hS hSN v
    have hrun : Run N (fun t => [scatterBlock N (chunk S p) S p t fun line => (line + t) % N,
        scatterReduce S p fun line => (line + t) % N]) v s2 :=
      .step _ _ s1 (fun _ _ => rfl) h1 (Recursive.Run.single h2)
    obtain ⟨first1, st1, m1, k1, k2, k3, k4⟩ := blocks_prefix N (mmsize N sz) g _ v s2 hrun (by
        intro t ht b hb
        have he : ∀ (n : Nat) (l : LineD), b[n]? = some l → l.frac = scatterNum S p (fun line => (line + t) % N) n := by
          intro n l hl
          rcases List.mem_cons.1 hb with rfl | hb
          · exact scatterBlock_frac hl
          · rw [List.mem_singleton.1 hb] at hl
            rw [(mk_get hl).2]
        intro n hn
        rw [lineSize, List.getElem?_eq_getElem hn]
        dsimp only
        rw [he n _ (List.getElem?_eq_getElem hn), mmsize, Nat.mod_eq_of_lt (hnum t n), hg])
      (fun t => scatterSteps N t (fun line => (line + t) % N) (chunk S p) (chunk S p) ps ++ q t) first st R m
      (hQ.congr fun t ht => by rfl) hrep
    obtain ⟨c', first', st', m', l1, l2, l3, l4, l5⟩ := ih (chunk S p) (fun e => c e % chunk S p) first1 st1 m1
      (chunk_pos S p) (by omega) (fun e _ => Nat.mod_lt _ (chunk_pos S p)) k2 (by
        intro t ht n i hn hi
        have hnS : n < S := by omega
        rw [← hlo t n (by omega), k3 t ht n i (by rw [hgS t n hnS]; exact hi), h3 t n ht hn,
          ← collect_step N S (chunk S p) (by omega) hSN c hc inp t n hn]
        refine congrFun (Finset.sum_congr rfl fun y hy => ?_) i
        rw [hv]
        dsimp only
        rw [if_pos (Finset.mem_range.1 (Finset.mem_filter.1 hy).1)])
    exact ⟨c', first', st', m', l1, k1.trans l2, l3, l4, fun t ht r hr => by rw [l5 t ht r hr, k4 t ht r hr]⟩

end
end ExtMpi.RawCode
