import Verif.Lemmas.ClusterAssemble
import Verif.Lemmas.ClusterSchedules
import Verif.Lemmas.ClusterCyclic
import Verif.Props.RawCodeCyclic
import Verif.Spec.Cluster
/-! The copy-out of the reductions by several processes on several nodes. -/
namespace ExtMpi.Cluster
open RawCode Schedule RankPerm
open TasksNode
open OnNode (Par sig)

/-- Sum over the nodes and over the processes of a node. -/
theorem sum_nodes {X : Type} [AddCommMonoid X] (ns : Nat) (hns : 0 < ns) (f : Nat → Nat → X) (N : Nat) :
    ∑ a ∈ Finset.range N, ∑ q ∈ Finset.range ns, f a (a * ns + q) = ∑ p ∈ Finset.range (N * ns), f (p / ns) p := by
  induction N with
  | zero => rw [Nat.zero_mul]; rfl
  | succ N ih =>
    rw [Finset.sum_range_succ, ih, Nat.succ_mul, Finset.sum_range_add]
    congr 1
    apply Finset.sum_congr rfl
    intro q hq
    rw [proc_div (Finset.mem_range.1 hq)]

/-- Sum of the send buffers of the processes of node `a`: element `i` of piece `g`. -/
def nodeIn {X : Type} [AddCommMonoid X] (ns : Nat) (u : Users) (sz : Nat → Nat) (m : Nat → Mem X) (a g i : Nat) : X :=
  ∑ q ∈ Finset.range ns, m a .send (u.send (a * ns + q) + (moffset sz g + i))

/-- The schedules of a reduction. -/
structure Red (N ns : Nat) (sz : Nat → Nat) (perm : List Nat) (sched : Nat → List Block) (b0 last : Nat → Block)
    (bs : Nat → List Block) : Prop where
  split : ∀ t, t < N → sched t = b0 t :: bs t ∧ (bs t).getLast? = some (last t)
  run : ∃ v s' : Nat → Nat → Nat, Run N bs v s'
  agree : ∀ k, (∀ a, a < N → k < (bs a).length) → Agree N ns perm fun a => (bs a).getD k []
  good : ∀ t, t < N → ∀ b, b ∈ sched t → Good N b
  frac0 : ∀ t, t < N → ∀ l, l ∈ b0 t → l.frac < N
  frac1 : ∀ t, t < N → ∀ l, l ∈ last t → l.frac < N
  full : ∀ t, t < N → moffset sz N ≤ OnNode.total sz (b0 t)

section
variable {X : Type} [AddCommMonoid X] {N ns : Nat} {sz : Nat → Nat} {perm : List Nat} {sched : Nat → List Block}
  {b0 last : Nat → Block} {bs : Nat → List Block}

/-- The blocks lead from `A` to `B`. -/
def Leads (X : Type) [Add X] (N : Nat) (sz : Nat → Nat) (bs : Nat → List Block) (A B : Nat → Mem X → Prop) : Prop :=
  ∀ (S : State X) (R : Nat → List Instr) (m1 : Nat → Mem X),
    RawCode.Quiet N S (fun t => blocksCode N (mmsize N sz) t true (bs t) ++ R t) m1 → (∀ t, t < N → A t (m1 t)) →
    ∃ S' m2, Reach N S S' ∧ RawCode.Quiet N S' R m2 ∧ (∀ t, t < N → B t (m2 t)) ∧
      ∀ t, t < N → ∀ r, (∀ k, r ≠ .shm k) → m2 t r = m1 t r

/-- Allreduce. -/
theorem allreduce_core (hns : 0 < ns) (hp : IsPerm N perm) (hR : Red N ns sz perm sched b0 last bs) (u : Users) (m : Nat → Mem X)
    {P : Par} {f0 : Nat} {fs : List Nat} (hP : P.Multi f0 fs) (hn : P.n = ns) (hlen : P.len = moffset sz N)
    (hA : Apart ns u (moffset sz N)) (g : Nat → Nat → Nat) (hlay : ∀ t, t < N → Lay (mmsize N sz) (last t) (g t))
    (A : Nat → Mem X → Prop)
    (hin : ∀ a, a < N → ∀ mem : Mem X, (∀ e, e < P.len → mem (.shm 0) e =
      ∑ q ∈ Finset.range ns, m a .send (u.send (a * ns + q) + sig sz (b0 a) e)) → A a mem)
    (hmid : Leads X N sz bs A fun t mem => ∃ v, Rep (g t) mem v ∧
      ∀ bb, bb < N → copyOut (last t) v bb = some (∑ x ∈ Finset.range N, nodeIn ns u sz m x bb)) :
    ∃ prog : Nat → List CInstr,
      (∀ p, p < N * ns → allreduceProgram N ns P sz perm u (sched (p / ns)) (p / ns) (p % ns) = some (prog p)) ∧
      Lined N ns 2 (fun p => allreduceLines N ns P sz perm u (sched (p / ns)) (p / ns) (p % ns)) prog m
        fun mem => CAllreduceMem N ns u (∑ k ∈ Finset.range N, sz k) m mem := by
  obtain ⟨v, s', hrun⟩ := hR.run
  have mla : ∀ t, t < N → last t ∈ sched t := fun t ht => by
    obtain ⟨h1, h2⟩ := hR.split t ht
    rw [h1]
    exact List.mem_cons_of_mem _ (List.mem_of_getLast? h2)
  have hOut : ∀ a, a < N → ∀ i, i ∈ copyOutAll sz (moffset sz N) 0 (last a) →
      ∃ d s n, i = .copy false ⟨.recv, d⟩ ⟨.shm 0, s⟩ n ∧ d + n ≤ moffset sz N ∧ 0 < n := fun a ha i hi =>
    mem_copyOutAll _ (hR.frac1 a ha) _ i hi
  obtain ⟨prog, h1, h2⟩ := reduce_cluster hns sz hp sched u m hP hn hlen b0 last bs hR.split v s' hrun hR.agree hR.good
    hR.frac0 hR.frac1 (fun t ht => by rw [hlen]; exact hR.full t ht) A
    (fun t mem => ∃ v, Rep (g t) mem v ∧
      ∀ bb, bb < N → copyOut (last t) v bb = some (∑ x ∈ Finset.range N, nodeIn ns u sz m x bb)) hin hmid
    (fun _ _ => copyOutAll sz (moffset sz N) 0)
    (fun a r ha hr => by
      rw [tasksBlock_eq hp ha _ _ (hR.good _ ha _ (mla _ ha)), copyOutAll_map (g := newLine N ns perm a r (last a)) (fun _ => rfl)
        (fun l => newEntry_any _ _)])
    (fun a r i ha hi => by
      obtain ⟨d, s, n, e, _⟩ := hOut a ha i hi
      exact ⟨d, s, n, e⟩)
    (fun a ha => out_free hA a (hOut a ha))
    (fun a mem => (∀ r, r < ns → ∀ g i, g < N → i < sz g →
        mem .recv (u.recv (a * ns + r) + (moffset sz g + i)) = ∑ x ∈ Finset.range N, nodeIn ns u sz m x g i) ∧
      (∀ e, (∀ r, r < ns → ¬(u.recv (a * ns + r) ≤ e ∧ e < u.recv (a * ns + r) + moffset sz N)) → mem .recv e = m a .recv e) ∧
      mem .send = m a .send)
    (fun a ha m2 hB hk => by
      obtain ⟨w, hw1, hw2⟩ := hB
      obtain ⟨o1, o2, o3⟩ := out_spec hA a hns _ (hOut a ha) m2 ns (Nat.le_refl _)
      refine ⟨fun r hr' gg i hg hi => ?_, fun e he => ?_, ?_⟩
      · have hle : moffset sz gg + sz gg ≤ moffset sz N := lo_end sz hg
        refine (o1 r _ hr' (by omega)).trans ?_
        have hr2 : Rep (g a) (view (u.recv (a * ns + r)) m2) w := by
          intro n i hi
          rw [← hw1 n i hi]
          exact if_neg (by intro h; cases h)
        have := (copyOutCode_all N sz (g a) .allreduce (by intro h; cases h) (last a) a _ _
          (hlay a ha) (hR.frac1 a ha) hr2).2.1 gg _ hg (hw2 gg hg) i hi
        rw [Finset.sum_apply] at this
        exact this
      · rw [← hk .recv (by intro k h; cases h)]
        exact o2 e he
      · rw [← hk .send (by intro k h; cases h)]
        exact o3 .send (by intro h; cases h))
  refine ⟨prog, h1, h2.imp fun mem hQ => ⟨fun t ht e he => ?_, fun a ha e he => ?_, fun a ha => (hQ a ha).2.2⟩⟩
  · rw [← lo_eq_sum] at he
    obtain ⟨q, i, hq, hi, rfl⟩ := exists_piece sz N e he
    have := (hQ (t / ns) (div_lt ht)).1 (t % ns) (Nat.mod_lt _ hns) q i hq hi
    rw [Nat.div_add_mod', moffset_eq] at this
    rw [this]
    unfold nodeIn
    rw [sum_nodes ns hns (fun a p => m a .send (u.send p + (moffset sz q + i))) N, moffset_eq]
  · refine (hQ a ha).2.1 e fun r hr => ?_
    have := he (a * ns + r) (proc_lt hr ha) (proc_div hr a)
    rw [← lo_eq_sum] at this
    exact this

/-! ## Copy-out of a reduce_scatter -/

/-- Copy-out of process `r`, with its addresses; the message of the node is at `base`. -/
def pieceOf (cnt : Nat → Nat) (u : Users) (ns a base r : Nat) : List Instr :=
  copyIf false ⟨.recv, u.recv (a * ns + r) + 0⟩ ⟨.shm 0, iodispl ns cnt a r + base⟩ (cnt (a * ns + r))

theorem mem_pieceOf {cnt : Nat → Nat} {u : Users} {a base r : Nat} {i : Instr} (h : i ∈ pieceOf cnt u ns a base r) :
    i = .copy false ⟨.recv, u.recv (a * ns + r)⟩ ⟨.shm 0, iodispl ns cnt a r + base⟩ (cnt (a * ns + r)) ∧
      0 < cnt (a * ns + r) := by
  refine ⟨TasksNode.mem_copyIf h, ?_⟩
  unfold pieceOf copyIf at h
  split at h
  · cases h
  · omega

theorem part_free {cnt : Nat → Nat} {u : Users} (hA : ApartBy ns u cnt) (a base : Nat) :
    mfree (perProc ns (pieceOf cnt u ns a base)) := by
  apply perProc_free
  intro r r' hr hr' hne i i' hi hi'
  obtain ⟨e, hc⟩ := mem_pieceOf hi
  obtain ⟨e', hc'⟩ := mem_pieceOf hi'
  rw [e, e']
  rintro (⟨x, y, hx, hy, ho⟩ | ⟨x, y, hx, hy, ho⟩)
  · rw [writes, List.mem_singleton] at hx
    subst hx
    rcases List.mem_append.1 hy with hy | hy
    · rw [writes, List.mem_singleton] at hy
      subst hy
      obtain ⟨_, g1, g2⟩ := ho
      dsimp only at g1 g2
      have := hA (a * ns + r) (a * ns + r') (by omega) (by rw [proc_div hr, proc_div hr'])
        (u.recv (a * ns + r') - u.recv (a * ns + r)) (u.recv (a * ns + r) - u.recv (a * ns + r')) (by omega) (by omega)
      omega
    · rw [reads, List.mem_singleton] at hy
      subst hy
      cases ho.1
  · rw [reads, List.mem_singleton] at hx
    rw [writes, List.mem_singleton] at hy
    subst hx hy
    cases ho.1

/-- Memory after the copy-out of the first processes. -/
theorem part_spec {cnt : Nat → Nat} {u : Users} (hA : ApartBy ns u cnt) (a base : Nat) (m : Mem X) : ∀ K, K ≤ ns →
    (∀ r i, r < K → i < cnt (a * ns + r) →
      ((List.range K).flatMap (pieceOf cnt u ns a base)).foldl exec1 m .recv (u.recv (a * ns + r) + i) =
        m (.shm 0) (base + (iodispl ns cnt a r + i))) ∧
    (∀ e, (∀ r, r < K → ¬(u.recv (a * ns + r) ≤ e ∧ e < u.recv (a * ns + r) + cnt (a * ns + r))) →
      ((List.range K).flatMap (pieceOf cnt u ns a base)).foldl exec1 m .recv e = m .recv e) ∧
    ∀ g, g ≠ .recv → ((List.range K).flatMap (pieceOf cnt u ns a base)).foldl exec1 m g = m g := by
  intro K
  induction K with
  | zero => intro _; exact ⟨fun _ _ h => by omega, fun _ _ => rfl, fun _ _ => rfl⟩
  | succ K ih =>
    intro hK
    obtain ⟨h1, h2, h3⟩ := ih (by omega)
    rw [List.range_succ, List.flatMap_append, List.flatMap_singleton, List.foldl_append]
    obtain ⟨M, hM⟩ : ∃ M, M = ((List.range K).flatMap (pieceOf cnt u ns a base)).foldl exec1 m := ⟨_, rfl⟩
    rw [← hM] at h1 h2 h3 ⊢
    unfold pieceOf
    rw [exec_copyIf]
    refine ⟨fun r i hr hi => ?_, fun e he => ?_, fun g hg => ?_⟩
    · by_cases e : r = K
      · subst e
        unfold copyMem
        rw [if_pos ⟨rfl, by dsimp only; omega, by dsimp only; omega⟩, if_neg (by simp), h3 _ (by intro h; cases h)]
        dsimp only
        congr 1
        omega
      · unfold copyMem
        rw [if_neg, h1 r i (by omega) hi]
        rintro ⟨_, g1, g2⟩
        dsimp only at g1 g2
        exact hA (a * ns + r) (a * ns + K) (by omega) (by rw [proc_div (by omega), proc_div (by omega)])
          i (u.recv (a * ns + r) + i - u.recv (a * ns + K)) hi (by omega) (by omega)
    · unfold copyMem
      have := he K (by omega)
      rw [if_neg (by dsimp only; omega), h2 e fun r hr => he r (by omega)]
    · funext i
      unfold copyMem
      rw [if_neg (fun h => hg h.1), h3 g hg]

/-- Reduce_scatter. -/
theorem scatter_core (hns : 0 < ns) (cnt : Nat → Nat) (hp : IsPerm N perm)
    (hR : Red N ns (coarse ns cnt) perm sched b0 last bs) (u : Users) (m : Nat → Mem X)
    {P : Par} {f0 : Nat} {fs : List Nat} (hP : P.Multi f0 fs) (hn : P.n = ns) (hlen : P.len = moffset (coarse ns cnt) N)
    (hA : ApartBy ns u cnt) (A : Nat → Mem X → Prop)
    (hin : ∀ a, a < N → ∀ mem : Mem X, (∀ e, e < P.len → mem (.shm 0) e =
      ∑ q ∈ Finset.range ns, m a .send (u.send (a * ns + q) + sig (coarse ns cnt) (b0 a) e)) → A a mem)
    (hmid : Leads X N (coarse ns cnt) bs A fun t mem => ∀ i, i < coarse ns cnt t →
      mem (.shm 0) (off (coarse ns cnt) (last t) ((last t).findIdx fun l => !l.sendto.isEmpty) + i) =
        ∑ x ∈ Finset.range N, nodeIn ns u (coarse ns cnt) m x t i) :
    ∃ prog : Nat → List CInstr,
      (∀ p, p < N * ns → reduceScatterProgram N ns P cnt perm u (sched (p / ns)) (p / ns) (p % ns) = some (prog p)) ∧
      Lined N ns 2 (fun p => reduceScatterLines N ns P cnt perm u (sched (p / ns)) (p / ns) (p % ns)) prog m
        fun mem => CReduceScatterMem N ns u cnt m mem := by
  obtain ⟨v, s', hrun⟩ := hR.run
  obtain ⟨base, hbase⟩ : ∃ base : Nat → Nat, ∀ t, base t =
    off (coarse ns cnt) (last t) ((last t).findIdx fun l => !l.sendto.isEmpty) := ⟨_, fun _ => rfl⟩
  have mla : ∀ t, t < N → last t ∈ sched t := fun t ht => by
    obtain ⟨h1, h2⟩ := hR.split t ht
    rw [h1]
    exact List.mem_cons_of_mem _ (List.mem_of_getLast? h2)
  have hpart : ∀ a r, (copyOutPart ns cnt a r (last a)).map (placed u (a * ns + r)) = pieceOf cnt u ns a (base a) r := by
    intro a r
    unfold copyOutPart pieceOf copyIf
    rw [hbase]
    split <;> rfl
  have hio : ∀ a, iodispl ns cnt a ns = coarse ns cnt a := fun a => rfl
  obtain ⟨prog, h1, h2⟩ := reduce_cluster hns (coarse ns cnt) hp sched u m hP hn hlen b0 last bs hR.split v s' hrun hR.agree
    hR.good hR.frac0 hR.frac1 (fun t ht => by rw [hlen]; exact hR.full t ht) A
    (fun t mem => ∀ i, i < coarse ns cnt t →
      mem (.shm 0) (off (coarse ns cnt) (last t) ((last t).findIdx fun l => !l.sendto.isEmpty) + i) =
        ∑ x ∈ Finset.range N, nodeIn ns u (coarse ns cnt) m x t i) hin hmid
    (fun a r => copyOutPart ns cnt a r)
    (fun a r ha hr => by
      unfold copyOutPart
      rw [tasksBlock_eq hp ha _ _ (hR.good _ ha _ (mla _ ha)), off_map (g := newLine N ns perm a r (last a)) (fun _ => rfl), List.findIdx_map]
      have : ((fun l : LineD => !l.sendto.isEmpty) ∘ newLine N ns perm a r (last a)) = fun l => !l.sendto.isEmpty := by
        funext l
        show (!(l.sendto.map _).isEmpty) = _
        rw [List.isEmpty_map]
      rw [this])
    (fun a r i ha hi => ⟨_, _, _, TasksNode.mem_copyIf hi⟩)
    (fun a ha => by
      simp only [hpart]
      exact part_free hA a (base a))
    (fun a mem => (∀ r i, r < ns → i < cnt (a * ns + r) →
        mem .recv (u.recv (a * ns + r) + i) = ∑ x ∈ Finset.range N, nodeIn ns u (coarse ns cnt) m x a (iodispl ns cnt a r + i)) ∧
      (∀ e, (∀ r, r < ns → ¬(u.recv (a * ns + r) ≤ e ∧ e < u.recv (a * ns + r) + cnt (a * ns + r))) → mem .recv e = m a .recv e) ∧
      mem .send = m a .send)
    (fun a ha m2 hB hk => by
      simp only [hpart]
      obtain ⟨o1, o2, o3⟩ := part_spec (X := X) hA a (base a) m2 ns (Nat.le_refl _)
      refine ⟨fun r i hr hi => ?_, fun e he => ?_, ?_⟩
      · refine (o1 r i hr hi).trans ?_
        have hle : iodispl ns cnt a r + cnt (a * ns + r) ≤ coarse ns cnt a := by
          rw [← hio]
          exact lo_end (fun r => cnt (a * ns + r)) hr
        rw [hbase]
        exact hB _ (by omega)
      · rw [← hk .recv (by intro k h; cases h)]
        exact o2 e he
      · rw [← hk .send (by intro k h; cases h)]
        exact o3 .send (by intro h; cases h))
  refine ⟨prog, h1, h2.imp fun mem hQ => ⟨fun t ht e he => ?_, fun a ha e he => ?_, fun a ha => (hQ a ha).2.2⟩⟩
  · have := (hQ (t / ns) (div_lt ht)).1 (t % ns) e (Nat.mod_lt _ hns) (by rw [Nat.div_add_mod']; exact he)
    rw [Nat.div_add_mod'] at this
    rw [this, ← lo_eq_sum]
    have h2 := lo_coarse ns cnt (t / ns) (t % ns)
    rw [Nat.div_add_mod'] at h2
    unfold nodeIn
    rw [sum_nodes ns hns (fun a p => m a .send (u.send p + (moffset (coarse ns cnt) (t / ns) + (iodispl ns cnt (t / ns) (t % ns) + e)))) N,
      moffset_eq, h2, Nat.add_assoc]
  · exact (hQ a ha).2.1 e fun r hr => he (a * ns + r) (proc_lt hr ha) (proc_div hr a)

end

end ExtMpi.Cluster
