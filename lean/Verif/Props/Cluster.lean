import Verif.Lemmas.ClusterReduce
import Verif.Props.OnNode
import Verif.Props.OnePerNode
/-! # Collectives of several processes on each of several nodes (C68, C69, C70) -/
namespace ExtMpi.Cluster
open RawCode Schedule RankPerm
open TasksNode
open OnNode (Par sig)

/-! ## Parameters of the copy-in -/

/-- Parameters that the theorems cover: at least one element, and either the plain method with factors whose product is the
number of processes of a node, or the almost-half method with the factors `1, 2, …, 2`. -/
def _root_.ExtMpi.OnNode.Par.SoundMulti (P : Par) : Prop :=
  0 < P.n ∧ 0 < P.len ∧
  ((P.method ≠ 1 ∧ P.factors ≠ [] ∧ P.factors.prod = P.n) ∨
    (P.method = 1 ∧ 2 ≤ P.n ∧ P.factors = 1 :: List.replicate (Nat.clog 2 P.n) 2))

theorem soundMulti_multi {P : Par} (h : P.SoundMulti) : ∃ f0 fs, P.Multi f0 fs := by
  obtain ⟨hn, hl, ⟨hm, hne, hp⟩ | ⟨hm, hn2, hf⟩⟩ := h
  · obtain ⟨f0, fs, hf⟩ := List.exists_cons_of_ne_nil hne
    have hs : P.s = P.n := by unfold Par.s; rw [if_neg hm]
    have hz : 0 ∉ P.factors := fun hc => by
      have := List.prod_eq_zero hc
      omega
    have hd : ∀ f ∈ P.factors, f ∣ P.n := fun f hfm => hp ▸ List.dvd_prod hfm
    refine ⟨f0, fs, ⟨by rw [hs]; exact hn, by rw [hs], hl, hz, Nat.pos_of_ne_zero fun hc => hz (by rw [hf, hc]; simp),
      fun hc => hz (by rw [hf]; simp [hc]), hd f0 (by rw [hf]; simp), fun f hfm => ?_, ?_, Or.inl ⟨hm, hf⟩⟩⟩
    · rw [hs]
      exact Nat.le_of_dvd hn (hd f (by rw [hf]; exact hfm))
    · rw [hs, ← hp, hf, List.prod_cons]
  · have hc1 : 0 < Nat.clog 2 P.n := Nat.clog_pos (by omega) hn2
    obtain ⟨c, hc⟩ : ∃ c, Nat.clog 2 P.n = c + 1 := ⟨_, (Nat.succ_pred_eq_of_pos hc1).symm⟩
    have hs : P.s = 2 ^ c := by
      unfold Par.s; rw [if_pos hm, hc, Nat.pow_succ, Nat.mul_div_cancel _ (by omega)]
    have hlt : 2 ^ c < P.n := by
      have := Nat.pow_pred_clog_lt_self (b := 2) (by omega) (show 1 < P.n by omega)
      rwa [hc] at this
    have hge : P.n ≤ 2 * 2 ^ c := by
      have := Nat.le_pow_clog (b := 2) (by omega) P.n
      rw [hc, Nat.pow_succ] at this
      omega
    have hpow := Nat.pow_pos (n := c) (show 0 < 2 by omega)
    refine ⟨1, List.replicate c 2, ⟨by rw [hs]; exact hpow, by rw [hs]; omega, hl, ?_, Nat.one_pos, ?_,
      Nat.one_dvd _, ?_, ?_, Or.inr ⟨hm, rfl, by rw [hs]; exact hge, by rw [hs]; exact hlt, 2, ?_⟩⟩⟩
    · rw [hf]; simp
    · simp
    · intro f hfm
      rw [hs]
      simp only [List.mem_cons, List.mem_replicate] at hfm
      rcases hfm with rfl | ⟨h0, rfl⟩
      · exact hpow
      · obtain ⟨d, rfl⟩ : ∃ d, c = d + 1 := ⟨c - 1, by omega⟩
        have := Nat.pow_pos (n := d) (show 0 < 2 by omega)
        rw [Nat.pow_succ]
        omega
    · rw [hs]; simp
    · rw [hf, hc, List.replicate_succ']
      rfl

/-- The choices of the library for several nodes. -/
theorem large_sound {ns ts len : Nat} (hns : 0 < ns) (hl : 0 < len) {P : Par} (hP : P ∈ OnNode.largeChoices ns ts len) :
    P.SoundMulti ∧ P.n = ns ∧ P.len = len := by
  unfold OnNode.largeChoices at hP
  rw [List.mem_append] at hP
  rcases hP with hP | hP
  · split at hP
    · rename_i hpow
      simp only [List.mem_singleton] at hP
      subst hP
      refine ⟨⟨hns, hl, Or.inr ⟨rfl, ?_, rfl⟩⟩, rfl, rfl⟩
      show 2 ≤ ns
      by_contra hc
      have : ns = 1 := by omega
      subst this
      simp at hpow
    · simp at hP
  · simp only [List.mem_map, List.mem_range] at hP
    obtain ⟨i, hi, rfl⟩ := hP
    exact ⟨⟨hns, hl, Or.inl ⟨by simp, by simp [OnNode.splitFactors], OnNode.split_prod ns i hns⟩⟩, rfl, rfl⟩

/-! ## Allgather -/

theorem allgather_recursive_serial {X : Type} [AddCommSemigroup X] (ports : List Nat) (hp : ∀ p, p ∈ ports → 0 < p) {ns : Nat} (hns : 0 < ns)
    (cnt : Nat → Nat) (perm : List Nat) (hperm : IsPerm (ports.map fun p => p + 1).prod perm) (u : Users) (m : Nat → Mem X)
    (hA : Apart ns u (∑ k ∈ Finset.range ((ports.map fun p => p + 1).prod * ns), cnt k)) :
    ∃ (sched sched' : Nat → List Block) (prog : Nat → List CInstr),
      (∀ t, Recursive.generate true (ports.map fun p : Nat => (p : Int)) t = some (sched t)) ∧
      Relabelled (ports.map fun p => p + 1).prod perm sched sched' ∧
      (∀ p, p < (ports.map fun p => p + 1).prod * ns →
        allgatherProgram (ports.map fun p => p + 1).prod ns cnt perm u (sched' (p / ns)) (p / ns) (p % ns) = some (prog p)) ∧
      Lined (ports.map fun p => p + 1).prod ns 1 (fun p =>
          allgatherLines (ports.map fun p => p + 1).prod ns cnt perm u (sched' (p / ns)) (p / ns) (p % ns)) prog m
        fun mem => TAllgatherMem (ports.map fun p => p + 1).prod ns u cnt m mem := by
  obtain ⟨sched, sched', prog, M, h1, h2, h3⟩ := recursive_masters ports hp hns cnt perm hperm u m hA
  obtain ⟨prog', h4⟩ := gather_cluster hns ⟨prog, M, h3⟩
  exact ⟨sched, sched', prog', h1, h2, h4⟩

/-- C70: allgather with the recursive algorithm, for every order of the nodes. -/
theorem allgather_recursive {X : Type} [AddCommSemigroup X] (ports : List Nat) (hp : ∀ p, p ∈ ports → 0 < p) {ns : Nat} (hns : 0 < ns)
    (cnt : Nat → Nat) (perm : List Nat) (hperm : IsPerm (ports.map fun p => p + 1).prod perm) (u : Users) (m : Nat → Mem X)
    (hA : Apart ns u (∑ k ∈ Finset.range ((ports.map fun p => p + 1).prod * ns), cnt k)) :
    ∃ (sched sched' : Nat → List Block) (prog : Nat → List CInstr),
      (∀ t, Recursive.generate true (ports.map fun p : Nat => (p : Int)) t = some (sched t)) ∧
      Relabelled (ports.map fun p => p + 1).prod perm sched sched' ∧
      (∀ p, p < (ports.map fun p => p + 1).prod * ns →
        allgatherProgram (ports.map fun p => p + 1).prod ns cnt perm u (sched' (p / ns)) (p / ns) (p % ns) = some (prog p)) ∧
      CCorrect (ports.map fun p => p + 1).prod ns prog m
        fun mem => TAllgatherMem (ports.map fun p => p + 1).prod ns u cnt m mem := by
  obtain ⟨sched, sched', prog, h1, h2, h3, h4⟩ := allgather_recursive_serial ports hp hns cnt perm hperm u m hA
  exact ⟨sched, sched', prog, h1, h2, h3, h4.ccorrect hns⟩

theorem allgather_cyclic_serial {X : Type} [Add X] (N : Nat) (hN : 0 < N) (ports : List Nat) (hp : ∀ p, p ∈ ports → 0 < p)
    (hfit : Cyclic.Suits N 1 ports) (hreach : N ≤ (ports.map fun p => p + 1).prod) {ns : Nat} (hns : 0 < ns) (cnt : Nat → Nat)
    (u : Users) (m : Nat → Mem X) (hA : Apart ns u (∑ k ∈ Finset.range (N * ns), cnt k)) :
    ∃ prog : Nat → List CInstr,
      (∀ p, p < N * ns →
        allgatherProgram N ns cnt (List.range N) u (Cyclic.allgather N ports (p / ns)) (p / ns) (p % ns) = some (prog p)) ∧
      Lined N ns 1 (fun p => allgatherLines N ns cnt (List.range N) u (Cyclic.allgather N ports (p / ns)) (p / ns) (p % ns)) prog m
        fun mem => TAllgatherMem N ns u cnt m mem :=
  gather_cluster hns (cyclic_masters N hN ports hp hfit hreach hns cnt u m hA)

/-- C70, part: allgather with the cyclic algorithm. Missing: other orders of the nodes, for which the processes of the nodes
do not agree about the partners (`TasksNode.allgather_cyclic_violated`), and ports that do not fit (C14). -/
theorem allgather_cyclic_partial {X : Type} [Add X] (N : Nat) (hN : 0 < N) (ports : List Nat) (hp : ∀ p, p ∈ ports → 0 < p)
    (hfit : Cyclic.Suits N 1 ports) (hreach : N ≤ (ports.map fun p => p + 1).prod) {ns : Nat} (hns : 0 < ns) (cnt : Nat → Nat)
    (u : Users) (m : Nat → Mem X) (hA : Apart ns u (∑ k ∈ Finset.range (N * ns), cnt k)) :
    ∃ prog : Nat → List CInstr,
      (∀ p, p < N * ns →
        allgatherProgram N ns cnt (List.range N) u (Cyclic.allgather N ports (p / ns)) (p / ns) (p % ns) = some (prog p)) ∧
      CCorrect N ns prog m fun mem => TAllgatherMem N ns u cnt m mem := by
  obtain ⟨prog, h3, h4⟩ := allgather_cyclic_serial N hN ports hp hfit hreach hns cnt u m hA
  exact ⟨prog, h3, h4.ccorrect hns⟩

/-! ## The schedules of the recursive algorithm -/

theorem total_lo {sz : Nat → Nat} (b : Block) : ∀ f : Nat → Nat, (∀ k l, b[k]? = some l → f k = sz l.frac) →
    OnNode.total sz b = lo f b.length := by
  induction b with
  | nil => intro f _; rfl
  | cons l b ih =>
    intro f hf
    have : ∀ n, lo f (n + 1) = f 0 + lo (fun k => f (k + 1)) n := by
      intro n
      induction n with
      | zero => rw [lo_succ]; show 0 + f 0 = f 0 + 0; omega
      | succ n ih => rw [lo_succ, ih, lo_succ]; omega
    rw [OnNode.total, List.length_cons, this, ← hf 0 l rfl, ih (fun k => f (k + 1)) fun k l' h => hf (k + 1) l' h]

section
variable {X : Type} [AddCommMonoid X] {N ns : Nat} {sz : Nat → Nat} {sched : Nat → List Block} {bs : Nat → List Block}
  {last : Nat → Block}

/-- What the sums of the node in shared memory are. -/
def RecIn (N : Nat) (sz : Nat → Nat) (inp : Nat → Nat → Nat → X) (t : Nat) (mem : Mem X) : Prop :=
  ∀ n i, n < N → i < sz n → mem (.shm 0) (lo (fun n => sz (n % N)) n + i) = inp t n i

theorem lo_mod {N : Nat} {sz : Nat → Nat} {n : Nat} (hn : n ≤ N) : lo (fun n => sz (n % N)) n = moffset sz n :=
  (lo_congr _ _ _ fun k hk => by rw [Nat.mod_eq_of_lt (by omega)])

theorem reduceFirst_get {N n : Nat} (hn : n < 2 * N) : ∃ l, (Recursive.reduceFirst N)[n]? = some l ∧ l.frac = n % N := by
  have h : n < (Recursive.reduceFirst N).length := by simp [Recursive.reduceFirst, Recursive.mk]; exact hn
  exact ⟨_, List.getElem?_eq_getElem h, (shape_reduceFirst N n _ (List.getElem?_eq_getElem h)).1⟩

/-- Copy-in of the recursive reductions. -/
theorem rec_in (u : Users) (m : Nat → Mem X) (a : Nat) (mem : Mem X)
    (h : ∀ e, e < moffset sz N → mem (.shm 0) e =
      ∑ q ∈ Finset.range ns, m a .send (u.send (a * ns + q) + sig sz (Recursive.reduceFirst N) e)) :
    RecIn N sz (nodeIn ns u sz m) a mem := by
  intro n i hn hi
  obtain ⟨l, h1, h2⟩ := reduceFirst_get (show n < 2 * N by omega)
  rw [Nat.mod_eq_of_lt hn] at h2
  have hle : moffset sz n + sz n ≤ moffset sz N := lo_end sz hn
  rw [h _ (by rw [lo_mod (by omega)]; omega), OnNode.sig_line (f := fun n => sz (n % N)) _ n l i h1 (fun k l' hk h' => by
    rw [(shape_reduceFirst N k l' h').1]) (by rw [h2]; exact hi), h2]
  rfl

theorem rec_full (N : Nat) (sz : Nat → Nat) : moffset sz N ≤ OnNode.total sz (Recursive.reduceFirst N) := by
  rw [total_lo (Recursive.reduceFirst N) (fun n => sz (n % N)) fun k l h => by rw [(shape_reduceFirst N k l h).1],
    ← lo_mod (Nat.le_refl N)]
  have hl : (Recursive.reduceFirst N).length = 2 * N := by simp [Recursive.reduceFirst, Recursive.mk]
  rw [hl]
  exact lo_mono _ (by omega)

/-- The schedules of the recursive algorithm. -/
theorem rec_red {perm : List Nat} (hp : IsPerm N perm) (hN : 0 < N)
    (hs : ∀ t, t < N → sched t = Recursive.reduceFirst N :: bs t ∧ (bs t).getLast? = some (last t))
    (hshape : ∀ t, t < N → ∀ b, b ∈ sched t → Shape N b) (hst : Steps Clique N sched)
    (hrun : ∃ v s' : Nat → Nat → Nat, Run N bs v s') :
    Red N ns sz perm sched (fun _ => Recursive.reduceFirst N) last bs where
  split := hs
  run := hrun
  agree := fun k _ => by
    have h := hst.agree_clique (ns := ns) hp (k + 1)
    intro a q ha hq hne
    have := h a q ha hq hne
    dsimp only at this
    rw [(hs a ha).1, (hs q hq).1] at this
    exact this
  good := hst.good
  frac0 := fun t ht l hl => (shape_reduceFirst N).frac hN l hl
  frac1 := fun t ht l hl => (hshape t ht (last t) (by
    rw [(hs t ht).1]; exact List.mem_cons_of_mem _ (List.mem_of_getLast? (hs t ht).2))).frac hN l hl
  full := fun t _ => rec_full N sz

/-- What the schedules of the recursive algorithm do. -/
theorem rec_leads {O : Type} (hs : ∀ t, t < N → sched t = Recursive.reduceFirst N :: bs t ∧ (bs t).getLast? = some (last t))
    (hshape : ∀ t, t < N → ∀ b, b ∈ sched t → Shape N b) (inp : Nat → Nat → Nat → X) (co : Block → (Nat → Nat → X) → O)
    (post : (Nat → O) → Prop) (hexec : ∀ junk, ∃ out, Exec N co sched inp junk out ∧ post out) :
    Leads X N sz bs (RecIn N sz inp) fun t mem => ∃ v out, Rep (fun n => sz (n % N)) mem v ∧ post out ∧ out t = co (last t) v := by
  intro S R m1 hQ hA
  obtain ⟨out, ⟨b0, bs', last', s', h1, h2, h3⟩, hpost⟩ := hexec fun t n i => m1 t (.shm 0) (lo (fun n => sz (n % N)) n + i)
  have e : ∀ t, t < N → b0 t = Recursive.reduceFirst N ∧ bs' t = bs t ∧ last' t = last t := by
    intro t ht
    obtain ⟨g1, g2⟩ := h1 t ht
    obtain ⟨g3, g4⟩ := hs t ht
    rw [g3] at g1
    injection g1 with g5 g6
    rw [← g6, g4] at g2
    exact ⟨g5.symm, g6.symm, (Option.some.inj g2).symm⟩
  obtain ⟨S', m2, k1, k2, k3, k4⟩ := blocks_run N (mmsize N sz) (fun _ n => sz (n % N)) bs _ s'
    (Recursive.Run.congr h2 fun t ht => (e t ht).2.1.symm)
    (fun t ht b hb => (hshape t ht b (by rw [(hs t ht).1]; exact List.mem_cons_of_mem _ hb)).lay sz) true S R m1 hQ
    (fun t ht n i hi => by
      dsimp only
      rw [(e t ht).1]
      by_cases hn : n < N
      · rw [Recursive.reduceFirst_copyIn N n _ _ hn]
        refine hA t ht n i hn ?_
        rw [← Nat.mod_eq_of_lt hn]
        exact hi
      · unfold copyIn
        cases hb : (Recursive.reduceFirst N)[n]? with
        | none => rfl
        | some l =>
          obtain ⟨hj, rfl⟩ := mk_get hb
          simp [hn])
  exact ⟨S', m2, k1, k2, fun t ht => ⟨s' t, out, k3 t ht, hpost, by rw [h3 t ht, (e t ht).2.2]⟩, k4⟩

end

/-! ## Allreduce -/

theorem allreduce_recursive_serial {X : Type} [AddCommMonoid X] (negs mids gs : List Nat) (hne : mids ++ gs ≠ [])
    (hn : ∀ p, p ∈ negs → 0 < p) (hm : ∀ p, p ∈ mids → 0 < p) (hg : ∀ p, p ∈ gs → 0 < p)
    (hbal : (negs.map fun p => p + 1).prod = (gs.map fun p => p + 1).prod) {ns : Nat} (hns : 0 < ns) (sz : Nat → Nat)
    (hlen : 0 < ∑ k ∈ Finset.range ((mids ++ gs).map fun p => p + 1).prod, sz k) {ts : Nat} {P : Par}
    (hP : P ∈ OnNode.largeChoices ns ts (∑ k ∈ Finset.range ((mids ++ gs).map fun p => p + 1).prod, sz k)) (u : Users)
    (hA : Apart ns u (∑ k ∈ Finset.range ((mids ++ gs).map fun p => p + 1).prod, sz k)) (m : Nat → Mem X) :
    ∃ (sched : Nat → List Block) (prog : Nat → List CInstr),
      (∀ t, Recursive.generate false ((negs.map fun p : Nat => -(p : Int)) ++
        ((mids ++ gs).map fun p : Nat => (p : Int))) t = some (sched t)) ∧
      (∀ p, p < ((mids ++ gs).map fun p => p + 1).prod * ns →
        allreduceProgram ((mids ++ gs).map fun p => p + 1).prod ns P sz (List.range ((mids ++ gs).map fun p => p + 1).prod) u
          (sched (p / ns)) (p / ns) (p % ns) = some (prog p)) ∧
      Lined ((mids ++ gs).map fun p => p + 1).prod ns 2 (fun p =>
        allreduceLines ((mids ++ gs).map fun p => p + 1).prod ns P sz (List.range ((mids ++ gs).map fun p => p + 1).prod) u
          (sched (p / ns)) (p / ns) (p % ns)) prog m fun mem =>
        CAllreduceMem ((mids ++ gs).map fun p => p + 1).prod ns u
          (∑ k ∈ Finset.range ((mids ++ gs).map fun p => p + 1).prod, sz k) m mem := by
  obtain ⟨N, hNe⟩ : ∃ N, N = Recursive.factor (mids ++ gs) := ⟨_, rfl⟩
  have hN' : ((mids ++ gs).map fun p => p + 1).prod = N := hNe.symm
  rw [hN'] at hlen hP hA ⊢
  have hpos : 0 < N := by rw [hNe]; exact Recursive.factor_pos _
  obtain ⟨hsm, hPn, hPl⟩ := large_sound hns hlen hP
  obtain ⟨f0, fs, hM⟩ := soundMulti_multi hsm
  rw [← lo_eq_sum] at hA hPl
  have hshape : ∀ t b, b ∈ Recursive.allreduce negs (mids ++ gs) t → Shape N b := by
    rw [hNe]; exact shape_allreduce negs (mids ++ gs)
  have hsteps : Steps Clique N fun t => Recursive.allreduce negs (mids ++ gs) t := by
    rw [hNe]; exact steps_allreduce negs mids gs hn hm hbal
  have hs : ∀ t, t < N → Recursive.allreduce negs (mids ++ gs) t =
      Recursive.reduceFirst N :: (Recursive.allreduce negs (mids ++ gs) t).tail ∧
      (Recursive.allreduce negs (mids ++ gs) t).tail.getLast? = some (Recursive.allreduceLast N) := by
    intro t _
    rw [hNe]
    unfold Recursive.allreduce
    dsimp only
    rw [List.tail_cons, List.getLast?_concat]
    exact ⟨rfl, rfl⟩
  have hrun : ∃ v s' : Nat → Nat → Nat, Run N (fun t => (Recursive.allreduce negs (mids ++ gs) t).tail) v s' := by
    obtain ⟨out, ⟨b0, bs', last', s', h1, h2, h3⟩, _⟩ := Recursive.allreduce_exec (V := Nat) negs mids gs hne hn hm hg hbal
      (fun _ _ => 0) fun _ _ => 0
    rw [← hNe] at h1 h2
    exact ⟨_, s', Recursive.Run.congr h2 fun t ht => by rw [(h1 t ht).1]; rfl⟩
  obtain ⟨prog, h1, h2⟩ := allreduce_core hns (isPerm_range N)
    (rec_red (ns := ns) (sz := sz) (isPerm_range N) hpos hs (fun t _ => hshape t) hsteps hrun) u m hM hPn hPl hA
    (fun _ n => sz (n % N)) (fun t ht => (hshape t _ (by
      rw [(hs t ht).1]; exact List.mem_cons_of_mem _ (List.mem_of_getLast? (hs t ht).2))).lay sz)
    (RecIn N sz (nodeIn ns u sz m)) (fun a ha mem h => rec_in u m a mem (by rw [hPl] at h; exact h))
    (fun S R m1 hQ hA' => by
      obtain ⟨S', m2, k1, k2, k3, k4⟩ := rec_leads (sz := sz) hs (fun t _ => hshape t) (nodeIn ns u sz m) copyOut
        (AllreducePost N (nodeIn ns u sz m)) (fun junk => by
          have := Recursive.allreduce_exec (V := Nat → X) negs mids gs hne hn hm hg hbal (nodeIn ns u sz m) junk
          rw [← hNe] at this
          exact this) S R m1 hQ hA'
      refine ⟨S', m2, k1, k2, fun t ht => ?_, k4⟩
      obtain ⟨v, out, g1, g2, g3⟩ := k3 t ht
      exact ⟨v, g1, fun bb hbb => by rw [← g3]; exact g2 t bb ht hbb⟩)
  exact ⟨_, prog, Recursive.generate_allreduce negs mids gs hne hn hm hg, h1, h2⟩

/-- **C68.** Allreduce of any number of elements, in pieces of any sizes, by any number of processes on each of several
nodes with the recursive algorithm and any of the choices of the library for the copy-in: the programs exist, their
executions end without race and without getting stuck, whatever the order of the actions of the processes and of the
messages, and every process gets the sum of the data of all processes. -/
theorem allreduce_recursive {X : Type} [AddCommMonoid X] (negs mids gs : List Nat) (hne : mids ++ gs ≠ [])
    (hn : ∀ p, p ∈ negs → 0 < p) (hm : ∀ p, p ∈ mids → 0 < p) (hg : ∀ p, p ∈ gs → 0 < p)
    (hbal : (negs.map fun p => p + 1).prod = (gs.map fun p => p + 1).prod) {ns : Nat} (hns : 0 < ns) (sz : Nat → Nat)
    (hlen : 0 < ∑ k ∈ Finset.range ((mids ++ gs).map fun p => p + 1).prod, sz k) {ts : Nat} {P : Par}
    (hP : P ∈ OnNode.largeChoices ns ts (∑ k ∈ Finset.range ((mids ++ gs).map fun p => p + 1).prod, sz k)) (u : Users)
    (hA : Apart ns u (∑ k ∈ Finset.range ((mids ++ gs).map fun p => p + 1).prod, sz k)) (m : Nat → Mem X) :
    ∃ (sched : Nat → List Block) (prog : Nat → List CInstr),
      (∀ t, Recursive.generate false ((negs.map fun p : Nat => -(p : Int)) ++
        ((mids ++ gs).map fun p : Nat => (p : Int))) t = some (sched t)) ∧
      (∀ p, p < ((mids ++ gs).map fun p => p + 1).prod * ns →
        allreduceProgram ((mids ++ gs).map fun p => p + 1).prod ns P sz (List.range ((mids ++ gs).map fun p => p + 1).prod) u
          (sched (p / ns)) (p / ns) (p % ns) = some (prog p)) ∧
      CCorrect ((mids ++ gs).map fun p => p + 1).prod ns prog m fun mem =>
        CAllreduceMem ((mids ++ gs).map fun p => p + 1).prod ns u
          (∑ k ∈ Finset.range ((mids ++ gs).map fun p => p + 1).prod, sz k) m mem := by
  obtain ⟨sched, prog, h1, h3, h4⟩ := allreduce_recursive_serial negs mids gs hne hn hm hg hbal hns sz hlen hP u hA m
  exact ⟨sched, prog, h1, h3, h4.ccorrect hns⟩

/-- Six nodes with four processes each, different numbers of reduction and gather steps, pieces of different sizes. -/
example {P : Par} (hP : P ∈ OnNode.largeChoices 4 3 (∑ k ∈ Finset.range 6, (k + 1))) (u : Users) (hA : Apart 4 u 21)
    (m : Nat → Mem Nat) : ∃ (sched : Nat → List Block) (prog : Nat → List CInstr),
    (∀ t, Recursive.generate false [-1, 2, 1] t = some (sched t)) ∧
    (∀ p, p < 6 * 4 → allreduceProgram 6 4 P (fun k => k + 1) (List.range 6) u (sched (p / 4)) (p / 4) (p % 4) = some (prog p)) ∧
    CCorrect 6 4 prog m fun mem => CAllreduceMem 6 4 u 21 m mem :=
  allreduce_recursive [1] [2] [1] (by decide) (by decide) (by decide) (by decide) (by decide) (by decide) (fun k => k + 1)
    (by decide) hP u hA m

/-! ## Reduce_scatter -/

theorem total_coarse (ns : Nat) (cnt : Nat → Nat) (N : Nat) :
    moffset (coarse ns cnt) N = ∑ k ∈ Finset.range (N * ns), cnt k := by
  rw [moffset_eq, ← lo_eq_sum]
  exact (lo_coarse ns cnt N 0).symm

/-- Address of the line that the copy-out of a reduce_scatter takes. -/
theorem own_off {N n0 t : Nat} {sz f : Nat → Nat} {b : Block} {l0 : LineD} (hl : Lay (mmsize N sz) b f)
    (hfr : ∀ l, l ∈ b → l.frac < N) (h0 : b[n0]? = some l0) (hf : l0.frac = t)
    (hb : ∀ j l, b[j]? = some l → ((!l.sendto.isEmpty) = true ↔ j = n0)) :
    off sz b (b.findIdx fun l => !l.sendto.isEmpty) = lo f n0 ∧ f n0 = sz t := by
  have hn : n0 < b.length := (List.getElem?_eq_some_iff.1 h0).1
  have hfi : (b.findIdx fun l => !l.sendto.isEmpty) = n0 := by
    rw [List.findIdx_eq hn]
    refine ⟨?_, fun j hj => ?_⟩
    · exact (hb n0 _ (List.getElem?_eq_getElem hn)).2 rfl
    · rw [Bool.eq_false_iff]
      intro h
      have := (hb j _ (List.getElem?_eq_getElem (by omega))).1 h
      omega
  refine ⟨?_, by rw [(lay_frac hl hfr n0 l0 h0).1, hf]⟩
  rw [hfi, off_eq]
  apply lo_congr
  intro k hk
  have hk' : k < b.length := by omega
  rw [(lay_frac hl hfr k _ (List.getElem?_eq_getElem hk')).1, lineSize, List.getElem?_eq_getElem hk']

theorem reduceScatter_recursive_serial {X : Type} [AddCommMonoid X] (ports : List Nat) (hne : ports ≠ [])
    (hp : ∀ p, p ∈ ports → 0 < p) {ns : Nat} (hns : 0 < ns) (cnt : Nat → Nat)
    (hlen : 0 < ∑ k ∈ Finset.range ((ports.map fun p => p + 1).prod * ns), cnt k) {ts : Nat} {P : Par}
    (hP : P ∈ OnNode.largeChoices ns ts (∑ k ∈ Finset.range ((ports.map fun p => p + 1).prod * ns), cnt k)) (u : Users)
    (hA : ApartBy ns u cnt) (m : Nat → Mem X) :
    ∃ (sched : Nat → List Block) (prog : Nat → List CInstr),
      (∀ t, Recursive.generate false (ports.map fun p : Nat => -(p : Int)) t = some (sched t)) ∧
      (∀ p, p < (ports.map fun p => p + 1).prod * ns →
        reduceScatterProgram (ports.map fun p => p + 1).prod ns P cnt (List.range (ports.map fun p => p + 1).prod) u
          (sched (p / ns)) (p / ns) (p % ns) = some (prog p)) ∧
      Lined (ports.map fun p => p + 1).prod ns 2 (fun p =>
        reduceScatterLines (ports.map fun p => p + 1).prod ns P cnt (List.range (ports.map fun p => p + 1).prod) u
          (sched (p / ns)) (p / ns) (p % ns)) prog m fun mem =>
        CReduceScatterMem (ports.map fun p => p + 1).prod ns u cnt m mem := by
  obtain ⟨N, hNe⟩ : ∃ N, N = Recursive.factor ports := ⟨_, rfl⟩
  have hN' : (ports.map fun p => p + 1).prod = N := hNe.symm
  rw [hN'] at hlen hP ⊢
  have hpos : 0 < N := by rw [hNe]; exact Recursive.factor_pos _
  obtain ⟨hsm, hPn, hPl⟩ := large_sound hns hlen hP
  obtain ⟨f0, fs, hM⟩ := soundMulti_multi hsm
  rw [← total_coarse] at hPl
  obtain ⟨sz, hsz⟩ : ∃ sz, sz = coarse ns cnt := ⟨_, rfl⟩
  have hshape : ∀ t b, b ∈ Recursive.reduceScatter ports t → Shape N b := by
    rw [hNe]; exact shape_reduceScatter ports
  have hsteps : Steps Clique N fun t => Recursive.reduceScatter ports t := by
    rw [hNe]; exact steps_reduceScatter ports hp
  have hs : ∀ t, t < N → Recursive.reduceScatter ports t =
      Recursive.reduceFirst N :: (Recursive.reduceScatter ports t).tail ∧
      (Recursive.reduceScatter ports t).tail.getLast? = some (Recursive.scatterLast N t) := by
    intro t _
    rw [hNe]
    unfold Recursive.reduceScatter
    rw [List.tail_cons, List.getLast?_concat]
    exact ⟨rfl, rfl⟩
  have hrun : ∃ v s' : Nat → Nat → Nat, Run N (fun t => (Recursive.reduceScatter ports t).tail) v s' := by
    obtain ⟨out, ⟨b0, bs', last', s', h1, h2, h3⟩, _⟩ := Recursive.reduceScatter_exec (V := Nat) ports hne hp
      (fun _ _ => 0) fun _ _ => 0
    rw [← hNe] at h1 h2
    exact ⟨_, s', Recursive.Run.congr h2 fun t ht => by rw [(h1 t ht).1]; rfl⟩
  obtain ⟨prog, h1, h2⟩ := scatter_core hns cnt (isPerm_range N)
    (rec_red (ns := ns) (sz := coarse ns cnt) (isPerm_range N) hpos hs (fun t _ => hshape t) hsteps hrun) u m hM hPn hPl hA
    (RecIn N (coarse ns cnt) (nodeIn ns u (coarse ns cnt) m))
    (fun a ha mem h => rec_in u m a mem (by rw [hPl] at h; exact h))
    (by
      rw [← hsz]
      intro S R m1 hQ hA'
      obtain ⟨S', m2, k1, k2, k3, k4⟩ := rec_leads (sz := sz) hs (fun t _ => hshape t) (nodeIn ns u sz m) copyOutFirst
        (ReduceScatterPost N (nodeIn ns u sz m)) (fun junk => by
          have := Recursive.reduceScatter_exec (V := Nat → X) ports hne hp (nodeIn ns u sz m) junk
          rw [← hNe] at this
          exact this) S R m1 hQ hA'
      refine ⟨S', m2, k1, k2, fun t ht i hi => ?_, k4⟩
      obtain ⟨v, out, g1, g2, g3⟩ := k3 t ht
      have hbs := hshape t (Recursive.scatterLast N t) (by
        rw [(hs t ht).1]; exact List.mem_cons_of_mem _ (List.mem_of_getLast? (hs t ht).2))
      have hline : (Recursive.scatterLast N t)[N + t]? = some { frac := t, sendto := [(-1, (t : Int))] } := by
        unfold Recursive.scatterLast Recursive.mk
        rw [List.getElem?_map, List.getElem?_range (by omega)]
        simp
      have honly : ∀ j l, (Recursive.scatterLast N t)[j]? = some l → ((!l.sendto.isEmpty) = true ↔ j = N + t) := by
        intro j l hl
        obtain ⟨hj, rfl⟩ := mk_get hl
        by_cases hjn : j < N
        · rw [if_pos hjn]
          simp; omega
        · rw [if_neg hjn]
          by_cases hjt : j - N = t
          · simp [hjt]; omega
          · simp [hjt]; omega
      obtain ⟨o1, o2⟩ := own_off (hbs.lay sz) (hbs.frac hpos) hline rfl honly
      rw [o1, g1 (N + t) i (by dsimp only; rw [o2]; exact hi)]
      have h4 := g2 t ht
      rw [g3] at h4
      unfold copyOutFirst at h4
      obtain ⟨x, hx, hxw⟩ := Option.map_eq_some_iff.1 h4
      have hxm := List.mem_of_find?_eq_some hx
      have hxp := List.find?_some hx
      rw [List.mem_zipIdx_iff_getElem?] at hxm
      rw [← (honly x.2 x.1 hxm).1 hxp, hxw, Finset.sum_apply])
  exact ⟨_, prog, Recursive.generate_reduceScatter ports hne hp, h1, h2⟩

/-- **C69.** Reduce_scatter with any counts of the processes, by any number of processes on each of several nodes with the
recursive algorithm and any of the choices of the library for the copy-in. -/
theorem reduceScatter_recursive {X : Type} [AddCommMonoid X] (ports : List Nat) (hne : ports ≠ [])
    (hp : ∀ p, p ∈ ports → 0 < p) {ns : Nat} (hns : 0 < ns) (cnt : Nat → Nat)
    (hlen : 0 < ∑ k ∈ Finset.range ((ports.map fun p => p + 1).prod * ns), cnt k) {ts : Nat} {P : Par}
    (hP : P ∈ OnNode.largeChoices ns ts (∑ k ∈ Finset.range ((ports.map fun p => p + 1).prod * ns), cnt k)) (u : Users)
    (hA : ApartBy ns u cnt) (m : Nat → Mem X) :
    ∃ (sched : Nat → List Block) (prog : Nat → List CInstr),
      (∀ t, Recursive.generate false (ports.map fun p : Nat => -(p : Int)) t = some (sched t)) ∧
      (∀ p, p < (ports.map fun p => p + 1).prod * ns →
        reduceScatterProgram (ports.map fun p => p + 1).prod ns P cnt (List.range (ports.map fun p => p + 1).prod) u
          (sched (p / ns)) (p / ns) (p % ns) = some (prog p)) ∧
      CCorrect (ports.map fun p => p + 1).prod ns prog m fun mem =>
        CReduceScatterMem (ports.map fun p => p + 1).prod ns u cnt m mem := by
  obtain ⟨sched, prog, h1, h3, h4⟩ := reduceScatter_recursive_serial ports hne hp hns cnt hlen hP u hA m
  exact ⟨sched, prog, h1, h3, h4.ccorrect hns⟩

/-- Six nodes with two processes each, process `p` gets `p` elements. -/
example {P : Par} (hP : P ∈ OnNode.largeChoices 2 3 (∑ k ∈ Finset.range 12, k)) (u : Users) (hA : ApartBy 2 u fun p => p)
    (m : Nat → Mem Nat) : ∃ (sched : Nat → List Block) (prog : Nat → List CInstr),
    (∀ t, Recursive.generate false [-2, -1] t = some (sched t)) ∧
    (∀ p, p < 6 * 2 → reduceScatterProgram 6 2 P (fun p => p) (List.range 6) u (sched (p / 2)) (p / 2) (p % 2) = some (prog p)) ∧
    CCorrect 6 2 prog m fun mem => CReduceScatterMem 6 2 u (fun p => p) m mem :=
  reduceScatter_recursive [2, 1] (by decide) (by decide) (by decide) (fun p => p) (by decide) hP u hA m

/-! ## The cyclic algorithm -/

section
open CyclicReduce
variable {X : Type} [AddCommMonoid X] {N ns : Nat} {sz : Nat → Nat}

theorem first_get {N t n : Nat} (hn : n < N) : ∃ l, (firstBlock N t)[n]? = some l ∧ l.frac = (n + t) % N := by
  have h : n < (firstBlock N t).length := by simp [firstBlock, Recursive.mk]; exact hn
  obtain ⟨_, h2⟩ := mk_get (List.getElem?_eq_getElem h)
  exact ⟨_, List.getElem?_eq_getElem h, by rw [h2]⟩

theorem first_line {N t k : Nat} {l : LineD} (h : (firstBlock N t)[k]? = some l) : l.frac = (k + t) % N := by
  rw [(mk_get h).2]

/-- Copy-in of the cyclic reductions. -/
theorem cyc_in (u : Users) (m : Nat → Mem X) (a : Nat) (ha : a < N) (mem : Mem X)
    (h : ∀ e, e < moffset sz N → mem (.shm 0) e =
      ∑ q ∈ Finset.range ns, m a .send (u.send (a * ns + q) + sig sz (firstBlock N a) e)) :
    Held N sz (fun e => e) (nodeIn ns u sz m) N a mem := by
  intro n i hn hi
  obtain ⟨l, h1, h2⟩ := first_get (t := a) hn
  have hle : lo (fun n => sz ((n + a) % N)) n + sz ((n + a) % N) ≤ moffset sz N := by
    rw [← lo_rotate N sz a ha]
    exact lo_end (fun n => sz ((n + a) % N)) hn
  rw [h _ (by omega), OnNode.sig_line (f := fun n => sz ((n + a) % N)) _ n l i h1 (fun k l' hk h' => by
    rw [first_line h']) (by rw [h2]; exact hi), h2, collect_id N _ a n ha hn]
  rfl

theorem cyc_full (N : Nat) (sz : Nat → Nat) (t : Nat) (ht : t < N) : moffset sz N ≤ OnNode.total sz (firstBlock N t) := by
  rw [total_lo (firstBlock N t) (fun n => sz ((n + t) % N)) fun k l h => by rw [first_line h]]
  have hl : (firstBlock N t).length = N := by simp [firstBlock, Recursive.mk]
  rw [hl, lo_rotate N sz t ht]

/-- The schedules of the cyclic algorithm. -/
theorem cyc_red (hN : 0 < N) {negs : List Nat} {tl : Nat → List Block} {last : Nat → Block}
    (hlast : ∀ t, t < N → (tl t).getLast? = some (last t)) (hst : Steps (Shift N) N tl)
    (hfr : ∀ t, t < N → ∀ l, l ∈ last t → l.frac < N)
    (hrun : ∃ v s' : Nat → Nat → Nat, Run N (fun t => scatterSteps N t (fun line => (line + t) % N) N N negs ++ tl t) v s') :
    Red N ns sz (List.range N)
      (fun t => firstBlock N t :: (scatterSteps N t (fun line => (line + t) % N) N N negs ++ tl t))
      (fun t => firstBlock N t) last
      (fun t => scatterSteps N t (fun line => (line + t) % N) N N negs ++ tl t) where
  split := fun t ht => ⟨rfl, by rw [List.getLast?_append, hlast t ht]; rfl⟩
  run := hrun
  agree := fun k _ => ((steps_scatter N hN negs N hN (Nat.le_refl N)).append hst).agree_shift k
  good := fun t ht b hb => by
    rcases List.mem_cons.1 hb with rfl | hb
    · exact (cquiet_firstBlock N t).good
    · exact ((steps_scatter N hN negs N hN (Nat.le_refl N)).append hst).good t ht b hb
  frac0 := fun t ht => first_frac N t ht
  frac1 := hfr
  full := fun t ht => cyc_full N sz t ht

end

theorem reduceScatter_cyclic_serial {X : Type} [AddCommMonoid X] (N : Nat) (hN : 0 < N) (negs : List Nat)
    (hcov : N ≤ (negs.map fun p => p + 1).prod) {ns : Nat} (hns : 0 < ns) (cnt : Nat → Nat)
    (hlen : 0 < ∑ k ∈ Finset.range (N * ns), cnt k) {ts : Nat} {P : Par}
    (hP : P ∈ OnNode.largeChoices ns ts (∑ k ∈ Finset.range (N * ns), cnt k)) (u : Users) (hA : ApartBy ns u cnt)
    (m : Nat → Mem X) :
    ∃ (sched : Nat → List Block) (prog : Nat → List CInstr),
      (∀ t, CyclicReduce.core N negs [] t = some (sched t)) ∧
      (∀ p, p < N * ns →
        reduceScatterProgram N ns P cnt (List.range N) u (sched (p / ns)) (p / ns) (p % ns) = some (prog p)) ∧
      Lined N ns 2 (fun p => reduceScatterLines N ns P cnt (List.range N) u (sched (p / ns)) (p / ns) (p % ns)) prog m
        fun mem => CReduceScatterMem N ns u cnt m mem := by
  have hchunks := CyclicReduce.chunks_one N hN negs hcov
  obtain ⟨hsm, hPn, hPl⟩ := large_sound hns hlen hP
  obtain ⟨f0, fs, hM⟩ := soundMulti_multi hsm
  rw [← total_coarse] at hPl
  obtain ⟨sz, hsz⟩ : ∃ sz, sz = coarse ns cnt := ⟨_, rfl⟩
  have hlay : ∀ t, Lay (mmsize N sz) (CyclicReduce.lastBlock 1 fun line => (line + t) % N) fun n => sz ((n + t) % N) := by
    intro t n hn
    rw [lineSize, List.getElem?_eq_getElem hn]
    dsimp only
    rw [(mk_get (List.getElem?_eq_getElem hn)).2, mmsize, Nat.mod_mod]
  have hfr : ∀ t, t < N → ∀ l, l ∈ CyclicReduce.lastBlock 1 (fun line => (line + t) % N) → l.frac < N := by
    intro t ht l hl
    obtain ⟨n, hn⟩ := List.getElem?_of_mem hl
    rw [(mk_get hn).2]
    exact Nat.mod_lt _ hN
  have hrun : ∃ v s' : Nat → Nat → Nat, Run N (fun t => CyclicReduce.scatterSteps N t (fun line => (line + t) % N) N N negs ++
      [CyclicReduce.lastBlock 1 fun line => (line + t) % N]) v s' := by
    obtain ⟨s, c, q1, _, _⟩ := CyclicReduce.scatter_run (V := Nat) N hN negs (fun _ _ => 0) fun _ _ => 0
    exact ⟨_, _, Recursive.Run.append q1 (Recursive.Run.single (CyclicReduce.last_idle N s))⟩
  obtain ⟨prog, h1, h2⟩ := scatter_core hns cnt (isPerm_range N)
    (cyc_red (ns := ns) (sz := coarse ns cnt) hN (fun t _ => rfl)
      (Steps.quiet (shift_false N) fun t _ => cquiet_lastBlock 1 _) hfr hrun) u m hM hPn hPl hA
    (fun t mem => Held N (coarse ns cnt) (fun e => e) (nodeIn ns u (coarse ns cnt) m) N t mem)
    (fun a ha mem h => cyc_in u m a ha mem (by rw [hPl] at h; exact h))
    (by
      rw [← hsz]
      intro S R m1 hQ hA'
      obtain ⟨c', first', st', m', g1, g2, g3, g4, g5⟩ := scatter_mem N sz (nodeIn ns u sz m)
        (fun t => [CyclicReduce.lastBlock 1 fun line => (line + t) % N]) R negs N (fun e => e) true S m1 hN (Nat.le_refl N)
        (fun _ h => h) hQ hA'
      rw [hchunks] at g1 g4
      obtain ⟨S2, m2, k1, k2, k3, k4⟩ := blocks_run N (mmsize N sz) (fun t n => sz ((n + t) % N)) _ _ _
        (Recursive.Run.single (CyclicReduce.last_idle N fun t n i => m' t (.shm 0) (lo (fun n => sz ((n + t) % N)) n + i)))
        (fun t ht b hb => by rw [List.mem_singleton.1 hb]; exact hlay t) first' st' R m' g3
        (fun t ht => rep_self _ _)
      refine ⟨S2, m2, g2.trans k1, k2, fun t ht i hi => ?_, fun t ht r hr => by rw [k4 t ht r hr, g5 t ht r hr]⟩
      have h0 : (0 + t) % N = t := by rw [Nat.zero_add, Nat.mod_eq_of_lt ht]
      obtain ⟨o1, _⟩ := own_off (n0 := 0) (l0 := { frac := (0 + t) % N, sendto := [(-1, (((0 + t) % N : Nat) : Int))] })
        (hlay t) (hfr t ht) rfl h0 (fun j l hl => by
          obtain ⟨hj, rfl⟩ := mk_get hl
          have : j = 0 := by omega
          subst this
          simp)
      have hi' : i < sz ((0 + t) % N) := by rw [h0]; exact hi
      have e1 := k3 t ht 0 i hi'
      have e2 := g4 t ht 0 i (by omega) hi'
      dsimp only at e1
      rw [o1, e1, e2, CyclicReduce.collect_one N t ht c' g1, Finset.sum_apply])
  refine ⟨fun t => CyclicReduce.firstBlock N t :: (CyclicReduce.scatterSteps N t (fun line => (line + t) % N) N N negs ++
    [CyclicReduce.lastBlock 1 fun line => (line + t) % N]), prog, fun t => ?_, h1, h2⟩
  unfold CyclicReduce.core
  simp only [List.isEmpty_nil, if_true, hchunks]
  rfl

/-- **C69.** Reduce_scatter with any counts of the processes, by any number of processes on each of any number of nodes with
the cyclic algorithm and any of the choices of the library for the copy-in. -/
theorem reduceScatter_cyclic {X : Type} [AddCommMonoid X] (N : Nat) (hN : 0 < N) (negs : List Nat)
    (hcov : N ≤ (negs.map fun p => p + 1).prod) {ns : Nat} (hns : 0 < ns) (cnt : Nat → Nat)
    (hlen : 0 < ∑ k ∈ Finset.range (N * ns), cnt k) {ts : Nat} {P : Par}
    (hP : P ∈ OnNode.largeChoices ns ts (∑ k ∈ Finset.range (N * ns), cnt k)) (u : Users) (hA : ApartBy ns u cnt)
    (m : Nat → Mem X) :
    ∃ (sched : Nat → List Block) (prog : Nat → List CInstr),
      (∀ t, CyclicReduce.core N negs [] t = some (sched t)) ∧
      (∀ p, p < N * ns →
        reduceScatterProgram N ns P cnt (List.range N) u (sched (p / ns)) (p / ns) (p % ns) = some (prog p)) ∧
      CCorrect N ns prog m fun mem => CReduceScatterMem N ns u cnt m mem := by
  obtain ⟨sched, prog, h1, h3, h4⟩ := reduceScatter_cyclic_serial N hN negs hcov hns cnt hlen hP u hA m
  exact ⟨sched, prog, h1, h3, h4.ccorrect hns⟩

/-- Seven nodes with three processes each, process `p` gets `3 * p` elements, two steps. -/
example {P : Par} (hP : P ∈ OnNode.largeChoices 3 3 (∑ k ∈ Finset.range (7 * 3), 3 * k)) (u : Users)
    (hA : ApartBy 3 u fun p => 3 * p) (m : Nat → Mem Nat) : ∃ (sched : Nat → List Block) (prog : Nat → List CInstr),
    (∀ t, CyclicReduce.core 7 [2, 2] [] t = some (sched t)) ∧
    (∀ p, p < 7 * 3 →
      reduceScatterProgram 7 3 P (fun p => 3 * p) (List.range 7) u (sched (p / 3)) (p / 3) (p % 3) = some (prog p)) ∧
    CCorrect 7 3 prog m fun mem => CReduceScatterMem 7 3 u (fun p => 3 * p) m mem :=
  reduceScatter_cyclic 7 (by decide) [2, 2] (by decide) (by decide) (fun p => 3 * p) (by decide) hP u hA m

theorem allreduce_cyclic_serial {X : Type} [AddCommMonoid X] (N : Nat) (hN : 0 < N) (negs ports : List Nat)
    (hne : ports ≠ []) (hp : ∀ p, p ∈ ports → 0 < p) (hcov : N ≤ (ports.map fun p => p + 1).prod)
    (hfit : CyclicReduce.Fits N 1 ports) {ns : Nat} (hns : 0 < ns) (sz : Nat → Nat)
    (hlen : 0 < ∑ k ∈ Finset.range N, sz k) {ts : Nat} {P : Par}
    (hP : P ∈ OnNode.largeChoices ns ts (∑ k ∈ Finset.range N, sz k)) (u : Users)
    (hA : Apart ns u (∑ k ∈ Finset.range N, sz k)) (m : Nat → Mem X) :
    ∃ (sched : Nat → List Block) (prog : Nat → List CInstr),
      (∀ t, CyclicReduce.core N negs ports t = some (sched t)) ∧
      (∀ p, p < N * ns → allreduceProgram N ns P sz (List.range N) u (sched (p / ns)) (p / ns) (p % ns) = some (prog p)) ∧
      Lined N ns 2 (fun p => allreduceLines N ns P sz (List.range N) u (sched (p / ns)) (p / ns) (p % ns)) prog m
        fun mem => CAllreduceMem N ns u (∑ k ∈ Finset.range N, sz k) m mem := by
  obtain ⟨tl, last, used, hsched, hlast, hused, htl, ⟨ub, hub⟩, hrun⟩ :=
    CyclicReduce.allreduce_parts_used N hN negs ports hne hp hcov hfit
  have hmpos : 0 < CyclicReduce.chunks N negs := CyclicReduce.chunks_pos N hN negs
  obtain ⟨mm, hmm⟩ : ∃ mm, mm = CyclicReduce.chunks N negs := ⟨_, rfl⟩
  rw [← hmm] at hused htl hrun hub hmpos
  obtain ⟨hsm, hPn, hPl⟩ := large_sound hns hlen hP
  obtain ⟨f0, fs, hM⟩ := soundMulti_multi hsm
  rw [← lo_eq_sum] at hA hPl
  obtain ⟨g, hg⟩ : ∃ g : Nat → Nat → Nat, g = fun t k => match used[k]? with
    | some n => sz (CyclicReduce.num N mm t n)
    | none => 0 := ⟨_, rfl⟩
  have hlay : ∀ t, t < N → ∀ b, b ∈ tl t → Lay (mmsize N sz) b (g t) := by
    intro t ht b hb k hk
    obtain ⟨n, h1, h2, _⟩ := htl t b ht hb k _ (List.getElem?_eq_getElem hk)
    rw [lineSize, List.getElem?_eq_getElem hk, hg]
    dsimp only
    rw [h1, h2, mmsize]
    dsimp only
    rw [CyclicReduce.num, Nat.mod_mod]
  have hfr : ∀ t, t < N → ∀ b, b ∈ tl t → ∀ l, l ∈ b → l.frac < N := by
    intro t ht b hb l hl
    obtain ⟨k, hk⟩ := List.getElem?_of_mem hl
    obtain ⟨n, _, h2, _⟩ := htl t b ht hb k l hk
    rw [h2]
    exact Nat.mod_lt _ hN
  have hlow : ∀ t b, t < N → b ∈ tl t → ∀ l, l ∈ b → ∀ e, e ∈ l.sendto ++ l.recvfrom → -1 ≤ e.1 := by
    intro t b ht hb l hl e he
    obtain ⟨k, hk⟩ := List.getElem?_of_mem hl
    obtain ⟨n, _, _, h3⟩ := htl t b ht hb k l hk
    exact h3 e he
  have hlastmem : ∀ t, last t ∈ tl t := fun t => List.mem_of_getLast? (hlast t)
  have hgmm : ∀ t k, k < mm → g t k = sz ((k + t) % N) := by
    intro t k hk
    rw [hg]
    dsimp only
    rw [hused k hk]
    dsimp only
    rw [CyclicReduce.num, CyclicReduce.cl_small mm k hk]
  obtain ⟨s0, c0, q1, q2, q3⟩ := CyclicReduce.scatter_run (V := Nat) N hN negs (fun _ _ => 0) fun _ _ => 0
  rw [← hmm] at q2 q3
  obtain ⟨s1, q4, _⟩ := hrun c0 _ s0 q2 q3
  obtain ⟨prog, h1, h2⟩ := allreduce_core hns (isPerm_range N)
    (cyc_red (ns := ns) (sz := sz) hN (fun t _ => hlast t) (steps_tail hN hmpos hub hlow (Run.matched q4))
      (fun t ht => hfr t ht _ (hlastmem t)) ⟨_, _, Recursive.Run.append q1 q4⟩) u m hM hPn hPl hA g
    (fun t ht => hlay t ht _ (hlastmem t))
    (fun t mem => Held N sz (fun e => e) (nodeIn ns u sz m) N t mem)
    (fun a ha mem h => cyc_in u m a ha mem (by rw [hPl] at h; exact h))
    (fun S R m1 hQ hA' => by
      obtain ⟨inp, hinp⟩ : ∃ inp, inp = nodeIn ns u sz m := ⟨_, rfl⟩
      rw [← hinp] at hA' ⊢
      obtain ⟨c', first', st', m', g1, g2, g3, g4, g5⟩ := scatter_mem N sz inp tl R negs N (fun e => e) true S m1 hN
        (Nat.le_refl N) (fun _ h => h) hQ hA'
      rw [← hmm] at g1 g4
      obtain ⟨v, hv⟩ : ∃ v : Nat → Nat → Nat → X, v = fun t n => if n < mm then CyclicReduce.collect N c' inp t n else
        fun i => m' t (.shm 0) (lo (g t) n + i) := ⟨_, rfl⟩
      obtain ⟨s', q1, q2⟩ := hrun c' inp v g1 (fun t n ht hn => by rw [hv]; dsimp only; rw [if_pos hn])
      obtain ⟨S2, m2, k1, k2, k3, k4⟩ := blocks_run N (mmsize N sz) g tl v s' q1 hlay first' st' R m' g3 (by
        intro t ht n i hi
        rw [hv]
        dsimp only
        by_cases h : n < mm
        · rw [if_pos h, lo_congr (g t) (fun n => sz ((n + t) % N)) n fun k hk => hgmm t k (by omega)]
          exact g4 t ht n i h (by rw [← hgmm t n h]; exact hi)
        · rw [if_neg h])
      exact ⟨S2, m2, g2.trans k1, k2, fun t ht => ⟨s' t, k3 t ht, fun bb hbb => q2 t bb ht hbb⟩,
        fun t ht r hr => by rw [k4 t ht r hr, g5 t ht r hr]⟩)
  exact ⟨_, prog, hsched, h1, h2⟩

/-- **C68**, part: allreduce with the cyclic algorithm. Missing: lists of ports that do not fit, for which the generator may
read outside of an array (C51). -/
theorem allreduce_cyclic_partial {X : Type} [AddCommMonoid X] (N : Nat) (hN : 0 < N) (negs ports : List Nat)
    (hne : ports ≠ []) (hp : ∀ p, p ∈ ports → 0 < p) (hcov : N ≤ (ports.map fun p => p + 1).prod)
    (hfit : CyclicReduce.Fits N 1 ports) {ns : Nat} (hns : 0 < ns) (sz : Nat → Nat)
    (hlen : 0 < ∑ k ∈ Finset.range N, sz k) {ts : Nat} {P : Par}
    (hP : P ∈ OnNode.largeChoices ns ts (∑ k ∈ Finset.range N, sz k)) (u : Users)
    (hA : Apart ns u (∑ k ∈ Finset.range N, sz k)) (m : Nat → Mem X) :
    ∃ (sched : Nat → List Block) (prog : Nat → List CInstr),
      (∀ t, CyclicReduce.core N negs ports t = some (sched t)) ∧
      (∀ p, p < N * ns → allreduceProgram N ns P sz (List.range N) u (sched (p / ns)) (p / ns) (p % ns) = some (prog p)) ∧
      CCorrect N ns prog m fun mem => CAllreduceMem N ns u (∑ k ∈ Finset.range N, sz k) m mem := by
  obtain ⟨sched, prog, h1, h3, h4⟩ := allreduce_cyclic_serial N hN negs ports hne hp hcov hfit hns sz hlen hP u hA m
  exact ⟨sched, prog, h1, h3, h4.ccorrect hns⟩

/-- Seven nodes with five processes each, one reduction step and two gather steps; pieces of different sizes. -/
example {P : Par} (hP : P ∈ OnNode.largeChoices 5 3 (∑ k ∈ Finset.range 7, k % 3)) (u : Users) (hA : Apart 5 u 6)
    (m : Nat → Mem Nat) : ∃ (sched : Nat → List Block) (prog : Nat → List CInstr),
    (∀ t, CyclicReduce.core 7 [1] [2, 2] t = some (sched t)) ∧
    (∀ p, p < 7 * 5 → allreduceProgram 7 5 P (fun k => k % 3) (List.range 7) u (sched (p / 5)) (p / 5) (p % 5) = some (prog p)) ∧
    CCorrect 7 5 prog m fun mem => CAllreduceMem 7 5 u 6 m mem :=
  allreduce_cyclic_partial 7 (by decide) [1] [2, 2] (by decide) (by decide) (by decide)
    (CyclicReduce.fits_small 7 [2, 2] 1 (by decide)) (by decide) (fun k => k % 3) (by decide) hP u hA m

/-! ## The hypotheses can be met -/

/-- The library has choices for every number of processes. -/
theorem choices_ne (ns ts len : Nat) : ∃ P, P ∈ OnNode.largeChoices ns ts len :=
  ⟨⟨ns, ts, len, OnNode.splitFactors ns 0, 0⟩, List.mem_append_right _ (List.mem_map.2 ⟨0, List.mem_range.2 (Nat.succ_pos _), rfl⟩)⟩

theorem twoUsers_apartBy : ApartBy 2 twoUsers fun p => p % 50 := by
  intro p p' hne hd i j hi hj
  unfold twoUsers
  dsimp only at *
  omega

example (m : Nat → Mem Nat) : ∃ (P : Par) (sched : Nat → List Block) (prog : Nat → List CInstr),
    P ∈ OnNode.largeChoices 2 8 21 ∧
    (∀ p, p < 6 * 2 →
      allreduceProgram 6 2 P (fun k => k + 1) (List.range 6) twoUsers (sched (p / 2)) (p / 2) (p % 2) = some (prog p)) ∧
    CCorrect 6 2 prog m fun mem => CAllreduceMem 6 2 twoUsers 21 m mem := by
  obtain ⟨P, hP⟩ := choices_ne 2 8 21
  obtain ⟨sched, prog, _, h2, h3⟩ := allreduce_recursive [1] [2] [1] (by decide) (by decide) (by decide) (by decide)
    (by decide) (by decide) (fun k => k + 1) (by decide) hP twoUsers (twoUsers_apart (by decide)) m
  exact ⟨P, sched, prog, hP, h2, h3⟩

example (m : Nat → Mem Nat) : ∃ (P : Par) (sched : Nat → List Block) (prog : Nat → List CInstr),
    P ∈ OnNode.largeChoices 2 8 91 ∧
    (∀ p, p < 7 * 2 →
      reduceScatterProgram 7 2 P (fun p => p % 50) (List.range 7) twoUsers (sched (p / 2)) (p / 2) (p % 2) = some (prog p)) ∧
    CCorrect 7 2 prog m fun mem => CReduceScatterMem 7 2 twoUsers (fun p => p % 50) m mem := by
  obtain ⟨P, hP⟩ := choices_ne 2 8 91
  obtain ⟨sched, prog, _, h2, h3⟩ := reduceScatter_cyclic 7 (by decide) [2, 2] (by decide) (by decide)
    (fun p => p % 50) (by decide) hP twoUsers twoUsers_apartBy m
  exact ⟨P, sched, prog, hP, h2, h3⟩

/-- Six relabelled nodes with two processes each, process `k` contributes `k` elements. -/
example (m : Nat → Mem Nat) : ∃ (sched' : Nat → List Block) (prog : Nat → List CInstr),
    (∀ p, p < 6 * 2 →
      allgatherProgram 6 2 (fun k => k) [1, 2, 0, 4, 5, 3] twoUsers (sched' (p / 2)) (p / 2) (p % 2) = some (prog p)) ∧
    CCorrect 6 2 prog m fun mem => TAllgatherMem 6 2 twoUsers (fun k => k) m mem := by
  obtain ⟨_, sched', prog, _, _, h3, h4⟩ := allgather_recursive [2, 1] (by decide) (by decide : 0 < 2) (fun k => k)
    [1, 2, 0, 4, 5, 3] (by show IsPerm 6 _; unfold IsPerm; decide) twoUsers m (twoUsers_apart (by decide))
  exact ⟨sched', prog, h3, h4⟩

/-- Seven nodes with two processes each. -/
example (m : Nat → Mem Nat) : ∃ prog : Nat → List CInstr,
    (∀ p, p < 7 * 2 → allgatherProgram 7 2 (fun k => 3 * k) (List.range 7) twoUsers (Cyclic.allgather 7 [1, 2, 1] (p / 2))
      (p / 2) (p % 2) = some (prog p)) ∧
    CCorrect 7 2 prog m fun mem => TAllgatherMem 7 2 twoUsers (fun k => 3 * k) m mem :=
  allgather_cyclic_partial 7 (by decide) [1, 2, 1] (by decide) (by simp [Cyclic.Suits, Cyclic.Tight]) (by decide) (by decide)
    (fun k => 3 * k) twoUsers m (twoUsers_apart (by decide))

end ExtMpi.Cluster
