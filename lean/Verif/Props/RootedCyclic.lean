import Verif.Lemmas.RootedSteps
import Verif.Props.Rooted
import Verif.Props.Forward
import Verif.Props.Cyclic
/-! C37: gathers and reduces made of the cyclic algorithms, for every root. -/
namespace ExtMpi.Rooted
open Schedule Forward

theorem ag_ends (N : Nat) : Ends N fun t => Cyclic.gatherLast N N t := by
  refine ⟨fun t _ => by simp [Cyclic.gatherLast, Recursive.mk], ?_⟩
  intro t ht l hl
  obtain ⟨n, hn⟩ := List.getElem?_of_mem hl
  obtain ⟨_, rfl⟩ := mk_get _ _ _ _ hn
  exact ⟨⟨_, rfl⟩, rfl, rfl, rfl⟩

theorem all_ends (N : Nat) (u : List Bool) : Ends N (allRow N u) := by
  refine ⟨fun t _ => by simp [allRow, Recursive.mk], ?_⟩
  intro t ht l hl
  obtain ⟨n, hn⟩ := List.getElem?_of_mem hl
  obtain ⟨hnN, rfl⟩ := mk_get _ _ _ _ hn
  refine ⟨?_, rfl, rfl, rfl⟩
  unfold CyclicReduce.renumberLine CyclicReduce.lLine
  dsimp only
  have hnum : ∀ x, CyclicReduce.num N 1 t x = (x + t) % N := by
    intro x
    unfold CyclicReduce.num CyclicReduce.cl
    rw [Nat.div_one, Nat.mod_one, Nat.add_zero]
  rw [if_pos]
  · exact ⟨_, rfl⟩
  · rw [List.all_eq_true]
    intro x hx
    rw [List.mem_range'_1] at hx
    rw [hnum, hnum, bne_iff_ne]
    intro h
    have := CyclicReduce.add_mod_inj N t x n (by omega) (by omega) h
    omega

/-- The pass with block 0. -/
theorem prunes_first (N root : Nat) (r0 : Row) (rest : List Row) (hne : rest ≠ []) (P : (Nat → Vals) → Prop) (h : Prunes N root rest P) :
    ∃ rows' v, prune N root true (r0 :: rest) = some (rows', v) ∧ Unmixed N rows'.tail := by
  obtain ⟨rn, vn, h1, h2, _⟩ := h
  cases rest with
  | nil => exact absurd rfl hne
  | cons next rest =>
    refine ⟨(fun t => endBlock (descend (r0 t) (inherit (r0 t) (vn t))) (r0 t)) :: rn, fun t => descend (r0 t) (inherit (r0 t) (vn t)), ?_, h2⟩
    rw [prune, h1]
    rfl

/-- C37 for gathers made of the cyclic allgather with steps in which no message is mixed (`WholeUp`): for every root the pass succeeds, the
pruned schedule runs to completion and the root gets block `b` of node `b`. Missing: lists with mixed messages, where the
claim is false (`gather_violated`), and lists in which a step has too many ports (`Fits`). -/
theorem gather_cyclic_partial (N root : Nat) (hroot : root < N) (ports : List Nat) (hp : ∀ p, p ∈ ports → 0 < p) (hfit : Cyclic.Fits N 1 ports)
    (hcov : N ≤ (ports.map (· + 1)).prod) (hwhole : WholeUp N 1 ports) :
    ∃ rows rows' v, (∀ t, Cyclic.allgather N ports t = columns rows t) ∧ prune N root true rows = some (rows', v) ∧
      ∀ (V : Type) [Add V] (inp junk : Nat → Nat → V),
        (∃ out, ExecD N copyOut rows' inp junk out) ∧
          ∀ out, ExecD N copyOut rows' inp junk out → ∀ b < N, out root b = some (inp b b) := by
  have hN : 0 < N := by omega
  have hst := agRows_steps N ports hp 1 (by omega) hfit
  have hcov1 : N ≤ 1 * (ports.map (· + 1)).prod := by omega
  have hcol : ∀ t, Cyclic.allgather N ports t = columns ((fun t => Cyclic.gatherFirst t) :: (agRows N 1 ports ++ [fun t => Cyclic.gatherLast N N t])) t := by
    intro t
    unfold Cyclic.allgather
    have := agRows_columns N t ports 1
    rw [Nat.min_eq_left (by omega : 1 ≤ N), Nat.min_eq_right hcov1] at this
    simp only [this]
    unfold columns
    rw [List.map_cons, List.map_append]
    rfl
  have hw : Wf N ((fun t => Cyclic.gatherFirst t) :: (agRows N 1 ports ++ [fun t => Cyclic.gatherLast N N t])) :=
    steps_wf hst _ (ag_ends N) (by omega) hcov1 _ _ fun t ht => by
      simp [Cyclic.gatherFirst, Recursive.mk]
  obtain ⟨rows', v, f1, f2⟩ := prunes_first N root (fun t => Cyclic.gatherFirst t) _ (by simp) _
    (steps_prunes hst root hroot _ (ag_ends N) (by omega) hwhole hcov1)
  refine ⟨_, rows', v, hcol, f1, fun V _ inp junk => ?_⟩
  refine gather_partial N root hroot _ rows' v hw f1 f2 ?_ inp junk
  exact computes_congr (fun t _ => hcol t) (Cyclic.allgather_partial N hN ports hp hfit hcov)

/-- No message is mixed if the number of nodes is the product. -/
theorem wholeUp_exact (N : Nat) (ps : List Nat) : ∀ G, 0 < G → N = G * (ps.map (· + 1)).prod →
    WholeUp N G ps ∧ ∀ y < N, needSt G ps y = y / G * G := by
  induction ps with
  | nil =>
    intro G hG hN
    refine ⟨trivial, fun y hy => ?_⟩
    rw [List.map_nil, List.prod_nil, Nat.mul_one] at hN
    rw [Nat.div_eq_of_lt (by omega), Nat.zero_mul]
    rfl
  | cons p ps ih =>
    intro G hG hN
    rw [List.map_cons, List.prod_cons, ← Nat.mul_assoc] at hN
    have hS0 : 0 < G * (p + 1) := Nat.mul_pos hG (by omega)
    obtain ⟨i1, i2⟩ := ih (G * (p + 1)) hS0 hN
    obtain ⟨S, hS⟩ : ∃ S, S = G * (p + 1) := ⟨_, rfl⟩
    rw [WholeUp, needSt]
    rw [← hS] at i1 i2 hN hS0 ⊢
    refine ⟨⟨?_, i1⟩, ?_⟩
    · intro d y y' _ hy hy' _ h1 h2
      rw [i2 _ h1] at h2
      have hyS : y < S := by omega
      have hyS' : y' < S := by omega
      have hdm : d % S = 0 := by rw [← h2]; exact Nat.mul_mod_left _ _
      have hdS := Nat.div_add_mod d S
      rw [hdm, Nat.add_zero, Nat.mul_comm] at hdS
      have hlt : d / S < (ps.map (· + 1)).prod := by
        rw [Nat.div_lt_iff_lt_mul hS0, Nat.mul_comm]; omega
      have hle : (d / S + 1) * S ≤ N := by rw [hN, Nat.mul_comm S]; exact Nat.mul_le_mul_right S hlt
      rw [Nat.add_mul, hdS, Nat.one_mul] at hle
      have h3 : d + y' < N := by omega
      refine ⟨h3, ?_⟩
      rw [i2 _ h3]
      have : (d + y') / S = d / S := by
        have e : d + y' = d / S * S + y' := by rw [hdS]
        rw [e, Nat.mul_comm, Nat.mul_add_div hS0, Nat.div_eq_of_lt hyS', Nat.add_zero]
      rw [this, hdS]
    · intro y hy
      unfold cut
      rw [i2 y hy]
      have e1 : y / S * S = (y / S * (p + 1)) * G := by rw [Nat.mul_assoc, Nat.mul_comm (p + 1), ← hS]
      have e2 := Nat.div_mul_le_self y S
      have e3 : y / G = y / S * (p + 1) + (y - y / S * S) / G := by
        have : y = (y / S * (p + 1)) * G + (y - y / S * S) := by rw [← e1]; omega
        conv_lhs => rw [this]
        rw [Nat.mul_comm _ G, Nat.mul_add_div hG]
      rw [e3, Nat.add_mul, ← e1]

/-- C37 for gathers made of the cyclic allgather if the number of nodes is the product of the numbers of ports plus one, for every root. -/
theorem gather_exact (ports : List Nat) (hp : ∀ p, p ∈ ports → 0 < p) (root : Nat) (hroot : root < (ports.map (· + 1)).prod) :
    ∃ rows rows' v, (∀ t, Cyclic.allgather (ports.map (· + 1)).prod ports t = columns rows t) ∧
      prune (ports.map (· + 1)).prod root true rows = some (rows', v) ∧
      ∀ (V : Type) [Add V] (inp junk : Nat → Nat → V),
        (∃ out, ExecD (ports.map (· + 1)).prod copyOut rows' inp junk out) ∧
          ∀ out, ExecD (ports.map (· + 1)).prod copyOut rows' inp junk out → ∀ b < (ports.map (· + 1)).prod, out root b = some (inp b b) := by
  refine gather_cyclic_partial _ root hroot ports hp ?_ (Nat.le_refl _) (wholeUp_exact _ ports 1 (by omega) (by omega)).1
  rcases List.eq_nil_or_concat ports with h | ⟨ps, p, h⟩
  · rw [h]; trivial
  · have hpos : 0 < p := hp p (by rw [h]; simp)
    rw [h, List.concat_eq_append]
    apply Cyclic.fits_of_exact _ 1 ps p (by omega) _ hpos
    rw [List.map_append, List.prod_append, Nat.one_mul]
    exact Nat.mul_le_mul_left _ (by simp)

/-- C37 for reduces made of the cyclic allreduce whose first part leaves one message per node, with steps in which no message
is mixed: for every root the root gets the sums. Missing: lists with mixed messages. -/
theorem reduce_cyclic_partial (N root : Nat) (hroot : root < N) (negs ports : List Nat) (hneg : N ≤ (negs.map (· + 1)).prod)
    (hne : ports ≠ []) (hp : ∀ p, p ∈ ports → 0 < p) (hcov : N ≤ (ports.map (· + 1)).prod)
    (hfit : CyclicReduce.Fits N 1 ports) (hwhole : WholeUp N 1 ports) :
    ∃ rows rows' v, (∀ t, CyclicReduce.core N negs ports t = some (columns rows t)) ∧ prune N root true rows = some (rows', v) ∧
      ∀ (V : Type) [AddCommMonoid V] (inp junk : Nat → Nat → V),
        (∃ out, ExecD N copyOut rows' inp junk out) ∧
          ∀ out, ExecD N copyOut rows' inp junk out → ∀ b < N, out root b = some (∑ s ∈ Finset.range N, inp s b) := by
  have hN : 0 < N := by omega
  obtain ⟨u, hu, hcore⟩ := cyclic_rows N hN negs ports hneg hne hcov hfit
  have hone := CyclicReduce.chunks_one N hN negs hneg
  have hst := gatherRows_steps hu ports 1 (by omega) hfit
  have hcov1 : N ≤ 1 * (ports.map (· + 1)).prod := by omega
  have hw : Wf N ((fun t => CyclicReduce.firstBlock N t) :: (scatterRows N N negs ++ (gatherRows N u 1 ports ++ [allRow N u]))) := by
    refine scatter_wf N _ (by simp) negs N _ _ hN (Nat.le_refl N) (fun t _ => ?_) fun prev top h =>
      steps_wf hst _ (all_ends N u) (by omega) hcov1 prev top fun t ht => ?_
    · simp [CyclicReduce.firstBlock, Recursive.mk]
    · have := h t ht
      rw [hone] at this
      omega
  obtain ⟨rn, vn, a, b, c⟩ := steps_prunes hst root hroot _ (all_ends N u) (by omega) hwhole hcov1
  obtain ⟨rows', v, f1, f2⟩ := prunes_first N root (fun t => CyclicReduce.firstBlock N t) _ (by simp) _
    (scatter_prunes N root (gatherRows N u 1 ports ++ [allRow N u]) (by simp) negs N hN (Nat.le_refl N) ⟨rn, vn, a, b, by
      intro t ht n hn
      rw [hone] at hn
      have h0 : n = 0 := by omega
      subst h0
      rw [c t ht 0 (by omega)]
      have hd := Cyclic.dist_lt N t root ht hroot
      have := needSt_spec N ports 1 (by omega) hcov1 _ hd
      exact ⟨by omega, by rw [Nat.add_zero]; omega⟩⟩)
  refine ⟨_, rows', v, hcore, f1, fun V _ inp junk => ?_⟩
  refine reduce_partial N root hroot _ rows' v hw f1 f2 ?_ inp junk
  obtain ⟨sched, g1, g2⟩ := CyclicReduce.allreduce_correct_partial (V := V) N hN negs ports hne hp hcov hfit
  refine computes_congr (fun t _ => ?_) g2
  exact (Option.some.inj ((hcore t).symm.trans (g1 t))).symm

/-- C37 for reduces made of the cyclic allreduce if the number of nodes is the product of the numbers of ports plus one of the
second part, for every root. -/
theorem reduce_exact (negs ports : List Nat) (root : Nat) (hroot : root < (ports.map (· + 1)).prod)
    (hneg : (ports.map (· + 1)).prod ≤ (negs.map (· + 1)).prod) (hne : ports ≠ []) (hp : ∀ p, p ∈ ports → 0 < p) :
    ∃ rows rows' v, (∀ t, CyclicReduce.core (ports.map (· + 1)).prod negs ports t = some (columns rows t)) ∧
      prune (ports.map (· + 1)).prod root true rows = some (rows', v) ∧
      ∀ (V : Type) [AddCommMonoid V] (inp junk : Nat → Nat → V),
        (∃ out, ExecD (ports.map (· + 1)).prod copyOut rows' inp junk out) ∧
          ∀ out, ExecD (ports.map (· + 1)).prod copyOut rows' inp junk out →
            ∀ b < (ports.map (· + 1)).prod, out root b = some (∑ s ∈ Finset.range (ports.map (· + 1)).prod, inp s b) :=
  reduce_cyclic_partial _ root hroot negs ports hneg hne hp (Nat.le_refl _) (CyclicReduce.fits_exact _ ports 1 (Nat.one_mul _))
    (wholeUp_exact _ ports 1 (by omega) (by omega)).1

example := gather_exact [1, 2, 1] (by decide) 7 (by decide)

example := reduce_exact [1, 1, 3] [3, 2] 7 (by decide) (by decide) (by decide) (by decide)

/-- Five nodes, which are no product. -/
theorem wholeUp_five : WholeUp 5 1 [1, 1, 1] := by
  refine ⟨?_, ?_, ?_, trivial⟩ <;> intro d y y' h1 h2 h3 h4 h5 h6 <;> simp only [needSt, cut] at h6 ⊢ <;> omega

example := gather_cyclic_partial 5 3 (by decide) [1, 1, 1] (by decide) ⟨by decide, by decide, by decide, trivial⟩ (by decide) wholeUp_five

example := reduce_cyclic_partial 5 3 (by decide) [4] [1, 1, 1] (by decide) (by decide) (by decide) (by decide)
  (CyclicReduce.fits_small 5 [1, 1, 1] 1 (by decide)) wholeUp_five

end ExtMpi.Rooted
