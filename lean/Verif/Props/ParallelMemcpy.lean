import Verif.Lemmas.ParallelMemcpy

/-!
# C19, C20: division of on-node work
-/
namespace ExtMpi.ParallelMemcpy
open ExtMpi.Lines

/-- C19 (parallel copies): the pieces of one line, for every run size not smaller than the line,
are an exact partition of the line. -/
theorem parallel_pieces_exact (S size t n : Nat) (ht : 0 < t) (hn : 0 < n) (hd : t ∣ size)
    (hS : size ≤ S) :
    Spec.ExactPartition size n (fun r => (piece S size t n r).1)
      (fun r => (piece S size t n r).2) := piece_partition S size t n ht hn hd hS

example : (List.range 3).map (piece 80 56 8 3) = [(0, 32), (32, 24), (56, 0)] := by decide

/-- C19 (copy-in): the chunks of the copy-in reduction are an exact partition of the vector. -/
theorem copyin_chunks_exact (total t n : Nat) (ht : 0 < t) (hn : 0 < n) (hd : t ∣ total) :
    Spec.ExactPartition total n (fun r => (copyinShare total t n r).1)
      (fun r => (copyinShare total t n r).2) := copyin_partition total t n ht hn hd

example : (List.range 3).map (copyinShare 80 8 3) = [(0, 32), (32, 24), (56, 24)] := by decide

/-- C19 (copy-in rounds): in every round the processes work on pairwise different chunks, so every
chunk has exactly one process; over the `n` rounds every process meets every chunk exactly once. -/
theorem copyin_rounds (n : Nat) (hn : 0 < n) :
    (∀ i, i < n → ∀ c, c < n → ∃ r, r < n ∧ chunkOf n r i = c ∧
      ∀ r', r' < n → chunkOf n r' i = c → r' = r) ∧
    (∀ r, r < n → ∀ c, c < n → ∃ i, i < n ∧ chunkOf n r i = c ∧
      ∀ i', i' < n → chunkOf n r i' = c → i' = i) := by
  have hval : ∀ r i, r < n → i < n → chunkOf n r i = if i < r then r - i - 1 else n - 1 + r - i := by
    intro r i hr hi
    unfold chunkOf
    split
    · rename_i h
      rw [show 2 * n - 1 + r - i = (r - i - 1) + n * 2 by omega, Nat.add_mul_mod_self_left,
        Nat.mod_eq_of_lt (by omega)]
    · rename_i h
      rw [show 2 * n - 1 + r - i = (n - 1 + r - i) + n * 1 by omega, Nat.add_mul_mod_self_left,
        Nat.mod_eq_of_lt (by omega)]
  constructor
  · intro i hi c hc
    by_cases h : c + i + 1 < n
    · refine ⟨c + i + 1, h, ?_, fun r' hr' h' => ?_⟩
      · rw [hval _ _ h hi]; split <;> omega
      · rw [hval _ _ hr' hi] at h'; split at h' <;> omega
    · refine ⟨c + i + 1 - n, by omega, ?_, fun r' hr' h' => ?_⟩
      · rw [hval _ _ (by omega) hi]; split <;> omega
      · rw [hval _ _ hr' hi] at h'; split at h' <;> omega
  · intro r hr c hc
    by_cases h : c < r
    · refine ⟨r - c - 1, by omega, ?_, fun i' hi' h' => ?_⟩
      · rw [hval _ _ hr (by omega)]; split <;> omega
      · rw [hval _ _ hr hi'] at h'; split at h' <;> omega
    · refine ⟨n - 1 + r - c, by omega, ?_, fun i' hi' h' => ?_⟩
      · rw [hval _ _ hr (by omega)]; split <;> omega
      · rw [hval _ _ hr hi'] at h'; split at h' <;> omega

example : (List.range 4).map (fun r => chunkOf 4 r 1) = [2, 3, 0, 1] := by decide

/-! ### C20 -/

/-- Requirements on the copies between two barriers: split lines with whole elements; no line reads
what a line of the phase writes; two lines writing a common element belong to one run (all lines
from one to the other have the same destination offset). -/
structure GoodBody (t : Nat) (body : List CopyLine) : Prop where
  split : ∀ c ∈ body, splittable c = true
  elems : ∀ c ∈ body, t ∣ c.size ∧ t ∣ c.off1 ∧ t ∣ c.off2
  noAlias : ∀ c ∈ body, ∀ c' ∈ body, ∀ o ∈ elemOps t c, ∀ o' ∈ elemOps t c', o.src ≠ o'.dst
  sameRun : ∀ A B D c c', body = A ++ c :: (B ++ c' :: D) →
    (∃ o ∈ elemOps t c, ∃ o' ∈ elemOps t c', o.dst = o'.dst) →
    c'.off1 = c.off1 ∧ ∀ x ∈ B, x.off1 = c.off1

theorem flatMap_congr' {α β : Type} {l : List α} {g h : α → List β} (H : ∀ a ∈ l, g a = h a) :
    l.flatMap g = l.flatMap h := by
  induction l with
  | nil => rfl
  | cons a l ih =>
    rw [List.flatMap_cons, List.flatMap_cons, H a (by simp), ih (fun b hb => H b (by simp [hb]))]

theorem plainKind_isReduce (k : Kind) : (plainKind k).isReduce = k.isReduce := by
  cases k <;> rfl

/-- Transfers into a cell by the piece of process `r`: those of the line if `r` owns the cell. -/
theorem piece_filter (S t n r : Nat) (c : CopyLine) (d : Loc) (ht : 0 < t)
    (hd : t ∣ c.size) :
    ((elemOps t (pieceLine S t n r c)).filter fun o => o.dst = d) =
      if startOf (S / t) n r ≤ d.idx - c.off1 / t ∧ d.idx - c.off1 / t < startOf (S / t) n (r + 1)
      then (elemOps t c).filter fun o => o.dst = d else [] := by
  obtain ⟨h1, h2⟩ := piece_spec S c.size t n r ht hd
  have h2 := h2 (d.idx - c.off1 / t)
  have hoff1 : (pieceLine S t n r c).off1 / t = c.off1 / t + startOf (S / t) n r := by
    show (c.off1 + (piece S c.size t n r).1) / t = _
    rw [h1, Nat.add_mul_div_right _ _ ht]
  have hoff2 : (pieceLine S t n r c).off2 / t = c.off2 / t + startOf (S / t) n r := by
    show (c.off2 + (piece S c.size t n r).1) / t = _
    rw [h1, Nat.add_mul_div_right _ _ ht]
  have hsize : (pieceLine S t n r c).size = (piece S c.size t n r).2 := rfl
  have hk : (pieceLine S t n r c).kind.isReduce = c.kind.isReduce := plainKind_isReduce c.kind
  have hb1 : (pieceLine S t n r c).buf1 = c.buf1 := rfl
  have hb2 : (pieceLine S t n r c).buf2 = c.buf2 := rfl
  have hn1 : (pieceLine S t n r c).num1 = c.num1 := rfl
  have hn2 : (pieceLine S t n r c).num2 = c.num2 := rfl
  rw [elemOps_filter, elemOps_filter, hoff1, hoff2, hsize, hk, hb1, hb2, hn1, hn2]
  generalize (piece S c.size t n r).2 / t = pl at *
  generalize c.off1 / t = o1 at *
  generalize c.size / t = sz at *
  generalize startOf (S / t) n r = a at *
  generalize startOf (S / t) n (r + 1) = b at *
  by_cases hbn : d.buf = c.buf1 ∧ d.num = c.num1
  · obtain ⟨hb, hn⟩ := hbn
    by_cases hin : o1 ≤ d.idx ∧ d.idx < o1 + sz
    · by_cases hown : a ≤ d.idx - o1 ∧ d.idx - o1 < b
      · have := h2.2 ⟨hown.1, hown.2, by omega⟩
        rw [if_pos ⟨hb, hn, by omega, by omega⟩, if_pos hown, if_pos ⟨hb, hn, hin.1, hin.2⟩,
          show c.off2 / t + a + (d.idx - (o1 + a)) = c.off2 / t + (d.idx - o1) by omega]
      · have hno : ¬ (a ≤ d.idx - o1 ∧ d.idx - o1 < a + pl) := fun h => by
          have := h2.1 h; exact hown ⟨this.1, this.2.1⟩
        rw [if_neg (fun h => hno (by omega)), if_neg hown]
    · have hA : ¬ (d.buf = c.buf1 ∧ d.num = c.num1 ∧ o1 + a ≤ d.idx ∧ d.idx < o1 + a + pl) := by
        rintro ⟨_, _, h3, h4⟩
        have := h2.1 ⟨by omega, by omega⟩
        omega
      have hB : ¬ (d.buf = c.buf1 ∧ d.num = c.num1 ∧ o1 ≤ d.idx ∧ d.idx < o1 + sz) :=
        fun h => hin ⟨h.2.2.1, h.2.2.2⟩
      rw [if_neg hA, if_neg hB, ite_self]
  · have hA : ¬ (d.buf = c.buf1 ∧ d.num = c.num1 ∧ o1 + a ≤ d.idx ∧ d.idx < o1 + a + pl) :=
      fun h => hbn ⟨h.1, h.2.1⟩
    have hB : ¬ (d.buf = c.buf1 ∧ d.num = c.num1 ∧ o1 ≤ d.idx ∧ d.idx < o1 + sz) :=
      fun h => hbn ⟨h.1, h.2.1⟩
    rw [if_neg hA, if_neg hB, ite_self]

theorem pieces_ops_filter (t n r : Nat) (l : List (CopyLine × Nat)) (d : Loc) :
    (((pieces t n r l).flatMap (elemOps t)).filter fun o => o.dst = d) =
      l.flatMap fun x => (elemOps t (pieceLine x.2 t n r x.1)).filter fun o => o.dst = d := by
  rw [filter_flatMap']
  unfold pieces
  rw [List.flatMap_assoc]
  congr 1
  funext x
  simp only
  split
  · simp
  · rename_i h
    have h0 : (pieceLine x.2 t n r x.1).size = 0 := by simpa using h
    simp [elemOps, h0]

/-- In a good phase every cell has one process that performs all transfers into it. -/
theorem body_owner (t n : Nat) (body : List CopyLine) (ht : 0 < t) (hn : 0 < n)
    (hg : GoodBody t body) (d : Loc) :
    ∃ r, r < n ∧
      (((pieces t n r (annot none body)).flatMap (elemOps t)).filter fun o => o.dst = d) =
        ((body.flatMap (elemOps t)).filter fun o => o.dst = d) ∧
      ∀ r', r' < n → r' ≠ r →
        (((pieces t n r' (annot none body)).flatMap (elemOps t)).filter fun o => o.dst = d) = [] := by
  have hbody : ((body.flatMap (elemOps t)).filter fun o => o.dst = d) =
      (annot none body).flatMap fun x => (elemOps t x.1).filter fun o => o.dst = d := by
    rw [filter_flatMap']
    conv_lhs => rw [← annot_map_fst none body]
    rw [List.flatMap_map]
  have hmemb : ∀ x ∈ annot none body, x.1 ∈ body := by
    intro x hx
    have := List.mem_map_of_mem (f := Prod.fst) hx
    rwa [annot_map_fst] at this
  by_cases hw : ∃ x ∈ annot none body, (elemOps t x.1).filter (fun o => decide (o.dst = d)) ≠ []
  · obtain ⟨x, hx, hxd⟩ := hw
    have hxin := hxd
    rw [elemOps_filter] at hxin
    have hin : d.buf = x.1.buf1 ∧ d.num = x.1.num1 ∧ x.1.off1 / t ≤ d.idx ∧
        d.idx < x.1.off1 / t + x.1.size / t := by
      by_contra hcon; rw [if_neg hcon] at hxin; exact hxin rfl
    have hsz := annot_ge none body hg.split (by intro _ _ h; cases h) x hx
    have hsz' : x.1.size / t ≤ x.2 / t := Nat.div_le_div_right hsz
    obtain ⟨r, hr, ha, hb⟩ := owner_exists (E := x.2 / t) (x := d.idx - x.1.off1 / t) hn (by omega)
    -- all lines writing `d` have the offset and run size of `x`
    have hsame : ∀ y ∈ annot none body,
        (elemOps t y.1).filter (fun o => decide (o.dst = d)) ≠ [] →
        y.1.off1 = x.1.off1 ∧ y.2 = x.2 := by
      intro y hy hyd
      have hwit : ∀ z : CopyLine × Nat,
          (elemOps t z.1).filter (fun o => decide (o.dst = d)) ≠ [] →
          ∃ o ∈ elemOps t z.1, o.dst = d := by
        intro z hz
        obtain ⟨o, ho⟩ := List.exists_mem_of_ne_nil _ hz
        rw [List.mem_filter] at ho
        exact ⟨o, ho.1, by simpa using ho.2⟩
      obtain ⟨o, ho, hod⟩ := hwit x hxd
      obtain ⟨o', ho', hod'⟩ := hwit y hyd
      -- positions
      obtain ⟨A, D, hAD⟩ := List.append_of_mem hx
      rw [hAD] at hy
      have hfst := annot_map_fst none body
      rcases List.mem_append.1 hy with hyA | hyD
      · obtain ⟨A1, A2, hA⟩ := List.append_of_mem hyA
        have heq : annot none body = A1 ++ y :: (A2 ++ x :: D) := by rw [hAD, hA]; simp
        have hbd : body = A1.map Prod.fst ++ y.1 :: (A2.map Prod.fst ++ x.1 :: D.map Prod.fst) := by
          rw [← hfst, heq]; simp
        obtain ⟨h1, h2⟩ := hg.sameRun _ _ _ _ _ hbd ⟨o', ho', o, ho, by rw [hod, hod']⟩
        refine ⟨h1.symm, annot_same none body A1 A2 D y x heq (fun z hz => h2 z.1 ?_) h1⟩
        exact List.mem_map_of_mem hz
      · rcases List.mem_cons.1 hyD with rfl | hyD
        · exact ⟨rfl, rfl⟩
        · obtain ⟨D1, D2, hD⟩ := List.append_of_mem hyD
          have heq : annot none body = A ++ x :: (D1 ++ y :: D2) := by rw [hAD, hD]
          have hbd : body = A.map Prod.fst ++ x.1 :: (D1.map Prod.fst ++ y.1 :: D2.map Prod.fst) := by
            rw [← hfst, heq]; simp
          obtain ⟨h1, h2⟩ := hg.sameRun _ _ _ _ _ hbd ⟨o, ho, o', ho', by rw [hod, hod']⟩
          refine ⟨h1, (annot_same none body A D1 D2 x y heq (fun z hz => h2 z.1 ?_) h1).symm⟩
          exact List.mem_map_of_mem hz
    refine ⟨r, hr, ?_, ?_⟩
    · rw [pieces_ops_filter, hbody]
      apply flatMap_congr'
      intro y hy
      rw [piece_filter y.2 t n r y.1 d ht (hg.elems _ (hmemb y hy)).1]
      by_cases hyd : (elemOps t y.1).filter (fun o => decide (o.dst = d)) = []
      · rw [hyd]; split <;> rfl
      · obtain ⟨h1, h2⟩ := hsame y hy hyd
        rw [h1, h2, if_pos ⟨ha, hb⟩]
    · intro r' hr' hne
      rw [pieces_ops_filter, List.flatMap_eq_nil_iff]
      intro y hy
      rw [piece_filter y.2 t n r' y.1 d ht (hg.elems _ (hmemb y hy)).1]
      by_cases hyd : (elemOps t y.1).filter (fun o => decide (o.dst = d)) = []
      · rw [hyd]; split <;> rfl
      · obtain ⟨h1, h2⟩ := hsame y hy hyd
        rw [h1, h2, if_neg]
        intro hcon
        exact hne (owner_unique ⟨ha, hb⟩ hcon)
  · have hw' : ∀ x ∈ annot none body, (elemOps t x.1).filter (fun o => decide (o.dst = d)) = [] := by
      intro x hx
      by_contra h
      exact hw ⟨x, hx, h⟩
    have hnil : ∀ r,
        (((pieces t n r (annot none body)).flatMap (elemOps t)).filter fun o => o.dst = d) = [] := by
      intro r
      rw [pieces_ops_filter, List.flatMap_eq_nil_iff]
      intro y hy
      rw [piece_filter y.2 t n r y.1 d ht (hg.elems _ (hmemb y hy)).1, hw' y hy]
      split <;> rfl
    refine ⟨0, hn, ?_, fun r' _ _ => hnil r'⟩
    rw [hnil, hbody]
    symm
    rw [List.flatMap_eq_nil_iff]
    exact hw'

/-- Every interleaving of the pieces of one phase has the effect of the phase. -/
theorem body_exec {V : Type} (f : V → V → V) (t n : Nat) (body : List CopyLine) (ht : 0 < t)
    (hn : 0 < n) (hg : GoodBody t body) (m : Mem V) (L : List (Nat × ElemOp))
    (hL : Spec.Interleaving n
      (fun r => (pieces t n r (annot none body)).flatMap (elemOps t)) L) :
    execOps f m (L.map Prod.snd) = execLines f t m body := by
  unfold execLines
  symm
  apply execOps_congr
  · intro o ho o' ho'
    obtain ⟨c, hc, ho⟩ := List.mem_flatMap.1 ho
    obtain ⟨c', hc', ho'⟩ := List.mem_flatMap.1 ho'
    exact hg.noAlias c hc c' hc' o ho o' ho'
  · intro d
    obtain ⟨r, hr, h1, h2⟩ := body_owner t n body ht hn hg d
    rw [interleaving_filter hL d r hr h2, h1]

theorem phases_others (os : List Nat) (ls : List Line) :
    Spec.phases (os.map Line.other ++ ls) = Spec.phases ls := by
  induction os with
  | nil => rfl
  | cons a os ih => simpa [Spec.phases] using ih

theorem phases_block (pre post : List Nat) (cs : List CopyLine) (tl : List Line) (p : List (List CopyLine))
    (h : Spec.phases tl = [] :: p) :
    Spec.phases (pre.map Line.other ++ (cs.map Line.copy ++ post.map Line.other) ++ tl) =
      cs :: p := by
  rw [List.append_assoc, phases_others, List.append_assoc]
  induction cs with
  | nil => rw [List.map_nil, List.nil_append, phases_others, h]
  | cons c cs ih => simp only [List.map_cons, List.cons_append, Spec.phases, ih]

theorem copies_block (pre post : List Nat) (cs : List CopyLine) (tl : List Line) :
    Spec.copies (pre.map Line.other ++ (cs.map Line.copy ++ post.map Line.other) ++ tl) =
      cs ++ Spec.copies tl := by
  have ho : ∀ (os : List Nat) ls, Spec.copies (os.map Line.other ++ ls) = Spec.copies ls := by
    intro os ls
    induction os with
    | nil => rfl
    | cons a os ih => simpa [Spec.copies] using ih
  rw [List.append_assoc, ho, List.append_assoc]
  induction cs with
  | nil => rw [List.map_nil, List.nil_append, ho]; rfl
  | cons c cs ih => simp only [List.map_cons, List.cons_append, Spec.copies, ih]

theorem phases_rest (rest : List Block) (g : Block → List CopyLine) :
    Spec.phases (rest.flatMap fun b => Line.barrier :: (b.pre.map Line.other ++
        ((g b).map Line.copy ++ b.post.map Line.other))) = [] :: rest.map g := by
  induction rest with
  | nil => rfl
  | cons b rest ih =>
    simp only [List.flatMap_cons, List.cons_append, Spec.phases, List.map_cons]
    rw [phases_block _ _ _ _ _ ih]

theorem copies_rest (rest : List Block) :
    Spec.copies (rest.flatMap fun b => Line.barrier :: b.lines) = rest.flatMap Block.body := by
  induction rest with
  | nil => rfl
  | cons b rest ih =>
    simp only [List.flatMap_cons, List.cons_append, Spec.copies]
    unfold Block.lines at ih ⊢
    rw [copies_block, ih]

theorem execLines_append {V : Type} (f : V → V → V) (t : Nat) (m : Mem V) (a b : List CopyLine) :
    execLines f t m (a ++ b) = execLines f t (execLines f t m a) b := by
  simp [execLines, execOps]

theorem nodeRun_blocks {V : Type} (f : V → V → V) (t n : Nat) (ht : 0 < t) (hn : 0 < n)
    (bs : List Block) (hg : ∀ b ∈ bs, GoodBody t b.body) (m m' : Mem V)
    (ps : Nat → List (List CopyLine))
    (hps : ∀ r, r < n → ps r = bs.map fun b => pieces t n r (annot none b.body))
    (hrun : Spec.NodeRun f t n m ps m') :
    m' = execLines f t m (bs.flatMap Block.body) := by
  induction bs generalizing m ps with
  | nil =>
    cases hrun with
    | done _ => rfl
    | phase hd tl L h1 _ _ =>
      have := h1 0 hn
      rw [hps 0 hn] at this
      cases this
  | cons b bs ih =>
    cases hrun with
    | done h =>
      have := h 0 hn
      rw [hps 0 hn] at this
      cases this
    | phase hd tl L h1 h2 h3 =>
      have hh : ∀ r, r < n → hd r = pieces t n r (annot none b.body) ∧
          tl r = bs.map fun b => pieces t n r (annot none b.body) := by
        intro r hr
        have := h1 r hr
        rw [hps r hr, List.map_cons] at this
        injection this with e1 e2
        exact ⟨e1.symm, e2.symm⟩
      have hL : Spec.Interleaving n
          (fun r => (pieces t n r (annot none b.body)).flatMap (elemOps t)) L :=
        ⟨h2.1, fun r hr => by rw [h2.2 r hr]; simp only [(hh r hr).1]⟩
      have := body_exec f t n b.body ht hn (hg b (by simp)) m L hL
      rw [this] at h3
      rw [ih (fun b' hb' => hg b' (by simp [hb'])) _ tl (fun r hr => (hh r hr).2) h3,
        List.flatMap_cons, execLines_append]

/-- C20: whatever the interleaving of the processes, the split programs of all processes have the
effect of executing the copies of the original program one after the other.

Partial: requires that message lines do not lie between the copies of a phase (`program`), see
`parallel_violated`. -/
theorem parallel_partial {V : Type} (f : V → V → V) (t n : Nat) (ht : 0 < t) (hn : 0 < n)
    (first : Block) (rest : List Block) (hf : GoodBody t first.body)
    (hr : ∀ b ∈ rest, GoodBody t b.body) (m m' : Mem V)
    (hrun : Spec.NodeRun f t n m
      (fun r => Spec.phases (pass t n r initState (program first rest))) m') :
    m' = execLines f t m (Spec.copies (program first rest)) := by
  have hcop : Spec.copies (program first rest) = (first :: rest).flatMap Block.body := by
    unfold program
    conv_lhs => rw [show first.lines = first.pre.map Line.other ++ (first.body.map Line.copy ++
      first.post.map Line.other) from rfl]
    rw [copies_block, copies_rest, List.flatMap_cons]
  rw [hcop]
  apply nodeRun_blocks f t n ht hn (first :: rest) _ m m' _ _ hrun
  · intro b hb
    rcases List.mem_cons.1 hb with rfl | hb
    · exact hf
    · exact hr b hb
  · intro r _
    rw [pass_program t n r first rest hf.split (fun b hb => (hr b hb).split)]
    rw [phases_block _ _ _ _ _ (phases_rest rest (fun b => pieces t n r (annot none b.body)))]
    rfl

/-- Interleavings exist (processes one after the other). -/
theorem interleaving_exists (n : Nat) (ops : Nat → List ElemOp) :
    ∃ L, Spec.Interleaving n ops L := by
  induction n with
  | zero => exact ⟨[], by simp, by intro r hr; omega⟩
  | succ n ih =>
    obtain ⟨L, h1, h2⟩ := ih
    refine ⟨L ++ (ops n).map (n, ·), ?_, ?_⟩
    · intro x hx
      rcases List.mem_append.1 hx with hx | hx
      · have := h1 x hx; omega
      · obtain ⟨o, _, rfl⟩ := List.mem_map.1 hx; simp
    · intro r hr
      rw [List.filter_append, List.map_append]
      by_cases hrn : r = n
      · subst hrn
        have : (L.filter fun x => decide (x.1 = r)) = [] := by
          rw [List.filter_eq_nil_iff]
          intro x hx
          have := h1 x hx
          simp; omega
        rw [this]
        simp [List.filter_map, Function.comp_def]
      · rw [h2 r (by omega)]
        have hnr : ¬ n = r := fun h => hrn h.symm
        simp [List.filter_map, Function.comp_def, hnr]

/-- Two shared-memory lines of one run, six and four elements, on three processes. -/
def exampleBlock : Block :=
  ⟨[7], [⟨.memcpy, .shmem, 0, -1, 0, .shmem, 1, -1, 8, 6⟩, ⟨.reduce, .shmem, 0, -1, 0, .shmem, 2, -1, 0, 4⟩], [8]⟩

example : (Spec.phases (pass 1 3 1 initState (program exampleBlock []))) =
    [[⟨.memcpy, .shmem, 0, -1, 2, .shmem, 1, -1, 10, 2⟩, ⟨.reduce, .shmem, 0, -1, 2, .shmem, 2, -1, 2, 2⟩]] := by
  decide

/-- The hypotheses of `parallel_partial` are met: a run of the example program exists. -/
example (m : Mem Nat) : ∃ m', Spec.NodeRun (· + ·) 1 3 m
    (fun r => Spec.phases (pass 1 3 r initState (program exampleBlock []))) m' := by
  obtain ⟨L, hL⟩ := interleaving_exists 3 (fun r =>
    ((Spec.phases (pass 1 3 r initState (program exampleBlock []))).headD []).flatMap (elemOps 1))
  refine ⟨_, Spec.NodeRun.phase
    (fun r => (Spec.phases (pass 1 3 r initState (program exampleBlock []))).headD [])
    (fun _ => []) L ?_ hL (Spec.NodeRun.done fun _ _ => rfl)⟩
  intro r hr
  match r, hr with
  | 0, _ => decide
  | 1, _ => decide
  | 2, _ => decide

example : GoodBody 1 exampleBlock.body where
  split := by decide
  elems := by intro c _; exact ⟨Nat.one_dvd _, Nat.one_dvd _, Nat.one_dvd _⟩
  noAlias := by decide
  sameRun := by
    intro A B D c c' h _
    match A, B with
    | [], [] => simp [exampleBlock] at h; obtain ⟨rfl, rfl, _⟩ := h; simp
    | [], [_] => simp [exampleBlock] at h
    | [], _ :: _ :: _ => simp [exampleBlock] at h
    | [_], [] => simp [exampleBlock] at h
    | [_], _ :: _ => simp [exampleBlock] at h
    | [_, _], _ => simp [exampleBlock] at h
    | _ :: _ :: _ :: _, _ => simp [exampleBlock] at h

/-! ### Violation: a message line inside a run -/

def badProgram : List Line :=
  [.barrier, .copy ⟨.reduce, .shmem, 0, -1, 0, .shmem, 1, -1, 0, 4⟩, .other 0,
    .copy ⟨.reduce, .shmem, 0, -1, 0, .shmem, 2, -1, 0, 2⟩]

/-- Process 0 first, then process 1. -/
def badSchedule : List (Nat × ElemOp) :=
  (List.range 2).flatMap fun r =>
    ((((Spec.phases (pass 1 2 r initState badProgram)).tail).headD []).flatMap (elemOps 1)).map (r, ·)

/-- Negation of C20: with a message line between two reductions of one run, two processes compute
different run sizes and element 1 is reduced twice. -/
theorem parallel_violated :
    ∃ (m m' : Mem Nat),
      Spec.NodeRun (· + ·) 1 2 m (fun r => Spec.phases (pass 1 2 r initState badProgram)) m' ∧
      m' ⟨.shmem, 0, 1⟩ ≠ execLines (· + ·) 1 m (Spec.copies badProgram) ⟨.shmem, 0, 1⟩ := by
  refine ⟨fun _ => 1, execOps (· + ·) (fun _ => 1) (badSchedule.map Prod.snd), ?_, by decide⟩
  refine Spec.NodeRun.phase (fun _ => []) (fun r => (Spec.phases (pass 1 2 r initState badProgram)).tail)
    [] ?_ ⟨by simp, by simp⟩ ?_
  · intro r hr
    match r, hr with
    | 0, _ => decide
    | 1, _ => decide
  · refine Spec.NodeRun.phase
      (fun r => ((Spec.phases (pass 1 2 r initState badProgram)).tail).headD []) (fun _ => [])
      badSchedule ?_ ⟨by decide, ?_⟩ (Spec.NodeRun.done (fun _ _ => rfl))
    · intro r hr
      match r, hr with
      | 0, _ => decide
      | 1, _ => decide
    · intro r hr
      match r, hr with
      | 0, _ => decide
      | 1, _ => decide

end ExtMpi.ParallelMemcpy
