import Verif.Model.BufferOffset

/-!
# C22: internal buffers do not overlap
-/
namespace ExtMpi.BufferOffset
open ExtMpi.Lines

theorem foldl_mono {α : Type} (g : Nat → α → Nat) (hg : ∀ m a, m ≤ g m a) (l : List α) (m : Nat) :
    m ≤ l.foldl g m := by
  induction l generalizing m with
  | nil => exact Nat.le_refl _
  | cons a l ih => exact Nat.le_trans (hg m a) (ih (g m a))

theorem foldl_ge {α : Type} (g : Nat → α → Nat) (hg : ∀ m a, m ≤ g m a) (v : α → Nat) (l : List α)
    (m : Nat) (a : α) (ha : a ∈ l) (hv : ∀ m, v a ≤ g m a) : v a ≤ l.foldl g m := by
  induction l generalizing m with
  | nil => cases ha
  | cons b l ih =>
    rcases List.mem_cons.1 ha with rfl | ha
    · exact Nat.le_trans (hv m) (foldl_mono g hg l _)
    · exact ih _ ha

theorem maxNum_ge {rs : List (Ref × Nat)} {r : Ref × Nat} (hr : r ∈ rs) (ho : r.1.isOff = true)
    (hn : 0 ≤ r.1.onum) : r.1.onum.toNat ≤ maxNum rs := by
  unfold maxNum
  refine foldl_ge (v := fun r : Ref × Nat => r.1.onum.toNat) _ ?_ rs 0 r hr ?_
  · intro m a; split <;> omega
  · intro m; split
    · exact Nat.le_refl _
    · rename_i h; simp only [ho, true_and] at h; omega

theorem used_ge {rs : List (Ref × Nat)} {r : Ref × Nat} (hr : r ∈ rs) (ho : r.1.isOff = true)
    (hn : 0 ≤ r.1.onum) : r.1.off + r.2 ≤ used rs r.1.onum.toNat := by
  unfold used
  refine foldl_ge (v := fun r : Ref × Nat => r.1.off + r.2) _ ?_ rs 0 r hr ?_
  · intro m a; split <;> omega
  · intro m; split
    · exact Nat.le_refl _
    · rename_i h; simp only [ho, true_and] at h; omega

theorem shmemMax_ge {rs : List (Ref × Nat)} {r : Ref × Nat} (hr : r ∈ rs) (ho : r.1.isOff = false) :
    r.1.off + r.2 ≤ shmemMax rs := by
  unfold shmemMax
  refine foldl_ge (v := fun r : Ref × Nat => r.1.off + r.2) _ ?_ rs 0 r hr ?_
  · intro m a; split <;> omega
  · intro m; split
    · exact Nat.le_refl _
    · rename_i h; simp only [ho] at h; simp only [Bool.false_eq_true, not_false_iff, true_and] at h
      omega

theorem start_mono (rs : List (Ref × Nat)) {i j : Nat} (h : i ≤ j) : start rs i ≤ start rs j := by
  induction j with
  | zero => rw [Nat.le_zero.1 h]; exact Nat.le_refl _
  | succ j ih =>
    by_cases hj : i = j + 1
    · rw [hj]; exact Nat.le_refl _
    · have := ih (by omega)
      simp only [start]; omega

theorem start_succ_ge (rs : List (Ref × Nat)) (i : Nat) : start rs i + used rs i ≤ start rs (i + 1) := by
  simp only [start]; split <;> omega

theorem total_ge (rs : List (Ref × Nat)) :
    start rs (maxNum rs + 1) ≤ total rs ∧ shmemMax rs ≤ total rs := by
  unfold total
  simp only [cacheLine]
  split <;> omega

theorem layout_get {ls : List Ln} {t : List Nat} (h : layout ls = some t) :
    (∀ i, i ≤ maxNum (copyRefs ls) → t[i]? = some (start (copyRefs ls) i)) ∧
    shmemSize t = some (total (copyRefs ls)) := by
  unfold layout at h
  simp only at h
  split at h
  · cases h
    constructor
    · intro i hi
      rw [List.getElem?_append_left (by simp; omega)]
      simp [show i < maxNum (copyRefs ls) + 1 by omega]
    · simp [shmemSize]
  · cases h

theorem resolve_off {ls : List Ln} {t : List Nat} (h : layout ls = some t) {r : Ref} {s : Nat}
    (hr : (r, s) ∈ copyRefs ls) (ho : r.isOff = true) (hn : 0 ≤ r.onum) :
    resolve t r = some ⟨false, r.onum, r.off + start (copyRefs ls) r.onum.toNat⟩ := by
  have hm := maxNum_ge hr ho hn
  simp only [resolve, ho, if_true, ge_iff_le, hn, (layout_get h).1 _ hm, Option.map_some]

/-- C22 (copies and reductions): after a successful layout every operand of a copy or reduction is
resolved without leaving the table; operands in buffers of different numbers address disjoint
bytes; and every operand lies inside the shared memory of `shmem_max` bytes.

Partial: the operands of messages are not considered by the layout (`layout_msg_violated`), and
`esreduc_` lines are not resolved (`noOffset_sreduc_violated`). -/
theorem layout_partial (ls : List Ln) (t : List Nat) (h : layout ls = some t) :
    ∃ size, shmemSize t = some size ∧
    (∀ r s, (r, s) ∈ copyRefs ls → (r.isOff = true → 0 ≤ r.onum) →
      ∃ r', resolve t r = some r' ∧ r'.isOff = false ∧ r'.off + s ≤ size) ∧
    (∀ a sa b sb a' b', (a, sa) ∈ copyRefs ls → (b, sb) ∈ copyRefs ls →
      a.isOff = true → b.isOff = true → 0 ≤ a.onum → 0 ≤ b.onum → a.onum ≠ b.onum →
      resolve t a = some a' → resolve t b = some b' →
      ∀ x, ¬ ((a'.off ≤ x ∧ x < a'.off + sa) ∧ (b'.off ≤ x ∧ x < b'.off + sb))) ∧
    (∀ a b sa sb a' b', (a, sa) ∈ copyRefs ls → (b, sb) ∈ copyRefs ls →
      a.isOff = true → b.isOff = true → 0 ≤ a.onum → a.onum = b.onum →
      resolve t a = some a' → resolve t b = some b' → a'.off + b.off = b'.off + a.off) := by
  obtain ⟨hg1, hg2⟩ := layout_get h
  obtain ⟨ht1, ht2⟩ := total_ge (copyRefs ls)
  refine ⟨_, hg2, ?_, ?_, ?_⟩
  · intro r s hr hn
    cases ho : r.isOff with
    | false =>
      refine ⟨r, by simp [resolve, ho], ho, ?_⟩
      have : r.off + s ≤ shmemMax (copyRefs ls) := shmemMax_ge hr ho
      omega
    | true =>
      refine ⟨_, resolve_off h hr ho (hn ho), rfl, ?_⟩
      have hm : r.onum.toNat ≤ maxNum (copyRefs ls) := maxNum_ge hr ho (hn ho)
      have hu : r.off + s ≤ used (copyRefs ls) r.onum.toNat := used_ge hr ho (hn ho)
      have hs := start_succ_ge (copyRefs ls) r.onum.toNat
      have hmo := start_mono (copyRefs ls) (show r.onum.toNat + 1 ≤ maxNum (copyRefs ls) + 1 by omega)
      show r.off + start (copyRefs ls) r.onum.toNat + s ≤ _
      omega
  · intro a sa b sb a' b' ha hb hoa hob hna hnb hne hra hrb x
    rw [resolve_off h ha hoa hna] at hra
    rw [resolve_off h hb hob hnb] at hrb
    cases hra
    cases hrb
    have hua : a.off + sa ≤ used (copyRefs ls) a.onum.toNat := used_ge ha hoa hna
    have hub : b.off + sb ≤ used (copyRefs ls) b.onum.toNat := used_ge hb hob hnb
    have hsa := start_succ_ge (copyRefs ls) a.onum.toNat
    have hsb := start_succ_ge (copyRefs ls) b.onum.toNat
    simp only
    rcases Nat.lt_or_gt_of_ne (show a.onum.toNat ≠ b.onum.toNat by omega) with hlt | hgt
    · have := start_mono (copyRefs ls) (show a.onum.toNat + 1 ≤ b.onum.toNat by omega)
      omega
    · have := start_mono (copyRefs ls) (show b.onum.toNat + 1 ≤ a.onum.toNat by omega)
      omega
  · intro a b sa sb a' b' ha hb hoa hob hna heq hra hrb
    rw [resolve_off h ha hoa hna] at hra
    rw [resolve_off h hb hob (heq ▸ hna)] at hrb
    cases hra
    cases hrb
    simp only [heq]
    omega

theorem copyRefs_mem {ls : List Ln} {k : Kind} {a b : Ref} {s : Nat} (h : Ln.copy k a b s ∈ ls) :
    (a, s) ∈ copyRefs ls ∧ (b, s) ∈ copyRefs ls := by
  induction ls with
  | nil => cases h
  | cons l ls ih =>
    rcases List.mem_cons.1 h with rfl | h
    · simp [copyRefs]
    · obtain ⟨h1, h2⟩ := ih h
      cases l <;> simp [copyRefs, h1, h2]

/-- Every copy or reduction line other than `esreduc_` is rewritten to one with absolute operands
of the same kind and size. -/
theorem noOffset_copy (ls : List Ln) (t : List Nat) (h : layout ls = some t) (k : Kind) (a b : Ref)
    (s : Nat) (hmem : Ln.copy k a b s ∈ ls) (hk : k ≠ .sreduc_)
    (ha : a.isOff = true → 0 ≤ a.onum) (hb : b.isOff = true → 0 ≤ b.onum) :
    ∃ a' b', noOffset t (.copy k a b s) = some (.copy k a' b' s) ∧ a'.isOff = false ∧
      b'.isOff = false ∧ resolve t a = some a' ∧ resolve t b = some b' := by
  obtain ⟨size, _, h1, _⟩ := layout_partial ls t h
  obtain ⟨ma, mb⟩ := copyRefs_mem hmem
  obtain ⟨a', ea, oa, _⟩ := h1 a s ma ha
  obtain ⟨b', eb, ob, _⟩ := h1 b s mb hb
  refine ⟨a', b', ?_, oa, ob, ea, eb⟩
  cases k <;> first | exact absurd rfl hk | simp [noOffset, ea, eb]

/-- Two buffers of 100 and 40 bytes and an absolute operand. -/
def exampleLines : List Ln :=
  [.copy .memcpy ⟨true, 0, 60⟩ ⟨true, 1, 0⟩ 40, .other, .copy .reduce ⟨true, 0, 0⟩ ⟨false, -1, 8⟩ 24]

example : layout exampleLines = some [0, 100, 192] := by decide

example : exampleLines.mapM (noOffset [0, 100, 192]) =
    some [.copy .memcpy ⟨false, 0, 60⟩ ⟨false, 1, 100⟩ 40, .other,
      .copy .reduce ⟨false, 0, 0⟩ ⟨false, -1, 8⟩ 24] := by decide

/-! ### Violations -/

/-- A message into a buffer that no copy touches to the same extent runs into the next buffer. -/
theorem layout_msg_violated :
    ∃ (ls : List Ln) (t : List Nat) (a b a' b' : Ref) (x : Nat),
      layout ls = some t ∧ Ln.msg a 100 ∈ ls ∧ (b, 40) ∈ copyRefs ls ∧
      a.isOff = true ∧ b.isOff = true ∧ 0 ≤ a.onum ∧ 0 ≤ b.onum ∧ a.onum ≠ b.onum ∧
      resolve t a = some a' ∧ resolve t b = some b' ∧
      (a'.off ≤ x ∧ x < a'.off + 100) ∧ (b'.off ≤ x ∧ x < b'.off + 40) :=
  ⟨[.msg ⟨true, 0, 0⟩ 100, .copy .memcpy ⟨true, 1, 0⟩ ⟨false, -1, 0⟩ 40], [0, 64, 192],
    ⟨true, 0, 0⟩, ⟨true, 1, 0⟩, ⟨false, 0, 0⟩, ⟨false, 1, 64⟩, 70, by decide⟩

/-- `esreduc_` lines keep their buffer numbers: after the pass the operands of such a line are still
relative, whereas the same line as `ereduc_` is resolved. -/
theorem noOffset_sreduc_violated :
    ∃ (ls : List Ln) (t : List Nat) (a b : Ref), layout ls = some t ∧
      Ln.copy .sreduc_ a b 8 ∈ ls ∧ noOffset t (.copy .sreduc_ a b 8) = some (.copy .sreduc_ a b 8) ∧
      a.isOff = true ∧
      noOffset t (.copy .reduc_ a b 8) = some (.copy .reduc_ ⟨false, 1, 64⟩ ⟨false, 0, 0⟩ 8) :=
  ⟨[.copy .sreduc_ ⟨true, 1, 0⟩ ⟨true, 0, 0⟩ 8], [0, 64, 192], ⟨true, 1, 0⟩, ⟨true, 0, 0⟩, by decide⟩

end ExtMpi.BufferOffset
