import Mathlib.Tactic.ByContra
import Mathlib.Tactic.NormNum
import Verif.Spec.Interface

/-!
# Properties C08, C09, C33, C34, C38, C40: MPI wrappers
-/
namespace ExtMpi.Interface
open Spec

variable {L F Req S : Type} {m : Mpi L F Req S} {lc : L → Int → Prop} {fc : F → Req → Prop}

theorem test_facts (hm : Lawful m lc fc) (l : L) (f : F) (r : Req) :
    let t := test m l f r
    t.2.2.2.1 = SUCCESS ∧ (t.2.2.2.2.1 = true ↔ complete m lc fc t.1 t.2.1 r) ∧
    (∀ r', complete m lc fc l f r' → complete m lc fc t.1 t.2.1 r') := by
  simp only [test]
  by_cases h : m.search r ≥ 0
  · simp only [h, if_true, complete]
    refine ⟨trivial, hm.ext_flag l _, ?_⟩
    intro r' hr'
    split
    · next h' => rw [if_pos h'] at hr'; exact hm.ext_mono _ _ _ hr'
    · next h' => rw [if_neg h'] at hr'; exact hr'
  · simp only [h, if_false, complete]
    refine ⟨hm.p_ret f r, hm.p_flag f r, ?_⟩
    intro r' hr'
    split
    · next h' => rw [if_pos h'] at hr'; exact hr'
    · next h' => rw [if_neg h'] at hr'; exact hm.p_mono _ _ _ hr'

theorem testallLoop_mono (hm : Lawful m lc fc) (ig : Bool) (rs : List Req) :
    ∀ l f flag r', complete m lc fc l f r' →
      complete m lc fc (testallLoop m ig l f flag rs).1 (testallLoop m ig l f flag rs).2.1 r' := by
  induction rs with
  | nil => intro l f flag r' h; exact h
  | cons r rs ih =>
    intro l f flag r' h
    obtain ⟨h1, _, h3⟩ := test_facts hm l f r
    simp only [testallLoop]
    simp only [h1, ne_eq, not_true, if_false]
    exact ih _ _ _ _ (h3 r' h)

theorem testallLoop_ret (hm : Lawful m lc fc) (ig : Bool) (rs : List Req) :
    ∀ l f flag, (testallLoop m ig l f flag rs).2.2.2.1 = SUCCESS := by
  induction rs with
  | nil => intros; rfl
  | cons r rs ih =>
    intro l f flag
    obtain ⟨h1, _, _⟩ := test_facts hm l f r
    simp only [testallLoop, h1, ne_eq, not_true, if_false]
    exact ih _ _ _

theorem testallLoop_false (rs : List Req) (ig : Bool) :
    ∀ l f, (testallLoop m ig l f false rs).2.2.2.2 = false := by
  induction rs with
  | nil => intros; rfl
  | cons r rs ih =>
    intro l f
    simp only [testallLoop]
    split
    · rfl
    · have : (if (test m l f r).2.2.2.2.1 = true then false else if ig = true then false else false)
          = false := by split <;> simp
      rw [this]; exact ih _ _

theorem testallLoop_sound (hm : Lawful m lc fc) (rs : List Req) :
    ∀ l f, (testallLoop m false l f true rs).2.2.2.2 = true → ∀ r ∈ rs,
      complete m lc fc (testallLoop m false l f true rs).1 (testallLoop m false l f true rs).2.1 r := by
  induction rs with
  | nil => intro l f _ r hr; simp at hr
  | cons r rs ih =>
    intro l f
    obtain ⟨h1, h2, h3⟩ := test_facts hm l f r
    simp only [testallLoop, h1, ne_eq, not_true, if_false]
    intro hflag r' hr'
    by_cases hl : (test m l f r).2.2.2.2.1 = true
    · simp only [hl, if_true] at hflag ⊢
      rcases List.mem_cons.1 hr' with e | e
      · subst e; exact testallLoop_mono hm _ _ _ _ _ _ (h2.1 hl)
      · exact ih _ _ hflag r' e
    · simp only [hl, Bool.false_eq_true, if_false] at hflag
      rw [testallLoop_false] at hflag
      simp at hflag

theorem testallLoop_complete (hm : Lawful m lc fc) (ig : Bool) (rs : List Req) :
    ∀ l f, (∀ r ∈ rs, complete m lc fc l f r) → (testallLoop m ig l f true rs).2.2.2.2 = true := by
  induction rs with
  | nil => intros; rfl
  | cons r rs ih =>
    intro l f hall
    obtain ⟨h1, h2, h3⟩ := test_facts hm l f r
    simp only [testallLoop, h1, ne_eq, not_true, if_false]
    rw [if_pos (h2.2 (h3 r (hall r (by simp))))]
    exact ih _ _ fun r' hr' => h3 r' (hall r' (by simp [hr']))

/-- **C08, the part that holds.** With statuses requested, for every array with a library request
and every completion state: the flag is set only if every request is complete when the call
returns, and it is set if every request was complete when the call was made.
Missing: the same with `MPI_STATUSES_IGNORE` (see `testall_ignore_violated`). -/
theorem testall_partial (hm : Lawful m lc fc) (l : L) (f : F) (rs : List Req)
    (hin : isInRequestArray m rs = true) :
    let t := testall m false l f rs
    t.2.2.2.1 = SUCCESS ∧ (t.2.2.2.2 = true → ∀ r ∈ rs, complete m lc fc t.1 t.2.1 r) ∧
    ((∀ r ∈ rs, complete m lc fc l f r) → t.2.2.2.2 = true) := by
  simp only [testall, hin, if_true]
  exact ⟨testallLoop_ret hm _ _ _ _ _, testallLoop_sound hm rs l f, testallLoop_complete hm _ rs l f⟩

/-- **C08, negation.** With `MPI_STATUSES_IGNORE` the flag is true for every array with a library
request, whatever the completion states. -/
theorem testall_ignore_always (hm : Lawful m lc fc) (l : L) (f : F) (rs : List Req)
    (hin : isInRequestArray m rs = true) : (testall m true l f rs).2.2.2.2 = true := by
  simp only [testall, hin, if_true]
  clear hin
  induction rs generalizing l f with
  | nil => rfl
  | cons r rs ih =>
    obtain ⟨h1, _, _⟩ := test_facts hm l f r
    simp only [testallLoop, h1, ne_eq, not_true, if_false, if_true, ite_self]
    exact ih _ _

/-- A world in which library handle `h` is complete iff `l h`, and foreign request `r` iff `f r`. -/
def demo : Mpi (Int → Bool) (Nat → Bool) Nat Unit where
  search := fun r => if r < 10 then (r : Int) else -1
  extStart := fun l h => fun j => if j = h then false else l j
  extWait := fun l h => fun j => if j = h then true else l j
  extTest := fun l h => (l, l h)
  extDone := fun l _ => l
  pStart := fun f r => (f, r, SUCCESS)
  pWait := fun f r => ((fun j => if j = r then true else f j), r, SUCCESS, ())
  pTest := fun f r => (f, r, SUCCESS, f r, ())
  pFree := fun f r => (f, r, SUCCESS)
  pWaitall := fun f rs => (f, rs, SUCCESS, [])
  pTestall := fun f rs => (f, rs, SUCCESS, rs.all f, [])
  pTestany := fun f rs => (f, rs, SUCCESS, rs.any f, 0, ())

theorem demo_lawful : Lawful demo (fun l h => l h = true) (fun f r => f r = true) := by
  constructor <;> intros <;> simp_all [demo]

/-- **C08, negation with a witness.** One library request that is not complete, and one foreign
request that is: `MPI_Testall(…, MPI_STATUSES_IGNORE)` reports completion. -/
theorem testall_ignore_violated : ∃ (l : Int → Bool) (f : Nat → Bool) (rs : List Nat),
    (∃ r ∈ rs, ¬ complete demo (fun l h => l h = true) (fun f r => f r = true)
        (testall demo true l f rs).1 (testall demo true l f rs).2.1 r) ∧
      (testall demo true l f rs).2.2.2.2 = true := by
  refine ⟨fun _ => false, fun _ => true, [3, 12], ⟨3, by simp, ?_⟩, by decide⟩
  simp [complete, demo, testall, isInRequestArray, testallLoop, test]

/-- non-vacuity of `testall_partial`: both results occur on a mixed array -/
example : (testall demo false (fun h => h == 3) (fun _ => true) [3, 12]).2.2.2.2 = true ∧
    (testall demo false (fun _ => false) (fun _ => true) [3, 12]).2.2.2.2 = false ∧
    isInRequestArray demo [3, 12] = true := by decide

/-! ### C09 -/

theorem testanyLoop_facts (hm : Lawful m lc fc) (rs : List Req) : ∀ l f i,
    let t := testanyLoop m l f i rs
    t.2.2.2.1 = SUCCESS ∧
    (∀ r, complete m lc fc l f r → complete m lc fc t.1 t.2.1 r) ∧
    (t.2.2.2.2.1 = true → ∃ j r, t.2.2.2.2.2 = some (i + j) ∧ rs[j]? = some r ∧
      complete m lc fc t.1 t.2.1 r) ∧
    (t.2.2.2.2.1 = false → t.2.2.2.2.2 = none ∧ ∀ r ∈ rs, ¬ complete m lc fc l f r) := by
  induction rs with
  | nil => intro l f i; exact ⟨rfl, fun _ h => h, by simp [testanyLoop], by simp [testanyLoop]⟩
  | cons r rs ih =>
    intro l f i
    obtain ⟨h1, h2, h3⟩ := test_facts hm l f r
    simp only [testanyLoop, h1, ne_eq, not_true, if_false]
    by_cases hl : (test m l f r).2.2.2.2.1 = true
    · simp only [hl, if_true]
      refine ⟨trivial, h3, fun _ => ⟨0, r, rfl, rfl, h2.1 hl⟩, by simp⟩
    · simp only [hl, Bool.false_eq_true, if_false]
      obtain ⟨i1, i2, i3, i4⟩ := ih (test m l f r).1 (test m l f r).2.1 (i + 1)
      refine ⟨i1, fun r' h => i2 r' (h3 r' h), ?_, ?_⟩
      · intro hf
        obtain ⟨j, r', hj, hr', hc⟩ := i3 hf
        exact ⟨j + 1, r', by rw [hj]; congr 1; omega, by simpa using hr', hc⟩
      · intro hf
        obtain ⟨hn, hall⟩ := i4 hf
        refine ⟨hn, ?_⟩
        intro r' hr' hc
        rcases List.mem_cons.1 hr' with e | e
        · subst e; exact hl (h2.2 (h3 _ hc))
        · exact hall r' e (h3 _ hc)

/-- **C09 (Testany).** For every array with a library request: the flag is set iff the index
names a request that is complete; if it is not set, no request was complete when the call was
made. -/
theorem testany_spec (hm : Lawful m lc fc) (l : L) (f : F) (rs : List Req)
    (hin : isInRequestArray m rs = true) :
    let t := testany m l f rs
    t.2.2.2.1 = SUCCESS ∧
    (t.2.2.2.2.1 = true → ∃ j r, t.2.2.2.2.2 = some j ∧ rs[j]? = some r ∧
      complete m lc fc t.1 t.2.1 r) ∧
    (t.2.2.2.2.1 = false → ∀ r ∈ rs, ¬ complete m lc fc l f r) := by
  simp only [testany, hin, if_true]
  obtain ⟨h1, _, h3, h4⟩ := testanyLoop_facts hm rs l f 0
  refine ⟨h1, ?_, fun h => (h4 h).2⟩
  intro h
  obtain ⟨j, r, hj, hr⟩ := h3 h
  exact ⟨j, r, by simpa using hj, hr⟩

/-- **C09 (Testsome), negation.** `outcount` is 1 for every array with a library request, also
when no request is complete; then `array_of_indices[0]` is not written at all. -/
theorem testsome_violated (hm : Lawful m lc fc) (l : L) (f : F) (rs : List Req)
    (hin : isInRequestArray m rs = true)
    (hnone : ∀ r ∈ rs, ¬ complete m lc fc (testsome m l f rs).1 (testsome m l f rs).2.1 r) :
    (testsome m l f rs).2.2.2.2.1 = 1 ∧ (testsome m l f rs).2.2.2.2.2 = none := by
  refine ⟨rfl, ?_⟩
  simp only [testsome, testany, hin, if_true] at hnone ⊢
  obtain ⟨_, _, h3, h4⟩ := testanyLoop_facts hm rs l f 0
  cases hf : (testanyLoop m l f 0 rs).2.2.2.2.1 with
  | false => exact (h4 hf).1
  | true =>
    obtain ⟨j, r, _, hr, hc⟩ := h3 hf
    exact absurd hc (hnone r (List.mem_of_getElem? hr))

/-- the hypotheses of `testsome_violated` hold for one incomplete library request -/
example : isInRequestArray demo [3] = true ∧
    (testsome demo (fun _ => false) (fun _ => false) [3]).2.2.2.2 = (1, none) := by decide

/-- **C09 (Testsome), the part that holds.** If some request was complete when the call was made,
`outcount` is 1 and the index names a complete request.  Missing: `outcount = 0`. -/
theorem testsome_partial (hm : Lawful m lc fc) (l : L) (f : F) (rs : List Req)
    (hin : isInRequestArray m rs = true) {r0 : Req} (h0 : r0 ∈ rs) (hc0 : complete m lc fc l f r0) :
    let t := testsome m l f rs
    t.2.2.2.2.1 = 1 ∧ ∃ j r, t.2.2.2.2.2 = some j ∧ rs[j]? = some r ∧
      complete m lc fc t.1 t.2.1 r := by
  obtain ⟨_, h2, h3⟩ := testany_spec hm l f rs hin
  refine ⟨rfl, ?_⟩
  simp only [testsome]
  cases hf : (testany m l f rs).2.2.2.2.1 with
  | true => exact h2 hf
  | false => exact absurd hc0 (h3 hf r0 h0)

/-- Requests do not change their value: all of them belong to the library. -/
theorem testanyLoop_reqs (rs : List Req) (hall : ∀ r ∈ rs, m.search r ≥ 0) : ∀ l f i,
    (testanyLoop m l f i rs).2.2.1 = rs := by
  induction rs with
  | nil => intros; rfl
  | cons r rs ih =>
    intro l f i
    have hr : (test m l f r).2.2.1 = r := by
      simp [test, hall r (by simp)]
    simp only [testanyLoop]
    split
    · rw [hr]
    · split
      · rw [hr]
      · simp only [hr]; rw [ih (fun r h => hall r (by simp [h]))]

/-- **C09 (Waitany, Waitsome).** If `MPI_Waitany` returns on an array of library requests, the
index names a complete request; and it returns as soon as one request is complete. -/
theorem waitany_spec (hm : Lawful m lc fc) (rs : List Req) (hall : ∀ r ∈ rs, m.search r ≥ 0) :
    ∀ fuel l f,
    (∀ l' f' rs' ret idx, waitanyLoop m fuel l f rs = some (l', f', rs', ret, idx) →
      ret = SUCCESS ∧ rs' = rs ∧ ∃ j r, idx = some j ∧ rs[j]? = some r ∧
        complete m lc fc l' f' r) ∧
    (∀ r ∈ rs, complete m lc fc l f r → 0 < fuel → (waitanyLoop m fuel l f rs).isSome) := by
  intro fuel
  induction fuel with
  | zero => intro l f; exact ⟨by simp [waitanyLoop], by simp⟩
  | succ fuel ih =>
    intro l f
    obtain ⟨h1, h2, h3, h4⟩ := testanyLoop_facts hm rs l f 0
    have hreq := testanyLoop_reqs rs hall l f 0
    generalize ht : testanyLoop m l f 0 rs = t at *
    obtain ⟨l1, f1, rs1, ret1, flag1, idx1⟩ := t
    simp only at h1 h2 h3 h4 hreq
    subst hreq
    simp only [waitanyLoop, ht, h1, ne_eq, not_true, if_false]
    cases flag1 with
    | true =>
      simp only [if_true]
      refine ⟨?_, by simp⟩
      intro l' f' rs' ret idx h
      injection h with h
      simp only [Prod.mk.injEq] at h
      obtain ⟨e1, e2, e3, e4, e5⟩ := h
      subst e1; subst e2; subst e3; subst e4; subst e5
      obtain ⟨j, r, hj, hr⟩ := h3 rfl
      exact ⟨rfl, rfl, j, r, by simpa using hj, hr⟩
    | false =>
      simp only [Bool.false_eq_true, if_false]
      refine ⟨(ih l1 f1).1, ?_⟩
      intro r hr hc _
      exact absurd hc ((h4 rfl).2 r hr)

/-- non-vacuity: `MPI_Waitany` on two library requests, the second complete -/
example : (waitanyLoop demo 1 (fun h => h == 4) (fun _ => false) [3, 4]).map (·.2.2.2) =
    some (SUCCESS, some 1) := by decide

/-- **C40, negation.** `MPI_Waitany` keeps reporting the same request: if the first request of an
array of library requests is complete (for a persistent request that includes: inactive), then
every one of any number of consecutive calls returns index 0, even if others completed as well. -/
theorem waitany_repeats (hm : Lawful m lc fc) (r : Req) (rs : List Req)
    (hr : m.search r ≥ 0) (l : L) (f : F) (hc : complete m lc fc l f r) (fuel : Nat) :
    ∃ l', waitanyLoop m (fuel + 1) l f (r :: rs) = some (l', f, r :: rs, SUCCESS, some 0) ∧
      complete m lc fc l' f r := by
  obtain ⟨h1, h2, h3⟩ := test_facts hm l f r
  have hflag := h2.2 (h3 r hc)
  have e : test m l f r = ((test m l f r).1, f, r, SUCCESS, true, none) := by
    have h' : (m.extTest l (m.search r)).2 = true := by simpa [test, hr] using hflag
    simp [test, hr, h']
  refine ⟨(test m l f r).1, ?_, ?_⟩
  · rw [waitanyLoop, testanyLoop, e]
    simp
  · have := h3 r hc
    rw [e] at this; exact this

/-- consecutive `MPI_Waitany` calls with both collectives complete: index 0 each time -/
theorem waitany_once_violated (n : Nat) :
    ∀ fuel, ∃ idxs : List (Option Nat), idxs.length = n ∧ (∀ i ∈ idxs, i = some 0) ∧
      ∃ l : Int → Bool, (∀ h, l h = true) ∧
      List.Forall₂ (fun i _ => (waitanyLoop demo (fuel + 1) l (fun _ => false) [3, 4]).map (·.2.2.2.2)
        = some i) idxs (List.range n) := by
  intro fuel
  refine ⟨List.replicate n (some 0), by simp, by simp, fun _ => true, fun _ => rfl, ?_⟩
  obtain ⟨l', h, _⟩ := waitany_repeats demo_lawful 3 [4] (by decide) (fun _ => true)
    (fun _ => false) (by simp [complete, demo]) fuel
  rw [h]
  simp only [Option.map_some]
  generalize hL : List.range n = R
  have hlen : R.length = n := by rw [← hL]; simp
  clear hL
  induction R generalizing n with
  | nil => subst hlen; exact List.Forall₂.nil
  | cons a R ih => subst hlen; exact List.Forall₂.cons rfl (ih _ rfl)

/-! ### C33 -/

/-- **C33 (single requests).** A foreign request: the library is not touched and the result is the
one of the underlying call.  A library request: the underlying MPI is not touched. -/
theorem single_isolated (l : L) (f : F) (r : Req) :
    (m.search r < 0 →
      start m l f r = (l, m.pStart f r) ∧
      (wait m l f r).1 = l ∧ (wait m l f r).2.1 = (m.pWait f r).1 ∧
      (wait m l f r).2.2.1 = (m.pWait f r).2.1 ∧ (wait m l f r).2.2.2.1 = (m.pWait f r).2.2.1 ∧
      (test m l f r).1 = l ∧ (test m l f r).2.1 = (m.pTest f r).1 ∧
      (test m l f r).2.2.2.2.1 = (m.pTest f r).2.2.2.1 ∧
      requestFree m l f r = (l, m.pFree f r)) ∧
    (m.search r ≥ 0 →
      start m l f r = (m.extStart l (m.search r), f, r, SUCCESS) ∧
      (wait m l f r).1 = m.extWait l (m.search r) ∧ (wait m l f r).2.1 = f ∧
      (wait m l f r).2.2.1 = r ∧
      (test m l f r).1 = (m.extTest l (m.search r)).1 ∧ (test m l f r).2.1 = f ∧
      (test m l f r).2.2.1 = r) := by
  constructor
  · intro h
    have h' : ¬ m.search r ≥ 0 := by omega
    simp [start, wait, test, requestFree, h']
  · intro h
    simp [start, wait, test, h]

/-- `MPI_Waitall` on a mixed array when no underlying wait fails: each component sees exactly the
waits for its own requests, in order. -/
theorem waitLoop_split (rs : List Req) : ∀ l f,
    WaitsOk m f (rs.filter fun r => m.search r < 0) →
    let t := waitLoop m l f rs
    t.1 = libWaits m l ((rs.filter fun r => m.search r ≥ 0).map m.search) ∧
    t.2.1 = foreignWaits m f (rs.filter fun r => m.search r < 0) ∧
    t.2.2.2.1 = SUCCESS ∧
    (∀ (i : Nat) r, rs[i]? = some r → m.search r ≥ 0 → t.2.2.1[i]? = some r) ∧
    t.2.2.1.length = rs.length := by
  induction rs with
  | nil => intro l f _; exact ⟨rfl, rfl, rfl, by simp, rfl⟩
  | cons r rs ih =>
    intro l f hok
    by_cases h : m.search r ≥ 0
    · have hn : ¬ m.search r < 0 := by omega
      rw [List.filter_cons, if_neg (by simpa using h)] at hok
      obtain ⟨a, b, c, d, e⟩ := ih (m.extWait l (m.search r)) f hok
      simp only [waitLoop, wait, h, if_true, ne_eq, not_true, if_false, hn, decide_true,
        decide_false, List.filter_cons, List.map_cons, libWaits, List.foldl_cons,
        Bool.false_eq_true]
      refine ⟨a, b, c, ?_, by simp [e]⟩
      intro i r' hi hr'
      cases i with
      | zero => simpa using hi
      | succ i => simpa using d i r' (by simpa using hi) hr'
    · have hn : m.search r < 0 := by omega
      rw [List.filter_cons, if_pos (by simpa using hn)] at hok
      obtain ⟨hret, hok⟩ := hok
      obtain ⟨a, b, c, d, e⟩ := ih l (m.pWait f r).1 hok
      simp only [waitLoop, wait, h, if_false, hret, ne_eq, not_true, hn, decide_true,
        decide_false, List.filter_cons, if_true, foreignWaits, List.foldl_cons,
        Bool.false_eq_true]
      refine ⟨a, b, c, ?_, by simp [e]⟩
      intro i r' hi hr'
      cases i with
      | zero => simp at hi; subst hi; exact absurd hr' h
      | succ i => simpa using d i r' (by simpa using hi) hr'

/-- `MPI_Waitall` on a mixed array in which a wait fails. -/
theorem waitLoop_error (pre : List Req) (r : Req) (post : List Req) (hr : m.search r < 0) : ∀ l f,
    WaitsOk m f (pre.filter fun r => m.search r < 0) →
    let g := foreignWaits m f (pre.filter fun r => m.search r < 0)
    (m.pWait g r).2.2.1 ≠ SUCCESS →
    let t := waitLoop m l f (pre ++ r :: post)
    t.1 = libWaits m l ((pre.filter fun r => m.search r ≥ 0).map m.search) ∧
    t.2.1 = (m.pWait g r).1 ∧ t.2.2.2.1 = (m.pWait g r).2.2.1 ∧ t.2.2.1.drop (pre.length + 1) = post := by
  induction pre with
  | nil =>
    intro l f _ g hg
    have h : ¬ m.search r ≥ 0 := by omega
    have hg' : (m.pWait f r).2.2.1 ≠ SUCCESS := hg
    simp only [List.nil_append, waitLoop, wait, h, if_false, hg', ne_eq, not_false_iff, if_true]
    exact ⟨rfl, rfl, rfl, rfl⟩
  | cons q pre ih =>
    intro l f hok g hg
    by_cases h : m.search q ≥ 0
    · have hn : ¬ m.search q < 0 := by omega
      have e1 : (q :: pre).filter (fun r => m.search r < 0) = pre.filter (fun r => m.search r < 0) := by
        rw [List.filter_cons, if_neg (by simpa using h)]
      have e2 : (q :: pre).filter (fun r => m.search r ≥ 0) = q :: pre.filter (fun r => m.search r ≥ 0) := by
        rw [List.filter_cons, if_pos (by simpa using h)]
      have eg : g = foreignWaits m f (pre.filter fun r => m.search r < 0) := by
        show foreignWaits m f _ = _
        rw [e1]
      rw [e1] at hok
      rw [eg] at hg ⊢
      obtain ⟨a, b, c, d⟩ := ih (m.extWait l (m.search q)) f hok hg
      rw [e2]
      simp only [List.cons_append, waitLoop, wait, h, if_true, ne_eq, not_true, if_false, List.map_cons, libWaits,
        List.foldl_cons]
      exact ⟨a, b, c, by simpa using d⟩
    · have hn : m.search q < 0 := by omega
      have e1 : (q :: pre).filter (fun r => m.search r < 0) = q :: pre.filter (fun r => m.search r < 0) := by
        rw [List.filter_cons, if_pos (by simpa using hn)]
      have e2 : (q :: pre).filter (fun r => m.search r ≥ 0) = pre.filter (fun r => m.search r ≥ 0) := by
        rw [List.filter_cons, if_neg (by simpa using hn)]
      have eg : g = foreignWaits m (m.pWait f q).1 (pre.filter fun r => m.search r < 0) := by
        show foreignWaits m f _ = _
        rw [e1]; rfl
      rw [e1] at hok
      rw [eg] at hg ⊢
      obtain ⟨hret, hok⟩ := hok
      obtain ⟨a, b, c, d⟩ := ih l (m.pWait f q).1 hok hg
      rw [e2]
      simp only [List.cons_append, waitLoop, wait, h, if_false, hret, ne_eq, not_true]
      exact ⟨a, b, c, by simpa using d⟩

/-- **C33 (Waitall).** Every mixed array: the underlying MPI sees exactly the waits on the foreign
requests, in array order; the library exactly those on its own; library requests keep their value.
An array without library requests goes to the underlying MPI as a whole. -/
theorem waitall_isolated (l : L) (f : F) (rs : List Req) :
    ((∃ r ∈ rs, m.search r ≥ 0) → WaitsOk m f (rs.filter fun r => m.search r < 0) →
      (waitall m l f rs).1 = libWaits m l ((rs.filter fun r => m.search r ≥ 0).map m.search) ∧
      (waitall m l f rs).2.1 = foreignWaits m f (rs.filter fun r => m.search r < 0) ∧
      (waitall m l f rs).2.2.2.1 = SUCCESS ∧
      ∀ (i : Nat) r, rs[i]? = some r → m.search r ≥ 0 → (waitall m l f rs).2.2.1[i]? = some r) ∧
    ((∀ r ∈ rs, m.search r < 0) →
      (waitall m l f rs).1 = l ∧ (waitall m l f rs).2.1 = (m.pWaitall f rs).1 ∧
      (waitall m l f rs).2.2.1 = (m.pWaitall f rs).2.1 ∧
      (waitall m l f rs).2.2.2.1 = (m.pWaitall f rs).2.2.1) := by
  constructor
  · rintro ⟨r, hr, hs⟩ hok
    have hin : isInRequestArray m rs = true := by
      simp only [isInRequestArray, List.any_eq_true]; exact ⟨r, hr, by simpa using hs⟩
    simp only [waitall, hin, if_true]
    obtain ⟨a, b, c, d, _⟩ := waitLoop_split rs l f hok
    exact ⟨a, b, c, d⟩
  · intro hall
    have hin : isInRequestArray m rs = false := by
      simp only [isInRequestArray, List.any_eq_false]
      intro r hr; have := hall r hr; simp only [ge_iff_le, decide_eq_true_eq]; omega
    simp [waitall, hin]

/-- **C33 (Waitall, errors).** In a mixed array the first underlying wait that fails ends the call: its
error code is returned, the waits before it have been done, the requests behind it are not touched. -/
theorem waitall_error (l : L) (f : F) (pre : List Req) (r : Req) (post : List Req)
    (hin : ∃ q ∈ pre ++ r :: post, m.search q ≥ 0) (hr : m.search r < 0)
    (hok : WaitsOk m f (pre.filter fun r => m.search r < 0)) :
    let g := foreignWaits m f (pre.filter fun r => m.search r < 0)
    (m.pWait g r).2.2.1 ≠ SUCCESS →
    let t := waitall m l f (pre ++ r :: post)
    t.1 = libWaits m l ((pre.filter fun r => m.search r ≥ 0).map m.search) ∧
    t.2.1 = (m.pWait g r).1 ∧ t.2.2.2.1 = (m.pWait g r).2.2.1 ∧ t.2.2.1.drop (pre.length + 1) = post := by
  intro g hg
  have hin' : isInRequestArray m (pre ++ r :: post) = true := by
    obtain ⟨q, hq, hs⟩ := hin
    simp only [isInRequestArray, List.any_eq_true]; exact ⟨q, hq, by simpa using hs⟩
  simp only [waitall, hin', if_true]
  exact waitLoop_error pre r post hr l f hok hg

/-- An underlying MPI whose wait on request 15 fails. -/
def demoFail : Mpi (Int → Bool) (Nat → Bool) Nat Unit :=
  { demo with pWait := fun f r => if r = 15 then (f, r, 7, ()) else demo.pWait f r }

example : (waitall demoFail (fun _ => false) (fun _ => false) [3, 12, 15, 4]).2.2.2.1 = 7 ∧
    (waitall demoFail (fun _ => false) (fun _ => false) [3, 12, 15, 4]).1 3 = true ∧
    (waitall demoFail (fun _ => false) (fun _ => false) [3, 12, 15, 4]).1 4 = false := by decide

example : (waitall demo (fun _ => false) (fun _ => false) [3, 12, 4, 15]).1 4 = true ∧
    (waitall demo (fun _ => false) (fun _ => false) [3, 12, 4, 15]).2.1 15 = true ∧
    (waitall demo (fun _ => false) (fun _ => false) [3, 12, 4, 15]).2.1 4 = false := by decide

/-! ### C34 -/

theorem mapM_mul (count : Nat) (is : List Nat) (h : ∀ i ∈ is, i * count < 2 ^ 31) :
    is.mapM (fun i => mulInt i count) = some (is.map (· * count)) := by
  induction is with
  | nil => rfl
  | cons i is ih =>
    rw [List.mapM_cons, ih fun j hj => h j (by simp [hj])]
    have := h i (by simp)
    have e : mulInt i count = some (i * count) := if_pos this
    rw [e]; rfl

/-- **C34.** For every communicator size and block size (whose total fits an `int`), the counts
and displacements of the regular collectives cut the buffer into consecutive blocks in rank order:
every element belongs to exactly one block. -/
theorem regular_spec (size count : Nat) (hfit : size * count < 2 ^ 31) :
    ∃ counts displs, regular size count = some (counts, displs) ∧
      IsRegular size count counts displs := by
  have hm : (List.range size).mapM (fun i => mulInt i count) =
      some ((List.range size).map (· * count)) := by
    apply mapM_mul
    intro i hi
    have : i < size := by simpa using hi
    have := Nat.mul_le_mul_right count (Nat.le_of_lt this)
    omega
  refine ⟨List.replicate size count, (List.range size).map (· * count), by simp [regular, hm], ?_⟩
  refine ⟨by simp, by simp, fun c hc => (List.mem_replicate.1 hc).2, ?_, ?_⟩
  · rw [List.pairwise_map]
    exact List.Pairwise.imp (fun h => Nat.mul_le_mul_right _ (Nat.le_of_lt h))
      (List.pairwise_lt_range (n := size))
  · have hg : ∀ (i d c : Nat), ((List.range size).map (· * count))[i]? = some d →
        (List.replicate size count)[i]? = some c → i < size ∧ d = i * count ∧ c = count := by
      intro i d c h1 h2
      by_cases hi : i < size
      · simp [hi] at h1 h2; exact ⟨hi, h1.symm, h2.symm⟩
      · simp [hi] at h1
    intro x
    constructor
    · intro hx
      have hc : 0 < count := by
        rcases Nat.eq_zero_or_pos count with h | h
        · subst h; simp at hx
        · exact h
      have hi : x / count < size := by rw [Nat.div_lt_iff_lt_mul hc]; exact hx
      have hdm := Nat.div_add_mod x count
      have hmod := Nat.mod_lt x hc
      have hcomm : x / count * count = count * (x / count) := Nat.mul_comm _ _
      refine ⟨x / count, x / count * count, count, by simp [hi], by simp [hi], by omega, by omega, ?_⟩
      intro j d' c' h1 h2 h3 h4
      obtain ⟨_, e1, e2⟩ := hg j d' c' h1 h2
      subst e1; subst e2
      have hj1 : j ≤ x / c' := (Nat.le_div_iff_mul_le hc).2 h3
      have hj2 : x / c' < j + 1 := by
        rw [Nat.div_lt_iff_lt_mul hc, Nat.succ_mul]; omega
      omega
    · rintro ⟨i, d, c, h1, h2, h3, h4, _⟩
      obtain ⟨hi, e1, e2⟩ := hg i d c h1 h2
      subst e1; subst e2
      have h5 := Nat.mul_le_mul_right c (show i + 1 ≤ size from hi)
      rw [Nat.succ_mul] at h5
      exact Nat.lt_of_lt_of_le h4 h5

example : regular 4 5 = some ([5, 5, 5, 5], [0, 5, 10, 15]) := by decide

/-! ### C38 -/

theorem firstFree_spec (used : Nat → Bool) : ∀ fuel i k, firstFree used fuel i = some k →
    used k = false ∧ i ≤ k ∧ k < i + fuel := by
  intro fuel
  induction fuel with
  | zero => intro i k h; simp [firstFree] at h
  | succ n ih =>
    intro i k h
    simp only [firstFree] at h
    split at h
    · obtain ⟨a, b, c⟩ := ih _ _ h; exact ⟨a, by omega, by omega⟩
    · next hu => injection h with h; subst h; exact ⟨by simpa using hu, by omega, by omega⟩

theorem firstFree_none (used : Nat → Bool) : ∀ fuel i, firstFree used fuel i = none →
    ∀ k, i ≤ k → k < i + fuel → used k = true := by
  intro fuel
  induction fuel with
  | zero => intro i _ k h1 h2; omega
  | succ n ih =>
    intro i h k h1 h2
    simp only [firstFree] at h
    split at h
    · next hu =>
      by_cases e : k = i
      · subst e; exact hu
      · exact ih _ h k (by omega) (by omega)
    · simp at h

variable {K : Type} [DecidableEq K] {world : K}

theorem comm_inv {s : Comms K} {live : K → Option Nat} (h : CommReach world s live) :
    s.table = live ∧ (∀ c i, live c = some i → s.used i = true ∧ i < NCOMMS) ∧
    (∀ c c' i, live c = some i → live c' = some i → c = c') ∧
    (∀ i, s.used i = true → ∃ c, live c = some i) := by
  induction h with
  | init =>
    have h0 : ∀ c i, updK (fun _ : K => (none : Option Nat)) world (some 0) c = some i →
        c = world ∧ i = 0 := by
      intro c i h
      simp only [updK] at h
      split at h
      · next e => exact ⟨e, by simpa using h.symm⟩
      · simp at h
    refine ⟨rfl, ?_, ?_, ?_⟩
    · intro c i h; obtain ⟨_, e⟩ := h0 c i h; subst e; simp [commsInit, NCOMMS]
    · intro c c' i h h'; rw [(h0 c i h).1, (h0 c' i h').1]
    · intro i h
      have : i = 0 := by simpa [commsInit] using h
      exact ⟨world, by simp [updK, this]⟩
  | @create s live s' i c _ hnew hadd ih =>
    obtain ⟨h1, h2, h3, h4⟩ := ih
    simp only [addComm] at hadd
    split at hadd
    · next i' c' hff he =>
      injection he with he; subst he
      injection hadd with hadd
      simp only [Prod.mk.injEq] at hadd
      obtain ⟨e1, e2⟩ := hadd
      subst e1; subst e2
      obtain ⟨hu, _, hlt⟩ := firstFree_spec _ _ _ _ hff
      refine ⟨by simp [h1], ?_, ?_, ?_⟩
      · intro d k hd
        simp only [updK] at hd
        split at hd
        · injection hd with hd; subst hd; exact ⟨by simp [updU], by omega⟩
        · obtain ⟨a, b⟩ := h2 d k hd
          refine ⟨?_, b⟩
          simp only [updU]; split
          · rfl
          · exact a
      · intro d d' k hd hd'
        simp only [updK] at hd hd'
        split at hd
        · next e =>
          injection hd with hd; subst hd
          split at hd'
          · next e' => rw [e, e']
          · rw [(h2 d' _ hd').1] at hu; simp at hu
        · split at hd'
          · injection hd' with hd'; subst hd'
            rw [(h2 d _ hd).1] at hu; simp at hu
          · exact h3 d d' k hd hd'
      · intro k hk
        simp only [updU] at hk
        split at hk
        · next e => exact ⟨c, by simp [updK, e]⟩
        · obtain ⟨d, hd⟩ := h4 k hk
          refine ⟨d, ?_⟩
          simp only [updK]; split
          · next e => subst e; rw [hnew] at hd; simp at hd
          · exact hd
    · simp at hadd
  | @free s live s' c _ hl hrem ih =>
    obtain ⟨h1, h2, h3, h4⟩ := ih
    simp only [removeComm] at hrem
    split at hrem
    · simp at hrem
    · next i hi =>
      injection hrem with hrem; subst hrem
      rw [h1] at hi
      refine ⟨by simp [h1], ?_, ?_, ?_⟩
      · intro d k hd
        simp only [updK] at hd
        split at hd
        · simp at hd
        · next e =>
          obtain ⟨a, b⟩ := h2 d k hd
          refine ⟨?_, b⟩
          simp only [updU]; split
          · next e' => subst e'; exact absurd (h3 d c _ hd hi) e
          · exact a
      · intro d d' k hd hd'
        simp only [updK] at hd hd'
        split at hd
        · simp at hd
        · split at hd'
          · simp at hd'
          · exact h3 d d' k hd hd'
      · intro k hk
        simp only [updU] at hk
        split at hk
        · simp at hk
        · next e =>
          obtain ⟨d, hd⟩ := h4 k hk
          refine ⟨d, ?_⟩
          simp only [updK]; split
          · next e' => subst e'; rw [hi] at hd; injection hd with hd; exact absurd hd.symm e
          · exact hd

/-- **C38.** After every history of creations and releases: different live communicators have
different ids, all below 100; freeing a live communicator is defined; creating one is defined
unless 100 ids are in use. -/
theorem comm_ids_distinct {s : Comms K} {live : K → Option Nat} (h : CommReach world s live) :
    (∀ c c' i, live c = some i → live c' = some i → c = c') ∧
    (∀ c i, live c = some i → i < 100 ∧ s.table c = some i) ∧
    (∀ c, (live c).isSome → (removeComm s c).isSome) ∧
    (∀ c, addComm s (some c) = none → ∀ i, i < 100 → ∃ c', live c' = some i) := by
  obtain ⟨h1, h2, h3, h4⟩ := comm_inv h
  refine ⟨h3, fun c i hc => ⟨(h2 c i hc).2, by rw [h1]; exact hc⟩, ?_, ?_⟩
  · intro c hc
    obtain ⟨i, hi⟩ := Option.isSome_iff_exists.1 hc
    simp [removeComm, h1, hi]
  · intro c hc i hi
    simp only [addComm] at hc
    cases hff : firstFree s.used NCOMMS 0 with
    | some j => rw [hff] at hc; simp at hc
    | none => exact h4 i (firstFree_none _ _ _ hff i (by omega) (by simpa [NCOMMS] using hi))

/-- non-vacuity: duplicate twice, free the first, duplicate again: id 1 is reused -/
example : ∃ (s : Comms Nat) (live : Nat → Option Nat), CommReach 0 s live ∧ live 0 = some 0 ∧
    live 8 = some 2 ∧ live 9 = some 1 := by
  have r0 : CommReach 0 (commsInit 0) _ := CommReach.init
  have r1 := CommReach.create 7 r0 (by decide) rfl
  have r2 := CommReach.create 8 r1 (by decide) rfl
  have r3 := CommReach.free 7 r2 (by decide) rfl
  have r4 := CommReach.create 9 r3 (by decide) rfl
  exact ⟨_, _, r4, by decide, by decide, by decide⟩

/-- **C41, negation.** With blocking collectives enabled, freeing a communicator that was made by
a call the library does not wrap is undefined in every reachable state (`comms_blocking[-1]`), and
so is a split in which this process gets `MPI_COMM_NULL`. -/
theorem foreign_comm_undefined {s : Comms K} {live : K → Option Nat} (h : CommReach world s live) :
    (∀ c, live c = none → removeComm s c = none) ∧ addComm s (none : Option K) = none := by
  obtain ⟨h1, _⟩ := comm_inv h
  refine ⟨fun c hc => by simp [removeComm, h1, hc], ?_⟩
  unfold addComm
  split
  · next h => simp at h
  · rfl

end ExtMpi.Interface
