import Verif.Model.Text
import Mathlib.Tactic.IntervalCases
/-! Printing and scanning of numbers. -/
namespace ExtMpi.Text

theorem digit_toNat (d : Nat) (h : d < 10) : (digit d).toNat = 48 + d := by
  interval_cases d <;> decide

theorem digit_isDigit (d : Nat) (h : d < 10) : isDigit (digit d) = true := by
  unfold isDigit
  rw [digit_toNat d h]
  simp; omega

theorem natDigits_isDigit (n : Nat) : ∀ c, c ∈ natDigits n → isDigit c = true := by
  induction n using Nat.strongRecOn with
  | _ n ih =>
    intro c hc
    rw [natDigits] at hc
    by_cases h : n < 10
    · rw [if_pos h] at hc
      rw [List.mem_singleton.1 hc]
      exact digit_isDigit n h
    · rw [if_neg h] at hc
      rcases List.mem_append.1 hc with h1 | h1
      · exact ih (n / 10) (by omega) c h1
      · rw [List.mem_singleton.1 h1]
        exact digit_isDigit _ (by omega)

theorem natDigits_val (n : Nat) : digitsVal (natDigits n) = n := by
  induction n using Nat.strongRecOn with
  | _ n ih =>
    rw [natDigits]
    by_cases h : n < 10
    · rw [if_pos h]
      simp [digitsVal, digit_toNat n h]
    · rw [if_neg h]
      have := ih (n / 10) (by omega)
      unfold digitsVal at this ⊢
      rw [List.foldl_append, this]
      simp only [List.foldl_cons, List.foldl_nil]
      rw [digit_toNat _ (by omega)]
      omega

theorem natDigits_ne_nil (n : Nat) : natDigits n ≠ [] := by
  rw [natDigits]
  split <;> simp

theorem takeWhile_append {α : Type} (p : α → Bool) (l r : List α) (hl : ∀ x, x ∈ l → p x = true)
    (hr : ∀ x, r.head? = some x → p x = false) : (l ++ r).takeWhile p = l := by
  induction l with
  | nil =>
    cases r with
    | nil => rfl
    | cons x r => simp [hr x rfl]
  | cons y l ih =>
    rw [List.cons_append, List.takeWhile_cons, hl y List.mem_cons_self]
    simp only [if_true]
    rw [ih fun x hx => hl x (List.mem_cons_of_mem _ hx)]

theorem dropWhile_append {α : Type} (p : α → Bool) (l r : List α) (hl : ∀ x, x ∈ l → p x = true)
    (hr : ∀ x, r.head? = some x → p x = false) : (l ++ r).dropWhile p = r := by
  induction l with
  | nil =>
    cases r with
    | nil => rfl
    | cons x r => simp [hr x rfl]
  | cons y l ih =>
    rw [List.cons_append, List.dropWhile_cons, hl y List.mem_cons_self]
    simp only [if_true]
    rw [ih fun x hx => hl x (List.mem_cons_of_mem _ hx)]

/-- Characters of a printed number. -/
def isNum (c : Char) : Bool := isDigit c || c == '-'

theorem printInt_isNum (z : Int) : ∀ c, c ∈ printInt z → isNum c = true := by
  intro c hc
  unfold printInt at hc
  unfold isNum
  split at hc
  · rcases List.mem_cons.1 hc with h | h
    · rw [h]; rfl
    · rw [natDigits_isDigit _ c h]; rfl
  · rw [natDigits_isDigit _ c hc]; rfl

theorem printInt_ne_nil (z : Int) : printInt z ≠ [] := by
  unfold printInt
  split
  · simp
  · exact natDigits_ne_nil _

theorem isDigit_ne (c d : Char) (h : isDigit c = true) (hd : isDigit d = false) : (c == d) = false := by
  rw [beq_eq_false_iff_ne]
  intro e
  rw [e, hd] at h
  cases h

theorem isNum_ne (c d : Char) (h : isNum c = true) (hd : isNum d = false) : (c == d) = false := by
  rw [beq_eq_false_iff_ne]
  intro e
  rw [e, hd] at h
  cases h

/-- A printed number is scanned back when no digit follows. -/
theorem scanInt_print (z : Int) (r : List Char) (hr : ∀ c, r.head? = some c → isDigit c = false) :
    scanInt (printInt z ++ r) = some z := by
  unfold printInt
  by_cases hz : z < 0
  · rw [if_pos hz]
    have h1 : (natDigits z.natAbs ++ r).takeWhile isDigit = natDigits z.natAbs :=
      takeWhile_append _ _ _ (natDigits_isDigit _) hr
    show (if ((natDigits z.natAbs ++ r).takeWhile isDigit).isEmpty then none else
      some (-(digitsVal ((natDigits z.natAbs ++ r).takeWhile isDigit) : Int))) = some z
    rw [h1, natDigits_val]
    have h2 := natDigits_ne_nil z.natAbs
    rw [if_neg (by simpa using h2)]
    congr 1
    omega
  · rw [if_neg hz]
    obtain ⟨ds, hds⟩ : ∃ ds, ds = natDigits z.natAbs := ⟨_, rfl⟩
    have h0 : ∀ c, c ∈ ds → isDigit c = true := by rw [hds]; exact natDigits_isDigit _
    have h1 : (ds ++ r).takeWhile isDigit = ds := takeWhile_append _ _ _ h0 hr
    have h2 : ds ≠ [] := by rw [hds]; exact natDigits_ne_nil _
    have h3 : digitsVal ds = z.natAbs := by rw [hds]; exact natDigits_val _
    rw [← hds]
    cases ds with
    | nil => exact absurd rfl h2
    | cons c ds =>
      have hc := h0 c List.mem_cons_self
      have hd : ((c :: ds) ++ r).dropWhile (fun c => c == ' ' || c == '\n' || c == '\t') = (c :: ds) ++ r := by
        rw [List.cons_append, List.dropWhile_cons, isDigit_ne c ' ' hc (by decide),
          isDigit_ne c '\n' hc (by decide), isDigit_ne c '\t' hc (by decide)]
        rfl
      unfold scanInt
      rw [hd]
      have hm : c ≠ '-' := by intro e; rw [e] at hc; cases hc
      have hp : c ≠ '+' := by intro e; rw [e] at hc; cases hc
      rw [List.cons_append] at h1 ⊢
      split
      · rename_i _ heq; exact absurd (List.head_eq_of_cons_eq heq) hm
      · rename_i _ heq; exact absurd (List.head_eq_of_cons_eq heq) hp
      · simp only [h1, h3]
        rw [if_neg (by simp)]
        congr 1
        omega

end ExtMpi.Text
