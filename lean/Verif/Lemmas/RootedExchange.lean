import Verif.Lemmas.RootedCyclic
/-! The backward pass over a row in which every node sends and receives intervals of lines. -/
namespace ExtMpi.Rooted
open Schedule Forward

/-- Partners are other nodes, partners of a line are different, and no line is sent and received. -/
structure Tidy (N : Nat) (row : Row) : Prop where
  sends : ∀ t < N, ∀ l ∈ row t, ∀ e ∈ l.sendto, 0 ≤ e.1 ∧ e.1 < N ∧ e.1 ≠ t
  recvs : ∀ t < N, ∀ l ∈ row t, ∀ e ∈ l.recvfrom, 0 ≤ e.1 ∧ e.1 < N ∧ e.1 ≠ t
  nodup : ∀ t < N, ∀ l ∈ row t, (l.sendto.map Prod.fst).Nodup ∧ (l.recvfrom.map Prod.fst).Nodup
  apart : ∀ t < N, ∀ l ∈ row t, l.sendto = [] ∨ l.recvfrom = []

section
variable {N : Nat} {row : Row} {m0 n0 len : Nat → Nat → Nat}

theorem tidy_self (h : Tidy N row) (t : Nat) (ht : t < N) : recvIdx (row t) t = [] ∧ sendIdx (row t) t = [] := by
  constructor
  · rw [List.eq_nil_iff_forall_not_mem]
    intro n hn
    obtain ⟨l, hl, e, he, h1⟩ := (mem_recvIdx _ _ _).mp hn
    exact (h.recvs t ht l (List.mem_of_getElem? hl) e he).2.2 h1
  · rw [List.eq_nil_iff_forall_not_mem]
    intro n hn
    obtain ⟨l, hl, e, he, h1⟩ := mem_sendIdx _ _ _ hn
    exact (h.sends t ht l (List.mem_of_getElem? hl) e he).2.2 h1

theorem tidy_ok (h : Tidy N row) (hx : Exchange N row m0 n0 len) : exchangeOk N row = true := by
  unfold exchangeOk
  rw [List.all_eq_true]
  intro t ht
  have ht := List.mem_range.mp ht
  rw [Bool.and_eq_true, List.all_eq_true, List.all_eq_true]
  constructor
  · intro l hl
    rw [Bool.and_eq_true, List.all_eq_true, List.all_eq_true]
    exact ⟨fun e he => decide_eq_true (h.sends t ht l hl e he), fun e he => decide_eq_true (h.recvs t ht l hl e he)⟩
  · intro q hq
    have hq := List.mem_range.mp hq
    rw [recvEnt_eq _ _ (fun l hl => (h.nodup q hq l hl).2), beq_iff_eq]
    by_cases hqt : t = q
    · subst hqt
      rw [(tidy_self h t ht).1, (tidy_self h t ht).2]
    · rw [hx.recv t q ht hq hqt, hx.send t q ht hq hqt, List.length_range', List.length_range']

theorem tidy_mid (h : Tidy N row) (hx : Exchange N row m0 n0 len) (prev top : Nat → Nat)
    (hl : ∀ t < N, WfLocal (prev t) (top t) (row t)) : WfMid N prev top row := by
  refine ⟨hl, h.nodup, h.apart, ?_⟩
  intro t ht q hq
  by_cases hqt : q = t
  · subst hqt
    rw [(tidy_self h q ht).1]
    exact ⟨0, rfl⟩
  · rw [hx.recv q t hq ht hqt]
    exact ⟨n0 q t, by simp⟩

/-- A partner reports the need of the line that receives. -/
theorem tidy_wanted (h : Tidy N row) (hx : Exchange N row m0 n0 len) (v : Nat → Vals) (t q n : Nat) (ht : t < N) (hq : q < N) (hqt : t ≠ q)
    (h1 : m0 t q ≤ n) (h2 : n < m0 t q + len t q) : wanted row v t q n = need (v q) (n0 t q + (n - m0 t q)) := by
  unfold wanted partnerLine
  rw [Int.toNat_natCast, recvEnt_eq _ _ (fun l hl => (h.nodup q hq l hl).2), hx.send t q ht hq hqt, hx.recv t q ht hq hqt]
  have := lookup_range (m0 t q) (n - m0 t q) (n0 t q + (n - m0 t q)) (List.range' (n0 t q) (len t q)) (by
    rw [List.getElem?_range' (by omega)]
    congr 1
    omega)
  rw [List.length_range', show m0 t q + (n - m0 t q) = n by omega] at this
  rw [this]

/-- Needs after the exchange. -/
theorem tidy_needs (h : Tidy N row) (hx : Exchange N row m0 n0 len) (v : Nat → Vals) (t n : Nat) (ht : t < N) (hn : n < (row t).length) :
    need (exchange row v t) n = true ↔ (∃ q < N, t ≠ q ∧ m0 t q ≤ n ∧ n < m0 t q + len t q ∧ need (v q) (n0 t q + (n - m0 t q)) = true) ∨
      need (v t) n = true := by
  have hl := List.getElem?_eq_getElem hn
  rw [need_exchange row v t n _ hl, Bool.or_eq_true, List.any_eq_true]
  refine or_congr ?_ Iff.rfl
  constructor
  · rintro ⟨e, he, hw⟩
    obtain ⟨p1, p2, p3⟩ := h.sends t ht _ (List.getElem_mem hn) e he
    obtain ⟨q, hq⟩ : ∃ q, q = e.1.toNat := ⟨_, rfl⟩
    have hqe : e.1 = (q : Int) := by omega
    have hqN : q < N := by omega
    have hqt : t ≠ q := by omega
    have hin := sendIdx_mem (row t) q n _ hl e he hqe
    rw [hx.send t q ht hqN hqt, List.mem_range'_1] at hin
    rw [hqe, tidy_wanted h hx v t q n ht hqN hqt hin.1 hin.2] at hw
    exact ⟨q, hqN, hqt, hin.1, hin.2, hw⟩
  · rintro ⟨q, hq, hqt, h1, h2, h3⟩
    have hin : n ∈ sendIdx (row t) q := by
      rw [hx.send t q ht hq hqt, List.mem_range'_1]
      exact ⟨h1, h2⟩
    obtain ⟨l', hl', e, he, heq⟩ := mem_sendIdx _ _ _ hin
    rw [hl, Option.some.injEq] at hl'
    subst hl'
    refine ⟨e, he, ?_⟩
    rw [heq, tidy_wanted h hx v t q n ht hq hqt h1 h2]
    exact h3

/-- No message is mixed if the receiver needs all its lines or none. -/
theorem tidy_unmixed (h : Tidy N row) (hx : Exchange N row m0 n0 len) (v : Nat → Vals)
    (hv : ∀ q < N, ∀ t < N, q ≠ t → ∀ n n', n0 q t ≤ n → n < n0 q t + len q t → n0 q t ≤ n' → n' < n0 q t + len q t →
      need (v t) n = true → need (v t) n' = true) :
    ∀ t < N, ∀ q < N, q ≠ t → recvIdx (midBlock row v t) q = [] ∨ deadIdx (midBlock row v t) q = [] := by
  intro t ht q hq hqt
  obtain ⟨i1, i2, _⟩ := shape_idx N t (row t) _ _ (mid_shape N row v t ht (tidy_ok h hx)) q
  change recvIdx (midBlock row v t) q = _ at i1
  change deadIdx (midBlock row v t) q = _ at i2
  have hsame : ∀ n ∈ recvIdx (row t) q, need (exchange row v t) n = need (v t) n := by
    intro n hn
    obtain ⟨l, hl, e, he, _⟩ := (mem_recvIdx _ _ _).mp hn
    rw [need_exchange row v t n l hl]
    rcases h.apart t ht l (List.mem_of_getElem? hl) with h1 | h1
    · rw [h1]; rfl
    · rw [h1] at he; cases he
  have hdead : (recvIdx (row t) q).filter (fun j => !need (exchange row v t) j) = (recvIdx (row t) q).filter fun j => !need (v t) j :=
    List.filter_congr fun n hn => by rw [hsame n hn]
  rw [i1, i2, List.filter_congr hsame, hdead]
  rw [hx.recv q t hq ht hqt]
  by_cases hex : ∃ n ∈ List.range' (n0 q t) (len q t), need (v t) n = true
  · right
    obtain ⟨n, hn, hy⟩ := hex
    rw [List.mem_range'_1] at hn
    rw [List.filter_eq_nil_iff]
    intro y hy'
    rw [List.mem_range'_1] at hy'
    rw [hv q hq t ht hqt n y hn.1 hn.2 hy'.1 hy'.2 hy]
    simp
  · left
    rw [List.filter_eq_nil_iff]
    exact fun n hn hx => hex ⟨n, hn, hx⟩

end
end ExtMpi.Rooted
