import Verif.Lemmas.RootedExchange
import Verif.Lemmas.RecursiveMiddle
/-! The backward pass over the steps of the recursive allreduce. -/
namespace ExtMpi.Rooted
open Schedule Forward Recursive

/-- One row of the pass. -/
theorem tidy_prunes {N : Nat} {row : Row} {m0 n0 len : Nat → Nat → Nat} (h : Tidy N row) (hx : Exchange N row m0 n0 len) (root : Nat)
    (rest : List Row) (hne : rest ≠ []) (P Q : (Nat → Vals) → Prop) (hrest : Prunes N root rest P)
    (hstep : ∀ vn, P vn → ∀ v, v = (fun t => descend (row t) (inherit (row t) (vn t))) →
      (∀ q < N, ∀ t < N, q ≠ t → ∀ n n', n0 q t ≤ n → n < n0 q t + len q t → n0 q t ≤ n' → n' < n0 q t + len q t →
        need (v t) n = true → need (v t) n' = true) ∧ Q (exchange row v)) :
    Prunes N root (row :: rest) Q := by
  obtain ⟨rn, vn, p1, p2, p3⟩ := hrest
  obtain ⟨v, hv⟩ : ∃ v, v = fun t => descend (row t) (inherit (row t) (vn t)) := ⟨_, rfl⟩
  obtain ⟨s1, s2⟩ := hstep vn p3 v hv
  have hpr := prune_cons N root row rest rn vn hne p1 (tidy_ok h hx)
  rw [← hv] at hpr
  refine ⟨_, _, hpr, ?_, s2⟩
  intro row' hrow' t ht q hq hqt
  rcases List.mem_cons.mp hrow' with rfl | hrow'
  · exact tidy_unmixed h hx v s1 t ht q hq hqt
  · exact p2 row' hrow' t ht q hq hqt

theorem need_marks_iff (rs : List Nat) (v : Vals) (j : Nat) (h : need (rs.foldl mark v) j = true) : need v j = true ∨ j ∈ rs := by
  induction rs generalizing v with
  | nil => exact Or.inl h
  | cons r rs ih =>
    rw [List.foldl_cons] at h
    rcases ih _ h with h | h
    · by_cases hj : j = r
      · exact Or.inr (by rw [hj]; exact List.mem_cons_self)
      · left
        unfold need mark at h
        rw [List.getElem?_set_ne (fun e => hj e.symm)] at h
        exact h
    · exact Or.inr (List.mem_cons_of_mem _ h)

/-- If sources have no sources the loop needs one level only. -/
theorem descend_shallow (b : Block) (hb : ∀ (i : Nat) (l : LineD), b[i]? = some l → ∀ r ∈ l.reducefrom ++ l.copyreducefrom, ∀ lr : LineD, b[r]? = some lr →
      lr.reducefrom = [] ∧ lr.copyreducefrom = []) (v : Vals) (j : Nat) (h : need (descend b v) j = true) :
    need v j = true ∨ ∃ (i : Nat) (l : LineD), b[i]? = some l ∧ need v i = true ∧ j ∈ l.reducefrom ++ l.copyreducefrom := by
  unfold descend at h
  suffices hs : ∀ (is : List Nat) (w : Vals), (∀ j, need w j = true → need v j = true ∨ ∃ (i : Nat) (l : LineD), b[i]? = some l ∧ need v i = true ∧
      j ∈ l.reducefrom ++ l.copyreducefrom) → ∀ j, need (is.foldl (markLine b) w) j = true → need v j = true ∨ ∃ (i : Nat) (l : LineD), b[i]? = some l ∧
      need v i = true ∧ j ∈ l.reducefrom ++ l.copyreducefrom from hs _ v (fun j hj => Or.inl hj) j h
  intro is
  induction is with
  | nil => intro w hw j hj; exact hw j hj
  | cons i is ih =>
    intro w hw
    rw [List.foldl_cons]
    refine ih _ ?_
    intro j hj
    unfold markLine at hj
    cases hbi : b[i]? with
    | none => rw [hbi] at hj; exact hw j hj
    | some l =>
      rw [hbi] at hj
      dsimp only at hj
      by_cases hi : need w i = true
      · rw [if_pos hi] at hj
        have hj : need w j = true ∨ j ∈ l.reducefrom ++ l.copyreducefrom := by
          rcases need_marks_iff _ _ _ hj with hj | hj
          · rcases need_marks_iff _ _ _ hj with hj | hj
            · exact Or.inl hj
            · exact Or.inr (List.mem_append_left _ hj)
          · exact Or.inr (List.mem_append_right _ hj)
        rcases hj with hj | hj
        · exact hw j hj
        · rcases hw i hi with h1 | ⟨i', l', h1, h2, h3⟩
          · exact Or.inr ⟨i, l, hbi, h1, hj⟩
          · obtain ⟨e1, e2⟩ := hb i' l' h1 i h3 l hbi
            rw [e1, e2] at hj
            cases hj
      · rw [if_neg hi] at hj
        exact hw j hj

/-- Entries of a reduction step. -/
structure Ports (lb K sr : Nat) (f : Nat → Nat → LineD) : Prop where
  sends : ∀ t < lb, ∀ x < K * lb, (∀ e ∈ (f t x).sendto, (0 ≤ e.1 ∧ e.1 < lb ∧ e.1 ≠ t) ∧ x / lb = sr) ∧ ((f t x).sendto.map Prod.fst).Nodup
  recvs : ∀ t < lb, ∀ x < K * lb, (f t x).recvfrom = [] ∨ ∃ e, (f t x).recvfrom = [e] ∧ 0 ≤ e.1

section
variable {lb K sr ar g p w : Nat} {a ρ σ : Nat → Nat} {f : Nat → Nat → LineD}

theorem reduce_tidy (h : ReduceLike lb K sr ar g p w a ρ σ f) (hp : Ports lb K sr f) : Tidy lb fun t => Recursive.mk (K * lb) (f t) := by
  have hget : ∀ t, ∀ l ∈ Recursive.mk (K * lb) (f t), ∃ x < K * lb, l = f t x := by
    intro t l hl
    obtain ⟨n, hn⟩ := List.getElem?_of_mem hl
    exact ⟨n, Forward.mk_get _ _ _ _ hn⟩
  have hrecv : ∀ t < lb, ∀ x < K * lb, ∀ e ∈ (f t x).recvfrom, (0 ≤ e.1 ∧ e.1 < lb ∧ e.1 ≠ t) ∧ x / lb ≠ sr := by
    intro t ht x hx e he
    rcases hp.recvs t ht x hx with h1 | ⟨e', h1, h2⟩
    · rw [h1] at he; cases he
    · rw [h1, List.mem_singleton] at he
      subst he
      obtain ⟨q, hq⟩ : ∃ q, q = e.1.toNat := ⟨_, rfl⟩
      have hqe : e.1 = (q : Int) := by omega
      obtain ⟨i, hi, r1, _, _, r4⟩ := (h.recv q t x ht hx).mp (by rw [h1]; simp [hqe])
      have h3 := partner_lt g (p + 1) lb t i h.pos (by omega) h.dvd ht
      have h4 := ((partner_iff g (p + 1) t _ i h.pos (by omega)).mp r4).1
      rw [r4] at h3
      refine ⟨⟨h2, by omega, by omega⟩, ?_⟩
      rw [r1]
      exact (h.hρ i hi).2
  refine ⟨?_, ?_, ?_, ?_⟩ <;> intro t ht l hl <;> obtain ⟨x, hx, rfl⟩ := hget t l hl
  · exact fun e he => ((hp.sends t ht x hx).1 e he).1
  · exact fun e he => (hrecv t ht x hx e he).1
  · refine ⟨(hp.sends t ht x hx).2, ?_⟩
    rcases hp.recvs t ht x hx with h1 | ⟨e', h1, _⟩ <;> rw [h1] <;> simp
  · cases hs : (f t x).sendto with
    | nil => exact Or.inl rfl
    | cons e es =>
      right
      rw [List.eq_nil_iff_forall_not_mem]
      intro e' he'
      exact (hrecv t ht x hx e' he').2 ((hp.sends t ht x hx).1 e (by rw [hs]; exact List.mem_cons_self)).2

theorem reduce_wf (h : ReduceLike lb K sr ar g p w a ρ σ f) (hp : Ports lb K sr f) (prev top : Nat → Nat)
    (hsz : ∀ t < lb, K * lb ≤ prev t ∨ top t ≤ prev t) (hprev : ∀ t < lb, sr * lb + lb ≤ prev t) :
    WfMid lb prev top fun t => Recursive.mk (K * lb) (f t) := by
  refine tidy_mid (reduce_tidy h hp) h.exchange prev top fun t ht => ⟨?_, ?_, ?_, ?_⟩
  · intro l hl r hr
    obtain ⟨n, hn⟩ := List.getElem?_of_mem hl
    obtain ⟨hnK, rfl⟩ := Forward.mk_get _ _ _ _ hn
    rw [h.red t n ht hnK, h.cred, List.append_nil] at hr
    split at hr
    · obtain ⟨i, hi, rfl⟩ := List.mem_map.mp hr
      have := region_lt lb K (σ i) (n % lb) (Nat.mod_lt _ (by omega)) (h.hσ i (List.mem_range.mp hi)).1
      simpa [Recursive.mk] using this
    · cases hr
  · intro j r l lr hl _ hr
    obtain ⟨_, rfl⟩ := Forward.mk_get _ _ _ _ hl
    rw [h.cred] at hr
    cases hr
  · intro j l hl hj hj'
    have := (Forward.mk_get _ _ _ _ hl).1
    have := hsz t ht
    omega
  · intro j l hl hj e he
    obtain ⟨hj', rfl⟩ := Forward.mk_get _ _ _ _ hl
    have h1 := ((hp.sends t ht j hj').1 e he).2
    have h2 := (div_eq_iff' lb j sr (by omega)).1 h1
    have := hprev t ht
    omega

/-- Needs after the loop over the sources. -/
theorem reduce_local (h : ReduceLike lb K sr ar g p w a ρ σ f) (t : Nat) (ht : t < lb) (vn : Vals) (r n : Nat) (hn : n < lb) (hr : r < K) :
    need (descend (Recursive.mk (K * lb) (f t)) (inherit (Recursive.mk (K * lb) (f t)) vn)) (r * lb + n) = true ↔
      need vn (r * lb + n) = true ∨ ((∃ i < p, σ i = r) ∧ (a t ≤ n ∧ n < a t + w) ∧ need vn (ar * lb + n) = true) := by
  have hlen : (Recursive.mk (K * lb) (f t)).length = K * lb := by simp [Recursive.mk]
  have hget : ∀ x, x < K * lb → (Recursive.mk (K * lb) (f t))[x]? = some (f t x) := by
    intro x hx
    simp [Recursive.mk, hx]
  have hlt := region_lt lb K r n hn hr
  have hlta := region_lt lb K ar n hn h.har
  have hinh : ∀ x, x < K * lb → need (inherit (Recursive.mk (K * lb) (f t)) vn) x = need vn x := fun x hx =>
    need_inherit _ _ _ (by rw [hlen]; exact hx)
  have hrange : ∀ l ∈ Recursive.mk (K * lb) (f t), ∀ r ∈ l.reducefrom ++ l.copyreducefrom, r < (Recursive.mk (K * lb) (f t)).length := by
    intro l hl r hr
    obtain ⟨n, hn⟩ := List.getElem?_of_mem hl
    obtain ⟨hnK, rfl⟩ := Forward.mk_get _ _ _ _ hn
    rw [h.red t n ht hnK, h.cred, List.append_nil] at hr
    rw [hlen]
    split at hr
    · obtain ⟨i, hi, rfl⟩ := List.mem_map.mp hr
      exact region_lt lb K (σ i) (n % lb) (Nat.mod_lt _ (by omega)) (h.hσ i (List.mem_range.mp hi)).1
    · cases hr
  constructor
  · intro hd
    have hsh : ∀ (i : Nat) (l : LineD), (Recursive.mk (K * lb) (f t))[i]? = some l → ∀ r ∈ l.reducefrom ++ l.copyreducefrom, ∀ lr : LineD,
        (Recursive.mk (K * lb) (f t))[r]? = some lr → lr.reducefrom = [] ∧ lr.copyreducefrom = [] := by
      intro x l hl r' hr' lr hlr
      obtain ⟨hxK, rfl⟩ := Forward.mk_get _ _ _ _ hl
      obtain ⟨hrK, rfl⟩ := Forward.mk_get _ _ _ _ hlr
      refine ⟨?_, h.cred _ _⟩
      rw [h.red t x ht hxK, h.cred, List.append_nil] at hr'
      split at hr'
      · obtain ⟨i, hi, rfl⟩ := List.mem_map.mp hr'
        rw [h.red t _ ht hrK, if_neg]
        intro hc
        rw [region_div _ _ _ (Nat.mod_lt _ (by omega))] at hc
        exact (h.hσ i (List.mem_range.mp hi)).2 hc.1
      · cases hr'
    rcases descend_shallow _ hsh _ _ hd with h1 | ⟨x, l, h1, h2, h3⟩
    · left
      rw [hinh _ hlt] at h1
      exact h1
    · obtain ⟨hxK, rfl⟩ := Forward.mk_get _ _ _ _ h1
      rw [h.red t x ht hxK, h.cred, List.append_nil] at h3
      split at h3
      · rename_i hc
        obtain ⟨i, hi, e⟩ := List.mem_map.mp h3
        have hm := Nat.mod_lt x (by omega : 0 < lb)
        have e1 : (σ i * lb + x % lb) / lb = (r * lb + n) / lb := by rw [e]
        have e2 : (σ i * lb + x % lb) % lb = (r * lb + n) % lb := by rw [e]
        rw [region_div _ _ _ hm, region_div _ _ _ hn] at e1
        rw [region_mod _ _ _ hm, region_mod _ _ _ hn] at e2
        rw [e2] at hc
        refine Or.inr ⟨⟨i, List.mem_range.mp hi, e1⟩, hc.2, ?_⟩
        rw [hinh x hxK] at h2
        have := Nat.div_add_mod x lb
        rw [hc.1, e2, Nat.mul_comm] at this
        rw [this]
        exact h2
      · cases h3
  · rintro (h1 | ⟨⟨i, hi, h1⟩, h2, h3⟩)
    · refine descend_le _ _ _ ?_
      rw [hinh _ hlt]
      exact h1
    · obtain ⟨_, E, E1, _, E3⟩ := descend_spec _ hrange _ (inherit_length (Recursive.mk (K * lb) (f t)) vn)
      refine (E3 _ _ (E1 (ar * lb + n) (by rw [hinh _ hlta]; exact h3)) (hget _ hlta) _ ?_).1
      rw [h.red t _ ht hlta, h.cred, List.append_nil, if_pos ⟨region_div _ _ _ hn, by rw [region_mod _ _ _ hn]; exact h2⟩]
      refine List.mem_map.mpr ⟨i, List.mem_range.mpr hi, ?_⟩
      rw [region_mod _ _ _ hn, h1]

end
end ExtMpi.Rooted
