import Verif.Lemmas.RootedExchange
import Verif.Props.Rooted
import Verif.Props.RootedCyclic
import Verif.Props.Recursive
/-! C37: gathers made of the recursive algorithm, for every root. -/
namespace ExtMpi.Rooted
open Schedule Forward Recursive

section
variable {lb off L g p : Nat} {f : Nat → Nat → LineD}

/-- Partners of a gather step. -/
theorem gather_sends (h : GatherLike lb off L g p f) (t x : Nat) (ht : t < lb) (hx : x < L) :
    (∀ e ∈ (f t x).sendto, 0 ≤ e.1 ∧ e.1 < lb ∧ e.1 ≠ t) ∧ ((f t x).sendto.map Prod.fst).Nodup := by
  rw [h.send t x hx]
  by_cases hc : off ≤ x ∧ x < off + lb
  · rw [if_pos hc]
    unfold gatherSend
    split
    · constructor
      · intro e he
        obtain ⟨i, hi, rfl⟩ := List.mem_map.mp he
        have hi := List.mem_range.mp hi
        have h1 := partner_lt g (p + 1) lb t i h.pos (by omega) h.dvd ht
        have h2 := ((partner_iff g (p + 1) t _ i h.pos (by omega)).mp rfl).1
        dsimp only
        exact ⟨by omega, by omega, by omega⟩
      · rw [List.map_map]
        refine List.Nodup.map_on ?_ List.nodup_range
        intro i hi j hj e
        have hi := List.mem_range.mp hi
        have hj := List.mem_range.mp hj
        have e : partner g (g * (p + 1)) t i = partner g (g * (p + 1)) t j := by
          have : (partner g (g * (p + 1)) t i : Int) = partner g (g * (p + 1)) t j := e
          exact_mod_cast this
        rw [((partner_iff g (p + 1) t _ i h.pos (by omega)).mp e).2.2]
        exact ((partner_iff g (p + 1) t _ j h.pos (by omega)).mp rfl).2.2.symm
    · simp
  · rw [if_neg hc]
    simp

theorem gather_recvs (h : GatherLike lb off L g p f) (t x : Nat) (hx : x < L) :
    (f t x).recvfrom = [] ∨ ∃ e, (f t x).recvfrom = [e] ∧ 0 ≤ e.1 ∧ e.1 < lb ∧ e.1 ≠ t ∧ (f t x).sendto = [] := by
  rw [h.recv t x hx, h.send t x hx]
  by_cases hc : off ≤ x ∧ x < off + lb
  · rw [if_pos hc, if_pos hc]
    unfold gatherRecv
    split
    · rename_i hn
      right
      refine ⟨_, rfl, ?_⟩
      dsimp only
      rw [partner_index g (p + 1) t _ h.pos (by omega) hn.1 hn.2]
      have hb := block_lt h.pos (Nat.dvd_trans ⟨p + 1, rfl⟩ h.dvd) (by omega : x - off < lb)
      have hm := Nat.mod_lt t h.pos
      refine ⟨by omega, by omega, ?_, ?_⟩
      · intro e
        have e : (x - off) / g * g + t % g = t := by exact_mod_cast e
        apply hn.2
        conv_rhs => rw [← e]
        rw [Nat.add_comm, Nat.add_mul_div_right _ _ h.pos, Nat.div_eq_of_lt hm, Nat.zero_add]
      · unfold gatherSend
        rw [if_neg fun h => hn.2 h.2]
    · exact Or.inl rfl
  · rw [if_neg hc]
    exact Or.inl rfl

theorem gather_tidy (h : GatherLike lb off L g p f) : Tidy lb fun t => Recursive.mk L (f t) := by
  have hget : ∀ t, ∀ l ∈ Recursive.mk L (f t), ∃ x < L, l = f t x := by
    intro t l hl
    obtain ⟨n, hn⟩ := List.getElem?_of_mem hl
    exact ⟨n, Forward.mk_get _ _ _ _ hn⟩
  refine ⟨?_, ?_, ?_, ?_⟩ <;> intro t ht l hl <;> obtain ⟨x, hx, rfl⟩ := hget t l hl
  · exact (gather_sends h t x ht hx).1
  · intro e he
    rcases gather_recvs h t x hx with h1 | ⟨e', h1, h2, h3, h4, _⟩
    · rw [h1] at he; cases he
    · rw [h1, List.mem_singleton] at he
      subst he
      exact ⟨h2, h3, h4⟩
  · refine ⟨(gather_sends h t x ht hx).2, ?_⟩
    rcases gather_recvs h t x hx with h1 | ⟨e', h1, _⟩ <;> rw [h1] <;> simp
  · rcases gather_recvs h t x hx with h1 | ⟨e', _, _, _, _, h1⟩
    · exact Or.inr h1
    · exact Or.inl h1

theorem gather_wf (h : GatherLike lb off L g p f) (prev top : Nat → Nat) (hp : ∀ t < lb, L ≤ prev t) :
    WfMid lb prev top fun t => Recursive.mk L (f t) := by
  refine tidy_mid (gather_tidy h) h.exchange prev top fun t ht => ⟨?_, ?_, ?_, ?_⟩
  · intro l hl r hr
    obtain ⟨n, hn⟩ := List.getElem?_of_mem hl
    obtain ⟨_, rfl⟩ := Forward.mk_get _ _ _ _ hn
    rw [h.red, h.cred] at hr
    cases hr
  · intro j r l lr hl _ hr
    obtain ⟨_, rfl⟩ := Forward.mk_get _ _ _ _ hl
    rw [h.cred] at hr
    cases hr
  · intro j l hl hj
    have := (Forward.mk_get _ _ _ _ hl).1
    have := hp t ht
    omega
  · intro j l hl hj
    have := (Forward.mk_get _ _ _ _ hl).1
    have := hp t ht
    omega

/-- A node needs all lines of its group of `G` nodes or none. -/
def Even (lb off G : Nat) (v : Nat → Vals) : Prop :=
  ∀ t < lb, ∀ j < lb, ∀ j' < lb, j / G = t / G → j' / G = t / G → need (v t) (off + j) = true → need (v t) (off + j') = true

theorem gather_prunes (h : GatherLike lb off L g p f) (root : Nat) (rest : List Row) (hne : rest ≠ [])
    (hrest : Prunes lb root rest (Even lb off (g * (p + 1)))) :
    Prunes lb root ((fun t => Recursive.mk L (f t)) :: rest) (Even lb off g) := by
  obtain ⟨rn, vn, p1, p2, p3⟩ := hrest
  have hroom := h.room
  have hg := h.pos
  have htidy := gather_tidy h
  have hx := h.exchange
  have hdiv : ∀ a b : Nat, a / g = b / g → a / (g * (p + 1)) = b / (g * (p + 1)) := by
    intro a b e
    rw [← Nat.div_div_eq_div_mul, ← Nat.div_div_eq_div_mul, e]
  obtain ⟨row, hrow⟩ : ∃ row : Row, row = fun t => Recursive.mk L (f t) := ⟨_, rfl⟩
  have hlen : ∀ t, (row t).length = L := by intro t; rw [hrow]; simp [Recursive.mk]
  have hplain : ∀ t, descend (row t) (inherit (row t) (vn t)) = inherit (row t) (vn t) := by
    intro t
    apply descend_plain
    intro l hl
    rw [hrow] at hl
    obtain ⟨n, hn⟩ := List.getElem?_of_mem hl
    obtain ⟨_, rfl⟩ := Forward.mk_get _ _ _ _ hn
    exact ⟨h.red _ _, h.cred _ _⟩
  rw [← hrow] at htidy hx ⊢
  obtain ⟨v, hv⟩ : ∃ v, v = fun t => descend (row t) (inherit (row t) (vn t)) := ⟨_, rfl⟩
  have hneed : ∀ t, ∀ n < L, need (v t) n = need (vn t) n := by
    intro t n hn
    rw [hv]
    dsimp only
    rw [hplain t, need_inherit _ _ _ (by rw [hlen]; exact hn)]
  have hev : Even lb off (g * (p + 1)) v := by
    intro t ht j hj j' hj' e e'
    rw [hneed t _ (by omega), hneed t _ (by omega)]
    exact p3 t ht j hj j' hj' e e'
  have hpr := prune_cons lb root row rest rn vn hne p1 (tidy_ok htidy hx)
  rw [← hv] at hpr
  refine ⟨_, _, hpr, ?_, ?_⟩
  · intro row' hrow' t ht q hq hqt
    rcases List.mem_cons.mp hrow' with rfl | hrow'
    · refine tidy_unmixed htidy hx v ?_ t ht q hq hqt
      intro q hq t ht hqt n n' h1 h2 h3 h4 hn
      by_cases hr : Rel g (p + 1) q t
      · simp only [hr, if_true] at h2 h4
        have hb := block_lt hg (Nat.dvd_trans ⟨p + 1, rfl⟩ h.dvd) hq
        have e1 := (div_eq_iff' g (n - off) (q / g) hg).2 ⟨by omega, by omega⟩
        have e2 := (div_eq_iff' g (n' - off) (q / g) hg).2 ⟨by omega, by omega⟩
        have := hev t ht (n - off) (by omega) (n' - off) (by omega) ((hdiv _ _ e1).trans hr.1) ((hdiv _ _ e2).trans hr.1)
        rw [show off + (n - off) = n by omega, show off + (n' - off) = n' by omega] at this
        exact this hn
      · simp only [hr, if_false] at h2
        omega
    · exact p2 row' hrow' t ht q hq hqt
  · intro t ht j hj j' hj' e e' hn
    rw [tidy_needs htidy hx v t _ ht (by rw [hlen]; omega)] at hn ⊢
    rcases hn with ⟨q, hq, hqt, h1, h2, h3⟩ | hn
    · left
      by_cases hr : Rel g (p + 1) t q
      · simp only [hr, if_true] at h1 h2 h3 ⊢
        have i2 := (div_eq_iff' g j' (t / g) hg).1 e'
        refine ⟨q, hq, hqt, by omega, by rw [if_pos hr]; omega, ?_⟩
        rw [show off + t / g * g + (off + j - (off + t / g * g)) = off + j by omega] at h3
        rw [show off + t / g * g + (off + j' - (off + t / g * g)) = off + j' by omega]
        exact hev q hq j hj j' hj' ((hdiv _ _ e).trans hr.1) ((hdiv _ _ e').trans hr.1) h3
      · simp only [hr, if_false] at h2
        omega
    · right
      exact hev t ht j hj j' hj' (hdiv _ _ e) (hdiv _ _ e') hn

end

/-- The steps of the allgather. -/
def recRows (lb : Nat) : Nat → List Nat → List Row
  | _, [] => []
  | g, p :: ps => (fun t => gatherBlock lb g p t) :: recRows lb (g * (p + 1)) ps

theorem recRows_columns (lb t : Nat) (ps : List Nat) : ∀ g, gatherSteps lb t g ps = columns (recRows lb g ps) t := by
  induction ps with
  | nil => intro g; rfl
  | cons p ps ih =>
    intro g
    rw [gatherSteps, recRows, ih]
    rfl

theorem rec_ends (lb : Nat) : Ends lb fun _ => gatherLast lb := by
  refine ⟨fun t _ => by simp [gatherLast, Recursive.mk], ?_⟩
  intro t ht l hl
  obtain ⟨n, hn⟩ := List.getElem?_of_mem hl
  obtain ⟨_, rfl⟩ := Forward.mk_get _ _ _ _ hn
  exact ⟨⟨_, rfl⟩, rfl, rfl, rfl⟩

theorem recRows_prunes (lb root : Nat) (hr : root < lb) (ps : List Nat) : ∀ g, 0 < g → g * factor ps = lb →
    Prunes lb root (recRows lb g ps ++ [fun _ => gatherLast lb]) (Even lb 0 g) := by
  induction ps with
  | nil =>
    intro g _ _
    obtain ⟨rn, v, a, b, c⟩ := ends_prunes (rec_ends lb) root hr
    refine ⟨rn, v, a, b, ?_⟩
    intro t ht j hj j' hj' _ _ hn
    rw [Nat.zero_add] at hn ⊢
    rw [c t ht _ (by omega)] at hn ⊢
    unfold Data at hn ⊢
    dsimp only at hn ⊢
    omega
  | cons p ps ih =>
    intro g hg hlb
    rw [factor_cons, ← Nat.mul_assoc] at hlb
    exact gather_prunes (gatherLike1 lb g p hg ⟨_, hlb.symm⟩) root _ (by simp) (ih _ (Nat.mul_pos hg (by omega)) hlb)

theorem recRows_wf (lb : Nat) (ps : List Nat) : ∀ g, 0 < g → g * factor ps = lb → ∀ prev top : Nat → Nat, (∀ t < lb, lb ≤ prev t) →
    WfRows lb prev top (recRows lb g ps ++ [fun _ => gatherLast lb]) := by
  induction ps with
  | nil =>
    intro g _ _ prev top hp
    exact ends_wf (rec_ends lb) prev top hp
  | cons p ps ih =>
    intro g hg hlb prev top hp
    rw [factor_cons, ← Nat.mul_assoc] at hlb
    refine wf_cons lb prev top _ _ (by simp) (gather_wf (gatherLike1 lb g p hg ⟨_, hlb.symm⟩) prev top hp)
      (ih _ (Nat.mul_pos hg (by omega)) hlb _ _ fun t _ => ?_)
    simp [gatherBlock, Recursive.mk]

/-- C37 for gathers made of the recursive allgather: for every list of ports and every root the pass succeeds, it drops a send if and only if it drops the matching receive, the pruned schedule runs to
completion and the root gets block `b` of node `b`. -/
theorem gather_recursive (ports : List Nat) (hp : ∀ p, p ∈ ports → 0 < p) (root : Nat) (hroot : root < (ports.map (· + 1)).prod) :
    ∃ rows rows' v, (∀ t, generate true (ports.map fun p : Nat => (p : Int)) t = some (columns rows t)) ∧
      prune (ports.map (· + 1)).prod root true rows = some (rows', v) ∧
      (∀ row' ∈ rows'.tail, ∀ q < (ports.map (· + 1)).prod, ∀ t < (ports.map (· + 1)).prod, q ≠ t →
        sendFlags (row' q) t = recvFlags (row' t) q) ∧
      ∀ (V : Type) [Add V] (inp junk : Nat → Nat → V),
        (∃ out, ExecD (ports.map (· + 1)).prod copyOut rows' inp junk out) ∧
          ∀ out, ExecD (ports.map (· + 1)).prod copyOut rows' inp junk out → ∀ b < (ports.map (· + 1)).prod, out root b = some (inp b b) := by
  obtain ⟨lb, hlb⟩ : ∃ lb, lb = factor ports := ⟨_, rfl⟩
  have hprod : (ports.map (· + 1)).prod = lb := hlb.symm
  rw [hprod] at hroot ⊢
  have hcol : ∀ t, allgather ports t = columns ((fun t => gatherFirst lb t) :: (recRows lb 1 ports ++ [fun _ => gatherLast lb])) t := by
    intro t
    unfold allgather
    rw [← hlb, recRows_columns]
    unfold columns
    rw [List.map_cons, List.map_append]
    rfl
  have hw : Wf lb ((fun t => gatherFirst lb t) :: (recRows lb 1 ports ++ [fun _ => gatherLast lb])) :=
    recRows_wf lb ports 1 (by omega) (by omega) _ _ fun t _ => by simp [gatherFirst, Recursive.mk]
  obtain ⟨rows', v, f1, f2⟩ := prunes_first lb root (fun t => gatherFirst lb t) _ (by simp) _
    (recRows_prunes lb root hroot ports 1 (by omega) (by omega))
  refine ⟨_, rows', v, fun t => by rw [generate_allgather ports hp t, hcol t], f1, drops_match_partial lb root _ rows' v hw f1, fun V _ inp junk => ?_⟩
  refine gather_partial lb root hroot _ rows' v hw f1 f2 ?_ inp junk
  refine computes_congr (fun t _ => hcol t) ?_
  obtain ⟨sched, g1, g2⟩ := allgather_correct (V := V) ports hp
  rw [hprod] at g2
  refine computes_congr (fun t _ => ?_) g2
  exact Option.some.inj ((g1 t).symm.trans (generate_allgather ports hp t))

example := gather_recursive [2, 1] (by decide) 4 (by decide)

end ExtMpi.Rooted
