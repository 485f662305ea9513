import Verif.Lemmas.RootedReduce
import Verif.Props.RootedRecursive
/-! C37: reduces made of the recursive algorithm, for every root. -/
namespace ExtMpi.Rooted
open Schedule Forward Recursive

/-- A node needs all lines of its group of `M` nodes in a region or none. -/
def Level (lb M : Nat) (v : Nat → Vals) : Prop :=
  ∀ t < lb, ∀ r, ∀ n < lb, ∀ n' < lb, n / M = t / M → n' / M = t / M → need (v t) (r * lb + n) = true → need (v t) (r * lb + n') = true

/-- The nodes with the position of the root in its group of `G` nodes need the lines of their group of `M` nodes in region `s`. -/
def Held (lb root G M s : Nat) (v : Nat → Vals) : Prop :=
  ∀ t < lb, t % G = root % G → ∀ n < lb, n / M = t / M → need (v t) (s * lb + n) = true

/-- All nodes need the lines of their group. -/
def Full (lb G s : Nat) (v : Nat → Vals) : Prop := ∀ t < lb, ∀ n < lb, n / G = t / G → need (v t) (s * lb + n) = true

theorem reg_le {lb r s n m : Nat} (h : r * lb + n < s * lb + m) (hn : m ≤ lb) : r ≤ s := by
  by_contra hc
  have : (s + 1) * lb ≤ r * lb := Nat.mul_le_mul_right lb (by omega)
  have e : (s + 1) * lb = s * lb + lb := by ring
  omega

/-! ### The gather -/

theorem last_prunes (lb root : Nat) (hr : root < lb) :
    Prunes lb root [fun _ => allreduceLast lb] fun v => Level lb lb v ∧ Held lb root lb lb 1 v := by
  have hneed : ∀ t x, need (descend (allreduceLast lb) (seed root t (allreduceLast lb))) x = true ↔ t = root ∧ lb ≤ x ∧ x < 2 * lb := by
    intro t x
    rw [descend_plain _ (fun l hl => by
      obtain ⟨n, hn⟩ := List.getElem?_of_mem hl
      obtain ⟨_, rfl⟩ := Forward.mk_get _ _ _ _ hn
      exact ⟨rfl, rfl⟩)]
    unfold need seed allreduceLast Recursive.mk
    rw [List.map_map, List.getElem?_map]
    by_cases hx : x < 2 * lb
    · rw [List.getElem?_range hx]
      by_cases hc : lb ≤ x <;> simp [hc, hx]
    · rw [List.getElem?_eq_none (by simp; omega)]
      simp [hx]
  refine ⟨_, _, rfl, ?_, ?_, ?_⟩
  · intro row' hrow t ht q hq hqt
    rw [List.mem_singleton] at hrow
    subst hrow
    left
    refine (no_recv _ (fun l hl => ?_) q).1
    unfold endBlock at hl
    obtain ⟨i, hi, rfl⟩ := List.mem_mapIdx.mp hl
    rw [dropLine_recv]
    obtain ⟨_, h⟩ := Forward.mk_get _ _ _ _ (List.getElem?_eq_getElem hi)
    rw [h]
    simp
  · intro t ht r n hn n' hn' _ _ h
    dsimp only at h ⊢
    rw [hneed] at h ⊢
    have h1 : 1 ≤ r := by
      by_contra hc
      have : r = 0 := by omega
      subst this
      omega
    have h2 : r ≤ 1 := by
      by_contra hc
      have : 2 * lb ≤ r * lb := Nat.mul_le_mul_right lb (by omega)
      omega
    have : r = 1 := by omega
    subst this
    exact ⟨h.1, by omega, by omega⟩
  · intro t ht e n hn _
    dsimp only
    rw [hneed]
    rw [Nat.mod_eq_of_lt ht, Nat.mod_eq_of_lt hr] at e
    exact ⟨e, by omega, by omega⟩

theorem last_wf (lb : Nat) (prev top : Nat → Nat) (hp : ∀ t < lb, 2 * lb ≤ prev t) : WfRows lb prev top [fun _ => allreduceLast lb] := by
  refine ⟨?_, ?_, ?_⟩
  · intro t ht
    refine ⟨?_, ?_, ?_, ?_⟩
    · intro l hl r hr
      obtain ⟨n, hn⟩ := List.getElem?_of_mem hl
      obtain ⟨_, rfl⟩ := Forward.mk_get _ _ _ _ hn
      cases hr
    · intro j r l lr hl _ hr
      obtain ⟨_, rfl⟩ := Forward.mk_get _ _ _ _ hl
      cases hr
    · intro j l hl hj
      have := (Forward.mk_get _ _ _ _ hl).1
      have := hp t ht
      omega
    · intro j l hl hj
      have := (Forward.mk_get _ _ _ _ hl).1
      have := hp t ht
      omega
  · intro t ht l hl e he
    obtain ⟨n, hn⟩ := List.getElem?_of_mem hl
    obtain ⟨_, rfl⟩ := Forward.mk_get _ _ _ _ hn
    dsimp only at he
    split at he
    · rw [List.mem_singleton] at he
      rw [he]
    · cases he
  · intro t ht l hl
    obtain ⟨n, hn⟩ := List.getElem?_of_mem hl
    obtain ⟨_, rfl⟩ := Forward.mk_get _ _ _ _ hn
    rfl

theorem exchange_length (row : Row) (v : Nat → Vals) (t : Nat) : (exchange row v t).length = (row t).length := by simp [exchange]

theorem gather2_prunes {lb g p : Nat} {f : Nat → Nat → LineD} (h : GatherLike lb lb (2 * lb) g p f) (root : Nat) (rest : List Row)
    (hne : rest ≠ []) (hrest : Prunes lb root rest fun v => Level lb (g * (p + 1)) v ∧ Held lb root (g * (p + 1)) (g * (p + 1)) 1 v) :
    Prunes lb root ((fun t => Recursive.mk (2 * lb) (f t)) :: rest) fun v => Level lb g v ∧ Held lb root g g 1 v := by
  have hg := h.pos
  have hgl : g ∣ lb := Nat.dvd_trans ⟨p + 1, rfl⟩ h.dvd
  have htidy := gather_tidy h
  have hx := h.exchange
  have hdiv : ∀ a b : Nat, a / g = b / g → a / (g * (p + 1)) = b / (g * (p + 1)) := by
    intro a b e
    rw [← Nat.div_div_eq_div_mul, ← Nat.div_div_eq_div_mul, e]
  refine tidy_prunes htidy hx root rest hne _ _ hrest ?_
  rintro vn ⟨hl, hh⟩ v hv
  have hneed : ∀ t, ∀ n < 2 * lb, need (v t) n = need (vn t) n := by
    intro t n hn
    rw [hv]
    dsimp only
    rw [descend_plain _ (fun l hl => by
      obtain ⟨n, hn⟩ := List.getElem?_of_mem hl
      obtain ⟨_, rfl⟩ := Forward.mk_get _ _ _ _ hn
      exact ⟨h.red _ _, h.cred _ _⟩), need_inherit _ _ _ (by simpa [Recursive.mk] using hn)]
  have hlen : ∀ t, (Recursive.mk (2 * lb) (f t)).length = 2 * lb := by intro t; simp [Recursive.mk]
  have hlv : ∀ t < lb, ∀ r < 2, ∀ n < lb, ∀ n' < lb, n / (g * (p + 1)) = t / (g * (p + 1)) → n' / (g * (p + 1)) = t / (g * (p + 1)) →
      need (v t) (r * lb + n) = true → need (v t) (r * lb + n') = true := by
    intro t ht r hr n hn n' hn' e e'
    rw [hneed t _ (region_lt lb 2 r n hn hr), hneed t _ (region_lt lb 2 r n' hn' hr)]
    exact hl t ht r n hn n' hn' e e'
  refine ⟨?_, ?_, ?_⟩
  · intro q hq t ht hqt n n' h1 h2 h3 h4 hn
    by_cases hr : Rel g (p + 1) q t
    · simp only [hr, if_true] at h2 h4
      have hb := block_lt hg hgl hq
      have e1 := (div_eq_iff' g (n - lb) (q / g) hg).2 ⟨by omega, by omega⟩
      have e2 := (div_eq_iff' g (n' - lb) (q / g) hg).2 ⟨by omega, by omega⟩
      have := hlv t ht 1 (by omega) (n - lb) (by omega) (n' - lb) (by omega) ((hdiv _ _ e1).trans hr.1) ((hdiv _ _ e2).trans hr.1)
      rw [Nat.one_mul, show lb + (n - lb) = n by omega, show lb + (n' - lb) = n' by omega] at this
      exact this hn
    · simp only [hr, if_false] at h2
      omega
  · intro t ht r n hn n' hn' e e' hnd
    have hr2 : r < 2 := by
      have := need_lt _ _ hnd
      rw [exchange_length, hlen] at this
      by_contra hc
      have : 2 * lb ≤ r * lb := Nat.mul_le_mul_right lb (by omega)
      omega
    rw [tidy_needs htidy hx v t _ ht (by rw [hlen]; exact region_lt lb 2 r n hn hr2)] at hnd
    rw [tidy_needs htidy hx v t _ ht (by rw [hlen]; exact region_lt lb 2 r n' hn' hr2)]
    rcases hnd with ⟨q, hq, hqt, h1, h2, h3⟩ | hnd
    · left
      by_cases hr : Rel g (p + 1) t q
      · simp only [hr, if_true] at h1 h2 h3
        have hr1 : r = 1 := by
          by_contra hc
          have : r = 0 := by omega
          subst this
          omega
        subst hr1
        rw [Nat.one_mul] at h1 h2 h3 ⊢
        have i2 := (div_eq_iff' g n' (t / g) hg).1 e'
        refine ⟨q, hq, hqt, by omega, by rw [if_pos hr]; omega, ?_⟩
        rw [show lb + t / g * g + (lb + n - (lb + t / g * g)) = lb + n by omega] at h3
        rw [show lb + t / g * g + (lb + n' - (lb + t / g * g)) = lb + n' by omega]
        have := hlv q hq 1 (by omega) n hn n' hn' ((hdiv _ _ e).trans hr.1) ((hdiv _ _ e').trans hr.1)
        rw [Nat.one_mul] at this
        exact this h3
      · simp only [hr, if_false] at h2
        omega
    · right
      exact hlv t ht r hr2 n hn n' hn' (hdiv _ _ e) (hdiv _ _ e') hnd
  · intro t ht e n hn en
    have hlt := region_lt lb 2 1 n hn (by omega)
    rw [tidy_needs htidy hx v t _ ht (by rw [hlen]; exact hlt)]
    have hG : 0 < g * (p + 1) := Nat.mul_pos hg (by omega)
    obtain ⟨q, hq⟩ : ∃ q, q = t / (g * (p + 1)) * (g * (p + 1)) + root % (g * (p + 1)) := ⟨_, rfl⟩
    have hm := Nat.mod_lt root hG
    have hb := block_lt hG h.dvd ht
    have hqlb : q < lb := by omega
    have hqd : q / (g * (p + 1)) = t / (g * (p + 1)) := (div_eq_iff' _ _ _ hG).2 ⟨by omega, by omega⟩
    have hqm : q % (g * (p + 1)) = root % (g * (p + 1)) := by
      rw [hq, Nat.add_comm, Nat.add_mul_mod_self_right, Nat.mod_mod]
    have hqg : t % g = q % g := by
      rw [e, ← Nat.mod_mul_right_mod root g (p + 1), ← hqm, Nat.mod_mul_right_mod]
    have hnq : need (v q) (1 * lb + n) = true := by
      rw [hneed q _ hlt]
      exact hh q hqlb hqm n hn ((hdiv _ _ en).trans hqd.symm)
    by_cases hqt : t = q
    · right
      rw [hqt]
      exact hnq
    · left
      have hr : Rel g (p + 1) t q := ⟨hqd.symm, hqg⟩
      have i2 := (div_eq_iff' g n (t / g) hg).1 en
      rw [Nat.one_mul] at hnq ⊢
      refine ⟨q, hqlb, hqt, by omega, by rw [if_pos hr]; omega, ?_⟩
      rw [show lb + t / g * g + (lb + n - (lb + t / g * g)) = lb + n by omega]
      exact hnq

/-! ### The reductions -/

section
variable {lb K sr ar g p w : Nat} {a ρ σ : Nat → Nat} {f : Nat → Nat → LineD}

/-- The value that is sent and the received ones are summed up. -/
structure Sums (sr ar p : Nat) (ρ σ : Nat → Nat) : Prop where
  src : sr = ar ∨ ∃ i < p, σ i = sr
  rcv : ∀ i < p, ρ i = ar ∨ ∃ j < p, σ j = ρ i

theorem reduce_held (h : ReduceLike lb K sr ar g p w a ρ σ f) (hs : Sums sr ar p ρ σ) (t : Nat) (ht : t < lb) (vn : Vals) (n : Nat)
    (hn : n < lb) (ho : a t ≤ n ∧ n < a t + w) (hd : need vn (ar * lb + n) = true) :
    need (descend (Recursive.mk (K * lb) (f t)) (inherit (Recursive.mk (K * lb) (f t)) vn)) (sr * lb + n) = true ∧
    ∀ i < p, need (descend (Recursive.mk (K * lb) (f t)) (inherit (Recursive.mk (K * lb) (f t)) vn)) (ρ i * lb + n) = true := by
  constructor
  · rw [reduce_local h t ht vn sr n hn h.hsr]
    rcases hs.src with e | e
    · rw [e]; exact Or.inl hd
    · exact Or.inr ⟨e, ho, hd⟩
  · intro i hi
    rw [reduce_local h t ht vn (ρ i) n hn (h.hρ i hi).1]
    rcases hs.rcv i hi with e | e
    · rw [e]; exact Or.inl hd
    · exact Or.inr ⟨e, ho, hd⟩

/-- A line of region `sr` is needed if a partner needs what it receives. -/
theorem reduce_sent (h : ReduceLike lb K sr ar g p w a ρ σ f) (hp : Ports lb K sr f) (v : Nat → Vals) (t q n : Nat) (ht : t < lb) (hq : q < lb)
    (hqt : t ≠ q) (hr : Rel g (p + 1) t q) (hn : n < lb) (ho : a q ≤ n ∧ n < a q + w)
    (hd : ∀ i < p, need (v q) (ρ i * lb + n) = true) :
    need (exchange (fun t => Recursive.mk (K * lb) (f t)) v t) (sr * lb + n) = true := by
  rw [tidy_needs (reduce_tidy h hp) h.exchange v t _ ht (by simpa [Recursive.mk] using region_lt lb K sr n hn h.hsr)]
  left
  have hi : pidx g (p + 1) q t < p := by
    have := pidx_lt g (p + 1) q t (by omega) hqt hr
    omega
  refine ⟨q, hq, hqt, by rw [if_pos hr]; omega, by rw [if_pos hr, if_pos hr]; omega, ?_⟩
  rw [if_pos hr, if_pos hr, show ρ (pidx g (p + 1) q t) * lb + a q + (sr * lb + n - (sr * lb + a q)) = ρ (pidx g (p + 1) q t) * lb + n by omega]
  exact hd _ hi

theorem reduce_kept (h : ReduceLike lb K sr ar g p w a ρ σ f) (hp : Ports lb K sr f) (v : Nat → Vals) (t n : Nat) (ht : t < lb)
    (hn : n < lb) (hd : need (v t) (sr * lb + n) = true) :
    need (exchange (fun t => Recursive.mk (K * lb) (f t)) v t) (sr * lb + n) = true := by
  rw [tidy_needs (reduce_tidy h hp) h.exchange v t _ ht (by simpa [Recursive.mk] using region_lt lb K sr n hn h.hsr)]
  exact Or.inr hd

/-- A step of the first part. -/
theorem reduce_prunes (h : ReduceLike lb K sr ar g p g (fun t => t / g * g) ρ σ f) (hp : Ports lb K sr f) (hs : Sums sr ar p ρ σ)
    (root : Nat) (rest : List Row) (hne : rest ≠ []) (hrest : Prunes lb root rest (Full lb g ar)) :
    Prunes lb root ((fun t => Recursive.mk (K * lb) (f t)) :: rest) (Full lb (g * (p + 1)) sr) := by
  have hg := h.pos
  have hgl : g ∣ lb := Nat.dvd_trans ⟨p + 1, rfl⟩ h.dvd
  refine tidy_prunes (reduce_tidy h hp) h.exchange root rest hne _ _ hrest ?_
  intro vn hf v hv
  have hheld : ∀ t < lb, ∀ n < lb, n / g = t / g → need (v t) (sr * lb + n) = true ∧ ∀ i < p, need (v t) (ρ i * lb + n) = true := by
    intro t ht n hn e
    rw [hv]
    exact reduce_held h hs t ht (vn t) n hn ((div_eq_iff' g n (t / g) hg).1 e) (hf t ht n hn e)
  constructor
  · intro q hq t ht hqt n n' h1 h2 h3 h4 _
    by_cases hr : Rel g (p + 1) q t
    · simp only [hr, if_true] at h3 h4
      have hi : pidx g (p + 1) t q < p := by
        have := pidx_lt g (p + 1) t q (by omega) hqt hr
        omega
      have hb := block_lt hg hgl ht
      have e := (div_eq_iff' g (n' - ρ (pidx g (p + 1) t q) * lb) (t / g) hg).2 ⟨by omega, by omega⟩
      have := (hheld t ht (n' - ρ (pidx g (p + 1) t q) * lb) (by omega) e).2 _ hi
      rw [show ρ (pidx g (p + 1) t q) * lb + (n' - ρ (pidx g (p + 1) t q) * lb) = n' by omega] at this
      exact this
    · simp only [hr, if_false] at h4
      omega
  · intro t ht n hn e
    by_cases eg : n / g = t / g
    · exact reduce_kept h hp v t n ht hn (hheld t ht n hn eg).1
    · obtain ⟨q, hq⟩ : ∃ q, q = n / g * g + t % g := ⟨_, rfl⟩
      have hm := Nat.mod_lt t hg
      have hb := block_lt hg hgl hn
      have hqd : q / g = n / g := (div_eq_iff' _ _ _ hg).2 ⟨by omega, by omega⟩
      have hqm : q % g = t % g := by rw [hq, Nat.add_comm, Nat.add_mul_mod_self_right, Nat.mod_mod]
      have hqt : t ≠ q := by
        rintro rfl
        exact eg hqd.symm
      have hr : Rel g (p + 1) t q := by
        refine ⟨?_, hqm.symm⟩
        rw [← e, ← Nat.div_div_eq_div_mul, ← Nat.div_div_eq_div_mul, hqd]
      exact reduce_sent h hp v t q n ht (by omega) hqt hr hn ((div_eq_iff' g n (q / g) hg).1 hqd.symm) (hheld q (by omega) n hn hqd.symm).2

/-- A step of the middle part. -/
theorem middle_prunes {M : Nat} (hM : 0 < M) (hdM : g * (p + 1) ∣ M) (hMl : M ∣ lb)
    (h : ReduceLike lb K sr ar g p M (fun t => t / M * M) ρ σ f) (hp : Ports lb K sr f) (hs : Sums sr ar p ρ σ)
    (root : Nat) (rest : List Row) (hne : rest ≠ [])
    (hrest : Prunes lb root rest fun v => Level lb M v ∧ Held lb root (g * (p + 1)) M ar v) :
    Prunes lb root ((fun t => Recursive.mk (K * lb) (f t)) :: rest) fun v => Level lb M v ∧ Held lb root g M sr v := by
  have hg := h.pos
  have hrelM : ∀ q t, Rel g (p + 1) q t → q / M = t / M := fun q t h => div_of_dvd _ M q t hdM h.1
  have hlen : ∀ t, (Recursive.mk (K * lb) (f t)).length = K * lb := by intro t; simp [Recursive.mk]
  refine tidy_prunes (reduce_tidy h hp) h.exchange root rest hne _ _ hrest ?_
  rintro vn ⟨hl, hh⟩ v hv
  have hlv : ∀ t < lb, ∀ r < K, ∀ n < lb, ∀ n' < lb, n / M = t / M → n' / M = t / M →
      need (v t) (r * lb + n) = true → need (v t) (r * lb + n') = true := by
    intro t ht r hr n hn n' hn' e e' hd
    rw [hv] at hd ⊢
    dsimp only at hd ⊢
    rw [reduce_local h t ht (vn t) r n hn hr] at hd
    rw [reduce_local h t ht (vn t) r n' hn' hr]
    rcases hd with hd | ⟨h1, _, h3⟩
    · exact Or.inl (hl t ht r n hn n' hn' e e' hd)
    · exact Or.inr ⟨h1, (div_eq_iff' M n' (t / M) hM).1 e', hl t ht ar n hn n' hn' e e' h3⟩
  refine ⟨?_, ?_, ?_⟩
  · intro q hq t ht hqt n n' h1 h2 h3 h4 hnd
    by_cases hr : Rel g (p + 1) q t
    · simp only [hr, if_true] at h1 h2 h3 h4
      have hi : pidx g (p + 1) t q < p := by
        have := pidx_lt g (p + 1) t q (by omega) hqt hr
        omega
      obtain ⟨R, hR⟩ : ∃ R, R = ρ (pidx g (p + 1) t q) := ⟨_, rfl⟩
      rw [← hR] at h1 h2 h3 h4
      have hRK : R < K := by rw [hR]; exact (h.hρ _ hi).1
      have hb := block_lt hM hMl ht
      have e1 := (div_eq_iff' M (n - R * lb) (t / M) hM).2 ⟨by omega, by omega⟩
      have e2 := (div_eq_iff' M (n' - R * lb) (t / M) hM).2 ⟨by omega, by omega⟩
      have := hlv t ht R hRK (n - R * lb) (by omega) (n' - R * lb) (by omega) e1 e2
      rw [show R * lb + (n - R * lb) = n by omega, show R * lb + (n' - R * lb) = n' by omega] at this
      exact this hnd
    · simp only [hr, if_false] at h2
      omega
  · intro t ht r n hn n' hn' e e' hnd
    have hrK : r < K := by
      have := need_lt _ _ hnd
      rw [exchange_length, hlen] at this
      by_contra hc
      have : K * lb ≤ r * lb := Nat.mul_le_mul_right lb (by omega)
      omega
    rw [tidy_needs (reduce_tidy h hp) h.exchange v t _ ht (by rw [hlen]; exact region_lt lb K r n hn hrK)] at hnd
    rw [tidy_needs (reduce_tidy h hp) h.exchange v t _ ht (by rw [hlen]; exact region_lt lb K r n' hn' hrK)]
    rcases hnd with ⟨q, hq, hqt, h1, h2, h3⟩ | hnd
    · left
      by_cases hr : Rel g (p + 1) t q
      · simp only [hr, if_true] at h1 h2 h3
        have hqM := hrelM t q hr
        have i1 := (div_eq_iff' M n (t / M) hM).1 e
        have i2 := (div_eq_iff' M n' (t / M) hM).1 e'
        have hb := block_lt hM hMl hq
        rw [← hqM] at h1 h2 h3 hb
        have r1 : r ≤ sr := reg_le (lb := lb) (n := n) (m := t / M * M + M) (by omega) (by omega)
        have r2 : sr ≤ r := by
          by_contra hc
          have : (r + 1) * lb ≤ sr * lb := Nat.mul_le_mul_right lb (by omega)
          have e : (r + 1) * lb = r * lb + lb := by ring
          omega
        have hrs : r = sr := by omega
        subst hrs
        have hi : pidx g (p + 1) q t < p := by
          have := pidx_lt g (p + 1) q t (by omega) hqt hr
          omega
        obtain ⟨R, hR⟩ : ∃ R, R = ρ (pidx g (p + 1) q t) := ⟨_, rfl⟩
        rw [← hR] at h3
        have hRK : R < K := by rw [hR]; exact (h.hρ _ hi).1
        refine ⟨q, hq, hqt, by rw [if_pos hr, ← hqM]; omega, by rw [if_pos hr, if_pos hr, ← hqM]; omega, ?_⟩
        rw [if_pos hr, if_pos hr, ← hqM, ← hR]
        rw [show R * lb + t / M * M + (r * lb + n - (r * lb + t / M * M)) = R * lb + n by omega] at h3
        rw [show R * lb + t / M * M + (r * lb + n' - (r * lb + t / M * M)) = R * lb + n' by omega]
        exact hlv q hq R hRK n hn n' hn' (e.trans hqM) (e'.trans hqM) h3
      · simp only [hr, if_false] at h2
        omega
    · right
      exact hlv t ht r hrK n hn n' hn' e e' hnd
  · intro t ht e n hn en
    have hG : 0 < g * (p + 1) := Nat.mul_pos hg (by omega)
    obtain ⟨q, hq⟩ : ∃ q, q = t / (g * (p + 1)) * (g * (p + 1)) + root % (g * (p + 1)) := ⟨_, rfl⟩
    have hm := Nat.mod_lt root hG
    have hb := block_lt hG h.dvd ht
    have hqlb : q < lb := by omega
    have hqd : q / (g * (p + 1)) = t / (g * (p + 1)) := (div_eq_iff' _ _ _ hG).2 ⟨by omega, by omega⟩
    have hqm : q % (g * (p + 1)) = root % (g * (p + 1)) := by
      rw [hq, Nat.add_comm, Nat.add_mul_mod_self_right, Nat.mod_mod]
    have hqg : t % g = q % g := by
      rw [e, ← Nat.mod_mul_right_mod root g (p + 1), ← hqm, Nat.mod_mul_right_mod]
    have hr : Rel g (p + 1) t q := ⟨hqd.symm, hqg⟩
    have enq : n / M = q / M := en.trans (hrelM t q hr)
    have ho := (div_eq_iff' M n (q / M) hM).1 enq
    have hk := reduce_held h hs q hqlb (vn q) n hn ho (hh q hqlb hqm n hn enq)
    have hvq : v q = descend (Recursive.mk (K * lb) (f q)) (inherit (Recursive.mk (K * lb) (f q)) (vn q)) := by rw [hv]
    rw [← hvq] at hk
    by_cases hqt : t = q
    · subst hqt
      exact reduce_kept h hp v t n ht hn hk.1
    · exact reduce_sent h hp v t q n ht hqlb hqt hr hn ho hk.2

end

/-! ### The schedule -/

theorem reduce_ports (lb g p : Nat) (first last : Bool) (hg : 0 < g) (hd : g * (p + 1) ∣ lb) :
    Ports lb (if last then 2 + p else 3 + p) (if first then 0 else 2) fun t x =>
        { frac := x % lb
          sendto := reduceSend (g * (p + 1)) p t first (x / lb) (x % lb)
          recvfrom := reduceRecv (g * (p + 1)) p t first last (x / lb) (x % lb)
          reducefrom := reduceFrom lb (g * (p + 1)) p t first last (x / lb) (x % lb) } := by
  have hgn : g * (p + 1) / (p + 1) = g := Nat.mul_div_cancel _ (by omega)
  refine ⟨?_, ?_⟩
  · intro t ht x hx
    dsimp only
    unfold reduceSend
    rw [hgn]
    dsimp only
    generalize (if first = true then 0 else 2 : Nat) = sr
    split
    · rename_i hc
      refine ⟨?_, by simp⟩
      intro e he
      rw [List.mem_singleton] at he
      subst he
      dsimp only
      rw [partner_index g (p + 1) t _ hg (by omega) hc.1 hc.2.1]
      have hxm := Nat.mod_lt x (by omega : 0 < lb)
      have hb := block_lt hg (Nat.dvd_trans ⟨p + 1, rfl⟩ hd) hxm
      have hm := Nat.mod_lt t hg
      refine ⟨⟨by omega, by omega, ?_⟩, hc.2.2⟩
      intro e
      have e : x % lb / g * g + t % g = t := by exact_mod_cast e
      apply hc.2.1
      conv_rhs => rw [← e]
      rw [Nat.add_comm, Nat.add_mul_div_right _ _ hg, Nat.div_eq_of_lt hm, Nat.zero_add]
    · simp
  · intro t ht x hx
    dsimp only
    unfold reduceRecv
    dsimp only
    split_ifs
    all_goals first
      | exact Or.inl (by simp)
      | exact Or.inr ⟨_, rfl, Int.natCast_nonneg _⟩

theorem reduce_sources (p : Nat) (first last : Bool) :
    Sums (if first then 0 else 2) (if last then 1 else 2) p (rho p first last) (sig first last) ∨ p = 0 := by
  by_cases hp : p = 0
  · exact Or.inr hp
  · left
    refine ⟨?_, ?_⟩
    · cases first <;> cases last <;> simp only [sig, Bool.false_eq_true, if_true, if_false]
      · exact Or.inl trivial
      · exact Or.inr ⟨0, by omega, rfl⟩
      · exact Or.inr ⟨0, by omega, rfl⟩
      · exact Or.inr ⟨0, by omega, rfl⟩
    · intro i hi
      cases first <;> cases last <;> simp only [sig, rho, Bool.false_eq_true, if_true, if_false]
      · exact Or.inr ⟨i, hi, rfl⟩
      · by_cases hc : i = p - 1
        · rw [if_pos hc]; exact Or.inl rfl
        · rw [if_neg hc]; exact Or.inr ⟨i + 1, by omega, by omega⟩
      · by_cases hc : i = 0
        · left; omega
        · exact Or.inr ⟨i, hi, by rw [if_neg hc]⟩
      · by_cases hc : i = p - 1
        · rw [if_pos hc]; exact Or.inl rfl
        · rw [if_neg hc]; exact Or.inr ⟨i + 1, by omega, by rw [if_neg (by omega)]; omega⟩

theorem middle_ports (lb M g p : Nat) (first : Bool) (hg : 0 < g) (hd : g * (p + 1) ∣ lb) :
    Ports lb (if first then p + 1 else p + 2) (if first then 0 else 1) fun t x =>
    { frac := x % lb
      sendto :=
        if decide (x % lb / M = t / M) ∧ x / lb = (if first then 0 else 1) then
          (List.range p).map fun i => ((partner g (g * (p + 1)) t i : Int), ((x % lb : Nat) : Int))
        else []
      recvfrom :=
        if decide (x % lb / M = t / M) ∧ (if first then 1 else 2) ≤ x / lb ∧
            x / lb < (if first then 1 else 2) + p then
          [((partner g (g * (p + 1)) t (x / lb - (if first then 1 else 2)) : Int), ((x % lb : Nat) : Int))]
        else []
      reducefrom :=
        if decide (x % lb / M = t / M) ∧ x / lb = 1 then
          if first then (List.range p).map fun i => if i = 0 then x % lb else x % lb + (i + 1) * lb
          else (List.range p).map fun i => x % lb + (i + 2) * lb
        else [] } := by
  refine ⟨?_, ?_⟩
  · intro t ht x hx
    dsimp only
    generalize (if first = true then 0 else 1 : Nat) = sr
    split
    · rename_i hc
      constructor
      · intro e he
        obtain ⟨i, hi, rfl⟩ := List.mem_map.mp he
        have hi := List.mem_range.mp hi
        have h1 := partner_lt g (p + 1) lb t i hg (by omega) hd ht
        have h2 := ((partner_iff g (p + 1) t _ i hg (by omega)).mp rfl).1
        dsimp only
        exact ⟨⟨by omega, by omega, by omega⟩, hc.2⟩
      · rw [List.map_map]
        refine List.Nodup.map_on ?_ List.nodup_range
        intro i hi j hj e
        have hi := List.mem_range.mp hi
        have hj := List.mem_range.mp hj
        have e : partner g (g * (p + 1)) t i = partner g (g * (p + 1)) t j := by
          have : (partner g (g * (p + 1)) t i : Int) = partner g (g * (p + 1)) t j := e
          exact_mod_cast this
        rw [((partner_iff g (p + 1) t _ i hg (by omega)).mp e).2.2]
        exact ((partner_iff g (p + 1) t _ j hg (by omega)).mp rfl).2.2.symm
    · simp
  · intro t ht x hx
    dsimp only
    generalize (if first = true then 1 else 2 : Nat) = sr
    split
    · exact Or.inr ⟨_, rfl, Int.natCast_nonneg _⟩
    · exact Or.inl rfl

theorem middle_sources (p : Nat) (hp : 0 < p) (first : Bool) : Sums (if first then 0 else 1) 1 p (midRho first) (midSig first) := by
  refine ⟨?_, ?_⟩
  · cases first <;> simp only [midSig, Bool.false_eq_true, if_true, if_false]
    · exact Or.inl trivial
    · exact Or.inr ⟨0, hp, rfl⟩
  · intro i hi
    cases first <;> simp only [midSig, midRho, Bool.false_eq_true, if_true, if_false]
    · exact Or.inr ⟨i, hi, by omega⟩
    · by_cases hc : i = 0
      · left; omega
      · exact Or.inr ⟨i, hi, by rw [if_neg hc]; omega⟩

def redRows (lb : Nat) : Bool → Nat → List Nat → List Row
  | _, _, [] => []
  | first, gb, p :: ps => (fun t => reduceBlock lb gb p t first ps.isEmpty) :: redRows lb false (gb / (p + 1)) ps

def midRows (lb M : Nat) : Bool → Nat → List Nat → List Row
  | _, _, [] => []
  | first, g, p :: ps => (fun t => middleBlock lb M g p t first) :: midRows lb M false (g * (p + 1)) ps

def gatRows (lb : Nat) : Nat → List Nat → List Row
  | _, [] => []
  | g, p :: ps => (fun t => gatherBlock2 lb g p t) :: gatRows lb (g * (p + 1)) ps

theorem redRows_columns (lb t : Nat) (ps : List Nat) : ∀ first gb, reduceSteps lb t first gb ps = columns (redRows lb first gb ps) t := by
  induction ps with
  | nil => intro first gb; rfl
  | cons p ps ih => intro first gb; rw [reduceSteps, redRows, ih]; rfl

theorem midRows_columns (lb M t : Nat) (ps : List Nat) : ∀ first g, midList lb M t first g ps = columns (midRows lb M first g ps) t := by
  induction ps with
  | nil => intro first g; rfl
  | cons p ps ih => intro first g; rw [midList, midRows, ih]; rfl

theorem gatRows_columns (lb t : Nat) (ps : List Nat) : ∀ g, gatherSteps2 lb t g ps = columns (gatRows lb g ps) t := by
  induction ps with
  | nil => intro g; rfl
  | cons p ps ih => intro g; rw [gatherSteps2, gatRows, ih]; rfl

theorem gatRows_prunes (lb root : Nat) (hr : root < lb) (ps : List Nat) : ∀ g, 0 < g → g * factor ps = lb →
    Prunes lb root (gatRows lb g ps ++ [fun _ => allreduceLast lb]) fun v => Level lb g v ∧ Held lb root g g 1 v := by
  induction ps with
  | nil =>
    intro g _ e
    have : g = lb := by simpa [factor] using e
    subst this
    exact last_prunes g root hr
  | cons p ps ih =>
    intro g hg hlb
    rw [factor_cons, ← Nat.mul_assoc] at hlb
    exact gather2_prunes (gatherLike2 lb g p hg ⟨_, hlb.symm⟩) root _ (by simp) (ih _ (Nat.mul_pos hg (by omega)) hlb)

theorem gatRows_wf (lb : Nat) (ps : List Nat) : ∀ g, 0 < g → g * factor ps = lb → ∀ prev top : Nat → Nat, (∀ t < lb, 2 * lb ≤ prev t) →
    WfRows lb prev top (gatRows lb g ps ++ [fun _ => allreduceLast lb]) := by
  induction ps with
  | nil =>
    intro g _ _ prev top hp
    exact last_wf lb prev top hp
  | cons p ps ih =>
    intro g hg hlb prev top hp
    rw [factor_cons, ← Nat.mul_assoc] at hlb
    refine wf_cons lb prev top _ _ (by simp) (gather_wf (gatherLike2 lb g p hg ⟨_, hlb.symm⟩) prev top hp)
      (ih _ (Nat.mul_pos hg (by omega)) hlb _ _ fun t _ => ?_)
    simp [gatherBlock2, Recursive.mk]

theorem midRows_prunes (lb M root : Nat) (hM : 0 < M) (hMl : M ∣ lb) (rest : List Row) (hne : rest ≠ [])
    (hrest : Prunes lb root rest fun v => Level lb M v ∧ Held lb root M M 1 v) (ps : List Nat) (hp : ∀ p, p ∈ ps → 0 < p) :
    ∀ (first : Bool) g, (first = true → ps ≠ []) → 0 < g → g * factor ps = M →
    Prunes lb root (midRows lb M first g ps ++ rest) fun v => Level lb M v ∧ Held lb root g M (if first then 0 else 1) v := by
  induction ps with
  | nil =>
    intro first g hf _ e
    have : g = M := by simpa [factor] using e
    subst this
    cases first with
    | false => exact hrest
    | true => exact absurd rfl (hf rfl)
  | cons p ps ih =>
    intro first g _ hg e
    rw [factor_cons, ← Nat.mul_assoc] at e
    have hpp := hp p List.mem_cons_self
    have hd : g * (p + 1) ∣ M := ⟨_, e.symm⟩
    exact middle_prunes hM hd hMl (middleLike lb M g p first hpp hg hM hd hMl) (middle_ports lb M g p first hg (Nat.dvd_trans hd hMl))
      (middle_sources p hpp first) root _ (by simp [hne])
      (ih (fun q hq => hp q (List.mem_cons_of_mem _ hq)) false _ (fun h => by cases h) (Nat.mul_pos hg (by omega)) e)

theorem redRows_prunes (lb M root : Nat) (hM : 0 < M) (rest : List Row) (hne : rest ≠ []) (hrest : Prunes lb root rest (Full lb M 1))
    (ps : List Nat) (hps : ps ≠ []) (hp : ∀ p, p ∈ ps → 0 < p) : ∀ (first : Bool) gb, gb = M * factor ps → gb ∣ lb →
    Prunes lb root (redRows lb first gb ps ++ rest) (Full lb gb (if first then 0 else 2)) := by
  induction ps with
  | nil => exact absurd rfl hps
  | cons p ps ih =>
    intro first gb hgb hd
    obtain ⟨g, hgdef⟩ : ∃ g, g = M * factor ps := ⟨_, rfl⟩
    have hg : 0 < g := by rw [hgdef]; exact Nat.mul_pos hM (factor_pos ps)
    have hgb2 : gb = g * (p + 1) := by rw [hgb, factor_cons, hgdef]; ring
    subst hgb2
    have hgn : g * (p + 1) / (p + 1) = g := Nat.mul_div_cancel _ (by omega)
    have hpp := hp p List.mem_cons_self
    refine reduce_prunes (reduceLike lb g p first ps.isEmpty hpp hg hd) (reduce_ports lb g p first ps.isEmpty hg hd)
      ((reduce_sources p first ps.isEmpty).resolve_right (by omega)) root _ (by simp [hne]) ?_
    rw [hgn]
    cases ps with
    | nil =>
      have : g = M := by rw [hgdef]; simp [factor]
      rw [this]
      exact hrest
    | cons p' ps' =>
      exact ih (by simp) (fun q hq => hp q (List.mem_cons_of_mem _ hq)) false g hgdef (Nat.dvd_trans ⟨p + 1, rfl⟩ hd)

/-! ### Lines that come back -/

/-- In the regions from `m` on only lines of the own group are needed. -/
def Clear (lb m W : Nat) (v : Nat → Vals) : Prop :=
  ∀ t < lb, ∀ r, m ≤ r → ∀ n < lb, need (v t) (r * lb + n) = true → n / W = t / W

def Clears (lb root m W : Nat) (rows : List Row) : Prop :=
  ∀ rn vn, prune lb root false rows = some (rn, vn) → Clear lb m W vn

theorem prune_length (N root : Nat) (row : Row) (rest rn : List Row) (v : Nat → Vals) (h : prune N root false (row :: rest) = some (rn, v))
    (t : Nat) : (v t).length = (row t).length := by
  cases rest with
  | nil =>
    rw [prune] at h
    simp only [Option.some.injEq, Prod.mk.injEq] at h
    rw [← h.2]
    simp [descend_length, seed]
  | cons next rest =>
    rw [prune] at h
    split at h
    · cases h
    · simp only [Bool.false_eq_true, if_false] at h
      split at h
      · simp only [Option.some.injEq, Prod.mk.injEq] at h
        rw [← h.2, exchange_length]
      · cases h

section
variable {lb K sr ar g p W m : Nat} {ρ σ : Nat → Nat} {f : Nat → Nat → LineD}

theorem clear_local (h : ReduceLike lb K sr ar g p W (fun t => t / W * W) ρ σ f) (hW : 0 < W) (vn : Nat → Vals) (hc : Clear lb m W vn)
    (t : Nat) (ht : t < lb) (r : Nat) (hm : m ≤ r) (hr : r < K) (n : Nat) (hn : n < lb)
    (hd : need (descend (Recursive.mk (K * lb) (f t)) (inherit (Recursive.mk (K * lb) (f t)) (vn t))) (r * lb + n) = true) : n / W = t / W := by
  rw [reduce_local h t ht (vn t) r n hn hr] at hd
  rcases hd with hd | ⟨_, h2, _⟩
  · exact hc t ht r hm n hn hd
  · exact (div_eq_iff' W n (t / W) hW).2 h2

theorem clears_cons (h : ReduceLike lb K sr ar g p W (fun t => t / W * W) ρ σ f) (hp : Ports lb K sr f) (hW : 0 < W) (hsr : sr < m)
    (root : Nat) (rest : List Row) (hne : rest ≠ []) (hrest : Clears lb root m W rest) :
    Clears lb root m W ((fun t => Recursive.mk (K * lb) (f t)) :: rest) := by
  intro rn v hv
  have hex := tidy_ok (reduce_tidy h hp) h.exchange
  cases hpn : prune lb root false rest with
  | none =>
    cases rest with
    | nil => exact absurd rfl hne
    | cons next rest =>
      rw [prune, hpn] at hv
      cases hv
  | some pr =>
    obtain ⟨rn', vn⟩ := pr
    have hc := hrest _ _ hpn
    rw [prune_cons lb root _ rest rn' vn hne hpn hex, Option.some.injEq, Prod.mk.injEq] at hv
    obtain ⟨_, rfl⟩ := hv
    intro t ht r hm n hn hd
    have hlen : (Recursive.mk (K * lb) (f t)).length = K * lb := by simp [Recursive.mk]
    have hrK : r < K := by
      have := need_lt _ _ hd
      rw [exchange_length, hlen] at this
      by_contra hc
      have : K * lb ≤ r * lb := Nat.mul_le_mul_right lb (by omega)
      omega
    rw [tidy_needs (reduce_tidy h hp) h.exchange _ t _ ht (by rw [hlen]; exact region_lt lb K r n hn hrK)] at hd
    rcases hd with ⟨q, hq, hqt, h1, h2, _⟩ | hd
    · exfalso
      have hown := h.own q hq
      have : (sr + 1) * lb ≤ r * lb := Nat.mul_le_mul_right lb (by omega)
      have e : (sr + 1) * lb = sr * lb + lb := by ring
      by_cases hr : Rel g (p + 1) t q
      · simp only [hr, if_true] at h1 h2
        omega
      · simp only [hr, if_false] at h1 h2
        omega
    · exact clear_local h hW vn hc t ht r hm hrK n hn hd

theorem reduce_sound (h : ReduceLike lb K sr ar g p W (fun t => t / W * W) ρ σ f) (hp : Ports lb K sr f) (hW : 0 < W)
    (prev top : Nat → Nat) (hprev : ∀ t < lb, sr * lb + lb ≤ prev t)
    (hm : (∀ t < lb, top t ≤ prev t) ∨ ((∀ t < lb, m * lb ≤ prev t) ∧ ∀ r, m ≤ r → r < K → ∃ i < p, ρ i = r))
    (root : Nat) (rest : List Row) (hne : rest ≠ []) (hrest : Clears lb root m W rest)
    (hs : SoundRows lb root (fun _ => K * lb) (fun t => max (top t) (K * lb)) rest) :
    SoundRows lb root prev top ((fun t => Recursive.mk (K * lb) (f t)) :: rest) := by
  have hlen : ∀ t, (Recursive.mk (K * lb) (f t)).length = K * lb := by intro t; simp [Recursive.mk]
  have hwf := reduce_wf h hp prev prev (fun t _ => Or.inr (Nat.le_refl _)) hprev
  cases rest with
  | nil => exact absurd rfl hne
  | cons next rest =>
    refine ⟨⟨_, _, hwf⟩, ?_, by simpa only [hlen] using hs⟩
    intro rn vn hpn t ht
    have hl := hwf.loc t ht
    refine ⟨hl.range, hl.later, ?_, hl.unsent⟩
    intro j l hj hd h1 h2 h3
    exfalso
    rcases hm with hm | ⟨hm1, hm2⟩
    · have := hm t ht
      omega
    · obtain ⟨hjK, rfl⟩ := Forward.mk_get _ _ _ _ hj
      have hlb : 0 < lb := by omega
      have hjd : j / lb * lb + j % lb = j := Nat.div_add_mod' j lb
      have hmj : m ≤ j / lb := (Nat.le_div_iff_mul_le hlb).mpr (by have := hm1 t ht; omega)
      have hjK' : j / lb < K := (Nat.div_lt_iff_lt_mul hlb).mpr hjK
      have hn := Nat.mod_lt j hlb
      rw [← hjd] at hd
      have hin := clear_local h hW vn (hrest _ _ hpn) t ht (j / lb) hmj hjK' (j % lb) hn hd
      obtain ⟨i, hi, hρ⟩ := hm2 (j / lb) hmj hjK'
      have ho := (div_eq_iff' W (j % lb) (t / W) hW).1 hin
      have := (h.recv (partner g (g * (p + 1)) t i) t j ht hjK).mpr ⟨i, hi, hρ.symm, ho.1, ho.2, rfl⟩
      rw [h3] at this
      cases this

end

theorem midRows_sound (lb M root : Nat) (hM : 0 < M) (hMl : M ∣ lb) (rest : List Row) (hne : rest ≠ []) (hclear : Clears lb root 2 M rest)
    (hrest : ∀ prev top : Nat → Nat, (∀ t < lb, 2 * lb ≤ prev t) → SoundRows lb root prev top rest) (ps : List Nat) (hp : ∀ p, p ∈ ps → 0 < p) :
    ∀ (first : Bool) g, 0 < g → g * factor ps = M → Clears lb root 2 M (midRows lb M first g ps ++ rest) ∧
    ∀ prev top : Nat → Nat, (∀ t < lb, 2 * lb ≤ prev t) → (first = true → ∀ t < lb, top t ≤ prev t) →
    SoundRows lb root prev top (midRows lb M first g ps ++ rest) := by
  induction ps with
  | nil => intro first g _ _; exact ⟨hclear, fun prev top h1 _ => hrest prev top h1⟩
  | cons p ps ih =>
    intro first g hg e
    rw [factor_cons, ← Nat.mul_assoc] at e
    have hpp := hp p List.mem_cons_self
    have hd : g * (p + 1) ∣ M := ⟨_, e.symm⟩
    have h2lb : 2 * lb ≤ (p + 1) * lb := Nat.mul_le_mul_right lb (by omega)
    have hmul : (p + 2) * lb = (p + 1) * lb + lb := by ring
    obtain ⟨c1, c2⟩ := ih (fun q hq => hp q (List.mem_cons_of_mem _ hq)) false _ (Nat.mul_pos hg (by omega)) e
    have hL := middleLike lb M g p first hpp hg hM hd hMl
    have hP := middle_ports lb M g p first hg (Nat.dvd_trans hd hMl)
    constructor
    · exact clears_cons hL hP hM (by cases first <;> simp) root _ (by simp [hne]) c1
    · intro prev top h1 h2
      refine reduce_sound hL hP hM prev top ?_ ?_ root _ (by simp [hne]) c1 (c2 _ _ ?_ (fun h => by cases h))
      · intro t ht
        have := h1 t ht
        cases first <;> simp only [Bool.false_eq_true, if_true, if_false] <;> omega
      · cases first with
        | true => exact Or.inl (h2 rfl)
        | false =>
          refine Or.inr ⟨h1, fun r hr hrK => ⟨r - 2, ?_, ?_⟩⟩
          · simp only [Bool.false_eq_true, if_false] at hrK
            omega
          · simp only [midRho, Bool.false_eq_true, if_false]
            omega
      · intro t ht
        cases first <;> simp only [Bool.false_eq_true, if_true, if_false] <;> omega

theorem redRows_sound (lb M root : Nat) (hM : 0 < M) (rest : List Row) (hne : rest ≠ []) (hclear : Clears lb root 2 M rest)
    (hrest : ∀ prev top : Nat → Nat, (∀ t < lb, 2 * lb ≤ prev t) → SoundRows lb root prev top rest)
    (ps : List Nat) (hps : ps ≠ []) (hp : ∀ p, p ∈ ps → 0 < p) :
    ∀ (first : Bool) gb, gb = M * factor ps → gb ∣ lb → Clears lb root 3 gb (redRows lb first gb ps ++ rest) ∧
    ∀ prev top : Nat → Nat, (∀ t < lb, (if first then 0 else 2) * lb + lb ≤ prev t) → (first = true → ∀ t < lb, top t ≤ prev t) →
    SoundRows lb root prev top (redRows lb first gb ps ++ rest) := by
  induction ps with
  | nil => exact absurd rfl hps
  | cons p ps ih =>
    intro first gb hgb hd
    obtain ⟨g, hgdef⟩ : ∃ g, g = M * factor ps := ⟨_, rfl⟩
    have hg : 0 < g := by rw [hgdef]; exact Nat.mul_pos hM (factor_pos ps)
    have hgb2 : gb = g * (p + 1) := by rw [hgb, factor_cons, hgdef]; ring
    subst hgb2
    have hgn : g * (p + 1) / (p + 1) = g := Nat.mul_div_cancel _ (by omega)
    have hpp := hp p List.mem_cons_self
    have hmul : (3 + p) * lb = (2 + p) * lb + lb := by ring
    have h2lb : 3 * lb ≤ (2 + p) * lb := Nat.mul_le_mul_right lb (by omega)
    have hL := reduceLike lb g p first ps.isEmpty hpp hg hd
    have hP := reduce_ports lb g p first ps.isEmpty hg hd
    have hnext : Clears lb root 3 g (redRows lb false g ps ++ rest) ∧
        ∀ top : Nat → Nat, SoundRows lb root (fun _ => (if ps.isEmpty = true then 2 + p else 3 + p) * lb) top (redRows lb false g ps ++ rest) := by
      cases ps with
      | nil =>
        have hgM : g = M := by rw [hgdef]; simp [factor]
        refine ⟨?_, fun top => hrest _ _ fun t _ => ?_⟩
        · intro rn vn h t ht r hr n hn hd
          rw [hgM]
          exact hclear rn vn h t ht r (by omega) n hn hd
        · simp only [List.isEmpty_nil, if_true]
          omega
      | cons p2 ps2 =>
        obtain ⟨c1, c2⟩ := ih (by simp) (fun q hq => hp q (List.mem_cons_of_mem _ hq)) false g hgdef (Nat.dvd_trans ⟨p + 1, rfl⟩ hd)
        refine ⟨c1, fun top => c2 _ _ (fun t _ => ?_) fun h => by cases h⟩
        simp only [List.isEmpty_cons, Bool.false_eq_true, if_false]
        omega
    obtain ⟨c1, c2⟩ := hnext
    have hne2 : redRows lb false g ps ++ rest ≠ [] := by simp [hne]
    have hrow : redRows lb first (g * (p + 1)) (p :: ps) ++ rest =
        (fun t => reduceBlock lb (g * (p + 1)) p t first ps.isEmpty) :: (redRows lb false g ps ++ rest) := by
      rw [redRows, hgn]
      rfl
    rw [hrow]
    constructor
    · have := clears_cons hL hP hg (m := 3) (by cases first <;> simp) root _ hne2 c1
      intro rn vn h t ht r hr n hn hd
      have e := this rn vn h t ht r hr n hn hd
      rw [← Nat.div_div_eq_div_mul, ← Nat.div_div_eq_div_mul, e]
    · intro prev top h1 h2
      refine reduce_sound hL hP hg prev top h1 (m := 3) ?_ root _ hne2 c1 (c2 _)
      cases first with
      | true => exact Or.inl (h2 rfl)
      | false =>
        refine Or.inr ⟨fun t ht => ?_, fun r hr hrK => ⟨r - 3, ?_, ?_⟩⟩
        · have := h1 t ht
          simp only [Bool.false_eq_true, if_false] at this
          omega
        · cases hb : ps.isEmpty <;> simp only [hb, Bool.false_eq_true, if_true, if_false] at hrK <;> omega
        · cases hb : ps.isEmpty <;> simp only [hb, Bool.false_eq_true, if_true, if_false] at hrK <;>
            simp only [rho, Bool.false_eq_true, if_true, if_false]
          · omega
          · rw [if_neg (by omega)]
            omega

/-- The rows of the allreduce: the conditions of the passes for every root. -/
theorem allreduce_rows (negs mids gs : List Nat) (hne : mids ++ gs ≠ []) (hn : ∀ p, p ∈ negs → 0 < p) (hm : ∀ p, p ∈ mids → 0 < p)
    (hg : ∀ p, p ∈ gs → 0 < p) (hbal : (negs.map fun p => p + 1).prod = (gs.map fun p => p + 1).prod) :
    ∃ r0 rs, (∀ t, generate false ((negs.map fun p : Nat => -(p : Int)) ++ ((mids ++ gs).map fun p : Nat => (p : Int))) t =
        some (columns (r0 :: rs) t)) ∧
      (∀ root, SoundRows ((mids ++ gs).map (· + 1)).prod root (fun t => (r0 t).length) (fun t => (r0 t).length) rs) ∧
      ∀ root < ((mids ++ gs).map (· + 1)).prod, ∃ rows' v, prune ((mids ++ gs).map (· + 1)).prod root true (r0 :: rs) = some (rows', v) ∧
        Unmixed ((mids ++ gs).map (· + 1)).prod rows'.tail := by
  obtain ⟨lb, hlb⟩ : ∃ lb, lb = factor (mids ++ gs) := ⟨_, rfl⟩
  have hprod : ((mids ++ gs).map (· + 1)).prod = lb := hlb.symm
  rw [hprod]
  have hbal : factor negs = factor gs := hbal
  obtain ⟨M, hM⟩ : ∃ M, M = factor mids := ⟨_, rfl⟩
  have hMpos : 0 < M := by rw [hM]; exact factor_pos _
  have hlbM : lb = M * factor negs := by rw [hlb, factor_append, hM, hbal]
  have hMl : M ∣ lb := ⟨_, hlbM⟩
  have hmid : middleSize lb negs = M := by rw [hlbM]; exact middleSize_eq negs M
  have hmne : negs.isEmpty = true → mids ≠ [] := by
    intro he
    cases negs with
    | cons p ps => cases he
    | nil =>
      intro hmn
      subst hmn
      cases gs with
      | nil => exact hne rfl
      | cons p ps =>
        have h1 : factor [] = 1 := rfl
        rw [h1, factor_cons] at hbal
        have h2 := hg p List.mem_cons_self
        have h3 : 2 * 1 ≤ (p + 1) * factor ps := Nat.mul_le_mul (by omega) (factor_pos ps)
        omega
  obtain ⟨tail, htail⟩ : ∃ tail, tail = gatRows lb M gs ++ [fun _ => allreduceLast lb] := ⟨_, rfl⟩
  have htne : tail ≠ [] := by rw [htail]; simp
  obtain ⟨mid, hmidr⟩ : ∃ mid, mid = midRows lb M negs.isEmpty 1 mids ++ tail := ⟨_, rfl⟩
  have hmidne : mid ≠ [] := by rw [hmidr]; simp [htne]
  have hsched : ∀ t, allreduce negs (mids ++ gs) t = columns ((fun _ => reduceFirst lb) :: (redRows lb true lb negs ++ mid)) t := by
    intro t
    unfold allreduce
    simp only [← hlb, hmid, middleSteps_eq lb M t mids gs hm negs.isEmpty 1 (by omega) (by rw [hM]; simp)]
    rw [redRows_columns, midRows_columns, gatRows_columns, hmidr, htail]
    simp [columns]
  have hgM : M * factor gs = lb := by rw [← hbal]; exact hlbM.symm
  have htw : ∀ prev top : Nat → Nat, (∀ t < lb, 2 * lb ≤ prev t) → WfRows lb prev top tail := by
    intro prev top h
    rw [htail]; exact gatRows_wf lb gs M hMpos hgM prev top h
  have hfirst : (reduceFirst lb).length = 2 * lb := by simp [reduceFirst, Recursive.mk]
  have hgen := generate_allreduce negs mids gs hne hn hm hg
  refine ⟨fun _ => reduceFirst lb, redRows lb true lb negs ++ mid, fun t => by rw [hgen t, hsched t], fun root => ?_, fun root hroot => ?_⟩
  · have htc : Clears lb root 2 M tail := by
      intro rn vn h t ht r hr n hn hd
      exfalso
      have h1 := need_lt _ _ hd
      have h2 : (vn t).length = 2 * lb := by
        rw [htail] at h
        cases gs with
        | nil => rw [prune_length lb root _ _ rn vn h t]; simp [allreduceLast, Recursive.mk]
        | cons p ps => rw [prune_length lb root _ _ rn vn h t]; simp [gatherBlock2, Recursive.mk]
      have h3 : 2 * lb ≤ r * lb := Nat.mul_le_mul_right lb hr
      omega
    obtain ⟨mc, ms⟩ := midRows_sound lb M root hMpos hMl tail htne htc (fun prev top h => WfRows.sound root _ (htw prev top h)) mids hm
      negs.isEmpty 1 (by omega) (by rw [hM]; simp)
    rw [← hmidr] at mc ms
    have hw : SoundRows lb root (fun _ => (reduceFirst lb).length) (fun _ => (reduceFirst lb).length) (redRows lb true lb negs ++ mid) := by
      cases negs with
      | nil => exact ms _ _ (fun t _ => hfirst.ge) fun _ t _ => Nat.le_refl _
      | cons p ps =>
        refine (redRows_sound lb M root hMpos mid hmidne mc (fun prev top h => ms prev top h fun h => by cases h) (p :: ps) (by simp) hn true lb
          hlbM (Nat.dvd_refl lb)).2 _ _ ?_ fun _ t _ => Nat.le_refl _
        intro t _
        simp only [if_true]
        omega
    exact hw
  · have htp : Prunes lb root tail fun v => Level lb M v ∧ Held lb root M M 1 v := by
      rw [htail]; exact gatRows_prunes lb root hroot gs M hMpos hgM
    have hmp := midRows_prunes lb M root hMpos hMl tail htne htp mids hm negs.isEmpty 1 hmne (by omega) (by rw [hM]; simp)
    rw [← hmidr] at hmp
    have hP : ∃ P, Prunes lb root (redRows lb true lb negs ++ mid) P := by
      cases negs with
      | nil => exact ⟨_, hmp⟩
      | cons p ps =>
        refine ⟨_, redRows_prunes lb M root hMpos mid hmidne ?_ (p :: ps) (by simp) hn true lb hlbM (Nat.dvd_refl lb)⟩
        obtain ⟨rn, v, a, b, _, c⟩ := hmp
        refine ⟨rn, v, a, b, ?_⟩
        intro t ht n hnl e
        exact c t ht (by rw [Nat.mod_one, Nat.mod_one]) n hnl e
    obtain ⟨P, hP⟩ := hP
    exact prunes_first lb root (fun _ => reduceFirst lb) _ (by simp [hmidne]) _ hP

/-- C37 for reduces made of the recursive allreduce, for every list of numbers of ports of which `generate` makes a correct schedule: for every
root the pass succeeds, it drops a send if and only if it drops the matching receive, the pruned schedule runs to completion and the root gets the sums. -/
theorem reduce_recursive (negs mids gs : List Nat) (hne : mids ++ gs ≠ []) (hn : ∀ p, p ∈ negs → 0 < p) (hm : ∀ p, p ∈ mids → 0 < p)
    (hg : ∀ p, p ∈ gs → 0 < p) (hbal : (negs.map fun p => p + 1).prod = (gs.map fun p => p + 1).prod)
    (root : Nat) (hroot : root < ((mids ++ gs).map (· + 1)).prod) :
    ∃ rows rows' v, (∀ t, generate false ((negs.map fun p : Nat => -(p : Int)) ++ ((mids ++ gs).map fun p : Nat => (p : Int))) t =
        some (columns rows t)) ∧
      prune ((mids ++ gs).map (· + 1)).prod root true rows = some (rows', v) ∧
      (∀ row' ∈ rows'.tail, ∀ q < ((mids ++ gs).map (· + 1)).prod, ∀ t < ((mids ++ gs).map (· + 1)).prod, q ≠ t →
        sendFlags (row' q) t = recvFlags (row' t) q) ∧
      ∀ (V : Type) [AddCommMonoid V] (inp junk : Nat → Nat → V),
        (∃ out, ExecD ((mids ++ gs).map (· + 1)).prod copyOut rows' inp junk out) ∧
          ∀ out, ExecD ((mids ++ gs).map (· + 1)).prod copyOut rows' inp junk out →
            ∀ b < ((mids ++ gs).map (· + 1)).prod, out root b = some (∑ s ∈ Finset.range ((mids ++ gs).map (· + 1)).prod, inp s b) := by
  obtain ⟨r0, rs, a, b, c⟩ := allreduce_rows negs mids gs hne hn hm hg hbal
  obtain ⟨rows', v, f1, f2⟩ := c root hroot
  refine ⟨r0 :: rs, rows', v, a, f1, drops_match_sound _ root _ _ rows' v _ _ (b root) f1, fun V _ inp junk => ?_⟩
  obtain ⟨sched, g1, g2⟩ := allreduce_correct (V := V) negs mids gs hne hn hm hg hbal
  obtain ⟨⟨out, h1⟩, h2⟩ := computes_congr (fun t _ => Option.some.inj ((g1 t).symm.trans (a t))) g2 inp junk
  obtain ⟨k1, k2⟩ := backward_sound _ root hroot _ _ rows' v (b root) f1 f2 inp junk out h1
  exact ⟨k1, fun out' h b hb => by rw [k2 out' h]; exact h2 out h1 root b hroot hb⟩

example := reduce_recursive [2, 1, 1] [3] [11] (by decide) (by decide) (by decide) (by decide) (by decide) 7 (by decide)

example := reduce_recursive [] [1, 2] [] (by decide) (by decide) (by decide) (by decide) (by decide) 4 (by decide)

end ExtMpi.Rooted
