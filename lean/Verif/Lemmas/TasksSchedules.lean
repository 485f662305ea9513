import Verif.Lemmas.TasksAgree
import Verif.Props.RawCode
/-! # The schedules of the allgather with several processes per node -/
namespace ExtMpi.TasksNode
open RawCode Schedule RankPerm

/-! ## Blocks without messages -/

/-- No partner is a node. -/
def Quiet (b : Block) : Prop := ∀ l, l ∈ b → ∀ e, e ∈ l.sendto ++ l.recvfrom → e.1 = -1

theorem Quiet.good {N : Nat} {b : Block} (h : Quiet b) : Good N b := by
  intro l hl e he
  have := h l hl e he
  omega

theorem Quiet.recvIdx {b : Block} (h : Quiet b) (q : Nat) : recvIdx b q = [] := by
  by_contra hne
  obtain ⟨l, hl, e, he, h2⟩ := recvIdx_ne_nil.1 hne
  have := h l hl e (List.mem_append_right _ he)
  omega

theorem Quiet.sendIdx {b : Block} (h : Quiet b) (q : Nat) : sendIdx b q = [] := by
  by_contra hne
  obtain ⟨l, hl, e, he, h2⟩ := sendIdx_ne_nil.1 hne
  have := h l hl e (List.mem_append_left _ he)
  omega

theorem messages_quiet {N : Nat} {bs : Nat → Block} (h : ∀ a, a < N → Quiet (bs a)) : Messages N bs fun _ _ => False := by
  intro a q ha hq _
  simp [(h q hq).recvIdx, (h a ha).sendIdx]

theorem Quiet.separate {N t : Nat} {b : Block} (h : Quiet b) : Separate N t b := by
  intro q r n _ _ _ hc
  obtain ⟨n0, ns, h1, _⟩ := hc
  rw [h.recvIdx] at h1
  cases h1

theorem Quiet.lineOk {N : Nat} {b : Block} (h : Quiet b) (hf : ∀ l, l ∈ b → l.frac < N) : ∀ l, l ∈ b → LineOk N l := by
  intro l hl
  refine ⟨hf l hl, fun e he => ?_, fun e he => ?_⟩
  · have := h l hl e (List.mem_append_left _ he); omega
  · have := h l hl e (List.mem_append_right _ he); omega

/-! ## Recursive algorithm -/

theorem quiet_first (lb t : Nat) : Quiet (Recursive.gatherFirst lb t) := by
  intro l hl e he
  obtain ⟨x, _, rfl⟩ := List.mem_map.1 hl
  dsimp only at he
  split at he
  · rw [List.mem_singleton.1 he]
  · cases he

theorem quiet_last (lb : Nat) : Quiet (Recursive.gatherLast lb) := by
  intro l hl e he
  obtain ⟨x, _, rfl⟩ := List.mem_map.1 hl
  rw [List.append_nil] at he
  rw [List.mem_singleton.1 he]

/-- The steps one by one. -/
theorem steps_get (lb : Nat) (ps : List Nat) : ∀ gb, 0 < gb → gb * Recursive.factor ps ∣ lb → ∀ k, k < ps.length →
    ∃ g p, 0 < g ∧ g * (p + 1) ∣ lb ∧ ∀ t, (Recursive.gatherSteps lb t gb ps)[k]? = some (Recursive.gatherBlock lb g p t) := by
  induction ps with
  | nil => intro gb _ _ k hk; simp at hk
  | cons p ps ih =>
    intro gb hgb hd k hk
    have e : gb * Recursive.factor (p :: ps) = gb * (p + 1) * Recursive.factor ps := by
      rw [Recursive.factor_cons, Nat.mul_assoc]
    cases k with
    | zero => exact ⟨gb, p, hgb, Nat.dvd_trans ⟨_, e⟩ hd, fun t => rfl⟩
    | succ k =>
      obtain ⟨g, p', h1, h2, h3⟩ := ih (gb * (p + 1)) (Nat.mul_pos hgb (by omega)) (by rw [← e]; exact hd) k
        (by rw [List.length_cons] at hk; omega)
      exact ⟨g, p', h1, h2, fun t => by rw [Recursive.gatherSteps, List.getElem?_cons_succ]; exact h3 t⟩

theorem steps_length (lb t : Nat) (ps : List Nat) : ∀ gb, (Recursive.gatherSteps lb t gb ps).length = ps.length := by
  induction ps with
  | nil => intro gb; rfl
  | cons p ps ih => intro gb; rw [Recursive.gatherSteps, List.length_cons, List.length_cons, ih]

section
variable {lb g p : Nat} (hg : 0 < g) (hd : g * (p + 1) ∣ lb)
include hg hd

/-- Partners of a step are other nodes. -/
theorem step_entries {t : Nat} (ht : t < lb) : ∀ l, l ∈ Recursive.gatherBlock lb g p t →
    l.frac < lb ∧ (∀ e, e ∈ l.sendto ++ l.recvfrom → 0 ≤ e.1 ∧ e.1 < (lb : Int)) ∧ ∀ e, e ∈ l.recvfrom → e.1 ≠ (t : Int) := by
  intro l hl
  obtain ⟨x, hx, rfl⟩ := List.mem_map.1 hl
  have hlt : ∀ i, ((Recursive.partner g (g * (p + 1)) t i : Nat) : Int) < lb := fun i => by
    have := Recursive.partner_lt g (p + 1) lb t i hg (by omega) hd ht
    omega
  refine ⟨List.mem_range.1 hx, fun e he => ?_, fun e he => ?_⟩
  · rcases List.mem_append.1 he with he | he
    · dsimp only at he
      unfold Recursive.gatherSend at he
      split at he
      · obtain ⟨i, _, rfl⟩ := List.mem_map.1 he
        exact ⟨Int.natCast_nonneg _, hlt i⟩
      · cases he
    · dsimp only at he
      unfold Recursive.gatherRecv at he
      split at he
      · rw [List.mem_singleton.1 he]
        exact ⟨Int.natCast_nonneg _, hlt _⟩
      · cases he
  · dsimp only at he
    unfold Recursive.gatherRecv at he
    split at he
    · rename_i h
      rw [List.mem_singleton.1 he]
      dsimp only
      rw [Recursive.partner_index g (p + 1) t x hg (by omega) h.1 h.2]
      intro e
      have e := Int.ofNat.inj e
      apply h.2
      have h2 : (x / g * g + t % g) / g = x / g := by
        rw [Nat.add_comm, Nat.add_mul_div_right _ _ hg, Nat.div_eq_of_lt (Nat.mod_lt _ hg), Nat.zero_add]
      rw [← h2, e]
    · cases he

theorem step_lineOk {t : Nat} (ht : t < lb) : ∀ l, l ∈ Recursive.gatherBlock lb g p t → LineOk lb l := fun l hl =>
  ⟨(step_entries hg hd ht l hl).1, fun e he => ((step_entries hg hd ht l hl).2.1 e (List.mem_append_left _ he)).2,
    fun e he => ((step_entries hg hd ht l hl).2.1 e (List.mem_append_right _ he)).2⟩

theorem step_exchange : Exchange lb (fun t => Recursive.gatherBlock lb g p t) (fun q _ => 0 + q / g * g) (fun q _ => 0 + q / g * g)
    (fun q t => if Recursive.Rel g (p + 1) q t then g else 0) :=
  (Recursive.gatherLike1 lb g p hg hd).exchange

theorem step_separate {t : Nat} (ht : t < lb) : Separate lb t (Recursive.gatherBlock lb g p t) := by
  have hself : recvIdx (Recursive.gatherBlock lb g p t) t = [] := by
    by_contra hne
    obtain ⟨l, hl, e, he, h2⟩ := recvIdx_ne_nil.1 hne
    exact (step_entries hg hd ht l hl).2.2 e he h2
  have hx := step_exchange hg hd
  intro q r n hq hr hne hcq hcr
  have no : ∀ {x : Nat}, Covers (Recursive.gatherBlock lb g p t) x n → x ≠ t := by
    rintro x ⟨n0, ns, h1, _⟩ rfl
    rw [hself] at h1
    cases h1
  have rng : ∀ {x : Nat}, x < lb → Covers (Recursive.gatherBlock lb g p t) x n →
      0 + x / g * g ≤ n ∧ n < 0 + x / g * g + (if Recursive.Rel g (p + 1) x t then g else 0) := by
    intro x hx' hc
    obtain ⟨n0, ns, h1, h2, h3⟩ := hc
    have h4 := hx.recv x t hx' ht (no ⟨n0, ns, h1, h2, h3⟩)
    rw [h1] at h4
    have hl := congrArg List.length h4
    rw [List.length_cons, List.length_range'] at hl
    generalize (if Recursive.Rel g (p + 1) x t then g else 0) = len at *
    cases len with
    | zero => omega
    | succ len =>
      rw [List.range'_succ] at h4
      have := (List.cons.inj h4).1
      omega
  obtain ⟨a1, a2⟩ := rng hq hcq
  obtain ⟨c1, c2⟩ := rng hr hcr
  exact absurd (hx.dis q r t n hq hr ht (no hcq) (no hcr) a1 a2 c1 c2) hne

theorem step_messages : Messages lb (fun t => Recursive.gatherBlock lb g p t) fun a q => Recursive.Rel g (p + 1) a q := by
  have h := messages_exchange (step_exchange hg hd)
  intro a q ha hq hne
  have := h a q ha hq hne
  dsimp only at this
  rw [this.1, this.2]
  split
  · rename_i hr; simp [hr]; omega
  · rename_i hr; simp [hr]
end

theorem rel_clique (g D a q c : Nat) (h : Recursive.Rel g D a q) : Recursive.Rel g D c q ↔ Recursive.Rel g D a c := by
  unfold Recursive.Rel at *
  rw [h.1, h.2]
  exact ⟨fun ⟨h1, h2⟩ => ⟨h1.symm, h2.symm⟩, fun ⟨h1, h2⟩ => ⟨h1.symm, h2.symm⟩⟩

/-- Every block of the schedule. -/
theorem allgather_blocks (ports : List Nat) {t : Nat} (ht : t < Recursive.factor ports) : ∀ b, b ∈ Recursive.allgather ports t →
    (∀ l, l ∈ b → LineOk (Recursive.factor ports) l) ∧ Separate (Recursive.factor ports) t b ∧ Good (Recursive.factor ports) b := by
  intro b hb
  have hpos := Recursive.factor_pos ports
  have hsh := (shape_allgather ports t b hb).frac hpos
  rw [Recursive.allgather] at hb
  rcases List.mem_cons.1 hb with rfl | hb
  · exact ⟨(quiet_first _ t).lineOk hsh, (quiet_first _ t).separate, (quiet_first _ t).good⟩
  rcases List.mem_append.1 hb with hb | hb
  · obtain ⟨k, hk⟩ := List.getElem?_of_mem hb
    have hlt := (List.getElem?_eq_some_iff.1 hk).1
    rw [steps_length] at hlt
    obtain ⟨g, p, h1, h2, h3⟩ := steps_get (Recursive.factor ports) ports 1 (by omega) (by rw [Nat.one_mul]) k hlt
    rw [h3] at hk
    cases hk
    refine ⟨step_lineOk h1 h2 ht, step_separate h1 h2 ht, fun l hl e he => ?_⟩
    have := (step_entries h1 h2 ht l hl).2.1 e he
    omega
  · rw [List.mem_singleton.1 hb] at hsh ⊢
    exact ⟨(quiet_last _).lineOk hsh, (quiet_last _).separate, (quiet_last _).good⟩

/-- Messages of the steps of the schedule: groups whose members all send to each other. -/
theorem allgather_messages (ports : List Nat) (k : Nat) : ∃ P : Nat → Nat → Prop,
    (∀ a q c, P a q → (P c q ↔ P a c)) ∧
    Messages (Recursive.factor ports) (fun t => (Recursive.allgather ports t).tail.getD k []) P := by
  have hq0 : Quiet [] := fun l hl => by cases hl
  have htail : ∀ t, (Recursive.allgather ports t).tail = Recursive.gatherSteps (Recursive.factor ports) t 1 ports ++
      [Recursive.gatherLast (Recursive.factor ports)] := fun t => rfl
  by_cases hk : k < ports.length
  · obtain ⟨g, p, h1, h2, h3⟩ := steps_get (Recursive.factor ports) ports 1 (by omega) (by rw [Nat.one_mul]) k hk
    refine ⟨fun a q => Recursive.Rel g (p + 1) a q, fun a q c h => rel_clique _ _ _ _ _ h, ?_⟩
    have e : (fun t => (Recursive.allgather ports t).tail.getD k []) = fun t => Recursive.gatherBlock (Recursive.factor ports) g p t := by
      funext t
      rw [htail, List.getD_eq_getElem?_getD, List.getElem?_append_left (by rw [steps_length]; exact hk), h3]
      rfl
    rw [e]
    exact step_messages h1 h2
  · refine ⟨fun _ _ => False, fun a q c h => h.elim, messages_quiet fun a _ => ?_⟩
    rw [htail, List.getD_eq_getElem?_getD, List.getElem?_append_right (by rw [steps_length]; omega), steps_length]
    cases k - ports.length with
    | zero => exact quiet_last _
    | succ j => exact hq0

/-! ## Cyclic algorithm -/

/-- The steps one by one. -/
theorem csteps_get (N : Nat) (ps : List Nat) (hp : ∀ p, p ∈ ps → 0 < p) : ∀ gb, 0 < gb → Cyclic.Suits N gb ps → ∀ k, k < ps.length →
    ∃ g p, 0 < g ∧ 0 < p ∧ (g < N → Cyclic.Tight N g p) ∧
      ∀ t, (Cyclic.gatherSteps N t gb (min gb N) ps).1[k]? = some (Cyclic.gatherBlock N g (min g N) p t) := by
  induction ps with
  | nil => intro gb _ _ k hk; simp at hk
  | cons p ps ih =>
    intro gb hgb hf k hk
    cases k with
    | zero => exact ⟨gb, p, hgb, hp p List.mem_cons_self, hf.1, fun t => rfl⟩
    | succ k =>
      have hmin : min (min gb N * (p + 1)) N = min (gb * (p + 1)) N := by
        have hge : gb ≤ gb * (p + 1) := Nat.le_mul_of_pos_right gb (by omega)
        by_cases c : gb < N
        · rw [Nat.min_eq_left (by omega : gb ≤ N)]
        · rw [Nat.min_eq_right (by omega : N ≤ gb)]
          have : N * 1 ≤ N * (p + 1) := Nat.mul_le_mul_left N (by omega)
          omega
      obtain ⟨g, p', h1, h2, h3, h4⟩ := ih (fun q hq => hp q (List.mem_cons_of_mem _ hq)) (gb * (p + 1))
        (Nat.mul_pos hgb (by omega)) hf.2 k (by rw [List.length_cons] at hk; omega)
      refine ⟨g, p', h1, h2, h3, fun t => ?_⟩
      rw [Cyclic.gatherSteps]
      simp only [hmin, List.getElem?_cons_succ]
      exact h4 t

theorem csteps_length (N t : Nat) (ps : List Nat) : ∀ gb L, (Cyclic.gatherSteps N t gb L ps).1.length = ps.length := by
  induction ps with
  | nil => intro gb L; rfl
  | cons p ps ih => intro gb L; rw [Cyclic.gatherSteps]; simp only [List.length_cons, ih]

theorem cquiet {N g p : Nat} (hN : N ≤ g) (t : Nat) : Quiet (Cyclic.gatherBlock N g (min g N) p t) := by
  intro l hl e he
  obtain ⟨x, hx, rfl⟩ := List.mem_map.1 hl
  have hx := List.mem_range.1 hx
  have h1 : Cyclic.gatherSend N g (min (min g N * (p + 1)) N) (min g N) p t x = [] := by
    unfold Cyclic.gatherSend; rw [if_neg (by omega)]
  have h2 : Cyclic.gatherRecv N g (min (min g N * (p + 1)) N) t x = [] := by
    unfold Cyclic.gatherRecv; rw [if_neg (by omega)]
  dsimp only at he
  rw [h1, h2] at he
  cases he

theorem dist_mod {N q t : Nat} (hq : q < N) (ht : t < N) : Cyclic.dist N q t = (q + N - t) % N := by
  unfold Cyclic.dist
  split
  · rw [show q + N - t = (q - t) + N by omega, Nat.add_mod_right, Nat.mod_eq_of_lt (by omega)]
  · rw [Nat.mod_eq_of_lt (by omega)]

/-- Messages of the steps of the schedule: they depend on the distance only. -/
theorem callgather_messages {N : Nat} (ports : List Nat) (hp : ∀ p, p ∈ ports → 0 < p) (hfit : Cyclic.Suits N 1 ports)
    (hN : 0 < N) (k : Nat) : ∃ P : Nat → Nat → Prop,
    (∀ a q a' q', a < N → q < N → a' < N → q' < N → (a + N - q) % N = (a' + N - q') % N → (P a q ↔ P a' q')) ∧
    Messages N (fun t => (Cyclic.allgather N ports t).tail.getD k []) P := by
  have hq0 : Quiet [] := fun l hl => by cases hl
  have htail : ∀ t, (Cyclic.allgather N ports t).tail = (Cyclic.gatherSteps N t 1 (min 1 N) ports).1 ++
      [Cyclic.gatherLast N (Cyclic.gatherSteps N t 1 (min 1 N) ports).2 t] := fun t => by
    rw [Nat.min_eq_left (by omega : 1 ≤ N)]; rfl
  by_cases hk : k < ports.length
  · obtain ⟨g, p, h1, h2, h3, h4⟩ := csteps_get N ports hp 1 (by omega) hfit k hk
    have e : (fun t => (Cyclic.allgather N ports t).tail.getD k []) = fun t => Cyclic.gatherBlock N g (min g N) p t := by
      funext t
      rw [htail, List.getD_eq_getElem?_getD, List.getElem?_append_left (by rw [csteps_length]; exact hk), h4]
      rfl
    rw [e]
    by_cases hgN : g < N
    · have hm := messages_exchange (Cyclic.exchange N g (min (g * (p + 1)) N) p h1 h2 rfl (h3 hgN))
      rw [Nat.min_eq_left (by omega : g ≤ N)]
      refine ⟨fun a q => Cyclic.msgLen g (min (g * (p + 1)) N) (Cyclic.dist N a q) ≠ 0, fun a q a' q' ha hq ha' hq' h => ?_, hm⟩
      dsimp only
      rw [dist_mod ha hq, dist_mod ha' hq', h]
    · exact ⟨fun _ _ => False, fun _ _ _ _ _ _ _ _ _ => Iff.rfl, messages_quiet fun a _ => cquiet (by omega) a⟩
  · refine ⟨fun _ _ => False, fun _ _ _ _ _ _ _ _ _ => Iff.rfl, messages_quiet fun a _ => ?_⟩
    rw [htail, List.getD_eq_getElem?_getD, List.getElem?_append_right (by rw [csteps_length]; omega), csteps_length]
    cases k - ports.length with
    | zero =>
      intro l hl e he
      obtain ⟨x, _, rfl⟩ := List.mem_map.1 hl
      rw [List.append_nil] at he
      rw [List.mem_singleton.1 he]
    | succ j => exact hq0

theorem callgather_good {N : Nat} (hN : 0 < N) (ports : List Nat) (hfit : Cyclic.Suits N 1 ports) {t : Nat} (ht : t < N) :
    ∀ b, b ∈ Cyclic.allgather N ports t → Good N b := by
  intro b hb l hl e he
  obtain ⟨n, hn⟩ := List.getElem?_of_mem hl
  have hge := (shifted_allgather N t ht ports hfit b hb n l hn).2 e he
  refine ⟨by omega, ?_⟩
  have hstep : ∀ (ps : List Nat) (gb L : Nat), b ∈ (Cyclic.gatherSteps N t gb L ps).1 → e.1 < (N : Int) := by
    intro ps
    induction ps with
    | nil => intro gb L h; cases h
    | cons p ps ih =>
      intro gb L h
      rw [Cyclic.gatherSteps] at h
      rcases List.mem_cons.1 h with rfl | h
      · obtain ⟨x, hx, rfl⟩ := List.mem_map.1 hl
        rcases List.mem_append.1 he with he | he
        · dsimp only at he
          unfold Cyclic.gatherSend at he
          split at he
          · obtain ⟨i, _, rfl⟩ := List.mem_map.1 he
            exact Int.tmod_lt_of_pos _ (by omega)
          · cases he
        · dsimp only at he
          unfold Cyclic.gatherRecv at he
          split at he
          · rw [List.mem_singleton.1 he]
            dsimp only
            have := Nat.mod_lt (t + N + x / gb * gb) hN
            omega
          · cases he
      · exact ih _ _ h
  unfold Cyclic.allgather at hb
  rcases List.mem_cons.1 hb with rfl | hb
  · obtain ⟨x, _, rfl⟩ := List.mem_map.1 hl
    rw [List.nil_append] at he
    rw [List.mem_singleton.1 he]
    show (-1 : Int) < N
    omega
  rcases List.mem_append.1 hb with hb | hb
  · exact hstep _ _ _ hb
  · rw [List.mem_singleton.1 hb] at hl
    obtain ⟨x, _, rfl⟩ := List.mem_map.1 hl
    rw [List.append_nil] at he
    rw [List.mem_singleton.1 he]
    show (-1 : Int) < N
    omega

end ExtMpi.TasksNode
