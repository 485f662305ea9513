import Verif.Lemmas.GroupsSim
import Verif.Props.Cyclic
import Verif.Props.CyclicReduce
/-! The schedules of one group: what they do to memory, and that they are of the form needed for the simulation. -/
namespace ExtMpi.Groups
open Schedule

/-! ## Reduction before the middle -/

/-- The blocks of a reduction after the first one. -/
def downTail (g : Nat) (negs : List Nat) (l : Nat) : List Block :=
  CyclicReduce.scatterSteps g l (fun line => (line + l) % g) g g negs ++
    [CyclicReduce.lastBlock 1 fun line => (line + l) % g]

theorem core_down (g : Nat) (hg : 0 < g) (negs : List Nat) (hcov : g ≤ (negs.map (· + 1)).prod) (l : Nat) :
    CyclicReduce.core g negs [] l = some (CyclicReduce.firstBlock g l :: downTail g negs l) := by
  unfold CyclicReduce.core downTail
  simp only [List.isEmpty_nil, if_true, CyclicReduce.chunks_one g hg negs hcov]
  rfl

theorem down_local {V : Type} [AddCommMonoid V] (g : Nat) (hg : 0 < g) (negs : List Nat)
    (hcov : g ≤ (negs.map (· + 1)).prod) (s : Nat → Nat → V) :
    ∃ s', Run g (downTail g negs) s s' ∧ ∀ l, l < g → s' l 0 = ∑ j ∈ Finset.range g, s j ((l + g - j) % g) := by
  obtain ⟨s', c, h1, h2, h3⟩ := CyclicReduce.scatter_phase g (fun j f => s j ((f + g - j) % g)) negs g hg (Nat.le_refl g)
    (fun e => e) (fun _ h => h) s (fun t n ht hn => by
      rw [CyclicReduce.collect_id g _ t n ht hn]
      congr 1
      have hm := Nat.mod_lt (n + t) hg
      by_cases c : n + t < g
      · rw [Nat.mod_eq_of_lt c]
        have : n + t + g - t = n + g := by omega
        rw [this, Nat.add_mod_right, Nat.mod_eq_of_lt hn]
      · have e : (n + t) % g = n + t - g := by
          rw [Nat.mod_eq_sub_mod (by omega), Nat.mod_eq_of_lt (by omega : n + t - g < g)]
        rw [e]
        have : n + t - g + g - t = n := by omega
        rw [this, Nat.mod_eq_of_lt hn])
  rw [CyclicReduce.chunks_one g hg negs hcov] at h2 h3
  refine ⟨s', Recursive.Run.append h1 (Recursive.Run.single (CyclicReduce.last_idle g s')), ?_⟩
  intro l hl
  rw [h3 l 0 hl (by omega), CyclicReduce.collect_one g l hl c h2]

/-- Every line of the block is sent at most once. -/
theorem blockOf_short {fac g l : Nat} {b : Block} (h : ∀ x, x ∈ b → LineOf g x) (h1 : ∀ x, x ∈ b → x.sendto.length ≤ 1) :
    BlockOf fac g l b :=
  ⟨h, fun x hx _ _ _ => .inl (Nat.le_trans (List.length_filter_le _ _) (h1 x hx))⟩

theorem mem_mk {S : Nat} {f : Nat → LineD} {x : LineD} (h : x ∈ Recursive.mk S f) : ∃ n, n < S ∧ x = f n := by
  unfold Recursive.mk at h
  obtain ⟨n, hn, rfl⟩ := List.mem_map.1 h
  exact ⟨n, List.mem_range.1 hn, rfl⟩

theorem firstBlock_of (fac g l : Nat) : BlockOf fac g l (CyclicReduce.firstBlock g l) := by
  apply blockOf_short
  · intro x hx
    obtain ⟨n, _, rfl⟩ := mem_mk hx
    refine ⟨fun e he => (by cases he), fun e he => ?_, rfl⟩
    rw [List.mem_singleton.1 he]
    show (-1 : Int) < g
    omega
  · intro x hx
    obtain ⟨n, _, rfl⟩ := mem_mk hx
    exact Nat.zero_le _

theorem scatterSteps_of (fac g l : Nat) (hg : 0 < g) (fr : Nat → Nat) (ps : List Nat) (gb S : Nat) (b : Block)
    (hb : b ∈ CyclicReduce.scatterSteps g l fr gb S ps) : BlockOf fac g l b := by
  induction ps generalizing gb S with
  | nil => cases hb
  | cons p ps ih =>
    rw [CyclicReduce.scatterSteps] at hb
    rcases List.mem_cons.1 hb with rfl | hb
    · apply blockOf_short
      · intro x hx
        obtain ⟨n, _, rfl⟩ := mem_mk hx
        dsimp only
        split
        · refine ⟨fun e he => ?_, fun e he => (by cases he), rfl⟩
          dsimp only at he
          split at he
          · rw [List.mem_singleton.1 he]
            dsimp only
            have := Nat.mod_lt (l + CyclicReduce.chunk gb p * (n / CyclicReduce.chunk S p)) hg
            omega
          · cases he
        · refine ⟨fun e he => (by cases he), fun e he => ?_, rfl⟩
          rw [List.mem_singleton.1 he]
          exact Int.tmod_lt_of_pos _ (by omega)
      · intro x hx
        obtain ⟨n, _, rfl⟩ := mem_mk hx
        dsimp only
        split
        · dsimp only
          split <;> simp
        · exact Nat.zero_le _
    · rcases List.mem_cons.1 hb with rfl | hb
      · apply blockOf_short
        · intro x hx
          obtain ⟨n, _, rfl⟩ := mem_mk hx
          exact ⟨fun e he => (by cases he), fun e he => (by cases he), rfl⟩
        · intro x hx
          obtain ⟨n, _, rfl⟩ := mem_mk hx
          exact Nat.zero_le _
      · exact ih _ _ hb

theorem lastBlock_of (fac g l S : Nat) (fr : Nat → Nat) : BlockOf fac g l (CyclicReduce.lastBlock S fr) := by
  apply blockOf_short
  · intro x hx
    obtain ⟨n, _, rfl⟩ := mem_mk hx
    refine ⟨fun e he => ?_, fun e he => (by cases he), rfl⟩
    dsimp only at he
    split at he
    · rw [List.mem_singleton.1 he]
      show (-1 : Int) < g
      omega
    · cases he
  · intro x hx
    obtain ⟨n, _, rfl⟩ := mem_mk hx
    dsimp only
    split <;> simp

theorem downTail_of (fac g : Nat) (hg : 0 < g) (negs : List Nat) (l : Nat) (b : Block) (hb : b ∈ downTail g negs l) :
    BlockOf fac g l b := by
  rcases List.mem_append.1 hb with h | h
  · exact scatterSteps_of fac g l hg _ _ _ _ b h
  · rw [List.mem_singleton.1 h]
    exact lastBlock_of fac g l 1 _

/-! ## Gather after the middle -/

/-- The blocks of a gather after the first one. -/
def upTail (g : Nat) (ports : List Nat) (l : Nat) : List Block :=
  (Cyclic.gatherSteps g l 1 1 ports).1 ++ [Cyclic.gatherLast g g l]

theorem up_local {V : Type} [Add V] (g : Nat) (hg : 0 < g) (ports : List Nat) (hp : ∀ p, p ∈ ports → 0 < p)
    (hfit : Cyclic.Suits g 1 ports) (hcov : g ≤ (ports.map (· + 1)).prod) :
    (∀ l, Cyclic.allgather g ports l = Cyclic.gatherFirst l :: upTail g ports l) ∧
    ∀ s : Nat → Nat → V, ∃ s', Run g (upTail g ports) s s' ∧
      ∀ l i, l < g → i < g → s' l i = s ((l + i) % g) 0 := by
  have hcov : g ≤ Recursive.factor ports := hcov
  have hmin : min 1 g = 1 := by omega
  constructor
  · intro l
    obtain ⟨_, _, _, h3⟩ := Cyclic.phase (V := Nat) g (fun _ => 0) ports hp 1 (by omega) hfit (fun _ _ => 0)
      (fun _ _ _ _ => rfl)
    simp only [Nat.one_mul, Nat.min_eq_right hcov, hmin] at h3
    unfold Cyclic.allgather upTail
    simp only [h3 l]
  · intro s
    obtain ⟨s', h1, h2, h3⟩ := Cyclic.phase g (fun n => s n 0) ports hp 1 (by omega) hfit s (fun t n ht hn => by
      have : n = 0 := by omega
      subst this
      rw [Nat.add_zero, Nat.mod_eq_of_lt ht])
    simp only [Nat.one_mul, Nat.min_eq_right hcov, hmin] at h1 h2
    refine ⟨s', Recursive.Run.append h1 (Recursive.Run.single fun t ht => ?_), fun l i hl hi => h2 l i hl hi⟩
    exact Recursive.idle_step g g (fun t line => { frac := (t + line) % g, sendto := [(-1, (((t + line) % g : Nat) : Int))] })
      (fun t x e he => by
        rw [List.mem_singleton.1 he]; exact Int.negSucc_lt_zero 0)
      (fun _ _ => rfl) (fun _ _ => rfl) (fun _ _ => rfl) s' t ht

theorem gatherFirst_of (fac g l : Nat) : BlockOf fac g l (Cyclic.gatherFirst l) := by
  apply blockOf_short
  · intro x hx
    obtain ⟨n, _, rfl⟩ := mem_mk hx
    refine ⟨fun e he => (by cases he), fun e he => ?_, rfl⟩
    rw [List.mem_singleton.1 he]
    show (-1 : Int) < g
    omega
  · intro x hx
    obtain ⟨n, _, rfl⟩ := mem_mk hx
    exact Nat.zero_le _

/-- A line that is sent several times to `q` is listed several times. -/
theorem once_of_nodup (b : Block) (q : Nat) (h : (sendIdx b q).Nodup) (x : LineD) (hx : x ∈ b) :
    (x.sendto.filter fun e => e.1 == (q : Int)).length ≤ 1 := by
  obtain ⟨n, hn⟩ := List.mem_iff_getElem?.1 hx
  have hm := List.mk_mem_zipIdx_iff_getElem?.2 hn
  unfold sendIdx at h
  rw [List.nodup_flatMap] at h
  have := h.1 (x, n) hm
  rw [map_const_replicate, List.nodup_replicate] at this
  exact this

theorem gatherBlock_of (fac g gb p l : Nat) (hg : 0 < g) (hgb : 0 < gb) (hp : 0 < p) (hl : l < g)
    (hfit : gb < g → Cyclic.Tight g gb p) : BlockOf fac g l (Cyclic.gatherBlock g gb (min gb g) p l) := by
  constructor
  · intro x hx
    obtain ⟨n, _, rfl⟩ := mem_mk hx
    refine ⟨fun e he => ?_, fun e he => ?_, rfl⟩
    · dsimp only at he
      unfold Cyclic.gatherSend at he
      split at he
      · obtain ⟨i, _, rfl⟩ := List.mem_map.1 he
        exact Int.tmod_lt_of_pos _ (by omega)
      · cases he
    · dsimp only at he
      unfold Cyclic.gatherRecv at he
      split at he
      · rw [List.mem_singleton.1 he]
        have := Nat.mod_lt (l + g + n / gb * gb) hg
        dsimp only
        omega
      · cases he
  · intro x hx q hq hne
    left
    by_cases c : gb < g
    · apply once_of_nodup _ _ _ x hx
      have hmin : min gb g = gb := by omega
      rw [hmin]
      have hex := Cyclic.exchange g gb (min (gb * (p + 1)) g) p hgb hp rfl (hfit c)
      have := hex.send l q hl hq (fun e => hne e.symm)
      unfold Cyclic.gatherBlock
      dsimp only at this ⊢
      rw [this]
      exact List.nodup_range'
    · obtain ⟨n, hn, rfl⟩ := mem_mk hx
      have : Cyclic.gatherSend g gb (min (min gb g * (p + 1)) g) (min gb g) p l n = [] := by
        unfold Cyclic.gatherSend; rw [if_neg (by omega)]
      dsimp only
      rw [this]
      exact Nat.zero_le _

theorem gatherSteps_of (fac g l : Nat) (hg : 0 < g) (hl : l < g) (ps : List Nat) (hp : ∀ p, p ∈ ps → 0 < p) (gb : Nat)
    (hgb : 0 < gb) (hfit : Cyclic.Suits g gb ps) (b : Block) (hb : b ∈ (Cyclic.gatherSteps g l gb (min gb g) ps).1) :
    BlockOf fac g l b := by
  induction ps generalizing gb with
  | nil => cases hb
  | cons p ps ih =>
    obtain ⟨hf1, hf2⟩ := hfit
    have hmin : min (min gb g * (p + 1)) g = min (gb * (p + 1)) g := by
      by_cases c : gb < g
      · rw [Nat.min_eq_left (by omega : gb ≤ g)]
      · rw [Nat.min_eq_right (by omega : g ≤ gb)]
        have h1 : g * 1 ≤ g * (p + 1) := Nat.mul_le_mul_left g (by omega)
        have h2 : gb * 1 ≤ gb * (p + 1) := Nat.mul_le_mul_left gb (by omega)
        omega
    rw [Cyclic.gatherSteps] at hb
    simp only [hmin] at hb
    rcases List.mem_cons.1 hb with rfl | hb
    · exact gatherBlock_of fac g gb p l hg hgb (hp p List.mem_cons_self) hl hf1
    · exact ih (fun p h => hp p (List.mem_cons_of_mem _ h)) (gb * (p + 1)) (Nat.mul_pos hgb (by omega)) hf2 hb

theorem upTail_of (fac g : Nat) (hg : 0 < g) (ports : List Nat) (hp : ∀ p, p ∈ ports → 0 < p)
    (hfit : Cyclic.Suits g 1 ports) (l : Nat) (hl : l < g) (b : Block) (hb : b ∈ upTail g ports l) :
    BlockOf fac g l b := by
  have hmin : min 1 g = 1 := by omega
  rcases List.mem_append.1 hb with h | h
  · exact gatherSteps_of fac g l hg hl ports hp 1 (by omega) hfit b (by rw [hmin]; exact h)
  · rw [List.mem_singleton.1 h]
    apply blockOf_short
    · intro x hx
      obtain ⟨n, _, rfl⟩ := mem_mk hx
      refine ⟨fun e he => ?_, fun e he => (by cases he), rfl⟩
      rw [List.mem_singleton.1 he]
      show (-1 : Int) < g
      omega
    · intro x hx
      obtain ⟨n, _, rfl⟩ := mem_mk hx
      simp

end ExtMpi.Groups
