import Verif.Lemmas.OnNodeRun
import Mathlib.Data.Nat.Log
import Mathlib.Data.List.Rotate
/-! Order of the accesses in programs that work in stages on the columns of the vectors in shared memory. -/
namespace ExtMpi.OnNode

/-! ### Barriers of some of the processes -/

/-- Rounds of a barrier. -/
def dis (b K : Nat) (W : Nat → Nat → Nat) : Skel := (List.range K).map fun k => .sync b (W k)

theorem dis_length (b K W) : (dis b K W).length = K := by simp [dis]

theorem dis_get (A : Skel) (b K : Nat) (W : Nat → Nat → Nat) {k : Nat} (hk : k < K) :
    (A ++ dis b K W)[A.length + k]? = some (.sync b (W k)) := by
  rw [List.getElem?_append_right (by omega), Nat.add_sub_cancel_left]
  simp [dis, hk]

/-- After the rounds of a barrier every member of the group knows that all members have started them. -/
theorem R_dis {n : Nat} (A : Skel) (b K : Nat) (W : Nat → Nat → Nat) (g : List Nat) (hg : ∀ r ∈ g, r < n)
    (hK : Nat.clog 2 g.length ≤ K)
    (hW : ∀ k i, k < Nat.clog 2 g.length → (hi : i < g.length) →
      g[(i + 2 ^ k) % g.length]? = some (W k g[i])) {r p : Nat} (hr : r ∈ g) (hp : p ∈ g) :
    R n (A ++ dis b K W) r A.length p (A.length + K) := by
  have key : ∀ k, k ≤ Nat.clog 2 g.length → ∀ i d, (hi : i < g.length) → d < 2 ^ k →
      ∀ r, g[(i + d) % g.length]? = some r → R n (A ++ dis b K W) r A.length g[i] (A.length + k) := by
    intro k
    induction k with
    | zero =>
      intro _ i d hi hd r hr
      have : d = 0 := by simpa using hd
      subst this
      rw [Nat.add_zero, Nat.mod_eq_of_lt hi, List.getElem?_eq_getElem hi] at hr
      injection hr with hr
      subst hr
      exact .own (by omega)
    | succ k ih =>
      intro hk i d hi hd r hr
      by_cases hlt : d < 2 ^ k
      · exact (ih (by omega) i d hi hlt r hr).mono (Nat.le_refl _) (by omega)
      · have hi' : (i + 2 ^ k) % g.length < g.length := Nat.mod_lt _ (by omega)
        have h1 := ih (by omega) ((i + 2 ^ k) % g.length) (d - 2 ^ k) hi' (by rw [Nat.pow_succ] at hd; omega) r (by
          rw [Nat.mod_add_mod, show i + 2 ^ k + (d - 2 ^ k) = i + d by omega]; exact hr)
        have hw := hW k i (by omega) hi
        rw [List.getElem?_eq_getElem hi'] at hw
        injection hw with hw
        rw [hw] at h1
        refine .trans h1 (.sync (b := b) ?_ (hg _ (List.getElem_mem _)))
        exact dis_get A b K W (by omega)
  obtain ⟨i, hi, rfl⟩ := List.getElem_of_mem hp
  obtain ⟨j, hj, rfl⟩ := List.getElem_of_mem hr
  have hpow : g.length ≤ 2 ^ Nat.clog 2 g.length := Nat.le_pow_clog (by omega) _
  refine (key _ (Nat.le_refl _) i ((j + g.length - i) % g.length) hi
    (Nat.lt_of_lt_of_le (Nat.mod_lt _ (by omega)) hpow) g[j] ?_).mono (Nat.le_refl _) (by omega)
  rw [Nat.add_mod_mod, show i + (j + g.length - i) = j + g.length by omega, Nat.add_mod_right,
    Nat.mod_eq_of_lt hj, List.getElem?_eq_getElem hj]

/-! ### Stages -/

/-- Only synchronisation. -/
def Quiet (D : Skel) : Prop := ∀ I ∈ D, ∀ p, I.elems p = []

theorem quiet_dis (b K W) : Quiet (dis b K W) := by
  intro I hI p
  simp only [dis, List.mem_map] at hI
  obtain ⟨k, _, rfl⟩ := hI
  rfl

theorem Quiet.append {A B : Skel} (hA : Quiet A) (hB : Quiet B) : Quiet (A ++ B) := by
  intro I hI p
  rcases List.mem_append.1 hI with h | h
  · exact hA I h p
  · exact hB I h p

/-- Cells of the vectors in shared memory: column `x` of instance `inst`. -/
structure Vec where
  cell : Nat → Nat → Cell
  len : Nat
  inj : ∀ i x i' x', x < len → x' < len → cell i x = cell i' x' → i = i' ∧ x = x'
  nsend : ∀ i x p k y, cell i x ≠ .send p k y
  nrecv : ∀ i x p k y, cell i x ≠ .recv p k y

/-- Process `q` accesses column `x` of instance `inst` in item `i`. -/
def Touch (V : Vec) (A : Skel) (q i inst x : Nat) : Prop :=
  ∃ I e, A[i]? = some I ∧ e ∈ I.elems q ∧ (e.dst = V.cell inst x ∨ e.src = V.cell inst x)

/-- State of knowledge after the items `A`: `bp` and `bi` are the blocks of the processes and of the instances; the
process that owns a column in its block knows that the block has finished its accesses to it. -/
structure Stage (n : Nat) (V : Vec) (kk : Nat) (A : Skel) (bp bi : Nat → Nat) (own : Nat → Nat → Prop) : Prop where
  shape : ∀ q, q < n → ∀ (i : Nat) (I : Item) (e : Elem), A[i]? = some I → e ∈ I.elems q →
    (∃ inst x, x < V.len ∧ bi inst = bp q ∧ e.dst = V.cell inst x) ∧
    ((∃ inst x, x < V.len ∧ bi inst = bp q ∧ e.src = V.cell inst x) ∨ ∃ y, e.src = .send q kk y)
  ne : ∀ q, q < n → ∀ (i : Nat) (I : Item) (e : Elem), A[i]? = some I → e ∈ I.elems q → e.dst ≠ e.src
  race : RaceFree n A
  know : ∀ p q i inst x, p < n → q < n → x < V.len → own p x → bp q = bp p → Touch V A q i inst x →
    R n A q (i + 1) p A.length

theorem get_append_quiet {A D : Skel} (hD : Quiet D) {i : Nat} {I : Item} {q : Nat} {e : Elem}
    (h : (A ++ D)[i]? = some I) (he : e ∈ I.elems q) : A[i]? = some I ∧ i < A.length := by
  by_cases hi : i < A.length
  · rw [List.getElem?_append_left hi] at h
    exact ⟨h, hi⟩
  · rw [List.getElem?_append_right (by omega)] at h
    have := hD I (List.mem_of_getElem? h) q
    rw [this] at he
    simp at he

theorem get_append_single {A : Skel} {J : Item} {i : Nat} {I : Item} (h : (A ++ [J])[i]? = some I) :
    A[i]? = some I ∧ i < A.length ∨ i = A.length ∧ I = J := by
  by_cases hi : i < A.length
  · rw [List.getElem?_append_left hi] at h
    exact Or.inl ⟨h, hi⟩
  · rw [List.getElem?_append_right (by omega)] at h
    have : i - A.length < 1 := by
      have := (List.getElem?_eq_some_iff.1 h).1
      simpa using this
    have h0 : i = A.length := by omega
    subst h0
    simp at h
    exact Or.inr ⟨rfl, h.symm⟩

/-- The accesses of a skeleton with quiet items and one item more. -/
theorem get_three {A D : Skel} (hD : Quiet D) {f : Nat → List Elem} {i : Nat} {I : Item} {q : Nat} {e : Elem}
    (h : (A ++ D ++ [.ops f])[i]? = some I) (he : e ∈ I.elems q) :
    A[i]? = some I ∧ i < A.length ∨ i = A.length + D.length ∧ e ∈ f q := by
  rcases get_append_single h with ⟨h1, _⟩ | ⟨h1, rfl⟩
  · exact Or.inl (get_append_quiet hD h1 he)
  · right
    refine ⟨by simpa using h1, he⟩

theorem raceFree_of_lt {n : Nat} {sk : Skel}
    (h : ∀ p q (i j : Nat) (I J : Item) (e f : Elem), p < n → q < n → p ≠ q → j ≤ i → sk[i]? = some I → sk[j]? = some J → e ∈ I.elems p →
      f ∈ J.elems q → Conflict e f → R n sk q (j + 1) p i) : RaceFree n sk := by
  intro p q i j I J e f hp hq hpq hI hJ he hf hc
  rcases Nat.le_total j i with hle | hle
  · exact Or.inr (h p q i j I J e f hp hq hpq hle hI hJ he hf hc)
  · refine Or.inl (h q p j i J I f e hq hp (Ne.symm hpq) hle hJ hI hf he ?_)
    unfold Conflict at hc ⊢
    rcases hc with h | h | h
    · exact Or.inl h.symm
    · exact Or.inr (Or.inr h.symm)
    · exact Or.inr (Or.inl h.symm)

theorem raceFree_lt {n : Nat} {sk : Skel} (h : RaceFree n sk) {p q i j I J e f} (hp : p < n) (hq : q < n) (hpq : p ≠ q)
    (hle : j ≤ i) (hI : sk[i]? = some I) (hJ : sk[j]? = some J) (he : e ∈ I.elems p) (hf : f ∈ J.elems q)
    (hc : Conflict e f) : R n sk q (j + 1) p i := by
  rcases h p q i j I J e f hp hq hpq hI hJ he hf hc with h | h
  · have := h.le; omega
  · exact h

theorem Stage.next {n : Nat} {V : Vec} {kk : Nat} {A : Skel} {bp bi : Nat → Nat} {own : Nat → Nat → Prop}
    (h : Stage n V kk A bp bi own) {D : Skel} (hD : Quiet D) {f : Nat → List Elem} {bp' bi' : Nat → Nat}
    {own' : Nat → Nat → Prop}
    (hR : ∀ p q x, p < n → q < n → x < V.len → own' p x → bp' q = bp' p →
      ∃ r, r < n ∧ bp q = bp r ∧ own r x ∧ R n (A ++ D) r A.length p (A.length + D.length))
    (hf : ∀ p (e : Elem), p < n → e ∈ f p → ∃ inst x, x < V.len ∧ own' p x ∧ bi' inst = bp' p ∧ e.dst = V.cell inst x ∧
      ((∃ inst', inst' ≠ inst ∧ bi' inst' = bp' p ∧ e.src = V.cell inst' x) ∨ ∃ y, e.src = .send p kk y))
    (hc : ∀ inst q, bi inst = bp q → bi' inst = bp' q)
    (hu : ∀ p q x, p < n → q < n → x < V.len → own' p x → own' q x → bp' q = bp' p → p = q) :
    Stage n V kk (A ++ D ++ [.ops f]) bp' bi' own' := by
  have hf' : ∀ p (e : Elem) inst x, p < n → e ∈ f p → x < V.len → (e.dst = V.cell inst x ∨ e.src = V.cell inst x) →
      own' p x ∧ bi' inst = bp' p := by
    intro p e inst x hp he hx hcell
    obtain ⟨i0, x0, hx0, ho, hi, hd, hs⟩ := hf p e hp he
    rcases hcell with h1 | h1
    · rw [hd] at h1
      obtain ⟨rfl, rfl⟩ := V.inj _ _ _ _ hx0 hx h1
      exact ⟨ho, hi⟩
    · rcases hs with ⟨i1, _, hi1, h2⟩ | ⟨y, h2⟩
      · rw [h2] at h1
        obtain ⟨rfl, rfl⟩ := V.inj _ _ _ _ hx0 hx h1
        exact ⟨ho, hi1⟩
      · rw [h2] at h1
        exact absurd h1.symm (V.nsend _ _ _ _ _)
  have hshape : ∀ q, q < n → ∀ (i : Nat) (I : Item) (e : Elem), (A ++ D ++ [.ops f])[i]? = some I → e ∈ I.elems q →
      (∃ inst x, x < V.len ∧ bi' inst = bp' q ∧ e.dst = V.cell inst x) ∧
      ((∃ inst x, x < V.len ∧ bi' inst = bp' q ∧ e.src = V.cell inst x) ∨ ∃ y, e.src = .send q kk y) := by
    intro q hq i I e hI he
    rcases get_three hD hI he with ⟨h1, _⟩ | ⟨_, h1⟩
    · obtain ⟨⟨i1, x1, hx1, hi1, hd⟩, hs⟩ := h.shape q hq i I e h1 he
      refine ⟨⟨i1, x1, hx1, hc _ _ hi1, hd⟩, ?_⟩
      rcases hs with ⟨i2, x2, hx2, hi2, hs⟩ | hs
      · exact Or.inl ⟨i2, x2, hx2, hc _ _ hi2, hs⟩
      · exact Or.inr hs
    · obtain ⟨i1, x1, hx1, _, hi1, hd, hs⟩ := hf q e hq h1
      refine ⟨⟨i1, x1, hx1, hi1, hd⟩, ?_⟩
      rcases hs with ⟨i2, _, hi2, hs⟩ | hs
      · exact Or.inl ⟨i2, x1, hx1, hi2, hs⟩
      · exact Or.inr hs
  -- knowledge at the start of the new item
  have hknow : ∀ p q i inst x, p < n → q < n → x < V.len → own' p x → bp' q = bp' p → Touch V A q i inst x →
      R n (A ++ D ++ [.ops f]) q (i + 1) p (A.length + D.length) := by
    intro p q i inst x hp hq hx ho hs ht
    obtain ⟨r, hr, hb, hor, hRr⟩ := hR p q x hp hq hx ho hs
    have := h.know r q i inst x hr hq hx hor hb ht
    exact .trans ((this.append D).append _) (hRr.append _)
  -- a conflict is about a column
  have hconf : ∀ p q (e g : Elem), p < n → q < n → p ≠ q → e ∈ f p →
      ((∃ inst x, x < V.len ∧ g.dst = V.cell inst x) ∧
        ((∃ inst x, x < V.len ∧ g.src = V.cell inst x) ∨ ∃ y, g.src = .send q kk y)) → Conflict e g →
      ∃ inst x, x < V.len ∧ own' p x ∧ bi' inst = bp' p ∧ (g.dst = V.cell inst x ∨ g.src = V.cell inst x) := by
    intro p q e g hp hq hpq he hg hcf
    obtain ⟨⟨i1, x1, hx1, hd1⟩, hs1⟩ := hg
    obtain ⟨i0, x0, hx0, ho, hi, hd, hs⟩ := hf p e hp he
    rcases hcf with hcf | hcf | hcf
    · exact ⟨i0, x0, hx0, ho, hi, Or.inl (by rw [← hcf, hd])⟩
    · exact ⟨i0, x0, hx0, ho, hi, Or.inr (by rw [← hcf, hd])⟩
    · obtain ⟨ho', hi'⟩ := hf' p e i1 x1 hp he hx1 (Or.inr (by rw [hcf, hd1]))
      exact ⟨i1, x1, hx1, ho', hi', Or.inl hd1⟩
  have hne : ∀ q, q < n → ∀ (i : Nat) (I : Item) (e : Elem), (A ++ D ++ [.ops f])[i]? = some I → e ∈ I.elems q →
      e.dst ≠ e.src := by
    intro q hq i I e hI he
    rcases get_three hD hI he with ⟨h1, _⟩ | ⟨_, h1⟩
    · exact h.ne q hq i I e h1 he
    · obtain ⟨i1, x1, hx1, _, hi1, hd, hs⟩ := hf q e hq h1
      rcases hs with ⟨i2, h2, _, hs⟩ | ⟨y, hs⟩
      · rw [hd, hs]
        exact fun c => h2 (V.inj _ _ _ _ hx1 hx1 c).1.symm
      · rw [hd, hs]
        exact V.nsend _ _ _ _ _
  refine ⟨hshape, hne, raceFree_of_lt ?_, ?_⟩
  · intro p q i j I J e g hp hq hpq hji hI hJ he hg hcf
    rcases get_three hD hI he with ⟨h1, hi1⟩ | ⟨hi1, h1⟩
    · rcases get_three hD hJ hg with ⟨h2, _⟩ | ⟨h2, _⟩
      · exact ((raceFree_lt h.race hp hq hpq hji h1 h2 he hg hcf).append D).append _
      · omega
    · have hgs := hshape q hq j J g hJ hg
      obtain ⟨inst, x, hx, ho, hi, hcell⟩ := hconf p q e g hp hq hpq h1
        ⟨by obtain ⟨⟨a, b, c, _, d⟩, _⟩ := hgs; exact ⟨a, b, c, d⟩,
         by obtain ⟨_, ⟨a, b, c, _, d⟩ | d⟩ := hgs
            · exact Or.inl ⟨a, b, c, d⟩
            · exact Or.inr d⟩ hcf
      rcases get_three hD hJ hg with ⟨h2, _⟩ | ⟨_, h2⟩
      · have hq' : bi' inst = bp' q := by
          obtain ⟨⟨a, b, c, a1, d⟩, hs⟩ := h.shape q hq j J g h2 hg
          rcases hcell with hcell | hcell
          · rw [d] at hcell
            obtain ⟨rfl, rfl⟩ := V.inj _ _ _ _ c hx hcell
            exact hc _ _ a1
          · rcases hs with ⟨a, b, c, a1, d⟩ | ⟨y, hs⟩
            · rw [d] at hcell
              obtain ⟨rfl, rfl⟩ := V.inj _ _ _ _ c hx hcell
              exact hc _ _ a1
            · rw [hs] at hcell
              exact absurd hcell.symm (V.nsend _ _ _ _ _)
        rw [hi1]
        exact hknow p q j inst x hp hq hx ho (by omega) ⟨J, g, h2, hg, hcell⟩
      · obtain ⟨ho2, hi2⟩ := hf' q g inst x hq h2 hx hcell
        exact absurd (hu p q x hp hq hx ho ho2 (by omega)) hpq
  · intro p q i inst x hp hq hx ho hs ⟨I, e, hI, he, hcell⟩
    rcases get_three hD hI he with ⟨h1, _⟩ | ⟨hi1, h1⟩
    · refine (hknow p q i inst x hp hq hx ho hs ⟨I, e, h1, he, hcell⟩).mono (Nat.le_refl _) ?_
      simp
    · obtain ⟨ho2, _⟩ := hf' q e inst x hq h1 hx hcell
      have : p = q := hu p q x hp hq hx ho ho2 hs
      subst this
      exact .own (by simp [hi1]; omega)

/-- Every owner of a column knows that its block has started item `L`. -/
def Entered (n : Nat) (len : Nat) (A : Skel) (L : Nat) (bp : Nat → Nat) (own : Nat → Nat → Prop) : Prop :=
  ∀ p q x, p < n → q < n → x < len → own p x → bp q = bp p → R n A q L p A.length

theorem Entered.next {n len : Nat} {A : Skel} {L : Nat} {bp : Nat → Nat} {own : Nat → Nat → Prop} (h : Entered n len A L bp own)
    {D : Skel} {f : Nat → List Elem} {bp' : Nat → Nat} {own' : Nat → Nat → Prop}
    (hR : ∀ p q x, p < n → q < n → x < len → own' p x → bp' q = bp' p →
      ∃ r, r < n ∧ bp q = bp r ∧ own r x ∧ R n (A ++ D) r A.length p (A.length + D.length)) :
    Entered n len (A ++ D ++ [.ops f]) L bp' own' := by
  intro p q x hp hq hx ho hs
  obtain ⟨r, hr, hb, hor, hRr⟩ := hR p q x hp hq hx ho hs
  have := h r q x hr hq hx hor hb
  refine (R.trans ((this.append D).append _) (hRr.append _)).mono (Nat.le_refl _) ?_
  simp

theorem stage_start {n : Nat} {V : Vec} {kk : Nat} {A : Skel} (hA : Quiet A) (bp bi : Nat → Nat) (own : Nat → Nat → Prop) :
    Stage n V kk A bp bi own where
  shape := by
    intro q _ i I e hI he
    have := hA I (List.mem_of_getElem? hI) q
    rw [this] at he; simp at he
  ne := by
    intro q _ i I e hI he
    have := hA I (List.mem_of_getElem? hI) q
    rw [this] at he; simp at he
  race := by
    intro p q i j I J e f _ _ _ hI _ he
    have := hA I (List.mem_of_getElem? hI) p
    rw [this] at he; simp at he
  know := by
    intro p q i inst x _ _ _ _ _ ⟨I, e, hI, he, _⟩
    have := hA I (List.mem_of_getElem? hI) q
    rw [this] at he; simp at he

/-- Copy-out after a barrier in which every process hears of an owner of every column. -/
theorem Stage.out {n : Nat} {V : Vec} {kk : Nat} {A : Skel} {bp bi : Nat → Nat} {own : Nat → Nat → Prop}
    (h : Stage n V kk A bp bi own) {D : Skel} (hD : Quiet D) {f : Nat → List Elem}
    (hR : ∀ p q x, p < n → q < n → x < V.len →
      ∃ r, r < n ∧ bp q = bp r ∧ own r x ∧ R n (A ++ D) r A.length p (A.length + D.length))
    (hf : ∀ p (e : Elem), p < n → e ∈ f p → (∃ y, e.dst = .recv p kk y) ∧ ∃ inst x, x < V.len ∧ e.src = V.cell inst x) :
    RaceFree n (A ++ D ++ [.ops f]) := by
  apply raceFree_of_lt
  intro p q i j I J e g hp hq hpq hji hI hJ he hg hcf
  rcases get_three hD hI he with ⟨h1, hi1⟩ | ⟨hi1, h1⟩
  · rcases get_three hD hJ hg with ⟨h2, _⟩ | ⟨h2, _⟩
    · exact ((raceFree_lt h.race hp hq hpq hji h1 h2 he hg hcf).append D).append _
    · omega
  · obtain ⟨⟨y, hd⟩, i0, x0, hx0, hs⟩ := hf p e hp h1
    rcases get_three hD hJ hg with ⟨h2, _⟩ | ⟨_, h2⟩
    · obtain ⟨⟨i1, x1, hx1, _, hd1⟩, hs1⟩ := h.shape q hq j J g h2 hg
      rcases hcf with hcf | hcf | hcf
      · rw [hd, hd1] at hcf
        exact absurd hcf.symm (V.nrecv _ _ _ _ _)
      · rw [hd] at hcf
        rcases hs1 with ⟨i2, x2, _, _, hs1⟩ | ⟨y2, hs1⟩
        · rw [hs1] at hcf
          exact absurd hcf.symm (V.nrecv _ _ _ _ _)
        · rw [hs1] at hcf; cases hcf
      · rw [hs, hd1] at hcf
        obtain ⟨r, hr, hb, hor, hRr⟩ := hR p q x0 hp hq hx0
        have := h.know r q j i0 x0 hr hq hx0 hor hb ⟨J, g, h2, hg, Or.inl (by rw [hd1, hcf])⟩
        rw [hi1]
        exact .trans ((this.append D).append _) (hRr.append _)
    · obtain ⟨⟨y2, hd2⟩, i2, x2, _, hs2⟩ := hf q g hq h2
      rcases hcf with hcf | hcf | hcf
      · rw [hd, hd2] at hcf
        injection hcf with h1
        exact absurd h1 hpq
      · rw [hd, hs2] at hcf
        exact absurd hcf.symm (V.nrecv _ _ _ _ _)
      · rw [hs, hd2] at hcf
        exact absurd hcf (V.nrecv _ _ _ _ _)

end ExtMpi.OnNode
