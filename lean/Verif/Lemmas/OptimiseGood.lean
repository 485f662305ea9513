import Verif.Lemmas.OptimiseRun
/-! # The steps of the recursive algorithms work directly in the rows -/
namespace ExtMpi.Optimise
open RawCode Schedule Recursive

theorem good_reduce {lb K sr ar g p w : Nat} {a ρ σ : Nat → Nat} {f : Nat → Nat → LineD}
    (h : ReduceLike lb K sr ar g p w a ρ σ f) (hshape : ∀ t, t < lb → Shape lb (Recursive.mk (K * lb) (f t)))
    (Dl : Nat → Nat → Prop) (W : Nat → Prop) (hS : ∀ q x, q < lb → x < lb → Dl q (sr * lb + x))
    (hR : ∀ t i x, t < lb → i < p → a t ≤ x → x < a t + w → Dl t (ρ i * lb + x))
    (hA : ∀ t x, t < lb → a t ≤ x → x < a t + w → Dl t (ar * lb + x))
    (hB : ∀ t i x, t < lb → i < p → a t ≤ x → x < a t + w → Dl t (σ i * lb + x))
    (hW : ∀ i, i < p → W (ρ i)) (hWa : W ar) :
    Good lb (fun t => Recursive.mk (K * lb) (f t)) Dl W
      (fun q t => if Rel g (p + 1) q t then sr * lb + a t else 0)
      (fun q t => if Rel g (p + 1) q t then ρ (pidx g (p + 1) t q) * lb + a t else 0)
      (fun q t => if Rel g (p + 1) q t then w else 0) (fun _ => ar) := by
  have hpi : ∀ q t, q ≠ t → Rel g (p + 1) q t → pidx g (p + 1) t q < p := by
    intro q t hne hr
    have := pidx_lt g (p + 1) t q (by omega) hne hr
    omega
  refine ⟨h.exchange, hshape, ?_, ?_, ?_, ?_, ?_, ?_, ?_, ?_, fun _ _ => hWa⟩
  · intro q t hq ht hne hl
    by_cases c : Rel g (p + 1) q t
    · rw [if_pos c] at hl ⊢
      rw [if_pos c]
      have := h.own t ht
      rw [region_mod lb sr (a t) (by omega)]
      exact this
    · rw [if_neg c] at hl; exact absurd rfl hl
  · intro q t hq ht hne hl
    by_cases c : Rel g (p + 1) q t
    · rw [if_pos c] at hl ⊢
      rw [if_pos c]
      have := h.own t ht
      rw [region_mod lb sr (a t) (by omega), region_mod lb _ (a t) (by omega)]
    · rw [if_neg c] at hl; exact absurd rfl hl
  · intro q t k hq ht hne hk
    by_cases c : Rel g (p + 1) q t
    · rw [if_pos c] at hk ⊢
      have := h.own t ht
      rw [Nat.add_assoc]
      exact hS q _ hq (by omega)
    · rw [if_neg c] at hk; omega
  · intro q t k hq ht hne hk
    by_cases c : Rel g (p + 1) q t
    · rw [if_pos c] at hk ⊢
      rw [Nat.add_assoc]
      exact hR t _ _ ht (hpi q t hne c) (by omega) (by omega)
    · rw [if_neg c] at hk; omega
  · intro q t hq ht hne hl
    by_cases c : Rel g (p + 1) q t
    · rw [if_pos c] at hl ⊢
      have := h.own t ht
      rw [region_div lb _ (a t) (by omega)]
      exact hW _ (hpi q t hne c)
    · rw [if_neg c] at hl; exact absurd rfl hl
  · intro t q q' n ht hq hq' hne hne' h1 h2 h3 h4
    by_cases c : Rel g (p + 1) q t
    · by_cases c' : Rel g (p + 1) t q'
      · rw [if_pos c] at h1 h2
        rw [if_pos c'] at h3 h4
        rw [if_pos c] at h2
        rw [if_pos c'] at h4
        have o1 := h.own t ht
        have o2 := h.own q' hq'
        have e1 : n / lb = ρ (pidx g (p + 1) t q) := (div_eq_iff' lb n _ (by omega)).2 ⟨by omega, by omega⟩
        have e2 : n / lb = sr := (div_eq_iff' lb n _ (by omega)).2 ⟨by omega, by omega⟩
        exact (h.hρ _ (hpi q t hne c)).2 (e1.symm.trans e2)
      · rw [if_neg c', if_neg c'] at h4; omega
    · rw [if_neg c, if_neg c] at h2; omega
  · intro t ht l hl
    obtain ⟨n, hn⟩ := List.getElem?_of_mem hl
    obtain ⟨_, rfl⟩ := mk_get hn
    exact h.cred t n
  · intro t ht n l hl r hr
    obtain ⟨hn, rfl⟩ := mk_get hl
    rw [h.red t n ht hn] at hr
    split at hr
    · rename_i hc
      obtain ⟨i, hi, rfl⟩ := List.mem_map.1 hr
      rw [List.mem_range] at hi
      have hlb : 0 < lb := by omega
      have hm : n % lb < lb := Nat.mod_lt _ hlb
      refine ⟨hc.1, ?_, ?_, hB t i _ ht hi hc.2.1 hc.2.2⟩
      · rw [region_div lb _ _ hm]
        exact (h.hσ i hi).2
      · have := hA t (n % lb) ht hc.2.1 hc.2.2
        rw [← hc.1, Nat.mul_comm, Nat.div_add_mod] at this
        exact this
    · cases hr

theorem good_gather {lb ro L g p : Nat} {f : Nat → Nat → LineD} (h : GatherLike lb (ro * lb) L g p f)
    (hshape : ∀ t, t < lb → Shape lb (Recursive.mk L (f t)))
    (Dl : Nat → Nat → Prop) (W : Nat → Prop) (hD : ∀ q x, q < lb → x < lb → Dl q (ro * lb + x)) (hW : W ro) :
    Good lb (fun t => Recursive.mk L (f t)) Dl W (fun q _ => ro * lb + q / g * g) (fun q _ => ro * lb + q / g * g)
      (fun q t => if Rel g (p + 1) q t then g else 0) (fun _ => ro) := by
  have hg := h.pos
  have hgl : g ∣ lb := Nat.dvd_trans ⟨p + 1, rfl⟩ h.dvd
  have hb : ∀ {q}, q < lb → q / g * g + g ≤ lb := fun hq => block_lt hg hgl hq
  refine ⟨h.exchange, hshape, ?_, fun _ _ _ _ _ _ => rfl, ?_, ?_, ?_, ?_, ?_, ?_, fun _ _ => hW⟩
  · intro q t hq ht hne hl
    have := hb hq
    rw [region_mod lb ro _ (by omega)]
    split <;> omega
  · intro q t k hq ht hne hk
    have := hb hq
    have : k < g := by split at hk <;> omega
    rw [Nat.add_assoc]
    exact hD q _ hq (by omega)
  · intro q t k hq ht hne hk
    have := hb hq
    have : k < g := by split at hk <;> omega
    rw [Nat.add_assoc]
    exact hD t _ ht (by omega)
  · intro q t hq ht hne hl
    have := hb hq
    rw [region_div lb ro _ (by omega)]
    exact hW
  · intro t q q' n ht hq hq' hne hne' h1 h2 h3 h4
    by_cases c : Rel g (p + 1) q t
    · rw [if_pos c] at h2
      have h4' : n < ro * lb + t / g * g + g := by split at h4 <;> omega
      have e1 := (div_eq_iff' g (n - ro * lb) (q / g) hg).2 ⟨by omega, by omega⟩
      have e2 := (div_eq_iff' g (n - ro * lb) (t / g) hg).2 ⟨by omega, by omega⟩
      exact hne (eq_of_digits g q t (e1.symm.trans e2) c.2)
    · rw [if_neg c] at h2; omega
  · intro t ht l hl
    obtain ⟨n, hn⟩ := List.getElem?_of_mem hl
    obtain ⟨_, rfl⟩ := mk_get hn
    exact h.cred t n
  · intro t ht n l hl r hr
    obtain ⟨hn, rfl⟩ := mk_get hl
    rw [h.red t n] at hr
    cases hr

theorem good_idle (N L : Nat) (f : Nat → Nat → LineD)
    (hs : ∀ t x, ∀ e, e ∈ (f t x).sendto → e.1 < 0) (hr : ∀ t x, (f t x).recvfrom = [])
    (h1 : ∀ t x, (f t x).reducefrom = []) (h2 : ∀ t x, (f t x).copyreducefrom = [])
    (hshape : ∀ t, t < N → Shape N (Recursive.mk L (f t))) (Dl : Nat → Nat → Prop) (W : Nat → Prop) (ro : Nat) (hW : W ro) :
    Good N (fun t => Recursive.mk L (f t)) Dl W (fun _ _ => 0) (fun _ _ => 0) (fun _ _ => 0) (fun _ => ro) := by
  have hx : Exchange N (fun t => Recursive.mk L (f t)) (fun _ _ => 0) (fun _ _ => 0) (fun _ _ => 0) := by
    constructor
    · intro q t _ _ _
      show sendIdx ((List.range L).map (f q)) t = _
      rw [sendIdx_mk]
      apply flatMap_range_interval _ _ _ _ (by omega)
      intro x _
      rw [if_neg (by omega), List.map_eq_nil_iff, List.filter_eq_nil_iff]
      intro e he
      have := hs q x e he
      simp only [beq_iff_eq]
      omega
    · intro q t _ _ _
      show recvIdx ((List.range L).map (f t)) q = _
      rw [recvIdx_mk]
      apply filter_range_interval _ _ _ _ (by omega)
      intro x _
      rw [hr t x]
      simp
    · intro q t _ _ _
      apply reduces_mk
      intro x _ e he
      rw [hr t x] at he; cases he
    · intro q t k _ _ _ hk; omega
    · intro q q' t n _ _ _ _ _ h3 h4; omega
  refine ⟨hx, hshape, fun _ _ _ _ _ h => absurd rfl h, fun _ _ _ _ _ h => absurd rfl h, fun _ _ _ _ _ _ h => by omega,
    fun _ _ _ _ _ _ h => by omega, fun _ _ _ _ _ h => absurd rfl h, fun _ _ _ _ _ _ _ _ _ h1 h2 => by omega, ?_, ?_, fun _ _ => hW⟩
  · intro t ht l hl
    obtain ⟨n, hn⟩ := List.getElem?_of_mem hl
    obtain ⟨_, rfl⟩ := mk_get hn
    exact h2 t n
  · intro t ht n l hl r hr
    obtain ⟨hn, rfl⟩ := mk_get hl
    rw [h1 t n] at hr
    cases hr

theorem AllGood.single {N : Nat} {bs : Nat → Block} {Dl : Nat → Nat → Prop} {W : Nat → Prop} {m0 n0 len : Nat → Nat → Nat}
    {dr : Nat → Nat} (h : Good N bs Dl W m0 n0 len dr) : AllGood N Dl W fun t => [bs t] :=
  .cons bs (fun _ => []) m0 n0 len dr (fun _ _ => rfl) h (.nil fun _ _ => rfl)

/-! ## Phases -/

/-- Rows but the input may be written. -/
def NotInput (r : Nat) : Prop := r ≠ 0

/-- Reduction steps; row 1 is only used in the last step. -/
theorem allGood_reduce (lb M : Nat) (hM : 0 < M) (Dl : Nat → Nat → Prop)
    (hD : ∀ t r x, t < lb → x < lb → r ≠ 1 → Dl t (r * lb + x))
    (hD1 : ∀ t x, t < lb → t / M * M ≤ x → x < t / M * M + M → Dl t (1 * lb + x))
    (ps : List Nat) (hp : ∀ p, p ∈ ps → 0 < p) (first : Bool) (gb : Nat)
    (hgb : gb = M * factor ps) (hd : gb ∣ lb) :
    AllGood lb Dl NotInput fun t => reduceSteps lb t first gb ps := by
  induction ps generalizing gb first with
  | nil => exact .nil fun _ _ => rfl
  | cons p ps ih =>
    obtain ⟨g, hgdef⟩ : ∃ g, g = M * factor ps := ⟨_, rfl⟩
    have hg : 0 < g := by rw [hgdef]; exact Nat.mul_pos hM (factor_pos ps)
    have hgb2 : gb = g * (p + 1) := by rw [hgb, factor_cons, hgdef]; ring
    subst hgb2
    have hgn : g * (p + 1) / (p + 1) = g := Nat.mul_div_cancel _ (by omega)
    have hpp := hp p List.mem_cons_self
    have hgl : g ∣ lb := Nat.dvd_trans ⟨p + 1, rfl⟩ hd
    have hlast : ps.isEmpty = true → g = M := by
      intro h
      rw [List.isEmpty_iff] at h
      rw [hgdef, h]
      simp [factor]
    have hown : ∀ t r x, t < lb → (r = 1 → ps.isEmpty = true) → t / g * g ≤ x → x < t / g * g + g → Dl t (r * lb + x) := by
      intro t r x ht hr h1 h2
      have := block_lt hg hgl ht
      by_cases c : r = 1
      · subst c
        rw [hlast (hr rfl)] at h1 h2
        exact hD1 t x ht h1 h2
      · exact hD t r x ht (by omega) c
    have hrho : ∀ i, i < p → (rho p first ps.isEmpty i = 1 → ps.isEmpty = true) ∧ rho p first ps.isEmpty i ≠ 0 := by
      intro i _
      unfold rho
      cases ps.isEmpty <;> cases first <;> simp <;> first | omega | (split <;> omega) | skip
    have hsig : ∀ i, i < p → sig first ps.isEmpty i ≠ 1 := by
      intro i _
      unfold sig
      cases ps.isEmpty <;> cases first <;> simp <;> first | omega | (split <;> omega) | skip
    have hgood := good_reduce (reduceLike lb g p first ps.isEmpty hpp hg hd)
      (fun t _ => shape_mk fun n _ => ⟨rfl, shape_reduceSend _ _ _ _ _ _, shape_reduceRecv _ _ _ _ _ _ _⟩) Dl NotInput
      (fun q x hq hx => hD q _ x hq hx (by split <;> omega))
      (fun t i x ht hi h1 h2 => hown t _ x ht (hrho i hi).1 h1 h2)
      (fun t x ht h1 h2 => hown t _ x ht (by split <;> first | (intro _; assumption) | omega) h1 h2)
      (fun t i x ht hi h1 h2 => hown t _ x ht (fun e => absurd e (hsig i hi)) h1 h2)
      (fun i hi => (hrho i hi).2) (by unfold NotInput; split <;> omega)
    have hrest := ih (fun q hq => hp q (List.mem_cons_of_mem _ hq)) false g hgdef hgl
    exact .cons _ _ _ _ _ _ (fun t _ => by rw [reduceSteps, hgn]; rfl) hgood hrest

theorem allGood_middle (lb M : Nat) (hMpos : 0 < M) (hMl : M ∣ lb) (Dl : Nat → Nat → Prop) (hD : ∀ t n, Dl t n)
    (mids : List Nat) (hp : ∀ p, p ∈ mids → 0 < p) (first : Bool) (g : Nat) (hg : 0 < g) (hM : g * factor mids = M) :
    AllGood lb Dl NotInput fun t => midList lb M t first g mids := by
  induction mids generalizing g first with
  | nil => exact .nil fun _ _ => rfl
  | cons p ps ih =>
    rw [factor_cons] at hM
    rw [← Nat.mul_assoc] at hM
    have hpp := hp p List.mem_cons_self
    have hdM : g * (p + 1) ∣ M := ⟨_, hM.symm⟩
    have hgood := good_reduce (middleLike lb M g p first hpp hg hMpos hdM hMl)
      (fun t _ => shape_mk fun n _ => ⟨rfl, fun e he => by
        dsimp only at he
        split_ifs at he <;> first
          | cases he; done
          | (obtain ⟨i, _, rfl⟩ := List.mem_map.1 he; dsimp only; omega), fun e he => by
        dsimp only at he
        split_ifs at he <;> first
          | cases he; done
          | (rw [List.mem_singleton.1 he]; dsimp only; omega)⟩) Dl NotInput
      (fun _ _ _ _ => hD _ _) (fun _ _ _ _ _ _ _ => hD _ _) (fun _ _ _ _ _ => hD _ _) (fun _ _ _ _ _ _ _ => hD _ _)
      (fun i _ => by unfold NotInput midRho; split <;> omega) (by unfold NotInput; omega)
    exact .cons _ _ _ _ _ _ (fun t _ => rfl) hgood
      (ih (fun q hq => hp q (List.mem_cons_of_mem _ hq)) false (g * (p + 1)) (Nat.mul_pos hg (by omega)) hM)

theorem allGood_gather (lb ro L : Nat) (F : Nat → Nat → Nat → Nat → LineD)
    (hF : ∀ g p, 0 < g → g * (p + 1) ∣ lb → GatherLike lb (ro * lb) L g p (F g p))
    (hshape : ∀ g p t, t < lb → Shape lb (Recursive.mk L (F g p t)))
    (st : Nat → Nat → List Nat → List Block) (hnil : ∀ t g, st t g [] = [])
    (hcons : ∀ t g p ps, st t g (p :: ps) = Recursive.mk L (F g p t) :: st t (g * (p + 1)) ps)
    (Dl : Nat → Nat → Prop) (W : Nat → Prop) (hD : ∀ q x, q < lb → x < lb → Dl q (ro * lb + x)) (hW : W ro)
    (ps : List Nat) (g : Nat) (hg : 0 < g) (hlb : g * factor ps ∣ lb) : AllGood lb Dl W fun t => st t g ps := by
  induction ps generalizing g with
  | nil => exact .nil fun t _ => hnil t g
  | cons p ps ih =>
    rw [factor_cons, ← Nat.mul_assoc] at hlb
    exact .cons _ _ _ _ _ _ (fun t _ => hcons t g p ps)
      (good_gather (hF g p hg (Nat.dvd_trans ⟨_, rfl⟩ hlb)) (hshape g p) Dl W hD hW)
      (ih (g * (p + 1)) (Nat.mul_pos hg (by omega)) hlb)

end ExtMpi.Optimise
