import Verif.Lemmas.GroupsSide
import Mathlib.Algebra.BigOperators.Pi
/-! What the steps of a group do to the memory of all nodes. -/
namespace ExtMpi.Groups
open Schedule

theorem inert_step {V : Type} [Add V] (N : Nat) (bs : Nat → Block) (s : Nat → Nat → V)
    (h : ∀ t, t < N → ∀ l, l ∈ bs t → Inert l) (t : Nat) (ht : t < N) : nodeStep N bs s t = some (s t) := by
  have hok : reduceOk (bs t) = true := reduceOk_nil _ fun l hl => ⟨(h t ht l hl).red, (h t ht l hl).copy⟩
  rw [nodeStep_ok _ _ _ _ hok]
  unfold recvAll
  rw [foldlM_some]
  · rw [Option.map_some, copyReduceAll_none _ _ fun l hl => (h t ht l hl).copy]
    congr 1
    unfold reduceAll
    have hid : ∀ (xs : List (LineD × Nat)) (w : Nat → V), (∀ x, x ∈ xs → x.1.reducefrom = []) →
        xs.foldl (fun v x => x.1.reducefrom.foldl (fun v r => upd v x.2 (v x.2 + v r)) v) w = w := by
      intro xs
      induction xs with
      | nil => intro w _; rfl
      | cons x xs ih =>
        intro w hx
        rw [List.foldl_cons, hx x List.mem_cons_self]
        exact ih w fun y hy => hx y (List.mem_cons_of_mem _ hy)
    exact hid _ _ fun x hx => (h t ht x.1 (mem_of_zipIdx hx)).red
  · intro q hq
    by_cases hn : q = t
    · rw [if_pos hn]
    · rw [if_neg hn]
      have hqN : q < N := by
        obtain ⟨o, _, rfl⟩ := List.mem_map.1 hq
        exact Nat.mod_lt _ (by omega)
      have hm : message (bs q) (s q) t = [] := by
        unfold message
        rw [sendIdx_nil _ _ fun l hl => (h q hqN l hl).send]
        rfl
      have hr : recvIdx (bs t) q = [] := by
        unfold recvIdx
        rw [List.map_eq_nil_iff, List.filter_eq_nil_iff]
        intro x hx
        rw [List.any_eq_true]
        rintro ⟨e, he, h2⟩
        have := (h t ht x.1 (mem_of_zipIdx hx)).recv e he
        rw [beq_iff_eq] at h2
        omega
      simp only [hm]
      unfold deliver
      rw [hr]
      rfl

theorem un_shift {V : Type} (L fac c : Nat) (hfac : 0 < fac) (w : Nat → V) (v : Nat → Nat → Nat → V)
    (h : ∀ i k, k < fac → v i c k = w (L + (i * fac + k))) : un L fac c w v = w := by
  symm
  apply un_ext hfac
  · intro n _; rfl
  · intro i k hk; exact (h i k hk).symm

theorem down_step {V : Type} [AddCommMonoid V] (N g : Nat) (gs negs : List Nat) (hg : 0 < g) (hfac : 0 < gs.prod)
    (hst : 0 < stride N (g :: gs)) (hd : g * stride N (g :: gs) ∣ N)
    (hcov : g ≤ (negs.map (· + 1)).prod) (s : Nat → Nat → V) :
    ∃ s', Run N (fun t => (downTail g negs (localOf N (g :: gs) t)).map (liftBlock N (g :: gs) t)) s s' ∧
      ∀ t k, t < N → k < gs.prod → s' t k = ∑ j ∈ Finset.range g,
        s (globalOf N (g :: gs) t j) ((localOf N (g :: gs) t + g - j) % g * gs.prod + k) := by
  have hsp := splitOf N (g :: gs) hst hg hd
  obtain ⟨σ', h1, h2⟩ := down_local g hg negs hcov
    (fun l i c k => s (globalOf N (g :: gs) c l) (i * gs.prod + k))
  have h3 := run_sim hsp hfac (fun c f k => numAt N gs (globalOf N (g :: gs) c f) k) (fun _ => 0) s h1
    (fun t => (downTail g negs (localOf N (g :: gs) t)).map (liftBlock N (g :: gs) t))
    (fun l _ b hb => downTail_of gs.prod g hg negs l b hb) (fun t _ => by
      rw [List.forall₂_map_right_iff, List.forall₂_same]
      intro b _
      exact liftBlock_sim N (g :: gs) t _ b fun j => global_global N (g :: gs) t 0 j hst hg)
  have e : (fun t => un 0 gs.prod (globalOf N (g :: gs) t 0) (s t)
      (fun i c k => s (globalOf N (g :: gs) c (localOf N (g :: gs) t)) (i * gs.prod + k))) = s := by
    funext t
    apply un_shift _ _ _ hfac
    intro i k _
    rw [global_global N (g :: gs) t 0 _ hst hg, global_self, Nat.zero_add]
  rw [e] at h3
  refine ⟨_, h3, ?_⟩
  intro t k ht hk
  have := un_line 0 gs.prod (globalOf N (g :: gs) t 0) (s t) (σ' (localOf N (g :: gs) t)) 0 k hk
  rw [Nat.zero_mul, Nat.zero_add, Nat.zero_add] at this
  rw [this, h2 _ (hsp.locLt t ht), Finset.sum_apply, Finset.sum_apply]
  apply Finset.sum_congr rfl
  intro j _
  rw [global_global N (g :: gs) t 0 _ hst hg]

theorem up_step {V : Type} [Add V] (N g : Nat) (gs ports : List Nat) (hg : 0 < g) (hfac : 0 < gs.prod)
    (hst : 0 < stride N (g :: gs)) (hd : g * stride N (g :: gs) ∣ N) (hp : ∀ p, p ∈ ports → 0 < p)
    (hfit : Cyclic.Suits g 1 ports) (hcov : g ≤ (ports.map (· + 1)).prod) (L : Nat → Nat) (P : Nat → List Block)
    (hP : ∀ t, t < N → List.Forall₂ (BlockSim (fun f k => numAt N gs (globalOf N (g :: gs) (globalOf N (g :: gs) t 0) f) k)
      (globalOf N (g :: gs) (globalOf N (g :: gs) t 0)) gs.prod (L t)) (upTail g ports (localOf N (g :: gs) t)) (P t))
    (s : Nat → Nat → V) :
    ∃ s', Run N P s s' ∧ ∀ t i k, t < N → i < g → k < gs.prod → s' t (L t + (i * gs.prod + k)) =
      s (globalOf N (g :: gs) t ((i + localOf N (g :: gs) t) % g))
        (L (globalOf N (g :: gs) t ((i + localOf N (g :: gs) t) % g)) + k) := by
  have hsp := splitOf N (g :: gs) hst hg hd
  obtain ⟨_, hup⟩ := up_local (V := Nat → Nat → V) g hg ports hp hfit hcov
  obtain ⟨σ', h1, h2⟩ := hup
    (fun l i c k => s (globalOf N (g :: gs) c l) (L (globalOf N (g :: gs) c l) + (i * gs.prod + k)))
  have h3 := run_sim hsp hfac (fun c f k => numAt N gs (globalOf N (g :: gs) c f) k) L s h1 P
    (fun l hl b hb => upTail_of gs.prod g hg ports hp hfit l hl b hb) hP
  have e : (fun t => un (L t) gs.prod (globalOf N (g :: gs) t 0) (s t)
      (fun i c k => s (globalOf N (g :: gs) c (localOf N (g :: gs) t))
        (L (globalOf N (g :: gs) c (localOf N (g :: gs) t)) + (i * gs.prod + k)))) = s := by
    funext t
    apply un_shift _ _ _ hfac
    intro i k _
    rw [global_global N (g :: gs) t 0 _ hst hg, global_self]
  rw [e] at h3
  refine ⟨_, h3, ?_⟩
  intro t i k ht hi hk
  have hl := hsp.locLt t ht
  rw [un_line _ _ _ _ _ _ _ hk, h2 _ i hl hi]
  dsimp only
  rw [global_global N (g :: gs) t 0 _ hst hg, Nat.zero_mul, Nat.zero_add,
    Nat.add_comm (localOf N (g :: gs) t) i]

end ExtMpi.Groups
