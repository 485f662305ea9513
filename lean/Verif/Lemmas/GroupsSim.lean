import Verif.Lemmas.GroupsLift
import Mathlib.Algebra.Group.Pi.Basic
/-! Execution of the schedule of all nodes from the executions of the schedules of the groups. -/
namespace ExtMpi.Groups
open Schedule

variable {F : Nat → Nat → Nat} {m : Nat → Nat} {fac L : Nat}

/-- The memory of a node of class `c` for the memory of a node of a group, whose values are functions of the class
and the number of the line among the `fac` lines. -/
def un {V : Type} (L fac c : Nat) (base : Nat → V) (v : Nat → Nat → Nat → V) : Nat → V := fun n =>
  if n < L then base n else v ((n - L) / fac) c ((n - L) % fac)

theorem un_line {V : Type} (L fac c : Nat) (base : Nat → V) (v : Nat → Nat → Nat → V) (i k : Nat) (hk : k < fac) :
    un L fac c base v (L + (i * fac + k)) = v i c k := by
  unfold un
  rw [if_neg (by omega)]
  have : L + (i * fac + k) - L = k + i * fac := by omega
  rw [this, Nat.add_mul_div_right _ _ (by omega), Nat.div_eq_of_lt hk, Nat.zero_add, Nat.add_mul_mod_self_right,
    Nat.mod_eq_of_lt hk]

/-- Every position is before the lines or one of the lines. -/
theorem position (L fac n : Nat) (hfac : 0 < fac) : n < L ∨ ∃ i k, k < fac ∧ n = L + (i * fac + k) := by
  by_cases h : n < L
  · exact .inl h
  · refine .inr ⟨(n - L) / fac, (n - L) % fac, Nat.mod_lt _ hfac, ?_⟩
    have := Nat.div_add_mod (n - L) fac
    rw [Nat.mul_comm] at this
    omega

theorem position_inj {L fac i k i' k' : Nat} (hk : k < fac) (hk' : k' < fac)
    (h : L + (i * fac + k) = L + (i' * fac + k')) : i = i' ∧ k = k' := by
  have h : i * fac + k = i' * fac + k' := by omega
  have h1 : (i * fac + k) / fac = (i' * fac + k') / fac := by rw [h]
  have h2 : (i * fac + k) % fac = (i' * fac + k') % fac := by rw [h]
  rw [Nat.add_comm, Nat.add_comm (i' * fac), Nat.add_mul_div_right _ _ (by omega), Nat.add_mul_div_right _ _ (by omega),
    Nat.div_eq_of_lt hk, Nat.div_eq_of_lt hk'] at h1
  rw [Nat.add_comm, Nat.add_comm (i' * fac), Nat.add_mul_mod_self_right, Nat.add_mul_mod_self_right,
    Nat.mod_eq_of_lt hk, Nat.mod_eq_of_lt hk'] at h2
  omega

theorem un_ext {V : Type} (hfac : 0 < fac) (c : Nat) (base : Nat → V) (w : Nat → V) (v : Nat → Nat → Nat → V)
    (h1 : ∀ n, n < L → w n = base n) (h2 : ∀ i k, k < fac → w (L + (i * fac + k)) = v i c k) :
    w = un L fac c base v := by
  funext n
  rcases position L fac n hfac with h | ⟨i, k, hk, rfl⟩
  · rw [h1 n h]; unfold un; rw [if_pos h]
  · rw [h2 i k hk, un_line _ _ _ _ _ _ _ hk]

theorem un_pre {V : Type} (L fac c : Nat) (base : Nat → V) (v : Nat → Nat → Nat → V) (n : Nat) (h : n < L) :
    un L fac c base v n = base n := by
  unfold un; rw [if_pos h]

/-! ## Messages -/

/-- The message for a message of the group. -/
def xmsg {V : Type} (F : Nat → Nat → Nat) (fac c : Nat) (msg : List (Option Nat × (Nat → Nat → V))) : List (Option Nat × V) :=
  msg.flatMap fun p => (List.range fac).map fun k => (p.1.map fun f => F f k, p.2 c k)

theorem message_sim {V : Type} {b B : Block} (h : BlockSim F m fac L b B) (g q c : Nat) (hb : ∀ l, l ∈ b → LineOf g l)
    (hinj : ∀ j, j < g → m j = m q → j = q)
    (hc : ∀ l, l ∈ b → (l.sendto.filter fun e => e.1 == (q : Int)).length ≤ 1 ∨ fac = 1)
    (base : Nat → V) (v : Nat → Nat → Nat → V) :
    message B (un L fac c base v) (m q) = xmsg F fac c (message b v q) := by
  unfold message xmsg
  rw [sendIdx_sim h g q hb hinj hc, List.map_flatMap, List.flatMap_map]
  congr 1
  funext i
  rw [List.range'_eq_map_range, List.map_map]
  apply List.map_congr_left
  intro k hk
  have hk := List.mem_range.1 hk
  rw [Function.comp_apply, Nat.add_assoc, fracOf_sim h i k hk, un_line _ _ _ _ _ _ _ hk]

theorem xmsg_length {V : Type} (c : Nat) (msg : List (Option Nat × (Nat → Nat → V))) :
    (xmsg F fac c msg).length = msg.length * fac := by
  unfold xmsg
  rw [List.length_flatMap]
  simp

theorem flatMap_get {α β : Type} (f : α → List β) (fac : Nat) (hf : ∀ a, (f a).length = fac) (xs : List α) (i k : Nat)
    (hk : k < fac) : (xs.flatMap f)[i * fac + k]? = (xs[i]?).bind fun a => (f a)[k]? := by
  induction xs generalizing i with
  | nil => simp
  | cons x xs ih =>
    rw [List.flatMap_cons]
    cases i with
    | zero =>
      rw [Nat.zero_mul, Nat.zero_add, List.getElem?_append_left (by rw [hf]; exact hk)]
      rfl
    | succ i =>
      have e : (i + 1) * fac = i * fac + fac := by rw [Nat.add_mul, Nat.one_mul]
      rw [List.getElem?_append_right (by rw [hf]; omega), hf, List.getElem?_cons_succ, ← ih i]
      congr 1
      omega

theorem xmsg_get {V : Type} (c : Nat) (msg : List (Option Nat × (Nat → Nat → V))) (i k : Nat) (hk : k < fac) :
    (xmsg F fac c msg)[i * fac + k]? = (msg[i]?).map fun p => (p.1.map fun f => F f k, p.2 c k) := by
  unfold xmsg
  rw [flatMap_get _ fac (by simp) _ _ _ hk]
  cases msg[i]? with
  | none => rfl
  | some p => simp [hk]

theorem range'_flat (n0 len : Nat) : (List.range' n0 len).flatMap (fun i => List.range' (L + i * fac) fac) =
    List.range' (L + n0 * fac) (len * fac) := by
  induction len generalizing n0 with
  | zero => simp
  | succ len ih =>
    rw [List.range'_succ, List.flatMap_cons, ih (n0 + 1)]
    have e1 : L + (n0 + 1) * fac = L + n0 * fac + fac := by rw [Nat.add_mul, Nat.one_mul]; omega
    have e2 : (len + 1) * fac = fac + len * fac := by rw [Nat.add_mul, Nat.one_mul]; omega
    rw [e1, e2, List.range'_append_1]

theorem deliver_sim {V : Type} [Add V] {b B : Block} (h : BlockSim F m fac L b B) (g l q c : Nat)
    (hb : ∀ l, l ∈ b → LineOf g l) (hfac : 0 < fac) (hinj : ∀ i j, i < g → j < g → m i = m j → i = j)
    (hl : l < g) (hq : q < g) (msg : List (Option Nat × (Nat → Nat → V))) (base : Nat → V) (v v' : Nat → Nat → Nat → V)
    (hd : deliver b l q msg v = some v') :
    deliver B (m l) (m q) (xmsg F fac c msg) (un L fac c base v) = some (un L fac c base v') := by
  have hred := reduces_sim h g l q hb hfac hinj hl hq
  have hrecv := recvIdx_sim h g q hb fun j hj => hinj j q hj hq
  unfold deliver at hd ⊢
  rw [hrecv, hred]
  cases hr : recvIdx b q with
  | nil =>
    rw [hr] at hd
    simp only at hd
    split at hd
    · rename_i hm
      rw [List.isEmpty_iff] at hm
      subst hm
      cases Option.some.inj hd
      rfl
    · cases hd
  | cons n0 ns =>
    rw [hr] at hd
    simp only at hd
    split at hd
    · rename_i hm
      obtain ⟨hm1, hm2⟩ := hm
      have hv' := Option.some.inj hd
      have hlen : msg.length = ns.length + 1 := by
        have := congrArg List.length hm2
        simpa using this
      rw [hm1, range'_flat]
      have e2 : (ns.length + 1) * fac = ((ns.length + 1) * fac - 1) + 1 := by
        have : 0 < (ns.length + 1) * fac := Nat.mul_pos (by omega) hfac
        omega
      have hfr : (xmsg F fac c msg).map Prod.fst = (List.range' (L + n0 * fac) ((ns.length + 1) * fac)).map (fracOf B) := by
        rw [← range'_flat, List.map_flatMap]
        have : (fun i => (List.range' (L + i * fac) fac).map (fracOf B)) = fun i => (fun o : Option Nat =>
            (List.range fac).map fun k => o.map fun f => F f k) (fracOf b i) := funext fun i => fracOf_range h i
        rw [this]
        have hcomp : ∀ (xs : List Nat) (f : Nat → Option Nat) (G : Option Nat → List (Option Nat)),
            (xs.flatMap fun i => G (f i)) = (xs.map f).flatMap G := fun xs f G => (List.flatMap_map _ _ _).symm
        rw [hcomp _ (fracOf b) fun o => (List.range fac).map fun k => o.map fun f => F f k, ← hm2, List.flatMap_map]
        unfold xmsg
        rw [List.map_flatMap]
        congr 1
        funext p
        rw [List.map_map]
        rfl
      rw [e2] at hfr ⊢
      rw [List.range'_succ]
      have hl1 : (List.range' (L + n0 * fac + 1) ((ns.length + 1) * fac - 1)).length + 1 = (ns.length + 1) * fac - 1 + 1 := by
        simp
      simp only [hl1]
      rw [if_pos ⟨(List.range'_succ ..).symm, hfr⟩]
      congr 1
      apply un_ext hfac
      · intro n hn
        rw [if_neg (by omega), un_pre _ _ _ _ _ _ hn]
      · intro i k hk
        rw [un_line _ _ _ _ _ _ _ hk, ← hv']
        by_cases c1 : n0 ≤ i
        · have h1 : n0 * fac ≤ i * fac := Nat.mul_le_mul_right fac c1
          have h2 : L + (i * fac + k) - (L + n0 * fac) = (i - n0) * fac + k := by
            rw [Nat.sub_mul]; omega
          rw [if_pos (by omega), h2, xmsg_get c msg (i - n0) k hk]
          simp only [if_pos c1]
          cases msg[i - n0]? with
          | none => rfl
          | some p =>
            simp only [Option.map_some]
            split <;> rfl
        · have h1 : (i + 1) * fac ≤ n0 * fac := Nat.mul_le_mul_right fac (by omega)
          rw [Nat.add_mul] at h1
          rw [if_neg (by omega)]
          simp only [if_neg c1]
    · cases hd

/-! ## Local reductions -/

/-- The reductions of one line. -/
def lineOp {V : Type} [Add V] (i : Nat) (rs : List Nat) (v : Nat → V) : Nat → V :=
  rs.foldl (fun v r => upd v i (v i + v r)) v

theorem lineOp_slot {V : Type} [Add V] (i c k : Nat) (rs : List Nat) (v : Nat → Nat → Nat → V) :
    (fun j => lineOp i rs v j c k) = lineOp i rs fun j => v j c k := by
  unfold lineOp
  induction rs generalizing v with
  | nil => rfl
  | cons r rs ih =>
    rw [List.foldl_cons, List.foldl_cons, ih]
    congr 1
    funext j
    unfold upd
    split <;> rfl

theorem lineOp_sub {V : Type} [Add V] (i k : Nat) (hk : k < fac) (rs : List Nat) (w : Nat → V) :
    (∀ n, n < L → lineOp (L + (i * fac + k)) (rs.map fun r => L + (r * fac + k)) w n = w n) ∧
    (∀ j k', k' < fac → k' ≠ k →
      lineOp (L + (i * fac + k)) (rs.map fun r => L + (r * fac + k)) w (L + (j * fac + k')) = w (L + (j * fac + k'))) ∧
    ∀ j, lineOp (L + (i * fac + k)) (rs.map fun r => L + (r * fac + k)) w (L + (j * fac + k)) =
      lineOp i rs (fun j => w (L + (j * fac + k))) j := by
  unfold lineOp
  induction rs generalizing w with
  | nil => exact ⟨fun _ _ => rfl, fun _ _ _ _ => rfl, fun _ => rfl⟩
  | cons r rs ih =>
    rw [List.map_cons, List.foldl_cons, List.foldl_cons]
    obtain ⟨h1, h2, h3⟩ := ih (upd w (L + (i * fac + k)) (w (L + (i * fac + k)) + w (L + (r * fac + k))))
    refine ⟨?_, ?_, ?_⟩
    · intro n hn
      rw [h1 n hn]
      unfold upd
      rw [if_neg (by omega)]
    · intro j k' hk' hne
      rw [h2 j k' hk' hne]
      unfold upd
      rw [if_neg fun e => hne (position_inj hk' hk e).2]
    · intro j
      rw [h3 j]
      refine congrFun (congrArg (fun z => rs.foldl _ z) (funext fun x => ?_)) j
      unfold upd
      by_cases e : x = i
      · rw [e, if_pos rfl, if_pos rfl]
      · rw [if_neg e, if_neg fun e' => e (position_inj hk hk e').1]

theorem part_reduce {V : Type} [Add V] (i k0 : Nat) (l : LineD) (part : List LineD) (hp : k0 + part.length ≤ fac)
    (hs : ∀ k l', part[k]? = some l' → LineSim F m fac L (k0 + k) l l') (w : Nat → V) :
    (∀ n, n < L → (part.zipIdx (L + (i * fac + k0))).foldl (fun v x => lineOp x.2 x.1.reducefrom v) w n = w n) ∧
    (∀ j k, k < fac → (k < k0 ∨ k0 + part.length ≤ k) →
      (part.zipIdx (L + (i * fac + k0))).foldl (fun v x => lineOp x.2 x.1.reducefrom v) w (L + (j * fac + k)) =
        w (L + (j * fac + k))) ∧
    ∀ j k, k0 ≤ k → k < k0 + part.length →
      (part.zipIdx (L + (i * fac + k0))).foldl (fun v x => lineOp x.2 x.1.reducefrom v) w (L + (j * fac + k)) =
        lineOp i l.reducefrom (fun j => w (L + (j * fac + k))) j := by
  induction part generalizing k0 w with
  | nil => exact ⟨fun _ _ => rfl, fun _ _ _ _ => rfl, fun _ _ a b => absurd b (by simp; omega)⟩
  | cons x xs ih =>
    rw [List.length_cons] at hp
    have hx := hs 0 x rfl
    rw [Nat.add_zero] at hx
    rw [List.zipIdx_cons, List.foldl_cons]
    obtain ⟨a1, a2, a3⟩ := lineOp_sub (L := L) i k0 (by omega : k0 < fac) l.reducefrom w
    rw [hx.red]
    have e : L + (i * fac + k0) + 1 = L + (i * fac + (k0 + 1)) := by omega
    rw [e]
    obtain ⟨h1, h2, h3⟩ := ih (k0 + 1) (by omega) (fun k l' hk => by
      have := hs (k + 1) l' (by rw [List.getElem?_cons_succ]; exact hk)
      have e : k0 + 1 + k = k0 + (k + 1) := by omega
      rw [e]; exact this) (lineOp (L + (i * fac + k0)) (l.reducefrom.map fun r => L + (r * fac + k0)) w)
    refine ⟨?_, ?_, ?_⟩
    · intro n hn
      rw [h1 n hn, a1 n hn]
    · intro j k hk hor
      rw [List.length_cons] at hor
      rw [h2 j k hk (by omega), a2 j k hk (by omega)]
    · intro j k hk1 hk2
      rw [List.length_cons] at hk2
      by_cases c : k = k0
      · subst c
        rw [h2 j k (by omega) (by omega), a3 j]
      · rw [h3 j k (by omega) (by omega)]
        congr 1
        funext j
        exact a2 j k (by omega) c

theorem part_reduce_un {V : Type} [Add V] (hfac : 0 < fac) (i c : Nat) (l : LineD) (part : List LineD)
    (hp : PartSim F m fac L l part) (base : Nat → V) (v : Nat → Nat → Nat → V) :
    (part.zipIdx (L + i * fac)).foldl (fun v x => lineOp x.2 x.1.reducefrom v) (un L fac c base v) =
      un L fac c base (lineOp i l.reducefrom v) := by
  obtain ⟨h1, _, h3⟩ := part_reduce (F := F) (m := m) (L := L) (fac := fac) i 0 l part (by rw [hp.len]; omega)
    (fun k l' hk => by rw [Nat.zero_add]; exact hp.line k l' hk) (un L fac c base v)
  rw [Nat.add_zero] at h1 h3
  apply un_ext hfac
  · intro n hn
    rw [h1 n hn, un_pre _ _ _ _ _ _ hn]
  · intro j k hk
    rw [h3 j k (by omega) (by rw [hp.len]; omega)]
    have := congrFun (lineOp_slot i c k l.reducefrom v) j
    rw [this]
    congr 1
    funext j
    rw [un_line _ _ _ _ _ _ _ hk]

theorem body_reduce {V : Type} [Add V] (hfac : 0 < fac) (c : Nat) (b : Block) (parts : List (List LineD))
    (h : List.Forall₂ (PartSim F m fac L) b parts) (base : Nat → V) (i : Nat) (v : Nat → Nat → Nat → V) :
    (parts.flatten.zipIdx (L + i * fac)).foldl (fun v x => lineOp x.2 x.1.reducefrom v) (un L fac c base v) =
      un L fac c base ((b.zipIdx i).foldl (fun v x => lineOp x.2 x.1.reducefrom v) v) := by
  induction h generalizing i v with
  | nil => rfl
  | @cons l part ls parts hp hps ih =>
    have e : L + i * fac + fac = L + (i + 1) * fac := by rw [Nat.add_mul]; omega
    rw [List.flatten_cons, List.zipIdx_append, List.foldl_append, part_reduce_un hfac i c l part hp, hp.len, e,
      ih (i + 1), List.zipIdx_cons, List.foldl_cons]

theorem reduceAll_sim {V : Type} [Add V] {b B : Block} (h : BlockSim F m fac L b B) (hfac : 0 < fac) (c : Nat)
    (base : Nat → V) (v : Nat → Nat → Nat → V) :
    reduceAll B (un L fac c base v) = un L fac c base (reduceAll b v) := by
  obtain ⟨pre, parts, rfl, hL, hpre, hp⟩ := h.ex
  have := body_reduce hfac c b parts hp base 0 v
  rw [Nat.zero_mul, Nat.add_zero] at this
  unfold reduceAll
  rw [List.zipIdx_append, List.foldl_append, hL, Nat.zero_add]
  have hid : ∀ (xs : List (LineD × Nat)) (w : Nat → V), (∀ x, x ∈ xs → x.1.reducefrom = []) →
      xs.foldl (fun v x => x.1.reducefrom.foldl (fun v r => upd v x.2 (v x.2 + v r)) v) w = w := by
    intro xs
    induction xs with
    | nil => intro w _; rfl
    | cons x xs ih =>
      intro w hx
      rw [List.foldl_cons, hx x List.mem_cons_self]
      exact ih w fun y hy => hx y (List.mem_cons_of_mem _ hy)
  rw [hid _ _ fun x hx => (hpre x.1 (mem_of_zipIdx hx)).red]
  exact this

theorem reduceOk_sim {b B : Block} (h : BlockSim F m fac L b B) (hfac : 0 < fac)
    (hok : reduceOk b = true) : reduceOk B = true := by
  rw [reduceOk_iff] at hok ⊢
  intro n l' hl' r hr
  rcases position L fac n hfac with hn | ⟨i, k, hk, rfl⟩
  · obtain ⟨pre, parts, rfl, hL, hpre, hp⟩ := h.ex
    rw [List.getElem?_append_left (by omega)] at hl'
    have := hpre l' (List.mem_of_getElem? hl')
    rw [this.red, this.copy] at hr
    cases hr
  · rcases h.get i k hk with ⟨_, h2⟩ | ⟨x, x', h1, h2, h3⟩
    · rw [h2] at hl'; cases hl'
    · rw [h2] at hl'
      cases Option.some.inj hl'
      rw [h3.red, h3.copy, List.append_nil] at hr
      obtain ⟨r', hr', rfl⟩ := List.mem_map.1 hr
      obtain ⟨e1, e2⟩ := hok i x h1 r' (List.mem_append_left _ hr')
      refine ⟨fun e => e1 (position_inj hk hk e).1, ?_⟩
      rw [fracOf_sim h r' k hk, e2, h3.frac]
      rfl

/-! ## One block -/

theorem foldlM_filter {W : Type} (f : W → Nat → Option W) (P : Nat → Bool) (qs : List Nat) (v : W)
    (h : ∀ q, q ∈ qs → P q = false → ∀ v, f v q = some v) : qs.foldlM f v = (qs.filter P).foldlM f v := by
  induction qs generalizing v with
  | nil => rfl
  | cons q qs ih =>
    have ih := fun v => ih v fun q hq => h q (List.mem_cons_of_mem _ hq)
    rw [List.foldlM_cons]
    cases hc : P q with
    | true =>
      rw [List.filter_cons_of_pos hc, List.foldlM_cons]
      congr 1
      funext v
      exact ih v
    | false =>
      rw [List.filter_cons_of_neg (by simp [hc]), h q List.mem_cons_self hc]
      exact ih v

theorem foldlM_sim {W W' : Type} (f : W → Nat → Option W) (f' : W' → Nat → Option W') (u : W → W') (m : Nat → Nat)
    (qs : List Nat) (h : ∀ q, q ∈ qs → ∀ v v', f v q = some v' → f' (u v) (m q) = some (u v')) (v v' : W)
    (hf : qs.foldlM f v = some v') : (qs.map m).foldlM f' (u v) = some (u v') := by
  induction qs generalizing v with
  | nil =>
    cases Option.some.inj hf
    rfl
  | cons q qs ih =>
    rw [List.foldlM_cons] at hf
    rw [List.map_cons, List.foldlM_cons]
    cases hq : f v q with
    | none => rw [hq] at hf; cases hf
    | some v1 =>
      rw [hq] at hf
      rw [h q List.mem_cons_self v v1 hq]
      exact ih (fun q hq => h q (List.mem_cons_of_mem _ hq)) v1 hf

/-- The lines of a block for node `l` of `g`: the entries are nodes, and every line is sent at most once to another
node. -/
structure BlockOf (fac g l : Nat) (b : Block) : Prop where
  line : ∀ x, x ∈ b → LineOf g x
  once : ∀ x, x ∈ b → ∀ q, q < g → q ≠ l → (x.sendto.filter fun e => e.1 == (q : Int)).length ≤ 1 ∨ fac = 1

theorem nodeStep_sim {V : Type} [Add V] {N g : Nat} {cls loc : Nat → Nat} {gl : Nat → Nat → Nat}
    (hsp : Split N g cls loc gl) (hfac : 0 < fac) (F : Nat → Nat → Nat → Nat) (L : Nat → Nat)
    (b B : Nat → Block) (hb : ∀ l, l < g → BlockOf fac g l (b l))
    (hB : ∀ t, t < N → BlockSim (F (cls t)) (gl (cls t)) fac (L t) (b (loc t)) (B t))
    (base : Nat → Nat → V) (s s' : Nat → Nat → Nat → Nat → V) (h : ∀ l, l < g → nodeStep g b s l = some (s' l))
    (t : Nat) (ht : t < N) :
    nodeStep N B (fun t => un (L t) fac (cls t) (base t) (s (loc t))) t =
      some (un (L t) fac (cls t) (base t) (s' (loc t))) := by
  have hl := hsp.locLt t ht
  have hinj : ∀ i j, i < g → j < g → gl (cls t) i = gl (cls t) j → i = j := fun i j hi hj => hsp.inj t i j ht hi hj
  have hs := h (loc t) hl
  unfold nodeStep at hs
  obtain ⟨hok, hs⟩ := Option.ite_none_right_eq_some.1 hs
  obtain ⟨v, hv, hs⟩ := Option.map_eq_some_iff.1 hs
  have hsim := hB t ht
  have hbt := hb (loc t) hl
  rw [nodeStep_ok _ _ _ _ (reduceOk_sim hsim hfac hok)]
  have key : recvAll N (B t) t (fun q => message (B q) (un (L q) fac (cls q) (base q) (s (loc q))) t)
      (un (L t) fac (cls t) (base t) (s (loc t))) = some (un (L t) fac (cls t) (base t) v) := by
    unfold recvAll at hv ⊢
    rw [foldlM_filter _ (fun q => cls q == cls t), order_filter hsp t ht]
    · apply foldlM_sim _ _ (un (L t) fac (cls t) (base t)) (gl (cls t)) _ _ _ _ hv
      intro q hq v v' hd
      have hqg : q < g := by
        obtain ⟨o, _, rfl⟩ := List.mem_map.1 hq
        exact Nat.mod_lt _ (by omega)
      have hgq := hsp.lt t q ht hqg
      by_cases c : q = loc t
      · rw [if_pos c] at hd
        cases Option.some.inj hd
        rw [if_pos (by rw [c]; exact hsp.back t ht)]
      · rw [if_neg c] at hd
        rw [if_neg (fun e => c (by rw [← hsp.locEq t q ht hqg, e]))]
        have e1 := hsp.locEq t q ht hqg
        have e2 := hsp.clsEq t q ht hqg
        have hsq := hB _ hgq
        rw [e1, e2] at hsq
        have hm := message_sim hsq g (loc t) (cls t) (hb q hqg).line (fun j hj e => hinj j (loc t) hj hl e)
          (fun x hx => (hb q hqg).once x hx (loc t) hl (fun e => c e.symm)) (base (gl (cls t) q)) (s q)
        rw [hsp.back t ht] at hm
        simp only [e1, e2]
        rw [hm]
        have := deliver_sim hsim g (loc t) q (cls t) hbt.line hfac hinj hl hqg _ (base t) v v' hd
        rw [hsp.back t ht] at this
        exact this
    · intro q hq hP v
      have hqN : q < N := by
        obtain ⟨o, _, rfl⟩ := List.mem_map.1 hq
        exact Nat.mod_lt _ (by omega)
      have hP : cls q ≠ cls t := by simpa using hP
      have hne : q ≠ t := fun e => hP (by rw [e])
      rw [if_neg hne]
      have hr : recvIdx (B t) q = [] := recvIdx_other hsim g q hbt.line fun j hj e => hP (by
        rw [← e]; exact hsp.clsEq t j ht hj)
      have hm : sendIdx (B q) t = [] := sendIdx_other (hB q hqN) g t (hb _ (hsp.locLt q hqN)).line fun j hj e => hP (by
        rw [← e]; exact (hsp.clsEq q j hqN hj).symm)
      have hm : message (B q) (un (L q) fac (cls q) (base q) (s (loc q))) t = [] := by
        unfold message
        rw [hm]
        rfl
      simp only [hm]
      unfold deliver
      rw [hr]
      rfl
  rw [key, Option.map_some]
  congr 1
  rw [copyReduceAll_none, reduceAll_sim hsim hfac, ← hs, copyReduceAll_none]
  · intro x hx
    exact (hbt.line x hx).copy
  · intro x hx
    rcases hsim.mem hx with hi | ⟨y, k, _, hy⟩
    · exact hi.copy
    · exact hy.copy

/-- The run of all nodes from the run of a group. -/
theorem run_sim {V : Type} [Add V] {N g : Nat} {cls loc : Nat → Nat} {gl : Nat → Nat → Nat}
    (hsp : Split N g cls loc gl) (hfac : 0 < fac) (F : Nat → Nat → Nat → Nat) (L : Nat → Nat) (base : Nat → Nat → V)
    {p : Nat → List Block} {s s' : Nat → Nat → Nat → Nat → V} (h : Run g p s s') (P : Nat → List Block)
    (hp : ∀ l, l < g → ∀ b, b ∈ p l → BlockOf fac g l b)
    (hP : ∀ t, t < N → List.Forall₂ (BlockSim (F (cls t)) (gl (cls t)) fac (L t)) (p (loc t)) (P t)) :
    Run N P (fun t => un (L t) fac (cls t) (base t) (s (loc t)))
      (fun t => un (L t) fac (cls t) (base t) (s' (loc t))) := by
  induction h generalizing P with
  | @done p s h =>
    apply Run.done
    intro t ht
    have := hP t ht
    rw [h _ (hsp.locLt t ht)] at this
    exact List.forall₂_nil_left_iff.1 this
  | @step p s s'' hd tl s1 h1 h2 _ ih =>
    have hex : ∀ t, ∃ x : Block × List Block, t < N → P t = x.1 :: x.2 ∧
        BlockSim (F (cls t)) (gl (cls t)) fac (L t) (hd (loc t)) x.1 ∧
        List.Forall₂ (BlockSim (F (cls t)) (gl (cls t)) fac (L t)) (tl (loc t)) x.2 := by
      intro t
      by_cases ht : t < N
      · have := hP t ht
        rw [h1 _ (hsp.locLt t ht)] at this
        obtain ⟨x, xs, a, b, c⟩ := List.forall₂_cons_left_iff.1 this
        exact ⟨(x, xs), fun _ => ⟨c, a, b⟩⟩
      · exact ⟨([], []), fun h => absurd h ht⟩
    choose x hx using hex
    refine .step (fun t => (x t).1) (fun t => (x t).2) _ (fun t ht => (hx t ht).1)
      (fun t ht => nodeStep_sim hsp hfac F L hd (fun t => (x t).1) ?_ (fun t ht => (hx t ht).2.1) base s s1 h2 t ht)
      (ih (fun t => (x t).2) ?_ fun t ht => (hx t ht).2.2)
    · intro l hl
      exact hp l hl _ (by rw [h1 l hl]; exact List.mem_cons_self)
    · intro l hl b hb
      exact hp l hl b (by rw [h1 l hl]; exact List.mem_cons_of_mem _ hb)

end ExtMpi.Groups
