import Verif.Lemmas.OptimiseUser
/-! # Allgather programs that work in the receive buffer -/
namespace ExtMpi.Optimise
open RawCode Schedule Recursive

/-! ## Copy-out and `use_recvbuf` -/

theorem copyOutAll_range (sz : Nat → Nat) (N : Nat) (hsz : ∀ k, k < N → 0 < sz k) : ∀ k g, g + k ≤ N →
    copyOutAll sz (lo sz N) (lo sz g) ((List.range' g k).map fun line => { frac := line, sendto := [(-1, (line : Int))] }) =
      (List.range' g k).map fun j => .copy false ⟨.recv, lo sz j⟩ ⟨.shm 0, lo sz j⟩ (sz j) := by
  intro k
  induction k with
  | zero => intro g _; rfl
  | succ k ih =>
    intro g hg
    rw [List.range'_succ, List.map_cons, List.map_cons, copyOutAll]
    have h0 := hsz g (by omega)
    have h1 := lo_end sz (show g < N by omega)
    have h2 : overlapp 0 (lo sz N) (moffset sz g) (moffset sz (g + 1)) = (lo sz g, sz g) := by
      rw [moffset_eq, moffset_eq, lo_succ]
      unfold overlapp
      dsimp only
      congr 1
      · split <;> omega
      · split <;> split <;> omega
    dsimp only
    rw [if_pos (by rfl), h2]
    unfold copyIf
    rw [if_neg (by dsimp only; omega), ← lo_succ, ih (g + 1) (by omega)]
    rfl

theorem joinFwd_outs (sz : Nat → Nat) (N : Nat) (hsz : ∀ k, k < N → 0 < sz k) : ∀ k g, 0 < g → g + k ≤ N →
    joinFwd false ⟨.recv, 0⟩ ⟨.shm 0, 0⟩ (lo sz g)
      ((List.range' g k).map fun j => .copy false ⟨.recv, lo sz j⟩ ⟨.shm 0, lo sz j⟩ (sz j)) = (lo sz (g + k), []) := by
  intro k
  induction k with
  | zero => intro g _ _; rfl
  | succ k ih =>
    intro g h0 hg
    rw [List.range'_succ, List.map_cons, joinFwd]
    have h1 := lo_end sz h0
    have h2 := hsz 0 (by omega)
    rw [if_pos, ← lo_succ, ih (g + 1) (by omega) (by omega)]
    · congr 2; omega
    · have : lo sz 0 = 0 := rfl
      simp [sameKey, number]
      omega

theorem join_outs (sz : Nat → Nat) (N : Nat) (hN : 2 ≤ N) (hsz : ∀ k, k < N → 0 < sz k) (t : Nat) :
    join (copyOutCode N sz .allgather (Recursive.gatherLast N) t) = [.copy false ⟨.recv, 0⟩ ⟨.shm 0, 0⟩ (lo sz N)] := by
  have h1 : copyOutCode N sz .allgather (Recursive.gatherLast N) t =
      (List.range' 0 N).map fun j => .copy false ⟨.recv, lo sz j⟩ ⟨.shm 0, lo sz j⟩ (sz j) := by
    rw [← copyOutAll_range sz N hsz N 0 (by omega), ← List.range_eq_range']
    rfl
  rw [h1]
  obtain ⟨M, rfl⟩ : ∃ M, N = M + 1 := ⟨N - 1, by omega⟩
  rw [List.range'_succ, List.map_cons, join_copy]
  have h2 := joinFwd_outs sz (M + 1) hsz M 1 (by omega) (by omega)
  rw [show lo sz 1 = sz 0 by rw [lo_succ]; exact Nat.zero_add _] at h2
  rw [show lo sz 0 = 0 from rfl, h2, if_pos (by simp; omega)]
  rw [Nat.add_comm 1 M]
  rfl

/-- Lines that do not write to the receive buffer. -/
def keptR : Instr → Bool
  | .copy _ d _ _ => d.reg != .recv
  | _ => true

theorem kept_keptR {c : Instr} (h : kept c = true) : keptR c = true := by
  cases c with
  | copy r d s n =>
    obtain ⟨⟨dr, doff⟩⟩ := d
    · rfl
    · cases h
    · rfl
  | _ => rfl

theorem keptR_copyIns {cs : List Instr} (h : CopyIns cs) : ∀ c, c ∈ cs → keptR c = true := by
  intro c hc
  obtain ⟨d, s, n, rfl⟩ := h c hc
  rfl

theorem outSize_append (A B : List Instr) (h : ∀ c, c ∈ A → keptR c = true) : outSize (A ++ B) = outSize B := by
  unfold outSize
  rw [List.foldl_append]
  congr 1
  suffices ∀ m : Nat, A.foldl (fun m i => match i with
    | .copy false d _ n => if d.reg = .recv then max m (d.off + n) else m
    | _ => m) m = m from this 0
  intro m
  induction A with
  | nil => rfl
  | cons c A ih =>
    rw [List.foldl_cons]
    refine Eq.trans (congrArg (fun x => A.foldl _ x) ?_) (ih fun c hc => h c (List.mem_cons_of_mem _ hc))
    have hc := h c List.mem_cons_self
    clear h ih
    cases c with
    | copy r d s n =>
      cases r
      · have : d.reg ≠ .recv := by simpa [keptR] using hc
        simp [this]
      · rfl
    | _ => rfl

theorem useRecv_eq (ls : List Instr) : useRecv ls = (ls.filter keptR).map (mapAddr (toRecv (outSize ls))) := by
  unfold useRecv
  congr 1

theorem noBarriers_map (G : Addr → Nat → Addr) (ls : List Instr) : noBarriers (ls.map (mapAddr G)) = clean G ls := by
  unfold clean noBarriers
  rw [List.filter_map]
  congr 1
  apply List.filter_congr
  intro i _
  cases i <;> rfl

/-- The program in front of `swap_copyin`. -/
theorem useRecv_program (head ci A : List Instr) (L t : Nat) (hh : Barriers head) (hci : CopyIns ci)
    (hA : ∀ c, c ∈ A → kept c = true) :
    noBarriers (useRecv (head ++ ci ++ .barrier :: (A ++ .barrier :: [.copy false ⟨.recv, 0⟩ ⟨.shm 0, 0⟩ L]))) =
      clean (toRecv L) ci ++ clean (toRecv L) A := by
  have hk : ∀ c, c ∈ head ++ ci ++ .barrier :: (A ++ [.barrier]) → keptR c = true := by
    intro c hc
    simp only [List.mem_append, List.mem_cons, List.not_mem_nil, or_false] at hc
    rcases hc with (h | h) | h | h | h
    · rw [hh c h]; rfl
    · exact keptR_copyIns hci c h
    · rw [h]; rfl
    · exact kept_keptR (hA c h)
    · rw [h]; rfl
  have he : head ++ ci ++ .barrier :: (A ++ .barrier :: [.copy false ⟨.recv, 0⟩ ⟨.shm 0, 0⟩ L]) =
      (head ++ ci ++ .barrier :: (A ++ [.barrier])) ++ [.copy false ⟨.recv, 0⟩ ⟨.shm 0, 0⟩ L] := by
    simp only [List.append_assoc, List.cons_append, List.nil_append]
  have hL : outSize [.copy false ⟨.recv, 0⟩ ⟨.shm 0, 0⟩ L] = L := by
    show max 0 (0 + L) = L
    omega
  rw [he, useRecv_eq, outSize_append _ _ hk, hL, noBarriers_map, List.filter_append, List.filter_eq_self.2 hk,
    show [Instr.copy false ⟨.recv, 0⟩ ⟨.shm 0, 0⟩ L].filter keptR = [] from rfl, List.append_nil, clean_append, clean_append,
    clean_barriers _ _ hh, List.nil_append, show Instr.barrier :: (A ++ [.barrier]) = [.barrier] ++ A ++ [.barrier] from rfl,
    clean_append, clean_append, show clean (toRecv L) [.barrier] = [] from rfl, List.nil_append, List.append_nil]

/-! ## `swap_copyin` -/

theorem swap_eq (p : Nat) (l : Instr) (A B R : List Instr) (hA : A.length = p) (hB : B.length = p) (f : Instr → Instr)
    (hf : ∀ i, i ∈ B → fromSendbuf i = some (f i)) :
    swapCopyin p (l :: (A ++ (B ++ R))) = some (A ++ B.map f ++ l :: R) := by
  unfold swapCopyin
  dsimp only
  rw [if_neg (by simp; omega)]
  have h1 : (A ++ (B ++ R)).drop p = B ++ R := by rw [← hA, List.drop_left]
  have h2 : (B ++ R).take p = B := by rw [← hB, List.take_left]
  have h3 : (A ++ (B ++ R)).take p = A := by rw [← hA, List.take_left]
  have h4 : (A ++ (B ++ R)).drop (2 * p) = R := by
    rw [← List.append_assoc, show 2 * p = (A ++ B).length by rw [List.length_append]; omega, List.drop_left]
  have h5 : B.mapM fromSendbuf = some (B.map f) := by
    clear hB h1 h2 h3 h4
    induction B with
    | nil => rfl
    | cons i B ih =>
      rw [List.mapM_cons, hf i List.mem_cons_self, ih fun j hj => hf j (List.mem_cons_of_mem _ hj)]
      rfl
  rw [h1, h2, h3, h4, h5]
  rfl

/-! ## The first step -/

/-- Members of the group of `t` without `t` itself. -/
theorem group_length (p t : Nat) (P : List Nat) (hnd : P.Nodup)
    (hP : ∀ q, q ∈ P ↔ q ≠ t ∧ q / (p + 1) = t / (p + 1)) : P.length = p := by
  have hd := Nat.div_add_mod t (p + 1)
  have hm := Nat.mod_lt t (show p + 1 > 0 by omega)
  have hperm : P.Perm ((List.range' (t / (p + 1) * (p + 1)) (p + 1)).erase t) := by
    rw [List.perm_ext_iff_of_nodup hnd ((List.nodup_range' (step := 1)).erase t)]
    intro q
    rw [hP, List.Nodup.mem_erase_iff List.nodup_range', List.mem_range'_1]
    refine and_congr_right fun _ => ?_
    rw [Nat.div_eq_iff (by omega)]
    constructor
    · rintro ⟨h1, h2⟩; exact ⟨h1, by rw [Nat.add_mul] at *; omega⟩
    · rintro ⟨h1, h2⟩; exact ⟨h1, by rw [Nat.add_mul] at *; omega⟩
  rw [hperm.length_eq, List.length_erase_of_mem, List.length_range']
  · rfl
  · rw [List.mem_range'_1, Nat.mul_comm]
    omega

theorem rel_one (p q t : Nat) : Rel 1 (p + 1) q t ↔ q / (p + 1) = t / (p + 1) := by
  unfold Rel
  rw [Nat.one_mul, Nat.mod_one, Nat.mod_one]
  exact and_iff_left rfl

/-- Row 0 in the receive buffer. -/
def recvRow (r x : Nat) : Addr := ⟨if r = 0 then .recv else .shm 0, x⟩

theorem recv_row {N : Nat} {sz : Nat → Nat} {r x : Nat} (h : cells N sz (fun n => n < N) r x) : r = 0 := by
  obtain ⟨k, h1, h2, _⟩ := h
  rcases Nat.eq_zero_or_pos r with e | e
  · exact e
  · have := Nat.mul_le_mul_right N (show 1 ≤ r from e)
    omega

theorem recvRow_place (N : Nat) (sz : Nat → Nat) : Place (cells N sz fun n => n < N) recvRow where
  next r i _ _ := rfl
  inj r i r' i' h h' e := by
    rw [recv_row h, recv_row h'] at *
    exact ⟨rfl, by injection e⟩

theorem recvRow_maps (N : Nat) (sz : Nat → Nat) :
    Maps sz (lo sz N) (cells N sz fun n => n < N) recvRow (toRecv (lo sz N)) := by
  intro r k n hn hle hD
  have hr : r = 0 := recv_row (hD 0 hn)
  subst hr
  unfold toRecv recvRow flat sh
  simp only [isShm, Bool.true_and, decide_eq_true_eq]
  rw [if_pos (by omega), if_pos trivial, Nat.zero_mul, Nat.zero_add]

/-- Line of a step. -/
def gatherLine (g p t line : Nat) : LineD where
  frac := line
  sendto := gatherSend g (g * (p + 1)) p t line
  recvfrom := gatherRecv g (g * (p + 1)) t line

/-- The first step after the copy-in, then all others. -/
theorem gather_good (N : Nat) (g p : Nat) (hg : 0 < g) (hd : g * (p + 1) ∣ N) :
    Good N (fun t => gatherBlock N g p t) (fun _ n => n < N) (fun r => r = 0) (fun q _ => 0 * N + q / g * g)
      (fun q _ => 0 * N + q / g * g) (fun q t => if Rel g (p + 1) q t then g else 0) (fun _ => 0) :=
  good_gather (lb := N) (ro := 0) (L := N) (f := gatherLine g p) (by rw [Nat.zero_mul]; exact gatherLike1 N g p hg hd)
    (fun t _ => shape_gatherBlock N g p t) _ _ (fun q x _ hx => by omega) rfl

theorem gather_rest (N : Nat) (ps : List Nat) (g : Nat) (hg : 0 < g) (hlb : g * factor ps ∣ N) :
    AllGood N (fun _ n => n < N) (fun r => r = 0) fun t => gatherSteps N t g ps ++ [gatherLast N] := by
  have h1 := allGood_gather N 0 N gatherLine
    (fun g p hg hd => by rw [Nat.zero_mul]; exact gatherLike1 N g p hg hd) (fun g p t _ => shape_gatherBlock N g p t)
    (fun t g ps => gatherSteps N t g ps) (fun t g => rfl) (fun t g p ps => rfl) (fun _ n => n < N) (fun r => r = 0)
    (fun q x _ hx => by omega) rfl ps g hg hlb
  have h2 := good_idle N N (fun _ line => { frac := line, sendto := [(-1, (line : Int))] })
    (fun t x e he => by simp at he; rw [he]; exact Int.negSucc_lt_zero 0) (fun _ _ => rfl) (fun _ _ => rfl) (fun _ _ => rfl)
    (fun _ _ => shape_gatherLast N) (fun _ n => n < N) (fun r => r = 0) 0 rfl
  exact h1.append (.single h2)

section
variable {N p : Nat} {sz : Nat → Nat}

theorem first_mlen (hsz : ∀ k, k < N → 0 < sz k) {q t : Nat} (hq : q < N) :
    mlen N sz (0 * N + q / 1 * 1) (if Rel 1 (p + 1) q t then 1 else 0) =
      if q / (p + 1) = t / (p + 1) then sz q else 0 := by
  unfold mlen
  rw [Nat.zero_mul, Nat.zero_add, Nat.div_one, Nat.mul_one, Nat.mod_eq_of_lt hq]
  by_cases h : q / (p + 1) = t / (p + 1)
  · rw [if_pos ((rel_one p q t).2 h), if_pos h, lo_succ]; omega
  · rw [if_neg fun h' => h ((rel_one p q t).1 h'), if_neg h, Nat.add_zero]; omega

theorem froms_length (hd : p + 1 ∣ N) (hsz : ∀ k, k < N → 0 < sz k) {t : Nat} (ht : t < N) :
    (froms N (mmsize N sz) (gatherBlock N 1 p t) t).length = p := by
  have hg := gather_good N 1 p (by omega) (by rwa [Nat.one_mul])
  apply group_length p t _ ((recvOrder_nodup N t ht).filter _)
  intro q
  have hlt : q / (p + 1) = t / (p + 1) → q < N := fun h => by
    obtain ⟨c, rfl⟩ := hd
    have h1 : t / (p + 1) < c := Nat.div_lt_of_lt_mul ht
    rw [← h] at h1
    have := (Nat.div_lt_iff_lt_mul (show 0 < p + 1 by omega)).1 h1
    rwa [Nat.mul_comm] at this
  refine (mem_froms ht).trans ?_
  constructor
  · rintro ⟨a1, a2, a3⟩
    refine ⟨a2, ?_⟩
    have := hg.recvTotal (sz := sz) a1 ht a2
    rw [first_mlen hsz a1] at this
    by_contra h
    rw [if_neg h] at this
    exact a3 this
  · rintro ⟨a1, a2⟩
    refine ⟨hlt a2, a1, ?_⟩
    have := hg.recvTotal (sz := sz) (hlt a2) ht a1
    rw [first_mlen hsz (hlt a2), if_pos a2] at this
    have h0 := hsz q (hlt a2)
    intro h
    have h' : sz q = 0 := this.symm.trans h
    omega

theorem tos_length (hd : p + 1 ∣ N) (hsz : ∀ k, k < N → 0 < sz k) {t : Nat} (ht : t < N) :
    (tos N (mmsize N sz) (gatherBlock N 1 p t) t).length = p := by
  have hg := gather_good N 1 p (by omega) (by rwa [Nat.one_mul])
  apply group_length p t _ ((sendOrder_nodup N t ht).filter _)
  intro q
  have hlt : q / (p + 1) = t / (p + 1) → q < N := fun h => by
    obtain ⟨c, rfl⟩ := hd
    have h1 : t / (p + 1) < c := Nat.div_lt_of_lt_mul ht
    rw [← h] at h1
    have := (Nat.div_lt_iff_lt_mul (show 0 < p + 1 by omega)).1 h1
    rwa [Nat.mul_comm] at this
  refine (mem_tos ht).trans ?_
  constructor
  · rintro ⟨a1, a2, a3⟩
    refine ⟨a2, ?_⟩
    have := hg.sendTotal (sz := sz) ht a1 (Ne.symm a2)
    rw [first_mlen hsz ht] at this
    by_contra h
    rw [if_neg (Ne.symm h)] at this
    exact a3 this
  · rintro ⟨a1, a2⟩
    refine ⟨hlt a2, a1, ?_⟩
    have := hg.sendTotal (sz := sz) ht (hlt a2) (Ne.symm a1)
    rw [first_mlen hsz ht, if_pos a2.symm] at this
    have h0 := hsz t ht
    intro h
    have h' : sz t = 0 := this.symm.trans h
    omega

theorem copyIn_first (hsz : ∀ k, k < N → 0 < sz k) {t : Nat} (ht : t < N) :
    copyInCode N sz .allgather (gatherFirst N t) t =
      [.barrier] ++ [.copy false ⟨.shm 0, lo sz t⟩ ⟨.send, 0⟩ (sz t)] ++ [.barrier] := by
  have hlen : (gatherFirst N t).length = N := by simp [gatherFirst, mk]
  have hget : ∀ j (hj : j < (gatherFirst N t).length), (gatherFirst N t)[j] = { frac := j, recvfrom := if j = t then [(-1, 0)] else [] } := by
    intro j hj
    simp [gatherFirst, mk]
  have hfi : ((gatherFirst N t).findIdx fun l => l.recvfrom.any fun e => e.1 == -1) = t := by
    rw [List.findIdx_eq (by rw [hlen]; exact ht)]
    refine ⟨?_, fun j hj => ?_⟩
    · rw [hget]; simp
    · rw [hget]; simp; omega
  have hoff : off sz (gatherFirst N t) t = lo sz t := by
    rw [off_eq]
    apply lo_congr
    intro k hk
    have hk' : k < (gatherFirst N t).length := by omega
    rw [lineSize, List.getElem?_eq_getElem hk', hget]
  have h0 := hsz t ht
  rw [copyInCode, copyInGather, hfi, hoff, copyIf, if_neg (by omega)]
  rfl

/-- The program of the allgather after all passes. -/
theorem gatherProgram_eq (C : Nat) (hC : 0 < C) (ps : List Nat) (hp : 0 < p) (hN : N = factor (p :: ps))
    (hsz : ∀ k, k < N → 0 < sz k) {t : Nat} (ht : t < N) :
    ∃ st us, Starts st ∧ Joined (tsOf N sz (gatherBlock N 1 p t).zipIdx) us ∧
      gatherProgram C N sz p (allgather (p :: ps) t) t = some
        (((froms N (mmsize N sz) (gatherBlock N 1 p t) t).map fun q => .irecv (recvRow ((0 * N + q / 1 * 1) / N)
            (lo sz ((0 * N + q / 1 * 1) % N)))
          (mlen N sz (0 * N + q / 1 * 1) (if Rel 1 (p + 1) q t then 1 else 0)) q) ++
        (((tos N (mmsize N sz) (gatherBlock N 1 p t) t).map fun q => .isend ⟨.send, 0⟩
          (mlen N sz (0 * N + t / 1 * 1) (if Rel 1 (p + 1) t q then 1 else 0)) q) ++
        ([.copy false ⟨.recv, lo sz t⟩ ⟨.send, 0⟩ (sz t)] ++ .waitall :: (us.map (Red.instr recvRow 0) ++
          clean (toRecv (lo sz N)) ((segsOf N (mmsize N sz) st t false
            (gatherSteps N t (1 * (p + 1)) ps ++ [gatherLast N])).flatMap Seg.done))))) := by
  have hdvd : p + 1 ∣ N := ⟨factor ps, by rw [hN, factor_cons]⟩
  have hN2 : 2 ≤ N := by
    have := Nat.le_of_dvd (by omega) hdvd
    omega
  have hpos : 0 < N := by omega
  have hsched : allgather (p :: ps) t = gatherFirst N t :: (gatherSteps N t 1 (p :: ps) ++ [gatherLast N]) := by
    unfold allgather; rw [← hN]
  have hshape : ∀ b, b ∈ allgather (p :: ps) t → Shape N b := by
    intro b hb
    rw [hN]
    exact shape_allgather (p :: ps) t b hb
  have hgood := gather_good N 1 p (by omega) (by rwa [Nat.one_mul])
  have hall := gather_rest N (p :: ps) 1 (by omega) (by rw [Nat.one_mul, hN])
  have hok : ∀ b, b ∈ gatherSteps N t 1 (p :: ps) ++ [gatherLast N] → reduceOk b = true := by
    intro b hb
    apply reduceOk_nil
    intro l hl
    rcases List.mem_append.1 hb with hb | hb
    · have : ∀ ps g, b ∈ gatherSteps N t g ps → l.reducefrom = [] ∧ l.copyreducefrom = [] := by
        intro ps
        induction ps with
        | nil => intro g h; cases h
        | cons p ps ih =>
          intro g h
          rcases List.mem_cons.1 h with rfl | h
          · obtain ⟨x, _, rfl⟩ := List.mem_map.1 hl
            exact ⟨rfl, rfl⟩
          · exact ih _ h
      exact this _ _ hb
    · rw [List.mem_singleton.1 hb] at hl
      obtain ⟨x, _, rfl⟩ := List.mem_map.1 hl
      exact ⟨rfl, rfl⟩
  have hci : CopyIns [.copy false ⟨.shm 0, lo sz t⟩ ⟨.send, 0⟩ (sz t)] := fun c hc => ⟨_, _, _, List.mem_singleton.1 hc⟩
  have hh : Barriers [.barrier] := fun l hl => List.mem_singleton.1 hl
  obtain ⟨st, g1, g2⟩ := common_eq C N hC (mmsize N sz) t ht [.barrier] _ (copyOutCode N sz .allgather (gatherLast N) t)
    (gatherSteps N t 1 (p :: ps) ++ [gatherLast N]) hh hci (copyOuts_code _ _ _ _ _) (hall.straight t ht)
  obtain ⟨us, c1, c2⟩ := clean_seg hgood hpos ht (hok _ (by rw [gatherSteps]; exact List.mem_cons_self)) g1 (lead := [])
    (fun l hl => by cases hl) recvRow (toRecv (lo sz N)) (recvRow_maps N sz)
  refine ⟨st, us, g1, c1, ?_⟩
  unfold gatherProgram
  rw [program_eq N sz .allgather _ t (gatherFirst N t) (gatherLast N) (gatherSteps N t 1 (p :: ps) ++ [gatherLast N])
    ⟨hsched, List.getLast?_concat⟩
    (fun b hb => covered_of b (hshape b (by rw [hsched]; exact List.mem_cons_of_mem _ hb)).plain (hok b hb))
    ((hshape _ (by rw [hsched]; exact List.mem_cons_self)).frac hpos)
    ((shape_gatherLast N).frac hpos), copyIn_first hsz ht]
  show (common C _).bind _ = _
  rw [g2, join_outs sz N hN2 hsz t]
  rw [Option.bind_some]
  have hj : join [.copy false ⟨.shm 0, lo sz t⟩ ⟨.send, 0⟩ (sz t)] = [.copy false ⟨.shm 0, lo sz t⟩ ⟨.send, 0⟩ (sz t)] := rfl
  have hc : clean (toRecv (lo sz N)) [.copy false ⟨.shm 0, lo sz t⟩ ⟨.send, 0⟩ (sz t)] =
      [.copy false ⟨.recv, lo sz t⟩ ⟨.send, 0⟩ (sz t)] := by
    have := lo_end sz ht
    rw [clean_keep _ _ (fun l hl => by rw [List.mem_singleton.1 hl]; intro e; cases e)]
    show [Instr.copy false (toRecv (lo sz N) ⟨.shm 0, lo sz t⟩ (sz t)) (toRecv (lo sz N) ⟨.send, 0⟩ (sz t)) (sz t)] = _
    have h1 : toRecv (lo sz N) ⟨.shm 0, lo sz t⟩ (sz t) = ⟨.recv, lo sz t⟩ := by
      unfold toRecv
      rw [if_pos (by simpa [isShm] using this)]
    rw [h1]
    rfl
  rw [hj, useRecv_program [.barrier] _ _ (lo sz N) t hh hci (done_kept N _ st t _ true), hc,
    show segsOf N (mmsize N sz) st t true (gatherSteps N t 1 (p :: ps) ++ [gatherLast N]) =
      segOf N (mmsize N sz) st t [] (gatherBlock N 1 p t) ::
        segsOf N (mmsize N sz) st t false (gatherSteps N t (1 * (p + 1)) ps ++ [gatherLast N]) from rfl,
    List.flatMap_cons, clean_append, c2]
  have hs := swap_eq p (.copy false ⟨.recv, lo sz t⟩ ⟨.send, 0⟩ (sz t))
    ((froms N (mmsize N sz) (gatherBlock N 1 p t) t).map fun q => .irecv (recvRow ((0 * N + q / 1 * 1) / N)
            (lo sz ((0 * N + q / 1 * 1) % N)))
          (mlen N sz (0 * N + q / 1 * 1) (if Rel 1 (p + 1) q t then 1 else 0)) q)
    ((tos N (mmsize N sz) (gatherBlock N 1 p t) t).map fun q => .isend (recvRow ((0 * N + t / 1 * 1) / N)
            (lo sz ((0 * N + t / 1 * 1) % N)))
          (mlen N sz (0 * N + t / 1 * 1) (if Rel 1 (p + 1) t q then 1 else 0)) q)
    (.waitall :: (us.map (Red.instr recvRow 0) ++
          clean (toRecv (lo sz N)) ((segsOf N (mmsize N sz) st t false
            (gatherSteps N t (1 * (p + 1)) ps ++ [gatherLast N])).flatMap Seg.done)))
    (by rw [List.length_map]; exact froms_length hdvd hsz ht) (by rw [List.length_map]; exact tos_length hdvd hsz ht)
    (mapAddr fun _ _ => ⟨.send, 0⟩) (fun i hi => by obtain ⟨q, _, rfl⟩ := List.mem_map.1 hi; rfl)
  simp only [List.append_assoc, List.cons_append, List.nil_append, List.map_map] at hs ⊢
  rw [hs]
  rfl

end

end ExtMpi.Optimise
