import Verif.Lemmas.Text
import Verif.Spec.Text
/-! # Text form of port, group and copy-in settings (C18, C44) -/
namespace ExtMpi.Text

/-! ## Text of a setting -/

/-- Ports with closing parenthesis. -/
def portsText : List Int → List Char
  | [] => []
  | [p] => printInt p ++ [')']
  | p :: ps => printInt p ++ ' ' :: portsText ps

theorem printPorts_eq (ps : List Int) (h : ps ≠ []) : printPorts ps = portsText ps ++ [' '] := by
  induction ps with
  | nil => exact absurd rfl h
  | cons p ps ih =>
    cases ps with
    | nil => simp [printPorts, portsText]
    | cons q ps =>
      have := ih (by simp)
      simp only [printPorts, portsText] at this ⊢
      rw [this]
      simp

def groupText (x : Group) : List Char := printInt (x.1 : Int) ++ '(' :: portsText x.2

theorem encode_cons (g : Nat) (p q : Int) (ps : List Int) :
    encode (g, p :: q :: ps) = (p, (g : Int)) :: encode (g, q :: ps) := by
  simp [encode]

theorem encode_single (g : Nat) (p : Int) : encode (g, [p]) = [(p, -(g : Int))] := rfl

theorem takeGroup_encode (g : Nat) (hg : 0 < g) (ps : List Int) (h : ps ≠ []) (r : List (Int × Int)) :
    takeGroup (encode (g, ps) ++ r) = some (ps, r) := by
  induction ps with
  | nil => exact absurd rfl h
  | cons p ps ih =>
    cases ps with
    | nil =>
      rw [encode_single]
      show (if -(g : Int) > 0 then _ else _) = _
      rw [if_neg (by omega)]
      rfl
    | cons q ps =>
      rw [encode_cons, List.cons_append, takeGroup, if_pos (by omega), ih (by simp)]
      rfl

theorem withGroup_encode (g : Nat) (ps : List Int) : withGroup (g : Int) ps = encode (g, ps) := by
  induction ps with
  | nil => rfl
  | cons p ps ih =>
    cases ps with
    | nil => rfl
    | cons q ps => rw [encode_cons, ← ih]; rfl

theorem encode_head (x : Group) (h : x.Ok) : ∃ p g r, encode x = (p, g) :: r ∧ p ≠ 0 ∧ g.natAbs = x.1 := by
  obtain ⟨g, ps⟩ := x
  obtain ⟨h1, h2, h3⟩ := h
  cases ps with
  | nil => exact absurd rfl h2
  | cons p ps =>
    cases ps with
    | nil => exact ⟨p, -(g : Int), [], rfl, h3 p (by simp), by simp⟩
    | cons q ps => exact ⟨p, g, _, encode_cons g p q ps, h3 p (by simp), by simp⟩

theorem printLoop_encode (l : List Group) (h : ∀ x, x ∈ l → x.Ok) (fuel : Nat) (hf : l.length < fuel) :
    printLoop fuel (l.flatMap encode) = some (l.flatMap fun x => groupText x ++ [' ']) := by
  induction l generalizing fuel with
  | nil =>
    cases fuel with
    | zero => cases hf
    | succ n => rfl
  | cons x l ih =>
    cases fuel with
    | zero => cases hf
    | succ n =>
      have hx := h x List.mem_cons_self
      obtain ⟨p, g, r, he, hp, hg⟩ := encode_head x hx
      have ht := takeGroup_encode x.1 hx.1 x.2 hx.2.1 (l.flatMap encode)
      have hi := ih (fun y hy => h y (List.mem_cons_of_mem _ hy)) n (by simpa using hf)
      rw [List.flatMap_cons]
      change takeGroup (encode x ++ _) = _ at ht
      rw [he, List.cons_append] at ht ⊢
      rw [printLoop, if_neg hp, ht]
      simp only [hi, Option.map_some, hg, printPorts_eq x.2 hx.2.1, List.flatMap_cons, groupText]
      simp

theorem groupText_ne_nil (x : Group) : groupText x ≠ [] := by
  unfold groupText
  simp

/-- Text of a setting: groups separated by blanks. -/
def settingText : List Group → List Char
  | [] => []
  | x :: l => groupText x ++ l.flatMap fun y => ' ' :: groupText y

theorem flatMap_blank (l : List Group) (x : Group) :
    ((x :: l).flatMap fun x => groupText x ++ [' ']) = settingText (x :: l) ++ [' '] := by
  induction l generalizing x with
  | nil => simp [settingText]
  | cons y l ih =>
    rw [List.flatMap_cons, ih y]
    simp [settingText]

theorem print_encode (x : Group) (l : List Group) (h : ∀ y, y ∈ x :: l → y.Ok) :
    printPortsGroups ((x :: l).flatMap encode) = some (settingText (x :: l)) := by
  have hlen : (x :: l).length < ((x :: l).flatMap encode).length + 1 := by
    suffices H : ∀ l : List Group, (∀ y, y ∈ l → y.Ok) → l.length ≤ (l.flatMap encode).length by
      have := H (x :: l) h; omega
    intro l
    induction l with
    | nil => intro _; simp
    | cons y l ih =>
      intro h
      obtain ⟨p, g, r, he, _⟩ := encode_head y (h y List.mem_cons_self)
      have := ih fun z hz => h z (List.mem_cons_of_mem _ hz)
      rw [List.flatMap_cons, List.length_append, he, List.length_cons, List.length_cons]
      omega
  unfold printPortsGroups
  rw [printLoop_encode (x :: l) h _ hlen, flatMap_blank]
  cases hs : settingText (x :: l) ++ [' '] with
  | nil => simp at hs
  | cons c t =>
    show some (c :: t).dropLast = _
    rw [← hs, List.dropLast_concat]

/-! ## Scanning -/

theorem isNum_token (z : Int) (p : Char → Bool) (hp : ∀ c, isNum c = true → p c = true) (c : Char)
    (hc : p c = false) (r : List Char) :
    (printInt z ++ c :: r).takeWhile p = printInt z ∧ (printInt z ++ c :: r).dropWhile p = c :: r := by
  have h1 : ∀ x, x ∈ printInt z → p x = true := fun x hx => hp x (printInt_isNum z x hx)
  have h2 : ∀ x, (c :: r).head? = some x → p x = false := by
    intro x hx
    cases hx
    exact hc
  exact ⟨takeWhile_append _ _ _ h1 h2, dropWhile_append _ _ _ h1 h2⟩

theorem scanInt_print_nil (z : Int) : scanInt (printInt z) = some z := by
  have := scanInt_print z [] (by simp)
  rwa [List.append_nil] at this

theorem notSep (a b d : Char) (ha : isNum a = false) (hb : isNum b = false) (hd : isNum d = false) (c : Char)
    (hc : isNum c = true) : (c != a && c != b && c != d) = true := by
  simp [bne, isNum_ne c a hc ha, isNum_ne c b hc hb, isNum_ne c d hc hd]

theorem skip_print (z : Int) (r : List Char) : skip (printInt z ++ r) = printInt z ++ r := by
  cases h : printInt z with
  | nil => exact absurd h (printInt_ne_nil z)
  | cons c t =>
    have hc := printInt_isNum z c (by rw [h]; simp)
    unfold skip
    rw [List.cons_append, List.dropWhile_cons, isNum_ne c ' ' hc (by decide), isNum_ne c ',' hc (by decide)]
    rfl

theorem portsText_skip (p : Int) (ps : List Int) (r : List Char) :
    skip (portsText (p :: ps) ++ r) = portsText (p :: ps) ++ r := by
  cases ps with
  | nil => rw [portsText, List.append_assoc, skip_print]
  | cons q ps => rw [portsText, List.append_assoc, skip_print]; simp

theorem skip_blank (r : List Char) : skip (' ' :: r) = skip r := rfl

theorem scanPorts_text (ps : List Int) (h : ps ≠ []) (fuel : Nat) (hf : ps.length ≤ fuel) (r : List Char) :
    scanPorts fuel (portsText ps ++ r) = some (ps, skip r) := by
  induction ps generalizing fuel with
  | nil => exact absurd rfl h
  | cons p ps ih =>
    cases fuel with
    | zero => simp at hf
    | succ n =>
      cases ps with
      | nil =>
        have e : portsText [p] ++ r = printInt p ++ ')' :: r := by simp [portsText]
        obtain ⟨h1, h2⟩ := isNum_token p (fun c => c != ' ' && c != ',' && c != ')')
          (fun c hc => notSep ' ' ',' ')' (by decide) (by decide) (by decide) c hc) ')' (by decide) r
        rw [e, scanPorts, h1, h2]
        simp only [scanInt_print_nil, if_true]
      | cons q ps =>
        have e : portsText (p :: q :: ps) ++ r = printInt p ++ ' ' :: (portsText (q :: ps) ++ r) := by
          simp [portsText]
        obtain ⟨h1, h2⟩ := isNum_token p (fun c => c != ' ' && c != ',' && c != ')')
          (fun c hc => notSep ' ' ',' ')' (by decide) (by decide) (by decide) c hc) ' ' (by decide)
          (portsText (q :: ps) ++ r)
        rw [e, scanPorts, h1, h2]
        simp only [scanInt_print_nil]
        rw [if_neg (by decide), portsText_skip, ih (by simp) n (by simpa using hf)]
        rfl

theorem portsText_length (ps : List Int) : ps.length ≤ (portsText ps).length := by
  induction ps with
  | nil => simp
  | cons p ps ih =>
    cases ps with
    | nil => simp [portsText]
    | cons q ps =>
      rw [portsText]
      · rw [List.length_cons, List.length_append, List.length_cons (a := ' ')]; omega
      · simp

theorem settingText_skip (l : List Group) : skip (settingText l) = settingText l := by
  cases l with
  | nil => rfl
  | cons x l => rw [settingText, groupText, List.append_assoc, skip_print]

theorem skip_flatMap (l : List Group) :
    skip (l.flatMap fun y => ' ' :: groupText y) = settingText l := by
  cases l with
  | nil => rfl
  | cons x l =>
    rw [List.flatMap_cons, List.cons_append, skip_blank]
    exact settingText_skip (x :: l)

theorem drop_open (p : Int) (ps : List Int) (r : List Char) :
    (portsText (p :: ps) ++ r).dropWhile (fun c => c == ' ' || c == ',' || c == '(') = portsText (p :: ps) ++ r := by
  have key : ∀ t, (printInt p ++ t).dropWhile (fun c => c == ' ' || c == ',' || c == '(') = printInt p ++ t := by
    intro t
    cases h : printInt p with
    | nil => exact absurd h (printInt_ne_nil p)
    | cons c u =>
      have hc := printInt_isNum p c (by rw [h]; simp)
      rw [List.cons_append, List.dropWhile_cons, isNum_ne c ' ' hc (by decide), isNum_ne c ',' hc (by decide),
        isNum_ne c '(' hc (by decide)]
      rfl
  cases ps with
  | nil => rw [portsText, List.append_assoc, key]
  | cons q ps =>
    rw [portsText, List.append_assoc, key]
    simp

theorem scanLoop_text (l : List Group) (h : ∀ x, x ∈ l → x.Ok) (fuel : Nat) (hf : l.length < fuel) :
    scanLoop fuel (settingText l) = some (l.flatMap encode) := by
  induction l generalizing fuel with
  | nil =>
    cases fuel with
    | zero => cases hf
    | succ n => rfl
  | cons x l ih =>
    cases fuel with
    | zero => cases hf
    | succ n =>
      obtain ⟨g, ps⟩ := x
      obtain ⟨hg, hps, _⟩ := h (g, ps) List.mem_cons_self
      obtain ⟨t, ht⟩ : ∃ t, t = l.flatMap fun y => ' ' :: groupText y := ⟨_, rfl⟩
      have e : settingText ((g, ps) :: l) = printInt (g : Int) ++ '(' :: (portsText ps ++ t) := by
        rw [settingText, groupText, ht]; simp
      obtain ⟨h1, h2⟩ := isNum_token (g : Int) (fun c => c != ' ' && c != ',' && c != '(')
        (fun c hc => notSep ' ' ',' '(' (by decide) (by decide) (by decide) c hc) '(' (by decide)
        (portsText ps ++ t)
      obtain ⟨s, hs⟩ : ∃ s, s = printInt (g : Int) ++ '(' :: (portsText ps ++ t) := ⟨_, rfl⟩
      rw [e]
      rw [← hs] at h1 h2 ⊢
      have hlen : ps.length ≤ s.length := by
        rw [hs, List.length_append, List.length_cons, List.length_append]
        have := portsText_length ps
        omega
      have hd : (portsText ps ++ t).dropWhile (fun c => c == ' ' || c == ',' || c == '(') = portsText ps ++ t := by
        cases ps with
        | nil => exact absurd rfl hps
        | cons p ps => exact drop_open p ps t
      have hne : s ≠ [] := by rw [hs]; simp
      have hrest : skip (skip t) = settingText l := by
        rw [ht, skip_flatMap, settingText_skip]
      rw [scanLoop]
      · rw [h1, h2]
        simp only [scanInt_print_nil, hd, scanPorts_text ps hps _ hlen, hrest]
        rw [ih (fun y hy => h y (List.mem_cons_of_mem _ hy)) n (by simpa using hf)]
        simp only [Option.map_some, withGroup_encode, List.flatMap_cons]
      · exact hne

/-- C18: printing a setting of at least one group and scanning the text gives the setting back. -/
theorem ports_groups_roundtrip (l : List Group) (hne : l ≠ []) (h : ∀ x, x ∈ l → x.Ok) :
    ∃ s, printPortsGroups (l.flatMap encode) = some s ∧ scanPortsGroups s = some (l.flatMap encode) := by
  cases l with
  | nil => exact absurd rfl hne
  | cons x l =>
    refine ⟨_, print_encode x l h, ?_⟩
    unfold scanPortsGroups
    rw [settingText_skip]
    apply scanLoop_text _ h
    suffices H : ∀ l : List Group, l.length ≤ (settingText l).length by have := H (x :: l); omega
    have H2 : ∀ l : List Group, l.length ≤ (l.flatMap fun y => ' ' :: groupText y).length := by
      intro l
      induction l with
      | nil => simp
      | cons y l ih => rw [List.flatMap_cons, List.length_append, List.length_cons, List.length_cons]; omega
    intro l
    cases l with
    | nil => simp
    | cons y l =>
      have h1 := H2 l
      have h2 : 0 < (groupText y).length := List.length_pos_iff.2 (groupText_ne_nil y)
      rw [settingText, List.length_append, List.length_cons]
      omega

/-- Two groups: `4(-1 12) 3(2)`. -/
example : printPortsGroups ([(4, [-1, 12]), (3, [2])].flatMap encode) = some "4(-1 12) 3(2)".toList := by
  decide +kernel

example : ∃ s, printPortsGroups ([(4, [-1, 12]), (3, [2])].flatMap encode) = some s ∧
    scanPortsGroups s = some ([(4, [-1, 12]), (3, [2])].flatMap encode) :=
  ports_groups_roundtrip [(4, [-1, 12]), (3, [2])] (by decide) (by simp [Group.Ok])

/-- The setting without groups has no defined text: the code removes the last of zero characters. -/
theorem print_empty : printPortsGroups [] = none := rfl

/-! ## Copy-in setting -/

theorem cutSemicolon_num (ds r : List Char) (h : ∀ c, c ∈ ds → isNum c = true) :
    cutSemicolon (ds ++ ';' :: r) = ds ++ ' ' :: r := by
  induction ds with
  | nil => rfl
  | cons c ds ih =>
    have hc := isNum_ne c ';' (h c List.mem_cons_self) (by decide)
    rw [List.cons_append, cutSemicolon, if_neg (by simpa using hc),
      ih fun x hx => h x (List.mem_cons_of_mem _ hx)]
    rfl

theorem cutSemicolon_none (ds : List Char) (h : ∀ c, c ∈ ds → isNum c = true) : cutSemicolon ds = ds := by
  induction ds with
  | nil => rfl
  | cons c ds ih =>
    have hc := isNum_ne c ';' (h c List.mem_cons_self) (by decide)
    rw [cutSemicolon, if_neg (by simpa using hc), ih fun x hx => h x (List.mem_cons_of_mem _ hx)]

/-- Numbers separated by blanks. -/
def numbers : Int → List Int → List Char
  | z, [] => printInt z
  | z, f :: fs => printInt z ++ ' ' :: numbers f fs

theorem numbers_head (z : Int) (fs : List Int) : ∃ c t, numbers z fs = c :: t ∧ isNum c = true := by
  cases h : printInt z with
  | nil => exact absurd h (printInt_ne_nil z)
  | cons c t =>
    have hc := printInt_isNum z c (by rw [h]; simp)
    cases fs with
    | nil => exact ⟨c, t, by rw [numbers, h], hc⟩
    | cons f fs => exact ⟨c, t ++ ' ' :: numbers f fs, by rw [numbers, h]; rfl, hc⟩

theorem numbers_scan (z : Int) (fs : List Int) : scanInt (numbers z fs) = some z := by
  cases fs with
  | nil => exact scanInt_print_nil z
  | cons f fs =>
    rw [numbers]
    apply scanInt_print
    intro c hc
    cases hc
    decide

theorem scanFactors_numbers (z : Int) (fs : List Int) (fuel : Nat) (hf : fs.length < fuel) :
    scanFactors fuel (numbers z fs) = some fs := by
  induction fs generalizing z fuel with
  | nil =>
    cases fuel with
    | zero => cases hf
    | succ n =>
      have h1 : (printInt z).dropWhile (fun c => c != ' ') = [] := by
        have := dropWhile_append (fun c => c != ' ') (printInt z) []
          (fun x hx => by simp [bne, isNum_ne x ' ' (printInt_isNum z x hx) (by decide)]) (by simp)
        rwa [List.append_nil] at this
      rw [numbers, scanFactors]
      · rw [h1]; rfl
      · exact printInt_ne_nil z
  | cons f fs ih =>
    cases fuel with
    | zero => cases hf
    | succ n =>
      have h1 : (printInt z ++ ' ' :: numbers f fs).dropWhile (fun c => c != ' ') = ' ' :: numbers f fs :=
        dropWhile_append (fun c => c != ' ') (printInt z) (' ' :: numbers f fs)
          (fun x hx => by simp [bne, isNum_ne x ' ' (printInt_isNum z x hx) (by decide)])
          (by intro x hx; cases hx; decide)
      obtain ⟨c, t, hct, hc⟩ := numbers_head f fs
      have h2 : (' ' :: numbers f fs).dropWhile (fun c => c == ' ') = numbers f fs := by
        rw [List.dropWhile_cons]
        simp only [beq_self_eq_true, if_true]
        rw [hct, List.dropWhile_cons, isNum_ne c ' ' hc (by decide)]
        rfl
      rw [numbers, scanFactors]
      · have h3 := numbers_scan f fs
        have h4 := ih f n (by simpa using hf)
        rw [h1, h2]
        rw [hct] at h3 h4 ⊢
        simp only [h3, h4, Option.map_some]
      · simp

theorem numbers_length (z : Int) (fs : List Int) : fs.length < (numbers z fs).length := by
  induction fs generalizing z with
  | nil => exact List.length_pos_iff.2 (printInt_ne_nil z)
  | cons f fs ih =>
    have := ih f
    rw [numbers, List.length_append, List.length_cons, List.length_cons]
    omega

theorem factors_text (f : Int) (fs : List Int) :
    ((f :: fs).flatMap fun f => printInt f ++ [' ']) = numbers f fs ++ [' '] := by
  induction fs generalizing f with
  | nil => simp [numbers]
  | cons g fs ih =>
    rw [List.flatMap_cons, ih g, numbers]
    simp

/-- C44: printing a copy-in method with its factors and scanning the text gives both back. -/
theorem copyin_roundtrip (method : Int) (factors : List Int) :
    scanCopyin (printCopyin method factors) = some (method, factors) := by
  have key : cutSemicolon (printCopyin method factors) = numbers method factors := by
    cases factors with
    | nil =>
      unfold printCopyin
      rw [List.flatMap_nil, List.dropLast_concat, cutSemicolon_none _ (printInt_isNum method)]
      rfl
    | cons f fs =>
      have e : printCopyin method (f :: fs) = printInt method ++ ';' :: numbers f fs := by
        unfold printCopyin
        rw [factors_text, ← List.cons_append, ← List.append_assoc, List.dropLast_concat]
      rw [e, cutSemicolon_num _ _ (printInt_isNum method), numbers]
  unfold scanCopyin
  simp only [key, numbers_scan]
  rw [scanFactors_numbers method factors _ (by have := numbers_length method factors; omega)]
  rfl

example : scanCopyin (printCopyin 6 [4, -8, 120]) = some (6, [4, -8, 120]) := copyin_roundtrip 6 [4, -8, 120]

end ExtMpi.Text
