import Verif.Lexer.Kinds

/-! What the lexer does with a text when a name further on is replaced by another name. -/

namespace Verif.Lexer
open Verif.Syntax (SyntaxKind)

/-- A character that can start a name. -/
def nameStart (c : Char) : Bool := isLetter c || c == '_'

/-- Both texts begin with a name. -/
def NameHeads (u v : List Char) : Prop := ∃ x us y vs, u = x :: us ∧ v = y :: vs ∧ nameStart x = true ∧ nameStart y = true

theorem NameHeads.symm {u v : List Char} (h : NameHeads u v) : NameHeads v u := by
  obtain ⟨x, us, y, vs, h1, h2, h3, h4⟩ := h
  exact ⟨y, vs, x, us, h2, h1, h4, h3⟩

/-- Further contract of the segmentation crate: whether a cluster ends depends on its characters and the one after it
(UAX 29, the rules look back any distance and one character ahead), and characters that start a name behave alike there
(they are of the class "any other"). -/
def OneAhead (g : List Char → Nat) : Prop :=
  ∀ a u v, a ≠ [] → NameHeads u v → g (a ++ u) ≤ a.length → g (a ++ v) = g (a ++ u)

/-- The text ends in a character that neither belongs to a name nor is a quote. -/
def Apart (z : List Char) : Prop := ∃ w d, z = w ++ [d] ∧ isNameChar d = false ∧ d ≠ '"'

theorem Apart.ne {z : List Char} (h : Apart z) : z ≠ [] := by
  obtain ⟨w, d, rfl, -⟩ := h; simp

theorem Apart.append {a z : List Char} (h : Apart z) : Apart (a ++ z) := by
  obtain ⟨w, d, rfl, h⟩ := h
  exact ⟨a ++ w, d, by simp, h⟩

theorem Apart.right {a z : List Char} (h : Apart (a ++ z)) (hz : z ≠ []) : Apart z := by
  obtain ⟨w, d, e, h⟩ := h
  obtain ⟨w', d', rfl⟩ : ∃ w' d', z = w' ++ [d'] := ⟨z.dropLast, z.getLast hz, (List.dropLast_append_getLast hz).symm⟩
  rw [← List.append_assoc] at e
  have := List.append_inj' e rfl
  simp only [List.cons.injEq, and_true] at this
  exact ⟨w', d', rfl, this.2 ▸ h⟩

theorem Apart.not_name {z : List Char} (h : Apart z) (hall : ∀ d ∈ z, isNameChar d = true) : False := by
  obtain ⟨w, d, rfl, h, -⟩ := h
  have := hall d (by simp)
  rw [h] at this; cases this

theorem nameStart_nameChar {c : Char} (h : nameStart c = true) : isNameChar c = true := by
  unfold nameStart at h; unfold isNameChar; rw [h]; rfl

/-- No place within the text where a name starts after a character that belongs to none. -/
def safe : List Char → Bool
  | a :: b :: t => (isNameChar a || !nameStart b) && safe (b :: t)
  | _ => true

theorem safe_split {z : List Char} {y : Char} {s : List Char} (hz : Apart z) (hy : nameStart y = true) (h : safe (z ++ y :: s) = true) :
    False := by
  obtain ⟨w, d, rfl, hd, -⟩ := hz
  induction w with
  | nil =>
    simp only [List.nil_append, List.cons_append, safe, hd, hy] at h
    cases h
  | cons c w ih =>
    apply ih
    cases w with
    | nil => simp only [List.nil_append, List.cons_append, safe, Bool.and_eq_true] at h; simpa [safe] using h.2
    | cons b w => simp only [List.cons_append, safe, Bool.and_eq_true] at h; simpa using h.2

theorem prefix_swap {z u v s : List Char} (hz : Apart z) (hn : NameHeads u v) (hs : safe s = true) (h : s <+: z ++ u) : s <+: z ++ v := by
  obtain ⟨x, us, y, vs, rfl, rfl, hx, -⟩ := hn
  rcases List.prefix_or_prefix_of_prefix h (List.prefix_append z _) with h' | ⟨t, rfl⟩
  · exact h'.trans (List.prefix_append _ _)
  · have ht := (List.prefix_append_right_inj _).1 h
    cases t with
    | nil => simp
    | cons c t =>
      obtain ⟨r, hr⟩ := ht
      simp only [List.cons_append, List.cons.injEq] at hr
      rw [hr.1] at hs
      exact (safe_split hz hx hs).elim

theorem startsWith_swap {z u v s : List Char} (hz : Apart z) (hn : NameHeads u v) (hs : safe s = true) :
    startsWith (z ++ v) s = startsWith (z ++ u) s := by
  rw [Bool.eq_iff_iff, startsWith_iff, startsWith_iff]
  exact ⟨prefix_swap hz hn.symm hs, prefix_swap hz hn hs⟩

/-- A run of characters ends within the common part. -/
theorem takeWhile_swap {p : Char → Bool} {z u : List Char} (h : (∀ d ∈ z, p d = true) → ∃ x us, u = x :: us ∧ p x = false) :
    (z ++ u).takeWhile p = z.takeWhile p ∧ (z ++ u).dropWhile p = z.dropWhile p ++ u := by
  induction z with
  | nil =>
    obtain ⟨x, us, rfl, hx⟩ := h (by simp)
    simp [hx]
  | cons c z ih =>
    by_cases hc : p c = true
    · have := ih (fun hall => h (by simpa [hc] using hall))
      simp [hc, this.1, this.2]
    · simp [hc]

theorem takeWhile_apart {p : Char → Bool} (hp : ∀ d, p d = true → isNameChar d = true) {z u : List Char} (hz : Apart z) :
    (z ++ u).takeWhile p = z.takeWhile p ∧ (z ++ u).dropWhile p = z.dropWhile p ++ u :=
  takeWhile_swap fun hall => (hz.not_name fun d hd => hp d (hall d hd)).elim

theorem dropWhile_apart {p : Char → Bool} (hp : ∀ d, p d = true → isNameChar d = true) {z : List Char} (hz : Apart z) :
    Apart (z.dropWhile p) := by
  have hne : z.dropWhile p ≠ [] := by
    intro h
    rw [List.dropWhile_eq_nil_iff] at h
    exact hz.not_name fun d hd => hp d (h d hd)
  have : Apart (z.takeWhile p ++ z.dropWhile p) := by rw [List.takeWhile_append_dropWhile]; exact hz
  exact this.right hne

/-! ### Lines -/

theorem firstLine_of_newline {a w w' : List Char} (h : '\n' ∈ a) : firstLine (a ++ w) = firstLine (a ++ w') := by
  have ht : ∀ w, (a ++ w).takeWhile (· ≠ '\n') = a.takeWhile (· ≠ '\n') := by
    intro w
    induction a with
    | nil => simp at h
    | cons c a ih =>
      by_cases hc : c = '\n'
      · simp [hc]
      · have : '\n' ∈ a := by
          rcases List.mem_cons.1 h with h | h
          · exact absurd h.symm hc
          · exact h
        simpa [hc] using ih this
  have hl : ∀ w, (a.takeWhile (· ≠ '\n')).length < (a ++ w).length := by
    intro w
    have : (a.takeWhile (· ≠ '\n')).length < a.length := by
      induction a with
      | nil => simp at h
      | cons c a ih =>
        by_cases hc : c = '\n'
        · simp [hc]
        · have hm : '\n' ∈ a := by
            rcases List.mem_cons.1 h with h | h
            · exact absurd h.symm hc
            · exact h
          have := ih hm (by
            intro w
            have := ht w
            simpa [hc] using this)
          simpa [hc] using this
    rw [List.length_append]; omega
  unfold firstLine
  simp only [ht, hl]

/-- A line that goes on. -/
theorem firstLine_goes_on {z u : List Char} {x : Char} (h : '\n' ∉ z) (hx : x ≠ '\n') (hr : x ≠ '\r') :
    ∃ us, firstLine (z ++ x :: u) = z ++ x :: us := by
  have ht : (z ++ x :: u).takeWhile (· ≠ '\n') = z ++ x :: u.takeWhile (· ≠ '\n') := by
    rw [List.takeWhile_append_of_pos (by
      intro d hd
      simp only [decide_eq_true_eq]
      rintro rfl
      exact h hd)]
    simp [hx]
  unfold firstLine
  simp only [ht]
  split
  · rename_i hc
    cases hu : u.takeWhile (· ≠ '\n') with
    | nil =>
      rw [hu] at hc
      simp at hc
      exact absurd hc.2 hr
    | cons d ds =>
      exact ⟨(d :: ds).dropLast, by rw [List.dropLast_append_of_ne_nil (by simp)]; simp⟩
  · exact ⟨_, rfl⟩

theorem nameStart_cases {c : Char} (h : nameStart c = true) :
    c ≠ '\n' ∧ c ≠ '\r' ∧ c ≠ '"' ∧ isSpace c = false ∧ isDigit c = false := by
  have hd : isDigit c = false := by
    rw [Bool.eq_false_iff]
    intro hd
    simp only [isDigit, Bool.and_eq_true] at hd
    have d2 := le_toNat hd.2
    have d1 := le_toNat hd.1
    have e1 : ('9' : Char).toNat = 57 := rfl
    have e2 : ('a' : Char).toNat = 97 := rfl
    have e3 : ('A' : Char).toNat = 65 := rfl
    have e4 : ('0' : Char).toNat = 48 := rfl
    simp only [nameStart, isLetter, Bool.or_eq_true, Bool.and_eq_true, beq_iff_eq] at h
    rcases h with (h | h) | h
    · have := le_toNat h.1; omega
    · have := le_toNat h.1; omega
    · subst h; revert d2; decide
  refine ⟨?_, ?_, ?_, ?_, hd⟩
  · rintro rfl; revert h; decide
  · rintro rfl; revert h; decide
  · rintro rfl; revert h; decide
  · rw [Bool.eq_false_iff]
    intro hs
    simp only [isSpace, Bool.or_eq_true, beq_iff_eq] at hs
    rcases hs with (rfl | rfl) | rfl <;> revert h <;> decide

/-! ### Block comments -/

theorem Closes.two {d : Nat} {cs : List Char} {k : Nat} (h : Closes d cs k) : 2 ≤ k := by
  induction h <;> omega

theorem Closes.swap {d k : Nat} {a w : List Char} (w' : List Char) (h : Closes d (a ++ w) k) (hk : a.length = k) : Closes d (a ++ w') k := by
  generalize e : a ++ w = cs at h
  induction h generalizing a with
  | close rest =>
    match a, hk with
    | [x, y], _ =>
      simp only [List.cons_append, List.nil_append, List.cons.injEq] at e
      rw [e.1, e.2.1]
      exact .close _
  | inner d rest k _ ih =>
    match a, hk with
    | x :: y :: a, hk =>
      simp only [List.cons_append, List.cons.injEq] at e
      rw [e.1, e.2.1]
      exact .inner _ _ _ (ih (by simpa using hk) e.2.2)
  | opens d rest k _ ih =>
    match a, hk with
    | x :: y :: a, hk =>
      simp only [List.cons_append, List.cons.injEq] at e
      rw [e.1, e.2.1]
      exact .opens _ _ _ (ih (by simpa using hk) e.2.2)
  | char d c rest k h1 h2 h3 ih =>
    have := h3.two
    match a, hk with
    | x :: y :: a, hk =>
      simp only [List.cons_append, List.cons.injEq] at e
      obtain ⟨rfl, rfl⟩ := e
      refine .char _ _ _ _ ?_ ?_ (ih (a := y :: a) (by simpa using hk) rfl)
      · intro hp
        apply h1
        obtain ⟨r, hr⟩ := hp
        obtain ⟨rfl, hr'⟩ := List.cons.inj hr
        obtain ⟨rfl, -⟩ := List.cons.inj hr'
        exact ⟨a ++ w, rfl⟩
      · intro hp
        apply h2
        obtain ⟨r, hr⟩ := hp
        obtain ⟨rfl, hr'⟩ := List.cons.inj hr
        obtain ⟨rfl, -⟩ := List.cons.inj hr'
        exact ⟨a ++ w, rfl⟩
    | [x], hk => simp only [List.length_cons, List.length_nil] at hk; omega

theorem blockComment_swap {a c u v : List Char} (hp : ['/', '*'] <+: a ++ c ++ u) (hu : u ≠ []) (ha : Ascii a)
    (h : blockCommentLen (a ++ c ++ u) = blen a) : blockCommentLen (a ++ c ++ v) = blen a := by
  obtain ⟨body, hb⟩ := hp
  have hb' : a ++ c ++ u = '/' :: '*' :: body := hb.symm
  rw [hb'] at h
  have hlen : (a ++ c ++ u).length = body.length + 2 := by rw [hb']; simp
  have hul : 0 < u.length := List.length_pos_of_ne_nil hu
  rw [List.length_append, List.length_append] at hlen
  unfold blockCommentLen at h
  simp only [List.drop_succ_cons, List.drop_zero] at h
  rcases blockLoop_spec (blen ('/' :: '*' :: body)) body 0 0 with ⟨k, h1, h2⟩ | ⟨-, h2 | h2⟩
  · rw [h2, ha.blen] at h
    match a, h with
    | [], h => simp at h
    | [x], h => simp at h; have := h1.two; omega
    | x :: y :: a, h =>
      simp only [List.cons_append, List.cons.injEq] at hb'
      obtain ⟨rfl, rfl, rfl⟩ := hb'
      rw [List.append_assoc] at h1
      simp only [List.length_cons] at h
      have := C26_length_counts_characters_partial _ k (h1.swap (c ++ v) (by omega))
      simp only [List.cons_append, List.append_assoc]
      rw [this, ha.blen]
      simp only [List.length_cons]; omega
  · rw [h2, ha.blen] at h
    omega
  · rw [h2, ← hb', blen_append, blen_append] at h
    have := blen_pos hu
    omega

/-! ### Strings -/

theorem hexString_swap {z u v : List Char} (hz : Apart z) :
    hexStringMatch (z ++ v) = hexStringMatch (z ++ u) ∨ ¬ ['x', '"'] <+: z := by
  by_cases hp : ['x', '"'] <+: z
  · left
    obtain ⟨w, rfl⟩ := hp
    have hw : w ≠ [] := by
      rintro rfl
      obtain ⟨w', d, e, -, hd⟩ := hz
      have := List.append_inj' (show ['x'] ++ ['"'] = w' ++ [d] from e) rfl
      simp only [List.cons.injEq, and_true] at this
      exact hd this.2.symm
    have ha := hz.right hw
    unfold hexStringMatch
    rw [if_pos ((startsWith_iff _ _).2 ⟨w ++ v, by simp⟩), if_pos ((startsWith_iff _ _).2 ⟨w ++ u, by simp⟩)]
    simp only [List.cons_append, List.nil_append, List.drop_succ_cons, List.drop_zero]
    have hp : ∀ d, (isDigit d || isLetter d) = true → isNameChar d = true := by
      intro d hd
      rw [isNameChar_iff]
      simp only [Bool.or_eq_true] at hd
      tauto
    have hdrop : ∀ t, (w ++ t).drop ((w ++ t).takeWhile fun c => isDigit c || isLetter c).length =
        (w ++ t).dropWhile fun c => isDigit c || isLetter c := by
      intro t
      conv => lhs; rhs; rw [takeWhile_prefix' (fun c => isDigit c || isLetter c) (w ++ t)]
      exact List.drop_left
    rw [hdrop, hdrop, (takeWhile_apart hp ha).1, (takeWhile_apart hp ha).2, (takeWhile_apart hp ha).1, (takeWhile_apart hp ha).2]
    have hne := (dropWhile_apart hp ha).ne
    cases hd : w.dropWhile (fun c => isDigit c || isLetter c) with
    | nil => exact absurd hd hne
    | cons d ds => simp [startsWith]
  · exact .inr hp

theorem quotedMatch_more (cs m r' : List Char) (h : quotedMatch cs = some m) : quotedMatch (m ++ r') = some m := by
  fun_induction quotedMatch cs generalizing m
  · cases h
  · cases h; rfl
  · cases h
  · cases h
  · rename_i c cs hc ih
    simp only [Option.map_eq_some_iff] at h
    obtain ⟨m', h', rfl⟩ := h
    have := ih _ h'
    simp only [List.cons_append]
    rw [quotedMatch, if_neg hc, this]
    rfl
  · rename_i c cs h1 h2 h3 ih
    simp only [Option.map_eq_some_iff] at h
    obtain ⟨m', h', rfl⟩ := h
    have := ih _ h'
    simp only [List.cons_append]
    have hb : c ≠ '\\' := by
      rintro rfl
      cases cs with
      | nil => exact h2 rfl rfl
      | cons d ds => exact h3 d ds rfl rfl
    rw [quotedMatch, this]
    · rfl
    · exact h1
    · intro e; exact absurd e hb
    · intro _ _ e; exact absurd e hb

/-! ### One token -/

theorem punctToken_swap {z u v curr : List Char} (hz : Apart z) (hn : NameHeads u v) : punctToken (z ++ v) curr = punctToken (z ++ u) curr := by
  unfold punctToken
  rw [startsWith_swap (s := ['&', '=']) hz hn (by decide), startsWith_swap (s := ['|', '=']) hz hn (by decide),
    startsWith_swap (s := ['=', '=', '>']) hz hn (by decide), startsWith_swap (s := ['=', '>']) hz hn (by decide),
    startsWith_swap (s := ['=', '=']) hz hn (by decide), startsWith_swap (s := ['!', '=']) hz hn (by decide),
    startsWith_swap (s := [':', ':']) hz hn (by decide), startsWith_swap (s := ['%', '=']) hz hn (by decide),
    startsWith_swap (s := ['*', '=']) hz hn (by decide), startsWith_swap (s := ['+', '=']) hz hn (by decide),
    startsWith_swap (s := ['-', '=']) hz hn (by decide), startsWith_swap (s := ['.', '.']) hz hn (by decide),
    startsWith_swap (s := ['/', '=']) hz hn (by decide), startsWith_swap (s := ['^', '=']) hz hn (by decide)]

theorem numberSuffix_swap {z u v : List Char} {n : Nat} (hz : Apart z) (hn : NameHeads u v) : numberSuffix (z ++ v) n = numberSuffix (z ++ u) n := by
  unfold numberSuffix
  rw [startsWith_swap (s := ['u', '8']) hz hn (by decide), startsWith_swap (s := ['i', '8']) hz hn (by decide),
    startsWith_swap (s := ['u', '1', '6']) hz hn (by decide), startsWith_swap (s := ['u', '3', '2']) hz hn (by decide),
    startsWith_swap (s := ['u', '6', '4']) hz hn (by decide), startsWith_swap (s := ['i', '1', '6']) hz hn (by decide),
    startsWith_swap (s := ['i', '3', '2']) hz hn (by decide), startsWith_swap (s := ['i', '6', '4']) hz hn (by decide),
    startsWith_swap (s := ['u', '1', '2', '8']) hz hn (by decide), startsWith_swap (s := ['u', '2', '5', '6']) hz hn (by decide),
    startsWith_swap (s := ['i', '1', '2', '8']) hz hn (by decide), startsWith_swap (s := ['i', '2', '5', '6']) hz hn (by decide)]

theorem split_run {p : Char → Bool} {z u : List Char} (h : (z ++ u).takeWhile p = z.takeWhile p ∧ (z ++ u).dropWhile p = z.dropWhile p ++ u) :
    split (blen ((z ++ u).takeWhile p)) (z ++ u) = some (z.takeWhile p, z.dropWhile p ++ u) := by
  have e := takeWhile_prefix' p (z ++ u)
  rw [h.1, h.2] at e
  rw [h.1, e, split_complete]

theorem number_swap {p : Char → Bool} (hp : ∀ d, p d = true → isNameChar d = true) {z u v : List Char} (hz : Apart z) (hn : NameHeads u v) :
    numberMaybeWithSuffix (z ++ v) (blen ((z ++ v).takeWhile p)) = numberMaybeWithSuffix (z ++ u) (blen ((z ++ u).takeWhile p)) := by
  unfold numberMaybeWithSuffix
  rw [split_run (takeWhile_apart hp hz), split_run (takeWhile_apart hp hz), (takeWhile_apart hp hz).1, (takeWhile_apart hp hz).1]
  simp only [Option.map_some]
  rw [numberSuffix_swap (dropWhile_apart hp hz) hn]

theorem isHexChar_name (d : Char) (h : isHexChar d = true) : isNameChar d = true := by
  rw [isNameChar_iff]
  simp only [isHexChar, Bool.or_eq_true, Bool.and_eq_true, beq_iff_eq] at h
  rcases h with ((h | h) | h) | h
  · left
    simp only [isLetter, Bool.or_eq_true, Bool.and_eq_true]
    left
    refine ⟨h.1, ?_⟩
    have h1 : d ≤ 'f' := of_decide_eq_true h.2
    exact decide_eq_true (Char.le_trans h1 (by decide))
  · left
    simp only [isLetter, Bool.or_eq_true, Bool.and_eq_true]
    right
    refine ⟨h.1, ?_⟩
    have h1 : d ≤ 'F' := of_decide_eq_true h.2
    exact decide_eq_true (Char.le_trans h1 (by decide))
  · exact .inr (.inr h)
  · exact .inr (.inl h)

theorem isDec_name (d : Char) (h : (isDigit d || d == '_') = true) : isNameChar d = true := by
  rw [isNameChar_iff]
  simp only [Bool.or_eq_true, beq_iff_eq] at h
  tauto

theorem firstLine_swap {a c u v : List Char} (hn : NameHeads u v) (h : blen (firstLine (a ++ c ++ u)) = blen a) :
    firstLine (a ++ c ++ v) = firstLine (a ++ c ++ u) := by
  by_cases hnl : '\n' ∈ a ++ c
  · exact firstLine_of_newline hnl
  · obtain ⟨x, us, y, vs, rfl, rfl, hx, hy⟩ := hn
    obtain ⟨w, hw⟩ := firstLine_goes_on (u := us) hnl (nameStart_cases hx).1 (nameStart_cases hx).2.1
    rw [hw, blen_append, blen_append] at h
    have := blen_pos (List.cons_ne_nil x w)
    omega

/-- The first token of a text stays when a name after it is replaced. -/
theorem findToken_swap {g : List Char → Nat} (hg : OneAhead g) {a c u v : List Char} {t : Tok} (ha : a ≠ []) (hz : Apart (a ++ c))
    (hn : NameHeads u v) (hc : t = .BlockComment → ['/', '*'] <+: a → Ascii a) (h : findToken g (a ++ c ++ u) = some (t, blen a)) :
    findToken g (a ++ c ++ v) = some (t, blen a) := by
  have hzne := hz.ne
  have hune : u ≠ [] := by obtain ⟨x, us, y, vs, rfl, rfl, -⟩ := hn; simp
  have hupos := blen_pos hune
  -- the cluster
  have hcur : (a ++ c ++ v).take (g (a ++ c ++ v)) = (a ++ c ++ u).take (g (a ++ c ++ u)) := by
    by_cases hle : g (a ++ c ++ u) ≤ (a ++ c).length
    · rw [hg _ _ _ hzne hn hle, List.take_append_of_le_length hle, List.take_append_of_le_length hle]
    · exfalso
      have hcurr : ∀ d, (a ++ c ++ u).take (g (a ++ c ++ u)) ≠ [d] := by
        intro d e
        have := congrArg List.length e
        rw [List.length_take, List.length_append] at this
        have h1 := List.length_pos_of_ne_nil hzne
        have h2 := List.length_pos_of_ne_nil hune
        simp only [List.length_cons, List.length_nil] at this
        omega
      have hpre : a ++ c <+: (a ++ c ++ u).take (g (a ++ c ++ u)) := by
        rw [List.prefix_take_iff]
        exact ⟨List.prefix_append _ _, by omega⟩
      have hlong : blen a < blen ((a ++ c ++ u).take (g (a ++ c ++ u))) := by
        rw [List.take_append, List.take_of_length_le (by omega), blen_append, blen_append]
        have : 0 < blen (u.take (g (a ++ c ++ u) - (a ++ c).length)) := by
          apply blen_pos
          rw [ne_eq, List.take_eq_nil_iff]
          rintro (h | h)
          · omega
          · exact hune h
        omega
      unfold findToken at h
      rw [if_neg (by simp [ha])] at h
      simp only [hcurr, false_and, if_false, or_self] at h
      have hnum : isNum ((a ++ c ++ u).take (g (a ++ c ++ u))) = false := by
        unfold isNum
        split
        · rename_i d e; exact absurd e (hcurr d)
        · rfl
      have halp : isAlphabetic ((a ++ c ++ u).take (g (a ++ c ++ u))) = false := by
        unfold isAlphabetic
        split
        · rename_i d e; exact absurd e (hcurr d)
        · rfl
      rw [hnum, halp] at h
      unfold punctToken at h
      simp only [hcurr, if_false, Bool.false_eq_true, Option.some.injEq, Prod.mk.injEq] at h
      omega
  unfold findToken at h ⊢
  rw [if_neg (by simp [ha])] at h ⊢
  simp only [hcur] at h ⊢
  rw [startsWith_swap (s := ['/', '/']) hz hn (by decide), startsWith_swap (s := ['/', '*']) hz hn (by decide),
    startsWith_swap (s := ['0', 'x']) hz hn (by decide), startsWith_swap (s := ['x', '"']) hz hn (by decide),
    startsWith_swap (s := ['b', '"']) hz hn (by decide), punctToken_swap hz hn]
  split at h
  · rename_i h1
    rw [if_pos h1]
    simp only [Option.some.injEq, Prod.mk.injEq] at h
    rw [firstLine_swap hn h.2, ← h.1, h.2]
  rename_i h1
  rw [if_neg h1]
  split at h
  · rename_i h2
    rw [if_pos h2]
    simp only [Option.some.injEq, Prod.mk.injEq] at h
    have hp := (startsWith_iff _ _).1 h2.2
    have hpa : ['/', '*'] <+: a := by
      have h3 : a <+: a ++ c ++ u := by rw [List.append_assoc]; exact List.prefix_append _ _
      rcases List.prefix_or_prefix_of_prefix hp h3 with hpa | hpa
      · exact hpa
      · exfalso
        have hlen := hpa.length_le
        have hasc : Ascii a := fun d hd => by
          have := hpa.subset hd
          simp only [List.mem_cons, List.not_mem_nil, or_false] at this
          rcases this with rfl | rfl <;> decide
        have hb := h.2
        rw [hasc.blen] at hb
        obtain ⟨body, hbody⟩ := hp
        rw [← hbody] at hb
        unfold blockCommentLen at hb
        simp only [List.cons_append, List.nil_append, List.drop_succ_cons, List.drop_zero, List.length_cons, List.length_nil] at hb hlen
        have hla : (a ++ c ++ u).length = body.length + 2 := by rw [← hbody]; simp
        rcases blockLoop_spec (blen ('/' :: '*' :: body)) body 0 0 with ⟨k, k1, k2⟩ | ⟨-, k2 | k2⟩
        · have := k1.two; omega
        · have hul := List.length_pos_of_ne_nil hune
          simp only [List.length_append] at hla
          omega
        · rw [k2] at hb
          have hbb : blen (a ++ c ++ u) = a.length := by rw [← hbody]; exact hb
          rw [blen_append, blen_append, hasc.blen] at hbb
          omega
    rw [blockComment_swap hp hune (hc h.1.symm hpa) h.2, ← h.1]
  rename_i h2
  rw [if_neg h2]
  split at h
  · rename_i h3
    rw [if_pos h3]
    simp only [Option.some.injEq, Prod.mk.injEq] at h
    rw [← h.1, ← h.2]
    unfold wsLen
    rw [positionNot_eq _ isSpace_ascii, positionNot_eq _ isSpace_ascii]
    obtain ⟨x, us, y, vs, rfl, rfl, hx, hy⟩ := hn
    rw [(takeWhile_swap (p := isSpace) fun _ => ⟨x, us, rfl, (nameStart_cases hx).2.2.2.1⟩).1,
      (takeWhile_swap (p := isSpace) fun _ => ⟨y, vs, rfl, (nameStart_cases hy).2.2.2.1⟩).1]
  rename_i h3
  rw [if_neg h3]
  split at h
  · rename_i h4
    rw [if_pos h4]
    have hdec : decimalNumber (a ++ c ++ v) = decimalNumber (a ++ c ++ u) := by
      unfold decimalNumber
      rw [positionNot_eq _ decDigit_ascii, positionNot_eq _ decDigit_ascii]
      exact number_swap isDec_name hz hn
    by_cases h0x : startsWith (a ++ c ++ u) ['0', 'x'] = true
    · have hpre : ['0', 'x'] <+: a ++ c := by
        rcases List.prefix_or_prefix_of_prefix ((startsWith_iff _ _).1 h0x) (List.prefix_append (a ++ c) u) with hp | hp
        · exact hp
        · exfalso
          refine hz.not_name fun d hd => ?_
          have := hp.subset hd
          simp only [List.mem_cons, List.not_mem_nil, or_false] at this
          rcases this with rfl | rfl <;> decide
      obtain ⟨w, hw⟩ := hpre
      have hwne : w ≠ [] := by
        rintro rfl
        refine hz.not_name fun d hd => ?_
        rw [← hw] at hd
        simp only [List.mem_append, List.mem_cons, List.not_mem_nil, or_false] at hd
        rcases hd with rfl | rfl <;> decide
      have hwa : Apart w := Apart.right (a := ['0', 'x']) (by rw [hw]; exact hz) hwne
      have hbig : ∀ s, 2 < blen (a ++ c ++ s) := by
        intro s
        rw [blen_append, ← hw, blen_append]
        have := blen_pos hwne
        have : blen ['0', 'x'] = 2 := by decide
        omega
      rw [if_pos ⟨h0x, hbig u⟩] at h
      rw [if_pos ⟨h0x, hbig v⟩]
      rw [← hw] at h ⊢
      simp only [List.cons_append, List.nil_append, List.drop_succ_cons, List.drop_zero] at h ⊢
      unfold hexNumber findNot at h ⊢
      rw [number_swap isHexChar_name hwa hn]
      exact h
    · rw [if_neg (fun hh => h0x hh.1)] at h
      rw [if_neg (fun hh => h0x hh.1), hdec]
      exact h
  rename_i h4
  rw [if_neg h4]
  split at h
  · rename_i h5
    rw [if_pos h5]
    have line : ∀ {s : Char}, isNameChar s = true → startsWith (a ++ c ++ u) [s, '"'] = true → [s, '"'] <+: a ++ c := by
      intro s hs hh
      rcases List.prefix_or_prefix_of_prefix ((startsWith_iff _ _).1 hh) (List.prefix_append (a ++ c) u) with hp | hp
      · exact hp
      · match hac : a ++ c, hp with
        | [], _ => exact absurd hac hzne
        | [x], hp =>
          exfalso
          refine hz.not_name fun d hd => ?_
          rw [hac] at hd
          obtain ⟨r, hr⟩ := hp
          simp only [List.cons_append, List.nil_append, List.cons.injEq] at hr
          rw [List.mem_singleton.1 hd, hr.1]
          exact hs
        | x :: y :: w, hp =>
          have := hp.length_le
          simp only [List.length_cons, List.length_nil] at this
          have : w = [] := List.length_eq_zero_iff.1 (by omega)
          subst this
          obtain ⟨r, hr⟩ := hp
          simp only [List.cons_append, List.nil_append, List.cons.injEq] at hr
          rw [hr.1, hr.2.1]
          exact List.prefix_rfl
    have goes : '\n' ∉ a ++ c → ∃ u1 v1, firstLine (a ++ c ++ u) = a ++ c ++ u1 ∧ firstLine (a ++ c ++ v) = a ++ c ++ v1 ∧ NameHeads u1 v1 := by
      intro hnl
      obtain ⟨x, us, y, vs, rfl, rfl, hx, hy⟩ := hn
      obtain ⟨u1, e1⟩ := firstLine_goes_on (u := us) hnl (nameStart_cases hx).1 (nameStart_cases hx).2.1
      obtain ⟨v1, e2⟩ := firstLine_goes_on (u := vs) hnl (nameStart_cases hy).1 (nameStart_cases hy).2.1
      exact ⟨_, _, e1, e2, x, u1, y, v1, rfl, rfl, hx, hy⟩
    split at h
    · rename_i h6
      rw [if_pos h6]
      by_cases hnl : '\n' ∈ a ++ c
      · rw [firstLine_of_newline (w' := u) hnl]; exact h
      · obtain ⟨u1, v1, e1, e2, -⟩ := goes hnl
        rw [e1] at h
        rw [e2]
        rcases hexString_swap (u := u1) (v := v1) hz with e | e
        · rw [e]; exact h
        · exact absurd (line (by decide) h6) e
    rename_i h6
    rw [if_neg h6]
    split at h
    · rename_i h7
      rw [if_pos h7]
      by_cases hnl : '\n' ∈ a ++ c
      · rw [firstLine_of_newline (w' := u) hnl]; exact h
      · obtain ⟨u1, v1, e1, e2, hn1⟩ := goes hnl
        have hu1 : u1 ≠ [] := by obtain ⟨x, us, y, vs, rfl, rfl, -⟩ := hn1; simp
        have hu1pos := blen_pos hu1
        rw [e1] at h
        rw [e2]
        obtain ⟨w, hw⟩ := line (by decide) h7
        cases hm : byteStringMatch (a ++ c ++ u1) with
        | none =>
          rw [hm] at h
          simp only [Option.some.injEq, Prod.mk.injEq] at h
          rw [blen_append, blen_append] at h
          omega
        | some m =>
          rw [hm] at h
          simp only [Option.some.injEq, Prod.mk.injEq] at h
          have hpm := (byteStringMatch_prefix _ _ hm).1
          have hma : m = a := by
            obtain ⟨r, hr⟩ := hpm
            exact prefix_unique hr.symm (by rw [List.append_assoc]; exact List.prefix_append _ _) h.2
          subst hma
          have hm2 : byteStringMatch (m ++ c ++ v1) = some m := by
            unfold byteStringMatch at hm ⊢
            rw [← hw] at hm ⊢
            rw [if_pos ((startsWith_iff _ _).2 ⟨w ++ u1, by simp⟩)] at hm
            rw [if_pos ((startsWith_iff _ _).2 ⟨w ++ v1, by simp⟩)]
            simp only [List.cons_append, List.nil_append, List.drop_succ_cons, List.drop_zero, Option.map_eq_some_iff] at hm ⊢
            obtain ⟨q, q1, q2⟩ := hm
            refine ⟨q, ?_, q2⟩
            have hq : w = q ++ c := by
              rw [← q2] at hw
              simpa using hw
            rw [hq, List.append_assoc]
            exact quotedMatch_more _ _ _ q1
          rw [hm2]
          simp only [Option.some.injEq, Prod.mk.injEq]
          exact ⟨h.1, trivial⟩
    rename_i h7
    rw [if_neg h7]
    unfold nameLen at h ⊢
    rw [positionNot_eq _ isNameChar_ascii] at h ⊢
    rw [split_run (takeWhile_apart (fun _ h => h) hz), (takeWhile_apart (fun _ h => h) hz).1] at h ⊢
    exact h
  rename_i h5
  rw [if_neg h5]
  split at h
  · rename_i h6
    rw [if_pos h6]
    obtain ⟨x, us, y, vs, rfl, rfl, hx, hy⟩ := hn
    match hac : a ++ c, hzne with
    | [q], _ =>
      by_cases hq : q = '\''
      · subst hq
        rw [hac] at h
        simp only [List.cons_append, List.nil_append, quoteIdentMatch] at h
        rw [if_pos (by simpa [nameStart] using hx)] at h
        simp only [Option.some.injEq, Prod.mk.injEq] at h
        have h8 := h.2
        have h9 : blen (a ++ c) = 1 := by rw [hac]; decide
        rw [blen_append] at h9
        simp only [blen] at h8
        have := Char.utf8Size_pos x
        have : ('\'' : Char).utf8Size = 1 := by decide
        omega
      · exfalso
        rw [hac] at h6
        have h8 : [q] ++ x :: us = q :: x :: us := rfl
        rw [h8] at h6
        cases hgg : g (q :: x :: us) with
        | zero => rw [hgg] at h6; cases h6
        | succ n =>
          rw [hgg] at h6
          simp only [List.take_succ_cons, List.cons.injEq] at h6
          exact hq h6.1
    | q :: c2 :: cs, _ =>
      rw [hac] at h
      have hcs : cs = [] → isNameChar c2 = false := by
        rintro rfl
        obtain ⟨w, d, e, hd, -⟩ := hz
        rw [hac] at e
        have := List.append_inj' (show [q] ++ [c2] = w ++ [d] from e) rfl
        simp only [List.cons.injEq, and_true] at this
        rw [this.2]; exact hd
      have hmatch : quoteIdentMatch (q :: c2 :: cs ++ y :: vs) = quoteIdentMatch (q :: c2 :: cs ++ x :: us) := by
        simp only [List.cons_append]
        by_cases hq : q = '\''
        · subst hq
          simp only [quoteIdentMatch]
          by_cases hl : (isLetter c2 || c2 == '_') = true
          · rw [if_pos hl, if_pos hl]
            have hcne : cs ≠ [] := by
              intro e
              have h1 := hcs e
              rw [nameStart_nameChar hl] at h1
              cases h1
            have hap : Apart cs := Apart.right (a := ['\'', c2]) (by
              have hz' := hz
              rw [hac] at hz'
              exact hz') hcne
            rw [(takeWhile_apart (fun _ h => h) hap).1, (takeWhile_apart (fun _ h => h) hap).1]
          · rw [if_neg hl, if_neg hl]
        · unfold quoteIdentMatch
          split
          · rename_i e; simp only [List.cons.injEq] at e; exact absurd e.1 hq
          · split
            · rename_i e; simp only [List.cons.injEq] at e; exact absurd e.1 hq
            · rfl
      rw [hmatch]
      exact h
  rename_i h6
  rw [if_neg h6]
  exact h

end Verif.Lexer
