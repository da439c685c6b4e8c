import Verif.Lexer.Model
import Mathlib.Tactic.Common
import Mathlib.Data.List.Basic
import Mathlib.Data.List.TakeWhile

/-! Lemmas about byte lengths, slicing and the length functions of the lexer. -/

namespace Verif.Lexer

theorem blen_append (a b : List Char) : blen (a ++ b) = blen a + blen b := by
  induction a with
  | nil => simp [blen]
  | cons c cs ih => simp [blen, ih, Nat.add_assoc]

theorem blen_pos {a : List Char} (h : a ≠ []) : 0 < blen a := by
  cases a with
  | nil => exact absurd rfl h
  | cons c cs => have := c.utf8Size_pos; simp only [blen]; omega

theorem length_le_blen (a : List Char) : a.length ≤ blen a := by
  induction a with
  | nil => simp [blen]
  | cons c cs ih => have := c.utf8Size_pos; simp only [blen, List.length_cons]; omega

theorem split_sound : ∀ (n : Nat) (cs a b : List Char), split n cs = some (a, b) → cs = a ++ b ∧ blen a = n := by
  intro n cs
  induction cs generalizing n with
  | nil =>
    intro a b h
    cases n with
    | zero => simp only [split, Option.some.injEq, Prod.mk.injEq] at h; obtain ⟨rfl, rfl⟩ := h; simp [blen]
    | succ n => simp [split] at h
  | cons c cs ih =>
    intro a b h
    cases n with
    | zero => simp only [split, Option.some.injEq, Prod.mk.injEq] at h; obtain ⟨rfl, rfl⟩ := h; simp [blen]
    | succ n =>
      rw [split] at h
      split at h
      · cases h' : split (n + 1 - c.utf8Size) cs with
        | none => rw [h'] at h; simp at h
        | some p =>
          obtain ⟨a', b'⟩ := p
          rw [h'] at h
          simp only [Option.map_some, Option.some.injEq, Prod.mk.injEq] at h
          obtain ⟨rfl, rfl⟩ := h
          obtain ⟨rfl, h2⟩ := ih _ _ _ h'
          exact ⟨rfl, by simp only [blen]; omega⟩
      · cases h

theorem split_complete (a b : List Char) : split (blen a) (a ++ b) = some (a, b) := by
  induction a with
  | nil => simp [blen, split]
  | cons c cs ih =>
    have hp := c.utf8Size_pos
    obtain ⟨n, hn⟩ : ∃ n, blen (c :: cs) = n + 1 := ⟨blen (c :: cs) - 1, by simp only [blen]; omega⟩
    have h2 : n + 1 - c.utf8Size = blen cs := by simp only [blen] at hn; omega
    rw [hn, List.cons_append, split, if_pos (by simp only [blen] at hn; omega), h2, ih]
    rfl

/-- `n` is the length of a non-empty prefix of the text. -/
def IsPre (text : List Char) (n : Nat) : Prop := ∃ a b, text = a ++ b ∧ blen a = n ∧ a ≠ []

theorem IsPre.of_prefix {text a : List Char} (h : a <+: text) (ha : a ≠ []) : IsPre text (blen a) := by
  obtain ⟨b, rfl⟩ := h
  exact ⟨a, b, rfl, rfl, ha⟩

theorem IsPre.trans {text line : List Char} (h : line <+: text) {n : Nat} (hn : IsPre line n) :
    IsPre text n := by
  obtain ⟨a, b, rfl, h2, h3⟩ := hn
  obtain ⟨c, rfl⟩ := h
  exact ⟨a, b ++ c, by simp, h2, h3⟩

/-- Every character takes one byte. -/
def Ascii (cs : List Char) : Prop := ∀ c ∈ cs, c.utf8Size = 1

instance (cs : List Char) : Decidable (Ascii cs) := by unfold Ascii; infer_instance

theorem Ascii.blen {cs : List Char} (h : Ascii cs) : blen cs = cs.length := by
  induction cs with
  | nil => rfl
  | cons c cs ih =>
    rw [Lexer.blen, List.length_cons, ih (fun d hd => h d (List.mem_cons_of_mem _ hd)),
      h c List.mem_cons_self]
    omega

theorem ascii_of_blen {cs : List Char} (h : Lexer.blen cs = cs.length) : Ascii cs := by
  induction cs with
  | nil => intro c hc; cases hc
  | cons c cs ih =>
    have h1 := c.utf8Size_pos
    have h2 := length_le_blen cs
    simp only [Lexer.blen, List.length_cons] at h
    intro d hd
    rcases List.mem_cons.1 hd with rfl | hd
    · omega
    · exact ih (by omega) d hd

theorem startsWith_iff (text pre : List Char) : startsWith text pre = true ↔ pre <+: text := by
  unfold startsWith; exact List.isPrefixOf_iff_prefix

theorem isPre_lit {text pre : List Char} (h : startsWith text pre = true) (ha : Ascii pre) (hne : pre ≠ []) :
    IsPre text pre.length := by
  rw [← ha.blen]; exact IsPre.of_prefix ((startsWith_iff _ _).1 h) hne

theorem positionNot_eq (p : Char → Bool) (hp : ∀ c, p c = true → c.utf8Size = 1) (text : List Char) :
    positionNot p text = blen (text.takeWhile p) := by
  unfold positionNot
  have ha : Ascii (text.takeWhile p) := fun c hc => hp c (List.mem_takeWhile_imp hc)
  cases h : text.findIdx? (fun c => !p c) with
  | none =>
    have : text.takeWhile p = text := by
      rw [List.takeWhile_eq_self_iff]
      intro c hc
      have := List.findIdx?_eq_none_iff.1 h c hc
      simpa using this
    rw [this]
  | some i =>
    rw [ha.blen]
    have h1 := List.findIdx?_eq_some_iff_findIdx_eq.1 h
    simp only
    rw [← h1.2]
    clear h h1 ha
    induction text with
    | nil => rfl
    | cons c cs ih =>
      rw [List.findIdx_cons, List.takeWhile_cons]
      cases hc : p c with
      | true => simp [ih]
      | false => simp

theorem utf8Size_ascii (c : Char) (h : c.toNat < 128) : c.utf8Size = 1 := by
  unfold Char.utf8Size
  have : c.val ≤ 127 := by
    rw [UInt32.le_iff_toNat_le]; show c.toNat ≤ 127; omega
  simp [this]

theorem le_toNat {a b : Char} (h : (decide (a ≤ b)) = true) : a.toNat ≤ b.toNat := by
  have := of_decide_eq_true h
  exact UInt32.le_iff_toNat_le.1 this

theorem isDigit_ascii (c : Char) (h : isDigit c = true) : c.utf8Size = 1 := by
  simp only [isDigit, Bool.and_eq_true] at h
  have := le_toNat h.2
  exact utf8Size_ascii c (by have : ('9' : Char).toNat = 57 := rfl; omega)

theorem isLetter_ascii (c : Char) (h : isLetter c = true) : c.utf8Size = 1 := by
  simp only [isLetter, Bool.and_eq_true, Bool.or_eq_true] at h
  have e1 : ('z' : Char).toNat = 122 := rfl
  have e2 : ('Z' : Char).toNat = 90 := rfl
  rcases h with h | h
  · have := le_toNat h.2; exact utf8Size_ascii c (by omega)
  · have := le_toNat h.2; exact utf8Size_ascii c (by omega)

theorem isNameChar_ascii (c : Char) (h : isNameChar c = true) : c.utf8Size = 1 := by
  simp only [isNameChar, Bool.or_eq_true, beq_iff_eq] at h
  rcases h with (h | rfl) | h
  · exact isLetter_ascii c h
  · rfl
  · exact isDigit_ascii c h

theorem isSpace_ascii (c : Char) (h : isSpace c = true) : c.utf8Size = 1 := by
  simp only [isSpace, Bool.or_eq_true, beq_iff_eq] at h
  rcases h with (rfl | rfl) | rfl <;> rfl

theorem decDigit_ascii (c : Char) (h : (isDigit c || c == '_') = true) : c.utf8Size = 1 := by
  simp only [Bool.or_eq_true, beq_iff_eq] at h
  rcases h with h | rfl
  · exact isDigit_ascii c h
  · rfl

theorem takeWhile_prefix' (p : Char → Bool) (text : List Char) :
    text = text.takeWhile p ++ text.dropWhile p := (List.takeWhile_append_dropWhile).symm

theorem firstLine_prefix (text : List Char) : firstLine text <+: text := by
  unfold firstLine
  simp only
  split
  · exact (List.dropLast_prefix _).trans (List.takeWhile_prefix _)
  · exact List.takeWhile_prefix _

theorem prefix_firstLine {a b : Char} {text : List Char} (h : [a, b] <+: text) (ha : a ≠ '\n') (hb : b ≠ '\n')
    (hb' : b ≠ '\r') : [a, b] <+: firstLine text := by
  obtain ⟨cs, rfl⟩ := h
  unfold firstLine
  simp only [List.cons_append, List.nil_append, List.takeWhile_cons, ha, hb, ne_eq, not_false_eq_true,
    decide_true, if_true]
  split
  · rename_i hc
    obtain ⟨-, hc⟩ := hc
    cases hw : List.takeWhile (fun x => !decide (x = '\n')) cs with
    | nil =>
      simp only [decide_not] at hc
      rw [hw] at hc
      simp at hc
      exact absurd hc hb'
    | cons d ds =>
      simp only [decide_not]
      rw [hw]
      exact ⟨_, by simp only [List.dropLast_cons_cons, List.cons_append, List.nil_append]; rfl⟩
  · exact ⟨_, rfl⟩

theorem hexStringMatch_spec (line : List Char) (h : ['x', '"'] <+: line) :
    ∃ m, hexStringMatch line = some m ∧ m <+: line ∧ m ≠ [] := by
  unfold hexStringMatch
  rw [if_pos ((startsWith_iff _ _).2 h)]
  refine ⟨_, rfl, ?_, by simp⟩
  obtain ⟨cs, rfl⟩ := h
  simp only [List.cons_append, List.nil_append, List.drop_succ_cons, List.drop_zero]
  have e := takeWhile_prefix' (fun c => isDigit c || isLetter c) cs
  have e2 : cs.drop (cs.takeWhile fun c => isDigit c || isLetter c).length =
      cs.dropWhile fun c => isDigit c || isLetter c := by
    conv => lhs; rhs; rw [e]
    exact List.drop_left
  rw [e2]
  split
  · rename_i hq
    obtain ⟨r, hr⟩ := (startsWith_iff _ _).1 hq
    refine ⟨r, ?_⟩
    simp only [List.cons_append, List.append_assoc, List.nil_append, List.cons.injEq, true_and]
    have : '"' :: r = cs.dropWhile fun c => isDigit c || isLetter c := by rw [← hr]; rfl
    rw [this]
    exact e.symm
  · refine ⟨cs.dropWhile fun c => isDigit c || isLetter c, ?_⟩
    simp only [List.cons_append, List.append_nil, List.cons.injEq, true_and]
    exact e.symm

theorem quotedMatch_prefix (cs m : List Char) (h : quotedMatch cs = some m) : m <+: cs := by
  fun_induction quotedMatch cs generalizing m
  · cases h
  · cases h; exact ⟨_, rfl⟩
  · cases h
  · cases h
  · rename_i c cs hc ih
    simp only [Option.map_eq_some_iff] at h
    obtain ⟨m', h', rfl⟩ := h
    obtain ⟨r, hr⟩ := ih _ h'
    exact ⟨r, by rw [← hr]; rfl⟩
  · rename_i c cs _ _ _ ih
    simp only [Option.map_eq_some_iff] at h
    obtain ⟨m', h', rfl⟩ := h
    obtain ⟨r, hr⟩ := ih _ h'
    exact ⟨r, by rw [← hr]; rfl⟩

theorem byteStringMatch_prefix (line m : List Char) (h : byteStringMatch line = some m) :
    m <+: line ∧ m ≠ [] := by
  unfold byteStringMatch at h
  split at h
  · rename_i hs
    simp only [Option.map_eq_some_iff] at h
    obtain ⟨m', h', rfl⟩ := h
    obtain ⟨cs, rfl⟩ := (startsWith_iff _ _).1 hs
    obtain ⟨r, hr⟩ := quotedMatch_prefix _ _ h'
    simp only [List.cons_append, List.nil_append, List.drop_succ_cons, List.drop_zero] at hr
    exact ⟨⟨r, by rw [List.append_assoc, hr]⟩, by simp⟩
  · cases h

theorem quoteIdentMatch_prefix (text m : List Char) (h : quoteIdentMatch text = some m) :
    m <+: text ∧ m ≠ [] := by
  unfold quoteIdentMatch at h
  split at h
  · rename_i c cs
    split at h
    · cases h
      refine ⟨⟨cs.dropWhile isNameChar, ?_⟩, by simp⟩
      simp only [List.cons_append, List.takeWhile_append_dropWhile]
    · cases h
  · cases h

theorem ext_lit {text a rest s : List Char} {n : Nat} (h : text = a ++ rest) (hn : blen a = n)
    (hs : startsWith rest s = true) (ha : Ascii s) (hne : s ≠ []) : IsPre text (n + s.length) := by
  obtain ⟨r, rfl⟩ := (startsWith_iff _ _).1 hs
  exact ⟨a ++ s, r, by rw [h, List.append_assoc], by rw [blen_append, hn, ha.blen], by simp [hne]⟩

/-- A number with a suffix covers a prefix. -/
theorem numberSuffix_spec {text a rest : List Char} {n : Nat} (h : text = a ++ rest) (hn : blen a = n)
    (hne : a ≠ []) : IsPre text (numberSuffix rest n).2 ∧
      ((numberSuffix rest n).1 = .NumValue ∨ (numberSuffix rest n).1 = .NumTypedValue) := by
  unfold numberSuffix
  split
  · rename_i hs
    simp only [Bool.or_eq_true] at hs
    refine ⟨?_, Or.inr rfl⟩
    rcases hs with hs | hs <;> exact ext_lit h hn hs (by decide) (by decide)
  · split
    · rename_i hs
      simp only [Bool.or_eq_true] at hs
      refine ⟨?_, Or.inr rfl⟩
      rcases hs with ((((hs | hs) | hs) | hs) | hs) | hs <;> exact ext_lit h hn hs (by decide) (by decide)
    · split
      · rename_i hs
        simp only [Bool.or_eq_true] at hs
        refine ⟨?_, Or.inr rfl⟩
        rcases hs with ((hs | hs) | hs) | hs <;> exact ext_lit h hn hs (by decide) (by decide)
      · exact ⟨⟨a, rest, h, hn, hne⟩, Or.inl rfl⟩

/-- The same without the requirement that there is a digit: the length may then be zero. -/
theorem numberSuffix_spec' {text a rest : List Char} {n : Nat} (h : text = a ++ rest) (hn : blen a = n) :
    ((numberSuffix rest n).2 ≠ 0 → IsPre text (numberSuffix rest n).2) ∧
      ((numberSuffix rest n).1 = .NumValue ∨ (numberSuffix rest n).1 = .NumTypedValue) := by
  by_cases hne : a = []
  · subst hne
    have : n = 0 := by rw [← hn]; rfl
    subst this
    unfold numberSuffix
    split
    · rename_i hs
      simp only [Bool.or_eq_true] at hs
      refine ⟨fun _ => ?_, Or.inr rfl⟩
      rcases hs with hs | hs <;> exact ext_lit h hn hs (by decide) (by decide)
    · split
      · rename_i hs
        simp only [Bool.or_eq_true] at hs
        refine ⟨fun _ => ?_, Or.inr rfl⟩
        rcases hs with ((((hs | hs) | hs) | hs) | hs) | hs <;> exact ext_lit h hn hs (by decide) (by decide)
      · split
        · rename_i hs
          simp only [Bool.or_eq_true] at hs
          refine ⟨fun _ => ?_, Or.inr rfl⟩
          rcases hs with ((hs | hs) | hs) | hs <;> exact ext_lit h hn hs (by decide) (by decide)
        · exact ⟨fun h => absurd rfl h, Or.inl rfl⟩
  · obtain ⟨h1, h2⟩ := numberSuffix_spec h hn hne
    exact ⟨fun _ => h1, h2⟩

end Verif.Lexer
