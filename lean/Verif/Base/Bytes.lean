import Mathlib.Data.List.Basic

/-! Rust strings as UTF-8 byte lists. -/

namespace Verif

/-- Contents of a Rust `String`: its UTF-8 bytes. -/
abbrev Text := List UInt8

/-- UTF-8 encoding of a list of characters. -/
def encode (cs : List Char) : Text := cs.flatMap String.utf8EncodeChar

/-- The byte list is the encoding of some characters, as every Rust `String` is. -/
def IsStr (t : Text) : Prop := ∃ cs : List Char, t = encode cs

/-- A byte that does not continue a character (`u8::is_utf8_char_boundary` of the Rust standard
library: `(self as i8) >= -0x40`). -/
def startsChar (b : UInt8) : Bool := b.toNat < 128 || 192 ≤ b.toNat

/-- `str::is_char_boundary` of the Rust standard library. -/
def isCharBoundary (t : Text) (i : Nat) : Bool :=
  i == 0 || i == t.length || (match t[i]? with | some b => startsChar b | none => false)

/-- `String::replace_range`: panics (`none`) when the range is not inside the string or does not lie
on character boundaries. -/
def replaceRange (t : Text) (s e : Nat) (new : Text) : Option Text :=
  if s ≤ e ∧ e ≤ t.length ∧ isCharBoundary t s = true ∧ isCharBoundary t e = true
  then some (t.take s ++ new ++ t.drop e) else none

/-- The first byte of a non-empty string starts a character. -/
def headStarts (t : Text) : Prop := ∀ b, t.head? = some b → startsChar b = true

theorem headStarts_encodeChar (c : Char) (rest : Text) :
    headStarts (String.utf8EncodeChar c ++ rest) := by
  intro b hb
  unfold String.utf8EncodeChar at hb
  simp only at hb
  split at hb
  · simp only [List.cons_append, List.head?_cons, Option.some.injEq] at hb
    subst hb
    rename_i h
    simp only [startsChar, UInt8.toNat_ofNat', Bool.or_eq_true, decide_eq_true_eq]
    omega
  · split at hb
    · simp only [List.cons_append, List.head?_cons, Option.some.injEq] at hb
      subst hb
      simp only [startsChar, UInt8.toNat_ofNat', Bool.or_eq_true, decide_eq_true_eq]
      omega
    · split at hb
      · simp only [List.cons_append, List.head?_cons, Option.some.injEq] at hb
        subst hb
        simp only [startsChar, UInt8.toNat_ofNat', Bool.or_eq_true, decide_eq_true_eq]
        omega
      · simp only [List.cons_append, List.head?_cons, Option.some.injEq] at hb
        subst hb
        simp only [startsChar, UInt8.toNat_ofNat', Bool.or_eq_true, decide_eq_true_eq]
        omega

theorem IsStr.headStarts {t : Text} (h : IsStr t) : headStarts t := by
  obtain ⟨cs, rfl⟩ := h
  cases cs with
  | nil => intro b hb; simp [encode] at hb
  | cons c cs =>
    simp only [encode, List.flatMap_cons]
    exact headStarts_encodeChar c _

theorem IsStr.nil : IsStr [] := ⟨[], rfl⟩

theorem IsStr.append {a b : Text} (ha : IsStr a) (hb : IsStr b) : IsStr (a ++ b) := by
  obtain ⟨x, rfl⟩ := ha
  obtain ⟨y, rfl⟩ := hb
  exact ⟨x ++ y, by simp [encode]⟩

/-- Boundaries as a property of the suffix that starts there. -/
theorem isCharBoundary_iff {t : Text} {i : Nat} (h : i ≤ t.length) :
    isCharBoundary t i = true ↔ i = 0 ∨ headStarts (t.drop i) := by
  simp only [isCharBoundary, Bool.or_eq_true, beq_iff_eq]
  constructor
  · rintro ((h0 | h1) | h2)
    · exact Or.inl h0
    · right; subst h1; intro b hb; simp at hb
    · right
      intro b hb
      rw [List.head?_drop] at hb
      rw [hb] at h2
      exact h2
  · rintro (h0 | h2)
    · exact Or.inl (Or.inl h0)
    · by_cases hi : i = t.length
      · exact Or.inl (Or.inr hi)
      · right
        have hlt : i < t.length := by omega
        have := h2 t[i] (by rw [List.head?_drop]; simp [hlt])
        simp [hlt, this]

theorem headStarts_append {a b : Text} (ha : headStarts a) (hb : headStarts b) :
    headStarts (a ++ b) := by
  intro x hx
  cases a with
  | nil => exact hb x hx
  | cons y a => exact ha x (by simpa using hx)

end Verif
