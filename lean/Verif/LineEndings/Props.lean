import Verif.LineEndings.Model

/-! Property theorems for line endings: C06. -/

namespace Verif.LineEndings
open Verif

namespace Spec

/-- Every CR LF becomes LF, everything else is kept. -/
def crlfToLf : Text → Text
  | [] => []
  | [a] => [a]
  | a :: b :: t => if a = 13 ∧ b = 10 then 10 :: crlfToLf t else a :: crlfToLf (b :: t)

/-- The text contains CR LF. -/
def HasCRLF (t : Text) : Prop := ∃ p s, t = p ++ [13, 10] ++ s

/-- Every LF is preceded by CR; the flag tells whether the byte before the text is CR. -/
def uniformDos : Bool → Text → Prop
  | _, [] => True
  | prevCR, b :: t => (b = 10 → prevCR = true) ∧ uniformDos (b == 13) t

/-- The text contains CR CR LF. -/
def HasCRCRLF (t : Text) : Prop := ∃ p s, t = p ++ [13, 13, 10] ++ s

end Spec

open Spec

theorem findCRLF_none_iff {t : Text} : findCRLF t = none ↔ ¬ HasCRLF t := by
  fun_induction findCRLF t with
  | case1 => simp [HasCRLF]
  | case2 a => simp only [true_iff]; rintro ⟨p, s, h⟩; have := congrArg List.length h; simp at this; omega
  | case3 a b t hab => simp only [reduceCtorEq, false_iff, not_not]; exact ⟨[], t, by simp [hab.1, hab.2]⟩
  | case4 a b t hab ih =>
    rw [Option.map_eq_none_iff, ih]
    constructor
    · rintro h ⟨p, s, e⟩
      cases p with
      | nil => simp at e; exact hab ⟨e.1, e.2.1⟩
      | cons x p => simp only [List.cons_append, List.cons.injEq] at e; exact h ⟨p, s, by simpa using e.2⟩
    · rintro h ⟨p, s, e⟩
      exact h ⟨a :: p, s, by rw [e]; simp⟩

theorem crlfToLf_of_none {t : Text} (h : findCRLF t = none) : crlfToLf t = t := by
  fun_induction findCRLF t with
  | case1 => rfl
  | case2 => rfl
  | case3 a b t hab => simp at h
  | case4 a b t hab ih =>
    rw [Option.map_eq_none_iff] at h
    rw [crlfToLf, if_neg hab, ih h]

theorem crlfToLf_of_some {t : Text} {i : Nat} (h : findCRLF t = some i) :
    crlfToLf t = t.take i ++ crlfToLf (t.drop (i + 1)) := by
  fun_induction findCRLF t generalizing i with
  | case1 => simp at h
  | case2 => simp at h
  | case3 a b t hab =>
    simp only [Option.some.injEq] at h
    subst h
    obtain ⟨rfl, rfl⟩ := hab
    rw [crlfToLf, if_pos ⟨rfl, rfl⟩]
    simp only [List.take_zero, List.nil_append, Nat.zero_add, List.drop_succ_cons, List.drop_zero]
    cases t with
    | nil => rfl
    | cons c t => rw [crlfToLf, if_neg (fun h => absurd h.1 (by decide))]
  | case4 a b t hab ih =>
    obtain ⟨j, hj, rfl⟩ := Option.map_eq_some_iff.1 h
    rw [crlfToLf, if_neg hab, ih hj]
    simp

/-- Loop invariant: with `done` final and `gap` garbage bytes at the head of `tail`, the loop produces
`done` followed by the converted rest. -/
theorem loop_spec (done tail : Text) (gap : Nat) (seen : Bool) (hg : gap ≤ tail.length)
    (hs : seen = true ∨ findCRLF (tail.drop gap) ≠ none) :
    ∃ buf g, loop done tail gap seen = .compacted buf g ∧
      buf.take (buf.length - g) = done ++ crlfToLf (tail.drop gap) := by
  fun_induction loop done tail gap seen with
  | case1 done tail gap _ hf =>
    refine ⟨_, _, rfl, ?_⟩
    rw [crlfToLf_of_none hf]
    simp only [List.take_length, List.length_append, List.length_drop]
    rw [List.take_append_of_le_length (by simp only [List.length_append, List.length_drop]; omega)]
    exact List.take_of_length_le (by simp only [List.length_append, List.length_drop]; omega)
  | case2 => simp_all
  | case3 done tail gap seen hg' i hf idx done' tail' heq =>
    exfalso
    have := findCRLF_lt hf
    simp only [List.length_drop, tail', idx] at *
    omega
  | case4 done tail gap seen hg' i hf idx done' tail' hne ih =>
    have hlt := findCRLF_lt hf
    simp only [List.length_drop] at hlt
    obtain ⟨buf, g, h1, h2⟩ := ih (by simp only [List.length_drop, tail', idx]; omega) (Or.inl rfl)
    refine ⟨buf, g, h1, ?_⟩
    rw [h2, crlfToLf_of_some hf]
    simp only [done', tail', idx, List.drop_drop, List.append_assoc]
    congr 2
    · rw [List.drop_take]; congr 1; omega
    · congr 1; congr 1; omega
  | case5 => omega

/-- **C06.** Loading never panics; the loaded text is the source with every CR LF replaced by LF and
nothing else changed, and the recorded line ending is DOS exactly if a CR LF was seen. -/
theorem C06_normalize (src : Text) :
    ∃ e, normalize src = some (crlfToLf src, e) ∧ (e = .dos ↔ HasCRLF src) := by
  by_cases h : findCRLF src = none
  · refine ⟨.unix, ?_, ?_⟩
    · have : loop [] src 0 false = .unchanged := by
        rw [loop]
        simp only [Nat.zero_le, if_true, List.drop_zero]
        split
        · simp
        · rename_i i hi; rw [List.drop_zero, h] at hi; simp at hi
      rw [normalize, this, crlfToLf_of_none h]
    · simp [findCRLF_none_iff.1 h]
  · obtain ⟨buf, g, h1, h2⟩ := loop_spec [] src 0 false (Nat.zero_le _) (Or.inr (by simpa using h))
    refine ⟨.dos, ?_, ?_⟩
    · rw [normalize, h1]
      simp only [List.nil_append, List.drop_zero] at h2
      simp [h2]
    · simp only [true_iff]
      by_contra hn
      exact h (findCRLF_none_iff.2 hn)

/-- **C06 (round trip).** A document whose line ends are all CR LF, or which has no CR LF at all, is
restored exactly when its text is written back with the recorded line ending. -/
theorem C06_round_trip (src t : Text) (e : Endings) (hu : uniformDos false src ∨ ¬ HasCRLF src)
    (h : normalize src = some (t, e)) : e.map t = src := by
  obtain ⟨e', h1, h2⟩ := C06_normalize src
  rw [h1] at h
  simp only [Option.some.injEq, Prod.mk.injEq] at h
  obtain ⟨rfl, rfl⟩ := h
  by_cases hc : HasCRLF src
  · have he := h2.2 hc
    subst he
    replace hu : uniformDos false src := by
      rcases hu with h | h
      · exact h
      · exact absurd hc h
    clear h1 h2 hc
    show (crlfToLf src).flatMap _ = src
    fun_induction crlfToLf src with
    | case1 => rfl
    | case2 a =>
      have : a ≠ 10 := by intro e; simp [uniformDos, e] at hu
      simp [this]
    | case3 a b t hab ih =>
      obtain ⟨rfl, rfl⟩ := hab
      have : uniformDos false t := by
        simp only [uniformDos] at hu
        simpa using hu.2.2
      simp [ih this]
    | case4 a b t hab ih =>
      have ha : a ≠ 10 := by intro e; simp [uniformDos, e] at hu
      have : uniformDos false (b :: t) := by
        simp only [uniformDos] at hu ⊢
        refine ⟨?_, hu.2.2⟩
        intro hb
        have h3 := hu.2.1 hb
        exact absurd ⟨by simpa using h3, hb⟩ hab
      simp [ha, ih this]
  · have he : e' = .unix := by
      cases e' with
      | unix => rfl
      | dos => exact absurd (h2.1 rfl) hc
    subst he
    exact crlfToLf_of_none (findCRLF_none_iff.2 hc)

example : uniformDos false [13, 10, 97, 13, 10] ∧
    normalize [13, 10, 97, 13, 10] = some ([10, 97, 10], .dos) := by
  refine ⟨by simp [uniformDos], ?_⟩
  obtain ⟨e, h, h2⟩ := C06_normalize [13, 10, 97, 13, 10]
  have : e = .dos := h2.2 ⟨[], [97, 13, 10], rfl⟩
  rw [h, this]
  decide

/-- **C06 fails** in the claim that no CR LF is left and that loading is idempotent: CR CR LF becomes
CR LF. -/
theorem C06_no_crlf_left_fails :
    ∃ src t e, normalize src = some (t, e) ∧ HasCRLF t ∧
      (∃ t' e', normalize t = some (t', e') ∧ t' ≠ t) := by
  obtain ⟨e, h, _⟩ := C06_normalize [13, 13, 10]
  obtain ⟨e', h', _⟩ := C06_normalize [13, 10]
  refine ⟨[13, 13, 10], _, e, h, ?_, ?_⟩
  · exact ⟨[], [], by decide⟩
  · exact ⟨_, e', h', by decide⟩

theorem crlfToLf_no_crlf {src : Text} (h : ¬ HasCRCRLF src) : ¬ HasCRLF (crlfToLf src) := by
  rw [← findCRLF_none_iff]
  fun_induction crlfToLf src with
  | case1 => rfl
  | case2 a => rfl
  | case3 a b t hab ih =>
    have := ih (fun ⟨p, s, e⟩ => h ⟨a :: b :: p, s, by rw [e]; simp⟩)
    cases hc : crlfToLf t with
    | nil => rfl
    | cons c t' =>
      rw [findCRLF, if_neg (fun h => absurd h.1 (by decide)), ← hc, this]; rfl
  | case4 a b t hab ih =>
    have ih' := ih (fun ⟨p, s, e⟩ => h ⟨a :: p, s, by rw [e]; simp⟩)
    cases hc : crlfToLf (b :: t) with
    | nil => rfl
    | cons c t' =>
      rw [findCRLF, ← hc, ih', if_neg]; · rfl
      rintro ⟨rfl, rfl⟩
      cases t with
      | nil =>
        simp only [crlfToLf, List.cons.injEq] at hc
        exact hab ⟨rfl, hc.1⟩
      | cons d t =>
        rw [crlfToLf] at hc
        split at hc
        · rename_i h2
          exact h ⟨[], t, by simp [h2.1, h2.2]⟩
        · simp only [List.cons.injEq] at hc
          exact hab ⟨rfl, hc.1⟩

/-- **C06, partial.** Without CR CR LF in the source, no CR LF is left and loading twice is loading
once. -/
theorem C06_idempotent_partial (src t : Text) (e : Endings) (hn : ¬ HasCRCRLF src)
    (h : normalize src = some (t, e)) : ¬ HasCRLF t ∧ normalize t = some (t, .unix) := by
  obtain ⟨e', h1, _⟩ := C06_normalize src
  rw [h1] at h
  simp only [Option.some.injEq, Prod.mk.injEq] at h
  obtain ⟨rfl, rfl⟩ := h
  have hno := crlfToLf_no_crlf hn
  refine ⟨hno, ?_⟩
  obtain ⟨e2, h2, h3⟩ := C06_normalize (crlfToLf src)
  rw [h2, crlfToLf_of_none (findCRLF_none_iff.2 hno)]
  cases e2 with
  | unix => rfl
  | dos => exact absurd (h3.1 rfl) hno

example : ¬ HasCRCRLF [97, 13, 10, 13, 98] := by
  rintro ⟨p, s, h⟩
  match p, h with
  | [], h => simp at h
  | [_], h => simp at h
  | [_, _], h => simp at h
  | _ :: _ :: _ :: p, h => have := congrArg List.length h; simp at this; omega

/-! ### The unsafe `from_utf8_unchecked` is sound -/

/-- Characters instead of bytes. -/
def crlfToLfChars : List Char → List Char
  | [] => []
  | [a] => [a]
  | a :: b :: t => if a = '\r' ∧ b = '\n' then '\n' :: crlfToLfChars t else a :: crlfToLfChars (b :: t)

theorem utf8EncodeChar_cases (c : Char) :
    (c.val.toNat ≤ 127 ∧ String.utf8EncodeChar c = [UInt8.ofNat c.val.toNat]) ∨
    (127 < c.val.toNat ∧ String.utf8EncodeChar c ≠ [] ∧ ∀ b ∈ String.utf8EncodeChar c, 128 ≤ b.toNat) := by
  unfold String.utf8EncodeChar
  simp only
  split
  · left; rename_i h; exact ⟨h, rfl⟩
  · right
    rename_i h
    refine ⟨by omega, ?_, ?_⟩
    · split
      · simp
      · split <;> simp
    · intro b hb
      split at hb
      · simp only [List.mem_cons, List.not_mem_nil, or_false] at hb
        rcases hb with rfl | rfl <;> simp only [UInt8.toNat_ofNat'] <;> omega
      · split at hb
        · simp only [List.mem_cons, List.not_mem_nil, or_false] at hb
          rcases hb with rfl | rfl | rfl <;> simp only [UInt8.toNat_ofNat'] <;> omega
        · simp only [List.mem_cons, List.not_mem_nil, or_false] at hb
          rcases hb with rfl | rfl | rfl | rfl <;> simp only [UInt8.toNat_ofNat'] <;> omega

/-- Bytes that are not CR pass through. -/
theorem crlfToLf_append {p t : Text} (hp : ∀ b ∈ p, b ≠ 13) : crlfToLf (p ++ t) = p ++ crlfToLf t := by
  induction p with
  | nil => rfl
  | cons a p ih =>
    have ha := hp a (by simp)
    have ih' := ih (fun b hb => hp b (by simp [hb]))
    cases hpt : p ++ t with
    | nil =>
      rw [hpt] at ih'
      simp only [List.cons_append, hpt, crlfToLf]
      simp only [crlfToLf] at ih'
      rw [← ih']
    | cons b r =>
      rw [hpt] at ih'
      simp only [List.cons_append, hpt]
      rw [crlfToLf, if_neg (fun h => ha h.1), ih']

theorem crlfToLf_cons_cr {t : Text} (ht : t.head? ≠ some 10) : crlfToLf (13 :: t) = 13 :: crlfToLf t := by
  cases t with
  | nil => rfl
  | cons b t => rw [crlfToLf, if_neg]; rintro ⟨_, rfl⟩; simp at ht

theorem ascii_char {c : Char} (h : c.val.toNat ≤ 127) (n : Nat) (hn : n ≤ 127)
    (he : UInt8.ofNat c.val.toNat = UInt8.ofNat n) : c.val.toNat = n := by
  have := congrArg UInt8.toNat he
  simp only [UInt8.toNat_ofNat'] at this
  omega

theorem char_eq_of_toNat {c d : Char} (h : c.val.toNat = d.val.toNat) : c = d := by
  apply Char.ext
  exact UInt32.toNat_inj.1 h

theorem head_encode_ne_lf {b : Char} (cs : List Char) (hb : b ≠ '\n') :
    (encode (b :: cs)).head? ≠ some 10 := by
  simp only [encode, List.flatMap_cons]
  rcases utf8EncodeChar_cases b with ⟨h, e⟩ | ⟨_, hne, h⟩
  · rw [e]
    simp only [List.cons_append, List.head?_cons, ne_eq, Option.some.injEq]
    intro he
    exact hb (char_eq_of_toNat (ascii_char h 10 (by omega) he))
  · intro he
    cases hx : String.utf8EncodeChar b with
    | nil => exact hne hx
    | cons x xs =>
      rw [hx] at he
      simp only [List.cons_append, List.head?_cons, Option.some.injEq] at he
      have := h x (by rw [hx]; simp)
      rw [he] at this
      revert this; decide

theorem crlfToLf_encode (cs : List Char) : crlfToLf (encode cs) = encode (crlfToLfChars cs) := by
  have one : ∀ (a : Char) (rest : List Char), a ≠ '\r' →
      crlfToLf (encode (a :: rest)) = String.utf8EncodeChar a ++ crlfToLf (encode rest) := by
    intro a rest ha
    simp only [encode, List.flatMap_cons]
    apply crlfToLf_append
    intro b hb
    rcases utf8EncodeChar_cases a with ⟨h, e⟩ | ⟨_, _, h⟩
    · rw [e] at hb
      simp only [List.mem_cons, List.not_mem_nil, or_false] at hb
      rintro rfl
      exact ha (char_eq_of_toNat (ascii_char h 13 (by omega) hb.symm))
    · rintro rfl
      have := h 13 hb
      revert this; decide
  have hcr : String.utf8EncodeChar '\r' = [13] := by decide
  have hlf : String.utf8EncodeChar '\n' = [10] := by decide
  fun_induction crlfToLfChars cs with
  | case1 => rfl
  | case2 a =>
    by_cases ha : a = '\r'
    · subst ha; decide
    · rw [one a [] ha]; simp [encode, crlfToLf]
  | case3 a b t hab ih =>
    obtain ⟨rfl, rfl⟩ := hab
    simp only [encode, List.flatMap_cons, hcr, hlf, List.cons_append, List.nil_append] at ih ⊢
    rw [crlfToLf, if_pos ⟨rfl, rfl⟩, ih]
  | case4 a b t hab ih =>
    by_cases ha : a = '\r'
    · subst ha
      have hb : b ≠ '\n' := fun e => hab ⟨rfl, e⟩
      have h1 : encode ('\r' :: b :: t) = 13 :: encode (b :: t) := by
        simp only [encode, List.flatMap_cons, hcr, List.cons_append, List.nil_append]
      rw [h1, crlfToLf_cons_cr (head_encode_ne_lf t hb), ih]
      simp only [encode, List.flatMap_cons, hcr, List.cons_append, List.nil_append]
    · rw [one a (b :: t) ha, ih]
      simp only [encode, List.flatMap_cons]

/-- **C06 (soundness of the `unsafe` block).** The compacted bytes are again valid UTF-8, so
`String::from_utf8_unchecked` (line_endings.rs 28, 47) is called on valid data. -/
theorem C06_utf8_preserved (src t : Text) (e : Endings) (hs : IsStr src)
    (h : normalize src = some (t, e)) : IsStr t := by
  obtain ⟨cs, rfl⟩ := hs
  obtain ⟨e', h1, _⟩ := C06_normalize (encode cs)
  rw [h1] at h
  simp only [Option.some.injEq, Prod.mk.injEq] at h
  obtain ⟨rfl, rfl⟩ := h
  exact ⟨_, crlfToLf_encode cs⟩

example : IsStr (encode ['é', '\r', '\n', '日']) := ⟨_, rfl⟩

end Verif.LineEndings
