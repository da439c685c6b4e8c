import Verif.Lexer.Lemmas
import Mathlib.Data.List.Forall2

/-! Signature help: the text that is put together (ide/src/signature_help.rs) and how it is sent
(aptos-language-server/src/lsp/to_proto.rs:648–696). -/

namespace Verif.Ide.Signature
open Verif.Lexer (blen split)

/-- signature_help.rs:20–25; the ranges are in bytes. -/
structure Help where
  signature : List Char
  active : Option Nat
  params : List (Nat × Nat)

/-- `&text[lo..hi]`; `none` is the panic. -/
def slice (text : List Char) (r : Nat × Nat) : Option (List Char) :=
  match split r.1 text with
  | none => none
  | some (_, rest) => if r.1 ≤ r.2 then (split (r.2 - r.1) rest).map Prod.fst else none

/-- signature_help.rs:28–30. -/
def Help.labels (h : Help) : Option (List (List Char)) := h.params.mapM (slice h.signature)

/-- signature_help.rs:40–48. -/
def Help.push (h : Help) (param : List Char) : Help :=
  let s := if h.params.isEmpty then h.signature else h.signature ++ [',', ' ']
  { h with signature := s ++ param, params := h.params ++ [(blen s, blen (s ++ param))] }

/-- The end of `signature_help_for_type_args`, `signature_help_for_struct_lit` and `signature_help_for_call`
(signature_help.rs:103–127, 146–173, 193–220): `empty` is `<no arguments>` or `<no fields>`, the text for an item without
parameters. -/
def build (empty : List Char) (active : Option Nat) (params : List (List Char)) : Help :=
  if params.isEmpty then ⟨empty, active, []⟩ else params.foldl Help.push ⟨[], active, []⟩

/-- `lsp_types::ParameterInformationLabel`. -/
inductive Label where
  | text (s : List Char)
  | offsets (lo hi : Nat)
  deriving DecidableEq

/-- `lsp_types::SignatureHelp` with its only signature. -/
structure Sent where
  label : List Char
  params : List Label
  active : Option Nat
  deriving DecidableEq

/-- `join(", ")`. -/
def join : List (List Char) → List Char
  | [] => []
  | [x] => x
  | x :: y :: rest => x ++ ',' :: ' ' :: join (y :: rest)

/-- The loop of to_proto.rs:664–677: the text so far, the labels so far, and the parameters left. -/
def offsetLoop (first : Bool) (label : List Char) (acc : List Label) : List (List Char) → List Char × List Label
  | [] => (label, acc)
  | p :: ps =>
    let s := if first then label else label ++ [',', ' ']
    offsetLoop false (s ++ p) (acc ++ [.offsets s.length (s ++ p).length]) ps

/-- to_proto.rs:648–696; `none` is a panic. -/
def send (h : Help) (labelOffsets : Bool) : Option Sent :=
  match h.labels with
  | none => none
  | some ls =>
    if labelOffsets then
      let r := offsetLoop true [] [] ls
      some ⟨r.1, r.2, h.active⟩
    else some ⟨join ls, ls.map .text, h.active⟩

/-! ### What the client reads -/

/-- The length of a text in the units of the protocol. -/
def utf16 (s : List Char) : Nat := (s.map fun c => if c.toNat < 0x10000 then 1 else 2).sum

/-- What a label of a parameter means in the protocol: a part of the label of the signature, given as a text, or from one offset to
another one in UTF-16 units. -/
def Means (label : List Char) : Label → List Char → Prop
  | .text s, p => s = p ∧ ∃ a b, label = a ++ p ++ b
  | .offsets lo hi, p => ∃ a b, label = a ++ p ++ b ∧ utf16 a = lo ∧ utf16 (a ++ p) = hi

/-- The parameter that the client marks: outside of the list it is the first one. -/
def marked (s : Sent) : Option Nat :=
  match s.active with
  | some i => if i < s.params.length then some i else if s.params.isEmpty then none else some 0
  | none => if s.params.isEmpty then none else some 0

/-! ### Proofs -/

theorem slice_part (a p b : List Char) : slice (a ++ p ++ b) (blen a, blen (a ++ p)) = some p := by
  unfold slice
  dsimp only
  rw [List.append_assoc, Lexer.split_complete a (p ++ b)]
  dsimp only
  rw [Lexer.blen_append, if_pos (by omega), Nat.add_sub_cancel_left, Lexer.split_complete p b]
  rfl

/-- The text of the parameters after some text. -/
def tail : List (List Char) → List Char
  | [] => []
  | p :: ps => ',' :: ' ' :: (p ++ tail ps)

theorem join_cons (p : List Char) (ps : List (List Char)) : join (p :: ps) = p ++ tail ps := by
  induction ps generalizing p with
  | nil => simp [join, tail]
  | cons q ps ih => rw [join, ih, tail]

theorem push_spec (ps : List (List Char)) : ∀ (h : Help) (done : List (List Char)), h.params ≠ [] →
    h.params.mapM (slice h.signature) = some done →
    (∀ r ∈ h.params, ∃ a p b, h.signature = a ++ p ++ b ∧ r = (blen a, blen (a ++ p))) →
    let k := ps.foldl Help.push h
    k.signature = h.signature ++ tail ps ∧ k.active = h.active ∧ k.labels = some (done ++ ps) := by
  induction ps with
  | nil =>
    intro h done _ h2 _
    exact ⟨by simp [tail], rfl, by simpa [Help.labels] using h2⟩
  | cons p ps ih =>
    intro h done h1 h2 h3
    have he : h.params.isEmpty = false := by cases hp : h.params <;> simp_all
    have hpush : h.push p = ⟨h.signature ++ [',', ' '] ++ p, h.active,
        h.params ++ [(blen (h.signature ++ [',', ' ']), blen (h.signature ++ [',', ' '] ++ p))]⟩ := by
      unfold Help.push
      rw [he]
      rfl
    have hkeep : ∀ (l : List (Nat × Nat)) (d : List (List Char)), (∀ r ∈ l, r ∈ h.params) → l.mapM (slice h.signature) = some d →
        l.mapM (slice (h.signature ++ [',', ' '] ++ p)) = some d := by
      intro l
      induction l with
      | nil => intro d _ hd; exact hd
      | cons r l ihl =>
        intro d hl hd
        obtain ⟨a, q, b, e1, e2⟩ := h3 r (hl r (by simp))
        rw [List.mapM_cons] at hd ⊢
        have hs : slice h.signature r = some q := by rw [e1, e2]; exact slice_part a q b
        have hs' : slice (h.signature ++ [',', ' '] ++ p) r = some q := by
          rw [e1, e2, List.append_assoc (a ++ q), List.append_assoc (a ++ q)]
          exact slice_part a q _
        rw [hs] at hd
        rw [hs']
        cases hm : l.mapM (slice h.signature) with
        | none => rw [hm] at hd; cases hd
        | some d' =>
          rw [hm] at hd
          rw [ihl d' (fun r hr => hl r (by simp [hr])) hm]
          exact hd
    rw [List.foldl_cons, hpush]
    have := ih ⟨h.signature ++ [',', ' '] ++ p, h.active,
      h.params ++ [(blen (h.signature ++ [',', ' ']), blen (h.signature ++ [',', ' '] ++ p))]⟩ (done ++ [p]) (by simp) ?_ ?_
    · dsimp only at this ⊢
      refine ⟨?_, this.2.1, by rw [this.2.2]; simp⟩
      rw [this.1]
      simp [tail]
    · dsimp only
      have hs := slice_part (h.signature ++ [',', ' ']) p []
      rw [List.append_nil] at hs
      rw [List.mapM_append, hkeep _ _ (fun r hr => hr) h2, List.mapM_cons, hs]
      rfl
    · intro r hr
      dsimp only at hr ⊢
      rcases List.mem_append.1 hr with hr | hr
      · obtain ⟨a, q, b, e1, e2⟩ := h3 r hr
        exact ⟨a, q, b ++ [',', ' '] ++ p, by rw [e1]; simp, e2⟩
      · rw [List.mem_singleton] at hr
        exact ⟨h.signature ++ [',', ' '], p, [], by simp, hr⟩

theorem build_spec (empty : List Char) (active : Option Nat) (params : List (List Char)) (hne : params ≠ []) :
    (build empty active params).signature = join params ∧ (build empty active params).active = active ∧
    (build empty active params).labels = some params := by
  cases params with
  | nil => exact absurd rfl hne
  | cons p ps =>
    have he : build empty active (p :: ps) = ps.foldl Help.push ⟨p, active, [(0, blen p)]⟩ := by
      unfold build
      rfl
    have h0 := slice_part [] p []
    simp only [List.nil_append, List.append_nil] at h0
    have := push_spec ps ⟨p, active, [(0, blen p)]⟩ [p] (by simp) (by
      rw [List.mapM_cons]
      dsimp only
      rw [show (0, blen p) = (blen ([] : List Char), blen p) from rfl, h0]
      rfl) (by
      intro r hr
      rw [List.mem_singleton] at hr
      exact ⟨[], p, [], by simp, hr⟩)
    rw [he, join_cons]
    exact ⟨this.1, this.2.1, this.2.2⟩

theorem loop_spec (ps : List (List Char)) : ∀ (label : List Char) (acc : List Label) (done : List (List Char)),
    (∀ c ∈ label, c.toNat < 0x10000) → (∀ p ∈ ps, ∀ c ∈ p, c.toNat < 0x10000) →
    List.Forall₂ (Means label) acc done →
    (offsetLoop false label acc ps).1 = label ++ tail ps ∧
    List.Forall₂ (Means (label ++ tail ps)) (offsetLoop false label acc ps).2 (done ++ ps) := by
  have small : ∀ s : List Char, (∀ c ∈ s, c.toNat < 0x10000) → utf16 s = s.length := by
    intro s hs
    unfold utf16
    induction s with
    | nil => rfl
    | cons c s ih =>
      rw [List.map_cons, List.sum_cons, if_pos (hs c (by simp)), ih (fun d hd => hs d (by simp [hd])), List.length_cons]
      omega
  have mono : ∀ (l x : List Char) (a : Label) (p : List Char), Means l a p → Means (l ++ x) a p := by
    intro l x a p h
    cases a with
    | text s =>
      obtain ⟨h1, y, z, h2⟩ := h
      exact ⟨h1, y, z ++ x, by rw [h2]; simp⟩
    | offsets lo hi =>
      obtain ⟨y, z, h2, h3⟩ := h
      exact ⟨y, z ++ x, by rw [h2]; simp, h3⟩
  induction ps with
  | nil =>
    intro label acc done _ _ h3
    exact ⟨by simp [offsetLoop, tail], by simpa [offsetLoop, tail] using h3⟩
  | cons p ps ih =>
    intro label acc done h1 h2 h3
    rw [offsetLoop]
    simp only [Bool.false_eq_true, if_false]
    have hl : ∀ c ∈ label ++ [',', ' '], c.toNat < 0x10000 := by
      intro c hc
      rcases List.mem_append.1 hc with hc | hc
      · exact h1 c hc
      · simp only [List.mem_cons, List.not_mem_nil, or_false] at hc
        rcases hc with rfl | rfl <;> decide
    have hp := h2 p (by simp)
    have hlp : ∀ c ∈ label ++ [',', ' '] ++ p, c.toNat < 0x10000 := by
      intro c hc
      rcases List.mem_append.1 hc with hc | hc
      · exact hl c hc
      · exact hp c hc
    obtain ⟨r1, r2⟩ := ih (label ++ [',', ' '] ++ p)
      (acc ++ [.offsets (label ++ [',', ' ']).length (label ++ [',', ' '] ++ p).length]) (done ++ [p]) hlp
      (fun q hq => h2 q (by simp [hq])) (by
        apply List.rel_append
        · rw [List.append_assoc]
          exact h3.imp fun a b hab => mono _ _ a b hab
        · refine .cons ⟨label ++ [',', ' '], [], by simp, small _ hl, small _ hlp⟩ .nil)
    constructor
    · rw [r1]; simp [tail]
    · have e1 : label ++ tail (p :: ps) = label ++ [',', ' '] ++ p ++ tail ps := by simp [tail]
      have e2 : done ++ p :: ps = done ++ [p] ++ ps := by simp
      rw [e1, e2]
      exact r2

/-- Without offsets, the client is sent the parameters separated by commas, and each parameter as a part of that text. -/
theorem C61_texts (empty : List Char) (active : Option Nat) (params : List (List Char)) (hne : params ≠ []) :
    ∃ s, send (build empty active params) false = some s ∧ s.label = join params ∧ s.active = active ∧
      s.label = (build empty active params).signature ∧ List.Forall₂ (Means s.label) s.params params := by
  obtain ⟨h1, h2, h3⟩ := build_spec empty active params hne
  unfold send
  rw [h3]
  refine ⟨⟨join params, params.map .text, _⟩, rfl, rfl, h2, h1.symm, ?_⟩
  dsimp only
  have hpart : ∀ p ∈ params, ∃ a b, join params = a ++ p ++ b := by
    clear h1 h2 h3 hne
    induction params with
    | nil => intro p hp; cases hp
    | cons q ps ih =>
      intro p hp
      cases ps with
      | nil =>
        rw [List.mem_singleton] at hp
        exact ⟨[], [], by simp [join, hp]⟩
      | cons r rest =>
        rw [join]
        rcases List.mem_cons.1 hp with rfl | hp
        · exact ⟨[], ',' :: ' ' :: join (r :: rest), by simp⟩
        · obtain ⟨a, b, hab⟩ := ih p hp
          exact ⟨q ++ ',' :: ' ' :: a, b, by rw [hab]; simp⟩
  rw [List.forall₂_map_left_iff, List.forall₂_same]
  exact fun p hp => ⟨rfl, hpart p hp⟩

/-- With offsets too, when no parameter has a character outside of the basic plane. -/
theorem C61_offsets_partial (empty : List Char) (active : Option Nat) (params : List (List Char)) (hne : params ≠ [])
    (hb : ∀ p ∈ params, ∀ c ∈ p, c.toNat < 0x10000) :
    ∃ s, send (build empty active params) true = some s ∧ s.label = join params ∧ s.active = active ∧
      s.label = (build empty active params).signature ∧ List.Forall₂ (Means s.label) s.params params := by
  obtain ⟨h1, h2, h3⟩ := build_spec empty active params hne
  unfold send
  rw [h3]
  cases params with
  | nil => exact absurd rfl hne
  | cons p ps =>
    have small : utf16 p = p.length := by
      have hp := hb p (by simp)
      unfold utf16
      clear h1 h2 h3 hne hb
      induction p with
      | nil => rfl
      | cons c s ih =>
        rw [List.map_cons, List.sum_cons, if_pos (hp c (by simp)), ih (fun d hd => hp d (by simp [hd])), List.length_cons]
        omega
    have := loop_spec ps p [.offsets 0 p.length] [p] (hb p (by simp)) (fun q hq => hb q (by simp [hq]))
      (.cons ⟨[], [], by simp, rfl, by simpa using small⟩ .nil)
    refine ⟨⟨(offsetLoop true [] [] (p :: ps)).1, (offsetLoop true [] [] (p :: ps)).2, _⟩, rfl, ?_⟩
    have he : offsetLoop true [] [] (p :: ps) = offsetLoop false p [.offsets 0 p.length] ps := by
      rw [offsetLoop]
      simp
    dsimp only
    rw [he, this.1, ← join_cons]
    refine ⟨rfl, h2, h1.symm, ?_⟩
    rw [join_cons]
    exact this.2

example : ∃ s, send (build "<no arguments>".toList (some 1) ["a: u8".toList, "b: bool".toList]) true = some s ∧
    s.label = "a: u8, b: bool".toList ∧ s.params = [.offsets 0 5, .offsets 7 14] ∧ s.active = some 1 :=
  ⟨⟨"a: u8, b: bool".toList, [.offsets 0 5, .offsets 7 14], some 1⟩, by decide +kernel, rfl, rfl, rfl⟩

/-- **C61 fails for items without parameters.** The text `<no arguments>` that was put together is not what is sent: the client shows an
empty signature. -/
theorem C61_empty_fails (active : Option Nat) (labelOffsets : Bool) :
    (build "<no arguments>".toList active []).signature ≠ [] ∧
    send (build "<no arguments>".toList active []) labelOffsets = some ⟨[], [], active⟩ := by
  refine ⟨by show "<no arguments>".toList ≠ []; decide, ?_⟩
  cases labelOffsets <;> rfl

/-- **C61 fails outside of the basic plane.** Offsets are counted in characters instead of UTF-16 units. -/
theorem C61_units_fails : ∃ params s, send (build [] none params) true = some s ∧ ¬List.Forall₂ (Means s.label) s.params params := by
  refine ⟨[['𝒳'], ['y']], ⟨"𝒳, y".toList, [.offsets 0 1, .offsets 3 4], none⟩, by decide +kernel, ?_⟩
  intro h
  cases h with
  | cons h _ =>
    obtain ⟨a, b, h1, h2, h3⟩ := h
    have : utf16 (a ++ ['𝒳']) = utf16 a + 2 := by unfold utf16; simp
    omega

/-- The marked parameter is the active one when there is such a parameter. -/
theorem C61_marked_partial (empty : List Char) (i : Nat) (params : List (List Char)) (hi : i < params.length) (s : Sent)
    (off : Bool) (h : send (build empty (some i) params) off = some s) : marked s = some i := by
  have hne : params ≠ [] := by intro h; rw [h] at hi; cases hi
  obtain ⟨h1, h2, h3⟩ := build_spec empty (some i) params hne
  have hloop : ∀ (ps : List (List Char)) first label acc, (offsetLoop first label acc ps).2.length = acc.length + ps.length := by
    intro ps
    induction ps with
    | nil => intro first label acc; simp [offsetLoop]
    | cons p ps ih => intro first label acc; rw [offsetLoop, ih]; simp; omega
  unfold send at h
  rw [h3] at h
  dsimp only at h
  unfold marked
  split at h <;> cases h <;> dsimp only <;> rw [h2] <;> dsimp only
  · rw [if_pos]
    rw [hloop]
    simpa using hi
  · rw [if_pos]
    simpa using hi

example : ∃ s, send (build [] (some 1) [['a'], ['b']]) true = some s ∧ marked s = some 1 :=
  ⟨⟨"a, b".toList, [.offsets 0 1, .offsets 3 4], some 1⟩, by decide +kernel, by decide +kernel⟩

/-- **C61 fails with too many arguments.** In a third argument of a function with two parameters, or at a field that does not exist, the
index is outside of the list, which in the protocol stands for the first parameter. -/
theorem C61_active_fails : ∃ s, send (build [] (some 2) [['a'], ['b']]) true = some s ∧ marked s = some 0 :=
  ⟨⟨"a, b".toList, [.offsets 0 1, .offsets 3 4], some 2⟩, by decide +kernel, by decide +kernel⟩

end Verif.Ide.Signature
