import Mathlib.Data.List.Basic
import Mathlib.Tactic.Common

/-! Code actions: their kinds (ide-db/src/assists.rs), how fixes are collected (ide-db/src/assist_context.rs), how they are
offered and resolved (aptos-language-server/src/handlers/request.rs). Strings are lists of characters; an edit is a value of an
arbitrary type `E`. -/

namespace Verif.Ide.Assists

/-- assists.rs:50–60. -/
inductive Kind where
  | quickFix
  | generate
  | refactor
  | refactorExtract
  | refactorInline
  | refactorRewrite
  deriving DecidableEq, Repr

/-- assists.rs:69–73, the kinds below `Refactor`. -/
def isRefactor : Kind → Bool
  | .refactorExtract => true
  | .refactorInline => true
  | .refactorRewrite => true
  | _ => false

/-- assists.rs:63–76. -/
def Kind.contains (self other : Kind) : Bool :=
  if self = other then true
  else match self with
    | .generate => true
    | .refactor => isRefactor other
    | _ => false

/-- assists.rs:78–87. -/
def Kind.name : Kind → List Char
  | .quickFix => "QuickFix".toList
  | .generate => "Generate".toList
  | .refactor => "Refactor".toList
  | .refactorExtract => "RefactorExtract".toList
  | .refactorInline => "RefactorInline".toList
  | .refactorRewrite => "RefactorRewrite".toList

/-- assists.rs:90–104; an error is `none`. -/
def parseKind (s : List Char) : Option Kind :=
  if s = "QuickFix".toList then some .quickFix
  else if s = "Generate".toList then some .generate
  else if s = "Refactor".toList then some .refactor
  else if s = "RefactorExtract".toList then some .refactorExtract
  else if s = "RefactorInline".toList then some .refactorInline
  else if s = "RefactorRewrite".toList then some .refactorRewrite
  else none

/-- to_proto.rs:599–608. The kind of the protocol is the string it is sent as. -/
def codeActionKind : Kind → List Char
  | .generate => []
  | .quickFix => "quickfix".toList
  | .refactor => "refactor".toList
  | .refactorExtract => "refactor.extract".toList
  | .refactorInline => "refactor.inline".toList
  | .refactorRewrite => "refactor.rewrite".toList

/-- from_proto.rs:107–118. -/
def assistKind (k : List Char) : Option Kind :=
  if k = "quickfix".toList then some .quickFix
  else if k = "refactor".toList then some .refactor
  else if k = "refactor.extract".toList then some .refactorExtract
  else if k = "refactor.inline".toList then some .refactorInline
  else if k = "refactor.rewrite".toList then some .refactorRewrite
  else none

/-! ### Identifiers of actions -/

/-- One decimal digit. -/
def digit (d : Nat) : Char := Char.ofNat (48 + d)

/-- `usize::to_string`. -/
def dec (n : Nat) : List Char :=
  if n < 10 then [digit n] else dec (n / 10) ++ [digit (n % 10)]

/-- `char::to_digit(10)`. -/
def digitOf (c : Char) : Option Nat :=
  if 48 ≤ c.toNat ∧ c.toNat ≤ 57 then some (c.toNat - 48) else none

/-- The loop of `usize::from_str` on a 64-bit target. -/
def parseDigits : Nat → List Char → Option Nat
  | acc, [] => some acc
  | acc, c :: cs =>
    match digitOf c with
    | none => none
    | some d => if acc * 10 + d < 2 ^ 64 then parseDigits (acc * 10 + d) cs else none

/-- `usize::from_str`: an optional plus sign and at least one digit. -/
def parseUsize (s : List Char) : Option Nat :=
  match s with
  | [] => none
  | '+' :: [] => none
  | '+' :: c :: cs => parseDigits 0 (c :: cs)
  | c :: cs => parseDigits 0 (c :: cs)

/-- `str::split(':')`. -/
def splitColon : List Char → List (List Char)
  | [] => [[]]
  | c :: cs =>
    if c = ':' then [] :: splitColon cs
    else match splitColon cs with
      | [] => [[c]]
      | w :: ws => (c :: w) :: ws

/-- `AssistId` (assists.rs:106–108). -/
structure Id where
  id : List Char
  kind : Kind
  subtype : Option Nat
  deriving DecidableEq, Repr

/-- to_proto.rs:629–634. -/
def formatActionId (i : Id) (index : Nat) : List Char :=
  i.id ++ ':' :: (i.kind.name ++ ':' :: (dec index ++ ':' :: (match i.subtype with | some x => dec x | none => [])))

/-- request.rs:982–1002. The three parts of `SingleResolve` are kept as an `Id`. -/
def parseActionId (s : List Char) : Option (Nat × Id) :=
  match splitColon s with
  | [a, k, i, sub] =>
    match parseKind k with
    | none => none
    | some kind =>
      match parseUsize i with
      | none => none
      | some index => some (index, ⟨a, kind, parseUsize sub⟩)
  | _ => none

/-! ### Collecting fixes -/

/-- `AssistResolveStrategy` (assists.rs:118–137). -/
inductive Strategy where
  | none
  | all
  | single (i : Id)

/-- assists.rs:141–152. -/
def Strategy.shouldResolve (s : Strategy) (i : Id) : Bool :=
  match s with
  | .none => false
  | .all => true
  | .single r => decide (r.id = i.id) && decide (r.kind = i.kind) && decide (r.subtype = i.subtype)

/-- The arguments of one call of `add_fix_fallible`; `edit` is what the closure makes of the file, `none` when it gives up.
`add_fix` is the case of a closure that does not give up. -/
structure Fix (E : Type) where
  id : List Char
  label : List Char
  target : Nat × Nat
  edit : Option E

/-- `Assist` (assists.rs:19–40); no fix has a command. -/
structure Assist (E : Type) where
  id : Id
  label : List Char
  target : Nat × Nat
  change : Option E

/-- assist_context.rs:65–93, with `AssistId::quick_fix` (assists.rs:111–113). -/
def addFix {E : Type} (s : Strategy) (acc : List (Assist E)) (f : Fix E) : List (Assist E) :=
  let i : Id := ⟨f.id, .quickFix, none⟩
  if s.shouldResolve i then
    match f.edit with
    | none => acc
    | some e => acc ++ [⟨i, f.label, f.target, some e⟩]
  else acc ++ [⟨i, f.label, f.target, none⟩]

/-- The assists of one diagnostic: a sequence of calls. -/
def localAssists {E : Type} (s : Strategy) (fs : List (Fix E)) : List (Assist E) := fs.foldl (addFix s) []

/-- `TextRange::intersect` is `Some`: the ranges overlap or touch. -/
def touches (a b : Nat × Nat) : Bool := decide (max a.1 b.1 ≤ min a.2 b.2)

/-- A snapshot of the server: for a file and a range the calls made for each diagnostic, in order. They depend on the whole
workspace, the version only on the file. -/
structure Snap (E : Type) where
  version : Nat → Option Int
  enabled : Bool
  diags : Nat → Nat × Nat → List (List (Fix E))

/-- `CodeActionParams`; the range is already converted to offsets. -/
structure Params where
  file : Nat
  range : Nat × Nat
  only : Option (List (List Char))
  deriving DecidableEq

/-- request.rs:858–862. -/
def allowed (p : Params) : Option (List Kind) := p.only.map (List.filterMap assistKind)

/-- ide/src/lib.rs:529–532. -/
def includeFixes (a : Option (List Kind)) : Bool :=
  match a with
  | some ks => ks.any fun k => decide (k = .quickFix)
  | none => true

/-- ide/src/lib.rs:522–550. -/
def assistsWithFixes {E : Type} (sn : Snap E) (p : Params) (s : Strategy) : List (Assist E) :=
  if sn.enabled && includeFixes (allowed p) then
    ((sn.diags p.file p.range).flatMap (localAssists s)).filter fun a => touches a.target p.range
  else []

/-! ### Offering and resolving -/

/-- `CodeActionData`. -/
structure Data where
  id : List Char
  params : Params
  version : Option Int
  deriving DecidableEq

/-- `lsp_types::CodeAction`, the fields that are used. -/
structure Action (E : Type) where
  title : List Char
  kind : List Char
  edit : Option E
  data : Option Data

/-- to_proto.rs:610–646. With neither a change nor data to resolve it later the server logs an error and the action does
nothing. -/
def codeAction {E : Type} (a : Assist E) (r : Option (Nat × Params × Option Int)) : Action E :=
  match a.change, r with
  | some e, _ => ⟨a.label, codeActionKind a.id.kind, some e, none⟩
  | none, some (index, p, v) => ⟨a.label, codeActionKind a.id.kind, none, some ⟨formatActionId a.id index, p, v⟩⟩
  | none, none => ⟨a.label, codeActionKind a.id.kind, none, none⟩

/-- request.rs:836–900; `cap` is the client's ability to resolve actions later. -/
def handleCodeAction {E : Type} (sn : Snap E) (p : Params) (cap : Bool) : List (Action E) :=
  let s := if cap then Strategy.none else Strategy.all
  (assistsWithFixes sn p s).zipIdx.map fun (a, index) =>
    codeAction a (if cap then some (index, p, sn.version p.file) else none)

/-- Errors answered to a resolve request. -/
inductive Err where
  | stale
  | badId
  | noAssist
  | mismatch
  deriving DecidableEq

/-- request.rs:902–980. -/
def handleResolve {E : Type} (sn : Snap E) (a : Action E) : Except Err (Action E) :=
  match a.data with
  | none => .ok { a with data := none }
  | some d =>
    if sn.version d.params.file ≠ d.version then .error .stale
    else match parseActionId d.id with
      | none => .error .badId
      | some (index, i) =>
        match (assistsWithFixes sn d.params (.single i))[index]? with
        | none => .error .noAssist
        | some b =>
          if b.id.id ≠ i.id ∨ b.id.kind ≠ i.kind then .error .mismatch
          else .ok { a with data := none, edit := (codeAction b none).edit }

/-! ### Kinds -/

/-- Kinds of the protocol are dotted paths: a kind stands for itself and everything below it, the empty kind for everything. -/
def Covers (a b : List Char) : Prop := a = [] ∨ a = b ∨ (a ++ ['.']) <+: b

instance (a b : List Char) : Decidable (Covers a b) := inferInstanceAs (Decidable (_ ∨ _ ∨ _))

/-- `contains` is the nesting of kinds in the protocol. -/
theorem C50_nest (a b : Kind) : a.contains b = true ↔ Covers (codeActionKind a) (codeActionKind b) := by
  cases a <;> cases b <;> decide

/-- It is a partial order with one greatest element. -/
theorem C50_order :
    (∀ a : Kind, a.contains a = true) ∧
    (∀ a b c : Kind, a.contains b = true → b.contains c = true → a.contains c = true) ∧
    (∀ a b : Kind, a.contains b = true → b.contains a = true → a = b) ∧
    (∀ t : Kind, (∀ a : Kind, t.contains a = true) ↔ t = .generate) := by
  refine ⟨?_, ?_, ?_, ?_⟩
  · intro a; cases a <;> rfl
  · intro a b c; cases a <;> cases b <;> cases c <;> decide
  · intro a b; cases a <;> cases b <;> decide
  · intro t
    constructor
    · intro h
      have h1 := h .generate
      cases t <;> first | rfl | exact absurd h1 (by decide)
    · rintro rfl a
      cases a <;> rfl

/-- A string is read as a kind exactly when it is the name of that kind. -/
theorem C50_name (s : List Char) (k : Kind) : parseKind s = some k ↔ s = k.name := by
  constructor
  · intro h
    unfold parseKind at h
    split at h
    · cases h; assumption
    split at h
    · cases h; assumption
    split at h
    · cases h; assumption
    split at h
    · cases h; assumption
    split at h
    · cases h; assumption
    split at h
    · cases h; assumption
    · exact absurd h (by simp)
  · rintro rfl
    cases k <;> decide

/-- The kind of the protocol is read back, for every kind but `Generate`; nothing else is read as a kind. -/
theorem C50_protocol_partial (s : List Char) (k : Kind) (hk : k ≠ .generate) :
    assistKind s = some k ↔ s = codeActionKind k := by
  constructor
  · intro h
    unfold assistKind at h
    split at h
    · cases h; assumption
    split at h
    · cases h; assumption
    split at h
    · cases h; assumption
    split at h
    · cases h; assumption
    split at h
    · cases h; assumption
    · exact absurd h (by simp)
  · rintro rfl
    revert hk
    cases k <;> decide

example : assistKind "refactor.inline".toList = some .refactorInline := by decide

/-- `Generate` is sent as the empty kind, which is not read back. -/
theorem C50_generate_fails : ¬ ∀ k : Kind, assistKind (codeActionKind k) = some k := by
  intro h
  exact absurd (h .generate) (by decide)

theorem assistKind_quick (s : List Char) : assistKind s = some .quickFix ↔ s = "quickfix".toList :=
  C50_protocol_partial s .quickFix (by decide)

theorem covers_quick (s : List Char) (h : s ≠ []) : Covers s "quickfix".toList ↔ s = "quickfix".toList := by
  constructor
  · rintro (h1 | h1 | ⟨t, ht⟩)
    · exact absurd h1 h
    · exact h1
    · exfalso
      have : '.' ∈ "quickfix".toList := by rw [← ht]; simp
      exact absurd this (by decide)
  · intro h1
    exact Or.inr (Or.inl h1)

/-- Fixes are offered exactly when the client asks for all kinds or for one that covers fixes; missing: the empty kind among
those asked for. -/
theorem C50_only_partial (p : Params) (h : ∀ l, p.only = some l → [] ∉ l) :
    includeFixes (allowed p) = true ↔ ∀ l, p.only = some l → ∃ k ∈ l, Covers k "quickfix".toList := by
  cases ho : p.only with
  | none => simp [includeFixes, allowed, ho]
  | some l =>
    have hl := h l ho
    simp only [includeFixes, allowed, ho, Option.map_some, List.any_eq_true, List.mem_filterMap, decide_eq_true_eq,
      Option.some.injEq]
    constructor
    · rintro ⟨k, ⟨s, hs, hk⟩, rfl⟩ l' rfl
      exact ⟨s, hs, Or.inr (Or.inl ((assistKind_quick s).1 hk))⟩
    · intro h1
      obtain ⟨s, hs, hc⟩ := h1 l rfl
      have hne : s ≠ [] := by rintro rfl; exact hl hs
      exact ⟨.quickFix, ⟨s, hs, (assistKind_quick s).2 ((covers_quick s hne).1 hc)⟩, rfl⟩

example : includeFixes (allowed ⟨0, (0, 1), some ["refactor".toList, "quickfix".toList]⟩) = true := by decide
example : includeFixes (allowed ⟨0, (0, 1), some ["refactor".toList]⟩) = false := by decide

/-- A client that asks for the empty kind, that is for everything, is offered nothing. -/
theorem C50_only_fails : ¬ ∀ (p : Params),
    includeFixes (allowed p) = true ↔ ∀ l, p.only = some l → ∃ k ∈ l, Covers k "quickfix".toList := by
  intro h
  have h1 := (h ⟨0, (0, 1), some [[]]⟩).2 (by
    intro l hl
    cases hl
    exact ⟨[], by simp, Or.inl rfl⟩)
  exact absurd h1 (by decide)

/-! ### Identifiers -/

theorem digitOf_digit : ∀ d, d < 10 → digitOf (digit d) = some d := by decide

theorem parseDigits_append (xs ys : List Char) : ∀ acc, parseDigits acc (xs ++ ys) =
    (parseDigits acc xs).bind fun a => parseDigits a ys := by
  induction xs with
  | nil => intro acc; simp [parseDigits]
  | cons c cs ih =>
    intro acc
    simp only [List.cons_append, parseDigits]
    cases digitOf c with
    | none => rfl
    | some d =>
      dsimp only
      split
      · exact ih _
      · rfl

theorem parse_dec (n : Nat) (h : n < 2 ^ 64) : parseDigits 0 (dec n) = some n := by
  induction n using Nat.strongRecOn with
  | _ n ih =>
    rw [dec]
    split
    · rename_i h1
      simp only [parseDigits, digitOf_digit n h1, Nat.zero_mul, Nat.zero_add, h, if_true]
    · rename_i h1
      rw [parseDigits_append, ih (n / 10) (by omega) (by omega)]
      have h2 : n / 10 * 10 + n % 10 = n := by omega
      simp only [Option.bind_some, parseDigits, digitOf_digit (n % 10) (by omega), h2, h, if_true]

theorem digit_ne : ∀ d, d < 10 → digit d ≠ '+' ∧ digit d ≠ ':' := by decide

theorem dec_chars (n : Nat) : ∀ c ∈ dec n, c ≠ '+' ∧ c ≠ ':' := by
  induction n using Nat.strongRecOn with
  | _ n ih =>
    rw [dec]
    split
    · rename_i h1
      intro c hc
      rw [List.mem_singleton] at hc
      subst hc
      exact digit_ne n h1
    · rename_i h1
      intro c hc
      rcases List.mem_append.1 hc with h2 | h2
      · exact ih (n / 10) (by omega) c h2
      · rw [List.mem_singleton] at h2
        subst h2
        exact digit_ne _ (by omega)

theorem dec_ne_nil (n : Nat) : dec n ≠ [] := by
  rw [dec]
  split <;> simp

theorem parseUsize_dec (n : Nat) (h : n < 2 ^ 64) : parseUsize (dec n) = some n := by
  have h1 := parse_dec n h
  have h2 := dec_chars n
  have h3 := dec_ne_nil n
  cases hd : dec n with
  | nil => exact absurd hd h3
  | cons c cs =>
    rw [hd] at h1 h2
    have h4 : c ≠ '+' := (h2 c (by simp)).1
    unfold parseUsize
    split
    · rename_i h5; cases h5
    · rename_i h5; cases h5; exact absurd rfl h4
    · rename_i h5; cases h5; exact absurd rfl h4
    · rename_i h5 h6; cases h6; exact h1

theorem split_sep (a b : List Char) (h : ':' ∉ a) : splitColon (a ++ ':' :: b) = a :: splitColon b := by
  induction a with
  | nil => simp [splitColon]
  | cons c cs ih =>
    have h1 : c ≠ ':' := by rintro rfl; exact h (by simp)
    have h2 : ':' ∉ cs := fun h3 => h (by simp [h3])
    simp only [List.cons_append, splitColon, h1, if_false, ih h2]

theorem split_none (a : List Char) (h : ':' ∉ a) : splitColon a = [a] := by
  induction a with
  | nil => rfl
  | cons c cs ih =>
    have h1 : c ≠ ':' := by rintro rfl; exact h (by simp)
    have h2 : ':' ∉ cs := fun h3 => h (by simp [h3])
    simp only [splitColon, h1, if_false, ih h2]

theorem name_colon (k : Kind) : ':' ∉ k.name := by cases k <;> decide

theorem dec_colon (n : Nat) : ':' ∉ dec n := fun h => (dec_chars n _ h).2 rfl

/-- What the server writes into an action it reads back. -/
theorem C60_id (i : Id) (index : Nat) (h : ':' ∉ i.id) (hi : index < 2 ^ 64) (hs : ∀ x, i.subtype = some x → x < 2 ^ 64) :
    parseActionId (formatActionId i index) = some (index, i) := by
  obtain ⟨a, k, sub⟩ := i
  unfold parseActionId formatActionId
  dsimp only at h hs ⊢
  rw [split_sep _ _ h, split_sep _ _ (name_colon k), split_sep _ _ (dec_colon index)]
  cases sub with
  | none =>
    dsimp only
    simp only [splitColon, (C50_name k.name k).2 rfl, parseUsize_dec index hi]
    rfl
  | some x =>
    dsimp only
    rw [split_none _ (dec_colon x)]
    simp only [(C50_name k.name k).2 rfl, parseUsize_dec index hi, parseUsize_dec x (hs x rfl)]

example : parseActionId (formatActionId ⟨"add-import".toList, .quickFix, some 7⟩ 1205) =
    some (1205, ⟨"add-import".toList, .quickFix, some 7⟩) :=
  C60_id _ _ (by decide) (by decide) (by intro x h; cases h; decide)

/-- The identifiers used by the diagnostics (ide-diagnostics/src/handlers). -/
def knownIds : List (List Char) :=
  ["replace-with-package", "organize-imports", "spec-global-replace-with-index-expr", "replace-with-index-expr",
    "rename-with-underscore-prefix", "use-struct-lit-field-shorthand", "use-struct-pat-field-shorthand",
    "use-schema-lit-field-shorthand", "remove-redundant-coloncolon", "replace-with-method-call", "remove-redundant-cast",
    "replace-with-compound-expr", "add-import", "replace-with-friend", "remove-unused-acquires",
    "replace-with-resource-index-expr"].map String.toList

theorem known_colon : ∀ s ∈ knownIds, ':' ∉ s := by decide

/-! ### What is offered -/

/-- The fixes for a request: those that touch the range, in the order of the diagnostics. -/
def offers {E : Type} (sn : Snap E) (p : Params) : List (Fix E) :=
  if sn.enabled && includeFixes (allowed p) then (sn.diags p.file p.range).flatten.filter fun f => touches f.target p.range
  else []

/-- The assist of one call, if it is pushed. -/
def conv {E : Type} (s : Strategy) (f : Fix E) : Option (Assist E) :=
  if s.shouldResolve ⟨f.id, .quickFix, none⟩ then f.edit.map fun e => ⟨⟨f.id, .quickFix, none⟩, f.label, f.target, some e⟩
  else some ⟨⟨f.id, .quickFix, none⟩, f.label, f.target, none⟩

theorem addFix_eq {E : Type} (s : Strategy) (acc : List (Assist E)) (f : Fix E) :
    addFix s acc f = acc ++ (conv s f).toList := by
  unfold addFix conv
  dsimp only
  split
  · cases f.edit <;> simp
  · simp

theorem local_eq {E : Type} (s : Strategy) (fs : List (Fix E)) : localAssists s fs = fs.filterMap (conv s) := by
  have h : ∀ acc, fs.foldl (addFix s) acc = acc ++ fs.filterMap (conv s) := by
    induction fs with
    | nil => intro acc; simp
    | cons f fs ih =>
      intro acc
      rw [List.foldl_cons, ih, addFix_eq, List.filterMap_cons]
      cases conv s f <;> simp
  unfold localAssists
  rw [h]
  rfl

theorem conv_target {E : Type} {s : Strategy} {f : Fix E} {a : Assist E} (h : conv s f = some a) :
    a.target = f.target ∧ a.label = f.label ∧ a.id = ⟨f.id, .quickFix, none⟩ := by
  unfold conv at h
  split at h
  · cases he : f.edit with
    | none => rw [he] at h; cases h
    | some e => rw [he] at h; cases h; exact ⟨rfl, rfl, rfl⟩
  · cases h; exact ⟨rfl, rfl, rfl⟩

theorem filter_conv {E : Type} (s : Strategy) (r : Nat × Nat) (fs : List (Fix E)) :
    (fs.filterMap (conv s)).filter (fun a => touches a.target r) =
      (fs.filter fun f => touches f.target r).filterMap (conv s) := by
  induction fs with
  | nil => rfl
  | cons f fs ih =>
    rw [List.filterMap_cons, List.filter_cons]
    cases hc : conv s f with
    | none =>
      dsimp only
      rw [ih]
      split
      · rw [List.filterMap_cons, hc]
      · rfl
    | some a =>
      dsimp only
      rw [List.filter_cons, (conv_target hc).1, ih]
      split
      · rw [List.filterMap_cons, hc]
      · rfl

theorem assists_eq {E : Type} (sn : Snap E) (p : Params) (s : Strategy) :
    assistsWithFixes sn p s = (offers sn p).filterMap (conv s) := by
  unfold assistsWithFixes offers
  split
  · rw [← filter_conv]
    congr 1
    induction sn.diags p.file p.range with
    | nil => rfl
    | cons d ds ih => rw [List.flatMap_cons, List.flatten_cons, List.filterMap_append, ih, local_eq]
  · rfl

theorem conv_none {E : Type} : conv (E := E) Strategy.none = fun f => some ⟨⟨f.id, .quickFix, none⟩, f.label, f.target, none⟩ := by
  funext f
  simp [conv, Strategy.shouldResolve]

/-- A fix is offered exactly when diagnostics are on, quick fixes were asked for, a diagnostic makes it, and its range and the
range of the request have an offset in common, an end of both included: at a cursor just behind the marked text too. -/
theorem C60_offered {E : Type} (sn : Snap E) (p : Params) (f : Fix E) (h1 : f.target.1 ≤ f.target.2)
    (h2 : p.range.1 ≤ p.range.2) :
    f ∈ offers sn p ↔ sn.enabled = true ∧ includeFixes (allowed p) = true ∧ (∃ d ∈ sn.diags p.file p.range, f ∈ d) ∧
      ∃ x, (f.target.1 ≤ x ∧ x ≤ f.target.2) ∧ p.range.1 ≤ x ∧ x ≤ p.range.2 := by
  have ht : touches f.target p.range = true ↔ ∃ x, (f.target.1 ≤ x ∧ x ≤ f.target.2) ∧ p.range.1 ≤ x ∧ x ≤ p.range.2 := by
    unfold touches
    rw [decide_eq_true_iff]
    constructor
    · intro h
      exact ⟨max f.target.1 p.range.1, by omega⟩
    · rintro ⟨x, h⟩
      omega
  unfold offers
  rw [← ht]
  by_cases h : (sn.enabled && includeFixes (allowed p)) = true
  · rw [if_pos h, List.mem_filter, List.mem_flatten]
    rw [Bool.and_eq_true] at h
    exact ⟨fun a => ⟨h.1, h.2, a.1, a.2⟩, fun a => ⟨a.2.2.1, a.2.2.2⟩⟩
  · rw [if_neg h]
    rw [Bool.and_eq_true] at h
    exact ⟨fun a => absurd a List.not_mem_nil, fun a => absurd ⟨a.1, a.2.1⟩ h⟩

/-- A client that resolves later gets one action for every fix, in order, with its title, without an edit. -/
theorem C60_lazy {E : Type} (sn : Snap E) (p : Params) :
    (handleCodeAction sn p true).length = (offers sn p).length ∧
    ∀ (n : Nat) (f : Fix E), (offers sn p)[n]? = some f →
      (handleCodeAction sn p true)[n]? = some ⟨f.label, "quickfix".toList, none,
        some ⟨formatActionId ⟨f.id, .quickFix, none⟩ n, p, sn.version p.file⟩⟩ := by
  unfold handleCodeAction
  simp only [if_true, assists_eq, conv_none]
  constructor
  · simp
  · intro n f hf
    simp only [List.filterMap_eq_map', List.getElem?_map, List.getElem?_zipIdx, hf, Option.map_some, Nat.zero_add]
    rfl

/-- A client that does not gets an action, with its edit, for every fix that can be made, and no action without an edit. -/
theorem C60_eager {E : Type} (sn : Snap E) (p : Params) :
    (handleCodeAction sn p false).map (fun a => (a.title, a.edit, a.data)) =
      ((offers sn p).filter fun f => f.edit.isSome).map fun f => (f.label, f.edit, none) := by
  unfold handleCodeAction
  simp only [Bool.false_eq_true, if_false, assists_eq]
  generalize offers sn p = l
  have h : ∀ k, ((l.filterMap (conv Strategy.all)).zipIdx k).map (fun x => ((codeAction x.1 none).title,
      (codeAction x.1 none).edit, (codeAction x.1 none).data)) =
        (l.filter fun f => f.edit.isSome).map fun f => (f.label, f.edit, none) := by
    induction l with
    | nil => intro k; rfl
    | cons f l ih =>
      intro k
      rw [List.filterMap_cons, List.filter_cons]
      cases he : f.edit with
      | none => simpa [conv, Strategy.shouldResolve, he] using ih k
      | some e =>
        simp only [conv, Strategy.shouldResolve, he, if_true, Option.map_some, List.zipIdx_cons, List.map_cons,
          Option.isSome_some, codeAction]
        rw [← ih (k + 1)]
        rfl
  rw [List.map_map]
  exact h 0

theorem filterMap_get {α β : Type} (g : α → Option β) : ∀ (l : List α) (n : Nat) (x : α), l[n]? = some x →
    (∀ m y, m < n → l[m]? = some y → (g y).isSome = true) → (g x).isSome = true → (l.filterMap g)[n]? = g x := by
  intro l
  induction l with
  | nil => intro n x h; simp at h
  | cons a l ih =>
    intro n x h hb hx
    cases n with
    | zero =>
      simp at h
      subst h
      rw [List.filterMap_cons]
      cases hg : g a with
      | none => rw [hg] at hx; cases hx
      | some b => simp
    | succ n =>
      have ha := hb 0 a (by omega) (by simp)
      rw [List.filterMap_cons]
      cases hg : g a with
      | none => rw [hg] at ha; cases ha
      | some b =>
        simp only [List.getElem?_cons_succ] at h ⊢
        exact ih n x h (fun m y hm hy => hb (m + 1) y (by omega) (by simpa using hy)) hx

/-- Resolving an action that was offered gives the edit of exactly that fix, provided that, when it is resolved, the file has the
same version, the same fixes are found, and no fix with the same identifier before it gives up. -/
theorem C60_resolve_partial {E : Type} (sn sn' : Snap E) (p : Params) (n : Nat) (f : Fix E) (a : Action E)
    (hv : sn'.version p.file = sn.version p.file) (ho : offers sn' p = offers sn p)
    (hf : (offers sn p)[n]? = some f) (ha : (handleCodeAction sn p true)[n]? = some a)
    (hc : ':' ∉ f.id) (hn : n < 2 ^ 64) (hs : f.edit.isSome = true)
    (hb : ∀ m g, m < n → (offers sn p)[m]? = some g → g.id = f.id → g.edit.isSome = true) :
    handleResolve sn' a = .ok ⟨f.label, "quickfix".toList, f.edit, none⟩ := by
  have h1 := (C60_lazy sn p).2 n f hf
  rw [ha] at h1
  cases h1
  unfold handleResolve
  dsimp only
  rw [if_neg (by rw [hv]; simp), C60_id _ n hc hn (by intro x hx; cases hx)]
  dsimp only
  rw [assists_eq, ho]
  have hsr : ∀ g : Fix E, (Strategy.single ⟨f.id, .quickFix, none⟩).shouldResolve ⟨g.id, .quickFix, none⟩ = decide (f.id = g.id) := by
    intro g; simp [Strategy.shouldResolve]
  cases he : f.edit with
  | none => rw [he] at hs; cases hs
  | some e =>
    have hconv : conv (.single ⟨f.id, .quickFix, none⟩) f = some ⟨⟨f.id, .quickFix, none⟩, f.label, f.target, some e⟩ := by
      unfold conv
      rw [hsr f]
      simp [he]
    rw [filterMap_get (conv (.single ⟨f.id, .quickFix, none⟩)) (offers sn p) n f hf ?_ (by rw [hconv]; rfl), hconv]
    · simp [codeAction]
    · intro m g hm hg
      unfold conv
      rw [hsr g]
      by_cases hid : f.id = g.id
      · have := hb m g hm hg hid.symm
        cases hge : g.edit with
        | none => rw [hge] at this; cases this
        | some e' => simp [hid]
      · simp [hid]

/-- An action offered for another version of the file is refused. -/
theorem C60_stale {E : Type} (sn sn' : Snap E) (p : Params) (a : Action E) (ha : a ∈ handleCodeAction sn p true)
    (hv : sn'.version p.file ≠ sn.version p.file) : handleResolve sn' a = .error .stale := by
  obtain ⟨n, hn⟩ := List.mem_iff_getElem?.1 ha
  have hlt : n < (offers sn p).length := by
    rw [← (C60_lazy sn p).1]
    exact (List.getElem?_eq_some_iff.1 hn).1
  have h1 := (C60_lazy sn p).2 n _ (List.getElem?_eq_getElem hlt)
  rw [hn] at h1
  cases h1
  unfold handleResolve
  dsimp only
  rw [if_pos hv]

/-- Whatever is answered is the edit of a fix found now for the same request, with the identifier of the action. -/
theorem C60_answer {E : Type} (sn sn' : Snap E) (p : Params) (n : Nat) (f : Fix E) (a b : Action E)
    (hf : (offers sn p)[n]? = some f) (ha : (handleCodeAction sn p true)[n]? = some a)
    (hc : ':' ∉ f.id) (hn : n < 2 ^ 64) (hr : handleResolve sn' a = .ok b) :
    b.title = f.label ∧ b.edit.isSome = true ∧ ∃ g ∈ offers sn' p, g.id = f.id ∧ b.edit = g.edit := by
  have h1 := (C60_lazy sn p).2 n f hf
  rw [ha] at h1
  cases h1
  unfold handleResolve at hr
  dsimp only at hr
  split at hr
  · cases hr
  rw [C60_id _ n hc hn (by intro x hx; cases hx)] at hr
  dsimp only at hr
  rw [assists_eq] at hr
  split at hr
  · cases hr
  rename_i c hcget
  split at hr
  · cases hr
  rename_i hid
  cases hr
  obtain ⟨g, hg, hgc⟩ := List.mem_filterMap.1 (List.mem_of_getElem? hcget)
  have h2 := (conv_target hgc).2.2
  have h3 : g.id = f.id := by
    rw [h2] at hid
    simpa using hid
  unfold conv at hgc
  rw [if_pos (by simp [Strategy.shouldResolve, h3])] at hgc
  cases hge : g.edit with
  | none => rw [hge] at hgc; cases hgc
  | some e =>
    rw [hge] at hgc
    cases hgc
    exact ⟨rfl, rfl, g, hg, h3, hge.symm⟩

/-- Two imports with one name, from two modules. -/
def imports : List (Fix Nat) :=
  [⟨"add-import".toList, "Add import for `0x1::a::S`".toList, (0, 1), some 10⟩,
    ⟨"add-import".toList, "Add import for `0x1::b::S`".toList, (0, 1), some 20⟩]

/-- A workspace in which a name can be imported from two modules. -/
def snap : Snap Nat := ⟨fun _ => some 1, true, fun _ _ => [imports]⟩

/-- A request for everything at one place. -/
def request : Params := ⟨0, (0, 1), none⟩

example : handleResolve snap (((handleCodeAction snap request true)[1]?).getD ⟨[], [], none, none⟩) =
    .ok ⟨"Add import for `0x1::b::S`".toList, "quickfix".toList, some 20, none⟩ := by
  have h := (C60_lazy snap request).2 1 _ rfl
  rw [h]
  exact C60_resolve_partial snap snap request 1 _ _ rfl rfl rfl h (by decide) (by decide) rfl
    (by
      intro m g hm hg _
      have : m = 0 := by omega
      subst this
      cases hg
      rfl)

/-- Two calls of `global` next to each other: the fix of the first gives up (its type argument is written in parentheses,
spec_global_replace_with_index_expr.rs:80–85), that of the second does not. -/
def globals : List (List (Fix Nat)) :=
  [[⟨"spec-global-replace-with-index-expr".toList, "Replace with resource index expr".toList, (0, 17), none⟩],
    [⟨"spec-global-replace-with-index-expr".toList, "Replace with resource index expr".toList, (21, 36), some 20⟩]]

/-- A fix that gives up is still offered to a client that resolves later, and since it is left out when resolving, choosing it
applies the edit of the next fix. -/
theorem C60_fallible_fails : ¬ ∀ (E : Type) (sn : Snap E) (p : Params) (n : Nat) (f : Fix E) (a b : Action E),
    (offers sn p)[n]? = some f → (handleCodeAction sn p true)[n]? = some a → handleResolve sn a = .ok b →
    b.edit = f.edit := by
  intro h
  let sn : Snap Nat := ⟨fun _ => some 1, true, fun _ _ => globals⟩
  let p : Params := ⟨0, (0, 36), none⟩
  have hl := (C60_lazy sn p).2 0 _ rfl
  have hr : handleResolve sn ⟨"Replace with resource index expr".toList, "quickfix".toList, none,
      some ⟨formatActionId ⟨"spec-global-replace-with-index-expr".toList, .quickFix, none⟩ 0, p, sn.version p.file⟩⟩ =
      .ok ⟨"Replace with resource index expr".toList, "quickfix".toList, some 20, none⟩ := by
    unfold handleResolve
    dsimp only
    rw [if_neg (by simp), C60_id _ 0 (by decide) (by decide) (by intro x hx; cases hx)]
    rfl
  exact absurd (h Nat sn p 0 _ _ _ rfl hl hr) (by decide)

/-- The version that is compared is that of the file of the action. When another file has changed in between, an import may have
become possible that was not, and the edit of another import is applied. -/
theorem C60_other_file_fails : ¬ ∀ (E : Type) (sn sn' : Snap E) (p : Params) (n : Nat) (f : Fix E) (a b : Action E),
    (∀ q, ∀ g ∈ offers sn q, g.edit.isSome = true) →
    (∀ q, ∀ g ∈ offers sn' q, g.edit.isSome = true) →
    (offers sn p)[n]? = some f → (handleCodeAction sn p true)[n]? = some a → handleResolve sn' a = .ok b →
    b.edit = f.edit := by
  intro h
  let sn : Snap Nat := ⟨fun _ => some 1, true, fun _ _ => [imports.drop 1]⟩
  have hl := (C60_lazy sn request).2 0 _ rfl
  have hsome : ∀ (s : Snap Nat), (∀ f r, ∀ d ∈ s.diags f r, ∀ g ∈ d, g.edit.isSome = true) →
      ∀ q, ∀ g ∈ offers s q, g.edit.isSome = true := by
    intro s hs q g hg
    unfold offers at hg
    split at hg
    · obtain ⟨d, hd, hgd⟩ := List.mem_flatten.1 (List.mem_filter.1 hg).1
      exact hs _ _ d hd g hgd
    · cases hg
  have hr : handleResolve snap ⟨"Add import for `0x1::b::S`".toList, "quickfix".toList, none,
      some ⟨formatActionId ⟨"add-import".toList, .quickFix, none⟩ 0, request, sn.version request.file⟩⟩ =
      .ok ⟨"Add import for `0x1::b::S`".toList, "quickfix".toList, some 10, none⟩ := by
    unfold handleResolve
    dsimp only
    rw [if_neg (by simp [sn, snap]), C60_id _ 0 (by decide) (by decide) (by intro x hx; cases hx)]
    rfl
  have := h Nat sn snap request 0 _ _ _ (hsome sn (by
      intro f r d hd g hg
      simp only [sn, imports, List.drop, List.mem_singleton] at hd
      subst hd
      rw [List.mem_singleton] at hg
      subst hg
      rfl)) (hsome snap (by
      intro f r d hd g hg
      simp only [snap, List.mem_singleton] at hd
      subst hd
      rcases List.mem_cons.1 hg with rfl | hg
      · rfl
      · rw [List.mem_singleton] at hg
        subst hg
        rfl)) rfl hl hr
  exact absurd this (by decide)

end Verif.Ide.Assists
