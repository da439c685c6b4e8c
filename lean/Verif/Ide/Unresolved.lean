import Verif.Nameres.ResolvePaths
import Verif.Nameres.Loc
import Verif.Ide.CountsExamples

/-! C79: which references are reported as unresolved (ide-diagnostics/src/handlers/unresolved_reference.rs). -/

namespace Verif.Ide.Unresolved
open Verif Verif.Syntax Verif.Nameres
open Verif.Parser (Green)
open Verif.Ide.Rename (exprKinds)
open Verif.Ide.Usages (Parsed parseOf parseOf_parsed)
open Verif.Ide.Counts (First nodeChild_iff around around_chain)
open Verif.Nameres.Full (Is isNode_iff nodeChild_mem groupAround_none)

/-! ### Model -/

/-- What the check asks the database. -/
structure Ctx where
  /-- `resolve_named_address`: the named addresses of the project. -/
  named : List Char → Bool
  /-- `resolve_in_file_with_reason` (semantics.rs:162–170) of a reference; `resolve` (semantics.rs:144–160) gives the visible ones. -/
  res : List Elem → List (Entry × Option Invisible)
  /-- The kind of what an entry stands for (`ScopeEntry::kind`). -/
  kind : Entry → SyntaxKind
  /-- `file_package_id`. -/
  package : Nat → Nat
  /-- `missing_dependencies` of the package. -/
  missing : List (List Char)
  /-- `try_infer_spec_only_path_expr` of a path expression gives a type. -/
  specOnly : List Elem → Bool
  /-- `get_expr_type` of the receiver gives a type, and behind references it is not unknown. -/
  receiver : List Elem → Bool

/-- What is added to the message (unresolved_reference.rs:204–241). -/
inductive Note where
  | none
  | hidden (why : Invisible)
  | packages (names : List (List Char))
  deriving DecidableEq, Repr

/-- The messages (unresolved_reference.rs:203, 254–274); the names in `note: resolves to` are left out. -/
inductive Message where
  | missing (note : Note)
  | duplicate
  | multiple
  deriving DecidableEq, Repr

structure Report where
  name : List Char
  range : Nat × Nat
  message : Message
  deriving DecidableEq, Repr

/-- The visible entries. -/
def visible (c : Ctx) (site : List Elem) : List Entry := ((c.res site).filter fun x => x.2.isNone).map Prod.fst

/-- `reference_name_node` (node_ext/any_reference_element.rs) of the references that are checked. -/
def nameNode : List Elem → Option Elem
  | [] => none
  | e :: _ => if e.kind = .PATH then pathNameRef e else nodeChild e .NAME_REF

/-- `into_field_shorthand_items(..).is_some()` (lang/src/nameres/scope.rs:193–207). -/
def fieldAndVariable (c : Ctx) : List Entry → Bool
  | [a, b] => (decide (c.kind a = .NAMED_FIELD) && decide (c.kind b = .IDENT_PAT)) ||
      (decide (c.kind b = .NAMED_FIELD) && decide (c.kind a = .IDENT_PAT))
  | _ => false

/-- `is_entries_from_duplicate_dependencies` (unresolved_reference.rs:285–294). -/
def fromPackages (c : Ctx) (es : List Entry) : Bool :=
  es.any fun a => es.any fun b => decide (c.package a.file ≠ c.package b.file)

/-- unresolved_reference.rs:204–241. -/
def noteOf (c : Ctx) : List (Entry × Option Invisible) → Note
  | [(_, some .unknown)] => .none
  | [(_, some why)] => .hidden why
  | [(_, none)] => .none
  | _ => if c.missing = [] then .none else .packages c.missing

/-- `try_check_resolve` (unresolved_reference.rs:183–283). -/
def tryCheck (c : Ctx) (site : List Elem) : Option Report :=
  match nameNode site with
  | none => none
  | some n =>
    match visible c site with
    | [] => some ⟨nameRefText n, (n.start, n.stop), .missing (noteOf c (c.res site))⟩
    | [_] => none
    | es =>
      if fieldAndVariable c es then none
      else some ⟨nameRefText n, (n.start, n.stop), if fromPackages c es then .duplicate else .multiple⟩

mutual
/-- The depth of a tree. -/
def depth : Green → Nat
  | .tok _ _ => 0
  | .node _ cs => depths cs + 1
def depths : List Green → Nat
  | [] => 0
  | g :: gs => max (depth g) (depths gs)
end

/-- `base_path` and the loop up from it (unresolved_reference.rs:93–94, 123; path.rs:48–55): a path and its qualifiers, the
innermost first. The steps are bounded by the depth of the tree. -/
def partsIn : Nat → Elem → List Elem → List (List Elem)
  | 0, _, _ => []
  | n + 1, p, anc => match nodeChild p .PATH with
    | none => [p :: anc]
    | some q => partsIn n q (p :: anc) ++ [p :: anc]

def parts (p : Elem) (anc : List Elem) : List (List Elem) := partsIn (depth p.green + 1) p anc

/-- The loop of unresolved_reference.rs:94–124. -/
def walk (c : Ctx) : List (List Elem) → Option Report
  | [] => none
  | s :: rest =>
    match pathKind c.named s with
    | none => none
    | some (.namedAddress _) | some (.namedOrUnqualified _ _) | some (.valueAddress _) => walk c rest
    | some (.shorthand _) | some (.unqualified _) =>
      match tryCheck c s with
      | some r => some r
      | none => walk c rest
    | some (.qualified q _ kind) =>
      match kind with
      | .itemOrVariant | .fqItem | .groupItem =>
        if (visible c q).length = 1 then
          match tryCheck c s with
          | some r => some r
          | none => walk c rest
        else none
      | _ =>
        match tryCheck c s with
        | some r => some r
        | none => walk c rest

/-- The operators of binary expressions (node_ext/bin_expr.rs:18–56), those of assignments first. -/
def assignOps : List SyntaxKind :=
  [.EQ, .PLUS_EQ, .STAR_EQ, .MINUS_EQ, .SLASH_EQ, .PERCENT_EQ, .SHL_EQ, .SHR_EQ, .CARET_EQ, .PIPE_EQ, .AMP_EQ]

def binOps : List SyntaxKind := assignOps ++
  [.PIPE_PIPE, .AMP_AMP, .IMPLIES, .LESS_IMPLIES, .EQ_EQ, .NOT_EQ, .LT_EQ, .GT_EQ, .L_ANGLE, .R_ANGLE, .PLUS, .STAR, .MINUS, .SLASH,
    .PERCENT, .SHL, .SHR, .CARET, .PIPE, .AMP]

/-- `op_details` (node_ext/bin_expr.rs:12–61), the kind of the token. -/
def opOf (e : Elem) : Option SyntaxKind := (e.children.find? fun t => t.green.isTok && binOps.contains t.kind).map Elem.kind

/-- unresolved_reference.rs:69–80: in the left side of an assignment. -/
def inLhs (site : List Elem) : Bool :=
  site.any fun b => isNode .BIN_EXPR b && ((opOf b).any fun k => assignOps.contains k) &&
    ((childOf b exprKinds).any fun lhs => site.any fun a => decide (a.path = lhs.path))

/-- `PRIMITIVE_TYPES` (syntax/src/ast/idents.rs:11–16). -/
def primitiveTypes : List (List Char) :=
  ["bool".toList, "address".toList, "signer".toList, "vector".toList, "bv".toList, "i8".toList, "i16".toList, "i32".toList,
    "i64".toList, "i128".toList, "i256".toList, "u8".toList, "u16".toList, "u32".toList, "u64".toList, "u128".toList, "u256".toList,
    "num".toList]

/-- `unresolved_path` (unresolved_reference.rs:54–127). -/
def checkPath (c : Ctx) (p : Elem) (anc : List Elem) : Option Report :=
  if kindAt anc 0 = some .PATH then none
  else match refName p with
    | none => none
    | some w =>
      if w = ['_'] && inLhs (p :: anc) then none
      else if kindAt anc 0 = some .PATH_TYPE && primitiveTypes.contains w then none
      else if anc.any (isNode .ATTR_ITEM) then none
      else walk c (parts p anc)

/-- `is_special_msl_path` (unresolved_reference.rs:129–161). -/
def special (c : Ctx) (e : Elem) (anc : List Elem) : Bool :=
  anc.any (isNode .IMPLY_INCLUDE_EXPR) ||
  (e :: anc).any (fun x => isNode .CALL_EXPR x && "update_field".toList.isPrefixOf x.green.text) ||
  anc.any (isNode .PRAGMA_STMT) ||
  (decide (e.kind = .PATH) && decide (kindAt (rootPath (e :: anc)) 1 = some .PATH_EXPR) && c.specOnly (rootPath (e :: anc)).tail)

/-- `find_unresolved_references` (unresolved_reference.rs:28–52) of a node with its ancestors; it is called for every node of a
file that is a reference (ide-diagnostics/src/lib.rs:91–100). For the other kinds of references nothing is done. -/
def check (c : Ctx) : List Elem → Option Report
  | [] => none
  | e :: anc =>
    if isMslContext (e :: anc) && special c e anc then none
    else if isNode .PATH e then checkPath c e anc
    else if isNode .METHOD_CALL_EXPR e || isNode .DOT_EXPR e then if c.receiver (e :: anc) then tryCheck c (e :: anc) else none
    else if isNode .STRUCT_LIT_FIELD e || isNode .STRUCT_PAT_FIELD e then tryCheck c (e :: anc)
    else none

/-! ### Specification -/

/-- The path itself, or one that it begins with. -/
inductive Part (s : List Elem) : List Elem → Prop where
  | whole : Part s s
  | before {p q anc} : Part s (p :: anc) → Is .PATH p → First [.PATH] p q → Part s (q :: p :: anc)

/-- The word that stands for what a reference means: the last one of a path, or the one after the dot, or before the colon. -/
inductive Word : List Elem → Elem → Prop where
  | path {p s n anc} : Is .PATH p → First [.PATH_SEGMENT] p s → First [.NAME_REF] s n → Word (p :: anc) n
  | member {e n anc} : Is .METHOD_CALL_EXPR e ∨ Is .DOT_EXPR e ∨ Is .STRUCT_LIT_FIELD e ∨ Is .STRUCT_PAT_FIELD e →
      First [.NAME_REF] e n → Word (e :: anc) n

/-- The reference means exactly one thing that can be used there. -/
def Means (c : Ctx) (s : List Elem) (e : Entry) : Prop :=
  ∃ a b, c.res s = a ++ (e, none) :: b ∧ ∀ x ∈ a ++ b, x.2 ≠ none

/-- It means a field and a variable, and nothing else. -/
def Both (c : Ctx) (s : List Elem) : Prop :=
  ∃ f v, ((visible c s) = [f, v] ∨ (visible c s) = [v, f]) ∧ c.kind f = .NAMED_FIELD ∧ c.kind v = .IDENT_PAT

/-- It is in order. -/
def Fine (c : Ctx) (s : List Elem) : Prop := (∃ e, Means c s e) ∨ Both c s

/-- The part is an address, or it could be one. -/
def Address (c : Ctx) (s : List Elem) : Prop :=
  ∃ w, pathKind c.named s = some (.namedAddress w) ∨ pathKind c.named s = some (.valueAddress w) ∨
    ∃ ns, pathKind c.named s = some (.namedOrUnqualified w ns)

/-- The operator of a binary expression. -/
def FirstOp (b : Elem) (k : SyntaxKind) : Prop :=
  ∃ pre o post, b.children = pre ++ o :: post ∧ o.green.isTok = true ∧ o.kind = k ∧ k ∈ binOps ∧
    ∀ x ∈ pre, x.green.isTok = true → x.kind ∉ binOps

/-- The names of the types of the language: integers of six sizes, and six others. -/
def Builtin (w : List Char) : Prop :=
  (∃ s ∈ ["bool", "address", "signer", "vector", "num", "bv"], w = s.toList) ∨
    ∃ c ∈ ['i', 'u'], ∃ n ∈ ["8", "16", "32", "64", "128", "256"], w = c :: n.toList

/-- What is left out of the check on purpose. -/
inductive Exempt (c : Ctx) : List Elem → Prop where
  | include_ {e anc a} : isMslContext (e :: anc) = true → a ∈ anc → Is .IMPLY_INCLUDE_EXPR a → Exempt c (e :: anc)
  | pragma {e anc a} : isMslContext (e :: anc) = true → a ∈ anc → Is .PRAGMA_STMT a → Exempt c (e :: anc)
  | update {e anc a} : isMslContext (e :: anc) = true → a ∈ e :: anc → Is .CALL_EXPR a → "update_field".toList <+: a.green.text →
      Exempt c (e :: anc)
  | result {p x anc} : isMslContext (p :: x :: anc) = true → Is .PATH p → Is .PATH_EXPR x → c.specOnly (x :: anc) = true →
      Exempt c (p :: x :: anc)
  | attr {p anc a} : Is .PATH p → a ∈ anc → Is .ATTR_ITEM a → Exempt c (p :: anc)
  | primitive {p t anc n} : Is .PATH p → t.kind = .PATH_TYPE → Word (p :: t :: anc) n → Builtin (nameRefText n) →
      Exempt c (p :: t :: anc)
  | anything {p anc n b o lhs} : Is .PATH p → Word (p :: anc) n → nameRefText n = ['_'] → b ∈ p :: anc → Is .BIN_EXPR b →
      FirstOp b o → o ∈ assignOps → First exprKinds b lhs → lhs.path ∈ (p :: anc).map Elem.path →
      Exempt c (p :: anc)

/-! ### Proofs -/

theorem builtin_iff (w : List Char) : w ∈ primitiveTypes ↔ Builtin w := by
  constructor
  · intro h
    simp only [primitiveTypes, List.mem_cons, List.not_mem_nil, or_false] at h
    rcases h with h | h | h | h | h | h | h | h | h | h | h | h | h | h | h | h | h | h <;> subst h <;> unfold Builtin <;> decide
  · rintro (⟨s, hs, rfl⟩ | ⟨c, hc, n, hn, rfl⟩)
    · revert s
      decide
    · revert c n
      decide

theorem visible_single {c : Ctx} {s : List Elem} : (∃ e, Means c s e) ↔ (visible c s).length = 1 := by
  unfold Means visible
  generalize c.res s = l
  constructor
  · rintro ⟨e, a, b, rfl, h⟩
    have h1 : ∀ l' : List (Entry × Option Invisible), (∀ x ∈ l', x.2 ≠ none) → l'.filter (fun x => x.2.isNone) = [] := fun l' hl => by
      rw [List.filter_eq_nil_iff]
      intro x hx
      simpa using hl x hx
    rw [List.filter_append, List.filter_cons_of_pos (by rfl), h1 a fun x hx => h x (by simp [hx]), h1 b fun x hx => h x (by simp [hx])]
    rfl
  · intro h
    rw [List.length_map] at h
    induction l with
    | nil => simp at h
    | cons x l ih =>
      cases hx : x.2 with
      | none =>
        rw [List.filter_cons_of_pos (by simp [hx])] at h
        simp only [List.length_cons, Nat.add_eq_right, List.length_eq_zero_iff, List.filter_eq_nil_iff] at h
        refine ⟨x.1, [], l, ?_, fun y hy => ?_⟩
        · rw [← hx]; rfl
        · simpa using h y (by simpa using hy)
      | some w =>
        rw [List.filter_cons_of_neg (by simp [hx])] at h
        obtain ⟨e, a, b, h1, h2⟩ := ih h
        refine ⟨e, x :: a, b, by rw [h1]; rfl, fun y hy => ?_⟩
        rcases List.mem_cons.1 hy with h3 | h3
        · rw [h3, hx]; simp
        · exact h2 y h3

theorem both_iff {c : Ctx} {s : List Elem} : Both c s ↔ fieldAndVariable c (visible c s) = true := by
  unfold Both fieldAndVariable
  generalize visible c s = l
  constructor
  · rintro ⟨f, v, rfl | rfl, h1, h2⟩ <;> simp [h1, h2]
  · split
    · rename_i a b
      simp only [Bool.or_eq_true, Bool.and_eq_true, decide_eq_true_eq]
      rintro (⟨h1, h2⟩ | ⟨h1, h2⟩)
      · exact ⟨a, b, .inl rfl, h1, h2⟩
      · exact ⟨b, a, .inr rfl, h1, h2⟩
    · simp

/-- `try_check_resolve` of a reference with a word. -/
theorem tryCheck_none {c : Ctx} {s : List Elem} {n : Elem} (hn : nameNode s = some n) : tryCheck c s = none ↔ Fine c s := by
  unfold Fine
  rw [visible_single, both_iff]
  unfold tryCheck
  rw [hn]
  dsimp only
  split
  · rename_i h
    simp [h, fieldAndVariable]
  · rename_i h
    simp [h]
  · rename_i h1 h2
    have h3 : (visible c s).length ≠ 1 := fun h => by
      obtain ⟨x, hx⟩ := List.length_eq_one_iff.1 h
      exact h2 x hx
    split
    · rename_i h4
      simp [h4]
    · rename_i h4
      simp [h4, h3]

theorem tryCheck_some {c : Ctx} {s : List Elem} {r : Report} (h : tryCheck c s = some r) :
    ∃ n, nameNode s = some n ∧ r.name = nameRefText n ∧ r.range = (n.start, n.stop) ∧ ¬ Fine c s := by
  cases hn : nameNode s with
  | none => simp [tryCheck, hn] at h
  | some n =>
    have h1 : ¬ Fine c s := fun hf => by rw [(tryCheck_none hn).2 hf] at h; cases h
    refine ⟨n, rfl, ?_⟩
    unfold tryCheck at h
    rw [hn] at h
    dsimp only at h
    split at h
    · cases h; exact ⟨rfl, rfl, h1⟩
    · cases h
    · split at h
      · cases h
      · cases h; exact ⟨rfl, rfl, h1⟩

theorem word_path {p n : Elem} {anc : List Elem} (hp : Is .PATH p) : nameNode (p :: anc) = some n ↔ Word (p :: anc) n := by
  unfold nameNode
  dsimp only
  rw [if_pos hp.2]
  unfold pathNameRef
  rw [Option.bind_eq_some_iff]
  constructor
  · rintro ⟨s, h1, h2⟩
    exact .path hp (nodeChild_iff.1 h1) (nodeChild_iff.1 h2)
  · intro h
    cases h with
    | path h1 h2 h3 => exact ⟨_, nodeChild_iff.2 h2, nodeChild_iff.2 h3⟩
    | member h1 h2 =>
      have := hp.2
      rcases h1 with h1 | h1 | h1 | h1 <;> (rw [h1.2] at this; cases this)

theorem word_member {e n : Elem} {anc : List Elem}
    (he : Is .METHOD_CALL_EXPR e ∨ Is .DOT_EXPR e ∨ Is .STRUCT_LIT_FIELD e ∨ Is .STRUCT_PAT_FIELD e) :
    nameNode (e :: anc) = some n ↔ Word (e :: anc) n := by
  have hk : e.kind ≠ .PATH := by rcases he with h | h | h | h <;> (rw [h.2]; decide)
  unfold nameNode
  dsimp only
  rw [if_neg hk, nodeChild_iff]
  constructor
  · exact fun h => .member he h
  · intro h
    cases h with
    | path h1 => exact absurd h1.2 hk
    | member _ h2 => exact h2

/-! #### Parts of a path -/

theorem le_depths {c : Green} {cs : List Green} (h : c ∈ cs) : depth c ≤ depths cs := by
  induction cs with
  | nil => cases h
  | cons g gs ih =>
    simp only [depths]
    rcases List.mem_cons.1 h with rfl | h
    · omega
    · have := ih h
      omega

theorem depth_child {e c : Elem} (h : c ∈ e.children) : depth c.green < depth e.green := by
  have h1 := (Elem.mem_children h).1
  cases hg : e.green with
  | tok k w => rw [hg] at h1; cases h1
  | node k cs =>
    rw [hg] at h1
    have : depth c.green ≤ depths cs := le_depths h1
    simp only [depth]
    omega

theorem Part.trans {a b d : List Elem} (h1 : Part a b) (h2 : Part b d) : Part a d := by
  induction h2 with
  | whole => exact h1
  | before _ h3 h4 ih => exact .before ih h3 h4

theorem Part.length {a b : List Elem} (h : Part a b) : a.length ≤ b.length ∧ (a.length = b.length → a = b) := by
  induction h with
  | whole => exact ⟨Nat.le_refl _, fun _ => rfl⟩
  | before _ _ _ ih =>
    simp only [List.length_cons] at ih ⊢
    exact ⟨by omega, fun h => by omega⟩

theorem Part.isPath {p : Elem} {anc s : List Elem} (hp : Is .PATH p) (h : Part (p :: anc) s) : ∃ q m, s = q :: m ∧ Is .PATH q := by
  cases h with
  | whole => exact ⟨p, anc, rfl, hp⟩
  | before _ h2 h3 => exact ⟨_, _, rfl, (nodeChild_mem (nodeChild_iff.2 h3)).2⟩

/-- The parts of a path are the path and the parts of what comes before its last word. -/
theorem Part.cases_first {p q : Elem} {anc t : List Elem} (hq : nodeChild p .PATH = some q) (h : Part (p :: anc) t) :
    t = p :: anc ∨ Part (q :: p :: anc) t := by
  induction h with
  | whole => exact .inl rfl
  | before h1 h2 h3 ih =>
    rcases ih with h4 | h4
    · cases h4
      rw [← nodeChild_iff, hq] at h3
      cases h3
      exact .inr .whole
    · exact .inr (.before h4 h2 h3)

theorem parts_split (n : Nat) {p : Elem} {anc a s b} (hp : Is .PATH p) (hn : depth p.green < n) (h : partsIn n p anc = a ++ s :: b) :
    Part (p :: anc) s ∧ ∀ t, Part s t ↔ t = s ∨ t ∈ a := by
  induction n generalizing p anc a s b with
  | zero => omega
  | succ n ih =>
    unfold partsIn at h
    cases hq : nodeChild p .PATH with
    | none =>
      rw [hq] at h
      dsimp only at h
      rw [eq_comm, List.append_eq_singleton_iff] at h
      rcases h with ⟨rfl, h⟩ | ⟨-, h⟩
      · cases h
        refine ⟨.whole, fun t => ?_⟩
        simp only [List.not_mem_nil, or_false]
        constructor
        · intro ht
          have key : ∀ w, Part (p :: anc) w → w = p :: anc := fun w hw => by
            induction hw with
            | whole => rfl
            | before _ _ h3 ih2 =>
              cases ih2
              rw [← nodeChild_iff, hq] at h3
              cases h3
          exact key t ht
        · rintro rfl; exact .whole
      · cases h
    | some q =>
      rw [hq] at h
      dsimp only at h
      have hq2 := nodeChild_mem hq
      have hd := depth_child hq2.1
      rcases List.eq_nil_or_concat b with rfl | ⟨b', x, rfl⟩
      · obtain ⟨h1, h2⟩ := List.append_inj' h rfl
        cases h2
        refine ⟨.whole, fun t => ?_⟩
        -- the list of the qualifiers ends with the qualifier
        have hlast : ∃ a', a = a' ++ [q :: p :: anc] := by
          rw [← h1]
          cases n with
          | zero => omega
          | succ n =>
            unfold partsIn
            split
            · exact ⟨[], rfl⟩
            · exact ⟨_, rfl⟩
        obtain ⟨a', rfl⟩ := hlast
        have h3 := (ih hq2.2 (by omega) (h1.trans rfl)).2 t
        constructor
        · intro ht
          rcases Part.cases_first hq ht with rfl | ht
          · exact .inl rfl
          · rcases h3.1 ht with rfl | h4
            · exact .inr (by simp)
            · exact .inr (by simp [h4])
        · rintro (rfl | ht)
          · exact .whole
          · refine Part.trans (.before .whole hp (nodeChild_iff.1 hq)) (h3.2 ?_)
            rcases List.mem_append.1 ht with h4 | h4
            · exact .inr h4
            · exact .inl (by simpa using h4)
      · rw [List.concat_eq_append, ← List.cons_append, ← List.append_assoc] at h
        obtain ⟨h1, -⟩ := List.append_inj' h rfl
        obtain ⟨h2, h3⟩ := ih hq2.2 (by omega) h1
        exact ⟨Part.trans (.before .whole hp (nodeChild_iff.1 hq)) h2, h3⟩

theorem parts_last (p : Elem) (anc : List Elem) : ∃ a, parts p anc = a ++ [p :: anc] := by
  unfold parts partsIn
  split
  · exact ⟨[], rfl⟩
  · exact ⟨_, rfl⟩

theorem mem_parts {p : Elem} {anc t : List Elem} (hp : Is .PATH p) : t ∈ parts p anc ↔ Part (p :: anc) t := by
  obtain ⟨a, ha⟩ := parts_last p anc
  have h := (parts_split _ hp (by omega) (show partsIn (depth p.green + 1) p anc = a ++ (p :: anc) :: [] from ha)).2 t
  rw [h, ha]
  simp [or_comm]

/-! #### The loop -/

/-- The kinds of paths for which the loop asks for the qualifier. -/
def Needs (c : Ctx) (s q : List Elem) : Prop :=
  ∃ ns k, pathKind c.named s = some (.qualified q ns k) ∧ (k = .itemOrVariant ∨ k = .fqItem ∨ k = .groupItem)

theorem walk_some {c : Ctx} {l : List (List Elem)} {r : Report} (h : walk c l = some r) :
    ∃ a s b, l = a ++ s :: b ∧ tryCheck c s = some r ∧ ¬ Address c s ∧ pathKind c.named s ≠ none ∧
      (∀ q, Needs c s q → (visible c q).length = 1) ∧ ∀ t ∈ a, Address c t ∨ tryCheck c t = none := by
  induction l with
  | nil => cases h
  | cons s rest ih =>
    have later : walk c rest = some r → (Address c s ∨ tryCheck c s = none) →
        ∃ a s' b, s :: rest = a ++ s' :: b ∧ tryCheck c s' = some r ∧ ¬ Address c s' ∧ pathKind c.named s' ≠ none ∧
          (∀ q, Needs c s' q → (visible c q).length = 1) ∧ ∀ t ∈ a, Address c t ∨ tryCheck c t = none := fun hw hs => by
      obtain ⟨a, s', b, h1, h2, h3, h4, h5, h6⟩ := ih hw
      refine ⟨s :: a, s', b, by rw [h1]; rfl, h2, h3, h4, h5, fun t ht => ?_⟩
      rcases List.mem_cons.1 ht with h7 | h7
      · rw [h7]; exact hs
      · exact h6 t h7
    unfold walk at h
    split at h
    · cases h
    · rename_i w hk; exact later h (.inl ⟨w, .inl hk⟩)
    · rename_i w ns hk; exact later h (.inl ⟨w, .inr (.inr ⟨ns, hk⟩)⟩)
    · rename_i w hk; exact later h (.inl ⟨w, .inr (.inl hk)⟩)
    all_goals rename_i hk
    · split at h
      · rename_i r' ht
        cases h
        refine ⟨[], s, rest, rfl, ht, ?_, by simp [hk], ?_, by simp⟩
        · rintro ⟨w, h | h | ⟨_, h⟩⟩ <;> (rw [hk] at h; cases h)
        · rintro q ⟨ns, k, h, -⟩
          rw [hk] at h; cases h
      · rename_i ht; exact later h (.inr ht)
    · split at h
      · rename_i r' ht
        cases h
        refine ⟨[], s, rest, rfl, ht, ?_, by simp [hk], ?_, by simp⟩
        · rintro ⟨w, h | h | ⟨_, h⟩⟩ <;> (rw [hk] at h; cases h)
        · rintro q ⟨ns, k, h, -⟩
          rw [hk] at h; cases h
      · rename_i ht; exact later h (.inr ht)
    · have here : ∀ r', tryCheck c s = some r' → (∀ q, Needs c s q → (visible c q).length = 1) → some r' = some r →
          ∃ a s' b, s :: rest = a ++ s' :: b ∧ tryCheck c s' = some r ∧ ¬ Address c s' ∧ pathKind c.named s' ≠ none ∧
            (∀ q, Needs c s' q → (visible c q).length = 1) ∧ ∀ t ∈ a, Address c t ∨ tryCheck c t = none := fun r' ht hq he => by
        cases he
        refine ⟨[], s, rest, rfl, ht, ?_, by simp [hk], hq, by simp⟩
        rintro ⟨w, h | h | ⟨_, h⟩⟩ <;> (rw [hk] at h; cases h)
      rename_i kind
      have needs : kind = .itemOrVariant ∨ kind = .fqItem ∨ kind = .groupItem → (if (visible c _).length = 1 then
          match tryCheck c s with
          | some r => some r
          | none => walk c rest
        else none) = some r → _ := fun _ h => by
        split at h
        · rename_i hv
          split at h
          · rename_i r' ht
            refine here r' ht ?_ h
            rintro q ⟨ns, k, h', -⟩
            rw [hk] at h'
            cases h'
            exact hv
          · rename_i ht; exact later h (.inr ht)
        · cases h
      have free : ¬ (kind = .itemOrVariant ∨ kind = .fqItem ∨ kind = .groupItem) → (match tryCheck c s with
          | some r => some r
          | none => walk c rest) = some r → _ := fun hn h => by
        split at h
        · rename_i r' ht
          refine here r' ht ?_ h
          rintro q ⟨ns, k, h', h''⟩
          rw [hk] at h'
          cases h'
          exact absurd h'' hn
        · rename_i ht; exact later h (.inr ht)
      cases kind with
      | module a => exact free (by simp) h
      | moduleOrItem a => exact free (by simp) h
      | itemOrVariant => exact needs (by simp) h
      | fqItem => exact needs (by simp) h
      | groupItem => exact needs (by simp) h

theorem walk_none {c : Ctx} {l : List (List Elem)} (h : walk c l = none) :
    (∀ t ∈ l, Address c t ∨ tryCheck c t = none) ∨
    ∃ a s b, l = a ++ s :: b ∧ (∀ t ∈ a, Address c t ∨ tryCheck c t = none) ∧
      (pathKind c.named s = none ∨ ∃ q, Needs c s q ∧ (visible c q).length ≠ 1) := by
  induction l with
  | nil => exact .inl (by simp)
  | cons s rest ih =>
    have later : walk c rest = none → (Address c s ∨ tryCheck c s = none) →
        (∀ t ∈ s :: rest, Address c t ∨ tryCheck c t = none) ∨
        ∃ a s' b, s :: rest = a ++ s' :: b ∧ (∀ t ∈ a, Address c t ∨ tryCheck c t = none) ∧
          (pathKind c.named s' = none ∨ ∃ q, Needs c s' q ∧ (visible c q).length ≠ 1) := fun hw hs => by
      rcases ih hw with h1 | ⟨a, s', b, h1, h2, h3⟩
      · refine .inl fun t ht => ?_
        rcases List.mem_cons.1 ht with h4 | h4
        · rw [h4]; exact hs
        · exact h1 t h4
      · refine .inr ⟨s :: a, s', b, by rw [h1]; rfl, fun t ht => ?_, h3⟩
        rcases List.mem_cons.1 ht with h4 | h4
        · rw [h4]; exact hs
        · exact h2 t h4
    unfold walk at h
    split at h
    · rename_i hk
      exact .inr ⟨[], s, rest, rfl, by simp, .inl hk⟩
    · rename_i w hk; exact later h (.inl ⟨w, .inl hk⟩)
    · rename_i w ns hk; exact later h (.inl ⟨w, .inr (.inr ⟨ns, hk⟩)⟩)
    · rename_i w hk; exact later h (.inl ⟨w, .inr (.inl hk)⟩)
    all_goals rename_i hk
    · split at h
      · cases h
      · rename_i ht; exact later h (.inr ht)
    · split at h
      · cases h
      · rename_i ht; exact later h (.inr ht)
    · rename_i kind
      have needs : kind = .itemOrVariant ∨ kind = .fqItem ∨ kind = .groupItem → (if (visible c _).length = 1 then
          match tryCheck c s with
          | some r => some r
          | none => walk c rest
        else none) = none → _ := fun hn h => by
        split at h
        · split at h
          · cases h
          · rename_i ht; exact later h (.inr ht)
        · rename_i hv
          exact .inr ⟨[], s, rest, rfl, by simp, .inr ⟨_, ⟨_, _, hk, hn⟩, hv⟩⟩
      have free : (match tryCheck c s with
          | some r => some r
          | none => walk c rest) = none → _ := fun h => by
        split at h
        · cases h
        · rename_i ht; exact later h (.inr ht)
      cases kind with
      | module a => exact free h
      | moduleOrItem a => exact free h
      | itemOrVariant => exact needs (by simp) h
      | fqItem => exact needs (by simp) h
      | groupItem => exact needs (by simp) h

end Verif.Ide.Unresolved
