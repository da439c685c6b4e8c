import Verif.Ide.RenameMore
import Verif.Ide.RenameLocal
import Verif.Nameres.ItemScope
import Verif.Ide.SymbolsCollect

/-! C73: the warnings for variables and parameters that are not used (ide-diagnostics/src/handlers/unused_variables.rs), and their
fix. -/

namespace Verif.Ide.Unused
open Verif Verif.TextEdit Verif.Syntax Verif.Nameres
open Verif.Parser (Green)
open Verif.Lexer (blen blen_append isNameChar)
open Verif.Ide.Usages hiding texts

/-! ### Model -/

/-- What the handler asks of the database. `variant` is `resolve_to_element::<Variant>` (unused_variables.rs:29–35) of an identifier
pattern with its ancestors; `specs`, `specFiles` and `everywhere` are what `item_search_scope` (search.rs:107–128) gets from the
database. -/
structure Env where
  world : Usages.World
  variant : Nat → List Elem → Bool
  specs : Elem → List (Nat × (Nat × Nat))
  specFiles : List Nat
  everywhere : Scope

/-- The outcome for one identifier pattern. -/
inductive Verdict where
  | quiet
  | warn (message : List Char) (range : Nat × Nat)
  | panics
  deriving DecidableEq, Repr

/-- `IdentPatOwner::kind` (syntax/src/ast/node_ext/ident_pat_owner.rs:10–22). -/
def ownerWord (k : SyntaxKind) : String :=
  match k with
  | .PARAM | .LAMBDA_PARAM | .ITEM_SPEC_PARAM => "parameter"
  | .SCHEMA_FIELD => "field"
  | _ => "variable"

/-- unused_variables.rs:87–89. -/
def message (k : SyntaxKind) (name : List Char) : List Char :=
  "Unused ".toList ++ (ownerWord k).toList ++ " '".toList ++ name ++ ['\'']

/-- unused_variables.rs:48–65, of a binding in a `let` with its ancestors: whether the block around it has an `include`. `none` is
the panic of `expect`. -/
def letSkipped (i : Elem) (anc : List Elem) : Option Bool :=
  if isMslContext (i :: anc) then
    match firstOf [.BLOCK_EXPR] anc with
    | some (b :: _) => some (b.descendants.any fun d => decide (d.kind = .INCLUDE_SCHEMA))
    | _ => none
  else some false

/-- `Param::ident_name` (syntax/src/ast/node_ext/param.rs:21–28); `none` is the panic of `unwrap`. -/
def paramName (p : Elem) : Option (List Char) :=
  if (nodeChild p .WILDCARD_PAT).isSome then some ['_'] else (nodeChild p .IDENT_PAT).bind bindingName

/-- The rest of `Param::is_self` (param.rs:34–44): the parameter is the first of its list. -/
def firstParam (p : Elem) (up : List Elem) : Bool :=
  match up with
  | l :: _ => decide (l.kind = .PARAM_LIST) && ((nodeChild l .PARAM).any fun q => decide (q.path = p.path))
  | [] => false

/-- unused_variables.rs:67–83, of a parameter with its ancestors: whether it is left out. `none` is the panic of `is_self`. -/
def paramSkipped (p : Elem) (up : List Elem) : Option Bool :=
  (paramName p).map fun n =>
    if n = "self".toList && firstParam p up then true
    else
      match up with
      | l :: f :: _ =>
        if l.kind = .PARAM_LIST && functionKinds.contains f.kind then
          (nodeChild f .BLOCK_EXPR).isNone || (decide (f.kind = .FUN) && (attrTexts f.green).contains "test".toList)
        else true
      | _ => true

/-- unused_variables.rs:37–83, for the owner of a binding: whether the binding is left out. -/
def skipped (i : Elem) (anc : List Elem) (o : Elem) (up : List Elem) : Option Bool :=
  if o.kind = .SCHEMA_FIELD then some true
  else if o.kind = .ITEM_SPEC_PARAM then some true
  else if o.kind = .LET_STMT then letSkipped i anc
  else if o.kind = .PARAM then paramSkipped o up
  else some false

/-- `item_search_scope` (search.rs:107–128) of an identifier pattern. -/
def searchScope (env : Env) (file : Nat) (node : List Elem) : Scope :=
  (identPatScope file env.specs env.specFiles node).getD env.everywhere

/-- `check_unused_ident_pat` (unused_variables.rs:18–95), of an identifier pattern with its ancestors. -/
def checkUnused (env : Env) (file : Nat) : List Elem → Verdict
  | [] => .quiet
  | i :: anc =>
    match bindingName i with
    | none => .quiet
    | some name =>
      if name.head? = some '_' then .quiet
      else if env.variant file (i :: anc) then .quiet
      else
        match firstOf identPatOwners anc with
        | some (o :: up) =>
          match skipped i anc o up with
          | none => .panics
          | some true => .quiet
          | some false =>
            if atLeastOne env.world ⟨file, i.path⟩ name (searchScope env file (i :: anc)) then .quiet
            else .warn (message o.kind name) (i.start, i.stop)
        | _ => .quiet

/-- The edit of the fix (unused_variables.rs:97–118): the pattern is replaced by one with the new name. -/
def fix (i : Elem) (name : List Char) : List Change := [⟨i.start, i.stop, encode ('_' :: name)⟩]

/-! ### Specification -/

/-- The nearest of the nodes around that declares the binding. -/
def OwnedBy (anc : List Elem) (o : Elem) (up : List Elem) : Prop :=
  ∃ mid, anc = mid ++ o :: up ∧ (∀ e ∈ mid, e.kind ∉ identPatOwners) ∧ o.kind ∈ identPatOwners

/-- The name of a parameter: `_` for a wildcard, otherwise the name it binds. -/
def ParamNamed (p : Elem) (n : List Char) : Prop :=
  ((∃ w, nodeChild p .WILDCARD_PAT = some w) ∧ n = ['_']) ∨
    (nodeChild p .WILDCARD_PAT = none ∧ ∃ b, nodeChild p .IDENT_PAT = some b ∧ bindingName b = some n)

/-- Bindings that may be unused: those with an underscore, patterns that are an enum variant, the fields of schemas and the parameters
repeated in specifications, variables of specifications next to an `include`, the receiver of a method, parameters of functions without
a body and of tests. -/
inductive Exempt (env : Env) (file : Nat) (i : Elem) (anc : List Elem) (name : List Char) : Prop where
  | underscore (rest : List Char) : name = '_' :: rest → Exempt env file i anc name
  | variant : env.variant file (i :: anc) = true → Exempt env file i anc name
  | declared (o : Elem) (up : List Elem) : OwnedBy anc o up → o.kind = .SCHEMA_FIELD ∨ o.kind = .ITEM_SPEC_PARAM →
      Exempt env file i anc name
  | included (o b d : Elem) (up inner outer : List Elem) : OwnedBy anc o up → o.kind = .LET_STMT → isMslContext (i :: anc) = true →
      anc = inner ++ b :: outer → (∀ e ∈ inner, e.kind ≠ .BLOCK_EXPR) → b.kind = .BLOCK_EXPR → d ∈ b.descendants →
      d.kind = .INCLUDE_SCHEMA → Exempt env file i anc name
  | receiver (p l : Elem) (up : List Elem) : OwnedBy anc p (l :: up) → p.kind = .PARAM → ParamNamed p "self".toList →
      l.kind = .PARAM_LIST → (∃ q, nodeChild l .PARAM = some q ∧ q.path = p.path) → Exempt env file i anc name
  | bodiless (p l f : Elem) (up : List Elem) : OwnedBy anc p (l :: f :: up) → p.kind = .PARAM → l.kind = .PARAM_LIST →
      f.kind ∈ functionKinds → nodeChild f .BLOCK_EXPR = none → Exempt env file i anc name
  | test (p l f : Elem) (up : List Elem) : OwnedBy anc p (l :: f :: up) → p.kind = .PARAM → l.kind = .PARAM_LIST →
      f.kind = .FUN → HasAttr f.green "test" → Exempt env file i anc name
  | loose (p : Elem) (up : List Elem) : OwnedBy anc p up → p.kind = .PARAM →
      (∀ l f rest, up = l :: f :: rest → l.kind = .PARAM_LIST → f.kind ∉ functionKinds) → Exempt env file i anc name

/-- What the grammar gives around a binding: a `let` of a specification is in a block, a parameter has a name. -/
structure Grammatical (i : Elem) (anc : List Elem) : Prop where
  inBlock : ∀ o up, OwnedBy anc o up → o.kind = .LET_STMT → isMslContext (i :: anc) = true → ∃ b ∈ anc, b.kind = .BLOCK_EXPR
  named : ∀ p up, OwnedBy anc p up → p.kind = .PARAM → ∃ n, ParamNamed p n

/-! ### Lemmas -/

theorem paramName_iff (p : Elem) (n : List Char) : paramName p = some n ↔ ParamNamed p n := by
  unfold paramName ParamNamed
  cases h : nodeChild p .WILDCARD_PAT with
  | some w => simp [eq_comm]
  | none => simp [Option.bind_eq_some_iff]

theorem owned_iff (anc : List Elem) (o : Elem) (up : List Elem) : firstOf identPatOwners anc = some (o :: up) ↔ OwnedBy anc o up := by
  constructor
  · intro h
    induction anc with
    | nil => cases h
    | cons e es ih =>
      rw [firstOf] at h
      split at h
      · rename_i hk
        cases h
        exact ⟨[], rfl, by simp, List.contains_iff_mem.1 hk⟩
      · rename_i hk
        obtain ⟨mid, h1, h2, h3⟩ := ih h
        refine ⟨e :: mid, by rw [h1]; rfl, ?_, h3⟩
        intro x hx
        rcases List.mem_cons.1 hx with rfl | hx
        · exact fun hc => hk (List.contains_iff_mem.2 hc)
        · exact h2 x hx
  · rintro ⟨mid, rfl, h2, h3⟩
    rw [firstOf_skip h2, firstOf_here h3]

theorem firstOf_split {ks : List SyntaxKind} {anc : List Elem} {o : Elem} {up : List Elem} (h : firstOf ks anc = some (o :: up)) :
    ∃ mid, anc = mid ++ o :: up ∧ (∀ e ∈ mid, e.kind ∉ ks) ∧ o.kind ∈ ks := by
  induction anc with
  | nil => cases h
  | cons e es ih =>
    rw [firstOf] at h
    split at h
    · rename_i hk
      cases h
      exact ⟨[], rfl, by simp, List.contains_iff_mem.1 hk⟩
    · rename_i hk
      obtain ⟨mid, h1, h2, h3⟩ := ih h
      refine ⟨e :: mid, by rw [h1]; rfl, ?_, h3⟩
      intro x hx
      rcases List.mem_cons.1 hx with rfl | hx
      · exact fun hc => hk (List.contains_iff_mem.2 hc)
      · exact h2 x hx

theorem firstOf_none {ks : List SyntaxKind} {anc : List Elem} (h : ∀ o up, firstOf ks anc ≠ some (o :: up)) :
    ∀ e ∈ anc, e.kind ∉ ks := by
  induction anc with
  | nil => simp
  | cons e es ih =>
    by_cases hk : e.kind ∈ ks
    · exact absurd (firstOf_here hk) (h e es)
    · intro x hx
      rcases List.mem_cons.1 hx with rfl | hx
      · exact hk
      · refine ih (fun o up ho => h o up ?_) x hx
        rw [← ho]
        exact firstOf_skip (a := [e]) (b := es) (by simpa using hk)

theorem owned_unique {anc : List Elem} {o o' : Elem} {up up' : List Elem} (h : OwnedBy anc o up) (h' : OwnedBy anc o' up') :
    o = o' ∧ up = up' := by
  have := (owned_iff anc o up).2 h
  rw [(owned_iff anc o' up').2 h'] at this
  cases this
  exact ⟨rfl, rfl⟩

theorem mem_functionKinds (k : SyntaxKind) : functionKinds.contains k = true ↔ k ∈ functionKinds := List.contains_iff_mem

/-- What is left out is exempt. -/
theorem skipped_iff (env : Env) (file : Nat) (i : Elem) (anc : List Elem) (name : List Char) (hu : ∀ rest, name ≠ '_' :: rest)
    (hv : env.variant file (i :: anc) = false) (o : Elem) (up : List Elem) (ho : OwnedBy anc o up) (b : Bool)
    (h : skipped i anc o up = some b) : b = true ↔ Exempt env file i anc name := by
  unfold skipped at h
  split at h
  · rename_i hk
    cases h
    exact ⟨fun _ => .declared o up ho (.inl hk), fun _ => rfl⟩
  rename_i hk1
  split at h
  · rename_i hk
    cases h
    exact ⟨fun _ => .declared o up ho (.inr hk), fun _ => rfl⟩
  rename_i hk2
  split at h
  · rename_i hlet
    unfold letSkipped at h
    split at h
    · rename_i hm
      split at h
      · rename_i bl r hb
        cases h
        obtain ⟨mid, m1, m2, m3⟩ := firstOf_split hb
        rw [List.mem_singleton] at m3
        rw [List.any_eq_true]
        constructor
        · rintro ⟨d, hd, hdk⟩
          exact .included o bl d up mid r ho hlet hm m1 (fun e he hc => m2 e he (by rw [hc]; simp)) m3 hd (by simpa using hdk)
        · intro he
          cases he with
          | underscore rest h => exact absurd h (hu rest)
          | variant h => rw [hv] at h; cases h
          | declared o' up' h1 h2 =>
            obtain ⟨rfl, rfl⟩ := owned_unique ho h1
            rcases h2 with h2 | h2
            · exact absurd h2 hk1
            · exact absurd h2 hk2
          | included o' b' d up' inner outer h1 h2 h3 h4 h5 h6 h7 h8 =>
            have hf : firstOf [.BLOCK_EXPR] anc = some (b' :: outer) := by
              rw [h4, firstOf_skip (fun e he hc => h5 e he (by simpa using hc)), firstOf_here (by simp [h6])]
            rw [hf] at hb
            cases hb
            exact ⟨d, h7, by simpa using h8⟩
          | receiver p l up' h1 h2 => obtain ⟨rfl, rfl⟩ := owned_unique ho h1; rw [hlet] at h2; cases h2
          | bodiless p l f up' h1 h2 => obtain ⟨rfl, rfl⟩ := owned_unique ho h1; rw [hlet] at h2; cases h2
          | test p l f up' h1 h2 => obtain ⟨rfl, rfl⟩ := owned_unique ho h1; rw [hlet] at h2; cases h2
          | loose p up' h1 h2 => obtain ⟨rfl, rfl⟩ := owned_unique ho h1; rw [hlet] at h2; cases h2
      · cases h
    · rename_i hm
      cases h
      constructor
      · intro h; cases h
      · intro he
        cases he with
        | underscore rest h => exact absurd h (hu rest)
        | variant h => rw [hv] at h; cases h
        | declared o' up' h1 h2 =>
          obtain ⟨rfl, rfl⟩ := owned_unique ho h1
          rcases h2 with h2 | h2
          · exact absurd h2 hk1
          · exact absurd h2 hk2
        | included o' b' d up' inner outer h1 h2 h3 => exact absurd h3 hm
        | receiver p l up' h1 h2 => obtain ⟨rfl, rfl⟩ := owned_unique ho h1; rw [hlet] at h2; cases h2
        | bodiless p l f up' h1 h2 => obtain ⟨rfl, rfl⟩ := owned_unique ho h1; rw [hlet] at h2; cases h2
        | test p l f up' h1 h2 => obtain ⟨rfl, rfl⟩ := owned_unique ho h1; rw [hlet] at h2; cases h2
        | loose p up' h1 h2 => obtain ⟨rfl, rfl⟩ := owned_unique ho h1; rw [hlet] at h2; cases h2
  rename_i hlet
  split at h
  · rename_i hpar
    unfold paramSkipped at h
    obtain ⟨n, hn, rfl⟩ := Option.map_eq_some_iff.1 h
    have hfirst : firstParam o up = true ↔ ∃ l rest, up = l :: rest ∧ l.kind = .PARAM_LIST ∧ ∃ q, nodeChild l .PARAM = some q ∧ q.path = o.path := by
      unfold firstParam
      cases up with
      | nil => simp
      | cons l rest =>
        simp only [Bool.and_eq_true, decide_eq_true_eq, Option.any_eq_true]
        constructor
        · rintro ⟨h1, q, h2, h3⟩; exact ⟨l, rest, rfl, h1, q, h2, h3⟩
        · rintro ⟨l', rest', he, h1, q, h2, h3⟩; cases he; exact ⟨h1, q, h2, h3⟩
    have hex : Exempt env file i anc name ↔ (n = "self".toList ∧ firstParam o up = true) ∨
        (∃ l f rest, up = l :: f :: rest ∧ l.kind = .PARAM_LIST ∧ f.kind ∈ functionKinds ∧ nodeChild f .BLOCK_EXPR = none) ∨
        (∃ l f rest, up = l :: f :: rest ∧ l.kind = .PARAM_LIST ∧ f.kind = .FUN ∧ HasAttr f.green "test") ∨
        (∀ l f rest, up = l :: f :: rest → l.kind = .PARAM_LIST → f.kind ∉ functionKinds) := by
      constructor
      · intro he
        cases he with
        | underscore rest h => exact absurd h (hu rest)
        | variant h => rw [hv] at h; cases h
        | declared o' up' h1 h2 =>
          obtain ⟨rfl, rfl⟩ := owned_unique ho h1
          rcases h2 with h2 | h2
          · exact absurd h2 hk1
          · exact absurd h2 hk2
        | included o' b' d up' inner outer h1 h2 => obtain ⟨rfl, rfl⟩ := owned_unique ho h1; exact absurd h2 hlet
        | receiver p l up' h1 h2 h3 h4 h5 =>
          obtain ⟨rfl, rfl⟩ := owned_unique ho h1
          rw [← paramName_iff, hn] at h3
          exact .inl ⟨Option.some.inj h3, hfirst.2 ⟨l, up', rfl, h4, h5⟩⟩
        | bodiless p l f up' h1 h2 h3 h4 h5 =>
          obtain ⟨rfl, rfl⟩ := owned_unique ho h1
          exact .inr (.inl ⟨l, f, up', rfl, h3, h4, h5⟩)
        | test p l f up' h1 h2 h3 h4 h5 =>
          obtain ⟨rfl, rfl⟩ := owned_unique ho h1
          exact .inr (.inr (.inl ⟨l, f, up', rfl, h3, h4, h5⟩))
        | loose p up' h1 h2 h3 =>
          obtain ⟨rfl, rfl⟩ := owned_unique ho h1
          exact .inr (.inr (.inr h3))
      · rintro (⟨h1, h2⟩ | ⟨l, f, rest, rfl, h1, h2, h3⟩ | ⟨l, f, rest, rfl, h1, h2, h3⟩ | h)
        · obtain ⟨l, rest, rfl, h3, h4⟩ := hfirst.1 h2
          exact .receiver o l rest ho hpar ((paramName_iff _ _).1 (by rw [hn, h1])) h3 h4
        · exact .bodiless o l f rest ho hpar h1 h2 h3
        · exact .test o l f rest ho hpar h1 h2 h3
        · exact .loose o up ho hpar h
    rw [hex]
    by_cases hs : n = "self".toList ∧ firstParam o up = true
    · rw [if_pos (by rw [hs.2]; simp [hs.1])]
      exact ⟨fun _ => .inl hs, fun _ => rfl⟩
    · rw [if_neg (by rw [Bool.and_eq_true, decide_eq_true_eq]; exact hs)]
      cases up with
      | nil => exact ⟨fun _ => .inr (.inr (.inr fun _ _ _ h => by cases h)), fun _ => rfl⟩
      | cons l up =>
        cases up with
        | nil => exact ⟨fun _ => .inr (.inr (.inr fun _ _ _ h => by cases h)), fun _ => rfl⟩
        | cons f up =>
          dsimp only
          by_cases hc : l.kind = .PARAM_LIST ∧ f.kind ∈ functionKinds
          · rw [if_pos (by rw [Bool.and_eq_true, decide_eq_true_eq, List.contains_iff_mem]; exact hc), Bool.or_eq_true, Bool.and_eq_true,
              Option.isNone_iff_eq_none, decide_eq_true_eq, List.contains_iff_mem, mem_attrTexts]
            constructor
            · rintro (h | ⟨h1, h2⟩)
              · exact .inr (.inl ⟨l, f, up, rfl, hc.1, hc.2, h⟩)
              · exact .inr (.inr (.inl ⟨l, f, up, rfl, hc.1, h1, h2⟩))
            · rintro (h | ⟨_, _, _, he, h1, h2, h3⟩ | ⟨_, _, _, he, h1, h2, h3⟩ | h)
              · exact absurd h hs
              · cases he; exact .inl h3
              · cases he; exact .inr ⟨h2, h3⟩
              · exact absurd hc.2 (h l f up rfl hc.1)
          · rw [if_neg (by rw [Bool.and_eq_true, decide_eq_true_eq, List.contains_iff_mem]; exact hc)]
            refine ⟨fun _ => .inr (.inr (.inr ?_)), fun _ => rfl⟩
            rintro l' f' rest he h1 h2
            cases he
            exact hc ⟨h1, h2⟩
  · rename_i hpar
    cases h
    constructor
    · intro h; cases h
    · intro he
      cases he with
      | underscore rest h => exact absurd h (hu rest)
      | variant h => rw [hv] at h; cases h
      | declared o' up' h1 h2 =>
        obtain ⟨rfl, rfl⟩ := owned_unique ho h1
        rcases h2 with h2 | h2
        · exact absurd h2 hk1
        · exact absurd h2 hk2
      | included o' b' d up' inner outer h1 h2 => obtain ⟨rfl, rfl⟩ := owned_unique ho h1; exact absurd h2 hlet
      | receiver p l up' h1 h2 => obtain ⟨rfl, rfl⟩ := owned_unique ho h1; exact absurd h2 hpar
      | bodiless p l f up' h1 h2 => obtain ⟨rfl, rfl⟩ := owned_unique ho h1; exact absurd h2 hpar
      | test p l f up' h1 h2 => obtain ⟨rfl, rfl⟩ := owned_unique ho h1; exact absurd h2 hpar
      | loose p up' h1 h2 => obtain ⟨rfl, rfl⟩ := owned_unique ho h1; exact absurd h2 hpar

/-- Nothing panics where the grammar has what it has to have. -/
theorem skipped_some {i : Elem} {anc : List Elem} (hg : Grammatical i anc) {o : Elem} {up : List Elem} (ho : OwnedBy anc o up) :
    skipped i anc o up ≠ none := by
  unfold skipped
  split
  · simp
  split
  · simp
  split
  · rename_i hlet
    unfold letSkipped
    split
    · rename_i hm
      split
      · simp
      · rename_i hno
        obtain ⟨b, hb, hk⟩ := hg.inBlock o up ho hlet hm
        exact absurd (by rw [hk]; simp) (firstOf_none (fun o up h => hno o up h) b hb)
    · simp
  split
  · rename_i hpar
    unfold paramSkipped
    rw [Ne, Option.map_eq_none_iff]
    obtain ⟨n, hn⟩ := hg.named o up ho hpar
    rw [(paramName_iff _ _).2 hn]
    simp
  · simp

theorem checkUnused_eq (env : Env) (file : Nat) (i : Elem) (anc : List Elem) (hg : Grammatical i anc) (name : List Char)
    (hname : bindingName i = some name) (o : Elem) (up : List Elem) (ho : OwnedBy anc o up) :
    (Exempt env file i anc name → checkUnused env file (i :: anc) = .quiet) ∧
    (¬ Exempt env file i anc name → checkUnused env file (i :: anc) =
      if atLeastOne env.world ⟨file, i.path⟩ name (searchScope env file (i :: anc)) then .quiet
      else .warn (message o.kind name) (i.start, i.stop)) := by
  unfold checkUnused
  dsimp only
  rw [hname]
  dsimp only
  by_cases hu : name.head? = some '_'
  · rw [if_pos hu]
    refine ⟨fun _ => rfl, fun h => absurd ?_ h⟩
    cases name with
    | nil => cases hu
    | cons c cs => cases hu; exact .underscore cs rfl
  rw [if_neg hu]
  by_cases hv : env.variant file (i :: anc) = true
  · rw [if_pos hv]
    exact ⟨fun _ => rfl, fun h => absurd (.variant hv) h⟩
  rw [if_neg hv, (owned_iff anc o up).2 ho]
  dsimp only
  cases hs : skipped i anc o up with
  | none => exact absurd hs (skipped_some hg ho)
  | some b =>
    have := skipped_iff env file i anc name (fun rest h => hu (by rw [h]; rfl)) (by simpa using hv) o up ho b hs
    cases b with
    | true => exact ⟨fun _ => rfl, fun h => absurd (this.1 rfl) h⟩
    | false => exact ⟨fun h => absurd (this.2 h) (by simp), fun _ => rfl⟩

/-! ### Theorems -/

/-- **C73 (where the check panics).** The check of a name that belongs to a parameter panics if that parameter has no name of its own. -/
theorem C73_panic (env : Env) (file : Nat) (i : Elem) (anc : List Elem) (name : List Char) (hname : bindingName i = some name)
    (hu : ∀ rest, name ≠ '_' :: rest) (hv : env.variant file (i :: anc) = false) (p : Elem) (up : List Elem) (ho : OwnedBy anc p up)
    (hp : p.kind = .PARAM) (hn : ∀ n, ¬ ParamNamed p n) : checkUnused env file (i :: anc) = .panics := by
  have h1 : paramName p = none := by
    cases h : paramName p with
    | none => rfl
    | some n => exact absurd ((paramName_iff _ _).1 h) (hn n)
  have h2 : skipped i anc p up = none := by
    unfold skipped paramSkipped
    rw [hp, h1]
    rfl
  unfold checkUnused
  dsimp only
  rw [hname]
  dsimp only
  rw [if_neg, if_neg (by simp [hv]), (owned_iff anc p up).2 ho]
  · dsimp only
    rw [h2]
  · cases name with
    | nil => simp
    | cons c cs =>
      intro h
      cases h
      exact hu cs rfl

/-- **C73.** What is reported: a binding with a name and an owner that is not exempt, with its range, as what it is, and only if the
search for its usages finds nothing. -/
theorem C73_reported (env : Env) (file : Nat) (i : Elem) (anc : List Elem) (hg : Grammatical i anc) (text : List Char) (range : Nat × Nat)
    (h : checkUnused env file (i :: anc) = .warn text range) :
    ∃ name o up, bindingName i = some name ∧ OwnedBy anc o up ∧ ¬ Exempt env file i anc name ∧
      text = "Unused ".toList ++ (if o.kind = .PARAM ∨ o.kind = .LAMBDA_PARAM then "parameter" else "variable").toList ++
        " '".toList ++ name ++ ['\''] ∧ range = (i.start, i.stop) ∧
      search env.world ⟨file, i.path⟩ name (searchScope env file (i :: anc)) = [] := by
  cases hn : bindingName i with
  | none => unfold checkUnused at h; dsimp only at h; rw [hn] at h; cases h
  | some name =>
    have hown : ∃ o up, firstOf identPatOwners anc = some (o :: up) := by
      by_contra hc
      unfold checkUnused at h
      dsimp only at h
      rw [hn] at h
      dsimp only at h
      split at h
      · cases h
      split at h
      · cases h
      split at h
      · rename_i o up ho
        exact hc ⟨o, up, ho⟩
      · cases h
    obtain ⟨o, up, ho⟩ := hown
    have ho := (owned_iff anc o up).1 ho
    obtain ⟨h1, h2⟩ := checkUnused_eq env file i anc hg name hn o up ho
    by_cases he : Exempt env file i anc name
    · rw [h1 he] at h; cases h
    · rw [h2 he] at h
      split at h
      · cases h
      · rename_i hat
        cases h
        refine ⟨name, o, up, rfl, ho, he, ?_, rfl, ?_⟩
        · have hno : o.kind ≠ .SCHEMA_FIELD ∧ o.kind ≠ .ITEM_SPEC_PARAM :=
            ⟨fun h => he (.declared o up ho (.inl h)), fun h => he (.declared o up ho (.inr h))⟩
          have : ownerWord o.kind = if o.kind = .PARAM ∨ o.kind = .LAMBDA_PARAM then "parameter" else "variable" := by
            have hk : ∀ k ∈ identPatOwners, k ≠ .SCHEMA_FIELD → k ≠ .ITEM_SPEC_PARAM →
                ownerWord k = if k = .PARAM ∨ k = .LAMBDA_PARAM then "parameter" else "variable" := by decide
            exact hk _ ho.choose_spec.2.2 hno.1 hno.2
          unfold message
          rw [this]
        · unfold atLeastOne at hat
          simpa using hat

/-- **C73.** The check does not panic where the grammar has what it has to have. -/
theorem C73_no_panic (env : Env) (file : Nat) (i : Elem) (anc : List Elem) (hg : Grammatical i anc) :
    checkUnused env file (i :: anc) ≠ .panics := by
  unfold checkUnused
  dsimp only
  split
  · simp
  split
  · simp
  split
  · simp
  split
  · rename_i o up ho
    have := skipped_some hg ((owned_iff anc o up).1 ho)
    split
    · rename_i hn
      exact absurd hn this
    · simp
    · split <;> simp
  · simp

/-- **C73.** A binding that is not exempt and that no name refers to is reported. -/
theorem C73_unused (env : Env) (hw : env.world.Sorted) (file : Nat) (i : Elem) (anc : List Elem) (hg : Grammatical i anc)
    (name : List Char) (hname : bindingName i = some name) (o : Elem) (up : List Elem) (ho : OwnedBy anc o up)
    (hex : ¬ Exempt env file i anc name)
    (hnone : ∀ f t n rest, Chain (env.world.tree f) (t :: n :: rest) → t.green.isTok = true → t.green.text = name →
      ¬ Refers env.world ⟨file, i.path⟩ f (n :: rest)) :
    ∃ text, checkUnused env file (i :: anc) = .warn text (i.start, i.stop) := by
  refine ⟨message o.kind name, ?_⟩
  rw [(checkUnused_eq env file i anc hg name hname o up ho).2 hex, if_neg]
  intro hat
  obtain ⟨f, t, n, rest, h1, h0, h2, h3, -⟩ := C62_any_sound env.world hw _ name _ hat
  exact hnone f t n rest h1 h0 h2 h3

/-- **C73.** A binding that a name in the scope of the search refers to is not reported. Left out are names that start right behind a
character of a name, such as `0xFx`. -/
theorem C73_used_partial (env : Env) (hw : env.world.Sorted) (file : Nat) (i : Elem) (anc : List Elem) (name : List Char)
    (hname : bindingName i = some name) (hword : Lexer.IsName name) (f : Nat) (hp : Parsed (env.world.tree f)) (t n : Elem)
    (rest : List Elem) (h : Chain (env.world.tree f) (t :: n :: rest)) (htok : t.green.isTok = true) (hkind : t.kind = .IDENT)
    (htext : t.green.text = name)
    (hb : ∀ pre post, (env.world.tree f).text = pre ++ post → t.start = blen pre → ∀ c, pre.getLast? = some c → isNameChar c = false)
    (hc : Covers (searchScope env file (i :: anc)) f t.start) (hr : Refers env.world ⟨file, i.path⟩ f (n :: rest))
    (text : List Char) (range : Nat × Nat) : checkUnused env file (i :: anc) ≠ .warn text range := by
  have hat := C62_any_partial env.world hw ⟨file, i.path⟩ name hword _ f hp t n rest h htok hkind htext hb hc hr
  unfold checkUnused
  dsimp only
  rw [hname]
  dsimp only
  rw [hat]
  split
  · simp
  split
  · simp
  split
  · split
    · simp
    · simp
    · simp
  · simp

/-- **C73.** A binding that a name of the file finds in the scopes around it is not reported. Left out are the places that the search
does not go to (in the proof of a lemma, in the specification of a loop), and names right behind a character of a name. -/
theorem C73_scopes_partial (env : Env) (hw : env.world.Sorted) (file : Nat) (i : Elem) (anc : List Elem) (name : List Char)
    (hname : bindingName i = some name) (hword : Lexer.IsName name) (hp : Parsed (env.world.tree file))
    (hplain : PlainPatterns (env.world.tree file)) (hitem : Chain (env.world.tree file) (i :: anc))
    (t n p : Elem) (site : List Elem) (h : Chain (env.world.tree file) (t :: n :: p :: site)) (htok : t.green.isTok = true)
    (hkind : t.kind = .IDENT) (htext : t.green.text = name) (hsite : site ≠ [])
    (hb : ∀ pre post, (env.world.tree file).text = pre ++ post → t.start = blen pre → ∀ c, pre.getLast? = some c → isNameChar c = false)
    (inlines others : Elem → List Entry) (outside : List (List Entry)) (allowed : Ns → Bool) (e : Entry)
    (hlook : e ∈ walkScopes file inlines others outside allowed (some name) site) (hpath : e.path = i.path)
    (href : Refers env.world ⟨file, i.path⟩ file (n :: p :: site))
    (hin : ∀ s ∈ site, ∀ x ∈ inlines s, x.path ≠ e.path) (hot : OnlySpecs file env.specs others (i :: anc) site)
    (hout : ∀ l ∈ outside, ∀ x ∈ l, x ≠ e) (hmissed : ∀ s ∈ site, ¬ Missed site s)
    (hhead : headStart site = t.start)
    (hall : identPatScope file env.specs env.specFiles (i :: anc) = none → Covers env.everywhere file t.start)
    (text : List Char) (range : Nat × Nat) : checkUnused env file (i :: anc) ≠ .warn text range := by
  refine C73_used_partial env hw file i anc name hname hword file hp t n (p :: site) h htok hkind htext hb ?_ href text range
  unfold searchScope
  cases hs : identPatScope file env.specs env.specFiles (i :: anc) with
  | none => exact hall hs
  | some scope =>
    have hsc : Chain (env.world.tree file) site := by
      cases h with
      | child h1 _ =>
        cases h1 with
        | child h2 _ =>
          cases h2 with
          | top => exact absurd rfl hsite
          | child h3 _ => exact h3
    rcases C62_local_partial (env.world.tree file) hplain file env.specs env.specFiles (i :: anc) site hitem hsc inlines others outside
      allowed (some name) e hlook (by rw [hpath]; rfl) hin hot hout scope hs with hcov | ⟨s, h1, h2⟩
    · rw [Option.getD_some, ← hhead]
      exact hcov
    · exact absurd h2 (hmissed s h1)

end Verif.Ide.Unused
