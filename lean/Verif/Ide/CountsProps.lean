import Verif.Ide.Counts

/-! C74: when fields, arguments and type arguments are reported. -/

namespace Verif.Ide.Counts
open Verif Verif.Syntax Verif.Nameres
open Verif.Parser (Green)
open Verif.Ide.Rename (exprKinds)
open Verif.Symbols (namedFields FieldList)
open Verif.Outline (NameOf)
open Verif.Ide.Usages (Parsed)
open Verif.Nameres.Full (Is isNode_iff nodeChild_mem)

/-! ### Specification -/

/-- The first child that is a node of one of the kinds. -/
def First (ks : List SyntaxKind) (e c : Elem) : Prop :=
  ∃ pre post, e.children = pre ++ c :: post ∧ (c.green.isTok = false ∧ c.kind ∈ ks) ∧ ∀ x ∈ pre, ¬ (x.green.isTok = false ∧ x.kind ∈ ks)

/-- There is no child that is a node of the kind. -/
def Lacks (k : SyntaxKind) (e : Elem) : Prop := ∀ x ∈ e.children, ¬ Is k x

/-- A field of a literal gives the field of that name: it is written `name: …`, or it is just the name. -/
inductive LitGives (f : Elem) : List Char → Prop where
  | named {n} : First [.NAME_REF] f n → LitGives f n.green.text
  | short {e p s n} : Lacks .NAME_REF f → First exprKinds f e → e.kind = .PATH_EXPR → First [.PATH] e p → Lacks .PATH p →
      First [.PATH_SEGMENT] p s → First [.NAME_REF] s n → LitGives f n.green.text

/-- A field of a pattern mentions the field of that name: it is written `name: …`, or it binds a variable of that name. -/
inductive PatGives (f : Elem) : List Char → Prop where
  | named {n} : First [.NAME_REF] f n → PatGives f n.green.text
  | short {i n} : Lacks .NAME_REF f → First [.IDENT_PAT] f i → First [.NAME] i n → PatGives f n.green.text

/-- The literal gives the field. -/
def Gives (lit : Elem) (name : List Char) : Prop :=
  ∃ l f, First [.STRUCT_LIT_FIELD_LIST] lit l ∧ f ∈ l.children ∧ Is .STRUCT_LIT_FIELD f ∧ LitGives f name

/-- The pattern mentions the field. -/
def Mentions (pat : Elem) (name : List Char) : Prop :=
  ∃ l f, First [.STRUCT_PAT_FIELD_LIST] pat l ∧ f ∈ l.children ∧ Is .STRUCT_PAT_FIELD f ∧ PatGives f name

/-- The pattern has `..` among its fields. -/
def Rest (pat : Elem) : Prop :=
  ∃ l f r, First [.STRUCT_PAT_FIELD_LIST] pat l ∧ f ∈ l.children ∧ Is .STRUCT_PAT_FIELD f ∧ r ∈ f.children ∧ Is .REST_PAT r

/-- The names of the fields of a struct or variant, in their order. -/
def FieldNames (o : Elem) (names : List (List Char)) : Prop :=
  (∃ l, FieldList o l ∧ List.Forall₂ (fun f w => ∃ n, First [.NAME] f n ∧ n.green.text = w) (l.children.filter (isNode .NAMED_FIELD)) names) ∨
    (∀ l, ¬ FieldList o l) ∧ names = []

/-- What is left of a list without the elements for which something holds, in the same order. -/
def Left {α : Type} [BEq α] (l : List α) (done : α → Prop) (rest : List α) : Prop :=
  rest.Sublist l ∧ (∀ x ∈ rest, ¬ done x) ∧ ∀ x ∈ l, ¬ done x → rest.count x = l.count x

/-- Names as they are listed in a message. -/
def listed (names : List (List Char)) : List Char := List.intercalate ", ".toList (names.map fun n => "`".toList ++ n ++ "`".toList)

/-! ### Children -/

theorem childOf_iff {ks : List SyntaxKind} {e c : Elem} : childOf e ks = some c ↔ First ks e c := by
  unfold childOf First
  rw [List.find?_eq_some_iff_append]
  constructor
  · rintro ⟨h1, pre, post, h2, h3⟩
    refine ⟨pre, post, h2, by simpa using h1, fun x hx => ?_⟩
    have := h3 x hx
    cases h4 : x.green.isTok <;> simp_all
  · rintro ⟨pre, post, h2, h1, h3⟩
    refine ⟨by simpa using h1, pre, post, h2, fun x hx => ?_⟩
    have := h3 x hx
    cases h4 : x.green.isTok <;> simp_all

theorem nodeChild_iff {k : SyntaxKind} {e c : Elem} : nodeChild e k = some c ↔ First [k] e c := by
  rw [← childOf_iff]
  unfold nodeChild childOf
  have : (isNode k) = fun c : Elem => !c.green.isTok && [k].contains c.kind := by
    funext c
    unfold isNode
    congr 1
    simp
  rw [this]

theorem lacks_iff {k : SyntaxKind} {e : Elem} : nodeChild e k = none ↔ Lacks k e := by
  unfold nodeChild Lacks
  rw [List.find?_eq_none]
  refine forall₂_congr fun x _ => not_congr (isNode_iff _ _)

theorem First.mem {ks : List SyntaxKind} {e c : Elem} (h : First ks e c) : c ∈ e.children := by
  obtain ⟨pre, post, h1, -⟩ := h
  rw [h1]
  simp

theorem First.kind {k : SyntaxKind} {e c : Elem} (h : First [k] e c) : c.kind = k := by
  obtain ⟨pre, post, -, h1, -⟩ := h
  simpa using h1.2

/-- In the tree of a text, the words of a name are its text. -/
theorem ref_text {g : Green} (hp : Parsed g) {n : Elem} {l : List Elem} (hn : Chain g (n :: l)) (hk : n.kind = .NAME_REF) :
    nameRefText n = n.green.text := by
  obtain ⟨gr, debug, text, fuel, errs, h1, h2, h3, h4⟩ := hp
  rcases (Verif.Syntax.C72_names h1 h2 h3 h4 hn).2 hk with ⟨w, hw⟩ | ⟨c, w, -, hw⟩ <;>
    simp [nameRefText, tokenChild, Elem.children, hw, placed, Green.children, isToken, Elem.kind, Green.kind, Green.isTok, Green.text,
      Green.leaves, Green.leavesList]

theorem name_text {g : Green} (hp : Parsed g) {e n : Elem} {l : List Elem} (he : Chain g (e :: l)) (hn : First [.NAME] e n) :
    bindingName e = some n.green.text := by
  obtain ⟨w, hw, -⟩ := Verif.Symbols.parsed_ident hp (.child he hn.mem) hn.kind
  unfold bindingName
  rw [nodeChild_iff.2 hn]
  simp [tokenChild, Elem.children, hw, placed, Green.children, isToken, Elem.kind, Green.kind, Green.isTok, Green.text,
    Green.leaves, Green.leavesList]

theorem litFieldName_iff {g : Green} (hp : Parsed g) {f : Elem} {l : List Elem} (hf : Chain g (f :: l)) (w : List Char) :
    litFieldName f = some w ↔ LitGives f w := by
  constructor
  · intro h
    unfold litFieldName at h
    split at h
    · next n hn =>
      rw [nodeChild_iff] at hn
      rw [ref_text hp (.child hf hn.mem) hn.kind, Option.some.injEq] at h
      subst h
      exact .named hn
    · next hn =>
      rw [lacks_iff] at hn
      split at h <;> [skip; cases h]
      next e he =>
      rw [childOf_iff] at he
      split at h <;> [skip; cases h]
      next hk =>
      split at h <;> [skip; cases h]
      next p hpath =>
      rw [nodeChild_iff] at hpath
      split at h <;> [skip; cases h]
      next n hs =>
      unfold pathNameRef at hs
      obtain ⟨s, hs1, hs2⟩ := Option.bind_eq_some_iff.1 hs
      rw [nodeChild_iff] at hs1 hs2
      split at h <;> [skip; cases h]
      next hq =>
      rw [Option.isNone_iff_eq_none, lacks_iff] at hq
      rw [ref_text hp (.child (.child (.child (.child hf he.mem) hpath.mem) hs1.mem) hs2.mem) hs2.kind, Option.some.injEq] at h
      subst h
      exact .short hn he hk hpath hq hs1 hs2
  · intro h
    unfold litFieldName
    cases h with
    | @named n hn => rw [nodeChild_iff.2 hn]; exact congrArg some (ref_text hp (.child hf hn.mem) hn.kind)
    | @short e p s n hn he hk hpath hq hs1 hs2 =>
      rw [lacks_iff.2 hn]
      dsimp only
      rw [childOf_iff.2 he]
      dsimp only
      rw [if_pos hk, nodeChild_iff.2 hpath]
      dsimp only
      have : pathNameRef p = some n := by
        unfold pathNameRef
        rw [nodeChild_iff.2 hs1]
        exact nodeChild_iff.2 hs2
      rw [this, lacks_iff.2 hq]
      exact congrArg some (ref_text hp (.child (.child (.child (.child hf he.mem) hpath.mem) hs1.mem) hs2.mem) hs2.kind)

theorem patFieldName_iff {g : Green} (hp : Parsed g) {f : Elem} {l : List Elem} (hf : Chain g (f :: l)) (w : List Char) :
    patFieldName f = some w ↔ PatGives f w := by
  constructor
  · intro h
    unfold patFieldName at h
    split at h
    · next n hn =>
      rw [nodeChild_iff] at hn
      rw [ref_text hp (.child hf hn.mem) hn.kind, Option.some.injEq] at h
      subst h
      exact .named hn
    · next hn =>
      rw [lacks_iff] at hn
      split at h <;> [skip; cases h]
      next i hi =>
      rw [nodeChild_iff] at hi
      have h' := h
      unfold bindingName at h
      cases hx : nodeChild i .NAME with
      | none => rw [hx] at h; cases h
      | some n =>
        rw [nodeChild_iff] at hx
        rw [name_text hp (.child hf hi.mem) hx, Option.some.injEq] at h'
        subst h'
        exact .short hn hi hx
  · intro h
    unfold patFieldName
    cases h with
    | @named n hn => rw [nodeChild_iff.2 hn]; exact congrArg some (ref_text hp (.child hf hn.mem) hn.kind)
    | @short i n hn hi hx =>
      rw [lacks_iff.2 hn]
      dsimp only
      rw [nodeChild_iff.2 hi]
      exact name_text hp (.child hf hi.mem) hx

theorem mem_given {g : Green} (hp : Parsed g) {lit : Elem} {up : List Elem} (hc : Chain g (lit :: up)) (w : List Char) :
    w ∈ (litFields lit).filterMap litFieldName ↔ Gives lit w := by
  rw [List.mem_filterMap]
  unfold litFields
  constructor
  · rintro ⟨f, hf, hw⟩
    split at hf <;> [skip; cases hf]
    next l hl =>
    rw [nodeChild_iff] at hl
    obtain ⟨h1, h2⟩ := List.mem_filter.1 hf
    exact ⟨l, f, hl, h1, (isNode_iff _ _).1 h2, (litFieldName_iff hp (.child (.child hc hl.mem) h1) w).1 hw⟩
  · rintro ⟨l, f, hl, h1, h2, h3⟩
    refine ⟨f, ?_, (litFieldName_iff hp (.child (.child hc hl.mem) h1) w).2 h3⟩
    rw [nodeChild_iff.2 hl]
    exact List.mem_filter.2 ⟨h1, (isNode_iff _ _).2 h2⟩

theorem mem_patFields {pat f : Elem} : f ∈ patFields pat ↔ ∃ l, First [.STRUCT_PAT_FIELD_LIST] pat l ∧ f ∈ l.children ∧ Is .STRUCT_PAT_FIELD f := by
  unfold patFields
  constructor
  · intro hf
    split at hf <;> [skip; cases hf]
    next l hl =>
    rw [nodeChild_iff] at hl
    obtain ⟨h1, h2⟩ := List.mem_filter.1 hf
    exact ⟨l, hl, h1, (isNode_iff _ _).1 h2⟩
  · rintro ⟨l, hl, h1, h2⟩
    rw [nodeChild_iff.2 hl]
    exact List.mem_filter.2 ⟨h1, (isNode_iff _ _).2 h2⟩

theorem mem_mentioned {g : Green} (hp : Parsed g) {pat : Elem} {up : List Elem} (hc : Chain g (pat :: up)) (w : List Char) :
    w ∈ (patFields pat).filterMap patFieldName ↔ Mentions pat w := by
  rw [List.mem_filterMap]
  constructor
  · rintro ⟨f, hf, hw⟩
    obtain ⟨l, h1, h2, h3⟩ := mem_patFields.1 hf
    exact ⟨l, f, h1, h2, h3, (patFieldName_iff hp (.child (.child hc h1.mem) h2) w).1 hw⟩
  · rintro ⟨l, f, h1, h2, h3, h4⟩
    exact ⟨f, mem_patFields.2 ⟨l, h1, h2, h3⟩, (patFieldName_iff hp (.child (.child hc h1.mem) h2) w).2 h4⟩

theorem rest_iff {pat : Elem} : ((patFields pat).any fun f => (nodeChild f .REST_PAT).isSome) = true ↔ Rest pat := by
  rw [List.any_eq_true]
  constructor
  · rintro ⟨f, hf, hr⟩
    obtain ⟨l, h1, h2, h3⟩ := mem_patFields.1 hf
    obtain ⟨r, hr⟩ := Option.isSome_iff_exists.1 hr
    have := nodeChild_iff.1 hr
    obtain ⟨h4, h5⟩ := nodeChild_mem hr
    exact ⟨l, f, r, h1, h2, h3, h4, h5⟩
  · rintro ⟨l, f, r, h1, h2, h3, h4, h5⟩
    refine ⟨f, mem_patFields.2 ⟨l, h1, h2, h3⟩, ?_⟩
    unfold nodeChild
    rw [List.find?_isSome]
    exact ⟨r, h4, (isNode_iff _ _).2 h5⟩

theorem fieldList_find {o l : Elem} (h : FieldList o l) : namedFields o = l.children.filter (isNode .NAMED_FIELD) := by
  obtain ⟨pre, post, h2, h3, h4⟩ := h
  unfold namedFields
  have h5 := (isNode_iff _ _).2 h3
  have : o.children.find? (fun c => isNode .NAMED_FIELD_LIST c || isNode .TUPLE_FIELD_LIST c) = some l := by
    rw [List.find?_eq_some_iff_append]
    refine ⟨by simp [h5], pre, post, h2, fun x hx => ?_⟩
    have := h4 x hx
    simpa [← isNode_iff] using this
  rw [this]
  dsimp only
  rw [if_pos h5]

theorem mapM_names {g : Green} (hp : Parsed g) {fs : List Elem} {ws : List (List Char)} (hfs : ∀ f ∈ fs, ∃ l, Chain g (f :: l))
    (h : List.Forall₂ (fun f w => ∃ n, First [.NAME] f n ∧ n.green.text = w) fs ws) : fs.mapM bindingName = some ws := by
  induction h with
  | nil => rfl
  | @cons f w fs ws h1 h2 ih =>
    obtain ⟨n, hn, rfl⟩ := h1
    obtain ⟨l, hl⟩ := hfs f (List.mem_cons_self ..)
    rw [List.mapM_cons, name_text hp hl hn, ih fun f hf => hfs f (List.mem_cons_of_mem _ hf)]
    rfl

theorem declaredNames_of {g : Green} (hp : Parsed g) {o : Elem} {up : List Elem} (hc : Chain g (o :: up)) {names : List (List Char)}
    (h : FieldNames o names) : declaredNames o = some names := by
  unfold declaredNames
  rcases h with ⟨l, hl, h⟩ | ⟨h, rfl⟩
  · rw [fieldList_find hl]
    refine mapM_names hp (fun f hf => ?_) h
    obtain ⟨pre, post, h2, -⟩ := hl
    exact ⟨_, .child (.child hc (by rw [h2]; simp)) (List.mem_filter.1 hf).1⟩
  · have : namedFields o = [] := by
      rw [List.eq_nil_iff_forall_not_mem]
      intro f hf
      obtain ⟨l, hl, -⟩ := (Verif.Symbols.fieldList_iff o f).1 hf
      exact h l hl
    rw [this]
    rfl

theorem missing_left {declared given : List (List Char)} {done : List Char → Prop} (h : ∀ w, w ∈ given ↔ done w) :
    Left declared done (missing declared given) := by
  refine ⟨List.filter_sublist, fun x hx hd => ?_, fun x hx hd => ?_⟩
  · have := (List.mem_filter.1 hx).2
    rw [Bool.not_eq_true', List.contains_eq_mem, decide_eq_false_iff_not, h] at this
    exact this hd
  · unfold missing
    rw [List.count_filter]
    rw [Bool.not_eq_true', List.contains_eq_mem, decide_eq_false_iff_not, h]
    exact hd

theorem missing_nil {declared given : List (List Char)} {done : List Char → Prop} (h : ∀ w, w ∈ given ↔ done w) :
    (missing declared given).isEmpty = true ↔ ∀ w ∈ declared, done w := by
  unfold missing
  rw [List.isEmpty_iff, List.filter_eq_nil_iff]
  refine forall₂_congr fun w _ => ?_
  rw [← h]
  simp

theorem quoted_listed (names : List (List Char)) : quoted names = listed names := by
  induction names with
  | nil => rfl
  | cons n ns ih =>
    cases ns with
    | nil => simp [quoted, listed, List.intercalate]
    | cons m ms =>
      rw [quoted, ih]
      · simp [listed, List.intercalate]
      · simp

/-! ### Fields -/

/-- **C74 (literals).** If the path of a struct literal means a struct or variant, the literal is reported exactly if it leaves out one
of the declared fields. There is one error then; it is at the path and lists the fields left out, all of them, in the order of the
declaration. -/
theorem C74_literal {g g' : Green} (hp : Parsed g) (hp' : Parsed g') (env : Env) {lit p o : Elem} {up up' : List Elem}
    (hc : Chain g (lit :: up)) (hpath : First [.PATH] lit p) (hr : env.fields (p :: lit :: up) = some o) (ho : Chain g' (o :: up'))
    {names : List (List Char)} (hn : FieldNames o names) :
    ((∀ w ∈ names, Gives lit w) → checkLit env (lit :: up) = some []) ∧
    ((∃ w ∈ names, ¬ Gives lit w) → ∃ left, Left names (Gives lit) left ∧ left ≠ [] ∧
      checkLit env (lit :: up) = some [⟨"Missing field".toList ++ (if left.length = 1 then [] else ['s']) ++ " for `".toList ++ p.green.text ++
        "` initializer: ".toList ++ listed left, (p.start, p.stop)⟩]) := by
  have hg := mem_given hp hc
  have e : checkLit env (lit :: up) = some (if (missing names ((litFields lit).filterMap litFieldName)).isEmpty then [] else
      [⟨litMessage p.green.text (missing names ((litFields lit).filterMap litFieldName)), rangeOf p⟩]) := by
    unfold checkLit
    dsimp only
    rw [nodeChild_iff.2 hpath]
    dsimp only
    rw [hr]
    dsimp only
    rw [declaredNames_of hp' ho hn]
    rfl
  rw [e]
  refine ⟨fun h => by rw [if_pos ((missing_nil hg).2 h)], fun h => ?_⟩
  have hne : ¬ (missing names ((litFields lit).filterMap litFieldName)).isEmpty = true := by
    rw [missing_nil hg]
    obtain ⟨w, h1, h2⟩ := h
    exact fun h => h2 (h w h1)
  refine ⟨_, missing_left hg, fun h => hne (by rw [h]; rfl), ?_⟩
  rw [if_neg hne, litMessage, quoted_listed]
  congr 3
  split <;> simp

/-- **C74 (patterns).** If the path of a struct pattern means a struct or variant, the pattern is reported exactly if it has no `..`
and does not mention one of the declared fields. There is one error then; it is at the pattern and lists the fields not mentioned, all
of them, in the order of the declaration. -/
theorem C74_pattern {g g' : Green} (hp : Parsed g) (hp' : Parsed g') (env : Env) {pat p o : Elem} {up up' : List Elem}
    (hc : Chain g (pat :: up)) (hpath : First [.PATH] pat p) (hr : env.fields (p :: pat :: up) = some o) (ho : Chain g' (o :: up'))
    (hk : o.kind = .STRUCT ∨ o.kind = .VARIANT) {names : List (List Char)} (hn : FieldNames o names) :
    (Rest pat ∨ (∀ w ∈ names, Mentions pat w) → checkPat env (pat :: up) = some []) ∧
    (¬ Rest pat → (∃ w ∈ names, ¬ Mentions pat w) → ∃ left who, Left names (Mentions pat) left ∧ left ≠ [] ∧
      (o.kind = .STRUCT ∧ who = "Struct".toList ∨ o.kind = .VARIANT ∧ who = "Enum variant".toList) ∧
      checkPat env (pat :: up) = some [⟨who ++ " pattern does not mention field".toList ++ (if left.length = 1 then [] else ['s']) ++
        " ".toList ++ listed left, (pat.start, pat.stop)⟩]) := by
  have hg := mem_mentioned hp hc
  have e : ¬ Rest pat → checkPat env (pat :: up) = some (if (missing names ((patFields pat).filterMap patFieldName)).isEmpty then [] else
      [⟨patMessage o (missing names ((patFields pat).filterMap patFieldName)), rangeOf pat⟩]) := by
    intro hrest
    unfold checkPat
    dsimp only
    rw [if_neg (mt rest_iff.1 hrest), nodeChild_iff.2 hpath]
    dsimp only
    rw [hr]
    dsimp only
    rw [declaredNames_of hp' ho hn]
    rfl
  constructor
  · intro h
    by_cases hrest : Rest pat
    · unfold checkPat
      dsimp only
      rw [if_pos (rest_iff.2 hrest)]
    · rw [e hrest, if_pos ((missing_nil hg).2 (h.resolve_left hrest))]
  · intro hrest h
    have hne : ¬ (missing names ((patFields pat).filterMap patFieldName)).isEmpty = true := by
      rw [missing_nil hg]
      obtain ⟨w, h1, h2⟩ := h
      exact fun h => h2 (h w h1)
    refine ⟨_, ownerWord o, missing_left hg, fun h => hne (by rw [h]; rfl), ?_, ?_⟩
    · rcases hk with hk | hk
      · exact .inl ⟨hk, by simp [ownerWord, hk]⟩
      · exact .inr ⟨hk, by simp [ownerWord, hk]⟩
    · rw [e hrest, if_neg hne, patMessage, quoted_listed]
      congr 3
      split <;> simp

/-- **C74 (unresolved).** If the path of a literal or pattern means neither a struct nor a variant, nothing is reported here. -/
theorem C74_unresolved (env : Env) {e p : Elem} {up : List Elem} (hpath : First [.PATH] e p) (hr : env.fields (p :: e :: up) = none) :
    checkLit env (e :: up) = some [] ∧ checkPat env (e :: up) = some [] ∧ checkTuple env (e :: up) = some [] := by
  refine ⟨?_, ?_, ?_⟩
  · simp [checkLit, nodeChild_iff.2 hpath, hr]
  · simp [checkPat, nodeChild_iff.2 hpath, hr]
  · simp [checkTuple, nodeChild_iff.2 hpath, hr]

/-- The fields of a tuple struct, in their order. -/
def TupleOf (o : Elem) (fs : List Elem) : Prop :=
  (∃ pre l post, o.children = pre ++ l :: post ∧ Is .TUPLE_FIELD_LIST l ∧ (∀ x ∈ pre, ¬ Is .NAMED_FIELD_LIST x ∧ ¬ Is .TUPLE_FIELD_LIST x) ∧
    fs = l.children.filter (isNode .TUPLE_FIELD)) ∨
  (∀ pre l post, o.children = pre ++ l :: post → (∀ x ∈ pre, ¬ Is .NAMED_FIELD_LIST x ∧ ¬ Is .TUPLE_FIELD_LIST x) → ¬ Is .TUPLE_FIELD_LIST l) ∧ fs = []

theorem tupleFields_of {o : Elem} {fs : List Elem} (h : TupleOf o fs) : tupleFields o = fs := by
  unfold tupleFields
  rcases h with ⟨pre, l, post, h1, h2, h3, rfl⟩ | ⟨h, rfl⟩
  · have h5 := (isNode_iff _ _).2 h2
    have : o.children.find? (fun c => isNode .NAMED_FIELD_LIST c || isNode .TUPLE_FIELD_LIST c) = some l := by
      rw [List.find?_eq_some_iff_append]
      refine ⟨by simp [h5], pre, post, h1, fun x hx => ?_⟩
      have := h3 x hx
      simpa [← isNode_iff] using this
    rw [this]
    dsimp only
    rw [if_pos h5]
  · split
    · next l hl =>
      obtain ⟨h1, pre, post, h2, h3⟩ := List.find?_eq_some_iff_append.1 hl
      split
      · next hk =>
        refine absurd ((isNode_iff _ _).1 hk) (h pre l post h2 fun x hx => ?_)
        have := h3 x hx
        simpa [← isNode_iff] using this
      · rfl
    · rfl

/-- The patterns between the parentheses. -/
def Inner (pat : Elem) : List Elem := pat.children.filter fun c => !c.green.isTok && decide (c.kind ∈ patKinds)

/-- **C74 (tuple patterns, partial).** If the path of a tuple pattern means a struct or variant, the pattern is reported exactly if it
has no `..` and fewer patterns than there are fields. There is one error then, at the pattern, with both numbers. Missing are patterns
with too many fields, see `C74_tuple_fails`. -/
theorem C74_tuple_partial (env : Env) {pat p o : Elem} {up : List Elem} (hpath : First [.PATH] pat p)
    (hr : env.fields (p :: pat :: up) = some o) (hk : o.kind = .STRUCT ∨ o.kind = .VARIANT) {fs : List Elem} (hf : TupleOf o fs) :
    ((∃ r ∈ Inner pat, r.kind = .REST_PAT) ∨ fs.length ≤ (Inner pat).length → checkTuple env (pat :: up) = some []) ∧
    ((∀ r ∈ Inner pat, r.kind ≠ .REST_PAT) → (Inner pat).length < fs.length → ∃ who,
      (o.kind = .STRUCT ∧ who = "Struct" ∨ o.kind = .VARIANT ∧ who = "Enum variant") ∧
      checkTuple env (pat :: up) = some [⟨who.toList ++ " pattern does not match its declaration: expected ".toList ++
        (toString fs.length).toList ++ " fields, found ".toList ++ (toString (Inner pat).length).toList, (pat.start, pat.stop)⟩]) := by
  have hi : tuplePats pat = Inner pat := by
    unfold tuplePats Inner
    congr 1
    funext c
    rw [List.contains_eq_mem]
  unfold checkTuple
  dsimp only
  rw [nodeChild_iff.2 hpath]
  dsimp only
  rw [hr, hi]
  dsimp only
  rw [tupleFields_of hf]
  constructor
  · intro h
    split
    · rfl
    · next hrest =>
      rw [if_neg]
      rcases h with ⟨r, h1, h2⟩ | h
      · exact absurd (List.any_eq_true.2 ⟨r, h1, by simp [h2]⟩) hrest
      · omega
  · intro h1 h2
    rw [if_neg, if_pos h2]
    · rcases hk with hk | hk
      · exact ⟨"Struct", .inl ⟨hk, rfl⟩, by simp [ownerWord, hk, digits, rangeOf]⟩
      · exact ⟨"Enum variant", .inr ⟨hk, rfl⟩, by simp [ownerWord, hk, digits, rangeOf]⟩
    · rw [List.any_eq_true]
      rintro ⟨r, h3, h4⟩
      exact h1 r h3 (by simpa using h4)

end Verif.Ide.Counts
