import Verif.Ide.UsagesOnce
import Verif.Nameres.Scopes

/-! Where the usages of a local name are searched (ide-db/src/search.rs:107–160), and whether that is everywhere the name can be
used. -/

namespace Verif.Ide.Usages
open Verif.Parser (Green)
open Verif.Syntax
open Verif.Nameres

/-! ### The scope of a search -/

/-- `IdentPatOwner` (syntax/src/ast/generated/nodes.rs:2475–2484). -/
def identPatOwners : List SyntaxKind :=
  [.FOR_CONDITION, .ITEM_SPEC_PARAM, .LAMBDA_PARAM, .LET_STMT, .MATCH_ARM, .PARAM, .QUANT_BINDING, .SCHEMA_FIELD]

/-- `AnyFun` (generated/nodes.rs:2383–2388). -/
def functionKinds : List SyntaxKind := [.FUN, .LEMMA, .SPEC_FUN, .SPEC_INLINE_FUN]

/-- The first node of a kind, with its ancestors. -/
def firstOf (kinds : List SyntaxKind) : List Elem → Option (List Elem)
  | [] => none
  | e :: es => if kinds.contains e.kind then some (e :: es) else firstOf kinds es

/-- `add_range` (search.rs:264–273). -/
def addRange : Scope → Nat → Nat × Nat → Scope
  | [], file, r => [(file, some [r])]
  | (f, rs) :: s, file, r => if f = file then (f, rs.map (· ++ [r])) :: s else (f, rs) :: addRange s file r

/-- search.rs:137–147: the block of the function and its specifications. -/
def paramScope (file : Nat) (specs : List (Nat × (Nat × Nat))) (f : Elem) : Scope :=
  specs.foldl (fun s r => addRange s r.1 r.2)
    (match nodeChild f .BLOCK_EXPR with
      | some b => addRange [] file (b.start, b.stop)
      | none => [])

/-- search.rs:133–159 for the owner of the binding. `specs` are the places of `get_item_specs_for_fun`; `all` are the ancestors of
the binding; `spec files` are those of `from_module_and_module_spec`. Where the code unwraps the parent of a lambda parameter or
of a condition, which the grammar always gives, there is `none` here. -/
def ownerScope (file : Nat) (specs : Elem → List (Nat × (Nat × Nat))) (specFiles : List Nat) (all : List Elem) (o : Elem)
    (up : List Elem) : Option Scope :=
  if o.kind = .PARAM then
    match up with
    | l :: f :: _ => if l.kind = .PARAM_LIST && functionKinds.contains f.kind then some (paramScope file (specs f) f) else none
    | _ => none
  else if o.kind = .LAMBDA_PARAM then
    match up with
    | _ :: f :: _ => if f.kind = .LAMBDA_EXPR then some [(file, some [(f.start, f.stop)])] else none
    | _ => none
  else if o.kind = .LET_STMT then
    match firstOf [.FUN] all with
    | some (f :: _) => some [(file, some [(f.start, f.stop)])]
    | _ => none
  else if o.kind = .FOR_CONDITION then
    match up with
    | f :: _ =>
      if f.kind = .FOR_EXPR then (childOf f [.BLOCK_EXPR, .INLINE_EXPR]).map fun b => [(file, some [(b.start, b.stop)])] else none
    | _ => none
  else if o.kind = .MATCH_ARM then some [(file, some [(o.start, o.stop)])]
  else some ((file, none) :: specFiles.map fun f => (f, none))

/-- `ident_pat_search_scope` (search.rs:130–160), for a binding with its ancestors. With `none` the search goes through all files
of the packages that depend on the one of the binding (search.rs:127). -/
def identPatScope (file : Nat) (specs : Elem → List (Nat × (Nat × Nat))) (specFiles : List Nat) : List Elem → Option Scope
  | [] => none
  | _ :: anc =>
    if anc.any (isNode .MODULE) then
      match firstOf identPatOwners anc with
      | some (o :: up) => ownerScope file specs specFiles anc o up
      | _ => none
    else none

/-! ### Lemmas -/

theorem firstOf_skip {kinds : List SyntaxKind} {a b : List Elem} (h : ∀ e ∈ a, e.kind ∉ kinds) :
    firstOf kinds (a ++ b) = firstOf kinds b := by
  induction a with
  | nil => rfl
  | cons x a ih =>
    rw [List.cons_append, firstOf, if_neg, ih fun e he => h e (by simp [he])]
    have := h x (by simp)
    simpa using this

theorem firstOf_here {kinds : List SyntaxKind} {e : Elem} {es : List Elem} (h : e.kind ∈ kinds) :
    firstOf kinds (e :: es) = some (e :: es) := by
  rw [firstOf, if_pos]
  simpa using h

theorem firstOf_mem {kinds : List SyntaxKind} {l : List Elem} {f : Elem} {r : List Elem} (h : firstOf kinds l = some (f :: r)) :
    f ∈ l := by
  induction l with
  | nil => cases h
  | cons e es ih =>
    rw [firstOf] at h
    split at h
    · cases h; simp
    · exact List.mem_cons_of_mem _ (ih h)

theorem covers_single {file o : Nat} {r : Nat × Nat} (h1 : r.1 ≤ o) (h2 : o ≤ r.2) : Covers [(file, some [r])] file o :=
  ⟨some [r], by simp, fun ranges hr => by cases hr; exact ⟨r, by simp, h1, h2⟩⟩

theorem covers_add {scope : Scope} {file : Nat} {r : Nat × Nat} {f o : Nat}
    (h : Covers scope f o ∨ (f = file ∧ r.1 ≤ o ∧ o ≤ r.2)) : Covers (addRange scope file r) f o := by
  induction scope with
  | nil =>
    rcases h with ⟨rs, hm, -⟩ | ⟨rfl, h1, h2⟩
    · cases hm
    · exact covers_single h1 h2
  | cons x scope ih =>
    obtain ⟨f', rs'⟩ := x
    rw [addRange]
    by_cases hf : f' = file
    · rw [if_pos hf]
      rcases h with ⟨rs, hm, hc⟩ | ⟨rfl, h1, h2⟩
      · rcases List.mem_cons.1 hm with hm | hm
        · cases hm
          refine ⟨rs'.map (· ++ [r]), by simp, ?_⟩
          intro ranges hr
          obtain ⟨old, ho, rfl⟩ := Option.map_eq_some_iff.1 hr
          obtain ⟨q, hq, hq'⟩ := hc old ho
          exact ⟨q, List.mem_append_left _ hq, hq'⟩
        · exact ⟨rs, List.mem_cons_of_mem _ hm, hc⟩
      · subst hf
        refine ⟨rs'.map (· ++ [r]), by simp, ?_⟩
        intro ranges hr
        obtain ⟨old, -, rfl⟩ := Option.map_eq_some_iff.1 hr
        exact ⟨r, by simp, h1, h2⟩
    · rw [if_neg hf]
      have key : Covers scope f o ∨ (f = file ∧ r.1 ≤ o ∧ o ≤ r.2) ∨ ∃ rs, (f, rs) = (f', rs') ∧
          ∀ ranges, rs = some ranges → ∃ q ∈ ranges, q.1 ≤ o ∧ o ≤ q.2 := by
        rcases h with ⟨rs, hm, hc⟩ | h
        · rcases List.mem_cons.1 hm with hm | hm
          · exact .inr (.inr ⟨rs, hm, hc⟩)
          · exact .inl ⟨rs, hm, hc⟩
        · exact .inr (.inl h)
      rcases key with h | h | ⟨rs, hm, hc⟩
      · obtain ⟨rs, hm, hc⟩ := ih (.inl h)
        exact ⟨rs, List.mem_cons_of_mem _ hm, hc⟩
      · obtain ⟨rs, hm, hc⟩ := ih (.inr h)
        exact ⟨rs, List.mem_cons_of_mem _ hm, hc⟩
      · exact ⟨rs, by rw [hm]; simp, hc⟩

theorem covers_fold {specs : List (Nat × (Nat × Nat))} {scope : Scope} {f o : Nat}
    (h : Covers scope f o ∨ ∃ r ∈ specs, r.1 = f ∧ r.2.1 ≤ o ∧ o ≤ r.2.2) :
    Covers (specs.foldl (fun s r => addRange s r.1 r.2) scope) f o := by
  induction specs generalizing scope with
  | nil =>
    rcases h with h | ⟨r, hr, -⟩
    · exact h
    · cases hr
  | cons x specs ih =>
    rw [List.foldl_cons]
    refine ih ?_
    rcases h with h | ⟨r, hr, h1, h2⟩
    · exact .inl (covers_add (.inl h))
    · rcases List.mem_cons.1 hr with rfl | hr
      · exact .inl (covers_add (.inr ⟨h1.symm, h2⟩))
      · exact .inr ⟨r, hr, h1, h2⟩

/-! ### The scope covers the uses -/

/-- No binding is declared inside a pattern by anything but the pattern, and there are no functions in patterns. -/
def PlainPatterns (g : Green) : Prop :=
  ∀ e l m, Chain g (e :: l) → m ∈ l → m.kind ∈ patKinds → e.kind ∉ SyntaxKind.FUN :: identPatOwners

/-- The place is not where the search for the parameters of a function goes: not in its block. Or not where the search for the
index of a `for` goes: not in its body. -/
inductive Missed (site : List Elem) (s : Elem) : Prop where
  | param : s.kind ∈ functionKinds → (∀ b, nodeChild s .BLOCK_EXPR = some b → b ∉ site) → Missed site s
  | index : s.kind = .FOR_EXPR → (∀ b, childOf s [.BLOCK_EXPR, .INLINE_EXPR] = some b → b ∉ site) → Missed site s

/-- The entries of a scope that are not its own local names do not hold the binding, except that a specification of a function
has the parameters of the function. -/
def OnlySpecs (file : Nat) (specs : Elem → List (Nat × (Nat × Nat))) (others : Elem → List Entry) (item site : List Elem) : Prop :=
  ∀ s ∈ site, ∀ x ∈ others s, x.path = (item.head?.map Elem.path).getD [] → ∃ i p l f up, item = i :: p :: l :: f :: up ∧
    p.kind = .PARAM ∧ l.kind = .PARAM_LIST ∧ f.kind ∈ functionKinds ∧ (file, (s.start, s.stop)) ∈ specs f

theorem letStmt_chain {g : Green} {file : Nat} {block : Elem} {anc : List Elem} (h : Chain g (block :: anc)) {l : LetInfo}
    (hl : l ∈ letStmts file block anc) : ∃ mid, Chain g (l.stmt :: mid ++ block :: anc) ∧ ∀ m ∈ mid, m.kind = .POST_STMT := by
  unfold letStmts at hl
  rcases List.mem_append.1 hl with hl | hl
  · obtain ⟨x, hx, rfl⟩ := List.mem_map.1 hl
    exact ⟨[], .child h (List.mem_filter.1 hx).1, (fun m hm => by cases hm)⟩
  · obtain ⟨p, hp, hl⟩ := List.mem_filterMap.1 hl
    obtain ⟨hp1, hp2⟩ := List.mem_filter.1 hp
    cases hc : childOf p stmtKinds with
    | none => rw [hc] at hl; cases hl
    | some x =>
      rw [hc] at hl
      dsimp only at hl
      split at hl
      · cases hl
        refine ⟨[p], .child (.child h hp1) (List.mem_of_find?_eq_some hc), ?_⟩
        intro m hm
        rw [List.mem_singleton] at hm
        subst hm
        simp only [isNode, Bool.and_eq_true, decide_eq_true_eq] at hp2
        exact hp2.2
      · cases hl

theorem isNode_kind {k : SyntaxKind} {e : Elem} (h : isNode k e = true) : e.kind = k := by
  simp only [isNode, Bool.and_eq_true, decide_eq_true_eq] at h
  exact h.2

theorem nodeChild_spec {k : SyntaxKind} {e c : Elem} (h : nodeChild e k = some c) : c ∈ e.children ∧ c.kind = k :=
  ⟨List.mem_of_find?_eq_some h, isNode_kind (List.find?_some h)⟩

theorem childOf_spec {ks : List SyntaxKind} {e c : Elem} (h : childOf e ks = some c) : c ∈ e.children ∧ c.kind ∈ ks := by
  refine ⟨List.mem_of_find?_eq_some h, ?_⟩
  have := List.find?_some h
  simp only [Bool.and_eq_true] at this
  exact List.contains_iff_mem.1 this.2

/-- The scope for a binding, from its ancestors. -/
theorem scope_owner {file : Nat} {specs : Elem → List (Nat × (Nat × Nat))} {specFiles : List Nat} {i o : Elem}
    {mid up : List Elem} {scope : Scope} (h : identPatScope file specs specFiles (i :: mid ++ o :: up) = some scope)
    (hmid : ∀ e ∈ mid, e.kind ∉ identPatOwners) (ho : o.kind ∈ identPatOwners) :
    ownerScope file specs specFiles (mid ++ o :: up) o up = some scope := by
  rw [List.cons_append, identPatScope] at h
  split at h
  · rw [firstOf_skip hmid, firstOf_here ho] at h
    exact h
  · cases h

/-- Where a name refers to a local binding, the search for the binding goes there: the place is in the function, the lambda or the
match arm that is searched. Two kinds of places are missed. -/
theorem C62_local_partial (g : Green) (hplain : PlainPatterns g) (file : Nat) (specs : Elem → List (Nat × (Nat × Nat)))
    (specFiles : List Nat) (item site : List Elem) (hitem : Chain g item) (hsite : Chain g site)
    (inlines others : Elem → List Entry) (outside : List (List Entry)) (allowed : Ns → Bool) (expected : Option (List Char))
    (e : Entry) (he : e ∈ walkScopes file inlines others outside allowed expected site)
    (hpath : e.path = (item.head?.map Elem.path).getD [])
    (hin : ∀ s ∈ site, ∀ x ∈ inlines s, x.path ≠ e.path) (hot : OnlySpecs file specs others item site)
    (hout : ∀ l ∈ outside, ∀ x ∈ l, x ≠ e)
    (scope : Scope) (hscope : identPatScope file specs specFiles item = some scope) :
    Covers scope file (headStart site) ∨ ∃ s ∈ site, Missed site s := by
  cases hst : site with
  | nil => rw [hst] at hsite; cases hsite
  | cons n ns =>
  have hns : ∀ p ∈ site, p.start ≤ headStart site ∧ headStart site ≤ p.stop := by
    intro p hp
    rw [hst] at hp hsite ⊢
    have := Up.inside hsite p hp
    refine ⟨this.1, Nat.le_trans ?_ this.2⟩
    exact Nat.le_add_right _ _
  rw [← hst]
  cases hit : item with
  | nil => rw [hit] at hitem; cases hitem
  | cons it up0 =>
  have hpath' : e.path = it.path := by rw [hpath, hit]; rfl
  obtain ⟨-, inner, es, outer', hsc, hes, -⟩ := (C59_innermost file inlines others outside allowed expected site e).1 he
  have hmem : es ∈ scopesAround file inlines others outside site := by rw [hsc]; simp
  unfold scopesAround at hmem
  rcases List.mem_append.1 hmem with hmem | hmem
  swap
  · exact absurd rfl (hout es hmem e hes)
  obtain ⟨sl, hsl, rfl⟩ := List.mem_map.1 hmem
  obtain ⟨inn, s, outer, htail, rfl, hopen, -⟩ := (C59_asked site sl).1 hsl
  have hs : s ∈ site := by
    rw [hst] at htail ⊢
    rw [List.tail_cons] at htail
    rw [htail]
    simp
  have hchain : Chain g (s :: outer) := by
    rw [hst, List.tail_cons] at htail
    rw [hst, htail] at hsite
    exact chain_suffix (l := n :: inn) hsite
  have houter : ∀ x ∈ s :: outer, x ∈ site := by
    intro x hx
    rw [hst, List.tail_cons] at htail
    rw [hst, htail]
    exact List.mem_cons_of_mem _ (List.mem_append_right _ hx)
  -- the binding that was found is the item
  have hsame : ∀ i l, Chain g (i :: l) → Binding file i e → item = i :: l := by
    intro i l hc hb
    rw [hit] at hitem ⊢
    exact chain_unique hitem hc (by rw [← hpath', hb.2.2.1])
  have hpatmid : ∀ (p i : Elem) (l : List Elem), Chain g (p :: l) → p.kind ∈ patKinds → i ∈ p.descendants → Binding file i e →
      ∃ mid, item = i :: mid ++ l ∧ ∀ m ∈ mid, m.kind ∉ SyntaxKind.FUN :: identPatOwners := by
    intro p i l hp hk hi hb
    obtain ⟨mid, h1, h2, -⟩ := chain_descendant hp hi
    refine ⟨mid, hsame i _ h1 hb, ?_⟩
    intro m hm
    rcases h2 m hm with rfl | ⟨r, hr, hpr⟩
    · have : ∀ k ∈ patKinds, k ∉ SyntaxKind.FUN :: identPatOwners := by decide
      exact this _ hk
    · exact hplain m r p hr hpr hk
  unfold scopeEntries at hes
  rcases List.mem_append.1 hes with hes | hes
  · -- a statement of a block
    split at hes
    swap
    · cases hes
    unfold entriesInBlock at hes
    rcases List.mem_append.1 hes with hes | hes
    · split at hes
      · exact absurd rfl (hin s hs e hes)
      · cases hes
    · obtain ⟨-, a, b, hab, -⟩ := (mem_uniqueByName _ _ _).1 hes
      have : e ∈ a ++ e :: b := by simp
      rw [← hab] at this
      obtain ⟨l, hl, hel⟩ := List.mem_flatMap.1 this
      have hl := (List.mem_filter.1 (List.mem_reverse.1 hl)).1
      obtain ⟨hlk, hb⟩ := C43_bindings file s outer l hl e
      obtain ⟨p, i, hp, hi, -, hbind⟩ := hb.1 hel
      obtain ⟨post, hlc, hpost⟩ := letStmt_chain hchain hl
      obtain ⟨hp1, hp2⟩ := childOf_spec hp
      obtain ⟨mid, hitem', hmid⟩ := hpatmid p i (l.stmt :: post ++ s :: outer) (.child hlc hp1) hp2 hi hbind
      rw [hitem', List.cons_append (as := post)] at hscope
      have := scope_owner hscope (fun m hm h => hmid m hm (List.mem_cons_of_mem _ h)) (by rw [hlk]; decide)
      unfold ownerScope at this
      rw [if_neg (by rw [hlk]; decide), if_neg (by rw [hlk]; decide), if_pos hlk] at this
      rw [firstOf_skip (fun m hm h => hmid m hm (by simp only [List.mem_singleton] at h; rw [h]; simp)), ← List.cons_append,
        firstOf_skip] at this
      · split at this
        · rename_i f r hf
          cases this
          have := hns f (houter f (firstOf_mem hf))
          exact .inl (covers_single this.1 this.2)
        · cases this
      · intro x hx
        rcases List.mem_cons.1 hx with rfl | hx
        · rw [hlk]; decide
        · rw [hpost x hx]; decide
  · rcases List.mem_append.1 hes with hes | hes
    · -- a specification
      obtain ⟨i, p, l, f, up, h1, h2, h3, h4, h5⟩ := hot s hs e hes hpath
      rw [h1] at hscope
      have := scope_owner (mid := []) hscope (by simp) (by rw [h2]; decide)
      unfold ownerScope at this
      rw [if_pos h2] at this
      dsimp only at this
      rw [if_pos (by rw [Bool.and_eq_true]; exact ⟨by simp [h3], List.contains_iff_mem.2 h4⟩)] at this
      cases this
      left
      unfold paramScope
      exact covers_fold (.inr ⟨_, h5, rfl, hns s hs⟩)
    · rcases (C59_brings file s e).1 hes with ⟨hk, hl, hpl, hpk, hi, hb⟩ | ⟨hk, hl, hpl, hpk, hi, hb⟩ | ⟨hk, hc, hi, hb⟩ | ⟨hk, hp, hi, -, hb⟩
      · -- a parameter
        have hfk : s.kind ∈ functionKinds := by
          rcases hk with hk | hk | hk | hk <;> rw [hk] <;> decide
        by_cases hbl : ∃ b, nodeChild s .BLOCK_EXPR = some b ∧ b ∈ site
        swap
        · exact .inr ⟨s, hs, .param hfk fun b hb hbs => hbl ⟨b, hb, hbs⟩⟩
        obtain ⟨b, hb1, hb2⟩ := hbl
        obtain ⟨hl1, hl2⟩ := nodeChild_spec hl
        obtain ⟨hi1, -⟩ := nodeChild_spec hi
        have := hsame _ _ (.child (.child (.child hchain hl1) hpl) hi1) hb
        rw [this] at hscope
        have := scope_owner (mid := []) hscope (by simp) (by rw [isNode_kind hpk]; decide)
        unfold ownerScope at this
        rw [if_pos (isNode_kind hpk)] at this
        dsimp only at this
        rw [if_pos (by rw [Bool.and_eq_true]; exact ⟨by simp [hl2], List.contains_iff_mem.2 hfk⟩)] at this
        cases this
        left
        unfold paramScope
        rw [hb1]
        exact covers_fold (.inl (covers_add (.inr ⟨rfl, hns b hb2⟩)))
      · -- a parameter of a lambda
        obtain ⟨hl1, hl2⟩ := nodeChild_spec hl
        obtain ⟨hi1, -⟩ := nodeChild_spec hi
        have := hsame _ _ (.child (.child (.child hchain hl1) hpl) hi1) hb
        rw [this] at hscope
        have hpk := isNode_kind hpk
        have := scope_owner (mid := []) hscope (by simp) (by rw [hpk]; decide)
        unfold ownerScope at this
        rw [if_neg (by rw [hpk]; decide), if_pos hpk] at this
        dsimp only at this
        rw [if_pos hk] at this
        cases this
        exact .inl (covers_single (hns s hs).1 (hns s hs).2)
      · -- the index of a `for`
        by_cases hbl : ∃ b, childOf s [.BLOCK_EXPR, .INLINE_EXPR] = some b ∧ b ∈ site
        swap
        · exact .inr ⟨s, hs, .index hk fun b hb hbs => hbl ⟨b, hb, hbs⟩⟩
        obtain ⟨b, hb1, hb2⟩ := hbl
        obtain ⟨hc1, hc2⟩ := nodeChild_spec hc
        obtain ⟨hi1, -⟩ := nodeChild_spec hi
        have := hsame _ _ (.child (.child hchain hc1) hi1) hb
        rw [this] at hscope
        have := scope_owner (mid := []) hscope (by simp) (by rw [hc2]; decide)
        unfold ownerScope at this
        rw [if_neg (by rw [hc2]; decide), if_neg (by rw [hc2]; decide), if_neg (by rw [hc2]; decide), if_pos hc2] at this
        dsimp only at this
        rw [if_pos hk, hb1] at this
        cases this
        exact .inl (covers_single (hns b hb2).1 (hns b hb2).2)
      · -- the pattern of a match arm
        obtain ⟨hp1, hp2⟩ := childOf_spec hp
        obtain ⟨mid, hitem', hmid⟩ := hpatmid _ _ (s :: outer) (.child hchain hp1) hp2 hi hb
        rw [hitem'] at hscope
        have := scope_owner hscope (fun m hm h => hmid m hm (List.mem_cons_of_mem _ h)) (by rw [hk]; decide)
        unfold ownerScope at this
        rw [if_neg (by rw [hk]; decide), if_neg (by rw [hk]; decide), if_neg (by rw [hk]; decide), if_neg (by rw [hk]; decide),
          if_pos hk] at this
        cases this
        exact .inl (covers_single (hns s hs).1 (hns s hs).2)

/-! ### A search in one file -/

/-- `TextRange::intersect`. -/
def meet (a b : Nat × Nat) : Option (Nat × Nat) :=
  if max a.1 b.1 ≤ min a.2 b.2 then some (max a.1 b.1, min a.2 b.2) else none

/-- `intersect_ranges` (search.rs:301–329). -/
def intersectRanges : Option (List (Nat × Nat)) → Option (List (Nat × Nat)) → Option (List (Nat × Nat))
  | none, none => none
  | some l, none => some l
  | none, some r => some r
  | some l, some r => some (l.filterMap fun a => r.foldl (fun acc b => (meet b a).or acc) none)

/-- `SearchScope::intersect` (search.rs:280–298). -/
def intersect (a b : Scope) : Scope :=
  let small := if b.length < a.length then b else a
  let large := if b.length < a.length then a else b
  small.filterMap fun x => (large.lookup x.1).map fun r => (x.1, intersectRanges x.2 r)

theorem lookup_of_mem {a : Scope} (h : (a.map Prod.fst).Nodup) {f : Nat} {rs : Option (List (Nat × Nat))} (hm : (f, rs) ∈ a) :
    a.lookup f = some rs := by
  induction a with
  | nil => cases hm
  | cons x a ih =>
    obtain ⟨f', rs'⟩ := x
    rw [List.map_cons, List.nodup_cons] at h
    rw [List.lookup_cons]
    by_cases hf : f = f'
    · subst hf
      rw [beq_self_eq_true]
      rcases List.mem_cons.1 hm with hm | hm
      · cases hm; rfl
      · exact absurd (List.mem_map_of_mem (f := Prod.fst) hm) h.1
    · rw [beq_eq_false_iff_ne.2 hf]
      rcases List.mem_cons.1 hm with hm | hm
      · cases hm; exact absurd rfl hf
      · exact ih h.2 hm

theorem mem_of_lookup {a : Scope} {f : Nat} {rs : Option (List (Nat × Nat))} (h : a.lookup f = some rs) : (f, rs) ∈ a := by
  induction a with
  | nil => cases h
  | cons x a ih =>
    obtain ⟨f', rs'⟩ := x
    rw [List.lookup_cons] at h
    by_cases hf : f = f'
    · subst hf
      rw [beq_self_eq_true] at h
      cases h
      simp
    · rw [beq_eq_false_iff_ne.2 hf] at h
      exact List.mem_cons_of_mem _ (ih h)

/-- A search limited to one file goes where the search would go in that file, and nowhere else. -/
theorem C62_one_file (scope : Scope) (hs : (scope.map Prod.fst).Nodup) (file f o : Nat) :
    Covers (intersect scope [(file, none)]) f o ↔ f = file ∧ Covers scope f o := by
  have hin : ∀ rs : Option (List (Nat × Nat)), intersectRanges rs none = rs ∧ intersectRanges none rs = rs := by
    intro rs
    cases rs <;> exact ⟨rfl, rfl⟩
  have key : ∀ f rs, (f, rs) ∈ intersect scope [(file, none)] ↔ f = file ∧ (f, rs) ∈ scope := by
    intro f rs
    unfold intersect
    by_cases hl : [((file, none) : Nat × Option (List (Nat × Nat)))].length < scope.length
    · simp only [if_pos hl, List.filterMap_cons, List.filterMap_nil]
      cases hlk : scope.lookup file with
      | none =>
        simp only [Option.map_none, List.not_mem_nil, false_iff]
        rintro ⟨rfl, hm⟩
        rw [lookup_of_mem hs hm] at hlk
        cases hlk
      | some rs' =>
        simp only [Option.map_some, List.mem_singleton, Prod.mk.injEq, (hin rs').2]
        constructor
        · rintro ⟨rfl, rfl⟩
          exact ⟨rfl, mem_of_lookup hlk⟩
        · rintro ⟨rfl, hm⟩
          rw [lookup_of_mem hs hm] at hlk
          cases hlk
          exact ⟨rfl, rfl⟩
    · simp only [if_neg hl, List.mem_filterMap]
      constructor
      · rintro ⟨⟨f', rs'⟩, hm, h⟩
        obtain ⟨r, hr, he⟩ := Option.map_eq_some_iff.1 h
        dsimp only at hr he
        rw [List.lookup_cons] at hr
        by_cases hf : f' = file
        · subst hf
          rw [beq_self_eq_true] at hr
          cases hr
          rw [(hin rs').1] at he
          cases he
          exact ⟨rfl, hm⟩
        · rw [beq_eq_false_iff_ne.2 hf] at hr
          cases hr
      · rintro ⟨rfl, hm⟩
        refine ⟨(f, rs), hm, ?_⟩
        dsimp only
        rw [List.lookup_cons, beq_self_eq_true]
        dsimp only
        rw [Option.map_some, (hin rs).1]
  unfold Covers
  constructor
  · rintro ⟨rs, hm, hc⟩
    obtain ⟨h1, h2⟩ := (key f rs).1 hm
    exact ⟨h1, rs, h2, hc⟩
  · rintro ⟨h1, rs, hm, hc⟩
    exact ⟨rs, (key f rs).2 ⟨h1, hm⟩, hc⟩

example : (([(1, some [(2, 5)]), (3, none)] : Scope).map Prod.fst).Nodup ∧
    intersect [(1, some [(2, 5)]), (3, none)] [(1, none)] = [(1, some [(2, 5)])] := by decide

/-! ### What is not found -/

open Verif.Lexer (oneChar) in
/-- The tree of a text, and whether it has no errors. -/
def parseOf (text : List Char) : Green × Bool :=
  match Parser.parseText oneChar false 300 text with
  | .tree t errs => (t, errs.isEmpty)
  | _ => (.tok .WHITESPACE [], false)

/-- The token with that number, with its ancestors. -/
def tokenAt (g : Green) (n : Nat) : List Elem := (allTokens g).getD n []

/-- The bindings that the name at a token refers to: `start_at` is the path around it. -/
def localsAt (g : Green) (n : Nat) : List (List Nat) :=
  (walkScopes 0 (fun _ => []) (fun _ => []) [] (fun ns => decide (ns = .NAME)) ((tokenAt g n).head?.map fun t => t.green.text)
    ((tokenAt g n).drop 3)).map Entry.path

/-- The scope in which the binding at a token is searched. -/
def scopeAt (g : Green) (n : Nat) : Option Scope := identPatScope 0 (fun _ => []) [] ((tokenAt g n).drop 2)

/-- What is reported overlaps with the scope. -/
theorem found_range (w : World) (hw : w.Sorted) (item : NodeId) (name : List Char) (file a b : Nat) (r : Reference)
    (h : r ∈ search w item name [(file, some [(a, b)])]) : r.range.1 ≤ b ∧ a ≤ r.range.2 := by
  obtain ⟨t, n, anc, h1, h2, -, -, -, o, h3, h4, rs, h5, h6⟩ := C62_sound w hw item name _ r h
  rw [List.mem_singleton] at h5
  cases h5
  obtain ⟨q, hq, hq1, hq2⟩ := h6 _ rfl
  rw [List.mem_singleton] at hq
  subst hq
  have := Up.inside h2 n (by simp)
  rw [h1]
  dsimp only at *
  omega

def proofText : List Char := "module 0x1::m{spec module{lemma l(x:u8){}proof{assert x;}}}".toList

/-- **C62 fails for the parameters of a lemma.** The `x` in the proof refers to the parameter; however names are classified, it is not
among the usages of the parameter. -/
theorem C62_proof_fails : (parseOf proofText).2 = true ∧
    ((tokenAt (parseOf proofText).1 24).head?.map fun e => (e.start, e.stop)) = some (54, 55) ∧
    localsAt (parseOf proofText).1 24 = [[0, 1, 3, 1, 3, 6, 0]] ∧
    (((tokenAt (parseOf proofText).1 14).drop 2).head?.map fun e => e.path) = some [0, 1, 3, 1, 3, 6, 0] ∧
    ∃ scope, scopeAt (parseOf proofText).1 14 = some scope ∧ ∀ (w : World) (item : NodeId), w.Sorted →
      ∀ r ∈ search w item ['x'] scope, r.range ≠ (54, 55) := by
  refine ⟨by decide +kernel, by decide +kernel, by decide +kernel, by decide +kernel, [(0, some [(39, 41)])], by decide +kernel, ?_⟩
  intro w item hw r hr h
  have := found_range w hw item _ 0 39 41 r hr
  rw [h] at this
  exact absurd this.1 (by decide)

def loopText : List Char := "module 0x1::m{fun f(n:u8){for(i in 0..n spec{invariant i;}){}}}".toList

/-- **C62 fails for the index of a `for`.** The `i` in the invariant of the loop refers to the index; it is not among its usages. -/
theorem C62_loop_fails : (parseOf loopText).2 = true ∧
    ((tokenAt (parseOf loopText).1 29).head?.map fun e => (e.start, e.stop)) = some (55, 56) ∧
    localsAt (parseOf loopText).1 29 = [[1, 1, 1, 4, 6, 0]] ∧
    (((tokenAt (parseOf loopText).1 17).drop 2).head?.map fun e => e.path) = some [1, 1, 1, 4, 6, 0] ∧
    ∃ scope, scopeAt (parseOf loopText).1 17 = some scope ∧ ∀ (w : World) (item : NodeId), w.Sorted →
      ∀ r ∈ search w item ['i'] scope, r.range ≠ (55, 56) := by
  refine ⟨by decide +kernel, by decide +kernel, by decide +kernel, by decide +kernel, [(0, some [(59, 61)])], by decide +kernel, ?_⟩
  intro w item hw r hr h
  have := found_range w hw item _ 0 59 61 r hr
  rw [h] at this
  exact absurd this.2 (by decide)

/-- **C62 fails for enum variants.** A name in a pattern that refers to a variant is classified as such a reference, and is never
reported. -/
theorem C62_variant_fails (w : World) (hw : w.Sorted) (item : NodeId) (name : List Char) (scope : Scope) (r : Reference)
    (h : r ∈ search w item name scope) (d : NodeId) : w.name r.file r.node ≠ some (.constRef d) := by
  intro hc
  obtain ⟨t, n, anc, h1, -, -, -, h2, -⟩ := C62_sound w hw item name scope r h
  have hnode : r.node = n :: anc := by rw [h1]
  rw [hnode] at hc
  have hk := (hw r.file n anc).2 (by rw [hc]; simp)
  have hr : w.ref r.file (n :: anc) = none := by
    by_contra hne
    have := (hw r.file n anc).1 hne
    rw [hk] at this
    cases this
  rcases h2 with h | ⟨_, h⟩ | ⟨_, h⟩ | ⟨_, h⟩ | ⟨_, h⟩
  · rw [hr] at h; cases h
  · rw [hr] at h; cases h
  · rw [hr] at h; cases h
  · rw [hc] at h; cases h
  · rw [hc] at h; cases h

/-! ### Examples -/

/-- Names that are paths are classified by the local names they refer to. -/
def localWorld (g : Green) : World where
  tree _ := g
  ref file l := match l with
    | n :: _ =>
      if n.kind = .NAME_REF then
        match walkScopes file (fun _ => []) (fun _ => []) [] (fun ns => decide (ns = .NAME)) (some n.green.text) (l.drop 2) with
        | [e] => some (.definition ⟨e.file, e.path⟩)
        | _ => none
      else none
    | [] => none
  name _ _ := none

theorem localWorld_sorted (g : Green) : (localWorld g).Sorted := by
  intro file n anc
  refine ⟨?_, fun h => absurd rfl h⟩
  intro h
  by_contra hk
  refine h ?_
  show (if n.kind = .NAME_REF then _ else none) = _
  rw [if_neg hk]

def letText : List Char := "module 0x1::m{fun f(s:u8){let x=1;x+s}}".toList

/-- The variable of the statement is used once. -/
example : scopeAt (parseOf letText).1 17 = some [(0, some [(14, 38)])] ∧
    (search (localWorld (parseOf letText).1) ⟨0, [2, 1, 4, 6, 0]⟩ ['x'] [(0, some [(14, 38)])]).map Reference.range = [(34, 35)] ∧
    (search (localWorld (parseOf letText).1) ⟨0, [0, 1, 3, 6, 0]⟩ ['s'] [(0, some [(25, 38)])]).map Reference.range = [(36, 37)] := by
  decide +kernel

/-- A name behind a letter is not found, one behind a digit is. -/
example : findMatches ['x'] ['0', 'x', 'F', 'x', ' ', '1', 'x'] [(0, 7)] = [6] := by decide +kernel

/-- Places that overlap: the second name is not found. -/
example : findMatches ['x', '1', 'x'] ['x', '1', 'x', '1', 'x'] [(0, 5)] = [] ∧
    findMatches ['x', '1', 'x'] ['x', '1', 'x', ' ', 'x', '1', 'x'] [(0, 7)] = [0, 4] := by decide +kernel

/-- `PlainPatterns`, as a check. -/
def plainPatterns (g : Green) : Bool :=
  ((Elem.root g).descendants.all fun m => !patKinds.contains m.kind ||
    m.descendants.all fun e => !(SyntaxKind.FUN :: identPatOwners).contains e.kind) &&
  (allTokens g).all fun l => l.head?.any fun t => !(SyntaxKind.FUN :: identPatOwners).contains t.kind

theorem up_of_chain {g : Green} {l : List Elem} (h : Chain g l) {m : Elem} (hm : m ∈ l) : ∃ a b, l = a ++ m :: b ∧ Up m (a ++ [m]) := by
  induction h with
  | top =>
    rw [List.mem_singleton] at hm
    subst hm
    exact ⟨[], [], rfl, .top⟩
  | @child c p ps hp hc ih =>
    rcases List.mem_cons.1 hm with rfl | hm
    · exact ⟨[], p :: ps, rfl, .top⟩
    · obtain ⟨a, b, h1, h2⟩ := ih hm
      refine ⟨c :: a, b, by rw [h1]; rfl, ?_⟩
      cases a with
      | nil =>
        rw [List.nil_append] at h1
        cases h1
        exact .child .top hc
      | cons x a =>
        rw [List.cons_append] at h1
        cases h1
        exact .child h2 hc

theorem plainPatterns_iff {g : Green} (h : plainPatterns g = true) : PlainPatterns g := by
  unfold plainPatterns at h
  rw [Bool.and_eq_true, List.all_eq_true, List.all_eq_true] at h
  obtain ⟨h1, h2⟩ := h
  intro e l m hc hm hk
  by_cases ht : e.green.isTok = true
  · have := h2 _ ((mem_allTokens g _).2 ⟨e, l, rfl, hc, ht⟩)
    simpa using this
  · obtain ⟨a, b, hab, hup⟩ := up_of_chain hc (List.mem_cons_of_mem e hm)
    have hmt : m.green.isTok = false ∧ Chain g (m :: b) := by
      refine ⟨?_, by rw [hab] at hc; exact chain_suffix hc⟩
      have key : ∀ {l : List Elem}, Chain g l → ∀ e l', l = e :: l' → ∀ x ∈ l', x.green.isTok = false := by
        intro l h
        induction h with
        | top => intro e l' he x hx; cases he; cases hx
        | @child c p ps hp hc ih =>
          intro e l' he x hx
          cases he
          rcases List.mem_cons.1 hx with rfl | hx
          · have := (Elem.mem_children hc).2.2.2.2
            exact Bool.eq_false_iff.2 (by simpa using this)
          · exact ih p ps rfl x hx
      exact key hc e l rfl m hm
    have := h1 m ((mem_descendants _ m).2 ⟨hmt.1, b, hmt.2⟩)
    rw [Bool.or_eq_true, List.all_eq_true] at this
    rcases this with this | this
    · rw [List.contains_iff_mem.2 hk] at this
      cases this
    · cases a with
      | nil =>
        rw [List.nil_append] at hab
        cases hab
        have : ∀ k ∈ patKinds, k ∉ SyntaxKind.FUN :: identPatOwners := by decide
        exact this _ hk
      | cons x a =>
        rw [List.cons_append] at hab
        cases hab
        have := this e ((mem_descendants m e).2 ⟨Bool.eq_false_iff.2 ht, _, hup⟩)
        simpa using this

/-- The texts of the examples are parsed. -/
theorem parseOf_parsed {text : List Char} (hl : text.length ≤ 149)
    (h : (match Parser.parseText Lexer.oneChar false 300 text with | .tree .. => true | _ => false) = true) : Parsed (parseOf text).1 := by
  unfold parseOf
  revert h
  cases he : Parser.parseText Lexer.oneChar false 300 text with
  | tree t errs =>
    exact fun _ => ⟨Lexer.oneChar, false, text, 300, errs, Parser.oneChar_graphemes, Parser.oneChar_breaks, by omega, he⟩
  | _ => intro h; cases h

/-- The hypotheses of `C62_once` are met, and something is found. -/
example : (localWorld (parseOf letText).1).Sorted ∧ Parsed (parseOf letText).1 ∧ Lexer.IsName ['x'] ∧
    (search (localWorld (parseOf letText).1) ⟨0, [2, 1, 4, 6, 0]⟩ ['x'] [(0, none)]).map (fun r => r.range) = [(34, 35)] :=
  ⟨localWorld_sorted _, parseOf_parsed (by decide) (by decide +kernel), ⟨'x', [], rfl, by decide, by simp⟩, by decide +kernel⟩

/-- The hypotheses of `C62_local_partial` are met: the place of the `x` in the last expression finds the variable. -/
example : PlainPatterns (parseOf letText).1 ∧ localsAt (parseOf letText).1 21 = [[2, 1, 4, 6, 0]] ∧
    (((tokenAt (parseOf letText).1 17).drop 2).head?.map fun e => e.path) = some [2, 1, 4, 6, 0] ∧
    scopeAt (parseOf letText).1 17 = some [(0, some [(14, 38)])] :=
  ⟨plainPatterns_iff (by decide +kernel), by decide +kernel⟩

end Verif.Ide.Usages
