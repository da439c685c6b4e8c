import Verif.Nameres.ItemScope
import Verif.Ide.SymbolsCollect
import Verif.Ide.CountsExamples

/-! C78: locations of declarations (lang/src/loc.rs). -/

namespace Verif.Nameres.Locs
open Verif Verif.Syntax Verif.Nameres
open Verif.Parser (Green)
open Verif.Ide.Usages (Parsed parseOf parseOf_parsed)
open Verif.Ide.Counts (around around_chain)

/-! ### Model -/

/-- `SyntaxLoc` (loc.rs:16–24) without the name that is there for debugging. -/
structure Loc where
  file : Nat
  ptr : Ptr
deriving DecidableEq, Repr

/-- `SyntaxLoc::new` (loc.rs:36–43). -/
def locOf (file : Nat) (e : Elem) : Loc := ⟨file, Elem.ptr e⟩

/-- `child_or_token_at_range` of `rowan`: a child that overlaps the range, if the range is inside of it. `rowan` finds it by binary
search; if the range is not empty, at most one child that overlaps the range has it inside. -/
def childAt (e : Elem) (p : Ptr) : Option Elem :=
  (e.children.find? fun c => decide (p.start < c.stop) && decide (c.start < p.stop)).filter fun c =>
    decide (c.start ≤ p.start) && decide (p.stop ≤ c.stop)

theorem childAt_mem {e c : Elem} {p : Ptr} (h : childAt e p = some c) : c ∈ e.children := by
  unfold childAt at h
  exact List.mem_of_find?_eq_some (Option.filter_eq_some_iff.1 h).1

/-- `SyntaxNodePtr::try_to_node` of `rowan`: the first node with the kind and the range on the way down to the range. -/
def toNode (p : Ptr) (e : Elem) : Option Elem :=
  if e.green.isTok then none
  else if Elem.ptr e = p then some e
  else match _h : childAt e p with
    | none => none
    | some c => toNode p c
termination_by sizeOf e.green
decreasing_by exact Green.sizeOf_child (Elem.mem_children (childAt_mem _h)).1

/-- `to_syntax_node` and `to_ast` (loc.rs:62–75) with `get_source_file` (loc.rs:128–139). `kinds` are the kinds that can be cast. -/
def resolve (tree : Nat → Green) (kinds : SyntaxKind → Bool) (l : Loc) : Option Elem :=
  if l.ptr.stop ≤ (tree l.file).len then (toNode l.ptr (Elem.root (tree l.file))).filter fun e => kinds e.kind else none

/-! ### Specification -/

/-- There is a token or a name directly in the node, as in every declaration with a name or a keyword. -/
def Direct (e : Elem) : Prop := ∃ c ∈ e.children, c.green.isTok = true ∨ c.kind = .NAME

/-- A node around it has its kind and its range. -/
def Doubled (e : Elem) (l : List Elem) : Prop := ∃ z ∈ l, z.kind = e.kind ∧ z.start = e.start ∧ z.stop = e.stop

/-! ### Proofs -/

theorem siblings {e c d : Elem} (hc : c ∈ e.children) (hd : d ∈ e.children) : c = d ∨ c.stop ≤ d.start ∨ d.stop ≤ c.start := by
  have h := Elem.children_sorted e
  generalize e.children = cs at h hc hd
  induction h with
  | nil => cases hc
  | cons h _ ih =>
    rcases List.mem_cons.1 hc with h1 | h1 <;> rcases List.mem_cons.1 hd with h2 | h2
    · exact .inl (h1.trans h2.symm)
    · exact .inr (.inl (h1 ▸ h _ h2))
    · exact .inr (.inr (h2 ▸ h _ h1))
    · exact ih h1 h2

theorem top_mem {t : Elem} {l : List Elem} (h : Up t l) : t ∈ l := by
  rcases h.top_cases with h | ⟨_, _, _, _, rfl⟩ <;> simp [*]

/-- Two elements of a tree are one inside the other, or apart. -/
theorem nested {t x y : Elem} {l m : List Elem} (hx : Up t (x :: l)) (hy : Up t (y :: m)) :
    (∃ k, Up x (y :: k)) ∨ (∃ k, Up y (x :: k)) ∨ x.stop ≤ y.start ∨ y.stop ≤ x.start := by
  generalize hn : l.length = n
  induction n generalizing t l m with
  | zero =>
    cases List.length_eq_zero_iff.1 hn
    rcases hx.top_cases with h | ⟨c, -, l', hl', h⟩
    · cases h
      exact .inl ⟨m, hy⟩
    · cases l' with
      | nil => cases hl'
      | cons a l' => cases l' <;> cases h
  | succ n ih =>
    rcases hx.top_cases with h | ⟨c, hc, l', hl', h⟩
    · cases h
      cases hn
    rcases hy.top_cases with h' | ⟨d, hd, m', hm', h'⟩
    · cases h'
      exact .inr (.inl ⟨l, hx⟩)
    cases l' with
    | nil => cases hl'
    | cons a l' =>
      cases m' with
      | nil => cases hm'
      | cons b m' =>
        simp only [List.cons_append, List.cons.injEq] at h h'
        obtain ⟨rfl, rfl⟩ := h
        obtain ⟨rfl, rfl⟩ := h'
        rcases siblings hc hd with rfl | h | h
        · exact ih hl' hm' (by simpa using hn)
        · have h1 := hl'.inside c (top_mem hl')
          have h2 := hm'.inside d (top_mem hm')
          omega
        · have h1 := hl'.inside c (top_mem hl')
          have h2 := hm'.inside d (top_mem hm')
          omega

/-- Nothing is in a token. -/
theorem up_tok {t x : Elem} {l : List Elem} (ht : t.green.isTok = true) (h : Up t (x :: l)) : x = t := by
  rcases h.top_cases with h | ⟨c, hc, -⟩
  · cases h; rfl
  · rw [(Elem.mem_children hc).2.2.2.2] at ht
    cases ht

theorem token_lt {g : Green} (hp : Parsed g) {t : Elem} {l : List Elem} (h : Chain g (t :: l)) (ht : t.green.isTok = true) :
    t.start < t.stop := by
  have := hp.noEmpty (t :: l) ((mem_allTokens g _).2 ⟨t, l, rfl, h, ht⟩)
  simpa [headStart, headStop] using this

/-- What is directly in the node is not empty, and there are no nodes in it but the name. -/
theorem direct_child {g : Green} (hp : Parsed g) {x : Elem} {l : List Elem} (h : Chain g (x :: l)) (hd : Direct x) :
    ∃ c ∈ x.children, c.start < c.stop ∧ (∀ y m, Up c (y :: m) → y.green.isTok = false → y = c ∧ c.kind = .NAME) := by
  obtain ⟨c, hc, hk⟩ := hd
  by_cases ht : c.green.isTok = true
  · refine ⟨c, hc, token_lt hp (.child h hc) ht, fun y m hy hn => ?_⟩
    rw [up_tok ht hy, ht] at hn
    cases hn
  · rcases hk with hk | hk
    · exact absurd hk ht
    obtain ⟨w, hw, -⟩ := Verif.Symbols.parsed_ident hp (.child h hc) hk
    have hch : c.children = [⟨0 :: c.path, c.start, .tok .IDENT w⟩] := by simp [Elem.children, hw, Green.children, placed]
    refine ⟨c, hc, ?_, fun y m hy hn => ?_⟩
    · have h1 : (⟨0 :: c.path, c.start, .tok .IDENT w⟩ : Elem) ∈ c.children := by rw [hch]; simp
      have h2 := token_lt hp (.child (.child h hc) h1) rfl
      have h3 := (Elem.mem_children h1).2.2.1
      exact Nat.lt_of_lt_of_le h2 h3
    · rcases hy.top_cases with h | ⟨d, hd, m', hm', h⟩
      · cases h
        exact ⟨rfl, hk⟩
      · rw [hch, List.mem_singleton] at hd
        subst hd
        cases m' with
        | nil => cases hm'
        | cons a m' =>
          simp only [List.cons_append, List.cons.injEq] at h
          rw [h.1, up_tok rfl hm'] at hn
          cases hn

/-- No node in it has its kind and its range. -/
theorem inner_none {g : Green} (hp : Parsed g) {x y : Elem} {l m : List Elem} (h : Chain g (x :: l)) (hd : Direct x)
    (hy : Up x (y :: m)) (hn : y.green.isTok = false) (he : Elem.ptr y = Elem.ptr x) : y = x := by
  obtain ⟨c, hc, h1, h2⟩ := direct_child hp h hd
  simp only [Elem.ptr, Ptr.mk.injEq] at he
  rcases hy.top_cases with h3 | ⟨d, hdm, m', hm', h3⟩
  · cases h3; rfl
  · exfalso
    cases m' with
    | nil => cases hm'
    | cons a m' =>
      simp only [List.cons_append, List.cons.injEq] at h3
      obtain ⟨rfl, rfl⟩ := h3
      have h4 := hm'.inside d (top_mem hm')
      obtain ⟨-, h5, h6, -⟩ := Elem.mem_children hc
      rcases siblings hc hdm with rfl | h7 | h7
      · obtain ⟨rfl, h8⟩ := h2 y m' hm' hn
        obtain ⟨w, hw, -⟩ := Verif.Symbols.parsed_ident hp h (he.1 ▸ h8)
        obtain ⟨h9, -⟩ := Elem.mem_children hc
        rw [hw] at h9
        simp only [Green.children, List.mem_singleton] at h9
        rw [h9] at hn
        cases hn
      · omega
      · omega

theorem direct_lt {g : Green} (hp : Parsed g) {x : Elem} {l : List Elem} (h : Chain g (x :: l)) (hd : Direct x) : x.start < x.stop := by
  obtain ⟨c, hc, h1, -⟩ := direct_child hp h hd
  obtain ⟨-, h5, h6, -⟩ := Elem.mem_children hc
  omega

/-- Only a node around it can have its kind and its range. -/
theorem other_outside {g : Green} (hp : Parsed g) {x y : Elem} {l m : List Elem} (hx : Chain g (x :: l)) (hd : Direct x)
    (hy : Chain g (y :: m)) (hn : y.green.isTok = false) (he : Elem.ptr y = Elem.ptr x) : y = x ∨ ∃ k, Up y (x :: k) := by
  rcases nested hx hy with ⟨k, hk⟩ | h | h
  · exact .inl (inner_none hp hx hd hk hn he)
  · exact .inr h
  · have := direct_lt hp hx hd
    simp only [Elem.ptr, Ptr.mk.injEq] at he
    omega

theorem path_unique {g : Green} {x y : Elem} {l m : List Elem} (hx : Chain g (x :: l)) (hy : Chain g (y :: m)) (h : x = y) : l = m :=
  (List.cons.inj (chain_unique hx hy (by rw [h]))).2

theorem childAt_of {e c : Elem} {p : Ptr} (hc : c ∈ e.children) (h0 : p.start < p.stop) (h1 : c.start ≤ p.start) (h2 : p.stop ≤ c.stop) :
    childAt e p = some c := by
  unfold childAt
  cases hf : e.children.find? (fun c => decide (p.start < c.stop) && decide (c.start < p.stop)) with
  | none =>
    have := List.find?_eq_none.1 hf c hc
    simp only [Bool.and_eq_true, decide_eq_true_eq, not_and] at this
    omega
  | some d =>
    have hd := List.mem_of_find?_eq_some hf
    have hs := List.find?_some hf
    simp only [Bool.and_eq_true, decide_eq_true_eq] at hs
    have : c = d := by
      rcases siblings hc hd with h | h | h
      · exact h
      · omega
      · omega
    subst this
    simp [h1, h2]

theorem toNode_sound {p : Ptr} {e y : Elem} (h : toNode p e = some y) : ∃ m, Up e (y :: m) ∧ y.green.isTok = false ∧ Elem.ptr y = p := by
  generalize hn : sizeOf e.green = n
  induction n using Nat.strongRecOn generalizing e with
  | ind n ih =>
    unfold toNode at h
    split at h
    · cases h
    · rename_i ht
      split at h
      · cases h
        exact ⟨[], .top, by simpa using ht, by assumption⟩
      · split at h
        · cases h
        · rename_i c hc
          have hm := childAt_mem hc
          obtain ⟨m, h1, h2, h3⟩ := ih _ (by have := Green.sizeOf_child (Elem.mem_children hm).1; omega) h rfl
          exact ⟨m ++ [e], h1.snoc hm, h2, h3⟩

theorem toNode_found {e x : Elem} {l : List Elem} (h : Up e (x :: l)) (hx : x.green.isTok = false) (hlt : x.start < x.stop) :
    ∃ y m, toNode (Elem.ptr x) e = some y ∧ Up e (y :: m) ∧ Elem.ptr y = Elem.ptr x ∧ (∃ k, Up y (x :: k)) ∧
      ∀ z ∈ m, Elem.ptr z ≠ Elem.ptr x := by
  generalize hn : sizeOf e.green = n
  induction n using Nat.strongRecOn generalizing e l with
  | ind n ih =>
    have ht : e.green.isTok = false := by
      rcases h.top_cases with h | ⟨c, hc, -⟩
      · cases h; exact hx
      · exact (Elem.mem_children hc).2.2.2.2
    unfold toNode
    rw [if_neg (by simp [ht])]
    by_cases he : Elem.ptr e = Elem.ptr x
    · rw [if_pos he]
      exact ⟨e, [], rfl, .top, he, ⟨l, h⟩, by simp⟩
    · rw [if_neg he]
      rcases h.top_cases with h' | ⟨c, hc, l', hl', h'⟩
      · cases h'
        exact absurd rfl he
      · cases l' with
        | nil => cases hl'
        | cons a l' =>
          simp only [List.cons_append, List.cons.injEq] at h'
          obtain ⟨rfl, rfl⟩ := h'
          have hi := hl'.inside c (top_mem hl')
          have hca : childAt e (Elem.ptr x) = some c := childAt_of hc hlt hi.1 hi.2
          obtain ⟨y, m, h1, h2, h3, h4, h5⟩ := ih _ (by have := Green.sizeOf_child (Elem.mem_children hc).1; omega) hl' rfl
          refine ⟨y, m ++ [e], ?_, h2.snoc hc, h3, h4, ?_⟩
          · split
            · rename_i hnone
              rw [hca] at hnone
              cases hnone
            · rename_i d hd
              rw [hca] at hd
              cases hd
              exact h1
          · intro z hz
            rcases List.mem_append.1 hz with hz | hz
            · exact h5 z hz
            · rw [List.mem_singleton.1 hz]
              exact he

theorem up_mem {t x : Elem} {l : List Elem} (h : Up t (x :: l)) : t ∈ x :: l := top_mem h

theorem up_append {g : Green} {y x : Elem} {m k : List Elem} (hy : Chain g (y :: m)) (hx : Up y (x :: k)) :
    ∃ l, Chain g (x :: l) ∧ (x = y ∨ y ∈ l) := by
  rcases hx.top_cases with h | ⟨c, hc, l', hl', h⟩
  · cases h
    exact ⟨m, hy, .inl rfl⟩
  · cases l' with
    | nil => cases hl'
    | cons a l' =>
      simp only [List.cons_append, List.cons.injEq] at h
      obtain ⟨rfl, rfl⟩ := h
      have : ∀ {l' : List Elem}, Up c l' → Chain g (l' ++ y :: m) := by
        intro l' h
        induction h with
        | top => exact .child hy hc
        | child _ h2 ih => exact .child ih h2
      exact ⟨l' ++ y :: m, this hl', .inr (by simp)⟩

/-! ### Theorems -/

/-- What a location leads to is a node of the current tree of the file with the kind and the range of the location, also if the
location is from an older text. -/
theorem C78_sound (tree : Nat → Green) (kinds : SyntaxKind → Bool) {l : Loc} {e : Elem} (h : resolve tree kinds l = some e) :
    ∃ m, Chain (tree l.file) (e :: m) ∧ e.green.isTok = false ∧ locOf l.file e = l ∧ kinds e.kind = true := by
  unfold resolve at h
  split at h
  · obtain ⟨h1, h2⟩ := Option.filter_eq_some_iff.1 h
    obtain ⟨m, h3, h4, h5⟩ := toNode_sound h1
    exact ⟨m, h3, h4, by rw [locOf, h5], h2⟩
  · cases h

/-- A location that leads nowhere has an empty range, or there is no such node in the file now. -/
theorem C78_none {tree : Nat → Green} {kinds : SyntaxKind → Bool} {l : Loc} (h : resolve tree kinds l = none)
    (hlt : l.ptr.start < l.ptr.stop) (hk : kinds l.ptr.kind = true) {e : Elem} {m : List Elem} (hc : Chain (tree l.file) (e :: m))
    (hn : e.green.isTok = false) : locOf l.file e ≠ l := by
  intro he
  have hp : Elem.ptr e = l.ptr := congrArg Loc.ptr he
  have h1 : e.start < e.stop := by rw [← hp] at hlt; exact hlt
  obtain ⟨y, k, h2, h3, h4, -⟩ := toNode_found hc hn h1
  have h5 : l.ptr.stop ≤ (tree l.file).len := by
    rw [← hp]
    exact (Verif.Ide.Extend.chain_bounds hc).2
  unfold resolve at h
  rw [if_pos h5, ← hp, h2] at h
  have h6 : y.kind = l.ptr.kind := by rw [← hp, ← h4]; rfl
  simp [Option.filter, h6, hk] at h

/-- Two declarations have different locations. Asked of both is that there is a token or a name directly in them. -/
theorem C78_different {tree : Nat → Green} {a b : Nat} (ha : Parsed (tree a)) {x y : Elem} {l m : List Elem}
    (hx : Chain (tree a) (x :: l)) (hy : Chain (tree b) (y :: m)) (hnx : x.green.isTok = false) (hny : y.green.isTok = false)
    (hdx : Direct x) (hdy : Direct y) (h : locOf a x = locOf b y) : a = b ∧ x = y ∧ l = m := by
  simp only [locOf, Loc.mk.injEq] at h
  obtain ⟨rfl, h⟩ := h
  have key : x = y := by
    rcases other_outside ha hx hdx hy hny h.symm with h1 | ⟨k, h1⟩
    · exact h1.symm
    · exact inner_none ha hy hdy h1 hnx h
  exact ⟨rfl, key, path_unique hx hy key⟩

/-- The location of a declaration leads back to it, and to nothing else. Missing: declarations in a node of the same kind with the
same range. -/
theorem C78_back_partial {tree : Nat → Green} {kinds : SyntaxKind → Bool} {a : Nat} (ha : Parsed (tree a)) {x : Elem} {l : List Elem}
    (hx : Chain (tree a) (x :: l)) (hn : x.green.isTok = false) (hd : Direct x) (ho : ¬ Doubled x l) (hk : kinds x.kind = true) :
    resolve tree kinds (locOf a x) = some x := by
  obtain ⟨y, m, h1, h2, h3, ⟨k, h4⟩, -⟩ := toNode_found hx hn (direct_lt ha hx hd)
  have hxy : x = y := by
    obtain ⟨l', h5, h6⟩ := up_append h2 h4
    rcases h6 with h6 | h6
    · exact h6
    · have := path_unique hx h5 rfl
      subst this
      simp only [Elem.ptr, Ptr.mk.injEq] at h3
      exact absurd ⟨y, h6, h3⟩ ho
  subst hxy
  have h7 : (locOf a x).ptr.stop ≤ (tree (locOf a x).file).len := (Verif.Ide.Extend.chain_bounds hx).2
  unfold resolve
  rw [if_pos h7]
  simp only [locOf] at h1 ⊢
  rw [h1]
  simp [hk]

/-- In any case it leads to the outermost of the nodes around it with its kind and range. -/
theorem C78_outermost {tree : Nat → Green} {kinds : SyntaxKind → Bool} {a : Nat} {x : Elem} {l : List Elem}
    (hx : Chain (tree a) (x :: l)) (hn : x.green.isTok = false) (hlt : x.start < x.stop) (hk : kinds x.kind = true) :
    ∃ y m, resolve tree kinds (locOf a x) = some y ∧ Chain (tree a) (y :: m) ∧ y ∈ x :: l ∧ locOf a y = locOf a x ∧ ¬ Doubled y m := by
  obtain ⟨y, m, h1, h2, h3, ⟨k, h4⟩, h5⟩ := toNode_found hx hn hlt
  have h7 : (locOf a x).ptr.stop ≤ (tree (locOf a x).file).len := (Verif.Ide.Extend.chain_bounds hx).2
  refine ⟨y, m, ?_, h2, ?_, by simp [locOf, h3], ?_⟩
  · unfold resolve
    rw [if_pos h7]
    simp only [locOf] at h1 ⊢
    rw [h1]
    have : y.kind = x.kind := congrArg Ptr.kind h3
    simp [Option.filter, this, hk]
  · obtain ⟨l', h8, h9⟩ := up_append h2 h4
    have := path_unique hx h8 rfl
    subst this
    exact List.mem_cons.2 (h9.imp Eq.symm id)
  · rintro ⟨z, hz, h8, h9, h10⟩
    refine h5 z hz ?_
    rw [← h3]
    simp [Elem.ptr, h8, h9, h10]

/-- The recorded scope of a declaration is that of the nearest marked node around it (C42), in every file that parses. -/
theorem C78_scope_partial {g : Green} (hp : Parsed g) {x : Elem} {l : List Elem} (hx : Chain g (x :: l)) (hn : x.green.isTok = false)
    (hd : Direct x) (ho : ¬ Doubled x l) (s : ItemScope) : itemScope g (Elem.ptr x) = s ↔ Nearest (x :: l) s := by
  refine C42_nearest_partial g x l hx hn (fun y m hy hny he => ?_) s
  rcases other_outside hp hx hd hy hny he with h | ⟨k, h⟩
  · rw [h, path_unique hy hx h]
  · obtain ⟨l', h1, h2⟩ := up_append hy h
    have := path_unique hx h1 rfl
    subst this
    rcases h2 with h2 | h2
    · rw [h2, path_unique hx hy h2]
    · simp only [Elem.ptr, Ptr.mk.injEq] at he
      exact absurd ⟨y, h2, he⟩ ho

/-! ### Examples -/

/-- Tokens 6 and 19 are `struct` and `fun`. -/
def exText : List Char := "module 0x1::m{struct S{a:u8}#[test_only]fun S(){}}".toList

theorem ex_meets (n : Nat) (k : SyntaxKind) (h : (match around exText n k with
    | x :: l => decide (x.green.isTok = false) && x.children.any (fun c => c.green.isTok) &&
        !l.any (fun z => decide (z.kind = x.kind ∧ z.start = x.start ∧ z.stop = x.stop)) && decide (x.kind = k)
    | [] => false) = true) :
    ∃ x l, Chain (parseOf exText).1 (x :: l) ∧ x.green.isTok = false ∧ Direct x ∧ ¬ Doubled x l ∧ x.kind = k := by
  split at h
  · rename_i x l hs
    simp only [Bool.and_eq_true, decide_eq_true_eq, Bool.not_eq_true', List.any_eq_true, List.any_eq_false] at h
    obtain ⟨⟨⟨h1, c, h2, h3⟩, h4⟩, h5⟩ := h
    exact ⟨x, l, around_chain hs, h1, ⟨c, h2, .inl h3⟩, fun ⟨z, hz, hd⟩ => h4 z hz hd, h5⟩
  · cases h

/-- The hypotheses of `C78_back_partial` and `C78_scope_partial` are met by a struct and a function of the same name. -/
example : Parsed (parseOf exText).1 ∧
    (∃ x l, Chain (parseOf exText).1 (x :: l) ∧ x.green.isTok = false ∧ Direct x ∧ ¬ Doubled x l ∧ x.kind = .STRUCT) ∧
    ∃ x l, Chain (parseOf exText).1 (x :: l) ∧ x.green.isTok = false ∧ Direct x ∧ ¬ Doubled x l ∧ x.kind = .FUN :=
  ⟨parseOf_parsed (by decide +kernel) (by decide +kernel), ex_meets 8 .STRUCT (by decide +kernel), ex_meets 22 .FUN (by decide +kernel)⟩

/-- Their locations are different, and lead back to them. -/
example : ∃ x y, resolve (fun _ => (parseOf exText).1) (fun k => decide (k = .STRUCT)) (locOf 0 x) = some x ∧
    resolve (fun _ => (parseOf exText).1) (fun k => decide (k = .FUN)) (locOf 0 y) = some y ∧ locOf 0 x ≠ locOf 0 y ∧ x.kind = .STRUCT := by
  have hp : Parsed (parseOf exText).1 := parseOf_parsed (by decide +kernel) (by decide +kernel)
  obtain ⟨x, l, h1, h2, h3, h4, h5⟩ := ex_meets 8 .STRUCT (by decide +kernel)
  obtain ⟨y, m, k1, k2, k3, k4, k5⟩ := ex_meets 22 .FUN (by decide +kernel)
  refine ⟨x, y, C78_back_partial (tree := fun _ => _) hp h1 h2 h3 h4 (by simp [h5]),
    C78_back_partial (tree := fun _ => _) hp k1 k2 k3 k4 (by simp [k5]), fun he => ?_, h5⟩
  have := (C78_different (tree := fun _ => (parseOf exText).1) hp h1 k1 h2 k2 h3 k3 he).2.1
  rw [this, k5] at h5
  cases h5

/-- A location that leads nowhere: there is no node from 3 to 7. -/
example : resolve (fun _ => (parseOf exText).1) (fun _ => true) ⟨0, ⟨.FUN, 3, 7⟩⟩ = none := by
  cases h : resolve (fun _ => (parseOf exText).1) (fun _ => true) ⟨0, ⟨.FUN, 3, 7⟩⟩ with
  | none => rfl
  | some e =>
    obtain ⟨m, h1, h2, h3, -⟩ := C78_sound _ _ h
    have h4 : e ∈ (Elem.root (parseOf exText).1).descendants := (mem_descendants _ _).2 ⟨h2, m, h1⟩
    have h5 : ∀ e ∈ (Elem.root (parseOf exText).1).descendants, ¬ (e.kind = .FUN ∧ e.start = 3) := by decide +kernel
    simp only [locOf, Elem.ptr, Loc.mk.injEq, Ptr.mk.injEq] at h3
    exact absurd ⟨h3.2.1, h3.2.2.1⟩ (h5 e h4)

/-- **C78 fails for empty nodes.** In the text `module` there are two nodes of the same kind at the same place, and they have the
same location. -/
theorem C78_empty_fails : Parsed (parseOf "module".toList).1 ∧
    ∃ x y, (∃ l, Chain (parseOf "module".toList).1 (x :: l)) ∧ (∃ m, Chain (parseOf "module".toList).1 (y :: m)) ∧ x.path ≠ y.path ∧
      locOf 0 x = locOf 0 y := by
  refine ⟨parseOf_parsed (by decide +kernel) (by decide +kernel), ?_⟩
  have h : (match (Elem.root (parseOf "module".toList).1).descendants.filter (fun e => decide (e.start = e.stop)) with
    | [x, y] => decide (x.path ≠ y.path) && decide (locOf 0 x = locOf 0 y)
    | _ => false) = true := by decide +kernel
  split at h
  · rename_i x y hs
    simp only [Bool.and_eq_true, decide_eq_true_eq] at h
    have hm : ∀ e ∈ [x, y], ∃ l, Chain (parseOf "module".toList).1 (e :: l) := fun e he => by
      rw [← hs] at he
      exact ((mem_descendants _ _).1 (List.mem_filter.1 he).1).2
    exact ⟨x, y, hm x (by simp), hm y (by simp), h.1, h.2⟩
  · cases h

end Verif.Nameres.Locs
