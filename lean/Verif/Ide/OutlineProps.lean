import Verif.Ide.Outline
import Verif.Ide.OrganizeExamples
import Verif.Ide.Extend
import Verif.Documents.Lemmas

/-! What the outline of a document shows. -/

namespace Verif.Outline
open Verif.Parser (Green)
open Verif Verif.Syntax Verif.Ide Verif.Lexer
open Verif.Ide.Usages (parseOf parseOf_parsed Parsed)
open Verif.Documents (Encoding LineIndex lspPosition byteLen lspPosition_spec)
open Verif.Documents.Spec (posOf posFrom)

/-! ### Specification -/

/-- What a declaration is shown as: the kind of its node and of the node around it, and the kind of symbol in the editor. -/
inductive ShownAs : SyntaxKind → Option SyntaxKind → LspKind → Prop where
  | module (p) : ShownAs .MODULE p .Module
  | func (p) : ShownAs .FUN p .Function
  | specFun (p) : ShownAs .SPEC_FUN p .Function
  | specInline (p) : ShownAs .SPEC_INLINE_FUN p .Function
  | lemma (p) : ShownAs .LEMMA p .Function
  | const (p) : ShownAs .CONST p .Constant
  | struct (p) : ShownAs .STRUCT p .Struct
  | schema (p) : ShownAs .SCHEMA p .Struct
  | enum (p) : ShownAs .ENUM p .Enum
  | variant (p) : ShownAs .VARIANT p .EnumMember
  | field (p) : ShownAs .NAMED_FIELD p .Field
  | schemaField : ShownAs .IDENT_PAT (some .SCHEMA_FIELD) .Field
  | binding (p) : p ≠ some .SCHEMA_FIELD → ShownAs .IDENT_PAT p .Variable
  | global (p) : ShownAs .GLOBAL_VARIABLE_DECL p .Variable
  | alias (p) : ShownAs .USE_ALIAS p .Variable
  | typeParam (p) : ShownAs .TYPE_PARAM p .TypeParameter

/-- `n` is the name of `e`: the first of its parts that is a name. -/
def NameOf (e n : Elem) : Prop :=
  ∃ pre post, e.children = pre ++ n :: post ∧ n.green.isTok = false ∧ n.kind = .NAME ∧
    ∀ x ∈ pre, ¬ (x.green.isTok = false ∧ x.kind = .NAME)

/-- The node at the head of the list is in the outline: it is a declaration and has a name. -/
def Listed (c : List Elem) : Prop :=
  ∃ e anc n k, c = e :: anc ∧ ShownAs e.kind (anc.head?.map Elem.kind) k ∧ NameOf e n

/-- The range in the editor is that of the element. -/
def Spans (enc : Encoding) (text : List Char) (e : Elem) (r : Range) : Prop :=
  ∃ pre post, text = pre ++ e.green.text ++ post ∧ blen pre = e.start ∧ r = ⟨posOf enc pre, posOf enc (pre ++ e.green.text)⟩

/-- What is shown for the node at the head of the list. -/
def Shows (enc : Encoding) (text : List Char) (c : List Elem) (it : Item) : Prop :=
  ∃ e anc n, c = e :: anc ∧ NameOf e n ∧ it.name = n.green.text ∧ ShownAs e.kind (anc.head?.map Elem.kind) it.kind ∧
    Spans enc text e it.range ∧ Spans enc text n it.selection

mutual
/-- The part of the outline for the node at the head of the list: the outline is the tree without the nodes that are not listed. -/
inductive Contracts (enc : Encoding) (text : List Char) : List Elem → List (Tree Item) → Prop where
  | token {e anc} : e.green.isTok = true → Contracts enc text (e :: anc) []
  | other {e anc ts} : e.green.isTok = false → ¬ Listed (e :: anc) → Parts enc text (e :: anc) e.children ts →
      Contracts enc text (e :: anc) ts
  | item {e anc it ts} : Shows enc text (e :: anc) it → Parts enc text (e :: anc) e.children ts →
      Contracts enc text (e :: anc) [.mk it ts]
/-- The part of the outline for consecutive children. -/
inductive Parts (enc : Encoding) (text : List Char) : List Elem → List Elem → List (Tree Item) → Prop where
  | nil {anc} : Parts enc text anc [] []
  | cons {anc e es ts ts'} : Contracts enc text (e :: anc) ts → Parts enc text anc es ts' → Parts enc text anc (e :: es) (ts ++ ts')
end

/-- Every name is one token. -/
def Names (g : Green) : Prop :=
  ∀ n l, Chain g (n :: l) → n.green.isTok = false → n.kind = .NAME → ∃ k t, n.green.children = [.tok k t]

/-! ### Proofs -/

theorem byteLen_eq (cs : List Char) : byteLen cs = blen cs := by
  induction cs with
  | nil => rfl
  | cons c cs ih => rw [blen, ← ih]; simp [byteLen]

mutual
/-- The outline as a function of the tree: `f` says what is shown for a node. -/
def forest {β : Type} (f : List Elem → Option β) (anc : List Elem) (path : List Nat) (start : Nat) : Green → List (Tree β)
  | .tok _ _ => []
  | .node k cs =>
    match f (⟨path, start, .node k cs⟩ :: anc) with
    | none => forests f (⟨path, start, .node k cs⟩ :: anc) path 0 start cs
    | some s => [.mk s (forests f (⟨path, start, .node k cs⟩ :: anc) path 0 start cs)]
def forests {β : Type} (f : List Elem → Option β) (anc : List Elem) (path : List Nat) (i start : Nat) : List Green → List (Tree β)
  | [] => []
  | g :: gs => forest f anc (i :: path) start g ++ forests f anc path (i + 1) (start + g.len) gs
end

mutual
/-- A tree as a list with the numbers of the parents, from `base` on. -/
def flat {β : Type} (base : Nat) (p : Option Nat) : Tree β → List (Option Nat × β)
  | .mk v ts => (p, v) :: flats (base + 1) (some base) ts
def flats {β : Type} (base : Nat) (p : Option Nat) : List (Tree β) → List (Option Nat × β)
  | [] => []
  | t :: ts => flat base p t ++ flats (base + (flat base p t).length) p ts
end

theorem flats_append {β : Type} (p : Option Nat) (ts us : List (Tree β)) : ∀ base : Nat,
    flats base p (ts ++ us) = flats base p ts ++ flats (base + (flats base p ts).length) p us := by
  induction ts with
  | nil => intro base; simp [flats]
  | cons t ts ih => intro base; simp [flats, ih, Nat.add_assoc]

theorem steps_append (s : State) (a b : List Event) : steps s (a ++ b) = (steps s a).bind fun s' => steps s' b := by
  induction a generalizing s with
  | nil => rfl
  | cons e a ih =>
    rw [List.cons_append, steps, steps]
    cases s.step e with
    | none => rfl
    | some s' => exact ih s'

mutual
theorem steps_events (f : List Elem → Option Sym) (anc : List Elem) (path : List Nat) (start : Nat) : ∀ g : Green,
    (∀ c ∈ nodeChains anc path start g, structureNode c = some (f c)) → ∀ s : State,
      steps s (events anc path start g) = some ⟨s.res ++ flats s.res.length s.stack.head? (forest f anc path start g), s.stack⟩
  | .tok _ _ => by intro _ s; simp [events, steps, forest, flats]
  | .node k cs => by
    intro h s
    rw [nodeChains] at h
    have h0 := h _ List.mem_cons_self
    have hr := steps_eventss f (⟨path, start, .node k cs⟩ :: anc) path 0 start cs fun c hc => h c (List.mem_cons_of_mem _ hc)
    rw [events, steps, forest, State.step, h0]
    cases hf : f (⟨path, start, .node k cs⟩ :: anc) with
    | none =>
      dsimp only [Option.bind]
      rw [steps_append, hr]
      simp [steps, State.step, h0, hf]
    | some sym =>
      dsimp only [Option.bind]
      rw [steps_append, hr]
      simp [steps, State.step, h0, hf, flats, flat]
theorem steps_eventss (f : List Elem → Option Sym) (anc : List Elem) (path : List Nat) (i start : Nat) : ∀ gs : List Green,
    (∀ c ∈ nodeChainss anc path i start gs, structureNode c = some (f c)) → ∀ s : State,
      steps s (eventss anc path i start gs) = some ⟨s.res ++ flats s.res.length s.stack.head? (forests f anc path i start gs), s.stack⟩
  | [] => by intro _ s; simp [eventss, steps, forests, flats]
  | g :: gs => by
    intro h s
    rw [nodeChainss] at h
    rw [eventss, steps_append, steps_events f anc (i :: path) start g (fun c hc => h c (List.mem_append_left _ hc)),
      Option.bind_some, steps_eventss f anc path (i + 1) (start + g.len) gs (fun c hc => h c (List.mem_append_right _ hc))]
    simp [forests, flats_append]
end

/-! The hierarchy. -/

/-- An entry with no children yet. -/
def leaf {β : Type} (x : Option Nat × β) : Option Nat × Tree β := (x.1, .mk x.2 [])

/-- The list and the result after the trees have been given to the parent, the last first. -/
def give {β : Type} (p : Option Nat) (ts : List (Tree β)) (pre : List (Option Nat × Tree β)) (acc : List (Tree β)) :
    List (Option Nat × Tree β) × List (Tree β) :=
  match p with
  | none => (pre, acc ++ ts.reverse)
  | some i => (pre.modify i fun x => (x.1, .mk x.2.value (x.2.children ++ ts.reverse)), acc)

/-- The parent is in the list. -/
def Fits (p : Option Nat) (n : Nat) : Prop := ∀ i, p = some i → i < n

theorem give_length {β : Type} (p : Option Nat) (ts : List (Tree β)) (pre : List (Option Nat × Tree β)) (acc : List (Tree β)) :
    (give p ts pre acc).1.length = pre.length := by
  cases p <;> simp [give]

theorem give_append {β : Type} {p : Option Nat} {ts : List (Tree β)} {pre : List (Option Nat × Tree β)} {acc : List (Tree β)}
    {q : List (Option Nat × Tree β)} (h : Fits p pre.length) :
    give p ts (pre ++ q) acc = ((give p ts pre acc).1 ++ q, (give p ts pre acc).2) := by
  cases p with
  | none => rfl
  | some i =>
    have := h i rfl
    simp only [give]
    congr 1
    apply List.ext_getElem?
    intro j
    rw [List.getElem?_modify]
    by_cases hj : j < pre.length
    · rw [List.getElem?_append_left hj, List.getElem?_append_left (by simpa using hj), List.getElem?_modify]
    · rw [List.getElem?_append_right (by omega), List.getElem?_append_right (by simp; omega)]
      have : ¬ i = j := by omega
      simp [this]

theorem give_give {β : Type} (p : Option Nat) (ts us : List (Tree β)) (pre : List (Option Nat × Tree β)) (acc : List (Tree β)) :
    give p ts (give p us pre acc).1 (give p us pre acc).2 = give p (ts ++ us) pre acc := by
  cases p with
  | none => simp [give]
  | some i =>
    simp only [give]
    congr 1
    apply List.ext_getElem?
    intro j
    simp only [List.getElem?_modify]
    by_cases h : i = j
    · subst h; cases pre[i]? <;> simp [Tree.value, Tree.children]
    · simp [h]

theorem place_eq {β : Type} {p : Option Nat} {v : β} {ts : List (Tree β)} {pre : List (Option Nat × Tree β)} {acc : List (Tree β)}
    (h : Fits p pre.length) : place pre acc (p, .mk v ts.reverse) = some (give p [.mk v ts] pre acc) := by
  cases p with
  | none => simp [place, give, Tree.value, Tree.children]
  | some i =>
    have hi := h i rfl
    simp only [place, Tree.value, Tree.children, List.reverse_reverse, List.getElem?_eq_getElem hi, give, Option.some.injEq,
      Prod.mk.injEq, and_true, List.reverse_singleton]
    apply List.ext_getElem?
    intro j
    rw [List.getElem?_modify, List.getElem?_set]
    by_cases hj : i = j
    · subst hj; simp [hi]
    · simp [hj]

mutual
theorem build_flat {β : Type} : ∀ (t : Tree β) (p : Option Nat) (pre : List (Option Nat × Tree β)) (acc : List (Tree β)),
    Fits p pre.length →
    build (pre.length + (flat pre.length p t).length) (pre ++ (flat pre.length p t).map leaf) acc =
      build pre.length (give p [t] pre acc).1 (give p [t] pre acc).2
  | .mk v ts, p, pre, acc, h => by
    have ih := build_flats ts (some pre.length) (pre ++ [(p, .mk v [])]) acc (by intro i hi; cases hi; simp)
    rw [List.length_append, List.length_singleton] at ih
    have e1 : pre ++ (flat pre.length p (.mk v ts)).map leaf =
        pre ++ [(p, .mk v [])] ++ (flats (pre.length + 1) (some pre.length) ts).map leaf := by
      rw [flat]; simp [leaf]
    have e2 : pre.length + (flat pre.length p (.mk v ts)).length =
        pre.length + 1 + (flats (pre.length + 1) (some pre.length) ts).length := by
      rw [flat, List.length_cons]; omega
    rw [e1, e2, ih]
    have e3 : give (some pre.length) ts (pre ++ [(p, Tree.mk v [])]) acc = (pre ++ [(p, .mk v ts.reverse)], acc) := by
      simp only [give]
      congr 1
      apply List.ext_getElem?
      intro j
      rw [List.getElem?_modify]
      by_cases hj : pre.length = j
      · subst hj; simp [Tree.value, Tree.children]
      · by_cases hl : j < pre.length
        · rw [List.getElem?_append_left hl, List.getElem?_append_left hl]; simp [hj]
        · rw [List.getElem?_append_right (by omega), List.getElem?_append_right (by omega),
            List.getElem?_eq_none (by simp; omega), List.getElem?_eq_none (by simp; omega)]
          rfl
    rw [e3, build]
    simp only [List.getLast?_append, List.getLast?_singleton, Option.some_or, List.dropLast_concat, place_eq h, Option.bind_some]
theorem build_flats {β : Type} : ∀ (ts : List (Tree β)) (p : Option Nat) (pre : List (Option Nat × Tree β)) (acc : List (Tree β)),
    Fits p pre.length →
    build (pre.length + (flats pre.length p ts).length) (pre ++ (flats pre.length p ts).map leaf) acc =
      build pre.length (give p ts pre acc).1 (give p ts pre acc).2
  | [], p, pre, acc, h => by
    cases p with
    | none => simp [flats, give]
    | some i =>
      simp only [flats, give, List.length_nil, Nat.add_zero, List.map_nil, List.append_nil, List.reverse_nil]
      congr 1
      apply List.ext_getElem?
      intro j
      rw [List.getElem?_modify]
      by_cases hj : i = j
      · subst hj
        cases hp : pre[i]? with
        | none => rfl
        | some x => obtain ⟨a, v, cs⟩ := x; simp [Tree.value, Tree.children]
      · simp [hj]
  | t :: ts, p, pre, acc, h => by
    have ih := build_flats ts p (pre ++ (flat pre.length p t).map leaf) acc
      (by intro i hi; have := h i hi; simp only [List.length_append]; omega)
    rw [List.length_append, List.length_map] at ih
    rw [flats, List.length_append, ← Nat.add_assoc, List.map_append, ← List.append_assoc, ih, give_append h]
    have it := build_flat t p (give p ts pre acc).1 (give p ts pre acc).2 (by rw [give_length]; exact h)
    rw [give_length, give_give] at it
    exact it
end

theorem build_all {β : Type} (ts : List (Tree β)) :
    build (flats 0 none ts).length ((flats 0 none ts).map leaf) [] = some ts := by
  have := build_flats ts none [] [] (by intro i hi; cases hi)
  simpa [give, build] using this

mutual
/-- The tree with other values. -/
def mapT {α β : Type} (f : α → β) : Tree α → Tree β
  | .mk v ts => .mk (f v) (mapTs f ts)
def mapTs {α β : Type} (f : α → β) : List (Tree α) → List (Tree β)
  | [] => []
  | t :: ts => mapT f t :: mapTs f ts
end

theorem mapTs_append {α β : Type} (f : α → β) (ts us : List (Tree α)) : mapTs f (ts ++ us) = mapTs f ts ++ mapTs f us := by
  induction ts with
  | nil => rfl
  | cons t ts ih => simp [mapTs, ih]

mutual
theorem flat_map {α β : Type} (f : α → β) : ∀ (t : Tree α) (base : Nat) (p : Option Nat),
    flat base p (mapT f t) = (flat base p t).map fun x => (x.1, f x.2)
  | .mk v ts, base, p => by simp [mapT, flat, flats_map f ts]
theorem flats_map {α β : Type} (f : α → β) : ∀ (ts : List (Tree α)) (base : Nat) (p : Option Nat),
    flats base p (mapTs f ts) = (flats base p ts).map fun x => (x.1, f x.2)
  | [], base, p => by simp [mapTs, flats]
  | t :: ts, base, p => by simp [mapTs, flats, flat_map f t, flats_map f ts]
end

mutual
theorem forest_map {α β : Type} (f : List Elem → Option α) (h : α → β) (anc : List Elem) (path : List Nat) (start : Nat) : ∀ g : Green,
    mapTs h (forest f anc path start g) = forest (fun c => (f c).map h) anc path start g
  | .tok _ _ => by simp [forest, mapTs]
  | .node k cs => by
    rw [forest, forest]
    cases hf : f (⟨path, start, .node k cs⟩ :: anc) with
    | none => simp [forests_map f h]
    | some s => simp [mapTs, mapT, forests_map f h]
theorem forests_map {α β : Type} (f : List Elem → Option α) (h : α → β) (anc : List Elem) (path : List Nat) (i start : Nat) :
    ∀ gs : List Green, mapTs h (forests f anc path i start gs) = forests (fun c => (f c).map h) anc path i start gs
  | [] => by simp [forests, mapTs]
  | g :: gs => by rw [forests, forests, mapTs_append, forest_map f h, forests_map f h]
end

mutual
/-- Every value in the tree is one of a node. -/
theorem flat_mem {β : Type} (f : List Elem → Option β) (anc : List Elem) (path : List Nat) (start : Nat) : ∀ (g : Green) (base : Nat)
    (p : Option Nat), ∀ x ∈ flats base p (forest f anc path start g), ∃ c ∈ nodeChains anc path start g, f c = some x.2
  | .tok _ _, base, p => by intro x hx; rw [forest, flats] at hx; cases hx
  | .node k cs, base, p => by
    intro x hx
    rw [nodeChains]
    rw [forest] at hx
    cases hf : f (⟨path, start, .node k cs⟩ :: anc) with
    | none =>
      rw [hf] at hx
      obtain ⟨c, hc, e⟩ := flats_mem f _ path 0 start cs base p x hx
      exact ⟨c, List.mem_cons_of_mem _ hc, e⟩
    | some s =>
      rw [hf] at hx
      simp only [flats, flat, List.append_nil] at hx
      rcases List.mem_cons.1 hx with rfl | hx
      · exact ⟨_, List.mem_cons_self, hf⟩
      · obtain ⟨c, hc, e⟩ := flats_mem f _ path 0 start cs _ _ x hx
        exact ⟨c, List.mem_cons_of_mem _ hc, e⟩
theorem flats_mem {β : Type} (f : List Elem → Option β) (anc : List Elem) (path : List Nat) (i start : Nat) : ∀ (gs : List Green)
    (base : Nat) (p : Option Nat), ∀ x ∈ flats base p (forests f anc path i start gs), ∃ c ∈ nodeChainss anc path i start gs, f c = some x.2
  | [], base, p => by intro x hx; rw [forests, flats] at hx; cases hx
  | g :: gs, base, p => by
    intro x hx
    rw [nodeChainss]
    rw [forests, flats_append] at hx
    rcases List.mem_append.1 hx with hx | hx
    · obtain ⟨c, hc, e⟩ := flat_mem f anc (i :: path) start g _ _ x hx
      exact ⟨c, List.mem_append_left _ hc, e⟩
    · obtain ⟨c, hc, e⟩ := flats_mem f anc path (i + 1) (start + g.len) gs _ _ x hx
      exact ⟨c, List.mem_append_right _ hc, e⟩
end

theorem toItems_eq {enc : Encoding} {ix : LineIndex} {h : Sym → Item} : ∀ {ss : List (Option Nat × Sym)},
    (∀ s ∈ ss, toItem enc ix s.2 = some (h s.2)) → toItems enc ix ss = some (ss.map fun s => leaf (s.1, h s.2))
  | [], _ => rfl
  | s :: ss, hs => by
    rw [toItems, hs s List.mem_cons_self, toItems_eq fun x hx => hs x (List.mem_cons_of_mem _ hx)]
    rfl

/-- What the handler does when nothing it looks at panics. -/
theorem documentSymbols_eq {enc : Encoding} {text : List Char} {g : Green} {f : List Elem → Option Sym} {h : Sym → Item}
    (hf : ∀ c ∈ nodeChains [] [] 0 g, structureNode c = some (f c))
    (hh : ∀ c ∈ nodeChains [] [] 0 g, ∀ s, f c = some s → toItem enc (LineIndex.new text) s = some (h s)) :
    documentSymbols enc text g = some (forest (fun c => (f c).map h) [] [] 0 g) := by
  have e1 : fileStructure g = some (flats 0 none (forest f [] [] 0 g)) := by
    rw [fileStructure, steps_events f [] [] 0 g hf]
    simp
  have e2 := toItems_eq (enc := enc) (ix := LineIndex.new text) (h := h) (ss := flats 0 none (forest f [] [] 0 g)) (by
    intro s hs
    obtain ⟨c, hc, e⟩ := flat_mem f [] [] 0 g _ _ s hs
    exact hh c hc _ e)
  have e3 : (flats 0 none (forest f [] [] 0 g)).map (fun s => leaf (s.1, h s.2)) =
      (flats 0 none (forest (fun c => (f c).map h) [] [] 0 g)).map leaf := by
    rw [← forest_map, flats_map, List.map_map]; rfl
  rw [documentSymbols, e1, Option.bind_some, e2, Option.bind_some, e3, List.length_map, build_all]

/-! What is shown for one node. -/

theorem nodeChild_spec {e n : Elem} (h : nodeChild e .NAME = some n) : NameOf e n := by
  rw [nodeChild] at h
  obtain ⟨h1, pre, post, h2, h3⟩ := List.find?_eq_some_iff_append.1 h
  rw [isNode, Bool.and_eq_true] at h1
  refine ⟨pre, post, h2, by simpa using h1.1, by simpa using h1.2, fun x hx hh => ?_⟩
  have := h3 x hx
  rw [isNode, hh.1, hh.2] at this
  simp at this

theorem nodeChild_of {e n : Elem} (h : NameOf e n) : nodeChild e .NAME = some n := by
  obtain ⟨pre, post, h1, h2, h3, h4⟩ := h
  rw [nodeChild, List.find?_eq_some_iff_append]
  refine ⟨by simp [isNode, h2, h3], pre, post, h1, fun x hx => ?_⟩
  have := h4 x hx
  simp only [isNode]
  cases h5 : x.green.isTok
  · simp only [Bool.not_false, Bool.true_and, Bool.not_eq_true', decide_eq_false_iff_not]; exact fun h6 => this ⟨h5, h6⟩
  · rfl

theorem shown_of {k : SyntaxKind} (h : namedElement k = true) (p : Option SyntaxKind) : ShownAs k p (lspKind (symbolKind k p)) := by
  cases k <;> first | (exact absurd h (by decide)) | skip
  case IDENT_PAT =>
    by_cases hp : p = some .SCHEMA_FIELD
    · subst hp; exact .schemaField
    · simp only [symbolKind, if_neg hp]; exact .binding p hp
  all_goals constructor

theorem named_of {k : SyntaxKind} {p : Option SyntaxKind} {l : LspKind} (h : ShownAs k p l) : namedElement k = true := by
  cases h <;> rfl

/-- The range of an element of the tree of a document. -/
theorem spans_of {g : Green} {e : Elem} {l : List Elem} (enc : Encoding) (h : Chain g (e :: l)) :
    ∃ r, lspRange enc (LineIndex.new g.text) (e.start, e.stop) = some r ∧ Spans enc g.text e r := by
  obtain ⟨pre, post, h1, h2⟩ := Verif.Ide.Extend.chain_text h
  refine ⟨⟨posOf enc pre, posOf enc (pre ++ e.green.text)⟩, ?_, pre, post, h1, h2.symm, rfl⟩
  have p1 := lspPosition_spec enc pre (e.green.text ++ post)
  have p2 := lspPosition_spec enc (pre ++ e.green.text) post
  rw [byteLen_eq, ← List.append_assoc, ← h1] at p1
  rw [byteLen_eq, ← h1, blen_append] at p2
  rw [lspRange, h2, p1, Elem.stop, h2, Green.len, p2]
  rfl


/-- One node of a document: nothing panics, and what is shown is right. -/
theorem node_spec {g : Green} (hn : Names g) (enc : Encoding) {e : Elem} {anc : List Elem} (h : Chain g (e :: anc))  :
    ∃ o, structureNode (e :: anc) = some o ∧ (o = none → ¬ Listed (e :: anc)) ∧
      ∀ s, o = some s → ∃ it, toItem enc (LineIndex.new g.text) s = some it ∧ Shows enc g.text (e :: anc) it := by
  rw [structureNode]
  split
  next hk =>
    split
    next hc =>
      refine ⟨none, rfl, fun _ hl => ?_, fun s hs => by cases hs⟩
      obtain ⟨e', anc', n, k, h1, h2, h3⟩ := hl
      cases h1
      rw [nodeChild_of h3] at hc
      cases hc
    next n hc =>
      have hno := nodeChild_spec hc
      obtain ⟨pre, post, h1, h2, h3, h4⟩ := id hno
      have hcn : Chain g (n :: e :: anc) := .child h (by rw [h1]; simp)
      obtain ⟨k, t, h5⟩ := hn n _ hcn h2 h3
      have ht : nameText n = some t := by rw [nameText, h5]
      rw [ht]
      refine ⟨some ⟨t, (n.start, n.stop), (e.start, e.stop), symbolKind e.kind (anc.head?.map Elem.kind)⟩, rfl,
        (fun hh => by cases hh), fun s hs => ?_⟩
      cases hs
      obtain ⟨r, r1, r2⟩ := spans_of enc h
      obtain ⟨q, q1, q2⟩ := spans_of enc hcn
      refine ⟨⟨t, lspKind (symbolKind e.kind (anc.head?.map Elem.kind)), r, q⟩, by rw [toItem, r1, Option.bind_some, q1]; rfl,
        e, anc, n, rfl, hno, ?_, shown_of hk _, r2, q2⟩
      cases hg : n.green with
      | tok k' t' => rw [hg] at h2; cases h2
      | node k' cs =>
        rw [hg] at h5
        have : cs = [.tok k t] := h5
        subst this
        simp [Green.text, Green.leaves, Green.leavesList]
  next hk =>
    refine ⟨none, rfl, fun _ hl => ?_, fun s hs => by cases hs⟩
    obtain ⟨e', anc', n, k, h1, h2, h3⟩ := hl
    cases h1
    exact hk (named_of h2)

mutual
theorem nodes_up {top : Elem} (anc : List Elem) (path : List Nat) (start : Nat) : ∀ g : Green, Up top (⟨path, start, g⟩ :: anc) →
    ∀ c ∈ nodeChains anc path start g, Up top c
  | .tok _ _ => by intro _ c hc; rw [nodeChains] at hc; cases hc
  | .node k cs => by
    intro h c hc
    rw [nodeChains] at hc
    rcases List.mem_cons.1 hc with rfl | hc
    · exact h
    · exact nodes_ups _ path 0 start cs (fun x hx => .child h hx) c hc
theorem nodes_ups {top : Elem} (anc : List Elem) (path : List Nat) (i start : Nat) : ∀ gs : List Green,
    (∀ x ∈ placed path i start gs, Up top (x :: anc)) → ∀ c ∈ nodeChainss anc path i start gs, Up top c
  | [] => by intro _ c hc; rw [nodeChainss] at hc; cases hc
  | g :: gs => by
    intro h c hc
    rw [nodeChainss] at hc
    rcases List.mem_append.1 hc with hc | hc
    · exact nodes_up anc (i :: path) start g (h _ (by rw [placed]; exact List.mem_cons_self)) c hc
    · exact nodes_ups anc path (i + 1) (start + g.len) gs (fun x hx => h x (by rw [placed]; exact List.mem_cons_of_mem _ hx)) c hc
end

theorem nodes_ne (anc : List Elem) (path : List Nat) (start : Nat) (g : Green) {c : List Elem} (h : c ∈ nodeChains anc path start g) :
    Chain g c → ∃ e l, c = e :: l := by
  intro hc
  cases hc with
  | top => exact ⟨_, _, rfl⟩
  | child _ _ => exact ⟨_, _, rfl⟩

mutual
theorem forest_contracts {enc : Encoding} {text : List Char} (F : List Elem → Option Item) (anc : List Elem) (path : List Nat)
    (start : Nat) : ∀ g : Green, (∀ c ∈ nodeChains anc path start g, (F c = none → ¬ Listed c) ∧ ∀ it, F c = some it → Shows enc text c it) →
      Contracts enc text (⟨path, start, g⟩ :: anc) (forest F anc path start g)
  | .tok _ _ => by intro _; rw [forest]; exact .token rfl
  | .node k cs => by
    intro h
    rw [nodeChains] at h
    have hp := forests_parts F (⟨path, start, .node k cs⟩ :: anc) path 0 start cs fun c hc => h c (List.mem_cons_of_mem _ hc)
    obtain ⟨h1, h2⟩ := h _ List.mem_cons_self
    rw [forest]
    cases hf : F (⟨path, start, .node k cs⟩ :: anc) with
    | none => exact .other rfl (h1 hf) hp
    | some it => exact .item (h2 it hf) hp
theorem forests_parts {enc : Encoding} {text : List Char} (F : List Elem → Option Item) (anc : List Elem) (path : List Nat)
    (i start : Nat) : ∀ gs : List Green,
      (∀ c ∈ nodeChainss anc path i start gs, (F c = none → ¬ Listed c) ∧ ∀ it, F c = some it → Shows enc text c it) →
      Parts enc text anc (placed path i start gs) (forests F anc path i start gs)
  | [] => by intro _; rw [forests, placed]; exact .nil
  | g :: gs => by
    intro h
    rw [nodeChainss] at h
    rw [forests, placed]
    exact .cons (forest_contracts F anc (i :: path) start g fun c hc => h c (List.mem_append_left _ hc))
      (forests_parts F anc path (i + 1) (start + g.len) gs fun c hc => h c (List.mem_append_right _ hc))
end

/-- The outline as a function of the tree. -/
theorem outline_eq {g : Green} (hn : Names g) (enc : Encoding) : ∃ F : List Elem → Option Item,
    documentSymbols enc g.text g = some (forest F [] [] 0 g) ∧
    ∀ c ∈ nodeChains [] [] 0 g, (F c = none → ¬ Listed c) ∧ ∀ it, F c = some it → Shows enc g.text c it := by
  let f : List Elem → Option Sym := fun c => (structureNode c).getD none
  let h : Sym → Item := fun s => (toItem enc (LineIndex.new g.text) s).getD ⟨[], .Module, ⟨⟨0, 0⟩, ⟨0, 0⟩⟩, ⟨⟨0, 0⟩, ⟨0, 0⟩⟩⟩
  have key : ∀ c ∈ nodeChains [] [] 0 g, structureNode c = some (f c) ∧ (f c = none → ¬ Listed c) ∧
      ∀ s, f c = some s → toItem enc (LineIndex.new g.text) s = some (h s) ∧ Shows enc g.text c (h s) := by
    intro c hc
    have hch : Chain g c := nodes_up [] [] 0 g .top c hc
    obtain ⟨e, l, rfl⟩ := nodes_ne [] [] 0 g hc hch
    obtain ⟨o, h1, h2, h3⟩ := node_spec hn enc hch
    have hf : f (e :: l) = o := by show (structureNode (e :: l)).getD none = o; rw [h1]; rfl
    refine ⟨by rw [hf, h1], by rw [hf]; exact h2, fun s hs => ?_⟩
    obtain ⟨it, i1, i2⟩ := h3 s (hf ▸ hs)
    have hi : h s = it := by show (toItem enc (LineIndex.new g.text) s).getD _ = it; rw [i1]; rfl
    rw [hi]
    exact ⟨i1, i2⟩
  refine ⟨fun c => (f c).map h, documentSymbols_eq (fun c hc => (key c hc).1) (fun c hc s hs => ((key c hc).2.2 s hs).1), fun c hc => ?_⟩
  obtain ⟨-, k2, k3⟩ := key c hc
  refine ⟨fun hh => k2 (by simpa using hh), fun it hh => ?_⟩
  obtain ⟨s, s1, s2⟩ := Option.map_eq_some_iff.1 hh
  rw [← s2]
  exact (k3 s s1).2

/-- The names in the trees of texts are single tokens. -/
theorem parsed_names {g : Green} (hp : Parsed g) : Names g := by
  obtain ⟨gr, debug, text, fuel, errs, h1, h2, h3, h4⟩ := hp
  intro n l hc _ hk
  obtain ⟨w, hw⟩ := (Verif.Syntax.C72_names h1 h2 h3 h4 hc).1 hk
  exact ⟨.IDENT, w, by rw [hw]; rfl⟩

/-- **C70 (tree).** The outline of a document is its tree without the nodes that are not declarations with a name; each of those
that are is shown with its name, its kind, its range and the range of its name; and nothing panics. -/
theorem C70_tree {g : Green} (hp : Parsed g) (enc : Encoding) :
    ∃ ts, documentSymbols enc g.text g = some ts ∧ Contracts enc g.text [Elem.root g] ts := by
  obtain ⟨F, h1, h2⟩ := outline_eq (parsed_names hp) enc
  exact ⟨_, h1, forest_contracts F [] [] 0 g h2⟩

/-! ### Lists -/

/-- The name of the declaration around, if there is one: that of the nearest of the nodes, from the inside out, that is listed. -/
inductive Around : List Elem → Option (List Char) → Prop where
  | none : Around [] none
  | here {e l n} : Listed (e :: l) → NameOf e n → Around (e :: l) (some n.green.text)
  | outer {e l o} : ¬ Listed (e :: l) → Around l o → Around (e :: l) o

/-- One row for each of the nodes that is listed, in the same order. -/
inductive Rows (enc : Encoding) (text : List Char) : List (List Elem) → List Info → Prop where
  | nil : Rows enc text [] []
  | skip {c cs is} : ¬ Listed c → Rows enc text cs is → Rows enc text (c :: cs) is
  | row {c cs is it o} : Shows enc text c it → Around c.tail o → Rows enc text cs is →
      Rows enc text (c :: cs) (⟨it.name, it.kind, it.range, o⟩ :: is)

theorem Rows.append {enc : Encoding} {text : List Char} {cs cs' : List (List Elem)} {is is' : List Info} (h : Rows enc text cs is)
    (h' : Rows enc text cs' is') : Rows enc text (cs ++ cs') (is ++ is') := by
  induction h with
  | nil => exact h'
  | skip h1 _ ih => exact .skip h1 ih
  | row h1 h2 _ ih => exact .row h1 h2 ih

theorem flattens_append (o : Option (List Char)) (ts us : List (Tree Item)) : flattens o (ts ++ us) = flattens o ts ++ flattens o us := by
  induction ts with
  | nil => simp [flattens]
  | cons t ts ih => simp [flattens, ih]

theorem shows_listed {enc : Encoding} {text : List Char} {c : List Elem} {it : Item} (h : Shows enc text c it) : Listed c := by
  obtain ⟨e, anc, n, h1, h2, h3, h4, -⟩ := h
  exact ⟨e, anc, n, it.kind, h1, h4, h2⟩

mutual
theorem forest_rows {enc : Encoding} {text : List Char} (F : List Elem → Option Item) (anc : List Elem) (path : List Nat)
    (start : Nat) (o : Option (List Char)) (ho : Around anc o) : ∀ g : Green,
    (∀ c ∈ nodeChains anc path start g, (F c = none → ¬ Listed c) ∧ ∀ it, F c = some it → Shows enc text c it) →
      Rows enc text (nodeChains anc path start g) (flattens o (forest F anc path start g))
  | .tok _ _ => by intro _; rw [forest, nodeChains, flattens]; exact .nil
  | .node k cs => by
    intro h
    rw [nodeChains] at h ⊢
    obtain ⟨h1, h2⟩ := h _ List.mem_cons_self
    rw [forest]
    cases hf : F (⟨path, start, .node k cs⟩ :: anc) with
    | none => exact .skip (h1 hf) (forests_rows F _ path 0 start o (.outer (h1 hf) ho) cs fun c hc => h c (List.mem_cons_of_mem _ hc))
    | some it =>
      have hs := h2 it hf
      obtain ⟨e, anc', n, e1, e2, e3, -⟩ := id hs
      cases e1
      have hr := forests_rows F (⟨path, start, .node k cs⟩ :: anc) path 0 start (some it.name)
        (by rw [e3]; exact .here (shows_listed hs) e2) cs fun c hc => h c (List.mem_cons_of_mem _ hc)
      simp only [flattens, flatten, List.append_nil]
      exact .row hs ho hr
theorem forests_rows {enc : Encoding} {text : List Char} (F : List Elem → Option Item) (anc : List Elem) (path : List Nat)
    (i start : Nat) (o : Option (List Char)) (ho : Around anc o) : ∀ gs : List Green,
    (∀ c ∈ nodeChainss anc path i start gs, (F c = none → ¬ Listed c) ∧ ∀ it, F c = some it → Shows enc text c it) →
      Rows enc text (nodeChainss anc path i start gs) (flattens o (forests F anc path i start gs))
  | [] => by intro _; rw [forests, nodeChainss, flattens]; exact .nil
  | g :: gs => by
    intro h
    rw [nodeChainss] at h ⊢
    rw [forests, flattens_append]
    exact (forest_rows F anc (i :: path) start o ho g fun c hc => h c (List.mem_append_left _ hc)).append
      (forests_rows F anc path (i + 1) (start + g.len) o ho gs fun c hc => h c (List.mem_append_right _ hc))
end

/-- **C70 (list).** A client without trees gets one row for each declaration with a name, in the order of the document, with the
name of the declaration around it. -/
theorem C70_list {g : Green} (hp : Parsed g) (enc : Encoding) :
    ∃ is, symbolInformation enc g.text g = some is ∧ Rows enc g.text (nodeChains [] [] 0 g) is := by
  obtain ⟨F, h1, h2⟩ := outline_eq (parsed_names hp) enc
  exact ⟨_, by rw [symbolInformation, h1]; rfl, forest_rows F [] [] 0 none .none g h2⟩

/-! ### Ranges -/

/-- The trees are one after the other between two positions, each with its name and its children inside. -/
inductive Inside : Pos → Pos → List (Tree Item) → Prop where
  | nil {a b} : a.le b → Inside a b []
  | cons {a b it ts us} : a.le it.range.start → it.range.start.le it.selection.start → it.selection.start.le it.selection.stop →
      it.selection.stop.le it.range.stop → Inside it.range.start it.range.stop ts → Inside it.range.stop b us →
      Inside a b (.mk it ts :: us)

/-- The position of an offset. -/
def At (enc : Encoding) (text : List Char) (o : Nat) (p : Pos) : Prop := ∃ a b, text = a ++ b ∧ blen a = o ∧ p = posOf enc a

theorem posFrom_le (enc : Encoding) : ∀ (cs : List Char) (l c : Nat), (⟨l, c⟩ : Pos).le (posFrom enc l c cs)
  | [], l, c => Pos.le_refl _
  | x :: cs, l, c => by
    rw [posFrom]
    split
    · exact Pos.le_trans (.inl (Nat.lt_succ_self l)) (posFrom_le enc cs (l + 1) 0)
    · exact Pos.le_trans (b := ⟨l, c + Documents.Spec.units enc x⟩) (.inr ⟨rfl, Nat.le_add_right c _⟩) (posFrom_le enc cs l (c + Documents.Spec.units enc x))

theorem posFrom_append (enc : Encoding) : ∀ (a b : List Char) (l c : Nat),
    posFrom enc l c (a ++ b) = posFrom enc (posFrom enc l c a).line (posFrom enc l c a).character b
  | [], b, l, c => rfl
  | x :: a, b, l, c => by
    rw [List.cons_append, posFrom, posFrom]
    split
    · exact posFrom_append enc a b _ _
    · exact posFrom_append enc a b _ _

theorem posOf_le (enc : Encoding) (a b : List Char) : (posOf enc a).le (posOf enc (a ++ b)) := by
  rw [posOf, posOf, posFrom_append]
  exact posFrom_le enc b _ _

theorem At.le {enc : Encoding} {text : List Char} {o o' : Nat} {p p' : Pos} (h : At enc text o p) (h' : At enc text o' p') (ho : o ≤ o') :
    p.le p' := by
  obtain ⟨a, b, e1, e2, rfl⟩ := h
  obtain ⟨a', b', e1', e2', rfl⟩ := h'
  obtain ⟨z, rfl⟩ := Verif.Documents.prefix_of_byteLen_le (e1.symm.trans e1') (by rw [byteLen_eq, byteLen_eq]; omega)
  exact posOf_le enc a z

theorem Spans.at {enc : Encoding} {text : List Char} {e : Elem} {r : Range} (h : Spans enc text e r) :
    At enc text e.start r.start ∧ At enc text e.stop r.stop := by
  obtain ⟨pre, post, h1, h2, rfl⟩ := h
  exact ⟨⟨pre, e.green.text ++ post, by rw [h1, List.append_assoc], h2, rfl⟩,
    ⟨pre ++ e.green.text, post, h1, by rw [blen_append, h2]; rfl, rfl⟩⟩

theorem Inside.append {a b c : Pos} {ts us : List (Tree Item)} (h : Inside a b ts) (h' : Inside b c us) : Inside a c (ts ++ us) := by
  induction h with
  | nil hl =>
    cases h' with
    | nil hr => exact .nil (Pos.le_trans hl hr)
    | cons h1 h2 h3 h4 h5 h6 => exact .cons (Pos.le_trans hl h1) h2 h3 h4 h5 h6
  | cons h1 h2 h3 h4 h5 _ _ ih => exact .cons h1 h2 h3 h4 h5 (ih h')

theorem elem_le (e : Elem) : e.start ≤ e.stop := Nat.le_add_right _ _

theorem nameOf_mem {e n : Elem} (h : NameOf e n) : n ∈ e.children := by
  obtain ⟨pre, post, h1, -⟩ := h
  rw [h1]; simp

/-- The ends of an element of a document are at positions. -/
theorem chain_at {g : Green} {e : Elem} {l : List Elem} (enc : Encoding) (h : Chain g (e :: l)) :
    (∃ p, At enc g.text e.start p) ∧ ∃ p, At enc g.text e.stop p := by
  obtain ⟨r, -, hr⟩ := spans_of enc h
  exact ⟨⟨_, hr.at.1⟩, ⟨_, hr.at.2⟩⟩

mutual
theorem forest_inside {root : Green} {enc : Encoding} (F : List Elem → Option Item) (anc : List Elem) (path : List Nat)
    (start : Nat) : ∀ g : Green, Chain root (⟨path, start, g⟩ :: anc) →
    (∀ c ∈ nodeChains anc path start g, ∀ it, F c = some it → Shows enc root.text c it) → ∀ p q, At enc root.text start p →
      At enc root.text (start + g.len) q → Inside p q (forest F anc path start g)
  | .tok _ _ => by intro _ _ p q hp hq; rw [forest]; exact .nil (hp.le hq (by omega))
  | .node k cs => by
    intro hch h p q hp hq
    rw [nodeChains] at h
    rw [forest]
    have hr : ∀ p q, At enc root.text start p → At enc root.text (start + (Green.node k cs).len) q →
        Inside p q (forests F (⟨path, start, .node k cs⟩ :: anc) path 0 start cs) := by
      intro p q hp hq
      refine forests_inside F (⟨path, start, .node k cs⟩ :: anc) path 0 start cs (fun x hx => .child hch hx)
        (fun c hc => h c (List.mem_cons_of_mem _ hc)) p q hp ?_
      rw [← Green.len_node]; exact hq
    cases hf : F (⟨path, start, .node k cs⟩ :: anc) with
    | none => exact hr p q hp hq
    | some it =>
      obtain ⟨e, anc', n, e1, e2, e3, e4, e5, e6⟩ := h _ List.mem_cons_self it hf
      cases e1
      have hm := Elem.mem_children (nameOf_mem e2)
      exact .cons (hp.le e5.at.1 (Nat.le_refl _)) (e5.at.1.le e6.at.1 hm.2.1) (e6.at.1.le e6.at.2 (elem_le n))
        (e6.at.2.le e5.at.2 hm.2.2.1) (hr _ _ e5.at.1 e5.at.2) (.nil (e5.at.2.le hq (Nat.le_refl _)))
theorem forests_inside {root : Green} {enc : Encoding} (F : List Elem → Option Item) (anc : List Elem) (path : List Nat)
    (i start : Nat) : ∀ gs : List Green, (∀ x ∈ placed path i start gs, Chain root (x :: anc)) →
    (∀ c ∈ nodeChainss anc path i start gs, ∀ it, F c = some it → Shows enc root.text c it) → ∀ p q, At enc root.text start p →
      At enc root.text (start + (gs.map Green.len).sum) q → Inside p q (forests F anc path i start gs)
  | [] => by intro _ _ p q hp hq; rw [forests]; exact .nil (hp.le hq (by omega))
  | g :: gs => by
    intro hch h p q hp hq
    rw [nodeChainss] at h
    rw [placed] at hch
    rw [forests]
    have h0 := hch _ List.mem_cons_self
    obtain ⟨-, m, hm⟩ := chain_at enc h0
    refine (forest_inside F anc (i :: path) start g h0 (fun c hc => h c (List.mem_append_left _ hc)) p m hp hm).append
      (forests_inside F anc path (i + 1) (start + g.len) gs (fun x hx => hch x (List.mem_cons_of_mem _ hx))
        (fun c hc => h c (List.mem_append_right _ hc)) m q hm ?_)
    rw [List.map_cons, List.sum_cons, ← Nat.add_assoc] at hq
    exact hq
end

/-- **C70 (ranges).** In the outline the range of a declaration has that of its name and those of the declarations in it inside,
and declarations side by side do not overlap and come in the order of the document. -/
theorem C70_ranges {g : Green} (hp : Parsed g) (enc : Encoding) {ts : List (Tree Item)} (h : documentSymbols enc g.text g = some ts) :
    Inside ⟨0, 0⟩ (posOf enc g.text) ts := by
  obtain ⟨F, h1, h2⟩ := outline_eq (parsed_names hp) enc
  rw [h] at h1
  cases h1
  exact forest_inside F [] [] 0 g .top (fun c hc => (h2 c hc).2) _ _ ⟨[], g.text, rfl, rfl, rfl⟩
    ⟨g.text, [], by simp, by rw [Nat.zero_add]; rfl, rfl⟩

/-! ### Examples -/

/-- A module with a struct, an enum and a function. -/
def outlineText : List Char :=
  "module 0x1::m {\n  struct S { f: u8 }\n  enum E { A { x: u8 }, B }\n  fun g<T>() {\n    let y = 1;\n  }\n}".toList

theorem outlineText_parsed : Parsed (parseOf outlineText).1 := parseOf_parsed (by decide) (by decide +kernel)

theorem outlineText_text : (parseOf outlineText).2 = true ∧ (parseOf outlineText).1.text = outlineText := by decide +kernel

/-- The hypothesis holds of a parsed text; the rows are those of its declarations. -/
example : Parsed (parseOf outlineText).1 ∧
    symbolInformation .utf16 outlineText (parseOf outlineText).1 = some [
      ⟨['m'], .Module, ⟨⟨0, 0⟩, ⟨6, 1⟩⟩, none⟩,
      ⟨['S'], .Struct, ⟨⟨1, 2⟩, ⟨1, 20⟩⟩, some ['m']⟩,
      ⟨['f'], .Field, ⟨⟨1, 13⟩, ⟨1, 18⟩⟩, some ['S']⟩,
      ⟨['E'], .Enum, ⟨⟨2, 2⟩, ⟨2, 27⟩⟩, some ['m']⟩,
      ⟨['A'], .EnumMember, ⟨⟨2, 11⟩, ⟨2, 22⟩⟩, some ['E']⟩,
      ⟨['x'], .Field, ⟨⟨2, 15⟩, ⟨2, 20⟩⟩, some ['A']⟩,
      ⟨['B'], .EnumMember, ⟨⟨2, 24⟩, ⟨2, 25⟩⟩, some ['E']⟩,
      ⟨['g'], .Function, ⟨⟨3, 2⟩, ⟨5, 3⟩⟩, some ['m']⟩,
      ⟨['T'], .TypeParameter, ⟨⟨3, 8⟩, ⟨3, 9⟩⟩, some ['g']⟩,
      ⟨['y'], .Variable, ⟨⟨4, 8⟩, ⟨4, 9⟩⟩, some ['g']⟩] :=
  ⟨outlineText_parsed, by decide +kernel⟩

end Verif.Outline
