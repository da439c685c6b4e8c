import Verif.Ide.OrganizeFile
import Verif.Ide.ImportsExamples
import Verif.Ide.QuickFix

/-! C68: examples, and what "Organize imports" gets wrong. -/

namespace Verif.Ide.Organize
open Verif.Parser (Green)
open Verif.Syntax Verif.Nameres Verif.Editor
open Verif.Ide.Usages (parseOf)
open Verif.TextEdit.TreeDiff (Solid Below)

/-! ### Checks of the conditions -/

mutual
/-- No element of it is empty. -/
def full : Green → Bool
  | .tok _ t => !t.isEmpty
  | .node _ cs => cs.any (fun c => !c.text.isEmpty) && fulls cs
def fulls : List Green → Bool
  | [] => true
  | g :: gs => full g && fulls gs
end

theorem fulls_mem {gs : List Green} (h : fulls gs = true) : ∀ g ∈ gs, full g = true := by
  induction gs with
  | nil => simp
  | cons g gs ih =>
    rw [fulls, Bool.and_eq_true] at h
    intro x hx
    rcases List.mem_cons.1 hx with rfl | hx
    · exact h.1
    · exact ih h.2 x hx

theorem texts_ne {gs : List Green} {c : Green} (h : c ∈ gs) (ht : c.text ≠ []) : ((Green.leavesList gs).flatMap fun x => x.2) ≠ [] := by
  induction gs with
  | nil => cases h
  | cons g gs ih =>
    rw [Green.leavesList, List.flatMap_append]
    rcases List.mem_cons.1 h with rfl | h
    · exact fun h' => ht (List.append_eq_nil_iff.1 h').1
    · exact fun h' => ih h (List.append_eq_nil_iff.1 h').2

theorem full_ne {g : Green} (h : full g = true) : g.text ≠ [] := by
  cases g with
  | tok k t =>
    rw [full] at h
    intro h'
    simp [Green.text, Green.leaves] at h'
    rw [h'] at h
    simp at h
  | node k cs =>
    rw [full, Bool.and_eq_true, List.any_eq_true] at h
    obtain ⟨c, hc, ht⟩ := h.1
    exact texts_ne hc (by intro h'; rw [h'] at ht; simp at ht)

theorem full_below {x g : Green} (hx : Below x g) (h : fulls g.children = true) : full x = true := by
  induction hx with
  | child hc => exact fulls_mem h _ hc
  | @step c g hc _ ih =>
    refine ih ?_
    have := fulls_mem h _ hc
    cases c with
    | tok k t => rfl
    | node k cs => rw [full, Bool.and_eq_true] at this; exact this.2

theorem solid_of {g : Green} (h : fulls g.children = true) : Solid g := fun _ hx => full_ne (full_below hx h)

mutual
theorem nodes_closed (anc : List Elem) (path : List Nat) (start : Nat) : ∀ g : Green, ∀ p ps c, (p :: ps) ∈ nodeChains anc path start g →
    c ∈ p.children → c.green.isTok = false → (c :: p :: ps) ∈ nodeChains anc path start g
  | .tok _ _ => by intro p ps c h; rw [nodeChains] at h; cases h
  | .node k cs => by
    intro p ps c h hc ht
    rw [nodeChains] at h ⊢
    rcases List.mem_cons.1 h with h | h
    · obtain ⟨rfl, rfl⟩ := List.cons.inj h
      exact List.mem_cons_of_mem _ (nodes_start _ path 0 start cs c hc ht)
    · exact List.mem_cons_of_mem _ (nodes_closeds _ path 0 start cs p ps c h hc ht)
theorem nodes_closeds (anc : List Elem) (path : List Nat) (i start : Nat) : ∀ gs : List Green, ∀ p ps c,
    (p :: ps) ∈ nodeChainss anc path i start gs → c ∈ p.children → c.green.isTok = false → (c :: p :: ps) ∈ nodeChainss anc path i start gs
  | [] => by intro p ps c h; rw [nodeChainss] at h; cases h
  | g :: gs => by
    intro p ps c h hc ht
    rw [nodeChainss] at h ⊢
    rcases List.mem_append.1 h with h | h
    · exact List.mem_append_left _ (nodes_closed anc (i :: path) start g p ps c h hc ht)
    · exact List.mem_append_right _ (nodes_closeds anc path (i + 1) (start + g.len) gs p ps c h hc ht)
theorem nodes_start (anc : List Elem) (path : List Nat) (i start : Nat) : ∀ gs : List Green, ∀ c ∈ placed path i start gs,
    c.green.isTok = false → (c :: anc) ∈ nodeChainss anc path i start gs
  | [] => by intro c h; cases h
  | g :: gs => by
    intro c h ht
    rw [nodeChainss]
    rw [placed] at h
    rcases List.mem_cons.1 h with rfl | h
    · refine List.mem_append_left _ ?_
      cases g with
      | tok k t => cases ht
      | node k cs => rw [nodeChains]; exact List.mem_cons_self
    · exact List.mem_append_right _ (nodes_start anc path (i + 1) (start + g.len) gs c h ht)
end

/-- The nodes of a tree are all of its nodes. -/
theorem nodes_all {g : Green} {s : Site} (h : Chain g s) (ht : s.elem.green.isTok = false) : s ∈ nodeChains [] [] 0 g := by
  induction h with
  | top =>
    cases g with
    | tok k t => cases ht
    | node k cs => rw [nodeChains]; exact List.mem_cons_self
  | @child c p ps hp hc ih =>
    exact nodes_closed [] [] 0 g p ps c (ih (Elem.mem_children hc).2.2.2.2) hc ht

def uniqueCheck (g : Green) : Bool :=
  (nodeChains [] [] 0 g).all fun s => s.tail.all fun a => !(decide (a.kind = (Site.elem s).kind) && a.start == (Site.elem s).start && a.stop == (Site.elem s).stop)

theorem unique_of {g : Green} (h : uniqueCheck g = true) {s : Site} (hs : Chain g s) : Editor.Unique s := by
  have hn : ∀ n : Site, Chain g n → n.elem.green.isTok = false →
      ∀ a ∈ n.tail, ¬ (a.kind = n.elem.kind ∧ a.start = n.elem.start ∧ a.stop = n.elem.stop) := by
    intro n hc ht a ha hh
    have := List.all_eq_true.1 (List.all_eq_true.1 h n (nodes_all hc ht)) a ha
    simp [hh.1, hh.2.1, hh.2.2] at this
  unfold Editor.Unique
  dsimp only
  split
  · cases hs with
    | top => intro a ha; cases ha
    | @child c p ps hp hc => exact hn _ hp (Elem.mem_children hc).2.2.2.2
  · rename_i ht
    exact hn s hs (by simpa using ht)

def flatCheck (g : Green) : Bool :=
  (nodeChains [] [] 0 g).all fun s => !isNode .USE_STMT (Site.elem s) || s.tail.all fun a => !isNode .USE_STMT a

theorem flat_of {g : Green} (h : flatCheck g = true) : Flat g := by
  intro s t hs ht hsu htu hst
  have hsuf := chain_through hs ht hst
  have := List.all_eq_true.1 h t (nodes_all ht (node_of htu))
  rw [htu, Bool.not_true, Bool.false_or] at this
  cases ht with
  | top =>
    rcases List.suffix_cons_iff.1 hsuf with h1 | h1
    · exact h1
    · have := List.suffix_nil.1 h1
      subst this
      cases hs
  | @child c p ps hp hc =>
    rcases List.suffix_cons_iff.1 hsuf with h1 | h1
    · exact h1
    · have hh := chain_head hs
      have hmem : s.elem ∈ (p :: ps : List Elem) := by
        refine h1.subset ?_
        exact List.mem_of_mem_head? (by rw [hh]; rfl)
      have := List.all_eq_true.1 this _ hmem
      rw [hsu] at this
      cases this

def onceCheck (w : Project) (f : Factory) (file : Nat) : Bool := (owners (w.tree file)).all fun o => match unusedUseItems w file o with
  | none => true
  | some unused => (useStmts (Site.elem o)).all fun s => match unusedKind w ⟨file, Site.elem o, s⟩ (unused.filter (Stmt.has ⟨file, Site.elem o, s⟩)) with
    | none => true
    | some m => decide (olds (removeIn f (s :: o) m)).Nodup

theorem once_of {w : Project} {f : Factory} {file : Nat} (h : onceCheck w f file = true) : Once w f file := by
  intro o ho unused hu s hs m hm
  have := List.all_eq_true.1 h o ho
  rw [hu] at this
  have := List.all_eq_true.1 this s hs
  rw [hm] at this
  exact of_decide_eq_true this

def testCheck (w : Project) (file : Nat) : Bool := (owners (w.tree file)).all fun o => match testOnlyUseItems w file o with
  | none => true
  | some broad => broad.isEmpty

theorem test_of {w : Project} {file : Nat} (h : testCheck w file = true) :
    ∀ o ∈ owners (w.tree file), ∀ broad, testOnlyUseItems w file o = some broad → broad = [] := by
  intro o ho broad hb
  have := List.all_eq_true.1 h o ho
  rw [hb] at this
  exact List.isEmpty_iff.1 this

/-! ### The trees that are built from text -/

/-- The first node of a kind in a module with the text in it (syntax_factory.rs:71). -/
def built (k : SyntaxKind) (text : List Char) : Green :=
  .node k ((firstNode k (parseOf ("module 0x1::m { ".toList ++ text ++ " }".toList)).1).getD [])

/-- The text of the use speck of a statement. -/
def stmtSpeck (g : Green) : List Char := (Green.node .USE_SPECK ((firstNode .USE_SPECK g).getD [])).text

/-- The path of the use speck of a statement. -/
def speckPath (g : Green) : List Char := (Green.node .PATH ((firstNode .PATH g).getD [])).text

/-- The parser behind the factory (syntax_factory/uses.rs), without indentation. -/
def parsed : Factory where
  speck := fun t => built .USE_SPECK ("use ".toList ++ t)
  attributed := fun g => built .USE_STMT ("#[test_only]\nuse ".toList ++ stmtSpeck g ++ [';'])
  testLine := fun g s => [.tok .WHITESPACE ['\n'],
    built .USE_STMT ("#[test_only]\nuse ".toList ++ speckPath g ++ "::".toList ++ s.text ++ [';'])]

/-- What the user gets: the new text, or nothing. -/
def outcome (text : List Char) : Option (List Char) := match finish (parseOf text).1 (organize (oneFile text) parsed 0) with
  | .done g => some g.text
  | _ => none

/-- What there is to do: how many items are unused, and used in tests only. -/
def todo (text : List Char) : Option Nat × Option Nat :=
  ((unusedUseItems (oneFile text) 0 (nodeIn text .MODULE 0)).map List.length, (testOnlyUseItems (oneFile text) 0 (nodeIn text .MODULE 0)).map List.length)

def refused (text : List Char) : Bool := match finish (parseOf text).1 (organize (oneFile text) parsed 0) with
  | .refused => true
  | _ => false

def panics (text : List Char) : Bool := match finish (parseOf text).1 (organize (oneFile text) parsed 0) with
  | .panic => true
  | _ => false

/-! ### What goes wrong -/

def firstText : List Char := "module 0x1::m{use 0x1::n::{b, c, x, y};fun f(){x();y()}}".toList
def lastText : List Char := "module 0x1::m{use 0x1::n::{x,y,b,c};fun f(){x();y()}}".toList
def mixedText : List Char := "module 0x1::m{use 0x1::n::{a,b};#[test]fun f(){b()}}".toList
def testsText : List Char := "module 0x1::m{use 0x1::n::{a, b, c};#[test]fun f(){a();b()}fun g(){c()}}".toList
def groupText : List Char := "module 0x1::m{use 0x1::n::{a};#[test]fun f(){a()}}".toList

/-- The first two of four items are unused. Nothing happens, not even to the other imports of the file. -/
theorem C68_organize_first_fails : (parseOf firstText).2 = true ∧ todo firstText = (some 2, some 0) ∧ refused firstText = true := by
  decide +kernel

/-- The last two of four items are unused. -/
theorem C68_organize_last_fails : (parseOf lastText).2 = true ∧ todo lastText = (some 2, some 0) ∧ refused lastText = true := by
  decide +kernel

/-- One item of a group is unused, another one is used in tests only: nothing happens. -/
theorem C68_organize_mixed_fails : (parseOf mixedText).2 = true ∧ todo mixedText = (some 1, some 1) ∧ refused mixedText = true := by
  decide +kernel

/-- Two of three items of a group are used in tests only: nothing happens. -/
theorem C68_organize_tests_fails : (parseOf testsText).2 = true ∧ todo testsText = (some 0, some 2) ∧ refused testsText = true := by
  decide +kernel

/-- A group of one item that is used in tests only: the editor panics. -/
theorem C68_organize_group_fails : (parseOf groupText).2 = true ∧ todo groupText = (some 0, some 1) ∧ panics groupText = true := by
  decide +kernel

/-! ### Cases of the theorems -/

def goodText : List Char := "module 0x1::m{use 0x1::n::{x, b, c, y};use 0x1::k;fun f(){x();y()}}".toList

theorem good_solid : Solid (parseOf goodText).1 := solid_of (by decide +kernel)
theorem good_unique {s : Site} (h : Chain (parseOf goodText).1 s) : Editor.Unique s := unique_of (by decide +kernel) h
theorem good_flat : Flat (parseOf goodText).1 := flat_of (by decide +kernel)

/-- Three of five imports are unused. -/
example : todo goodText = (some 3, some 0) ∧
    outcome goodText = some "module 0x1::m{use 0x1::n::{x, y};fun f(){x();y()}}".toList := by decide +kernel

example : ∃ new es, finish (parseOf goodText).1 (organize (oneFile goodText) parsed 0) = .done new ∧
    es.Perm ((organize (oneFile goodText) parsed 0).map Change.text) ∧ (es.Pairwise fun a b => a.stop ≤ b.start) ∧
    encode new.text = TextEdit.Spec.splice 0 es (encode (parseOf goodText).1.text) :=
  C68_organize_partial (oneFile goodText) parsed 0 good_solid (fun _ h => good_unique h) good_flat (test_of (by decide +kernel))
    (once_of (by decide +kernel))

theorem getD_mem {l : List (List Elem)} {n : Nat} (h : l[n]?.getD [] ≠ []) : l[n]?.getD [] ∈ l := by
  cases hx : l[n]? with
  | none => rw [hx] at h; exact absurd rfl h
  | some s => exact List.mem_of_getElem? hx

theorem nodeIn_chain {text : List Char} {k : SyntaxKind} {n : Nat} (h : nodeIn text k n ≠ []) : Chain (parseOf text).1 (nodeIn text k n) :=
  (nodes_up [] [] 0 _ .top _ (List.mem_filter.1 (getD_mem h)).1).1

theorem ne_of_length {l : List Elem} (h : l.length ≠ 0) : l ≠ [] := by
  rintro rfl
  exact h rfl

/-- The first group of a text. -/
def groupIn (text : List Char) : Site := nodeIn text .USE_GROUP 0

/-- The statement of the first group of a text. -/
def stmtIn (text : List Char) : Site := nodeIn text .USE_STMT 0

theorem group_known {text : List Char} (hn : (groupIn text).length ≠ 0) (hu : uniqueCheck (parseOf text).1 = true) :
    ∀ c ∈ (groupIn text).elem.children, Known (parseOf text).1 (c :: (groupIn text).elem :: (groupIn text).tail) := by
  intro c hc
  have h := nodeIn_chain (ne_of_length hn)
  have he : (groupIn text).elem :: (groupIn text).tail = nodeIn text .USE_GROUP 0 := by
    have : groupIn text ≠ [] := ne_of_length hn
    unfold groupIn at this ⊢
    cases hx : nodeIn text .USE_GROUP 0 with
    | nil => exact absurd hx this
    | cons p ps => rfl
  rw [he]
  have hch : Chain (parseOf text).1 (c :: nodeIn text .USE_GROUP 0) := by
    rw [← he] at h ⊢
    exact .child h hc
  exact ⟨hch, unique_of hu hch⟩

/-- The second item of the group is taken out. -/
example : ∃ e A M B new, e ∈ (groupIn goodText).elem.children ∧ ItemRun e A M B ∧ (groupIn goodText).elem.children = A ++ M ++ B ∧
    finish (parseOf goodText).1 (deleteSpeck (e :: (groupIn goodText).elem :: (groupIn goodText).tail)) = .done new := by
  have h1 : ((groupIn goodText).elem.children[4]?.map trivia) = some false := by decide +kernel
  obtain ⟨e, he, ht⟩ := Option.map_eq_some_iff.1 h1
  have hmem := List.mem_of_getElem? he
  obtain ⟨A, M, B, new, h1, h2, h3, -⟩ := C68_item good_solid (group_known (by decide +kernel) (by decide +kernel)) hmem ht
  exact ⟨e, A, M, B, new, hmem, h2, h1, h3⟩

/-- An element of the group. -/
def itemIn (text : List Char) (n : Nat) : Elem := (groupIn text).elem.children[n]?.getD (Elem.root (parseOf text).1)

theorem item_at {l : List Elem} {n : Nat} {d : Elem} (h : n < l.length) : l[n]?.getD d = l[n] := by
  rw [List.getElem?_eq_getElem h]
  rfl

theorem items_split {l : List Elem} (d : Elem) (h : 8 < l.length) :
    l = l.take 1 ++ l[1]?.getD d :: l[2]?.getD d :: l[3]?.getD d :: l[4]?.getD d :: l.drop 5 ∧
    l = l.take 5 ++ l[5]?.getD d :: ([] ++ l[6]?.getD d :: ([] ++ l[7]?.getD d :: l.drop 8)) := by
  match l, h with
  | a :: b :: c :: e :: f :: g :: i :: j :: k :: rest, _ => simp

theorem item_mem {text : List Char} {n : Nat} (h : n < (groupIn text).elem.children.length) :
    itemIn text n ∈ (groupIn text).elem.children := by
  unfold itemIn
  rw [item_at h]
  exact List.getElem_mem h

/-- The first two items of a group. -/
example : finish (parseOf firstText).1 (deleteSpecks parsed (stmtIn firstText)
    ([itemIn firstText 1, itemIn firstText 4].map (· :: (groupIn firstText).elem :: (groupIn firstText).tail))) = .refused :=
  C68_first_two_fails parsed (c := itemIn firstText 2) (w := itemIn firstText 3) (solid_of (by decide +kernel))
    (group_known (by decide +kernel) (by decide +kernel))
    (by
      intro e he
      simp only [List.mem_cons, List.not_mem_nil, or_false] at he
      rcases he with rfl | rfl <;> exact item_mem (by decide +kernel))
    (by decide +kernel) (by decide +kernel) (items_split _ (by decide +kernel)).1 (by decide +kernel) (by decide +kernel)
    (by decide +kernel) (by decide +kernel) (List.mem_cons_self) (List.mem_cons_of_mem _ List.mem_cons_self)

/-- The last two. -/
example : finish (parseOf lastText).1 (deleteSpecks parsed (stmtIn lastText)
    ([itemIn lastText 5, itemIn lastText 7].map (· :: (groupIn lastText).elem :: (groupIn lastText).tail))) = .refused :=
  C68_last_two_fails parsed (c := itemIn lastText 6) (tv := []) (pv := []) (solid_of (by decide +kernel))
    (group_known (by decide +kernel) (by decide +kernel))
    (by
      intro e he
      simp only [List.mem_cons, List.not_mem_nil, or_false] at he
      rcases he with rfl | rfl <;> exact item_mem (by decide +kernel))
    (by decide +kernel) (items_split _ (by decide +kernel)).2 (by simp) (by simp) (by decide +kernel) (by decide +kernel)
    (List.mem_cons_self) (List.mem_cons_of_mem _ List.mem_cons_self)

/-- Two items in the middle are taken out. -/
example : ∃ new, finish (parseOf goodText).1 (deleteSpecks parsed (stmtIn goodText)
    ([itemIn goodText 4, itemIn goodText 7].map (· :: (groupIn goodText).elem :: (groupIn goodText).tail))) = .done new := by
  obtain ⟨new, es, h, -⟩ := (C68_group_partial parsed (stmt := stmtIn goodText) (us := [itemIn goodText 4, itemIn goodText 7]) good_solid
    (group_known (by decide +kernel) (by decide +kernel))
    (by
      intro e he
      simp only [List.mem_cons, List.not_mem_nil, or_false] at he
      rcases he with rfl | rfl <;> exact item_mem (by decide +kernel))
    (by decide +kernel)).1 (by decide +kernel)
  exact ⟨new, h⟩

/-- A space is put behind the second statement, and an item is taken out of the first. -/
def twoChanges : List Change := [.insert (.after (nodeIn goodText .USE_STMT 1)) [.tok .WHITESPACE [' ']],
  .replace (itemIn goodText 4 :: (groupIn goodText).elem :: (groupIn goodText).tail) none]

theorem two_sound : ∀ c ∈ twoChanges, Sound (parseOf goodText).1 c := by
  intro c hc
  simp only [twoChanges, List.mem_cons, List.not_mem_nil, or_false] at hc
  rcases hc with rfl | rfl
  · refine ⟨(by intro e he; cases he), ?_, (by intro e he; cases he)⟩
    intro e he
    cases he
    have hl : 2 ≤ (nodeIn goodText .USE_STMT 1).length := by decide +kernel
    have hch : Chain (parseOf goodText).1 (nodeIn goodText .USE_STMT 1) := nodeIn_chain (ne_of_length (by omega))
    exact ⟨⟨hch, good_unique hch⟩, hl⟩
  · refine ⟨?_, (by intro e he; cases he), (by intro e he; cases he)⟩
    intro e he
    cases he
    exact ⟨group_known (by decide +kernel) (by decide +kernel) _ (item_mem (by decide +kernel)), by simp⟩

theorem two_apart : twoChanges.Pairwise Editor.Apart := by
  refine List.pairwise_cons.2 ⟨?_, List.pairwise_singleton _ _⟩
  intro b hb
  rw [List.mem_singleton] at hb
  subst hb
  refine ⟨(by intro x hx; cases hx), ?_, (by intro x _ y hy; cases hy)⟩
  intro p hp y hy
  cases hp
  cases hy
  have h1 : ¬ (itemIn goodText 4).path <:+ Site.path (nodeIn goodText .USE_STMT 1) := by decide +kernel
  have h2 : (itemIn goodText 4).stop < (Position.after (nodeIn goodText .USE_STMT 1)).offset := by decide +kernel
  exact ⟨h1, fun _ => Or.inr (Or.inl h2)⟩

example : ∃ new es, finish (parseOf goodText).1 twoChanges = .done new ∧ es.Perm (twoChanges.map Change.text) ∧
    (es.Pairwise fun a b => a.stop ≤ b.start) ∧ encode new.text = TextEdit.Spec.splice 0 es (encode (parseOf goodText).1.text) :=
  C68_all good_solid two_sound two_apart

/-- An item that is taken out twice. -/
example : finish (parseOf goodText).1 (twoChanges ++ twoChanges) = .refused :=
  C68_twice_fails good_solid (by simpa using two_sound) (by decide +kernel)

/-- The items of the first statement that are unused. -/
def unusedIn (text : List Char) : List UseItem :=
  ((unusedUseItems (oneFile text) 0 (nodeIn text .MODULE 0)).getD []).filter fun u => (stmtIn text).path.isSuffixOf u.path

theorem stmt_chain {text : List Char} (h : (stmtIn text).length ≠ 0) : Chain (parseOf text).1 (stmtIn text) := nodeIn_chain (ne_of_length h)

/-- The second item of the group goes. -/
example : ∃ t ∈ groupSpecks (stmtIn goodText), ∃ c ∈ removeIn parsed (stmtIn goodText) (.specks (unusedIn goodText)), ∃ x ∈ c.old,
    x.path <:+ t.path := by
  obtain ⟨u, hu⟩ : ∃ u, (unusedIn goodText)[0]? = some u := Option.isSome_iff_exists.1 (by decide +kernel)
  obtain ⟨t, ht⟩ : ∃ t, (groupSpecks (stmtIn goodText))[1]? = some t := Option.isSome_iff_exists.1 (by decide +kernel)
  have hp : (groupSpecks (stmtIn goodText))[1]?.map Site.path = (unusedIn goodText)[0]?.map fun u => u.path := by decide +kernel
  rw [hu, ht] at hp
  refine ⟨t, List.mem_of_getElem? ht, C68_gone parsed (stmt_chain (by decide +kernel)) (List.mem_of_getElem? hu) (List.mem_of_getElem? ht)
    (by simpa using hp) (by decide +kernel) ?_⟩
  intro one hone
  have h1 : ((groupSpecks (stmtIn goodText)).filter fun s => !((markedSpecks (stmtIn goodText) (unusedIn goodText)).map Site.path).contains
    s.path).length ≠ 1 := by decide +kernel
  rw [hone] at h1
  exact absurd rfl h1

/-- The first item stays. -/
example : ∃ t ∈ groupSpecks (stmtIn goodText), ∀ c ∈ removeIn parsed (stmtIn goodText) (.specks (unusedIn goodText)), ∃ x, c = delete x ∧
    ¬ x.path <:+ t.path := by
  obtain ⟨t, ht⟩ : ∃ t, (groupSpecks (stmtIn goodText))[0]? = some t := Option.isSome_iff_exists.1 (by decide +kernel)
  have hp : ∀ u ∈ unusedIn goodText, ∀ p ∈ (groupSpecks (stmtIn goodText))[0]?.map Site.path, p ≠ u.path := by decide +kernel
  rw [ht] at hp
  exact ⟨t, List.mem_of_getElem? ht, C68_stays parsed (stmt_chain (by decide +kernel)) (List.mem_of_getElem? ht)
    (fun u hu => hp u hu _ rfl) (by decide +kernel) (by decide +kernel)⟩

end Verif.Ide.Organize
