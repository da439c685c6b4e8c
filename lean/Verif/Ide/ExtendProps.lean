import Verif.Ide.Extend
import Verif.Parser.Failures

/-! C49 for the trees of the parser, the answer sent to the client, and examples. -/

namespace Verif.Ide.Extend
open Verif.Parser (Green Piece parseText AsciiBreaks Regroups)
open Verif.Syntax
open Verif.Lexer (blen Graphemes oneChar)

/-! ### Trees of the parser -/

theorem leaves_of_mem {g : Green} {gs : List Green} (h : g ∈ gs) : ∀ p ∈ g.leaves, p ∈ Green.leavesList gs := by
  induction gs with
  | nil => cases h
  | cons a gs ih =>
    intro p hp
    rw [Green.leavesList]
    rcases List.mem_cons.1 h with rfl | h
    · exact List.mem_append_left _ hp
    · exact List.mem_append_right _ (ih h p hp)

theorem chain_leaves {g : Green} {e : Elem} {ps : List Elem} (h : Chain g (e :: ps)) : ∀ p ∈ e.green.leaves, p ∈ g.leaves := by
  generalize hl : e :: ps = l at h
  induction h generalizing e ps with
  | top => cases hl; exact fun p hp => hp
  | @child c p qs h1 h2 ih =>
    cases hl
    intro x hx
    refine ih rfl x ?_
    have hm := (Elem.mem_children h2).1
    cases hg : p.green with
    | tok k t => rw [hg] at hm; cases hm
    | node k cs =>
      rw [hg] at hm
      rw [Green.leaves]
      exact leaves_of_mem hm x hx

theorem regroups_ne {ps ls : List Piece} (h : Regroups ps ls) (hn : ∀ p ∈ ps, p.text ≠ []) : ∀ p ∈ ls, p.text ≠ [] := by
  induction h with
  | nil => intro p hp; cases hp
  | trivia t ps ls _ _ ih =>
    intro p hp
    rcases List.mem_cons.1 hp with rfl | hp
    · exact hn _ (by simp)
    · exact ih (fun q hq => hn q (by simp [hq])) p hp
  | token k run ps ls hr _ _ _ ih =>
    intro p hp
    rcases List.mem_cons.1 hp with rfl | hp
    · cases run with
      | nil => exact absurd rfl hr
      | cons a run =>
        have := hn a (by simp)
        simp only [List.map_cons, List.flatten_cons, ne_eq, List.append_eq_nil_iff]
        exact fun h => this h.1
    · exact ih (fun q hq => hn q (by simp [hq])) p hp

theorem parsed_tokens {g : List Char → Nat} (hg : Graphemes g) (hb : AsciiBreaks g) (debug : Bool) (text : List Char) {fuel : Nat}
    (hf : 2 * text.length + 2 ≤ fuel) {t : Green} {errs : List Nat} (h : parseText g debug fuel text = .tree t errs) :
    Tokens t ∧ t.isTok = false ∧ t.text = text := by
  have htext := (Parser.C28_tree_reproduces_text hg hb debug text hf h).2.1
  rcases Parser.parseText_spec hg hb debug text hf with ⟨h1, -⟩ | ⟨raw, ps, h1, h2, h3, h4, ⟨cs, e, h5, h6⟩ | ⟨w, h5, -⟩⟩
  · rw [h] at h1; cases h1
  · rw [h] at h5
    cases h5
    refine ⟨?_, rfl, htext⟩
    intro e ps' hc ht
    cases hgr : e.green with
    | node k cs => rw [hgr] at ht; cases ht
    | tok k t =>
      have hm := chain_leaves hc ⟨k, t⟩ (by rw [hgr]; simp [Green.leaves])
      rw [Green.leaves] at hm
      have hne := regroups_ne h6 (fun p hp => (h4 p hp).ne) _ hm
      have hp := Lexer.blen_pos hne
      unfold Elem.stop Green.len
      rw [hgr, Green.text_tok]
      dsimp only at hp
      omega
  · rw [h] at h5; cases h5

/-- **C49.** Take the tree of any text that parses. Extending a selection of some of the text does not panic and gives a range inside
the file that contains the selection, and is larger unless the selection is the whole file. From a place between two characters, the
answer to a request for selections is found, starts at the place, and each of its ranges is strictly inside the next one. -/
theorem C49_text {gr : List Char → Nat} (hg : Graphemes gr) (hbr : AsciiBreaks gr) (debug : Bool) (text : List Char) {fuel : Nat}
    (hf : 2 * text.length + 2 ≤ fuel) {t : Green} {errs : List Nat} (h : parseText gr debug fuel text = .tree t errs)
    (alnum : Char → Bool) :
    (∀ lo hi, lo < hi → hi ≤ blen text → ∃ r, extend alnum t lo hi = some r ∧ r.1 ≤ lo ∧ hi ≤ r.2 ∧ r.2 ≤ blen text ∧
      (r = (lo, hi) ↔ (lo, hi) = (0, blen text))) ∧
    (∀ a b, text = a ++ b → ∃ n, ∀ f, n ≤ f → ∃ rs, selections alnum t f (blen a, blen a) = some rs ∧
      rs.head? = some (blen a, blen a) ∧ Nested rs) := by
  obtain ⟨h1, h2, h3⟩ := parsed_tokens hg hbr debug text hf h
  have hl : t.len = blen text := by unfold Green.len; rw [h3]
  constructor
  · intro lo hi hlt hin
    obtain ⟨r, hr, h4, h5, h6⟩ := C49_contains alnum t lo hi h2 (Nat.le_of_lt hlt) (by omega) (by intro h; omega)
    refine ⟨r, hr, h4, h5, by omega, ?_⟩
    have := C49_progress alnum t lo hi h2 hlt (by omega) h1
    rw [hr, Option.some.injEq] at this
    rw [← hl]
    exact this
  · intro a b hab
    refine C49_selections alnum t (blen a) h2 ?_ ⟨a, b, by rw [h3, hab], rfl⟩
    rw [hl, hab, Lexer.blen_append]
    omega

/-! ### No element is skipped -/

theorem up_suffix {top : Elem} {l m : List Elem} (h : Up top l) (hs : m <:+ l) (hm : m ≠ []) : Up top m := by
  induction h with
  | top =>
    rcases List.suffix_cons_iff.1 hs with rfl | hs
    · exact .top
    · exact absurd (List.suffix_nil.1 hs) hm
  | child h1 h2 ih =>
    rcases List.suffix_cons_iff.1 hs with rfl | hs
    · exact .child h1 h2
    · exact ih hs

/-- An ancestor contains the element. -/
theorem suffix_contains {g : Green} {e x : Elem} {l ps m : List Elem} (h : Chain g l) (hl : l = e :: ps) (hs : x :: m <:+ l) :
    x.start ≤ e.start ∧ e.stop ≤ x.stop := by
  induction h generalizing e ps with
  | top =>
    cases hl
    rcases List.suffix_cons_iff.1 hs with he | hs
    · cases he
      exact ⟨Nat.le_refl _, Nat.le_refl _⟩
    · exact absurd (List.suffix_nil.1 hs) (by simp)
  | @child c p qs h1 h2 ih =>
    cases hl
    rcases List.suffix_cons_iff.1 hs with he | hs
    · cases he
      exact ⟨Nat.le_refl _, Nat.le_refl _⟩
    · have h3 := ih rfl hs
      have h4 := (Elem.mem_children h2).2
      omega

theorem root_suffix {g : Green} {l : List Elem} (h : Chain g l) : [Elem.root g] <:+ l := by
  induction h with
  | top => exact List.suffix_rfl
  | child h1 h2 ih => exact ih.trans (List.suffix_cons _ _)

/-- What is above a suffix of a chain. -/
theorem next_above {top : Elem} {l m : List Elem} (h : Up top l) (hs : m <:+ l) : m = l ∨ ∃ y, y :: m <:+ l := by
  obtain ⟨t, rfl⟩ := hs
  rcases List.eq_nil_or_concat t with rfl | ⟨t', y, rfl⟩
  · exact Or.inl rfl
  · exact Or.inr ⟨y, ⟨t', by simp⟩⟩

/-- All elements that contain some text are the smallest one and its ancestors. -/
theorem cover_all {g : Green} {lo hi : Nat} (hlt : lo < hi) {e : Elem} {ps : List Elem} (hc : Chain g (e :: ps)) (h1 : e.start ≤ lo)
    (h2 : hi ≤ e.stop) (h3 : ∀ c ∈ e.children, ¬(c.start ≤ lo ∧ hi ≤ c.stop)) {x : Elem} {m : List Elem} (hx : Chain g (x :: m))
    (h4 : x.start ≤ lo) (h5 : hi ≤ x.stop) : x :: m <:+ e :: ps := by
  generalize hl : x :: m = l at hx
  induction hx generalizing x m with
  | top => exact root_suffix hc
  | @child c p qs h6 h7 ih =>
    cases hl
    have h8 := (Elem.mem_children h7).2
    have hs := ih (x := p) (m := qs) (by omega) (by omega) rfl
    rcases next_above hc hs with he | ⟨y, hy⟩
    · cases he
      exact absurd ⟨h4, h5⟩ (h3 _ h7)
    · have hy' := up_suffix hc hy (by simp)
      have hb := suffix_contains hc rfl hy
      have ho := placed_order h7 (Up.child_mem hy').1
      have ho' := placed_order (Up.child_mem hy').1 h7
      have : c = y := by
        apply ho.2
        rcases Nat.lt_trichotomy (idx c) (idx y) with hlt' | he | hgt
        · have := ho.1 hlt'; omega
        · exact he
        · have := ho'.1 hgt; omega
      rw [this]
      exact hy

/-- Inside every element of a chain that is larger than the selection. -/
def Within (l : List Elem) (lo hi : Nat) (r : Nat × Nat) : Prop :=
  ∀ x m, x :: m <:+ l → range x ≠ (lo, hi) → x.start ≤ r.1 ∧ r.2 ≤ x.stop

theorem within_self {g : Green} {e : Elem} {ps : List Elem} (h : Chain g (e :: ps)) (lo hi : Nat) :
    Within (e :: ps) lo hi (range e) := fun _ _ hs _ => suffix_contains h rfl hs

theorem within_parent {g : Green} {e p : Elem} {qs : List Elem} {lo hi : Nat} {r : Nat × Nat} (h : Chain g (e :: p :: qs))
    (he : range e = (lo, hi)) (h1 : p.start ≤ r.1) (h2 : r.2 ≤ p.stop) : Within (e :: p :: qs) lo hi r := by
  intro x m hs hne
  rcases List.suffix_cons_iff.1 hs with hx | hs
  · cases hx
    exact absurd he hne
  · have := suffix_contains (Up.child_mem h).2 rfl hs
    omega

theorem sibling_within {e c p : Elem} {qs : List Elem} (h : c ∈ after (e :: p :: qs) ∨ c ∈ before (e :: p :: qs)) :
    p.start ≤ c.start ∧ c.stop ≤ p.stop := by
  rcases h with h | h
  · obtain ⟨_, _, he, hc, _⟩ := mem_after h
    cases he
    exact ⟨(Elem.mem_children hc).2.1, (Elem.mem_children hc).2.2.1⟩
  · obtain ⟨_, _, he, hc, _⟩ := mem_before h
    cases he
    exact ⟨(Elem.mem_children hc).2.1, (Elem.mem_children hc).2.2.1⟩

theorem list_within {g : Green} {e p : Elem} {qs : List Elem} {r : Nat × Nat} (h : Chain g (e :: p :: qs))
    (hr : extendListItem (e :: p :: qs) = some r) : p.start ≤ r.1 ∧ r.2 ≤ p.stop := by
  have he := (Elem.mem_children (Up.child_mem h).1).2
  unfold extendListItem at hr
  dsimp only at hr
  split at hr
  · rename_i d hd
    cases hr
    have h1 := sibling_within (Or.inl (near_spec hd).1)
    refine ⟨he.1, ?_⟩
    show (finalToken d (p :: qs)).stop ≤ p.stop
    unfold finalToken
    cases hh : (after (d :: p :: qs)).head? with
    | none => exact h1.2
    | some w =>
      dsimp only
      split
      · exact (sibling_within (Or.inl (List.mem_of_mem_head? hh))).2
      · exact h1.2
  · split at hr
    · rename_i d hd
      cases hr
      exact ⟨(sibling_within (Or.inr (near_spec hd).1)).1, he.2.1⟩
    · cases hr

theorem comments_within {g : Green} {e : Elem} {ps : List Elem} {lo hi : Nat} {r : Nat × Nat} (h : Chain g (e :: ps))
    (he : range e = (lo, hi)) (hr : extendComments (e :: ps) e = some r) : Within (e :: ps) lo hi r := by
  unfold extendComments at hr
  dsimp only at hr
  split at hr
  · rename_i hne
    cases hr
    cases ps with
    | nil => exact absurd rfl hne
    | cons p qs =>
      have hin := (Elem.mem_children (Up.child_mem h).1).2
      refine within_parent h he ?_ ?_
      · rcases adj_mem e (before (e :: p :: qs)) with hp | ⟨hp, -⟩
        · rw [hp]; exact hin.1
        · exact (sibling_within (Or.inr hp)).1
      · rcases adj_mem e (after (e :: p :: qs)) with hp | ⟨hp, -⟩
        · rw [hp]; exact hin.2.1
        · exact (sibling_within (Or.inl hp)).2
  · cases hr

theorem shallowest_suffix (e : Elem) (ps : List Elem) : ∀ x m, x :: m <:+ e :: ps → x :: m <:+ shallowest (e :: ps) ∨ range x = range e := by
  induction ps generalizing e with
  | nil => intro x m hs; exact Or.inl hs
  | cons p ps ih =>
    intro x m hs
    rw [shallowest]
    split
    · rename_i hr
      rcases List.suffix_cons_iff.1 hs with hx | hs
      · cases hx
        exact Or.inr rfl
      · rcases ih p x m hs with h | h
        · exact Or.inl h
        · exact Or.inr (h.trans hr)
    · exact Or.inl hs

theorem node_within {g : Green} {e : Elem} {ps : List Elem} {lo hi : Nat} {r : Nat × Nat} (h : Chain g (e :: ps))
    (hr : extendNode lo hi (e :: ps) = some r) : Within (e :: ps) lo hi r := by
  unfold extendNode at hr
  dsimp only at hr
  split at hr
  · cases hr
    exact within_self h lo hi
  · rename_i heq
    have heq : range e = (lo, hi) := by simpa using heq
    obtain ⟨e', ps', hs, hc, hre, hp⟩ := shallowest_spec h
    rw [hs] at hr
    suffices Within (e' :: ps') lo hi r by
      intro x m hx hne
      rcases shallowest_suffix e ps x m hx with h1 | h1
      · rw [hs] at h1
        exact this x m h1 hne
      · exact absurd (h1.trans heq) hne
    cases ps' with
    | nil => cases hr
    | cons p qs =>
      dsimp only at hr
      have hpar := within_parent (r := range p) hc (hre.trans heq) (Nat.le_refl _) (Nat.le_refl _)
      split at hr
      · split at hr
        · rename_i r' hl
          cases hr
          have := list_within hc hl
          exact within_parent hc (hre.trans heq) this.1 this.2
        · cases hr
          exact hpar
      · cases hr
        exact hpar

theorem range_within {g : Green} {lo hi : Nat} {r : Nat × Nat} (hlt : lo < hi) (h2 : hi ≤ g.len) (hr : extendRange g lo hi = some r)
    {x : Elem} {m : List Elem} (hx : Chain g (x :: m)) (h4 : x.start ≤ lo) (h5 : hi ≤ x.stop) (hne : range x ≠ (lo, hi)) :
    x.start ≤ r.1 ∧ r.2 ≤ x.stop := by
  obtain ⟨e, ps, hc, hch, h6, h7, h8⟩ := cover_spec lo hi g [] [] 0 g .top (Nat.zero_le _) (by omega)
  have hs := cover_all hlt hch h6 h7 h8 hx h4 h5
  unfold extendRange at hr
  rw [hc] at hr
  dsimp only at hr
  split at hr
  · split at hr
    · cases hr
      exact within_self hch lo hi x m hs hne
    · rename_i heq
      have heq : range e = (lo, hi) := by simpa using heq
      split at hr
      · rename_i r' hr'
        cases hr
        split at hr'
        · exact comments_within hch heq hr' x m hs hne
        · cases hr'
      · rcases List.suffix_cons_iff.1 hs with he | hs
        · cases he
          exact absurd heq hne
        · cases ps with
          | nil => exact absurd (List.suffix_nil.1 hs) (by simp)
          | cons p qs => exact node_within (Up.child_mem hch).2 hr x m hs hne
  · exact node_within hch hr x m hs hne

/-- Extending a selection of some text skips nothing: the result is inside every element of the tree that is larger than the
selection and contains it. -/
theorem C49_skips_nothing (alnum : Char → Bool) (g : Green) (lo hi : Nat) (hlt : lo < hi) (hin : hi ≤ g.len)
    (x : Elem) (m : List Elem) (hx : Chain g (x :: m)) (h1 : x.start ≤ lo) (h2 : hi ≤ x.stop) (hne : range x ≠ (lo, hi)) :
    ∃ r, extend alnum g lo hi = some r ∧ x.start ≤ r.1 ∧ r.2 ≤ x.stop := by
  unfold extend tryExtend
  rw [if_neg (by omega), if_neg (by omega)]
  refine ⟨_, rfl, ?_⟩
  cases hr : extendRange g lo hi with
  | none => exact ⟨h1, h2⟩
  | some r => exact range_within hlt hin hr hx h1 h2 hne

/-! ### The answer -/

/-- `lsp_types::SelectionRange`. -/
inductive Sel where
  | mk (range : Nat × Nat) (parent : Option Sel)

/-- request.rs:483–493: from the last range back to the first. The ranges are kept as offsets. -/
def answer (ranges : List (Nat × Nat)) : Option Sel :=
  match ranges.getLast? with
  | none => none
  | some l => some ((ranges.reverse.drop 1).foldl (fun sel r => .mk r (some sel)) (.mk l none))

/-- Reading an answer: a range, its parent, and so on. -/
inductive Reads : Sel → List (Nat × Nat) → Prop
  | last (r) : Reads (.mk r none) [r]
  | more (r s rs) : Reads s rs → Reads (.mk r (some s)) (r :: rs)

theorem fold_reads (rs : List (Nat × Nat)) (sel : Sel) (tail : List (Nat × Nat)) (h : Reads sel tail) :
    Reads (rs.foldl (fun sel r => .mk r (some sel)) sel) (rs.reverse ++ tail) := by
  induction rs generalizing sel tail with
  | nil => exact h
  | cons r rs ih =>
    simp only [List.foldl_cons, List.reverse_cons, List.append_assoc]
    exact ih _ _ (.more r sel tail h)

/-- The client reads the ranges in the order in which they were found, from the smallest to the largest. -/
theorem C49_answer (ranges : List (Nat × Nat)) (h : ranges ≠ []) : ∃ sel, answer ranges = some sel ∧ Reads sel ranges := by
  have hl := List.getLast?_eq_some_getLast h
  unfold answer
  rw [hl]
  refine ⟨_, rfl, ?_⟩
  have := fold_reads (ranges.reverse.drop 1) _ _ (.last (ranges.getLast h))
  have he : (ranges.reverse.drop 1).reverse ++ [ranges.getLast h] = ranges := by
    rw [List.drop_one, List.tail_reverse, List.reverse_reverse]
    exact List.dropLast_append_getLast h
  rw [he] at this
  exact this

/-! ### Where nothing is selected -/

def unfinished : List Char := "module 0x1::m { fun f() { if (true)\n".toList

/-- The selections around a place of a text. -/
def around (debug : Bool) (text : List Char) (o : Nat) : Option (List (Nat × Nat)) :=
  match parseText oneChar debug 300 text with
  | .tree t _ => selections Char.isAlphanum t 100 (o, o)
  | _ => none

/-- **C49 fails for the last range.** With the cursor at the end of a file whose last line is an `if` without a body, followed by a
newline, nothing can be selected: the node for the missing body is empty and is taken as the item on the line of the cursor. -/
theorem C49_unfinished_fails (debug : Bool) : unfinished.length = 36 ∧ around debug unfinished 36 = some [(36, 36)] := by
  cases debug <;> decide +kernel

/-! ### Examples -/

example : (∃ t errs, parseText oneChar false 300 unfinished = .tree t errs) ∧ 2 * unfinished.length + 2 ≤ 300 := by
  have h : (match parseText oneChar false 300 unfinished with | .tree .. => true | _ => false) = true := by decide +kernel
  revert h
  cases parseText oneChar false 300 unfinished with
  | tree t errs => exact fun _ => ⟨⟨t, errs, rfl⟩, by decide⟩
  | _ => intro h; cases h

/-- At the name of a function the selections are the name, the function and the file. -/
example : around false unfinished 20 = some [(20, 20), (20, 21), (16, 36), (0, 36)] := by decide +kernel

/-- A list item grows to the comma and the space after it. -/
example : around false "script { fun f(a: u8, b: u8) {} }".toList 16 =
    some [(16, 16), (15, 16), (15, 20), (15, 22), (14, 28), (9, 31), (0, 33)] := by decide +kernel

/-- Two comments are selected together. -/
example : around false "// one\n// two\nscript {}".toList 3 = some [(3, 3), (3, 6), (0, 6), (0, 13), (0, 23)] := by decide +kernel

/-- A tree without empty elements. -/
def call : Green :=
  .node .CALL_EXPR [.tok .IDENT ['f'], .node .VALUE_ARG_LIST [.tok .L_PAREN ['('], .node .PATH [.tok .IDENT ['x']], .tok .COMMA [','], .tok .WHITESPACE [' '],
    .tok .IDENT ['y'], .tok .R_PAREN [')']]]

mutual
def solid : Green → Bool
  | .tok _ t => decide (t ≠ [])
  | .node k cs => decide (0 < (Green.node k cs).len) && solids cs
def solids : List Green → Bool
  | [] => true
  | g :: gs => solid g && solids gs
end

theorem solids_mem {g : Green} {gs : List Green} (h : g ∈ gs) (hs : solids gs = true) : solid g = true := by
  induction gs with
  | nil => cases h
  | cons a gs ih =>
    simp only [solids, Bool.and_eq_true] at hs
    rcases List.mem_cons.1 h with rfl | h
    · exact hs.1
    · exact ih h hs.2

theorem solid_len {g : Green} (h : solid g = true) : 0 < g.len := by
  cases g with
  | tok k t =>
    simp only [solid, decide_eq_true_eq] at h
    unfold Green.len
    rw [Green.text_tok]
    exact Lexer.blen_pos h
  | node k cs =>
    simp only [solid, Bool.and_eq_true, decide_eq_true_eq] at h
    exact h.1

theorem full_of_solid {g : Green} (h : solid g = true) : Full g := by
  suffices ∀ l, Chain g l → ∀ e ps, l = e :: ps → solid e.green = true by
    intro e ps hc
    have := solid_len (this _ hc e ps rfl)
    unfold Elem.stop
    omega
  intro l hc
  induction hc with
  | top => rintro e ps ⟨⟩; exact h
  | @child c p qs h1 h2 ih =>
    rintro e ps ⟨⟩
    have hp := ih p qs rfl
    have hm := (Elem.mem_children h2).1
    cases hg : p.green with
    | tok k t => rw [hg] at hm; cases hm
    | node k cs =>
      rw [hg] at hm hp
      simp only [solid, Bool.and_eq_true] at hp
      exact solids_mem hm hp.2

example : Full call ∧ OnBoundary call 2 ∧ call.isTok = false ∧
    selections Char.isAlphanum call 9 (2, 2) = some [(2, 2), (2, 3), (2, 5), (1, 7), (0, 7)] :=
  ⟨full_of_solid (by decide +kernel), ⟨['f', '('], ['x', ',', ' ', 'y', ')'], by decide, by decide⟩, rfl, by decide +kernel⟩

end Verif.Ide.Extend
