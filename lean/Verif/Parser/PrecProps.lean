import Verif.Parser.PrecFile
import Verif.Parser.Shape
import Verif.Parser.Failures

/-! C64: the tree of an expression is the one its operators say. -/

namespace Verif.Parser
open Verif.Syntax (SyntaxKind)
open Verif.Lexer (oneChar Graphemes tokenize)

/-! ### The calls for an expression -/

/-- Calls that leave the nodes they enter, and no others. -/
structure Level (xs : List Step) : Prop where
  good : ∀ x ∈ xs, x.Good
  flat : (marks xs).countP Mark.isLeave = (marks xs).countP Mark.isEnter
  nest : ∀ n, ((marks xs).take n).countP Mark.isLeave ≤ ((marks xs).take n).countP Mark.isEnter

theorem Level.append {a b : List Step} (ha : Level a) (hb : Level b) : Level (a ++ b) := by
  refine ⟨?_, ?_, ?_⟩
  · intro x hx
    rcases List.mem_append.1 hx with h | h
    · exact ha.1 x h
    · exact hb.1 x h
  · rw [marks_append, List.countP_append, List.countP_append, ha.2, hb.2]
  · intro n
    rw [marks_append, List.take_append, List.countP_append, List.countP_append]
    exact Nat.add_le_add (ha.3 _) (hb.3 _)

theorem Level.nil : Level [] := ⟨by simp, rfl, by simp [marks]⟩

theorem Level.token {k : SyntaxKind} (hk : k.isTrivia = false) : Level [tk k] :=
  ⟨by simpa [Step.Good] using hk, rfl, fun n => by cases n <;> simp [marks, Mark.isLeave]⟩

theorem Level.node {a : List Step} {k : SyntaxKind} (ha : Level a) : Level (.start k :: a ++ [.finish]) := by
  refine ⟨?_, ?_, ?_⟩
  · intro x hx
    simp only [List.cons_append, List.mem_cons, List.mem_append, List.not_mem_nil, or_false] at hx
    rcases hx with rfl | h | rfl
    · trivial
    · exact ha.1 x h
    · trivial
  · rw [marks_append]
    simp only [marks, List.countP_append, List.countP_cons, ha.2]
    simp [Mark.isLeave, Mark.isEnter]
  · intro n
    rw [marks_append]
    cases n with
    | zero => simp
    | succ n =>
      simp only [marks, List.cons_append, List.take_succ_cons, List.countP_cons, List.take_append, List.countP_append]
      have h1 := ha.3 n
      have h2 : ((List.take (n - (marks a).length) [Mark.leave])).countP Mark.isLeave ≤ 1 := by
        refine Nat.le_trans List.countP_le_length ?_
        simp [List.length_take]
        omega
      simp [Mark.isLeave, Mark.isEnter] at *
      omega

theorem Level.seg : Level segTree := Level.node (Level.node (Level.token (by decide)))

theorem Level.qualifyN (n : Nat) {a : List Step} (ha : Level a) : Level (qualifyN n a) := by
  induction n generalizing a with
  | zero => exact ha
  | succ n ih =>
    refine ih ?_
    have : Level (.start .PATH :: (a ++ ([tk .COLON_COLON] ++ segTree)) ++ [.finish]) :=
      Level.node (ha.append ((Level.token (by decide)).append Level.seg))
    simpa [qualify] using this

theorem Level.path (addr : Bool) (more : Nat) : Level (pathTree addr more) := by
  refine Level.qualifyN _ (Level.node ?_)
  cases addr
  · exact Level.seg
  · exact Level.node (Level.node (Level.node (Level.token (by decide))))

theorem Level.toks (o : UnOp) : Level (o.toks.map tk) := by
  cases o
  case borrowMut => exact (Level.token (k := .AMP) (by decide)).append (Level.token (k := .MUT_KW) (by decide))
  all_goals exact Level.token (by decide)

theorem isBin_trivia {k : SyntaxKind} (h : IsBin k) : k.isTrivia = false := by
  obtain ⟨h1, -, -⟩ := h
  revert h1
  cases k <;> decide +kernel

mutual
theorem Ex.level_tree : ∀ (e : Ex) {m : Nat}, e.Fits m → Level e.tree
  | .path addr more, m, h => Level.node (Level.path addr more)
  | .lit k, m, h => Level.node (a := [tk k]) (Level.token (by rcases h with h | h | h | h | h <;> subst h <;> decide))
  | .paren e, m, h => by
    have := Level.node (k := .PAREN_EXPR) ((Level.token (k := .L_PAREN) (by decide)).append ((Ex.level_tree e (m := 1) h).append
      (Level.token (k := .R_PAREN) (by decide))))
    simpa [Ex.tree, Ex.rest, Ex.kind] using this
  | .un o e, m, h => by
    have := Level.node (k := (Ex.un o e).kind) ((Level.toks o).append (Ex.level_tree e (m := 255) h))
    simpa [Ex.tree, Ex.rest] using this
  | .field e num, m, h => by
    have h1 : Level [tk (if num then .INT_NUMBER else .IDENT)] := Level.token (by cases num <;> decide)
    have := Level.node (k := .DOT_EXPR) ((Ex.level_tree e h.2).append ((Level.token (k := .DOT) (by decide)).append
      (Level.node (k := .NAME_REF) h1)))
    simpa [Ex.tree, Ex.rest, Ex.kind] using this
  | .index e i, m, h => by
    have := Level.node (k := .INDEX_EXPR) ((Ex.level_tree e h.2.1).append ((Level.token (k := .L_BRACK) (by decide)).append
      ((Ex.level_tree i h.2.2).append (Level.token (k := .R_BRACK) (by decide)))))
    simpa [Ex.tree, Ex.rest, Ex.kind] using this
  | .call e a, m, h => by
    have := Level.node (k := .CALL_EXPR) ((Ex.level_tree e h.2.1).append (Level.node (k := .VALUE_ARG_LIST)
      ((Level.token (k := .L_PAREN) (by decide)).append ((Args.level_tree a h.2.2).append (Level.token (k := .R_PAREN) (by decide))))))
    simpa [Ex.tree, Ex.rest, Ex.kind] using this
  | .method e a, m, h => by
    have := Level.node (k := .METHOD_CALL_EXPR) ((Ex.level_tree e h.2.1).append ((Level.token (k := .DOT) (by decide)).append
      ((Level.node (k := .NAME_REF) (Level.token (k := .IDENT) (by decide))).append (Level.node (k := .VALUE_ARG_LIST)
      ((Level.token (k := .L_PAREN) (by decide)).append ((Args.level_tree a h.2.2).append (Level.token (k := .R_PAREN) (by decide))))))))
    simpa [Ex.tree, Ex.rest, Ex.kind] using this
  | .bin k l r, m, h => by
    have := Level.node (k := (Ex.bin k l r).kind) ((Ex.level_tree l h.2.2.1).append ((Level.token (isBin_trivia h.1)).append
      (Ex.level_tree r h.2.2.2.2.1)))
    simpa [Ex.tree, Ex.rest] using this
  | .cast e addr more, m, h => by
    have := Level.node (k := .CAST_EXPR) ((Ex.level_tree e h.2.2.1).append ((Level.token (k := .AS_KW) (by decide)).append
      (Level.node (k := .PATH_TYPE) (Level.path addr more))))
    simpa [Ex.tree, Ex.rest, Ex.kind] using this

theorem Args.level_tree : ∀ (a : Args), a.Fits → Level a.tree
  | .none, _ => Level.nil
  | .one e, h => by
    have := Level.node (k := .VALUE_ARG) (Ex.level_tree e (m := 1) h)
    simpa [Ex.tree, Args.tree] using this
  | .more e a, h => by
    have := (Level.node (k := .VALUE_ARG) (Ex.level_tree e h.1)).append ((Level.token (k := .COMMA) (by decide)).append (Args.level_tree a h.2.2))
    simpa [Ex.tree, Args.tree] using this
end

theorem level_const {e : Ex} (h : e.Fits 1) : Level (constTree e) := by
  have hname : Level [.start .NAME, tk .IDENT, .finish] := Level.node (a := [tk .IDENT]) (Level.token (by decide))
  have := Level.node (k := .SOURCE_FILE) (Level.node (k := .MODULE) ((Level.token (k := .MODULE_KW) (by decide)).append
    ((Level.node (k := .VALUE_ADDRESS) (Level.token (k := .INT_NUMBER) (by decide))).append
    ((Level.token (k := .COLON_COLON) (by decide)).append (hname.append ((Level.token (k := .L_CURLY) (by decide)).append
    ((Level.node (k := .CONST) ((Level.token (k := .CONST_KW) (by decide)).append (hname.append
      ((Level.token (k := .COLON) (by decide)).append ((Level.node (k := .PATH_TYPE) (Level.path false 0)).append
      ((Level.node (k := .INITIALIZER) ((Level.token (k := .EQ) (by decide)).append (e.level_tree h))).append
      (Level.token (k := .SEMICOLON) (by decide)))))))).append (Level.token (k := .R_CURLY) (by decide)))))))))
  simpa [constTree] using this

/-! ### The property -/

/-- **C64 (partial).** An expression of names, literals, parentheses, unary and binary operators, casts, fields, indexes and
calls, that ends before a closing bracket, a comma or a semicolon, is parsed to the tree in which a left operand is of at
least the level of its operator and a right operand of a higher one, and to nothing else: whatever the file, the surroundings
and the events before. Missing: `if`, `match`, `while`, `loop`, `for`, blocks, tuples, lambdas, `return`, `break`, `abort`, structure
literals, `is`, macros, quantifiers, type arguments, types other than paths, and the words of the specifications. -/
theorem C64_expression_partial {I : Input} [I.Valid] {E : Env} {e : Ex} {r : Restr} {p q n : Nat} {s : St} (hE : Calm E)
    (hf : e.Fits 1) (h : e.At I p q) (hq : I.Ends q) (hn : q - p < n) (hs : s.pos = p) :
    ∃ cm s' seg, (grammar n).exprBp r 1 I E s = .ok (some (cm, .NotBlock)) s' ∧ cm.kind = e.kind ∧ s'.pos = q ∧
      s'.events = s.events ++ seg ∧ Denotes seg e.tree := by
  obtain ⟨pos, s', h1, h2, h3⟩ := (e.runs (I := I)).one (n := n) (r := r) hE hf h (by have := e.depth_le hf h; omega) hq s hs
  obtain ⟨seg, h4, h5, -⟩ := h3.adds
  exact ⟨⟨pos, e.kind⟩, s', seg, h1, rfl, h2, h4, h5⟩

/-- **C64 (whole file, partial).** The text is `module 0x1::m { const C: T = e; }` with any names, any white space and comments,
and any such expression. Then it is parsed without an error, and the tree without its white space is the one the expression
stands for. Missing: as above, and other places for the expression. -/
theorem C64_file_partial {g : List Char → Nat} (hg : Graphemes g) (hb : AsciiBreaks g) (debug : Bool) {text : List Char} {fuel : Nat}
    (hfuel : 2 * text.length + 2 ≤ fuel) {raw : List Lexer.RawToken} {ps : List Piece} (ht : tokenize g fuel text = some (some raw))
    (hp : pieces text raw = some ps) {e : Ex} {q : Nat} (h : Input.IsConst ⟨source ps, debug⟩ e q) (hf : e.Fits 1) :
    ∃ t, parseText g debug fuel text = .tree t [] ∧ t.marks = marks (constTree e) := by
  obtain ⟨r, ht', hlen⟩ := Lexer.C25_terminates hg fuel text (by omega)
  rw [ht] at ht'
  cases ht'
  obtain ⟨ps', p1, p2, p3⟩ := tokenize_pieces hg hb fuel text raw ht
  rw [hp] at p1
  cases p1
  have hv := valid_source p3 debug
  have hsize : (source ps).length ≤ text.length := by
    have h2 : (source ps).length ≤ ps.length := by
      rw [source, sourceFrom_length]; exact withOffsets_length 0 ps
    have h3 : ps.length = raw.length := pieces_length hp
    have := hlen raw rfl
    omega
  have hq : q < (source ps).length := kindAt_lt (I := ⟨source ps, debug⟩) (by rw [h.semi]; decide)
  obtain ⟨s, h1, h2, seg, h3, h4, -⟩ := file_run h hf (n := fuel) (by omega) ⟨0, []⟩ rfl
  have hproc : process s.events = some (constTree e) := by
    have := h4 []
    rw [List.append_nil] at this
    have h5 : s.events = seg := by simpa using h3
    rw [h5, this]
    simp [process, processN]
  have hs := parse_spec (I := ⟨source ps, debug⟩) (fuel := fuel) (by show 2 * (source ps).length + 2 ≤ fuel; omega)
  have hpar : parse ⟨source ps, debug⟩ fuel = .ok () s := h1
  rw [hpar] at hs
  obtain ⟨cs, errs, b1, -⟩ := Parses.tree p3 hs
  have hl := level_const hf
  obtain ⟨m1, m2⟩ := buildTree_marks hproc hl.1 hl.2.symm b1
  refine ⟨_, ?_, m1⟩
  unfold parseText
  rw [ht]
  simp only [hp, hpar, b1, m2]

/-- **C64 (one reading, partial).** Two expressions that are written with the same tokens are the same tree. -/
theorem C64_unique_partial {I : Input} [I.Valid] {e e' : Ex} {p q : Nat} (hf : e.Fits 1) (hf' : e'.Fits 1) (h : e.At I p q)
    (h' : e'.At I p q) (hq : I.Ends q) : e.tree = e'.tree := by
  have hE : Calm ⟨RSet.new, .Move⟩ := ⟨by decide +kernel, by simp [RSet.new]⟩
  obtain ⟨cm, s, seg, h1, -, -, h2, h3⟩ := C64_expression_partial (n := q - p + 1) (s := ⟨p, []⟩) (r := (⟨false, false⟩ : Restr)) hE hf h hq
    (by omega) rfl
  obtain ⟨cm', s', seg', h1', -, -, h2', h3'⟩ := C64_expression_partial (n := q - p + 1) (s := ⟨p, []⟩) (r := (⟨false, false⟩ : Restr)) hE hf' h' hq
    (by omega) rfl
  rw [h1] at h1'
  cases h1'
  rw [h2] at h2'
  have hseg : seg = seg' := List.append_cancel_left h2'
  have a := h3 []
  have b := h3' []
  rw [hseg, b] at a
  simpa [process, processN] using a.symm

/-! ### Every expression can be written -/

theorem Ex.minus_primary : ∀ {e : Ex} {m : Nat}, e.Primary → e.Fits m → e.minus = false
  | .path .., _, _, _ => rfl
  | .lit _, _, _, _ => rfl
  | .paren _, _, _, _ => rfl
  | .field e _, _, _, h => Ex.minus_primary (e := e) h.1 h.2
  | .index e _, _, _, h => Ex.minus_primary (e := e) h.1 h.2.1
  | .call e _, _, _, h => Ex.minus_primary (e := e) h.1 h.2.1
  | .method e _, _, _, h => Ex.minus_primary (e := e) h.1 h.2.1

theorem Ex.last_primary {e : Ex} (h : e.Primary) : e.last = 255 := by
  cases e <;> first | rfl | exact h.elim

/-- **C64 (two operators).** Of the two ways to read `a x b y c` exactly one needs no parentheses: the operator of the higher
level takes `b`, and the left one if they are of the same level. -/
theorem C64_two_operators {x y : SyntaxKind} (hx : IsBin x) (hy : IsBin y) {a b c : Ex} (ha : a.Fits 255) (hb : b.Fits 255)
    (hc : c.Fits 255) (pa : a.Primary) (pb : b.Primary) (pc : c.Primary) :
    ((Ex.bin y (.bin x a b) c).Fits 1 ↔ level y ≤ level x) ∧ ((Ex.bin x a (.bin y b c)).Fits 1 ↔ level x < level y) := by
  have lx := level_lt x
  have ly := level_lt y
  have px : 1 ≤ level x := Nat.one_le_iff_ne_zero.2 hx.1
  have py : 1 ≤ level y := Nat.one_le_iff_ne_zero.2 hy.1
  have ha' (m) : a.Fits m := a.fits_primary pa ha
  have hb' (m) : b.Fits m := b.fits_primary pb hb
  have hc' (m) : c.Fits m := c.fits_primary pc hc
  have la := a.last_primary pa
  have lb := b.last_primary pb
  have lab : (Ex.bin x a b).last = level x + 1 := rfl
  simp only [Ex.Fits, la, lb, lab, Ex.minus, Ex.minus_primary pb hb, Ex.minus_primary pc hc, hx, hy, px, py, ha', hb', hc']
  constructor
  · constructor
    · rintro ⟨-, -, -, h, -⟩; omega
    · intro h; refine ⟨trivial, trivial, ?_⟩; simp; omega
  · constructor
    · rintro ⟨-, -, -, -, ⟨-, h, -⟩, -⟩; omega
    · intro h; simp; omega

mutual
/-- The expression without its parentheses. -/
def Ex.strip : Ex → Ex
  | .path addr more => .path addr more
  | .lit k => .lit k
  | .paren e => e.strip
  | .un o e => .un o e.strip
  | .field e num => .field e.strip num
  | .index e i => .index e.strip i.strip
  | .call f a => .call f.strip a.strip
  | .method e a => .method e.strip a.strip
  | .bin k l r => .bin k l.strip r.strip
  | .cast e addr more => .cast e.strip addr more
def Args.strip : Args → Args
  | .none => .none
  | .one e => .one e.strip
  | .more e a => .more e.strip a.strip
end

mutual
/-- The operators are operators and the literals are literals. Nothing is said of the grouping. -/
def Ex.Sound : Ex → Prop
  | .path addr more => addr = true → more ≠ 0
  | .lit k => k = .INT_NUMBER ∨ k = .BYTE_STRING ∨ k = .HEX_STRING ∨ k = .TRUE_KW ∨ k = .FALSE_KW
  | .paren e => e.Sound
  | .un _ e => e.Sound
  | .field e _ => e.Sound
  | .index e i => e.Sound ∧ i.Sound
  | .call f a => f.Sound ∧ a.Sound
  | .method e a => e.Sound ∧ a.Sound
  | .bin k l r => IsBin k ∧ l.Sound ∧ r.Sound
  | .cast e addr more => (addr = true → more ≠ 0) ∧ e.Sound
def Args.Sound : Args → Prop
  | .none => True
  | .one e => e.Sound
  | .more e a => e.Sound ∧ a ≠ .none ∧ a.Sound
end

mutual
/-- Parentheses around every operand. -/
def Ex.group : Ex → Ex
  | .path addr more => .path addr more
  | .lit k => .lit k
  | .paren e => e.group
  | .un o e => .paren (.un o (.paren e.group))
  | .field e num => .field (.paren e.group) num
  | .index e i => .index (.paren e.group) i.group
  | .call f a => .call (.paren f.group) a.group
  | .method e a => .method (.paren e.group) a.group
  | .bin k l r => .paren (.bin k (.paren l.group) (.paren r.group))
  | .cast e addr more => .paren (.cast (.paren e.group) addr more)
def Args.group : Args → Args
  | .none => .none
  | .one e => .one e.group
  | .more e a => .more e.group a.group
end

mutual
theorem Ex.group_spec : ∀ e : Ex, e.Sound → (∀ m, e.group.Fits m) ∧ e.group.strip = e.strip
  | .path .., h => ⟨fun _ => h, rfl⟩
  | .lit _, h => ⟨fun _ => h, rfl⟩
  | .paren e, h => e.group_spec h
  | .un o e, h => by
    obtain ⟨h1, h2⟩ := e.group_spec h
    exact ⟨fun _ => h1 1, by simp [Ex.group, Ex.strip, h2]⟩
  | .field e num, h => by
    obtain ⟨h1, h2⟩ := e.group_spec h
    exact ⟨fun _ => ⟨trivial, h1 1⟩, by simp [Ex.group, Ex.strip, h2]⟩
  | .index e i, h => by
    obtain ⟨h1, h2⟩ := e.group_spec h.1
    obtain ⟨h3, h4⟩ := i.group_spec h.2
    exact ⟨fun _ => ⟨trivial, h1 1, h3 1⟩, by simp [Ex.group, Ex.strip, h2, h4]⟩
  | .call e a, h => by
    obtain ⟨h1, h2⟩ := e.group_spec h.1
    obtain ⟨h3, h4, -⟩ := a.group_spec h.2
    exact ⟨fun _ => ⟨trivial, h1 1, h3⟩, by simp [Ex.group, Ex.strip, h2, h4]⟩
  | .method e a, h => by
    obtain ⟨h1, h2⟩ := e.group_spec h.1
    obtain ⟨h3, h4, -⟩ := a.group_spec h.2
    exact ⟨fun _ => ⟨trivial, h1 1, h3⟩, by simp [Ex.group, Ex.strip, h2, h4]⟩
  | .bin k l r, h => by
    obtain ⟨h1, h2⟩ := l.group_spec h.2.1
    obtain ⟨h3, h4⟩ := r.group_spec h.2.2
    have := level_lt k
    exact ⟨fun _ => ⟨h.1, Nat.one_le_iff_ne_zero.2 h.1.1, h1 1, by simp only [Ex.last]; omega, h3 1, fun _ => rfl⟩,
      by simp [Ex.group, Ex.strip, h2, h4]⟩
  | .cast e addr more, h => by
    obtain ⟨h1, h2⟩ := e.group_spec h.2
    exact ⟨fun _ => ⟨h.1, by decide, h1 1, (by decide : level .AS_KW < 255)⟩, by simp [Ex.group, Ex.strip, h2]⟩
theorem Args.group_spec : ∀ a : Args, a.Sound → a.group.Fits ∧ a.group.strip = a.strip ∧ (a ≠ .none → a.group ≠ .none)
  | .none, _ => ⟨trivial, rfl, fun h => h⟩
  | .one e, h => by
    obtain ⟨h1, h2⟩ := e.group_spec h
    exact ⟨h1 1, by simp [Args.group, Args.strip, h2], fun _ => by simp [Args.group]⟩
  | .more e a, h => by
    obtain ⟨h1, h2⟩ := e.group_spec h.1
    obtain ⟨h3, h4, h5⟩ := a.group_spec h.2.2
    exact ⟨⟨h1 1, h5 h.2.1, h3⟩, by simp [Args.group, Args.strip, h2, h4], fun _ => by simp [Args.group]⟩
end

/-- **C64 (every expression).** Whatever the grouping, there is a way to write it with parentheses. -/
theorem C64_every_expression (e : Ex) (h : e.Sound) : ∃ e' : Ex, e'.Fits 1 ∧ e'.strip = e.strip :=
  ⟨e.group, (e.group_spec h).1 1, (e.group_spec h).2⟩

/-! ### Examples -/

/-- A file with an expression of several levels. -/
def exampleText : List Char := "module 0x1::m { const C: u8 = /* x */ a + b * -c\n - f(d, 1).x as u64; }".toList

def exampleRaw : List Lexer.RawToken := ((tokenize oneChar 200 exampleText).getD none).getD []
def examplePieces : List Piece := (pieces exampleText exampleRaw).getD []

/-- `((a + (b * (-c))) - f(d, 1).x) as u64`. -/
def exampleEx : Ex :=
  .cast (.bin .MINUS (.bin .PLUS (.path false 0) (.bin .STAR (.path false 0) (.un .neg (.path false 0))))
    (.field (.call (.path false 0) (.more (.path false 0) (.one (.lit .INT_NUMBER)))) false)) false 0

theorem example_fits : exampleEx.Fits 1 := by
  simp only [exampleEx, Ex.Fits, Args.Fits, Ex.Primary, Ex.last, Ex.minus]
  refine ⟨by simp, by decide, ⟨by decide, by decide, ⟨by decide, by decide, by simp, by decide, ⟨by decide, by decide, by simp, by decide,
    by simp, by simp⟩, by simp⟩, by decide, ⟨trivial, trivial, by simp, by simp, by simp, by simp⟩, by simp⟩, by decide⟩

theorem example_input (debug : Bool) : Input.IsConst ⟨source examplePieces, debug⟩ exampleEx 27 := by
  have hop : ∀ x ∈ [(11, SyntaxKind.PLUS), (13, .STAR), (16, .MINUS)], Input.OpAt ⟨source examplePieces, debug⟩ x.1 x.2 := by
    have hk : ∀ x ∈ [(11, SyntaxKind.PLUS), (13, .STAR), (16, .MINUS)], Input.atKind ⟨source examplePieces, debug⟩ x.1 x.2 = true ∧
        ∀ l ∈ levels, ∀ k' ∈ l, Input.atKind ⟨source examplePieces, debug⟩ x.1 k' = true → (parts k').length ≤ (parts x.2).length := by
      cases debug <;> decide +kernel
    refine fun x hx => ⟨(hk x hx).1, fun k' hk' => ?_⟩
    obtain ⟨h1, -⟩ := hk'
    unfold level at h1
    split at h1
    · rename_i hl
      rw [List.any_eq_true] at hl
      obtain ⟨l, hl1, hl2⟩ := hl
      exact (hk x hx).2 l hl1 k' (List.contains_iff_mem.1 hl2)
    · exact absurd rfl h1
  have hpath : ∀ p ∈ [8, 10, 12, 15, 17, 19, 26], Input.PathAt ⟨source examplePieces, debug⟩ false 0 p (p + 1) := by
    have hk : ∀ p ∈ [8, 10, 12, 15, 17, 19, 26], Input.kindAt ⟨source examplePieces, debug⟩ p = .IDENT ∧
        ∀ w ∈ words, Input.textAt ⟨source examplePieces, debug⟩ p ≠ w.toList := by
      cases debug <;> decide +kernel
    exact fun p hp => ⟨hk p hp, rfl⟩
  have hend : ∀ p ∈ [11, 13, 16, 18, 20, 25], Input.kindAt ⟨source examplePieces, debug⟩ p ≠ .COLON_COLON ∧
      Input.kindAt ⟨source examplePieces, debug⟩ p ≠ .L_ANGLE ∧ Input.kindAt ⟨source examplePieces, debug⟩ p ≠ .L_CURLY := by
    cases debug <;> decide +kernel
  have hname : ∀ p ∈ [10, 12, 15, 17, 19], Ex.At ⟨source examplePieces, debug⟩ (.path false 0) p (p + 1) := by
    intro p hp
    have h1 := hend (p + 1) (by revert p; decide)
    exact ⟨hpath p (by clear h1; revert p; decide), ⟨h1.1, fun h => absurd h h1.2.1⟩, h1.2.2⟩
  have hk : ∀ x ∈ [(0, SyntaxKind.MODULE_KW), (1, .INT_NUMBER), (2, .COLON_COLON), (3, .IDENT), (4, .L_CURLY), (5, .CONST_KW), (6, .IDENT),
      (7, .COLON), (9, .EQ), (14, .MINUS), (18, .L_PAREN), (20, .COMMA), (21, .INT_NUMBER), (22, .R_PAREN), (23, .DOT), (24, .IDENT), (25, .AS_KW),
      (27, .SEMICOLON), (28, .R_CURLY), (29, .EOF)], Input.kindAt ⟨source examplePieces, debug⟩ x.1 = x.2 := by
    cases debug <;> decide +kernel
  have hplain : ∀ w ∈ words, Input.textAt ⟨source examplePieces, debug⟩ 6 ≠ w.toList := by
    cases debug <;> decide +kernel
  have h25 := hend 25 (by decide)
  have k (p : Nat) (kd : SyntaxKind) (h) : Input.kindAt ⟨source examplePieces, debug⟩ p = kd := hk (p, kd) h
  refine ⟨k _ _ (by decide), k _ _ (by decide), k _ _ (by decide), k _ _ (by decide), k _ _ (by decide), k _ _ (by decide), k _ _ (by decide),
    hplain, k _ _ (by decide), hpath 8 (by decide), k _ _ (by decide), ?_, k _ _ (by decide), k _ _ (by decide), k _ _ (by decide)⟩
  exact ⟨25, ⟨16, ⟨11, hname 10 (by decide), hop (11, .PLUS) (by decide), 13, hname 12 (by decide), hop (13, .STAR) (by decide), 15,
      ⟨k 14 _ (by decide), rfl⟩, hname 15 (by decide)⟩, hop (16, .MINUS) (by decide), 23, ⟨18, 22, hname 17 (by decide), k 18 _ (by decide),
      ⟨20, hname 19 (by decide), k 20 _ (by decide), k 21 _ (by decide), rfl, by rw [k 22 .R_PAREN (by decide)]; decide⟩, k 22 _ (by decide), rfl⟩,
      k 23 _ (by decide), k 24 .IDENT (by decide), rfl, fun _ => ⟨⟨h25.1, fun h => absurd h h25.2.1⟩, by rw [k 25 .AS_KW (by decide)]; decide⟩⟩,
      k 25 _ (by decide), hpath 26 (by decide), by rw [k 27 .SEMICOLON (by decide)]; decide, by rw [k 27 .SEMICOLON (by decide)]; decide⟩

example (debug : Bool) : ∃ t, parseText oneChar debug 200 exampleText = .tree t [] ∧ t.marks = marks (constTree exampleEx) :=
  C64_file_partial oneChar_graphemes oneChar_breaks debug (by decide) (by decide +kernel : tokenize oneChar 200 exampleText = some (some exampleRaw))
    (by decide +kernel : pieces exampleText exampleRaw = some examplePieces) (example_input debug) example_fits

theorem example_valid (debug : Bool) : Input.Valid ⟨source examplePieces, debug⟩ := by
  obtain ⟨ps, h1, -, h3⟩ := tokenize_pieces oneChar_graphemes oneChar_breaks 200 exampleText exampleRaw (by decide +kernel)
  have h4 : pieces exampleText exampleRaw = some examplePieces := by decide +kernel
  rw [h4] at h1
  cases h1
  exact valid_source h3 debug

example (debug : Bool) (n : Nat) (hn : 17 < n) : ∃ cm s' seg, (grammar n).exprBp ⟨false, false⟩ 1 ⟨source examplePieces, debug⟩ ⟨RSet.new, .Move⟩ ⟨10, []⟩ =
    .ok (some (cm, .NotBlock)) s' ∧ cm.kind = .CAST_EXPR ∧ s'.pos = 27 ∧ s'.events = seg ∧ Denotes seg exampleEx.tree :=
  have := example_valid debug
  C64_expression_partial ⟨by decide +kernel, by simp [RSet.new]⟩ example_fits (example_input debug).value
    (by unfold Input.Ends; rw [(example_input debug).semi]; decide) hn rfl

/-- Any other expression that is written with these tokens is the same tree. -/
example (debug : Bool) (e : Ex) (hf : e.Fits 1) (h : e.At ⟨source examplePieces, debug⟩ 10 27) : e.tree = exampleEx.tree :=
  have := example_valid debug
  C64_unique_partial hf example_fits h (example_input debug).value (by unfold Input.Ends; rw [(example_input debug).semi]; decide)

/-- `a - b - c` is `(a - b) - c`, and `a < b + c` is `a < (b + c)`. -/
example (a b c : Ex) (ha : a = .path false 0) (hb : b = .path false 0) (hc : c = .path false 0) :
    (Ex.bin .MINUS (.bin .MINUS a b) c).Fits 1 ∧ ¬ (Ex.bin .MINUS a (.bin .MINUS b c)).Fits 1 ∧
      (Ex.bin .L_ANGLE a (.bin .PLUS b c)).Fits 1 := by
  subst ha hb hc
  have h := C64_two_operators (x := .MINUS) (y := .MINUS) (a := .path false 0) (b := .path false 0) (c := .path false 0) (by decide) (by decide)
    (by simp [Ex.Fits]) (by simp [Ex.Fits]) (by simp [Ex.Fits]) trivial trivial trivial
  have h' := C64_two_operators (x := .L_ANGLE) (y := .PLUS) (a := .path false 0) (b := .path false 0) (c := .path false 0) (by decide) (by decide)
    (by simp [Ex.Fits]) (by simp [Ex.Fits]) (by simp [Ex.Fits]) trivial trivial trivial
  exact ⟨h.1.2 (by decide), fun hc => absurd (h.2.1 hc) (by decide), h'.2.2 (by decide)⟩

/-- The other grouping of `a - b - c` can be written, with parentheses. -/
example : ∃ e' : Ex, e'.Fits 1 ∧ e'.strip = .bin .MINUS (.path false 0) (.bin .MINUS (.path false 0) (.path false 0)) :=
  C64_every_expression (.bin .MINUS (.path false 0) (.bin .MINUS (.path false 0) (.path false 0)))
    (by simp only [Ex.Sound]; exact ⟨by decide, by simp, by decide, by simp, by simp⟩)

/-! ### What fails -/

mutual
/-- The kinds and the texts of the nodes of a tree. -/
def Green.nodes : Green → List (SyntaxKind × List Char)
  | .tok .. => []
  | .node k cs => (k, (Green.node k cs).text) :: Green.nodesList cs
def Green.nodesList : List Green → List (SyntaxKind × List Char)
  | [] => []
  | g :: gs => g.nodes ++ Green.nodesList gs
end

/-- The nodes of the kind with this text, and the errors. -/
def Parsed.reads (p : Parsed) (k : SyntaxKind) (text : String) : Bool × Option (List Nat) :=
  match p with
  | .tree t errs => (t.nodes.contains (k, text.toList), some errs)
  | _ => (false, none)

/-- **C64 fails (operands of `return`, `abort` and `break`).** A minus is not among the tokens an expression can start with
(`EXPR_FIRST`, expressions.rs 374-375), so `return -1` is read as the difference of `return` and 1, without an error. -/
theorem C64_return_fails (debug : Bool) :
    (parseText oneChar debug 200 "module 0x1::m { fun f(): i64 { return -1 } }".toList).reads .BIN_EXPR "return -1" = (true, some []) ∧
    (parseText oneChar debug 200 "module 0x1::m { fun f() { abort -1 } }".toList).reads .BIN_EXPR "abort -1" = (true, some []) ∧
    (parseText oneChar debug 200 "module 0x1::m { fun f() { loop { break -1 } } }".toList).reads .BIN_EXPR "break -1" = (true, some []) := by
  refine ⟨?_, ?_, ?_⟩ <;> cases debug <;> decide +kernel

/-- **C64 fails (ranges).** For the same reason `0..-1` is a range without an end, and errors at the three tokens after it. -/
theorem C64_range_fails (debug : Bool) :
    (parseText oneChar debug 200 "module 0x1::m { const C: u8 = 0..-1; }".toList).reads .RANGE_EXPR "0.." = (true, some [33, 34, 35, 36]) := by
  cases debug <;> decide +kernel

/-- **C64 fails (type arguments).** Two comparisons as arguments are read as one call with type arguments, without an error. -/
theorem C64_comparison_fails (debug : Bool) :
    (parseText oneChar debug 200 "module 0x1::m { const C: u8 = g(a < b, c > (d)); }".toList).reads .CALL_EXPR "a < b, c > (d)" =
      (true, some []) := by
  cases debug <;> decide +kernel

end Verif.Parser
