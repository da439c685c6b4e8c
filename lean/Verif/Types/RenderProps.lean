import Verif.Types.Render
import Mathlib.Data.List.Forall2

/-! C77: types that are written alike are the same type. -/

namespace Verif.Types.Render
open Verif.Types

/-! ### Words -/

/-- What follows a type: nothing, or the rest of the list it is in. -/
def Stop (r : List Char) : Prop := ∀ c ∈ r.head?, c = ',' ∨ c = '>' ∨ c = ')' ∨ c = '|' ∨ c = '\''

/-- What cannot go on with a word. -/
def Ends (r : List Char) : Prop := ∀ c ∈ r.head?, ¬ WordChar c

def Word (w : List Char) : Prop := w ≠ [] ∧ ∀ c ∈ w, WordChar c

instance : DecidablePred WordChar := fun c => by unfold WordChar; infer_instance
instance : DecidablePred Word := fun c => by unfold Word; infer_instance

theorem Stop.ends {r : List Char} (h : Stop r) : Ends r := by
  intro c hc hw
  obtain ⟨h1, h2, h3, h4, -, -, -, -, h5⟩ := hw
  rcases h c hc with h | h | h | h | h <;> contradiction

theorem stop_cons {c : Char} {r : List Char} (h : c = ',' ∨ c = '>' ∨ c = ')' ∨ c = '|' ∨ c = '\'') : Stop (c :: r) := by
  intro d hd
  simp only [List.head?_cons, Option.mem_def, Option.some.injEq] at hd
  exact hd ▸ h

theorem ends_cons {c : Char} {r : List Char} (h : ¬ WordChar c) : Ends (c :: r) := by
  intro d hd
  simp only [List.head?_cons, Option.mem_def, Option.some.injEq] at hd
  exact hd ▸ h

theorem word_split : ∀ {w v r s : List Char}, (∀ c ∈ w, WordChar c) → (∀ c ∈ v, WordChar c) → Ends r → Ends s → w ++ r = v ++ s →
    w = v ∧ r = s
  | [], [], _, _, _, _, _, _, h => ⟨rfl, h⟩
  | [], d :: v, r, s, _, hv, hr, _, h => by
    simp only [List.nil_append, List.cons_append] at h
    exact absurd (hv d (List.mem_cons_self ..)) (hr d (by rw [h]; rfl))
  | c :: w, [], r, s, hw, _, _, hs, h => by
    simp only [List.nil_append, List.cons_append] at h
    exact absurd (hw c (List.mem_cons_self ..)) (hs c (by rw [← h]; rfl))
  | c :: w, d :: v, r, s, hw, hv, hr, hs, h => by
    simp only [List.cons_append, List.cons.injEq] at h
    obtain ⟨rfl, h⟩ := h
    obtain ⟨rfl, h2⟩ := word_split (fun x hx => hw x (List.mem_cons_of_mem _ hx)) (fun x hx => hv x (List.mem_cons_of_mem _ hx)) hr hs h
    exact ⟨rfl, h2⟩

theorem colon_split : ∀ {w v r s : List Char}, (∀ c ∈ w, c ≠ ':') → (∀ c ∈ v, c ≠ ':') → w ++ ':' :: r = v ++ ':' :: s → w = v ∧ r = s
  | [], [], _, _, _, _, h => ⟨rfl, by simpa using h⟩
  | [], d :: v, r, s, _, hv, h => by
    simp only [List.nil_append, List.cons_append, List.cons.injEq] at h
    exact absurd h.1.symm (hv d (List.mem_cons_self ..))
  | c :: w, [], r, s, hw, _, h => by
    simp only [List.nil_append, List.cons_append, List.cons.injEq] at h
    exact absurd h.1 (hw c (List.mem_cons_self ..))
  | c :: w, d :: v, r, s, hw, hv, h => by
    simp only [List.cons_append, List.cons.injEq] at h
    obtain ⟨rfl, h⟩ := h
    obtain ⟨rfl, h2⟩ := colon_split (fun x hx => hw x (List.mem_cons_of_mem _ hx)) (fun x hx => hv x (List.mem_cons_of_mem _ hx)) h
    exact ⟨rfl, h2⟩

/-! ### The names of types -/

theorem intText_inj {a b : IntKind} (h : intText a = intText b) : a = b := by
  cases a <;> cases b <;> first | rfl | exact absurd h (by decide)

theorem intText_mem (k : IntKind) : intText k ∈ builtin := by cases k <;> decide

/-- The word of a type of the language. -/
def prim : Ty → Option (List Char)
  | .bool => some "bool".toList
  | .signer => some "signer".toList
  | .address => some "address".toList
  | .num => some "num".toList
  | .bv => some "bv".toList
  | .integer k => some (intText k)
  | .vector _ => some "vector".toList
  | .range _ => some "range".toList
  | .intVar _ => some "?integer".toList
  | _ => none

theorem prim_mem {t : Ty} {w : List Char} (h : prim t = some w) : w ∈ builtin := by
  cases t <;> simp only [prim, Option.some.injEq, reduceCtorEq] at h <;> subst h <;> first | decide | exact intText_mem _

theorem intText_other (k : IntKind) : intText k ≠ "bool".toList ∧ intText k ≠ "signer".toList ∧ intText k ≠ "address".toList ∧
    intText k ≠ "num".toList ∧ intText k ≠ "bv".toList ∧ intText k ≠ "vector".toList ∧ intText k ≠ "range".toList ∧
    intText k ≠ "?integer".toList := by cases k <;> decide

theorem prim_head {n : Names} {t u : Ty} {w : List Char} (h : prim t = some w) (h' : prim u = some w) : SameHead n t u := by
  cases t <;> simp only [prim, Option.some.injEq, reduceCtorEq] at h <;> cases u <;>
    simp only [prim, Option.some.injEq, reduceCtorEq] at h' <;> subst h <;>
    first
    | exact .integers
    | exact .vector
    | exact .range
    | (have := intText_inj h'; subst this; exact .base rfl (by simp) (by simp) (by simp))
    | exact .base rfl (by simp) (by simp) (by simp)
    | exact absurd h' (by decide)
    | (have := intText_other ‹_›; simp_all)

/-- The word a type begins with. -/
def word (n : Names) (t : Ty) : Option (List Char) :=
  match t with
  | .typeParam l => some (paramText n messages l)
  | .adt l _ _ _ => some (itemText n messages l)
  | t => prim t

theorem item_some {n : Names} {l : Loc} (h : n.fq l ≠ none) : ∃ f, n.fq l = some f ∧ itemText n messages l = f.full := by
  obtain ⟨f, hf⟩ := Option.ne_none_iff_exists'.1 h
  exact ⟨f, hf, by unfold itemText; rw [hf]; rfl⟩

theorem param_some {n : Names} {l : Loc} (h : n.param l ≠ none) : ∃ x, n.param l = some x ∧ paramText n messages l = x := by
  obtain ⟨x, hx⟩ := Option.ne_none_iff_exists'.1 h
  exact ⟨x, hx, by unfold paramText; rw [hx]; rfl⟩

theorem full_colon (f : Fq) : ':' ∈ f.full := by simp [Fq.full, sep]

theorem builtin_colon : ∀ w ∈ builtin, ':' ∉ w := by decide

theorem builtin_word : ∀ w ∈ builtin, Word w := by decide

theorem full_inj {f g : Fq} (h1 : Ident f.addr) (h2 : Ident f.module) (h3 : Ident g.addr) (h4 : Ident g.module)
    (h : f.full = g.full) : f.addr = g.addr ∧ f.module = g.module ∧ f.name = g.name := by
  simp only [Fq.full, sep, List.append_assoc, List.cons_append, List.nil_append] at h
  obtain ⟨h5, h6⟩ := colon_split (fun c hc => (h1.2 c hc).2) (fun c hc => (h3.2 c hc).2) h
  obtain ⟨h7, h8⟩ := colon_split (fun c hc => (h2.2 c hc).2) (fun c hc => (h4.2 c hc).2) (List.cons.inj h6).2
  exact ⟨h5, h7, (List.cons.inj h8).2⟩

theorem head_of_word {n : Names} (hp : n.Proper) {t u : Ty} {w : List Char} (ht : word n t = some w) (hu : word n u = some w)
    (pt : Plain n t) (pu : Plain n u) : SameHead n t u := by
  have key : ∀ t, word n t = some w → Plain n t → (∃ l x, t = .typeParam l ∧ n.param l = some x ∧ w = x) ∨
      (∃ l k v a f, t = .adt l k v a ∧ n.fq l = some f ∧ w = f.full) ∨ prim t = some w := by
    intro t ht pt
    cases t <;> try (exact .inr (.inr ht))
    · obtain ⟨x, h1, h2⟩ := param_some (show n.param _ ≠ none from pt)
      simp only [word, Option.some.injEq, h2] at ht
      exact .inl ⟨_, x, rfl, h1, ht.symm⟩
    · obtain ⟨f, h1, h2⟩ := item_some (show n.fq _ ≠ none from by unfold Plain at pt; exact pt.1)
      simp only [word, Option.some.injEq, h2] at ht
      exact .inr (.inl ⟨_, _, _, _, f, rfl, h1, ht.symm⟩)
  rcases key t ht pt with ⟨l, x, rfl, h1, rfl⟩ | ⟨l, k, v, a, f, rfl, h1, rfl⟩ | h1 <;>
    rcases key u hu pu with ⟨l', x', rfl, h1', h2'⟩ | ⟨l', k', v', a', f', rfl, h1', h2'⟩ | h1'
  · exact .param h1 (h2' ▸ h1')
  · exact absurd rfl (((hp.param _ _ h1).1.2 ':' (h2' ▸ full_colon f')).2)
  · exact absurd (prim_mem h1') (hp.param _ _ h1).2
  · subst h2'
    exact absurd rfl (((hp.param _ _ h1').1.2 ':' (full_colon f)).2)
  · obtain ⟨a1, a2, a3⟩ := hp.fq _ _ h1
    obtain ⟨b1, b2, b3⟩ := hp.fq _ _ h1'
    obtain ⟨c1, c2, c3⟩ := full_inj a1 a2 b1 b2 h2'
    exact .item h1 h1' c1 c2 c3
  · exact absurd (full_colon f) (builtin_colon _ (prim_mem h1'))
  · subst h2'
    exact absurd (prim_mem h1) (hp.param _ _ h1').2
  · subst h2'
    exact absurd (full_colon f') (builtin_colon _ (prim_mem h1))
  · exact prim_head h1 h1'

theorem word_word {n : Names} (hp : n.Proper) {t : Ty} {w : List Char} (ht : word n t = some w) (pt : Plain n t) : Word w := by
  have sub : ∀ s, Ident s → ∀ c ∈ s, WordChar c := fun s hs c hc => (hs.2 c hc).1
  cases t with
  | typeParam l =>
    obtain ⟨x, h1, h2⟩ := param_some (show n.param _ ≠ none from pt)
    simp only [word, Option.some.injEq, h2] at ht
    subst ht
    have := (hp.param _ _ h1).1
    exact ⟨this.1, sub _ this⟩
  | adt l k v a =>
    obtain ⟨f, h1, h2⟩ := item_some (show n.fq _ ≠ none from by unfold Plain at pt; exact pt.1)
    simp only [word, Option.some.injEq, h2] at ht
    subst ht
    obtain ⟨h3, h4, h5⟩ := hp.fq _ _ h1
    refine ⟨fun h => absurd (full_colon f) (by rw [h]; simp), fun c hc => ?_⟩
    simp only [Fq.full, sep, List.mem_append, List.mem_cons, List.not_mem_nil, or_false, or_self] at hc
    have hcolon : WordChar ':' := by decide
    rcases hc with (h | rfl) | (h | rfl) | h
    · exact sub _ h3 c h
    · exact hcolon
    · exact sub _ h4 c h
    · exact hcolon
    · exact sub _ h5 c h
  | _ =>
    simp only [word] at ht
    exact builtin_word _ (prim_mem ht)

/-! ### Reading a type -/

/-- What a type begins with, and what is in it. -/
inductive View where
  | angle (s : List Char)
  | word (w : List Char) (args : List Ty)
  | ref (m : Bool) (t : Ty)
  | paren (ts : List Ty)
  | fn (w : List Char) (ps : List Ty) (r : Ty)
  | lambda (ps : List Ty) (r : Ty)

def View.Good : View → Prop
  | .angle s => s = "<unknown>".toList ∨ s = "<never>".toList
  | .word w _ => Word w
  | .fn w _ _ => w = "fn".toList ∨ w = "fn_predicate".toList
  | _ => True

def tail (n : Names) (r : Ty) : List Char := if r = .unit then [] else arrow ++ render n messages r

def View.text (n : Names) : View → List Char
  | .angle s => s
  | .word w args => w ++ renderArgs n messages args
  | .ref m t => '&' :: ((if m then "mut ".toList else []) ++ render n messages t)
  | .paren ts => '(' :: (renderList n messages ts ++ [')'])
  | .fn w ps r => w ++ ('(' :: (renderList n messages ps ++ ')' :: tail n r))
  | .lambda ps r => '|' :: (renderList n messages ps ++ '|' :: (arrow ++ render n messages r))

def view (n : Names) (t : Ty) : View :=
  match t with
  | .unknown => .angle messages.unknown
  | .never => .angle messages.never
  | .unit => .paren []
  | .ref t m => .ref m t
  | .tuple ts => .paren ts
  | .callable ps r .Named _ _ _ => .fn "fn".toList ps r
  | .callable ps r .Predicate _ _ _ => .fn "fn_predicate".toList ps r
  | .callable ps r .Lambda _ _ _ => .lambda ps r
  | t => .word ((word n t).getD []) (parts t)

theorem named_text (n : Names) (ps : List Ty) (r : Ty) (a : Option Loc) (b : List Loc) (c : List Ty) :
    render n messages (.callable ps r .Named a b c) = (View.fn "fn".toList ps r).text n := by
  unfold render View.text tail; rfl

theorem predicate_text (n : Names) (ps : List Ty) (r : Ty) (a : Option Loc) (b : List Loc) (c : List Ty) :
    render n messages (.callable ps r .Predicate a b c) = (View.fn "fn_predicate".toList ps r).text n := by
  unfold render View.text tail; rfl

theorem lambda_text (n : Names) (ps : List Ty) (r : Ty) (a : Option Loc) (b : List Loc) (c : List Ty) :
    render n messages (.callable ps r .Lambda a b c) = (View.lambda ps r).text n := by
  unfold render View.text; rfl

theorem view_text {n : Names} {t : Ty} (h : Plain n t) : render n messages t = (view n t).text n := by
  cases t with
  | var v => exact absurd h (by unfold Plain; exact id)
  | schema => exact absurd h (by unfold Plain; exact id)
  | callable ps r k =>
    cases k
    · rw [named_text]; unfold view; rfl
    · rw [lambda_text]; unfold view; rfl
    · rw [predicate_text]; unfold view; rfl
  | bool | signer | address | num | bv | integer | intVar | typeParam => unfold render; exact (List.append_nil _).symm
  | vector t | range t =>
    have : (renderArgs n messages [t]) = '<' :: (render n messages t ++ ['>']) := by
      simp only [renderArgs, renderMore, List.append_nil]
    unfold render
    rw [← this]
    rfl
  | unknown | never | unit | ref | tuple | adt => unfold render; rfl

theorem view_good {n : Names} (hp : n.Proper) {t : Ty} (h : Plain n t) : (view n t).Good := by
  cases t with
  | unknown => exact .inl rfl
  | never => exact .inr rfl
  | unit | ref | tuple => trivial
  | callable ps r k => cases k <;> simp [view, View.Good]
  | var v => exact absurd h (by unfold Plain; exact id)
  | schema => exact absurd h (by unfold Plain; exact id)
  | bool | signer | address | num | bv | integer | vector | range | intVar | typeParam | adt =>
    refine word_word hp (t := _) ?_ h
    rfl

/-- The first character of a type. -/
theorem first_char {n : Names} (hp : n.Proper) {t : Ty} (h : Plain n t) :
    ∃ c cs, render n messages t = c :: cs ∧ c ≠ ',' ∧ c ≠ '>' ∧ c ≠ ')' ∧ c ≠ ' ' := by
  have hg := view_good hp h
  rw [view_text h]
  generalize view n t = v at hg
  cases v with
  | angle s => rcases hg with rfl | rfl <;> exact ⟨_, _, rfl, by decide, by decide, by decide, by decide⟩
  | word w args =>
    obtain ⟨h1, h2⟩ := hg
    cases w with
    | nil => exact absurd rfl h1
    | cons c w =>
      obtain ⟨a1, a2, a3, -, -, a6, -⟩ := h2 c (List.mem_cons_self ..)
      exact ⟨c, _, rfl, a1, a2, a3, a6⟩
  | ref | paren | lambda => exact ⟨_, _, rfl, by decide, by decide, by decide, by decide⟩
  | fn w ps r => rcases hg with rfl | rfl <;> exact ⟨_, _, rfl, by decide, by decide, by decide, by decide⟩

/-- Only the type of a lambda begins with a bar, and no space follows it. -/
theorem bar_char {n : Names} (hp : n.Proper) {t : Ty} (h : Plain n t) {cs : List Char} (hc : render n messages t = '|' :: cs) :
    ∃ d ds, cs = d :: ds ∧ d ≠ ' ' := by
  have hg := view_good hp h
  have hv := view_text h
  rw [hc] at hv
  cases t with
  | callable ps r k =>
    cases k with
    | Lambda =>
      simp only [view, View.text, List.cons.injEq, true_and] at hv
      subst hv
      cases ps with
      | nil => exact ⟨'|', _, rfl, by decide⟩
      | cons p ps =>
        unfold Plain Plains at h
        obtain ⟨c, ds, h1, -, -, -, h2⟩ := first_char hp h.1.1
        simp only [renderList, h1, List.cons_append]
        exact ⟨c, _, rfl, h2⟩
    | Named => simp [view, View.text] at hv
    | Predicate => simp [view, View.text] at hv
  | unknown | never => simp [view, View.text, messages] at hv
  | unit | ref | tuple => simp [view, View.text] at hv
  | var v => exact absurd h (by unfold Plain; exact id)
  | schema => exact absurd h (by unfold Plain; exact id)
  | bool | signer | address | num | bv | integer | vector | range | intVar | typeParam | adt =>
    simp only [view, View.text, View.Good] at hv hg
    obtain ⟨h1, h2⟩ := hg
    obtain ⟨c, w, hw⟩ := List.exists_cons_of_ne_nil h1
    rw [hw] at hv h2
    have := (h2 c (List.mem_cons_self ..)).2.2.2.1
    simp only [List.cons_append, List.cons.injEq] at hv
    exact absurd hv.1.symm this

/-- The text of the type is read in only one way. -/
def Reads (n : Names) (t : Ty) : Prop :=
  ∀ u r s, Plain n u → Stop r → Stop s → render n messages t ++ r = render n messages u ++ s → Same n t u ∧ r = s

/-- The closing delimiter of a list with what follows. -/
def Closes (c : Char) (r : List Char) : Prop := c = '>' ∨ c = ')' ∨ (c = '|' ∧ r.head? = some ' ')

theorem Closes.stop {c : Char} {r : List Char} (h : Closes c r) : Stop (c :: r) := by
  refine stop_cons ?_
  rcases h with rfl | rfl | ⟨rfl, -⟩ <;> simp

theorem read_more {n : Names} : ∀ {ts : List Ty}, (∀ t ∈ ts, Reads n t) → ∀ {us : List Ty} {c : Char} {r s : List Char},
    Plains n us → Closes c r → Closes c s → renderMore n messages ts ++ c :: r = renderMore n messages us ++ c :: s →
    List.Forall₂ (Same n) ts us ∧ r = s
  | [], _, [], c, r, s, _, _, _, h => by
    simp only [renderMore, List.nil_append, List.cons.injEq, true_and] at h
    exact ⟨.nil, h⟩
  | [], _, u :: us, c, r, s, _, hr, _, h => by
    simp only [renderMore, List.nil_append, List.cons_append, List.cons.injEq] at h
    rcases hr with rfl | rfl | ⟨rfl, -⟩ <;> exact absurd h.1 (by decide)
  | t :: ts, _, [], c, r, s, _, _, hs, h => by
    simp only [renderMore, List.nil_append, List.cons_append, List.cons.injEq] at h
    rcases hs with rfl | rfl | ⟨rfl, -⟩ <;> exact absurd h.1 (by decide)
  | t :: ts, ih, u :: us, c, r, s, hu, hr, hs, h => by
    simp only [renderMore, List.cons_append, List.append_assoc, List.cons.injEq, true_and] at h
    unfold Plains at hu
    have stop : ∀ (ts : List Ty) r, Closes c r → Stop (renderMore n messages ts ++ c :: r) := by
      intro ts r hr
      cases ts with
      | nil => exact hr.stop
      | cons => exact stop_cons (.inl rfl)
    obtain ⟨h1, h2⟩ := ih t (List.mem_cons_self ..) u _ _ hu.1 (stop ts r hr) (stop us s hs) h
    obtain ⟨h3, h4⟩ := read_more (fun x hx => ih x (List.mem_cons_of_mem _ hx)) hu.2 hr hs h2
    exact ⟨.cons h1 h3, h4⟩

theorem read_list {n : Names} (hp : n.Proper) {ts us : List Ty} (ih : ∀ t ∈ ts, Reads n t) (ht : Plains n ts) (hu : Plains n us)
    {c : Char} {r s : List Char} (hr : Closes c r) (hs : Closes c s)
    (h : renderList n messages ts ++ c :: r = renderList n messages us ++ c :: s) : List.Forall₂ (Same n) ts us ∧ r = s := by
  have clash : ∀ {u : Ty} {x r : List Char}, Plain n u → Closes c r → c :: r ≠ render n messages u ++ x := by
    intro u x r pu hr h
    obtain ⟨d, cs, h1, -, h3, h4, -⟩ := first_char hp pu
    rw [h1] at h
    simp only [List.cons_append, List.cons.injEq] at h
    obtain ⟨rfl, h⟩ := h
    rcases hr with rfl | rfl | ⟨rfl, hr⟩
    · exact h3 rfl
    · exact h4 rfl
    · obtain ⟨e, ds, rfl, h6⟩ := bar_char hp pu h1
      subst h
      exact h6 (by simpa using hr)
  have stop : ∀ (ts : List Ty) r, Closes c r → Stop (renderMore n messages ts ++ c :: r) := by
    intro ts r hr
    cases ts with
    | nil => exact hr.stop
    | cons => exact stop_cons (.inl rfl)
  cases ts with
  | nil =>
    cases us with
    | nil => exact ⟨.nil, by simpa [renderList] using h⟩
    | cons u us =>
      simp only [renderList, List.nil_append, List.append_assoc] at h
      unfold Plains at hu
      exact absurd h (clash hu.1 hr)
  | cons t ts =>
    unfold Plains at ht
    cases us with
    | nil =>
      simp only [renderList, List.nil_append, List.append_assoc] at h
      exact absurd h.symm (clash ht.1 hs)
    | cons u us =>
      simp only [renderList, List.append_assoc] at h
      unfold Plains at hu
      obtain ⟨h1, h2⟩ := ih t (List.mem_cons_self ..) u _ _ hu.1 (stop ts r hr) (stop us s hs) h
      obtain ⟨h3, h4⟩ := read_more (fun x hx => ih x (List.mem_cons_of_mem _ hx)) hu.2 hr hs h2
      exact ⟨.cons h1 h3, h4⟩

/-- What the view says about the type. -/
inductive Viewed (n : Names) : Ty → View → Prop
  | unknown : Viewed n .unknown (.angle "<unknown>".toList)
  | never : Viewed n .never (.angle "<never>".toList)
  | word {t w} : word n t = some w → Viewed n t (.word w (parts t))
  | ref {t m} : Viewed n (.ref t m) (.ref m t)
  | unit : Viewed n .unit (.paren [])
  | tuple {ts} : Viewed n (.tuple ts) (.paren ts)
  | named {ps r a b c} : Viewed n (.callable ps r .Named a b c) (.fn "fn".toList ps r)
  | predicate {ps r a b c} : Viewed n (.callable ps r .Predicate a b c) (.fn "fn_predicate".toList ps r)
  | lambda {ps r a b c} : Viewed n (.callable ps r .Lambda a b c) (.lambda ps r)

theorem viewed {n : Names} {t : Ty} (h : Plain n t) : Viewed n t (view n t) := by
  cases t with
  | unknown => exact .unknown
  | never => exact .never
  | unit => exact .unit
  | ref => exact .ref
  | tuple => exact .tuple
  | callable ps r k => cases k <;> constructor
  | var v => exact absurd h (by unfold Plain; exact id)
  | schema => exact absurd h (by unfold Plain; exact id)
  | bool | signer | address | num | bv | integer | vector | range | intVar | typeParam | adt => exact .word rfl

def View.Lead : View → Char → Prop
  | .angle _, c => c = '<'
  | .ref .., c => c = '&'
  | .paren _, c => c = '('
  | .lambda .., c => c = '|'
  | .word .., c => WordChar c
  | .fn .., c => WordChar c

theorem text_lead {n : Names} {v : View} (hg : v.Good) : ∃ c cs, v.text n = c :: cs ∧ v.Lead c := by
  cases v with
  | angle s => rcases hg with rfl | rfl <;> exact ⟨_, _, rfl, rfl⟩
  | word w args =>
    obtain ⟨c, w, rfl⟩ := List.exists_cons_of_ne_nil hg.1
    exact ⟨c, _, rfl, hg.2 c (List.mem_cons_self ..)⟩
  | ref | paren | lambda => exact ⟨_, _, rfl, rfl⟩
  | fn w ps r => rcases hg with rfl | rfl <;> exact ⟨_, _, rfl, show WordChar 'f' by decide⟩

theorem same_lead {n : Names} {v v' : View} (hg : v.Good) (hg' : v'.Good) {r s : List Char} (h : v.text n ++ r = v'.text n ++ s) :
    ∃ c, v.Lead c ∧ v'.Lead c := by
  obtain ⟨c, cs, h1, h2⟩ := text_lead (n := n) hg
  obtain ⟨d, ds, h3, h4⟩ := text_lead (n := n) hg'
  rw [h1, h3] at h
  obtain ⟨rfl, -⟩ := List.cons.inj h
  exact ⟨c, h2, h4⟩

theorem args_ends {n : Names} {args : List Ty} {r : List Char} (hr : Stop r) : Ends (renderArgs n messages args ++ r) ∧
    (renderArgs n messages args ++ r).head? ≠ some '(' := by
  cases args with
  | nil =>
    refine ⟨by simpa [renderArgs] using hr.ends, fun h => ?_⟩
    simp only [renderArgs, List.nil_append] at h
    rcases hr '(' h with h | h | h | h | h <;> exact absurd h (by decide)
  | cons t ts =>
    simp only [renderArgs, List.cons_append]
    exact ⟨ends_cons (by decide), by simp⟩

theorem read_args {n : Names} (hp : n.Proper) {ts us : List Ty} (ih : ∀ t ∈ ts, Reads n t) (ht : Plains n ts) (hu : Plains n us)
    {r s : List Char} (hr : Stop r) (hs : Stop s) (h : renderArgs n messages ts ++ r = renderArgs n messages us ++ s) :
    List.Forall₂ (Same n) ts us ∧ r = s := by
  have no : ∀ {x : List Char}, Stop x → ∀ y, x ≠ '<' :: y := by
    rintro x hx y rfl
    rcases hx '<' rfl with h | h | h | h | h <;> exact absurd h (by decide)
  cases ts with
  | nil =>
    cases us with
    | nil => exact ⟨.nil, h⟩
    | cons u us => exact absurd h (no hr _)
  | cons t ts =>
    cases us with
    | nil => exact absurd h.symm (no hs _)
    | cons u us =>
      simp only [renderArgs, List.cons_append, List.append_assoc, List.nil_append, List.cons.injEq, true_and] at h
      refine read_list hp ih ht hu (c := '>') (.inl rfl) (.inl rfl) ?_
      simpa only [renderList, List.append_assoc] using h

theorem plains_mem {n : Names} : ∀ {ts : List Ty}, Plains n ts → ∀ t ∈ ts, Plain n t
  | t :: ts, h, x, hx => by
    unfold Plains at h
    rcases List.mem_cons.1 hx with rfl | hx
    · exact h.1
    · exact plains_mem h.2 x hx

theorem plains_of {n : Names} : ∀ {ts : List Ty}, (∀ t ∈ ts, Plain n t) → Plains n ts
  | [], _ => by unfold Plains; trivial
  | t :: ts, h => by
    unfold Plains
    exact ⟨h t (List.mem_cons_self ..), plains_of fun x hx => h x (List.mem_cons_of_mem _ hx)⟩

theorem plain_parts {n : Names} {t : Ty} (h : Plain n t) : Plains n (parts t) := by
  cases t with
  | adt => unfold Plain at h; exact h.2
  | tuple => unfold Plain at h; exact h.2
  | vector | range | ref => unfold Plain at h; exact plains_of (by simpa [parts] using h)
  | callable ps r =>
    unfold Plain at h
    refine plains_of fun x hx => ?_
    rcases List.mem_append.1 hx with hx | hx
    · exact plains_mem h.1 x hx
    · rw [List.mem_singleton] at hx
      exact hx ▸ h.2
  | var v => exact absurd h (by unfold Plain; exact id)
  | schema => exact absurd h (by unfold Plain; exact id)
  | _ => unfold parts Plains; trivial

theorem same_unit (n : Names) : Same n .unit .unit := .mk (.base rfl (by simp) (by simp) (by simp)) .nil

theorem read_tail {n : Names} {a b : Ty} (ih : Reads n a) (hb : Plain n b) {r s : List Char} (hr : Stop r) (hs : Stop s)
    (h : tail n a ++ r = tail n b ++ s) : Same n a b ∧ r = s := by
  have no : ∀ {x : List Char}, Stop x → ∀ y, x ≠ ' ' :: y := by
    rintro x hx y rfl
    rcases hx ' ' rfl with h | h | h | h | h <;> exact absurd h (by decide)
  unfold tail at h
  by_cases ha : a = .unit <;> by_cases hb' : b = .unit
  · rw [if_pos ha, if_pos hb'] at h
    subst ha hb'
    exact ⟨same_unit n, h⟩
  · rw [if_pos ha, if_neg hb'] at h
    exact absurd h (no hr _)
  · rw [if_neg ha, if_pos hb'] at h
    exact absurd h.symm (no hs _)
  · rw [if_neg ha, if_neg hb', List.append_assoc, List.append_assoc] at h
    exact ih b r s hb hr hs (List.append_cancel_left h)

theorem read_fn {n : Names} (hp : n.Proper) {w v : List Char} {ps qs : List Ty} {a b : Ty} (hw : ∀ c ∈ w, WordChar c)
    (hv : ∀ c ∈ v, WordChar c) (ih : ∀ t ∈ ps, Reads n t) (iha : Reads n a) (hps : Plains n ps) (hqs : Plains n qs) (hb : Plain n b)
    {r s : List Char} (hr : Stop r) (hs : Stop s) (h : (View.fn w ps a).text n ++ r = (View.fn v qs b).text n ++ s) :
    w = v ∧ List.Forall₂ (Same n) (ps ++ [a]) (qs ++ [b]) ∧ r = s := by
  simp only [View.text, List.append_assoc, List.cons_append] at h
  obtain ⟨h1, h2⟩ := word_split hw hv (ends_cons (by decide)) (ends_cons (by decide)) h
  obtain ⟨h3, h4⟩ := read_list hp ih hps hqs (c := ')') (.inr (.inl rfl)) (.inr (.inl rfl)) (List.cons.inj h2).2
  obtain ⟨h5, h6⟩ := read_tail iha hb hr hs h4
  exact ⟨h1, List.rel_append h3 (.cons h5 .nil), h6⟩

theorem fn_word : (∀ c ∈ "fn".toList, WordChar c) ∧ ∀ c ∈ "fn_predicate".toList, WordChar c := by decide

theorem no_mut {n : Names} (hp : n.Proper) {x : Ty} {z z' : List Char} (px : Plain n x) (hz : Stop z) :
    render n messages x ++ z ≠ "mut ".toList ++ z' := by
  intro he
  have g := view_good hp px
  rw [view_text px] at he
  have vx := viewed px
  generalize view n x = v at he g vx
  have hm : "mut ".toList ++ z' = "mut".toList ++ ' ' :: z' := rfl
  have mw : ∀ c ∈ "mut".toList, WordChar c := by decide
  rw [hm] at he
  cases vx with
  | word hw =>
    simp only [View.text, List.append_assoc] at he
    obtain ⟨-, h2⟩ := word_split g.2 mw (args_ends hz).1 (ends_cons (by decide)) he
    generalize parts x = args at h2
    cases args with
    | nil => rcases hz ' ' (by rw [show z = _ from h2]; rfl) with h | h | h | h | h <;> exact absurd h (by decide)
    | cons => exact absurd (List.cons.inj h2).1 (by decide)
  | named =>
    simp only [View.text, List.append_assoc, List.cons_append] at he
    exact absurd (word_split fn_word.1 mw (ends_cons (by decide)) (ends_cons (by decide)) he).1 (by decide)
  | predicate =>
    simp only [View.text, List.append_assoc, List.cons_append] at he
    exact absurd (word_split fn_word.2 mw (ends_cons (by decide)) (ends_cons (by decide)) he).1 (by decide)
  | _ => exact absurd (List.cons.inj he).1 (by decide)

/-- If the parts of a type are read in one way, so is the type. -/
theorem read_type {n : Names} (hp : n.Proper) {t : Ty} (pt : Plain n t) (ih : ∀ x ∈ parts t, Reads n x) : Reads n t := by
  intro u r s pu hr hs h
  rw [view_text pt, view_text pu] at h
  have gt := view_good hp pt
  have gu := view_good hp pu
  have vt := viewed pt
  have vu := viewed pu
  have qt := plain_parts pt
  have qu := plain_parts pu
  generalize view n t = v at h gt vt
  generalize view n u = v' at h gu vu
  obtain ⟨c, hc, hc'⟩ := same_lead gt gu h
  cases vt with
  | unknown =>
    cases vu with
    | unknown => exact ⟨.mk (.base rfl (by simp) (by simp) (by simp)) .nil, List.append_cancel_left h⟩
    | never => exact absurd (List.cons.inj (List.cons.inj h).2).1 (by decide)
    | word => subst hc; exact absurd (show WordChar _ from hc') (by decide)
    | named => subst hc; exact absurd (show WordChar _ from hc') (by decide)
    | predicate => subst hc; exact absurd (show WordChar _ from hc') (by decide)
    | _ => subst hc; cases hc'
  | never =>
    cases vu with
    | unknown => exact absurd (List.cons.inj (List.cons.inj h).2).1 (by decide)
    | never => exact ⟨.mk (.base rfl (by simp) (by simp) (by simp)) .nil, List.append_cancel_left h⟩
    | word => subst hc; exact absurd (show WordChar _ from hc') (by decide)
    | named => subst hc; exact absurd (show WordChar _ from hc') (by decide)
    | predicate => subst hc; exact absurd (show WordChar _ from hc') (by decide)
    | _ => subst hc; cases hc'
  | word hw =>
    cases vu with
    | word hw' =>
      simp only [View.text, List.append_assoc] at h
      obtain ⟨h1, h2⟩ := word_split gt.2 gu.2 (args_ends hr).1 (args_ends hs).1 h
      subst h1
      obtain ⟨h3, h4⟩ := read_args hp ih qt qu hr hs h2
      exact ⟨.mk (head_of_word hp hw hw' pt pu) h3, h4⟩
    | named =>
      simp only [View.text, List.append_assoc, List.cons_append] at h
      obtain ⟨-, h2⟩ := word_split gt.2 fn_word.1 (args_ends hr).1 (ends_cons (by decide)) h
      exact absurd (by rw [h2]; rfl) (args_ends (n := n) (args := parts t) hr).2
    | predicate =>
      simp only [View.text, List.append_assoc, List.cons_append] at h
      obtain ⟨-, h2⟩ := word_split gt.2 fn_word.2 (args_ends hr).1 (ends_cons (by decide)) h
      exact absurd (by rw [h2]; rfl) (args_ends (n := n) (args := parts t) hr).2
    | _ => subst hc'; exact absurd (show WordChar _ from hc) (by decide)
  | ref =>
    cases vu with
    | ref =>
      rename_i x m y m'
      simp only [View.text, List.append_assoc, List.cons_append, List.cons.injEq, true_and] at h
      unfold Plain at pt pu
      cases m <;> cases m'
      · obtain ⟨h1, h2⟩ := ih x (by simp [parts]) y r s pu hr hs (by simpa using h)
        exact ⟨.mk .ref (.cons h1 .nil), h2⟩
      · exact absurd (by simpa using h) (no_mut hp pt hr (z' := render n messages y ++ s))
      · exact absurd (by simpa using h.symm) (no_mut hp pu hs (z' := render n messages x ++ r))
      · obtain ⟨h1, h2⟩ := ih x (by simp [parts]) y r s pu hr hs (List.append_cancel_left (as := "mut ".toList) (by simpa using h))
        exact ⟨.mk .ref (.cons h1 .nil), h2⟩
    | word => subst hc; exact absurd (show WordChar _ from hc') (by decide)
    | named => subst hc; exact absurd (show WordChar _ from hc') (by decide)
    | predicate => subst hc; exact absurd (show WordChar _ from hc') (by decide)
    | _ => subst hc; cases hc'
  | unit =>
    cases vu with
    | unit => exact ⟨same_unit n, List.append_cancel_left h⟩
    | tuple =>
      simp only [View.text, List.cons_append, List.append_assoc, List.nil_append, List.cons.injEq, true_and] at h
      obtain ⟨h1, -⟩ := read_list hp (ts := []) (by simp) (by unfold Plains; trivial) qu (c := ')') (.inr (.inl rfl)) (.inr (.inl rfl)) h
      unfold Plain at pu
      cases h1
      exact absurd rfl pu.1
    | word => subst hc; exact absurd (show WordChar _ from hc') (by decide)
    | named => subst hc; exact absurd (show WordChar _ from hc') (by decide)
    | predicate => subst hc; exact absurd (show WordChar _ from hc') (by decide)
    | _ => subst hc; cases hc'
  | tuple =>
    cases vu with
    | unit =>
      simp only [View.text, List.cons_append, List.append_assoc, List.nil_append, List.cons.injEq, true_and] at h
      obtain ⟨h1, -⟩ := read_list hp ih qt (us := []) (by unfold Plains; trivial) (c := ')') (.inr (.inl rfl)) (.inr (.inl rfl)) h
      unfold Plain at pt
      cases h1
      exact absurd rfl pt.1
    | tuple =>
      simp only [View.text, List.cons_append, List.append_assoc, List.nil_append, List.cons.injEq, true_and] at h
      obtain ⟨h1, h2⟩ := read_list hp ih qt qu (c := ')') (.inr (.inl rfl)) (.inr (.inl rfl)) h
      exact ⟨.mk .tuple h1, h2⟩
    | word => subst hc; exact absurd (show WordChar _ from hc') (by decide)
    | named => subst hc; exact absurd (show WordChar _ from hc') (by decide)
    | predicate => subst hc; exact absurd (show WordChar _ from hc') (by decide)
    | _ => subst hc; cases hc'
  | named =>
    unfold Plain at pt
    cases vu with
    | word =>
      simp only [View.text, List.append_assoc, List.cons_append] at h
      obtain ⟨-, h2⟩ := word_split fn_word.1 gu.2 (ends_cons (by decide)) (args_ends hs).1 h
      exact absurd (by rw [← h2]; rfl) (args_ends (n := n) (args := parts u) hs).2
    | named =>
      unfold Plain at pu
      obtain ⟨-, h1, h2⟩ := read_fn hp fn_word.1 fn_word.1 (fun x hx => ih x (List.mem_append_left _ hx))
        (ih _ (List.mem_append_right _ (List.mem_singleton_self _))) pt.1 pu.1 pu.2 hr hs h
      exact ⟨.mk .callable h1, h2⟩
    | predicate =>
      unfold Plain at pu
      obtain ⟨h0, -⟩ := read_fn hp fn_word.1 fn_word.2 (fun x hx => ih x (List.mem_append_left _ hx))
        (ih _ (List.mem_append_right _ (List.mem_singleton_self _))) pt.1 pu.1 pu.2 hr hs h
      exact absurd h0 (by decide)
    | _ => subst hc'; exact absurd (show WordChar _ from hc) (by decide)
  | predicate =>
    unfold Plain at pt
    cases vu with
    | word =>
      simp only [View.text, List.append_assoc, List.cons_append] at h
      obtain ⟨-, h2⟩ := word_split fn_word.2 gu.2 (ends_cons (by decide)) (args_ends hs).1 h
      exact absurd (by rw [← h2]; rfl) (args_ends (n := n) (args := parts u) hs).2
    | named =>
      unfold Plain at pu
      obtain ⟨h0, -⟩ := read_fn hp fn_word.2 fn_word.1 (fun x hx => ih x (List.mem_append_left _ hx))
        (ih _ (List.mem_append_right _ (List.mem_singleton_self _))) pt.1 pu.1 pu.2 hr hs h
      exact absurd h0 (by decide)
    | predicate =>
      unfold Plain at pu
      obtain ⟨-, h1, h2⟩ := read_fn hp fn_word.2 fn_word.2 (fun x hx => ih x (List.mem_append_left _ hx))
        (ih _ (List.mem_append_right _ (List.mem_singleton_self _))) pt.1 pu.1 pu.2 hr hs h
      exact ⟨.mk .callable h1, h2⟩
    | _ => subst hc'; exact absurd (show WordChar _ from hc) (by decide)
  | lambda =>
    unfold Plain at pt
    cases vu with
    | lambda =>
      unfold Plain at pu
      simp only [View.text, List.cons_append, List.append_assoc, List.cons.injEq, true_and] at h
      obtain ⟨h1, h2⟩ := read_list hp (fun x hx => ih x (List.mem_append_left _ hx)) pt.1 pu.1 (c := '|') (.inr (.inr ⟨rfl, rfl⟩))
        (.inr (.inr ⟨rfl, rfl⟩)) h
      obtain ⟨h3, h4⟩ := ih _ (List.mem_append_right _ (List.mem_singleton_self _)) _ r s pu.2 hr hs (List.append_cancel_left h2)
      exact ⟨.mk .callable (List.rel_append h1 (.cons h3 .nil)), h4⟩
    | word => subst hc; exact absurd (show WordChar _ from hc') (by decide)
    | named => subst hc; exact absurd (show WordChar _ from hc') (by decide)
    | predicate => subst hc; exact absurd (show WordChar _ from hc') (by decide)
    | _ => subst hc; cases hc'

mutual
theorem reads {n : Names} (hp : n.Proper) : ∀ t : Ty, Plain n t → Reads n t
  | .tuple ts, h => read_type hp h (readsAll hp ts (by unfold Plain at h; exact h.2))
  | .adt _ _ _ args, h => read_type hp h (readsAll hp args (by unfold Plain at h; exact h.2))
  | .vector t, h => read_type hp h fun x hx => by
    rw [List.mem_singleton.1 hx]
    exact reads hp t (by unfold Plain at h; exact h)
  | .range t, h => read_type hp h fun x hx => by
    rw [List.mem_singleton.1 hx]
    exact reads hp t (by unfold Plain at h; exact h)
  | .ref t m, h => read_type hp h fun x hx => by
    rw [List.mem_singleton.1 hx]
    exact reads hp t (by unfold Plain at h; exact h)
  | .callable ps r k a b c, h => read_type hp h fun x hx => by
    unfold Plain at h
    rcases List.mem_append.1 hx with hx | hx
    · exact readsAll hp ps h.1 x hx
    · rw [List.mem_singleton.1 hx]
      exact reads hp r h.2
  | .unknown, h | .never, h | .unit, h | .bool, h | .signer, h | .address, h | .num, h | .bv, h | .integer _, h
  | .intVar _, h | .typeParam _, h | .var _, h => read_type hp h fun x hx => absurd hx (by simp [parts])
  | .schema .., h => absurd h (by unfold Plain; exact id)
theorem readsAll {n : Names} (hp : n.Proper) : ∀ ts : List Ty, Plains n ts → ∀ t ∈ ts, Reads n t
  | [], _, t, ht => absurd ht (by simp)
  | u :: ts, h, t, ht => by
    unfold Plains at h
    rcases List.mem_cons.1 ht with he | ht
    · rw [he]
      exact reads hp u h.1
    · exact readsAll hp ts h.2 t ht
end

/-! ### The same types are written alike -/

def Alike (n : Names) (t u : Ty) : Prop := render n messages t = render n messages u ∧ (t = .unit ↔ u = .unit)

theorem more_alike {n : Names} {ts us : List Ty} (h : List.Forall₂ (Alike n) ts us) : renderMore n messages ts = renderMore n messages us := by
  induction h with
  | nil => rfl
  | cons h _ ih => unfold renderMore; rw [h.1, ih]

theorem list_alike {n : Names} {ts us : List Ty} (h : List.Forall₂ (Alike n) ts us) : renderList n messages ts = renderList n messages us := by
  cases h with
  | nil => rfl
  | cons h hs => unfold renderList; rw [h.1, more_alike hs]

theorem args_alike {n : Names} {ts us : List Ty} (h : List.Forall₂ (Alike n) ts us) : renderArgs n messages ts = renderArgs n messages us := by
  cases h with
  | nil => rfl
  | cons h hs => unfold renderArgs; rw [h.1, more_alike hs]

theorem snoc_alike {n : Names} {ps qs : List Ty} {a b : Ty} (h : List.Forall₂ (Alike n) (ps ++ [a]) (qs ++ [b])) :
    List.Forall₂ (Alike n) ps qs ∧ Alike n a b := by
  induction ps generalizing qs with
  | nil =>
    cases qs with
    | nil => cases h with | cons h _ => exact ⟨.nil, h⟩
    | cons q qs => cases h with | cons _ h => cases qs <;> cases h
  | cons p ps ih =>
    cases qs with
    | nil => cases h with | cons _ h => cases ps <;> cases h
    | cons q qs =>
      cases h with
      | cons h hs => exact ⟨.cons h (ih hs).1, (ih hs).2⟩

theorem head_alike {n : Names} {t u : Ty} (h : SameHead n t u) (hp : List.Forall₂ (Alike n) (parts t) (parts u)) : Alike n t u := by
  cases h with
  | base => exact ⟨rfl, Iff.rfl⟩
  | integers => exact ⟨by unfold render; rfl, by simp⟩
  | vector => cases hp with | cons h _ => exact ⟨by unfold render; rw [h.1], by simp⟩
  | range => cases hp with | cons h _ => exact ⟨by unfold render; rw [h.1], by simp⟩
  | ref => cases hp with | cons h _ => exact ⟨by unfold render; rw [h.1], by simp⟩
  | tuple => exact ⟨by unfold render; rw [list_alike (show List.Forall₂ _ _ _ from by simpa only [parts] using hp)], by simp⟩
  | param h1 h2 => exact ⟨by unfold render paramText; rw [h1, h2], by simp⟩
  | item h1 h2 h3 h4 h5 =>
    refine ⟨?_, by simp⟩
    unfold render itemText
    rw [h1, h2, args_alike (show List.Forall₂ _ _ _ from by simpa only [parts] using hp)]
    simp only [messages, Fq.full, h3, h4, h5]
  | @callable ps qs r s k a b c d e f =>
    obtain ⟨h1, h2, h3⟩ := snoc_alike hp
    refine ⟨?_, by simp⟩
    have ht : tail n r = tail n s := by
      unfold tail
      by_cases hr : r = .unit
      · rw [if_pos hr, if_pos (h3.1 hr)]
      · rw [if_neg hr, if_neg (fun hs => hr (h3.2 hs)), h2]
    cases k
    · rw [named_text, named_text]; dsimp only [View.text]; rw [list_alike h1, ht]
    · rw [lambda_text, lambda_text]; dsimp only [View.text]; rw [list_alike h1, h2]
    · rw [predicate_text, predicate_text]; dsimp only [View.text]; rw [list_alike h1, ht]

theorem same_iff {n : Names} {t u : Ty} : Same n t u ↔ SameHead n t u ∧ List.Forall₂ (Same n) (parts t) (parts u) :=
  ⟨fun h => by cases h with | mk h1 h2 => exact ⟨h1, h2⟩, fun h => .mk h.1 h.2⟩

theorem alike_of {n : Names} {t u : Ty} (ih : ∀ x ∈ parts t, ∀ y, Same n x y → Alike n x y) (h : Same n t u) : Alike n t u := by
  obtain ⟨h1, h2⟩ := same_iff.1 h
  refine head_alike h1 ?_
  generalize parts t = ts at ih h2
  generalize parts u = us at h2
  induction h2 with
  | nil => exact .nil
  | cons h _ ih' => exact .cons (ih _ (List.mem_cons_self ..) _ h) (ih' fun x hx => ih x (List.mem_cons_of_mem _ hx))

mutual
theorem alike {n : Names} : ∀ t u : Ty, Same n t u → Alike n t u
  | .tuple ts, _, h => alike_of (alikes ts) h
  | .adt _ _ _ args, _, h => alike_of (alikes args) h
  | .schema _ _ _ args, _, h => alike_of (alikes args) h
  | .vector t, _, h => alike_of (fun x hx => by rw [List.mem_singleton.1 hx]; exact alike t) h
  | .range t, _, h => alike_of (fun x hx => by rw [List.mem_singleton.1 hx]; exact alike t) h
  | .ref t _, _, h => alike_of (fun x hx => by rw [List.mem_singleton.1 hx]; exact alike t) h
  | .callable ps r _ _ _ _, _, h => alike_of (fun x hx => by
      rcases List.mem_append.1 hx with hx | hx
      · exact alikes ps x hx
      · rw [List.mem_singleton.1 hx]
        exact alike r) h
  | .unknown, _, h | .never, _, h | .unit, _, h | .bool, _, h | .signer, _, h | .address, _, h | .num, _, h | .bv, _, h
  | .integer _, _, h | .intVar _, _, h | .typeParam _, _, h | .var _, _, h => alike_of (fun x hx => absurd hx (by simp [parts])) h
theorem alikes {n : Names} : ∀ ts : List Ty, ∀ x ∈ ts, ∀ u, Same n x u → Alike n x u
  | [], x, hx => absurd hx (by simp)
  | t :: ts, x, hx => by
    rcases List.mem_cons.1 hx with he | hx
    · rw [he]
      exact alike t
    · exact alikes ts x hx
end

/-! ### Theorems -/

/-- Two types are written alike in messages exactly if they are the same type. Missing: type variables, schemas, tuples of no types,
and type parameters that are called like a type of the language, for which it does not hold. -/
theorem C77_alike_partial {n : Names} (hp : n.Proper) {t u : Ty} (ht : Plain n t) (hu : Plain n u) :
    render n messages t = render n messages u ↔ Same n t u := by
  refine ⟨fun h => ?_, fun h => (alike t u h).1⟩
  exact (reads hp t ht u [] [] hu (by intro c hc; cases hc) (by intro c hc; cases hc) (by rw [h])).1

/-- A mismatch is passed over in silence exactly if the types are the same. -/
theorem C77_silent_partial {n : Names} (hp : n.Proper) {t u : Ty} (ht : Plain n t) (hu : Plain n u) :
    mismatch n t u = none ↔ Same n t u := by
  rw [← C77_alike_partial hp ht hu]
  unfold mismatch
  dsimp only
  split <;> simp [*]

/-- The message tells both types: if two mismatches have the same message, their types are the same. -/
theorem C77_message_partial {n : Names} (hp : n.Proper) {a e a' e' : Ty} (ha : Plain n a) (he : Plain n e) (ha' : Plain n a')
    (he' : Plain n e') {m : List Char} (h : mismatch n a e = some m) (h' : mismatch n a' e' = some m) : Same n a a' ∧ Same n e e' := by
  have key : ∀ {a e : Ty}, mismatch n a e = some m →
      m = "Incompatible type '".toList ++ (render n messages a ++ '\'' :: (", expected '".toList ++ (render n messages e ++ ['\'']))) := by
    intro a e h
    unfold mismatch at h
    dsimp only at h
    split at h
    · cases h
    · rw [← Option.some.inj h]
      simp only [List.append_assoc]
      rfl
  have h1 := List.append_cancel_left ((key h).symm.trans (key h'))
  have stop : ∀ {r : List Char}, Stop ('\'' :: r) := stop_cons (.inr (.inr (.inr (.inr rfl))))
  obtain ⟨h2, h3⟩ := reads hp a ha a' _ _ ha' stop stop h1
  obtain ⟨h4, -⟩ := reads hp e he e' _ _ he' stop stop (List.append_cancel_left (List.cons.inj h3).2)
  exact ⟨h2, h4⟩

/-- A hint about a struct of another package that is not of the framework tells its module and its name. -/
theorem C77_hint_partial {n : Names} (hp : n.Proper) {p : Nat} {a b : Loc} {f g : Fq} (ha : n.fq a = some f) (hb : n.fq b = some g)
    (hf : f.package ≠ p ∧ f.addr ∉ wellKnown) (h : itemText n (hints p) a = itemText n (hints p) b) :
    f.name = g.name ∧ f.module = g.module ∧ g.package ≠ p := by
  obtain ⟨-, h1, h2⟩ := hp.fq _ _ ha
  obtain ⟨-, h3, h4⟩ := hp.fq _ _ hb
  have e1 : itemText n (hints p) a = f.short := by
    unfold itemText
    rw [ha]
    simp [hints, hf.1, hf.2]
  have e2 : itemText n (hints p) b = if wellKnown.contains g.addr || decide (g.package = p) then g.name else g.short := by
    unfold itemText
    rw [hb]
    rfl
  rw [e1, e2] at h
  split at h
  · refine absurd (show ':' ∈ g.name from ?_) fun hc => (h4.2 _ hc).2 rfl
    rw [← h]
    simp [Fq.short, sep]
  · rename_i hn
    simp only [Fq.short, sep, List.append_assoc, List.cons_append, List.nil_append] at h
    obtain ⟨h5, h6⟩ := colon_split (fun c hc => (h1.2 c hc).2) (fun c hc => (h3.2 c hc).2) h
    refine ⟨(List.cons.inj h6).2, h5, fun he => hn ?_⟩
    simp [he]

/-! ### Examples and defects -/

/-- `0x1::m::S`, `0x1::n::S`, `a::m::S` of two packages, a type parameter `T`, and one that is called `u8`. -/
def world : Names where
  fq
    | 0 => some ⟨"0x1".toList, ['m'], ['S'], 0⟩
    | 1 => some ⟨"0x1".toList, ['n'], ['S'], 0⟩
    | 2 => some ⟨['a'], ['m'], ['S'], 1⟩
    | 3 => some ⟨['a'], ['m'], ['S'], 2⟩
    | _ => none
  param
    | 4 => some ['T']
    | 5 => some "u8".toList
    | _ => none

/-- The same without the type parameter that is called `u8`. -/
def tidy : Names := { world with param := fun l => if l = 4 then some ['T'] else none }

instance : DecidablePred Ident := fun c => by unfold Ident; infer_instance

theorem tidy_proper : tidy.Proper where
  fq := by
    intro l f h
    match l with
    | 0 | 1 | 2 | 3 => cases h; decide
    | _ + 4 => cases h
  param := by
    intro l x h
    simp only [tidy] at h
    split at h
    · cases h
      decide
    · cases h

/-- `vector<0x1::m::S<T>>` and `vector<0x1::n::S<T>>` are not the same, and the message tells them apart. -/
example : ∃ m, mismatch tidy (.vector (.adt 0 [] [] [.typeParam 4])) (.vector (.adt 1 [] [] [.typeParam 4])) = some m ∧
    Plain tidy (.vector (.adt 0 [] [] [.typeParam 4])) ∧ Plain tidy (.vector (.adt 1 [] [] [.typeParam 4])) ∧
    m = "Incompatible type 'vector<0x1::m::S<T>>', expected 'vector<0x1::n::S<T>>'".toList := by
  refine ⟨_, rfl, ?_, ?_, by decide⟩ <;> simp [Plain, Plains, tidy, world]

/-- `|u64, &mut T| -> fn() -> bool` is written like itself, and nothing else is. -/
example : ∃ t, Plain tidy t ∧ render tidy messages t = "|u64, &mut T| -> fn() -> bool".toList ∧
    ∀ u, Plain tidy u → render tidy messages u = render tidy messages t → Same tidy t u := by
  refine ⟨.callable [.integer .U64, .ref (.typeParam 4) true] (.callable [] .bool .Named none [] []) .Lambda none [] [], ?_, by decide, ?_⟩
  · simp [Plain, Plains, tidy]
  · intro u hu h
    exact (C77_alike_partial tidy_proper (by simp [Plain, Plains, tidy]) hu).1 h.symm

/-- The hint about `a::m::S` in a file of package 0. -/
example : ∃ f, tidy.fq 2 = some f ∧ f.package ≠ 0 ∧ f.addr ∉ wellKnown ∧ itemText tidy (hints 0) 2 = "m::S".toList :=
  ⟨_, rfl, by decide, by decide, by decide⟩

/-- A type parameter can be called `u8`. A mismatch of it and `u8` is then passed over in silence. -/
theorem C77_param_fails : ¬ ∀ (n : Names) (t u : Ty), Plain n t → Plain n u → mismatch n t u = none → Same n t u := by
  intro h
  have := h world (.typeParam 5) (.integer .U8) (by simp [Plain, world]) (by simp [Plain]) (by decide)
  obtain ⟨h, -⟩ := same_iff.1 this
  cases h

/-- Structs of the same full name in two packages are two structs. A mismatch of them is passed over in silence. -/
theorem C77_packages_fails : ¬ ∀ (n : Names) (a b : Loc) (f g : Fq), n.Proper → n.fq a = some f → n.fq b = some g →
    mismatch n (.adt a [] [] []) (.adt b [] [] []) = none → f = g := by
  intro h
  have := h tidy 2 3 _ _ tidy_proper rfl rfl (by decide)
  exact absurd this (by decide)

/-- In hints two structs of the same name in two modules of the package look the same. -/
theorem C77_hint_fails : ¬ ∀ (n : Names) (p : Nat) (a b : Loc) (f g : Fq), n.Proper → n.fq a = some f → n.fq b = some g →
    itemText n (hints p) a = itemText n (hints p) b → f.module = g.module := by
  intro h
  have := h tidy 0 0 1 _ _ tidy_proper rfl rfl (by decide)
  exact absurd this (by decide)

end Verif.Types.Render
