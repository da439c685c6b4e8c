import Verif.Editor.Lemmas
import Mathlib.Data.List.Pairwise

/-! C68: the changes that are recorded in a syntax editor take effect all at once. -/

namespace Verif.Editor
open Verif Verif.Syntax
open Verif.Parser (Green)
open Verif.Lexer (blen)
open Verif.TextEdit.TreeDiff (Edits Solid)

/-! ### What is said about the changes -/

/-- The element that is taken out by a change. -/
def Change.old : Change → Option Site
  | .insert _ _ => none
  | .replace e _ | .replaceMany e _ => some e

/-- Where a change inserts. -/
def Change.pos : Change → Option Position
  | .insert p _ => some p
  | .replace _ _ | .replaceMany _ _ => none

/-- The element that a position is given by. -/
def Position.site : Position → Site
  | .first p => p
  | .after c => c

/-- The number of nodes from the root to the parent of a position. -/
def Position.depth : Position → Nat
  | .first p => p.length
  | .after c => c.length - 1

/-- A change as a change of the text: what is taken out and the text that is put in. -/
def Change.text : Change → TextEdit.Change
  | .insert p new => ⟨p.offset, p.offset, encode (texts new)⟩
  | .replace e new => ⟨e.elem.start, e.elem.stop, encode (texts new.toList)⟩
  | .replaceMany e new => ⟨e.elem.start, e.elem.stop, encode (texts new)⟩

/-- No node around the element, or around the node that a token is in, has the same kind and the same range. -/
def Unique (s : Site) : Prop :=
  let n : Site := if s.elem.green.isTok then s.tail else s
  ∀ a ∈ n.tail, ¬ (a.kind = n.elem.kind ∧ a.start = n.elem.start ∧ a.stop = n.elem.stop)

/-- An element of the tree that can be found again. -/
structure Known (g : Green) (s : Site) : Prop where
  chain : Chain g s
  unique : Unique s

/-- A change of the tree: it is not about the root, unless it puts something in front of its children. -/
structure Sound (g : Green) (c : Change) : Prop where
  old : ∀ e ∈ c.old, Known g e ∧ 2 ≤ e.length
  after : ∀ e, c.pos = some (.after e) → Known g e ∧ 2 ≤ e.length
  first : ∀ e, c.pos = some (.first e) → Known g e ∧ e.elem.green.isTok = false

/-- A position is not in an element and not directly after it. At the end of a node, or at its start further inside of the tree than
the node, a position counts as being in the node. -/
structure Clear (p : Position) (e : Site) : Prop where
  path : ¬ e.path <:+ p.site.path
  offset : e.elem.green.isTok = false → p.offset < e.elem.start ∨ e.elem.stop < p.offset ∨
    (p.offset = e.elem.start ∧ p.depth + 1 ≤ e.length)

/-- Two changes do not get in each other's way. -/
structure Apart (a b : Change) : Prop where
  old : ∀ x ∈ a.old, ∀ y ∈ b.old, ¬ x.path <:+ y.path ∧ ¬ y.path <:+ x.path
  left : ∀ p ∈ a.pos, ∀ y ∈ b.old, Clear p y
  right : ∀ x ∈ a.old, ∀ p ∈ b.pos, Clear p x

theorem Apart.symm {a b : Change} (h : Apart a b) : Apart b a :=
  ⟨fun x hx y hy => (h.old y hy x hx).symm, fun p hp y hy => h.right y hy p hp, fun x hx p hp => h.left p hp x hx⟩

/-! ### Finding the elements again -/

theorem toNode_unique {g : Green} {s : Site} (hc : Chain g s)
    (h : ∀ a ∈ s.tail, ¬ (a.kind = s.elem.kind ∧ a.start = s.elem.start ∧ a.stop = s.elem.stop)) : toNode s = some s.elem := by
  cases s with
  | nil => cases hc
  | cons e ps =>
    have : Site.elem (e :: ps) = e := rfl
    rw [this] at h ⊢
    unfold toNode
    rw [this, List.reverse_cons, List.find?_append]
    have hn : ps.reverse.find? (fun a => decide (a.kind = e.kind) && decide (a.start = e.start) && decide (a.stop = e.stop)) = none := by
      rw [List.find?_eq_none]
      intro a ha
      have := h a (by simpa using ha)
      simpa [and_assoc] using this
    rw [hn]
    simp

theorem placed_get {path : List Nat} {i s : Nat} {gs : List Green} {c : Elem} {j : Nat} (h : c ∈ placed path i s gs)
    (hj : c.path = (i + j) :: path) : (placed path i s gs)[j]? = some c := by
  induction gs generalizing i s j with
  | nil => cases h
  | cons g gs ih =>
    rcases List.mem_cons.1 h with rfl | h
    · simp only [List.cons.injEq, and_true] at hj
      have : j = 0 := by omega
      subst this
      rfl
    · obtain ⟨k, hk⟩ : ∃ k, j = k + 1 := by
        cases j with
        | zero =>
          obtain ⟨pre, x, post, -, rfl⟩ := placed_split h
          simp only [List.cons.injEq, and_true] at hj
          omega
        | succ k => exact ⟨k, rfl⟩
      subst hk
      rw [placed, List.getElem?_cons_succ]
      exact ih h (by rw [hj]; congr 1; omega)

theorem target_known {g : Green} {s : Site} (h : Known g s) (hl : s.elem.green.isTok = true → 2 ≤ s.length) : target s = some s.path := by
  unfold target
  have hu := h.unique
  unfold Unique at hu
  by_cases ht : s.elem.green.isTok = true
  · have := hl ht
    rw [if_pos ht] at hu ⊢
    have hc := h.chain
    cases hc with
    | top => simp at this
    | @child c p ps hp hc =>
      rw [List.tail_cons] at hu ⊢
      rw [toNode_unique hp hu]
      obtain ⟨-, -, -, ⟨j, hj⟩, -⟩ := Elem.mem_children hc
      have hs : Site.path (c :: p :: ps) = c.path := rfl
      have he : Site.elem (p :: ps) = p := rfl
      rw [hs, hj, he, Option.bind_some]
      dsimp only
      have : p.children[j]? = some c := placed_get hc (by rw [hj]; congr 1; omega)
      rw [this, Option.map_some, hj]
  · rw [if_neg ht] at hu ⊢
    rw [toNode_unique h.chain hu]
    rfl

/-- The step of a change. -/
def Change.step : Change → Act
  | .insert (.first p) new => .first p.path new
  | .insert (.after c) new => .after c.path new
  | .replace e none => .delete e.path
  | .replace e (some g) => .replace e.path g
  | .replaceMany e new => .replaceMany e.path new

theorem act_step {g : Green} {c : Change} (h : Sound g c) : c.act = some c.step := by
  cases c with
  | insert p new =>
    cases p with
    | first q =>
      obtain ⟨h1, h2⟩ := h.first q rfl
      simp [Change.act, Change.step, target_known h1 (by rw [h2]; simp)]
    | after q =>
      obtain ⟨h1, h2⟩ := h.after q rfl
      simp [Change.act, Change.step, target_known h1 fun _ => h2]
  | replace e new =>
    obtain ⟨h1, h2⟩ := h.old e rfl
    cases new <;> simp [Change.act, Change.step, target_known h1 fun _ => h2]
  | replaceMany e new =>
    obtain ⟨h1, h2⟩ := h.old e rfl
    simp [Change.act, Change.step, target_known h1 fun _ => h2]

theorem allSome_map {g : Green} {cs : List Change} (h : ∀ c ∈ cs, Sound g c) : allSome Change.act cs = some (cs.map Change.step) := by
  induction cs with
  | nil => rfl
  | cons c cs ih =>
    rw [allSome, act_step (h c (by simp)), ih fun d hd => h d (by simp [hd])]
    rfl

/-! ### The steps -/

/-- The element that a change is given by. -/
def Change.site (c : Change) : Site := match c with
  | .insert p _ => p.site
  | .replace e _ | .replaceMany e _ => e

theorem step_at (c : Change) : c.step.at = c.site.path := by
  cases c with
  | insert p new => cases p <;> rfl
  | replace e new => cases new <;> rfl
  | replaceMany e new => rfl

theorem step_rep {c : Change} {q : List Nat} {ts : List Green} (h : c.step.rep q = some ts) : ∃ e ∈ c.old, e.path = q := by
  cases c with
  | insert p new => cases p <;> simp [Change.step, Act.rep] at h
  | replace e new =>
    refine ⟨e, rfl, ?_⟩
    cases new <;> (simp [Change.step, Act.rep] at h; exact h.1)
  | replaceMany e new =>
    refine ⟨e, rfl, ?_⟩
    simp [Change.step, Act.rep] at h
    exact h.1

theorem old_site {c : Change} {e : Site} (h : e ∈ c.old) : c.site = e := by
  cases c <;> simp_all [Change.old, Change.site]

theorem apart_path {a b : Change} (h : Apart a b) : ∀ e ∈ b.old, ¬ e.path <:+ a.site.path := by
  intro e he
  cases a with
  | insert p new => exact (h.left p rfl e he).path
  | replace x new => exact (h.old x rfl e he).2
  | replaceMany x new => exact (h.old x rfl e he).2

theorem Sound.chain {g : Green} {c : Change} (h : Sound g c) : Chain g c.site := by
  cases c with
  | insert p new =>
    cases p with
    | first q => exact (h.first q rfl).1.chain
    | after q => exact (h.after q rfl).1.chain
  | replace e new => exact (h.old e rfl).1.chain
  | replaceMany e new => exact (h.old e rfl).1.chain

theorem chain_head {top : Elem} {s : Site} (h : Up top s) : s.head? = some s.elem := by cases h <;> rfl

theorem fits_of {g : Green} {c : Change} {before : List Change} (h : Sound g c) (ha : ∀ b ∈ before, Apart b c) :
    Fits (before.map Change.step) c.step c.site.elem := by
  refine ⟨step_at c, ?_, ?_, ?_⟩
  · intro r hr
    unfold repOf
    rw [List.findSome?_eq_none_iff]
    intro a hm
    obtain ⟨b, hb, rfl⟩ := List.mem_map.1 hm
    cases hs : b.step.rep r with
    | none => rfl
    | some ts =>
      obtain ⟨e, he, rfl⟩ := step_rep hs
      exact absurd hr (apart_path (ha b hb).symm e he)
  · rintro ⟨ts, hts⟩ a hm
    obtain ⟨b, hb, rfl⟩ := List.mem_map.1 hm
    obtain ⟨e, he, hp⟩ := step_rep hts
    rw [step_at, ← hp]
    exact apart_path (ha b hb) e he
  · rintro ⟨ts, hts⟩
    cases c with
    | insert p new =>
      cases p with
      | first q => exact (h.first q rfl).2
      | after q => simp [Change.step, Act.fst] at hts
    | replace e new => cases new <;> simp [Change.step, Act.fst] at hts
    | replaceMany e new => simp [Change.step, Act.fst] at hts

theorem text_step (c : Change) : c.step.text c.site.elem = c.text := by
  cases c with
  | insert p new => cases p <;> rfl
  | replace e new => cases new <;> rfl
  | replaceMany e new => rfl

theorem step_core {g : Green} {D : List Act} {c : Change} (h : Sound g c) (hf : Fits D c.step c.site.elem) :
    (core D [] g).step c.step = some (core (D ++ [c.step]) [] g) := by
  have hne : ∀ s : Site, Chain g s → 2 ≤ s.length → s ≠ [Elem.root g] ∧ s.path ≠ [] := by
    intro s hs hl
    refine ⟨by rintro rfl; simp at hl, ?_⟩
    cases hs with
    | top => simp at hl
    | child hp hc =>
      obtain ⟨-, -, -, ⟨j, hj⟩, -⟩ := Elem.mem_children hc
      intro h
      exact absurd (hj.symm.trans h) (by simp)
  have hhas : ∀ s : Site, c.site = s → Chain g s → 2 ≤ s.length → (core D [] g).has s.path = true := by
    intro s hcs hs hl
    subst hcs
    exact core_has (t := Elem.root g) hs (chain_head hs) hf.open_ (hne _ hs hl).1
  have ho : repOf D c.site.path = none := hf.open_ _ (List.suffix_refl _)
  cases c with
  | insert p new =>
    cases p with
    | first q => rw [Change.step, Mut.step, core_fst]
    | after q =>
      obtain ⟨h1, h2⟩ := h.after q rfl
      rw [Change.step, Mut.step, if_pos (hhas q rfl h1.chain h2), core_aft D new q.path ho]
  | replace e new =>
    obtain ⟨h1, h2⟩ := h.old e rfl
    cases new with
    | none =>
      rw [Change.step, Mut.step]
      have := core_rep D (.delete e.path) [] e.path rfl (by simp [Act.rep]) [] g
      rw [← this]
      rfl
    | some n =>
      rw [Change.step, Mut.step, core_id, if_neg (by simpa using (hne e h1.chain h2).2), if_pos (hhas e rfl h1.chain h2)]
      have := core_rep D (.replace e.path n) [n] e.path rfl (by simp [Act.rep]) [] g
      rw [← this]
      rfl
  | replaceMany e new =>
    obtain ⟨h1, h2⟩ := h.old e rfl
    rw [Change.step, Mut.step, if_pos (hhas e rfl h1.chain h2)]
    have := core_rep D (.replaceMany e.path new) new e.path rfl (by simp [Act.rep]) [] g
    rw [← this]

theorem site_root {g : Green} {c : Change} (h : Sound g c) (hr : c.site = [Elem.root g]) : ∃ gs, c.step = .first (Elem.root g).path gs := by
  cases c with
  | insert p new =>
    cases p with
    | first q =>
      refine ⟨new, ?_⟩
      show Act.first (Site.path q) new = _
      have : q = [Elem.root g] := hr
      rw [this]
      rfl
    | after q =>
      have := (h.after q rfl).2
      have h2 : q = [Elem.root g] := hr
      rw [h2] at this
      simp at this
  | replace e new =>
    have := (h.old e rfl).2
    have h2 : e = [Elem.root g] := hr
    rw [h2] at this
    simp at this
  | replaceMany e new =>
    have := (h.old e rfl).2
    have h2 : e = [Elem.root g] := hr
    rw [h2] at this
    simp at this

theorem steps_core {g : Green} (cs before : List Change) (hs : ∀ c ∈ cs, Sound g c) (ha : (before ++ cs).Pairwise Apart) :
    (core (before.map Change.step) [] g).steps (cs.map Change.step) = some (core ((before ++ cs).map Change.step) [] g) ∧
    (edits ((before ++ cs).map Change.step) [] 0 g).Perm (cs.map Change.text ++ edits (before.map Change.step) [] 0 g) := by
  induction cs generalizing before with
  | nil => simp [Mut.steps]
  | cons c cs ih =>
    have hc := hs c (by simp)
    have hf := fits_of hc (before := before) (fun b hb => (List.pairwise_append.1 ha).2.2 b hb c (by simp))
    have ha' : ((before ++ [c]) ++ cs).Pairwise Apart := by simpa using ha
    obtain ⟨h1, h2⟩ := ih (before ++ [c]) (fun d hd => hs d (by simp [hd])) ha'
    have e1 : (before ++ [c]).map Change.step = before.map Change.step ++ [c.step] := by simp
    have e2 : before ++ [c] ++ cs = before ++ c :: cs := by simp
    rw [e1, e2] at h1 h2
    refine ⟨?_, ?_⟩
    · rw [List.map_cons, Mut.steps, step_core hc hf, Option.bind_some, h1]
    · have hp := edits_perm (t := Elem.root g) hc.chain (chain_head hc.chain) hf (site_root hc)
      rw [text_step] at hp
      rw [List.map_cons, List.cons_append]
      refine h2.trans ((hp.append_left _).trans ?_)
      exact List.perm_middle

/-! ### The checks -/

theorem apart_ranges {t e f : Elem} {l m : List Elem} (hl : Up t l) (hm : Up t m) (he : l.head? = some e) (hf : m.head? = some f)
    (h1 : ¬ e.path <:+ f.path) (h2 : ¬ f.path <:+ e.path) : e.stop ≤ f.start ∨ f.stop ≤ e.start := by
  generalize hn : l.length = n
  induction n generalizing t l m with
  | zero =>
    have : l = [] := List.length_eq_zero_iff.1 hn
    subst this
    cases hl
  | succ n ih =>
    have htm : t ∈ m := by
      rcases hm.top_cases with h | ⟨_, _, _, _, rfl⟩
      · simp [h]
      · simp
    have htl : t ∈ l := by
      rcases hl.top_cases with h | ⟨_, _, _, _, rfl⟩
      · simp [h]
      · simp
    rcases hl.top_cases with rfl | ⟨d, hd, l', hl', rfl⟩
    · simp only [List.head?_cons, Option.some.injEq] at he
      subst he
      exact absurd (up_suffix hm f (by simp [hf]) _ htm) h1
    · rcases hm.top_cases with rfl | ⟨d2, hd2, m', hm', rfl⟩
      · simp only [List.head?_cons, Option.some.injEq] at hf
        subst hf
        exact absurd (up_suffix hl e (by simp [he]) _ htl) h2
      · have he' : l'.head? = some e := by
          cases l' with
          | nil => cases hl'
          | cons x xs => simpa using he
        have hf' : m'.head? = some f := by
          cases m' with
          | nil => cases hm'
          | cons x xs => simpa using hf
        by_cases hdd : d = d2
        · subst hdd
          exact ih hl' hm' he' hf' (by simpa using hn)
        · have : Std.Symm fun a b : Elem => a.stop ≤ b.start ∨ b.stop ≤ a.start := ⟨fun a b h => h.symm⟩
          have hr := List.Pairwise.forall (R := fun a b : Elem => a.stop ≤ b.start ∨ b.stop ≤ a.start)
            (t.children_sorted.imp Or.inl) hd hd2 hdd
          have i1 : d.start ≤ e.start ∧ e.stop ≤ d.stop := by
            cases l' with
            | nil => cases hl'
            | cons x xs =>
              simp only [List.head?_cons, Option.some.injEq] at he'
              subst he'
              refine hl'.inside d ?_
              rcases hl'.top_cases with h | ⟨_, _, _, _, h⟩
              · simp [h]
              · rw [h]; simp
          have i2 : d2.start ≤ f.start ∧ f.stop ≤ d2.stop := by
            cases m' with
            | nil => cases hm'
            | cons x xs =>
              simp only [List.head?_cons, Option.some.injEq] at hf'
              subst hf'
              refine hm'.inside d2 ?_
              rcases hm'.top_cases with h | ⟨_, _, _, _, h⟩
              · simp [h]
              · rw [h]; simp
          omega

theorem below_child {x y g : Green} (h : TextEdit.TreeDiff.Below x g) (hy : y ∈ x.children) : TextEdit.TreeDiff.Below y g := by
  induction h with
  | child h2 => exact .step h2 (.child hy)
  | step h2 _ ih => exact .step h2 ih

/-- An element below the root of a solid tree is not empty. -/
theorem solid_lt {g : Green} {s : Site} (hs : Solid g) (hc : Chain g s) (hl : 2 ≤ s.length) : s.elem.start < s.elem.stop := by
  have hb : ∀ {s : List Elem}, Chain g s → ∀ e ∈ s.head?, e = Elem.root g ∨ TextEdit.TreeDiff.Below e.green g := by
    intro s h
    induction h with
    | top => simp
    | @child c p ps hp hc ih =>
      intro e he
      simp only [List.head?_cons, Option.mem_def, Option.some.injEq] at he
      subst he
      right
      obtain ⟨h1, -⟩ := Elem.mem_children hc
      rcases ih p (by simp) with rfl | h
      · exact .child h1
      · exact below_child h h1
  cases hc with
  | top => simp at hl
  | @child c p ps hp hc =>
    show c.start < c.stop
    refine TextEdit.TreeDiff.full_lt (hs _ ?_)
    rcases hb (.child hp hc) c (by simp) with h | h
    · obtain ⟨-, -, -, ⟨j, hj⟩, -⟩ := Elem.mem_children hc
      rw [h] at hj
      cases hj
    · exact h

theorem key_le {a b : Change} (h : a.key ≤ b.key) : a.range.1 < b.range.1 ∨ (a.range.1 = b.range.1 ∧
    (a.depth < b.depth ∨ (a.depth = b.depth ∧ a.rank ≤ b.rank))) := by
  unfold Change.key at h
  rw [Prod.Lex.le_iff] at h
  simp only [ofLex_toLex] at h
  rcases h with h | ⟨h, h2⟩
  · exact .inl h
  · rw [Prod.Lex.le_iff] at h2
    exact .inr ⟨h, h2⟩

/-- The range of an element that is taken out. -/
theorem old_range {g : Green} {c : Change} {e : Site} (hs : Solid g) (h : Sound g c) (he : e ∈ c.old) :
    c.range = (e.elem.start, e.elem.stop) ∧ c.depth + 1 = e.length ∧ c.rank = 2 ∧ e.elem.start < e.elem.stop := by
  obtain ⟨h1, h2⟩ := h.old e he
  have hlt := solid_lt hs h1.chain h2
  cases c with
  | insert p new => cases he
  | replace x new =>
    cases he
    refine ⟨rfl, ?_, rfl, hlt⟩
    rw [Change.depth, if_neg (by omega)]
    omega
  | replaceMany x new =>
    cases he
    refine ⟨rfl, ?_, rfl, hlt⟩
    rw [Change.depth, if_neg (by omega)]
    omega

theorem rank_old {c : Change} (h : (c.rank == 2) = true) : ∃ e, c.old = some e := by
  cases c with
  | insert p new => simp [Change.rank] at h
  | replace e new => exact ⟨e, rfl⟩
  | replaceMany e new => exact ⟨e, rfl⟩

/-- Elements that are taken out by different changes come one after the other. -/
theorem old_ordered {g : Green} (hs : Solid g) {a b : Change} {x y : Site} (ha : Sound g a) (hb : Sound g b) (hab : Apart a b)
    (hx : x ∈ a.old) (hy : y ∈ b.old) (hk : a.key ≤ b.key) : x.elem.stop ≤ y.elem.start := by
  obtain ⟨hxk, -⟩ := ha.old x hx
  obtain ⟨hyk, -⟩ := hb.old y hy
  obtain ⟨h1, h2⟩ := hab.old x hx y hy
  obtain ⟨r1, -, -, l1⟩ := old_range hs ha hx
  obtain ⟨r2, -, -, l2⟩ := old_range hs hb hy
  have := apart_ranges hxk.chain hyk.chain (chain_head hxk.chain) (chain_head hyk.chain) h1 h2
  have hle := key_le hk
  rw [r1, r2] at hle
  dsimp only at hle
  omega

theorem disjoint_of {g : Green} (hs : Solid g) (cs : List Change) (h : ∀ c ∈ cs, Sound g c) (ha : cs.Pairwise Apart)
    (hk : cs.Pairwise fun a b => a.key ≤ b.key) : disjointReplaces cs = true := by
  induction cs with
  | nil => rfl
  | cons a cs ih =>
    cases cs with
    | nil => rfl
    | cons b cs =>
      rw [disjointReplaces, ih (fun c hc => h c (by simp [hc])) (List.pairwise_cons.1 ha).2 (List.pairwise_cons.1 hk).2, Bool.and_true]
      have hab := (List.pairwise_cons.1 ha).1 b (by simp)
      have hkab := (List.pairwise_cons.1 hk).1 b (by simp)
      by_cases hr : (a.rank == 2 && b.rank == 2) = true
      · obtain ⟨h1, h2⟩ := Bool.and_eq_true_iff.1 hr
        obtain ⟨x, hx⟩ := rank_old h1
        obtain ⟨y, hy⟩ := rank_old h2
        have := old_ordered hs (h a (by simp)) (h b (by simp)) hab hx hy hkab
        obtain ⟨r1, -, -, l1⟩ := old_range hs (h a (by simp)) hx
        obtain ⟨r2, -, -, l2⟩ := old_range hs (h b (by simp)) hy
        rw [r1, r2]
        simp [this]
      · simp [hr]

theorem covers_old {c : Change} {r : Nat × Nat} (h : c.covers = some r) :
    ∃ e ∈ c.old, e.elem.green.isTok = false ∧ r = (e.elem.start, e.elem.stop) := by
  cases c with
  | insert p new => cases h
  | replace e new =>
    unfold Change.covers at h
    dsimp only at h
    split at h
    · cases h
    · rename_i ht
      cases h
      exact ⟨e, rfl, by simpa using ht, rfl⟩
  | replaceMany e new =>
    unfold Change.covers at h
    dsimp only at h
    split at h
    · cases h
    · rename_i ht
      cases h
      exact ⟨e, rfl, by simpa using ht, rfl⟩

theorem not_covered {g : Green} (hs : Solid g) {a b : Change} (ha : Sound g a) (hb : Sound g b) (hab : Apart a b)
    (hk : a.key ≤ b.key) : covered a.covers b.range = false := by
  cases hc : a.covers with
  | none => rfl
  | some r =>
    obtain ⟨x, hx, hn, rfl⟩ := covers_old hc
    obtain ⟨r1, d1, k1, l1⟩ := old_range hs ha hx
    have hle := key_le hk
    unfold covered
    cases b with
    | insert p new =>
      have hcl := hab.right x hx p rfl
      have ho := hcl.offset hn
      have hd : (Change.insert p new).depth = p.depth := by cases p <;> rfl
      rw [r1, k1, hd] at hle
      simp only [Change.range, Change.rank] at hle ⊢
      refine Bool.eq_false_iff.2 fun hh => ?_
      have c1 := of_decide_eq_true (Bool.and_eq_true_iff.1 hh).1
      have c2 := of_decide_eq_true (Bool.and_eq_true_iff.1 hh).2
      omega
    | replace y new =>
      have := old_ordered hs ha hb hab hx (y := y) rfl hk
      obtain ⟨-, -, -, l2⟩ := old_range hs hb (e := y) rfl
      simp only [Change.range]
      refine Bool.eq_false_iff.2 fun hh => ?_
      have c1 := of_decide_eq_true (Bool.and_eq_true_iff.1 hh).1
      have c2 := of_decide_eq_true (Bool.and_eq_true_iff.1 hh).2
      omega
    | replaceMany y new =>
      have := old_ordered hs ha hb hab hx (y := y) rfl hk
      obtain ⟨-, -, -, l2⟩ := old_range hs hb (e := y) rfl
      simp only [Change.range]
      refine Bool.eq_false_iff.2 fun hh => ?_
      have c1 := of_decide_eq_true (Bool.and_eq_true_iff.1 hh).1
      have c2 := of_decide_eq_true (Bool.and_eq_true_iff.1 hh).2
      omega

theorem independent_of {g : Green} (hs : Solid g) (cs : List Change) (h : ∀ c ∈ cs, Sound g c) (ha : cs.Pairwise Apart)
    (hk : cs.Pairwise fun a b => a.key ≤ b.key) (outer : Option (Nat × Nat)) (ho : ∀ c ∈ cs.head?, covered outer c.range = false) :
    dependent outer cs = false := by
  induction cs generalizing outer with
  | nil => rfl
  | cons a cs ih =>
    rw [dependent, ho a (by simp), Bool.false_or]
    refine ih (fun c hc => h c (by simp [hc])) (List.pairwise_cons.1 ha).2 (List.pairwise_cons.1 hk).2 _ ?_
    intro b hb
    have hb' : b ∈ cs := List.mem_of_mem_head? hb
    exact not_covered hs (h a (by simp)) (h b (by simp [hb'])) ((List.pairwise_cons.1 ha).1 b hb') ((List.pairwise_cons.1 hk).1 b hb')

/-! ### All changes at once -/

/-- **C68.** Changes of a tree that do not get in each other's way all take effect: the text of the new tree is the old text with
what they take out replaced by what they put in, all at once. -/
theorem C68_all {g : Green} {cs : List Change} (hs : Solid g) (h : ∀ c ∈ cs, Sound g c) (ha : cs.Pairwise Apart) :
    ∃ new es, finish g cs = .done new ∧ es.Perm (cs.map Change.text) ∧ (es.Pairwise fun a b => a.stop ≤ b.start) ∧
      encode new.text = TextEdit.Spec.splice 0 es (encode g.text) := by
  have hp := sortByKey_perm Change.key cs
  have h' : ∀ c ∈ sortByKey Change.key cs, Sound g c := fun c hc => h c (hp.mem_iff.1 hc)
  have ha' : (sortByKey Change.key cs).Pairwise Apart := (hp.pairwise_iff (fun {a b} h => Apart.symm h)).2 ha
  have hk := sorted_sortByKey Change.key cs
  obtain ⟨h1, h2⟩ := steps_core (g := g) (sortByKey Change.key cs) [] h' (by simpa using ha')
  have he := core_edits ((sortByKey Change.key cs).map Change.step) [] 0 g
  refine ⟨(core ((sortByKey Change.key cs).map Change.step) [] g).green, edits ((sortByKey Change.key cs).map Change.step) [] 0 g, ?_, ?_, he.ordered, ?_⟩
  · unfold finish
    dsimp only
    rw [disjoint_of hs _ h' ha' hk, independent_of hs _ h' ha' hk none (fun _ _ => rfl), allSome_map h', Option.bind_some, clone_core]
    simp only [List.map_nil, List.nil_append] at h1
    rw [h1]
    rfl
  · simp only [List.nil_append, List.map_nil] at h2
    refine h2.trans ?_
    rw [edits_nil [] [] 0 g (by simp), List.append_nil]
    exact hp.map _
  · have := he.splice_eq [] [] (by simp)
    simp only [List.append_nil] at this
    rw [this]
    simp [TextEdit.Spec.splice]

/-! ### Taking out something twice -/

theorem child_same {e c d : Elem} (hc : c ∈ e.children) (hd : d ∈ e.children) (h : c.path = d.path) : c = d := by
  obtain ⟨-, -, -, ⟨j, hj⟩, -⟩ := Elem.mem_children hc
  have h1 : e.children[j]? = some c := placed_get hc (by rw [hj]; congr 1; omega)
  have h2 : e.children[j]? = some d := placed_get hd (by rw [← h, hj]; congr 1; omega)
  rw [h1] at h2
  exact Option.some.inj h2

/-- The identity tells the element and its ancestors. -/
theorem site_same {g : Green} {s t : Site} (hs : Chain g s) (ht : Chain g t) (h : s.path = t.path) : s = t := by
  induction hs generalizing t with
  | top =>
    cases ht with
    | top => rfl
    | child hp hc =>
      obtain ⟨-, -, -, ⟨j, hj⟩, -⟩ := Elem.mem_children hc
      exact absurd (hj.symm.trans h.symm) (by simp [Site.path, Site.elem, Elem.root])
  | @child c p ps hp hc ih =>
    obtain ⟨-, -, -, ⟨i, hi⟩, -⟩ := Elem.mem_children hc
    cases ht with
    | top => exact absurd (hi.symm.trans h) (by simp [Site.path, Site.elem, Elem.root])
    | @child d q qs hq hd =>
      obtain ⟨-, -, -, ⟨j, hj⟩, -⟩ := Elem.mem_children hd
      have h' : c.path = d.path := h
      have hpq : p.path = q.path := by
        rw [hi, hj] at h'
        exact (List.cons.inj h').2
      have := ih hq hpq
      obtain ⟨rfl, rfl⟩ := List.cons.inj this
      rw [child_same hc hd h']

/-- The elements that are taken out. -/
def olds (cs : List Change) : List (List Nat) := (cs.filterMap Change.old).map Site.path

theorem olds_nodup {g : Green} (hs : Solid g) (cs : List Change) (h : ∀ c ∈ cs, Sound g c) (hk : cs.Pairwise fun a b => a.key ≤ b.key)
    (hd : disjointReplaces cs = true) : (olds cs).Nodup := by
  induction cs with
  | nil => exact List.nodup_nil
  | cons a cs ih =>
    have hd' : disjointReplaces cs = true := by
      cases cs with
      | nil => rfl
      | cons b cs =>
        rw [disjointReplaces] at hd
        exact (Bool.and_eq_true_iff.1 hd).2
    have ih := ih (fun c hc => h c (by simp [hc])) (List.pairwise_cons.1 hk).2 hd'
    unfold olds at ih ⊢
    cases ha : a.old with
    | none => rwa [List.filterMap_cons_none ha]
    | some x =>
      rw [List.filterMap_cons_some ha, List.map_cons, List.nodup_cons]
      refine ⟨fun hm => ?_, ih⟩
      obtain ⟨y, hy, hxy⟩ := List.mem_map.1 hm
      obtain ⟨c, hc, hcy⟩ := List.mem_filterMap.1 hy
      have hsx := h a (by simp)
      have hsc := h c (by simp [hc])
      have hyx := site_same (hsc.old y hcy).1.chain (hsx.old x ha).1.chain hxy
      subst hyx
      obtain ⟨r1, d1, k1, l1⟩ := old_range hs hsx ha
      obtain ⟨r2, d2, k2, -⟩ := old_range hs hsc hcy
      have hkey : c.key = a.key := by
        unfold Change.key
        rw [r1, r2, k1, k2, show c.depth = a.depth by omega]
      cases cs with
      | nil => cases hc
      | cons b cs =>
        have hab := (List.pairwise_cons.1 hk).1 b (by simp)
        have hbc : b.key ≤ c.key := by
          rcases List.mem_cons.1 hc with rfl | hc
          · exact le_refl _
          · exact (List.pairwise_cons.1 (List.pairwise_cons.1 hk).2).1 c hc
        have hbk : b.key = a.key := le_antisymm (hkey ▸ hbc) hab
        unfold Change.key at hbk
        simp only [EmbeddingLike.apply_eq_iff_eq, Prod.mk.injEq] at hbk
        obtain ⟨e1, e2, e3⟩ := hbk
        rw [disjointReplaces, k1, e3, k1, e2, e1, r1] at hd
        have := (Bool.and_eq_true_iff.1 hd).1
        simp at this
        omega

/-- When the same element is taken out twice, none of the changes takes effect. -/
theorem C68_twice_fails {g : Green} {cs : List Change} (hs : Solid g) (h : ∀ c ∈ cs, Sound g c) (hd : ¬ (olds cs).Nodup) :
    finish g cs = .refused := by
  have hp := sortByKey_perm Change.key cs
  unfold finish
  dsimp only
  cases hj : disjointReplaces (sortByKey Change.key cs) with
  | false => rfl
  | true =>
    refine absurd ?_ hd
    have := olds_nodup hs _ (fun c hc => h c (hp.mem_iff.1 hc)) (sorted_sortByKey Change.key cs) hj
    exact (((hp.filterMap _).map _).nodup_iff).1 this

end Verif.Editor
