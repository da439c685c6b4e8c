import Verif.Nameres.Scopes
import Verif.Syntax.Relabel

/-! Names in scope after a local variable is given another name. -/

namespace Verif.Nameres
open Verif.Parser (Green)
open Verif.Syntax

/-- The entries of a name. -/
def named (n : List Char) (es : List Entry) : List Entry := es.filter fun e => decide (e.name = n)

theorem named_append (n : List Char) (a b : List Entry) : named n (a ++ b) = named n a ++ named n b := List.filter_append ..

theorem named_unique (n : List Char) (seen : List (List Char)) (es : List Entry) :
    named n (uniqueByName seen es) = if n ∈ seen then [] else (es.find? fun e => decide (e.name = n)).toList := by
  induction es generalizing seen with
  | nil => simp [uniqueByName, named]
  | cons e es ih =>
    rw [uniqueByName]
    by_cases hs : seen.contains e.name
    · have hs' : e.name ∈ seen := by simpa using hs
      rw [if_pos hs, ih]
      by_cases hn : n ∈ seen
      · rw [if_pos hn, if_pos hn]
      · rw [if_neg hn, if_neg hn, List.find?_cons_of_neg]
        simp only [decide_eq_true_eq]
        rintro rfl
        exact hn hs'
    · have hs' : e.name ∉ seen := by simpa using hs
      rw [if_neg hs]
      have hcons : named n (e :: uniqueByName (e.name :: seen) es) =
          (if e.name = n then [e] else []) ++ named n (uniqueByName (e.name :: seen) es) := by
        unfold named
        rw [List.filter_cons]
        by_cases he : e.name = n <;> simp [he]
      rw [hcons, ih]
      by_cases he : e.name = n
      · subst he
        simp [hs']
      · rw [if_neg he]
        have he' : ¬ n = e.name := fun h => he h.symm
        rw [List.find?_cons_of_neg (by simpa using he)]
        simp [he']

theorem newEntries_named (allowed : Ns → Bool) (n : List Char) (seen : List (Ns × List Char)) (es : List Entry) :
    newEntries allowed (some n) seen es = (named n es).filter fun e => allowed e.ns && !seen.contains (e.ns, n) := by
  unfold newEntries named
  rw [List.filter_filter]
  refine List.filter_congr fun e _ => ?_
  by_cases h : n = e.name
  · subst h; simp
  · have : ¬ e.name = n := fun h' => h h'.symm
    simp [h, this]

/-! ### The lists of two walks -/

section
variable (it : Entry) (y : List Char)

/-- The entry with its new name. -/
def Entry.renamed (e : Entry) : Entry := if e = it then { e with name := y } else e

/-- The item under its new name. -/
def renamedItem : Entry := { it with name := y }

theorem renamed_self : Entry.renamed it y it = renamedItem it y := by simp [Entry.renamed, renamedItem]

theorem renamed_other {e : Entry} (h : e ≠ it) : Entry.renamed it y e = e := by simp [Entry.renamed, h]

theorem renamed_ns (e : Entry) : (Entry.renamed it y e).ns = e.ns := by
  unfold Entry.renamed
  split <;> rfl

/-- The entries of a scope and of the same scope after renaming, where a name other than the new one is looked up. -/
structure Apart (n : List Char) (s s' : List Entry) : Prop where
  same : it ∉ s → named n s' = named n s
  others : (named n s').filter (fun e => decide (e.ns ≠ it.ns)) = (named n s).filter fun e => decide (e.ns ≠ it.ns)
  wanted : it ∈ s → it.name ≠ n → named n s' = named n s

/-- Where the new name is looked up. -/
structure Along (s s' : List Entry) : Prop where
  none : (named it.name s).filter (fun e => decide (e.ns = it.ns)) = [] → named y s' = []
  one : (named it.name s).filter (fun e => decide (e.ns = it.ns)) = [it] → named y s' = [renamedItem it y]
  only : ∀ e ∈ named y s', e = renamedItem it y

theorem filter_ns_others {l l' : List Entry} {Q : Entry → Bool} (hQ : ∀ e, e.ns = it.ns → Q e = false)
    (h : l'.filter (fun e => decide (e.ns ≠ it.ns)) = l.filter fun e => decide (e.ns ≠ it.ns)) : l'.filter Q = l.filter Q := by
  have key : ∀ l : List Entry, l.filter Q = (l.filter fun e => decide (e.ns ≠ it.ns)).filter Q := by
    intro l
    rw [List.filter_filter]
    refine List.filter_congr fun e _ => ?_
    by_cases he : e.ns = it.ns
    · simp [hQ e he]
    · simp [he]
  rw [key l', key l, h]

theorem walk_apart (allowed : Ns → Bool) (n : List Char) (seen : List (Ns × List Char)) {ss ss' : List (List Entry)}
    (h : List.Forall₂ (Apart it n) ss ss') (hno : it ∉ walkLists allowed (some n) seen ss) :
    walkLists allowed (some n) seen ss' = walkLists allowed (some n) seen ss := by
  induction h generalizing seen with
  | nil => rfl
  | @cons s s' ss ss' h hs ih =>
    rw [walkLists, List.mem_append, not_or] at hno
    have hnew : newEntries allowed (some n) seen s' = newEntries allowed (some n) seen s := by
      rw [newEntries_named, newEntries_named]
      by_cases hi : it ∈ s
      · by_cases hn : it.name = n
        · refine filter_ns_others it ?_ h.others
          intro e he
          have := hno.1
          rw [newEntries_named, List.mem_filter, not_and] at this
          have := this (List.mem_filter.2 ⟨hi, by simpa using hn⟩)
          rw [he]
          simpa using this
        · rw [h.wanted hi hn]
      · rw [h.same hi]
    rw [walkLists, walkLists, hnew, ih _ hno.2]

theorem walk_seen (allowed : Ns → Bool) (seen : List (Ns × List Char)) (ss' : List (List Entry))
    (h : ∀ s ∈ ss', ∀ e ∈ named y s, e = renamedItem it y) (hseen : (it.ns, y) ∈ seen) : walkLists allowed (some y) seen ss' = [] := by
  induction ss' generalizing seen with
  | nil => rfl
  | cons s ss ih =>
    have hnew : newEntries allowed (some y) seen s = [] := by
      rw [newEntries_named, List.filter_eq_nil_iff]
      intro e he
      have := h s (by simp) e he
      subst this
      simp [renamedItem, hseen]
    rw [walkLists, hnew, List.nil_append, ih _ (fun s hs => h s (by simp [hs])) (by simpa using hseen)]

theorem walk_along (allowed : Ns → Bool) (seen seen' : List (Ns × List Char)) {ss ss' : List (List Entry)}
    (h : List.Forall₂ (Along it y) ss ss') (hseen : (it.ns, it.name) ∉ seen) (hseen' : (it.ns, y) ∉ seen')
    (hres : walkLists allowed (some it.name) seen ss = [it]) : walkLists allowed (some y) seen' ss' = [renamedItem it y] := by
  have hallowed : allowed it.ns = true := by
    have : it ∈ walkLists allowed (some it.name) seen ss := by rw [hres]; simp
    exact ((mem_walkLists _ _ _ _ _).1 this).1.2
  induction h generalizing seen seen' with
  | nil => cases hres
  | @cons s s' ss ss' h hs ih =>
    rw [walkLists] at hres
    have hsub : (named it.name s).filter (fun e => decide (e.ns = it.ns)) =
        (newEntries allowed (some it.name) seen s).filter fun e => decide (e.ns = it.ns) := by
      rw [newEntries_named, List.filter_filter]
      refine List.filter_congr fun e _ => ?_
      by_cases he : e.ns = it.ns
      · simp [he, hallowed, hseen]
      · simp [he]
    rw [walkLists]
    cases hn : newEntries allowed (some it.name) seen s with
    | nil =>
      rw [hn, List.filter_nil] at hsub
      have hnone := h.none hsub
      rw [hn, List.nil_append, List.map_nil, List.nil_append] at hres
      have hnew : newEntries allowed (some y) seen' s' = [] := by rw [newEntries_named, hnone]; rfl
      rw [hnew, List.nil_append, List.map_nil, List.nil_append]
      exact ih seen seen' hseen hseen' hres
    | cons e es =>
      rw [hn, List.cons_append, List.cons.injEq] at hres
      obtain ⟨rfl, hes⟩ := hres
      obtain ⟨rfl, hrest⟩ := List.append_eq_nil_iff.1 hes
      rw [hn] at hsub
      have hone := h.one (by rw [hsub]; simp)
      have hnew : newEntries allowed (some y) seen' s' = [renamedItem e y] := by
        rw [newEntries_named, hone]
        simp [renamedItem, hallowed, hseen']
      rw [hnew, walk_seen e y]
      · rfl
      · intro s hs'
        obtain ⟨r, hr⟩ : ∃ r, Along e y r s := by
          clear ih hrest hes
          induction hs with
          | nil => cases hs'
          | cons h _ ih =>
            rcases List.mem_cons.1 hs' with rfl | hs'
            · exact ⟨_, h⟩
            · exact ih hs'
        exact hr.only
      · simp [renamedItem]

/-! ### The entries of one scope -/

/-- No entry has the new name. -/
def Fresh (es : List Entry) : Prop := ∀ e ∈ es, e.name ≠ y

theorem named_renamed_other {n : List Char} (hn : n ≠ y) (es : List Entry) :
    named n (es.map (Entry.renamed it y)) = (named n es).filter fun e => decide (e ≠ it) := by
  induction es with
  | nil => rfl
  | cons e es ih =>
    by_cases he : e = it
    · subst he
      rw [List.map_cons, renamed_self, named, List.filter_cons, if_neg (by simp [renamedItem, Ne.symm hn])]
      rw [show List.filter (fun x => decide (x.name = n)) (es.map (Entry.renamed e y)) = named n (es.map (Entry.renamed e y)) from rfl, ih]
      unfold named
      rw [List.filter_cons]
      split <;> simp
    · rw [List.map_cons, renamed_other it y he]
      unfold named at ih ⊢
      rw [List.filter_cons, List.filter_cons]
      by_cases hm : e.name = n
      · simp [hm, he]; simpa using ih
      · simp [hm]; simpa using ih

theorem named_renamed_new {es : List Entry} (hf : Fresh y es) :
    named y (es.map (Entry.renamed it y)) = (es.filter fun e => decide (e = it)).map fun _ => renamedItem it y := by
  induction es with
  | nil => rfl
  | cons e es ih =>
    have ih := ih fun e he => hf e (by simp [he])
    unfold named at ih ⊢
    rw [List.map_cons, List.filter_cons, ih, List.filter_cons]
    by_cases he : e = it
    · subst he
      simp [renamed_self, renamedItem]
    · rw [renamed_other it y he]
      simp [he, hf e (by simp)]

theorem find_renamed_other {n : List Char} (hn : n ≠ y) (es : List Entry)
    (h : (es.find? fun e => decide (e.name = n)) ≠ some it) :
    ((es.map (Entry.renamed it y)).find? fun e => decide (e.name = n)) = es.find? fun e => decide (e.name = n) := by
  induction es with
  | nil => rfl
  | cons e es ih =>
    by_cases he : e = it
    · subst he
      have hne : e.name ≠ n := by
        intro hen
        exact h (by rw [List.find?_cons_of_pos]; simpa using hen)
      rw [List.map_cons, renamed_self, List.find?_cons_of_neg (by simp [renamedItem, Ne.symm hn]),
        List.find?_cons_of_neg (by simpa using hne)]
      refine ih ?_
      rwa [List.find?_cons_of_neg (by simpa using hne)] at h
    · rw [List.map_cons, renamed_other it y he]
      by_cases hm : e.name = n
      · rw [List.find?_cons_of_pos (by simpa using hm), List.find?_cons_of_pos (by simpa using hm)]
      · rw [List.find?_cons_of_neg (by simpa using hm), List.find?_cons_of_neg (by simpa using hm)]
        refine ih ?_
        rwa [List.find?_cons_of_neg (by simpa using hm)] at h

theorem find_renamed_new {es : List Entry} (hf : Fresh y es) :
    ((es.map (Entry.renamed it y)).find? fun e => decide (e.name = y)) = if it ∈ es then some (renamedItem it y) else none := by
  induction es with
  | nil => rfl
  | cons e es ih =>
    by_cases he : e = it
    · subst he
      rw [List.map_cons, renamed_self, List.find?_cons_of_pos (by simp [renamedItem])]
      simp
    · rw [List.map_cons, renamed_other it y he, List.find?_cons_of_neg (by simpa using hf e (by simp)),
        ih fun e he => hf e (by simp [he])]
      have : ¬ it = e := fun h => he h.symm
      simp [this]

theorem filter_ne_self {es : List Entry} (h : it ∉ es) (Q : Entry → Bool) :
    (es.filter Q).filter (fun e => decide (e ≠ it)) = es.filter Q := by
  rw [List.filter_eq_self]
  intro e he
  have := (List.mem_filter.1 he).1
  simp only [decide_eq_true_eq]
  rintro rfl
  exact h this

/-- The entries of a scope: some as they are, then the bindings of a block, each name once, then others. All bindings of a block
are in the namespace of the item. -/
theorem apart_scope {n : List Char} (hn : n ≠ y) (a raw b : List Entry) (hns : ∀ e ∈ raw, e.ns = it.ns) :
    Apart it n (a ++ uniqueByName [] raw ++ b)
      (a.map (Entry.renamed it y) ++ uniqueByName [] (raw.map (Entry.renamed it y)) ++ b.map (Entry.renamed it y)) := by
  have hold : named n (a ++ uniqueByName [] raw ++ b) = named n a ++ (raw.find? fun e => decide (e.name = n)).toList ++ named n b := by
    rw [named_append, named_append, named_unique]; simp
  have hnew : named n (a.map (Entry.renamed it y) ++ uniqueByName [] (raw.map (Entry.renamed it y)) ++ b.map (Entry.renamed it y)) =
      ((named n a).filter fun e => decide (e ≠ it)) ++ ((raw.map (Entry.renamed it y)).find? fun e => decide (e.name = n)).toList ++
        (named n b).filter fun e => decide (e ≠ it) := by
    rw [named_append, named_append, named_unique, named_renamed_other it y hn, named_renamed_other it y hn]; simp
  have hsame : it ∉ a ++ uniqueByName [] raw ++ b → named n (a.map (Entry.renamed it y) ++ uniqueByName [] (raw.map (Entry.renamed it y)) ++ b.map (Entry.renamed it y)) =
      named n (a ++ uniqueByName [] raw ++ b) := by
    intro hi
    simp only [List.mem_append, not_or] at hi
    rw [hnew, hold]
    unfold named
    rw [filter_ne_self it hi.1.1, filter_ne_self it hi.2, find_renamed_other it y hn]
    intro hfind
    have h1 : it.name = n := by simpa using List.find?_some hfind
    refine hi.1.2 ?_
    have : it ∈ named n (uniqueByName [] raw) := by rw [named_unique]; simp [hfind]
    exact (List.mem_filter.1 this).1
  refine ⟨hsame, ?_, ?_⟩
  · rw [hnew, hold]
    simp only [List.filter_append, List.filter_filter]
    have hl : ∀ l : List Entry, l.filter (fun e => decide (e.ns ≠ it.ns) && decide (e ≠ it)) = l.filter fun e => decide (e.ns ≠ it.ns) := by
      intro l
      refine List.filter_congr fun e _ => ?_
      by_cases he : e = it
      · subst he; simp
      · simp [he]
    have hf : ∀ l : List Entry, (∀ e ∈ l, e.ns = it.ns) →
        ((l.find? fun e => decide (e.name = n)).toList.filter fun e => decide (e.ns ≠ it.ns)) = [] := by
      intro l hl
      rw [List.filter_eq_nil_iff]
      intro e he
      simp only [Option.mem_toList] at he
      have := hl e (List.mem_of_find?_eq_some he)
      simp [this]
    rw [hl, hl, hf raw hns, hf]
    intro e he
    obtain ⟨x, hx, rfl⟩ := List.mem_map.1 he
    rw [renamed_ns]
    exact hns x hx
  · intro _ hne
    rw [hnew, hold]
    have hno : ∀ l : List Entry, (named n l).filter (fun e => decide (e ≠ it)) = named n l := by
      intro l
      rw [List.filter_eq_self]
      intro e he
      have := (List.mem_filter.1 he).2
      simp only [decide_eq_true_eq] at this ⊢
      rintro rfl
      exact hne this
    rw [hno, hno, find_renamed_other it y hn]
    intro hfind
    exact hne (by simpa using List.find?_some hfind)

theorem along_scope (a raw b : List Entry) (hns : ∀ e ∈ raw, e.ns = it.ns) (ha : Fresh y a) (hraw : Fresh y raw) (hb : Fresh y b) :
    Along it y (a ++ uniqueByName [] raw ++ b)
      (a.map (Entry.renamed it y) ++ uniqueByName [] (raw.map (Entry.renamed it y)) ++ b.map (Entry.renamed it y)) := by
  have hnew : named y (a.map (Entry.renamed it y) ++ uniqueByName [] (raw.map (Entry.renamed it y)) ++ b.map (Entry.renamed it y)) =
      ((a.filter fun e => decide (e = it)).map fun _ => renamedItem it y) ++
        (if it ∈ raw then some (renamedItem it y) else none).toList ++
        (b.filter fun e => decide (e = it)).map fun _ => renamedItem it y := by
    rw [named_append, named_append, named_unique, named_renamed_new it y ha, named_renamed_new it y hb, find_renamed_new it y hraw]
    simp
  have hold : (named it.name (a ++ uniqueByName [] raw ++ b)).filter (fun e => decide (e.ns = it.ns)) =
      (named it.name a).filter (fun e => decide (e.ns = it.ns)) ++ (raw.find? fun e => decide (e.name = it.name)).toList ++
        (named it.name b).filter fun e => decide (e.ns = it.ns) := by
    rw [named_append, named_append, named_unique, List.filter_append, List.filter_append]
    congr 2
    rw [if_neg (by simp), List.filter_eq_self]
    intro e he
    simp only [Option.mem_toList] at he
    simpa using hns e (List.mem_of_find?_eq_some he)
  -- the item in a list, in terms of the entries with its name and namespace
  have hin : ∀ l : List Entry, (l.filter fun e => decide (e = it)) =
      ((named it.name l).filter fun e => decide (e.ns = it.ns)).filter fun e => decide (e = it) := by
    intro l
    unfold named
    rw [List.filter_filter, List.filter_filter]
    refine List.filter_congr fun e _ => ?_
    by_cases he : e = it
    · subst he; simp
    · simp [he]
  refine ⟨?_, ?_, ?_⟩
  · intro h
    rw [hold] at h
    simp only [List.append_eq_nil_iff] at h
    obtain ⟨⟨h1, h2⟩, h3⟩ := h
    have hi : it ∉ raw := by
      intro hi
      simp only [Option.toList_eq_nil_iff, List.find?_eq_none, decide_eq_true_eq] at h2
      exact h2 it hi rfl
    rw [hnew, hin a, hin b, h1, h3]
    simp [hi]
  · intro h
    rw [hold] at h
    rw [hnew, hin a, hin b]
    cases h1 : (named it.name a).filter (fun e => decide (e.ns = it.ns)) with
    | cons e es =>
      rw [h1] at h
      simp only [List.cons_append, List.cons.injEq, List.append_eq_nil_iff] at h
      obtain ⟨rfl, ⟨rfl, h2⟩, h3⟩ := h
      have hi : e ∉ raw := by
        intro hi
        simp only [Option.toList_eq_nil_iff, List.find?_eq_none, decide_eq_true_eq] at h2
        exact h2 e hi rfl
      simp [h3, hi]
    | nil =>
      rw [h1, List.nil_append] at h
      cases h2 : raw.find? (fun e => decide (e.name = it.name)) with
      | some e =>
        rw [h2] at h
        simp only [Option.toList_some, List.cons_append, List.cons.injEq, List.nil_append] at h
        obtain ⟨rfl, h3⟩ := h
        simp [h3, List.mem_of_find?_eq_some h2]
      | none =>
        rw [h2] at h
        simp only [Option.toList_none, List.nil_append] at h
        have hi : it ∉ raw := by
          intro hi
          simp only [List.find?_eq_none, decide_eq_true_eq] at h2
          exact h2 it hi rfl
        simp [h, hi]
  · intro e he
    rw [hnew] at he
    simp only [List.mem_append, List.mem_map, Option.mem_toList] at he
    rcases he with (⟨x, -, rfl⟩ | h) | ⟨x, -, rfl⟩
    · rfl
    · split at h
      · exact (Option.some.inj h).symm
      · cases h
    · rfl

end

/-! ### The scopes of the two trees -/

section
variable {f : Nat → Option (List Char)} {t : Green} (hs : Solid f t)
include hs

theorem childOf_relabel {e : Elem} (h : Located t e) (ks : List SyntaxKind) :
    childOf (e.relabel f t) ks = (childOf e ks).map (Elem.relabel f t) := by
  rw [childOf, children_relabel hs h, find?_relabel _ fun e => by simp]; rfl

omit hs in
theorem located_nodeChild {e c : Elem} {k : SyntaxKind} (h : Located t e) (hc : nodeChild e k = some c) : Located t c :=
  h.children c (List.mem_of_find?_eq_some hc)

omit hs in
theorem located_tokenChild {e c : Elem} {k : SyntaxKind} (h : Located t e) (hc : tokenChild e k = some c) : Located t c :=
  h.children c (List.mem_of_find?_eq_some hc)

omit hs in
theorem located_childOf {e c : Elem} {ks : List SyntaxKind} (h : Located t e) (hc : childOf e ks = some c) : Located t c :=
  h.children c (List.mem_of_find?_eq_some hc)

omit hs in
theorem isMslContext_relabel (l : List Elem) : isMslContext (l.map (Elem.relabel f t)) = isMslContext l := by
  induction l with
  | nil => rfl
  | cons e es ih => simp only [List.map_cons, isMslContext, relabel_kind, ih]

theorem isPost_relabel {l : List Elem} (h : ∀ e ∈ l, Located t e) : isPost (l.map (Elem.relabel f t)) = isPost l := by
  cases l with
  | nil => rfl
  | cons e es =>
    simp only [List.map_cons, isPost, tokenChild_relabel hs (h e (by simp)), Option.isSome_map, List.any_map]
    congr 2
    funext x
    simp

omit hs in
/-- The element is one of the tree. -/
def InTree (t : Green) (e : Elem) : Prop := ∃ l, Chain t (e :: l)

omit hs in
theorem InTree.located {e : Elem} (h : InTree t e) : Located t e := by
  obtain ⟨l, hl⟩ := h
  exact located_chain hl e (by simp)

omit hs in
theorem InTree.child {e c : Elem} (h : InTree t e) (hc : c ∈ e.children) : InTree t c := by
  obtain ⟨l, hl⟩ := h
  exact ⟨e :: l, .child hl hc⟩

omit hs in
theorem InTree.descendant {e d : Elem} (h : InTree t e) (hd : d ∈ e.descendants) : InTree t d := by
  obtain ⟨l, hl⟩ := h
  obtain ⟨mid, h1, -⟩ := chain_descendant hl hd
  exact ⟨mid ++ l, h1⟩

omit hs in
theorem inTree_chain {l : List Elem} (h : Chain t l) : ∀ e ∈ l, InTree t e := by
  intro e he
  obtain ⟨a, b, rfl⟩ := List.append_of_mem he
  exact ⟨b, chain_suffix h⟩

/-- The token with the name of a binding. -/
def NameToken (e tok : Elem) : Prop := ∃ n, nodeChild e .NAME = some n ∧ tokenChild n .IDENT = some tok

/-- `f` gives one binding, `item`, the new name, and leaves the names of all others. -/
structure Renames (f : Nat → Option (List Char)) (t : Green) (item : Elem) (y : List Char) : Prop where
  tree : InTree t item
  here : ∃ tok, NameToken item tok ∧ f tok.start = some y
  others : ∀ e tok, InTree t e → e.kind = .IDENT_PAT → NameToken e tok → e.path ≠ item.path → f tok.start = none

/-- The kinds of scopes with local names. -/
def localKinds : List SyntaxKind :=
  [.FUN, .SPEC_FUN, .SPEC_INLINE_FUN, .LEMMA, .LAMBDA_EXPR, .FOR_EXPR, .MATCH_ARM, .BLOCK_EXPR]

section
variable {file : Nat} {item : Elem} {y : List Char} {it : Entry} (hr : Renames f t item y) (hit : bindingEntry file item = some it)
include hr hit

omit hs hr in
theorem entry_path : it.path = item.path ∧ it.file = file ∧ it.ns = .NAME := by
  unfold bindingEntry at hit
  cases hb : bindingName item with
  | none => rw [hb] at hit; cases hit
  | some n => rw [hb] at hit; cases hit; exact ⟨rfl, rfl, rfl⟩

theorem bindingEntry_relabel {e : Elem} (he : InTree t e) (hk : e.kind = .IDENT_PAT) :
    bindingEntry file (e.relabel f t) = (bindingEntry file e).map (Entry.renamed it y) := by
  have hp := (entry_path hit).1
  have htok : ∀ n tok, nodeChild e .NAME = some n → tokenChild n .IDENT = some tok →
      (tok.relabel f t).green.text = (f tok.start).getD tok.green.text := by
    intro n tok hn htok
    have htk : tok.green.isTok = true := by
      have := List.find?_some htok
      simp only [isToken, Bool.and_eq_true] at this
      exact this.1
    cases hg : tok.green with
    | node k cs => rw [hg] at htk; cases htk
    | tok k x => simp [Elem.relabel, hg, Green.relabel, Verif.Parser.Green.text_tok]
  have hname : bindingName (e.relabel f t) = (nodeChild e .NAME).map fun n =>
      ((tokenChild n .IDENT).map fun tok => (f tok.start).getD tok.green.text).getD [] := by
    unfold bindingName
    rw [nodeChild_relabel hs he.located]
    cases hn : nodeChild e .NAME with
    | none => rfl
    | some n =>
      have hln := located_nodeChild he.located hn
      simp only [Option.map_some]
      rw [tokenChild_relabel hs hln]
      cases ht : tokenChild n .IDENT with
      | none => rfl
      | some tok => simp only [Option.map_some, Option.getD_some]; rw [htok n tok hn ht]
  unfold bindingEntry
  rw [hname]
  by_cases hpath : e.path = item.path
  · obtain ⟨l, hl⟩ := he
    obtain ⟨m, hm⟩ := hr.tree
    cases chain_unique hl hm hpath
    obtain ⟨tok, ⟨n, hn, ht⟩, hf⟩ := hr.here
    have hit' := hit
    unfold bindingEntry bindingName at hit'
    rw [hn] at hit'
    simp only [Option.map_some, ht, Option.getD_some, Option.some.injEq] at hit'
    have hb : bindingName item = some tok.green.text := by unfold bindingName; rw [hn]; simp [ht]
    rw [hn, hb]
    simp only [Option.map_some, ht, Option.getD_some, hf]
    subst hit'
    simp [Entry.renamed]
  · have hsame : ((nodeChild e .NAME).map fun n => ((tokenChild n .IDENT).map fun tok => (f tok.start).getD tok.green.text).getD []) =
        bindingName e := by
      unfold bindingName
      cases hn : nodeChild e .NAME with
      | none => rfl
      | some n =>
        simp only [Option.map_some]
        cases ht : tokenChild n .IDENT with
        | none => rfl
        | some tok => simp [hr.others e tok he hk ⟨n, hn, ht⟩ hpath]
    rw [hsame]
    cases hb : bindingName e with
    | none => rfl
    | some n =>
      simp only [Option.map_some, relabel_path]
      rw [renamed_other]
      rintro h
      exact hpath (by rw [← hp, ← h])

theorem filterMap_relabel {l : List Elem} (h : ∀ e ∈ l, InTree t e ∧ e.kind = .IDENT_PAT) :
    (l.map (Elem.relabel f t)).filterMap (bindingEntry file) = (l.filterMap (bindingEntry file)).map (Entry.renamed it y) := by
  induction l with
  | nil => rfl
  | cons e l ih =>
    have ih := ih fun e he => h e (by simp [he])
    have h1 := bindingEntry_relabel hs hr hit (h e (by simp)).1 (h e (by simp)).2
    rw [List.map_cons]
    cases hb : bindingEntry file e with
    | none => rw [hb] at h1; rw [List.filterMap_cons_none h1, List.filterMap_cons_none hb, ih]
    | some x => rw [hb] at h1; rw [List.filterMap_cons_some h1, List.filterMap_cons_some hb, ih]; rfl

theorem patEntries_relabel {p : Option Elem} (h : ∀ e, p = some e → InTree t e) :
    patEntries file (p.map (Elem.relabel f t)) = (patEntries file p).map (Entry.renamed it y) := by
  cases p with
  | none => rfl
  | some e =>
    have he := h e rfl
    simp only [Option.map_some, patEntries]
    rw [descendants_relabel hs he.located, filter_relabel _ fun e => by simp]
    refine filterMap_relabel hs hr hit ?_
    intro d hd
    obtain ⟨h1, h2⟩ := List.mem_filter.1 hd
    exact ⟨he.descendant h1, by simpa using h2⟩

/-- A statement in the new tree. -/
def LetInfo.relabel (f : Nat → Option (List Char)) (t : Green) (it : Entry) (y : List Char) (l : LetInfo) : LetInfo :=
  ⟨l.stmt.relabel f t, l.post, l.bindings.map (Entry.renamed it y)⟩

omit hs hr hit in
theorem inTree_childOf {e : Elem} (he : InTree t e) {ks : List SyntaxKind} {c : Elem} (hc : childOf e ks = some c) : InTree t c :=
  he.child (List.mem_of_find?_eq_some hc)

theorem letStmts_relabel {block : Elem} {anc : List Elem} (h : Chain t (block :: anc)) :
    letStmts file (block.relabel f t) (anc.map (Elem.relabel f t)) = (letStmts file block anc).map (LetInfo.relabel f t it y) := by
  have hall := inTree_chain h
  have hb := hall block (by simp)
  have hloc : ∀ e ∈ block :: anc, Located t e := fun e he => (hall e he).located
  unfold letStmts
  rw [children_relabel hs hb.located, filter_relabel _ (relabel_isNode t _), filter_relabel _ (relabel_isNode t _), List.map_append]
  congr 1
  · rw [List.map_map, List.map_map]
    refine List.map_congr_left fun l hl => ?_
    have hl' := hb.child (List.mem_filter.1 hl).1
    have hpost := isPost_relabel hs (l := l :: block :: anc) (by
      intro e he
      rcases List.mem_cons.1 he with rfl | he
      · exact hl'.located
      · exact hloc e he)
    simp only [Function.comp_apply, LetInfo.relabel, LetInfo.mk.injEq, true_and]
    refine ⟨hpost, ?_⟩
    rw [childOf_relabel hs hl'.located]
    exact patEntries_relabel hs hr hit fun e he => inTree_childOf hl' he
  · rw [List.filterMap_map, List.map_filterMap]
    refine List.filterMap_congr fun p hp => ?_
    have hp' := hb.child (List.mem_filter.1 hp).1
    simp only [Function.comp_apply]
    rw [childOf_relabel hs hp'.located]
    cases hc : childOf p stmtKinds with
    | none => rfl
    | some l =>
      have hl' := inTree_childOf hp' hc
      have hpost := isPost_relabel hs (l := l :: p :: block :: anc) (by
        intro e he
        rcases List.mem_cons.1 he with rfl | he
        · exact hl'.located
        · rcases List.mem_cons.1 he with rfl | he
          · exact hp'.located
          · exact hloc e he)
      simp only [Option.map_some, relabel_kind]
      split
      · simp only [Option.map_some, Option.some.injEq, LetInfo.relabel, LetInfo.mk.injEq, true_and]
        refine ⟨hpost, ?_⟩
        rw [childOf_relabel hs hl'.located]
        exact patEntries_relabel hs hr hit fun e he => inTree_childOf hl' he
      · rfl

/-- The bindings of a block before each name is taken once. -/
def rawBindings (file : Nat) (block : Elem) (anc site : List Elem) : List Entry :=
  ((letStmts file block anc).filter fun l =>
    if !isMslContext (block :: anc) then l.before (headStart site)
    else if !(site.dropWhile fun e => !isNode .LET_STMT e).isEmpty then
      (!l.post || isPost (site.dropWhile fun e => !isNode .LET_STMT e)) && l.before (headStart site)
    else true).reverse.flatMap LetInfo.bindings

omit hs hr hit in
theorem entriesInBlock_raw (inl : List Entry) (block : Elem) (anc site : List Elem) :
    entriesInBlock file inl block anc site =
      (if isMslContext (block :: anc) then inl else []) ++ uniqueByName [] (rawBindings file block anc site) := rfl

omit hs hr hit in
theorem dropWhile_relabel (l : List Elem) : (l.map (Elem.relabel f t)).dropWhile (fun e => !isNode .LET_STMT e) =
    (l.dropWhile fun e => !isNode .LET_STMT e).map (Elem.relabel f t) := by
  induction l with
  | nil => rfl
  | cons e l ih =>
    rw [List.map_cons, List.dropWhile_cons, List.dropWhile_cons, relabel_isNode, ih]
    split <;> rfl

omit hr hit in
theorem headStart_relabel {site : List Elem} : headStart (site.map (Elem.relabel f t)) = move f t (headStart site) := by
  cases site with
  | nil => exact (move_zero hs).symm
  | cons e es => rfl

omit hs hr hit in
theorem headStart_edge {site : List Elem} (h : Chain t site) : Edge t (headStart site) := by
  cases h with
  | top => exact located_root.start
  | child h1 h2 => exact (located_chain (.child h1 h2) _ (by simp)).start

theorem rawBindings_relabel {block : Elem} {anc site : List Elem} (h : Chain t (block :: anc)) (hsite : Chain t site) :
    rawBindings file (block.relabel f t) (anc.map (Elem.relabel f t)) (site.map (Elem.relabel f t)) =
      (rawBindings file block anc site).map (Entry.renamed it y) := by
  unfold rawBindings
  have hb := (inTree_chain h) block (by simp)
  have hmsl : isMslContext (block.relabel f t :: anc.map (Elem.relabel f t)) = isMslContext (block :: anc) :=
    isMslContext_relabel (block :: anc)
  have hcur : ∀ e ∈ site.dropWhile fun e => !isNode .LET_STMT e, Located t e := by
    intro e he
    have : e ∈ site := (List.dropWhile_suffix _).subset he
    exact located_chain hsite e this
  have hstmt : ∀ l ∈ letStmts file block anc, Located t l.stmt := by
    intro l hl
    unfold letStmts at hl
    rcases List.mem_append.1 hl with hl | hl
    · obtain ⟨x, hx, rfl⟩ := List.mem_map.1 hl
      exact hb.located.children x (List.mem_filter.1 hx).1
    · obtain ⟨p, hp, hl⟩ := List.mem_filterMap.1 hl
      have hp' := hb.located.children p (List.mem_filter.1 hp).1
      split at hl
      · next x hx =>
        split at hl
        · cases hl
          exact located_childOf hp' hx
        · cases hl
      · cases hl
  rw [letStmts_relabel hs hr hit h, dropWhile_relabel, headStart_relabel hs, hmsl, isPost_relabel hs hcur, List.isEmpty_map,
    List.filter_map, ← List.map_reverse, List.flatMap_map, List.map_flatMap]
  have hpred : (letStmts file block anc).filter ((fun l : LetInfo => if (!isMslContext (block :: anc)) = true then l.before (move f t (headStart site))
        else if (!(site.dropWhile fun e => !isNode .LET_STMT e).isEmpty) = true then
          (!l.post || isPost (site.dropWhile fun e => !isNode .LET_STMT e)) && l.before (move f t (headStart site)) else true) ∘
        LetInfo.relabel f t it y) = (letStmts file block anc).filter fun l =>
        if (!isMslContext (block :: anc)) = true then l.before (headStart site)
        else if (!(site.dropWhile fun e => !isNode .LET_STMT e).isEmpty) = true then
          (!l.post || isPost (site.dropWhile fun e => !isNode .LET_STMT e)) && l.before (headStart site) else true := by
    refine List.filter_congr fun l hl => ?_
    have hbefore : (LetInfo.relabel f t it y l).before (move f t (headStart site)) = l.before (headStart site) := by
      unfold LetInfo.before LetInfo.relabel
      simp only [relabel_stop hs (hstmt l hl)]
      rw [decide_eq_decide]
      exact move_le_iff hs (hstmt l hl).stop (headStart_edge hsite)
    simp only [Function.comp_apply, hbefore]
    rfl
  rw [hpred]
  rfl

theorem localEntries_relabel {s : Elem} (h : InTree t s) :
    localEntries file (s.relabel f t) = (localEntries file s).map (Entry.renamed it y) := by
  have hchild : ∀ {e : Elem}, InTree t e → ∀ {k : SyntaxKind} {c : Elem}, nodeChild e k = some c → InTree t c :=
    fun {e} he {k c} hc => he.child (List.mem_of_find?_eq_some hc)
  have hkind : ∀ {e : Elem} {c : Elem}, nodeChild e .IDENT_PAT = some c → c.kind = .IDENT_PAT := by
    intro e c hc
    have := List.find?_some hc
    simp only [isNode, Bool.and_eq_true, decide_eq_true_eq] at this
    exact this.2
  have hparams : ∀ (l : Elem), InTree t l → ∀ (k : SyntaxKind),
      (((l.relabel f t).children.filter (isNode k)).filterMap fun p => nodeChild p .IDENT_PAT).filterMap (bindingEntry file) =
        (((l.children.filter (isNode k)).filterMap fun p => nodeChild p .IDENT_PAT).filterMap (bindingEntry file)).map
          (Entry.renamed it y) := by
    intro l hl k
    rw [children_relabel hs hl.located, filter_relabel _ (relabel_isNode t k), List.filterMap_map]
    have h1 : (l.children.filter (isNode k)).filterMap ((fun p => nodeChild p .IDENT_PAT) ∘ Elem.relabel f t) =
        ((l.children.filter (isNode k)).filterMap fun p => nodeChild p .IDENT_PAT).map (Elem.relabel f t) := by
      rw [List.map_filterMap]
      refine List.filterMap_congr fun p hp => ?_
      exact nodeChild_relabel hs (hl.child (List.mem_filter.1 hp).1).located _
    rw [h1]
    refine filterMap_relabel hs hr hit ?_
    intro e he
    obtain ⟨p, hp, hc⟩ := List.mem_filterMap.1 he
    exact ⟨hchild (hl.child (List.mem_filter.1 hp).1) hc, hkind hc⟩
  unfold localEntries
  simp only [relabel_kind]
  split
  · rw [nodeChild_relabel hs h.located]
    cases hc : nodeChild s .PARAM_LIST with
    | none => rfl
    | some l => exact hparams l (hchild h hc) _
  · split
    · rw [nodeChild_relabel hs h.located]
      cases hc : nodeChild s .LAMBDA_PARAM_LIST with
      | none => rfl
      | some l => exact hparams l (hchild h hc) _
    · split
      · rw [nodeChild_relabel hs h.located]
        cases hc : nodeChild s .FOR_CONDITION with
        | none => rfl
        | some c =>
          simp only [Option.map_some, Option.bind_some]
          rw [nodeChild_relabel hs (hchild h hc).located]
          cases hi : nodeChild c .IDENT_PAT with
          | none => rfl
          | some i =>
            simp only [Option.map_some]
            rw [bindingEntry_relabel hs hr hit (hchild (hchild h hc) hi) (hkind hi)]
            cases bindingEntry file i <;> rfl
      · split
        · rw [childOf_relabel hs h.located]
          exact patEntries_relabel hs hr hit fun e he => inTree_childOf h he
        · rfl

omit hs hr hit in
theorem resolveScopes_relabel (l : List Elem) :
    resolveScopes (l.map (Elem.relabel f t)) = (resolveScopes l).map (List.map (Elem.relabel f t)) := by
  induction l with
  | nil => rfl
  | cons e l ih =>
    simp only [List.map_cons, resolveScopes, relabel_kind, ih]
    split <;> rfl

omit hs hr hit in
theorem resolveScopes_suffix (l : List Elem) : ∀ s ∈ resolveScopes l, s <:+ l := by
  induction l with
  | nil => simp [resolveScopes]
  | cons e l ih =>
    intro s hs
    rw [resolveScopes] at hs
    split at hs
    · rcases List.mem_cons.1 hs with rfl | hs
      · exact List.suffix_rfl
      · exact (ih s hs).trans (List.suffix_cons _ _)
    · exact (ih s hs).trans (List.suffix_cons _ _)

omit hr hit in
theorem skipArm_relabel {s : Elem} (h : Located t s) {o : Nat} (ho : Edge t o) :
    skipArm (move f t o) (s.relabel f t) = skipArm o s := by
  unfold skipArm
  rw [childOf_relabel hs h, relabel_kind]
  cases hc : childOf s patKinds with
  | none => rfl
  | some p =>
    have hp := located_childOf h hc
    simp only [Option.map_some, relabel_stop hs hp]
    congr 2
    · rw [decide_eq_decide]
      exact move_le_iff hs hp.start ho
    · rw [decide_eq_decide]
      exact move_lt_iff hs ho hp.stop

omit hs hr hit in
theorem chain_tail {site : List Elem} (h : Chain t site) {s : List Elem} (hsuf : s <:+ site.tail) (hne : s ≠ []) : Chain t s := by
  obtain ⟨a, ha⟩ := hsuf
  cases s with
  | nil => exact absurd rfl hne
  | cons e es =>
    cases site with
    | nil => cases h
    | cons x xs =>
      simp only [List.tail_cons] at ha
      subst ha
      exact chain_suffix (l := x :: a) h

omit hr hit in
theorem scopesAt_relabel {site : List Elem} (h : Chain t site) :
    scopesAt (site.map (Elem.relabel f t)) = (scopesAt site).map (List.map (Elem.relabel f t)) := by
  unfold scopesAt
  rw [← List.map_tail, resolveScopes_relabel, List.filter_map, headStart_relabel hs]
  congr 1
  refine List.filter_congr fun s hs' => ?_
  cases s with
  | nil => rfl
  | cons e es =>
    have := chain_tail h (resolveScopes_suffix _ _ hs') (by simp)
    simp only [Function.comp_apply, List.map_cons]
    rw [skipArm_relabel hs (located_chain this e (by simp)) (headStart_edge h)]

/-! ### Where the local names of a scope are -/

omit hs hr hit in
theorem descendant_child {e c d : Elem} (hc : c ∈ e.children) (hd : d ∈ c.descendants) : d ∈ e.descendants := by
  rw [mem_descendants] at hd ⊢
  obtain ⟨h1, m, hm⟩ := hd
  exact ⟨h1, m ++ [e], by have := hm.snoc hc; simpa using this⟩

omit hs hr hit in
theorem descendant_self {e : Elem} (h : e.green.isTok = false) : e ∈ e.descendants :=
  (mem_descendants e e).2 ⟨h, [], .top⟩

omit hs hr hit in
theorem descendant_nodeChild {e c : Elem} {k : SyntaxKind} (hc : nodeChild e k = some c) : c ∈ e.descendants := by
  have := List.find?_some hc
  simp only [isNode, Bool.and_eq_true, Bool.not_eq_true'] at this
  exact descendant_child (List.mem_of_find?_eq_some hc) (descendant_self this.1)

omit hs hr hit in
theorem descendant_trans {a b c : Elem} (h1 : b ∈ a.descendants) (h2 : c ∈ b.descendants) : c ∈ a.descendants := by
  rw [mem_descendants] at h1 h2 ⊢
  obtain ⟨-, m, hm⟩ := h1
  obtain ⟨h3, n, hn⟩ := h2
  refine ⟨h3, n ++ m, ?_⟩
  clear h3
  generalize hx : c :: n = x at hn
  have key : Up a (x ++ m) := by
    clear hx
    induction hn with
    | top => exact hm
    | child _ hc ih => exact .child ih hc
  rw [← hx] at key
  exact key

/-- The entry is that of a binding inside the node. -/
def Inside (file : Nat) (s : Elem) (x : Entry) : Prop := ∃ d ∈ s.descendants, d.kind = .IDENT_PAT ∧ bindingEntry file d = some x

omit hs hr hit in
theorem inside_pat {s : Elem} {p : Option Elem} (h : ∀ e, p = some e → e ∈ s.descendants) {x : Entry} (hx : x ∈ patEntries file p) :
    Inside file s x := by
  cases p with
  | none => cases hx
  | some e =>
    obtain ⟨d, hd, hb⟩ := List.mem_filterMap.1 hx
    obtain ⟨h1, h2⟩ := List.mem_filter.1 hd
    exact ⟨d, descendant_trans (h e rfl) h1, by simpa using h2, hb⟩

omit hs hr hit in
theorem descendant_childOf {e c : Elem} {ks : List SyntaxKind} (hc : childOf e ks = some c) : c ∈ e.descendants := by
  have := List.find?_some hc
  simp only [Bool.and_eq_true, Bool.not_eq_true'] at this
  exact descendant_child (List.mem_of_find?_eq_some hc) (descendant_self this.1)

omit hs hr hit in
theorem descendant_filter {e c : Elem} {k : SyntaxKind} (hc : c ∈ e.children.filter (isNode k)) : c ∈ e.descendants := by
  obtain ⟨h1, h2⟩ := List.mem_filter.1 hc
  simp only [isNode, Bool.and_eq_true, Bool.not_eq_true'] at h2
  exact descendant_child h1 (descendant_self h2.1)

omit hs hr hit in
theorem inside_raw {block : Elem} {anc site : List Elem} {x : Entry} (hx : x ∈ rawBindings file block anc site) : Inside file block x := by
  unfold rawBindings at hx
  obtain ⟨l, hl, hx⟩ := List.mem_flatMap.1 hx
  have hl := (List.mem_filter.1 (List.mem_reverse.1 hl)).1
  unfold letStmts at hl
  rcases List.mem_append.1 hl with hl | hl
  · obtain ⟨e, he, rfl⟩ := List.mem_map.1 hl
    exact inside_pat (fun p hp => descendant_trans (descendant_filter he) (descendant_childOf hp)) hx
  · obtain ⟨p, hp, hl⟩ := List.mem_filterMap.1 hl
    split at hl
    · next e he =>
      split at hl
      · cases hl
        exact inside_pat (fun q hq => descendant_trans (descendant_trans (descendant_filter hp) (descendant_childOf he))
          (descendant_childOf hq)) hx
      · cases hl
    · cases hl

omit hs hr hit in
theorem inside_local {s : Elem} {x : Entry} (hx : x ∈ localEntries file s) : s.kind ∈ localKinds ∧ Inside file s x := by
  have hparams : ∀ (l : Elem) (k : SyntaxKind), l ∈ s.descendants →
      x ∈ ((l.children.filter (isNode k)).filterMap fun p => nodeChild p .IDENT_PAT).filterMap (bindingEntry file) →
      Inside file s x := by
    intro l k hl hx
    obtain ⟨d, hd, hb⟩ := List.mem_filterMap.1 hx
    obtain ⟨p, hp, hd⟩ := List.mem_filterMap.1 hd
    refine ⟨d, descendant_trans hl (descendant_trans (descendant_filter hp) (descendant_nodeChild hd)), ?_, hb⟩
    have := List.find?_some hd
    simp only [isNode, Bool.and_eq_true, decide_eq_true_eq] at this
    exact this.2
  unfold localEntries at hx
  split at hx
  · next hk =>
    refine ⟨?_, ?_⟩
    · simp only [List.contains_eq_mem, decide_eq_true_eq] at hk
      simp only [List.mem_cons, List.not_mem_nil, or_false] at hk
      rcases hk with h | h | h | h <;> rw [h] <;> decide
    · split at hx
      · next l hl => exact hparams l _ (descendant_nodeChild hl) hx
      · cases hx
  · split at hx
    · next hk =>
      refine ⟨by rw [hk]; decide, ?_⟩
      split at hx
      · next l hl => exact hparams l _ (descendant_nodeChild hl) hx
      · cases hx
    · split at hx
      · next hk =>
        refine ⟨by rw [hk]; decide, ?_⟩
        split at hx
        · next i hi =>
          cases hc : nodeChild s .FOR_CONDITION with
          | none => rw [hc] at hi; cases hi
          | some c =>
            rw [hc, Option.bind_some] at hi
            refine ⟨i, descendant_trans (descendant_nodeChild hc) (descendant_nodeChild hi), ?_, by simpa using hx⟩
            have := List.find?_some hi
            simp only [isNode, Bool.and_eq_true, decide_eq_true_eq] at this
            exact this.2
        · cases hx
      · split at hx
        · next hk =>
          exact ⟨by rw [hk]; decide, inside_pat (fun e he => descendant_childOf he) hx⟩
        · cases hx

omit hs hr hit in
theorem inside_ns {s : Elem} {x : Entry} (h : Inside file s x) : x.ns = .NAME := by
  obtain ⟨d, -, -, hb⟩ := h
  exact (entry_path hb).2.2

omit hs hr in
/-- The item is inside only where its node is. -/
theorem inside_item (ht : InTree t item) {s : Elem} (hs' : InTree t s) (h : Inside file s it) : item ∈ s.descendants := by
  obtain ⟨d, hd, -, hb⟩ := h
  have h1 := (entry_path hb).1
  have h2 := (entry_path hit).1
  obtain ⟨l, hl⟩ := hs'.descendant hd
  obtain ⟨m, hm⟩ := ht
  cases chain_unique hl hm (by rw [← h1, h2])
  exact hd

/-! ### The walk -/

/-- The other entries of a scope after renaming: the same, the item under its new name. -/
def Carries (f : Nat → Option (List Char)) (t : Green) (it : Entry) (y : List Char) (es es' : Elem → List Entry) : Prop :=
  ∀ s, InTree t s → es' (s.relabel f t) = (es s).map (Entry.renamed it y)

/-- No binding in a function around the place has the name. -/
def FreshAround (y : List Char) (site : List Elem) : Prop :=
  ∀ s ∈ site.tail, s.kind ∈ localKinds → ∀ e ∈ s.descendants, e.kind = .IDENT_PAT → bindingName e ≠ some y

/-- The parts of the entries of a scope. -/
def scopeParts (file : Nat) (inlines others : Elem → List Entry) (site : List Elem) : List Elem → List Entry × List Entry × List Entry
  | [] => ([], [], [])
  | s :: anc =>
    if s.kind = .BLOCK_EXPR then
      (if isMslContext (s :: anc) then inlines s else [], rawBindings file s anc site, others s ++ localEntries file s)
    else ([], [], others s ++ localEntries file s)

omit hs hr hit in
theorem scopeEntries_parts (inlines others : Elem → List Entry) (site l : List Elem) :
    scopeEntries file inlines others site l =
      (scopeParts file inlines others site l).1 ++ uniqueByName [] (scopeParts file inlines others site l).2.1 ++
        (scopeParts file inlines others site l).2.2 := by
  cases l with
  | nil => rfl
  | cons s anc =>
    unfold scopeEntries scopeParts
    dsimp only
    split
    · rw [entriesInBlock_raw]
    · rfl

theorem scopeParts_relabel {inlines inlines' others others' : Elem → List Entry} (hin : Carries f t it y inlines inlines')
    (hot : Carries f t it y others others') {site : List Elem} (hsite : Chain t site) {l : List Elem} (hl : Chain t l) :
    scopeParts file inlines' others' (site.map (Elem.relabel f t)) (l.map (Elem.relabel f t)) =
      ((scopeParts file inlines others site l).1.map (Entry.renamed it y),
        (scopeParts file inlines others site l).2.1.map (Entry.renamed it y),
        (scopeParts file inlines others site l).2.2.map (Entry.renamed it y)) := by
  cases l with
  | nil => rfl
  | cons s anc =>
    have hst := inTree_chain hl s (by simp)
    unfold scopeParts
    simp only [List.map_cons, relabel_kind]
    have hmsl : isMslContext (s.relabel f t :: anc.map (Elem.relabel f t)) = isMslContext (s :: anc) := isMslContext_relabel (s :: anc)
    split
    · rw [hmsl, hin s hst, hot s hst, rawBindings_relabel hs hr hit hl hsite, localEntries_relabel hs hr hit hst, List.map_append]
      congr 1
      split <;> rfl
    · rw [hot s hst, localEntries_relabel hs hr hit hst, List.map_append]
      rfl

omit hs hr hit in
theorem scopesAt_chain {site : List Elem} (hsite : Chain t site) {l : List Elem} (hl : l ∈ scopesAt site) :
    Chain t l ∧ ∀ s ∈ l, s ∈ site.tail := by
  unfold scopesAt at hl
  have h1 := (List.mem_filter.1 hl).1
  have hsuf := resolveScopes_suffix _ _ h1
  refine ⟨chain_tail hsite hsuf ?_, fun s hs => hsuf.subset hs⟩
  rintro rfl
  have : ∀ l : List Elem, [] ∉ resolveScopes l := by
    intro l
    induction l with
    | nil => simp [resolveScopes]
    | cons e l ih =>
      rw [resolveScopes]
      split <;> simp [ih]
  exact this _ h1

theorem scopes_related {P : List Entry → List Entry → Prop} {inlines inlines' others others' : Elem → List Entry}
    {outside : List (List Entry)} (hin : Carries f t it y inlines inlines') (hot : Carries f t it y others others')
    {site : List Elem} (hsite : Chain t site)
    (hscope : ∀ l ∈ scopesAt site, ∀ a raw b, (a, raw, b) = scopeParts file inlines others site l →
      P (a ++ uniqueByName [] raw ++ b)
        (a.map (Entry.renamed it y) ++ uniqueByName [] (raw.map (Entry.renamed it y)) ++ b.map (Entry.renamed it y)))
    (hout : ∀ l ∈ outside, P l (l.map (Entry.renamed it y))) :
    List.Forall₂ P (scopesAround file inlines others outside site)
      (scopesAround file inlines' others' (outside.map (List.map (Entry.renamed it y))) (site.map (Elem.relabel f t))) := by
  have hfun : ∀ {α β : Type} (R : β → β → Prop) (g h : α → β) (l : List α), (∀ x ∈ l, R (g x) (h x)) →
      List.Forall₂ R (l.map g) (l.map h) := by
    intro α β R g h l hl
    induction l with
    | nil => exact .nil
    | cons x l ih => exact .cons (hl x (by simp)) (ih fun x hx => hl x (by simp [hx]))
  unfold scopesAround
  rw [scopesAt_relabel hs hsite, List.map_map]
  have h1 := hfun P (scopeEntries file inlines others site)
    (scopeEntries file inlines' others' (site.map (Elem.relabel f t)) ∘ List.map (Elem.relabel f t)) (scopesAt site) (by
      intro l hl
      have hc := (scopesAt_chain hsite hl).1
      simp only [Function.comp_apply]
      rw [scopeEntries_parts, scopeEntries_parts, scopeParts_relabel hs hr hit hin hot hsite hc]
      exact hscope l hl _ _ _ rfl)
  have h2 := hfun P id (List.map (Entry.renamed it y)) outside hout
  rw [List.map_id] at h2
  exact List.rel_append h1 h2

omit hs hr in
theorem raw_ns {inlines others : Elem → List Entry} {site l a raw b}
    (h : (a, raw, b) = scopeParts file inlines others site l) : ∀ e ∈ raw, e.ns = it.ns := by
  intro e he
  rw [(entry_path hit).2.2]
  cases l with
  | nil => cases h; cases he
  | cons s anc =>
    unfold scopeParts at h
    dsimp only at h
    split at h
    · cases h
      exact inside_ns (inside_raw he)
    · cases h
      cases he

/-- A name that did not refer to the item, and is not the new one, means what it meant. -/
theorem walk_other {inlines inlines' others others' : Elem → List Entry} {outside : List (List Entry)}
    (hin : Carries f t it y inlines inlines') (hot : Carries f t it y others others') {site : List Elem} (hsite : Chain t site)
    (allowed : Ns → Bool) {n : List Char} (hn : n ≠ y) (hno : it ∉ walkScopes file inlines others outside allowed (some n) site) :
    walkScopes file inlines' others' (outside.map (List.map (Entry.renamed it y))) allowed (some n) (site.map (Elem.relabel f t)) =
      walkScopes file inlines others outside allowed (some n) site := by
  refine walk_apart it allowed n [] (scopes_related hs hr hit hin hot hsite ?_ ?_) hno
  · intro l hl a raw b h
    exact apart_scope it y hn a raw b (raw_ns hit h)
  · intro l _
    have := apart_scope it y hn l [] [] (by simp)
    simpa [uniqueByName] using this

/-- A name that referred to the item refers to it under the new name. -/
theorem walk_item {inlines inlines' others others' : Elem → List Entry} {outside : List (List Entry)}
    (hin : Carries f t it y inlines inlines') (hot : Carries f t it y others others') {site : List Elem} (hsite : Chain t site)
    (allowed : Ns → Bool) (hfresh : FreshAround y site) (hfin : ∀ s ∈ site, Fresh y (inlines s)) (hfot : ∀ s ∈ site, Fresh y (others s))
    (hfout : ∀ l ∈ outside, Fresh y l)
    (hres : walkScopes file inlines others outside allowed (some it.name) site = [it]) :
    walkScopes file inlines' others' (outside.map (List.map (Entry.renamed it y))) allowed (some y) (site.map (Elem.relabel f t)) =
      [renamedItem it y] := by
  refine walk_along it y allowed [] [] (scopes_related hs hr hit hin hot hsite ?_ ?_) (by simp) (by simp) hres
  · intro l hl a raw b h
    obtain ⟨hc, hmem⟩ := scopesAt_chain hsite hl
    have hraw := raw_ns hit h
    have hinside : ∀ s ∈ l, s.kind ∈ localKinds → ∀ x, Inside file s x → x.name ≠ y := by
      rintro s hsl hk x ⟨d, hd, hdk, hb⟩ rfl
      refine hfresh s (hmem s hsl) hk d hd hdk ?_
      unfold bindingEntry at hb
      cases hn : bindingName d with
      | none => rw [hn] at hb; cases hb
      | some z => rw [hn] at hb; cases hb; rfl
    cases l with
    | nil => cases h; exact along_scope it y [] [] [] (by simp) (by simp [Fresh]) (by simp [Fresh]) (by simp [Fresh])
    | cons s anc =>
      have hsm := List.mem_of_mem_tail (hmem s (by simp))
      have hloc : Fresh y (others s ++ localEntries file s) := by
        intro x hx
        rcases List.mem_append.1 hx with hx | hx
        · exact hfot s hsm x hx
        · exact hinside s (by simp) (inside_local hx).1 x (inside_local hx).2
      unfold scopeParts at h
      dsimp only at h
      split at h
      · next hk =>
        cases h
        refine along_scope it y _ _ _ hraw ?_ ?_ hloc
        · intro x hx
          split at hx
          · exact hfin s hsm x hx
          · cases hx
        · intro x hx
          exact hinside s (by simp) (by rw [hk]; decide) x (inside_raw hx)
      · cases h
        exact along_scope it y _ _ _ hraw (by simp [Fresh]) (by simp [Fresh]) hloc
  · intro l hl
    have := along_scope it y l [] [] (by simp) (hfout l hl) (by simp [Fresh]) (by simp [Fresh])
    simpa [uniqueByName] using this

/-- Where the item is not in scope, every name means what it meant. -/
theorem walk_away {inlines inlines' others others' : Elem → List Entry} {outside : List (List Entry)}
    (hin : Carries f t it y inlines inlines') (hot : Carries f t it y others others') {site : List Elem} (hsite : Chain t site)
    (allowed : Ns → Bool) (expected : Option (List Char))
    (hloc : ∀ s ∈ site.tail, s.kind ∈ localKinds → item ∉ s.descendants) (hnin : ∀ s ∈ site, it ∉ inlines s)
    (hnot : ∀ s ∈ site, it ∉ others s) (hnout : ∀ l ∈ outside, it ∉ l) :
    walkScopes file inlines' others' (outside.map (List.map (Entry.renamed it y))) allowed expected (site.map (Elem.relabel f t)) =
      walkScopes file inlines others outside allowed expected site := by
  have hid : ∀ l : List Entry, it ∉ l → l.map (Entry.renamed it y) = l := by
    intro l hl
    conv_rhs => rw [← List.map_id l]
    refine List.map_congr_left fun x hx => renamed_other it y ?_
    rintro rfl
    exact hl hx
  have := scopes_related (P := fun a b => b = a) hs hr hit hin hot hsite (outside := outside) (by
    intro l hl a raw b h
    obtain ⟨hc, hmem⟩ := scopesAt_chain hsite hl
    have hout : ∀ s ∈ l, s.kind ∈ localKinds → ¬ Inside file s it := by
      intro s hsl hk hi
      exact hloc s (hmem s hsl) hk (inside_item hit hr.tree (inTree_chain hc s hsl) hi)
    cases l with
    | nil => cases h; rfl
    | cons s anc =>
      have hsm := List.mem_of_mem_tail (hmem s (by simp))
      have h3 : it ∉ others s ++ localEntries file s := by
        intro hx
        rcases List.mem_append.1 hx with hx | hx
        · exact hnot s hsm hx
        · exact hout s (by simp) (inside_local hx).1 (inside_local hx).2
      unfold scopeParts at h
      dsimp only at h
      split at h
      · next hk =>
        cases h
        rw [hid _ h3, hid, hid]
        · intro hx
          exact hout s (by simp) (by rw [hk]; decide) (inside_raw hx)
        · intro hx
          split at hx
          · exact hnin s hsm hx
          · cases hx
      · cases h
        rw [hid _ h3]
        rfl) (fun l hl => hid l (hnout l hl))
  have heq : ∀ {a b : List (List Entry)}, List.Forall₂ (fun a b => b = a) a b → b = a := by
    intro a b h
    induction h with
    | nil => rfl
    | cons h _ ih => rw [h, ih]
  have h := heq this
  unfold scopesAround at h
  unfold walkScopes
  rw [h]

end

end

end Verif.Nameres
