import Verif.Syntax.Tree

/-! The tokens of a tree in order, with their ancestors, and the token at an offset. -/

namespace Verif.Syntax
open Verif.Parser (Green)

mutual
/-- The tokens below an element in the order of the text, each with its ancestors up to and including `anc`. -/
def tokens (anc : List Elem) (path : List Nat) (start : Nat) : Green → List (List Elem)
  | .tok k t => [⟨path, start, .tok k t⟩ :: anc]
  | .node k cs => tokenss (⟨path, start, .node k cs⟩ :: anc) path 0 start cs
def tokenss (anc : List Elem) (path : List Nat) (i start : Nat) : List Green → List (List Elem)
  | [] => []
  | g :: gs => tokens anc (i :: path) start g ++ tokenss anc path (i + 1) (start + g.len) gs
end

mutual
/-- `descendants()`: the nodes in preorder, the node itself first. -/
def descs (path : List Nat) (start : Nat) : Green → List Elem
  | .tok _ _ => []
  | .node k cs => ⟨path, start, .node k cs⟩ :: descss path 0 start cs
def descss (path : List Nat) (i start : Nat) : List Green → List Elem
  | [] => []
  | g :: gs => descs (i :: path) start g ++ descss path (i + 1) (start + g.len) gs
end

def Elem.descendants (e : Elem) : List Elem := descs e.path e.start e.green

/-- All tokens of a tree. -/
def allTokens (g : Green) : List (List Elem) := tokens [] [] 0 g

/-- The token of a chain; a chain is never empty. -/
def headStart (l : List Elem) : Nat := (l.head?.map Elem.start).getD 0
def headStop (l : List Elem) : Nat := (l.head?.map Elem.stop).getD 0

/-- Consecutive pieces of the text from `a` to `b`. -/
def Tiles (a b : Nat) : List (List Elem) → Prop
  | [] => a = b
  | l :: ls => headStart l = a ∧ Tiles (headStop l) b ls

theorem Tiles.append {a b c : Nat} {l m : List (List Elem)} (h1 : Tiles a b l) (h2 : Tiles b c m) : Tiles a c (l ++ m) := by
  induction l generalizing a with
  | nil => cases h1; exact h2
  | cons x l ih => exact ⟨h1.1, ih h1.2⟩

mutual
theorem tokens_tiles (anc : List Elem) (path : List Nat) (start : Nat) (g : Green) :
    Tiles start (start + g.len) (tokens anc path start g) := by
  cases g with
  | tok k t => rw [tokens]; exact ⟨rfl, rfl⟩
  | node k cs => rw [tokens, Green.len_node]; exact tokenss_tiles _ path 0 start cs
theorem tokenss_tiles (anc : List Elem) (path : List Nat) (i start : Nat) (gs : List Green) :
    Tiles start (start + (gs.map Green.len).sum) (tokenss anc path i start gs) := by
  cases gs with
  | nil => rw [tokenss]; rfl
  | cons g gs =>
    rw [tokenss, List.map_cons, List.sum_cons, ← Nat.add_assoc]
    exact (tokens_tiles anc (i :: path) start g).append (tokenss_tiles anc path (i + 1) (start + g.len) gs)
end

/-- What a list of chains of tokens consists of. -/
theorem mem_tokens (anc : List Elem) (e : Elem) (l : List Elem) : l ∈ tokens anc e.path e.start e.green ↔
    ∃ t m, l = t :: m ++ anc ∧ Up e (t :: m) ∧ t.green.isTok = true := by
  obtain ⟨path, start, g⟩ := e
  induction g using Green.induction generalizing anc path start with
  | h g ih =>
  cases g with
  | tok k t =>
    simp only [tokens, List.mem_singleton]
    constructor
    · rintro rfl; exact ⟨_, [], rfl, .top, rfl⟩
    · rintro ⟨x, m, rfl, hu, -⟩
      rcases hu.top_cases with h | ⟨c, hc, -⟩
      · cases h; rfl
      · cases hc
  | node k cs =>
    have key : ∀ (i s : Nat) (gs : List Green) (anc : List Elem), l ∈ tokenss anc path i s gs ↔
        ∃ c ∈ placed path i s gs, l ∈ tokens anc c.path c.start c.green := by
      intro i s gs anc
      induction gs generalizing i s with
      | nil => simp [tokenss, placed]
      | cons g gs ih => simp [tokenss, placed, ih]
    rw [tokens, key]
    constructor
    · rintro ⟨c, hc, h⟩
      have hc' : c ∈ (⟨path, start, .node k cs⟩ : Elem).children := hc
      obtain ⟨t, m, rfl, hu, ht⟩ := (ih c.green (Elem.mem_children hc').1 _ c.path c.start).1 h
      have hsn := hu.snoc hc'
      rw [List.cons_append] at hsn
      exact ⟨t, m ++ [⟨path, start, .node k cs⟩], by simp, hsn, ht⟩
    · rintro ⟨t, m, rfl, hu, ht⟩
      rcases hu.top_cases with h | ⟨c, hc, l', hu', heq⟩
      · cases h; cases ht
      · refine ⟨c, hc, (ih c.green (Elem.mem_children hc).1 _ c.path c.start).2 ?_⟩
        cases l' with
        | nil => cases hu'
        | cons y ys =>
          simp only [List.cons_append, List.cons.injEq] at heq
          obtain ⟨rfl, rfl⟩ := heq
          exact ⟨t, ys, by simp, hu', ht⟩

theorem mem_descendants (e x : Elem) : x ∈ e.descendants ↔ x.green.isTok = false ∧ ∃ m, Up e (x :: m) := by
  unfold Elem.descendants
  obtain ⟨path, start, g⟩ := e
  induction g using Green.induction generalizing path start with
  | h g ih =>
  cases g with
  | tok k t =>
    simp only [descs, List.not_mem_nil, false_iff]
    rintro ⟨h, m, hu⟩
    rcases hu.top_cases with h' | ⟨c, hc, -⟩
    · cases h'; cases h
    · cases hc
  | node k cs =>
    have key : ∀ (i s : Nat) (gs : List Green), x ∈ descss path i s gs ↔
        ∃ c ∈ placed path i s gs, x ∈ descs c.path c.start c.green := by
      intro i s gs
      induction gs generalizing i s with
      | nil => simp [descss, placed]
      | cons g gs ih => simp [descss, placed, ih]
    rw [descs, List.mem_cons, key]
    constructor
    · rintro (rfl | ⟨c, hc, h⟩)
      · exact ⟨rfl, [], .top⟩
      · have hc' : c ∈ (⟨path, start, .node k cs⟩ : Elem).children := hc
        obtain ⟨h1, m, hu⟩ := (ih c.green (Elem.mem_children hc').1 c.path c.start).1 h
        have hsn := hu.snoc hc'
        rw [List.cons_append] at hsn
        exact ⟨h1, _, hsn⟩
    · rintro ⟨h, m, hu⟩
      rcases hu.top_cases with h' | ⟨c, hc, l', hu', heq⟩
      · cases h'; exact .inl rfl
      · refine .inr ⟨c, hc, (ih c.green (Elem.mem_children hc).1 c.path c.start).2 ⟨h, ?_⟩⟩
        cases l' with
        | nil => cases hu'
        | cons y ys =>
          simp only [List.cons_append, List.cons.injEq] at heq
          obtain ⟨rfl, rfl⟩ := heq
          exact ⟨ys, hu'⟩

theorem mem_allTokens (g : Green) (l : List Elem) : l ∈ allTokens g ↔ ∃ t m, l = t :: m ∧ Chain g (t :: m) ∧ t.green.isTok = true := by
  have := mem_tokens [] (Elem.root g) l
  simp only [List.append_nil] at this
  exact this

theorem allTokens_tiles (g : Green) : Tiles 0 g.len (allTokens g) := by
  have := tokens_tiles [] [] 0 g
  rwa [Nat.zero_add] at this

/-- All tokens are non-empty; the lexer makes no others (C01). -/
def NoEmpty (g : Green) : Prop := ∀ l ∈ allTokens g, headStart l < headStop l

theorem Tiles.bounds {a b : Nat} {ls : List (List Elem)} (h : Tiles a b ls) (hne : ∀ l ∈ ls, headStart l < headStop l) :
    a ≤ b ∧ ∀ l ∈ ls, a ≤ headStart l ∧ headStop l ≤ b := by
  induction ls generalizing a with
  | nil => cases h; simp
  | cons x ls ih =>
    obtain ⟨h1, h2⟩ := h
    have hx := hne x (by simp)
    obtain ⟨h3, h4⟩ := ih h2 fun l hl => hne l (by simp [hl])
    refine ⟨by omega, ?_⟩
    intro l hl
    rcases List.mem_cons.1 hl with rfl | hl
    · omega
    · have := h4 l hl; omega

theorem Tiles.sorted {a b : Nat} {ls : List (List Elem)} (h : Tiles a b ls) (hne : ∀ l ∈ ls, headStart l < headStop l) :
    ls.Pairwise fun l m => headStop l ≤ headStart m := by
  induction ls generalizing a with
  | nil => exact .nil
  | cons x ls ih =>
    have hne' := fun l hl => hne l (List.mem_cons_of_mem x hl)
    exact .cons (fun l hl => ((h.2.bounds hne').2 l hl).1) (ih h.2 hne')

/-- Every position inside is covered. -/
theorem Tiles.cover {a b o : Nat} {ls : List (List Elem)} (h : Tiles a b ls) (h1 : a < o) (h2 : o ≤ b) :
    ∃ l ∈ ls, headStart l < o ∧ o ≤ headStop l := by
  induction ls generalizing a with
  | nil => cases h; omega
  | cons x ls ih =>
    by_cases hx : o ≤ headStop x
    · exact ⟨x, by simp, by have := h.1; omega, hx⟩
    · obtain ⟨l, hl, h3⟩ := ih h.2 (by omega)
      exact ⟨l, by simp [hl], h3⟩

theorem placed_index {path : List Nat} {i s : Nat} {gs : List Green} {e : Elem} (h : e ∈ placed path i s gs) :
    ∃ j, i ≤ j ∧ e.path = j :: path := by
  induction gs generalizing i s with
  | nil => cases h
  | cons g gs ih =>
    rcases List.mem_cons.1 h with rfl | h
    · exact ⟨i, Nat.le_refl _, rfl⟩
    · obtain ⟨j, h1, h2⟩ := ih h
      exact ⟨j, by omega, h2⟩

theorem placed_unique {path : List Nat} {i s : Nat} {gs : List Green} {a b : Elem} (ha : a ∈ placed path i s gs)
    (hb : b ∈ placed path i s gs) (h : a.path = b.path) : a = b := by
  induction gs generalizing i s with
  | nil => cases ha
  | cons g gs ih =>
    rcases List.mem_cons.1 ha with rfl | ha <;> rcases List.mem_cons.1 hb with rfl | hb
    · rfl
    · obtain ⟨j, h1, h2⟩ := placed_index hb
      rw [h2] at h
      have := (List.cons.inj h).1
      omega
    · obtain ⟨j, h1, h2⟩ := placed_index ha
      rw [h2] at h
      have := (List.cons.inj h).1
      omega
    · exact ih ha hb

/-- The path of an element determines it and its ancestors. -/
theorem chain_unique {g : Green} {a b : Elem} {l m : List Elem} (h1 : Chain g (a :: l)) (h2 : Chain g (b :: m))
    (h : a.path = b.path) : a :: l = b :: m := by
  generalize hx : a :: l = x at h1
  induction h1 generalizing a b l m with
  | top =>
    cases hx
    cases h2 with
    | top => rfl
    | child hp hc =>
      obtain ⟨j, -, h3⟩ := placed_index hc
      rw [h3] at h
      cases h
  | @child c p ps hp hc ih =>
    cases hx
    obtain ⟨j, -, h3⟩ := placed_index hc
    cases h2 with
    | top => rw [h3] at h; cases h
    | @child c' p' ps' hp' hc' =>
      obtain ⟨j', -, h3'⟩ := placed_index hc'
      have hpath : p.path = p'.path := by
        rw [h3, h3'] at h
        exact (List.cons.inj h).2
      have he := ih hp' hpath rfl
      cases he
      rw [placed_unique hc hc' h]

theorem chain_suffix {g : Green} {l m : List Elem} {e : Elem} (h : Chain g (l ++ e :: m)) : Chain g (e :: m) := by
  induction l with
  | nil => exact h
  | cons x l ih =>
    refine ih ?_
    cases l with
    | nil => cases h with | child h _ => exact h
    | cons y l => cases h with | child h _ => exact h

/-- The ancestors of a descendant. -/
theorem chain_descendant {g : Green} {p i : Elem} {l : List Elem} (hp : Chain g (p :: l)) (hi : i ∈ p.descendants) :
    ∃ mid, Chain g (i :: mid ++ l) ∧ (∀ m ∈ mid, m = p ∨ ∃ r, Chain g (m :: r) ∧ p ∈ r) ∧ (i :: mid).getLast? = some p := by
  obtain ⟨-, m, hm⟩ := (mem_descendants p i).1 hi
  generalize hx : i :: m = x at hm
  clear hi
  induction hm generalizing i m with
  | top => cases hx; exact ⟨[], hp, by simp, rfl⟩
  | @child c q qs hq hc ih =>
    cases hx
    obtain ⟨mid, h1, h2, h3⟩ := ih _ rfl
    refine ⟨q :: mid, .child h1 hc, ?_, by rw [List.getLast?_cons_cons]; exact h3⟩
    intro x hx
    rcases List.mem_cons.1 hx with rfl | hx
    · cases mid with
      | nil =>
        cases h3
        exact .inl rfl
      | cons y ys =>
        refine .inr ⟨_, h1, List.mem_append_left _ ?_⟩
        rw [List.getLast?_cons_cons] at h3
        exact List.mem_of_getLast? h3
    · exact h2 x hx

end Verif.Syntax
