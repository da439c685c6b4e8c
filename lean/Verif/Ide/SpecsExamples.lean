import Verif.Ide.Specs

/-! C86: examples. -/

namespace Verif.Ide.Specs
open Verif Verif.Syntax Verif.Nameres
open Verif.Nameres.Full (Is isNode_iff mem_itemsOfKind)
open Verif.Nameres.AutoImport (Declared mem_allModules)
open Verif.Ide.Usages (Parsed parseOf parseOf_parsed)

def exText : List Char := "module 0x1::m{fun g(){} fun f(){}spec f{}}".toList

def exSpec : List Char := "spec 0x1::m{spec g{} spec f{}}".toList

/-- The file 0 declares the module, and every other file specifies it. -/
def exWorld : World where
  tree := fun b => if b = 0 then (parseOf exText).1 else (parseOf exSpec).1
  related := fun _ => [1]
  target := fun b _ => if b = 0 then none else some (0, [0])

theorem ex_parsed (b : Nat) : Parsed (exWorld.tree b) := by
  by_cases h : b = 0
  · simp only [exWorld, h, if_true]; exact parseOf_parsed (by decide +kernel) (by decide +kernel)
  · simp only [exWorld, h, if_false]; exact parseOf_parsed (by decide +kernel) (by decide +kernel)

theorem ex_meets (P : Elem → Elem → Bool) (h : (allModules (Elem.root (exWorld.tree 0))).any (fun c => match c with
    | [] => false
    | m :: _ => (itemsOfKind m .FUN).any fun f => P m f) = true) :
    ∃ m anc f, Declared (exWorld.tree 0) m anc ∧ f ∈ m.children ∧ Is .FUN f ∧ P m f = true := by
  obtain ⟨c, h1, h2⟩ := List.any_eq_true.1 h
  split at h2
  · cases h2
  · rename_i m anc
    obtain ⟨f, h3, h4⟩ := List.any_eq_true.1 h2
    obtain ⟨h5, h6⟩ := (mem_itemsOfKind _ _ _).1 h3
    exact ⟨m, anc, f, (mem_allModules _ _ _).1 h1, h5, h6, h4⟩

/-- `f` is specified twice, in its module and in another file. -/
example : Parsed (exWorld.tree 0) ∧ ∃ m anc f, Declared (exWorld.tree 0) m anc ∧ f ∈ m.children ∧ Is .FUN f ∧
    decide ((specsFor exWorld 0 f).map Locs.Loc.file = [0, 1]) = true :=
  ⟨ex_parsed 0, ex_meets (fun _ f => decide ((specsFor exWorld 0 f).map Locs.Loc.file = [0, 1])) (by decide +kernel)⟩

/-- Both functions have lenses, in the order of the text. -/
example : Parsed (exWorld.tree 0) ∧ lenses exWorld .aboveName 0 = [((18, 19), 18), ((28, 29), 28)] ∧
    lenses exWorld .aboveItem 0 = [((14, 23), 18), ((24, 33), 28)] := ⟨ex_parsed 0, by decide +kernel, by decide +kernel⟩

/-- The hypotheses of `C86_goto` hold of `f`, and it leads to both specifications. -/
example : (∀ b, Parsed (exWorld.tree b)) ∧ ∃ m anc f, Declared (exWorld.tree 0) m anc ∧ f ∈ m.children ∧ Is .FUN f ∧
    (∀ b o s, SpecOf exWorld 0 m f b o s → ∃ t ∈ s.children, t.green.isTok = true) ∧
    goto exWorld 0 f = some [(0, "f".toList, (38, 39)), (1, "f".toList, (26, 27))] := by
  refine ⟨ex_parsed, ?_⟩
  obtain ⟨m, anc, f, h1, h2, h3, h4⟩ := ex_meets (fun m f =>
    ((specsNear exWorld 0 m).all fun x => x.2.2.children.any fun t => t.green.isTok) &&
      decide (goto exWorld 0 f = some [(0, "f".toList, (38, 39)), (1, "f".toList, (26, 27))])) (by decide +kernel)
  rw [Bool.and_eq_true, decide_eq_true_eq, List.all_eq_true] at h4
  refine ⟨m, anc, f, h1, h2, h3, fun b o s h => ?_, h4.2⟩
  have := h4.1 (b, o, s) ((mem_specsNear _ _ _ _ _ _).2 h.1)
  simpa using this

/-- The hypotheses of `C86_once` hold of the files. -/
example : (∀ b, Parsed (exWorld.tree b)) ∧ ∀ m anc f b o s, Declared (exWorld.tree 0) m anc → SpecOf exWorld 0 m f b o s →
    ∃ t ∈ s.children, t.green.isTok = true := by
  refine ⟨ex_parsed, fun m anc f b o s hd h => ?_⟩
  have h1 : (allModules (Elem.root (exWorld.tree 0))).all (fun c => match c with
      | [] => true
      | m :: _ => (specsNear exWorld 0 m).all fun x => x.2.2.children.any fun t => t.green.isTok) = true := by decide +kernel
  have h2 := List.all_eq_true.1 h1 _ ((mem_allModules _ _ _).2 hd)
  dsimp only at h2
  have := List.all_eq_true.1 h2 (b, o, s) ((mem_specsNear _ _ _ _ _ _).2 h.1)
  simpa using this

end Verif.Ide.Specs
