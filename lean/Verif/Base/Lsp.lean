/-! Positions and ranges of the language server protocol (`lsp_types::Position`, `lsp_types::Range`). -/

namespace Verif

/-- `lsp_types::Position`: zero-based line and column, the column in units of the negotiated encoding. -/
structure Pos where
  line : Nat
  character : Nat
deriving DecidableEq, Repr

/-- `lsp_types::Range`. -/
structure Range where
  start : Pos
  stop : Pos
deriving DecidableEq, Repr

/-- The derived order of `lsp_types::Position`: by line, then by column. -/
def Pos.le (a b : Pos) : Prop := a.line < b.line ∨ (a.line = b.line ∧ a.character ≤ b.character)

instance (a b : Pos) : Decidable (a.le b) := by unfold Pos.le; infer_instance

theorem Pos.le_refl (a : Pos) : a.le a := Or.inr ⟨rfl, Nat.le_refl _⟩

theorem Pos.le_trans {a b c : Pos} (h1 : a.le b) (h2 : b.le c) : a.le c := by
  unfold Pos.le at *; omega

theorem Pos.le_total (a b : Pos) : a.le b ∨ b.le a := by unfold Pos.le; omega

theorem Pos.le_antisymm {a b : Pos} (h1 : a.le b) (h2 : b.le a) : a = b := by
  obtain ⟨al, ac⟩ := a
  obtain ⟨bl, bc⟩ := b
  unfold Pos.le at *
  simp only [Pos.mk.injEq] at *
  omega

end Verif
