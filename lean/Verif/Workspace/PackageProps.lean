import Verif.Workspace.Props

/-! C20, the part about packages: every file the server knows belongs to a package. -/

namespace Verif.Workspace
open Verif Documents

set_option linter.unusedSectionVars false

variable {Path Bytes : Type} [DecidableEq Path] [DecidableEq Bytes]

/-- Every existing file is in its package, or its creation is pending. -/
def Placed (P : Params Path Bytes) (s : Server Path Bytes) : Prop :=
  ∀ p b, s.vfs.state p = some b →
    s.db.package p = some (P.classify p) ∨ ∃ b', (p, VfsChange.create b') ∈ s.vfs.changes

theorem addChange_other {p q : Path} {c d : VfsChange Bytes} {l} (h : (q, d) ∈ l) (hq : q ≠ p) :
    (q, d) ∈ addChange p c l := by
  induction l with
  | nil => cases h
  | cons e l ih =>
    obtain ⟨r, e⟩ := e
    rw [addChange]
    rcases List.mem_cons.1 h with h | h
    · cases h; rw [if_neg hq]; exact List.mem_cons_self ..
    · split
      · exact List.mem_cons_of_mem _ h
      · exact List.mem_cons_of_mem _ (ih h)

theorem addChange_create (p : Path) (b : Bytes) (l : List (Path × VfsChange Bytes))
    (h : ∀ d ∈ l, d.2 ≠ .delete) : ∃ b', (p, VfsChange.create b') ∈ addChange p (.create b) l := by
  induction l with
  | nil => exact ⟨b, by simp [addChange]⟩
  | cons e l ih =>
    obtain ⟨r, e⟩ := e
    rw [addChange]
    split
    · next hr =>
      have := h (r, e) (by simp)
      subst hr
      cases e with
      | create c => exact ⟨b, by simp [mergeChange]⟩
      | modify c => exact ⟨b, by simp [mergeChange]⟩
      | delete => exact absurd rfl this
    · obtain ⟨b', hb⟩ := ih (fun d hd => h d (List.mem_cons_of_mem _ hd))
      exact ⟨b', List.mem_cons_of_mem _ hb⟩

theorem addChange_keep (p : Path) (b b0 : Bytes) (l : List (Path × VfsChange Bytes))
    (hn : (l.map (·.1)).Nodup) (h : (p, VfsChange.create b0) ∈ l) :
    ∃ b', (p, VfsChange.create b') ∈ addChange p (.modify b) l := by
  induction l with
  | nil => cases h
  | cons e l ih =>
    obtain ⟨r, e⟩ := e
    rw [List.map_cons, List.nodup_cons] at hn
    rw [addChange]
    rcases List.mem_cons.1 h with h | h
    · cases h; rw [if_pos rfl]; exact ⟨b, by simp [mergeChange]⟩
    · have hr : r ≠ p := fun he => hn.1 (List.mem_map.2 ⟨_, h, he.symm⟩)
      rw [if_neg hr]
      obtain ⟨b', hb⟩ := ih hn.2 h
      exact ⟨b', List.mem_cons_of_mem _ hb⟩

theorem Placed.set {P : Params Path Bytes} {s : Server Path Bytes} (hi : Inv P s) (hn : NoDelete s)
    (hp : Placed P s) (p : Path) (b : Bytes) (o : Map Path Doc) :
    Placed P { s with opened := o, vfs := s.vfs.setFileContents p (some b) } := by
  intro q c hq
  simp only at hq
  rw [setFileContents_state] at hq
  simp only [Vfs.setFileContents]
  by_cases e : q = p
  · subst e
    split
    · next h => cases h
    · next h => cases h; exact Or.inr (addChange_create _ _ _ hn)
    · next h => cases h
    · next a b' ha hb =>
      cases hb
      rcases hp q a ha with h | ⟨b0, h⟩
      · exact Or.inl h
      · split
        · exact Or.inr ⟨b0, h⟩
        · exact Or.inr (addChange_keep _ _ _ _ hi.nodup h)
  · rw [if_neg e] at hq
    rcases hp q c hq with h | ⟨b0, h⟩
    · exact Or.inl h
    · right
      split
      · exact ⟨b0, h⟩
      · exact ⟨b0, addChange_other h e⟩
      · exact ⟨b0, addChange_other h e⟩
      · split
        · exact ⟨b0, h⟩
        · exact ⟨b0, addChange_other h e⟩

theorem Placed.process {P : Params Path Bytes} {s s' : Server Path Bytes} (hp : Placed P s)
    (h : process P s = some s') :
    (∀ p b, s'.vfs.state p = some b → s'.db.package p = some (P.classify p)) ∧ Placed P s' := by
  suffices H : ∀ p b, s'.vfs.state p = some b → s'.db.package p = some (P.classify p) from
    ⟨H, fun p b hb => Or.inl (H p b hb)⟩
  unfold Workspace.process at h
  split at h
  · next he =>
    cases h
    intro p b hb
    rcases hp p b hb with h | ⟨b0, h⟩
    · exact h
    · have : s.vfs.changes = [] := by simpa using he
      rw [this] at h; cases h
  · obtain ⟨db, hdb, rfl⟩ := Option.map_eq_some_iff.1 h
    intro p b hb
    simp only at hb ⊢
    rw [(C20_exactly_named_files _ _ _ _ hdb).2]
    split
    · simp [partition, hb]
    · next hs =>
      rcases hp p b hb with h | ⟨b0, h⟩
      · exact h
      · exact absurd (List.any_eq_true.2 ⟨_, h, rfl⟩) hs

/-- **C20 (packages), partial.** After every history in which no file vanishes from disk and which ends by
handing over the pending changes, every file the server knows is in the package it is classified into.
Missing: files that vanish, see `C20_recreated_file_fails`. -/
theorem C20_every_file_in_package_partial (P : Params Path Bytes) (es : List (Event Path Bytes))
    (hd : ∀ p ch, Event.disk p none ch ∉ es) (s : Server Path Bytes) (h : run P init es = some s)
    (s' : Server Path Bytes) (h' : process P s = some s') (p : Path) (b : Bytes)
    (hb : s'.vfs.state p = some b) : s'.db.package p = some (P.classify p) := by
  suffices H : ∀ s0 : Server Path Bytes, Inv P s0 → NoDelete s0 → Placed P s0 →
      Workspace.run P s0 es = some s → Placed P s from
    ((H _ (Inv.init P) (by simp [NoDelete, init]) (by intro p b hb; cases hb) h).process h').1 p b hb
  clear h h' hb
  induction es with
  | nil => intro s0 _ _ hp h; cases h; exact hp
  | cons e es ih =>
    intro s0 hi hn hp h
    obtain ⟨s1, h1, h2⟩ := Option.bind_eq_some_iff.1 h
    have hd' : ∀ p ch, Event.disk p none ch ∉ es := fun p ch h => hd p ch (List.mem_cons_of_mem _ h)
    suffices NoDelete s1 ∧ Placed P s1 from ih hd' s1 (hi.step h1) this.1 this.2 h2
    cases e with
    | didOpen p v t => cases h1; exact ⟨hn.set _ _ _, hp.set hi hn _ _ _⟩
    | didChange p v cs =>
      simp only [Workspace.step, didChange] at h1
      split at h1
      · cases h1; exact ⟨hn, hp⟩
      · obtain ⟨new, _, rfl⟩ := Option.map_eq_some_iff.1 h1
        split
        · exact ⟨hn, hp⟩
        · exact ⟨hn.set _ _ _, hp.set hi hn _ _ _⟩
    | didClose p => cases h1; exact ⟨hn, hp⟩
    | disk p c ch =>
      cases h1
      cases c with
      | none => exact absurd (List.mem_cons_self ..) (hd p ch)
      | some b =>
        unfold loadFile
        split
        · exact ⟨hn.set p b s0.opened, hp.set hi hn p b s0.opened⟩
        · exact ⟨hn, hp⟩
    | process =>
      obtain ⟨-, -, -, hc⟩ := hi.process h1
      exact ⟨(by intro c hm; rw [hc] at hm; cases hm), (hp.process h1).2⟩

/-- **C20 fails for a file that is created, deleted and created again before the changes are handed over.**
The pending change becomes a modification, so the roots are not renewed and the file is in the database
without a package; asking for its package panics (inputs.rs 162-167). -/
theorem C20_recreated_file_fails :
    ∃ s, run exParams init [.disk 1 (some ['x']) true, .disk 1 none true, .disk 1 (some ['y']) true, .process] =
      some s ∧ s.db.text 1 = some ['y'] ∧ s.db.package 1 = none := ⟨_, rfl, rfl, rfl⟩

example : ∃ s s', run exParams init [.disk 1 (some ['x']) true, .didOpen 2 1 ['y'], .disk 1 (some ['z']) true] =
    some s ∧ process exParams s = some s' ∧ s'.vfs.state 2 = some ['y'] ∧ s'.db.package 2 = some 0 :=
  ⟨_, _, rfl, rfl, rfl, rfl⟩

end Verif.Workspace
