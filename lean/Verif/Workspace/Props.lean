import Verif.Workspace.Spec
import Verif.Documents.Props

/-! Property theorems about the path from notifications to the database: C11, C20. -/

set_option linter.unusedSectionVars false

namespace Verif.Workspace
open Verif Documents Spec

variable {Path Bytes : Type} [DecidableEq Path] [DecidableEq Bytes]

/-! ### Applying a batch -/

theorem lastText_cons (p : Path) (f : Path × Option (List Char)) (fs) :
    lastText p (f :: fs) = (lastText p fs).or (if f.1 = p then some (f.2.getD []) else none) := by
  unfold lastText
  rw [List.filter_cons]
  by_cases h : f.1 = p
  · simp only [h, decide_true, if_true]
    cases hl : List.filter (fun f => decide (f.1 = p)) fs with
    | nil => simp
    | cons g gs =>
      rw [List.getLast?_cons_cons]
      cases hx : (g :: gs).getLast? with
      | none => simp at hx
      | some x => simp
  · simp [h]

/-- **C20 (texts).** When a batch is applied, with or without new package roots, the text of every file is
the last one given in the batch (empty for a deletion), or the old one if the batch does not name it; the
packages are those of the new roots, or the old ones. -/
theorem C20_exactly_named_files (db db' : Db Path) (roots : Option (Map Path Nat))
    (files : List (Path × Option (List Char))) (h : applyChanges db roots files = some db') :
    (∀ p, db'.text p = (lastText p files).or (db.text p)) ∧ db'.package = roots.getD db.package := by
  cases roots with
  | none =>
    simp only [applyChanges, Option.some.injEq] at h
    subst h
    induction files generalizing db with
    | nil => exact ⟨fun p => by simp [lastText], rfl⟩
    | cons f fs ih =>
      rw [List.foldl_cons]
      obtain ⟨h1, h2⟩ := ih { db with text := db.text.insert f.1 (f.2.getD []) }
      refine ⟨fun p => ?_, h2⟩
      rw [h1, lastText_cons]
      simp only [Map.insert]
      cases lastText p fs with
      | some x => rfl
      | none =>
        simp only [Option.none_or]
        by_cases hp : f.1 = p
        · simp [hp]
        · rw [if_neg (fun h => hp h.symm), if_neg hp]; rfl
  | some r =>
    simp only [applyChanges, Option.getD_some] at h ⊢
    suffices H : ∀ db1 : Db Path, db1.package = r → files.foldlM (fun (db : Db Path) f =>
        match r f.1 with
        | some _ => some { db with text := db.text.insert f.1 (f.2.getD []) }
        | none => none) db1 = some db' →
        (∀ p, db'.text p = (lastText p files).or (db1.text p)) ∧ db'.package = r from
      H { db with package := r } rfl h
    clear h
    intro db1 hr h
    induction files generalizing db1 with
    | nil =>
      simp only [List.foldlM_nil, Option.pure_def, Option.some.injEq] at h
      subst h
      exact ⟨fun p => by simp [lastText], hr⟩
    | cons f fs ih =>
      rw [List.foldlM_cons] at h
      cases hf : r f.1 with
      | none => simp [hf] at h
      | some x =>
        simp only [hf, Option.bind_eq_bind, Option.bind_some] at h
        obtain ⟨h1, h2⟩ := ih _ (by exact hr) h
        refine ⟨fun p => ?_, h2⟩
        rw [h1, lastText_cons]
        simp only [Map.insert]
        cases lastText p fs with
        | some x => rfl
        | none =>
          simp only [Option.none_or]
          by_cases hp : f.1 = p
          · simp [hp]
          · rw [if_neg (fun h => hp h.symm), if_neg hp]; rfl

/-- **C20 (when it panics).** Applying a batch panics exactly if it replaces the package roots and names a
file which is in none of the new ones. -/
theorem C20_panics_iff (db : Db Path) (roots : Option (Map Path Nat))
    (files : List (Path × Option (List Char))) :
    applyChanges db roots files = none ↔ ∃ r, roots = some r ∧ ∃ f ∈ files, r f.1 = none := by
  cases roots with
  | none => simp [applyChanges]
  | some r =>
    simp only [applyChanges, Option.some.injEq, exists_eq_left']
    suffices H : ∀ db1 : Db Path, files.foldlM (fun (db : Db Path) f =>
        match r f.1 with
        | some _ => some { db with text := db.text.insert f.1 (f.2.getD []) }
        | none => none) db1 = none ↔ ∃ f ∈ files, r f.1 = none from H _
    intro db1
    induction files generalizing db1 with
    | nil => simp
    | cons f fs ih =>
      rw [List.foldlM_cons]
      cases hf : r f.1 with
      | none => simp [hf]
      | some x =>
        simp only [Option.bind_eq_bind, Option.bind_some, List.mem_cons, exists_eq_or_imp, hf,
          reduceCtorEq, false_or]
        exact ih _

/-! ### The invariant linking pending changes, vfs and database -/

/-- Text the database should hold for a file with the given state. -/
def textOf (P : Params Path Bytes) (b : Option Bytes) : List Char :=
  ((b.bind P.utf8.dec).map P.normalize).getD []

/-- Content of a file after a pending change. -/
def VfsChange.content : VfsChange Bytes → Option Bytes
  | .create b => some b
  | .modify b => some b
  | .delete => none

theorem content_none {c : VfsChange Bytes} (h : c.content = none) : c = .delete := by
  cases c <;> simp_all [VfsChange.content]

theorem merge_content (c d : VfsChange Bytes) : (mergeChange c d).content = d.content := by
  cases c <;> cases d <;> rfl

/-- The invariant. -/
structure Inv (P : Params Path Bytes) (s : Server Path Bytes) : Prop where
  /-- at most one pending change per file -/
  nodup : (s.vfs.changes.map (·.1)).Nodup
  /-- a pending change leads to the current state -/
  pending : ∀ c ∈ s.vfs.changes, s.vfs.state c.1 = c.2.content
  /-- without pending change the database is up to date -/
  settled : ∀ p, p ∉ s.vfs.changes.map (·.1) →
    (s.vfs.state p = none ∧ s.db.text p = none) ∨ s.db.text p = some (textOf P (s.vfs.state p))

theorem addChange_keys (p : Path) (c : VfsChange Bytes) (l) (q : Path) :
    q ∈ (addChange p c l).map (·.1) ↔ q = p ∨ q ∈ l.map (·.1) := by
  induction l with
  | nil => simp [addChange]
  | cons d l ih =>
    obtain ⟨r, d⟩ := d
    rw [addChange]
    split
    · next h => subst h; simp
    · rw [List.map_cons, List.mem_cons, ih]; simp only [List.map_cons, List.mem_cons]; tauto

theorem addChange_nodup (p : Path) (c : VfsChange Bytes) (l) (h : (l.map (·.1)).Nodup) :
    ((addChange p c l).map (·.1)).Nodup := by
  induction l with
  | nil => simp [addChange]
  | cons d l ih =>
    obtain ⟨r, d⟩ := d
    rw [List.map_cons, List.nodup_cons] at h
    rw [addChange]
    split
    · rw [List.map_cons, List.nodup_cons]; exact h
    · next hr =>
      rw [List.map_cons, List.nodup_cons]
      refine ⟨fun hm => ?_, ih h.2⟩
      rcases (addChange_keys p c l r).1 hm with h' | h'
      · exact hr h'
      · exact h.1 h'

theorem addChange_mem (p : Path) (c : VfsChange Bytes) (l) (h : (l.map (·.1)).Nodup)
    (d : Path × VfsChange Bytes) (hd : d ∈ addChange p c l) :
    (d.1 = p ∧ d.2.content = c.content) ∨ (d.1 ≠ p ∧ d ∈ l) := by
  induction l with
  | nil =>
    simp only [addChange, List.mem_singleton] at hd
    subst hd; exact Or.inl ⟨rfl, rfl⟩
  | cons e l ih =>
    obtain ⟨r, e⟩ := e
    rw [List.map_cons, List.nodup_cons] at h
    rw [addChange] at hd
    split at hd
    · next hr =>
      rcases List.mem_cons.1 hd with hd | hd
      · subst hd; exact Or.inl ⟨hr, merge_content _ _⟩
      · refine Or.inr ⟨fun hp => ?_, List.mem_cons_of_mem _ hd⟩
        apply h.1
        simp only at hr ⊢
        rw [hr, ← hp]
        exact List.mem_map_of_mem hd
    · next hr =>
      rcases List.mem_cons.1 hd with hd | hd
      · subst hd; exact Or.inr ⟨hr, List.mem_cons_self ..⟩
      · rcases ih h.2 hd with h' | h'
        · exact Or.inl h'
        · exact Or.inr ⟨h'.1, List.mem_cons_of_mem _ h'.2⟩

theorem setFileContents_state (v : Vfs Path Bytes) (p : Path) (c : Option Bytes) (q : Path) :
    (v.setFileContents p c).state q = if q = p then c else v.state q := by
  unfold Vfs.setFileContents
  split
  · next h => split <;> simp_all
  · simp [Map.insert]
  · simp [Map.remove]
  · next a b ha =>
    split
    · next hab => subst hab; split <;> simp_all
    · simp [Map.insert]

theorem Inv.setFileContents {P : Params Path Bytes} {s : Server Path Bytes} (hi : Inv P s) (p : Path)
    (c : Option Bytes) (o : Map Path Doc) :
    Inv P { s with opened := o, vfs := s.vfs.setFileContents p c } := by
  have key : ∀ (st : Map Path Bytes) (ch : VfsChange Bytes),
      (∀ q, st q = if q = p then ch.content else s.vfs.state q) →
      Inv P { s with opened := o, vfs := ⟨st, addChange p ch s.vfs.changes⟩ } := by
    intro st ch hst
    refine ⟨addChange_nodup _ _ _ hi.nodup, ?_, ?_⟩
    · intro d hd
      simp only at hd ⊢
      rw [hst]
      rcases addChange_mem p ch _ hi.nodup d hd with h | h
      · rw [if_pos h.1, h.2]
      · rw [if_neg h.1]; exact hi.pending d h.2
    · intro q hq
      simp only at hq ⊢
      rw [addChange_keys, not_or] at hq
      rw [hst, if_neg hq.1]
      exact hi.settled q hq.2
  have same : Inv P { s with opened := o, vfs := s.vfs } := ⟨hi.nodup, hi.pending, hi.settled⟩
  unfold Vfs.setFileContents
  split
  · exact same
  · exact key _ _ (fun q => by simp [Map.insert, VfsChange.content])
  · exact key _ _ (fun q => by simp [Map.remove, VfsChange.content])
  · split
    · exact same
    · exact key _ _ (fun q => by simp [Map.insert, VfsChange.content])

theorem lastText_of_mem (f : Path × Option (List Char)) (files : List (Path × Option (List Char)))
    (hn : (files.map (·.1)).Nodup) (hf : f ∈ files) : lastText f.1 files = some (f.2.getD []) := by
  induction files with
  | nil => simp at hf
  | cons g fs ih =>
    rw [List.map_cons, List.nodup_cons] at hn
    rw [lastText_cons]
    rcases List.mem_cons.1 hf with h | h
    · subst h
      have : lastText f.1 fs = none := by
        simp only [lastText, Option.map_eq_none_iff, List.getLast?_eq_none_iff, List.filter_eq_nil_iff,
          decide_eq_true_eq]
        intro x hx h
        exact hn.1 (h ▸ List.mem_map_of_mem hx)
      simp [this]
    · rw [ih hn.2 h]; rfl

theorem lastText_of_not_mem (p : Path) (files : List (Path × Option (List Char)))
    (h : p ∉ files.map (·.1)) : lastText p files = none := by
  simp only [lastText, Option.map_eq_none_iff, List.getLast?_eq_none_iff, List.filter_eq_nil_iff,
    decide_eq_true_eq]
  intro x hx he
  exact h (he ▸ List.mem_map_of_mem hx)

theorem changeText_eq (P : Params Path Bytes) (c : VfsChange Bytes) :
    (changeText P c).getD [] = textOf P c.content := by
  cases c <;> simp [changeText, textOf, VfsChange.content]

/-- After processing, no changes are pending and the rest of the state is as before. -/
theorem Inv.process {P : Params Path Bytes} {s s' : Server Path Bytes} (hi : Inv P s)
    (h : process P s = some s') :
    Inv P s' ∧ s'.opened = s.opened ∧ s'.vfs.state = s.vfs.state ∧ s'.vfs.changes = [] := by
  unfold Workspace.process at h
  split at h
  · next he =>
    cases h
    exact ⟨hi, rfl, rfl, by simpa using he⟩
  · obtain ⟨db, hdb, rfl⟩ := Option.map_eq_some_iff.1 h
    refine ⟨⟨by simp, by simp, ?_⟩, rfl, rfl, rfl⟩
    intro p _
    have ht := (C20_exactly_named_files _ _ _ _ hdb).1 p
    simp only
    rw [ht]
    by_cases hp : p ∈ s.vfs.changes.map (·.1)
    · obtain ⟨c, hc, rfl⟩ := List.mem_map.1 hp
      right
      rw [lastText_of_mem (c.1, changeText P c.2)]
      · rw [changeText_eq, hi.pending c hc]; rfl
      · simpa [List.map_map, Function.comp_def] using hi.nodup
      · exact List.mem_map.2 ⟨c, hc, rfl⟩
    · rw [lastText_of_not_mem]
      · exact hi.settled p hp
      · simpa [List.map_map, Function.comp_def] using hp

/-- **C20 (in the server).** In every reachable state, handing the pending changes to the database panics
exactly if one of them is a deletion. -/
theorem C20_process_panics_iff {P : Params Path Bytes} {s : Server Path Bytes} (hi : Inv P s) :
    process P s = none ↔ ∃ c ∈ s.vfs.changes, s.vfs.state c.1 = none := by
  unfold process
  split
  · next he =>
    have : s.vfs.changes = [] := by simpa using he
    simp [this]
  · simp only [Option.map_eq_none_iff]
    rw [C20_panics_iff]
    constructor
    · rintro ⟨r, hr, f, hf, hn⟩
      split at hr
      · cases hr
        obtain ⟨c, hc, rfl⟩ := List.mem_map.1 hf
        exact ⟨c, hc, by simpa [partition] using hn⟩
      · simp at hr
    · rintro ⟨c, hc, hn⟩
      have hd : c.2 = .delete := by
        have := hi.pending c hc
        rw [hn] at this
        exact content_none this.symm
      have ha : s.vfs.changes.any (isStructural P) = true := by
        rw [List.any_eq_true]
        exact ⟨c, hc, by obtain ⟨p, d⟩ := c; simp only at hd; rw [hd]; rfl⟩
      rw [if_pos ha]
      exact ⟨_, rfl, (c.1, changeText P c.2), List.mem_map.2 ⟨c, hc, rfl⟩, by simp [partition, hn]⟩

theorem Inv.step {P : Params Path Bytes} {s s' : Server Path Bytes} {e : Event Path Bytes} (hi : Inv P s)
    (h : step P s e = some s') : Inv P s' := by
  cases e with
  | didOpen p v t =>
    simp only [Workspace.step, Option.some.injEq] at h
    subst h
    exact hi.setFileContents _ _ _
  | didChange p v cs =>
    simp only [Workspace.step, didChange] at h
    split at h
    · cases h; exact hi
    · obtain ⟨new, _, rfl⟩ := Option.map_eq_some_iff.1 h
      split
      · exact ⟨hi.nodup, hi.pending, hi.settled⟩
      · exact hi.setFileContents _ _ _
  | didClose p =>
    simp only [Workspace.step, Option.some.injEq] at h
    subst h
    exact ⟨hi.nodup, hi.pending, hi.settled⟩
  | disk p c ch =>
    simp only [Workspace.step, Option.some.injEq] at h
    subst h
    unfold loadFile
    split
    · exact hi.setFileContents p c s.opened
    · exact hi
  | process => exact (hi.process h).1

theorem Inv.init (P : Params Path Bytes) : Inv P (init : Server Path Bytes) :=
  ⟨by simp [Workspace.init], by simp [Workspace.init], fun p _ => Or.inl ⟨rfl, rfl⟩⟩

theorem Inv.run {P : Params Path Bytes} {es : List (Event Path Bytes)} {s s' : Server Path Bytes}
    (hi : Inv P s) (h : run P s es = some s') : Inv P s' := by
  induction es generalizing s with
  | nil => simp only [Workspace.run, Option.some.injEq] at h; exact h ▸ hi
  | cons e es ih =>
    obtain ⟨s1, h1, h2⟩ := Option.bind_eq_some_iff.1 h
    exact ih (hi.step h1) h2

/-- **C20 (database up to date).** After every history without a panic that ends by handing over the
pending changes, the database holds, for every file that exists, its (normalised) content; for every other
file nothing or the empty text. -/
theorem C20_database_up_to_date (P : Params Path Bytes) (es : List (Event Path Bytes))
    (s : Server Path Bytes) (h : run P init (es ++ [.process]) = some s) :
    (∀ p b, s.vfs.state p = some b → s.db.text p = some (((P.utf8.dec b).map P.normalize).getD [])) ∧
    (∀ p, s.vfs.state p = none → s.db.text p = none ∨ s.db.text p = some []) := by
  have hsplit : ∀ (es : List (Event Path Bytes)) (s0 : Server Path Bytes), Workspace.run P s0 (es ++ [.process]) =
      (Workspace.run P s0 es).bind (process P) := by
    intro es
    induction es with
    | nil =>
      intro s0
      simp only [List.nil_append, Workspace.run, Workspace.step, Option.bind_some]
      cases process P s0 <;> rfl
    | cons e es ih =>
      intro s0
      simp only [List.cons_append, Workspace.run]
      cases Workspace.step P s0 e with
      | none => rfl
      | some s1 => simpa using ih s1
  rw [hsplit] at h
  obtain ⟨s1, h1, h2⟩ := Option.bind_eq_some_iff.1 h
  obtain ⟨hi, -, -, hc⟩ := ((Inv.init P).run h1).process h2
  constructor
  · intro p b hb
    rcases hi.settled p (by simp [hc]) with h | h
    · rw [hb] at h; simp at h
    · rw [h, hb]; simp [textOf]
  · intro p hp
    rcases hi.settled p (by simp [hc]) with h | h
    · exact Or.inl h.2
    · rw [hp] at h; exact Or.inr (by simpa [textOf] using h)

/-- A coding in which files are texts, for examples. -/
def exParams : Params Nat (List Char) :=
  ⟨⟨id, some, fun _ => rfl⟩, .utf16, id, fun _ => false, fun _ => 0⟩

/-- **C20 fails for deletions.** A file is loaded from disk, the changes are handed over, then the file is
deleted on disk: handing over the deletion panics. -/
theorem C20_deletion_fails :
    ∃ s, run exParams init [.disk 1 (some ['x']) false, .process] = some s ∧
      s.db.text 1 = some ['x'] ∧
      run exParams init [.disk 1 (some ['x']) false, .process, .disk 1 none true, .process] = none := by
  refine ⟨_, rfl, rfl, rfl⟩

/-- **C20 fails when an unsaved document is closed.** A document that does not exist on disk is opened,
handed over, closed, and reread from disk, where it is absent: the server panics. -/
theorem C20_close_unsaved_fails :
    run exParams init [.didOpen 1 1 ['x'], .process, .didClose 1, .disk 1 none true, .process] = none := rfl

/-! ### C11 -/

/-- The relation between editor and server. -/
structure Mirror (P : Params Path Bytes) (E : Editor Path) (s : Server Path Bytes) : Prop where
  docs : ∀ p, s.opened p = (E p).map fun d => ⟨d.1, d.2⟩
  content : ∀ p d, E p = some d → s.vfs.state p = some (P.utf8.enc d.2)

theorem Mirror.step {P : Params Path Bytes} {E E' : Editor Path} {s s' : Server Path Bytes}
    {e : Event Path Bytes} (hi : Inv P s) (hm : Mirror P E s) (he : EditorStep P.encoding E e E')
    (h : Workspace.step P s e = some s') : Mirror P E' s' := by
  cases he with
  | didOpen p v t =>
    simp only [Workspace.step, Option.some.injEq] at h
    subst h
    refine ⟨fun q => ?_, fun q d hd => ?_⟩
    · simp only [didOpen, Map.insert]; split
      · rfl
      · exact hm.docs q
    · simp only [didOpen]
      rw [setFileContents_state]
      split at hd
      · next hq => cases hd; simp [hq]
      · next hq => simp only [hq, if_false]; exact hm.content q d hd
  | didChange p v v' t cs t' hp ha =>
    simp only [Workspace.step, didChange] at h
    have ho := hm.docs p
    rw [hp] at ho
    simp only [Option.map_some] at ho
    rw [ho] at h
    simp only [C07_changes_applied P.encoding t t' cs ha, Option.map_some, Option.some.injEq] at h
    have hc := hm.content p _ hp
    simp only at hc
    split at h
    · next heq =>
      subst h heq
      refine ⟨fun q => ?_, fun q d hd => ?_⟩
      · simp only [Map.insert]; split
        · rfl
        · exact hm.docs q
      · simp only at hd ⊢
        split at hd
        · next hq => cases hd; rw [hq]; exact hc
        · exact hm.content q d hd
    · subst h
      refine ⟨fun q => ?_, fun q d hd => ?_⟩
      · simp only [Map.insert]; split
        · rfl
        · exact hm.docs q
      · simp only
        rw [setFileContents_state]
        split at hd
        · next hq => cases hd; simp [hq]
        · next hq => simp only [hq, if_false]; exact hm.content q d hd
  | notOpen p v cs hp =>
    simp only [Workspace.step, didChange] at h
    have ho := hm.docs p
    rw [hp] at ho
    simp only [Option.map_none] at ho
    rw [ho] at h
    cases h
    exact hm
  | didClose p =>
    simp only [Workspace.step, Option.some.injEq] at h
    subst h
    refine ⟨fun q => ?_, fun q d hd => ?_⟩
    · simp only [didClose, Map.remove]; split
      · rfl
      · exact hm.docs q
    · simp only [didClose]
      split at hd
      · cases hd
      · exact hm.content q d hd
  | disk p c ch =>
    simp only [Workspace.step, Option.some.injEq] at h
    subst h
    unfold loadFile
    split
    · next hcond =>
      refine ⟨hm.docs, fun q d hd => ?_⟩
      simp only
      rw [setFileContents_state]
      split
      · next hq =>
        subst hq
        have := hm.docs q
        rw [hd] at this
        simp [this] at hcond
      · exact hm.content q d hd
    · exact hm
  | process =>
    obtain ⟨-, h1, h2, -⟩ := hi.process h
    exact ⟨fun q => by rw [h1]; exact hm.docs q, fun q d hd => by rw [h2]; exact hm.content q d hd⟩

theorem Mirror.run {P : Params Path Bytes} {E E' : Editor Path} {s s' : Server Path Bytes}
    {es : List (Event Path Bytes)} (hi : Inv P s) (hm : Mirror P E s) (he : Replay P.encoding E es E')
    (h : Workspace.run P s es = some s') : Mirror P E' s' := by
  induction he generalizing s with
  | nil E => simp only [Workspace.run, Option.some.injEq] at h; exact h ▸ hm
  | cons E e E1 es E' h1 _ ih =>
    obtain ⟨s1, h2, h3⟩ := Option.bind_eq_some_iff.1 h
    exact ih (hi.step h2) (hm.step hi h1 h2) h3

/-- **C11.** After every history of document notifications, disk events and hand-overs in which the server
did not crash, the server regards exactly the editor's documents as open, with their versions and texts;
the virtual file system holds these texts whatever happened on disk; and once the changes are handed over,
the database holds them, with line endings normalised. -/
theorem C11_mirrors_editor (P : Params Path Bytes) (es : List (Event Path Bytes)) (E : Editor Path)
    (s : Server Path Bytes) (he : Replay P.encoding (fun _ => none) es E) (h : run P init es = some s) :
    (∀ p, (s.opened p).map (fun d => (d.version, d.data)) = E p) ∧
    (∀ p v t, E p = some (v, t) → s.vfs.state p = some (P.utf8.enc t)) ∧
    (s.vfs.changes = [] → ∀ p v t, E p = some (v, t) → s.db.text p = some (P.normalize t)) := by
  have hi := (Inv.init P).run h
  have hm : Mirror P E s := Mirror.run (Inv.init P) ⟨fun p => rfl, by simp⟩ he h
  refine ⟨fun p => ?_, fun p v t hp => hm.content p _ hp, fun hc p v t hp => ?_⟩
  · rw [hm.docs p]; cases E p <;> rfl
  · have hs := hm.content p _ hp
    rcases hi.settled p (by simp [hc]) with h | h
    · rw [hs] at h; simp at h
    · rw [h, hs]; simp [textOf, P.utf8.dec_enc]

/-- Pending changes contain no deletion. -/
def NoDelete (s : Server Path Bytes) : Prop := ∀ c ∈ s.vfs.changes, c.2 ≠ .delete

theorem addChange_noDelete (p : Path) (c : VfsChange Bytes) (l) (hc : c ≠ .delete)
    (h : ∀ d ∈ l, d.2 ≠ .delete) : ∀ d ∈ addChange p c l, d.2 ≠ .delete := by
  induction l with
  | nil => simpa [addChange] using hc
  | cons e l ih =>
    obtain ⟨r, e⟩ := e
    rw [addChange]
    split
    · intro d hd
      rcases List.mem_cons.1 hd with h' | h'
      · subst h'
        simp only
        cases e <;> cases c <;> simp_all [mergeChange]
      · exact h d (List.mem_cons_of_mem _ h')
    · intro d hd
      rcases List.mem_cons.1 hd with h' | h'
      · subst h'; exact h _ (List.mem_cons_self ..)
      · exact ih (fun d hd => h d (List.mem_cons_of_mem _ hd)) d h'

theorem NoDelete.set {s : Server Path Bytes} (hn : NoDelete s) (p : Path) (b : Bytes) (o : Map Path Doc) :
    NoDelete { s with opened := o, vfs := s.vfs.setFileContents p (some b) } := by
  unfold NoDelete Vfs.setFileContents
  simp only
  split
  · exact hn
  · next h => cases h; exact addChange_noDelete _ _ _ (by simp) hn
  · next h => cases h
  · split
    · exact hn
    · exact addChange_noDelete _ _ _ (by simp) hn

/-- **C11 (no crash), partial.** A history in which no file vanishes from disk, replayed from an editor
that follows the protocol, never crashes the server. Missing: files may vanish (see `C20_deletion_fails`). -/
theorem C11_no_crash_partial (P : Params Path Bytes) (es : List (Event Path Bytes)) (E : Editor Path)
    (he : Replay P.encoding (fun _ => none) es E) (hd : ∀ p ch, Event.disk p none ch ∉ es) :
    ∃ s, run P init es = some s := by
  suffices H : ∀ (E0 : Editor Path) (s0 : Server Path Bytes), Inv P s0 → Mirror P E0 s0 → NoDelete s0 →
      Replay P.encoding E0 es E → ∃ s, run P s0 es = some s from
    H _ _ (Inv.init P) ⟨fun p => rfl, by simp⟩ (by simp [NoDelete, init]) he
  clear he
  intro E0 s0 hi hm hn he
  induction he generalizing s0 with
  | nil => exact ⟨_, rfl⟩
  | cons E e E1 es E' h1 _ ih =>
    have hd' : ∀ p ch, Event.disk p none ch ∉ es := fun p ch h => hd p ch (List.mem_cons_of_mem _ h)
    suffices ∃ s1, Workspace.step P s0 e = some s1 ∧ NoDelete s1 by
      obtain ⟨s1, h2, h3⟩ := this
      obtain ⟨s, hs⟩ := ih hd' s1 (hi.step h2) (hm.step hi h1 h2) h3
      exact ⟨s, by rw [run, h2]; exact hs⟩
    cases h1 with
    | didOpen p v t => exact ⟨_, rfl, hn.set _ _ _⟩
    | didChange p v v' t cs t' hp ha =>
      have ho := hm.docs p
      rw [hp] at ho
      simp only [Option.map_some] at ho
      simp only [Workspace.step, didChange, ho, C07_changes_applied P.encoding t t' cs ha, Option.map_some]
      refine ⟨_, rfl, ?_⟩
      split
      · exact hn
      · exact hn.set _ _ _
    | notOpen p v cs hp =>
      have ho := hm.docs p
      rw [hp] at ho
      simp only [Option.map_none] at ho
      exact ⟨s0, by simp [Workspace.step, didChange, ho], hn⟩
    | didClose p => exact ⟨_, rfl, hn⟩
    | disk p c ch =>
      refine ⟨_, rfl, ?_⟩
      cases c with
      | none => exact absurd (List.mem_cons_self ..) (hd p ch)
      | some b =>
        unfold loadFile
        split
        · exact hn.set p b s0.opened
        · exact hn
    | process =>
      cases hp : process P s0 with
      | none =>
        obtain ⟨c, hc, hs⟩ := (C20_process_panics_iff hi).1 hp
        rw [hi.pending c hc] at hs
        exact absurd (content_none hs) (hn c hc)
      | some s1 =>
        refine ⟨s1, hp, ?_⟩
        obtain ⟨-, -, -, h⟩ := hi.process hp
        intro c hc
        rw [h] at hc
        cases hc

/-- A history meeting the hypotheses: open, edit in the middle, a disk event for the open document that is
ignored, hand-over, close. -/
example : ∃ E : Editor Nat, Replay (Bytes := List Char) exParams.encoding (fun _ => none)
    [.didOpen 1 1 ['a', 'b'], .didChange 1 2 [.edit ⟨⟨0, 1⟩, ⟨0, 1⟩⟩ ['x']], .disk 1 (some ['z']) true, .process,
      .didClose 2] E ∧ E 1 = some (2, ['a', 'x', 'b']) := by
  refine ⟨_, .cons _ _ _ _ _ (.didOpen ..) (.cons _ _ _ _ _ (.didChange _ _ 1 _ ['a', 'b'] _ ['a', 'x', 'b'] rfl ?_)
    (.cons _ _ _ _ _ (.disk ..) (.cons _ _ _ _ _ (.process _) (.cons _ _ _ _ _ (.didClose ..) (.nil _))))), rfl⟩
  exact .edit ['a'] [] ['b'] ['x'] [] _ (.nil _)

end Verif.Workspace
