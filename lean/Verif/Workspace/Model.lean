import Verif.Documents.Model

/-! Model of the path from notifications to the analysis database:

* `opened_files.rs`, `handlers/notification.rs` 48-123 (open, change, close);
* `main_loop.rs` 407-418 (`load_files_into_vfs`);
* `file_changes.rs` 16-106 (collecting pending changes);
* `base-db/src/change.rs` 61-96 and `base-db/src/inputs.rs` 91-167 (applying them).

The virtual file system `vfs` is an external crate (rust-analyzer); `setFileContents` follows its
published source, with file contents instead of content hashes (assumed: no hash collisions) and paths
instead of file ids (assumed: interning is injective). -/

namespace Verif.Workspace
open Verif Documents

/-- Contract of UTF-8 coding in the standard library: `String::into_bytes` and `String::from_utf8`. -/
structure Utf8 (Bytes : Type) where
  enc : List Char → Bytes
  dec : Bytes → Option (List Char)
  dec_enc : ∀ t, dec (enc t) = some t

/-- Finite maps are modelled as functions. -/
abbrev Map (κ α : Type) := κ → Option α

/-- Insertion into a map. -/
def Map.insert {κ α : Type} [DecidableEq κ] (m : Map κ α) (k : κ) (a : α) : Map κ α :=
  fun x => if x = k then some a else m x

/-- Removal from a map. -/
def Map.remove {κ α : Type} [DecidableEq κ] (m : Map κ α) (k : κ) : Map κ α :=
  fun x => if x = k then none else m x

/-- `DocumentData` (opened_files.rs 57-60). The bytes are those of a string. -/
structure Doc where
  version : Int
  data : List Char
deriving DecidableEq

/-- `vfs::Change`. -/
inductive VfsChange (Bytes : Type) where
  | create (b : Bytes)
  | modify (b : Bytes)
  | delete
deriving DecidableEq

/-- `vfs::Vfs`: the state of every file and the pending changes, at most one per file
(an `IndexMap` keyed by file id). -/
structure Vfs (Path Bytes : Type) where
  state : Map Path Bytes
  changes : List (Path × VfsChange Bytes)

variable {Path Bytes : Type} [DecidableEq Path] [DecidableEq Bytes]

/-- Merging a new change into a pending one (crate vfs, `set_file_contents`). -/
def mergeChange : VfsChange Bytes → VfsChange Bytes → VfsChange Bytes
  | _, .delete => .delete
  | .create _, .create b => .create b
  | .create _, .modify b => .create b
  | .modify _, .modify b => .modify b
  | .delete, .create b => .modify b
  | .delete, .modify b => .create b
  | .modify _, .create b => .create b

/-- Entry of the pending changes. -/
def addChange (p : Path) (c : VfsChange Bytes) :
    List (Path × VfsChange Bytes) → List (Path × VfsChange Bytes)
  | [] => [(p, c)]
  | (q, d) :: l => if q = p then (q, mergeChange d c) :: l else (q, d) :: addChange p c l

/-- `Vfs::set_file_contents`. -/
def Vfs.setFileContents (v : Vfs Path Bytes) (p : Path) (contents : Option Bytes) : Vfs Path Bytes :=
  match v.state p, contents with
  | none, none => v
  | none, some b => ⟨v.state.insert p b, addChange p (.create b) v.changes⟩
  | some _, none => ⟨v.state.remove p, addChange p .delete v.changes⟩
  | some a, some b => if a = b then v else ⟨v.state.insert p b, addChange p (.modify b) v.changes⟩

/-- The parts of the salsa database concerned: texts of files and the package of each file
(`Files.files`, `Files.file_package_ids`; inputs.rs 71-74). -/
structure Db (Path : Type) where
  text : Map Path (List Char)
  package : Map Path Nat

/-- `FileChanges::apply` (change.rs 61-96) without builtins and package graph. `roots` gives, when the
package roots are replaced, the new package of every file in them (`replace_package_roots`,
inputs.rs 125-160, clears the old assignment first). `none` is the panic of `file_package_id`
(inputs.rs 162-167). -/
def applyChanges (db : Db Path) (roots : Option (Map Path Nat)) (files : List (Path × Option (List Char))) :
    Option (Db Path) :=
  match roots with
  | some r =>
    files.foldlM (fun db f =>
      match r f.1 with
      | some _ => some { db with text := db.text.insert f.1 (f.2.getD []) }
      | none => none) { db with package := r }
  | none => some (files.foldl (fun db f => { db with text := db.text.insert f.1 (f.2.getD []) }) db)

/-- The server state. -/
structure Server (Path Bytes : Type) where
  opened : Map Path Doc
  vfs : Vfs Path Bytes
  db : Db Path

/-- Fixed parameters: coding, negotiated encoding, line ending normalisation (see C06), which paths are
manifests, and the package each path is classified into (`FileSetConfig::classify`). -/
structure Params (Path Bytes : Type) where
  utf8 : Utf8 Bytes
  encoding : Encoding
  normalize : List Char → List Char
  isManifest : Path → Bool
  classify : Path → Nat

/-- `handle_did_open_text_document` (notification.rs 48-74). -/
def didOpen (P : Params Path Bytes) (s : Server Path Bytes) (p : Path) (version : Int)
    (text : List Char) : Server Path Bytes :=
  { s with opened := s.opened.insert p ⟨version, text⟩
           vfs := s.vfs.setFileContents p (some (P.utf8.enc text)) }

/-- `handle_did_change_text_document` (notification.rs 76-104); `none` is a panic. -/
def didChange (P : Params Path Bytes) (s : Server Path Bytes) (p : Path) (version : Int)
    (changes : List Change) : Option (Server Path Bytes) :=
  match s.opened p with
  | none => some s
  | some doc =>
    (applyDocumentChanges P.encoding doc.data changes).map fun new =>
      if doc.data = new then { s with opened := s.opened.insert p ⟨version, doc.data⟩ }
      else { s with opened := s.opened.insert p ⟨version, new⟩
                    vfs := s.vfs.setFileContents p (some (P.utf8.enc new)) }

/-- `handle_did_close_text_document` (notification.rs 106-123). The reread of the file from disk comes
back as a disk event. -/
def didClose (s : Server Path Bytes) (p : Path) : Server Path Bytes :=
  { s with opened := s.opened.remove p }

/-- One file of `load_files_into_vfs` (main_loop.rs 407-418). -/
def loadFile (s : Server Path Bytes) (p : Path) (contents : Option Bytes) (isChanged : Bool) :
    Server Path Bytes :=
  if (s.opened p).isNone && (isChanged || (s.vfs.state p).isNone) then
    { s with vfs := s.vfs.setFileContents p contents }
  else s

/-- Does a pending change alter the structure of the workspace (file_changes.rs 66-80, 95-104)? -/
def isStructural (P : Params Path Bytes) : Path × VfsChange Bytes → Bool
  | (_, .create _) => true
  | (_, .delete) => true
  | (p, .modify _) => P.isManifest p

/-- Text handed to the database for a pending change (file_changes.rs 82-95). -/
def changeText (P : Params Path Bytes) : VfsChange Bytes → Option (List Char)
  | .create b => (P.utf8.dec b).map P.normalize
  | .modify b => (P.utf8.dec b).map P.normalize
  | .delete => none

/-- `PackageRootConfig::partition_into_package_roots` (project_folders.rs 22-41): only files that exist
in the vfs are in a root. -/
def partition (P : Params Path Bytes) (v : Vfs Path Bytes) : Map Path Nat :=
  fun p => (v.state p).map fun _ => P.classify p

/-- `process_pending_file_changes` (file_changes.rs 16-43); the reload request is in the model of the
operation queue. `none` is a panic. -/
def process (P : Params Path Bytes) (s : Server Path Bytes) : Option (Server Path Bytes) :=
  if s.vfs.changes.isEmpty then some s
  else
    let roots := if s.vfs.changes.any (isStructural P) then some (partition P s.vfs) else none
    (applyChanges s.db roots (s.vfs.changes.map fun c => (c.1, changeText P c.2))).map fun db =>
      { s with db := db, vfs := { s.vfs with changes := [] } }

/-- Everything that can happen to the server as far as documents are concerned. -/
inductive Event (Path Bytes : Type) where
  | didOpen (p : Path) (version : Int) (text : List Char)
  | didChange (p : Path) (version : Int) (changes : List Change)
  | didClose (p : Path)
  | disk (p : Path) (contents : Option Bytes) (isChanged : Bool)
  | process

/-- One event; `none` is a panic. -/
def step (P : Params Path Bytes) (s : Server Path Bytes) : Event Path Bytes → Option (Server Path Bytes)
  | .didOpen p v t => some (didOpen P s p v t)
  | .didChange p v cs => didChange P s p v cs
  | .didClose p => some (didClose s p)
  | .disk p c ch => some (loadFile s p c ch)
  | .process => process P s

/-- A history of events. -/
def run (P : Params Path Bytes) (s : Server Path Bytes) :
    List (Event Path Bytes) → Option (Server Path Bytes)
  | [] => some s
  | e :: es => (step P s e).bind fun s => run P s es

/-- The state at startup. -/
def init : Server Path Bytes :=
  ⟨fun _ => none, ⟨fun _ => none, []⟩, ⟨fun _ => none, fun _ => none⟩⟩

end Verif.Workspace
