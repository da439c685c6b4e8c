import Verif.Packages.Model
import Mathlib.Logic.Relation

/-! Specification of the package loader: reachability in graphs of manifests. -/

namespace Verif.Packages

variable {P R : Type}

/-- `p` declares a dependency whose manifest is `q`, on disk. -/
def FsEdge (fs : Fs P R) (p q : P) : Prop :=
  ∃ t d r, fs.read p = some t ∧ d ∈ t.deps ∧ fs.depRoot p d = some r ∧ fs.findToml r = some q

/-- There are finitely many readable manifests. -/
def Finite (fs : Fs P R) (univ : List P) : Prop := ∀ p, fs.read p ≠ none → p ∈ univ

/-- `Path fs root g p`: `p` can be reached from `root`; `g` tells whether a git dependency is on the
way. -/
inductive Path (fs : Fs P R) (root : P) : Bool → P → Prop where
  | start : Path fs root false root
  | step {g : Bool} {p q : P} {t : Toml} {d : Dep} {r : R} (h : Path fs root g p)
      (hr : fs.read p = some t) (hd : d ∈ t.deps) (h1 : fs.depRoot p d = some r)
      (h2 : fs.findToml r = some q) : Path fs root (g || d.git) q

/-- In a table of manifests: `p` is valid and declares a dependency on `q`. -/
def Edge (valid : List (P × Entry P)) (p q : P) : Prop :=
  ∃ e k, (p, e) ∈ valid ∧ (q, k) ∈ e.declared

/-- Reachable from declared dependencies. -/
def Reach (valid : List (P × Entry P)) (declared : List (P × Kind)) (q : P) : Prop :=
  ∃ d ∈ declared, Relation.ReflTransGen (Edge valid) d.1 q

/-- The package name of a valid manifest. -/
def HasName (valid : List (P × Entry P)) (p : P) (n : String) : Prop :=
  ∃ e, (p, e) ∈ valid ∧ e.name = some n

end Verif.Packages
