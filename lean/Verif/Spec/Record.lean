import Verif.Spec.Convert
import Verif.Spec.ConvertRun
import Verif.Spec.Forest
import Verif.Spec.Iso

/-!
# Recovering a tree from its recorded moves

`--projectivize --sec_edges` records where a node was attached as a secondary edge labelled `np_LABEL`, or `np`
without a label.
-/

namespace Lumberjack
namespace Tree

open Lumberjack.Convert

/-- An edge from `p` to `n` with content `w`. -/
def Link (t : Tree) (p n : Nat) (w : Edge) : Prop := ∃ e ∈ t.graph.edges, e.src = p ∧ e.tgt = n ∧ e.w = w

/-- What `t` says about the original attachment of `n`: a secondary edge made by the tool names it; without a
secondary edge it is the present one. -/
def Recalls (t : Tree) (p n : Nat) (l : Option Str) : Prop :=
  t.Link p n (.secondary (some (moveLabel l))) ∨
    (t.Link p n (.primary l) ∧ ∀ q s, ¬ t.Link q n (.secondary s))

/-- `r` has the nodes of `t`, and the attachments it recalls are those of `t`. Nothing is said about the content
of the root. -/
structure Recalled (t r : Tree) (φ : Nat → Nat) : Prop where
  root : r.root = φ t.root
  root_nt : r.IsNt r.root
  inj : ∀ n m, t.Live n → t.Live m → φ n = φ m → n = m
  onto : ∀ n', r.Live n' → ∃ n, t.Live n ∧ φ n = n'
  terms : ∀ n x, t.graph.node? n = some (.term x) →
    ∃ f, r.graph.node? (φ n) = some (.term { x with features := f }) ∧ Forest.FeatSame x.features f
  nts : ∀ n x, n ≠ t.root → t.graph.node? n = some (.nt x) →
    ∃ y, r.graph.node? (φ n) = some (.nt y) ∧ y.label = x.label ∧ Forest.FeatSame x.features y.features
  link : ∀ p n l, t.Live p → t.Live n → (t.Link p n (.primary l) ↔ r.Recalls (φ p) (φ n) l)

end Tree

namespace Convert

open Lumberjack.Tree

/-- `--projectivize --sec_edges --output_format negra`. -/
def recording : Options := { plain .negra with projectivize := true, secEdges := true }

/-- Removing the gaps moves no node twice. -/
def MovedOnce (pick : Tree → Finset Nat → Option Nat) (t : Tree) : Prop :=
  ∀ t' log, t.projectivize pick = .ok (t', some log) → (log.map (·.2.2)).Nodup

end Convert
end Lumberjack
