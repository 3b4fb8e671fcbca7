import Verif.Spec.Numeral
import Verif.Spec.Negra
import Verif.Spec.ConllxRead

/-!
# Specification vocabulary for texts and their parts

How a text is cut into words, fields and pieces, said without any function of the model.
-/

namespace Lumberjack
namespace Text

/-- The characters with the Unicode property `White_Space`. -/
def White (c : Char) : Prop :=
  c.toNat ∈ [9, 10, 11, 12, 13, 32, 133, 160, 5760, 8192, 8193, 8194, 8195, 8196, 8197, 8198, 8199, 8200, 8201, 8202,
    8232, 8233, 8239, 8287, 12288]

instance : DecidablePred White := fun c => by unfold White; infer_instance

/-- `m` is the text without the white space at its ends. -/
def Trimmed (s m : Str) : Prop :=
  ∃ a b, s = a ++ m ++ b ∧ (∀ c ∈ a, White c) ∧ (∀ c ∈ b, White c) ∧ (∀ c, m.head? = some c → ¬ White c) ∧
    ∀ c, m.getLast? = some c → ¬ White c

/-- The words of a text, in order: its longest runs of characters other than white space. -/
inductive Words : Str → List Str → Prop
  | done {s : Str} : (∀ c ∈ s, White c) → Words s []
  | word {a w s : Str} {ws : List Str} : (∀ c ∈ a, White c) → w ≠ [] → (∀ c ∈ w, ¬ White c) →
      (∀ c, s.head? = some c → White c) → Words s ws → Words (a ++ w ++ s) (w :: ws)

/-- The pieces of a text between the occurrences of a character. -/
inductive Cut (c : Char) : Str → List Str → Prop
  | done {p : Str} : c ∉ p → Cut c p [p]
  | piece {p s : Str} {ps : List Str} : c ∉ p → Cut c s ps → Cut c (p ++ c :: s) (p :: ps)

/-- The pieces of a text between the occurrences of a text `d`, where each is the first one after that before. -/
inductive CutBy (d : Str) : Str → List Str → Prop
  | done {p : Str} : ¬ d <:+: p → CutBy d p [p]
  | piece {p s : Str} {ps : List Str} : (∀ a b, p ++ d ++ s = a ++ d ++ b → p.length ≤ a.length) → CutBy d s ps →
      CutBy d (p ++ d ++ s) (p :: ps)

/-- The text is the decimal numeral of `n` without leading zeros. -/
def Canonical (s : Str) (n : Nat) : Prop := Decimal s n ∧ (s.head? = some '0' → s = ['0'])

/-- A column with `--` for a missing value. -/
def Dashed (s : Str) (o : Option Str) : Prop := (s = "--".toList ∧ o = none) ∨ (s ≠ "--".toList ∧ o = some s)

/-- The columns after the attachment: none or a comment, or label and number of a secondary parent. -/
def SecColumns (o : Option (Str × Nat)) (cs : List Str) : Prop :=
  (o = none ∧ (cs = [] ∨ ∃ r more, cs = ('%' :: r) :: more)) ∨
  ∃ l k p more, o = some (l, k) ∧ cs = l :: p :: more ∧ l.head? ≠ some '%' ∧ Numeral p k

/-- The columns of an attachment. -/
def AttachColumns (a : Negra.Attach) (cs : List Str) : Prop :=
  ∃ e p more, cs = e :: p :: more ∧ Dashed e a.edge ∧ Numeral p a.parent ∧ SecColumns a.sec more

/-- The columns of a terminal. -/
def TermColumns (r : Negra.TermRow) (cs : List Str) : Prop :=
  ∃ l m more, cs = r.form :: l :: r.pos :: m :: more ∧ Dashed l r.lem ∧ Dashed m r.morph ∧ AttachColumns r.att more

/-- A label, possibly followed by an equals sign and an annotation, which ends at the next equals sign. -/
def Annotated (s label : Str) (ann : Option Str) : Prop :=
  '=' ∉ label ∧ ((s = label ∧ ann = none) ∨
    ∃ a, ann = some a ∧ '=' ∉ a ∧ (s = label ++ '=' :: a ∨ ∃ rest, s = label ++ '=' :: (a ++ '=' :: rest)))

/-- The columns of a nonterminal. -/
def NtColumns (r : Negra.NtRow) (cs : List Str) : Prop :=
  ∃ n x l y more, cs = ('#' :: n) :: x :: l :: y :: more ∧ Numeral n r.id ∧ Annotated l r.label r.ann ∧
    AttachColumns r.att more

/-- A feature as text: a key, possibly followed by a colon and a value, which ends at the next colon. -/
def KeyValue (s key : Str) (v : Option Str) : Prop :=
  ':' ∉ key ∧ ((s = key ∧ v = none) ∨
    ∃ a, v = some a ∧ ':' ∉ a ∧ (s = key ++ ':' :: a ∨ ∃ rest, s = key ++ ':' :: (a ++ ':' :: rest)))

/-- The texts written one after the other, with a separator between any two. -/
inductive Joined (sep : Str) : List Str → Str → Prop
  | none : Joined sep [] []
  | one (p : Str) : Joined sep [p] p
  | more {p q : Str} {ps : List Str} {s : Str} : Joined sep (q :: ps) s → Joined sep (p :: q :: ps) (p ++ sep ++ s)

/-- A feature as it is printed. -/
def Printed (kv : Str × Option Str) (s : Str) : Prop :=
  (kv.2 = none ∧ s = kv.1) ∨ ∃ v, kv.2 = some v ∧ s = kv.1 ++ ':' :: v

end Text
end Lumberjack
