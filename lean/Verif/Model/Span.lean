import Verif.Model.Base
import Mathlib.Data.Finset.Card
import Mathlib.Data.Finset.Interval
import Mathlib.Order.Interval.Finset.Nat
import Mathlib.Data.List.Sort

/-!
# Model of `lumberjack/src/span.rs`
-/

namespace Lumberjack

/-- span.rs:9-12 `enum Continuity`. -/
inductive Continuity where
  | continuous
  | discontinuous
deriving DecidableEq, Repr

/-- span.rs:20-26 `struct Span`.  `HashSet<usize>` is a `Finset Nat`: equality of hash sets is
extensional and the code never depends on the iteration order except in
`Projectivize::projectivize`, where the model takes the choice of element as a parameter. -/
structure Span where
  start : Nat
  stop : Nat
  skips : Option (Finset Nat)
deriving DecidableEq

namespace Span

/-- span.rs:28-36 `impl From<usize> for Span`. -/
def ofIdx (idx : Nat) : Span := ⟨idx, idx + 1, none⟩

/-- span.rs:44-57 `Span::new_with_skips`.  `upper - lower - skips.len() > 0` panics either through
the assertion or through underflow, i.e. whenever `skips.len() ≥ upper - lower`. -/
def newWithSkips (lower upper : Nat) (skips : Finset Nat) : Res Span := do
  Res.assert (lower < upper)
  Res.assert (skips ≠ ∅)
  Res.assert (skips.card < upper - lower)
  return ⟨lower, upper, some skips⟩

/-- span.rs:60-67 `Span::new`. -/
def new (lower upper : Nat) : Res Span := do
  Res.assert (lower < upper)
  return ⟨lower, upper, none⟩

/-- span.rs:70-79 `Span::contains`. -/
def contains (s : Span) (index : Nat) : Bool :=
  if s.start ≤ index ∧ s.stop > index then
    match s.skips with
    | some skips => decide (index ∉ skips)
    | none => true
  else
    false

/-- span.rs:82-95 `Span::covers_span`.  The `for` loop with an early `return false` over the hash
set is a bounded universal quantifier. -/
def coversSpan (s other : Span) : Bool :=
  if s.start ≤ other.start ∧ s.stop ≥ other.stop then
    match s.skips with
    | some skips => decide (∀ k ∈ skips, other.contains k = false)
    | none => true
  else
    false

/-- span.rs:98-100 `Span::bounds`. -/
def bounds (s : Span) : Nat × Nat := (s.start, s.stop)

/-- span.rs:103-109 `Span::n_indices`.  Truncated subtraction: the code would panic on underflow,
which needs a span violating its own invariant. -/
def nIndices (s : Span) : Nat :=
  match s.skips with
  | some skips => s.stop - s.start - skips.card
  | none => s.stop - s.start

/-- span.rs:119-146 `Span::merge_spans`. -/
def mergeSpans (s other : Span) : Res Span :=
  let start := if s.start ≤ other.start then s.start else other.start
  let stop := if s.stop ≥ other.stop then s.stop else other.stop
  let skips := (Finset.Ico start stop).filter
    (fun i => s.contains i = false ∧ other.contains i = false)
  if skips = ∅ then
    new start stop
  else
    newWithSkips start stop skips

/-- span.rs:179-181, the loop `while skips.remove(&self.start) { self.start += 1 }`.  Every
iteration removes an element, so `skips.len()` bounds the number of iterations. -/
def shrinkLower : Nat → Finset Nat → Nat → Finset Nat × Nat
  | 0, skips, start => (skips, start)
  | k + 1, skips, start =>
    if start ∈ skips then shrinkLower k (skips.erase start) (start + 1) else (skips, start)

/-- span.rs:183-185, the loop `while skips.remove(&(self.end - 1)) { self.end -= 1 }`. -/
def shrinkUpper : Nat → Finset Nat → Nat → Finset Nat × Nat
  | 0, skips, stop => (skips, stop)
  | k + 1, skips, stop =>
    if stop - 1 ∈ skips then shrinkUpper k (skips.erase (stop - 1)) (stop - 1) else (skips, stop)

/-- span.rs:152-193 `Span::remove_indices`. -/
def removeIndices (s : Span) (indices : List Nat) : Res (Span × Continuity) := do
  Res.assert (indices.all fun idx => decide (idx ≥ s.start ∧ idx < s.stop))
  let skips := match s.skips with
    | some skips => skips ∪ indices.toFinset
    | none => indices.toFinset
  Res.assert (skips.card < s.stop - s.start)
  let lo := shrinkLower skips.card skips s.start
  let hi := shrinkUpper lo.1.card lo.1 s.stop
  if hi.1 = ∅ then
    return (⟨lo.2, hi.2, none⟩, .continuous)
  else
    return (⟨lo.2, hi.2, some hi.1⟩, .discontinuous)

/-- span.rs:204-215, the body of the loop in `Span::from_vec`: walks the sorted indices downwards,
adding the gap between an index and its predecessor in the walk. -/
def gapStep (acc : Finset Nat × Nat) (id : Nat) : Finset Nat × Nat :=
  if acc.2 = id + 1 then (acc.1, id) else (acc.1 ∪ Finset.Ico (id + 1) acc.2, id)

/-- span.rs:196-221 `Span::from_vec`. `Vec::sort` on `usize` is any sorting function. -/
def fromVec (coverage : List Nat) : Res (Except Err Span) :=
  let sorted := coverage.insertionSort (· ≤ ·)
  match sorted.head?, sorted.getLast? with
  | some first, some last => do
    let lower := first
    let upper := last + 1
    let skips := (sorted.reverse.foldl gapStep (∅, upper)).1
    if skips = ∅ then
      let s ← new lower upper
      return .ok s
    else
      let s ← newWithSkips lower upper skips
      return .ok s
  | _, _ => .ok (.error .emptyVec)

/-- span.rs:224-226 `Span::extend`. -/
def extend (s : Span) : Span := { s with stop := s.stop + 1 }

/-- span.rs:229-243 `impl Ord for Span`. -/
def cmp (s other : Span) : Ordering :=
  if s.start ≠ other.start then compare s.start other.start
  else if s.stop ≠ other.stop then compare s.stop other.stop
  else compare s.nIndices other.nIndices

/-- span.rs:270-284 `SpanIter::next` on the state (`range.start`, `range.end`, `skip`): the `while
let` loop skipping over skipped indices. The first argument is the number of indices left in the
range. -/
def iterNext (skips : Option (Finset Nat)) : Nat → Nat → Option (Nat × Nat × Nat)
  | 0, _ => none
  | k + 1, cur =>
    match skips with
    | some s => if cur ∈ s then iterNext skips k (cur + 1) else some (cur, k, cur + 1)
    | none => some (cur, k, cur + 1)

/-- span.rs:251-261 `IntoIterator for &Span`, run to exhaustion: the sequence of items produced.
The fuel is the number of `next` calls, at most the length of the range. -/
def iterCollect (skips : Option (Finset Nat)) : Nat → Nat → Nat → List Nat
  | 0, _, _ => []
  | fuel + 1, left, cur =>
    match iterNext skips left cur with
    | none => []
    | some (item, left', cur') => item :: iterCollect skips fuel left' cur'

/-- `span.into_iter().collect::<Vec<_>>()`. -/
def toVec (s : Span) : List Nat :=
  iterCollect s.skips (s.stop - s.start) (s.stop - s.start) s.start

/-- node.rs:72-78, 220-226 `continuity()` of a node with this span. -/
def continuity (s : Span) : Continuity :=
  if s.skips.isSome then .discontinuous else .continuous

end Span
end Lumberjack
