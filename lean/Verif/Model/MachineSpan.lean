import Verif.Model.Machine

/-!
# Machine integers in `lumberjack/src/span.rs`

`Model/Span` computes with unbounded numbers. Here the same functions are modelled with `usize` of a 64-bit target, with and
without overflow checks. Functions without arithmetic (`contains`, `covers_span`, `bounds`, iteration over a range) are the
same.
-/

namespace Lumberjack
namespace Machine
namespace Span

/-- span.rs:28-36 `impl From<usize> for Span`. -/
def ofIdx (b : Build) (idx : Nat) : Res Span := do
  let stop ← usize b (idx + 1)
  return ⟨idx, stop, none⟩

/-- span.rs:44-57 `Span::new_with_skips`. -/
def newWithSkips (b : Build) (lower upper : Nat) (skips : Finset Nat) : Res Span := do
  Res.assert (lower < upper)
  Res.assert (skips ≠ ∅)
  let d ← usize b ((upper : Int) - lower)
  let n ← usize b ((d : Int) - skips.card)
  Res.assert (0 < n)
  return ⟨lower, upper, some skips⟩

/-- span.rs:103-109 `Span::n_indices`. -/
def nIndices (b : Build) (s : Span) : Res Nat := do
  let d ← usize b ((s.stop : Int) - s.start)
  match s.skips with
  | some skips => usize b ((d : Int) - skips.card)
  | none => return d

/-- span.rs:119-146 `Span::merge_spans`. -/
def mergeSpans (b : Build) (s other : Span) : Res Span :=
  let start := if s.start ≤ other.start then s.start else other.start
  let stop := if s.stop ≥ other.stop then s.stop else other.stop
  let skips := (Finset.Ico start stop).filter
    (fun i => s.contains i = false ∧ other.contains i = false)
  if skips = ∅ then
    Lumberjack.Span.new start stop
  else
    newWithSkips b start stop skips

/-- span.rs:179-181, `while skips.remove(&self.start) { self.start += 1 }`. -/
def shrinkLower (b : Build) : Nat → Finset Nat → Nat → Res (Finset Nat × Nat)
  | 0, skips, start => .ok (skips, start)
  | k + 1, skips, start =>
    if start ∈ skips then do
      let start' ← usize b (start + 1)
      shrinkLower b k (skips.erase start) start'
    else .ok (skips, start)

/-- span.rs:183-185, `while skips.remove(&(self.end - 1)) { self.end -= 1 }`. -/
def shrinkUpper (b : Build) : Nat → Finset Nat → Nat → Res (Finset Nat × Nat)
  | 0, skips, stop => do
    let _ ← usize b ((stop : Int) - 1)
    return (skips, stop)
  | k + 1, skips, stop => do
    let last ← usize b ((stop : Int) - 1)
    if last ∈ skips then shrinkUpper b k (skips.erase last) last else return (skips, stop)

/-- span.rs:152-193 `Span::remove_indices`. -/
def removeIndices (b : Build) (s : Span) (indices : List Nat) : Res (Span × Continuity) := do
  Res.assert (indices.all fun idx => decide (idx ≥ s.start ∧ idx < s.stop))
  let skips := match s.skips with
    | some skips => skips ∪ indices.toFinset
    | none => indices.toFinset
  let d ← usize b ((s.stop : Int) - s.start)
  Res.assert (skips.card < d)
  let lo ← shrinkLower b skips.card skips s.start
  let hi ← shrinkUpper b lo.1.card lo.1 s.stop
  if hi.1 = ∅ then
    return (⟨lo.2, hi.2, none⟩, .continuous)
  else
    return (⟨lo.2, hi.2, some hi.1⟩, .discontinuous)

/-- span.rs:204-215, the loop in `Span::from_vec` over the sorted indices, downwards. -/
def gaps (b : Build) : List Nat → Finset Nat × Nat → Res (Finset Nat × Nat)
  | [], acc => .ok acc
  | id :: rest, acc => do
    let next ← usize b (id + 1)
    gaps b rest (if acc.2 = next then (acc.1, id) else (acc.1 ∪ Finset.Ico next acc.2, id))

/-- span.rs:196-221 `Span::from_vec`. -/
def fromVec (b : Build) (coverage : List Nat) : Res (Except Err Span) :=
  let sorted := coverage.insertionSort (· ≤ ·)
  match sorted.head?, sorted.getLast? with
  | some lower, some last => do
    let upper ← usize b (last + 1)
    let acc ← gaps b sorted.reverse (∅, upper)
    if acc.1 = ∅ then
      let s ← Lumberjack.Span.new lower upper
      return .ok s
    else
      let s ← newWithSkips b lower upper acc.1
      return .ok s
  | _, _ => .ok (.error .emptyVec)

/-- span.rs:224-226 `Span::extend`. -/
def extend (b : Build) (s : Span) : Res Span := do
  let stop ← usize b (s.stop + 1)
  return { s with stop := stop }

/-- span.rs:229-243 `impl Ord for Span`. -/
def cmp (b : Build) (s other : Span) : Res Ordering :=
  if s.start ≠ other.start then .ok (compare s.start other.start)
  else if s.stop ≠ other.stop then .ok (compare s.stop other.stop)
  else do
    let n ← nIndices b s
    let m ← nIndices b other
    return compare n m

end Span
end Machine
end Lumberjack
