/-!
# Outcomes of Rust computations

The pieces of Rust semantics every model function shares: a computation returns normally,
panics, or does not terminate.  Fallible (`Result`) methods return an `Except Err` *inside* a
normal outcome, together with the tree left behind by the call, so that "returns `Err` without
mutating the tree" is expressible.
-/

namespace Lumberjack

/-- Strings are modelled as lists of Unicode scalar values.  (Rust's `String`; the byte length only
matters for column padding in `io/negra.rs` and is modelled there separately.) -/
abbrev Str := List Char

/-- Outcome of running Rust code: normal return, panic (unwinding; arithmetic underflow counts as
a panic, which is what debug builds do), or divergence (a `while` loop that never exits; in the
model: a loop that exhausts an iteration budget which terminating runs never reach). -/
inductive Res (α : Type) where
  | ok (a : α)
  | panic
  | diverge
deriving DecidableEq

namespace Res

/-- Sequencing: a panic or divergence of the first computation is the outcome of the whole. -/
def bind {α β : Type} : Res α → (α → Res β) → Res β
  | ok a, f => f a
  | panic, _ => panic
  | diverge, _ => diverge

instance : Monad Res where
  pure := ok
  bind := bind

@[simp] theorem ok_bind {α β : Type} (a : α) (f : α → Res β) : (Res.ok a >>= f) = f a := rfl
@[simp] theorem panic_bind {α β : Type} (f : α → Res β) : (Res.panic >>= f) = Res.panic := rfl
@[simp] theorem diverge_bind {α β : Type} (f : α → Res β) : (Res.diverge >>= f) = Res.diverge := rfl
@[simp] theorem pure_eq {α : Type} (a : α) : (pure a : Res α) = Res.ok a := rfl

instance : LawfulMonad Res := LawfulMonad.mk'
  (id_map := by intro α x; cases x <;> rfl)
  (pure_bind := by intros; rfl)
  (bind_assoc := by intro α β γ x f g; cases x <;> rfl)

/-- `Option::unwrap` / `Option::expect` / slice and graph indexing: panics on `None`. -/
def ofOption {α : Type} : Option α → Res α
  | some a => ok a
  | none => panic

@[simp] theorem ofOption_some {α : Type} (a : α) : ofOption (some a) = ok a := rfl
@[simp] theorem ofOption_none {α : Type} : ofOption (none : Option α) = panic := rfl

/-- `Result::unwrap`: panics on `Err`. -/
def unwrap {ε α : Type} : Except ε α → Res α
  | .ok a => .ok a
  | .error _ => .panic

@[simp] theorem unwrap_ok {ε α : Type} (a : α) : unwrap (.ok a : Except ε α) = .ok a := rfl
@[simp] theorem unwrap_error {ε α : Type} (e : ε) : unwrap (.error e : Except ε α) = .panic := rfl

/-- `assert!(c)`. -/
def assert (c : Bool) : Res Unit := if c then ok () else panic

@[simp] theorem assert_true : assert true = ok () := rfl
@[simp] theorem assert_false : assert false = panic := rfl

/-- `usize` subtraction: underflow panics. -/
def sub (a b : Nat) : Res Nat := if b ≤ a then ok (a - b) else panic

theorem sub_of_le {a b : Nat} (h : b ≤ a) : sub a b = ok (a - b) := by simp [sub, h]

end Res

/-- A Rust `loop`: `step` either asks for another iteration (`inl`) or leaves the loop (`inr`).
The first argument bounds the number of iterations; running out of it is reported as
divergence. -/
def loopM {σ β : Type} (step : σ → Res (σ ⊕ β)) : Nat → σ → Res β
  | 0, _ => .diverge
  | k + 1, s =>
    match step s with
    | .ok (.inl s') => loopM step k s'
    | .ok (.inr b) => .ok b
    | .panic => .panic
    | .diverge => .diverge

/-- A Rust `for` loop over an already collected `Vec`. -/
def forM' {α σ : Type} (f : σ → α → Res σ) : List α → σ → Res σ
  | [], s => .ok s
  | a :: as, s => f s a >>= forM' f as

/-- A Rust `for` loop whose body may leave the enclosing function with `Err` (`?`): the state
reached so far is returned together with the error. -/
def forE {α σ ε : Type} (f : σ → α → Res (σ × Except ε Unit)) :
    List α → σ → Res (σ × Except ε Unit)
  | [], s => .ok (s, .ok ())
  | a :: as, s => do
    let (s', r) ← f s a
    match r with
    | .ok () => forE f as s'
    | .error e => .ok (s', .error e)

/-- Error values.  One constructor per error message of the crate (the text of the messages is not
modelled). -/
inductive Err where
  | emptyVec            -- span.rs:200
  | discTerminalSpan    -- node.rs:152
  | terminalSpanLen     -- node.rs:154
  | extendTerminal      -- node.rs:165
  | rootIsTerminal      -- tree.rs:231
  | attachToTerminal    -- tree.rs:286, 601
  | selfParent          -- tree.rs:363
  | lastChild           -- tree.rs:603
  | rootMultiple        -- tree.rs:675
  | lastTerminal        -- tree.rs:694
  | notEnoughPos        -- tree_modification.rs:31
  | tooManyPos          -- tree_modification.rs:35
  | terminalNoParent    -- tree_modification.rs:148, 171
  | chainNoValue        -- tree_modification.rs:290
  | nonProjective       -- encode.rs, ptb.rs
  | parse (what : Nat)  -- malformed textual input, one number per call site
deriving DecidableEq, Repr

end Lumberjack
