import Verif.Model.Base
import Mathlib.Data.List.Lex
import Mathlib.Data.String.Basic

/-!
# Model of `lumberjack/src/features.rs` and of the string splitting used across the crate
-/

namespace Lumberjack

/-- Rust `str::split(c)` for a single `char` pattern: always yields at least one piece. -/
def splitOn (c : Char) : Str → List Str
  | [] => [[]]
  | x :: xs =>
    if x = c then [] :: splitOn c xs
    else match splitOn c xs with
      | [] => [[x]]
      | p :: ps => (x :: p) :: ps

/-- Rust / itertools `join(sep)`. -/
def join (sep : Str) : List Str → Str
  | [] => []
  | [x] => x
  | x :: y :: rest => x ++ sep ++ join sep (y :: rest)

/-- features.rs:11-13 `struct Features`: a `BTreeMap<String, Option<String>>`, modelled as its
sorted list of entries. -/
structure Features where
  entries : List (Str × Option Str)
deriving DecidableEq

namespace Features

/-- features.rs:53-55 `Features::new`. -/
def empty : Features := ⟨[]⟩

/-- `BTreeMap::insert` on the sorted list of entries. -/
def insertEntry (k : Str) (v : Option Str) : List (Str × Option Str) → List (Str × Option Str)
  | [] => [(k, v)]
  | (k', v') :: rest =>
    if k = k' then (k, v) :: rest
    else if k < k' then (k, v) :: (k', v') :: rest
    else (k', v') :: insertEntry k v rest

/-- `BTreeMap::get` on the sorted list of entries. -/
def lookupEntry (k : Str) : List (Str × Option Str) → Option (Option Str)
  | [] => none
  | (k', v') :: rest => if k = k' then some v' else lookupEntry k rest

/-- `BTreeMap::remove` on the sorted list of entries. -/
def removeEntry (k : Str) : List (Str × Option Str) → List (Str × Option Str)
  | [] => []
  | (k', v') :: rest => if k = k' then rest else (k', v') :: removeEntry k rest

/-- features.rs:70-78 `Features::insert`; the returned value flattens `Option<Option<String>>`. -/
def insert (f : Features) (k : Str) (v : Option Str) : Features × Option Str :=
  (⟨insertEntry k v f.entries⟩, (lookupEntry k f.entries).bind id)

/-- features.rs:81-83 `Features::get_val`. -/
def getVal (f : Features) (k : Str) : Option (Option Str) := lookupEntry k f.entries

/-- features.rs:88-90 `Features::remove`. -/
def remove (f : Features) (k : Str) : Features × Option (Option Str) :=
  (⟨removeEntry k f.entries⟩, lookupEntry k f.entries)

/-- features.rs:33-48 `FromIterator` (later entries overwrite earlier ones). -/
def ofList (l : List (Str × Option Str)) : Features :=
  ⟨l.foldl (fun m kv => insertEntry kv.1 kv.2 m) []⟩

/-- features.rs:23-28, the closure splitting one feature at `':'`. -/
def parseOne (f : Str) : Str × Option Str :=
  match splitOn ':' f with
  | [] => ([], none)
  | k :: rest => (k, rest.head?)

/-- features.rs:15-31 `From<AsRef<str>> for Features`. -/
def parse (s : Str) : Features :=
  ofList (((splitOn '|' s).filter (fun p => !p.isEmpty)).map parseOne)

/-- features.rs:97-103, the closure printing one feature. -/
def printOne : Str × Option Str → Str
  | (k, some v) => k ++ [':'] ++ v
  | (k, none) => k

/-- features.rs:93-106 `ToString for Features`. -/
def toStr (f : Features) : Str := join ['|'] (f.entries.map printOne)

end Features
end Lumberjack
