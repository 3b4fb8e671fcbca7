import Verif.Props.Features
import Verif.Proofs.ByteOrder

/-!
# Property C07: the order of keys as bytes
-/

namespace Lumberjack
namespace Props
open Features

/-- **C07.** The key order is that of the bytes of the keys in UTF-8 (which is how Rust compares strings), and the
same as that of their characters. -/
theorem C07_byte_order (a b : Str) :
    (a < b ↔ Io.encode a < Io.encode b) ∧ (a = b ↔ Io.encode a = Io.encode b) :=
  ⟨Io.encode_lt_iff.symm, Io.encode_eq_iff.symm⟩

example : Io.encode "aä".toList < Io.encode "a😀".toList := (C07_byte_order _ _).1.1 (by decide)

/-- **C07.** The entries of every obtainable feature set are in strictly increasing order of the bytes of their
keys. -/
theorem C07_sorted_bytes (f : Features) (h : Built f) :
    f.entries.Pairwise (fun a b => Io.encode a.1 < Io.encode b.1) :=
  (C07_sorted f h).imp fun h => Io.encode_lt_iff.2 h

example := C07_sorted_bytes (Features.parse "b:2|a:1|c".toList) (.parse _)

end Props
end Lumberjack
