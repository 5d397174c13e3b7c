/-!
# UTF-8
-/
namespace Parcom.Spec

/-- The bytes are the encoding of some text. -/
def Valid (bs : List UInt8) : Prop := ∃ cs : List Char, bs = cs.flatMap String.utf8EncodeChar

/-- Of the bytes, the first `n` are the longest valid prefix. -/
structure LongestValid (bs : List UInt8) (n : Nat) : Prop where
  within : n ≤ bs.length
  valid : Valid (bs.take n)
  longest : ∀ m, m ≤ bs.length → Valid (bs.take m) → m ≤ n

end Parcom.Spec
