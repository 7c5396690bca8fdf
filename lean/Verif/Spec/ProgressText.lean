import Verif.Model.Go

namespace Flu.Spec

/-!
What a progress file says, as a text of bytes: eight bytes with a number of chunks, then words of eight bytes each, most significant byte
first; chunk `i` is marked when bit `i % 64` of word `i / 64` is set.
-/

/-- The byte that speaks about chunk `i` is there, and its bit for `i` is set. -/
def Marked (data : Bytes) (i : Nat) : Prop :=
  ∃ c, data[8 + i / 64 * 8 + (7 - i % 64 / 8)]? = some c ∧ c.toNat.testBit (i % 8) = true

/-- The number of chunks that the first eight bytes give, read as a signed number. -/
def Announces (data : Bytes) (n : Int) : Prop :=
  ∃ a b c d e f g h rest, data = a :: b :: c :: d :: e :: f :: g :: h :: rest ∧ -2 ^ 63 ≤ n ∧ n < 2 ^ 63 ∧
    ∃ k : Int, n + 2 ^ 64 * k = (((((((a.toNat * 256 + b.toNat) * 256 + c.toNat) * 256 + d.toNat) * 256 + e.toNat) * 256 + f.toNat) * 256 +
      g.toNat) * 256 + h.toNat : Nat)

end Flu.Spec
