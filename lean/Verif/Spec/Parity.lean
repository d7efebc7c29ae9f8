/-
What the checksum over the length of an item could notice: remainders of polynomials over the field of two elements.
-/

namespace SeqStorage

namespace Spec

/-- The number of ones among the lowest `n` bits. -/
def ones : (n : Nat) → Nat → Nat
  | 0, _ => 0
  | n + 1, x => x % 2 + ones n (x / 2)

/-- Carry-less long division: the remainder, of degree below 16, of the polynomial `x` of degree below `16 + n`
divided by the polynomial `p` of degree 16. Bit `i` of a number is the coefficient of degree `i`. -/
def polyRem (p : Nat) : (n : Nat) → Nat → Nat
  | 0, x => x
  | n + 1, x => polyRem p n (if x.testBit (16 + n) then x ^^^ (p <<< n) else x)

/-- The polynomial "CRC-16F/4.2" that the comment in /repo/src/item.rs line 436 names:
`x^16 + x^15 + x^13 + x^9 + x^7 + x^6 + x^5 + x^3 + x + 1`. -/
def crc16F42 : Nat := 0x1a2eb

/-- The checksum of a change `e` of a 16 bit message under a polynomial. -/
def checkOf (p e : Nat) : Nat := polyRem p 16 (e <<< 16)

end Spec

end SeqStorage
