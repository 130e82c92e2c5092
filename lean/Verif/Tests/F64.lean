import Verif.Base.F64

/-! `F64` against the processor's doubles (tests, not proofs): the operations on a list of doubles with all kinds of
exponents, among them subnormal numbers, zeros, infinities and NaN, and pairs whose results overflow, underflow or tie. -/

namespace Blmath.Tests.F64Tests
open Blmath

/-- the double with the given bits -/
def ofBits (b : UInt64) : F64 :=
  let s : Bool := (b >>> 63) == 1
  let e : ℕ := ((b >>> 52) &&& 0x7ff).toNat
  let m : ℕ := (b &&& 0xfffffffffffff).toNat
  let sg : ℚ := if s then -1 else 1
  if e == 0x7ff then (if m == 0 then .inf s else .nan)
  else if e == 0 then (if m == 0 then .zero s else .num (sg * (m / 2 ^ 1074)))
  else .num (sg * (2 ^ 52 + m) * (2 : ℚ) ^ ((e : ℤ) - 1075))

def ofFloat (x : Float) : F64 := ofBits x.toBits

def agree (a b : UInt64) : Bool :=
  let x := Float.ofBits a
  let y := Float.ofBits b
  let p := ofBits a
  let q := ofBits b
  ofFloat (x + y) == p + q && ofFloat (x - y) == p - q && ofFloat (x * y) == p * q && ofFloat (x / y) == p / q &&
  ofFloat (-x) == -p && ofFloat x.sqrt == Num.sqrt p && decide (x < y) == Num.lt p q && decide (x ≤ y) == Num.le p q &&
  (x == y) == Num.eq p q

/-- a linear congruential generator -/
def next (s : UInt64) : UInt64 := s * 6364136223846793005 + 1442695040888963407

def randoms (n : ℕ) (s : UInt64) : List UInt64 :=
  match n with
  | 0 => []
  | n + 1 => let s := next s; let t := next s; ((s >>> 32) ||| (t &&& 0xffffffff00000000)) :: randoms n t

def special : List UInt64 :=
  [0, 0x8000000000000000, 1, 0x8000000000000001, 0xfffffffffffff, 0x10000000000000, 0x10000000000001, 0x7fefffffffffffff,
   0xffefffffffffffff, 0x7ff0000000000000, 0xfff0000000000000, 0x7ff8000000000000, 0x3ff0000000000000, 0x3ff0000000000001,
   0xbfefffffffffffff, 0x3fb999999999999a, 0x4340000000000000, 0x4340000000000001, 0x5fe6a09e667f3bcd, 0x1ff0000000000001,
   0x3ca0000000000000, 0x3ca0000000000001, 0x7fe0000000000000, 0x0008000000000000, 0x4330000000000001, 0x3fe0000000000000]

#guard special.all fun a => special.all fun b => agree a b
#guard (randoms 300 7).all fun a => special.all fun b => agree a b && agree b a
#guard ((randoms 1000 1).zip (randoms 1000 2)).all fun (a, b) => agree a b
-- close exponents
#guard ((randoms 1000 3).zip (randoms 1000 4)).all fun (a, b) => agree (a &&& 0x803fffffffffffff) (b &&& 0x803fffffffffffff)
#guard ((randoms 1000 5).zip (randoms 1000 6)).all fun (a, b) =>
  agree ((a &&& 0x803fffffffffffff) ||| 0x3fc0000000000000) ((b &&& 0x803fffffffffffff) ||| 0x3fc0000000000000)

end Blmath.Tests.F64Tests
