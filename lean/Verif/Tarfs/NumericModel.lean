import Verif.Common.Bytes
/-
Model of the numeric header fields: /repo/tarfs/copied_go_std.go 296-369.
-/
namespace Verif.Tarfs

/-- copied_go_std.go 328-338, the loop of the base-256 branch of `parseNumeric`; `none` is the overflow of lines 333-336.  `x` is
below 2^56 when it is shifted, so the shift by 8 is the exact product. -/
def b256Loop (inv : UInt8) : (first : Bool) → (x : Nat) → List UInt8 → Option Nat
  | _, x, [] => some x
  | first, x, c :: rest =>
    let c := c ^^^ inv
    let c := if first then c &&& 0x7f else c
    if x / 2 ^ 56 > 0 then none else b256Loop inv false (x * 256 + c.toNat) rest

/-- ASCII space or NUL, the cut set of copied_go_std.go 359. -/
def isPad (c : UInt8) : Bool := c == 32 || c == 0

/-- std `bytes.Trim(b, " \x00")`. -/
def trimPad (b : Bytes) : Bytes := ((b.dropWhile isPad).reverse.dropWhile isPad).reverse

/-- copied_go_std.go 302-307 `parseString`: up to the first NUL. -/
def cString (b : Bytes) : Bytes := b.takeWhile (· ≠ 0)

/-- ASCII octal digit. -/
def isOct (c : UInt8) : Bool := 48 ≤ c && c ≤ 55

/-- Value of a string of octal digits. -/
def octVal (b : Bytes) : Nat := b.foldl (fun a c => a * 8 + (c.toNat - 48)) 0

/-- std `strconv.ParseUint(s, 8, 64)`: success exactly on non-empty strings of octal digits below 2^64. -/
def parseUint8 (b : Bytes) : Option Nat :=
  if b ≠ [] ∧ b.all isOct ∧ octVal b < 2 ^ 64 then some (octVal b) else none

/-- copied_go_std.go 353-369 `parseOctal`; `none`: `p.err` was set.  The conversion `int64(x)` wraps. -/
def parseOctal (b : Bytes) : Option Int :=
  let b := trimPad b
  if b = [] then some 0
  else match parseUint8 (cString b) with
    | none => none
    | some x => some (wrap64 x)

/-- copied_go_std.go 312-351 `parseNumeric`; `none`: `p.err` was set.  `^int64(x)` is `-x-1`. -/
def parseNumeric (b : Bytes) : Option Int :=
  match b with
  | [] => parseOctal b
  | b0 :: _ =>
    if b0 &&& 0x80 ≠ 0 then
      let inv : UInt8 := if b0 &&& 0x40 ≠ 0 then 0xff else 0
      match b256Loop inv true 0 b with
      | none => none
      | some x => if x / 2 ^ 63 > 0 then none else if inv = 0xff then some (-(x : Int) - 1) else some (x : Int)
    else parseOctal b

end Verif.Tarfs
