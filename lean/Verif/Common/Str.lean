/-
Strings as character lists, and models of the Go standard string helpers the code uses.
Go strings are byte strings; all functions here only inspect ASCII characters, so a list of
characters is a faithful stand-in.
-/
namespace Verif

abbrev Str := List Char

/-- std `strings.HasPrefix` -/
def hasPrefix (s p : Str) : Bool := p.isPrefixOf s

/-- std `strings.TrimPrefix` -/
def trimPrefix (s p : Str) : Str := if p.isPrefixOf s then s.drop p.length else s

/-- std `strings.CutPrefix` -/
def cutPrefix (s p : Str) : Option Str := if p.isPrefixOf s then some (s.drop p.length) else none

/-- std `strings.Cut(s, string(sep))`: before and after the first `sep`. -/
def cutFirst (sep : Char) : Str → Option (Str × Str)
  | [] => none
  | c :: rest => if c = sep then some ([], rest) else (cutFirst sep rest).map (fun (a, b) => (c :: a, b))

/-- What follows the last `sep` (`s[strings.LastIndex(s, sep)+1:]`), `none` if there is none. -/
def afterLast (sep : Char) : Str → Option Str
  | [] => none
  | c :: rest =>
    match afterLast sep rest with
    | some r => some r
    | none => if c = sep then some rest else none

/-- Value of a decimal digit. -/
def digitVal (c : Char) : Option Nat := if '0' ≤ c ∧ c ≤ '9' then some (c.toNat - '0'.toNat) else none

/-- Decimal digits to a number, left to right; `none` if a character is not a digit. -/
def digitsVal : (acc : Nat) → Str → Option Nat
  | acc, [] => some acc
  | acc, c :: rest => match digitVal c with
    | none => none
    | some d => digitsVal (acc * 10 + d) rest

/-- std `strconv.ParseUint(s, 10, 64)` restricted to success/failure: non-empty decimal digits below 2^64. -/
def parseUint64 (s : Str) : Option Nat :=
  if s = [] then none
  else match digitsVal 0 s with
    | none => none
    | some v => if v < 2 ^ 64 then some v else none

/-- std `strconv.ParseInt(s, 10, 64)` restricted to success/failure: optional sign, digits, int64 range. -/
def parseInt64 (s : Str) : Option Int :=
  match s with
  | [] => none
  | c :: rest =>
    let (neg, ds) := if c = '-' then (true, rest) else if c = '+' then (false, rest) else (false, c :: rest)
    if ds = [] then none
    else match digitsVal 0 ds with
      | none => none
      | some v =>
        if neg then (if v ≤ 2 ^ 63 then some (-(v : Int)) else none)
        else (if v < 2 ^ 63 then some (v : Int) else none)

/-- Decimal representation, the inverse direction (std `strconv.FormatInt` for naturals / `%d`). -/
def natDigits (n : Nat) : Str := Nat.toDigits 10 n

end Verif
