import Verif.Common.Bytes
/-
Model of /repo/stream/multi_read_at_closer.go.
-/
namespace Verif.Stream

/-- Errors a reader can report.  `MultiReadError` (multi_read_at_closer.go 21-49) is reduced to the
error it wraps, since callers tell the cases apart with `errors.Is`; the plain `io.EOF` is `eof`. -/
inductive RErr where
  | eof
  | unexpectedEOF
  | invalidSize
  | einval
  | other (code : Nat)
deriving DecidableEq, Repr

/-- Result of a Go `Read`/`ReadAt`: the bytes placed in the buffer (their number is `n`) and the error (`none` = nil). -/
abbrev ReadRes := Bytes × Option RErr

/-- A `ReaderAt` as an oracle: the answer may depend on the number of the call (`call`), so one reader can
deliver different short reads at different times.  Arguments: call number, `len(p)`, offset. -/
abbrev ReaderFn := (call len off : Nat) → ReadRes

/-- multi_read_at_closer.go 51-54 `SizedReaderAt`.  Simplification: `Size` is a natural number (a negative
declared size is a caller error), and sums do not overflow int64. -/
structure Sized where
  R : ReaderFn
  size : Nat

/-- multi_read_at_closer.go 96-102 `sizedReaderAt`. -/
structure SizedAt where
  R : ReaderFn
  size : Nat
  headOff : Nat

/-- multi_read_at_closer.go 111-116 `multiReadAtSeekCloser`. -/
structure Multi where
  idx : Nat
  off : Nat
  upperLimit : Nat
  r : List SizedAt

/-- multi_read_at_closer.go 121-129, the translation loop with its accumulator. -/
def translate (accum : Nat) : List Sized → List SizedAt
  | [] => []
  | rr :: rest => ⟨rr.R, rr.size, accum⟩ :: translate (accum + rr.size) rest

/-- multi_read_at_closer.go 122,128: the accumulator after the loop. -/
def totalSize : Nat → List Sized → Nat
  | accum, [] => accum
  | accum, rr :: rest => totalSize (accum + rr.size) rest

/-- multi_read_at_closer.go 120-134 `NewMultiReadAtSeekCloser`. -/
def newMulti (readers : List Sized) : Multi :=
  { idx := 0, off := 0, upperLimit := totalSize 0 readers, r := translate 0 readers }

/-- multi_read_at_closer.go 276-281, the linear scan of `search`; `none` is -1. -/
def linearSearch (off : Nat) : List SizedAt → Option Nat
  | [] => none
  | rr :: rest =>
    if rr.headOff ≤ off ∧ off < rr.headOff + rr.size then some 0
    else (linearSearch off rest).map (· + 1)

/-- multi_read_at_closer.go 285-294, the comparison function of `binarySearch`. -/
def segCmp (off : Nat) (r : SizedAt) : Int :=
  if off < r.headOff then 1
  else if r.headOff ≤ off ∧ off < r.headOff + r.size then 0
  else -1

/-- std `slices.BinarySearchFunc`, the loop: `for i < j { h := (i+j)/2; if cmp(x[h]) < 0 {i = h+1} else {j = h} }`. -/
def bsLoop (off : Nat) (rs : List SizedAt) (i j : Nat) : Nat :=
  if i < j then
    let m := (i + j) / 2
    match rs[m]? with
    | none => i
    | some r => if segCmp off r < 0 then bsLoop off rs (m + 1) j else bsLoop off rs i m
  else i
termination_by j - i
decreasing_by all_goals omega

/-- multi_read_at_closer.go 284-299 `binarySearch`. -/
def binarySearch (off : Nat) (rs : List SizedAt) : Option Nat :=
  let i := bsLoop off rs 0 rs.length
  match rs[i]? with
  | none => none
  | some r => if segCmp off r = 0 then some i else none

/-- multi_read_at_closer.go 267 `searchThreshold`. -/
def searchThreshold : Nat := 32

/-- multi_read_at_closer.go 269-282 `search`. -/
def search (off : Nat) (rs : List SizedAt) : Option Nat :=
  if rs.length > searchThreshold then binarySearch off rs else linearSearch off rs

/-- multi_read_at_closer.go 157-170 / 242-254: what `Read` and `readAt` do with the answer of one segment.
`last` says whether segment index is `len(r.r)-1` or beyond. -/
def classify (rem : Nat) (isLast : Bool) (b : Bytes) (err : Option RErr) : ReadRes :=
  if err ≠ none ∧ err ≠ some .eof then (b, err)
  else if b.length > rem then (b, some .invalidSize)
  else if err = some .eof ∧ b.length = 0 ∧ rem > 0 then (b, some .unexpectedEOF)
  else if err = some .eof ∧ !isLast then (b, none)
  else (b, err)

/-- multi_read_at_closer.go 224-255 `readAt`.  `call` is the number of reader calls made so far. -/
def Multi.readAt1 (m : Multi) (call len off : Nat) : ReadRes :=
  if off ≥ m.upperLimit then ([], some .eof)
  else match search off m.r with
    | none => ([], some .eof)
    | some i =>
      match m.r[i]? with
      | none => ([], some .eof)   -- unreachable: `search` returns an index in range
      | some rr =>
        let readerOff := off - rr.headOff
        let (b, err) := rr.R call len readerOff
        classify (rr.size - readerOff) (decide (m.r.length ≤ i + 1)) b err

/-- multi_read_at_closer.go 209-220, the loop of `ReadAt`.  `fuel` bounds the iterations; `none` means that the loop
did not end within it (the Go loop would go on). -/
def Multi.readAtLoop (m : Multi) (maxExceeded : Bool) : (fuel call len off : Nat) → (acc : Bytes) → Option ReadRes
  | 0, _, _, _, _ => none
  | fuel + 1, call, len, off, acc =>
    let (b, err) := m.readAt1 call len off
    if b.length = len ∨ err ≠ none then
      let err := if maxExceeded ∧ err = none then some .eof else err
      some (acc ++ b, err)
    else m.readAtLoop maxExceeded fuel (call + 1) (len - b.length) (off + b.length) (acc ++ b)

/-- multi_read_at_closer.go 200-221 `ReadAt`. -/
def Multi.readAt (m : Multi) (fuel call len : Nat) (off : Int) : Option ReadRes :=
  if off < 0 ∨ off ≥ m.upperLimit then some ([], some .eof)
  else
    let o := off.toNat
    let max := m.upperLimit - o
    if len > max then m.readAtLoop true fuel call max o []
    else m.readAtLoop false fuel call len o []

/-- multi_read_at_closer.go 136-171 `Read`.  `none` is a panic (index out of range at line 142). -/
def Multi.read (m : Multi) (call len : Nat) : Option (Multi × ReadRes) :=
  if m.off ≥ m.upperLimit then some (m, [], some .eof)
  else match search m.off (m.r.drop m.idx) with
    | none => none
    | some i =>
      match (m.r.drop m.idx)[i]? with
      | none => none
      | some rr =>
        let readerOff := m.off - rr.headOff
        let (b, err) := rr.R call len readerOff
        let m' := if b.length > 0 ∨ err = some .eof then { m with idx := m.idx + i, off := m.off + b.length } else m
        some (m', classify (rr.size - readerOff) (decide (m.r.length ≤ m'.idx + 1)) b err)

/-- `whence` arguments of Seek: io.SeekStart / io.SeekCurrent / io.SeekEnd / anything else. -/
inductive Whence where
  | start | current | end_ | bad
deriving DecidableEq, Repr

/-- multi_read_at_closer.go 173-197 `Seek`; the additions wrap like int64. The result is the new position or an error. -/
def Multi.seek (m : Multi) (offset : Int) (w : Whence) : Option (Multi × Except RErr Nat) :=
  let target : Option Int := match w with
    | .bad => none
    | .start => some offset
    | .current => some (wrap64 (offset + m.off))
    | .end_ => some (wrap64 (offset + m.upperLimit))
  match target with
  | none => some (m, .error .einval)
  | some o =>
    if o < 0 then some (m, .error .einval)
    else
      let o := o.toNat
      if o ≥ m.upperLimit then some ({ m with off := o, idx := m.r.length }, .ok o)
      else match search o m.r with
        | none => none   -- idx would become -1
        | some i => some ({ m with off := o, idx := i }, .ok o)

end Verif.Stream
