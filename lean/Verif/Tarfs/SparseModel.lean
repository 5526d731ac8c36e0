import Verif.Stream.MultiModel
import Verif.Common.Str
/-
Models of the sparse-file part of /repo/tarfs: copied_go_std.go 31-87 and 179-290, headers.go 83-104 and 185-213, reader.go.
-/
namespace Verif.Tarfs

/-- copied_go_std.go 31 `sparseEntry`.  Offsets and lengths are exact integers; the theorems are about maps that passed
`validate`, whose sums do not leave the int64 range. -/
structure Frag where
  off : Int
  len : Int
deriving DecidableEq, Repr

/-- copied_go_std.go 33 `endOffset`. -/
def Frag.stop (f : Frag) : Int := f.off + f.len

/-- std archive/tar `validateSparseEntries` (common.go): `tar.Reader.Next` runs it on the very same map before the header is
handed to `Sections` (headers.go 65), and fails otherwise.  `pre` is the end of the previous fragment. -/
def validateFrom (size : Int) : (pre : Int) → List Frag → Bool
  | _, [] => true
  | pre, f :: rest =>
    decide (0 ≤ f.off) && decide (0 ≤ f.len) && decide (f.off ≤ maxInt64 - f.len) && decide (f.stop ≤ size)
      && decide (pre ≤ f.off) && validateFrom size f.stop rest

/-- std archive/tar `validateSparseEntries`. -/
def validate (sp : List Frag) (size : Int) : Bool := decide (0 ≤ size) && validateFrom size 0 sp

/-- copied_go_std.go 75-84, one round of the loop of `invertSparseEntries` in place: `dst` shares its array with `src`
(line 73), so `arr` is that array, `k` is `len(dst)`, `i` the index of the range loop, `pre` is `pre.Offset`. -/
def invertLoop : (todo : Nat) → (arr : List Frag) → (i k : Nat) → (pre : Int) → List Frag × Nat × Int
  | 0, arr, _, k, pre => (arr, k, pre)
  | todo + 1, arr, i, k, pre =>
    match arr[i]? with
    | none => (arr, k, pre)
    | some cur =>
      if cur.len = 0 then invertLoop todo arr (i + 1) k pre
      else if cur.off - pre > 0 then invertLoop todo (arr.set k ⟨pre, cur.off - pre⟩) (i + 1) (k + 1) cur.stop
      else invertLoop todo arr (i + 1) k cur.stop

/-- copied_go_std.go 72-87 `invertSparseEntries`: the result is `append(dst, pre)`, that is the first `k` cells of the
shared array followed by the last fragment. -/
def invert (src : List Frag) (size : Int) : List Frag :=
  let (arr, k, pre) := invertLoop src.length src 0 0 0
  arr.take k ++ [⟨pre, size - pre⟩]

/-! ### Reading -/

open Verif.Stream

/-- std `io.NewSectionReader(r, base, n).ReadAt`. -/
def sectionAt (R : ReaderFn) (base n : Nat) : ReaderFn := fun call len off =>
  if n ≤ off then ([], some .eof)
  else
    let max := n - off
    if max < len then
      let (b, e) := R call max (base + off)
      (b, if e = none then some .eof else e)
    else R call len (base + off)

/-- stream/repeat.go 28-33: `NewByteRepeater(0).ReadAt`. -/
def zeros : ReaderFn := fun _ len _ => (List.replicate len 0, none)

/-- reader.go 23-39, the loop over the holes.  `prev` is the end of the previous hole, `cur` the position in the stored body.
The accumulated `size` is the sum of the sizes of the readers. -/
def makeLoop (ra : ReaderFn) (bodyStart : Nat) : (prev : Int) → (cur : Nat) → List Frag → List Sized
  | _, _, [] => []
  | prev, cur, h :: rest =>
    let space := h.off - prev
    (if space ≠ 0 then [⟨sectionAt ra (bodyStart + cur) space.toNat, space.toNat⟩] else [])
      ++ ⟨sectionAt zeros 0 h.len.toNat, h.len.toNat⟩
      :: makeLoop ra bodyStart h.stop (if space ≠ 0 then cur + space.toNat else cur) rest

/-- reader.go 20-46 `makeReader` for a member with a sparse map, up to the call of `NewMultiReadAtSeekCloser`. -/
def makeParts (ra : ReaderFn) (bodyStart : Nat) (holes : List Frag) (size : Int) : List Sized :=
  let rs := makeLoop ra bodyStart 0 0 holes
  let total : Nat := (rs.map (·.size)).sum
  if size > total then rs ++ [⟨sectionAt zeros 0 (size - total).toNat, (size - total).toNat⟩] else rs

/-- reader.go 46. -/
def makeReader (ra : ReaderFn) (bodyStart : Nat) (holes : List Frag) (size : Int) : Multi :=
  newMulti (makeParts ra bodyStart holes size)

/-- headers.go 94-103: the end of the stored body of a member with holes. -/
def bodyEnd (headerEnd size : Int) (holes : List Frag) : Int := headerEnd + size - (holes.map (·.len)).sum

/-- reader.go 16-18 `makeReader` for a member without a sparse map: a section of the archive from the body's start
to its end, which headers.go 94 puts at `headerEnd + size`. -/
def plainReader (ra : ReaderFn) (bodyStart size : Nat) : ReaderFn := sectionAt ra bodyStart size

end Verif.Tarfs
