import Verif.Stream.MultiModel
/-
Specification vocabulary for the virtual concatenation: what the parts hold and what
a well-behaved underlying reader may answer.  Nothing here refers to the search or the loops.
-/
namespace Verif.Stream

/-- One part handed to the constructor: a reader, the bytes it really holds, and the size the caller declared. -/
structure Part where
  R : ReaderFn
  content : Bytes
  declared : Nat

/-- The `SizedReaderAt` the caller passes for this part. -/
def Part.sized (p : Part) : Sized := ⟨p.R, p.declared⟩

/-- What any reader over content `c` may answer.  It is the `io.ReaderAt` contract, relaxed to allow short
reads with a nil error as long as they make progress. -/
def Delivers (R : ReaderFn) (c : Bytes) : Prop :=
  ∀ call len off, ∃ b e, R call len off = (b, e) ∧
    b = slice c off b.length ∧ b.length ≤ len ∧
    (e = none ∨ e = some .eof) ∧
    (e = some .eof → c.length ≤ off + b.length) ∧
    (e = none → 0 < len → 0 < b.length)

/-- The part's reader behaves and its declared size is right. -/
def Part.Honest (p : Part) : Prop := Delivers p.R p.content ∧ p.declared = p.content.length

/-- The byte string the caller believes to be reading. -/
def concat (parts : List Part) : Bytes := (parts.map (·.content)).flatten

/-- Total declared size. -/
def declaredTotal (parts : List Part) : Nat := (parts.map (·.declared)).sum

/-- The byte at a virtual position according to the declared layout; `none` when the part that should hold it does not. -/
def vbyte : List Part → Nat → Option UInt8
  | [], _ => none
  | p :: rest, pos => if pos < p.declared then p.content[pos]? else vbyte rest (pos - p.declared)

/-- `bs` is what the declared layout holds from `off` on. -/
def AgreesAt (parts : List Part) (off : Nat) (bs : Bytes) : Prop :=
  ∀ j, j < bs.length → vbyte parts (off + j) = bs[j]?

/-- A reader that always fills the buffer as far as its content goes and reports EOF when it could not fill it,
like `bytes.Reader`, `os.File` or `io.SectionReader`. -/
def fullReader (c : Bytes) : ReaderFn := fun _ len off =>
  let b := slice c off len
  (b, if b.length < len then some .eof else none)

/-- A reader that hands out at most one byte per call. -/
def dribbleReader (c : Bytes) : ReaderFn := fun _ len off =>
  let b := slice c off (min len 1)
  (b, if b.length < min len 1 then some .eof else none)

end Verif.Stream
