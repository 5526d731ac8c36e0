import Verif.Stream.MultiModel
/-
Models of /repo/stream/seq_reader_at.go, repeat.go, cancellable.go, multi_read_closer.go and
/repo/stream/internal/serr/gathered.go.
-/
namespace Verif.Stream

/-! ### seq_reader_at.go -/

/-- The world a `seqReaderAt` talks to.  Every answer may depend on the number of earlier interactions (`clock`).
`openErr clock off` is the error of the opener; `read clock pos len` is the answer of the open stream that stands at
absolute position `pos`; `closeErr clock` the error of closing the stream.  Open and close errors are numbered codes, distinct from
`io.EOF` (the code wraps the former, line 98). -/
structure SeqEnv where
  openErr : (clock off : Nat) → Option Nat
  read : (clock pos len : Nat) → ReadRes
  closeErr : (clock : Nat) → Option Nat

/-- seq_reader_at.go 17-22 `seqReaderAt`.  `current` is the absolute position of the really open stream (a fact about the
world, which the code does not see), `off` the offset the code believes it to be at.  `opens` logs the opener calls. -/
structure Seq where
  size : Nat
  current : Option Nat
  off : Nat
  clock : Nat
  opens : List Nat

/-- seq_reader_at.go 48-52 `NewSeqReaderAt`. -/
def newSeq (size : Nat) : Seq := { size, current := none, off := 0, clock := 0, opens := [] }

/-- seq_reader_at.go 106-125, the read loop, with the stream at world position `pos`; `none`: did not end within `fuel` rounds. -/
def seqLoop (env : SeqEnv) : (fuel : Nat) → (s : Seq) → (pos len : Nat) → (acc : Bytes) → Option (Seq × ReadRes)
  | _, s, pos, 0, acc => some ({ s with current := some pos }, acc, none)
  | 0, _, _, _ + 1, _ => none
  | fuel + 1, s, pos, len + 1, acc =>
    let (b, err) := env.read s.clock pos (len + 1)
    let s := { s with clock := s.clock + 1, off := s.off + b.length }
    match err with
    | some .eof => some ({ s with current := none, clock := s.clock + 1 }, acc ++ b, some .eof)
    | some e => some ({ s with current := none, clock := s.clock + 1 }, acc ++ b, some e)
    | none => seqLoop env fuel s (pos + b.length) (len + 1 - b.length) (acc ++ b)

/-- seq_reader_at.go 88-104: make sure a stream stands at `off`; the new state with the stream's position, or the error. -/
def seqEnsure (env : SeqEnv) (s : Seq) (off : Nat) : Seq × Except RErr Nat :=
  let reopen (s : Seq) : Seq × Except RErr Nat :=
    match env.openErr s.clock off with
    | some e => ({ s with clock := s.clock + 1, opens := s.opens ++ [off] }, .error (.other e))
    | none => ({ s with clock := s.clock + 1, opens := s.opens ++ [off], current := some off, off := off }, .ok off)
  match s.current with
  | none => reopen s
  | some pos =>
    if off ≠ s.off then
      match env.closeErr s.clock with
      | some e => ({ s with clock := s.clock + 1, current := none }, .error (.other e))
      | none => reopen { s with clock := s.clock + 1, current := none }
    else (s, .ok pos)

/-- seq_reader_at.go 72-131 `ReadAt`. -/
def Seq.readAt (env : SeqEnv) (s : Seq) (fuel len : Nat) (off : Int) : Option (Seq × ReadRes) :=
  if off < 0 then some (s, [], some .einval)
  else
    let o := off.toNat
    if o ≥ s.size then some (s, [], some .eof)
    else
      let avail := s.size - o
      let maxExceeded := decide (len > avail)
      let l := if len > avail then avail else len
      match seqEnsure env s o with
      | (s, .error e) => some (s, [], some e)
      | (s, .ok pos) =>
        match seqLoop env fuel s pos l [] with
        | none => none
        | some (s, bs, some e) => some (s, bs, some e)
        | some (s, bs, none) => some (s, bs, if maxExceeded then some .eof else none)

/-! ### repeat.go -/

/-- repeat.go 22-27 `ByteRepeater.Read`. -/
def repeaterRead (b : UInt8) (len : Nat) : ReadRes := (List.replicate len b, none)
/-- repeat.go 28-33 `ByteRepeater.ReadAt`; the offset is ignored. -/
def repeaterReadAt (b : UInt8) (len : Nat) (_off : Int) : ReadRes := (List.replicate len b, none)

/-! ### cancellable.go -/

/-- cancellable.go 8-12.  `calls` counts the reads of the underlying reader. -/
structure Cancellable where
  err : Option RErr
  calls : Nat

/-- cancellable.go 34-39 `NewCancellable`. -/
def newCancellable : Cancellable := { err := none, calls := 0 }

/-- cancellable.go 41-54 `Read`.  `ctxErr` is `ctx.Err()` at the time of the call (line 45), `under` the answer the underlying reader
would give to its `calls`-th read. -/
def Cancellable.read (c : Cancellable) (ctxErr : Option RErr) (under : Nat → ReadRes) : Cancellable × ReadRes :=
  match c.err with
  | some e => (c, [], some e)
  | none =>
    match ctxErr with
    | some e => ({ c with err := some e }, [], some e)
    | none =>
      let (b, err) := under c.calls
      ({ err := err, calls := c.calls + 1 }, b, err)

/-! ### internal/serr/gathered.go -/

/-- gathered.go 27-66 `Gather`: `none` is a nil result, `some es` the `gathered` error wrapping `es`. -/
def gather {ε : Type} (errs : List (Option ε)) : Option (List ε) :=
  if errs.length = 0 then none
  else
    let filtered := errs.filterMap id
    if filtered.length = 0 then none else some filtered

/-- gathered.go 120-145 `GatherPrefixed` (prefix text dropped): nil errors are kept as entries when there is a non-nil one. -/
def gatherPrefixed {ε : Type} (errs : List (Option ε)) : Option (List (Option ε)) :=
  if errs.length = 0 then none
  else if errs.any Option.isSome then some errs else none

/-! ### multi_read_closer.go -/

/-- A sequential part: what is left to read from it, and the error its `Close` returns. -/
structure SeqPart where
  left : Bytes
  closeErr : Option RErr

/-- std `io.MultiReader.Read` over parts, each of which hands out between 1 and `len` bytes per read (the number chosen by the
oracle `pick`), reporting EOF with or after its last byte (`early`).  `len` is the buffer length. -/
def multiRead (pick : Nat → Nat) (early : Nat → Bool) (call len : Nat) : List Bytes → List Bytes × ReadRes
  | [] => ([], [], some .eof)
  | part :: rest =>
    let k := min (min len (pick call + 1)) part.length
    let b := part.take k
    let left := part.drop k
    let eof : Bool := left.isEmpty && (early call || part.isEmpty)
    if eof then
      if b.length > 0 then (rest, b, if rest.isEmpty then some .eof else none)
      else multiRead pick early (call + 1) len rest
    else (left :: rest, b, none)

/-- multi_read_closer.go 33-39 `Close`, the loop: closer `i` is closed and its error collected. `log` lists the closed indices. -/
def multiCloseLoop : (i : Nat) → (closers : List (Option RErr)) → (log : List Nat) → (errs : List (Option RErr)) →
    List Nat × Option (List (Option RErr))
  | _, [], log, errs => (log, gatherPrefixed errs)
  | i, c :: rest, log, errs => multiCloseLoop (i + 1) rest (log ++ [i]) (errs ++ [c])

/-- multi_read_closer.go 33-39 `Close` (also multi_read_at_closer.go 257-265). -/
def multiClose (closers : List (Option RErr)) : List Nat × Option (List (Option RErr)) := multiCloseLoop 0 closers [] []

end Verif.Stream
