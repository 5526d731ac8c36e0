import Verif.Common.Str
import Verif.Tarfs.NumericModel
import Verif.Tarfs.SparseModel
/-
Model of how the map of a sparse file is found and read: /repo/tarfs/copied_go_std.go 178-294 and headers.go 139-237.
-/
namespace Verif.Tarfs.Map

inductive Err where
  | header          -- tar.ErrHeader
  | eof             -- io.EOF
  | unexpectedEOF   -- io.ErrUnexpectedEOF
  | fault           -- any other error of the reader
  deriving DecidableEq

/-- How the reader below behaves: how many bytes its k-th call gives at most (at least one), whether it fails there, and whether the end is reported
together with the last bytes. -/
structure Env where
  size : Nat → Nat
  fault : Nat → Bool
  eager : Nat → Bool

/-- The `io.SectionReader` over the bytes from headerStart to headerEnd (headers.go 144): what it covers, its position, and the number of calls so far. -/
structure Rd where
  data : Bytes
  pos : Nat
  calls : Nat

def Rd.rest (r : Rd) : Bytes := r.data.drop r.pos

/-- One `Read` of at most `len` bytes. -/
def Rd.read (e : Env) (r : Rd) (len : Nat) : Bytes × Option Err × Rd :=
  let d := r.rest.take (min len (max 1 (e.size r.calls)))
  let r' : Rd := ⟨r.data, r.pos + d.length, r.calls + 1⟩
  if e.fault r.calls then (d, some .fault, r')
  else if r.rest = [] then (d, some .eof, r')
  else if r'.rest = [] ∧ e.eager r.calls = true then (d, some .eof, r')
  else (d, none, r')

/-- copied_go_std.go 188-198 `tryReadFull`; the fuel is the number of reads, each gives a byte or ends the loop. -/
def tryReadFull (e : Env) (want : Nat) : (fuel : Nat) → (got : Bytes) → Rd → Option (Bytes × Option Err × Rd)
  | 0, _, _ => none
  | fuel + 1, got, r =>
    if want ≤ got.length then some (got, none, r)
    else match r.read e (want - got.length) with
      | (d, none, r1) => tryReadFull e want fuel (got ++ d) r1
      | (d, some er, r1) => some (got ++ d, if want = (got ++ d).length ∧ er = .eof then none else some er, r1)

/-- copied_go_std.go 180-186 `mustReadFull` of one block. -/
def mustReadBlock (e : Env) (r : Rd) : Option (Bytes × Option Err × Rd) :=
  match tryReadFull e 512 513 [] r with
  | none => none
  | some (b, er, r1) => some (b, if er = some .eof then some .unexpectedEOF else er, r1)

/-- The newlines in a piece of text. -/
def newlines (b : Bytes) : Nat := b.count 10

/-- What `readGNUSparseMap1x0` keeps (copied_go_std.go 200-204). -/
structure Tok where
  cnt : Int
  buf : Bytes
  rd : Rd

/-- copied_go_std.go 208-221 `feedTokens`; the fuel is the number of blocks. -/
def feed (e : Env) (n : Int) : (fuel : Nat) → Tok → Option (Except Err Tok)
  | 0, _ => none
  | fuel + 1, t =>
    if t.cnt < n then match mustReadBlock e t.rd with
      | none => none
      | some (_, some er, _) => some (.error er)
      | some (blk, none, r1) => feed e n fuel ⟨t.cnt + newlines blk, t.buf ++ blk, r1⟩
    else some (.ok t)

/-- copied_go_std.go 225-229 `nextToken`: std `Buffer.ReadString('\n')` (all there is when there is no newline) and `strings.TrimRight(tok, "\n")`. -/
def nextToken (t : Tok) : Str × Tok :=
  let line := t.buf.takeWhile (· ≠ 10)
  (line.map fun b => Char.ofNat b.toNat, ⟨t.cnt - 1, t.buf.drop (line.length + 1), t.rd⟩)

/-- copied_go_std.go 248-255: `n` entries, two tokens each. -/
def entries : (n : Nat) → Tok → Except Err (List Frag × Tok)
  | 0, t => .ok ([], t)
  | n + 1, t =>
    let (a, t1) := nextToken t
    let (b, t2) := nextToken t1
    match parseInt64 a, parseInt64 b with
    | some off, some len => match entries n t2 with
      | .error er => .error er
      | .ok (l, t3) => .ok (⟨off, len⟩ :: l, t3)
    | _, _ => .error .header

/-- The check of copied_go_std.go 237 and 264 on a number of entries: an int of 64 bits. -/
def badCount (n : Int) : Bool := decide (n < 0) || decide (wrap64 (2 * n) < n)

/-- copied_go_std.go 199-257 `readGNUSparseMap1x0`. -/
def read1x0 (e : Env) (fuel : Nat) (r : Rd) : Option (Except Err (List Frag × Rd)) :=
  match feed e 1 fuel ⟨0, [], r⟩ with
  | none => none
  | some (.error er) => some (.error er)
  | some (.ok t) =>
    let (tok, t1) := nextToken t
    match parseInt64 tok with
    | none => some (.error .header)
    | some n =>
      if badCount n then some (.error .header)
      else match feed e (wrap64 (2 * n)) fuel t1 with
        | none => none
        | some (.error er) => some (.error er)
        | some (.ok t2) => match entries n.toNat t2 with
          | .error er => some (.error er)
          | .ok (l, t3) => some (.ok (l, t3.rd))

/-- std `strings.Split(s, ",")`. -/
def splitComma : Str → List Str
  | [] => [[]]
  | c :: s => if c = ',' then [] :: splitComma s else match splitComma s with
    | [] => [[c]]
    | a :: l => (c :: a) :: l

/-- copied_go_std.go 282-291. -/
def pairs : List Str → Option (List Frag)
  | a :: b :: l => match parseInt64 a, parseInt64 b with
    | some off, some len => (pairs l).map (⟨off, len⟩ :: ·)
    | _, _ => none
  | _ => some []

/-- copied_go_std.go 259-293 `readGNUSparseMap0x1`: the records GNU.sparse.numblocks and GNU.sparse.map; `none`: ErrHeader. -/
def read0x1 (numblocks map : Str) : Option (List Frag) :=
  match parseInt64 numblocks with
  | none => none
  | some n =>
    if badCount n then none
    else
      let m := splitComma map
      let m := if m = [[]] then [] else m
      if (m.length : Int) ≠ wrap64 (2 * n) then none else pairs m

/-- headers.go 190-201: the entries of one table; `none`: ErrHeader. -/
def table : (slots : Nat) → Bytes → Option (List Frag)
  | 0, _ => some []
  | slots + 1, b =>
    if b.head? = some 0 then some []
    else match parseNumeric (b.take 12), parseNumeric ((b.drop 12).take 12) with
      | some off, some len => (table slots (b.drop 24)).map (⟨off, len⟩ :: ·)
      | _, _ => none

/-- headers.go 189-212: a table of `slots` entries, and those of the extension blocks (512 bytes, 21 entries) as long as the byte behind a table is set. -/
def oldLoop (e : Env) : (fuel : Nat) → (slots : Nat) → Bytes → Rd → Option (Except Err (List Frag × Rd))
  | 0, _, _, _ => none
  | fuel + 1, slots, b, r => match table slots b with
    | none => some (.error .header)
    | some l =>
      if (b.drop (24 * slots)).head? ≠ some 0 then match mustReadBlock e r with
        | none => none
        | some (_, some er, _) => some (.error er)
        | some (blk, none, r1) => match oldLoop e fuel 21 blk r1 with
          | some (.ok (l', r2)) => some (.ok (l ++ l', r2))
          | x => x
      else some (.ok (l, r))

/-- headers.go 185-213 `readOldGNUSparseMap`, with copied_go_std.go 135 `sparse`: four entries in the header block. -/
def readOld (e : Env) (fuel : Nat) (blk : Bytes) (r : Rd) : Option (Except Err (List Frag × Rd)) := oldLoop e fuel 4 ((blk.drop 386).take 97) r

/-- headers.go 215-237 `readGNUSparsePAXHeaders`: which map there is, by the records of the file. -/
inductive Which where
  | none_ | v0 | v1
  deriving DecidableEq

def which (recs : Str → Str) : Which :=
  let major := recs "GNU.sparse.major".toList
  let minor := recs "GNU.sparse.minor".toList
  if major = ['0'] ∧ (minor = ['0'] ∨ minor = ['1']) then .v0
  else if major = ['1'] ∧ minor = ['0'] then .v1
  else if major ≠ [] ∨ minor ≠ [] then .none_
  else if recs "GNU.sparse.map".toList ≠ [] then .v0
  else .none_

/-- headers.go 169-183 `handleSparseFile` before the map is inverted; `typeflag` and `recs` are of the header that archive/tar gives. The result is
`none` if the file is not sparse. -/
def handle (e : Env) (fuel : Nat) (typeflag : UInt8) (recs : Str → Str) (blk : Bytes) (r : Rd) : Option (Except Err (Option (List Frag))) :=
  if typeflag = 83 then match readOld e fuel blk r with
    | none => none
    | some (.error er) => some (.error er)
    | some (.ok (l, _)) => some (.ok (some l))
  else match which recs with
    | .none_ => some (.ok none)
    | .v0 => match read0x1 (recs "GNU.sparse.numblocks".toList) (recs "GNU.sparse.map".toList) with
      | none => some (.error .header)
      | some l => some (.ok (some l))
    | .v1 => match read1x0 e fuel r with
      | none => none
      | some (.error er) => some (.error er)
      | some (.ok (l, _)) => some (.ok (some l))

/-- std `io.ReadFull(sr, blk[:])`: EOF only if nothing was read. -/
def readFull (e : Env) (r : Rd) : Option (Bytes × Option Err × Rd) :=
  match tryReadFull e 512 513 [] r with
  | none => none
  | some (b, er, r1) => some (b, if er = some .eof ∧ b ≠ [] then some .unexpectedEOF else er, r1)

/-- headers.go 154-155 and 159-160: the size field (0 if it cannot be parsed) rounded up to blocks, and a `Seek` by it, whose failure is ignored. -/
def skip (blk : Bytes) (r : Rd) : Rd :=
  let size := (parseNumeric ((blk.drop 124).take 12)).getD 0
  let size := wrap64 (size + (-size) % 512)
  if (r.pos : Int) + size < 0 then r else ⟨r.data, ((r.pos : Int) + size).toNat, r.calls⟩

/-- The typeflags x, g, L and K. -/
def isMeta (c : UInt8) : Bool := c == 120 || c == 103 || c == 76 || c == 75

/-- headers.go 147-166: the loop over the blocks before the header of the file itself. -/
def findHeader (e : Env) (typeflag : UInt8) (recs : Str → Str) : (fuel : Nat) → Rd → Option (Except Err (Option (List Frag)))
  | 0, _ => none
  | fuel + 1, r => match readFull e r with
    | none => none
    | some (b, er, r1) =>
      if (er ≠ none ∧ er ≠ some .eof) ∨ b = [] then (match er with | some x => some (.error x) | none => some (.ok none))
      else match (b.drop 156).head? with
        | none => none
        | some c => if isMeta c then findHeader e typeflag recs fuel (skip b r1) else handle e fuel typeflag recs b r1

/-- headers.go 139-167 `reconstructSparse`, with 177-179: the holes of the file. -/
def reconstruct (e : Env) (fuel : Nat) (typeflag : UInt8) (size : Int) (recs : Str → Str) (region : Bytes) : Option (Except Err (Option (List Frag))) :=
  if typeflag = 103 then some (.ok none)
  else match findHeader e typeflag recs fuel ⟨region, 0, 0⟩ with
    | some (.ok (some l)) => some (.ok (some (invert l size)))
    | x => x

end Verif.Tarfs.Map
