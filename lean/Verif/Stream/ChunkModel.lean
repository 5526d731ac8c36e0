import Verif.Stream.MultiModel
import Verif.Common.Str
/-
Models of /repo/stream/fileserver/chunk.go and client.go.
-/
namespace Verif.Stream.Chunk

/-! ### chunk.go -/

/-- chunk.go 19-25 `chunkCount`.  Simplification: natural numbers (sizes are non-negative and sums do not overflow). -/
def chunkCount (totalSize chunkSize : Nat) : Nat :=
  if totalSize = 0 then 1 else (totalSize + chunkSize - 1) / chunkSize

/-- chunk.go 30-44 `expectedChunkSize`. -/
def expectedChunkSize (i totalSize chunkSize : Nat) : Nat :=
  let n := chunkCount totalSize chunkSize
  if i < n - 1 then chunkSize
  else if totalSize = 0 then 0
  else
    let rem := totalSize % chunkSize
    if rem = 0 then chunkSize else rem

/-- chunk.go 19-25 `chunkCount` with its int64 arithmetic; Go's `/` truncates. -/
def chunkCount64 (totalSize chunkSize : Int) : Int :=
  if totalSize = 0 then 1 else (wrap64 (wrap64 (totalSize + chunkSize) - 1)).tdiv chunkSize

/-- chunk.go 30-44 `expectedChunkSize` with its int64 arithmetic; Go's `%` truncates. -/
def expectedChunkSize64 (i totalSize chunkSize : Int) : Int :=
  let n := chunkCount64 totalSize chunkSize
  if i < wrap64 (n - 1) then chunkSize
  else if totalSize = 0 then 0
  else
    let rem := totalSize.tmod chunkSize
    if rem = 0 then chunkSize else rem

/-- What `ChunkedSource.Open` returns. -/
inductive OpenRes where
  | err
  | empty
  | multi (m : Multi)

/-- chunk.go 127-135: one segment per chunk from `first` on.  `R i` is the `SeqReaderAt` of chunk `i`, whose behaviour is the subject
of C05; here it is an arbitrary reader. -/
def chunkSegments (R : Nat → ReaderFn) (total cs first nChunks : Nat) : List Sized :=
  (List.range' first (nChunks - first)).map (fun i => ⟨R i, expectedChunkSize i total cs⟩)

/-- chunk.go 98-150 `ChunkedSource.Open`.  `none` is a panic inside `Seek`. -/
def sourceOpen (R : Nat → ReaderFn) (total cs : Nat) (offset : Int) : Option OpenRes :=
  if offset < 0 then some .err
  else
    let offset := offset.toNat
    if offset > total then some .err
    else if offset = total then some .empty
    else
      let nChunks := chunkCount total cs
      let firstChunk := offset / cs
      let intraOffset := offset % cs
      let multi := newMulti (chunkSegments R total cs firstChunk nChunks)
      if intraOffset > 0 then
        match multi.seek intraOffset .start with
        | none => none
        | some (_, .error _) => some .err
        | some (m, .ok _) => some (.multi m)
      else some (.multi multi)

/-- The chunk objects on the server: chunk index to stored content.  The naming function of the caller is assumed injective. -/
abbrev Store := Nat → Option Bytes

/-- Result of `ChunkedSink.State`. -/
structure SinkState where
  offset : Nat
  complete : Bool
deriving DecidableEq, Repr

/-- chunk.go 203-218, the probing loop from chunk `i`, `fuel` chunks to go.  `statFail i` says that the probe of chunk `i` fails with an
error other than not-exist. -/
def stateLoop (store : Store) (statFail : Nat → Bool) (total cs : Nat) : (fuel i : Nat) → Option SinkState
  | 0, _ => some { offset := total, complete := true }
  | fuel + 1, i =>
    if statFail i then none
    else match store i with
      | none => some { offset := i * cs, complete := false }
      | some b =>
        if b.length ≠ expectedChunkSize i total cs then some { offset := i * cs, complete := false }
        else stateLoop store statFail total cs fuel (i + 1)

/-- chunk.go 199-221 `ChunkedSink.State`; `none` is an error. -/
def sinkState (store : Store) (statFail : Nat → Bool) (total cs : Nat) : Option SinkState :=
  stateLoop store statFail total cs (chunkCount total cs) 0

/-- What happens to one chunk upload (spooling to a temporary file included). -/
inductive PutOutcome where
  /-- success -/
  | ok
  /-- failed, nothing stored (also: temp file creation or seek failed) -/
  | failUnchanged
  /-- the answer was lost but the chunk was stored -/
  | failWritten
  /-- a crash or broken connection left the first `k` bytes visible under the chunk's name -/
  | failPartial (k : Nat)
deriving DecidableEq, Repr

/-- chunk.go 250-299, the upload loop.  `src` is what the reader still delivers, `srcErr` whether it then fails (else EOF).
`fuel` = chunks to go.  Returns the store and whether Append returned nil. -/
def appendLoop (put : Nat → PutOutcome) (srcErr : Bool) (total cs : Nat) : (fuel i : Nat) → (src : Bytes) → Store → Store × Bool
  | 0, _, _, store => (store, true)
  | fuel + 1, i, src, store =>
    let expected := expectedChunkSize i total cs
    let piece := src.take expected
    let written := piece.length
    if written < expected ∧ srcErr then (store, false)            -- 267-272
    else if written < expected ∧ i < chunkCount total cs - 1 then (store, false)   -- 276-282
    else match put i with
      | .ok => appendLoop put srcErr total cs fuel (i + 1) (src.drop expected) (fun j => if j = i then some piece else store j)
      | .failUnchanged => (store, false)
      | .failWritten => (fun j => if j = i then some piece else store j, false)
      | .failPartial k => (fun j => if j = i then some (piece.take k) else store j, false)

/-- chunk.go 236-301 `ChunkedSink.Append`. -/
def sinkAppend (put : Nat → PutOutcome) (total cs offset : Nat) (src : Bytes) (srcErr : Bool) (store : Store) : Store × Bool :=
  if offset % cs ≠ 0 then (store, false)
  else
    let startChunk := offset / cs
    appendLoop put srcErr total cs (chunkCount total cs - startChunk) startChunk src store

/-! ### client.go -/

/-- client.go 294-315 `parseTotalFromContentRange`. -/
def parseTotal (s : Str) : Option Int :=
  if s = [] then none
  else
    let s := trimPrefix s "bytes ".toList
    match afterLast '/' s with
    | none => none
    | some totalStr => if totalStr = ['*'] then none else parseInt64 totalStr

/-- Outcome of `HTTPClient.Get`. -/
inductive GetRes where
  | body (total : Int)      -- the response body is handed to the caller
  | ignoredRange
  | badContentRange
  | notExist
  | badStatus
deriving DecidableEq, Repr

/-- client.go 176-218, the status switch of `HTTPClient.Get`. -/
def getDecision (offset : Int) (status : Nat) (contentRange : Str) (contentLength : Int) : GetRes :=
  if status = 200 then
    if offset > 0 then .ignoredRange else .body contentLength
  else if status = 206 then
    match parseTotal contentRange with
    | none => .badContentRange
    | some total => .body total
  else if status = 404 ∨ status = 410 then .notExist
  else .badStatus

end Verif.Stream.Chunk
