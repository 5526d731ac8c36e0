import Verif.Common.Bytes
import Verif.Common.Str
/-
Model of /repo/stream/httprange: Content-Range parsing, range views, metadata pinning and the bounded ReadAt.
The sequential stream lane is in LaneModel.lean.

Responses are records of the header fields the code looks at.  Not modelled: error texts, contexts, draining of bodies.
-/
namespace Verif.Http

/-! ### content_range.go -/

/-- std `unicode.IsSpace`. -/
def isSpace (c : Char) : Bool :=
  c.toNat ∈ [0x20, 0x09, 0x0A, 0x0B, 0x0C, 0x0D, 0x85, 0xA0, 0x1680, 0x2000, 0x2001, 0x2002, 0x2003, 0x2004, 0x2005, 0x2006, 0x2007,
    0x2008, 0x2009, 0x200A, 0x2028, 0x2029, 0x202F, 0x205F, 0x3000]

/-- std `strings.TrimSpace`. Simplification: header values are valid UTF-8. -/
def trimSpace (s : Str) : Str := ((s.dropWhile isSpace).reverse.dropWhile isSpace).reverse

/-- The characters std `strings.EqualFold` identifies with a lower case letter of "bytes".  `ſ` (U+017F) folds to `s`. -/
def foldEq (c l : Char) : Bool := c = l || c = l.toUpper || (l = 's' && c.toNat = 0x17F)

/-- std `strings.EqualFold(unit, "bytes")`. -/
def isBytesUnit (u : Str) : Bool :=
  match u with
  | [a, b, c, d, e] => foldEq a 'b' && foldEq b 'y' && foldEq c 't' && foldEq d 'e' && foldEq e 's'
  | _ => false

/-- content_range.go 62-72 `parseDecimal`. -/
def parseDecimal (s : Str) : Option Int :=
  if s = [] then none
  else if s.all (fun c => '0' ≤ c && c ≤ '9') then parseInt64 s
  else none

/-- content_range.go 19-58 `parseContentRange`; `none` is an error, start and end are -1 for the unsatisfied form. -/
def parseContentRange (v : Str) : Option (Int × Int × Int) :=
  match cutFirst ' ' (trimSpace v) with
  | none => none
  | some (unit, spec) =>
    if !isBytesUnit unit then none
    else match cutFirst '/' (spec.dropWhile (· = ' ')) with
      | none => none
      | some (rangeSpec, totalSpec) =>
        match parseDecimal totalSpec with
        | none => none
        | some total =>
          if rangeSpec = ['*'] then some (-1, -1, total)
          else match cutFirst '-' rangeSpec with
            | none => none
            | some (firstSpec, lastSpec) =>
              match parseDecimal firstSpec with
              | none => none
              | some start =>
                match parseDecimal lastSpec with
                | none => none
                | some end_ => if end_ < start ∨ end_ ≥ total then none else some (start, end_, total)

/-! ### range.go -/

/-- range.go 13-16 `view`. -/
structure View where
  base : Int
  length : Int
deriving DecidableEq, Repr

/-- range.go 21-26 `end`; int64 arithmetic. -/
def View.end_ (v : View) : Int :=
  if v.length ≥ wrap64 (maxInt64 - v.base) then maxInt64 else wrap64 (v.base + v.length)

/-- range.go 32-41 `locate`: the clipped length and the absolute offset; `none` is `ok = false`. -/
def View.locate (v : View) (len : Nat) (off : Int) : Option (Nat × Int) :=
  if off ≥ wrap64 (v.end_ - v.base) then none
  else
    let abs := wrap64 (v.base + off)
    let avail := wrap64 (v.end_ - abs)
    some (if (len : Int) > avail then avail.toNat else len, abs)

/-- httprange.go 234: the view of `New`. -/
def wholeView : View := ⟨0, maxInt64⟩

/-- range.go 49-72 `NewRange`, the view it computes; `none` is an error. -/
def newRange (off n : Int) : Option View :=
  if off < 0 then none
  else
    let limit := if off ≤ wrap64 (maxInt64 - n) then wrap64 (off + n) else maxInt64
    some ⟨off, wrap64 (limit - off)⟩

/-! ### responses and metadata -/

/-- What the code looks at in an `*http.Response`. `headerId` stands for the complete header map. -/
structure Resp where
  status : Nat
  contentRange : Str := []
  etag : Str := []
  lastModified : Str := []
  origin : Str := []
  contentEncoding : Str := []
  uncompressed : Bool := false
  contentLength : Int := -1
  headerId : Nat := 0
  body : Bytes := []
  /-- the body ends with a transport error instead of EOF -/
  bodyErr : Bool := false
deriving DecidableEq, Repr

/-- httprange.go 83-105 `objectMeta`. -/
structure ObjMeta where
  etag : Str := []
  lastModified : Str := []
  origin : Str := []
  size : Int := 0
  sizeKnown : Bool := false
  header : Option Nat := none
  verified : Bool := false
deriving DecidableEq, Repr

/-- httprange.go 109-121 `metaFromResponse`. -/
def metaFromResponse (r : Resp) (total : Int) : ObjMeta :=
  { etag := r.etag, lastModified := r.lastModified, origin := r.origin, size := total, sizeKnown := true,
    header := some r.headerId, verified := true }

/-- httprange.go 126-157 `completedBy` on a non-nil receiver: the filled description and whether anything was taken. -/
def ObjMeta.completedBy (m o : ObjMeta) : ObjMeta × Bool :=
  let tEtag : Bool := m.etag = [] ∧ o.etag ≠ []
  let tLm : Bool := m.lastModified = [] ∧ o.lastModified ≠ []
  let tOrigin : Bool := m.origin = [] ∧ o.origin ≠ []
  let tSize := !m.sizeKnown && o.sizeKnown
  let tVer := !m.verified && o.verified
  let tHdr := m.header.isNone && o.header.isSome
  ({ etag := if tEtag then o.etag else m.etag
     lastModified := if tLm then o.lastModified else m.lastModified
     origin := if tOrigin then o.origin else m.origin
     size := if tSize then o.size else m.size
     sizeKnown := m.sizeKnown || tSize
     header := if tHdr then o.header else m.header
     verified := m.verified || tVer },
   tEtag || tLm || tOrigin || tSize || tVer || tHdr)

/-- reader_at.go 250-268 `mismatch` (true = contradiction). -/
def mismatch (m : Option ObjMeta) (r : Resp) (total : Int) : Bool :=
  match m with
  | none => false
  | some m =>
    (m.sizeKnown && decide (total ≠ m.size)) ||
    decide (r.etag ≠ [] ∧ m.etag ≠ [] ∧ r.etag ≠ m.etag) ||
    decide (r.lastModified ≠ [] ∧ m.lastModified ≠ [] ∧ r.lastModified ≠ m.lastModified) ||
    decide (r.origin ≠ [] ∧ m.origin ≠ [] ∧ r.origin ≠ m.origin)

/-- httprange.go 173-185 `pinOrVerify` without interference: the new description, or `none` for a contradiction.
The interleaved version is in PinModel.lean. -/
def pinOrVerify (m : Option ObjMeta) (r : Resp) (total : Int) : Option (Option ObjMeta) :=
  if mismatch m r total then none
  else some (some (match m with
    | none => metaFromResponse r total
    | some m => (m.completedBy (metaFromResponse r total)).1))

/-- httprange.go 189-195 `knownSize`. -/
def knownSize : Option ObjMeta → Option Int
  | none => none
  | some m => if m.sizeKnown then some m.size else none

/-- httprange.go 302-311 `checkContentEncoding`. Simplification: "identity" is matched after ASCII lower-casing. -/
def encodingOk (r : Resp) : Bool :=
  !r.uncompressed && (r.contentEncoding = [] || r.contentEncoding.map Char.toLower = "identity".toList)

/-- httprange.go 327-338 `emptyEntity`. -/
def emptyEntity (r : Resp) : Bool :=
  if r.contentLength = 0 then true
  else if r.contentLength = -1 then r.body = [] && !r.bodyErr
  else false

/-- reader_at.go 275-283 `ifRangeValue`. -/
def ifRangeValue (m : Option ObjMeta) : Str :=
  match m with
  | none => []
  | some m => if m.etag ≠ [] ∧ ¬ hasPrefix m.etag "W/".toList then m.etag else m.lastModified

/-- httprange.go 236-253: the description `New` starts from. -/
def priorMeta (etag lastModified : Str) (size : Int) : Option ObjMeta :=
  if etag ≠ [] ∨ lastModified ≠ [] ∨ size > 0 then
    some { etag := etag, lastModified := lastModified, size := size, sizeKnown := decide (size > 0) }
  else none

/-! ### reader_at.go -/

/-- Errors of `ReadAt`. -/
inductive HErr where
  | eof | negativeOffset | transport | encoding | objectChanged | rangeIgnored | badStatus | badContentRange | unexpectedEOF
deriving DecidableEq, Repr

/-- reader_at.go 134-152 `readUnsatisfied`. -/
def readUnsatisfied (m : Option ObjMeta) (r : Resp) (off : Int) : Option ObjMeta × HErr :=
  match parseContentRange r.contentRange with
  | none => (m, .badStatus)
  | some (start, _, total) =>
    if start ≠ -1 then (m, .badStatus)
    else match pinOrVerify m r total with
      | none => (m, .objectChanged)
      | some m' => if off < total then (m', .objectChanged) else (m', .eof)

/-- reader_at.go 216-243 `checkPartial`: the new description with the number of bytes and the total, or an error. -/
def checkPartial (m : Option ObjMeta) (r : Resp) (off length : Int) : Option ObjMeta × Except HErr (Int × Int) :=
  match parseContentRange r.contentRange with
  | none => (m, .error .badContentRange)
  | some (start, end_, total) =>
    let wantEnd := off + length - 1
    if start ≠ off ∨ end_ > wantEnd ∨ (end_ ≠ wantEnd ∧ end_ ≠ total - 1) then (m, .error .objectChanged)
    else match pinOrVerify m r total with
      | none => (m, .error .objectChanged)
      | some m' => (m', .ok (end_ - start + 1, total))

/-- What `ReadAt` asks for: nothing to ask (with the immediate result), or a range. reader_at.go 22-42. -/
inductive Plan where
  | done (e : Option HErr)
  | ask (len : Nat) (abs : Int)
deriving DecidableEq, Repr

/-- reader_at.go 22-42. -/
def readPlan (v : View) (m : Option ObjMeta) (len : Nat) (off : Int) : Plan :=
  if off < 0 then .done (some .negativeOffset)
  else match v.locate len off with
    | none => .done (some .eof)
    | some (len, abs) =>
      match knownSize m with
      | some size =>
        if abs ≥ size then .done (some .eof)
        else
          let avail := size - abs
          let len := if (len : Int) > avail then avail.toNat else len
          if len = 0 then .done none else .ask len abs
      | none => if len = 0 then .done none else .ask len abs

/-- reader_at.go 57-125: what happens to the response. -/
def handleResp (v : View) (m : Option ObjMeta) (ifRange : Bool) (len : Nat) (abs : Int) (resp : Option Resp) :
    Option ObjMeta × Bytes × Option HErr :=
  match resp with
  | none => (m, [], some .transport)
  | some r =>
    if !encodingOk r then (m, [], some .encoding)
    else if r.status = 206 then
      match checkPartial m r abs len with
      | (m', .error e) => (m', [], some e)
      | (m', .ok (avail, total)) =>
        -- io.ReadFull(resp.Body, p[:avail])
        if (r.body.length : Int) < avail then
          (m', r.body, some (if r.bodyErr then .transport else .unexpectedEOF))
        else
          let n := avail.toNat
          let reached := abs + n
          (m', r.body.take n, if reached = total ∨ reached = v.end_ then some .eof else none)
    else if r.status = 416 then
      let (m', e) := readUnsatisfied m r abs
      (m', [], some e)
    else if r.status = 200 then
      if r.contentRange = [] ∧ emptyEntity r then
        match pinOrVerify m r 0 with
        | none => (m, [], some .objectChanged)
        | some m' => (m', [], some .eof)
      else if ifRange then (m, [], some .objectChanged)
      else (m, [], some .rangeIgnored)
    else (m, [], some .badStatus)

/-- reader_at.go 21-126 `ReadAt` on a reader without a stream lane.  `resp` is the answer to the request, if one is made. -/
def readAt (v : View) (m : Option ObjMeta) (len : Nat) (off : Int) (resp : Option Resp) : Option ObjMeta × Bytes × Option HErr :=
  match readPlan v m len off with
  | .done e => (m, [], e)
  | .ask len abs => handleResp v m (ifRangeValue m ≠ []) len abs resp

/-- probe.go 42-132 `probe`. -/
def probe (m : Option ObjMeta) (resp : Option Resp) : Option ObjMeta × Option HErr :=
  match resp with
  | none => (m, some .transport)
  | some r =>
    if !encodingOk r then (m, some .encoding)
    else if r.status = 206 then
      match parseContentRange r.contentRange with
      | none => (m, some .badContentRange)
      | some (start, end_, total) =>
        if start ≠ 0 ∨ end_ ≠ 0 then (m, some .objectChanged)
        else match pinOrVerify m r total with
          | none => (m, some .objectChanged)
          | some m' => (m', none)
    else if r.status = 416 then
      match parseContentRange r.contentRange with
      | none => (m, some .badStatus)
      | some (start, _, total) =>
        if start ≠ -1 then (m, some .badStatus)
        else match pinOrVerify m r total with
          | none => (m, some .objectChanged)
          | some m' => if total > 0 then (m', some .objectChanged) else (m', none)
    else if r.status = 200 then
      if r.contentRange ≠ [] ∨ !emptyEntity r then (m, some .rangeIgnored)
      else match pinOrVerify m r 0 with
        | none => (m, some .objectChanged)
        | some m' => (m', none)
    else (m, some .badStatus)

end Verif.Http
