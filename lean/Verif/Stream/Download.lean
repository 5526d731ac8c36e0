import Verif.Stream.Upload
/-
C135: reading an object in chunks over the HTTP client, end to end: ChunkedSource.Open (/repo/stream/fileserver/chunk.go 98-150), which puts one seqReaderAt (/repo/stream/seq_reader_at.go)
per chunk below a multiReadAtSeekCloser (/repo/stream/multi_read_at_closer.go), on HTTPClient.Get (client.go 153-218) and a truthful server.

C10 takes chunk readers that always deliver, C05 one chunk reader over any opener. Here the parts are put together, with their states, and everything may fail: requests, reads of
bodies, and closing them.
-/
namespace Verif.Stream.Download
open Verif Verif.Path Verif.Url Verif.Http.Request Verif.Stream.FileUrl Verif.Stream.FileClient Verif.Stream.Chunk Verif.Stream.Upload

/-! ### Model -/

/-- The network. Every answer may depend on the number of interactions before it (`clock`): the answer to a request, if there is one; what a `Read` of a body with `rest` left gives; the error
of closing a body. -/
structure Net where
  answer : (clock : Nat) → Req → Option Resp
  cut : (clock : Nat) → (rest : Bytes) → (len : Nat) → ReadRes
  closeErr : (clock : Nat) → Option Nat

/-- seq_reader_at.go 17-22 `seqReaderAt`: what is left of the open body, and `off`. -/
structure Reader where
  cur : Option Bytes
  off : Nat

/-- chunk.go 129-133: the opener of chunk `i`; `none` is an error. -/
def openAt (net : Net) (c : Conn) (i clock off : Nat) : Option Bytes :=
  match net.answer clock (getReq c.base c.configured (c.name i) off) with
  | none => none
  | some r => match getResult off r with
    | .body _ => some r.body
    | _ => none

/-- seq_reader_at.go 106-125: the read loop; `none`: it did not end within `fuel` rounds. -/
def loop (net : Net) : (fuel clock : Nat) → (rest : Bytes) → (off len : Nat) → (acc : Bytes) → Option (Nat × Reader × ReadRes)
  | _, clock, rest, off, 0, acc => some (clock, ⟨some rest, off⟩, acc, none)
  | 0, _, _, _, _ + 1, _ => none
  | fuel + 1, clock, rest, off, len + 1, acc =>
    let (b, err) := net.cut clock rest (len + 1)
    match err with
    | some e => some (clock + 1, ⟨none, off + b.length⟩, acc ++ b, some e)
    | none => loop net fuel (clock + 1) (rest.drop b.length) (off + b.length) (len + 1 - b.length) (acc ++ b)

/-- seq_reader_at.go 95-103. -/
def reopen (net : Net) (c : Conn) (i clock off : Nat) (rd : Reader) : Nat × Reader × Option RErr :=
  match openAt net c i clock off with
  | none => (clock + 1, { rd with cur := none }, some (.other 0))
  | some body => (clock + 1, ⟨some body, off⟩, none)

/-- seq_reader_at.go 87-104: a body that stands at `off`, or an error. -/
def ensure (net : Net) (c : Conn) (i clock off : Nat) (rd : Reader) : Nat × Reader × Option RErr :=
  match rd.cur with
  | none => reopen net c i clock off rd
  | some _ =>
    if off ≠ rd.off then
      match net.closeErr clock with
      | some e => (clock + 1, { rd with cur := none }, some (.other e))
      | none => reopen net c i (clock + 1) off rd
    else (clock, rd, none)

/-- seq_reader_at.go 72-131 `ReadAt` of the reader of chunk `i`. -/
def readAt (net : Net) (c : Conn) (i clock : Nat) (rd : Reader) (size len off : Nat) : Option (Nat × Reader × ReadRes) :=
  if off ≥ size then some (clock, rd, [], some .eof)
  else
    let avail := size - off
    let l := if len > avail then avail else len
    match ensure net c i clock off rd with
    | (clock, rd, some e) => some (clock, rd, [], some e)
    | (clock, rd, none) => match rd.cur with
      | none => none
      | some rest => match loop net l clock rest rd.off l [] with
        | none => none
        | some (clock, rd, bs, some e) => some (clock, rd, bs, some e)
        | some (clock, rd, bs, none) => some (clock, rd, bs, if len > avail then some .eof else none)

/-- The stream `Open` returns: the concatenation, whose own readers are not used, the number of its first chunk, and the readers of the chunks. -/
structure World where
  clock : Nat
  m : Multi
  first : Nat
  readers : Nat → Reader

/-- multi_read_at_closer.go 136-171 `Read`, with the readers of chunks; `none` is a panic or a loop without end. -/
def read (net : Net) (c : Conn) (w : World) (len : Nat) : Option (World × ReadRes) :=
  if w.m.off ≥ w.m.upperLimit then some (w, [], some .eof)
  else match search w.m.off (w.m.r.drop w.m.idx) with
    | none => none
    | some i => match (w.m.r.drop w.m.idx)[i]? with
      | none => none
      | some rr =>
        let k := w.first + (w.m.idx + i)
        match readAt net c k w.clock (w.readers k) rr.size len (w.m.off - rr.headOff) with
        | none => none
        | some (clock, rd, b, err) =>
          let m := if b.length > 0 ∨ err = some .eof then { w.m with idx := w.m.idx + i, off := w.m.off + b.length } else w.m
          some ({ w with clock := clock, m := m, readers := fun j => if j = k then rd else w.readers j },
            classify (rr.size - (w.m.off - rr.headOff)) (decide (w.m.r.length ≤ m.idx + 1)) b err)

/-- chunk.go 98-150 `Open` at an offset below the size (ChunkModel.lean; the other offsets are those of C10). -/
def openSource (total cs offset : Nat) : Option World :=
  match sourceOpen (fun _ _ _ _ => ([], none)) total cs offset with
  | some (.multi m) => some { clock := 0, m := m, first := offset / cs, readers := fun _ => ⟨none, 0⟩ }
  | _ => none

/-- Reads one after the other. -/
def reads (net : Net) (c : Conn) : World → List Nat → Option (List ReadRes)
  | _, [] => some []
  | w, len :: lens => match read net c w len with
    | none => none
    | some (w, r) => (reads net c w lens).map (r :: ·)

/-! ### Specification -/

/-- The server is truthful, and a body is given piece by piece, with an end only at its end; whether anything is answered or given is open. -/
structure Truthful (c : Conn) (objs : Objects) (net : Net) : Prop where
  answers : ∀ clock req resp, net.answer clock req = some resp → Honest c.root objs req resp objs
  bodies : ∀ clock rest len, (net.cut clock rest len).1 <+: rest ∧ (net.cut clock rest len).1.length ≤ len ∧
    ((net.cut clock rest len).2 = some .eof → (net.cut clock rest len).1 = rest) ∧
    ((net.cut clock rest len).2 = none → 0 < len → (net.cut clock rest len).1 ≠ [])

/-- Nothing fails: a request for bytes that are there is answered with them. -/
structure Calm (c : Conn) (objs : Objects) (net : Net) : Prop where
  answers : ∀ clock i off d, objs (c.name i) = some d → off < d.length → ∃ resp total, net.answer clock (getReq c.base c.configured (c.name i) off) = some resp ∧ getResult off resp = .body total
  bodies : ∀ clock rest len, (net.cut clock rest len).2 = none ∨ (net.cut clock rest len).2 = some .eof
  closes : ∀ clock, net.closeErr clock = none

/-- What a stream of `rest` may give to reads of these lengths: always the bytes that come next, some of them if there is no error, and the end only with the last of them. -/
def Explains : Bytes → List Nat → List ReadRes → Prop
  | _, [], [] => True
  | rest, len :: lens, (b, e) :: outs => b <+: rest ∧ b.length ≤ len ∧ (e = none → 0 < len → b ≠ []) ∧ (e = some .eof → b = rest) ∧ Explains (rest.drop b.length) lens outs
  | _, _, _ => False

/-! ### Lemmas -/

theorem slice_prefix {d b : Bytes} {off : Nat} (h : b <+: d.drop off) : b = slice d off b.length := by
  obtain ⟨t, ht⟩ := h
  rw [slice, ← ht, List.take_left']
  rfl

def RdInv (d : Bytes) (rd : Reader) : Prop := ∀ rest, rd.cur = some rest → rest = d.drop rd.off

theorem loop_spec {c : Conn} {objs : Objects} {net : Net} (ht : Truthful c objs net) (d : Bytes) : ∀ fuel clock off len acc, len ≤ fuel → off + len ≤ d.length →
    ∃ clock' rd' bs e, loop net fuel clock (d.drop off) off len acc = some (clock', rd', acc ++ bs, e) ∧ RdInv d rd' ∧ bs <+: d.drop off ∧ bs.length ≤ len ∧
      (e = none → bs.length = len) ∧ (e = some .eof → off + bs.length = d.length) ∧ (Calm c objs net → e = none ∨ e = some .eof) := by
  intro fuel
  induction fuel with
  | zero =>
    intro clock off len acc hf _
    have : len = 0 := by omega
    subst this
    exact ⟨clock, ⟨some (d.drop off), off⟩, [], none, by simp [loop], fun rest h => (by cases h; rfl), List.nil_prefix, by simp, fun _ => rfl, fun h => (by cases h), fun _ => .inl rfl⟩
  | succ fuel ih =>
    intro clock off len acc hf hlen
    cases len with
    | zero => exact ⟨clock, ⟨some (d.drop off), off⟩, [], none, by simp [loop], fun rest h => (by cases h; rfl), List.nil_prefix, by simp, fun _ => rfl, fun h => (by cases h), fun _ => .inl rfl⟩
    | succ len =>
      obtain ⟨h1, h2, h3, h4⟩ := ht.bodies clock (d.drop off) (len + 1)
      have hcalm := fun hc : Calm c objs net => hc.bodies clock (d.drop off) (len + 1)
      generalize hcut : net.cut clock (d.drop off) (len + 1) = res at h1 h2 h3 h4 hcalm
      obtain ⟨b, e⟩ := res
      simp only at h1 h2 h3 h4 hcalm
      have hbl : b.length ≤ d.length - off := by
        have := h1.length_le
        rw [List.length_drop] at this
        exact this
      cases e with
      | some e =>
        refine ⟨clock + 1, ⟨none, off + b.length⟩, b, some e, by simp [loop, hcut], fun rest h => (by cases h), h1, h2, fun h => (by cases h), ?_, hcalm⟩
        intro he
        have := congrArg List.length (h3 he)
        rw [List.length_drop] at this
        omega
      | none =>
        have hpos : 0 < b.length := List.length_pos_iff.2 (h4 rfl (by omega))
        obtain ⟨clock', rd', bs, e, g1, g2, g3, g4, g5, g6, g7⟩ := ih (clock + 1) (off + b.length) (len + 1 - b.length) (acc ++ b) (by omega) (by omega)
        refine ⟨clock', rd', b ++ bs, e, ?_, g2, ?_, by rw [List.length_append]; omega, fun h => (by rw [List.length_append, g5 h]; omega), fun h => (by rw [List.length_append]; have := g6 h; omega), g7⟩
        · simp only [loop, hcut, List.drop_drop]
          rw [g1, List.append_assoc]
        · obtain ⟨t, ht⟩ := h1
          obtain ⟨t', ht'⟩ := g3
          refine ⟨t', ?_⟩
          rw [List.append_assoc, ht', ← List.drop_drop, ← ht, List.drop_left']
          rfl

theorem openAt_spec {c : Conn} (hc : c.Good) (hcfg : valuesOf "Range".toList c.configured = []) {objs : Objects} {net : Net} (ht : Truthful c objs net) {i : Nat} {d : Bytes}
    (hd : objs (c.name i) = some d) (hsmall : d.length < 2 ^ 63) (clock off : Nat) (hoff : off < d.length) :
    (∀ body, openAt net c i clock off = some body → body = d.drop off) ∧ (Calm c objs net → ∃ body, openAt net c i clock off = some body) := by
  constructor
  · intro body h
    unfold openAt at h
    split at h
    · cases h
    · rename_i r hr
      have hon := ht.answers clock _ r hr
      split at h
      · rename_i total hres
        cases h
        obtain ⟨_, h1, _, _⟩ := C131_get_partial c.base hc.plain c.root hc.trimmed c.configured hcfg (c.name i) (hc.bytes i) off (by omega) objs objs
          (fun d' hd' => by rw [hd] at hd'; cases hd'; exact hsmall) r hon
        obtain ⟨d', hd', hb, _⟩ := h1 total hres
        rw [hd] at hd'
        cases hd'
        rw [hb, Int.toNat_natCast]
      · cases h
  · intro hcalm
    obtain ⟨resp, total, h1, h2⟩ := hcalm.answers clock i off d hd hoff
    refine ⟨resp.body, ?_⟩
    unfold openAt
    rw [h1]
    simp only [h2]

theorem ensure_spec {c : Conn} (hc : c.Good) (hcfg : valuesOf "Range".toList c.configured = []) {objs : Objects} {net : Net} (ht : Truthful c objs net) {i : Nat} {d : Bytes}
    (hd : objs (c.name i) = some d) (hsmall : d.length < 2 ^ 63) (clock off : Nat) (rd : Reader) (hrd : RdInv d rd) (hoff : off < d.length) :
    ∃ clock' rd' e, ensure net c i clock off rd = (clock', rd', e) ∧ RdInv d rd' ∧ (e = none → rd'.cur = some (d.drop off) ∧ rd'.off = off) ∧ e ≠ some .eof ∧ (Calm c objs net → e = none) := by
  have hre : ∀ clock, ∃ clock' rd' e, reopen net c i clock off rd = (clock', rd', e) ∧ RdInv d rd' ∧ (e = none → rd'.cur = some (d.drop off) ∧ rd'.off = off) ∧ e ≠ some .eof ∧
      (Calm c objs net → e = none) := by
    intro clock
    obtain ⟨h1, h2⟩ := openAt_spec hc hcfg ht hd hsmall clock off hoff
    unfold reopen
    cases ho : openAt net c i clock off with
    | none =>
      refine ⟨_, _, _, rfl, fun rest h => (by cases h), fun h => (by cases h), fun h => (by cases h), fun hcalm => ?_⟩
      obtain ⟨body, hb⟩ := h2 hcalm
      rw [ho] at hb
      cases hb
    | some body =>
      have := h1 body ho
      subst this
      exact ⟨_, _, _, rfl, fun rest h => (by cases h; rfl), fun _ => ⟨rfl, rfl⟩, fun h => (by cases h), fun _ => rfl⟩
  unfold ensure
  cases hcur : rd.cur with
  | none => exact hre clock
  | some rest =>
    simp only []
    by_cases ho : off ≠ rd.off
    · rw [if_pos ho]
      cases hcl : net.closeErr clock with
      | some e =>
        refine ⟨_, _, _, rfl, fun rest h => (by cases h), fun h => (by cases h), fun h => (by cases h), fun hcalm => ?_⟩
        have := hcalm.closes clock
        rw [hcl] at this
        cases this
      | none => exact hre (clock + 1)
    · rw [if_neg ho]
      have : off = rd.off := Classical.byContradiction ho
      refine ⟨_, _, _, rfl, hrd, fun _ => ⟨?_, this.symm⟩, fun h => (by cases h), fun _ => rfl⟩
      rw [hcur, this, hrd rest hcur]

theorem readAt_spec {c : Conn} (hc : c.Good) (hcfg : valuesOf "Range".toList c.configured = []) {objs : Objects} {net : Net} (ht : Truthful c objs net) {i : Nat} {d : Bytes}
    (hd : objs (c.name i) = some d) (hsmall : d.length < 2 ^ 63) (clock len off : Nat) (rd : Reader) (hrd : RdInv d rd) (hoff : off < d.length) :
    ∃ clock' rd' b e, readAt net c i clock rd d.length len off = some (clock', rd', b, e) ∧ RdInv d rd' ∧ b = slice d off b.length ∧ b.length ≤ len ∧ off + b.length ≤ d.length ∧
      (e = none → b.length = len) ∧ (e = some .eof → off + b.length = d.length) ∧ (Calm c objs net → e = none ∨ e = some .eof) := by
  obtain ⟨clock1, rd1, e1, h1, h2, h3, h4, h5⟩ := ensure_spec hc hcfg ht hd hsmall clock off rd hrd hoff
  unfold readAt
  rw [if_neg (by omega)]
  simp only [h1]
  cases e1 with
  | some e =>
    refine ⟨clock1, rd1, [], some e, rfl, h2, by simp [slice], by simp, by simp; omega, fun h => (by cases h), fun h => absurd h h4, fun hcalm => ?_⟩
    cases h5 hcalm
  | none =>
    obtain ⟨hcur, hro⟩ := h3 rfl
    simp only [hcur, hro]
    generalize hl : (if len > d.length - off then d.length - off else len) = l
    have hle : l ≤ len ∧ off + l ≤ d.length ∧ (¬len > d.length - off → l = len) ∧ (len > d.length - off → off + l = d.length) := by
      rw [← hl]; split <;> omega
    obtain ⟨clock2, rd2, bs, e, g1, g2, g3, g4, g5, g6, g7⟩ := loop_spec ht d l clock1 off l [] (Nat.le_refl _) (by omega)
    rw [g1]
    cases e with
    | some e =>
      exact ⟨clock2, rd2, bs, some e, by simp, g2, slice_prefix g3, by omega, by omega, fun h => (by cases h), g6, g7⟩
    | none =>
      have hbl := g5 rfl
      refine ⟨clock2, rd2, bs, if len > d.length - off then some .eof else none, by simp, g2, slice_prefix g3, by omega, by omega, ?_, ?_, ?_⟩
      · intro h
        split at h
        · cases h
        · omega
      · intro h
        split at h
        · omega
        · cases h
      · intro _
        split
        · exact .inr rfl
        · exact .inl rfl

/-- The parts of the concatenation and their contents. -/
def partsOf (content : Bytes) (cs first : Nat) : List Part := chunkParts (fun _ _ _ _ => ([], none)) content cs first (chunkCount content.length cs)

structure Inv (content : Bytes) (cs first : Nat) (w : World) : Prop where
  multi : MultiInv (partsOf content cs first) w.m
  first : w.first = first
  readers : ∀ i, i < chunkCount content.length cs → RdInv (chunkOf content cs i) (w.readers i)

theorem parts_get {content : Bytes} {cs first j : Nat} {p : Part} (h : (partsOf content cs first)[j]? = some p) :
    first + j < chunkCount content.length cs ∧ p.content = chunkOf content cs (first + j) ∧ p.declared = expectedChunkSize (first + j) content.length cs := by
  unfold partsOf chunkParts at h
  rw [List.getElem?_map, Option.map_eq_some_iff] at h
  obtain ⟨k, hk, rfl⟩ := h
  obtain ⟨hj, he⟩ := List.getElem?_eq_some_iff.1 hk
  rw [List.length_range'] at hj
  rw [List.getElem_range'] at he
  have : k = first + j := by omega
  subst this
  exact ⟨by omega, rfl, rfl⟩

theorem parts_declared {content : Bytes} {cs first : Nat} (hcs : 0 < cs) : ∀ p ∈ partsOf content cs first, p.declared = p.content.length := by
  intro p hp
  obtain ⟨j, hj⟩ := List.mem_iff_getElem?.1 hp
  obtain ⟨h1, h2, h3⟩ := parts_get hj
  rw [h2, h3, chunkOf_length content cs _ hcs h1]

theorem parts_concat {content : Bytes} {cs o : Nat} (hcs : 0 < cs) (ho : o < content.length) : concat (partsOf content cs (o / cs)) = content.drop (o / cs * cs) := by
  obtain ⟨hfirst, _⟩ := (C09_chunks_partition content.length cs hcs).2.2.2.2 o ho
  have hdm := Nat.div_add_mod o cs
  have hcm : cs * (o / cs) = (o / cs) * cs := Nat.mul_comm _ _
  have hs := sum_range_chunks content.length cs hcs (chunkCount content.length cs) (by omega)
  rw [(C09_chunks_partition content.length cs hcs).2.1] at hs
  simp only [concat, partsOf, chunkParts]
  rw [concat_chunks, slice, List.take_of_length_le]
  simp
  rw [Nat.sub_mul]
  omega

theorem read_spec {c : Conn} (hc : c.Good) (hcfg : valuesOf "Range".toList c.configured = []) {objs : Objects} {net : Net} (ht : Truthful c objs net) {content : Bytes} {cs first : Nat}
    (hcs : 0 < cs) (hlen : content.length < 2 ^ 63) (hall : ∀ i, i < chunkCount content.length cs → objs (c.name i) = some (chunkOf content cs i))
    (w : World) (inv : Inv content cs first w) (len : Nat) :
    ∃ w' b e, read net c w len = some (w', b, e) ∧ Inv content cs first w' ∧ w'.m.off = w.m.off + b.length ∧ b <+: (concat (partsOf content cs first)).drop w.m.off ∧ b.length ≤ len ∧
      (e = none → 0 < len → b ≠ []) ∧ (e = some .eof → b = (concat (partsOf content cs first)).drop w.m.off) ∧ (Calm c objs net → e = none ∨ e = some .eof) := by
  generalize hparts : partsOf content cs first = parts
  have hdec : ∀ p ∈ parts, p.declared = p.content.length := by rw [← hparts]; exact parts_declared hcs
  have hcl := concat_length parts hdec
  have inv' := inv.multi
  rw [hparts] at inv'
  unfold read
  by_cases hge : w.m.off ≥ w.m.upperLimit
  · rw [if_pos hge]
    have hnil : (concat parts).drop w.m.off = [] := List.drop_eq_nil_of_le (by rw [hcl, ← inv'.lim]; exact hge)
    exact ⟨w, [], some .eof, rfl, inv, by simp, List.nil_prefix, by simp, fun h => (by cases h), fun _ => hnil.symm, fun _ => .inr rfl⟩
  · rw [if_neg hge]
    have hidx := inv'.idx (by omega)
    have hlt : w.m.off < declaredTotal parts := by rw [← inv'.lim]; omega
    have hdr : w.m.r.drop w.m.idx = translate (0 + declaredTotal (parts.take w.m.idx)) ((parts.drop w.m.idx).map Part.sized) := by
      rw [inv'.r, translate_drop, ← List.map_take, sizeSum_sized, ← List.map_drop]
    rw [hdr]
    have htd : declaredTotal parts = declaredTotal (parts.take w.m.idx) + declaredTotal (parts.drop w.m.idx) := by
      rw [← declaredTotal_append, List.take_append_drop]
    obtain ⟨i, r, hs, hr, hh⟩ := search_translate (0 + declaredTotal (parts.take w.m.idx)) ((parts.drop w.m.idx).map Part.sized)
      w.m.off (by omega) (by rw [sizeSum_sized]; omega)
    rw [hs]
    simp only [hr]
    rw [translate_getElem?] at hr
    simp only [List.getElem?_map, Option.map_map, Option.map_eq_some_iff, Function.comp] at hr
    obtain ⟨p, hp, rfl⟩ := hr
    rw [List.getElem?_drop] at hp
    rw [← List.map_take, sizeSum_sized, Nat.zero_add] at *
    have htake : declaredTotal (parts.take w.m.idx) + declaredTotal ((parts.drop w.m.idx).take i) =
        declaredTotal (parts.take (w.m.idx + i)) := by
      rw [List.take_add, declaredTotal_append]
    simp only [Holds, Part.sized] at hh
    simp only [Part.sized]
    rw [htake] at hh ⊢
    have hpm : p ∈ parts := List.mem_iff_getElem?.mpr ⟨_, hp⟩
    have hpd := hdec p hpm
    obtain ⟨hk, hpc, _⟩ := parts_get (by rw [hparts]; exact hp)
    rw [inv.first]
    generalize hkk : first + (w.m.idx + i) = k at hk hpc ⊢
    generalize hH : declaredTotal (parts.take (w.m.idx + i)) = H at *
    have hsz : p.content.length < 2 ^ 63 := by
      rw [hpc, chunkOf, slice_length]
      omega
    obtain ⟨clock', rd', b, e, hR, hrd', hb, hble, hbsz, hnone, heof, hcalm⟩ := readAt_spec hc hcfg ht (i := k) (d := p.content) (by rw [hpc]; exact hall k hk) hsz w.clock len (w.m.off - H)
      (w.readers k) (by rw [hpc]; exact inv.readers k hk) (by omega)
    rw [hpd]
    simp only [hR]
    have hslice : b = slice (concat parts) w.m.off b.length := by
      have hAg : AgreesAt parts w.m.off b := by
        intro j hj
        rw [vbyte_at parts (w.m.idx + i) p (w.m.off + j) hp (by omega) (by omega), hH, hb, slice_getElem? _ _ _ _ hj]
        congr 1; omega
      exact hAg.eq_slice hdec
    have hpre : b <+: (concat parts).drop w.m.off := by
      rw [hslice]
      exact List.take_prefix _ _
    have htot : declaredTotal parts = H + p.declared + declaredTotal (parts.drop (w.m.idx + i + 1)) := by
      have : parts = parts.take (w.m.idx + i) ++ p :: parts.drop (w.m.idx + i+1) := by
        obtain ⟨h1, h2⟩ := List.getElem?_eq_some_iff.mp hp
        rw [← h2, List.getElem_cons_drop, List.take_append_drop]
      conv => lhs; rw [this]
      simp only [declaredTotal, List.map_append, List.sum_append, List.map_cons, List.sum_cons] at *
      omega
    have hinv' : MultiInv parts (if b.length > 0 ∨ e = some RErr.eof then { w.m with idx := w.m.idx + i, off := w.m.off + b.length } else w.m) := by
      split
      · refine ⟨inv'.r, inv'.lim, ?_⟩
        intro _
        simp only; rw [hH]; omega
      · exact inv'
    have hoff' : (if b.length > 0 ∨ e = some RErr.eof then { w.m with idx := w.m.idx + i, off := w.m.off + b.length } else w.m).off
        = w.m.off + b.length := by
      split
      · rfl
      · rename_i hc
        have : b.length = 0 := by omega
        omega
    have hidx' : e = some RErr.eof →
        (if b.length > 0 ∨ e = some RErr.eof then { w.m with idx := w.m.idx + i, off := w.m.off + b.length } else w.m).idx = w.m.idx + i := by
      intro h; rw [if_pos (Or.inr h)]
    generalize (if b.length > 0 ∨ e = some RErr.eof then { w.m with idx := w.m.idx + i, off := w.m.off + b.length } else w.m) = m'
      at hinv' hoff' hidx' ⊢
    have hcls : ∃ e', classify (p.content.length - (w.m.off - H)) (decide (w.m.r.length ≤ m'.idx + 1)) b e = (b, e') ∧
        (e' = none → 0 < len → 0 < b.length) ∧ (e' = some .eof → w.m.off + b.length = (concat parts).length) ∧ (Calm c objs net → e' = none ∨ e' = some .eof) := by
      unfold classify
      by_cases he1 : e ≠ none ∧ e ≠ some RErr.eof
      · rw [if_pos he1]
        exact ⟨e, rfl, fun h => absurd h he1.1, fun h => absurd h he1.2, hcalm⟩
      · rw [if_neg he1, if_neg (by omega)]
        split
        · rename_i hc
          have := heof hc.1; omega
        · split
          · rename_i h1 h2
            have := heof h2.1
            exact ⟨none, rfl, fun _ _ => by omega, fun h => (by cases h), fun _ => .inl rfl⟩
          · rename_i h1 h2
            refine ⟨e, rfl, fun h hl => (by have := hnone h; omega), fun h => ?_, hcalm⟩
            have h3 := heof h
            rw [hidx' h] at h2
            rw [h] at h2
            simp [inv'.r] at h2
            have h4 : parts.drop (w.m.idx + i + 1) = [] := List.drop_eq_nil_of_le (by omega)
            rw [h4] at htot
            simp [declaredTotal] at htot
            rw [hcl]; simp [declaredTotal]; omega
    obtain ⟨e', hcls, hc1, hc2, hc3⟩ := hcls
    rw [hcls]
    refine ⟨_, b, e', rfl, ⟨by rw [hparts]; exact hinv', inv.first ▸ rfl, ?_⟩, hoff', hpre, hble, fun h hl => List.length_pos_iff.1 (hc1 h hl), fun h => ?_, hc3⟩
    · intro j hj
      simp only
      split
      · rename_i he
        rw [he, ← hpc]
        exact hrd'
      · exact inv.readers j hj
    · refine hpre.eq_of_length ?_
      rw [List.length_drop, ← hc2 h]
      omega

theorem reads_spec {c : Conn} (hc : c.Good) (hcfg : valuesOf "Range".toList c.configured = []) {objs : Objects} {net : Net} (ht : Truthful c objs net) {content : Bytes} {cs first : Nat}
    (hcs : 0 < cs) (hlen : content.length < 2 ^ 63) (hall : ∀ i, i < chunkCount content.length cs → objs (c.name i) = some (chunkOf content cs i)) : ∀ (lens : List Nat) (w : World),
    Inv content cs first w → ∃ outs, reads net c w lens = some outs ∧ Explains ((concat (partsOf content cs first)).drop w.m.off) lens outs ∧
      (Calm c objs net → ∀ o ∈ outs, o.2 = none ∨ o.2 = some .eof) := by
  intro lens
  induction lens with
  | nil => intro w _; exact ⟨[], rfl, trivial, fun _ o ho => (by cases ho)⟩
  | cons len lens ih =>
    intro w inv
    obtain ⟨w', b, e, h1, h2, h3, h4, h5, h6, h7, h8⟩ := read_spec hc hcfg ht hcs hlen hall w inv len
    obtain ⟨outs, g1, g2, g3⟩ := ih w' h2
    refine ⟨(b, e) :: outs, by simp [reads, h1, g1], ⟨h4, h5, h6, h7, ?_⟩, fun hcalm o ho => ?_⟩
    · rw [List.drop_drop, ← h3]
      exact g2
    · cases ho with
      | head => exact h8 hcalm
      | tail _ ho => exact g3 hcalm o ho

theorem open_spec {content : Bytes} {cs o : Nat} (hcs : 0 < cs) (hlen : content.length < 2 ^ 63) (ho : o < content.length) :
    ∃ w, openSource content.length cs o = some w ∧ Inv content cs (o / cs) w ∧ w.m.off = o % cs := by
  have hdm := Nat.div_add_mod o cs
  have hcm : cs * (o / cs) = (o / cs) * cs := Nat.mul_comm _ _
  have hcl := concat_length (partsOf content cs (o / cs)) (parts_declared hcs)
  have hcl2 : (concat (partsOf content cs (o / cs))).length = content.length - o / cs * cs := by rw [parts_concat hcs ho]; simp
  have hsized : chunkSegments (fun _ _ _ _ => ([], none)) content.length cs (o / cs) (chunkCount content.length cs) = (partsOf content cs (o / cs)).map Part.sized := by
    simp [chunkSegments, partsOf, chunkParts, Part.sized]
  have hmax : (content.length : Int) ≤ maxInt64 := by unfold maxInt64; omega
  unfold openSource sourceOpen
  rw [if_neg (by omega)]
  simp only [Int.toNat_natCast]
  rw [if_neg (by omega), if_neg (by omega), hsized]
  by_cases hz : o % cs > 0
  · rw [if_pos hz]
    obtain ⟨m', r, hs, inv', _, hspec⟩ := seek_step (partsOf content cs (o / cs)) (newMulti ((partsOf content cs (o / cs)).map Part.sized)) (multiInv_new _)
      (by rw [← hcl]; omega) (by simp [newMulti, maxInt64]) ((o % cs : Nat) : Int)
      (by unfold IsInt64 minInt64; constructor <;> omega) .start
    have hT : seekTarget (declaredTotal (partsOf content cs (o / cs))) (newMulti ((partsOf content cs (o / cs)).map Part.sized)).off ((o % cs : Nat) : Int) .start = ((o % cs : Nat) : Int) := rfl
    rw [hT] at hspec
    rw [if_neg (by omega)] at hspec
    obtain ⟨hr, hm⟩ := hspec
    rw [hs, hr]
    exact ⟨_, rfl, ⟨inv', rfl, fun i _ rest h => (by cases h)⟩, by rw [hm]; rfl⟩
  · rw [if_neg hz]
    exact ⟨_, rfl, ⟨multiInv_new _, rfl, fun i _ rest h => (by cases h)⟩, by simp [newMulti]; omega⟩

/-! ### Theorems -/

/-- **C135**: while the server keeps the chunks of an object (what C134 says of a finished upload), a stream opened at any offset inside it gives, to reads of any lengths, the bytes of the object from that offset on,
in order, none left out and none twice, whichever requests, reads and closes fail in between; a read after an error goes on where the bytes ended. A read without an error gives something, and the end is only reported
with the last byte. When nothing fails no read fails. -/
theorem C135_download (c : Conn) (hc : c.Good) (hcfg : valuesOf "Range".toList c.configured = []) (content : Bytes) (cs : Nat) (hcs : 0 < cs) (hlen : content.length < 2 ^ 63) (objs : Objects)
    (hall : ∀ i, i < chunkCount content.length cs → objs (c.name i) = some ((content.drop (i * cs)).take cs)) (net : Net) (ht : Truthful c objs net) (offset : Nat) (ho : offset < content.length) :
    ∃ w, openSource content.length cs offset = some w ∧ ∀ lens, ∃ outs, reads net c w lens = some outs ∧ Explains (content.drop offset) lens outs ∧
      (Calm c objs net → ∀ o ∈ outs, o.2 = none ∨ o.2 = some .eof) := by
  obtain ⟨w, h1, h2, h3⟩ := open_spec hcs hlen ho
  refine ⟨w, h1, fun lens => ?_⟩
  obtain ⟨outs, g1, g2, g3⟩ := reads_spec hc hcfg ht hcs hlen hall lens w h2
  refine ⟨outs, g1, ?_, g3⟩
  rw [h3, parts_concat hcs ho, List.drop_drop] at g2
  have hdm := Nat.div_add_mod offset cs
  have hcm : cs * (offset / cs) = (offset / cs) * cs := Nat.mul_comm _ _
  rw [show offset / cs * cs + offset % cs = offset by omega] at g2
  exact g2

/-- What `Explains` says of all the bytes together: they are a beginning of what there was to read, and all of it once the end has been reported. -/
theorem explains_all : ∀ (lens : List Nat) (outs : List ReadRes) (rest : Bytes), Explains rest lens outs →
    outs.length = lens.length ∧ (outs.map (·.1)).flatten <+: rest ∧ ((∃ o ∈ outs, o.2 = some .eof) → (outs.map (·.1)).flatten = rest) := by
  intro lens
  induction lens with
  | nil =>
    intro outs rest h
    cases outs with
    | nil => exact ⟨rfl, List.nil_prefix, fun ⟨o, ho, _⟩ => (by cases ho)⟩
    | cons o outs => exact h.elim
  | cons len lens ih =>
    intro outs rest h
    cases outs with
    | nil => exact h.elim
    | cons o outs =>
      obtain ⟨b, e⟩ := o
      obtain ⟨h1, _, _, h4, h5⟩ := h
      obtain ⟨g1, g2, g3⟩ := ih outs _ h5
      have hsplit : rest = b ++ rest.drop b.length := by
        obtain ⟨t, rfl⟩ := h1
        rw [List.drop_left']
        rfl
      refine ⟨by simp [g1], ?_, ?_⟩
      · rw [List.map_cons, List.flatten_cons, hsplit]
        exact (List.prefix_append_right_inj b).2 (by simpa using g2)
      · rintro ⟨o, ho, he⟩
        rw [List.map_cons, List.flatten_cons]
        cases ho with
        | head =>
          have hb := h4 he
          subst hb
          rw [List.drop_length] at g2
          rw [List.prefix_nil.1 g2, List.append_nil]
        | tail _ ho =>
          rw [g3 ⟨o, ho, he⟩]
          exact hsplit.symm

/-- **C135**, all bytes together: whatever fails, what has been delivered is a beginning of the object from the offset on, and it is all of it once the end has been reported. -/
theorem C135_complete (c : Conn) (hc : c.Good) (hcfg : valuesOf "Range".toList c.configured = []) (content : Bytes) (cs : Nat) (hcs : 0 < cs) (hlen : content.length < 2 ^ 63) (objs : Objects)
    (hall : ∀ i, i < chunkCount content.length cs → objs (c.name i) = some ((content.drop (i * cs)).take cs)) (net : Net) (ht : Truthful c objs net) (offset : Nat) (ho : offset < content.length)
    (lens : List Nat) : ∃ w outs, openSource content.length cs offset = some w ∧ reads net c w lens = some outs ∧ outs.length = lens.length ∧
      (outs.map (·.1)).flatten <+: content.drop offset ∧ ((∃ o ∈ outs, o.2 = some .eof) → (outs.map (·.1)).flatten = content.drop offset) := by
  obtain ⟨w, h1, h2⟩ := C135_download c hc hcfg content cs hcs hlen objs hall net ht offset ho
  obtain ⟨outs, h3, h4, _⟩ := h2 lens
  exact ⟨w, outs, h1, h3, explains_all lens outs _ h4⟩

/-! ### The hypotheses hold -/

/-- "abc" in chunks of two. -/
def objs0 : Objects := fun n => if n = conn0.name 0 then some [97, 98] else if n = conn0.name 1 then some [99] else none

def resp00 : Resp := { status := 200, contentLength := 2, body := [97, 98] }
def resp01 : Resp := { status := 206, contentRange := "bytes 1-1/2".toList, body := [98] }
def resp10 : Resp := { status := 200, contentLength := 1, body := [99] }

deriving instance DecidableEq for Req, Resp

/-- Gives bytes one at a time; `drops` says which interactions fail. -/
def net0 (drops : Nat → Bool) : Net where
  answer clock req :=
    if drops clock then none
    else if req = getReq conn0.base conn0.configured (conn0.name 0) (0 : Nat) then some resp00
    else if req = getReq conn0.base conn0.configured (conn0.name 0) (1 : Nat) then some resp01
    else if req = getReq conn0.base conn0.configured (conn0.name 1) (0 : Nat) then some resp10
    else none
  cut clock rest len := if drops clock then ([], some (.other 7)) else if rest = [] then ([], some .eof) else if len = 0 then ([], none) else (rest.take 1, none)
  closeErr _ := none

theorem get_honest {i : Nat} {off : Int} {resp : Resp} (h : (resp.status = 200 → ∃ d, objs0 (conn0.name i) = some d ∧ resp.body = d ∧ (resp.contentLength = d.length ∨ resp.contentLength = -1)) ∧
    (resp.status = 206 → ∃ d text a, objs0 (conn0.name i) = some d ∧ valuesOf "Range".toList (getReq conn0.base conn0.configured (conn0.name i) off).header = [text] ∧ Asks text a none ∧ a < d.length ∧
      IsContentRange resp.contentRange a (d.length - 1) d.length ∧ resp.body = d.drop a) ∧ (resp.status = 404 ∨ resp.status = 410 → objs0 (conn0.name i) = none)) :
    Honest conn0.root objs0 (getReq conn0.base conn0.configured (conn0.name i) off) resp objs0 := by
  refine ⟨fun _ => ⟨rfl, fun name hn => ?_⟩, fun h => (by cases h), fun h => (by cases h)⟩
  have : name = conn0.name i := addressed_unique hn (addressed good0.plain good0.trimmed (good0.bytes i))
  subst this
  exact h

theorem truthful0 (drops : Nat → Bool) : Truthful conn0 objs0 (net0 drops) := by
  constructor
  · intro clock req resp h
    simp only [net0] at h
    split at h
    · cases h
    · split at h
      · rename_i hr
        cases h
        rw [hr]
        exact get_honest ⟨fun _ => ⟨[97, 98], by decide +kernel, rfl, .inl rfl⟩, fun h => (by cases h), fun h => (by rcases h with h | h <;> cases h)⟩
      · split at h
        · rename_i hr
          cases h
          rw [hr]
          refine get_honest ⟨fun h => (by cases h), fun _ => ⟨[97, 98], "bytes=1-".toList, 1, by decide +kernel, by decide +kernel, ?_, by decide, ?_, rfl⟩, fun h => (by rcases h with h | h <;> cases h)⟩
          · exact ⟨['1'], [], rfl, .one ⟨by decide, rfl⟩, rfl⟩
          · exact ⟨['1'], ['1'], ['2'], rfl, .one ⟨by decide, rfl⟩, .one ⟨by decide, rfl⟩, .one ⟨by decide, rfl⟩⟩
        · split at h
          · rename_i hr
            cases h
            rw [hr]
            exact get_honest ⟨fun _ => ⟨[99], by decide +kernel, rfl, .inl rfl⟩, fun h => (by cases h), fun h => (by rcases h with h | h <;> cases h)⟩
          · cases h
  · intro clock rest len
    simp only [net0]
    split
    · exact ⟨List.nil_prefix, by simp, fun h => (by cases h), fun h => (by cases h)⟩
    · split
      · rename_i hr
        exact ⟨List.nil_prefix, by simp, fun _ => hr.symm, fun h => (by cases h)⟩
      · split
        · rename_i hl
          exact ⟨List.nil_prefix, by simp, fun h => (by cases h), fun _ h => absurd hl (by omega)⟩
        · rename_i hr hl
          refine ⟨List.take_prefix _ _, by simp; omega, fun h => (by cases h), fun _ _ h => ?_⟩
          cases rest with
          | nil => exact hr rfl
          | cons x xs => cases h

/-- The hypotheses of **C135** hold for "abc" in chunks of two, whichever interactions fail, ... -/
example (drops : Nat → Bool) : valuesOf "Range".toList conn0.configured = [] ∧ Truthful conn0 objs0 (net0 drops) ∧
    ∀ i, i < chunkCount ([97, 98, 99] : Bytes).length 2 → objs0 (conn0.name i) = some ((([97, 98, 99] : Bytes).drop (i * 2)).take 2) := by
  refine ⟨rfl, truthful0 drops, fun i hi => ?_⟩
  have : i < 2 := hi
  match i, this with
  | 0, _ => decide +kernel
  | 1, _ => decide +kernel

/-- ... and in this run from byte 1 on the first request and a later read fail, and everything arrives. -/
example : (openSource 3 2 1).bind (fun w => reads (net0 (fun n => n = 0 || n = 4)) conn0 w [2, 2, 2, 2, 2]) =
    some [([], some (.other 0)), ([98], none), ([], some (.other 7)), ([99], some .eof), ([], some .eof)] := by decide +kernel

/-- When nothing fails. -/
example : Calm conn0 objs0 (net0 (fun _ => false)) := by
  refine ⟨?_, ?_, fun _ => rfl⟩
  · intro clock i off d hd hoff
    match i with
    | 0 =>
      have : d = [97, 98] := by
        have h : objs0 (conn0.name 0) = some [97, 98] := by decide +kernel
        exact Option.some.inj (hd.symm.trans h)
      subst this
      have : off < 2 := hoff
      match off, this with
      | 0, _ => exact ⟨resp00, 2, (by decide +kernel : (net0 (fun _ => false)).answer 0 (getReq conn0.base conn0.configured (conn0.name 0) (0 : Nat)) = some resp00), by decide +kernel⟩
      | 1, _ => exact ⟨resp01, 2, (by decide +kernel : (net0 (fun _ => false)).answer 0 (getReq conn0.base conn0.configured (conn0.name 0) (1 : Nat)) = some resp01), by decide +kernel⟩
    | 1 =>
      have : d = [99] := by
        have h : objs0 (conn0.name 1) = some [99] := by decide +kernel
        exact Option.some.inj (hd.symm.trans h)
      subst this
      have : off < 1 := hoff
      match off, this with
      | 0, _ => exact ⟨resp10, 1, (by decide +kernel : (net0 (fun _ => false)).answer 0 (getReq conn0.base conn0.configured (conn0.name 1) (0 : Nat)) = some resp10), by decide +kernel⟩
    | i + 2 =>
      have h : objs0 (conn0.name (i + 2)) = none := by
        have h0 : ¬conn0.name (i + 2) = conn0.name 0 := fun h => absurd (good0.apart _ _ h) (by omega)
        have h1 : ¬conn0.name (i + 2) = conn0.name 1 := fun h => absurd (good0.apart _ _ h) (by omega)
        simp only [objs0, if_neg h0, if_neg h1]
      rw [h] at hd
      cases hd
  · intro clock rest len
    simp only [net0]
    split
    · rename_i h
      cases h
    · split
      · exact .inr rfl
      · split <;> exact .inl rfl

/-- A body that breaks off after its first byte and looks as if it had ended there, as one that ends with its connection does. -/
def early : Net where
  answer _ _ := some { status := 200, contentLength := -1, body := [97, 98] }
  cut _ rest _ := (rest.take 1, some .eof)
  closeErr _ := none

/-- **C135** needs bodies that end only at their end: where one seems to end early in the last chunk the stream reports its end without the missing bytes, although the size of the object is known; in any other chunk
the next read goes on at the missing byte. -/
theorem C135_note_early : (openSource 2 2 0).bind (fun w => reads early conn0 w [2]) = some [([97], some .eof)] ∧
    ¬Explains [97, 98] [2] [([97], some .eof)] ∧
    (openSource 4 2 0).bind (fun w => reads early conn0 w [2]) = some [([97], none)] := by
  refine ⟨by decide +kernel, ?_, by decide +kernel⟩
  rintro ⟨_, _, _, h, _⟩
  exact absurd (h rfl) (by decide)

end Verif.Stream.Download
