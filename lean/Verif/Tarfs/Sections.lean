import Verif.Tarfs.MapFind
import Verif.Tarfs.SparseRead
/-
The sections of an archive: where each member's headers and stored bytes are, and its holes (C101).
Models /repo/tarfs/headers.go 27-113 and reader.go 16-18.
-/
namespace Verif.Tarfs.Map

open Verif.Stream

/-! ### Model -/

/-- What `tar.Reader.Next` reports of a member, and how far it has read then (headers.go 65 and 75; archive/tar itself is trusted). -/
structure Rep where
  typeflag : UInt8
  size : Int
  recs : Str → Str
  headerEnd : Nat

/-- headers.go 28-33 `Section`. -/
structure Sec where
  headerStart : Int
  headerEnd : Nat
  bodyEnd : Int
  holes : Option (List Frag)
  deriving DecidableEq

/-- headers.go 86-90: the types taken to have no body. -/
def bodyless : List UInt8 := [49, 50, 51, 52, 53, 54, 55, 120, 103, 76, 75]

/-- headers.go 75-105: one section; `prev` is the end of the body of the one before. An error of `reconstructSparse` is dropped (83).
Simplification: sums of positions do not overflow; only the last member of an archive can claim a size that large. -/
def sectionOf (e : Env) (fuel : Nat) (arch : Bytes) (prev : Option Int) (p : Rep) : Option Sec :=
  let start : Int := match prev with
    | none => 0
    | some b => b + (-b) % 512
  let region := (arch.drop start.toNat).take ((p.headerEnd : Int) - start).toNat
  match reconstruct e fuel p.typeflag p.size p.recs region with
  | none => none
  | some x =>
    let holes := match x with
      | .ok h => h
      | .error _ => none
    let bodyEnd : Int :=
      if p.typeflag ∈ bodyless then p.headerEnd
      else match holes with
        | none => p.headerEnd + p.size
        | some h => bodyEnd p.headerEnd p.size h
    some ⟨start, p.headerEnd, bodyEnd, holes⟩

/-- headers.go 64-112 `Sections`: the loop; `env i` is how the reader behaves while the map of the i-th member is read. -/
def sectionsOf (env : Nat → Env) (fuel : Nat) (arch : Bytes) : (i : Nat) → (prev : Option Int) → List Rep → Option (List Sec)
  | _, _, [] => some []
  | i, prev, p :: ps => match sectionOf (env i) fuel arch prev p with
    | none => none
    | some s => (sectionsOf env fuel arch (i + 1) (some s.bodyEnd) ps).map (s :: ·)

/-! ### Specification -/

/-- A member of an archive: what archive/tar reports of it, its headers, its map if it has one, its stored bytes and the padding. -/
structure Member where
  typeflag : UInt8
  size : Nat
  recs : Str → Str
  headers : Bytes
  map : Option (List Frag)
  body : Bytes
  pad : Bytes

/-- Links, devices, directories and fifos have no stored bytes whatever size they claim (archive/tar `isHeaderOnly`). -/
def headerOnly : List UInt8 := [49, 50, 51, 52, 53, 54]

def Member.bytes (m : Member) : Bytes := m.headers ++ m.body ++ m.pad

/-- A member as the format has it: the headers lead to the map, the stored bytes are those the map or the size says, and everything is padded to whole blocks. -/
structure Member.Proper (m : Member) : Prop where
  padded : m.pad.length < 512 ∧ m.bytes.length % 512 = 0
  stored : (m.typeflag = 103 ∧ m.map = none ∧ m.body = []) ∨
    (m.typeflag ∉ ([103, 120, 76, 75] : List UInt8) ∧ (∃ blk rest, Leads m.headers blk rest ∧ SaysMap m.typeflag m.recs blk rest m.map) ∧
      (∀ l, m.map = some l → m.typeflag ∉ headerOnly ∧ validate l m.size = true ∧ (m.body.length : Int) = storedLen l) ∧
      (m.map = none → (m.typeflag ∈ headerOnly → m.body = []) ∧ (m.typeflag ∉ headerOnly → m.body.length = m.size)))

/-- The members one after another. -/
def bytesOf (ms : List Member) : Bytes := (ms.map Member.bytes).flatten

/-- What archive/tar reports of them. -/
def reports : (start : Nat) → List Member → List Rep
  | _, [] => []
  | start, m :: ms => ⟨m.typeflag, m.size, m.recs, start + m.headers.length⟩ :: reports (start + m.bytes.length) ms

/-- Where they are. -/
def expected : (start : Nat) → List Member → List Sec
  | _, [] => []
  | start, m :: ms =>
    ⟨start, start + m.headers.length, start + m.headers.length + m.body.length, m.map.map fun l => invert l m.size⟩ :: expected (start + m.bytes.length) ms

/-! ### Sections -/

theorem section_region (pre : Bytes) (m : Member) (rest : Bytes) :
    ((pre ++ (m.bytes ++ rest)).drop pre.length).take m.headers.length = m.headers := by
  rw [List.drop_left]
  unfold Member.bytes
  rw [List.append_assoc, List.append_assoc, List.take_append_of_le_length (Nat.le_refl _), List.take_of_length_le (Nat.le_refl _)]

theorem sectionOf_proper {e : Env} (hf : ∀ k, e.fault k = false) {fuel : Nat} {pre rest : Bytes} {m : Member} (hm : m.Proper) (hc : m.typeflag = 55 → m.body = [])
    (prev : Option Int) (hp : (match prev with | none => 0 | some b => b + (-b) % 512) = (pre.length : Int)) (hfu : m.headers.length / 512 < fuel) :
    sectionOf e fuel (pre ++ (m.bytes ++ rest)) prev ⟨m.typeflag, m.size, m.recs, pre.length + m.headers.length⟩ =
      some ⟨pre.length, pre.length + m.headers.length, pre.length + m.headers.length + m.body.length, m.map.map fun l => invert l m.size⟩ := by
  unfold sectionOf
  simp only
  rw [hp]
  have h1 : ((pre.length : Int)).toNat = pre.length := by omega
  have h2 : (((pre.length + m.headers.length : Nat) : Int) - (pre.length : Int)).toNat = m.headers.length := by omega
  rw [h1, h2, section_region]
  rcases hm.stored with ⟨g1, g2, g3⟩ | ⟨g1, ⟨blk, rest', g2, g3⟩, g4, g5⟩
  · unfold reconstruct
    rw [if_pos g1]
    simp only
    rw [if_pos (by rw [g1]; decide), g2, g3]
    simp
  · rw [C100_holes_found e hf fuel m.typeflag m.size m.recs m.headers blk rest' g2 (by rintro h; exact g1 (by rw [h]; decide)) hfu m.map g3]
    simp only
    have hno : m.typeflag ∉ headerOnly → m.typeflag ≠ 55 → m.typeflag ∉ bodyless := by
      intro a b h
      simp only [bodyless, headerOnly, List.mem_cons, List.not_mem_nil, or_false, not_or] at *
      grind
    cases hmap : m.map with
    | none =>
      rw [hmap] at g5
      obtain ⟨g6, g7⟩ := g5 rfl
      simp only [Option.map_none]
      by_cases hh : m.typeflag ∈ headerOnly
      · rw [if_pos (by simp only [bodyless, headerOnly, List.mem_cons, List.not_mem_nil, or_false] at *; grind), g6 hh]
        simp
      · by_cases h55 : m.typeflag = 55
        · rw [if_pos (by rw [h55]; decide), hc h55]; simp
        · rw [if_neg (hno hh h55)]
          have := g7 hh
          simp only [Option.some.injEq, Sec.mk.injEq, true_and, and_true]
          omega
    | some l =>
      obtain ⟨g6, g7, g8⟩ := g4 l hmap
      simp only [Option.map_some]
      by_cases h55 : m.typeflag = 55
      · rw [if_pos (by rw [h55]; decide), hc h55]; simp
      · rw [if_neg (hno g6 h55), C34_body_end l m.size _ g7]
        simp only [Option.some.injEq, Sec.mk.injEq, true_and, and_true]
        omega

/-- **C101.** For every archive of members as the format has them, none of which is of type "contiguous file" with stored bytes, and a reader that does not fail: the
sections are where the members are. Each one's headers begin where those of the previous member end, padded; the stored bytes begin behind the headers and are all of the
member's; the holes are those of its map. -/
theorem C101_sections_partial (env : Nat → Env) (hf : ∀ i k, (env i).fault k = false) (fuel : Nat) (ms : List Member) (tail : Bytes) (hm : ∀ m ∈ ms, m.Proper)
    (hc : ∀ m ∈ ms, m.typeflag = 55 → m.body = []) (hfu : ∀ m ∈ ms, m.headers.length / 512 < fuel) :
    sectionsOf env fuel (bytesOf ms ++ tail) 0 none (reports 0 ms) = some (expected 0 ms) := by
  have key : ∀ (ms : List Member) (pre : Bytes) (i : Nat) (prev : Option Int), (∀ m ∈ ms, m.Proper) → (∀ m ∈ ms, m.typeflag = 55 → m.body = []) →
      (∀ m ∈ ms, m.headers.length / 512 < fuel) → pre.length % 512 = 0 → (match prev with | none => 0 | some b => b + (-b) % 512) = (pre.length : Int) →
      sectionsOf env fuel (pre ++ (bytesOf ms ++ tail)) i prev (reports pre.length ms) = some (expected pre.length ms) := by
    intro ms
    induction ms with
    | nil => intro pre i prev _ _ _ _ _; rfl
    | cons m ms ih =>
      intro pre i prev h1 h2 h3 h4 h5
      have hb : bytesOf (m :: ms) ++ tail = m.bytes ++ (bytesOf ms ++ tail) := by unfold bytesOf; rw [List.map_cons, List.flatten_cons, List.append_assoc]
      rw [hb, reports, sectionsOf, sectionOf_proper (hf i) (h1 m (by simp)) (h2 m (by simp)) prev h5 (h3 m (by simp))]
      simp only
      have hpd := (h1 m (by simp)).padded
      have hl : m.bytes.length = m.headers.length + m.body.length + m.pad.length := by unfold Member.bytes; rw [List.length_append, List.length_append]
      have := ih (pre ++ m.bytes) (i + 1) (some (pre.length + m.headers.length + m.body.length)) (fun x hx => h1 x (by simp [hx])) (fun x hx => h2 x (by simp [hx]))
        (fun x hx => h3 x (by simp [hx])) (by rw [List.length_append]; omega) (by rw [List.length_append]; simp only; omega)
      rw [List.append_assoc, List.length_append] at this
      rw [this, expected]
      rfl
  have := key ms [] 0 none hm hc hfu rfl rfl
  simpa using this

/-! ### Contents -/

theorem sparseByte_prefix (body rest : Bytes) : ∀ (l : List Frag) (k : Nat) (x : Int), (∀ f ∈ l, 0 ≤ f.len) → (k : Int) + storedLen l ≤ body.length →
    sparseByte (body ++ rest) k l x = sparseByte body k l x
  | [], _, _, _, _ => rfl
  | f :: l, k, x, h, hk => by
    have h0 := h f (by simp)
    have hs : storedLen (f :: l) = f.len + storedLen l := by unfold storedLen; simp
    have hn : ∀ (l : List Frag), (∀ f ∈ l, 0 ≤ f.len) → 0 ≤ storedLen l := by
      intro l
      induction l with
      | nil => intro _; simp [storedLen]
      | cons f l ih =>
        intro h
        have := ih (fun g hg => h g (by simp [hg]))
        have := h f (by simp)
        have hs : storedLen (f :: l) = f.len + storedLen l := by unfold storedLen; simp
        omega
    have := hn l (fun g hg => h g (by simp [hg]))
    rw [sparseByte, sparseByte]
    split
    · rw [List.getElem?_append_left (by omega)]
    · exact sparseByte_prefix body rest l (k + f.len.toNat) x (fun g hg => h g (by simp [hg])) (by omega)

/-- Where a member begins. -/
theorem expected_mem {ms : List Member} (a : List Member) (m : Member) (b : List Member) (h : ms = a ++ m :: b) (start : Nat) :
    (expected start ms)[a.length]? = some ⟨start + (bytesOf a).length, start + (bytesOf a).length + m.headers.length,
      start + (bytesOf a).length + m.headers.length + m.body.length, m.map.map fun l => invert l m.size⟩ := by
  subst h
  induction a generalizing start with
  | nil => simp [expected, bytesOf]
  | cons x a ih =>
    rw [List.cons_append, expected, List.length_cons, List.getElem?_cons_succ, ih]
    have : (bytesOf (x :: a)).length = x.bytes.length + (bytesOf a).length := by unfold bytesOf; rw [List.map_cons, List.flatten_cons, List.length_append]
    rw [this]
    simp only [Option.some.injEq, Sec.mk.injEq, and_true]
    omega

/-- **C101** (contents). Through its section a member without a map reads as its stored bytes, and one with a map as the file that the map describes: the stored bytes,
in order, inside its fragments, and zeros elsewhere. -/
theorem C101_contents_partial (env : Nat → Env) (hf : ∀ i k, (env i).fault k = false) (fuel : Nat) (a : List Member) (m : Member) (b : List Member) (tail : Bytes)
    (hm : ∀ x ∈ a ++ m :: b, x.Proper) (hc : ∀ x ∈ a ++ m :: b, x.typeflag = 55 → x.body = []) (hfu : ∀ x ∈ a ++ m :: b, x.headers.length / 512 < fuel)
    (hmax : (m.size : Int) ≤ maxInt64) (ra : ReaderFn) (hra : FullReaderAt ra (bytesOf (a ++ m :: b) ++ tail)) :
    ∃ ss s, sectionsOf env fuel (bytesOf (a ++ m :: b) ++ tail) 0 none (reports 0 (a ++ m :: b)) = some ss ∧ ss[a.length]? = some s ∧
      (m.map = none → s.holes = none ∧ Delivers (plainReader ra s.headerEnd (s.bodyEnd - s.headerEnd).toNat) m.body) ∧
      (∀ l, m.map = some l → ∃ holes, s.holes = some holes ∧ ∃ file : Bytes, file.length = m.size ∧
        (∀ x : Int, 0 ≤ x → x < m.size → file[x.toNat]? = sparseByte m.body 0 l x) ∧
        (∀ ops : List Op, (∀ o w, Op.seek o w ∈ ops → IsInt64 o) →
          ∃ outs, runOps (makeReader ra s.headerEnd holes m.size) 0 ops = some outs ∧ outs.map (·.1) = ops ∧ CursorExplains file 0 outs)) := by
  refine ⟨_, _, C101_sections_partial env hf fuel _ tail hm hc hfu, expected_mem a m b rfl 0, ?_, ?_⟩
  · intro hmap
    simp only [hmap, Option.map_none, true_and]
    have hsp : bytesOf (a ++ m :: b) ++ tail = (bytesOf a ++ m.headers) ++ (m.body ++ (m.pad ++ (bytesOf b ++ tail))) := by
      unfold bytesOf Member.bytes; simp
    have hd := C34_plain_reads ra _ hra ((bytesOf a).length + m.headers.length) m.body.length (by rw [hsp]; simp only [List.length_append]; omega)
    have hsl : slice (bytesOf (a ++ m :: b) ++ tail) ((bytesOf a).length + m.headers.length) m.body.length = m.body := by
      unfold slice
      have : (bytesOf a).length + m.headers.length = (bytesOf a ++ m.headers).length := by rw [List.length_append]
      rw [hsp, this, List.drop_left, List.take_append_of_le_length (Nat.le_refl _), List.take_of_length_le (Nat.le_refl _)]
    rw [hsl] at hd
    have h2 : ∀ (s : Sec), s.headerEnd = (bytesOf a).length + m.headers.length → s.bodyEnd = s.headerEnd + m.body.length →
        Delivers (plainReader ra s.headerEnd (s.bodyEnd - s.headerEnd).toNat) m.body := by
      intro s e1 e2
      have : (s.bodyEnd - s.headerEnd).toNat = m.body.length := by omega
      rw [this, e1]
      exact hd
    exact h2 ⟨0, _, _, none⟩ (by simp only; omega) (by simp only; omega)
  · intro l hmap
    have hp := hm m (by simp)
    rcases hp.stored with ⟨_, g2, _⟩ | ⟨_, _, g4, _⟩
    · rw [hmap] at g2; cases g2
    · obtain ⟨_, g7, g8⟩ := g4 l hmap
      refine ⟨invert l m.size, by simp only [hmap, Option.map_some], ?_⟩
      have hsp : bytesOf (a ++ m :: b) ++ tail = (bytesOf a ++ m.headers) ++ (m.body ++ (m.pad ++ (bytesOf b ++ tail))) := by
        unfold bytesOf Member.bytes; simp
      obtain ⟨file, f1, f2, _, f4⟩ := C34_sparse_reads ra _ hra (0 + (bytesOf a).length + m.headers.length) l m.size hmax g7 (by rw [hsp]; simp; omega)
      refine ⟨file, by omega, ?_, f4⟩
      intro x hx0 hx
      rw [f2 x hx0 hx, hsp]
      have : 0 + (bytesOf a).length + m.headers.length = (bytesOf a ++ m.headers).length := by rw [List.length_append]; omega
      rw [this, List.drop_left]
      refine sparseByte_prefix _ _ l 0 x ?_ (by omega)
      intro f hf
      exact (((C33_valid_iff l m.size hmax).1 g7).2.1 f hf).2.1

/-! ### Where it does not hold -/

/-- Against C101. If the reader fails when the map of a member with holes is read, the error is dropped: the section has no holes and its body ends elsewhere, so
the member reads as the wrong bytes; nothing is reported. -/
theorem C101_counterexample_fault (e : Env) (hf : e.fault 0 = true) (fuel : Nat) (arch : Bytes) (prev : Option Int) (p : Rep) (hp : p.typeflag ∉ bodyless) :
    ∃ s, sectionOf e (fuel + 1) arch prev p = some s ∧ s.holes = none ∧ s.bodyEnd = p.headerEnd + p.size := by
  have hr : ∀ region, reconstruct e (fuel + 1) p.typeflag p.size p.recs region = some (.error .fault) := by
    intro region
    unfold reconstruct
    rw [if_neg (by intro h; exact hp (by rw [h]; decide)), findHeader]
    have hx : ∃ d r1, readFull e ⟨region, 0, 0⟩ = some (d, some .fault, r1) := by
      unfold readFull
      rw [tryReadFull, if_neg (by simp)]
      unfold Rd.read
      simp only [hf, if_true, reduceCtorEq, and_false, if_false, Option.some.injEq, false_and]
      exact ⟨_, _, rfl⟩
    obtain ⟨d, r1, hx⟩ := hx
    rw [hx]
    simp
  unfold sectionOf
  simp only [hr]
  exact ⟨_, rfl, rfl, by simp only; rw [if_neg hp]⟩

/-- A reader that gives whole blocks. -/
def wholeEnv : Env := ⟨fun _ => 512, fun _ => false, fun _ => false⟩

/-- A header block with a size, a typeflag and, from byte 386 on, a table of the old GNU format. -/
def exBlock (c : UInt8) (size : Int) (table : Bytes) : Bytes :=
  List.replicate 124 1 ++ octField size ++ List.replicate 20 1 ++ [c] ++ List.replicate 229 1 ++ table ++ List.replicate 29 0

/-- A contiguous file of 512 zeros, and a sparse file of 1000 bytes with 512 stored at its beginning. -/
def exCont : Member := ⟨55, 512, fun _ => [], exBlock 55 512 (List.replicate 97 0), none, List.replicate 512 0, []⟩
def exSparse : Member := ⟨83, 1000, fun _ => [], exBlock 83 512 (tableOf octField 4 [⟨0, 512⟩] 0), some [⟨0, 512⟩], List.replicate 512 65, []⟩
/-- The same without the contiguous file's stored bytes. -/
def exReg : Member := ⟨48, 512, fun _ => [], exBlock 48 512 (List.replicate 97 0), none, List.replicate 512 0, []⟩

/-- Against C101. A contiguous file is taken to have no stored bytes (headers.go 87), so the headers of the next member are looked for in them. Here the next member is
sparse, and its map is read as empty: the whole file is a hole and reads as zeros. Behind a regular file its map is right. -/
theorem C101_counterexample_contiguous :
    (sectionsOf (fun _ => wholeEnv) 9 (bytesOf [exCont, exSparse]) 0 none (reports 0 [exCont, exSparse])).map (fun l => l.map fun s => (s.headerStart, s.bodyEnd, s.holes)) =
      some [(0, 512, none), (512, 1536, some [⟨0, 1000⟩])] ∧
    (expected 0 [exCont, exSparse]).map (fun s => (s.headerStart, s.bodyEnd, s.holes)) = [(0, 1024, none), (1024, 2048, some [⟨512, 488⟩])] ∧
    (sectionsOf (fun _ => wholeEnv) 9 (bytesOf [exReg, exSparse]) 0 none (reports 0 [exReg, exSparse])).map (fun l => l.map fun s => (s.headerStart, s.bodyEnd, s.holes)) =
      some [(0, 1024, none), (1024, 2048, some [⟨512, 488⟩])] := by
  refine ⟨?_, ?_, ?_⟩ <;> decide +kernel

/-! ### Non-vacuity -/

theorem exCont_proper : exCont.Proper := by
  refine ⟨by decide +kernel, Or.inr ⟨by decide, ⟨exCont.headers, [], ?_, .plain (by decide) rfl rfl rfl⟩, ?_, ?_⟩⟩
  · exact by simpa using Leads.here (blk := exCont.headers) (rest := []) (c := 55) (by decide +kernel) (by decide +kernel) (by decide)
  · intro l h; cases h
  · intro _; exact ⟨fun h => absurd h (by decide), fun _ => by decide +kernel⟩

theorem exReg_proper : exReg.Proper := by
  refine ⟨by decide +kernel, Or.inr ⟨by decide, ⟨exReg.headers, [], ?_, .plain (by decide) rfl rfl rfl⟩, ?_, ?_⟩⟩
  · exact by simpa using Leads.here (blk := exReg.headers) (rest := []) (c := 48) (by decide +kernel) (by decide +kernel) (by decide)
  · intro l h; cases h
  · intro _; exact ⟨fun h => absurd h (by decide), fun _ => by decide +kernel⟩

theorem exSparse_proper : exSparse.Proper := by
  refine ⟨by decide +kernel, Or.inr ⟨by decide, ⟨exSparse.headers, [], ?_, .old (bs := []) (tail := []) rfl rfl (.last ?_ (by decide +kernel))⟩, ?_, ?_⟩⟩
  · exact by simpa using Leads.here (blk := exSparse.headers) (rest := []) (c := 83) (by decide +kernel) (by decide +kernel) (by decide)
  · exact (table_iff 4 _ _ (by decide +kernel)).1 (by decide +kernel)
  · intro l h
    cases h
    exact ⟨by decide, by decide, by decide +kernel⟩
  · intro h; cases h

example : sectionsOf (fun _ => exEnv) 9 (bytesOf [exReg, exSparse, exReg] ++ [7]) 0 none (reports 0 [exReg, exSparse, exReg]) = some (expected 0 [exReg, exSparse, exReg]) :=
  C101_sections_partial (fun _ => exEnv) (fun _ _ => rfl) 9 [exReg, exSparse, exReg] [7]
    (by intro m hm; simp only [List.mem_cons, List.not_mem_nil, or_false] at hm; rcases hm with rfl | rfl | rfl <;> first | exact exReg_proper | exact exSparse_proper)
    (by intro m hm; simp only [List.mem_cons, List.not_mem_nil, or_false] at hm; rcases hm with rfl | rfl | rfl <;> intro h <;> cases h)
    (by intro m hm; simp only [List.mem_cons, List.not_mem_nil, or_false] at hm; rcases hm with rfl | rfl | rfl <;> decide +kernel)

end Verif.Tarfs.Map
