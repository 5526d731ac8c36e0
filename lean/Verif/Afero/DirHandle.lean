import Verif.Afero.Inv
/-
C94: open directories of the afero filesystem, /repo/aferofs/synth/dir_handle.go and dir.go 55-70 `ListFileInfo`.
-/
namespace Verif.Afero
open Verif.Path

/-! ### Model -/

/-- What an entry of a listing shows (dir.go 85-94, file.go 112-120; sizes and times left out). -/
structure Item where
  name : Str
  isDir : Bool
  mode : Nat
  deriving DecidableEq

/-- dir.go 55-70 `ListFileInfo`: the entries are asked one after the other (dirent.go 118-124 `stat`), the first error ends it. -/
def listInfo (e : Env) : St → Ents → St × Except Err (List Item)
  | S, .nil => (S, .ok [])
  | S, .cons a (.dir m _) rest => match listInfo e S rest with
    | (S1, .ok l) => (S1, .ok (⟨a, true, m⟩ :: l))
    | (S1, .error er) => (S1, .error er)
  | S, .cons a (.file m v) rest => match ask e S (.stat v) with
    | (S1, some er) => (S1, .error (.view er))
    | (S1, none) => match listInfo e S1 rest with
      | (S2, .ok l) => (S2, .ok (⟨a, false, m⟩ :: l))
      | (S2, .error er) => (S2, .error er)

/-- dir_handle.go 17-24 `dirHandle`; `none` is the nil slice. -/
structure DirH where
  off : Nat
  snapshot : Option (List Item)
  deriving DecidableEq

/-- A new handle (fd.go 13-17). -/
def DirH.new : DirH := ⟨0, none⟩

inductive DirResp where
  | items (l : List Item)
  | eof
  | failed (e : Err)
  | pos
  | refused                 -- a PathError of Seek
  | panic
  | none_
  deriving DecidableEq

/-- dir_handle.go 57-68: a page of the snapshot. `d.snapshot[d.off:]` panics beyond the end. -/
def DirH.page (count : Int) (off : Nat) (l : List Item) : DirH × DirResp :=
  if off > l.length then (⟨off, some l⟩, .panic)
  else if count ≤ 0 ∨ count ≥ (l.drop off).length then
    (⟨l.length, some l⟩, if (l.drop off).length = 0 ∧ count > 0 then .eof else .items (l.drop off))
  else (⟨off + count.toNat, some l⟩, .items ((l.take (off + count.toNat)).drop off))

/-- dir_handle.go 42-69 `Readdir`; `listing` is what `ListFileInfo` answers, if it is asked. -/
def DirH.readdir (listing : Except Err (List Item)) (count : Int) (d : DirH) : DirH × DirResp :=
  match d.snapshot with
  | some l => DirH.page count d.off l
  | none => match listing with
    | .error er => (d, .failed er)
    | .ok l => DirH.page count d.off l

/-- dir_handle.go 83-104 `Seek` -/
def DirH.seek (offset whence : Int) (_ : DirH) : DirH × DirResp :=
  (⟨0, none⟩,
    if whence = 0 then (if offset < 0 then .refused else .pos)
    else if whence = 1 ∨ whence = 2 then (if offset > 0 then .refused else .pos)
    else .refused)

/-- What happens to an open directory: calls, each with what the directory would list at that moment, and the caller appending to the slice it was
given last: `ret` (66) ends at `off` but its capacity reaches to the end of the snapshot, so a shorter page is appended to in place. -/
inductive DirOp where
  | readdir (listing : Except Err (List Item)) (count : Int)
  | seek (offset whence : Int)
  | callerAppends (x : Item)

def DirH.step (d : DirH) : DirOp → DirH × DirResp
  | .readdir l c => d.readdir l c
  | .seek o w => d.seek o w
  | .callerAppends x => ({ d with snapshot := d.snapshot.map (fun l => l.set d.off x) }, .none_)

def DirH.run : DirH → List DirOp → List DirResp
  | _, [] => []
  | d, o :: os => (d.step o).2 :: (d.step o).1.run os

/-! ### Specification -/

/-- Of a directory being read: nothing yet, or what is still to be delivered. -/
abbrev Left := Option (List Item)

/-- The answer to a call, and what is left after it. -/
def answer (left : Left) : DirOp → DirResp × Left
  | .readdir listing n =>
    match left, listing with
    | none, .error er => (.failed er, none)
    | none, .ok all => give all n
    | some rest, _ => give rest n
  | .seek o w => (if (w = 0 ∧ 0 ≤ o) ∨ ((w = 1 ∨ w = 2) ∧ o ≤ 0) then .pos else .refused, none)
  | .callerAppends _ => (.none_, left)
where
  give (rest : List Item) (n : Int) : DirResp × Left :=
    if n ≤ 0 then (.items rest, some [])
    else if rest = [] then (.eof, some [])
    else (.items (rest.take n.toNat), some (rest.drop n.toNat))

def answers : Left → List DirOp → List DirResp
  | _, [] => []
  | left, o :: os => (answer left o).1 :: answers (answer left o).2 os

/-- What the answers delivered. -/
def DirResp.got : DirResp → List Item
  | .items l => l
  | _ => []

/-! ### Lemmas -/

/-- The handle, as the specification sees it. -/
def DirH.left (d : DirH) : Left := d.snapshot.map (·.drop d.off)

structure DirH.OK (d : DirH) : Prop where
  start : d.snapshot = none → d.off = 0
  inside : ∀ l, d.snapshot = some l → d.off ≤ l.length

theorem page_spec (n : Int) (off : Nat) (l : List Item) (h : off ≤ l.length) :
    (DirH.page n off l).2 = (answer.give (l.drop off) n).1 ∧ (DirH.page n off l).1.left = (answer.give (l.drop off) n).2 ∧ (DirH.page n off l).1.OK := by
  unfold DirH.page answer.give
  rw [if_neg (by omega)]
  by_cases hn : n ≤ 0
  · rw [if_pos (.inl hn), if_pos hn, if_neg (by omega)]
    exact ⟨rfl, by simp [DirH.left], ⟨by simp, by simp⟩⟩
  · rw [if_neg hn]
    by_cases hr : l.drop off = []
    · rw [hr, if_pos (.inr (by simp; omega)), if_pos ⟨by simp, by omega⟩, if_pos rfl]
      exact ⟨rfl, by simp [DirH.left], ⟨by simp, by simp⟩⟩
    · rw [if_neg hr]
      by_cases hc : n ≥ (l.drop off).length
      · rw [if_pos (.inr hc), if_neg (fun c => hr (List.length_eq_zero_iff.1 c.1))]
        refine ⟨?_, ?_, ⟨by simp, by simp⟩⟩
        · simp only
          rw [List.take_of_length_le (by omega)]
        · simp only [DirH.left, Option.map_some, List.drop_length]
          rw [List.drop_of_length_le (by omega)]
      · rw [if_neg (by omega)]
        refine ⟨?_, ?_, ⟨by simp, ?_⟩⟩
        · simp only
          rw [List.drop_take]
          congr 2; omega
        · simp only [DirH.left, Option.map_some, List.drop_drop]
        · intro l' hl
          cases hl
          simp only [List.length_drop] at hc
          show off + n.toNat ≤ l.length
          omega

theorem dstep_spec (d : DirH) (h : d.OK) (o : DirOp) (hs : ∀ x, o ≠ .callerAppends x) :
    (d.step o).2 = (answer d.left o).1 ∧ (d.step o).1.left = (answer d.left o).2 ∧ (d.step o).1.OK := by
  obtain ⟨off, snap⟩ := d
  cases o with
  | callerAppends x => exact absurd rfl (hs x)
  | seek o w =>
    refine ⟨?_, rfl, ⟨fun _ => rfl, by intro l hl; cases hl⟩⟩
    simp only [DirH.step, DirH.seek, answer]
    by_cases w0 : w = 0
    · by_cases ho : o < 0
      · simp only [if_pos w0, if_pos ho]
        rw [if_neg (by omega)]
      · simp only [if_pos w0, if_neg ho]
        rw [if_pos (by omega)]
    · by_cases w1 : w = 1 ∨ w = 2
      · by_cases ho : o > 0
        · simp only [if_neg w0, if_pos w1, if_pos ho]
          rw [if_neg (by omega)]
        · simp only [if_neg w0, if_pos w1, if_neg ho]
          rw [if_pos (by omega)]
      · simp only [if_neg w0, if_neg w1]
        rw [if_neg (by omega)]
  | readdir listing n =>
    cases snap with
    | some l =>
      have := page_spec n off l (h.inside l rfl)
      exact this
    | none =>
      have h0 : off = 0 := h.start rfl
      subst h0
      cases listing with
      | error er => exact ⟨rfl, rfl, h⟩
      | ok l =>
        have := page_spec n 0 l (Nat.zero_le _)
        exact this

theorem run_spec (os : List DirOp) (hs : ∀ o ∈ os, ∀ x, o ≠ .callerAppends x) : ∀ (d : DirH), d.OK → d.run os = answers d.left os := by
  induction os with
  | nil => intro d _; rfl
  | cons o os ih =>
    intro d hd
    obtain ⟨h1, h2, h3⟩ := dstep_spec d hd o (hs o (by simp))
    simp only [DirH.run, answers]
    rw [h1, ih (fun o ho => hs o (by simp [ho])) _ h3, h2]

/-! ### C94 -/

/-- **C94** partial. Whatever is called on an open directory, and whatever happens to the directory meanwhile: the first Readdir after the open or
after a Seek takes what the directory lists then, and the Readdirs after it deliver that, from the beginning, at most `n` entries each (all that is left if
`n ≤ 0`), io.EOF exactly when `n > 0` and nothing is left. A failing listing is reported and changes nothing; every Seek starts over.
Missing: a caller that appends to a slice it was given (`C94_counterexample_shared`). -/
theorem C94_pages_partial (os : List DirOp) (hs : ∀ o ∈ os, ∀ x, o ≠ .callerAppends x) : DirH.new.run os = answers none os :=
  run_spec os hs _ ⟨fun _ => rfl, by intro l h; cases h⟩

/-- **C94** (complete). Paging through a directory, whatever it lists later: once a page of a positive size answers io.EOF, everything that was delivered
since the first page is what the directory listed then: every entry once and in order. -/
theorem C94_each_once_partial (all : List Item) (n₀ : Int) (pages : List (Except Err (List Item) × Int)) :
    let os := DirOp.readdir (.ok all) n₀ :: pages.map (fun x => .readdir x.1 x.2)
    (((DirH.new.run os).flatMap DirResp.got) <+: all) ∧ (DirResp.eof ∈ DirH.new.run os → (DirH.new.run os).flatMap DirResp.got = all) := by
  intro os
  have hs : ∀ o ∈ os, ∀ x, o ≠ .callerAppends x := by
    intro o ho x e
    subst e
    simp [os] at ho
  have key : ∀ (pages : List (Except Err (List Item) × Int)) (rest : List Item),
      ∃ tail, rest = (answers (some rest) (pages.map (fun x => .readdir x.1 x.2))).flatMap DirResp.got ++ tail ∧
        (DirResp.eof ∈ answers (some rest) (pages.map (fun x => .readdir x.1 x.2)) → tail = []) := by
    intro pages
    induction pages with
    | nil => intro rest; exact ⟨rest, rfl, by intro h; cases h⟩
    | cons x pages ih =>
      intro rest
      simp only [List.map_cons, answers, answer, answer.give]
      by_cases hn : x.2 ≤ 0
      · simp only [if_pos hn]
        obtain ⟨tail, h1, h2⟩ := ih []
        have h0 := List.append_eq_nil_iff.1 h1.symm
        refine ⟨[], ?_, fun _ => rfl⟩
        rw [List.flatMap_cons, h0.1]
        simp [DirResp.got]
      · simp only [if_neg hn]
        by_cases hr : rest = []
        · simp only [if_pos hr]
          obtain ⟨tail, h1, h2⟩ := ih []
          have h0 := List.append_eq_nil_iff.1 h1.symm
          refine ⟨[], ?_, fun _ => rfl⟩
          rw [List.flatMap_cons, h0.1, hr]
          simp [DirResp.got]
        · simp only [if_neg hr]
          obtain ⟨tail, h1, h2⟩ := ih (rest.drop x.2.toNat)
          refine ⟨tail, ?_, ?_⟩
          · rw [List.flatMap_cons, List.append_assoc, ← h1]
            simp [DirResp.got]
          · intro h
            simp only [List.mem_cons, reduceCtorEq, false_or] at h
            exact h2 h
  rw [C94_pages_partial os hs]
  have hfirst : answers none os = answers (some all) (os) := rfl
  rw [hfirst]
  obtain ⟨tail, h1, h2⟩ := key ((.ok all, n₀) :: pages) all
  have hos : os = ((.ok all, n₀) :: pages).map (fun x => DirOp.readdir x.1 x.2) := rfl
  rw [← hos] at h1 h2
  refine ⟨⟨tail, h1.symm⟩, fun h => ?_⟩
  rw [h2 h, List.append_nil] at h1
  exact h1.symm

/-- What `Stat` of one entry shows. -/
def itemOf (a : Str) : Node → Item
  | .dir m _ => ⟨a, true, m⟩
  | .file m _ => ⟨a, false, m⟩

/-- The entries of a directory, as a listing should show them. -/
def Ents.items : Ents → List Item
  | .nil => []
  | .cons a n rest => itemOf a n :: rest.items

/-- The views of the files directly in a directory. -/
def Ents.files : Ents → List Nat
  | .nil => []
  | .cons _ (.file _ v) rest => v :: rest.files
  | .cons _ (.dir _ _) rest => rest.files

/-- **C94** (listing). A listing either shows every entry of the directory, once, in the order of their addition, with their kinds and modes, having asked the view
of each file, or it fails with the error of the first view that fails. The tree does not change. -/
theorem C94_listing (e : Env) : ∀ (es : Ents) (S : St),
    (listInfo e S es).1.root = S.root ∧
    (∀ l, (listInfo e S es).2 = .ok l → l = es.items ∧ (listInfo e S es).1.asked = S.asked ++ es.files.map .stat ∧
      ∀ i, i < es.files.length → e.answer (S.asked.length + i) = none) ∧
    (∀ er, (listInfo e S es).2 = .error er → ∃ i ve, i < es.files.length ∧ er = .view ve ∧ e.answer (S.asked.length + i) = some ve ∧
      ∀ j, j < i → e.answer (S.asked.length + j) = none)
  | .nil, S => by
    refine ⟨rfl, ?_, ?_⟩
    · intro l hl
      cases hl
      exact ⟨rfl, by simp [listInfo, Ents.files], by intro i hi; simp [Ents.files] at hi⟩
    · intro er h; cases h
  | .cons a (.dir m ds) rest, S => by
    have ih := C94_listing e rest S
    simp only [listInfo, Ents.files, Ents.items, itemOf]
    cases hx : listInfo e S rest with
    | mk S1 r =>
      rw [hx] at ih
      cases r with
      | ok l =>
        refine ⟨ih.1, ?_, ?_⟩
        · intro l' hl
          cases hl
          obtain ⟨h1, h2, h3⟩ := ih.2.1 l rfl
          exact ⟨by rw [h1], h2, h3⟩
        · intro er h; cases h
      | error er =>
        refine ⟨ih.1, ?_, ?_⟩
        · intro l' hl; cases hl
        · intro er' h; cases h; exact ih.2.2 _ rfl
  | .cons a (.file m v) rest, S => by
    simp only [listInfo, ask, Ents.files, Ents.items, itemOf]
    cases ha : e.answer S.asked.length with
    | some ve =>
      refine ⟨rfl, ?_, ?_⟩
      · intro l hl; cases hl
      · intro er h
        cases h
        exact ⟨0, ve, by simp, rfl, ha, by intro j hj; omega⟩
    | none =>
      have ih := C94_listing e rest { S with asked := S.asked ++ [.stat v] }
      simp only
      cases hx : listInfo e { S with asked := S.asked ++ [.stat v] } rest with
      | mk S1 r =>
        rw [hx] at ih
        have hlen : ∀ i, (S.asked ++ [Ask.stat v]).length + i = S.asked.length + (i + 1) := by intro i; simp; omega
        cases r with
        | ok l =>
          refine ⟨ih.1, ?_, ?_⟩
          · intro l' hl
            cases hl
            obtain ⟨h1, h2, h3⟩ := ih.2.1 l rfl
            refine ⟨by rw [h1], by rw [h2]; simp, ?_⟩
            intro i hi
            cases i with
            | zero => exact ha
            | succ i =>
              have := h3 i (by simpa using hi)
              simp only [hlen] at this
              exact this
          · intro er h; cases h
        | error er =>
          refine ⟨ih.1, ?_, ?_⟩
          · intro l' hl; cases hl
          · intro er' h
            cases h
            obtain ⟨i, ve, h1, h2, h3, h4⟩ := ih.2.2 _ rfl
            simp only [hlen] at h3 h4
            refine ⟨i + 1, ve, by simpa using h1, h2, h3, ?_⟩
            intro j hj
            cases j with
            | zero => exact ha
            | succ j => exact h4 j (by omega)

/-- Three entries read two and two, a Seek in between, the directory growing meanwhile. -/
example :
    let a : Item := ⟨['a'], false, 420⟩
    let b : Item := ⟨['b'], true, 493⟩
    let c : Item := ⟨['c'], false, 420⟩
    DirH.new.run [.readdir (.ok [a, b, c]) 2, .readdir (.ok [a, b, c, a]) 2, .readdir (.ok []) 2, .readdir (.ok []) 0, .seek 0 0, .readdir (.error .noent) 1, .readdir (.ok [c]) 5]
      = [.items [a, b], .items [c], .eof, .items [], .pos, .failed .noent, .items [c]] := by decide

/-- A caller that appends to the page it was given replaces the entry that the next page delivers: `b` is never seen, `z` is. -/
theorem C94_counterexample_shared :
    let a : Item := ⟨['a'], false, 420⟩
    let b : Item := ⟨['b'], false, 420⟩
    let z : Item := ⟨['z'], false, 420⟩
    DirH.new.run [.readdir (.ok [a, b]) 1, .callerAppends z, .readdir (.ok [a, b]) 1] = [.items [a], .none_, .items [z]] := by decide

/-- A Seek that is refused starts over nevertheless. -/
theorem C94_counterexample_seek :
    let a : Item := ⟨['a'], false, 420⟩
    DirH.new.run [.readdir (.ok [a]) 1, .seek 1 2, .readdir (.ok [a]) 1, .readdir (.ok [a]) 1] = [.items [a], .refused, .items [a], .eof] := by decide

/-- Seek to the end starts over, too. -/
theorem C94_counterexample_seekEnd :
    let a : Item := ⟨['a'], false, 420⟩
    DirH.new.run [.readdir (.ok [a]) 0, .seek 0 2, .readdir (.ok [a]) 0] = [.items [a], .pos, .items [a]] := by decide

/-- One view that fails hides all the entries of a directory. -/
theorem C94_note_one_view :
    let e : Env := ⟨0, true, id, fun _ => true, fun n => if n = 1 then some .other else none⟩
    (match (listInfo e St.new (.cons ['a'] (.file 420 0) (.cons ['b'] (.file 420 1) .nil))).2 with | .ok l => some l | .error _ => none) = none := by decide

end Verif.Afero
