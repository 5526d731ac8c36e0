import Verif.Tarfs.TreeProps
/-
Handles of directories of a tar filesystem (C36): entdir.go 197-319.
-/
namespace Verif.Tarfs
open Verif.Path

/-- The calls on an open directory that depend on its state (entdir.go 217-319). -/
inductive DirOp where
  | readDir (n : Int)
  | seek (offset : Int) (whence : Int)
  | stat
  | read
  | close

inductive DirOut where
  | entries (es : List Hdr) (err : Option Err)
  | sought (ok : Bool)
  | info
  | isDir
  | closed
  | done

/-- entdir.go 201-211 `openDir`: the state of a handle. -/
structure DirHandle where
  cursor : Nat
  closed : Bool

/-- entdir.go 228-319: one call on a handle of the directory at `p`; `none`: panic. A failed `Seek` has already rewound (256). -/
def dirCall (t : Tree) (p : List Str) (d : DirHandle) : DirOp → Option (DirOut × DirHandle)
  | .close => some (.done, { d with closed := true })
  | .stat => some (if d.closed then .closed else .info, d)
  | .read => some (if d.closed then .closed else .isDir, d)
  | .seek offset whence =>
    if d.closed then some (.closed, d)
    else if whence = 0 then some (.sought (decide (¬ offset < 0)), { d with cursor := 0 })
    else if whence = 1 then some (.sought (decide (¬ offset ≠ 0)), { d with cursor := 0 })
    else if whence = 2 then
      if offset > 0 then some (.sought false, { d with cursor := 0 }) else some (.sought true, { d with cursor := (t.ord p).length })
    else some (.sought false, { d with cursor := 0 })
  | .readDir n =>
    if d.closed then some (.closed, d)
    else match readDir t p d.cursor n with
      | none => none
      | some ((es, er), c) => some (.entries es er, { d with cursor := c })

def dirRun (t : Tree) (p : List Str) : DirHandle → List DirOp → Option (List DirOut)
  | _, [] => some []
  | d, o :: os => match dirCall t p d o with
    | none => none
    | some (r, d') => (dirRun t p d' os).map (r :: ·)

/-- What the calls must give, from an unchanging list of entries, the position in it and whether the handle is closed. -/
def DirExplained (es : List Hdr) : (pos : Nat) → (closed : Bool) → List DirOp → List DirOut → Prop
  | _, _, [], outs => outs = []
  | pos, closed, o :: os, outs => ∃ r rest, outs = r :: rest ∧ match o with
    | .close => r = .done ∧ DirExplained es pos true os rest
    | .stat => (closed = true → r = .closed) ∧ (closed = false → r = .info) ∧ DirExplained es pos closed os rest
    | .read => (closed = true → r = .closed) ∧ (closed = false → r = .isDir) ∧ DirExplained es pos closed os rest
    | .seek offset whence => if closed then r = .closed ∧ DirExplained es pos closed os rest
      else ∃ ok, r = .sought ok ∧ (ok = true ↔ (whence = 0 ∧ 0 ≤ offset) ∨ (whence = 1 ∧ offset = 0) ∨ (whence = 2 ∧ offset ≤ 0)) ∧
        DirExplained es (if whence = 2 ∧ ok = true then es.length else 0) closed os rest
    | .readDir n => if closed then r = .closed ∧ DirExplained es pos closed os rest
      else if n ≤ 0 then r = .entries (es.drop pos) none ∧ DirExplained es (max pos es.length) closed os rest
      else if es.length ≤ pos then r = .entries [] (some .eof) ∧ DirExplained es pos closed os rest
      else r = .entries ((es.drop pos).take n.toNat) none ∧ DirExplained es (min es.length (pos + n.toNat)) closed os rest

/-- **C36** (histories of a directory handle). With the hypotheses of `C36_listing_partial`, every history of calls on a handle is that of a position in the list of the
directory's entries: `Seek` only rewinds or goes to the end, and after `Close` every call but `Close` says so. -/
theorem C36_handle_partial (opt : Opt) (hs : List Hdr) (p : List Str)
    (hexp : ∀ c, Child opt hs p c → ∃ h, recorded opt hs (join (p ++ [c])) = some h ∧ (Beneath opt hs (p ++ [c]) → h.typ = .dir) ∧ infoName h = c) :
    ∃ es : List Hdr, (∀ c, c ∈ es.map infoName ↔ Child opt hs p c) ∧ (es.map infoName).Nodup ∧ (∀ h ∈ es, h ∈ hs) ∧
      ∀ ops, ∃ outs, dirRun (newTree opt hs) p ⟨0, false⟩ ops = some outs ∧ DirExplained es 0 false ops outs := by
  obtain ⟨es, h1, h2, h3, hlen, h4⟩ := listing_core opt hs p hexp
  refine ⟨es, h1, h2, h3, ?_⟩
  have key : ∀ ops (d : DirHandle), ∃ outs, dirRun (newTree opt hs) p d ops = some outs ∧ DirExplained es d.cursor d.closed ops outs := by
    intro ops
    induction ops with
    | nil => intro d; exact ⟨[], rfl, rfl⟩
    | cons o os ih =>
      intro d
      have step : ∀ r d', dirCall (newTree opt hs) p d o = some (r, d') → ∃ outs rest, dirRun (newTree opt hs) p d (o :: os) = some outs ∧ outs = r :: rest ∧
          DirExplained es d'.cursor d'.closed os rest := by
        intro r d' h
        obtain ⟨rest, h1, h2⟩ := ih d'
        exact ⟨r :: rest, rest, by rw [dirRun, h]; simp only; rw [h1]; rfl, rfl, h2⟩
      cases o with
      | close =>
        obtain ⟨outs, rest, e1, e2, e3⟩ := step _ _ rfl
        exact ⟨outs, e1, _, rest, e2, rfl, e3⟩
      | stat =>
        obtain ⟨outs, rest, e1, e2, e3⟩ := step _ _ rfl
        exact ⟨outs, e1, _, rest, e2, fun h => by rw [h]; rfl, fun h => by rw [h]; rfl, e3⟩
      | read =>
        obtain ⟨outs, rest, e1, e2, e3⟩ := step _ _ rfl
        exact ⟨outs, e1, _, rest, e2, fun h => by rw [h]; rfl, fun h => by rw [h]; rfl, e3⟩
      | seek offset whence =>
        cases hc : d.closed with
        | true =>
          obtain ⟨outs, rest, e1, e2, e3⟩ := step .closed d (by rw [dirCall, if_pos hc])
          rw [hc] at e3
          exact ⟨outs, e1, _, rest, e2, by simp only [if_true]; exact ⟨trivial, e3⟩⟩
        | false =>
          have : ∃ ok, dirCall (newTree opt hs) p d (.seek offset whence) = some (.sought ok, { d with cursor := if whence = 2 ∧ ok = true then es.length else 0 }) ∧
              (ok = true ↔ (whence = 0 ∧ 0 ≤ offset) ∨ (whence = 1 ∧ offset = 0) ∨ (whence = 2 ∧ offset ≤ 0)) := by
            rw [dirCall, if_neg (by rw [hc]; simp)]
            by_cases w0 : whence = 0
            · refine ⟨_, by rw [if_pos w0, if_neg (by omega)], by simp; omega⟩
            · rw [if_neg w0]
              by_cases w1 : whence = 1
              · refine ⟨_, by rw [if_pos w1, if_neg (by omega)], by simp; omega⟩
              · rw [if_neg w1]
                by_cases w2 : whence = 2
                · rw [if_pos w2]
                  by_cases ho : offset > 0
                  · exact ⟨false, by rw [if_pos ho, if_neg (by simp)], by simp; omega⟩
                  · exact ⟨true, by rw [if_neg ho, if_pos ⟨w2, rfl⟩, hlen], by simp; omega⟩
                · exact ⟨false, by rw [if_neg w2, if_neg (by simp)], by simp; omega⟩
          obtain ⟨ok, t1, t2⟩ := this
          obtain ⟨outs, rest, e1, e2, e3⟩ := step _ _ t1
          rw [show ({ d with cursor := if whence = 2 ∧ ok = true then es.length else 0 } : DirHandle).closed = false from hc] at e3
          exact ⟨outs, e1, _, rest, e2, by simp only; rw [if_neg (by simp)]; exact ⟨ok, rfl, t2, e3⟩⟩
      | readDir n =>
        cases hc : d.closed with
        | true =>
          obtain ⟨outs, rest, e1, e2, e3⟩ := step .closed d (by rw [dirCall, if_pos hc])
          rw [hc] at e3
          exact ⟨outs, e1, _, rest, e2, by simp only [if_true]; exact ⟨trivial, e3⟩⟩
        | false =>
          have hcall : dirCall (newTree opt hs) p d (.readDir n) = some (.entries (listed es d.cursor n).1.1 (listed es d.cursor n).1.2, { d with cursor := (listed es d.cursor n).2 }) := by
            rw [dirCall, if_neg (by rw [hc]; simp), h4]
          obtain ⟨outs, rest, e1, e2, e3⟩ := step _ _ hcall
          simp only [hc] at e3
          refine ⟨outs, e1, _, rest, e2, ?_⟩
          simp only
          rw [if_neg (by simp)]
          unfold listed at e3 ⊢
          by_cases c1 : n ≤ 0
          · simp only [if_pos c1] at e3 ⊢
            exact ⟨trivial, e3⟩
          · simp only [if_neg c1] at e3 ⊢
            by_cases c2 : es.length ≤ d.cursor
            · simp only [if_pos c2] at e3 ⊢
              exact ⟨trivial, e3⟩
            · simp only [if_neg c2] at e3 ⊢
              exact ⟨trivial, e3⟩
  exact fun ops => key ops ⟨0, false⟩

/-- The hypotheses are met by the root of the archive `exHs`, and a history on it. -/
example : ((dirRun (newTree exOpt exHs) [] ⟨0, false⟩ [.readDir 2, .readDir 2, .readDir 1, .seek 0 0, .readDir (-1), .close, .readDir 1]).map fun l => l.map fun
    | .entries es er => (es.map infoName, er.isSome) | _ => ([], false)) =
    some [([['d'], ['g']], false), ([['l']], false), ([], true), ([], false), ([['d'], ['g'], ['l']], false), ([], false), ([], false)] := by
  decide +kernel

end Verif.Tarfs
