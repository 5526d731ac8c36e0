import Verif.Overlay.Ops
import Verif.Overlay.LookupProps
import Verif.Common.Bytes
/-
C85: an open directory of the overlay, /repo/vroot-adapter/overlayfs/file.go 113-355 (`mergedDir`): paging through it, rewinding it, closing it, changing the mode
through it, while the overlay changes in between.
-/
namespace Verif.Overlay.DirHandle
open Verif Verif.Prog Verif.Overlay.Stack

/-! ### Model -/

/-- file.go 113-126 `mergedDir`. `inner` numbers the layer handle it holds: the handles opened for it are 0, 1, …, `inner`; `released` are those closed, in order. -/
structure Dir where
  key : Name
  cursor : Nat
  entries : List Entry
  loaded : Bool
  closed : Bool
  inner : Nat
  released : List Nat
deriving DecidableEq

/-- file.go 128-130 `newMergedDir`: a Go zero value but for the name. -/
def fresh (key : Name) : Dir := ⟨key, 0, [], false, false, 0, []⟩

/-- What a call answers. -/
inductive Ans where
  | entries (l : List Entry)
  | names (l : List Str)
  | infos (l : List Node)
  | eof
  | error (e : Errno)
  | refused     -- fs.ErrClosed or fs.ErrInvalid
  | ok
  | panic
deriving DecidableEq

/-- file.go 167-179 `load`. -/
def load (S : Sys) (d : Dir) : Dir × Option Errno :=
  if d.loaded then (d, none)
  else match S.readDir d.key with
    | .error e => (d, some e)
    | .ok es => ({ d with entries := es, loaded := true }, none)

/-- file.go 184-204 `readEntries`; `n` is a Go int. Where `cursor + n` overflows the slice expression panics. -/
def readEntries (S : Sys) (d : Dir) (n : Int) : Dir × Ans :=
  if d.closed then (d, .refused)
  else match load S d with
    | (d, some e) => (d, .error e)
    | (d, none) =>
      if d.entries.length ≤ d.cursor then (d, if n ≤ 0 then .entries [] else .eof)
      else if 0 < n ∧ wrap64 (d.cursor + n) < d.entries.length then
        if wrap64 (d.cursor + n) < d.cursor then (d, .panic)
        else ({ d with cursor := (wrap64 (d.cursor + n)).toNat }, .entries ((d.entries.take (wrap64 (d.cursor + n)).toNat).drop d.cursor))
      else ({ d with cursor := d.entries.length }, .entries (d.entries.drop d.cursor))

/-- file.go 212-228: the infos of a page, asked for one by one; the first failure ends it. -/
def infos (info : Entry → Except Errno Node) : List Entry → Except Errno (List Node)
  | [] => .ok []
  | e :: es => match info e with
    | .error x => .error x
    | .ok i => match infos info es with
      | .error x => .error x
      | .ok is => .ok (i :: is)

/-- The calls on the handle. `info` is what `fs.DirEntry.Info` answers at that moment (merged.go 131-132: it reaches the layer that produced the entry);
`reopen` says whether the top's copy of the directory could be opened after the change. -/
inductive Call where
  | readDir (n : Int)
  | readdir (n : Int) (info : Entry → Except Errno Node)
  | readdirnames (n : Int)
  | seek (offset whence : Int)
  | close
  | chmod (mode : Nat) (reopen : Bool)

/-- file.go 206-210 `ReadDir`, 212-228 `Readdir`, 230-242 `Readdirnames`, 248-292 `Seek`, 152-160 `Close`, 319-355 `Chmod` and `mutate`. -/
def call (S : Sys) (d : Dir) : Call → (Sys × Dir) × Ans
  | .readDir n => ((S, (readEntries S d n).1), (readEntries S d n).2)
  | .readdir n info => ((S, (readEntries S d n).1), match (readEntries S d n).2 with
    | .entries es => match infos info es with
      | .error e => .error e
      | .ok is => .infos is
    | a => a)
  | .readdirnames n => ((S, (readEntries S d n).1), match (readEntries S d n).2 with
    | .entries es => .names (es.map Entry.name)
    | a => a)
  | .seek offset whence =>
    if whence = 0 then
      if offset ≠ 0 then ((S, d), .refused) else ((S, { d with cursor := 0, entries := [], loaded := false }), .ok)
    else if whence = 1 then ((S, d), if offset ≠ 0 then .refused else .ok)
    else if whence = 2 then
      if offset ≠ 0 then ((S, d), .refused)
      else match load S d with
        | (d, some e) => ((S, d), .error e)
        | (d, none) => ((S, { d with cursor := d.entries.length }), .ok)
    else ((S, d), .refused)
  | .close => if d.closed then ((S, d), .ok) else ((S, { d with closed := true, released := d.released ++ [d.inner] }), .ok)
  | .chmod mode reopen =>
    if d.closed then ((S, d), .refused)
    else match result (chmodOp d.key mode) S with
      | .error e => ((final (chmodOp d.key mode) S, d), .error e)
      | .ok _ => ((final (chmodOp d.key mode) S, if reopen then { d with inner := d.inner + 1, released := d.released ++ [d.inner] } else d), .ok)

/-- What happens: somebody changes the overlay in whatever way, or a call is made on the handle. -/
inductive Event where
  | other (T : Sys)
  | call (c : Call)

/-- A call that was made: the overlay it found, and its answer. -/
structure Made where
  found : Sys
  call : Call
  ans : Ans

/-- What the handle does in a history, and the calls made on it. -/
def run : Sys × Dir → List Event → (Sys × Dir) × List Made
  | w, [] => (w, [])
  | w, .other T :: es => run (T, w.2) es
  | w, .call c :: es => ((run (call w.1 w.2 c).1 es).1, ⟨w.1, c, (call w.1 w.2 c).2⟩ :: (run (call w.1 w.2 c).1 es).2)

/-! ### Specification -/

/-- The calls that read by `ReadDir` or `Readdirnames`, those that only ask for the position, seeks that are refused, and changes of the mode. -/
def Quiet : Call → Prop
  | .readDir _ | .readdirnames _ | .chmod .. => True
  | .seek offset whence => offset ≠ 0 ∨ whence = 1
  | _ => False

/-- The entries a call asks for, when `rest` is what it has not delivered: at most `n` of them, all of them for `n ≤ 0`, and io.EOF if there is none. -/
def page (rest : List Entry) (n : Int) : Ans :=
  if n ≤ 0 then .entries rest else if rest = [] then .eof else .entries (rest.take n.toNat)

/-- The same as names. -/
def pageNames (rest : List Entry) (n : Int) : Ans :=
  if n ≤ 0 then .names (rest.map Entry.name) else if rest = [] then .eof else .names ((rest.take n.toNat).map Entry.name)

/-- The names a call delivered. -/
def Made.gave (m : Made) : List Str := match m.ans with
  | .entries l => l.map Entry.name
  | .names l => l
  | _ => []

/-- The names the calls delivered, in order. -/
def gave (ms : List Made) : List Str := ms.flatMap Made.gave

def IsRead : Call → Prop
  | .readDir _ | .readdirnames _ => True
  | _ => False

/-- The listing is taken by the first reading call that finds the directory listable. -/
inductive Takes (key : Name) (es : List Entry) : List Made → Prop where
  | here {m ms} : IsRead m.call → m.found.readDir key = .ok es → Takes key es (m :: ms)
  | later {m ms} : (IsRead m.call → ∃ e, m.found.readDir key = .error e) → Takes key es ms → Takes key es (m :: ms)

/-- The sizes asked for do not overflow when added to the length of the listing. -/
def Sane (es : List Entry) : Call → Prop
  | .readDir n | .readdirnames n => (es.length : Int) + n ≤ maxInt64
  | _ => True

/-! ### Lemmas -/

theorem run_append : ∀ (a b : List Event) (w : Sys × Dir), run w (a ++ b) = ((run (run w a).1 b).1, (run w a).2 ++ (run (run w a).1 b).2)
  | [], b, w => rfl
  | .other T :: a, b, w => by simp only [List.cons_append, run]; exact run_append a b _
  | .call c :: a, b, w => by simp only [List.cons_append, run, run_append a b]

/-- Splitting the calls made splits the events. -/
theorem run_split : ∀ (evs : List Event) (w : Sys × Dir) (x : Made) (p q : List Made), (run w evs).2 = p ++ x :: q →
    ∃ a b, evs = a ++ .call x.call :: b ∧ (run w a).2 = p ∧ (run w a).1.1 = x.found ∧ (call (run w a).1.1 (run w a).1.2 x.call).2 = x.ans ∧
      (run (call (run w a).1.1 (run w a).1.2 x.call).1 b).2 = q
  | [], w, x, p, q, h => by simp [run] at h
  | .other T :: evs, w, x, p, q, h => by
    simp only [run] at h
    obtain ⟨a, b, h1, h2, h3, h4, h5⟩ := run_split evs _ x p q h
    exact ⟨.other T :: a, b, by rw [h1]; rfl, h2, h3, h4, h5⟩
  | .call c :: evs, w, x, p, q, h => by
    simp only [run] at h
    cases p with
    | nil =>
      simp only [List.nil_append, List.cons.injEq] at h
      obtain ⟨hx, hq⟩ := h
      subst hx
      exact ⟨[], evs, rfl, rfl, rfl, rfl, hq⟩
    | cons y p =>
      simp only [List.cons_append, List.cons.injEq] at h
      obtain ⟨hy, hq⟩ := h
      obtain ⟨a, b, h1, h2, h3, h4, h5⟩ := run_split evs _ x p q hq
      exact ⟨.call c :: a, b, by rw [h1]; rfl, by simp only [run, h2, hy], h3, h4, h5⟩

theorem load_key (S : Sys) (d : Dir) : (load S d).1.key = d.key ∧ (load S d).1.closed = d.closed ∧ (load S d).1.cursor = d.cursor ∧ (load S d).1.inner = d.inner ∧
    (load S d).1.released = d.released := by
  unfold load
  split
  · simp
  · split <;> simp

theorem read_key (S : Sys) (d : Dir) (n : Int) : (readEntries S d n).1.key = d.key ∧ (readEntries S d n).1.closed = d.closed ∧ (readEntries S d n).1.inner = d.inner ∧
    (readEntries S d n).1.released = d.released := by
  have hl := load_key S d
  unfold readEntries
  split
  · simp
  · cases h : load S d with
    | mk d' e =>
      rw [h] at hl
      cases e with
      | some e => exact ⟨hl.1, hl.2.1, hl.2.2.2.1, hl.2.2.2.2⟩
      | none =>
        simp only
        split
        · exact ⟨hl.1, hl.2.1, hl.2.2.2.1, hl.2.2.2.2⟩
        · split
          · split <;> exact ⟨hl.1, hl.2.1, hl.2.2.2.1, hl.2.2.2.2⟩
          · exact ⟨hl.1, hl.2.1, hl.2.2.2.1, hl.2.2.2.2⟩

theorem call_key (S : Sys) (d : Dir) (c : Call) : (call S d c).1.2.key = d.key := by
  cases c with
  | readDir n => exact (read_key S d n).1
  | readdir n i => exact (read_key S d n).1
  | readdirnames n => exact (read_key S d n).1
  | seek o w =>
    have hl := (load_key S d).1
    simp only [call]
    split
    · split <;> rfl
    · split
      · rfl
      · split
        · split
          · rfl
          · cases h : load S d with
            | mk d' e => rw [h] at hl; cases e <;> exact hl
        · rfl
  | close => simp only [call]; split <;> rfl
  | chmod m r =>
    simp only [call]
    split
    · rfl
    · split
      · rfl
      · simp only; split <;> rfl

theorem run_key : ∀ (evs : List Event) (w : Sys × Dir), (run w evs).1.2.key = w.2.key
  | [], _ => rfl
  | .other _ :: evs, w => run_key evs _
  | .call c :: evs, w => by simp only [run]; rw [run_key evs]; exact call_key _ _ c

theorem call_closed (S : Sys) (d : Dir) (c : Call) : (call S d c).1.2.closed = true ↔ (d.closed = true ∨ c = .close) := by
  cases c with
  | readDir n => simp [call, (read_key S d n).2.1]
  | readdir n i => simp [call, (read_key S d n).2.1]
  | readdirnames n => simp [call, (read_key S d n).2.1]
  | seek o w =>
    have hl := (load_key S d).2.1
    have : (call S d (.seek o w)).1.2.closed = d.closed := by
      simp only [call]
      split
      · split <;> rfl
      · split
        · rfl
        · split
          · split
            · rfl
            · cases h : load S d with
              | mk d' e => rw [h] at hl; cases e <;> exact hl
          · rfl
    rw [this]; simp
  | close => simp only [call]; split <;> simp [*]
  | chmod m r =>
    have : (call S d (.chmod m r)).1.2.closed = d.closed := by
      simp only [call]
      split
      · rfl
      · split
        · rfl
        · simp only; split <;> rfl
    rw [this]; simp

theorem run_closed : ∀ (evs : List Event) (w : Sys × Dir), (run w evs).1.2.closed = true ↔ (w.2.closed = true ∨ ∃ m ∈ (run w evs).2, m.call = .close)
  | [], w => by simp [run]
  | .other T :: evs, w => by simp only [run]; exact run_closed evs _
  | .call c :: evs, w => by
    simp only [run]
    rw [run_closed evs, call_closed]
    simp [or_assoc]

/-- The handle between a rewind and the next: nothing taken yet, or the listing `es` taken and `k` entries of it delivered. -/
def Blank (d : Dir) : Prop := d.closed = false ∧ d.loaded = false ∧ d.cursor = 0
def At (es : List Entry) (k : Nat) (d : Dir) : Prop := d.closed = false ∧ d.loaded = true ∧ d.entries = es ∧ d.cursor = k ∧ k ≤ es.length

theorem page_gave (es : List Entry) (k : Nat) (n : Int) : (∀ l, page (es.drop k) n = .entries l → l <+: es.drop k) := by
  intro l h
  unfold page at h
  split at h
  · cases h; exact List.prefix_refl _
  · split at h
    · cases h
    · cases h; exact List.take_prefix _ _

/-- One read of a loaded handle. -/
theorem read_at {S : Sys} {d : Dir} {es : List Entry} {k : Nat} (h : At es k d) {n : Int} (hn : (es.length : Int) + n ≤ maxInt64) :
    (readEntries S d n).2 = page (es.drop k) n ∧
      At es (k + (match page (es.drop k) n with | .entries l => l.length | _ => 0)) (readEntries S d n).1 := by
  obtain ⟨h1, h2, h3, h4, h5⟩ := h
  have hload : load S d = (d, none) := by unfold load; rw [h2]; rfl
  have hrl : (es.drop k).length = es.length - k := List.length_drop
  have done : ∀ c, c ≤ es.length → At es c { d with cursor := c, entries := es } := fun c hc => ⟨h1, h2, rfl, rfl, hc⟩
  unfold readEntries
  rw [h1, hload]
  simp only [Bool.false_eq_true, if_false, h4]
  rw [h3]
  by_cases hend : es.length ≤ k
  · rw [if_pos hend]
    have hnil : es.drop k = [] := List.drop_eq_nil_of_le hend
    rw [hnil]
    have : At es k d := ⟨h1, h2, h3, h4, h5⟩
    unfold page
    by_cases hn0 : n ≤ 0
    · simp only [if_pos hn0]; exact ⟨trivial, this⟩
    · simp only [if_neg hn0, if_true]; exact ⟨trivial, this⟩
  · rw [if_neg hend]
    have hne : es.drop k ≠ [] := by intro hh; rw [hh] at hrl; simp at hrl; omega
    by_cases hpos : n ≤ 0
    · rw [if_neg (by omega)]
      unfold page
      simp only [if_pos hpos]
      refine ⟨trivial, ?_⟩
      rw [hrl, show k + (es.length - k) = es.length by omega]
      exact done _ (Nat.le_refl _)
    · have hw : wrap64 (k + n) = k + n := by
        apply wrap64_of_isInt64
        unfold IsInt64 minInt64
        unfold maxInt64 at hn ⊢
        omega
      rw [hw]
      unfold page
      simp only [if_neg hpos, if_neg hne]
      by_cases hlt : (k : Int) + n < es.length
      · rw [if_pos ⟨by omega, hlt⟩, if_neg (by omega)]
        have hk : ((k : Int) + n).toNat = k + n.toNat := by omega
        have hmin : min n.toNat (es.length - k) = n.toNat := Nat.min_eq_left (by omega)
        rw [hk, List.length_take, hrl, hmin]
        refine ⟨?_, done _ (by omega)⟩
        rw [List.take_add, List.drop_append_of_le_length (by rw [List.length_take]; omega), List.drop_take_self, List.nil_append]
      · rw [if_neg (by omega)]
        rw [List.take_of_length_le (by omega), hrl, show k + (es.length - k) = es.length by omega]
        exact ⟨rfl, done _ (Nat.le_refl _)⟩

/-- What a read of a loaded handle gives. -/
theorem gave_at {S : Sys} {d : Dir} {es : List Entry} {k : Nat} (h : At es k d) {c : Call} (hq : Quiet c) (hs : Sane es c) :
    let m : Made := ⟨S, c, (call S d c).2⟩
    m.gave <+: (es.drop k).map Entry.name ∧ At es (k + m.gave.length) (call S d c).1.2 ∧
      (∀ n, c = .readDir n → m.ans = page (es.drop k) n) ∧ (∀ n, c = .readdirnames n → m.ans = pageNames (es.drop k) n) := by
  cases c with
  | readDir n =>
    obtain ⟨h1, h2⟩ := read_at (S := S) h hs
    simp only [call, Made.gave, h1]
    have hp := page_gave es k n
    cases hpg : page (es.drop k) n with
    | entries l =>
      rw [hpg] at h2
      refine ⟨(hp l hpg).map _, by simpa using h2, ?_, by simp⟩
      rintro n' hn; cases hn; exact hpg.symm
    | names l =>
      exfalso
      unfold page at hpg
      split at hpg
      · cases hpg
      · split at hpg <;> cases hpg
    | _ =>
      rw [hpg] at h2
      refine ⟨List.nil_prefix, by simpa using h2, ?_, by simp⟩
      rintro n' hn; cases hn; exact hpg.symm
  | readdirnames n =>
    obtain ⟨h1, h2⟩ := read_at (S := S) h hs
    simp only [call, Made.gave, h1]
    have hp := page_gave es k n
    have hpn : pageNames (es.drop k) n = match page (es.drop k) n with | .entries l => .names (l.map Entry.name) | a => a := by
      unfold page pageNames
      split
      · rfl
      · split <;> rfl
    cases hpg : page (es.drop k) n with
    | entries l =>
      rw [hpg] at h2 hpn
      refine ⟨(hp l hpg).map _, by simpa using h2, by simp, ?_⟩
      rintro n' hn; cases hn; rw [hpn]
    | names l =>
      exfalso
      unfold page at hpg
      split at hpg
      · cases hpg
      · split at hpg <;> cases hpg
    | _ =>
      rw [hpg] at h2 hpn
      refine ⟨List.nil_prefix, by simpa using h2, by simp, ?_⟩
      rintro n' hn; cases hn; rw [hpn]
  | readdir n i => exact hq.elim
  | close => exact hq.elim
  | seek o w =>
    refine ⟨?_, ?_, by simp, by simp⟩
    · simp only [Made.gave, call]
      split <;> first | exact List.nil_prefix | skip
      all_goals (rename_i l hl; exfalso; revert hl; repeat' split)
      all_goals simp
    · have hg : Made.gave ⟨S, .seek o w, (call S d (.seek o w)).2⟩ = [] := by
        simp only [Made.gave, call]
        split <;> first | rfl | skip
        all_goals (rename_i l hl; exfalso; revert hl; repeat' split)
        all_goals simp
      rw [hg]
      have : (call S d (.seek o w)).1.2 = d := by
        simp only [call]
        rcases hq with hq | hq
        · by_cases h0 : w = 0
          · rw [if_pos h0, if_pos hq]
          · rw [if_neg h0]
            by_cases h1 : w = 1
            · rw [if_pos h1]
            · rw [if_neg h1]
              by_cases h2 : w = 2
              · rw [if_pos h2, if_pos hq]
              · rw [if_neg h2]
        · rw [if_neg (by omega), if_pos hq]
      rw [this]; exact h
  | chmod mo r =>
    have hg : Made.gave ⟨S, .chmod mo r, (call S d (.chmod mo r)).2⟩ = [] := by
      simp only [Made.gave, call]
      split <;> first | rfl | skip
      all_goals (rename_i l hl; exfalso; revert hl; repeat' split)
      all_goals simp
    simp only [hg]
    refine ⟨List.nil_prefix, ?_, by simp, by simp⟩
    simp only [call, h.1, Bool.false_eq_true, if_false]
    split
    · exact h
    · simp only; split
      · exact ⟨rfl, h.2.1, h.2.2.1, h.2.2.2.1, h.2.2.2.2⟩
      · exact h

/-- Reads of a loaded handle, with anything happening in between. -/
theorem at_run {es : List Entry} : ∀ (evs : List Event) (w : Sys × Dir) (k : Nat), At es k w.2 → (∀ m ∈ (run w evs).2, Quiet m.call ∧ Sane es m.call) →
    At es (k + (gave (run w evs).2).length) (run w evs).1.2 ∧ gave (run w evs).2 <+: (es.drop k).map Entry.name
  | [], w, k, h, _ => ⟨by simpa [run, gave] using h, by simp [run, gave]⟩
  | .other T :: evs, w, k, h, hq => by simp only [run] at hq ⊢; exact at_run evs _ k h hq
  | .call c :: evs, w, k, h, hq => by
    simp only [run] at hq ⊢
    obtain ⟨hq1, hs1⟩ := hq _ (List.mem_cons_self ..)
    obtain ⟨h1, h2, _⟩ := gave_at (S := w.1) h hq1 hs1
    obtain ⟨h3, h4⟩ := at_run evs _ _ h2 (fun m hm => hq m (List.mem_cons_of_mem _ hm))
    simp only [gave, List.flatMap_cons, List.length_append] at h3 h4 ⊢
    refine ⟨by rw [← Nat.add_assoc]; exact h3, ?_⟩
    obtain ⟨r, hr⟩ := h1
    have hd : (es.drop (k + (Made.gave ⟨w.1, c, (call w.1 w.2 c).2⟩).length)).map Entry.name = r := by
      rw [← List.drop_drop, List.map_drop, ← hr]; simp
    rw [hd] at h4
    rw [← hr]
    exact List.prefix_append_right_inj _ |>.2 h4

theorem load_blank {S : Sys} {d : Dir} (h : Blank d) {es : List Entry} (hl : S.readDir d.key = .ok es) :
    At es 0 (load S d).1 ∧ (load S d).2 = none ∧ ∀ n, readEntries S d n = readEntries S (load S d).1 n := by
  obtain ⟨h1, h2, h3⟩ := h
  have hload : load S d = ({ d with entries := es, loaded := true }, none) := by
    unfold load; rw [h2, hl]; rfl
  have hagain : load S { d with entries := es, loaded := true } = ({ d with entries := es, loaded := true }, none) := by unfold load; rfl
  rw [hload]
  refine ⟨⟨h1, rfl, rfl, h3, Nat.zero_le _⟩, rfl, ?_⟩
  intro n
  unfold readEntries
  rw [hload, hagain]
  simp only [h1, Bool.false_eq_true, if_false]

/-- The first read that finds a listing is a read of the handle with the listing loaded. -/
theorem call_blank {S : Sys} {d : Dir} (h : Blank d) {es : List Entry} (hl : S.readDir d.key = .ok es) {c : Call} (hc : IsRead c) :
    call S d c = call S (load S d).1 c := by
  have := (load_blank h hl).2.2
  cases c with
  | readDir n => simp only [call, this]
  | readdirnames n => simp only [call, this]
  | _ => exact hc.elim

/-- Everything else leaves it without a listing. -/
theorem stays_blank {S : Sys} {d : Dir} (h : Blank d) {c : Call} (hq : Quiet c) (hr : IsRead c → ∃ e, S.readDir d.key = .error e) :
    Blank (call S d c).1.2 ∧ Made.gave ⟨S, c, (call S d c).2⟩ = [] ∧ (IsRead c → ∀ e, S.readDir d.key = .error e → (call S d c).2 = .error e) := by
  have hread : ∀ n, (∃ e, S.readDir d.key = .error e) → ∃ e, S.readDir d.key = .error e ∧ readEntries S d n = (d, .error e) := by
    rintro n ⟨e, he⟩
    refine ⟨e, he, ?_⟩
    unfold readEntries load
    rw [h.1, h.2.1, he]; rfl
  cases c with
  | readDir n =>
    obtain ⟨e, he, heq⟩ := hread n (hr trivial)
    simp only [call, heq, Made.gave]
    exact ⟨h, trivial, fun _ e' he' => by rw [he] at he'; cases he'; rfl⟩
  | readdirnames n =>
    obtain ⟨e, he, heq⟩ := hread n (hr trivial)
    simp only [call, heq, Made.gave]
    exact ⟨h, trivial, fun _ e' he' => by rw [he] at he'; cases he'; rfl⟩
  | readdir n i => exact hq.elim
  | close => exact hq.elim
  | seek o w =>
    have h1 : (call S d (.seek o w)).1.2 = d := by
      simp only [call]
      rcases hq with hq | hq
      · by_cases h0 : w = 0
        · rw [if_pos h0, if_pos hq]
        · rw [if_neg h0]
          by_cases h1 : w = 1
          · rw [if_pos h1]
          · rw [if_neg h1]
            by_cases h2 : w = 2
            · rw [if_pos h2, if_pos hq]
            · rw [if_neg h2]
      · rw [if_neg (by omega), if_pos hq]
    refine ⟨by rw [h1]; exact h, ?_, fun h => h.elim⟩
    simp only [Made.gave, call]
    split <;> first | rfl | skip
    all_goals (rename_i l hl; exfalso; revert hl; repeat' split)
    all_goals simp
  | chmod mo r =>
    refine ⟨?_, ?_, fun h => h.elim⟩
    · simp only [call, h.1, Bool.false_eq_true, if_false]
      split
      · exact h
      · simp only; split
        · exact ⟨rfl, h.2.1, h.2.2⟩
        · exact h
    · simp only [Made.gave, call]
      split <;> first | rfl | skip
      all_goals (rename_i l hl; exfalso; revert hl; repeat' split)
      all_goals simp

/-- From a rewind on. -/
theorem blank_run {es : List Entry} : ∀ (evs : List Event) (w : Sys × Dir) (rest : List Made), Blank w.2 → (∀ m ∈ (run w evs).2, Quiet m.call ∧ Sane es m.call) →
    Takes w.2.key es ((run w evs).2 ++ rest) →
    (Blank (run w evs).1.2 ∧ gave (run w evs).2 = [] ∧ Takes w.2.key es rest) ∨
    (At es (gave (run w evs).2).length (run w evs).1.2 ∧ gave (run w evs).2 <+: es.map Entry.name)
  | [], w, rest, h, _, ht => .inl ⟨h, rfl, by simpa [run] using ht⟩
  | .other T :: evs, w, rest, h, hq, ht => by simp only [run] at hq ht ⊢; exact blank_run evs (T, w.2) rest h hq ht
  | .call c :: evs, w, rest, h, hq, ht => by
    simp only [run, List.cons_append] at hq ht ⊢
    obtain ⟨hq1, hs1⟩ := hq _ (List.mem_cons_self ..)
    have hq2 : ∀ m ∈ (run (call w.1 w.2 c).1 evs).2, Quiet m.call ∧ Sane es m.call := fun m hm => hq m (List.mem_cons_of_mem _ hm)
    cases ht with
    | here hr hl =>
      right
      have hat := (load_blank h hl).1
      obtain ⟨h1, h2, _⟩ := gave_at (S := w.1) hat hq1 hs1
      have hcb := call_blank h hl hr
      simp only at hcb
      rw [hcb] at hq2 ⊢
      obtain ⟨h3, h4⟩ := at_run evs _ _ h2 hq2
      simp only [gave, List.flatMap_cons, List.length_append, Nat.zero_add] at h3 h4 ⊢
      refine ⟨h3, ?_⟩
      obtain ⟨r, hr⟩ := h1
      rw [List.drop_zero] at hr
      rw [List.map_drop, ← hr, List.drop_left] at h4
      rw [← hr]
      exact (List.prefix_append_right_inj _).2 h4
    | later hr hl =>
      obtain ⟨h1, h2, _⟩ := stays_blank h hq1 hr
      have hk := call_key w.1 w.2 c
      rcases blank_run evs _ rest h1 hq2 (by rw [hk]; exact hl) with ⟨h3, h4, h5⟩ | ⟨h3, h4⟩
      · left
        refine ⟨h3, ?_, by rw [← hk]; exact h5⟩
        simp only [gave, List.flatMap_cons, h2, List.nil_append]
        exact h4
      · right
        simp only [gave, List.flatMap_cons, h2, List.nil_append]
        exact ⟨h3, h4⟩

/-- The handle at the beginning of a stretch: just opened, or rewound by the call before. -/
def Start (pre : List Made) : Prop := pre = [] ∨ ∃ p y, pre = p ++ [y] ∧ y.call = .seek 0 0

def NotClosed (ms : List Made) : Prop := ∀ m ∈ ms, m.call ≠ .close

theorem blank_of {S0 : Sys} {key : Name} {a : List Event} {pre seg : List Made} (h : (run (S0, fresh key) a).2 = pre ++ seg) (hs : Start pre) (hc : NotClosed pre) :
    ∃ w b, Blank w.2 ∧ w.2.key = key ∧ (run w b).2 = seg ∧ (run w b).1 = (run (S0, fresh key) a).1 := by
  rcases hs with rfl | ⟨p, y, rfl, hy⟩
  · exact ⟨_, a, ⟨rfl, rfl, rfl⟩, rfl, by simpa using h, rfl⟩
  · rw [List.append_assoc] at h
    obtain ⟨a1, b, h1, h2, h3, h4, h5⟩ := run_split a _ y p seg h
    rw [hy] at h5
    have hcl : (run (S0, fresh key) a1).1.2.closed = false := by
      cases hx : (run (S0, fresh key) a1).1.2.closed with
      | false => rfl
      | true =>
        rcases (run_closed a1 _).1 hx with h | ⟨m, hm, h⟩
        · cases h
        · rw [h2] at hm; exact absurd h (hc m (List.mem_append_left _ hm))
    refine ⟨_, b, ?_, ?_, h5, ?_⟩
    · exact ⟨hcl, rfl, rfl⟩
    · exact (call_key _ _ _).trans (run_key a1 _)
    · rw [h1, run_append, hy]; rfl

/-! ### Property C85 -/

/-- **C85** (pages). Take any history of a handle on an open directory of the overlay, in which the overlay changes arbitrarily between the calls, and a stretch of calls since the handle was opened
or last rewound, made of reads, refused seeks and changes of the mode. What the reads delivered is a beginning of one listing: the one the directory had when the first of these
reads found it. The next read continues exactly there: at most `n` entries, the rest for `n ≤ 0`, io.EOF when there is none left.
Missing from C85: `Readdir` with infos that fail, and sizes that overflow (see the counterexamples). -/
theorem C85_pages_partial (S0 : Sys) (key : Name) (hist : List Event) (pre seg post : List Made) (x : Made) (h : (run (S0, fresh key) hist).2 = pre ++ seg ++ x :: post)
    (hs : Start pre) (hc : NotClosed pre) (es : List Entry) (hq : ∀ m ∈ seg, Quiet m.call ∧ Sane es m.call) :
    ((Takes key es (seg ++ [x])) →
      gave seg <+: es.map Entry.name ∧
      (∀ n, x.call = .readDir n → (es.length : Int) + n ≤ maxInt64 → x.ans = page (es.drop (gave seg).length) n) ∧
      (∀ n, x.call = .readdirnames n → (es.length : Int) + n ≤ maxInt64 → x.ans = pageNames (es.drop (gave seg).length) n)) ∧
    ((∀ m ∈ seg, IsRead m.call → ∃ e, m.found.readDir key = .error e) → IsRead x.call → ∀ e, x.found.readDir key = .error e → x.ans = .error e) := by
  obtain ⟨a, _, _, h2, h3, h4, _⟩ := run_split hist _ x (pre ++ seg) post h
  obtain ⟨w, b, hb, hk, hseg, hrun⟩ := blank_of h2 hs hc
  rw [← hrun] at h3 h4
  rw [h3] at h4
  have hkey : (run w b).1.2.key = key := (run_key b w).trans hk
  constructor
  · intro ht
    rcases blank_run b w [x] hb (by rw [hseg]; exact hq) (by rw [hseg, hk]; exact ht) with ⟨h5, h6, h7⟩ | ⟨h5, h6⟩
    · rw [hseg] at h6
      rw [h6]
      rw [hk] at h7
      have hx : IsRead x.call ∧ x.found.readDir key = .ok es := by
        cases h7 with
        | here h8 h9 => exact ⟨h8, h9⟩
        | later _ h9 => cases h9
      have hl := hx.2
      rw [← hkey] at hl
      rw [call_blank h5 hl hx.1] at h4
      have hat := (load_blank h5 hl).1
      refine ⟨List.nil_prefix, ?_, ?_⟩
      · intro n hn hsane
        have := (gave_at (S := x.found) hat (c := x.call) (by rw [hn]; trivial) (by rw [hn]; exact hsane)).2.2.1 n hn
        simp only at this
        rw [h4] at this
        exact this
      · intro n hn hsane
        have := (gave_at (S := x.found) hat (c := x.call) (by rw [hn]; trivial) (by rw [hn]; exact hsane)).2.2.2 n hn
        simp only at this
        rw [h4] at this
        exact this
    · rw [hseg] at h5 h6
      refine ⟨h6, ?_, ?_⟩
      · intro n hn hsane
        have := (gave_at (S := x.found) h5 (c := x.call) (by rw [hn]; trivial) (by rw [hn]; exact hsane)).2.2.1 n hn
        simp only at this
        rw [h4] at this
        exact this
      · intro n hn hsane
        have := (gave_at (S := x.found) h5 (c := x.call) (by rw [hn]; trivial) (by rw [hn]; exact hsane)).2.2.2 n hn
        simp only at this
        rw [h4] at this
        exact this
  · intro hno hx e he
    have hstay : ∀ (evs : List Event) (w : Sys × Dir), Blank w.2 → w.2.key = key → (∀ m ∈ (run w evs).2, Quiet m.call ∧ (IsRead m.call → ∃ e, m.found.readDir key = .error e)) →
        Blank (run w evs).1.2 := by
      intro evs
      induction evs with
      | nil => intro w hb _ _; exact hb
      | cons ev evs ih =>
        intro w hb hk hm
        cases ev with
        | other T => exact ih (T, w.2) hb hk hm
        | call c =>
          simp only [run] at hm ⊢
          obtain ⟨hq, hr⟩ := hm _ (List.mem_cons_self ..)
          exact ih _ (stays_blank hb hq (by rw [hk]; exact hr)).1 ((call_key _ _ _).trans hk) (fun m hm' => hm m (List.mem_cons_of_mem _ hm'))
    have hbl := hstay b w hb hk (by rw [hseg]; exact fun m hm => ⟨(hq m hm).1, hno m hm⟩)
    have hq' : Quiet x.call := by
      cases hxc : x.call with
      | readDir n => trivial
      | readdirnames n => trivial
      | _ => rw [hxc] at hx; exact hx.elim
    rw [← h4]
    exact (stays_blank (S := x.found) hbl hq' (fun _ => ⟨e, by rw [hkey]; exact he⟩)).2.2 hx e (by rw [hkey]; exact he)

/-- **C85** (whole directory). When such a stretch ends in io.EOF or in a read of the rest, the names delivered are exactly those that could be looked up in the directory
when its listing was taken, each once, in order, whatever happened to it since.
Missing from C85: as above, and symlinks kept by layers at the directory or above it (C53). -/
theorem C85_whole_partial (S0 : Sys) (key : Name) (hist : List Event) (pre seg post : List Made) (x : Made) (h : (run (S0, fresh key) hist).2 = pre ++ seg ++ x :: post)
    (hs : Start pre) (hc : NotClosed pre) (T : Sys) (hT : T.Trees) (hl : T.ListsAll) (hn0 : T.NoLinkAbove key) (hn : T.NoLinkAt key) (i m : Nat) (hd : T.lookup key = .ok (i, .dir m))
    (ht : ∀ es, T.readDir key = .ok es → Takes key es (seg ++ [x]) ∧ ∀ y ∈ seg ++ [x], Quiet y.call ∧ Sane es y.call)
    (hend : ∃ n, x.call = .readDir n ∧ (n ≤ 0 ∨ x.ans = .eof)) :
    (∀ c, c ∈ gave (seg ++ [x]) ↔ ∃ k nd, T.lookup (c :: key) = .ok (k, nd)) ∧ (gave (seg ++ [x])).Nodup ∧ (gave (seg ++ [x])).Pairwise (fun a b => nameLe a b = true) := by
  obtain ⟨es, hes, hmem, hnd, hsort⟩ := C53_listing_partial hT hl hn0 hn hd
  obtain ⟨htk, hq⟩ := ht es hes
  obtain ⟨n, hxc, hn'⟩ := hend
  have hp := (C85_pages_partial S0 key hist pre seg post x h hs hc es (fun y hy => hq y (List.mem_append_left _ hy))).1 htk
  have hsx : (es.length : Int) + n ≤ maxInt64 := by
    have := (hq x (by simp)).2
    rw [hxc] at this
    exact this
  have hans := hp.2.1 n hxc hsx
  have hall : gave (seg ++ [x]) = es.map Entry.name := by
    obtain ⟨r, hr⟩ := hp.1
    have hrest : (es.drop (gave seg).length).map Entry.name = r := by rw [List.map_drop, ← hr]; simp
    have hx : x.gave = r := by
      unfold Made.gave
      unfold page at hans
      split at hans
      · rw [hans]; exact hrest
      · rename_i hpos
        split at hans
        · rename_i hnil
          rw [hans, ← hrest, hnil]; rfl
        · rcases hn' with hn' | hn'
          · exact absurd hn' hpos
          · rw [hn'] at hans; cases hans
    simp only [gave, List.flatMap_append, List.flatMap_cons, List.flatMap_nil, List.append_nil] at hr ⊢
    rw [hx]; exact hr
  rw [hall]
  refine ⟨?_, hnd, List.pairwise_map.2 hsort⟩
  intro c
  constructor
  · intro hc'
    obtain ⟨e, he, rfl⟩ := List.mem_map.1 hc'
    exact ⟨e.layer, e.node, (hmem e.name e.layer e.node).1 he⟩
  · rintro ⟨k, nd, hk⟩
    exact List.mem_map.2 ⟨_, (hmem c k nd).2 hk, rfl⟩

/-- The handle after a seek to the end. -/
def Done (d : Dir) : Prop := d.closed = false ∧ d.loaded = true ∧ d.cursor = d.entries.length

theorem done_call {S : Sys} {d : Dir} (h : Done d) {c : Call} (hq : Quiet c) :
    Done (call S d c).1.2 ∧ Made.gave ⟨S, c, (call S d c).2⟩ = [] ∧ (∀ n, c = .readDir n → (call S d c).2 = page [] n) ∧ (∀ n, c = .readdirnames n → (call S d c).2 = pageNames [] n) := by
  have hread : ∀ n, readEntries S d n = (d, if n ≤ 0 then .entries [] else .eof) := by
    intro n
    unfold readEntries load
    rw [h.1, h.2.1]
    simp only [Bool.false_eq_true, if_false, if_true]
    rw [if_pos (by rw [h.2.2]; exact Nat.le_refl _)]
  cases c with
  | readDir n =>
    simp only [call, hread, Made.gave]
    by_cases hn0 : n ≤ 0
    · simp only [if_pos hn0]
      exact ⟨h, rfl, by rintro n' hn; cases hn; simp [page, hn0], by simp⟩
    · simp only [if_neg hn0]
      exact ⟨h, trivial, by rintro n' hn; cases hn; simp [page, hn0], by simp⟩
  | readdirnames n =>
    simp only [call, hread, Made.gave]
    by_cases hn0 : n ≤ 0
    · simp only [if_pos hn0]
      exact ⟨h, rfl, by simp, by rintro n' hn; cases hn; simp [pageNames, hn0]⟩
    · simp only [if_neg hn0]
      exact ⟨h, trivial, by simp, by rintro n' hn; cases hn; simp [pageNames, hn0]⟩
  | readdir n i => exact hq.elim
  | close => exact hq.elim
  | seek o w =>
    have h1 : (call S d (.seek o w)).1.2 = d := by
      simp only [call]
      rcases hq with hq | hq
      · by_cases h0 : w = 0
        · rw [if_pos h0, if_pos hq]
        · rw [if_neg h0]
          by_cases h1 : w = 1
          · rw [if_pos h1]
          · rw [if_neg h1]
            by_cases h2 : w = 2
            · rw [if_pos h2, if_pos hq]
            · rw [if_neg h2]
      · rw [if_neg (by omega), if_pos hq]
    refine ⟨by rw [h1]; exact h, ?_, by simp, by simp⟩
    simp only [Made.gave, call]
    split <;> first | rfl | skip
    all_goals (rename_i l hl; exfalso; revert hl; repeat' split)
    all_goals simp
  | chmod mo r =>
    refine ⟨?_, ?_, by simp, by simp⟩
    · simp only [call, h.1, Bool.false_eq_true, if_false]
      split
      · exact h
      · simp only; split
        · exact ⟨rfl, h.2.1, h.2.2⟩
        · exact h
    · simp only [Made.gave, call]
      split <;> first | rfl | skip
      all_goals (rename_i l hl; exfalso; revert hl; repeat' split)
      all_goals simp

theorem done_run : ∀ (evs : List Event) (w : Sys × Dir), Done w.2 → (∀ m ∈ (run w evs).2, Quiet m.call) → Done (run w evs).1.2 ∧ gave (run w evs).2 = []
  | [], w, h, _ => ⟨h, rfl⟩
  | .other T :: evs, w, h, hq => done_run evs (T, w.2) h hq
  | .call c :: evs, w, h, hq => by
    simp only [run] at hq ⊢
    obtain ⟨h1, h2, _⟩ := done_call (S := w.1) h (hq _ (List.mem_cons_self ..))
    obtain ⟨h3, h4⟩ := done_run evs _ h1 (fun m hm => hq m (List.mem_cons_of_mem _ hm))
    refine ⟨h3, ?_⟩
    simp only [gave, List.flatMap_cons, h2, List.nil_append]
    exact h4

/-- **C85** (end). After a seek to the end, reads of any size deliver nothing: io.EOF for `n > 0`, an empty page otherwise. -/
theorem C85_end (S0 : Sys) (key : Name) (hist : List Event) (pre seg post : List Made) (y x : Made) (h : (run (S0, fresh key) hist).2 = (pre ++ y :: seg) ++ x :: post)
    (hc : NotClosed pre) (hy : y.call = .seek 0 2) (hok : y.ans = .ok) (hq : ∀ m ∈ seg, Quiet m.call) :
    gave seg = [] ∧ (∀ n, x.call = .readDir n → x.ans = page [] n) ∧ (∀ n, x.call = .readdirnames n → x.ans = pageNames [] n) := by
  obtain ⟨a, _, _, h2, h3, h4, _⟩ := run_split hist _ x (pre ++ y :: seg) post h
  obtain ⟨a1, b, g1, g2, g3, g4, g5⟩ := run_split a _ y pre seg h2
  have hcl : (run (S0, fresh key) a1).1.2.closed = false := by
    cases hx : (run (S0, fresh key) a1).1.2.closed with
    | false => rfl
    | true =>
      rcases (run_closed a1 _).1 hx with h | ⟨m, hm, h⟩
      · cases h
      · rw [g2] at hm; exact absurd h (hc m hm)
  rw [hy] at g4 g5
  rw [hok] at g4
  have hdone : Done (call (run (S0, fresh key) a1).1.1 (run (S0, fresh key) a1).1.2 (.seek 0 2)).1.2 := by
    revert g4
    generalize (run (S0, fresh key) a1).1.1 = T at *
    revert hcl
    generalize (run (S0, fresh key) a1).1.2 = d at *
    intro hcl
    simp only [call]
    rw [if_neg (by decide), if_neg (by decide), if_pos trivial, if_neg (by decide)]
    have hl := load_key T d
    cases hld : load T d with
    | mk d' e =>
      cases e with
      | some e => intro h; cases h
      | none =>
        intro _
        rw [hld] at hl
        refine ⟨hl.2.1.trans hcl, ?_, rfl⟩
        show d'.loaded = true
        unfold load at hld
        split at hld
        · rename_i hx; cases hld; exact hx
        · split at hld <;> cases hld
          rfl
  have hrun : run (S0, fresh key) a = ((run (call (run (S0, fresh key) a1).1.1 (run (S0, fresh key) a1).1.2 (.seek 0 2)).1 b).1, (run (S0, fresh key) a).2) := by
    rw [g1, run_append, hy]; rfl
  obtain ⟨h5, h6⟩ := done_run b _ hdone (by rw [g5]; exact hq)
  rw [g5] at h6
  refine ⟨h6, ?_, ?_⟩
  · intro n hn
    rw [hrun] at h4
    simp only at h4
    rw [← h4]
    exact (done_call h5 (c := x.call) (by rw [hn]; trivial)).2.2.1 n hn
  · intro n hn
    rw [hrun] at h4
    simp only at h4
    rw [← h4]
    exact (done_call h5 (c := x.call) (by rw [hn]; trivial)).2.2.2 n hn

/-- **C85** (`Readdir`). A call of `Readdir` asks for the same entries as `ReadDir`, and if the info of each is there it delivers those, in the same order. -/
theorem C85_readdir_partial (S : Sys) (d : Dir) (n : Int) (f : Entry → Node) (info : Entry → Except Errno Node) (l : List Entry) (h : (call S d (.readDir n)).2 = .entries l)
    (hi : ∀ e ∈ l, info e = .ok (f e)) :
    (call S d (.readdir n info)).2 = .infos (l.map f) ∧ (call S d (.readdir n info)).1 = (call S d (.readDir n)).1 := by
  have hinf : ∀ l : List Entry, (∀ e ∈ l, info e = .ok (f e)) → infos info l = .ok (l.map f) := by
    intro l
    induction l with
    | nil => intro _; rfl
    | cons e l ih =>
      intro hl
      rw [infos, hl e (by simp), ih (fun x hx => hl x (by simp [hx]))]
      rfl
  simp only [call] at h ⊢
  refine ⟨?_, trivial⟩
  rw [h]
  simp only [hinf l hi]

/-- **C85** (`Readdir`, an entry that cannot be inspected). If the info of an entry of the page is not there, the call answers the error of the first such entry,
never a shorter page. -/
theorem C85_readdir_error (S : Sys) (d : Dir) (n : Int) (info : Entry → Except Errno Node) (l l' : List Entry) (e : Entry) (x : Errno)
    (h : (call S d (.readDir n)).2 = .entries (l ++ e :: l')) (hi : ∀ y ∈ l, ∃ i, info y = .ok i) (he : info e = .error x) :
    (call S d (.readdir n info)).2 = .error x ∧ (call S d (.readdir n info)).1 = (call S d (.readDir n)).1 := by
  have hinf : ∀ l : List Entry, (∀ y ∈ l, ∃ i, info y = .ok i) → infos info (l ++ e :: l') = .error x := by
    intro l
    induction l with
    | nil => intro _; rw [List.nil_append, infos, he]
    | cons y l ih =>
      intro hl
      obtain ⟨i, hy⟩ := hl y (by simp)
      rw [List.cons_append, infos, hy, ih (fun z hz => hl z (by simp [hz]))]
  simp only [call] at h ⊢
  refine ⟨?_, trivial⟩
  rw [h]
  simp only [hinf l hi]

/-- The layer handles that were closed. -/
def Rel (d : Dir) : Prop := (d.closed = true → d.released = List.range (d.inner + 1)) ∧ (d.closed = false → d.released = List.range d.inner)

theorem Rel.congr {d d' : Dir} (h : Rel d) (h1 : d'.closed = d.closed) (h2 : d'.inner = d.inner) (h3 : d'.released = d.released) : Rel d' := by
  unfold Rel
  rw [h1, h2, h3]; exact h

theorem rel_call {S : Sys} {d : Dir} (h : Rel d) (c : Call) : Rel (call S d c).1.2 := by
  cases c with
  | readDir n => obtain ⟨_, h1, h2, h3⟩ := read_key S d n; exact h.congr h1 h2 h3
  | readdir n i => obtain ⟨_, h1, h2, h3⟩ := read_key S d n; exact h.congr h1 h2 h3
  | readdirnames n => obtain ⟨_, h1, h2, h3⟩ := read_key S d n; exact h.congr h1 h2 h3
  | seek o wh =>
    have hl := load_key S d
    simp only [call]
    split
    · split
      · exact h
      · exact h.congr rfl rfl rfl
    · split
      · exact h
      · split
        · split
          · exact h
          · cases hx : load S d with
            | mk d' e =>
              rw [hx] at hl
              obtain ⟨_, h1, _, h2, h3⟩ := hl
              cases e <;> exact h.congr h1 h2 h3
        · exact h
  | close =>
    simp only [call]
    split
    · exact h
    · rename_i hc
      refine ⟨fun _ => ?_, fun hf => by cases hf⟩
      simp only [h.2 (by simpa using hc), List.range_succ]
  | chmod mo r =>
    simp only [call]
    split
    · exact h
    · rename_i hc
      split
      · exact h
      · simp only
        split
        · refine ⟨fun hf => absurd hf hc, fun _ => ?_⟩
          simp only [h.2 (by simpa using hc), List.range_succ]
        · exact h

theorem rel_run : ∀ (evs : List Event) (w : Sys × Dir), Rel w.2 → Rel (run w evs).1.2
  | [], _, h => h
  | .other T :: evs, w, h => rel_run evs (T, w.2) h
  | .call c :: evs, _, h => rel_run evs _ (rel_call h c)

/-- **C85** (closing). After `Close`, reads and changes of the mode are refused and do nothing to the overlay, closing again is no error, and of the layer handles it ever held each has
been closed exactly once; before that, each but the one it holds. -/
theorem C85_closed (S0 : Sys) (key : Name) (hist : List Event) :
    let d := (run (S0, fresh key) hist).1.2
    let S := (run (S0, fresh key) hist).1.1
    ((∃ m ∈ (run (S0, fresh key) hist).2, m.call = .close) →
      (∀ n, call S d (.readDir n) = ((S, d), .refused)) ∧ (∀ n, call S d (.readdirnames n) = ((S, d), .refused)) ∧ (∀ n i, call S d (.readdir n i) = ((S, d), .refused)) ∧
      (∀ mo r, call S d (.chmod mo r) = ((S, d), .refused)) ∧ call S d .close = ((S, d), .ok) ∧ ∀ i, d.released.count i = if i ≤ d.inner then 1 else 0) ∧
    ((¬ ∃ m ∈ (run (S0, fresh key) hist).2, m.call = .close) → ∀ i, d.released.count i = if i < d.inner then 1 else 0) := by
  have hrel := rel_run hist (S0, fresh key) ⟨fun h => (by cases h), fun _ => rfl⟩
  have hcl := run_closed hist (S0, fresh key)
  simp only
  constructor
  · intro h
    have hc := hcl.2 (.inr h)
    have hread : ∀ n, readEntries (run (S0, fresh key) hist).1.1 (run (S0, fresh key) hist).1.2 n = ((run (S0, fresh key) hist).1.2, .refused) := by
      intro n; unfold readEntries; rw [if_pos hc]
    refine ⟨?_, ?_, ?_, ?_, ?_, ?_⟩
    · intro n; simp only [call, hread]
    · intro n; simp only [call, hread]
    · intro n i; simp only [call, hread]
    · intro mo r; simp only [call]; rw [if_pos hc]
    · simp only [call]; rw [if_pos hc]
    · intro i
      rw [hrel.1 hc, List.count_range]
      by_cases hi : i ≤ (run (S0, fresh key) hist).1.2.inner
      · rw [if_pos hi, if_pos (by omega)]
      · rw [if_neg hi, if_neg (by omega)]
  · intro h i
    have hc : (run (S0, fresh key) hist).1.2.closed ≠ true := fun hx => (hcl.1 hx).elim (fun hf => by cases hf) h
    rw [hrel.2 (by simpa using hc), List.count_range]

/-! ### Counterexamples -/

namespace Example
open Verif.Overlay.Stack.Example

/-- One layer, whose root holds the files `b` and `x`. -/
def two : Sys where
  last := 0
  layer := fun _ => layerOf [([], .dir 0o755), ([b], .file 0o644 []), ([x], .file 0o600 [])] (.error .notExist)
  mask := fun _ => ⟨[], []⟩
  stage := fun _ => none
  temp := 0
  umask := id

def onlyX (e : Entry) : Except Errno Node := if e.name = x then .ok e.node else .error .notExist
end Example

open Example Verif.Overlay.Stack.Example in
/-- The hypotheses of the pages are met: the listing of the root is read in two pages, and then there is io.EOF, although the directory was emptied in between. -/
example : (run (two, fresh []) [.call (.readDir 1), .other { two with layer := fun _ => layerOf [([], .dir 0o755)] (.error .notExist) }, .call (.readdirnames 5), .call (.readDir 1)]).2.map Made.ans =
    [.entries [⟨b, 0, .file 0o644 []⟩], .names [x], .eof] ∧ two.readDir [] = .ok [⟨b, 0, .file 0o644 []⟩, ⟨x, 0, .file 0o600 []⟩] := ⟨rfl, rfl⟩

open Example in
/-- So are those about the whole directory. -/
example : two.Trees ∧ two.ListsAll ∧ two.NoLinkAbove [] ∧ two.NoLinkAt [] ∧ two.lookup [] = .ok (0, .dir 0o755) :=
  ⟨fun _ _ => okList_isTree (by decide), fun _ _ => okList_lists (by decide), fun _ a t _ _ _ _ => noLink_treeOf (by decide) a t, fun _ a t _ _ _ => noLink_treeOf (by decide) a t, rfl⟩

open Example Verif.Overlay.Stack.Example in
/-- So are those about an entry that cannot be inspected: the second one of a page of two. -/
example : ∃ (info : Entry → Except Errno Node) (e e' : Entry), (call two (fresh []) (.readDir 2)).2 = .entries ([e] ++ e' :: []) ∧
    info e = .ok e.node ∧ info e' = .error .notExist :=
  ⟨fun y => if y.name = b then .ok y.node else .error .notExist, _, _, rfl, rfl, rfl⟩

open Example Verif.Overlay.Stack.Example in
/-- C85 fails for `Readdir` when an entry of the page has vanished since the listing was taken: the call fails, and the other entries of the page are never delivered. (`os.File.Readdir`
leaves the vanished entry out.) -/
theorem C85_counterexample_readdir_loses_entries :
    (run (two, fresh []) [.call (.readdir 2 onlyX), .call (.readDir 1)]).2.map Made.ans = [.error .notExist, .eof] := rfl

open Example Verif.Overlay.Stack.Example in
/-- C85 fails for a size that overflows when added to the position: the call panics. -/
theorem C85_counterexample_huge_size :
    (run (two, fresh []) [.call (.readDir 1), .call (.readDir maxInt64)]).2.map Made.ans = [.entries [⟨b, 0, .file 0o644 []⟩], .panic] := by decide +kernel

end Verif.Overlay.DirHandle
