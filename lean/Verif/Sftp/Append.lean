/-
Files opened for appending over sftp (C109). Models vroot-adapter/sftpfs/sftpfs.go 184-210 `OpenFile`, beside what the operating system does with O_APPEND.

One file with any number of handles. A `*sftp.File` keeps its offset on the client's side and sends it along with every request (pkg/sftp client.go `File.Write`, `File.Read`, `File.Seek`); the stock server
of pkg/sftp writes where it is told, OpenSSH's server appends to a handle opened with SSH_FXF_APPEND.

Simplified: one file, which is always there; bytes are numbers; a write may store any number `k` of leading bytes (and then fails). `Seek` relative to the current offset, `Truncate` and `ReadAt` are left
out, the latter as it has no effect.
-/
namespace Verif.Sftp.Append

abbrev Bytes := List Nat

/-- An open file. -/
structure Handle where
  off : Nat
  app : Bool
  rd : Bool
  wr : Bool
  deriving DecidableEq, Repr

structure St where
  data : Bytes
  handles : List Handle
  deriving DecidableEq, Repr

inductive Ev where
  | opens (app trunc rd wr : Bool)
  | write (i : Nat) (bs : Bytes) (k : Nat)
  | writeAt (i off : Nat) (bs : Bytes) (k : Nat)
  | read (i n : Nat)
  | seekStart (i off : Nat)
  | seekEnd (i back : Nat)
  | size
  deriving DecidableEq, Repr

inductive Out where
  | ok
  | count (n : Nat)
  | bytes (b : Bytes)
  | failed
  deriving DecidableEq, Repr

/-- pwrite(2). -/
def put (d : Bytes) (off : Nat) (bs : Bytes) : Bytes := d.take off ++ List.replicate (off - d.length) 0 ++ bs ++ d.drop (off + bs.length)

/-- Which part follows O_APPEND. -/
structure Kind where
  /-- Writes to an append handle go to the end of the file, wherever the offset is: the operating system, OpenSSH's server. -/
  atEnd : Bool
  /-- Opening for appending moves the offset to the end: sftpfs.go 200-205. -/
  seeks : Bool
  /-- `WriteAt` is refused on append handles: os.File. -/
  strict : Bool

def os : Kind := ⟨true, false, true⟩
/-- sftpfs over the stock server of pkg/sftp. -/
def stock : Kind := ⟨false, true, false⟩
/-- sftpfs over a server that honours SSH_FXF_APPEND. -/
def honours : Kind := ⟨true, true, false⟩

/-- sftpfs.go 191-210 `OpenFile`: the offset the file starts with. -/
def Kind.start (k : Kind) (app : Bool) (d : Bytes) : Nat := if app && k.seeks then d.length else 0

/-- Where a write goes. -/
def Kind.place (k : Kind) (h : Handle) (d : Bytes) : Nat := if h.app && k.atEnd then d.length else h.off

def step (kd : Kind) (s : St) : Ev → St × Out
  | .opens app trunc rd wr =>
    let d := if trunc then [] else s.data
    (⟨d, s.handles ++ [⟨kd.start app d, app, rd, wr⟩]⟩, .ok)
  | .write i bs k => match s.handles[i]? with
    | none => (s, .failed)
    | some h =>
      if h.wr then
        let b := bs.take k
        let p := kd.place h s.data
        (⟨put s.data p b, s.handles.set i { h with off := p + b.length }⟩, .count b.length)
      else (s, .failed)
  | .writeAt i off bs k => match s.handles[i]? with
    | none => (s, .failed)
    | some h =>
      if h.wr && !(h.app && kd.strict) then (⟨put s.data off (bs.take k), s.handles⟩, .count (bs.take k).length)
      else (s, .failed)
  | .read i n => match s.handles[i]? with
    | none => (s, .failed)
    | some h =>
      if h.rd then
        let b := (s.data.drop h.off).take n
        (⟨s.data, s.handles.set i { h with off := h.off + b.length }⟩, .bytes b)
      else (s, .failed)
  | .seekStart i off => match s.handles[i]? with
    | none => (s, .failed)
    | some h => (⟨s.data, s.handles.set i { h with off := off }⟩, .count off)
  | .seekEnd i back => match s.handles[i]? with
    | none => (s, .failed)
    | some h => (⟨s.data, s.handles.set i { h with off := s.data.length - back }⟩, .count (s.data.length - back))
  | .size => (s, .count s.data.length)

/-- A history: what every call returned, and what the file holds at the end. -/
def run (kd : Kind) (s : St) : List Ev → List Out × Bytes
  | [] => ([], s.data)
  | e :: es =>
    let r := step kd s e
    let t := run kd r.1 es
    (r.2 :: t.1, t.2)

/-! ## What is asked of a history -/

/-- The handle is an append handle. -/
def App (s : St) (i : Nat) : Prop := ∃ h, s.handles[i]? = some h ∧ h.app = true

/-- No `WriteAt` on append handles, and no reading from them. -/
def Tame (s : St) : Ev → Prop
  | .writeAt i _ _ _ => ¬ App s i
  | .read i _ => ¬ App s i
  | _ => True

/-- From the time `a` is open, nobody else changes the length of the file, `a` is not moved, and no other append handle writes. -/
def Alone (a : Nat) (s : St) (e : Ev) : Prop :=
  (match e with
    | .write i _ _ => App s i → i = a
    | .seekStart i _ => i ≠ a
    | .seekEnd i _ => i ≠ a
    | _ => True) ∧
  ((step os s e).1.data.length = s.data.length ∨ (∃ bs k, e = .write a bs k) ∨ s.handles.length ≤ a)

/-- Every step of a history, on the operating system's file. -/
def All (P : St → Ev → Prop) (s : St) : List Ev → Prop
  | [] => True
  | e :: es => P s e ∧ All P (step os s e).1 es

/-! ## Simulation -/

/-- Same handle, the offset aside when it is an append handle. -/
def Same (x y : Handle) : Prop := x.app = y.app ∧ x.rd = y.rd ∧ x.wr = y.wr ∧ (x.app = false → x.off = y.off)

structure Rel (s t : St) : Prop where
  data : s.data = t.data
  len : s.handles.length = t.handles.length
  same : ∀ (i : Nat) (x y : Handle), s.handles[i]? = some x → t.handles[i]? = some y → Same x y

theorem rel_get {s t : St} (r : Rel s t) (i : Nat) : (s.handles[i]? = none ∧ t.handles[i]? = none) ∨ ∃ x y, s.handles[i]? = some x ∧ t.handles[i]? = some y ∧ Same x y := by
  cases hx : s.handles[i]? with
  | none =>
    have := List.getElem?_eq_none_iff.mp hx
    exact Or.inl ⟨rfl, List.getElem?_eq_none_iff.mpr (by rw [← r.len]; exact this)⟩
  | some x =>
    have hl := (List.getElem?_eq_some_iff.mp hx).1
    have hy : t.handles[i]? = some (t.handles[i]'(by rw [← r.len]; exact hl)) := List.getElem?_eq_getElem _
    exact Or.inr ⟨x, _, rfl, hy, r.same i _ _ hx hy⟩

theorem rel_set {s t : St} (r : Rel s t) {d d' : Bytes} (hd : d = d') (i : Nat) {x y : Handle} (h : Same x y) : Rel ⟨d, s.handles.set i x⟩ ⟨d', t.handles.set i y⟩ := by
  refine ⟨hd, by simpa using r.len, ?_⟩
  intro j u v hu hv
  rw [List.getElem?_set] at hu hv
  by_cases hij : i = j
  · subst hij
    rw [if_pos rfl] at hu hv
    split at hu
    · split at hv
      · cases hu
        cases hv
        exact h
      · cases hv
    · cases hu
  · rw [if_neg hij] at hu hv
    exact r.same j u v hu hv

/-- One step, on related states; the write of an append handle must go to the end on the other side too. -/
theorem step_rel (kd : Kind) (s t : St) (e : Ev) (r : Rel s t) (ht : Tame s e)
    (hp : ∀ i bs k y, e = .write i bs k → t.handles[i]? = some y → y.app = true → kd.place y t.data = t.data.length) :
    Rel (step os s e).1 (step kd t e).1 ∧ (step os s e).2 = (step kd t e).2 := by
  cases e with
  | opens app trunc rd wr =>
    refine ⟨⟨?_, ?_, ?_⟩, rfl⟩
    · show (if trunc = true then [] else s.data) = if trunc = true then [] else t.data
      rw [r.data]
    · show (s.handles ++ [_]).length = (t.handles ++ [_]).length
      simp [r.len]
    · intro j u v hu hv
      have hu : (s.handles ++ [_])[j]? = some u := hu
      have hv : (t.handles ++ [_])[j]? = some v := hv
      by_cases hj : j < s.handles.length
      · rw [List.getElem?_append_left hj] at hu
        rw [List.getElem?_append_left (by rw [← r.len]; exact hj)] at hv
        exact r.same j u v hu hv
      · rw [List.getElem?_append_right (by omega)] at hu
        rw [List.getElem?_append_right (by rw [← r.len]; omega), ← r.len] at hv
        cases hjk : j - s.handles.length with
        | zero =>
          rw [hjk] at hu hv
          cases hu
          cases hv
          refine ⟨rfl, rfl, rfl, fun h => ?_⟩
          have h : app = false := h
          show os.start app _ = kd.start app _
          rw [h]
          rfl
        | succ m =>
          rw [hjk] at hu
          cases hu
  | size => exact ⟨r, by show Out.count _ = Out.count _; rw [r.data]⟩
  | seekStart i off =>
    rcases rel_get r i with ⟨h1, h2⟩ | ⟨x, y, h1, h2, hs⟩
    · simp only [step, h1, h2]
      exact ⟨r, by first | rfl | trivial⟩
    · simp only [step, h1, h2]
      exact ⟨rel_set r r.data i ⟨hs.1, hs.2.1, hs.2.2.1, fun _ => rfl⟩, by first | rfl | trivial⟩
  | seekEnd i back =>
    rcases rel_get r i with ⟨h1, h2⟩ | ⟨x, y, h1, h2, hs⟩
    · simp only [step, h1, h2]
      exact ⟨r, by first | rfl | trivial⟩
    · simp only [step, h1, h2, r.data]
      exact ⟨rel_set r rfl i ⟨hs.1, hs.2.1, hs.2.2.1, fun _ => rfl⟩, by first | rfl | trivial⟩
  | read i n =>
    rcases rel_get r i with ⟨h1, h2⟩ | ⟨x, y, h1, h2, hs⟩
    · simp only [step, h1, h2]
      exact ⟨r, by first | rfl | trivial⟩
    · have happ : x.app = false := by
        cases hx : x.app with
        | false => rfl
        | true => exact absurd ⟨x, h1, hx⟩ ht
      have ho := hs.2.2.2 happ
      simp only [step, h1, h2, hs.2.1]
      by_cases hr : y.rd = true
      · simp only [hr, if_true, r.data, ho]
        exact ⟨rel_set r rfl i ⟨hs.1, by first | rfl | exact hs.2.1, hs.2.2.1, fun _ => rfl⟩, by first | rfl | trivial⟩
      · simp only [hr]
        exact ⟨r, by first | rfl | trivial⟩
  | writeAt i off bs k =>
    rcases rel_get r i with ⟨h1, h2⟩ | ⟨x, y, h1, h2, hs⟩
    · simp only [step, h1, h2]
      exact ⟨r, by first | rfl | trivial⟩
    · have happ : x.app = false := by
        cases hx : x.app with
        | false => rfl
        | true => exact absurd ⟨x, h1, hx⟩ ht
      have happ' : y.app = false := by rw [← hs.1]; exact happ
      simp only [step, h1, h2, happ, happ', hs.2.2.1]
      by_cases hw : y.wr = true
      · simp only [hw, Bool.false_and, Bool.not_false, Bool.and_self, if_true, r.data]
        exact ⟨⟨rfl, r.len, r.same⟩, by first | rfl | trivial⟩
      · simp only [hw, Bool.false_and]
        exact ⟨r, by first | rfl | trivial⟩
  | write i bs k =>
    rcases rel_get r i with ⟨h1, h2⟩ | ⟨x, y, h1, h2, hs⟩
    · simp only [step, h1, h2]
      exact ⟨r, by first | rfl | trivial⟩
    · simp only [step, h1, h2, hs.2.2.1]
      by_cases hw : y.wr = true
      · have hpl : os.place x s.data = kd.place y t.data := by
          cases hx : x.app with
          | true =>
            rw [hp i bs k y rfl h2 (by rw [← hs.1]; exact hx)]
            unfold Kind.place os
            rw [hx, r.data]
            rfl
          | false =>
            unfold Kind.place
            rw [← hs.1, hx]
            exact hs.2.2.2 hx
        rw [r.data] at hpl
        simp only [hw, if_true, hpl, r.data]
        exact ⟨rel_set r rfl i ⟨hs.1, hs.2.1, by first | rfl | exact hs.2.2.1, fun _ => rfl⟩, by first | rfl | trivial⟩
      · simp only [hw]
        exact ⟨r, by first | rfl | trivial⟩

/-- **C109** (servers that append). Over a server that honours the append flag, every history gives the results it would give on a local file, as long as append handles are only written with `Write`, whoever else
writes, truncates or moves offsets. -/
theorem C109_honours_partial (d : Bytes) (es : List Ev) (h : All Tame ⟨d, []⟩ es) : run honours ⟨d, []⟩ es = run os ⟨d, []⟩ es := by
  have key : ∀ (es : List Ev) (s t : St), Rel s t → All Tame s es → run honours t es = run os s es := by
    intro es
    induction es with
    | nil => exact fun s t r _ => by simp only [run, r.data]
    | cons e es ih =>
      intro s t r ha
      obtain ⟨r', ho⟩ := step_rel honours s t e r ha.1 (fun i bs k y _ _ hy => by
        unfold Kind.place honours
        rw [hy]
        rfl)
      simp only [run, ih _ _ r' ha.2, ho]
  exact key es _ _ ⟨rfl, rfl, fun i x y hx _ => by cases hx⟩ h

/-- The offset of `a` is the length of the file. -/
def Fresh (a : Nat) (t : St) : Prop := ∀ y, t.handles[a]? = some y → y.app = true → y.off = t.data.length

theorem put_end (d bs : Bytes) : put d d.length bs = d ++ bs := by
  unfold put
  rw [List.take_length, Nat.sub_self, List.drop_eq_nil_of_le (by omega)]
  simp

theorem fresh_step (a : Nat) (s t : St) (e : Ev) (r : Rel s t) (f : Fresh a t) (ht : Tame s e) (hal : Alone a s e) (r' : Rel (step os s e).1 (step stock t e).1) : Fresh a (step stock t e).1 := by
  obtain ⟨h1, h2⟩ := hal
  -- the handle is the same, unless the event is its own
  have keep : ∀ (d : Bytes), d.length = t.data.length → ∀ (i : Nat) (z : Handle), i ≠ a → Fresh a ⟨d, t.handles.set i z⟩ := by
    intro d hd i z hi y hy hya
    have hy : (t.handles.set i z)[a]? = some y := hy
    rw [List.getElem?_set_ne hi] at hy
    rw [f y hy hya]
    exact hd.symm
  by_cases hopen : a < t.handles.length
  · cases e with
    | opens app trunc rd wr =>
      have hlen : (step stock t (.opens app trunc rd wr)).1.data.length = t.data.length := by
        rcases h2 with h | ⟨_, _, h⟩ | h
        · rw [← r'.data, h, r.data]
        · cases h
        · rw [r.len] at h
          omega
      intro y hy hya
      have hy : (t.handles ++ [_])[a]? = some y := hy
      rw [List.getElem?_append_left hopen] at hy
      rw [f y hy hya, hlen]
    | size => exact f
    | seekStart i off =>
      simp only [step]
      split
      · exact f
      · exact keep _ rfl i _ h1
    | seekEnd i back =>
      simp only [step]
      split
      · exact f
      · exact keep _ rfl i _ h1
    | read i n =>
      simp only [step]
      split
      · exact f
      · rename_i z hz
        split
        · by_cases hia : i = a
          · subst hia
            intro y hy hya
            have hy : (t.handles.set i _)[i]? = some y := hy
            rw [List.getElem?_set_self hopen] at hy
            cases hy
            rcases rel_get r i with ⟨_, h⟩ | ⟨x, w, hx, hw, hs⟩
            · rw [hz] at h
              cases h
            · rw [hz] at hw
              cases hw
              exact absurd ⟨x, hx, by rw [hs.1]; exact hya⟩ ht
          · exact keep _ rfl i _ hia
        · exact f
    | writeAt i off bs k =>
      have hlen : (step stock t (.writeAt i off bs k)).1.data.length = t.data.length := by
        rcases h2 with h | ⟨_, _, h⟩ | h
        · rw [← r'.data, h, r.data]
        · cases h
        · rw [r.len] at h
          omega
      intro y hy hya
      rw [hlen]
      refine f y ?_ hya
      revert hy
      simp only [step]
      split
      · exact id
      · split
        · exact id
        · exact id
    | write i bs k =>
      by_cases hia : i = a
      · subst hia
        simp only [step]
        split
        · exact f
        · rename_i z hz
          split
          · intro y hy hya
            have hy : (t.handles.set i _)[i]? = some y := hy
            rw [List.getElem?_set_self hopen] at hy
            cases hy
            have hz' := f z hz hya
            have hpl : stock.place z t.data = t.data.length := by
              show (if (z.app && false) = true then _ else z.off) = _
              rw [Bool.and_false]
              exact hz'
            show stock.place z t.data + _ = (put t.data (stock.place z t.data) _).length
            rw [hpl, put_end, List.length_append]
          · exact f
      · have hlen : (step stock t (.write i bs k)).1.data.length = t.data.length := by
          rcases h2 with h | ⟨_, _, h⟩ | h
          · rw [← r'.data, h, r.data]
          · cases h
            exact absurd rfl hia
          · rw [r.len] at h
            omega
        revert hlen
        simp only [step]
        split
        · exact fun _ => f
        · split
          · exact fun hlen => keep _ hlen i _ hia
          · exact fun _ => f
  · -- not open before
    have hnew : (step stock t e).1.handles[a]? = none ∨ ∃ app trunc rd wr, e = .opens app trunc rd wr := by
      cases e with
      | opens app trunc rd wr => exact Or.inr ⟨_, _, _, _, rfl⟩
      | size => exact Or.inl (List.getElem?_eq_none_iff.mpr (by show t.handles.length ≤ a; omega))
      | _ =>
        refine Or.inl (List.getElem?_eq_none_iff.mpr ?_)
        simp only [step]
        split
        · show t.handles.length ≤ a
          omega
        · try split
          all_goals first | (show (t.handles.set _ _).length ≤ a; rw [List.length_set]; omega) | (show t.handles.length ≤ a; omega)
    rcases hnew with h | ⟨app, trunc, rd, wr, rfl⟩
    · intro y hy
      rw [h] at hy
      cases hy
    · intro y hy hya
      have hy : (t.handles ++ [_])[a]? = some y := hy
      rw [List.getElem?_append_right (by omega)] at hy
      cases hk : a - t.handles.length with
      | zero =>
        rw [hk] at hy
        cases hy
        have hya : app = true := hya
        subst hya
        rfl
      | succ m =>
        rw [hk] at hy
        cases hy

/-- **C109** (the stock server). A handle opened for appending gives the results it would give on a local file, in every history in which, while it is open, nobody else changes the length of the file and nobody moves it;
other handles may come and go, read, and overwrite. -/
theorem C109_alone_partial (a : Nat) (d : Bytes) (es : List Ev) (h : All Tame ⟨d, []⟩ es) (hal : All (Alone a) ⟨d, []⟩ es) : run stock ⟨d, []⟩ es = run os ⟨d, []⟩ es := by
  have key : ∀ (es : List Ev) (s t : St), Rel s t → Fresh a t → All Tame s es → All (Alone a) s es → run stock t es = run os s es := by
    intro es
    induction es with
    | nil => exact fun s t r _ _ _ => by simp only [run, r.data]
    | cons e es ih =>
      intro s t r f ha hb
      obtain ⟨r', ho⟩ := step_rel stock s t e r ha.1 (by
        intro i bs k y he hy hya
        have hia : i = a := by
          have h1 := hb.1.1
          rw [he] at h1
          rcases rel_get r i with ⟨_, h⟩ | ⟨x, w, hx, hw, hs⟩
          · rw [hy] at h
            cases h
          · rw [hy] at hw
            cases hw
            exact h1 ⟨x, hx, by rw [hs.1]; exact hya⟩
        subst hia
        show (if (y.app && false) = true then _ else y.off) = _
        rw [Bool.and_false]
        exact f y hy hya)
      simp only [run, ih _ _ r' (fresh_step a s t e r f ha.1 hb.1 r') ha.2 hb.2, ho]
  exact key es _ _ ⟨rfl, rfl, fun i x y hx _ => by cases hx⟩ (fun y hy => by cases hy) h hal

/-- **C109** (local files). What the results are compared with: a write of an append handle adds to the end, whatever happened before. -/
theorem C109_os (s : St) (i : Nat) (h : Handle) (bs : Bytes) (k : Nat) (hi : s.handles[i]? = some h) (ha : h.app = true) (hw : h.wr = true) :
    (step os s (.write i bs k)).1.data = s.data ++ bs.take k := by
  simp only [step, hi, hw, if_true]
  have : os.place h s.data = s.data.length := by
    unfold Kind.place os
    rw [ha]
    rfl
  rw [this, put_end]

/-- Two handles appending, 1 2 and then 3. -/
def two : List Ev := [.opens true false false true, .opens true false false true, .write 0 [1, 2] 2, .write 1 [3] 1]

/-- **C109** does not hold: two handles open for appending overwrite each other over the stock server. Two loggers lose lines. -/
theorem C109_counterexample_two : (run stock ⟨[9], []⟩ two).2 = [9, 3, 2] ∧ (run os ⟨[9], []⟩ two).2 = [9, 1, 2, 3] := by decide

/-- **C109** does not hold: after a seek, a write to an append handle overwrites. -/
theorem C109_counterexample_seek :
    let es := [Ev.opens true false false true, .seekStart 0 0, .write 0 [1] 1]
    (run stock ⟨[7, 8], []⟩ es).2 = [1, 8] ∧ (run os ⟨[7, 8], []⟩ es).2 = [7, 8, 1] := by decide

/-- **C109** does not hold: a file opened for reading and appending starts at the end, so that reading it gives nothing. This is so over every server. -/
theorem C109_counterexample_read :
    let es := [Ev.opens true false true true, .read 0 10]
    (run stock ⟨[7, 8], []⟩ es).1 = [.ok, .bytes []] ∧ (run honours ⟨[7, 8], []⟩ es).1 = [.ok, .bytes []] ∧ (run os ⟨[7, 8], []⟩ es).1 = [.ok, .bytes [7, 8]] := by decide

/-- **C109** does not hold: `WriteAt` on an append handle is carried out, not refused. -/
theorem C109_counterexample_writeAt :
    let es := [Ev.opens true false false true, .writeAt 0 0 [1] 1]
    (run stock ⟨[7, 8], []⟩ es).2 = [1, 8] ∧ (run os ⟨[7, 8], []⟩ es) = ([.ok, .failed], [7, 8]) := by decide

/-- A history that meets the hypotheses: a reader overwrites the first byte between two appends, the first of them cut short. -/
def calm : List Ev := [.opens false true true true, .write 0 [5, 6] 9, .opens true false false true, .write 1 [1, 2] 1, .writeAt 0 0 [4] 1, .write 1 [3] 1, .seekStart 0 0, .read 0 10, .size]

example : (run stock ⟨[9], []⟩ calm).2 = [4, 6, 1, 3] := by decide
example : All Tame ⟨[9], []⟩ calm := by simp [calm, All, Tame, App, step, os, Kind.start, Kind.place, put]
example : All (Alone 1) ⟨[9], []⟩ calm := by simp [calm, All, Alone, App, step, os, Kind.start, Kind.place, put]
example : run stock ⟨[9], []⟩ calm = run os ⟨[9], []⟩ calm :=
  C109_alone_partial 1 [9] calm (by simp [calm, All, Tame, App, step, os, Kind.start, Kind.place, put]) (by simp [calm, All, Alone, App, step, os, Kind.start, Kind.place, put])
example : All Tame ⟨[9], []⟩ two := by simp [two, All, Tame]

end Verif.Sftp.Append
