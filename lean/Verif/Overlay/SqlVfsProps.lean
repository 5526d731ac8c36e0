import Verif.Overlay.SqlVfs
/-
C102: a sqlite database inside a filesystem: names, files, errors.
-/
namespace Verif.Overlay.SqlVfs
open Verif.Path

/-! ## Names -/

/-- **C102** (names). The name sqlite gets for its name is that of the place its components lead to from the root, ".." never leading out of it: two names get the
same answer exactly when they lead to the same place, giving the answer back changes nothing, and every answer but that for the root itself is a clean local path. -/
theorem C102_names (s : Sys) (name : Str) :
    ∃ full, (step s (.fullPath name)).1 = .name full ∧ place full = place name ∧
      (∀ other, (step s (.fullPath other)).1 = .name full ↔ place other = place name) ∧
      (step s (.fullPath full)).1 = .name full ∧
      (place name = [] → full = []) ∧ (place name ≠ [] → isLocal full = true ∧ clean full = full) := by
  have hp : place (join (place name)) = place name := place_join (place_names name)
  refine ⟨cleanPath name, rfl, ?_, ?_, ?_, ?_, ?_⟩
  · rw [cleanPath_eq, hp]
  · intro other
    show Out.name _ = _ ↔ _
    rw [cleanPath_eq, cleanPath_eq]
    constructor
    · intro h
      have h : join (place other) = join (place name) := by injection h
      rw [← hp, ← h, place_join (place_names other)]
    · intro h; rw [h]
  · show Out.name _ = _
    rw [cleanPath_eq (cleanPath name), cleanPath_eq name, hp]
  · intro h; rw [cleanPath_eq, h]; rfl
  · intro h
    rw [cleanPath_eq]
    refine ⟨(local_join (place_names name)).mpr h, ?_⟩
    have hn : Normal false (place name) := .names (place_names name)
    have := clean_render hn
    rwa [render, if_neg (by simp), if_neg h] at this

/-- **C102** (journals). What sqlite appends to the name of a database ("-journal", "-wal") names a file beside it: the directory is the same, and the file name is the
database's with the suffix, whatever the database is called. -/
theorem C102_beside (name suffix : Str) (hs : slash ∉ suffix) (dirs : List Str) (last : Str) (hp : place name = dirs ++ [last]) :
    cleanPath (cleanPath name ++ suffix) = cleanPath name ++ suffix ∧ place (cleanPath name ++ suffix) = dirs ++ [last ++ suffix] := by
  have hn := place_names name
  rw [hp] at hn
  have hl := hn last (by simp)
  have hname : IsName (last ++ suffix) := by
    refine ⟨⟨?_, ?_⟩, ?_, ?_⟩
    · simp [hl.1.1]
    · intro h
      rcases List.mem_append.mp h with h | h
      · exact hl.1.2 h
      · exact hs h
    · intro h
      have h1 := hl.1.1
      have h2 := hl.2.1
      rcases last with _ | ⟨a, _ | ⟨b, r⟩⟩
      · exact h1 rfl
      · have : a = '.' := by simp [dot] at h; exact h.1
        exact h2 (by rw [this]; rfl)
      · simp [dot] at h
    · intro h
      have h1 := hl.1.1
      have h2 := hl.2.1
      have h3 := hl.2.2
      rcases last with _ | ⟨a, _ | ⟨b, _ | ⟨c, r⟩⟩⟩
      · exact h1 rfl
      · have : a = '.' := by simp [dotdot] at h; exact h.1
        exact h2 (by rw [this]; rfl)
      · have : a = '.' ∧ b = '.' := by simp [dotdot] at h; exact ⟨h.1, h.2.1⟩
        exact h3 (by rw [this.1, this.2]; rfl)
      · simp [dotdot] at h
  have hall : ∀ c ∈ dirs ++ [last ++ suffix], IsName c := by
    intro c hc
    rcases List.mem_append.mp hc with hc | hc
    · exact hn c (by simp [hc])
    · have : c = last ++ suffix := by simpa using hc
      rw [this]; exact hname
  have hj : join (dirs ++ [last]) ++ suffix = join (dirs ++ [last ++ suffix]) := by
    by_cases hd : dirs = []
    · subst hd; rfl
    · rw [join_concat hd, join_concat hd]; simp
  have h2 : place (cleanPath name ++ suffix) = dirs ++ [last ++ suffix] := by
    rw [cleanPath_eq, hp, hj, place_join hall]
  refine ⟨?_, h2⟩
  rw [cleanPath_eq (cleanPath name ++ suffix), h2, cleanPath_eq name, hp, hj]

example : place "/x/../../db/./main".toList = ["db".toList, "main".toList] := by decide
example : cleanPath "/x/../../db/./main".toList = "db/main".toList := by decide +kernel
example : cleanPath (cleanPath "../a/...".toList ++ "-journal".toList) = "a/...-journal".toList := by decide +kernel

/-! ## Files -/

/-- Contents after a write, byte by byte. -/
theorem C102_write_bytes (old bytes : List UInt8) (off k : Nat) (hne : bytes ≠ []) :
    (patch old off bytes)[k]? =
      if off ≤ k ∧ k < off + bytes.length then bytes[k - off]? else if k < old.length then old[k]? else if k < off then some 0 else none := by
  rw [patch, if_neg hne]
  have hl : 0 < bytes.length := List.length_pos_iff.mpr hne
  simp only [List.append_assoc, List.getElem?_append, List.length_take, List.length_replicate, List.getElem?_take, List.getElem?_replicate, List.getElem?_drop]
  by_cases h1 : k < min off old.length
  · rw [if_pos h1, if_pos (by omega), if_neg (by omega), if_pos (by omega)]
  · rw [if_neg h1]
    by_cases h2 : k - min off old.length < off - old.length
    · rw [if_pos h2, if_pos h2, if_neg (by omega), if_neg (by omega), if_pos (by omega)]
    · rw [if_neg h2]
      by_cases h3 : k - min off old.length - (off - old.length) < bytes.length
      · rw [if_pos h3, if_pos (by omega)]
        congr 1; omega
      · rw [if_neg h3, if_neg (by omega)]
        have e : off + bytes.length + (k - min off old.length - (off - old.length) - bytes.length) = k := by omega
        rw [e]
        by_cases h4 : k < old.length
        · rw [if_pos h4]
        · rw [if_neg h4, if_neg (by omega)]
          exact List.getElem?_eq_none (by omega)

/-- Contents after a truncation, byte by byte. -/
theorem C102_truncate_bytes (old : List UInt8) (size k : Nat) :
    (resized old size)[k]? = if k < size then (if k < old.length then old[k]? else some 0) else none := by
  rw [resized]
  simp only [List.getElem?_append, List.length_take, List.getElem?_take, List.getElem?_replicate]
  by_cases h1 : k < size
  · rw [if_pos h1]
    by_cases h2 : k < old.length
    · rw [if_pos (by omega), if_pos h2]; simp [h1]
    · rw [if_neg (by omega), if_neg h2, if_pos (by omega), if_pos h1]
  · rw [if_neg (by omega), if_neg (by omega), if_neg h1]

/-- A file sqlite holds open. -/
structure DHandle where
  id : Nat
  place : List Str
  writable : Bool
  deleteOnClose : Bool
  closed : Bool
  lk : Lock.File

/-- What sqlite relies on: files at places, with contents that live on while they are open. -/
structure Disk where
  file : List Str → Option Nat
  cell : Nat → List UInt8
  fresh : Nat
  handles : List DHandle

def Disk.put (d : Disk) (p : List Str) (f : Option Nat) : Disk := { d with file := fun q => if q = p then f else d.file q }
def Disk.write (d : Disk) (id : Nat) (c : List UInt8) : Disk := { d with cell := fun i => if i = id then c else d.cell i }

/-- Removal of the file at a place (the root is none), as `Delete` and the closing of a temporary file do it. -/
def Removes (d : Disk) (p : List Str) (fault : Option BErr) (e : Option BErr) (d' : Disk) : Prop :=
  (∃ f, fault = some f ∧ e = some f ∧ d' = d) ∨
  (fault = none ∧ p = [] ∧ e = some .invalid ∧ d' = d) ∨
  (fault = none ∧ p ≠ [] ∧ d.file p = none ∧ e = some .notExist ∧ d' = d) ∨
  (fault = none ∧ p ≠ [] ∧ d.file p ≠ none ∧ e = none ∧ d' = d.put p none)

/-- What one call must give and do. -/
def Says (d : Disk) (op : Op) (out : Out) (d' : Disk) : Prop :=
  match op with
  | .open name fl fault =>
    if name = [] then out = .memory ∧ d' = d
    else
      (∃ e, out = .failed (.cantOpen e) ∧ d' = d ∧
        (fault = some e ∨ fault = none ∧ (place name = [] ∧ e = .invalid ∨
          place name ≠ [] ∧ d.file (place name) = none ∧ fl.create = false ∧ e = .notExist ∨
          place name ≠ [] ∧ d.file (place name) ≠ none ∧ fl.create = true ∧ fl.exclusive = true ∧ e = .exist))) ∨
      (fault = none ∧ place name ≠ [] ∧ out = .opened d.handles.length ∧ ∃ id d1,
        (d.file (place name) = some id ∧ ¬ (fl.create = true ∧ fl.exclusive = true) ∧ d1 = d ∨
          d.file (place name) = none ∧ fl.create = true ∧ id = d.fresh ∧ d1 = { (d.put (place name) (some id)).write id [] with fresh := d.fresh + 1 }) ∧
        d' = { d1 with handles := d.handles ++ [⟨id, place name, fl.readwrite, fl.deleteOnClose, false, ⟨fl.readonly, .none, .none⟩⟩] })
  | .delete name fault => ∃ e, Removes d (place name) fault e d' ∧
      out = match (e : Option BErr) with | none => .done | some .notExist => .failed (.deleteNoent .notExist) | some e => .failed (.raw e)
  | .access name fault => d' = d ∧
      match fault with
      | some e => out = if e = .notExist then .answer false else .failed (.raw e)
      | none => if place name = [] then out = .failed (.raw .invalid) else out = .answer (d.file (place name)).isSome
  | .fullPath name => d' = d ∧ out = .name (join (place name))
  | .readAt h n off fault _ => d' = d ∧
      match d.handles[h]? with
      | none => out = .badHandle
      | some f =>
        if f.closed then out = .data [] (some (.raw .closed))
        else match fault with
          | none => out = .data (((d.cell f.id).drop off).take n) (if (d.cell f.id).length < off + n ∧ 0 < n then some (.raw (.eof false)) else none)
          | some (k, .eof _) => out = .data ((((d.cell f.id).drop off).take n).take k) (some (.raw (.eof false)))
          | some (k, e) => out = .data ((((d.cell f.id).drop off).take n).take k) (some (.raw e))
  | .writeAt h bytes off fault =>
      match d.handles[h]? with
      | none => out = .badHandle ∧ d' = d
      | some f =>
        if f.closed then out = .wrote 0 (some (.raw .closed)) ∧ d' = d
        else if f.writable = false then out = .wrote 0 (some (.raw .readOnly)) ∧ d' = d
        else match fault with
          | none => out = .wrote bytes.length none ∧ d' = d.write f.id (patch (d.cell f.id) off bytes)
          | some (k, e) => out = .wrote (min k bytes.length) (some (.raw e)) ∧ d' = d.write f.id (patch (d.cell f.id) off (bytes.take k))
  | .truncate h size fault =>
      match d.handles[h]? with
      | none => out = .badHandle ∧ d' = d
      | some f =>
        if f.closed then out = .failed (.raw .closed) ∧ d' = d
        else if f.writable = false then out = .failed (.raw .readOnly) ∧ d' = d
        else match fault with
          | some e => out = .failed (.raw e) ∧ d' = d
          | none => out = .done ∧ d' = d.write f.id (resized (d.cell f.id) size)
  | .size h fault => d' = d ∧
      match d.handles[h]? with
      | none => out = .badHandle
      | some f =>
        if f.closed then out = .failed (.raw .closed)
        else match fault with
          | some e => out = .failed (.raw e)
          | none => out = .length (d.cell f.id).length
  | .lock h r o =>
      match d.handles[h]? with
      | none => out = .badHandle ∧ d' = d
      | some f => (out = .done ↔ (r.run o f.lk).2 = true) ∧ d' = { d with handles := d.handles.set h { f with lk := (r.run o f.lk).1 } }
  | .close h unl cf rf =>
      match d.handles[h]? with
      | none => out = .badHandle ∧ d' = d
      | some f => ∃ re d1, (if f.deleteOnClose then Removes d f.place rf re d1 else re = none ∧ d1 = d) ∧
          d' = { d1 with handles := d.handles.set h { f with closed := true, lk := { f.lk with level := .none, held := .none } } } ∧
          (out = .done ↔ (f.lk.level = .none ∨ unl = .ok) ∧ f.closed = false ∧ cf = none ∧ re = none) ∧
          (out ≠ .done → ∃ u, out = .failed (.closing u (if f.closed then some .closed else cf) re) ∧ (u = true ↔ ¬ (f.lk.level = .none ∨ unl = .ok)))

def History : Disk → List Op → List Out → Disk → Prop
  | d, [], outs, d' => outs = [] ∧ d' = d
  | d, o :: os, outs, d' => ∃ r rest d1, outs = r :: rest ∧ Says d o r d1 ∧ History d1 os rest d'

/-- The disk a filesystem and the open handles make. -/
def diskOf (s : Sys) : Disk where
  file p := if p ≠ [] ∧ ∀ c ∈ p, IsName c then s.back.names (join p) else none
  cell := s.back.cell
  fresh := s.back.fresh
  handles := s.handles.map fun h => ⟨h.id, place h.name, h.writable, h.flags.deleteOnClose, h.closed, h.lk⟩

def Proper (s : Sys) : Prop := ∀ h ∈ s.handles, place h.name ≠ [] ∧ join (place h.name) = h.name

theorem file_place (s : Sys) {p : List Str} (hp : ∀ c ∈ p, IsName c) (hne : p ≠ []) : (diskOf s).file p = s.back.names (join p) := by
  simp only [diskOf]; rw [if_pos ⟨hne, hp⟩]

theorem join_inj {p q : List Str} (hp : ∀ c ∈ p, IsName c) (hq : ∀ c ∈ q, IsName c) (h : join p = join q) : p = q := by
  rw [← place_join hp, h, place_join hq]

theorem remove_says {s : Sys} {p : List Str} (hp : ∀ c ∈ p, IsName c) (fault : Option BErr) :
    Removes (diskOf s) p fault (s.back.remove (join p) fault).1 (diskOf { s with back := (s.back.remove (join p) fault).2 }) := by
  unfold Back.remove
  cases fault with
  | some e => exact Or.inl ⟨e, rfl, rfl, rfl⟩
  | none =>
    simp only
    by_cases hne : p = []
    · subst hne
      rw [if_pos (by decide)]
      exact Or.inr (Or.inl ⟨rfl, rfl, rfl, rfl⟩)
    · have hl := (local_join hp).mpr hne
      rw [if_neg (by rw [hl]; simp)]
      by_cases hx : s.back.names (join p) = none
      · rw [if_pos hx]
        exact Or.inr (Or.inr (Or.inl ⟨rfl, hne, by rw [file_place s hp hne, hx], rfl, rfl⟩))
      · rw [if_neg hx]
        refine Or.inr (Or.inr (Or.inr ⟨rfl, hne, by rw [file_place s hp hne]; exact hx, rfl, ?_⟩))
        simp only [diskOf, Disk.put, Back.ask]
        congr 1
        funext q
        by_cases hq : q ≠ [] ∧ ∀ c ∈ q, IsName c
        · rw [if_pos hq]
          by_cases e : q = p
          · subst e; simp
          · rw [if_neg e, if_neg (fun h => e (join_inj hq.2 hp h)), if_pos hq]
        · rw [if_neg hq]
          split <;> rfl

theorem remove_handles (b : Back) (n : Str) (f : Option BErr) : (b.remove n f).2.cell = b.cell := by
  unfold Back.remove
  split
  · rfl
  · split
    · rfl
    · split <;> rfl

theorem says_step (s : Sys) (hs : Proper s) (op : Op) : Says (diskOf s) op (step s op).1 (diskOf (step s op).2) ∧ Proper (step s op).2 := by
  have hget : ∀ (h : Nat), (diskOf s).handles[h]? = (s.handles[h]?).map fun (h : Handle) => DHandle.mk h.id (place h.name) h.writable h.flags.deleteOnClose h.closed h.lk := by
    intro h; simp [diskOf]
  cases op with
  | «open» name fl fault =>
    simp only [Says, step, vOpen]
    by_cases hn : name = []
    · rw [if_pos hn, if_pos hn]; exact ⟨⟨rfl, rfl⟩, hs⟩
    · rw [if_neg hn, if_neg hn, cleanPath_eq]
      have hp := place_names name
      unfold Back.openFile
      cases fault with
      | some e => exact ⟨Or.inl ⟨e, rfl, rfl, Or.inl rfl⟩, hs⟩
      | none =>
        simp only
        by_cases hne : place name = []
        · rw [if_pos (by rw [hne]; decide)]
          exact ⟨Or.inl ⟨_, rfl, rfl, Or.inr ⟨trivial, Or.inl ⟨hne, rfl⟩⟩⟩, hs⟩
        · have hl := (local_join hp).mpr hne
          rw [if_neg (by rw [hl]; simp)]
          have hf := file_place s hp hne
          have hprop : ∀ (b : Back) (id : Nat), Proper ⟨b, s.handles ++ [⟨id, fl.readwrite, false, join (place name), fl, ⟨fl.readonly, .none, .none⟩⟩]⟩ := by
            intro b id h hh
            rcases List.mem_append.mp hh with hh | hh
            · exact hs h hh
            · have hh := List.mem_singleton.mp hh
              subst hh
              exact ⟨by simp only; rw [place_join hp]; exact hne, by simp only; rw [place_join hp]⟩
          cases hx : s.back.names (join (place name)) with
          | some id =>
            simp only
            by_cases hc : fl.create = true ∧ fl.exclusive = true
            · rw [if_pos hc]
              exact ⟨Or.inl ⟨_, rfl, rfl, Or.inr ⟨trivial, Or.inr (Or.inr ⟨hne, by rw [hf, hx]; simp, hc.1, hc.2, rfl⟩)⟩⟩, hs⟩
            · rw [if_neg hc]
              refine ⟨Or.inr ⟨trivial, hne, by simp [diskOf], id, diskOf s, Or.inl ⟨by rw [hf, hx], hc, rfl⟩, ?_⟩, hprop _ _⟩
              simp [diskOf, Back.ask, place_join hp]
          | none =>
            simp only
            by_cases hc : fl.create = true
            · rw [if_pos hc]
              refine ⟨Or.inr ⟨trivial, hne, by simp [diskOf], s.back.fresh, _, Or.inr ⟨by rw [hf, hx], hc, rfl, rfl⟩, ?_⟩, hprop _ _⟩
              simp only [diskOf, Disk.put, Disk.write, List.map_append, List.map_cons, List.map_nil, place_join hp]
              congr 1
              funext q
              by_cases hq : q ≠ [] ∧ ∀ c ∈ q, IsName c
              · rw [if_pos hq]
                by_cases e : q = place name
                · subst e; simp
                · rw [if_neg e, if_neg (fun h => e (join_inj hq.2 hp h)), if_pos hq]
              · rw [if_neg hq]
                by_cases e : q = place name
                · subst e; exact absurd ⟨hne, hp⟩ hq
                · rw [if_neg e, if_neg hq]
            · rw [if_neg hc]
              exact ⟨Or.inl ⟨_, rfl, rfl, Or.inr ⟨trivial, Or.inr (Or.inl ⟨hne, by rw [hf, hx], by simpa using hc, rfl⟩)⟩⟩, hs⟩
  | delete name fault =>
    simp only [Says, step, vDelete]
    rw [cleanPath_eq]
    have h := remove_says (s := s) (place_names name) fault
    generalize hr : s.back.remove (join (place name)) fault = r at h
    obtain ⟨e, b⟩ := r
    cases e with
    | none => exact ⟨⟨_, h, rfl⟩, hs⟩
    | some e =>
      refine ⟨⟨_, h, ?_⟩, hs⟩
      simp only
      cases e <;> rfl
  | access name fault =>
    simp only [Says, step, vAccess]
    rw [cleanPath_eq]
    unfold Back.stat
    cases fault with
    | some e => exact ⟨⟨rfl, rfl⟩, hs⟩
    | none =>
      simp only
      by_cases hne : place name = []
      · rw [if_pos (by rw [hne]; decide), if_pos hne]
        exact ⟨⟨rfl, rfl⟩, hs⟩
      · have hl := (local_join (place_names name)).mpr hne
        rw [if_neg (by rw [hl]; simp), if_neg hne, file_place s (place_names name) hne]
        by_cases hx : s.back.names (join (place name)) = none
        · rw [if_pos hx, hx]; exact ⟨⟨rfl, rfl⟩, hs⟩
        · rw [if_neg hx]
          cases hy : s.back.names (join (place name)) with
          | none => exact absurd hy hx
          | some i => exact ⟨⟨rfl, rfl⟩, hs⟩
  | fullPath name => exact ⟨⟨rfl, by rw [← cleanPath_eq]; rfl⟩, hs⟩
  | readAt h n off fault w =>
    simp only [Says, step]
    rw [hget]
    cases hh : s.handles[h]? with
    | none => exact ⟨⟨rfl, rfl⟩, hs⟩
    | some f =>
      refine ⟨⟨rfl, ?_⟩, hs⟩
      simp only [Option.map_some, vReadAt, Back.readAt]
      by_cases hc : f.closed = true
      · rw [if_pos hc, if_pos hc]
      · rw [if_neg hc, if_neg hc]
        cases fault with
        | none =>
          show _ = Out.data ((List.drop off (s.back.cell f.id)).take n) (if (s.back.cell f.id).length < off + n ∧ 0 < n then _ else _)
          simp only
          generalize hb : List.take n (List.drop off (s.back.cell f.id)) = bs
          have hlen : bs.length = min n ((s.back.cell f.id).length - off) := by rw [← hb]; simp
          by_cases hlt : bs.length < n
          · rw [if_pos hlt, if_pos (by omega)]
          · rw [if_neg hlt, if_neg (by omega)]
        | some ke =>
          obtain ⟨k, e⟩ := ke
          simp only [diskOf]
          cases e <;> rfl
  | writeAt h bytes off fault =>
    simp only [Says, step]
    rw [hget]
    cases hh : s.handles[h]? with
    | none => exact ⟨⟨rfl, rfl⟩, hs⟩
    | some f =>
      simp only [Option.map_some, vWriteAt]
      by_cases hc : f.closed = true
      · rw [if_pos hc, if_pos hc]; exact ⟨⟨rfl, rfl⟩, hs⟩
      · rw [if_neg hc, if_neg hc]
        by_cases hw : f.writable = false
        · rw [if_pos hw, if_pos hw]; exact ⟨⟨rfl, rfl⟩, hs⟩
        · rw [if_neg hw, if_neg hw]
          cases fault with
          | none => exact ⟨⟨rfl, rfl⟩, hs⟩
          | some ke => exact ⟨⟨by simp, rfl⟩, hs⟩
  | truncate h size fault =>
    simp only [Says, step]
    rw [hget]
    cases hh : s.handles[h]? with
    | none => exact ⟨⟨rfl, rfl⟩, hs⟩
    | some f =>
      simp only [Option.map_some, vTruncate]
      by_cases hc : f.closed = true
      · rw [if_pos hc, if_pos hc]; exact ⟨⟨rfl, rfl⟩, hs⟩
      · rw [if_neg hc, if_neg hc]
        by_cases hw : f.writable = false
        · rw [if_pos hw, if_pos hw]; exact ⟨⟨rfl, rfl⟩, hs⟩
        · rw [if_neg hw, if_neg hw]
          cases fault with
          | none => exact ⟨⟨rfl, rfl⟩, hs⟩
          | some e => exact ⟨⟨rfl, rfl⟩, hs⟩
  | size h fault =>
    simp only [Says, step]
    rw [hget]
    cases hh : s.handles[h]? with
    | none => exact ⟨⟨rfl, rfl⟩, hs⟩
    | some f =>
      refine ⟨⟨rfl, ?_⟩, hs⟩
      simp only [Option.map_some, vSize]
      by_cases hc : f.closed = true
      · rw [if_pos hc, if_pos hc]
      · rw [if_neg hc, if_neg hc]
        cases fault <;> rfl
  | lock h r o =>
    simp only [Says, step]
    rw [hget]
    cases hh : s.handles[h]? with
    | none => exact ⟨⟨rfl, rfl⟩, hs⟩
    | some f =>
      simp only [Option.map_some]
      refine ⟨⟨?_, ?_⟩, ?_⟩
      · cases hx : (r.run o f.lk).2 <;> simp
      · simp only [diskOf, List.map_set]
      · intro g hg
        rcases List.mem_or_eq_of_mem_set hg with hg | hg
        · exact hs g hg
        · subst hg; exact hs f (List.mem_of_getElem? hh)
  | close h unl cf rf =>
    simp only [Says, step]
    rw [hget]
    cases hh : s.handles[h]? with
    | none => exact ⟨⟨rfl, rfl⟩, hs⟩
    | some f =>
      have hf := hs f (List.mem_of_getElem? hh)
      simp only [Option.map_some, vClose]
      have hprop : ∀ b lk, Proper ⟨b, s.handles.set h { f with closed := true, lk := lk }⟩ := by
        intro b lk g hg
        rcases List.mem_or_eq_of_mem_set hg with hg | hg
        · exact hs g hg
        · subst hg; exact hf
      have hok : (Lock.unlock .none unl f.lk).2 = true ↔ (f.lk.level = .none ∨ unl = .ok) := by
        generalize f.lk = k
        obtain ⟨ro, lv, hd⟩ := k
        cases lv <;> cases unl <;> simp [Lock.unlock, Lock.Level.rank]
      have hlk : ({ (Lock.unlock .none unl f.lk).1 with held := .none } : Lock.File) = { f.lk with level := .none, held := .none } := by
        unfold Lock.unlock
        split
        · rename_i h0
          have : f.lk.level = .none := by
            cases hl : f.lk.level <;> rw [hl] at h0 <;> simp [Lock.Level.rank] at h0
            
          simp only [this]
        · rfl
      have hout : ∀ re : Option BErr,
          let out := if (Lock.unlock .none unl f.lk).2 = true ∧ (if f.closed = true then some BErr.closed else cf) = none ∧ re = none then Out.done
            else .failed (.closing (!(Lock.unlock .none unl f.lk).2) (if f.closed = true then some .closed else cf) re)
          (out = .done ↔ (f.lk.level = .none ∨ unl = .ok) ∧ f.closed = false ∧ cf = none ∧ re = none) ∧
          (out ≠ .done → ∃ u, out = .failed (.closing u (if f.closed = true then some .closed else cf) re) ∧ (u = true ↔ ¬ (f.lk.level = .none ∨ unl = .ok))) := by
        intro re out
        rw [← hok]
        have hiff : ((Lock.unlock .none unl f.lk).2 = true ∧ (if f.closed = true then some BErr.closed else cf) = none ∧ re = none) ↔
            (Lock.unlock .none unl f.lk).2 = true ∧ f.closed = false ∧ cf = none ∧ re = none := by
          cases f.closed <;> simp
        by_cases hall : (Lock.unlock .none unl f.lk).2 = true ∧ (if f.closed = true then some BErr.closed else cf) = none ∧ re = none
        · have ho : out = .done := if_pos hall
          exact ⟨⟨fun _ => hiff.mp hall, fun _ => ho⟩, fun h => absurd ho h⟩
        · have ho : out = _ := if_neg hall
          refine ⟨⟨fun h => ?_, fun h => absurd (hiff.mpr h) hall⟩, fun _ => ⟨_, ho, ?_⟩⟩
          · rw [ho] at h; exact absurd h (by simp)
          · cases (Lock.unlock .none unl f.lk).2 <;> simp
      refine ⟨?_, hprop _ _⟩
      by_cases hd : f.flags.deleteOnClose = true
      · have hr := remove_says (s := s) (place_names f.name) rf
        rw [hf.2] at hr
        rw [if_pos hd, hlk]
        refine ⟨_, _, by rw [if_pos hd]; exact hr, ?_, ?_⟩
        · simp only [diskOf, List.map_set]
        · exact hout _
      · rw [if_neg hd, hlk]
        refine ⟨none, diskOf s, by rw [if_neg hd]; exact ⟨rfl, rfl⟩, ?_, ?_⟩
        · simp only [diskOf, List.map_set]
        · exact hout none

/-- **C102** (files). Every history of calls of sqlite on a filesystem, with any faults of it, gives what a disk gives on which the files lie at the places their names
lead to: what is opened, created, refused, read, written, cut, measured and removed, and that a short read, and only that, ends with the end-of-file error sqlite knows. -/
theorem C102_store (b : Back) (ops : List Op) :
    History (diskOf ⟨b, []⟩) ops (run ⟨b, []⟩ ops).1 (diskOf (run ⟨b, []⟩ ops).2) := by
  have key : ∀ ops s, Proper s → History (diskOf s) ops (run s ops).1 (diskOf (run s ops).2) := by
    intro ops
    induction ops with
    | nil => intro s _; exact ⟨rfl, rfl⟩
    | cons o os ih =>
      intro s hs
      obtain ⟨h1, h2⟩ := says_step s hs o
      exact ⟨_, _, _, rfl, h1, ih _ h2⟩
  exact key ops ⟨b, []⟩ (by intro h hh; cases hh)

/-! ## Which files a database touches -/

/-- A filesystem in which every file has one name. -/
def Sound (b : Back) : Prop :=
  (∀ a c i, b.names a = some i → b.names c = some i → a = c) ∧ ∀ a i, b.names a = some i → i < b.fresh

def SoundSys (s : Sys) : Prop := Sound s.back ∧ ∀ h ∈ s.handles, h.id < s.back.fresh

theorem remove_sound {b : Back} (hb : Sound b) (n : Str) (f : Option BErr) :
    Sound (b.remove n f).2 ∧ (b.remove n f).2.fresh = b.fresh ∧ (∀ a, a ≠ n → (b.remove n f).2.names a = b.names a) ∧ (b.remove n f).2.cell = b.cell := by
  unfold Back.remove
  split
  · exact ⟨hb, rfl, fun _ _ => rfl, rfl⟩
  · split
    · exact ⟨hb, rfl, fun _ _ => rfl, rfl⟩
    · split
      · exact ⟨hb, rfl, fun _ _ => rfl, rfl⟩
      · refine ⟨⟨?_, ?_⟩, rfl, fun a ha => if_neg ha, rfl⟩
        · intro a c i ha hc
          simp only at ha hc
          split at ha
          · cases ha
          · split at hc
            · cases hc
            · exact hb.1 a c i ha hc
        · intro a i ha
          simp only at ha
          split at ha
          · cases ha
          · exact hb.2 a i ha

theorem open_sound {b : Back} (hb : Sound b) (n : Str) (cr ex : Bool) (f : Option BErr) :
    Sound (b.openFile n cr ex f).2 ∧ b.fresh ≤ (b.openFile n cr ex f).2.fresh ∧ (∀ a, a ≠ n → (b.openFile n cr ex f).2.names a = b.names a) ∧
    (∀ i, i < b.fresh → (b.openFile n cr ex f).2.cell i = b.cell i) ∧
    ∀ id, (b.openFile n cr ex f).1 = .ok id → (b.openFile n cr ex f).2.names n = some id := by
  have same : Sound (b.ask n) ∧ b.fresh ≤ (b.ask n).fresh ∧ (∀ a, a ≠ n → (b.ask n).names a = b.names a) ∧
      (∀ i, i < b.fresh → (b.ask n).cell i = b.cell i) := ⟨hb, Nat.le_refl _, fun _ _ => rfl, fun _ _ => rfl⟩
  unfold Back.openFile
  split
  · exact ⟨same.1, same.2.1, same.2.2.1, same.2.2.2, fun id h => by cases h⟩
  · split
    · exact ⟨same.1, same.2.1, same.2.2.1, same.2.2.2, fun id h => by cases h⟩
    · split
      · rename_i id hid
        split
        · exact ⟨same.1, same.2.1, same.2.2.1, same.2.2.2, fun id h => by cases h⟩
        · exact ⟨same.1, same.2.1, same.2.2.1, same.2.2.2, fun id' h => by cases h; exact hid⟩
      · rename_i hnone
        split
        · refine ⟨⟨?_, ?_⟩, Nat.le_succ _, fun a ha => if_neg ha, fun i hi => if_neg (Nat.ne_of_lt hi), fun id h => by cases h; exact if_pos rfl⟩
          · intro a c i ha hc
            simp only at ha hc
            split at ha
            · rename_i e1
              split at hc
              · rename_i e2; rw [e1, e2]
              · cases ha
                exact absurd (hb.2 c _ hc) (Nat.lt_irrefl _)
            · split at hc
              · cases hc
                exact absurd (hb.2 a _ ha) (Nat.lt_irrefl _)
              · exact hb.1 a c i ha hc
          · intro a i ha
            simp only at ha ⊢
            split at ha
            · cases ha; exact Nat.lt_succ_self _
            · exact Nat.lt_succ_of_lt (hb.2 a i ha)
        · exact ⟨same.1, same.2.1, same.2.2.1, same.2.2.2, fun id h => by cases h⟩

theorem setCell_sound {b : Back} (hb : Sound b) (i : Nat) (c : List UInt8) : Sound (b.setCell i c) := hb

/-- The sqlite names a call opens or deletes. -/
def Op.uses : Op → List Str
  | .open name _ _ => [name]
  | .delete name _ => [name]
  | _ => []

/-- The file `id` called `n` is out of reach of the open handles. -/
def Apart (n : Str) (id : Nat) (c : List UInt8) (s : Sys) : Prop :=
  s.back.names n = some id ∧ s.back.cell id = c ∧ ∀ h ∈ s.handles, h.id ≠ id ∧ h.name ≠ n

theorem set_mem {hs : List Handle} {i : Nat} {f g : Handle} {P : Handle → Prop} (hi : hs[i]? = some f) (h : ∀ x ∈ hs, P x) (hg : P f → P g) :
    ∀ x ∈ hs.set i g, P x := by
  intro x hx
  rcases List.mem_or_eq_of_mem_set hx with hx | hx
  · exact h x hx
  · rw [hx]; exact hg (h f (List.mem_of_getElem? hi))

theorem step_sound {s : Sys} (hs : SoundSys s) (op : Op) :
    SoundSys (step s op).2 ∧ ∀ n id c, (∀ u ∈ op.uses, cleanPath u ≠ n) → Apart n id c s → Apart n id c (step s op).2 := by
  cases op with
  | «open» name fl fault =>
    simp only [step, vOpen]
    split
    · exact ⟨hs, fun _ _ _ _ h => h⟩
    · have hb := open_sound hs.1 (cleanPath name) fl.create fl.exclusive fault
      generalize s.back.openFile (cleanPath name) fl.create fl.exclusive fault = r at hb
      obtain ⟨res, b⟩ := r
      have hh : ∀ h ∈ s.handles, h.id < b.fresh := fun h hh => Nat.lt_of_lt_of_le (hs.2 h hh) hb.2.1
      cases res with
      | error e =>
        refine ⟨⟨hb.1, hh⟩, ?_⟩
        intro n id c hu ha
        have hn := hu name (by simp [Op.uses])
        exact ⟨by rw [← ha.1]; exact hb.2.2.1 n (Ne.symm hn), by rw [← ha.2.1]; exact hb.2.2.2.1 id (hs.1.2 n id ha.1), ha.2.2⟩
      | ok i =>
        have hi := hb.2.2.2.2 i rfl
        simp only at hb hi ⊢
        refine ⟨⟨hb.1, ?_⟩, ?_⟩
        · intro h hm
          rcases List.mem_append.mp hm with hm | hm
          · exact hh h hm
          · have hm := List.mem_singleton.mp hm
            subst hm
            exact hb.1.2 _ _ hi
        · intro n id c hu ha
          have hn := hu name (by simp [Op.uses])
          have hid : b.names n = some id := by rw [← ha.1]; exact hb.2.2.1 n (Ne.symm hn)
          refine ⟨hid, by rw [← ha.2.1]; exact hb.2.2.2.1 id (hs.1.2 n id ha.1), ?_⟩
          intro h hm
          rcases List.mem_append.mp hm with hm | hm
          · exact ha.2.2 h hm
          · have hm := List.mem_singleton.mp hm
            subst hm
            exact ⟨fun e => hn (hb.1.1 _ _ _ hi (by rw [hid]; exact congrArg some e.symm)), hn⟩
  | delete name fault =>
    simp only [step, vDelete]
    have hb := remove_sound hs.1 (cleanPath name) fault
    generalize s.back.remove (cleanPath name) fault = r at hb
    obtain ⟨e, b⟩ := r
    have hap : ∀ n id c, (∀ u ∈ (Op.delete name fault).uses, cleanPath u ≠ n) → Apart n id c s → Apart n id c ⟨b, s.handles⟩ := by
      intro n id c hu ha
      have hn := hu name (by simp [Op.uses])
      exact ⟨by rw [← ha.1]; exact hb.2.2.1 n (Ne.symm hn), by rw [← ha.2.1]; exact congrFun hb.2.2.2 id, ha.2.2⟩
    have hss : SoundSys ⟨b, s.handles⟩ := ⟨hb.1, fun h hh => by have := hs.2 h hh; simp only at hb; rw [← hb.2.1] at this; exact this⟩
    cases e with
    | none => exact ⟨hss, hap⟩
    | some e => exact ⟨hss, hap⟩
  | access name fault =>
    simp only [step, vAccess]
    have : ∃ e, s.back.stat (cleanPath name) fault = (e, s.back.ask (cleanPath name)) := by
      unfold Back.stat
      split
      · exact ⟨_, rfl⟩
      · split
        · exact ⟨_, rfl⟩
        · split <;> exact ⟨_, rfl⟩
    obtain ⟨e, he⟩ := this
    rw [he]
    cases e <;> exact ⟨hs, fun _ _ _ _ h => h⟩
  | fullPath name => exact ⟨hs, fun _ _ _ _ h => h⟩
  | readAt h n off fault w =>
    simp only [step]
    split <;> exact ⟨hs, fun _ _ _ _ h => h⟩
  | writeAt h bytes off fault =>
    simp only [step]
    split
    · exact ⟨hs, fun _ _ _ _ h => h⟩
    · rename_i f hf
      simp only [vWriteAt]
      split
      · exact ⟨hs, fun _ _ _ _ h => h⟩
      · split
        · exact ⟨hs, fun _ _ _ _ h => h⟩
        · cases fault with
          | some ke => exact ⟨hs, fun n id c _ ha => ⟨ha.1, by rw [← ha.2.1]; exact if_neg (fun e => (ha.2.2 f (List.mem_of_getElem? hf)).1 e.symm), ha.2.2⟩⟩
          | none => exact ⟨hs, fun n id c _ ha => ⟨ha.1, by rw [← ha.2.1]; exact if_neg (fun e => (ha.2.2 f (List.mem_of_getElem? hf)).1 e.symm), ha.2.2⟩⟩
  | truncate h size fault =>
    simp only [step]
    split
    · exact ⟨hs, fun _ _ _ _ h => h⟩
    · rename_i f hf
      simp only [vTruncate]
      split
      · exact ⟨hs, fun _ _ _ _ h => h⟩
      · split
        · exact ⟨hs, fun _ _ _ _ h => h⟩
        · cases fault with
          | some e => exact ⟨hs, fun _ _ _ _ h => h⟩
          | none => exact ⟨hs, fun n id c _ ha => ⟨ha.1, by rw [← ha.2.1]; exact if_neg (fun e => (ha.2.2 f (List.mem_of_getElem? hf)).1 e.symm), ha.2.2⟩⟩
  | size h fault =>
    simp only [step]
    split <;> exact ⟨hs, fun _ _ _ _ h => h⟩
  | lock h r o =>
    simp only [step]
    split
    · exact ⟨hs, fun _ _ _ _ h => h⟩
    · rename_i f hf
      exact ⟨⟨hs.1, set_mem hf hs.2 id⟩, fun n i c _ ha => ⟨ha.1, ha.2.1, set_mem hf ha.2.2 (fun x => x)⟩⟩
  | close h unl cf rf =>
    simp only [step]
    split
    · exact ⟨hs, fun _ _ _ _ h => h⟩
    · rename_i f hf
      simp only [vClose]
      split
      · have hb := remove_sound hs.1 f.name rf
        refine ⟨⟨hb.1, ?_⟩, ?_⟩
        · simp only
          rw [hb.2.1]
          exact set_mem hf hs.2 id
        · intro n i c _ ha
          have hn := (ha.2.2 f (List.mem_of_getElem? hf)).2
          exact ⟨by rw [← ha.1]; exact hb.2.2.1 n (Ne.symm hn), by rw [← ha.2.1]; exact congrFun hb.2.2.2 i, set_mem hf ha.2.2 (fun x => x)⟩
      · exact ⟨⟨hs.1, set_mem hf hs.2 id⟩, fun n i c _ ha => ⟨ha.1, ha.2.1, set_mem hf ha.2.2 (fun x => x)⟩⟩

/-- **C102** (nothing else). On a filesystem where every file has one name, a history of calls leaves every file alone, its name and its contents, whose name is not that of a
place some opened or deleted name leads to. -/
theorem C102_frame (b : Back) (hb : Sound b) (ops : List Op) (n : Str) (id : Nat) (hn : b.names n = some id)
    (ho : ∀ op ∈ ops, ∀ u ∈ op.uses, join (place u) ≠ n) :
    (run ⟨b, []⟩ ops).2.back.names n = some id ∧ (run ⟨b, []⟩ ops).2.back.cell id = b.cell id := by
  have key : ∀ ops s, SoundSys s → (∀ op ∈ ops, ∀ u ∈ op.uses, join (place u) ≠ n) → Apart n id (b.cell id) s → Apart n id (b.cell id) (run s ops).2 := by
    intro ops
    induction ops with
    | nil => intro s _ _ h; exact h
    | cons o os ih =>
      intro s hs hu ha
      obtain ⟨h1, h2⟩ := step_sound hs o
      exact ih _ h1 (fun op hop => hu op (List.mem_cons_of_mem _ hop)) (h2 n id _ (fun u hx => by rw [cleanPath_eq]; exact hu o (List.mem_cons_self ..) u hx) ha)
  have := key ops ⟨b, []⟩ ⟨hb, fun h hh => by cases hh⟩ ho ⟨hn, rfl, fun h hh => by cases hh⟩
  exact ⟨this.1, this.2.1⟩

theorem sound_run (ops : List Op) : ∀ s, SoundSys s → SoundSys (run s ops).2 := by
  induction ops with
  | nil => intro s h; exact h
  | cons o os ih => intro s h; exact ih _ (step_sound h o).1

/-- **C102** (local). The filesystem below is only ever asked about the empty name, which it refuses, and clean local paths, whatever names sqlite uses. -/
theorem C102_local (b : Back) (ops : List Op) : ∀ n ∈ (run ⟨b, []⟩ ops).2.back.asked, n ∈ b.asked ∨ n = [] ∨ (isLocal n = true ∧ clean n = n) := by
  have good : ∀ name, cleanPath name = [] ∨ (isLocal (cleanPath name) = true ∧ clean (cleanPath name) = cleanPath name) := by
    intro name
    obtain ⟨full, h1, _, _, _, h2, h3⟩ := C102_names ⟨b, []⟩ name
    have : cleanPath name = full := by injection h1
    rw [this]
    by_cases h : place name = []
    · exact Or.inl (h2 h)
    · exact Or.inr (h3 h)
  have key : ∀ ops s, (∀ h ∈ s.handles, ∃ name, h.name = cleanPath name) → ∀ n ∈ (run s ops).2.back.asked, n ∈ s.back.asked ∨ ∃ name, n = cleanPath name := by
    intro ops
    induction ops with
    | nil => intro s _ n hn; exact Or.inl hn
    | cons o os ih =>
      intro s hs n hn
      have hstep : (∀ h ∈ (step s o).2.handles, ∃ name, h.name = cleanPath name) ∧
          ∀ n ∈ (step s o).2.back.asked, n ∈ s.back.asked ∨ ∃ name, n = cleanPath name := by
        have hask : ∀ (name : Str) (x : Str), x ∈ (s.back.ask (cleanPath name)).asked → x ∈ s.back.asked ∨ ∃ m, x = cleanPath m := by
          intro name x hx
          rcases List.mem_append.mp hx with hx | hx
          · exact Or.inl hx
          · exact Or.inr ⟨name, List.mem_singleton.mp hx⟩
        have hrem : ∀ m f, (s.back.remove m f).2.asked = (s.back.ask m).asked := by
          intro m f
          unfold Back.remove
          split
          · rfl
          · split
            · rfl
            · split <;> rfl
        have hsame : (∀ h ∈ s.handles, ∃ name, h.name = cleanPath name) ∧ ∀ n ∈ s.back.asked, n ∈ s.back.asked ∨ ∃ name, n = cleanPath name :=
          ⟨hs, fun n h => Or.inl h⟩
        cases o with
        | «open» name fl fault =>
          simp only [step, vOpen]
          split
          · exact hsame
          · have ha : (s.back.openFile (cleanPath name) fl.create fl.exclusive fault).2.asked = (s.back.ask (cleanPath name)).asked := by
              unfold Back.openFile
              split
              · rfl
              · split
                · rfl
                · split
                  · split <;> rfl
                  · split <;> rfl
            generalize s.back.openFile (cleanPath name) fl.create fl.exclusive fault = r at ha
            obtain ⟨res, b'⟩ := r
            have hx : ∀ n ∈ b'.asked, n ∈ s.back.asked ∨ ∃ name, n = cleanPath name := by
              intro n hn
              rw [show b'.asked = _ from ha] at hn
              exact hask name n hn
            cases res with
            | error e => exact ⟨hs, hx⟩
            | ok i =>
              refine ⟨?_, hx⟩
              intro h hm
              rcases List.mem_append.mp hm with hm | hm
              · exact hs h hm
              · have hm := List.mem_singleton.mp hm
                subst hm
                exact ⟨name, rfl⟩
        | delete name fault =>
          simp only [step, vDelete]
          have ha := hrem (cleanPath name) fault
          generalize s.back.remove (cleanPath name) fault = r at ha
          obtain ⟨e, b'⟩ := r
          have hx : ∀ n ∈ b'.asked, n ∈ s.back.asked ∨ ∃ name, n = cleanPath name := by
            intro n hn
            rw [show b'.asked = _ from ha] at hn
            exact hask name n hn
          cases e <;> exact ⟨hs, hx⟩
        | access name fault =>
          simp only [step, vAccess]
          have : ∃ e, s.back.stat (cleanPath name) fault = (e, s.back.ask (cleanPath name)) := by
            unfold Back.stat
            split
            · exact ⟨_, rfl⟩
            · split
              · exact ⟨_, rfl⟩
              · split <;> exact ⟨_, rfl⟩
          obtain ⟨e, he⟩ := this
          rw [he]
          cases e <;> exact ⟨hs, hask name⟩
        | fullPath name => exact hsame
        | readAt h n off fault w => simp only [step]; split <;> exact hsame
        | writeAt h bytes off fault =>
          simp only [step]
          split
          · exact hsame
          · simp only [vWriteAt]
            split
            · exact hsame
            · split
              · exact hsame
              · cases fault <;> exact hsame
        | truncate h size fault =>
          simp only [step]
          split
          · exact hsame
          · simp only [vTruncate]
            split
            · exact hsame
            · split
              · exact hsame
              · cases fault <;> exact hsame
        | size h fault => simp only [step]; split <;> exact hsame
        | lock h r o =>
          simp only [step]
          split
          · exact hsame
          · rename_i f hf
            exact ⟨set_mem hf hs id, hsame.2⟩
        | close h unl cf rf =>
          simp only [step]
          split
          · exact hsame
          · rename_i f hf
            simp only [vClose]
            split
            · refine ⟨set_mem hf hs id, ?_⟩
              intro n hn
              rw [hrem] at hn
              obtain ⟨m, hm⟩ := hs f (List.mem_of_getElem? hf)
              rw [hm] at hn
              exact hask m n hn
            · exact ⟨set_mem hf hs id, hsame.2⟩
      rcases ih _ hstep.1 n hn with h | h
      · exact hstep.2 n h
      · exact Or.inr h
  intro n hn
  rcases key ops ⟨b, []⟩ (fun h hh => by cases hh) n hn with h | ⟨m, hm⟩
  · exact Or.inl h
  · right; rw [hm]; exact good m

theorem open_create {s : Sys} {name : Str} {fl : Flags} (hp : place name ≠ []) (hc : fl.create = true) (he : fl.exclusive = false) :
    ∃ id b, step s (.open name fl none) = (.opened s.handles.length, ⟨b, s.handles ++ [⟨id, fl.readwrite, false, cleanPath name, fl, ⟨fl.readonly, .none, .none⟩⟩]⟩) ∧
      b.names (cleanPath name) = some id ∧ (∀ a, a ≠ cleanPath name → b.names a = s.back.names a) ∧ (∀ i, s.back.names (cleanPath name) = some i → i = id) := by
  have hne : name ≠ [] := fun e => hp (by rw [e]; rfl)
  have hl : isLocal (cleanPath name) = true := by rw [cleanPath_eq]; exact (local_join (place_names name)).mpr hp
  simp only [step, vOpen]
  rw [if_neg hne]
  unfold Back.openFile
  simp only
  rw [if_neg (by rw [hl]; simp)]
  cases hx : s.back.names (cleanPath name) with
  | some id =>
    simp only
    rw [if_neg (by rw [he]; simp)]
    exact ⟨id, _, rfl, hx, fun _ _ => rfl, fun i hi => by injection hi with hi; exact hi.symm⟩
  | none =>
    simp only
    rw [if_pos hc]
    exact ⟨s.back.fresh, _, rfl, if_pos rfl, fun a ha => if_neg ha, fun i hi => by cases hi⟩

theorem patch_read (old bytes : List UInt8) (off : Nat) : ((patch old off bytes).drop off).take bytes.length = bytes := by
  by_cases hne : bytes = []
  · subst hne; simp
  · apply List.ext_getElem?
    intro k
    rw [List.getElem?_take, List.getElem?_drop, C102_write_bytes old bytes off (off + k) hne]
    by_cases hk : k < bytes.length
    · rw [if_pos hk, if_pos (by omega)]
      congr 1; omega
    · rw [if_neg hk, List.getElem?_eq_none (by omega)]

/-- **C102** (one file per place). At every point of a history, two names opened one after the other share their bytes exactly when they lead to the same place: then what is
written through one is read through the other, and otherwise no read through the other tells whether it was written. -/
theorem C102_shared (b : Back) (hb : Sound b) (before : List Op) (n1 n2 : Str) (fl1 fl2 : Flags) (hp1 : place n1 ≠ []) (hp2 : place n2 ≠ [])
    (hc1 : fl1.create = true) (he1 : fl1.exclusive = false) (hw : fl1.readwrite = true) (hc2 : fl2.create = true) (he2 : fl2.exclusive = false)
    (bytes : List UInt8) (off : Nat) :
    let s := (run ⟨b, []⟩ before).2
    let k := s.handles.length
    (place n1 = place n2 → ∀ w, (run s [.open n1 fl1 none, .open n2 fl2 none, .writeAt k bytes off none, .readAt (k + 1) bytes.length off none w]).1 =
      [.opened k, .opened (k + 1), .wrote bytes.length none, .data bytes none]) ∧
    (place n1 ≠ place n2 → ∀ m at_ w,
      (run s [.open n1 fl1 none, .open n2 fl2 none, .writeAt k bytes off none, .readAt (k + 1) m at_ none w]).1.getLast? =
      (run s [.open n1 fl1 none, .open n2 fl2 none, .readAt (k + 1) m at_ none w]).1.getLast?) := by
  intro s k
  have hs : SoundSys s := sound_run before _ ⟨hb, fun h hh => by cases hh⟩
  obtain ⟨i1, b1, e1, f1, g1, _⟩ := open_create (s := s) hp1 hc1 he1
  have hs1 : SoundSys (step s (.open n1 fl1 none)).2 := (step_sound hs _).1
  rw [e1] at hs1
  obtain ⟨i2, b2, e2, f2, g2, k2⟩ := open_create (s := ⟨b1, s.handles ++ [⟨i1, fl1.readwrite, false, cleanPath n1, fl1, ⟨fl1.readonly, .none, .none⟩⟩]⟩) hp2 hc2 he2
  have hs2 : SoundSys (step ⟨b1, s.handles ++ [⟨i1, fl1.readwrite, false, cleanPath n1, fl1, ⟨fl1.readonly, .none, .none⟩⟩]⟩ (.open n2 fl2 none)).2 := (step_sound hs1 _).1
  rw [e2] at hs2
  simp only [List.length_append, List.length_singleton] at e2
  generalize hh1 : (⟨i1, fl1.readwrite, false, cleanPath n1, fl1, ⟨fl1.readonly, .none, .none⟩⟩ : Handle) = x1 at e1 e2 hs1 hs2 k2 g2
  generalize hh2 : (⟨i2, fl2.readwrite, false, cleanPath n2, fl2, ⟨fl2.readonly, .none, .none⟩⟩ : Handle) = x2 at e2 hs2
  have hget1 : (s.handles ++ [x1] ++ [x2])[k]? = some x1 := by
    rw [List.getElem?_append_left (by simp [k]), List.getElem?_append_right (Nat.le_refl _)]; simp
  have hget2 : (s.handles ++ [x1] ++ [x2])[k + 1]? = some x2 := by
    rw [List.getElem?_append_right (by simp [k])]; simp [k]
  have hx1c : x1.closed = false := by rw [← hh1]
  have hx1w : x1.writable = true := by rw [← hh1]; exact hw
  have hx2c : x2.closed = false := by rw [← hh2]
  have hx1i : x1.id = i1 := by rw [← hh1]
  have hx2i : x2.id = i2 := by rw [← hh2]
  have ew : ∀ bytes off, step ⟨b2, s.handles ++ [x1] ++ [x2]⟩ (.writeAt k bytes off none) =
      (.wrote bytes.length none, ⟨b2.setCell i1 (patch (b2.cell i1) off bytes), s.handles ++ [x1] ++ [x2]⟩) := by
    intro bytes off
    simp only [step]
    rw [hget1]
    simp only [vWriteAt]
    rw [if_neg (by rw [hx1c]; simp), if_neg (by rw [hx1w]; simp), hx1i]
  have er : ∀ (c : Back) (x : List UInt8) (hx : c.cell i2 = x) m at_ w, step ⟨c, s.handles ++ [x1] ++ [x2]⟩ (.readAt (k + 1) m at_ none w) =
      (.data ((x.drop at_).take m) (if (((x.drop at_).take m).length < m) then some (.raw (.eof false)) else none), ⟨c, s.handles ++ [x1] ++ [x2]⟩) := by
    intro c x hx m at_ w
    simp only [step]
    rw [hget2]
    simp only [vReadAt, Back.readAt]
    rw [if_neg (by rw [hx2c]; simp), hx2i, hx]
    generalize List.take m (List.drop at_ x) = bs
    by_cases h : bs.length < m
    · rw [if_pos h, if_pos h]
    · rw [if_neg h, if_neg h]
  refine ⟨?_, ?_⟩
  · intro hpl w
    have hcp : cleanPath n1 = cleanPath n2 := by rw [cleanPath_eq, cleanPath_eq, hpl]
    have hid : i1 = i2 := k2 i1 (by simp only; rw [← hcp]; exact f1)
    simp only [run]
    rw [e1]
    simp only
    rw [e2]
    simp only
    rw [ew]
    simp only
    rw [er _ _ (if_pos hid.symm), patch_read, if_neg (Nat.lt_irrefl _)]
  · intro hpl m at_ w
    have hcp : cleanPath n1 ≠ cleanPath n2 := by
      rw [cleanPath_eq, cleanPath_eq]
      exact fun e => hpl (join_inj (place_names n1) (place_names n2) e)
    have hid : i2 ≠ i1 := by
      intro e
      exact hcp (hs2.1.1 _ _ i1 (by simp only; rw [g2 _ hcp]; exact f1) (by simp only; rw [← e]; exact f2))
    simp only [run]
    rw [e1]
    simp only
    rw [e2]
    simp only
    rw [ew]
    simp only
    rw [er _ _ (if_neg hid), er _ _ rfl]
    rfl

/-! ## The registry -/

/-- How opening a database goes wrong (open.go 47-71): the driver refuses, or the first connection fails. -/
inductive OpenFault where
  | driver
  | ping

/-- open.go 47-71 `open`: the names registered afterwards, the databases open afterwards, and whether it worked. `new` is the generated name. -/
def openDB (reg : List Str) (dbs : List Str) (new : Str) : Option OpenFault → Bool × List Str × List Str
  | some .driver => (false, (new :: reg).erase new, dbs)
  | some .ping => (false, (new :: reg).erase new, (new :: dbs).erase new)
  | none => (true, new :: reg, new :: dbs)

/-- open.go 74-78 `Close`; unregisters also when closing fails. -/
def closeDB (reg : List Str) (dbs : List Str) (name : Str) : List Str × List Str := (reg.erase name, dbs.erase name)

inductive DBOp where
  | open (new : Str) (f : Option OpenFault)
  | close (name : Str)

def dbStep (st : List Str × List Str) : DBOp → List Str × List Str
  | .open new f => (openDB st.1 st.2 new f).2
  | .close name => closeDB st.1 st.2 name

/-- **C102** (registry). After any history of opening and closing databases, successful or not, the registered filesystems are exactly those of the open databases. -/
theorem C102_registry (ops : List DBOp) : (ops.foldl dbStep ([], [])).1 = (ops.foldl dbStep ([], [])).2 := by
  have key : ∀ (ops : List DBOp) (st : List Str × List Str), st.1 = st.2 → (ops.foldl dbStep st).1 = (ops.foldl dbStep st).2 := by
    intro ops
    induction ops with
    | nil => intro st h; exact h
    | cons o os ih =>
      intro st h
      refine ih _ ?_
      cases o with
      | «open» new f => rcases f with _ | _ | _ <;> simp [dbStep, openDB, h]
      | close name => simp [dbStep, closeDB, h]
  exact key ops _ rfl

/-! ## Cases -/

def exBack : Back := ⟨fun _ => none, fun _ => [], 0, []⟩
def exFl : Flags := ⟨true, true, false, false, false⟩

example : Sound exBack := ⟨fun _ _ _ h => (by cases h), fun _ _ h => (by cases h)⟩

/-- A database and its journal: written, read short, the journal removed. -/
example : (run ⟨exBack, []⟩ [.open "/a/../db".toList exFl none, .writeAt 0 [1, 2, 3] 1 none, .readAt 0 8 2 none true, .open "db-journal".toList exFl none,
      .delete "x/../db-journal".toList none, .delete "db-journal".toList none, .access "../db".toList none, .close 0 .ok none none, .size 0 none]).1 =
    [.opened 0, .wrote 3 none, .data [2, 3] (some (.raw (.eof false))), .opened 1, .done, .failed (.deleteNoent .notExist), .answer true, .done,
      .failed (.raw .closed)] := by decide +kernel

/-- A temporary file goes away when it is closed. -/
example : (run ⟨exBack, []⟩ [.open "t".toList { exFl with deleteOnClose := true } none, .access "t".toList none, .close 0 .ok none none, .access "t".toList none]).1 =
    [.opened 0, .answer true, .done, .answer false] := by decide +kernel

end Verif.Overlay.SqlVfs
