import Verif.Overlay.Files
/-!
C121: files of the overlay keep their identity. The specification is one directory of a POSIX filesystem: names lead to files, handles
are on files, link(2) makes two names one file, rename(2) does nothing when both names are one file, and what is unlinked lives on in its
handles. A handle also remembers what its file held when it was opened, which is needed to say what the overlay does for files of lower layers.
-/
namespace Verif.Overlay.Files

/-! ### The specification -/

/-- A file of the directory. -/
inductive Id where
  | lower (j : Nat)
  | upper (i : Nat)
deriving DecidableEq

/-- A handle: the file, write access, what the file held when it was opened. -/
structure PHandle where
  id : Id
  w : Bool
  atOpen : File

structure Posix where
  name : Str → Option Id
  file : Id → File
  next : Nat
  handles : List (Option PHandle)

namespace Posix

def push (id : Id) (w : Bool) (p : Posix) : Posix × Ans :=
  ({ p with handles := p.handles ++ [some ⟨id, w, p.file id⟩] }, .handle p.handles.length)

def write (id : Id) (f : File) (p : Posix) : Posix := { p with file := setAt p.file id f }

def step (c : Call) (p : Posix) : Posix × Ans :=
  match c with
  | .look n => match p.name n with | some id => (p, .file (p.file id)) | none => (p, .missing)
  | .openR n => match p.name n with | some id => push id false p | none => (p, .missing)
  | .openW n w creat excl trunc perm =>
    match p.name n with
    | some id =>
      if creat && excl then (p, .exists_)
      else push id w (if trunc then write id ⟨(p.file id).perm, []⟩ p else p)
    | none =>
      if creat then
        push (.upper p.next) w
          { p with name := setAt p.name n (some (.upper p.next)), file := setAt p.file (.upper p.next) ⟨perm, []⟩, next := p.next + 1 }
      else (p, .missing)
  | .read h => match p.handles[h]? with | some (some x) => (p, .file (p.file x.id)) | _ => (p, .denied)
  | .change h g =>
    match p.handles[h]? with
    | some (some x) => if x.w then (write x.id (g (p.file x.id)) p, .done) else (p, .denied)
    | _ => (p, .denied)
  | .chmodH h perm =>
    match p.handles[h]? with
    | some (some x) => (write x.id ⟨perm, (p.file x.id).data⟩ p, .done)
    | _ => (p, .denied)
  | .close h => if h < p.handles.length then ({ p with handles := p.handles.set h none }, .done) else (p, .denied)
  | .chmod n perm =>
    match p.name n with
    | some id => (write id ⟨perm, (p.file id).data⟩ p, .done)
    | none => (p, .missing)
  | .link a b =>
    match p.name a, p.name b with
    | none, _ => (p, .missing)
    | some _, some _ => (p, .exists_)
    | some id, none => ({ p with name := setAt p.name b (some id) }, .done)
  | .remove n =>
    match p.name n with
    | none => (p, .missing)
    | some _ => ({ p with name := setAt p.name n none }, .done)
  | .rename a b =>
    match p.name a with
    | none => (p, .missing)
    | some id =>
      if p.name b = some id then (p, .done)
      else ({ p with name := setAt (setAt p.name b (some id)) a none }, .done)

end Posix

/-- The directory an overlay shows before anybody has a handle: names as they are looked up, each file once. -/
def shown (L : Lower) (s : State) : Posix where
  name n := match s.top n with
    | some i => some (.upper i)
    | none => if s.wh n then none else (L.name n).map .lower
  file id := match id with
    | .lower j => L.file j
    | .upper i => s.file i
  next := s.next
  handles := []

/-- A state as the overlay is in after it was opened: the names of the top layer lead to files that exist, nobody has a handle. -/
def Fresh (s : State) : Prop := (∀ n i, s.top n = some i → i < s.next) ∧ s.handles = []

/-- No file of the lower layers has two names. -/
def NoLowerLinks (L : Lower) : Prop := ∀ n m j, L.name n = some j → L.name m = some j → n = m

/-- The permission bits are not changed through handles opened without write access. -/
def ChmodsByWriters (p : Posix) : Call → Prop
  | .chmodH h _ => ∀ x, p.handles[h]? = some (some x) → x.w = true
  | _ => True

/-- An answer of the overlay and the directory's: equal, but a handle without write access may answer with what its file held when it was
opened. -/
def Agrees (p : Posix) (c : Call) (a b : Ans) : Prop :=
  a = b ∨ ∃ h x, c = .read h ∧ p.handles[h]? = some (some x) ∧ x.w = false ∧ a = .file x.atOpen

/-- The answers of a history, each compared with the directory's at that point. -/
def AgreeAlong (L : Lower) : List Call → State → Posix → Prop
  | [], _, _ => True
  | c :: cs, s, p => Agrees p c (step L c s).2 (Posix.step c p).2 ∧ AgreeAlong L cs (step L c s).1 (Posix.step c p).1

def ChmodsAlong : List Call → Posix → Prop
  | [], _ => True
  | c :: cs, p => ChmodsByWriters p c ∧ ChmodsAlong cs (Posix.step c p).1

/-! ### The simulation -/

/-- The handles: on the same file, or on a file of a lower layer as it was at the opening. -/
def HRel (L : Lower) (φ : Nat → Id) (next : Nat) : Handle → Option PHandle → Prop
  | .top i w, some x => i < next ∧ x.id = φ i ∧ x.w = w
  | .low j, some x => x.w = false ∧ x.atOpen = L.file j
  | .closed, none => True
  | _, _ => False

structure Rel (L : Lower) (φ : Nat → Id) (s : State) (p : Posix) : Prop where
  inj : ∀ i k, i < s.next → k < s.next → φ i = φ k → i = k
  old : ∀ i k, i < s.next → φ i = .upper k → k < p.next
  top : ∀ n i, s.top n = some i → i < s.next
  name : ∀ n, p.name n = match s.top n with
    | some i => some (φ i)
    | none => if s.wh n then none else (L.name n).map .lower
  file : ∀ i, i < s.next → p.file (φ i) = s.file i
  low : ∀ n j, s.top n = none → s.wh n = false → L.name n = some j → p.file (.lower j) = L.file j ∧ ∀ i, i < s.next → φ i ≠ .lower j
  len : s.handles.length = p.handles.length
  hnd : ∀ (h : Nat) (x : Handle) (y : Option PHandle), s.handles[h]? = some x → p.handles[h]? = some y → HRel L φ s.next x y

theorem hrel_mono {L : Lower} {φ ψ : Nat → Id} {n m : Nat} (hle : n ≤ m) (hψ : ∀ i, i < n → ψ i = φ i) {x : Handle} {y : Option PHandle}
    (h : HRel L φ n x y) : HRel L ψ m x y := by
  cases x <;> cases y <;> simp only [HRel] at h ⊢
  · obtain ⟨a, b, c⟩ := h
    exact ⟨by omega, by rw [hψ _ a]; exact b, c⟩
  · exact h

theorem lookup_name {L : Lower} {φ : Nat → Id} {s : State} {p : Posix} (R : Rel L φ s p) (n : Str) :
    p.name n = (lookup L s n).map (fun x => match x with | .inl i => φ i | .inr j => Id.lower j) := by
  rw [R.name n]
  unfold lookup
  cases s.top n with
  | some i => rfl
  | none =>
    by_cases hw : s.wh n
    · simp [hw]
    · simp only [hw, Bool.false_eq_true, if_false]
      cases L.name n <;> rfl

theorem lookup_inr {L : Lower} {s : State} {n : Str} {j : Nat} (h : lookup L s n = some (.inr j)) :
    s.top n = none ∧ s.wh n = false ∧ L.name n = some j := by
  unfold lookup at h
  cases ht : s.top n with
  | some i => rw [ht] at h; simp at h
  | none =>
    rw [ht] at h
    by_cases hw : s.wh n
    · simp [hw] at h
    · simp only [hw, Bool.false_eq_true, if_false] at h
      refine ⟨rfl, by simpa using hw, ?_⟩
      cases hl : L.name n with
      | none => rw [hl] at h; simp at h
      | some k => rw [hl] at h; simp at h; rw [h]

theorem lookup_inl {L : Lower} {s : State} {n : Str} {i : Nat} (h : lookup L s n = some (.inl i)) : s.top n = some i := by
  unfold lookup at h
  cases ht : s.top n with
  | some k => rw [ht] at h; simp at h; rw [h]
  | none =>
    rw [ht] at h
    by_cases hw : s.wh n
    · simp [hw] at h
    · simp only [hw, Bool.false_eq_true, if_false] at h
      cases hl : L.name n with
      | none => rw [hl] at h; simp at h
      | some k => rw [hl] at h; simp at h

/-- After the copy-up of a name that is there, the top layer holds its file, and the directory is the same. -/
theorem copyUp_rel {L : Lower} (hL : NoLowerLinks L) {φ : Nat → Id} {s : State} {p : Posix} (R : Rel L φ s p) {n : Str} {id : Id}
    (hn : p.name n = some id) : ∃ ψ i, Rel L ψ (copyUp L n s) p ∧ (copyUp L n s).top n = some i ∧ ψ i = id ∧
      (copyUp L n s).handles = s.handles ∧ (copyUp L n s).wh = s.wh ∧ ∀ m, m ≠ n → (copyUp L n s).top m = s.top m := by
  rw [lookup_name R n] at hn
  unfold copyUp
  cases hl : lookup L s n with
  | none => rw [hl] at hn; simp at hn
  | some x =>
    rw [hl] at hn
    cases x with
    | inl i =>
      simp at hn
      exact ⟨φ, i, R, lookup_inl hl, hn, rfl, rfl, fun _ _ => rfl⟩
    | inr j =>
      simp at hn
      obtain ⟨ht, hw, hj⟩ := lookup_inr hl
      obtain ⟨hf, hφ⟩ := R.low n j ht hw hj
      have hψ : ∀ i, i < s.next → setAt φ s.next (.lower j) i = φ i := fun i hi => by
        simp only [setAt]; rw [if_neg (by omega)]
      refine ⟨setAt φ s.next (.lower j), s.next, ?_, by simp [setAt], by simp [setAt, hn], rfl, rfl, fun m hm => by simp [setAt, hm]⟩
      refine { inj := ?_, old := ?_, top := ?_, name := ?_, file := ?_, low := ?_, len := R.len, hnd := ?_ }
      · intro i k hi hk he
        simp only [setAt] at he
        by_cases h1 : i = s.next <;> by_cases h2 : k = s.next
        · omega
        · rw [if_pos h1, if_neg h2] at he
          exact absurd he.symm (hφ k (by simp at hk; omega))
        · rw [if_neg h1, if_pos h2] at he
          exact absurd he (hφ i (by simp at hi; omega))
        · rw [if_neg h1, if_neg h2] at he
          exact R.inj i k (by simp at hi; omega) (by simp at hk; omega) he
      · intro i k hi he
        simp only [setAt] at he
        by_cases h1 : i = s.next
        · rw [if_pos h1] at he; cases he
        · rw [if_neg h1] at he; exact R.old i k (by simp at hi; omega) he
      · intro m i hm
        simp only [setAt] at hm
        by_cases h1 : m = n
        · rw [if_pos h1] at hm; simp at hm; simp; omega
        · rw [if_neg h1] at hm; have := R.top m i hm; simp; omega
      · intro m
        rw [R.name m]
        simp only [setAt]
        by_cases h1 : m = n
        · subst h1; simp [ht, hw, hj]
        · simp only [h1, if_false]
          cases htm : s.top m with
          | none => rfl
          | some i => have := R.top m i htm; simp; exact fun e => absurd e (by omega)
      · intro i hi
        simp only [setAt]
        by_cases h1 : i = s.next
        · rw [if_pos h1, if_pos h1]; exact hf
        · rw [if_neg h1, if_neg h1]; exact R.file i (by simp at hi; omega)
      · intro m k hm hwm hk
        simp only [setAt] at hm
        by_cases h1 : m = n
        · rw [if_pos h1] at hm; cases hm
        · rw [if_neg h1] at hm
          obtain ⟨e1, e2⟩ := R.low m k hm hwm hk
          refine ⟨e1, fun i hi => ?_⟩
          simp only [setAt]
          by_cases h2 : i = s.next
          · rw [if_pos h2]
            intro he
            injection he with he
            exact h1 (hL m n j (he ▸ hk) hj)
          · rw [if_neg h2]; exact e2 i (by simp at hi; omega)
      · intro h x y hx hy
        exact hrel_mono (by simp) hψ (R.hnd h x y hx hy)

/-- A change of a file both sides have. -/
theorem write_rel {L : Lower} {φ : Nat → Id} {s : State} {p : Posix} (R : Rel L φ s p) {i : Nat} (hi : i < s.next) (f : File) :
    Rel L φ { s with file := setAt s.file i f } (Posix.write (φ i) f p) := by
  refine { inj := R.inj, old := R.old, top := R.top, name := R.name, file := ?_, low := ?_, len := R.len, hnd := R.hnd }
  · intro k hk
    simp only [Posix.write, setAt]
    by_cases h1 : k = i
    · subst h1; simp
    · rw [if_neg h1, if_neg (fun he => h1 (R.inj k i hk hi he))]
      exact R.file k hk
  · intro m j hm hw hj
    obtain ⟨e1, e2⟩ := R.low m j hm hw hj
    refine ⟨?_, e2⟩
    simp only [Posix.write, setAt]
    rw [if_neg (fun he => e2 i hi he.symm)]
    exact e1

theorem push_rel {L : Lower} {φ : Nat → Id} {s : State} {p : Posix} (R : Rel L φ s p) {x : Handle} {id : Id} {w : Bool}
    (hx : HRel L φ s.next x (some ⟨id, w, p.file id⟩)) :
    Rel L φ (track x s).1 (Posix.push id w p).1 ∧ (track x s).2 = (Posix.push id w p).2 := by
  refine ⟨{ inj := R.inj, old := R.old, top := R.top, name := R.name, file := R.file, low := R.low, len := ?_, hnd := ?_ }, ?_⟩
  · simp [track, Posix.push, R.len]
  · intro h a b ha hb
    simp only [track, Posix.push] at ha hb
    by_cases hlt : h < s.handles.length
    · rw [List.getElem?_append_left hlt] at ha
      rw [List.getElem?_append_left (by rw [← R.len]; exact hlt)] at hb
      exact R.hnd h a b ha hb
    · rw [List.getElem?_append_right (by omega)] at ha
      rw [List.getElem?_append_right (by rw [← R.len]; omega)] at hb
      rw [R.len] at ha
      cases hd : h - p.handles.length with
      | zero =>
        rw [hd] at ha hb
        simp at ha hb
        subst ha; subst hb; exact hx
      | succ k => rw [hd] at ha; simp at ha
  · simp [track, Posix.push, R.len]

/-- Changing the records of names the top layer holds, or that stay as they are. -/
theorem names_rel {L : Lower} {φ : Nat → Id} {s : State} {p : Posix} (R : Rel L φ s p) {top : Str → Option Nat} {wh : Str → Bool}
    {name : Str → Option Id} (h1 : ∀ n i, top n = some i → i < s.next)
    (h2 : ∀ n, name n = match top n with | some i => some (φ i) | none => if wh n then none else (L.name n).map .lower)
    (h3 : ∀ n j, top n = none → wh n = false → L.name n = some j → s.top n = none ∧ s.wh n = false) :
    Rel L φ { s with top := top, wh := wh } { p with name := name } :=
  { inj := R.inj, old := R.old, top := h1, name := h2, file := R.file,
    low := fun n j a b c => R.low n j (h3 n j a b c).1 (h3 n j a b c).2 c, len := R.len, hnd := R.hnd }

/-- One call. -/
theorem step_rel {L : Lower} (hL : NoLowerLinks L) {φ : Nat → Id} {s : State} {p : Posix} (R : Rel L φ s p) (c : Call)
    (hc : ChmodsByWriters p c) :
    (∃ ψ, Rel L ψ (step L c s).1 (Posix.step c p).1) ∧ Agrees p c (step L c s).2 (Posix.step c p).2 := by
  cases c with
  | look n =>
    simp only [step, Posix.step]
    rw [lookup_name R n]
    cases hl : lookup L s n with
    | none => exact ⟨⟨φ, R⟩, .inl rfl⟩
    | some x =>
      cases x with
      | inl i => exact ⟨⟨φ, R⟩, .inl (by simp [R.file i (R.top n i (lookup_inl hl))])⟩
      | inr j =>
        obtain ⟨a, b, d⟩ := lookup_inr hl
        exact ⟨⟨φ, R⟩, .inl (by simp [(R.low n j a b d).1])⟩
  | openR n =>
    simp only [step, Posix.step]
    rw [lookup_name R n]
    cases hl : lookup L s n with
    | none => exact ⟨⟨φ, R⟩, .inl rfl⟩
    | some x =>
      cases x with
      | inl i =>
        obtain ⟨a, b⟩ := push_rel R (x := .top i false) (id := φ i) (w := false) ⟨R.top n i (lookup_inl hl), rfl, rfl⟩
        exact ⟨⟨φ, a⟩, .inl b⟩
      | inr j =>
        obtain ⟨a, b, d⟩ := lookup_inr hl
        obtain ⟨a, b⟩ := push_rel R (x := .low j) (id := .lower j) (w := false) ⟨rfl, (R.low n j a b d).1⟩
        exact ⟨⟨φ, a⟩, .inl b⟩
  | openW n w creat excl trunc perm =>
    simp only [step, Posix.step]
    cases hp : p.name n with
    | some id =>
      have hl : ∃ x, lookup L s n = some x := by
        rw [lookup_name R n] at hp
        cases h : lookup L s n with
        | none => rw [h] at hp; simp at hp
        | some x => exact ⟨x, rfl⟩
      obtain ⟨x, hl⟩ := hl
      rw [hl]
      simp only
      by_cases he : (creat && excl) = true
      · rw [if_pos he, if_pos he]; exact ⟨⟨φ, R⟩, .inl rfl⟩
      · rw [if_neg he, if_neg he]
        obtain ⟨ψ, i, R1, ht, hi, _, _, _⟩ := copyUp_rel hL R hp
        have hlt := R1.top n i ht
        simp only [openTop, ht]
        by_cases htr : trunc = true
        · rw [if_pos htr, if_pos htr]
          have R2 := write_rel R1 hlt ⟨((copyUp L n s).file i).perm, []⟩
          have hf : p.file id = (copyUp L n s).file i := by rw [← hi]; exact R1.file i hlt
          rw [hi] at R2
          rw [hf]
          obtain ⟨a, b⟩ := push_rel R2 (x := .top i w) (id := id) (w := w) ⟨hlt, hi.symm, rfl⟩
          exact ⟨⟨ψ, a⟩, .inl b⟩
        · rw [if_neg htr, if_neg htr]
          obtain ⟨a, b⟩ := push_rel R1 (x := .top i w) (id := id) (w := w) ⟨hlt, hi.symm, rfl⟩
          exact ⟨⟨ψ, a⟩, .inl b⟩
    | none =>
      have hl : lookup L s n = none := by
        rw [lookup_name R n] at hp
        cases h : lookup L s n with
        | none => rfl
        | some x => rw [h] at hp; simp at hp
      rw [hl]
      simp only
      by_cases hcr : creat = true
      · rw [if_pos hcr, if_pos hcr]
        have hψ : ∀ i, i < s.next → setAt φ s.next (.upper p.next) i = φ i := fun i hi => by
          simp only [setAt]; rw [if_neg (by omega)]
        have R1 : Rel L (setAt φ s.next (.upper p.next))
            { s with top := setAt s.top n (some s.next), file := setAt s.file s.next ⟨perm, []⟩, next := s.next + 1, wh := setAt s.wh n false }
            { p with name := setAt p.name n (some (.upper p.next)), file := setAt p.file (.upper p.next) ⟨perm, []⟩, next := p.next + 1 } := by
          refine { inj := ?_, old := ?_, top := ?_, name := ?_, file := ?_, low := ?_, len := R.len, hnd := ?_ }
          · intro i k hi hk he
            simp only [setAt] at he
            simp only at hi hk
            by_cases h1 : i = s.next <;> by_cases h2 : k = s.next
            · omega
            · rw [if_pos h1, if_neg h2] at he
              have := R.old k p.next (by omega) he.symm; omega
            · rw [if_neg h1, if_pos h2] at he
              have := R.old i p.next (by omega) he; omega
            · rw [if_neg h1, if_neg h2] at he
              exact R.inj i k (by omega) (by omega) he
          · intro i k hi he
            simp only [setAt] at he
            simp only at hi ⊢
            by_cases h1 : i = s.next
            · rw [if_pos h1] at he; injection he with he; omega
            · rw [if_neg h1] at he; have := R.old i k (by omega) he; omega
          · intro m i hm
            simp only [setAt] at hm
            by_cases h1 : m = n
            · rw [if_pos h1] at hm; simp at hm; simp; omega
            · rw [if_neg h1] at hm; have := R.top m i hm; simp; omega
          · intro m
            simp only [setAt]
            by_cases h1 : m = n
            · simp [h1]
            · simp only [h1, if_false]
              rw [R.name m]
              cases htm : s.top m with
              | none => rfl
              | some i => have := R.top m i htm; simp; exact fun e => absurd e (by omega)
          · intro i hi
            simp only at hi
            by_cases h1 : i = s.next
            · subst h1; simp [setAt]
            · have hne : φ i ≠ .upper p.next := fun he => by have := R.old i p.next (by omega) he; omega
              simp only
              rw [hψ i (by omega)]
              simp only [setAt, hne, h1, if_false]
              exact R.file i (by omega)
          · intro m j hm hwm hk
            simp only [setAt] at hm hwm
            by_cases h1 : m = n
            · rw [if_pos h1] at hm; cases hm
            · rw [if_neg h1] at hm hwm
              obtain ⟨e1, e2⟩ := R.low m j hm hwm hk
              refine ⟨?_, fun i hi => ?_⟩
              · simp only [setAt]; rw [if_neg (fun he => by cases he)]; exact e1
              · simp only [setAt]
                simp only at hi
                by_cases h2 : i = s.next
                · rw [if_pos h2]; intro he; cases he
                · rw [if_neg h2]; exact e2 i (by omega)
          · intro h x y hx hy
            exact hrel_mono (by simp) hψ (R.hnd h x y hx hy)
        obtain ⟨a, b⟩ := push_rel R1 (x := .top s.next w) (id := .upper p.next) (w := w) ⟨by simp, by simp [setAt], rfl⟩
        exact ⟨⟨_, a⟩, .inl b⟩
      · rw [if_neg hcr, if_neg hcr]; exact ⟨⟨φ, R⟩, .inl rfl⟩
  | read h =>
    refine ⟨⟨φ, ?_⟩, ?_⟩
    · simp only [step, Posix.step]
      cases hs : s.handles[h]? with
      | none => cases hp : p.handles[h]? with
        | none => exact R
        | some y => cases y <;> exact R
      | some x =>
        cases hp : p.handles[h]? with
        | none => cases x <;> exact R
        | some y => cases x <;> cases y <;> exact R
    · simp only [step, Posix.step]
      cases hs : s.handles[h]? with
      | none =>
        have : p.handles[h]? = none := by rw [List.getElem?_eq_none_iff] at hs ⊢; rw [← R.len]; exact hs
        rw [this]; exact .inl rfl
      | some x =>
        have hlt : h < p.handles.length := by
          rw [← R.len]; exact (List.getElem?_eq_some_iff.1 hs).1
        obtain ⟨y, hy⟩ : ∃ y, p.handles[h]? = some y := ⟨_, List.getElem?_eq_getElem hlt⟩
        have := R.hnd h x y hs hy
        rw [hy]
        cases x with
        | top i w =>
          cases y with
          | none => exact this.elim
          | some y =>
            obtain ⟨a, b, d⟩ := this
            left; simp only; rw [b, R.file i a]
        | low j =>
          cases y with
          | none => exact this.elim
          | some y =>
            obtain ⟨a, b⟩ := this
            exact .inr ⟨h, y, rfl, hy, a, by rw [b]⟩
        | closed =>
          cases y with
          | none => exact .inl rfl
          | some y => exact this.elim
  | change h g =>
    simp only [step, Posix.step]
    cases hs : s.handles[h]? with
    | none =>
      have : p.handles[h]? = none := by rw [List.getElem?_eq_none_iff] at hs ⊢; rw [← R.len]; exact hs
      rw [this]; exact ⟨⟨φ, R⟩, .inl rfl⟩
    | some x =>
      have hlt : h < p.handles.length := by
        rw [← R.len]; exact (List.getElem?_eq_some_iff.1 hs).1
      obtain ⟨y, hy⟩ : ∃ y, p.handles[h]? = some y := ⟨_, List.getElem?_eq_getElem hlt⟩
      have := R.hnd h x y hs hy
      rw [hy]
      cases x with
      | top i w =>
        cases y with
        | none => exact this.elim
        | some y =>
          obtain ⟨a, b, d⟩ := this
          cases w with
          | false => simp only [d]; exact ⟨⟨φ, R⟩, .inl rfl⟩
          | true =>
            simp only [d, if_true]
            have R2 := write_rel R a (g (s.file i))
            rw [b, R.file i a]
            exact ⟨⟨φ, R2⟩, .inl rfl⟩
      | low j =>
        cases y with
        | none => exact this.elim
        | some y => simp only [this.1]; exact ⟨⟨φ, R⟩, .inl rfl⟩
      | closed =>
        cases y with
        | none => exact ⟨⟨φ, R⟩, .inl rfl⟩
        | some y => exact this.elim
  | chmodH h perm =>
    simp only [step, Posix.step]
    cases hs : s.handles[h]? with
    | none =>
      have : p.handles[h]? = none := by rw [List.getElem?_eq_none_iff] at hs ⊢; rw [← R.len]; exact hs
      rw [this]; exact ⟨⟨φ, R⟩, .inl rfl⟩
    | some x =>
      have hlt : h < p.handles.length := by
        rw [← R.len]; exact (List.getElem?_eq_some_iff.1 hs).1
      obtain ⟨y, hy⟩ : ∃ y, p.handles[h]? = some y := ⟨_, List.getElem?_eq_getElem hlt⟩
      have := R.hnd h x y hs hy
      rw [hy]
      cases x with
      | top i w =>
        cases y with
        | none => exact this.elim
        | some y =>
          obtain ⟨a, b, d⟩ := this
          have R2 := write_rel R a ⟨perm, (s.file i).data⟩
          simp only
          rw [b, R.file i a]
          exact ⟨⟨φ, R2⟩, .inl rfl⟩
      | low j =>
        cases y with
        | none => exact this.elim
        | some y => exact absurd (this.1.symm.trans (hc y hy)) (by simp)
      | closed =>
        cases y with
        | none => exact ⟨⟨φ, R⟩, .inl rfl⟩
        | some y => exact this.elim
  | close h =>
    simp only [step, Posix.step]
    rw [R.len]
    by_cases hlt : h < p.handles.length
    · rw [if_pos hlt, if_pos hlt]
      refine ⟨⟨φ, { inj := R.inj, old := R.old, top := R.top, name := R.name, file := R.file, low := R.low, len := by simp [R.len], hnd := ?_ }⟩,
        .inl rfl⟩
      intro k x y hx hy
      simp only [List.getElem?_set] at hx hy
      by_cases hk : h = k
      · rw [if_pos hk, R.len, if_pos hlt] at hx
        rw [if_pos hk, if_pos hlt] at hy
        injection hx with hx; injection hy with hy
        subst hx; subst hy; trivial
      · rw [if_neg hk] at hx hy; exact R.hnd k x y hx hy
    · rw [if_neg hlt, if_neg hlt]; exact ⟨⟨φ, R⟩, .inl rfl⟩
  | chmod n perm =>
    simp only [step, Posix.step]
    cases hp : p.name n with
    | some id =>
      obtain ⟨ψ, i, R1, ht, hi, _, _, _⟩ := copyUp_rel hL R hp
      have hlt := R1.top n i ht
      rw [ht]
      simp only
      have R2 := write_rel R1 hlt ⟨perm, ((copyUp L n s).file i).data⟩
      rw [hi] at R2
      have hf : p.file id = (copyUp L n s).file i := by rw [← hi]; exact R1.file i hlt
      rw [hf]
      exact ⟨⟨ψ, R2⟩, .inl rfl⟩
    | none =>
      have hl : lookup L s n = none := by
        rw [lookup_name R n] at hp
        cases h : lookup L s n with
        | none => rfl
        | some x => rw [h] at hp; simp at hp
      have ht : (copyUp L n s).top n = none := by
        unfold copyUp; rw [hl]
        unfold lookup at hl
        cases h : s.top n with
        | none => rfl
        | some i => rw [h] at hl; simp at hl
      rw [ht]; exact ⟨⟨φ, R⟩, .inl rfl⟩
  | link a b =>
    simp only [step, Posix.step]
    cases hpa : p.name a with
    | none =>
      have hl : lookup L s a = none := by
        rw [lookup_name R a] at hpa; simpa using hpa
      rw [hl]; exact ⟨⟨φ, R⟩, .inl rfl⟩
    | some id =>
      obtain ⟨xa, hla⟩ : ∃ x, lookup L s a = some x := by
        rw [lookup_name R a] at hpa
        cases h : lookup L s a with
        | none => rw [h] at hpa; simp at hpa
        | some x => exact ⟨x, rfl⟩
      rw [hla]
      cases hpb : p.name b with
      | some id2 =>
        obtain ⟨xb, hlb⟩ : ∃ x, lookup L s b = some x := by
          rw [lookup_name R b] at hpb
          cases h : lookup L s b with
          | none => rw [h] at hpb; simp at hpb
          | some x => exact ⟨x, rfl⟩
        rw [hlb]; exact ⟨⟨φ, R⟩, .inl rfl⟩
      | none =>
        have hlb : lookup L s b = none := by
          rw [lookup_name R b] at hpb; simpa using hpb
        rw [hlb]
        obtain ⟨ψ, i, R1, ht, hi, _, _, _⟩ := copyUp_rel hL R hpa
        refine ⟨⟨ψ, ?_⟩, .inl rfl⟩
        simp only
        refine names_rel R1 ?_ ?_ ?_
        · intro n k hn
          simp only [setAt] at hn
          by_cases h1 : n = b
          · rw [if_pos h1] at hn; exact R1.top a k hn
          · rw [if_neg h1] at hn; exact R1.top n k hn
        · intro n
          simp only [setAt]
          by_cases h1 : n = b
          · simp [h1, ht, hi]
          · simp only [h1, if_false]; exact R1.name n
        · intro n j hn hw _
          simp only [setAt] at hn hw
          by_cases h1 : n = b
          · rw [if_pos h1, ht] at hn; cases hn
          · rw [if_neg h1] at hn hw; exact ⟨hn, hw⟩
  | remove n =>
    simp only [step, Posix.step]
    cases hp : p.name n with
    | none =>
      have hl : lookup L s n = none := by
        rw [lookup_name R n] at hp; simpa using hp
      rw [hl]; exact ⟨⟨φ, R⟩, .inl rfl⟩
    | some id =>
      obtain ⟨x, hl⟩ : ∃ x, lookup L s n = some x := by
        rw [lookup_name R n] at hp
        cases h : lookup L s n with
        | none => rw [h] at hp; simp at hp
        | some x => exact ⟨x, rfl⟩
      rw [hl]
      refine ⟨⟨φ, ?_⟩, .inl rfl⟩
      simp only [mask]
      refine names_rel R ?_ ?_ ?_
      · intro m k hm
        simp only [setAt] at hm
        by_cases h1 : m = n
        · rw [if_pos h1] at hm; cases hm
        · rw [if_neg h1] at hm; exact R.top m k hm
      · intro m
        simp only [setAt]
        by_cases h1 : m = n
        · subst h1; simp only [if_true]; cases L.name m <;> rfl
        · simp only [h1, if_false]; exact R.name m
      · intro m j hm hw hj
        simp only [setAt] at hm hw
        by_cases h1 : m = n
        · subst h1; rw [if_pos rfl, hj] at hw; cases hw
        · rw [if_neg h1] at hm hw; exact ⟨hm, hw⟩
  | rename a b =>
    simp only [step, Posix.step]
    cases hpa : p.name a with
    | none =>
      have hl : lookup L s a = none := by
        rw [lookup_name R a] at hpa; simpa using hpa
      rw [hl]; exact ⟨⟨φ, R⟩, .inl rfl⟩
    | some id =>
      obtain ⟨xa, hla⟩ : ∃ x, lookup L s a = some x := by
        rw [lookup_name R a] at hpa
        cases h : lookup L s a with
        | none => rw [h] at hpa; simp at hpa
        | some x => exact ⟨x, rfl⟩
      rw [hla]
      simp only
      by_cases hab : a = b
      · subst hab; rw [if_pos rfl, if_pos hpa]; exact ⟨⟨φ, R⟩, .inl rfl⟩
      · rw [if_neg hab]
        obtain ⟨ψ, i, R1, ht, hi, _, _, _⟩ := copyUp_rel hL R hpa
        have hlt := R1.top a i ht
        refine ⟨⟨ψ, ?_⟩, .inl (by split <;> rfl)⟩
        -- one file or two
        by_cases hsame : (copyUp L a s).top a = (copyUp L a s).top b
        · have hpb : p.name b = some id := by
            rw [R1.name b, ← hsame, ht]; simp [hi]
          rw [if_pos hpb]
          simp only [renameTop, if_pos hsame, mask]
          have hb : (copyUp L a s).top b = some i := by rw [← hsame]; exact ht
          refine names_rel R1 R1.top ?_ ?_ (name := p.name)
          · intro n
            rw [R1.name n]
            simp only [setAt]
            cases htn : (copyUp L a s).top n with
            | some k => rfl
            | none =>
              have h1 : n ≠ a := fun e => by rw [e, ht] at htn; cases htn
              have h2 : n ≠ b := fun e => by rw [e, hb] at htn; cases htn
              simp [h1, h2]
          · intro n j hn hw _
            simp only [setAt] at hw
            have h1 : n ≠ a := fun e => by rw [e, ht] at hn; cases hn
            have h2 : n ≠ b := fun e => by rw [e, hb] at hn; cases hn
            rw [if_neg h1, if_neg h2] at hw
            exact ⟨hn, hw⟩
        · have hpb : p.name b ≠ some id := by
            intro hpb
            rw [R1.name b] at hpb
            cases htb : (copyUp L a s).top b with
            | some k =>
              rw [htb] at hpb
              injection hpb with hpb
              have := R1.inj i k hlt (R1.top b k htb) (by rw [hi, hpb])
              exact hsame (by rw [ht, htb, this])
            | none =>
              rw [htb] at hpb
              simp only at hpb
              by_cases hwb : (copyUp L a s).wh b
              · rw [if_pos hwb] at hpb; cases hpb
              · rw [if_neg hwb] at hpb
                cases hLb : L.name b with
                | none => rw [hLb] at hpb; cases hpb
                | some j =>
                  rw [hLb] at hpb
                  simp at hpb
                  exact (R1.low b j htb (by simpa using hwb) hLb).2 i hlt (by rw [hi, hpb])
          rw [if_neg hpb]
          simp only [renameTop, if_neg hsame, mask]
          refine names_rel R1 ?_ ?_ ?_
          · intro n k hn
            simp only [setAt] at hn
            by_cases h1 : n = a
            · rw [if_pos h1] at hn; cases hn
            · rw [if_neg h1] at hn
              by_cases h2 : n = b
              · rw [if_pos h2] at hn; exact R1.top a k hn
              · rw [if_neg h2] at hn; exact R1.top n k hn
          · intro n
            simp only [setAt]
            by_cases h1 : n = a
            · subst h1; simp only [if_true]; cases L.name n <;> rfl
            · simp only [h1, if_false]
              by_cases h2 : n = b
              · simp [h2, ht, hi]
              · simp only [h2, if_false]; exact R1.name n
          · intro n j hn hw hj
            simp only [setAt] at hn hw
            by_cases h1 : n = a
            · subst h1; rw [if_pos rfl, hj] at hw; cases hw
            · rw [if_neg h1] at hn hw
              by_cases h2 : n = b
              · rw [if_pos h2, ht] at hn; cases hn
              · rw [if_neg h2] at hn hw; exact ⟨hn, hw⟩

theorem along_rel {L : Lower} (hL : NoLowerLinks L) (cs : List Call) {φ : Nat → Id} {s : State} {p : Posix} (R : Rel L φ s p)
    (hc : ChmodsAlong cs p) : AgreeAlong L cs s p := by
  induction cs generalizing φ s p with
  | nil => trivial
  | cons c cs ih =>
    obtain ⟨⟨ψ, R1⟩, h⟩ := step_rel hL R c hc.1
    exact ⟨h, ih R1 hc.2⟩

theorem shown_rel {L : Lower} {s : State} (hs : Fresh s) : Rel L .upper s (shown L s) where
  inj _ _ _ _ h := by injection h
  old _ _ hi h := by injection h with h; subst h; exact hi
  top := hs.1
  name n := by simp only [shown]
  file _ _ := rfl
  low _ _ _ _ _ := ⟨rfl, fun _ _ h => by cases h⟩
  len := by simp [hs.2, shown]
  hnd h x y hx := by rw [hs.2] at hx; simp at hx

/-! ### The theorems -/

/-- **C121**. Take an overlay as it is after opening, whose lower layers have no file with two names, and any history of calls by name and
through handles in which permission bits are not changed through handles without write access. Every call answers as it does for one
directory of a POSIX filesystem, in which hard links are names of one file, handles stay with their file whatever becomes of its names, and a
rename between two names of one file does nothing — except that a handle opened without write access may answer with what its file held when
it was opened. -/
theorem C121_files_partial (L : Lower) (hL : NoLowerLinks L) (s : State) (hs : Fresh s) (cs : List Call) (hc : ChmodsAlong cs (shown L s)) :
    AgreeAlong L cs s (shown L s) :=
  along_rel hL cs (shown_rel hs) hc

/-- The answers of the directory to a history. -/
def Posix.run : List Call → Posix → List Ans
  | [], _ => []
  | c :: cs, p => (Posix.step c p).2 :: Posix.run cs (Posix.step c p).1

/-- Only handles with write access are read from, and only through them permission bits are changed. -/
def WritersAlong : List Call → Posix → Prop
  | [], _ => True
  | c :: cs, p =>
    (∀ h x, c = .read h ∨ (∃ perm, c = .chmodH h perm) → p.handles[h]? = some (some x) → x.w = true) ∧ WritersAlong cs (Posix.step c p).1

theorem writers_chmods (cs : List Call) (p : Posix) (h : WritersAlong cs p) : ChmodsAlong cs p := by
  induction cs generalizing p with
  | nil => trivial
  | cons c cs ih =>
    refine ⟨?_, ih _ h.2⟩
    cases c <;> try trivial
    case chmodH k perm => exact fun x hx => h.1 k x (.inr ⟨perm, rfl⟩) hx

theorem agree_eq {L : Lower} (cs : List Call) (s : State) (p : Posix) (h : WritersAlong cs p) (ha : AgreeAlong L cs s p) :
    (run L cs s).2 = Posix.run cs p := by
  induction cs generalizing s p with
  | nil => rfl
  | cons c cs ih =>
    simp only [run, Posix.run]
    rw [ih _ _ h.2 ha.2]
    rcases ha.1 with e | ⟨k, x, hk, hx, hw, _⟩
    · rw [e]
    · rw [h.1 k x (.inl hk) hx] at hw; cases hw

/-- **C121** (exactly). With handles that have write access, and calls by name, all answers are those of the directory. -/
theorem C121_exact_partial (L : Lower) (hL : NoLowerLinks L) (s : State) (hs : Fresh s) (cs : List Call)
    (hc : WritersAlong cs (shown L s)) : (run L cs s).2 = Posix.run cs (shown L s) :=
  agree_eq cs _ _ hc (C121_files_partial L hL s hs cs (writers_chmods cs _ hc))

/-- The call takes neither name away nor puts another file there. -/
def Keeps (a b : Str) : Call → Prop
  | .remove n => n ≠ a ∧ n ≠ b
  | .rename x y => x ≠ a ∧ x ≠ b ∧ y ≠ a ∧ y ≠ b
  | _ => True

theorem copyUp_top {L : Lower} {s : State} {n m : Str} {i : Nat} (h : s.top m = some i) : (copyUp L n s).top m = some i := by
  unfold copyUp
  cases hl : lookup L s n with
  | none => exact h
  | some x =>
    cases x with
    | inl k => exact h
    | inr j =>
      have : m ≠ n := fun e => by have := (lookup_inr hl).1; rw [← e, h] at this; cases this
      simp only [setAt, this, if_false]; exact h

theorem step_top {L : Lower} (c : Call) {s : State} {m a b : Str} {i : Nat} (hm : m = a ∨ m = b) (h : s.top m = some i) (hk : Keeps a b c) :
    (step L c s).1.top m = some i := by
  have hl : lookup L s m = some (.inl i) := by simp [lookup, h]
  cases c with
  | look n => simp only [step]; split <;> exact h
  | openR n => simp only [step]; split <;> exact h
  | openW n w creat excl trunc perm =>
    simp only [step]
    split
    · split
      · exact h
      · have := copyUp_top (L := L) (n := n) h
        simp only [openTop]
        split
        · split <;> exact this
        · exact this
    next hn =>
      split
      · have : m ≠ n := fun e => by rw [← e, hl] at hn; cases hn
        simp only [createTop, track, setAt, this, if_false]; exact h
      · exact h
  | read k => simp only [step]; split <;> exact h
  | change k g => simp only [step]; split <;> exact h
  | chmodH k g => simp only [step]; split <;> exact h
  | close k => simp only [step]; split <;> exact h
  | chmod n perm =>
    simp only [step]
    split
    · exact copyUp_top h
    · exact h
  | link x y =>
    simp only [step]
    split
    · exact h
    · exact h
    next hx hy =>
      have : m ≠ y := fun e => by rw [← e, hl] at hy; cases hy
      simp only [setAt, this, if_false]
      exact copyUp_top h
  | remove n =>
    simp only [step]
    split
    · exact h
    · have : m ≠ n := by rcases hm with e | e <;> rw [e] <;> intro e2 <;> simp_all [Keeps]
      simp only [mask, setAt, this, if_false]; exact h
  | rename x y =>
    simp only [step]
    split
    · exact h
    · split
      · exact h
      · have h1 : m ≠ x := by rcases hm with e | e <;> rw [e] <;> intro e2 <;> simp_all [Keeps]
        have h2 : m ≠ y := by rcases hm with e | e <;> rw [e] <;> intro e2 <;> simp_all [Keeps]
        have := copyUp_top (L := L) (n := x) h
        simp only [mask, renameTop]
        split
        · exact this
        · simp only [setAt, h1, h2, if_false]; exact this

theorem run_top {L : Lower} (cs : List Call) {s : State} {m a b : Str} {i : Nat} (hm : m = a ∨ m = b) (h : s.top m = some i)
    (hk : ∀ c ∈ cs, Keeps a b c) : (run L cs s).1.top m = some i := by
  induction cs generalizing s with
  | nil => exact h
  | cons c cs ih =>
    exact ih (step_top c hm h (hk c (List.mem_cons_self ..))) (fun c hc => hk c (List.mem_cons_of_mem _ hc))

/-- **C121** (hard links). After a `Link` that succeeded, whatever is then done by name or through any handle, both names show the same file,
as long as neither is removed, renamed or renamed onto. No condition on the layers. -/
theorem C121_linked (L : Lower) (s : State) (a b : Str) (h : (step L (.link a b) s).2 = .done) (cs : List Call) (hk : ∀ c ∈ cs, Keeps a b c) :
    ∃ f, (step L (.look a) (run L cs (step L (.link a b) s).1).1).2 = .file f ∧
      (step L (.look b) (run L cs (step L (.link a b) s).1).1).2 = .file f := by
  have hab : ∃ i, (step L (.link a b) s).1.top a = some i ∧ (step L (.link a b) s).1.top b = some i := by
    simp only [step] at h ⊢
    split at h
    · cases h
    · cases h
    next hx hy =>
      have hne : a ≠ b := fun e => by rw [e, hy] at hx; cases hx
      have : ∃ i, (copyUp L a s).top a = some i := by
        unfold copyUp
        cases hl : lookup L s a with
        | none => rw [hl] at hx; cases hx
        | some x =>
          cases x with
          | inl k => exact ⟨k, lookup_inl hl⟩
          | inr j => exact ⟨s.next, by simp [setAt]⟩
      obtain ⟨i, hi⟩ := this
      exact ⟨i, by simp [setAt, hne, hi], by simp [setAt, hi]⟩
  obtain ⟨i, ha, hb⟩ := hab
  have h1 := run_top (L := L) cs (.inl rfl) ha hk
  have h2 := run_top (L := L) cs (.inr rfl) hb hk
  generalize (run L cs (step L (.link a b) s).1).1 = t at h1 h2
  refine ⟨t.file i, ?_, ?_⟩
  · simp [step, lookup, h1]
  · simp [step, lookup, h2]

/-! ### Concrete cases and counterexamples -/

namespace Sample

def na : Str := ['a']
def nb : Str := ['b']
def nc : Str := ['c']

/-- One file in the lower layers, under `a`. -/
def one : Lower := ⟨fun n => if n = na then some 0 else none, fun _ => ⟨0o644, [1]⟩⟩

/-- One file in the lower layers, under `a` and `b`. -/
def two : Lower := ⟨fun n => if n = na ∨ n = nb then some 0 else none, fun _ => ⟨0o644, [1]⟩⟩

/-- An empty top layer. -/
def empty : State := ⟨fun _ => none, fun _ => ⟨0, []⟩, 0, fun _ => false, []⟩

/-- Writing a byte at the end. -/
def add (x : UInt8) (f : File) : File := ⟨f.perm, f.data ++ [x]⟩

end Sample

open Sample

/-- The hypotheses of C121 hold for a history with a lower file, a hard link, a rename between the two names, a removal and handles. -/
example : NoLowerLinks one ∧ Fresh empty ∧
    (let cs := [.openR na, .link na nb, .openW nb true false false false 0, .change 1 (add 2), .rename na nb, .look na, .remove na, .look nb,
      .rename nb nc, .read 1, .read 0, .openW nb true true true false 0o600, .remove nc, .change 1 (add 3), .read 1, .look nc]
     ChmodsAlong cs (shown one empty) ∧
     (run one cs empty).2 = [.handle 0, .done, .handle 1, .done, .done, .file ⟨0o644, [1, 2]⟩, .done, .file ⟨0o644, [1, 2]⟩, .done,
      .file ⟨0o644, [1, 2]⟩, .file ⟨0o644, [1]⟩, .handle 2, .done, .done, .file ⟨0o644, [1, 2, 3]⟩, .missing]) := by
  refine ⟨?_, ⟨fun n i h => by simp [empty] at h, rfl⟩, ?_⟩
  · intro n m j hn hm
    simp only [one] at hn hm
    split at hn
    · split at hm
      · simp_all
      · cases hm
    · cases hn
  · refine ⟨?_, by decide +kernel⟩
    simp [ChmodsAlong, ChmodsByWriters]

/-- **C121** fails for hard links of a lower layer: writing through one name is not seen under the other. -/
theorem C121_counterexample_lower_links : ∃ (L : Lower) (s : State) (a b : Str) (g : File → File), Fresh s ∧ L.name a = L.name b ∧
    (run L [.openW a true false false false 0, .change 0 g, .look a, .look b] s).2 ≠
      Posix.run [.openW a true false false false 0, .change 0 g, .look a, .look b] (shown L s) :=
  ⟨two, empty, na, nb, add 2, ⟨fun n i h => by simp [empty] at h, rfl⟩, by decide, by decide +kernel⟩

/-- **C121** fails for handles opened for reading on a file of a lower layer: they do not see what is written later. -/
theorem C121_counterexample_reader : ∃ (L : Lower) (s : State) (a : Str) (g : File → File), NoLowerLinks L ∧ Fresh s ∧
    (run L [.openR a, .openW a true false false false 0, .change 1 g, .read 0] s).2 ≠
      Posix.run [.openR a, .openW a true false false false 0, .change 1 g, .read 0] (shown L s) := by
  refine ⟨one, empty, na, add 2, ?_, ⟨fun n i h => by simp [empty] at h, rfl⟩, by decide +kernel⟩
  intro n m j hn hm
  simp only [one] at hn hm
  split at hn
  · split at hm
    · simp_all
    · cases hm
  · cases hn

/-- **C121** fails for permission bits changed through a handle opened for reading: whether that is refused depends on the layer the file
lies in at the opening. -/
theorem C121_counterexample_chmod_reader : ∃ (L : Lower) (s : State) (a : Str), Fresh s ∧
    (run L [.openR a, .chmodH 0 0o600] s).2 = [.handle 0, .denied] ∧
    (run L [.chmod a 0o644, .openR a, .chmodH 0 0o600] s).2 = [.done, .handle 0, .done] :=
  ⟨one, empty, na, ⟨fun n i h => by simp [empty] at h, rfl⟩, by decide +kernel, by decide +kernel⟩

end Verif.Overlay.Files
