import Verif.Synth.Handle
/-
Concurrent appends to one memory file, /repo/vroot/synthfs/view_mem_buf.go 193-208 (memHandle.Write with O_APPEND), and
property C47.  `length` and `writeAt` are two critical sections of the buffer lock; only the handle's own lock spans both.
-/
namespace Verif.Synth
open Verif.Vroot

/-! ## Model -/

/-- A goroutine that appends `todo` through the append-mode handle number `handle`; `got` is the offset it has read
(199-201) and not yet written at (202). While it holds one it owns the handle's lock. -/
structure Thread where
  handle : Nat
  todo : List Bytes
  got : Option Int
deriving DecidableEq

structure AState where
  buf : Buf
  threads : List Thread
  written : List Bytes   -- payloads of the calls that returned, oldest first
deriving DecidableEq

/-- Does a goroutine hold the lock of this handle? -/
def locked (ts : List Thread) (handle : Nat) : Bool := ts.any fun t => t.handle == handle && t.got.isSome

/-- One step of goroutine `i` (view_mem_buf.go 197-204): lock the handle and read the length, or write and unlock. A
goroutine that cannot move (nothing to do, or lock taken) stays. A panic ends the call. -/
def astep (s : AState) (a : Alloc) (i : Nat) : AState :=
  match s.threads[i]? with
  | none => s
  | some t => match t.todo, t.got with
    | [], _ => s
    | _ :: _, none => if locked s.threads t.handle then s else { s with threads := s.threads.set i { t with got := some s.buf.content.length } }
    | p :: rest, some o => match s.buf.writeAt a p o with
      | none => { s with threads := s.threads.set i ⟨t.handle, rest, none⟩ }
      | some (b, _, none) => ⟨b, s.threads.set i ⟨t.handle, rest, none⟩, s.written ++ [p]⟩
      | some (b, _, some _) => { s with buf := b, threads := s.threads.set i ⟨t.handle, rest, none⟩ }

/-- A schedule: which goroutine moves, and the allocator's decision at that moment. -/
def arun (s : AState) : List (Alloc × Nat) → AState
  | [] => s
  | (a, i) :: rest => arun (astep s a i) rest

/-- The step is the model's `memWrite` when both halves happen at once. -/
theorem astep_is_write (a : Alloc) (b : Buf) (f : Flag) (o : Int) (p : Bytes) (hf : writable f = true) (ha : appends f = true) :
    (memWrite a b ⟨f, o, false⟩ p).1 = (arun ⟨b, [⟨0, [p], none⟩], []⟩ [(a, 0), (a, 0)]).buf := by
  have hw : writePos b ⟨f, o, false⟩ = (b.content.length : Int) := by simp [writePos, ha]
  simp only [memWrite, hf, arun, astep, List.getElem?_cons_zero, locked, List.any_cons, List.any_nil, hw]
  simp only [Option.isSome, Bool.and_false, Bool.or_false, Bool.false_eq_true, if_false, List.set_cons_zero, List.getElem?_cons_zero]
  cases hx : b.writeAt a p b.content.length with
  | none => simp
  | some x =>
    obtain ⟨b', n, e⟩ := x
    cases e <;> simp

/-! ## C47 -/

/-- The claim fails: two goroutines with a handle each read the same length, and the second write replaces the first one's bytes. -/
theorem C47_counterexample :
    let a : Alloc := ⟨0, 100⟩
    arun ⟨Buf.empty, [⟨0, [[1, 1]], none⟩, ⟨1, [[2, 2]], none⟩], []⟩ [(a, 0), (a, 1), (a, 0), (a, 1)]
      = ⟨⟨[2, 2], []⟩, [⟨0, [], none⟩, ⟨1, [], none⟩], [[1, 1], [2, 2]]⟩ := by decide


structure Inv (s : AState) (c0 : Bytes) : Prop where
  holds : ∃ h, s.buf.Holds h
  content : s.buf.content = c0 ++ s.written.flatten
  one : ∀ i t, s.threads[i]? = some t → t.got.isSome → (t.got = some (s.buf.content.length : Int)) ∧ ∀ (j : Nat) t', s.threads[j]? = some t' → t'.got.isSome → j = i
  same : ∀ t ∈ s.threads, ∀ t' ∈ s.threads, t.handle = t'.handle

theorem locked_iff (ts : List Thread) (hd : Nat) : locked ts hd = true ↔ ∃ t ∈ ts, t.handle = hd ∧ t.got.isSome = true := by
  simp [locked]

theorem getElem?_set_some {α : Type _} {l : List α} {i j : Nat} {x y : α} (h : (l.set i x)[j]? = some y) : (i = j ∧ y = x) ∨ (i ≠ j ∧ l[j]? = some y) := by
  rw [List.getElem?_set] at h
  by_cases hij : i = j
  · rw [if_pos hij] at h
    split at h
    · cases h; exact .inl ⟨hij, rfl⟩
    · cases h
  · rw [if_neg hij] at h; exact .inr ⟨hij, h⟩

theorem write_at_end {a : Alloc} {b b' : Buf} {h : List Ev} {p : Bytes} {n : Nat} (hb : b.Holds h)
    (hw : b.writeAt a p b.content.length = some (b', n, none)) : b'.content = b.content ++ p := by
  obtain ⟨_, _, hb'⟩ := write_holds hb hw
  rw [hb'.content, hb.content, fileOf_length]
  simp only [Int.toNat_natCast]
  symm
  apply ext_fileOf
  · simp only [List.length_append, fileOf_length, lenOf]
    split
    · rename_i hp; simp [hp]
    · omega
  · intro i hi
    simp only [byteOf]
    by_cases hlt : i < lenOf h
    · rw [List.getElem_append_left (by simpa using hlt), dif_neg (by omega)]
      simp [fileOf]
    · simp at hi
      rw [List.getElem_append_right (by simpa using hlt), dif_pos (by omega)]
      congr 1
      simp

theorem inv_step {s : AState} {c0 : Bytes} (h : Inv s c0) (a : Alloc) (i : Nat) : Inv (astep s a i) c0 := by
  have sameSet : ∀ (i : Nat) (t x : Thread), s.threads[i]? = some t → x.handle = t.handle → ∀ u ∈ s.threads.set i x, ∀ u' ∈ s.threads.set i x, u.handle = u'.handle := by
    intro i t x hi hx u hu u' hu'
    have ht : t ∈ s.threads := List.mem_of_getElem? hi
    have hall : ∀ u ∈ s.threads.set i x, u.handle = t.handle := by
      intro u hu
      rcases List.mem_or_eq_of_mem_set hu with hm | hm
      · exact h.same u hm t ht
      · rw [hm]; exact hx
    rw [hall u hu, hall u' hu']
  unfold astep
  cases hi : s.threads[i]? with
  | none => exact h
  | some t =>
    simp only
    cases htd : t.todo with
    | nil => exact h
    | cons p rest =>
      cases hg : t.got with
      | none =>
        simp only
        split
        · exact h
        · rename_i hl
          have hno : ∀ (j : Nat) t', s.threads[j]? = some t' → ¬ t'.got.isSome = true := by
            intro j t' hj hs
            apply hl
            rw [locked_iff]
            exact ⟨t', List.mem_of_getElem? hj, h.same t' (List.mem_of_getElem? hj) t (List.mem_of_getElem? hi), hs⟩
          refine ⟨h.holds, h.content, ?_, sameSet i t _ hi rfl⟩
          intro j t1 hj hs
          rcases getElem?_set_some hj with ⟨rfl, rfl⟩ | ⟨_, hj'⟩
          · refine ⟨rfl, ?_⟩
            intro k t2 hk hs2
            rcases getElem?_set_some hk with ⟨rfl, _⟩ | ⟨_, hk'⟩
            · rfl
            · exact absurd hs2 (hno k t2 hk')
          · exact absurd hs (hno j t1 hj')
      | some o =>
        simp only
        obtain ⟨ho, honly⟩ := h.one i t hi (by rw [hg]; rfl)
        have ho' : o = (s.buf.content.length : Int) := by rw [hg] at ho; exact Option.some.inj ho
        subst ho'
        have noneAfter : ∀ (b : Buf) (j : Nat) (t1 : Thread), (s.threads.set i ⟨t.handle, rest, none⟩)[j]? = some t1 → t1.got.isSome = true →
            (t1.got = some (b.content.length : Int)) ∧ ∀ (k : Nat) t', (s.threads.set i ⟨t.handle, rest, none⟩)[k]? = some t' → t'.got.isSome → k = j := by
          intro b j t1 hj hs
          rcases getElem?_set_some hj with ⟨_, rfl⟩ | ⟨hne, hj'⟩
          · cases hs
          · exact absurd (honly j t1 hj' hs).symm hne
        obtain ⟨ev, hev⟩ := h.holds
        cases hw : s.buf.writeAt a p s.buf.content.length with
        | none => exact ⟨⟨ev, hev⟩, h.content, noneAfter s.buf, sameSet i t _ hi rfl⟩
        | some x =>
          obtain ⟨b', n, e⟩ := x
          cases e with
          | none =>
            simp only
            refine ⟨⟨_, (write_holds hev hw).2.2⟩, ?_, noneAfter b', sameSet i t _ hi rfl⟩
            show b'.content = c0 ++ (s.written ++ [p]).flatten
            rw [write_at_end hev hw, h.content]
            simp
          | some e =>
            simp only
            have hb' : b' = s.buf := by
              have := step_quiet (a := a) (b := s.buf) (op := .writeAt p s.buf.content.length) (by simp [Buf.step, hw, effect])
              simpa [Buf.step, hw] using this
            rw [hb']
            exact ⟨⟨ev, hev⟩, h.content, noneAfter s.buf, sameSet i t _ hi rfl⟩

theorem inv_run (sched : List (Alloc × Nat)) : ∀ {s : AState} {c0 : Bytes}, Inv s c0 → Inv (arun s sched) c0 := by
  induction sched with
  | nil => intro s c0 h; exact h
  | cons x rest ih => intro s c0 h; exact ih (inv_step h x.1 x.2)

/-- Partial: if all goroutines append through one and the same handle, then under every schedule the file is what it was,
followed by the payloads of the calls that returned, in the order they returned: nothing is overwritten. Missing: several
append-mode handles on one file, where the claim is false (`C47_counterexample`). -/
theorem C47_one_handle_partial (b : Buf) (ev : List Ev) (hb : b.Holds ev) (handle : Nat) (jobs : List (List Bytes)) (sched : List (Alloc × Nat)) :
    (arun ⟨b, jobs.map (fun j => ⟨handle, j, none⟩), []⟩ sched).buf.content
      = b.content ++ (arun ⟨b, jobs.map (fun j => ⟨handle, j, none⟩), []⟩ sched).written.flatten := by
  refine (inv_run sched (s := ⟨b, jobs.map (fun j => ⟨handle, j, none⟩), []⟩) (c0 := b.content) ⟨⟨ev, hb⟩, by simp, ?_, ?_⟩).content
  · intro i t hi hs
    simp only [List.getElem?_map] at hi
    cases hj : jobs[i]? with
    | none => rw [hj] at hi; cases hi
    | some j => rw [hj] at hi; cases hi; cases hs
  · intro t ht t' ht'
    simp only [List.mem_map] at ht ht'
    obtain ⟨_, _, rfl⟩ := ht
    obtain ⟨_, _, rfl⟩ := ht'
    rfl

/-- Two goroutines on one handle, interleaved as badly as the lock allows. -/
example : (arun ⟨Buf.empty, [⟨0, [[1, 1]], none⟩, ⟨0, [[2, 2]], none⟩], []⟩ (List.replicate 4 (⟨0, 100⟩, 0) ++ List.replicate 1 (⟨0, 100⟩, 1) ++ [(⟨0, 100⟩, 0), (⟨0, 100⟩, 1)])).buf.content = [1, 1, 2, 2] := by decide

end Verif.Synth
