import Verif.Common.Bytes
/-
C116: copies that run at the same time and share the pools their buffers come from, /repo/fsutil/internal/bufpool/pool.go and /repo/aferofs/internal/bufpool/bytes.go
(the same code) and /repo/vroot-adapter/overlayfs/copyup.go 222-241; who copies: /repo/fsutil/safe_write.go 113-121, /repo/fsutil/copy_fs.go 218-226,
/repo/aferofs/synth/fs_link.go 88-94.
-/
namespace Verif.Fsutil.BufPool
open Verif

/-! ### Model -/

/-- How a call of `Read` ended: nil, io.EOF, another error. -/
inductive End where
  | more | eof | fault
deriving DecidableEq

/-- Where a copy is. The numbers name buffers. -/
inductive Phase where
  | idle                                              -- before `GetBytes`
  | reading (b : Nat)                                 -- at the head of the loop of io.CopyBuffer
  | writing (b : Nat) (n pos : Nat) (how : End)       -- `Read` answered `n` and `how`; `dst.Write(buf[0:n])` has taken `pos` bytes
  | leaving (b : Nat) (good : Bool)                   -- io.CopyBuffer returned, nil or an error; the deferred `PutBytes` has not run
  | done (good : Bool)
  | panicked
deriving DecidableEq

/-- One copy: where it is, what its source has not delivered, what its destination received. -/
structure Copier where
  phase : Phase
  rest : Bytes
  dst : Bytes
deriving DecidableEq

/-- All copies, the buffers there are (`heap`; those from `next` on were not made yet) and the ones lying in the pool. -/
structure St where
  heap : Nat → Bytes
  next : Nat
  pool : List Nat
  copiers : Nat → Copier

/-- What happens next to one copy, or to the pool. -/
inductive Act where
  | get (i : Nat) (pick : Option Nat)                        -- sync.Pool hands out any of those it has, or makes one
  | read (i : Nat) (n : Nat) (junk : Bytes) (how : End)      -- io.Reader: some bytes; what lies behind them in the buffer may be overwritten too
  | write (i : Nat) (k : Nat)                                -- the writer takes `k` more bytes
  | writeFail (i : Nat)                                      -- the writer fails, or returns fewer bytes than it was given (io.ErrShortWrite)
  | put (i : Nat)
  | collect (j : Nat)                                        -- the garbage collector takes one out of the pool

def upd {α : Type} (f : Nat → α) (i : Nat) (x : α) : Nat → α := fun j => if j = i then x else f j

/-- pool.go 12-17 `New`: `size` is 64 KiB; what `make` returns. -/
def fresh (size : Nat) : Bytes := List.replicate size 0

/-- pool.go 19-21 `GetBytes`, sync.Pool.Get: the buffer, and what the pool is then. -/
def get (size : Nat) (s : St) (pick : Option Nat) : Nat × St :=
  match pick.bind (fun j => s.pool[j]?) with
  | some b => (b, { s with pool := s.pool.erase b })
  | none => (s.next, { s with heap := upd s.heap s.next (fresh size), next := s.next + 1 })

/-- pool.go 23-29 `PutBytes`; the capacity of a slice is not modelled: none of the callers grows one.
(copyup.go 238 puts the buffer back without looking at its length.) -/
def put (size : Nat) (s : St) (b : Nat) : St :=
  if (s.heap b).length ≠ size then s else { s with pool := b :: s.pool }

/-- What `src.Read(buf)` leaves in a buffer that held `old`: the data at its start, behind it anything, and never more than fits. -/
def fill (old data junk : Bytes) : Bytes := (data ++ junk).take old.length ++ old.drop (data ++ junk).length

/-- std io.CopyBuffer, io.go `copyBuffer`, entered with a buffer: it panics on an empty one. The ways around the buffer (WriterTo, ReaderFrom) are the backend's own and not modelled. -/
def enter (s : St) (b : Nat) : Phase := if (s.heap b).length = 0 then .panicked else .reading b

/-- std io.go `copyBuffer`: the head of the loop after `dst.Write` took everything. -/
def again (b : Nat) : End → Phase
  | .more => .reading b
  | .eof => .leaving b true
  | .fault => .leaving b false

/-- One step. What a copy is not at, does nothing. -/
def step (size : Nat) (s : St) : Act → St
  | .get i pick => match (s.copiers i).phase with
    | .idle => { (get size s pick).2 with copiers := upd s.copiers i { s.copiers i with phase := enter (get size s pick).2 (get size s pick).1 } }
    | _ => s
  | .read i n junk how => match (s.copiers i).phase with
    | .reading b =>
      { s with
        heap := upd s.heap b (fill (s.heap b) ((s.copiers i).rest.take (min n (s.heap b).length)) junk)
        copiers := upd s.copiers i { s.copiers i with
          rest := (s.copiers i).rest.drop (min n (s.heap b).length)
          -- io.EOF is not answered before the end of the source
          phase := .writing b ((s.copiers i).rest.take (min n (s.heap b).length)).length 0
            (if how = .eof ∧ (s.copiers i).rest.drop (min n (s.heap b).length) ≠ [] then .more else how) } }
    | _ => s
  | .write i k => match (s.copiers i).phase with
    | .writing b n pos how =>
      { s with copiers := upd s.copiers i { s.copiers i with
          dst := (s.copiers i).dst ++ slice (s.heap b) pos (min k (n - pos))
          phase := if n ≤ pos + k then again b how else .writing b n (pos + k) how } }
    | _ => s
  | .writeFail i => match (s.copiers i).phase with
    | .writing b n pos _ => if pos < n then { s with copiers := upd s.copiers i { s.copiers i with phase := .leaving b false } } else s
    | _ => s
  | .put i => match (s.copiers i).phase with
    | .leaving b good => { put size s b with copiers := upd s.copiers i { s.copiers i with phase := .done good } }
    | _ => s
  | .collect j => { s with pool := s.pool.eraseIdx j }

/-- Any number of copies, copy `i` of the bytes `src i`; no buffer was made yet. -/
def start (src : Nat → Bytes) : St := ⟨fun _ => [], 0, [], fun i => ⟨.idle, src i, []⟩⟩

def run (size : Nat) (s : St) (l : List Act) : St := l.foldl (step size) s

/-! ### Specification -/

/-- Copy `i` has buffer `b`. -/
def Holds (s : St) (i b : Nat) : Prop := match (s.copiers i).phase with
  | .reading c | .writing c _ _ _ | .leaving c _ => c = b
  | _ => False

/-- What the destination of copy `i` received. -/
def received (s : St) (i : Nat) : Bytes := (s.copiers i).dst

/-! ### Invariant -/

/-- What a copy of `src` has done so far fits what it was given to do. -/
def Data (src : Bytes) (c : Copier) (heap : Nat → Bytes) : Prop := match c.phase with
  | .idle => c.dst = [] ∧ c.rest = src
  | .reading _ => c.dst ++ c.rest = src
  | .writing b n pos how => c.dst ++ slice (heap b) pos (n - pos) ++ c.rest = src ∧ pos ≤ n ∧ n ≤ (heap b).length ∧ (how = .eof → c.rest = [])
  | .leaving _ good => c.dst <+: src ∧ (good = true → c.dst = src)
  | .done good => c.dst <+: src ∧ (good = true → c.dst = src)
  | .panicked => False

structure Inv (size : Nat) (src : Nat → Bytes) (s : St) : Prop where
  nodup : s.pool.Nodup
  made : ∀ b ∈ s.pool, b < s.next
  sized : ∀ b, b < s.next → (s.heap b).length = size
  held : ∀ i b, Holds s i b → b < s.next ∧ b ∉ s.pool
  alone : ∀ i j b, Holds s i b → Holds s j b → i = j
  data : ∀ i, Data (src i) (s.copiers i) s.heap

theorem inv_start (size : Nat) (src : Nat → Bytes) : Inv size src (start src) := by
  refine ⟨by simp [start], by simp [start], by simp [start], ?_, ?_, ?_⟩
  · intro i b h; exact h.elim
  · intro i j b h; exact h.elim
  · intro i; exact ⟨rfl, rfl⟩

theorem upd_same {α : Type} (f : Nat → α) (i : Nat) (x : α) : upd f i x i = x := by simp [upd]

theorem upd_other {α : Type} {f : Nat → α} {i j : Nat} {x : α} (h : j ≠ i) : upd f i x j = f j := by simp [upd, h]

theorem fill_length (old data junk : Bytes) : (fill old data junk).length = old.length := by
  unfold fill
  simp only [List.length_append, List.length_take, List.length_drop]
  omega

theorem fill_data (old data junk : Bytes) (h : data.length ≤ old.length) : (fill old data junk).take data.length = data := by
  unfold fill
  rw [List.take_append_of_le_length (by simp only [List.length_take, List.length_append]; omega), List.take_take, Nat.min_eq_left h,
    List.take_append_of_le_length (Nat.le_refl _), List.take_length]

/-- The steps of one copy that leave the buffers and the pool alone but may change its phase from one holding `b` to another holding `b`. -/
theorem holds_upd {s : St} {i j b : Nat} {c : Copier} {heap : Nat → Bytes} {next : Nat} {pool : List Nat}
    (h : Holds ⟨heap, next, pool, upd s.copiers i c⟩ j b) :
    (j ≠ i ∧ Holds s j b) ∨ (j = i ∧ Holds ⟨heap, next, pool, fun _ => c⟩ i b) := by
  by_cases hj : j = i
  · right
    subst hj
    refine ⟨rfl, ?_⟩
    unfold Holds at h ⊢
    simpa only [upd_same] using h
  · left
    refine ⟨hj, ?_⟩
    unfold Holds at h ⊢
    simpa only [upd_other hj] using h

theorem data_heap {src : Bytes} {c : Copier} {heap heap' : Nat → Bytes} (hd : Data src c heap)
    (h : ∀ b n pos how, c.phase = .writing b n pos how → heap' b = heap b) : Data src c heap' := by
  unfold Data at hd ⊢
  split at hd <;> simp_all

theorem inv_step {size : Nat} {src : Nat → Bytes} {s : St} (hpos : 0 < size) (hs : Inv size src s) (a : Act) : Inv size src (step size s a) := by
  cases a with
  | get i pick =>
    show Inv size src (match (s.copiers i).phase with | .idle => _ | _ => s)
    split
    · rename_i hph
      have hidle : ∀ b, ¬ Holds s i b := by intro b h; unfold Holds at h; rw [hph] at h; exact h
      have hdat : (s.copiers i).dst = [] ∧ (s.copiers i).rest = src i := by
        have := hs.data i; unfold Data at this; rw [hph] at this; exact this
      have dat' : ∀ (heap' : Nat → Bytes) (b : Nat), (∀ c, c < s.next → heap' c = s.heap c) → ∀ j,
          Data (src j) (upd s.copiers i { s.copiers i with phase := .reading b } j) heap' := by
        intro heap' b hheap j
        by_cases hj : j = i
        · subst hj
          rw [upd_same]
          show (s.copiers j).dst ++ (s.copiers j).rest = src j
          rw [hdat.1, hdat.2]; rfl
        · rw [upd_other hj]
          refine data_heap (hs.data j) ?_
          intro b' n pos how hp
          refine hheap b' (hs.held j b' ?_).1
          unfold Holds
          rw [hp]
      cases hp : pick.bind (fun j => s.pool[j]?) with
      | some b =>
        have hb : b ∈ s.pool := by
          cases pick with
          | none => cases hp
          | some k => exact List.mem_of_getElem? hp
        have hlen : (s.heap b).length = size := hs.sized b (hs.made b hb)
        have hget : get size s pick = (b, { s with pool := s.pool.erase b }) := by unfold get; rw [hp]
        rw [hget]
        have hen : enter { s with pool := s.pool.erase b } b = .reading b := by
          unfold enter
          rw [if_neg]
          show ¬ (s.heap b).length = 0
          omega
        show Inv size src ⟨s.heap, s.next, s.pool.erase b, upd s.copiers i { s.copiers i with phase := enter { s with pool := s.pool.erase b } b }⟩
        rw [hen]
        refine ⟨hs.nodup.erase b, fun c hc => hs.made c (List.mem_of_mem_erase hc), hs.sized, ?_, ?_, dat' s.heap b (fun _ _ => rfl)⟩
        · intro j c h
          rcases holds_upd h with ⟨_, h⟩ | ⟨_, h⟩
          · exact ⟨(hs.held j c h).1, fun hc => (hs.held j c h).2 (List.mem_of_mem_erase hc)⟩
          · have h : b = c := h
            subst h
            exact ⟨hs.made b hb, hs.nodup.not_mem_erase⟩
        · intro j k c hj hk
          rcases holds_upd hj with ⟨hji, hj⟩ | ⟨hji, hj⟩ <;> rcases holds_upd hk with ⟨hki, hk⟩ | ⟨hki, hk⟩
          · exact hs.alone j k c hj hk
          · have hk : b = c := hk
            subst hk
            exact absurd hb (hs.held j b hj).2
          · have hj : b = c := hj
            subst hj
            exact absurd hb (hs.held k b hk).2
          · rw [hji, hki]
      | none =>
        have hget : get size s pick = (s.next, { s with heap := upd s.heap s.next (fresh size), next := s.next + 1 }) := by unfold get; rw [hp]
        rw [hget]
        have hen : enter { s with heap := upd s.heap s.next (fresh size), next := s.next + 1 } s.next = .reading s.next := by
          unfold enter
          rw [if_neg]
          show ¬ (upd s.heap s.next (fresh size) s.next).length = 0
          rw [upd_same]; simp [fresh]; omega
        show Inv size src ⟨upd s.heap s.next (fresh size), s.next + 1, s.pool,
          upd s.copiers i { s.copiers i with phase := enter { s with heap := upd s.heap s.next (fresh size), next := s.next + 1 } s.next }⟩
        rw [hen]
        refine ⟨hs.nodup, fun c hc => Nat.lt_succ_of_lt (hs.made c hc), ?_, ?_, ?_, dat' _ s.next (fun c hc => upd_other (Nat.ne_of_lt hc))⟩
        · intro c hc
          show (upd s.heap s.next (fresh size) c).length = size
          by_cases h : c = s.next
          · subst h; rw [upd_same]; simp [fresh]
          · rw [upd_other h]; exact hs.sized c (by have hc : c < s.next + 1 := hc; omega)
        · intro j c h
          rcases holds_upd h with ⟨_, h⟩ | ⟨_, h⟩
          · exact ⟨Nat.lt_succ_of_lt (hs.held j c h).1, (hs.held j c h).2⟩
          · have h : s.next = c := h
            subst h
            exact ⟨Nat.lt_succ_self _, fun hc => Nat.lt_irrefl _ (hs.made _ hc)⟩
        · intro j k c hj hk
          rcases holds_upd hj with ⟨hji, hj⟩ | ⟨hji, hj⟩ <;> rcases holds_upd hk with ⟨hki, hk⟩ | ⟨hki, hk⟩
          · exact hs.alone j k c hj hk
          · have hk : s.next = c := hk
            subst hk
            exact absurd (hs.held j _ hj).1 (Nat.lt_irrefl _)
          · have hj : s.next = c := hj
            subst hj
            exact absurd (hs.held k _ hk).1 (Nat.lt_irrefl _)
          · rw [hji, hki]
    · exact hs
  | read i n junk how =>
    show Inv size src (match (s.copiers i).phase with | .reading b => _ | _ => s)
    split
    · rename_i b hph
      have hhold : Holds s i b := by unfold Holds; rw [hph]
      have hdat : (s.copiers i).dst ++ (s.copiers i).rest = src i := by
        have := hs.data i; unfold Data at this; rw [hph] at this; exact this
      have hle : ((s.copiers i).rest.take (min n (s.heap b).length)).length ≤ (s.heap b).length := by
        rw [List.length_take]; omega
      refine ⟨hs.nodup, hs.made, ?_, ?_, ?_, ?_⟩
      · intro c hc
        by_cases h : c = b
        · subst h
          show (upd s.heap c _ c).length = size
          rw [upd_same, fill_length]; exact hs.sized c hc
        · show (upd s.heap b _ c).length = size
          rw [upd_other h]; exact hs.sized c hc
      · intro j c h
        rcases holds_upd h with ⟨_, h⟩ | ⟨hji, h⟩
        · exact hs.held j c h
        · have h : b = c := h
          subst h
          exact hs.held i b hhold
      · intro j k c hj hk
        rcases holds_upd hj with ⟨hji, hj⟩ | ⟨hji, hj⟩ <;> rcases holds_upd hk with ⟨hki, hk⟩ | ⟨hki, hk⟩
        · exact hs.alone j k c hj hk
        · have hk : b = c := hk
          subst hk
          rw [hki]; exact hs.alone j i b hj hhold
        · have hj : b = c := hj
          subst hj
          rw [hji]; exact hs.alone i k b hhold hk
        · rw [hji, hki]
      · intro j
        show Data (src j) (upd s.copiers i _ j) (upd s.heap b _)
        by_cases hj : j = i
        · subst hj
          rw [upd_same]
          refine ⟨?_, Nat.zero_le _, ?_, ?_⟩
          · rw [upd_same, Nat.sub_zero]
            show (s.copiers j).dst ++ slice _ 0 _ ++ (s.copiers j).rest.drop (min n (s.heap b).length) = src j
            rw [show ∀ (x : Bytes) (m : Nat), slice x 0 m = x.take m from fun x m => by simp [slice], fill_data _ _ _ hle,
              List.append_assoc, List.take_append_drop]
            exact hdat
          · rw [upd_same, fill_length]; exact hle
          · intro he
            show (s.copiers j).rest.drop (min n (s.heap b).length) = []
            split at he
            · cases he
            · rename_i hne
              exact Classical.byContradiction (fun h => hne ⟨he, h⟩)
        · rw [upd_other hj]
          refine data_heap (hs.data j) ?_
          intro b' n' pos how' hp
          refine upd_other ?_
          intro e
          subst e
          exact hj (hs.alone j i b' (by unfold Holds; rw [hp]) hhold)
    · exact hs
  | write i k =>
    show Inv size src (match (s.copiers i).phase with | .writing b n pos how => _ | _ => s)
    split
    · rename_i b n pos how hph
      have hhold : Holds s i b := by unfold Holds; rw [hph]
      have hdat : (s.copiers i).dst ++ slice (s.heap b) pos (n - pos) ++ (s.copiers i).rest = src i ∧ pos ≤ n ∧ n ≤ (s.heap b).length ∧
          (how = .eof → (s.copiers i).rest = []) := by
        have := hs.data i; unfold Data at this; rw [hph] at this; exact this
      have hnext : ∀ c, Holds ⟨s.heap, s.next, s.pool, fun _ => { s.copiers i with
          dst := (s.copiers i).dst ++ slice (s.heap b) pos (min k (n - pos))
          phase := if n ≤ pos + k then again b how else .writing b n (pos + k) how }⟩ i c → b = c := by
        intro c h
        unfold Holds at h
        by_cases hn : n ≤ pos + k
        · simp only [if_pos hn] at h
          cases how <;> exact h
        · simp only [if_neg hn] at h
          exact h
      refine ⟨hs.nodup, hs.made, hs.sized, ?_, ?_, ?_⟩
      · intro j c h
        rcases holds_upd h with ⟨_, h⟩ | ⟨hji, h⟩
        · exact hs.held j c h
        · rw [← hnext c h]; exact hs.held i b hhold
      · intro j l c hj hl
        rcases holds_upd hj with ⟨hji, hj⟩ | ⟨hji, hj⟩ <;> rcases holds_upd hl with ⟨hki, hl⟩ | ⟨hki, hl⟩
        · exact hs.alone j l c hj hl
        · rw [hki]; exact hs.alone j i b (by rw [hnext c hl]; exact hj) hhold
        · rw [hji]; exact hs.alone i l b hhold (by rw [hnext c hj]; exact hl)
        · rw [hji, hki]
      · intro j
        show Data (src j) (upd s.copiers i _ j) s.heap
        by_cases hj : j = i
        · subst hj
          rw [upd_same]
          by_cases hn : n ≤ pos + k
          · have hmin : min k (n - pos) = n - pos := by omega
            simp only [if_pos hn, hmin]
            have hpre : (s.copiers j).dst ++ slice (s.heap b) pos (n - pos) <+: src j := ⟨(s.copiers j).rest, hdat.1⟩
            cases how with
            | more => exact hdat.1
            | eof =>
              refine ⟨hpre, fun _ => ?_⟩
              have h1 := hdat.1
              rw [hdat.2.2.2 rfl, List.append_nil] at h1
              exact h1
            | fault => exact ⟨hpre, fun h => by cases h⟩
          · have hmin : min k (n - pos) = k := by omega
            simp only [if_neg hn, hmin]
            refine ⟨?_, by omega, hdat.2.2.1, hdat.2.2.2⟩
            show (s.copiers j).dst ++ slice (s.heap b) pos k ++ slice (s.heap b) (pos + k) (n - (pos + k)) ++ (s.copiers j).rest = src j
            rw [List.append_assoc (s.copiers j).dst, slice_add, show k + (n - (pos + k)) = n - pos by omega]
            exact hdat.1
        · rw [upd_other hj]; exact hs.data j
    · exact hs
  | writeFail i =>
    show Inv size src (match (s.copiers i).phase with | .writing b n pos _ => _ | _ => s)
    split
    · rename_i b n pos how hph
      split
      · have hhold : Holds s i b := by unfold Holds; rw [hph]
        have hdat : (s.copiers i).dst ++ slice (s.heap b) pos (n - pos) ++ (s.copiers i).rest = src i ∧ pos ≤ n ∧ n ≤ (s.heap b).length ∧
            (how = .eof → (s.copiers i).rest = []) := by
          have := hs.data i; unfold Data at this; rw [hph] at this; exact this
        refine ⟨hs.nodup, hs.made, hs.sized, ?_, ?_, ?_⟩
        · intro j c h
          rcases holds_upd h with ⟨_, h⟩ | ⟨hji, h⟩
          · exact hs.held j c h
          · have h : b = c := h
            rw [← h]; exact hs.held i b hhold
        · intro j l c hj hl
          rcases holds_upd hj with ⟨hji, hj⟩ | ⟨hji, hj⟩ <;> rcases holds_upd hl with ⟨hki, hl⟩ | ⟨hki, hl⟩
          · exact hs.alone j l c hj hl
          · have hl : b = c := hl
            rw [hki]; exact hs.alone j i b (by rw [hl]; exact hj) hhold
          · have hj : b = c := hj
            rw [hji]; exact hs.alone i l b hhold (by rw [hj]; exact hl)
          · rw [hji, hki]
        · intro j
          show Data (src j) (upd s.copiers i _ j) s.heap
          by_cases hj : j = i
          · subst hj
            rw [upd_same]
            refine ⟨⟨slice (s.heap b) pos (n - pos) ++ (s.copiers j).rest, ?_⟩, fun h => by cases h⟩
            rw [← List.append_assoc]; exact hdat.1
          · rw [upd_other hj]; exact hs.data j
      · exact hs
    · exact hs
  | put i =>
    show Inv size src (match (s.copiers i).phase with | .leaving b good => _ | _ => s)
    split
    · rename_i b good hph
      have hhold : Holds s i b := by unfold Holds; rw [hph]
      have hput : put size s b = { s with pool := b :: s.pool } := by
        unfold put
        rw [if_neg]
        intro h
        exact h (hs.sized b (hs.held i b hhold).1)
      rw [hput]
      refine ⟨?_, ?_, hs.sized, ?_, ?_, ?_⟩
      · exact List.nodup_cons.2 ⟨(hs.held i b hhold).2, hs.nodup⟩
      · intro c hc
        rcases List.mem_cons.1 hc with h | h
        · rw [h]; exact (hs.held i b hhold).1
        · exact hs.made c h
      · intro j c h
        rcases holds_upd h with ⟨hji, hh⟩ | ⟨hji, hh⟩
        · refine ⟨(hs.held j c hh).1, ?_⟩
          intro hc
          rcases List.mem_cons.1 hc with e | e
          · exact hji (hs.alone j i b (e ▸ hh) hhold)
          · exact (hs.held j c hh).2 e
        · exact hh.elim
      · intro j l c hj hl
        rcases holds_upd hj with ⟨hji, hj⟩ | ⟨hji, hj⟩ <;> rcases holds_upd hl with ⟨hki, hl⟩ | ⟨hki, hl⟩
        · exact hs.alone j l c hj hl
        · exact hl.elim
        · exact hj.elim
        · exact hj.elim
      · intro j
        show Data (src j) (upd s.copiers i _ j) s.heap
        by_cases hj : j = i
        · subst hj
          rw [upd_same]
          have := hs.data j; unfold Data at this; rw [hph] at this; exact this
        · rw [upd_other hj]; exact hs.data j
    · exact hs
  | collect j =>
    refine ⟨hs.nodup.sublist (List.eraseIdx_sublist ..), fun b hb => hs.made b (List.mem_of_mem_eraseIdx hb), hs.sized, ?_, hs.alone, hs.data⟩
    intro i b h
    exact ⟨(hs.held i b h).1, fun hb => (hs.held i b h).2 (List.mem_of_mem_eraseIdx hb)⟩

theorem inv_run {size : Nat} {src : Nat → Bytes} (hpos : 0 < size) (l : List Act) : ∀ {s : St}, Inv size src s → Inv size src (run size s l) := by
  induction l with
  | nil => intro s h; exact h
  | cons a l ih => intro s h; exact ih (inv_step hpos h a)

/-! ### C116 -/

/-- However many copies run at the same time, in whatever order their steps come, whatever their sources and destinations do: what a destination
has received is the beginning of what its own source holds. -/
theorem C116_own {size : Nat} (hpos : 0 < size) (src : Nat → Bytes) (l : List Act) (i : Nat) : received (run size (start src) l) i <+: src i := by
  have h := (inv_run hpos l (inv_start size src)).data i
  unfold received
  unfold Data at h
  split at h
  · rw [h.1]; exact List.nil_prefix
  · exact ⟨_, h⟩
  · exact ⟨_, by rw [← List.append_assoc]; exact h.1⟩
  · exact h.1
  · exact h.1
  · exact h.elim

/-- A copy that ended without an error copied everything. -/
theorem C116_whole {size : Nat} (hpos : 0 < size) (src : Nat → Bytes) (l : List Act) (i : Nat)
    (h : ((run size (start src) l).copiers i).phase = .done true) : received (run size (start src) l) i = src i := by
  have hd := (inv_run hpos l (inv_start size src)).data i
  unfold Data at hd
  rw [h] at hd
  exact hd.2 rfl

/-- No buffer is in use by two copies, none that is in use lies in the pool, and every one in use has the full size. -/
theorem C116_exclusive {size : Nat} (hpos : 0 < size) (src : Nat → Bytes) (l : List Act) :
    (∀ i j b, Holds (run size (start src) l) i b → Holds (run size (start src) l) j b → i = j) ∧
    ∀ i b, Holds (run size (start src) l) i b → b ∉ (run size (start src) l).pool ∧ ((run size (start src) l).heap b).length = size := by
  have h := inv_run hpos l (inv_start size src)
  exact ⟨h.alone, fun i b hb => ⟨(h.held i b hb).2, h.sized b (h.held i b hb).1⟩⟩

/-- No copy panics. -/
theorem C116_total {size : Nat} (hpos : 0 < size) (src : Nat → Bytes) (l : List Act) (i : Nat) :
    ((run size (start src) l).copiers i).phase ≠ .panicked := by
  intro h
  have hd := (inv_run hpos l (inv_start size src)).data i
  unfold Data at hd
  rw [h] at hd
  exact hd

/-- A buffer is used again as it was left: the second copy reads two bytes into a buffer that still holds the bytes of the first, and writes those two only.
(Buffers of four bytes instead of 64 KiB.) -/
example :
    let src : Nat → Bytes := fun i => if i = 0 then [1, 2, 3, 4, 5] else [8, 9]
    let s := run 4 (start src) [.get 0 none, .read 0 9 [] .more, .write 0 3, .write 0 9, .read 0 9 [] .eof, .write 0 1, .put 0,
      .get 1 (some 0), .read 1 9 [] .eof, .write 1 2, .put 1]
    received s 0 = [1, 2, 3, 4, 5] ∧ received s 1 = [8, 9] ∧ (s.copiers 1).phase = .done true ∧ s.heap 0 = [8, 9, 3, 4] ∧ s.pool = [0] := by
  decide

/-- Two copies at once, their steps mixed: each has a buffer of its own. -/
example :
    let src : Nat → Bytes := fun i => if i = 0 then [1, 2, 3] else [8, 9]
    let s := run 4 (start src) [.get 0 none, .read 0 9 [] .eof, .get 1 (some 0), .read 1 9 [7, 7] .eof, .write 0 9, .write 1 9, .put 1, .put 0]
    received s 0 = [1, 2, 3] ∧ received s 1 = [8, 9] ∧ s.heap 1 = [8, 9, 7, 7] ∧ s.pool = [0, 1] := by
  decide

end Verif.Fsutil.BufPool
