import Verif.Common.Bytes
import Verif.Common.Str
/-
C138: what a loss of power leaves of a safe write, /repo/fsutil/safe_write.go 28-36 (`SyncHook`) and 159-223 (`safeOperation`).

`SafeModel.lean` (C18 to C20) has every effect on the disk at once, as a process that dies sees it. Here the volume has a cache: bytes of a file are safe from its `Sync` on until
it is written again, and nothing tells when a name reaches the disk (the code never syncs a directory). After a loss of power every name is what it was at some moment before, each
on its own, and a file that was not synced has any content.
-/
namespace Verif.Fsutil.Power
open Verif

abbrev Path := List Str

/-- A volume: the names of now and of every moment before, the bytes of the files (by inode), which files have bytes that were not synced, and the next free inode. -/
structure Vol where
  names : Path → Option Nat
  past : List (Path → Option Nat)
  data : Nat → Bytes
  dirty : Nat → Bool
  next : Nat

/-- What is at a name. -/
def Vol.content (v : Vol) (q : Path) : Option Bytes := (v.names q).map v.data

/-- What may be found after a loss of power. -/
def Lost (v : Vol) (d : Path → Option Bytes) : Prop := ∀ q, ∃ f ∈ v.names :: v.past, match f q with
  | none => d q = none
  | some i => ∃ b, d q = some b ∧ (v.dirty i = false → b = v.data i)

/-- What hooks and the operation do with the temporary file: write to it, sync it, or (the temporary being a directory, safe_write.go 121-156 `CopyFs`) make a file below it. -/
inductive FAct where
  | write (b : Bytes)
  | sync
  | file (sub : Path) (b : Bytes)

/-- A call that changes names (create, rename, remove). -/
def Vol.setNames (v : Vol) (f : Path → Option Nat) : Vol := { v with names := f, past := v.names :: v.past }

/-- One such step; `i` is the inode of the handle. -/
def FAct.run (temp : Path) (i : Nat) (v : Vol) : FAct → Vol
  | .write b => { v with data := fun j => if j = i then v.data i ++ b else v.data j, dirty := fun j => if j = i then true else v.dirty j }
  | .sync => { v with dirty := fun j => if j = i then false else v.dirty j }
  | .file sub b =>
    { v with data := fun j => if j = v.next then b else v.data j, dirty := fun j => if j = v.next then true else v.dirty j, next := v.next + 1 }.setNames
      (fun q => if q = temp ++ sub then some v.next else v.names q)

/-- A hook or the operation: its steps, and whether it returned nil. -/
abbrev Piece := List FAct × Bool

/-- safe_write.go 34-36 `SyncHook`: `ok` is whether `Sync` succeeds. -/
def syncHook (ok : Bool) : Piece := if ok then ([.sync], true) else ([], false)

/-- The volumes a piece goes through, and the last. -/
def steps (temp : Path) (i : Nat) : List FAct → Vol → List Vol × Vol
  | [], v => ([], v)
  | a :: as, v =>
    let r := steps temp i as (a.run temp i v)
    (a.run temp i v :: r.1, r.2)

/-- safe_write.go 184-210: hooks and operation one after the other, up to the first error. -/
def pieces (temp : Path) (i : Nat) : List Piece → Vol → List Vol × Vol × Bool
  | [], v => ([], v, true)
  | p :: ps, v =>
    let r := steps temp i p.1 v
    if p.2 then
      let r' := pieces temp i ps r.2
      (r.1 ++ r'.1, r'.2.1, r'.2.2)
    else (r.1, r.2, false)

/-- safe_write.go 39-54 `SafeWriteOption` and the arguments of 159-168 `safeOperation`, with what the filesystem answers to `Close`, `Rename` and `RemoveAll`. -/
structure Cfg where
  target : Path
  temp : Path
  optPre : List Piece
  argPre : List Piece
  op : Piece
  argPost : List Piece
  optPost : List Piece
  ignoreCloseErr : Bool
  closeOk : Bool
  renameOk : Bool
  removeOk : Bool

/-- The order of safe_write.go 184-210. -/
def Cfg.all (c : Cfg) : List Piece := c.optPre ++ c.argPre ++ [c.op] ++ c.argPost ++ c.optPost

/-- `policy.Create` or `Mkdir`, safe_write.go 70-73: a new file under a name nothing has. -/
def create (temp : Path) (v : Vol) : Vol :=
  { v with data := fun j => if j = v.next then [] else v.data j, dirty := fun j => if j = v.next then true else v.dirty j, next := v.next + 1 }.setNames
    (fun q => if q = temp then some v.next else v.names q)

/-- safe_write.go 218-221 `Rename`. -/
def rename (temp target : Path) (v : Vol) : Vol :=
  v.setNames (fun q => if target <+: q then v.names (temp ++ q.drop target.length) else if temp <+: q then none else v.names q)

/-- safe_write.go 174-181: `RemoveAll` of the temporary; its error is not told. -/
def remove (temp : Path) (ok : Bool) (v : Vol) : Vol := if ok then v.setNames (fun q => if temp <+: q then none else v.names q) else v

/-- safe_write.go 57-88 `Write`, 91-118 `Copy` and 121-156 `CopyFs` with 159-223 `safeOperation`: every volume from the start to the end, the one at the end, and whether nil is returned. `Close` has no
effect on the volume. -/
def safeWrite (c : Cfg) (v : Vol) : List Vol × Vol × Bool :=
  let v1 := create c.temp v
  let r := pieces c.temp v.next c.all v1
  let seen := v :: v1 :: r.1
  let given := remove c.temp c.removeOk r.2.1
  let placed := rename c.temp c.target r.2.1
  if r.2.2 = false then (seen ++ [given], given, false)
  else if c.closeOk = false ∧ c.ignoreCloseErr = false then (seen ++ [given], given, false)
  else if c.renameOk then (seen ++ [placed], placed, true)
  else (seen ++ [given], given, false)

/-! ### Specification -/

/-- Nothing is waiting to be written, and inodes from `next` on are free. -/
structure Settled (v : Vol) : Prop where
  past : v.past = []
  clean : ∀ i, v.dirty i = false
  free : ∀ q i, v.names q = some i → i < v.next

/-- All that is written to the temporary file, in order. -/
def written (ps : List Piece) : Bytes := (ps.map fun p => (p.1.map fun
  | .write b => b
  | _ => []).flatten).flatten

/-- The temporary is a regular file: nothing is made below it. -/
def Regular (ps : List Piece) : Prop := ∀ p ∈ ps, ∀ a ∈ p.1, ∀ sub b, a ≠ .file sub b

/-- Among the hooks run after writing is `SyncHook`, and those after it do not write. -/
def Syncs (ps : List Piece) : Prop := ∃ before after ok, ps = before ++ syncHook ok :: after ∧ ∀ p ∈ after, ∀ a ∈ p.1, ∀ b, a ≠ .write b

/-! ### Lemmas -/

/-- Nothing but the temporary has changed. -/
structure Before (v0 : Vol) (temp : Path) (v : Vol) : Prop where
  names : ∀ f ∈ v.names :: v.past, ∀ q, ¬ temp <+: q → f q = v0.names q
  data : ∀ j, j < v0.next → v.data j = v0.data j ∧ v.dirty j = false
  temp : v.names temp = some v0.next

theorem before_act {v0 v : Vol} {temp : Path} {a : FAct} (h : Before v0 temp v) (ha : ∀ sub b, a ≠ .file sub b) : Before v0 temp (a.run temp v0.next v) := by
  cases a with
  | write b =>
    refine ⟨h.names, fun j hj => ?_, h.temp⟩
    have hne : j ≠ v0.next := by omega
    simp only [FAct.run, hne, if_false]
    exact h.data j hj
  | sync =>
    refine ⟨h.names, fun j hj => ?_, h.temp⟩
    have hne : j ≠ v0.next := by omega
    simp only [FAct.run, hne, if_false]
    exact h.data j hj
  | file sub b => exact absurd rfl (ha sub b)

theorem before_steps {v0 : Vol} {temp : Path} (as : List FAct) : ∀ {v : Vol}, Before v0 temp v → (∀ a ∈ as, ∀ sub b, a ≠ .file sub b) →
    (∀ w ∈ (steps temp v0.next as v).1, Before v0 temp w) ∧ Before v0 temp (steps temp v0.next as v).2 := by
  induction as with
  | nil => exact fun h _ => ⟨fun w hw => (by cases hw), h⟩
  | cons a as ih =>
    intro v h hr
    have h1 := before_act h (hr a List.mem_cons_self)
    obtain ⟨g1, g2⟩ := ih h1 (fun x hx => hr x (List.mem_cons_of_mem _ hx))
    refine ⟨fun w hw => ?_, g2⟩
    rcases List.mem_cons.1 hw with rfl | hw
    · exact h1
    · exact g1 w hw

theorem before_pieces {v0 : Vol} {temp : Path} (ps : List Piece) : ∀ {v : Vol}, Before v0 temp v → Regular ps →
    (∀ w ∈ (pieces temp v0.next ps v).1, Before v0 temp w) ∧ Before v0 temp (pieces temp v0.next ps v).2.1 := by
  induction ps with
  | nil => exact fun h _ => ⟨fun w hw => (by cases hw), h⟩
  | cons p ps ih =>
    intro v h hr
    obtain ⟨h1, h2⟩ := before_steps p.1 h (hr p List.mem_cons_self)
    unfold pieces
    simp only []
    split
    · obtain ⟨g1, g2⟩ := ih h2 (fun x hx => hr x (List.mem_cons_of_mem _ hx))
      refine ⟨fun w hw => ?_, g2⟩
      rcases List.mem_append.1 hw with hw | hw
      · exact h1 w hw
      · exact g1 w hw
    · exact ⟨h1, h2⟩

theorem steps_data (temp : Path) (i : Nat) (as : List FAct) : ∀ (v : Vol), (∀ a ∈ as, ∀ sub b, a ≠ .file sub b) →
    (steps temp i as v).2.data i = v.data i ++ (as.map fun
      | .write b => b
      | _ => []).flatten := by
  induction as with
  | nil => intro v _; simp [steps]
  | cons a as ih =>
    intro v hr
    have := ih (a.run temp i v) (fun x hx => hr x (List.mem_cons_of_mem _ hx))
    simp only [steps, List.map_cons, List.flatten_cons]
    rw [this]
    cases a with
    | write b => simp [FAct.run]
    | sync => simp [FAct.run]
    | file sub b => exact absurd rfl (hr _ List.mem_cons_self sub b)

theorem pieces_data (temp : Path) (i : Nat) (ps : List Piece) : ∀ (v : Vol), Regular ps → (pieces temp i ps v).2.2 = true →
    (pieces temp i ps v).2.1.data i = v.data i ++ written ps := by
  induction ps with
  | nil => intro v _ _; simp [pieces, written]
  | cons p ps ih =>
    intro v hr hok
    unfold pieces at hok ⊢
    simp only [] at hok ⊢
    split at hok
    · rename_i hp
      rw [if_pos hp]
      have := ih (steps temp i p.1 v).2 (fun x hx => hr x (List.mem_cons_of_mem _ hx)) hok
      simp only [this, steps_data temp i p.1 v (hr p List.mem_cons_self), written, List.map_cons, List.flatten_cons, List.append_assoc]
    · cases hok

theorem steps_clean (temp : Path) (i : Nat) (as : List FAct) : ∀ (v : Vol), v.dirty i = false → (∀ a ∈ as, ∀ sub b, a ≠ .file sub b) → (∀ a ∈ as, ∀ b, a ≠ .write b) →
    (steps temp i as v).2.dirty i = false := by
  induction as with
  | nil => exact fun v h _ _ => h
  | cons a as ih =>
    intro v h hr hw
    refine ih _ ?_ (fun x hx => hr x (List.mem_cons_of_mem _ hx)) (fun x hx => hw x (List.mem_cons_of_mem _ hx))
    cases a with
    | write b => exact absurd rfl (hw _ List.mem_cons_self b)
    | sync => simp [FAct.run]
    | file sub b => exact absurd rfl (hr _ List.mem_cons_self sub b)

theorem pieces_clean (temp : Path) (i : Nat) (ps : List Piece) : ∀ (v : Vol), v.dirty i = false → Regular ps → (∀ p ∈ ps, ∀ a ∈ p.1, ∀ b, a ≠ .write b) →
    (pieces temp i ps v).2.1.dirty i = false := by
  induction ps with
  | nil => exact fun v h _ _ => h
  | cons p ps ih =>
    intro v h hr hw
    have h1 := steps_clean temp i p.1 v h (hr p List.mem_cons_self) (hw p List.mem_cons_self)
    unfold pieces
    simp only []
    split
    · exact ih _ h1 (fun x hx => hr x (List.mem_cons_of_mem _ hx)) (fun x hx => hw x (List.mem_cons_of_mem _ hx))
    · exact h1

theorem pieces_append (temp : Path) (i : Nat) (ps qs : List Piece) : ∀ (v : Vol), (pieces temp i (ps ++ qs) v).2.2 = true →
    (pieces temp i (ps ++ qs) v).2 = (pieces temp i qs (pieces temp i ps v).2.1).2 := by
  induction ps with
  | nil => intro v _; rfl
  | cons p ps ih =>
    intro v hok
    have hl : pieces temp i (p :: ps ++ qs) v = if p.2 then
        ((steps temp i p.1 v).1 ++ (pieces temp i (ps ++ qs) (steps temp i p.1 v).2).1, (pieces temp i (ps ++ qs) (steps temp i p.1 v).2).2)
        else ((steps temp i p.1 v).1, (steps temp i p.1 v).2, false) := rfl
    have hr : pieces temp i (p :: ps) v = if p.2 then
        ((steps temp i p.1 v).1 ++ (pieces temp i ps (steps temp i p.1 v).2).1, (pieces temp i ps (steps temp i p.1 v).2).2)
        else ((steps temp i p.1 v).1, (steps temp i p.1 v).2, false) := rfl
    rw [hl] at hok ⊢
    rw [hr]
    split at hok
    · rename_i hp
      rw [if_pos hp, if_pos hp]
      exact ih _ hok
    · cases hok

theorem pieces_synced (temp : Path) (i : Nat) (ps : List Piece) (v : Vol) (hr : Regular ps) (hs : Syncs ps) (hok : (pieces temp i ps v).2.2 = true) :
    (pieces temp i ps v).2.1.dirty i = false := by
  obtain ⟨before, after, ok, rfl, hw⟩ := hs
  have happ := pieces_append temp i _ _ v hok
  rw [happ] at hok ⊢
  unfold pieces at hok ⊢
  simp only [] at hok ⊢
  cases ok with
  | false => simp [syncHook] at hok
  | true =>
    simp only [syncHook, if_true] at hok ⊢
    exact pieces_clean temp i after _ (by simp [steps, FAct.run]) (fun p hp => hr p (List.mem_append_right _ (List.mem_cons_of_mem _ hp))) hw

theorem syncs_append {ps qs : List Piece} (h : Syncs qs) : Syncs (ps ++ qs) := by
  obtain ⟨b, a, ok, rfl, hw⟩ := h
  exact ⟨ps ++ b, a, ok, by simp, hw⟩

theorem before_lost {v0 v : Vol} {temp q : Path} (hv : Settled v0) (h : Before v0 temp v) (hq : ¬ temp <+: q) {d : Path → Option Bytes} (hd : Lost v d) :
    d q = v0.content q := by
  obtain ⟨f, hf, hm⟩ := hd q
  rw [h.names f hf q hq] at hm
  unfold Vol.content
  cases hn : v0.names q with
  | none => rw [hn] at hm; exact hm
  | some j =>
    rw [hn] at hm
    obtain ⟨b, hb, hc⟩ := hm
    obtain ⟨h1, h2⟩ := h.data j (hv.free q j hn)
    rw [hb, hc h2, h1]; rfl

theorem before_create {v0 : Vol} (hv : Settled v0) (temp : Path) : Before v0 temp (create temp v0) := by
  refine ⟨fun f hf q hq => ?_, fun j hj => ?_, ?_⟩
  · simp only [create, Vol.setNames, hv.past] at hf
    rcases List.mem_cons.1 hf with rfl | hf
    · have : q ≠ temp := fun e => hq (e ▸ List.prefix_refl _)
      simp only [this, if_false]
    · rcases List.mem_cons.1 hf with rfl | hf
      · rfl
      · cases hf
  · have hne : j ≠ v0.next := by omega
    simp only [create, Vol.setNames, hne, if_false]
    exact ⟨trivial, hv.clean j⟩
  · simp [create, Vol.setNames]

theorem lost_remove {v0 v : Vol} {temp q : Path} (hv : Settled v0) (h : Before v0 temp v) (ok : Bool) (hq : ¬ temp <+: q) {d : Path → Option Bytes}
    (hd : Lost (remove temp ok v) d) : d q = v0.content q := by
  cases ok with
  | false => exact before_lost hv h hq hd
  | true =>
    obtain ⟨f, hf, hm⟩ := hd q
    have hfq : f q = v0.names q := by
      simp only [remove, if_true, Vol.setNames] at hf
      rcases List.mem_cons.1 hf with rfl | hf
      · simp only [hq, if_false]
        exact h.names _ List.mem_cons_self q hq
      · exact h.names f hf q hq
    rw [hfq] at hm
    unfold Vol.content
    cases hn : v0.names q with
    | none => rw [hn] at hm; exact hm
    | some j =>
      rw [hn] at hm
      obtain ⟨b, hb, hc⟩ := hm
      obtain ⟨h1, h2⟩ := h.data j (hv.free q j hn)
      rw [hb, hc h2]
      show some (v.data j) = _
      rw [h1]; rfl

/-! ### C138 -/

/-- **C138**, the part that holds: a safe write of a file, with `SyncHook` among the hooks run after writing and no hook that writes after it. Whenever power is lost, the target is what it was or
all that was written, and other names are what they were. Missing: the same for `CopyFs`, and that a write which returned nil is not lost, see the counterexamples. -/
theorem C138_synced_partial (c : Cfg) (v : Vol) (hv : Settled v) (hnest : ¬ c.temp <+: c.target) (hreg : Regular c.all) (hs : Syncs (c.argPost ++ c.optPost))
    (w : Vol) (hw : w ∈ (safeWrite c v).1) (d : Path → Option Bytes) (hd : Lost w d) :
    (d c.target = v.content c.target ∨ d c.target = some (written c.all)) ∧ ∀ q, ¬ c.temp <+: q → ¬ c.target <+: q → d q = v.content q := by
  have hc := before_create hv c.temp
  obtain ⟨p1, p2⟩ := before_pieces c.all hc hreg
  -- the volumes before the last, and those of a write that fails
  have same : (∀ q, ¬ c.temp <+: q → d q = v.content q) → (d c.target = v.content c.target ∨ d c.target = some (written c.all)) ∧
      ∀ q, ¬ c.temp <+: q → ¬ c.target <+: q → d q = v.content q := fun h => ⟨.inl (h _ hnest), fun q hq _ => h q hq⟩
  have early : w ∈ v :: create c.temp v :: (pieces c.temp v.next c.all (create c.temp v)).1 → ∀ q, ¬ c.temp <+: q → d q = v.content q := by
    intro hw q hq
    rcases List.mem_cons.1 hw with rfl | hw
    · obtain ⟨f, hf, hm⟩ := hd q
      rw [hv.past] at hf
      rcases List.mem_cons.1 hf with rfl | hf
      · unfold Vol.content
        cases hn : w.names q with
        | none => rw [hn] at hm; exact hm
        | some j =>
          rw [hn] at hm
          obtain ⟨b, hb, hcl⟩ := hm
          rw [hb, hcl (hv.clean j)]; rfl
      · cases hf
    · rcases List.mem_cons.1 hw with rfl | hw
      · exact before_lost hv hc hq hd
      · exact before_lost hv (p1 w hw) hq hd
  have late : w ∈ (v :: create c.temp v :: (pieces c.temp v.next c.all (create c.temp v)).1) ++ [remove c.temp c.removeOk (pieces c.temp v.next c.all (create c.temp v)).2.1] →
      (d c.target = v.content c.target ∨ d c.target = some (written c.all)) ∧ ∀ q, ¬ c.temp <+: q → ¬ c.target <+: q → d q = v.content q := by
    intro hw
    rcases List.mem_append.1 hw with hw | hw
    · exact same (early hw)
    · rcases List.mem_cons.1 hw with rfl | hw
      · exact same (fun q hq => lost_remove hv p2 c.removeOk hq hd)
      · cases hw
  unfold safeWrite at hw
  simp only [] at hw
  split at hw
  · exact late hw
  · rename_i hok
    have hok : (pieces c.temp v.next c.all (create c.temp v)).2.2 = true := by simpa using hok
    split at hw
    · exact late hw
    · split at hw
      · rcases List.mem_append.1 hw with hw | hw
        · exact same (early hw)
        · rcases List.mem_cons.1 hw with rfl | hw
          · -- published
            have hdata : (pieces c.temp v.next c.all (create c.temp v)).2.1.data v.next = written c.all := by
              rw [pieces_data c.temp v.next c.all _ hreg hok]
              simp [create, Vol.setNames]
            have hclean : (pieces c.temp v.next c.all (create c.temp v)).2.1.dirty v.next = false := by
              refine pieces_synced c.temp v.next c.all _ hreg ?_ hok
              unfold Cfg.all
              rw [List.append_assoc]
              exact syncs_append hs
            generalize (pieces c.temp v.next c.all (create c.temp v)).2.1 = u at p2 hdata hclean hd
            have old : ∀ q, ¬ c.temp <+: q → (match v.names q with
                | none => d q = none
                | some i => ∃ b, d q = some b ∧ (u.dirty i = false → b = u.data i)) → d q = v.content q := by
              intro q hq hm
              unfold Vol.content
              cases hn : v.names q with
              | none => rw [hn] at hm; exact hm
              | some j =>
                rw [hn] at hm
                obtain ⟨b, hb, hcl⟩ := hm
                obtain ⟨h1, h2⟩ := p2.data j (hv.free q j hn)
                rw [hb, hcl h2, h1]; rfl
            constructor
            · obtain ⟨f, hf, hm⟩ := hd c.target
              simp only [rename, Vol.setNames] at hf
              rcases List.mem_cons.1 hf with rfl | hf
              · right
                simp only [List.prefix_refl, if_true, List.drop_length, List.append_nil, p2.temp] at hm
                obtain ⟨b, hb, hcl⟩ := hm
                rw [hb, hcl hclean]
                exact congrArg some hdata
              · left
                rw [p2.names f hf _ hnest] at hm
                exact old _ hnest hm
            · intro q hq hq'
              obtain ⟨f, hf, hm⟩ := hd q
              simp only [rename, Vol.setNames] at hf
              rcases List.mem_cons.1 hf with rfl | hf
              · simp only [hq, hq', if_false] at hm
                rw [p2.names _ List.mem_cons_self q hq] at hm
                exact old q hq hm
              · rw [p2.names f hf q hq] at hm
                exact old q hq hm
          · cases hw
      · exact late hw

/-! ### Counterexamples and examples -/

/-- Found after a loss of power: the names of one moment, and nothing of the files that were not synced. -/
def found (w : Vol) (f : Path → Option Nat) : Path → Option Bytes := fun q => (f q).map fun i => if w.dirty i then [] else w.data i

theorem lost_found {w : Vol} {f : Path → Option Nat} (hf : f ∈ w.names :: w.past) : Lost w (found w f) := by
  intro q
  refine ⟨f, hf, ?_⟩
  unfold found
  cases f q with
  | none => rfl
  | some i => exact ⟨_, rfl, fun h => by simp [h]⟩

/-- A file "t" holding the byte 1. -/
def vol0 : Vol := ⟨fun q => if q = [['t']] then some 0 else none, [], fun j => if j = 0 then [1] else [], fun _ => false, 1⟩

theorem settled0 : Settled vol0 := by
  refine ⟨rfl, fun _ => rfl, fun q i h => ?_⟩
  simp only [vol0] at h ⊢
  split at h
  · cases h; decide
  · cases h

/-- A safe write of the bytes 2, 3 to "t", with these hooks after it. -/
def cfg0 (post : List Piece) : Cfg := ⟨[['t']], [['x']], [], [], ([.write [2], .write [3]], true), [], post, false, true, true, true⟩

theorem last_mem (c : Cfg) (v : Vol) : (safeWrite c v).2.1 ∈ (safeWrite c v).1 := by
  unfold safeWrite
  simp only []
  split
  · simp
  · split
    · simp
    · split <;> simp

/-- The hypotheses of `C138_synced_partial` are met, and the write takes place. -/
example : Settled vol0 ∧ ¬ (cfg0 [syncHook true]).temp <+: (cfg0 [syncHook true]).target ∧ Regular (cfg0 [syncHook true]).all ∧ Syncs ((cfg0 [syncHook true]).argPost ++ (cfg0 [syncHook true]).optPost) ∧
    (safeWrite (cfg0 [syncHook true]) vol0).2.2 = true ∧ (safeWrite (cfg0 [syncHook true]) vol0).2.1.content [['t']] = some [2, 3] := by
  refine ⟨settled0, by decide, ?_, ⟨[], [], true, rfl, fun p hp => (by cases hp)⟩, rfl, by decide +kernel⟩
  intro p hp a ha sub b
  simp [Cfg.all, cfg0, syncHook] at hp
  rcases hp with rfl | rfl
  · simp at ha
    rcases ha with rfl | rfl <;> simp
  · simp at ha
    subst ha
    simp

/-- Without the hook a write that returned nil can leave neither the old nor the new bytes. What `FsSink.Commit` (resumable_fs.go 282-310) and the copy-up of the overlay (copyup.go 121-164) do is the same:
they never call `Sync`. -/
theorem C138_counterexample_unsynced : (safeWrite (cfg0 []) vol0).2.2 = true ∧ ∃ w ∈ (safeWrite (cfg0 []) vol0).1, ∃ d, Lost w d ∧ vol0.content [['t']] = some [1] ∧
    written (cfg0 []).all = [2, 3] ∧ d [['t']] = some [] :=
  ⟨rfl, _, last_mem _ _, _, lost_found List.mem_cons_self, rfl, rfl, by decide +kernel⟩

/-- With the hook, a write that returned nil can still be gone after a loss of power, the old bytes being back: the directory is not synced. -/
theorem C138_counterexample_returned : (safeWrite (cfg0 [syncHook true]) vol0).2.2 = true ∧ ∃ d, Lost (safeWrite (cfg0 [syncHook true]) vol0).2.1 d ∧ d [['t']] = some [1] :=
  ⟨rfl, _, lost_found (List.mem_cons_of_mem _ List.mem_cons_self), by decide +kernel⟩

/-- `CopyFs` of a directory with one file "f", holding 2, to "n". -/
def cfg1 : Cfg := ⟨[['n']], [['x']], [], [], ([.file [['f']] [2]], true), [], [syncHook true], false, true, true, true⟩

/-- `SyncHook` with `CopyFs` syncs the new directory and none of the files in it: after a write that returned nil the directory can be there with an empty file. -/
theorem C138_counterexample_copyfs : (safeWrite cfg1 vol0).2.2 = true ∧ (safeWrite cfg1 vol0).2.1.content [['n'], ['f']] = some [2] ∧
    ∃ d, Lost (safeWrite cfg1 vol0).2.1 d ∧ d [['n']] = some [] ∧ d [['n'], ['f']] = some [] :=
  ⟨rfl, by decide +kernel, _, lost_found List.mem_cons_self, by decide +kernel, by decide +kernel⟩

end Verif.Fsutil.Power
