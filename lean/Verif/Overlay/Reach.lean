import Verif.Overlay.RenameProps
import Verif.Overlay.WriteProps
/-
What every history of an overlay keeps: the content of the top is a tree (C72), and, as long as no rename is cut short, every opaque mark is on a directory
the top holds (C73). With them the other properties of the overlay hold at every point of such a history without further assumptions about its state.
-/
namespace Verif.Overlay.Stack
open Verif.Path Verif.Prog

/-! ### what is kept -/

/-- A tree of finitely many entries: the root is a directory, and so is what is above an entry. -/
structure TreeOk (t : Tree) : Prop where
  root : ∃ m, t [] = some (.dir m)
  closed : ∀ c d, t (c :: d) ≠ none → ∃ m, t d = some (.dir m)
  finite : ∃ l : List Name, ∀ n, t n ≠ none → n ∈ l

/-- The layer lists the directories of every content it can have completely and without repetition, in some order. -/
def Layer.Enumerates (L : Layer) : Prop :=
  ∀ t, TreeOk t → ∀ d m, t d = some (.dir m) → (L.enum t d).Nodup ∧ ∀ c, c ∈ L.enum t d ↔ t (c :: d) ≠ none

/-- The layers' contents are trees; the top lists its directories. -/
structure Sound (S : Sys) : Prop where
  top : TreeOk S.top
  enum : (S.layer 0).Enumerates
  lower : ∀ j, 0 < j → j ≤ S.last → (S.layer j).IsTree

theorem Sound.isTree {S : Sys} (h : Sound S) : (S.layer 0).IsTree := ⟨h.top.root, h.top.closed⟩

theorem Sound.trees {S : Sys} (h : Sound S) : S.Trees := by
  intro j hj
  by_cases e : j = 0
  · rw [e]; exact h.isTree
  · exact h.lower j (by omega) hj

theorem Sound.lists {S : Sys} (h : Sound S) : (S.layer 0).Lists := fun d m hd => h.enum S.top h.top d m hd

/-- Every opaque mark of the top is on a directory the top holds. -/
def Held (S : Sys) : Prop := ∀ a ∈ (S.mask 0).op, ∃ m, S.top a = some (.dir m)

theorem Held.ne_none {S : Sys} (h : Held S) {a : Name} (ha : a ∈ (S.mask 0).op) : S.top a ≠ none := by
  obtain ⟨m, hm⟩ := h a ha
  rw [hm]; simp

/-- A change of a tree that leaves its directories directories. -/
structure Step (t t' : Tree) : Prop where
  ok : TreeOk t'
  dirs : ∀ a m, t a = some (.dir m) → ∃ m', t' a = some (.dir m')

/-- A condition on states that changes of the top's tree, removals of opaque marks, changes of whiteouts and staging keep. -/
structure Closed (J : Sys → Prop) : Prop where
  sound : ∀ S, J S → Sound S
  tree : ∀ S f, J S → Step S.top (f S.top) → J (onTree 0 f S)
  mask : ∀ S f, J S → (∀ a ∈ (f (S.mask 0)).op, a ∈ (S.mask 0).op) → J (onMask 0 f S)
  stage : ∀ S k v, J S → J (onStage k v S)
  temp : ∀ S k, J S → J { S with temp := k }

theorem onTree_top (f : Tree → Tree) (S : Sys) : (onTree 0 f S).top = f S.top := rfl
theorem onTree_mask (f : Tree → Tree) (S : Sys) : (onTree 0 f S).mask = S.mask := rfl
theorem onMask_top (f : Mask → Mask) (S : Sys) : (onMask 0 f S).top = S.top := rfl
theorem onMask_mask (f : Mask → Mask) (S : Sys) : (onMask 0 f S).mask 0 = f (S.mask 0) := rfl

theorem Sound.onTree {S : Sys} (h : Sound S) {f : Tree → Tree} (hf : TreeOk (f S.top)) : Sound (onTree 0 f S) where
  top := hf
  enum := h.enum
  lower := fun j hj hl => by
    have : (Stack.onTree 0 f S).layer j = S.layer j := if_neg (by omega)
    rw [this]; exact h.lower j hj hl

theorem Sound.onMask {S : Sys} (h : Sound S) (f : Mask → Mask) : Sound (onMask 0 f S) := ⟨h.top, h.enum, h.lower⟩

theorem closed_sound : Closed Sound where
  sound := fun _ h => h
  tree := fun _ _ h hf => h.onTree hf.ok
  mask := fun _ f h _ => h.onMask f
  stage := fun _ _ _ h => ⟨h.top, h.enum, h.lower⟩
  temp := fun _ _ h => ⟨h.top, h.enum, h.lower⟩

/-- The state between calls. -/
structure Good (S : Sys) : Prop where
  sound : Sound S
  held : Held S

theorem closed_good : Closed Good where
  sound := fun _ h => h.sound
  tree := fun S f h hf => ⟨h.sound.onTree hf.ok, fun a ha => by
    obtain ⟨m, hm⟩ := h.held a ha
    exact hf.dirs a m hm⟩
  mask := fun S f h hf => ⟨h.sound.onMask f, fun a ha => h.held a (hf a ha)⟩
  stage := fun _ _ _ h => ⟨⟨h.sound.top, h.sound.enum, h.sound.lower⟩, h.held⟩
  temp := fun _ _ h => ⟨⟨h.sound.top, h.sound.enum, h.sound.lower⟩, h.held⟩

/-! ### changes of a tree -/

theorem cons_ne_self (c : Str) (d : Name) : c :: d ≠ d := fun e => by have := congrArg List.length e; simp at this

theorem finite_set {t : Tree} (h : TreeOk t) (r : Name) (v : Option Node) : ∃ l : List Name, ∀ n, setTree t r v n ≠ none → n ∈ l := by
  obtain ⟨l, hl⟩ := h.finite
  refine ⟨r :: l, fun n hn => ?_⟩
  by_cases e : n = r
  · rw [e]; exact List.mem_cons_self ..
  · rw [setTree_ne e] at hn
    exact List.mem_cons_of_mem _ (hl n hn)

/-- Replacing what is not a directory (or nothing), beneath a directory. -/
theorem step_set {t : Tree} (h : TreeOk t) {r : Name} (hr : ∀ m, t r ≠ some (.dir m)) (hp : ∃ m, t r.tail = some (.dir m)) (v : Option Node) :
    Step t (setTree t r v) where
  ok :=
    { root := by
        obtain ⟨m, hm⟩ := h.root
        exact ⟨m, by rw [setTree_ne (fun e : [] = r => hr m (e ▸ hm))]; exact hm⟩
      closed := fun c d hc => by
        by_cases e : d = r
        · exfalso
          rw [e] at hc
          rw [setTree_ne (cons_ne_self c r)] at hc
          obtain ⟨m, hm⟩ := h.closed c r hc
          exact hr m hm
        · rw [setTree_ne e]
          by_cases e' : c :: d = r
          · rw [← e'] at hp; exact hp
          · rw [setTree_ne e'] at hc; exact h.closed c d hc
      finite := finite_set h r v }
  dirs := fun a m ha => ⟨m, by rw [setTree_ne (fun e : a = r => hr m (e ▸ ha))]; exact ha⟩

/-- Changing the mode of a directory. -/
theorem step_dir {t : Tree} (h : TreeOk t) {r : Name} {m : Nat} (hr : t r = some (.dir m)) (m' : Nat) : Step t (setTree t r (some (.dir m'))) := by
  have dirs : ∀ a m, t a = some (.dir m) → ∃ m'', setTree t r (some (.dir m')) a = some (.dir m'') := fun a k ha => by
    by_cases e : a = r
    · exact ⟨m', by rw [e, setTree_self]⟩
    · exact ⟨k, by rw [setTree_ne e]; exact ha⟩
  refine ⟨⟨?_, fun c d hc => ?_, finite_set h r _⟩, dirs⟩
  · obtain ⟨k, hk⟩ := h.root
    exact dirs [] k hk
  · have : t (c :: d) ≠ none := by
      by_cases e : c :: d = r
      · rw [e, hr]; simp
      · rwa [setTree_ne e] at hc
    obtain ⟨k, hk⟩ := h.closed c d this
    exact dirs d k hk

/-- Replacing an entry by one that is a directory if the entry was. -/
theorem step_map {t : Tree} (h : TreeOk t) {r : Name} {nd nd' : Node} (hr : t r = some nd) (hk : nd'.isDir = nd.isDir) : Step t (setTree t r (some nd')) := by
  cases nd with
  | dir m =>
    cases nd' with
    | dir m' => exact step_dir h hr m'
    | _ => cases hk
  | _ =>
    refine step_set h (fun m hm => by rw [hr] at hm; cases hm) ?_ _
    cases r with
    | nil => exact h.root
    | cons c d => exact h.closed c d (by rw [hr]; simp)

/-- Taking away an entry nothing is beneath. -/
theorem treeOk_remove {t : Tree} (h : TreeOk t) {r : Name} (hr : r ≠ []) (hc : ∀ c, t (c :: r) = none) : TreeOk (setTree t r none) where
  root := by rw [setTree_ne (Ne.symm hr)]; exact h.root
  closed := fun c d hcd => by
    have hne : d ≠ r := by
      rintro rfl
      rw [setTree_ne (cons_ne_self c d)] at hcd
      exact hcd (hc c)
    have : t (c :: d) ≠ none := by
      by_cases e : c :: d = r
      · rw [e, setTree_self] at hcd; exact absurd rfl hcd
      · rwa [setTree_ne e] at hcd
    rw [setTree_ne hne]
    exact h.closed c d this
  finite := finite_set h r none

theorem anyUp_cons {f : Name → Bool} {c : Str} {d : Name} (h : anyUp f d = true) : anyUp f (c :: d) = true := by
  simp only [anyUp, h, Bool.or_true]

theorem dropUnder_out {t : Tree} {r m : Name} {f : Name → Bool} (h : ¬ r <:+ m) : dropUnder t r f m = t m := if_neg fun h' => h h'.1

theorem dropUnder_ne {t : Tree} {r m : Name} {f : Name → Bool} (h : dropUnder t r f m ≠ none) : t m ≠ none := by
  unfold dropUnder at h
  split at h
  · exact absurd rfl h
  · exact h

theorem anyUp_under {r m : Name} {f : Name → Bool} (h : anyUp (fun a => decide (r <:+ a) && f a) m = true) : r <:+ m := by
  induction m with
  | nil =>
    simp only [anyUp, Bool.and_eq_true, decide_eq_true_eq] at h
    exact h.1
  | cons c d ih =>
    simp only [anyUp, Bool.or_eq_true, Bool.and_eq_true, decide_eq_true_eq] at h
    rcases h with h | h
    · exact h.1
    · exact (ih h).trans (List.suffix_cons c d)

theorem treeOk_drop {t : Tree} (h : TreeOk t) {r : Name} (hr : r ≠ []) (f : Name → Bool) : TreeOk (dropUnder t r f) where
  root := by rw [dropUnder_out (fun h => hr (List.suffix_nil.1 h))]; exact h.root
  closed := fun c d hcd => by
    obtain ⟨m, hm⟩ := h.closed c d (dropUnder_ne hcd)
    refine ⟨m, ?_⟩
    unfold dropUnder
    rw [if_neg]
    · exact hm
    · rintro ⟨h1, h2⟩
      apply hcd
      unfold dropUnder
      exact if_pos ⟨h1.trans (List.suffix_cons c d), anyUp_cons h2⟩
  finite := by
    obtain ⟨l, hl⟩ := h.finite
    exact ⟨l, fun n hn => hl n (dropUnder_ne hn)⟩

theorem treeOk_move {t : Tree} (h : TreeOk t) {q r : Name} (h1 : ¬ q <:+ r) (hr : r ≠ []) (hp : ∃ m, t r.tail = some (.dir m)) :
    TreeOk (moveTree t q r) where
  root := by
    rw [moveTree_out (fun h => hr (List.suffix_nil.1 h)) (fun h => h1 (by rw [List.suffix_nil.1 h]; exact List.nil_suffix))]
    exact h.root
  closed := fun c d hcd => by
    by_cases hn : r <:+ c :: d
    · obtain ⟨x, hx⟩ := hn
      cases x with
      | nil =>
        rw [List.nil_append] at hx
        rw [hx] at hp
        rw [moveTree_out]
        · exact hp
        · rw [hx]; intro h'
          have := h'.length_le
          simp at this; omega
        · intro h'
          exact h1 (by rw [hx]; exact h'.trans (List.suffix_cons c d))
      | cons c' x =>
        rw [List.cons_append] at hx
        cases hx
        rw [← List.cons_append, moveTree_new] at hcd
        rw [moveTree_new]
        exact h.closed _ (x ++ q) hcd
    · by_cases ho : q <:+ c :: d
      · rw [moveTree_old hn ho] at hcd; exact absurd rfl hcd
      · rw [moveTree_out hn ho] at hcd
        rw [moveTree_out (fun h' => hn (h'.trans (List.suffix_cons c d))) (fun h' => ho (h'.trans (List.suffix_cons c d)))]
        exact h.closed c d hcd
  finite := by
    obtain ⟨l, hl⟩ := h.finite
    refine ⟨l.map (rebase q r) ++ l, fun n hn => List.mem_append.2 ?_⟩
    by_cases hn' : r <:+ n
    · left
      obtain ⟨x, rfl⟩ := hn'
      rw [moveTree_new] at hn
      refine List.mem_map.2 ⟨x ++ q, hl _ hn, ?_⟩
      unfold rebase
      rw [take_append_sub]
    · right
      by_cases ho : q <:+ n
      · rw [moveTree_old hn' ho] at hn; exact absurd rfl hn
      · rw [moveTree_out hn' ho] at hn; exact hl n hn

/-! ### names a layer acts on -/

theorem realDir_dir {L : Layer} (hr : ∃ m, L.tree [] = some (.dir m)) : ∀ {n q : Name}, L.realDir n = .ok q → ∃ m, L.tree q = some (.dir m) := by
  intro n
  induction n with
  | nil => intro q h; cases h; exact hr
  | cons c d ih =>
    intro q h
    simp only [Layer.realDir] at h
    cases hd : L.realDir d with
    | error e => rw [hd] at h; cases h
    | ok r =>
      rw [hd] at h
      simp only at h
      cases ht : L.tree (c :: r) with
      | none => rw [ht] at h; cases h
      | some nd =>
        rw [ht] at h
        cases nd with
        | dir m => cases h; exact ⟨m, ht⟩
        | link t =>
          simp only [Layer.jump] at h
          split at h
          · cases h
          · split at h
            · rename_i m hm; cases h; exact ⟨m, hm⟩
            · cases h
            · cases h
        | _ => cases h

/-- What is above the entry a layer acts on is a directory. -/
theorem entry_parent {L : Layer} (hr : ∃ m, L.tree [] = some (.dir m)) {n r : Name} (h : L.entry n = .ok r) : ∃ m, L.tree r.tail = some (.dir m) := by
  cases n with
  | nil => cases h; exact hr
  | cons c d =>
    simp only [Layer.entry] at h
    cases hd : L.realDir d with
    | error e => rw [hd] at h; cases h
    | ok q => rw [hd] at h; cases h; exact realDir_dir hr hd

/-! ### operations that need nothing but a closed condition -/

/-- An operation that keeps a condition, at its crash points and at its end. -/
def Inv (J : Sys → Prop) {α : Type} (m : Op α) : Prop := Holds J J m (fun _ => J)

variable {J : Sys → Prop}

theorem Inv.pure {α : Type} (a : α) : Inv J (Pure.pure a : Op α) := Holds.pure fun _ h => h
theorem Inv.fail {α : Type} (e : Errno) : Inv J (Prog.fail e : Op α) := Holds.fail fun _ h => h
theorem Inv.bind {α β : Type} {m : Op α} {f : α → Op β} (hm : Inv J m) (hf : ∀ a, Inv J (f a)) : Inv J (m >>= f) :=
  Holds.bind (fun _ => J) hm hf (fun _ _ h => h)
theorem Inv.attempt {α : Type} {m : Op α} (hm : Inv J m) : Inv J (Prog.attempt m) := Holds.attempt hm
theorem Inv.ite {α : Type} {c : Prop} [Decidable c] {m n : Op α} (hm : Inv J m) (hn : Inv J n) : Inv J (if c then m else n) := by
  split <;> assumption

/-- Run from a known state. -/
def InvAt (J : Sys → Prop) (S : Sys) {α : Type} (m : Op α) : Prop := Holds J (fun s => s = S) m (fun _ => J)

theorem Inv.at {α : Type} {m : Op α} (h : Inv J m) {S : Sys} (hS : J S) : InvAt J S m :=
  h.weaken (fun s hs => by rw [hs]; exact hS) (fun _ h => h) (fun _ _ h => h)

theorem inv_of_at {α : Type} {m : Op α} (h : ∀ S, J S → InvAt J S m) : Inv J m := Holds.fix h

theorem inv_get {α : Type} {f : Sys → Op α} (h : ∀ S, J S → InvAt J S (f S)) : Inv J (Prog.get >>= f) :=
  Holds.fix fun S hS => holds_get_fix (h S hS)

theorem invAt_modify {S : Sys} {f : Sys → Sys} (h : J (f S)) : InvAt J S (Prog.modify f : Op Unit) :=
  Holds.modify (fun s hs => by rw [hs]; exact h) (fun s hs => by rw [hs]; exact h)

theorem invAt_bind {α β : Type} {S : Sys} {m : Op α} {f : α → Op β} (hm : InvAt J S m) (hf : ∀ a, Inv J (f a)) : InvAt J S (m >>= f) :=
  Holds.bind (fun _ => J) hm hf (fun _ _ h => h)

section
variable (hJ : Closed J)
include hJ

theorem invAt_set {S : Sys} (h : J S) {r : Name} (hr : ∀ m, S.top r ≠ some (.dir m)) (hp : ∃ m, S.top r.tail = some (.dir m)) (v : Option Node) :
    InvAt J S (Prog.modify (onTree 0 (fun t => setTree t r v)) : Op Unit) :=
  invAt_modify (hJ.tree S _ h (step_set (hJ.sound S h).top hr hp v))

theorem inv_fsMkdir (n : Name) (perm : Nat) : Inv J (fsMkdir 0 n perm) := by
  refine inv_get fun S hS => ?_
  cases he : (S.layer 0).entry n with
  | error e => exact (Inv.fail e).at hS
  | ok r =>
    simp only
    cases ht : (S.layer 0).tree r with
    | some nd => exact (Inv.fail _).at hS
    | none =>
      exact invAt_set hJ hS (fun m hm => by unfold Sys.top at hm; rw [ht] at hm; cases hm) (entry_parent (hJ.sound S hS).top.root he) _

theorem inv_fsSymlink (t : Str) (n : Name) : Inv J (fsSymlink 0 t n) := by
  refine inv_get fun S hS => ?_
  cases he : (S.layer 0).entry n with
  | error e => exact (Inv.fail e).at hS
  | ok r =>
    simp only
    cases ht : (S.layer 0).tree r with
    | some nd => exact (Inv.fail _).at hS
    | none =>
      exact invAt_set hJ hS (fun m hm => by unfold Sys.top at hm; rw [ht] at hm; cases hm) (entry_parent (hJ.sound S hS).top.root he) _

theorem inv_fsLink (a b : Name) : Inv J (fsLink 0 a b) := by
  refine inv_get fun S hS => ?_
  cases ha : (S.layer 0).entry a with
  | error e => exact (Inv.fail e).at hS
  | ok q =>
    cases hb : (S.layer 0).entry b with
    | error e => exact (Inv.fail e).at hS
    | ok r =>
      simp only
      cases hq : (S.layer 0).tree q with
      | none => exact (Inv.fail _).at hS
      | some nd =>
        cases ht : (S.layer 0).tree r with
        | some nd => exact (Inv.fail _).at hS
        | none =>
          refine Holds.ite (fun _ => (Inv.fail _).at hS) (fun _ => ?_)
          exact invAt_set hJ hS (fun m hm => by unfold Sys.top at hm; rw [ht] at hm; cases hm) (entry_parent (hJ.sound S hS).top.root hb) _

theorem inv_fsChmod (n : Name) (k : Nat) : Inv J (fsChmod 0 n k) := by
  refine inv_get fun S hS => ?_
  cases he : (S.layer 0).target n with
  | error e => exact (Inv.fail e).at hS
  | ok r =>
    simp only
    cases ht : (S.layer 0).tree r with
    | none => exact (Inv.fail _).at hS
    | some nd =>
      refine invAt_modify (hJ.tree S _ hS (step_map (hJ.sound S hS).top (nd := nd) ht ?_))
      cases nd <;> rfl

theorem inv_fsOpen (n : Name) (c e t : Bool) (perm : Nat) : Inv J (fsOpen 0 n c e t perm) := by
  refine inv_get fun S hS => ?_
  generalize (if c && e then (S.layer 0).entry n else (S.layer 0).target n) = x
  cases x with
  | error e => exact (Inv.fail e).at hS
  | ok r =>
    simp only
    cases ht : (S.layer 0).tree r with
    | none =>
      refine Holds.ite (fun h => ?_) (fun _ => (Inv.fail _).at hS)
      refine invAt_bind (invAt_set hJ hS (fun m hm => by unfold Sys.top at hm; rw [ht] at hm; cases hm) ?_ _) (fun _ => Inv.pure _)
      have h3 := h.2.2
      unfold Sys.top
      cases hx : (S.layer 0).tree r.tail with
      | none => rw [hx] at h3; cases h3
      | some nd =>
        rw [hx] at h3
        cases nd with
        | dir m => exact ⟨m, rfl⟩
        | _ => cases h3
    | some nd =>
      cases nd with
      | file m data =>
        refine Holds.ite (fun _ => (Inv.fail _).at hS) (fun _ => Holds.ite (fun _ => ?_) (fun _ => (Inv.pure _).at hS))
        exact invAt_bind (invAt_modify (hJ.tree S _ hS (step_map (hJ.sound S hS).top (nd := .file m data) ht rfl))) (fun _ => Inv.pure _)
      | _ => exact (Inv.fail _).at hS

theorem inv_fsPublish (k : Nat) (n : Name) : Inv J (fsPublish 0 k n) := by
  refine inv_get fun S hS => ?_
  cases he : (S.layer 0).entry n with
  | error e => exact (Inv.fail e).at hS
  | ok r =>
    cases hk : S.stage k with
    | none => exact (Inv.fail _).at hS
    | some nd =>
      simp only
      have go : (∀ m, S.top r ≠ some (.dir m)) → InvAt J S (Prog.modify (fun S => onTree 0 (fun t => setTree t r (some nd)) (onStage k none S)) : Op Unit) :=
        fun hr => invAt_modify (hJ.tree _ _ (hJ.stage S k none hS) (step_set (hJ.sound S hS).top hr (entry_parent (hJ.sound S hS).top.root he) _))
      cases ht : (S.layer 0).tree r with
      | none => exact go fun m hm => by unfold Sys.top at hm; rw [ht] at hm; cases hm
      | some x =>
        cases x with
        | dir m => exact (Inv.fail _).at hS
        | _ => exact go fun m hm => by unfold Sys.top at hm; rw [ht] at hm; cases hm

theorem inv_mask {f : Mask → Mask} (hf : ∀ M : Mask, ∀ a ∈ (f M).op, a ∈ M.op) : Inv J (Prog.modify (onMask 0 f) : Op Unit) :=
  Holds.modify (fun S h => hJ.mask S f h (hf _)) (fun S h => hJ.mask S f h (hf _))

theorem inv_setWhiteout (n : Name) : Inv J (setWhiteout n) := inv_mask hJ fun _ _ h => (List.mem_filter.1 h).1
theorem inv_clearWhiteout (n : Name) : Inv J (clearWhiteout n) := inv_mask hJ fun _ _ h => h
theorem inv_clearOpaque (n : Name) : Inv J (clearOpaque n) := inv_mask hJ fun _ _ h => (List.mem_filter.1 h).1

theorem inv_unmask (n : Name) : Inv J (unmask n) :=
  inv_get fun _ hS => Holds.ite (fun _ => (inv_clearWhiteout hJ n).at hS) (fun _ => (Inv.pure _).at hS)

theorem inv_unopaque (n : Name) : Inv J (unopaque n) :=
  inv_get fun _ hS => Holds.ite (fun _ => (inv_clearOpaque hJ n).at hS) (fun _ => (Inv.pure _).at hS)

omit hJ in
theorem inv_forNames {f : Name → Op Unit} : ∀ {l : List Name}, (∀ n ∈ l, Inv J (f n)) → Inv J (forNames f l)
  | [], _ => Inv.pure _
  | n :: _, h => (h n (List.mem_cons_self ..)).bind fun _ => inv_forNames fun m hm => h m (List.mem_cons_of_mem _ hm)

theorem inv_clearSubtree (n : Name) : Inv J (clearSubtree n) :=
  inv_get fun _ hS => ((inv_forNames fun m _ => inv_unmask hJ m).bind fun _ => inv_forNames fun m _ => inv_unopaque hJ m).at hS

theorem inv_copyAttrs (n : Name) (nd : Node) : Inv J (copyAttrs n nd) := (inv_fsChmod hJ _ _).attempt.bind fun _ => Inv.pure _

theorem inv_materializeOne (j : Nat) (n : Name) : Inv J (materializeOne j n) := by
  refine inv_get fun S hS => ?_
  cases (S.layer j).stat n with
  | ok nd => exact ((inv_fsMkdir hJ _ _).bind fun _ => inv_copyAttrs hJ _ _).at hS
  | error e => exact (inv_fsMkdir hJ _ _).at hS

theorem inv_materializeParents (j : Nat) : ∀ n, Inv J (materializeParents j n)
  | [] => Inv.pure _
  | c :: d => by
    refine (inv_materializeParents j d).bind fun _ => inv_get fun S hS => ?_
    cases (S.layer 0).lstat (c :: d) with
    | ok _ => exact (Inv.pure _).at hS
    | error e => cases e <;> first | exact (inv_materializeOne hJ _ _).at hS | exact (Inv.fail _).at hS

theorem inv_copyRegular (n : Name) (m : Nat) (data : Str) : Inv J (copyRegular n m data) := by
  have st : ∀ k v, Inv J (Prog.modify (onStage k v) : Op Unit) := fun k v =>
    Holds.modify (fun S h => hJ.stage S k v h) (fun S h => hJ.stage S k v h)
  refine inv_get fun S hS => Inv.at ?_ hS
  refine Inv.bind ?_ fun _ => (st _ _).bind fun _ => (st _ _).bind fun _ => (st _ _).bind fun _ => inv_fsPublish hJ _ _
  exact Holds.modify (fun S h => hJ.temp S _ h) (fun S h => hJ.temp S _ h)

theorem inv_policyCopyUp (j : Nat) (n : Name) : Inv J (policyCopyUp j n) := by
  refine inv_get fun S hS => ?_
  cases (S.layer j).lstat n with
  | error e => exact (Inv.fail _).at hS
  | ok nd =>
    cases nd with
    | special => exact (Inv.fail _).at hS
    | dir m => exact ((inv_materializeParents hJ _ _).bind fun _ => (inv_fsMkdir hJ _ _).bind fun _ => inv_copyAttrs hJ _ _).at hS
    | link t => exact ((inv_materializeParents hJ _ _).bind fun _ => inv_fsSymlink hJ _ _).at hS
    | file m data => exact ((inv_materializeParents hJ _ _).bind fun _ => inv_copyRegular hJ _ _ _).at hS

theorem inv_copyUp : ∀ n, Inv J (copyUp n)
  | [] => Inv.pure _
  | c :: d => by
    refine inv_get fun S hS => ?_
    cases S.lookup (c :: d) with
    | error e => cases e <;> first | exact (Inv.pure _).at hS | exact (Inv.fail _).at hS
    | ok x =>
      obtain ⟨i, nd⟩ := x
      cases i with
      | zero => exact (Inv.pure _).at hS
      | succ j => exact ((inv_policyCopyUp hJ _ _).bind fun _ => inv_unopaque hJ _).at hS

theorem inv_ensureParent (n : Name) : Inv J (ensureParent n) := by
  refine inv_get fun S hS => ?_
  cases S.lookup n.tail with
  | error e => exact (Inv.fail _).at hS
  | ok x =>
    obtain ⟨i, nd⟩ := x
    cases nd with
    | dir m => exact (inv_copyUp hJ _).at hS
    | _ => exact (Inv.fail _).at hS

theorem inv_chmodOp (n : Name) (m : Nat) : Inv J (chmodOp n m) := (inv_copyUp hJ n).bind fun _ => inv_fsChmod hJ n m

theorem inv_openWriteOp (n : Name) (c e t : Bool) (perm : Nat) : Inv J (openWriteOp n c e t perm) := by
  refine inv_get fun S hS => ?_
  cases S.lookup n with
  | error x =>
    cases x with
    | notExist =>
      exact Holds.ite (fun _ => ((inv_ensureParent hJ _).bind fun _ => (inv_fsOpen hJ _ _ _ _ _).bind fun _ => (inv_unmask hJ _).bind fun _ => Inv.pure _).at hS)
        (fun _ => (Inv.fail _).at hS)
    | _ => exact (Inv.fail _).at hS
  | ok x =>
    obtain ⟨i, nd⟩ := x
    cases nd with
    | dir m => exact (Inv.fail _).at hS
    | _ => exact Holds.ite (fun _ => (Inv.fail _).at hS) (fun _ => ((inv_copyUp hJ _).bind fun _ => inv_fsOpen hJ _ _ _ _ _).at hS)

theorem inv_symlinkOp (t : Str) (n : Name) : Inv J (symlinkOp t n) := by
  refine inv_get fun S hS => ?_
  cases S.lookup n with
  | ok x => exact (Inv.fail _).at hS
  | error e =>
    cases e <;> first
      | exact ((inv_ensureParent hJ _).bind fun _ => (inv_fsSymlink hJ _ _).bind fun _ => inv_unmask hJ _).at hS
      | exact (Inv.fail _).at hS

theorem inv_linkOp (a b : Name) : Inv J (linkOp a b) := by
  refine inv_get fun S hS => ?_
  cases S.lookup a with
  | error e => exact (Inv.fail _).at hS
  | ok x =>
    simp only
    cases S.lookup b with
    | ok x => exact (Inv.fail _).at hS
    | error e =>
      cases e <;> first
        | exact ((inv_copyUp hJ _).bind fun _ => (inv_ensureParent hJ _).bind fun _ => (inv_fsLink hJ _ _).bind fun _ => inv_unmask hJ _).at hS
        | exact (Inv.fail _).at hS

/-- A change through a handle on a file of the top. -/
theorem inv_change {f : Node → Node} (hf : ∀ nd, (f nd).isDir = nd.isDir) (r : Name) :
    Inv J (Prog.modify (onTree 0 (fun t m => if m = r then (t m).map f else t m)) : Op Unit) := by
  refine inv_of_at fun S hS => ?_
  refine invAt_modify ?_
  have hfun : (fun t : Tree => (fun m => if m = r then (t m).map f else t m : Tree)) = fun t => setTree t r ((t r).map f) := by
    funext t m
    unfold setTree
    split
    · rename_i e; rw [e]
    · rfl
  refine hJ.tree S _ hS ?_
  have : (fun m => if m = r then (S.top m).map f else S.top m : Tree) = setTree S.top r ((S.top r).map f) := congrFun hfun S.top
  show Step S.top (fun m => if m = r then (S.top m).map f else S.top m)
  rw [this]
  cases ht : S.top r with
  | none =>
    have : setTree S.top r (Option.map f none) = S.top := by
      funext m
      by_cases e : m = r
      · rw [e, setTree_self]; exact ht.symm
      · rw [setTree_ne e]
    rw [this]
    exact ⟨(hJ.sound S hS).top, fun a m ha => ⟨m, ha⟩⟩
  | some nd => exact step_map (hJ.sound S hS).top ht (hf nd)

end

/-! ### C72: the top is a tree -/

theorem sound_tree {S : Sys} (h : Sound S) {f : Tree → Tree} (hf : TreeOk (f S.top)) : InvAt Sound S (Prog.modify (onTree 0 f) : Op Unit) :=
  invAt_modify (h.onTree hf)

theorem sound_mask (f : Mask → Mask) : Inv Sound (Prog.modify (onMask 0 f) : Op Unit) :=
  Holds.modify (fun _ h => h.onMask f) (fun _ h => h.onMask f)

/-- Nothing is beneath an entry that lists nothing or is not a directory. -/
theorem nothing_beneath {S : Sys} (h : Sound S) {r : Name} (hr : (∀ m, S.top r ≠ some (.dir m)) ∨ (S.layer 0).enum S.top r = []) (c : Str) : S.top (c :: r) = none := by
  cases hc : S.top (c :: r) with
  | none => rfl
  | some nd =>
    exfalso
    have hne : S.top (c :: r) ≠ none := by rw [hc]; simp
    obtain ⟨m, hm⟩ := h.top.closed c r hne
    rcases hr with hr | hr
    · exact hr m hm
    · have := ((h.enum S.top h.top r m hm).2 c).2 hne
      rw [hr] at this; cases this

theorem sound_fsRemove (n : Name) : Inv Sound (fsRemove 0 n) := by
  refine inv_get fun S hS => ?_
  cases he : (S.layer 0).entry n with
  | error e => exact (Inv.fail e).at hS
  | ok r =>
    simp only
    have root : ∀ {x}, S.top r = some x → x.isDir = false → r ≠ [] := by
      rintro x hx hd rfl
      obtain ⟨m, hm⟩ := hS.top.root
      rw [hm] at hx; cases hx; cases hd
    cases ht : (S.layer 0).tree r with
    | none => exact (Inv.fail _).at hS
    | some nd =>
      have go : nd.isDir = false → InvAt Sound S (Prog.modify (onTree 0 (fun t => setTree t r none)) : Op Unit) := fun hd =>
        sound_tree hS (treeOk_remove hS.top (root ht hd) (nothing_beneath hS (Or.inl fun m hm => by unfold Sys.top at hm; rw [ht] at hm; cases hm; cases hd)))
      cases nd with
      | dir m =>
        refine Holds.ite (fun _ => (Inv.fail _).at hS) (fun h => ?_)
        exact sound_tree hS (treeOk_remove hS.top (fun e => h (Or.inl e)) (nothing_beneath hS (Or.inr (Classical.byContradiction fun e => h (Or.inr e)))))
      | _ => exact go rfl

theorem sound_removeSteps {r : Name} (hr : r ≠ []) : ∀ fs, Inv Sound (removeSteps 0 r fs)
  | [] => Inv.pure _
  | f :: fs => (inv_of_at fun _ hS => sound_tree hS (treeOk_drop hS.top hr f)).bind fun _ => sound_removeSteps hr fs

theorem sound_fsRemoveAll (n : Name) (steps : List (Name → Bool)) : Inv Sound (fsRemoveAll 0 n steps) := by
  refine inv_get fun S hS => ?_
  cases he : (S.layer 0).entry n with
  | error e => cases e <;> first | exact (Inv.pure _).at hS | exact (Inv.fail _).at hS
  | ok r =>
    refine Holds.ite (fun _ => (Inv.fail _).at hS) (fun hr => ?_)
    exact ((sound_removeSteps hr steps).bind fun _ => inv_of_at fun _ hS => sound_tree hS (treeOk_drop hS.top hr _)).at hS

theorem sound_fsRename (a b : Name) : Inv Sound (fsRename 0 a b) := by
  refine inv_get fun S hS => ?_
  cases ha : (S.layer 0).entry a with
  | error e => exact (Inv.fail e).at hS
  | ok q =>
    cases hb : (S.layer 0).entry b with
    | error e => exact (Inv.fail e).at hS
    | ok r =>
      simp only
      cases hq : (S.layer 0).tree q with
      | none => exact (Inv.fail _).at hS
      | some nd =>
        refine Holds.ite (fun _ => (Inv.fail _).at hS) (fun h1 => Holds.ite (fun _ => (Inv.fail _).at hS) (fun _ => ?_))
        have go : InvAt Sound S (Prog.modify (onTree 0 (fun t => moveTree t q r)) : Op Unit) :=
          sound_tree hS (treeOk_move hS.top (fun h => h1 (Or.inl h)) (fun h => h1 (Or.inr h)) (entry_parent hS.top.root hb))
        cases (S.layer 0).tree r with
        | none => exact go
        | some x =>
          cases x with
          | dir m => exact Holds.ite (fun _ => (Inv.fail _).at hS) (fun _ => Holds.ite (fun _ => (Inv.fail _).at hS) (fun _ => go))
          | _ => exact Holds.ite (fun _ => (Inv.fail _).at hS) (fun _ => go)

theorem inv_ignoreMissing {J : Sys → Prop} {rm : Op Unit} (h : Inv J rm) : Inv J (ignoreMissing rm) := by
  refine h.attempt.bind fun r => ?_
  cases r with
  | ok _ => exact Inv.pure _
  | error e => cases e <;> first | exact Inv.pure _ | exact Inv.fail _

theorem inv_maskRemoved {J : Sys → Prop} (hJ : Closed J) (n : Name) : Inv J (maskRemoved n) := by
  refine inv_get fun S hS => ?_
  cases S.lookupFrom n 1 with
  | ok _ => exact (inv_setWhiteout hJ n).at hS
  | error e => cases e <;> first | exact (inv_clearSubtree hJ n).at hS | exact (Inv.fail _).at hS

theorem inv_emptyCheck {J : Sys → Prop} (n : Name) : Inv J (emptyCheck n) := by
  refine inv_get fun S hS => ?_
  cases S.readDir n with
  | error e => exact (Inv.fail _).at hS
  | ok l => cases l <;> first | exact (Inv.pure _).at hS | exact (Inv.fail _).at hS

theorem sound_unlink (n : Name) {rm : Op Unit} (h : Inv Sound rm) : Inv Sound (unlink n rm) :=
  (inv_maskRemoved closed_sound n).bind fun _ => inv_ignoreMissing h

theorem sound_removeOp (n : Name) : Inv Sound (removeOp n) := by
  refine inv_get fun S hS => Holds.ite (fun _ => (Inv.fail _).at hS) (fun _ => ?_)
  cases S.lookup n with
  | error e => exact (Inv.fail _).at hS
  | ok x =>
    obtain ⟨i, nd⟩ := x
    cases nd with
    | dir m => exact ((inv_emptyCheck n).bind fun _ => sound_unlink n (sound_fsRemove n)).at hS
    | _ => exact (sound_unlink n (sound_fsRemove n)).at hS

theorem sound_removeAllOp (n : Name) (steps : List (Name → Bool)) : Inv Sound (removeAllOp n steps) := by
  refine inv_get fun S hS => Holds.ite (fun _ => (Inv.fail _).at hS) (fun _ => ?_)
  cases S.lookup n with
  | error e => cases e <;> first | exact (Inv.pure _).at hS | exact (Inv.fail _).at hS
  | ok x => exact (sound_unlink n (sound_fsRemoveAll n steps)).at hS

theorem sound_mkdirOne (n : Name) (perm : Nat) : Inv Sound (mkdirOne n perm) :=
  (inv_fsMkdir closed_sound n perm).bind fun _ => (sound_mask _).bind fun _ => inv_unmask closed_sound n

theorem sound_mkdirOp (n : Name) (perm : Nat) : Inv Sound (mkdirOp n perm) := by
  refine inv_get fun S hS => ?_
  cases S.lookup n with
  | ok x => exact (Inv.fail _).at hS
  | error e =>
    cases e <;> first
      | exact ((inv_ensureParent closed_sound n).bind fun _ => sound_mkdirOne n perm).at hS
      | exact (Inv.fail _).at hS

theorem sound_mkdirStep (n : Name) (perm : Nat) : Inv Sound (mkdirStep n perm) := by
  refine inv_get fun S hS => ?_
  cases S.lookup n with
  | ok x =>
    obtain ⟨i, nd⟩ := x
    cases nd <;> first | exact (Inv.pure _).at hS | exact (Inv.fail _).at hS
  | error e =>
    cases e <;> first
      | exact ((inv_ensureParent closed_sound n).bind fun _ => sound_mkdirOne n perm).at hS
      | exact (Inv.fail _).at hS

theorem sound_mkdirAllOp (perm : Nat) : ∀ n, Inv Sound (mkdirAllOp perm n)
  | [] => Inv.pure _
  | _ :: d => (sound_mkdirAllOp perm d).bind fun _ => sound_mkdirStep _ perm

theorem sound_renameMarks (a b : Name) (d m : Bool) : Inv Sound (renameMarks a b d m) := by
  refine (inv_clearSubtree closed_sound b).bind fun _ => Inv.bind ?_ fun _ => Inv.bind (m := whenOp d (setOpaque b)) (Inv.ite (sound_mask _) (Inv.pure _)) fun _ =>
    Inv.ite (inv_setWhiteout closed_sound a) (inv_clearSubtree closed_sound a)
  refine inv_get fun S hS => Inv.at ?_ hS
  exact (inv_forNames fun _ _ => sound_mask _).bind fun _ => (inv_forNames fun _ _ => sound_mask _).bind fun _ =>
    (inv_forNames fun _ _ => sound_mask _).bind fun _ => inv_forNames fun _ _ => sound_mask _

theorem sound_renameGo (a b : Name) (d : Bool) : Inv Sound (renameGo a b d) := by
  refine (inv_copyUp closed_sound a).bind fun _ => (inv_ensureParent closed_sound b).bind fun _ => inv_get fun S hS => ?_
  have go : ∀ m, InvAt Sound S (do fsRename 0 a b; renameMarks a b d m) := fun m => ((sound_fsRename a b).bind fun _ => sound_renameMarks a b d m).at hS
  cases S.lookupFrom a 1 with
  | ok x => exact go true
  | error e => cases e <;> first | exact go false | exact (Inv.fail _).at hS

theorem sound_renameOp (a b : Name) : Inv Sound (renameOp a b) := by
  refine inv_get fun S hS => Holds.ite (fun _ => (Inv.fail _).at hS) (fun _ => ?_)
  cases S.lookup a with
  | error e => exact (Inv.fail _).at hS
  | ok x =>
    obtain ⟨i, nd⟩ := x
    refine Holds.ite (fun _ => (Inv.pure _).at hS) (fun _ => Holds.ite (fun _ => (Inv.fail _).at hS) (fun _ => ?_))
    cases (if nd.isDir then renameDirCheck S a else none) with
    | some e => exact (Inv.fail _).at hS
    | none =>
      simp only
      cases renameTargetCheck S b nd.isDir with
      | some e => exact (Inv.fail _).at hS
      | none => exact (sound_renameGo a b _).at hS

/-- A change through a handle leaves a directory a directory and anything else something else. -/
def Call.KeepsKind : Call → Prop
  | .change _ f => ∀ nd, (f nd).isDir = nd.isDir
  | _ => True

theorem inv_changeOp {J : Sys → Prop} (hJ : Closed J) {hs : List Handle} (hh : TopOnly hs) {f : Node → Node} (hf : ∀ nd, (f nd).isDir = nd.isDir) {x : Handle} (hx : x ∈ hs) :
    Inv J (changeOp f x) := by
  cases x with
  | file i r w =>
    cases w with
    | true => exact Inv.fail _
    | false =>
      have := hh i r hx
      subst this
      exact inv_change hJ hf r
  | merged n =>
    refine inv_get fun S hS => ?_
    cases S.lookup n with
    | ok x => exact (inv_chmodOp hJ _ _).at hS
    | error e => exact (Inv.fail _).at hS

theorem sound_program {hs : List Handle} (hh : TopOnly hs) {c : Call} (hc : c.KeepsKind) : Inv Sound (program hs c) := by
  cases c with
  | chmod n m => exact inv_chmodOp closed_sound n m
  | attr n => exact inv_copyUp closed_sound n
  | openWrite n c e t perm => exact (inv_openWriteOp closed_sound _ _ _ _ _).bind fun _ => Inv.pure _
  | openRead n => exact Inv.pure _
  | remove n => exact sound_removeOp n
  | removeAll n o => exact sound_removeAllOp n o
  | mkdir n p => exact sound_mkdirOp n p
  | mkdirAll n p => exact sound_mkdirAllOp p n
  | symlink t n => exact inv_symlinkOp closed_sound t n
  | link a b => exact inv_linkOp closed_sound a b
  | rename a b => exact sound_renameOp a b
  | change h f =>
    simp only [program]
    cases hx : hs[h]? with
    | none => exact Inv.pure _
    | some x => exact inv_changeOp closed_sound hh hc (List.mem_of_getElem? hx)

/-- What a process can get to when the calls made are restricted: `may S c` says that the call is made in the state, `dies c` that the process may die in it. -/
inductive Runs (may : Sys → Call → Prop) (dies : Call → Prop) (S0 : Sys) : Sys → List Handle → Prop
  | start : Runs may dies S0 S0 []
  | call {S hs} (c : Call) : Runs may dies S0 S hs → may S c → Runs may dies S0 (final (program hs c) S) (opened S hs c)
  | crash {S hs} (c : Call) {T} : Runs may dies S0 S hs → may S c → dies c → T ∈ crashes (program hs c) S → Runs may dies S0 T []

theorem Runs.history {may : Sys → Call → Prop} {dies : Call → Prop} {S0 S : Sys} {hs : List Handle} (h : Runs may dies S0 S hs) : History S0 S hs := by
  induction h with
  | start => exact .start
  | call c _ _ ih => exact .call c ih
  | crash c _ _ _ ht ih => exact .crash c ih ht

theorem Runs.topOnly {may : Sys → Call → Prop} {dies : Call → Prop} {S0 S : Sys} {hs : List Handle} (h : Runs may dies S0 S hs) : TopOnly hs := by
  induction h with
  | start => intro i n hm; cases hm
  | call c _ _ ih => exact topOnly_opened ih c
  | crash _ _ _ _ _ => intro i n hm; cases hm

/-- Any calls at all, the process dying anywhere. -/
abbrev AnyCalls (_ : Sys) (c : Call) : Prop := c.KeepsKind

theorem sound_runs {S0 S : Sys} {hs : List Handle} (h0 : Sound S0) (h : Runs AnyCalls (fun _ => True) S0 S hs) : Sound S := by
  induction h with
  | start => exact h0
  | call c hr hm ih => exact (sound_program hr.topOnly hm _ ih).2
  | crash c hr hm _ ht ih => exact (sound_program hr.topOnly hm _ ih).1 _ ht

/-- **C72**. Starting from layers that are trees, every history (any calls with any names, in any order, the process dying at any point) leaves the top a tree
of finitely many entries: its root is a directory, and whatever an entry is, what is above it is a directory. The same for the lower layers. -/
theorem C72_layers_stay_trees {S0 S : Sys} {hs : List Handle} (h0 : Sound S0) (h : Runs AnyCalls (fun _ => True) S0 S hs) :
    S.Trees ∧ (S.layer 0).Lists ∧ ∃ l : List Name, ∀ n, S.top n ≠ none → n ∈ l :=
  have := sound_runs h0 h
  ⟨this.trees, this.lists, this.top.finite⟩

/-! ### C73: opaque marks are on directories the top holds -/

/-- The top has the name under this very name, if it has a way to it at all. -/
def Ent (n : Name) (S : Sys) : Prop := ∀ r, (S.layer 0).entry n = .ok r → r = n

theorem ent_of_view {S : Sys} (h : Sound S) {n : Name} (hd : S.ViewDir n.tail) : Ent n S := by
  intro r hr
  cases n with
  | nil => cases hr; rfl
  | cons c d =>
    rcases S.top_entry h.isTree (c := c) (d := d) hd with ⟨_, he⟩ | ⟨_, he⟩
    · rw [he] at hr; cases hr; rfl
    · rw [he] at hr; cases hr

theorem Ent.onMask {n : Name} {S : Sys} (h : Ent n S) (f : Mask → Mask) : Ent n (onMask 0 f S) := h

theorem Holds.and {α : Type} {I I' P : Sys → Prop} {m : Op α} {Q Q' : Except Errno α → Sys → Prop} (h : Holds I P m Q) (h' : Holds I' P m Q') :
    Holds (fun s => I s ∧ I' s) P m (fun r s => Q r s ∧ Q' r s) :=
  fun s hs => ⟨fun t ht => ⟨(h s hs).1 t ht, (h' s hs).1 t ht⟩, (h s hs).2, (h' s hs).2⟩

theorem good_setOpaque {n : Name} {S : Sys} (h : Good S) (hn : ∃ m, S.top n = some (.dir m)) : Good (onMask 0 (fun m => ⟨m.wh, n :: m.op⟩) S) :=
  ⟨h.sound.onMask _, fun a ha => by
    rcases List.mem_cons.1 ha with rfl | ha
    · exact hn
    · exact h.held a ha⟩

theorem good_fsMkdir (n : Name) (perm : Nat) : Holds Good (fun s => Good s ∧ Ent n s) (fsMkdir 0 n perm)
    (fun r s => Good s ∧ (r = .ok () → ∃ m, s.top n = some (.dir m))) := by
  refine Holds.fix fun S hS => ?_
  refine (Holds.and ((inv_fsMkdir closed_good n perm).at hS.1) (Q' := fun r s => r = .ok () → ∃ m, s.top n = some (.dir m)) (I' := fun _ => True) ?_).weaken
    (fun s h => h) (fun s h => h.1) (fun r s h => h)
  refine holds_get_fix ?_
  cases he : (S.layer 0).entry n with
  | error e => exact Holds.fail fun s _ e => by cases e
  | ok r =>
    simp only
    cases ht : (S.layer 0).tree r with
    | some nd => exact Holds.fail fun s _ e => by cases e
    | none =>
      refine Holds.modify (fun _ _ => trivial) (fun s hs _ => ⟨S.umask perm, ?_⟩)
      rw [hs, onTree_top, ← hS.2 r he, setTree_self]

theorem good_mkdirOne (n : Name) (perm : Nat) : Holds Good (fun s => Good s ∧ Ent n s) (mkdirOne n perm) (fun _ => Good) := by
  refine Holds.bind _ (good_fsMkdir n perm) (fun _ => ?_) (fun _ _ h => h.1)
  refine Holds.bind (fun _ => Good) ?_ (fun _ => inv_unmask closed_good n) (fun _ _ h => h)
  exact Holds.modify (fun s h => good_setOpaque h.1 (h.2 rfl)) (fun s h => good_setOpaque h.1 (h.2 rfl))

/-- Bringing the parent to the top keeps the directories of the view. -/
theorem good_ensureParent {S : Sys} (hS : Good S) {n : Name} (hd : S.ViewDir n.tail) :
    Holds Good (fun s => s = S) (ensureParent n) (fun _ s => Good s ∧ Grown S s) := by
  cases n with
  | nil =>
    refine holds_get_fix ?_
    have hT := hS.sound.isTree
    cases hl : S.lookup (List.tail []) with
    | error e => exact Holds.fail fun s hs => by rw [hs]; exact ⟨hS, Grown.refl hT⟩
    | ok x =>
      obtain ⟨i, nd⟩ := x
      cases nd with
      | dir m => exact Holds.pure fun s hs => by rw [hs]; exact ⟨hS, Grown.refl hT⟩
      | _ => exact Holds.fail fun s hs => by rw [hs]; exact ⟨hS, Grown.refl hT⟩
  | cons c d =>
    refine (Holds.and ((inv_ensureParent closed_good (c :: d)).at hS) (holds_ensureParent hS.sound.isTree (c := c) hd (fun ho => hS.held.ne_none ho))).weaken
      (fun s h => h) (fun s h => h.1) (fun r s h => ⟨h.1, h.2.1⟩)

theorem good_new {S : Sys} (hS : Good S) {n : Name} (hd : S.ViewDir n.tail) (perm : Nat) :
    InvAt Good S (do ensureParent n; mkdirOne n perm) := by
  refine Holds.bind _ (good_ensureParent hS hd) (fun _ => ?_) (fun _ _ h => h.1)
  exact (good_mkdirOne n perm).weaken (fun s h => ⟨h.1, ent_of_view h.1.sound ((h.2.viewDir hS.sound.isTree _).2 hd)⟩) (fun _ h => h) (fun _ _ h => h)

theorem good_mkdirOp {S : Sys} (hS : Good S) {n : Name} (hd : S.ViewDir n.tail) (perm : Nat) : InvAt Good S (mkdirOp n perm) := by
  refine holds_get_fix ?_
  cases S.lookup n with
  | ok x => exact (Inv.fail _).at hS
  | error e => cases e <;> first | exact good_new hS hd perm | exact (Inv.fail _).at hS

theorem good_mkdirStep {S : Sys} (hS : Good S) {n : Name} (hd : S.ViewDir n.tail) (perm : Nat) : InvAt Good S (mkdirStep n perm) := by
  refine holds_get_fix ?_
  cases S.lookup n with
  | ok x =>
    obtain ⟨i, nd⟩ := x
    cases nd <;> first | exact (Inv.pure _).at hS | exact (Inv.fail _).at hS
  | error e => cases e <;> first | exact good_new hS hd perm | exact (Inv.fail _).at hS

theorem good_mkdirAllOp (perm : Nat) : ∀ n, Inv Good (mkdirAllOp perm n)
  | [] => Inv.pure _
  | c :: d => by
    refine inv_of_at fun S hS => ?_
    refine Holds.bind (fun r s => Good s ∧ (r = .ok () → s.ViewDir d)) ?_ (fun _ => ?_) (fun _ _ h => h.1)
    · refine (Holds.and ((good_mkdirAllOp perm d).at hS) (holds_mkdirAll hS.sound.trees (n := d) (fun a _ ha => hS.held.ne_none ha) perm (List.suffix_refl d))).weaken
        (fun s h => h) (fun s h => h.1) (fun r s h => ⟨h.1, fun hr => (h.2.2 hr).2.2⟩)
    · exact Holds.fix fun S1 h1 => good_mkdirStep h1.1 (n := c :: d) (h1.2 rfl) perm

/-! removal -/

/-- No opaque mark at or beneath the name, and the top acts on that very name. -/
structure Bare (n : Name) (S : Sys) : Prop where
  good : Good S
  ent : Ent n S
  none : ∀ a ∈ (S.mask 0).op, ¬ n <:+ a

theorem clear_marks {I : Sys → Prop} (hI : ∀ n, Holds I I (unopaque n) (fun _ => I)) {K : Name → Prop} : ∀ {ns : List Name},
    Holds I (fun s => I s ∧ ∀ a ∈ (s.mask 0).op, K a ∨ a ∈ ns) (forNames unopaque ns) (fun r s => r = .ok () ∧ I s ∧ ∀ a ∈ (s.mask 0).op, K a) := by
  intro ns
  induction ns with
  | nil => exact Holds.pure fun s h => ⟨rfl, h.1, fun a ha => (h.2 a ha).resolve_right (by intro h; cases h)⟩
  | cons n ns ih =>
    refine Holds.bind (fun r s => r = .ok () ∧ I s ∧ ∀ a ∈ (s.mask 0).op, K a ∨ a ∈ ns) ?_ (fun _ => ih.weaken (fun _ h => h.2) (fun _ h => h) (fun _ _ h => h))
      (fun e s h => by cases h.1)
    refine Holds.fix fun S hS => ?_
    refine (Holds.and ((hI n).weaken (fun s (h : s = S) => by rw [h]; exact hS.1) (fun _ h => h) (fun _ _ h => h)) (I' := fun _ => True)
      (Q' := fun r s => r = .ok () ∧ ∀ a ∈ (s.mask 0).op, K a ∨ a ∈ ns) ?_).weaken (fun _ h => h) (fun _ h => h.1) (fun r s h => ⟨h.2.1, h.1, h.2.2⟩)
    refine holds_get_fix (Holds.ite (fun _ => ?_) (fun hn => ?_))
    · refine Holds.modify (fun _ _ => trivial) (fun s hs => ⟨rfl, fun a ha => ?_⟩)
      rw [hs, onMask_mask] at ha
      have ha := mem_filter_ne.1 ha
      rcases hS.2 a ha.1 with h | h
      · exact Or.inl h
      · exact Or.inr ((List.mem_cons.1 h).resolve_left ha.2)
    · refine Holds.pure fun s hs => ⟨rfl, fun a ha => ?_⟩
      rw [hs] at ha
      rcases hS.2 a ha with h | h
      · exact Or.inl h
      · rcases List.mem_cons.1 h with rfl | h
        · exact absurd ha hn
        · exact Or.inr h

/-- Conditions about the top's tree, and the opaque marks being among some. -/
theorem op_unmask {I : Sys → Prop} (hI : Holds I I (unmask n) (fun _ => I)) {K : Name → Prop} :
    Holds I (fun s => I s ∧ ∀ a ∈ (s.mask 0).op, K a) (unmask n) (fun r s => r = .ok () ∧ I s ∧ ∀ a ∈ (s.mask 0).op, K a) := by
  refine Holds.fix fun S hS => ?_
  refine (Holds.and (hI.weaken (fun s (h : s = S) => by rw [h]; exact hS.1) (fun _ h => h) (fun _ _ h => h)) (I' := fun _ => True)
    (Q' := fun r s => r = .ok () ∧ ∀ a ∈ (s.mask 0).op, K a) ?_).weaken (fun _ h => h) (fun _ h => h.1) (fun r s h => ⟨h.2.1, h.1, h.2.2⟩)
  refine holds_get_fix (Holds.ite (fun _ => ?_) (fun _ => ?_))
  · exact Holds.modify (fun _ _ => trivial) (fun s hs => ⟨rfl, fun a ha => hS.2 a (by rw [hs] at ha; exact ha)⟩)
  · exact Holds.pure fun s hs => ⟨rfl, fun a ha => hS.2 a (by rw [hs] at ha; exact ha)⟩

theorem op_clearSubtree {I : Sys → Prop} (h1 : ∀ n, Holds I I (unmask n) (fun _ => I)) (h2 : ∀ n, Holds I I (unopaque n) (fun _ => I)) (n : Name) {K : Name → Prop} :
    Holds I (fun s => I s ∧ ∀ a ∈ (s.mask 0).op, K a) (clearSubtree n) (fun r s => r = .ok () ∧ I s ∧ ∀ a ∈ (s.mask 0).op, K a ∧ ¬ n <:+ a) := by
  refine Holds.fix fun S hS => holds_get_fix ?_
  refine Holds.bind (fun r s => r = .ok () ∧ I s ∧ ∀ a ∈ (s.mask 0).op, a ∈ (S.mask 0).op) ?_ (fun _ => ?_) (fun e s h => by cases h.1)
  · have : ∀ {l : List Name}, Holds I (fun s => I s ∧ ∀ a ∈ (s.mask 0).op, a ∈ (S.mask 0).op) (forNames unmask l)
        (fun r s => r = .ok () ∧ I s ∧ ∀ a ∈ (s.mask 0).op, a ∈ (S.mask 0).op) := by
      intro l
      induction l with
      | nil => exact Holds.pure fun s h => ⟨rfl, h⟩
      | cons m l ih => exact Holds.bind _ (op_unmask (h1 m)) (fun _ => ih.weaken (fun _ h => h.2) (fun _ h => h) (fun _ _ h => h)) (fun e s h => by cases h.1)
    exact this.weaken (fun s hs => by rw [hs]; exact ⟨hS.1, fun a ha => ha⟩) (fun _ h => h) (fun _ _ h => h)
  · refine (clear_marks h2 (K := fun a => K a ∧ ¬ n <:+ a)).weaken (fun s h => ⟨h.2.1, fun a ha => ?_⟩) (fun _ h => h) (fun _ _ h => h)
    have ha := h.2.2 a ha
    by_cases hn : n <:+ a
    · right
      rw [List.mem_append]
      by_cases e : a = n
      · right; rw [e]; exact List.mem_singleton.2 rfl
      · left; exact mem_under.2 ⟨ha, hn, e⟩
    · exact Or.inl ⟨hS.2 a ha, hn⟩

/-- The conditions on the state that marks being removed keep. -/
theorem good_ent_unmask (n m : Name) : Holds (fun s => Good s ∧ Ent n s) (fun s => Good s ∧ Ent n s) (unmask m) (fun _ s => Good s ∧ Ent n s) := by
  refine Holds.fix fun S hS => holds_get_fix (Holds.ite (fun _ => ?_) (fun _ => Holds.pure fun s hs => by rw [hs]; exact hS))
  have : Good (onMask 0 (fun M => ⟨M.wh.filter (fun x => x ≠ m), M.op⟩) S) ∧ Ent n (onMask 0 (fun M => ⟨M.wh.filter (fun x => x ≠ m), M.op⟩) S) :=
    ⟨closed_good.mask S _ hS.1 (fun a ha => ha), hS.2⟩
  exact Holds.modify (fun s hs => by rw [hs]; exact this) (fun s hs => by rw [hs]; exact this)

theorem good_ent_unopaque (n m : Name) : Holds (fun s => Good s ∧ Ent n s) (fun s => Good s ∧ Ent n s) (unopaque m) (fun _ s => Good s ∧ Ent n s) := by
  refine Holds.fix fun S hS => holds_get_fix (Holds.ite (fun _ => ?_) (fun _ => Holds.pure fun s hs => by rw [hs]; exact hS))
  have : Good (onMask 0 (fun M => ⟨M.wh, M.op.filter (fun x => x ≠ m)⟩) S) ∧ Ent n (onMask 0 (fun M => ⟨M.wh, M.op.filter (fun x => x ≠ m)⟩) S) :=
    ⟨closed_good.mask S _ hS.1 (fun a ha => (mem_filter_ne.1 ha).1), hS.2⟩
  exact Holds.modify (fun s hs => by rw [hs]; exact this) (fun s hs => by rw [hs]; exact this)

theorem good_maskRemoved (n : Name) : Holds Good (fun s => Good s ∧ Ent n s) (maskRemoved n) (fun r s => Good s ∧ (r = .ok () → Bare n s)) := by
  refine Holds.fix fun S hS => holds_get_fix ?_
  cases S.lookupFrom n 1 with
  | ok x =>
    have : Bare n (onMask 0 (fun m => ⟨n :: m.wh.filter (fun x => ¬ n <:+ x), m.op.filter (fun x => ¬ n <:+ x)⟩) S) :=
      ⟨closed_good.mask S _ hS.1 (fun a ha => (List.mem_filter.1 ha).1), hS.2, fun a ha => by
        have := (List.mem_filter.1 ha).2
        simpa using this⟩
    exact Holds.modify (fun s hs => by rw [hs]; exact this.good) (fun s hs => by rw [hs]; exact ⟨this.good, fun _ => this⟩)
  | error e =>
    have stop : ∀ e, Holds Good (fun s => s = S) (Prog.fail e : Op Unit) (fun r s => Good s ∧ (r = .ok () → Bare n s)) := fun e =>
      Holds.fail fun s hs => by rw [hs]; exact ⟨hS.1, fun e => by cases e⟩
    cases e with
    | notExist =>
      refine (op_clearSubtree (good_ent_unmask n) (good_ent_unopaque n) n (K := fun _ => True)).weaken (fun s hs => by rw [hs]; exact ⟨hS, fun _ _ => trivial⟩)
        (fun _ h => h.1) (fun r s h => ⟨h.2.1.1, fun _ => ⟨h.2.1.1, h.2.1.2, fun a ha => (h.2.2 a ha).2⟩⟩)
    | _ => exact stop _

/-- Changes at and beneath a name without marks. -/
theorem bare_tree {n : Name} {S : Sys} (h : Bare n S) {f : Tree → Tree} (hok : TreeOk (f S.top)) (hout : ∀ a, ¬ n <:+ a → f S.top a = S.top a) : Good (onTree 0 f S) :=
  ⟨h.good.sound.onTree hok, fun a ha => by
    rw [onTree_top, hout a (h.none a ha)]
    exact h.good.held a ha⟩

theorem good_fsRemove (n : Name) : Holds Good (Bare n) (fsRemove 0 n) (fun _ => Good) := by
  have hout : ∀ (t : Tree) a, ¬ n <:+ a → setTree t n none a = t a := fun t a ha => setTree_ne fun e => ha (by rw [e]; exact List.suffix_refl n)
  refine Holds.fix fun S hS => ?_
  have hs := hS.good.sound
  refine holds_get_fix ?_
  cases he : (S.layer 0).entry n with
  | error e => exact (Inv.fail e).at hS.good
  | ok r =>
    have := hS.ent r he
    subst this
    simp only
    have root : ∀ {x}, S.top r = some x → x.isDir = false → r ≠ [] := by
      rintro x hx hd rfl
      obtain ⟨m, hm⟩ := hs.top.root
      rw [hm] at hx; cases hx; cases hd
    cases ht : (S.layer 0).tree r with
    | none => exact (Inv.fail _).at hS.good
    | some nd =>
      have go : nd.isDir = false → InvAt Good S (Prog.modify (onTree 0 (fun t => setTree t r none)) : Op Unit) := fun hd =>
        invAt_modify (bare_tree hS (treeOk_remove hs.top (root ht hd) (nothing_beneath hs (Or.inl fun m hm => by unfold Sys.top at hm; rw [ht] at hm; cases hm; cases hd)))
          (hout _))
      cases nd with
      | dir m =>
        refine Holds.ite (fun _ => (Inv.fail _).at hS.good) (fun h => ?_)
        exact invAt_modify (bare_tree hS (treeOk_remove hs.top (fun e => h (Or.inl e)) (nothing_beneath hs (Or.inr (Classical.byContradiction fun e => h (Or.inr e))))) (hout _))
      | _ => exact go rfl

/-- The same with what is kept while entries go. -/
structure Bare' (n : Name) (S : Sys) : Prop where
  good : Good S
  none : ∀ a ∈ (S.mask 0).op, ¬ n <:+ a

theorem bare_drop {n : Name} (hn : n ≠ []) (f : Name → Bool) : Holds Good (Bare' n) (Prog.modify (onTree 0 (fun t => dropUnder t n f)) : Op Unit) (fun r s => r = .ok () ∧ Bare' n s) := by
  have key : ∀ S, Bare' n S → Bare' n (onTree 0 (fun t => dropUnder t n f) S) := fun S h =>
    ⟨⟨h.good.sound.onTree (treeOk_drop h.good.sound.top hn f), fun a ha => by
      have : dropUnder S.top n f a = S.top a := dropUnder_out (h.none a ha)
      rw [onTree_top, this]
      exact h.good.held a ha⟩, h.none⟩
  exact Holds.modify (fun s h => (key s h).good) (fun s h => ⟨rfl, key s h⟩)

theorem bare_removeSteps {n : Name} (hn : n ≠ []) : ∀ fs, Holds Good (Bare' n) (removeSteps 0 n fs) (fun r s => r = .ok () ∧ Bare' n s)
  | [] => Holds.pure fun s h => ⟨rfl, h⟩
  | f :: fs => Holds.bind _ (bare_drop hn f) (fun _ => (bare_removeSteps hn fs).weaken (fun _ h => h.2) (fun _ h => h) (fun _ _ h => h)) (fun e s h => by cases h.1)

theorem good_fsRemoveAll (n : Name) (steps : List (Name → Bool)) : Holds Good (Bare n) (fsRemoveAll 0 n steps) (fun _ => Good) := by
  refine Holds.fix fun S hS => holds_get_fix ?_
  cases he : (S.layer 0).entry n with
  | error e => cases e <;> first | exact (Inv.pure _).at hS.good | exact (Inv.fail _).at hS.good
  | ok r =>
    have := hS.ent r he
    subst this
    refine Holds.ite (fun _ => (Inv.fail _).at hS.good) (fun hr => ?_)
    refine Holds.bind _ ((bare_removeSteps hr steps).weaken (fun s hs => by rw [hs]; exact ⟨hS.good, hS.none⟩) (fun _ h => h) (fun _ _ h => h)) (fun _ => ?_) (fun e s h => by cases h.1)
    exact (bare_drop hr _).weaken (fun _ h => h.2) (fun _ h => h) (fun _ _ h => h.2.good)

theorem good_unlink {n : Name} {rm : Op Unit} (h : Holds Good (Bare n) rm (fun _ => Good)) : Holds Good (fun s => Good s ∧ Ent n s) (unlink n rm) (fun _ => Good) := by
  refine Holds.bind _ (good_maskRemoved n) (fun _ => ?_) (fun _ _ h => h.1)
  refine Holds.bind (fun _ => Good) (Holds.attempt (h.weaken (fun _ h => h.2 rfl) (fun _ h => h) (fun _ _ h => h))) (fun r => ?_) (fun _ _ h => h)
  cases r with
  | ok _ => exact Inv.pure _
  | error e => cases e <;> first | exact Inv.pure _ | exact Inv.fail _

theorem good_removeOp {S : Sys} (hS : Good S) {n : Name} (hd : S.ViewDir n.tail) : InvAt Good S (removeOp n) := by
  have hu : InvAt Good S (unlink n (fsRemove 0 n)) := (good_unlink (good_fsRemove n)).weaken (fun s hs => by rw [hs]; exact ⟨hS, ent_of_view hS.sound hd⟩) (fun _ h => h) (fun _ _ h => h)
  refine holds_get_fix (Holds.ite (fun _ => (Inv.fail _).at hS) (fun _ => ?_))
  cases S.lookup n with
  | error e => exact (Inv.fail _).at hS
  | ok x =>
    obtain ⟨i, nd⟩ := x
    cases nd with
    | dir m =>
      refine Holds.bind (fun _ s => s = S) ?_ (fun _ => hu) (fun _ s h => by rw [h]; exact hS)
      refine holds_get_fix ?_
      cases S.readDir n with
      | error e => exact Holds.fail fun _ h => h
      | ok l => cases l <;> first | exact Holds.pure fun _ h => h | exact Holds.fail fun _ h => h
    | _ => exact hu

theorem good_removeAllOp {S : Sys} (hS : Good S) {n : Name} (hd : S.ViewDir n.tail) (steps : List (Name → Bool)) : InvAt Good S (removeAllOp n steps) := by
  refine holds_get_fix (Holds.ite (fun _ => (Inv.fail _).at hS) (fun _ => ?_))
  cases S.lookup n with
  | error e => cases e <;> first | exact (Inv.pure _).at hS | exact (Inv.fail _).at hS
  | ok x =>
    exact (good_unlink (good_fsRemoveAll n steps)).weaken (fun s hs => by rw [hs]; exact ⟨hS, ent_of_view hS.sound hd⟩) (fun _ h => h) (fun _ _ h => h)

/-! rename: at its end only -/

/-- The tree is the given one, and the opaque marks are among some. -/
def Marks (t : Tree) (K : Name → Prop) (S : Sys) : Prop := S.top = t ∧ ∀ a ∈ (S.mask 0).op, K a

theorem marks_sub {t : Tree} {K : Name → Prop} {S : Sys} (h : Marks t K S) {f : Mask → Mask} (hf : ∀ a ∈ (f (S.mask 0)).op, a ∈ (S.mask 0).op ∨ K a) : Marks t K (onMask 0 f S) :=
  ⟨h.1, fun a ha => (hf a ha).elim (h.2 a) id⟩

theorem marks_modify {t : Tree} {K : Name → Prop} {f : Mask → Mask} (hf : ∀ M : Mask, ∀ a ∈ (f M).op, a ∈ M.op ∨ K a) :
    Holds (fun _ => True) (Marks t K) (Prog.modify (onMask 0 f) : Op Unit) (fun r s => r = .ok () ∧ Marks t K s) :=
  Holds.modify (fun _ _ => trivial) (fun _ h => ⟨rfl, marks_sub h (hf _)⟩)

theorem marks_forNames {t : Tree} {K : Name → Prop} {f : Name → Op Unit} : ∀ {l : List Name},
    (∀ n ∈ l, Holds (fun _ => True) (Marks t K) (f n) (fun r s => r = .ok () ∧ Marks t K s)) →
    Holds (fun _ => True) (Marks t K) (forNames f l) (fun r s => r = .ok () ∧ Marks t K s)
  | [], _ => Holds.pure fun _ h => ⟨rfl, h⟩
  | n :: _, h => Holds.bind _ (h n (List.mem_cons_self ..)) (fun _ => (marks_forNames fun m hm => h m (List.mem_cons_of_mem _ hm)).weaken (fun _ h => h.2) (fun _ h => h) (fun _ _ h => h))
      (fun e s h => by cases h.1)

theorem top_unmask (t : Tree) (m : Name) : Holds (fun s => s.top = t) (fun s => s.top = t) (unmask m) (fun _ s => s.top = t) :=
  Holds.fix fun S hS => holds_get_fix (Holds.ite (fun _ => Holds.modify (fun s hs => by rw [hs]; exact hS) (fun s hs => by rw [hs]; exact hS))
    (fun _ => Holds.pure fun s hs => by rw [hs]; exact hS))

theorem top_unopaque (t : Tree) (m : Name) : Holds (fun s => s.top = t) (fun s => s.top = t) (unopaque m) (fun _ s => s.top = t) :=
  Holds.fix fun S hS => holds_get_fix (Holds.ite (fun _ => Holds.modify (fun s hs => by rw [hs]; exact hS) (fun s hs => by rw [hs]; exact hS))
    (fun _ => Holds.pure fun s hs => by rw [hs]; exact hS))

theorem marks_clearSubtree {t : Tree} {K : Name → Prop} (n : Name) :
    Holds (fun _ => True) (Marks t K) (clearSubtree n) (fun r s => r = .ok () ∧ Marks t (fun a => K a ∧ ¬ n <:+ a) s) :=
  (op_clearSubtree (I := fun s => s.top = t) (top_unmask t) (top_unopaque t) n).weaken (fun _ h => h) (fun _ _ => trivial) (fun _ _ h => h)

/-- The marks after a move that has succeeded. -/
theorem marks_rename {S2 : Sys} (hS : Good S2) {old new : Name} (isDir maskOld : Bool) (hd : isDir = true → ∃ m, S2.top old = some (.dir m)) :
    Holds (fun _ => True) (fun s => s.top = moveTree S2.top old new ∧ s.mask 0 = S2.mask 0) (renameMarks old new isDir maskOld)
      (fun r s => r = .ok () ∧ s.top = moveTree S2.top old new ∧ Held s) := by
  -- a mark that is held after the move, or beneath the old name
  let K : Name → Prop := fun a => old <:+ a ∨ ∃ m, moveTree S2.top old new a = some (.dir m)
  let K1 : Name → Prop := fun a => a ∈ (S2.mask 0).op ∧ ¬ new <:+ a
  have hK1 : ∀ a, K1 a → K a := fun a ha => by
    by_cases ho : old <:+ a
    · exact Or.inl ho
    · right
      rw [moveTree_out ha.2 ho]
      exact hS.held a ha.1
  have hheld : ∀ s, Marks (moveTree S2.top old new) (fun a => K a ∧ ¬ old <:+ a) s → s.top = moveTree S2.top old new ∧ Held s := fun s h =>
    ⟨h.1, fun a ha => by rw [h.1]; exact (h.2 a ha).1.resolve_left (h.2 a ha).2⟩
  refine Holds.bind (fun r s => r = .ok () ∧ Marks (moveTree S2.top old new) K1 s) ?_ (fun _ => ?_) (fun _ s h => by cases h.1)
  · refine (marks_clearSubtree (t := moveTree S2.top old new) (K := fun a => a ∈ (S2.mask 0).op) new).weaken (fun s h => ⟨h.1, fun a ha => ?_⟩) (fun _ _ => trivial) (fun _ _ h => h)
    rw [h.2] at ha; exact ha
  · refine Holds.bind (fun r s => r = .ok () ∧ Marks (moveTree S2.top old new) K s) ?_ (fun _ => ?_) (fun _ s h => by cases h.1)
    · refine Holds.fix fun S hSm => holds_get_fix ?_
      replace hSm := hSm.2
      have start : ∀ s, s = S → Marks (moveTree S2.top old new) K s := fun s hs => by rw [hs]; exact ⟨hSm.1, fun a ha => hK1 a (hSm.2 a ha)⟩
      refine Holds.weaken (P' := Marks (moveTree S2.top old new) K) ?_ start (fun _ h => h) (fun _ _ h => h)
      refine Holds.bind _ (marks_forNames fun n _ => marks_modify fun M a ha => Or.inl (List.mem_filter.1 ha).1) (fun _ => ?_) (fun _ s h => by cases h.1)
      refine Holds.weaken (P' := Marks (moveTree S2.top old new) K) ?_ (fun _ h => h.2) (fun _ h => h) (fun _ _ h => h)
      refine Holds.bind _ (marks_forNames fun n hn => marks_modify fun M a ha => ?_) (fun _ => ?_) (fun _ s h => by cases h.1)
      · rcases List.mem_cons.1 ha with rfl | ha
        · right; right
          obtain ⟨h1, ⟨x, rfl⟩, _⟩ := mem_under.1 hn
          unfold rebase
          rw [take_append_sub, moveTree_new]
          exact hS.held _ (hSm.2 _ h1).1
        · exact Or.inl ha
      · refine Holds.weaken (P' := Marks (moveTree S2.top old new) K) ?_ (fun _ h => h.2) (fun _ h => h) (fun _ _ h => h)
        refine Holds.bind _ (marks_forNames fun n _ => marks_modify fun M a ha => Or.inl ha) (fun _ => ?_) (fun _ s h => by cases h.1)
        refine Holds.weaken (P' := Marks (moveTree S2.top old new) K) ?_ (fun _ h => h.2) (fun _ h => h) (fun _ _ h => h)
        exact marks_forNames fun n _ => marks_modify fun M a ha => Or.inl (mem_filter_ne.1 ha).1
    · refine Holds.bind (fun r s => r = .ok () ∧ Marks (moveTree S2.top old new) K s) ?_ (fun _ => ?_) (fun _ s h => by cases h.1)
      · unfold whenOp
        refine Holds.ite (fun hdir => ?_) (fun _ => Holds.pure fun s h => h)
        refine (marks_modify (K := K) fun M a ha => ?_).weaken (fun _ h => h.2) (fun _ h => h) (fun _ _ h => h)
        rcases List.mem_cons.1 ha with rfl | ha
        · right; right
          have := moveTree_new S2.top old a []
          rw [List.nil_append, List.nil_append] at this
          rw [this]; exact hd hdir
        · exact Or.inl ha
      · refine Holds.weaken (P' := Marks (moveTree S2.top old new) K) ?_ (fun _ h => h.2) (fun _ h => h) (fun r s (h : r = .ok () ∧ _) => ⟨h.1, hheld s h.2⟩)
        refine Holds.ite (fun _ => ?_) (fun _ => marks_clearSubtree old)
        refine Holds.modify (fun _ _ => trivial) (fun s h => ⟨rfl, h.1, fun a ha => ?_⟩)
        have ha' := List.mem_filter.1 ha
        exact ⟨h.2 a ha'.1, by simpa using ha'.2⟩

theorem move_top {old new : Name} {S2 : Sys} (h1 : Ent old S2) (h2 : Ent new S2) : Holds (fun _ => True) (fun s => s = S2) (fsRename 0 old new)
    (fun r s => (r = .ok () → s.top = moveTree S2.top old new ∧ s.mask 0 = S2.mask 0) ∧ (r ≠ .ok () → s = S2)) := by
  have stop : ∀ e : Errno, Holds (fun _ => True) (fun s => s = S2) (Prog.fail e : Op Unit)
      (fun r s => (r = .ok () → s.top = moveTree S2.top old new ∧ s.mask 0 = S2.mask 0) ∧ (r ≠ .ok () → s = S2)) :=
    fun e => Holds.fail fun s hs => ⟨fun e => (by cases e), fun _ => hs⟩
  have go : Holds (fun _ => True) (fun s => s = S2) (Prog.modify (onTree 0 (fun t => moveTree t old new)) : Op Unit)
      (fun r s => (r = .ok () → s.top = moveTree S2.top old new ∧ s.mask 0 = S2.mask 0) ∧ (r ≠ .ok () → s = S2)) :=
    Holds.modify (fun _ _ => trivial) (fun s hs => ⟨fun _ => by rw [hs]; exact ⟨rfl, rfl⟩, fun h => absurd rfl h⟩)
  refine holds_get_fix ?_
  cases ha : (S2.layer 0).entry old with
  | error e => exact stop _
  | ok q =>
    cases hb : (S2.layer 0).entry new with
    | error e => exact stop _
    | ok r =>
      have e1 := h1 q ha
      have e2 := h2 r hb
      subst e1 e2
      simp only
      cases (S2.layer 0).tree q with
      | none => exact stop _
      | some nd =>
        refine Holds.ite (fun _ => stop _) (fun _ => Holds.ite (fun _ => stop _) (fun _ => ?_))
        cases (S2.layer 0).tree r with
        | none => exact go
        | some x =>
          cases x with
          | dir m => exact Holds.ite (fun _ => stop _) (fun _ => Holds.ite (fun _ => stop _) (fun _ => go))
          | _ => exact Holds.ite (fun _ => stop _) (fun _ => go)

theorem held_renameOp {S : Sys} (hS : Good S) {old new : Name} (hd1 : S.ViewDir old.tail) (hd2 : S.ViewDir new.tail) :
    Holds (fun _ => True) (fun s => s = S) (renameOp old new) (fun _ => Held) := by
  have hT := hS.sound.isTree
  have stop : ∀ e : Errno, Holds (fun _ => True) (fun s => s = S) (Prog.fail e : Op Unit) (fun _ => Held) := fun e => Holds.fail fun s hs => by rw [hs]; exact hS.held
  refine holds_get_fix (Holds.ite (fun _ => stop _) (fun hne => ?_))
  obtain ⟨co, dO, rfl⟩ := List.exists_cons_of_ne_nil fun e => hne (Or.inl e)
  cases hl : S.lookup (co :: dO) with
  | error e => exact stop e
  | ok x =>
    obtain ⟨i, nd⟩ := x
    have hv : S.view (co :: dO) = some nd := by rw [S.view_cons (d := dO) hd1, hl]
    refine Holds.ite (fun _ => Holds.pure fun s hs => by rw [hs]; exact hS.held) (fun _ => Holds.ite (fun _ => stop _) (fun _ => ?_))
    cases (if nd.isDir then renameDirCheck S (co :: dO) else none) with
    | some e => exact stop e
    | none =>
      simp only
      cases renameTargetCheck S new nd.isDir with
      | some e => exact stop e
      | none =>
        simp only
        refine Holds.bind (fun r s => Good s ∧ Grown S s ∧ (r = .ok () → s.top (co :: dO) = some nd)) ?_ (fun _ => ?_) (fun _ s h => h.1.held)
        · exact (Holds.and ((inv_copyUp closed_good (co :: dO)).at hS) (holds_copyUp hT (c := co) (d := dO) hd1 (fun ho => hS.held.ne_none ho))).weaken
            (fun _ h => h) (fun _ _ => trivial) (fun r s h => ⟨h.1, h.2.1, fun hr => by rw [(h.2.2 hr).2.1]; exact hv⟩)
        refine Holds.fix fun S1 h1 => ?_
        obtain ⟨hg1, hG1, ht1⟩ := h1
        have ht1 := ht1 rfl
        refine Holds.bind (fun _ s => Good s ∧ Grown S1 s) ((good_ensureParent hg1 ((hG1.viewDir hT _).2 hd2)).weaken (fun _ h => h) (fun _ _ => trivial) (fun _ _ h => h)) (fun _ => ?_)
          (fun _ s h => h.1.held)
        refine Holds.fix fun S2 h2 => ?_
        obtain ⟨hg2, hG2⟩ := h2
        have ht2 : S2.top (co :: dO) = some nd := by
          rcases hG2.top (co :: dO) with e | ⟨e, _⟩
          · rw [e]; exact ht1
          · rw [ht1] at e; cases e
        have hG := hG1.trans hT hG2
        have hdir : nd.isDir = true → ∃ m, S2.top (co :: dO) = some (.dir m) := by
          intro h
          cases nd with
          | dir m => exact ⟨m, ht2⟩
          | _ => cases h
        have go : ∀ b, Holds (fun _ => True) (fun s => s = S2) (do fsRename 0 (co :: dO) new; renameMarks (co :: dO) new nd.isDir b) (fun _ => Held) := by
          intro b
          refine Holds.bind _ (move_top (ent_of_view hg2.sound ((hG.viewDir hT _).2 hd1)) (ent_of_view hg2.sound ((hG.viewDir hT _).2 hd2))) (fun _ => ?_)
            (fun e s h => by rw [h.2 (by simp)]; exact hg2.held)
          exact (marks_rename hg2 nd.isDir b hdir).weaken (fun s h => h.1 rfl) (fun _ h => h) (fun _ _ h => h.2.2)
        refine holds_get_fix ?_
        cases S2.lookupFrom (co :: dO) 1 with
        | ok x => exact go true
        | error e => cases e <;> first | exact go false | exact Holds.fail fun s hs => by rw [hs]; exact hg2.held

/-- The directories above the names a call works on show as directories. -/
def Call.Placed (S : Sys) : Call → Prop
  | .remove n | .removeAll n _ | .mkdir n _ => S.ViewDir n.tail
  | .rename a b => S.ViewDir a.tail ∧ S.ViewDir b.tail
  | _ => True

def Call.isRename : Call → Prop
  | .rename _ _ => True
  | _ => False

/-- Calls on names whose parents show as directories. -/
abbrev PlacedCalls (S : Sys) (c : Call) : Prop := c.KeepsKind ∧ c.Placed S

/-- The process does not die in the middle of a rename. -/
abbrev NotInRename (c : Call) : Prop := ¬ c.isRename

theorem good_program {hs : List Handle} (hh : TopOnly hs) {S : Sys} (hS : Good S) {c : Call} (hc : PlacedCalls S c) (hr : NotInRename c) : InvAt Good S (program hs c) := by
  cases c with
  | chmod n m => exact (inv_chmodOp closed_good n m).at hS
  | attr n => exact (inv_copyUp closed_good n).at hS
  | openWrite n c e t perm => exact ((inv_openWriteOp closed_good _ _ _ _ _).bind fun _ => Inv.pure _).at hS
  | openRead n => exact (Inv.pure _).at hS
  | remove n => exact good_removeOp hS hc.2
  | removeAll n o => exact good_removeAllOp hS hc.2 o
  | mkdir n p => exact good_mkdirOp hS hc.2 p
  | mkdirAll n p => exact (good_mkdirAllOp p n).at hS
  | symlink t n => exact (inv_symlinkOp closed_good t n).at hS
  | link a b => exact (inv_linkOp closed_good a b).at hS
  | rename a b => exact absurd trivial hr
  | change h f =>
    simp only [program]
    cases hx : hs[h]? with
    | none => exact (Inv.pure _).at hS
    | some x => exact (inv_changeOp closed_good hh hc.1 (List.mem_of_getElem? hx)).at hS

theorem good_call {hs : List Handle} (hh : TopOnly hs) {S : Sys} (hS : Good S) {c : Call} (hc : PlacedCalls S c) : Good (final (program hs c) S) := by
  by_cases hr : NotInRename c
  · exact (good_program hh hS hc hr S rfl).2
  · cases c with
    | rename a b => exact ⟨(sound_renameOp a b S hS.sound).2, (held_renameOp hS hc.2.1 hc.2.2 S rfl).2⟩
    | _ => exact absurd (fun h => h) hr

/-- A history without a rename cut short. -/
abbrev CleanRuns := Runs PlacedCalls NotInRename

theorem good_runs {S0 S : Sys} {hs : List Handle} (h0 : Good S0) (h : CleanRuns S0 S hs) : Good S := by
  induction h with
  | start => exact h0
  | call c hr hm ih => exact good_call hr.topOnly ih hm
  | crash c hr hm hd ht ih => exact (good_program hr.topOnly ih hm hd _ rfl).1 _ ht

/-- **C73**. As long as the process does not die in the middle of a rename, every opaque mark is on a directory the top itself holds, at every point of every
history: no mark is left over from something that is gone. -/
theorem C73_marks_held_partial {S0 S : Sys} {hs : List Handle} (h0 : Sound S0) (hm : Held S0) (h : CleanRuns S0 S hs) :
    ∀ a ∈ (S.mask 0).op, ∃ m, S.top a = some (.dir m) := (good_runs ⟨h0, hm⟩ h).held

/-! ### the other properties, at every point of a history -/

/-- **C55** at every point of every history. -/
theorem C55_everywhere {S0 S : Sys} {hs : List Handle} (h0 : Sound S0) (h : Runs AnyCalls (fun _ => True) S0 S hs) {c : Str} {d : Name} (hd : S.ViewDir d) :
    (result (removeOp (c :: d)) S = .ok () → (∀ m, c :: d <:+ m → (final (removeOp (c :: d)) S).view m = none) ∧
      ∀ m, ¬ c :: d <:+ m → (final (removeOp (c :: d)) S).view m = S.view m) ∧
    (∀ S' ∈ crashes (removeOp (c :: d)) S ++ [final (removeOp (c :: d)) S], OnlyGone (c :: d) S S') ∧
    ∀ steps, (result (removeAllOp (c :: d) steps) S = .ok () → (∀ m, c :: d <:+ m → (final (removeAllOp (c :: d) steps) S).view m = none) ∧
        ∀ m, ¬ c :: d <:+ m → (final (removeAllOp (c :: d) steps) S).view m = S.view m) ∧
      ∀ S' ∈ crashes (removeAllOp (c :: d) steps) S ++ [final (removeAllOp (c :: d) steps) S], OnlyGone (c :: d) S S' := by
  have hS := sound_runs h0 h
  have h1 := C55_remove hS.trees hS.lists (c := c) hd
  refine ⟨h1.1, fun S' hS' => ?_, fun steps => ?_⟩
  · rcases List.mem_append.1 hS' with h' | h'
    · exact h1.2.1 S' h'
    · rw [List.mem_singleton.1 h']; exact h1.2.2
  · have h2 := C55_removeAll hS.trees (c := c) hd steps
    refine ⟨h2.1, fun S' hS' => ?_⟩
    rcases List.mem_append.1 hS' with h' | h'
    · exact h2.2.1 S' h'
    · rw [List.mem_singleton.1 h']; exact h2.2.2

/-- **C56** at every point of a history without a rename cut short. -/
theorem C56_everywhere_partial {S0 S : Sys} {hs : List Handle} (h0 : Sound S0) (hm : Held S0) (h : CleanRuns S0 S hs) (perm : Nat) :
    (∀ c d, S.ViewDir d → S.view (c :: d) = none → result (mkdirOp (c :: d) perm) S = .ok () →
      (∃ k, (final (mkdirOp (c :: d) perm) S).view (c :: d) = some (.dir k)) ∧
      (∀ m, c :: d <:+ m → m ≠ c :: d → (final (mkdirOp (c :: d) perm) S).view m = none) ∧
      (∀ m, m ≠ c :: d → SameButDirMode ((final (mkdirOp (c :: d) perm) S).view m) (S.view m)) ∧
      (final (mkdirOp (c :: d) perm) S).readDir (c :: d) = .ok []) ∧
    (∀ c d, S.ViewDir d → S.view (c :: d) = none → ∀ S' ∈ crashes (mkdirOp (c :: d) perm) S ++ [final (mkdirOp (c :: d) perm) S], OnlyNewDirs (fun m => m = c :: d) S S') ∧
    ∀ n, (result (mkdirAllOp perm n) S = .ok () → (final (mkdirAllOp perm n) S).ViewDir n) ∧
      ∀ S' ∈ crashes (mkdirAllOp perm n) S ++ [final (mkdirAllOp perm n) S], OnlyNewDirs (fun a => a <:+ n) S S' := by
  have hS := good_runs ⟨h0, hm⟩ h
  refine ⟨fun c d hd hv hr => ?_, fun c d hd hv => ?_, fun n => ?_⟩
  · obtain ⟨h1, h2, h3⟩ := (C56_mkdir_partial hS.sound.trees hd hv (fun ho => hS.held.ne_none ho) perm).1 hr
    refine ⟨h1, h2, h3, ?_⟩
    exact C56_listing_partial hS.sound.trees hd hv (fun ho => hS.held.ne_none ho) perm hr (sound_mkdirOp (c :: d) perm S hS.sound).2.lists
  · exact (C56_mkdir_partial hS.sound.trees hd hv (fun ho => hS.held.ne_none ho) perm).2
  · exact C56_mkdirAll_partial hS.sound.trees (fun a _ ho => hS.held.ne_none ho) perm

/-- **C57** at every point of a history without a rename cut short. -/
theorem C57_everywhere_partial {S0 S : Sys} {hs : List Handle} (h0 : Sound S0) (hm : Held S0) (h : CleanRuns S0 S hs) {c : Str} {d : Name} (hd : S.ViewDir d) :
    (∀ S' ∈ crashes (copyUp (c :: d)) S ++ [final (copyUp (c :: d)) S], ∀ m, SameButDirMode (S'.view m) (S.view m)) ∧
    (result (copyUp (c :: d)) S = .ok () → (∀ m, (m = c :: d ∨ ¬ m <:+ c :: d) → (final (copyUp (c :: d)) S).view m = S.view m) ∧
      (final (copyUp (c :: d)) S).top (c :: d) = S.view (c :: d) ∧ (S0.last ≤ 1 → ∀ m, (final (copyUp (c :: d)) S).view m = S.view m)) := by
  have hS := good_runs ⟨h0, hm⟩ h
  have ho : c :: d ∈ (S.mask 0).op → S.top (c :: d) ≠ none := fun ho => hS.held.ne_none ho
  have h1 := C57_copyUp_partial hS.sound.trees hd ho
  refine ⟨h1.1, fun hr => ⟨h1.2.1 hr, h1.2.2 hr, fun hl m => ?_⟩⟩
  have hlast : S.last = S0.last := by
    clear hd h1 ho hS hr
    have : LowerSame S0 S := by
      induction h with
      | start => exact LowerSame.refl _
      | call c hr _ ih => exact (keeps_program hr.topOnly c S0 _ ih).2
      | crash c hr _ _ ht ih => exact (keeps_program hr.topOnly c S0 _ ih).1 _ ht
    exact this.1
  exact C57_one_lower hS.sound.trees (by rw [hlast]; exact hl) hd ho hr m

/-- **C58** at every point of a history without a rename cut short. -/
theorem C58_everywhere_partial {S0 S : Sys} {hs : List Handle} (h0 : Sound S0) (hm : Held S0) (h : CleanRuns S0 S hs) {co cn : Str} {dO dn : Name}
    (hd1 : S.ViewDir dO) (hd2 : S.ViewDir dn) :
    (co :: dO ≠ cn :: dn → result (renameOp (co :: dO) (cn :: dn)) S = .ok () →
      (∀ r, (final (renameOp (co :: dO) (cn :: dn)) S).view (r ++ cn :: dn) = S.view (r ++ co :: dO)) ∧
      (∀ m, co :: dO <:+ m → (final (renameOp (co :: dO) (cn :: dn)) S).view m = none) ∧
      ∀ m, ¬ co :: dO <:+ m → ¬ cn :: dn <:+ m → SameButDirMode ((final (renameOp (co :: dO) (cn :: dn)) S).view m) (S.view m)) ∧
    (result (renameOp (co :: dO) (cn :: dn)) S ≠ .ok () → ∀ m, SameButDirMode ((final (renameOp (co :: dO) (cn :: dn)) S).view m) (S.view m)) := by
  have hS := good_runs ⟨h0, hm⟩ h
  exact ⟨fun hne hr => C58_rename_partial hS.sound.trees hd1 hd2 (fun ho => hS.held.ne_none ho) (fun ho => hS.held.ne_none ho) hne hr,
    fun hr m => C58_failed_partial hS.sound.trees hd1 hd2 (fun ho => hS.held.ne_none ho) (fun ho => hS.held.ne_none ho) hr m⟩

/-- **C59** at every point of a history without an earlier rename cut short: a rename cut short now loses nothing. -/
theorem C59_everywhere_partial {S0 S : Sys} {hs : List Handle} (h0 : Sound S0) (hm : Held S0) (h : CleanRuns S0 S hs) {co cn : Str} {dO dn : Name}
    (hd1 : S.ViewDir dO) (hd2 : S.ViewDir dn) (hne : co :: dO ≠ cn :: dn) : ∀ S' ∈ crashes (renameOp (co :: dO) (cn :: dn)) S,
      (∀ m, ¬ co :: dO <:+ m → ¬ cn :: dn <:+ m → SameButDirMode (S'.view m) (S.view m)) ∧
      ((∀ m, SameButDirMode (S'.view m) (S.view m)) ∨ ∀ r x, S.view (r ++ co :: dO) = some x → S'.view (r ++ cn :: dn) = some x) := by
  have hS := good_runs ⟨h0, hm⟩ h
  intro S' hS'
  exact ⟨C59_others_partial hS.sound.trees hd1 hd2 (fun ho => hS.held.ne_none ho) (fun ho => hS.held.ne_none ho) hne S' hS',
    C59_no_loss_partial hS.sound.trees hd1 hd2 (fun ho => hS.held.ne_none ho) (fun ho => hS.held.ne_none ho) hne S' hS'⟩

/-- **C68** at every point of a history without a rename cut short: whatever one of these calls does, at every point during it only its own name shows
something else than before (permission bits of directories excepted). -/
theorem C68_everywhere_partial {S0 S : Sys} {hs : List Handle} (h0 : Sound S0) (hm : Held S0) (h : CleanRuns S0 S hs) {c : Str} {d : Name} (hd : S.ViewDir d) :
    (∀ nd, S.view (c :: d) = some nd → nd.isLink = false → ∀ mode,
      (result (chmodOp (c :: d) mode) S = .ok () → (final (chmodOp (c :: d) mode) S).view (c :: d) = some (nd.withMode mode)) ∧
      ∀ S' ∈ crashes (chmodOp (c :: d) mode) S ++ [final (chmodOp (c :: d) mode) S], OnlyAt (c :: d) (some (nd.withMode mode)) S S') ∧
    (∀ nd, S.view (c :: d) = some nd → nd.isLink = false → ∀ create excl trunc perm,
      ∀ S' ∈ crashes (openWriteOp (c :: d) create excl trunc perm) S ++ [final (openWriteOp (c :: d) create excl trunc perm) S],
        OnlyAt (c :: d) (some (openedNode nd trunc)) S S') ∧
    (S.view (c :: d) = none → ∀ excl trunc perm, (∀ q, result (openWriteOp (c :: d) true excl trunc perm) S = .ok q → q = c :: d ∧
        ∃ k, (final (openWriteOp (c :: d) true excl trunc perm) S).view (c :: d) = some (.file k [])) ∧
      ∀ S' ∈ crashes (openWriteOp (c :: d) true excl trunc perm) S ++ [final (openWriteOp (c :: d) true excl trunc perm) S],
        ∃ k, OnlyAt (c :: d) (some (.file k [])) S S') ∧
    (S.view (c :: d) = none → ∀ target, (result (symlinkOp target (c :: d)) S = .ok () → (final (symlinkOp target (c :: d)) S).view (c :: d) = some (.link target)) ∧
      ∀ S' ∈ crashes (symlinkOp target (c :: d)) S ++ [final (symlinkOp target (c :: d)) S], OnlyAt (c :: d) (some (.link target)) S S') ∧
    (S.view (c :: d) = none → ∀ co dO, S.ViewDir dO → (result (linkOp (co :: dO) (c :: d)) S = .ok () → (final (linkOp (co :: dO) (c :: d)) S).view (c :: d) = S.view (co :: dO)) ∧
      ∀ S' ∈ crashes (linkOp (co :: dO) (c :: d)) S ++ [final (linkOp (co :: dO) (c :: d)) S], OnlyAt (c :: d) (S.view (co :: dO)) S S') := by
  have hS := good_runs ⟨h0, hm⟩ h
  have hT := hS.sound.trees
  have ho : ∀ a, a ∈ (S.mask 0).op → S.top a ≠ none := fun a ho => hS.held.ne_none ho
  refine ⟨fun nd hv hl mode => ?_, fun nd hv hl cr e t p => ?_, fun hv e t p => ?_, fun hv t => ?_, fun hv co dO hdO => ?_⟩
  · have := C68_chmod_partial hT hd hv hl (ho _) mode
    exact ⟨this.1, this.2.2⟩
  · exact (C68_open_partial hT hd hv hl (ho _) cr e t p).2.2
  · have := C68_create_partial hT hd hv (ho _) e t p
    exact ⟨fun q hq => ⟨(this.1 q hq).1, (this.1 q hq).2.imp fun k hk => hk.1⟩, this.2.2⟩
  · have := C68_symlink_partial hT hd hv (ho _) t
    exact ⟨this.1, this.2.2⟩
  · have := C68_link_partial hT (co := co) hdO hd hv (ho _) (ho _)
    exact ⟨fun hr => (this.1 hr).1, this.2.2⟩

/-! ### a layer that lists its directories, and histories -/

namespace Example

/-- Without repetitions. -/
def nub : List Str → List Str
  | [] => []
  | x :: xs => if x ∈ nub xs then nub xs else x :: nub xs

theorem mem_nub {a : Str} {l : List Str} : a ∈ nub l ↔ a ∈ l := by
  induction l with
  | nil => exact Iff.rfl
  | cons x xs ih =>
    unfold nub
    by_cases hx : x ∈ nub xs
    · rw [if_pos hx, ih, List.mem_cons]
      refine ⟨Or.inr, fun h => h.elim (fun e => ?_) id⟩
      rw [e] at ih ⊢
      exact ih.1 hx
    · rw [if_neg hx, List.mem_cons, List.mem_cons, ih]

theorem nodup_nub : ∀ l : List Str, (nub l).Nodup
  | [] => List.nodup_nil
  | x :: xs => by
    unfold nub
    split
    · exact nodup_nub xs
    · rename_i h; exact List.nodup_cons.2 ⟨h, nodup_nub xs⟩

open Classical in
/-- A listing of any directory of any tree. -/
noncomputable def enumAny (t : Tree) (d : Name) : List Str :=
  if h : ∃ l : List Str, l.Nodup ∧ ∀ c, c ∈ l ↔ t (c :: d) ≠ none then h.choose else []

theorem enumAny_spec {t : Tree} (h : TreeOk t) (d : Name) : (enumAny t d).Nodup ∧ ∀ c, c ∈ enumAny t d ↔ t (c :: d) ≠ none := by
  have hex : ∃ l : List Str, l.Nodup ∧ ∀ c, c ∈ l ↔ t (c :: d) ≠ none := by
    obtain ⟨l, hl⟩ := h.finite
    refine ⟨nub ((l.filter (fun n => decide (n.tail = d) && decide (n ≠ []) && (t n).isSome)).map (fun n => n.headD [])), nodup_nub _, fun c => ?_⟩
    rw [mem_nub, List.mem_map]
    constructor
    · rintro ⟨n, hn, rfl⟩
      simp only [List.mem_filter, Bool.and_eq_true, decide_eq_true_eq] at hn
      obtain ⟨_, ⟨h1, h2⟩, h3⟩ := hn
      obtain ⟨c, d', rfl⟩ := List.exists_cons_of_ne_nil h2
      rw [List.tail_cons] at h1
      subst h1
      intro e
      rw [List.headD_cons] at e
      rw [e] at h3; cases h3
    · intro hc
      refine ⟨c :: d, ?_, rfl⟩
      simp only [List.mem_filter, Bool.and_eq_true, decide_eq_true_eq]
      exact ⟨hl _ hc, ⟨rfl, by simp⟩, Option.isSome_iff_ne_none.2 hc⟩
  unfold enumAny
  rw [dif_pos hex]
  exact hex.choose_spec

/-- `s4` over a top that lists its directories. -/
noncomputable def s4e : Sys := { s4 with layer := fun k => if k = 0 then { s4.layer 0 with enum := enumAny } else s4.layer k }

theorem s4e_sound : Sound s4e ∧ Held s4e := by
  have ht := s4_trees.1 0 (Nat.zero_le _)
  refine ⟨⟨⟨ht.root, ht.closed, [[]], fun n hn => ?_⟩, fun t h d _ _ => enumAny_spec h d, fun j hj hl => ?_⟩, fun x hx => nomatch hx⟩
  · cases n with
    | nil => exact List.mem_singleton.2 rfl
    | cons c d =>
      exfalso
      apply hn
      show treeOf [([], .dir 0o755)] (c :: d) = none
      simp [treeOf]
  · have e : s4e.layer j = s4.layer j := if_neg (by omega)
    rw [e]
    exact s4_trees.1 j hl

/-- After `RemoveAll("a")` and `Mkdir("a")`: `a` is a fresh directory of the top with a mark on it, over the `a` of the lower layer. -/
noncomputable def s5e : Sys := final (mkdirOp [a] 0o755) (final (removeAllOp [a] []) s4e)

theorem s5e_runs : CleanRuns s4e s5e [] :=
  .call (.mkdir [a] 0o755) (.call (.removeAll [a] []) .start ⟨trivial, ⟨_, rfl⟩⟩) ⟨trivial, ⟨_, rfl⟩⟩

end Example

open Example in
/-- A history with a mark, and what the properties above say is true there for a reason: the marked directory hides an entry of the lower layer. -/
example : Sound s4e ∧ Held s4e ∧ CleanRuns s4e s5e [] ∧ (s5e.mask 0).op = [[a]] ∧ s5e.top [a] = some (.dir 0o755) ∧ s5e.ViewDir [] ∧ s5e.ViewDir [a] ∧
    s5e.view [x, a] = none ∧ (s5e.layer 1).tree [x, a] = some (.file 0o644 ['1']) ∧ s5e.view [b] = none ∧ result (mkdirOp [b] 0o700) s5e = .ok () ∧
    result (renameOp [a] [b]) s5e = .ok () ∧ (crashes (renameOp [a] [b]) s5e).length ≠ 0 ∧ result (copyUp [a]) s5e = .ok () :=
  ⟨s4e_sound.1, s4e_sound.2, s5e_runs, rfl, rfl, ⟨_, rfl⟩, ⟨_, rfl⟩, rfl, rfl, rfl, rfl, rfl, by decide, rfl⟩

open Example in
/-- **C73** fails once the process dies in the middle of a rename: the mark is left on a name the top no longer holds. -/
theorem C73_counterexample_rename_cut_short :
    ∃ T, Sound s4e ∧ Held s4e ∧ CleanRuns s4e s5e [] ∧ T ∈ crashes (renameOp [a] [b]) s5e ∧ [a] ∈ (T.mask 0).op ∧ T.top [a] = none :=
  ⟨_, s4e_sound.1, s4e_sound.2, s5e_runs, List.mem_of_getElem? (i := 0) rfl, by decide, rfl⟩

end Verif.Overlay.Stack
