import Verif.Common.Bytes
import Verif.Common.Path
/-
C133: modes, times and owners of entries when the overlay copies them up, /repo/vroot-adapter/overlayfs/copyup.go 77-219 (`CopyUp`, `copyRegular`, `materializeParents`, `copyAttrs`),
write.go 48-72 (`copyUp`) and 104-146 (`mutateTop`, `mutateLocked`), chmod.go.

The models of C57 and the like have permission bits only, and no times and owners. Here an entry has all of them, and what is left out instead: marks, several lower layers (the lower
one here is what the layers below the top show; that a directory is copied from the layer of the entry and not from the one that shows it is a finding of C57), failures of calls other than of the attributes and of permissions, and symlinks on the way.
Trusted is what a Unix filesystem does: a new entry has the mode asked for without the umask, the time of its making and the user of the process, and making or moving an entry
into a directory sets the time of the directory.
-/
namespace Verif.Overlay.Attrs
open Verif Verif.Path

/-! ### Model -/

/-- The types a copy-up carries over, copyup.go 89-91. -/
inductive Kind where
  | file (content : Bytes)
  | dir
  | link (target : Str)
deriving DecidableEq

/-- What `Lstat` reports of an entry, and its content. -/
structure Ent where
  kind : Kind
  /-- permissions, and above them the bits for setuid, setgid and sticky -/
  mode : BitVec 12
  mtime : Nat
  uid : Nat
deriving DecidableEq

/-- A cleaned name by components; the root is `[]` (metadatastore.go 55 `cleanName`). -/
abbrev Name := List Str
/-- The content of a layer. -/
abbrev Tree := Name → Option Ent

/-- The process and the backend of the top. -/
structure Env where
  umask : BitVec 12
  /-- the user of the process -/
  me : Nat
  /-- the process is the superuser -/
  super : Bool
  /-- when the entry of a name is made -/
  now : Name → Nat
  /-- which calls of `Chmod` and `Chtimes` on the top succeed -/
  chmodOk : Name → Bool
  chtimesOk : Name → Bool

/-- std `FileMode.Perm`. -/
def perm (m : BitVec 12) : BitVec 12 := m &&& 0x1ff#12

/-- The entry of a name replaced. -/
def set (T : Tree) (p : Name) (e : Ent) : Tree := fun q => if q = p then some e else T q

/-- An entry was put into the directory of `p`. -/
def touch (env : Env) (T : Tree) (p : Name) : Tree := fun q => if q = p.dropLast then (T q).map (fun d => { d with mtime := env.now p }) else T q

/-- Unix: entries can be put into a directory with write and search permission on it. -/
def mayPut (env : Env) (T : Tree) (p : Name) : Bool :=
  env.super || match T p.dropLast with
    | some d => if d.uid = env.me then d.mode &&& 0x0c0#12 = 0x0c0#12 else d.mode &&& 0x003#12 = 0x003#12
    | none => false

/-- copyup.go 216-219 `copyAttrs`, on an entry. -/
def copyAttrs (env : Env) (p : Name) (info : Ent) (e : Ent) : Ent :=
  let e := if env.chmodOk p then { e with mode := perm info.mode } else e
  if env.chtimesOk p then { e with mtime := info.mtime } else e

/-- A new entry, as the system makes it. -/
def fresh (env : Env) (p : Name) (k : Kind) (m : BitVec 12) : Ent := { kind := k, mode := m &&& ~~~env.umask, mtime := env.now p, uid := env.me }

/-- copyup.go 183-205, one directory on the way: made if the top has none, like the one of the layer below, if that has one. -/
def parent1 (env : Env) (L : Tree) (T : Tree) (p : Name) : Option Tree :=
  match T p with
  | some _ => some T
  | none =>
    if mayPut env T p then
      match L p with
      | some info => some (set (touch env T p) p (copyAttrs env p info (fresh env p .dir (perm info.mode))))
      | none => some (set (touch env T p) p (fresh env p .dir 0x1ff#12))
    else none

/-- copyup.go 172-206 `materializeParents`: the directories above `n`, the first `k` of them, shallowest first. -/
def parents (env : Env) (L : Tree) (T : Tree) (n : Name) : Nat → Option Tree
  | 0 => some T
  | k + 1 => (parents env L T n k).bind fun T => parent1 env L T (n.take (k + 1))

/-- copyup.go 77-119 `CopyUp`, with 122-164 `copyRegular`: the file is made, filled and given its attributes among the staged files before it is moved. -/
def policy (env : Env) (L : Tree) (T : Tree) (n : Name) (info : Ent) : Option Tree :=
  (parents env L T n (n.length - 1)).bind fun T =>
    if mayPut env T n then
      match info.kind with
      | .dir => some (set (touch env T n) n (copyAttrs env n info (fresh env n .dir (perm info.mode))))
      | .link t => some (set (touch env T n) n { kind := .link t, mode := 0x1ff#12, mtime := env.now n, uid := env.me })
      | .file b => some (set (touch env T n) n (copyAttrs env n info (fresh env n (.file b) (perm info.mode))))
    else none

/-- write.go 48-72 `copyUp`. -/
def copyUp (env : Env) (L : Tree) (T : Tree) (n : Name) : Option Tree :=
  if n = [] then some T
  else match T n with
    | some _ => some T
    | none => match L n with
      | none => some T
      | some info => policy env L T n info

/-- write.go 138-146 `mutateLocked`: copied up, then changed in the top; `change` is `Chmod`, `Chown` or `Chtimes` there. -/
def mutate (env : Env) (L : Tree) (T : Tree) (n : Name) (change : Ent → Ent) : Option Tree :=
  (copyUp env L T n).map fun T => fun q => if q = n then (T q).map change else T q

/-! ### Specification -/

/-- What the overlay shows. -/
def shown (L T : Tree) (p : Name) : Option Ent := match T p with | some e => some e | none => L p

/-- The name lies in directories, and the top has the first of them: it has the root, and nothing below one it does not have. -/
structure Placed (L T : Tree) (n : Name) : Prop where
  root : ∃ d, T [] = some d
  above : ∀ k, k < n.length → ∃ d, shown L T (n.take k) = some d ∧ d.kind = .dir
  first : ∀ k, T (n.take k) = none → T (n.take (k + 1)) = none

/-- The process may change all directories above the name, and those of the top are its own; or it is the superuser. -/
def Allowed (env : Env) (L T : Tree) (n : Name) : Prop :=
  env.super = true ∨ ∀ k, k < n.length → ∀ d, shown L T (n.take k) = some d → d.mode &&& 0x0c0#12 = 0x0c0#12 ∧ (T (n.take k) = some d → d.uid = env.me)

/-- The entry as it is copied. -/
def copied (env : Env) (n : Name) (e : Ent) : Ent :=
  match e.kind with
  | .link t => { kind := .link t, mode := 0x1ff#12, mtime := env.now n, uid := env.me }
  | k => { kind := k, mode := perm e.mode, mtime := e.mtime, uid := env.me }

/-- A directory above the name: taken from below if the top has none, and with a new time if it gets a new entry. -/
def above (env : Env) (T : Tree) (n : Name) (k : Nat) (d : Ent) : Ent :=
  let d := if T (n.take k) = none then { d with mode := perm d.mode, uid := env.me } else d
  if T (n.take (k + 1)) = none then { d with mtime := env.now (n.take (k + 1)) } else d

/-! ### Lemmas -/

/-- The tree after the first `k` directories. -/
def after (env : Env) (L T : Tree) (n : Name) (k : Nat) : Tree := fun p =>
  if p = n.take p.length ∧ p.length ≤ k then
    (shown L T p).map fun d =>
      let d := if T p = none then { d with mode := perm d.mode, uid := env.me } else d
      if p.length < k ∧ T (n.take (p.length + 1)) = none then { d with mtime := env.now (n.take (p.length + 1)) } else d
  else T p

theorem take_length {n : Name} {k : Nat} (hk : k ≤ n.length) : (n.take k).length = k := by rw [List.length_take]; omega

theorem take_drop_last {n : Name} {k : Nat} (hk : k + 1 ≤ n.length) : (n.take (k + 1)).dropLast = n.take k := by
  rw [List.dropLast_eq_take, take_length hk, List.take_take]
  congr 1
  omega

theorem perm_perm (m : BitVec 12) : perm (perm m) = perm m := by unfold perm; rw [BitVec.and_assoc, BitVec.and_self]

theorem perm_bits {m : BitVec 12} (h : m &&& 0x0c0#12 = 0x0c0#12) : perm m &&& 0x0c0#12 = 0x0c0#12 := by
  unfold perm
  rw [BitVec.and_assoc, show (0x1ff#12 &&& 0x0c0#12) = 0x0c0#12 by decide, h]

theorem after_zero {env : Env} {L T : Tree} {n : Name} (h : Placed L T n) : after env L T n 0 = T := by
  funext p
  unfold after
  by_cases hp : p = n.take p.length ∧ p.length ≤ 0
  · rw [if_pos hp]
    have : p = [] := List.length_eq_zero_iff.1 (by omega)
    subst this
    obtain ⟨d, hd⟩ := h.root
    simp [shown, hd]
  · rw [if_neg hp]

theorem after_may {env : Env} {L T : Tree} {n : Name} (h : Placed L T n) (ha : Allowed env L T n) {k : Nat} (hk : k < n.length) {p : Name} (hp : p.dropLast = n.take k) :
    mayPut env (after env L T n k) p = true := by
  unfold mayPut
  rcases ha with hs | ha
  · rw [hs]; rfl
  · obtain ⟨d, hd, _⟩ := h.above k hk
    obtain ⟨hm, hu⟩ := ha k hk d hd
    have hl : (n.take k).length = k := take_length (by omega)
    have hval : after env L T n k (n.take k) = some (if T (n.take k) = none then { d with mode := perm d.mode, uid := env.me } else d) := by
      unfold after
      rw [if_pos ⟨by rw [hl], by omega⟩, hd, Option.map_some, hl]
      simp
    rw [hp, hval]
    cases ht : T (n.take k) with
    | none => simp [perm_bits hm]
    | some d' =>
      have : d' = d := by unfold shown at hd; rw [ht] at hd; exact Option.some.inj hd
      subst this
      simp [hu ht, hm]

theorem fresh_copied {env : Env} (hm : ∀ p, env.chmodOk p = true) (ht : ∀ p, env.chtimesOk p = true) (p : Name) (info : Ent) (k : Kind) (m : BitVec 12) :
    copyAttrs env p info (fresh env p k m) = { kind := k, mode := perm info.mode, mtime := info.mtime, uid := env.me } := by
  unfold copyAttrs
  simp [hm, ht, fresh]

theorem after_step {env : Env} {L T : Tree} {n : Name} (hm : ∀ p, env.chmodOk p = true) (ht : ∀ p, env.chtimesOk p = true) (h : Placed L T n) (ha : Allowed env L T n) {k : Nat} (hk : k + 1 < n.length) :
    parent1 env L (after env L T n k) (n.take (k + 1)) = some (after env L T n (k + 1)) := by
  have hl : (n.take (k + 1)).length = k + 1 := take_length (by omega)
  have hl0 : (n.take k).length = k := take_length (by omega)
  have hdl : (n.take (k + 1)).dropLast = n.take k := take_drop_last (by omega)
  have hcur : after env L T n k (n.take (k + 1)) = T (n.take (k + 1)) := by
    unfold after
    rw [if_neg (by rw [hl]; omega)]
  obtain ⟨d, hd, hdir⟩ := h.above (k + 1) hk
  unfold parent1
  rw [hcur]
  cases hT : T (n.take (k + 1)) with
  | some e =>
    refine congrArg some ?_
    funext p
    unfold after
    by_cases hp : p = n.take p.length
    · by_cases hle : p.length ≤ k
      · rw [if_pos ⟨hp, hle⟩, if_pos ⟨hp, by omega⟩]
        congr 1
        funext x
        by_cases hlt : p.length < k
        · simp [hlt, show p.length < k + 1 by omega]
        · have : p.length = k := by omega
          simp [this, hT]
      · by_cases hle' : p.length ≤ k + 1
        · have hpe : p.length = k + 1 := by omega
          have hpp : p = n.take (k + 1) := by rw [← hpe]; exact hp
          rw [if_neg (by omega), if_pos ⟨hp, by omega⟩, hpp, hl, hT]
          simp [shown, hT]
        · rw [if_neg (by omega), if_neg (by omega)]
    · rw [if_neg (fun e => hp e.1), if_neg (fun e => hp e.1)]
  | none =>
    have hL : L (n.take (k + 1)) = some d := by unfold shown at hd; rw [hT] at hd; exact hd
    simp only [after_may h ha (by omega) hdl, if_true, hL, fresh_copied hm ht]
    refine congrArg some ?_
    funext p
    unfold set touch
    by_cases hpn : p = n.take (k + 1)
    · rw [if_pos hpn]
      unfold after
      rw [hpn, hl, if_pos ⟨rfl, Nat.le_refl _⟩, hd, Option.map_some]
      simp [hT, hdir]
    · rw [if_neg hpn, hdl]
      by_cases hp0 : p = n.take k
      · rw [if_pos hp0, hp0]
        unfold after
        rw [hl0, if_pos ⟨rfl, Nat.le_refl _⟩, if_pos ⟨rfl, by omega⟩]
        rw [Option.map_map]
        congr 1
        funext x
        simp [hT]
      · rw [if_neg hp0]
        unfold after
        by_cases hp : p = n.take p.length
        · have hne1 : p.length ≠ k + 1 := fun e => hpn (by rw [← e]; exact hp)
          have hne0 : p.length ≠ k := fun e => hp0 (by rw [← e]; exact hp)
          by_cases hle : p.length ≤ k
          · rw [if_pos ⟨hp, hle⟩, if_pos ⟨hp, by omega⟩]
            simp [show p.length < k by omega, show p.length < k + 1 by omega]
          · rw [if_neg (by omega), if_neg (by omega)]
        · rw [if_neg (fun e => hp e.1), if_neg (fun e => hp e.1)]

theorem parents_after {env : Env} {L T : Tree} {n : Name} (hm : ∀ p, env.chmodOk p = true) (ht : ∀ p, env.chtimesOk p = true) (h : Placed L T n) (ha : Allowed env L T n) :
    ∀ k, k < n.length → parents env L T n k = some (after env L T n k) := by
  intro k
  induction k with
  | zero => intro _; rw [after_zero h]; rfl
  | succ k ih =>
    intro hk
    rw [parents, ih (by omega), Option.bind_some, after_step hm ht h ha hk]

/-- The whole copy-up. -/
theorem copyUp_eq {env : Env} {L T : Tree} {n : Name} (hm : ∀ p, env.chmodOk p = true) (ht : ∀ p, env.chtimesOk p = true) (h : Placed L T n) (ha : Allowed env L T n)
    {e : Ent} (hn : n ≠ []) (hT : T n = none) (hL : L n = some e) :
    copyUp env L T n = some (set (touch env (after env L T n (n.length - 1)) n) n (copied env n e)) := by
  have hlen : 0 < n.length := List.length_pos_iff.2 hn
  have hdl : n.dropLast = n.take (n.length - 1) := List.dropLast_eq_take
  unfold copyUp
  rw [if_neg hn, hT, hL]
  simp only [policy]
  rw [parents_after hm ht h ha _ (by omega), Option.bind_some, if_pos (after_may h ha (by omega) hdl)]
  cases hk : e.kind with
  | dir => simp only [fresh_copied hm ht, copied, hk]
  | link t => simp only [copied, hk]
  | file b => simp only [fresh_copied hm ht, copied, hk]

/-! ### Property C133 -/

/-- **C133** (copy-up). For every entry of the layers below and every name: a copy-up that may put entries where it has to succeeds. The entry then shows what it showed before, except for the owner and
the bits above the permissions, and for a link the time; a directory above it shows the same, except for these and for the time when it gets an entry in the top. Everything else is untouched.
Missing from C133: these exceptions, and directories that may not be written (counterexamples below). -/
theorem C133_copyup_partial (env : Env) (hm : ∀ p, env.chmodOk p = true) (ht : ∀ p, env.chtimesOk p = true) (L T : Tree) (n : Name) (hn : n ≠ []) (h : Placed L T n) (ha : Allowed env L T n)
    (e : Ent) (hT : T n = none) (hL : L n = some e) :
    ∃ T', copyUp env L T n = some T' ∧
      shown L T' n = some (copied env n e) ∧
      (∀ k d, k < n.length → shown L T (n.take k) = some d → shown L T' (n.take k) = some (above env T n k d)) ∧
      (∀ p, ¬p <+: n → T' p = T p) := by
  have hlen : 0 < n.length := List.length_pos_iff.2 hn
  have hdl : n.dropLast = n.take (n.length - 1) := List.dropLast_eq_take
  refine ⟨_, copyUp_eq hm ht h ha hn hT hL, ?_, ?_, ?_⟩
  · simp [shown, set]
  · intro k d hk hd
    have hl : (n.take k).length = k := take_length (by omega)
    have hne : n.take k ≠ n := fun he => by rw [he] at hl; omega
    have hval : after env L T n (n.length - 1) (n.take k) =
        some (let d := if T (n.take k) = none then { d with mode := perm d.mode, uid := env.me } else d
              if k < n.length - 1 ∧ T (n.take (k + 1)) = none then { d with mtime := env.now (n.take (k + 1)) } else d) := by
      unfold after
      rw [hl, if_pos ⟨rfl, by omega⟩, hd, Option.map_some]
    have hset : set (touch env (after env L T n (n.length - 1)) n) n (copied env n e) (n.take k) = some (above env T n k d) := by
      unfold set touch
      rw [if_neg hne, hdl]
      by_cases hlast : k = n.length - 1
      · have hfull : n.take (k + 1) = n := List.take_of_length_le (by omega)
        rw [if_pos (by rw [hlast]), hval, Option.map_some]
        unfold above
        rw [hfull, hT]
        simp [show ¬(k < n.length - 1) by omega]
      · rw [if_neg (fun he => hlast (by have := congrArg List.length he; rw [hl, take_length (by omega)] at this; exact this)), hval]
        unfold above
        simp [show k < n.length - 1 by omega]
    unfold shown
    rw [hset]
  · intro p hp
    have h1 : p ≠ n := fun he => hp (he ▸ List.prefix_refl _)
    have h2 : p ≠ n.dropLast := fun he => hp (he ▸ List.dropLast_prefix n)
    unfold set touch
    rw [if_neg h1, if_neg h2]
    unfold after
    rw [if_neg (fun he => hp (by rw [he.1]; exact List.take_prefix ..))]

/-- **C133** (calls). `Chmod`, `Chown` and `Chtimes` of an entry of the layers below change in the copy what they are to change; of an entry the top has, they change that and nothing else. -/
theorem C133_calls_partial (env : Env) (hm : ∀ p, env.chmodOk p = true) (ht : ∀ p, env.chtimesOk p = true) (L T : Tree) (n : Name) (hn : n ≠ []) (h : Placed L T n) (ha : Allowed env L T n)
    (e : Ent) (he : shown L T n = some e) (change : Ent → Ent) :
    ∃ T', mutate env L T n change = some T' ∧
      shown L T' n = some (change (if T n = none then copied env n e else e)) ∧
      (∀ k d, k < n.length → shown L T (n.take k) = some d → shown L T' (n.take k) = some (if T n = none then above env T n k d else d)) ∧
      (∀ p, ¬p <+: n → T' p = T p) := by
  have hne : ∀ k, k < n.length → n.take k ≠ n := fun k hk he => by
    have hl := take_length (n := n) (k := k) (by omega)
    rw [he] at hl; omega
  cases hT : T n with
  | some e' =>
    have : e' = e := by unfold shown at he; rw [hT] at he; exact Option.some.inj he
    subst this
    refine ⟨fun q => if q = n then (T q).map change else T q, ?_, ?_, ?_, ?_⟩
    · unfold mutate copyUp
      rw [if_neg hn, hT]
      rfl
    · simp [shown, hT]
    · intro k d hk hd
      unfold shown at hd ⊢
      simp only [if_neg (hne k hk)]
      exact hd
    · intro p hp
      exact if_neg (fun (hq : p = n) => hp (hq ▸ List.prefix_refl _))
  | none =>
    have hL : L n = some e := by unfold shown at he; rw [hT] at he; exact he
    obtain ⟨T', h1, h2, h3, h4⟩ := C133_copyup_partial env hm ht L T n hn h ha e hT hL
    refine ⟨fun q => if q = n then (T' q).map change else T' q, ?_, ?_, ?_, ?_⟩
    · unfold mutate; rw [h1]; rfl
    · have hset : T' n = some (copied env n e) := by
        have := copyUp_eq hm ht h ha hn hT hL
        rw [h1] at this
        rw [Option.some.inj this]
        simp [set]
      simp [shown, hset]
    · intro k d hk hd
      have := h3 k d hk hd
      unfold shown at this ⊢
      simp only [if_neg (hne k hk)]
      exact this
    · intro p hp
      show (if p = n then (T' p).map change else T' p) = T p
      rw [if_neg (fun (hq : p = n) => hp (hq ▸ List.prefix_refl _))]
      exact h4 p hp

/-! Cases: a top with nothing but its root, over a layer with a sticky directory, a file of another user in it, and a link. -/

def env0 (super : Bool) : Env := { umask := 0x012#12, me := 1000, super := super, now := fun _ => 99, chmodOk := fun _ => true, chtimesOk := fun _ => true }
def dir0 : Ent := { kind := .dir, mode := 0x1ed#12, mtime := 1, uid := 1000 }
def T0 : Tree := fun p => if p = [] then some dir0 else none
def L0 (m : BitVec 12) : Tree := fun p =>
  if p = [] then some dir0
  else if p = ["t".toList] then some { kind := .dir, mode := m, mtime := 5, uid := 0 }
  else if p = ["t".toList, "f".toList] then some { kind := .file [7], mode := 0x9ed#12, mtime := 6, uid := 0 }
  else if p = ["l".toList] then some { kind := .link "t".toList, mode := 0x1ff#12, mtime := 7, uid := 0 }
  else none

theorem placed0 {m : BitVec 12} : Placed (L0 m) T0 ["t".toList, "f".toList] := by
  refine ⟨⟨dir0, rfl⟩, ?_, ?_⟩
  · intro k hk
    match k, hk with
    | 0, _ => exact ⟨dir0, rfl, rfl⟩
    | 1, _ => exact ⟨_, rfl, rfl⟩
  · intro k hk
    match k with
    | 0 => cases hk
    | 1 => rfl
    | k + 2 => rfl

example : Placed (L0 0x3ff#12) T0 ["t".toList, "f".toList] ∧ Allowed (env0 false) (L0 0x3ff#12) T0 ["t".toList, "f".toList] := by
  refine ⟨placed0, .inr ?_⟩
  intro k hk d hd
  match k, hk with
  | 0, _ => cases hd; exact ⟨by decide, fun _ => rfl⟩
  | 1, _ => cases hd; exact ⟨by decide, fun h => by cases h⟩

/-- **C133 fails**: setting the times of a file of a lower layer takes away its owner and its setuid bit, and the sticky bit, the owner and the time of the directory it is in. -/
theorem C133_counterexample_file : ∃ T', mutate (env0 true) (L0 0x3ff#12) T0 ["t".toList, "f".toList] (fun e => { e with mtime := 50 }) = some T' ∧
    shown (L0 0x3ff#12) T0 ["t".toList, "f".toList] = some { kind := .file [7], mode := 0x9ed#12, mtime := 6, uid := 0 } ∧
    shown (L0 0x3ff#12) T' ["t".toList, "f".toList] = some { kind := .file [7], mode := 0x1ed#12, mtime := 50, uid := 1000 } ∧
    shown (L0 0x3ff#12) T0 ["t".toList] = some { kind := .dir, mode := 0x3ff#12, mtime := 5, uid := 0 } ∧
    shown (L0 0x3ff#12) T' ["t".toList] = some { kind := .dir, mode := 0x1ff#12, mtime := 99, uid := 1000 } := by
  refine ⟨_, rfl, by decide, by decide, by decide, by decide⟩

/-- **C133 fails**: `Lchown` of a symlink of a lower layer changes its time. -/
theorem C133_counterexample_link : ∃ T', mutate (env0 true) (L0 0x1ff#12) T0 ["l".toList] (fun e => { e with uid := 3 }) = some T' ∧
    shown (L0 0x1ff#12) T0 ["l".toList] = some { kind := .link "t".toList, mode := 0x1ff#12, mtime := 7, uid := 0 } ∧
    shown (L0 0x1ff#12) T' ["l".toList] = some { kind := .link "t".toList, mode := 0x1ff#12, mtime := 99, uid := 3 } := by
  refine ⟨_, rfl, by decide, by decide⟩

/-- **C133 fails**: a file in a directory of a lower layer that its owner may not write cannot be changed by anyone but the superuser, because the copy of the directory is made with that mode
first. Changing such a file needs no permission on the directory. -/
theorem C133_counterexample_readonly (change : Ent → Ent) : mutate (env0 false) (L0 0x16d#12) T0 ["t".toList, "f".toList] change = none := by
  have : copyUp (env0 false) (L0 0x16d#12) T0 ["t".toList, "f".toList] = none := by
    rfl
  unfold mutate
  rw [this]
  rfl

end Verif.Overlay.Attrs
