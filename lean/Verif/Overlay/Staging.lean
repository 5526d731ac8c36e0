/-
C137: copying the bytes of a regular file up, piece by piece, /repo/vroot-adapter/overlayfs/copyup.go 63-69 (`CopyUpPolicyWork`), 121-164 (`copyRegular`),
223-241 (`copyData`, io.CopyBuffer), reflink_linux.go 22-28 and reflink_other.go 10-12 (`reflinkFile`).

`Overlay/Ops.lean` (C57) takes the bytes of a file in one step. Here every read and write of the copy, the clone, the close, the rename and the clean-up are steps of
their own; each may fail; any number of copies share one policy and run in any order, over any number of tops. A crash is a state at which nothing more runs, so
what holds in every state reached holds at every crash of the process. Losing power is not modelled: the code does not call Sync before the rename.
-/

namespace Verif.Staging

/-- An open file of a layer: what reading it gives, and the content of the file its descriptor is of (`none`: `Fd` answers the sentinel,
    reflink_linux.go 14-16). -/
structure Src where
  data : List UInt8
  fd : Option (List UInt8)

/-- The descriptor, if there is one, is of the file the handle reads (reflink_linux.go 16: "A file that lies about that is out of scope"). -/
def Src.Honest (s : Src) : Prop := ∀ b, s.fd = some b → b = s.data

/-- A call of `copyRegular`: the top it writes (by number), the name, and the file it reads. -/
structure Job where
  top : Nat
  name : List Char
  src : Src

/-- What a read of the source said along with its bytes. -/
inductive After
  | more
  | eof
  | err
deriving DecidableEq

/-- How far a call has come. `k` is the number of its staged file, `n` the bytes copied, `m` the bytes read and not yet written; `pub` says whether the rename
    happened although it reported an error. -/
inductive Phase
  | start
  | opened
  | numbered (k : Nat)
  | made (k : Nat)
  | copying (k n : Nat)
  | pending (k n m : Nat) (a : After)
  | copied (k : Nat)
  | closed (k : Nat)
  | ready (k : Nat)
  | cleanup (k : Nat) (pub : Bool)
  | done (k : Nat)
  | failed (k : Option Nat) (pub : Bool)
  | left (k : Nat) (pub : Bool)

/-- What the backends answer at one step: whether the call fails; how many bytes a read gives; how many a write takes; what the read says; whether FICLONE succeeds; whether
    a rename that reports failure has happened all the same. -/
structure Choice where
  fail : Bool := false
  n : Nat := 65536
  w : Nat := 65536
  after : After := .eof
  clone : Bool := false
  lost : Bool := false

/-- Staged files and content of every top, the counter of the policy (copyup.go 63-69), and how far each call is. The counter does not wrap here. -/
structure World where
  stage : Nat → Nat → Option (List UInt8)
  content : Nat → List Char → Option (List UInt8)
  counter : Nat
  phase : Nat → Phase

/-- Call `i` has come to `p` (the program counter of copyup.go 122-164). -/
def World.at (W : World) (i : Nat) (p : Phase) : World := { W with phase := fun x => if x = i then p else W.phase x }

/-- A change of a file under `work/`, copyup.go 134 `StagingPath`. -/
def World.setStage (W : World) (t k : Nat) (b : Option (List UInt8)) : World :=
  { W with stage := fun x y => if x = t ∧ y = k then b else W.stage x y }

/-- A change of the content tree of a top, copyup.go 159 `ContentPath`. -/
def World.setContent (W : World) (t : Nat) (n : List Char) (b : List UInt8) : World :=
  { W with content := fun x y => if x = t ∧ y = n then some b else W.content x y }

/-- io.CopyBuffer after a write of what was read: on, done, or the read's error. -/
def resume (k n : Nat) : After → Phase
  | .more => .copying k n
  | .eof => .copied k
  | .err => .cleanup k false

/-- One step of call `i`.
    * `start`: `from.Open`, copyup.go 128-131.
    * `opened`: the next number, 134.
    * `numbered`: the staged file is made, O_EXCL, 135-138; the deferred removal is set up only after that, 139-146.
    * `made`: `reflinkFile`, 148 and reflink_linux.go 22-28: a clone needs a descriptor; a refused one leaves the file as it is (ioctl_ficlone(2)).
    * `copying`: one read of io.CopyBuffer, at most `copyBufSize` (221) bytes; a source says EOF only at its end.
    * `pending`: the write of it; a short write is an error.
    * `copied`, `closed`, `ready`: `tmp.Close` 154-156, `copyAttrs` 158 (its failures are dropped; attributes are C133), `Rename` 159-161.
    * `cleanup`: the deferred `Remove`, 141-145; its failure is dropped. -/
def step (J : Nat → Job) (c : Choice) (i : Nat) (W : World) : World :=
  let t := (J i).top
  let data := (J i).src.data
  match W.phase i with
  | .start => if c.fail then W.at i (.failed none false) else W.at i .opened
  | .opened => { W with counter := W.counter + 1 }.at i (.numbered (W.counter + 1))
  | .numbered k =>
    if c.fail then W.at i (.failed (some k) false)
    else match W.stage t k with
      | some _ => W.at i (.failed (some k) false)
      | none => (W.setStage t k (some [])).at i (.made k)
  | .made k =>
    match (J i).src.fd with
    | none => W.at i (.copying k 0)
    | some b => if c.clone then (W.setStage t k (some b)).at i (.copied k) else W.at i (.copying k 0)
  | .copying k n =>
    let m := min c.n (min 65536 (data.length - n))
    let a := if c.after = .eof ∧ n + m < data.length then .more else c.after
    W.at i (.pending k n m a)
  | .pending k n m a =>
    if m = 0 then W.at i (resume k n a)
    else match W.stage t k with
      | none => W.at i (.cleanup k false)
      | some b =>
        let w := min c.w m
        let W' := W.setStage t k (some (b ++ (data.drop n).take w))
        if c.fail ∨ w < m then W'.at i (.cleanup k false) else W'.at i (resume k (n + m) a)
  | .copied k => if c.fail then W.at i (.cleanup k false) else W.at i (.closed k)
  | .closed k => W.at i (.ready k)
  | .ready k =>
    match W.stage t k with
    | none => W.at i (.cleanup k false)
    | some b =>
      if c.fail then
        if c.lost then ((W.setContent t (J i).name b).setStage t k none).at i (.cleanup k true)
        else W.at i (.cleanup k false)
      else ((W.setContent t (J i).name b).setStage t k none).at i (.done k)
  | .cleanup k pub => if c.fail then W.at i (.left k pub) else (W.setStage t k none).at i (.failed (some k) pub)
  | .done _ => W
  | .failed _ _ => W
  | .left _ _ => W

/-- A schedule: which call moves, and what it meets. -/
def run (J : Nat → Job) : List (Nat × Choice) → World → World
  | [], W => W
  | (i, c) :: s, W => run J s (step J c i W)

/-- No call has begun. -/
def Fresh (W : World) : Prop := ∀ i, W.phase i = .start

/-! ## Specification -/

/-- Call `i` put its file in place. -/
def Phase.published : Phase → Prop
  | .done _ => True
  | .cleanup _ p => p = true
  | .failed _ p => p = true
  | .left _ p => p = true
  | _ => False

/-- Call is under way and may have a staged file numbered `k`, or ended without being able to take it away. -/
def Phase.keeps (k : Nat) : Phase → Prop
  | .made k' => k' = k
  | .copying k' _ => k' = k
  | .pending k' _ _ _ => k' = k
  | .copied k' => k' = k
  | .closed k' => k' = k
  | .ready k' => k' = k
  | .cleanup k' _ => k' = k
  | .left k' _ => k' = k
  | _ => False

/-- The number of a call. -/
def Phase.num : Phase → Option Nat
  | .start => none
  | .opened => none
  | .numbered k => some k
  | .made k => some k
  | .copying k _ => some k
  | .pending k _ _ _ => some k
  | .copied k => some k
  | .closed k => some k
  | .ready k => some k
  | .cleanup k _ => some k
  | .done k => some k
  | .failed k _ => k
  | .left k _ => some k

/-- What a call's staged file holds. -/
def Phase.holds (data : List UInt8) (b : Option (List UInt8)) : Phase → Prop
  | .made _ => b = some []
  | .copying _ n => b = some (data.take n) ∧ n ≤ data.length
  | .pending _ n m a => b = some (data.take n) ∧ n + m ≤ data.length ∧ (a = .eof → n + m = data.length)
  | .copied _ => b = some data
  | .closed _ => b = some data
  | .ready _ => b = some data
  | _ => True

theorem keeps_num {p : Phase} {k : Nat} (h : p.keeps k) : p.num = some k := by
  cases p <;> simp_all [Phase.keeps, Phase.num]

structure Inv (J : Nat → Job) (W0 W : World) : Prop where
  low : ∀ i k, (W.phase i).num = some k → k ≤ W.counter
  apart : ∀ i j k, (W.phase i).num = some k → (W.phase j).num = some k → i = j
  holds : ∀ i k, (W.phase i).num = some k → (W.phase i).holds (J i).src.data (W.stage (J i).top k)
  clean : ∀ i k, (W.phase i).keeps k → W0.stage (J i).top k = none
  frame : ∀ t k, W.stage t k = W0.stage t k ∨ ∃ i, (J i).top = t ∧ (W.phase i).keeps k
  whole : ∀ t n, W.content t n = W0.content t n ∨ ∃ i, (J i).top = t ∧ (J i).name = n ∧ (W.phase i).published ∧ W.content t n = some (J i).src.data
  there : ∀ i, (W.phase i).published → ∃ j, (J j).top = (J i).top ∧ (J j).name = (J i).name ∧ (W.phase j).published ∧
    W.content (J i).top (J i).name = some (J j).src.data

theorem inv_fresh {J : Nat → Job} {W : World} (h : Fresh W) : Inv J W W :=
  ⟨fun i k h1 => by simp [h i, Phase.num] at h1, fun i j k h1 => by simp [h i, Phase.num] at h1, fun i k h1 => by simp [h i, Phase.num] at h1,
    fun i k h1 => by simp [h i, Phase.keeps] at h1, fun _ _ => .inl rfl, fun _ _ => .inl rfl, fun i h1 => by simp [h i, Phase.published] at h1⟩

theorem at_same (W : World) (i : Nat) (p : Phase) : (W.at i p).phase i = p := by simp [World.at]
theorem at_ne (W : World) {i j : Nat} (p : Phase) (h : j ≠ i) : (W.at i p).phase j = W.phase j := by simp [World.at, h]

/-- A call that changes its phase and at most its own staged file. -/
theorem inv_move {J : Nat → Job} {W0 W : World} {i k : Nat} {p : Phase} {b : Option (List UInt8)} (h : Inv J W0 W)
    (hk : (W.phase i).num = some k) (hp : p.num = some k) (hb : p.holds (J i).src.data b) (hpub : p.published ↔ (W.phase i).published)
    (hkeep : p.keeps k → W0.stage (J i).top k = none) (hf : p.keeps k ∨ b = W0.stage (J i).top k) :
    Inv J W0 ((W.setStage (J i).top k b).at i p) := by
  have hst : ∀ t k', ¬ (t = (J i).top ∧ k' = k) → ((W.setStage (J i).top k b).at i p).stage t k' = W.stage t k' := by
    intro t k' hn; simp [World.at, World.setStage, hn]
  have hst1 : ((W.setStage (J i).top k b).at i p).stage (J i).top k = b := by simp [World.at, World.setStage]
  have hnum : ∀ j, (((W.setStage (J i).top k b).at i p).phase j).num = (W.phase j).num := by
    intro j
    by_cases hj : j = i
    · subst hj; rw [at_same, hp, hk]
    · rw [at_ne _ _ hj]; rfl
  have hpubl : ∀ j, (((W.setStage (J i).top k b).at i p).phase j).published ↔ (W.phase j).published := by
    intro j
    by_cases hj : j = i
    · subst hj; rw [at_same]; exact hpub
    · rw [at_ne _ _ hj]; exact Iff.rfl
  have hpk : ∀ k', p.keeps k' → k' = k := fun k' hh => by have := keeps_num hh; rw [hp] at this; exact (Option.some.inj this).symm
  refine ⟨?_, ?_, ?_, ?_, ?_, ?_, ?_⟩
  · intro j k' hj; rw [hnum] at hj; exact h.low j k' hj
  · intro j j' k' h1 h2; rw [hnum] at h1 h2; exact h.apart j j' k' h1 h2
  · intro j k' hj
    by_cases hji : j = i
    · subst hji
      rw [hnum, hk] at hj
      cases Option.some.inj hj
      rw [at_same, hst1]; exact hb
    · rw [hnum] at hj
      rw [at_ne _ _ hji, hst _ _ (fun hh => hji (h.apart j i k' hj (by rw [hh.2]; exact hk)))]
      exact h.holds j k' hj
  · intro j k' hj
    by_cases hji : j = i
    · subst hji
      rw [at_same] at hj
      cases hpk _ hj
      exact hkeep hj
    · rw [at_ne _ _ hji] at hj; exact h.clean j k' hj
  · intro t k'
    by_cases ht : t = (J i).top ∧ k' = k
    · obtain ⟨rfl, rfl⟩ := ht
      rcases hf with hf | hf
      · exact .inr ⟨i, rfl, by rw [at_same]; exact hf⟩
      · exact .inl (by rw [hst1]; exact hf)
    · rw [hst _ _ ht]
      rcases h.frame t k' with h1 | ⟨j, hj, hkj⟩
      · exact .inl h1
      · refine .inr ⟨j, hj, ?_⟩
        by_cases hji : j = i
        · subst hji
          have := keeps_num hkj
          rw [hk] at this
          exact absurd ⟨hj.symm, (Option.some.inj this).symm⟩ ht
        · rw [at_ne _ _ hji]; exact hkj
  · intro t n
    rcases h.whole t n with h1 | ⟨j, h1, h2, h3, h4⟩
    · exact .inl h1
    · exact .inr ⟨j, h1, h2, (hpubl j).2 h3, h4⟩
  · intro j hj
    obtain ⟨j', h1, h2, h3, h4⟩ := h.there j ((hpubl j).1 hj)
    exact ⟨j', h1, h2, (hpubl j').2 h3, h4⟩

theorem setStage_self (W : World) (t k : Nat) : W.setStage t k (W.stage t k) = W := by
  have : (fun x y => if x = t ∧ y = k then W.stage t k else W.stage x y) = W.stage := by
    funext x y
    by_cases h : x = t ∧ y = k
    · simp [h.1, h.2]
    · simp [h]
  simp only [World.setStage, this]

/-- The same, the staged file being left as it is. -/
theorem inv_stay {J : Nat → Job} {W0 W : World} {i k : Nat} {p : Phase} (h : Inv J W0 W)
    (hk : (W.phase i).num = some k) (hp : p.num = some k) (hb : p.holds (J i).src.data (W.stage (J i).top k)) (hpub : p.published ↔ (W.phase i).published)
    (hkk : p.keeps k ↔ (W.phase i).keeps k) : Inv J W0 (W.at i p) := by
  have := inv_move (b := W.stage (J i).top k) h hk hp hb hpub (fun hh => h.clean i k (hkk.1 hh)) (by
    rcases h.frame (J i).top k with h1 | ⟨j, _, hj⟩
    · exact .inr h1
    · have := h.apart j i k (keeps_num hj) hk
      subst this
      exact .inl (hkk.2 hj))
  rwa [setStage_self] at this

/-- A call without a number yet. -/
theorem inv_early {J : Nat → Job} {W0 W : World} {i : Nat} {p : Phase} (h : Inv J W0 W)
    (hk : (W.phase i).num = none) (hp : p.num = none) (hb : ¬ p.published) (hpub : ¬ (W.phase i).published) : Inv J W0 (W.at i p) := by
  have hnum : ∀ j, ((W.at i p).phase j).num = (W.phase j).num := by
    intro j
    by_cases hj : j = i
    · subst hj; rw [at_same, hp, hk]
    · rw [at_ne _ _ hj]
  have hne : ∀ j k, (W.phase j).num = some k → j ≠ i := fun j k h1 h2 => by rw [h2, hk] at h1; cases h1
  have hnp : ∀ j, (W.phase j).published → j ≠ i := fun j h1 h2 => hpub (h2 ▸ h1)
  refine ⟨?_, ?_, ?_, ?_, ?_, ?_, ?_⟩
  · intro j k' hj; rw [hnum] at hj; exact h.low j k' hj
  · intro j j' k' h1 h2; rw [hnum] at h1 h2; exact h.apart j j' k' h1 h2
  · intro j k' hj
    rw [hnum] at hj
    rw [at_ne _ _ (hne j _ hj)]; exact h.holds j k' hj
  · intro j k' hj
    have := keeps_num hj
    rw [hnum] at this
    rw [at_ne _ _ (hne j _ this)] at hj; exact h.clean j k' hj
  · intro t k'
    rcases h.frame t k' with h1 | ⟨j, hj, hkj⟩
    · exact .inl h1
    · exact .inr ⟨j, hj, by rw [at_ne _ _ (hne j _ (keeps_num hkj))]; exact hkj⟩
  · intro t n
    rcases h.whole t n with h1 | ⟨j, h1, h2, h3, h4⟩
    · exact .inl h1
    · exact .inr ⟨j, h1, h2, by rw [at_ne _ _ (hnp j h3)]; exact h3, h4⟩
  · intro j hj
    have hji : j ≠ i := fun hh => by subst hh; rw [at_same] at hj; exact hb hj
    rw [at_ne _ _ hji] at hj
    obtain ⟨j', h1, h2, h3, h4⟩ := h.there j hj
    exact ⟨j', h1, h2, by rw [at_ne _ _ (hnp j' h3)]; exact h3, h4⟩

/-- A call takes the next number. -/
theorem inv_number {J : Nat → Job} {W0 W : World} {i : Nat} (h : Inv J W0 W) (hk : W.phase i = .opened) :
    Inv J W0 ({ W with counter := W.counter + 1 }.at i (.numbered (W.counter + 1))) := by
  have hne : ∀ j k, (W.phase j).num = some k → j ≠ i := fun j k h1 h2 => by rw [h2, hk] at h1; cases h1
  have hnp : ∀ j, (W.phase j).published → j ≠ i := fun j h1 h2 => by rw [h2, hk] at h1; exact h1
  have hph : ∀ j, j ≠ i → ({ W with counter := W.counter + 1 }.at i (.numbered (W.counter + 1))).phase j = W.phase j := fun j hj => at_ne _ _ hj
  have hi : ({ W with counter := W.counter + 1 }.at i (.numbered (W.counter + 1))).phase i = .numbered (W.counter + 1) := at_same _ _ _
  refine ⟨?_, ?_, ?_, ?_, ?_, ?_, ?_⟩
  · intro j k' hj
    show k' ≤ W.counter + 1
    by_cases hji : j = i
    · subst hji
      rw [hi] at hj
      cases Option.some.inj hj
      exact Nat.le_refl _
    · rw [hph j hji] at hj; exact Nat.le_succ_of_le (h.low j k' hj)
  · intro j j' k' h1 h2
    by_cases hji : j = i <;> by_cases hji' : j' = i
    · rw [hji, hji']
    · rw [hji, hi] at h1
      cases Option.some.inj h1
      rw [hph j' hji'] at h2
      exact absurd (h.low j' _ h2) (by omega)
    · rw [hji', hi] at h2
      cases Option.some.inj h2
      rw [hph j hji] at h1
      exact absurd (h.low j _ h1) (by omega)
    · rw [hph _ hji] at h1; rw [hph _ hji'] at h2; exact h.apart j j' k' h1 h2
  · intro j k' hj
    by_cases hji : j = i
    · subst hji; rw [hi]; trivial
    · rw [hph j hji] at hj ⊢; exact h.holds j k' hj
  · intro j k' hj
    by_cases hji : j = i
    · subst hji; rw [hi] at hj; exact hj.elim
    · rw [hph j hji] at hj; exact h.clean j k' hj
  · intro t k'
    rcases h.frame t k' with h1 | ⟨j, hj, hkj⟩
    · exact .inl h1
    · exact .inr ⟨j, hj, by rw [hph j (hne j _ (keeps_num hkj))]; exact hkj⟩
  · intro t n
    rcases h.whole t n with h1 | ⟨j, h1, h2, h3, h4⟩
    · exact .inl h1
    · exact .inr ⟨j, h1, h2, by rw [hph j (hnp j h3)]; exact h3, h4⟩
  · intro j hj
    have hji : j ≠ i := fun hh => by subst hh; rw [hi] at hj; exact hj
    rw [hph j hji] at hj
    obtain ⟨j', h1, h2, h3, h4⟩ := h.there j hj
    exact ⟨j', h1, h2, by rw [hph j' (hnp j' h3)]; exact h3, h4⟩

/-- A call puts its file in place. -/
theorem inv_publish {J : Nat → Job} {W0 W : World} {i k : Nat} {p : Phase} (h : Inv J W0 W) (hk : W.phase i = .ready k)
    (hp : p.num = some k) (hb : p.holds (J i).src.data none) (hpub : p.published) :
    Inv J W0 (((W.setContent (J i).top (J i).name (J i).src.data).setStage (J i).top k none).at i p) := by
  have hnone : W0.stage (J i).top k = none := h.clean i k (by rw [hk]; rfl)
  -- only the staged file and the phase, `published` aside
  have hph : ∀ j, j ≠ i → (((W.setContent (J i).top (J i).name (J i).src.data).setStage (J i).top k none).at i p).phase j = W.phase j := fun j hj => at_ne _ _ hj
  have hi : (((W.setContent (J i).top (J i).name (J i).src.data).setStage (J i).top k none).at i p).phase i = p := at_same _ _ _
  have hki : (W.phase i).num = some k := by rw [hk]; rfl
  have hnum : ∀ j, ((((W.setContent (J i).top (J i).name (J i).src.data).setStage (J i).top k none).at i p).phase j).num = (W.phase j).num := by
    intro j
    by_cases hj : j = i
    · rw [hj, hi, hp, hki]
    · rw [hph j hj]
  have hst : ∀ t k', ¬ (t = (J i).top ∧ k' = k) →
      (((W.setContent (J i).top (J i).name (J i).src.data).setStage (J i).top k none).at i p).stage t k' = W.stage t k' := by
    intro t k' hn; simp [World.at, World.setStage, World.setContent, hn]
  have hst1 : (((W.setContent (J i).top (J i).name (J i).src.data).setStage (J i).top k none).at i p).stage (J i).top k = none := by
    simp [World.at, World.setStage]
  have hct : ∀ t n, ¬ (t = (J i).top ∧ n = (J i).name) →
      (((W.setContent (J i).top (J i).name (J i).src.data).setStage (J i).top k none).at i p).content t n = W.content t n := by
    intro t n hn; simp [World.at, World.setStage, World.setContent, hn]
  have hct1 : (((W.setContent (J i).top (J i).name (J i).src.data).setStage (J i).top k none).at i p).content (J i).top (J i).name = some (J i).src.data := by
    simp [World.at, World.setStage, World.setContent]
  have hnp : ∀ j, (W.phase j).published → j ≠ i := fun j h1 h2 => by rw [h2, hk] at h1; exact h1
  refine ⟨?_, ?_, ?_, ?_, ?_, ?_, ?_⟩
  · intro j k' hj; rw [hnum] at hj; exact h.low j k' hj
  · intro j j' k' h1 h2; rw [hnum] at h1 h2; exact h.apart j j' k' h1 h2
  · intro j k' hj
    by_cases hji : j = i
    · subst hji
      rw [hnum, hki] at hj
      cases Option.some.inj hj
      rw [hi, hst1]; exact hb
    · rw [hnum] at hj
      rw [hph j hji, hst _ _ (fun hh => hji (h.apart j i k' hj (by rw [hh.2]; exact hki)))]
      exact h.holds j k' hj
  · intro j k' hj
    by_cases hji : j = i
    · subst hji
      rw [hi] at hj
      have := keeps_num hj
      rw [hp] at this
      cases Option.some.inj this
      exact hnone
    · rw [hph j hji] at hj; exact h.clean j k' hj
  · intro t k'
    by_cases ht : t = (J i).top ∧ k' = k
    · obtain ⟨rfl, rfl⟩ := ht
      exact .inl (by rw [hst1, hnone])
    · rw [hst _ _ ht]
      rcases h.frame t k' with h1 | ⟨j, hj, hkj⟩
      · exact .inl h1
      · refine .inr ⟨j, hj, ?_⟩
        by_cases hji : j = i
        · subst hji
          have := keeps_num hkj
          rw [hki] at this
          exact absurd ⟨hj.symm, (Option.some.inj this).symm⟩ ht
        · rw [hph j hji]; exact hkj
  · intro t n
    by_cases ht : t = (J i).top ∧ n = (J i).name
    · obtain ⟨rfl, rfl⟩ := ht
      exact .inr ⟨i, rfl, rfl, by rw [hi]; exact hpub, hct1⟩
    · rw [hct _ _ ht]
      rcases h.whole t n with h1 | ⟨j, h1, h2, h3, h4⟩
      · exact .inl h1
      · exact .inr ⟨j, h1, h2, by rw [hph j (hnp j h3)]; exact h3, h4⟩
  · intro j hj
    by_cases ht : (J j).top = (J i).top ∧ (J j).name = (J i).name
    · exact ⟨i, ht.1.symm, ht.2.symm, by rw [hi]; exact hpub, by rw [ht.1, ht.2]; exact hct1⟩
    · have hji : j ≠ i := fun hh => ht (by subst hh; exact ⟨rfl, rfl⟩)
      rw [hph j hji] at hj
      obtain ⟨j', h1, h2, h3, h4⟩ := h.there j hj
      exact ⟨j', h1, h2, by rw [hph j' (hnp j' h3)]; exact h3, by rw [hct _ _ ht]; exact h4⟩

theorem inv_step {J : Nat → Job} (hon : ∀ i, (J i).src.Honest) {W0 W : World} (c : Choice) (i : Nat) (h : Inv J W0 W) : Inv J W0 (step J c i W) := by
  have num : ∀ {p : Phase} {k : Nat}, W.phase i = p → p.num = some k → (W.phase i).num = some k := fun h1 h2 => by rw [h1]; exact h2
  unfold step
  simp only []
  split
  next hp =>
    split
    · exact inv_early h (by rw [hp]; rfl) rfl (by simp [Phase.published]) (by rw [hp]; simp [Phase.published])
    · exact inv_early h (by rw [hp]; rfl) rfl (by simp [Phase.published]) (by rw [hp]; simp [Phase.published])
  next hp => exact inv_number h hp
  next k hp =>
    split
    · exact inv_stay h (num hp rfl) rfl trivial (by rw [hp]; simp [Phase.published]) (by rw [hp]; simp [Phase.keeps])
    · split
      · exact inv_stay h (num hp rfl) rfl trivial (by rw [hp]; simp [Phase.published]) (by rw [hp]; simp [Phase.keeps])
      next hn =>
        refine inv_move h (num hp rfl) rfl rfl (by rw [hp]; simp [Phase.published]) (fun _ => ?_) (.inl rfl)
        rcases h.frame (J i).top k with h1 | ⟨j, _, hj⟩
        · rw [← h1]; exact hn
        · have := h.apart j i k (keeps_num hj) (num hp rfl)
          subst this
          rw [hp] at hj; exact hj.elim
  next k hp =>
    have hh := h.holds i k (num hp rfl)
    rw [hp] at hh
    have stay : Inv J W0 (W.at i (.copying k 0)) :=
      inv_stay h (num hp rfl) rfl ⟨by rw [show W.stage (J i).top k = some [] from hh]; simp, Nat.zero_le _⟩
        (by rw [hp]; simp [Phase.published]) (by rw [hp]; simp [Phase.keeps])
    split
    · exact stay
    next b hb =>
      split
      · exact inv_move h (num hp rfl) rfl (by rw [hon i b hb]; rfl) (by rw [hp]; simp [Phase.published])
          (fun _ => h.clean i k (by rw [hp]; rfl)) (.inl rfl)
      · exact stay
  next k n hp =>
    have hh := h.holds i k (num hp rfl)
    rw [hp] at hh
    refine inv_stay h (num hp rfl) rfl ⟨hh.1, ?_, ?_⟩ (by rw [hp]; simp [Phase.published]) (by rw [hp]; simp [Phase.keeps])
    · have := hh.2; omega
    · have := hh.2
      split
      · intro hx; cases hx
      next hx => intro he; have : ¬ (n + min c.n (min 65536 ((J i).src.data.length - n)) < (J i).src.data.length) := fun hl => hx ⟨he, hl⟩
                 omega
  next k n m a hp =>
    have hh := h.holds i k (num hp rfl)
    rw [hp] at hh
    obtain ⟨h1, h2, h3⟩ := hh
    have keep : W0.stage (J i).top k = none := h.clean i k (by rw [hp]; rfl)
    split
    next hm =>
      subst hm
      cases a
      · exact inv_stay h (num hp rfl) rfl ⟨h1, by omega⟩ (by rw [hp]; simp [resume, Phase.published]) (by rw [hp]; simp [resume, Phase.keeps])
      · refine inv_stay h (num hp rfl) rfl ?_ (by rw [hp]; simp [resume, Phase.published]) (by rw [hp]; simp [resume, Phase.keeps])
        show W.stage (J i).top k = some (J i).src.data
        rw [h1, List.take_of_length_le (by have := h3 rfl; omega)]
      · exact inv_stay h (num hp rfl) rfl trivial (by rw [hp]; simp [resume, Phase.published]) (by rw [hp]; simp [resume, Phase.keeps])
    next hm =>
      split
      · exact inv_stay h (num hp rfl) rfl trivial (by rw [hp]; simp [Phase.published]) (by rw [hp]; simp [Phase.keeps])
      next b hb =>
        rw [h1] at hb
        cases Option.some.inj hb
        split
        · exact inv_move h (num hp rfl) rfl trivial (by rw [hp]; simp [Phase.published]) (fun _ => keep) (.inl rfl)
        next hw =>
          have hw' : min c.w m = m := by
            have : ¬ min c.w m < m := fun hl => hw (.inr hl)
            omega
          have hb' : (J i).src.data.take n ++ ((J i).src.data.drop n).take (min c.w m) = (J i).src.data.take (n + m) := by
            rw [hw', List.take_add]
          rw [hb']
          cases a
          · exact inv_move h (num hp rfl) rfl ⟨rfl, h2⟩ (by rw [hp]; simp [resume, Phase.published]) (fun _ => keep) (.inl rfl)
          · refine inv_move h (num hp rfl) rfl ?_ (by rw [hp]; simp [resume, Phase.published]) (fun _ => keep) (.inl rfl)
            show some ((J i).src.data.take (n + m)) = some (J i).src.data
            rw [List.take_of_length_le (by have := h3 rfl; omega)]
          · exact inv_move h (num hp rfl) rfl trivial (by rw [hp]; simp [resume, Phase.published]) (fun _ => keep) (.inl rfl)
  next k hp =>
    have hh := h.holds i k (num hp rfl)
    rw [hp] at hh
    split
    · exact inv_stay h (num hp rfl) rfl trivial (by rw [hp]; simp [Phase.published]) (by rw [hp]; simp [Phase.keeps])
    · exact inv_stay h (num hp rfl) rfl hh (by rw [hp]; simp [Phase.published]) (by rw [hp]; simp [Phase.keeps])
  next k hp =>
    have hh := h.holds i k (num hp rfl)
    rw [hp] at hh
    exact inv_stay h (num hp rfl) rfl hh (by rw [hp]; simp [Phase.published]) (by rw [hp]; simp [Phase.keeps])
  next k hp =>
    have hh := h.holds i k (num hp rfl)
    rw [hp] at hh
    split
    · exact inv_stay h (num hp rfl) rfl trivial (by rw [hp]; simp [Phase.published]) (by rw [hp]; simp [Phase.keeps])
    next b hb =>
      rw [show W.stage (J i).top k = some (J i).src.data from hh] at hb
      cases Option.some.inj hb
      split
      · split
        · exact inv_publish h hp rfl trivial rfl
        · exact inv_stay h (num hp rfl) rfl trivial (by rw [hp]; simp [Phase.published]) (by rw [hp]; simp [Phase.keeps])
      · exact inv_publish h hp rfl trivial trivial
  next k pub hp =>
    have keep : W0.stage (J i).top k = none := h.clean i k (by rw [hp]; rfl)
    split
    · exact inv_stay h (num hp rfl) rfl trivial (by rw [hp]; simp [Phase.published]) (by rw [hp]; simp [Phase.keeps])
    · exact inv_move h (num hp rfl) rfl trivial (by rw [hp]; simp [Phase.published]) (fun _ => keep) (.inr keep.symm)
  all_goals exact h

theorem inv_run {J : Nat → Job} (hon : ∀ i, (J i).src.Honest) {W0 : World} (s : List (Nat × Choice)) : ∀ {W : World}, Inv J W0 W → Inv J W0 (run J s W) := by
  induction s with
  | nil => exact fun h => h
  | cons x s ih => obtain ⟨i, c⟩ := x; exact fun h => ih (inv_step hon c i h)

/-! ## C137 -/

/-- C137: at every moment, and so at every crash, a name of a top holds what it held before or all the bytes of a file copied to it, never a part. -/
theorem C137_whole {J : Nat → Job} (hon : ∀ i, (J i).src.Honest) {W : World} (hW : Fresh W) (s : List (Nat × Choice)) (t : Nat) (n : List Char) :
    (run J s W).content t n = W.content t n ∨
    ∃ i, (J i).top = t ∧ (J i).name = n ∧ (run J s W).content t n = some (J i).src.data := by
  rcases (inv_run hon s (inv_fresh hW)).whole t n with h | ⟨i, h1, h2, _, h3⟩
  · exact .inl h
  · exact .inr ⟨i, h1, h2, h3⟩

/-- C137: once a call has answered without error its name holds a copy; its own, if no other call is for that name. -/
theorem C137_ok {J : Nat → Job} (hon : ∀ i, (J i).src.Honest) {W : World} (hW : Fresh W) (s : List (Nat × Choice)) {i k : Nat}
    (hi : (run J s W).phase i = .done k) (hone : ∀ j, (J j).top = (J i).top → (J j).name = (J i).name → j = i) :
    (run J s W).content (J i).top (J i).name = some (J i).src.data := by
  obtain ⟨j, h1, h2, _, h3⟩ := (inv_run hon s (inv_fresh hW)).there i (by rw [hi]; trivial)
  rw [h3, hone j h1 h2]

/-- C137: a name no call has put its file on (by answering without error, or by a rename that happened and reported an error) is as it was: calls under way, given up or
    cut off change nothing. -/
theorem C137_untouched {J : Nat → Job} (hon : ∀ i, (J i).src.Honest) {W : World} (hW : Fresh W) (s : List (Nat × Choice)) (t : Nat) (n : List Char)
    (hn : ∀ i, (J i).top = t → (J i).name = n → ¬ ((run J s W).phase i).published) : (run J s W).content t n = W.content t n := by
  rcases (inv_run hon s (inv_fresh hW)).whole t n with h | ⟨i, h1, h2, h3, _⟩
  · exact h
  · exact absurd h3 (hn i h1 h2)

/-- C137: a staged file found when the policy starts is never written, moved or removed. -/
theorem C137_foreign {J : Nat → Job} (hon : ∀ i, (J i).src.Honest) {W : World} (hW : Fresh W) (s : List (Nat × Choice)) {t k : Nat} {b : List UInt8}
    (hb : W.stage t k = some b) : (run J s W).stage t k = some b := by
  have h := inv_run hon s (inv_fresh hW)
  rcases h.frame t k with h1 | ⟨i, h1, h2⟩
  · rw [h1, hb]
  · have := h.clean i k h2
    rw [h1, hb] at this; cases this

/-- C137: when every call has answered, the staged files are those there were before, but for calls whose clean-up was refused. -/
theorem C137_swept {J : Nat → Job} (hon : ∀ i, (J i).src.Honest) {W : World} (hW : Fresh W) (s : List (Nat × Choice)) (t k : Nat)
    (hend : ∀ i, (J i).top = t → (run J s W).phase i = .start ∨ (∃ k, (run J s W).phase i = .done k) ∨ ∃ k p, (run J s W).phase i = .failed k p) :
    (run J s W).stage t k = W.stage t k := by
  rcases (inv_run hon s (inv_fresh hW)).frame t k with h | ⟨i, h1, h2⟩
  · exact h
  · rcases hend i h1 with h3 | ⟨_, h3⟩ | ⟨_, _, h3⟩ <;> rw [h3] at h2 <;> exact h2.elim

/-- C137: calls that share a policy never share a staged file. -/
theorem C137_apart {J : Nat → Job} (hon : ∀ i, (J i).src.Honest) {W : World} (hW : Fresh W) (s : List (Nat × Choice)) {i j k : Nat}
    (hi : ((run J s W).phase i).num = some k) (hj : ((run J s W).phase j).num = some k) : i = j :=
  (inv_run hon s (inv_fresh hW)).apart i j k hi hj

/-! ## Copies complete -/

/-- Nothing fails: calls succeed, a read gives at least one byte while there are some and says EOF at the end, a write takes all it is given. -/
def Calm (c : Choice) : Prop := c.fail = false ∧ 1 ≤ c.n ∧ 65536 ≤ c.w ∧ c.after = .eof

/-- Phases of a call that has met no failure. -/
def good : Phase → Prop
  | .pending _ _ m a => m ≤ 65536 ∧ (a = .eof ∨ (a = .more ∧ 1 ≤ m))
  | .cleanup _ _ => False
  | .failed _ _ => False
  | .left _ _ => False
  | _ => True

/-- Steps such a call has left, at most. -/
def rank (L : Nat) : Phase → Nat
  | .start => 2 * L + 9
  | .opened => 2 * L + 8
  | .numbered _ => 2 * L + 7
  | .made _ => 2 * L + 6
  | .copying _ n => 2 * (L - n) + 5
  | .pending _ n m .more => 2 * (L - n - m) + 6
  | .pending _ _ _ _ => 4
  | .copied _ => 3
  | .closed _ => 2
  | .ready _ => 1
  | _ => 0

theorem step_other (J : Nat → Job) (c : Choice) {i j : Nat} (W : World) (h : j ≠ i) : (step J c i W).phase j = W.phase j := by
  unfold step
  simp only []
  repeat' split
  all_goals first | rfl | (simp [World.at, World.setStage, World.setContent, h])

theorem calm_step {J : Nat → Job} {W0 W : World} {c : Choice} {i : Nat} (h : Inv J W0 W) (hc : Calm c) (hclear : ∀ k, W0.stage (J i).top k = none)
    (hg : good (W.phase i)) :
    good ((step J c i W).phase i) ∧ rank (J i).src.data.length ((step J c i W).phase i) ≤ rank (J i).src.data.length (W.phase i) - 1 := by
  obtain ⟨c1, c2, c3, c4⟩ := hc
  have num : ∀ {p : Phase} {k : Nat}, W.phase i = p → p.num = some k → (W.phase i).num = some k := fun h1 h2 => by rw [h1]; exact h2
  unfold step
  simp only [c1]
  split
  next hp => rw [hp]; simp [World.at, good, rank]
  next hp => rw [hp]; simp [World.at, good, rank]
  next k hp =>
    have hn : W.stage (J i).top k = none := by
      rcases h.frame (J i).top k with h1 | ⟨j, _, hj⟩
      · rw [h1, hclear]
      · have := h.apart j i k (keeps_num hj) (num hp rfl)
        subst this
        rw [hp] at hj; exact hj.elim
    rw [hn, hp]; simp [World.at, good, rank]
  next k hp =>
    split
    · rw [hp]; simp [World.at, good, rank]
    · split
      · rw [hp]; simp [World.at, good, rank]
      · rw [hp]; simp [World.at, good, rank]
  next k n hp =>
    have hh := h.holds i k (num hp rfl)
    rw [hp] at hh
    have hle := hh.2
    rw [hp, c4]
    by_cases hl : n + min c.n (min 65536 ((J i).src.data.length - n)) < (J i).src.data.length
    · simp only [hl, World.at, and_self, if_true, good, rank]
      refine ⟨⟨by omega, .inr ⟨trivial, by omega⟩⟩, by omega⟩
    · simp only [hl, World.at, and_false, if_false, if_true, good, rank]
      refine ⟨⟨by omega, .inl trivial⟩, by omega⟩
  next k n m a hp =>
    have hh := h.holds i k (num hp rfl)
    rw [hp] at hh hg
    obtain ⟨h1, h2, h3⟩ := hh
    obtain ⟨hm, ha⟩ := hg
    rw [hp]
    split
    · rcases ha with rfl | ⟨rfl, ha⟩
      · simp [World.at, resume, good, rank]
      · omega
    · rw [h1]
      simp only []
      have hw : ¬ (false = true ∨ min c.w m < m) := by
        intro hx
        rcases hx with hx | hx
        · cases hx
        · omega
      rw [if_neg hw]
      rcases ha with rfl | ⟨rfl, ha⟩
      · simp [World.at, resume, good, rank]
      · simp [World.at, resume, good, rank]; omega
  next k hp => rw [hp]; simp [World.at, good, rank]
  next k hp => rw [hp]; simp [World.at, good, rank]
  next k hp =>
    have hh := h.holds i k (num hp rfl)
    rw [hp] at hh
    rw [show W.stage (J i).top k = some (J i).src.data from hh, hp]
    simp [World.at, good, rank]
  next k pub hp => rw [hp] at hg; exact hg.elim
  next k hp => rw [hp]; simp [good, rank]
  next k p hp => rw [hp] at hg; exact hg.elim
  next k p hp => rw [hp] at hg; exact hg.elim

/-- The number of steps of call `i`. -/
def turns (i : Nat) (s : List (Nat × Choice)) : Nat := (s.filter fun x => x.1 = i).length

theorem calm_run {J : Nat → Job} (hon : ∀ i, (J i).src.Honest) {W0 : World} {i : Nat} (hclear : ∀ k, W0.stage (J i).top k = none) (s : List (Nat × Choice)) :
    ∀ {W : World}, Inv J W0 W → good (W.phase i) → (∀ c, (i, c) ∈ s → Calm c) →
      good ((run J s W).phase i) ∧ rank (J i).src.data.length ((run J s W).phase i) ≤ rank (J i).src.data.length (W.phase i) - turns i s := by
  induction s with
  | nil => exact fun _ hg _ => ⟨hg, Nat.le_refl _⟩
  | cons x s ih =>
    obtain ⟨j, c⟩ := x
    intro W h hg hc
    have hrest : ∀ c', (i, c') ∈ s → Calm c' := fun c' h' => hc c' (List.mem_cons_of_mem _ h')
    by_cases hj : j = i
    · subst hj
      obtain ⟨g1, g2⟩ := calm_step h (hc c List.mem_cons_self) hclear hg
      obtain ⟨g3, g4⟩ := ih (inv_step hon c j h) g1 hrest
      refine ⟨g3, ?_⟩
      have : turns j ((j, c) :: s) = turns j s + 1 := by simp [turns]
      show rank _ ((run J s (step J c j W)).phase j) ≤ _
      omega
    · have e := step_other J c W (Ne.symm hj : i ≠ j)
      obtain ⟨g3, g4⟩ := ih (inv_step hon c j h) (by rw [e]; exact hg) hrest
      refine ⟨g3, ?_⟩
      have : turns i ((j, c) :: s) = turns i s := by simp [turns, hj]
      show rank _ ((run J s (step J c j W)).phase i) ≤ _
      rw [e] at g4
      omega

/-- C137: a call that meets no failure, over a staging area that was swept, answers without error after at most two steps a byte and nine more, whatever the other
    calls do and meet. -/
theorem C137_completes {J : Nat → Job} (hon : ∀ i, (J i).src.Honest) {W : World} (hW : Fresh W) (s : List (Nat × Choice)) {i : Nat}
    (hclear : ∀ k, W.stage (J i).top k = none) (hc : ∀ c, (i, c) ∈ s → Calm c) (hn : 2 * (J i).src.data.length + 9 ≤ turns i s) :
    ∃ k, (run J s W).phase i = .done k := by
  obtain ⟨h1, h2⟩ := calm_run hon hclear s (inv_fresh (J := J) hW) (by rw [hW i]; trivial) hc
  rw [hW i] at h2
  simp only [rank] at h2
  generalize (run J s W).phase i = p at h1 h2 ⊢
  cases p with
  | done k => exact ⟨k, rfl⟩
  | cleanup => exact h1.elim
  | failed => exact h1.elim
  | left => exact h1.elim
  | pending k n m a => cases a <;> simp only [rank] at h2 <;> omega
  | _ => simp only [rank] at h2 <;> omega

/-! ## Examples -/

/-- Two files, to one name of two tops; the first has a descriptor. -/
def jobs0 : Nat → Job
  | 0 => ⟨0, ['a'], ⟨[1, 2, 3], some [1, 2, 3]⟩⟩
  | n + 1 => ⟨n + 1, ['a'], ⟨[4, 5], none⟩⟩

def world0 : World := ⟨fun _ _ => none, fun _ _ => some [9], 0, fun _ => .start⟩

theorem honest0 : ∀ i, (jobs0 i).src.Honest
  | 0 => fun b h => by cases h; rfl
  | _ + 1 => fun b h => by cases h

theorem fresh0 : Fresh world0 := fun _ => rfl

/-- The hypotheses are met, by calls that end well, by one that is cloned, and by one that breaks off after one byte and cleans up. -/
example : (∀ i, (jobs0 i).src.Honest) ∧ Fresh world0 ∧
    (run jobs0 (List.replicate 15 (0, {})) world0).content 0 ['a'] = some [1, 2, 3] ∧
    (run jobs0 ((List.replicate 15 (0, { clone := true })) ++ List.replicate 15 (1, { n := 1 })) world0).content 1 ['a'] = some [4, 5] ∧
    (run jobs0 [(1, {}), (1, {}), (0, {}), (1, {}), (1, {}), (1, { n := 1 }), (1, {})] world0).stage 1 1 = some [4] ∧
    (run jobs0 [(1, {}), (1, {}), (0, {}), (1, {}), (1, {}), (1, { n := 1 }), (1, {}), (1, { n := 1, after := .err }), (1, {}), (1, {})] world0).stage 1 1 = none ∧
    (run jobs0 [(1, {}), (1, {}), (0, {}), (1, {}), (1, {}), (1, { n := 1 }), (1, {}), (1, { n := 1, after := .err }), (1, {}), (1, {})] world0).content 1 ['a'] = some [9] :=
  ⟨honest0, fresh0, by decide +kernel, by decide +kernel, by decide +kernel, by decide +kernel, by decide +kernel⟩

/-- `C137_completes` has cases: two calls taking turns. -/
example : ∃ k, (run jobs0 ((List.replicate 15 [(0, {}), (1, { fail := true })]).flatten) world0).phase 0 = .done k :=
  C137_completes honest0 fresh0 _ (fun _ => rfl) (by
    intro c hc
    have : c = {} := by
      simp at hc
      exact hc
    subst this
    exact ⟨rfl, by decide, by decide, rfl⟩) (by decide +kernel)

/-- A wrapper whose descriptor is of another file than the one it reads is cloned all the same: the name gets the other file's bytes. -/
theorem C137_note_descriptor :
    let J : Nat → Job := fun _ => ⟨0, ['a'], ⟨[1, 2], some [7, 1, 2, 7]⟩⟩
    (run J (List.replicate 15 (0, { clone := true })) world0).phase 0 = .done 1 ∧
    (run J (List.replicate 15 (0, { clone := true })) world0).content 0 ['a'] = some [7, 1, 2, 7] :=
  ⟨rfl, rfl⟩

end Verif.Staging
