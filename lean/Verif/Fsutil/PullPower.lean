import Verif.Fsutil.PullHooks
/-
C139: pulls and losses of power.

resumable.go asks for no flush: `Pull` (268-446) never calls `Sync`, and the filesystem it is written for (`resumableFsys` 102-107) has no such
method. So a loss of power may take back or spoil whatever a pull has written: the part file and the sidecar are found in any state, and the
rename to the destination may be undone. What the destination holds after a loss depends on whether a pre-commit hook (they are handed the part
file, resumable.go 124-148) flushed it: nothing is written to the file after the hooks.

Simplifications: as in PullModel.lean; a loss may damage more than a real disk would (also what was flushed long ago may be gone again), except
that a flushed content is never replaced by another one.
-/
namespace Verif.Fsutil.Pull
open Verif.Prog

/-- The disk as found after a loss of power. A destination that was not there is not there. One that was there may be gone; if a hook flushed
the bytes before they were committed (`flushed`), it holds them or is gone. The part file and the sidecar are found in any state. -/
def Spoiled (flushed : Bool) (d d' : Disk) : Prop :=
  d'.target = none ∨ ∃ t, d.target = some t ∧ ∃ t', d'.target = some t' ∧ (flushed = true → t' = t)

/-- The disks found by somebody who pulls, is killed, loses power and pulls again, any number of times in any order. -/
inductive History (flushed : Bool) (pulls : P Unit → Prop) (d0 : Disk) : Disk → Prop
  | start : History flushed pulls d0 d0
  | killed {d m t} : History flushed pulls d0 d → pulls m → t ∈ crashes m d → History flushed pulls d0 t
  | returned {d m} : History flushed pulls d0 d → pulls m → History flushed pulls d0 (final m d)
  | lost {d d'} : History flushed pulls d0 d → Spoiled flushed d d' → History flushed pulls d0 d'

/-- One of the hooks accepts nothing but `S` (it compares a digest, say). -/
def Verifies (S : Bytes) (e : Env) : Prop := ∃ i, i < e.hooks ∧ ∀ p, e.accept i p = true → p = S

/-- Pulls that verify; the sources may deliver anything, and anything may fail. -/
def VerifiedPulls (S : Bytes) (m : P Unit) : Prop := ∃ e exp, Verifies S e ∧ m = pull e exp

theorem accepted_eq {S p : Bytes} {e : Env} (hv : Verifies S e) (h : AcceptedBy e p) : p = S := by
  obtain ⟨i, hi, ha⟩ := hv
  exact ha p (h i hi)

theorem pull_target {S : Bytes} {e : Env} (hv : Verifies S e) (exp : Info) {d : Disk} (hd : d.target = none ∨ d.target = some S) :
    (∀ t ∈ crashes (pull e exp) d, t.target = none ∨ t.target = some S) ∧
    ((final (pull e exp) d).target = none ∨ (final (pull e exp) d).target = some S) ∧
    (result (pull e exp) d = .ok () → (final (pull e exp) d).target = some S) := by
  rcases hd with hd | hd
  · obtain ⟨h1, h2, h3⟩ := C83_committed_means_accepted e exp d hd
    have key : ∀ x : Option Bytes, (x = none ∨ ∃ p, x = some p ∧ AcceptedBy e p) → x = none ∨ x = some S := by
      rintro x (hx | ⟨p, hx, ha⟩)
      · exact Or.inl hx
      · exact Or.inr (by rw [hx, accepted_eq hv ha])
    refine ⟨fun t ht => key _ (h1 t ht), key _ h2, fun hok => ?_⟩
    obtain ⟨p, hp, ha⟩ := h3 hok
    rw [hp, accepted_eq hv ha]
  · obtain ⟨h1, h2, _⟩ := C83_existing_target e exp d S hd
    rw [h1, h2]
    exact ⟨fun t ht => (by cases ht), Or.inr hd, fun _ => hd⟩

/-- **C139** If a hook flushes and verifies the part file, then whatever was pulled, killed and lost, in any order, and whatever the sources
delivered: the destination is absent or holds the content, and a pull that returns nil leaves the content there.
Missing from C139: a pull without such a hook (`C139_counterexample_resumed`, `C139_counterexample_unflushed`), and that what a pull
committed is still there after a loss (`C139_counterexample_gone`). -/
theorem C139_verified_partial {S : Bytes} {d0 d : Disk} (h0 : d0.target = none) (h : History true (VerifiedPulls S) d0 d) :
    (d.target = none ∨ d.target = some S) ∧
    ∀ e exp, Verifies S e → result (pull e exp) d = .ok () → (final (pull e exp) d).target = some S := by
  have hd : d.target = none ∨ d.target = some S := by
    induction h with
    | start => exact Or.inl h0
    | killed _ hm ht ih =>
      obtain ⟨e, exp, hv, rfl⟩ := hm
      exact (pull_target hv exp ih).1 _ ht
    | returned _ hm ih =>
      obtain ⟨e, exp, hv, rfl⟩ := hm
      exact (pull_target hv exp ih).2.1
    | lost _ hs ih =>
      rcases hs with hs | ⟨t, ht, t', ht', hf⟩
      · exact Or.inl hs
      · rcases ih with ih | ih
        · rw [ih] at ht; cases ht
        · rw [ih] at ht; cases ht
          exact Or.inr (by rw [ht', hf rfl])
  exact ⟨hd, fun e exp hv hok => (pull_target hv exp hd).2.2 hok⟩

/-! ### filesystems that lose only the end of files -/

/-- The disk as found after a loss of power that loses only the end of files. The destination is kept or gone, and if it is gone it may be found under the name it had before.
The part file has lost some of its end, or all of it, or is gone. The sidecar is found in any state. -/
def EndsLost (d d' : Disk) : Prop :=
  (d'.target = none ∨ d'.target = d.target) ∧ ∀ p', d'.part = some p' → ∃ p, (d.part = some p ∨ d.target = some p) ∧ p' <+: p

theorem endsLost_prefix {S : Bytes} {d d' : Disk} (hd : PrefixOf S d) (h : EndsLost d d') : PrefixOf S d' := by
  obtain ⟨ht, hp⟩ := h
  refine ⟨fun p' hp' => ?_, ?_⟩
  · obtain ⟨p, hp, hpre⟩ := hp p' hp'
    rcases hp with hp | hp
    · exact hpre.trans (hd.1 p hp)
    · rcases hd.2 with h | h
      · rw [h] at hp; cases hp
      · rw [h] at hp; cases hp; exact hpre
  · rcases ht with h | h
    · exact Or.inl h
    · rw [h]; exact hd.2

/-- The disks found when pulls are made, killed and cut short by such losses. -/
inductive EndsHistory (pulls : P Unit → Prop) (d0 : Disk) : Disk → Prop
  | start : EndsHistory pulls d0 d0
  | killed {d m t} : EndsHistory pulls d0 d → pulls m → t ∈ crashes m d → EndsHistory pulls d0 t
  | returned {d m} : EndsHistory pulls d0 d → pulls m → EndsHistory pulls d0 (final m d)
  | lost {d d'} : EndsHistory pulls d0 d → EndsLost d d' → EndsHistory pulls d0 d'

/-- **C139** Without any hook, on a filesystem that loses only the end of files (bytes reach the disk in the order they were written, and a name is moved only after the bytes of the file), from a source
that does not change: the part file is a beginning of the source, the destination is absent or the source, and a pull that returns nil leaves the source there.
Missing from C139: other filesystems, and sources that change (`C139_counterexample_resumed`, `C139_counterexample_unflushed`). -/
theorem C139_ends_partial {S : Bytes} {d0 d : Disk} (h0 : d0.target = none ∧ d0.part = none) (h : EndsHistory (PullsOf S) d0 d) :
    ((∀ p, d.part = some p → p <+: S) ∧ (d.target = none ∨ d.target = some S)) ∧
    ∀ e exp, Steady S e → result (pull e exp) d = .ok () → (final (pull e exp) d).target = some S := by
  have hd : PrefixOf S d := by
    induction h with
    | start => exact ⟨(fun p hp => by rw [h0.2] at hp; cases hp), Or.inl h0.1⟩
    | killed _ hm ht ih =>
      obtain ⟨e, exp, he, rfl⟩ := hm
      exact ((pull_prefix e exp he) _ ih).1 _ ht
    | returned _ hm ih =>
      obtain ⟨e, exp, he, rfl⟩ := hm
      exact ((pull_prefix e exp he) _ ih).2.1
    | lost _ hs ih => exact endsLost_prefix ih hs
  exact ⟨hd, fun e exp he hok => ((pull_prefix e exp he) d hd).2.2 hok⟩

theorem demo_steady (n : Nat) : Steady [1, 2, 3] (demoEnv (fun _ => ['a']) n) := by
  intro k off o ho
  cases ho
  refine ⟨Or.inr rfl, ?_, fun _ h => by cases h⟩
  show [(demoContent ['a']).drop off |>.take n].flatten <+: _
  simp only [List.flatten_cons, List.flatten_nil, List.append_nil]
  exact List.take_prefix _ _

/-- Two bytes arrive, a loss leaves one of them and a broken sidecar, and a pull completes. -/
example : ∃ d, EndsHistory (PullsOf [1, 2, 3]) ⟨none, none, none⟩ d ∧ d = ⟨none, some [1], some []⟩ ∧
    (result (pull (demoEnv (fun _ => ['a']) 9) ⟨['a'], some 3⟩) d).toOption = some () ∧
    (final (pull (demoEnv (fun _ => ['a']) 9) ⟨['a'], some 3⟩) d).target = some [1, 2, 3] := by
  refine ⟨_, .lost (.returned .start ⟨demoEnv (fun _ => ['a']) 2, ⟨['a'], some 3⟩, demo_steady 2, rfl⟩) ⟨Or.inl rfl, ?_⟩, rfl, by decide⟩
  intro p' hp'
  cases hp'
  exact ⟨[1, 2], Or.inl (by decide), by decide⟩

/-! ### and it gets there -/

/-- The program returns nil, or the error of a hook. -/
def Judged {α : Type} (m : P α) (d : Disk) : Prop := Succeeds m d ∨ ∃ i, (m d).2.2 = .error (.io (.hook i))

theorem Succeeds.judged {α β : Type} {m : P α} {f : α → P β} {d : Disk} (h : Succeeds m d)
    (hf : ∀ a, (m d).2.2 = .ok a → Judged (f a) (m d).2.1) : Judged (m >>= f) d := by
  obtain ⟨a, ha⟩ := h
  rcases hf a ha with hb | ⟨i, hi⟩
  · refine Or.inl (Succeeds.bind ⟨a, ha⟩ (fun a' ha' => ?_))
    rw [ha] at ha'; cases ha'
    exact hb
  · refine Or.inr ⟨i, ?_⟩
    show (Prog.bind m f d).2.2 = _
    unfold Prog.bind
    rcases hm : m d with ⟨t, s1, r⟩
    rw [hm] at ha hi
    simp only at ha
    subst ha
    exact hi

theorem judged_commit {e : Env} {n : Nat} (hf : NoFault e n) (d : Disk) (p : Bytes) (hp : d.part = some p) : Judged (commit e) d := by
  by_cases hk : HooksOk e p
  · exact Or.inl (succeeds_commit hf d p hk hp)
  · have hr := ((holds_runHooks e d p hp e.hooks 0 (by omega)) d rfl).2
    cases hx : (runHooks e 0 e.hooks d).2.2 with
    | ok a =>
      exfalso
      have := hr.2.1 hx
      exact hk ⟨this.2.1, fun i hi => this.2.2 i (Nat.zero_le _) hi⟩
    | error x =>
      obtain ⟨hrej, _⟩ := hr.2.2 x hx
      have hx' : ∃ i, x = .io (.hook i) := by
        rcases hrej with h | ⟨i, _, h, _⟩
        · exfalso
          subst h
          exact absurd hx (noSeek hf _ _ _)
        · exact ⟨i, h⟩
      obtain ⟨i, rfl⟩ := hx'
      refine Or.inr ⟨i, ?_⟩
      show (Prog.bind _ _ d).2.2 = _
      unfold Prog.bind
      rcases hm : runHooks e 0 e.hooks d with ⟨t, s1, r⟩
      rw [hm] at hx
      simp only at hx
      subst hx
      rfl
where
  noSeek {e : Env} {n : Nat} (hf : NoFault e n) : ∀ (k i : Nat) (d : Disk), (runHooks e i k d).2.2 ≠ .error (.io .hookSeek) := by
    intro k
    induction k with
    | zero => intro i d h; cases h
    | succ k ih =>
      intro i d h
      unfold runHooks at h
      rw [if_neg (by rw [hf.1]; simp)] at h
      change (Prog.bind Prog.get _ d).2.2 = _ at h
      simp only [Prog.bind, Prog.get] at h
      split at h
      · exact ih _ _ h
      · change (Prog.bind (Prog.attempt _) _ d).2.2 = _ at h
        simp only [Prog.bind, Prog.attempt, Prog.fail] at h
        cases h

theorem pull_judged {S : Bytes} {e : Env} {exp : Info} {d : Disk} (ht : d.target = none) (hf : NoFault e S.length)
    (hopen : ∀ r, Resumes exp d r (resumePoint e exp d).2.1 → Succeeds (openChecked e exp r.1 r.2) (resumePoint e exp d).2.1)
    (hall : ∀ x : Session e exp d, x.o.ending = .eof ∧ x.o.reads.flatten.length ≤ S.length ∧
      ∀ n, x.o.info.size = some n ∨ exp.size = some n → n = S.length ∧ x.startAt + x.o.reads.flatten.length = n) :
    Judged (pull e exp) d := by
  unfold pull
  refine (succeeds_call hf _ _).judged (fun _ _ => ?_)
  have hc : (call e .statName d).2.1 = d := by unfold call; split <;> rfl
  rw [hc]
  refine (succeeds_get d).judged ?_
  intro d' hd'
  cases hd'
  show Judged (match d.target with | some t => _ | none => _) d
  rw [ht]
  refine (succeeds_resumePoint hf exp d).judged ?_
  rintro ⟨start0, stored0⟩ hr
  have hres := ((holds_resumePoint e exp d) d rfl).2.2 _ hr
  refine (hopen _ hres).judged ?_
  rintro ⟨o1, startAt, stored⟩ ho1
  have hop := ((holds_openChecked e exp start0 stored0 _) _ rfl).2.2 _ ho1
  let x : Session e exp d := ⟨o1, startAt, stored, _, start0, stored0, _, hres, hop⟩
  obtain ⟨hend, hlen, hsizes⟩ := hall x
  show Judged (match effectiveSize o1.info.size exp.size with
      | none => Prog.fail .sizeMismatch
      | some size => do
        transfer e o1 startAt stored (effectiveETag o1.info.etag exp.etag) size
        commit e) _
  cases hsz : effectiveSize o1.info.size exp.size with
  | none =>
    exfalso
    unfold effectiveSize at hsz
    split at hsz
    · rename_i a b ha hb
      split at hsz
      · rename_i hne
        exact hne ((hsizes a (Or.inl ha)).1.trans (hsizes b (Or.inr hb)).1.symm)
      · cases hsz
    · cases hsz
    · cases hsz
    · cases hsz
  | some size =>
    have hcontent : ∀ s, size = some s → startAt + o1.reads.flatten.length = s := by
      intro s hs
      subst hs
      refine (hsizes s ?_).2
      unfold effectiveSize at hsz
      split at hsz
      · split at hsz
        · cases hsz
        · cases hsz; rename_i ha _; exact Or.inl ha
      · cases hsz; rename_i h1 h2; first | exact Or.inl h1 | exact Or.inl h2
      · cases hsz; rename_i hb; exact Or.inr hb
      · cases hsz
    refine (succeeds_transfer hf o1 startAt stored (effectiveETag o1.info.etag exp.etag) size _ hend hlen hcontent).judged ?_
    intro a ha
    have hd2 := ((holds_transfer e o1 startAt stored (effectiveETag o1.info.etag exp.etag) size _) _ rfl).2.2 ha
    rw [hd2.1]
    exact judged_commit hf _ _ rfl

/-- **C139** And it is never stuck: whatever a loss of power left, once nothing fails, the source has the content, the caller says how long it
is, and one of the hooks verifies, two pulls are enough: after the second one the content is there and the pull returned nil.
Missing from C139: as for `C139_verified_partial`, and a caller that does not say the size (`C139_counterexample_stuck`). -/
theorem C139_recovers_partial {S : Bytes} {E : Str} {d0 d : Disk} (h0 : d0.target = none) (h : History true (VerifiedPulls S) d0 d)
    (e : Env) (exp : Info) (hu : Uniform S E e exp) (hsize : exp.size = some S.length)
    (hsrc : ∀ k off, ∃ o, e.src k off = some o ∧ o.reads.flatten = S.drop off ∧ o.ending = .eof)
    (hf : NoFault e S.length) (hk : HooksOk e S) (hv : Verifies S e) :
    result (pull e exp) (final (pull e exp) d) = .ok () ∧ (final (pull e exp) (final (pull e exp) d)).target = some S := by
  have hd := (C139_verified_partial h0 h).1
  have again : ∀ {d1 : Disk}, d1.target = some S →
      result (pull e exp) d1 = .ok () ∧ (final (pull e exp) d1).target = some S := by
    intro d1 h1
    obtain ⟨_, h2, h3⟩ := C83_existing_target e exp d1 S h1
    exact ⟨h3.2 ⟨hf.1 _, fun n hn => by rw [hsize] at hn; cases hn; rfl⟩, by rw [h2]; exact h1⟩
  rcases hd with ht | ht
  · have hE := hu.2.1
    have hexp := hu.2.2.2.1
    have hj : Judged (pull e exp) d := by
      refine pull_judged ht hf ?_ ?_
      · rintro ⟨start, stored⟩ hr
        obtain ⟨o, ho, _⟩ := hsrc 0 start
        unfold openChecked
        have h1 : openSource e 0 start = Pure.pure o := by unfold openSource; rw [ho]
        rw [h1]
        refine (succeeds_pure _ _).bind ?_
        intro o' ho'
        cases ho'
        rw [if_neg]
        · split
          · refine (succeeds_removePartFiles hf _).bind (fun _ _ => ?_)
            obtain ⟨o2, ho2, _⟩ := hsrc 1 0
            have h2 : openSource e 1 0 = Pure.pure o2 := by unfold openSource; rw [ho2]
            rw [h2]
            exact (succeeds_pure _ _).bind (fun _ _ => succeeds_pure _ _)
          · exact succeeds_pure _ _
        · rintro ⟨h2, h3, h4⟩
          rcases hexp with h5 | h5
          · exact h2 h5
          · exact h4 (by rw [hE _ _ _ ho, h5])
      · intro x
        have hle : x.startAt ≤ S.length := by
          have h1 : x.start0 ≤ S.length := by
            rcases x.resumes with ⟨_, p, _, hpr, hle, _⟩ | ⟨hpr, _⟩
            · have h3 : x.start0 = p.length := congrArg Prod.fst hpr
              rw [h3]; exact hle _ hsize
            · have h3 : x.start0 = 0 := congrArg Prod.fst hpr
              omega
          rcases x.opens with ⟨_, h2, _⟩ | ⟨_, h2, _⟩
          · have h3 : x.startAt = x.start0 := congrArg Prod.fst h2
            omega
          · have h3 : x.startAt = 0 := congrArg Prod.fst h2
            omega
        obtain ⟨k, hs⟩ : ∃ k, e.src k x.startAt = some x.o := by
          rcases x.opens with ⟨_, h2, h3, _⟩ | ⟨_, h2, h3, _⟩
          · have h4 : x.startAt = x.start0 := congrArg Prod.fst h2
            exact ⟨0, by rw [h4]; exact h3⟩
          · have h4 : x.startAt = 0 := congrArg Prod.fst h2
            exact ⟨1, by rw [h4]; exact h3⟩
        obtain ⟨o, ho, hfl, hend⟩ := hsrc k x.startAt
        have hxo : x.o = o := Option.some.inj (hs.symm.trans ho)
        have hlen : x.o.reads.flatten.length = S.length - x.startAt := by rw [hxo, hfl, List.length_drop]
        refine ⟨by rw [hxo, hend], by omega, fun n hn => ?_⟩
        have : n = S.length := by
          rcases hn with hn | hn
          · rcases (hu.1 _ _ _ hs).1 with h | h <;> rw [h] at hn <;> cases hn; rfl
          · rw [hsize] at hn; cases hn; rfl
        exact ⟨this, by omega⟩
    rcases hj with ⟨a, ha⟩ | ⟨i, hi⟩
    · exact again ((pull_target hv exp (Or.inl ht)).2.2 ha)
    · obtain ⟨_, _, h3, h4⟩ := C83_rejected_is_discarded e exp d ht i hi
      have h5 := (h4 (hf.1 _) (hf.1 _)).1
      exact C83_foreign_partial_recovers e exp _ h3 hu hsrc hf hk (fun p hp => by rw [h5] at hp; cases hp)
  · refine again ?_
    obtain ⟨_, h2, _⟩ := C83_existing_target e exp d S ht
    rw [h2]; exact ht

/-! ### without the hooks, and without the size -/

/-- A source of three bytes with an ETag, nothing fails; the hooks are given. -/
def powerEnv (hooks : Nat) (accept : Nat → Bytes → Bool) (size : Option Nat) : Env where
  fail := fun _ => false
  src := fun _ off => some ⟨⟨['a'], size⟩, [([1, 2, 3] : Bytes).drop off], .eof⟩
  wr := fun _ => (100, true)
  sideWr := (1, true)
  hooks := hooks
  accept := accept

/-- **C139 fails** for a pull without hooks: power is lost when two of three bytes have been written; their blocks never reached the disk, the
length did. The next pull goes on behind them, is content with the ETag and the size, and returns nil: the destination holds bytes
that the source never had. -/
theorem C139_counterexample_resumed :
    ∃ (e : Env) (exp : Info) (d1 d2 : Disk), Uniform [1, 2, 3] ['a'] e exp ∧ exp.size = some 3 ∧ NoFault e 3 ∧
      d1 ∈ crashes (pull { e with src := fun _ _ => some ⟨⟨['a'], some 3⟩, [[1, 2], [3]], .eof⟩ } exp) ⟨none, none, none⟩ ∧
      d1.part = some [1, 2] ∧ Spoiled true d1 d2 ∧ d2.part = some [0, 0] ∧ d2.side = d1.side ∧
      result (pull e exp) d2 = .ok () ∧ (final (pull e exp) d2).target = some [0, 0, 3] := by
  refine ⟨powerEnv 0 (fun _ _ => true) (some 3), ⟨['a'], some 3⟩, ⟨none, some [1, 2], some ['a']⟩, ⟨none, some [0, 0], some ['a']⟩,
    ?_, rfl, ⟨fun _ => rfl, fun _ => ⟨by show 3 ≤ 100; decide, rfl⟩, rfl⟩, ?_, rfl, Or.inl rfl, rfl, rfl, rfl, rfl⟩
  · refine ⟨?_, ?_, rfl, Or.inr rfl, Or.inr rfl⟩
    · intro k off o ho
      cases ho
      exact ⟨Or.inr rfl, by simp, fun _ h => (by cases h)⟩
    · intro k off o ho
      cases ho; rfl
  · decide

/-- **C139 fails** for a hook that verifies but does not flush: the pull returned nil with the right content, the power is lost, the name of the
destination is there and its bytes are not. Every later pull takes the length for the content and returns nil. -/
theorem C139_counterexample_unflushed :
    ∃ (e : Env) (exp : Info) (d : Disk), Verifies [1, 2, 3] e ∧ exp.size = some 3 ∧
      result (pull e exp) ⟨none, none, none⟩ = .ok () ∧ (final (pull e exp) ⟨none, none, none⟩).target = some [1, 2, 3] ∧
      Spoiled false (final (pull e exp) ⟨none, none, none⟩) d ∧ d.target = some [0, 0, 0] ∧
      ∀ e', e'.fail .statName = false → result (pull e' exp) d = .ok () ∧ (final (pull e' exp) d).target = some [0, 0, 0] := by
  refine ⟨powerEnv 1 (fun _ p => p = [1, 2, 3]) (some 3), ⟨['a'], some 3⟩, ⟨some [0, 0, 0], none, none⟩,
    ⟨0, by decide, fun p hp => by simpa [powerEnv] using hp⟩, rfl, rfl, rfl,
    Or.inr ⟨[1, 2, 3], rfl, [0, 0, 0], rfl, fun h => (by cases h)⟩, rfl, ?_⟩
  intro e' he
  obtain ⟨_, h2, h3⟩ := C83_existing_target e' ⟨['a'], some 3⟩ ⟨some [0, 0, 0], none, none⟩ [0, 0, 0] rfl
  exact ⟨h3.2 ⟨he, fun n hn => by cases hn; rfl⟩, by rw [h2]⟩

/-- **C139 fails** for what was committed: nothing asks for the directory to be flushed, so a pull that returned nil can be undone by a loss of
power, with hooks that flush as well. -/
theorem C139_counterexample_gone :
    ∃ (e : Env) (exp : Info) (d : Disk), Verifies [1, 2, 3] e ∧ result (pull e exp) ⟨none, none, none⟩ = .ok () ∧
      (final (pull e exp) ⟨none, none, none⟩).target = some [1, 2, 3] ∧
      Spoiled true (final (pull e exp) ⟨none, none, none⟩) d ∧ d = ⟨none, none, none⟩ :=
  ⟨powerEnv 1 (fun _ p => p = [1, 2, 3]) (some 3), ⟨['a'], some 3⟩, ⟨none, none, none⟩,
    ⟨0, by decide, fun p hp => by simpa [powerEnv] using hp⟩, rfl, rfl, Or.inl rfl, rfl⟩

/-- The disk after so many pulls. -/
def after (m : P Unit) (d : Disk) : Nat → Disk
  | 0 => d
  | n + 1 => after m (final m d) n

/-- A source without ETags, nothing fails, and a hook that wants to see `[1, 2, 3]`. -/
def plainEnv (content : Bytes) : Env where
  fail := fun _ => false
  src := fun _ off => some ⟨⟨[], some content.length⟩, [(content.take 4).drop off, (content.drop 4).drop (off - 4)], .eof⟩
  wr := fun _ => (100, true)
  sideWr := (1, true)
  hooks := 1
  accept := fun _ p => p = [1, 2, 3]

/-- **C139 fails** for a caller that does not say the size: the part file is longer than the content (here: it is what is left of a pull of an
earlier, longer content). The source says how long the content is, so every pull ends in an error; none removes the part file, and the
hook, which would reject it, is never asked. -/
theorem C139_counterexample_stuck :
    ∃ (e0 e : Env) (exp : Info) (d : Disk), Verifies [1, 2, 3] e0 ∧ Verifies [1, 2, 3] e ∧ NoFault e 3 ∧ exp.size = none ∧
      d ∈ crashes (pull e0 exp) ⟨none, none, none⟩ ∧
      (∀ k, ∃ o, e.src k 0 = some o ∧ o.reads.flatten = [1, 2, 3] ∧ o.info.size = some 3 ∧ o.ending = .eof) ∧
      ∀ n, result (pull e exp) (after (pull e exp) d n) = .error .unexpectedEOF ∧ (after (pull e exp) d n).target = none := by
  refine ⟨plainEnv [9, 9, 9, 9, 9], plainEnv [1, 2, 3], ⟨[], none⟩, ⟨none, some [9, 9, 9, 9], none⟩,
    ⟨0, by decide, fun p hp => by simpa [plainEnv] using hp⟩, ⟨0, by decide, fun p hp => by simpa [plainEnv] using hp⟩,
    ⟨fun _ => rfl, fun _ => ⟨by show 3 ≤ 100; decide, rfl⟩, rfl⟩, rfl, by decide, fun k => ⟨_, rfl, rfl, rfl, rfl⟩, ?_⟩
  intro n
  have h : after (pull (plainEnv [1, 2, 3]) ⟨[], none⟩) ⟨none, some [9, 9, 9, 9], none⟩ n = ⟨none, some [9, 9, 9, 9], none⟩ := by
    induction n with
    | zero => rfl
    | succ n ih => exact ih
  rw [h]
  exact ⟨rfl, rfl⟩

/-! ### the hypotheses are met -/

/-- A pull is killed with two bytes written, the power is lost and the bytes are spoiled; the next pull resumes, its hook rejects what it finds,
and the one after it commits the content. -/
example : ∃ (e : Env) (exp : Info) (d : Disk), History true (VerifiedPulls [1, 2, 3]) ⟨none, none, none⟩ d ∧ d.part = some [0, 0] ∧
    Uniform [1, 2, 3] ['a'] e exp ∧ NoFault e 3 ∧ HooksOk e [1, 2, 3] ∧ Verifies [1, 2, 3] e ∧
    result (pull e exp) d = .error (.io (.hook 0)) ∧ (final (pull e exp) (final (pull e exp) d)).target = some [1, 2, 3] := by
  refine ⟨powerEnv 1 (fun _ p => p = [1, 2, 3]) (some 3), ⟨['a'], some 3⟩, ⟨none, some [0, 0], some ['a']⟩,
    .lost (.killed .start ⟨powerEnv 1 (fun _ p => p = [1, 2, 3]) (some 3), ⟨['a'], some 3⟩,
      ⟨0, by decide, fun p hp => by simpa [powerEnv] using hp⟩, rfl⟩ (t := ⟨none, some [1, 2, 3], some ['a']⟩) (by decide)) (Or.inl rfl),
    rfl, ?_, ⟨fun _ => rfl, fun _ => ⟨by show 3 ≤ 100; decide, rfl⟩, rfl⟩, ⟨fun _ => rfl, fun i _ => by simp [powerEnv]⟩,
    ⟨0, by decide, fun p hp => by simpa [powerEnv] using hp⟩, rfl, rfl⟩
  refine ⟨?_, ?_, rfl, Or.inr rfl, Or.inr rfl⟩
  · intro k off o ho
    cases ho
    exact ⟨Or.inr rfl, by simp, fun _ h => (by cases h)⟩
  · intro k off o ho
    cases ho; rfl

end Verif.Fsutil.Pull
