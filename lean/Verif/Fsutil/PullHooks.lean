import Verif.Fsutil.PullProps
/-
C83: what the pre-commit hooks and the expected size decide.
-/
namespace Verif.Fsutil.Pull
open Verif.Prog

/-- Every hook has accepted these bytes. -/
def AcceptedBy (e : Env) (p : Bytes) : Prop := ∀ i, i < e.hooks → e.accept i p = true

theorem pulling_accepted {e : Env} {exp : Info} {d d' : Disk} (ht : d.target = none) (h : Pulling e exp d d') :
    d'.target = none ∨ ∃ p, d'.target = some p ∧ AcceptedBy e p := by
  cases h with
  | clear h1 _ => exact Or.inl (h1.trans ht)
  | during x h => exact Or.inl (by rw [h.1, x.target]; exact ht)
  | committed x _ _ hk h1 _ => exact Or.inr ⟨_, h1, hk.2⟩

/-- **C83** Whatever fails or is killed, and whatever lay on the disk before: the destination is absent, or it holds bytes every hook has
accepted, at every point of the pull and after it. After success it is there. -/
theorem C83_committed_means_accepted (e : Env) (exp : Info) (d : Disk) (ht : d.target = none) :
    (∀ t ∈ crashes (pull e exp) d, t.target = none ∨ ∃ p, t.target = some p ∧ AcceptedBy e p) ∧
    ((final (pull e exp) d).target = none ∨ ∃ p, (final (pull e exp) d).target = some p ∧ AcceptedBy e p) ∧
    (result (pull e exp) d = .ok () → ∃ p, (final (pull e exp) d).target = some p ∧ AcceptedBy e p) := by
  obtain ⟨h1, h2, h3, _⟩ := holds_pull e exp d ht d rfl
  refine ⟨fun t hm => pulling_accepted ht (h1 t hm), pulling_accepted ht h2, fun hok => ?_⟩
  obtain ⟨x, _, _, h4, _, h5, _⟩ := h3 hok
  exact ⟨_, h4, h5.2⟩

/-- **C83** An error of a hook means that this hook rejected; nothing is committed, and the rejected part file and its sidecar are gone (unless
removing them fails), so that the next pull starts over. -/
theorem C83_rejected_is_discarded (e : Env) (exp : Info) (d : Disk) (ht : d.target = none) (i : Nat)
    (herr : result (pull e exp) d = .error (.io (.hook i))) :
    i < e.hooks ∧ (∃ p, e.accept i p = false) ∧ (final (pull e exp) d).target = none ∧
    (e.fail .removePart = false → e.fail .removeSide = false →
      (final (pull e exp) d).part = none ∧ (final (pull e exp) d).side = none) := by
  obtain ⟨_, _, _, h4⟩ := holds_pull e exp d ht d rfl
  obtain ⟨x, _, h5, h6, h7, h8⟩ := h4 i herr
  exact ⟨h5, ⟨_, h6⟩, h7, fun ha hb => h8 ⟨ha, hb⟩⟩

/-- **C83** Success leaves no part file behind, and no sidecar (unless removing it fails). -/
theorem C83_success_leaves_nothing (e : Env) (exp : Info) (d : Disk) (ht : d.target = none) (hok : result (pull e exp) d = .ok ()) :
    (final (pull e exp) d).part = none ∧ (e.fail .removeSide = false → (final (pull e exp) d).side = none) := by
  obtain ⟨_, _, h3, _⟩ := holds_pull e exp d ht d rfl
  obtain ⟨x, _, _, _, h5, _, h6⟩ := h3 hok
  exact ⟨h5, h6⟩

/-- **C83** A destination that exists is never touched; the pull returns nil exactly when its size is the expected one, or none is expected. -/
theorem C83_existing_target (e : Env) (exp : Info) (d : Disk) (t : Bytes) (ht : d.target = some t) :
    crashes (pull e exp) d = [] ∧ final (pull e exp) d = d ∧
    (result (pull e exp) d = .ok () ↔ e.fail .statName = false ∧ ∀ n, exp.size = some n → t.length = n) := by
  obtain ⟨h1, h2⟩ := holds_pull_existing e exp d t ht d rfl
  refine ⟨?_, h2, ?_⟩
  · cases h : (pull e exp d).1 with
    | nil => exact h
    | cons a l => exact (h1 a (by rw [h]; exact List.mem_cons_self ..)).elim
  · obtain ⟨t', p, s⟩ := d
    cases ht
    cases hs : exp.size <;> cases hf : e.fail .statName <;>
      simp [result, pull, Bind.bind, Prog.bind, Prog.get, call, hs, hf, Pure.pure, Prog.pure, Prog.fail]
    rename_i n
    by_cases hn : t.length = n <;> simp [hn, Prog.pure, Prog.fail]

/-- **C83** After success the destination has the size the caller expects, whether it was there before or not. -/
theorem C83_expected_size (e : Env) (exp : Info) (d : Disk) (n : Nat) (hn : exp.size = some n) (hok : result (pull e exp) d = .ok ()) :
    ∃ p, (final (pull e exp) d).target = some p ∧ p.length = n := by
  cases ht : d.target with
  | none =>
    obtain ⟨_, _, h3, _⟩ := holds_pull e exp d ht d rfl
    obtain ⟨x, _, h4, h5, _⟩ := h3 hok
    refine ⟨_, h5, ?_⟩
    have := h4 n (Or.inr hn)
    rw [x.start] at this
    rw [← this]
    simp [Session.whole]
  | some t =>
    obtain ⟨_, h2, h3⟩ := C83_existing_target e exp d t ht
    exact ⟨t, by rw [h2, ht], (h3.1 hok).2 n hn⟩

/-! ### a partial of other origin is no obstacle -/

theorem pull_succeeds {S : Bytes} {e : Env} {exp : Info} {d : Disk} (ht : d.target = none) (hf : NoFault e S.length) (hk : HooksOk e S)
    (hopen : ∀ r, Resumes exp d r (resumePoint e exp d).2.1 → Succeeds (openChecked e exp r.1 r.2) (resumePoint e exp d).2.1)
    (hall : ∀ x : Session e exp d, x.o.ending = .eof ∧ x.whole = S ∧ x.o.reads.flatten.length ≤ S.length ∧
      ∀ n, x.o.info.size = some n ∨ exp.size = some n → n = S.length ∧ x.startAt + x.o.reads.flatten.length = n) :
    result (pull e exp) d = .ok () ∧ (final (pull e exp) d).target = some S := by
  have hsucc : Succeeds (pull e exp) d := by
    unfold pull
    refine (succeeds_call hf _ _).bind (fun _ _ => ?_)
    have hc : (call e .statName d).2.1 = d := by unfold call; split <;> rfl
    rw [hc]
    refine (succeeds_get d).bind ?_
    intro d' hd'
    cases hd'
    show Succeeds (match d.target with | some t => _ | none => _) d
    rw [ht]
    refine (succeeds_resumePoint hf exp d).bind ?_
    rintro ⟨start0, stored0⟩ hr
    have hres := ((holds_resumePoint e exp d) d rfl).2.2 _ hr
    refine (hopen _ hres).bind ?_
    rintro ⟨o1, startAt, stored⟩ ho1
    have hop := ((holds_openChecked e exp start0 stored0 _) _ rfl).2.2 _ ho1
    let x : Session e exp d := ⟨o1, startAt, stored, _, start0, stored0, _, hres, hop⟩
    obtain ⟨hend, hw, hlen, hsizes⟩ := hall x
    show Succeeds (match effectiveSize o1.info.size exp.size with
        | none => Prog.fail .sizeMismatch
        | some size => do
          transfer e o1 startAt stored (effectiveETag o1.info.etag exp.etag) size
          commit e) _
    cases hsz : effectiveSize o1.info.size exp.size with
    | none =>
      exfalso
      unfold effectiveSize at hsz
      split at hsz
      · rename_i a b ha hb
        split at hsz
        · rename_i hne
          exact hne ((hsizes a (Or.inl ha)).1.trans (hsizes b (Or.inr hb)).1.symm)
        · cases hsz
      · cases hsz
      · cases hsz
      · cases hsz
    | some size =>
      have hcontent : ∀ s, size = some s → startAt + o1.reads.flatten.length = s := by
        intro s hs
        subst hs
        refine (hsizes s ?_).2
        unfold effectiveSize at hsz
        split at hsz
        · split at hsz
          · cases hsz
          · cases hsz; rename_i ha _; exact Or.inl ha
        · cases hsz; rename_i h1 h2; first | exact Or.inl h1 | exact Or.inl h2
        · cases hsz; rename_i hb; exact Or.inr hb
        · cases hsz
      refine (succeeds_transfer hf o1 startAt stored (effectiveETag o1.info.etag exp.etag) size _ hend hlen hcontent).bind ?_
      intro a ha
      have hd2 := ((holds_transfer e o1 startAt stored (effectiveETag o1.info.etag exp.etag) size _) _ rfl).2.2 ha
      rw [hd2.1]
      exact succeeds_commit hf _ S hk (congrArg some hw)
  obtain ⟨a, ha⟩ := hsucc
  have hok : result (pull e exp) d = .ok () := ha
  obtain ⟨x, _, _, h5, _⟩ := (holds_pull e exp d ht d rfl).2.2.1 hok
  exact ⟨hok, h5.trans (by rw [(hall x).2.1])⟩

/-- **C83** A partial that is empty, too large, or recorded as another version is no obstacle: one pull without failures, from a source that
has the whole content, commits that content. -/
theorem C83_foreign_partial_recovers {S : Bytes} {E : Str} (e : Env) (exp : Info) (d : Disk) (ht : d.target = none) (hu : Uniform S E e exp)
    (hsrc : ∀ k off, ∃ o, e.src k off = some o ∧ o.reads.flatten = S.drop off ∧ o.ending = .eof)
    (hf : NoFault e S.length) (hk : HooksOk e S)
    (hbad : ∀ p, d.part = some p → p = [] ∨ (∃ n, exp.size = some n ∧ n < p.length) ∨
      (E ≠ [] ∧ ∃ t, d.side = some t ∧ trimSpace t ≠ [] ∧ trimSpace t ≠ E)) :
    result (pull e exp) d = .ok () ∧ (final (pull e exp) d).target = some S := by
  have hE := hu.2.1
  have hexp := hu.2.2.2.1
  refine pull_succeeds ht hf hk ?_ ?_
  · rintro ⟨start, stored⟩ hr
    obtain ⟨o, ho, _⟩ := hsrc 0 start
    unfold openChecked
    have h1 : openSource e 0 start = Pure.pure o := by unfold openSource; rw [ho]
    rw [h1]
    refine (succeeds_pure _ _).bind ?_
    intro o' ho'
    cases ho'
    rw [if_neg]
    · split
      · refine (succeeds_removePartFiles hf _).bind (fun _ _ => ?_)
        obtain ⟨o2, ho2, _⟩ := hsrc 1 0
        have h2 : openSource e 1 0 = Pure.pure o2 := by unfold openSource; rw [ho2]
        rw [h2]
        exact (succeeds_pure _ _).bind (fun _ _ => succeeds_pure _ _)
      · exact succeeds_pure _ _
    · rintro ⟨h2, h3, h4⟩
      rcases hexp with h5 | h5
      · exact h2 h5
      · exact h4 (by rw [hE _ _ _ ho, h5])
  · intro x
    have h0 : x.startAt = 0 ∧ base x.disk x.startAt = [] := by
      have hc := x.cases
      rcases hc with ⟨p, hp, hxd, hs, _, hb, hsr, _, htr⟩ | ⟨h1, _, h2, _⟩
      · rcases hbad p hp with h | ⟨n, hn, hlt⟩ | ⟨hE0, t, hst, ht0, htE⟩
        · subst h; exact ⟨hs, hb⟩
        · exfalso
          have hpos : x.startAt ≠ 0 := by rw [hs]; omega
          rcases x.resumes with ⟨hd0, p', hp', hpr, hle, _⟩ | ⟨hpr, _⟩
          · rw [hp] at hp'; cases hp'
            have := hle n hn; omega
          · have h3 : x.start0 = 0 := congrArg Prod.fst hpr
            rcases x.opens with ⟨_, h2, _⟩ | ⟨_, h2, _⟩
            · exact hpos ((congrArg Prod.fst h2).trans h3)
            · exact hpos (congrArg Prod.fst h2)
        · by_cases hp0 : p = []
          · subst hp0; exact ⟨hs, hb⟩
          exfalso
          rcases htr with htr | htr
          · exact hp0 htr
          · have hside : sideTag d = trimSpace t := by unfold sideTag; rw [hst]; rfl
            rw [hE _ _ _ hsr, hside] at htr
            simp only [trusted, Bool.or_eq_true, Bool.and_eq_true, decide_eq_true_eq] at htr
            rcases htr with (h | h) | ⟨⟨h, _⟩, _⟩
            · exact hE0 h
            · exact htE h.symm
            · exact ht0 h
      · exact ⟨h1, h2⟩
    obtain ⟨h1, h2⟩ := h0
    obtain ⟨k, hs⟩ := x.src
    rw [h2] at hs
    obtain ⟨o, ho, hfl, hend⟩ := hsrc k 0
    have hxo : x.o = o := Option.some.inj (hs.symm.trans ho)
    have hfl' : x.o.reads.flatten = S := by rw [hxo, hfl]; rfl
    refine ⟨by rw [hxo, hend], by unfold Session.whole; rw [h2, hfl']; rfl, by rw [hfl']; exact Nat.le_refl _, ?_⟩
    intro n hn
    have : n = S.length := by
      rcases hn with hn | hn
      · rcases (hu.1 _ _ _ hs).1 with h | h <;> rw [h] at hn <;> cases hn; rfl
      · rcases hu.2.2.2.2 with h | h <;> rw [h] at hn <;> cases hn; rfl
    exact ⟨this, by rw [h1, hfl', this]; omega⟩

/-! ### the hypotheses are met -/

/-- A source of three bytes, complete, and hooks that want to see `want`. -/
def hookEnv (want : Bytes) : Env where
  fail := fun _ => false
  src := fun _ off => some ⟨⟨['a'], some 3⟩, [([1, 2, 3] : Bytes).drop off], .eof⟩
  wr := fun _ => (100, true)
  sideWr := (1, true)
  hooks := 2
  accept := fun _ p => p = want

/-- accepted; rejected, everything is gone; and a resumed pull whose first byte is wrong is rejected as well -/
example : (result (pull (hookEnv [1, 2, 3]) ⟨[], none⟩) ⟨none, some [1], some ['a']⟩).toOption = some () ∧
    final (pull (hookEnv [1, 2, 3]) ⟨[], none⟩) ⟨none, some [1], some ['a']⟩ = ⟨some [1, 2, 3], none, none⟩ := by decide
example : result (pull (hookEnv [4]) ⟨[], none⟩) ⟨none, none, none⟩ = .error (.io (.hook 0)) ∧
    final (pull (hookEnv [4]) ⟨[], none⟩) ⟨none, none, none⟩ = ⟨none, none, none⟩ := ⟨rfl, rfl⟩
example : result (pull (hookEnv [1, 2, 3]) ⟨[], none⟩) ⟨none, some [9], some ['a']⟩ = .error (.io (.hook 0)) ∧
    final (pull (hookEnv [1, 2, 3]) ⟨[], none⟩) ⟨none, some [9], some ['a']⟩ = ⟨none, none, none⟩ := ⟨rfl, rfl⟩
/-- a partial recorded as another version, and one that is too large -/
example : Uniform [1, 2, 3] ['a'] (hookEnv [1, 2, 3]) ⟨['a'], some 3⟩ ∧ NoFault (hookEnv [1, 2, 3]) 3 ∧ HooksOk (hookEnv [1, 2, 3]) [1, 2, 3] := by
  refine ⟨⟨?_, ?_, by decide, Or.inr rfl, Or.inr rfl⟩, ⟨fun _ => rfl, fun _ => ⟨(by show 3 ≤ 100; decide), rfl⟩, rfl⟩, fun _ => rfl, fun _ _ => rfl⟩
  · intro k off o ho
    cases ho
    exact ⟨Or.inr rfl, by simp, fun _ h => by cases h⟩
  · intro k off o ho
    cases ho; rfl
example : final (pull (hookEnv [1, 2, 3]) ⟨['a'], some 3⟩) ⟨none, some [9], some ['z']⟩ = ⟨some [1, 2, 3], none, none⟩ ∧
    final (pull (hookEnv [1, 2, 3]) ⟨['a'], some 3⟩) ⟨none, some [9, 9, 9, 9], some ['a']⟩ = ⟨some [1, 2, 3], none, none⟩ := ⟨rfl, rfl⟩
/-- an existing destination of another size -/
example : result (pull (hookEnv [1, 2, 3]) ⟨[], some 3⟩) ⟨some [1], none, none⟩ = .error .sizeMismatch := rfl

end Verif.Fsutil.Pull
