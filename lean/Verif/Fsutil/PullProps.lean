import Verif.Fsutil.PullLemmas
/-
C25 and C26: `Pull`.
-/
namespace Verif.Fsutil.Pull
open Verif.Prog

/-! ### what a session starts from -/

theorem Session.cases {e : Env} {exp : Info} {d : Disk} (x : Session e exp d) :
    (∃ p, d.part = some p ∧ x.disk = d ∧ x.startAt = p.length ∧ x.stored = sideTag d ∧ base x.disk x.startAt = p ∧
      e.src 0 p.length = some x.o ∧ (exp.etag = [] ∨ x.o.info.etag = [] ∨ x.o.info.etag = exp.etag) ∧
      (p = [] ∨ trusted exp x.o.info.etag (sideTag d) = true)) ∨
    (x.startAt = 0 ∧ x.stored = [] ∧ base x.disk x.startAt = [] ∧ (d.part = none ∨ Drops e exp d) ∧
      ((e.src 0 0 = some x.o ∧ (exp.etag = [] ∨ x.o.info.etag = [] ∨ x.o.info.etag = exp.etag)) ∨
       (e.src 1 0 = some x.o ∧ exp.etag = []))) := by
  obtain ⟨o, startAt, stored, disk, start0, stored0, disk0, hres, hop⟩ := x
  simp only
  rcases hres with ⟨rfl, p, hp, hpr, _, htag⟩ | ⟨h0, hd0⟩
  · cases hpr
    rcases hop with ⟨rfl, h2, h3, h4, h5⟩ | ⟨rfl, h2, h3, h4, o', h5, h6, h7⟩
    · cases h2
      refine Or.inl ⟨p, hp, rfl, rfl, rfl, ?_, h3, h4, h5.imp List.length_eq_zero_iff.1 id⟩
      unfold base
      split
      · rename_i h; exact (List.length_eq_zero_iff.1 h).symm
      · rw [hp]; rfl
    · cases h2
      refine Or.inr ⟨rfl, rfl, rfl, Or.inr (Or.inr (Or.inr ⟨p, hp, h4, o', h5, h7⟩)), Or.inr ⟨h3, ?_⟩⟩
      by_cases he : exp.etag = []
      · exact he
      · exfalso
        simp only [trusted, Bool.or_eq_false_iff, Bool.and_eq_false_iff, decide_eq_false_iff_not] at h7
        obtain ⟨⟨h71, h72⟩, h73⟩ := h7
        rcases h6 with h6 | h6 | h6
        · exact he h6
        · exact h71 h6
        · rcases htag with ht | ht | ht
          · rcases h73 with (h73 | h73) | h73
            · exact h73 ht
            · exact h73 he
            · exact h73 h6
          · exact he ht
          · exact h72 (h6.trans ht.symm)
  · cases h0
    have hdr : d.part = none ∨ Drops e exp d := by
      rcases hd0 with ⟨_, h⟩ | ⟨h, _⟩
      · exact Or.inl h
      · exact Or.inr (Or.inr (Or.inl h))
    rcases hop with ⟨rfl, h2, h3, h4, h5⟩ | ⟨rfl, h2, h3, h4, _⟩
    · cases h2
      exact Or.inr ⟨rfl, rfl, rfl, hdr, Or.inl ⟨h3, h4⟩⟩
    · omega

/-- The source was asked at the position where the part file ends. -/
theorem Session.src {e : Env} {exp : Info} {d : Disk} (x : Session e exp d) :
    ∃ k, e.src k (base x.disk x.startAt).length = some x.o := by
  rcases x.cases with ⟨p, _, _, _, _, hb, hs, _⟩ | ⟨_, _, hb, _, ⟨hs, _⟩ | ⟨hs, _⟩⟩
  · exact ⟨0, by rw [hb]; exact hs⟩
  · exact ⟨0, by rw [hb]; exact hs⟩
  · exact ⟨1, by rw [hb]; exact hs⟩

theorem Session.start {e : Env} {exp : Info} {d : Disk} (x : Session e exp d) : x.startAt = (base x.disk x.startAt).length := by
  rcases x.cases with ⟨p, _, _, h, _, hb, _⟩ | ⟨h, _, hb, _⟩
  · rw [hb]; exact h
  · rw [hb]; exact h

theorem prefix_append_drop {p q S : Bytes} (hp : p <+: S) (hq : q <+: S.drop p.length) : p ++ q <+: S := by
  obtain ⟨t, rfl⟩ := hp
  rw [List.drop_left] at hq
  exact (List.prefix_append_right_inj p).2 hq

theorem whole_eq {p f S : Bytes} {n : Nat} (hp : p <+: S) (hf : f <+: S.drop p.length) (hn : n = S.length) (h : p.length + f.length = n) :
    p ++ f = S := by
  have := prefix_append_drop hp hf
  exact this.eq_of_length (by simp; omega)

/-! ### C26: an unchanged source -/

/-- A source that always has the content `S`: any number of bytes from the requested offset before EOF or an error, and, when it reports no
size, EOF only at the end. Its ETag may be anything. -/
def Steady (S : Bytes) (e : Env) : Prop := ∀ k off o, e.src k off = some o →
  (o.info.size = none ∨ o.info.size = some S.length) ∧ o.reads.flatten <+: S.drop off ∧
    (o.ending = .eof → o.info.size = none → o.reads.flatten = S.drop off)

/-- The part file holds the first bytes of `S`, the destination is absent or holds `S`. -/
def PrefixOf (S : Bytes) (d : Disk) : Prop := (∀ p, d.part = some p → p <+: S) ∧ (d.target = none ∨ d.target = some S)

theorem session_prefix {S : Bytes} {e : Env} {exp : Info} {d : Disk} (hd : PrefixOf S d) (x : Session e exp d) :
    base x.disk x.startAt <+: S := by
  rcases x.cases with ⟨p, hp, _, _, _, hb, _⟩ | ⟨_, _, hb, _⟩
  · rw [hb]; exact hd.1 p hp
  · rw [hb]; exact List.nil_prefix

theorem session_whole {S : Bytes} {e : Env} {exp : Info} {d : Disk} (he : Steady S e) (hd : PrefixOf S d) (x : Session e exp d)
    (hend : x.o.ending = .eof)
    (hsz : ∀ s, x.o.info.size = some s ∨ exp.size = some s → x.startAt + x.o.reads.flatten.length = s) : x.whole = S := by
  obtain ⟨k, hs⟩ := x.src
  obtain ⟨h1, h2, h3⟩ := he _ _ _ hs
  have hb := session_prefix hd x
  unfold Session.whole
  rcases h1 with h1 | h1
  · rw [h3 hend h1]
    obtain ⟨t, rfl⟩ := hb
    simp
  · refine whole_eq hb h2 rfl ?_
    have := hsz _ (Or.inl h1)
    rw [x.start] at this
    exact this

theorem pulling_prefix {S : Bytes} {e : Env} {exp : Info} {d d' : Disk} (he : Steady S e) (hd : PrefixOf S d) (ht : d.target = none)
    (h : Pulling e exp d d') : PrefixOf S d' := by
  cases h with
  | clear h1 h2 =>
    refine ⟨?_, ?_⟩
    · intro p hp
      rcases h2 with rfl | ⟨h2, _⟩
      · exact hd.1 p hp
      · rw [h2] at hp; cases hp
    · rw [h1]; exact hd.2
  | during x h =>
    obtain ⟨h1, q, hq, hp, _⟩ := h
    obtain ⟨k, hs⟩ := x.src
    obtain ⟨_, h3, _⟩ := he _ _ _ hs
    refine ⟨?_, Or.inl (by rw [h1, x.target]; exact ht)⟩
    intro p' hp'
    rw [hp] at hp'; cases hp'
    exact prefix_append_drop (session_prefix hd x) (hq.trans h3)
  | committed x hend hsz _ h1 h2 =>
    refine ⟨?_, Or.inr ?_⟩
    · intro p hp; rw [h2] at hp; cases hp
    · rw [h1, session_whole he hd x hend hsz]

theorem holds_pull_existing (e : Env) (exp : Info) (d : Disk) (t : Bytes) (hd : d.target = some t) :
    Holds (fun _ => False) (At d) (pull e exp) (fun _ d' => d' = d) := by
  unfold pull
  refine holds_call_bind e _ (fun _ => ?_) (fun _ => rfl)
  refine holds_get_bind ?_
  rw [hd]
  exact Holds.ite (fun _ => holds_fail _ rfl) (fun _ => holds_pure _ rfl)

theorem pull_prefix {S : Bytes} (e : Env) (exp : Info) (he : Steady S e) :
    Holds (PrefixOf S) (PrefixOf S) (pull e exp) (fun r d' => PrefixOf S d' ∧ (r = .ok () → d'.target = some S)) := by
  refine Holds.fix ?_
  intro d hd
  rcases ht : d.target with _ | t
  · refine (holds_pull e exp d ht).weaken (fun _ h => h) (fun d' h => pulling_prefix he hd ht h) ?_
    rintro r d' ⟨h1, h2⟩
    refine ⟨pulling_prefix he hd ht h1, fun hr => ?_⟩
    obtain ⟨x, h3, h4, h5, _⟩ := h2.1 hr
    rw [h5, session_whole he hd x h3 h4]
  · refine (holds_pull_existing e exp d t ht).weaken (fun _ h => h) (fun _ h => h.elim) ?_
    rintro r d' rfl
    refine ⟨hd, fun _ => ?_⟩
    rcases hd.2 with h | h
    · rw [ht] at h; cases h
    · exact h

/-- All pulls of the unchanged content `S`, whatever the environment does and whatever the caller expects. -/
def PullsOf (S : Bytes) (m : P Unit) : Prop := ∃ e exp, Steady S e ∧ m = pull e exp

/-- **C26** After any number of interrupted pulls (killed at any point, or failed) of an unchanged source, the part file is a prefix of the
source, and the destination is absent or holds exactly the source. -/
theorem C26_partial_is_prefix {S : Bytes} {d0 d : Disk} (h0 : d0.target = none ∧ d0.part = none) (h : Reach (PullsOf S) d0 d) :
    (∀ p, d.part = some p → p <+: S) ∧ (d.target = none ∨ d.target = some S) := by
  refine h.inv (I := PrefixOf S) ⟨?_, Or.inl h0.1⟩ ?_
  · intro p hp; rw [h0.2] at hp; cases hp
  · rintro m ⟨e, exp, he, rfl⟩
    exact (pull_prefix e exp he).weaken (fun _ h => h) (fun _ h => h) (fun _ _ h => h.1)

/-- **C26** A pull that returns success after any such history leaves exactly the source. -/
theorem C26_success_is_source {S : Bytes} {d0 d : Disk} (h0 : d0.target = none ∧ d0.part = none) (h : Reach (PullsOf S) d0 d)
    (e : Env) (exp : Info) (he : Steady S e) (hok : result (pull e exp) d = .ok ()) : (final (pull e exp) d).target = some S :=
  ((pull_prefix e exp he) d (C26_partial_is_prefix h0 h)).2.2 hok

/-! ### C26: nothing is fetched twice -/

/-- The source always reports the same ETag (or none), and the callers expect this content. -/
def Uniform (S : Bytes) (E : Str) (e : Env) (exp : Info) : Prop :=
  Steady S e ∧ (∀ k off o, e.src k off = some o → o.info.etag = E) ∧ trimSpace E = E ∧ (exp.etag = [] ∨ exp.etag = E) ∧
    (exp.size = none ∨ exp.size = some S.length)

/-- How much of `S` has arrived. -/
def arrived (S : Bytes) (d : Disk) : Nat := if d.target = none then (d.part.getD []).length else S.length

/-- Bytes in the part file belong to the version `E`. -/
def Tagged (E : Str) (d : Disk) : Prop := E ≠ [] → ∀ p, d.part = some p → p ≠ [] → sideTag d = E

theorem trusted_self (exp : Info) (E : Str) : trusted exp E E = true := by simp [trusted]

theorem uniform_no_drop {S : Bytes} {E : Str} {e : Env} {exp : Info} {d : Disk} (hu : Uniform S E e exp) (hd : PrefixOf S d) (hT : Tagged E d)
    (hk : HooksOk e S) {p : Bytes} (hp : d.part = some p) (hne : p ≠ []) : ¬ Drops e exp d := by
  obtain ⟨hst, hE, htrim, hexp, hsz⟩ := hu
  rintro (⟨x, h1, h⟩ | ⟨p', hp', h⟩ | ⟨p', hp', h1, o, h2, h3⟩)
  · rw [session_whole hst hd x h1.1 h1.2] at h
    exact h hk
  · rw [hp] at hp'; cases hp'
    rcases h with ⟨n, hn, hlt⟩ | ⟨h1, h2, h3⟩
    · rcases hsz with hsz | hsz
      · rw [hsz] at hn; cases hn
      · rw [hsz] at hn; cases hn
        exact absurd (hd.1 p hp).length_le (by omega)
    · rcases hexp with hexp | hexp
      · exact h2 hexp
      · exact h3 ((hT (fun h => h2 (hexp.trans h)) p hp hne).trans hexp.symm)
  · rw [hp] at hp'; cases hp'
    rw [hE _ _ _ h2] at h3
    by_cases hE0 : E = []
    · rw [hE0] at h3; simp [trusted] at h3
    · rw [hT hE0 p hp hne, trusted_self] at h3
      cases h3

theorem effectiveETag_uniform {E : Str} {exp : Info} (h : exp.etag = [] ∨ exp.etag = E) : effectiveETag E exp.etag = E := by
  unfold effectiveETag
  split
  · rename_i hE
    rcases h with h | h
    · rw [h, hE]
    · rw [h]
  · rfl

theorem pulling_tagged {S : Bytes} {E : Str} {e : Env} {exp : Info} {d d' : Disk} (hu : Uniform S E e exp) (hT : Tagged E d)
    (h : Pulling e exp d d') : Tagged E d' := by
  obtain ⟨hst, hE, htrim, hexp, hsz⟩ := hu
  intro hE0
  cases h with
  | clear h1 h2 =>
    intro p hp hne
    rcases h2 with rfl | ⟨h2, _⟩
    · exact hT hE0 p hp hne
    · rw [h2] at hp; cases hp
  | committed x _ _ _ h1 h2 =>
    intro p hp hne
    rw [h2] at hp; cases hp
  | during x h =>
    obtain ⟨h1, q, hq, hp, hs⟩ := h
    intro p' hp' hne
    rw [hp] at hp'; cases hp'
    obtain ⟨k, hsrc⟩ := x.src
    have hoE := hE _ _ _ hsrc
    have htagx : x.tag = E := by unfold Session.tag; rw [hoE]; exact effectiveETag_uniform hexp
    rw [htagx] at hs
    rcases hs with hs | ⟨hq0, hw⟩
    · unfold sideTag
      rw [hs]
      unfold newSide
      split
      · simp [htrim]
      · rename_i hw
        have hw' : E = x.stored := by
          by_cases h2 : E = x.stored
          · exact h2
          · exact absurd ⟨hE0, h2⟩ hw
        rcases x.cases with ⟨p, _, hc, _, hst', _⟩ | ⟨_, hst', _⟩
        · rw [hc]; rw [hst'] at hw'; exact hw'.symm
        · rw [hst'] at hw'; exact absurd hw' hE0
    · subst hq0
      rw [List.append_nil] at hne
      rcases x.cases with ⟨p, hp2, hc, _, hst', hb, _⟩ | ⟨_, _, hb, _⟩
      · rw [hb] at hne
        exfalso
        apply hw.2
        rw [hst']
        exact (hT hE0 p hp2 hne).symm
      · exact absurd hb hne

/-- A pull whose hooks accept never has less than it started with. -/
theorem pulling_arrived {S : Bytes} {E : Str} {e : Env} {exp : Info} {d d' : Disk} (hu : Uniform S E e exp) (hd : PrefixOf S d) (hT : Tagged E d)
    (hk : HooksOk e S) (ht : d.target = none) (h : Pulling e exp d d') : arrived S d ≤ arrived S d' := by
  have hpre := pulling_prefix hu.1 hd ht h
  have h0 : arrived S d = (d.part.getD []).length := by simp [arrived, ht]
  rw [h0]
  cases hp : d.part with
  | none => exact Nat.zero_le _
  | some p =>
  by_cases hne : p = []
  · subst hne; exact Nat.zero_le _
  have hnd := uniform_no_drop hu hd hT hk hp hne
  have hle : p.length ≤ S.length := (hd.1 p hp).length_le
  show p.length ≤ _
  cases h with
  | clear h1 h2 =>
    rcases h2 with rfl | ⟨_, h2⟩
    · unfold arrived; rw [if_pos ht, hp]; exact Nat.le_refl _
    · exact absurd h2 hnd
  | committed x _ _ _ h1 h2 =>
    unfold arrived; rw [if_neg (by rw [h1]; simp)]; exact hle
  | during x h =>
    obtain ⟨h1, q, hq, hp', _⟩ := h
    unfold arrived
    rw [h1, x.target, if_pos ht, hp']
    rcases x.cases with ⟨p2, hp2, _, _, _, hb, _⟩ | ⟨_, _, _, hdr, _⟩
    · rw [hp] at hp2; cases hp2
      rw [hb]
      simp
    · rcases hdr with hdr | hdr
      · rw [hp] at hdr; cases hdr
      · exact absurd hdr hnd

/-- All pulls of the unchanged content `S` from a source that always reports the ETag `E`. -/
def UniformPulls (S : Bytes) (E : Str) (m : P Unit) : Prop := ∃ e exp, Uniform S E e exp ∧ m = pull e exp

theorem pull_tagged {S : Bytes} {E : Str} (e : Env) (exp : Info) (hu : Uniform S E e exp) :
    Holds (fun d => PrefixOf S d ∧ Tagged E d) (fun d => PrefixOf S d ∧ Tagged E d) (pull e exp) (fun _ d => PrefixOf S d ∧ Tagged E d) := by
  refine Holds.fix ?_
  rintro d ⟨hd, hT⟩
  rcases ht : d.target with _ | t
  · exact (holds_pull e exp d ht).weaken (fun _ h => h) (fun d' h => ⟨pulling_prefix hu.1 hd ht h, pulling_tagged hu hT h⟩)
      (fun r d' h => ⟨pulling_prefix hu.1 hd ht h.1, pulling_tagged hu hT h.1⟩)
  · refine (holds_pull_existing e exp d t ht).weaken (fun _ h => h) (fun _ h => h.elim) ?_
    rintro r d' rfl
    exact ⟨hd, hT⟩

theorem reach_tagged {S : Bytes} {E : Str} {d0 d : Disk} (h0 : d0.target = none ∧ d0.part = none) (h : Reach (UniformPulls S E) d0 d) :
    PrefixOf S d ∧ Tagged E d := by
  refine h.inv (I := fun d => PrefixOf S d ∧ Tagged E d) ⟨⟨?_, Or.inl h0.1⟩, ?_⟩ ?_
  · intro p hp; rw [h0.2] at hp; cases hp
  · intro _ p hp; rw [h0.2] at hp; cases hp
  · rintro m ⟨e, exp, hu, rfl⟩
    exact pull_tagged e exp hu

/-- **C26** No interruption loses what has already arrived: at every point of every further pull whose hooks accept, at least as much of the
source is on disk as before. -/
theorem C26_no_loss {S : Bytes} {E : Str} {d0 d : Disk} (h0 : d0.target = none ∧ d0.part = none) (h : Reach (UniformPulls S E) d0 d)
    (e : Env) (exp : Info) (hu : Uniform S E e exp) (hk : HooksOk e S) :
    (∀ t ∈ crashes (pull e exp) d, arrived S d ≤ arrived S t) ∧ arrived S d ≤ arrived S (final (pull e exp) d) := by
  obtain ⟨hd, hT⟩ := reach_tagged h0 h
  rcases ht : d.target with _ | t
  · obtain ⟨h1, h2⟩ := holds_pull e exp d ht d rfl
    exact ⟨fun t htm => pulling_arrived hu hd hT hk ht (h1 t htm), pulling_arrived hu hd hT hk ht h2.1⟩
  · obtain ⟨h1, h2⟩ := holds_pull_existing e exp d t ht d rfl
    refine ⟨fun t htm => (h1 t htm).elim, ?_⟩
    show arrived S d ≤ arrived S (pull e exp d).2.1
    rw [h2]
    exact Nat.le_refl _

/-! ### C26: and the pull completes -/

/-- The program returns no error. -/
def Succeeds {α : Type} (m : P α) (d : Disk) : Prop := ∃ a, (m d).2.2 = .ok a

theorem Succeeds.bind {α β : Type} {m : P α} {f : α → P β} {d : Disk} (h : Succeeds m d)
    (hf : ∀ a, (m d).2.2 = .ok a → Succeeds (f a) (m d).2.1) : Succeeds (m >>= f) d := by
  obtain ⟨a, ha⟩ := h
  obtain ⟨b, hb⟩ := hf a ha
  refine ⟨b, ?_⟩
  show (Prog.bind m f d).2.2 = _
  unfold Prog.bind
  rcases hm : m d with ⟨t, s1, r⟩
  rw [hm] at ha hb
  simp only at ha
  subst ha
  exact hb

/-- No operation fails and writes are complete. -/
def NoFault (e : Env) (n : Nat) : Prop := (∀ op, e.fail op = false) ∧ (∀ i, n ≤ (e.wr i).1 ∧ (e.wr i).2 = true) ∧ e.sideWr.2 = true

theorem succeeds_call {e : Env} {n : Nat} (h : NoFault e n) (op : Op) (d : Disk) : Succeeds (call e op) d := by
  refine ⟨(), ?_⟩
  unfold call
  rw [if_neg (by rw [h.1 op]; simp)]
  rfl

theorem succeeds_pure {α : Type} (a : α) (d : Disk) : Succeeds (Pure.pure a : P α) d := ⟨a, rfl⟩
theorem succeeds_modify (g : Disk → Disk) (d : Disk) : Succeeds (Prog.modify g) d := ⟨(), rfl⟩
theorem succeeds_get (d : Disk) : Succeeds Prog.get d := ⟨d, rfl⟩

theorem succeeds_removePartFiles {e : Env} {n : Nat} (h : NoFault e n) (d : Disk) : Succeeds (removePartFiles e) d := by
  unfold removePartFiles
  refine (succeeds_get d).bind ?_
  intro d' hd'
  refine Succeeds.bind ?_ ?_
  · split
    · exact succeeds_pure _ _
    · exact (succeeds_call h _ _).bind (fun _ _ => succeeds_modify _ _)
  · intro _ _
    split
    · exact succeeds_pure _ _
    · exact (succeeds_call h _ _).bind (fun _ _ => succeeds_modify _ _)

theorem succeeds_readSidecar {e : Env} {n : Nat} (h : NoFault e n) (d : Disk) : Succeeds (readSidecar e) d := by
  unfold readSidecar
  refine (succeeds_get d).bind ?_
  intro d' hd'
  split
  · exact succeeds_pure _ _
  · exact (succeeds_call h _ _).bind (fun _ _ => succeeds_pure _ _)

theorem succeeds_writeSidecar {e : Env} {n : Nat} (h : NoFault e n) (t : Str) (d : Disk) : Succeeds (writeSidecar e t) d := by
  unfold writeSidecar
  refine (succeeds_call h _ _).bind (fun _ _ => (succeeds_modify _ _).bind (fun _ _ => (succeeds_modify _ _).bind (fun _ _ => ?_)))
  rw [if_pos h.2.2]
  exact (succeeds_modify _ _).bind (fun _ _ => succeeds_call h _ _)

theorem succeeds_copy {e : Env} {n : Nat} (h : NoFault e n) : ∀ (reads : List Bytes) (i : Nat) (d : Disk), (reads.flatten).length ≤ n →
    Succeeds (copy e .eof i reads) d := by
  intro reads
  induction reads with
  | nil => intro i d _; unfold copy; exact succeeds_pure _ _
  | cons c rest ih =>
    intro i d hlen
    rw [List.flatten_cons, List.length_append] at hlen
    unfold copy
    split
    · exact ih i d (by omega)
    · refine (succeeds_modify _ _).bind (fun _ _ => ?_)
      rw [if_neg]
      · exact (ih _ _ (by omega)).bind (fun _ _ => succeeds_pure _ _)
      · have := h.2.1 i
        rintro (h1 | h1)
        · rw [this.2] at h1; cases h1
        · exact h1 (by omega)

theorem succeeds_resumePoint {e : Env} {n : Nat} (h : NoFault e n) (exp : Info) (d : Disk) : Succeeds (resumePoint e exp) d := by
  unfold resumePoint
  refine (succeeds_call h _ _).bind (fun _ _ => (succeeds_get _).bind (fun d' _ => ?_))
  split
  · exact succeeds_pure _ _
  · refine (succeeds_readSidecar h _).bind (fun _ _ => ?_)
    split
    · exact (succeeds_removePartFiles h _).bind (fun _ _ => succeeds_pure _ _)
    · exact succeeds_pure _ _

theorem succeeds_runHooks {e : Env} {p : Bytes} (h : HooksOk e p) (d : Disk) (hp : d.part = some p) : ∀ (k i : Nat), i + k = e.hooks →
    Succeeds (runHooks e i k) d := by
  intro k
  induction k with
  | zero => intro i _; exact succeeds_pure _ _
  | succ k ih =>
    intro i hi
    unfold runHooks
    rw [if_neg (by rw [h.1 (by omega)]; simp)]
    refine (succeeds_get d).bind ?_
    intro d' hd'
    cases hd'
    rw [hp]
    show Succeeds (if e.accept i p = true then _ else _) d
    rw [if_pos (h.2 i (by omega))]
    exact ih _ (by omega)

theorem succeeds_commit {e : Env} {n : Nat} (h : NoFault e n) (d : Disk) (p : Bytes) (hk : HooksOk e p) (hp : d.part = some p) :
    Succeeds (commit e) d := by
  unfold commit
  refine (succeeds_runHooks hk d hp _ _ (by omega)).bind (fun _ h1 => ?_)
  rw [(((holds_runHooks e d p hp e.hooks 0 (by omega)) d rfl).2.2.1 h1).1]
  refine (succeeds_call h _ _).bind (fun _ _ => ?_)
  have hc : (call e .closePart d).2.1 = d := by unfold call; split <;> rfl
  rw [hc]
  refine Succeeds.bind ?_ (fun _ _ => ?_)
  · unfold renamePart
    refine (succeeds_call h _ _).bind (fun _ _ => ?_)
    have hc : (call e .rename d).2.1 = d := by unfold call; split <;> rfl
    rw [hc]
    refine (succeeds_get d).bind ?_
    intro d' hd'
    cases hd'
    rw [hp]
    exact succeeds_modify _ _
  · split
    · exact succeeds_pure _ _
    · exact succeeds_modify _ _

theorem succeeds_transfer {e : Env} {n : Nat} (h : NoFault e n) (o : Opened) (startAt : Nat) (stored etag : Str) (size : Option Nat) (d : Disk)
    (ho : o.ending = .eof) (hlen : o.reads.flatten.length ≤ n) (hsz : ∀ s, size = some s → startAt + o.reads.flatten.length = s) :
    Succeeds (transfer e o startAt stored etag size) d := by
  unfold transfer
  have h1 : Succeeds (openPart e startAt) d := (succeeds_call h _ _).bind (fun _ _ => succeeds_modify _ _)
  refine h1.bind (fun _ _ => ?_)
  have hp : ∃ p, ((openPart e startAt d).2.1).part = some p := by
    unfold openPart
    have hf := h.1 .openPart
    show ∃ p, ((Prog.bind (call e .openPart) _ d).2.1).part = some p
    unfold Prog.bind call
    rw [if_neg (by rw [hf]; simp)]
    show ∃ p, (if startAt = 0 then some [] else some (d.part.getD [])) = some p
    split <;> exact ⟨_, rfl⟩
  obtain ⟨p, hp⟩ := hp
  refine Succeeds.bind ?_ (fun _ hside => ?_)
  · split
    · exact succeeds_writeSidecar h _ _
    · exact succeeds_pure _ _
  · have hp2 : ((if etag ≠ [] ∧ etag ≠ stored then writeSidecar e etag else Pure.pure ()) (openPart e startAt d).2.1).2.1.part = some p := by
      by_cases hw : etag ≠ [] ∧ etag ≠ stored
      · rw [if_pos hw]
        rcases ((holds_writeSidecar e etag _) _ rfl).2.1 with h2 | ⟨s, h2⟩
        · rw [h2]; exact hp
        · rw [h2]; exact hp
      · rw [if_neg hw]; exact hp
    refine Succeeds.bind ?_ (fun _ _ => ?_)
    · split
      · exact succeeds_call h _ _
      · exact succeeds_pure _ _
    · have hseek : ∀ d', ((if startAt > 0 then call e .seek else Pure.pure ()) d').2.1 = d' := by
        intro d'
        split
        · unfold call; split <;> rfl
        · rfl
      rw [hseek]
      rw [ho]
      refine (succeeds_copy h _ _ _ hlen).bind (fun k hk => ?_)
      have := (((holds_copy e .eof o.reads 0 _ p hp2) _ rfl).2.2 k hk).1
      rw [if_neg]
      · exact succeeds_pure _ _
      · cases size with
        | none => simp
        | some s =>
          simp only [Option.any_some, decide_not, Bool.not_eq_eq_eq_not, Bool.not_true, decide_eq_false_iff_not, Classical.not_not]
          rw [this]; exact hsz s rfl

/-- **C26** After any history of interrupted pulls, one pull without failures completes, and it only needs the bytes that are missing. -/
theorem C26_completes {S : Bytes} {E : Str} {d0 d : Disk} (h0 : d0.target = none ∧ d0.part = none) (h : Reach (UniformPulls S E) d0 d)
    (ht : d.target = none) (e : Env) (exp : Info) (hu : Uniform S E e exp) (hf : NoFault e S.length) (hk : HooksOk e S) (o : Opened)
    (ho : e.src 0 (d.part.getD []).length = some o) (hrest : o.reads.flatten = S.drop (d.part.getD []).length) (hend : o.ending = .eof) :
    result (pull e exp) d = .ok () ∧ (final (pull e exp) d).target = some S := by
  obtain ⟨hd, hT⟩ := reach_tagged h0 h
  have hsucc : Succeeds (pull e exp) d := by
    unfold pull
    refine (succeeds_call hf _ _).bind (fun _ _ => ?_)
    have hc : (call e .statName d).2.1 = d := by unfold call; split <;> rfl
    rw [hc]
    refine (succeeds_get d).bind ?_
    intro d' hd'
    cases hd'
    show Succeeds (match d.target with | some t => _ | none => _) d
    rw [ht]
    refine (succeeds_resumePoint hf exp d).bind ?_
    rintro ⟨start0, stored0⟩ hr
    have hres := ((holds_resumePoint e exp d) d rfl).2.2 _ hr
    have hstart : start0 = (d.part.getD []).length := by
      rcases hres with ⟨_, p, hp, hpr, _⟩ | ⟨hpr, hcase⟩
      · cases hpr; rw [hp]; rfl
      · cases hpr
        rcases hcase with ⟨_, hn⟩ | ⟨hdisc, _⟩
        · rw [hn]; rfl
        · obtain ⟨p, hp, _⟩ := id hdisc
          by_cases hne : p = []
          · rw [hp, hne]; rfl
          · exact absurd (Or.inr (Or.inl hdisc)) (uniform_no_drop hu hd hT hk hp hne)
    have hopen : Succeeds (openChecked e exp start0 stored0) (resumePoint e exp d).2.1 := by
      unfold openChecked
      have h1 : openSource e 0 start0 = Pure.pure o := by unfold openSource; rw [hstart, ho]
      rw [h1]
      refine (succeeds_pure _ _).bind ?_
      intro o' ho'
      cases ho'
      have hoE := hu.2.1 _ _ _ ho
      rw [if_neg, if_neg]
      · exact succeeds_pure _ _
      · rintro ⟨hpos, htr⟩
        rcases hres with ⟨_, p, hp, hpr, _⟩ | ⟨hpr, _⟩
        · cases hpr
          have hne : p ≠ [] := by rintro rfl; simp at hpos
          exact uniform_no_drop hu hd hT hk hp hne (Or.inr (Or.inr ⟨p, hp, hpos, o, by rw [hp] at ho; exact ho, htr⟩))
        · cases hpr; omega
      · rintro ⟨h2, h3, h4⟩
        rcases hu.2.2.2.1 with h5 | h5
        · exact h2 h5
        · exact h4 (by rw [hoE, h5])
    refine hopen.bind ?_
    rintro ⟨o1, startAt, stored⟩ ho1
    have hop := ((holds_openChecked e exp start0 stored0 _) _ rfl).2.2 _ ho1
    have hsame : o1 = o ∧ startAt = start0 := by
      rcases hop with ⟨_, h2, h3, _⟩ | ⟨_, _, _, hpos, o', ho', _, htr⟩
      · cases h2
        rw [hstart, ho] at h3; cases h3
        exact ⟨rfl, rfl⟩
      · exfalso
        rcases hres with ⟨_, p, hp, hpr, _⟩ | ⟨hpr, _⟩
        · cases hpr
          have hne : p ≠ [] := by rintro rfl; simp at hpos
          exact uniform_no_drop hu hd hT hk hp hne (Or.inr (Or.inr ⟨p, hp, hpos, o', ho', htr⟩))
        · cases hpr; omega
    obtain ⟨rfl, rfl⟩ := hsame
    have hle : (d.part.getD []).length ≤ S.length := by
      cases hp : d.part with
      | none => exact Nat.zero_le _
      | some p => exact (hd.1 p hp).length_le
    have hlen : startAt + o1.reads.flatten.length = S.length := by
      rw [hrest, hstart, List.length_drop]; omega
    have hall : ∀ n, o1.info.size = some n ∨ exp.size = some n → n = S.length := by
      rintro n (hn | hn)
      · rcases (hu.1 _ _ _ ho).1 with h1 | h1 <;> rw [h1] at hn <;> cases hn; rfl
      · rcases hu.2.2.2.2 with h1 | h1 <;> rw [h1] at hn <;> cases hn; rfl
    have hcontent : ∀ size, effectiveSize o1.info.size exp.size = some size → ∀ s, size = some s → startAt + o1.reads.flatten.length = s := by
      intro size hsz s hs
      rw [hlen]
      subst hs
      symm
      apply hall
      unfold effectiveSize at hsz
      split at hsz
      · split at hsz
        · cases hsz
        · cases hsz; rename_i ha _; exact Or.inl ha
      · cases hsz; rename_i h1 h2; first | exact Or.inl h1 | exact Or.inl h2
      · cases hsz; rename_i hb; exact Or.inr hb
      · cases hsz
    show Succeeds (match effectiveSize o1.info.size exp.size with
        | none => Prog.fail .sizeMismatch
        | some size => do
          transfer e o1 startAt stored (effectiveETag o1.info.etag exp.etag) size
          commit e) _
    cases hsz : effectiveSize o1.info.size exp.size with
    | none =>
      exfalso
      unfold effectiveSize at hsz
      split at hsz
      · rename_i a b ha hb
        split at hsz
        · rename_i hne
          exact hne ((hall a (Or.inl ha)).trans (hall b (Or.inr hb)).symm)
        · cases hsz
      · cases hsz
      · cases hsz
      · cases hsz
    | some size =>
      have htr := succeeds_transfer hf o1 startAt stored (effectiveETag o1.info.etag exp.etag) size (openChecked e exp startAt stored0 (resumePoint e exp d).2.1).2.1
        hend (by omega) (hcontent size hsz)
      refine htr.bind ?_
      intro a ha
      have hd2 := ((holds_transfer e o1 startAt stored (effectiveETag o1.info.etag exp.etag) size _) _ rfl).2.2 ha
      rw [hd2.1]
      let x : Session e exp d := ⟨o1, startAt, stored, _, startAt, stored0, _, hres, hop⟩
      have hw : x.whole = S := session_whole hu.1 hd x hend (fun s h => hcontent size hsz s (effectiveSize_eq hsz s h))
      exact succeeds_commit hf _ S hk (congrArg some hw)
  obtain ⟨a, ha⟩ := hsucc
  have hok : result (pull e exp) d = .ok () := ha
  exact ⟨hok, ((pull_prefix e exp hu.1) d hd).2.2 hok⟩

/-! ### C25: a source that changes -/

/-- A source whose answers carry the ETag of the version they come from. `contentOf t` is the content of the version with ETag `t` (equal ETags
mean equal bytes, resumable.go 26-29), `V` the ETags of the versions the source ever has. Every `Open` may find another version. -/
def Identified (V : Str → Prop) (contentOf : Str → Bytes) (e : Env) : Prop := ∀ k off o, e.src k off = some o →
  V o.info.etag ∧ o.info.etag ≠ [] ∧ trimSpace o.info.etag = o.info.etag ∧
  (o.info.size = none ∨ o.info.size = some (contentOf o.info.etag).length) ∧ o.reads.flatten <+: (contentOf o.info.etag).drop off ∧
    (o.ending = .eof → o.info.size = none → o.reads.flatten = (contentOf o.info.etag).drop off)

/-- Bytes in the part file are the first bytes of the version the sidecar names. -/
def Marked (contentOf : Str → Bytes) (d : Disk) : Prop :=
  ∀ p, d.part = some p → p ≠ [] → sideTag d ≠ [] ∧ p <+: contentOf (sideTag d)

/-- The destination is absent or holds the complete content of one version. -/
def OneVersion (V : Str → Prop) (contentOf : Str → Bytes) (d : Disk) : Prop :=
  d.target = none ∨ ∃ t, V t ∧ d.target = some (contentOf t)

theorem session_marked {V : Str → Prop} {C : Str → Bytes} {e : Env} {exp : Info} {d : Disk} (he : Identified V C e) (hM : Marked C d)
    (x : Session e exp d) : base x.disk x.startAt <+: C x.o.info.etag ∧
      (base x.disk x.startAt ≠ [] → x.stored = x.o.info.etag ∧ sideTag x.disk = x.o.info.etag) := by
  obtain ⟨k, hsrc⟩ := x.src
  obtain ⟨_, hne, _⟩ := he _ _ _ hsrc
  rcases x.cases with ⟨p, hp, hdk, _, hst, hb, hs, _, htr⟩ | ⟨_, _, hb, _⟩
  · rw [hb]
    by_cases hp0 : p = []
    · subst hp0
      exact ⟨List.nil_prefix, fun h => absurd rfl h⟩
    · obtain ⟨h1, h2⟩ := hM p hp hp0
      rcases htr with htr | htr
      · exact absurd htr hp0
      · have : x.o.info.etag = sideTag d := by
          simp only [trusted, Bool.or_eq_true, Bool.and_eq_true, decide_eq_true_eq] at htr
          rcases htr with (h | h) | h
          · exact absurd h hne
          · exact h
          · exact absurd h.1.1 h1
        rw [this, hst, hdk]
        exact ⟨h2, fun _ => ⟨rfl, rfl⟩⟩
  · rw [hb]
    exact ⟨List.nil_prefix, fun h => absurd rfl h⟩

theorem session_version {V : Str → Prop} {C : Str → Bytes} {e : Env} {exp : Info} {d : Disk} (he : Identified V C e) (hM : Marked C d)
    (x : Session e exp d) (hend : x.o.ending = .eof)
    (hsz : ∀ s, x.o.info.size = some s ∨ exp.size = some s → x.startAt + x.o.reads.flatten.length = s) : x.whole = C x.o.info.etag := by
  obtain ⟨k, hsrc⟩ := x.src
  obtain ⟨_, _, _, h1, h2, h3⟩ := he _ _ _ hsrc
  have hb := (session_marked he hM x).1
  unfold Session.whole
  rcases h1 with h1 | h1
  · rw [h3 hend h1]
    obtain ⟨t, ht⟩ := hb
    rw [← ht]
    simp
  · refine whole_eq hb h2 rfl ?_
    have := hsz _ (Or.inl h1)
    rw [x.start] at this
    exact this

theorem pulling_marked {V : Str → Prop} {C : Str → Bytes} {e : Env} {exp : Info} {d d' : Disk} (he : Identified V C e) (hM : Marked C d)
    (h : Pulling e exp d d') : Marked C d' := by
  cases h with
  | clear h1 h2 =>
    intro p hp hne
    rcases h2 with rfl | ⟨h2, _⟩
    · exact hM p hp hne
    · rw [h2] at hp; cases hp
  | committed x _ _ _ h1 h2 =>
    intro p hp hne
    rw [h2] at hp; cases hp
  | during x h =>
    obtain ⟨h1, q, hq, hp, hs⟩ := h
    intro p' hp' hne
    rw [hp] at hp'; cases hp'
    obtain ⟨k, hsrc⟩ := x.src
    obtain ⟨_, hne0, htrim, _, hreads, _⟩ := he _ _ _ hsrc
    obtain ⟨hb, hbt⟩ := session_marked he hM x
    have htag : x.tag = x.o.info.etag := by unfold Session.tag effectiveETag; rw [if_neg hne0]
    rw [htag] at hs
    have hside : sideTag d' = x.o.info.etag := by
      rcases hs with hs | ⟨hq0, hw⟩
      · unfold sideTag
        rw [hs]
        unfold newSide
        split
        · exact htrim
        · rename_i hw
          have hw' : x.o.info.etag = x.stored := by
            by_cases h2 : x.o.info.etag = x.stored
            · exact h2
            · exact absurd ⟨hne0, h2⟩ hw
          rcases x.cases with ⟨p, _, hc, _, hst', _⟩ | ⟨_, hst', _⟩
          · rw [hc]; rw [hst'] at hw'; exact hw'.symm
          · rw [hst'] at hw'; exact absurd hw' hne0
      · subst hq0
        rw [List.append_nil] at hne
        exact absurd (hbt hne).1.symm hw.2
    rw [hside]
    exact ⟨hne0, prefix_append_drop hb (hq.trans hreads)⟩

theorem pulling_version {V : Str → Prop} {C : Str → Bytes} {e : Env} {exp : Info} {d d' : Disk} (he : Identified V C e) (hM : Marked C d)
    (ht : d.target = none) (h : Pulling e exp d d') : OneVersion V C d' := by
  cases h with
  | clear h1 _ => exact Or.inl (h1.trans ht)
  | during x h => exact Or.inl (by rw [h.1, x.target]; exact ht)
  | committed x hend hsz _ h1 _ =>
    obtain ⟨k, hsrc⟩ := x.src
    exact Or.inr ⟨x.o.info.etag, (he _ _ _ hsrc).1, by rw [h1, session_version he hM x hend hsz]⟩

/-- All pulls from such a source. -/
def PullsFrom (V : Str → Prop) (contentOf : Str → Bytes) (m : P Unit) : Prop := ∃ e exp, Identified V contentOf e ∧ m = pull e exp

theorem pull_marked {V : Str → Prop} {C : Str → Bytes} (e : Env) (exp : Info) (he : Identified V C e) :
    Holds (fun d => Marked C d ∧ OneVersion V C d) (fun d => Marked C d ∧ OneVersion V C d) (pull e exp)
      (fun r d => Marked C d ∧ OneVersion V C d ∧ (r = .ok () → d.target ≠ none)) := by
  refine Holds.fix ?_
  rintro d ⟨hM, hV⟩
  rcases ht : d.target with _ | t
  · refine (holds_pull e exp d ht).weaken (fun _ h => h) (fun d' h => ⟨pulling_marked he hM h, pulling_version he hM ht h⟩) ?_
    rintro r d' ⟨h1, h2⟩
    refine ⟨pulling_marked he hM h1, pulling_version he hM ht h1, fun hr => ?_⟩
    obtain ⟨x, _, _, h3, _⟩ := h2.1 hr
    rw [h3]; simp
  · refine (holds_pull_existing e exp d t ht).weaken (fun _ h => h) (fun _ h => h.elim) ?_
    rintro r d' rfl
    exact ⟨hM, hV, fun _ => by rw [ht]; simp⟩

theorem reach_marked {V : Str → Prop} {C : Str → Bytes} {d0 d : Disk} (h0 : d0.target = none ∧ d0.part = none) (h : Reach (PullsFrom V C) d0 d) :
    Marked C d ∧ OneVersion V C d := by
  refine h.inv (I := fun d => Marked C d ∧ OneVersion V C d) ⟨?_, Or.inl h0.1⟩ ?_
  · intro p hp; rw [h0.2] at hp; cases hp
  · rintro m ⟨e, exp, he, rfl⟩
    exact (pull_marked e exp he).weaken (fun _ h => h) (fun _ h => h) (fun _ _ h => ⟨h.1, h.2.1⟩)

/-- **C25** Whatever happened before (pulls of any versions, killed or failed anywhere), the destination is absent or holds the complete
content of one version of the source.
Missing from C25: sources that report no ETag, and a target or partial of other origin at the start. -/
theorem C25_never_a_mixture_partial {V : Str → Prop} {contentOf : Str → Bytes} {d0 d : Disk} (h0 : d0.target = none ∧ d0.part = none)
    (h : Reach (PullsFrom V contentOf) d0 d) : d.target = none ∨ ∃ t, V t ∧ d.target = some (contentOf t) :=
  (reach_marked h0 h).2

/-- **C25** And once a pull returned success it is there.
Missing from C25: as for `C25_never_a_mixture_partial`. -/
theorem C25_success_is_complete_partial {V : Str → Prop} {contentOf : Str → Bytes} {d0 d : Disk} (h0 : d0.target = none ∧ d0.part = none)
    (h : Reach (PullsFrom V contentOf) d0 d) (e : Env) (exp : Info) (he : Identified V contentOf e) (hok : result (pull e exp) d = .ok ()) :
    ∃ t, V t ∧ (final (pull e exp) d).target = some (contentOf t) := by
  obtain ⟨_, h2, h3⟩ := (pull_marked e exp he d (reach_marked h0 h)).2
  rcases h2 with h2 | h2
  · exact absurd h2 (h3 hok)
  · exact h2

/-- **C25** A caller who names the version gets that version.
Missing from C25: as before, and an existing target. -/
theorem C25_expected_version_partial {V : Str → Prop} {contentOf : Str → Bytes} {d0 d : Disk} (h0 : d0.target = none ∧ d0.part = none)
    (h : Reach (PullsFrom V contentOf) d0 d) (e : Env) (exp : Info) (he : Identified V contentOf e) (ht : d.target = none) (hx : exp.etag ≠ [])
    (hok : result (pull e exp) d = .ok ()) : (final (pull e exp) d).target = some (contentOf exp.etag) := by
  obtain ⟨hM, _⟩ := reach_marked h0 h
  obtain ⟨x, hend, hsz, h3, _⟩ := ((holds_pull e exp d ht) d rfl).2.2.1 hok
  show (pull e exp d).2.1.target = _
  rw [h3, session_version he hM x hend hsz]
  obtain ⟨k, hsrc⟩ := x.src
  obtain ⟨_, hne, _⟩ := he _ _ _ hsrc
  have : x.o.info.etag = exp.etag := by
    rcases x.cases with ⟨p, _, _, _, _, _, _, hck, _⟩ | ⟨_, _, _, _, ⟨_, hck⟩ | ⟨_, hck⟩⟩
    · rcases hck with h | h | h
      · exact absurd h hx
      · exact absurd h hne
      · exact h
    · rcases hck with h | h | h
      · exact absurd h hx
      · exact absurd h hne
      · exact h
    · exact absurd hck hx
  rw [this]

/-- **C25** Before a commit the destination is what it was: a pull that finds no destination only ever creates it complete.
Missing from C25: as for `C25_never_a_mixture_partial`. -/
theorem C25_crash_points_partial {V : Str → Prop} {contentOf : Str → Bytes} {d0 d : Disk} (h0 : d0.target = none ∧ d0.part = none)
    (h : Reach (PullsFrom V contentOf) d0 d) (e : Env) (exp : Info) (he : Identified V contentOf e) (t : Disk) (ht : t ∈ crashes (pull e exp) d) :
    t.target = d.target ∨ ∃ v, V v ∧ t.target = some (contentOf v) := by
  obtain ⟨hM, _⟩ := reach_marked h0 h
  rcases hd : d.target with _ | b
  · exact pulling_version he hM hd (((holds_pull e exp d hd) d rfl).1 t ht)
  · exact (((holds_pull_existing e exp d b hd) d rfl).1 t ht).elim

/-! ### the hypotheses are met, and needed -/

/-- A small source: two versions, tagged "a" and "b"; the call number decides which one is there; delivery stops after `n` bytes. -/
def demoContent (t : Str) : Bytes := if t = ['a'] then [1, 2, 3] else [7, 8]

def demoEnv (v : Nat → Str) (n : Nat) : Env where
  fail := fun _ => false
  src := fun k off => some ⟨⟨v k, some (demoContent (v k)).length⟩, [(((demoContent (v k)).drop off).take n)],
    if off + n ≥ (demoContent (v k)).length then .eof else .err⟩
  wr := fun _ => (100, true)
  sideWr := (1, true)
  hooks := 0
  accept := fun _ _ => true

/-- an interrupted pull of "a" leaves one byte, a pull of "b" then starts over, and a pull of "a" resumes -/
example : final (pull (demoEnv (fun _ => ['a']) 1) ⟨[], none⟩) ⟨none, none, none⟩ = ⟨none, some [1], some ['a']⟩ := by decide
example : (result (pull (demoEnv (fun _ => ['b']) 9) ⟨[], none⟩) ⟨none, some [1], some ['a']⟩).toOption = some () ∧
    final (pull (demoEnv (fun _ => ['b']) 9) ⟨[], none⟩) ⟨none, some [1], some ['a']⟩ = ⟨some [7, 8], none, none⟩ := by decide
example : (result (pull (demoEnv (fun _ => ['a']) 9) ⟨['a'], some 3⟩) ⟨none, some [1], some ['a']⟩).toOption = some () ∧
    final (pull (demoEnv (fun _ => ['a']) 9) ⟨['a'], some 3⟩) ⟨none, some [1], some ['a']⟩ = ⟨some [1, 2, 3], none, none⟩ := by decide

theorem demo_identified (n : Nat) (v : Nat → Str) (hv : ∀ k, v k = ['a'] ∨ v k = ['b']) :
    Identified (fun t => t = ['a'] ∨ t = ['b']) demoContent (demoEnv v n) := by
  intro k off o ho
  cases ho
  refine ⟨hv k, ?_, ?_, Or.inr rfl, ?_, ?_⟩
  · rcases hv k with h | h <;> simp [h]
  · show trimSpace (v k) = v k
    rcases hv k with h | h <;> rw [h] <;> decide
  · simp [List.take_prefix]
  · intro _ h; cases h

/-- A history that satisfies the hypotheses of C25: killed in the middle of "a", then success with "b". -/
example : ∃ d, Reach (PullsFrom (fun t => t = ['a'] ∨ t = ['b']) demoContent) ⟨none, none, none⟩ d ∧ d.target = some [7, 8] := by
  refine ⟨_, Reach.done (Reach.crash (t := ⟨none, some [1], some ['a']⟩) Reach.start
    ⟨demoEnv (fun _ => ['a']) 1, ⟨[], none⟩, demo_identified 1 _ (fun _ => Or.inl rfl), rfl⟩ ?_)
    ⟨demoEnv (fun _ => ['b']) 9, ⟨[], none⟩, demo_identified 9 _ (fun _ => Or.inr rfl), rfl⟩, ?_⟩
  · decide
  · decide

theorem demo_uniform (n : Nat) : Uniform [1, 2, 3] ['a'] (demoEnv (fun _ => ['a']) n) ⟨['a'], some 3⟩ := by
  refine ⟨?_, ?_, by decide, Or.inr rfl, Or.inr rfl⟩
  · intro k off o ho
    cases ho
    refine ⟨Or.inr rfl, ?_, ?_⟩
    · simp [demoContent, List.take_prefix]
    · intro _ h; cases h
  · intro k off o ho
    cases ho; rfl

/-- A history that satisfies the hypotheses of C26. -/
example : ∃ d, Reach (UniformPulls [1, 2, 3] ['a']) ⟨none, none, none⟩ d ∧ d.target = some [1, 2, 3] :=
  ⟨_, Reach.done (Reach.crash (t := ⟨none, some [1], some ['a']⟩) Reach.start ⟨demoEnv (fun _ => ['a']) 1, ⟨['a'], some 3⟩, demo_uniform 1, rfl⟩ (by decide))
    ⟨demoEnv (fun _ => ['a']) 9, ⟨['a'], some 3⟩, demo_uniform 9, rfl⟩, by decide⟩

example : NoFault (demoEnv (fun _ => ['a']) 9) 3 := ⟨fun _ => rfl, fun _ => ⟨(by show 3 ≤ 100; decide), rfl⟩, rfl⟩

/-- A source without ETags: only the size of the partial is known. -/
def bareEnv (content : Bytes) (n : Nat) : Env where
  fail := fun _ => false
  src := fun _ off => some ⟨⟨[], some content.length⟩, [((content.drop off).take n)], if off + n ≥ content.length then .eof else .err⟩
  wr := fun _ => (100, true)
  sideWr := (1, true)
  hooks := 0
  accept := fun _ _ => true

/-- **C25** fails for a source without ETags that changes: a pull of the new version returns success and the destination holds the first byte of
the old version and the rest of the new one. -/
theorem C25_counterexample_without_etags :
    let d1 := final (pull (bareEnv [1, 2, 3] 1) ⟨[], none⟩) ⟨none, none, none⟩
    (result (pull (bareEnv [7, 8, 9] 9) ⟨[], none⟩) d1).toOption = some () ∧
    (final (pull (bareEnv [7, 8, 9] 9) ⟨[], none⟩) d1).target = some [1, 8, 9] := by decide

/-- **C25** fails when a destination exists already: its size is compared and nothing else (documented). The caller names version "a" of three
bytes, other bytes are there, and the pull returns success. -/
theorem C25_counterexample_existing_target :
    (result (pull (demoEnv (fun _ => ['a']) 9) ⟨['a'], some 3⟩) ⟨some [9, 9, 9], none, none⟩).toOption = some () ∧
    (final (pull (demoEnv (fun _ => ['a']) 9) ⟨['a'], some 3⟩) ⟨some [9, 9, 9], none, none⟩).target = some [9, 9, 9] := by decide

/-- **C25** fails for a source that reports ETags only sometimes: a sidecar left behind by a kill between the two removals marks bytes of another
version. Killed while throwing away the partial of "a" (the part file is gone, the sidecar not); then an interrupted pull of "b" without ETag;
then a pull of "a" that trusts the sidecar and returns success. -/
theorem C25_counterexample_stale_sidecar :
    let d1 := final (pull (demoEnv (fun _ => ['a']) 1) ⟨[], none⟩) ⟨none, none, none⟩
    let d2 : Disk := ⟨none, none, some ['a']⟩
    let d3 := final (pull (bareEnv [7, 8] 1) ⟨[], none⟩) d2
    d2 ∈ crashes (pull (demoEnv (fun _ => ['b']) 9) ⟨[], none⟩) d1 ∧
    (result (pull (demoEnv (fun _ => ['a']) 9) ⟨['a'], some 3⟩) d3).toOption = some () ∧
    (final (pull (demoEnv (fun _ => ['a']) 9) ⟨['a'], some 3⟩) d3).target = some [7, 2, 3] := by decide

end Verif.Fsutil.Pull
