import Verif.Fsutil.PullModel
/-
What the pieces of `Pull` and `Push` do to the disk: a relation between the disk before and every disk on the way. Helper lemmas for PullProps.
-/
namespace Verif.Fsutil.Pull
open Verif.Prog

abbrev At (d : Disk) : Disk → Prop := fun s => s = d

theorem holds_call {I : Disk → Prop} {d : Disk} {Q : Except Err Unit → Disk → Prop} (e : Env) (op : Op)
    (h1 : e.fail op = false → Q (.ok ()) d) (h2 : e.fail op = true → Q (.error (.io op)) d) : Holds I (At d) (call e op) Q := by
  unfold call
  refine Holds.ite (fun h => Holds.fail ?_) (fun h => Holds.pure ?_)
  · rintro s rfl; exact h2 h
  · rintro s rfl; exact h1 (by simpa using h)

theorem holds_modify {I : Disk → Prop} {d : Disk} {Q : Except Err Unit → Disk → Prop} (f : Disk → Disk)
    (h1 : I (f d)) (h2 : Q (.ok ()) (f d)) : Holds I (At d) (Prog.modify f) Q :=
  Holds.modify (by rintro s rfl; exact h1) (by rintro s rfl; exact h2)

theorem holds_fail {α : Type} {I : Disk → Prop} {d : Disk} {Q : Except Err α → Disk → Prop} (x : Err)
    (h2 : Q (.error x) d) : Holds I (At d) (Prog.fail x) Q :=
  Holds.fail (by rintro s rfl; exact h2)

theorem holds_pure {α : Type} {I : Disk → Prop} {d : Disk} {Q : Except Err α → Disk → Prop} (x : α)
    (h2 : Q (.ok x) d) : Holds I (At d) (Pure.pure x) Q :=
  Holds.pure (by rintro s rfl; exact h2)

theorem holds_get_bind {β : Type} {I : Disk → Prop} {d : Disk} {f : Disk → P β} {Q : Except Err β → Disk → Prop}
    (h : Holds I (At d) (f d) Q) : Holds I (At d) (Prog.get >>= f) Q := by
  refine Holds.bind (fun r s => r = .ok s ∧ s = d) (Holds.get (by rintro s rfl; exact ⟨rfl, rfl⟩)) ?_ ?_
  · intro a
    refine Holds.fix ?_
    rintro s0 ⟨h1, rfl⟩
    cases h1
    exact h
  · rintro x s ⟨h1, _⟩; cases h1

/-- A failing or effect-free call, then more. -/
theorem holds_call_bind {β : Type} {I : Disk → Prop} {d : Disk} {f : Unit → P β} {Q : Except Err β → Disk → Prop} (e : Env) (op : Op)
    (h1 : e.fail op = false → Holds I (At d) (f ()) Q) (h2 : e.fail op = true → Q (.error (.io op)) d) :
    Holds I (At d) (call e op >>= f) Q := by
  refine Holds.bind (fun r s => (r = .ok () ∧ e.fail op = false ∧ s = d) ∨ (r = .error (.io op) ∧ e.fail op = true ∧ s = d))
    (holds_call e op (fun h => Or.inl ⟨rfl, h, rfl⟩) (fun h => Or.inr ⟨rfl, h, rfl⟩)) ?_ ?_
  · intro a
    refine Holds.fix ?_
    rintro s0 (⟨_, h, rfl⟩ | ⟨h, _⟩)
    · exact h1 h
    · cases h
  · rintro x s (⟨h, _⟩ | ⟨h, h', rfl⟩)
    · cases h
    · cases h; exact h2 h'

theorem holds_modify_bind {β : Type} {I : Disk → Prop} {d : Disk} {g : Disk → Disk} {f : Unit → P β} {Q : Except Err β → Disk → Prop}
    (h1 : I (g d)) (h2 : Holds I (At (g d)) (f ()) Q) : Holds I (At d) (Prog.modify g >>= f) Q := by
  refine Holds.bind (fun r s => r = .ok () ∧ s = g d) (holds_modify g h1 ⟨rfl, rfl⟩) ?_ ?_
  · intro a
    refine Holds.fix ?_
    rintro s0 ⟨_, rfl⟩
    exact h2
  · rintro x s ⟨h, _⟩; cases h

/-- Sequencing with a postcondition that fixes the state for each result. -/
theorem holds_bind_fix {α β : Type} {I : Disk → Prop} {d : Disk} {m : P α} {f : α → P β} {Q : Except Err β → Disk → Prop}
    (R : Except Err α → Disk → Prop) (hm : Holds I (At d) m R) (hf : ∀ a s, R (.ok a) s → Holds I (At s) (f a) Q)
    (he : ∀ x s, R (.error x) s → Q (.error x) s) : Holds I (At d) (m >>= f) Q :=
  Holds.bind R hm (fun a => Holds.fix (fun s hs => hf a s hs)) he

/-! ### removePartFiles -/

/-- The disks `removePartFiles` goes through: the part file goes first. -/
def Clearing (d d' : Disk) : Prop :=
  d' = d ∨ d' = { d with part := none } ∨ d' = { d with part := none, side := none }

def cleared (d : Disk) : Disk := { d with part := none, side := none }

theorem holds_removePartFiles (e : Env) (d : Disk) :
    Holds (Clearing d) (At d) (removePartFiles e) (fun r d' => Clearing d d' ∧ (r = .ok () → d' = cleared d)) := by
  unfold removePartFiles
  refine holds_get_bind ?_
  refine holds_bind_fix (fun r d' => (r = .ok () ∧ d' = { d with part := none }) ∨ (∃ x, r = .error x) ∧ d' = d) ?_ ?_ ?_
  · split
    · rename_i h
      refine holds_pure _ (Or.inl ⟨rfl, ?_⟩)
      cases d; simp_all
    · refine holds_call_bind e _ (fun _ => ?_) (fun _ => Or.inr ⟨⟨_, rfl⟩, rfl⟩)
      exact holds_modify _ (Or.inr (Or.inl rfl)) (Or.inl ⟨rfl, rfl⟩)
  · rintro a s (⟨_, rfl⟩ | ⟨⟨x, hx⟩, _⟩)
    · split
      · rename_i h
        refine holds_pure _ ⟨Or.inr (Or.inl rfl), fun _ => ?_⟩
        cases d; simp_all [cleared]
      · refine holds_call_bind e _ (fun _ => ?_) (fun _ => ⟨Or.inr (Or.inl rfl), by simp⟩)
        exact holds_modify _ (Or.inr (Or.inr rfl)) ⟨Or.inr (Or.inr rfl), fun _ => rfl⟩
    · cases hx
  · rintro x s (⟨h, _⟩ | ⟨_, rfl⟩)
    · cases h
    · exact ⟨Or.inl rfl, by simp⟩

/-! ### the sidecar -/

/-- What reading the sidecar gives. -/
def sideTag (d : Disk) : Str := trimSpace (d.side.getD [])

theorem trimSpace_nil : trimSpace [] = [] := rfl

theorem holds_readSidecar (e : Env) (d : Disk) {I : Disk → Prop} :
    Holds I (At d) (readSidecar e) (fun r d' => d' = d ∧ ∀ t, r = .ok t → t = sideTag d) := by
  unfold readSidecar
  refine holds_get_bind ?_
  split
  · rename_i h
    refine holds_pure _ ⟨rfl, ?_⟩
    intro t ht; cases ht
    simp [sideTag, h, trimSpace_nil]
  · rename_i h
    refine holds_call_bind e _ (fun _ => ?_) (fun _ => ⟨rfl, by intro t ht; cases ht⟩)
    refine holds_pure _ ⟨rfl, ?_⟩
    intro t ht; cases ht
    simp [sideTag, h]

/-- Writing the sidecar touches nothing else; on success it is complete. -/
theorem holds_writeSidecar (e : Env) (etag : Str) (d : Disk) :
    Holds (fun d' => ∃ s, d' = { d with side := some s }) (At d) (writeSidecar e etag)
      (fun r d' => (d' = d ∨ ∃ s, d' = { d with side := some s }) ∧ (r = .ok () → d' = { d with side := some etag })) := by
  unfold writeSidecar
  refine holds_call_bind e _ (fun _ => ?_) (fun _ => ⟨Or.inl rfl, by simp⟩)
  refine holds_modify_bind ⟨_, rfl⟩ ?_
  refine holds_modify_bind ⟨_, rfl⟩ ?_
  refine Holds.ite (fun _ => ?_) (fun _ => holds_fail _ ⟨Or.inr ⟨_, rfl⟩, by simp⟩)
  refine holds_modify_bind ⟨_, rfl⟩ ?_
  exact holds_call e _ (fun _ => ⟨Or.inr ⟨_, rfl⟩, fun _ => rfl⟩) (fun _ => ⟨Or.inr ⟨_, rfl⟩, by simp⟩)

/-! ### copying -/

/-- `d'` is `d` with `q` written behind `p` in the part file. -/
def Grown (d : Disk) (p q : Bytes) : Disk := { d with part := some (p ++ q) }

theorem holds_copy (e : Env) (ending : End) : ∀ (reads : List Bytes) (i : Nat) (d : Disk) (p : Bytes), d.part = some p →
    Holds (fun d' => ∃ q, q <+: reads.flatten ∧ d' = Grown d p q) (At d) (copy e ending i reads)
      (fun r d' => (∃ q, q <+: reads.flatten ∧ d' = Grown d p q) ∧
        ∀ n, r = .ok n → n = reads.flatten.length ∧ d' = Grown d p reads.flatten ∧ ending = .eof) := by
  intro reads
  induction reads with
  | nil =>
    intro i d p hp
    have hg : d = Grown d p [] := by cases d; simp_all [Grown]
    unfold copy
    refine Holds.ite (fun h => holds_pure _ ⟨⟨[], by simp, hg⟩, ?_⟩) (fun h => holds_fail _ ⟨⟨[], by simp, hg⟩, ?_⟩)
    · intro n hn; cases hn
      exact ⟨rfl, hg, h⟩
    · intro n hn; cases hn
  | cons c rest ih =>
    intro i d p hp
    unfold copy
    refine Holds.ite (fun h => ?_) (fun h => ?_)
    · subst h
      simpa using ih i d p hp
    · have h0 : ∀ k, appendPart (c.take k) d = Grown d p (c.take k) := by
        intro k; cases d; simp_all [appendPart, Grown]
      have hpre : ∀ k, ∃ q, q <+: (c :: rest).flatten ∧ appendPart (c.take k) d = Grown d p q := by
        intro k
        refine ⟨c.take k, ?_, h0 k⟩
        rw [List.flatten_cons]
        exact (List.take_prefix k c).trans (List.prefix_append _ _)
      refine holds_modify_bind (hpre _) ?_
      refine Holds.ite (fun hc => holds_fail _ ⟨hpre _, by intro n hn; cases hn⟩) (fun hc => ?_)
      have hlen : min (e.wr i).1 c.length = c.length := by
        by_cases hh : min (e.wr i).1 c.length = c.length
        · exact hh
        · exact absurd (Or.inr hh) hc
      rw [h0, hlen, List.take_length]
      have hlift : ∀ d', (∃ q, q <+: rest.flatten ∧ d' = Grown (Grown d p c) (p ++ c) q) →
          ∃ q, q <+: (c :: rest).flatten ∧ d' = Grown d p q := by
        rintro d' ⟨q, hq, rfl⟩
        refine ⟨c ++ q, ?_, by simp [Grown]⟩
        rw [List.flatten_cons]
        obtain ⟨z, hz⟩ := hq
        exact ⟨z, by rw [← hz]; simp⟩
      refine holds_bind_fix _ ((ih (i + 1) (Grown d p c) (p ++ c) (by simp [Grown])).weaken (fun _ h => h) (fun d' h => hlift d' h) (fun r d' h => h)) ?_ ?_
      · rintro m s ⟨h1, h2⟩
        obtain ⟨h3, h4, h5⟩ := h2 m rfl
        refine holds_pure _ ⟨hlift _ h1, ?_⟩
        intro n hn
        cases hn
        refine ⟨by simp [h3], ?_, h5⟩
        rw [h4]; simp [Grown]
      · rintro x s ⟨h1, _⟩
        exact ⟨hlift _ h1, by intro n hn; cases hn⟩

/-! ### the resume point -/

/-- The partial is thrown away before the source is asked: it is too large, or belongs to another version. -/
def Discards (exp : Info) (d : Disk) : Prop :=
  ∃ p, d.part = some p ∧ ((∃ n, exp.size = some n ∧ n < p.length) ∨ (sideTag d ≠ [] ∧ exp.etag ≠ [] ∧ sideTag d ≠ exp.etag))

/-- resumable.go 290-325, as a relation. -/
def Resumes (exp : Info) (d : Disk) (r : Nat × Str) (d' : Disk) : Prop :=
  (d' = d ∧ ∃ p, d.part = some p ∧ r = (p.length, sideTag d) ∧ (∀ n, exp.size = some n → p.length ≤ n) ∧
    (sideTag d = [] ∨ exp.etag = [] ∨ sideTag d = exp.etag)) ∨
  (r = (0, []) ∧ ((d' = d ∧ d.part = none) ∨ (Discards exp d ∧ d' = cleared d)))

/-- Nothing happened, or a removal for the reason `c`. -/
def ClearIf (c : Prop) (d d' : Disk) : Prop := d' = d ∨ (c ∧ Clearing d d')

theorem holds_resumePoint (e : Env) (exp : Info) (d : Disk) :
    Holds (ClearIf (Discards exp d) d) (At d) (resumePoint e exp)
      (fun r d' => ClearIf (Discards exp d) d d' ∧ ∀ x, r = .ok x → Resumes exp d x d') := by
  unfold resumePoint
  refine holds_call_bind e _ (fun _ => ?_) (fun _ => ⟨Or.inl rfl, by intro x hx; cases hx⟩)
  refine holds_get_bind ?_
  split
  · rename_i h
    refine holds_pure _ ⟨Or.inl rfl, ?_⟩
    intro x hx; cases hx
    exact Or.inr ⟨rfl, Or.inl ⟨rfl, h⟩⟩
  · rename_i p h
    refine holds_bind_fix _ (holds_readSidecar e d) ?_ ?_
    · rintro stored s ⟨rfl, hst⟩
      rw [hst stored rfl]
      refine Holds.ite (fun hc => ?_) (fun hc => holds_pure _ ⟨Or.inl rfl, ?_⟩)
      · have hdisc : Discards exp s := by
          refine ⟨p, h, ?_⟩
          rcases hc with hc | hc
          · refine Or.inl ?_
            rcases hs : exp.size with _ | n
            · rw [hs] at hc; cases hc
            · rw [hs] at hc
              exact ⟨n, rfl, by simpa using hc⟩
          · exact Or.inr hc
        refine holds_bind_fix _ ((holds_removePartFiles e s).weaken (fun _ h => h) (fun _ h => Or.inr ⟨hdisc, h⟩) (fun r s h => h)) ?_ ?_
        · rintro a s' ⟨h1, h2⟩
          have h2 := h2 rfl
          refine holds_pure _ ⟨Or.inr ⟨hdisc, h1⟩, ?_⟩
          intro x hx; cases hx
          refine Or.inr ⟨rfl, Or.inr ⟨hdisc, h2⟩⟩
        · rintro x s' ⟨h1, _⟩
          exact ⟨Or.inr ⟨hdisc, h1⟩, by intro x hx; cases hx⟩
      · intro x hx; cases hx
        refine Or.inl ⟨rfl, p, h, rfl, ?_, ?_⟩
        · intro n hn
          rw [hn] at hc
          have : ¬ n < p.length := fun hlt => hc (Or.inl (by simpa using hlt))
          omega
        · by_cases h1 : sideTag s = []
          · exact Or.inl h1
          · by_cases h2 : exp.etag = []
            · exact Or.inr (Or.inl h2)
            · by_cases h3 : sideTag s = exp.etag
              · exact Or.inr (Or.inr h3)
              · exact absurd (Or.inr ⟨h1, h2, h3⟩) hc
    · rintro x s ⟨rfl, _⟩
      exact ⟨Or.inl rfl, by intro x hx; cases hx⟩

/-! ### opening the source -/

/-- resumable.go 327-356, as a relation. -/
def Opens (e : Env) (exp : Info) (start : Nat) (stored : Str) (d : Disk) (r : Opened × Nat × Str) (d' : Disk) : Prop :=
  (d' = d ∧ r.2 = (start, stored) ∧ e.src 0 start = some r.1 ∧ (exp.etag = [] ∨ r.1.info.etag = [] ∨ r.1.info.etag = exp.etag) ∧
    (start = 0 ∨ trusted exp r.1.info.etag stored = true)) ∨
  (d' = cleared d ∧ r.2 = (0, []) ∧ e.src 1 0 = some r.1 ∧ 0 < start ∧ ∃ o, e.src 0 start = some o ∧
    (exp.etag = [] ∨ o.info.etag = [] ∨ o.info.etag = exp.etag) ∧ trusted exp o.info.etag stored = false)

theorem holds_openSource (e : Env) (k off : Nat) (d : Disk) {I : Disk → Prop} :
    Holds I (At d) (openSource e k off) (fun r d' => d' = d ∧ ∀ o, r = .ok o → e.src k off = some o) := by
  unfold openSource
  split
  · exact holds_fail _ ⟨rfl, by intro o ho; cases ho⟩
  · rename_i o h
    refine holds_pure _ ⟨rfl, ?_⟩
    intro o' ho; cases ho; exact h

/-- The partial is thrown away because the source says it is another version. -/
def Untrusted (e : Env) (exp : Info) (start : Nat) (stored : Str) : Prop :=
  0 < start ∧ ∃ o, e.src 0 start = some o ∧ trusted exp o.info.etag stored = false

theorem holds_openChecked (e : Env) (exp : Info) (start : Nat) (stored : Str) (d : Disk) :
    Holds (ClearIf (Untrusted e exp start stored) d) (At d) (openChecked e exp start stored)
      (fun r d' => ClearIf (Untrusted e exp start stored) d d' ∧ ∀ x, r = .ok x → Opens e exp start stored d x d') := by
  unfold openChecked
  refine holds_bind_fix _ (holds_openSource e 0 start d) ?_ ?_
  · rintro o s ⟨rfl, ho⟩
    have ho := ho o rfl
    refine Holds.ite (fun hc => holds_fail _ ⟨Or.inl rfl, by intro x hx; cases hx⟩) (fun hc => ?_)
    have hck : exp.etag = [] ∨ o.info.etag = [] ∨ o.info.etag = exp.etag := by
      by_cases h2 : exp.etag = []
      · exact Or.inl h2
      · by_cases h1 : o.info.etag = []
        · exact Or.inr (Or.inl h1)
        · by_cases h3 : o.info.etag = exp.etag
          · exact Or.inr (Or.inr h3)
          · exact absurd ⟨h2, h1, h3⟩ hc
    refine Holds.ite (fun hc => ?_) (fun hc2 => holds_pure _ ⟨Or.inl rfl, ?_⟩)
    · have hun : Untrusted e exp start stored := ⟨hc.1, o, ho, hc.2⟩
      refine holds_bind_fix _ ((holds_removePartFiles e s).weaken (fun _ h => h) (fun _ h => Or.inr ⟨hun, h⟩) (fun r s h => h)) ?_ ?_
      · rintro a s' ⟨h1, h2⟩
        have h2 := h2 rfl
        subst h2
        refine holds_bind_fix _ (holds_openSource e 1 0 _) ?_ ?_
        · rintro o2 s2 ⟨rfl, ho2⟩
          have ho2 := ho2 o2 rfl
          refine holds_pure _ ⟨Or.inr ⟨hun, h1⟩, ?_⟩
          intro x hx; cases hx
          exact Or.inr ⟨rfl, rfl, ho2, hc.1, o, ho, hck, hc.2⟩
        · rintro x s2 ⟨rfl, _⟩
          exact ⟨Or.inr ⟨hun, h1⟩, by intro x hx; cases hx⟩
      · rintro x s' ⟨h1, _⟩
        exact ⟨Or.inr ⟨hun, h1⟩, by intro x hx; cases hx⟩
    · intro x hx; cases hx
      refine Or.inl ⟨rfl, rfl, ho, hck, ?_⟩
      by_cases h0 : start = 0
      · exact Or.inl h0
      · refine Or.inr ?_
        by_cases ht : trusted exp o.info.etag stored = true
        · exact ht
        · exact absurd ⟨by omega, by simpa using ht⟩ hc2
  · rintro x s ⟨rfl, _⟩
    exact ⟨Or.inl rfl, by intro x hx; cases hx⟩

/-! ### the transfer -/

/-- The part file when the transfer begins. -/
def base (d : Disk) (startAt : Nat) : Bytes := if startAt = 0 then [] else d.part.getD []

/-- Whether the sidecar is rewritten. -/
def writes (stored etag : Str) : Prop := etag ≠ [] ∧ etag ≠ stored
instance (a b : Str) : Decidable (writes a b) := inferInstanceAs (Decidable (_ ∧ _))

def newSide (d : Disk) (stored etag : Str) : Option Str := if writes stored etag then some etag else d.side

/-- A disk during the transfer: the part file has grown, and as soon as it has the sidecar is complete. -/
def During (d : Disk) (o : Opened) (startAt : Nat) (stored etag : Str) (d' : Disk) : Prop :=
  d'.target = d.target ∧ ∃ q, q <+: o.reads.flatten ∧ d'.part = some (base d startAt ++ q) ∧
    (d'.side = newSide d stored etag ∨ (q = [] ∧ writes stored etag))

theorem holds_transfer (e : Env) (o : Opened) (startAt : Nat) (stored etag : Str) (size : Option Nat) (d : Disk) :
    Holds (During d o startAt stored etag) (At d) (transfer e o startAt stored etag size)
      (fun r d' => (d' = d ∨ During d o startAt stored etag d') ∧
        (r = .ok () → d' = { d with part := some (base d startAt ++ o.reads.flatten), side := newSide d stored etag } ∧
          o.ending = .eof ∧ ∀ s, size = some s → startAt + o.reads.flatten.length = s)) := by
  unfold transfer openPart
  have hd1 : (fun d : Disk => { d with part := if startAt = 0 then some [] else some (d.part.getD []) }) d
      = { d with part := some (base d startAt) } := by
    unfold base; split <;> simp_all
  have hbase : (if startAt = 0 then some [] else some (d.part.getD [])) = some (base d startAt) := by
    unfold base; split <;> rfl
  have hfirst : ∀ side, (side = newSide d stored etag ∨ writes stored etag) →
      During d o startAt stored etag { d with part := some (base d startAt), side := side } := by
    intro side hs
    refine ⟨rfl, [], by simp, by simp, ?_⟩
    rcases hs with h | h
    · exact Or.inl h
    · exact Or.inr ⟨rfl, h⟩
  have hd0 : During d o startAt stored etag { d with part := some (base d startAt) } := by
    refine hfirst d.side ?_
    by_cases hw : writes stored etag
    · exact Or.inr hw
    · exact Or.inl (by simp [newSide, hw])
  refine holds_bind_fix (fun r d' => (r = .ok () ∧ d' = { d with part := some (base d startAt) }) ∨ (∃ x, r = .error x) ∧ d' = d) ?_ ?_ ?_
  · refine holds_call_bind e _ (fun _ => ?_) (fun _ => Or.inr ⟨⟨_, rfl⟩, rfl⟩)
    refine holds_modify _ ?_ (Or.inl ⟨rfl, hd1⟩)
    rw [hbase]; exact hd0
  · rintro a s (⟨_, rfl⟩ | ⟨⟨x, hx⟩, _⟩)
    · refine holds_bind_fix (fun r d' => During d o startAt stored etag d' ∧
        (r = .ok () → d' = { d with part := some (base d startAt), side := newSide d stored etag })) ?_ ?_ ?_
      · refine Holds.ite (fun hw => ?_) (fun hw => ?_)
        · refine (holds_writeSidecar e etag _).weaken (fun _ h => h) ?_ ?_
          · rintro d' ⟨s, rfl⟩
            exact hfirst _ (Or.inr hw)
          · rintro r d' ⟨h1, h2⟩
            refine ⟨?_, fun hr => ?_⟩
            · rcases h1 with rfl | ⟨s, rfl⟩
              · exact hd0
              · exact hfirst _ (Or.inr hw)
            · rw [h2 hr]
              have hw' : writes stored etag := hw
              simp [newSide, hw']
        · have hw' : ¬ writes stored etag := hw
          refine holds_pure _ ⟨hd0, fun _ => ?_⟩
          simp [newSide, hw']
      · rintro a s ⟨_, hs⟩
        have hs := hs rfl
        subst hs
        refine holds_bind_fix (fun r d' => d' = { d with part := some (base d startAt), side := newSide d stored etag }) ?_ ?_ ?_
        · exact Holds.ite (fun _ => holds_call e _ (fun _ => rfl) (fun _ => rfl)) (fun _ => holds_pure _ rfl)
        · rintro a s rfl
          have hgrow : ∀ d', (∃ q, q <+: o.reads.flatten ∧ d' = Grown { d with part := some (base d startAt), side := newSide d stored etag } (base d startAt) q) →
              During d o startAt stored etag d' := by
            rintro d' ⟨q, hq, rfl⟩
            exact ⟨rfl, q, hq, rfl, Or.inl rfl⟩
          refine holds_bind_fix _ ((holds_copy e o.ending o.reads 0 _ (base d startAt) rfl).weaken (fun _ h => h) (fun d' h => hgrow d' h) (fun r d' h => h)) ?_ ?_
          · rintro n s ⟨h1, h2⟩
            obtain ⟨h3, h4, h5⟩ := h2 n rfl
            refine Holds.ite (fun hc => holds_fail _ ⟨Or.inr (hgrow _ h1), by simp⟩) (fun hc => holds_pure _ ⟨Or.inr (hgrow _ h1), fun _ => ?_⟩)
            refine ⟨h4, h5, ?_⟩
            intro sz hsz
            rw [hsz] at hc
            simp only [Option.any_some, decide_not, Bool.not_eq_eq_eq_not, Bool.not_true, decide_eq_false_iff_not, Classical.not_not] at hc
            rw [← h3]; exact hc
          · rintro x s ⟨h1, _⟩
            exact ⟨Or.inr (hgrow _ h1), by simp⟩
        · rintro x s rfl
          exact ⟨Or.inr (hfirst _ (Or.inl rfl)), by simp⟩
      · rintro x s ⟨h1, _⟩
        exact ⟨Or.inr h1, by simp⟩
    · cases hx
  · rintro x s (⟨h, _⟩ | ⟨_, rfl⟩)
    · cases h
    · exact ⟨Or.inl rfl, by simp⟩

/-! ### the commit -/

/-- Every hook accepts the bytes `p` (and the seek before it does not fail). -/
def HooksOk (e : Env) (p : Bytes) : Prop := (0 < e.hooks → e.fail .hookSeek = false) ∧ ∀ i, i < e.hooks → e.accept i p = true

/-- What an error of the hooks says: a seek failed, or the hook of that number rejected the bytes `p`. -/
def Rejected (e : Env) (p : Bytes) (x : Err) : Prop := x = .io .hookSeek ∨ ∃ i, i < e.hooks ∧ x = .io (.hook i) ∧ e.accept i p = false

/-- The removals work. -/
def Removes (e : Env) : Prop := e.fail .removePart = false ∧ e.fail .removeSide = false

theorem removePartFiles_ok {e : Env} (h : Removes e) (d : Disk) : (removePartFiles e d).2.1 = cleared d := by
  obtain ⟨t, p, s⟩ := d
  have h1 := h.1
  have h2 := h.2
  cases p <;> cases s <;> simp [removePartFiles, Bind.bind, Prog.bind, Prog.get, Prog.modify, call, h1, h2, cleared, Pure.pure, Prog.pure]

theorem holds_runHooks (e : Env) (d : Disk) (p : Bytes) (hp : d.part = some p) : ∀ (n i : Nat), i + n = e.hooks →
    Holds (ClearIf (¬ HooksOk e p) d) (At d) (runHooks e i n) (fun r d' => ClearIf (¬ HooksOk e p) d d' ∧
      (r = .ok () → d' = d ∧ (0 < n → e.fail .hookSeek = false) ∧ ∀ j, i ≤ j → j < e.hooks → e.accept j p = true) ∧
      (∀ x, r = .error x → Rejected e p x ∧ (Removes e → d' = cleared d))) := by
  intro n
  induction n with
  | zero =>
    intro i hi
    refine holds_pure _ ⟨Or.inl rfl, fun _ => ⟨rfl, by omega, fun j _ _ => by omega⟩, by intro x hx; cases hx⟩
  | succ n ih =>
    intro i hi
    have hrm : ¬ HooksOk e p → Holds (ClearIf (¬ HooksOk e p) d) (At d) (Prog.attempt (removePartFiles e))
        (fun r d' => (∃ y, r = .ok y) ∧ ClearIf (¬ HooksOk e p) d d' ∧ (Removes e → d' = cleared d)) := by
      intro hn s hs
      cases hs
      have hA := Holds.attempt ((holds_removePartFiles e d).weaken (fun _ h => h) (fun _ h => Or.inr ⟨hn, h⟩) (fun r s h => Or.inr ⟨hn, h.1⟩))
        (I := ClearIf (¬ HooksOk e p) d) (Q := fun _ d' => ClearIf (¬ HooksOk e p) d d') d rfl
      exact ⟨hA.1, ⟨_, rfl⟩, hA.2, fun hr => removePartFiles_ok hr d⟩
    unfold runHooks
    refine Holds.ite (fun h => ?_) (fun h => ?_)
    · have hn : ¬ HooksOk e p := fun hk => by rw [hk.1 (by omega)] at h; cases h
      refine holds_bind_fix _ (hrm hn) ?_ ?_
      · rintro a s ⟨_, hs, hc⟩
        refine holds_fail _ ⟨hs, by simp, ?_⟩
        intro x hx; cases hx
        exact ⟨Or.inl rfl, hc⟩
      · rintro x s ⟨⟨y, hy⟩, _⟩; cases hy
    · refine holds_get_bind ?_
      rw [hp]
      show Holds _ _ (if e.accept i p = true then _ else _) _
      refine Holds.ite (fun h2 => ?_) (fun h2 => ?_)
      · refine (ih (i + 1) (by omega)).weaken (fun _ h => h) (fun _ h => h) ?_
        rintro r s ⟨h3, h4, h5⟩
        refine ⟨h3, fun hr => ?_, h5⟩
        obtain ⟨h6, _, h8⟩ := h4 hr
        refine ⟨h6, fun _ => by simpa using h, fun j hj1 hj2 => ?_⟩
        by_cases hji : j = i
        · subst hji; exact h2
        · exact h8 j (by omega) hj2
      · have hn : ¬ HooksOk e p := fun hk => h2 (hk.2 i (by omega))
        refine holds_bind_fix _ (hrm hn) ?_ ?_
        · rintro a s ⟨_, hs, hc⟩
          refine holds_fail _ ⟨hs, by simp, ?_⟩
          intro x hx; cases hx
          exact ⟨Or.inr ⟨i, by omega, rfl, by simpa using h2⟩, hc⟩
        · rintro x s ⟨⟨y, hy⟩, _⟩; cases hy

/-- Committed: the destination holds what the part file held. -/
def Committed (d : Disk) (p : Bytes) (d' : Disk) : Prop := d'.target = some p ∧ d'.part = none ∧ (d'.side = d.side ∨ d'.side = none)

theorem holds_renamePart (e : Env) (d : Disk) (p : Bytes) (hp : d.part = some p) :
    Holds (Committed d p) (At d) (renamePart e) (fun r d' => (d' = d ∧ r ≠ .ok () ∧ (r = .error (.io .rename) ∨ r = .error .renameNotExist)) ∨
      (d' = { d with target := some p, part := none } ∧ r = .ok ())) := by
  unfold renamePart
  refine holds_call_bind e _ (fun _ => ?_) (fun _ => Or.inl ⟨rfl, by simp, Or.inl rfl⟩)
  refine holds_get_bind ?_
  rw [hp]
  exact holds_modify _ ⟨rfl, rfl, Or.inl rfl⟩ (Or.inr ⟨rfl, rfl⟩)

theorem holds_commit (e : Env) (d : Disk) (p : Bytes) (hp : d.part = some p) :
    Holds (fun d' => ClearIf (¬ HooksOk e p) d d' ∨ (Committed d p d' ∧ HooksOk e p)) (At d) (commit e)
      (fun r d' => (ClearIf (¬ HooksOk e p) d d' ∨ (Committed d p d' ∧ HooksOk e p)) ∧
        (r = .ok () → Committed d p d' ∧ HooksOk e p ∧ (e.fail .removeSide = false → d'.side = none)) ∧
        (∀ i, r = .error (.io (.hook i)) → i < e.hooks ∧ e.accept i p = false ∧ (Removes e → d' = cleared d))) := by
  unfold commit
  refine holds_bind_fix _ ((holds_runHooks e d p hp e.hooks 0 (by omega)).weaken (fun _ h => h) (fun _ h => Or.inl h) (fun r s h => h)) ?_ ?_
  · rintro a s ⟨_, h2, _⟩
    obtain ⟨h2, h2a, h2b⟩ := h2 rfl
    have hk : HooksOk e p := ⟨h2a, fun i hi => h2b i (Nat.zero_le _) hi⟩
    subst h2
    refine holds_call_bind e _ (fun _ => ?_) (fun _ => ⟨Or.inl (Or.inl rfl), by simp, by intro i hi; cases hi⟩)
    refine holds_bind_fix (fun r d' => (d' = s ∧ (r = .error (.io .rename) ∨ r = .error .renameNotExist)) ∨
        (d' = { s with target := some p, part := none } ∧ r = .ok ())) ((holds_renamePart e s p hp).weaken (fun _ h => h) (fun _ h => Or.inr ⟨h, hk⟩) ?_) ?_ ?_
    · rintro r d' (⟨h1, h3, h4⟩ | h1)
      · exact Or.inl ⟨h1, h4⟩
      · exact Or.inr h1
    · rintro a s' (⟨rfl, h | h⟩ | ⟨rfl, _⟩)
      · cases h
      · cases h
      · refine Holds.ite (fun hf => holds_pure _ ?_) (fun _ => holds_modify _ ?_ ?_)
        · exact ⟨Or.inr ⟨⟨rfl, rfl, Or.inl rfl⟩, hk⟩, fun _ => ⟨⟨rfl, rfl, Or.inl rfl⟩, hk, fun h => by rw [h] at hf; cases hf⟩, by intro i hi; cases hi⟩
        · exact Or.inr ⟨⟨rfl, rfl, Or.inr rfl⟩, hk⟩
        · exact ⟨Or.inr ⟨⟨rfl, rfl, Or.inr rfl⟩, hk⟩, fun _ => ⟨⟨rfl, rfl, Or.inr rfl⟩, hk, fun _ => rfl⟩, by intro i hi; cases hi⟩
    · rintro x s' (⟨rfl, h⟩ | ⟨_, h⟩)
      · refine ⟨Or.inl (Or.inl rfl), by simp, ?_⟩
        intro i hi
        cases hi
        rcases h with h | h <;> cases h
      · cases h
  · rintro x s ⟨h1, _, h3⟩
    refine ⟨Or.inl h1, by simp, ?_⟩
    intro i hi
    cases hi
    obtain ⟨h4, h5⟩ := h3 _ rfl
    rcases h4 with h4 | ⟨j, hj, h4, h6⟩
    · cases h4
    · cases h4
      exact ⟨hj, h6, h5⟩

/-! ### a whole pull -/

/-- The state with which the transfer begins, and what was opened. -/
structure Session (e : Env) (exp : Info) (d : Disk) where
  o : Opened
  startAt : Nat
  stored : Str
  disk : Disk
  start0 : Nat
  stored0 : Str
  disk0 : Disk
  resumes : Resumes exp d (start0, stored0) disk0
  opens : Opens e exp start0 stored0 disk0 (o, startAt, stored) disk

/-- The tag recorded for the session. -/
def Session.tag {e : Env} {exp : Info} {d : Disk} (x : Session e exp d) : Str := effectiveETag x.o.info.etag exp.etag

/-- The content a session has when the source has delivered everything it had to say. -/
def Session.whole {e : Env} {exp : Info} {d : Disk} (x : Session e exp d) : Bytes := base x.disk x.startAt ++ x.o.reads.flatten

/-- The source delivered everything: EOF, and the sizes that are known agree. -/
def Session.Full {e : Env} {exp : Info} {d : Disk} (x : Session e exp d) : Prop := x.o.ending = .eof ∧
  ∀ s, x.o.info.size = some s ∨ exp.size = some s → x.startAt + x.o.reads.flatten.length = s

/-- Why a pull removes the partial. -/
def Drops (e : Env) (exp : Info) (d : Disk) : Prop :=
  (∃ x : Session e exp d, x.Full ∧ ¬ HooksOk e x.whole) ∨ Discards exp d ∨ ∃ p, d.part = some p ∧ Untrusted e exp p.length (sideTag d)

/-- The disks a pull can be found in. -/
inductive Pulling (e : Env) (exp : Info) (d : Disk) : Disk → Prop
  | clear {d'} : d'.target = d.target → (d' = d ∨ (d'.part = none ∧ Drops e exp d)) → Pulling e exp d d'
  | during (x : Session e exp d) {d'} : During x.disk x.o x.startAt x.stored x.tag d' → Pulling e exp d d'
  | committed (x : Session e exp d) {d'} : x.o.ending = .eof →
      (∀ s, x.o.info.size = some s ∨ exp.size = some s → x.startAt + x.o.reads.flatten.length = s) →
      HooksOk e x.whole → d'.target = some x.whole → d'.part = none → Pulling e exp d d'

theorem Clearing.target {d d' : Disk} (h : Clearing d d') : d'.target = d.target := by
  rcases h with rfl | rfl | rfl <;> rfl

theorem Clearing.part {d d' : Disk} (h : Clearing d d') : d' = d ∨ d'.part = none := by
  rcases h with rfl | rfl | rfl
  · exact Or.inl rfl
  · exact Or.inr rfl
  · exact Or.inr rfl

theorem ClearIf.pulling {c : Prop} {e : Env} {exp : Info} {d d' : Disk} (h : ClearIf c d d') (hc : c → Drops e exp d) : Pulling e exp d d' := by
  rcases h with rfl | ⟨h1, h2⟩
  · exact .clear rfl (Or.inl rfl)
  · exact .clear h2.target (h2.part.imp id (fun h => ⟨h, hc h1⟩))

theorem effectiveSize_eq {a b : Option Nat} {s : Option Nat} (h : effectiveSize a b = some s) :
    ∀ n, a = some n ∨ b = some n → s = some n := by
  unfold effectiveSize at h
  intro n hn
  split at h
  · split at h
    · cases h
    · rename_i hne
      cases h
      simp only [ne_eq, Classical.not_not] at hne
      subst hne
      rcases hn with hn | hn <;> exact hn
  · cases h
    rcases hn with hn | hn
    · exact hn
    · cases hn
  · cases h
    rcases hn with hn | hn
    · cases hn
    · exact hn
  · rcases hn with hn | hn <;> cases hn

theorem Resumes.clear {exp : Info} {d d' : Disk} {r : Nat × Str} (h : Resumes exp d r d') : d' = d ∨ d' = cleared d := by
  rcases h with ⟨h, _⟩ | ⟨_, h | h⟩
  · exact Or.inl h
  · exact Or.inl h.1
  · exact Or.inr h.2

theorem Opens.clear {e : Env} {exp : Info} {n : Nat} {t : Str} {d d' : Disk} {r} (h : Opens e exp n t d r d') : d' = d ∨ d' = cleared d := by
  rcases h with ⟨h, _⟩ | ⟨h, _⟩
  · exact Or.inl h
  · exact Or.inr h

theorem Session.clear {e : Env} {exp : Info} {d : Disk} (x : Session e exp d) : x.disk = d ∨ x.disk = cleared d := by
  rcases x.resumes.clear with h | h <;> rcases x.opens.clear with h' | h' <;> rw [h'] <;> rw [h] <;> simp [cleared]

theorem Session.target {e : Env} {exp : Info} {d : Disk} (x : Session e exp d) : x.disk.target = d.target := by
  rcases x.clear with h | h <;> rw [h]; rfl

theorem ClearIf.after_resume {e : Env} {exp : Info} {d d0 d' : Disk} {start0 : Nat} {stored0 : Str}
    (hr : Resumes exp d (start0, stored0) d0) (h : ClearIf (Untrusted e exp start0 stored0) d0 d') : Pulling e exp d d' := by
  rcases hr with ⟨rfl, p, hp, hpr, _⟩ | ⟨h0, hr⟩
  · cases hpr
    exact h.pulling (fun hu => Or.inr (Or.inr ⟨p, hp, hu⟩))
  · cases h0
    have hnu : ¬ Untrusted e exp 0 [] := fun hu => absurd hu.1 (by omega)
    rcases h with rfl | ⟨hu, _⟩
    · rcases hr with ⟨rfl, _⟩ | ⟨hd, rfl⟩
      · exact .clear rfl (Or.inl rfl)
      · exact .clear rfl (Or.inr ⟨rfl, Or.inr (Or.inl hd)⟩)
    · exact absurd hu hnu

/-! ### what fails before the hooks is not a hook -/

/-- The program reports no verdict of a hook. -/
def Quiet {α : Type} (m : P α) : Prop := ∀ d i, (m d).2.2 ≠ .error (.io (.hook i))

theorem Quiet.holds {α : Type} {m : P α} (h : Quiet m) {I : Disk → Prop} {R : Disk → Prop} {Q : Except Err α → Disk → Prop} (hm : Holds I R m Q) :
    Holds I R m (fun r s => Q r s ∧ ∀ i, r ≠ .error (.io (.hook i))) :=
  fun s hs => ⟨(hm s hs).1, (hm s hs).2, h s⟩

theorem Quiet.bind {α β : Type} {m : P α} {f : α → P β} (hm : Quiet m) (hf : ∀ a, Quiet (f a)) : Quiet (m >>= f) := by
  intro d i
  show (Prog.bind m f d).2.2 ≠ _
  unfold Prog.bind
  have := hm d i
  rcases h : m d with ⟨t, s, _ | a⟩
  · rw [h] at this; simpa using this
  · exact hf a s i

theorem Quiet.ite {α : Type} {c : Prop} [Decidable c] {m n : P α} (hm : Quiet m) (hn : Quiet n) : Quiet (if c then m else n) := by
  split <;> assumption

theorem quiet_pure {α : Type} (a : α) : Quiet (Pure.pure a : P α) := by intro d i h; cases h
theorem quiet_get : Quiet (Prog.get : P Disk) := by intro d i h; cases h
theorem quiet_modify (f : Disk → Disk) : Quiet (Prog.modify f : P Unit) := by intro d i h; cases h
theorem quiet_fail {α : Type} {x : Err} (hx : ∀ i, x ≠ .io (.hook i)) : Quiet (Prog.fail x : P α) := by
  intro d i h; cases h; exact hx i rfl
theorem quiet_call (e : Env) {op : Op} (ho : ∀ i, op ≠ .hook i) : Quiet (call e op) := by
  unfold call
  exact Quiet.ite (quiet_fail (by intro i h; cases h; exact ho i rfl)) (quiet_pure _)

theorem quiet_removePartFiles (e : Env) : Quiet (removePartFiles e) := by
  unfold removePartFiles
  refine quiet_get.bind (fun d => Quiet.bind ?_ (fun _ => ?_))
  · split
    · exact quiet_pure _
    · exact (quiet_call e (by simp)).bind (fun _ => quiet_modify _)
  · split
    · exact quiet_pure _
    · exact (quiet_call e (by simp)).bind (fun _ => quiet_modify _)

theorem quiet_readSidecar (e : Env) : Quiet (readSidecar e) := by
  unfold readSidecar
  refine quiet_get.bind (fun d => ?_)
  split
  · exact quiet_pure _
  · exact (quiet_call e (by simp)).bind (fun _ => quiet_pure _)

theorem quiet_writeSidecar (e : Env) (t : Str) : Quiet (writeSidecar e t) := by
  unfold writeSidecar
  refine (quiet_call e (by simp)).bind (fun _ => (quiet_modify _).bind (fun _ => (quiet_modify _).bind (fun _ => Quiet.ite ?_ (quiet_fail (by simp)))))
  exact (quiet_modify _).bind (fun _ => quiet_call e (by simp))

theorem quiet_copy (e : Env) (ending : End) : ∀ (reads : List Bytes) (i : Nat), Quiet (copy e ending i reads) := by
  intro reads
  induction reads with
  | nil => intro i; exact Quiet.ite (quiet_pure _) (quiet_fail (by simp))
  | cons c rest ih =>
    intro i
    unfold copy
    refine Quiet.ite (ih i) ((quiet_modify _).bind (fun _ => Quiet.ite (quiet_fail (by simp)) ?_))
    exact (ih (i + 1)).bind (fun _ => quiet_pure _)

theorem quiet_resumePoint (e : Env) (exp : Info) : Quiet (resumePoint e exp) := by
  unfold resumePoint
  refine (quiet_call e (by simp)).bind (fun _ => quiet_get.bind (fun d => ?_))
  split
  · exact quiet_pure _
  · refine (quiet_readSidecar e).bind (fun _ => Quiet.ite ?_ (quiet_pure _))
    exact (quiet_removePartFiles e).bind (fun _ => quiet_pure _)

theorem quiet_openSource (e : Env) (k off : Nat) : Quiet (openSource e k off) := by
  unfold openSource
  split
  · exact quiet_fail (by simp)
  · exact quiet_pure _

theorem quiet_openChecked (e : Env) (exp : Info) (n : Nat) (t : Str) : Quiet (openChecked e exp n t) := by
  unfold openChecked
  refine (quiet_openSource _ _ _).bind (fun _ => Quiet.ite (quiet_fail (by simp)) (Quiet.ite ?_ (quiet_pure _)))
  exact (quiet_removePartFiles e).bind (fun _ => (quiet_openSource _ _ _).bind (fun _ => quiet_pure _))

theorem quiet_transfer (e : Env) (o : Opened) (startAt : Nat) (stored etag : Str) (size : Option Nat) :
    Quiet (transfer e o startAt stored etag size) := by
  unfold transfer openPart
  refine Quiet.bind ((quiet_call e (by simp)).bind (fun _ => quiet_modify _)) (fun _ => ?_)
  refine Quiet.bind (Quiet.ite (quiet_writeSidecar _ _) (quiet_pure _)) (fun _ => ?_)
  refine Quiet.bind (Quiet.ite (quiet_call e (by simp)) (quiet_pure _)) (fun _ => ?_)
  exact (quiet_copy _ _ _ _).bind (fun _ => Quiet.ite (quiet_fail (by simp)) (quiet_pure _))

theorem holds_pull (e : Env) (exp : Info) (d : Disk) (hd : d.target = none) :
    Holds (Pulling e exp d) (At d) (pull e exp)
      (fun r d' => Pulling e exp d d' ∧ (r = .ok () → ∃ x : Session e exp d, x.o.ending = .eof ∧
          (∀ s, x.o.info.size = some s ∨ exp.size = some s → x.startAt + x.o.reads.flatten.length = s) ∧
          d'.target = some x.whole ∧ d'.part = none ∧ HooksOk e x.whole ∧ (e.fail .removeSide = false → d'.side = none)) ∧
        (∀ i, r = .error (.io (.hook i)) → ∃ x : Session e exp d, x.Full ∧ i < e.hooks ∧ e.accept i x.whole = false ∧
          d'.target = none ∧ (Removes e → d'.part = none ∧ d'.side = none))) := by
  unfold pull
  refine holds_call_bind e _ (fun _ => ?_) (fun _ => ⟨.clear rfl (Or.inl rfl), by simp, by intro i hi; cases hi⟩)
  refine holds_get_bind ?_
  rw [hd]
  refine holds_bind_fix _ (((quiet_resumePoint e exp).holds (holds_resumePoint e exp d)).weaken (fun _ h => h) (fun _ h => h.pulling (fun hd => Or.inr (Or.inl hd))) (fun r s h => h)) ?_ ?_
  · rintro ⟨start0, stored0⟩ d0 ⟨⟨_, hr⟩, _⟩
    have hr := hr _ rfl
    refine holds_bind_fix _ (((quiet_openChecked e exp start0 stored0).holds (holds_openChecked e exp start0 stored0 d0)).weaken (fun _ h => h)
      (fun _ h => ClearIf.after_resume hr h) (fun r s h => h)) ?_ ?_
    · rintro ⟨o, startAt, stored⟩ d1 ⟨⟨hcl, ho⟩, _⟩
      have ho := ho _ rfl
      let x : Session e exp d := ⟨o, startAt, stored, d1, start0, stored0, d0, hr, ho⟩
      have hxt : d1.target = none := by have := x.target; rw [hd] at this; exact this
      have hx0 : Pulling e exp d d1 := ClearIf.after_resume hr hcl
      show Holds _ _ (match effectiveSize o.info.size exp.size with
        | none => Prog.fail .sizeMismatch
        | some size => do
          transfer e o startAt stored (effectiveETag o.info.etag exp.etag) size
          commit e) _
      split
      · exact holds_fail _ ⟨hx0, by simp, by intro i hi; cases hi⟩
      · rename_i size hsize
        refine holds_bind_fix _ (((quiet_transfer e o startAt stored (effectiveETag o.info.etag exp.etag) size).holds (holds_transfer e o startAt stored (effectiveETag o.info.etag exp.etag) size d1)).weaken (fun _ h => h)
          (fun d' h => .during x h) (fun r s h => h)) ?_ ?_
        · rintro a s ⟨⟨_, hs⟩, _⟩
          obtain ⟨rfl, hend, hsz⟩ := hs rfl
          have hsz' : ∀ s, x.o.info.size = some s ∨ exp.size = some s → x.startAt + x.o.reads.flatten.length = s :=
            fun s h => hsz s (effectiveSize_eq hsize s h)
          have hdur : During d1 o startAt stored (effectiveETag o.info.etag exp.etag)
              { d1 with part := some (base d1 startAt ++ o.reads.flatten), side := newSide d1 stored (effectiveETag o.info.etag exp.etag) } :=
            ⟨rfl, o.reads.flatten, List.prefix_refl _, rfl, Or.inl rfl⟩
          have key : ∀ d', ClearIf (¬ HooksOk e x.whole) { d1 with part := some (base d1 startAt ++ o.reads.flatten), side := newSide d1 stored (effectiveETag o.info.etag exp.etag) } d' ∨
              (Committed { d1 with part := some (base d1 startAt ++ o.reads.flatten), side := newSide d1 stored (effectiveETag o.info.etag exp.etag) }
                (base d1 startAt ++ o.reads.flatten) d' ∧ HooksOk e x.whole) → Pulling e exp d d' := by
            rintro d' ((rfl | ⟨hn, hc⟩) | ⟨⟨h1, h2, _⟩, hk⟩)
            · exact .during x hdur
            · rcases hc.part with rfl | hp
              · exact .during x hdur
              · exact .clear (by rw [hc.target, hd]; exact hxt) (Or.inr ⟨hp, Or.inl ⟨x, ⟨hend, hsz'⟩, hn⟩⟩)
            · exact .committed x hend hsz' hk h1 h2
          refine (holds_commit e _ (base d1 startAt ++ o.reads.flatten) rfl).weaken (fun _ h => h) (fun d' h => key d' h) ?_
          rintro r d' ⟨h1, h2, h3⟩
          refine ⟨key d' h1, fun h3 => ⟨x, hend, hsz', (h2 h3).1.1, (h2 h3).1.2.1, (h2 h3).2.1, (h2 h3).2.2⟩, ?_⟩
          intro i hi
          obtain ⟨h4, h5, h6⟩ := h3 i hi
          refine ⟨x, ⟨hend, hsz'⟩, h4, h5, ?_, fun hr => by rw [h6 hr]; exact ⟨rfl, rfl⟩⟩
          rcases h1 with (rfl | ⟨_, hc⟩) | ⟨_, hk⟩
          · exact hxt
          · rw [hc.target]; exact hxt
          · have h7 : e.accept i x.whole = true := hk.2 i h4
            have h8 : e.accept i x.whole = false := h5
            rw [h7] at h8; cases h8
        · rintro y s ⟨⟨h1, _⟩, hq⟩
          refine ⟨?_, by simp, fun i hi => absurd (congrArg Except.error (Except.error.inj hi)) (hq i)⟩
          rcases h1 with rfl | h1
          · exact hx0
          · exact .during x h1
    · rintro y s ⟨⟨h1, _⟩, hq⟩
      exact ⟨ClearIf.after_resume hr h1, by simp, fun i hi => absurd (congrArg Except.error (Except.error.inj hi)) (hq i)⟩
  · rintro y s ⟨⟨h1, _⟩, hq⟩
    exact ⟨h1.pulling (fun hd => Or.inr (Or.inl hd)), by simp, fun i hi => absurd (congrArg Except.error (Except.error.inj hi)) (hq i)⟩

end Verif.Fsutil.Pull
