import Verif.Fsutil.PullProps
/-
C27: `Push` to an `FsSink`.
-/
namespace Verif.Fsutil.Pull
open Verif.Prog

theorem holds_call' {I : Disk → Prop} {d : Disk} (e : Env) (op : Op) : Holds I (At d) (call e op) (fun _ d' => d' = d) :=
  holds_call e op (fun _ => rfl) (fun _ => rfl)

/-! ### the sink -/

/-- resumable_fs.go 180-205, as a relation. -/
def Reports (d : Disk) (st : SinkState) : Prop :=
  (∃ t, d.target = some t ∧ st.complete = true) ∨
  (d.target = none ∧ st.complete = false ∧ ((d.part = none ∧ st.offset = 0 ∧ st.etag = []) ∨
    ∃ p, d.part = some p ∧ st.offset = p.length ∧ st.etag = sideTag d))

theorem holds_sinkState (e : Env) (d : Disk) {I : Disk → Prop} :
    Holds I (At d) (sinkState e) (fun r d' => d' = d ∧ ∀ st, r = .ok st → Reports d st) := by
  unfold sinkState
  refine holds_call_bind e _ (fun _ => ?_) (fun _ => ⟨rfl, by intro x hx; cases hx⟩)
  refine holds_get_bind ?_
  split
  · rename_i t ht
    refine holds_pure _ ⟨rfl, ?_⟩
    intro st hst; cases hst
    exact Or.inl ⟨t, ht, rfl⟩
  · rename_i ht
    refine holds_call_bind e _ (fun _ => ?_) (fun _ => ⟨rfl, by intro x hx; cases hx⟩)
    split
    · rename_i hp
      refine holds_pure _ ⟨rfl, ?_⟩
      intro st hst; cases hst
      exact Or.inr ⟨ht, rfl, Or.inl ⟨hp, rfl, rfl⟩⟩
    · rename_i p hp
      refine holds_bind_fix _ (holds_readSidecar e d) ?_ ?_
      · rintro t s ⟨rfl, h⟩
        have h := h t rfl
        subst h
        refine holds_pure _ ⟨rfl, ?_⟩
        intro st hst; cases hst
        exact Or.inr ⟨ht, rfl, Or.inr ⟨p, hp, rfl, rfl⟩⟩
      · rintro x s ⟨rfl, _⟩
        exact ⟨rfl, by intro x hx; cases hx⟩

/-- The offset is the length of the part file, or zero. -/
def Fits (d : Disk) (offset : Nat) : Prop := offset = 0 ∨ ∃ p, d.part = some p ∧ offset = p.length

theorem holds_sinkOpen (e : Env) (offset : Nat) (d : Disk) (hfit : Fits d offset) :
    Holds (fun d' => d' = { d with part := some (base d offset) }) (At d) (sinkOpen e offset)
      (fun r d' => (d' = d ∨ d' = { d with part := some (base d offset) }) ∧ (r = .ok () → d' = { d with part := some (base d offset) })) := by
  unfold sinkOpen
  have hbase : (if offset = 0 then some [] else some (d.part.getD [])) = some (base d offset) := by
    unfold base; split <;> rfl
  refine holds_call_bind e _ (fun _ => ?_) (fun _ => ⟨Or.inl rfl, by simp⟩)
  refine holds_modify_bind (by rw [hbase]) ?_
  rw [hbase]
  refine Holds.ite (fun h0 => holds_pure _ ⟨Or.inr rfl, fun _ => rfl⟩) (fun h0 => ?_)
  refine holds_call_bind e _ (fun _ => ?_) (fun _ => ⟨Or.inr rfl, by simp⟩)
  refine holds_get_bind ?_
  have hlen : ((some (base d offset)).getD []).length = offset := by
    rcases hfit with h | ⟨p, hp, h⟩
    · exact absurd h h0
    · unfold base
      rw [if_neg h0, hp]
      exact h.symm
  simp only [hlen, gt_iff_lt, Nat.lt_irrefl, if_false]
  refine holds_bind_fix (fun _ d' => d' = { d with part := some (base d offset) }) (holds_pure _ rfl) ?_ ?_
  · rintro a s rfl
    exact holds_call e _ (fun _ => ⟨Or.inr rfl, fun _ => rfl⟩) (fun _ => ⟨Or.inr rfl, by simp⟩)
  · rintro x s rfl
    exact ⟨Or.inr rfl, by simp⟩

/-- On return the sidecar is the old one or the new one when its write did not fail. -/
theorem holds_writeSidecar' (e : Env) (etag : Str) (d : Disk) (hs : e.sideWr.2 = true) {I : Disk → Prop} (hI : ∀ d', I d') :
    Holds I (At d) (writeSidecar e etag) (fun _ d' => d' = d ∨ d' = { d with side := some etag }) := by
  unfold writeSidecar
  refine holds_call_bind e _ (fun _ => ?_) (fun _ => Or.inl rfl)
  refine holds_modify_bind (hI _) ?_
  refine holds_modify_bind (hI _) ?_
  rw [if_pos hs]
  refine holds_modify_bind (hI _) ?_
  exact holds_call e _ (fun _ => Or.inr rfl) (fun _ => Or.inr rfl)

def sentSide (d : Disk) (etag : Str) : Option Str := if etag ≠ [] then some etag else d.side

/-- A disk of the sink during an append. -/
def Appending (d : Disk) (reads : List Bytes) (offset : Nat) (etag : Str) (d' : Disk) : Prop :=
  d'.target = d.target ∧ ∃ q, q <+: reads.flatten ∧ d'.part = some (base d offset ++ q) ∧ (d'.side = sentSide d etag ∨ q = [])

theorem holds_sinkAppend (e : Env) (etag : Str) (offset : Nat) (reads : List Bytes) (ending : End) (d : Disk) (hfit : Fits d offset) :
    Holds (Appending d reads offset etag) (At d) (sinkAppend e etag offset reads ending)
      (fun r d' => (d' = d ∨ Appending d reads offset etag d') ∧
        (e.sideWr.2 = true → d' = d ∨ (∃ q, q <+: reads.flatten ∧ d'.part = some (base d offset ++ q) ∧ d'.target = d.target ∧
          (d'.side = sentSide d etag ∨ q = [] ∧ d'.side = d.side))) ∧
        (r = .ok () → d' = { d with part := some (base d offset ++ reads.flatten), side := sentSide d etag } ∧ ending = .eof)) := by
  unfold sinkAppend
  have hany : ∀ side, Appending d reads offset etag { d with part := some (base d offset), side := side } := by
    intro side
    exact ⟨rfl, [], by simp, by simp, Or.inr rfl⟩
  have hfin0 : ∃ q, q <+: reads.flatten ∧ some (base d offset) = some (base d offset ++ q) ∧ d.target = d.target ∧
      (d.side = sentSide d etag ∨ q = [] ∧ d.side = d.side) := ⟨[], by simp, by simp, rfl, Or.inr ⟨rfl, rfl⟩⟩
  refine holds_bind_fix _ ((holds_sinkOpen e offset d hfit).weaken (fun _ h => h) (fun d' h => by rw [h]; exact hany d.side) (fun r s h => h)) ?_ ?_
  · rintro a s ⟨_, h⟩
    have h := h rfl
    subst h
    refine holds_bind_fix (fun r d' => (∃ side, d' = { d with part := some (base d offset), side := side }) ∧
        (e.sideWr.2 = true → d' = { d with part := some (base d offset) } ∨ d' = { d with part := some (base d offset), side := sentSide d etag }) ∧
        (r = .ok () → d' = { d with part := some (base d offset), side := sentSide d etag })) ?_ ?_ ?_
    · refine Holds.ite (fun he => ?_) (fun he => ?_)
      · intro s hs
        have h1 := (holds_writeSidecar e etag { d with part := some (base d offset) }) s hs
        refine ⟨fun t ht => ?_, ?_, ?_, ?_⟩
        · obtain ⟨x, hx⟩ := h1.1 t ht
          rw [hx]; exact hany _
        · rcases h1.2.1 with h | ⟨x, h⟩
          · exact ⟨d.side, h⟩
          · exact ⟨_, h⟩
        · intro hsw
          have := ((holds_writeSidecar' e etag { d with part := some (base d offset) } hsw (I := fun _ => True) (fun _ => trivial)) s hs).2
          simpa [sentSide, he] using this
        · intro hr
          rw [h1.2.2 hr]; simp [sentSide, he]
      · refine holds_pure _ ⟨⟨d.side, rfl⟩, fun _ => Or.inl rfl, fun _ => ?_⟩
        simp [sentSide, he]
    · rintro a s ⟨_, _, h⟩
      have h := h rfl
      subst h
      have hgrow : ∀ d', (∃ q, q <+: reads.flatten ∧ d' = Grown { d with part := some (base d offset), side := sentSide d etag } (base d offset) q) →
          Appending d reads offset etag d' := by
        rintro d' ⟨q, hq, rfl⟩
        exact ⟨rfl, q, hq, rfl, Or.inl rfl⟩
      have hgrow2 : ∀ d', (∃ q, q <+: reads.flatten ∧ d' = Grown { d with part := some (base d offset), side := sentSide d etag } (base d offset) q) →
          ∃ q, q <+: reads.flatten ∧ d'.part = some (base d offset ++ q) ∧ d'.target = d.target ∧
          (d'.side = sentSide d etag ∨ q = [] ∧ d'.side = d.side) := by
        rintro d' ⟨q, hq, rfl⟩
        exact ⟨q, hq, rfl, rfl, Or.inl rfl⟩
      refine holds_bind_fix _ ((holds_copy e ending reads 0 _ (base d offset) rfl).weaken (fun _ h => h) (fun d' h => hgrow d' h) (fun r d' h => h)) ?_ ?_
      · rintro n s ⟨h1, h2⟩
        obtain ⟨_, h4, h5⟩ := h2 n rfl
        refine holds_call e _ (fun _ => ⟨Or.inr (hgrow _ h1), fun _ => Or.inr (hgrow2 _ h1), fun _ => ⟨h4, h5⟩⟩)
          (fun _ => ⟨Or.inr (hgrow _ h1), fun _ => Or.inr (hgrow2 _ h1), by simp⟩)
      · rintro x s ⟨h1, _⟩
        exact ⟨Or.inr (hgrow _ h1), fun _ => Or.inr (hgrow2 _ h1), by simp⟩
    · rintro x s ⟨⟨side, rfl⟩, h2, _⟩
      refine ⟨Or.inr (hany _), fun hsw => Or.inr ?_, by simp⟩
      rcases h2 hsw with h | h
      · rw [h]; exact hfin0
      · rw [h]; exact ⟨[], by simp, by simp, rfl, Or.inl rfl⟩
  · rintro x s ⟨h1, _⟩
    rcases h1 with rfl | rfl
    · exact ⟨Or.inl rfl, fun _ => Or.inl rfl, by simp⟩
    · exact ⟨Or.inr (hany d.side), fun _ => Or.inr hfin0, by simp⟩

/-! ### one append, on any disk -/

/-- What the part file holds while `reads` are appended at `offset` to `old`: a beginning of the old content no shorter than `offset`, or the
first `offset` bytes followed by a beginning of the data. -/
def PartDuring (old : Option Bytes) (offset : Nat) (reads : List Bytes) (part : Option Bytes) : Prop :=
  part = old ∨ (old = none ∧ part = some []) ∨
    ∃ p q, (old = some p ∨ old = none ∧ p = []) ∧ offset ≤ p.length ∧ q <+: reads.flatten ∧ part = some (p.take offset ++ q)

/-- The same for the sidecar: the old one, or while it is written anything, in which case no data has been appended yet. -/
def SideDuring (old : Option Str) (etag : Str) (side : Option Str) (offset : Nat) (part : Option Bytes) : Prop :=
  side = old ∨ (etag ≠ [] ∧ side = some etag) ∨ (etag ≠ [] ∧ ∃ p, part = some p ∧ p.length = offset)

theorem holds_sinkOpen_any (e : Env) (offset : Nat) (d : Disk) (p : Bytes) (hp : d.part = some p ∨ d.part = none ∧ p = []) :
    Holds (fun d' => d' = { d with part := some p } ∨ (offset ≤ p.length ∧ d' = { d with part := some (p.take offset) })) (At d) (sinkOpen e offset)
      (fun r d' => (d' = d ∨ d' = { d with part := some p } ∨ (offset ≤ p.length ∧ d' = { d with part := some (p.take offset) })) ∧
        (r = .ok () → offset ≤ p.length ∧ d' = { d with part := some (p.take offset) }) ∧
        (p.length < offset → d' = d ∨ d' = { d with part := some p })) := by
  unfold sinkOpen
  have hg : d.part.getD [] = p := by rcases hp with h | ⟨h, rfl⟩ <;> simp [h]
  refine holds_call_bind e _ (fun _ => ?_) (fun _ => ⟨Or.inl rfl, by simp, fun _ => Or.inl rfl⟩)
  by_cases h0 : offset = 0
  · subst h0
    simp only [if_true]
    refine holds_modify_bind (Or.inr ⟨Nat.zero_le _, by simp⟩) ?_
    exact holds_pure _ ⟨Or.inr (Or.inr ⟨Nat.zero_le _, by simp⟩), fun _ => ⟨Nat.zero_le _, by simp⟩, fun h => by omega⟩
  · simp only [h0, if_false]
    refine holds_modify_bind (Or.inl (by rw [hg])) ?_
    rw [hg]
    refine holds_call_bind e _ (fun _ => ?_) (fun _ => ⟨Or.inr (Or.inl rfl), by simp, fun _ => Or.inr rfl⟩)
    refine holds_get_bind ?_
    simp only [Option.getD_some]
    refine holds_bind_fix (fun r d' => (d' = { d with part := some p } ∨ (offset ≤ p.length ∧ d' = { d with part := some (p.take offset) })) ∧
        (r = .ok () → offset ≤ p.length ∧ d' = { d with part := some (p.take offset) }) ∧
        (p.length < offset → d' = { d with part := some p })) ?_ ?_ ?_
    · refine Holds.ite (fun hgt => ?_) (fun hgt => Holds.ite (fun hlt => ?_) (fun hlt => ?_))
      · refine holds_call_bind e _ (fun _ => ?_) (fun _ => ⟨Or.inl rfl, by simp, fun _ => rfl⟩)
        refine holds_modify _ (Or.inr ⟨by omega, rfl⟩) ⟨Or.inr ⟨by omega, rfl⟩, fun _ => ⟨by omega, rfl⟩, fun h => by omega⟩
      · exact holds_fail _ ⟨Or.inl rfl, by simp, fun _ => rfl⟩
      · have he : p.length = offset := by omega
        refine holds_pure _ ⟨Or.inl rfl, fun _ => ⟨by omega, ?_⟩, fun h => by omega⟩
        rw [← he, List.take_length]
    · rintro a s ⟨h1, h2, h3⟩
      have h2 := h2 rfl
      exact holds_call e _ (fun _ => ⟨Or.inr h1, fun _ => h2, fun h => Or.inr (h3 h)⟩) (fun _ => ⟨Or.inr h1, by simp, fun h => Or.inr (h3 h)⟩)
    · rintro x s ⟨h1, h2, h3⟩
      exact ⟨Or.inr h1, by simp, fun h => Or.inr (h3 h)⟩

theorem holds_sinkAppend_any (e : Env) (etag : Str) (offset : Nat) (reads : List Bytes) (ending : End) (d : Disk) (p : Bytes)
    (hp : d.part = some p ∨ d.part = none ∧ p = []) :
    Holds (fun d' => d'.target = d.target ∧ PartDuring d.part offset reads d'.part ∧ SideDuring d.side etag d'.side offset d'.part) (At d)
      (sinkAppend e etag offset reads ending)
      (fun r d' => (d'.target = d.target ∧ PartDuring d.part offset reads d'.part ∧ SideDuring d.side etag d'.side offset d'.part) ∧
        (r = .ok () → offset ≤ p.length ∧ ending = .eof ∧
          d' = { d with part := some (p.take offset ++ reads.flatten), side := if etag = [] then d.side else some etag }) ∧
        (p.length < offset → d' = d ∨ d' = { d with part := some p })) := by
  unfold sinkAppend
  have k1 : PartDuring d.part offset reads (some p) := by
    rcases hp with h | ⟨h, rfl⟩
    · exact Or.inl h.symm
    · exact Or.inr (Or.inl ⟨h, rfl⟩)
  have k2 : ∀ q, offset ≤ p.length → q <+: reads.flatten → PartDuring d.part offset reads (some (p.take offset ++ q)) :=
    fun q h1 h2 => Or.inr (Or.inr ⟨p, q, hp, h1, h2, rfl⟩)
  have k3 : offset ≤ p.length → PartDuring d.part offset reads (some (p.take offset)) := fun h => by simpa using k2 [] h (by simp)
  refine holds_bind_fix _ ((holds_sinkOpen_any e offset d p hp).weaken (fun _ h => h) ?_ (fun r s h => h)) ?_ ?_
  · rintro s (rfl | ⟨h, rfl⟩)
    · exact ⟨rfl, k1, Or.inl rfl⟩
    · exact ⟨rfl, k3 h, Or.inl rfl⟩
  · rintro a s ⟨_, h2, _⟩
    obtain ⟨hle, rfl⟩ := h2 rfl
    have hlen : (p.take offset).length = offset := by simp; omega
    refine holds_bind_fix (fun r d' => (∃ side, d' = { d with part := some (p.take offset), side := side } ∧ (etag = [] → side = d.side)) ∧
        (r = .ok () → d' = { d with part := some (p.take offset), side := if etag = [] then d.side else some etag })) ?_ ?_ ?_
    · refine Holds.ite (fun he => ?_) (fun he => ?_)
      · refine (holds_writeSidecar e etag { d with part := some (p.take offset) }).weaken (fun _ h => h) ?_ ?_
        · rintro s ⟨x, rfl⟩
          exact ⟨rfl, k3 hle, Or.inr (Or.inr ⟨he, _, rfl, hlen⟩)⟩
        · rintro r s ⟨h1, h2⟩
          refine ⟨?_, fun hr => by rw [h2 hr, if_neg he]⟩
          rcases h1 with h | ⟨x, h⟩
          · exact ⟨d.side, h, fun _ => rfl⟩
          · exact ⟨some x, h, fun h0 => absurd h0 he⟩
      · have he : etag = [] := Classical.not_not.mp he
        exact holds_pure _ ⟨⟨d.side, rfl, fun _ => rfl⟩, fun _ => by rw [if_pos he]⟩
    · rintro a s ⟨_, h⟩
      have h := h rfl
      subst h
      have hside : ∀ part, SideDuring d.side etag (if etag = [] then d.side else some etag) offset part := by
        intro part
        by_cases he : etag = []
        · rw [if_pos he]; exact Or.inl rfl
        · rw [if_neg he]; exact Or.inr (Or.inl ⟨he, rfl⟩)
      refine holds_bind_fix _ ((holds_copy e ending reads 0 _ (p.take offset) rfl).weaken (fun _ h => h) ?_ (fun r d' h => h)) ?_ ?_
      · rintro s ⟨q, hq, rfl⟩
        exact ⟨rfl, k2 q hle hq, hside _⟩
      · rintro n s ⟨⟨q, hq, hs⟩, h2⟩
        obtain ⟨_, h4, h5⟩ := h2 n rfl
        have hnow : s.target = d.target ∧ PartDuring d.part offset reads s.part ∧ SideDuring d.side etag s.side offset s.part := by
          subst hs; exact ⟨rfl, k2 q hle hq, hside _⟩
        exact holds_call e _ (fun _ => ⟨hnow, fun _ => ⟨hle, h5, h4⟩, fun h => by omega⟩) (fun _ => ⟨hnow, by simp, fun h => by omega⟩)
      · rintro x s ⟨⟨q, hq, rfl⟩, _⟩
        exact ⟨⟨rfl, k2 q hle hq, hside _⟩, by simp, fun h => by omega⟩
    · rintro x s ⟨⟨side, rfl, hs⟩, _⟩
      refine ⟨⟨rfl, k3 hle, ?_⟩, by simp, fun h => by omega⟩
      by_cases he : etag = []
      · exact Or.inl (hs he)
      · exact Or.inr (Or.inr ⟨he, _, rfl, hlen⟩)
  · rintro x s ⟨h1, _, h3⟩
    refine ⟨?_, by simp, h3⟩
    rcases h1 with rfl | rfl | ⟨h, rfl⟩
    · exact ⟨rfl, Or.inl rfl, Or.inl rfl⟩
    · exact ⟨rfl, k1, Or.inl rfl⟩
    · exact ⟨rfl, k3 h, Or.inl rfl⟩

/-- One append to the sink, on any disk, at any offset, with any faults. It returns nil only when the part file was at least as long as the
offset and now holds its first `offset` bytes followed by all the data, the sidecar holding the ETag given. Whenever it stops, and at every
crash point, the destination is untouched, the part file holds its old content or its first `offset` bytes followed by a beginning of the
data, and data is appended only once the sidecar holds the ETag. An offset past the end of the part file adds nothing and is an error. -/
theorem C27_append (e : Env) (etag : Str) (offset : Nat) (reads : List Bytes) (ending : End) (d : Disk) :
    let run := sinkAppend e etag offset reads ending d
    (∀ d', d' ∈ run.1 ∨ d' = run.2.1 →
      d'.target = d.target ∧ PartDuring d.part offset reads d'.part ∧ SideDuring d.side etag d'.side offset d'.part) ∧
    (run.2.2 = .ok () → ∃ p, (d.part = some p ∨ d.part = none ∧ p = []) ∧ offset ≤ p.length ∧ ending = .eof ∧
      run.2.1 = ⟨d.target, some (p.take offset ++ reads.flatten), if etag = [] then d.side else some etag⟩) ∧
    (∀ p, (d.part = some p ∨ d.part = none ∧ p = []) → p.length < offset →
      run.2.2 ≠ .ok () ∧ (run.2.1 = d ∨ run.2.1 = ⟨d.target, some p, d.side⟩)) := by
  have hex : ∃ p, (d.part = some p ∨ d.part = none ∧ p = []) := by
    cases h : d.part with
    | none => exact ⟨[], Or.inr ⟨rfl, rfl⟩⟩
    | some p => exact ⟨p, Or.inl rfl⟩
  obtain ⟨p, hp⟩ := hex
  have key := (holds_sinkAppend_any e etag offset reads ending d p hp) d rfl
  refine ⟨?_, fun hr => ⟨p, hp, key.2.2.1 hr⟩, ?_⟩
  · rintro d' (h | rfl)
    · exact key.1 d' h
    · exact key.2.1
  · intro p' hp' hlt
    have key' := (holds_sinkAppend_any e etag offset reads ending d p' hp') d rfl
    exact ⟨fun hr => by have := (key'.2.2.1 hr).1; omega, key'.2.2.2 hlt⟩

theorem holds_sinkCommit (e : Env) (d : Disk) (ht : d.target = none) :
    Holds (fun d' => ∃ p, d.part = some p ∧ Committed d p d') (At d) (sinkCommit e)
      (fun r d' => (d' = d ∧ r ≠ .ok ()) ∨ ∃ p, d.part = some p ∧ Committed d p d') := by
  unfold sinkCommit
  refine holds_call_bind e _ (fun _ => ?_) (fun _ => Or.inl ⟨rfl, by simp⟩)
  refine holds_get_bind ?_
  rw [ht]
  rcases hp : d.part with _ | p
  · refine holds_bind_fix (fun r d' => d' = d ∧ r ≠ .ok ()) ?_ ?_ ?_
    · unfold renamePart
      refine holds_call_bind e _ (fun _ => ?_) (fun _ => ⟨rfl, by simp⟩)
      refine holds_get_bind ?_
      rw [hp]
      exact holds_fail _ ⟨rfl, by simp⟩
    · rintro a s ⟨_, h⟩
      exact absurd rfl h
    · rintro x s ⟨rfl, _⟩
      exact Or.inl ⟨rfl, by simp⟩
  · refine holds_bind_fix _ ((holds_renamePart e d p hp).weaken (fun _ h => h) (fun _ h => ⟨p, rfl, h⟩) (fun r s h => h)) ?_ ?_
    · rintro a s (⟨_, h⟩ | ⟨rfl, _⟩)
      · exact absurd rfl h.1
      · refine Holds.ite (fun _ => holds_pure _ ?_) (fun _ => holds_modify _ ?_ ?_)
        · exact Or.inr ⟨p, rfl, rfl, rfl, Or.inl rfl⟩
        · exact ⟨p, rfl, rfl, rfl, Or.inr rfl⟩
        · exact Or.inr ⟨p, rfl, rfl, rfl, Or.inr rfl⟩
    · rintro x s (⟨rfl, _⟩ | ⟨_, h⟩)
      · exact Or.inl ⟨rfl, by simp⟩
      · cases h

/-! ### a push -/

/-- resumable.go 495-501: where the push resumes. -/
def pushOffset (d : Disk) (etag : Str) (size : Nat) : Nat :=
  match d.part with
  | none => 0
  | some p => if p.length > size ∨ (sideTag d ≠ [] ∧ etag ≠ [] ∧ sideTag d ≠ etag) then 0 else p.length

theorem fits_pushOffset (d : Disk) (etag : Str) (size : Nat) : Fits d (pushOffset d etag size) := by
  unfold pushOffset
  split
  · exact Or.inl rfl
  · rename_i p hp
    split
    · exact Or.inl rfl
    · exact Or.inr ⟨p, hp, rfl⟩

/-- The disks of the sink during a push of a file of `size` bytes that reads as `lcl`. -/
inductive Pushing (e : Env) (etag : Str) (size : Nat) (lcl : Nat → List Bytes × End) (d : Disk) : Disk → Prop
  | same : Pushing e etag size lcl d d
  | append {d'} : pushOffset d etag size ≠ size → Appending d (lcl (pushOffset d etag size)).1 (pushOffset d etag size) etag d' →
      Pushing e etag size lcl d d'
  | appended {d'} : pushOffset d etag size ≠ size → (lcl (pushOffset d etag size)).2 = .eof →
      d'.target = some (base d (pushOffset d etag size) ++ (lcl (pushOffset d etag size)).1.flatten) → d'.part = none → Pushing e etag size lcl d d'
  | complete {d' p} : pushOffset d etag size = size → d.part = some p → d'.target = some p → d'.part = none → Pushing e etag size lcl d d'

/-- The sink after a push that returned, when the write of the sidecar did not fail. -/
def Settled (etag : Str) (size : Nat) (lcl : Nat → List Bytes × End) (d d' : Disk) : Prop :=
  d' = d ∨ d'.part = none ∨ (pushOffset d etag size ≠ size ∧ ∃ q, q <+: (lcl (pushOffset d etag size)).1.flatten ∧
    d'.part = some (base d (pushOffset d etag size) ++ q) ∧ (d'.side = sentSide d etag ∨ q = [] ∧ d'.side = d.side))

theorem holds_push (e : Env) (info : Info) (size : Nat) (lcl : Nat → List Bytes × End) (d : Disk) (hd : d.target = none) :
    Holds (Pushing e info.etag size lcl d) (At d) (push e info size lcl)
      (fun r d' => Pushing e info.etag size lcl d d' ∧ (r = .ok () → d'.target ≠ none) ∧
        (e.sideWr.2 = true → Settled info.etag size lcl d d')) := by
  unfold push
  refine holds_call_bind e _ (fun _ => ?_) (fun _ => ⟨.same, by simp, fun _ => Or.inl rfl⟩)
  refine holds_call_bind e _ (fun _ => ?_) (fun _ => ⟨.same, by simp, fun _ => Or.inl rfl⟩)
  refine Holds.ite (fun _ => holds_fail _ ⟨.same, by simp, fun _ => Or.inl rfl⟩) (fun _ => ?_)
  refine holds_bind_fix _ (holds_sinkState e d) ?_ ?_
  · rintro st s ⟨rfl, hst⟩
    have hst := hst st rfl
    rcases hst with ⟨t, ht, _⟩ | ⟨_, hc, hst⟩
    · rw [hd] at ht; cases ht
    rw [if_neg (by rw [hc]; simp)]
    have hoff : (if (st.offset > size) ∨ (st.etag ≠ [] ∧ info.etag ≠ [] ∧ st.etag ≠ info.etag) then 0 else st.offset) = pushOffset s info.etag size := by
      unfold pushOffset
      rcases hst with ⟨hp, h1, h2⟩ | ⟨p, hp, h1, h2⟩
      · rw [hp, h1, h2]; simp
      · rw [hp, h1, h2]
    simp only [hoff]
    have hfit := fits_pushOffset s info.etag size
    refine Holds.ite (fun h0 => ?_) (fun h0 => ?_)
    · refine (holds_sinkCommit e s hd).weaken (fun _ h => h) ?_ ?_
      · rintro d' ⟨p, hp, h1, h2, _⟩
        exact .complete h0 hp h1 h2
      · rintro r d' (⟨rfl, hr⟩ | ⟨p, hp, h1, h2, _⟩)
        · exact ⟨.same, fun h => absurd h hr, fun _ => Or.inl rfl⟩
        · exact ⟨.complete h0 hp h1 h2, fun _ => by rw [h1]; simp, fun _ => Or.inr (Or.inl h2)⟩
    · refine holds_bind_fix (fun _ d' => d' = s) ?_ ?_ ?_
      · exact Holds.ite (fun _ => holds_call' e _) (fun _ => holds_pure _ rfl)
      · rintro a s' rfl
        refine holds_bind_fix _ ((holds_sinkAppend e info.etag (pushOffset s' info.etag size) _ _ s' hfit).weaken (fun _ h => h)
          (fun d' h => .append h0 h) (fun r d' h => h)) ?_ ?_
        · rintro a s ⟨_, _, h3⟩
          obtain ⟨rfl, hend⟩ := h3 rfl
          refine (holds_sinkCommit e { s' with part := some (base s' (pushOffset s' info.etag size) ++ (lcl (pushOffset s' info.etag size)).1.flatten), side := sentSide s' info.etag } hd).weaken (fun _ h => h) ?_ ?_
          · rintro d' ⟨p, hp, h1, h2, _⟩
            cases hp
            exact .appended h0 hend h1 h2
          · rintro r d' (⟨rfl, hr⟩ | ⟨p, hp, h1, h2, _⟩)
            · refine ⟨.append h0 ⟨rfl, _, List.prefix_refl _, rfl, Or.inl rfl⟩, fun h => absurd h hr, fun _ => Or.inr (Or.inr ?_)⟩
              exact ⟨h0, _, List.prefix_refl _, rfl, Or.inl rfl⟩
            · cases hp
              exact ⟨.appended h0 hend h1 h2, fun _ => by rw [h1]; simp, fun _ => Or.inr (Or.inl h2)⟩
        · rintro x s ⟨h1, h2, _⟩
          refine ⟨?_, by simp, fun hsw => ?_⟩
          · rcases h1 with rfl | h1
            · exact .same
            · exact .append h0 h1
          · rcases h2 hsw with h | ⟨q, h3, h4, _, h5⟩
            · exact Or.inl h
            · exact Or.inr (Or.inr ⟨h0, q, h3, h4, h5⟩)
      · rintro x s' rfl
        exact ⟨.same, by simp, fun _ => Or.inl rfl⟩
  · rintro x s ⟨rfl, _⟩
    exact ⟨.same, by simp, fun _ => Or.inl rfl⟩

theorem holds_push_existing (e : Env) (info : Info) (size : Nat) (lcl : Nat → List Bytes × End) (d : Disk) (t : Bytes) (hd : d.target = some t) :
    Holds (fun _ => False) (At d) (push e info size lcl) (fun _ d' => d' = d) := by
  unfold push
  refine holds_call_bind e _ (fun _ => ?_) (fun _ => rfl)
  refine holds_call_bind e _ (fun _ => ?_) (fun _ => rfl)
  refine Holds.ite (fun _ => holds_fail _ rfl) (fun _ => ?_)
  refine holds_bind_fix _ (holds_sinkState e d) ?_ (fun x s h => h.1)
  rintro st s ⟨rfl, hst⟩
  rcases hst st rfl with ⟨t, _, hc⟩ | ⟨h, _⟩
  · rw [if_pos hc]
    exact holds_pure _ rfl
  · rw [hd] at h; cases h

/-! ### C27: an unchanged file -/

/-- Reading the local file, whose content is `S`, from any offset: a part of the rest, all of it when the reading ends well. -/
def Reads (S : Bytes) (lcl : Nat → List Bytes × End) : Prop := ∀ off,
  (lcl off).1.flatten <+: S.drop off ∧ ((lcl off).2 = .eof → (lcl off).1.flatten = S.drop off)

theorem push_base {S : Bytes} {d : Disk} (hd : PrefixOf S d) (etag : Str) :
    base d (pushOffset d etag S.length) <+: S ∧ (base d (pushOffset d etag S.length)).length = pushOffset d etag S.length := by
  unfold base
  split
  · rename_i h; exact ⟨List.nil_prefix, by rw [h]; rfl⟩
  · rename_i h
    rcases fits_pushOffset d etag S.length with h1 | ⟨p, hp, h1⟩
    · exact absurd h1 h
    · rw [hp]; exact ⟨hd.1 p hp, h1.symm⟩

theorem pushing_prefix {S : Bytes} (hS : S ≠ []) {e : Env} {etag : Str} {lcl : Nat → List Bytes × End} {d d' : Disk} (hl : Reads S lcl)
    (hd : PrefixOf S d) (ht : d.target = none) (h : Pushing e etag S.length lcl d d') : PrefixOf S d' := by
  obtain ⟨hb, hbl⟩ := push_base hd etag
  cases h with
  | same => exact hd
  | append h0 h =>
    obtain ⟨h1, q, hq, hp, _⟩ := h
    refine ⟨?_, Or.inl (by rw [h1]; exact ht)⟩
    intro p' hp'
    rw [hp] at hp'; cases hp'
    exact prefix_append_drop hb (by rw [hbl]; exact hq.trans (hl _).1)
  | appended h0 hend h1 h2 =>
    refine ⟨(by intro p hp; rw [h2] at hp; cases hp), Or.inr ?_⟩
    rw [h1, (hl _).2 hend]
    conv => rhs; rw [← List.take_append_drop (pushOffset d etag S.length) S]
    congr 2
    conv => rhs; rw [← hbl]
    exact List.prefix_iff_eq_take.1 hb
  | @complete _ p h0 hp h1 h2 =>
    refine ⟨(by intro p hp; rw [h2] at hp; cases hp), Or.inr ?_⟩
    rw [h1]
    congr 1
    have hlen : 0 < S.length := List.length_pos_iff.2 hS
    have : p.length = S.length := by
      unfold pushOffset at h0
      rw [hp] at h0
      simp only at h0
      split at h0
      · omega
      · exact h0
    exact (hd.1 p hp).eq_of_length this

theorem push_prefix {S : Bytes} (hS : S ≠ []) (e : Env) (info : Info) (lcl : Nat → List Bytes × End) (hl : Reads S lcl) :
    Holds (PrefixOf S) (PrefixOf S) (push e info S.length lcl) (fun r d' => PrefixOf S d' ∧ (r = .ok () → d'.target = some S)) := by
  refine Holds.fix ?_
  intro d hd
  rcases ht : d.target with _ | t
  · refine (holds_push e info S.length lcl d ht).weaken (fun _ h => h) (fun d' h => pushing_prefix hS hl hd ht h) ?_
    rintro r d' ⟨h1, h2, _⟩
    have h3 := pushing_prefix hS hl hd ht h1
    refine ⟨h3, fun hr => ?_⟩
    rcases h3.2 with h | h
    · exact absurd h (h2 hr)
    · exact h
  · refine (holds_push_existing e info S.length lcl d t ht).weaken (fun _ h => h) (fun _ h => h.elim) ?_
    rintro r d' rfl
    refine ⟨hd, fun _ => ?_⟩
    rcases hd.2 with h | h
    · rw [ht] at h; cases h
    · exact h

/-- All pushes of the content `S`. -/
def PushesOf (S : Bytes) (m : P Unit) : Prop := ∃ e info lcl, Reads S lcl ∧ m = push e info S.length lcl

/-- **C27** (for a file that is not empty and does not change) After any history of pushes, killed or failed anywhere, the sink's partial is a
prefix of the file and its committed content, if any, is the file. -/
theorem C27_history_partial {S : Bytes} (hS : S ≠ []) {d0 d : Disk} (h0 : d0.target = none ∧ d0.part = none) (h : Reach (PushesOf S) d0 d) :
    (∀ p, d.part = some p → p <+: S) ∧ (d.target = none ∨ d.target = some S) := by
  refine h.inv (I := PrefixOf S) ⟨?_, Or.inl h0.1⟩ ?_
  · intro p hp; rw [h0.2] at hp; cases hp
  · rintro m ⟨e, info, lcl, hl, rfl⟩
    exact (push_prefix hS e info lcl hl).weaken (fun _ h => h) (fun _ h => h) (fun _ _ h => h.1)

/-- **C27** A push that returns success after any such history has committed exactly the file. -/
theorem C27_success_partial {S : Bytes} (hS : S ≠ []) {d0 d : Disk} (h0 : d0.target = none ∧ d0.part = none) (h : Reach (PushesOf S) d0 d)
    (e : Env) (info : Info) (lcl : Nat → List Bytes × End) (hl : Reads S lcl) (hok : result (push e info S.length lcl) d = .ok ()) :
    (final (push e info S.length lcl) d).target = some S :=
  ((push_prefix hS e info lcl hl) d (C27_history_partial hS h0 h)).2.2 hok

/-! ### C27: convergence -/

theorem call_final (e : Env) (op : Op) (d : Disk) : (call e op d).2.1 = d := by unfold call; split <;> rfl

theorem succeeds_sinkState {e : Env} {n : Nat} (h : NoFault e n) (d : Disk) : Succeeds (sinkState e) d := by
  unfold sinkState
  refine (succeeds_call h _ _).bind (fun _ _ => (succeeds_get _).bind (fun d' _ => ?_))
  split
  · exact succeeds_pure _ _
  · refine (succeeds_call h _ _).bind (fun _ _ => ?_)
    split
    · exact succeeds_pure _ _
    · exact (succeeds_readSidecar h _).bind (fun _ _ => succeeds_pure _ _)

theorem succeeds_sinkCommit {e : Env} {n : Nat} (h : NoFault e n) (d : Disk) (hp : d.target = none → d.part ≠ none) : Succeeds (sinkCommit e) d := by
  unfold sinkCommit
  refine (succeeds_call h _ _).bind (fun _ _ => ?_)
  rw [call_final]
  refine (succeeds_get d).bind ?_
  intro d' hd'
  cases hd'
  show Succeeds (match d.target with | some _ => _ | none => _) d
  cases ht : d.target with
  | some t =>
    refine Succeeds.bind ?_ (fun _ _ => ?_)
    · show Succeeds (match d.part with | none => _ | some _ => _) d
      split
      · exact succeeds_pure _ _
      · exact (succeeds_call h _ _).bind (fun _ _ => succeeds_modify _ _)
    · split
      · exact succeeds_pure _ _
      · exact succeeds_modify _ _
  | none =>
    refine Succeeds.bind ?_ (fun _ _ => ?_)
    · unfold renamePart
      refine (succeeds_call h _ _).bind (fun _ _ => ?_)
      rw [call_final]
      refine (succeeds_get d).bind ?_
      intro d' hd'
      cases hd'
      show Succeeds (match d.part with | none => _ | some p => _) d
      cases hpp : d.part with
      | none => exact absurd hpp (hp ht)
      | some p => exact succeeds_modify _ _
    · split
      · exact succeeds_pure _ _
      · exact succeeds_modify _ _

theorem succeeds_sinkOpen {e : Env} {n : Nat} (h : NoFault e n) (offset : Nat) (d : Disk) (hfit : offset ≤ (d.part.getD []).length) :
    Succeeds (sinkOpen e offset) d := by
  unfold sinkOpen
  refine (succeeds_call h _ _).bind (fun _ _ => ?_)
  rw [call_final]
  refine (succeeds_modify _ _).bind (fun _ _ => ?_)
  by_cases h0 : offset = 0
  · rw [if_pos h0]; exact succeeds_pure _ _
  · rw [if_neg h0]
    refine (succeeds_call h _ _).bind (fun _ _ => ?_)
    rw [call_final]
    refine (succeeds_get _).bind ?_
    intro d' hd'
    cases hd'
    refine Succeeds.bind ?_ (fun _ _ => succeeds_call h _ _)
    generalize hD : (Prog.modify (ε := Err) (fun d : Disk => { d with part := if offset = 0 then some [] else some (d.part.getD []) }) d).2.1 = D
    have hl : offset ≤ (D.part.getD []).length := by
      rw [← hD]
      show offset ≤ ((if offset = 0 then some [] else some (d.part.getD [])).getD []).length
      rw [if_neg h0]; exact hfit
    by_cases hgt : (D.part.getD []).length > offset
    · rw [if_pos hgt]
      exact (succeeds_call h _ _).bind (fun _ _ => succeeds_modify _ _)
    · rw [if_neg hgt, if_neg (by omega)]
      exact succeeds_pure _ _

theorem succeeds_sinkAppend {e : Env} {n : Nat} (h : NoFault e n) (etag : Str) (offset : Nat) (reads : List Bytes) (d : Disk)
    (hfit : offset ≤ (d.part.getD []).length) (hlen : reads.flatten.length ≤ n) : Succeeds (sinkAppend e etag offset reads .eof) d := by
  unfold sinkAppend
  refine (succeeds_sinkOpen h offset d hfit).bind (fun _ _ => Succeeds.bind ?_ (fun _ _ => (succeeds_copy h _ _ _ hlen).bind (fun _ _ => succeeds_call h _ _)))
  split
  · exact succeeds_writeSidecar h _ _
  · exact succeeds_pure _ _

/-- **C27** An append at or before the end of the part file succeeds when no call fails. -/
theorem C27_append_succeeds {e : Env} (etag : Str) (offset : Nat) (reads : List Bytes) (d : Disk) (p : Bytes) (hp : d.part = some p ∨ d.part = none ∧ p = [])
    (h : NoFault e reads.flatten.length) (hle : offset ≤ p.length) : (sinkAppend e etag offset reads .eof d).2.2 = .ok () := by
  have hg : d.part.getD [] = p := by rcases hp with h | ⟨h, rfl⟩ <;> simp [h]
  obtain ⟨a, ha⟩ := succeeds_sinkAppend h etag offset reads d (by rw [hg]; exact hle) (Nat.le_refl _)
  exact ha

theorem push_converges {S : Bytes} (hS : S ≠ []) {d : Disk} (hd : PrefixOf S d)
    (e : Env) (info : Info) (hi : info.size = none ∨ info.size = some S.length) (lcl : Nat → List Bytes × End) (hl : Reads S lcl)
    (hf : NoFault e S.length) (hend : (lcl (pushOffset d info.etag S.length)).2 = .eof) :
    result (push e info S.length lcl) d = .ok () ∧ (final (push e info S.length lcl) d).target = some S := by
  have hsucc : Succeeds (push e info S.length lcl) d := by
    unfold push
    refine (succeeds_call hf _ _).bind (fun _ _ => ?_)
    rw [call_final]
    refine (succeeds_call hf _ _).bind (fun _ _ => ?_)
    rw [call_final]
    rw [if_neg (by rcases hi with h | h <;> rw [h] <;> simp)]
    refine (succeeds_sinkState hf d).bind ?_
    intro st hst
    have hs := (holds_sinkState e d (I := fun _ => True)) d rfl
    rw [hs.2.1]
    rcases hs.2.2 st hst with ⟨t, ht, hc⟩ | ⟨ht, hc, hrep⟩
    · rw [if_pos hc]; exact succeeds_pure _ _
    · rw [if_neg (by rw [hc]; simp)]
      have hoff : (if (st.offset > S.length) ∨ (st.etag ≠ [] ∧ info.etag ≠ [] ∧ st.etag ≠ info.etag) then 0 else st.offset)
          = pushOffset d info.etag S.length := by
        unfold pushOffset
        rcases hrep with ⟨hp, h1, h2⟩ | ⟨p, hp, h1, h2⟩
        · rw [hp, h1, h2]; simp
        · rw [hp, h1, h2]
      simp only [hoff]
      have hfit := fits_pushOffset d info.etag S.length
      split
      · rename_i hfull
        refine succeeds_sinkCommit hf d (fun _ hp => ?_)
        unfold pushOffset at hfull
        rw [hp] at hfull
        exact absurd hfull (by have := List.length_pos_iff.2 hS; simp; omega)
      · refine Succeeds.bind ?_ (fun _ _ => ?_)
        · split
          · exact succeeds_call hf _ _
          · exact succeeds_pure _ _
        · have hseek : ((if pushOffset d info.etag S.length > 0 then call e .seekLocal else Pure.pure ()) d).2.1 = d := by
            split
            · exact call_final _ _ _
            · rfl
          rw [hseek, hend]
          have hlen : (lcl (pushOffset d info.etag S.length)).1.flatten.length ≤ S.length := by
            rw [(hl _).2 hend, List.length_drop]; omega
          refine (succeeds_sinkAppend hf info.etag _ _ d (by rcases hfit with h | ⟨q, hq, h⟩ <;> simp [*]) hlen).bind (fun a ha => ?_)
          have := ((holds_sinkAppend e info.etag _ (lcl (pushOffset d info.etag S.length)).1 .eof d hfit) d rfl).2.2.2 ha
          rw [this.1]
          exact succeeds_sinkCommit hf _ (fun _ => by simp)
  obtain ⟨a, ha⟩ := hsucc
  have hok : result (push e info S.length lcl) d = .ok () := ha
  exact ⟨hok, ((push_prefix hS e info lcl hl) d hd).2.2 hok⟩

/-- **C27** After any history of interrupted pushes, one push without failures commits the file; it reads it from the sink's offset only. -/
theorem C27_converges_partial {S : Bytes} (hS : S ≠ []) {d0 d : Disk} (h0 : d0.target = none ∧ d0.part = none) (h : Reach (PushesOf S) d0 d)
    (e : Env) (info : Info) (hi : info.size = none ∨ info.size = some S.length) (lcl : Nat → List Bytes × End) (hl : Reads S lcl)
    (hf : NoFault e S.length) (hend : (lcl (pushOffset d info.etag S.length)).2 = .eof) :
    result (push e info S.length lcl) d = .ok () ∧ (final (push e info S.length lcl) d).target = some S :=
  push_converges hS (C27_history_partial hS h0 h) e info hi lcl hl hf hend

/-! ### C27: a file that changes between pushes -/

/-- Pushes of versions with ETags: `contentOf t` is the content with the ETag `t`; no write of a sidecar fails. -/
def VersionPush (V : Str → Prop) (contentOf : Str → Bytes) (e : Env) (info : Info) (size : Nat) (lcl : Nat → List Bytes × End) : Prop :=
  V info.etag ∧ info.etag ≠ [] ∧ trimSpace info.etag = info.etag ∧ contentOf info.etag ≠ [] ∧ size = (contentOf info.etag).length ∧
    Reads (contentOf info.etag) lcl ∧ e.sideWr.2 = true

/-- The states between pushes of versions: every push returned (with or without an error). -/
inductive Between (V : Str → Prop) (contentOf : Str → Bytes) (d0 : Disk) : Disk → Prop
  | start : Between V contentOf d0 d0
  | push {d e info size lcl} : Between V contentOf d0 d → VersionPush V contentOf e info size lcl →
      Between V contentOf d0 (final (push e info size lcl) d)

theorem marked_base {C : Str → Bytes} {d : Disk} (hM : Marked C d) {etag : Str} (he : etag ≠ []) (size : Nat) :
    base d (pushOffset d etag size) <+: C etag ∧ (base d (pushOffset d etag size)).length = pushOffset d etag size ∧
      (base d (pushOffset d etag size) ≠ [] → sideTag d = etag) := by
  unfold base
  split
  · rename_i h; exact ⟨List.nil_prefix, by rw [h]; rfl, fun h => absurd rfl h⟩
  · rename_i h
    unfold pushOffset at h ⊢
    rcases hp : d.part with _ | p
    · rw [hp] at h; exact absurd rfl h
    · rw [hp] at h
      simp only at h ⊢
      split at h
      · exact absurd rfl h
      · rename_i hc
        rw [if_neg hc]
        have hne : p ≠ [] := by rintro rfl; exact h rfl
        obtain ⟨h1, h2⟩ := hM p hp hne
        have : sideTag d = etag := by
          by_cases h3 : sideTag d = etag
          · exact h3
          · exact absurd (Or.inr ⟨h1, he, h3⟩) hc
        rw [← this]
        exact ⟨h2, rfl, fun _ => rfl⟩

theorem version_push {V : Str → Prop} {C : Str → Bytes} {e : Env} {info : Info} {size : Nat} {lcl : Nat → List Bytes × End} {d : Disk}
    (hv : VersionPush V C e info size lcl) (hM : Marked C d) (hV : OneVersion V C d) :
    Marked C (final (push e info size lcl) d) ∧ OneVersion V C (final (push e info size lcl) d) ∧
      (d.target = none → result (push e info size lcl) d = .ok () → (final (push e info size lcl) d).target = some (C info.etag)) := by
  obtain ⟨hVt, hne, htrim, hC, rfl, hl, hsw⟩ := hv
  rcases ht : d.target with _ | t
  case some =>
    have := (holds_push_existing e info (C info.etag).length lcl d t ht d rfl).2
    unfold final
    rw [this]
    exact ⟨hM, hV, fun h => by cases h⟩
  case none =>
    obtain ⟨_, h1, h2, h3⟩ := holds_push e info (C info.etag).length lcl d ht d rfl
    have h3 := h3 hsw
    obtain ⟨hb, hbl, hbt⟩ := marked_base hM hne (C info.etag).length
    have htgt : (final (push e info (C info.etag).length lcl) d).target = none ∨
        (final (push e info (C info.etag).length lcl) d).target = some (C info.etag) := by
      unfold final
      generalize (push e info (C info.etag).length lcl d).2.1 = d' at h1
      cases h1 with
      | same => exact Or.inl ht
      | append _ h => exact Or.inl (h.1.trans ht)
      | appended h0 hend h4 h5 =>
        right
        rw [h4, (hl _).2 hend]
        conv => rhs; rw [← List.take_append_drop (pushOffset d info.etag (C info.etag).length) (C info.etag)]
        congr 2
        conv => rhs; rw [← hbl]
        exact List.prefix_iff_eq_take.1 hb
      | @complete _ p h0 hp h4 h5 =>
        right
        rw [h4]
        congr 1
        have hlen : 0 < (C info.etag).length := List.length_pos_iff.2 hC
        have hbp : base d (pushOffset d info.etag (C info.etag).length) = p := by
          unfold base
          rw [if_neg (by omega), hp]; rfl
        rw [hbp] at hb hbl
        exact hb.eq_of_length (by omega)
    refine ⟨?_, ?_, ?_⟩
    · intro p hp hpne
      unfold final at hp ⊢
      rcases h3 with h3 | h3 | ⟨_, q, hq, h4, h5⟩
      · rw [h3] at hp ⊢; exact hM p hp hpne
      · rw [h3] at hp; cases hp
      · rw [h4] at hp; cases hp
        have hside : sideTag (push e info (C info.etag).length lcl d).2.1 = info.etag := by
          rcases h5 with h5 | ⟨hq0, h5⟩
          · unfold sideTag
            rw [h5]
            unfold sentSide
            rw [if_pos hne]
            exact htrim
          · subst hq0
            rw [List.append_nil] at hpne
            have := hbt hpne
            unfold sideTag at this ⊢
            rw [h5]
            exact this
        rw [hside]
        exact ⟨hne, prefix_append_drop hb (by rw [hbl]; exact hq.trans (hl _).1)⟩
    · rcases htgt with h | h
      · exact Or.inl h
      · exact Or.inr ⟨_, hVt, h⟩
    · intro _ hr
      rcases htgt with h | h
      · exact absurd h (h2 hr)
      · exact h

/-- **C27** (versions with ETags; every push returned, and no write of a sidecar failed) The sink's committed content is a whole version, and a push that returns success to a
sink that had committed nothing has committed the version it was given. What is missing: kills while the sidecar is rewritten, see
`C27_counterexample_sidecar_rewrite`, and empty files. -/
theorem C27_versions_partial {V : Str → Prop} {contentOf : Str → Bytes} {d0 d : Disk} (h0 : d0.target = none ∧ d0.part = none)
    (h : Between V contentOf d0 d) :
    (d.target = none ∨ ∃ t, V t ∧ d.target = some (contentOf t)) ∧
    ∀ e info size lcl, VersionPush V contentOf e info size lcl → d.target = none → result (push e info size lcl) d = .ok () →
      (final (push e info size lcl) d).target = some (contentOf info.etag) := by
  have hinv : Marked contentOf d ∧ OneVersion V contentOf d := by
    induction h with
    | start => exact ⟨(by intro p hp; rw [h0.2] at hp; cases hp), Or.inl h0.1⟩
    | push _ hv ih => exact ⟨(version_push hv ih.1 ih.2).1, (version_push hv ih.1 ih.2).2.1⟩
  exact ⟨hinv.2, fun e info size lcl hv => (version_push hv hinv.1 hinv.2).2.2⟩

/-! ### the hypotheses are met, and needed -/

/-- Pushing `content`, of which only `n` bytes can be read before an error. -/
def demoLocal (content : Bytes) (n : Nat) : Nat → List Bytes × End := fun off =>
  ([(content.drop off).take n], if off + n ≥ content.length then .eof else .err)

theorem demo_reads (S : Bytes) (n : Nat) : Reads S (demoLocal S n) := by
  intro off
  unfold demoLocal
  refine ⟨by simp [List.take_prefix], ?_⟩
  intro h
  simp only [List.flatten_cons, List.flatten_nil, List.append_nil]
  split at h
  · exact List.take_of_length_le (by simp; omega)
  · cases h

def quietEnv : Env where
  fail := fun _ => false
  src := fun _ _ => none
  wr := fun _ => (100, true)
  sideWr := (0, true)
  hooks := 0
  accept := fun _ _ => true

/-- an interrupted push and one that completes it -/
example : ∃ d, Reach (PushesOf [1, 2, 3]) ⟨none, none, none⟩ d ∧ d.target = some [1, 2, 3] :=
  ⟨_, Reach.done (Reach.crash (t := ⟨none, some [1], some ['a']⟩) Reach.start
      ⟨quietEnv, ⟨['a'], none⟩, demoLocal [1, 2, 3] 1, demo_reads _ _, rfl⟩ (by decide))
    ⟨quietEnv, ⟨['a'], none⟩, demoLocal [1, 2, 3] 9, demo_reads _ _, rfl⟩, by decide⟩

example : VersionPush (fun _ => True) demoContent quietEnv ⟨['a'], none⟩ 3 (demoLocal [1, 2, 3] 1) :=
  ⟨trivial, by decide, by decide, by decide, rfl, demo_reads _ _, rfl⟩

/-- an append that shortens the part file first, one past its end, and one that loses its connection -/
example : (sinkAppend quietEnv ['a'] 2 [[9], [8]] .eof ⟨none, some [1, 2, 3, 4], none⟩).2.1 = ⟨none, some [1, 2, 9, 8], some ['a']⟩ ∧
    (sinkAppend quietEnv ['a'] 5 [[9]] .eof ⟨none, some [1, 2], none⟩).2.1 = ⟨none, some [1, 2], none⟩ ∧
    (sinkAppend quietEnv [] 1 [[9]] .err ⟨none, some [1, 2], none⟩).2.1 = ⟨none, some [1, 9], none⟩ := by decide

/-- **C27** fails for an empty file: the push never succeeds on a fresh sink. -/
theorem C27_counterexample_empty_file :
    result (push quietEnv ⟨[], none⟩ 0 (demoLocal [] 9)) ⟨none, none, none⟩ = .error .renameNotExist := rfl

/-- **C27** fails for an empty file when the sink holds a partial of something else: the push returns success and the sink has committed the
partial. -/
theorem C27_counterexample_empty_over_partial :
    (result (push quietEnv ⟨['b'], none⟩ 0 (demoLocal [] 9)) ⟨none, some [1], some ['a']⟩).toOption = some () ∧
    (final (push quietEnv ⟨['b'], none⟩ 0 (demoLocal [] 9)) ⟨none, some [1], some ['a']⟩).target = some [1] := by decide

/-- **C27** fails for a file that changes when a resumed push is killed while it rewrites the (unchanged) sidecar: the next push resumes behind bytes of the old
version and returns success. -/
theorem C27_counterexample_sidecar_rewrite :
    let d1 := final (push quietEnv ⟨['a'], none⟩ 3 (demoLocal [1, 2, 3] 1)) ⟨none, none, none⟩
    let d2 : Disk := ⟨none, some [1], some []⟩
    d2 ∈ crashes (push quietEnv ⟨['a'], none⟩ 3 (demoLocal [1, 2, 3] 1)) d1 ∧
    (result (push quietEnv ⟨['b'], none⟩ 2 (demoLocal [7, 8] 9)) d2).toOption = some () ∧
    (final (push quietEnv ⟨['b'], none⟩ 2 (demoLocal [7, 8] 9)) d2).target = some [1, 8] := by decide

/-- **C27** fails for a file that is shortened while it is pushed (3 bytes when asked for its size, 1 when read): the push returns success and the sink has committed 1 byte.
The bytes sent are never counted. -/
theorem C27_counterexample_shrinks :
    (result (push quietEnv ⟨['a'], some 3⟩ 3 (fun off => ([[1].drop off], .eof))) ⟨none, none, none⟩).toOption = some () ∧
    (final (push quietEnv ⟨['a'], some 3⟩ 3 (fun off => ([[1].drop off], .eof))) ⟨none, none, none⟩).target = some [1] := by decide

/-- What the sink has committed before is never compared, as documented: whatever the file holds, the push returns success and changes nothing. -/
theorem C27_note_complete (info : Info) (size : Nat) (hi : info.size.any (fun n => n ≠ size) = false) (lcl : Nat → List Bytes × End) (t : Bytes) :
    (result (push quietEnv info size lcl) ⟨some t, none, none⟩).toOption = some () ∧ (final (push quietEnv info size lcl) ⟨some t, none, none⟩).target = some t := by
  unfold push
  simp only [hi, if_false, Bool.false_eq_true]
  exact ⟨rfl, rfl⟩

/-- The hypothesis of `C27_note_complete` holds of a size that is not given and of the right one. -/
example : (none : Option Nat).any (fun n => n ≠ 2) = false ∧ (some 2).any (fun n => n ≠ 2) = false := by decide

/-- Without ETags, a partial of another file with as many bytes as this one is committed as it is. -/
theorem C27_counterexample_same_length :
    (result (push quietEnv ⟨[], some 2⟩ 2 (demoLocal [7, 8] 9)) ⟨none, some [1, 2], none⟩).toOption = some () ∧
    (final (push quietEnv ⟨[], some 2⟩ 2 (demoLocal [7, 8] 9)) ⟨none, some [1, 2], none⟩).target = some [1, 2] := by decide

end Verif.Fsutil.Pull
