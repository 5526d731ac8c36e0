import Verif.Stream.ChunkProps
/-
C132: several uploads of one object at once, /repo/stream/fileserver/chunk.go 199-301 (`State`, `Append`), one call of the client at a time.

Each uploader asks the state and, unless it is complete, opens the local object at the offset and appends, as the sequential `runSession` (C11) does in one go; what others do comes
in between any two calls of the client. A `Stat` and a `Put` are atomic on the server (client.go 41-46: partial writes must not become visible); that they may fail, with or without
having happened, is part of the model.
-/
namespace Verif.Stream.Chunk.Conc
open Verif Verif.Stream.Chunk

/-! ### Model -/

/-- Where an uploader is. -/
inductive Phase where
  | idle
  /-- in `State`, about to probe chunk `i` -/
  | stat (i : Nat)
  /-- in `Append`, about to read and put chunk `i` -/
  | put (i : Nat)
  /-- `State` said complete -/
  | complete
  /-- `Append` returned nil -/
  | stored
  | failed
deriving DecidableEq

/-- What happens to a call. -/
inductive Outcome where
  | ok
  /-- the call of the client fails, or reading the local object does; nothing has happened -/
  | fail
  /-- the answer is lost, but the chunk is stored -/
  | failWritten
  /-- the first `k` bytes of the chunk become visible, against the contract of the client -/
  | failPartial (k : Nat)
  /-- the local object ends, without an error, `k` bytes into the chunk -/
  | sourceEnds (k : Nat)
deriving DecidableEq

def store1 (store : Store) (i : Nat) (b : Bytes) : Store := fun j => if j = i then some b else store j

/-- One call of the client by one uploader: chunk.go 203-221 in `State`, 250-299 in `Append`. An uploader that is through may begin anew. -/
def step (content : Bytes) (cs : Nat) (o : Outcome) : Phase → Store → Phase × Store
  | .idle, store => (.stat 0, store)
  | .stat i, store =>
    if i = chunkCount content.length cs then (.complete, store)
    else if o ≠ .ok then (.failed, store)
    else match store i with
      | none => (.put i, store)
      | some b => if b.length ≠ expectedChunkSize i content.length cs then (.put i, store) else (.stat (i + 1), store)
  | .put i, store =>
    if i = chunkCount content.length cs then (.stored, store)
    else
      let piece := (content.drop (i * cs)).take (expectedChunkSize i content.length cs)
      match o with
      | .ok => (.put (i + 1), store1 store i piece)
      | .fail => (.failed, store)
      | .failWritten => (.failed, store1 store i piece)
      | .failPartial k => (.failed, store1 store i (piece.take k))
      | .sourceEnds k =>
        if (piece.take k).length < expectedChunkSize i content.length cs ∧ i < chunkCount content.length cs - 1 then (.failed, store)
        else (.put (i + 1), store1 store i (piece.take k))
  | .complete, store => (.idle, store)
  | .stored, store => (.idle, store)
  | .failed, store => (.idle, store)

structure World where
  phase : Nat → Phase
  store : Store

def init (store : Store) : World := { phase := fun _ => .idle, store := store }

/-- Uploader `t` makes its next call. -/
def move (content : Bytes) (cs : Nat) (w : World) (e : Nat × Outcome) : World :=
  let r := step content cs e.2 (w.phase e.1) w.store
  { phase := fun t => if t = e.1 then r.1 else w.phase t, store := r.2 }

def run (content : Bytes) (cs : Nat) (w : World) (es : List (Nat × Outcome)) : World := es.foldl (move content cs) w

/-! ### Specification -/

/-- The server keeps its contract, and local objects are there in full or fail. -/
def Kept (es : List (Nat × Outcome)) : Prop := ∀ e ∈ es, e.2 = .ok ∨ e.2 = .fail ∨ e.2 = .failWritten

/-! ### Invariant -/

structure Inv (content : Bytes) (cs : Nat) (w : World) : Prop where
  ok : StoreOK content cs w.store
  stat : ∀ t i, w.phase t = .stat i → i ≤ chunkCount content.length cs ∧ PrefixStored content cs w.store i
  put : ∀ t i, w.phase t = .put i → i ≤ chunkCount content.length cs ∧ PrefixStored content cs w.store i
  through : ∀ t, w.phase t = .complete ∨ w.phase t = .stored → PrefixStored content cs w.store (chunkCount content.length cs)

theorem piece_eq (content : Bytes) (cs i : Nat) (hcs : 0 < cs) (hi : i < chunkCount content.length cs) :
    (content.drop (i * cs)).take (expectedChunkSize i content.length cs) = chunkOf content cs i := by
  have h := chunkOf_length content cs i hcs hi
  have hp : (content.drop (i * cs)).take (expectedChunkSize i content.length cs) <+: chunkOf content cs i := by
    rw [chunkOf, slice]
    have : expectedChunkSize i content.length cs ≤ cs := by
      rw [← h, chunkOf, slice]
      simp
      omega
    exact List.take_prefix_take_left this
  refine hp.eq_of_length ?_
  rw [h, List.length_take]
  have : (chunkOf content cs i).length ≤ (content.drop (i * cs)).length := by
    rw [chunkOf, slice, List.length_take]
    omega
  omega

theorem store1_right {content : Bytes} {cs : Nat} {store : Store} (hok : StoreOK content cs store) (i : Nat) :
    StoreOK content cs (store1 store i (chunkOf content cs i)) ∧
    ∀ k, PrefixStored content cs store k → PrefixStored content cs (store1 store i (chunkOf content cs i)) k := by
  refine ⟨setStore_ok content cs store hok i _ (List.prefix_refl _), ?_⟩
  intro k hk j hj
  unfold store1
  by_cases h : j = i
  · rw [if_pos h, h]
  · rw [if_neg h]; exact hk j hj

/-- One move: the invariant stays, and chunks that were right stay right. -/
theorem inv_move {content : Bytes} {cs : Nat} (hcs : 0 < cs) {w : World} (h : Inv content cs w) (e : Nat × Outcome) (he : e.2 = .ok ∨ e.2 = .fail ∨ e.2 = .failWritten) :
    Inv content cs (move content cs w e) ∧ ∀ k, PrefixStored content cs w.store k → PrefixStored content cs (move content cs w e).store k := by
  -- what a step has to give for the rest to follow
  have key : ∀ p s, step content cs e.2 (w.phase e.1) w.store = (p, s) → StoreOK content cs s → (∀ k, PrefixStored content cs w.store k → PrefixStored content cs s k) →
      (∀ i, p = .stat i ∨ p = .put i → i ≤ chunkCount content.length cs ∧ PrefixStored content cs s i) →
      (p = .complete ∨ p = .stored → PrefixStored content cs s (chunkCount content.length cs)) →
      Inv content cs (move content cs w e) ∧ ∀ k, PrefixStored content cs w.store k → PrefixStored content cs (move content cs w e).store k := by
    intro p s hs hok hmono hin hthr
    have hstore : (move content cs w e).store = s := by unfold move; simp only [hs]
    have hphase : ∀ t, (move content cs w e).phase t = if t = e.1 then p else w.phase t := by intro t; unfold move; simp only [hs]
    refine ⟨⟨by rw [hstore]; exact hok, ?_, ?_, ?_⟩, by rw [hstore]; exact hmono⟩
    · intro t i ht
      rw [hphase] at ht
      rw [hstore]
      split at ht
      · exact hin i (.inl ht)
      · exact ⟨(h.stat t i ht).1, hmono _ (h.stat t i ht).2⟩
    · intro t i ht
      rw [hphase] at ht
      rw [hstore]
      split at ht
      · exact hin i (.inr ht)
      · exact ⟨(h.put t i ht).1, hmono _ (h.put t i ht).2⟩
    · intro t ht
      rw [hphase] at ht
      rw [hstore]
      split at ht
      · exact hthr ht
      · exact hmono _ (h.through t ht)
  have same : ∀ p, step content cs e.2 (w.phase e.1) w.store = (p, w.store) →
      (∀ i, p = .stat i ∨ p = .put i → i ≤ chunkCount content.length cs ∧ PrefixStored content cs w.store i) →
      (p = .complete ∨ p = .stored → PrefixStored content cs w.store (chunkCount content.length cs)) →
      Inv content cs (move content cs w e) ∧ ∀ k, PrefixStored content cs w.store k → PrefixStored content cs (move content cs w e).store k :=
    fun p hs h1 h2 => key p w.store hs h.ok (fun _ hk => hk) h1 h2
  cases hp : w.phase e.1 with
  | idle =>
    refine same (.stat 0) (by rw [hp]; rfl) ?_ ?_
    · intro i hi
      rcases hi with hi | hi
      · cases hi; exact ⟨Nat.zero_le _, fun j hj => by omega⟩
      · cases hi
    · rintro (h | h) <;> cases h
  | complete => exact same .idle (by rw [hp]; rfl) (by rintro i (h | h) <;> cases h) (by rintro (h | h) <;> cases h)
  | stored => exact same .idle (by rw [hp]; rfl) (by rintro i (h | h) <;> cases h) (by rintro (h | h) <;> cases h)
  | failed => exact same .idle (by rw [hp]; rfl) (by rintro i (h | h) <;> cases h) (by rintro (h | h) <;> cases h)
  | stat i =>
    obtain ⟨hle, hpre⟩ := h.stat e.1 i hp
    by_cases hn : i = chunkCount content.length cs
    · refine same .complete (by rw [hp, step, if_pos hn]) (by rintro i (h | h) <;> cases h) ?_
      intro _
      rw [← hn]; exact hpre
    · by_cases ho : e.2 = .ok
      · have hstep : step content cs e.2 (.stat i) w.store = (match w.store i with
            | none => (.put i, w.store)
            | some b => if b.length ≠ expectedChunkSize i content.length cs then (.put i, w.store) else (.stat (i + 1), w.store)) := by
          rw [step, if_neg hn, if_neg (by simp [ho])]
        have hput : step content cs e.2 (.stat i) w.store = (.put i, w.store) →
            Inv content cs (move content cs w e) ∧ ∀ k, PrefixStored content cs w.store k → PrefixStored content cs (move content cs w e).store k := by
          intro hs
          refine same (.put i) (by rw [hp, hs]) ?_ (by rintro (h | h) <;> cases h)
          rintro j (hj | hj) <;> cases hj
          exact ⟨hle, hpre⟩
        cases hsi : w.store i with
        | none => exact hput (by rw [hstep, hsi])
        | some b =>
          by_cases hb : b.length ≠ expectedChunkSize i content.length cs
          · exact hput (by rw [hstep, hsi]; simp only [if_pos hb])
          · refine same (.stat (i + 1)) (by rw [hp, hstep, hsi]; simp only [if_neg hb]) ?_ (by rintro (h | h) <;> cases h)
            rintro j (hj | hj) <;> cases hj
            refine ⟨by omega, ?_⟩
            intro j hj
            rcases Nat.lt_or_ge j i with hlt | hge
            · exact hpre j hlt
            · have : j = i := by omega
              subst this
              have hlen := chunkOf_length content cs j hcs (by omega)
              rw [hsi, (h.ok j b hsi).eq_of_length (by omega)]
      · exact same .failed (by rw [hp, step, if_neg hn, if_pos ho]) (by rintro i (h | h) <;> cases h) (by rintro (h | h) <;> cases h)
  | put i =>
    obtain ⟨hle, hpre⟩ := h.put e.1 i hp
    by_cases hn : i = chunkCount content.length cs
    · refine same .stored (by rw [hp, step, if_pos hn]) (by rintro i (h | h) <;> cases h) ?_
      intro _
      rw [← hn]; exact hpre
    · have hpiece := piece_eq content cs i hcs (by omega)
      obtain ⟨hok, hmono⟩ := store1_right h.ok i
      rcases he with ho | ho | ho
      · refine key (.put (i + 1)) (store1 w.store i (chunkOf content cs i)) (by rw [hp, step, if_neg hn, ho]; simp only [hpiece]) hok hmono ?_ (by rintro (h | h) <;> cases h)
        rintro j (hj | hj) <;> cases hj
        refine ⟨by omega, ?_⟩
        intro j hj
        rcases Nat.lt_or_ge j i with hlt | hge
        · exact hmono i hpre j hlt
        · have : j = i := by omega
          subst this
          simp [store1]
      · exact same .failed (by rw [hp, step, if_neg hn, ho]) (by rintro i (h | h) <;> cases h) (by rintro (h | h) <;> cases h)
      · exact key .failed (store1 w.store i (chunkOf content cs i)) (by rw [hp, step, if_neg hn, ho]; simp only [hpiece]) hok hmono (by rintro i (h | h) <;> cases h)
          (by rintro (h | h) <;> cases h)

theorem inv_run {content : Bytes} {cs : Nat} (hcs : 0 < cs) (es : List (Nat × Outcome)) : ∀ w, Inv content cs w → Kept es →
    Inv content cs (run content cs w es) ∧ ∀ k, PrefixStored content cs w.store k → PrefixStored content cs (run content cs w es).store k := by
  induction es with
  | nil => intro w h _; exact ⟨h, fun _ hk => hk⟩
  | cons e es ih =>
    intro w h hkept
    obtain ⟨h1, m1⟩ := inv_move hcs h e (hkept e (List.mem_cons_self ..))
    obtain ⟨h2, m2⟩ := ih _ h1 (fun x hx => hkept x (List.mem_cons_of_mem _ hx))
    exact ⟨h2, fun k hk => m2 k (m1 k hk)⟩

theorem inv_init {content : Bytes} {cs : Nat} {store : Store} (hok : StoreOK content cs store) : Inv content cs (init store) :=
  ⟨hok, fun _ _ h => (by cases h), fun _ _ h => (by cases h), fun _ h => (by rcases h with h | h <;> cases h)⟩

/-! ### Property C132 -/

/-- **C132** (complete). Any number of uploaders of one object, starting from whatever earlier attempts left behind, in every schedule and with every combination of failing calls: once
one of them was told that the object is complete, or that its append succeeded, the stored chunks are exactly the object, and stay so whatever the others still do.
Missing from C132: partial writes that become visible, and local objects that end too early (counterexamples below). -/
theorem C132_complete_partial (content : Bytes) (cs : Nat) (hcs : 0 < cs) (store : Store) (hstore : StoreOK content cs store) (es es' : List (Nat × Outcome)) (hes : Kept es) (hes' : Kept es')
    (t : Nat) (ht : (run content cs (init store) es).phase t = .complete ∨ (run content cs (init store) es).phase t = .stored) :
    Assembled content cs (run content cs (init store) (es ++ es')).store := by
  obtain ⟨h1, _⟩ := inv_run hcs es (init store) (inv_init hstore) hes
  obtain ⟨_, m2⟩ := inv_run hcs es' _ h1 hes'
  have : run content cs (init store) (es ++ es') = run content cs (run content cs (init store) es) es' := List.foldl_append
  rw [this]
  exact prefix_assembled content cs hcs _ (m2 _ (h1.through t ht))

/-- **C132** (progress). What was stored right, from the first chunk on, is never lost, whoever stored it. -/
theorem C132_progress_partial (content : Bytes) (cs : Nat) (hcs : 0 < cs) (store : Store) (hstore : StoreOK content cs store) (es es' : List (Nat × Outcome)) (hes : Kept es) (hes' : Kept es')
    (k : Nat) (hk : PrefixStored content cs (run content cs (init store) es).store k) : PrefixStored content cs (run content cs (init store) (es ++ es')).store k := by
  obtain ⟨h1, _⟩ := inv_run hcs es (init store) (inv_init hstore) hes
  have : run content cs (init store) (es ++ es') = run content cs (run content cs (init store) es) es' := List.foldl_append
  rw [this]
  exact (inv_run hcs es' _ h1 hes').2 k hk

/-- The calls an uploader still has to make. -/
def left (n : Nat) : Phase → Nat
  | .idle => 2 * n + 3
  | .stat i => 2 * (n - i) + 2
  | .put i => 2 * (n - i) + 1
  | .complete | .stored | .failed => 0

/-- **C132** (finishes). An uploader whose own calls succeed needs a bounded number of them, whatever the others do meanwhile: after 2n + 3 calls for n chunks it has
been told that the object is stored. -/
theorem C132_finishes (content : Bytes) (cs : Nat) (hcs : 0 < cs) (store : Store) (hstore : StoreOK content cs store) (es : List (Nat × Outcome)) (hes : Kept es) (t : Nat)
    (hown : ∀ e ∈ es, e.1 = t → e.2 = .ok) (hmany : 2 * chunkCount content.length cs + 3 ≤ (es.filter fun e => e.1 = t).length) :
    ∃ before after, es = before ++ after ∧ ((run content cs (init store) before).phase t = .complete ∨ (run content cs (init store) before).phase t = .stored) := by
  have key : ∀ (es : List (Nat × Outcome)) (w : World), Inv content cs w → Kept es → (∀ e ∈ es, e.1 = t → e.2 = .ok) → w.phase t ≠ .failed →
      left (chunkCount content.length cs) (w.phase t) ≤ (es.filter fun e => e.1 = t).length →
      ∃ before after, es = before ++ after ∧ ((run content cs w before).phase t = .complete ∨ (run content cs w before).phase t = .stored) := by
    intro es
    induction es with
    | nil =>
      intro w hi _ _ hnf hl
      refine ⟨[], [], rfl, ?_⟩
      show w.phase t = .complete ∨ w.phase t = .stored
      cases hp : w.phase t with
      | complete => exact .inl rfl
      | stored => exact .inr rfl
      | failed => exact absurd hp hnf
      | idle => rw [hp] at hl; simp [left] at hl
      | stat i => rw [hp] at hl; simp [left] at hl
      | put i => rw [hp] at hl; simp [left] at hl
    | cons e es ih =>
      intro w hi hkept hown hnf hl
      by_cases hdone : w.phase t = .complete ∨ w.phase t = .stored
      · exact ⟨[], _, rfl, hdone⟩
      have hin := (inv_move hcs hi e (hkept e (List.mem_cons_self ..))).1
      have hkept' : Kept es := fun x hx => hkept x (List.mem_cons_of_mem _ hx)
      have hown' : ∀ e ∈ es, e.1 = t → e.2 = .ok := fun x hx => hown x (List.mem_cons_of_mem _ hx)
      have fin : (move content cs w e).phase t ≠ .failed ∧ left (chunkCount content.length cs) ((move content cs w e).phase t) ≤ (es.filter fun e => e.1 = t).length := by
        by_cases het : e.1 = t
        · have ho := hown e (List.mem_cons_self ..) het
          rw [List.filter_cons_of_pos (by simp [het]), List.length_cons] at hl
          have hph : (move content cs w e).phase t = (step content cs .ok (w.phase t) w.store).1 := by
            unfold move
            simp only [het, ho, if_true]
          rw [hph]
          cases hp : w.phase t with
          | complete => exact absurd (.inl hp) hdone
          | stored => exact absurd (.inr hp) hdone
          | failed => exact absurd hp hnf
          | idle =>
            rw [hp] at hl
            simp only [left, step] at hl ⊢
            exact ⟨by simp, by omega⟩
          | stat i =>
            have hb := (hi.stat t i hp).1
            rw [hp] at hl
            simp only [step]
            split
            · simp [left]
            · rw [if_neg (by simp)]
              cases w.store i with
              | none => simp only [left] at hl ⊢; exact ⟨by simp, by omega⟩
              | some b =>
                simp only
                split
                · simp only [left] at hl ⊢; exact ⟨by simp, by omega⟩
                · simp only [left] at hl ⊢; exact ⟨by simp, by omega⟩
          | put i =>
            have hb := (hi.put t i hp).1
            rw [hp] at hl
            simp only [step]
            split
            · simp [left]
            · simp only [left] at hl ⊢; exact ⟨by simp, by omega⟩
        · rw [List.filter_cons_of_neg (by simp [het])] at hl
          have hph : (move content cs w e).phase t = w.phase t := by
            unfold move
            simp only [if_neg (fun h => het (Eq.symm h))]
          rw [hph]
          exact ⟨hnf, hl⟩
      obtain ⟨before, after, h1, h2⟩ := ih _ hin hkept' hown' fin.1 fin.2
      exact ⟨e :: before, after, by rw [h1]; rfl, h2⟩
  exact key es (init store) (inv_init hstore) hes hown (by simp [init]) (by simpa [init, left] using hmany)

/-- Two uploaders of ten bytes in chunks of four, the second one failing on its way and both putting the same chunks. -/
example : let content : Bytes := [0,1,2,3,4,5,6,7,8,9]
    let es : List (Nat × Outcome) := [(0, .ok), (1, .ok), (0, .ok), (1, .ok), (0, .ok), (1, .ok), (1, .failWritten), (0, .ok), (0, .ok), (0, .ok)]
    Kept es ∧ (run content 4 (init fun _ => none) es).phase 0 = .stored ∧ (run content 4 (init fun _ => none) es).phase 1 = .failed := by
  refine ⟨by unfold Kept; decide, by decide, by decide⟩

/-- **C132 fails** where partial writes become visible: the second uploader, which asked for the state before the first one stored anything, is interrupted, and what the first one was
told is stored is torn. -/
theorem C132_counterexample_torn : let content : Bytes := [0,1,2,3,4,5,6,7,8,9]
    let es : List (Nat × Outcome) := [(1, .ok), (1, .ok), (0, .ok), (0, .ok), (0, .ok), (0, .ok), (0, .ok), (0, .ok)]
    (run content 4 (init fun _ => none) es).phase 0 = .stored ∧ (run content 4 (init fun _ => none) (es ++ [(1, .failPartial 2)])).store 0 = some [0, 1] := by
  refine ⟨by decide, by decide⟩

/-- **C132 fails** for an uploader whose local object ends too early in its last chunk: `Append` returns nil for it, and has torn the object another one has stored. -/
theorem C132_counterexample_short : let content : Bytes := [0,1,2,3,4,5,6,7,8,9]
    let es : List (Nat × Outcome) := [(1, .ok), (1, .ok), (0, .ok), (0, .ok), (0, .ok), (0, .ok), (0, .ok), (0, .ok)]
    let w := run content 4 (init fun _ => none) (es ++ [(1, .ok), (1, .ok), (1, .sourceEnds 1), (1, .ok)])
    (run content 4 (init fun _ => none) es).phase 0 = .stored ∧ w.phase 1 = .stored ∧ w.store 2 = some [8] := by
  refine ⟨by decide, by decide, by decide⟩

end Verif.Stream.Chunk.Conc
