import Verif.Stream.ChunkModel
import Verif.Stream.MultiProps
/-
Properties C09-C12: chunk arithmetic, chunked source, chunked upload, ranged GET.
-/
namespace Verif.Stream.Chunk

/-! ## C09 -/

theorem chunkCount_eq (total cs : Nat) (hcs : 0 < cs) (ht : 0 < total) : chunkCount total cs = (total - 1) / cs + 1 := by
  unfold chunkCount
  rw [if_neg (by omega)]
  have : total + cs - 1 = (total - 1) + cs := by omega
  rw [this, Nat.add_div_right _ hcs]

theorem chunkCount_pos (total cs : Nat) (hcs : 0 < cs) : 0 < chunkCount total cs := by
  rcases Nat.eq_zero_or_pos total with h | h
  · subst h; simp [chunkCount]
  · rw [chunkCount_eq _ _ hcs h]; exact Nat.succ_pos _

/-- Chunk `i` covers exactly the positions from `i * cs` to `min ((i+1) * cs) total`. -/
theorem chunk_cover (total cs i : Nat) (hcs : 0 < cs) (hi : i < chunkCount total cs) :
    i * cs + expectedChunkSize i total cs = min ((i + 1) * cs) total ∧ i * cs ≤ total := by
  rcases Nat.eq_zero_or_pos total with h | h
  · subst h; simp [chunkCount] at hi; subst hi; simp [expectedChunkSize, chunkCount]
  · have hc := chunkCount_eq total cs hcs h
    have hdm := Nat.div_add_mod (total - 1) cs
    have hml := Nat.mod_lt (total - 1) hcs
    have hle : i * cs ≤ ((total - 1) / cs) * cs := Nat.mul_le_mul_right cs (by omega)
    have hcm : cs * ((total - 1) / cs) = ((total - 1) / cs) * cs := Nat.mul_comm _ _
    unfold expectedChunkSize
    simp only
    split
    · rename_i hlt
      have : (i + 1) * cs ≤ ((total - 1) / cs) * cs := Nat.mul_le_mul_right cs (by omega)
      rw [Nat.add_mul] at *
      omega
    · rename_i hge
      rw [if_neg (by omega)]
      have hieq : i = (total - 1) / cs := by omega
      -- total = i*cs + r + 1 with r < cs
      obtain ⟨r, hr, hr'⟩ : ∃ r, total = i * cs + r + 1 ∧ r < cs := ⟨(total - 1) % cs, by rw [hieq]; omega, hml⟩
      have hmod : total % cs = (r + 1) % cs := by
        rw [hr, Nat.add_assoc, Nat.mul_comm, Nat.mul_add_mod]
      rw [hmod, Nat.add_mul]
      rcases Nat.lt_or_ge (r + 1) cs with hlt | hge2
      · rw [Nat.mod_eq_of_lt hlt]
        rw [if_neg (by omega)]; omega
      · have : r + 1 = cs := by omega
        rw [this, Nat.mod_self]; simp; omega

theorem sum_range_chunks (total cs : Nat) (hcs : 0 < cs) : ∀ n, n ≤ chunkCount total cs →
    ((List.range n).map (fun i => expectedChunkSize i total cs)).sum = min (n * cs) total := by
  intro n
  induction n with
  | zero => simp
  | succ n ih =>
    intro h
    rw [List.range_succ, List.map_append, List.sum_append, ih (by omega)]
    have := chunk_cover total cs n hcs (by omega)
    simp
    omega

/-- C09: chunk sizes partition the object.  Every chunk is at most the chunk size, all but the last are exactly it, none is empty
unless the object is, they add up to the total, and position `p` belongs to chunk `p / cs` at offset `p % cs`. -/
theorem C09_chunks_partition (total cs : Nat) (hcs : 0 < cs) :
    0 < chunkCount total cs ∧
    ((List.range (chunkCount total cs)).map (fun i => expectedChunkSize i total cs)).sum = total ∧
    (∀ i, i < chunkCount total cs → expectedChunkSize i total cs ≤ cs ∧ (0 < total → 0 < expectedChunkSize i total cs)) ∧
    (∀ i, i + 1 < chunkCount total cs → expectedChunkSize i total cs = cs) ∧
    (∀ p, p < total → p / cs < chunkCount total cs ∧ p % cs < expectedChunkSize (p / cs) total cs) := by
  refine ⟨chunkCount_pos total cs hcs, ?_, ?_, ?_, ?_⟩
  · rw [sum_range_chunks total cs hcs _ (Nat.le_refl _)]
    rcases Nat.eq_zero_or_pos total with h | h
    · subst h; simp
    · rw [chunkCount_eq _ _ hcs h]
      have := Nat.div_add_mod (total - 1) cs
      have := Nat.mod_lt (total - 1) hcs
      have hcm : cs * ((total - 1) / cs) = ((total - 1) / cs) * cs := Nat.mul_comm _ _
      rw [Nat.add_mul]; omega
  · intro i hi
    obtain ⟨h1, h2⟩ := chunk_cover total cs i hcs hi
    rw [Nat.add_mul] at h1
    refine ⟨by omega, fun ht => ?_⟩
    rw [chunkCount_eq _ _ hcs ht] at hi
    have : i * cs ≤ ((total - 1) / cs) * cs := Nat.mul_le_mul_right cs (by omega)
    have := Nat.div_add_mod (total - 1) cs
    have hcm : cs * ((total - 1) / cs) = ((total - 1) / cs) * cs := Nat.mul_comm _ _
    omega
  · intro i hi
    unfold expectedChunkSize
    simp only
    rw [if_pos (by omega)]
  · intro p hp
    have hlt : p / cs < chunkCount total cs := by
      rw [chunkCount_eq _ _ hcs (by omega)]
      have : p / cs ≤ (total - 1) / cs := Nat.div_le_div_right (by omega)
      omega
    refine ⟨hlt, ?_⟩
    obtain ⟨h1, _⟩ := chunk_cover total cs (p / cs) hcs hlt
    have h3 := Nat.div_add_mod p cs
    have h4 := Nat.mod_lt p hcs
    have hcm : cs * (p / cs) = (p / cs) * cs := Nat.mul_comm _ _
    rw [Nat.add_mul] at h1
    omega

/-- non-vacuity of C09 -/
example : (List.range (chunkCount 10 4)).map (fun i => expectedChunkSize i 10 4) = [4, 4, 2] ∧
    (List.range (chunkCount 8 4)).map (fun i => expectedChunkSize i 8 4) = [4, 4] ∧
    (List.range (chunkCount 0 4)).map (fun i => expectedChunkSize i 0 4) = [0] := by decide

/-- C09: as long as `total + chunkSize - 1` does not overflow, the int64 code computes the exact arithmetic above.
Missing from C09: totals for which that sum overflows. -/
theorem C09_int64_exact_partial (total cs : Nat) (hcs : 0 < cs) (h : (total + cs : Int) ≤ maxInt64 + 1) :
    chunkCount64 total cs = chunkCount total cs ∧
    ∀ i : Nat, expectedChunkSize64 i total cs = expectedChunkSize i total cs := by
  have hcount : chunkCount64 total cs = chunkCount total cs := by
    unfold chunkCount64 chunkCount
    by_cases ht : total = 0
    · simp [ht]
    · have hw : wrap64 (wrap64 ((total : Int) + cs) - 1) = ((total + cs - 1 : Nat) : Int) := by
        unfold maxInt64 at h
        have e : ((total + cs - 1 : Nat) : Int) = (total : Int) + cs - 1 := by omega
        rw [e]
        unfold wrap64
        rw [Int.bmod_sub_bmod]
        rw [Int.bmod_eq_iff] <;> omega
      rw [if_neg (by omega), if_neg ht, hw]
      rw [Int.tdiv_eq_ediv_of_nonneg (by omega)]
      rfl
  refine ⟨hcount, ?_⟩
  intro i
  have hpos := chunkCount_pos total cs hcs
  have hle : (chunkCount total cs : Int) ≤ maxInt64 := by
    unfold maxInt64 at *
    unfold chunkCount
    split
    · omega
    · have : (total + cs - 1) / cs ≤ total + cs - 1 := Nat.div_le_self _ _
      omega
  have hw : wrap64 ((chunkCount total cs : Int) - 1) = ((chunkCount total cs - 1 : Nat) : Int) := by
    have e : ((chunkCount total cs - 1 : Nat) : Int) = (chunkCount total cs : Int) - 1 := by omega
    rw [e]; apply wrap64_of_isInt64
    unfold IsInt64 minInt64 maxInt64 at *; omega
  unfold expectedChunkSize64 expectedChunkSize
  simp only [hcount, hw]
  rw [Int.tmod_eq_emod_of_nonneg (by omega)]
  by_cases h1 : i < chunkCount total cs - 1
  · rw [if_pos (by omega), if_pos h1]
  · rw [if_neg (by omega), if_neg h1]
    by_cases h2 : total = 0
    · simp [h2]
    · rw [if_neg (by omega), if_neg h2]
      have e : (total : Int) % cs = ((total % cs : Nat) : Int) := rfl
      rw [e]
      by_cases h3 : total % cs = 0
      · rw [if_pos (by omega), if_pos h3]
      · rw [if_neg (by omega), if_neg h3]

/-- C09 is false beyond that: with the "never split" chunk size `MaxInt64`, an object of two bytes has zero chunks. -/
theorem C09_counterexample_overflow : chunkCount64 2 maxInt64 = -1 ∧ chunkCount64 5 (maxInt64 - 1) = -1 := by decide

/-! ## C10 -/

/-- The content of stored chunk `i`. -/
def chunkOf (content : Bytes) (cs i : Nat) : Bytes := slice content (i * cs) cs

theorem chunkOf_length (content : Bytes) (cs i : Nat) (hcs : 0 < cs) (hi : i < chunkCount content.length cs) :
    (chunkOf content cs i).length = expectedChunkSize i content.length cs := by
  obtain ⟨h1, h2⟩ := chunk_cover content.length cs i hcs hi
  rw [chunkOf, slice_length]
  rw [Nat.add_mul] at h1
  omega

/-- The parts `ChunkedSource.Open` builds. -/
def chunkParts (R : Nat → ReaderFn) (content : Bytes) (cs first n : Nat) : List Part :=
  (List.range' first (n - first)).map (fun i => ⟨R i, chunkOf content cs i, expectedChunkSize i content.length cs⟩)

theorem concat_chunks (R : Nat → ReaderFn) (content : Bytes) (cs : Nat) : ∀ k first,
    (((List.range' first k).map (fun i => (⟨R i, chunkOf content cs i, expectedChunkSize i content.length cs⟩ : Part))).map
      (·.content)).flatten = slice content (first * cs) (k * cs) := by
  intro k
  induction k with
  | zero => simp
  | succ k ih =>
    intro first
    rw [List.range'_succ]
    simp only [List.map_cons, List.flatten_cons]
    rw [ih (first + 1)]
    rw [chunkOf]
    have : (first + 1) * cs = first * cs + cs := by rw [Nat.add_mul]; omega
    rw [this, slice_add]
    congr 1
    rw [Nat.add_mul]; omega

/-- Reads only: the cursor over `c` at `pos + k` is the cursor over `c.drop k` at `pos`. -/
theorem explains_shift (c : Bytes) (k : Nat) (hk : k ≤ c.length) : ∀ (lens : List Nat) (outs : List (Op × Out)) (pos : Nat),
    outs.map (·.1) = lens.map Op.read →
    CursorExplains c (k + pos) outs → CursorExplains (c.drop k) pos outs := by
  intro lens
  induction lens with
  | nil => intro outs pos h; simp at h; subst h; simp [CursorExplains]
  | cons l lens ih =>
    intro outs pos h hx
    match outs, h with
    | (op, out) :: rest, h =>
      simp at h
      obtain ⟨rfl, h⟩ := h
      cases out with
      | seek r => simp [CursorExplains] at hx
      | read bs e =>
        simp only [CursorExplains] at hx ⊢
        obtain ⟨h1, h2⟩ := hx
        refine ⟨?_, ih rest _ (by simpa using h) (by rw [← Nat.add_assoc]; exact h2)⟩
        have hl : (c.drop k).length = c.length - k := by simp
        have hs : slice (c.drop k) pos bs.length = slice c (k + pos) bs.length := by
          simp [slice, List.drop_drop]
        rw [hl, hs]
        split at h1
        · rw [if_pos (by omega)]; exact h1
        · rw [if_neg (by omega)]
          refine ⟨h1.1, h1.2.1, h1.2.2.1, ?_⟩
          rcases h1.2.2.2 with h | ⟨h, h'⟩
          · exact Or.inl h
          · exact Or.inr ⟨h, by omega⟩

theorem multiInv_new (parts : List Part) : MultiInv parts (newMulti (parts.map Part.sized)) :=
  ⟨rfl, newMulti_limit parts, by intro _; simp [newMulti, declaredTotal]⟩

/-- C10: for an object stored as its chunks (each chunk reader may give short reads), opening at any offset inside gives a stream on
which every sequence of reads, of any sizes, sees exactly `content[offset:]`; at the end it is empty; outside it is an error.
`CursorExplains` is the cursor specification of C02. -/
theorem C10_source_streams_tail (R : Nat → ReaderFn) (content : Bytes) (cs : Nat) (hcs : 0 < cs)
    (hmax : (content.length : Int) ≤ maxInt64)
    (hR : ∀ i, i < chunkCount content.length cs → Delivers (R i) (chunkOf content cs i)) (offset : Int) :
    ((offset < 0 ∨ content.length < offset) → sourceOpen R content.length cs offset = some .err) ∧
    (offset = content.length → sourceOpen R content.length cs offset = some .empty) ∧
    (0 ≤ offset → offset < content.length → ∃ m, sourceOpen R content.length cs offset = some (.multi m) ∧
      ∀ (call : Nat) (lens : List Nat), ∃ outs, runOps m call (lens.map .read) = some outs ∧ outs.map (·.1) = lens.map .read ∧
        CursorExplains (content.drop offset.toNat) 0 outs) := by
  refine ⟨?_, ?_, ?_⟩
  · intro h
    unfold sourceOpen
    rcases h with h | h
    · rw [if_pos h]
    · rw [if_neg (by omega)]
      simp only
      rw [if_pos (by omega)]
  · intro h
    unfold sourceOpen
    rw [if_neg (by omega)]
    simp only
    rw [if_neg (by omega), if_pos (by omega)]
  · intro h0 h1
    obtain ⟨o, rfl⟩ : ∃ o : Nat, offset = o := ⟨offset.toNat, by omega⟩
    have ho : o < content.length := by omega
    -- first chunk
    obtain ⟨hfirst, hintra⟩ := (C09_chunks_partition content.length cs hcs).2.2.2.2 o ho
    have hdm := Nat.div_add_mod o cs
    have hcm : cs * (o / cs) = (o / cs) * cs := Nat.mul_comm _ _
    generalize hn : chunkCount content.length cs = n at *
    let parts := chunkParts R content cs (o / cs) n
    have hsized : chunkSegments R content.length cs (o / cs) n = parts.map Part.sized := by
      simp [chunkSegments, parts, chunkParts, Part.sized]
    have hon : ∀ p ∈ parts, p.Honest := by
      intro p hp
      simp [parts, chunkParts] at hp
      obtain ⟨i, hi, rfl⟩ := hp
      have hi' : i < n := by omega
      exact ⟨hR i hi', (chunkOf_length content cs i hcs (by omega)).symm⟩
    have hcat : concat parts = content.drop (o / cs * cs) := by
      have := concat_chunks R content cs (n - o / cs) (o / cs)
      simp only [concat, parts, chunkParts]
      rw [this, slice, List.take_of_length_le]
      simp
      have hs := sum_range_chunks content.length cs hcs n (by omega)
      have hs' := (C09_chunks_partition content.length cs hcs).2.1
      rw [hn] at hs'
      rw [hs'] at hs
      rw [Nat.sub_mul]
      omega
    have hdec : ∀ p ∈ parts, p.declared = p.content.length := fun p hp => (hon p hp).2
    have hcl := concat_length parts hdec
    have hcl2 : (concat parts).length = content.length - o / cs * cs := by rw [hcat]; simp
    -- the general run from any multi at position k
    have run : ∀ m, MultiInv parts m → m.off = o % cs →
        ∀ (call : Nat) (lens : List Nat), ∃ outs, runOps m call (lens.map .read) = some outs ∧ outs.map (·.1) = lens.map .read ∧
        CursorExplains (content.drop o) 0 outs := by
      intro m inv hoff call lens
      have gen : ∀ (lens : List Nat) (m : Multi) (call : Nat), MultiInv parts m →
          ∃ outs, runOps m call (lens.map .read) = some outs ∧ outs.map (·.1) = lens.map .read ∧
            CursorExplains (concat parts) m.off outs := by
        intro lens
        induction lens with
        | nil => intro m call _; exact ⟨[], rfl, rfl, by simp [CursorExplains]⟩
        | cons l lens ih =>
          intro m call inv
          obtain ⟨m', bs, e, hr, inv', hoff', hspec⟩ := read_step parts hon m inv call l
          obtain ⟨outs, g1, g2, g3⟩ := ih m' (call + 1) inv'
          refine ⟨(.read l, .read bs e) :: outs, ?_, by simp [g2], ?_⟩
          · simp [runOps, hr, g1]
          · simp only [CursorExplains]
            exact ⟨hspec, by rw [← hoff']; exact g3⟩
      obtain ⟨outs, g1, g2, g3⟩ := gen lens m call inv
      refine ⟨outs, g1, g2, ?_⟩
      rw [hoff] at g3
      have hd : content.drop o = (concat parts).drop (o % cs) := by
        rw [hcat, List.drop_drop]; congr 1; omega
      rw [hd]
      exact explains_shift (concat parts) (o % cs) (by omega) lens outs 0 g2 (by simpa using g3)
    unfold sourceOpen
    rw [if_neg (by omega)]
    simp only [Int.toNat_natCast]
    rw [if_neg (by omega), if_neg (by omega)]
    rw [hn, hsized]
    by_cases hz : o % cs > 0
    · rw [if_pos hz]
      obtain ⟨m', r, hs, inv', _, hspec⟩ := seek_step parts (newMulti (parts.map Part.sized)) (multiInv_new parts)
        (by rw [← hcl]; omega) (by simp [newMulti, maxInt64]) ((o % cs : Nat) : Int)
        (by unfold IsInt64 minInt64; constructor <;> omega) .start
      have hT : seekTarget (declaredTotal parts) (newMulti (parts.map Part.sized)).off ((o % cs : Nat) : Int) .start = ((o % cs : Nat) : Int) := rfl
      rw [hT] at hspec
      rw [if_neg (by omega)] at hspec
      obtain ⟨hr, hm⟩ := hspec
      rw [hs, hr]
      exact ⟨m', rfl, run m' inv' (by rw [hm]; rfl)⟩
    · rw [if_neg hz]
      exact ⟨_, rfl, run _ (multiInv_new parts) (by simp [newMulti]; omega)⟩

/-- non-vacuity of C10: a ten byte object in chunks of four, one byte per read, opened in the middle of the second chunk -/
example :
    let content : Bytes := [0,1,2,3,4,5,6,7,8,9]
    let R : Nat → ReaderFn := fun i => dribbleReader (chunkOf content 4 i)
    (∀ i, i < chunkCount content.length 4 → Delivers (R i) (chunkOf content 4 i)) ∧
    (match sourceOpen R 10 4 6 with
      | some (.multi m) => (runOps m 0 [.read 3, .read 3]).map (·.map (·.2)) = some [.read [6] none, .read [7] none]
      | _ => False) := by
  refine ⟨fun i _ => dribbleReader_delivers _, by rfl⟩

/-! ## C11 -/

/-- Every stored chunk is the right chunk or a torn beginning of it. -/
def StoreOK (content : Bytes) (cs : Nat) (store : Store) : Prop :=
  ∀ i b, store i = some b → b <+: chunkOf content cs i

/-- The first `k` chunks are stored and right. -/
def PrefixStored (content : Bytes) (cs : Nat) (store : Store) (k : Nat) : Prop :=
  ∀ i, i < k → store i = some (chunkOf content cs i)

/-- The stored chunks are exactly the object. -/
def Assembled (content : Bytes) (cs : Nat) (store : Store) : Prop :=
  ∃ chunks : List Bytes, chunks.length = chunkCount content.length cs ∧
    (∀ i, i < chunks.length → store i = chunks[i]?) ∧ chunks.flatten = content

/-- One upload attempt: which probes fail, what happens to each PUT, how many bytes the local reader gives before it stops, and whether
it stops with an error. -/
structure Session where
  statFail : Nat → Bool
  put : Nat → PutOutcome
  avail : Nat
  srcErr : Bool

/-- An attempt: ask the state, and unless complete append the object's bytes from the reported offset on. -/
def runSession (content : Bytes) (cs : Nat) (store : Store) (s : Session) : Store :=
  match sinkState store s.statFail content.length cs with
  | none => store
  | some st =>
    if st.complete then store
    else (sinkAppend s.put content.length cs st.offset ((content.drop st.offset).take s.avail) s.srcErr store).1

/-- Any number of attempts, each possibly interrupted. -/
def runSessions (content : Bytes) (cs : Nat) (store : Store) (ss : List Session) : Store :=
  ss.foldl (runSession content cs) store

theorem stateLoop_spec (content : Bytes) (cs : Nat) (hcs : 0 < cs) (store : Store) (hok : StoreOK content cs store)
    (statFail : Nat → Bool) : ∀ fuel i, i + fuel = chunkCount content.length cs → PrefixStored content cs store i →
    ∀ st, stateLoop store statFail content.length cs fuel i = some st →
      (st.complete = false → ∃ k, i ≤ k ∧ k < chunkCount content.length cs ∧ st.offset = k * cs ∧ PrefixStored content cs store k ∧
        store k ≠ some (chunkOf content cs k)) ∧
      (st.complete = true → st.offset = content.length ∧ PrefixStored content cs store (chunkCount content.length cs)) := by
  intro fuel
  induction fuel with
  | zero =>
    intro i hi hp st hst
    simp [stateLoop] at hst
    subst hst
    simp
    have : i = chunkCount content.length cs := by omega
    exact this ▸ hp
  | succ fuel ih =>
    intro i hi hp st hst
    unfold stateLoop at hst
    have hlen := chunkOf_length content cs i hcs (by omega)
    split at hst
    · simp at hst
    · cases hs : store i with
      | none =>
        rw [hs] at hst
        simp at hst; subst hst
        simp
        exact ⟨i, Nat.le_refl _, by omega, rfl, hp, by simp [hs]⟩
      | some b =>
        rw [hs] at hst
        simp only at hst
        split at hst
        · rename_i hb
          simp at hst; subst hst
          simp
          refine ⟨i, Nat.le_refl _, by omega, rfl, hp, ?_⟩
          rw [hs]; intro h; simp at h; rw [h] at hb; exact hb hlen
        · rename_i hb
          have hbe : b = chunkOf content cs i := by
            have := hok i b hs
            exact this.eq_of_length (by omega)
          have hp' : PrefixStored content cs store (i + 1) := by
            intro j hj
            rcases Nat.lt_or_ge j i with h | h
            · exact hp j h
            · have : j = i := by omega
              subst this; rw [hs, hbe]
          obtain ⟨h1, h2⟩ := ih (i + 1) (by omega) hp' st hst
          refine ⟨?_, h2⟩
          intro hc
          obtain ⟨k, hk, r⟩ := h1 hc
          exact ⟨k, by omega, r⟩

theorem prefix_assembled (content : Bytes) (cs : Nat) (hcs : 0 < cs) (store : Store)
    (h : PrefixStored content cs store (chunkCount content.length cs)) : Assembled content cs store := by
  refine ⟨(List.range' 0 (chunkCount content.length cs)).map (chunkOf content cs), by simp, ?_, ?_⟩
  · intro i hi
    simp at hi
    rw [h i hi]
    simp [hi]
  · have := concat_chunks (fun _ => fullReader []) content cs (chunkCount content.length cs) 0
    simp only [List.map_map] at this
    have e : ((fun x : Part => x.content) ∘ fun i => (⟨fullReader [], chunkOf content cs i, expectedChunkSize i content.length cs⟩ : Part)) =
        chunkOf content cs := rfl
    rw [e] at this
    rw [this, slice]
    have hs := sum_range_chunks content.length cs hcs _ (Nat.le_refl _)
    rw [(C09_chunks_partition content.length cs hcs).2.1] at hs
    rw [Nat.zero_mul, List.drop_zero]
    exact List.take_of_length_le (by omega)

theorem setStore_ok (content : Bytes) (cs : Nat) (store : Store) (hok : StoreOK content cs store) (i : Nat) (b : Bytes)
    (hb : b <+: chunkOf content cs i) : StoreOK content cs (fun j => if j = i then some b else store j) := by
  intro j c hj
  by_cases h : j = i
  · subst h; simp at hj; subst hj; exact hb
  · simp [h] at hj; exact hok j c hj

theorem piece_prefix (content : Bytes) (cs i avail e : Nat) (he : e ≤ cs) :
    ((content.drop (i * cs)).take avail).take e <+: chunkOf content cs i := by
  rw [chunkOf, slice, List.take_take]
  apply List.IsPrefix.trans (l₂ := (content.drop (i * cs)).take e)
  · exact List.take_prefix_take_left (by omega)
  · exact List.take_prefix_take_left he

theorem appendLoop_spec (content : Bytes) (cs : Nat) (hcs : 0 < cs) (put : Nat → PutOutcome) (srcErr : Bool) :
    ∀ fuel i, i + fuel = chunkCount content.length cs → ∀ avail store, StoreOK content cs store →
    ∃ store' ok, appendLoop put srcErr content.length cs fuel i ((content.drop (i * cs)).take avail) store = (store', ok) ∧
      StoreOK content cs store' ∧ (∀ j, j < i → store' j = store j) ∧
      (ok = true → content.length - i * cs ≤ avail → ∀ j, i ≤ j → j < chunkCount content.length cs → store' j = some (chunkOf content cs j)) ∧
      ((∀ j, put j = .ok) → content.length - i * cs ≤ avail → ok = true) := by
  intro fuel
  induction fuel with
  | zero =>
    intro i hi avail store hok
    exact ⟨store, true, rfl, hok, fun _ _ => rfl, fun _ _ j h1 h2 => by omega, fun _ _ => rfl⟩
  | succ fuel ih =>
    intro i hi avail store hok
    have hlen := chunkOf_length content cs i hcs (by omega)
    have he : expectedChunkSize i content.length cs ≤ cs := ((C09_chunks_partition content.length cs hcs).2.2.1 i (by omega)).1
    have hcov := chunk_cover content.length cs i hcs (by omega)
    unfold appendLoop
    simp only
    generalize hE : expectedChunkSize i content.length cs = E at *
    have hpre := piece_prefix content cs i avail E he
    -- with enough input the piece is the chunk
    have hfull : content.length - i * cs ≤ avail → ((content.drop (i * cs)).take avail).take E = chunkOf content cs i := by
      intro hav
      have h2 : (content.drop (i * cs)).take avail = content.drop (i * cs) := List.take_of_length_le (by simp; omega)
      rw [h2] at hpre ⊢
      refine hpre.eq_of_length ?_
      rw [hlen]; simp; omega
    have hnext : ((content.drop (i * cs)).take avail).drop E = (content.drop ((i + 1) * cs)).take (avail - E) ∨
        (i + 1 = chunkCount content.length cs) := by
      rcases Nat.lt_or_ge (i + 1) (chunkCount content.length cs) with h | h
      · left
        have hc := (C09_chunks_partition content.length cs hcs).2.2.2.1 i h
        rw [hE] at hc
        subst hc
        rw [List.drop_take, List.drop_drop]
        congr 2
        rw [Nat.add_mul]; omega
      · right; omega
    have noteq : ∀ (b : Bytes) j, j < i → (fun j => if j = i then some b else store j) j = store j := by
      intro b j hj; simp; omega
    by_cases h1 : (((content.drop (i * cs)).take avail).take E).length < E ∧ srcErr = true
    · rw [if_pos h1]
      refine ⟨store, false, rfl, hok, fun _ _ => rfl, by simp, ?_⟩
      intro _ hav
      rw [hfull hav] at h1; omega
    · rw [if_neg h1]
      by_cases h2 : (((content.drop (i * cs)).take avail).take E).length < E ∧ i < chunkCount content.length cs - 1
      · rw [if_pos h2]
        refine ⟨store, false, rfl, hok, fun _ _ => rfl, by simp, ?_⟩
        intro _ hav
        rw [hfull hav] at h2; omega
      · rw [if_neg h2]
        cases hput : put i with
        | failUnchanged =>
          refine ⟨store, false, rfl, hok, fun _ _ => rfl, by simp, ?_⟩
          intro h; rw [h i] at hput; simp at hput
        | failWritten =>
          refine ⟨_, false, rfl, setStore_ok content cs store hok i _ hpre, noteq _, by simp, ?_⟩
          intro h; rw [h i] at hput; simp at hput
        | failPartial k =>
          refine ⟨_, false, rfl, setStore_ok content cs store hok i _ ((List.take_prefix _ _).trans hpre), noteq _, by simp, ?_⟩
          intro h; rw [h i] at hput; simp at hput
        | ok =>
          simp only
          have hok' := setStore_ok content cs store hok i _ hpre
          rcases hnext with hn | hn
          · rw [hn]
            obtain ⟨s', ok', g1, g2, g3, g4, g5⟩ := ih (i + 1) (by omega) (avail - E) _ hok'
            have hav' : content.length - i * cs ≤ avail → content.length - (i + 1) * cs ≤ avail - E := by
              intro hav; rw [Nat.add_mul] at *; omega
            refine ⟨s', ok', g1, g2, ?_, ?_, fun h hav => g5 h (hav' hav)⟩
            · intro j hj; rw [g3 j (by omega)]; simp; omega
            · intro ho hav j hj1 hj2
              rcases Nat.lt_or_ge i j with h | h
              · exact g4 ho (hav' hav) j (by omega) hj2
              · have : j = i := by omega
                subst this
                rw [g3 j (by omega)]; simp [hfull hav]
          · have hf : fuel = 0 := by omega
            subst hf
            refine ⟨_, true, rfl, hok', noteq _, ?_, by simp⟩
            intro _ hav j hj1 hj2
            have : j = i := by omega
            subst this
            simp [hfull hav]

theorem runSession_spec (content : Bytes) (cs : Nat) (hcs : 0 < cs) (store : Store) (hok : StoreOK content cs store) (s : Session) :
    StoreOK content cs (runSession content cs store s) ∧
    (∀ k, k ≤ chunkCount content.length cs → PrefixStored content cs store k → PrefixStored content cs (runSession content cs store s) k) ∧
    ((∀ i, s.statFail i = false) → (∀ i, s.put i = .ok) → content.length ≤ s.avail →
      PrefixStored content cs (runSession content cs store s) (chunkCount content.length cs)) := by
  have htot : (∀ i, s.statFail i = false) → ∃ st, sinkState store s.statFail content.length cs = some st := by
    intro h
    have gen : ∀ fuel i, ∃ st, stateLoop store s.statFail content.length cs fuel i = some st := by
      intro fuel
      induction fuel with
      | zero => intro i; exact ⟨_, rfl⟩
      | succ fuel ih =>
        intro i
        unfold stateLoop
        rw [h i]
        simp only [Bool.false_eq_true, if_false]
        cases store i with
        | none => exact ⟨_, rfl⟩
        | some b =>
          simp only
          split
          · exact ⟨_, rfl⟩
          · exact ih _
    exact gen _ _
  unfold runSession
  cases hst : sinkState store s.statFail content.length cs with
  | none =>
    refine ⟨hok, fun _ _ h => h, ?_⟩
    intro h; obtain ⟨st, h'⟩ := htot h; rw [h'] at hst; simp at hst
  | some st =>
    simp only
    obtain ⟨g1, g2⟩ := stateLoop_spec content cs hcs store hok s.statFail _ 0 (by simp) (by intro i hi; omega) st hst
    cases hc : st.complete with
    | true => simp only [if_true]; exact ⟨hok, fun _ _ h => h, fun _ _ _ => (g2 hc).2⟩
    | false =>
      simp only [Bool.false_eq_true, if_false]
      obtain ⟨k, _, hk, hoff, hpre, hne⟩ := g1 hc
      rw [hoff]
      unfold sinkAppend
      rw [if_neg (by simp)]
      simp only
      rw [Nat.mul_div_cancel _ hcs]
      obtain ⟨s', ok', a1, a2, a3, a4, a5⟩ := appendLoop_spec content cs hcs s.put s.srcErr (chunkCount content.length cs - k) k (by omega)
        s.avail store hok
      rw [a1]
      refine ⟨a2, ?_, ?_⟩
      · intro k' _ hp i hi
        have : i < k := by
          rcases Nat.lt_or_ge i k with h | h
          · exact h
          · exact absurd (hp k (by omega)) hne
        simp only
        rw [a3 i this]; exact hp i hi
      · intro _ hput hav i hi
        have hav' : content.length - k * cs ≤ s.avail := by omega
        rcases Nat.lt_or_ge i k with h | h
        · simp only; rw [a3 i h]; exact hpre i h
        · exact a4 (a5 hput hav') hav' i h hi

theorem runSessions_ok (content : Bytes) (cs : Nat) (hcs : 0 < cs) (store : Store) (hok : StoreOK content cs store) (ss : List Session) :
    StoreOK content cs (runSessions content cs store ss) := by
  induction ss generalizing store with
  | nil => exact hok
  | cons s ss ih => exact ih _ (runSession_spec content cs hcs store hok s).1

/-- C11: whatever happened before, the reported offset is a chunk boundary below which every chunk is stored and right, and a complete
state is reported only when the stored chunks concatenate to exactly the object. -/
theorem C11_state_sound (content : Bytes) (cs : Nat) (hcs : 0 < cs) (ss : List Session) (statFail : Nat → Bool) (st : SinkState)
    (hst : sinkState (runSessions content cs (fun _ => none) ss) statFail content.length cs = some st) :
    (∃ k, st.offset = min (k * cs) content.length ∧ PrefixStored content cs (runSessions content cs (fun _ => none) ss) k ∧
      k ≤ chunkCount content.length cs) ∧
    (st.complete = true → Assembled content cs (runSessions content cs (fun _ => none) ss)) := by
  have hok := runSessions_ok content cs hcs (fun _ => none) (by intro i b h; simp at h) ss
  obtain ⟨g1, g2⟩ := stateLoop_spec content cs hcs _ hok statFail _ 0 (by simp) (by intro i hi; omega) st hst
  refine ⟨?_, fun h => prefix_assembled content cs hcs _ (g2 h).2⟩
  cases hc : st.complete with
  | true =>
    refine ⟨chunkCount content.length cs, ?_, (g2 hc).2, Nat.le_refl _⟩
    rw [(g2 hc).1]
    have hs := sum_range_chunks content.length cs hcs _ (Nat.le_refl _)
    rw [(C09_chunks_partition content.length cs hcs).2.1] at hs
    exact hs
  | false =>
    obtain ⟨k, _, hk, hoff, hpre, _⟩ := g1 hc
    refine ⟨k, ?_, hpre, by omega⟩
    rw [hoff]
    have := (chunk_cover content.length cs k hcs hk).2
    omega

/-- C11: progress is never lost: chunks that were right below a boundary stay right through any further attempt. -/
theorem C11_progress_kept (content : Bytes) (cs : Nat) (hcs : 0 < cs) (ss ss' : List Session) (k : Nat)
    (hk : k ≤ chunkCount content.length cs)
    (h : PrefixStored content cs (runSessions content cs (fun _ => none) ss) k) :
    PrefixStored content cs (runSessions content cs (fun _ => none) (ss ++ ss')) k := by
  have hok := runSessions_ok content cs hcs (fun _ => none) (by intro i b h; simp at h) ss
  unfold runSessions at *
  rw [List.foldl_append]
  generalize ss.foldl (runSession content cs) (fun _ => none) = store at *
  induction ss' generalizing store with
  | nil => exact h
  | cons s ss' ih =>
    obtain ⟨a, b, _⟩ := runSession_spec content cs hcs store hok s
    exact ih _ (b k hk h) a

/-- C11: after any history of interrupted attempts, one undisturbed attempt finishes: the chunks are exactly the object and every later
state query reports completion. -/
theorem C11_converges (content : Bytes) (cs : Nat) (hcs : 0 < cs) (ss : List Session) (s : Session)
    (hstat : ∀ i, s.statFail i = false) (hput : ∀ i, s.put i = .ok) (hav : content.length ≤ s.avail) :
    Assembled content cs (runSessions content cs (fun _ => none) (ss ++ [s])) ∧
    sinkState (runSessions content cs (fun _ => none) (ss ++ [s])) (fun _ => false) content.length cs =
      some { offset := content.length, complete := true } := by
  have hok := runSessions_ok content cs hcs (fun _ => none) (by intro i b h; simp at h) ss
  have hp : PrefixStored content cs (runSessions content cs (fun _ => none) (ss ++ [s])) (chunkCount content.length cs) := by
    unfold runSessions at *
    rw [List.foldl_append]
    exact (runSession_spec content cs hcs _ hok s).2.2 hstat hput hav
  refine ⟨prefix_assembled content cs hcs _ hp, ?_⟩
  generalize runSessions content cs (fun _ => none) (ss ++ [s]) = store at hp
  unfold sinkState
  have gen : ∀ fuel i, i + fuel = chunkCount content.length cs →
      stateLoop store (fun _ => false) content.length cs fuel i = some { offset := content.length, complete := true } := by
    intro fuel
    induction fuel with
    | zero => intro i _; rfl
    | succ fuel ih =>
      intro i hi
      unfold stateLoop
      rw [hp i (by omega)]
      simp only [Bool.false_eq_true, if_false]
      rw [if_neg]
      · exact ih (i + 1) (by omega)
      · simp [chunkOf_length content cs i hcs (by omega)]
  exact gen _ 0 (by simp)

/-- non-vacuity of C11: an attempt whose second PUT is torn, one whose reader fails early, then a clean one -/
example :
    let content : Bytes := [0,1,2,3,4,5,6,7,8,9]
    let torn : Session := ⟨fun _ => false, fun i => if i = 1 then .failPartial 2 else .ok, 100, false⟩
    let early : Session := ⟨fun _ => false, fun _ => .ok, 5, true⟩
    let clean : Session := ⟨fun _ => false, fun _ => .ok, 100, false⟩
    sinkState (runSessions content 4 (fun _ => none) [torn]) (fun _ => false) 10 4 = some ⟨4, false⟩ ∧
    sinkState (runSessions content 4 (fun _ => none) [torn, early]) (fun _ => false) 10 4 = some ⟨8, false⟩ ∧
    sinkState (runSessions content 4 (fun _ => none) [torn, early, clean]) (fun _ => false) 10 4 = some ⟨10, true⟩ := by decide

/-- Finding: `Append` returning nil does not mean the object is complete.  A local reader that ends early inside the last chunk makes
Append store a short last chunk and return nil. -/
theorem C11_counterexample_short_source :
    let r := sinkAppend (fun _ => .ok) 10 4 0 [0,1,2,3,4,5,6,7,8] false (fun _ => none)
    r.2 = true ∧ sinkState r.1 (fun _ => false) 10 4 = some ⟨8, false⟩ := by decide

theorem appendLoop_success (put : Nat → PutOutcome) (total cs : Nat) (hcs : 0 < cs) (srcErr : Bool) :
    ∀ fuel i, i + fuel = chunkCount total cs → ∀ (src : Bytes) (store store' : Store),
    appendLoop put srcErr total cs fuel i src store = (store', true) →
      (∀ j, j < i → store' j = store j) ∧
      (∀ j, i ≤ j → j < chunkCount total cs →
        store' j = some ((src.drop (j * cs - i * cs)).take (min ((j + 1) * cs) total - j * cs))) ∧
      (0 < fuel → (chunkCount total cs - 1) * cs ≤ i * cs + src.length) ∧
      (0 < fuel → srcErr = true → total ≤ i * cs + src.length) := by
  intro fuel
  induction fuel with
  | zero =>
    intro i hi src store store' h
    simp only [appendLoop, Prod.mk.injEq, and_true] at h
    subst h
    exact ⟨fun _ _ => rfl, fun j h1 h2 => by omega, fun h => by omega, fun h => by omega⟩
  | succ fuel ih =>
    intro i hi src store store' h
    obtain ⟨hc1, hc2⟩ := chunk_cover total cs i hcs (by omega)
    have hmul : (i + 1) * cs = i * cs + cs := Nat.succ_mul i cs
    unfold appendLoop at h
    simp only [List.length_take] at h
    split at h
    · simp at h
    · rename_i hn1
      split at h
      · simp at h
      · rename_i hn2
        cases hp : put i with
        | failUnchanged => rw [hp] at h; simp at h
        | failWritten => rw [hp] at h; simp at h
        | failPartial k => rw [hp] at h; simp at h
        | ok =>
          rw [hp] at h
          obtain ⟨a1, a2, a3, a4⟩ := ih (i + 1) (by omega) _ _ _ h
          simp only [List.length_drop] at a3 a4
          have hlast : fuel = 0 → chunkCount total cs - 1 = i := fun h0 => by omega
          refine ⟨?_, ?_, ?_, ?_⟩
          · intro j hj
            rw [a1 j (by omega), if_neg (by omega)]
          · intro j hj hj'
            rcases Nat.eq_or_lt_of_le hj with he | hlt
            · subst he
              rw [a1 i (by omega)]
              simp only [if_true, Nat.sub_self, List.drop_zero]
              have : expectedChunkSize i total cs = min ((i + 1) * cs) total - i * cs := by omega
              rw [this]
            · rw [a2 j (by omega) hj']
              have hfull : expectedChunkSize i total cs = cs := by
                unfold expectedChunkSize
                simp only
                rw [if_pos (by omega)]
              have hle : (i + 1) * cs ≤ j * cs := Nat.mul_le_mul_right cs (by omega)
              rw [List.drop_drop, hfull]
              congr 3
              omega
          · intro _
            rcases Nat.eq_zero_or_pos fuel with h0 | h0
            · rw [hlast h0]; omega
            · have := a3 h0
              have hfull : expectedChunkSize i total cs = cs := by
                unfold expectedChunkSize
                simp only
                rw [if_pos (by omega)]
              rw [hfull] at this hn2
              have hn2' : ¬ (min cs src.length < cs) := fun hh => hn2 ⟨hh, by omega⟩
              omega
          · intro _ he
            have hfit : ¬ (min (expectedChunkSize i total cs) src.length < expectedChunkSize i total cs) := fun hh => hn1 ⟨hh, he⟩
            rcases Nat.eq_zero_or_pos fuel with h0 | h0
            · have hs := sum_range_chunks total cs hcs _ (Nat.le_refl _)
              rw [(C09_chunks_partition total cs hcs).2.1] at hs
              have : chunkCount total cs = i + 1 := by omega
              rw [this] at hs
              omega
            · have := a4 h0 he
              have hfull : expectedChunkSize i total cs = cs := by
                unfold expectedChunkSize
                simp only
                rw [if_pos (by omega)]
              rw [hfull] at this hfit
              omega

/-- C11: what a successful Append means, for any offset, any local reader and any store: the offset was a chunk boundary; nothing below
it was touched; every chunk from it on holds exactly its byte range of what the reader delivered; and the reader delivered all bytes
up to the last chunk — up to the end, if it stopped with an error.  (A reader that ends cleanly inside the last chunk is the case of
`C11_counterexample_short_source`.) -/
theorem C11_append_success (put : Nat → PutOutcome) (total cs offset : Nat) (hcs : 0 < cs) (src : Bytes) (srcErr : Bool)
    (store store' : Store) (hoff : offset ≤ (chunkCount total cs - 1) * cs)
    (h : sinkAppend put total cs offset src srcErr store = (store', true)) :
    cs ∣ offset ∧
    (∀ j, j * cs < offset → store' j = store j) ∧
    (∀ j, offset ≤ j * cs → j < chunkCount total cs →
      store' j = some ((src.drop (j * cs - offset)).take (min ((j + 1) * cs) total - j * cs))) ∧
    (chunkCount total cs - 1) * cs ≤ offset + src.length ∧
    (srcErr = true → total ≤ offset + src.length) := by
  unfold sinkAppend at h
  split at h
  · simp at h
  · rename_i hm
    have hm' : offset % cs = 0 := by omega
    obtain ⟨k, rfl⟩ := Nat.dvd_of_mod_eq_zero hm'
    have hk : cs * k / cs = k := Nat.mul_div_cancel_left _ hcs
    simp only [hk] at h
    rw [Nat.mul_comm] at hoff ⊢
    have hkn : k ≤ chunkCount total cs - 1 := Nat.le_of_mul_le_mul_right hoff hcs
    have hpos := chunkCount_pos total cs hcs
    obtain ⟨a1, a2, a3, a4⟩ := appendLoop_success put total cs hcs srcErr _ k (by omega) _ _ _ h
    refine ⟨⟨k, Nat.mul_comm _ _⟩, ?_, ?_, a3 (by omega), a4 (by omega)⟩
    · intro j hj
      exact a1 j (Nat.lt_of_mul_lt_mul_right hj)
    · intro j hj hj'
      exact a2 j (Nat.le_of_mul_le_mul_right hj hcs) hj'

example :
    (sinkAppend (fun _ => .ok) 10 4 4 [4,5,6,7,8,9] true (fun _ => none)).2 = true ∧
    (sinkAppend (fun _ => .ok) 10 4 4 [4,5,6,7,8,9] true (fun _ => none)).1 2 = some [8,9] ∧
    (sinkAppend (fun _ => .ok) 10 4 4 [4,5,6,7,8] true (fun _ => none)).2 = false ∧
    (sinkAppend (fun _ => .ok) 10 4 3 [3,4,5,6,7,8,9] false (fun _ => none)).2 = false := by decide

/-! ## C12 -/

/-- C12 (what holds): a body for an offset request is handed out only for a 206 answer carrying a parsable total; a 200 answer to a
ranged request is refused; 404 and 410 mean not-exist; every other status is an error.
Missing from the full property: the start of the range in the 206 answer is not looked at, see the counterexample. -/
theorem C12_get_partial (offset : Int) (status : Nat) (cr : Str) (clen : Int) :
    (∀ total, getDecision offset status cr clen = .body total → 0 < offset → status = 206 ∧ parseTotal cr = some total) ∧
    (∀ total, getDecision offset status cr clen = .body total → status = 200 ∨ status = 206) ∧
    (status = 200 → 0 < offset → getDecision offset status cr clen = .ignoredRange) ∧
    (getDecision offset status cr clen = .notExist ↔ status = 404 ∨ status = 410) := by
  unfold getDecision
  refine ⟨?_, ?_, ?_, ?_⟩
  · intro total h ho
    split at h
    · simp at h
    · split at h
      · rename_i h206
        cases hp : parseTotal cr with
        | none => simp [hp] at h
        | some t => simp [hp] at h; exact ⟨h206, by rw [h]⟩
      · split at h <;> simp at h
  · intro total h
    split at h
    · rename_i h200; exact Or.inl h200
    · split at h
      · rename_i h206; exact Or.inr h206
      · split at h <;> simp at h
  · intro h1 h2; rw [if_pos h1, if_pos h2]
  · constructor
    · intro h
      split at h
      · split at h <;> simp at h
      · split at h
        · cases hp : parseTotal cr <;> simp [hp] at h
        · split at h
          · assumption
          · simp at h
    · intro h
      rw [if_neg (by omega), if_neg (by omega), if_pos h]

/-- C12 fails in full: for a request at offset 5 a 206 answer that says it starts at 0 is accepted as a body. -/
theorem C12_counterexample_start_ignored :
    getDecision 5 206 "bytes 0-9/10".toList 10 = .body 10 ∧
    getDecision 5 206 "bytes garbage/-3".toList 10 = .body (-3) := by decide

/-- non-vacuity of C12 -/
example : getDecision 5 206 "bytes 5-9/10".toList 5 = .body 10 ∧ getDecision 5 200 [] 10 = .ignoredRange ∧
    getDecision 0 200 [] 10 = .body 10 ∧ getDecision 0 410 [] 0 = .notExist ∧ getDecision 0 500 [] 0 = .badStatus := by decide

end Verif.Stream.Chunk
