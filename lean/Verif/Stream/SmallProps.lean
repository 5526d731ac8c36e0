import Verif.Stream.SmallModel
/-
Properties C05-C08: sequential ReaderAt adapter, byte repeater, cancellable reader, multi read closer.
-/
namespace Verif.Stream

/-! ## C05 -/

/-- The opener's streams deliver `content`: arbitrary short reads, EOF only at the end, arbitrary failures in between. -/
def SeqHonest (env : SeqEnv) (content : Bytes) : Prop :=
  ∀ clock pos len, ∃ b e, env.read clock pos len = (b, e) ∧ b = slice content pos b.length ∧ b.length ≤ len ∧
    (e = some .eof → content.length ≤ pos + b.length) ∧ (e = none → 0 < len → 0 < b.length)

/-- Nothing fails. -/
def SeqNoFault (env : SeqEnv) : Prop :=
  (∀ c o, env.openErr c o = none) ∧ (∀ c, env.closeErr c = none) ∧
  (∀ c p l, (env.read c p l).2 = none ∨ (env.read c p l).2 = some .eof)

/-- What one `ReadAt(p, off)` with `len(p) = len` may return over `content`. -/
def ReadAtSpec (content : Bytes) (len : Nat) (off : Int) (bs : Bytes) (e : Option RErr) : Prop :=
  (off < 0 → bs = [] ∧ e = some .einval) ∧
  ((content.length : Int) ≤ off → bs = [] ∧ e = some .eof) ∧
  (0 ≤ off → off < content.length →
    bs = slice content off.toNat bs.length ∧ bs.length ≤ len ∧
    (e = none → bs.length = len) ∧ (e = some .eof → off.toNat + bs.length = content.length))

/-- Run a history of calls, giving the results together with the opener calls each made. -/
def seqRun (env : SeqEnv) (s : Seq) : List (Nat × Int) → Option (List (ReadRes × List Nat) × Seq)
  | [] => some ([], s)
  | (len, off) :: rest =>
    match s.readAt env (len + 1) len off with
    | none => none
    | some (s', r) =>
      (seqRun env s' rest).map (fun (rs, sf) => ((r, s'.opens.drop s.opens.length) :: rs, sf))

theorem seqLoop_spec (env : SeqEnv) (content : Bytes) (hon : SeqHonest env content) :
    ∀ fuel s pos len acc, len < fuel → s.off = pos → pos + len ≤ content.length →
    ∃ s' bs e, seqLoop env fuel s pos len acc = some (s', acc ++ bs, e) ∧
      bs = slice content pos bs.length ∧ bs.length ≤ len ∧
      s'.size = s.size ∧ s'.opens = s.opens ∧ (∀ q, s'.current = some q → s'.off = q) ∧
      (e = none → bs.length = len ∧ s'.current = some (pos + len)) ∧
      (e = some .eof → pos + bs.length = content.length) ∧
      (SeqNoFault env → e = none ∨ e = some .eof) := by
  intro fuel
  induction fuel with
  | zero => intros; omega
  | succ fuel ih =>
    intro s pos len acc hf ho hl
    cases len with
    | zero =>
      refine ⟨{ s with current := some pos }, [], none, by simp [seqLoop], by simp, by simp, rfl, rfl, ?_, ?_, by simp, by simp⟩
      · intro q hq; simp at hq; subst hq; exact ho
      · simp
    | succ len =>
      obtain ⟨b, e, hr, hb, hlen, heof, hprog⟩ := hon s.clock pos (len + 1)
      have hbl : b.length ≤ content.length - pos := by
        have := congrArg List.length hb; rw [slice_length] at this; omega
      unfold seqLoop
      rw [hr]
      simp only
      cases e with
      | none =>
        simp only
        have hpos := hprog rfl (by omega)
        obtain ⟨s', bs, e', heq, h1, h2, h3, h4, h5, h6, h7, h8⟩ :=
          ih { s with clock := s.clock + 1, off := s.off + b.length } (pos + b.length) (len + 1 - b.length) (acc ++ b)
            (by omega) (by simp [ho]) (by omega)
        refine ⟨s', b ++ bs, e', by rw [heq]; simp, ?_, by simp; omega, h3, h4, h5, ?_, ?_, h8⟩
        · conv => lhs; rw [hb, h1]
          rw [slice_add]; simp
        · intro he
          obtain ⟨g1, g2⟩ := h6 he
          exact ⟨by simp; omega, by rw [g2]; congr 1; omega⟩
        · intro he; have := h7 he; simp; omega
      | some x =>
        by_cases hx : x = .eof
        · subst hx
          simp only
          refine ⟨_, b, some .eof, rfl, hb, hlen, rfl, rfl, by simp, by simp, ?_, by simp⟩
          intro _; have := heof rfl; omega
        · have : (match some x with
            | some .eof => some ({ s with clock := s.clock + 1 + 1, off := s.off + b.length, current := none }, acc ++ b, some RErr.eof)
            | some e => some ({ s with clock := s.clock + 1 + 1, off := s.off + b.length, current := none }, acc ++ b, some e)
            | none => seqLoop env fuel { s with clock := s.clock + 1, off := s.off + b.length } (pos + b.length) (len + 1 - b.length) (acc ++ b))
              = some ({ s with clock := s.clock + 1 + 1, off := s.off + b.length, current := none }, acc ++ b, some x) := by
            cases x <;> first | exact absurd rfl hx | rfl
          refine ⟨_, b, some x, this, hb, hlen, rfl, rfl, by simp, by simp, ?_, ?_⟩
          · intro h; simp at h; exact absurd h hx
          · intro hnf
            have := hnf.2.2 s.clock pos (len+1)
            rw [hr] at this; simp at this; exact absurd this hx

/-- State invariant: the recorded offset is the real position of the open stream. -/
def SeqInv (content : Bytes) (s : Seq) : Prop := s.size = content.length ∧ (∀ q, s.current = some q → s.off = q)

theorem seqReadAt_step (env : SeqEnv) (content : Bytes) (hon : SeqHonest env content) (s : Seq) (inv : SeqInv content s)
    (len : Nat) (off : Int) :
    ∃ s' bs e, s.readAt env (len + 1) len off = some (s', bs, e) ∧ SeqInv content s' ∧
      ReadAtSpec content len off bs e ∧
      (SeqNoFault env → 0 ≤ off → bs = slice content off.toNat len) ∧
      (e = none → 0 ≤ off ∧ s'.current = some (off.toNat + len)) ∧
      (0 ≤ off → off < content.length → s.current = some off.toNat → s'.opens = s.opens) ∧
      (0 ≤ off → off < content.length → s.current ≠ some off.toNat → (∀ c, env.closeErr c = none) → s'.opens = s.opens ++ [off.toNat]) ∧
      (s'.opens = s.opens ∨ (0 ≤ off ∧ s'.opens = s.opens ++ [off.toNat])) := by
  obtain ⟨hsz, hcur⟩ := inv
  unfold Seq.readAt
  by_cases hneg : off < 0
  · rw [if_pos hneg]
    refine ⟨s, [], _, rfl, ⟨hsz, hcur⟩, ⟨by simp, by intros; omega, by intros; omega⟩, by intros; omega, by simp, by intros; omega,
      by intros; omega, Or.inl rfl⟩
  rw [if_neg hneg]
  obtain ⟨o, rfl⟩ : ∃ o : Nat, off = o := ⟨off.toNat, by omega⟩
  simp only [Int.toNat_natCast]
  by_cases hge : o ≥ s.size
  · rw [if_pos hge]
    refine ⟨s, [], _, rfl, ⟨hsz, hcur⟩, ⟨by intros; omega, by simp, by intros; omega⟩, ?_, by simp, by intros; omega,
      by intros; omega, Or.inl rfl⟩
    intro _ _; rw [slice_of_ge]; omega
  rw [if_neg hge]
  -- ensuring the stream
  have hens : ∃ s1 r, seqEnsure env s o = (s1, r) ∧ s1.size = s.size ∧
      (s1.opens = s.opens ∨ s1.opens = s.opens ++ [o]) ∧
      (s.current = some o → s1.opens = s.opens) ∧
      (s.current ≠ some o → (∀ c, env.closeErr c = none) → s1.opens = s.opens ++ [o]) ∧
      (∀ pos, r = .ok pos → pos = o ∧ s1.off = o) ∧
      (∀ e, r = .error e → s1.current = none ∧ ∃ c, e = .other c) ∧
      (SeqNoFault env → ∃ pos, r = .ok pos) := by
    unfold seqEnsure
    simp only
    cases hc : s.current with
    | none =>
      simp only
      cases hop : env.openErr s.clock o with
      | none => exact ⟨_, _, rfl, rfl, Or.inr rfl, by simp, by simp, by simp, by simp, by simp⟩
      | some e =>
        refine ⟨_, _, rfl, rfl, Or.inr rfl, by simp, by simp, by simp, ?_, ?_⟩
        · intro e' h; simp at h; subst h; exact ⟨rfl, e, rfl⟩
        · intro hnf; have := hnf.1 s.clock o; rw [hop] at this; simp at this
    | some pos =>
      have hp := hcur pos hc
      simp only
      by_cases hoo : o = s.off
      · rw [if_neg (by simpa using hoo)]
        refine ⟨_, _, rfl, rfl, Or.inl rfl, by simp, ?_, ?_, by simp, by simp⟩
        · intro h; simp at h; omega
        · intro p h; simp at h; omega
      · rw [if_pos hoo]
        have hne : pos ≠ o := by omega
        cases hcl : env.closeErr s.clock with
        | some e =>
          simp only
          refine ⟨_, _, rfl, rfl, Or.inl rfl, by simp, ?_, by simp, ?_, ?_⟩
          · intro _ h; have := h s.clock; rw [hcl] at this; simp at this
          · intro e' h; simp at h; subst h; exact ⟨rfl, e, rfl⟩
          · intro hnf; have := hnf.2.1 s.clock; rw [hcl] at this; simp at this
        | none =>
          simp only
          cases hop : env.openErr (s.clock + 1) o with
          | none => exact ⟨_, _, rfl, rfl, Or.inr rfl, by simp [hne], by simp, by simp, by simp, by simp⟩
          | some e =>
            refine ⟨_, _, rfl, rfl, Or.inr rfl, by simp [hne], by simp, by simp, ?_, ?_⟩
            · intro e' h; simp at h; subst h; exact ⟨rfl, e, rfl⟩
            · intro hnf; have := hnf.1 (s.clock + 1) o; rw [hop] at this; simp at this
  obtain ⟨s1, r, heq, hsz1, hop1, hop2, hop3, hok, herr, hnf⟩ := hens
  rw [heq]
  have hl : (if len > s.size - o then s.size - o else len) = min len (s.size - o) := by split <;> omega
  rw [hl]
  cases r with
  | error e =>
    obtain ⟨hc1, c, rfl⟩ := herr e rfl
    refine ⟨s1, [], _, rfl, ⟨by omega, by simp [hc1]⟩, ⟨by intros; omega, by intros; omega, by simp⟩, ?_, by simp, ?_, ?_, ?_⟩
    · intro h; obtain ⟨p, hp⟩ := hnf h; simp at hp
    · intro _ _ h; exact hop2 h
    · intro _ _ h h2; exact hop3 h h2
    · rcases hop1 with h | h
      · exact Or.inl h
      · exact Or.inr ⟨by omega, h⟩
  | ok pos =>
    obtain ⟨rfl, hs1o⟩ := hok pos rfl
    simp only
    obtain ⟨s', bs, e, hloop, hb1, hb2, hb3, hb4, hb5, hb6, hb7, hb8⟩ :=
      seqLoop_spec env content hon (len + 1) s1 pos (min len (s.size - pos)) [] (by omega) hs1o (by omega)
    rw [hloop]
    simp only [List.nil_append]
    have hopens : s'.opens = s.opens ∨ (0 ≤ (pos : Int) ∧ s'.opens = s.opens ++ [pos]) := by
      rw [hb4]; rcases hop1 with h | h
      · exact Or.inl h
      · exact Or.inr ⟨by omega, h⟩
    have hinv' : SeqInv content s' := ⟨by omega, hb5⟩
    cases e with
    | none =>
      obtain ⟨hfull, hcur'⟩ := hb6 rfl
      refine ⟨s', bs, _, rfl, hinv', ⟨by intros; omega, by intros; omega, ?_⟩, ?_, ?_, ?_, ?_, hopens⟩
      · intro _ _
        refine ⟨hb1, by omega, ?_, ?_⟩
        · split
          · simp
          · rename_i h; simp at h; intro _; omega
        · split
          · rename_i h; simp at h; intro _; simp; omega
          · simp
      · intro _ _
        rw [hb1, slice_clip content pos len, hfull, hsz]
      · split
        · simp
        · rename_i h; simp at h; intro _
          exact ⟨by omega, by rw [hcur']; congr 1; omega⟩
      · intro _ _ h; rw [hb4]; exact hop2 h
      · intro _ _ h h2; rw [hb4]; exact hop3 h h2
    | some x =>
      refine ⟨s', bs, some x, rfl, hinv', ⟨by intros; omega, by intros; omega, ?_⟩, ?_, by simp, ?_, ?_, hopens⟩
      · intro _ _
        refine ⟨hb1, by omega, by simp, ?_⟩
        intro h; have := hb7 h; simp; omega
      · intro h _
        rcases hb8 h with h2 | h2
        · simp at h2
        · have := hb7 h2
          rw [hb1, slice_clip content pos len]
          congr 1; omega
      · intro _ _ h; rw [hb4]; exact hop2 h
      · intro _ _ h h2; rw [hb4]; exact hop3 h h2

/-- **C05.** Every history of `ReadAt` calls, with arbitrary short reads and arbitrary opener/stream/close failures:
each call ends, and what it returns satisfies the `io.ReaderAt` contract over `content` (right bytes always; nil only when full; EOF
only at the end); if nothing fails the bytes are exactly the requested window. -/
theorem C05_history_correct (env : SeqEnv) (content : Bytes) (hon : SeqHonest env content) (calls : List (Nat × Int)) :
    ∃ rs sf, seqRun env (newSeq content.length) calls = some (rs, sf) ∧ rs.length = calls.length ∧
      ∀ i (h1 : i < calls.length) (h2 : i < rs.length),
        ReadAtSpec content calls[i].1 calls[i].2 rs[i].1.1 rs[i].1.2 ∧
        (SeqNoFault env → 0 ≤ calls[i].2 → rs[i].1.1 = slice content calls[i].2.toNat calls[i].1) ∧
        rs[i].2.length ≤ 1 := by
  have gen : ∀ calls s, SeqInv content s →
      ∃ rs sf, seqRun env s calls = some (rs, sf) ∧ rs.length = calls.length ∧
      ∀ i (h1 : i < calls.length) (h2 : i < rs.length),
        ReadAtSpec content calls[i].1 calls[i].2 rs[i].1.1 rs[i].1.2 ∧
        (SeqNoFault env → 0 ≤ calls[i].2 → rs[i].1.1 = slice content calls[i].2.toNat calls[i].1) ∧
        rs[i].2.length ≤ 1 := by
    intro calls
    induction calls with
    | nil => intro s _; exact ⟨[], s, rfl, rfl, by intro i h; simp at h⟩
    | cons c rest ih =>
      intro s inv
      obtain ⟨len, off⟩ := c
      obtain ⟨s', bs, e, hr, inv', hspec, hnf, _, _, _, hop⟩ := seqReadAt_step env content hon s inv len off
      obtain ⟨rs, sf, h1, h2, h3⟩ := ih s' inv'
      refine ⟨((bs, e), s'.opens.drop s.opens.length) :: rs, sf, by simp [seqRun, hr, h1], by simp [h2], ?_⟩
      intro i hi1 hi2
      cases i with
      | zero =>
        simp
        refine ⟨hspec, hnf, ?_⟩
        rcases hop with h | h
        · rw [h]; omega
        · rw [h.2]; simp; omega
      | succ i => simpa using h3 i (by simpa using hi1) (by simpa using hi2)
  exact gen calls _ ⟨rfl, by simp [newSeq]⟩

theorem seqRun_total (env : SeqEnv) (content : Bytes) (hon : SeqHonest env content) (cs : List (Nat × Int)) :
    ∀ s, SeqInv content s → ∃ rs sf, seqRun env s cs = some (rs, sf) ∧ rs.length = cs.length := by
  induction cs with
  | nil => intro s _; exact ⟨[], s, rfl, rfl⟩
  | cons c cs ih =>
    intro s inv
    obtain ⟨l, o⟩ := c
    obtain ⟨s3, bs3, e3, hr3, inv3, _⟩ := seqReadAt_step env content hon s inv l o
    obtain ⟨rs, sf, k1, k2⟩ := ih s3 inv3
    exact ⟨_, _, by simp only [seqRun, hr3, k1]; rfl, by simp [k2]⟩

/-- **C05, one open per sequential run.** Take any reachable state, a call that returned nil at `[off, off+len)`, and the
next call: if it continues at `off+len` inside the object, the opener is not called again; if it starts anywhere else inside the
object (and closing works), the opener is called exactly once, at that offset. -/
theorem C05_reopen_only_on_jump (env : SeqEnv) (content : Bytes) (hon : SeqHonest env content) (calls : List (Nat × Int))
    (len len2 : Nat) (off off2 : Int) (rs : List (ReadRes × List Nat)) (sf : Seq) (b1 b2 : Bytes) (e2 : Option RErr) (o1 o2 : List Nat)
    (hrun : seqRun env (newSeq content.length) (calls ++ [(len, off), (len2, off2)]) =
      some (rs ++ [((b1, none), o1), ((b2, e2), o2)], sf))
    (hin : 0 ≤ off2 ∧ off2 < content.length) :
    (off2 = off + len → o2 = []) ∧
    (off2 ≠ off + len → (∀ c, env.closeErr c = none) → o2 = [off2.toNat]) := by
  have gen : ∀ calls s rs, SeqInv content s →
      seqRun env s (calls ++ [(len, off), (len2, off2)]) = some (rs ++ [((b1, none), o1), ((b2, e2), o2)], sf) →
      (off2 = off + len → o2 = []) ∧ (off2 ≠ off + len → (∀ c, env.closeErr c = none) → o2 = [off2.toNat]) := by
    intro calls
    induction calls with
    | nil =>
      intro s rs inv h
      obtain ⟨s', bs, e, hr, inv', hspec, hnf, hcur, _, _, hop⟩ := seqReadAt_step env content hon s inv len off
      obtain ⟨s'', bs', e', hr', inv'', _, _, _, hsame, hnew, _⟩ := seqReadAt_step env content hon s' inv' len2 off2
      simp [seqRun, hr, hr'] at h
      obtain ⟨h, _⟩ := h
      have hrs : rs = [] := by
        have := congrArg List.length h; simp at this; exact this
      subst hrs
      simp at h
      obtain ⟨⟨⟨_, he⟩, _⟩, ⟨_, _⟩, ho2⟩ := h
      obtain ⟨hoff, hc⟩ := hcur he
      constructor
      · intro heq
        have : s''.opens = s'.opens := hsame hin.1 hin.2 (by rw [hc]; congr 1; omega)
        rw [← ho2, this]; simp
      · intro hne hcl
        have : s''.opens = s'.opens ++ [off2.toNat] := hnew hin.1 hin.2 (by rw [hc]; intro h; simp at h; omega) hcl
        rw [← ho2, this]; simp
    | cons c rest ih =>
      intro s rs inv h
      obtain ⟨l, o⟩ := c
      obtain ⟨s', bs, e, hr, inv', _⟩ := seqReadAt_step env content hon s inv l o
      simp only [List.cons_append, seqRun, hr, Option.map_eq_some_iff, Prod.mk.injEq] at h
      obtain ⟨⟨rs', sf'⟩, h1, h2, rfl⟩ := h
      cases rs with
      | nil =>
        exfalso
        have h3 := congrArg List.length h2
        obtain ⟨rs2, sf2, g1, g2⟩ := seqRun_total env content hon (rest ++ [(len, off), (len2, off2)]) s' inv'
        rw [h1] at g1; cases g1
        simp at h3 g2; omega
      | cons r rs =>
        simp at h2
        exact ih s' rs inv' (by rw [h1, h2.2])
  exact gen calls _ rs ⟨rfl, by simp [newSeq]⟩ hrun

/-- A dribbling environment without failures meets the hypotheses. -/
def dribbleEnv (content : Bytes) : SeqEnv where
  openErr _ _ := none
  closeErr _ := none
  read _ pos len :=
    let b := slice content pos (min len 2)
    (b, if b.length < min len 2 then some .eof else none)

theorem dribbleEnv_honest (content : Bytes) : SeqHonest (dribbleEnv content) content ∧ SeqNoFault (dribbleEnv content) := by
  constructor
  · intro c pos len
    refine ⟨_, _, rfl, ?_, ?_, ?_, ?_⟩
    · rw [slice_length]; exact slice_clip content pos _
    · rw [slice_length]; omega
    · split
      · rename_i h; rw [slice_length] at *; omega
      · simp
    · split
      · simp
      · rename_i h; omega
  · refine ⟨by simp [dribbleEnv], by simp [dribbleEnv], ?_⟩
    intro c p l
    simp only [dribbleEnv]
    split <;> simp

example : (seqRun (dribbleEnv [1,2,3,4,5]) (newSeq 5) [(3, 0), (4, 3), (2, 1)]).map (·.1) =
    some [(([1,2,3], none), [0]), (([4,5], some .eof), []), (([2,3], none), [1])] := by decide

/-! ## C06 -/

/-- **C06.** A byte repeater always fills the whole buffer with its byte and never fails, at any offset. -/
theorem C06_repeater (b : UInt8) (len : Nat) (off : Int) :
    (repeaterRead b len).2 = none ∧ (repeaterRead b len).1.length = len ∧ (∀ x ∈ (repeaterRead b len).1, x = b) ∧
    (repeaterReadAt b len off).2 = none ∧ (repeaterReadAt b len off).1.length = len ∧
    (∀ x ∈ (repeaterReadAt b len off).1, x = b) := by
  simp [repeaterRead, repeaterReadAt]

/-! ## C07 -/

/-- A history: for each read, the state of the context at that time. The results, and the final state. -/
def cancelRun (under : Nat → ReadRes) (c : Cancellable) : List (Option RErr) → List ReadRes × Cancellable
  | [] => ([], c)
  | x :: rest =>
    let (c', r) := c.read x under
    let (rs, cf) := cancelRun under c' rest
    (r :: rs, cf)

/-- **C07.** Whatever the underlying reader does and whenever the context gets cancelled (`ctx` lists `ctx.Err()` as seen by each
call): let `k` be the number of reads that reached the underlying reader. Then the first `k` results are exactly the first `k` answers
of the underlying reader, only the last of those may be an error, and every later call returned no bytes and one and the same error: the
underlying one if there was one, else the first cancellation error seen. -/
theorem C07_sticky (under : Nat → ReadRes) (ctx : List (Option RErr)) :
    ∃ k, (cancelRun under newCancellable ctx).2.calls = k ∧ k ≤ ctx.length ∧
      (cancelRun under newCancellable ctx).1.take k = (List.range k).map under ∧
      (∀ i, i + 1 < k → (under i).2 = none) ∧
      (∀ i, i < k → ctx[i]? = some none) ∧
      (k < ctx.length → ∃ e, (∀ r ∈ (cancelRun under newCancellable ctx).1.drop k, r = ([], some e)) ∧
        ((0 < k ∧ (under (k-1)).2 = some e) ∨ ctx[k]? = some (some e))) := by
  -- once an error is stored nothing changes any more
  have stuck : ∀ ctx (c : Cancellable) e, c.err = some e →
      (cancelRun under c ctx).2 = c ∧ ∀ r ∈ (cancelRun under c ctx).1, r = ([], some e) := by
    intro ctx
    induction ctx with
    | nil => intro c e h; simp [cancelRun]
    | cons x rest ih =>
      intro c e h
      have hr : c.read x under = (c, [], some e) := by simp [Cancellable.read, h]
      have := ih c e h
      simp only [cancelRun, hr]
      refine ⟨this.1, ?_⟩
      intro r hr; simp at hr
      rcases hr with rfl | hr
      · rfl
      · exact this.2 r hr
  have gen : ∀ ctx (n : Nat),
      ∃ k, (cancelRun under ⟨none, n⟩ ctx).2.calls = n + k ∧ k ≤ ctx.length ∧
      (cancelRun under ⟨none, n⟩ ctx).1.take k = (List.range k).map (fun i => under (n + i)) ∧
      (∀ i, i + 1 < k → (under (n + i)).2 = none) ∧
      (∀ i, i < k → ctx[i]? = some none) ∧
      (k < ctx.length → ∃ e, (∀ r ∈ (cancelRun under ⟨none, n⟩ ctx).1.drop k, r = ([], some e)) ∧
        ((0 < k ∧ (under (n + (k-1))).2 = some e) ∨ ctx[k]? = some (some e))) := by
    intro ctx
    induction ctx with
    | nil => intro n; exact ⟨0, by simp [cancelRun], by simp, by simp, by omega, by omega, by simp⟩
    | cons x rest ih =>
      intro n
      cases x with
      | some e =>
        refine ⟨0, ?_, by simp, by simp, by omega, by omega, ?_⟩
        · simp only [cancelRun, Cancellable.read]
          rw [(stuck rest ⟨some e, n⟩ e rfl).1]; simp
        · intro _
          refine ⟨e, ?_, Or.inr (by simp)⟩
          simp only [cancelRun, Cancellable.read]
          intro r hr; simp at hr
          rcases hr with rfl | hr
          · rfl
          · exact (stuck rest ⟨some e, n⟩ e rfl).2 r hr
      | none =>
        cases hu : (under n).2 with
        | some e =>
          have hru : under n = ((under n).1, some e) := by rw [← hu]
          have hstep : (Cancellable.mk none n).read none under = (⟨some e, n + 1⟩, under n) := by
            simp only [Cancellable.read]; rw [hru]
          refine ⟨1, ?_, by simp, ?_, by omega, ?_, ?_⟩
          · simp only [cancelRun, hstep]
            rw [(stuck rest ⟨some e, n+1⟩ e rfl).1]
          · simp [cancelRun, hstep]
          · intro i hi; have : i = 0 := by omega
            subst this; simp
          · intro _
            refine ⟨e, ?_, Or.inl ⟨by omega, by simpa using hu⟩⟩
            simp only [cancelRun, hstep]
            intro r hr; simp at hr
            exact (stuck rest ⟨some e, n+1⟩ e rfl).2 r hr
        | none =>
          have hru : under n = ((under n).1, none) := by rw [← hu]
          have hstep : (Cancellable.mk none n).read none under = (⟨none, n + 1⟩, under n) := by
            simp only [Cancellable.read]; rw [hru]
          obtain ⟨k, h1, h2, h3, h4, h5, h6⟩ := ih (n + 1)
          refine ⟨k + 1, ?_, by simp; omega, ?_, ?_, ?_, ?_⟩
          · simp only [cancelRun, hstep]; omega
          · simp only [cancelRun, hstep, List.take_succ_cons, h3]
            rw [List.range_succ_eq_map, List.map_cons, List.map_map]
            simp only [Nat.add_zero, List.cons.injEq, true_and]
            apply List.map_congr_left
            intro i _; simp only [Function.comp]; congr 1; omega
          · intro i hi
            cases i with
            | zero => simpa using hu
            | succ i => have := h4 i (by omega); rw [← this]; congr 2; omega
          · intro i hi
            cases i with
            | zero => simp
            | succ i => simpa using h5 i (by omega)
          · intro hk
            obtain ⟨e, g1, g2⟩ := h6 (by simpa using hk)
            refine ⟨e, ?_, ?_⟩
            · simpa [cancelRun, hstep] using g1
            · rcases g2 with ⟨a, b⟩ | g2
              · left; refine ⟨by omega, ?_⟩
                rw [← b]; congr 2; omega
              · right; simpa using g2
  simpa [newCancellable] using gen ctx 0

example : (cancelRun (fun i => ([UInt8.ofNat i], none)) newCancellable [none, none, some (.other 7), none]).1 =
    [([0], none), ([1], none), ([], some (.other 7)), ([], some (.other 7))] := by decide

/-! ## C08 -/

/-- Keep reading with the given buffer lengths until EOF is reported: the bytes, what is left, and whether EOF was seen. -/
def multiReadMany (pick : Nat → Nat) (early : Nat → Bool) : Nat → List Nat → List Bytes → Bytes × List Bytes × Bool
  | _, [], ps => ([], ps, false)
  | call, len :: lens, ps =>
    match multiRead pick early call len ps with
    | (ps', b, some _) => (b, ps', true)
    | (ps', b, none) =>
      let (bs, psf, eof) := multiReadMany pick early (call + 1) lens ps'
      (b ++ bs, psf, eof)

theorem multiRead_spec (pick : Nat → Nat) (early : Nat → Bool) (call len : Nat) (ps : List Bytes) :
    ∃ ps' b e, multiRead pick early call len ps = (ps', b, e) ∧ b ++ ps'.flatten = ps.flatten ∧ b.length ≤ len ∧
      (e = none ∨ e = some .eof) ∧ (e = some .eof → ps' = []) ∧
      (e = none → 0 < len → 0 < b.length) := by
  induction ps generalizing call with
  | nil => exact ⟨[], [], some .eof, rfl, rfl, by simp, by simp, by simp, by simp⟩
  | cons part rest ih =>
    unfold multiRead
    simp only
    have htd := List.take_append_drop (min (min len (pick call + 1)) part.length) part
    split
    · rename_i heof
      simp at heof
      split
      · refine ⟨rest, _, _, rfl, ?_, by simp; omega, by split <;> simp, by split <;> simp_all, by intros; assumption⟩
        have : part.drop (min (min len (pick call + 1)) part.length) = [] := by simp; omega
        rw [this] at htd; simp at htd; simp [htd]
      · rename_i hb
        obtain ⟨ps', b, e, h1, h2, h3, h4, h5, h6⟩ := ih (call + 1)
        refine ⟨ps', b, e, h1, ?_, h3, h4, h5, h6⟩
        have : part = [] := by
          simp at hb
          rcases part with _ | ⟨x, xs⟩
          · rfl
          · simp at hb heof; omega
        simp [h2, this]
    · rename_i heof
      refine ⟨_, _, none, rfl, ?_, by simp; omega, by simp, by simp, ?_⟩
      · simp only [List.flatten_cons, ← List.append_assoc, htd]
      · intro _ hl
        simp at heof ⊢
        rcases part with _ | ⟨x, xs⟩
        · simp at heof
        · simp; omega

/-- **C08.** Reading sequentially with any buffer lengths and any short-read pattern: the bytes delivered are always a prefix of
the concatenation of the parts, and when EOF is reported they are all of it. -/
theorem C08_reads_concatenation (pick : Nat → Nat) (early : Nat → Bool) (call : Nat) (lens : List Nat) (ps : List Bytes) :
    (multiReadMany pick early call lens ps).1 ++ (multiReadMany pick early call lens ps).2.1.flatten = ps.flatten ∧
    ((multiReadMany pick early call lens ps).2.2 = true → (multiReadMany pick early call lens ps).1 = ps.flatten) := by
  induction lens generalizing call ps with
  | nil => simp [multiReadMany]
  | cons len lens ih =>
    obtain ⟨ps', b, e, h1, h2, h3, h4, h5, h6⟩ := multiRead_spec pick early call len ps
    unfold multiReadMany
    rw [h1]
    rcases h4 with rfl | rfl
    · simp only
      have := ih (call + 1) ps'
      constructor
      · rw [List.append_assoc, this.1, h2]
      · intro h; rw [this.2 h, h2]
    · have := h5 rfl
      subst this
      simp at h2 ⊢
      exact h2

/-- **C08, progress.** With non-empty buffers, as many reads as there are bytes plus one always reach EOF. -/
theorem C08_reaches_eof (pick : Nat → Nat) (early : Nat → Bool) (call : Nat) (lens : List Nat) (ps : List Bytes)
    (hpos : ∀ l ∈ lens, 0 < l) (hlen : ps.flatten.length < lens.length) :
    (multiReadMany pick early call lens ps).2.2 = true := by
  induction lens generalizing call ps with
  | nil => simp at hlen
  | cons len lens ih =>
    obtain ⟨ps', b, e, h1, h2, h3, h4, h5, h6⟩ := multiRead_spec pick early call len ps
    unfold multiReadMany
    rw [h1]
    rcases h4 with rfl | rfl
    · simp only
      have hb := h6 rfl (hpos len (by simp))
      apply ih (call + 1) ps' (fun l hl => hpos l (by simp [hl]))
      have := congrArg List.length h2
      simp only [List.length_append] at this
      simp only [List.length_cons] at hlen
      omega
    · rfl

theorem multiCloseLoop_eq (i : Nat) (cs : List (Option RErr)) (log : List Nat) (errs : List (Option RErr)) :
    multiCloseLoop i cs log errs = (log ++ List.range' i cs.length, gatherPrefixed (errs ++ cs)) := by
  induction cs generalizing i log errs with
  | nil => simp [multiCloseLoop]
  | cons c rest ih => simp [multiCloseLoop, ih, List.range'_succ]

/-- **C08, Close.** Every part is closed exactly once, in order, whatever fails; the result is nil exactly when all closes
succeeded, and otherwise carries every error. -/
theorem C08_close_all (closers : List (Option RErr)) :
    (multiClose closers).1 = List.range closers.length ∧
    ((multiClose closers).2 = none ↔ ∀ c ∈ closers, c = none) ∧
    (∀ es, (multiClose closers).2 = some es → es = closers) := by
  unfold multiClose
  rw [multiCloseLoop_eq]
  refine ⟨by simp [List.range_eq_range'], ?_, ?_⟩
  · simp only [List.nil_append, gatherPrefixed]
    constructor
    · intro h c hc
      split at h
      · rename_i h0; have := List.eq_nil_of_length_eq_zero h0; subst this; simp at hc
      · split at h
        · simp at h
        · rename_i h1; simp at h1
          cases c with
          | none => rfl
          | some e => exact absurd hc (by intro hc; have := h1 _ hc; simp at this)
    · intro h
      split
      · rfl
      · rw [if_neg]; simp
        intro x hx; exact h x hx
  · simp only [List.nil_append, gatherPrefixed]
    intro es h
    split at h
    · simp at h
    · split at h
      · simp at h; exact h.symm
      · simp at h

/-- **C08, Gather.** The gathered error is nil exactly when all are nil, and otherwise wraps exactly the non-nil ones in order. -/
theorem C08_gather {ε : Type} (errs : List (Option ε)) :
    (gather errs = none ↔ ∀ e ∈ errs, e = none) ∧ (∀ es, gather errs = some es → es.map some = errs.filter Option.isSome) := by
  have hf : ∀ l : List (Option ε), (l.filterMap id).map some = l.filter Option.isSome := by
    intro l
    induction l with
    | nil => rfl
    | cons x xs ih => cases x <;> simp [ih]
  have hz : ∀ l : List (Option ε), (l.filterMap id).length = 0 ↔ ∀ e ∈ l, e = none := by
    intro l
    induction l with
    | nil => simp
    | cons x xs ih => cases x <;> simp_all
  unfold gather
  simp only
  constructor
  · constructor
    · intro h
      split at h
      · rename_i h0; have := List.eq_nil_of_length_eq_zero h0; subst this; simp
      · split at h
        · rename_i h1; exact (hz errs).mp h1
        · simp at h
    · intro h
      split
      · rfl
      · rw [if_pos ((hz errs).mpr h)]
  · intro es h
    split at h
    · simp at h
    · split at h
      · simp at h
      · simp at h; subst h; exact hf errs

example : (multiReadMany (fun _ => 1) (fun c => c % 2 == 0) 0 [3,3,3,3,3] [[1,2,3],[],[4]]).1 = [1,2,3,4] := by decide
example : multiClose [none, some (.other 3), none] = ([0,1,2], some [none, some (.other 3), none]) := by decide

end Verif.Stream
