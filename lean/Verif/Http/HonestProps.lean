import Verif.Http.ReadProps
/-
Property C14 continued: end of file, and what an honest server guarantees over whole histories.
-/
namespace Verif.Http

/-- C14, whatever the server does: EOF is reported only when the read reached the end of the section, or the size the object is pinned
to, and that size was pinned before or is what the answer to this read states. -/
theorem C14_eof_only_at_end (v : View) (hv : ValidView v) (m : Option ObjMeta) (len : Nat) (off : Int) (hi : off ≤ maxInt64)
    (resp : Option Resp) (m' : Option ObjMeta) (bs : Bytes) (h : readAt v m len off resp = (m', bs, some .eof)) :
    v.end_ ≤ v.base + off + bs.length ∨
    ∃ z, knownSize m' = some z ∧ z ≤ v.base + off + bs.length ∧ (knownSize m = some z ∨ ∃ r, resp = some r ∧ SaysTotal r z) := by
  rcases readPlan_spec v hv m len off hi with ⟨_, hp⟩ | ⟨_, hor, hp⟩ | ⟨_, hl, hp⟩ | ⟨h0, hlt, hz, k, hp, hk0, hkl, hke, hkz, hcut⟩
  · unfold readAt at h; rw [hp] at h; simp at h
  · unfold readAt at h; rw [hp] at h; simp at h; obtain ⟨rfl, rfl⟩ := h
    rcases hor with hor | ⟨z, h1, h2⟩
    · left; simp; omega
    · right; exact ⟨z, h1, by simp; omega, Or.inl h1⟩
  · unfold readAt at h; rw [hp] at h; simp at h
  · unfold readAt at h
    rw [hp] at h
    simp only at h
    generalize (decide (ifRangeValue m ≠ [])) = ifr at h
    have hb : 0 ≤ v.base + off := by obtain ⟨a, _, _⟩ := hv; omega
    generalize habs : v.base + off = abs at *
    unfold handleResp at h
    cases resp with
    | none => simp at h
    | some r =>
      simp only at h
      split at h
      · simp at h
      · split at h
        · rename_i h206
          unfold checkPartial at h
          cases hpc : parseContentRange r.contentRange with
          | none => simp [hpc] at h
          | some p =>
            obtain ⟨start, last, total⟩ := p
            simp only [hpc] at h
            by_cases hbad : start ≠ abs ∨ last > abs + (k : Int) - 1 ∨ (last ≠ abs + (k : Int) - 1 ∧ last ≠ total - 1)
            · rw [if_pos hbad] at h; simp at h
            · rw [if_neg hbad] at h
              cases hpin : pinOrVerify m r total with
              | none => simp [hpin] at h
              | some mm =>
                simp only [hpin] at h
                obtain ⟨hag, hks⟩ := pin_size hpin
                have hn := parse_nonneg hpc
                by_cases hshort : (r.body.length : Int) < last - start + 1
                · rw [if_pos hshort] at h
                  simp at h
                  exfalso
                  have := h.2.2
                  split at this <;> simp at this
                · rw [if_neg hshort] at h
                  simp at h
                  obtain ⟨rfl, rfl, he⟩ := h
                  have hlen : (r.body.take (last - start + 1).toNat).length = (last - start + 1).toNat := by
                    simp; omega
                  rw [hlen]
                  by_cases he1 : abs + max (last - start + 1) 0 = total
                  · right; exact ⟨total, hks, by omega, Or.inr ⟨r, rfl, Or.inl ⟨Or.inl h206, _, _, hpc⟩⟩⟩
                  · have := he he1; left; omega
        · split at h
          · rename_i h416
            simp at h
            obtain ⟨rfl, rfl, he⟩ := h
            right
            unfold readUnsatisfied at he ⊢
            cases hpc : parseContentRange r.contentRange with
            | none => simp [hpc] at he
            | some p =>
              obtain ⟨start, last, total⟩ := p
              simp only [hpc] at he ⊢
              split
              · rename_i hne; rw [if_pos hne] at he; simp at he
              · rename_i hne
                rw [if_neg hne] at he
                cases hpin : pinOrVerify m r total with
                | none => simp [hpin] at he
                | some mm =>
                  simp only [hpin] at he ⊢
                  obtain ⟨_, hks⟩ := pin_size hpin
                  split
                  · rename_i hlt; rw [if_pos hlt] at he; simp at he
                  · exact ⟨total, hks, by simp; omega, Or.inr ⟨r, rfl, Or.inl ⟨Or.inr h416, _, _, hpc⟩⟩⟩
          · split at h
            · rename_i h200
              split at h
              · rename_i hemp
                cases hpin : pinOrVerify m r 0 with
                | none => simp [hpin] at h
                | some mm =>
                  simp [hpin] at h
                  obtain ⟨rfl, rfl⟩ := h
                  right; exact ⟨0, (pin_size hpin).2, by simp; omega, Or.inr ⟨r, rfl, Or.inr ⟨h200, hemp.1, (emptyEntity_iff r).1 hemp.2, rfl⟩⟩⟩
              · split at h <;> simp at h
            · simp at h

/-- An honest answer about `content`: ranges, totals and bodies tell the truth.  Bodies may be cut or fail anywhere, the server may
refuse or answer with any other status. -/
structure HonestResp (content : Bytes) (r : Resp) : Prop where
  partial_ : r.status = 206 → ∀ a b t, parseContentRange r.contentRange = some (a, b, t) →
    t = content.length ∧ (0 ≤ a → r.body <+: slice content a.toNat (b - a + 1).toNat)
  refused : r.status = 416 → ∀ a b t, parseContentRange r.contentRange = some (a, b, t) → t = content.length
  empty : r.status = 200 → r.contentRange = [] → SaysEmpty r → content = []

/-- What is pinned about the size is true. -/
def MetaTrue (content : Bytes) (m : Option ObjMeta) : Prop := ∀ z, knownSize m = some z → z = content.length

/-- Calls on one reader, with the answers the server gives to the requests they make. -/
inductive Call where
  | read (len : Nat) (off : Int) (resp : Option Resp)
  | probe (resp : Option Resp)

/-- What a call returned. -/
inductive Ret where
  | read (bs : Bytes) (e : Option HErr)
  | probe (e : Option HErr)

/-- Run the calls one after the other. -/
def run (v : View) (m : Option ObjMeta) : List Call → List (Call × Ret)
  | [] => []
  | .read len off resp :: rest =>
    let (m', bs, e) := readAt v m len off resp
    (.read len off resp, .read bs e) :: run v m' rest
  | .probe resp :: rest =>
    let (m', e) := probe m resp
    (.probe resp, .probe e) :: run v m' rest

/-- Specification of one read of the section `[base, limit)` of `content`. -/
def ReadOK (content : Bytes) (base limit : Int) (len : Nat) (off : Int) (bs : Bytes) (e : Option HErr) : Prop :=
  (off < 0 → bs = [] ∧ e = some .negativeOffset) ∧
  (0 ≤ off → bs = slice content (base + off).toNat bs.length ∧ bs.length ≤ len ∧ (bs ≠ [] → base + off + bs.length ≤ limit) ∧
    (e = none → bs.length = len) ∧
    (e = some .eof → limit ≤ base + off + bs.length ∨ content.length ≤ base + off + bs.length))

theorem pin_true {content : Bytes} {m m' : Option ObjMeta} {r : Resp} {t : Int} (h : pinOrVerify m r t = some m') (ht : t = content.length) :
    MetaTrue content m' := by
  intro z hz; rw [(pin_size h).2] at hz; simp at hz; omega

/-- One read against an honest server keeps the pinned size true. -/
theorem readAt_metaTrue (content : Bytes) (v : View) (m : Option ObjMeta) (hm : MetaTrue content m) (len : Nat) (off : Int)
    (resp : Option Resp) (hr : ∀ r, resp = some r → HonestResp content r) : MetaTrue content (readAt v m len off resp).1 := by
  unfold readAt
  cases readPlan v m len off with
  | done e => exact hm
  | ask k abs =>
    simp only
    unfold handleResp
    cases resp with
    | none => exact hm
    | some r =>
      have hr := hr r rfl
      simp only
      split
      · exact hm
      · split
        · rename_i h206
          unfold checkPartial
          cases hpc : parseContentRange r.contentRange with
          | none => exact hm
          | some p =>
            obtain ⟨start, last, total⟩ := p
            simp only
            have ht := (hr.partial_ h206 _ _ _ hpc).1
            by_cases hbad : start ≠ abs ∨ last > abs + (k : Int) - 1 ∨ (last ≠ abs + (k : Int) - 1 ∧ last ≠ total - 1)
            · rw [if_pos hbad]; exact hm
            · rw [if_neg hbad]
              cases hpin : pinOrVerify m r total with
              | none => exact hm
              | some mm =>
                simp only
                split <;> exact pin_true hpin ht
        · split
          · rename_i h416
            simp only
            unfold readUnsatisfied
            cases hpc : parseContentRange r.contentRange with
            | none => exact hm
            | some p =>
              obtain ⟨start, last, total⟩ := p
              simp only
              have ht := hr.refused h416 _ _ _ hpc
              split
              · exact hm
              · cases hpin : pinOrVerify m r total with
                | none => exact hm
                | some mm =>
                  simp only
                  split <;> exact pin_true hpin ht
          · split
            · rename_i h200
              split
              · rename_i hempty
                cases hpin : pinOrVerify m r 0 with
                | none => exact hm
                | some mm => exact pin_true hpin (by rw [hr.empty h200 hempty.1 ((emptyEntity_iff r).1 hempty.2)]; rfl)
              · split <;> exact hm
            · exact hm

theorem probe_metaTrue (content : Bytes) (m : Option ObjMeta) (hm : MetaTrue content m)
    (resp : Option Resp) (hr : ∀ r, resp = some r → HonestResp content r) : MetaTrue content (probe m resp).1 := by
  unfold probe
  cases resp with
  | none => exact hm
  | some r =>
    have hr := hr r rfl
    simp only
    split
    · exact hm
    · split
      · rename_i h206
        cases hpc : parseContentRange r.contentRange with
        | none => exact hm
        | some p =>
          obtain ⟨start, last, total⟩ := p
          simp only
          have ht := (hr.partial_ h206 _ _ _ hpc).1
          split
          · exact hm
          · cases hpin : pinOrVerify m r total with
            | none => exact hm
            | some mm => exact pin_true hpin ht
      · split
        · rename_i h416
          cases hpc : parseContentRange r.contentRange with
          | none => exact hm
          | some p =>
            obtain ⟨start, last, total⟩ := p
            simp only
            have ht := hr.refused h416 _ _ _ hpc
            split
            · exact hm
            · cases hpin : pinOrVerify m r total with
              | none => exact hm
              | some mm => simp only; split <;> exact pin_true hpin ht
        · split
          · rename_i h200
            split
            · exact hm
            · rename_i hempty
              simp at hempty
              cases hpin : pinOrVerify m r 0 with
              | none => exact hm
              | some mm => exact pin_true hpin (by rw [hr.empty h200 hempty.1 ((emptyEntity_iff r).1 hempty.2)]; rfl)
          · exact hm

theorem readAt_ok (content : Bytes) (v : View) (hv : ValidView v) (m : Option ObjMeta) (hm : MetaTrue content m) (len : Nat) (off : Int)
    (hi : off ≤ maxInt64) (resp : Option Resp) (hr : ∀ r, resp = some r → HonestResp content r) (m' : Option ObjMeta) (bs : Bytes)
    (e : Option HErr) (h : readAt v m len off resp = (m', bs, e)) : ReadOK content v.base v.end_ len off bs e := by
  have hm' : MetaTrue content m' := by
    have := readAt_metaTrue content v m hm len off resp hr
    rw [h] at this; exact this
  refine ⟨?_, ?_⟩
  · intro h0
    have : readPlan v m len off = .done (some .negativeOffset) := by simp [readPlan, h0]
    unfold readAt at h; rw [this] at h; simp at h
    obtain ⟨_, rfl, rfl⟩ := h; simp
  · intro h0
    obtain ⟨h1, h2, h3⟩ := C14_only_requested_bytes v hv m len off hi resp m' bs e h
    refine ⟨?_, h1, ?_, h2, ?_⟩
    · by_cases hb : bs = []
      · subst hb; simp
      · obtain ⟨r, last, total, hr1, hr2, _, hr4, _, _, hr7, hr8, _, _⟩ := h3 hb
        have hon := (hr r hr1).partial_ hr2 _ _ _ hr4
        have hbase := hv.1
        have hpre := hon.2 (by omega)
        have hlen : bs.length ≤ r.body.length := by
          have := congrArg List.length hr7; simp at this; omega
        obtain ⟨t, ht⟩ := hpre
        have hbs : bs = (slice content (v.base + off).toNat (last - (v.base + off) + 1).toNat).take bs.length := by
          rw [← ht, List.take_append_of_le_length hlen]; exact hr7
        rw [slice, List.take_take] at hbs
        rw [slice]
        have hmin : min bs.length (last - (v.base + off) + 1).toNat = bs.length := by omega
        rw [hmin] at hbs
        exact hbs
    · intro hb
      -- the plan clips at the section's end
      rcases readPlan_spec v hv m len off hi with ⟨_, hp⟩ | ⟨_, hor, hp⟩ | ⟨_, hl, hp⟩ | ⟨_, hlt, hz, k, hp, hk0, hkl, hke, hkz, hcut⟩
      · unfold readAt at h; rw [hp] at h; simp at h; exact absurd h.2.1 hb
      · unfold readAt at h; rw [hp] at h; simp at h; exact absurd h.2.1 hb
      · unfold readAt at h; rw [hp] at h; simp at h; exact absurd h.2.1 hb
      · -- run the same request with the clipped length
        have h' : readAt v m k off resp = (m', bs, e) := by
          have hp' : readPlan v m k off = .ask k (v.base + off) := by
            rcases readPlan_spec v hv m k off hi with ⟨q, _⟩ | ⟨_, hor, _⟩ | ⟨_, hl, _⟩ | ⟨_, _, _, k2, hp2, hk20, hk2l, hk2e, hk2z, hcut2⟩
            · omega
            · rcases hor with hor | ⟨z, hz1, hz2⟩
              · omega
              · have := hz z hz1; omega
            · omega
            · have : k2 = k := by
                rcases Nat.lt_or_ge k2 k with hlt2 | hge2
                · rcases hcut2 hlt2 with hc | hz1
                  · omega
                  · have := hkz _ hz1; omega
                · omega
              rw [hp2, this]
          unfold readAt at h ⊢
          rw [hp] at h; rw [hp']; exact h
        have := (C14_only_requested_bytes v hv m k off hi resp m' bs e h').1
        omega
    · intro he
      subst he
      rcases C14_eof_only_at_end v hv m len off hi resp m' bs h with hh | ⟨z, hz1, hz2⟩
      · left; exact hh
      · right; rw [← hm' z hz1]; exact hz2.1

/-- C14 over histories: against a server whose answers about the object are true (however late, cut short, refused or failing), with the
caller's prior knowledge of the size true or absent, every read of every history returns only the object's bytes at the requested
place, a nil error only for a full buffer, and EOF only at the end of the section or of the object.
Missing from C14: servers that lie about the bytes. -/
theorem C14_history_exact_partial (content : Bytes) (v : View) (hv : ValidView v) (m : Option ObjMeta) (hm : MetaTrue content m)
    (calls : List Call)
    (hoff : ∀ len off resp, Call.read len off resp ∈ calls → off ≤ maxInt64)
    (hread : ∀ len off r, Call.read len off (some r) ∈ calls → HonestResp content r)
    (hprobe : ∀ r, Call.probe (some r) ∈ calls → HonestResp content r) :
    ∀ len off resp bs e, (Call.read len off resp, Ret.read bs e) ∈ run v m calls → ReadOK content v.base v.end_ len off bs e := by
  induction calls generalizing m with
  | nil => intro len off resp bs e h; simp [run] at h
  | cons c rest ih =>
    have hoff' := fun len off resp h => hoff len off resp (List.mem_cons_of_mem c h)
    have hread' := fun len off r h => hread len off r (List.mem_cons_of_mem c h)
    have hprobe' := fun r h => hprobe r (List.mem_cons_of_mem c h)
    intro len off resp bs e h
    cases c with
    | read l o rsp =>
      simp only [run, List.mem_cons] at h
      have hrr : ∀ r, rsp = some r → HonestResp content r := by
        intro r hr; subst hr; exact hread l o r (by simp)
      rcases h with h | h
      · simp at h
        obtain ⟨⟨rfl, rfl, rfl⟩, rfl, rfl⟩ := h
        exact readAt_ok content v hv m hm len off (hoff len off resp (by simp)) resp hrr _ _ _ rfl
      · exact ih _ (readAt_metaTrue content v m hm l o rsp hrr) hoff' hread' hprobe' len off resp bs e h
    | probe rsp =>
      simp only [run, List.mem_cons] at h
      have hrr : ∀ r, rsp = some r → HonestResp content r := by
        intro r hr; subst hr; exact hprobe r (by simp)
      rcases h with h | h
      · simp at h
      · exact ih _ (probe_metaTrue content m hm rsp hrr) hoff' hread' hprobe' len off resp bs e h

/-- The answer of a working server to a request for `[abs, abs+len)` of `content`. -/
def serve (content : Bytes) (etag : Str) (len : Nat) (abs : Nat) : Resp :=
  if abs < content.length then
    { status := 206, etag := etag
      contentRange := formatRange abs (min (abs + len) content.length - 1) content.length
      body := slice content abs len }
  else { status := 416, etag := etag, contentRange := "bytes */".toList ++ natDigits content.length }

theorem parse_unsat (t : Nat) (h : (t : Int) ≤ maxInt64) :
    parseContentRange ("bytes */".toList ++ natDigits t) = some (-1, -1, (t : Int)) := by
  refine (C13_parse_exact _ _ _ _).2 (Or.inr ⟨t, ?_, h, rfl, rfl, rfl⟩)
  exact ⟨[], "bytes".toList, [], natDigits t, [], by simp, by simp, by simp, bytes_unit, by simp, natDigits_isDecimal _⟩

/-- Arithmetic of a planned request: what is asked, cut by the object's end, is what the section still holds. -/
theorem plan_arith (clen lim pos k len : Nat) (e : Int) (hlim : (lim : Int) = min (clen : Int) e)
    (hk : 0 < k) (hkl : k ≤ len) (hke : (pos : Int) + k ≤ e) (hpe : (pos : Int) < e)
    (hcut : k < len → (pos : Int) + k = e ∨ pos + k = clen) (hin : pos < clen) :
    min k (clen - pos) = min len (lim - pos) ∧
    (((pos : Int) + ((min k (clen - pos) : Nat) : Int) = (clen : Int) ∨ (pos : Int) + ((min k (clen - pos) : Nat) : Int) = e) ↔
      lim ≤ pos + len) := by
  have hkk : min k (clen - pos) = min len (lim - pos) := by
    rcases Nat.lt_or_ge k len with h | h
    · rcases hcut h with h1 | h1 <;> omega
    · omega
  refine ⟨hkk, ?_⟩
  rw [hkk]
  omega

/-- C14, the other direction: a working server is never refused.  Asked on a reader whose knowledge about the object is true, it makes
the read return exactly the bytes of the section, all of them, and EOF exactly when the end of the section or object is reached.
`lim` is where the section ends inside the object, `pos` the absolute position read. -/
theorem C14_working_server_served (content : Bytes) (hc : (content.length : Int) ≤ maxInt64) (etag : Str) (v : View) (hv : ValidView v)
    (m : Option ObjMeta) (hm : MetaTrue content m)
    (hag : ∀ mm, m = some mm → (mm.etag ≠ [] → mm.etag = etag)) (len : Nat) (hlen : 0 < len) (off lim pos : Nat)
    (hoff : (off : Int) ≤ maxInt64) (hlim : (lim : Int) = min (content.length : Int) v.end_) (hpos : (pos : Int) = v.base + off) :
    (∀ k abs, readPlan v m len off = .ask k abs → ∃ m', readAt v m len off (some (serve content etag k abs.toNat)) =
        (m', slice (content.take lim) pos len, if lim ≤ pos + len then some .eof else none)) ∧
    (∀ e, readPlan v m len off = .done e → slice (content.take lim) pos len = [] ∧ e = some .eof) := by
  obtain ⟨hv1, hv2, hv3⟩ := hv
  have hwant_nil : lim ≤ pos → slice (content.take lim) pos len = [] := by
    intro h; apply slice_of_ge; simp; omega
  rcases readPlan_spec v ⟨hv1, hv2, hv3⟩ m len off hoff with ⟨q, hp⟩ | ⟨_, hor, hp⟩ | ⟨_, hl, hp⟩ | ⟨_, hlt, hz, k, hp, hk0, hkl, hke, hkz, hcut⟩
  · omega
  · refine ⟨?_, ?_⟩
    · intro k abs h; rw [hp] at h; simp at h
    · intro e h
      rw [hp] at h; simp at h
      refine ⟨hwant_nil ?_, h.symm⟩
      rcases hor with hor | ⟨z, hz1, hz2⟩
      · omega
      · have := hm z hz1; omega
  · omega
  · have hpin : ∀ (r : Resp), r.etag = etag → r.lastModified = [] → r.origin = [] → ∃ m', pinOrVerify m r content.length = some m' := by
      intro r h1 h2 h3
      have hmis : mismatch m r content.length = false := by
        rw [mismatch_iff]
        intro mm hmm
        refine ⟨?_, ?_, by simp [h2], by simp [h3]⟩
        · intro hs
          have : knownSize m = some mm.size := by rw [hmm]; simp [knownSize, hs]
          exact (hm _ this).symm
        · intro _ h; rw [h1, hag mm hmm h]
      unfold pinOrVerify
      rw [hmis]
      exact ⟨_, rfl⟩
    refine ⟨?_, by intro e h; rw [hp] at h; simp at h⟩
    intro k' abs h
    rw [hp] at h; simp at h
    obtain ⟨rfl, rfl⟩ := h
    rw [← hpos] at *
    rw [Int.toNat_natCast]
    have hcut' : k < len → (pos : Int) + k = v.end_ ∨ pos + k = content.length := by
      intro h
      rcases hcut h with h1 | h1
      · exact Or.inl h1
      · right; have := hm _ h1; omega
    unfold readAt
    rw [hp]
    simp only
    generalize (decide (ifRangeValue m ≠ [])) = ifr
    clear hp hcut hz hkz
    by_cases hin : pos < content.length
    · have hserve : serve content etag k pos = { status := 206, etag := etag
                                                 contentRange := formatRange pos (min (pos + k) content.length - 1) content.length
                                                 body := slice content pos k : Resp } := by
        simp [serve, hin]
      obtain ⟨hkk, hiff⟩ := plan_arith content.length lim pos k len v.end_ hlim hk0 hkl hke hlt hcut' hin
      rw [hserve]
      obtain ⟨m', hm'⟩ := hpin { status := 206, etag := etag
                                 contentRange := formatRange pos (min (pos + k) content.length - 1) content.length
                                 body := slice content pos k : Resp } rfl rfl rfl
      refine ⟨m', ?_⟩
      unfold handleResp
      simp only [encodingOk]
      simp only [Bool.not_false, decide_true, Bool.true_or, Bool.and_self, Bool.not_true, Bool.false_eq_true, if_false, if_true]
      unfold checkPartial
      rw [show parseContentRange (formatRange pos (min (pos + k) content.length - 1) content.length) =
        some ((pos : Int), ((min (pos + k) content.length - 1 : Nat) : Int), (content.length : Int)) from
        C13_roundtrip _ _ _ (by omega) (by omega) hc]
      simp only
      rw [if_neg (by omega), hm']
      simp only
      have hbl : (slice content pos k).length = min k (content.length - pos) := slice_length _ _ _
      rw [if_neg (by rw [hbl]; omega)]
      have hn : (((min (pos + k) content.length - 1 : Nat) : Int) - (pos : Int) + 1).toNat = min k (content.length - pos) := by omega
      rw [hn]
      have htake : (slice content pos k).take (min k (content.length - pos)) = slice (content.take lim) pos len := by
        rw [List.take_of_length_le (by rw [hbl]; exact Nat.le_refl _)]
        have e1 : slice content pos k = slice content pos (min k (content.length - pos)) := slice_clip _ _ _
        have e2 : slice (content.take lim) pos len = slice (content.take lim) pos (min len ((content.take lim).length - pos)) := slice_clip _ _ _
        have e3 : (content.take lim).length = lim := by simp; omega
        rw [e1, e2, e3, hkk]
        unfold slice
        rw [List.drop_take, List.take_take]
        congr 1
        omega
      rw [htake]
      by_cases hfin : lim ≤ pos + len
      · rw [if_pos hfin, if_pos (hiff.2 hfin)]
      · rw [if_neg hfin, if_neg (fun x => hfin (hiff.1 x))]
    · have hserve : serve content etag k pos = { status := 416, etag := etag, contentRange := "bytes */".toList ++ natDigits content.length : Resp } := by
        simp [serve, hin]
      rw [hserve]
      obtain ⟨m', hm'⟩ := hpin { status := 416, etag := etag, contentRange := "bytes */".toList ++ natDigits content.length : Resp } rfl rfl rfl
      refine ⟨m', ?_⟩
      unfold handleResp
      simp only [encodingOk]
      simp only [Bool.not_false, decide_true, Bool.true_or, Bool.and_self, Bool.not_true, Bool.false_eq_true, if_false, if_true]
      rw [if_neg (by decide)]
      unfold readUnsatisfied
      simp only
      rw [parse_unsat _ hc]
      simp only [ne_eq, not_true_eq_false, if_false]
      rw [hm']
      simp only
      rw [if_neg (by omega), if_pos (by omega), hwant_nil (by omega)]

/-- non-vacuity of C14: a reader with nothing known over a section `[1, 4)` of a five byte object; a refused foreign answer; an honest one;
and a read past the end.  All answers satisfy `HonestResp` except the second, which the pinned ETag refuses. -/
example :
    let content : Bytes := [10, 11, 12, 13, 14]
    let v : View := ⟨1, 3⟩
    let r1 := serve content "A".toList 2 1
    let r2 := { serve content "B".toList 2 3 with etag := "B".toList }
    let (m1, b1, e1) := readAt v none 2 0 (some r1)
    let (m2, b2, e2) := readAt v m1 2 2 (some r2)
    let (_, b3, e3) := readAt v m2 2 1 (some (serve content "A".toList 2 2))
    (b1, e1) = ([11, 12], none) ∧ (b2, e2) = ([], some .objectChanged) ∧ (b3, e3) = ([12, 13], some .eof) ∧
    knownSize m1 = some 5 := by decide

theorem serve_honest (content : Bytes) (hc : (content.length : Int) ≤ maxInt64) (etag : Str) (len abs : Nat) (hl : 0 < len) :
    HonestResp content (serve content etag len abs) := by
  unfold serve
  split
  · rename_i h
    have hp := C13_roundtrip abs (min (abs + len) content.length - 1) content.length (by omega) (by omega) hc
    refine ⟨?_, by simp, by simp⟩
    intro _ a b t hpc
    simp only at hpc
    rw [hp] at hpc
    simp at hpc
    obtain ⟨rfl, rfl, rfl⟩ := hpc
    refine ⟨rfl, fun _ => ?_⟩
    show slice content abs len <+: _
    rw [slice_clip content abs len]
    have : (((min (abs + len) content.length - 1 : Nat) : Int) - (abs : Int) + 1).toNat = min len (content.length - abs) := by omega
    rw [this, Int.toNat_natCast]
    exact List.prefix_refl _
  · refine ⟨by simp, ?_, by simp⟩
    intro _ a b t hpc
    simp only at hpc
    rw [parse_unsat _ hc] at hpc
    simp at hpc
    omega

/-- C14, the probe that opens a reader, whatever the server does: it succeeds only for an answer that is not encoded, contradicts nothing
pinned, and is either exactly the one byte asked for, or a statement that the object is empty; the size pinned then is the one stated. -/
theorem C14_probe_accepts (m m' : Option ObjMeta) (resp : Option Resp) (h : probe m resp = (m', none)) :
    ∃ r z, resp = some r ∧ NotEncoded r ∧ Agrees m r z ∧ SaysTotal r z ∧ knownSize m' = some z ∧
      ((r.status = 206 ∧ parseContentRange r.contentRange = some (0, 0, z)) ∨
       (r.status = 416 ∧ parseContentRange r.contentRange = some (-1, -1, z) ∧ z = 0) ∨
       (r.status = 200 ∧ z = 0)) := by
  unfold probe at h
  cases resp with
  | none => simp at h
  | some r =>
    simp only at h
    split at h
    · simp at h
    · rename_i henc
      have henc : encodingOk r = true := by simpa using henc
      split at h
      · rename_i h206
        cases hpc : parseContentRange r.contentRange with
        | none => simp [hpc] at h
        | some p =>
          obtain ⟨a, b, z⟩ := p
          simp only [hpc] at h
          split at h
          · simp at h
          · rename_i hab
            have ha : a = 0 := by omega
            have hb : b = 0 := by omega
            cases hpin : pinOrVerify m r z with
            | none => simp [hpin] at h
            | some mm =>
              simp [hpin] at h
              subst h
              subst ha
              subst hb
              exact ⟨r, z, rfl, (encodingOk_iff r).1 henc, (pin_size hpin).1, Or.inl ⟨Or.inl h206, _, _, hpc⟩, (pin_size hpin).2, Or.inl ⟨h206, hpc⟩⟩
      · split at h
        · rename_i h416
          cases hpc : parseContentRange r.contentRange with
          | none => simp [hpc] at h
          | some p =>
            obtain ⟨a, b, z⟩ := p
            simp only [hpc] at h
            split at h
            · simp at h
            · rename_i ha
              cases hpin : pinOrVerify m r z with
              | none => simp [hpin] at h
              | some mm =>
                simp only [hpin] at h
                split at h
                · simp at h
                · rename_i hz
                  simp at h
                  subst h
                  have hn := parse_nonneg hpc
                  have h1 : a = -1 := by omega
                  have h2 : b = -1 := by omega
                  have h3 : z = 0 := by omega
                  rw [h1, h2] at hpc
                  exact ⟨r, z, rfl, (encodingOk_iff r).1 henc, (pin_size hpin).1, Or.inl ⟨Or.inr h416, _, _, hpc⟩, (pin_size hpin).2, Or.inr (Or.inl ⟨h416, hpc, h3⟩)⟩
        · split at h
          · rename_i h200
            split at h
            · simp at h
            · rename_i hem
              have hem : r.contentRange = [] ∧ emptyEntity r = true := by
                constructor
                · exact Decidable.not_not.1 (fun x => hem (Or.inl x))
                · cases he : emptyEntity r with
                  | true => rfl
                  | false => exact absurd (Or.inr (by rw [he]; rfl)) hem
              cases hpin : pinOrVerify m r 0 with
              | none => simp [hpin] at h
              | some mm =>
                simp [hpin] at h
                subst h
                exact ⟨r, 0, rfl, (encodingOk_iff r).1 henc, (pin_size hpin).1, Or.inr ⟨h200, hem.1, (emptyEntity_iff r).1 hem.2, rfl⟩,
                  (pin_size hpin).2, Or.inr (Or.inr ⟨h200, rfl⟩)⟩
          · simp at h

example : (probe none (some (serve [10, 11] "A".toList 1 0))).2 = none ∧ (probe none (some (serve [] "A".toList 1 0))).2 = none ∧
    (probe none (some (serve [10, 11] "A".toList 2 0))).2 = some .objectChanged := by decide

/-- C14, what a reader starts from: prior knowledge is pinned as given; a size of zero (or less) is no knowledge of the size.  Hence true
prior knowledge is a true description, which is what the histories of `C14_history_exact_partial` start from. -/
theorem C14_prior_knowledge (etag lastModified : Str) (size : Int) :
    (∀ content : Bytes, (0 < size → size = content.length) → MetaTrue content (priorMeta etag lastModified size)) ∧
    (knownSize (priorMeta etag lastModified size) = if 0 < size then some size else none) ∧
    (∀ r total, Agrees (priorMeta etag lastModified size) r total ↔
      (0 < size → total = size) ∧ (r.etag ≠ [] → etag ≠ [] → r.etag = etag) ∧
      (r.lastModified ≠ [] → lastModified ≠ [] → r.lastModified = lastModified)) := by
  have hk : knownSize (priorMeta etag lastModified size) = if 0 < size then some size else none := by
    unfold priorMeta
    by_cases hs : 0 < size
    · simp [hs, knownSize]
    · simp only [hs, if_false]
      split <;> simp [knownSize]
  refine ⟨?_, hk, ?_⟩
  · intro content h z hz
    rw [hk] at hz
    split at hz
    · rename_i hs; simp at hz; rw [← hz]; exact h hs
    · simp at hz
  · intro r total
    unfold priorMeta Agrees
    split
    · simp
    · rename_i hn
      have h1 : etag = [] := Decidable.not_not.1 (fun x => hn (Or.inl x))
      have h2 : lastModified = [] := Decidable.not_not.1 (fun x => hn (Or.inr (Or.inl x)))
      have h3 : ¬ 0 < size := fun x => hn (Or.inr (Or.inr x))
      simp [h1, h2, h3]

/-- A weak entity tag, as RFC 9110 writes it. -/
def Weak (etag : Str) : Prop := ∃ rest, etag = 'W' :: '/' :: rest

/-- C14, conditional requests: what is sent in If-Range is the pinned entity tag if there is one and it is strong, otherwise the pinned
date if there is one; a weak tag is never sent. -/
theorem C14_if_range_strong (mm : ObjMeta) :
    (mm.etag ≠ [] → ¬ Weak mm.etag → ifRangeValue (some mm) = mm.etag) ∧
    (mm.etag = [] ∨ Weak mm.etag → ifRangeValue (some mm) = mm.lastModified) ∧ ifRangeValue none = [] := by
  have hw : hasPrefix mm.etag "W/".toList = true ↔ Weak mm.etag := by
    unfold Weak
    generalize mm.etag = l
    match l with
    | [] => simp [hasPrefix]
    | [a] => simp [hasPrefix]
    | a :: b :: rest => simp [hasPrefix]; exact ⟨fun h => ⟨h.1.symm, h.2.symm⟩, fun h => ⟨h.1.symm, h.2.symm⟩⟩
  refine ⟨?_, ?_, rfl⟩
  · intro h1 h2
    simp only [ifRangeValue]
    rw [if_pos ⟨h1, fun x => h2 (hw.1 x)⟩]
  · intro h
    simp only [ifRangeValue]
    rw [if_neg]
    rintro ⟨h1, h2⟩
    rcases h with h | h
    · exact h1 h
    · exact h2 (hw.2 h)

example : ifRangeValue (some { etag := "\"a\"".toList, lastModified := "d".toList }) = "\"a\"".toList ∧
    ifRangeValue (some { etag := "W/\"a\"".toList, lastModified := "d".toList }) = "d".toList := by decide

/-- The pinned identity can be put into If-Range: a strong entity tag, or a date. -/
def Conditional (m : Option ObjMeta) : Prop := ∃ mm, m = some mm ∧ ((mm.etag ≠ [] ∧ ¬ Weak mm.etag) ∨ mm.lastModified ≠ [])

/-- C14, whole objects: where a part was asked for and a server sends a whole object, not empty, no byte of it is returned and what is pinned stays. It is reported as a changed object exactly when the request was
conditional, and as a server that knows no ranges otherwise. -/
theorem C14_whole_answer (v : View) (m : Option ObjMeta) (len : Nat) (off : Int) (l : Nat) (abs : Int) (hp : readPlan v m len off = .ask l abs) (r : Resp)
    (henc : encodingOk r = true) (hs : r.status = 200) (hne : r.contentLength > 0) :
    (Conditional m → readAt v m len off (some r) = (m, [], some .objectChanged)) ∧ (¬Conditional m → readAt v m len off (some r) = (m, [], some .rangeIgnored)) := by
  have he : emptyEntity r = false := by
    unfold emptyEntity
    rw [if_neg (by omega), if_neg (by omega)]
  have e : readAt v m len off (some r) = if ifRangeValue m ≠ [] then (m, [], some .objectChanged) else (m, [], some .rangeIgnored) := by
    simp [readAt, hp, handleResp, henc, hs, he]
  have hc : Conditional m ↔ ifRangeValue m ≠ [] := by
    cases m with
    | none => simp [Conditional, ifRangeValue]
    | some mm =>
      obtain ⟨h1, h2, _⟩ := C14_if_range_strong mm
      have : Conditional (some mm) ↔ (mm.etag ≠ [] ∧ ¬ Weak mm.etag) ∨ mm.lastModified ≠ [] := by simp [Conditional]
      rw [this]
      by_cases h : mm.etag ≠ [] ∧ ¬ Weak mm.etag
      · rw [h1 h.1 h.2]
        exact ⟨fun _ => h.1, fun _ => Or.inl h⟩
      · have hor : mm.etag = [] ∨ Weak mm.etag := by
          by_cases x : mm.etag = []
          · exact Or.inl x
          · exact Or.inr (Classical.byContradiction fun y => h ⟨x, y⟩)
        rw [h2 hor]
        exact ⟨fun x => x.resolve_left h, Or.inr⟩
  rw [e, hc]
  exact ⟨fun h => if_pos h, fun h => if_neg h⟩

example :
    let m : Option ObjMeta := some { etag := "\"a\"".toList, lastModified := [] }
    let r : Resp := { status := 200, contentLength := 3, body := [1, 2, 3] }
    readPlan ⟨0, 9⟩ m 2 1 = .ask 2 1 ∧ encodingOk r = true ∧ readAt ⟨0, 9⟩ m 2 1 (some r) = (m, [], some .objectChanged) ∧
    readAt ⟨0, 9⟩ none 2 1 (some r) = (none, [], some .rangeIgnored) := by decide

end Verif.Http
