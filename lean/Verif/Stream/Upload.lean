import Verif.Stream.FileClient
/-
C134: objects in chunks over the HTTP client, end to end: ChunkedSink and ChunkedSource (/repo/stream/fileserver/chunk.go) on HTTPClient (client.go) and a truthful server (FileClient.lean).

The models of C11 take what happens to each chunk for given. Here every chunk is a request and its answer, and what the server keeps are objects under names: the runs below are those of
C11 for some choice of outcomes, which is proved and not assumed.
-/
namespace Verif.Stream.Upload
open Verif Verif.Path Verif.Url Verif.Http.Request Verif.Stream.FileUrl Verif.Stream.FileClient Verif.Stream.Chunk

/-! ### Model -/

/-- The client of a sink and the names of its chunks, chunk.go 150-182 (`NewChunkedSink`), client.go `NewHTTPClient`; `root` is where the server keeps its objects. -/
structure Conn where
  root : Str
  base : Base
  configured : Header
  name : Nat → Str

/-- chunk.go 203-218: the loop of `State` from chunk `i` on, with the answers to its requests; `fuel` chunks to go. -/
inductive StateRun (c : Conn) (total cs : Nat) (objs : Objects) : Nat → Nat → Option SinkState → Prop where
  /-- 219-220 -/
  | done (i : Nat) : StateRun c total cs objs 0 i (some { offset := total, complete := true })
  /-- 205-212: no answer -/
  | lost (fuel i : Nat) : StateRun c total cs objs (fuel + 1) i none
  /-- 205-212: an answer that is an error -/
  | failed (fuel i : Nat) (resp : Resp) (h : Honest c.root objs (statReq c.base c.configured (c.name i)) resp objs) (hs : statResult resp = .err) :
      StateRun c total cs objs (fuel + 1) i none
  /-- 206-208 -/
  | absent (fuel i : Nat) (resp : Resp) (h : Honest c.root objs (statReq c.base c.configured (c.name i)) resp objs) (hs : statResult resp = .notExist) :
      StateRun c total cs objs (fuel + 1) i (some { offset := i * cs, complete := false })
  /-- 213-217 -/
  | wrong (fuel i : Nat) (n : Int) (resp : Resp) (h : Honest c.root objs (statReq c.base c.configured (c.name i)) resp objs) (hs : statResult resp = .size n)
      (hn : n ≠ expectedChunkSize i total cs) : StateRun c total cs objs (fuel + 1) i (some { offset := i * cs, complete := false })
  | right (fuel i : Nat) (n : Int) (resp : Resp) (out : Option SinkState) (h : Honest c.root objs (statReq c.base c.configured (c.name i)) resp objs) (hs : statResult resp = .size n)
      (hn : n = expectedChunkSize i total cs) (rest : StateRun c total cs objs fuel (i + 1) out) : StateRun c total cs objs (fuel + 1) i out

/-- chunk.go 199-221 `State`. -/
def StateCall (c : Conn) (total cs : Nat) (objs : Objects) (out : Option SinkState) : Prop := StateRun c total cs objs (chunkCount total cs) 0 out

/-- chunk.go 250-299: the loop of `Append` from chunk `i` on, with the answers to its requests; `src` is what the reader still delivers, `srcErr` whether it then fails. -/
inductive AppendRun (c : Conn) (total cs : Nat) (srcErr : Bool) : Nat → Nat → Bytes → Objects → Objects → Bool → Prop where
  | done (i : Nat) (src : Bytes) (objs : Objects) : AppendRun c total cs srcErr 0 i src objs objs true
  /-- 254-259, 285-290: the temporary file cannot be made, written or rewound -/
  | spool (fuel i : Nat) (src : Bytes) (objs : Objects) : AppendRun c total cs srcErr (fuel + 1) i src objs objs false
  /-- 266-272 -/
  | srcFailed (fuel i : Nat) (src : Bytes) (objs : Objects) (h : (src.take (expectedChunkSize i total cs)).length < expectedChunkSize i total cs) (he : srcErr = true) :
      AppendRun c total cs srcErr (fuel + 1) i src objs objs false
  /-- 276-282 -/
  | short (fuel i : Nat) (src : Bytes) (objs : Objects) (h : (src.take (expectedChunkSize i total cs)).length < expectedChunkSize i total cs) (hi : i < chunkCount total cs - 1) :
      AppendRun c total cs srcErr (fuel + 1) i src objs objs false
  /-- 292-298 -/
  | putFailed (fuel i : Nat) (src : Bytes) (objs objs' : Objects) (resp : Option Resp)
      (h1 : ¬((src.take (expectedChunkSize i total cs)).length < expectedChunkSize i total cs ∧ srcErr = true))
      (h2 : ¬((src.take (expectedChunkSize i total cs)).length < expectedChunkSize i total cs ∧ i < chunkCount total cs - 1))
      (h : PutRun c.root objs (putReq c.base c.configured (c.name i) (src.take (expectedChunkSize i total cs)).length (src.take (expectedChunkSize i total cs)) false) resp objs')
      (hr : putResult resp = false) : AppendRun c total cs srcErr (fuel + 1) i src objs objs' false
  | put (fuel i : Nat) (src : Bytes) (objs objs' objs'' : Objects) (resp : Option Resp) (ok : Bool)
      (h1 : ¬((src.take (expectedChunkSize i total cs)).length < expectedChunkSize i total cs ∧ srcErr = true))
      (h2 : ¬((src.take (expectedChunkSize i total cs)).length < expectedChunkSize i total cs ∧ i < chunkCount total cs - 1))
      (h : PutRun c.root objs (putReq c.base c.configured (c.name i) (src.take (expectedChunkSize i total cs)).length (src.take (expectedChunkSize i total cs)) false) resp objs')
      (hr : putResult resp = true) (rest : AppendRun c total cs srcErr fuel (i + 1) (src.drop (expectedChunkSize i total cs)) objs' objs'' ok) :
      AppendRun c total cs srcErr (fuel + 1) i src objs objs'' ok

/-- chunk.go 236-301 `Append`. -/
def AppendCall (c : Conn) (total cs offset : Nat) (src : Bytes) (srcErr : Bool) (objs objs' : Objects) (ok : Bool) : Prop :=
  if offset % cs ≠ 0 then objs' = objs ∧ ok = false
  else AppendRun c total cs srcErr (chunkCount total cs - offset / cs) (offset / cs) src objs objs' ok

/-! ### Specification -/

/-- The base URL has no query and no fragment, and the chunks have names that differ. -/
structure Conn.Good (c : Conn) : Prop where
  plain : Plain c.base
  trimmed : IsTrimmed c.root c.base.front
  bytes : ∀ i, IsBytes (c.name i)
  apart : ∀ i j, c.name i = c.name j → i = j

/-- The chunks among the objects of the server. -/
def chunks (c : Conn) (objs : Objects) : Store := fun i => objs (c.name i)

/-- An attempt to upload: ask for the state and, unless it is complete, append the object from there on; the local reader may end or fail anywhere, and every request may be answered in any
truthful way or not at all. -/
inductive Attempt (c : Conn) (content : Bytes) (cs : Nat) (objs : Objects) : Objects → Prop where
  | unknown (h : StateCall c content.length cs objs none) : Attempt c content cs objs objs
  | complete (st : SinkState) (h : StateCall c content.length cs objs (some st)) (hc : st.complete = true) : Attempt c content cs objs objs
  | append (st : SinkState) (h : StateCall c content.length cs objs (some st)) (hc : st.complete = false) (avail : Nat) (srcErr : Bool) (objs' : Objects) (ok : Bool)
      (ha : AppendCall c content.length cs st.offset ((content.drop st.offset).take avail) srcErr objs objs' ok) : Attempt c content cs objs objs'

/-- Any number of attempts. -/
inductive Attempts (c : Conn) (content : Bytes) (cs : Nat) : Objects → Objects → Prop where
  | nil (objs) : Attempts c content cs objs objs
  | cons {objs objs' objs''} (h : Attempt c content cs objs objs') (rest : Attempts c content cs objs' objs'') : Attempts c content cs objs objs''

/-! ### Lemmas -/

theorem stateLoop_congr {store : Store} {total cs : Nat} {f g : Nat → Bool} : ∀ fuel i, (∀ j, i ≤ j → f j = g j) → stateLoop store f total cs fuel i = stateLoop store g total cs fuel i := by
  intro fuel
  induction fuel with
  | zero => intro i _; rfl
  | succ fuel ih =>
    intro i h
    unfold stateLoop
    rw [h i (Nat.le_refl _), ih (i + 1) (fun j hj => h j (by omega))]

theorem appendLoop_congr {total cs : Nat} {srcErr : Bool} {f g : Nat → PutOutcome} : ∀ fuel i src store, (∀ j, i ≤ j → f j = g j) →
    appendLoop f srcErr total cs fuel i src store = appendLoop g srcErr total cs fuel i src store := by
  intro fuel
  induction fuel with
  | zero => intro i src store _; rfl
  | succ fuel ih =>
    intro i src store h
    unfold appendLoop
    simp only [h i (Nat.le_refl _), fun src store => ih (i + 1) src store (fun j hj => h j (by omega))]

theorem state_refines {c : Conn} (hc : c.Good) {total cs : Nat} {objs : Objects} {fuel i : Nat} {out : Option SinkState} (h : StateRun c total cs objs fuel i out) :
    ∃ statFail, stateLoop (chunks c objs) statFail total cs fuel i = out := by
  induction h with
  | done i => exact ⟨fun _ => false, rfl⟩
  | lost fuel i => exact ⟨fun _ => true, by unfold stateLoop; rw [if_pos rfl]⟩
  | failed fuel i resp h hs => exact ⟨fun _ => true, by unfold stateLoop; rw [if_pos rfl]⟩
  | absent fuel i resp h hs =>
    have := (C131_stat c.base hc.plain c.root hc.trimmed c.configured (c.name i) (hc.bytes i) objs objs resp h).2.2 hs
    refine ⟨fun _ => false, ?_⟩
    unfold stateLoop
    rw [if_neg (by simp), show chunks c objs i = none from this]
  | wrong fuel i n resp h hs hn =>
    obtain ⟨d, hd, he⟩ := (C131_stat c.base hc.plain c.root hc.trimmed c.configured (c.name i) (hc.bytes i) objs objs resp h).2.1 n hs
    refine ⟨fun _ => false, ?_⟩
    unfold stateLoop
    rw [if_neg (by simp), show chunks c objs i = some d from hd]
    exact if_pos (by omega)
  | right fuel i n resp out h hs hn rest ih =>
    obtain ⟨d, hd, he⟩ := (C131_stat c.base hc.plain c.root hc.trimmed c.configured (c.name i) (hc.bytes i) objs objs resp h).2.1 n hs
    obtain ⟨f, hf⟩ := ih
    refine ⟨fun j => if j = i then false else f j, ?_⟩
    unfold stateLoop
    rw [if_neg (by simp), show chunks c objs i = some d from hd]
    refine (if_neg (by omega)).trans ?_
    rw [← hf]
    exact stateLoop_congr fuel (i + 1) (fun j hj => if_neg (by omega))

theorem chunks_upd {c : Conn} (hc : c.Good) (objs : Objects) (i : Nat) (d : Bytes) : chunks c (upd objs (c.name i) d) = fun j => if j = i then some d else chunks c objs j := by
  funext j
  unfold chunks upd
  by_cases h : j = i
  · rw [if_pos h, if_pos (by rw [h])]
  · rw [if_neg h, if_neg (fun e => h (hc.apart _ _ e))]

theorem append_refines {c : Conn} (hc : c.Good) {total cs : Nat} {srcErr : Bool} {fuel i : Nat} {src : Bytes} {objs objs' : Objects} {ok : Bool}
    (h : AppendRun c total cs srcErr fuel i src objs objs' ok) :
    (∃ put, appendLoop put srcErr total cs fuel i src (chunks c objs) = (chunks c objs', ok)) ∧ (∀ n, (∀ j, n ≠ c.name j) → objs' n = objs n) := by
  induction h with
  | done i src objs => exact ⟨⟨fun _ => .ok, rfl⟩, fun _ _ => rfl⟩
  | spool fuel i src objs =>
    refine ⟨⟨fun _ => .failUnchanged, ?_⟩, fun _ _ => rfl⟩
    unfold appendLoop
    simp only []
    split
    · rfl
    · split <;> rfl
  | srcFailed fuel i src objs h he =>
    refine ⟨⟨fun _ => .ok, ?_⟩, fun _ _ => rfl⟩
    unfold appendLoop
    exact if_pos ⟨h, he⟩
  | short fuel i src objs h hi =>
    refine ⟨⟨fun _ => .ok, ?_⟩, fun _ _ => rfl⟩
    unfold appendLoop
    simp only []
    split
    · rfl
    · rw [if_pos ⟨h, hi⟩]
  | putFailed fuel i src objs objs' resp h1 h2 h hr =>
    rcases (C131_put_partial c.base hc.plain c.root hc.trimmed c.configured (c.name i) (hc.bytes i) _ _ _ objs objs' resp h).2.1 with he | ⟨he, _⟩
    · subst he
      refine ⟨⟨fun _ => .failUnchanged, ?_⟩, fun _ _ => rfl⟩
      unfold appendLoop
      exact (if_neg h1).trans (if_neg h2)
    · subst he
      refine ⟨⟨fun _ => .failWritten, ?_⟩, fun n hn => if_neg (hn i)⟩
      unfold appendLoop
      rw [chunks_upd hc]
      exact (if_neg h1).trans (if_neg h2)
  | put fuel i src objs objs' objs'' resp ok h1 h2 h hr rest ih =>
    have he := ((C131_put_partial c.base hc.plain c.root hc.trimmed c.configured (c.name i) (hc.bytes i) _ _ _ objs objs' resp h).1 hr).1
    obtain ⟨⟨put, hput⟩, hother⟩ := ih
    subst he
    refine ⟨⟨fun j => if j = i then .ok else put j, ?_⟩, fun n hn => (hother n hn).trans (if_neg (hn i))⟩
    rw [chunks_upd hc] at hput
    unfold appendLoop
    refine ((if_neg h1).trans (if_neg h2)).trans ?_
    rw [← hput]
    simp only [if_true]
    exact appendLoop_congr fuel (i + 1) _ _ (fun j hj => if_neg (by omega))

theorem call_refines {c : Conn} (hc : c.Good) {total cs offset : Nat} {src : Bytes} {srcErr : Bool} {objs objs' : Objects} {ok : Bool} (h : AppendCall c total cs offset src srcErr objs objs' ok) :
    (∃ put, sinkAppend put total cs offset src srcErr (chunks c objs) = (chunks c objs', ok)) ∧ (∀ n, (∀ j, n ≠ c.name j) → objs' n = objs n) := by
  unfold AppendCall at h
  unfold sinkAppend
  split at h
  · rename_i hm
    obtain ⟨h1, h2⟩ := h
    subst h1 h2
    exact ⟨⟨fun _ => .ok, if_pos hm⟩, fun _ _ => rfl⟩
  · rename_i hm
    obtain ⟨⟨put, hp⟩, ho⟩ := append_refines hc h
    exact ⟨⟨put, (if_neg hm).trans hp⟩, ho⟩

theorem attempt_refines {c : Conn} (hc : c.Good) {content : Bytes} {cs : Nat} {objs objs' : Objects} (h : Attempt c content cs objs objs') :
    (∃ s, chunks c objs' = runSession content cs (chunks c objs) s) ∧ (∀ n, (∀ j, n ≠ c.name j) → objs' n = objs n) := by
  cases h with
  | unknown h =>
    obtain ⟨f, hf⟩ := state_refines hc h
    refine ⟨⟨⟨f, fun _ => .ok, 0, false⟩, ?_⟩, fun _ _ => rfl⟩
    simp only [runSession, sinkState, hf]
  | complete st h hcm =>
    obtain ⟨f, hf⟩ := state_refines hc h
    refine ⟨⟨⟨f, fun _ => .ok, 0, false⟩, ?_⟩, fun _ _ => rfl⟩
    simp only [runSession, sinkState, hf, hcm, if_true]
  | append st h hcm avail srcErr objs' ok ha =>
    obtain ⟨f, hf⟩ := state_refines hc h
    obtain ⟨⟨put, hp⟩, ho⟩ := call_refines hc ha
    refine ⟨⟨⟨f, put, avail, srcErr⟩, ?_⟩, ho⟩
    simp only [runSession, sinkState, hf, hcm, hp]
    simp

theorem attempts_spec {c : Conn} (hc : c.Good) {content : Bytes} {cs : Nat} (hcs : 0 < cs) {objs objs' : Objects} (h : Attempts c content cs objs objs') :
    StoreOK content cs (chunks c objs) → StoreOK content cs (chunks c objs') ∧
      (∀ k, k ≤ chunkCount content.length cs → PrefixStored content cs (chunks c objs) k → PrefixStored content cs (chunks c objs') k) ∧
      (∀ n, (∀ j, n ≠ c.name j) → objs' n = objs n) := by
  induction h with
  | nil objs => intro h; exact ⟨h, fun _ _ h => h, fun _ _ => rfl⟩
  | cons h rest ih =>
    intro hok
    obtain ⟨⟨s, hs⟩, ho⟩ := attempt_refines hc h
    obtain ⟨a, b, _⟩ := runSession_spec content cs hcs _ hok s
    rw [← hs] at a b
    obtain ⟨a', b', o'⟩ := ih a
    exact ⟨a', fun k hk hp => b' k hk (b k hk hp), fun n hn => (o' n hn).trans (ho n hn)⟩

/-! ### Property C134 -/

/-- **C134** (uploads). Over the HTTP client and a truthful server, after any history of attempts: the reported offset is a chunk boundary below which the server keeps the right chunks under their
names, and a complete state is reported only when it keeps all of them, which are the object. Chunks that were right stay so, and no other object of the server is touched. -/
theorem C134_upload (c : Conn) (hc : c.Good) (content : Bytes) (cs : Nat) (hcs : 0 < cs) (objs objs' : Objects) (hok : StoreOK content cs (chunks c objs)) (h : Attempts c content cs objs objs') :
    (∀ st, StateCall c content.length cs objs' (some st) →
      (∃ k, k ≤ chunkCount content.length cs ∧ st.offset = min (k * cs) content.length ∧ ∀ i, i < k → objs' (c.name i) = some ((content.drop (i * cs)).take cs)) ∧
      (st.complete = true → (∀ i, i < chunkCount content.length cs → objs' (c.name i) = some ((content.drop (i * cs)).take cs)) ∧ Assembled content cs (chunks c objs'))) ∧
    (∀ k, k ≤ chunkCount content.length cs → (∀ i, i < k → objs (c.name i) = some ((content.drop (i * cs)).take cs)) → ∀ i, i < k → objs' (c.name i) = some ((content.drop (i * cs)).take cs)) ∧
    (∀ n, (∀ i, n ≠ c.name i) → objs' n = objs n) := by
  obtain ⟨hok', hkeep, hother⟩ := attempts_spec hc hcs h hok
  refine ⟨?_, hkeep, hother⟩
  intro st hst
  obtain ⟨f, hf⟩ := state_refines hc hst
  obtain ⟨g1, g2⟩ := stateLoop_spec content cs hcs _ hok' f _ 0 (by simp) (by intro i hi; omega) st hf
  refine ⟨?_, fun hcm => ⟨(g2 hcm).2, prefix_assembled content cs hcs _ (g2 hcm).2⟩⟩
  cases hcm : st.complete with
  | true =>
    refine ⟨chunkCount content.length cs, Nat.le_refl _, ?_, (g2 hcm).2⟩
    rw [(g2 hcm).1]
    have hs := sum_range_chunks content.length cs hcs _ (Nat.le_refl _)
    rw [(C09_chunks_partition content.length cs hcs).2.1] at hs
    exact hs
  | false =>
    obtain ⟨k, _, hk, hoff, hpre, _⟩ := g1 hcm
    refine ⟨k, by omega, ?_, hpre⟩
    rw [hoff]
    have := (chunk_cover content.length cs k hcs hk).2
    omega

/-- **C134** (success). When, after any history of attempts, `Append` returns nil for the reported offset and a reader that has the object from there on, the server keeps all chunks. -/
theorem C134_append (c : Conn) (hc : c.Good) (content : Bytes) (cs : Nat) (hcs : 0 < cs) (objs objs' objs'' : Objects) (hok : StoreOK content cs (chunks c objs)) (h : Attempts c content cs objs objs')
    (st : SinkState) (hst : StateCall c content.length cs objs' (some st)) (hn : st.complete = false) (srcErr : Bool)
    (ha : AppendCall c content.length cs st.offset (content.drop st.offset) srcErr objs' objs'' true) :
    (∀ i, i < chunkCount content.length cs → objs'' (c.name i) = some ((content.drop (i * cs)).take cs)) ∧ Assembled content cs (chunks c objs'') := by
  obtain ⟨hok', _, _⟩ := attempts_spec hc hcs h hok
  obtain ⟨f, hf⟩ := state_refines hc hst
  obtain ⟨g1, _⟩ := stateLoop_spec content cs hcs _ hok' f _ 0 (by simp) (by intro i hi; omega) st hf
  obtain ⟨k, _, hk, hoff, hpre, _⟩ := g1 hn
  obtain ⟨⟨put, hp⟩, _⟩ := call_refines hc ha
  have hall : PrefixStored content cs (chunks c objs'') (chunkCount content.length cs) := by
    have hdiv : k * cs / cs = k := Nat.mul_div_cancel _ hcs
    unfold sinkAppend at hp
    rw [hoff, if_neg (by simp)] at hp
    simp only [hdiv] at hp
    obtain ⟨store', ok, he, _, hlow, hhigh, _⟩ := appendLoop_spec content cs hcs put srcErr (chunkCount content.length cs - k) k (by omega) (content.length - k * cs) (chunks c objs') hok'
    rw [List.take_of_length_le (by simp)] at he
    rw [he] at hp
    obtain ⟨h1, h2⟩ := Prod.mk.inj hp
    subst h1
    intro i hi
    by_cases hik : i < k
    · rw [hlow i hik]; exact hpre i hik
    · exact hhigh h2 (Nat.le_refl _) i (by omega) hi
  exact ⟨hall, prefix_assembled content cs hcs _ hall⟩

/-- **C134** (reading back). From a server that keeps the chunks, every `Get` of the source that hands out a body hands out the bytes of the object from the place asked for to the end of the chunk,
and none says that there is no such chunk. -/
theorem C134_read (c : Conn) (hc : c.Good) (hcfg : valuesOf "Range".toList c.configured = []) (content : Bytes) (cs : Nat) (hlen : content.length < 2 ^ 63) (objs objs' : Objects)
    (hall : ∀ i, i < chunkCount content.length cs → objs (c.name i) = some ((content.drop (i * cs)).take cs))
    (i : Nat) (hi : i < chunkCount content.length cs) (off : Nat) (resp : Resp) (h : Honest c.root objs (getReq c.base c.configured (c.name i) off) resp objs') :
    objs' = objs ∧ getResult off resp ≠ .notExist ∧ ∀ total, getResult off resp = .body total → resp.body = (content.drop (i * cs + off)).take (cs - off) := by
  have hnow := hall i hi
  obtain ⟨h0, h1, h2, _⟩ := C131_get_partial c.base hc.plain c.root hc.trimmed c.configured hcfg (c.name i) (hc.bytes i) off (by omega) objs objs'
    (fun d hd => by
      rw [hnow] at hd
      cases hd
      simp only [List.length_take, List.length_drop]
      omega) resp h
  refine ⟨h0, ?_, ?_⟩
  · intro he
    have := h2 he
    rw [hnow] at this
    cases this
  · intro total ht
    obtain ⟨d, hd, hb, _, _⟩ := h1 total ht
    rw [hnow] at hd
    cases hd
    rw [hb, Int.toNat_natCast, List.drop_take, List.drop_drop]

/-! A server that is empty, an upload of three bytes in chunks of two whose second request gets no answer although it is done, and the next attempt, which finds everything there. -/

def conn0 : Conn := { root := "http://h/o".toList, base := { front := "http://h/o/".toList }, configured := [], name := fun i => List.replicate i 'a' }

theorem good0 : conn0.Good := by
  refine ⟨⟨rfl, rfl, by decide, by decide⟩, trim_isTrimmed "http://h/o/".toList, ?_, ?_⟩
  · intro i x hx
    rw [List.eq_of_mem_replicate hx]
    decide
  · intro i j h
    have h' : List.replicate i 'a' = List.replicate j 'a' := h
    have := congrArg List.length h'
    rw [List.length_replicate, List.length_replicate] at this
    exact this

theorem addressed_unique {root : Str} {t : Str × Option Str} {n₁ n₂ : Str} (h₁ : Addressed root t n₁) (h₂ : Addressed root t n₂) : n₁ = n₂ := by
  obtain ⟨s1, e1, _, r1⟩ := h₁
  obtain ⟨s2, e2, _, r2⟩ := h₂
  have := (Prod.mk.inj (e1.symm.trans e2)).1
  rw [← r1, ← r2, (List.cons.inj (List.append_cancel_left this)).2]

theorem put_honest (c : Conn) (hp : Plain c.base) (ht : IsTrimmed c.root c.base.front) (hb : ∀ i, IsBytes (c.name i)) (objs : Objects) (i : Nat) (body : Bytes) :
    ∃ r, putReq c.base c.configured (c.name i) body.length body false = some r ∧ Honest c.root objs r { status := 201 } (upd objs (c.name i) body) := by
  refine ⟨_, (if_neg (by simp)).trans (if_neg (by simp)), ?_⟩
  refine ⟨fun h => (by cases h), fun h => (by cases h), fun _ name hn => ?_⟩
  have : name = c.name i := addressed_unique hn (addressed hp ht (hb i))
  subst this
  exact ⟨fun _ => rfl, .inr rfl⟩

theorem head_honest (c : Conn) (hc : c.Good) (objs : Objects) (i : Nat) (d : Bytes) (h : objs (c.name i) = some d) :
    Honest c.root objs (statReq c.base c.configured (c.name i)) { status := 200, contentLength := d.length } objs := by
  refine ⟨fun h => (by cases h), fun _ => ⟨rfl, fun name hn => ?_⟩, fun h => (by cases h)⟩
  have : name = c.name i := addressed_unique hn (addressed hc.plain hc.trimmed (hc.bytes i))
  subst this
  exact ⟨fun _ => ⟨d, h, .inl rfl⟩, fun h => (by rcases h with h | h <;> cases h)⟩

theorem head_missing (c : Conn) (hc : c.Good) (objs : Objects) (i : Nat) (h : objs (c.name i) = none) :
    Honest c.root objs (statReq c.base c.configured (c.name i)) { status := 404 } objs := by
  refine ⟨fun h => (by cases h), fun _ => ⟨rfl, fun name hn => ?_⟩, fun h => (by cases h)⟩
  have : name = c.name i := addressed_unique hn (addressed hc.plain hc.trimmed (hc.bytes i))
  subst this
  exact ⟨fun h => (by rcases h with h | h <;> cases h), fun _ => h⟩

example : ∃ objs', Attempts conn0 [1, 2, 3] 2 (fun _ => none) objs' ∧ StateCall conn0 3 2 objs' (some { offset := 3, complete := true }) := by
  obtain ⟨r0, e0, p0⟩ := put_honest conn0 good0.plain good0.trimmed good0.bytes (fun _ => none) 0 [1, 2]
  obtain ⟨r1, e1, p1⟩ := put_honest conn0 good0.plain good0.trimmed good0.bytes (upd (fun _ => none) (conn0.name 0) [1, 2]) 1 [3]
  refine ⟨upd (upd (fun _ => none) (conn0.name 0) [1, 2]) (conn0.name 1) [3], .cons (.append { offset := 0, complete := false } ?_ rfl 3 false _ false ?_) (.nil _), ?_⟩
  · exact .absent 1 0 _ (head_missing conn0 good0 _ 0 rfl) (by decide)
  · show AppendRun conn0 3 2 false 2 0 [1, 2, 3] _ _ false
    refine .put 1 0 _ _ (upd (fun _ => none) (conn0.name 0) [1, 2]) _ (some { status := 201 }) _ (by decide) (by decide) ?_ (by decide) ?_
    · show PutRun _ _ (putReq conn0.base conn0.configured (conn0.name 0) ([1, 2] : Bytes).length [1, 2] false) _ _
      rw [e0]
      exact .inr ⟨_, p0, .inl rfl⟩
    · refine .putFailed 0 1 _ _ _ none (by decide) (by decide) ?_ (by decide)
      show PutRun _ _ (putReq conn0.base conn0.configured (conn0.name 1) ([3] : Bytes).length [3] false) _ _
      rw [e1]
      exact .inr ⟨_, p1, .inr rfl⟩
  · refine .right 1 0 2 _ _ (head_honest conn0 good0 _ 0 [1, 2] ?_) (by decide) (by decide) (.right 0 1 1 _ _ (head_honest conn0 good0 _ 1 [3] ?_) (by decide) (by decide) (.done 2))
    · rfl
    · rfl

/-- Names made from the content of a chunk alone (chunk.go 54 has content-addressed names in mind), for an object of two equal chunks. -/
def conn1 : Conn := { root := "http://h/o".toList, base := { front := "http://h/o/".toList }, configured := [], name := fun _ => "x".toList }

/-- **C134** needs names that differ: with names made from the content of a chunk alone, a reader that ends early in the last chunk damages the equal chunk before it, which was stored right, and `Append` returns
nil. -/
theorem C134_note_shared : ∃ objs objs', PutRun conn1.root (fun _ => none) (putReq conn1.base conn1.configured (conn1.name 0) 2 [7, 7] false) (some { status := 201 }) objs ∧
    objs (conn1.name 0) = some [7, 7] ∧ AppendCall conn1 4 2 0 [7, 7, 7] false (fun _ => none) objs' true ∧ objs' (conn1.name 0) = some [7] := by
  have hp : Plain conn1.base := ⟨rfl, rfl, by decide, by decide⟩
  have ht : IsTrimmed conn1.root conn1.base.front := trim_isTrimmed "http://h/o/".toList
  have hb : ∀ i, IsBytes (conn1.name i) := fun i => (show IsBytes "x".toList from fun c hc => by
    have : c = 'x' := by simpa using hc
    rw [this]; decide)
  obtain ⟨r0, e0, p0⟩ := put_honest conn1 hp ht hb (fun _ => none) 0 [7, 7]
  obtain ⟨r1, e1, p1⟩ := put_honest conn1 hp ht hb (upd (fun _ => none) (conn1.name 0) [7, 7]) 1 [7]
  have h0 : PutRun conn1.root (fun _ => none) (putReq conn1.base conn1.configured (conn1.name 0) ([7, 7] : Bytes).length [7, 7] false) (some { status := 201 }) (upd (fun _ => none) (conn1.name 0) [7, 7]) := by
    rw [e0]
    exact .inr ⟨_, p0, .inl rfl⟩
  refine ⟨_, upd (upd (fun _ => none) (conn1.name 0) [7, 7]) (conn1.name 1) [7], h0, rfl, ?_, rfl⟩
  show AppendRun conn1 4 2 false 2 0 [7, 7, 7] _ _ true
  refine .put 1 0 _ _ (upd (fun _ => none) (conn1.name 0) [7, 7]) _ (some { status := 201 }) _ (by decide) (by decide) h0 (by decide) ?_
  refine .put 0 1 _ _ _ _ (some { status := 201 }) _ (by decide) (by decide) ?_ (by decide) (.done 2 _ _)
  show PutRun _ _ (putReq conn1.base conn1.configured (conn1.name 1) ([7] : Bytes).length [7] false) _ _
  rw [e1]
  exact .inr ⟨_, p1, .inl rfl⟩

end Verif.Stream.Upload
