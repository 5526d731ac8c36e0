import Verif.Stream.Download
import Verif.Fsutil.PullProps
/-
C136: `Push` and `Pull` of /repo/fsutil/resumable.go to and from an object kept in chunks on an HTTP server (/repo/stream/fileserver), the use chunk.go 49-56 and 154-155 has in mind. The
adapter between the two is not in the repository: it is taken to hand State, Append, Commit and Open on, with no ETag for the sink, the size of the object or none for the source, and any ETag for it.

Both sides are composed of the models that exist: the sink of C134, the source of C135, and `Pull` of C25 and C26. `Push` is written again here, since the one of C27 is fixed to `FsSink`.
-/
namespace Verif.Stream.Transfer
open Verif Verif.Path Verif.Url Verif.Http.Request Verif.Stream.FileUrl Verif.Stream.FileClient Verif.Stream.Chunk Verif.Stream.Upload Verif.Stream.Download
open Verif.Fsutil.Pull (Disk Env Info Opened End PullsOf Steady)

/-! ### Model -/

/-- resumable.go 494-501: where `Push` goes on (the sink has no ETag). -/
def pushOffset (size : Nat) (st : SinkState) : Nat := if st.offset > size then 0 else st.offset

/-- resumable.go 460-523 `Push` of a file with this content, which stays as it is, to the chunked sink made for its size; the flag is whether nil is returned. -/
inductive PushCall (c : Conn) (content : Bytes) (cs : Nat) (objs : Objects) : Objects → Bool → Prop where
  /-- 467-482, 509-513: the file cannot be opened or positioned, or has not the size the caller says -/
  | localFailed : PushCall c content cs objs objs false
  /-- 486-489 -/
  | unknown (h : StateCall c content.length cs objs none) : PushCall c content cs objs objs false
  /-- 490-492 -/
  | complete (st : SinkState) (h : StateCall c content.length cs objs (some st)) (hc : st.complete = true) : PushCall c content cs objs objs true
  /-- 504-506, with chunk.go 310-312 `Commit` -/
  | commit (st : SinkState) (h : StateCall c content.length cs objs (some st)) (hc : st.complete = false) (ho : pushOffset content.length st = content.length) :
      PushCall c content cs objs objs true
  /-- 515-522: reading the file may fail after any number of bytes, which includes a context that is cancelled -/
  | append (st : SinkState) (h : StateCall c content.length cs objs (some st)) (hc : st.complete = false) (ho : pushOffset content.length st ≠ content.length)
      (avail : Nat) (srcErr : Bool) (hr : srcErr = false → content.length - pushOffset content.length st ≤ avail) (objs' : Objects) (ok : Bool)
      (ha : AppendCall c content.length cs (pushOffset content.length st) ((content.drop (pushOffset content.length st)).take avail) srcErr objs objs' ok) : PushCall c content cs objs objs' ok

/-- Any number of pushes of the file, whatever they return. -/
inductive Pushes (c : Conn) (content : Bytes) (cs : Nat) : Objects → Objects → Prop where
  | nil (objs) : Pushes c content cs objs objs
  | cons {objs objs' objs''} (ok : Bool) (h : PushCall c content cs objs objs' ok) (rest : Pushes c content cs objs' objs'') : Pushes c content cs objs objs''

/-- resumable.go 219-246 `ctxCopy`, the side of the reader: reads of the size of the buffer up to the first one that does not return nil, or fewer if the context is cancelled or writing fails. -/
def Drained (net : Net) (c : Conn) (w : World) (o : Opened) : Prop :=
  ∃ (buf n : Nat) (outs : List ReadRes), 0 < buf ∧ reads net c w (List.replicate n buf) = some outs ∧ (∀ r ∈ outs.dropLast, r.2 = none) ∧ o.reads = outs.map (·.1) ∧
    (o.ending = .eof → ∃ r, outs.getLast? = some r ∧ r.2 = some .eof)

/-- `src.Open` of `Pull` is chunk.go 98-150 `Open`, and the stream is read as above. -/
def FromChunks (c : Conn) (content : Bytes) (cs : Nat) (objs : Objects) (e : Env) : Prop := ∀ k off o, e.src k off = some o →
  (o.info.size = none ∨ o.info.size = some content.length) ∧ off ≤ content.length ∧ (off = content.length → o.reads.flatten = []) ∧
  (off < content.length → ∃ net w, Truthful c objs net ∧ Download.openSource content.length cs off = some w ∧ Drained net c w o)

/-- All pulls from the chunks. -/
def PullsFrom (c : Conn) (content : Bytes) (cs : Nat) (objs : Objects) (m : Fsutil.Pull.P Unit) : Prop := ∃ e exp, FromChunks c content cs objs e ∧ m = Fsutil.Pull.pull e exp

/-! ### Specification -/

/-- The server keeps the object: every chunk under its name. -/
def Kept (c : Conn) (content : Bytes) (cs : Nat) (objs : Objects) : Prop := ∀ i, i < chunkCount content.length cs → objs (c.name i) = some ((content.drop (i * cs)).take cs)

/-! ### Lemmas -/

theorem run_longer {c : Conn} {total cs fuel i : Nat} {src : Bytes} {objs objs' : Objects} {srcErr ok : Bool} (h : AppendRun c total cs srcErr fuel i src objs objs' ok) (hs : srcErr = true)
    (hok : ok = true) (x : Bytes) : AppendRun c total cs srcErr fuel i (src ++ x) objs objs' ok := by
  induction h with
  | done i src objs => exact .done i _ objs
  | spool => cases hok
  | srcFailed => cases hok
  | short => cases hok
  | putFailed => cases hok
  | put fuel i src objs objs' objs'' resp ok h1 h2 h hr rest ih =>
    have hlen : expectedChunkSize i total cs ≤ src.length := by
      apply Classical.byContradiction
      intro hn
      exact h1 ⟨by rw [List.length_take]; omega, hs⟩
    have ht : (src ++ x).take (expectedChunkSize i total cs) = src.take (expectedChunkSize i total cs) := List.take_append_of_le_length hlen
    have hd : (src ++ x).drop (expectedChunkSize i total cs) = src.drop (expectedChunkSize i total cs) ++ x := List.drop_append_of_le_length hlen
    refine .put fuel i (src ++ x) objs objs' objs'' resp ok (by rw [ht]; exact h1) (by rw [ht]; exact h2) (by rw [ht]; exact h) hr ?_
    rw [hd]
    exact ih hok

theorem call_longer {c : Conn} {total cs off : Nat} {src : Bytes} {objs objs' : Objects} (h : AppendCall c total cs off src true objs objs' true) (x : Bytes) :
    AppendCall c total cs off (src ++ x) true objs objs' true := by
  unfold AppendCall at h ⊢
  split at h
  · cases h.2
  · rename_i hn
    rw [if_neg hn]
    exact run_longer h rfl rfl x

theorem state_offset {c : Conn} (hc : c.Good) {content : Bytes} {cs : Nat} (hcs : 0 < cs) {objs : Objects} (hok : StoreOK content cs (chunks c objs)) {st : SinkState}
    (h : StateCall c content.length cs objs (some st)) (hn : st.complete = false) : st.offset ≤ content.length ∧ (content ≠ [] → st.offset < content.length) := by
  obtain ⟨f, hf⟩ := state_refines hc h
  obtain ⟨g1, _⟩ := stateLoop_spec content cs hcs _ hok f _ 0 (by simp) (by intro i hi; omega) st hf
  obtain ⟨k, _, hk, hoff, _, _⟩ := g1 hn
  rw [hoff]
  have := (chunk_cover content.length cs k hcs hk).2
  refine ⟨by omega, fun hne => ?_⟩
  have hpos : 0 < content.length := List.length_pos_iff.2 hne
  unfold chunkCount at hk
  rw [if_neg (by omega)] at hk
  have h1 := (Nat.lt_div_iff_mul_lt hcs).1 hk
  omega

theorem push_attempts {c : Conn} (hc : c.Good) {content : Bytes} {cs : Nat} (hcs : 0 < cs) {objs objs' : Objects} {ok : Bool} (hok : StoreOK content cs (chunks c objs))
    (h : PushCall c content cs objs objs' ok) : Attempts c content cs objs objs' := by
  cases h with
  | localFailed => exact .nil _
  | unknown h => exact .nil _
  | complete st h hcm => exact .nil _
  | commit st h hcm ho => exact .nil _
  | append st h hcm ho avail srcErr hr _ _ ha =>
    have hle := (state_offset hc hcs hok h hcm).1
    have he : pushOffset content.length st = st.offset := if_neg (by omega)
    rw [he] at ha
    exact .cons (.append st h hcm avail srcErr _ _ ha) (.nil _)

theorem attempts_trans {c : Conn} {content : Bytes} {cs : Nat} {a b d : Objects} (h : Attempts c content cs a b) (g : Attempts c content cs b d) : Attempts c content cs a d := by
  induction h with
  | nil => exact g
  | cons h _ ih => exact .cons h (ih g)

theorem pushes_attempts {c : Conn} (hc : c.Good) {content : Bytes} {cs : Nat} (hcs : 0 < cs) {objs objs' : Objects} (h : Pushes c content cs objs objs') :
    StoreOK content cs (chunks c objs) → Attempts c content cs objs objs' := by
  induction h with
  | nil objs => intro _; exact .nil _
  | cons ok h rest ih =>
    intro hok
    have h1 := push_attempts hc hcs hok h
    exact attempts_trans h1 (ih (attempts_spec hc hcs h1 hok).1)

theorem steady {c : Conn} (hc : c.Good) (hcfg : valuesOf "Range".toList c.configured = []) {content : Bytes} {cs : Nat} (hcs : 0 < cs) (hlen : content.length < 2 ^ 63) {objs : Objects}
    (hk : Kept c content cs objs) {e : Env} (he : FromChunks c content cs objs e) : Steady content e := by
  intro k off o ho
  obtain ⟨h1, h2, h3, h4⟩ := he k off o ho
  by_cases hlt : off < content.length
  · obtain ⟨net, w, ht, hw, buf, n, outs, _, hr, _, hmap, hend⟩ := h4 hlt
    obtain ⟨w', g1, g2⟩ := C135_download c hc hcfg content cs hcs hlen objs hk net ht off hlt
    rw [hw] at g1
    cases g1
    obtain ⟨outs', g3, g4, _⟩ := g2 (List.replicate n buf)
    rw [hr] at g3
    cases g3
    obtain ⟨_, g5, g6⟩ := explains_all _ _ _ g4
    refine ⟨h1, by rw [hmap]; exact g5, fun hE _ => ?_⟩
    obtain ⟨r, hr1, hr2⟩ := hend hE
    rw [hmap]
    exact g6 ⟨r, List.mem_of_getLast? hr1, hr2⟩
  · have heq : off = content.length := by omega
    have hd : content.drop off = [] := List.drop_eq_nil_of_le (by omega)
    rw [hd, h3 heq]
    exact ⟨h1, List.nil_prefix, fun _ _ => rfl⟩

theorem explains_ends : ∀ (n : Nat) (rest : Bytes) (buf : Nat) (outs : List ReadRes), 0 < buf → rest.length ≤ n → Explains rest (List.replicate (n + 1) buf) outs →
    (∀ o ∈ outs, o.2 = none ∨ o.2 = some .eof) → ∃ j r, j ≤ n ∧ outs[j]? = some r ∧ r.2 = some .eof ∧ ∀ r ∈ outs.take j, r.2 = none := by
  intro n
  induction n with
  | zero =>
    intro rest buf outs hb hl h hall
    cases outs with
    | nil => exact h.elim
    | cons o outs =>
      obtain ⟨b, e⟩ := o
      obtain ⟨h1, _, h3, _, _⟩ := h
      refine ⟨0, (b, e), Nat.le_refl _, rfl, ?_, fun r hr => (by cases hr)⟩
      rcases hall _ (List.mem_cons_self ..) with he | he
      · exfalso
        have := h1.length_le
        exact h3 he hb (List.length_eq_zero_iff.1 (by omega))
      · exact he
  | succ n ih =>
    intro rest buf outs hb hl h hall
    cases outs with
    | nil => exact h.elim
    | cons o outs =>
      obtain ⟨b, e⟩ := o
      rw [List.replicate_succ] at h
      obtain ⟨h1, _, h3, _, h5⟩ := h
      rcases hall _ (List.mem_cons_self ..) with he | he
      · have hpos : 0 < b.length := List.length_pos_iff.2 (h3 he hb)
        obtain ⟨j, r, g1, g2, g3, g4⟩ := ih (rest.drop b.length) buf outs hb (by rw [List.length_drop]; omega) h5 (fun o ho => hall o (List.mem_cons_of_mem _ ho))
        refine ⟨j + 1, r, by omega, by simpa using g2, g3, ?_⟩
        intro r hr
        rw [List.take_succ_cons] at hr
        cases hr with
        | head => exact he
        | tail _ hr => exact g4 r hr
      · exact ⟨0, (b, e), by omega, rfl, he, fun r hr => (by cases hr)⟩

theorem reads_take {net : Net} {c : Conn} : ∀ (lens : List Nat) (w : World) (outs : List ReadRes) (j : Nat), reads net c w lens = some outs → reads net c w (lens.take j) = some (outs.take j) := by
  intro lens
  induction lens with
  | nil => intro w outs j h; cases h; cases j <;> rfl
  | cons len lens ih =>
    intro w outs j h
    cases j with
    | zero => rfl
    | succ j =>
      simp only [reads, List.take_succ_cons] at h ⊢
      split at h
      · cases h
      · rename_i w' r hr
        obtain ⟨outs', h1, rfl⟩ := Option.map_eq_some_iff.1 h
        rw [ih w' outs' j h1]
        rfl

theorem steady_all {c : Conn} (hc : c.Good) (hcfg : valuesOf "Range".toList c.configured = []) {content : Bytes} {cs : Nat} (hcs : 0 < cs) (hlen : content.length < 2 ^ 63) {objs : Objects}
    (hk : Kept c content cs objs) {e : Env} (he : FromChunks c content cs objs e) {k off : Nat} {o : Opened} (ho : e.src k off = some o) (hE : o.ending = .eof) : o.reads.flatten = content.drop off := by
  obtain ⟨_, h2, h3, h4⟩ := he k off o ho
  have hs : FromChunks c content cs objs { e with src := fun k off => (e.src k off).map (fun o => { o with info := { o.info with size := none } }) } := by
    intro k off o' ho'
    obtain ⟨o, ho, rfl⟩ := Option.map_eq_some_iff.1 ho'
    obtain ⟨_, g2, g3, g4⟩ := he k off o ho
    exact ⟨.inl rfl, g2, g3, g4⟩
  exact (steady hc hcfg hcs hlen hk hs k off { o with info := { o.info with size := none } } (by simp [ho])).2.2 hE rfl

/-! ### Theorems -/

/-- **C136** (push), for files that are not empty. After any history of pushes of a file, a push that returns nil means that the server keeps the whole object; whatever a push returns, the chunks stored right before are
still right, and no other object is touched. -/
theorem C136_push_partial (c : Conn) (hc : c.Good) (content : Bytes) (hne : content ≠ []) (cs : Nat) (hcs : 0 < cs) (objs objs' objs'' : Objects) (hok : StoreOK content cs (chunks c objs))
    (h : Pushes c content cs objs objs') (ok : Bool) (hp : PushCall c content cs objs' objs'' ok) :
    (ok = true → Kept c content cs objs'') ∧
    (∀ k, k ≤ chunkCount content.length cs → (∀ i, i < k → objs' (c.name i) = some ((content.drop (i * cs)).take cs)) → ∀ i, i < k → objs'' (c.name i) = some ((content.drop (i * cs)).take cs)) ∧
    (∀ n, (∀ i, n ≠ c.name i) → objs'' n = objs n) := by
  have hatt := pushes_attempts hc hcs h hok
  have hok' := (attempts_spec hc hcs hatt hok).1
  have hone := push_attempts hc hcs hok' hp
  refine ⟨?_, (C134_upload c hc content cs hcs objs' objs'' hok' hone).2.1, (C134_upload c hc content cs hcs objs objs'' hok (attempts_trans hatt hone)).2.2⟩
  intro hT
  cases hp with
  | localFailed => cases hT
  | unknown => cases hT
  | complete st hst hcm => exact (((C134_upload c hc content cs hcs objs objs' hok hatt).1 st hst).2 hcm).1
  | commit st hst hcm ho =>
    exfalso
    have := (state_offset hc hcs hok' hst hcm).2 hne
    unfold pushOffset at ho
    split at ho <;> omega
  | append st hst hcm ho avail srcErr hr _ _ ha =>
    subst hT
    have he : pushOffset content.length st = st.offset := if_neg (by have := (state_offset hc hcs hok' hst hcm).1; omega)
    rw [he] at ha hr
    have hfull : AppendCall c content.length cs st.offset (content.drop st.offset) srcErr objs' objs'' true := by
      cases srcErr with
      | false =>
        rw [List.take_of_length_le (by rw [List.length_drop]; exact hr rfl)] at ha
        exact ha
      | true =>
        have := call_longer ha ((content.drop st.offset).drop avail)
        rw [List.take_append_drop] at this
        exact this
    exact (C134_append c hc content cs hcs objs objs' objs'' hok hatt st hst hcm srcErr hfull).1

/-- **C136 fails** for an empty file: no push of it ever changes anything on the server, ... -/
theorem C136_counterexample_empty (c : Conn) (cs : Nat) (objs objs' : Objects) (ok : Bool) (h : PushCall c [] cs objs objs' ok) : objs' = objs := by
  cases h with
  | localFailed => rfl
  | unknown => rfl
  | complete => rfl
  | commit => rfl
  | append st hst hcm ho =>
    exfalso
    apply ho
    unfold pushOffset
    split
    · rfl
    · rename_i h
      have : ([] : Bytes).length = 0 := rfl
      omega

/-- ... it returns nil although the chunk that stands for the empty object (chunk.go 160-161) is missing, and the sink goes on reporting that it is incomplete. -/
theorem C136_counterexample_empty_nil (c : Conn) (hc : c.Good) (cs : Nat) (objs : Objects) (hn : objs (c.name 0) = none) :
    PushCall c [] cs objs objs true ∧ ¬Kept c [] cs objs ∧ ∀ st, StateCall c 0 cs objs (some st) → st.complete = false := by
  have hst : StateCall c ([] : Bytes).length cs objs (some { offset := 0 * cs, complete := false }) := .absent 0 0 _ (head_missing c hc objs 0 hn) (by decide)
  refine ⟨.commit _ hst rfl ?_, ?_, ?_⟩
  · simp [pushOffset]
  · intro hk
    have := hk 0 (show 0 < 1 by decide)
    rw [hn] at this
    cases this
  · intro st h
    obtain ⟨f, hf⟩ := state_refines hc h
    have h1 : stateLoop (chunks c objs) f 0 cs 1 0 = some st := hf
    unfold stateLoop at h1
    split at h1
    · cases h1
    · rw [show chunks c objs 0 = none from hn] at h1
      cases h1
      rfl

/-- **C136** (pull). While the server keeps the object, after any number of pulls from it, killed anywhere or failed, the part file is a beginning of the object and the destination is absent or exactly the object; and
it is there when a pull returns nil. -/
theorem C136_pull (c : Conn) (hc : c.Good) (hcfg : valuesOf "Range".toList c.configured = []) (content : Bytes) (cs : Nat) (hcs : 0 < cs) (hlen : content.length < 2 ^ 63) (objs : Objects)
    (hk : Kept c content cs objs) (d0 d : Disk) (h0 : d0.target = none ∧ d0.part = none) (h : Prog.Reach (PullsFrom c content cs objs) d0 d) :
    (∀ p, d.part = some p → p <+: content) ∧ (d.target = none ∨ d.target = some content) ∧
    ∀ e exp, FromChunks c content cs objs e → Prog.result (Fsutil.Pull.pull e exp) d = .ok () → (Prog.final (Fsutil.Pull.pull e exp) d).target = some content := by
  have hreach : Prog.Reach (PullsOf content) d0 d := by
    induction h with
    | start => exact .start
    | crash _ hm ht ih => obtain ⟨e, exp, he, rfl⟩ := hm; exact .crash ih ⟨e, exp, steady hc hcfg hcs hlen hk he, rfl⟩ ht
    | done _ hm ih => obtain ⟨e, exp, he, rfl⟩ := hm; exact .done ih ⟨e, exp, steady hc hcfg hcs hlen hk he, rfl⟩
  obtain ⟨h1, h2⟩ := Fsutil.Pull.C26_partial_is_prefix h0 hreach
  exact ⟨h1, h2, fun e exp he hok => Fsutil.Pull.C26_success_is_source h0 hreach e exp (steady hc hcfg hcs hlen hk he) hok⟩

theorem state_exists (c : Conn) (hc : c.Good) (total cs : Nat) (objs : Objects) : ∀ fuel i, ∃ st, StateRun c total cs objs fuel i (some st) := by
  intro fuel
  induction fuel with
  | zero => exact fun i => ⟨_, .done i⟩
  | succ fuel ih =>
    intro i
    cases h : objs (c.name i) with
    | none => exact ⟨_, .absent fuel i _ (head_missing c hc objs i h) (by decide)⟩
    | some d =>
      have hs : statResult { status := 200, contentLength := (d.length : Int) } = .size d.length := by
        unfold statResult
        have : ¬((d.length : Int) < 0) := by omega
        simp [this]
      by_cases hn : (d.length : Int) = expectedChunkSize i total cs
      · obtain ⟨st, hst⟩ := ih (i + 1)
        exact ⟨st, .right fuel i _ _ _ (head_honest c hc objs i d h) hs hn hst⟩
      · exact ⟨_, .wrong fuel i _ _ (head_honest c hc objs i d h) hs hn⟩

theorem append_exists (c : Conn) (hc : c.Good) (content : Bytes) (cs : Nat) (hcs : 0 < cs) : ∀ fuel i objs, i + fuel = chunkCount content.length cs →
    ∃ objs', AppendRun c content.length cs false fuel i (content.drop (i * cs)) objs objs' true := by
  intro fuel
  induction fuel with
  | zero => exact fun i objs _ => ⟨objs, .done i _ objs⟩
  | succ fuel ih =>
    intro i objs hi
    obtain ⟨h1, h2⟩ := chunk_cover content.length cs i hcs (by omega)
    have hlen : ((content.drop (i * cs)).take (expectedChunkSize i content.length cs)).length = expectedChunkSize i content.length cs := by
      rw [List.length_take, List.length_drop]
      have : (i + 1) * cs = i * cs + cs := by rw [Nat.add_mul, Nat.one_mul]
      omega
    obtain ⟨r, e, p⟩ := put_honest c hc.plain hc.trimmed hc.bytes objs i ((content.drop (i * cs)).take (expectedChunkSize i content.length cs))
    have hput : PutRun c.root objs (putReq c.base c.configured (c.name i) ((content.drop (i * cs)).take (expectedChunkSize i content.length cs)).length
        ((content.drop (i * cs)).take (expectedChunkSize i content.length cs)) false) (some { status := 201 })
        (upd objs (c.name i) ((content.drop (i * cs)).take (expectedChunkSize i content.length cs))) := by
      rw [e]
      exact .inr ⟨_, p, .inl rfl⟩
    have hrest : ∃ objs', AppendRun c content.length cs false fuel (i + 1) ((content.drop (i * cs)).drop (expectedChunkSize i content.length cs))
        (upd objs (c.name i) ((content.drop (i * cs)).take (expectedChunkSize i content.length cs))) objs' true := by
      cases fuel with
      | zero => exact ⟨_, .done _ _ _⟩
      | succ fuel =>
        have he : expectedChunkSize i content.length cs = cs := by
          unfold expectedChunkSize
          exact if_pos (by omega)
        rw [he, List.drop_drop, show i * cs + cs = (i + 1) * cs by rw [Nat.add_mul, Nat.one_mul]]
        exact ih (i + 1) _ (by omega)
    obtain ⟨objs', hr⟩ := hrest
    exact ⟨objs', .put fuel i _ objs _ objs' (some { status := 201 }) true (by rw [hlen]; omega) (by rw [hlen]; omega) hput (by decide) hr⟩

/-- **C136** (pushing ends). From whatever interrupted pushes have left, a push to which the server answers puts all of a file that is not empty there; and a push of an object the server keeps answers
nil as soon as it learns that, and changes nothing. -/
theorem C136_push_completes (c : Conn) (hc : c.Good) (content : Bytes) (hne : content ≠ []) (cs : Nat) (hcs : 0 < cs) (objs objs' : Objects) (hok : StoreOK content cs (chunks c objs))
    (h : Pushes c content cs objs objs') :
    (∃ objs'', PushCall c content cs objs' objs'' true ∧ Kept c content cs objs'') ∧
    (Kept c content cs objs' → (∃ st, StateCall c content.length cs objs' (some st)) ∧ (∀ st, StateCall c content.length cs objs' (some st) → PushCall c content cs objs' objs' true) ∧
      ∀ objs'' ok, PushCall c content cs objs' objs'' ok → objs'' = objs') := by
  have hatt := pushes_attempts hc hcs h hok
  have hok' := (attempts_spec hc hcs hatt hok).1
  have hfull : Kept c content cs objs' → ∀ st, StateCall c content.length cs objs' (some st) → st.complete = true := by
    intro hk st hst
    cases hcm : st.complete with
    | true => rfl
    | false =>
      obtain ⟨f, hf⟩ := state_refines hc hst
      obtain ⟨g1, _⟩ := stateLoop_spec content cs hcs _ hok' f _ 0 (by simp) (by intro i hi; omega) st hf
      obtain ⟨k, _, hk', _, _, hne'⟩ := g1 hcm
      exact absurd (hk k hk') hne'
  refine ⟨?_, fun hk => ⟨state_exists c hc _ cs objs' _ 0, fun st hst => .complete st hst (hfull hk st hst), ?_⟩⟩
  · obtain ⟨st, hst⟩ := state_exists c hc content.length cs objs' (chunkCount content.length cs) 0
    have hpush : ∃ objs'', PushCall c content cs objs' objs'' true := by
      cases hcm : st.complete with
      | true => exact ⟨_, .complete st hst hcm⟩
      | false =>
        obtain ⟨f, hf⟩ := state_refines hc hst
        obtain ⟨g1, _⟩ := stateLoop_spec content cs hcs _ hok' f _ 0 (by simp) (by intro i hi; omega) st hf
        obtain ⟨k, _, hk, hoff, _, _⟩ := g1 hcm
        obtain ⟨o1, o2⟩ := state_offset hc hcs hok' hst hcm
        have he : pushOffset content.length st = st.offset := if_neg (by omega)
        have hlt := o2 hne
        obtain ⟨objs'', ha⟩ := append_exists c hc content cs hcs (chunkCount content.length cs - k) k objs' (by omega)
        refine ⟨objs'', .append st hst hcm (by rw [he]; omega) content.length false (fun _ => by omega) objs'' true ?_⟩
        rw [he, hoff]
        unfold AppendCall
        rw [if_neg (by simp), Nat.mul_div_cancel _ hcs, List.take_of_length_le (by rw [List.length_drop]; omega)]
        exact ha
    obtain ⟨objs'', hp⟩ := hpush
    exact ⟨objs'', hp, (C136_push_partial c hc content hne cs hcs objs objs' objs'' hok h true hp).1 rfl⟩
  · intro objs'' ok hp
    cases hp with
    | localFailed => rfl
    | unknown => rfl
    | complete => rfl
    | commit => rfl
    | append st hst hcm =>
      rw [hfull hk st hst] at hcm
      cases hcm

/-- **C136** (the stream ends). When nothing fails, reading the stream with a buffer of any size comes to its end after at most one read more than there are bytes, with all of them. -/
theorem C136_drains (c : Conn) (hc : c.Good) (hcfg : valuesOf "Range".toList c.configured = []) (content : Bytes) (cs : Nat) (hcs : 0 < cs) (hlen : content.length < 2 ^ 63) (objs : Objects)
    (hk : Kept c content cs objs) (net : Net) (ht : Truthful c objs net) (hcalm : Calm c objs net) (off : Nat) (ho : off < content.length) (buf : Nat) (hb : 0 < buf) :
    ∃ w n outs r, Download.openSource content.length cs off = some w ∧ n ≤ content.length - off + 1 ∧ reads net c w (List.replicate n buf) = some outs ∧ (∀ r ∈ outs.dropLast, r.2 = none) ∧
      outs.getLast? = some r ∧ r.2 = some .eof ∧ (outs.map (·.1)).flatten = content.drop off := by
  obtain ⟨w, h1, h2⟩ := C135_download c hc hcfg content cs hcs hlen objs hk net ht off ho
  obtain ⟨outs, g1, g2, g3⟩ := h2 (List.replicate (content.length - off + 1) buf)
  obtain ⟨j, r, hj, hr, he, hpre⟩ := explains_ends (content.length - off) (content.drop off) buf outs hb (by rw [List.length_drop]; exact Nat.le_refl _) g2 (g3 hcalm)
  have htake := reads_take _ w outs (j + 1) g1
  rw [List.take_replicate, Nat.min_eq_left (by omega)] at htake
  have hsplit : outs.take (j + 1) = outs.take j ++ [r] := by rw [List.take_add_one, hr]; rfl
  obtain ⟨outs', k1, k2, _⟩ := h2 (List.replicate (j + 1) buf)
  rw [htake] at k1
  cases k1
  refine ⟨w, j + 1, outs.take (j + 1), r, h1, by omega, htake, ?_, ?_, he, ?_⟩
  · rw [hsplit, List.dropLast_concat]
    exact hpre
  · rw [hsplit]
    simp
  · exact (explains_all _ _ _ k2).2.2 ⟨r, by rw [hsplit]; simp, he⟩

/-- Pulls from the chunks with one ETag, or none, whose callers expect this object and whose hooks accept it. -/
def SameFrom (c : Conn) (content : Bytes) (cs : Nat) (objs : Objects) (E : Str) (e : Env) (exp : Info) : Prop :=
  FromChunks c content cs objs e ∧ (∀ k off o, e.src k off = some o → o.info.etag = E) ∧ (exp.etag = [] ∨ exp.etag = E) ∧ (exp.size = none ∨ exp.size = some content.length) ∧ Fsutil.Pull.HooksOk e content

/-- **C136** (a pull that is let finish finishes). After any such history of pulls, killed anywhere or failed, a pull during which no call fails and the stream comes to its end returns nil and has made the object; it
asks the server only for what the part file has not. -/
theorem C136_completes (c : Conn) (hc : c.Good) (hcfg : valuesOf "Range".toList c.configured = []) (content : Bytes) (cs : Nat) (hcs : 0 < cs) (hlen : content.length < 2 ^ 63) (objs : Objects)
    (hk : Kept c content cs objs) (E : Str) (hE : Fsutil.Pull.trimSpace E = E) (d0 d : Disk) (h0 : d0.target = none ∧ d0.part = none)
    (h : Prog.Reach (fun m => ∃ e exp, SameFrom c content cs objs E e exp ∧ m = Fsutil.Pull.pull e exp) d0 d) (ht : d.target = none) (e : Env) (exp : Info) (he : SameFrom c content cs objs E e exp)
    (hf : Fsutil.Pull.NoFault e content.length) (o : Opened) (ho : e.src 0 (d.part.getD []).length = some o) (hend : o.ending = .eof) :
    Prog.result (Fsutil.Pull.pull e exp) d = .ok () ∧ (Prog.final (Fsutil.Pull.pull e exp) d).target = some content := by
  have hu : ∀ e exp, SameFrom c content cs objs E e exp → Fsutil.Pull.Uniform content E e exp := fun e exp g => ⟨steady hc hcfg hcs hlen hk g.1, g.2.1, hE, g.2.2.1, g.2.2.2.1⟩
  have hreach : Prog.Reach (Fsutil.Pull.UniformPulls content E) d0 d := by
    clear ht ho
    induction h with
    | start => exact .start
    | crash _ hm ht ih => obtain ⟨e, exp, he, rfl⟩ := hm; exact .crash ih ⟨e, exp, hu e exp he, rfl⟩ ht
    | done _ hm ih => obtain ⟨e, exp, he, rfl⟩ := hm; exact .done ih ⟨e, exp, hu e exp he, rfl⟩
  exact Fsutil.Pull.C26_completes h0 hreach ht e exp (hu e exp he) hf he.2.2.2.2 o ho (steady_all hc hcfg hcs hlen hk he.1 ho hend) hend

/-- **C136** (there and back), for files that are not empty: once a push has returned nil, after any history of pushes, every pull that returns nil, after any history of pulls on another disk, has made exactly the file
that was pushed. -/
theorem C136_roundtrip_partial (c : Conn) (hc : c.Good) (hcfg : valuesOf "Range".toList c.configured = []) (content : Bytes) (hne : content ≠ []) (cs : Nat) (hcs : 0 < cs) (hlen : content.length < 2 ^ 63)
    (objs objs' objs'' : Objects) (hok : StoreOK content cs (chunks c objs)) (hs : Pushes c content cs objs objs') (hp : PushCall c content cs objs' objs'' true)
    (d0 d : Disk) (h0 : d0.target = none ∧ d0.part = none) (h : Prog.Reach (PullsFrom c content cs objs'') d0 d) (e : Env) (exp : Info) (he : FromChunks c content cs objs'' e)
    (hr : Prog.result (Fsutil.Pull.pull e exp) d = .ok ()) : (Prog.final (Fsutil.Pull.pull e exp) d).target = some content :=
  (C136_pull c hc hcfg content cs hcs hlen objs'' ((C136_push_partial c hc content hne cs hcs objs objs' objs'' hok hs true hp).1 rfl) d0 d h0 h).2.2 e exp he hr

/-! ### The hypotheses hold -/

/-- An interrupted push, and one that completes it, of three bytes in chunks of two. -/
example : ∃ objs objs', StoreOK [1, 2, 3] 2 (chunks conn0 (fun _ => none)) ∧ Pushes conn0 [1, 2, 3] 2 (fun _ => none) objs ∧ PushCall conn0 [1, 2, 3] 2 objs objs' true := by
  obtain ⟨r0, e0, p0⟩ := put_honest conn0 good0.plain good0.trimmed good0.bytes (fun _ => none) 0 [1, 2]
  obtain ⟨r1, e1, p1⟩ := put_honest conn0 good0.plain good0.trimmed good0.bytes (upd (fun _ => none) (conn0.name 0) [1, 2]) 1 [3]
  refine ⟨upd (fun _ => none) (conn0.name 0) [1, 2], upd (upd (fun _ => none) (conn0.name 0) [1, 2]) (conn0.name 1) [3], fun i b h => (by cases h), ?_, ?_⟩
  · have hst : StateCall conn0 3 2 (fun _ => none) (some { offset := 0, complete := false }) := .absent 1 0 _ (head_missing conn0 good0 _ 0 rfl) (by decide)
    refine .cons false (.append { offset := 0, complete := false } hst rfl (by decide) 2 true (fun h => (by cases h)) _ false ?_) (.nil _)
    show AppendRun conn0 3 2 true 2 0 [1, 2] _ _ false
    refine .put 1 0 _ _ (upd (fun _ => none) (conn0.name 0) [1, 2]) _ (some { status := 201 }) _ (by decide) (by decide) ?_ (by decide) (.srcFailed 0 1 _ _ (by decide) rfl)
    show PutRun _ _ (putReq conn0.base conn0.configured (conn0.name 0) ([1, 2] : Bytes).length [1, 2] false) _ _
    rw [e0]
    exact .inr ⟨_, p0, .inl rfl⟩
  · have hst : StateCall conn0 3 2 (upd (fun _ => none) (conn0.name 0) [1, 2]) (some { offset := 2, complete := false }) :=
      .right 1 0 2 _ _ (head_honest conn0 good0 _ 0 [1, 2] rfl) (by decide) (by decide) (.absent 0 1 _ (head_missing conn0 good0 _ 1 rfl) (by decide))
    refine .append { offset := 2, complete := false } hst rfl (by decide) 1 false (fun _ => by decide) _ true ?_
    show AppendRun conn0 3 2 false 1 1 [3] _ _ true
    refine .put 0 1 _ _ (upd (upd (fun _ => none) (conn0.name 0) [1, 2]) (conn0.name 1) [3]) _ (some { status := 201 }) _ (by decide) (by decide) ?_ (by decide) (.done _ _ _)
    show PutRun _ _ (putReq conn0.base conn0.configured (conn0.name 1) ([3] : Bytes).length [3] false) _ _
    rw [e1]
    exact .inr ⟨_, p1, .inl rfl⟩

/-- A pull of "abc" from the chunks of `objs0`: the first time the connection breaks after two bytes, the second time it does not. -/
def env0 (first : Bool) : Env where
  fail _ := false
  src _ off :=
    if first then (if off = 0 then some { info := { etag := [], size := some 3 }, reads := [[97, 98], []], ending := .err } else none)
    else (if off = 2 then some { info := { etag := [], size := some 3 }, reads := [[99]], ending := .eof } else none)
  wr _ := (3, true)
  sideWr := (0, true)
  hooks := 0
  accept _ _ := true

example : (∀ first, FromChunks conn0 [97, 98, 99] 2 objs0 (env0 first)) ∧ (Prog.final (Fsutil.Pull.pull (env0 true) ⟨[], none⟩) ⟨none, none, none⟩).part = some [97, 98] ∧
    Prog.result (Fsutil.Pull.pull (env0 false) ⟨[], none⟩) ⟨none, some [97, 98], none⟩ = .ok () := by
  refine ⟨?_, by decide +kernel, rfl⟩
  intro first k off o ho
  cases first with
  | true =>
    simp only [env0, if_true] at ho
    split at ho
    · rename_i h0
      cases ho
      subst h0
      refine ⟨.inr rfl, by decide, fun h => (by cases h), fun _ => ⟨net0 (fun n => n = 4), _, truthful0 _, rfl, 2, 2, [([97, 98], none), ([], some (.other 7))], by decide, by decide +kernel, ?_, rfl, fun h => (by cases h)⟩⟩
      intro r hr
      cases hr with
      | head => rfl
      | tail _ hr => cases hr
    · cases ho
  | false =>
    simp only [env0, if_false, Bool.false_eq_true] at ho
    split at ho
    · rename_i h0
      cases ho
      subst h0
      refine ⟨.inr rfl, by decide, fun h => (by cases h), fun _ => ⟨net0 (fun _ => false), _, truthful0 _, rfl, 2, 1, [([99], some .eof)], by decide, by decide +kernel, fun r hr => (by cases hr), rfl,
        fun _ => ⟨_, rfl, rfl⟩⟩⟩
    · cases ho

end Verif.Stream.Transfer
