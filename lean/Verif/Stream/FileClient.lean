import Verif.Stream.FileUrl
import Verif.Stream.ChunkProps
/-
C131: the HTTP client of fileserver against a server that keeps objects and answers truthfully, /repo/stream/fileserver/client.go 153-290.

Simplifications: one request is one exchange (redirects are the Doer's), a request that cannot be built is not modelled, and the reader given to `Put` is of a kind net/http does not know,
as are the temporary files of ChunkedSink.
-/
namespace Verif.Stream.FileClient
open Verif Verif.Path Verif.Url Verif.Http.Request Verif.Stream.FileUrl

/-! ### Model -/

inductive Method where
  | get | head | put
deriving DecidableEq

structure Req where
  method : Method
  target : Str × Option Str
  header : Header
  /-- the Content-Length, if the request has one -/
  length : Option Nat := none
  body : Bytes := []

structure Resp where
  status : Nat
  contentRange : Str := []
  /-- net/http: -1 if unknown -/
  contentLength : Int := -1
  body : Bytes := []

/-- client.go 156-168: the request of `Get`. -/
def getReq (b : Base) (configured : Header) (name : Str) (offset : Int) : Req :=
  { method := .get, target := target (objectURL b name), header := getHeader configured offset }

/-- client.go 176-218: what `Get` makes of the answer. -/
def getResult (offset : Int) (r : Resp) : Chunk.GetRes := Chunk.getDecision offset r.status r.contentRange r.contentLength

/-- client.go 224-232: the request of `Stat`. -/
def statReq (b : Base) (configured : Header) (name : Str) : Req :=
  { method := .head, target := target (objectURL b name), header := applyHeaders configured }

inductive StatRes where
  | size (n : Int)
  | notExist
  | err
deriving DecidableEq

/-- client.go 241-259: what `Stat` makes of the answer. -/
def statResult (r : Resp) : StatRes :=
  if r.status = 200 ∨ r.status = 204 then
    if r.contentLength < 0 then .err else .size r.contentLength
  else if r.status = 404 ∨ r.status = 410 then .notExist
  else .err

/-- client.go 267-275: the request of `Put`. net/http (documentation of `Request.ContentLength`): the given number of bytes is announced and sent, and sending fails if the reader has
fewer or more; 0 with a body, and negative numbers, mean that the length is unknown, and everything is sent. `srcErr`: the reader fails at its end. -/
def putReq (b : Base) (configured : Header) (name : Str) (size : Int) (body : Bytes) (srcErr : Bool) : Option Req :=
  if srcErr then none
  else if 0 < size ∧ (body.length : Int) ≠ size then none
  else some { method := .put, target := target (objectURL b name), header := applyHeaders configured, length := if 0 < size then some size.toNat else none, body := body }

/-- client.go 277-290: whether `Put` returns nil; `none` if there was no answer. -/
def putResult : Option Resp → Bool
  | none => false
  | some r => !(r.status < 200 || r.status ≥ 300)

/-! ### Specification -/

/-- What the server keeps. -/
abbrev Objects := Str → Option Bytes

def upd (objs : Objects) (name : Str) (d : Bytes) : Objects := fun n => if n = name then some d else objs n

/-- A request for the object `name` below `root`. -/
def Addressed (root : Str) (t : Str × Option Str) (name : Str) : Prop := ∃ seg, t = (root ++ slash :: seg, none) ∧ slash ∉ seg ∧ segment seg = name

/-- RFC 9110: the bytes `a` to `e` of `len`. -/
def IsContentRange (text : Str) (a e len : Nat) : Prop :=
  ∃ A B C, text = "bytes ".toList ++ A ++ '-' :: B ++ '/' :: C ∧ IsDecimal A a ∧ IsDecimal B e ∧ IsDecimal C len

/-- What a truthful server may answer: it may fail, not know a length in advance, or ignore a range, but what it says is so. A `PUT` it confirms has happened, one it does not may have. -/
structure Honest (root : Str) (objs : Objects) (r : Req) (resp : Resp) (objs' : Objects) : Prop where
  get : r.method = .get → objs' = objs ∧ ∀ name, Addressed root r.target name →
    (resp.status = 200 → ∃ d, objs name = some d ∧ resp.body = d ∧ (resp.contentLength = d.length ∨ resp.contentLength = -1)) ∧
    (resp.status = 206 → ∃ d text a, objs name = some d ∧ valuesOf "Range".toList r.header = [text] ∧ Asks text a none ∧ a < d.length ∧
      IsContentRange resp.contentRange a (d.length - 1) d.length ∧ resp.body = d.drop a) ∧
    (resp.status = 404 ∨ resp.status = 410 → objs name = none)
  head : r.method = .head → objs' = objs ∧ ∀ name, Addressed root r.target name →
    (resp.status = 200 ∨ resp.status = 204 → ∃ d, objs name = some d ∧ (resp.contentLength = d.length ∨ resp.contentLength = -1)) ∧
    (resp.status = 404 ∨ resp.status = 410 → objs name = none)
  put : r.method = .put → ∀ name, Addressed root r.target name →
    (200 ≤ resp.status ∧ resp.status < 300 → objs' = upd objs name r.body) ∧ (objs' = objs ∨ objs' = upd objs name r.body)

/-- A `Put` and its answer, which may get lost. What is not sent in full is not stored. -/
def PutRun (root : Str) (objs : Objects) (req : Option Req) (resp : Option Resp) (objs' : Objects) : Prop :=
  match req with
  | none => resp = none ∧ objs' = objs
  | some r => (resp = none ∧ objs' = objs) ∨ ∃ rs, Honest root objs r rs objs' ∧ (resp = some rs ∨ resp = none)

/-! ### Lemmas -/

theorem trimmed_unique {s t₁ t₂ : Str} (h₁ : IsTrimmed t₁ s) (h₂ : IsTrimmed t₂ s) : t₁ = t₂ := by
  have key : ∀ (k₁ k₂ : Nat) (t₁ t₂ : Str), (∀ r, t₁ ≠ r ++ [slash]) → (∀ r, t₂ ≠ r ++ [slash]) → t₁ ++ List.replicate k₁ slash = t₂ ++ List.replicate k₂ slash → t₁ = t₂ := by
    intro k₁
    induction k₁ with
    | zero =>
      intro k₂ t₁ t₂ h1 h2 h
      cases k₂ with
      | zero => simpa using h
      | succ k₂ =>
        exfalso
        apply h1 (t₂ ++ List.replicate k₂ slash)
        rw [List.append_assoc, ← List.replicate_succ', ← h]
        simp
    | succ k₁ ih =>
      intro k₂ t₁ t₂ h1 h2 h
      cases k₂ with
      | zero =>
        exfalso
        apply h2 (t₁ ++ List.replicate k₁ slash)
        rw [List.append_assoc, ← List.replicate_succ', h]
        simp
      | succ k₂ =>
        rw [List.replicate_succ', List.replicate_succ', ← List.append_assoc, ← List.append_assoc] at h
        exact ih k₂ t₁ t₂ h1 h2 (List.append_inj_left' h rfl)
  obtain ⟨⟨k₁, e₁⟩, n₁⟩ := h₁
  obtain ⟨⟨k₂, e₂⟩, n₂⟩ := h₂
  exact key k₁ k₂ t₁ t₂ n₁ n₂ (e₁.symm.trans e₂)

theorem addressed {b : Base} (hb : Plain b) {root : Str} (hr : IsTrimmed root b.front) {name : Str} (hn : IsBytes name) : Addressed root (target (objectURL b name)) name := by
  obtain ⟨front, seg, h1, h2, h3, h4⟩ := C130_place_partial b hb name hn
  rw [trimmed_unique hr h1]
  exact ⟨seg, h2, h3, h4⟩

theorem afterLast_some {sep : Char} {a b : Str} (hb : sep ∉ b) : afterLast sep (a ++ sep :: b) = some b := by
  have hnone : ∀ b : Str, sep ∉ b → afterLast sep b = none := by
    intro b
    induction b with
    | nil => intro _; rfl
    | cons c b ih =>
      intro h
      rw [afterLast, ih (fun hm => h (List.mem_cons_of_mem _ hm))]
      exact if_neg (fun e => h (by simp [e]))
  induction a with
  | nil => rw [List.nil_append, afterLast, hnone b hb]; exact if_pos rfl
  | cons c a ih => rw [List.cons_append, afterLast, ih]

theorem decimal_not {s : Str} {n : Nat} (h : IsDecimal s n) {c : Char} (hc : ¬('0' ≤ c ∧ c ≤ '9')) : c ∉ s := fun hm => hc (h.digits c hm)

theorem parse_total {text : Str} {a e len : Nat} (h : IsContentRange text a e len) (hl : len < 2 ^ 63) : Chunk.parseTotal text = some (len : Int) := by
  obtain ⟨A, B, C, ht, hA, hB, hC⟩ := h
  have h1 : text ≠ [] := by rw [ht]; simp
  have h2 : trimPrefix text "bytes ".toList = (A ++ '-' :: B) ++ '/' :: C := by
    have : text = "bytes ".toList ++ ((A ++ '-' :: B) ++ '/' :: C) := by rw [ht]; simp
    rw [this, trimPrefix, if_pos (by rw [List.isPrefixOf_iff_prefix]; exact List.prefix_append ..)]
    exact List.drop_left
  have h3 : C ≠ ['*'] := by
    rintro rfl
    exact decimal_not hC (c := '*') (by decide) (by simp)
  unfold Chunk.parseTotal
  rw [if_neg h1]
  simp only [h2, afterLast_some (decimal_not hC (c := '/') (by decide)), if_neg h3]
  have hne := hC.ne_nil
  cases C with
  | nil => exact absurd rfl hne
  | cons c cs =>
    have hc := hC.digits c (by simp)
    have n1 : c ≠ '-' := by rintro rfl; exact absurd hc (by decide)
    have n2 : c ≠ '+' := by rintro rfl; exact absurd hc (by decide)
    unfold parseInt64
    simp only [if_neg n1, if_neg n2]
    rw [if_neg hne, (digitsVal_isDecimal hne).2 hC]
    simp [hl]

/-- A text asks for one thing. -/
theorem asks_unique {text : Str} {a₁ a₂ : Nat} (h₁ : Asks text a₁ none) (h₂ : Asks text a₂ none) : a₁ = a₂ := by
  obtain ⟨A, B, e1, d1, b1⟩ := h₁
  obtain ⟨A', B', e2, d2, b2⟩ := h₂
  simp only at b1 b2
  subst b1 b2
  have h : "bytes=".toList ++ A ++ ['-'] = "bytes=".toList ++ A' ++ ['-'] := e1.symm.trans e2
  have h : A = A' := by
    rw [List.append_assoc, List.append_assoc] at h
    exact List.append_inj_left' (List.append_cancel_left h) rfl
  subst h
  exact d1.unique d2

/-! ### Property C131 -/

/-- **C131** (Get). Against every truthful server: what is handed out is the object from the offset on, and the size is its size, or -1 where the server did not say; that there is no
such object is said only when there is none. Nothing changes.
Missing from C131: the size when the server does not announce it (counterexample below). -/
theorem C131_get_partial (b : Base) (hb : Plain b) (root : Str) (hr : IsTrimmed root b.front) (configured : Header) (hcfg : valuesOf "Range".toList configured = [])
    (name : Str) (hn : IsBytes name) (offset : Int) (h0 : 0 ≤ offset) (objs objs' : Objects) (hsmall : ∀ d, objs name = some d → d.length < 2 ^ 63) (resp : Resp)
    (h : Honest root objs (getReq b configured name offset) resp objs') :
    objs' = objs ∧
    (∀ total, getResult offset resp = .body total → ∃ d, objs name = some d ∧ resp.body = d.drop offset.toNat ∧ offset ≤ d.length ∧ (total = d.length ∨ (offset = 0 ∧ total = -1))) ∧
    (getResult offset resp = .notExist → objs name = none) ∧
    (resp.status = 206 → 0 < offset ∧ ∃ d, objs name = some d ∧ getResult offset resp = .body d.length) := by
  obtain ⟨hsame, hget⟩ := h.get rfl
  obtain ⟨h200, h206, h404⟩ := hget name (addressed hb hr hn)
  have hhdr : valuesOf "Range".toList (getReq b configured name offset).header = if 0 < offset then ["bytes=".toList ++ natDigits offset.toNat ++ ['-']] else [] := by
    refine (C130_headers configured offset "Range".toList (by decide)).trans ?_
    by_cases ho : 0 < offset
    · rw [if_pos ⟨ho, rfl⟩, if_pos ho]
    · rw [if_neg (fun e => ho e.1), if_neg ho, hcfg]
  have key : resp.status = 206 → 0 < offset ∧ ∃ d, objs name = some d ∧ resp.body = d.drop offset.toNat ∧ offset ≤ d.length ∧ Chunk.parseTotal resp.contentRange = some (d.length : Int) := by
    intro hs
    obtain ⟨d, text, a, hd, hv, hask, hlt, hcr, hbody⟩ := h206 hs
    rw [hhdr] at hv
    by_cases ho : 0 < offset
    · rw [if_pos ho] at hv
      have ht : "bytes=".toList ++ natDigits offset.toNat ++ ['-'] = text := (List.cons.inj hv).1
      have ha : a = offset.toNat := by
        refine asks_unique hask ?_
        rw [← ht]
        exact ⟨_, _, rfl, natDigits_isDecimal _, rfl⟩
      subst ha
      exact ⟨ho, d, hd, hbody, by omega, parse_total hcr (hsmall d hd)⟩
    · rw [if_neg ho] at hv; cases hv
  refine ⟨hsame, ?_, ?_, ?_⟩
  · intro total ht
    unfold getResult Chunk.getDecision at ht
    by_cases h2 : resp.status = 200
    · rw [if_pos h2] at ht
      obtain ⟨d, hd, hbody, hlen⟩ := h200 h2
      by_cases ho : offset > 0
      · rw [if_pos ho] at ht; cases ht
      · rw [if_neg ho] at ht
        have hz : offset = 0 := by omega
        subst hz
        cases ht
        refine ⟨d, hd, by rw [hbody]; rfl, by omega, ?_⟩
        rcases hlen with h | h
        · exact .inl h
        · exact .inr ⟨rfl, h⟩
    · rw [if_neg h2] at ht
      by_cases h6 : resp.status = 206
      · rw [if_pos h6] at ht
        obtain ⟨_, d, hd, hbody, hle, hp⟩ := key h6
        rw [hp] at ht
        simp only [Chunk.GetRes.body.injEq] at ht
        exact ⟨d, hd, hbody, hle, .inl ht.symm⟩
      · rw [if_neg h6] at ht
        split at ht <;> cases ht
  · intro ht
    exact h404 ((Chunk.C12_get_partial offset resp.status resp.contentRange resp.contentLength).2.2.2.1 ht)
  · intro hs
    obtain ⟨ho, d, hd, _, _, hp⟩ := key hs
    refine ⟨ho, d, hd, ?_⟩
    unfold getResult Chunk.getDecision
    rw [if_neg (by omega), if_pos hs, hp]

/-- **C131** (Stat). Against every truthful server: a size is the size of the object, and not-exist means that there is none. -/
theorem C131_stat (b : Base) (hb : Plain b) (root : Str) (hr : IsTrimmed root b.front) (configured : Header) (name : Str) (hn : IsBytes name) (objs objs' : Objects) (resp : Resp)
    (h : Honest root objs (statReq b configured name) resp objs') :
    objs' = objs ∧ (∀ n, statResult resp = .size n → ∃ d, objs name = some d ∧ n = d.length) ∧ (statResult resp = .notExist → objs name = none) := by
  obtain ⟨hsame, hh⟩ := h.head rfl
  obtain ⟨h200, h404⟩ := hh name (addressed hb hr hn)
  refine ⟨hsame, ?_, ?_⟩
  · intro n hs
    unfold statResult at hs
    split at hs
    · rename_i h2
      split at hs
      · cases hs
      · obtain ⟨d, hd, hl⟩ := h200 h2
        cases hs
        exact ⟨d, hd, by omega⟩
    · split at hs <;> cases hs
  · intro hs
    unfold statResult at hs
    split at hs
    · split at hs <;> cases hs
    · split at hs
      · rename_i h4; exact h404 h4
      · cases hs

/-- **C131** (Put). nil means that exactly the bytes of the reader are stored under the name, with the size given unless that is 0; otherwise they are, or nothing happened. No
other object is touched. The length of the request is announced when it is not 0.
Missing from C131: the length of an empty object (counterexample below). -/
theorem C131_put_partial (b : Base) (hb : Plain b) (root : Str) (hr : IsTrimmed root b.front) (configured : Header) (name : Str) (hn : IsBytes name) (size : Int) (body : Bytes) (srcErr : Bool)
    (objs objs' : Objects) (resp : Option Resp) (h : PutRun root objs (putReq b configured name size body srcErr) resp objs') :
    (putResult resp = true → objs' = upd objs name body ∧ srcErr = false ∧ (0 < size → (body.length : Int) = size)) ∧
    (objs' = objs ∨ (objs' = upd objs name body ∧ srcErr = false ∧ (0 < size → (body.length : Int) = size))) ∧
    (∀ r, putReq b configured name size body srcErr = some r → 0 < size → r.length = some body.length) := by
  unfold PutRun at h
  cases hq : putReq b configured name size body srcErr with
  | none =>
    rw [hq] at h
    obtain ⟨h1, h2⟩ := h
    subst h1 h2
    exact ⟨fun h => (by cases h), .inl rfl, fun r h => (by cases h)⟩
  | some r =>
    rw [hq] at h
    have hr' : srcErr = false ∧ (0 < size → (body.length : Int) = size) ∧ r.method = .put ∧ r.target = target (objectURL b name) ∧ r.body = body ∧
        (0 < size → r.length = some body.length) := by
      unfold putReq at hq
      split at hq
      · cases hq
      · rename_i hs
        split at hq
        · cases hq
        · rename_i hl
          have hsz : 0 < size → (body.length : Int) = size := fun hp => Classical.byContradiction fun hne => hl ⟨hp, hne⟩
          cases hq
          refine ⟨by simpa using hs, hsz, rfl, rfl, rfl, ?_⟩
          intro hp
          have := hsz hp
          simp only [if_pos hp]
          exact congrArg some (by omega)
    obtain ⟨hs, hsz, hm, ht, hbody, hlen⟩ := hr'
    refine ⟨?_, ?_, fun r' e => (by cases e; exact hlen)⟩
    · intro hok
      rcases h with ⟨h1, _⟩ | ⟨rs, hon, h1⟩
      · rw [h1] at hok; cases hok
      · rcases h1 with h1 | h1
        · rw [h1] at hok
          have := (hon.put hm name (by rw [ht]; exact addressed hb hr hn)).1
          rw [hbody] at this
          refine ⟨this ?_, hs, hsz⟩
          simp [putResult] at hok
          omega
        · rw [h1] at hok; cases hok
    · rcases h with ⟨_, h2⟩ | ⟨rs, hon, _⟩
      · exact .inl h2
      · have := (hon.put hm name (by rw [ht]; exact addressed hb hr hn)).2
        rw [hbody] at this
        rcases this with h | h
        · exact .inl h
        · exact .inr ⟨h, hs, hsz⟩

/-- The calls of a client, with every answer a truthful server may give. -/
inductive Run (root : Str) (b : Base) (configured : Header) : Objects → List Str → Objects → Prop where
  | nil (objs) : Run root b configured objs [] objs
  | get {objs objs' objs'' written} (name : Str) (offset : Int) (resp : Resp) (h : Honest root objs (getReq b configured name offset) resp objs') (rest : Run root b configured objs' written objs'') :
      Run root b configured objs written objs''
  | stat {objs objs' objs'' written} (name : Str) (resp : Resp) (h : Honest root objs (statReq b configured name) resp objs') (rest : Run root b configured objs' written objs'') :
      Run root b configured objs written objs''
  | put {objs objs' objs'' written} (name : Str) (hn : IsBytes name) (size : Int) (body : Bytes) (srcErr : Bool) (resp : Option Resp)
      (h : PutRun root objs (putReq b configured name size body srcErr) resp objs') (rest : Run root b configured objs' written objs'') :
      Run root b configured objs (name :: written) objs''

/-- **C131** (histories). What was stored is given back after any history of calls on other names, from every offset on. -/
theorem C131_roundtrip_partial (b : Base) (hb : Plain b) (root : Str) (hr : IsTrimmed root b.front) (configured : Header) (hcfg : valuesOf "Range".toList configured = [])
    (name : Str) (hn : IsBytes name) (size : Int) (body : Bytes) (hsmall : body.length < 2 ^ 63) (srcErr : Bool) (objs objs₁ objs₂ objs₃ : Objects) (presp : Option Resp)
    (hput : PutRun root objs (putReq b configured name size body srcErr) presp objs₁) (hok : putResult presp = true)
    (written : List Str) (hrun : Run root b configured objs₁ written objs₂) (hw : name ∉ written)
    (offset : Int) (h0 : 0 ≤ offset) (resp : Resp) (hget : Honest root objs₂ (getReq b configured name offset) resp objs₃) :
    (∀ total, getResult offset resp = .body total → resp.body = body.drop offset.toNat ∧ (total = body.length ∨ (offset = 0 ∧ total = -1))) ∧ getResult offset resp ≠ .notExist := by
  have hstored : objs₁ name = some body := by
    rw [((C131_put_partial b hb root hr configured name hn size body srcErr objs objs₁ presp hput).1 hok).1]
    simp [upd]
  have hkeep : ∀ {o₁ o₂ : Objects} {written : List Str}, Run root b configured o₁ written o₂ → name ∉ written → o₂ name = o₁ name := by
    intro o₁ o₂ written hrun
    induction hrun with
    | nil => intro _; rfl
    | get n off r h _ ih => intro hw; rw [ih hw, (h.get rfl).1]
    | stat n r h _ ih => intro hw; rw [ih hw, (h.head rfl).1]
    | put n hn' size body srcErr r h _ ih =>
      intro hw
      have hne : name ≠ n := fun e => hw (by simp [e])
      rw [ih (fun hm => hw (List.mem_cons_of_mem _ hm))]
      rcases (C131_put_partial b hb root hr configured n hn' size body srcErr _ _ r h).2.1 with h | h
      · rw [h]
      · rw [h.1, upd, if_neg hne]
  have hnow : objs₂ name = some body := (hkeep hrun hw).trans hstored
  obtain ⟨_, h1, h2, _⟩ := C131_get_partial b hb root hr configured hcfg name hn offset h0 objs₂ objs₃ (fun d hd => by rw [hnow] at hd; cases hd; exact hsmall) resp hget
  refine ⟨?_, ?_⟩
  · intro total ht
    obtain ⟨d, hd, hb, _, ht⟩ := h1 total ht
    rw [hnow] at hd
    cases hd
    exact ⟨hb, ht⟩
  · intro he
    have := h2 he
    rw [hnow] at this; cases this

/-- A truthful server with one object, asked for it from byte 2 on. -/
example : let objs : Objects := upd (fun _ => none) "a/b".toList [1, 2, 3, 4, 5]
    let b : Base := { front := "http://h/o/".toList }
    let resp : Resp := { status := 206, contentRange := "bytes 2-4/5".toList, contentLength := 3, body := [3, 4, 5] }
    Plain b ∧ IsTrimmed "http://h/o".toList b.front ∧ Honest "http://h/o".toList objs (getReq b [] "a/b".toList 2) resp objs ∧ getResult 2 resp = .body 5 := by
  refine ⟨⟨rfl, rfl, by decide, by decide⟩, trim_isTrimmed "http://h/o/".toList, ?_, by decide +kernel⟩
  refine ⟨fun _ => ⟨rfl, ?_⟩, fun h => (by cases h), fun h => (by cases h)⟩
  rintro name ⟨seg, h1, h2, h3⟩
  have hseg : seg = "a%2Fb".toList := by
    have : target (objectURL { front := "http://h/o/".toList } "a/b".toList) = ("http://h/o".toList ++ slash :: "a%2Fb".toList, none) := by decide +kernel
    have h1 := (Prod.mk.inj (this.symm.trans h1)).1
    exact ((List.cons.inj (List.append_cancel_left h1)).2).symm
  have hname : name = "a/b".toList := by rw [← h3, hseg]; decide +kernel
  subst hname
  refine ⟨fun h => (by cases h), fun _ => ⟨[1, 2, 3, 4, 5], "bytes=2-".toList, 2, rfl, by decide +kernel, ?_, by decide, ?_, rfl⟩, fun h => (by rcases h with h | h <;> cases h)⟩
  · exact ⟨['2'], [], rfl, .one ⟨by decide, rfl⟩, rfl⟩
  · exact ⟨['2'], ['4'], ['5'], rfl, .one ⟨by decide, rfl⟩, .one ⟨by decide, rfl⟩, .one ⟨by decide, rfl⟩⟩

/-- **C131 fails** for empty objects: net/http takes a length of 0 for unknown, so that the request has no Content-Length, which the documentation of `Put` promises; and whatever the
reader has is stored. The chunk of an empty object is put like that (chunk.go 292). -/
theorem C131_counterexample_empty (b : Base) (configured : Header) (name : Str) :
    (putReq b configured name 0 [] false).map (fun r => (r.length, r.body)) = some (none, []) ∧
    (putReq b configured name 0 [1, 2, 3] false).map (fun r => (r.length, r.body)) = some (none, [1, 2, 3]) := ⟨rfl, rfl⟩

/-- **C131 fails** where a server does not announce the length of an object: `Get` succeeds and says that the total size is -1. -/
theorem C131_counterexample_total : ∃ (d : Bytes) (resp : Resp), resp.status = 200 ∧ resp.body = d ∧ resp.contentLength = -1 ∧ getResult 0 resp = .body (-1) :=
  ⟨[1, 2, 3], { status := 200, body := [1, 2, 3] }, rfl, rfl, rfl, by decide⟩

end Verif.Stream.FileClient
