import Verif.Http.ParseProps
import Verif.Http.ReadProps
import Verif.Http.LaneModel
/-
C129: the requests httprange makes, /repo/stream/httprange/httprange.go 216-232 and 278-296, reader_at.go 47-55, probe.go 43-51, stream.go 233-259.

A header is a map from names to values, as net/http has it. Trusted, and modelled from its documentation: `http.Header` (Clone, Del, Set) and
`textproto.CanonicalMIMEHeaderKey`; that the transport writes the names as they stand in the map; and that a server does not tell upper from lower case in names (RFC 9110).
-/
namespace Verif.Http.Request
open Verif Verif.Http

/-! ### Model -/

abbrev Header := List (Str × List Str)

/-- std: ASCII case. -/
def low (c : Char) : Char := if 65 ≤ c.toNat ∧ c.toNat ≤ 90 then Char.ofNat (c.toNat + 32) else c
def up (c : Char) : Char := if 97 ≤ c.toNat ∧ c.toNat ≤ 122 then Char.ofNat (c.toNat - 32) else c

/-- net/textproto `validHeaderFieldByte`. -/
def isToken (c : Char) : Bool :=
  (48 ≤ c.toNat && c.toNat ≤ 57) || (65 ≤ c.toNat && c.toNat ≤ 90) || (97 ≤ c.toNat && c.toNat ≤ 122) || "!#$%&'*+-.^_`|~".toList.contains c

def recase : (first : Bool) → Str → Str
  | _, [] => []
  | first, c :: cs => (if first then up c else low c) :: recase (c = '-') cs

/-- net/textproto `CanonicalMIMEHeaderKey`: names that are no tokens stay as they are. -/
def canon (k : Str) : Str := if k.all isToken then recase true k else k

/-- net/http `Header.Del`. -/
def del (h : Header) (k : Str) : Header := h.filter fun p => p.1 ≠ canon k

/-- net/http `Header.Set`. -/
def set (h : Header) (k v : Str) : Header := del h k ++ [(canon k, [v])]

/-- httprange.go 278-296 `newRequest`, its header; 222-225: `configured` is a copy of the one of the configuration. -/
def newRequest (configured : Header) : Header := set (del (del configured "Range".toList) "If-Range".toList) "Accept-Encoding".toList "identity".toList

/-- std `%d`. -/
def fmtInt (i : Int) : Str := if i < 0 then '-' :: natDigits (-i).toNat else natDigits i.toNat

/-- reader_at.go 51-55, stream.go 251-259, probe.go 47: Range, and If-Range if there is a validator for it. -/
def request (configured : Header) (range ifRange : Str) : Header :=
  let h := set (newRequest configured) "Range".toList range
  if ifRange ≠ [] then set h "If-Range".toList ifRange else h

/-- reader_at.go 51: the bytes asked for by a read of `len` bytes at `abs`; int64 arithmetic. -/
def readRange (abs : Int) (len : Nat) : Str := "bytes=".toList ++ fmtInt abs ++ '-' :: fmtInt (wrap64 (wrap64 (abs + len) - 1))

/-- stream.go 251-255. -/
def streamRange (start wantEnd : Int) : Str :=
  if wantEnd < 0 then "bytes=".toList ++ fmtInt start ++ ['-'] else "bytes=".toList ++ fmtInt start ++ '-' :: fmtInt wantEnd

/-- probe.go 47. -/
def probeRange : Str := "bytes=0-0".toList

/-! ### Specification -/

def lower (s : Str) : Str := s.map low

/-- The values a server finds under a name. -/
def valuesOf (name : Str) (h : Header) : List Str := h.flatMap fun p => if lower p.1 = lower name then p.2 else []

/-- A Range header that asks for the bytes from `a` to `b`, both included, or from `a` on. -/
def Asks (text : Str) (a : Nat) (b : Option Nat) : Prop :=
  ∃ A B, text = "bytes=".toList ++ A ++ '-' :: B ∧ IsDecimal A a ∧ (match b with | some b => IsDecimal B b | none => B = [])

/-- A header as `Header.Set` and `Header.Add` build it: names in canonical form. -/
def Canonical (h : Header) : Prop := ∀ p ∈ h, canon p.1 = p.1

/-- The names that are httprange's own. -/
def Own (name : Str) : Prop := lower name ∈ ["range".toList, "if-range".toList, "accept-encoding".toList]

/-! ### Lemmas -/

theorem ascii {P : Char → Prop} (h : ∀ n : Fin 128, P (Char.ofNat n)) (hbig : ∀ c : Char, 128 ≤ c.toNat → P c) : ∀ c, P c := by
  intro c
  by_cases hc : c.toNat < 128
  · have := h ⟨c.toNat, hc⟩
    rwa [Char.ofNat_toNat] at this
  · exact hbig c (by omega)

theorem low_low : ∀ c, low (low c) = low c := by
  refine ascii (by decide +kernel) ?_
  intro c hc
  have : low c = c := if_neg (by omega)
  rw [this, this]

theorem up_low : ∀ c, up (low c) = up c := by
  refine ascii (by decide +kernel) ?_
  intro c hc
  have : low c = c := if_neg (by omega)
  rw [this]

theorem low_up : ∀ c, low (up c) = low c := by
  refine ascii (by decide +kernel) ?_
  intro c hc
  have : up c = c := if_neg (by omega)
  rw [this]

theorem low_dash : ∀ c, (decide (low c = '-')) = decide (c = '-') := by
  refine ascii (by decide +kernel) ?_
  intro c hc
  have : low c = c := if_neg (by omega)
  rw [this]

theorem token_low : ∀ c, isToken (low c) = isToken c := by
  refine ascii (by decide +kernel) ?_
  intro c hc
  have : low c = c := if_neg (by omega)
  rw [this]

theorem recase_lower : ∀ (s : Str) (first : Bool), recase first (lower s) = recase first s := by
  intro s
  induction s with
  | nil => intro _; rfl
  | cons c s ih =>
    intro first
    have h1 : recase first (lower (c :: s)) = (if first then up (low c) else low (low c)) :: recase (decide (low c = '-')) (lower s) := rfl
    have h2 : recase first (c :: s) = (if first then up c else low c) :: recase (decide (c = '-')) s := rfl
    rw [h1, h2, low_dash, ih, up_low, low_low]

theorem token_lower (s : Str) : (lower s).all isToken = s.all isToken := by
  induction s with
  | nil => rfl
  | cons c s ih =>
    have : lower (c :: s) = low c :: lower s := rfl
    rw [this, List.all_cons, List.all_cons, token_low, ih]

/-- The canonical form only depends on the name up to case, for tokens. -/
theorem canon_same {a b : Str} (h : lower a = lower b) (hb : b.all isToken = true) : canon a = canon b := by
  have ha : a.all isToken = true := by rw [← token_lower, h, token_lower, hb]
  rw [canon, canon, if_pos ha, if_pos hb, ← recase_lower a, h, recase_lower]

theorem canon_lower {a : Str} : lower (canon a) = lower a := by
  have key : ∀ (s : Str) (first : Bool), lower (recase first s) = lower s := by
    intro s
    induction s with
    | nil => intro _; rfl
    | cons c s ih =>
      intro first
      have h1 : lower (recase first (c :: s)) = low (if first then up c else low c) :: lower (recase (decide (c = '-')) s) := rfl
      have h2 : lower (c :: s) = low c :: lower s := rfl
      rw [h1, h2, ih]
      congr 1
      cases first with
      | false => exact low_low c
      | true => exact low_up c
  unfold canon
  split
  · exact key _ _
  · rfl

theorem canonical_del {h : Header} (hc : Canonical h) (k : Str) : Canonical (del h k) := fun p hp => hc p (List.mem_filter.1 hp).1

theorem canon_canon (k : Str) : canon (canon k) = canon k := by
  by_cases hk : k.all isToken = true
  · exact canon_same canon_lower hk
  · have : canon k = k := if_neg hk
    rw [this, this]

theorem canonical_set {h : Header} (hc : Canonical h) (k v : Str) : Canonical (set h k v) := by
  intro p hp
  rcases List.mem_append.1 hp with hp | hp
  · exact canonical_del hc k p hp
  · simp at hp; subst hp; exact canon_canon k

theorem values_append (name : Str) (a b : Header) : valuesOf name (a ++ b) = valuesOf name a ++ valuesOf name b := List.flatMap_append

theorem values_del {h : Header} (hc : Canonical h) {k : Str} (hk : k.all isToken = true) (name : Str) :
    valuesOf name (del h k) = if lower name = lower k then [] else valuesOf name h := by
  induction h with
  | nil => simp [del, valuesOf]
  | cons p h ih =>
    have ih := ih (fun q hq => hc q (List.mem_cons_of_mem _ hq))
    have hp := hc p (List.mem_cons_self ..)
    have hd : del (p :: h) k = if p.1 ≠ canon k then p :: del h k else del h k := by
      unfold del
      rw [List.filter_cons]
      by_cases hh : p.1 = canon k <;> simp [hh]
    have hv : ∀ (p : Str × List Str) (h : Header), valuesOf name (p :: h) = (if lower p.1 = lower name then p.2 else []) ++ valuesOf name h := fun _ _ => List.flatMap_cons
    rw [hd]
    by_cases hh : p.1 = canon k
    · rw [if_neg (by simp [hh]), ih, hv]
      have hlow : lower p.1 = lower k := by rw [hh, canon_lower]
      by_cases hn : lower name = lower k
      · rw [if_pos hn, if_pos hn]
      · rw [if_neg hn, if_neg hn, if_neg (by rw [hlow]; exact fun e => hn e.symm), List.nil_append]
    · rw [if_pos hh, hv, hv, ih]
      by_cases hn : lower name = lower k
      · rw [if_pos hn, if_pos hn, if_neg ?_, List.nil_append]
        intro e
        apply hh
        rw [← hp]
        exact canon_same (e.trans hn) hk
      · rw [if_neg hn, if_neg hn]

theorem values_set {h : Header} (hc : Canonical h) {k : Str} (hk : k.all isToken = true) (v name : Str) :
    valuesOf name (set h k v) = if lower name = lower k then [v] else valuesOf name h := by
  have h1 : valuesOf name [(canon k, [v])] = if lower name = lower k then [v] else [] := by
    show (if lower (canon k) = lower name then [v] else []) ++ [] = _
    rw [canon_lower, List.append_nil]
    by_cases hn : lower name = lower k
    · rw [if_pos hn, if_pos hn.symm]
    · rw [if_neg hn, if_neg (fun e => hn e.symm)]
  rw [set, values_append, values_del hc hk, h1]
  by_cases hn : lower name = lower k
  · rw [if_pos hn, if_pos hn, if_pos hn]; rfl
  · rw [if_neg hn, if_neg hn, if_neg hn, List.append_nil]

theorem asks_read {a b : Nat} : Asks ("bytes=".toList ++ fmtInt a ++ '-' :: fmtInt b) a (some b) := by
  have : ∀ n : Nat, fmtInt n = natDigits n := fun n => by rw [fmtInt, if_neg (by omega)]; rfl
  rw [this, this]
  exact ⟨_, _, rfl, natDigits_isDecimal _, natDigits_isDecimal _⟩

/-! ### Property C129 -/

/-- **C129** (names). For every configuration built with canonical names and every range and validator: a server finds exactly the one Range, exactly the If-Range there is,
the encoding "identity", and under every other name exactly what was configured.
Missing from C129: configured names in another spelling (counterexample below). -/
theorem C129_fields_partial (configured : Header) (hc : Canonical configured) (range ifRange : Str) :
    valuesOf "Range".toList (request configured range ifRange) = [range] ∧
    valuesOf "If-Range".toList (request configured range ifRange) = (if ifRange = [] then [] else [ifRange]) ∧
    valuesOf "Accept-Encoding".toList (request configured range ifRange) = ["identity".toList] ∧
    ∀ name, ¬Own name → valuesOf name (request configured range ifRange) = valuesOf name configured := by
  have c1 := canonical_del hc "Range".toList
  have c2 := canonical_del c1 "If-Range".toList
  have c3 : Canonical (newRequest configured) := canonical_set c2 "Accept-Encoding".toList "identity".toList
  have c4 := canonical_set c3 "Range".toList range
  have t1 : "Range".toList.all isToken = true := by decide
  have t2 : "If-Range".toList.all isToken = true := by decide
  have t3 : "Accept-Encoding".toList.all isToken = true := by decide
  have e1 : ∀ name, valuesOf name (newRequest configured) = if lower name = lower "Accept-Encoding".toList then ["identity".toList] else
      if lower name = lower "If-Range".toList then [] else if lower name = lower "Range".toList then [] else valuesOf name configured := by
    intro name
    rw [newRequest, values_set c2 t3, values_del c1 t2, values_del hc t1]
  have e2 : ∀ name, valuesOf name (request configured range ifRange) = if lower name = lower "If-Range".toList ∧ ifRange ≠ [] then [ifRange] else
      if lower name = lower "Range".toList then [range] else valuesOf name (newRequest configured) := by
    intro name
    unfold request
    by_cases hi : ifRange ≠ []
    · simp only [if_pos hi]
      rw [values_set c4 t2, values_set c3 t1]
      by_cases hn : lower name = lower "If-Range".toList
      · rw [if_pos hn, if_pos ⟨hn, hi⟩]
      · rw [if_neg hn, if_neg (show ¬(lower name = lower "If-Range".toList ∧ ifRange ≠ []) from fun e => hn e.1)]
    · simp only [if_neg hi]
      rw [values_set c3 t1, if_neg (show ¬(lower name = lower "If-Range".toList ∧ ifRange ≠ []) from fun e => hi e.2)]
  refine ⟨?_, ?_, ?_, ?_⟩
  · rw [e2, if_neg (fun e => absurd e.1 (by decide)), if_pos rfl]
  · rw [e2]
    by_cases hi : ifRange = []
    · rw [if_neg (fun e => e.2 hi), if_neg (by decide), e1, if_neg (by decide), if_pos rfl, if_pos hi]
    · rw [if_pos ⟨rfl, hi⟩, if_neg hi]
  · rw [e2, if_neg (fun e => absurd e.1 (by decide)), if_neg (by decide), e1, if_pos rfl]
  · intro name hown
    have n1 : lower name ≠ lower "If-Range".toList := fun e => hown (by rw [Own, e]; decide)
    have n2 : lower name ≠ lower "Range".toList := fun e => hown (by rw [Own, e]; decide)
    have n3 : lower name ≠ lower "Accept-Encoding".toList := fun e => hown (by rw [Own, e]; decide)
    rw [e2, if_neg (fun e => n1 e.1), if_neg n2, e1, if_neg n3, if_neg n1, if_neg n2]

/-- **C129** (reads). A read that asks the server at all asks for `k` bytes from where its offset leads, and `k` is the length of the buffer unless the view or the object is known
to end sooner; the text says so exactly, for all offsets and lengths. -/
theorem C129_read (v : View) (hv : ValidView v) (m : Option ObjMeta) (len : Nat) (off : Int) (hi : off ≤ maxInt64) (n : Nat) (abs : Int) (h : readPlan v m len off = .ask n abs) :
    ∃ a : Nat, (a : Int) = v.base + off ∧ 0 < n ∧ n ≤ len ∧ Asks (readRange abs n) a (some (a + n - 1)) ∧ (a : Int) + n ≤ v.end_ ∧
      (n < len → (a : Int) + n = v.end_ ∨ knownSize m = some ((a : Int) + n)) := by
  rcases readPlan_spec v hv m len off hi with ⟨_, e⟩ | ⟨_, _, e⟩ | ⟨_, _, e⟩ | ⟨h0, h1, _, k, e, hk, hl, he, _, hs⟩
  · rw [e] at h; cases h
  · rw [e] at h; cases h
  · rw [e] at h; cases h
  · rw [e] at h
    cases h
    have hend := view_end v hv
    obtain ⟨v1, v2, v3⟩ := hv
    obtain ⟨a, ha⟩ := Int.eq_ofNat_of_zero_le (show 0 ≤ v.base + off by omega)
    refine ⟨a, ha.symm, hk, hl, ?_, by omega, ?_⟩
    · have hw1 : wrap64 ((a : Int) + n) = a + n := wrap64_of_isInt64 (by unfold IsInt64 minInt64 maxInt64 at *; omega)
      have hw2 : wrap64 (wrap64 ((a : Int) + n) - 1) = ((a + n - 1 : Nat) : Int) := by
        refine (congrArg (fun x => wrap64 (x - 1)) hw1).trans ?_
        refine (wrap64_of_isInt64 (by unfold IsInt64 minInt64 maxInt64 at *; omega)).trans ?_
        omega
      rw [ha]
      have he : readRange (a : Int) n = "bytes=".toList ++ fmtInt a ++ '-' :: fmtInt ((a + n - 1 : Nat) : Int) :=
        congrArg (fun x => "bytes=".toList ++ fmtInt a ++ '-' :: fmtInt x) hw2
      rw [he]
      exact asks_read
    · intro hlt
      rcases hs hlt with h | h
      · exact .inl (by omega)
      · exact .inr (by rw [h, ha])

/-- **C129** (stream). The one request of a stream asks for its view from the first byte on: to the last byte of the view, or without an end if the view has none or the
object is known to end sooner. -/
theorem C129_stream (v : View) (hv : ValidView v) (hne : 0 < v.length) (m : Option ObjMeta) :
    ∃ a : Nat, (a : Int) = v.base ∧
      ((∃ b : Nat, (b : Int) = v.end_ - 1 ∧ Asks (streamRange v.base (laneWantEnd v m)) a (some b) ∧ v.end_ ≠ maxInt64 ∧ ∀ z, knownSize m = some z → v.end_ < z) ∨
       (Asks (streamRange v.base (laneWantEnd v m)) a none ∧ (v.end_ = maxInt64 ∨ ∃ z, knownSize m = some z ∧ z ≤ v.end_))) := by
  have hend := view_end v hv
  obtain ⟨v1, v2, v3⟩ := hv
  obtain ⟨a, ha⟩ := Int.eq_ofNat_of_zero_le v1
  refine ⟨a, ha.symm, ?_⟩
  have hf : fmtInt (a : Int) = natDigits a := by rw [fmtInt, if_neg (by omega)]; rfl
  have hopen : Asks (streamRange v.base (-1)) a none := by
    rw [streamRange, if_pos (by omega), ha, hf]
    exact ⟨_, _, rfl, natDigits_isDecimal _, rfl⟩
  have hshut : ∃ b : Nat, (b : Int) = v.end_ - 1 ∧ Asks (streamRange v.base (v.end_ - 1)) a (some b) := by
    obtain ⟨b, hb⟩ := Int.eq_ofNat_of_zero_le (show 0 ≤ v.end_ - 1 by omega)
    refine ⟨b, hb.symm, ?_⟩
    rw [streamRange, if_neg (by omega), ha, hb]
    exact asks_read
  unfold laneWantEnd
  by_cases hm : v.end_ = maxInt64
  · rw [if_neg (by simp [hm])]
    exact .inr ⟨hopen, .inl hm⟩
  · rw [if_pos hm]
    cases hz : knownSize m with
    | none =>
      obtain ⟨b, hb, hs⟩ := hshut
      exact .inl ⟨b, hb, hs, hm, fun z e => by cases e⟩
    | some z =>
      simp only
      by_cases hlt : v.end_ < z
      · rw [if_pos hlt]
        obtain ⟨b, hb, hs⟩ := hshut
        refine .inl ⟨b, hb, hs, hm, ?_⟩
        intro z' e
        cases e
        exact hlt
      · rw [if_neg hlt]
        exact .inr ⟨hopen, .inr ⟨z, rfl, by omega⟩⟩

/-- **C129** (probe). It asks for the first byte, on no condition. -/
theorem C129_probe_partial (configured : Header) (hc : Canonical configured) :
    Asks probeRange 0 (some 0) ∧ valuesOf "Range".toList (request configured probeRange []) = [probeRange] ∧ valuesOf "If-Range".toList (request configured probeRange []) = [] := by
  have := C129_fields_partial configured hc probeRange []
  refine ⟨?_, this.1, this.2.1⟩
  exact asks_read (a := 0) (b := 0)

/-- A configuration with an authorization and a stray Range, in canonical form. -/
example : Canonical [("Authorization".toList, ["Bearer x".toList]), ("Range".toList, ["bytes=5-9".toList])] ∧
    request [("Authorization".toList, ["Bearer x".toList]), ("Range".toList, ["bytes=5-9".toList])] (readRange 100 50) [] =
      [("Authorization".toList, ["Bearer x".toList]), ("Accept-Encoding".toList, ["identity".toList]), ("Range".toList, ["bytes=100-149".toList])] := by
  refine ⟨by unfold Canonical; decide, by decide +kernel⟩

/-- **C129 fails** when the configuration spells a name in another way, as a map literal may: the Range of the configuration is sent besides the one of the read, and so is
another encoding, although the documentation says that they are overwritten. -/
theorem C129_counterexample_spelling :
    let configured : Header := [("range".toList, ["bytes=5-9".toList]), ("accept-encoding".toList, ["gzip".toList])]
    valuesOf "Range".toList (request configured (readRange 100 50) []) = ["bytes=5-9".toList, "bytes=100-149".toList] ∧
    valuesOf "Accept-Encoding".toList (request configured (readRange 100 50) []) = ["gzip".toList, "identity".toList] := by decide +kernel

end Verif.Http.Request
