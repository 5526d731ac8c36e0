import Verif.Common.Url
import Verif.Http.Request
import Verif.Stream.ChunkModel
/-
C130: the requests of the HTTP client of fileserver, /repo/stream/fileserver/client.go 95-112 (`objectURL`, `applyHeaders`), 156-168 (`Get`).

Trusted, and modelled from its documentation: net/url (PathEscape, and where Parse ends path and query) and net/http `Header.Add`.
`URL.String` of the base is an arbitrary text, given by its parts. Simplifications: whether `http.NewRequest` accepts the text is not modelled, nor the names the transport
deals with itself (Host, Content-Length, Transfer-Encoding, Trailer). A Go map of headers comes in any order: the theorems are for every list.
-/
namespace Verif.Stream.FileUrl
open Verif Verif.Path Verif.Url Verif.Http.Request

/-! ### Model -/

/-- The text of the base URL in its parts: up to the end of the (escaped) path, query, fragment. -/
structure Base where
  front : Str
  query : Option Str := none
  fragment : Option Str := none

/-- net/url `URL.String`, from the parts. -/
def Base.text (b : Base) : Str :=
  b.front ++ (match b.query with | some q => '?' :: q | none => []) ++ (match b.fragment with | some f => '#' :: f | none => [])

/-- std `strings.TrimRight(s, "/")`. -/
def trimRight (s : Str) : Str := (s.reverse.dropWhile (· = slash)).reverse

/-- net/url `shouldEscape` for a segment of a path. -/
def inSegment (c : Char) : Bool := unreserved c || c = '$' || c = '&' || c = '+' || c = ':' || c = '=' || c = '@'

/-- net/url `PathEscape`. -/
def pathEscape (s : Str) : Str := s.flatMap (escapeByte inSegment)

/-- client.go 95-103 `objectURL`. -/
def objectURL (b : Base) (name : Str) : Str := trimRight b.text ++ slash :: pathEscape name

/-- net/url `Parse`: the fragment begins at the first '#', the query at the first '?' before it. Gives what is sent to the server: all up to the end of the path, and the query. -/
def target (u : Str) : Str × Option Str :=
  let u := u.takeWhile (· ≠ '#')
  (u.takeWhile (· ≠ '?'), match u.dropWhile (· ≠ '?') with | [] => none | _ :: q => some q)

/-- net/http `Header.Add`. -/
def add : Header → Str → Str → Header
  | [], k, v => [(canon k, [v])]
  | p :: h, k, v => if p.1 = canon k then (p.1, p.2 ++ [v]) :: h else p :: add h k v

/-- client.go 106-112 `applyHeaders`. -/
def applyHeaders (configured : Header) : Header := configured.foldl (fun h p => p.2.foldl (fun h v => add h p.1 v) h) []

/-- client.go 163-167: the header of a `Get`. -/
def getHeader (configured : Header) (offset : Int) : Header :=
  let h := applyHeaders configured
  if offset > 0 then set h "Range".toList ("bytes=".toList ++ fmtInt offset ++ ['-']) else h

/-! ### Specification -/

/-- A base that is a place and nothing else. -/
def Plain (b : Base) : Prop := b.query = none ∧ b.fragment = none ∧ '?' ∉ b.front ∧ '#' ∉ b.front

/-- What a server reads from one segment of a path. -/
def segment (s : Str) : Str := (tokens s).map Tok.val

/-- The text without the slashes at its end. -/
def IsTrimmed (t s : Str) : Prop := (∃ k, s = t ++ List.replicate k slash) ∧ ∀ r, t ≠ r ++ [slash]

/-! ### Lemmas -/

theorem segment_chars (P : Char → Prop) (hpct : P '%') (hhex : ∀ n : Fin 16, P (hexDigit n)) (hseg : ∀ c, inSegment c = true → P c) {s : Str} (hs : IsBytes s) : ∀ c ∈ pathEscape s, P c := by
  intro c hc
  obtain ⟨x, hx, hc⟩ := List.mem_flatMap.1 hc
  have hb := hs x hx
  unfold escapeByte at hc
  split at hc
  · rename_i hp
    simp at hc
    subst hc
    exact hseg _ hp
  · simp at hc
    rcases hc with rfl | rfl | rfl
    · exact hpct
    · exact hhex ⟨x.toNat / 16, by omega⟩
    · exact hhex ⟨x.toNat % 16, by omega⟩

theorem escaped_free {s : Str} (hs : IsBytes s) : slash ∉ pathEscape s ∧ '?' ∉ pathEscape s ∧ '#' ∉ pathEscape s := by
  have key : ∀ d : Char, d ≠ '%' → (∀ n : Fin 16, hexDigit n ≠ d) → inSegment d = false → d ∉ pathEscape s := by
    intro d h1 h2 h3 hd
    refine segment_chars (fun c => c ≠ d) (fun e => h1 e.symm) h2 ?_ hs d hd rfl
    rintro c hc rfl
    rw [h3] at hc; cases hc
  exact ⟨key _ (by decide) (by decide) (by decide), key _ (by decide) (by decide) (by decide), key _ (by decide) (by decide) (by decide)⟩

theorem segment_escape {s : Str} (hs : IsBytes s) : segment (pathEscape s) = s := unescape (by decide) hs

theorem trim_isTrimmed (s : Str) : IsTrimmed (trimRight s) s := by
  have hsplit : ∀ l : Str, ∃ k, l = List.replicate k slash ++ l.dropWhile (· = slash) := by
    intro l
    induction l with
    | nil => exact ⟨0, rfl⟩
    | cons c l ih =>
      by_cases hc : c = slash
      · obtain ⟨k, hk⟩ := ih
        refine ⟨k + 1, ?_⟩
        rw [List.dropWhile_cons_of_pos (by simp [hc]), List.replicate_succ, List.cons_append, ← hk, hc]
      · exact ⟨0, by rw [List.dropWhile_cons_of_neg (by simp [hc])]; rfl⟩
  have hhead : ∀ (l r : Str), l.dropWhile (· = slash) ≠ slash :: r := by
    intro l
    induction l with
    | nil => intro r h; cases h
    | cons c l ih =>
      intro r
      by_cases hc : c = slash
      · rw [List.dropWhile_cons_of_pos (by simp [hc])]; exact ih r
      · rw [List.dropWhile_cons_of_neg (by simp [hc])]
        intro h
        exact hc (List.cons.inj h).1
  constructor
  · obtain ⟨k, hk⟩ := hsplit s.reverse
    refine ⟨k, ?_⟩
    have := congrArg List.reverse hk
    rwa [List.reverse_reverse, List.reverse_append, List.reverse_replicate] at this
  · intro r h
    have := congrArg List.reverse h
    rw [trimRight, List.reverse_reverse, List.reverse_append] at this
    exact hhead _ _ this

theorem trim_mem {s : Str} {c : Char} (h : c ∈ trimRight s) : c ∈ s := by
  obtain ⟨⟨k, hk⟩, _⟩ := trim_isTrimmed s
  rw [hk]
  exact List.mem_append_left _ h

theorem trim_after (a : Str) {c : Char} (hc : c ≠ slash) (f : Str) : trimRight (a ++ c :: f) = a ++ c :: trimRight f := by
  have key : ∀ l r : Str, (l ++ c :: r).dropWhile (· = slash) = l.dropWhile (· = slash) ++ c :: r := by
    intro l r
    induction l with
    | nil => rw [List.nil_append, List.dropWhile_cons_of_neg (by simp [hc])]; rfl
    | cons x l ih =>
      by_cases hx : x = slash
      · rw [List.cons_append, List.dropWhile_cons_of_pos (by simp [hx]), List.dropWhile_cons_of_pos (by simp [hx]), ih]
      · rw [List.cons_append, List.dropWhile_cons_of_neg (by simp [hx]), List.dropWhile_cons_of_neg (by simp [hx])]; rfl
  rw [trimRight, List.reverse_append, List.reverse_cons, List.append_assoc, List.singleton_append, key, List.reverse_append, List.reverse_cons, List.reverse_reverse,
    List.append_assoc, List.singleton_append]
  rfl

theorem take_before {d : Char} {a : Str} (ha : d ∉ a) (rest : Str) : (a ++ d :: rest).takeWhile (· ≠ d) = a ∧ (a ++ d :: rest).dropWhile (· ≠ d) = d :: rest := by
  induction a with
  | nil => simp
  | cons c a ih =>
    have hc : c ≠ d := fun e => ha (by simp [e])
    obtain ⟨h1, h2⟩ := ih (fun h => ha (List.mem_cons_of_mem _ h))
    rw [List.cons_append, List.takeWhile_cons_of_pos (by simp [hc]), List.dropWhile_cons_of_pos (by simp [hc]), h1, h2]
    exact ⟨rfl, rfl⟩

theorem take_all {d : Char} {a : Str} (ha : d ∉ a) : a.takeWhile (· ≠ d) = a ∧ a.dropWhile (· ≠ d) = [] := by
  induction a with
  | nil => simp
  | cons c a ih =>
    have hc : c ≠ d := fun e => ha (by simp [e])
    obtain ⟨h1, h2⟩ := ih (fun h => ha (List.mem_cons_of_mem _ h))
    rw [List.takeWhile_cons_of_pos (by simp [hc]), List.dropWhile_cons_of_pos (by simp [hc]), h1, h2]
    exact ⟨rfl, rfl⟩

theorem target_place {u : Str} (hq : '?' ∉ u) (hf : '#' ∉ u) : target u = (u, none) := by
  unfold target
  simp only
  rw [(take_all hf).1, (take_all hq).1, (take_all hq).2]

theorem target_query {a q : Str} (hq : '?' ∉ a) (hf : '#' ∉ a) (hq2 : '#' ∉ q) : target (a ++ '?' :: q) = (a, some q) := by
  have : '#' ∉ a ++ '?' :: q := by simp [hf, hq2]
  unfold target
  simp only
  rw [(take_all this).1, (take_before hq q).1, (take_before hq q).2]

theorem target_fragment {u f : Str} (hf : '#' ∉ u) : target (u ++ '#' :: f) = target u := by
  unfold target
  simp only
  rw [(take_before hf f).1, (take_all hf).1]

/-! headers -/

def Keys (h : Header) : Prop := (h.map (·.1)).Nodup

theorem values_cons (name : Str) (p : Str × List Str) (h : Header) : valuesOf name (p :: h) = (if lower p.1 = lower name then p.2 else []) ++ valuesOf name h := List.flatMap_cons

theorem values_absent {h : Header} (hc : Canonical h) {name : Str} (ht : name.all isToken = true) (hk : canon name ∉ h.map (·.1)) : valuesOf name h = [] := by
  induction h with
  | nil => rfl
  | cons p h ih =>
    rw [values_cons, if_neg ?_, ih (fun q hq => hc q (List.mem_cons_of_mem _ hq)) (fun hm => hk (by rw [List.map_cons]; exact List.mem_cons_of_mem _ hm))]
    · rfl
    · intro e
      apply hk
      rw [← canon_same e ht, hc p (List.mem_cons_self ..)]
      simp

theorem mem_add {h : Header} {k v : Str} : ∀ x, x ∈ (add h k v).map (·.1) → x ∈ h.map (·.1) ∨ x = canon k := by
  induction h with
  | nil => intro x hx; simp [add] at hx; exact .inr hx
  | cons p h ih =>
    intro x hx
    rw [add] at hx
    split at hx
    · left; simpa using hx
    · rw [List.map_cons] at hx
      rcases List.mem_cons.1 hx with rfl | hx
      · exact .inl (by simp)
      · rcases ih x hx with h | h
        · exact .inl (by rw [List.map_cons]; exact List.mem_cons_of_mem _ h)
        · exact .inr h

theorem add_keeps {h : Header} (hc : Canonical h) (hk : Keys h) (k v : Str) : Canonical (add h k v) ∧ Keys (add h k v) := by
  constructor
  · intro p hp
    rcases mem_add p.1 (List.mem_map.2 ⟨p, hp, rfl⟩) with h1 | h1
    · obtain ⟨q, hq, he⟩ := List.mem_map.1 h1
      rw [← he]; exact hc q hq
    · rw [h1]; exact canon_canon k
  · induction h with
    | nil => simp [add, Keys]
    | cons p h ih =>
      have hk' : p.1 ∉ h.map (·.1) ∧ Keys h := by simpa only [Keys, List.map_cons, List.nodup_cons] using hk
      rw [add]
      split
      · simpa only [Keys, List.map_cons, List.nodup_cons] using hk'
      · rename_i hne
        have := ih (fun q hq => hc q (List.mem_cons_of_mem _ hq)) hk'.2
        rw [Keys, List.map_cons, List.nodup_cons]
        refine ⟨?_, this⟩
        intro hm
        rcases mem_add _ hm with h1 | h1
        · exact hk'.1 h1
        · exact hne h1

theorem values_add {h : Header} (hc : Canonical h) (hk : Keys h) {name : Str} (ht : name.all isToken = true) (k v : Str) :
    valuesOf name (add h k v) = valuesOf name h ++ if lower k = lower name then [v] else [] := by
  induction h with
  | nil =>
    show (if lower (canon k) = lower name then [v] else []) ++ [] = _
    rw [canon_lower, List.append_nil]
    rfl
  | cons p h ih =>
    have hk' : p.1 ∉ h.map (·.1) ∧ Keys h := by simpa only [Keys, List.map_cons, List.nodup_cons] using hk
    have hc' : Canonical h := fun q hq => hc q (List.mem_cons_of_mem _ hq)
    rw [add]
    split
    · rename_i he
      have hlow : lower p.1 = lower k := by rw [he, canon_lower]
      rw [values_cons, values_cons]
      simp only [hlow]
      by_cases hn : lower k = lower name
      · rw [if_pos hn, if_pos hn, if_pos hn]
        have : valuesOf name h = [] := by
          refine values_absent hc' ht ?_
          rw [← canon_same hn ht, ← he]
          exact hk'.1
        rw [this, List.append_nil, List.append_nil]
      · rw [if_neg hn, if_neg hn, if_neg hn, List.append_nil]
    · rw [values_cons, values_cons, ih hc' hk'.2, List.append_assoc]

theorem apply_spec (configured : Header) : ∀ h, Canonical h → Keys h →
    Canonical (configured.foldl (fun h p => p.2.foldl (fun h v => add h p.1 v) h) h) ∧ Keys (configured.foldl (fun h p => p.2.foldl (fun h v => add h p.1 v) h) h) ∧
    ∀ name : Str, name.all isToken = true → valuesOf name (configured.foldl (fun h p => p.2.foldl (fun h v => add h p.1 v) h) h) = valuesOf name h ++ valuesOf name configured := by
  have inner : ∀ (k : Str) (vs : List Str) (h : Header), Canonical h → Keys h →
      Canonical (vs.foldl (fun h v => add h k v) h) ∧ Keys (vs.foldl (fun h v => add h k v) h) ∧
      ∀ name : Str, name.all isToken = true → valuesOf name (vs.foldl (fun h v => add h k v) h) = valuesOf name h ++ if lower k = lower name then vs else [] := by
    intro k vs
    induction vs with
    | nil => intro h hc hk; exact ⟨hc, hk, fun name _ => by simp⟩
    | cons v vs ih =>
      intro h hc hk
      obtain ⟨c1, k1⟩ := add_keeps hc hk k v
      obtain ⟨c2, k2, e⟩ := ih (add h k v) c1 k1
      refine ⟨c2, k2, ?_⟩
      intro name ht
      rw [List.foldl_cons, e name ht, values_add hc hk ht, List.append_assoc]
      by_cases hn : lower k = lower name
      · rw [if_pos hn, if_pos hn, if_pos hn]; rfl
      · rw [if_neg hn, if_neg hn, if_neg hn]; rfl
  induction configured with
  | nil => intro h hc hk; exact ⟨hc, hk, fun name _ => by simp [valuesOf]⟩
  | cons p configured ih =>
    intro h hc hk
    obtain ⟨c1, k1, e1⟩ := inner p.1 p.2 h hc hk
    obtain ⟨c2, k2, e2⟩ := ih _ c1 k1
    refine ⟨c2, k2, ?_⟩
    intro name ht
    rw [List.foldl_cons, e2 name ht, e1 name ht, values_cons, List.append_assoc]

/-! ### Property C130 -/

/-- **C130** (place). For a base that is a place, without query and fragment, and every name, whatever bytes it has: the request goes below the base, with slashes at the end of the
base left out, to one segment that reads as the name, and has no query.
Missing from C130: bases with a query or a fragment, and names that servers take for steps (counterexamples below). -/
theorem C130_place_partial (b : Base) (hb : Plain b) (name : Str) (hn : IsBytes name) :
    ∃ front seg, IsTrimmed front b.front ∧ target (objectURL b name) = (front ++ slash :: seg, none) ∧ slash ∉ seg ∧ segment seg = name := by
  obtain ⟨hq, hf, h1, h2⟩ := hb
  obtain ⟨e1, e2, e3⟩ := escaped_free hn
  have ht : b.text = b.front := by unfold Base.text; rw [hq, hf]; simp
  refine ⟨trimRight b.front, pathEscape name, trim_isTrimmed _, ?_, e1, segment_escape hn⟩
  rw [objectURL, ht]
  refine target_place ?_ ?_
  · intro h
    rcases List.mem_append.1 h with h | h
    · exact h1 (trim_mem h)
    · rcases List.mem_cons.1 h with h | h
      · cases h
      · exact e2 h
  · intro h
    rcases List.mem_append.1 h with h | h
    · exact h2 (trim_mem h)
    · rcases List.mem_cons.1 h with h | h
      · cases h
      · exact e3 h

/-- **C130** (objects apart). Different names go to different places. -/
theorem C130_apart_partial (b : Base) (hb : Plain b) (n₁ n₂ : Str) (h₁ : IsBytes n₁) (h₂ : IsBytes n₂) (h : target (objectURL b n₁) = target (objectURL b n₂)) : n₁ = n₂ := by
  obtain ⟨f1, s1, t1, e1, a1, r1⟩ := C130_place_partial b hb n₁ h₁
  obtain ⟨f2, s2, t2, e2, a2, r2⟩ := C130_place_partial b hb n₂ h₂
  rw [e1, e2] at h
  have he : f1 ++ slash :: s1 = f2 ++ slash :: s2 := (Prod.mk.inj h).1
  have : s1 = s2 := by
    have hr := congrArg List.reverse he
    simp only [List.reverse_append, List.reverse_cons, List.append_assoc, List.singleton_append] at hr
    have g1 := (take_before (d := slash) (a := s1.reverse) (by simpa using a1) f1.reverse).1
    have g2 := (take_before (d := slash) (a := s2.reverse) (by simpa using a2) f2.reverse).1
    rw [hr, g2] at g1
    simpa using g1.symm
  rw [← r1, ← r2, this]

/-- **C130** (headers). Everything configured is sent with every request, under its name and in its order, whatever the spelling; only Range is the client's own at an offset,
and then asks for everything from the offset on. -/
theorem C130_headers (configured : Header) (offset : Int) (name : Str) (ht : name.all isToken = true) :
    valuesOf name (getHeader configured offset) =
      if 0 < offset ∧ lower name = lower "Range".toList then ["bytes=".toList ++ natDigits offset.toNat ++ ['-']] else valuesOf name configured := by
  obtain ⟨hc, hk, he⟩ := apply_spec configured [] (fun p hp => by cases hp) (by simp [Keys])
  have he := he name ht
  rw [show valuesOf name ([] : Header) = [] from rfl, List.nil_append] at he
  unfold getHeader
  by_cases ho : offset > 0
  · simp only [if_pos ho]
    have hf : fmtInt offset = natDigits offset.toNat := by rw [fmtInt, if_neg (by omega)]
    rw [values_set (show Canonical (applyHeaders configured) from hc) (show "Range".toList.all isToken = true by decide), hf]
    by_cases hn : lower name = lower "Range".toList
    · rw [if_pos hn, if_pos ⟨ho, hn⟩]
    · rw [if_neg hn, if_neg (fun h => hn h.2)]
      exact he
  · simp only [if_neg ho]
    rw [if_neg (fun h => ho h.1)]
    exact he

/-- A range of a `Get` at an offset is one that asks from there on. -/
theorem C130_range (configured : Header) (offset : Nat) (ho : 0 < offset) :
    ∃ text, valuesOf "Range".toList (getHeader configured offset) = [text] ∧ Asks text offset none := by
  refine ⟨_, (C130_headers configured offset "Range".toList (by decide)).trans (if_pos ⟨by omega, rfl⟩), ?_⟩
  exact ⟨_, _, rfl, natDigits_isDecimal _, rfl⟩

/-- A base with a slash at its end, a name with every kind of trouble, and a header in lower case. -/
example : Plain { front := "http://h/objs/".toList } ∧ IsBytes "a/b?c#d%41 ;".toList ∧
    target (objectURL { front := "http://h/objs/".toList } "a/b?c#d%41 ;".toList) = ("http://h/objs/a%2Fb%3Fc%23d%2541%20%3B".toList, none) ∧
    valuesOf "Authorization".toList (getHeader [("authorization".toList, ["Bearer x".toList]), ("Range".toList, ["bytes=0-0".toList])] 7) = ["Bearer x".toList] ∧
    valuesOf "Range".toList (getHeader [("authorization".toList, ["Bearer x".toList]), ("Range".toList, ["bytes=0-0".toList])] 7) = ["bytes=7-".toList] := by
  refine ⟨⟨rfl, rfl, by decide, by decide⟩, by unfold IsBytes; decide, by decide +kernel, by decide +kernel, by decide +kernel⟩

/-- **C130 fails** for a base with a query, such as a signature: the name is added to the query, and every object is the same place. -/
theorem C130_counterexample_query (front query : Str) (h1 : '?' ∉ front) (h2 : '#' ∉ front) (h3 : '#' ∉ query) (name : Str) (hn : IsBytes name) :
    ∃ q, target (objectURL { front := front, query := some query } name) = (front, some (q ++ slash :: pathEscape name)) := by
  refine ⟨trimRight query, ?_⟩
  have ht : ({ front := front, query := some query } : Base).text = front ++ '?' :: query := by unfold Base.text; simp
  rw [objectURL, ht, trim_after _ (by decide), List.append_assoc, List.cons_append]
  refine target_query h1 h2 ?_
  intro h
  rcases List.mem_append.1 h with h | h
  · exact h3 (trim_mem h)
  · rcases List.mem_cons.1 h with h | h
    · cases h
    · exact (escaped_free hn).2.2 h

/-- **C130 fails** for a base with a fragment: requests for all names are the same. `Put` of one object replaces all others. -/
theorem C130_counterexample_fragment (front fragment : Str) (h2 : '#' ∉ front) (n₁ n₂ : Str) :
    target (objectURL { front := front, fragment := some fragment } n₁) = target (objectURL { front := front, fragment := some fragment } n₂) := by
  have key : ∀ n, target (objectURL { front := front, fragment := some fragment } n) = target front := by
    intro n
    have ht : ({ front := front, fragment := some fragment } : Base).text = front ++ '#' :: fragment := by unfold Base.text; simp
    rw [objectURL, ht, trim_after _ (by decide), List.append_assoc, List.cons_append]
    exact target_fragment h2
  rw [key, key]

/-- **C130 fails** for the name "..": no character of it is escaped, and a server that resolves steps in a path, as RFC 3986 tells it to, finds what lies above the base. -/
theorem C130_counterexample_dots :
    objectURL { front := "http://h/tenants/a".toList } "..".toList = "http://h/tenants/a/..".toList ∧
    clean "/tenants/a/..".toList = "/tenants".toList := by decide +kernel

/-- **C130 fails** for a configured Range: it is sent with a `Get` of the whole object, and the part that is answered is handed out as the object, although the documentation says
that a `Get` at offset 0 has no Range. -/
theorem C130_counterexample_range :
    valuesOf "Range".toList (getHeader [("Range".toList, ["bytes=5-9".toList])] 0) = ["bytes=5-9".toList] ∧
    Chunk.getDecision 0 206 "bytes 5-9/100".toList 5 = .body 100 := by decide +kernel

end Verif.Stream.FileUrl
