import Verif.Overlay.SqlVfs
import Verif.Common.Url
/-
C128: the URI under which a metadata database is opened, /repo/vroot-adapter/overlayfs/internal/sqlvfs/sqlvfs.go 61-76 (`DSN`) and open.go 27-45,
read back by sqlite and by the driver.

Strings as in Common/Url.lean. Trusted, and modelled from their documentation: net/url (`URL.String`, `Values.Encode`), sqlite's reading of
URIs (sqlite.org/uri.html; `sqlite3ParseUri`), and the driver, which takes what follows the first '?' for a query in the sense of net/url.
-/
namespace Verif.Overlay.Dsn
open Verif.Path Verif.Url Verif.Overlay.SqlVfs

/-! ## Model: writing the URI -/

/-- net/url `shouldEscape` in mode encodePath: of the reserved characters only '?' is escaped. -/
def inPath (c : Char) : Bool := unreserved c || c = '$' || c = '&' || c = '+' || c = ',' || c = '/' || c = ':' || c = ';' || c = '=' || c = '@'

/-- net/url `URL.EscapedPath` of a URL that has no RawPath. -/
def escapePath (s : Str) : Str := s.flatMap (escapeByte inPath)

/-- net/url `QueryEscape`. -/
def escapeQuery (s : Str) : Str := s.flatMap fun c => if c = ' ' then ['+'] else escapeByte unreserved c

/-- Parameters: a map from keys to lists of values. -/
abbrev Params := List (Str × List Str)

/-- sqlvfs.go 65-70: the name of the VFS is the first value of its key; the values of `params` are added key by key, in their order. -/
def withVfs (vfs : Str) : Params → Params
  | [] => [("vfs".toList, [vfs])]
  | (k, vs) :: rest => if k = "vfs".toList then (k, vfs :: vs) :: rest else (k, vs) :: withVfs vfs rest

/-- The pairs of a query in the order in which they are written: net/url `Values.Encode` sorts the keys (as a merge sort: keys of a map are distinct). -/
def pairs (q : Params) : List (Str × Str) := (q.mergeSort (fun a b => decide (a.1 ≤ b.1))).flatMap fun (k, vs) => vs.map fun v => (k, v)

/-- net/url `Values.Encode`, from the pairs in order. -/
def encode : List (Str × Str) → Str
  | [] => []
  | [(k, v)] => escapeQuery k ++ '=' :: escapeQuery v
  | (k, v) :: rest => escapeQuery k ++ '=' :: escapeQuery v ++ '&' :: encode rest

/-- sqlvfs.go 64-76 `DSN`: scheme, no host, the path, the query. -/
def dsn (vfs name : Str) (params : Params) : Str :=
  "file:".toList ++ escapePath (slash :: cleanPath name) ++ '?' :: encode (pairs (withVfs vfs params))

/-- open.go 27-32: the parameters of `Open`. -/
def openParams (pragmas : List Str) : Params := [("_pragma".toList, "locking_mode(exclusive)".toList :: "journal_mode(delete)".toList :: pragmas)]

/-- open.go 41-43: the parameters of `OpenReadOnly`. -/
def readOnlyParams : Params := [("mode".toList, ["ro".toList]), ("immutable".toList, ["1".toList])]

/-! ## Model: reading it -/

/-- The sections of a URI; an option without a name is passed over. -/
inductive Sec where
  | path | key | value | unnamed
deriving DecidableEq

structure St where
  sec : Sec
  cut : Bool
  path : Str
  key : Str
  val : Str
  opts : List (Str × Str)
deriving DecidableEq

def St.push (s : St) (c : Char) : St :=
  match s.sec with
  | .path => { s with path := s.path ++ [c] }
  | .key => { s with key := s.key ++ [c] }
  | .value => { s with val := s.val ++ [c] }
  | .unnamed => s

/-- What ends a section. -/
def ends : Sec → Char → Bool
  | .path, c => c = '?'
  | .key, c => c = '&' || c = '='
  | .value, c => c = '&'
  | .unnamed, c => c = '&'

def St.turn (s : St) (c : Char) : St :=
  match s.sec with
  | .path => { s with sec := .key, cut := false, key := [], val := [] }
  | .key =>
    if s.key = [] then (if c = '&' then { s with cut := false } else { s with sec := .unnamed, cut := false })
    else if c = '&' then { s with cut := false, opts := s.opts ++ [(s.key, [])], key := [] }
    else { s with sec := .value, cut := false, val := [] }
  | .value => { s with sec := .key, cut := false, opts := s.opts ++ [(s.key, s.val)], key := [], val := [] }
  | .unnamed => { s with sec := .key, cut := false, key := [], val := [] }

/-- sqlite3ParseUri: a zero byte ends the section it is in. -/
def St.eat (s : St) : Tok → St
  | .raw c => if ends s.sec c then s.turn c else if s.cut then s else s.push c
  | .octet n => if s.cut then s else if n = 0 then { s with cut := true } else s.push (Char.ofNat n)

def St.finish (s : St) : List (Str × Str) :=
  match s.sec with
  | .path => s.opts
  | .key => if s.key = [] then s.opts else s.opts ++ [(s.key, [])]
  | .value => s.opts ++ [(s.key, s.val)]
  | .unnamed => s.opts

/-- sqlite3ParseUri: after "file:" an authority, which must be empty or "localhost"; up to a '#' or a zero byte. -/
def sqliteReads (uri : Str) : Option (Str × List (Str × Str)) :=
  if "file:".toList.isPrefixOf uri then
    let body := (uri.drop 5).takeWhile fun c => c ≠ '#' && c ≠ Char.ofNat 0
    let go (r : Str) := let s := (tokens r).foldl St.eat ⟨.path, false, [], [], [], []⟩; (s.path, s.finish)
    match body with
    | '/' :: '/' :: r =>
      let host := r.takeWhile (· ≠ '/')
      if host = [] ∨ host = "localhost".toList then some (go (r.dropWhile (· ≠ '/'))) else none
    | _ => some (go body)
  else none

/-- One parameter of a query being read by net/url `ParseQuery`. -/
structure Piece where
  named : Bool
  key : Str
  val : Str
  done : List (Str × Str)
deriving DecidableEq

def Piece.close (p : Piece) : List (Str × Str) := if p.named = false ∧ p.key = [] then p.done else p.done ++ [(p.key, p.val)]

def Piece.push (p : Piece) (c : Char) : Piece := if p.named then { p with val := p.val ++ [c] } else { p with key := p.key ++ [c] }

/-- net/url `ParseQuery`, of a query in which every '%' is followed by two digits and no ';' stands (others it refuses in part). -/
def Piece.eat (p : Piece) : Tok → Piece
  | .raw c =>
    if c = '&' then ⟨false, [], [], p.close⟩
    else if c = '=' ∧ p.named = false then { p with named := true }
    else p.push (if c = '+' then ' ' else c)
  | .octet n => p.push (Char.ofNat n)

/-- The driver: the parameters after the first '?'. -/
def driverReads (uri : Str) : List (Str × Str) :=
  ((tokens ((uri.dropWhile (· ≠ '?')).drop 1)).foldl Piece.eat ⟨false, [], [], []⟩).close

/-- The file of the filesystem below that sqlite opens for a URI: it asks `FullPathname` for the name, and `Open` with the answer (sqlvfs.go 80-106, 133-135). -/
inductive Opened where
  | file (name : Str)
  | privateMemory
deriving DecidableEq

def opens (path : Str) : Opened := if cleanPath path = [] then .privateMemory else .file (cleanPath (cleanPath path))

/-! ## Specification -/

def NoZero (s : Str) : Prop := ∀ c ∈ s, c.toNat ≠ 0

/-- The values given for a key, in order. -/
def valuesOf (k : Str) (ps : List (Str × Str)) : List Str := ps.filterMap fun p => if p.1 = k then some p.2 else none

/-- The values of a key in a map of parameters. -/
def given (k : Str) : Params → List Str
  | [] => []
  | (k', vs) :: rest => if k' = k then vs else given k rest

/-- Parameters as a map of byte strings with proper keys. -/
def Fine (q : Params) : Prop := (q.map Prod.fst).Nodup ∧ ∀ kv ∈ q, kv.1 ≠ [] ∧ IsBytes kv.1 ∧ NoZero kv.1 ∧ ' ' ∉ kv.1 ∧ ∀ v ∈ kv.2, IsBytes v ∧ NoZero v

/-- sqlite does not take a '+' for a space. -/
def plus (s : Str) : Str := s.map fun c => if c = ' ' then '+' else c

/-! ## Lemmas: tokens -/

def tokQ (c : Char) : Tok := if c = ' ' then .raw '+' else tok unreserved c

theorem tokens_path {s : Str} (hs : IsBytes s) (rest : Str) : tokens (escapePath s ++ rest) = s.map (tok inPath) ++ tokens rest := by
  induction s with
  | nil => rfl
  | cons c s ih =>
    rw [escapePath, List.flatMap_cons, List.append_assoc, tokens_byte (by decide) (hs c (List.mem_cons_self ..))]
    rw [show s.flatMap (escapeByte inPath) = escapePath s from rfl, ih (fun x hx => hs x (List.mem_cons_of_mem _ hx))]
    rfl

theorem tokens_query {s : Str} (hs : IsBytes s) (rest : Str) : tokens (escapeQuery s ++ rest) = s.map tokQ ++ tokens rest := by
  induction s with
  | nil => rfl
  | cons c s ih =>
    have ih := ih (fun x hx => hs x (List.mem_cons_of_mem _ hx))
    rw [escapeQuery, List.flatMap_cons, List.append_assoc, List.map_cons, List.cons_append, ← ih]
    by_cases hc : c = ' '
    · rw [if_pos hc]
      show tokens ('+' :: (escapeQuery s ++ rest)) = _
      rw [tokens_raw (by decide), tokQ, if_pos hc]
    · rw [if_neg hc, tokens_byte (by decide) (hs c (List.mem_cons_self ..)), tokQ, if_neg hc]
      rfl

theorem val_tokQ (c : Char) : (tokQ c).val = if c = ' ' then '+' else c := by
  unfold tokQ
  split
  · rfl
  · exact val_tok _ _

/-! ## Lemmas: sqlite -/

/-- Tokens that end nothing in a section. -/
def Inside (sec : Sec) : Tok → Prop
  | .raw c => ends sec c = false
  | .octet n => n ≠ 0

theorem push_sec (s : St) (c : Char) : (s.push c).sec = s.sec ∧ (s.push c).cut = s.cut := by
  obtain ⟨sec, _, _, _, _, _⟩ := s
  cases sec <;> exact ⟨rfl, rfl⟩

theorem eat_inside : ∀ (l : List Tok) (s : St), s.cut = false → (∀ t ∈ l, Inside s.sec t) → l.foldl St.eat s = (l.map Tok.val).foldl St.push s := by
  intro l
  induction l with
  | nil => intros; rfl
  | cons t l ih =>
    intro s hc hin
    have ht := hin t (List.mem_cons_self ..)
    have he : s.eat t = s.push t.val := by
      cases t with
      | raw c => simp only [St.eat, Tok.val]; rw [show ends s.sec c = false from ht, hc]; rfl
      | octet n => simp only [St.eat, Tok.val, hc]; rw [if_neg (by simp), if_neg ht]
    simp only [List.foldl_cons, List.map_cons]
    rw [he]
    refine ih _ ((push_sec s _).2.trans hc) ?_
    intro t' ht'
    rw [(push_sec s _).1]
    exact hin t' (List.mem_cons_of_mem _ ht')

theorem push_path : ∀ (cs : Str) (s : St), s.sec = .path → cs.foldl St.push s = { s with path := s.path ++ cs } := by
  intro cs
  induction cs with
  | nil => intro s _; simp
  | cons c cs ih =>
    intro s hs
    rw [List.foldl_cons, ih _ ((push_sec s c).1.trans hs)]
    simp [St.push, hs]

theorem push_key : ∀ (cs : Str) (s : St), s.sec = .key → cs.foldl St.push s = { s with key := s.key ++ cs } := by
  intro cs
  induction cs with
  | nil => intro s _; simp
  | cons c cs ih =>
    intro s hs
    rw [List.foldl_cons, ih _ ((push_sec s c).1.trans hs)]
    simp [St.push, hs]

theorem push_val : ∀ (cs : Str) (s : St), s.sec = .value → cs.foldl St.push s = { s with val := s.val ++ cs } := by
  intro cs
  induction cs with
  | nil => intro s _; simp
  | cons c cs ih =>
    intro s hs
    rw [List.foldl_cons, ih _ ((push_sec s c).1.trans hs)]
    simp [St.push, hs]

theorem inside_path {s : Str} (hz : NoZero s) : ∀ t ∈ s.map (tok inPath), Inside .path t := by
  intro t ht
  obtain ⟨c, hc, rfl⟩ := List.mem_map.1 ht
  unfold tok
  split
  · rename_i h
    show decide (c = '?') = false
    rw [decide_eq_false_iff_not]
    rintro rfl
    exact absurd h (by decide)
  · exact hz c hc

theorem inside_query (sec : Sec) (hsec : sec = .key ∨ sec = .value) {s : Str} (hz : NoZero s) : ∀ t ∈ s.map tokQ, Inside sec t := by
  intro t ht
  obtain ⟨c, hc, rfl⟩ := List.mem_map.1 ht
  unfold tokQ tok
  split
  · rcases hsec with rfl | rfl <;> rfl
  · split
    · rename_i h
      have h1 : c ≠ '&' := by rintro rfl; exact absurd h (by decide)
      have h2 : c ≠ '=' := by rintro rfl; exact absurd h (by decide)
      rcases hsec with rfl | rfl
      · show (decide (c = '&') || decide (c = '=')) = false
        simp [h1, h2]
      · show decide (c = '&') = false
        simp [h1]
    · exact hz c hc

theorem vals_query (s : Str) : (s.map tokQ).map Tok.val = plus s := by
  unfold plus
  rw [List.map_map]
  exact List.map_congr_left fun c _ => val_tokQ c

theorem vals_path (s : Str) : (s.map (tok inPath)).map Tok.val = s := by
  rw [List.map_map]
  conv => rhs; rw [← List.map_id s]
  exact List.map_congr_left fun c _ => val_tok _ c

theorem plus_ne_nil {s : Str} (h : s ≠ []) : plus s ≠ [] := by
  cases s with
  | nil => exact absurd rfl h
  | cons c s => simp [plus]

/-- Pairs that can be written. -/
def Writable (ps : List (Str × Str)) : Prop := ∀ p ∈ ps, p.1 ≠ [] ∧ IsBytes p.1 ∧ NoZero p.1 ∧ IsBytes p.2 ∧ NoZero p.2

theorem sqlite_pair {k v : Str} (hk : k ≠ []) (bk : IsBytes k) (zk : NoZero k) (bv : IsBytes v) (zv : NoZero v) (rest : Str) (path : Str) (opts : List (Str × Str)) (val : Str) :
    (tokens (escapeQuery k ++ '=' :: (escapeQuery v ++ rest))).foldl St.eat ⟨.key, false, path, [], val, opts⟩ =
      (tokens rest).foldl St.eat ⟨.value, false, path, plus k, plus v, opts⟩ := by
  rw [tokens_query bk, List.foldl_append, eat_inside (k.map tokQ) _ rfl (inside_query .key (.inl rfl) zk), vals_query, push_key _ _ rfl]
  rw [tokens_raw (by decide), List.foldl_cons]
  rw [show St.eat { ({ sec := .key, cut := false, path := path, key := [], val := val, opts := opts } : St) with key := [] ++ plus k } (.raw '=') =
    ⟨.value, false, path, plus k, [], opts⟩ by
      simp only [St.eat, ends, St.turn, List.nil_append]
      rw [if_pos (by decide), if_neg (plus_ne_nil hk), if_neg (by decide)]]
  rw [tokens_query bv, List.foldl_append, eat_inside (v.map tokQ) _ rfl (inside_query .value (.inr rfl) zv), vals_query, push_val _ _ rfl]
  rfl

theorem sqlite_encode : ∀ (ps : List (Str × Str)) (path val : Str) (opts : List (Str × Str)), Writable ps →
    ∃ s, (tokens (encode ps)).foldl St.eat ⟨.key, false, path, [], val, opts⟩ = s ∧ s.path = path ∧ s.finish = opts ++ ps.map fun p => (plus p.1, plus p.2) := by
  intro ps
  induction ps with
  | nil => intro path val opts _; exact ⟨⟨.key, false, path, [], val, opts⟩, rfl, rfl, by simp [St.finish]⟩
  | cons p ps ih =>
    intro path val opts hw
    obtain ⟨k, v⟩ := p
    obtain ⟨h1, h2, h3, h4, h5⟩ := hw (k, v) (List.mem_cons_self ..)
    refine ⟨_, rfl, ?_⟩
    cases ps with
    | nil =>
      rw [encode]
      have := sqlite_pair h1 h2 h3 h4 h5 [] path opts val
      rw [List.append_nil] at this
      rw [this]
      exact ⟨rfl, rfl⟩
    | cons q ps =>
      have he : encode ((k, v) :: q :: ps) = escapeQuery k ++ '=' :: (escapeQuery v ++ '&' :: encode (q :: ps)) := by simp [encode]
      rw [he, sqlite_pair h1 h2 h3 h4 h5, tokens_raw (by decide), List.foldl_cons]
      obtain ⟨s, e, hp, hf⟩ := ih path [] (opts ++ [(plus k, plus v)]) (fun x hx => hw x (List.mem_cons_of_mem _ hx))
      rw [show St.eat ⟨.value, false, path, plus k, plus v, opts⟩ (.raw '&') = ⟨.key, false, path, [], [], opts ++ [(plus k, plus v)]⟩ by rfl, e]
      refine ⟨hp, ?_⟩
      rw [hf]
      simp

/-! ## Lemmas: the driver -/

theorem driver_push : ∀ (cs : Str) (p : Piece), cs.foldl Piece.push p = if p.named then { p with val := p.val ++ cs } else { p with key := p.key ++ cs } := by
  intro cs
  induction cs with
  | nil => intro p; obtain ⟨n, _, _, _⟩ := p; cases n <;> simp
  | cons c cs ih =>
    intro p
    rw [List.foldl_cons, ih]
    cases h : p.named <;> simp [Piece.push, h]

theorem driver_inside : ∀ (s : Str) (p : Piece), (s.map tokQ).foldl Piece.eat p = s.foldl Piece.push p := by
  intro s
  induction s with
  | nil => intro p; rfl
  | cons c s ih =>
    intro p
    have he : p.eat (tokQ c) = p.push c := by
      unfold tokQ tok
      split
      · rename_i h; subst h; rfl
      · split
        · rename_i h
          have h1 : c ≠ '&' := by rintro rfl; exact absurd h (by decide)
          have h2 : c ≠ '=' := by rintro rfl; exact absurd h (by decide)
          have h3 : c ≠ '+' := by rintro rfl; exact absurd h (by decide)
          simp only [Piece.eat]
          rw [if_neg h1, if_neg (fun e => h2 e.1), if_neg h3]
        · simp only [Piece.eat, Char.ofNat_toNat]
    rw [List.map_cons, List.foldl_cons, List.foldl_cons, he, ih]

theorem driver_pair {k v : Str} (bk : IsBytes k) (bv : IsBytes v) (rest : Str) (done : List (Str × Str)) :
    (tokens (escapeQuery k ++ '=' :: (escapeQuery v ++ rest))).foldl Piece.eat ⟨false, [], [], done⟩ = (tokens rest).foldl Piece.eat ⟨true, k, v, done⟩ := by
  rw [tokens_query bk, List.foldl_append, driver_inside, driver_push, tokens_raw (by decide), List.foldl_cons]
  rw [tokens_query bv, List.foldl_append, driver_inside, driver_push]
  rfl

theorem driver_encode : ∀ (ps : List (Str × Str)) (done : List (Str × Str)), Writable ps →
    ((tokens (encode ps)).foldl Piece.eat ⟨false, [], [], done⟩).close = done ++ ps := by
  intro ps
  induction ps with
  | nil => intro done _; simp [encode, tokens, Piece.close]
  | cons p ps ih =>
    intro done hw
    obtain ⟨k, v⟩ := p
    obtain ⟨_, h2, _, h4, _⟩ := hw (k, v) (List.mem_cons_self ..)
    cases ps with
    | nil =>
      rw [encode]
      have := driver_pair h2 h4 [] done
      rw [List.append_nil] at this
      rw [this]
      simp [tokens, Piece.close]
    | cons q ps =>
      have he : encode ((k, v) :: q :: ps) = escapeQuery k ++ '=' :: (escapeQuery v ++ '&' :: encode (q :: ps)) := by simp [encode]
      rw [he, driver_pair h2 h4, tokens_raw (by decide), List.foldl_cons]
      rw [show Piece.eat ⟨true, k, v, done⟩ (.raw '&') = ⟨false, [], [], done ++ [(k, v)]⟩ by simp [Piece.eat, Piece.close]]
      rw [ih _ (fun x hx => hw x (List.mem_cons_of_mem _ hx))]
      simp

/-! ## Lemmas: names -/

theorem mem_split {c : Char} : ∀ {s : Str} {x : Str}, x ∈ split s → c ∈ x → c ∈ s := by
  intro s
  induction s with
  | nil => intro x hx hc; simp [split] at hx; subst hx; exact hc
  | cons d s ih =>
    intro x hx hc
    rw [split] at hx
    split at hx
    · rcases List.mem_cons.1 hx with rfl | hx
      · cases hc
      · exact List.mem_cons_of_mem _ (ih hx hc)
    · split at hx
      · simp at hx; subst hx; simp at hc; subst hc; exact List.mem_cons_self ..
      · rename_i h t he
        rcases List.mem_cons.1 hx with rfl | hx
        · rcases List.mem_cons.1 hc with rfl | hc
          · exact List.mem_cons_self ..
          · exact List.mem_cons_of_mem _ (ih (by rw [he]; exact List.mem_cons_self ..) hc)
        · exact List.mem_cons_of_mem _ (ih (by rw [he]; exact List.mem_cons_of_mem _ hx) hc)

theorem mem_walk : ∀ (cs p : List Str) {x : Str}, x ∈ walk p cs → x ∈ p ∨ x ∈ cs := by
  intro cs
  induction cs with
  | nil => intro p x hx; exact .inl hx
  | cons c cs ih =>
    intro p x hx
    rw [walk] at hx
    split at hx
    · rcases ih _ hx with h | h
      · exact .inl h
      · exact .inr (List.mem_cons_of_mem _ h)
    · split at hx
      · rcases ih _ hx with h | h
        · exact .inl (List.dropLast_subset _ h)
        · exact .inr (List.mem_cons_of_mem _ h)
      · rcases ih _ hx with h | h
        · rcases List.mem_append.1 h with h | h
          · exact .inl h
          · simp at h; subst h; exact .inr (List.mem_cons_self ..)
        · exact .inr (List.mem_cons_of_mem _ h)

theorem mem_join {c : Char} : ∀ (p : List Str), c ∈ join p → c = slash ∨ ∃ x ∈ p, c ∈ x := by
  intro p
  induction p with
  | nil => intro h; cases h
  | cons a r ih =>
    cases r with
    | nil => intro h; exact .inr ⟨a, List.mem_cons_self .., h⟩
    | cons b r =>
      intro h
      rw [join] at h
      rcases List.mem_append.1 h with h | h
      · exact .inr ⟨a, List.mem_cons_self .., h⟩
      · rcases List.mem_cons.1 h with h | h
        · exact .inl h
        · rcases ih h with h | ⟨x, hx, hc⟩
          · exact .inl h
          · exact .inr ⟨x, List.mem_cons_of_mem _ hx, hc⟩

theorem mem_cleanPath {c : Char} {name : Str} (h : c ∈ cleanPath name) : c = slash ∨ c ∈ name := by
  rw [cleanPath_eq] at h
  rcases mem_join _ h with h | ⟨x, hx, hc⟩
  · exact .inl h
  · rcases mem_walk _ _ hx with h | h
    · cases h
    · exact .inr (mem_split h hc)

theorem bytes_cleanPath {name : Str} (h : IsBytes name) : IsBytes (slash :: cleanPath name) := by
  intro c hc
  rcases List.mem_cons.1 hc with rfl | hc
  · decide
  · rcases mem_cleanPath hc with rfl | hc
    · decide
    · exact h c hc

theorem noZero_cleanPath {name : Str} (h : NoZero name) : NoZero (slash :: cleanPath name) := by
  intro c hc
  rcases List.mem_cons.1 hc with rfl | hc
  · decide
  · rcases mem_cleanPath hc with rfl | hc
    · decide
    · exact h c hc

theorem cleanPath_slash (name : Str) : cleanPath (slash :: cleanPath name) = cleanPath name := by
  have hp : place (slash :: cleanPath name) = place name := by
    rw [cleanPath_eq, place, split, if_pos rfl, walk, if_pos (.inl rfl)]
    exact place_join (place_names name)
  rw [cleanPath_eq, hp, ← cleanPath_eq]

theorem cleanPath_head (name : Str) : ∀ t, cleanPath name ≠ '/' :: t := by
  intro t h
  have hn := place_names name
  rw [cleanPath_eq] at h
  cases hp : place name with
  | nil => rw [hp] at h; cases h
  | cons a r =>
    rw [hp] at h hn
    have ha := (hn a (List.mem_cons_self ..)).1
    cases a with
    | nil => exact ha.1 rfl
    | cons d a =>
      have : d = '/' := by
        cases r <;> (simp only [join, List.cons_append, List.cons.injEq] at h; exact h.1)
      exact ha.2 (by subst this; exact List.mem_cons_self ..)

/-! ## Lemmas: the whole URI -/

theorem hexDigit_plain {n : Nat} (h : n < 16) : hexDigit n ≠ '#' ∧ hexDigit n ≠ Char.ofNat 0 ∧ hexDigit n ≠ '?' ∧ hexDigit n ≠ '/' := by
  have : ∀ n : Fin 16, hexDigit n ≠ '#' ∧ hexDigit n ≠ Char.ofNat 0 ∧ hexDigit n ≠ '?' ∧ hexDigit n ≠ '/' := by decide
  exact this ⟨n, h⟩

/-- The characters that would end the reading early. -/
def Harmless (s : Str) : Prop := ∀ c ∈ s, c ≠ '#' ∧ c ≠ Char.ofNat 0 ∧ c ≠ '?'

theorem harmless_byte {plain : Char → Bool} (hp : plain '#' = false ∧ plain (Char.ofNat 0) = false ∧ plain '?' = false) {c : Char} (hc : c.toNat < 256) : Harmless (escapeByte plain c) := by
  unfold escapeByte
  cases hpl : plain c with
  | true =>
    simp only [if_true]
    intro d hd
    simp at hd
    subst hd
    refine ⟨?_, ?_, ?_⟩
    · rintro rfl; rw [hp.1] at hpl; cases hpl
    · intro e; rw [e, hp.2.1] at hpl; cases hpl
    · rintro rfl; rw [hp.2.2] at hpl; cases hpl
  | false =>
    simp only [Bool.false_eq_true, if_false]
    have h1 := hexDigit_plain (n := c.toNat / 16) (by omega)
    have h2 := hexDigit_plain (n := c.toNat % 16) (by omega)
    intro d hd
    simp at hd
    rcases hd with rfl | rfl | rfl
    · decide
    · exact ⟨h1.1, h1.2.1, h1.2.2.1⟩
    · exact ⟨h2.1, h2.2.1, h2.2.2.1⟩

theorem harmless_path {s : Str} (hs : IsBytes s) : Harmless (escapePath s) := by
  intro c hc
  obtain ⟨d, hd, hcd⟩ := List.mem_flatMap.1 hc
  exact harmless_byte (by decide) (hs d hd) c hcd

theorem harmless_query {s : Str} (hs : IsBytes s) : Harmless (escapeQuery s) := by
  intro c hc
  obtain ⟨d, hd, hcd⟩ := List.mem_flatMap.1 hc
  split at hcd
  · simp at hcd; subst hcd; decide
  · exact harmless_byte (by decide) (hs d hd) c hcd

theorem harmless_encode : ∀ (ps : List (Str × Str)), Writable ps → Harmless (encode ps) := by
  intro ps
  induction ps with
  | nil => intro _ c hc; cases hc
  | cons p ps ih =>
    intro hw
    obtain ⟨k, v⟩ := p
    obtain ⟨_, h2, _, h4, _⟩ := hw (k, v) (List.mem_cons_self ..)
    have ih := ih (fun x hx => hw x (List.mem_cons_of_mem _ hx))
    cases ps with
    | nil =>
      intro c hc
      simp only [encode, List.mem_append, List.mem_cons] at hc
      rcases hc with h | rfl | h
      · exact harmless_query h2 c h
      · decide
      · exact harmless_query h4 c h
    | cons q ps =>
      intro c hc
      simp only [encode, List.mem_append, List.mem_cons] at hc
      rcases hc with (h | rfl | h) | rfl | h
      · exact harmless_query h2 c h
      · decide
      · exact harmless_query h4 c h
      · decide
      · exact ih c h

theorem takeWhile_all {p : Char → Bool} : ∀ {l : Str}, (∀ c ∈ l, p c = true) → l.takeWhile p = l := by
  intro l
  induction l with
  | nil => intro _; rfl
  | cons c l ih =>
    intro h
    rw [List.takeWhile_cons, if_pos (h c (List.mem_cons_self ..)), ih (fun d hd => h d (List.mem_cons_of_mem _ hd))]

theorem dropWhile_to {p : Char → Bool} : ∀ {l r : Str} {d : Char}, (∀ c ∈ l, p c = true) → p d = false → (l ++ d :: r).dropWhile p = d :: r := by
  intro l
  induction l with
  | nil => intro r d _ hd; rw [List.nil_append, List.dropWhile_cons, if_neg (by simp [hd])]
  | cons c l ih =>
    intro r d h hd
    rw [List.cons_append, List.dropWhile_cons, if_pos (h c (List.mem_cons_self ..)), ih (fun d hd => h d (List.mem_cons_of_mem _ hd)) hd]

theorem escape_head (x rest : Str) (hx : IsBytes x) (h : ∀ t, x ≠ '/' :: t) : ∀ t, escapePath x ++ '?' :: rest ≠ '/' :: t := by
  intro t e
  cases x with
  | nil => simp [escapePath] at e
  | cons c x =>
    simp only [escapePath, List.flatMap_cons, escapeByte] at e
    split at e
    · simp at e; exact h x (by rw [e.1])
    · simp at e

theorem reads_body (vfs name : Str) (params : Params) (hb : IsBytes name) (hz : NoZero name) (hw : Writable (pairs (withVfs vfs params))) :
    sqliteReads (dsn vfs name params) = some (slash :: cleanPath name, (pairs (withVfs vfs params)).map fun p => (plus p.1, plus p.2)) := by
  have hbody : (dsn vfs name params).drop 5 = escapePath (slash :: cleanPath name) ++ '?' :: encode (pairs (withVfs vfs params)) := by rfl
  have hpre : "file:".toList.isPrefixOf (dsn vfs name params) = true := by
    simp [dsn, List.isPrefixOf]
  have hsafe : ∀ c ∈ escapePath (slash :: cleanPath name) ++ '?' :: encode (pairs (withVfs vfs params)), (decide (c ≠ '#') && decide (c ≠ Char.ofNat 0)) = true := by
    intro c hc
    rcases List.mem_append.1 hc with h | h
    · have := harmless_path (bytes_cleanPath hb) c h
      simp [this.1]; exact this.2.1
    · rcases List.mem_cons.1 h with rfl | h
      · decide
      · have := harmless_encode _ hw c h
        simp [this.1]; exact this.2.1
  obtain ⟨s, e, hp, hf⟩ := sqlite_encode (pairs (withVfs vfs params)) (slash :: cleanPath name) [] [] hw
  have hfold : (tokens (escapePath (slash :: cleanPath name) ++ '?' :: encode (pairs (withVfs vfs params)))).foldl St.eat ⟨.path, false, [], [], [], []⟩ = s := by
    rw [tokens_path (bytes_cleanPath hb), List.foldl_append, eat_inside ((slash :: cleanPath name).map (tok inPath)) _ rfl (inside_path (noZero_cleanPath hz)), vals_path, push_path _ _ rfl, tokens_raw (by decide), List.foldl_cons]
    exact e
  unfold sqliteReads
  rw [if_pos hpre, hbody, takeWhile_all hsafe]
  have hb' : IsBytes (cleanPath name) := fun c hc => bytes_cleanPath hb c (List.mem_cons_of_mem _ hc)
  have hne := escape_head (cleanPath name) (encode (pairs (withVfs vfs params))) hb' (cleanPath_head name)
  simp only
  split
  · rename_i r he
    have : escapePath (slash :: cleanPath name) ++ '?' :: encode (pairs (withVfs vfs params)) = '/' :: (escapePath (cleanPath name) ++ '?' :: encode (pairs (withVfs vfs params))) := rfl
    rw [this] at he
    exact absurd (List.cons.inj he).2 (hne r)
  · simp only [hfold, hp, hf, List.nil_append]

theorem driver_body (vfs name : Str) (params : Params) (hb : IsBytes name) (hw : Writable (pairs (withVfs vfs params))) :
    driverReads (dsn vfs name params) = pairs (withVfs vfs params) := by
  unfold driverReads dsn
  rw [dropWhile_to (l := "file:".toList ++ escapePath (slash :: cleanPath name)) (by
    intro c hc
    rcases List.mem_append.1 hc with h | h
    · have : ∀ c ∈ "file:".toList, decide (c ≠ '?') = true := by decide
      exact this c h
    · have := harmless_path (bytes_cleanPath hb) c h
      simp [this.2.2]) (by decide)]
  rw [List.drop_succ_cons, List.drop_zero, driver_encode _ _ hw, List.nil_append]

/-! ## Lemmas: parameters -/

theorem given_absent {k : Str} : ∀ {q : Params}, k ∉ q.map Prod.fst → given k q = [] := by
  intro q
  induction q with
  | nil => intro _; rfl
  | cons y q ih =>
    intro hno
    simp only [List.map_cons, List.mem_cons, not_or] at hno
    rw [given, if_neg (fun e => hno.1 e.symm), ih hno.2]

theorem valuesOf_flat (k : Str) : ∀ (q : Params), (q.map Prod.fst).Nodup → valuesOf k (q.flatMap fun (k, vs) => vs.map fun v => (k, v)) = given k q := by
  intro q
  induction q with
  | nil => intro _; rfl
  | cons x q ih =>
    intro hn
    obtain ⟨k', vs⟩ := x
    rw [List.map_cons, List.nodup_cons] at hn
    have ih := ih hn.2
    rw [List.flatMap_cons, valuesOf, List.filterMap_append, given]
    have hsame : ∀ (vs : List Str) (k' : Str), ((vs.map fun v => (k', v)).filterMap fun p => if p.1 = k then some p.2 else none) = if k' = k then vs else [] := by
      intro vs k'
      induction vs with
      | nil => split <;> rfl
      | cons v vs ih => rw [List.map_cons, List.filterMap_cons]; by_cases h : k' = k <;> simp_all
    rw [hsame]
    by_cases h : k' = k
    · rw [if_pos h, if_pos h]
      have : valuesOf k (q.flatMap fun (k, vs) => vs.map fun v => (k, v)) = [] := by
        rw [ih]
        have hno : k ∉ q.map Prod.fst := by rw [← h]; exact hn.1
        exact given_absent hno
      rw [valuesOf] at this
      rw [this, List.append_nil]
    · rw [if_neg h, if_neg h, List.nil_append]
      exact ih

theorem given_mem {k : Str} {vs : List Str} : ∀ {q : Params}, (q.map Prod.fst).Nodup → (k, vs) ∈ q → given k q = vs := by
  intro q
  induction q with
  | nil => intro _ h; cases h
  | cons x q ih =>
    intro hn h
    rw [List.map_cons, List.nodup_cons] at hn
    rw [given]
    rcases List.mem_cons.1 h with rfl | h
    · rw [if_pos rfl]
    · have : x.1 ≠ k := by
        intro e
        exact hn.1 (List.mem_map.2 ⟨_, h, e.symm⟩)
      rw [if_neg this, ih hn.2 h]

theorem given_perm {q q' : Params} (hp : q.Perm q') (hn : (q.map Prod.fst).Nodup) (k : Str) : given k q = given k q' := by
  have hn' : (q'.map Prod.fst).Nodup := (hp.map _).nodup_iff.1 hn
  by_cases h : k ∈ q.map Prod.fst
  · obtain ⟨⟨k', vs⟩, hm, rfl⟩ := List.mem_map.1 h
    rw [given_mem hn hm, given_mem hn' (hp.mem_iff.1 hm)]
  · rw [given_absent h, given_absent (fun e => h ((hp.map _).mem_iff.2 e))]

theorem valuesOf_pairs (q : Params) (hn : (q.map Prod.fst).Nodup) (k : Str) : valuesOf k (pairs q) = given k q := by
  have hp : (q.mergeSort (fun a b => decide (a.1 ≤ b.1))).Perm q := List.mergeSort_perm _ _
  rw [pairs, valuesOf_flat k _ ((hp.map _).nodup_iff.2 hn)]
  exact given_perm hp ((hp.map _).nodup_iff.2 hn) k

theorem keys_withVfs (vfs : Str) : ∀ (q : Params), ∀ k ∈ (withVfs vfs q).map Prod.fst, k = "vfs".toList ∨ k ∈ q.map Prod.fst := by
  intro q
  induction q with
  | nil => intro k hk; simp [withVfs] at hk; exact .inl (by simp [hk])
  | cons x q ih =>
    intro k hk
    obtain ⟨k', vs⟩ := x
    rw [withVfs] at hk
    split at hk
    · exact .inr hk
    · rcases List.mem_cons.1 hk with rfl | hk
      · exact .inr (List.mem_cons_self ..)
      · rcases ih k hk with h | h
        · exact .inl h
        · exact .inr (List.mem_cons_of_mem _ h)

theorem fine_withVfs {vfs : Str} (hb : IsBytes vfs) (hz : NoZero vfs) : ∀ (q : Params), Fine q → Fine (withVfs vfs q) := by
  intro q
  induction q with
  | nil =>
    intro _
    refine ⟨by simp [withVfs], ?_⟩
    intro kv hkv
    simp only [withVfs, List.mem_singleton] at hkv
    subst hkv
    refine ⟨(by decide : "vfs".toList ≠ []), (by unfold IsBytes; decide : IsBytes "vfs".toList), (by unfold NoZero; decide : NoZero "vfs".toList), (by decide : ' ' ∉ "vfs".toList), ?_⟩
    intro v hv
    simp only [List.mem_singleton] at hv
    subst hv
    exact ⟨hb, hz⟩
  | cons x q ih =>
    intro hf
    obtain ⟨k, vs⟩ := x
    have hn := hf.1
    rw [List.map_cons, List.nodup_cons] at hn
    rw [withVfs]
    split
    · refine ⟨hf.1, ?_⟩
      intro kv hkv
      rcases List.mem_cons.1 hkv with rfl | hkv
      · obtain ⟨h1, h2, h3, h4, h5⟩ := hf.2 (k, vs) (List.mem_cons_self ..)
        refine ⟨h1, h2, h3, h4, ?_⟩
        intro v hv
        rcases List.mem_cons.1 hv with rfl | hv
        · exact ⟨hb, hz⟩
        · exact h5 v hv
      · exact hf.2 kv (List.mem_cons_of_mem _ hkv)
    · rename_i hk
      have ih := ih ⟨hn.2, fun kv hkv => hf.2 kv (List.mem_cons_of_mem _ hkv)⟩
      refine ⟨?_, ?_⟩
      · rw [List.map_cons, List.nodup_cons]
        refine ⟨?_, ih.1⟩
        intro hm
        rcases keys_withVfs vfs q _ hm with h | h
        · exact hk h
        · exact hn.1 h
      · intro kv hkv
        rcases List.mem_cons.1 hkv with rfl | hkv
        · exact hf.2 _ (List.mem_cons_self ..)
        · exact ih.2 kv hkv

theorem given_withVfs (vfs k : Str) : ∀ (q : Params), given k (withVfs vfs q) = (if k = "vfs".toList then [vfs] else []) ++ given k q := by
  intro q
  induction q with
  | nil =>
    simp only [withVfs, given]
    by_cases h : k = "vfs".toList
    · rw [if_pos h.symm, if_pos h]; rfl
    · rw [if_neg (fun e => h e.symm), if_neg h]; rfl
  | cons x q ih =>
    obtain ⟨k', vs⟩ := x
    rw [withVfs]
    split
    · rename_i hk
      subst hk
      simp only [given]
      by_cases h : k = "vfs".toList
      · rw [if_pos h.symm, if_pos h, if_pos h.symm]; rfl
      · rw [if_neg (fun e => h e.symm), if_neg h, if_neg (fun e => h e.symm)]; rfl
    · rename_i hk
      simp only [given]
      by_cases h : k' = k
      · rw [if_pos h, if_pos h, if_neg (by rw [← h]; exact hk)]; rfl
      · rw [if_neg h, if_neg h, ih]

theorem writable_pairs {q : Params} (hf : Fine q) : Writable (pairs q) ∧ ∀ p ∈ pairs q, plus p.1 = p.1 := by
  have hp : (q.mergeSort (fun a b => decide (a.1 ≤ b.1))).Perm q := List.mergeSort_perm _ _
  have key : ∀ p ∈ pairs q, ∃ kv ∈ q, p.1 = kv.1 ∧ p.2 ∈ kv.2 := by
    intro p hpp
    obtain ⟨kv, hkv, hm⟩ := List.mem_flatMap.1 hpp
    obtain ⟨v, hv, rfl⟩ := List.mem_map.1 hm
    exact ⟨kv, hp.mem_iff.1 hkv, rfl, hv⟩
  refine ⟨?_, ?_⟩
  · intro p hpp
    obtain ⟨kv, hkv, e, hv⟩ := key p hpp
    obtain ⟨h1, h2, h3, _, h5⟩ := hf.2 kv hkv
    rw [e]
    exact ⟨h1, h2, h3, h5 _ hv⟩
  · intro p hpp
    obtain ⟨kv, hkv, e, hv⟩ := key p hpp
    obtain ⟨_, _, _, h4, _⟩ := hf.2 kv hkv
    rw [e, plus]
    conv => rhs; rw [← List.map_id kv.1]
    refine List.map_congr_left ?_
    intro c hc
    rw [if_neg (by rintro rfl; exact h4 hc)]
    rfl

theorem valuesOf_plus (k : Str) (ps : List (Str × Str)) (h : ∀ p ∈ ps, plus p.1 = p.1) : valuesOf k (ps.map fun p => (plus p.1, plus p.2)) = (valuesOf k ps).map plus := by
  induction ps with
  | nil => rfl
  | cons p ps ih =>
    have ih := ih (fun x hx => h x (List.mem_cons_of_mem _ hx))
    unfold valuesOf at *
    rw [List.map_cons, List.filterMap_cons, List.filterMap_cons, h p (List.mem_cons_self ..)]
    by_cases hk : p.1 = k <;> simp [hk, ih]

/-! ## Property C128 -/

/-- **C128** (the file). For every name without a zero byte that does not lead to the root, sqlite opens the file that lies where the name leads in the filesystem, whatever
characters it has and whatever parameters are given.
Missing from C128: names with a zero byte and names of the root (counterexamples below). -/
theorem C128_file_partial (vfs name : Str) (params : Params) (hv : IsBytes vfs) (hvz : NoZero vfs) (hp : Fine params) (hb : IsBytes name) (hz : NoZero name) (hr : place name ≠ []) :
    ∃ path opts, sqliteReads (dsn vfs name params) = some (path, opts) ∧ opens path = .file (join (place name)) := by
  refine ⟨_, _, reads_body vfs name params hb hz (writable_pairs (fine_withVfs hv hvz params hp)).1, ?_⟩
  have hne : cleanPath name ≠ [] := by rw [cleanPath_eq]; exact join_ne_nil (fun c hc => (place_names name c hc).1) hr
  have hcc : cleanPath (cleanPath name) = cleanPath name := by
    rw [cleanPath_eq (cleanPath name), cleanPath_eq name, place_join (place_names name)]
  rw [opens, cleanPath_slash, if_neg hne, hcc, cleanPath_eq]

/-- **C128** (parameters). Whatever the name, sqlite and the driver find for every key the values given, in their order, after the name of the VFS for its key; only that
sqlite sees a '+' for each space. -/
theorem C128_parameters (vfs name : Str) (params : Params) (hv : IsBytes vfs) (hvz : NoZero vfs) (hp : Fine params) (hb : IsBytes name) (hz : NoZero name) (k : Str) :
    (∃ path opts, sqliteReads (dsn vfs name params) = some (path, opts) ∧ valuesOf k opts = ((if k = "vfs".toList then [vfs] else []) ++ given k params).map plus) ∧
    valuesOf k (driverReads (dsn vfs name params)) = (if k = "vfs".toList then [vfs] else []) ++ given k params := by
  have hf := fine_withVfs hv hvz params hp
  have hw := writable_pairs hf
  refine ⟨⟨_, _, reads_body vfs name params hb hz hw.1, ?_⟩, ?_⟩
  · rw [valuesOf_plus k _ hw.2, valuesOf_pairs _ hf.1, given_withVfs]
  · rw [driver_body vfs name params hb hw.1, valuesOf_pairs _ hf.1, given_withVfs]

/-- **C128** (opening). The two ways of opening ask for what they say: exclusive locking, then a rollback journal, then the pragmas of the caller in order; or for a
database that is only read and does not change. -/
theorem C128_opening (vfs name : Str) (hv : IsBytes vfs) (hvz : NoZero vfs) (hb : IsBytes name) (hz : NoZero name) (pragmas : List Str) (hpr : ∀ v ∈ pragmas, IsBytes v ∧ NoZero v) :
    valuesOf "_pragma".toList (driverReads (dsn vfs name (openParams pragmas))) = "locking_mode(exclusive)".toList :: "journal_mode(delete)".toList :: pragmas ∧
    (∃ path opts, sqliteReads (dsn vfs name readOnlyParams) = some (path, opts) ∧ valuesOf "vfs".toList opts = [plus vfs] ∧ valuesOf "mode".toList opts = ["ro".toList] ∧
      valuesOf "immutable".toList opts = ["1".toList]) := by
  have hf : Fine (openParams pragmas) := by
    refine ⟨by simp [openParams], ?_⟩
    intro kv hkv
    simp only [openParams, List.mem_singleton] at hkv
    subst hkv
    refine ⟨(by decide : "_pragma".toList ≠ []), (by unfold IsBytes; decide : IsBytes "_pragma".toList), (by unfold NoZero; decide : NoZero "_pragma".toList), (by decide : ' ' ∉ "_pragma".toList), ?_⟩
    intro v hv
    rcases List.mem_cons.1 hv with rfl | hv
    · exact ⟨by unfold IsBytes; decide, by unfold NoZero; decide⟩
    · rcases List.mem_cons.1 hv with rfl | hv
      · exact ⟨by unfold IsBytes; decide, by unfold NoZero; decide⟩
      · exact hpr v hv
  have hro : Fine readOnlyParams := by unfold Fine IsBytes NoZero; decide
  refine ⟨?_, ?_⟩
  · rw [(C128_parameters vfs name _ hv hvz hf hb hz _).2]
    rfl
  · have hfw := fine_withVfs hv hvz _ hro
    have hw := writable_pairs hfw
    refine ⟨_, _, reads_body vfs name readOnlyParams hb hz hw.1, ?_, ?_, ?_⟩
    · rw [valuesOf_plus _ _ hw.2, valuesOf_pairs _ hfw.1, given_withVfs]; rfl
    · rw [valuesOf_plus _ _ hw.2, valuesOf_pairs _ hfw.1, given_withVfs]; rfl
    · rw [valuesOf_plus _ _ hw.2, valuesOf_pairs _ hfw.1, given_withVfs]; rfl

/-- A name with characters that mean something in a URI: a case of `C128_file_partial`. -/
example : let name := "a/../b?c#d%20 e".toList
    IsBytes name ∧ NoZero name ∧ place name = ["b?c#d%20 e".toList] ∧
    dsn "v".toList name [] = "file:/b%3Fc%23d%2520%20e?vfs=v".toList ∧
    sqliteReads (dsn "v".toList name []) = some ("/b?c#d%20 e".toList, [("vfs".toList, "v".toList)]) := by
  refine ⟨by unfold IsBytes; decide, by unfold NoZero; decide, by decide +kernel, by decide +kernel, by decide +kernel⟩

/-- **C128 fails** for a name with a zero byte: "a\x00b" opens the database "a". -/
theorem C128_counterexample_zero :
    let name := ['a', Char.ofNat 0, 'b']
    place name = [name] ∧ (sqliteReads (dsn "v".toList name [])).map (fun r => opens r.1) = some (.file ['a']) := by
  refine ⟨by decide +kernel, by decide +kernel⟩

/-- **C128 fails** for every name of the root (".", "", "a/.."): the open succeeds, on a database in memory that is gone when it is closed, instead of failing as opening
a directory does. -/
theorem C128_counterexample_root (vfs name : Str) (params : Params) (hv : IsBytes vfs) (hvz : NoZero vfs) (hp : Fine params) (hb : IsBytes name) (hz : NoZero name) (hr : place name = [])
    (s : Sys) (fl : Flags) (fault : Option BErr) :
    (∃ path opts, sqliteReads (dsn vfs name params) = some (path, opts) ∧ opens path = .privateMemory ∧ vOpen s (cleanPath path) fl fault = (.memory, s)) := by
  refine ⟨_, _, reads_body vfs name params hb hz (writable_pairs (fine_withVfs hv hvz params hp)).1, ?_⟩
  have hne : cleanPath name = [] := by rw [cleanPath_eq, hr]; rfl
  rw [opens, cleanPath_slash, hne]
  exact ⟨rfl, rfl⟩

example : place ".".toList = [] ∧ place "".toList = [] ∧ place "a/..".toList = [] := by decide

end Verif.Overlay.Dsn
