import Verif.Afero.Model
import Verif.Vroot.WrapProps
/-
Facts about the tree of the afero filesystem: what is at a place, and what a change does to it.
-/
namespace Verif.Afero
open Verif.Path

/-! ### Specification -/

/-- What is at a place of the tree. -/
def Node.at : Node → List Str → Option Node
  | n, [] => some n
  | .file _ _, _ :: _ => none
  | .dir _ es, c :: p => match es.find c with
    | none => none
    | some k => k.at p

/-- What can be seen of an entry. -/
inductive Info where
  | dir (mode : Nat)
  | file (mode view : Nat)
  deriving DecidableEq

def Node.info : Node → Info
  | .dir m _ => .dir m
  | .file m v => .file m v

/-- What the tree shows at a place. -/
def Node.shows (n : Node) (p : List Str) : Option Info := (n.at p).map Node.info

/-- The owner's permission bits: 8 read, 7 write, 6 search. -/
def mayRead (mode : Nat) : Bool := mode.testBit 8
def mayWrite (mode : Nat) : Bool := mode.testBit 7
def maySearch (mode : Nat) : Bool := mode.testBit 6

/-- Walking down a path: whatever is passed must be a directory that may be searched and has the next name. -/
def walk : Node → List Str → Except Err Node
  | n, [] => .ok n
  | .file _ _, _ :: _ => .error .notDir
  | .dir m es, c :: p =>
    if !maySearch m then .error .acces
    else match es.find c with
      | none => .error .noent
      | some k => walk k p

/-- The place a valid name means. -/
def place (name : Str) : List Str := if name = dot then [] else split name

/-! ### permissions -/

theorem hasPerm_iff (mode u : Nat) (hu : u < 8) : hasPerm mode u = true ↔ ∀ i, i < 3 → u.testBit i = true → mode.testBit (i + 6) = true := by
  unfold hasPerm
  rw [beq_iff_eq]
  constructor
  · intro h i hi hb
    have := congrArg (Nat.testBit · i) h
    simp only [Nat.testBit_and, Nat.testBit_shiftRight] at this
    rw [hb, Bool.and_true, Bool.and_eq_true] at this
    rw [Nat.add_comm]; exact this.1
  · intro h
    apply Nat.eq_of_testBit_eq
    intro i
    simp only [Nat.testBit_and, Nat.testBit_shiftRight]
    cases hb : u.testBit i with
    | false => simp
    | true =>
      have hi : i < 3 := by
        rcases Nat.lt_or_ge i 3 with h | h
        · exact h
        · have : u < 2 ^ i := Nat.lt_of_lt_of_le hu (Nat.pow_le_pow_right (by omega : 2 > 0) h)
          rw [Nat.testBit_lt_two_pow this] at hb
          cases hb
      rw [Nat.add_comm 6 i, h i hi hb]
      have : Nat.testBit 511 (i + 6) = true := by
        have : i = 0 ∨ i = 1 ∨ i = 2 := by omega
        rcases this with rfl | rfl | rfl <;> decide
      rw [this]; rfl

theorem hasPerm_search (m : Nat) : hasPerm m 1 = maySearch m := by
  rw [Bool.eq_iff_iff, hasPerm_iff _ _ (by omega)]
  constructor
  · intro h; exact h 0 (by omega) (by decide)
  · intro h i hi hb
    have : i = 0 ∨ i = 1 ∨ i = 2 := by omega
    rcases this with rfl | rfl | rfl
    · exact h
    · exact absurd hb (by decide)
    · exact absurd hb (by decide)

theorem hasPerm_write (m : Nat) : hasPerm m 2 = mayWrite m := by
  rw [Bool.eq_iff_iff, hasPerm_iff _ _ (by omega)]
  constructor
  · intro h; exact h 1 (by omega) (by decide)
  · intro h i hi hb
    have : i = 0 ∨ i = 1 ∨ i = 2 := by omega
    rcases this with rfl | rfl | rfl
    · exact absurd hb (by decide)
    · exact h
    · exact absurd hb (by decide)

theorem hasPerm_change (m : Nat) : hasPerm m 3 = (mayWrite m && maySearch m) := by
  rw [Bool.eq_iff_iff, hasPerm_iff _ _ (by omega), Bool.and_eq_true]
  constructor
  · intro h; exact ⟨h 1 (by omega) (by decide), h 0 (by omega) (by decide)⟩
  · intro h i hi hb
    have : i = 0 ∨ i = 1 ∨ i = 2 := by omega
    rcases this with rfl | rfl | rfl
    · exact h.2
    · exact h.1
    · exact absurd hb (by decide)

theorem hasPerm_read (m : Nat) : hasPerm m 4 = mayRead m := by
  rw [Bool.eq_iff_iff, hasPerm_iff _ _ (by omega)]
  constructor
  · intro h; exact h 2 (by omega) (by decide)
  · intro h i hi hb
    have : i = 0 ∨ i = 1 ∨ i = 2 := by omega
    rcases this with rfl | rfl | rfl
    · exact absurd hb (by decide)
    · exact absurd hb (by decide)
    · exact h

theorem hasPerm_readWrite (m : Nat) : hasPerm m 6 = (mayRead m && mayWrite m) := by
  rw [Bool.eq_iff_iff, hasPerm_iff _ _ (by omega), Bool.and_eq_true]
  constructor
  · intro h; exact ⟨h 2 (by omega) (by decide), h 1 (by omega) (by decide)⟩
  · intro h i hi hb
    have : i = 0 ∨ i = 1 ∨ i = 2 := by omega
    rcases this with rfl | rfl | rfl
    · exact absurd hb (by decide)
    · exact h.2
    · exact h.1

/-! ### entries -/

theorem Ents.find_remove : ∀ (es : Ents) (c x : Str), (es.remove c).find x = if x = c then none else es.find x
  | .nil, c, x => by simp [Ents.remove, Ents.find]
  | .cons a n rest, c, x => by
    simp only [Ents.remove]
    split
    · rename_i h
      subst h
      rw [Ents.find_remove rest]
      by_cases hx : x = a
      · simp [hx]
      · simp [hx, Ents.find, Ne.symm hx]
    · rename_i h
      simp only [Ents.find, Ents.find_remove rest]
      by_cases hx : a = x
      · subst hx; simp [h]
      · simp [hx]

theorem Ents.find_push : ∀ (es : Ents) (c : Str) (k : Node) (x : Str), (es.push c k).find x = match es.find x with | some n => some n | none => if c = x then some k else none
  | .nil, c, k, x => by simp [Ents.push, Ents.find]
  | .cons a n rest, c, k, x => by
    simp only [Ents.push, Ents.find]
    by_cases hx : a = x
    · simp [hx]
    · simp only [if_neg hx]; exact Ents.find_push rest c k x

theorem Ents.find_add (es : Ents) (c : Str) (k : Node) (x : Str) : (es.add c k).find x = if x = c then some k else es.find x := by
  unfold Ents.add
  rw [Ents.find_push, Ents.find_remove]
  by_cases hx : x = c
  · subst hx; simp
  · simp only [if_neg hx, if_neg (Ne.symm hx)]
    cases es.find x <;> rfl

theorem Ents.find_update : ∀ (es : Ents) (c : Str) (f : Node → Node) (x : Str), (es.update c f).find x = if x = c then (es.find x).map f else es.find x
  | .nil, c, f, x => by simp [Ents.update, Ents.find]
  | .cons a n rest, c, f, x => by
    simp only [Ents.update]
    split
    · rename_i h
      subst h
      simp only [Ents.find, Ents.find_update rest]
      by_cases hx : a = x
      · subst hx; simp
      · simp [hx, Ne.symm hx]
    · rename_i h
      simp only [Ents.find, Ents.find_update rest]
      by_cases hx : a = x
      · subst hx; simp [h]
      · simp [hx]

theorem Ents.mem_names : ∀ (es : Ents) (c : Str), c ∈ es.names ↔ es.find c ≠ none
  | .nil, c => by simp [Ents.names, Ents.find]
  | .cons a n rest, c => by
    simp only [Ents.names, Ents.find, List.mem_cons, Ents.mem_names rest]
    by_cases h : a = c
    · simp [h]
    · simp [h, Ne.symm h]

/-! ### places -/

theorem Node.at_append : ∀ (p q : List Str) (n : Node), n.at (p ++ q) = (n.at p).bind (·.at q)
  | [], q, n => by simp [Node.at]
  | c :: p, q, .file _ _ => by simp [Node.at]
  | c :: p, q, .dir m es => by
    simp only [List.cons_append, Node.at]
    cases es.find c with
    | none => rfl
    | some k => exact Node.at_append p q k

theorem Node.at_one (n : Node) (c : Str) : n.at [c] = n.lookup c := by
  cases n with
  | file _ _ => rfl
  | dir m es =>
    simp only [Node.at, Node.lookup]
    cases es.find c <;> rfl

theorem Node.at_snoc (n : Node) (p : List Str) (c : Str) : n.at (p ++ [c]) = (n.at p).bind (·.lookup c) := by
  rw [Node.at_append]
  cases n.at p with
  | none => rfl
  | some k => exact Node.at_one k c

/-- At and below the changed place. -/
theorem Node.modify_below : ∀ (p : List Str) (f : Node → Node) (n : Node) (q : List Str), (n.modify p f).at (p ++ q) = (n.at p).bind (fun k => (f k).at q)
  | [], f, n, q => by simp [Node.modify, Node.at]
  | c :: p, f, .file _ _, q => by simp [Node.modify, Node.at]
  | c :: p, f, .dir m es, q => by
    simp only [Node.modify, List.cons_append, Node.at, Ents.find_update]
    cases h : es.find c with
    | none => simp
    | some k => simp only [if_true, Option.map_some]; exact Node.modify_below p f k q

/-- Elsewhere. -/
theorem Node.modify_other : ∀ (p : List Str) (f : Node → Node) (n : Node) (q : List Str), ¬ p <+: q → (n.modify p f).shows q = n.shows q
  | [], f, n, q, h => absurd (List.nil_prefix) h
  | c :: p, f, .file _ _, q, h => rfl
  | c :: p, f, .dir m es, [], h => rfl
  | c :: p, f, .dir m es, x :: q, h => by
    simp only [Node.modify, Node.shows, Node.at, Ents.find_update]
    by_cases hx : x = c
    · subst hx
      simp only [if_true]
      cases hf : es.find x with
      | none => rfl
      | some k =>
        simp only [Option.map_some]
        refine Node.modify_other p f k q ?_
        intro h'
        exact h (List.cons_prefix_cons.2 ⟨rfl, h'⟩)
    · simp only [if_neg hx]

theorem shows_eq {n : Node} {p : List Str} : n.shows p = (n.at p).map Node.info := rfl

/-- A change at a place of which nothing but its entries is changed. -/
theorem Node.modify_shows {p : List Str} {f : Node → Node} {n k : Node} (hk : n.at p = some k) (q : List Str) :
    (n.modify p f).shows (p ++ q) = (f k).shows q := by
  rw [shows_eq, Node.modify_below, hk]
  rfl

theorem Node.shows_append {n k : Node} {p : List Str} (hk : n.at p = some k) (q : List Str) : n.shows (p ++ q) = k.shows q := by
  rw [shows_eq, Node.at_append, hk]
  rfl

/-! ### names -/

theorem place_names {e : Env} {name : Str} (h : validate e name = none) : ∀ c ∈ place name, IsName c := by
  unfold validate at h
  split at h
  · cases h
  · rename_i hv
    have hv : Vroot.validPath e.utf8 name = true := by simpa using hv
    unfold Vroot.validPath at hv
    rw [Bool.and_eq_true, Bool.or_eq_true, decide_eq_true_eq, Vroot.validLoop_eq name [] (by simp), List.nil_append, List.all_eq_true] at hv
    unfold place
    split
    · simp
    · rename_i hd
      intro c hc
      have hv := (hv.2.resolve_left hd) c hc
      simp only [decide_eq_true_eq] at hv
      exact ⟨⟨hv.1, split_no_slash name c hc⟩, hv.2⟩

theorem render_place {e : Env} {name : Str} (h : validate e name = none) : name = render false (place name) := by
  by_cases hd : name = dot
  · subst hd; decide
  · have : place name = split name := if_neg hd
    rw [this]
    unfold render
    simp only [Bool.false_eq_true, if_false, if_neg (split_ne_nil name), join_split]

theorem place_snoc {e : Env} {name : Str} (h : validate e name = none) (hd : name ≠ dot) : place name = (split name).dropLast ++ [base name] := by
  have hp : place name = split name := if_neg hd
  rcases List.eq_nil_or_concat (split name) with hs | ⟨D, x, hs⟩
  · exact absurd hs (split_ne_nil name)
  · rw [List.concat_eq_append] at hs
    have hx : IsName x := place_names h x (by rw [hp, hs]; simp)
    have hb : base name = x := by
      have := render_place h
      rw [hp, hs] at this
      rw [this, base_render hx.1]
    rw [hp, hs, hb]
    simp

theorem base_dot {e : Env} {name : Str} (h : validate e name = none) : base name = dot ↔ name = dot := by
  constructor
  · intro hb
    by_cases hd : name = dot
    · exact hd
    · have := place_names h (base name) (by rw [place_snoc h hd]; simp)
      exact absurd hb this.2.1
  · rintro rfl; decide

/-! ### finding -/

theorem searchable_some (n : Node) : searchable (some n) = match n with
    | .file _ _ => .error .notDir
    | .dir m es => if maySearch m then .ok (.dir m es) else .error .acces := by
  cases n with
  | file _ _ => rfl
  | dir m es => simp only [searchable, hasPerm_search]

theorem searchable_ok {o : Option Node} {k : Node} (h : searchable o = .ok k) : o = some k ∧ ∃ m es, k = .dir m es ∧ maySearch m = true := by
  rcases o with _ | ⟨_ | ⟨m, es⟩⟩
  · cases h
  · cases h
  · rw [searchable_some] at h
    simp only at h
    split at h
    · rename_i hm
      cases h
      exact ⟨rfl, m, es, rfl, hm⟩
    · cases h

/-- The loop of `findParent` gives the directory whose entry the path names. -/
theorem descend_walk : ∀ (D : List Str) (x : Str) (m : Nat) (es : Ents), maySearch m = true →
    (∀ n, descend (.dir m es) (D ++ [x]) = .ok n → n = .dir m es ∧ D = [] ∨ (Node.dir m es).at D = some n ∧ ∃ m' es', n = .dir m' es' ∧ maySearch m' = true) ∧
    walk (.dir m es) (D ++ [x]) = match descend (.dir m es) (D ++ [x]) with
      | .error er => .error er
      | .ok n => match n.lookup x with
        | none => .error .noent
        | some k => .ok k
  | [], x, m, es, hm => by
    refine ⟨fun n h => ?_, ?_⟩
    · simp only [List.nil_append, descend] at h
      cases h
      exact Or.inl ⟨rfl, rfl⟩
    · simp only [List.nil_append, descend, walk, hm, Bool.not_true, Bool.false_eq_true, if_false, Node.lookup]
  | c :: D, x, m, es, hm => by
    have hdesc : descend (.dir m es) (c :: D ++ [x]) = match searchable (es.find c) with
        | .error er => .error er
        | .ok k => descend k (D ++ [x]) := by
      cases D with
      | nil => rfl
      | cons d D => rfl
    rw [hdesc]
    simp only [List.cons_append, walk, hm, Bool.not_true, Bool.false_eq_true, if_false]
    rcases hf : es.find c with _ | ⟨m', v⟩ | ⟨m', es'⟩
    · refine ⟨fun n h => (by cases h), rfl⟩
    · refine ⟨fun n h => (by cases h), ?_⟩
      simp only [searchable]
      cases D <;> rfl
    · rw [searchable_some]
      simp only
      by_cases hm' : maySearch m' = true
      · rw [if_pos hm']
        simp only
        obtain ⟨h1, h2⟩ := descend_walk D x m' es' hm'
        refine ⟨fun n h => Or.inr ?_, h2⟩
        rcases h1 n h with ⟨rfl, rfl⟩ | ⟨h3, h4⟩
        · exact ⟨by simp [Node.at, hf], m', es', rfl, hm'⟩
        · exact ⟨by simp only [Node.at, hf]; exact h3, h4⟩
      · rw [if_neg hm']
        refine ⟨fun n h => (by cases h), ?_⟩
        have hm' : maySearch m' = false := by simpa using hm'
        cases D <;> simp [walk, hm']

/-- What `findParent` gives: the directory that has, or would have, the entry. -/
theorem findParent_ok {e : Env} {root : Node} {name : Str} {loc : List Str} {n : Node} (h : findParent e root name = .ok (loc, n)) :
    validate e name = none ∧ (name = dot ∧ loc = [] ∧ n = root ∨
      name ≠ dot ∧ place name = loc ++ [base name] ∧ IsName (base name) ∧ root.at loc = some n ∧ ∃ m es, n = .dir m es ∧ maySearch m = true) := by
  unfold findParent at h
  split at h
  · cases h
  · rename_i hv
    refine ⟨hv, ?_⟩
    split at h
    · rename_i hd
      cases h
      exact Or.inl ⟨hd, rfl, rfl⟩
    · rename_i hd
      right
      have hp := place_snoc hv hd
      have hsp : split name = (split name).dropLast ++ [base name] := by
        have : place name = split name := if_neg hd
        rw [← hp, this]
      refine ⟨hd, ?_⟩
      cases hs : searchable (some root) with
      | error er => rw [hs] at h; cases h
      | ok r =>
        rw [hs] at h
        simp only at h
        obtain ⟨hr, m, es, rfl, hm⟩ := searchable_ok hs
        cases hr
        cases hde : descend (.dir m es) (split name) with
        | error er => rw [hde] at h; cases h
        | ok k =>
          rw [hde] at h
          cases h
          refine ⟨hp, place_names hv _ (by rw [hp]; simp), ?_⟩
          rw [hsp] at hde
          rcases (descend_walk _ _ m es hm).1 _ hde with ⟨rfl, h2⟩ | ⟨h2, h3⟩
          · rw [h2]
            exact ⟨rfl, m, es, rfl, hm⟩
          · exact ⟨h2, h3⟩

/-- `findParent` fails as walking does. -/
theorem findParent_walk {e : Env} {root : Node} {name : Str} (hv : validate e name = none) (hd : name ≠ dot) :
    walk root (place name) = match findParent e root name with
      | .error er => .error er
      | .ok (_, n) => match n.lookup (base name) with
        | none => .error .noent
        | some k => .ok k := by
  have hp := place_snoc hv hd
  have hsp : split name = (split name).dropLast ++ [base name] := by
    have : place name = split name := if_neg hd
    rw [← hp, this]
  unfold findParent
  rw [hv, hp]
  simp only [if_neg hd]
  rw [searchable_some]
  cases root with
  | file m v =>
    simp only
    cases (split name).dropLast <;> rfl
  | dir m es =>
    simp only
    by_cases hm : maySearch m = true
    · rw [if_pos hm]
      simp only
      rw [(descend_walk _ _ m es hm).2, ← hsp]
      cases descend (.dir m es) (split name) <;> rfl
    · rw [if_neg hm]
      have hm : maySearch m = false := by simpa using hm
      cases (split name).dropLast <;> simp [walk, hm]

/-- `find` is walking. -/
theorem find_walk (e : Env) (root : Node) (name : Str) (hv : validate e name = none) :
    find e root name = match walk root (place name) with
      | .error er => .error er
      | .ok n => .ok (place name, n) := by
  by_cases hd : name = dot
  · subst hd
    unfold find findParent
    rw [hv]
    simp only [if_true]
    rw [if_pos (show base dot = dot by decide)]
    rfl
  · have hw := findParent_walk (root := root) hv hd
    rw [hw]
    unfold find
    cases hf : findParent e root name with
    | error er => rfl
    | ok r =>
      obtain ⟨loc, n⟩ := r
      simp only
      rw [if_neg (fun hb => hd ((base_dot hv).1 hb))]
      have := (findParent_ok hf).2
      rcases this with ⟨h, _⟩ | ⟨_, hp, _⟩
      · exact absurd h hd
      · rw [hp]
        cases n.lookup (base name) <;> rfl

theorem find_invalid {e : Env} {root : Node} {name : Str} {er : Err} (h : validate e name = some er) : find e root name = .error er := by
  unfold find findParent
  rw [h]

theorem walk_at : ∀ (p : List Str) (n k : Node), walk n p = .ok k → n.at p = some k
  | [], n, k, h => by cases h; rfl
  | c :: p, .file _ _, k, h => by cases h
  | c :: p, .dir m es, k, h => by
    simp only [walk] at h
    split at h
    · cases h
    · simp only [Node.at]
      cases hf : es.find c with
      | none => rw [hf] at h; cases h
      | some k' => rw [hf] at h; exact walk_at p k' k h

theorem find_ok {e : Env} {root : Node} {name : Str} {loc : List Str} {n : Node} (h : find e root name = .ok (loc, n)) :
    validate e name = none ∧ loc = place name ∧ walk root (place name) = .ok n ∧ root.at loc = some n := by
  cases hv : validate e name with
  | some er => rw [find_invalid hv] at h; cases h
  | none =>
    rw [find_walk e root name hv] at h
    cases hw : walk root (place name) with
    | error er => rw [hw] at h; cases h
    | ok k =>
      rw [hw] at h
      cases h
      exact ⟨rfl, rfl, rfl, walk_at _ _ _ hw⟩

end Verif.Afero
