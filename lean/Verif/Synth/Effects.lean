import Verif.Synth.Overwrite
import Verif.Synth.TreeConf
/-
What each operation of the synthetic filesystem does to the tree (C77).
-/
namespace Verif.Synth.Tree
open Verif.Path

/-! ## Model -/

/-- How an open ends besides the errors of the tree: `EBADF` (a directory opened to write, open.go 58-60). -/
inductive OpenErr where
  | tree (e : Err)
  | badf
deriving DecidableEq

/-- open.go 20-83 `OpenFile`: the tree afterwards and the node the handle is for.  `creat`, `excl`: O_CREATE, O_EXCL; `write`: `openflag.WriteOp` of the flags; `mode` is the
permission without the umask.  Simplified: the allocator and the opening and truncating of a view succeed. -/
def openFile (s : St) (b : Id) (name : Str) (creat excl write : Bool) (mode : Nat) : St × Except OpenErr Id :=
  let existing : St × Except OpenErr Id := match resolve s b b name true with
    | .error e => (s, .error (.tree e))
    | .ok r => match s.nodes[r.node]? with
      | some (.dir _) => if write then (s, .error .badf) else (s, .ok r.node)
      | some (.file ..) => (s, .ok r.node)
      | _ => (s, .error .badf)
  if creat then match resolveParent s b b name with
    | .error e => (s, .error (.tree e))
    | .ok (parent, base) => match s.lookup parent base with
      | some _ => if excl then (s, .error (.tree .exist)) else existing
      | none => ((create s b name mode).1, .ok s.nodes.length)
  else existing

/-! ## Specification -/

/-- The last element of the name is looked up in the directory `d` and is `k`: the elements before it lead to `d`, with at most 40 links and never above the root. -/
def Place (s : St) (b : Id) (name : Str) (d : Id) (k : Str) : Prop :=
  ∃ ns n, placeOf name = some (ns ++ [k]) ∧ n ≤ 40 ∧ Finds s b true b ns n d ∧ s.isDir d

/-- The name leads to `m`, links followed. -/
def LeadsTo (s : St) (b : Id) (name : Str) (m : Id) : Prop := ∃ ns n, placeOf name = some ns ∧ n ≤ 40 ∧ Finds s b true b ns n m

/-- Nothing differs but the entry `k` of the directory `d`: every other entry leads where it led, and every other directory lists what it listed. -/
structure SameElse (s s' : St) (d : Id) (k : Str) : Prop where
  entries : ∀ e j, ¬ (e = d ∧ j = k) → s'.lookup e j = s.lookup e j
  lists : ∀ e, e ≠ d → s'.entries e = s.entries e

/-- One new entry, last in its directory, holding the new node `n`; every other node is what it was. -/
structure Adds (s s' : St) (d : Id) (k : Str) (n : Node) : Prop where
  rest : SameElse s s' d k
  new : ∃ c, s.nodes[c]? = none ∧ s'.lookup d k = some c ∧ s'.nodes[c]? = some n ∧ s'.entries d = s.entries d ++ [c] ∧ ∀ i, i ≠ c → s'.look i = s.look i
  closed : s'.closed = s.closed

/-- The entry is gone; its node was `t`; every node is what it was. -/
structure Removes (s s' : St) (d : Id) (k : Str) (t : Id) : Prop where
  rest : SameElse s s' d k
  gone : s'.lookup d k = none ∧ s'.entries d = (s.entries d).filter (· ≠ t)
  nodes : ∀ i, s'.look i = s.look i

/-- A call that makes an entry: without a directory for it it fails; an existing entry makes it fail with "exists"; otherwise it succeeds. What fails changes nothing. -/
structure Creates (s : St) (b : Id) (name : Str) (n : Id → Str → Node) (r : St × Option Err) : Prop where
  noPlace : (¬ ∃ d k, Place s b name d k) → r.1 = s ∧ r.2 ≠ none
  taken : ∀ d k c, Place s b name d k → s.lookup d k = some c → r = (s, some .exist)
  made : ∀ d k, Place s b name d k → s.lookup d k = none → r.2 = none ∧ Adds s r.1 d k (n d k)

/-! ## Proofs -/

theorem resolveParent_iff {s : St} (hg : Good s) {b : Id} (hb : s.isDir b) (name : Str) (d : Id) (k : Str) :
    resolveParent s b b name = .ok (d, k) ↔ Place s b name d k := by
  unfold resolveParent Place
  rcases normalize_spec name with ⟨e', he', hno⟩ | ⟨ns, hpl, hok, hdot, _⟩
  · rw [he', hno]; simp
  · rw [hok]
    simp only
    by_cases hns : ns = []
    · rw [if_pos (hdot.2 hns), hpl, hns]
      simp
    · rw [if_neg (fun h => hns (hdot.1 h))]
      obtain ⟨habs, hcs, hname⟩ := placeOf_some hpl
      have hclean : clean name = join ns := by
        unfold clean
        rw [habs, hcs]
        unfold render; simp [hns]
      rcases List.eq_nil_or_concat ns with he | ⟨init, x, he⟩
      · exact absurd he hns
      rw [List.concat_eq_append] at he
      subst he
      rw [hclean, splitLast_join hname, hpl]
      have hpre : placeOf (if init = [] then dot else join init) = some init := by
        by_cases hi : init = []
        · subst hi; rw [if_pos rfl]; decide
        · rw [if_neg hi, placeOf_join (fun c hc => hname c (List.mem_append_left _ hc)) hi]
      have hspec := fun m => resolve_spec hg hb (if init = [] then dot else join init) true m
      constructor
      · intro h
        split at h
        · cases h
        · rename_i r hr
          split at h
          · cases h
          · rename_i dr hdr
            simp only [Except.ok.injEq, Prod.mk.injEq] at h
            obtain ⟨rfl, rfl⟩ := h
            obtain ⟨ns', hp', n, hn, hf⟩ := (hspec r.node).1 ⟨r, hr, rfl⟩
            rw [hpre] at hp'
            cases hp'
            exact ⟨init, n, rfl, hn, hf, ⟨dr, hdr⟩⟩
      · rintro ⟨ns', n, e, hn, hf, ⟨dr, hdr⟩⟩
        obtain ⟨e1, e2⟩ := List.append_inj' (Option.some.inj e) rfl
        cases e2
        subst e1
        obtain ⟨r, hr, hrn⟩ := (hspec d).2 ⟨init, hpre, n, hn, hf⟩
        rw [hr]
        simp only
        rw [hrn, hdr]

theorem resolveParent_error {s : St} (hg : Good s) {b : Id} (hb : s.isDir b) {name : Str} {e : Err} (h : resolveParent s b b name = .error e) : ¬ ∃ d k, Place s b name d k := by
  rintro ⟨d, k, hp⟩
  rw [(resolveParent_iff hg hb name d k).2 hp] at h
  cases h

theorem Place.unique {s : St} (hg : Good s) {b : Id} (hb : s.isDir b) {name : Str} {d d' : Id} {k k' : Str} (h : Place s b name d k) (h' : Place s b name d' k') : d = d' ∧ k = k' := by
  have h1 := (resolveParent_iff hg hb name d k).2 h
  rw [(resolveParent_iff hg hb name d' k').2 h'] at h1
  cases h1
  exact ⟨rfl, rfl⟩

theorem Place.isName {s : St} {b : Id} {name : Str} {d : Id} {k : Str} (h : Place s b name d k) : IsName k := by
  obtain ⟨ns, n, hp, _⟩ := h
  exact (placeOf_some hp).2.2 k (by simp)

/-! ### Lists -/

theorem entries_setDir {s : St} {d e : Id} {r : DirRec} (h : d < s.nodes.length) : (s.setDir d r).entries e = if e = d then r.ordered.map (·.2) else s.entries e := by
  unfold St.entries
  rw [dir?_setDir h]
  by_cases he : d = e
  · subst he; simp
  · rw [if_neg he, if_neg (Ne.symm he)]

theorem entries_removeEntry_ne (s : St) (d : Id) (k : Str) {e : Id} (he : e ≠ d) : (s.removeEntry d k).entries e = s.entries e := by
  unfold St.removeEntry
  split
  · rfl
  · rename_i r hr
    split
    · rfl
    · rw [entries_setDir (lt_of_dir hr), if_neg he]

theorem removeEntry_missing {s : St} {d : Id} {k : Str} (h : s.lookup d k = none) : s.removeEntry d k = s := by
  unfold St.removeEntry
  split
  · rfl
  · rename_i r hr
    rw [lookup_of_dir hr] at h
    split
    · rfl
    · rename_i e he; rw [he] at h; cases h

theorem entries_removeEntry {s : St} (hg : Good s) {d : Id} {k : Str} {t : Id} (h : s.lookup d k = some t) : (s.removeEntry d k).entries d = (s.entries d).filter (· ≠ t) := by
  obtain ⟨r, hr⟩ := lookup_isDir h
  have hnd := nodup_entries hg d
  have ok := hg.dirs d r hr
  rw [lookup_of_dir hr] at h
  unfold St.removeEntry
  rw [hr]
  simp only
  cases ha : assoc k r.index with
  | none => rw [ha] at h; cases h
  | some e =>
    rw [ha] at h
    cases h
    simp only
    rw [entries_setDir (lt_of_dir hr), if_pos rfl]
    rw [entries_of_dir hr] at hnd ⊢
    have hmem : e ∈ r.ordered := ok.perm.mem_iff.1 (List.mem_map.2 ⟨(k, e), assoc_mem ha, rfl⟩)
    have hel := ok.elems
    have key : ∀ (l : List (Nat × Id)), e ∈ l → (l.map (·.1)).Nodup → (l.map (·.2)).Nodup →
        (l.filter (fun x => x.1 ≠ e.1)).map (·.2) = (l.map (·.2)).filter (· ≠ e.2) := by
      intro l he h1 h2
      rw [List.filter_map]
      congr 1
      apply List.filter_congr
      intro x hx
      simp only [Function.comp]
      rw [decide_eq_decide]
      have inj1 : ∀ {f : (Nat × Id) → Nat} {l : List (Nat × Id)}, (l.map f).Nodup → ∀ a ∈ l, ∀ b ∈ l, f a = f b → a = b := by
        intro f l
        induction l with
        | nil => intro _ a ha; cases ha
        | cons y l ih =>
          intro hn a ha b hb hab
          simp only [List.map_cons, List.nodup_cons] at hn
          rcases List.mem_cons.1 ha with rfl | ha' <;> rcases List.mem_cons.1 hb with rfl | hb'
          · rfl
          · exact absurd (List.mem_map.2 ⟨b, hb', hab.symm⟩) hn.1
          · exact absurd (List.mem_map.2 ⟨a, ha', hab⟩) hn.1
          · exact ih hn.2 a ha' b hb' hab
      constructor
      · intro hne h; exact hne (by rw [inj1 h2 x hx e he h])
      · intro hne h; exact hne (by rw [inj1 h1 x hx e he h])
    exact key r.ordered hmem hel hnd

theorem entries_put {s : St} {d : Id} (hd : s.isDir d) {k : Str} {n : Node} (hb : n.Blank) (hfree : s.lookup d k = none) (e : Id) :
    (s.put d k n).entries e = if e = d then s.entries d ++ [s.nodes.length] else s.entries e := by
  have halloc : ∀ e, (s.alloc n).1.entries e = s.entries e := by
    intro e
    unfold St.entries
    rw [dir?_alloc]
    by_cases he : e = s.nodes.length
    · subst he
      rw [if_pos rfl]
      have : s.dir? s.nodes.length = none := by
        cases h : s.dir? s.nodes.length with
        | none => rfl
        | some r => exact absurd (lt_of_dir h) (Nat.lt_irrefl _)
      rw [this]
      cases n with
      | dir r => simp only [Node.Blank] at hb; simp only; rw [hb.1]; rfl
      | file => rfl
      | link => rfl
    · rw [if_neg he]
  have hfree1 : (s.alloc n).1.lookup d k = none := by rw [lookup_alloc hb]; exact hfree
  obtain ⟨r, hr⟩ := keeps_alloc s n d hd
  have hea := halloc d
  unfold St.put St.addEntry
  rw [removeEntry_missing hfree1]
  unfold St.pushBack
  rw [hr]
  simp only
  show ((s.alloc n).1.setDir d _).entries e = _
  rw [entries_setDir (lt_of_dir hr)]
  by_cases he : e = d
  · rw [if_pos he, if_pos he]
    rw [entries_of_dir hr] at hea
    rw [List.map_append, hea]; rfl
  · rw [if_neg he, if_neg he, halloc]

theorem entries_closeView (s : St) (i e : Id) : (s.closeView i).entries e = s.entries e := by
  unfold St.closeView; split <;> rfl

theorem getElem?_put {s : St} {d : Id} (hd : d < s.nodes.length) (k : Str) (n : Node) : (s.put d k n).nodes[s.nodes.length]? = some n := by
  unfold St.put
  rw [addEntry_nodes_ne]
  · simp [St.alloc]
  · exact Nat.ne_of_gt hd

theorem adds_put {s : St} {d : Id} (hd : s.isDir d) {k : Str} {n : Node} (hb : n.Blank) (hfree : s.lookup d k = none) : Adds s (s.put d k n) d k n := by
  obtain ⟨r, hr⟩ := hd
  refine ⟨⟨?_, ?_⟩, ⟨s.nodes.length, by simp, ?_, getElem?_put (lt_of_dir hr) k n, ?_, ?_⟩, closed_put s d k n⟩
  · intro e j hne; rw [lookup_put ⟨r, hr⟩ hb, if_neg hne]
  · intro e he; rw [entries_put ⟨r, hr⟩ hb hfree, if_neg he]
  · rw [lookup_put ⟨r, hr⟩ hb, if_pos ⟨rfl, rfl⟩]
  · rw [entries_put ⟨r, hr⟩ hb hfree, if_pos rfl]
  · intro i hi; rw [look_put, if_neg hi]

/-- Only the supply of views differs. -/
theorem adds_views {s s1 s' : St} (hn : s1.nodes = s.nodes) (hc : s1.closed = s.closed) {d : Id} {k : Str} {n : Node} (h : Adds s1 s' d k n) : Adds s s' d k n := by
  have hl : ∀ e j, s1.lookup e j = s.lookup e j := by intro e j; unfold St.lookup St.dir?; rw [hn]
  have he : ∀ e, s1.entries e = s.entries e := by intro e; unfold St.entries St.dir?; rw [hn]
  have hk : ∀ i, s1.look i = s.look i := by intro i; unfold St.look; rw [hn]
  obtain ⟨c, h1, h2, h3, h4, h5⟩ := h.new
  refine ⟨⟨fun e j hne => (h.rest.entries e j hne).trans (hl e j), fun e hne => (h.rest.lists e hne).trans (he e)⟩,
    ⟨c, by rw [← hn]; exact h1, h2, h3, by rw [h4, he], fun i hi => (h5 i hi).trans (hk i)⟩, by rw [h.closed, hc]⟩

theorem creates_mkdir {s : St} (hg : Good s) {b : Id} (hb : s.isDir b) (name : Str) (mode : Nat) :
    Creates s b name (fun d k => .dir ⟨k, some d, [], [], mode⟩) (mkdirOne s b name mode) := by
  cases hr : resolveParent s b b name with
  | error e =>
    have hno := resolveParent_error hg hb hr
    have : mkdirOne s b name mode = (s, some e) := by unfold mkdirOne; rw [hr]
    rw [this]
    exact ⟨fun _ => ⟨rfl, by simp⟩, fun d k _ hp => absurd ⟨d, k, hp⟩ hno, fun d k hp => absurd ⟨d, k, hp⟩ hno⟩
  | ok p =>
    obtain ⟨d, k⟩ := p
    have hpl := (resolveParent_iff hg hb name d k).1 hr
    have hnm := hpl.isName
    have hbad : ¬ (k = [] ∨ k = dot ∨ k = dotdot) := by
      rintro (h | h | h)
      · exact hnm.1.1 h
      · exact hnm.2.1 h
      · exact hnm.2.2 h
    unfold mkdirOne
    rw [hr]
    simp only
    rw [if_neg hbad]
    refine ⟨fun h => absurd ⟨d, k, hpl⟩ h, ?_, ?_⟩
    · intro d' k' c hp hc
      obtain ⟨rfl, rfl⟩ := hp.unique hg hb hpl
      rw [hc]
    · intro d' k' hp hc
      obtain ⟨rfl, rfl⟩ := hp.unique hg hb hpl
      rw [hc]
      exact ⟨rfl, adds_put (n := .dir (newDir k' mode (some d'))) (resolveParent_dir hr) (by simp [Node.Blank, newDir]) hc⟩

theorem creates_create {s : St} (hg : Good s) {b : Id} (hb : s.isDir b) (name : Str) (mode : Nat) :
    Creates s b name (fun _ k => .file k mode s.nextView) (create s b name mode) := by
  cases hr : resolveParent s b b name with
  | error e =>
    have hno := resolveParent_error hg hb hr
    have : create s b name mode = (s, some e) := by unfold create; rw [hr]
    rw [this]
    exact ⟨fun _ => ⟨rfl, by simp⟩, fun d k _ hp => absurd ⟨d, k, hp⟩ hno, fun d k hp => absurd ⟨d, k, hp⟩ hno⟩
  | ok p =>
    obtain ⟨d, k⟩ := p
    have hpl := (resolveParent_iff hg hb name d k).1 hr
    unfold create
    rw [hr]
    simp only
    refine ⟨fun h => absurd ⟨d, k, hpl⟩ h, ?_, ?_⟩
    · intro d' k' c hp hc
      obtain ⟨rfl, rfl⟩ := hp.unique hg hb hpl
      rw [hc]
    · intro d' k' hp hc
      obtain ⟨rfl, rfl⟩ := hp.unique hg hb hpl
      rw [hc]
      refine ⟨rfl, ?_⟩
      refine adds_views (s := s) (s1 := { s with nextView := s.nextView + 1 }) rfl rfl ?_
      exact adds_put (n := .file k' mode s.nextView) (s := { s with nextView := s.nextView + 1 }) (show s.isDir d' from resolveParent_dir hr) trivial hc

theorem creates_symlink {s : St} (hg : Good s) {b : Id} (hb : s.isDir b) (target name : Str) :
    Creates s b name (fun _ k => .link k target) (symlink s b target name) := by
  cases hr : resolveParent s b b name with
  | error e =>
    have hno := resolveParent_error hg hb hr
    have : symlink s b target name = (s, some e) := by unfold symlink; rw [hr]
    rw [this]
    exact ⟨fun _ => ⟨rfl, by simp⟩, fun d k _ hp => absurd ⟨d, k, hp⟩ hno, fun d k hp => absurd ⟨d, k, hp⟩ hno⟩
  | ok p =>
    obtain ⟨d, k⟩ := p
    have hpl := (resolveParent_iff hg hb name d k).1 hr
    unfold symlink
    rw [hr]
    simp only
    refine ⟨fun h => absurd ⟨d, k, hpl⟩ h, ?_, ?_⟩
    · intro d' k' c hp hc
      obtain ⟨rfl, rfl⟩ := hp.unique hg hb hpl
      rw [hc]
    · intro d' k' hp hc
      obtain ⟨rfl, rfl⟩ := hp.unique hg hb hpl
      rw [hc]
      exact ⟨rfl, adds_put (n := .link k' target) (resolveParent_dir hr) trivial hc⟩

theorem resolve_iff {s : St} (hg : Good s) {b : Id} (hb : s.isDir b) (name : Str) (m : Id) :
    (∃ r, resolve s b b name true = .ok r ∧ r.node = m) ↔ LeadsTo s b name m := by
  rw [resolve_spec hg hb]
  constructor
  · rintro ⟨ns, h1, n, h2, h3⟩; exact ⟨ns, n, h1, h2, h3⟩
  · rintro ⟨ns, n, h1, h2, h3⟩; exact ⟨ns, h1, n, h2, h3⟩

theorem creates_link {s : St} (hg : Good s) {b : Id} (hb : s.isDir b) (old new : Str) :
    ((¬ ∃ m nm mode view, LeadsTo s b old m ∧ s.nodes[m]? = some (.file nm mode view)) → (link s b old new).1 = s ∧ (link s b old new).2 ≠ none) ∧
    (∀ m nm mode view, LeadsTo s b old m → s.nodes[m]? = some (.file nm mode view) → Creates s b new (fun _ k => .file k mode view) (link s b old new)) := by
  constructor
  · intro h
    unfold link
    split
    · simp
    · rename_i r hr
      split
      · rename_i nm mode view hf
        exact absurd ⟨r.node, nm, mode, view, (resolve_iff hg hb old r.node).1 ⟨r, hr, rfl⟩, hf⟩ h
      · simp
  · intro m nm mode view hl hf
    obtain ⟨r0, hr0, hm⟩ := (resolve_iff hg hb old m).2 hl
    cases hr : resolveParent s b b new with
    | error e =>
      have hno := resolveParent_error hg hb hr
      have : link s b old new = (s, some e) := by unfold link; rw [hr0]; simp only; rw [hm, hf]; simp only; rw [hr]
      rw [this]
      exact ⟨fun _ => ⟨rfl, by simp⟩, fun d k _ hp => absurd ⟨d, k, hp⟩ hno, fun d k hp => absurd ⟨d, k, hp⟩ hno⟩
    | ok p =>
      obtain ⟨d, k⟩ := p
      have hpl := (resolveParent_iff hg hb new d k).1 hr
      unfold link
      rw [hr0]
      simp only
      rw [hm, hf]
      simp only
      rw [hr]
      simp only
      refine ⟨fun h => absurd ⟨d, k, hpl⟩ h, ?_, ?_⟩
      · intro d' k' c hp hc
        obtain ⟨rfl, rfl⟩ := hp.unique hg hb hpl
        rw [hc]
      · intro d' k' hp hc
        obtain ⟨rfl, rfl⟩ := hp.unique hg hb hpl
        rw [hc]
        exact ⟨rfl, adds_put (n := .file k' mode view) (resolveParent_dir hr) trivial hc⟩

/-! ### Removing -/

theorem closed_removeEntry' (s : St) (d : Id) (k : Str) : (s.removeEntry d k).closed = s.closed := by
  unfold St.removeEntry; split
  · rfl
  · split <;> rfl

theorem removes_entry {s : St} (hg : Good s) {d : Id} {k : Str} {t : Id} (h : s.lookup d k = some t) : Removes s (s.removeEntry d k) d k t :=
  ⟨⟨fun e j hne => by rw [lookup_removeEntry, if_neg hne], fun e he => entries_removeEntry_ne s d k he⟩,
    ⟨by rw [lookup_removeEntry, if_pos ⟨rfl, rfl⟩], entries_removeEntry hg h⟩, look_removeEntry s d k⟩

/-- The views of the node, when it is a file. -/
def St.viewsOf (s : St) (t : Id) : List Nat := match s.nodes[t]? with
  | some (.file _ _ v) => [v]
  | _ => []

theorem closed_closeView (s : St) (t : Id) : (s.closeView t).closed = s.closed ++ s.viewsOf t := by
  unfold St.closeView St.viewsOf; split <;> simp_all

theorem viewsOf_look {s s' : St} (h : ∀ i, s'.look i = s.look i) (t : Id) : s'.viewsOf t = s.viewsOf t := by
  have := h t
  unfold St.look at this
  unfold St.viewsOf
  cases h1 : s'.nodes[t]? with
  | none => rw [h1] at this; cases h2 : s.nodes[t]? with
    | none => rfl
    | some n => rw [h2] at this; cases this
  | some n => cases h2 : s.nodes[t]? with
    | none => rw [h1, h2] at this; cases this
    | some n' =>
      rw [h1, h2] at this
      have := Option.some.inj this
      cases n <;> cases n' <;> simp_all [skel]

/-- Everything at or below it is emptied, and the views of its files closed. -/
def Swept (s0 s : St) (e : Id) : Prop := (∀ k, s.lookup e k = none) ∧ ∀ v ∈ s0.viewsOf e, v ∈ s.closed

structure Sweep (s0 s : St) : Prop where
  shr : Shr s0 s
  done : ∀ e k, s.lookup e k ≠ s0.lookup e k → ∀ f, Under s0 e f → Swept s0 s f
  closed : ∃ vs, s.closed = s0.closed ++ vs

theorem Swept.mono {s0 s s' : St} (hs : Shr s s') (hc : ∃ vs, s'.closed = s.closed ++ vs) {e : Id} (h : Swept s0 s e) : Swept s0 s' e := by
  refine ⟨fun k => ?_, fun v hv => ?_⟩
  · cases hk : s'.lookup e k with
    | none => rfl
    | some c => rw [← h.1 k]; exact (hs.sub _ _ _ hk).symm ▸ rfl
  · obtain ⟨vs, hvs⟩ := hc
    rw [hvs]; exact List.mem_append_left _ (h.2 v hv)

theorem closed_eachChild {rec : Id → St → Option St} (hrec : ∀ c s s', rec c s = some s' → ∃ vs, s'.closed = s.closed ++ vs) :
    ∀ (cs : List Id) (s s' : St), eachChild rec cs s = some s' → ∃ vs, s'.closed = s.closed ++ vs := by
  intro cs
  induction cs with
  | nil => intro s s' h; cases h; exact ⟨[], by simp⟩
  | cons c cs ih =>
    intro s s' h
    simp only [eachChild] at h
    cases hr : rec c s with
    | none => rw [hr] at h; cases h
    | some s1 =>
      rw [hr] at h
      obtain ⟨v1, h1⟩ := hrec c s s1 hr
      obtain ⟨v2, h2⟩ := ih s1 s' h
      exact ⟨v1 ++ v2, by rw [h2, h1, List.append_assoc]⟩

theorem closed_clear (s : St) (d : Id) : (s.clear d).closed = s.closed := by unfold St.clear; split <;> rfl

theorem closed_removeSubtree : ∀ (fuel : Nat) (n : Id) (s s' : St), removeSubtree fuel n s = some s' → ∃ vs, s'.closed = s.closed ++ vs := by
  intro fuel
  induction fuel with
  | zero => intro n s s' h; cases h
  | succ fuel ih =>
    intro n s s' h
    simp only [removeSubtree] at h
    split at h
    · cases he : eachChild (removeSubtree fuel) (s.entries n) s with
      | none => rw [he] at h; cases h
      | some s1 =>
        rw [he] at h
        cases h
        rw [closed_clear]
        exact closed_eachChild ih _ s s1 he
    · cases h; exact ⟨_, closed_closeView s n⟩
    · cases h; exact ⟨[], by simp⟩

theorem sweep_eachChild {s0 : St} {rec : Id → St → Option St} (hrec : ∀ n s s', Sweep s0 s → rec n s = some s' → Sweep s0 s' ∧ (∀ e, Under s0 n e → Swept s0 s' e))
    (hshr : ∀ c s s', rec c s = some s' → Shr s s') (hcl : ∀ c s s', rec c s = some s' → ∃ vs, s'.closed = s.closed ++ vs) :
    ∀ (cs : List Id) (s s' : St), Sweep s0 s → eachChild rec cs s = some s' → Sweep s0 s' ∧ ∀ c ∈ cs, ∀ e, Under s0 c e → Swept s0 s' e := by
  intro cs
  induction cs with
  | nil => intro s s' hs h; cases h; exact ⟨hs, by simp⟩
  | cons c cs ih =>
    intro s s' hs h
    simp only [eachChild] at h
    cases hr : rec c s with
    | none => rw [hr] at h; cases h
    | some s1 =>
      rw [hr] at h
      obtain ⟨h1, hd1⟩ := hrec c s s1 hs hr
      obtain ⟨h2, hd2⟩ := ih s1 s' h1 h
      refine ⟨h2, fun c' hc' e he => ?_⟩
      rcases List.mem_cons.1 hc' with rfl | hc'
      · exact (hd1 e he).mono (shr_eachChild hshr cs s1 s' h) (closed_eachChild hcl cs s1 s' h)
      · exact hd2 c' hc' e he

theorem sweep_removeSubtree {s0 : St} (hg : Good s0) : ∀ (fuel : Nat) (n : Id) (s s' : St), Sweep s0 s → removeSubtree fuel n s = some s' →
    Sweep s0 s' ∧ ∀ e, Under s0 n e → Swept s0 s' e := by
  intro fuel
  induction fuel with
  | zero => intro n s s' _ h; cases h
  | succ fuel ih =>
    intro n s s' hs h
    have hleaf : ∀ s1, (∀ k, s0.lookup n k = none) → Sweep s0 s1 → (∀ v ∈ s0.viewsOf n, v ∈ s1.closed) → ∀ e, Under s0 n e → Swept s0 s1 e := by
      intro s1 hno hs1 hv e hu
      rcases hu with rfl | hu
      · refine ⟨fun k => ?_, hv⟩
        cases hk : s1.lookup e k with
        | none => rfl
        | some c => have := hs1.shr.sub _ _ _ hk; rw [hno] at this; cases this
      · obtain ⟨k, c, hk, _⟩ := hu.first
        rw [hno] at hk; cases hk
    have hnodir : (∀ r, s.nodes[n]? ≠ some (.dir r)) → ∀ k, s0.lookup n k = none := by
      intro hnd k
      cases hk : s0.lookup n k with
      | none => rfl
      | some c =>
        obtain ⟨r, hr⟩ := (isDir_congr hs.shr.look n).2 (lookup_isDir hk)
        exact absurd (dir?_iff.1 hr) (hnd r)
    simp only [removeSubtree] at h
    split at h
    · rename_i r hnode
      cases he : eachChild (removeSubtree fuel) (s.entries n) s with
      | none => rw [he] at h; cases h
      | some s1 =>
        rw [he] at h
        cases h
        obtain ⟨h1, hd1⟩ := sweep_eachChild ih (fun c a a' => shr_removeSubtree fuel c a a') (fun c a a' => closed_removeSubtree fuel c a a') _ s s1 hs he
        have hcl : ∃ vs, (s1.clear n).closed = s1.closed ++ vs := ⟨[], by rw [closed_clear]; simp⟩
        have hall : ∀ e, Under s0 n e → Swept s0 (s1.clear n) e := by
          intro e hu
          by_cases hch : ∃ k, s1.lookup n k ≠ s0.lookup n k
          · obtain ⟨k, hk⟩ := hch
            exact (h1.done n k hk e hu).mono (shr_clear s1 n) hcl
          · rcases hu with rfl | hu
            · refine ⟨fun k => by rw [lookup_clear, if_pos rfl], fun v hv => ?_⟩
              rw [← viewsOf_look hs.shr.look] at hv
              unfold St.viewsOf at hv
              rw [hnode] at hv
              cases hv
            · obtain ⟨k, c, hk, huc⟩ := hu.first
              by_cases hk0 : s.lookup n k = some c
              · exact (hd1 c ((mem_entries (hs.shr.good hg)).2 ⟨k, hk0⟩) e huc).mono (shr_clear s1 n) hcl
              · refine (h1.done n k ?_ e (.inr hu)).mono (shr_clear s1 n) hcl
                intro heq
                rw [hk] at heq
                exact hk0 ((shr_eachChild (fun c a a' => shr_removeSubtree fuel c a a') _ s s1 he).sub _ _ _ heq)
        refine ⟨⟨h1.shr.trans (shr_clear s1 n), ?_, ?_⟩, hall⟩
        · intro e k hne f hf
          by_cases hen : e = n
          · subst hen; exact hall f hf
          · rw [lookup_clear, if_neg hen] at hne
            exact (h1.done e k hne f hf).mono (shr_clear s1 n) hcl
        · obtain ⟨vs, hvs⟩ := h1.closed
          exact ⟨vs, by rw [closed_clear]; exact hvs⟩
    · rename_i nm mode v hnode
      cases h
      have hcl := closed_closeView s n
      have hsw : Sweep s0 (s.closeView n) := by
        refine ⟨hs.shr.trans (shr_closeView s n), fun e k hne f hf => ?_, ?_⟩
        · rw [lookup_closeView] at hne
          exact (hs.done e k hne f hf).mono (shr_closeView s n) ⟨_, hcl⟩
        · obtain ⟨vs, hvs⟩ := hs.closed
          exact ⟨vs ++ s.viewsOf n, by rw [hcl, hvs, List.append_assoc]⟩
      refine ⟨hsw, hleaf _ (hnodir (fun r hr => by rw [hnode] at hr; cases hr)) hsw ?_⟩
      intro v' hv'
      rw [← viewsOf_look hs.shr.look] at hv'
      rw [hcl]; exact List.mem_append_right _ hv'
    · rename_i h1 h2
      cases h
      refine ⟨hs, hleaf _ (hnodir h1) hs ?_⟩
      intro v hv
      rw [← viewsOf_look hs.shr.look] at hv
      unfold St.viewsOf at hv
      split at hv
      · rename_i a b c hx; exact absurd hx (h2 a b c)
      · cases hv

theorem only_under {s0 : St} (hg : Good s0) : ∀ (fuel : Nat) (n : Id) (s s' : St), Shr s0 s → removeSubtree fuel n s = some s' →
    ∀ v ∈ s'.closed, v ∈ s.closed ∨ ∃ e, Under s0 n e ∧ v ∈ s0.viewsOf e := by
  intro fuel
  induction fuel with
  | zero => intro n s s' _ h; cases h
  | succ fuel ih =>
    intro n s s' hs h v hv
    simp only [removeSubtree] at h
    split at h
    · cases he : eachChild (removeSubtree fuel) (s.entries n) s with
      | none => rw [he] at h; cases h
      | some s1 =>
        rw [he] at h
        cases h
        rw [closed_clear] at hv
        have key : ∀ (cs : List Id) (a a' : St), Shr s0 a → (∀ c ∈ cs, Under s0 n c) → eachChild (removeSubtree fuel) cs a = some a' → v ∈ a'.closed →
            v ∈ a.closed ∨ ∃ e, Under s0 n e ∧ v ∈ s0.viewsOf e := by
          intro cs
          induction cs with
          | nil => intro a a' _ _ h hv; cases h; exact .inl hv
          | cons c cs ihc =>
            intro a a' ha hcs h hv
            simp only [eachChild] at h
            cases hr : removeSubtree fuel c a with
            | none => rw [hr] at h; cases h
            | some a1 =>
              rw [hr] at h
              rcases ihc a1 a' (ha.trans (shr_removeSubtree fuel c a a1 hr)) (fun c' hc' => hcs c' (List.mem_cons_of_mem _ hc')) h hv with h1 | h1
              · rcases ih c a a1 ha hr v h1 with h2 | ⟨e, hu, h2⟩
                · exact .inl h2
                · exact .inr ⟨e, (hcs c List.mem_cons_self).trans hu, h2⟩
              · exact .inr h1
        refine key _ s s1 hs ?_ he hv
        intro c hc
        obtain ⟨k, hk⟩ := (mem_entries (hs.good hg)).1 hc
        exact .inr (Under.step (.inl rfl) (hs.sub _ _ _ hk))
    · cases h
      rw [closed_closeView] at hv
      rcases List.mem_append.1 hv with hv | hv
      · exact .inl hv
      · exact .inr ⟨n, .inl rfl, by rw [← viewsOf_look hs.look]; exact hv⟩
    · cases h; exact .inl hv

/-- What RemoveAll leaves of the entry `k` of `d`, which held `t`. -/
structure RemovesAll (s s' : St) (d : Id) (k : Str) (t : Id) : Prop where
  gone : s'.lookup d k = none
  emptied : ∀ e j, Under s t e → s'.lookup e j = none
  entries : ∀ e j, ¬ Under s t e → ¬ (e = d ∧ j = k) → s'.lookup e j = s.lookup e j
  lists : ∀ e, ¬ Under s t e → e ≠ d → s'.entries e = s.entries e
  list : ¬ Under s t d → s'.entries d = (s.entries d).filter (· ≠ t)
  nodes : ∀ i, s'.look i = s.look i
  closes : ∀ v, v ∈ s'.closed ↔ v ∈ s.closed ∨ ∃ e, Under s t e ∧ v ∈ s.viewsOf e

theorem removesAll {s : St} (hg : Good s) {d : Id} {k : Str} {t : Id} (h : s.lookup d k = some t) {fuel : Nat} {s1 : St} (h1 : removeSubtree fuel t s = some s1) :
    RemovesAll s (s1.removeEntry d k) d k t := by
  have hs := shr_removeSubtree fuel t s s1 h1
  obtain ⟨hsw, hdone⟩ := sweep_removeSubtree hg fuel t s s1 ⟨Shr.refl s, fun e k hne => absurd rfl hne, ⟨[], by simp⟩⟩ h1
  have hsame : ∀ e, ¬ Under s t e → s1.nodes[e]? = s.nodes[e]? := by
    intro e he
    by_cases hlt : e < s.nodes.length
    · have hcl : Closed (fun i => Under s t i ∨ s.nodes.length ≤ i) s := by
        refine ⟨?_, fun i hi => .inr hi⟩
        rintro a j c (ha | ha) hc
        · exact .inl (.inr (ha.step hc))
        · obtain ⟨r, hr⟩ := lookup_isDir hc
          exact absurd (lt_of_dir hr) (Nat.not_lt.2 ha)
      refine (fr_removeSubtree fuel t s s1 hg hcl (.inl (.inl rfl)) h1).1.same e ?_
      rintro (hh | hh)
      · exact he hh
      · exact absurd hlt (Nat.not_lt.2 hh)
    · have e1 : s.nodes[e]? = none := List.getElem?_eq_none (Nat.not_lt.1 hlt)
      have := hs.look e
      unfold St.look at this
      rw [e1] at this
      rw [e1]
      cases hx : s1.nodes[e]? with
      | none => rfl
      | some x => rw [hx] at this; cases this
  have hlk : ∀ e j, ¬ Under s t e → s1.lookup e j = s.lookup e j := by
    intro e j he; unfold St.lookup St.dir?; rw [hsame e he]
  have hen : ∀ e, ¬ Under s t e → s1.entries e = s.entries e := by
    intro e he; unfold St.entries St.dir?; rw [hsame e he]
  refine ⟨by rw [lookup_removeEntry, if_pos ⟨rfl, rfl⟩], ?_, ?_, ?_, ?_, ?_, ?_⟩
  · intro e j hu
    rw [lookup_removeEntry]
    split
    · rfl
    · exact (hdone e hu).1 j
  · intro e j hu hne
    rw [lookup_removeEntry, if_neg hne, hlk e j hu]
  · intro e hu he
    rw [entries_removeEntry_ne s1 d k he, hen e hu]
  · intro hu
    rw [entries_removeEntry (hs.good hg) (by rw [hlk d k hu]; exact h), hen d hu]
  · intro i; rw [look_removeEntry, hs.look]
  · intro v
    rw [closed_removeEntry']
    constructor
    · exact only_under hg fuel t s s1 (Shr.refl s) h1 v
    · rintro (hv | ⟨e, hu, hv⟩)
      · obtain ⟨vs, hvs⟩ := closed_removeSubtree fuel t s s1 h1
        rw [hvs]; exact List.mem_append_left _ hv
      · exact (hdone e hu).2 v hv

/-! ### Moving -/

theorem entries_relabel (s : St) (t : Id) (name : Str) (p e : Id) : (s.relabel t name p).entries e = s.entries e := by
  unfold St.entries
  rw [relabel_dir?]
  by_cases h : e = t
  · subst h
    rw [if_pos rfl]
    cases s.dir? e <;> rfl
  · rw [if_neg h]

theorem closed_relabel (s : St) (t : Id) (name : Str) (p : Id) : (s.relabel t name p).closed = s.closed := by
  unfold St.relabel; split <;> rfl

theorem closed_addEntry (s : St) (d : Id) (k : Str) (c : Id) : (s.addEntry d k c).closed = s.closed := by
  unfold St.addEntry St.pushBack
  split
  · exact closed_removeEntry' s d k
  · exact closed_removeEntry' s d k

theorem entries_addEntry {s : St} {d : Id} (hd : s.isDir d) {k : Str} (hfree : s.lookup d k = none) (c e : Id) :
    (s.addEntry d k c).entries e = if e = d then s.entries d ++ [c] else s.entries e := by
  obtain ⟨r, hr⟩ := hd
  unfold St.addEntry
  rw [removeEntry_missing hfree]
  unfold St.pushBack
  rw [hr]
  simp only
  show (s.setDir d _).entries e = _
  rw [entries_setDir (lt_of_dir hr)]
  by_cases he : e = d
  · rw [if_pos he, if_pos he, entries_of_dir hr]; simp
  · rw [if_neg he, if_neg he]

/-- A move: the node that was the entry `ob` of `op` is now the entry `nb` of `np`, in place of what was there, and last in the list of that directory; its name is the new one, a
directory's parent is the new one, and nothing else is different. -/
structure Moves (s s' : St) (op : Id) (ob : Str) (t np : Id) (nb : Str) : Prop where
  entries : ∀ e j, s'.lookup e j = if e = np ∧ j = nb then some t else if e = op ∧ j = ob then none else s.lookup e j
  list : s'.entries np = (s.entries np).filter (fun c => c ≠ t ∧ s.lookup np nb ≠ some c) ++ [t]
  lists : ∀ e, e ≠ np → s'.entries e = if e = op then (s.entries e).filter (· ≠ t) else s.entries e
  nodes : ∀ i, i ≠ t → s'.look i = s.look i
  node : s'.look t = (s.look t).map fun n => match n with
    | .dir r => .dir { r with name := nb, parent := some np }
    | .file _ m v => .file nb m v
    | .link _ target => .link nb target

theorem moves {s s2 : St} (hg : Good s) {op np t : Id} {ob nb : Str} (hop : s.lookup op ob = some t) (hnp : s.isDir np) (hs : Shr s s2)
    (hl : ∀ e j, s2.lookup e j = if e = np ∧ j = nb then none else s.lookup e j)
    (hen : ∀ e, s2.entries e = if e = np then (s.entries e).filter (fun c => s.lookup np nb ≠ some c) else s.entries e) :
    Moves s (s2.move op ob t np nb) op ob t np nb := by
  have hnp2 : s2.isDir np := hs.pres.keeps _ hnp
  have hg2 := hs.good hg
  have hnp3 : ((s2.removeEntry op ob).relabel t nb np).isDir np := keeps_relabel _ t nb np np (Keeps.of_look (look_removeEntry s2 op ob) np hnp2)
  have hfree : ((s2.removeEntry op ob).relabel t nb np).lookup np nb = none := by
    rw [relabel_lookup, lookup_removeEntry]
    split
    · rfl
    · rw [hl, if_pos ⟨rfl, rfl⟩]
  have hrem : ∀ e, (s2.removeEntry op ob).entries e = if e = op then (s2.entries e).filter (· ≠ t) else s2.entries e := by
    intro e
    by_cases he : e = op
    · subst he
      rw [if_pos rfl]
      by_cases hsame : e = np ∧ ob = nb
      · have h0 : s2.lookup e ob = none := by rw [hl, if_pos hsame]
        rw [removeEntry_missing h0]
        symm
        apply List.filter_eq_self.2
        intro c hc
        obtain ⟨j, hj⟩ := (mem_entries hg2).1 hc
        simp only [ne_eq, decide_not, Bool.not_eq_true', decide_eq_false_iff_not]
        rintro rfl
        have := hg.single e j e ob c (hs.sub _ _ _ hj) hop
        rw [this.2, h0] at hj
        cases hj
      · exact entries_removeEntry hg2 (by rw [hl, if_neg hsame]; exact hop)
    · rw [if_neg he, entries_removeEntry_ne s2 op ob he]
  refine ⟨?_, ?_, ?_, ?_, ?_⟩
  · intro e j
    rw [lookup_move hnp2]
    by_cases h1 : e = np ∧ j = nb
    · rw [if_pos h1, if_pos h1]
    · rw [if_neg h1, if_neg h1]
      split
      · rfl
      · rw [hl, if_neg h1]
  · unfold St.move
    rw [entries_addEntry hnp3 hfree, if_pos rfl, entries_relabel, hrem, hen, if_pos rfl]
    congr 1
    by_cases h : np = op
    · rw [if_pos h, List.filter_filter]
      apply List.filter_congr
      intro c _
      by_cases h1 : c = t <;> by_cases h2 : s.lookup np nb = some c <;> simp [h1, h2]
    · rw [if_neg h]
      apply List.filter_congr
      intro c hc
      have : c ≠ t := by
        rintro rfl
        obtain ⟨j, hj⟩ := (mem_entries hg).1 hc
        exact h (hg.single np j op ob c hj hop).1
      simp [this]
  · intro e he
    unfold St.move
    rw [entries_addEntry hnp3 hfree, if_neg he, entries_relabel, hrem, hen, if_neg he]
  · intro i hi
    unfold St.move
    rw [look_addEntry, relabel_look _ t nb np i hi, look_removeEntry, hs.look]
  · unfold St.move
    rw [look_addEntry, relabel_look_self, look_removeEntry, hs.look]
    cases s.look t with
    | none => rfl
    | some n => cases n <;> rfl

theorem closed_move (s : St) (op : Id) (ob : Str) (t np : Id) (nb : Str) : (s.move op ob t np nb).closed = s.closed := by
  unfold St.move
  rw [closed_addEntry, closed_relabel, closed_removeEntry']

/-! ### Walking prefixes -/

theorem Finds.strip {s : St} {b cur m : Id} {L : List Str} {n : Nat} (h : Finds s b true cur L n m) :
    ∀ {xs : List Str} {j : Nat}, s.isDir m → L = xs ++ List.replicate j [] → Finds s b true cur xs n m := by
  induction h with
  | done =>
    intro xs j _ e
    have := (List.append_eq_nil_iff.1 e.symm).1
    subst this; exact .done
  | @stay cur e es n m he h ih =>
    intro xs j hd hL
    cases xs with
    | nil =>
      cases j with
      | zero => cases hL
      | succ j =>
        simp only [List.replicate_succ, List.nil_append, List.cons.injEq] at hL
        exact ih (xs := []) (j := j) hd (by simpa using hL.2)
    | cons x xs =>
      simp only [List.cons_append, List.cons.injEq] at hL
      rw [← hL.1]; exact .stay he (ih hd hL.2)
  | @up cur p k es n m hne hk h ih =>
    intro xs j hd hL
    cases xs with
    | nil =>
      cases j with
      | zero => cases hL
      | succ j => simp only [List.replicate_succ, List.nil_append, List.cons.injEq] at hL; exact absurd hL.1 (by decide)
    | cons x xs =>
      simp only [List.cons_append, List.cons.injEq] at hL
      rw [← hL.1]; exact .up hne hk (ih hd hL.2)
  | @last cur e c hp hk hnl =>
    intro xs j hd hL
    cases xs with
    | nil =>
      cases j with
      | zero => cases hL
      | succ j => simp only [List.replicate_succ, List.nil_append, List.cons.injEq] at hL; exact absurd hL.1 hp.1
    | cons x xs =>
      simp only [List.cons_append, List.cons.injEq] at hL
      obtain ⟨h1, h2⟩ := hL
      have := (List.append_eq_nil_iff.1 h2.symm).1
      subst this; subst h1
      exact .last hp hk hnl
  | @down cur e c es n m hp hk hc hne h ih =>
    intro xs j hd hL
    cases xs with
    | nil =>
      cases j with
      | zero => cases hL
      | succ j => simp only [List.replicate_succ, List.nil_append, List.cons.injEq] at hL; exact absurd hL.1 hp.1
    | cons x xs =>
      simp only [List.cons_append, List.cons.injEq] at hL
      rw [← hL.1]
      have h' := ih hd hL.2
      by_cases hx : xs = []
      · subst hx
        cases h'
        refine .last hp hk ?_
        rintro _ ⟨a, t, ht⟩
        obtain ⟨r, hr⟩ := hc
        rw [dir?_iff, ht] at hr
        cases hr
      · exact .down hp hk hc hx h'
  | @link cur e c es n m nm t hp hk hn habs hcond h ih =>
    intro xs j hd hL
    cases xs with
    | nil =>
      cases j with
      | zero => cases hL
      | succ j => simp only [List.replicate_succ, List.nil_append, List.cons.injEq] at hL; exact absurd hL.1 hp.1
    | cons x xs =>
      simp only [List.cons_append, List.cons.injEq] at hL
      rw [← hL.1]
      by_cases hes : es = []
      · have : xs = [] := by rw [hes] at hL; exact (List.append_eq_nil_iff.1 hL.2.symm).1
        rw [this, ← hes]
        exact .link hp hk hn habs hcond h
      · refine .link hp hk hn habs (.inr rfl) ?_
        by_cases hx : xs = []
        · subst hx
          have e1 : splice t [] = elems t := by simp [splice]
          have e2 : splice t es = split t ++ es := by unfold splice; rw [if_neg hes]
          rw [e1]
          by_cases hl : (split t).getLast? = some []
          · have hsp : split t = elems t ++ [[]] := by
              unfold elems
              rw [if_pos hl]
              obtain ⟨ys, hys⟩ := List.getLast?_eq_some_iff.1 hl
              rw [hys]; simp
            refine ih (j := j + 1) hd ?_
            rw [e2, hsp, hL.2, List.replicate_succ]; simp
          · have hsp : split t = elems t := by unfold elems; rw [if_neg hl]
            refine ih (j := j) hd ?_
            rw [e2, hsp, hL.2]; simp
        · have e1 : splice t xs = split t ++ xs := by unfold splice; rw [if_neg hx]
          have e2 : splice t es = split t ++ es := by unfold splice; rw [if_neg hes]
          rw [e1]
          refine ih (j := j) hd ?_
          rw [e2, hL.2, List.append_assoc]

/-- A walk that goes on goes on from a directory. -/
theorem Finds.split {s : St} {b cur m : Id} {L : List Str} {n : Nat} (h : Finds s b true cur L n m) :
    ∀ {es suf : List Str}, s.isDir cur → suf ≠ [] → L = es ++ suf → ∃ d n1 n2, s.isDir d ∧ Finds s b true cur es n1 d ∧ Finds s b true d suf n2 m ∧ n = n1 + n2 := by
  have nil : ∀ {cur suf n m}, s.isDir cur → Finds s b true cur suf n m → ∃ d n1 n2, s.isDir d ∧ Finds s b true cur [] n1 d ∧ Finds s b true d suf n2 m ∧ n = n1 + n2 :=
    fun {cur suf n m} hd h => ⟨cur, 0, n, hd, .done, h, by omega⟩
  induction h with
  | done => intro es suf _ hne e; exact absurd (List.append_eq_nil_iff.1 e.symm).2 hne
  | @stay cur e es' n m he h ih =>
    intro es suf hd hne hL
    cases es with
    | nil => rw [List.nil_append] at hL; rw [← hL]; exact nil hd (.stay he h)
    | cons x es =>
      simp only [List.cons_append, List.cons.injEq] at hL
      obtain ⟨d, n1, n2, h1, h2, h3, h4⟩ := ih hd hne hL.2
      rw [← hL.1]
      exact ⟨d, n1, n2, h1, .stay he h2, h3, h4⟩
  | @up cur p k es' n m hne' hk h ih =>
    intro es suf hd hne hL
    cases es with
    | nil => rw [List.nil_append] at hL; rw [← hL]; exact nil hd (.up hne' hk h)
    | cons x es =>
      simp only [List.cons_append, List.cons.injEq] at hL
      obtain ⟨d, n1, n2, h1, h2, h3, h4⟩ := ih (lookup_isDir hk) hne hL.2
      rw [← hL.1]
      exact ⟨d, n1, n2, h1, .up hne' hk h2, h3, h4⟩
  | @last cur e c hp hk hnl =>
    intro es suf hd hne hL
    cases es with
    | nil => rw [List.nil_append] at hL; rw [← hL]; exact nil hd (.last hp hk hnl)
    | cons x es =>
      simp only [List.cons_append, List.cons.injEq] at hL
      exact absurd (List.append_eq_nil_iff.1 hL.2.symm).2 hne
  | @down cur e c es' n m hp hk hc hne' h ih =>
    intro es suf hd hne hL
    cases es with
    | nil => rw [List.nil_append] at hL; rw [← hL]; exact nil hd (.down hp hk hc hne' h)
    | cons x es =>
      simp only [List.cons_append, List.cons.injEq] at hL
      obtain ⟨d, n1, n2, h1, h2, h3, h4⟩ := ih hc hne hL.2
      rw [← hL.1]
      refine ⟨d, n1, n2, h1, ?_, h3, h4⟩
      by_cases hx : es = []
      · subst hx
        cases h2
        refine .last hp hk ?_
        rintro _ ⟨a, t, ht⟩
        obtain ⟨r, hr⟩ := hc
        rw [dir?_iff, ht] at hr
        cases hr
      · exact .down hp hk hc hx h2
  | @link cur e c es' n m nm t hp hk hn habs hcond h ih =>
    intro es suf hd hne hL
    cases es with
    | nil => rw [List.nil_append] at hL; rw [← hL]; exact nil hd (.link hp hk hn habs hcond h)
    | cons x es =>
      simp only [List.cons_append, List.cons.injEq] at hL
      have e2 : splice t es' = Verif.Path.split t ++ es ++ suf := by unfold splice; rw [hL.2, if_neg (by simp [hne])]; simp
      obtain ⟨d, n1, n2, h1, h2, h3, h4⟩ := ih hd hne e2
      rw [← hL.1]
      refine ⟨d, n1 + 1, n2, h1, .link hp hk hn habs (.inr rfl) ?_, h3, by omega⟩
      by_cases hx : es = []
      · subst hx
        have e1 : splice t [] = elems t := by simp [splice]
        rw [e1]
        by_cases hl : (Verif.Path.split t).getLast? = some []
        · refine h2.strip (j := 1) h1 ?_
          unfold elems
          rw [if_pos hl]
          obtain ⟨ys, hys⟩ := List.getLast?_eq_some_iff.1 hl
          rw [hys]; simp
        · refine h2.strip (j := 0) h1 ?_
          unfold elems
          rw [if_neg hl]
          simp
      · have e1 : splice t es = Verif.Path.split t ++ es := by unfold splice; rw [if_neg hx]
        rw [e1]; exact h2

/-- The elements lead to `m`. -/
def Leads (s : St) (b : Id) (ns : List Str) (m : Id) : Prop := ∃ n, n ≤ 40 ∧ Finds s b true b ns n m

theorem exists_name {ns : List Str} (hn : ∀ c ∈ ns, IsName c) : ∃ name, placeOf name = some ns := by
  by_cases h : ns = []
  · subst h; exact ⟨dot, by decide⟩
  · exact ⟨join ns, placeOf_join hn h⟩

theorem Leads.unique {s : St} (hg : Good s) {b : Id} (hb : s.isDir b) {ns : List Str} (hn : ∀ c ∈ ns, IsName c) {m m' : Id} (h : Leads s b ns m) (h' : Leads s b ns m') : m = m' := by
  obtain ⟨name, hname⟩ := exists_name hn
  obtain ⟨n, h1, h2⟩ := h
  obtain ⟨n', h1', h2'⟩ := h'
  obtain ⟨r, hr, hm⟩ := (resolve_iff hg hb name m).2 ⟨ns, n, hname, h1, h2⟩
  obtain ⟨r', hr', hm'⟩ := (resolve_iff hg hb name m').2 ⟨ns, n', hname, h1', h2'⟩
  rw [hr] at hr'
  cases hr'
  rw [← hm, hm']

theorem Finds.first {s : St} {b d m : Id} {k : Str} {rest : List Str} {n : Nat} (hk : IsName k) (h : Finds s b true d (k :: rest) n m) : ∃ c, s.lookup d k = some c := by
  cases h with
  | stay he _ => rcases he with he | he
                 · exact absurd he hk.1.1
                 · exact absurd he hk.2.1
  | up => exact absurd rfl hk.2.2
  | last _ hc _ => exact ⟨_, hc⟩
  | down _ hc _ _ _ => exact ⟨_, hc⟩
  | link _ hc _ _ _ _ => exact ⟨_, hc⟩

theorem Leads.prefix {s : St} {b : Id} (hb : s.isDir b) {es suf : List Str} {m : Id} (hne : suf ≠ []) (h : Leads s b (es ++ suf) m) : ∃ d n, Leads s b es d ∧ s.isDir d ∧ Finds s b true d suf n m := by
  obtain ⟨n, hn, hf⟩ := h
  obtain ⟨d, n1, n2, h1, h2, h3, h4⟩ := hf.split hb hne rfl
  exact ⟨d, n2, ⟨n1, by omega, h2⟩, h1, h3⟩

/-- If the elements lead past `pre`, then the next element is an entry of the directory that `pre` leads to. -/
theorem Leads.next {s : St} (hg : Good s) {b : Id} (hb : s.isDir b) {pre rest : List Str} {k : Str} (hn : ∀ c ∈ pre ++ k :: rest, IsName c) {d m : Id} (hd : Leads s b pre d)
    (h : Leads s b (pre ++ k :: rest) m) : ∃ c, s.lookup d k = some c := by
  obtain ⟨d', n, h1, _, h3⟩ := h.prefix hb (by simp)
  rw [hd.unique hg hb (fun c hc => hn c (List.mem_append_left _ hc)) h1]
  exact h3.first (hn k (by simp))

/-! ### MkdirAll -/

/-- The directories of the list were made, one inside the other, and nothing else was changed. -/
def MakesChain (mode : Nat) : St → St → Id → List Str → Prop
  | s, s', _, [] => s' = s
  | s, s', d, k :: rest => ∃ s1 c, Adds s s1 d k (.dir ⟨k, some d, [], [], mode⟩) ∧ s1.lookup d k = some c ∧ MakesChain mode s1 s' c rest

/-- The names of the prefixes, the elements of `pre` being done. -/
def heads : List Str → List Str → List Str
  | _, [] => []
  | pre, k :: rest => join (pre ++ [k]) :: heads (pre ++ [k]) rest

theorem heads_snoc (x : Str) : ∀ (rest pre : List Str), heads pre (rest ++ [x]) = heads pre rest ++ [join (pre ++ rest ++ [x])] := by
  intro rest
  induction rest with
  | nil => intro pre; simp [heads]
  | cons k rest ih => intro pre; simp only [List.cons_append, heads]; rw [ih]; simp

theorem heads_range (ns : List Str) : heads [] ns = (List.range ns.length).map (fun i => join (ns.take (i + 1))) := by
  induction ns using snocInd with
  | nil => rfl
  | snoc ns x ih =>
    rw [heads_snoc, ih, List.length_append, List.length_singleton, List.range_succ, List.map_append]
    congr 1
    · apply List.map_congr_left
      intro i hi
      rw [List.take_append_of_le_length (by have := List.mem_range.1 hi; omega)]
    · simp [List.take_of_length_le]

theorem head_paths {ns : List Str} (hn : ∀ c ∈ ns, IsName c) (hne : ns ≠ []) : Fsutil.vPathFromHead (join ns) = heads [] ns := by
  obtain ⟨habs, hcs, _⟩ := placeOf_some (placeOf_join hn hne)
  rw [(Fsutil.C31_vroot_iterators (join ns) habs).1, heads_range]
  unfold Fsutil.prefixes
  rw [habs, hcs]
  simp only [Bool.false_eq_true, if_false, hne, List.nil_append]
  apply List.map_congr_left
  intro i hi
  unfold render
  have : ns.take (i + 1) ≠ [] := by
    cases ns with
    | nil => exact absurd rfl hne
    | cons a ns => simp
  simp [this]

/-- The walk is the same after an entry was added. -/
theorem Finds.grow {s s' : St} {d : Id} {k : Str} {x : Node} (hg : Good s) (hfree : s.lookup d k = none) (ha : Adds s s' d k x) {b cur m : Id} {es : List Str} {n : Nat}
    (h : Finds s b true cur es n m) : Finds s' b true cur es n m := by
  have hl : ∀ e j c, s.lookup e j = some c → s'.lookup e j = some c := by
    intro e j c hc
    rw [ha.rest.entries e j ?_]; exact hc
    rintro ⟨rfl, rfl⟩
    rw [hfree] at hc; cases hc
  have hnodes : ∀ i n, s.look i = some n → s'.look i = some n := by
    intro i n hi
    obtain ⟨c, hc, _, _, _, hs⟩ := ha.new
    rw [hs i]; exact hi
    rintro rfl
    unfold St.look at hi
    rw [hc] at hi; cases hi
  have hlink : ∀ (i : Id) nm t, s.nodes[i]? = some (Node.link nm t) → s'.nodes[i]? = some (Node.link nm t) := by
    intro i nm t hi
    have := hnodes i (Node.link nm t) (by unfold St.look; rw [hi]; rfl)
    unfold St.look at this
    cases hx : s'.nodes[i]? with
    | none => rw [hx] at this; cases this
    | some y => rw [hx] at this; cases y <;> simp_all [skel]
  have hdir : ∀ i, s.isDir i → s'.isDir i := by
    intro i hi
    obtain ⟨r, hr⟩ := isDir_iff_look.1 hi
    exact isDir_iff_look.2 ⟨r, hnodes i _ hr⟩
  induction h with
  | done => exact .done
  | stay he _ ih => exact .stay he ih
  | up hne hk _ ih => exact .up hne (hl _ _ _ hk) ih
  | @last cur e c hp hk hnl =>
    refine .last hp (hl _ _ _ hk) ?_
    rintro ht ⟨nm, t, hc⟩
    apply hnl ht
    obtain ⟨n0, hn0, _⟩ := hg.child _ _ _ hk
    have := hnodes c n0 hn0
    unfold St.look at this hn0
    rw [hc] at this
    cases hx : s.nodes[c]? with
    | none => rw [hx] at hn0; cases hn0
    | some y =>
      rw [hx] at hn0
      cases hn0
      cases y with
      | link a b => exact ⟨a, b, hx⟩
      | dir r => simp [skel] at this
      | file a b v => simp [skel] at this
  | down hp hk hc hne _ ih => exact .down hp (hl _ _ _ hk) (hdir _ hc) hne ih
  | link hp hk hn habs hcond _ ih => exact .link hp (hl _ _ _ hk) (hlink _ _ _ hn) habs hcond ih

theorem place_of {s : St} {b : Id} {pre : List Str} {k : Str} (hn : ∀ c ∈ pre ++ [k], IsName c) {d : Id} (hd : Leads s b pre d) (hdd : s.isDir d) : Place s b (join (pre ++ [k])) d k := by
  obtain ⟨n, h1, h2⟩ := hd
  exact ⟨pre, n, placeOf_join hn (by simp), h1, h2, hdd⟩

/-- From the first missing directory on, all are made. -/
theorem mkdirEach_chain (b : Id) (mode : Nat) : ∀ (rest pre : List Str) (k : Str) (s : St) (d : Id), Good s → s.isDir b → (∀ c ∈ pre ++ k :: rest, IsName c) → Leads s b pre d → s.isDir d →
    s.lookup d k = none → ∃ s', mkdirEach b mode (heads pre (k :: rest)) s = (s', none) ∧ MakesChain mode s s' d (k :: rest) := by
  intro rest
  induction rest with
  | nil =>
    intro pre k s d hg hb hn hd hdd hfree
    have hcr := creates_mkdir hg hb (join (pre ++ [k])) mode
    obtain ⟨h1, h2⟩ := hcr.made d k (place_of hn hd hdd) hfree
    obtain ⟨c, _, hc, _⟩ := h2.new
    refine ⟨_, ?_, _, c, h2, hc, rfl⟩
    show (match mkdirOne s b (join (pre ++ [k])) mode with
      | (s1, none) => (s1, none)
      | (s1, some .exist) => _
      | (s1, some e) => (s1, some e)) = _
    generalize mkdirOne s b (join (pre ++ [k])) mode = r at *
    obtain ⟨s1, e1⟩ := r
    simp only at h1
    subst h1; rfl
  | cons k2 rest ih =>
    intro pre k s d hg hb hn hd hdd hfree
    have hn1 : ∀ c ∈ pre ++ [k], IsName c := fun c hc => hn c (by simp at hc ⊢; rcases hc with h | h <;> simp [h])
    have hcr := creates_mkdir hg hb (join (pre ++ [k])) mode
    obtain ⟨h1, h2⟩ := hcr.made d k (place_of hn1 hd hdd) hfree
    have hpres := pres_mkdirOne s b (join (pre ++ [k])) mode
    obtain ⟨c, hc0, hc, hcn, _⟩ := h2.new
    have hdc : (mkdirOne s b (join (pre ++ [k])) mode).1.dir? c = some ⟨k, some d, [], [], mode⟩ := dir?_iff.2 hcn
    obtain ⟨n, hn40, hf⟩ := hd
    have hkn := hn k (by simp)
    have hfs : Finds (mkdirOne s b (join (pre ++ [k])) mode).1 b true b (pre ++ [k]) n c := by
      have := (hf.grow hg hfree h2).append (suf := [k]) (k := 0) (c := c) (hpres.keeps d hdd) (by simp) (.last ⟨hkn.1.1, hkn.2.1, hkn.2.2⟩ hc (by
        rintro _ ⟨nm, t, ht⟩; rw [hcn] at ht; cases ht))
      simpa using this
    obtain ⟨s', hs', hch⟩ := ih (pre ++ [k]) k2 _ c (hpres.good hg) (hpres.keeps b hb) (by simpa using hn) ⟨n, hn40, hfs⟩ ⟨_, hdc⟩ (by rw [lookup_of_dir hdc]; rfl)
    refine ⟨s', ?_, _, c, h2, hc, hch⟩
    rw [← hs']
    show (match mkdirOne s b (join (pre ++ [k])) mode with
      | (s1, none) => mkdirEach b mode (heads (pre ++ [k]) (k2 :: rest)) s1
      | (s1, some .exist) => _
      | (s1, some e) => (s1, some e)) = _
    generalize mkdirOne s b (join (pre ++ [k])) mode = r at *
    obtain ⟨s1, e1⟩ := r
    simp only at h1
    subst h1; rfl

/-- The three ways MkdirAll ends. -/
theorem mkdirEach_cases (b : Id) (mode : Nat) (s : St) (hg : Good s) (hb : s.isDir b) : ∀ (rest pre : List Str) (d : Id), (∀ c ∈ pre ++ rest, IsName c) → Leads s b pre d → s.isDir d →
    (mkdirEach b mode (heads pre rest) s = (s, none) ∧ ∃ m, Leads s b (pre ++ rest) m ∧ s.isDir m) ∨
    (∃ mid k tail d', rest = mid ++ k :: tail ∧ Leads s b (pre ++ mid) d' ∧ s.isDir d' ∧ s.lookup d' k = none ∧
      ∃ s', mkdirEach b mode (heads pre rest) s = (s', none) ∧ MakesChain mode s s' d' (k :: tail)) ∨
    (∃ e, mkdirEach b mode (heads pre rest) s = (s, some e) ∧ ∃ mid k tail d' c, rest = mid ++ k :: tail ∧ Leads s b (pre ++ mid) d' ∧ s.isDir d' ∧ s.lookup d' k = some c ∧
      ¬ ∃ m, Leads s b (pre ++ mid ++ [k]) m ∧ s.isDir m) := by
  intro rest
  induction rest with
  | nil =>
    intro pre d _ hd hdd
    exact .inl ⟨rfl, d, by simpa using hd, hdd⟩
  | cons k rest ih =>
    intro pre d hn hd hdd
    have hn1 : ∀ c ∈ pre ++ [k], IsName c := fun c hc => hn c (by simp at hc ⊢; rcases hc with h | h <;> simp [h])
    have hcr := creates_mkdir hg hb (join (pre ++ [k])) mode
    have hpl := place_of hn1 hd hdd
    cases hk : s.lookup d k with
    | none =>
      obtain ⟨s', h1, h2⟩ := mkdirEach_chain b mode rest pre k s d hg hb hn hd hdd hk
      exact .inr (.inl ⟨[], k, rest, d, rfl, by simpa using hd, hdd, hk, s', h1, h2⟩)
    | some c =>
      have hex := hcr.taken d k c hpl hk
      have hname := placeOf_join hn1 (by simp)
      have hstep : mkdirEach b mode (heads pre (k :: rest)) s = match resolve s b b (join (pre ++ [k])) true with
          | .error e => (s, some e)
          | .ok r => match s.dir? r.node with
            | none => (s, some .notEmpty)
            | some _ => mkdirEach b mode (heads (pre ++ [k]) rest) s := by
        simp only [heads, mkdirEach]
        rw [hex]
        rfl
      rw [hstep]
      cases hr : resolve s b b (join (pre ++ [k])) true with
      | error e =>
        refine .inr (.inr ⟨e, rfl, [], k, rest, d, c, rfl, by simpa using hd, hdd, hk, ?_⟩)
        rintro ⟨m, ⟨n, h1, h2⟩, _⟩
        obtain ⟨r, hr', _⟩ := (resolve_iff hg hb (join (pre ++ [k])) m).2 ⟨pre ++ [k], n, hname, h1, by simpa using h2⟩
        rw [hr] at hr'; cases hr'
      | ok r =>
        obtain ⟨ns', n, hp', h1, h2⟩ := (resolve_iff hg hb (join (pre ++ [k])) r.node).1 ⟨r, hr, rfl⟩
        rw [hname] at hp'
        cases hp'
        simp only
        cases hdr : s.dir? r.node with
        | none =>
          refine .inr (.inr ⟨.notEmpty, rfl, [], k, rest, d, c, rfl, by simpa using hd, hdd, hk, ?_⟩)
          rintro ⟨m, hm, x, hx⟩
          have : m = r.node := Leads.unique hg hb hn1 (by simpa using hm) ⟨n, h1, h2⟩
          rw [this, hdr] at hx; cases hx
        | some x =>
          rcases ih (pre ++ [k]) r.node (by simpa using hn) ⟨n, h1, h2⟩ ⟨x, hdr⟩ with ⟨h3, h4⟩ | ⟨mid, k', tail, d', h3, h4, h5⟩ | ⟨e, h3, mid, k', tail, d', c', h4, h5, h6, h7, h8⟩
          · exact .inl ⟨h3, by simpa using h4⟩
          · exact .inr (.inl ⟨k :: mid, k', tail, d', by rw [h3]; rfl, by simpa using h4, h5⟩)
          · exact .inr (.inr ⟨e, h3, k :: mid, k', tail, d', c', by rw [h4]; rfl, by simpa using h5, h6, h7, by simpa using h8⟩)

theorem mkdirAll_cases (s : St) (b : Id) (name : Str) (mode : Nat) :
    (placeOf name = none ∧ (mkdirAll s b name mode).1 = s ∧ (mkdirAll s b name mode).2 ≠ none) ∨
    ∃ ns, placeOf name = some ns ∧ (∀ c ∈ ns, IsName c) ∧ mkdirAll s b name mode = mkdirEach b mode (heads [] ns) s := by
  unfold mkdirAll
  rcases normalize_spec name with ⟨e', he', hno⟩ | ⟨ns, hpl, hok, hdot, _⟩
  · rw [he', hno]; simp
  · rw [hok]
    obtain ⟨habs, hcs, hname⟩ := placeOf_some hpl
    refine .inr ⟨ns, hpl, hname, ?_⟩
    simp only
    by_cases hns : ns = []
    · rw [if_pos (hdot.2 hns), hns]; rfl
    · rw [if_neg (fun h => hns (hdot.1 h))]
      have hclean : clean name = join ns := by
        unfold clean
        rw [habs, hcs]
        unfold render; simp [hns]
      rw [hclean, head_paths hname hns]

theorem mkdirAll_exact {s : St} (hg : Good s) {b : Id} (hb : s.isDir b) (name : Str) (mode : Nat) :
    (∀ m, LeadsTo s b name m → s.isDir m → mkdirAll s b name mode = (s, none)) ∧
    (∀ pre k rest d, placeOf name = some (pre ++ k :: rest) → Leads s b pre d → s.isDir d → s.lookup d k = none →
      ∃ s', mkdirAll s b name mode = (s', none) ∧ MakesChain mode s s' d (k :: rest)) ∧
    ((¬ ∃ m, LeadsTo s b name m ∧ s.isDir m) → (¬ ∃ pre k rest d, placeOf name = some (pre ++ k :: rest) ∧ Leads s b pre d ∧ s.isDir d ∧ s.lookup d k = none) →
      (mkdirAll s b name mode).1 = s ∧ (mkdirAll s b name mode).2 ≠ none) := by
  rcases mkdirAll_cases s b name mode with ⟨hno, h1, h2⟩ | ⟨ns, hpl, hn, heq⟩
  · refine ⟨?_, ?_, fun _ _ => ⟨h1, h2⟩⟩
    · rintro m ⟨ns, n, hp, _⟩; rw [hno] at hp; cases hp
    · intro pre k rest d hp; rw [hno] at hp; cases hp
  · have hstart : Leads s b [] b := ⟨0, by omega, .done⟩
    have hcases := mkdirEach_cases b mode s hg hb ns [] b (by simpa using hn) hstart hb
    rw [← heq] at hcases
    simp only [List.nil_append] at hcases
    -- the elements before a missing entry are determined
    have hdet : ∀ pre k rest d pre' k' rest' d', ns = pre ++ k :: rest → ns = pre' ++ k' :: rest' → Leads s b pre d → Leads s b pre' d' → s.lookup d k = none → s.isDir d →
        pre'.length ≤ pre.length := by
      intro pre k rest d pre' k' rest' d' h1 h2 h3 h4 h5 _
      apply Classical.byContradiction
      intro hlt
      have hlt : pre.length < pre'.length := Nat.lt_of_not_le hlt
      have hp : pre <+: pre' := List.prefix_of_prefix_length_le (l₃ := ns) ⟨_, h1.symm⟩ ⟨_, h2.symm⟩ (Nat.le_of_lt hlt)
      obtain ⟨x, hx⟩ := hp
      cases x with
      | nil => rw [← hx] at hlt; simp at hlt
      | cons y x =>
        have hy : y = k := by
          rw [← hx, h1, List.append_assoc] at h2
          have := List.append_cancel_left h2
          cases this; rfl
        subst hy
        rw [← hx] at h4
        obtain ⟨c, hc⟩ := Leads.next hg hb (fun z hz => hn z (by rw [h2, ← hx]; exact List.mem_append_left _ hz)) h3 h4
        rw [h5] at hc; cases hc
    have hwhole : ∀ pre k rest d m, ns = pre ++ k :: rest → Leads s b pre d → s.lookup d k = none → Leads s b ns m → False := by
      intro pre k rest d m h1 h3 h5 h4
      rw [h1] at h4 hn
      obtain ⟨c, hc⟩ := Leads.next hg hb hn h3 h4
      rw [h5] at hc; cases hc
    have hlead : ∀ m, LeadsTo s b name m ↔ Leads s b ns m := by
      intro m
      constructor
      · rintro ⟨ns', n, hp, h1, h2⟩; rw [hpl] at hp; cases hp; exact ⟨n, h1, h2⟩
      · rintro ⟨n, h1, h2⟩; exact ⟨ns, n, hpl, h1, h2⟩
    have hbad : ∀ mid k tail, ns = mid ++ k :: tail → (¬ ∃ m, Leads s b (mid ++ [k]) m ∧ s.isDir m) → ∀ q rest, ns = q ++ rest → mid.length < q.length →
        ∀ m, Leads s b q m → s.isDir m → False := by
      intro mid k tail h1 h2 q rest h3 hlt m hm hmd
      have hp : mid ++ [k] <+: q := List.prefix_of_prefix_length_le (l₃ := ns) ⟨tail, by rw [h1]; simp⟩ ⟨rest, h3.symm⟩ (by simp; omega)
      obtain ⟨x, hx⟩ := hp
      by_cases hxe : x = []
      · rw [hxe, List.append_nil] at hx
        exact h2 ⟨m, by rw [hx]; exact hm, hmd⟩
      · rw [← hx] at hm
        obtain ⟨d, _, hd1, hd2, _⟩ := hm.prefix hb hxe
        exact h2 ⟨d, hd1, hd2⟩
    have hsame : ∀ pre k rest d pre' k' rest' d', ns = pre ++ k :: rest → ns = pre' ++ k' :: rest' → Leads s b pre d → Leads s b pre' d' → pre.length = pre'.length →
        pre = pre' ∧ k = k' ∧ rest = rest' ∧ d = d' := by
      intro pre k rest d pre' k' rest' d' h1 h2 h3 h4 hl
      obtain ⟨rfl, h⟩ := List.append_inj (h1.symm.trans h2) hl
      cases h
      exact ⟨rfl, rfl, rfl, h3.unique hg hb (fun z hz => hn z (by rw [h1]; exact List.mem_append_left _ hz)) h4⟩
    refine ⟨?_, ?_, ?_⟩
    · intro m hm hmd
      rw [hlead] at hm
      rcases hcases with ⟨h, _⟩ | ⟨mid, k, tail, d', h1, h2, h3, h4, _⟩ | ⟨e, _, mid, k, tail, d', c, h1, h2, h3, h4, h5⟩
      · exact h
      · exact (hwhole mid k tail d' m h1 h2 h4 hm).elim
      · exact (hbad mid k tail h1 h5 ns [] (by simp) (by rw [h1]; simp) m hm hmd).elim
    · intro pre k rest d hp hd hdd hfree
      rw [hpl] at hp
      have hp := Option.some.inj hp
      rcases hcases with ⟨_, m, hm, _⟩ | ⟨mid, k', tail, d', h1, h2, h3, h4, h5⟩ | ⟨e, _, mid, k', tail, d', c, h1, h2, h3, h4, h5⟩
      · exact (hwhole pre k rest d m hp hd hfree hm).elim
      · have l1 := hdet _ _ _ _ _ _ _ _ hp h1 hd h2 hfree hdd
        have l2 := hdet _ _ _ _ _ _ _ _ h1 hp h2 hd h4 h3
        obtain ⟨rfl, rfl, rfl, rfl⟩ := hsame _ _ _ _ _ _ _ _ hp h1 hd h2 (Nat.le_antisymm l2 l1)
        exact h5
      · have l1 := hdet _ _ _ _ _ _ _ _ hp h1 hd h2 hfree hdd
        by_cases hlt : mid.length < pre.length
        · exact (hbad mid k' tail h1 h5 pre (k :: rest) hp hlt d hd hdd).elim
        · obtain ⟨rfl, rfl, rfl, rfl⟩ := hsame _ _ _ _ _ _ _ _ hp h1 hd h2 (Nat.le_antisymm (Nat.le_of_not_lt hlt) l1)
          rw [hfree] at h4; cases h4
    · intro hno1 hno2
      rcases hcases with ⟨_, m, hm, hmd⟩ | ⟨mid, k, tail, d', h1, h2, h3, h4, _⟩ | ⟨e, h, _⟩
      · exact absurd ⟨m, (hlead m).2 hm, hmd⟩ hno1
      · exact absurd ⟨mid, k, tail, d', by rw [hpl, h1], h2, h3, h4⟩ hno2
      · rw [h]; simp

theorem rename_fails {s : St} (hg : Good s) {b : Id} (hbd : s.isDir b) {old new : Str} (h : (¬ ∃ d k t, Place s b old d k ∧ s.lookup d k = some t) ∨ ¬ ∃ d k, Place s b new d k) :
    (rename s b old new).1 = s ∧ (rename s b old new).2 ≠ none := by
  unfold rename
  cases hr : resolveParent s b b old with
  | error e => simp
  | ok p =>
    obtain ⟨d, k⟩ := p
    simp only
    cases ht : s.lookup d k with
    | none => simp
    | some t =>
      simp only
      cases hr2 : resolveParent s b b new with
      | error e => simp
      | ok q =>
        rcases h with h | h
        · exact absurd ⟨d, k, t, (resolveParent_iff hg hbd old d k).1 hr, ht⟩ h
        · exact absurd ⟨q.1, q.2, (resolveParent_iff hg hbd new q.1 q.2).1 hr2⟩ h

theorem rename_exact {s : St} (hg : Good s) {b : Id} (hbd : s.isDir b) {old new : Str} {d t e : Id} {k j : Str} (hp : Place s b old d k) (ht : s.lookup d k = some t) (hq : Place s b new e j) :
    (∀ x, s.lookup e j = some x → s.entries x ≠ [] → rename s b old new = (s, some .notEmpty)) ∧
    ((∀ x, s.lookup e j = some x → s.entries x = []) → ∃ s', rename s b old new = (s', none) ∧ Moves s s' d k t e j ∧
      s'.closed = s.closed ++ (match s.lookup e j with | none => [] | some x => s.viewsOf x)) := by
  have hrp := (resolveParent_iff hg hbd old d k).2 hp
  have hrq := (resolveParent_iff hg hbd new e j).2 hq
  have hok : rename s b old new = match s.lookup e j with
      | none => (s.move d k t e j, none)
      | some ex => if s.entries ex ≠ [] then (s, some .notEmpty) else (((s.removeEntry e j).closeView ex).move d k t e j, none) := by
    unfold rename
    rw [hrp]; simp only; rw [ht]; simp only; rw [hrq]; rfl
  have hed := resolveParent_dir hrq
  rw [hok]
  refine ⟨fun x hx hne => by rw [hx]; simp only; rw [if_pos hne], fun hemp => ?_⟩
  cases hx : s.lookup e j with
  | none =>
    refine ⟨_, rfl, ?_, by rw [closed_move]; simp⟩
    refine moves hg ht hed (Shr.refl s) ?_ ?_
    · intro a c
      split
      · rename_i h; rw [h.1, h.2, hx]
      · rfl
    · intro a
      split
      · symm; apply List.filter_eq_self.2; intro c _; rw [hx]; rfl
      · rfl
  | some x =>
    simp only
    refine ⟨_, by rw [if_neg (by rw [hemp x hx]; simp)], ?_, ?_⟩
    · refine moves hg ht hed ((shr_removeEntry s e j).trans (shr_closeView _ x)) ?_ ?_
      · intro a c; rw [lookup_closeView, lookup_removeEntry]
      · intro a
        rw [entries_closeView]
        split
        · rename_i h
          subst h
          rw [entries_removeEntry hg hx]
          apply List.filter_congr
          intro c _
          rw [hx]
          simp only [ne_eq, Option.some.injEq, decide_not]
          congr 1
          exact decide_eq_decide.2 eq_comm
        · rename_i h; exact entries_removeEntry_ne s e j h
    · rw [closed_move, closed_closeView, closed_removeEntry', viewsOf_look (look_removeEntry s e j)]

/-! ## Properties -/

theorem good_after (hist : List (Nat × Call)) {b : Id} (hb : b ∈ (after hist).roots) : Good (after hist).st ∧ (after hist).st.isDir b :=
  ⟨(wgood_run hist _ wgood_init).good, (wgood_run hist _ wgood_init).roots b hb⟩

/-- **C77** (Mkdir). After any history: one new empty directory, last in its directory, exactly when the name has a place and nothing is there; otherwise an error ("exists" when
something is there) and nothing changes. -/
theorem C77_mkdir (hist : List (Nat × Call)) (b : Id) (hb : b ∈ (after hist).roots) (name : Str) (mode : Nat) :
    Creates (after hist).st b name (fun d k => .dir ⟨k, some d, [], [], mode⟩) (mkdirOne (after hist).st b name mode) :=
  creates_mkdir (good_after hist hb).1 (good_after hist hb).2 name mode

/-- **C77** (Symlink). One new link with exactly the given target; the last element of the name is not followed. -/
theorem C77_symlink (hist : List (Nat × Call)) (b : Id) (hb : b ∈ (after hist).roots) (target name : Str) :
    Creates (after hist).st b name (fun _ k => .link k target) (symlink (after hist).st b target name) :=
  creates_symlink (good_after hist hb).1 (good_after hist hb).2 target name

/-- **C77** (Link). The old name must lead to a file; then one new file with the view and mode of that file. -/
theorem C77_link (hist : List (Nat × Call)) (b : Id) (hb : b ∈ (after hist).roots) (old new : Str) :
    ((¬ ∃ m nm mode view, LeadsTo (after hist).st b old m ∧ (after hist).st.nodes[m]? = some (.file nm mode view)) →
      (link (after hist).st b old new).1 = (after hist).st ∧ (link (after hist).st b old new).2 ≠ none) ∧
    (∀ m nm mode view, LeadsTo (after hist).st b old m → (after hist).st.nodes[m]? = some (.file nm mode view) →
      Creates (after hist).st b new (fun _ k => .file k mode view) (link (after hist).st b old new)) :=
  creates_link (good_after hist hb).1 (good_after hist hb).2 old new

/-- Opening what is there. -/
structure Opens (s : St) (b : Id) (name : Str) (write : Bool) (r : St × Except OpenErr Id) : Prop where
  same : r.1 = s
  missing : (¬ ∃ m, LeadsTo s b name m) → ∃ e, r.2 = .error (.tree e)
  file : ∀ m nm mode v, LeadsTo s b name m → s.nodes[m]? = some (.file nm mode v) → r.2 = .ok m
  dir : ∀ m, LeadsTo s b name m → s.isDir m → r.2 = if write then .error .badf else .ok m

theorem opens {s : St} (hg : Good s) {b : Id} (hb : s.isDir b) (name : Str) (write : Bool) : Opens s b name write (openFile s b name false false write 0) := by
  have huniq : ∀ {r : Res} {m}, resolve s b b name true = .ok r → LeadsTo s b name m → r.node = m := by
    intro r m hr hm
    obtain ⟨r', hr', rfl⟩ := (resolve_iff hg hb name m).2 hm
    rw [hr] at hr'; cases hr'; rfl
  unfold openFile
  simp only [Bool.false_eq_true, if_false]
  cases hr : resolve s b b name true with
  | error e =>
    have hno : ¬ ∃ m, LeadsTo s b name m := by
      rintro ⟨m, hm⟩
      obtain ⟨r', hr', _⟩ := (resolve_iff hg hb name m).2 hm
      rw [hr] at hr'; cases hr'
    exact ⟨rfl, fun _ => ⟨e, rfl⟩, fun m _ _ _ hm => absurd ⟨m, hm⟩ hno, fun m hm => absurd ⟨m, hm⟩ hno⟩
  | ok r =>
    have hm := (resolve_iff hg hb name r.node).1 ⟨r, hr, rfl⟩
    simp only
    refine ⟨?_, fun h => absurd ⟨_, hm⟩ h, ?_, ?_⟩
    · split
      · split <;> rfl
      · rfl
      · rfl
    · intro m nm mode v hl hf
      obtain rfl := huniq hr hl
      rw [hf]
    · intro m hl hd
      obtain rfl := huniq hr hl
      obtain ⟨x, hx⟩ := hd
      rw [dir?_iff] at hx
      rw [hx]
      cases write <;> rfl

/-- **C77** (OpenFile). Without O_CREATE the tree stays, and the handle is for what the name leads to; a directory is not opened to write. With O_CREATE a missing entry is made, and
the handle is for the new file; an existing one is refused with O_EXCL and otherwise opened as without O_CREATE. -/
theorem C77_open (hist : List (Nat × Call)) (b : Id) (hb : b ∈ (after hist).roots) (name : Str) (excl write : Bool) (mode : Nat) :
    (∀ creat, (creat = false ∨ ∃ d k c, Place (after hist).st b name d k ∧ (after hist).st.lookup d k = some c ∧ excl = false) →
      Opens (after hist).st b name write (openFile (after hist).st b name creat excl write mode)) ∧
    ((¬ ∃ d k, Place (after hist).st b name d k) → ∃ e, openFile (after hist).st b name true excl write mode = ((after hist).st, .error (.tree e))) ∧
    (∀ d k c, Place (after hist).st b name d k → (after hist).st.lookup d k = some c → excl = true →
      openFile (after hist).st b name true excl write mode = ((after hist).st, .error (.tree .exist))) ∧
    (∀ d k, Place (after hist).st b name d k → (after hist).st.lookup d k = none → ∃ s' c, openFile (after hist).st b name true excl write mode = (s', .ok c) ∧
      s'.lookup d k = some c ∧ Adds (after hist).st s' d k (.file k mode (after hist).st.nextView)) := by
  obtain ⟨hg, hbd⟩ := good_after hist hb
  generalize (after hist).st = s at *
  refine ⟨?_, ?_, ?_, ?_⟩
  · rintro creat (rfl | ⟨d, k, c, hp, hc, rfl⟩)
    · exact opens hg hbd name write
    · have h0 := opens hg hbd name write
      cases creat with
      | false => exact h0
      | true =>
        have : openFile s b name true false write mode = openFile s b name false false write 0 := by
          unfold openFile
          simp only [if_true, Bool.false_eq_true, if_false]
          rw [(resolveParent_iff hg hbd name d k).2 hp]
          simp only
          rw [hc]
        rw [this]; exact h0
  · intro hno
    cases hr : resolveParent s b b name with
    | error e => exact ⟨e, by unfold openFile; simp only [if_true]; rw [hr]⟩
    | ok p => exact absurd ⟨p.1, p.2, (resolveParent_iff hg hbd name p.1 p.2).1 hr⟩ hno
  · intro d k c hp hc hx
    unfold openFile
    simp only [if_true]
    rw [(resolveParent_iff hg hbd name d k).2 hp]
    simp only
    rw [hc, hx]
    rfl
  · intro d k hp hc
    obtain ⟨h1, h2⟩ := (creates_create hg hbd name mode).made d k hp hc
    refine ⟨(create s b name mode).1, s.nodes.length, ?_, ?_, h2⟩
    · unfold openFile
      simp only [if_true]
      rw [(resolveParent_iff hg hbd name d k).2 hp]
      simp only
      rw [hc]
    · unfold create
      rw [(resolveParent_iff hg hbd name d k).2 hp]
      simp only
      rw [hc]
      show (({ s with nextView := s.nextView + 1 } : St).put d k (.file k mode s.nextView)).lookup d k = _
      rw [lookup_put (s := { s with nextView := s.nextView + 1 }) (n := .file k mode s.nextView) (show s.isDir d from resolveParent_dir ((resolveParent_iff hg hbd name d k).2 hp)) trivial, if_pos ⟨rfl, rfl⟩]

/-- **C77** (Remove). The entry is gone and nothing else changes, exactly when it exists, is not a directory with entries, and is not held open where that is refused. -/
theorem C77_remove (hist : List (Nat × Call)) (b : Id) (hb : b ∈ (after hist).roots) (name : Str) (busy : Bool) :
    ((¬ ∃ d k, Place (after hist).st b name d k) → (remove (after hist).st b name busy).1 = (after hist).st ∧ (remove (after hist).st b name busy).2 ≠ none) ∧
    (∀ d k, Place (after hist).st b name d k → (after hist).st.lookup d k = none → remove (after hist).st b name busy = ((after hist).st, some .notExist)) ∧
    (∀ d k t, Place (after hist).st b name d k → (after hist).st.lookup d k = some t →
      ((after hist).st.entries t ≠ [] → remove (after hist).st b name busy = ((after hist).st, some .notEmpty)) ∧
      ((after hist).st.entries t = [] → busy = true → remove (after hist).st b name busy = ((after hist).st, some .sharing)) ∧
      ((after hist).st.entries t = [] → busy = false → ∃ s', remove (after hist).st b name busy = (s', none) ∧ Removes (after hist).st s' d k t ∧
        s'.closed = (after hist).st.closed ++ (after hist).st.viewsOf t)) := by
  obtain ⟨hg, hbd⟩ := good_after hist hb
  generalize (after hist).st = s at *
  have hok : ∀ d k, Place s b name d k → remove s b name busy = match s.lookup d k with
      | none => (s, some .notExist)
      | some t => if s.entries t ≠ [] then (s, some .notEmpty) else if busy then (s, some .sharing) else ((s.removeEntry d k).closeView t, none) := by
    intro d k hp
    unfold remove
    rw [(resolveParent_iff hg hbd name d k).2 hp]
    rfl
  refine ⟨?_, ?_, ?_⟩
  · intro hno
    unfold remove
    cases hr : resolveParent s b b name with
    | error e => simp
    | ok p => exact absurd ⟨p.1, p.2, (resolveParent_iff hg hbd name p.1 p.2).1 hr⟩ hno
  · intro d k hp hc; rw [hok d k hp, hc]
  · intro d k t hp hc
    rw [hok d k hp, hc]
    refine ⟨fun h => by simp only [if_pos h], fun h hbz => by simp [h, hbz], fun h hbz => ⟨(s.removeEntry d k).closeView t, by simp [h, hbz], ?_, ?_⟩⟩
    · have := removes_entry hg hc
      exact ⟨⟨fun e j hne => by rw [lookup_closeView]; exact this.rest.entries e j hne, fun e he => by rw [entries_closeView]; exact this.rest.lists e he⟩,
        ⟨by rw [lookup_closeView]; exact this.gone.1, by rw [entries_closeView]; exact this.gone.2⟩, fun i => by rw [look_closeView]; exact this.nodes i⟩
    · rw [closed_closeView, closed_removeEntry', viewsOf_look (look_removeEntry s d k)]

/-- **C77** (RemoveAll). A name ending in "." and the root are refused; a missing entry is success; otherwise, when the call ends (it does in every tree without cycles,
`C48_removeAll_ends_partial`), the entry is gone, everything under it is emptied, the views of all files under it and no others are closed, and nothing else changes.  Not covered: a
directory moved into itself, where the call never ends (`C48_counterexample_rename_into_itself`). -/
theorem C77_removeAll_partial (hist : List (Nat × Call)) (b : Id) (hb : b ∈ (after hist).roots) (name : Str) (fuel : Nat) :
    (endsWithDot name = true ∨ placeOf name = some [] ∨ (¬ ∃ d k, Place (after hist).st b name d k) →
      (removeAll fuel (after hist).st b name).1 = (after hist).st ∧ (removeAll fuel (after hist).st b name).2 ≠ none) ∧
    (endsWithDot name = false → ∀ d k, Place (after hist).st b name d k →
      ((after hist).st.lookup d k = none → removeAll fuel (after hist).st b name = ((after hist).st, none)) ∧
      (∀ t, (after hist).st.lookup d k = some t → (removeAll fuel (after hist).st b name).2 ≠ some .stuck →
        ∃ s', removeAll fuel (after hist).st b name = (s', none) ∧ RemovesAll (after hist).st s' d k t)) := by
  obtain ⟨hg, hbd⟩ := good_after hist hb
  generalize (after hist).st = s at *
  constructor
  · intro h
    unfold removeAll
    by_cases hdot : endsWithDot name = true
    · rw [if_pos hdot]; simp
    · rw [if_neg hdot]
      rcases normalize_spec name with ⟨e', he', hno⟩ | ⟨ns, hpl, hok, hd, _⟩
      · rw [he']; simp
      · rw [hok]
        simp only
        by_cases hns : ns = []
        · rw [if_pos (hd.2 hns)]; simp
        · rw [if_neg (fun h => hns (hd.1 h))]
          cases hr : resolveParent s b b name with
          | error e => simp
          | ok p =>
            rcases h with h | h | h
            · exact absurd h hdot
            · rw [hpl] at h; exact absurd (Option.some.inj h) hns
            · exact absurd ⟨p.1, p.2, (resolveParent_iff hg hbd name p.1 p.2).1 hr⟩ h
  · intro hdot d k hp
    have hrp := (resolveParent_iff hg hbd name d k).2 hp
    have hok : removeAll fuel s b name = match s.lookup d k with
        | none => (s, none)
        | some t => match removeSubtree fuel t s with
          | none => (s, some .stuck)
          | some s1 => (s1.removeEntry d k, none) := by
      unfold removeAll
      rw [if_neg (by rw [hdot]; simp)]
      obtain ⟨ns0, n0, hpl0, _⟩ := hp
      rcases normalize_spec name with ⟨e', he', hno⟩ | ⟨ns, hpl, hok, hd, _⟩
      · rw [hno] at hpl0; cases hpl0
      · rw [hok]
        simp only
        have hns : ns ≠ [] := by rw [hpl] at hpl0; rw [Option.some.inj hpl0]; simp
        rw [if_neg (fun h => hns (hd.1 h)), hrp]
        rfl
    rw [hok]
    refine ⟨fun h => by rw [h], fun t ht hst => ?_⟩
    rw [ht] at hst ⊢
    simp only at hst ⊢
    cases h1 : removeSubtree fuel t s with
    | none => rw [h1] at hst; exact absurd rfl hst
    | some s1 => exact ⟨_, rfl, removesAll hg ht h1⟩

/-- **C77** (Rename). Both names need a place and the old one an entry; a directory with entries is not replaced. Then the entry is moved, what was at the new name is replaced (its
view closed when it is a file), and nothing else changes. -/
theorem C77_rename (hist : List (Nat × Call)) (b : Id) (hb : b ∈ (after hist).roots) (old new : Str) :
    ((¬ ∃ d k t, Place (after hist).st b old d k ∧ (after hist).st.lookup d k = some t) ∨ (¬ ∃ d k, Place (after hist).st b new d k) →
      (rename (after hist).st b old new).1 = (after hist).st ∧ (rename (after hist).st b old new).2 ≠ none) ∧
    (∀ d k t e j, Place (after hist).st b old d k → (after hist).st.lookup d k = some t → Place (after hist).st b new e j →
      (∀ x, (after hist).st.lookup e j = some x → (after hist).st.entries x ≠ [] → rename (after hist).st b old new = ((after hist).st, some .notEmpty)) ∧
      ((∀ x, (after hist).st.lookup e j = some x → (after hist).st.entries x = []) → ∃ s', rename (after hist).st b old new = (s', none) ∧ Moves (after hist).st s' d k t e j ∧
        s'.closed = (after hist).st.closed ++ (match (after hist).st.lookup e j with | none => [] | some x => (after hist).st.viewsOf x))) := by
  obtain ⟨hg, hbd⟩ := good_after hist hb
  exact ⟨rename_fails hg hbd, fun d k t e j hp ht hq => rename_exact hg hbd hp ht hq⟩

/-- **C77** (MkdirAll). A name that leads to a directory: success, nothing changes. A name whose first missing element is in an existing directory: that and all later elements are
made, one directory in the other, and nothing else changes. Anything else (an element that is a file, a dangling link or leads outside): an error, and nothing is made. -/
theorem C77_mkdirAll (hist : List (Nat × Call)) (b : Id) (hb : b ∈ (after hist).roots) (name : Str) (mode : Nat) :
    (∀ m, LeadsTo (after hist).st b name m → (after hist).st.isDir m → mkdirAll (after hist).st b name mode = ((after hist).st, none)) ∧
    (∀ pre k rest d, placeOf name = some (pre ++ k :: rest) → Leads (after hist).st b pre d → (after hist).st.isDir d → (after hist).st.lookup d k = none →
      ∃ s', mkdirAll (after hist).st b name mode = (s', none) ∧ MakesChain mode (after hist).st s' d (k :: rest)) ∧
    ((¬ ∃ m, LeadsTo (after hist).st b name m ∧ (after hist).st.isDir m) →
      (¬ ∃ pre k rest d, placeOf name = some (pre ++ k :: rest) ∧ Leads (after hist).st b pre d ∧ (after hist).st.isDir d ∧ (after hist).st.lookup d k = none) →
      (mkdirAll (after hist).st b name mode).1 = (after hist).st ∧ (mkdirAll (after hist).st b name mode).2 ≠ none) :=
  mkdirAll_exact (good_after hist hb).1 (good_after hist hb).2 name mode

/-! ### Concrete cases -/

deriving instance DecidableEq for Except

/-- mkdir a, a link l to a, a file a/f, a dangling link x. -/
def sample : List (Nat × Call) := [(0, .mkdir ['a'] 0), (0, .symlink ['a'] ['l']), (0, .create ['a', '/', 'f'] 0), (0, .symlink ['n'] ['x'])]

/-- The place of l/g is the entry g of the directory a, which is free; that of l/f is taken; x leads nowhere; a is a root's subdirectory with an entry. -/
example : resolveParent (after sample).st 0 0 ['l', '/', 'g'] = .ok (1, ['g']) ∧ (after sample).st.lookup 1 ['g'] = none ∧ (after sample).st.lookup 1 ['f'] = some 3 ∧
    (after sample).st.entries 1 = [3] ∧ 0 ∈ (after sample).roots := by decide +kernel

/-- Through the link: the directories g and g/h are made in a. -/
example : (mkdirAll (after sample).st 0 ['l', '/', 'g', '/', 'h'] 0).2 = none ∧ (mkdirAll (after sample).st 0 ['l', '/', 'g', '/', 'h'] 0).1.entries 1 = [3, 5] ∧
    (mkdirAll (after sample).st 0 ['l', '/', 'f', '/', 'h'] 0) = ((after sample).st, some .notEmpty) := by decide +kernel

/-- The rename through the link replaces nothing and moves f out of a; RemoveAll of a closes the view of f. -/
example : (rename (after sample).st 0 ['l', '/', 'f'] ['g']).1.lookup 0 ['g'] = some 3 ∧ (removeAll 9 (after sample).st 0 ['a']).1.closed = [0] := by decide +kernel

/-- **C77** (note). OpenFile with O_CREATE on a dangling link fails with "does not exist": the target is not created. -/
theorem C77_note_create_through_dangling_link : openFile (after sample).st 0 ['x'] true false true 0 = ((after sample).st, .error (.tree .notExist)) := by
  decide +kernel

end Verif.Synth.Tree
