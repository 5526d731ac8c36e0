import Verif.Synth.TreeSpec
/-
Invariant of the synthetic tree and its preservation by the primitive edits (helper lemmas for C48, C49, C51).
-/
namespace Verif.Synth.Tree
open Verif.Path

/-- A node without its entries. -/
def skel : Node → Node
  | .dir d => .dir { d with ordered := [], index := [] }
  | n => n

/-- What a node is, apart from what it contains. -/
def St.look (s : St) (i : Id) : Option Node := (s.nodes[i]?).map skel

def St.isDir (s : St) (i : Id) : Prop := ∃ r, s.dir? i = some r

/-- List and index of a directory agree. -/
structure DirOK (ne : Nat) (r : DirRec) : Prop where
  keys : (r.index.map (·.1)).Nodup
  perm : (r.index.map (·.2)).Perm r.ordered
  elems : (r.ordered.map (·.1)).Nodup
  bound : ∀ e ∈ r.ordered, e.1 < ne

/-- The invariant. -/
structure Good (s : St) : Prop where
  dirs : ∀ d r, s.dir? d = some r → DirOK s.nextElem r
  child : ∀ d k c, s.lookup d k = some c → ∃ n, s.look c = some n ∧ n.name = k ∧ ∀ r, n = .dir r → r.parent = some d
  single : ∀ d k d' k' c, s.lookup d k = some c → s.lookup d' k' = some c → d = d' ∧ k = k'
  root : s.isDir 0
  rootFree : ∀ d k, s.lookup d k ≠ some 0
  parent : ∀ d r p, s.dir? d = some r → r.parent = some p → s.isDir p
  top : ∀ r, s.look 0 = some (.dir r) → r.parent = none

theorem dir?_iff {s : St} {i : Id} {r : DirRec} : s.dir? i = some r ↔ s.nodes[i]? = some (.dir r) := by
  unfold St.dir?
  cases h : s.nodes[i]? with
  | none => simp
  | some n => cases n <;> simp

theorem lt_of_dir {s : St} {i : Id} {r : DirRec} (h : s.dir? i = some r) : i < s.nodes.length := by
  rw [dir?_iff] at h
  exact (List.getElem?_eq_some_iff.1 h).1

theorem look_dir {s : St} {i : Id} {r : DirRec} (h : s.dir? i = some r) : s.look i = some (.dir { r with ordered := [], index := [] }) := by
  rw [dir?_iff] at h
  simp [St.look, h, skel]

theorem isDir_iff_look {s : St} {i : Id} : s.isDir i ↔ ∃ r, s.look i = some (.dir r) := by
  constructor
  · intro ⟨r, h⟩; exact ⟨_, look_dir h⟩
  · intro ⟨r, h⟩
    unfold St.look at h
    cases hn : s.nodes[i]? with
    | none => rw [hn] at h; cases h
    | some n =>
      cases n with
      | dir d => exact ⟨d, dir?_iff.2 hn⟩
      | file => rw [hn] at h; cases h
      | link => rw [hn] at h; cases h

theorem getElem?_set_ne' {α : Type _} {l : List α} {i j : Nat} {x : α} (h : i ≠ j) : (l.set i x)[j]? = l[j]? := by
  rw [List.getElem?_set]; simp [h]

theorem getElem?_set_self' {α : Type _} {l : List α} {i : Nat} {x : α} (h : i < l.length) : (l.set i x)[i]? = some x := by
  rw [List.getElem?_set]; simp [h]

theorem dir?_setDir {s : St} {i j : Id} {d : DirRec} (h : i < s.nodes.length) : (s.setDir i d).dir? j = if i = j then some d else s.dir? j := by
  unfold St.dir? St.setDir
  by_cases hij : i = j
  · subst hij; simp only [getElem?_set_self' h, if_true]
  · simp only [getElem?_set_ne' hij, if_neg hij]

/-! ### Maps -/

theorem assoc_mem {β : Type} {k : Str} {l : List (Str × β)} {v : β} (h : assoc k l = some v) : (k, v) ∈ l := by
  induction l with
  | nil => cases h
  | cons p rest ih =>
    simp only [assoc] at h
    split at h
    · rename_i hk; cases h; rw [← hk]; exact List.mem_cons_self
    · exact List.mem_cons_of_mem _ (ih h)

theorem assoc_of_mem {β : Type} {k : Str} {l : List (Str × β)} {v : β} (hn : (l.map (·.1)).Nodup) (h : (k, v) ∈ l) : assoc k l = some v := by
  induction l with
  | nil => cases h
  | cons p rest ih =>
    simp only [List.map_cons, List.nodup_cons] at hn
    simp only [assoc]
    rcases List.mem_cons.1 h with h | h
    · subst h; simp
    · split
      · rename_i hk
        exfalso
        apply hn.1
        rw [hk]
        exact List.mem_map.2 ⟨(k, v), h, rfl⟩
      · exact ih hn.2 h

theorem assoc_del {β : Type} (k k' : Str) (l : List (Str × β)) : assoc k' (del k l) = if k' = k then none else assoc k' l := by
  induction l with
  | nil => simp [del, assoc]
  | cons p rest ih =>
    obtain ⟨a, v⟩ := p
    by_cases hak : a = k
    · subst hak
      have : del a ((a, v) :: rest) = del a rest := by simp [del]
      rw [this, ih]
      by_cases h : k' = a
      · rw [if_pos h, if_pos h]
      · rw [if_neg h, if_neg h]; simp [assoc, Ne.symm h]
    · have : del k ((a, v) :: rest) = (a, v) :: del k rest := by simp [del, hak]
      rw [this]
      simp only [assoc]
      by_cases h : a = k'
      · subst h; simp [hak]
      · rw [if_neg h, ih, if_neg h]

/-! ### The effect of the primitives on lookups and nodes -/

theorem lookup_of_dir {s : St} {d : Id} {r : DirRec} (h : s.dir? d = some r) (k : Str) : s.lookup d k = (assoc k r.index).map (·.2) := by
  unfold St.lookup; rw [h]

theorem lookup_isDir {s : St} {d : Id} {k : Str} {c : Id} (h : s.lookup d k = some c) : s.isDir d := by
  unfold St.lookup at h
  cases hd : s.dir? d with
  | none => rw [hd] at h; cases h
  | some r => exact ⟨r, hd⟩

theorem look_setDir {s : St} {i j : Id} {r d : DirRec} (h : s.dir? i = some r) (hn : d.name = r.name) (hp : d.parent = r.parent) (hm : d.mode = r.mode) :
    (s.setDir i d).look j = s.look j := by
  unfold St.look St.setDir
  by_cases hij : i = j
  · subst hij
    rw [getElem?_set_self' (lt_of_dir h), dir?_iff.1 h]
    simp [skel, hn, hp, hm]
  · rw [getElem?_set_ne' hij]

theorem look_removeEntry (s : St) (d : Id) (k : Str) (i : Id) : (s.removeEntry d k).look i = s.look i := by
  unfold St.removeEntry
  split
  · rfl
  · rename_i r hr
    split
    · rfl
    · exact look_setDir hr rfl rfl rfl

theorem look_pushBack (s : St) (d : Id) (k : Str) (c i : Id) : (s.pushBack d k c).look i = s.look i := by
  unfold St.pushBack
  split
  · rfl
  · rename_i r hr
    exact look_setDir hr rfl rfl rfl

theorem look_addEntry (s : St) (d : Id) (k : Str) (c i : Id) : (s.addEntry d k c).look i = s.look i := by
  unfold St.addEntry; rw [look_pushBack, look_removeEntry]

theorem look_clear (s : St) (d i : Id) : (s.clear d).look i = s.look i := by
  unfold St.clear
  split
  · rfl
  · rename_i r hr
    exact look_setDir hr rfl rfl rfl

theorem look_closeView (s : St) (d i : Id) : (s.closeView d).look i = s.look i := by
  unfold St.closeView; split <;> rfl

theorem lookup_closeView (s : St) (i d : Id) (k : Str) : (s.closeView i).lookup d k = s.lookup d k := by
  unfold St.closeView; split <;> rfl

theorem isDir_congr {s s' : St} (h : ∀ i, s'.look i = s.look i) (i : Id) : s'.isDir i ↔ s.isDir i := by
  rw [isDir_iff_look, isDir_iff_look, h]

theorem lookup_setDir {s : St} {d d' : Id} {r r' : DirRec} (h : s.dir? d = some r) (k : Str) :
    (s.setDir d r').lookup d' k = if d' = d then (assoc k r'.index).map (·.2) else s.lookup d' k := by
  unfold St.lookup
  rw [dir?_setDir (lt_of_dir h)]
  by_cases hd : d' = d
  · subst hd; simp
  · simp [hd, Ne.symm hd]

theorem lookup_removeEntry (s : St) (d d' : Id) (k k' : Str) : (s.removeEntry d k).lookup d' k' = if d' = d ∧ k' = k then none else s.lookup d' k' := by
  unfold St.removeEntry
  split
  · rename_i hd
    split
    · rename_i hc
      unfold St.lookup; rw [hc.1, hd]
    · rfl
  · rename_i r hr
    split
    · rename_i ha
      split
      · rename_i hc
        rw [hc.1, hc.2, lookup_of_dir hr, ha]; rfl
      · rfl
    · rename_i e ha
      rw [lookup_setDir hr]
      by_cases hd : d' = d
      · subst hd
        rw [if_pos rfl]
        simp only [assoc_del]
        by_cases hk : k' = k
        · simp [hk]
        · simp [hk, lookup_of_dir hr]
      · rw [if_neg hd, if_neg (fun h => hd h.1)]

theorem lookup_pushBack {s : St} {d : Id} (hd : s.isDir d) (d' : Id) (k k' : Str) (c : Id) :
    (s.pushBack d k c).lookup d' k' = if d' = d ∧ k' = k then some c else s.lookup d' k' := by
  obtain ⟨r, hr⟩ := hd
  have : (s.pushBack d k c).lookup d' k' = (s.setDir d { r with ordered := r.ordered ++ [(s.nextElem, c)], index := (k, (s.nextElem, c)) :: r.index }).lookup d' k' := by
    unfold St.pushBack; rw [hr]; rfl
  rw [this, lookup_setDir hr]
  by_cases hdd : d' = d
  · subst hdd
    rw [if_pos rfl]
    simp only [assoc]
    by_cases hk : k = k'
    · subst hk; simp
    · rw [if_neg hk, if_neg (fun h => hk h.2.symm), lookup_of_dir hr]
  · rw [if_neg hdd, if_neg (fun h => hdd h.1)]

theorem lookup_addEntry {s : St} {d : Id} (hd : s.isDir d) (d' : Id) (k k' : Str) (c : Id) :
    (s.addEntry d k c).lookup d' k' = if d' = d ∧ k' = k then some c else s.lookup d' k' := by
  unfold St.addEntry
  rw [lookup_pushBack ((isDir_congr (look_removeEntry s d k) d).2 hd), lookup_removeEntry]
  split
  · rfl
  · rfl

theorem lookup_clear (s : St) (d d' : Id) (k : Str) : (s.clear d).lookup d' k = if d' = d then none else s.lookup d' k := by
  unfold St.clear
  split
  · rename_i hd
    split
    · rename_i h; subst h; unfold St.lookup; rw [hd]
    · rfl
  · rename_i r hr
    rw [lookup_setDir hr]
    rfl

theorem nextElem_removeEntry (s : St) (d : Id) (k : Str) : (s.removeEntry d k).nextElem = s.nextElem := by
  unfold St.removeEntry
  split
  · rfl
  · split <;> rfl

theorem nodes_length_removeEntry (s : St) (d : Id) (k : Str) : (s.removeEntry d k).nodes.length = s.nodes.length := by
  unfold St.removeEntry
  split
  · rfl
  · split
    · rfl
    · simp [St.setDir]

/-! ### Lists and indices stay in agreement -/

theorem removeEntry_ok {ne : Nat} {r : DirRec} {k : Str} {e : Nat × Id} (h : DirOK ne r) (ha : assoc k r.index = some e) :
    DirOK ne { r with ordered := r.ordered.filter (fun x => x.1 ≠ e.1), index := del k r.index } := by
  have hmem := assoc_mem ha
  have hel : ((r.index.map (·.2)).map (·.1)).Nodup := (h.perm.map _).nodup_iff.2 h.elems
  have hkey : ∀ p ∈ r.index, (p.1 ≠ k ↔ p.2.1 ≠ e.1) := by
    intro p hp
    constructor
    · intro hne heq
      apply hne
      have inj : ∀ (l : List (Str × (Nat × Id))), ((l.map (·.2)).map (·.1)).Nodup → ∀ a ∈ l, ∀ b ∈ l, a.2.1 = b.2.1 → a = b := by
        intro l
        induction l with
        | nil => intro _ a ha; cases ha
        | cons x l ih =>
          intro hn a ha b hb hab
          simp only [List.map_cons, List.nodup_cons] at hn
          rcases List.mem_cons.1 ha with ha | ha <;> rcases List.mem_cons.1 hb with hb | hb
          · rw [ha, hb]
          · exfalso; apply hn.1; rw [← ha, hab]
            exact List.mem_map.2 ⟨b.2, List.mem_map.2 ⟨b, hb, rfl⟩, rfl⟩
          · exfalso; apply hn.1; rw [← hb, ← hab]
            exact List.mem_map.2 ⟨a.2, List.mem_map.2 ⟨a, ha, rfl⟩, rfl⟩
          · exact ih hn.2 a ha b hb hab
      have := inj r.index hel p hp (k, e) hmem heq
      rw [this]
    · intro hne heq
      apply hne
      obtain ⟨pk, pv⟩ := p
      simp only at heq
      subst heq
      have := assoc_of_mem h.keys hp
      rw [ha] at this
      cases this
      rfl
  have hdel : del k r.index = r.index.filter (fun p => p.2.1 ≠ e.1) := by
    unfold del
    apply List.filter_congr
    intro p hp
    simp only [ne_eq, decide_eq_decide]
    exact hkey p hp
  refine ⟨?_, ?_, ?_, ?_⟩
  · exact List.Nodup.sublist (List.Sublist.map _ List.filter_sublist) h.keys
  · simp only [hdel]
    have : (r.index.filter (fun p => decide (p.2.1 ≠ e.1))).map (·.2) = (r.index.map (·.2)).filter (fun x => decide (x.1 ≠ e.1)) := by
      rw [List.filter_map]; rfl
    rw [this]
    exact h.perm.filter _
  · exact List.Nodup.sublist (List.Sublist.map _ List.filter_sublist) h.elems
  · intro x hx
    exact h.bound x (List.mem_filter.1 hx).1

theorem pushBack_ok {ne : Nat} {r : DirRec} {k : Str} {c : Id} (h : DirOK ne r) (ha : assoc k r.index = none) :
    DirOK (ne + 1) { r with ordered := r.ordered ++ [(ne, c)], index := (k, (ne, c)) :: r.index } := by
  refine ⟨?_, ?_, ?_, ?_⟩
  · simp only [List.map_cons, List.nodup_cons]
    refine ⟨?_, h.keys⟩
    intro hm
    obtain ⟨⟨k', v⟩, hv, hk⟩ := List.mem_map.1 hm
    simp only at hk
    subst hk
    rw [assoc_of_mem h.keys hv] at ha
    cases ha
  · simp only [List.map_cons]
    exact (List.Perm.cons _ h.perm).trans (List.perm_append_comm (l₁ := [(ne, c)]))
  · simp only [List.map_append, List.map_cons, List.map_nil]
    rw [List.nodup_append]
    refine ⟨h.elems, by simp, ?_⟩
    intro a ha' b hb
    simp at hb
    subst hb
    obtain ⟨x, hx, rfl⟩ := List.mem_map.1 ha'
    have := h.bound x hx
    omega
  · intro x hx
    rcases List.mem_append.1 hx with hx | hx
    · have := h.bound x hx; omega
    · simp at hx; subst hx; simp

theorem DirOK.mono {ne ne' : Nat} {r : DirRec} (h : DirOK ne r) (hle : ne ≤ ne') : DirOK ne' r :=
  ⟨h.keys, h.perm, h.elems, fun e he => Nat.lt_of_lt_of_le (h.bound e he) hle⟩

/-! ### Preservation -/

/-- Entries only disappear, nodes keep what they are. -/
theorem Good.shrink {s s' : St} (h : Good s) (hl : ∀ i, s'.look i = s.look i) (hk : ∀ d k c, s'.lookup d k = some c → s.lookup d k = some c)
    (hd : ∀ d r, s'.dir? d = some r → DirOK s'.nextElem r) : Good s' := by
  refine ⟨hd, ?_, ?_, (isDir_congr hl 0).2 h.root, ?_, ?_, fun r hr => h.top r ((hl 0).symm.trans hr)⟩
  · intro d k c hc
    rw [hl]
    exact h.child d k c (hk d k c hc)
  · intro d k d' k' c h1 h2
    exact h.single d k d' k' c (hk _ _ _ h1) (hk _ _ _ h2)
  · intro d k hc
    exact h.rootFree d k (hk _ _ _ hc)
  · intro d r p hr hp
    rw [isDir_congr hl]
    have h1 : s.look d = some (.dir { r with ordered := [], index := [] }) := by rw [← hl]; exact look_dir hr
    obtain ⟨r', hr'⟩ := isDir_iff_look.2 ⟨_, h1⟩
    have h2 := look_dir hr'
    rw [h1] at h2
    simp only [Option.some.injEq, Node.dir.injEq, DirRec.mk.injEq] at h2
    exact h.parent d r' p hr' (h2.2.1 ▸ hp)

theorem dirs_removeEntry {s : St} (h : ∀ d r, s.dir? d = some r → DirOK s.nextElem r) (d : Id) (k : Str) :
    ∀ i r, (s.removeEntry d k).dir? i = some r → DirOK s.nextElem r := by
  intro i r hr
  unfold St.removeEntry at hr
  split at hr
  · exact h i r hr
  · rename_i r0 hr0
    split at hr
    · exact h i r hr
    · rename_i e he
      rw [dir?_setDir (lt_of_dir hr0)] at hr
      split at hr
      · cases hr; exact removeEntry_ok (h d r0 hr0) he
      · exact h i r hr

theorem good_removeEntry {s : St} (h : Good s) (d : Id) (k : Str) : Good (s.removeEntry d k) := by
  apply h.shrink (look_removeEntry s d k)
  · intro d' k' c hc
    rw [lookup_removeEntry] at hc
    split at hc
    · cases hc
    · exact hc
  · rw [nextElem_removeEntry]
    exact dirs_removeEntry h.dirs d k

theorem good_closeView {s : St} (h : Good s) (i : Id) : Good (s.closeView i) := by
  unfold St.closeView
  split
  · exact ⟨h.dirs, h.child, h.single, h.root, h.rootFree, h.parent, h.top⟩
  · exact h

theorem good_clear {s : St} (h : Good s) (d : Id) : Good (s.clear d) := by
  apply h.shrink (look_clear s d)
  · intro d' k c hc
    rw [lookup_clear] at hc
    split at hc
    · cases hc
    · exact hc
  · unfold St.clear
    split
    · exact h.dirs
    · rename_i r hr
      intro i r' hr'
      rw [dir?_setDir (lt_of_dir hr)] at hr'
      split at hr'
      · cases hr'
        exact ⟨List.nodup_nil, List.Perm.nil, List.nodup_nil, by simp⟩
      · exact h.dirs i r' hr'

theorem dirs_addEntry {s : St} (h : ∀ d r, s.dir? d = some r → DirOK s.nextElem r) (d : Id) (k : Str) (c : Id) :
    ∀ i r, (s.addEntry d k c).dir? i = some r → DirOK (s.addEntry d k c).nextElem r := by
  intro i r hr
  have h1 := dirs_removeEntry h d k
  unfold St.addEntry St.pushBack at hr ⊢
  cases hd : (s.removeEntry d k).dir? d with
  | none => rw [hd] at hr; simp only at hr ⊢; rw [nextElem_removeEntry]; exact h1 i r hr
  | some r0 =>
    rw [hd] at hr
    simp only at hr ⊢
    rw [nextElem_removeEntry] at hr ⊢
    have hr2 : ((s.removeEntry d k).setDir d { r0 with ordered := r0.ordered ++ [(s.nextElem, c)], index := (k, (s.nextElem, c)) :: r0.index }).dir? i = some r := hr
    rw [dir?_setDir (lt_of_dir hd)] at hr2
    split at hr2
    · cases hr2
      apply pushBack_ok (h1 d r0 hd)
      have := lookup_removeEntry s d d k k
      rw [if_pos ⟨rfl, rfl⟩, lookup_of_dir hd] at this
      cases ha : assoc k r0.index with
      | none => rfl
      | some e => rw [ha] at this; cases this
    · exact (h1 i r hr2).mono (Nat.le_succ _)

/-- Attach an unlisted node. -/
theorem good_addEntry {s : St} (h : Good s) {d : Id} (hd : s.isDir d) (k : Str) (c : Id) {n : Node} (hn : s.look c = some n) (hname : n.name = k)
    (hpar : ∀ r, n = .dir r → r.parent = some d) (h0 : c ≠ 0) (hfree : ∀ d' k', s.lookup d' k' = some c → d' = d ∧ k' = k) : Good (s.addEntry d k c) := by
  have hl := look_addEntry s d k c
  refine ⟨dirs_addEntry h.dirs d k c, ?_, ?_, (isDir_congr hl 0).2 h.root, ?_, ?_, fun r hr => h.top r ((hl 0).symm.trans hr)⟩
  · intro d' k' c' hc
    rw [lookup_addEntry hd] at hc
    rw [hl]
    split at hc
    · rename_i hdk
      cases hc
      rw [hdk.1, hdk.2]
      exact ⟨n, hn, hname, hpar⟩
    · exact h.child d' k' c' hc
  · intro d1 k1 d2 k2 c' h1 h2
    rw [lookup_addEntry hd] at h1 h2
    split at h1 <;> split at h2
    · rename_i e1 e2; exact ⟨e1.1.trans e2.1.symm, e1.2.trans e2.2.symm⟩
    · rename_i e1 e2; cases h1; exact absurd (hfree _ _ h2) e2
    · rename_i e1 e2; cases h2; exact absurd (hfree _ _ h1) e1
    · exact h.single d1 k1 d2 k2 c' h1 h2
  · intro d' k' hc
    rw [lookup_addEntry hd] at hc
    split at hc
    · cases hc; exact h0 rfl
    · exact h.rootFree d' k' hc
  · intro i r p hr hp
    rw [isDir_congr hl]
    have h1 : s.look i = some (.dir { r with ordered := [], index := [] }) := by rw [← hl]; exact look_dir hr
    obtain ⟨r', hr'⟩ := isDir_iff_look.2 ⟨_, h1⟩
    have h2 := look_dir hr'
    rw [h1] at h2
    simp only [Option.some.injEq, Node.dir.injEq, DirRec.mk.injEq] at h2
    exact h.parent i r' p hr' (h2.2.1 ▸ hp)

/-! ### Allocation -/

/-- A node that contains nothing. -/
def Node.Blank : Node → Prop
  | .dir r => r.ordered = [] ∧ r.index = []
  | _ => True

theorem look_lt {s : St} {i : Id} {n : Node} (h : s.look i = some n) : i < s.nodes.length := by
  unfold St.look at h
  cases hn : s.nodes[i]? with
  | none => rw [hn] at h; cases h
  | some m => exact (List.getElem?_eq_some_iff.1 hn).1

theorem getElem?_snoc {α : Type _} (l : List α) (x : α) (i : Nat) : (l ++ [x])[i]? = if i = l.length then some x else l[i]? := by
  by_cases h : i < l.length
  · rw [List.getElem?_append_left h, if_neg (by omega)]
  · rw [List.getElem?_append_right (by omega)]
    by_cases he : i = l.length
    · subst he; simp
    · rw [if_neg he, List.getElem?_eq_none (by simp; omega), List.getElem?_eq_none (by omega)]

theorem look_alloc (s : St) (n : Node) (i : Id) : (s.alloc n).1.look i = if i = s.nodes.length then some (skel n) else s.look i := by
  simp only [St.look, St.alloc, getElem?_snoc]
  split <;> rfl

theorem dir?_alloc (s : St) (n : Node) (i : Id) : (s.alloc n).1.dir? i = if i = s.nodes.length then (match n with | .dir d => some d | _ => none) else s.dir? i := by
  simp only [St.dir?, St.alloc, getElem?_snoc]
  by_cases h : i = s.nodes.length
  · simp only [if_pos h]; cases n <;> rfl
  · simp only [if_neg h]

theorem lookup_alloc {s : St} {n : Node} (hb : n.Blank) (d : Id) (k : Str) : (s.alloc n).1.lookup d k = s.lookup d k := by
  unfold St.lookup
  rw [dir?_alloc]
  by_cases h : d = s.nodes.length
  · subst h
    rw [if_pos rfl]
    have : s.dir? s.nodes.length = none := by
      unfold St.dir?; rw [List.getElem?_eq_none (Nat.le_refl _)]
    rw [this]
    cases n with
    | dir r => simp only [Node.Blank] at hb; simp [hb.2, assoc]
    | file => rfl
    | link => rfl
  · rw [if_neg h]

theorem good_alloc {s : St} (h : Good s) {n : Node} (hb : n.Blank) (hp : ∀ r p, n = .dir r → r.parent = some p → s.isDir p) : Good (s.alloc n).1 := by
  have dirKeep : ∀ i, s.isDir i → (s.alloc n).1.isDir i := by
    intro i ⟨r, hr⟩
    refine ⟨r, ?_⟩
    rw [dir?_alloc, if_neg (Nat.ne_of_lt (lt_of_dir hr)), hr]
  have hlen : 0 < s.nodes.length := by obtain ⟨r, hr⟩ := h.root; exact lt_of_dir hr
  refine ⟨?_, ?_, ?_, dirKeep 0 h.root, ?_, ?_, fun r hr => h.top r (by rw [look_alloc, if_neg (Nat.ne_of_lt hlen)] at hr; exact hr)⟩
  · intro d r hr
    rw [dir?_alloc] at hr
    split at hr
    · cases n with
      | dir r0 =>
        cases hr
        simp only [Node.Blank] at hb
        refine ⟨?_, ?_, ?_, ?_⟩ <;> simp [hb.1, hb.2]
      | file => cases hr
      | link => cases hr
    · exact h.dirs d r hr
  · intro d k c hc
    rw [lookup_alloc hb] at hc
    obtain ⟨m, hm, h1, h2⟩ := h.child d k c hc
    refine ⟨m, ?_, h1, h2⟩
    rw [look_alloc, if_neg (Nat.ne_of_lt (look_lt hm)), hm]
  · intro d k d' k' c h1 h2
    rw [lookup_alloc hb] at h1 h2
    exact h.single d k d' k' c h1 h2
  · intro d k hc
    rw [lookup_alloc hb] at hc
    exact h.rootFree d k hc
  · intro d r p hr hpp
    apply dirKeep
    rw [dir?_alloc] at hr
    split at hr
    · cases n with
      | dir r0 => cases hr; exact hp r p rfl hpp
      | file => cases hr
      | link => cases hr
    · exact h.parent d r p hr hpp

/-- Directories stay directories. -/
def Keeps (s s' : St) : Prop := ∀ i, s.isDir i → s'.isDir i

theorem Keeps.refl (s : St) : Keeps s s := fun _ h => h
theorem Keeps.trans {a b c : St} (h : Keeps a b) (h' : Keeps b c) : Keeps a c := fun i hi => h' i (h i hi)
theorem Keeps.of_look {s s' : St} (h : ∀ i, s'.look i = s.look i) : Keeps s s' := fun i hi => (isDir_congr h i).2 hi

theorem keeps_alloc (s : St) (n : Node) : Keeps s (s.alloc n).1 := by
  intro i ⟨r, hr⟩
  refine ⟨r, ?_⟩
  rw [dir?_alloc, if_neg (Nat.ne_of_lt (lt_of_dir hr)), hr]

theorem keeps_put (s : St) (d : Id) (k : Str) (n : Node) : Keeps s (s.put d k n) :=
  (keeps_alloc s n).trans (Keeps.of_look (look_addEntry _ d k _))

/-- A new node put into a directory. -/
theorem good_put {s : St} (h : Good s) {d : Id} (hd : s.isDir d) {k : Str} {n : Node} (hb : n.Blank) (hname : n.name = k)
    (hpar : ∀ r, n = .dir r → r.parent = some d) : Good (s.put d k n) := by
  unfold St.put
  have h1 : Good (s.alloc n).1 := good_alloc h hb (by
    intro r p hr hp
    rw [hpar r hr] at hp
    cases hp
    exact hd)
  have hlen : 0 < s.nodes.length := by obtain ⟨r, hr⟩ := h.root; exact lt_of_dir hr
  apply good_addEntry h1 (keeps_alloc s n d hd) k _ (n := skel n)
  · rw [look_alloc]; exact if_pos rfl
  · cases n <;> exact hname
  · intro r hr
    cases n with
    | dir r0 =>
      simp only [skel, Node.dir.injEq] at hr
      subst hr
      exact hpar r0 rfl
    | file => cases hr
    | link => cases hr
  · show s.nodes.length ≠ 0; omega
  · intro d' k' hc
    rw [lookup_alloc hb] at hc
    obtain ⟨m, hm, _⟩ := h.child d' k' _ hc
    exact absurd (look_lt hm) (Nat.lt_irrefl _)

theorem lookup_put {s : St} {d : Id} (hd : s.isDir d) {k : Str} {n : Node} (hb : n.Blank) (d' : Id) (k' : Str) :
    (s.put d k n).lookup d' k' = if d' = d ∧ k' = k then some s.nodes.length else s.lookup d' k' := by
  unfold St.put
  rw [lookup_addEntry (keeps_alloc s n d hd), lookup_alloc hb]
  rfl

theorem look_put (s : St) (d : Id) (k : Str) (n : Node) (i : Id) : (s.put d k n).look i = if i = s.nodes.length then some (skel n) else s.look i := by
  unfold St.put
  rw [look_addEntry, look_alloc]

/-! ### Moving -/

theorem relabel_dir? (s : St) (t : Id) (name : Str) (p : Id) (i : Id) :
    (s.relabel t name p).dir? i = if i = t then (s.dir? t).map (fun d => { d with name := name, parent := some p }) else s.dir? i := by
  unfold St.relabel
  cases hn : s.nodes[t]? with
  | none =>
    simp only
    split
    · rename_i h; subst h; simp [St.dir?, hn]
    · rfl
  | some n =>
    have hlt := (List.getElem?_eq_some_iff.1 hn).1
    by_cases hit : i = t
    · subst hit
      rw [if_pos rfl]
      cases n <;> simp [St.dir?, getElem?_set_self' hlt, hn]
    · rw [if_neg hit]
      cases n <;> simp [St.dir?, getElem?_set_ne' (Ne.symm hit)]

theorem relabel_look (s : St) (t : Id) (name : Str) (p : Id) (i : Id) (hi : i ≠ t) : (s.relabel t name p).look i = s.look i := by
  unfold St.relabel
  cases hn : s.nodes[t]? with
  | none => rfl
  | some n => cases n <;> simp [St.look, getElem?_set_ne' (Ne.symm hi)]

theorem relabel_lookup (s : St) (t : Id) (name : Str) (p : Id) (d : Id) (k : Str) : (s.relabel t name p).lookup d k = s.lookup d k := by
  unfold St.lookup
  rw [relabel_dir?]
  by_cases h : d = t
  · subst h
    rw [if_pos rfl]
    cases s.dir? d <;> rfl
  · rw [if_neg h]

theorem relabel_nextElem (s : St) (t : Id) (name : Str) (p : Id) : (s.relabel t name p).nextElem = s.nextElem := by
  unfold St.relabel; split <;> rfl

/-- What a renamed node is. -/
def relabelled (name : Str) (p : Id) : Node → Node
  | .dir d => .dir { d with name := name, parent := some p }
  | .file _ m v => .file name m v
  | .link _ t => .link name t

theorem relabel_look_self (s : St) (t : Id) (name : Str) (p : Id) : (s.relabel t name p).look t = (s.look t).map (relabelled name p) := by
  unfold St.relabel
  cases hn : s.nodes[t]? with
  | none => simp [St.look, hn]
  | some n =>
    have hlt := (List.getElem?_eq_some_iff.1 hn).1
    cases n <;> simp [St.look, getElem?_set_self' hlt, hn, skel, relabelled]

theorem keeps_relabel (s : St) (t : Id) (name : Str) (p : Id) : Keeps s (s.relabel t name p) := by
  intro i ⟨r, hr⟩
  unfold St.isDir
  rw [relabel_dir?]
  by_cases h : i = t
  · subst h; rw [if_pos rfl, hr]; exact ⟨_, rfl⟩
  · rw [if_neg h]; exact ⟨r, hr⟩

theorem good_relabel {s : St} (h : Good s) {t : Id} (name : Str) {p : Id} (hp : s.isDir p) (h0 : t ≠ 0) (hfree : ∀ d k, s.lookup d k ≠ some t) : Good (s.relabel t name p) := by
  refine ⟨?_, ?_, ?_, keeps_relabel s t name p 0 h.root, ?_, ?_, fun r hr => h.top r (by rw [relabel_look s t name p 0 (Ne.symm h0)] at hr; exact hr)⟩
  · intro d r hr
    rw [relabel_nextElem]
    rw [relabel_dir?] at hr
    split at hr
    · cases hd : s.dir? t with
      | none => rw [hd] at hr; cases hr
      | some r0 =>
        rw [hd] at hr
        cases hr
        have := h.dirs t r0 hd
        exact ⟨this.keys, this.perm, this.elems, this.bound⟩
    · exact h.dirs d r hr
  · intro d k c hc
    rw [relabel_lookup] at hc
    have hct : c ≠ t := fun e => hfree d k (e ▸ hc)
    rw [relabel_look s t name p c hct]
    exact h.child d k c hc
  · intro d k d' k' c h1 h2
    rw [relabel_lookup] at h1 h2
    exact h.single d k d' k' c h1 h2
  · intro d k hc
    rw [relabel_lookup] at hc
    exact h.rootFree d k hc
  · intro d r q hr hq
    apply keeps_relabel s t name p
    rw [relabel_dir?] at hr
    split at hr
    · cases hd : s.dir? t with
      | none => rw [hd] at hr; cases hr
      | some r0 => rw [hd] at hr; cases hr; cases hq; exact hp
    · exact h.parent d r q hr hq

theorem good_move {s : St} (h : Good s) {op : Id} {ob : Str} {t np : Id} {nb : Str} (hnp : s.isDir np) (ht : ∃ n, s.look t = some n) (h0 : t ≠ 0)
    (hfree : ∀ d k, s.lookup d k = some t → d = op ∧ k = ob) : Good (s.move op ob t np nb) := by
  unfold St.move
  have h1 := good_removeEntry h op ob
  have hnp1 : (s.removeEntry op ob).isDir np := Keeps.of_look (look_removeEntry s op ob) np hnp
  have hfree1 : ∀ d k, (s.removeEntry op ob).lookup d k ≠ some t := by
    intro d k hc
    rw [lookup_removeEntry] at hc
    split at hc
    · cases hc
    · rename_i hne; exact hne (hfree d k hc)
  have h2 := good_relabel h1 nb hnp1 h0 hfree1
  obtain ⟨n, hn⟩ := ht
  apply good_addEntry h2 (keeps_relabel _ t nb np np hnp1) nb t (n := relabelled nb np n)
  · rw [relabel_look_self, look_removeEntry, hn]; rfl
  · cases n <;> rfl
  · intro r hr
    cases n with
    | dir d => simp only [relabelled, Node.dir.injEq] at hr; subst hr; rfl
    | file => cases hr
    | link => cases hr
  · exact h0
  · intro d k hc
    rw [relabel_lookup] at hc
    exact absurd hc (hfree1 d k)

theorem lookup_move {s : St} {op : Id} {ob : Str} {t np : Id} {nb : Str} (hnp : s.isDir np) (d : Id) (k : Str) :
    (s.move op ob t np nb).lookup d k = if d = np ∧ k = nb then some t else if d = op ∧ k = ob then none else s.lookup d k := by
  unfold St.move
  have hnp1 : (s.removeEntry op ob).isDir np := Keeps.of_look (look_removeEntry s op ob) np hnp
  rw [lookup_addEntry (keeps_relabel _ t nb np np hnp1), relabel_lookup, lookup_removeEntry]

theorem keeps_move (s : St) (op : Id) (ob : Str) (t np : Id) (nb : Str) : Keeps s (s.move op ob t np nb) := by
  unfold St.move
  exact ((Keeps.of_look (look_removeEntry s op ob)).trans (keeps_relabel _ t nb np)).trans (Keeps.of_look (look_addEntry _ np nb t))

end Verif.Synth.Tree
