import Verif.Synth.Resolve
/-
C51: what adding a filesystem does to what is already there.
-/
namespace Verif.Synth.Tree
open Verif.Path

/-! ### Specification -/

mutual
/-- The file views of a source. -/
def Src.views : Src → List Nat
  | .dir _ _ kids => kidsViews kids
  | .file _ (some v) => [v]
  | _ => []
def kidsViews : List (Str × Src) → List Nat
  | [] => []
  | (_, c) :: rest => c.views ++ kidsViews rest
end

mutual
/-- Nowhere does the source have a directory where the tree has a file or a link. -/
def Fits (s : St) (dst : Id) (base : Str) : Src → Prop
  | .dir _ _ kids => ∀ c, s.lookup dst base = some c → s.isDir c ∧ FitsKids s c kids
  | _ => True
def FitsKids (s : St) (d : Id) : List (Str × Src) → Prop
  | [] => True
  | (k, c) :: rest => Fits s d k c ∧ FitsKids s d rest
end

/-- Everything that was there is still there, as it was; entries that are new hold nodes that are new; and of the file views only
those in `V` were closed. -/
structure Ext (V : List Nat) (s s' : St) : Prop where
  len : s.nodes.length ≤ s'.nodes.length
  look : ∀ i, i < s.nodes.length → s'.look i = s.look i
  stay : ∀ d k c, s.lookup d k = some c → s'.lookup d k = some c
  new : ∀ d k c, s'.lookup d k = some c → s.lookup d k = some c ∨ s.nodes.length ≤ c
  closed : ∀ v ∈ s'.closed, v ∈ s.closed ∨ v ∈ V

/-! ### Steps -/

theorem Ext.refl (V : List Nat) (s : St) : Ext V s s := ⟨Nat.le_refl _, fun _ _ => rfl, fun _ _ _ h => h, fun _ _ _ h => .inl h, fun _ h => .inl h⟩

theorem Ext.mono {V W : List Nat} {s s' : St} (h : Ext V s s') (hs : ∀ v ∈ V, v ∈ W) : Ext W s s' :=
  ⟨h.len, h.look, h.stay, h.new, fun v hv => (h.closed v hv).imp id (hs v)⟩

theorem Ext.trans {V : List Nat} {a b c : St} (h : Ext V a b) (h' : Ext V b c) : Ext V a c := by
  refine ⟨Nat.le_trans h.len h'.len, ?_, fun d k x hx => h'.stay d k x (h.stay d k x hx), ?_, ?_⟩
  · intro i hi
    rw [h'.look i (Nat.lt_of_lt_of_le hi h.len), h.look i hi]
  · intro d k x hx
    rcases h'.new d k x hx with hx | hx
    · exact h.new d k x hx
    · exact .inr (Nat.le_trans h.len hx)
  · intro v hv
    rcases h'.closed v hv with hv | hv
    · exact h.closed v hv
    · exact .inr hv

theorem Ext.isDir {V : List Nat} {s s' : St} (h : Ext V s s') {i : Id} (hd : s.isDir i) : s'.isDir i := by
  rw [isDir_iff_look] at hd ⊢
  obtain ⟨r, hr⟩ := hd
  exact ⟨r, (h.look i (look_lt hr)).trans hr⟩

theorem nodes_length_pushBack (s : St) (d : Id) (k : Str) (c : Id) : (s.pushBack d k c).nodes.length = s.nodes.length := by
  unfold St.pushBack
  split
  · rfl
  · simp [St.setDir]

theorem nodes_length_put (s : St) (d : Id) (k : Str) (n : Node) : (s.put d k n).nodes.length = s.nodes.length + 1 := by
  unfold St.put St.addEntry
  rw [nodes_length_pushBack, nodes_length_removeEntry]
  simp [St.alloc]

theorem closed_removeEntry (s : St) (d : Id) (k : Str) : (s.removeEntry d k).closed = s.closed := by
  unfold St.removeEntry
  split
  · rfl
  · split <;> rfl

theorem closed_put (s : St) (d : Id) (k : Str) (n : Node) : (s.put d k n).closed = s.closed := by
  unfold St.put St.addEntry St.pushBack
  split
  · rw [closed_removeEntry]; rfl
  · show ((s.alloc n).1.removeEntry d k).closed = _
    rw [closed_removeEntry]; rfl

theorem nodes_length_closeView (s : St) (i : Id) : (s.closeView i).nodes.length = s.nodes.length := by
  unfold St.closeView; split <;> rfl

/-- A new node where there was nothing before. -/
theorem ext_put {V : List Nat} {s0 s : St} (h : Ext V s0 s) {d : Id} (hd : s.isDir d) {k : Str} {n : Node} (hb : n.Blank) (hfree : s0.lookup d k = none) :
    Ext V s0 (s.put d k n) := by
  refine ⟨?_, ?_, ?_, ?_, ?_⟩
  · rw [nodes_length_put]; exact Nat.le_succ_of_le h.len
  · intro i hi
    rw [look_put, if_neg (Nat.ne_of_lt (Nat.lt_of_lt_of_le hi h.len)), h.look i hi]
  · intro d' k' c hc
    rw [lookup_put hd hb, if_neg]
    · exact h.stay d' k' c hc
    · rintro ⟨rfl, rfl⟩; rw [hfree] at hc; cases hc
  · intro d' k' c hc
    rw [lookup_put hd hb] at hc
    split at hc
    · cases hc; exact .inr h.len
    · exact h.new d' k' c hc
  · rw [closed_put]; exact h.closed

/-- An entry that was not there before goes away. -/
theorem ext_removeEntry {V : List Nat} {s0 s : St} (h : Ext V s0 s) (d : Id) (k : Str) (hfree : s0.lookup d k = none) : Ext V s0 (s.removeEntry d k) := by
  refine ⟨?_, ?_, ?_, ?_, ?_⟩
  · rw [nodes_length_removeEntry]; exact h.len
  · intro i hi; rw [look_removeEntry]; exact h.look i hi
  · intro d' k' c hc
    rw [lookup_removeEntry, if_neg]
    · exact h.stay d' k' c hc
    · rintro ⟨rfl, rfl⟩; rw [hfree] at hc; cases hc
  · intro d' k' c hc
    rw [lookup_removeEntry] at hc
    split at hc
    · cases hc
    · exact h.new d' k' c hc
  · rw [closed_removeEntry]; exact h.closed

theorem existing_none {s : St} (hg : Good s) {d : Id} {k : Str} (h : s.existing d k = none) : s.lookup d k = none := by
  unfold St.existing at h
  cases hl : s.lookup d k with
  | none => rfl
  | some c =>
    obtain ⟨n, hn, _⟩ := hg.child d k c hl
    rw [hl] at h
    unfold St.look at hn
    cases hc : s.nodes[c]? with
    | none => rw [hc] at hn; cases hn
    | some m => simp [hc] at h

theorem existing_some {s : St} {d : Id} {k : Str} {c : Id} {n : Node} (hl : s.lookup d k = some c) (hn : s.nodes[c]? = some n) : s.existing d k = some n.kind := by
  simp [St.existing, hl, hn]

theorem not_dir {s : St} {c : Id} (h : ¬ (s.dir? c).isSome) : ¬ s.isDir c := by
  rintro ⟨r, hr⟩; rw [hr] at h; simp at h

theorem fitsKids_new {s : St} {d : Id} (h : s.nodes.length ≤ d) : ∀ kids, FitsKids s d kids := by
  intro kids
  induction kids with
  | nil => trivial
  | cons p rest ih =>
    obtain ⟨k, c⟩ := p
    refine ⟨?_, ih⟩
    cases c with
    | dir m ok ks =>
      intro c hc
      obtain ⟨r, hr⟩ := lookup_isDir hc
      exact absurd (lt_of_dir hr) (Nat.not_lt.2 h)
    | file => trivial
    | link => trivial
    | bad => trivial

/-- The callback never asks to replace something. -/
def NoReplace (cb : AddFunc) : Prop := ∀ p inc ex, cb p inc (some ex) ≠ .ok .override

/-- The callback never asks to merge a directory into something else. -/
def NoClash (cb : AddFunc) : Prop := ∀ p ex, cb p .dir (some ex) = .ok .keep → ex = .dir

theorem ext_materialize {V : List Nat} {s0 s s1 : St} (h : Ext V s0 s) {dst d : Id} {base : Str} {mode fuel : Nat} (hd : s.isDir dst)
    (hc : ∀ c, s.lookup dst base = some c → s0.lookup dst base = some c → s.isDir c)
    {ov : Bool} (hov : ov = true → s.lookup dst base = none) (hm : materializeDir fuel s dst base mode ov = some (s1, d)) :
    Ext V s0 s1 ∧ (s0.lookup dst base = some d ∨ s0.nodes.length ≤ d) := by
  have free : s.lookup dst base = none → s0.lookup dst base = none := by
    intro hn
    cases h0 : s0.lookup dst base with
    | none => rfl
    | some c => rw [h.stay _ _ _ h0] at hn; cases hn
  unfold materializeDir at hm
  split at hm
  · rename_i hl
    cases hm
    exact ⟨ext_put h hd (by simp [Node.Blank, newDir]) (free hl), .inr h.len⟩
  · rename_i ex hex
    split at hm
    · cases hm
      exact ⟨h, h.new _ _ _ hex⟩
    · rename_i hnd
      split at hm
      · rename_i ho; rw [hov ho] at hex; cases hex
      · rename_i ho
        cases hm
        have hfree : s0.lookup dst base = none := by
          cases h0 : s0.lookup dst base with
          | none => rfl
          | some c =>
            have := h.stay _ _ _ h0
            rw [hex] at this
            cases this
            exact absurd (hc ex hex h0) (not_dir (fun hs => hnd ⟨hs, by simpa using ho⟩))
        have h1 := ext_removeEntry h dst base hfree
        refine ⟨ext_put h1 ((shr_removeEntry s dst base).pres.keeps _ hd) (by simp [Node.Blank, newDir]) hfree, .inr ?_⟩
        show s0.nodes.length ≤ (s.removeEntry dst base).nodes.length
        rw [nodes_length_removeEntry]; exact h.len

theorem ext_leaf {V : List Nat} {s0 s : St} (h : Ext V s0 s) {dst : Id} {base : Str} (hd : s.isDir dst) {n : Node} (hb : n.Blank) (hl : s.lookup dst base = none) :
    Ext V s0 (s.put dst base n) ∧ Ext V s0 ((s.unlink dst base).put dst base n) := by
  have free : s0.lookup dst base = none := by
    cases h0 : s0.lookup dst base with
    | none => rfl
    | some c => rw [h.stay _ _ _ h0] at hl; cases hl
  have : s.unlink dst base = s := by unfold St.unlink; rw [hl]
  rw [this]
  exact ⟨ext_put h hd hb free, ext_put h hd hb free⟩

mutual
theorem ext_addWalk (fuel : Nat) (cb : AddFunc) (hcb : NoReplace cb) {V : List Nat} {s0 : St} (s : St) (hg : Good s) (h : Ext V s0 s) (dst : Id) (base path : Str) (hd : s.isDir dst) :
    (src : Src) → (NoClash cb ∨ Fits s0 dst base src) → (∀ v ∈ src.views, v ∈ V) → Ext V s0 (addWalk fuel cb s dst base path src).1
  | .bad => fun _ _ => h
  | .dir mode ok kids => by
    intro hk hv
    have hfit : ∀ d, s0.nodes.length ≤ d ∨ s0.lookup dst base = some d → NoClash cb ∨ FitsKids s0 d kids := by
      intro d hw
      rcases hk with hk | hk
      · exact .inl hk
      · rcases hw with hw | hw
        · exact .inr (fitsKids_new hw kids)
        · exact .inr (hk d hw).2
    simp only [addWalk]
    split
    · exact h
    · exact h
    · rename_i hdec
      have hc : ∀ c, s.lookup dst base = some c → s0.lookup dst base = some c → s.isDir c := by
        intro c hl h0
        rcases hk with hk | hk
        · obtain ⟨n, hn, _⟩ := hg.child _ _ _ hl
          unfold St.look at hn
          cases hx : s.nodes[c]? with
          | none => rw [hx] at hn; cases hn
          | some m =>
            rw [existing_some hl hx] at hdec
            have := hk _ _ hdec
            cases m with
            | dir r => exact ⟨r, dir?_iff.2 hx⟩
            | file => cases this
            | link => cases this
        · exact h.isDir (hk c h0).1
      split
      · exact h
      · rename_i s1 d hm
        have h1 := ext_materialize h hd hc (by simp) hm
        have h2 := pres_materialize hd hm
        split
        · exact ext_addKids fuel cb hcb s1 (h2.1.good hg) h1.1 d path h2.2 kids (hfit d h1.2.symm) hv
        · exact h1.1
    · rename_i hdec
      have hnone : s.lookup dst base = none := by
        cases hex : s.existing dst base with
        | none => exact existing_none hg hex
        | some k => rw [hex] at hdec; exact absurd hdec (hcb _ _ _)
      split
      · exact h
      · rename_i s1 d hm
        have h1 := ext_materialize h hd (by intro c hl; rw [hnone] at hl; cases hl) (fun _ => hnone) hm
        have h2 := pres_materialize hd hm
        split
        · exact ext_addKids fuel cb hcb s1 (h2.1.good hg) h1.1 d path h2.2 kids (hfit d h1.2.symm) hv
        · exact h1.1
  | .link target => by
    intro _ _
    simp only [addWalk]
    split
    · exact h
    · exact h
    · cases target with
      | none => exact h
      | some t =>
        simp only
        split
        · exact h
        · rename_i hl; exact (ext_leaf (n := .link base t) h hd trivial hl).1
    · rename_i hdec
      cases target with
      | none => exact h
      | some t =>
        have hnone : s.lookup dst base = none := by
          cases hex : s.existing dst base with
          | none => exact existing_none hg hex
          | some k => rw [hex] at hdec; exact absurd hdec (hcb _ _ _)
        exact (ext_leaf (n := .link base t) h hd trivial hnone).2
  | .file mode view => by
    intro _ hv
    simp only [addWalk]
    split
    · exact h
    · exact h
    · cases view with
      | none => exact h
      | some v =>
        simp only
        split
        · refine ⟨h.len, h.look, h.stay, h.new, ?_⟩
          intro w hw
          rcases List.mem_append.1 hw with hw | hw
          · exact h.closed w hw
          · exact .inr (hv w hw)
        · rename_i hl; exact (ext_leaf (n := .file base mode v) h hd trivial hl).1
    · rename_i hdec
      cases view with
      | none => exact h
      | some v =>
        have hnone : s.lookup dst base = none := by
          cases hex : s.existing dst base with
          | none => exact existing_none hg hex
          | some k => rw [hex] at hdec; exact absurd hdec (hcb _ _ _)
        exact (ext_leaf (n := .file base mode v) h hd trivial hnone).2
theorem ext_addKids (fuel : Nat) (cb : AddFunc) (hcb : NoReplace cb) {V : List Nat} {s0 : St} (s : St) (hg : Good s) (h : Ext V s0 s) (d : Id) (path : Str) (hd : s.isDir d) :
    (kids : List (Str × Src)) → (NoClash cb ∨ FitsKids s0 d kids) → (∀ v ∈ kidsViews kids, v ∈ V) → Ext V s0 (addKids fuel cb s d path kids).1
  | [] => fun _ _ => h
  | (k, c) :: rest => by
    intro hk hv
    have h1 := ext_addWalk fuel cb hcb s hg h d k (slashJoin path k) hd c (hk.imp id (·.1)) (fun v hx => hv v (List.mem_append_left _ hx))
    have h2 := pres_addWalk fuel cb s d k (slashJoin path k) hd c
    simp only [addKids]
    split
    · rename_i s1 e he; rw [he] at h1; exact h1
    · rename_i s1 he
      rw [he] at h1 h2
      exact ext_addKids fuel cb hcb s1 (h2.good hg) h1 d path (h2.keeps _ hd) rest (hk.imp id (·.2)) (fun v hx => hv v (List.mem_append_right _ hx))
end

/-! ### The parents of the name -/

theorem splitLast_join {ns : List Str} {x : Str} (hn : ∀ c ∈ ns ++ [x], IsName c) : splitLast (join (ns ++ [x])) = (if ns = [] then dot else join ns, x) := by
  have hx : IsComp x := (hn x (by simp)).1
  unfold splitLast
  by_cases h : ns = []
  · subst h
    have : join ([] ++ [x]) = x := rfl
    rw [this, dirPart_comp hx]
    have hf : filePart x = x := by unfold filePart; rw [takeWhile_all hx.2, List.reverse_reverse]
    simp [hf]
  · rw [join_concat h, dirPart_append hx]
    have hf : filePart (join ns ++ slash :: x) = x := by
      unfold filePart
      rw [List.reverse_append, List.reverse_cons, List.append_assoc]
      simp only [List.singleton_append]
      rw [takeWhile_rev hx.2, List.reverse_reverse]
    have hne : join ns ≠ [] := join_ne_nil (fun c hc => (hn c (List.mem_append_left _ hc)).1) h
    simp [hf, h, hne]

/-- Walks compose. -/
theorem Finds.append {s : St} {b cur m : Id} {es : List Str} {n : Nat} (h : Finds s b true cur es n m) :
    ∀ {suf : List Str} {k : Nat} {c : Id}, s.isDir m → suf ≠ [] → Finds s b true m suf k c → Finds s b true cur (es ++ suf) (n + k) c := by
  induction h with
  | done => intro suf k c _ _ hs; rw [Nat.zero_add]; exact hs
  | stay he _ ih => intro suf k c hd hne hs; exact .stay he (ih hd hne hs)
  | up hne hk _ ih => intro suf k c hd hn hs; exact .up hne hk (ih hd hn hs)
  | last hp hk _ => intro suf k c hd hne hs; rw [Nat.zero_add]; exact .down hp hk hd hne hs
  | down hp hk hc hne _ ih => intro suf k c hd hn hs; exact .down hp hk hc (by simp [hne]) (ih hd hn hs)
  | @link cur e c' es n m nm t hp hk hn habs hcond _ ih =>
    intro suf k c hd hne hs
    rw [Nat.add_right_comm]
    refine .link hp hk hn habs (.inr rfl) ?_
    have : splice t (es ++ suf) = split t ++ (es ++ suf) := by unfold splice; rw [if_neg (by simp [hne])]
    rw [show es.append suf = es ++ suf from rfl, this]
    by_cases he : es = []
    · subst he
      have e1 : splice t [] = elems t := by simp [splice]
      rw [e1] at ih
      by_cases hl : (split t).getLast? = some []
      · have : split t = elems t ++ [[]] := by
          unfold elems
          rw [if_pos hl]
          obtain ⟨ys, hys⟩ := List.getLast?_eq_some_iff.1 hl
          rw [hys]; simp
        rw [this, List.append_assoc]
        exact ih hd (by simp) (.stay (.inl rfl) hs)
      · have : split t = elems t := by unfold elems; rw [if_neg hl]
        rw [this]
        exact ih hd hne hs
    · have e1 : splice t es = split t ++ es := by simp [splice, he]
      rw [e1] at ih
      rw [← List.append_assoc]
      exact ih hd hne hs

theorem placeOf_join {ns : List Str} (hn : ∀ c ∈ ns, IsName c) (hne : ns ≠ []) : placeOf (join ns) = some ns := by
  rw [placeOf_iff]
  have hr : render false ns = join ns := by unfold render; simp [hne]
  have hnorm : Normal false ns := .names hn
  rw [← hr]
  exact ⟨isAbs_render hnorm, comps_render hnorm, hn⟩

/-- What stands in the place of a directory that the code believes to be missing is a link. -/
theorem missing_is_link {s : St} (hg : Good s) {b : Id} (hb : s.isDir b) {p : Str} {e : Err} (h : resolve s b b p true = .error e) {pp : Id} {pb : Str}
    (hp : resolveParent s b b p = .ok (pp, pb)) {c : Id} (hc : s.lookup pp pb = some c) : s.isLink c := by
  apply Classical.byContradiction
  intro hnl
  unfold resolveParent at hp
  rcases normalize_spec p with ⟨e', he', _⟩ | ⟨ns, hpl, hok, hdot, _⟩
  · rw [he'] at hp; cases hp
  · rw [hok] at hp
    simp only at hp
    split at hp
    · cases hp
    · rename_i hnd
      have hns : ns ≠ [] := fun h => hnd (hdot.2 h)
      obtain ⟨habs, hcs, hname⟩ := placeOf_some hpl
      have hclean : clean p = join ns := by
        unfold clean
        rw [habs, hcs]
        unfold render; simp [hns]
      rcases List.eq_nil_or_concat ns with he | ⟨init, x, he⟩
      · exact hns he
      rw [List.concat_eq_append] at he
      subst he
      rw [hclean, splitLast_join hname] at hp
      split at hp
      · cases hp
      · rename_i r hr
        split at hp
        · cases hp
        · rename_i dr hdr
          simp only [Except.ok.injEq, Prod.mk.injEq] at hp
          obtain ⟨rfl, rfl⟩ := hp
          obtain ⟨ns', hpl', n, hn, hf⟩ := (resolve_spec hg hb _ true r.node).1 ⟨r, hr, rfl⟩
          have hns' : ns' = init := by
            by_cases hi : init = []
            · subst hi
              simp only [if_true] at hpl'
              have : placeOf dot = some [] := by decide
              rw [this] at hpl'; exact (Option.some.inj hpl').symm
            · simp only [if_neg hi] at hpl'
              rw [placeOf_join (fun c hc => hname c (List.mem_append_left _ hc)) hi] at hpl'
              exact (Option.some.inj hpl').symm
          subst hns'
          have hx := hname x (by simp)
          have hlast : Finds s b true r.node [x] 0 c := .last ⟨hx.1.1, hx.2.1, hx.2.2⟩ hc (fun _ => hnl)
          obtain ⟨r', hr', _⟩ := (resolve_spec hg hb p true c).2 ⟨_, hpl, n + 0, hn, hf.append ⟨dr, hdr⟩ (by simp) hlast⟩
          rw [h] at hr'
          cases hr'

/-- What scaffolding keeps. -/
structure Scaffold (s s' : St) : Prop where
  len : s.nodes.length ≤ s'.nodes.length
  look : ∀ i, i < s.nodes.length → s'.look i = s.look i
  stay : ∀ d k c, s.lookup d k = some c → ¬ s.isLink c → s'.lookup d k = some c
  closed : s'.closed = s.closed

theorem isLink_iff_look {s : St} {i : Id} : s.isLink i ↔ ∃ n t, s.look i = some (.link n t) := by
  unfold St.isLink St.look
  constructor
  · rintro ⟨n, t, h⟩; exact ⟨n, t, by rw [h]; rfl⟩
  · rintro ⟨n, t, h⟩
    cases hn : s.nodes[i]? with
    | none => rw [hn] at h; cases h
    | some m =>
      rw [hn] at h
      cases m with
      | dir d => cases h
      | file => cases h
      | link a t' => exact ⟨a, t', rfl⟩

theorem scaffold_each (b : Id) : ∀ (ps : List Str) (parent : Id) (s : St), Good s → s.isDir b → Scaffold s (ensureEach b ps parent s).1 := by
  intro ps
  induction ps with
  | nil => intro parent s _ _; exact ⟨Nat.le_refl _, fun _ _ => rfl, fun _ _ _ h _ => h, rfl⟩
  | cons p rest ih =>
    intro parent s hg hb
    have hrefl : Scaffold s s := ⟨Nat.le_refl _, fun _ _ => rfl, fun _ _ _ h _ => h, rfl⟩
    simp only [ensureEach]
    split
    · split
      · exact hrefl
      · exact ih _ s hg hb
    · rename_i hmiss
      split
      · exact hrefl
      · rename_i pp pb hpp
        have hd := resolveParent_dir hpp
        have hblank : (Node.dir (newDir pb 0o755 (some pp))).Blank := by simp [Node.Blank, newDir]
        have hpres : Pres s (s.put pp pb (.dir (newDir pb 0o755 (some pp)))) := pres_putDir hd pb 0o755
        have h2 := ih s.nodes.length _ (hpres.good hg) (hpres.keeps _ hb)
        have hlen := nodes_length_put s pp pb (.dir (newDir pb 0o755 (some pp)))
        have hlook : ∀ i, i < s.nodes.length → (s.put pp pb (.dir (newDir pb 0o755 (some pp)))).look i = s.look i := by
          intro i hi; rw [look_put, if_neg (Nat.ne_of_lt hi)]
        refine ⟨by have := h2.len; omega, ?_, ?_, ?_⟩
        · intro i hi
          rw [h2.look i (by omega), hlook i hi]
        · intro d k c hc hnl
          obtain ⟨m, hm, _⟩ := hg.child _ _ _ hc
          apply h2.stay
          · rw [lookup_put hd hblank, if_neg]
            · exact hc
            · rintro ⟨rfl, rfl⟩; exact hnl (missing_is_link hg hb hmiss hpp hc)
          · rw [isLink_iff_look, hlook c (look_lt hm), ← isLink_iff_look]; exact hnl
        · rw [h2.closed, closed_put]
    · exact hrefl

theorem scaffold_parents {s : St} (hg : Good s) {b : Id} (hb : s.isDir b) (name : Str) : Scaffold s (ensureParents s b name).1 := by
  have hrefl : Scaffold s s := ⟨Nat.le_refl _, fun _ _ => rfl, fun _ _ _ h _ => h, rfl⟩
  unfold ensureParents
  split
  · exact hrefl
  · rename_i sl hs
    split
    · exact hrefl
    · split
      · exact hrefl
      · have := scaffold_each b (Fsutil.vPathFromHead (splitLast sl).1) b s hg hb
        split <;> (rename_i he; rw [he] at this; exact this)

/-- A name of one element has no parents to scaffold. -/
theorem no_parents {s : St} {b : Id} {name : Str} {ns : List Str} (hp : placeOf name = some ns) (hl : ns.length ≤ 1) : (ensureParents s b name).1 = s := by
  unfold ensureParents
  rcases normalize_spec name with ⟨e', he', hn⟩ | ⟨ns', hpl, hok, hdot, _⟩
  · rw [he']
  · rw [hp] at hpl
    cases hpl
    rw [hok]
    simp only
    split
    · rfl
    · rename_i hnd
      have hns : ns ≠ [] := fun h => hnd (hdot.2 h)
      obtain ⟨habs, hcs, hname⟩ := placeOf_some hp
      match ns, hl, hns, hname, hcs with
      | [x], _, _, hname, hcs =>
        have hclean : clean name = join ([] ++ [x]) := by
          unfold clean
          rw [habs, hcs]
          unfold render; simp
        rw [hclean, splitLast_join (ns := []) (by simpa using hname)]
        simp

/-! ### Property C51: existing entries -/

/-- What is kept: every directory, file and link is what it was, every entry is where it was (a link only if it cannot have been
in the way of a missing parent of `name`), and no file view was closed but those of the source. -/
structure Kept (name : Str) (V : List Nat) (s s' : St) : Prop where
  nodes : ∀ i, i < s.nodes.length → s'.look i = s.look i
  entries : ∀ d k c, s.lookup d k = some c → (¬ s.isLink c ∨ ∃ ns, placeOf name = some ns ∧ ns.length ≤ 1) → s'.lookup d k = some c
  views : ∀ v ∈ s'.closed, v ∈ s.closed ∨ v ∈ V

theorem kept_of {name : Str} {V : List Nat} {s s1 s' : St} {b : Id} (hs : Scaffold s s1) (h1 : s1 = (ensureParents s b name).1) (h : Ext V s1 s') : Kept name V s s' := by
  refine ⟨?_, ?_, ?_⟩
  · intro i hi; rw [h.look i (Nat.lt_of_lt_of_le hi hs.len), hs.look i hi]
  · intro d k c hc hx
    apply h.stay
    rcases hx with hx | ⟨ns, hp, hl⟩
    · exact hs.stay d k c hc hx
    · rw [h1, no_parents hp hl]; exact hc
  · intro v hv
    have := h.closed v hv
    rw [hs.closed] at this
    exact this

theorem kept_addFS {s : St} (hg : Good s) {b : Id} (hb : s.isDir b) (fuel : Nat) (cb : AddFunc) (hcb : NoReplace cb) (name : Str) (src : Src)
    (hk : NoClash cb ∨ (clean name = dot → ∀ m kids, src = .dir m true kids → FitsKids s b kids) ∧ ∀ s1 d base, ensureParents s b name = (s1, .ok (d, base)) → Fits s1 d base src) :
    Kept name src.views s (addFS fuel cb s b name src).1 := by
  have hrefl : Kept name src.views s s := ⟨fun _ _ => rfl, fun _ _ _ h _ => h, fun _ h => .inl h⟩
  unfold addFS
  rcases normalize_spec name with ⟨e', he', hn⟩ | ⟨ns, hpl, hok, hdot, _⟩
  · rw [he']; exact hrefl
  · rw [hok]
    simp only
    split
    · rename_i hc
      split
      · rename_i m kids
        have := ext_addKids fuel cb hcb (V := kidsViews kids) s hg (Ext.refl _ s) b dot hb kids (hk.imp id (fun h => h.1 hc m kids rfl)) (fun _ h => h)
        exact ⟨fun i hi => this.look i hi, fun d k c h _ => this.stay d k c h, this.closed⟩
      · exact hrefl
    · have hs := scaffold_parents hg hb name
      have hp := pres_ensureParents hb name
      cases he : ensureParents s b name with
      | mk s1 r =>
        rw [he] at hs hp
        cases r with
        | error e => exact ⟨hs.look, fun d k c hc hx => (kept_of (b := b) hs (by rw [he]) (Ext.refl src.views s1)).entries d k c hc hx, (kept_of (name := name) (b := b) hs (by rw [he]) (Ext.refl src.views s1)).views⟩
        | ok q =>
          obtain ⟨d, base⟩ := q
          simp only
          exact kept_of (b := b) hs (by rw [he]) (ext_addWalk fuel cb hcb s1 (hp.1.good hg) (Ext.refl _ s1) d base _ (hp.2 d base rfl) src (hk.imp id (fun h => h.2 s1 d base he)) (fun _ h => h))

theorem kept_addFile {s : St} (hg : Good s) {b : Id} (hb : s.isDir b) (cb : AddFunc) (hcb : NoReplace cb) (name : Str) (mode view : Nat) :
    Kept name [] s (addFile cb s b name mode view).1 := by
  have hs := scaffold_parents hg hb name
  have hp := pres_ensureParents hb name
  unfold addFile
  cases he : ensureParents s b name with
  | mk s1 r =>
    rw [he] at hs hp
    have hsame : Kept name [] s s1 := kept_of (b := b) hs (by rw [he]) (Ext.refl [] s1)
    cases r with
    | error e => exact hsame
    | ok q =>
      obtain ⟨d, base⟩ := q
      simp only
      split
      · exact hsame
      · exact hsame
      · exact hsame
      · rename_i hdec
        have hnone : s1.lookup d base = none := by
          cases hex : s1.existing d base with
          | none => exact existing_none (hp.1.good hg) hex
          | some k => rw [hex] at hdec; exact absurd hdec (hcb _ _ _)
        exact kept_of (b := b) hs (by rw [he]) (ext_leaf (n := .file base mode view) (Ext.refl [] s1) (hp.2 d base rfl) trivial hnone).2

theorem mergeKeep_noReplace : NoReplace mergeKeep := by intro p inc ex h; cases h

theorem failOnConflict_noReplace : NoReplace failOnConflict := by
  intro p inc ex h
  unfold failOnConflict at h
  simp only at h
  split at h <;> cases h

theorem failOnConflict_noClash : NoClash failOnConflict := by
  intro p ex h
  unfold failOnConflict at h
  simp only at h
  split at h
  · rename_i hc; exact hc.2
  · cases h

/-- **C51** (FailOnConflict). After any history, AddFS of any source, at any name, whether it succeeds or fails on the way, keeps
every existing entry. -/
theorem C51_failOnConflict (hist : List (Nat × Call)) (b : Id) (hb : b ∈ (after hist).roots) (fuel : Nat) (name : Str) (src : Src) :
    Kept name src.views (after hist).st (addFS fuel failOnConflict (after hist).st b name src).1 := by
  have hw := wgood_run hist _ wgood_init
  exact kept_addFS hw.good (hw.roots b hb) fuel failOnConflict failOnConflict_noReplace name src (.inl failOnConflict_noClash)

/-- **C51** (AddFile, either policy). It keeps every existing entry. -/
theorem C51_addFile_keeps (hist : List (Nat × Call)) (b : Id) (hb : b ∈ (after hist).roots) (cb : AddFunc) (hcb : cb = mergeKeep ∨ cb = failOnConflict) (name : Str) (mode view : Nat) :
    Kept name [] (after hist).st (addFile cb (after hist).st b name mode view).1 := by
  have hw := wgood_run hist _ wgood_init
  refine kept_addFile hw.good (hw.roots b hb) cb ?_ name mode view
  rcases hcb with rfl | rfl
  · exact mergeKeep_noReplace
  · exact failOnConflict_noReplace

/-- **C51** violated: with MergeKeep a directory of the source replaces an existing file (add.go 236-258), here "f". -/
theorem C51_counterexample_keep_replaces_file :
    (after [(0, .create ['f'] 0)]).st.existing 0 ['f'] = some .file ∧
    (addFS 9 mergeKeep (after [(0, .create ['f'] 0)]).st 0 dot (.dir 0 true [(['f'], .dir 0 true [])])).2 = none ∧
    (addFS 9 mergeKeep (after [(0, .create ['f'] 0)]).st 0 dot (.dir 0 true [(['f'], .dir 0 true [])])).1.existing 0 ['f'] = some .dir := by
  refine ⟨by decide +kernel, by decide +kernel, by decide +kernel⟩

/-- **C51** violated: a link that leads nowhere, in the place of a parent directory, is replaced by a directory under every policy
(add.go 304-329), here "l" by AddFile("l/x") with FailOnConflict. -/
theorem C51_counterexample_dangling_parent :
    (after [(0, .symlink ['n'] ['l'])]).st.existing 0 ['l'] = some .link ∧
    (addFile failOnConflict (after [(0, .symlink ['n'] ['l'])]).st 0 ['l', '/', 'x'] 0 7).2 = none ∧
    (addFile failOnConflict (after [(0, .symlink ['n'] ['l'])]).st 0 ['l', '/', 'x'] 0 7).1.existing 0 ['l'] = some .dir := by
  refine ⟨by decide +kernel, by decide +kernel, by decide +kernel⟩

end Verif.Synth.Tree
