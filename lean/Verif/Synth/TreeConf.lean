import Verif.Synth.Resolve
/-
C49, continued: a call through a root changes nothing outside the directory of that root.
-/
namespace Verif.Synth.Tree
open Verif.Path

/-- A set of nodes that contains, with a directory, what the directory lists; and every node made from now on. -/
structure Closed (U : Id → Prop) (s : St) : Prop where
  down : ∀ d k c, U d → s.lookup d k = some c → U c
  new : ∀ i, s.nodes.length ≤ i → U i

/-- Only nodes of the set changed. -/
structure Fr (U : Id → Prop) (s s' : St) : Prop where
  same : ∀ d, ¬ U d → s'.nodes[d]? = s.nodes[d]?
  closed : Closed U s → Closed U s'

theorem Fr.refl (U : Id → Prop) (s : St) : Fr U s s := ⟨fun _ _ => rfl, id⟩

theorem Fr.trans {U : Id → Prop} {s s' s'' : St} (h : Fr U s s') (h' : Fr U s' s'') : Fr U s s'' :=
  ⟨fun d hd => (h'.same d hd).trans (h.same d hd), fun hc => h'.closed (h.closed hc)⟩

theorem Closed.under {U : Id → Prop} {s : St} (h : Closed U s) {b d : Id} (hb : U b) (hu : Under s b d) : U d := by
  rcases hu with rfl | hu
  · exact hb
  · induction hu with
    | child hc => exact h.down _ _ _ hb hc
    | step _ hc ih => exact h.down _ _ _ ih hc

theorem setDir_nodes (s : St) (i : Id) (r : DirRec) : (s.setDir i r).nodes = s.nodes.set i (.dir r) := rfl

theorem removeEntry_nodes_ne (s : St) (d : Id) (k : Str) (i : Id) (h : i ≠ d) : (s.removeEntry d k).nodes[i]? = s.nodes[i]? := by
  unfold St.removeEntry
  split
  · rfl
  · split
    · rfl
    · rw [setDir_nodes, getElem?_set_ne' (Ne.symm h)]

theorem pushBack_nodes_ne (s : St) (d : Id) (k : Str) (c : Id) (i : Id) (h : i ≠ d) : (s.pushBack d k c).nodes[i]? = s.nodes[i]? := by
  unfold St.pushBack
  split
  · rfl
  · simp only [setDir_nodes, getElem?_set_ne' (Ne.symm h)]

theorem pushBack_length (s : St) (d : Id) (k : Str) (c : Id) : (s.pushBack d k c).nodes.length = s.nodes.length := by
  unfold St.pushBack
  split
  · rfl
  · simp only [setDir_nodes, List.length_set]

theorem addEntry_nodes_ne (s : St) (d : Id) (k : Str) (c : Id) (i : Id) (h : i ≠ d) : (s.addEntry d k c).nodes[i]? = s.nodes[i]? := by
  unfold St.addEntry
  rw [pushBack_nodes_ne _ _ _ _ _ h, removeEntry_nodes_ne _ _ _ _ h]

theorem addEntry_length (s : St) (d : Id) (k : Str) (c : Id) : (s.addEntry d k c).nodes.length = s.nodes.length := by
  unfold St.addEntry
  rw [pushBack_length, nodes_length_removeEntry]

theorem closeView_nodes (s : St) (i : Id) : (s.closeView i).nodes = s.nodes := by
  unfold St.closeView; split <;> rfl

theorem clear_nodes_ne (s : St) (d i : Id) (h : i ≠ d) : (s.clear d).nodes[i]? = s.nodes[i]? := by
  unfold St.clear
  split
  · rfl
  · rw [setDir_nodes, getElem?_set_ne' (Ne.symm h)]

theorem clear_length (s : St) (d : Id) : (s.clear d).nodes.length = s.nodes.length := by
  unfold St.clear
  split
  · rfl
  · simp only [setDir_nodes, List.length_set]

theorem fr_shrink {U : Id → Prop} {s s' : St} (hs : Shr s s') (hsame : ∀ d, ¬ U d → s'.nodes[d]? = s.nodes[d]?) (hl : s'.nodes.length = s.nodes.length) : Fr U s s' :=
  ⟨hsame, fun hc => ⟨fun d k c hd hk => hc.down d k c hd (hs.sub d k c hk), fun i hi => hc.new i (hl ▸ hi)⟩⟩

theorem fr_removeEntry {U : Id → Prop} {d : Id} {s : St} (h : U d) (k : Str) : Fr U s (s.removeEntry d k) :=
  fr_shrink (shr_removeEntry s d k) (fun i hi => removeEntry_nodes_ne s d k i (fun e => hi (e ▸ h))) (nodes_length_removeEntry s d k)

theorem fr_closeView (U : Id → Prop) (s : St) (i : Id) : Fr U s (s.closeView i) :=
  fr_shrink (shr_closeView s i) (fun d _ => by rw [closeView_nodes]) (by rw [closeView_nodes])

theorem fr_clear {U : Id → Prop} {d : Id} {s : St} (h : U d) : Fr U s (s.clear d) :=
  fr_shrink (shr_clear s d) (fun i hi => clear_nodes_ne s d i (fun e => hi (e ▸ h))) (clear_length s d)

theorem fr_eachChild {U : Id → Prop} {rec : Id → St → Option St} (hrec : ∀ n s s', Good s → Closed U s → U n → rec n s = some s' → Fr U s s' ∧ Good s') :
    ∀ (cs : List Id) (s s' : St), Good s → Closed U s → (∀ c ∈ cs, U c) → eachChild rec cs s = some s' → Fr U s s' := by
  intro cs
  induction cs with
  | nil => intro s s' _ _ _ h; cases h; exact Fr.refl U s
  | cons c cs ih =>
    intro s s' hg hc hcs h
    simp only [eachChild] at h
    cases hr : rec c s with
    | none => rw [hr] at h; cases h
    | some s1 =>
      rw [hr] at h
      obtain ⟨h1, hg1⟩ := hrec c s s1 hg hc (hcs c List.mem_cons_self) hr
      exact h1.trans (ih s1 s' hg1 (h1.closed hc) (fun c' hc' => hcs c' (List.mem_cons_of_mem _ hc')) h)

theorem fr_removeSubtree {U : Id → Prop} : ∀ (fuel : Nat) (n : Id) (s s' : St), Good s → Closed U s → U n → removeSubtree fuel n s = some s' → Fr U s s' ∧ Good s' := by
  intro fuel
  induction fuel with
  | zero => intro n s s' _ _ _ h; cases h
  | succ fuel ih =>
    intro n s s' hg hc hn h
    refine ⟨?_, (shr_removeSubtree _ n s s' h).good hg⟩
    simp only [removeSubtree] at h
    split at h
    · cases he : eachChild (removeSubtree fuel) (s.entries n) s with
      | none => rw [he] at h; cases h
      | some s1 =>
        rw [he] at h
        cases h
        refine (fr_eachChild ih (s.entries n) s s1 hg hc ?_ he).trans (fr_clear hn)
        intro c hcm
        obtain ⟨k, hk⟩ := (mem_entries hg).1 hcm
        exact hc.down n k c hn hk
    · cases h; exact fr_closeView U s n
    · cases h; exact Fr.refl U s

theorem put_length (s : St) (d : Id) (k : Str) (n : Node) : (s.put d k n).nodes.length = s.nodes.length + 1 := by
  unfold St.put; rw [addEntry_length]; simp [St.alloc]

theorem fr_put {U : Id → Prop} {d : Id} {s : St} (hd : s.isDir d) (hc : Closed U s) (hu : U d) (k : Str) {n : Node} (hb : n.Blank) : Fr U s (s.put d k n) := by
  refine ⟨?_, fun _ => ⟨?_, ?_⟩⟩
  · intro i hn
    unfold St.put
    rw [addEntry_nodes_ne _ _ _ _ _ (show i ≠ d by rintro rfl; exact hn hu)]
    have : i ≠ s.nodes.length := by rintro rfl; exact hn (hc.new _ (Nat.le_refl _))
    simp only [St.alloc, getElem?_snoc, if_neg this]
  · intro d' k' c hd' hk
    rw [lookup_put hd hb] at hk
    split at hk
    · cases hk; exact hc.new _ (Nat.le_refl _)
    · exact hc.down d' k' c hd' hk
  · intro i hi
    rw [put_length] at hi
    exact hc.new i (by omega)

theorem move_length (s : St) (op : Id) (ob : Str) (t np : Id) (nb : Str) : (s.move op ob t np nb).nodes.length = s.nodes.length := by
  unfold St.move
  rw [addEntry_length]
  unfold St.relabel
  split <;> simp [nodes_length_removeEntry]

theorem fr_move {U : Id → Prop} {s : St} {op np t : Id} {ob nb : Str} (hop : U op) (ht : U t) (hnp : U np) (hnd : s.isDir np) :
    Fr U s (s.move op ob t np nb) := by
  refine ⟨?_, fun hc => ⟨?_, ?_⟩⟩
  · intro d hd
    unfold St.move
    rw [addEntry_nodes_ne _ _ _ _ _ (show d ≠ np by rintro rfl; exact hd hnp)]
    have h1 : ((s.removeEntry op ob).relabel t nb np).nodes[d]? = (s.removeEntry op ob).nodes[d]? := by
      have hne : t ≠ d := by rintro rfl; exact hd ht
      unfold St.relabel
      split <;> first | rfl | (simp only [getElem?_set_ne' hne])
    rw [h1, removeEntry_nodes_ne _ _ _ _ (show d ≠ op by rintro rfl; exact hd hop)]
  · intro d k c hd hk
    rw [lookup_move hnd] at hk
    split at hk
    · cases hk; exact ht
    · split at hk
      · cases hk
      · exact hc.down d k c hd hk
  · intro i hi
    rw [move_length] at hi
    exact hc.new i hi

/-! ### The calls -/

/-- The setting of a call through the root `b`. -/
structure Ctx (U : Id → Prop) (b : Id) (s : St) : Prop where
  good : Good s
  dir : s.isDir b
  closed : Closed U s
  root : U b

theorem Ctx.next {U : Id → Prop} {b : Id} {s s' : St} (h : Ctx U b s) (hp : Pres s s') (hf : Fr U s s') : Ctx U b s' :=
  ⟨hp.good h.good, hp.keeps b h.dir, hf.closed h.closed, h.root⟩

theorem resolveParent_in {U : Id → Prop} {s : St} {b : Id} (h : Ctx U b s) {name : Str} {p : Id} {base : Str} (hr : resolveParent s b b name = .ok (p, base)) : U p := by
  unfold resolveParent at hr
  split at hr
  · cases hr
  · split at hr
    · cases hr
    · split at hr
      · cases hr
      · rename_i r hr'
        split at hr
        · cases hr
        · cases hr; exact h.closed.under h.root (resolve_ok h.good h.dir hr').under

theorem fr_putDir {U : Id → Prop} {d : Id} {s : St} (hd : s.isDir d) (hc : Closed U s) (hu : U d) (k : Str) (mode : Nat) :
    Fr U s (s.putDir d k mode).1 ∧ U (s.putDir d k mode).2 :=
  ⟨fr_put hd hc hu k (by simp [Node.Blank, newDir]), hc.new _ (Nat.le_refl _)⟩

theorem fr_mkdirOne {U : Id → Prop} {s : St} {b : Id} (h : Ctx U b s) (name : Str) (mode : Nat) : Fr U s (mkdirOne s b name mode).1 := by
  unfold mkdirOne
  split
  · exact Fr.refl U s
  · rename_i parent base hp
    split
    · exact Fr.refl U s
    · split
      · exact Fr.refl U s
      · exact (fr_putDir (resolveParent_dir hp) h.closed (resolveParent_in h hp) base mode).1

theorem fr_mkdirEach {U : Id → Prop} (b : Id) (mode : Nat) : ∀ (ps : List Str) (s : St), Ctx U b s → Fr U s (mkdirEach b mode ps s).1 := by
  intro ps
  induction ps with
  | nil => intro s _; exact Fr.refl U s
  | cons p rest ih =>
    intro s h
    have h1 := fr_mkdirOne h p mode
    have h2 := pres_mkdirOne s b p mode
    simp only [mkdirEach]
    split
    · rename_i s1 e; rw [e] at h1 h2; exact h1.trans (ih s1 (h.next h2 h1))
    · rename_i s1 e
      rw [e] at h1 h2
      split
      · exact h1
      · split
        · exact h1
        · exact h1.trans (ih s1 (h.next h2 h1))
    · rename_i s1 e _ he; rw [he] at h1; exact h1

theorem fr_views (U : Id → Prop) {s s' : St} (hn : s'.nodes = s.nodes) : Fr U s s' := by
  have hd : ∀ i, s'.dir? i = s.dir? i := by intro i; unfold St.dir?; rw [hn]
  have hk : ∀ d k, s'.lookup d k = s.lookup d k := by intro d k; unfold St.lookup; rw [hd]
  exact ⟨fun d _ => by rw [hn], fun hc => ⟨fun d k c hu h => hc.down d k c hu (by rw [← hk]; exact h), fun i hi => hc.new i (by rw [← hn]; exact hi)⟩⟩

theorem fr_unlink {U : Id → Prop} {d : Id} {s : St} (h : U d) (k : Str) : Fr U s (s.unlink d k) := by
  unfold St.unlink
  split
  · exact Fr.refl U s
  · exact (fr_removeEntry h k).trans (fr_closeView U _ _)

theorem fr_materialize {U : Id → Prop} {fuel : Nat} {s : St} {dst : Id} {base : Str} {mode : Nat} {ov : Bool} {s1 : St} {d : Id} (hg : Good s) (hd : s.isDir dst) (hc : Closed U s) (hu : U dst)
    (h : materializeDir fuel s dst base mode ov = some (s1, d)) : Fr U s s1 ∧ U d := by
  unfold materializeDir at h
  split at h
  · cases h; exact fr_putDir hd hc hu base mode
  · rename_i ex hex
    have hex' := hc.down _ _ _ hu hex
    split at h
    · cases h; exact ⟨Fr.refl U s, hex'⟩
    · have h1 := fr_removeEntry (s := s) hu base
      have p1 := (shr_removeEntry s dst base).pres
      split at h
      · cases hr : removeSubtree fuel ex (s.removeEntry dst base) with
        | none => rw [hr] at h; cases h
        | some s2 =>
          rw [hr] at h
          cases h
          have h2 := (fr_removeSubtree fuel ex _ s2 (p1.good hg) (h1.closed hc) hex' hr).1
          have p2 := (shr_removeSubtree fuel ex _ s2 hr).pres
          have h3 := fr_putDir (p2.keeps _ (p1.keeps _ hd)) (h2.closed (h1.closed hc)) hu base mode
          exact ⟨h1.trans (h2.trans h3.1), h3.2⟩
      · cases h
        have h3 := fr_putDir (p1.keeps _ hd) (h1.closed hc) hu base mode
        exact ⟨h1.trans h3.1, h3.2⟩

mutual
theorem fr_addWalk {U : Id → Prop} (fuel : Nat) (cb : AddFunc) (s : St) (dst : Id) (base path : Str) (hg : Good s) (hd : s.isDir dst) (hc : Closed U s) (hu : U dst) :
    (src : Src) → Fr U s (addWalk fuel cb s dst base path src).1
  | .bad => Fr.refl U s
  | .dir mode ok kids => by
    simp only [addWalk]
    split
    · exact Fr.refl U s
    · exact Fr.refl U s
    · split
      · exact Fr.refl U s
      · rename_i s1 d hm
        have h1 := fr_materialize hg hd hc hu hm
        have p1 := pres_materialize hd hm
        split
        · exact h1.1.trans (fr_addKids fuel cb s1 d path (p1.1.good hg) p1.2 (h1.1.closed hc) h1.2 kids)
        · exact h1.1
    · split
      · exact Fr.refl U s
      · rename_i s1 d hm
        have h1 := fr_materialize hg hd hc hu hm
        have p1 := pres_materialize hd hm
        split
        · exact h1.1.trans (fr_addKids fuel cb s1 d path (p1.1.good hg) p1.2 (h1.1.closed hc) h1.2 kids)
        · exact h1.1
  | .link target => by
    simp only [addWalk]
    split
    · exact Fr.refl U s
    · exact Fr.refl U s
    · cases target with
      | none => exact Fr.refl U s
      | some t =>
        simp only
        split
        · exact Fr.refl U s
        · exact fr_put (n := .link base t) hd hc hu _ trivial
    · cases target with
      | none => exact Fr.refl U s
      | some t =>
        have h1 := fr_unlink (s := s) hu base
        exact h1.trans (fr_put (n := .link base t) ((shr_unlink s dst base).pres.keeps _ hd) (h1.closed hc) hu _ trivial)
  | .file mode view => by
    simp only [addWalk]
    split
    · exact Fr.refl U s
    · exact Fr.refl U s
    · cases view with
      | none => exact Fr.refl U s
      | some v =>
        simp only
        split
        · exact fr_views U rfl
        · exact fr_put (n := .file base mode v) hd hc hu _ trivial
    · cases view with
      | none => exact Fr.refl U s
      | some v =>
        have h1 := fr_unlink (s := s) hu base
        exact h1.trans (fr_put (n := .file base mode v) ((shr_unlink s dst base).pres.keeps _ hd) (h1.closed hc) hu _ trivial)
theorem fr_addKids {U : Id → Prop} (fuel : Nat) (cb : AddFunc) (s : St) (d : Id) (path : Str) (hg : Good s) (hd : s.isDir d) (hc : Closed U s) (hu : U d) :
    (kids : List (Str × Src)) → Fr U s (addKids fuel cb s d path kids).1
  | [] => Fr.refl U s
  | (k, c) :: rest => by
    have h1 := fr_addWalk fuel cb s d k (slashJoin path k) hg hd hc hu c
    have p1 := pres_addWalk fuel cb s d k (slashJoin path k) hd c
    simp only [addKids]
    split
    · rename_i s1 e he; rw [he] at h1; exact h1
    · rename_i s1 he
      rw [he] at h1 p1
      exact h1.trans (fr_addKids fuel cb s1 d path (p1.good hg) (p1.keeps _ hd) (h1.closed hc) hu rest)
end

theorem fr_ensureEach {U : Id → Prop} (b : Id) : ∀ (ps : List Str) (parent : Id) (s : St), Ctx U b s → U parent →
    Fr U s (ensureEach b ps parent s).1 ∧ ∀ d, (ensureEach b ps parent s).2 = .ok d → U d := by
  intro ps
  induction ps with
  | nil => intro parent s _ hp; refine ⟨Fr.refl U s, ?_⟩; intro d hd; cases hd; exact hp
  | cons p rest ih =>
    intro parent s h hp
    simp only [ensureEach]
    split
    · rename_i r hr
      split
      · exact ⟨Fr.refl U s, by intro d hd; cases hd⟩
      · exact ih _ s h (h.closed.under h.root (resolve_ok h.good h.dir hr).under)
    · split
      · exact ⟨Fr.refl U s, by intro d hd; cases hd⟩
      · rename_i pp pb hpp
        have h1 := fr_putDir (resolveParent_dir hpp) h.closed (resolveParent_in h hpp) pb 0o755
        have h2 := ih s.nodes.length (s.putDir pp pb 0o755).1 (h.next (pres_putDir (resolveParent_dir hpp) pb 0o755) h1.1) h1.2
        exact ⟨h1.1.trans h2.1, h2.2⟩
    · exact ⟨Fr.refl U s, by intro d hd; cases hd⟩

theorem fr_ensureParents {U : Id → Prop} {s : St} {b : Id} (h : Ctx U b s) (name : Str) :
    Fr U s (ensureParents s b name).1 ∧ ∀ d base, (ensureParents s b name).2 = .ok (d, base) → U d := by
  unfold ensureParents
  split
  · exact ⟨Fr.refl U s, by intro d base hd; cases hd⟩
  · rename_i slash hs
    split
    · exact ⟨Fr.refl U s, by intro d base hd; cases hd⟩
    · split
      · exact ⟨Fr.refl U s, by intro d base hd; cases hd; exact h.root⟩
      · have h1 := fr_ensureEach b (Fsutil.vPathFromHead (splitLast slash).1) b s h h.root
        split
        · rename_i s1 e he; rw [he] at h1; exact ⟨h1.1, by intro d base hd; cases hd⟩
        · rename_i s1 d he
          rw [he] at h1
          refine ⟨h1.1, ?_⟩
          intro d' base hd
          cases hd
          exact h1.2 d rfl

theorem fr_call {U : Id → Prop} (c : Call) {s : St} {b : Id} (h : Ctx U b s) : Fr U s (callOn s b c).1 := by
  cases c with
  | mkdir n m => exact fr_mkdirOne h n m
  | mkdirAll n m =>
    simp only [callOn, mkdirAll]
    split
    · exact Fr.refl U s
    · split
      · exact Fr.refl U s
      · exact fr_mkdirEach b m _ s h
  | create n m =>
    simp only [callOn, create]
    split
    · exact Fr.refl U s
    · rename_i parent base hp
      split
      · exact Fr.refl U s
      · have h1 : Fr U s { s with nextView := s.nextView + 1 } := fr_views U rfl
        have p1 : Pres s { s with nextView := s.nextView + 1 } := pres_views rfl rfl
        exact h1.trans (fr_put (n := .file base m s.nextView) (p1.keeps _ (resolveParent_dir hp)) (h1.closed h.closed) (resolveParent_in h hp) base trivial)
  | symlink t n =>
    simp only [callOn, symlink]
    split
    · exact Fr.refl U s
    · rename_i parent base hp
      split
      · exact Fr.refl U s
      · exact fr_put (n := .link base t) (resolveParent_dir hp) h.closed (resolveParent_in h hp) base trivial
  | link o n =>
    simp only [callOn, link]
    split
    · exact Fr.refl U s
    · split
      · rename_i nm mode view hf
        split
        · exact Fr.refl U s
        · rename_i parent base hp
          split
          · exact Fr.refl U s
          · exact fr_put (n := .file base mode view) (resolveParent_dir hp) h.closed (resolveParent_in h hp) base trivial
      · exact Fr.refl U s
  | remove n busy =>
    simp only [callOn, remove]
    split
    · exact Fr.refl U s
    · rename_i parent base hp
      split
      · exact Fr.refl U s
      · split
        · exact Fr.refl U s
        · split
          · exact Fr.refl U s
          · exact (fr_removeEntry (resolveParent_in h hp) base).trans (fr_closeView U _ _)
  | removeAll fuel n =>
    simp only [callOn, removeAll]
    split
    · exact Fr.refl U s
    · split
      · exact Fr.refl U s
      · split
        · exact Fr.refl U s
        · split
          · exact Fr.refl U s
          · rename_i parent base hp
            have hin := resolveParent_in h hp
            split
            · exact Fr.refl U s
            · rename_i t ht
              split
              · exact Fr.refl U s
              · rename_i s1 h1
                exact (fr_removeSubtree fuel t s s1 h.good h.closed (h.closed.down _ _ _ hin ht) h1).1.trans (fr_removeEntry hin base)
  | rename o n =>
    simp only [callOn]
    rcases rename_cases s b o n with ⟨he, _⟩ | ⟨op, ob, t, np, nb, s2, hop, ht, hnp, _, hs, hs2, he⟩
    · rw [he]; exact Fr.refl U s
    · have hopU := resolveParent_in h hop
      have hnpU := resolveParent_in h hnp
      have htU := h.closed.down _ _ _ hopU ht
      unfold rename
      simp only [hop, ht, hnp]
      split
      · exact fr_move hopU htU hnpU (resolveParent_dir hnp)
      · split
        · exact Fr.refl U s
        · rename_i ex _ _
          have h1 := (fr_removeEntry (s := s) hnpU nb).trans (fr_closeView U _ ex)
          have p1 := ((shr_removeEntry s np nb).trans (shr_closeView _ ex)).pres
          exact h1.trans (fr_move hopU htU hnpU (p1.keeps _ (resolveParent_dir hnp)))
  | addFile cb n m v =>
    simp only [callOn, addFile]
    have h1 := fr_ensureParents h n
    have p1 := pres_ensureParents h.dir n
    split
    · rename_i s1 e he; rw [he] at h1; exact h1.1
    · rename_i s1 d base he
      rw [he] at h1 p1
      split
      · exact h1.1
      · exact h1.1
      · exact h1.1
      · have h2 := fr_unlink (s := s1) (h1.2 d base rfl) base
        exact h1.1.trans (h2.trans (fr_put (n := .file base m v) ((shr_unlink s1 d base).pres.keeps _ (p1.2 d base rfl)) (h2.closed (h1.1.closed h.closed)) (h1.2 d base rfl) _ trivial))
  | addFS fuel cb n src =>
    simp only [callOn, addFS]
    split
    · exact Fr.refl U s
    · rename_i slash hs
      split
      · split
        · exact fr_addKids fuel cb s b dot h.good h.dir h.closed h.root _
        · exact Fr.refl U s
      · have h1 := fr_ensureParents h n
        have p1 := pres_ensureParents h.dir n
        split
        · rename_i s1 e he; rw [he] at h1; exact h1.1
        · rename_i s1 d base he
          rw [he] at h1 p1
          exact h1.1.trans (fr_addWalk fuel cb s1 d base slash (p1.1.good h.good) (p1.2 d base rfl) (h1.1.closed h.closed) (h1.2 d base rfl) src)
  | openRoot n => exact Fr.refl U s

/-- **C49** (changes are confined). After any history, a call through a root or sub-root changes only nodes that were inside its
directory, and makes new ones: whatever lies outside keeps its name, attributes, entries and place. -/
theorem C49_changes_confined (hist : List (Nat × Call)) (b : Id) (hb : b ∈ (after hist).roots) (c : Call) (d : Id)
    (hd : d < (after hist).st.nodes.length) (hout : ¬ Under (after hist).st b d) :
    (callOn (after hist).st b c).1.nodes[d]? = (after hist).st.nodes[d]? := by
  have hw := wgood_run hist _ wgood_init
  have hctx : Ctx (fun i => Under (after hist).st b i ∨ (after hist).st.nodes.length ≤ i) b (after hist).st := by
    refine ⟨hw.good, hw.roots b hb, ⟨?_, fun i hi => .inr hi⟩, .inl (.inl rfl)⟩
    intro e k x he hx
    rcases he with he | he
    · exact .inl (.inr (he.step hx))
    · obtain ⟨r, hr⟩ := lookup_isDir hx
      exact absurd (lt_of_dir hr) (Nat.not_lt.2 he)
  refine (fr_call c hctx).same d ?_
  intro h
  rcases h with h | h
  · exact hout h
  · exact absurd hd (Nat.not_lt.2 h)

example : 0 < (after linked).st.nodes.length ∧ ¬ Under (after linked).st 1 0 := by
  refine ⟨by decide +kernel, ?_⟩
  intro h
  rcases h with h | h
  · cases h
  · have hw := wgood_run linked _ wgood_init
    cases h with
    | child hc => exact hw.good.rootFree _ _ hc
    | step _ hc => exact hw.good.rootFree _ _ hc

end Verif.Synth.Tree
