import Verif.Tarfs.TreeProps
import Verif.Common.StrLemmas
/-
Property C37: resolution of links in an archive ends, does not panic, and stays inside.
-/
namespace Verif.Tarfs
open Verif.Path

/-! ## Helpers: the components the loop will meet -/

/-- The components the loop cuts from `rest`, one per round. -/
inductive Toks : Str → List Str → Prop
  | nil : Toks [] []
  | cons {s c r : Str} {ts : List Str} (h : s ≠ []) (hc : cutSlash s = (c, r)) (ht : Toks r ts) : Toks s (c :: ts)

theorem toks_join {ns : List Str} (h : ∀ c ∈ ns, IsComp c) : Toks (join ns) ns := by
  induction ns with
  | nil => exact .nil
  | cons c rest ih =>
    have hc := h c (by simp)
    cases rest with
    | nil => exact .cons hc.1 (cutSlash_last hc.2) .nil
    | cons d r =>
      exact .cons (by simp [join]) (cutSlash_append hc.2 _) (ih (fun x hx => h x (List.mem_cons_of_mem _ hx)))

theorem toks_join_append {ns : List Str} (hne : ns ≠ []) (h : ∀ c ∈ ns, IsComp c) {r : Str} {ts : List Str} (hr : Toks r ts) :
    Toks (join ns ++ slash :: r) (ns ++ ts) := by
  induction ns with
  | nil => exact absurd rfl hne
  | cons c rest ih =>
    have hc := h c (by simp)
    cases rest with
    | nil => exact .cons (by simp) (cutSlash_append hc.2 _) hr
    | cons d r' =>
      have := ih (by simp) (fun x hx => h x (List.mem_cons_of_mem _ hx))
      refine .cons (by simp [join]) ?_ this
      show cutSlash ((c ++ slash :: join (d :: r')) ++ slash :: r) = _
      rw [List.append_assoc]
      exact cutSlash_append hc.2 _

theorem cutSlash_length {s c r : Str} (h : s ≠ []) (hc : cutSlash s = (c, r)) : r.length < s.length := by
  unfold cutSlash at hc
  cases hcf : cutFirst slash s with
  | none => rw [hcf] at hc; cases hc; exact List.length_pos_iff.2 h
  | some x =>
    rw [hcf] at hc; subst hc
    have := (Verif.cutFirst_eq_some.1 hcf).1
    rw [this]; simp; omega

/-- A way that does not end in "..": steps up, then at least one name; or a "." where the loop stops. -/
inductive Way : List Str → Prop
  | here (ts : List Str) : Way (dot :: ts)
  | names {ns : List Str} (hne : ns ≠ []) (h : ∀ c ∈ ns, IsName c) : Way ns
  | up {ts : List Str} (h : Way ts) : Way (dotdot :: ts)

/-- The target does not consist of ".." alone. -/
def HasName (target : Str) : Prop := clean target = dot ∨ ∃ c ∈ comps target, IsName c

theorem way_target {target : Str} (habs : isAbs target = false) (hn : HasName target) {r : Str} {ns : List Str} (hr : Toks r ns)
    (hns : ∀ c ∈ ns, IsName c) : ∃ ts, Toks (clean target ++ slash :: r) ts ∧ Way ts := by
  have hnorm := comps_normal target
  rw [habs] at hnorm
  rcases hn with h | ⟨c, hc, hcn⟩
  · refine ⟨dot :: ns, ?_, .here _⟩
    rw [h]
    exact toks_join_append (ns := [dot]) (by simp) (by simp [IsComp, dot, slash]) hr
  · have hne : comps target ≠ [] := by intro h; rw [h] at hc; simp at hc
    have hcl : clean target = join (comps target) := by unfold clean render; rw [habs]; simp [hne]
    refine ⟨comps target ++ ns, ?_, ?_⟩
    · rw [hcl]
      exact toks_join_append hne (fun x hx => (hnorm.isComp x hx).1) hr
    · generalize comps target = cs at *
      clear hcl hne
      induction hnorm with
      | names h =>
        rename_i ms
        refine .names (by intro h'; simp at h'; rw [h'.1] at hc; simp at hc) ?_
        intro x hx
        rcases List.mem_append.1 hx with h' | h'
        · exact h x h'
        · exact hns x h'
      | up _ h ih =>
        refine .up (ih ?_)
        rcases List.mem_cons.1 hc with h' | h'
        · subst h'; exact absurd rfl hcn.2.2
        · exact h'

theorem ent_up (opt : Opt) (hs : List Hdr) (p : List Str) (e : Ent) (hp : p ≠ []) (he : (newTree opt hs).ent p = some e) :
    ∃ h, (newTree opt hs).ent p.dropLast = some (.dir h) := by
  have inv := new_inv opt hs
  by_cases hd : p.dropLast = []
  · rw [hd]; exact ⟨_, inv.root⟩
  · rw [inv.ent p hp] at he
    have hex : ∃ x ∈ pairs opt hs, p <+: x.1 := by
      unfold specEnt at he
      have hnil : p.isPrefixOf ([] : List Str) = false := by
        cases p with
        | nil => exact absurd rfl hp
        | cons => rfl
      rw [hnil, Bool.or_false] at he
      split at he
      · rename_i hb
        obtain ⟨x, hx, q, _, hxq⟩ := (below_iff _ _).1 hb
        exact ⟨x, hx, q, hxq.symm⟩
      · rw [Option.map_eq_some_iff] at he
        obtain ⟨h, hl, _⟩ := he
        exact ⟨_, look_some _ _ _ hl, List.prefix_refl _⟩
    obtain ⟨x, hx, hpre⟩ := hex
    have hb : below (pairs opt hs) p.dropLast = true := by
      rw [below_iff]
      obtain ⟨q, hq⟩ := hpre
      refine ⟨x, hx, [p.getLast hp] ++ q, by simp, ?_⟩
      rw [← hq, ← List.append_assoc, List.dropLast_concat_getLast]
    rw [inv.ent _ hd]
    unfold specEnt
    rw [hb]
    exact ⟨_, rfl⟩

/-- A round of the loop, by the component cut. -/
def roundOn (fs : Fsys) (hl : Hdr → Option Look) (skip : Bool) (fuel r : Nat) (cur d : List Str) (c rest : Str) : Option Look :=
  if c = dot then some (.ok cur)
  else if c = dotdot then
    if fs.rooted ∧ (cur = [] ∨ cur = fs.sub) then some (.error .escapes)
    else if cur = [] then some (.error .notExist)
    else openLoop fs hl skip fuel r cur.dropLast d rest
  else match fs.t.ent (cur ++ [c]) with
    | none => some (.error .notExist)
    | some (.symlink h) =>
      if rest ≠ [] ∨ skip = false then
        if r ≥ maxLinks then some (.error .eloop)
        else if isAbs (clean h.linkname) then some (.error .escapes)
        else openLoop fs hl skip fuel (r + 1) cur (cur ++ [c]) (clean h.linkname ++ slash :: rest)
      else some (.ok (cur ++ [c]))
    | some (.dir _) =>
      if rest = [] then some (.ok (cur ++ [c]))
      else openLoop fs hl skip fuel r (cur ++ [c]) (cur ++ [c]) rest
    | some (.hardlink h) =>
      if rest = [] then some (.ok (cur ++ [c]))
      else match hl h with
        | none => none
        | some (.error e) => some (.error e)
        | some (.ok p) =>
          match fs.t.ent p with
          | some (.dir _) => openLoop fs hl skip fuel r p (cur ++ [c]) rest
          | _ => some (.error .notDir)
    | some (.file _) => if rest = [] then some (.ok (cur ++ [c])) else some (.error .notDir)

theorem openLoop_round {fs : Fsys} {hl : Hdr → Option Look} {skip : Bool} {fuel r : Nat} {cur d : List Str} {s c rest : Str}
    (hs : s ≠ []) (hc : cutSlash s = (c, rest)) :
    openLoop fs hl skip (fuel + 1) r cur d s = roundOn fs hl skip fuel r cur d c rest := by
  conv => lhs; unfold openLoop
  rw [if_neg hs]
  simp only [hc]
  rfl

/-! ## Termination -/

/-- The loop ends when calls to resolve hard links return: the remaining text plus what the remaining links may add bounds the rounds. -/
theorem openLoop_ends {fs : Fsys} {hl : Hdr → Option Look} {skip : Bool} {M : Nat}
    (hM : ∀ p h, fs.t.ent p = some (.symlink h) → (clean h.linkname).length + 1 ≤ M)
    (hhl : ∀ p h, fs.t.ent p = some (.hardlink h) → hl h ≠ none) :
    ∀ (fuel r : Nat) (cur d : List Str) (s : Str), s.length + (maxLinks - r) * M < fuel → openLoop fs hl skip fuel r cur d s ≠ none := by
  intro fuel
  induction fuel with
  | zero => intro r cur d s h; omega
  | succ fuel ih =>
    intro r cur d s hf
    by_cases hs : s = []
    · subst hs; simp [openLoop]
    · rcases hcs : cutSlash s with ⟨c, rest⟩
      have hlt := cutSlash_length hs hcs
      rw [openLoop_round hs hcs]
      unfold roundOn
      split
      · simp
      · split
        · split
          · simp
          · split
            · simp
            · exact ih _ _ _ _ (by omega)
        · split
          · simp
          · rename_i h hent
            split
            · split
              · simp
              · split
                · simp
                · rename_i hr _
                  apply ih
                  have := hM _ _ hent
                  simp only [List.length_append, List.length_cons]
                  have hr' : r < maxLinks := by omega
                  have : maxLinks - r = (maxLinks - (r + 1)) + 1 := by omega
                  rw [this, Nat.add_mul] at hf
                  omega
            · simp
          · split
            · simp
            · exact ih _ _ _ _ (by omega)
          · rename_i h hent
            split
            · simp
            · have := hhl _ _ hent
              split
              · rename_i hn; exact absurd hn this
              · simp
              · split
                · exact ih _ _ _ _ (by omega)
                · simp
          · split <;> simp

/-- More rounds do not change the outcome. -/
theorem openLoop_stable {fs : Fsys} {hl hl' : Hdr → Option Look} {skip : Bool}
    (hhl : ∀ p h, fs.t.ent p = some (.hardlink h) → hl h = hl' h) :
    ∀ (fuel fuel' r : Nat) (cur d : List Str) (s : Str) (o : Look), fuel ≤ fuel' → openLoop fs hl skip fuel r cur d s = some o →
      openLoop fs hl' skip fuel' r cur d s = some o := by
  intro fuel
  induction fuel with
  | zero => intro fuel' r cur d s o _ h; simp [openLoop] at h
  | succ fuel ih =>
    intro fuel' r cur d s o hle h
    obtain ⟨f', rfl⟩ : ∃ f, fuel' = f + 1 := ⟨fuel' - 1, by omega⟩
    by_cases hs : s = []
    · subst hs; simpa [openLoop] using h
    · rcases hcs : cutSlash s with ⟨c, rest⟩
      rw [openLoop_round hs hcs] at h ⊢
      unfold roundOn at h ⊢
      by_cases h1 : c = dot
      · rw [if_pos h1] at h ⊢; exact h
      · rw [if_neg h1] at h ⊢
        by_cases h2 : c = dotdot
        · rw [if_pos h2] at h ⊢
          by_cases h3 : fs.rooted ∧ (cur = [] ∨ cur = fs.sub)
          · rw [if_pos h3] at h ⊢; exact h
          · rw [if_neg h3] at h ⊢
            by_cases h4 : cur = []
            · rw [if_pos h4] at h ⊢; exact h
            · rw [if_neg h4] at h ⊢
              exact ih _ _ _ _ _ _ (by omega) h
        · rw [if_neg h2] at h ⊢
          cases hent : fs.t.ent (cur ++ [c]) with
          | none => rw [hent] at h; exact h
          | some e =>
            rw [hent] at h
            cases e with
            | dir _ =>
              simp only at h ⊢
              by_cases h3 : rest = []
              · rw [if_pos h3] at h ⊢; exact h
              · rw [if_neg h3] at h ⊢
                exact ih _ _ _ _ _ _ (by omega) h
            | symlink hd =>
              simp only at h ⊢
              by_cases h3 : rest ≠ [] ∨ skip = false
              · rw [if_pos h3] at h ⊢
                by_cases h4 : r ≥ maxLinks
                · rw [if_pos h4] at h ⊢; exact h
                · rw [if_neg h4] at h ⊢
                  by_cases h5 : isAbs (clean hd.linkname) = true
                  · rw [if_pos h5] at h ⊢; exact h
                  · rw [if_neg h5] at h ⊢
                    exact ih _ _ _ _ _ _ (by omega) h
              · rw [if_neg h3] at h ⊢; exact h
            | hardlink hd =>
              simp only [← hhl _ _ hent] at h ⊢
              by_cases h3 : rest = []
              · rw [if_pos h3] at h ⊢; exact h
              · rw [if_neg h3] at h ⊢
                rcases hq : hl hd with _ | ⟨e | q⟩
                · rw [hq] at h; cases h
                · rw [hq] at h; exact h
                · rw [hq] at h
                  simp only at h ⊢
                  cases he : fs.t.ent q with
                  | none => rw [he] at h; exact h
                  | some e =>
                    rw [he] at h
                    cases e with
                    | dir _ => exact ih _ _ _ _ _ _ (by omega) h
                    | _ => exact h
            | file _ => exact h

/-! ## What the loop finds -/

/-- Where the loop ends: at an entry, and not at a symbolic link when links are followed. -/
theorem openLoop_found {opt : Opt} {hs : List Hdr} {fs : Fsys} (ht : fs.t = newTree opt hs) {hl : Hdr → Option Look} {skip : Bool}
    (hnames : ∀ p h, fs.t.ent p = some (.symlink h) → HasName h.linkname) :
    ∀ (fuel r : Nat) (cur d : List Str) (s : Str) (ts : List Str) (p : List Str), Toks s ts → Way ts →
      (∃ h, fs.t.ent cur = some (.dir h)) → openLoop fs hl skip fuel r cur d s = some (.ok p) →
      ∃ e, fs.t.ent p = some e ∧ (skip = false → ∀ h, e ≠ .symlink h) := by
  intro fuel
  induction fuel with
  | zero => intro r cur d s ts p _ _ _ h; simp [openLoop] at h
  | succ fuel ih =>
    intro r cur d s ts p htk hw hcur h
    cases hw with
    | here ts' =>
      cases htk with
      | cons hs' hc htk' =>
        rw [openLoop_round hs' hc] at h
        simp [roundOn] at h
        subst h
        obtain ⟨h', he⟩ := hcur
        exact ⟨_, he, by intro _ h'' e; cases e⟩
    | up hw' =>
      cases htk with
      | cons hs' hc htk' =>
        rw [openLoop_round hs' hc] at h
        unfold roundOn at h
        rw [if_neg (by decide), if_pos rfl] at h
        split at h
        · cases h
        · split at h
          · cases h
          · rename_i hne
            obtain ⟨h', he⟩ := hcur
            refine ih _ _ _ _ _ _ htk' hw' ?_ h
            rw [ht] at he ⊢
            exact ent_up opt hs _ _ hne he
    | names hne hn =>
      cases htk with
      | nil => exact absurd rfl hne
      | @cons s c rest ts' hs' hc htk' =>
        have hcn := hn c (by simp)
        have hn' : ∀ x ∈ ts', IsName x := fun x hx => hn x (List.mem_cons_of_mem _ hx)
        rw [openLoop_round hs' hc] at h
        unfold roundOn at h
        rw [if_neg hcn.2.1, if_neg hcn.2.2] at h
        have hw'' : rest ≠ [] → Way ts' := by
          intro hr
          cases htk' with
          | nil => exact absurd rfl hr
          | cons => exact .names (by simp) hn'
        cases hent : fs.t.ent (cur ++ [c]) with
        | none => rw [hent] at h; cases h
        | some e =>
          rw [hent] at h
          cases e with
          | dir _ =>
            simp only at h
            split at h
            · cases h; exact ⟨_, hent, by intro _ h' e; cases e⟩
            · rename_i hr
              exact ih _ _ _ _ _ _ htk' (hw'' hr) ⟨_, hent⟩ h
          | symlink hd =>
            simp only at h
            split at h
            · split at h
              · cases h
              · split at h
                · cases h
                · rename_i habs
                  obtain ⟨ts2, ht2, hw2⟩ := way_target (by rw [isAbs_clean] at habs; simpa using habs) (hnames _ _ hent) htk' hn'
                  exact ih _ _ _ _ _ _ ht2 hw2 hcur h
            · rename_i hcond
              cases h
              refine ⟨_, hent, ?_⟩
              intro hsk
              exact absurd (Or.inr hsk) hcond
          | hardlink hd =>
            simp only at h
            split at h
            · cases h; exact ⟨_, hent, by intro _ h' e; cases e⟩
            · rename_i hr
              split at h
              · cases h
              · cases h
              · split at h
                · rename_i hd' he'
                  exact ih _ _ _ _ _ _ htk' (hw'' hr) ⟨_, he'⟩ h
                · cases h
          | file _ =>
            simp only at h
            split at h
            · cases h; exact ⟨_, hent, by intro _ h' e; cases e⟩
            · cases h

/-- A rooted lookup does not climb above the directory it started in, as long as hard links do not lead to directories. -/
theorem openLoop_confined {fs : Fsys} (hrooted : fs.rooted = true) {hl : Hdr → Option Look} {skip : Bool}
    (hhl : ∀ p h q, fs.t.ent p = some (.hardlink h) → hl h = some (.ok q) → ∀ hd, fs.t.ent q ≠ some (.dir hd)) :
    ∀ (fuel r : Nat) (cur d : List Str) (s : Str) (p : List Str), fs.sub <+: cur → fs.sub <+: d →
      openLoop fs hl skip fuel r cur d s = some (.ok p) → fs.sub <+: p := by
  intro fuel
  induction fuel with
  | zero => intro r cur d s p _ _ h; simp [openLoop] at h
  | succ fuel ih =>
    intro r cur d s p hcur hd h
    by_cases hs : s = []
    · subst hs; simp [openLoop] at h; subst h; exact hd
    · rcases hcs : cutSlash s with ⟨c, rest⟩
      have hc1 : fs.sub <+: cur ++ [c] := hcur.trans (List.prefix_append _ _)
      rw [openLoop_round hs hcs] at h
      unfold roundOn at h
      split at h
      · cases h; exact hcur
      · split at h
        · split at h
          · cases h
          · rename_i hne
            split at h
            · cases h
            · rename_i hnil
              have hns : cur ≠ fs.sub := fun e => hne ⟨hrooted, Or.inr e⟩
              refine ih _ _ _ _ _ ?_ hd h
              rcases (List.prefix_concat_iff (l₁ := fs.sub) (l₂ := cur.dropLast) (a := cur.getLast hnil)).1
                (by rw [List.dropLast_concat_getLast]; exact hcur) with h' | h'
              · rw [List.dropLast_concat_getLast] at h'; exact absurd h'.symm hns
              · exact h'
        · cases hent : fs.t.ent (cur ++ [c]) with
          | none => rw [hent] at h; cases h
          | some e =>
            rw [hent] at h
            cases e with
            | dir _ =>
              simp only at h
              split at h
              · cases h; exact hc1
              · exact ih _ _ _ _ _ hc1 hc1 h
            | symlink hdr =>
              simp only at h
              split at h
              · split at h
                · cases h
                · split at h
                  · cases h
                  · exact ih _ _ _ _ _ hcur hc1 h
              · cases h; exact hc1
            | hardlink hdr =>
              simp only at h
              split at h
              · cases h; exact hc1
              · split at h
                · cases h
                · cases h
                · rename_i q hq
                  split at h
                  · rename_i hd' he'
                    exact absurd he' (hhl _ _ _ hent hq _)
                  · cases h
            | file _ =>
              simp only at h
              split at h
              · cases h; exact hc1
              · cases h

/-! ## C37 -/

/-- Every hard link names a regular file of the archive (as written by tar). -/
def HardLinksToFiles (opt : Opt) (hs : List Hdr) : Prop :=
  ∀ h ∈ hs, h.typ = .link → validPath (clean h.linkname) = true ∧ ¬ Beneath opt hs (split (clean h.linkname)) ∧
    ∃ b, recorded opt hs (clean h.linkname) = some b ∧ (b.typ = .reg ∨ b.typ = .dev)

/-- A bound for the text of links, from the headers. -/
def linkText (hs : List Hdr) : Nat := hs.foldl (fun m h => max m ((clean h.linkname).length + 1)) 0

theorem linkText_le {hs : List Hdr} {h : Hdr} (hh : h ∈ hs) : (clean h.linkname).length + 1 ≤ linkText hs := by
  have key : ∀ (l : List Hdr) (m : Nat), (m ≤ l.foldl (fun m h => max m ((clean h.linkname).length + 1)) m) ∧
      (h ∈ l → (clean h.linkname).length + 1 ≤ l.foldl (fun m h => max m ((clean h.linkname).length + 1)) m) := by
    intro l
    induction l with
    | nil => intro m; simp
    | cons a rest ih =>
      intro m
      obtain ⟨i1, i2⟩ := ih (max m ((clean a.linkname).length + 1))
      refine ⟨?_, ?_⟩
      · simp only [List.foldl_cons]; omega
      · intro hm
        simp only [List.foldl_cons]
        rcases List.mem_cons.1 hm with rfl | hm
        · omega
        · exact i2 hm
  exact (key hs 0).2 hh

theorem split_length_le (s : Str) : (split s).length ≤ s.length + 1 := by
  induction s with
  | nil => simp [split]
  | cons c r ih =>
    unfold split
    split
    · simp only [List.length_cons]; omega
    · split
      · rename_i h; simp
      · rename_i h; rw [h] at ih; simp only [List.length_cons] at ih ⊢; omega

theorem symlink_from {opt : Opt} {hs : List Hdr} {p : List Str} {h : Hdr} (he : (newTree opt hs).ent p = some (.symlink h)) : h ∈ hs ∧ h.typ = .symlink := by
  rcases ent_from_archive opt hs p _ he with ⟨h', hh⟩ | ⟨h', hh, hr, _⟩
  · cases hh
  · unfold entOf at hh
    split at hh <;> simp_all
    exact (recorded_clean hr).1

theorem hardlink_from {opt : Opt} {hs : List Hdr} {p : List Str} {h : Hdr} (he : (newTree opt hs).ent p = some (.hardlink h)) : h ∈ hs ∧ h.typ = .link := by
  rcases ent_from_archive opt hs p _ he with ⟨h', hh⟩ | ⟨h', hh, hr, _⟩
  · cases hh
  · obtain ⟨rfl, ht⟩ := entOf_hardlink hh
    exact ⟨(recorded_clean hr).1, ht⟩

/-- The rounds that suffice for `name`. -/
def enough (hs : List Hdr) (name : Str) : Nat := name.length + maxLinks * linkText hs + linkText hs + 1

/-- A hard link to a file resolves to that file, in one step. -/
theorem hardlink_resolves {opt : Opt} {hs : List Hdr} (hard : HardLinksToFiles opt hs) {fs : Fsys} (ht : fs.t = newTree opt hs) {p : List Str} {h : Hdr}
    (he : fs.t.ent p = some (.hardlink h)) {fuel depth : Nat} (hf : linkText hs < fuel) :
    resolveHardlink fs fuel (depth + 1) h = some (.ok (split (clean h.linkname))) ∧ ∃ b, fs.t.ent (split (clean h.linkname)) = some (.file b) := by
  rw [ht] at he
  obtain ⟨hm, htyp⟩ := hardlink_from he
  obtain ⟨hv, hb, b, hr, hbt⟩ := hard h hm htyp
  have hnd : clean h.linkname ≠ dot := (recorded_clean hr).2.2.2.1
  have hnames : ∀ c ∈ split (clean h.linkname), IsName c := by
    rcases (validPath_iff _).1 hv with h' | h'
    · exact absurd h' hnd
    · exact h'
  have hent : fs.t.ent (split (clean h.linkname)) = some (.file b) := by
    have := (tree_exact opt hs (split (clean h.linkname)) (split_ne_nil _) (split_no_slash _)).2 hb
    rw [join_split, hr] at this
    rw [ht, this]
    rcases hbt with hbt | hbt <;> simp [entOf, hbt]
  refine ⟨?_, b, hent⟩
  have hlen := linkText_le hm
  have hsl := split_length_le (clean h.linkname)
  have := open_at (fs := fs) (hl := resolveHardlink fs fuel depth) (skip := false) (fuel := fuel) hnames
    (by rw [ht]; exact dirs_above hnames (Or.inl ⟨b, hr⟩)) (by omega) (Or.inl (by intro h' he'; rw [hent] at he'; cases he'))
  rw [hent] at this
  exact this

/-- **C37, termination.** In every archive whose hard links name regular files, whatever its symbolic links (cycles, chains of any length, targets
consisting of ".."), opening any name in any subtree ends, after a number of rounds bounded by the sizes of the name and of the link
targets, and the outcome does not depend on how long one waits.

Missing for the full property: hard links that pass through hard links; see `C37_counterexample_diverges`. -/
theorem C37_terminates_partial (opt : Opt) (hs : List Hdr) (hard : HardLinksToFiles opt hs) (sub : List Str) (rooted : Bool) (name : Str) :
    ∃ o, ∀ fuel depth, enough hs name ≤ fuel → 1 ≤ depth →
      openFile { t := newTree opt hs, sub := sub, rooted := rooted } fuel depth name = some o := by
  let fs : Fsys := { t := newTree opt hs, sub := sub, rooted := rooted }
  show ∃ o, ∀ fuel depth, enough hs name ≤ fuel → 1 ≤ depth → openFile fs fuel depth name = some o
  have ht : fs.t = newTree opt hs := rfl
  have hM : ∀ p h, fs.t.ent p = some (.symlink h) → (clean h.linkname).length + 1 ≤ linkText hs :=
    fun p h he => linkText_le (symlink_from he).1
  have hres : ∀ {fuel depth}, enough hs name ≤ fuel → 1 ≤ depth → ∀ p h, fs.t.ent p = some (.hardlink h) →
      resolveHardlink fs fuel depth h = some (.ok (split (clean h.linkname))) := by
    intro fuel depth hf hd p h he
    obtain ⟨d, rfl⟩ : ∃ d, depth = d + 1 := ⟨depth - 1, by omega⟩
    exact (hardlink_resolves hard ht he (by unfold enough at hf; omega)).1
  have hchild : ∃ o, ∀ fuel depth, enough hs name ≤ fuel → 1 ≤ depth →
      openChild fs (resolveHardlink fs fuel depth) fuel fs.sub name false = some o := by
    unfold openChild
    by_cases hdot : name = dot
    · exact ⟨.ok fs.sub, by intros; rw [if_pos hdot]⟩
    · have h1 := hres (fuel := enough hs name) (depth := 1) (Nat.le_refl _) (Nat.le_refl _)
      cases ho : openLoop fs (resolveHardlink fs (enough hs name) 1) false (enough hs name) 0 fs.sub fs.sub name with
      | none =>
        exfalso
        refine openLoop_ends hM (fun p h he => ?_) (enough hs name) 0 fs.sub fs.sub name ?_ ho
        · rw [h1 p h he]; simp
        · unfold enough; simp; omega
      | some o =>
        refine ⟨o, fun fuel depth hf hd => ?_⟩
        rw [if_neg hdot]
        exact openLoop_stable (fun p h he => by rw [h1 p h he, hres hf hd p h he]) _ _ _ _ _ _ _ hf ho
  obtain ⟨o, ho⟩ := hchild
  have hfind : ∃ r, ∀ fuel depth, enough hs name ≤ fuel → 1 ≤ depth → findFile fs fuel depth name false = some r := by
    by_cases hv : validPath name = false
    · exact ⟨.error .invalid, by intros; unfold findFile; rw [if_pos hv]⟩
    · rcases o with e | p
      · exact ⟨.error e, by intro fuel depth hf hd; unfold findFile; rw [if_neg hv, ho fuel depth hf hd]⟩
      · have hplain : (∀ h, fs.t.ent p ≠ some (.hardlink h)) → ∀ fuel depth, enough hs name ≤ fuel → 1 ≤ depth → findFile fs fuel depth name false = some (.ok (.plain p)) := by
          intro hne fuel depth hf hd
          unfold findFile; rw [if_neg hv, ho fuel depth hf hd]
          simp only
        by_cases hex : ∃ h, fs.t.ent p = some (.hardlink h)
        · obtain ⟨h, he⟩ := hex
          refine ⟨.ok (.overlay p (split (clean h.linkname))), ?_⟩
          intro fuel depth hf hd
          unfold findFile; rw [if_neg hv, ho fuel depth hf hd]
          simp only [he, hres hf hd p h he]
        · exact ⟨_, hplain (fun h he => hex ⟨h, he⟩)⟩
  obtain ⟨r, hr⟩ := hfind
  have hsome : ∃ o, openFile fs (enough hs name) 1 name = some o := by
    unfold openFile
    rw [hr _ _ (Nat.le_refl _) (Nat.le_refl _)]
    rcases r with e | (p | ⟨p, q⟩)
    · exact ⟨_, rfl⟩
    · simp only
      split <;> exact ⟨_, rfl⟩
    · simp only
      split <;> exact ⟨_, rfl⟩
  obtain ⟨o, ho⟩ := hsome
  refine ⟨o, fun fuel depth hf hd => ?_⟩
  rw [← ho]
  unfold openFile
  rw [hr fuel depth hf hd, hr _ _ (Nat.le_refl _) (Nat.le_refl _)]

/-- **C37, no panic.** If moreover no symbolic link's target consists of ".." alone, opening any name in any subtree never panics.

Missing for the full property: targets consisting of ".."; see `C37_counterexample_dotdot_target`. -/
theorem C37_no_panic_partial (opt : Opt) (hs : List Hdr) (hard : HardLinksToFiles opt hs)
    (hup : ∀ h ∈ hs, h.typ = .symlink → HasName h.linkname) (sub : List Str) (hsub : ∃ h, (newTree opt hs).ent sub = some (.dir h)) (rooted : Bool)
    (name : Str) (fuel depth : Nat) (hf : linkText hs < fuel) (hd : 1 ≤ depth) :
    openFile { t := newTree opt hs, sub := sub, rooted := rooted } fuel depth name ≠ some .panic := by
  let fs : Fsys := { t := newTree opt hs, sub := sub, rooted := rooted }
  show openFile fs fuel depth name ≠ some .panic
  obtain ⟨d, rfl⟩ : ∃ d, depth = d + 1 := ⟨depth - 1, by omega⟩
  intro hpanic
  unfold openFile at hpanic
  cases hfind : findFile fs fuel (d + 1) name false with
  | none => rw [hfind] at hpanic; cases hpanic
  | some r =>
    rw [hfind] at hpanic
    rcases r with e | f
    · cases hpanic
    · unfold findFile at hfind
      split at hfind
      · cases hfind
      · rename_i hv
        have hv : validPath name = true := by simpa using hv
        cases hch : openChild fs (resolveHardlink fs fuel (d + 1)) fuel fs.sub name false with
        | none => rw [hch] at hfind; cases hfind
        | some o =>
          rw [hch] at hfind
          rcases o with e | p
          · cases hfind
          · have hfound : ∃ e, fs.t.ent p = some e ∧ ∀ h, e ≠ .symlink h := by
              unfold openChild at hch
              split at hch
              · cases hch
                obtain ⟨h, he⟩ := hsub
                exact ⟨_, he, by intro h e; cases e⟩
              · rename_i hdot
                have hn : ∀ c ∈ split name, IsName c := by
                  rcases (validPath_iff name).1 hv with h' | h'
                  · exact absurd h' hdot
                  · exact h'
                have htk : Toks name (split name) := by
                  have := toks_join (ns := split name) (fun c hc => (hn c hc).1)
                  rwa [join_split] at this
                obtain ⟨e, he, hne⟩ := openLoop_found (fs := fs) rfl (fun q h he => hup h (symlink_from he).1 (symlink_from he).2) _ _ _ _ _ _ _ htk
                  (.names (split_ne_nil _) hn) hsub hch
                exact ⟨e, he, hne rfl⟩
            obtain ⟨e, he, hne⟩ := hfound
            simp only [he] at hfind
            cases e with
            | symlink h => exact hne h rfl
            | dir h =>
              cases hfind
              simp [he] at hpanic
            | file h =>
              cases hfind
              simp [he] at hpanic
            | hardlink h =>
              obtain ⟨hr, b, hb⟩ := hardlink_resolves hard (fs := fs) rfl he (fuel := fuel) (depth := d) hf
              simp only [hr] at hfind
              cases hfind
              simp [he, hb] at hpanic

/-- **C37, confinement.** In a rooted filesystem, or a subtree of one, in every archive whose hard links name regular files: whatever symbolic links there
are, the directory or file a name is resolved to lies in the subtree (a hard link lies in the subtree; the file it shares contents with is where
the archive says). -/
theorem C37_confined (opt : Opt) (hs : List Hdr) (hard : HardLinksToFiles opt hs) (sub : List Str) (name : Str) (fuel depth : Nat)
    (hf : linkText hs < fuel) (hd : 1 ≤ depth) (skipLast : Bool) (f : Found)
    (ho : findFile { t := newTree opt hs, sub := sub, rooted := true } fuel depth name skipLast = some (.ok f)) :
    match f with
    | .plain p => sub <+: p
    | .overlay p _ => sub <+: p := by
  let fs : Fsys := { t := newTree opt hs, sub := sub, rooted := true }
  obtain ⟨d, rfl⟩ : ∃ d, depth = d + 1 := ⟨depth - 1, by omega⟩
  have ho : findFile fs fuel (d + 1) name skipLast = some (.ok f) := ho
  unfold findFile at ho
  split at ho
  · cases ho
  · cases hch : openChild fs (resolveHardlink fs fuel (d + 1)) fuel fs.sub name skipLast with
    | none => rw [hch] at ho; cases ho
    | some o =>
      rw [hch] at ho
      rcases o with e | p
      · cases ho
      · have hp : sub <+: p := by
          unfold openChild at hch
          split at hch
          · cases hch; exact List.prefix_refl _
          · refine openLoop_confined (fs := fs) rfl ?_ _ _ _ _ _ _ (List.prefix_refl _) (List.prefix_refl _) hch
            intro q h q' he hres hdir hdir'
            obtain ⟨hr, b, hb⟩ := hardlink_resolves hard (fs := fs) rfl he (fuel := fuel) (depth := d) hf
            rw [hr] at hres
            cases hres
            rw [hb] at hdir'; cases hdir'
        simp only at ho
        split at ho
        · split at ho
          · cases ho
          · cases ho
          · cases ho; exact hp
        · cases ho; exact hp

/-! ## Cases -/

/-- d/, d/f, cycles a→b→a, up: d/u → ../g, g, hard link h → g. -/
def exLinks : List Hdr :=
  [{ name := ['d', '/'], typ := .dir, linkname := [], id := 1 }, { name := ['d', '/', 'f'], typ := .reg, linkname := [], id := 2 },
   { name := ['a'], typ := .symlink, linkname := ['b'], id := 3 }, { name := ['b'], typ := .symlink, linkname := ['a'], id := 4 },
   { name := ['d', '/', 'u'], typ := .symlink, linkname := ['.', '.', '/', 'g'], id := 5 }, { name := ['g'], typ := .reg, linkname := [], id := 6 },
   { name := ['h'], typ := .link, linkname := ['g'], id := 7 }]

example : HardLinksToFiles exOpt exLinks := by
  intro h hm ht
  have : h = { name := ['h'], typ := .link, linkname := ['g'], id := 7 } := by
    simp [exLinks] at hm
    rcases hm with rfl | rfl | rfl | rfl | rfl | rfl | rfl <;> first | rfl | cases ht
  subst this
  refine ⟨by decide +kernel, ?_, { name := ['g'], typ := .reg, linkname := [], id := 6 }, by decide +kernel, Or.inl rfl⟩
  rintro ⟨k, h, q, hr, hq, he⟩
  have : below (pairs exOpt exLinks) (split (clean ['g'])) = true := (below_pairs _ _ _).2 ⟨k, h, q, hr, hq, he⟩
  exact absurd this (by decide +kernel)

/-- The cycle is reported, the link up is followed, and from the subtree d it is refused. -/
example : openFile (whole exOpt exLinks) 99 2 ['a'] = some (.err .eloop) ∧
    openFile (whole exOpt exLinks) 99 2 ['d', '/', 'u'] =
      some (.file { name := ['g'], typ := .reg, linkname := [], id := 6 } { name := ['g'], typ := .reg, linkname := [], id := 6 }) ∧
    openFile { whole exOpt exLinks with sub := [['d']] } 99 2 ['u'] = some (.err .escapes) := by decide +kernel

/-- C37 fails for a symbolic link to "..": opening it panics (the loop returns the link itself). -/
theorem C37_counterexample_dotdot_target :
    let hs : List Hdr := [{ name := ['d', '/'], typ := .dir, linkname := [], id := 1 }, { name := ['d', '/', 'u'], typ := .symlink, linkname := ['.', '.'], id := 2 }]
    openFile (whole exOpt hs) 99 2 ['d', '/', 'u'] = some .panic := by decide +kernel

/-- C37 fails for a hard link to a hard link: opening it panics. -/
theorem C37_counterexample_hardlink_twice :
    let hs : List Hdr := [{ name := ['f'], typ := .reg, linkname := [], id := 1 }, { name := ['g'], typ := .link, linkname := ['f'], id := 2 },
      { name := ['h'], typ := .link, linkname := ['g'], id := 3 }]
    openFile (whole exOpt hs) 99 3 ['h'] = some .panic := by decide +kernel

/-- C37 fails for a hard link whose target passes through itself: opening a name beneath it never returns (the stack overflows). -/
theorem C37_counterexample_diverges (fuel depth : Nat) :
    openFile (whole exOpt [{ name := ['a'], typ := .link, linkname := ['a', '/', 'b'], id := 1 }]) fuel depth ['a'] = none := by
  let h : Hdr := { name := ['a'], typ := .link, linkname := ['a', '/', 'b'], id := 1 }
  show openFile (whole exOpt [h]) fuel depth ['a'] = none
  have hent : (whole exOpt [h]).t.ent [['a']] = some (.hardlink h) := by decide +kernel
  have hcl : clean h.linkname = ['a', '/', 'b'] := by decide +kernel
  have hnever : ∀ depth, resolveHardlink (whole exOpt [h]) fuel depth h = none := by
    intro depth
    induction depth with
    | zero => rfl
    | succ d ih =>
      unfold resolveHardlink openChild
      rw [hcl, if_neg (by decide)]
      cases fuel with
      | zero => rfl
      | succ f =>
        rw [openLoop_round (c := ['a']) (rest := ['b']) (by decide) (by decide)]
        unfold roundOn
        rw [if_neg (by decide), if_neg (by decide), List.nil_append, hent]
        simp only [ih]
        rfl
  unfold openFile findFile openChild
  rw [if_neg (by decide), if_neg (by decide)]
  cases fuel with
  | zero => rfl
  | succ f =>
    rw [openLoop_round (c := ['a']) (rest := []) (by decide) (by decide)]
    unfold roundOn
    have hsub : (whole exOpt [h]).sub = [] := rfl
    rw [if_neg (by decide), if_neg (by decide), hsub, List.nil_append, hent]
    simp only [if_true, hent, hnever]

/-- Resolution stops at a link to ".": the components after it are dropped, so a name beneath it opens as the directory. -/
theorem C37_counterexample_dot_target :
    let hs : List Hdr := [{ name := ['l'], typ := .symlink, linkname := ['.'], id := 1 }, { name := ['x'], typ := .reg, linkname := [], id := 2 }]
    openFile (whole exOpt hs) 99 2 ['l', '/', 'x'] = some (.dir []) := by decide +kernel

end Verif.Tarfs
