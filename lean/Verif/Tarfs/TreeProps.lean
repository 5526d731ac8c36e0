import Verif.Tarfs.TreeLemmas
/-
Property C36: the tree follows the archive.
-/
namespace Verif.Tarfs
open Verif.Path

/-! ## Specification -/

/-- Types that are taken: regular files, directories and hard links, symbolic links and devices if the option asks for them. -/
def Wanted (opt : Opt) (h : Hdr) : Prop :=
  h.typ = .reg ∨ h.typ = .dir ∨ h.typ = .link ∨ (h.typ = .symlink ∧ opt.handleSymlink = true) ∨ (h.typ = .dev ∧ opt.allowDev = true)

instance (opt : Opt) (h : Hdr) : Decidable (Wanted opt h) := by unfold Wanted; infer_instance

/-- The entry of the tree a header stands for. -/
def standsFor (h : Hdr) : Ent :=
  if h.typ = .dir then .dir (some h) else if h.typ = .symlink then .symlink h else if h.typ = .link then .hardlink h else .file h

/-- The entry an archive records for the cleaned name `k`: the last header with that name, if its type is taken, the name is
not the root and does not begin with two dots. -/
def recorded (opt : Opt) (hs : List Hdr) (k : Str) : Option Hdr :=
  if k = dot ∨ hasPrefix k dotdot = true then none
  else ((hs.filter (fun h => clean h.name = k)).getLast?).filter (fun h => Wanted opt h)

/-- Something is recorded strictly beneath the directory with these components. -/
def Beneath (opt : Opt) (hs : List Hdr) (p : List Str) : Prop :=
  ∃ k h q, recorded opt hs k = some h ∧ q ≠ [] ∧ split k = p ++ q

/-- `c` is a name directly in the directory `p`: something is recorded at `p/c` or beneath it. -/
def Child (opt : Opt) (hs : List Hdr) (p : List Str) (c : Str) : Prop :=
  ∃ k h q, recorded opt hs k = some h ∧ split k = p ++ c :: q

/-- The whole archive as a filesystem. -/
def whole (opt : Opt) (hs : List Hdr) : Fsys := { t := newTree opt hs, sub := [], rooted := opt.isRooted }

/-! ## Helpers -/

theorem wanted_kept (opt : Opt) (h : Hdr) : decide (Wanted opt h) = kept opt h := by
  cases ht : h.typ <;> simp [Wanted, kept, ht]

theorem standsFor_eq : standsFor = entOf := by
  funext h
  cases ht : h.typ <;> simp [standsFor, entOf, ht]

/-- What `New` inserted. -/
def pairs (opt : Opt) (hs : List Hdr) : List (List Str × Hdr) :=
  inserted opt (collect hs) (sortKeys (((collect hs).map (·.1)).filter (· ≠ dot)))

theorem new_inv (opt : Opt) (hs : List Hdr) : Inv (rootOf (collect hs)) (pairs opt hs) [] (newTree opt hs) := newTree_inv opt hs

theorem mem_pairs (opt : Opt) (hs : List Hdr) (p : List Str) (h : Hdr) :
    (p, h) ∈ pairs opt hs ↔ ∃ k, p = split k ∧ recorded opt hs k = some h := by
  unfold pairs inserted
  rw [List.mem_filterMap]
  constructor
  · rintro ⟨k, hk, hx⟩
    rw [mem_sortKeys, List.mem_filter] at hk
    split at hx
    · cases hx
    · rename_i hdd
      have hdot : k ≠ dot := by simpa using hk.2
      rw [(collect_spec hs).1 k] at hx
      cases hg : (hs.filter (fun h => clean h.name = k)).getLast? with
      | none => rw [hg] at hx; cases hx
      | some h' =>
        rw [hg] at hx
        simp only at hx
        split at hx
        · rename_i hkept
          cases hx
          refine ⟨k, rfl, ?_⟩
          unfold recorded
          rw [if_neg (by simp [hdot]; simpa using hdd), hg]
          simp only [Option.filter, wanted_kept, hkept, if_true]
        · cases hx
  · rintro ⟨k, rfl, hr⟩
    unfold recorded at hr
    split at hr
    · cases hr
    · rename_i hn
      rw [not_or] at hn
      rw [Option.filter_eq_some_iff] at hr
      obtain ⟨hg, hk⟩ := hr
      rw [wanted_kept] at hk
      refine ⟨k, ?_, ?_⟩
      · rw [mem_sortKeys, List.mem_filter]
        refine ⟨?_, by simpa using hn.1⟩
        rw [← mapGet_isSome, (collect_spec hs).1 k, hg]; rfl
      · rw [if_neg hn.2, (collect_spec hs).1 k, hg]
        simp [hk]

theorem recorded_clean {opt : Opt} {hs : List Hdr} {k : Str} {h : Hdr} (hr : recorded opt hs k = some h) :
    h ∈ hs ∧ clean h.name = k ∧ kept opt h = true ∧ k ≠ dot ∧ hasPrefix k dotdot = false := by
  unfold recorded at hr
  split at hr
  · cases hr
  · rename_i hn
    rw [not_or] at hn
    rw [Option.filter_eq_some_iff] at hr
    obtain ⟨hg, hk⟩ := hr
    have := List.mem_of_getLast? hg
    rw [List.mem_filter] at this
    exact ⟨this.1, by simpa using this.2, (wanted_kept opt h).symm.trans hk, hn.1, by simpa using hn.2⟩

theorem pairs_nodup (opt : Opt) (hs : List Hdr) (p : List Str) (h h' : Hdr) (h1 : (p, h) ∈ pairs opt hs) (h2 : (p, h') ∈ pairs opt hs) : h = h' := by
  obtain ⟨k, e1, r1⟩ := (mem_pairs opt hs p h).1 h1
  obtain ⟨k', e2, r2⟩ := (mem_pairs opt hs p h').1 h2
  have := split_inj (e1.symm.trans e2)
  subst this
  rw [r1] at r2; exact Option.some.inj r2

theorem look_pairs (opt : Opt) (hs : List Hdr) (p : List Str) (hp : p ≠ []) (hsl : ∀ c ∈ p, slash ∉ c) :
    look (pairs opt hs) p = recorded opt hs (join p) := by
  cases hl : look (pairs opt hs) p with
  | some h =>
    obtain ⟨k, e, r⟩ := (mem_pairs opt hs p h).1 (look_some _ _ _ hl)
    rw [e, join_split, r]
  | none =>
    cases hr : recorded opt hs (join p) with
    | none => rfl
    | some h =>
      exfalso
      have : (p, h) ∈ pairs opt hs := (mem_pairs opt hs p h).2 ⟨join p, (split_join hp hsl).symm, hr⟩
      exact (look_none _ _).1 hl _ this rfl

theorem below_pairs (opt : Opt) (hs : List Hdr) (p : List Str) : below (pairs opt hs) p = true ↔ Beneath opt hs p := by
  rw [below_iff]
  constructor
  · rintro ⟨⟨x, h⟩, hx, q, hq, he⟩
    obtain ⟨k, e, r⟩ := (mem_pairs opt hs x h).1 hx
    exact ⟨k, h, q, r, hq, e.symm.trans he⟩
  · rintro ⟨k, h, q, hr, hq, he⟩
    exact ⟨(split k, h), (mem_pairs opt hs _ h).2 ⟨k, rfl, hr⟩, q, hq, he⟩

theorem child_pairs (opt : Opt) (hs : List Hdr) (p : List Str) (c : Str) : hasChild (pairs opt hs) [] p c = true ↔ Child opt hs p c := by
  have hn : (p ++ [c]).isPrefixOf ([] : List Str) = false := by cases p <;> rfl
  simp only [hasChild, hn, Bool.or_false, List.any_eq_true, List.isPrefixOf_iff_prefix]
  constructor
  · rintro ⟨⟨x, h⟩, hx, q, hq⟩
    obtain ⟨k, e, r⟩ := (mem_pairs opt hs x h).1 hx
    exact ⟨k, h, q, r, by rw [← e]; simpa using hq.symm⟩
  · rintro ⟨k, h, q, hr, he⟩
    exact ⟨(split k, h), (mem_pairs opt hs _ h).2 ⟨k, rfl, hr⟩, q, by rw [he]; simp⟩

/-! ## C36: the tree -/

theorem tree_exact (opt : Opt) (hs : List Hdr) (p : List Str) (hp : p ≠ []) (hsl : ∀ c ∈ p, slash ∉ c) :
    (Beneath opt hs p → (newTree opt hs).ent p = some (.dir ((recorded opt hs (join p)).filter (fun h => h.typ = .dir)))) ∧
    (¬ Beneath opt hs p → (newTree opt hs).ent p = (recorded opt hs (join p)).map entOf) := by
  have inv := new_inv opt hs
  have hnil : p.isPrefixOf ([] : List Str) = false := by cases p with
    | nil => exact absurd rfl hp
    | cons => rfl
  constructor
  · intro hb
    rw [inv.ent p hp]
    unfold specEnt
    rw [(below_pairs opt hs p).2 hb, look_pairs opt hs p hp hsl]
    rfl
  · intro hb
    rw [inv.ent p hp]
    unfold specEnt
    have : below (pairs opt hs) p = false := by
      cases h : below (pairs opt hs) p with
      | false => rfl
      | true => exact absurd ((below_pairs opt hs p).1 h) hb
    rw [this, hnil, look_pairs opt hs p hp hsl]
    rfl

/-- **C36, the tree.** For every sequence of headers and every path: if something is recorded beneath it, it is a directory, with the header recorded
for it if that is a directory's; otherwise it is exactly what is recorded for the name, and nothing if nothing is recorded. -/
theorem C36_tree_exact (opt : Opt) (hs : List Hdr) (p : List Str) (hp : p ≠ []) (hsl : ∀ c ∈ p, slash ∉ c) :
    (Beneath opt hs p → (newTree opt hs).ent p = some (.dir ((recorded opt hs (join p)).filter (fun h => h.typ = .dir)))) ∧
    (¬ Beneath opt hs p → (newTree opt hs).ent p = (recorded opt hs (join p)).map standsFor) := by
  rw [standsFor_eq]
  exact tree_exact opt hs p hp hsl

/-! ## Walking down -/

theorem cutFirst_none {s : Str} (h : slash ∉ s) : cutFirst slash s = none := by
  induction s with
  | nil => rfl
  | cons c r ih =>
    simp only [cutFirst]
    have : c ≠ slash := by rintro rfl; simp at h
    rw [if_neg this, ih (by intro h'; exact h (List.mem_cons_of_mem _ h'))]; rfl

theorem cutSlash_last {s : Str} (h : slash ∉ s) : cutSlash s = (s, []) := by
  unfold cutSlash; rw [cutFirst_none h]

theorem cutSlash_append {a : Str} (h : slash ∉ a) (s : Str) : cutSlash (a ++ slash :: s) = (a, s) := by
  have : cutFirst slash (a ++ slash :: s) = some (a, s) := by
    induction a with
    | nil => simp [cutFirst]
    | cons c r ih =>
      have hc : c ≠ slash := by rintro rfl; simp at h
      simp only [List.cons_append, cutFirst, if_neg hc]
      rw [ih (by intro h'; exact h (List.mem_cons_of_mem _ h'))]; rfl
  unfold cutSlash; rw [this]

theorem validPath_iff (name : Str) : validPath name = true ↔ name = dot ∨ ∀ c ∈ split name, IsName c := by
  unfold validPath
  rw [Bool.or_eq_true, decide_eq_true_eq, List.all_eq_true]
  constructor
  · rintro (h | h)
    · exact Or.inl h
    · right
      intro c hc
      have := h c hc
      simp at this
      exact ⟨⟨this.1, split_no_slash name c hc⟩, this.2⟩
  · rintro (h | h)
    · exact Or.inl h
    · right
      intro c hc
      obtain ⟨⟨h1, _⟩, h2⟩ := h c hc
      simp [h1, h2]

/-- One round of the loop on a directory that is not the last component. -/
theorem openLoop_dir {fs : Fsys} {hl : Hdr → Option Look} {skip : Bool} {fuel r : Nat} {cur d : List Str} {c : Str} (hc : IsName c)
    {s : Str} (hs : s ≠ []) {h : Option Hdr} (he : fs.t.ent (cur ++ [c]) = some (.dir h)) :
    openLoop fs hl skip (fuel + 1) r cur d (c ++ slash :: s) = openLoop fs hl skip fuel r (cur ++ [c]) (cur ++ [c]) s := by
  conv => lhs; unfold openLoop
  rw [if_neg (by simp)]
  simp only [cutSlash_append hc.1.2]
  rw [if_neg hc.2.1, if_neg hc.2.2, he]
  simp only [hs, if_false]

/-- Walking through directories. -/
theorem openLoop_walk {fs : Fsys} {hl : Hdr → Option Look} {skip : Bool} {r : Nat} (c : Str) (ns : List Str)  : ∀ (fuel : Nat) (cur d : List Str),
    (∀ n ∈ ns, IsName n) → IsName c →
    (∀ q, q ≠ [] → q <+: ns → ∃ h, fs.t.ent (cur ++ q) = some (.dir h)) →
    ∃ d', openLoop fs hl skip (fuel + 1 + ns.length) r cur d (join (ns ++ [c])) = openLoop fs hl skip (fuel + 1) r (cur ++ ns) d' c := by
  induction ns with
  | nil => intro fuel cur d _ _ _; exact ⟨d, by simp [join]⟩
  | cons n rest ih =>
    intro fuel cur d hn hc hdirs
    obtain ⟨h, he⟩ := hdirs [n] (by simp) (by simp)
    obtain ⟨d', hd'⟩ := ih fuel (cur ++ [n]) (cur ++ [n]) (fun x hx => hn x (List.mem_cons_of_mem _ hx)) hc (by
      intro q hq hpre
      obtain ⟨h', he'⟩ := hdirs (n :: q) (by simp) (by rw [List.cons_prefix_cons]; exact ⟨rfl, hpre⟩)
      exact ⟨h', by simpa using he'⟩)
    refine ⟨d', ?_⟩
    have hj : join (n :: rest ++ [c]) = n ++ slash :: join (rest ++ [c]) := by
      cases rest <;> rfl
    rw [hj, List.length_cons, ← Nat.add_assoc]
    rw [openLoop_dir (hn n (by simp)) (join_ne_nil (by
      intro x hx
      rw [List.mem_append] at hx
      rcases hx with hx | hx
      · exact (hn x (List.mem_cons_of_mem _ hx)).1
      · simp at hx; subst hx; exact hc.1) (by simp)) he, hd']
    simp

/-- The last component, when it is not a symbolic link that is followed. -/
theorem openLoop_last {fs : Fsys} {hl : Hdr → Option Look} {skip : Bool} {fuel r : Nat} {cur d : List Str} {c : Str} (hc : IsName c) :
    (fs.t.ent (cur ++ [c]) = none → openLoop fs hl skip (fuel + 1) r cur d c = some (.error .notExist)) ∧
    (∀ e, fs.t.ent (cur ++ [c]) = some e → (∀ h, e ≠ .symlink h) ∨ skip = true → openLoop fs hl skip (fuel + 1) r cur d c = some (.ok (cur ++ [c]))) := by
  have step : openLoop fs hl skip (fuel + 1) r cur d c =
      match fs.t.ent (cur ++ [c]) with
        | none => some (.error .notExist)
        | some (.symlink h) =>
          if skip = false then
            if r ≥ maxLinks then some (.error .eloop)
            else if isAbs (clean h.linkname) then some (.error .escapes)
            else openLoop fs hl skip fuel (r + 1) cur (cur ++ [c]) (clean h.linkname ++ slash :: [])
          else some (.ok (cur ++ [c]))
        | some (.dir _) => some (.ok (cur ++ [c]))
        | some (.hardlink _) => some (.ok (cur ++ [c]))
        | some (.file _) => some (.ok (cur ++ [c])) := by
    conv => lhs; unfold openLoop
    rw [if_neg hc.1.1]
    simp only [cutSlash_last hc.1.2]
    rw [if_neg hc.2.1, if_neg hc.2.2]
    split <;> simp_all
  rw [step]
  constructor
  · intro h; rw [h]
  · intro e he hor
    rw [he]
    cases e with
    | symlink h =>
      rcases hor with h' | h'
      · exact absurd rfl (h' h)
      · simp [h']
    | _ => rfl

/-- What a round does when it is not at the last component, by the entry met. -/
def openRest (fs : Fsys) (hl : Hdr → Option Look) (fuel : Nat) (cur : List Str) (c rest : Str) : Option Ent → Option Look
  | none => some (.error .notExist)
  | some (.symlink h) =>
      if isAbs (clean h.linkname) then some (.error .escapes)
      else openLoop fs hl false fuel 1 cur (cur ++ [c]) (clean h.linkname ++ slash :: rest)
  | some (.dir _) => openLoop fs hl false fuel 0 (cur ++ [c]) (cur ++ [c]) rest
  | some (.hardlink h) =>
      match hl h with
      | none => none
      | some (.error e) => some (.error e)
      | some (.ok p) =>
        match fs.t.ent p with
        | some (.dir _) => openLoop fs hl false fuel 0 p (cur ++ [c]) rest
        | _ => some (.error .notDir)
  | some (.file _) => some (.error .notDir)

theorem openLoop_rest {fs : Fsys} {hl : Hdr → Option Look} {fuel : Nat} {cur d : List Str} {c s : Str} (hc : IsName c) (hs : s ≠ []) :
    openLoop fs hl false (fuel + 1) 0 cur d (c ++ slash :: s) = openRest fs hl fuel cur c s (fs.t.ent (cur ++ [c])) := by
  conv => lhs; unfold openLoop
  rw [if_neg (by simp)]
  simp only [cutSlash_append hc.1.2]
  rw [if_neg hc.2.1, if_neg hc.2.2]
  generalize fs.t.ent (cur ++ [c]) = e
  rcases e with _ | e
  · rfl
  · cases e <;> simp [openRest, hs, maxLinks] <;> rfl

/-- The directories on the way to a recorded name. -/
theorem dirs_above {opt : Opt} {hs : List Hdr} {name : Str} (hname : ∀ c ∈ split name, IsName c)
    (hex : (∃ h, recorded opt hs name = some h) ∨ Beneath opt hs (split name)) (q : List Str) (hq : q ≠ []) (hpre : q <+: (split name).dropLast) :
    ∃ h, (newTree opt hs).ent q = some (.dir h) := by
  have hpre' : q <+: split name := hpre.trans (List.dropLast_prefix _)
  have hsl : ∀ c ∈ q, slash ∉ c := fun c hc => (hname c (hpre'.subset hc)).1.2
  have hlt : q.length < (split name).length := by
    have := hpre.length_le
    rw [List.length_dropLast] at this
    have := List.length_pos_iff.2 (split_ne_nil name)
    omega
  obtain ⟨r, hr⟩ := hpre'
  have hrne : r ≠ [] := by rintro rfl; rw [List.append_nil] at hr; rw [hr] at hlt; omega
  have hb : Beneath opt hs q := by
    rcases hex with ⟨h, hh⟩ | ⟨k, h, q', hk, hq', he⟩
    · exact ⟨name, h, r, hh, hrne, hr.symm⟩
    · exact ⟨k, h, r ++ q', hk, by simp [hrne], by rw [he, ← hr]; simp⟩
  exact ⟨_, (tree_exact opt hs q hq hsl).1 hb⟩

/-- Lookup of a name whose ancestors are directories ends at the entry of the tree. -/
theorem open_at {fs : Fsys} {hl : Hdr → Option Look} {skip : Bool} {fuel : Nat} {name : Str} (hname : ∀ c ∈ split name, IsName c)
    (hdirs : ∀ q, q ≠ [] → q <+: (split name).dropLast → ∃ h, fs.t.ent q = some (.dir h)) (hfuel : (split name).length < fuel)
    (hlink : (∀ h, fs.t.ent (split name) ≠ some (.symlink h)) ∨ skip = true) :
    openChild fs hl fuel [] name skip = some (match fs.t.ent (split name) with | none => .error .notExist | some _ => .ok (split name)) := by
  have hne := split_ne_nil name
  have hsplit : split name = (split name).dropLast ++ [(split name).getLast hne] := (List.dropLast_concat_getLast hne).symm
  generalize hns : (split name).dropLast = ns at *
  generalize hc0 : (split name).getLast hne = c at *
  have hcn : IsName c := hname c (by rw [← hc0]; exact List.getLast_mem _)
  have hnn : ∀ n ∈ ns, IsName n := by
    intro n hn; rw [← hns] at hn; exact hname n (List.dropLast_subset _ hn)
  have hname' : name = join (ns ++ [c]) := by rw [← hsplit, join_split]
  have hnd : name ≠ dot := by
    rintro rfl
    have := hname dot (by simp [split, dot, slash])
    exact this.2.1 rfl
  unfold openChild
  rw [if_neg hnd]
  have hlen : (split name).length = ns.length + 1 := by rw [hsplit]; simp
  obtain ⟨d', hd'⟩ := openLoop_walk (fs := fs) (hl := hl) (skip := skip) (r := 0) c ns (fuel - ns.length - 1) [] [] hnn hcn (by simpa using hdirs)
  rw [show fuel - ns.length - 1 + 1 + ns.length = fuel by omega, ← hname', List.nil_append] at hd'
  rw [hd', hsplit]
  obtain ⟨l1, l2⟩ := openLoop_last (fs := fs) (hl := hl) (skip := skip) (fuel := fuel - ns.length - 1) (r := 0) (cur := ns) (d := d') hcn
  rw [hsplit] at hlink
  cases he : fs.t.ent (ns ++ [c]) with
  | none => rw [l1 he]
  | some e =>
    rw [l2 e he (by
      rcases hlink with h | h
      · left; intro h' he'; subst he'; exact h h' he
      · exact Or.inr h)]

/-! ## C36: opening -/

/-- **C36, files.** A valid name for which the archive's last header is a regular file, with nothing recorded beneath it, opens as that file:
its contents and its header.  Links and types elsewhere in the archive do not matter. -/
theorem C36_open_file (opt : Opt) (hs : List Hdr) (name : Str) (h : Hdr) (hv : validPath name = true)
    (hr : recorded opt hs name = some h) (ht : h.typ = .reg ∨ h.typ = .dev) (hb : ¬ Beneath opt hs (split name))
    (fuel depth : Nat) (hfuel : (split name).length < fuel) :
    openFile (whole opt hs) fuel depth name = some (.file h h) := by
  have hnd : name ≠ dot := (recorded_clean hr).2.2.2.1
  have hnames : ∀ c ∈ split name, IsName c := by
    rcases (validPath_iff name).1 hv with h' | h'
    · exact absurd h' hnd
    · exact h'
  have hent : (whole opt hs).t.ent (split name) = some (.file h) := by
    have := (tree_exact opt hs (split name) (split_ne_nil name) (split_no_slash name)).2 hb
    rw [join_split, hr] at this
    show (newTree opt hs).ent _ = _
    rw [this]
    rcases ht with ht | ht <;> simp [entOf, ht]
  have hopen := open_at (fs := whole opt hs) (hl := resolveHardlink (whole opt hs) fuel depth) (skip := false) (fuel := fuel) hnames
    (dirs_above hnames (Or.inl ⟨h, hr⟩)) hfuel (Or.inl (by intro h' he; rw [hent] at he; cases he))
  rw [hent] at hopen
  simp only at hopen
  unfold openFile findFile
  rw [hv]
  have hsub : (whole opt hs).sub = [] := rfl
  simp only [Bool.true_eq_false, if_false, hsub, hopen, hent]

/-- **C36, directories.** A valid name for which the archive records a directory, or beneath which it records something, opens as the directory
of that path. -/
theorem C36_open_dir (opt : Opt) (hs : List Hdr) (name : Str) (hv : validPath name = true) (hnd : name ≠ dot)
    (h : (∃ h, recorded opt hs name = some h ∧ h.typ = .dir) ∨ Beneath opt hs (split name))
    (fuel depth : Nat) (hfuel : (split name).length < fuel) :
    openFile (whole opt hs) fuel depth name = some (.dir (split name)) := by
  have hnames : ∀ c ∈ split name, IsName c := by
    rcases (validPath_iff name).1 hv with h' | h'
    · exact absurd h' hnd
    · exact h'
  have hent : ∃ hd, (whole opt hs).t.ent (split name) = some (.dir hd) := by
    by_cases hb : Beneath opt hs (split name)
    · exact ⟨_, (tree_exact opt hs (split name) (split_ne_nil name) (split_no_slash name)).1 hb⟩
    · rcases h with ⟨hd, hr, ht⟩ | h
      · refine ⟨some hd, ?_⟩
        have := (tree_exact opt hs (split name) (split_ne_nil name) (split_no_slash name)).2 hb
        rw [join_split, hr] at this
        show (newTree opt hs).ent _ = _
        rw [this]; simp [entOf, ht]
      · exact absurd h hb
  obtain ⟨hd, hent⟩ := hent
  have hopen := open_at (fs := whole opt hs) (hl := resolveHardlink (whole opt hs) fuel depth) (skip := false) (fuel := fuel) hnames
    (dirs_above hnames (by
      rcases h with ⟨hd, hr, _⟩ | h
      · exact Or.inl ⟨hd, hr⟩
      · exact Or.inr h)) hfuel (Or.inl (by intro h' he; rw [hent] at he; cases he))
  rw [hent] at hopen
  simp only at hopen
  unfold openFile findFile
  rw [hv]
  have hsub : (whole opt hs).sub = [] := rfl
  simp only [Bool.true_eq_false, if_false, hsub, hopen, hent]

/-- The root opens as a directory. -/
theorem C36_open_root (opt : Opt) (hs : List Hdr) (fuel depth : Nat) : openFile (whole opt hs) fuel depth dot = some (.dir []) := by
  have hroot : (whole opt hs).t.ent [] = some (.dir (some (rootOf (collect hs)))) := (new_inv opt hs).root
  have hsub : (whole opt hs).sub = [] := rfl
  unfold openFile findFile
  have hv : validPath dot = true := by decide
  rw [hv]
  simp only [Bool.true_eq_false, if_false, openChild, if_true, hsub, hroot]

/-- **C36, the root.** What Stat tells about the root is the last header the archive has for it, and a directory without one. -/
theorem C36_root_header (opt : Opt) (hs : List Hdr) : ∃ h, (whole opt hs).t.ent [] = some (.dir (some h)) ∧
    (∀ a x b, hs = a ++ x :: b → clean x.name = dot → (∀ y ∈ b, clean y.name ≠ dot) → h = x) ∧
    ((∀ x ∈ hs, clean x.name ≠ dot) → h.typ = .dir ∧ clean h.name = dot) := by
  refine ⟨_, (new_inv opt hs).root, ?_, ?_⟩
  · rintro a x b rfl hx hb
    have hf : b.filter (fun h => decide (clean h.name = dot)) = [] := by
      rw [List.filter_eq_nil_iff]; intro y hy; simpa using hb y hy
    rw [rootOf, (collect_spec _).1 dot]
    simp [List.filter_append, hx, hf]
  · intro hno
    have hf : hs.filter (fun h => decide (clean h.name = dot)) = [] := by
      rw [List.filter_eq_nil_iff]; intro y hy; simpa using hno y hy
    rw [rootOf, (collect_spec _).1 dot, hf]
    decide

/-- **C36, absent names.** A valid name for which nothing is recorded, neither at it nor beneath it, does not open, unless one of its proper prefixes
is recorded as a link. -/
theorem C36_absent (opt : Opt) (hs : List Hdr) (name : Str) (hv : validPath name = true) (hnd : name ≠ dot)
    (hr : recorded opt hs name = none) (hb : ¬ Beneath opt hs (split name))
    (hlinks : ∀ q, q ≠ [] → q <+: (split name).dropLast → ∀ h, recorded opt hs (join q) = some h → h.typ = .symlink ∨ h.typ = .link → Beneath opt hs q)
    (fuel depth : Nat) (hfuel : (split name).length < fuel) :
    openFile (whole opt hs) fuel depth name = some (.err .notExist) ∨ openFile (whole opt hs) fuel depth name = some (.err .notDir) := by
  have hnames : ∀ c ∈ split name, IsName c := by
    rcases (validPath_iff name).1 hv with h' | h'
    · exact absurd h' hnd
    · exact h'
  have hent : (whole opt hs).t.ent (split name) = none := by
    have := (tree_exact opt hs (split name) (split_ne_nil name) (split_no_slash name)).2 hb
    rw [join_split, hr] at this
    exact this
  -- the loop, from any directory on the way
  have walk : ∀ (hl : Hdr → Option Look) (q cur d : List Str) (fuel : Nat), q ≠ [] → cur ++ q = split name → q.length < fuel →
      ∃ e, (e = .notExist ∨ e = .notDir) ∧ openLoop (whole opt hs) hl false fuel 0 cur d (join q) = some (.error e) := by
    intro hl q
    induction q with
    | nil => intro _ _ _ h; exact absurd rfl h
    | cons c rest ih =>
      intro cur d fuel _ hq hf
      obtain ⟨f, rfl⟩ : ∃ f, fuel = f + 1 := ⟨fuel - 1, by simp at hf; omega⟩
      have hcn : IsName c := hnames c (by rw [← hq]; simp)
      cases rest with
      | nil =>
        refine ⟨.notExist, Or.inl rfl, ?_⟩
        exact (openLoop_last hcn).1 (by rw [hq]; exact hent)
      | cons b r =>
        have hj : join (c :: b :: r) = c ++ slash :: join (b :: r) := rfl
        have hjne : join (b :: r) ≠ [] := join_ne_nil (by
          intro x hx
          exact (hnames x (by rw [← hq]; simp at hx ⊢; rcases hx with h | h <;> simp [h])).1) (by simp)
        have hpre : cur ++ [c] <+: (split name).dropLast := by
          rw [← hq, List.dropLast_append_of_ne_nil (by simp)]
          rw [List.prefix_append_right_inj]
          simp [List.dropLast]
        have hsl : ∀ x ∈ cur ++ [c], slash ∉ x := by
          intro x hx
          exact (hnames x (List.dropLast_subset _ (hpre.subset hx))).1.2
        obtain ⟨t1, t2⟩ := tree_exact opt hs (cur ++ [c]) (by simp) hsl
        by_cases hbb : Beneath opt hs (cur ++ [c])
        · rw [hj, openLoop_dir (fs := whole opt hs) hcn hjne (t1 hbb)]
          exact ih (cur ++ [c]) (cur ++ [c]) f (by simp) (by simpa using hq) (by simp at hf ⊢; omega)
        · have hent' : (whole opt hs).t.ent (cur ++ [c]) = _ := t2 hbb
          rw [hj, openLoop_rest hcn hjne, hent']
          cases hrec : recorded opt hs (join (cur ++ [c])) with
          | none => exact ⟨.notExist, Or.inl rfl, rfl⟩
          | some h =>
            have hnl : ¬ (h.typ = .symlink ∨ h.typ = .link) := by
              intro hl
              exact hbb (hlinks _ (by simp) hpre h hrec hl)
            rw [not_or] at hnl
            have hk := (recorded_clean hrec).2.2.1
            cases ht : h.typ with
            | symlink => exact absurd ht hnl.1
            | link => exact absurd ht hnl.2
            | reg => exact ⟨.notDir, Or.inr rfl, by simp [entOf, ht, openRest]⟩
            | dev => exact ⟨.notDir, Or.inr rfl, by simp [entOf, ht, openRest]⟩
            | other => simp [kept, ht] at hk
            | dir =>
              have : Option.map entOf (some h) = some (.dir (some h)) := by simp [entOf, ht]
              rw [this]
              exact ih (cur ++ [c]) (cur ++ [c]) f (by simp) (by simpa using hq) (by simp at hf ⊢; omega)
  obtain ⟨e, he, hl⟩ := walk (resolveHardlink (whole opt hs) fuel depth) (split name) [] [] fuel (split_ne_nil _) (by simp) hfuel
  have : openFile (whole opt hs) fuel depth name = some (.err e) := by
    unfold openFile findFile openChild
    rw [hv, join_split] at *
    have hsub : (whole opt hs).sub = [] := rfl
    simp only [Bool.true_eq_false, if_false, hsub, hnd, hl]
  rcases he with rfl | rfl
  · exact Or.inl this
  · exact Or.inr this

/-- **C36, nothing else.** Names that are not valid are refused, whatever the archive. -/
theorem C36_invalid (fs : Fsys) (name : Str) (hv : validPath name = false) (fuel depth : Nat) :
    openFile fs fuel depth name = some (.err .invalid) := by
  unfold openFile findFile
  simp [hv]

/-- An entry of the tree that is not a directory is a header of the archive that is recorded for its own cleaned name. -/
theorem ent_from_archive (opt : Opt) (hs : List Hdr) (p : List Str) (e : Ent) (he : (newTree opt hs).ent p = some e) :
    (∃ h, e = .dir h) ∨ ∃ h, e = entOf h ∧ recorded opt hs (clean h.name) = some h ∧ p = split (clean h.name) := by
  have inv := new_inv opt hs
  by_cases hp : p = []
  · subst hp
    rw [inv.root] at he
    left; exact ⟨_, (Option.some.inj he).symm⟩
  · rw [inv.ent p hp] at he
    unfold specEnt at he
    split at he
    · left; exact ⟨_, (Option.some.inj he).symm⟩
    · right
      rw [Option.map_eq_some_iff] at he
      obtain ⟨h, hl, rfl⟩ := he
      obtain ⟨k, e, r⟩ := (mem_pairs opt hs p h).1 (look_some _ _ _ hl)
      have := (recorded_clean r).2.1
      subst this
      exact ⟨h, rfl, r, e⟩

theorem entOf_file {h b : Hdr} (e : Ent.file b = entOf h) : b = h ∧ h.typ ≠ .dir ∧ h.typ ≠ .symlink ∧ h.typ ≠ .link := by
  unfold entOf at e
  split at e <;> simp_all

theorem entOf_hardlink {h b : Hdr} (e : Ent.hardlink b = entOf h) : b = h ∧ h.typ = .link := by
  unfold entOf at e
  split at e <;> simp_all

/-- **C36, nothing from outside.** Whatever name is opened, of whatever subtree, whatever links the archive has: contents that are served are those of
a header in the archive, of a type that has contents, whose cleaned name does not begin with two dots, and which is the last of that name. -/
theorem C36_only_archive (opt : Opt) (hs : List Hdr) (sub : List Str) (rooted : Bool) (name : Str) (fuel depth : Nat) (b i : Hdr)
    (ho : openFile { t := newTree opt hs, sub := sub, rooted := rooted } fuel depth name = some (.file b i)) :
    b ∈ hs ∧ (b.typ = .reg ∨ b.typ = .dev ∧ opt.allowDev = true) ∧ hasPrefix (clean b.name) dotdot = false ∧
      (hs.filter (fun h => clean h.name = clean b.name)).getLast? = some b := by
  have key : ∀ p, (newTree opt hs).ent p = some (.file b) →
      b ∈ hs ∧ (b.typ = .reg ∨ b.typ = .dev ∧ opt.allowDev = true) ∧ hasPrefix (clean b.name) dotdot = false ∧
      (hs.filter (fun h => clean h.name = clean b.name)).getLast? = some b := by
    intro p hp
    rcases ent_from_archive opt hs p _ hp with ⟨h, hh⟩ | ⟨h, hh, hr, _⟩
    · cases hh
    · obtain ⟨rfl, h1, h2, h3⟩ := entOf_file hh
      obtain ⟨c1, c2, c3, c4, c5⟩ := recorded_clean hr
      refine ⟨c1, ?_, c5, ?_⟩
      · cases ht : b.typ with
        | reg => exact Or.inl rfl
        | dev => right; exact ⟨rfl, by simpa [kept, ht] using c3⟩
        | other => simp [kept, ht] at c3
        | dir => exact absurd ht h1
        | symlink => exact absurd ht h2
        | link => exact absurd ht h3
      · unfold recorded at hr
        split at hr
        · cases hr
        · rw [Option.filter_eq_some_iff] at hr
          exact hr.1
  unfold openFile at ho
  split at ho
  · cases ho
  · cases ho
  · split at ho
    · rename_i hent; cases ho; exact key _ hent
    · cases ho
    · cases ho
  · split at ho
    · rename_i hent; cases ho; exact key _ hent
    · cases ho
    · cases ho

/-! ## C36: listing -/

/-- What `ReadDir` on a directory must give, from an unchanging list of entries `es`: from the cursor on, at most `n` of them, end of file when there
are none left. -/
def listed (es : List Hdr) (cursor : Nat) (n : Int) : (List Hdr × Option Err) × Nat :=
  if n ≤ 0 then ((es.drop cursor, none), max cursor es.length)
  else if es.length ≤ cursor then (([], some .eof), cursor)
  else (((es.drop cursor).take n.toNat, none), min es.length (cursor + n.toNat))

theorem listing_core (opt : Opt) (hs : List Hdr) (p : List Str)
    (hexp : ∀ c, Child opt hs p c → ∃ h, recorded opt hs (join (p ++ [c])) = some h ∧ (Beneath opt hs (p ++ [c]) → h.typ = .dir) ∧ infoName h = c) :
    ∃ es : List Hdr, (∀ c, c ∈ es.map infoName ↔ Child opt hs p c) ∧ (es.map infoName).Nodup ∧ (∀ h ∈ es, h ∈ hs) ∧ ((newTree opt hs).ord p).length = es.length ∧
      ∀ (cursor : Nat) (n : Int), readDir (newTree opt hs) p cursor n = some (listed es cursor n) := by
  have inv := new_inv opt hs
  have slashFree : ∀ c, Child opt hs p c → ∀ x ∈ p ++ [c], slash ∉ x := by
    rintro c ⟨k, h, q, _, he⟩ x hx
    exact split_no_slash k x (by rw [he]; simp at hx ⊢; rcases hx with h | h <;> simp [h])
  have lookc : ∀ c, Child opt hs p c → look (pairs opt hs) (p ++ [c]) = recorded opt hs (join (p ++ [c])) :=
    fun c hc => look_pairs opt hs (p ++ [c]) (by simp) (slashFree c hc)
  have childOf : ∀ c h, look (pairs opt hs) (p ++ [c]) = some h → Child opt hs p c := by
    intro c h hl
    obtain ⟨k, e, r⟩ := (mem_pairs opt hs _ h).1 (look_some _ _ _ hl)
    exact ⟨k, h, [], r, e.symm⟩
  have hns : NoShadow (pairs opt hs) [] p := by
    intro c h hl ht
    have hc := childOf c h hl
    obtain ⟨h', hr, hbd, _⟩ := hexp c hc
    rw [lookc c hc, hr] at hl
    cases hl
    refine ⟨?_, by cases p <;> rfl⟩
    cases hb : below (pairs opt hs) (p ++ [c]) with
    | false => rfl
    | true => exact absurd (hbd ((below_pairs opt hs _).1 hb)) ht
  have hord := inv.ord p hns
  -- the header of a child
  let f : Str → Hdr := fun c => match recorded opt hs (join (p ++ [c])) with | some h => h | none => defaultRoot
  have hf : ∀ c, Child opt hs p c → recorded opt hs (join (p ++ [c])) = some (f c) ∧ infoName (f c) = c := by
    intro c hc
    obtain ⟨h, hr, _, hi⟩ := hexp c hc
    have : f c = h := by show (match recorded opt hs (join (p ++ [c])) with | some h => h | none => defaultRoot) = h; rw [hr]
    rw [this]; exact ⟨hr, hi⟩
  have hnames : ∀ c, c ∈ (newTree opt hs).names p ↔ Child opt hs p c := by
    intro c; rw [inv.names p c, child_pairs]
  have hinfo : ((newTree opt hs).names p).map (fun c => infoName (f c)) = (newTree opt hs).names p := by
    conv => rhs; rw [← List.map_id ((newTree opt hs).names p)]
    apply List.map_congr_left
    intro c hc
    exact (hf c ((hnames c).1 hc)).2
  have hslot : ∀ c ∈ (newTree opt hs).names p, slotHdr (newTree opt hs) p (slotOf (pairs opt hs) [] p c) = some (f c) := by
    intro c hc
    have hch := (hnames c).1 hc
    obtain ⟨hr, _⟩ := hf c hch
    have hl := lookc c hch
    rw [hr] at hl
    have hnil : (p ++ [c]).isPrefixOf ([] : List Str) = false := by cases p <;> rfl
    unfold slotOf
    rw [hl]
    simp only [hnil]
    split
    · rename_i hcond
      have hent := inv.ent (p ++ [c]) (by simp)
      have htyp : (f c).typ = .dir := by
        rcases hcond with h | h | h
        · exact h
        · obtain ⟨h', hr', hbd, _⟩ := hexp c hch
          rw [hr] at hr'; cases hr'
          exact hbd ((below_pairs opt hs _).1 h)
        · cases h
      unfold slotHdr
      simp only [hent, specEnt, hl, hnil, Bool.or_false]
      split
      · rename_i h heq
        split at heq
        · cases heq; simp [Option.filter, isDirHdr, htyp]
        · simp [entOf, htyp] at heq; subst heq; rfl
      · rename_i hno
        split at hno
        · exact absurd rfl (hno _)
        · simp [entOf, htyp] at hno
    · rfl
  refine ⟨((newTree opt hs).names p).map f, ?_, ?_, ?_, by rw [hord]; simp, ?_⟩
  · intro c
    rw [List.map_map, show (infoName ∘ f) = (fun c => infoName (f c)) from rfl, hinfo, hnames]
  · rw [List.map_map, show (infoName ∘ f) = (fun c => infoName (f c)) from rfl, hinfo]
    exact inv.nodup p
  · intro h hh
    obtain ⟨c, hc, rfl⟩ := List.mem_map.1 hh
    exact (recorded_clean (hf c ((hnames c).1 hc)).1).1
  · intro cursor n
    have hlen : ((newTree opt hs).ord p).length = ((newTree opt hs).names p).length := by rw [hord]; simp
    have hread : ∀ k, cursor + k ≤ ((newTree opt hs).names p).length →
        readEntries (newTree opt hs) p (((newTree opt hs).ord p).drop cursor) k = some (((((newTree opt hs).names p).map f).drop cursor).take k) := by
      intro k hk
      rw [hord, ← List.map_drop]
      have : ∀ (ns : List Str) (k : Nat), (∀ c ∈ ns, c ∈ (newTree opt hs).names p) → k ≤ ns.length →
          readEntries (newTree opt hs) p (ns.map (slotOf (pairs opt hs) [] p)) k = some ((ns.map f).take k) := by
        intro ns
        induction ns with
        | nil => intro k _ hk; simp at hk; subst hk; rfl
        | cons c rest ih =>
          intro k hm hk
          cases k with
          | zero => rfl
          | succ k =>
            simp only [List.map_cons, readEntries, hslot c (hm c (by simp)), List.take_succ_cons]
            rw [ih k (fun x hx => hm x (List.mem_cons_of_mem _ hx)) (by simpa using hk)]
            rfl
      rw [this _ k (fun c hc => List.mem_of_mem_drop hc) (by rw [List.length_drop]; omega), List.map_drop]
    have hmaplen : (((newTree opt hs).names p).map f).length = ((newTree opt hs).names p).length := by simp
    unfold readDir listed
    generalize hL : ((newTree opt hs).names p).length = L at *
    generalize ((newTree opt hs).names p).map f = es at *
    rw [hlen, hmaplen]
    by_cases h1 : L ≤ cursor
    · rw [if_pos h1]
      by_cases h2 : n ≤ 0
      · rw [if_pos h2, if_pos h2, List.drop_eq_nil_of_le (by omega), Nat.max_eq_left h1]
      · rw [if_neg h2, if_neg h2, if_pos h1]
    · rw [if_neg h1]
      by_cases h2 : n ≤ 0
      · have hk : (min ((L : Int) - cursor) ((L : Int) - cursor)).toNat = L - cursor := by omega
        simp only [if_pos h2, hk]
        rw [hread (L - cursor) (by omega), List.take_of_length_le (by rw [List.length_drop]; omega)]
        rw [show cursor + (L - cursor) = max cursor L by omega]
      · simp only [if_neg h2, if_neg h1]
        generalize hk : (min n ((L : Int) - cursor)).toNat = k
        have hk' : k = min n.toNat (L - cursor) := by omega
        rw [hread k (by omega)]
        have : (es.drop cursor).take k = (es.drop cursor).take n.toNat := by
          rw [hk']
          rw [show min n.toNat (L - cursor) = min n.toNat (es.drop cursor).length by rw [List.length_drop, hmaplen]]
          exact List.take_eq_take_min.symm
        simp only [this]
        rw [show cursor + k = min L (cursor + n.toNat) by omega]

/-- **C36, listing.** If every name in the directory `p` has a header of its own (no implicit directories), a name with something beneath it has a
directory's header, and no header of a non-directory has a name ending in "/" or "/.", then reading the directory page by page with
any sizes gives the names of its children, each exactly once.

Missing for the full property: see the counterexamples below for what happens otherwise. -/
theorem C36_listing_partial (opt : Opt) (hs : List Hdr) (p : List Str)
    (hexp : ∀ c, Child opt hs p c → ∃ h, recorded opt hs (join (p ++ [c])) = some h ∧ (Beneath opt hs (p ++ [c]) → h.typ = .dir) ∧ infoName h = c) :
    ∃ es : List Hdr, (∀ c, c ∈ es.map infoName ↔ Child opt hs p c) ∧ (es.map infoName).Nodup ∧ (∀ h ∈ es, h ∈ hs) ∧
      ∀ (cursor : Nat) (n : Int), readDir (newTree opt hs) p cursor n = some (listed es cursor n) := by
  obtain ⟨es, h1, h2, h3, _, h4⟩ := listing_core opt hs p hexp
  exact ⟨es, h1, h2, h3, h4⟩

/-! ## Cases -/

def exOpt : Opt := { allowDev := false, handleSymlink := true, isRooted := true }
/-- ./, d/, d/f (twice, the second wins), g, l → d. -/
def exHs : List Hdr :=
  [{ name := ['.', '/'], typ := .dir, linkname := [], id := 0 }, { name := ['d', '/'], typ := .dir, linkname := [], id := 1 },
   { name := ['d', '/', 'f'], typ := .reg, linkname := [], id := 2 }, { name := ['d', '/', 'f'], typ := .reg, linkname := [], id := 3 },
   { name := ['g'], typ := .reg, linkname := [], id := 4 }, { name := ['l'], typ := .symlink, linkname := ['d'], id := 5 }]

/-- The hypotheses of `C36_open_file` hold for d/f, and the second header is the one that counts. -/
example : recorded exOpt exHs ['d', '/', 'f'] = some { name := ['d', '/', 'f'], typ := .reg, linkname := [], id := 3 } ∧
    validPath ['d', '/', 'f'] = true := by decide +kernel
example : openFile (whole exOpt exHs) 9 2 ['d', '/', 'f'] =
    some (.file { name := ['d', '/', 'f'], typ := .reg, linkname := [], id := 3 } { name := ['d', '/', 'f'], typ := .reg, linkname := [], id := 3 }) := by
  decide +kernel
example : openFile (whole exOpt exHs) 9 2 ['d'] = some (.dir [['d']]) := by decide +kernel
example : openFile (whole exOpt exHs) 9 2 ['d', '/', 'x'] = some (.err .notExist) := by decide +kernel
example : openFile (whole exOpt exHs) 9 2 ['g', '/', 'x'] = some (.err .notDir) := by decide +kernel
/-- Its root lists its three names. -/
example : (readDir (newTree exOpt exHs) [] 0 (-1)).map (fun r => r.1.1.map infoName) = some [['d'], ['g'], ['l']] := by decide +kernel

/-- C36 fails for a directory that the archive implies but has no header for: listing its parent panics. -/
theorem C36_counterexample_implicit_dir :
    let hs : List Hdr := [{ name := ['a', '/', 'b'], typ := .reg, linkname := [], id := 1 }]
    openFile (whole exOpt hs) 9 2 ['a'] = some (.dir [['a']]) ∧ readDir (newTree exOpt hs) [] 0 (-1) = none := by decide +kernel

/-- C36 fails when an archive has a file and, beneath the same name, another file: the file recorded at "a" cannot be opened, and the listing of
the root shows it although opening it gives a directory. -/
theorem C36_counterexample_shadowed :
    let hs : List Hdr := [{ name := ['a'], typ := .reg, linkname := [], id := 1 }, { name := ['a', '/', 'b'], typ := .reg, linkname := [], id := 2 }]
    openFile (whole exOpt hs) 9 2 ['a'] = some (.dir [['a']]) ∧
      readDir (newTree exOpt hs) [] 0 1 = some (([{ name := ['a'], typ := .reg, linkname := [], id := 1 }], none), 1) := by decide +kernel

/-- C36 fails for names that begin with two dots: the archive has "..data" (as Kubernetes volumes do), and it cannot be opened. -/
theorem C36_counterexample_dotdot_name :
    let hs : List Hdr := [{ name := ['.', '.', 'd'], typ := .reg, linkname := [], id := 1 }]
    validPath ['.', '.', 'd'] = true ∧ openFile (whole exOpt hs) 9 2 ['.', '.', 'd'] = some (.err .notExist) := by decide +kernel

/-- C36 fails for absolute names: the entry is put beneath a directory with the empty name, which no valid name reaches, and which makes
listing the root panic. -/
theorem C36_counterexample_absolute_name :
    let hs : List Hdr := [{ name := ['/', 'a'], typ := .reg, linkname := [], id := 1 }]
    openFile (whole exOpt hs) 9 2 ['a'] = some (.err .notExist) ∧ openFile (whole exOpt hs) 9 2 ['/', 'a'] = some (.err .invalid) ∧
      readDir (newTree exOpt hs) [] 0 (-1) = none := by decide +kernel

/-- C36 fails for an archive with a regular file called ".": the root can be listed and opened as a directory, but Stat says that it is a file. -/
theorem C36_counterexample_root_file :
    let x : Hdr := { name := ['.'], typ := .reg, linkname := [], id := 1 }
    let hs : List Hdr := [x, { name := ['a'], typ := .reg, linkname := [], id := 2 }]
    openFile (whole exOpt hs) 9 2 dot = some (.dir []) ∧ (whole exOpt hs).t.ent [] = some (.dir (some x)) ∧
      (readDir (newTree exOpt hs) [] 0 (-1)).map (fun r => r.1.1.map infoName) = some [['a']] := by decide +kernel

/-- C36 fails for a non-directory whose name ends in "/.": it opens as "a" but is listed as ".". -/
theorem C36_counterexample_listed_name :
    let hs : List Hdr := [{ name := ['a', '/', '.'], typ := .reg, linkname := [], id := 1 }]
    openFile (whole exOpt hs) 9 2 ['a'] = some (.file { name := ['a', '/', '.'], typ := .reg, linkname := [], id := 1 } { name := ['a', '/', '.'], typ := .reg, linkname := [], id := 1 }) ∧
      (readDir (newTree exOpt hs) [] 0 (-1)).map (fun r => r.1.1.map infoName) = some [['.']] := by decide +kernel

end Verif.Tarfs
