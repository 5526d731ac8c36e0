import Verif.Tarfs.Sections
import Verif.Tarfs.TreeProps
import Verif.Tarfs.LinkTarget
/-
From the bytes of an archive to what is read through the filesystem: the sections (C101) put together with the tree (C36).
-/
namespace Verif.Tarfs.Map

open Verif.Stream Verif.Path

/-- The typeflags as fs.go 76-90 and entdir.go 78-100 tell them apart. -/
def flagOf (c : UInt8) : TypeFlag :=
  if c = 48 ∨ c = 0 ∨ c = 83 then .reg
  else if c = 53 then .dir
  else if c = 50 then .symlink
  else if c = 49 then .link
  else if c = 51 ∨ c = 52 ∨ c = 54 then .dev
  else .other

/-- A member with its names, as archive/tar reports them. -/
structure Named where
  m : Member
  name : Str
  linkname : Str

/-- The headers that the sections carry; `id` is the number of the section. -/
def hdrs : (i : Nat) → List Named → List Hdr
  | _, [] => []
  | i, x :: xs => ⟨x.name, flagOf x.m.typeflag, x.linkname, i⟩ :: hdrs (i + 1) xs

theorem hdrs_append (i : Nat) (a b : List Named) : hdrs i (a ++ b) = hdrs i a ++ hdrs (i + a.length) b := by
  induction a generalizing i with
  | nil => simp [hdrs]
  | cons x a ih =>
    rw [List.cons_append, hdrs, hdrs, ih, List.cons_append, List.length_cons]
    congr 3
    omega

theorem hdrs_name {i : Nat} {l : List Named} {h : Hdr} (hh : h ∈ hdrs i l) : ∃ x ∈ l, h.name = x.name := by
  induction l generalizing i with
  | nil => cases hh
  | cons x l ih =>
    rw [hdrs, List.mem_cons] at hh
    rcases hh with rfl | hh
    · exact ⟨x, by simp, rfl⟩
    · obtain ⟨y, hy, e⟩ := ih hh
      exact ⟨y, by simp [hy], e⟩

/-- **C101** (through the filesystem). Of every archive as in `C101_sections_partial`: the last member with a name, if it is a regular or sparse file whose name does not begin
with two dots and is not that of a directory with something in it, is what `Open` of that name gives, and it reads as its contents. -/
theorem C101_open_partial (env : Nat → Env) (hf : ∀ i k, (env i).fault k = false) (fuel : Nat) (opt : Opt) (a : List Named) (x : Named) (b : List Named) (tail : Bytes)
    (hm : ∀ y ∈ a ++ x :: b, y.m.Proper) (hc : ∀ y ∈ a ++ x :: b, y.m.typeflag = 55 → y.m.body = []) (hfu : ∀ y ∈ a ++ x :: b, y.m.headers.length / 512 < fuel)
    (hmax : (x.m.size : Int) ≤ maxInt64) (ra : ReaderFn) (hra : FullReaderAt ra (bytesOf ((a ++ x :: b).map (·.m)) ++ tail))
    (hreg : x.m.typeflag = 48 ∨ x.m.typeflag = 0 ∨ x.m.typeflag = 83) (hv : validPath (clean x.name) = true) (hdot : clean x.name ≠ dot)
    (hup : hasPrefix (clean x.name) dotdot = false) (hlast : ∀ y ∈ b, clean y.name ≠ clean x.name)
    (hb : ¬ Beneath opt (hdrs 0 (a ++ x :: b)) (split (clean x.name))) (steps depth : Nat) (hsteps : (split (clean x.name)).length < steps) :
    ∃ h ss s, openFile (whole opt (hdrs 0 (a ++ x :: b))) steps depth (clean x.name) = some (.file h h) ∧
      sectionsOf env fuel (bytesOf ((a ++ x :: b).map (·.m)) ++ tail) 0 none (reports 0 ((a ++ x :: b).map (·.m))) = some ss ∧ ss[h.id]? = some s ∧
      (x.m.map = none → s.holes = none ∧ Delivers (plainReader ra s.headerEnd (s.bodyEnd - s.headerEnd).toNat) x.m.body) ∧
      (∀ l, x.m.map = some l → ∃ holes, s.holes = some holes ∧ ∃ file : Bytes, file.length = x.m.size ∧
        (∀ p : Int, 0 ≤ p → p < x.m.size → file[p.toNat]? = sparseByte x.m.body 0 l p) ∧
        (∀ ops : List Op, (∀ o w, Op.seek o w ∈ ops → IsInt64 o) →
          ∃ outs, runOps (makeReader ra s.headerEnd holes x.m.size) 0 ops = some outs ∧ outs.map (·.1) = ops ∧ CursorExplains file 0 outs)) := by
  have hmap : (a ++ x :: b).map (·.m) = a.map (·.m) ++ x.m :: b.map (·.m) := by simp
  have hall : ∀ (P : Member → Prop), (∀ y ∈ a ++ x :: b, P y.m) → ∀ y ∈ a.map (·.m) ++ x.m :: b.map (·.m), P y := by
    intro P h y hy
    rw [← hmap, List.mem_map] at hy
    obtain ⟨z, hz, rfl⟩ := hy
    exact h z hz
  rw [hmap] at hra ⊢
  obtain ⟨ss, s, c1, c2, c3, c4⟩ := C101_contents_partial env hf fuel (a.map (·.m)) x.m (b.map (·.m)) tail (hall _ hm) (hall _ hc) (hall _ hfu) hmax ra hra
  rw [List.length_map] at c2
  have hrec : recorded opt (hdrs 0 (a ++ x :: b)) (clean x.name) = some ⟨x.name, flagOf x.m.typeflag, x.linkname, a.length⟩ := by
    unfold recorded
    rw [if_neg (by rintro (h | h); exact hdot h; rw [hup] at h; cases h), hdrs_append, hdrs, List.filter_append]
    have hnone : (hdrs (0 + a.length + 1) b).filter (fun h => clean h.name = clean x.name) = [] := by
      rw [List.filter_eq_nil_iff]
      intro h hh
      obtain ⟨y, hy, e⟩ := hdrs_name hh
      rw [e]
      simpa using hlast y hy
    rw [List.filter_cons, if_pos (by simp), hnone, List.getLast?_append]
    simp only [Nat.zero_add, List.getLast?_singleton, Option.some_or]
    rw [Option.filter_eq_some_iff]
    refine ⟨rfl, ?_⟩
    rcases hreg with h | h | h <;> simp [Wanted, flagOf, h]
  refine ⟨_, ss, s, C36_open_file opt _ (clean x.name) _ hv hrec (Or.inl ?_) hb steps depth hsteps, c1, c2, c3, c4⟩
  rcases hreg with h | h | h <;> simp [flagOf, h]

/-- The last member with a name is what is recorded for it, if its type is taken. -/
theorem recorded_last (opt : Opt) (a : List Named) (x : Named) (b : List Named) (hdot : clean x.name ≠ dot) (hup : hasPrefix (clean x.name) dotdot = false)
    (hlast : ∀ y ∈ b, clean y.name ≠ clean x.name) (hw : Wanted opt ⟨x.name, flagOf x.m.typeflag, x.linkname, a.length⟩) :
    recorded opt (hdrs 0 (a ++ x :: b)) (clean x.name) = some ⟨x.name, flagOf x.m.typeflag, x.linkname, a.length⟩ := by
  unfold recorded
  rw [if_neg (by rintro (h | h); exact hdot h; rw [hup] at h; cases h), hdrs_append, hdrs, List.filter_append]
  have hnone : (hdrs (0 + a.length + 1) b).filter (fun h => clean h.name = clean x.name) = [] := by
    rw [List.filter_eq_nil_iff]
    intro h hh
    obtain ⟨y, hy, e⟩ := hdrs_name hh
    rw [e]
    simpa using hlast y hy
  rw [List.filter_cons, if_pos (by simp), hnone, List.getLast?_append]
  simp only [Nat.zero_add, List.getLast?_singleton, Option.some_or]
  rw [Option.filter_eq_some_iff]
  exact ⟨rfl, by simpa using hw⟩

theorem names_of_valid {name : Str} (hv : validPath name = true) (hnd : name ≠ dot) : ∀ c ∈ split name, IsName c := by
  rcases (validPath_iff name).1 hv with h | h
  · exact absurd h hnd
  · exact h

/-- What lookup of a recorded name that is not a directory ends at. -/
theorem child_of_recorded {opt : Opt} {hs : List Hdr} {name : Str} {h : Hdr} (hv : validPath name = true) (hr : recorded opt hs name = some h)
    (hb : ¬ Beneath opt hs (split name)) {hl : Hdr → Option Look} {skip : Bool} (hlink : h.typ ≠ .symlink ∨ skip = true) {fuel : Nat}
    (hfuel : (split name).length < fuel) :
    (newTree opt hs).ent (split name) = some (entOf h) ∧ openChild (whole opt hs) hl fuel [] name skip = some (.ok (split name)) := by
  have hnames := names_of_valid hv (recorded_clean hr).2.2.2.1
  have hent : (whole opt hs).t.ent (split name) = some (entOf h) := by
    have := (tree_exact opt hs (split name) (split_ne_nil name) (split_no_slash name)).2 hb
    rw [join_split, hr] at this
    exact this
  refine ⟨hent, ?_⟩
  have hopen := open_at (fs := whole opt hs) (hl := hl) (skip := skip) (fuel := fuel) hnames (dirs_above hnames (Or.inl ⟨h, hr⟩)) hfuel (by
    rcases hlink with ht | ht
    · left
      intro h' he
      rw [hent] at he
      unfold entOf at he
      split at he <;> first | exact ht ‹_› | cases he
    · exact Or.inr ht)
  rw [hopen, hent]

/-- **C101** (hard links). In every archive: the last member with a name, if it is a hard link ('1') to a member that is a regular or sparse file as in
`C101_open_partial`, opens as the contents that opening that member gives, with the link's own information.

Missing: hard links to hard links, which panic; see `C37_counterexample_hardlink_twice`. -/
theorem C101_open_link_partial (opt : Opt) (a : List Named) (x : Named) (b : List Named) (a' : List Named) (l : Named) (b' : List Named)
    (hsame : a' ++ l :: b' = a ++ x :: b)
    (hreg : x.m.typeflag = 48 ∨ x.m.typeflag = 0 ∨ x.m.typeflag = 83) (hv : validPath (clean x.name) = true) (hdot : clean x.name ≠ dot)
    (hup : hasPrefix (clean x.name) dotdot = false) (hlast : ∀ y ∈ b, clean y.name ≠ clean x.name)
    (hb : ¬ Beneath opt (hdrs 0 (a ++ x :: b)) (split (clean x.name)))
    (hl : l.m.typeflag = 49) (hto : clean l.linkname = clean x.name) (hv' : validPath (clean l.name) = true) (hdot' : clean l.name ≠ dot)
    (hup' : hasPrefix (clean l.name) dotdot = false) (hlast' : ∀ y ∈ b', clean y.name ≠ clean l.name)
    (hb' : ¬ Beneath opt (hdrs 0 (a ++ x :: b)) (split (clean l.name)))
    (steps depth : Nat) (hsteps : (split (clean x.name)).length < steps) (hsteps' : (split (clean l.name)).length < steps) (hd : 1 ≤ depth) :
    ∃ h info, openFile (whole opt (hdrs 0 (a ++ x :: b))) steps depth (clean x.name) = some (.file h h) ∧ h.id = a.length ∧
      openFile (whole opt (hdrs 0 (a ++ x :: b))) steps depth (clean l.name) = some (.file h info) ∧ info.id = a'.length ∧ info.name = l.name := by
  have hrx := recorded_last opt a x b hdot hup hlast (by rcases hreg with h | h | h <;> simp [Wanted, flagOf, h])
  have hrl := recorded_last opt a' l b' hdot' hup' hlast' (by simp [Wanted, flagOf, hl])
  rw [hsame] at hrl
  have htx : flagOf x.m.typeflag = .reg := by rcases hreg with h | h | h <;> simp [flagOf, h]
  have htl : flagOf l.m.typeflag = .link := by simp [flagOf, hl]
  refine ⟨⟨x.name, flagOf x.m.typeflag, x.linkname, a.length⟩, ⟨l.name, flagOf l.m.typeflag, l.linkname, a'.length⟩,
    C36_open_file opt _ _ _ hv hrx (Or.inl htx) hb steps depth hsteps, rfl, ?_, rfl, rfl⟩
  obtain ⟨d, rfl⟩ : ∃ d, depth = d + 1 := ⟨depth - 1, by omega⟩
  obtain ⟨el, ol⟩ := child_of_recorded hv' hrl hb' (hl := resolveHardlink (whole opt (hdrs 0 (a ++ x :: b))) steps (d + 1)) (skip := false) (Or.inl (by simp [htl])) hsteps'
  obtain ⟨ex, ox⟩ := child_of_recorded hv hrx hb (hl := resolveHardlink (whole opt (hdrs 0 (a ++ x :: b))) steps d) (skip := false) (Or.inl (by simp [htx])) hsteps
  simp only [entOf, htl] at el
  simp only [entOf, htx] at ex
  have hres : resolveHardlink (whole opt (hdrs 0 (a ++ x :: b))) steps (d + 1) ⟨l.name, .link, l.linkname, a'.length⟩ = some (.ok (split (clean x.name))) := by
    rw [resolveHardlink]
    simp only [hto]
    exact ox
  have hsub : (whole opt (hdrs 0 (a ++ x :: b))).sub = [] := rfl
  have ht : (whole opt (hdrs 0 (a ++ x :: b))).t = newTree opt (hdrs 0 (a ++ x :: b)) := rfl
  simp only [openFile, findFile, hv', Bool.true_eq_false, if_false, hsub, ol, ht, el, hres, ex, htx, htl]

/-- **C101** (symbolic links). In every archive read with symbolic links: the last member with a name, if it is a symbolic link ('2'), is reported by `ReadLink` with
the target the archive has, cleaned. -/
theorem C101_readlink (opt : Opt) (hopt : opt.handleSymlink = true) (a : List Named) (l : Named) (b : List Named)
    (hl : l.m.typeflag = 50) (hv : validPath (clean l.name) = true) (hdot : clean l.name ≠ dot)
    (hup : hasPrefix (clean l.name) dotdot = false) (hlast : ∀ y ∈ b, clean y.name ≠ clean l.name)
    (hb : ¬ Beneath opt (hdrs 0 (a ++ l :: b)) (split (clean l.name))) (steps depth : Nat) (hsteps : (split (clean l.name)).length < steps) :
    readLink (whole opt (hdrs 0 (a ++ l :: b))) steps depth (clean l.name) = some (.ok (clean l.linkname)) := by
  have hr := recorded_last opt a l b hdot hup hlast (by simp [Wanted, flagOf, hl, hopt])
  have ht : flagOf l.m.typeflag = .symlink := by simp [flagOf, hl]
  obtain ⟨e, o⟩ := child_of_recorded hv hr hb (hl := resolveHardlink (whole opt (hdrs 0 (a ++ l :: b))) steps depth) (skip := true) (Or.inr rfl) hsteps
  simp only [entOf, ht] at e
  have hsub : (whole opt (hdrs 0 (a ++ l :: b))).sub = [] := rfl
  have ht' : (whole opt (hdrs 0 (a ++ l :: b))).t = newTree opt (hdrs 0 (a ++ l :: b)) := rfl
  simp only [readLink, findFile, hv, Bool.true_eq_false, if_false, hsub, o, ht', e]

/-- **C101** (directories). In every archive: the last member with a name, if it is a directory ('5'), opens as the directory of that name. -/
theorem C101_open_dir (opt : Opt) (a : List Named) (x : Named) (b : List Named) (hv : validPath (clean x.name) = true) (hdot : clean x.name ≠ dot)
    (hup : hasPrefix (clean x.name) dotdot = false) (hlast : ∀ y ∈ b, clean y.name ≠ clean x.name) (h5 : x.m.typeflag = 53)
    (steps depth : Nat) (hsteps : (split (clean x.name)).length < steps) :
    openFile (whole opt (hdrs 0 (a ++ x :: b))) steps depth (clean x.name) = some (.dir (split (clean x.name))) := by
  have hr := recorded_last opt a x b hdot hup hlast (by simp [Wanted, flagOf, h5])
  exact C36_open_dir opt _ _ hv hdot (Or.inl ⟨_, hr, by simp [flagOf, h5]⟩) steps depth hsteps

/-- **C101** (what is left out). In every archive: if the last member with a name is a device or FIFO ('3', '4', '6') or a symbolic link ('2') that the options leave out, or of a
type that is none of the known ones, and nothing lies beneath the name and no link above it, then nothing opens by that name. -/
theorem C101_left_out (opt : Opt) (a : List Named) (x : Named) (b : List Named) (hv : validPath (clean x.name) = true) (hdot : clean x.name ≠ dot)
    (hlast : ∀ y ∈ b, clean y.name ≠ clean x.name)
    (hx : x.m.typeflag ∉ [0, 48, 49, 50, 51, 52, 53, 54, 83] ∨ x.m.typeflag ∈ [51, 52, 54] ∧ opt.allowDev = false ∨ x.m.typeflag = 50 ∧ opt.handleSymlink = false)
    (hb : ¬ Beneath opt (hdrs 0 (a ++ x :: b)) (split (clean x.name)))
    (hlinks : ∀ q, q ≠ [] → q <+: (split (clean x.name)).dropLast → ∀ h, recorded opt (hdrs 0 (a ++ x :: b)) (join q) = some h → h.typ = .symlink ∨ h.typ = .link →
      Beneath opt (hdrs 0 (a ++ x :: b)) q)
    (steps depth : Nat) (hsteps : (split (clean x.name)).length < steps) :
    openFile (whole opt (hdrs 0 (a ++ x :: b))) steps depth (clean x.name) = some (.err .notExist) ∨
      openFile (whole opt (hdrs 0 (a ++ x :: b))) steps depth (clean x.name) = some (.err .notDir) := by
  refine C36_absent opt _ _ hv hdot ?_ hb hlinks steps depth hsteps
  unfold recorded
  split
  · rfl
  rw [hdrs_append, hdrs, List.filter_append]
  have hnone : (hdrs (0 + a.length + 1) b).filter (fun h => clean h.name = clean x.name) = [] := by
    rw [List.filter_eq_nil_iff]
    intro h hh
    obtain ⟨y, hy, e⟩ := hdrs_name hh
    rw [e]
    simpa using hlast y hy
  rw [List.filter_cons, if_pos (by simp), hnone, List.getLast?_append]
  simp only [Nat.zero_add, List.getLast?_singleton, Option.some_or]
  rw [Option.filter_eq_none_iff]
  rintro h hh
  cases hh
  simp only [decide_eq_true_eq]
  simp only [List.mem_cons, List.not_mem_nil, or_false, not_or] at hx
  rcases hx with ⟨h0, h1, h2, h3, h4, h5, h6, h7, h8⟩ | ⟨h3 | h3 | h3, ho⟩ | ⟨h3, ho⟩
  · simp [Wanted, flagOf, *]
  all_goals simp [Wanted, flagOf, h3, ho]

/-! ### Non-vacuity: a directory, a file in it, a hard link and a symbolic link to it, and a FIFO -/

/-- A member without stored bytes. -/
def exPlain (flag : UInt8) : Member := ⟨flag, 0, fun _ => [], exBlock flag 0 (List.replicate 97 0), none, [], []⟩

def exKinds : List Named :=
  [⟨exPlain 53, ['d', '/'], []⟩, ⟨exReg, ['d', '/', 'f'], []⟩, ⟨exPlain 49, ['h'], ['d', '/', 'f']⟩, ⟨exPlain 50, ['s'], ['d', '/', '/', 'f']⟩, ⟨exPlain 54, ['p'], []⟩]

/-- None of the last three names has anything beneath it. -/
theorem exKinds_beneath (n : Str) (hn : n = ['h'] ∨ n = ['s'] ∨ n = ['p'] ∨ n = ['d', '/', 'f']) : ¬ Beneath exOpt (hdrs 0 exKinds) (split n) := by
  rintro ⟨k, h, q, hr, hq, hs⟩
  obtain ⟨h1, h2, _⟩ := recorded_clean hr
  have hk : k ∈ [['d'], ['d', '/', 'f'], ['h'], ['s'], ['p']] := by
    simp only [exKinds, hdrs, List.mem_cons, List.not_mem_nil, or_false] at h1
    rcases h1 with rfl | rfl | rfl | rfl | rfl <;> (rw [← h2]; decide)
  simp only [List.mem_cons, List.not_mem_nil, or_false] at hk
  have hpre : split n <+: split k := ⟨q, hs.symm⟩
  have hlen : (split n).length < (split k).length := by
    rw [hs, List.length_append]
    have := List.length_pos_iff.2 hq
    omega
  rcases hn with rfl | rfl | rfl | rfl <;> rcases hk with rfl | rfl | rfl | rfl | rfl <;> exact absurd (And.intro hpre hlen) (by decide)

example : ∃ h info, openFile (whole exOpt (hdrs 0 exKinds)) 9 1 ['h'] = some (.file h info) ∧ h.id = 1 ∧ info.id = 2 := by
  obtain ⟨h, info, _, c1, c2, c3, _⟩ := C101_open_link_partial exOpt (exKinds.take 1) ⟨exReg, ['d', '/', 'f'], []⟩ (exKinds.drop 2) (exKinds.take 2) ⟨exPlain 49, ['h'], ['d', '/', 'f']⟩ (exKinds.drop 3)
    rfl (by decide) (by decide) (by decide) (by decide) (by intro y hy; simp only [exKinds, List.drop, List.mem_cons, List.not_mem_nil, or_false] at hy; rcases hy with rfl | rfl | rfl <;> decide)
    (exKinds_beneath _ (by decide)) rfl (by decide) (by decide) (by decide) (by decide)
    (by intro y hy; simp only [exKinds, List.drop, List.mem_cons, List.not_mem_nil, or_false] at hy; rcases hy with rfl | rfl <;> decide) (exKinds_beneath _ (by decide)) 9 1 (by decide) (by decide) (by decide)
  exact ⟨h, info, c2, c1, c3⟩

example : readLink (whole exOpt (hdrs 0 exKinds)) 9 1 ['s'] = some (.ok ['d', '/', 'f']) :=
  C101_readlink exOpt rfl (exKinds.take 3) ⟨exPlain 50, ['s'], ['d', '/', '/', 'f']⟩ (exKinds.drop 4) rfl (by decide) (by decide) (by decide)
    (by intro y hy; simp only [exKinds, List.drop, List.mem_cons, List.not_mem_nil, or_false] at hy; rcases hy with rfl; decide) (exKinds_beneath _ (by decide)) 9 1 (by decide)

example : openFile (whole exOpt (hdrs 0 exKinds)) 9 1 ['d'] = some (.dir [['d']]) :=
  C101_open_dir exOpt [] ⟨exPlain 53, ['d', '/'], []⟩ (exKinds.drop 1) (by decide) (by decide) (by decide)
    (by intro y hy; simp only [exKinds, List.drop, List.mem_cons, List.not_mem_nil, or_false] at hy; rcases hy with rfl | rfl | rfl | rfl <;> decide) rfl 9 1 (by decide)

example : openFile (whole exOpt (hdrs 0 exKinds)) 9 1 ['p'] = some (.err .notExist) ∨ openFile (whole exOpt (hdrs 0 exKinds)) 9 1 ['p'] = some (.err .notDir) :=
  C101_left_out exOpt (exKinds.take 4) ⟨exPlain 54, ['p'], []⟩ [] (by decide) (by decide) (by intro y hy; cases hy) (Or.inr (Or.inl (by decide))) (exKinds_beneath _ (by decide))
    (by intro q hq hp; exact absurd (List.prefix_nil.1 hp) hq) 9 1 (by decide)

/-! ### Non-vacuity: a sparse file "s" behind a regular file "r", read through a reader that keeps the contract -/

def exNamed : List Named := [⟨exReg, ['r'], []⟩, ⟨exSparse, ['.', '/', 's'], []⟩]

example : ∃ h, openFile (whole exOpt (hdrs 0 exNamed)) 2 1 ['s'] = some (.file h h) := by
  have hmem : ∀ (P : Named → Prop), P ⟨exReg, ['r'], []⟩ → P ⟨exSparse, ['.', '/', 's'], []⟩ → ∀ y ∈ [⟨exReg, ['r'], []⟩] ++ ⟨exSparse, ['.', '/', 's'], []⟩ :: [], P y := by
    intro P h1 h2 y hy
    simp only [List.cons_append, List.nil_append, List.mem_cons, List.not_mem_nil, or_false] at hy
    rcases hy with rfl | rfl
    · exact h1
    · exact h2
  have hcl : clean ['.', '/', 's'] = ['s'] := by decide
  have hb : ¬ Beneath exOpt (hdrs 0 ([⟨exReg, ['r'], []⟩] ++ ⟨exSparse, ['.', '/', 's'], []⟩ :: [])) (split (clean ['.', '/', 's'])) := by
    rintro ⟨k, h, q, hr, hq, hs⟩
    obtain ⟨h1, h2, _⟩ := recorded_clean hr
    simp only [List.cons_append, List.nil_append, hdrs, List.mem_cons, List.not_mem_nil, or_false] at h1
    rcases h1 with rfl | rfl
    · subst h2
      rw [show split (clean ['r']) = [['r']] by decide, show split (clean ['.', '/', 's']) = [['s']] by decide] at hs
      simp at hs
    · subst h2
      rw [show split (clean ['.', '/', 's']) = [['s']] by decide] at hs
      simp at hs
      exact hq hs
  obtain ⟨h, _, _, ho, _⟩ := C101_open_partial (fun _ => exEnv) (fun _ _ => rfl) 9 exOpt [⟨exReg, ['r'], []⟩] ⟨exSparse, ['.', '/', 's'], []⟩ [] []
    (hmem _ exReg_proper exSparse_proper) (hmem _ (fun h => by cases h) (fun h => by cases h)) (hmem _ (by decide +kernel) (by decide +kernel)) (by decide)
    (fullReader _) (fullReader_fullReaderAt _) (by decide) (by decide) (by decide) (by decide) (by intro y hy; cases hy) hb 2 1 (by decide)
  simp only [hcl] at ho
  exact ⟨h, ho⟩

end Verif.Tarfs.Map
