import Verif.Vroot.Prefix
import Verif.Vroot.WrapProps
/-
C126: sub-filesystems, widened and read-only filesystems put on top of each other in any order. Code: /repo/vroot/funcs.go 55-78 `Sub`,
/repo/vroot/widen.go, over pathprefix.go (C40) and readonly.go (C38).
-/
namespace Verif.Vroot.SubWiden
open Verif.Path Verif.Vroot

/-! ## Model -/

/-- What a `vroot.Fs` can be here: a filesystem of somebody else, or one of the wrappers of vroot. -/
inductive Fs where
  | base
  | readOnly (x : Fs)
  | pathPrefix (x : Fs) (pre : Str)
  | widened (x : Fs)

/-- The methods of each: readonly.go 30-311, pathprefix.go 55-219, widen.go 36-126. A call answers with an error or with a file, never both:
what widen.go 54-60, 86-100 does with a file that comes with an error (it drops it) is left out. -/
def methods {σ V : Type} (w : Inner σ V) : Fs → Inner σ V
  | .base => w
  | .readOnly x => ⟨roFs (methods w x), roFile (methods w x)⟩
  | .pathPrefix x pre => ⟨fun id c s => match prefixCall pre c with | .error e => (s, .err e) | .ok c' => (methods w x).fs id c' s, (methods w x).file⟩
  | .widened x => ⟨fun id c s => (methods w x).fs id c s, fun id c s => (methods w x).file id c s⟩

/-- pathprefix.go 29-42 `NewPathPrefixFs` -/
def newPathPrefix {σ V : Type} (w : Inner σ V) (isDir : V → Bool) (x : Fs) (dir : Str) (s : σ) : σ × Option Fs :=
  match newPrefix dir with
  | none => (s, none)
  | some pre => match (methods w x).fs 0 (.stat pre) s with
    | (s', .value v) => (s', if isDir v then some (.pathPrefix x pre) else none)
    | (s', _) => (s', none)

/-- widen.go 29-34 `Widen`: as it is if the files are `File` already. -/
def widen : Fs → Fs
  | .widened x => .widened x
  | x => .widened x

/-- funcs.go 69-78 `Sub`; of the filesystems of the repository only the widened one has its own `Sub` (widen.go 139-146). -/
def sub {σ V : Type} (w : Inner σ V) (isDir : V → Bool) : Fs → Str → σ → σ × Option Fs
  | .widened x, dir, s => let r := sub w isDir x dir s; (r.1, r.2.map widen)
  | x, dir, s => newPathPrefix w isDir x dir s

/-- What a client does: with one of the filesystems it holds (by position), or one of its files. -/
inductive Op where
  | sub (i : Nat) (dir : Str)
  | widen (i : Nat)
  | readOnly (i : Nat)
  | call (i : Nat) (c : FsCall)
  | file (j : Nat) (c : FileCall)

/-- The state of the filesystem below, the filesystems held, and the files held with where they came from. -/
structure Client (σ : Type) where
  inner : σ
  held : List Fs
  files : List (Fs × Nat)

/-- One operation. -/
def step {σ V : Type} (w : Inner σ V) (isDir : V → Bool) (st : Client σ) : Op → Client σ
  | .sub i dir => match st.held[i]? with
    | none => st
    | some x => let r := sub w isDir x dir st.inner; { st with inner := r.1, held := st.held ++ r.2.toList }
  | .widen i => match st.held[i]? with
    | none => st
    | some x => { st with held := st.held ++ [widen x] }
  | .readOnly i => match st.held[i]? with
    | none => st
    | some x => { st with held := st.held ++ [.readOnly x] }
  | .call i c => match st.held[i]? with
    | none => st
    | some x => match (methods w x).fs 0 c st.inner with
      | (s', .file id) => { st with inner := s', files := st.files ++ [(x, id)] }
      | (s', _) => { st with inner := s' }
  | .file j c => match st.files[j]? with
    | none => st
    | some (x, id) => { st with inner := ((methods w x).file id c st.inner).1 }

def run {σ V : Type} (w : Inner σ V) (isDir : V → Bool) (st : Client σ) : List Op → Client σ
  | [] => st
  | o :: os => run w isDir (step w isDir st o) os

/-! ## Specification -/

/-- The filesystem does what a view of the one below at `pre` has to do: a call with names that lead out is refused without asking, removing the
whole view with `RemoveAll` too, every other call is made below with `pre` in front of its names. Files are those of the one below. -/
structure ViewAt {σ V : Type} (w : Inner σ V) (x : Fs) (pre : Str) : Prop where
  refused : ∀ c s, ((∃ n ∈ c.paths, placeOf n = none) ∨ (∃ n, c = .removeAll n ∧ placeOf n = some []) ∨ ∃ n, c = .openRoot n) →
    ∃ e, (methods w x).fs 0 c s = (s, .err e)
  passed : ∀ c s, (∀ n ∈ c.paths, placeOf n ≠ none) → (∀ n, c = .removeAll n → placeOf n ≠ some []) → (∀ n, c ≠ .openRoot n) →
    (methods w x).fs 0 c s = w.fs 0 (c.mapPaths (fun n => below pre ((placeOf n).getD []))) s
  file : ∀ id c s, (methods w x).file id c s = w.file id c s

/-- Ways to get one filesystem from another without restricting it. -/
inductive How where
  | sub (dir : Str)
  | widen

/-- Go these ways one after the other. -/
def follow {σ V : Type} (w : Inner σ V) (isDir : V → Bool) : List How → Fs → σ → σ × Option Fs
  | [], x, s => (s, some x)
  | .widen :: hs, x, s => follow w isDir hs (widen x) s
  | .sub dir :: hs, x, s => match sub w isDir x dir s with
    | (s', none) => (s', none)
    | (s', some y) => follow w isDir hs y s'

/-- The elements of the directories gone into, one after the other; none if one of them leads out of the one before. -/
def placesOf : List How → Option (List Str)
  | [] => some []
  | .widen :: hs => placesOf hs
  | .sub dir :: hs => match placeOf dir, placesOf hs with
    | some a, some b => some (a ++ b)
    | _, _ => none

/-! ## Proofs -/

theorem prefixCall_mutating {pre : Str} {c c' : FsCall} (h : prefixCall pre c = .ok c') (hm : ¬c.mutating) : ¬c'.mutating := by
  have key : ∀ p k, onPath pre p k = .ok c' → ∃ q, k q = .ok c' := by
    intro p k h
    unfold onPath at h
    split at h
    · cases h
    next q _ => exact ⟨q, h⟩
  cases c <;> simp only [prefixCall] at h <;> simp only [FsCall.mutating] at hm
  case close => cases h; exact fun h => h
  case name => cases h; exact fun h => h
  case openRoot => cases h
  case openFile n f p =>
    obtain ⟨q, h⟩ := key _ _ h
    cases h
    exact hm
  all_goals first
    | exact absurd trivial hm
    | (obtain ⟨q, h⟩ := key _ _ h; cases h; exact fun h => h)

theorem methods_reads {σ V κ : Type} {w : Inner σ V} {content : σ → κ} (h : ReadsAreReads w content) : ∀ x, ReadsAreReads (methods w x) content
  | .base => h
  | .readOnly x => ⟨fun id c s _ => roFs_content (methods_reads h x) id c s, fun id c s _ => roFile_content (methods_reads h x) id c s⟩
  | .pathPrefix x pre => by
    refine ⟨fun id c s hm => ?_, (methods_reads h x).file⟩
    simp only [methods]
    cases hp : prefixCall pre c with
    | error e => rfl
    | ok c' => exact (methods_reads h x).fs id c' s (prefixCall_mutating hp hm)
  | .widened x => ⟨(methods_reads h x).fs, (methods_reads h x).file⟩

/-- Somewhere in it is the read-only wrapper. -/
def Restricted : Fs → Prop
  | .base => False
  | .readOnly _ => True
  | .pathPrefix x _ => Restricted x
  | .widened x => Restricted x

theorem restricted_content {σ V κ : Type} {w : Inner σ V} {content : σ → κ} (h : ReadsAreReads w content) : ∀ x, Restricted x →
    (∀ id c s, content ((methods w x).fs id c s).1 = content s) ∧ ∀ id c s, content ((methods w x).file id c s).1 = content s
  | .base, hx => hx.elim
  | .readOnly x, _ => ⟨fun id c s => roFs_content (methods_reads h x) id c s, fun id c s => roFile_content (methods_reads h x) id c s⟩
  | .pathPrefix x pre, hx => by
    obtain ⟨a, b⟩ := restricted_content h x hx
    refine ⟨fun id c s => ?_, b⟩
    simp only [methods]
    split
    · rfl
    · exact a _ _ _
  | .widened x, hx => restricted_content h x hx

theorem widen_restricted {x : Fs} (h : Restricted x) : Restricted (widen x) := by
  cases x <;> exact h

theorem newPathPrefix_some {σ V : Type} {w : Inner σ V} {isDir : V → Bool} {x : Fs} {dir : Str} {s s' : σ} {y : Fs}
    (h : newPathPrefix w isDir x dir s = (s', some y)) :
    ∃ pre v, newPrefix dir = some pre ∧ y = .pathPrefix x pre ∧ (methods w x).fs 0 (.stat pre) s = (s', .value v) ∧ isDir v = true := by
  unfold newPathPrefix at h
  cases hp : newPrefix dir with
  | none => rw [hp] at h; cases h
  | some pre =>
    rw [hp] at h
    simp only at h
    split at h
    next s1 v hv =>
      injection h with h1 h2
      split at h2
      next hd => injection h2 with h2; subst h1; exact ⟨pre, v, rfl, h2.symm, hv, hd⟩
      · cases h2
    · cases h

theorem newPathPrefix_content {σ V κ : Type} {w : Inner σ V} {content : σ → κ} (h : ReadsAreReads w content) (isDir : V → Bool) (x : Fs) (dir : Str)
    (s : σ) : content (newPathPrefix w isDir x dir s).1 = content s := by
  unfold newPathPrefix
  split
  · rfl
  next pre _ =>
    have := (methods_reads h x).fs 0 (.stat pre) s (fun h => h)
    split
    next s' v hv => rw [hv] at this; exact this
    next s' r _ hv => rw [hv] at this; exact this

theorem sub_content {σ V κ : Type} {w : Inner σ V} {content : σ → κ} (h : ReadsAreReads w content) (isDir : V → Bool) : ∀ (x : Fs) (dir : Str) (s : σ),
    content (sub w isDir x dir s).1 = content s
  | .widened x, dir, s => sub_content h isDir x dir s
  | .base, dir, s => newPathPrefix_content h isDir .base dir s
  | .readOnly x, dir, s => newPathPrefix_content h isDir (.readOnly x) dir s
  | .pathPrefix x pre, dir, s => newPathPrefix_content h isDir (.pathPrefix x pre) dir s

theorem sub_restricted {σ V : Type} (w : Inner σ V) (isDir : V → Bool) : ∀ (x : Fs) (dir : Str) (s : σ) (y : Fs), Restricted x →
    (sub w isDir x dir s).2 = some y → Restricted y
  | .widened x, dir, s, y, hx, h => by
    simp only [sub, Option.map_eq_some_iff] at h
    obtain ⟨z, hz, h⟩ := h
    subst h
    exact widen_restricted (sub_restricted w isDir x dir s z hx hz)
  | .base, _, _, _, hx, _ => hx.elim
  | .readOnly x, dir, s, y, hx, h => by
    obtain ⟨pre, v, _, e, _⟩ := newPathPrefix_some (s' := (newPathPrefix w isDir (.readOnly x) dir s).1) (Prod.ext rfl h)
    subst e; exact hx
  | .pathPrefix x p, dir, s, y, hx, h => by
    obtain ⟨pre, v, _, e, _⟩ := newPathPrefix_some (s' := (newPathPrefix w isDir (.pathPrefix x p) dir s).1) (Prod.ext rfl h)
    subst e; exact hx

/-- Everything a client holds is restricted. -/
def AllRestricted {σ : Type} (st : Client σ) : Prop := (∀ x ∈ st.held, Restricted x) ∧ ∀ p ∈ st.files, Restricted p.1

theorem step_restricted {σ V κ : Type} {w : Inner σ V} {content : σ → κ} (h : ReadsAreReads w content) (isDir : V → Bool) (st : Client σ)
    (hs : AllRestricted st) (o : Op) : AllRestricted (step w isDir st o) ∧ content (step w isDir st o).inner = content st.inner := by
  cases o with
  | sub i dir =>
    simp only [step]
    split
    · exact ⟨hs, rfl⟩
    next x hx =>
      have hr := hs.1 x (List.mem_of_getElem? hx)
      refine ⟨⟨fun y hy => ?_, hs.2⟩, sub_content h isDir x dir st.inner⟩
      rcases List.mem_append.1 hy with hy | hy
      · exact hs.1 y hy
      · exact sub_restricted w isDir x dir st.inner y hr (Option.mem_toList.1 hy)
  | widen i =>
    simp only [step]
    split
    · exact ⟨hs, rfl⟩
    next x hx =>
      refine ⟨⟨fun y hy => ?_, hs.2⟩, rfl⟩
      rcases List.mem_append.1 hy with hy | hy
      · exact hs.1 y hy
      · rw [List.mem_singleton.1 hy]; exact widen_restricted (hs.1 x (List.mem_of_getElem? hx))
  | readOnly i =>
    simp only [step]
    split
    · exact ⟨hs, rfl⟩
    next x hx =>
      refine ⟨⟨fun y hy => ?_, hs.2⟩, rfl⟩
      rcases List.mem_append.1 hy with hy | hy
      · exact hs.1 y hy
      · rw [List.mem_singleton.1 hy]; exact trivial
  | call i c =>
    simp only [step]
    split
    · exact ⟨hs, rfl⟩
    next x hx =>
      have hr := hs.1 x (List.mem_of_getElem? hx)
      have hc := (restricted_content h x hr).1 0 c st.inner
      split
      next s' id he =>
        rw [he] at hc
        refine ⟨⟨hs.1, fun p hp => ?_⟩, hc⟩
        rcases List.mem_append.1 hp with hp | hp
        · exact hs.2 p hp
        · rw [List.mem_singleton.1 hp]; exact hr
      next s' r _ he =>
        rw [he] at hc
        exact ⟨hs, hc⟩
  | file j c =>
    simp only [step]
    split
    · exact ⟨hs, rfl⟩
    next x id hx => exact ⟨hs, (restricted_content h x (hs.2 (x, id) (List.mem_of_getElem? hx))).2 id c st.inner⟩

/-- **C126, read-only stays read-only.** Whoever is given a read-only filesystem, takes sub-filesystems of it, widens them, wraps them again, in any order
and to any depth, and calls whatever they like on these and on the files opened through them, changes nothing. -/
theorem C126_readonly {σ V κ : Type} (w : Inner σ V) (content : σ → κ) (h : ReadsAreReads w content) (isDir : V → Bool) (s : σ) (ops : List Op) :
    content (run w isDir ⟨s, [.readOnly .base], []⟩ ops).inner = content s := by
  have key : ∀ ops (st : Client σ), AllRestricted st → content (run w isDir st ops).inner = content st.inner := by
    intro ops
    induction ops with
    | nil => intro st _; rfl
    | cons o os ih =>
      intro st hs
      obtain ⟨a, b⟩ := step_restricted h isDir st hs o
      exact (ih _ a).trans b
  refine key ops _ ⟨fun x hx => ?_, fun p hp => by cases hp⟩
  rw [List.mem_singleton.1 hx]
  exact trivial

theorem widen_methods {σ V : Type} (w : Inner σ V) (x : Fs) : methods w (widen x) = methods w x := by
  cases x <;> rfl

theorem placeOf_names {n : Str} {ns : List Str} (h : placeOf n = some ns) : ∀ c ∈ ns, IsName c := (placeOf_some h).2.2

theorem below_clean {pre : Str} {ns : List Str} (hn : ∀ c ∈ ns, IsName c) : clean (below pre ns) = below pre ns := by
  show render (isAbs (below pre ns)) (comps (below pre ns)) = below pre ns
  unfold below
  rw [isAbs_render (below_normal pre hn), comps_render (below_normal pre hn)]

theorem below_below (pre : Str) {a b : List Str} (ha : ∀ c ∈ a, IsName c) : below (below pre a) b = below pre (a ++ b) := by
  unfold below
  rw [isAbs_render (below_normal pre ha), comps_render (below_normal pre ha), List.append_assoc]

/-- The place of a place below a directory that is itself a place. -/
theorem placeOf_below {dir : Str} {a b : List Str} (hd : placeOf dir = some a) (hb : ∀ c ∈ b, IsName c) : placeOf (below (clean dir) b) = some (a ++ b) := by
  obtain ⟨ha, hc, hn⟩ := placeOf_some hd
  rw [placeOf_iff]
  have hN := below_normal (clean dir) hb
  refine ⟨?_, ?_, ?_⟩
  · unfold below; rw [isAbs_render hN, isAbs_clean, ha]
  · unfold below; rw [comps_render hN, comps_clean, hc]
  · intro c hc
    rcases List.mem_append.1 hc with hc | hc
    · exact hn c hc
    · exact hb c hc

theorem mapPaths_paths (f : Str → Str) (c : FsCall) : (c.mapPaths f).paths = c.paths.map f := by cases c <;> rfl

theorem mapPaths_mapPaths (f g : Str → Str) (c : FsCall) : (c.mapPaths f).mapPaths g = c.mapPaths (fun n => g (f n)) := by cases c <;> rfl

theorem mapPaths_congr {f g : Str → Str} {c : FsCall} (h : ∀ n ∈ c.paths, f n = g n) : c.mapPaths f = c.mapPaths g := by
  cases c <;> simp only [FsCall.paths, List.mem_cons, List.not_mem_nil, or_false, forall_eq_or_imp, forall_eq] at h <;>
    simp only [FsCall.mapPaths, h]

theorem prefix_refused {given pre : Str} (hp : newPrefix given = some pre) {c : FsCall}
    (hc : (∃ n ∈ c.paths, placeOf n = none) ∨ (∃ n, c = .removeAll n ∧ placeOf n = some []) ∨ ∃ n, c = .openRoot n) :
    ∃ e, prefixCall pre c = .error e := by
  rcases hc with ⟨n, hn, hl⟩ | ⟨n, e, hl⟩ | ⟨n, e⟩
  · exact C40_refused given pre hp c n hn hl
  · subst e; exact ⟨_, C41_removeAll_partial given pre hp n hl⟩
  · subst e; exact ⟨_, rfl⟩

/-- The first step: a prefix over the filesystem below. -/
theorem viewAt_base {σ V : Type} (w : Inner σ V) {x : Fs} (hx : methods w x = w) {given pre : Str} (hp : newPrefix given = some pre) :
    ViewAt w (.pathPrefix x pre) pre := by
  refine ⟨fun c s hc => ?_, fun c s h1 h2 h3 => ?_, fun id c s => by simp only [methods, hx]⟩
  · obtain ⟨e, he⟩ := prefix_refused hp hc
    exact ⟨e, by simp only [methods, he]⟩
  · obtain ⟨c', hc'⟩ := C40_accepted given pre hp c h1 h3 h2
    have := (C40_forwarded given pre hp c c' hc').2
    simp only [methods, hc', hx, this]

/-- A further step: a prefix over a view. -/
theorem viewAt_sub {σ V : Type} {w : Inner σ V} {x : Fs} {pre : Str} (hx : ViewAt w x pre) {dir pre2 : Str} (hp : newPrefix dir = some pre2)
    {ns : List Str} (hd : placeOf dir = some ns) : ViewAt w (.pathPrefix x pre2) (below pre ns) := by
  have e2 : pre2 = clean dir := by
    unfold newPrefix at hp
    split at hp
    · cases hp
    · cases hp; rfl
  refine ⟨fun c s hc => ?_, fun c s h1 h2 h3 => ?_, fun id c s => by simp only [methods, hx.file]⟩
  · obtain ⟨e, he⟩ := prefix_refused hp hc
    exact ⟨e, by simp only [methods, he]⟩
  · obtain ⟨c', hc'⟩ := C40_accepted dir pre2 hp c h1 h3 h2
    have hm := (C40_forwarded dir pre2 hp c c' hc').2
    have hplace : ∀ n ∈ c.paths, ∃ b, placeOf n = some b ∧ placeOf (below pre2 ((placeOf n).getD [])) = some (ns ++ b) := by
      intro n hn
      cases hb : placeOf n with
      | none => exact absurd hb (h1 n hn)
      | some b => exact ⟨b, rfl, by rw [e2]; exact placeOf_below hd (placeOf_names hb)⟩
    simp only [methods, hc', hm]
    rw [hx.passed _ s]
    · rw [mapPaths_mapPaths]
      congr 1
      refine mapPaths_congr fun n hn => ?_
      obtain ⟨b, hb, hb2⟩ := hplace n hn
      rw [hb2, hb]
      exact (below_below pre (placeOf_names hd)).symm
    · intro n hn
      rw [mapPaths_paths] at hn
      obtain ⟨m, hm, e⟩ := List.mem_map.1 hn
      obtain ⟨b, _, hb2⟩ := hplace m hm
      rw [← e, hb2]
      exact fun h => by cases h
    · intro n hn
      cases c <;> simp only [FsCall.mapPaths] at hn <;> try (cases hn; done)
      case removeAll m =>
        injection hn with hn
        obtain ⟨b, hb, hb2⟩ := hplace m List.mem_cons_self
        rw [← hn, hb2]
        intro h
        injection h with h
        have := (List.append_eq_nil_iff.1 h).2
        subst this
        exact h2 m rfl hb
    · intro n hn
      cases c <;> simp only [FsCall.mapPaths] at hn <;> try (cases hn; done)
      case openRoot m => exact h3 m rfl

theorem viewAt_methods {σ V : Type} {w : Inner σ V} {x y : Fs} {pre : Str} (h : methods w y = methods w x) (hx : ViewAt w x pre) : ViewAt w y pre :=
  ⟨by rw [h]; exact hx.refused, by rw [h]; exact hx.passed, by rw [h]; exact hx.file⟩

/-- `Sub` of anything is a prefix over something with the same methods, whose directory `Stat` has found. -/
theorem sub_some {σ V : Type} (w : Inner σ V) (isDir : V → Bool) : ∀ (x : Fs) (dir : Str) (s s' : σ) (y : Fs), sub w isDir x dir s = (s', some y) →
    ∃ z pre v, methods w z = methods w x ∧ newPrefix dir = some pre ∧ methods w y = methods w (.pathPrefix z pre) ∧
      (methods w x).fs 0 (.stat pre) s = (s', .value v) ∧ isDir v = true
  | .widened x, dir, s, s', y, h => by
    simp only [sub, Prod.mk.injEq, Option.map_eq_some_iff] at h
    obtain ⟨h1, y', h2, h3⟩ := h
    obtain ⟨z, pre, v, a, b, c, d, e⟩ := sub_some w isDir x dir s s' y' (Prod.ext h1 h2)
    subst h3
    exact ⟨z, pre, v, a, b, by rw [widen_methods]; exact c, d, e⟩
  | .base, dir, s, s', y, h => by
    obtain ⟨pre, v, a, b, c, d⟩ := newPathPrefix_some h
    exact ⟨.base, pre, v, rfl, a, by rw [b], c, d⟩
  | .readOnly x, dir, s, s', y, h => by
    obtain ⟨pre, v, a, b, c, d⟩ := newPathPrefix_some h
    exact ⟨.readOnly x, pre, v, rfl, a, by rw [b], c, d⟩
  | .pathPrefix x p, dir, s, s', y, h => by
    obtain ⟨pre, v, a, b, c, d⟩ := newPathPrefix_some h
    exact ⟨.pathPrefix x p, pre, v, rfl, a, by rw [b], c, d⟩

theorem methods_prefix {σ V : Type} {w : Inner σ V} {z x : Fs} (h : methods w z = methods w x) (pre : Str) :
    methods w (.pathPrefix z pre) = methods w (.pathPrefix x pre) := by simp only [methods, h]

theorem follow_view {σ V : Type} (w : Inner σ V) (isDir : V → Bool) : ∀ (hs : List How) (x : Fs) (pre : Str) (s s' : σ) (y : Fs), ViewAt w x pre →
    clean pre = pre → follow w isDir hs x s = (s', some y) → ∃ ns, placesOf hs = some ns ∧ ViewAt w y (below pre ns)
  | [], x, pre, s, s', y, hx, hcl, h => by
    simp only [follow, Prod.mk.injEq, Option.some.injEq] at h
    rw [← h.2]
    refine ⟨[], rfl, ?_⟩
    rw [show below pre [] = pre from by unfold below; rw [List.append_nil]; exact hcl]
    exact hx
  | .widen :: hs, x, pre, s, s', y, hx, hcl, h => follow_view w isDir hs (widen x) pre s s' y (viewAt_methods (widen_methods w x) hx) hcl h
  | .sub dir :: hs, x, pre, s, s', y, hx, hcl, h => by
    simp only [follow] at h
    split at h
    · cases h
    next s1 x1 h1 =>
      obtain ⟨z, pre2, v, hz, hp, hy, hst, hd⟩ := sub_some w isDir x dir s s1 x1 h1
      have e2 : pre2 = clean dir := by
        unfold newPrefix at hp
        split at hp
        · cases hp
        · cases hp; rfl
      cases hpl : placeOf dir with
      | none =>
        obtain ⟨e, he⟩ := hx.refused (.stat pre2) s (.inl ⟨pre2, List.mem_cons_self, by rw [e2, placeOf_clean]; exact hpl⟩)
        rw [he] at hst
        cases hst
      | some a =>
        have hv := viewAt_methods (hy.trans (methods_prefix hz pre2)) (viewAt_sub hx hp hpl)
        obtain ⟨b, hb, hfin⟩ := follow_view w isDir hs x1 (below pre a) s1 s' y hv (below_clean (placeOf_names hpl)) h
        refine ⟨a ++ b, by simp only [placesOf, hpl, hb], ?_⟩
        rw [← below_below pre (placeOf_names hpl)]
        exact hfin

/-- **C126, sub-filesystems of sub-filesystems.** A sub-filesystem, then any number of sub-filesystems of it and widenings in any order: the result is the view
of the filesystem below at the first directory with the places of all the others behind it. Each of these directories lies inside the one before. -/
theorem C126_sub {σ V : Type} (w : Inner σ V) (isDir : V → Bool) (dir : Str) (hs : List How) (s s' : σ) (y : Fs)
    (h : follow w isDir (.sub dir :: hs) .base s = (s', some y)) : dir ≠ [] ∧ ∃ ns, placesOf hs = some ns ∧ ViewAt w y (below (clean dir) ns) := by
  simp only [follow] at h
  split at h
  · cases h
  next s1 x1 h1 =>
    obtain ⟨z, pre, v, hz, hp, hy, hst, hd⟩ := sub_some w isDir .base dir s s1 x1 h1
    have e2 : dir ≠ [] ∧ pre = clean dir := by
      unfold newPrefix at hp
      split at hp
      · cases hp
      next hne => cases hp; exact ⟨hne, rfl⟩
    refine ⟨e2.1, ?_⟩
    rw [← e2.2]
    exact follow_view w isDir hs x1 pre s1 s' y (viewAt_methods hy (viewAt_base w hz hp)) (by rw [e2.2]; exact clean_clean _) h

/-- **C126, only directories.** `Sub` gives a filesystem exactly when the name is not empty and `Stat` of it, asked of the filesystem given, says it is a directory. -/
theorem C126_sub_checks {σ V : Type} (w : Inner σ V) (isDir : V → Bool) : ∀ (x : Fs) (dir : Str) (s : σ),
    (∃ y, (sub w isDir x dir s).2 = some y) ↔ dir ≠ [] ∧ ∃ v, ((methods w x).fs 0 (.stat (clean dir)) s).2 = .value v ∧ isDir v = true := by
  have key : ∀ (x : Fs) (dir : Str) (s : σ), (∃ y, (newPathPrefix w isDir x dir s).2 = some y) ↔
      dir ≠ [] ∧ ∃ v, ((methods w x).fs 0 (.stat (clean dir)) s).2 = .value v ∧ isDir v = true := by
    intro x dir s
    unfold newPathPrefix newPrefix
    by_cases hd : dir = []
    · simp [hd]
    · rw [if_neg hd]
      simp only
      constructor
      · rintro ⟨y, h⟩
        refine ⟨hd, ?_⟩
        split at h
        next s1 v hv =>
          rw [hv]
          simp only at h
          split at h
          next hd => exact ⟨v, rfl, hd⟩
          · cases h
        · cases h
      · rintro ⟨_, v, hv, hdir⟩
        have : (methods w x).fs 0 (.stat (clean dir)) s = (((methods w x).fs 0 (.stat (clean dir)) s).1, .value v) := Prod.ext rfl hv
        rw [this]
        simp only [hdir, if_true]
        exact ⟨_, rfl⟩
  intro x
  induction x with
  | base => exact key .base
  | readOnly x _ => exact key (.readOnly x)
  | pathPrefix x p _ => exact key (.pathPrefix x p)
  | widened x ih =>
    intro dir s
    refine Iff.trans ?_ (ih dir s)
    simp only [sub, Option.map_eq_some_iff]
    exact ⟨fun ⟨_, z, hz, _⟩ => ⟨z, hz⟩, fun ⟨z, hz⟩ => ⟨_, z, hz, rfl⟩⟩

/-! ## Concrete cases -/

/-- A filesystem in which everything is a directory; the state is the list of calls it has seen. -/
def seen : Inner (List FsCall) Unit where
  fs := fun _ c s => (s ++ [c], match c with | .open_ _ => .file 0 | _ => .value ())
  file := fun _ _ s => (s, .ok)

/-- "a/", widened, then "b/../c": a file is removed at "a/c/x", and "b" cannot be left. -/
example : ∃ s y, follow seen (fun _ => true) [.sub ['a', '/'], .widen, .sub ['b', '/', '.', '.', '/', 'c']] .base [] = (s, some y) ∧
    s = [.stat ['a'], .stat ['a', '/', 'c']] ∧ ((methods seen y).fs 0 (.remove ['x']) []).1 = [.remove ['a', '/', 'c', '/', 'x']] ∧
    ((methods seen y).fs 0 (.remove ['.', '.', '/', 'x']) []).1 = [] := ⟨_, _, rfl, by decide, by decide, by decide⟩

/-- Leading out of the first directory is refused when the second is asked for. -/
example : (follow seen (fun _ => true) [.sub ['a'], .sub ['.', '.']] .base []).2.isNone = true := by decide

/-- The file of 5 bytes of `toy` (its reads are reads, see there): a sub-filesystem of a read-only one, widened; the file is opened through it and written to,
then removed. It keeps its 5 bytes. Without the read-only wrapper it would have 8, then 0. -/
example : (run toy (fun _ => true) ⟨5, [.readOnly .base], []⟩ [.sub 0 ['a'], .widen 1, .call 2 (.open_ ['f']), .file 0 (.write [1, 2, 3]), .call 2 (.remove ['f'])]).inner = 5 ∧
    (run toy (fun _ => true) ⟨5, [.base], []⟩ [.sub 0 ['a'], .widen 1, .call 2 (.open_ ['f']), .file 0 (.write [1, 2, 3])]).inner = 8 := by decide

end Verif.Vroot.SubWiden
