import Verif.Synth.Added
/-
C143: what the callback of AddFS and AddFile is asked. It is asked about the entries of the source and no others, each
under its slash-separated path from the root and with its kind.
-/
namespace Verif.Synth.Tree
open Verif.Path

/-! ### Specification -/

mutual
/-- The entries of a source: their paths below its top, as lists of names, and their kinds. -/
def Src.entries : Src → List (List Str × Kind)
  | .bad => []
  | .dir _ _ kids => ([], .dir) :: Src.entriesOf kids
  | .file _ _ => [([], .file)]
  | .link _ => [([], .link)]
/-- Those of the entries of a directory. -/
def Src.entriesOf : List (Str × Src) → List (List Str × Kind)
  | [] => []
  | (k, c) :: rest => c.entries.map (fun e => (k :: e.1, e.2)) ++ Src.entriesOf rest
end

/-- Two callbacks give the same answer about the entries of `src` put at the place `ns`, whatever is found there. -/
def SameOn (ns : List Str) (src : Src) (cb cb' : AddFunc) : Prop :=
  ∀ e ∈ src.entries, ns ++ e.1 ≠ [] → ∀ found, cb (join (ns ++ e.1)) e.2 found = cb' (join (ns ++ e.1)) e.2 found

/-- The entries at the top of a source have names. -/
def Src.Named : Src → Prop
  | .dir _ _ kids => ∀ k c, (k, c) ∈ kids → IsName k
  | _ => True

/-! ### Proof -/

/-- The path the walk gives to what lies at `p` below `path`. -/
def below (path : Str) : List Str → Str
  | [] => path
  | k :: p => below (slashJoin path k) p

mutual
theorem addWalk_same {cb cb' : AddFunc} (fuel : Nat) (s : St) (d : Id) (base path : Str) : ∀ (c : Src),
    (∀ e ∈ c.entries, ∀ found, cb (below path e.1) e.2 found = cb' (below path e.1) e.2 found) →
    addWalk fuel cb s d base path c = addWalk fuel cb' s d base path c
  | .bad => fun _ => by simp only [addWalk]
  | .dir mode ok kids => fun h => by
    simp only [Src.entries, List.mem_cons, forall_eq_or_imp] at h
    have h0 := h.1 (s.existing d base)
    simp only [below] at h0
    simp only [addWalk, h0]
    have hk : ∀ s1 d1, addKids fuel cb s1 d1 path kids = addKids fuel cb' s1 d1 path kids :=
      fun s1 d1 => addKids_same fuel s1 d1 path kids h.2
    simp only [hk]
  | .link t => fun h => by
    have h0 := h ([], .link) (by simp [Src.entries]) (s.existing d base)
    simp only [below] at h0
    simp only [addWalk, h0]
  | .file m v => fun h => by
    have h0 := h ([], .file) (by simp [Src.entries]) (s.existing d base)
    simp only [below] at h0
    simp only [addWalk, h0]
theorem addKids_same {cb cb' : AddFunc} (fuel : Nat) (s : St) (d : Id) (path : Str) : ∀ (kids : List (Str × Src)),
    (∀ e ∈ Src.entriesOf kids, ∀ found, cb (below path e.1) e.2 found = cb' (below path e.1) e.2 found) →
    addKids fuel cb s d path kids = addKids fuel cb' s d path kids
  | [] => fun _ => by simp only [addKids]
  | (k, c) :: rest => fun h => by
    have h1 : addWalk fuel cb s d k (slashJoin path k) c = addWalk fuel cb' s d k (slashJoin path k) c :=
      addWalk_same fuel s d k _ c fun e he found =>
        h (k :: e.1, e.2) (by simp only [Src.entriesOf, List.mem_append, List.mem_map]; exact .inl ⟨e, he, rfl⟩) found
    have h2 : ∀ s1, addKids fuel cb s1 d path rest = addKids fuel cb' s1 d path rest := fun s1 =>
      addKids_same fuel s1 d path rest fun e he found =>
        h e (by simp only [Src.entriesOf, List.mem_append]; exact .inr he) found
    simp only [addKids, h1, h2]
end

mutual
theorem addWalk_refused {cb : AddFunc} (hs : ∀ p k f, cb p k f ≠ .ok .skip) (fuel : Nat) (s : St) (d : Id) (base path : Str) : ∀ (c : Src) (e : List Str × Kind), e ∈ c.entries →
    (∀ found, ∃ err, cb (below path e.1) e.2 found = .error err) → (addWalk fuel cb s d base path c).2 ≠ none
  | .bad, _ => fun he _ => by simp [Src.entries] at he
  | .dir mode ok kids, e => fun he h => by
    simp only [Src.entries, List.mem_cons] at he
    rcases he with rfl | he
    · obtain ⟨err, h0⟩ := h (s.existing d base)
      simp only [below] at h0
      simp [addWalk, h0]
    · have hk : ∀ s1 d1, (addKids fuel cb s1 d1 path kids).2 ≠ none := fun s1 d1 => addKids_refused hs fuel s1 d1 path kids e he h
      simp only [addWalk]
      split
      · simp
      · exact absurd (by assumption) (hs _ _ _)
      · split
        · simp
        · split
          · exact hk _ _
          · simp
      · split
        · simp
        · split
          · exact hk _ _
          · simp
  | .link t, e => fun he h => by
    simp only [Src.entries, List.mem_singleton] at he
    subst he
    obtain ⟨err, h0⟩ := h (s.existing d base)
    simp only [below] at h0
    simp [addWalk, h0]
  | .file m v, e => fun he h => by
    simp only [Src.entries, List.mem_singleton] at he
    subst he
    obtain ⟨err, h0⟩ := h (s.existing d base)
    simp only [below] at h0
    simp [addWalk, h0]
theorem addKids_refused {cb : AddFunc} (hs : ∀ p k f, cb p k f ≠ .ok .skip) (fuel : Nat) (s : St) (d : Id) (path : Str) : ∀ (kids : List (Str × Src)) (e : List Str × Kind),
    e ∈ Src.entriesOf kids → (∀ found, ∃ err, cb (below path e.1) e.2 found = .error err) → (addKids fuel cb s d path kids).2 ≠ none
  | [], _ => fun he _ => by simp [Src.entriesOf] at he
  | (k, c) :: rest, e => fun he h => by
    simp only [Src.entriesOf, List.mem_append, List.mem_map] at he
    simp only [addKids]
    rcases he with ⟨e', he', rfl⟩ | he
    · have h1 := addWalk_refused hs fuel s d k (slashJoin path k) c e' he' h
      cases hw : addWalk fuel cb s d k (slashJoin path k) c with
      | mk s1 r =>
        rw [hw] at h1
        cases r with
        | none => exact absurd rfl h1
        | some x => simp
    · cases hw : addWalk fuel cb s d k (slashJoin path k) c with
      | mk s1 r =>
        cases r with
        | none => exact addKids_refused hs fuel s1 d path rest e he h
        | some x => simp
end

theorem below_join {ns : List Str} (hne : ns ≠ []) (p : List Str) (hj : join ns ≠ dot) (hj0 : join ns ≠ []) : below (join ns) p = join (ns ++ p) := by
  induction p generalizing ns with
  | nil => simp [below]
  | cons k p ih =>
    have e : slashJoin (join ns) k = join (ns ++ [k]) := by
      rw [join_concat hne, slashJoin, if_neg (by simp [hj, hj0])]
    have hl : (join (ns ++ [k])).length ≥ 2 := by
      rw [join_concat hne]
      have : (join ns).length ≠ 0 := by simpa using hj0
      simp only [List.length_append, List.length_cons]; omega
    rw [below, e, ih (by simp) (by intro h; rw [h] at hl; simp [dot] at hl) (by intro h; rw [h] at hl; simp at hl)]
    simp

theorem below_dot {k : Str} (hk : IsName k) (p : List Str) : below dot (k :: p) = join (k :: p) := by
  have e : slashJoin dot k = join [k] := by simp [slashJoin, join]
  rw [below, e, below_join (by simp) p (by simpa [join] using hk.2.1) (by simpa [join] using hk.1.1)]
  simp

theorem clean_join {name : Str} {ns : List Str} (h : placeOf name = some ns) (hne : ns ≠ []) : clean name = join ns := by
  obtain ⟨ha, hc, _⟩ := placeOf_some h
  simp [clean, render, ha, hc, hne]

theorem mem_entriesOf {kids : List (Str × Src)} {e : List Str × Kind} (h : e ∈ Src.entriesOf kids) : ∃ k c p, (k, c) ∈ kids ∧ e.1 = k :: p := by
  induction kids with
  | nil => simp [Src.entriesOf] at h
  | cons x rest ih =>
    obtain ⟨k, c⟩ := x
    simp only [Src.entriesOf, List.mem_append, List.mem_map] at h
    rcases h with ⟨e', _, rfl⟩ | h
    · exact ⟨k, c, e'.1, by simp, rfl⟩
    · obtain ⟨k', c', p, hm, hp⟩ := ih h
      exact ⟨k', c', p, by simp [hm], hp⟩

/-! ### Theorems -/

/-- **C143** (AddFS, what is asked). In any state the callback of AddFS is asked only about entries of the source, each under the names of the place
it is put at followed by its names in the source, joined by slashes, and with its kind: callbacks that agree on these questions do the same. -/
theorem C143_addFS_asks (fuel : Nat) (s : St) (b : Id) (name : Str) (ns : List Str) (hp : placeOf name = some ns) (src : Src) (hn : ns = [] → src.Named)
    (cb cb' : AddFunc) (h : SameOn ns src cb cb') : addFS fuel cb s b name src = addFS fuel cb' s b name src := by
  unfold addFS
  rcases normalize_spec name with ⟨e', _, hno⟩ | ⟨ns', hpl', hok, hdot, _⟩
  · rw [hp] at hno; cases hno
  rw [hp] at hpl'; cases hpl'
  rw [hok]
  simp only
  by_cases h0 : ns = []
  · subst h0
    rw [if_pos (hdot.2 rfl), if_pos (hdot.2 rfl)]
    match src, hn rfl, h with
    | .dir m true kids, hn, h =>
      simp only
      refine addKids_same fuel s b dot kids fun e he found => ?_
      obtain ⟨k, c, p, hm, hek⟩ := mem_entriesOf he
      have := h e (by simp only [Src.entries, List.mem_cons]; exact .inr he) (by simp [hek]) found
      rw [hek, below_dot (hn k c hm)]
      simpa [hek] using this
    | .dir m false kids, _, _ => rfl
    | .bad, _, _ => rfl
    | .file _ _, _, _ => rfl
    | .link _, _, _ => rfl
  · have hc := clean_join hp h0
    have hd : clean name ≠ dot := fun he => h0 (hdot.1 he)
    have hj0 : join ns ≠ [] := by
      intro he
      have := clean_ne_nil name
      exact this (hc.trans he)
    rw [if_neg hd, if_neg hd]
    cases ensureParents s b name with
    | mk s1 r =>
      cases r with
      | error e => rfl
      | ok r =>
        simp only
        refine addWalk_same fuel s1 r.1 r.2 (clean name) src fun e he found => ?_
        rw [hc, below_join h0 e.1 (by rw [← hc]; exact hd) hj0]
        exact h e he (by simp [h0]) found

/-- **C143** (AddFS, none is passed over). A callback that leaves nothing out is asked about each entry of the source before AddFS succeeds: if it refuses one, AddFS fails. -/
theorem C143_addFS_refused (fuel : Nat) (s : St) (b : Id) (name : Str) (ns : List Str) (hp : placeOf name = some ns) (src : Src) (hn : ns = [] → src.Named)
    (cb : AddFunc) (hs : ∀ path kind found, cb path kind found ≠ .ok .skip) (e : List Str × Kind) (he : e ∈ src.entries) (hne : ns ++ e.1 ≠ [])
    (h : ∀ found, ∃ err, cb (join (ns ++ e.1)) e.2 found = .error err) : (addFS fuel cb s b name src).2 ≠ none := by
  unfold addFS
  rcases normalize_spec name with ⟨e', _, hno⟩ | ⟨ns', hpl', hok, hdot, _⟩
  · rw [hp] at hno; cases hno
  rw [hp] at hpl'; cases hpl'
  rw [hok]
  simp only
  by_cases h0 : ns = []
  · subst h0
    rw [if_pos (hdot.2 rfl)]
    match src, hn rfl, he with
    | .dir m true kids, hn, he =>
      simp only [Src.entries, List.mem_cons] at he
      rcases he with rfl | he
      · exact absurd rfl hne
      simp only
      obtain ⟨k, c, p, hm, hek⟩ := mem_entriesOf he
      refine addKids_refused hs fuel s b dot kids e he ?_
      rw [hek, below_dot (hn k c hm)]
      simpa [hek] using h
    | .dir m false kids, _, _ => simp
    | .bad, _, _ => simp
    | .file _ _, _, _ => simp
    | .link _, _, _ => simp
  · have hc := clean_join hp h0
    have hd : clean name ≠ dot := fun he => h0 (hdot.1 he)
    have hj0 : join ns ≠ [] := fun hj => clean_ne_nil name (hc.trans hj)
    rw [if_neg hd]
    cases ensureParents s b name with
    | mk s1 r =>
      cases r with
      | error e => simp
      | ok r =>
        simp only
        refine addWalk_refused hs fuel s1 r.1 r.2 (clean name) src e he ?_
        rw [hc, below_join h0 e.1 (by rw [← hc]; exact hd) hj0]
        exact h

/-- **C143** (AddFile, what is asked). The callback of AddFile is asked only about a file, under the names of its place joined by slashes. -/
theorem C143_addFile_asks (s : St) (b : Id) (name : Str) (ns : List Str) (hp : placeOf name = some ns) (mode view : Nat)
    (cb cb' : AddFunc) (h : ∀ found, cb (join ns) .file found = cb' (join ns) .file found) :
    addFile cb s b name mode view = addFile cb' s b name mode view := by
  unfold addFile
  by_cases h0 : ns = []
  · have he : ensureParents s b name = (s, .error .invalid) := by
      rcases normalize_spec name with ⟨e', _, hno⟩ | ⟨ns', hpl', hok, hdot, _⟩
      · rw [hp] at hno; cases hno
      rw [hp] at hpl'; cases hpl'
      simp only [ensureParents, hok]
      rw [if_pos (hdot.2 h0)]
    rw [he]
  · rw [clean_join hp h0]
    simp only [h]

/-! ### Non-vacuity -/

/-- A source with a directory, a file in it and a link beside it. -/
def exAsk : Src := .dir 0o755 true [("d".toList, .dir 0o755 true [("f".toList, .file 0o644 (some 1))]), ("l".toList, .link (some "d".toList))]

/-- A callback that takes "d", "d/f" and "l" in, and refuses all else. -/
def onlyThese : AddFunc := fun path kind _ =>
  if (path, kind) ∈ [("d".toList, Kind.dir), ("d/f".toList, Kind.file), ("l".toList, Kind.link)] then .ok .override else .error .source

/-- It does to the source at the root what one that takes all in does. -/
example : SameOn [] exAsk onlyThese (fun _ _ _ => .ok .override) ∧ exAsk.Named := by
  constructor
  · intro e he hne found
    simp only [exAsk, Src.entries, Src.entriesOf, List.map, List.append_nil, List.cons_append, List.nil_append, List.mem_cons, List.not_mem_nil, or_false] at he
    rcases he with rfl | rfl | rfl | rfl
    · exact absurd rfl hne
    · rfl
    · rfl
    · rfl
  · intro k c hm
    simp only [List.mem_cons, Prod.mk.injEq, List.not_mem_nil, or_false] at hm
    rcases hm with ⟨rfl, _⟩ | ⟨rfl, _⟩ <;> decide

/-- An entry of it. -/
example : (["d".toList, "f".toList], Kind.file) ∈ exAsk.entries := by simp [exAsk, Src.entries, Src.entriesOf]

/-- A callback that leaves nothing out and refuses "a/b/d/f". -/
example : ∃ cb : AddFunc, (∀ path kind found, cb path kind found ≠ .ok .skip) ∧
    ∀ found, ∃ err, cb (join (["a".toList, "b".toList] ++ ["d".toList, "f".toList])) .file found = .error err :=
  ⟨fun path _ _ => if path = "a/b/d/f".toList then .error .source else .ok .keep, fun path _ _ => by simp only; split <;> simp, fun _ => ⟨.source, rfl⟩⟩

example : placeOf "a/./b".toList = some ["a".toList, "b".toList] := by decide

end Verif.Synth.Tree
