import Verif.Afero.CopyModel
import Verif.Afero.ValidPath
/-
C98: filling the afero filesystem from another one.
-/
namespace Verif.Afero
open Verif.Path

/-! ### Specification -/

/-- What is in the source below a name. -/
def SrcEnts.find : SrcEnts → Str → Option Src
  | .nil, _ => none
  | .cons a n rest, c => if a = c then some n else rest.find c

def Src.at : Src → List Str → Option Src
  | n, [] => some n
  | .file _ _, _ :: _ => none
  | .dir _ es, c :: p => match es.find c with
    | none => none
    | some k => k.at p

def SrcEnts.names : SrcEnts → List Str
  | .nil => []
  | .cons a _ rest => a :: rest.names

mutual
/-- What a filesystem can contain: proper names, and none twice in a directory. -/
def Src.WF : Src → Prop
  | .file _ _ => True
  | .dir _ es => es.WF
def SrcEnts.WF : SrcEnts → Prop
  | .nil => True
  | .cons a n rest => IsName a ∧ a ∉ rest.names ∧ n.WF ∧ rest.WF
end

/-- The effect of files being put at places, one after the other: the last one put at a place, or above it, counts; nothing else changes, except that
directories on the way appear. -/
structure Filled (e : Env) (S S' : St) (adds : List (View × List Str)) : Prop where
  /-- a file is there, unless a later one was put there or above -/
  there : ∀ pre v p post, adds = pre ++ (v, p) :: post → (∀ x ∈ post, ¬ x.2 <+: p) → S'.root.shows p = some (.file v.mode v.id)
  /-- what was not at or below such a place is as it was -/
  kept : ∀ q i, (∀ x ∈ adds, ¬ x.2 <+: q) → S.root.shows q = some i → S'.root.shows q = some i
  /-- and where nothing was nothing is, or a directory on the way to a file -/
  new : ∀ q, (∀ x ∈ adds, ¬ x.2 <+: q) → S.root.shows q = none → S'.root.shows q = none ∨
    ((∃ x ∈ adds, q <+: x.2) ∧ ∃ md, S'.root.shows q = some (.dir md) ∧ ∀ i, md.testBit i = masked e.umask 0o777 i)

/-! ### MapFsIter -/

theorem Filled.nil (e : Env) (S : St) : Filled e S S [] := by
  refine ⟨?_, fun q i _ h => h, fun q _ h => Or.inl h⟩
  intro pre v p post h
  cases pre <;> cases h

/-- The last step. -/
theorem Filled.snoc {e : Env} {S S1 S2 : St} {adds : List (View × List Str)} (h : Filled e S S1 adds) {v : View} {path : Str} (hd : path ≠ dot)
    (hok : addFileCall e S1 path v = (S2, .ok ())) : Filled e S S2 (adds ++ [(v, place path)]) := by
  have hv : validate e path = none := by
    cases hx : validate e path with
    | none => rfl
    | some er => unfold addFileCall at hok; rw [hx] at hok; cases hok
  obtain ⟨_, _, a1, _, _, a4, a5, _, _⟩ := C90_addFile_partial e S1 S2 path v ((C86_valid e path).1 hv) hd hok
  refine ⟨?_, ?_, ?_⟩
  · intro pre w p post he hpost
    rcases List.eq_nil_or_concat post with rfl | ⟨post', x, rfl⟩
    · have := List.append_inj' he rfl
      obtain ⟨h1, h2⟩ := this
      cases h2
      exact a1
    · rw [List.concat_eq_append] at he hpost
      have he' : adds ++ [(v, place path)] = (pre ++ (w, p) :: post') ++ [x] := by simpa using he
      obtain ⟨h1, h2⟩ := List.append_inj' he' rfl
      cases h2
      refine a4 p _ (hpost (v, place path) (by simp)) (h.there pre w p post' h1 fun y hy => hpost y (by simp [hy]))
  · intro q i hq hs
    exact a4 q i (hq (v, place path) (by simp)) (h.kept q i (fun x hx => hq x (by simp [hx])) hs)
  · intro q hq hs
    have hnot := hq (v, place path) (by simp)
    rcases h.new q (fun x hx => hq x (by simp [hx])) hs with h' | ⟨⟨x, hx, hp⟩, md, hmd, hb⟩
    · rcases a5 q hnot h' with h'' | ⟨hp, h''⟩
      · exact Or.inl h''
      · exact Or.inr ⟨⟨(v, place path), by simp, hp⟩, h''⟩
    · exact Or.inr ⟨⟨x, by simp [hx], hp⟩, md, a4 q _ hnot hmd, hb⟩

/-- The places that pairs mean. -/
def addsOf : List (Option View × Str) → List (View × List Str)
  | [] => []
  | (none, _) :: rest => addsOf rest
  | (some v, dst) :: rest => (v, place dst) :: addsOf rest

theorem mapFs_filled (e : Env) (S0 : St) : ∀ (pairs : List (Option View × Str)) (done : List (View × List Str)) (S S' : St),
    (∀ x ∈ pairs, x.2 ≠ dot) → Filled e S0 S done → mapFs e S pairs = (S', .ok ()) →
    (∀ x ∈ pairs, x.1 ≠ none) ∧ Filled e S0 S' (done ++ addsOf pairs) := by
  intro pairs
  induction pairs with
  | nil => intro done S S' _ hf h; cases h; exact ⟨by simp, by simpa [addsOf] using hf⟩
  | cons x pairs ih =>
    intro done S S' hd hf h
    obtain ⟨v, dst⟩ := x
    cases v with
    | none => cases h
    | some v =>
      rw [mapFs] at h
      cases hx : addFileCall e S dst v with
      | mk S1 r =>
        rw [hx] at h
        cases r with
        | error er => cases h
        | ok u =>
          obtain ⟨g1, g2⟩ := ih (done ++ [(v, place dst)]) S1 S' (fun y hy => hd y (List.mem_cons_of_mem _ hy))
            (hf.snoc (hd _ List.mem_cons_self) hx) h
          refine ⟨?_, by simpa [addsOf] using g2⟩
          intro y hy
          rcases List.mem_cons.1 hy with rfl | hy
          · simp
          · exact g1 y hy

/-- **C98** (MapFsIter). If it succeeds, every source could be referred to and the files have been put at their names, one after the other. -/
theorem C98_map_partial (e : Env) (S S' : St) (pairs : List (Option View × Str)) (hd : ∀ x ∈ pairs, x.2 ≠ dot) (h : mapFs e S pairs = (S', .ok ())) :
    (∀ x ∈ pairs, x.1 ≠ none) ∧ Filled e S S' (addsOf pairs) := by
  have := mapFs_filled e S pairs [] S S' hd (Filled.nil e S) h
  simpa using this

/-- **C98** (MapFsIter). If it fails, the pairs before the one it failed at have been added and stay; AddFile of that one failed, or its source could not be
referred to. -/
theorem C98_map_fails (e : Env) : ∀ (pairs : List (Option View × Str)) (S S' : St) (er : CopyErr), mapFs e S pairs = (S', .error er) →
    ∃ pre v dst post S1, pairs = pre ++ (v, dst) :: post ∧ mapFs e S pre = (S1, .ok ()) ∧
      ((v = none ∧ er = .source ∧ S' = S1) ∨ ∃ w ae, v = some w ∧ er = .add ae ∧ addFileCall e S1 dst w = (S', .error ae)) := by
  intro pairs
  induction pairs with
  | nil => intro S S' er h; cases h
  | cons x pairs ih =>
    intro S S' er h
    obtain ⟨v, dst⟩ := x
    cases v with
    | none => cases h; exact ⟨[], none, dst, pairs, S, rfl, rfl, Or.inl ⟨rfl, rfl, rfl⟩⟩
    | some v =>
      rw [mapFs] at h
      cases hx : addFileCall e S dst v with
      | mk S1 r =>
        rw [hx] at h
        cases r with
        | error ae => cases h; exact ⟨[], some v, dst, pairs, S, rfl, rfl, Or.inr ⟨v, ae, rfl, rfl, hx⟩⟩
        | ok u =>
          obtain ⟨pre, w, d, post, S2, g1, g2, g3⟩ := ih S1 S' er h
          refine ⟨(some v, dst) :: pre, w, d, post, S2, by rw [g1]; rfl, ?_, g3⟩
          rw [mapFs, hx]
          exact g2

/-! ### Copy is MapFsIter of the regular files -/

mutual
/-- The regular files below `at_`, with the places they get. -/
def Src.pairs (srcRoot dstRoot path : Str) : Src → List (Option View × Str)
  | .file regular view => if path = srcRoot then [] else if !regular then [] else [(view, copyName srcRoot dstRoot path)]
  | .dir _ es => es.pairs srcRoot dstRoot path
def SrcEnts.pairs (srcRoot dstRoot path : Str) : SrcEnts → List (Option View × Str)
  | .nil => []
  | .cons a n rest => n.pairs srcRoot dstRoot (join2 path a) ++ rest.pairs srcRoot dstRoot path
end

theorem mapFs_append (e : Env) : ∀ (a b : List (Option View × Str)) (S : St), mapFs e S (a ++ b) = match mapFs e S a with
    | (S1, .error er) => (S1, .error er)
    | (S1, .ok _) => mapFs e S1 b := by
  intro a b
  induction a with
  | nil => intro S; rfl
  | cons x a ih =>
    intro S
    obtain ⟨v, dst⟩ := x
    cases v with
    | none => rfl
    | some v =>
      rw [List.cons_append, mapFs, mapFs]
      cases addFileCall e S dst v with
      | mk S1 r => cases r with
        | error er => rfl
        | ok u => exact ih S1

mutual
theorem Src.copy_eq (e : Env) (srcRoot dstRoot : Str) : ∀ (n : Src) (path : Str) (S S' : St), n.copy e srcRoot dstRoot path S = (S', .ok ()) →
    mapFs e S (n.pairs srcRoot dstRoot path) = (S', .ok ())
  | .file regular view, path, S, S', h => by
    rw [Src.copy.eq_def] at h
    rw [Src.pairs]
    simp only at h
    split
    · rename_i hx; rw [if_pos hx] at h; exact h
    · rename_i hx
      rw [if_neg hx] at h
      split
      · rename_i hy; rw [if_pos hy] at h; exact h
      · rename_i hy
        rw [if_neg hy] at h
        cases view with
        | none => cases h
        | some v =>
          simp only at h
          rw [mapFs]
          cases hz : addFileCall e S (copyName srcRoot dstRoot path) v with
          | mk S1 r =>
            rw [hz] at h
            cases r with
            | error er => cases h
            | ok u => exact h
  | .dir listable es, path, S, S', h => by
    rw [Src.copy] at h
    rw [Src.pairs]
    split at h
    · cases h
    · exact SrcEnts.copy_eq e srcRoot dstRoot es path S S' h

theorem SrcEnts.copy_eq (e : Env) (srcRoot dstRoot : Str) : ∀ (es : SrcEnts) (path : Str) (S S' : St), es.copy e srcRoot dstRoot path S = (S', .ok ()) →
    mapFs e S (es.pairs srcRoot dstRoot path) = (S', .ok ())
  | .nil, path, S, S', h => by rw [SrcEnts.copy] at h; rw [SrcEnts.pairs]; exact h
  | .cons a n rest, path, S, S', h => by
    rw [SrcEnts.copy] at h
    rw [SrcEnts.pairs, mapFs_append]
    cases hx : n.copy e srcRoot dstRoot (join2 path a) S with
    | mk S1 r =>
      rw [hx] at h
      cases r with
      | error er => cases h
      | ok u =>
        rw [Src.copy_eq e srcRoot dstRoot n _ S S1 hx]
        exact SrcEnts.copy_eq e srcRoot dstRoot rest path S1 S' h
end

/-! ### Names -/

/-- The name of a place. -/
def nameOf (p : List Str) : Str := render false p

theorem nameOf_place {utf8 : Str → Bool} {name : Str} (h : GoodName utf8 name) : nameOf (place name) = name ∧ ∀ c ∈ place name, IsName c := by
  unfold place nameOf
  obtain ⟨_, h | h, _⟩ := h
  · rw [if_pos h, h]; exact ⟨rfl, by simp⟩
  · by_cases hd : name = dot
    · rw [if_pos hd, hd]; exact ⟨rfl, by simp⟩
    · rw [if_neg hd]
      refine ⟨?_, fun c hc => ⟨⟨(h c hc).1, split_no_slash name c hc⟩, (h c hc).2.1, (h c hc).2.2⟩⟩
      unfold render
      simp only [Bool.false_eq_true, if_false, if_neg (split_ne_nil name), join_split]

theorem place_nameOf {p : List Str} (h : ∀ c ∈ p, IsName c) : place (nameOf p) = p := by
  unfold place nameOf render
  simp only [Bool.false_eq_true, if_false]
  by_cases hp : p = []
  · rw [if_pos hp, if_pos rfl, hp]
  · rw [if_neg hp]
    have hs : split (join p) = p := split_join hp fun c hc => (h c hc).1.2
    rw [if_neg, hs]
    intro hd
    rw [hd] at hs
    exact (h dot (by rw [← hs]; decide)).2.1 rfl

theorem nameOf_ne_nil {p : List Str} (h : ∀ c ∈ p, IsName c) : nameOf p ≠ [] := by
  unfold nameOf render
  simp only [Bool.false_eq_true, if_false]
  split
  · decide
  · exact join_ne_nil (fun c hc => (h c hc).1) (by assumption)

theorem comps_nameOf {p : List Str} (h : ∀ c ∈ p, IsName c) : comps (nameOf p) = p := comps_render (.names h)
theorem isAbs_nameOf {p : List Str} (h : ∀ c ∈ p, IsName c) : isAbs (nameOf p) = false := isAbs_render (.names h)

theorem join2_nameOf {p : List Str} {x : Str} (h : ∀ c ∈ p, IsName c) (hx : IsName x) : join2 (nameOf p) x = nameOf (p ++ [x]) := by
  rw [join2_name (nameOf_ne_nil h) hx, isAbs_nameOf h, comps_nameOf h]
  rfl

theorem join_append {a b : List Str} (ha : a ≠ []) (hb : b ≠ []) : join (a ++ b) = join a ++ slash :: join b := by
  induction a with
  | nil => exact absurd rfl ha
  | cons x a ih =>
    cases a with
    | nil =>
      cases b with
      | nil => exact absurd rfl hb
      | cons y b => rfl
    | cons y a =>
      have := ih (by simp)
      show x ++ slash :: join ((y :: a) ++ b) = (x ++ slash :: join (y :: a)) ++ slash :: join b
      rw [this]
      simp

/-- The name that a file of the source gets is that of its place below the destination. -/
theorem copyName_eq {s d q : List Str} (hs : ∀ c ∈ s, IsName c) (hd : ∀ c ∈ d, IsName c) (hq : ∀ c ∈ q, IsName c) (hne : q ≠ []) :
    copyName (nameOf s) (nameOf d) (nameOf (s ++ q)) = nameOf (d ++ q) := by
  have hj : (if nameOf s ≠ dot then (cutPrefix (nameOf (s ++ q)) (nameOf s ++ [slash])).getD (nameOf (s ++ q)) else nameOf (s ++ q)) = join q := by
    by_cases h0 : s = []
    · subst h0
      rw [if_neg (by simp [nameOf, render])]
      unfold nameOf render
      simp [hne]
    · have h1 : nameOf s = join s := by unfold nameOf render; simp [h0]
      have h2 : nameOf (s ++ q) = join s ++ slash :: join q := by
        unfold nameOf render; simp [h0]; exact join_append h0 hne
      have h3 : nameOf s ≠ dot := by
        intro h
        have h4 := place_nameOf hs
        rw [h] at h4
        exact h0 (by rw [← h4]; rfl)
      rw [if_pos h3, h2, h1]
      unfold cutPrefix
      rw [if_pos (by rw [List.isPrefixOf_iff_prefix]; exact ⟨join q, by simp⟩)]
      simp
  unfold copyName
  rw [hj]
  have hqn : nameOf q = join q := by unfold nameOf render; simp [hne]
  have hjn : join q ≠ [] := join_ne_nil (fun c hc => (hq c hc).1) hne
  unfold join2
  rw [if_neg (by rintro ⟨_, h⟩; exact hjn h), if_neg (nameOf_ne_nil hd), if_neg hjn]
  unfold clean
  have h1 : comps (join q) = q := by rw [← hqn]; exact comps_nameOf hq
  have h2 : isAbs (join q) = false := by rw [← hqn]; exact isAbs_nameOf hq
  rw [comps_join _ _ (nameOf_ne_nil hd) (by rw [h1]; exact hq) h2, h1, comps_nameOf hd, isAbs_append (nameOf_ne_nil hd), isAbs_nameOf hd]
  rfl

mutual
/-- The regular files, with where they are, below a file or directory that is at `q`. -/
def Src.regs (q : List Str) : Src → List (Option View × List Str)
  | .file regular view => if q = [] then [] else if !regular then [] else [(view, q)]
  | .dir _ es => es.regs q
def SrcEnts.regs (q : List Str) : SrcEnts → List (Option View × List Str)
  | .nil => []
  | .cons a n rest => n.regs (q ++ [a]) ++ rest.regs q
end

theorem names_snoc {p : List Str} {x : Str} (h : ∀ c ∈ p, IsName c) (hx : IsName x) : ∀ c ∈ p ++ [x], IsName c := by
  intro c hc
  rcases List.mem_append.1 hc with hc | hc
  · exact h c hc
  · simp at hc; rw [hc]; exact hx

theorem names_append {p q : List Str} (h : ∀ c ∈ p, IsName c) (hq : ∀ c ∈ q, IsName c) : ∀ c ∈ p ++ q, IsName c := by
  intro c hc
  rcases List.mem_append.1 hc with hc | hc
  · exact h c hc
  · exact hq c hc

mutual
theorem Src.pairs_eq {s d : List Str} (hs : ∀ c ∈ s, IsName c) (hd : ∀ c ∈ d, IsName c) : ∀ (n : Src) (q : List Str), n.WF → (∀ c ∈ q, IsName c) →
    n.pairs (nameOf s) (nameOf d) (nameOf (s ++ q)) = (n.regs q).map fun x => (x.1, nameOf (d ++ x.2))
  | .file regular view, q, _, hq => by
    rw [Src.pairs, Src.regs]
    by_cases h0 : q = []
    · rw [if_pos h0, if_pos (by rw [h0, List.append_nil])]; rfl
    · rw [if_neg h0, if_neg (by
        intro h
        have := congrArg place h
        rw [place_nameOf hs, place_nameOf (names_append hs hq)] at this
        exact h0 (List.append_cancel_left (this.trans (List.append_nil s).symm)))]
      split
      · rfl
      · rw [copyName_eq hs hd hq h0]; rfl
  | .dir l es, q, hw, hq => by
    rw [Src.pairs, Src.regs]
    exact SrcEnts.pairs_eq hs hd es q (by rw [Src.WF] at hw; exact hw) hq

theorem SrcEnts.pairs_eq {s d : List Str} (hs : ∀ c ∈ s, IsName c) (hd : ∀ c ∈ d, IsName c) : ∀ (es : SrcEnts) (q : List Str), es.WF → (∀ c ∈ q, IsName c) →
    es.pairs (nameOf s) (nameOf d) (nameOf (s ++ q)) = (es.regs q).map fun x => (x.1, nameOf (d ++ x.2))
  | .nil, q, _, _ => by rw [SrcEnts.pairs, SrcEnts.regs]; rfl
  | .cons a n rest, q, hw, hq => by
    rw [SrcEnts.WF] at hw
    obtain ⟨h1, _, h2, h3⟩ := hw
    rw [SrcEnts.pairs, SrcEnts.regs, List.map_append, join2_nameOf (names_append hs hq) h1, List.append_assoc, Src.pairs_eq hs hd n _ h2 (names_snoc hq h1),
      SrcEnts.pairs_eq hs hd rest q h3 hq]
end

theorem SrcEnts.find_names {es : SrcEnts} {c : Str} {n : Src} (h : es.find c = some n) : c ∈ es.names := by
  match es with
  | .nil => cases h
  | .cons a k rest =>
    rw [SrcEnts.find] at h
    rw [SrcEnts.names]
    by_cases ha : a = c
    · rw [ha]; exact List.mem_cons_self
    · rw [if_neg ha] at h
      exact List.mem_cons_of_mem _ (SrcEnts.find_names h)

mutual
/-- The files listed are those that are there. -/
theorem Src.regs_iff : ∀ (n : Src) (q : List Str) (w : Option View) (p : List Str), n.WF →
    ((w, p) ∈ n.regs q ↔ p ≠ [] ∧ ∃ r, p = q ++ r ∧ n.at r = some (.file true w))
  | .file regular view, q, w, p, _ => by
    rw [Src.regs]
    constructor
    · intro h
      split at h
      · cases h
      · rename_i h0
        split at h
        · cases h
        · rename_i hr
          simp only [List.mem_singleton, Prod.mk.injEq] at h
          obtain ⟨rfl, rfl⟩ := h
          refine ⟨h0, [], by simp, ?_⟩
          cases regular with
          | true => rfl
          | false => exact absurd rfl hr
    · rintro ⟨h0, r, rfl, h⟩
      cases r with
      | cons c r => cases h
      | nil =>
        rw [Src.at] at h
        cases h
        rw [List.append_nil] at h0 ⊢
        rw [if_neg h0]
        simp
  | .dir l es, q, w, p, hw => by
    rw [Src.regs]
    rw [SrcEnts.regs_iff es q w p (by rw [Src.WF] at hw; exact hw)]
    constructor
    · rintro ⟨h0, c, r, k, h1, h2, h3⟩
      exact ⟨h0, c :: r, h1, by rw [Src.at, h2]; exact h3⟩
    · rintro ⟨h0, r, h1, h2⟩
      cases r with
      | nil => cases h2
      | cons c r =>
        rw [Src.at] at h2
        cases hf : es.find c with
        | none => rw [hf] at h2; cases h2
        | some k => rw [hf] at h2; exact ⟨h0, c, r, k, h1, hf, h2⟩

theorem SrcEnts.regs_iff : ∀ (es : SrcEnts) (q : List Str) (w : Option View) (p : List Str), es.WF →
    ((w, p) ∈ es.regs q ↔ p ≠ [] ∧ ∃ c r k, p = q ++ c :: r ∧ es.find c = some k ∧ k.at r = some (.file true w))
  | .nil, q, w, p, _ => by
    rw [SrcEnts.regs]
    constructor
    · intro h; cases h
    · rintro ⟨_, c, r, k, _, h, _⟩; cases h
  | .cons a n rest, q, w, p, hw => by
    rw [SrcEnts.WF] at hw
    obtain ⟨_, ha, h2, h3⟩ := hw
    rw [SrcEnts.regs, List.mem_append, Src.regs_iff n _ w p h2, SrcEnts.regs_iff rest q w p h3]
    constructor
    · rintro (⟨h0, r, h1, h4⟩ | ⟨h0, c, r, k, h1, h4, h5⟩)
      · exact ⟨h0, a, r, n, by rw [h1]; simp, by rw [SrcEnts.find, if_pos rfl], h4⟩
      · refine ⟨h0, c, r, k, h1, ?_, h5⟩
        rw [SrcEnts.find, if_neg]
        · exact h4
        · rintro rfl; exact ha (SrcEnts.find_names h4)
    · rintro ⟨h0, c, r, k, h1, h4, h5⟩
      rw [SrcEnts.find] at h4
      by_cases hc : a = c
      · rw [if_pos hc] at h4
        cases h4
        exact Or.inl ⟨h0, r, by rw [h1, hc]; simp, h5⟩
      · rw [if_neg hc] at h4
        exact Or.inr ⟨h0, c, r, k, h1, h4, h5⟩
end

/-- No file of the source is above another. -/
theorem at_prefix : ∀ (p r : List Str) (n : Src) (b : Bool) (w : Option View), n.at p = some (.file b w) → n.at (p ++ r) ≠ none → r = []
  | [], r, n, b, w, h, h' => by
    rw [Src.at] at h
    cases h
    cases r with
    | nil => rfl
    | cons c r => rw [List.nil_append, Src.at] at h'; exact absurd rfl h'
  | c :: p, r, .file _ _, b, w, h, _ => by rw [Src.at] at h; cases h
  | c :: p, r, .dir l es, b, w, h, h' => by
    rw [List.cons_append] at h'
    rw [Src.at] at h h'
    cases hf : es.find c with
    | none => rw [hf] at h; cases h
    | some k => rw [hf] at h h'; exact at_prefix p r k b w h h'

mutual
theorem Src.regs_once : ∀ (n : Src) (q : List Str), n.WF → ((n.regs q).map (·.2)).Nodup
  | .file regular view, q, _ => by
    rw [Src.regs]
    split
    · simp
    · split <;> simp
  | .dir l es, q, hw => by
    rw [Src.regs]
    exact SrcEnts.regs_once es q (by rw [Src.WF] at hw; exact hw)

theorem SrcEnts.regs_once : ∀ (es : SrcEnts) (q : List Str), es.WF → ((es.regs q).map (·.2)).Nodup
  | .nil, q, _ => by rw [SrcEnts.regs]; simp
  | .cons a n rest, q, hw => by
    have hw' := hw
    rw [SrcEnts.WF] at hw'
    obtain ⟨_, ha, h2, h3⟩ := hw'
    rw [SrcEnts.regs, List.map_append, List.nodup_append]
    refine ⟨Src.regs_once n _ h2, SrcEnts.regs_once rest q h3, ?_⟩
    intro x hx y hy
    obtain ⟨⟨w, p⟩, hp, rfl⟩ := List.mem_map.1 hx
    obtain ⟨⟨w', p'⟩, hp', rfl⟩ := List.mem_map.1 hy
    obtain ⟨_, r, h4, _⟩ := (Src.regs_iff n _ w p h2).1 hp
    obtain ⟨_, c, r', k, h5, h6, _⟩ := (SrcEnts.regs_iff rest q w' p' h3).1 hp'
    simp only
    rw [h4, h5, List.append_assoc]
    intro h
    have := List.append_cancel_left h
    simp only [List.singleton_append, List.cons.injEq] at this
    exact ha (by rw [this.1]; exact SrcEnts.find_names h6)
end

theorem SrcEnts.find_wf : ∀ (es : SrcEnts) (c : Str) (k : Src), es.WF → es.find c = some k → IsName c ∧ k.WF
  | .nil, c, k, _, h => by cases h
  | .cons a n rest, c, k, hw, h => by
    rw [SrcEnts.WF] at hw
    rw [SrcEnts.find] at h
    by_cases ha : a = c
    · rw [if_pos ha] at h; cases h; exact ⟨ha ▸ hw.1, hw.2.2.1⟩
    · rw [if_neg ha] at h; exact SrcEnts.find_wf rest c k hw.2.2.2 h

theorem at_names : ∀ (q : List Str) (n k : Src), n.WF → n.at q = some k → ∀ c ∈ q, IsName c
  | [], _, _, _, _ => by simp
  | c :: q, .file _ _, k, _, h => by rw [Src.at] at h; cases h
  | c :: q, .dir l es, k, hw, h => by
    rw [Src.at] at h
    rw [Src.WF] at hw
    cases hf : es.find c with
    | none => rw [hf] at h; cases h
    | some k' =>
      rw [hf] at h
      obtain ⟨h1, h2⟩ := SrcEnts.find_wf es c k' hw hf
      intro x hx
      rcases List.mem_cons.1 hx with rfl | hx
      · exact h1
      · exact at_names q k' k h2 h x hx

theorem addsOf_append (a b : List (Option View × Str)) : addsOf (a ++ b) = addsOf a ++ addsOf b := by
  induction a with
  | nil => rfl
  | cons x a ih =>
    obtain ⟨v, d⟩ := x
    cases v with
    | none => exact ih
    | some v => simp [addsOf, ih]

theorem mem_addsOf {l : List (Option View × Str)} {v : View} {p : List Str} : (v, p) ∈ addsOf l ↔ ∃ d, (some v, d) ∈ l ∧ place d = p := by
  induction l with
  | nil => simp [addsOf]
  | cons x l ih =>
    obtain ⟨w, d⟩ := x
    cases w with
    | none => rw [addsOf, ih]; simp
    | some w =>
      rw [addsOf, List.mem_cons, ih]
      constructor
      · rintro (h | ⟨d', h1, h2⟩)
        · cases h; exact ⟨d, by simp, rfl⟩
        · exact ⟨d', by simp [h1], h2⟩
      · rintro ⟨d', h1, h2⟩
        rcases List.mem_cons.1 h1 with h1 | h1
        · cases h1; rw [h2]; exact Or.inl rfl
        · exact Or.inr ⟨d', h1, h2⟩

/-! ### C98: Copy -/

/-- A regular file of the source, by its place below the root of the copy. -/
def Src.Has (t : Src) (q : List Str) (w : Option View) : Prop := q ≠ [] ∧ t.at q = some (.file true w)

mutual
/-- A copy that succeeds has listed every directory. -/
theorem Src.copy_lists (e : Env) (srcRoot dstRoot : Str) : ∀ (n : Src) (path : Str) (S S' : St), n.copy e srcRoot dstRoot path S = (S', .ok ()) →
    ∀ q l es, n.at q = some (.dir l es) → l = true
  | .file regular view, path, S, S', _ => by
    intro q l es hq
    cases q with
    | nil => cases hq
    | cons c q => rw [Src.at] at hq; cases hq
  | .dir l es, path, S, S', h => by
    intro q l' es' hq
    rw [Src.copy] at h
    cases l with
    | false => cases h
    | true =>
      simp only [Bool.not_true, Bool.false_eq_true, if_false] at h
      cases q with
      | nil => cases hq; rfl
      | cons c q =>
        rw [Src.at] at hq
        cases hf : es.find c with
        | none => rw [hf] at hq; cases hq
        | some k => rw [hf] at hq; exact SrcEnts.copy_lists e srcRoot dstRoot es path S S' h c k hf q l' es' hq

theorem SrcEnts.copy_lists (e : Env) (srcRoot dstRoot : Str) : ∀ (es : SrcEnts) (path : Str) (S S' : St), es.copy e srcRoot dstRoot path S = (S', .ok ()) →
    ∀ c k, es.find c = some k → ∀ q l es', k.at q = some (.dir l es') → l = true
  | .nil, path, S, S', _ => by intro c k hf; cases hf
  | .cons a n rest, path, S, S', h => by
    intro c k hf q l es' hk
    rw [SrcEnts.copy] at h
    rw [SrcEnts.find] at hf
    cases hx : n.copy e srcRoot dstRoot (join2 path a) S with
    | mk S1 r =>
      rw [hx] at h
      cases r with
      | error er => cases h
      | ok u =>
        split at hf
        · cases hf; exact Src.copy_lists e srcRoot dstRoot n _ S S1 hx q l es' hk
        · exact SrcEnts.copy_lists e srcRoot dstRoot rest path S1 S' h c k hf q l es' hk
end

/-- **C98** (Copy). If Copy succeeds, its roots are valid names, something is at srcRoot and every directory there was listed (so nothing of the source was
left out for a failure). -/
theorem C98_copy_told (e : Env) (S S' : St) (src : Option Src) (srcRoot dstRoot : Str) (h : copyCall e S src srcRoot dstRoot = (S', .ok ())) :
    GoodName e.utf8 srcRoot ∧ GoodName e.utf8 dstRoot ∧ ∃ t, src = some t ∧ ∀ q l es, t.at q = some (.dir l es) → l = true := by
  unfold copyCall at h
  cases hvs : validate e srcRoot with
  | some er => rw [hvs] at h; cases h
  | none =>
    cases hvd : validate e dstRoot with
    | some er => rw [hvs, hvd] at h; cases h
    | none =>
      rw [hvs, hvd] at h
      cases src with
      | none => cases h
      | some t => exact ⟨(C86_valid e srcRoot).1 hvs, (C86_valid e dstRoot).1 hvd, t, rfl, Src.copy_lists e srcRoot dstRoot t srcRoot S S' h⟩

/-- **C98** (Copy). If Copy succeeds, every regular file below srcRoot is below dstRoot at the same place, as a view of that file; what was there and is not
at or below such a place is as it was, and what else is new are directories on the way. -/
theorem C98_copy_partial (e : Env) (S S' : St) (t : Src) (hw : t.WF) (srcRoot dstRoot : Str) (h : copyCall e S (some t) srcRoot dstRoot = (S', .ok ())) :
    (∀ q w, t.Has q w → ∃ v, w = some v ∧ S'.root.shows (place dstRoot ++ q) = some (.file v.mode v.id)) ∧
    (∀ p i, (∀ q w, t.Has q w → ¬ place dstRoot ++ q <+: p) → S.root.shows p = some i → S'.root.shows p = some i) ∧
    (∀ p, (∀ q w, t.Has q w → ¬ place dstRoot ++ q <+: p) → S.root.shows p = none → S'.root.shows p = none ∨
      ((∃ q w, t.Has q w ∧ p <+: place dstRoot ++ q) ∧ ∃ md, S'.root.shows p = some (.dir md) ∧ ∀ i, md.testBit i = masked e.umask 0o777 i)) := by
  unfold copyCall at h
  cases hvs : validate e srcRoot with
  | some er => rw [hvs] at h; cases h
  | none =>
    cases hvd : validate e dstRoot with
    | some er => rw [hvs, hvd] at h; cases h
    | none =>
      rw [hvs, hvd] at h
      simp only at h
      obtain ⟨s1, s2⟩ := nameOf_place ((C86_valid e srcRoot).1 hvs)
      obtain ⟨d1, d2⟩ := nameOf_place ((C86_valid e dstRoot).1 hvd)
      have hp := Src.pairs_eq s2 d2 t [] hw (by simp)
      rw [List.append_nil, s1, d1] at hp
      have hm := Src.copy_eq e srcRoot dstRoot t srcRoot S S' h
      rw [hp] at hm
      have hreg : ∀ w q, (w, q) ∈ t.regs [] ↔ t.Has q w := by
        intro w q
        rw [Src.regs_iff t [] w q hw]
        unfold Src.Has
        constructor
        · rintro ⟨h0, r, h1, h2⟩
          rw [List.nil_append] at h1
          rw [h1]
          exact ⟨h1 ▸ h0, h2⟩
        · rintro ⟨h0, h1⟩
          exact ⟨h0, q, rfl, h1⟩
      have hname : ∀ q w, t.Has q w → ∀ c ∈ q, IsName c := fun q w h => at_names q t _ hw h.2
      have hpl : ∀ q w, t.Has q w → place (nameOf (place dstRoot ++ q)) = place dstRoot ++ q := fun q w h =>
        place_nameOf (names_append d2 (hname q w h))
      obtain ⟨hsome, hfill⟩ := C98_map_partial e S S' _ (by
        intro x hx
        obtain ⟨⟨w, q⟩, hq, rfl⟩ := List.mem_map.1 hx
        have hq := (hreg w q).1 hq
        intro hdot
        have hdot : nameOf (place dstRoot ++ q) = dot := hdot
        have := hpl q w hq
        rw [hdot] at this
        have h0 : place dstRoot ++ q = [] := by rw [← this]; rfl
        exact hq.1 (List.append_eq_nil_iff.1 h0).2) hm
      -- the places of the files are those of the source below the destination
      have hadds : ∀ (L : List (Option View × List Str)), (∀ x ∈ L, x ∈ t.regs []) → ∀ x ∈ addsOf (L.map fun x => (x.1, nameOf (place dstRoot ++ x.2))),
          ∃ q, (some x.1, q) ∈ L ∧ x.2 = place dstRoot ++ q := by
        intro L hL x hx
        obtain ⟨v, p⟩ := x
        obtain ⟨d, hd, hp⟩ := mem_addsOf.1 hx
        obtain ⟨⟨w, q⟩, hq, heq⟩ := List.mem_map.1 hd
        simp only [Prod.mk.injEq] at heq
        obtain ⟨rfl, rfl⟩ := heq
        refine ⟨q, hq, ?_⟩
        rw [← hp]
        exact hpl q _ ((hreg _ _).1 (hL _ hq))
      refine ⟨?_, ?_, ?_⟩
      · intro q w hq
        have hmem := (hreg w q).2 hq
        cases w with
        | none => exact absurd rfl (hsome (none, nameOf (place dstRoot ++ q)) (List.mem_map.2 ⟨_, hmem, rfl⟩))
        | some v =>
          refine ⟨v, rfl, ?_⟩
          obtain ⟨pre, post, hsplit⟩ := List.append_of_mem hmem
          have hnd := Src.regs_once t [] hw
          rw [hsplit, List.map_append, List.map_cons, List.nodup_append] at hnd
          have hnd2 := (List.nodup_cons.1 hnd.2.1).1
          refine hfill.there (addsOf (pre.map fun x => (x.1, nameOf (place dstRoot ++ x.2)))) v _
            (addsOf (post.map fun x => (x.1, nameOf (place dstRoot ++ x.2)))) ?_ ?_
          · rw [hsplit, List.map_append, List.map_cons, addsOf_append, addsOf, hpl q _ hq]
          · intro x hx hpre
            obtain ⟨q', hq', he⟩ := hadds post (fun y hy => by rw [hsplit]; simp [hy]) x hx
            rw [he] at hpre
            have hpre' := (List.prefix_append_right_inj _).1 hpre
            obtain ⟨r, hr⟩ := hpre'
            have hh := (hreg _ _).1 (show (some x.1, q') ∈ t.regs [] by rw [hsplit]; simp [hq'])
            have := at_prefix q' r t true (some x.1) hh.2 (by rw [hr, hq.2]; simp)
            rw [this, List.append_nil] at hr
            exact hnd2 (List.mem_map.2 ⟨_, hq', hr⟩)
      · intro p i hp hs
        refine hfill.kept p i ?_ hs
        intro x hx hpre
        obtain ⟨q, hq, he⟩ := hadds _ (fun _ h => h) x hx
        exact hp q _ ((hreg _ _).1 hq) (he ▸ hpre)
      · intro p hp hs
        rcases hfill.new p (by
          intro x hx hpre
          obtain ⟨q, hq, he⟩ := hadds _ (fun _ h => h) x hx
          exact hp q _ ((hreg _ _).1 hq) (he ▸ hpre)) hs with h' | ⟨⟨x, hx, hpx⟩, h'⟩
        · exact Or.inl h'
        · obtain ⟨q, hq, he⟩ := hadds _ (fun _ h => h) x hx
          exact Or.inr ⟨⟨q, _, (hreg _ _).1 hq, he ▸ hpx⟩, h'⟩

/-! ### When it succeeds -/

/-- Directories that may be passed all the way are walked down. -/
theorem walk_shows : ∀ (p : List Str) (n : Node), (∀ q, q <+: p → ∃ md, n.shows q = some (.dir md) ∧ maySearch md = true) →
    ∃ m es, walk n p = .ok (.dir m es) ∧ n.shows p = some (.dir m)
  | [], n, h => by
    obtain ⟨md, h1, _⟩ := h [] (List.prefix_refl _)
    cases n with
    | file m v => cases h1
    | dir m es => exact ⟨m, es, rfl, rfl⟩
  | c :: p, n, h => by
    obtain ⟨md, h1, h2⟩ := h [] List.nil_prefix
    cases n with
    | file m v => cases h1
    | dir m es =>
      have hm : m = md := by
        have : some (Info.dir m) = some (Info.dir md) := h1
        injection this with this
        injection this
      rw [walk]
      simp only [hm, h2, Bool.not_true, Bool.false_eq_true, if_false]
      cases hf : es.find c with
      | none =>
        obtain ⟨md', h3, _⟩ := h [c] (by simp)
        simp [Node.shows, Node.at, hf] at h3
      | some k =>
        have hk : ∀ q, (Node.dir m es).shows (c :: q) = k.shows q := by
          intro q; simp [Node.shows, Node.at, hf]
        obtain ⟨m', es', g1, g2⟩ := walk_shows p k (by
          intro q hq
          obtain ⟨md', h3, h4⟩ := h (c :: q) (by simpa using hq)
          exact ⟨md', by rw [← hk]; exact h3, h4⟩)
        exact ⟨m', es', g1, by rw [← hm, hk]; exact g2⟩

theorem passable_shows : ∀ (p : List Str) (n : Node), (∃ md, n.shows [] = some (.dir md)) → (∀ q md, n.shows q = some (.dir md) → maySearch md = true) →
    (∀ q, q <+: p → ∀ m v, n.shows q ≠ some (.file m v)) → Passable true n p
  | [], n, hr, hs, _ => by
    obtain ⟨md, h1⟩ := hr
    cases n with
    | file m v => cases h1
    | dir m es => exact hs [] m rfl
  | c :: p, n, hr, hs, hf => by
    obtain ⟨md, h1⟩ := hr
    cases n with
    | file m v => cases h1
    | dir m es =>
      rw [Passable]
      refine ⟨hs [] m rfl, ?_⟩
      cases hx : es.find c with
      | none => rfl
      | some k =>
        have hk : ∀ q, (Node.dir m es).shows (c :: q) = k.shows q := by
          intro q; simp [Node.shows, Node.at, hx]
        refine passable_shows p k ?_ (fun q md h => hs (c :: q) md (by rw [hk]; exact h)) (fun q hq m v h => hf (c :: q) (by simpa using hq) m v (by rw [hk]; exact h))
        cases k with
        | dir m' es' => exact ⟨m', rfl⟩
        | file m' v' => exact absurd (hk []) (hf [c] (by simp) m' v')

/-- All directories may be changed and searched. -/
def Writable (S : St) : Prop := (∃ md, S.root.shows [] = some (.dir md)) ∧ ∀ q md, S.root.shows q = some (.dir md) → maySearch md = true ∧ mayWrite md = true

theorem addFile_succeeds (e : Env) (S : St) (path : Str) (v : View) (h : GoodName e.utf8 path) (hp : GoodName e.utf8 (dir path)) (hd : path ≠ dot)
    (hv : v.isDir = false) (ha : e.answer S.asked.length = none) (hm : masked e.umask 0o777 6 = true ∧ masked e.umask 0o777 7 = true) (hw : Writable S)
    (hfree : ∀ q, q <+: place path → q ≠ place path → ∀ m w, S.root.shows q ≠ some (.file m w)) : ∃ S', addFileCall e S path v = (S', .ok ()) := by
  have hval := (C86_valid e path).2 h
  have hvd := (C86_valid e (dir path)).2 hp
  have hpl := place_dir hval hd
  have hfile := filePart_valid hval hd
  have hpre : ∀ q, q <+: place (dir path) → q <+: place path ∧ q ≠ place path := by
    intro q hq
    rw [hpl]
    refine ⟨hq.trans (List.prefix_append _ _), ?_⟩
    rintro rfl
    have := hq.length_le
    simp at this
    omega
  have hmk : ∃ S2, mkdirAll e ⟨S.root, S.asked ++ [.stat v.id], S.next⟩ (dir path) 511 = (S2, .ok ()) := by
    by_cases hdot : dir path = dot
    · unfold mkdirAll
      rw [hvd]
      simp only [if_pos hdot]
      exact ⟨_, rfl⟩
    · have := (C87_mkdirAll_ok e ⟨S.root, S.asked ++ [.stat v.id], S.next⟩ (dir path) 511 hp hdot).2 (by
        rw [hm.1]
        exact passable_shows _ _ hw.1 (fun q md h => (hw.2 q md h).1) (fun q hq => hfree q (hpre q hq).1 (hpre q hq).2))
      cases hx : mkdirAll e ⟨S.root, S.asked ++ [.stat v.id], S.next⟩ (dir path) 511 with
      | mk S2 r => rw [hx] at this; exact ⟨S2, by rw [← this]⟩
  obtain ⟨S2, hmk⟩ := hmk
  obtain ⟨_, _, m3, m4, m5⟩ := C87_mkdirAll e _ S2 (dir path) 511 _ hmk
  obtain ⟨_, m5⟩ := m5 rfl
  simp only at m3 m4 m5
  -- the directories on the way may be changed
  have hdirs : ∀ q, q <+: place (dir path) → ∃ md, S2.root.shows q = some (.dir md) ∧ maySearch md = true ∧ mayWrite md = true := by
    intro q hq
    obtain ⟨md, hmd⟩ := m5 hw.1 q hq
    refine ⟨md, hmd, ?_⟩
    cases hs : S.root.shows q with
    | some i =>
      have := m3 q i hs
      rw [hmd] at this
      cases this
      exact hw.2 q md hs
    | none =>
      rcases m4 q hs with h | ⟨_, md', h1, h2⟩
      · rw [hmd] at h; cases h
      · rw [hmd] at h1
        cases h1
        exact ⟨by unfold maySearch; rw [h2]; exact hm.1, by unfold mayWrite; rw [h2]; exact hm.2⟩
  obtain ⟨m, es, hwk, hsh⟩ := walk_shows (place (dir path)) S2.root fun q hq => by
    obtain ⟨md, h1, h2, _⟩ := hdirs q hq
    exact ⟨md, h1, h2⟩
  obtain ⟨md, h1, h2, h3⟩ := hdirs _ (List.prefix_refl _)
  rw [hsh] at h1
  cases h1
  have hfind : find e S2.root (dir path) = .ok (place (dir path), .dir m es) := by
    rw [find_walk e S2.root (dir path) hvd, hwk]
  unfold addFileCall
  rw [hval]
  unfold addFile ask
  simp only [ha, hv, Bool.false_eq_true, if_false, if_neg hfile.2]
  have hdir : clean (dirPart path) = dir path := rfl
  rw [hdir, hmk]
  simp only [hfind, searchable_some, h2, if_true, Node.mode, hasPerm_write, h3, Bool.not_true, Bool.false_eq_true, if_false]
  exact ⟨_, rfl⟩


theorem mapFs_ok (e : Env) (hans : ∀ n, e.answer n = none) (hm : masked e.umask 0o777 6 = true ∧ masked e.umask 0o777 7 = true) :
    ∀ (pairs : List (Option View × Str)) (S : St), Writable S →
    (∀ x ∈ pairs, GoodName e.utf8 x.2 ∧ GoodName e.utf8 (dir x.2) ∧ x.2 ≠ dot ∧ ∃ v, x.1 = some v ∧ v.isDir = false) →
    (∀ x ∈ pairs, ∀ y ∈ pairs, place x.2 <+: place y.2 → place x.2 = place y.2) →
    (∀ x ∈ pairs, ∀ q, q <+: place x.2 → q ≠ place x.2 → ∀ m w, S.root.shows q ≠ some (.file m w)) → ∃ S', mapFs e S pairs = (S', .ok ()) := by
  intro pairs
  induction pairs with
  | nil => intro S _ _ _ _; exact ⟨S, rfl⟩
  | cons x pairs ih =>
    intro S hw hg hsep hfree
    obtain ⟨o, dst⟩ := x
    obtain ⟨g1, g2, g3, v, g4, g5⟩ := hg _ List.mem_cons_self
    simp only at g1 g2 g3 g4
    subst g4
    obtain ⟨S1, hS1⟩ := addFile_succeeds e S dst v g1 g2 g3 g5 (hans _) hm hw (hfree _ List.mem_cons_self)
    obtain ⟨_, _, a1, a2, a3, a4, a5, _, _⟩ := C90_addFile_partial e S S1 dst v g1 g3 hS1
    -- what shows at or below the new file
    have hat : ∀ q i, place dst <+: q → S1.root.shows q = some i → q = place dst := by
      rintro q i ⟨r, rfl⟩ h
      cases r with
      | nil => simp
      | cons c r => rw [a2] at h; cases h
    have hw1 : Writable S1 := by
      have hdst : place dst ≠ [] := by
        have := place_dir ((C86_valid e dst).2 g1) g3
        rw [this]; simp
      refine ⟨?_, ?_⟩
      · obtain ⟨md, h⟩ := hw.1
        exact ⟨md, a4 [] _ (fun h => hdst (List.prefix_nil.1 h)) h⟩
      · intro q md hq
        by_cases hp : place dst <+: q
        · rw [hat q _ hp hq, a1] at hq
          cases hq
        · cases hs : S.root.shows q with
          | some i =>
            have := a4 q i hp hs
            rw [hq] at this
            cases this
            exact hw.2 q md hs
          | none =>
            rcases a5 q hp hs with h | ⟨_, md', h1, h2⟩
            · rw [hq] at h; cases h
            · rw [hq] at h1
              cases h1
              exact ⟨by unfold maySearch; rw [h2]; exact hm.1, by unfold mayWrite; rw [h2]; exact hm.2⟩
    have hfree1 : ∀ y ∈ pairs, ∀ q, q <+: place y.2 → q ≠ place y.2 → ∀ m w, S1.root.shows q ≠ some (.file m w) := by
      intro y hy q hq hne m w hsh
      by_cases hp : place dst <+: q
      · have := hat q _ hp hsh
        rw [this] at hq hne
        exact hne (hsep _ List.mem_cons_self y (List.mem_cons_of_mem _ hy) hq)
      · cases hs : S.root.shows q with
        | some i =>
          have := a4 q i hp hs
          rw [hsh] at this
          cases this
          exact hfree y (List.mem_cons_of_mem _ hy) q hq hne m w hs
        | none =>
          rcases a5 q hp hs with h | ⟨_, md', h1, _⟩
          · rw [hsh] at h; cases h
          · rw [hsh] at h1; cases h1
    obtain ⟨S', hS'⟩ := ih S1 hw1 (fun y hy => hg y (List.mem_cons_of_mem _ hy))
      (fun y hy z hz => hsep y (List.mem_cons_of_mem _ hy) z (List.mem_cons_of_mem _ hz)) hfree1
    exact ⟨S', by rw [mapFs, hS1]; exact hS'⟩

mutual
theorem Src.copy_listable (e : Env) (srcRoot dstRoot : Str) : ∀ (n : Src) (path : Str) (S : St), n.WF → (∀ q l es, n.at q = some (.dir l es) → l = true) →
    n.copy e srcRoot dstRoot path S = mapFs e S (n.pairs srcRoot dstRoot path)
  | .file regular view, path, S, _, _ => by
    rw [Src.copy.eq_def, Src.pairs]
    simp only
    split
    · rfl
    · split
      · rfl
      · cases view with
        | none => rfl
        | some v =>
          simp only [mapFs]
  | .dir l es, path, S, hw, h => by
    have hl := h [] l es rfl
    subst hl
    rw [Src.copy, Src.pairs]
    simp only [Bool.not_true, Bool.false_eq_true, if_false]
    rw [Src.WF] at hw
    refine SrcEnts.copy_listable e srcRoot dstRoot es path S hw ?_
    intro c k q l es' hf hk
    exact h (c :: q) l es' (by rw [Src.at, hf]; exact hk)

theorem SrcEnts.copy_listable (e : Env) (srcRoot dstRoot : Str) : ∀ (es : SrcEnts) (path : Str) (S : St), es.WF →
    (∀ c k q l es', es.find c = some k → k.at q = some (.dir l es') → l = true) →
    es.copy e srcRoot dstRoot path S = mapFs e S (es.pairs srcRoot dstRoot path)
  | .nil, path, S, _, _ => by rw [SrcEnts.copy, SrcEnts.pairs]; rfl
  | .cons a n rest, path, S, hw, h => by
    rw [SrcEnts.WF] at hw
    rw [SrcEnts.copy, SrcEnts.pairs, mapFs_append,
      Src.copy_listable e srcRoot dstRoot n _ S hw.2.2.1 (fun q l es' hk => h a n q l es' (by rw [SrcEnts.find, if_pos rfl]) hk)]
    cases hx : mapFs e S (n.pairs srcRoot dstRoot (join2 path a)) with
    | mk S1 r =>
      cases r with
      | error er => rfl
      | ok u =>
        refine SrcEnts.copy_listable e srcRoot dstRoot rest path S1 hw.2.2.2 ?_
        intro c k q l es' hf hk
        refine h c k q l es' ?_ hk
        rw [SrcEnts.find, if_neg]
        · exact hf
        · rintro rfl; exact hw.2.1 (SrcEnts.find_names hf)
end

theorem goodName_nameOf {utf8 : Str → Bool} (hu : ∀ s, utf8 s = true ↔ Fsutil.ValidUTF8 s) {p : List Str} {x : Str} (hp : ∀ c ∈ p ++ [x], IsName c)
    (hv : ∀ c ∈ p ++ [x], Fsutil.ValidUTF8 c) (hl : x.length ≤ 255) : GoodName utf8 (nameOf (p ++ [x])) := by
  have h1 : nameOf (p ++ [x]) = join (p ++ [x]) := by unfold nameOf render; simp
  refine ⟨(hu _).2 (by rw [h1]; exact ValidPath.valid_join hv), Or.inr ?_, ?_⟩
  · rw [h1, split_join (by simp) fun c hc => (hp c hc).1.2]
    intro c hc
    exact ⟨(hp c hc).1.1, (hp c hc).2.1, (hp c hc).2.2⟩
  · unfold nameOf
    rw [base_render (hp x (by simp)).1]
    exact hl

/-- **C98** (Copy succeeds). The source can be listed and looked at, its names are UTF-8 of at most 255 bytes, the umask leaves the owner's bits, all
directories of the destination may be changed, and no file is in the way: then Copy succeeds. -/
theorem C98_copy_succeeds (e : Env) (S : St) (t : Src) (hw : t.WF) (srcRoot dstRoot : Str) (hu : ∀ s, e.utf8 s = true ↔ Fsutil.ValidUTF8 s)
    (hs : GoodName e.utf8 srcRoot) (hd : GoodName e.utf8 dstRoot)
    (hnames : ∀ q k, t.at q = some k → ∀ c ∈ q, Fsutil.ValidUTF8 c ∧ c.length ≤ 255)
    (hlist : ∀ q l es, t.at q = some (.dir l es) → l = true)
    (hviews : ∀ q w, t.Has q w → ∃ v, w = some v ∧ v.isDir = false)
    (hans : ∀ n, e.answer n = none) (hm : masked e.umask 0o777 6 = true ∧ masked e.umask 0o777 7 = true) (hwr : Writable S)
    (hfree : ∀ q w, t.Has q w → ∀ p, p <+: place dstRoot ++ q → p ≠ place dstRoot ++ q → ∀ m v, S.root.shows p ≠ some (.file m v)) :
    ∃ S', copyCall e S (some t) srcRoot dstRoot = (S', .ok ()) := by
  unfold copyCall
  rw [(C86_valid e srcRoot).2 hs, (C86_valid e dstRoot).2 hd]
  simp only
  obtain ⟨s1, s2⟩ := nameOf_place hs
  obtain ⟨d1, d2⟩ := nameOf_place hd
  have hp := Src.pairs_eq s2 d2 t [] hw (by simp)
  rw [List.append_nil, s1, d1] at hp
  rw [Src.copy_listable e srcRoot dstRoot t srcRoot S hw hlist, hp]
  have hreg : ∀ w q, (w, q) ∈ t.regs [] → t.Has q w := by
    intro w q hx
    obtain ⟨h0, r, h1, h2⟩ := (Src.regs_iff t [] w q hw).1 hx
    rw [List.nil_append] at h1
    rw [h1]
    exact ⟨h1 ▸ h0, h2⟩
  have hname : ∀ q w, t.Has q w → ∀ c ∈ place dstRoot ++ q, IsName c := fun q w h => names_append d2 (at_names q t _ hw h.2)
  have hpl : ∀ q w, t.Has q w → place (nameOf (place dstRoot ++ q)) = place dstRoot ++ q := fun q w h => place_nameOf (hname q w h)
  have hdv : ∀ c ∈ place dstRoot, Fsutil.ValidUTF8 c := by
    unfold place
    split
    · simp
    · exact ValidPath.valid_split ((hu _).1 hd.1)
  have hvalid : ∀ q w, t.Has q w → ∀ c ∈ place dstRoot ++ q, Fsutil.ValidUTF8 c := by
    intro q w h c hc
    rcases List.mem_append.1 hc with hc | hc
    · exact hdv c hc
    · exact (hnames q _ h.2 c hc).1
  apply mapFs_ok e hans hm _ S hwr
  · intro x hx
    obtain ⟨⟨w, q⟩, hq, rfl⟩ := List.mem_map.1 hx
    have hh := hreg w q hq
    simp only
    obtain ⟨q', x, rfl⟩ : ∃ q' x, q = q' ++ [x] := by
      rcases List.eq_nil_or_concat q with h | ⟨q', x, h⟩
      · exact absurd h hh.1
      · exact ⟨q', x, by rw [h, List.concat_eq_append]⟩
    have n1 := hname _ w hh
    have v1 := hvalid _ w hh
    rw [← List.append_assoc] at n1 v1 ⊢
    have hdir : dir (nameOf (place dstRoot ++ q' ++ [x])) = nameOf (place dstRoot ++ q') := by
      unfold nameOf
      exact dir_render (.names n1)
    refine ⟨goodName_nameOf hu n1 v1 (hnames _ _ hh.2 x (by simp)).2, ?_, ?_, hviews _ w hh⟩
    · rw [hdir]
      rcases List.eq_nil_or_concat q' with h | ⟨q'', y, h⟩
      · rw [h, List.append_nil, d1]; exact hd
      · rw [List.concat_eq_append] at h
        subst h
        rw [← List.append_assoc]
        refine goodName_nameOf hu ?_ ?_ (hnames _ _ hh.2 y (by simp)).2
        · intro c hc; exact n1 c (by rw [← List.append_assoc]; exact List.mem_append_left _ hc)
        · intro c hc; exact v1 c (by rw [← List.append_assoc]; exact List.mem_append_left _ hc)
    · intro hdot
      have := place_nameOf n1
      rw [hdot] at this
      have h0 : place dstRoot ++ q' ++ [x] = [] := by rw [← this]; rfl
      simp at h0
  · intro x hx y hy hpre
    obtain ⟨⟨w, q⟩, hq, rfl⟩ := List.mem_map.1 hx
    obtain ⟨⟨w', q'⟩, hq', rfl⟩ := List.mem_map.1 hy
    simp only at hpre ⊢
    rw [hpl q w (hreg _ _ hq), hpl q' w' (hreg _ _ hq')] at hpre ⊢
    obtain ⟨r, hr⟩ := (List.prefix_append_right_inj _).1 hpre
    have := at_prefix q r t true w (hreg _ _ hq).2 (by rw [hr, (hreg _ _ hq').2]; simp)
    rw [this, List.append_nil] at hr
    rw [hr]
  · intro x hx
    obtain ⟨⟨w, q⟩, hq, rfl⟩ := List.mem_map.1 hx
    simp only
    rw [hpl q w (hreg _ _ hq)]
    exact hfree q w (hreg _ _ hq)

/-! ### Where the code falls short -/

/-- A source with a file in a directory, an empty directory and a symlink. -/
def exSrc : Src := .dir true (.cons "a".toList (.dir true (.cons "f".toList (.file true (some ⟨3, 0o644, false⟩)) .nil))
  (.cons "b".toList (.dir true .nil) (.cons "l".toList (.file false none) .nil)))

example : exSrc.WF := by
  simp only [exSrc, Src.WF, SrcEnts.WF, SrcEnts.names]
  decide

example : ∃ S', copyCall ex St.new (some exSrc) "src".toList "d".toList = (S', .ok ()) ∧
    S'.root.shows ["d".toList, "a".toList, "f".toList] = some (.file 0o644 3) := ⟨_, rfl, rfl⟩

/-- The conditions of C98_copy_succeeds can be met. -/
def oneSrc : Src := .dir true (.cons ['f'] (.file true (some ⟨3, 0o644, false⟩)) .nil)

theorem oneSrc_at (q : List Str) (k : Src) (h : oneSrc.at q = some k) : q = [] ∧ k = oneSrc ∨ q = [['f']] ∧ k = .file true (some ⟨3, 0o644, false⟩) := by
  match q with
  | [] => left; exact ⟨rfl, (Option.some.inj h).symm⟩
  | c :: q =>
    right
    by_cases hc : ['f'] = c
    · subst hc
      match q with
      | [] => exact ⟨rfl, (Option.some.inj h).symm⟩
      | _ :: _ => cases h
    · simp [oneSrc, Src.at, SrcEnts.find, hc] at h

open Classical in
noncomputable example : ∃ S', copyCall ⟨0o022, true, id, fun s => decide (Fsutil.ValidUTF8 s), fun _ => none⟩ St.new (some oneSrc) ['s'] ['d'] = (S', .ok ()) := by
  have hv : ∀ c : Char, c.toNat < 0x80 → Fsutil.ValidUTF8 [c] := fun c hc => Fsutil.valid_ascii (by simpa using hc)
  refine C98_copy_succeeds _ _ oneSrc ?_ _ _ (fun s => by simp) ⟨decide_eq_true (hv _ (by decide)), Or.inr (by decide), by decide⟩
    ⟨decide_eq_true (hv _ (by decide)), Or.inr (by decide), by decide⟩ ?_ ?_ ?_ (fun _ => rfl) (by decide) ?_ ?_
  · simp only [oneSrc, Src.WF, SrcEnts.WF, SrcEnts.names]; decide
  · intro q k h c hc
    rcases oneSrc_at q k h with ⟨rfl, _⟩ | ⟨rfl, _⟩
    · cases hc
    · simp at hc; subst hc; exact ⟨hv _ (by decide), by decide⟩
  · intro q l es h
    rcases oneSrc_at q _ h with ⟨_, h⟩ | ⟨_, h⟩
    · unfold oneSrc at h; injection h
    · cases h
  · intro q w h
    rcases oneSrc_at q _ h.2 with ⟨h', _⟩ | ⟨_, h'⟩
    · exact absurd h' h.1
    · injection h' with _ h'; exact ⟨_, h', rfl⟩
  · refine ⟨⟨511, rfl⟩, ?_⟩
    intro q md h
    cases q with
    | nil => cases h; decide
    | cons c q => cases h
  · intro q w _ p _ _ m v h
    cases p with
    | nil => cases h
    | cons c p => cases h

/-- **C98** fails for empty directories and symlinks: they are not in the copy, and no error says so. -/
theorem C98_counterexample_lost : ∃ S', copyCall ex St.new (some exSrc) dot dot = (S', .ok ()) ∧
    S'.root.shows ["b".toList] = none ∧ S'.root.shows ["l".toList] = none := ⟨_, rfl, rfl, rfl⟩

/-- **C98** fails for a file given as srcRoot: nothing is copied, and no error says so. -/
theorem C98_counterexample_file : copyCall ex St.new (some (.file true (some ⟨3, 0o644, false⟩))) "f".toList "d".toList = (St.new, .ok ()) := rfl

/-- **C98** fails when Copy fails: what was copied before stays. -/
theorem C98_counterexample_half : ∃ S', copyCall ex St.new (some (.dir true (.cons "f".toList (.file true (some ⟨3, 0o644, false⟩))
    (.cons "g".toList (.file true none) .nil)))) dot dot = (S', .error .source) ∧ S'.root.shows ["f".toList] = some (.file 0o644 3) := ⟨_, rfl, rfl⟩

end Verif.Afero
