import Verif.Synth.Effects
import Verif.Synth.Fill
import Verif.Synth.Refused
/-
C51, continued: where AddFile and AddFS put things, without reference to how the code finds the place.
-/
namespace Verif.Synth.Tree
open Verif.Path

/-! ### Specification -/

/-- The entry `k` of the directory `d` now holds the new node `n`; every other entry leads where it led, and every other node is what it was. If the entry was
free, it is listed last; the views in `V` were closed. -/
structure Puts (V : List Nat) (s s' : St) (d : Id) (k : Str) (n : Node) : Prop where
  rest : ∀ e j, ¬ (e = d ∧ j = k) → s'.lookup e j = s.lookup e j
  new : ∃ c, s.nodes[c]? = none ∧ s'.lookup d k = some c ∧ s'.nodes[c]? = some n ∧ ∀ i, i ≠ c → s'.look i = s.look i
  lists : s.lookup d k = none → Adds s s' d k n
  closed : s'.closed = s.closed ++ V

/-- Directories of mode 0755 were made, one inside the other, from `d` on, the last one being `e`, each in a free place or in the place of a link. -/
def MakesDirs : St → St → Id → List Str → Id → Prop
  | s, s', d, [], e => s' = s ∧ e = d
  | s, s', d, k :: rest, e => (∀ x, s.lookup d k = some x → s.isLink x) ∧ ∃ s1 c, Puts [] s s1 d k (.dir ⟨k, some d, [], [], 0o755⟩) ∧ s1.lookup d k = some c ∧ MakesDirs s1 s' c rest e

/-- Walking these elements comes, after at most 40 links, to an entry that is not there. -/
def Missing (s : St) (b : Id) (ns : List Str) : Prop := ∃ n, n ≤ 40 ∧ Fails s b true b ns n .notExist

/-- The missing parents of the name were made, from the first one on that is missing, and now its last element is to be looked up as `k` in the directory `d`. -/
def Parents (s : St) (b : Id) (name : Str) (s1 : St) (d : Id) (k : Str) : Prop :=
  (∃ pre suf d0, placeOf name = some (pre ++ suf ++ [k]) ∧ Leads s b pre d0 ∧ s.isDir d0 ∧ (∀ j rest, suf = j :: rest → Missing s b (pre ++ [j])) ∧
    MakesDirs s s1 d0 suf d) ∧ Place s1 b name d k

/-! ### Walks that fail -/

theorem walk_loop {s : St} (hg : Good s) {b : Id} {fl : Bool} {cur : Id} {es : List Str} {n : Nat} {m : Id} (h : Finds s b fl cur es n m) :
    ∀ (left : Nat) (rest : Str), left < n → s.isDir cur → Under s b cur → elems rest = es → walk s b fl left cur rest = .error .loop := by
  have ne : ∀ {rest e es}, elems rest = e :: es → rest ≠ [] ∧ (cut rest).1 = e ∧ elems (cut rest).2 = es := by
    intro rest e es he
    have hr : rest ≠ [] := by rintro rfl; cases he
    rw [elems_cut hr] at he
    exact ⟨hr, (List.cons.inj he).1, (List.cons.inj he).2⟩
  induction h with
  | done => intro left rest hl; omega
  | stay hs _ ih =>
    intro left rest hl hd hu he
    obtain ⟨hr, h1, h2⟩ := ne he
    rw [walk_unfold, if_neg hr, if_pos (h1 ▸ hs)]
    exact ih left _ hl hd hu h2
  | up hne hk _ ih =>
    intro left rest hl hd hu he
    obtain ⟨hr, h1, h2⟩ := ne he
    obtain ⟨dr, hdr⟩ := hd
    obtain ⟨p', k', hk', hup, hpar⟩ := under_parent hg hu hne hdr
    obtain ⟨rfl, rfl⟩ := hg.single _ _ _ _ _ hk hk'
    rw [walk_unfold, if_neg hr, if_neg (by rw [h1]; decide), if_pos h1, if_neg hne, hdr]
    simp only [Option.bind_some, hpar]
    exact ih left _ hl (lookup_isDir hk) hup h2
  | last => intro left rest hl; omega
  | @down cur e c es n m hp hk hc hne _ ih =>
    intro left rest hl hd hu he
    obtain ⟨hr, h1, h2⟩ := ne he
    obtain ⟨dr, hdr⟩ := hc
    have h2' : (cut rest).2 ≠ [] := by intro h; rw [h] at h2; exact hne h2.symm
    rw [walk_unfold, if_neg hr, if_neg (by rw [h1]; intro h; exact h.elim hp.1 hp.2.1), if_neg (by rw [h1]; exact hp.2.2), h1, hk]
    simp only [dir?_iff.1 hdr]
    rw [if_neg h2']
    exact ih left _ hl ⟨dr, hdr⟩ (.inr (hu.step hk)) h2
  | @link cur e c es n m nm t hp hk hn habs hcond _ ih =>
    intro left rest hl hd hu he
    obtain ⟨hr, h1, h2⟩ := ne he
    rw [walk_unfold, if_neg hr, if_neg (by rw [h1]; intro h; exact h.elim hp.1 hp.2.1), if_neg (by rw [h1]; exact hp.2.2), h1, hk]
    simp only [hn]
    rw [if_neg]
    · cases left with
      | zero => rfl
      | succ left =>
        simp only [jumpAt, habs, Bool.false_eq_true, if_false]
        exact ih left _ (by omega) hd hu (by rw [elems_afterLink, h2])
    · intro ⟨ha, hb⟩
      rcases hcond with hc | hc
      · rw [ha] at h2; exact hc h2.symm
      · rw [hc] at hb; cases hb

theorem walk_missing {s : St} (hg : Good s) {b : Id} {cur : Id} {es : List Str} {n : Nat} {m : Id} (h : Finds s b true cur es n m) {k : Str} (hk : IsName k) :
    ∀ (left : Nat) (rest : Str) (j : Nat), n ≤ left → s.isDir cur → Under s b cur → s.isDir m → s.lookup m k = none → elems rest = es ++ List.replicate j [] ++ [k] →
      walk s b true left cur rest = .error .notExist := by
  have ne : ∀ {rest e es}, elems rest = e :: es → rest ≠ [] ∧ (cut rest).1 = e ∧ elems (cut rest).2 = es := by
    intro rest e es he
    have hr : rest ≠ [] := by rintro rfl; cases he
    rw [elems_cut hr] at he
    exact ⟨hr, (List.cons.inj he).1, (List.cons.inj he).2⟩
  have empties : ∀ (left : Nat) (cur : Id) (j : Nat) (rest : Str), s.lookup cur k = none → elems rest = List.replicate j [] ++ [k] → walk s b true left cur rest = .error .notExist := by
    intro left cur j
    induction j with
    | zero =>
      intro rest hl he
      obtain ⟨hr, h1, h2⟩ := ne (es := []) (by simpa using he)
      rw [walk_unfold, if_neg hr, if_neg (by rw [h1]; intro h; exact h.elim hk.1.1 hk.2.1), if_neg (by rw [h1]; exact hk.2.2), h1, hl]
    | succ j ih =>
      intro rest hl he
      rw [List.replicate_succ, List.cons_append] at he
      obtain ⟨hr, h1, h2⟩ := ne he
      rw [walk_unfold, if_neg hr, if_pos (.inl h1)]
      exact ih _ hl h2
  induction h with
  | done =>
    intro left rest j _ _ _ _ hl he
    exact empties left _ j rest hl (by simpa using he)
  | stay hs _ ih =>
    intro left rest j hl hd hu hm hlk he
    obtain ⟨hr, h1, h2⟩ := ne he
    rw [walk_unfold, if_neg hr, if_pos (h1 ▸ hs)]
    exact ih left _ j hl hd hu hm hlk h2
  | up hne hk' _ ih =>
    intro left rest j hl hd hu hm hlk he
    obtain ⟨hr, h1, h2⟩ := ne he
    obtain ⟨dr, hdr⟩ := hd
    obtain ⟨p', k', hk2, hup, hpar⟩ := under_parent hg hu hne hdr
    obtain ⟨rfl, rfl⟩ := hg.single _ _ _ _ _ hk' hk2
    rw [walk_unfold, if_neg hr, if_neg (by rw [h1]; decide), if_pos h1, if_neg hne, hdr]
    simp only [Option.bind_some, hpar]
    exact ih left _ j hl (lookup_isDir hk') hup hm hlk h2
  | @last cur e c hp hk' hf =>
    intro left rest j hl hd hu hm hlk he
    obtain ⟨hr, h1, h2⟩ := ne he
    obtain ⟨dr, hdr⟩ := hm
    have h2' : (cut rest).2 ≠ [] := by intro h; rw [h, elems_nil] at h2; simp at h2
    rw [walk_unfold, if_neg hr, if_neg (by rw [h1]; intro h; exact h.elim hp.1 hp.2.1), if_neg (by rw [h1]; exact hp.2.2), h1, hk']
    simp only [dir?_iff.1 hdr]
    rw [if_neg h2']
    exact empties left c j _ hlk (by simpa using h2)
  | @down cur e c es n m hp hk' hc hne _ ih =>
    intro left rest j hl hd hu hm hlk he
    obtain ⟨hr, h1, h2⟩ := ne he
    obtain ⟨dr, hdr⟩ := hc
    have h2' : (cut rest).2 ≠ [] := by intro h; rw [h, elems_nil] at h2; simp at h2
    rw [walk_unfold, if_neg hr, if_neg (by rw [h1]; intro h; exact h.elim hp.1 hp.2.1), if_neg (by rw [h1]; exact hp.2.2), h1, hk']
    simp only [dir?_iff.1 hdr]
    rw [if_neg h2']
    exact ih left _ j hl ⟨dr, hdr⟩ (.inr (hu.step hk')) hm hlk h2
  | @link cur e c es n m nm t hp hk' hn habs hcond _ ih =>
    intro left rest j hl hd hu hm hlk he
    obtain ⟨hr, h1, h2⟩ := ne he
    have hne2 : elems (cut rest).2 ≠ [] := by rw [h2]; simp
    have h2' : (cut rest).2 ≠ [] := fun h => hne2 (by rw [h]; rfl)
    rw [walk_unfold, if_neg hr, if_neg (by rw [h1]; intro h; exact h.elim hp.1 hp.2.1), if_neg (by rw [h1]; exact hp.2.2), h1, hk']
    simp only [hn]
    rw [if_neg (fun h => h2' h.1)]
    cases left with
    | zero => omega
    | succ left =>
      simp only [jumpAt, habs, Bool.false_eq_true, if_false]
      have e0 : splice t (elems (cut rest).2) = split t ++ elems (cut rest).2 := by unfold splice; rw [if_neg hne2]
      by_cases hes : es = []
      · subst hes
        have e1 : splice t [] = elems t := by simp [splice]
        rw [e1] at ih
        by_cases hlst : (split t).getLast? = some []
        · refine ih left _ (j + 1) (by omega) hd hu hm hlk ?_
          rw [elems_afterLink, e0, h2]
          obtain ⟨ys, hys⟩ := List.getLast?_eq_some_iff.1 hlst
          unfold elems
          rw [if_pos hlst, hys, List.replicate_succ]; simp
        · refine ih left _ j (by omega) hd hu hm hlk ?_
          rw [elems_afterLink, e0, h2]
          unfold elems
          rw [if_neg hlst]; simp
      · have e1 : splice t es = split t ++ es := by simp [splice, hes]
        rw [e1] at ih
        refine ih left _ j (by omega) hd hu hm hlk ?_
        rw [elems_afterLink, e0, h2]; simp

/-- "Does not exist" means that nothing would be found with any number of links. -/
theorem resolve_dead {s : St} (hg : Good s) {b : Id} (hb : s.isDir b) {name : Str} {ns : List Str} (hp : placeOf name = some ns) (h : resolve s b b name true = .error .notExist) :
    ¬ ∃ n m, Finds s b true b ns n m := by
  rintro ⟨n, m, hf⟩
  by_cases hn : n ≤ maxHops
  · obtain ⟨r, hr, _⟩ := (resolve_spec hg hb name true m).2 ⟨ns, hp, n, hn, hf⟩
    rw [h] at hr; cases hr
  · unfold resolve at h
    rcases normalize_spec name with ⟨e, he, hp'⟩ | ⟨ns', hp', hok, hdot, hel⟩
    · rw [hp] at hp'; cases hp'
    · rw [hp] at hp'; cases hp'
      rw [hok] at h
      simp only at h
      split at h
      · cases h
      · rename_i hd
        rw [walk_loop hg hf maxHops _ (by omega) hb (.inl rfl) (hel (fun e => hd (hdot.2 e)))] at h
        cases h

/-- A free entry of a directory that the elements lead to is reported as "does not exist". -/
theorem resolve_free {s : St} (hg : Good s) {b : Id} (hb : s.isDir b) {pre : List Str} {k : Str} (hn : ∀ c ∈ pre ++ [k], IsName c) {d : Id} (hd : Leads s b pre d) (hdd : s.isDir d)
    (hfree : s.lookup d k = none) : resolve s b b (join (pre ++ [k])) true = .error .notExist := by
  obtain ⟨n, hn40, hf⟩ := hd
  unfold resolve
  have hp := placeOf_join hn (by simp)
  rcases normalize_spec (join (pre ++ [k])) with ⟨e, he, hp'⟩ | ⟨ns', hp', hok, hdot, hel⟩
  · rw [hp] at hp'; cases hp'
  · rw [hp] at hp'; cases hp'
    rw [hok]
    simp only
    have hdot' : clean (join (pre ++ [k])) ≠ dot := fun h => by have := hdot.1 h; simp at this
    rw [if_neg hdot']
    exact walk_missing hg hf (hn k (by simp)) maxHops _ 0 hn40 hb (.inl rfl) hdd hfree (by rw [hel (by simp)]; simp)

/-- The walk is the same after a new node took a free place, or the place of a link that leads nowhere. -/
theorem Finds.replant {s s' : St} {V : List Nat} {d : Id} {k : Str} {x : Node} (hg : Good s) {b : Id} (hlk : ∀ c, s.lookup d k = some c → s.isLink c) (hdead : ¬ ∃ n m, Finds s b true d [k] n m)
    (ha : Puts V s s' d k x) {cur m : Id} {es : List Str} {n : Nat} (h : Finds s b true cur es n m) : s.isDir cur → Finds s' b true cur es n m := by
  have hl : ∀ e j c, s.lookup e j = some c → ¬ (e = d ∧ j = k) → s'.lookup e j = some c := by
    intro e j c hc hne
    rw [ha.rest e j hne]; exact hc
  have hnodes : ∀ i n, s.look i = some n → s'.look i = some n := by
    intro i n hi
    obtain ⟨c, hc, _, _, hs⟩ := ha.new
    rw [hs i]; exact hi
    rintro rfl
    unfold St.look at hi
    rw [hc] at hi; cases hi
  have hlink : ∀ (i : Id) nm t, s.nodes[i]? = some (Node.link nm t) → s'.nodes[i]? = some (Node.link nm t) := by
    intro i nm t hi
    have := hnodes i (Node.link nm t) (by unfold St.look; rw [hi]; rfl)
    unfold St.look at this
    cases hx : s'.nodes[i]? with
    | none => rw [hx] at this; cases this
    | some y => rw [hx] at this; cases y <;> simp_all [skel]
  have hdir : ∀ i, s.isDir i → s'.isDir i := by
    intro i hi
    obtain ⟨r, hr⟩ := isDir_iff_look.1 hi
    exact isDir_iff_look.2 ⟨r, hnodes i _ hr⟩
  have notLink : ∀ i, s.isDir i → ¬ s.isLink i := by
    rintro i ⟨r, hr⟩ ⟨nm, t, ht⟩
    rw [dir?_iff, ht] at hr; cases hr
  induction h with
  | done => intro _; exact .done
  | stay he _ ih => intro hd; exact .stay he (ih hd)
  | up hne hk _ ih =>
    intro hd
    refine .up hne (hl _ _ _ hk ?_) (ih (lookup_isDir hk))
    rintro ⟨rfl, rfl⟩
    exact notLink _ hd (hlk _ hk)
  | @last cur e c hp hk hnl =>
    intro hd
    refine .last hp (hl _ _ _ hk ?_) ?_
    · rintro ⟨rfl, rfl⟩; exact hdead ⟨_, _, .last hp hk hnl⟩
    · rintro ht ⟨nm, t, hc⟩
      apply hnl ht
      obtain ⟨n0, hn0, _⟩ := hg.child _ _ _ hk
      have := hnodes c n0 hn0
      unfold St.look at this hn0
      rw [hc] at this
      cases hx : s.nodes[c]? with
      | none => rw [hx] at hn0; cases hn0
      | some y =>
        rw [hx] at hn0
        cases hn0
        cases y with
        | link a b => exact ⟨a, b, hx⟩
        | dir r => simp [skel] at this
        | file a b v => simp [skel] at this
  | down hp hk hc hne _ ih =>
    intro hd
    refine .down hp (hl _ _ _ hk ?_) (hdir _ hc) hne (ih hc)
    rintro ⟨rfl, rfl⟩
    exact notLink _ hc (hlk _ hk)
  | @link cur e c es n m nm t hp hk hn habs hcond hrec ih =>
    intro hd
    refine .link hp (hl _ _ _ hk ?_) (hlink _ _ _ hn) habs hcond (ih hd)
    rintro ⟨rfl, rfl⟩
    have hall := Finds.link hp hk hn habs hcond hrec
    by_cases hes : es = []
    · subst hes; exact hdead ⟨_, _, hall⟩
    · obtain ⟨d', n1, _, _, h2, _⟩ := hall.split (es := [e]) (suf := es) hd hes rfl
      exact hdead ⟨n1, d', h2⟩

/-! ### The parents -/

theorem puts_dir {s : St} {d : Id} (hd : s.isDir d) (k : Str) : Puts [] s (s.put d k (.dir (newDir k 0o755 (some d)))) d k (.dir ⟨k, some d, [], [], 0o755⟩) := by
  have hblank : (Node.dir (newDir k 0o755 (some d))).Blank := by simp [Node.Blank, newDir]
  have hlt : d < s.nodes.length := by obtain ⟨r, hr⟩ := hd; exact lt_of_dir hr
  refine ⟨?_, ⟨s.nodes.length, by simp, ?_, ?_, ?_⟩, fun hf => adds_put hd hblank hf, by rw [closed_put]; simp⟩
  · intro e j hne; rw [lookup_put hd hblank, if_neg hne]
  · rw [lookup_put hd hblank, if_pos ⟨rfl, rfl⟩]
  · exact getElem?_put hlt k _
  · intro i hi; rw [look_put, if_neg hi]

theorem missing_iff {s : St} (hg : Good s) {b : Id} (hb : s.isDir b) {ns : List Str} (hn : ∀ c ∈ ns, IsName c) (hne : ns ≠ []) :
    resolve s b b (join ns) true = .error .notExist ↔ Missing s b ns := by
  rw [resolve_refused hg hb]
  unfold Refused Missing
  rw [placeOf_join hn hne]
  constructor
  · rintro (⟨h, _⟩ | ⟨ns', h, h' | ⟨h', _⟩⟩)
    · cases h
    · cases h; exact h'
    · cases h'
  · intro h; exact .inr ⟨ns, rfl, .inl h⟩

/-- From the first directory that does not exist on, all are made. -/
theorem ensureEach_chain (b : Id) : ∀ (rest pre : List Str) (k : Str) (s : St) (d q : Id), Good s → s.isDir b → (∀ c ∈ pre ++ k :: rest, IsName c) → Leads s b pre d → s.isDir d →
    resolve s b b (join (pre ++ [k])) true = .error .notExist →
    ∃ s' e, ensureEach b (heads pre (k :: rest)) q s = (s', .ok e) ∧ MakesDirs s s' d (k :: rest) e ∧ Leads s' b (pre ++ k :: rest) e ∧ s'.isDir e ∧ ∀ j, s'.lookup e j = none := by
  intro rest
  induction rest with
  | nil =>
    intro pre k s d q hg hb hn hd hdd hmiss
    have hpar := (resolveParent_iff hg hb (join (pre ++ [k])) d k).2 (place_of hn hd hdd)
    have hputs := puts_dir hdd k
    have hlk : ∀ c, s.lookup d k = some c → s.isLink c := fun c hc => missing_is_link hg hb hmiss hpar hc
    have hpres : Pres s (s.put d k (.dir (newDir k 0o755 (some d)))) := pres_putDir hdd k 0o755
    have hblank : (Node.dir (newDir k 0o755 (some d))).Blank := by simp [Node.Blank, newDir]
    have hlt : d < s.nodes.length := by obtain ⟨r, hr⟩ := hdd; exact lt_of_dir hr
    have hlook : (s.put d k (.dir (newDir k 0o755 (some d)))).lookup d k = some s.nodes.length := by rw [lookup_put hdd hblank, if_pos ⟨rfl, rfl⟩]
    have hnode := getElem?_put hlt k (.dir (newDir k 0o755 (some d)))
    obtain ⟨n, hn40, hf⟩ := hd
    have hkn := hn k (by simp)
    have hdead : ¬ ∃ n m, Finds s b true d [k] n m := by
      rintro ⟨n', m, hf'⟩
      exact resolve_dead hg hb (placeOf_join hn (by simp)) hmiss ⟨_, _, hf.append hdd (by simp) hf'⟩
    have hf' := (hf.replant hg hlk hdead hputs hb).append (suf := [k]) (k := 0) (hpres.keeps d hdd) (by simp) (.last ⟨hkn.1.1, hkn.2.1, hkn.2.2⟩ hlook (by
      rintro _ ⟨nm, t, ht⟩; rw [hnode] at ht; cases ht))
    refine ⟨s.put d k (.dir (newDir k 0o755 (some d))), s.nodes.length, ?_, ⟨hlk, _, _, hputs, hlook, rfl, rfl⟩, ⟨n, hn40, by simpa using hf'⟩, ⟨_, dir?_iff.2 hnode⟩, ?_⟩
    · simp only [heads, ensureEach, hmiss, hpar]
    · intro j; rw [lookup_of_dir (dir?_iff.2 hnode)]; rfl
  | cons k2 rest ih =>
    intro pre k s d q hg hb hn hd hdd hmiss
    have hn1 : ∀ c ∈ pre ++ [k], IsName c := fun c hc => hn c (by simp at hc ⊢; rcases hc with h | h <;> simp [h])
    have hpar := (resolveParent_iff hg hb (join (pre ++ [k])) d k).2 (place_of hn1 hd hdd)
    have hputs := puts_dir hdd k
    have hlk : ∀ c, s.lookup d k = some c → s.isLink c := fun c hc => missing_is_link hg hb hmiss hpar hc
    have hpres : Pres s (s.put d k (.dir (newDir k 0o755 (some d)))) := pres_putDir hdd k 0o755
    have hblank : (Node.dir (newDir k 0o755 (some d))).Blank := by simp [Node.Blank, newDir]
    have hlt : d < s.nodes.length := by obtain ⟨r, hr⟩ := hdd; exact lt_of_dir hr
    have hlook : (s.put d k (.dir (newDir k 0o755 (some d)))).lookup d k = some s.nodes.length := by rw [lookup_put hdd hblank, if_pos ⟨rfl, rfl⟩]
    have hnode := getElem?_put hlt k (.dir (newDir k 0o755 (some d)))
    obtain ⟨n, hn40, hf⟩ := hd
    have hkn := hn k (by simp)
    have hdead : ¬ ∃ n m, Finds s b true d [k] n m := by
      rintro ⟨n', m, hf'⟩
      exact resolve_dead hg hb (placeOf_join hn1 (by simp)) hmiss ⟨_, _, hf.append hdd (by simp) hf'⟩
    have hf' := (hf.replant hg hlk hdead hputs hb).append (suf := [k]) (k := 0) (hpres.keeps d hdd) (by simp) (.last ⟨hkn.1.1, hkn.2.1, hkn.2.2⟩ hlook (by
      rintro _ ⟨nm, t, ht⟩; rw [hnode] at ht; cases ht))
    have hl1 : Leads (s.put d k (.dir (newDir k 0o755 (some d)))) b (pre ++ [k]) s.nodes.length := ⟨n, hn40, by simpa using hf'⟩
    have hempty : ∀ j, (s.put d k (.dir (newDir k 0o755 (some d)))).lookup s.nodes.length j = none := by
      intro j; rw [lookup_of_dir (dir?_iff.2 hnode)]; rfl
    have hg1 := hpres.good hg
    have hb1 := hpres.keeps b hb
    have hd1 : (s.put d k (.dir (newDir k 0o755 (some d)))).isDir s.nodes.length := ⟨_, dir?_iff.2 hnode⟩
    have hn2 : ∀ c ∈ (pre ++ [k]) ++ [k2], IsName c := fun c hc => hn c (by simp at hc ⊢; rcases hc with h | h | h <;> simp [h])
    obtain ⟨s', e, h1, h2, h3, h4, h5⟩ := ih (pre ++ [k]) k2 _ s.nodes.length s.nodes.length hg1 hb1 (by simpa using hn) hl1 hd1 (resolve_free hg1 hb1 hn2 hl1 hd1 (hempty k2))
    refine ⟨s', e, ?_, ⟨hlk, _, _, hputs, hlook, h2⟩, by simpa using h3, h4, h5⟩
    rw [← h1]
    simp only [heads, ensureEach, hmiss, hpar]

/-- The ways the loop ends. -/
theorem ensureEach_cases (b : Id) (s : St) (hg : Good s) (hb : s.isDir b) : ∀ (rest pre : List Str) (d : Id), (∀ c ∈ pre ++ rest, IsName c) → Leads s b pre d → s.isDir d →
    (∃ m, ensureEach b (heads pre rest) d s = (s, .ok m) ∧ Leads s b (pre ++ rest) m ∧ s.isDir m) ∨
    (∃ mid k tail d' s' e, rest = mid ++ k :: tail ∧ Leads s b (pre ++ mid) d' ∧ s.isDir d' ∧ ensureEach b (heads pre rest) d s = (s', .ok e) ∧ MakesDirs s s' d' (k :: tail) e ∧
      Leads s' b (pre ++ rest) e ∧ s'.isDir e ∧ (∀ j, s'.lookup e j = none) ∧ Missing s b (pre ++ mid ++ [k])) ∨
    (∃ e, ensureEach b (heads pre rest) d s = (s, .error e) ∧ ∃ mid k tail d', rest = mid ++ k :: tail ∧ Leads s b (pre ++ mid) d' ∧ s.isDir d' ∧ ¬ Missing s b (pre ++ mid ++ [k]) ∧
      ¬ ∃ m, Leads s b (pre ++ mid ++ [k]) m ∧ s.isDir m) := by
  intro rest
  induction rest with
  | nil =>
    intro pre d _ hd hdd
    exact .inl ⟨d, rfl, by simpa using hd, hdd⟩
  | cons k rest ih =>
    intro pre d hn hd hdd
    have hn1 : ∀ c ∈ pre ++ [k], IsName c := fun c hc => hn c (by simp at hc ⊢; rcases hc with h | h <;> simp [h])
    have hname := placeOf_join hn1 (by simp)
    cases hr : resolve s b b (join (pre ++ [k])) true with
    | ok r =>
      obtain ⟨ns', n, hp', h1, h2⟩ := (resolve_iff hg hb (join (pre ++ [k])) r.node).1 ⟨r, hr, rfl⟩
      rw [hname] at hp'
      cases hp'
      cases hdr : s.dir? r.node with
      | none =>
        refine .inr (.inr ⟨.notDir, ?_, [], k, rest, d, rfl, by simpa using hd, hdd, ?_, ?_⟩)
        · simp only [heads, ensureEach, hr, hdr]
        · intro h
          rw [List.append_nil, ← missing_iff hg hb hn1 (by simp), hr] at h
          cases h
        · rintro ⟨m, hm, x, hx⟩
          have : m = r.node := Leads.unique hg hb hn1 (by simpa using hm) ⟨n, h1, h2⟩
          rw [this, hdr] at hx; cases hx
      | some x =>
        have hstep : ensureEach b (heads pre (k :: rest)) d s = ensureEach b (heads (pre ++ [k]) rest) r.node s := by simp only [heads, ensureEach, hr, hdr]
        rw [hstep]
        rcases ih (pre ++ [k]) r.node (by simpa using hn) ⟨n, h1, h2⟩ ⟨x, hdr⟩ with ⟨m, h3, h4, h5⟩ | ⟨mid, k', tail, d', s', e, h3, h4, h5, h6, h7, h8, h9, h10, h11⟩ | ⟨e, h3, mid, k', tail, d', h4, h5, h6, h7, h8⟩
        · exact .inl ⟨m, h3, by simpa using h4, h5⟩
        · exact .inr (.inl ⟨k :: mid, k', tail, d', s', e, by rw [h3]; rfl, by simpa using h4, h5, h6, h7, by simpa using h8, h9, h10, by simpa using h11⟩)
        · exact .inr (.inr ⟨e, h3, k :: mid, k', tail, d', by rw [h4]; rfl, by simpa using h5, h6, by simpa using h7, by simpa using h8⟩)
    | error e =>
      by_cases hne : e = .notExist
      · subst hne
        obtain ⟨s', e, h1, h2, h3, h4, h5⟩ := ensureEach_chain b rest pre k s d d hg hb hn hd hdd hr
        refine .inr (.inl ⟨[], k, rest, d, s', e, rfl, by simpa using hd, hdd, h1, h2, h3, h4, h5, ?_⟩)
        rw [List.append_nil]
        exact (missing_iff hg hb hn1 (by simp)).1 hr
      · refine .inr (.inr ⟨e, ?_, [], k, rest, d, rfl, by simpa using hd, hdd, ?_, ?_⟩)
        · simp only [heads, ensureEach, hr]
        · intro h
          rw [List.append_nil, ← missing_iff hg hb hn1 (by simp), hr] at h
          exact hne (Except.error.inj h)
        · rintro ⟨m, ⟨n, h1, h2⟩, _⟩
          obtain ⟨r, hr', _⟩ := (resolve_iff hg hb (join (pre ++ [k])) m).2 ⟨pre ++ [k], n, hname, h1, by simpa using h2⟩
          rw [hr] at hr'; cases hr'

/-- What finding the parents does. -/
structure Prepares (s : St) (b : Id) (name : Str) (r : St × Except Err (Id × Str)) : Prop where
  there : ∀ d k, Place s b name d k → r = (s, .ok (d, k))
  missing : ∀ pre j rest k d, placeOf name = some (pre ++ j :: rest ++ [k]) → Leads s b pre d → s.isDir d → Missing s b (pre ++ [j]) → ∃ s1 e, r = (s1, .ok (e, k))
  ok : ∀ s1 d k, r = (s1, .ok (d, k)) → Parents s b name s1 d k ∧ ((s1 = s ∧ Place s b name d k) ∨ ∀ j, s1.lookup d j = none)
  failed : ∀ s1 e, r = (s1, .error e) → s1 = s

theorem ensureParents_eq {s : St} {b : Id} {name : Str} : (∃ e, ensureParents s b name = (s, .error e) ∧ ∀ ns k, placeOf name ≠ some (ns ++ [k])) ∨
    ∃ ns k, placeOf name = some (ns ++ [k]) ∧ (∀ c ∈ ns ++ [k], IsName c) ∧
      ensureParents s b name = ((ensureEach b (heads [] ns) b s).1, match (ensureEach b (heads [] ns) b s).2 with
        | .error e => .error e
        | .ok d => .ok (d, k)) := by
  unfold ensureParents
  rcases normalize_spec name with ⟨e', he', hno⟩ | ⟨ns, hpl, hok, hdot, _⟩
  · rw [he', hno]; exact .inl ⟨e', rfl, by simp⟩
  · rw [hok]
    simp only
    by_cases hns : ns = []
    · rw [if_pos (hdot.2 hns), hpl, hns]
      exact .inl ⟨.invalid, rfl, by simp⟩
    · rw [if_neg (fun h => hns (hdot.1 h))]
      obtain ⟨habs, hcs, hname⟩ := placeOf_some hpl
      have hclean : clean name = join ns := by
        unfold clean
        rw [habs, hcs]
        unfold render; simp [hns]
      rcases List.eq_nil_or_concat ns with he | ⟨init, x, he⟩
      · exact absurd he hns
      rw [List.concat_eq_append] at he
      subst he
      rw [hclean, splitLast_join hname]
      refine .inr ⟨init, x, hpl, hname, ?_⟩
      have hini : ∀ c ∈ init, IsName c := fun c hc => hname c (List.mem_append_left _ hc)
      by_cases hi : init = []
      · subst hi; rfl
      · simp only [if_neg hi]
        have : join init ≠ dot := by
          intro h
          have hp := placeOf_join hini hi
          rw [h] at hp
          have h0 : placeOf dot = some [] := by decide
          rw [h0] at hp
          exact hi (Option.some.inj hp).symm
        rw [if_neg this, head_paths hini hi]
        cases ensureEach b (heads [] init) b s with
        | mk s1 r => cases r <;> rfl

theorem ensureParents_exact {s : St} (hg : Good s) {b : Id} (hb : s.isDir b) (name : Str) : Prepares s b name (ensureParents s b name) := by
  rcases ensureParents_eq (s := s) (b := b) (name := name) with ⟨e, he, hno⟩ | ⟨ns, k, hpl, hn, heq⟩
  · rw [he]
    refine ⟨?_, ?_, ?_, ?_⟩
    · rintro d k ⟨ns, _, hp, _⟩; exact absurd hp (hno ns k)
    · intro pre j rest k d hp; exact absurd hp (hno _ k)
    · intro s1 d k h; cases h
    · intro s1 e h; cases h; rfl
  · have hini : ∀ c ∈ ns, IsName c := fun c hc => hn c (List.mem_append_left _ hc)
    have hstart : Leads s b [] b := ⟨0, by omega, .done⟩
    have hcases := ensureEach_cases b s hg hb ns [] b (by simpa using hini) hstart hb
    simp only [List.nil_append] at hcases
    have hbad : ∀ mid j tail, ns = mid ++ j :: tail → (¬ ∃ m, Leads s b (mid ++ [j]) m ∧ s.isDir m) → ∀ q rest, ns = q ++ rest → mid.length < q.length →
        ∀ m, Leads s b q m → s.isDir m → False := by
      intro mid j tail h1 h2 q rest h3 hlt m hm hmd
      have hp : mid ++ [j] <+: q := List.prefix_of_prefix_length_le (l₃ := ns) ⟨tail, by rw [h1]; simp⟩ ⟨rest, h3.symm⟩ (by simp; omega)
      obtain ⟨x, hx⟩ := hp
      by_cases hxe : x = []
      · rw [hxe, List.append_nil] at hx
        exact h2 ⟨m, by rw [hx]; exact hm, hmd⟩
      · rw [← hx] at hm
        obtain ⟨d, _, hd1, hd2, _⟩ := hm.prefix hb hxe
        exact h2 ⟨d, hd1, hd2⟩
    have hpl' : ∀ {ns' k'}, placeOf name = some (ns' ++ [k']) → ns' = ns ∧ k' = k := by
      intro ns' k' h
      rw [hpl] at h
      obtain ⟨e1, e2⟩ := List.append_inj' (Option.some.inj h) rfl
      exact ⟨e1.symm, (List.cons.inj e2).1.symm⟩
    rw [heq]
    rcases hcases with ⟨m, h1, h2, h3⟩ | ⟨mid, j, tail, d', s', e, h1, h2, h3, h4, h5, h6, h7, h8, h9⟩ | ⟨e, h1, mid, j, tail, d', h2, h3, h4, h5, h6⟩
    · rw [h1]
      obtain ⟨n, hn40, hf⟩ := h2
      have hplace : Place s b name m k := ⟨ns, n, hpl, hn40, hf, h3⟩
      refine ⟨?_, ?_, ?_, ?_⟩
      · intro d k' hp
        obtain ⟨rfl, rfl⟩ := hp.unique hg hb hplace
        rfl
      · intro pre j rest k' d hp _ _ _
        obtain ⟨_, rfl⟩ := hpl' hp
        exact ⟨s, m, rfl⟩
      · intro s1 d k' h
        cases h
        exact ⟨⟨⟨ns, [], m, by simpa using hpl, ⟨n, hn40, hf⟩, h3, by simp, rfl, rfl⟩, hplace⟩, .inl ⟨rfl, hplace⟩⟩
      · intro s1 e h; cases h
    · rw [h4]
      obtain ⟨n, hn40, hf⟩ := h6
      have hplace : Place s' b name e k := ⟨ns, n, hpl, hn40, hf, h7⟩
      refine ⟨?_, ?_, ?_, ?_⟩
      · rintro d k' ⟨ns', n', hp, hn', hf', hd'⟩
        obtain ⟨rfl, rfl⟩ := hpl' hp
        -- the parents are there, so nothing was made
        exfalso
        have hl : Leads s b ns' d := ⟨n', hn', hf'⟩
        have hn1 : ∀ c ∈ mid ++ [j], IsName c := fun c hc => hini c (by rw [h1]; simp at hc ⊢; rcases hc with h | h <;> simp [h])
        have h9 : ¬ ∃ m, Leads s b (mid ++ [j]) m := by
          rintro ⟨m, n, _, hf⟩
          exact resolve_dead hg hb (placeOf_join hn1 (by simp)) ((missing_iff hg hb hn1 (by simp)).2 h9) ⟨n, m, hf⟩
        rw [h1] at hl
        by_cases ht : tail = []
        · subst ht; exact h9 ⟨d, hl⟩
        · rw [show mid ++ j :: tail = (mid ++ [j]) ++ tail by simp] at hl
          obtain ⟨d2, _, h10, _⟩ := hl.prefix hb ht
          exact h9 ⟨d2, h10⟩
      · intro pre j' rest k' d hp _ _ _
        obtain ⟨_, rfl⟩ := hpl' hp
        exact ⟨s', e, rfl⟩
      · intro s1 d k' h
        cases h
        exact ⟨⟨⟨mid, j :: tail, d', by rw [hpl, h1], h2, h3, by rintro _ _ h; cases h; exact h9, h5⟩, hplace⟩, .inr h8⟩
      · intro s1 e h; cases h
    · rw [h1]
      refine ⟨?_, ?_, ?_, ?_⟩
      · rintro d k' ⟨ns', n', hp, hn', hf', hd'⟩
        obtain ⟨rfl, rfl⟩ := hpl' hp
        exact (hbad mid j tail h2 h6 ns' [] (by simp) (by rw [h2]; simp) d ⟨n', hn', hf'⟩ hd').elim
      · intro pre j' rest k' d hp hd hdd hfree
        obtain ⟨hp', rfl⟩ := hpl' hp
        exfalso
        by_cases hlt : mid.length < pre.length
        · exact hbad mid j tail h2 h6 pre (j' :: rest) hp'.symm hlt d hd hdd
        · by_cases heq : pre.length = mid.length
          · obtain ⟨rfl, h⟩ := List.append_inj (hp'.trans h2) heq
            cases h
            exact h5 hfree
          · have hlt' : pre.length < mid.length := by omega
            have hpx : pre ++ [j'] <+: mid := List.prefix_of_prefix_length_le (l₃ := ns) ⟨rest, by rw [← hp']; simp⟩ ⟨_, h2.symm⟩ (by simp; omega)
            obtain ⟨x, hx⟩ := hpx
            have hn1 : ∀ c ∈ pre ++ [j'], IsName c := fun c hc => hini c (by rw [h2, ← hx]; simp at hc ⊢; rcases hc with h | h <;> simp [h])
            have hdead := resolve_dead hg hb (placeOf_join hn1 (by simp)) ((missing_iff hg hb hn1 (by simp)).2 hfree)
            by_cases hxe : x = []
            · rw [hxe, List.append_nil] at hx
              obtain ⟨n, _, hf⟩ := h3
              exact hdead ⟨n, d', by rw [hx]; exact hf⟩
            · rw [← hx] at h3
              obtain ⟨m, _, ⟨n, _, hf⟩, _⟩ := h3.prefix hb hxe
              exact hdead ⟨n, m, hf⟩
      · intro s1 d k' h; cases h
      · intro s1 e h; cases h; rfl

/-! ### The file -/

theorem puts_unlink {s : St} {d : Id} (hd : s.isDir d) (k : Str) {n : Node} (hb : n.Blank) :
    Puts (match s.lookup d k with | none => [] | some c => s.viewsOf c) s ((s.unlink d k).put d k n) d k n := by
  obtain ⟨h1, h2, h3⟩ := unlink_facts s d k
  have hd1 : (s.unlink d k).isDir d := (isDir_congr h1 d).2 hd
  have hlt : d < (s.unlink d k).nodes.length := by obtain ⟨r, hr⟩ := hd1; exact lt_of_dir hr
  refine ⟨?_, ⟨s.nodes.length, by simp, ?_, ?_, ?_⟩, fun hf => ?_, ?_⟩
  · intro e j hne; rw [lookup_put hd1 hb, if_neg hne, h3 e j hne]
  · rw [lookup_put hd1 hb, if_pos ⟨rfl, rfl⟩, h2]
  · rw [← h2]; exact getElem?_put hlt k n
  · intro i hi; rw [look_put, if_neg (by rw [h2]; exact hi), h1]
  · have : s.unlink d k = s := by unfold St.unlink; rw [hf]
    rw [this]; exact adds_put hd hb hf
  · rw [closed_put]
    unfold St.unlink
    cases hx : s.lookup d k with
    | none => simp
    | some c =>
      simp only
      rw [closed_closeView, viewsOf_look (look_removeEntry s d k), closed_removeEntry]

/-- What is at the entry `k` of the directory `d`. -/
def KindAt (s : St) (d : Id) (k : Str) (ex : Option Kind) : Prop :=
  (s.lookup d k = none ∧ ex = none) ∨ ∃ c n, s.lookup d k = some c ∧ s.nodes[c]? = some n ∧ ex = some n.kind

theorem kindAt {s : St} (hg : Good s) (d : Id) (k : Str) : KindAt s d k (s.existing d k) := by
  cases hx : s.existing d k with
  | none => exact .inl ⟨existing_none hg hx, rfl⟩
  | some kd =>
    unfold St.existing at hx
    cases hl : s.lookup d k with
    | none => rw [hl] at hx; cases hx
    | some c =>
      rw [hl] at hx
      cases hn : s.nodes[c]? with
      | none => simp [hn] at hx
      | some n => simp [hn] at hx; exact .inr ⟨c, n, hl, hn, by rw [hx]⟩

/-- The views that replacing the entry closes. -/
def replaced (s : St) (d : Id) (k : Str) : List Nat := match s.lookup d k with
  | none => []
  | some c => s.viewsOf c

/-- What the callback says is done: the file is put there, or nothing is. -/
def Obeys (cb : AddFunc) (path : Str) (s1 : St) (d : Id) (k : Str) (mode view : Nat) (r : St × Option Err) : Prop :=
  ∃ ex, KindAt s1 d k ex ∧ match cb path .file ex with
    | .error e => r = (s1, some e)
    | .ok .override => r.2 = none ∧ Puts (replaced s1 d k) s1 r.1 d k (.file k mode view)
    | .ok _ => r = (s1, none)

/-! ### Property C51 -/

/-- **C51** (AddFile, any callback). After any history: either nothing changes and there is an error, or the missing parents are made and the callback, told what is at the place of the name, is
obeyed. When the parents are there, or when the first one that is not there is missing (its place is free, or a link in it leads to something missing), it is the latter;
and in the first case nothing is made. -/
theorem C51_addFile (hist : List (Nat × Call)) (b : Id) (hb : b ∈ (after hist).roots) (cb : AddFunc) (name : Str) (mode view : Nat) :
    (∀ d k, Place (after hist).st b name d k → Obeys cb (clean name) (after hist).st d k mode view (addFile cb (after hist).st b name mode view)) ∧
    (∀ pre j rest k d, placeOf name = some (pre ++ j :: rest ++ [k]) → Leads (after hist).st b pre d → (after hist).st.isDir d → Missing (after hist).st b (pre ++ [j]) →
      ∃ s1 e, Parents (after hist).st b name s1 e k ∧ Obeys cb (clean name) s1 e k mode view (addFile cb (after hist).st b name mode view)) ∧
    (((addFile cb (after hist).st b name mode view).1 = (after hist).st ∧ (addFile cb (after hist).st b name mode view).2 ≠ none) ∨
      ∃ s1 d k, Parents (after hist).st b name s1 d k ∧ Obeys cb (clean name) s1 d k mode view (addFile cb (after hist).st b name mode view)) := by
  obtain ⟨hg, hbd⟩ := good_after hist hb
  have hprep := ensureParents_exact hg hbd name
  have hpres := pres_ensureParents hbd name
  have obeys : ∀ s1 d k, ensureParents (after hist).st b name = (s1, .ok (d, k)) → Obeys cb (clean name) s1 d k mode view (addFile cb (after hist).st b name mode view) := by
    intro s1 d k he
    rw [he] at hpres
    refine ⟨s1.existing d k, kindAt (hpres.1.good hg) d k, ?_⟩
    unfold addFile
    rw [he]
    simp only
    cases hc : cb (clean name) .file (s1.existing d k) with
    | error e => rfl
    | ok dec =>
      cases dec with
      | skip => rfl
      | keep => rfl
      | override => exact ⟨rfl, puts_unlink (hpres.2 d k rfl) k trivial⟩
  refine ⟨fun d k hp => obeys _ d k (hprep.there d k hp), ?_, ?_⟩
  · intro pre j rest k d h1 h2 h3 h4
    obtain ⟨s1, e, he⟩ := hprep.missing pre j rest k d h1 h2 h3 h4
    exact ⟨s1, e, (hprep.ok s1 e k he).1, obeys s1 e k he⟩
  · cases he : ensureParents (after hist).st b name with
    | mk s1 q =>
      cases q with
      | error e =>
        left
        have := hprep.failed s1 e he
        unfold addFile
        rw [he]
        exact ⟨this, by simp⟩
      | ok q =>
        obtain ⟨d, k⟩ := q
        exact .inr ⟨s1, d, k, (hprep.ok s1 d k he).1, obeys s1 d k he⟩

/-- **C51** (AddFile, the three policies). Obeying MergeOverwrite puts the file there whatever was there. Obeying MergeKeep puts it there if the place was free and does nothing
otherwise. Obeying FailOnConflict puts it there if the place was free and otherwise fails with "exists". -/
theorem C51_addFile_policies (s1 : St) (d : Id) (k path : Str) (mode view : Nat) (r : St × Option Err) :
    (Obeys mergeOverwrite path s1 d k mode view r → r.2 = none ∧ Puts (replaced s1 d k) s1 r.1 d k (.file k mode view)) ∧
    (Obeys mergeKeep path s1 d k mode view r → if s1.lookup d k = none then r.2 = none ∧ Adds s1 r.1 d k (.file k mode view) else r = (s1, none)) ∧
    (Obeys failOnConflict path s1 d k mode view r → if s1.lookup d k = none then r.2 = none ∧ Adds s1 r.1 d k (.file k mode view) else r = (s1, some .exist)) := by
  refine ⟨?_, ?_, ?_⟩
  · rintro ⟨ex, hk, h⟩
    rcases hk with ⟨hl, rfl⟩ | ⟨c, n, hl, hn, rfl⟩
    · exact h
    · simpa [mergeOverwrite] using h
  · rintro ⟨ex, hk, h⟩
    rcases hk with ⟨hl, rfl⟩ | ⟨c, n, hl, hn, rfl⟩
    · rw [if_pos hl]; exact ⟨h.1, h.2.lists hl⟩
    · rw [if_neg (by rw [hl]; simp)]; exact h
  · rintro ⟨ex, hk, h⟩
    rcases hk with ⟨hl, rfl⟩ | ⟨c, n, hl, hn, rfl⟩
    · rw [if_pos hl]; exact ⟨h.1, h.2.lists hl⟩
    · rw [if_neg (by rw [hl]; simp)]; simpa [failOnConflict] using h

/-! AddFS -/

theorem dot_place {name : Str} (h : clean name = dot) {ns : List Str} (hp : placeOf name = some ns) : ns = [] := by
  rcases normalize_spec name with ⟨e', _, hno⟩ | ⟨ns', hpl, _, hdot, _⟩
  · rw [hp] at hno; cases hno
  · rw [hp] at hpl; cases hpl; exact hdot.1 h

theorem place_dot {name : Str} (h : clean name = dot) (hok : ∃ ns, placeOf name = some ns) : placeOf name = some [] := by
  obtain ⟨ns, hp⟩ := hok
  rw [hp, dot_place h hp]

/-- A source that fits where its place is fits after the parents were made. -/
theorem fits_parents {s : St} (hg : Good s) {b : Id} (hb : s.isDir b) {name : Str} {src : Src} (hfit : ∀ d k, Place s b name d k → Fits s d k src) :
    ∀ s1 d base, ensureParents s b name = (s1, .ok (d, base)) → Fits s1 d base src := by
  intro s1 d k he
  rcases ((ensureParents_exact hg hb name).ok s1 d k he).2 with ⟨rfl, hp⟩ | h
  · exact hfit d k hp
  · cases src with
    | dir m ok kids => intro c hc; rw [h k] at hc; cases hc
    | file => trivial
    | link => trivial
    | bad => trivial

theorem addFS_named {fuel : Nat} {cb : AddFunc} {s : St} {b : Id} {name : Str} {src : Src} {s' : St} (h : addFS fuel cb s b name src = (s', none)) : ∃ ns, placeOf name = some ns := by
  unfold addFS at h
  rcases normalize_spec name with ⟨e', he', _⟩ | ⟨ns, hpl, _⟩
  · rw [he'] at h; cases h
  · exact ⟨ns, hpl⟩

/-- **C51** (MergeKeep; partial: sources that nowhere have a directory in the place of a file or link, see `C51_counterexample_keep_replaces_file`). After
any history, AddFS of such a source, at any name, whether it succeeds or fails on the way, keeps every existing entry. -/
theorem C51_keep_partial (hist : List (Nat × Call)) (b : Id) (hb : b ∈ (after hist).roots) (fuel : Nat) (name : Str) (src : Src)
    (hroot : placeOf name = some [] → ∀ m kids, src = .dir m true kids → FitsKids (after hist).st b kids)
    (hfit : ∀ d k, Place (after hist).st b name d k → Fits (after hist).st d k src) :
    Kept name src.views (after hist).st (addFS fuel mergeKeep (after hist).st b name src).1 := by
  obtain ⟨hg, hbd⟩ := good_after hist hb
  rcases normalize_spec name with ⟨e', he', _⟩ | ⟨ns, hpl, _⟩
  · unfold addFS
    rw [he']
    exact ⟨fun _ _ => rfl, fun _ _ _ h _ => h, fun _ h => .inl h⟩
  · exact kept_addFS hg hbd fuel mergeKeep mergeKeep_noReplace name src (.inr ⟨fun hc => hroot (place_dot hc ⟨ns, hpl⟩), fits_parents hg hbd hfit⟩)

/-- **C51** (MergeKeep; partial: histories in which no directory was renamed into itself, and sources as above). When AddFS succeeds, whatever of the source had its place free is found
there with all that it contains; a directory of the source in the place of a directory has filled it likewise. No entry changed but those whose place the source names, and the parents that were made. -/
theorem C51_keep_fills_partial (hist : List (Nat × Call)) (ht : TameRun World.init hist) (b : Id) (hb : b ∈ (after hist).roots) (fuel : Nat) (name : Str) (src : Src) (hdist : src.Distinct)
    (hroot : placeOf name = some [] → ∀ m kids, src = .dir m true kids → FitsKids (after hist).st b kids)
    (hfit : ∀ d k, Place (after hist).st b name d k → Fits (after hist).st d k src)
    (s' : St) (h : addFS fuel mergeKeep (after hist).st b name src = (s', none)) :
    (placeOf name = some [] ∧ ∃ mode kids, src = .dir mode true kids ∧ FilledKids (after hist).st s' b kids ∧ ∀ e k, ¬ NamedKids s' b e k kids → s'.lookup e k = (after hist).st.lookup e k) ∨
    (∃ s1 d k, Parents (after hist).st b name s1 d k ∧ Filled s1 s' d k src ∧ ∀ e j, ¬ Named s' d k e j src → s'.lookup e j = s1.lookup e j) := by
  obtain ⟨hg, hbd⟩ := good_after hist hb
  have hnm := addFS_named h
  rcases addFS_fills hist ht b hb fuel name src hdist (fun hc => hroot (place_dot hc hnm)) (fits_parents hg hbd hfit) s' h with ⟨h1, h2⟩ | ⟨h1, s1, d, k, he, h2, h3⟩
  · exact .inl ⟨place_dot h1 hnm, h2⟩
  · exact .inr ⟨s1, d, k, ((ensureParents_exact hg hbd name).ok s1 d k he).1, h2, h3⟩

/-- **C51** (MergeOverwrite; partial: histories in which no directory was renamed into itself). When AddFS succeeds, the source is found
at the place that was asked for: its directories are directories there, its files have their views, its links their targets. Every
entry whose place the source does not name is as it was after the missing parents were made, and no node that was there changed. -/
theorem C51_overwrite_partial (hist : List (Nat × Call)) (ht : TameRun World.init hist) (b : Id) (hb : b ∈ (after hist).roots) (fuel : Nat) (name : Str) (src : Src) (hdist : src.Distinct)
    (s' : St) (h : addFS fuel mergeOverwrite (after hist).st b name src = (s', none)) :
    (placeOf name = some [] ∧ ∃ mode kids, src = .dir mode true kids ∧ LandedKids s' b kids ∧ ∀ e k, ¬ NamedKids s' b e k kids → s'.lookup e k = (after hist).st.lookup e k) ∨
    (∃ s1 d k, Parents (after hist).st b name s1 d k ∧ Landed s' d k src ∧ (∀ e j, ¬ Named s' d k e j src → s'.lookup e j = s1.lookup e j) ∧
      ∀ i, i < s1.nodes.length → s'.look i = s1.look i) := by
  obtain ⟨hg, hbd⟩ := good_after hist hb
  have hnm := addFS_named h
  rcases addFS_wins wins_overwrite hist ht b hb fuel name src hdist s' h with ⟨h1, h2⟩ | ⟨h1, s1, d, k, he, h2⟩
  · exact .inl ⟨place_dot h1 hnm, h2⟩
  · exact .inr ⟨s1, d, k, ((ensureParents_exact hg hbd name).ok s1 d k he).1, h2⟩

/-- **C51** (FailOnConflict; partial: histories in which no directory was renamed into itself). When AddFS succeeds, the source is found at the place that was
asked for, in the same sense: nothing of it was left out because something was there already. (That everything that was there is kept is
`C51_failOnConflict`.) -/
theorem C51_failOnConflict_lands_partial (hist : List (Nat × Call)) (ht : TameRun World.init hist) (b : Id) (hb : b ∈ (after hist).roots) (fuel : Nat) (name : Str) (src : Src) (hdist : src.Distinct)
    (s' : St) (h : addFS fuel failOnConflict (after hist).st b name src = (s', none)) :
    (placeOf name = some [] ∧ ∃ mode kids, src = .dir mode true kids ∧ LandedKids s' b kids ∧ ∀ e k, ¬ NamedKids s' b e k kids → s'.lookup e k = (after hist).st.lookup e k) ∨
    (∃ s1 d k, Parents (after hist).st b name s1 d k ∧ Landed s' d k src ∧ (∀ e j, ¬ Named s' d k e j src → s'.lookup e j = s1.lookup e j) ∧
      ∀ i, i < s1.nodes.length → s'.look i = s1.look i) := by
  obtain ⟨hg, hbd⟩ := good_after hist hb
  have hnm := addFS_named h
  rcases addFS_wins wins_failOnConflict hist ht b hb fuel name src hdist s' h with ⟨h1, h2⟩ | ⟨h1, s1, d, k, he, h2⟩
  · exact .inl ⟨place_dot h1 hnm, h2⟩
  · exact .inr ⟨s1, d, k, ((ensureParents_exact hg hbd name).ok s1 d k he).1, h2⟩

mutual
/-- Everything in the source can be read. -/
def Src.Readable : Src → Prop
  | .dir _ ok kids => ok = true ∧ ReadableKids kids
  | .file _ v => v ≠ none
  | .link t => t ≠ none
  | .bad => False
def ReadableKids : List (Str × Src) → Prop
  | [] => True
  | (_, c) :: rest => c.Readable ∧ ReadableKids rest
end

/-- The callback never fails, and does not replace a directory by a directory. -/
def Easy (cb : AddFunc) : Prop := ∀ p inc ex, ∃ dec, cb p inc ex = .ok dec ∧ (inc = .dir → ex = some .dir → dec ≠ .override)

theorem easy_overwrite : Easy mergeOverwrite := by
  intro p inc ex
  cases ex with
  | none => exact ⟨.override, rfl, by simp⟩
  | some k =>
    simp only [mergeOverwrite]
    split
    · exact ⟨.keep, rfl, by simp⟩
    · rename_i h; exact ⟨.override, rfl, fun h1 h2 => absurd ⟨h1, Option.some.inj h2⟩ h⟩

theorem easy_keep : Easy mergeKeep := by
  intro p inc ex
  cases ex with
  | none => exact ⟨.override, rfl, by simp⟩
  | some k => exact ⟨.keep, rfl, by simp⟩

theorem materialize_some {fuel : Nat} {s : St} {dst : Id} {base : Str} {mode : Nat} {ov : Bool} (h : ov = true → s.existing dst base ≠ some .dir) :
    ∃ s1 d, materializeDir (fuel + 1) s dst base mode ov = some (s1, d) := by
  unfold materializeDir
  split
  · exact ⟨_, _, rfl⟩
  · rename_i ex hex
    split
    · exact ⟨_, _, rfl⟩
    · split
      · rename_i ho
        have : ∃ s2, removeSubtree (fuel + 1) ex (s.removeEntry dst base) = some s2 := by
          simp only [removeSubtree]
          split
          · rename_i r hr
            have hd : s.isDir ex := (isDir_congr (look_removeEntry s dst base) ex).1 ⟨r, dir?_iff.2 hr⟩
            obtain ⟨r', hr'⟩ := hd
            exact absurd (existing_some hex (dir?_iff.1 hr')) (h ho)
          · exact ⟨_, rfl⟩
          · exact ⟨_, rfl⟩
        obtain ⟨s2, h2⟩ := this
        rw [h2]
        exact ⟨_, _, rfl⟩
      · exact ⟨_, _, rfl⟩

mutual
theorem addWalk_succeeds {cb : AddFunc} (hcb : Easy cb) (fuel : Nat) (s : St) (dst : Id) (base path : Str) : (src : Src) → src.Readable → (addWalk (fuel + 1) cb s dst base path src).2 = none
  | .bad => fun h => h.elim
  | .dir mode ok kids => by
    intro h
    simp only [addWalk]
    obtain ⟨dec, hdec, hno⟩ := hcb path .dir (s.existing dst base)
    rw [hdec]
    cases dec with
    | skip => rfl
    | keep =>
      obtain ⟨s1, d, hm⟩ := materialize_some (fuel := fuel) (s := s) (dst := dst) (base := base) (mode := mode) (ov := false) (by simp)
      simp only [hm, h.1, if_true]
      exact addKids_succeeds hcb fuel s1 d path kids h.2
    | override =>
      obtain ⟨s1, d, hm⟩ := materialize_some (fuel := fuel) (s := s) (dst := dst) (base := base) (mode := mode) (ov := true) (fun _ he => hno rfl he rfl)
      simp only [hm, h.1, if_true]
      exact addKids_succeeds hcb fuel s1 d path kids h.2
  | .link target => by
    intro h
    simp only [addWalk]
    obtain ⟨dec, hdec, _⟩ := hcb path .link (s.existing dst base)
    rw [hdec]
    cases target with
    | none => exact absurd rfl h
    | some t =>
      cases dec with
      | skip => rfl
      | keep => simp only; split <;> rfl
      | override => rfl
  | .file mode view => by
    intro h
    simp only [addWalk]
    obtain ⟨dec, hdec, _⟩ := hcb path .file (s.existing dst base)
    rw [hdec]
    cases view with
    | none => exact absurd rfl h
    | some t =>
      cases dec with
      | skip => rfl
      | keep => simp only; split <;> rfl
      | override => rfl
theorem addKids_succeeds {cb : AddFunc} (hcb : Easy cb) (fuel : Nat) (s : St) (d : Id) (path : Str) : (kids : List (Str × Src)) → ReadableKids kids → (addKids (fuel + 1) cb s d path kids).2 = none
  | [] => fun _ => rfl
  | (k, c) :: rest => by
    intro h
    simp only [addKids]
    have h1 := addWalk_succeeds hcb fuel s d k (slashJoin path k) c h.1
    cases he : addWalk (fuel + 1) cb s d k (slashJoin path k) c with
    | mk s1 r =>
      rw [he] at h1
      simp only at h1
      subst h1
      exact addKids_succeeds hcb fuel s1 d path rest h.2
end

/-- **C51** (AddFS, success). After any history, MergeOverwrite and MergeKeep do not fail on a source that can be read, when the name is the root and the source a directory, when the
parents of the name are there, or when the first one that is not there is missing. -/
theorem C51_addFS_succeeds (hist : List (Nat × Call)) (b : Id) (hb : b ∈ (after hist).roots) (fuel : Nat) (cb : AddFunc) (hcb : cb = mergeOverwrite ∨ cb = mergeKeep) (name : Str) (src : Src)
    (hr : src.Readable)
    (hp : (placeOf name = some [] ∧ ∃ m kids, src = .dir m true kids) ∨ (∃ d k, Place (after hist).st b name d k) ∨
      ∃ pre j rest k d, placeOf name = some (pre ++ j :: rest ++ [k]) ∧ Leads (after hist).st b pre d ∧ (after hist).st.isDir d ∧ Missing (after hist).st b (pre ++ [j])) :
    (addFS (fuel + 1) cb (after hist).st b name src).2 = none := by
  obtain ⟨hg, hbd⟩ := good_after hist hb
  have heasy : Easy cb := by
    rcases hcb with rfl | rfl
    · exact easy_overwrite
    · exact easy_keep
  have hprep := ensureParents_exact hg hbd name
  have fin : ∀ ns k, placeOf name = some (ns ++ [k]) → (∃ s1 d, ensureParents (after hist).st b name = (s1, .ok (d, k))) → (addFS (fuel + 1) cb (after hist).st b name src).2 = none := by
    rintro ns k hpl ⟨s1, d, he⟩
    unfold addFS
    rcases normalize_spec name with ⟨e', _, hno⟩ | ⟨ns', hpl', hok, hdot, _⟩
    · rw [hpl] at hno; cases hno
    · rw [hpl] at hpl'; cases hpl'
      rw [hok]
      simp only
      rw [if_neg (fun h => by have := hdot.1 h; simp at this), he]
      exact addWalk_succeeds heasy fuel s1 d k _ src hr
  rcases hp with ⟨h0, m, kids, rfl⟩ | ⟨d, k, hpl⟩ | ⟨pre, j, rest, k, d, hpl, h1, h2, h3⟩
  · unfold addFS
    rcases normalize_spec name with ⟨e', _, hno⟩ | ⟨ns', hpl', hok, hdot, _⟩
    · rw [h0] at hno; cases hno
    · rw [h0] at hpl'; cases hpl'
      rw [hok]
      simp only
      rw [if_pos (hdot.2 rfl)]
      exact addKids_succeeds heasy fuel _ b dot kids hr.2
  · obtain ⟨ns, n, hpl', _⟩ := id hpl
    exact fin ns k hpl' ⟨_, d, hprep.there d k hpl⟩
  · obtain ⟨s1, e, he⟩ := hprep.missing pre j rest k d hpl h1 h2 h3
    exact fin _ k hpl ⟨s1, e, he⟩

/-! ### The hypotheses are met -/

/-- The place of "d/q/r" has the parent "q" missing, in the directory "d". -/
example : (after tree1).st.lookup 1 ['q'] = none ∧ placeOf ['d', '/', 'q', '/', 'r'] = some ([['d']] ++ ['q'] :: [] ++ [['r']]) ∧
    (addFile mergeKeep (after tree1).st 0 ['d', '/', 'q', '/', 'r'] 0 7).2 = none ∧
    resolve (addFile mergeKeep (after tree1).st 0 ['d', '/', 'q', '/', 'r'] 0 7).1 0 0 ['d', '/', 'q', '/', 'r'] true = .ok ⟨7, some 6, ['r']⟩ := by
  refine ⟨by decide +kernel, by decide +kernel, by decide +kernel, by rfl⟩

example : Leads (after tree1).st 0 [['d']] 1 ∧ (after tree1).st.isDir 1 := by
  refine ⟨⟨0, by omega, .last ⟨by decide, by decide, by decide⟩ (by decide +kernel) ?_⟩, _, rfl⟩
  rintro _ ⟨_, _, h⟩
  have h2 : (after tree1).st.nodes[1]?.map (·.kind) = some .dir := by decide +kernel
  rw [h] at h2
  simp [Node.kind] at h2

example : Missing (after tree1).st 0 ([['d']] ++ [['q']]) := by
  refine ⟨0, by omega, .down ⟨by decide, by decide, by decide⟩ (c := 1) (by decide +kernel) ⟨_, rfl⟩ (by simp) (.missing ⟨by decide, by decide, by decide⟩ (by decide +kernel))⟩

example : source1.Readable ∧ source3.Readable := by simp [source1, source3, Src.Readable, ReadableKids]

end Verif.Synth.Tree
