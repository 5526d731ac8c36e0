import Verif.Fsutil.CopyPathProps
/-
C70: when `CopyPath` succeeds.
-/
namespace Verif.Fsutil.Copy
open Verif.Path Verif.Prog

/-! ### the specification -/

/-- An entry can be put where `old` is: a directory onto nothing or a directory, a file onto nothing or a file, a link onto nothing. -/
def Fits (ent : Ent) (old : Option DEnt) : Prop :=
  match ent with
  | .dir _ => old = none ∨ ∃ m, old = some (.dir m)
  | .file _ _ => old = none ∨ ∃ m b, old = some (.file m b)
  | .link _ => old = none
  | .other => True

/-! ### single calls -/

theorem bind_ok {α β : Type} {m : P α} {f : α → P β} {d : Disk} {a : α} {b : β} (h1 : result m d = .ok a)
    (h2 : result (f a) (final m d) = .ok b) : result (m >>= f) d = .ok b := by
  show (Prog.bind m f d).2.2 = _
  unfold result final at *
  unfold Prog.bind
  rcases hm : m d with ⟨t, s1, r⟩
  rw [hm] at h1 h2
  simp only at h1
  subst h1
  exact h2

theorem bind_final {α β : Type} {m : P α} {f : α → P β} {d : Disk} {a : α} (h1 : result m d = .ok a) :
    final (m >>= f) d = final (f a) (final m d) := by
  show (Prog.bind m f d).2.1 = _
  unfold result final at *
  unfold Prog.bind
  rcases hm : m d with ⟨t, s1, r⟩
  rw [hm] at h1
  simp only at h1
  subst h1
  rfl

section
variable {e : Env} (hf : ∀ op, e.fail op = false)
include hf

theorem call_fine (op : Op) (d : Disk) : result (call e op) d = .ok () := by
  unfold call
  rw [hf]
  rfl

theorem call_then {α : Type} {op : Op} {m : P α} {d : Disk} {a : α} (h : result m d = .ok a) : result (do call e op; m) d = .ok a := by
  refine bind_ok (call_fine hf op d) ?_
  rw [call_ok (call_fine hf op d)]
  exact h

theorem mkdirOrExist_fine {p : Str} {d : Disk} (hp : d (comps p) = none → isDirAt d (comps p).dropLast) : result (mkdirOrExist e p) d = .ok () := by
  unfold mkdirOrExist
  refine bind_ok (a := result (mkdir e p modePerm) d) rfl ?_
  cases hd : d (comps p) with
  | none =>
    obtain ⟨m, hm⟩ := hp hd
    have : result (mkdir e p modePerm) d = .ok () := by
      simp [mkdir, call, hf, hd, hm, needParent, result, Bind.bind, Prog.bind, Prog.get, Pure.pure, Prog.pure, Prog.modify]
    rw [this]
    rfl
  | some v =>
    have : result (mkdir e p modePerm) d = .error .exist := by
      simp [mkdir, call, hf, hd, result, Bind.bind, Prog.bind, Prog.get, Pure.pure, Prog.pure, Prog.fail]
    rw [this]
    rfl

theorem chmod_fine {p : Str} {mode : Nat} {d : Disk} (h : isDirAt d (comps p)) : result (chmod e p mode) d = .ok () := by
  obtain ⟨m, hm⟩ := h
  simp [chmod, call, hf, hm, result, Bind.bind, Prog.bind, Prog.get, Pure.pure, Prog.pure, Prog.modify]

theorem openDst_fine {p : Str} {perm : Nat} {d : Disk} (hp : isDirAt d (comps p).dropLast)
    (h : d (comps p) = none ∨ ∃ m b, d (comps p) = some (.file m b)) : result (openDst e p perm) d = .ok () := by
  obtain ⟨m, hm⟩ := hp
  rcases h with h | ⟨m', b, h⟩ <;>
    simp [openDst, call, hf, hm, h, needParent, result, Bind.bind, Prog.bind, Prog.get, Pure.pure, Prog.pure, Prog.modify]

theorem symlink_fine {t p : Str} {d : Disk} (hp : isDirAt d (comps p).dropLast) (h : d (comps p) = none) : result (symlink e t p) d = .ok () := by
  obtain ⟨m, hm⟩ := hp
  simp [symlink, call, hf, hm, h, needParent, result, Bind.bind, Prog.bind, Prog.get, Pure.pure, Prog.pure, Prog.modify]

theorem copyBytes_fine (hw : ∀ p i, e.wr p i = none) {src : Str} {k : List Str} : ∀ (ps : List Bytes) (i : Nat) (d : Disk),
    result (copyBytes e src k i ps) d = .ok ()
  | [], _, _ => rfl
  | b :: rest, i, d => by
    unfold copyBytes
    refine call_then hf ?_
    rw [hw]
    exact bind_ok (a := ()) rfl (copyBytes_fine hw rest _ _)

/-- One entry. -/
theorem copyEntry_fine (hw : ∀ p i, e.wr p i = none) {dst src : Str} {ent : Ent} {d : Disk} (hp : comps dst = [] ∨ isDirAt d (comps dst).dropLast)
    (h0 : isDirAt d []) (h : Fits ent (d (comps dst))) : result (copyEntry e dst src ent) d = .ok () := by
  have hp' : isDirAt d (comps dst).dropLast := by
    rcases hp with hp | hp
    · rw [hp]; exact h0
    · exact hp
  cases ent with
  | dir m =>
    unfold copyEntry
    have h1 := mkdirOrExist_fine hf (p := dst) (d := d) (fun _ => hp')
    refine bind_ok h1 (chmod_fine hf ?_)
    rw [mkdirOrExist_gives h1]
    unfold isDirAt
    rw [upd_self]
    rcases h with h | ⟨m', h⟩ <;> rw [h]
    · exact ⟨_, rfl⟩
    · exact ⟨_, rfl⟩
  | file m b =>
    unfold copyEntry
    exact call_then hf (bind_ok (openDst_fine hf hp' h) (copyBytes_fine hf hw _ _ _))
  | link t =>
    unfold copyEntry
    simp only
    by_cases hl : e.links = true
    · rw [if_pos hl]
      exact call_then hf (symlink_fine hf hp' h)
    · rw [if_neg hl]; rfl
  | other => rfl

end

/-! ### gathering -/

theorem validPath_render {q : List Str} (h : ∀ c ∈ q, IsName c) : Tarfs.validPath (render false q) = true := by
  by_cases hq : q = []
  · subst hq; decide
  · unfold Tarfs.validPath render
    simp only [Bool.false_eq_true, if_false, if_neg hq, Bool.or_eq_true, decide_eq_true_eq, List.all_eq_true]
    right
    rw [split_join hq (fun c hc => (h c hc).1.2)]
    intro c hc
    exact ⟨(h c hc).1.1, (h c hc).2⟩

theorem normal_of_names {q : List Str} (h : ∀ c ∈ q, IsName c) : Normal false q := by simpa using normal_append (R := []) (.names (by simp)) h

theorem srcStat_render {src : Node} {q : List Str} (h : ∀ c ∈ q, IsName c) : srcStat src (render false q) = src.find q := by
  unfold srcStat
  rw [if_pos (validPath_render h), comps_render (normal_of_names h), Node.look_eq]

theorem gather_fine {e : Env} (hf : ∀ op, e.fail op = false) {src : Node} : ∀ (ps : List Str) (d : Disk),
    (∀ p ∈ ps, isAbs p = false ∧ (∀ c ∈ comps p, IsName c) ∧ src.find (comps p) ≠ none) → ∃ l, result (gather e src ps) d = .ok l
  | [], d, _ => ⟨[], rfl⟩
  | p :: ps, d, h => by
    obtain ⟨l, hl⟩ := gather_fine hf ps d (fun x hx => h x (by simp [hx]))
    obtain ⟨habs, hn, hs⟩ := h p (by simp)
    unfold gather
    have hc : clean p = render false (comps p) := by unfold clean; rw [habs]
    cases hs' : src.find (comps p) with
    | none => exact absurd hs' hs
    | some ent =>
      refine ⟨(clean p, ent) :: l, call_then hf ?_⟩
      rw [show srcStat src (clean p) = some ent by rw [hc, srcStat_render hn, hs']]
      exact bind_ok hl rfl

/-! ### the directories -/

theorem strLe_longer : ∀ (s t : Str), t ≠ [] → Tarfs.strLe (s ++ t) s = false
  | [], t, h => by
    cases t with
    | nil => exact absurd rfl h
    | cons a t => rfl
  | a :: s, t, h => by
    simp only [List.cons_append, Tarfs.strLe]
    rw [strLe_longer s t h]
    simp

/-- A directory sorts before what is in it. -/
theorem strLe_child {E : List Str} {x : Str} (hE : E ≠ []) : Tarfs.strLe (render false (E ++ [x])) (render false E) = false := by
  unfold render
  simp only [Bool.false_eq_true, if_false, if_neg hE, if_neg (List.append_ne_nil_of_right_ne_nil E (List.cons_ne_nil x []))]
  rw [join_concat hE]
  exact strLe_longer _ _ (by simp)

/-- A directory to be made: the root, or one below it that the source has. -/
def Known (src : Node) (R E : List Str) : Prop :=
  E ≠ [] ∧ (E = R ∨ ∃ q m, q ≠ [] ∧ (∀ c ∈ q, IsName c) ∧ E = R ++ q ∧ src.find q = some (.dir m))

theorem makeDir_fine {e : Env} (hf : ∀ op, e.fail op = false) {src : Node} {root : Str} (hR : Normal false (comps root)) {E : List Str}
    (hk : Known src (comps root) E) {d : Disk} (hp : isDirAt d E.dropLast) (hold : d E = none ∨ isDirAt d E) :
    result (makeDir e src root (render false E)) d = .ok () ∧ isDirAt (final (makeDir e src root (render false E)) d) E ∧
    ∀ k, k ≠ E → final (makeDir e src root (render false E)) d k = d k := by
  obtain ⟨hE, hk⟩ := hk
  have hN : Normal false E := by
    rcases hk with rfl | ⟨q, m, _, hn, rfl, _⟩
    · exact hR
    · exact normal_append hR hn
  have hcE := comps_render hN
  have hnd : ∀ {E : List Str}, E ≠ [] → Normal false E → render false E ≠ dot := by
    intro E hE hN hd
    have := comps_render hN
    rw [hd] at this
    exact hE (by rw [← this]; decide)
  have h1 : result (mkdirOrExist e (render false E)) d = .ok () := mkdirOrExist_fine hf (by rw [hcE]; exact fun _ => hp)
  have hfin := mkdirOrExist_gives h1
  rw [hcE] at hfin
  have hdir : isDirAt (final (mkdirOrExist e (render false E)) d) E := by
    rw [hfin]
    unfold isDirAt
    rw [upd_self]
    rcases hold with h | ⟨m, h⟩ <;> rw [h]
    · exact ⟨_, rfl⟩
    · exact ⟨_, rfl⟩
  have hoth : ∀ k, k ≠ E → final (mkdirOrExist e (render false E)) d k = d k := by
    intro k hk
    rw [hfin, upd_other hk]
  unfold makeDir
  rw [if_neg (hnd hE hN)]
  rcases hk with rfl | ⟨q, m, hq, hn, rfl, hs⟩
  · have hrel : relTo root (render false (comps root)) = some dot := by
      have := relTo_below (root := root) (q := []) (by simpa using hR)
      simpa [render] using this
    rw [hrel]
    simp only [if_true]
    refine ⟨bind_ok h1 rfl, ?_, ?_⟩
    · rw [bind_final h1]; exact hdir
    · intro k hk
      rw [bind_final h1]; exact hoth k hk
  · rw [relTo_below hN]
    simp only [if_neg (hnd hq (normal_of_names hn))]
    rw [srcStat_render hn, hs]
    have h2 := chmod_fine hf (p := render false (comps root ++ q)) (mode := e.mask (modeOf (.dir m))) (by rw [hcE]; exact hdir)
    have h3 : result (do call e (.stat (render false q)); chmod e (render false (comps root ++ q)) (e.mask (modeOf (.dir m))))
        (final (mkdirOrExist e (render false (comps root ++ q))) d) = .ok () := call_then hf h2
    have h4 : ∀ d, final (do call e (.stat (render false q)); chmod e (render false (comps root ++ q)) (e.mask (modeOf (.dir m)))) d =
        final (chmod e (render false (comps root ++ q)) (e.mask (modeOf (.dir m)))) d := by
      intro d
      rw [bind_final (call_fine hf _ d), call_ok (call_fine hf _ d)]
    refine ⟨bind_ok h1 h3, ?_, ?_⟩
    · rw [bind_final h1, h4]
      rcases chmod_gives h2 with ⟨m', h5, h6⟩ | ⟨m', b, h5, h6⟩
      · rw [h6, hcE]; exact ⟨_, set_self⟩
      · rw [hcE] at h5
        obtain ⟨m'', h7⟩ := hdir
        rw [h7] at h5
        cases h5
    · intro k hk
      rw [bind_final h1, h4]
      rcases chmod_gives h2 with ⟨m', h5, h6⟩ | ⟨m', b, h5, h6⟩ <;>
        rw [h6, hcE, set_other hk, hoth k hk]

/-- The directories, in their order. -/
theorem makeDirs_fine {e : Env} (hf : ∀ op, e.fail op = false) {src : Node} {root : Str} (hR : Normal false (comps root)) : ∀ (ds : List Str) (d : Disk),
    (∀ dd ∈ ds, ∃ E, Known src (comps root) E ∧ dd = render false E) →
    ds.Pairwise (fun a b => Tarfs.strLe a b = true) →
    (∀ E, Known src (comps root) E → render false E ∈ ds → isDirAt d E.dropLast ∨ (E.dropLast ≠ [] ∧ render false E.dropLast ∈ ds)) →
    (∀ E, Known src (comps root) E → render false E ∈ ds → d E = none ∨ isDirAt d E) →
    result (makeDirs e src root ds) d = .ok () ∧
    (∀ k, isDirAt d k → isDirAt (final (makeDirs e src root ds) d) k) ∧
    (∀ E, Known src (comps root) E → render false E ∈ ds → isDirAt (final (makeDirs e src root ds) d) E) ∧
    (∀ k, final (makeDirs e src root ds) d k = d k ∨ (isDirAt (final (makeDirs e src root ds) d) k ∧ render false k ∈ ds ∧ Known src (comps root) k))
  | [], d, _, _, _, _ => ⟨rfl, fun _ h => h, (by intro E _ h; cases h), fun _ => Or.inl rfl⟩
  | dd :: ds, d, hk, hsort, hpar, hold => by
    have hNof : ∀ {E}, Known src (comps root) E → Normal false E := by
      rintro E ⟨_, rfl | ⟨q, m, _, hn, rfl, _⟩⟩
      · exact hR
      · exact normal_append hR hn
    obtain ⟨E, hE, rfl⟩ := hk dd (by simp)
    rw [List.pairwise_cons] at hsort
    have hpE : isDirAt d E.dropLast := by
      rcases hpar E hE (by simp) with h | ⟨hne, h⟩
      · exact h
      · exfalso
        have hEq : E = E.dropLast ++ [E.getLast hE.1] := (List.dropLast_concat_getLast hE.1).symm
        have hNd : Normal false E.dropLast := normal_prefix (hNof hE) (dropLast_prefix E)
        rcases List.mem_cons.1 h with h | h
        · have := render_inj hNd (hNof hE) h
          have hl := congrArg List.length this
          rw [List.length_dropLast] at hl
          have := List.length_pos_iff.2 hE.1
          omega
        · have h1 := hsort.1 _ h
          rw [hEq, dropLast_of_concat, strLe_child hne] at h1
          cases h1
    obtain ⟨h1, h2, h3⟩ := makeDir_fine hf hR hE hpE (hold E hE (by simp))
    have hup : ∀ k, isDirAt d k → isDirAt (final (makeDir e src root (render false E)) d) k := by
      intro k hk
      by_cases h : k = E
      · rw [h]; exact h2
      · obtain ⟨m, hm⟩ := hk
        exact ⟨m, by rw [h3 k h]; exact hm⟩
    obtain ⟨h4, h5, h6, h7⟩ := makeDirs_fine hf hR ds (final (makeDir e src root (render false E)) d) (fun x hx => hk x (by simp [hx])) hsort.2
      (by
        intro F hF hm
        rcases hpar F hF (by simp [hm]) with h | ⟨hne, h⟩
        · exact Or.inl (hup _ h)
        · rcases List.mem_cons.1 h with h | h
          · have hNd : Normal false F.dropLast := normal_prefix (hNof hF) (dropLast_prefix F)
            rw [render_inj hNd (hNof hE) h]
            exact Or.inl h2
          · exact Or.inr ⟨hne, h⟩)
      (by
        intro F hF hm
        by_cases h : F = E
        · rw [h]; exact Or.inr h2
        · rcases hold F hF (by simp [hm]) with h' | h'
          · left; rw [h3 F h]; exact h'
          · exact Or.inr (hup F h'))
    unfold makeDirs
    refine ⟨bind_ok h1 h4, ?_, ?_, ?_⟩ <;> rw [bind_final h1]
    · exact fun k hk => h5 k (hup k hk)
    · intro F hF hm
      rcases List.mem_cons.1 hm with h | h
      · rw [render_inj (hNof hF) (hNof hE) h]; exact h5 _ h2
      · exact h6 F hF h
    · intro k
      rcases h7 k with h | h
      · by_cases hk : k = E
        · rw [hk]; exact Or.inr ⟨h5 _ h2, by simp, hE⟩
        · left; rw [h, h3 k hk]
      · exact Or.inr ⟨h.1, by simp [h.2.1], h.2.2⟩

/-! ### the entries -/

theorem over_dir (e : Env) {ent : Ent} {old : Option DEnt} (h : ∃ m, old = some (.dir m)) (hfit : Fits ent old) :
    ∃ m, over e ent old = some (.dir m) := by
  obtain ⟨m, rfl⟩ := h
  cases ent with
  | dir m' => exact ⟨_, rfl⟩
  | file m' b => rcases hfit with h | ⟨_, _, h⟩ <;> cases h
  | link t => cases hfit
  | other => exact ⟨m, rfl⟩

theorem copyEntries_fine {e : Env} (hf : ∀ op, e.fail op = false) (hw : ∀ p i, e.wr p i = none) {src : Node} {root : Str} : ∀ (l : List (Str × Ent)) (d : Disk),
    (∀ x ∈ l, Found src x) → (l.map (fun x => comps x.1)).Nodup → isDirAt d [] →
    (∀ x ∈ l, isDirAt d (comps root ++ comps x.1).dropLast) → (∀ x ∈ l, Fits x.2 (d (comps root ++ comps x.1))) →
    result (copyEntries e root l) d = .ok ()
  | [], _, _, _, _, _, _ => rfl
  | x :: xs, d, hfd, hnd, h0, hp, hfit => by
    have hx := hfd x (by simp)
    have hc : comps (join2 root x.1) = comps root ++ comps x.1 := comps_dst hx.1.1 hx.1.2.1 hx.1.2.2
    have hpx := hp x (by simp)
    have hfx := hfit x (by simp)
    have h1 : result (copyEntry e (join2 root x.1) x.1 x.2) d = .ok () :=
      copyEntry_fine hf hw (by rw [hc]; exact Or.inr hpx) h0 (by rw [hc]; exact hfx)
    have hfin := (copyEntry_gives h1).1
    rw [hc] at hfin
    have hup : ∀ k, isDirAt d k → isDirAt (final (copyEntry e (join2 root x.1) x.1 x.2) d) k := by
      intro k hk
      rw [hfin]
      unfold isDirAt
      by_cases h : k = comps root ++ comps x.1
      · rw [h, upd_self]
        rw [h] at hk
        exact over_dir e hk hfx
      · rw [upd_other h]; exact hk
    simp only [List.map_cons, List.nodup_cons] at hnd
    unfold copyEntries
    refine bind_ok h1 (copyEntries_fine hf hw xs _ (fun y hy => hfd y (by simp [hy])) hnd.2 (hup _ h0) (fun y hy => hup _ (hp y (by simp [hy]))) ?_)
    intro y hy
    rw [hfin, upd_other]
    · exact hfit y (by simp [hy])
    · intro h
      have := List.append_cancel_left h
      exact hnd.1 (List.mem_map.2 ⟨y, hy, this⟩)

/-! ### the property -/

/-- **C70** If no call on either side fails, the root is the destination itself or a name in it, every path names an entry of the source (each entry
once), every place below the root at which a directory above one of them has to be is free or a directory, and every named entry fits on what is at its
place: then `CopyPath` succeeds. -/
theorem C70_succeeds (e : Env) (hf : ∀ op, e.fail op = false) (hw : ∀ p i, e.wr p i = none) (src : Node) (root : Str) (paths : List Str) (d : Disk)
    (habs : isAbs root = false) (hR : comps root = [] ∨ ∃ r, IsName r ∧ comps root = [r])
    (hpaths : ∀ p ∈ paths, isAbs p = false ∧ (∀ c ∈ comps p, IsName c) ∧ src.find (comps p) ≠ none) (hnd : (paths.map comps).Nodup)
    (h0 : isDirAt d [])
    (habove : ∀ p ∈ paths, ∀ k, k <+: comps root ++ comps p → k ≠ comps root ++ comps p → d k = none ∨ isDirAt d k)
    (hfit : ∀ p ∈ paths, ∀ ent, src.find (comps p) = some ent → Fits ent (d (comps root ++ comps p))) :
    result (copyPath e src root paths) d = .ok () := by
  have habs' : isAbs (clean root) = false := by rw [isAbs_clean]; exact habs
  have hroot := clean_ne_nil root
  have hNR : Normal false (comps root) := by have := comps_normal root; rwa [habs] at this
  unfold copyPath
  simp only
  rw [if_neg (by rw [habs']; simp)]
  obtain ⟨l, hl⟩ := gather_fine hf paths d hpaths
  have hg := (gather_holds (e := e) (src := src) (I := fun _ => True) (d0 := d) paths d rfl).2
  have hgf : final (gather e src paths) d = d := hg.1
  obtain ⟨hmap, hfound⟩ := hg.2 l hl
  have hkeep : ∀ x ∈ l, ∃ p ∈ paths, comps x.1 = comps p := by
    intro x hx
    have : x.1 ∈ paths.map clean := by rw [← hmap]; exact List.mem_map_of_mem hx
    obtain ⟨p, hp, he⟩ := List.mem_map.1 this
    exact ⟨p, hp, by rw [← he, comps_clean]⟩
  have hnd' : (l.map (fun x => comps x.1)).Nodup := by
    have : l.map (fun x => comps x.1) = paths.map comps := by
      have := congrArg (List.map comps) hmap
      rw [List.map_map, List.map_map] at this
      rw [show (fun x : Str × Ent => comps x.1) = comps ∘ Prod.fst from rfl, this]
      congr 1
      funext s
      exact comps_clean s
    rw [this]; exact hnd
  have hNl : ∀ x ∈ l, Normal false (comps root ++ comps x.1) := fun x hx => normal_append hNR (hfound x hx).1.2.2
  -- a prefix of the place of an entry
  have hknown : ∀ x ∈ l, ∀ E, E ≠ [] → E <+: (comps root ++ comps x.1).dropLast → Known src (comps root) E := by
    intro x hx E hE hpre
    refine ⟨hE, ?_⟩
    rcases prefix_append_cases (hpre.trans (dropLast_prefix _)) with h | ⟨q, hq, hqp, rfl⟩
    · left
      rcases hR with hR | ⟨r, _, hR⟩
      · rw [hR] at h
        exact absurd (List.prefix_nil.1 h) hE
      · rw [hR] at h ⊢
        rcases h with ⟨t, ht⟩
        cases E with
        | nil => exact absurd rfl hE
        | cons a E =>
          simp only [List.cons_append, List.cons.injEq, List.append_eq_nil_iff] at ht
          rw [ht.1, ht.2.1]
    · right
      obtain ⟨t, ht⟩ := hqp
      cases t with
      | nil =>
        exfalso
        rw [List.append_nil] at ht
        have hl := hpre.length_le
        rw [List.length_dropLast, ht, List.length_append] at hl
        have := List.length_pos_iff.2 hq
        rw [ht] at this
        omega
      | cons c t =>
        have hs := (hfound x hx).2
        rw [← ht] at hs
        obtain ⟨m, hm⟩ := Node.find_above src q c t hs
        exact ⟨q, m, hq, fun y hy => (hfound x hx).1.2.2 y (by rw [← ht]; simp [hy]), rfl, hm⟩
  have hcl : comps (clean root) = comps root := comps_clean root
  have hmem : ∀ {dd : Str}, dd ∈ Tarfs.sortKeys (l.flatMap (fun x => parents (clean root) x.1)).eraseDups ↔
      ∃ x ∈ l, ∃ E, E ≠ [] ∧ E <+: (comps root ++ comps x.1).dropLast ∧ dd = render false E := by
    intro dd
    rw [mem_dirs]
    constructor
    · rintro ⟨x, hx, h⟩
      have := (mem_parents habs' (hfound x hx).1 hroot).1 h
      rw [hcl] at this
      exact ⟨x, hx, this⟩
    · rintro ⟨x, hx, h⟩
      refine ⟨x, hx, (mem_parents habs' (hfound x hx).1 hroot).2 ?_⟩
      rw [hcl]; exact h
  have hNof : ∀ {E}, Known src (comps root) E → Normal false E := by
    rintro E ⟨_, rfl | ⟨q, m, _, hn, rfl, _⟩⟩
    · exact hNR
    · exact normal_append hNR hn
  have hplace : ∀ x ∈ l, ∀ k, k <+: (comps root ++ comps x.1).dropLast → d k = none ∨ isDirAt d k := by
    intro x hx k hk
    obtain ⟨p, hp, he⟩ := hkeep x hx
    rw [he] at hk
    by_cases hnil : comps root ++ comps p = []
    · rw [hnil] at hk
      rw [List.prefix_nil.1 hk]; exact Or.inr h0
    · refine habove p hp k (hk.trans (dropLast_prefix _)) ?_
      intro h
      have hl := hk.length_le
      rw [h, List.length_dropLast] at hl
      have := List.length_pos_iff.2 hnil
      omega
  have hmd := makeDirs_fine (root := clean root) hf (src := src) (by rw [hcl]; exact hNR)
    (Tarfs.sortKeys (l.flatMap (fun x => parents (clean root) x.1)).eraseDups) d
    (by
      intro dd hdd
      obtain ⟨x, hx, E, hE, hpre, rfl⟩ := hmem.1 hdd
      exact ⟨E, by rw [hcl]; exact hknown x hx E hE hpre, rfl⟩)
    (Tarfs.sortKeys_sorted _)
    (by
      intro E hE hm
      rw [hcl] at hE
      obtain ⟨x, hx, F, hF, hpre, he⟩ := hmem.1 hm
      have := render_inj (hNof hE) (hNof (hknown x hx F hF hpre)) he
      subst this
      by_cases hd : E.dropLast = []
      · left; rw [hd]; exact h0
      · right
        exact ⟨hd, hmem.2 ⟨x, hx, E.dropLast, hd, (dropLast_prefix E).trans hpre, rfl⟩⟩)
    (by
      intro E hE hm
      rw [hcl] at hE
      obtain ⟨x, hx, F, hF, hpre, he⟩ := hmem.1 hm
      have := render_inj (hNof hE) (hNof (hknown x hx F hF hpre)) he
      subst this
      exact hplace x hx E hpre)
  obtain ⟨h1, h2, h3, h4⟩ := hmd
  refine bind_ok hl ?_
  rw [hgf]
  refine bind_ok h1 (copyEntries_fine hf hw (src := src) l _ hfound hnd' (h2 _ h0) ?_ ?_)
  · intro x hx
    rw [hcl]
    by_cases hE : (comps root ++ comps x.1).dropLast = []
    · rw [hE]; exact h2 _ h0
    · have hk := hknown x hx _ hE (List.prefix_refl _)
      exact h3 _ (by rw [hcl]; exact hk) (hmem.2 ⟨x, hx, _, hE, List.prefix_refl _, rfl⟩)
  · intro x hx
    rw [hcl]
    obtain ⟨p, hp, he⟩ := hkeep x hx
    have hfx := hfit p hp x.2 (by rw [← he]; exact (hfound x hx).2)
    rw [← he] at hfx
    rcases h4 (comps root ++ comps x.1) with h | h
    · rw [h]; exact hfx
    · obtain ⟨hdir, hm, hk⟩ := h
      rw [hcl] at hk
      have hent : ∃ m, x.2 = .dir m := by
        have hs := (hfound x hx).2
        rcases hk.2 with h | ⟨q, m, _, _, h, hq⟩
        · have hnil : comps x.1 = [] := by
            have := congrArg List.length h
            rw [List.length_append] at this
            exact List.length_eq_zero_iff.1 (by omega)
          obtain ⟨y, hy, E, hE, hpre, hr⟩ := hmem.1 hm
          have hEk := render_inj (hNof hk) (hNof (hknown y hy E hE hpre)) hr
          rw [← hEk, hnil, List.append_nil] at hpre
          have hc : comps y.1 ≠ [] := by
            intro hc
            rw [hc, List.append_nil] at hpre
            have hl := hpre.length_le
            rw [List.length_dropLast] at hl
            have := List.length_pos_iff.2 hk.1
            rw [hnil, List.append_nil] at this
            omega
          rcases hyc : comps y.1 with _ | ⟨c, t⟩
          · exact absurd hyc hc
          · have hys := (hfound y hy).2
            rw [hyc] at hys
            obtain ⟨m, hm⟩ := Node.find_above src [] c t (by simpa using hys)
            rw [hnil, hm] at hs
            exact ⟨m, (Option.some.inj hs).symm⟩
        · have := List.append_cancel_left h
          rw [this, hq] at hs
          exact ⟨m, (Option.some.inj hs).symm⟩
      obtain ⟨m, hent⟩ := hent
      rw [hent]
      exact Or.inr hdir

/-- The hypotheses are met: a link in a directory, a file and the directory itself, under a new name. -/
example : result (copyPath demoEnv demoSrc ['o'] [['s', '/', 'l'], ['f'], ['s']]) emptyDisk = .ok () := by
  refine C70_succeeds demoEnv (fun _ => rfl) (fun _ _ => rfl) demoSrc ['o'] _ emptyDisk (by decide) (Or.inr ⟨['o'], by decide, by decide⟩) ?_ (by decide)
    ⟨511, rfl⟩ ?_ ?_
  · intro p hp
    simp only [List.mem_cons, List.not_mem_nil, or_false] at hp
    rcases hp with rfl | rfl | rfl <;> exact ⟨by decide, by decide, by simp [show comps ['s', '/', 'l'] = [['s'], ['l']] by decide, show comps ['f'] = [['f']] by decide,
      show comps ['s'] = [['s']] by decide, demoSrc, Node.find, Kids.find]⟩
  · intro p _ k _ _
    by_cases hk : k = []
    · exact Or.inr ⟨511, by simp [emptyDisk, hk]⟩
    · exact Or.inl (by simp [emptyDisk, hk])
  · intro p _ ent _
    have : emptyDisk (comps ['o'] ++ comps p) = none := by
      unfold emptyDisk
      rw [if_neg (by simp [show comps ['o'] = [['o']] by decide])]
    rw [this]
    cases ent <;> first | exact Or.inl rfl | rfl | trivial

/-- Naming each entry once is needed: the second symlink meets the first. -/
example : result (copyPath demoEnv demoSrc dot [['s', '/', 'l'], ['s', '/', '/', 'l']]) emptyDisk = .error .exist := by rfl

end Verif.Fsutil.Copy
