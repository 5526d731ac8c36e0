import Verif.Afero.OpenProps
/-
C91: a view is told exactly once that it has left the tree.
-/
namespace Verif.Afero
open Verif.Path

/-! ### Specification -/

/-- The views that have been told that they are no longer in use. -/
def told : List Ask → List Nat
  | [] => []
  | .close v :: rest => v :: told rest
  | _ :: rest => told rest

/-- How often a view is in the tree. -/
def Node.held (n : Node) (v : Nat) : Nat := n.views.count v
def Ents.held (es : Ents) (v : Nat) : Nat := es.views.count v

/-- How often a view is in the tree or has been told. -/
def St.total (S : St) (v : Nat) : Nat := S.root.held v + (told S.asked).count v

/-- The views a call adds: OpenFile of a name at which there was nothing, and AddFile, if they succeed. -/
def addedBy (e : Env) (S : St) : Call → List Nat
  | .openFile name f p => match S.root.at (place name), openFile e S name f p with
    | none, (_, .ok _) => [S.next]
    | _, _ => []
  | .addFile path v => match addFileCall e S path v with
    | (_, .ok _) => [v.id]
    | _ => []
  | _ => []

/-- A call after which every view that has left the tree has been told once: not Reallocate, and not a Rename that replaces. -/
def Calm (S : St) : Call → Prop
  | .rename old new => old = new ∨ S.root.at (place (dir new) ++ [base old]) = none ∨ place (dir new) ++ [base old] = place old
  | .reallocate _ _ => False
  | _ => True

def CalmAll (e : Env) : St → List Call → Prop
  | _, [] => True
  | S, c :: cs => Calm S c ∧ CalmAll e (exec e S c) cs

def addedAll (e : Env) : St → List Call → List Nat
  | _, [] => []
  | S, c :: cs => addedBy e S c ++ addedAll e (exec e S c) cs

/-! ### counting -/

theorem told_append : ∀ (a b : List Ask), told (a ++ b) = told a ++ told b
  | [], b => rfl
  | .close v :: a, b => by simp only [List.cons_append, told, told_append a b]
  | .stat _ :: a, b => by simp only [List.cons_append, told, told_append a b]
  | .open_ _ :: a, b => by simp only [List.cons_append, told, told_append a b]
  | .truncate _ :: a, b => by simp only [List.cons_append, told, told_append a b]
  | .rename _ _ :: a, b => by simp only [List.cons_append, told, told_append a b]

theorem told_closes (vs : List Nat) : told (vs.map .close) = vs := by
  induction vs with
  | nil => rfl
  | cons v vs ih => simp [told, ih]

theorem held_nil (v : Nat) : Ents.nil.held v = 0 := by simp [Ents.held, Ents.views]
theorem held_cons (a : Str) (n : Node) (rest : Ents) (v : Nat) : (Ents.cons a n rest).held v = n.held v + rest.held v := by
  simp [Ents.held, Node.held, Ents.views]
theorem held_dir (m : Nat) (es : Ents) (v : Nat) : (Node.dir m es).held v = es.held v := by simp [Ents.held, Node.held, Node.views]
theorem held_file (m w v : Nat) : (Node.file m w).held v = [w].count v := by simp [Node.held, Node.views]

/-- How often it is in what may be there. -/
def heldOpt : Option Node → Nat → Nat
  | none, _ => 0
  | some n, v => n.held v

theorem held_push : ∀ (es : Ents) (c : Str) (k : Node) (v : Nat), (es.push c k).held v = es.held v + k.held v
  | .nil, c, k, v => by simp only [Ents.push, held_cons, held_nil]; omega
  | .cons a n rest, c, k, v => by simp only [Ents.push, held_cons, held_push rest]; omega

theorem held_remove : ∀ {es : Ents}, es.WF → ∀ (c : Str) (v : Nat), (es.remove c).held v + heldOpt (es.find c) v = es.held v
  | .nil, _, c, v => by simp [Ents.remove, Ents.find, heldOpt]
  | .cons a n rest, hw, c, v => by
    simp only [Ents.WF] at hw
    have ih := held_remove hw.2.2 c v
    simp only [Ents.remove, Ents.find]
    split
    · rename_i h
      subst h
      rw [hw.1] at ih
      simp only [heldOpt, held_cons] at ih ⊢
      omega
    · simp only [held_cons]; omega

theorem held_add {es : Ents} (hw : es.WF) (c : Str) (k : Node) (v : Nat) : (es.add c k).held v + heldOpt (es.find c) v = es.held v + k.held v := by
  unfold Ents.add
  have := held_remove hw c v
  rw [held_push]; omega

theorem held_update : ∀ {es : Ents}, es.WF → ∀ (c : Str) (f : Node → Node) (v : Nat),
    (es.update c f).held v + heldOpt (es.find c) v = es.held v + heldOpt ((es.find c).map f) v
  | .nil, _, c, f, v => by simp [Ents.update, Ents.find, heldOpt]
  | .cons a n rest, hw, c, f, v => by
    simp only [Ents.WF] at hw
    have ih := held_update hw.2.2 c f v
    simp only [Ents.update, Ents.find]
    split
    · rename_i h
      subst h
      rw [hw.1] at ih
      simp only [heldOpt, held_cons, Option.map_none, Option.map_some] at ih ⊢
      omega
    · simp only [held_cons]; omega

theorem held_modify : ∀ {p : List Str} {n k : Node} {f : Node → Node}, n.WF → n.at p = some k → ∀ v, (n.modify p f).held v + k.held v = n.held v + (f k).held v
  | [], n, k, f, _, h, v => by cases h; simp only [Node.modify]; omega
  | c :: p, .file _ _, k, f, _, h, v => by cases h
  | c :: p, .dir m es, k, f, hw, h, v => by
    simp only [Node.at] at h
    simp only [Node.WF] at hw
    cases hf : es.find c with
    | none => rw [hf] at h; cases h
    | some x =>
      rw [hf] at h
      have ih := held_modify (f := f) (hw.find hf) h v
      have := held_update hw c (Node.modify p f) v
      rw [hf] at this
      simp only [heldOpt, Option.map_some] at this
      simp only [Node.modify, held_dir]
      omega

/-- Adding an entry at a place. -/
theorem held_addAt {root : Node} (hw : root.WF) {D : List Str} {m : Nat} {es : Ents} (h : root.at D = some (.dir m es)) (b : Str) (k : Node) (v : Nat) :
    (root.modify D (Node.add b k)).held v + heldOpt (es.find b) v = root.held v + k.held v := by
  have h1 := held_modify (f := Node.add b k) hw h v
  have hes := hw.at h
  simp only [Node.WF] at hes
  have h2 := held_add hes b k v
  simp only [Node.add, held_dir] at h1
  omega

theorem held_removeAt {root : Node} (hw : root.WF) {D : List Str} {m : Nat} {es : Ents} (h : root.at D = some (.dir m es)) (b : Str) (v : Nat) :
    (root.modify D (Node.removeName b)).held v + heldOpt (es.find b) v = root.held v := by
  have h1 := held_modify (f := Node.removeName b) hw h v
  have hes := hw.at h
  simp only [Node.WF] at hes
  have h2 := held_remove hes b v
  simp only [Node.removeName, held_dir] at h1
  omega

theorem held_chmodAt {root : Node} (hw : root.WF) {p : List Str} {k : Node} (h : root.at p = some k) (mode v : Nat) :
    (root.modify p (Node.chmod mode)).held v = root.held v := by
  have h1 := held_modify (f := Node.chmod mode) hw h v
  have : (k.chmod mode).held v = k.held v := by cases k <;> simp [Node.chmod, held_dir, held_file]
  omega

theorem held_mkdirAll (e : Env) (perm v : Nat) : ∀ (p : List Str) (n : Node), n.WF → (mkdirAllLoop e perm n p).1.held v = n.held v
  | [], n, _ => rfl
  | c :: p, .file _ _, _ => rfl
  | c :: p, .dir m es, hw => by
    simp only [Node.WF] at hw
    have key : ∀ es1 : Ents, es1.WF → (match searchable (es1.find c) with
        | .error er => ((.dir m es1, some er) : Node × Option Err)
        | .ok k =>
          let r := mkdirAllLoop e perm k p
          (.dir m (es1.update c (fun _ => r.1)), r.2)).1.held v = es1.held v := by
      intro es1 h1
      cases hs : searchable (es1.find c) with
      | error er => simp only [held_dir]
      | ok k =>
        have hf := (searchable_ok hs).1
        have ih := held_mkdirAll e perm v p k (h1.find hf)
        have := held_update h1 c (fun _ => (mkdirAllLoop e perm k p).1) v
        rw [hf] at this
        simp only [heldOpt, Option.map_some] at this
        simp only [held_dir]
        omega
    simp only [mkdirAllLoop, held_dir]
    cases hf : es.find c with
    | some k =>
      have := key es hw
      simp only [hf] at this ⊢
      exact this
    | none =>
      have h1 := key _ (hw.add c (emptyDir_wf (maskPerm e perm)))
      have h2 := held_add hw c (.dir (maskPerm e perm) .nil) v
      rw [hf] at h2
      simp only [heldOpt, held_dir, held_nil] at h2
      refine Eq.trans h1 ?_
      omega

mutual
theorem Node.prune_held (w : Bool) (v : Nat) : ∀ n : Node, (n.prune w).2.1.count v + heldOpt (n.prune w).1 v = n.held v
  | .file m x => by
    simp only [Node.prune]
    split
    · simp [heldOpt]
    · simp [heldOpt, held_file]
  | .dir m .nil => by
    simp only [Node.prune]
    split
    · simp [heldOpt]
    · simp [heldOpt, held_dir, held_nil]
  | .dir m (.cons a n rest) => by
    simp only [Node.prune]
    split
    · simp [heldOpt]
    · have := Ents.prune_held (hasPerm m 3) v (.cons a n rest)
      simp only [heldOpt, held_dir]
      omega
theorem Ents.prune_held (w : Bool) (v : Nat) : ∀ es : Ents, (es.prune w).2.1.count v + (es.prune w).1.held v = es.held v
  | .nil => by simp [Ents.prune]
  | .cons a n rest => by
    have h1 := Node.prune_held w v n
    have h2 := Ents.prune_held w v rest
    simp only [Ents.prune]
    rcases hp : n.prune w with ⟨left, vs, _ | er⟩
    · rw [hp] at h1
      cases left with
      | none => simp only [heldOpt, held_cons, List.count_append] at h1 ⊢; omega
      | some k => simp only [heldOpt, held_cons, List.count_append] at h1 ⊢; omega
    · rw [hp] at h1
      cases left with
      | none => simp only [heldOpt, held_cons] at h1 ⊢; omega
      | some k => simp only [heldOpt, held_cons] at h1 ⊢; omega
end

/-! ### every call -/

theorem total_asked (S : St) (r : Node) (a : List Ask) (n v : Nat) (h : r.held v = S.root.held v) : (⟨r, S.asked ++ a, n⟩ : St).total v = S.total v + (told a).count v := by
  simp only [St.total, told_append, List.count_append, h]; omega

theorem findParent_dir {e : Env} {S : St} (hS : S.OK) {name : Str} {loc : List Str} {n : Node} (h : findParent e S.root name = .ok (loc, n)) :
    ∃ m es, S.root.at loc = some (.dir m es) ∧ n = .dir m es := by
  rcases (findParent_ok h).2 with ⟨_, rfl, rfl⟩ | ⟨_, _, _, ha, m, es, rfl, _⟩
  · have := hS.dir
    cases hr : S.root with
    | file _ _ => rw [hr] at this; cases this
    | dir m es => exact ⟨m, es, rfl, rfl⟩
  · exact ⟨m, es, ha, rfl⟩

theorem chmod_total {e : Env} {S : St} (hS : S.OK) (name : Str) (mode v : Nat) : (chmod e S name mode).1.total v = S.total v := by
  unfold chmod
  cases hf : find e S.root name with
  | error er => rfl
  | ok r =>
    obtain ⟨loc, n⟩ := r
    obtain ⟨_, _, _, ha⟩ := find_ok hf
    simp only [St.total, change, held_chmodAt hS.wf ha]

theorem stat_total {e : Env} {S : St} (name : Str) (v : Nat) : (stat e S name).1.total v = S.total v := by
  unfold stat ask
  split
  · rfl
  · rfl
  · split <;> (rename_i h1; obtain ⟨rfl, _⟩ := Prod.mk.inj h1; rw [total_asked _ _ _ _ _ rfl]; rfl)

theorem mkdir_total {e : Env} {S : St} (hS : S.OK) (name : Str) (perm v : Nat) : (mkdir e S name perm).1.total v = S.total v := by
  unfold mkdir
  cases hf : findWritableDir e S.root (dir name) with
  | error er => rfl
  | ok r =>
    obtain ⟨loc, n⟩ := r
    simp only
    split
    · rfl
    · split
      · rfl
      · rename_i hno
        split
        · rfl
        · split
          · rfl
          · have : ∃ m es, S.root.at loc = some (.dir m es) ∧ n = .dir m es := by
              unfold findWritableDir at hf
              cases hg : find e S.root (dir name) with
              | error er => rw [hg] at hf; cases hf
              | ok r =>
                obtain ⟨loc', n'⟩ := r
                rw [hg] at hf
                simp only at hf
                obtain ⟨_, _, _, ha⟩ := find_ok hg
                split at hf
                · cases hf
                · rename_i hdir
                  split at hf
                  · cases hf
                  · cases hf
                    cases n with
                    | file _ _ => simp [Node.isDir] at hdir
                    | dir m es => exact ⟨m, es, ha, rfl⟩
            obtain ⟨m, es, ha, rfl⟩ := this
            have := held_addAt hS.wf ha (base name) (.dir (maskPerm e perm) .nil) v
            have hn : es.find (base name) = none := by simpa [Node.lookup] using hno
            rw [hn] at this
            simp only [heldOpt, held_dir, held_nil] at this
            simp only [St.total, change]
            omega

theorem mkdirAll_total {e : Env} {S : St} (hS : S.OK) (name : Str) (perm v : Nat) : (mkdirAll e S name perm).1.total v = S.total v := by
  unfold mkdirAll
  split
  · rfl
  · split
    · rfl
    · cases hs : searchable (some S.root) with
      | error er => rfl
      | ok r =>
        have := (searchable_ok hs).1
        cases this
        simp only [St.total, held_mkdirAll e perm v _ _ hS.wf]

theorem openHandle_total (e : Env) (S : St) (loc : List Str) (n : Node) (v : Nat) : (openHandle e S loc n).1.total v = S.total v := by
  unfold openHandle ask
  cases n with
  | dir _ _ => rfl
  | file m x =>
    simp only
    split <;> (rename_i h1; obtain ⟨rfl, _⟩ := Prod.mk.inj h1; rw [total_asked _ _ _ _ _ rfl]; rfl)

theorem openFile_total {e : Env} {S : St} (hS : S.OK) (name : Str) (f : Flag) (perm v : Nat) :
    (openFile e S name f perm).1.total v = S.total v + (addedBy e S (.openFile name f perm)).count v := by
  have hadd : ∀ k, S.root.at (place name) = some k → addedBy e S (.openFile name f perm) = [] := by
    intro k hk; simp only [addedBy, hk]
  unfold openFile at hadd ⊢
  cases hf : findParent e S.root name with
  | error er =>
    have : addedBy e S (.openFile name f perm) = [] := by
      simp only [addedBy]
      unfold openFile
      rw [hf]
      simp only
      split <;> first | rfl | (rename_i h; cases h)
    simp only [this]; rfl
  | ok r =>
    obtain ⟨loc, parent⟩ := r
    obtain ⟨m, es, ha, hpar⟩ := findParent_dir hS hf
    subst hpar
    simp only
    by_cases hb : base name = dot
    · rw [if_pos hb]
      have hv := (findParent_ok hf).1
      have hd := (base_dot hv).1 hb
      have : addedBy e S (.openFile name f perm) = [] := by
        refine hadd S.root ?_
        rw [show place name = [] from if_pos hd]; rfl
      rw [this, openHandle_total]; rfl
    · rw [if_neg hb]
      have hpl : place name = loc ++ [base name] := by
        rcases (findParent_ok hf).2 with ⟨h, _⟩ | ⟨_, h, _⟩
        · exact absurd ((base_dot (findParent_ok hf).1).2 h) hb
        · exact h
      have hat : S.root.at (place name) = es.find (base name) := by rw [hpl, Node.at_snoc, ha]; rfl
      simp only [Node.lookup]
      cases hk : es.find (base name) with
      | some k =>
        rw [hadd k (by rw [hat, hk])]
        simp only [List.count_nil, Nat.add_zero]
        split
        · rfl
        · split
          · rfl
          · split
            · rfl
            · cases k with
              | dir mk ek => exact openHandle_total _ _ _ _ _
              | file mk x =>
                simp only
                split
                · unfold ask
                  cases e.answer S.asked.length with
                  | some er => simp only; rw [total_asked _ _ _ _ _ rfl]; rfl
                  | none => simp only; rw [openHandle_total, total_asked _ _ _ _ _ rfl]; rfl
                · exact openHandle_total _ _ _ _ _
      | none =>
        simp only
        have hadd' : addedBy e S (.openFile name f perm) = match openFile e S name f perm with | (_, .ok _) => [S.next] | _ => [] := by
          simp only [addedBy, hat, hk]
          rcases openFile e S name f perm with ⟨_, _ | _⟩ <;> rfl
        have hopen : openFile e S name f perm = if !f.create then (S, .error .noent)
            else if !hasPerm (Node.dir m es).mode 3 then (S, .error .acces)
            else if !e.alloc then (S, .error .rofs)
            else match ask e { S with next := S.next + 1 } (.stat S.next) with
              | (S1, some er) => (S1, .error (.view er))
              | (S1, none) => match ask e S1 (.open_ S.next) with
                | (S2, some er) => (S2, .error (.view er))
                | (S2, none) => (change S2 loc (Node.add (base name) (.file (e.allocMode perm) S.next)), .ok (.file S.next)) := by
          unfold openFile
          rw [hf]
          simp only [if_neg hb, Node.lookup, hk]
          rfl
        rw [hopen] at hadd'
        rw [hadd']
        split
        · rfl
        · split
          · rfl
          · split
            · rfl
            · unfold ask
              simp only
              cases e.answer S.asked.length with
              | some er => simp only [List.count_nil]; rw [total_asked S S.root _ _ _ rfl]; rfl
              | none =>
                simp only
                cases e.answer (S.asked ++ [Ask.stat S.next]).length with
                | some er => simp only [List.count_nil, List.append_assoc]; rw [total_asked S S.root _ _ _ rfl]; rfl
                | none =>
                  simp only
                  have := held_addAt hS.wf ha (base name) (.file (e.allocMode perm) S.next) v
                  rw [hk] at this
                  simp only [heldOpt, held_file] at this
                  simp only [St.total, change, told_append, List.count_append, told, List.count_nil]
                  omega

theorem removeFromParent_total {e : Env} {S : St} (hS : S.OK) {loc : List Str} {m : Nat} {es : Ents} (ha : S.root.at loc = some (.dir m es)) (b : Str) (v : Nat) :
    (removeFromParent e S loc (.dir m es) b).1.total v = S.total v := by
  have hh := held_removeAt hS.wf ha b v
  unfold removeFromParent
  simp only [Node.lookup]
  split
  · rfl
  · split
    · rfl
    · cases hk : es.find b with
      | none => rfl
      | some k =>
        rw [hk] at hh
        simp only
        split
        · rfl
        · rename_i hemp
          rcases k with ⟨mk, x⟩ | ⟨mk, _ | ⟨a, n, rest⟩⟩
          · unfold ask
            simp only [heldOpt, held_file] at hh
            simp only
            cases e.answer S.asked.length with
            | none => simp only [St.total, change, told_append, List.count_append, told]; omega
            | some er => simp only [St.total, change, told_append, List.count_append, told]; omega
          · simp only [heldOpt, held_dir, held_nil] at hh
            simp only [St.total, change]
            omega
          · simp [Node.empty] at hemp

theorem remove_total {e : Env} {S : St} (hS : S.OK) (name : Str) (v : Nat) : (remove e S name).1.total v = S.total v := by
  unfold remove
  cases hf : findParent e S.root name with
  | error er => rfl
  | ok r =>
    obtain ⟨loc, n⟩ := r
    obtain ⟨m, es, ha, rfl⟩ := findParent_dir hS hf
    exact removeFromParent_total hS ha _ v

theorem removeAllFrom_total {S : St} (hS : S.OK) {loc : List Str} {m : Nat} {es : Ents} (ha : S.root.at loc = some (.dir m es)) (b : Str) (v : Nat) :
    (removeAllFrom S loc (.dir m es) b).1.total v = S.total v := by
  unfold removeAllFrom
  simp only [Node.lookup]
  split
  · rfl
  · split
    · rfl
    · cases hk : es.find b with
      | none => rfl
      | some k =>
        have hp := Node.prune_held true v k
        simp only
        cases hl : (k.prune true).1 with
        | none =>
          have hh := held_removeAt hS.wf ha b v
          rw [hk] at hh
          rw [hl] at hp
          simp only [heldOpt] at hh hp
          simp only [St.total, change, closeAll, told_append, told_closes, List.count_append]
          omega
        | some x =>
          have h1 := held_modify (f := Node.modify [b] (fun _ => x)) hS.wf ha v
          have hes := hS.wf.at ha
          have h2 := held_modify (p := [b]) (f := fun _ => x) hes (by rw [Node.at_one]; exact hk) v
          rw [hl] at hp
          simp only [heldOpt] at hp
          simp only [St.total, change, closeAll, told_append, told_closes, List.count_append]
          omega

theorem removeAll_total {e : Env} {S : St} (hS : S.OK) (name : Str) (v : Nat) : (removeAll e S name).1.total v = S.total v := by
  unfold removeAll
  split
  · rfl
  · split
    · rfl
    · have hr := remove_inv (e := e) hS name
      have ht := remove_total (e := e) hS name v
      cases hrm : remove e S name with
      | mk S1 res =>
        rw [hrm] at hr ht
        cases res with
        | ok _ => exact ht
        | error er =>
          simp only
          split
          · exact ht
          · cases hf : findParent e S1.root name with
            | error er => exact ht
            | ok r =>
              obtain ⟨loc, n⟩ := r
              obtain ⟨m, es, ha, rfl⟩ := findParent_dir hr hf
              simp only
              rw [removeAllFrom_total hr ha]
              exact ht

theorem rename_total {e : Env} {S : St} (hS : S.OK) (a b : Str) (hc : Calm S (.rename a b)) (v : Nat) : (rename e S a b).1.total v = S.total v := by
  unfold rename
  cases hva : validate e a with
  | some er => rfl
  | none =>
    cases hvb : validate e b with
    | some er => rfl
    | none =>
      simp only
      split
      · rfl
      · rename_i hne
        split
        · rfl
        · rename_i hdo
          split
          · rfl
          · rename_i hpre
            have hda : a ≠ dot := fun h => hdo (Or.inl h)
            have hdb : b ≠ dot := fun h => hdo (Or.inr h)
            have hnb : ¬ place a <+: place b := fun hp => hpre ((below_iff hda hdb).2 hp)
            cases ho : findDirent e S.root a with
            | error er => rfl
            | ok r =>
              obtain ⟨oloc, _ | old⟩ := r
              · rfl
              · simp only
                cases hn : findDirent e S.root b with
                | error er => rfl
                | ok r =>
                  obtain ⟨nloc, new⟩ := r
                  simp only
                  split
                  · rfl
                  · split
                    · rfl
                    · obtain ⟨_, _, hpo, _, m, es, hao, _, _, hfo⟩ := findDirent_ok ho
                      obtain ⟨_, _, hpn, _, mn, en, han, _, _, _⟩ := findDirent_ok hn
                      have hloc : nloc = place (dir b) := by
                        have := place_dir hvb hdb
                        rw [hpn] at this
                        exact (List.append_inj' this rfl).1
                      have h1 := held_removeAt hS.wf hao (base a) v
                      rw [hfo] at h1
                      have hOK1 := hS.change (loc := oloc) (isDir_removeName (base a)) (fun _ hk => hk.removeName _)
                      obtain ⟨g1, g2⟩ := remove_shows hao (base a)
                      rw [← hpo] at g1 g2
                      have hnd : ¬ place a <+: nloc := fun h => hnb (h.trans ⟨[base b], hpn.symm⟩)
                      have hn1 : ∃ mn' en', (S.root.modify oloc (Node.removeName (base a))).at nloc = some (.dir mn' en') := by
                        have := g2 _ hnd
                        rw [shows_eq, shows_eq, han] at this
                        cases hx : (S.root.modify oloc (Node.removeName (base a))).at nloc with
                        | none => rw [hx] at this; cases this
                        | some k =>
                          rw [hx] at this
                          cases k with
                          | file _ _ => cases this
                          | dir a b => exact ⟨a, b, rfl⟩
                      obtain ⟨mn', en', hn1⟩ := hn1
                      have h2 := held_addAt hOK1.wf hn1 (base a) old v
                      have hfree : en'.find (base a) = none := by
                        have hsh : (S.root.modify oloc (Node.removeName (base a))).shows (nloc ++ [base a]) = none := by
                          rcases hc with h | h | h
                          · exact absurd h hne
                          · rw [← hloc] at h
                            by_cases hp : place a <+: nloc ++ [base a]
                            · obtain ⟨r, hr⟩ := hp
                              rw [← hr]; exact g1 r
                            · rw [g2 _ hp, shows_eq, h]; rfl
                          · rw [← hloc] at h
                            have := g1 []
                            rw [List.append_nil] at this
                            rw [h]; exact this
                        rw [shows_eq, Node.at_snoc, hn1] at hsh
                        simpa [Node.lookup] using hsh
                      rw [hfree] at h2
                      simp only [heldOpt] at h1 h2
                      have h3 : (change (change S oloc (Node.removeName (base a))) nloc (Node.add (base a) old)).total v = S.total v := by
                        simp only [St.total, change] at h2 ⊢
                        omega
                      cases old with
                      | dir _ _ => exact h3
                      | file mo x =>
                        simp only [ask]
                        rw [total_asked _ _ _ _ _ rfl, h3]; rfl

theorem addFileCall_total {e : Env} {S : St} (hS : S.OK) (path : Str) (w : View) (v : Nat) :
    (addFileCall e S path w).1.total v = S.total v + (addedBy e S (.addFile path w)).count v := by
  simp only [addedBy]
  unfold addFileCall
  cases hv : validate e path with
  | some er => simp
  | none =>
    simp only
    unfold addFile ask
    simp only
    cases e.answer S.asked.length with
    | some er => simp only [List.count_nil]; rw [total_asked _ _ _ _ _ rfl]; rfl
    | none =>
      have h1 : (⟨S.root, S.asked ++ [.stat w.id], S.next⟩ : St).OK := hS.asked _ _
      have t1 : (⟨S.root, S.asked ++ [.stat w.id], S.next⟩ : St).total v = S.total v := by rw [total_asked _ _ _ _ _ rfl]; rfl
      simp only
      split
      · simpa using t1
      · split
        · simpa using t1
        · rename_i hfp
          have h2 := mkdirAll_inv (e := e) h1 (clean (dirPart path)) 511
          have t2 := mkdirAll_total (e := e) h1 (clean (dirPart path)) 511 v
          cases hm : mkdirAll e ⟨S.root, S.asked ++ [.stat w.id], S.next⟩ (clean (dirPart path)) 511 with
          | mk S2 res =>
            rw [hm] at h2 t2
            simp only at t2
            cases res with
            | error er => simp only [List.count_nil]; omega
            | ok _ =>
              simp only
              cases hf : find e S2.root (clean (dirPart path)) with
              | error er => simp only [List.count_nil]; omega
              | ok r =>
                obtain ⟨loc, parent⟩ := r
                simp only
                cases hse : searchable (some parent) with
                | error er => simp only [List.count_nil]; omega
                | ok p' =>
                  obtain ⟨hpp, mp, ep, hp', _⟩ := searchable_ok hse
                  cases hpp
                  subst hp'
                  obtain ⟨_, _, _, hat⟩ := find_ok hf
                  simp only
                  split
                  · simp only [List.count_nil]; omega
                  · have hbase : filePart path = base path := by
                      by_cases hd : path = dot
                      · subst hd; decide
                      · exact (filePart_valid hv hd).1
                    rw [hbase]
                    have hh := held_addAt h2.wf hat (base path) (.file w.mode w.id) v
                    simp only [Node.lookup]
                    cases hk : ep.find (base path) with
                    | none =>
                      rw [hk] at hh
                      simp only [heldOpt, held_file] at hh
                      simp only [St.total, change] at t1 t2 ⊢
                      omega
                    | some k =>
                      rw [hk] at hh
                      simp only [heldOpt, held_file] at hh
                      simp only [St.total, change, closeAll, told_append, told_closes, List.count_append] at t1 t2 ⊢
                      have : k.views.count v = k.held v := rfl
                      omega

theorem exec_total {e : Env} {S : St} (hS : S.OK) (c : Call) (hc : Calm S c) (v : Nat) : (exec e S c).total v = S.total v + (addedBy e S c).count v := by
  cases c with
  | chmod n m => exact chmod_total hS n m v
  | stat n => exact stat_total n v
  | mkdir n p => exact mkdir_total hS n p v
  | mkdirAll n p => exact mkdirAll_total hS n p v
  | openFile n f p => exact openFile_total hS n f p v
  | remove n => exact remove_total hS n v
  | removeAll n => exact removeAll_total hS n v
  | rename a b => exact rename_total hS a b hc v
  | addFile p w => exact addFileCall_total hS p w v
  | reallocate p c => exact absurd hc (by simp [Calm])

/-- **C91**: in every history without Reallocate and without a Rename that replaces something, every view has been added exactly as often as it is in the
tree and has been told together. -/
theorem C91_conserved_partial (e : Env) (cs : List Call) (h : CalmAll e St.new cs) (v : Nat) :
    (addedAll e St.new cs).count v = (after e cs).root.held v + (told (after e cs).asked).count v := by
  have key : ∀ (cs : List Call) (S : St), S.OK → CalmAll e S cs → (cs.foldl (exec e) S).total v = S.total v + (addedAll e S cs).count v := by
    intro cs
    induction cs with
    | nil => intro S _ _; simp [addedAll]
    | cons c cs ih =>
      intro S hS hc
      simp only [List.foldl_cons, addedAll, List.count_append]
      rw [ih _ (exec_inv hS c) hc.2, exec_total hS c hc.1]
      omega
  have := key cs St.new new_ok h
  have h0 : St.new.total v = 0 := by simp [St.total, St.new, held_dir, held_nil, told]
  unfold after
  simp only [St.total] at this h0 ⊢
  omega

/-- **C91**: so if no view is added twice, a view that was added is in the tree, at one place, and has not been told, or it is in the tree no more and has
been told once. A view that was not added has not been told. -/
theorem C91_told_once_partial (e : Env) (cs : List Call) (h : CalmAll e St.new cs) (hnd : (addedAll e St.new cs).Nodup) (v : Nat) :
    (v ∈ addedAll e St.new cs → ((after e cs).root.views.count v = 1 ∧ Ask.close v ∉ (after e cs).asked) ∨
      (v ∉ (after e cs).root.views ∧ (after e cs).asked.count (.close v) = 1)) ∧
    (v ∉ addedAll e St.new cs → v ∉ (after e cs).root.views ∧ Ask.close v ∉ (after e cs).asked) := by
  have hcount : ∀ (a : List Ask), a.count (.close v) = (told a).count v := by
    intro a
    induction a with
    | nil => rfl
    | cons x a ih =>
      cases x with
      | close w =>
        simp only [told, List.count_cons, ih]
        by_cases hwv : w = v
        · simp [hwv]
        · have : ¬ Ask.close w = Ask.close v := by intro h; cases h; exact hwv rfl
          simp [hwv]
      | stat w => rw [List.count_cons, ih]; simp [told]
      | open_ w => rw [List.count_cons, ih]; simp [told]
      | truncate w => rw [List.count_cons, ih]; simp [told]
      | rename w n => rw [List.count_cons, ih]; simp [told]
  have hc := C91_conserved_partial e cs h v
  rw [← hcount] at hc
  unfold Node.held at hc
  refine ⟨fun hm => ?_, fun hm => ?_⟩
  · have h1 : (addedAll e St.new cs).count v = 1 := by
      have h2 := List.nodup_iff_count.1 hnd v
      have h3 := List.count_pos_iff.2 hm
      omega
    rw [h1] at hc
    have : (after e cs).root.views.count v = 1 ∧ (after e cs).asked.count (.close v) = 0 ∨
        (after e cs).root.views.count v = 0 ∧ (after e cs).asked.count (.close v) = 1 := by omega
    rcases this with ⟨a, b⟩ | ⟨a, b⟩
    · exact Or.inl ⟨a, List.count_eq_zero.1 b⟩
    · exact Or.inr ⟨List.count_eq_zero.1 a, b⟩
  · rw [List.count_eq_zero.2 hm] at hc
    have : (after e cs).root.views.count v = 0 ∧ (after e cs).asked.count (.close v) = 0 := by omega
    exact ⟨List.count_eq_zero.1 this.1, List.count_eq_zero.1 this.2⟩

/-! ### examples -/

/-- A file is added, replaced, moved, another one created, and everything removed. -/
def exViews : List Call := [.addFile "a/f".toList ⟨3, 0o644, false⟩, .addFile "a/f".toList ⟨4, 0o644, false⟩, .mkdir "b".toList 0o777,
  .rename "a/f".toList "b/f".toList, .openFile "b/g".toList ⟨.rdwr, true, false, false, false⟩ 0o600, .removeAll "b".toList]

example : CalmAll ex St.new exViews := ⟨trivial, trivial, trivial, Or.inr (Or.inl (by rfl)), trivial, trivial, trivial⟩
example : addedAll ex St.new exViews = [3, 4, 0] := by decide
example : (after ex exViews).asked = [.stat 3, .stat 4, .close 3, .rename 4 "b/f".toList, .stat 0, .open_ 0, .close 4, .close 0] := by decide

/-! ### what is not so -/

/-- A file replaced by Rename is never told: it is not in the tree any more, and no later call can reach it. -/
theorem C91_counterexample_rename :
    let cs : List Call := [.addFile "a/f".toList ⟨3, 0o644, false⟩, .addFile "b/f".toList ⟨4, 0o644, false⟩, .rename "a/f".toList "b/f".toList]
    addedAll ex St.new cs = [3, 4] ∧ (after ex cs).root.views = [3] ∧ (after ex cs).asked = [.stat 3, .stat 4, .rename 3 "b/f".toList] := by decide

/-- Reallocate tells the old view twice. -/
theorem C91_counterexample_reallocate :
    let cs : List Call := [.addFile "a/f".toList ⟨3, 0o644, false⟩, .reallocate "a/f".toList none]
    (after ex cs).asked = [.stat 3, .open_ 3, .open_ 0, .stat 0, .close 3, .close 3] := by decide

/-- A Reallocate that cannot copy leaves the view it has allocated neither in the tree nor told. -/
theorem C91_counterexample_copy :
    let cs : List Call := [.addFile "a/f".toList ⟨3, 0o644, false⟩, .reallocate "a/f".toList (some .other)]
    (after ex cs).asked = [.stat 3, .open_ 3, .open_ 0] ∧ (after ex cs).root.views = [3] := by decide

/-- A file that cannot be opened after its creation: its view has been allocated, and is neither in the tree nor told. -/
theorem C91_note_create :
    let e : Env := { ex with answer := fun n => if n = 1 then some .other else none }
    let cs : List Call := [.openFile "f".toList ⟨.rdwr, true, false, false, false⟩ 0o600]
    (after e cs).asked = [.stat 0, .open_ 0] ∧ (after e cs).root.views = [] ∧ (after e cs).next = 1 := by decide

end Verif.Afero
