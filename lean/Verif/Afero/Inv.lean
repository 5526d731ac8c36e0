import Verif.Afero.FindProps
/-
In every history of the afero filesystem the names in a directory are distinct, and the root is a directory.
-/
namespace Verif.Afero
open Verif.Path

mutual
/-- The names in every directory are distinct. -/
def Node.WF : Node → Prop
  | .file _ _ => True
  | .dir _ es => es.WF
def Ents.WF : Ents → Prop
  | .nil => True
  | .cons a n rest => rest.find a = none ∧ n.WF ∧ rest.WF
end

theorem Ents.WF.find : ∀ {es : Ents} {c : Str} {k : Node}, es.WF → es.find c = some k → k.WF
  | .nil, _, _, _, h => by cases h
  | .cons a n rest, c, k, hw, h => by
    simp only [Ents.find] at h
    simp only [Ents.WF] at hw
    split at h
    · cases h; exact hw.2.1
    · exact Ents.WF.find hw.2.2 h

theorem Node.WF.at : ∀ {p : List Str} {n k : Node}, n.WF → n.at p = some k → k.WF
  | [], n, k, hw, h => by cases h; exact hw
  | c :: p, .file _ _, k, hw, h => by cases h
  | c :: p, .dir m es, k, hw, h => by
    simp only [Node.at] at h
    cases hf : es.find c with
    | none => rw [hf] at h; cases h
    | some x =>
      rw [hf] at h
      exact Node.WF.at (Ents.WF.find (by simpa only [Node.WF] using hw) hf) h

theorem Ents.WF.remove : ∀ {es : Ents}, es.WF → ∀ c, (es.remove c).WF
  | .nil, _, _ => trivial
  | .cons a n rest, hw, c => by
    simp only [Ents.WF] at hw
    simp only [Ents.remove]
    split
    · exact Ents.WF.remove hw.2.2 c
    · simp only [Ents.WF, Ents.find_remove, hw.1, ite_self, true_and]
      exact ⟨hw.2.1, Ents.WF.remove hw.2.2 c⟩

theorem Ents.WF.push : ∀ {es : Ents}, es.WF → ∀ {c : Str} {k : Node}, es.find c = none → k.WF → (es.push c k).WF
  | .nil, _, c, k, _, hk => by simp only [Ents.push, Ents.WF, Ents.find, true_and, and_true]; exact hk
  | .cons a n rest, hw, c, k, hf, hk => by
    simp only [Ents.WF] at hw
    simp only [Ents.find] at hf
    split at hf
    · cases hf
    · rename_i hac
      simp only [Ents.push, Ents.WF, Ents.find_push, hw.1, if_neg (Ne.symm hac), true_and]
      exact ⟨hw.2.1, Ents.WF.push hw.2.2 hf hk⟩

theorem Ents.WF.add {es : Ents} (h : es.WF) (c : Str) {k : Node} (hk : k.WF) : (es.add c k).WF :=
  (h.remove c).push (by rw [Ents.find_remove, if_pos rfl]) hk

theorem Ents.WF.update : ∀ {es : Ents}, es.WF → ∀ {c : Str} {f : Node → Node}, (∀ k, es.find c = some k → (f k).WF) → (es.update c f).WF
  | .nil, _, _, _, _ => trivial
  | .cons a n rest, hw, c, f, hf => by
    simp only [Ents.WF] at hw
    simp only [Ents.update]
    split
    · rename_i h
      subst h
      simp only [Ents.WF, Ents.find_update, hw.1, Option.map_none, ite_self, true_and]
      exact ⟨hf n (by simp [Ents.find]), Ents.WF.update hw.2.2 (fun k hk => by rw [hw.1] at hk; cases hk)⟩
    · rename_i h
      simp only [Ents.WF, Ents.find_update, if_neg h, hw.1, true_and]
      refine ⟨hw.2.1, Ents.WF.update hw.2.2 (fun k hk => hf k ?_)⟩
      simp only [Ents.find, if_neg h]; exact hk

theorem Node.WF.modify : ∀ {p : List Str} {f : Node → Node} {n : Node}, n.WF → (∀ k, k.WF → (f k).WF) → (n.modify p f).WF
  | [], f, n, hw, hf => hf n hw
  | c :: p, f, .file _ _, hw, hf => trivial
  | c :: p, f, .dir m es, hw, hf => by
    simp only [Node.modify, Node.WF] at hw ⊢
    exact hw.update (fun k hk => Node.WF.modify (hw.find hk) hf)

theorem Node.WF.add {n k : Node} (h : n.WF) (c : Str) (hk : k.WF) : (Node.add c k n).WF := by
  cases n with
  | file _ _ => trivial
  | dir m es => simp only [Node.add, Node.WF] at h ⊢; exact h.add c hk

theorem Node.WF.removeName {n : Node} (h : n.WF) (c : Str) : (n.removeName c).WF := by
  cases n with
  | file _ _ => trivial
  | dir m es => simp only [Node.removeName, Node.WF] at h ⊢; exact h.remove c

theorem Node.WF.chmod {n : Node} (h : n.WF) (mode : Nat) : (n.chmod mode).WF := by
  cases n <;> exact h

theorem emptyDir_wf (m : Nat) : (Node.dir m .nil).WF := by simp [Node.WF, Ents.WF]
theorem file_wf (m v : Nat) : (Node.file m v).WF := by simp [Node.WF]

theorem mkdirAllLoop_wf (e : Env) (perm : Nat) : ∀ (p : List Str) (n : Node), n.WF → (mkdirAllLoop e perm n p).1.WF
  | [], n, h => h
  | c :: p, .file _ _, h => trivial
  | c :: p, .dir m es, h => by
    have key : ∀ es1 : Ents, es1.WF → (match searchable (es1.find c) with
        | .error er => ((.dir m es1, some er) : Node × Option Err)
        | .ok k =>
          let r := mkdirAllLoop e perm k p
          (.dir m (es1.update c (fun _ => r.1)), r.2)).1.WF := by
      intro es1 h1
      cases hs : searchable (es1.find c) with
      | error er => simpa only [Node.WF] using h1
      | ok k =>
        simp only [Node.WF]
        refine h1.update (fun x hx => mkdirAllLoop_wf e perm p k ?_)
        have := (searchable_ok hs).1
        rw [this] at hx
        cases hx
        exact h1.find this
    simp only [Node.WF] at h
    simp only [mkdirAllLoop]
    cases hf : es.find c with
    | some k =>
      have := key es h
      simp only [hf] at this ⊢
      exact this
    | none => exact key _ (h.add c (emptyDir_wf _))

/-! ### what `removeAllFrom` leaves -/

mutual
theorem Node.prune_wf (w : Bool) : ∀ (n k : Node), n.WF → (n.prune w).1 = some k → k.WF
  | .file m v, k, hw, h => by
    simp only [Node.prune] at h
    split at h <;> cases h
    trivial
  | .dir m .nil, k, hw, h => by
    simp only [Node.prune] at h
    split at h <;> cases h
    exact hw
  | .dir m (.cons a n rest), k, hw, h => by
    simp only [Node.prune] at h
    split at h
    · cases h; exact hw
    · cases h
      simp only [Node.WF] at hw ⊢
      exact Ents.prune_wf _ (.cons a n rest) hw
theorem Ents.prune_wf (w : Bool) : ∀ (es : Ents), es.WF → (es.prune w).1.WF
  | .nil, _ => by simp [Ents.prune, Ents.WF]
  | .cons a n rest, hw => by
    simp only [Ents.WF] at hw
    have h1 := Node.prune_wf w n
    have h2 := Ents.prune_wf w rest hw.2.2
    have h3 := Ents.prune_none w rest a hw.1
    simp only [Ents.prune]
    rcases hp : n.prune w with ⟨left, vs, _ | er⟩
    · simp only
      cases left with
      | none => exact h2
      | some k =>
        simp only [Ents.WF]
        exact ⟨h3, h1 k hw.2.1 (by rw [hp]), h2⟩
    · simp only
      cases left with
      | none => exact hw.2.2
      | some k =>
        simp only [Ents.WF]
        exact ⟨hw.1, h1 k hw.2.1 (by rw [hp]), hw.2.2⟩
theorem Ents.prune_none (w : Bool) : ∀ (es : Ents) (c : Str), es.find c = none → (es.prune w).1.find c = none
  | .nil, c, h => by simp [Ents.prune, Ents.find]
  | .cons a n rest, c, h => by
    simp only [Ents.find] at h
    split at h
    · cases h
    · rename_i hac
      have h3 := Ents.prune_none w rest c h
      simp only [Ents.prune]
      rcases hp : n.prune w with ⟨left, vs, _ | er⟩
      · cases left with
        | none => exact h3
        | some k => simp only [Ents.find, if_neg hac]; exact h3
      · cases left with
        | none => exact h
        | some k => simp only [Ents.find, if_neg hac]; exact h
end

/-! ### every call -/

/-- The state is fit: the root is a directory, the names in every directory are distinct. -/
structure St.OK (S : St) : Prop where
  dir : S.root.isDir = true
  wf : S.root.WF

theorem modify_isDir {p : List Str} {f : Node → Node} {n : Node} (h : n.isDir = true) (hf : ∀ k, k.isDir = true → (f k).isDir = true) :
    (n.modify p f).isDir = true := by
  cases p with
  | nil => exact hf n h
  | cons c p =>
    cases n with
    | file _ _ => cases h
    | dir m es => rfl

theorem St.OK.change {S : St} (h : S.OK) {loc : List Str} {f : Node → Node} (h1 : ∀ k, k.isDir = true → (f k).isDir = true) (h2 : ∀ k, k.WF → (f k).WF) :
    (Afero.change S loc f).OK := ⟨modify_isDir h.dir h1, h.wf.modify h2⟩

theorem St.OK.asked {S : St} (h : S.OK) (a : List Ask) (n : Nat) : (⟨S.root, a, n⟩ : St).OK := ⟨h.dir, h.wf⟩

theorem isDir_add (c : Str) (k : Node) : ∀ n : Node, n.isDir = true → (Node.add c k n).isDir = true
  | .dir _ _, _ => rfl
  | .file _ _, h => h
theorem isDir_removeName (c : Str) : ∀ n : Node, n.isDir = true → (Node.removeName c n).isDir = true
  | .dir _ _, _ => rfl
  | .file _ _, h => h
theorem isDir_chmod (c : Nat) : ∀ n : Node, n.isDir = true → (Node.chmod c n).isDir = true
  | .dir _ _, _ => rfl
  | .file _ _, h => h

theorem chmod_inv {e : Env} {S : St} (h : S.OK) (name : Str) (mode : Nat) : (chmod e S name mode).1.OK := by
  unfold chmod
  split
  · exact h
  · exact h.change (isDir_chmod mode) (fun _ hk => hk.chmod mode)

theorem stat_inv {e : Env} {S : St} (h : S.OK) (name : Str) : (stat e S name).1.OK := by
  unfold stat ask
  split
  · exact h
  · exact h
  · split <;> (rename_i h1; obtain ⟨rfl, _⟩ := Prod.mk.inj h1; exact h.asked _ _)

theorem mkdir_inv {e : Env} {S : St} (h : S.OK) (name : Str) (perm : Nat) : (mkdir e S name perm).1.OK := by
  unfold mkdir
  split
  · exact h
  · repeat' split
    all_goals first
      | exact h
      | exact h.change (isDir_add _ _) (fun _ hk => hk.add _ (emptyDir_wf _))

theorem mkdirAllLoop_isDir (e : Env) (perm : Nat) (p : List Str) {n : Node} (h : n.isDir = true) : (mkdirAllLoop e perm n p).1.isDir = true := by
  cases n with
  | file _ _ => cases h
  | dir m es =>
    cases p with
    | nil => rfl
    | cons c p =>
      simp only [mkdirAllLoop]
      split <;> rfl

theorem mkdirAll_inv {e : Env} {S : St} (h : S.OK) (name : Str) (perm : Nat) : (mkdirAll e S name perm).1.OK := by
  unfold mkdirAll
  split
  · exact h
  · split
    · exact h
    · cases hs : searchable (some S.root) with
      | error er => exact h
      | ok r =>
        have := (searchable_ok hs).1
        cases this
        exact ⟨mkdirAllLoop_isDir e perm _ h.dir, mkdirAllLoop_wf e perm _ _ h.wf⟩

theorem openHandle_root (e : Env) (S : St) (loc : List Str) (n : Node) : (openHandle e S loc n).1.root = S.root := by
  unfold openHandle ask
  cases n with
  | dir _ _ => rfl
  | file m v =>
    simp only
    split <;> (rename_i h1; obtain ⟨rfl, _⟩ := Prod.mk.inj h1; rfl)

theorem openFile_inv {e : Env} {S : St} (h : S.OK) (name : Str) (flag : Flag) (perm : Nat) : (openFile e S name flag perm).1.OK := by
  have hh : ∀ (S1 : St) (loc : List Str) (n : Node), S1.root = S.root → (openHandle e S1 loc n).1.OK := by
    intro S1 loc n h1
    have := openHandle_root e S1 loc n
    exact ⟨by rw [this, h1]; exact h.dir, by rw [this, h1]; exact h.wf⟩
  unfold openFile ask
  split
  · exact h
  · simp only
    split
    · exact hh S _ _ rfl
    · split
      · split
        · exact h
        · split
          · exact h
          · split
            · exact h
            · split
              · exact hh S _ _ rfl
              · split
                · split
                  · rename_i h1; obtain ⟨rfl, _⟩ := Prod.mk.inj h1; exact h.asked _ _
                  · rename_i h1; obtain ⟨rfl, _⟩ := Prod.mk.inj h1; exact hh _ _ _ rfl
                · exact hh S _ _ rfl
      · split
        · exact h
        · split
          · exact h
          · split
            · exact h
            · split
              · rename_i h1; obtain ⟨rfl, _⟩ := Prod.mk.inj h1; exact h.asked _ _
              · rename_i h1; obtain ⟨rfl, _⟩ := Prod.mk.inj h1
                simp only
                split
                · rename_i h1; obtain ⟨rfl, _⟩ := Prod.mk.inj h1; exact h.asked _ _
                · rename_i h1; obtain ⟨rfl, _⟩ := Prod.mk.inj h1
                  exact (h.asked _ _).change (isDir_add _ _) (fun _ hk => hk.add _ (file_wf _ _))

theorem removeFromParent_inv {e : Env} {S : St} (h : S.OK) (loc : List Str) (n : Node) (b : Str) : (removeFromParent e S loc n b).1.OK := by
  unfold removeFromParent ask
  repeat' split
  all_goals first
    | exact h
    | exact h.change (isDir_removeName _) (fun _ hk => hk.removeName _)
    | (rename_i h1; obtain ⟨rfl, _⟩ := Prod.mk.inj h1; exact (h.asked _ _).change (isDir_removeName _) (fun _ hk => hk.removeName _))

theorem remove_inv {e : Env} {S : St} (h : S.OK) (name : Str) : (remove e S name).1.OK := by
  unfold remove
  split
  · exact h
  · exact removeFromParent_inv h _ _ _

theorem removeAllFrom_inv {S : St} (h : S.OK) {loc : List Str} {n : Node} (hn : n.WF) (b : Str) : (removeAllFrom S loc n b).1.OK := by
  unfold removeAllFrom
  split
  · exact h
  · split
    · exact h
    · split
      · exact h
      · rename_i ent hent
        have hw : ent.WF := by
          cases n with
          | file _ _ => cases hent
          | dir m es => simp only [Node.WF] at hn; exact hn.find hent
        simp only
        have hc : (closeAll S (ent.prune true).2.1).OK := h.asked _ _
        cases hp : (ent.prune true).1 with
        | none => exact hc.change (isDir_removeName _) (fun _ hk => hk.removeName _)
        | some k =>
          refine hc.change (fun x hx => modify_isDir hx ?_) (fun x hx => ?_)
          · intro y hy
            have : k.isDir = true := by
              rcases ent with ⟨m, v⟩ | ⟨m, _ | ⟨a, n, rest⟩⟩
              · simp [Node.prune] at hp
              · simp [Node.prune] at hp
              · simp only [Node.prune, Bool.not_true, Bool.false_eq_true, if_false] at hp
                cases hp; rfl
            exact this
          · exact hx.modify (fun _ _ => Node.prune_wf true ent k hw hp)

theorem removeAll_inv {e : Env} {S : St} (h : S.OK) (name : Str) : (removeAll e S name).1.OK := by
  unfold removeAll
  split
  · exact h
  · split
    · exact h
    · have hr := remove_inv (e := e) h name
      cases hrm : remove e S name with
      | mk S1 res =>
        rw [hrm] at hr
        cases res with
        | ok _ => exact hr
        | error er =>
          simp only
          split
          · exact hr
          · cases hf : findParent e S1.root name with
            | error er => exact hr
            | ok r =>
              obtain ⟨loc, n⟩ := r
              refine removeAllFrom_inv hr ?_ _
              rcases (findParent_ok hf).2 with ⟨_, _, rfl⟩ | ⟨_, _, _, ha, _⟩
              · exact hr.wf
              · exact hr.wf.at ha

theorem findDirent_ok {e : Env} {root : Node} {name : Str} {loc : List Str} {o : Option Node} (h : findDirent e root name = .ok (loc, o)) :
    validate e name = none ∧ name ≠ dot ∧ place name = loc ++ [base name] ∧ IsName (base name) ∧
      ∃ m es, root.at loc = some (.dir m es) ∧ maySearch m = true ∧ mayWrite m = true ∧ es.find (base name) = o := by
  unfold findDirent at h
  cases hf : findParent e root name with
  | error er => rw [hf] at h; cases h
  | ok r =>
    obtain ⟨loc', n⟩ := r
    rw [hf] at h
    simp only at h
    split at h
    · cases h
    · rename_i hp
      split at h
      · cases h
      · rename_i hb
        cases h
        obtain ⟨hv, h⟩ := findParent_ok hf
        rcases h with ⟨h, _⟩ | ⟨h1, h2, h3, h4, m, es, rfl, hm⟩
        · exact absurd ((base_dot hv).2 h) hb
        · refine ⟨hv, h1, h2, h3, m, es, h4, hm, ?_, rfl⟩
          rw [← hasPerm_write]
          simpa [Node.mode] using hp

theorem rename_inv {e : Env} {S : St} (h : S.OK) (a b : Str) : (rename e S a b).1.OK := by
  unfold rename
  split
  · exact h
  · split
    · exact h
    · split
      · exact h
      · split
        · exact h
        · split
          · exact h
          · cases ho : findDirent e S.root a with
            | error er => exact h
            | ok r =>
              obtain ⟨oloc, _ | old⟩ := r
              · exact h
              · simp only
                cases hn : findDirent e S.root b with
                | error er => exact h
                | ok r =>
                  obtain ⟨nloc, new⟩ := r
                  simp only
                  split
                  · exact h
                  · split
                    · exact h
                    · obtain ⟨_, _, _, _, m, es, ha, _, _, hf⟩ := findDirent_ok ho
                      have hw := h.wf.at ha
                      simp only [Node.WF] at hw
                      have hold := hw.find hf
                      have h1 : (change (change S oloc (Node.removeName (base a))) nloc (Node.add (base a) old)).OK :=
                        (h.change (isDir_removeName _) (fun _ hk => hk.removeName _)).change (isDir_add _ _) (fun _ hk => hk.add _ hold)
                      cases old with
                      | dir _ _ => exact h1
                      | file _ _ => exact h1.asked _ _

theorem addFile_inv {e : Env} {S : St} (h : S.OK) (path : Str) (v : View) : (addFile e S path v).1.OK := by
  unfold addFile ask
  simp only
  split
  · rename_i h1; obtain ⟨rfl, _⟩ := Prod.mk.inj h1; exact h.asked _ _
  · rename_i h1; obtain ⟨rfl, _⟩ := Prod.mk.inj h1
    have h1 : (⟨S.root, S.asked ++ [.stat v.id], S.next⟩ : St).OK := h.asked _ _
    split
    · exact h1
    · split
      · exact h1
      · have h2 := mkdirAll_inv (e := e) h1 (clean (dirPart path)) 511
        cases hm : mkdirAll e ⟨S.root, S.asked ++ [.stat v.id], S.next⟩ (clean (dirPart path)) 511 with
        | mk S2 res =>
          rw [hm] at h2
          cases res with
          | error er => exact h2
          | ok _ =>
            simp only
            split
            · exact h2
            · split
              · exact h2
              · split
                · exact h2
                · simp only
                  split
                  · exact (h2.asked _ _).change (isDir_add _ _) (fun _ hk => hk.add _ (file_wf _ _))
                  · exact h2.change (isDir_add _ _) (fun _ hk => hk.add _ (file_wf _ _))

theorem addFileCall_inv {e : Env} {S : St} (h : S.OK) (path : Str) (v : View) : (addFileCall e S path v).1.OK := by
  unfold addFileCall
  split
  · exact h
  · exact addFile_inv h path v

theorem reallocate_inv {e : Env} {S : St} (h : S.OK) (path : Str) (c : Option ViewErr) : (reallocate e S path c).1.OK := by
  unfold reallocate ask
  split
  · exact h
  · exact h
  · rename_i loc0 m0 v0 _
    simp only
    split
    · rename_i h1; obtain ⟨rfl, _⟩ := Prod.mk.inj h1; exact h.asked _ _
    · rename_i h1; obtain ⟨rfl, _⟩ := Prod.mk.inj h1
      simp only
      split
      · rename_i h1; obtain ⟨rfl, _⟩ := Prod.mk.inj h1; exact h.asked _ _
      · rename_i h1; obtain ⟨rfl, _⟩ := Prod.mk.inj h1
        split
        · exact h.asked _ _
        · split
          · rename_i S3 er ha
            have := addFile_inv (e := e) (h.asked (S.asked ++ [Ask.open_ ‹_›] ++ [Ask.open_ S.next]) (S.next + 1)) path ⟨S.next, e.allocMode 511, false⟩
            rw [ha] at this
            exact this
          · rename_i S3 x ha
            have := addFile_inv (e := e) (h.asked (S.asked ++ [Ask.open_ ‹_›] ++ [Ask.open_ S.next]) (S.next + 1)) path ⟨S.next, e.allocMode 511, false⟩
            rw [ha] at this
            have := this.change (loc := loc0) (isDir_chmod m0) (fun _ hk => hk.chmod m0)
            split <;> (rename_i h1; obtain ⟨rfl, _⟩ := Prod.mk.inj h1; exact this.asked _ _)

/-- A call of the filesystem. -/
inductive Call where
  | chmod (name : Str) (mode : Nat)
  | stat (name : Str)
  | mkdir (name : Str) (perm : Nat)
  | mkdirAll (name : Str) (perm : Nat)
  | openFile (name : Str) (flag : Flag) (perm : Nat)
  | remove (name : Str)
  | removeAll (name : Str)
  | rename (old new : Str)
  | addFile (path : Str) (v : View)
  | reallocate (path : Str) (copied : Option ViewErr)

/-- The state after a call. -/
def exec (e : Env) (S : St) : Call → St
  | .chmod n m => (chmod e S n m).1
  | .stat n => (stat e S n).1
  | .mkdir n p => (mkdir e S n p).1
  | .mkdirAll n p => (mkdirAll e S n p).1
  | .openFile n f p => (openFile e S n f p).1
  | .remove n => (remove e S n).1
  | .removeAll n => (removeAll e S n).1
  | .rename a b => (rename e S a b).1
  | .addFile p v => (addFileCall e S p v).1
  | .reallocate p c => (reallocate e S p c).1

/-- The state after a history, from the new filesystem. -/
def after (e : Env) (cs : List Call) : St := cs.foldl (exec e) St.new

theorem exec_inv {e : Env} {S : St} (h : S.OK) (c : Call) : (exec e S c).OK := by
  cases c with
  | chmod n m => exact chmod_inv h n m
  | stat n => exact stat_inv h n
  | mkdir n p => exact mkdir_inv h n p
  | mkdirAll n p => exact mkdirAll_inv h n p
  | openFile n f p => exact openFile_inv h n f p
  | remove n => exact remove_inv h n
  | removeAll n => exact removeAll_inv h n
  | rename a b => exact rename_inv h a b
  | addFile p v => exact addFileCall_inv h p v
  | reallocate p c => exact reallocate_inv h p c

theorem new_ok : St.new.OK := ⟨rfl, by simp [St.new, Node.WF, Ents.WF]⟩

theorem after_ok (e : Env) (cs : List Call) : (after e cs).OK := by
  unfold after
  have : ∀ (cs : List Call) (S : St), S.OK → (cs.foldl (exec e) S).OK := by
    intro cs
    induction cs with
    | nil => exact fun S h => h
    | cons c cs ih => exact fun S h => ih _ (exec_inv h c)
  exact this cs _ new_ok

theorem names_nodup : ∀ {es : Ents}, es.WF → es.names.Nodup
  | .nil, _ => by simp [Ents.names]
  | .cons a n rest, h => by
    simp only [Ents.WF] at h
    simp only [Ents.names, List.nodup_cons]
    refine ⟨fun ha => ?_, names_nodup h.2.2⟩
    rw [Ents.mem_names] at ha
    exact ha h.1

/-- **C86**: after any history the root is a directory, and no directory lists a name twice. -/
theorem C86_listed_once (e : Env) (cs : List Call) :
    (∃ md, (after e cs).root.shows [] = some (.dir md)) ∧
    ∀ p m es, (after e cs).root.at p = some (.dir m es) → es.names.Nodup := by
  have h := after_ok e cs
  constructor
  · have hd := h.dir
    cases hr : (after e cs).root with
    | file _ _ => rw [hr] at hd; cases hd
    | dir m es => exact ⟨m, rfl⟩
  · intro p m es ha
    have := h.wf.at ha
    simp only [Node.WF] at this
    exact names_nodup this

example : (after ex [.mkdirAll "a/b".toList 0o777, .addFile "a/f".toList ⟨3, 0o644, false⟩, .addFile "a/f".toList ⟨4, 0o600, false⟩]).root.shows ["a".toList, "f".toList]
    = some (.file 0o600 4) := by decide

end Verif.Afero
