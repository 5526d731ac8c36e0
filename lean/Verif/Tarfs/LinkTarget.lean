import Verif.Tarfs.LinkProps
import Verif.Tarfs.ViewModel
/-
Property C71: where the links of an archive lead.
-/
namespace Verif.Tarfs
open Verif.Path

/-! ## Specification -/

/-- The components of the target of a link: repeated slashes, a slash at the end and "." do not matter. -/
def targetComps (target : Str) : List Str := (split target).filter (fun c => decide (c ≠ [] ∧ c ≠ dot))

/-- Resolution of a path as POSIX has it, over the entries of a tree: starting in the directory `cur`, the components lead to the entry at `p`
after following `n` symbolic links. "." stays, ".." goes to the parent directory (`mayLeave` says which directories may be left so), a
directory is entered, the target of a symbolic link is resolved from the directory that holds the link, followed by what remains. A link in the last
place is followed when `follow` says so. -/
inductive Leads (ent : List Str → Option Ent) (mayLeave : List Str → Prop) (follow : Bool) : (n : Nat) → (cur : List Str) → List Str → List Str → Prop
  | here (cur) : Leads ent mayLeave follow 0 cur [] cur
  | stand {n cur cs p} : Leads ent mayLeave follow n cur cs p → Leads ent mayLeave follow n cur (dot :: cs) p
  | up {n cur cs p} : cur ≠ [] → mayLeave cur → Leads ent mayLeave follow n cur.dropLast cs p → Leads ent mayLeave follow n cur (dotdot :: cs) p
  | into {n cur c cs p h} : IsName c → ent (cur ++ [c]) = some (.dir h) → Leads ent mayLeave follow n (cur ++ [c]) cs p →
      Leads ent mayLeave follow n cur (c :: cs) p
  | file {cur c h} : IsName c → ent (cur ++ [c]) = some (.file h) → Leads ent mayLeave follow 0 cur [c] (cur ++ [c])
  | hard {cur c h} : IsName c → ent (cur ++ [c]) = some (.hardlink h) → Leads ent mayLeave follow 0 cur [c] (cur ++ [c])
  | stay {cur c h} : IsName c → ent (cur ++ [c]) = some (.symlink h) → follow = false → Leads ent mayLeave follow 0 cur [c] (cur ++ [c])
  | link {n cur c cs p h} : IsName c → ent (cur ++ [c]) = some (.symlink h) → follow = true ∨ cs ≠ [] → isAbs h.linkname = false →
      Leads ent mayLeave follow n cur (targetComps h.linkname ++ cs) p → Leads ent mayLeave follow (n + 1) cur (c :: cs) p

/-- The target of a link is steps up, if any, followed by at least one name. -/
def PlainTarget (target : Str) : Prop :=
  ∃ (k : Nat) (ns : List Str), targetComps target = List.replicate k dotdot ++ ns ∧ ns ≠ [] ∧ ∀ c ∈ ns, c ≠ dotdot

/-! ## Helpers -/

variable {ent : List Str → Option Ent} {mayLeave : List Str → Prop} {follow : Bool}

theorem targetComps_comp {t : Str} : ∀ c ∈ targetComps t, IsComp c ∧ c ≠ dot := by
  intro c hc
  rw [targetComps, List.mem_filter] at hc
  have h := of_decide_eq_true hc.2
  exact ⟨⟨h.1, split_no_slash t c hc.1⟩, h.2⟩

theorem plain_names {t : Str} {k : Nat} {ns : List Str} (h : targetComps t = List.replicate k dotdot ++ ns) (hns : ∀ c ∈ ns, c ≠ dotdot) :
    ∀ c ∈ ns, IsName c := by
  intro c hc
  have := targetComps_comp (t := t) c (by rw [h]; exact List.mem_append_right _ hc)
  exact ⟨this.1, this.2, hns c hc⟩

theorem foldl_skip {r : Bool} : ∀ (l : List Str) (st : List Str),
    l.foldl (cleanStep r) st = (l.filter (fun c => decide (c ≠ [] ∧ c ≠ dot))).foldl (cleanStep r) st := by
  intro l
  induction l with
  | nil => intro st; rfl
  | cons c rest ih =>
    intro st
    by_cases h : c ≠ [] ∧ c ≠ dot
    · rw [List.filter_cons_of_pos (by simpa using h)]
      exact ih _
    · rw [List.filter_cons_of_neg (by simpa using h)]
      have : c = [] ∨ c = dot := by
        by_cases h1 : c = []
        · exact Or.inl h1
        · exact Or.inr (Classical.byContradiction (fun h2 => h ⟨h1, h2⟩))
      show rest.foldl (cleanStep r) (cleanStep r st c) = _
      rw [show cleanStep r st c = st from by unfold cleanStep; rw [if_pos this]]
      exact ih st

theorem normal_plain (k : Nat) (ns : List Str) (h : ∀ c ∈ ns, IsName c) : Normal false (List.replicate k dotdot ++ ns) := by
  induction k with
  | zero => exact .names h
  | succ k ih => exact .up rfl ih

/-- Cleaning a plain target keeps its components. -/
theorem comps_plain {t : Str} (habs : isAbs t = false) {k : Nat} {ns : List Str} (h : targetComps t = List.replicate k dotdot ++ ns)
    (hns : ∀ c ∈ ns, c ≠ dotdot) : comps t = targetComps t := by
  have hn := plain_names h hns
  unfold comps
  rw [habs, foldl_skip]
  show (List.foldl (cleanStep false) [] (targetComps t)).reverse = _
  rw [h]
  have := foldl_normal (normal_plain k ns hn) 0 (by simp)
  simpa using congrArg List.reverse this

theorem leads_up_iff {n : Nat} {cur cs p : List Str} :
    Leads ent mayLeave follow n cur (dotdot :: cs) p ↔ cur ≠ [] ∧ mayLeave cur ∧ Leads ent mayLeave follow n cur.dropLast cs p := by
  constructor
  · intro h
    generalize hc : dotdot = c at h
    cases h with
    | stand _ => exact absurd hc (by decide)
    | up h1 h2 h3 => exact ⟨h1, h2, h3⟩
    | into h _ _ => exact absurd hc.symm h.2.2
    | file h _ => exact absurd hc.symm h.2.2
    | hard h _ => exact absurd hc.symm h.2.2
    | stay h _ _ => exact absurd hc.symm h.2.2
    | link h _ _ _ _ => exact absurd hc.symm h.2.2
  · rintro ⟨h1, h2, h3⟩
    exact .up h1 h2 h3

/-- What a name leads to, by the entry it names. -/
theorem leads_name_iff {n : Nat} {cur : List Str} {c : Str} {cs p : List Str} (hc : IsName c) :
    Leads ent mayLeave follow n cur (c :: cs) p ↔
      match ent (cur ++ [c]) with
      | none => False
      | some (.dir _) => Leads ent mayLeave follow n (cur ++ [c]) cs p
      | some (.file _) => n = 0 ∧ cs = [] ∧ p = cur ++ [c]
      | some (.hardlink _) => n = 0 ∧ cs = [] ∧ p = cur ++ [c]
      | some (.symlink h) => (n = 0 ∧ cs = [] ∧ follow = false ∧ p = cur ++ [c]) ∨
          (∃ m, n = m + 1 ∧ (follow = true ∨ cs ≠ []) ∧ isAbs h.linkname = false ∧ Leads ent mayLeave follow m cur (targetComps h.linkname ++ cs) p) := by
  constructor
  · intro h
    generalize hd : c = d at h hc
    cases h with
    | stand _ => exact absurd rfl hc.2.1
    | up _ _ _ => exact absurd rfl hc.2.2
    | into _ he h => rw [he]; exact h
    | file _ he => rw [he]; exact ⟨rfl, rfl, rfl⟩
    | hard _ he => rw [he]; exact ⟨rfl, rfl, rfl⟩
    | stay _ he hf => rw [he]; exact Or.inl ⟨rfl, rfl, hf, rfl⟩
    | link _ he h1 h2 h3 => rw [he]; exact Or.inr ⟨_, rfl, h1, h2, h3⟩
  · intro h
    cases he : ent (cur ++ [c]) with
    | none => rw [he] at h; exact h.elim
    | some e =>
      rw [he] at h
      cases e with
      | dir _ => exact .into hc he h
      | file _ => obtain ⟨rfl, rfl, rfl⟩ := h; exact .file hc he
      | hardlink _ => obtain ⟨rfl, rfl, rfl⟩ := h; exact .hard hc he
      | symlink _ =>
        rcases h with ⟨rfl, rfl, hf, rfl⟩ | ⟨m, rfl, h1, h2, h3⟩
        · exact .stay hc he hf
        · exact .link hc he h1 h2 h3

theorem leads_nil_iff {n : Nat} {cur p : List Str} : Leads ent mayLeave follow n cur [] p ↔ n = 0 ∧ p = cur := by
  constructor
  · intro h; cases h; exact ⟨rfl, rfl⟩
  · rintro ⟨rfl, rfl⟩; exact .here _

theorem leads_stand_iff {n : Nat} {cur cs p : List Str} : Leads ent mayLeave follow n cur (dot :: cs) p ↔ Leads ent mayLeave follow n cur cs p := by
  constructor
  · intro h
    generalize hc : dot = c at h
    cases h with
    | stand h => exact h
    | up _ _ _ => exact absurd hc (by decide)
    | into h _ _ => exact absurd hc.symm h.2.1
    | file h _ => exact absurd hc.symm h.2.1
    | hard h _ => exact absurd hc.symm h.2.1
    | stay h _ _ => exact absurd hc.symm h.2.1
    | link h _ _ _ _ => exact absurd hc.symm h.2.1
  · exact .stand

/-- Steps up, then at least one name. -/
def Road (ts : List Str) : Prop := ∃ (k : Nat) (ns : List Str), ts = List.replicate k dotdot ++ ns ∧ ns ≠ [] ∧ ∀ c ∈ ns, IsName c

/-- The loop finds exactly what the components lead to, within the limit on links. -/
theorem loop_leads {fs : Fsys} {hl : Hdr → Option Look} (hhl : ∀ p h q, fs.t.ent p = some (.hardlink h) → hl h = some (.ok q) → ∀ hd, fs.t.ent q ≠ some (.dir hd))
    (hplain : ∀ p h, fs.t.ent p = some (.symlink h) → isAbs h.linkname = false → PlainTarget h.linkname) :
    ∀ (fuel r : Nat) (cur d : List Str) (s : Str) (ts : List Str) (o : Look), r ≤ maxLinks → Toks s ts → Road ts →
      openLoop fs hl (!follow) fuel r cur d s = some o →
      ∀ p, o = .ok p ↔ ∃ n, r + n ≤ maxLinks ∧ Leads fs.t.ent (fun cur => fs.rooted = true → cur ≠ fs.sub) follow n cur ts p := by
  intro fuel
  induction fuel with
  | zero => intro r cur d s ts o _ _ _ h; simp [openLoop] at h
  | succ fuel ih =>
    intro r cur d s ts o hr htk hroad h p
    have herr : ∀ (x : Err), (∀ n, r + n ≤ maxLinks → ¬ Leads fs.t.ent (fun cur => fs.rooted = true → cur ≠ fs.sub) follow n cur ts p) →
        ((Except.error x : Look) = .ok p ↔ ∃ n, r + n ≤ maxLinks ∧ Leads fs.t.ent (fun cur => fs.rooted = true → cur ≠ fs.sub) follow n cur ts p) := by
      intro x hno
      constructor
      · intro h; cases h
      · rintro ⟨n, h1, h2⟩; exact absurd h2 (hno n h1)
    obtain ⟨k, ns, rfl, hne, hns⟩ := hroad
    cases k with
    | succ k =>
      rw [List.replicate_succ, List.cons_append] at htk herr ⊢
      cases htk with
      | @cons _ c rest _ hs hc htk' =>
        rw [openLoop_round hs hc] at h
        unfold roundOn at h
        rw [if_neg (by decide), if_pos rfl] at h
        split at h
        · rename_i hcond
          cases h
          refine herr _ (fun n _ hl => ?_)
          obtain ⟨h1, h2, _⟩ := leads_up_iff.1 hl
          rcases hcond.2 with h3 | h3
          · exact h1 h3
          · exact h2 hcond.1 h3
        · rename_i hcond
          split at h
          · rename_i hnil
            cases h
            exact herr _ (fun n _ hl => (leads_up_iff.1 hl).1 hnil)
          · rename_i hnil
            rw [ih _ _ _ _ _ _ hr htk' ⟨k, ns, rfl, hne, hns⟩ h p]
            refine exists_congr (fun n => and_congr_right (fun _ => ?_))
            rw [leads_up_iff]
            refine ⟨fun hx => ⟨hnil, fun hro he => hcond ⟨hro, Or.inr he⟩, hx⟩, fun hx => hx.2.2⟩
    | zero =>
      rw [List.replicate_zero, List.nil_append] at htk herr ⊢
      cases htk with
      | nil => exact absurd rfl hne
      | @cons _ c rest ts' hs hc htk' =>
        have hcn := hns c (by simp)
        have hns' : ∀ x ∈ ts', IsName x := fun x hx => hns x (List.mem_cons_of_mem _ hx)
        have hrest : rest = [] ↔ ts' = [] := by
          cases htk' with
          | nil => simp
          | cons h _ _ => simp [h]
        have hone : ∀ {e}, fs.t.ent (cur ++ [c]) = some e → (∀ hh, e ≠ .symlink hh) → ts' = [] →
            ((Except.ok (cur ++ [c]) : Look) = .ok p ↔
              ∃ n, r + n ≤ maxLinks ∧ Leads fs.t.ent (fun cur => fs.rooted = true → cur ≠ fs.sub) follow n cur (c :: ts') p) := by
          intro e he hsym hts
          subst hts
          constructor
          · intro hp; cases hp
            refine ⟨0, by omega, (leads_name_iff hcn).2 ?_⟩
            rw [he]
            cases e with
            | dir _ => exact .here _
            | symlink hh => exact absurd rfl (hsym hh)
            | hardlink _ => exact ⟨rfl, rfl, rfl⟩
            | file _ => exact ⟨rfl, rfl, rfl⟩
          · rintro ⟨n, _, hl⟩
            rw [leads_name_iff hcn, he] at hl
            cases e with
            | dir _ => rw [leads_nil_iff] at hl; rw [hl.2]
            | symlink hh => exact absurd rfl (hsym hh)
            | hardlink _ => rw [hl.2.2]
            | file _ => rw [hl.2.2]
        rw [openLoop_round hs hc] at h
        unfold roundOn at h
        rw [if_neg hcn.2.1, if_neg hcn.2.2] at h
        cases hent : fs.t.ent (cur ++ [c]) with
        | none =>
          rw [hent] at h; cases h
          refine herr _ (fun n _ hl => ?_)
          rw [leads_name_iff hcn, hent] at hl
          exact hl
        | some e =>
          rw [hent] at h
          cases e with
          | dir hd =>
            simp only at h
            split at h
            · rename_i hr0
              cases h
              exact hone hent (by intro hh e; cases e) (hrest.1 hr0)
            · rename_i hr0
              rw [ih _ _ _ _ _ _ hr htk' ⟨0, ts', rfl, fun e => hr0 (hrest.2 e), hns'⟩ h p]
              refine exists_congr (fun n => and_congr_right (fun _ => ?_))
              rw [leads_name_iff hcn, hent]
          | hardlink hd =>
            simp only at h
            split at h
            · rename_i hr0
              cases h
              exact hone hent (by intro hh e; cases e) (hrest.1 hr0)
            · rename_i hr0
              have hno : ∀ n, r + n ≤ maxLinks → ¬ Leads fs.t.ent (fun cur => fs.rooted = true → cur ≠ fs.sub) follow n cur (c :: ts') p := by
                intro n _ hl
                rw [leads_name_iff hcn, hent] at hl
                exact hr0 (hrest.2 hl.2.1)
              split at h
              · cases h
              · cases h; exact herr _ hno
              · rename_i q hq
                split at h
                · rename_i hd' he'
                  exact absurd he' (hhl _ _ _ hent hq _)
                · cases h; exact herr _ hno
          | file hd =>
            simp only at h
            split at h
            · rename_i hr0
              cases h
              exact hone hent (by intro hh e; cases e) (hrest.1 hr0)
            · rename_i hr0
              cases h
              refine herr _ (fun n _ hl => ?_)
              rw [leads_name_iff hcn, hent] at hl
              exact hr0 (hrest.2 hl.2.1)
          | symlink hd =>
            simp only at h
            split at h
            · rename_i hcond
              have hfol : follow = true ∨ ts' ≠ [] := by
                rcases hcond with h1 | h1
                · exact Or.inr (fun e => h1 (hrest.2 e))
                · exact Or.inl (by simpa using h1)
              have hnot0 : ¬ (ts' = [] ∧ follow = false) := by
                rintro ⟨h1, h2⟩
                rcases hfol with h3 | h3
                · rw [h2] at h3; cases h3
                · exact h3 h1
              split at h
              · rename_i hlim
                cases h
                refine herr _ (fun n hn hl => ?_)
                rw [leads_name_iff hcn, hent] at hl
                rcases hl with ⟨_, h1, h2, _⟩ | ⟨m, hm, _⟩
                · exact hnot0 ⟨h1, h2⟩
                · omega
              · rename_i hlim
                split at h
                · rename_i habs
                  rw [isAbs_clean] at habs
                  cases h
                  refine herr _ (fun n hn hl => ?_)
                  rw [leads_name_iff hcn, hent] at hl
                  rcases hl with ⟨_, h1, h2, _⟩ | ⟨m, hm, _, h3, _⟩
                  · exact hnot0 ⟨h1, h2⟩
                  · rw [habs] at h3; cases h3
                · rename_i habs
                  rw [isAbs_clean] at habs
                  have habs : isAbs hd.linkname = false := by simpa using habs
                  obtain ⟨k, ms, hk, hms, hmn⟩ := hplain _ _ hent habs
                  have hcomps := comps_plain habs hk hmn
                  have hmn' := plain_names hk hmn
                  have hnil : comps hd.linkname ≠ [] := by rw [hcomps, hk]; simp [hms]
                  have hcl : clean hd.linkname = join (comps hd.linkname) := by unfold clean render; rw [habs]; simp [hnil]
                  have htk2 : Toks (clean hd.linkname ++ slash :: rest) (targetComps hd.linkname ++ ts') := by
                    rw [hcl, ← hcomps]
                    exact toks_join_append hnil (fun x hx => by rw [hcomps] at hx; exact (targetComps_comp x hx).1) htk'
                  rw [ih _ _ _ _ _ _ (by omega) htk2 ⟨k, ms ++ ts', by rw [hk, List.append_assoc], by simp [hms], by
                    intro x hx
                    rcases List.mem_append.1 hx with h' | h'
                    · exact hmn' x h'
                    · exact hns' x h'⟩ h p]
                  constructor
                  · rintro ⟨n, hn, hl⟩
                    exact ⟨n + 1, by omega, .link hcn hent hfol habs hl⟩
                  · rintro ⟨n, hn, hl⟩
                    rw [leads_name_iff hcn, hent] at hl
                    rcases hl with ⟨_, h1, h2, _⟩ | ⟨m, hm, _, _, h4⟩
                    · exact absurd ⟨h1, h2⟩ hnot0
                    · exact ⟨m, by omega, h4⟩
            · rename_i hcond
              have hr0 : rest = [] := Classical.byContradiction (fun e => hcond (Or.inl e))
              have hf : follow = false := by
                cases hfo : follow with
                | false => rfl
                | true => exact absurd (Or.inr (by simp [hfo])) hcond
              have hts := hrest.1 hr0
              subst hts
              cases h
              constructor
              · intro hp; cases hp
                exact ⟨0, by omega, .stay hcn hent hf⟩
              · rintro ⟨n, hn, hl⟩
                rw [leads_name_iff hcn, hent] at hl
                rcases hl with ⟨_, _, _, h4⟩ | ⟨m, _, h2, _⟩
                · rw [h4]
                · rcases h2 with h2 | h2
                  · rw [hf] at h2; cases h2
                  · exact absurd rfl h2

/-! ## C71 -/

/-- Which directories a lookup may leave through "..": any but the root of the subtree, when the filesystem is rooted. -/
def mayClimb (rooted : Bool) (sub : List Str) (cur : List Str) : Prop := rooted = true → cur ≠ sub

/-- A name, resolved in a subtree of the archive, is the entry at `p`. -/
def NameLeads (opt : Opt) (hs : List Hdr) (sub : List Str) (rooted follow : Bool) (name : Str) (p : List Str) : Prop :=
  ∃ n, n ≤ 40 ∧ Leads (newTree opt hs).ent (mayClimb rooted sub) follow n sub (split name) p

theorem child_leads {opt : Opt} {hs : List Hdr} (hard : HardLinksToFiles opt hs)
    (hplain : ∀ h ∈ hs, h.typ = .symlink → isAbs h.linkname = false → PlainTarget h.linkname)
    (sub : List Str) (rooted : Bool) (name : Str) (hv : validPath name = true) (fuel depth : Nat) (hf : enough hs name ≤ fuel) (hd : 1 ≤ depth) :
    let fs : Fsys := { t := newTree opt hs, sub := sub, rooted := rooted }
    ∃ o, openChild fs (resolveHardlink fs fuel depth) fuel sub name (!follow) = some o ∧
      ∀ p, o = .ok p ↔ NameLeads opt hs sub rooted follow name p := by
  intro fs
  unfold openChild
  by_cases hdot : name = dot
  · refine ⟨.ok sub, by rw [if_pos hdot], fun p => ?_⟩
    rw [hdot]
    constructor
    · intro h; cases h
      exact ⟨0, by omega, by rw [split_of_no_slash (by decide)]; exact .stand (.here _)⟩
    · rintro ⟨n, _, hl⟩
      rw [split_of_no_slash (by decide), leads_stand_iff, leads_nil_iff] at hl
      rw [hl.2]
  · have hres : ∀ p h, fs.t.ent p = some (.hardlink h) → resolveHardlink fs fuel depth h = some (.ok (split (clean h.linkname))) ∧
        ∃ b, fs.t.ent (split (clean h.linkname)) = some (.file b) := by
      intro p h he
      obtain ⟨d, rfl⟩ : ∃ d, depth = d + 1 := ⟨depth - 1, by omega⟩
      exact hardlink_resolves hard rfl he (by unfold enough at hf; omega)
    have hM : ∀ p h, fs.t.ent p = some (.symlink h) → (clean h.linkname).length + 1 ≤ linkText hs :=
      fun p h he => linkText_le (symlink_from he).1
    rw [if_neg hdot]
    cases ho : openLoop fs (resolveHardlink fs fuel depth) (!follow) fuel 0 sub sub name with
    | none =>
      exfalso
      refine openLoop_ends hM (fun p h he => ?_) fuel 0 sub sub name ?_ ho
      · rw [(hres p h he).1]; simp
      · unfold enough at hf; simp; omega
    | some o =>
      refine ⟨o, rfl, fun p => ?_⟩
      have hn : ∀ c ∈ split name, IsName c := by
        rcases (validPath_iff name).1 hv with h' | h'
        · exact absurd h' hdot
        · exact h'
      have htk : Toks name (split name) := by
        have := toks_join (ns := split name) (fun c hc => (hn c hc).1)
        rwa [join_split] at this
      rw [loop_leads (fs := fs) ?_ ?_ _ _ _ _ _ _ _ (Nat.zero_le _) htk ⟨0, split name, by simp, split_ne_nil _, hn⟩ ho p]
      · simp only [Nat.zero_add]
        exact Iff.rfl
      · intro q h q' he hq hd' he'
        obtain ⟨h1, b, hb⟩ := hres q h he
        rw [h1] at hq
        cases hq
        rw [hb] at he'; cases he'
      · intro q h he
        exact hplain h (symlink_from he).1 (symlink_from he).2

/-- Where components lead there is an entry, and not a symbolic link when links are followed. -/
theorem leads_entry (opt : Opt) (hs : List Hdr) {n : Nat} {cur cs p : List Str} (h : Leads (newTree opt hs).ent mayLeave follow n cur cs p) :
    (∃ h, (newTree opt hs).ent cur = some (.dir h)) → ∃ e, (newTree opt hs).ent p = some e ∧ (follow = true → ∀ h, e ≠ .symlink h) := by
  induction h with
  | here cur => rintro ⟨h, he⟩; exact ⟨_, he, by intro _ h e; cases e⟩
  | stand _ ih => exact ih
  | up hne _ _ ih => rintro ⟨h, he⟩; exact ih (ent_up opt hs _ _ hne he)
  | into _ he _ ih => intro _; exact ih ⟨_, he⟩
  | file _ he => intro _; exact ⟨_, he, by intro _ h e; cases e⟩
  | hard _ he => intro _; exact ⟨_, he, by intro _ h e; cases e⟩
  | stay _ he hf => intro _; exact ⟨_, he, by intro h; rw [hf] at h; cases h⟩
  | link _ _ _ _ _ ih => exact ih

/-- **C71** In every archive whose hard links name regular files and whose symbolic links have plain targets, with any cycles and chains, in any
subtree: opening a valid name always ends, and it gives a file exactly when the name, resolved as POSIX has it through at most forty
symbolic links, is a regular member (then its content and information) or a hard link (then the content of the member it names and its own
information), a directory exactly when it is that directory, and an error otherwise.

Missing for the full property: targets that are not plain and hard links to other than regular files; see the counterexamples here and at C37. -/
theorem C71_open_partial (opt : Opt) (hs : List Hdr) (hard : HardLinksToFiles opt hs)
    (hplain : ∀ h ∈ hs, h.typ = .symlink → isAbs h.linkname = false → PlainTarget h.linkname)
    (sub : List Str) (hsub : ∃ h, (newTree opt hs).ent sub = some (.dir h)) (rooted : Bool) (name : Str) (hv : validPath name = true)
    (fuel depth : Nat) (hf : enough hs name ≤ fuel) (hd : 1 ≤ depth) :
    let opened := openFile { t := newTree opt hs, sub := sub, rooted := rooted } fuel depth name
    (∀ b i, opened = some (.file b i) ↔ ∃ p, NameLeads opt hs sub rooted true name p ∧
      ((newTree opt hs).ent p = some (.file b) ∧ i = b ∨ (newTree opt hs).ent p = some (.hardlink i) ∧ recorded opt hs (clean i.linkname) = some b)) ∧
    (∀ p, opened = some (.dir p) ↔ NameLeads opt hs sub rooted true name p ∧ ∃ h, (newTree opt hs).ent p = some (.dir h)) ∧
    ((¬ ∃ p, NameLeads opt hs sub rooted true name p) → ∃ e, opened = some (.err e)) ∧
    (∀ p q, NameLeads opt hs sub rooted true name p → NameLeads opt hs sub rooted true name q → p = q) := by
  intro opened
  let fs : Fsys := { t := newTree opt hs, sub := sub, rooted := rooted }
  obtain ⟨o, ho, hiff⟩ := child_leads (follow := true) hard hplain sub rooted name hv fuel depth hf hd
  have ho : openChild fs (resolveHardlink fs fuel depth) fuel fs.sub name false = some o := ho
  have huniq : ∀ p q, NameLeads opt hs sub rooted true name p → NameLeads opt hs sub rooted true name q → p = q := by
    intro p q h1 h2
    have h3 := (hiff p).2 h1
    rw [(hiff q).2 h2] at h3
    cases h3; rfl
  have hnv : ¬ validPath name = false := by rw [hv]; simp
  rcases o with e | p
  · have hno : ¬ ∃ p, NameLeads opt hs sub rooted true name p := by
      rintro ⟨p, hp⟩
      have := (hiff p).2 hp
      cases this
    have hop : opened = some (.err e) := by
      show openFile fs fuel depth name = _
      unfold openFile findFile
      rw [if_neg hnv, ho]
    refine ⟨fun b i => ?_, fun p => ?_, fun _ => ⟨e, hop⟩, huniq⟩
    · rw [hop]
      exact ⟨fun h => (by cases h), fun ⟨p, hp, _⟩ => absurd ⟨p, hp⟩ hno⟩
    · rw [hop]
      exact ⟨fun h => (by cases h), fun h => absurd ⟨p, h.1⟩ hno⟩
  · have hp : NameLeads opt hs sub rooted true name p := (hiff p).1 rfl
    obtain ⟨e, he, hsym⟩ : ∃ e, (newTree opt hs).ent p = some e ∧ ∀ h, e ≠ .symlink h := by
      obtain ⟨n, _, hl⟩ := hp
      obtain ⟨e, he, hs⟩ := leads_entry opt hs hl hsub
      exact ⟨e, he, hs rfl⟩
    have hfe : fs.t.ent p = some e := he
    refine ⟨fun b i => ?_, fun q => ?_, fun h => absurd ⟨p, hp⟩ h, huniq⟩
    all_goals
      cases e with
      | symlink h => exact absurd rfl (hsym h)
      | dir h =>
        have hop : opened = some (.dir p) := by
          show openFile fs fuel depth name = _
          unfold openFile findFile
          rw [if_neg hnv, ho]
          simp only [hfe]
        rw [hop]
        first
          | exact ⟨fun h' => (by cases h'), fun ⟨q, hq, h'⟩ => by
              have hqp := huniq _ _ hq hp
              subst hqp
              rw [he] at h'
              rcases h' with ⟨h', _⟩ | ⟨h', _⟩ <;> cases h'⟩
          | exact ⟨fun h' => by cases h'; exact ⟨hp, h, he⟩, fun ⟨hq, _⟩ => by rw [huniq _ _ hq hp]⟩
      | file h =>
        have hop : opened = some (.file h h) := by
          show openFile fs fuel depth name = _
          unfold openFile findFile
          rw [if_neg hnv, ho]
          simp only [hfe]
        rw [hop]
        first
          | exact ⟨fun h' => by cases h'; exact ⟨p, hp, Or.inl ⟨he, rfl⟩⟩, fun ⟨q, hq, h'⟩ => by
              have hqp := huniq _ _ hq hp
              subst hqp
              rw [he] at h'
              rcases h' with ⟨h', rfl⟩ | ⟨h', _⟩ <;> cases h'
              rfl⟩
          | exact ⟨fun h' => (by cases h'), fun ⟨hq, h'', h'⟩ => by
              have hqp := huniq _ _ hq hp
              subst hqp
              rw [he] at h'; cases h'⟩
      | hardlink h =>
        obtain ⟨d, rfl⟩ : ∃ d, depth = d + 1 := ⟨depth - 1, by omega⟩
        obtain ⟨hm, htyp⟩ := hardlink_from he
        obtain ⟨hv', hb', b', hr', hbt⟩ := hard h hm htyp
        obtain ⟨hr, b, hb⟩ := hardlink_resolves hard (fs := fs) rfl hfe (fuel := fuel) (depth := d) (by unfold enough at hf; omega)
        have hbb : b = b' := by
          have := (tree_exact opt hs (split (clean h.linkname)) (split_ne_nil _) (split_no_slash _)).2 hb'
          rw [join_split, hr'] at this
          have hb2 : (newTree opt hs).ent (split (clean h.linkname)) = some (.file b) := hb
          rw [this] at hb2
          rcases hbt with hbt | hbt <;> simpa [entOf, hbt] using hb2.symm
        have hop : opened = some (.file b h) := by
          show openFile fs fuel (d + 1) name = _
          unfold openFile findFile
          rw [if_neg hnv, ho]
          simp only [hfe, hr, hb]
        rw [hop]
        first
          | exact ⟨fun h' => by cases h'; exact ⟨p, hp, Or.inr ⟨he, by rw [hbb]; exact hr'⟩⟩, fun ⟨q, hq, h'⟩ => by
              have hqp := huniq _ _ hq hp
              subst hqp
              rw [he] at h'
              rcases h' with ⟨h', _⟩ | ⟨h', h2⟩
              · cases h'
              · cases h'
                rw [hr'] at h2
                cases h2
                rw [hbb]⟩
          | exact ⟨fun h' => (by cases h'), fun ⟨hq, h'', h'⟩ => by
              have hqp := huniq _ _ hq hp
              subst hqp
              rw [he] at h'; cases h'⟩

/-- The same for `Lstat` and `ReadLink`, which do not follow a link in the last place: under the same conditions they end, `ReadLink` gives the
cleaned target exactly when the name is a symbolic link, `Lstat` gives the header of the entry the name is (and panics exactly for a directory without a
header), and both are errors when the name leads nowhere.

Missing for the full property: as in `C71_open_partial`. -/
theorem C71_lstat_partial (opt : Opt) (hs : List Hdr) (hard : HardLinksToFiles opt hs)
    (hplain : ∀ h ∈ hs, h.typ = .symlink → isAbs h.linkname = false → PlainTarget h.linkname)
    (sub : List Str) (hsub : ∃ h, (newTree opt hs).ent sub = some (.dir h)) (rooted : Bool) (name : Str) (hv : validPath name = true)
    (fuel depth : Nat) (hf : enough hs name ≤ fuel) (hd : 1 ≤ depth) :
    let fs : Fsys := { t := newTree opt hs, sub := sub, rooted := rooted }
    (∀ t, readLink fs fuel depth name = some (.ok t) ↔
      ∃ p h, NameLeads opt hs sub rooted false name p ∧ (newTree opt hs).ent p = some (.symlink h) ∧ t = clean h.linkname) ∧
    (∀ h, lstat fs fuel depth name = some (.ok h) ↔ ∃ p, NameLeads opt hs sub rooted false name p ∧
      ((newTree opt hs).ent p = some (.file h) ∨ (newTree opt hs).ent p = some (.dir (some h)) ∨ (newTree opt hs).ent p = some (.symlink h) ∨
        (newTree opt hs).ent p = some (.hardlink h))) ∧
    (lstat fs fuel depth name = some .panic ↔ ∃ p, NameLeads opt hs sub rooted false name p ∧ (newTree opt hs).ent p = some (.dir none)) ∧
    ((¬ ∃ p, NameLeads opt hs sub rooted false name p) → ∃ e, lstat fs fuel depth name = some (.err e) ∧ readLink fs fuel depth name = some (.err e)) := by
  intro fs
  obtain ⟨o, ho, hiff⟩ := child_leads (follow := false) hard hplain sub rooted name hv fuel depth hf hd
  have ho : openChild fs (resolveHardlink fs fuel depth) fuel fs.sub name true = some o := ho
  have hnv : ¬ validPath name = false := by rw [hv]; simp
  rcases o with e | p
  · have hno : ¬ ∃ p, NameLeads opt hs sub rooted false name p := by
      rintro ⟨p, hp⟩
      have := (hiff p).2 hp
      cases this
    have h1 : lstat fs fuel depth name = some (.err e) := by
      unfold lstat findFile
      rw [if_neg hnv, ho]
    have h2 : readLink fs fuel depth name = some (.err e) := by
      unfold readLink findFile
      rw [if_neg hnv, ho]
    rw [h1, h2]
    refine ⟨fun t => ⟨fun h => (by cases h), fun ⟨p, _, hp, _⟩ => absurd ⟨p, hp⟩ hno⟩, fun t => ⟨fun h => (by cases h), fun ⟨p, hp, _⟩ => absurd ⟨p, hp⟩ hno⟩,
      ⟨fun h => (by cases h), fun ⟨p, hp, _⟩ => absurd ⟨p, hp⟩ hno⟩, fun _ => ⟨e, rfl, rfl⟩⟩
  · have hp : NameLeads opt hs sub rooted false name p := (hiff p).1 rfl
    have huniq : ∀ q, NameLeads opt hs sub rooted false name q → q = p := by
      intro q hq
      have := (hiff q).2 hq
      cases this; rfl
    obtain ⟨e, he, _⟩ : ∃ e, (newTree opt hs).ent p = some e ∧ (false = true → ∀ h, e ≠ .symlink h) := by
      obtain ⟨n, _, hl⟩ := hp
      exact leads_entry opt hs hl hsub
    have hfe : fs.t.ent p = some e := he
    have h1 : lstat fs fuel depth name = (match entHdr e with | some h => some (.ok h) | none => some .panic) := by
      unfold lstat findFile
      rw [if_neg hnv, ho]
      cases e with
      | hardlink h =>
        obtain ⟨d, rfl⟩ : ∃ d, depth = d + 1 := ⟨depth - 1, by omega⟩
        obtain ⟨hr, b, hb⟩ := hardlink_resolves hard (fs := fs) rfl hfe (fuel := fuel) (depth := d) (by unfold enough at hf; omega)
        simp only [hfe, hr]
        rfl
      | _ => simp only [hfe]; rfl
    have h2 : readLink fs fuel depth name = (match e with | .symlink h => some (.ok (clean h.linkname)) | _ => some .notLink) := by
      unfold readLink findFile
      rw [if_neg hnv, ho]
      cases e with
      | hardlink h =>
        obtain ⟨d, rfl⟩ : ∃ d, depth = d + 1 := ⟨depth - 1, by omega⟩
        obtain ⟨hr, b, hb⟩ := hardlink_resolves hard (fs := fs) rfl hfe (fuel := fuel) (depth := d) (by unfold enough at hf; omega)
        simp only [hfe, hr]
      | _ => simp only [hfe]
    rw [h1, h2]
    refine ⟨fun t => ?_, fun t => ?_, ?_, fun h => absurd ⟨p, hp⟩ h⟩
    · constructor
      · intro h
        cases e with
        | symlink hd => cases h; exact ⟨p, hd, hp, he, rfl⟩
        | _ => cases h
      · rintro ⟨q, hd, hq, heq, rfl⟩
        rw [huniq q hq, he] at heq
        cases heq; rfl
    · constructor
      · intro h
        cases e with
        | dir o => cases o with
          | none => cases h
          | some x => cases h; exact ⟨p, hp, Or.inr (Or.inl he)⟩
        | file x => cases h; exact ⟨p, hp, Or.inl he⟩
        | symlink x => cases h; exact ⟨p, hp, Or.inr (Or.inr (Or.inl he))⟩
        | hardlink x => cases h; exact ⟨p, hp, Or.inr (Or.inr (Or.inr he))⟩
      · rintro ⟨q, hq, heq⟩
        rw [huniq q hq, he] at heq
        rcases heq with h | h | h | h <;> cases h <;> rfl
    · constructor
      · intro h
        cases e with
        | dir o => cases o with
          | none => exact ⟨p, hp, he⟩
          | some x => cases h
        | _ => cases h
      · rintro ⟨q, hq, heq⟩
        rw [huniq q hq, he] at heq
        cases heq; rfl

/-! ### Subtrees -/

theorem Leads.append {n m : Nat} {cur cs q cs' p : List Str} (h : Leads ent mayLeave true n cur cs q)
    (hdir : ∃ h, ent q = some (.dir h)) (h' : Leads ent mayLeave true m q cs' p) : Leads ent mayLeave true (n + m) cur (cs ++ cs') p := by
  induction h with
  | here cur => simpa using h'
  | stand _ ih => exact .stand (ih hdir h')
  | up h1 h2 _ ih => exact .up h1 h2 (ih hdir h')
  | into h1 h2 _ ih => exact .into h1 h2 (ih hdir h')
  | file _ he => obtain ⟨x, hx⟩ := hdir; rw [he] at hx; cases hx
  | hard _ he => obtain ⟨x, hx⟩ := hdir; rw [he] at hx; cases hx
  | stay _ _ hf => cases hf
  | @link n cur c cs p hd h1 h2 h3 h4 _ ih =>
    have := ih hdir h'
    rw [List.append_assoc] at this
    rw [show n + 1 + m = (n + m) + 1 by omega]
    exact .link h1 h2 (Or.inl rfl) h4 this

/-- A lookup confined to a subtree is a lookup confined to any larger one. -/
theorem Leads.widen {rooted : Bool} {sub q : List Str} (hsub : sub <+: q) {n : Nat} {cur cs p : List Str} (h : Leads ent (mayClimb rooted q) true n cur cs p)
    (hcur : rooted = true → q <+: cur) : Leads ent (mayClimb rooted sub) true n cur cs p := by
  induction h with
  | here cur => exact .here _
  | stand _ ih => exact .stand (ih hcur)
  | @up n cur cs p h1 h2 _ ih =>
    refine .up h1 ?_ (ih ?_)
    · intro hr he
      have h3 := hcur hr
      rw [he] at h3
      exact h2 hr (by rw [he]; exact hsub.eq_of_length (Nat.le_antisymm hsub.length_le h3.length_le))
    · intro hr
      have h3 := hcur hr
      rcases (List.prefix_concat_iff (l₁ := q) (l₂ := cur.dropLast) (a := cur.getLast h1)).1
        (by rw [List.dropLast_concat_getLast]; exact h3) with h' | h'
      · rw [List.dropLast_concat_getLast] at h'; exact absurd h'.symm (h2 hr)
      · exact h'
  | into h1 h2 _ ih => exact .into h1 h2 (ih (fun hr => (hcur hr).trans (List.prefix_append _ _)))
  | file h1 h2 => exact .file h1 h2
  | hard h1 h2 => exact .hard h1 h2
  | stay h1 h2 h3 => exact .stay h1 h2 h3
  | link h1 h2 h3 h4 _ ih => exact .link h1 h2 h3 h4 (ih hcur)

/-- A rooted lookup ends within the subtree it started in. -/
theorem Leads.within {sub : List Str} {n : Nat} {cur cs p : List Str} (h : Leads ent (mayClimb true sub) follow n cur cs p) (hcur : sub <+: cur) :
    sub <+: p := by
  induction h with
  | here cur => exact hcur
  | stand _ ih => exact ih hcur
  | @up n cur cs p h1 h2 _ ih =>
    refine ih ?_
    rcases (List.prefix_concat_iff (l₁ := sub) (l₂ := cur.dropLast) (a := cur.getLast h1)).1
      (by rw [List.dropLast_concat_getLast]; exact hcur) with h' | h'
    · rw [List.dropLast_concat_getLast] at h'; exact absurd h'.symm (h2 rfl)
    · exact h'
  | into _ _ _ ih => exact ih (hcur.trans (List.prefix_append _ _))
  | file | hard | stay => exact hcur.trans (List.prefix_append _ _)
  | link _ _ _ _ _ ih => exact ih hcur

/-- `Sub` gives the view of the directory the name leads to, and is an error for every other name.

Missing for the full property: as in `C71_open_partial`. -/
theorem C71_sub_partial (opt : Opt) (hs : List Hdr) (hard : HardLinksToFiles opt hs)
    (hplain : ∀ h ∈ hs, h.typ = .symlink → isAbs h.linkname = false → PlainTarget h.linkname)
    (sub : List Str) (hsub : ∃ h, (newTree opt hs).ent sub = some (.dir h)) (rooted : Bool) (name : Str) (hv : validPath name = true)
    (fuel depth : Nat) (hf : enough hs name ≤ fuel) (hd : 1 ≤ depth) :
    let fs : Fsys := { t := newTree opt hs, sub := sub, rooted := rooted }
    (∀ fs', subFS fs fuel depth name = some (.ok fs') ↔ ∃ p, NameLeads opt hs sub rooted true name p ∧ (∃ h, (newTree opt hs).ent p = some (.dir h)) ∧
      fs' = { t := newTree opt hs, sub := p, rooted := rooted }) ∧
    ((¬ ∃ p, NameLeads opt hs sub rooted true name p ∧ ∃ h, (newTree opt hs).ent p = some (.dir h)) → ∃ e, subFS fs fuel depth name = some (.error e)) := by
  intro fs
  obtain ⟨o, ho, hiff⟩ := child_leads (follow := true) hard hplain sub rooted name hv fuel depth hf hd
  have ho : openChild fs (resolveHardlink fs fuel depth) fuel fs.sub name false = some o := ho
  have hnv : ¬ validPath name = false := by rw [hv]; simp
  rcases o with e | p
  · have hno : ¬ ∃ p, NameLeads opt hs sub rooted true name p := by
      rintro ⟨p, hp⟩
      have := (hiff p).2 hp
      cases this
    have h1 : subFS fs fuel depth name = some (.error e) := by
      unfold subFS findFile
      rw [if_neg hnv, if_neg hnv, ho]
    rw [h1]
    exact ⟨fun fs' => ⟨fun h => (by cases h), fun ⟨p, hp, _⟩ => absurd ⟨p, hp⟩ hno⟩, fun _ => ⟨e, rfl⟩⟩
  · have hp : NameLeads opt hs sub rooted true name p := (hiff p).1 rfl
    have huniq : ∀ q, NameLeads opt hs sub rooted true name q → q = p := by
      intro q hq
      have := (hiff q).2 hq
      cases this; rfl
    obtain ⟨e, he, _⟩ : ∃ e, (newTree opt hs).ent p = some e ∧ (true = true → ∀ h, e ≠ .symlink h) := by
      obtain ⟨n, _, hl⟩ := hp
      exact leads_entry opt hs hl hsub
    have hfe : fs.t.ent p = some e := he
    have h1 : subFS fs fuel depth name = (match e with | .dir _ => some (.ok { fs with sub := p }) | _ => some (.error .notExist)) := by
      unfold subFS findFile
      rw [if_neg hnv, if_neg hnv, ho]
      cases e with
      | hardlink h =>
        obtain ⟨d, rfl⟩ : ∃ d, depth = d + 1 := ⟨depth - 1, by omega⟩
        obtain ⟨hr, b, hb⟩ := hardlink_resolves hard (fs := fs) rfl hfe (fuel := fuel) (depth := d) (by unfold enough at hf; omega)
        simp only [hfe, hr]
      | _ => simp only [hfe]
    rw [h1]
    constructor
    · intro fs'
      constructor
      · intro h
        cases e with
        | dir x => cases h; exact ⟨p, hp, ⟨x, he⟩, rfl⟩
        | _ => cases h
      · rintro ⟨q, hq, ⟨x, hx⟩, rfl⟩
        obtain rfl := huniq q hq
        rw [he] at hx
        cases hx; rfl
    · intro hno
      cases e with
      | dir x => exact absurd ⟨p, hp, x, he⟩ hno
      | _ => exact ⟨_, rfl⟩

theorem split_slash (a b : Str) : split (a ++ slash :: b) = split a ++ split b := by
  rw [← split_join (cs := split a ++ split b) (by simp [split_ne_nil]) (by
    intro c hc
    rcases List.mem_append.1 hc with h | h
    · exact split_no_slash a c h
    · exact split_no_slash b c h)]
  congr 1
  have : ∀ (xs ys : List Str), xs ≠ [] → ys ≠ [] → join (xs ++ ys) = join xs ++ slash :: join ys := by
    intro xs
    induction xs with
    | nil => intro ys h; exact absurd rfl h
    | cons x xs ih =>
      intro ys _ hy
      cases xs with
      | nil =>
        cases ys with
        | nil => exact absurd rfl hy
        | cons y ys => simp [join]
      | cons x' xs =>
        have := ih ys (by simp) hy
        simp only [List.cons_append] at this ⊢
        simp only [join, this, List.append_assoc, List.cons_append]
  rw [this _ _ (split_ne_nil a) (split_ne_nil b), join_split, join_split]

/-- What a name leads to in the view `Sub` gives is what the joined name leads to in the whole, as long as no more than 40 links are followed in all. -/
theorem C71_sub_agrees (opt : Opt) (hs : List Hdr) (sub : List Str) (rooted : Bool) (name name2 : Str) (p q : List Str) (n m : Nat)
    (hp : Leads (newTree opt hs).ent (mayClimb rooted sub) true n sub (split name) p) (hdir : ∃ h, (newTree opt hs).ent p = some (.dir h))
    (hq : Leads (newTree opt hs).ent (mayClimb rooted p) true m p (split name2) q) (hnm : n + m ≤ 40) :
    NameLeads opt hs sub rooted true (name ++ slash :: name2) q := by
  refine ⟨n + m, hnm, ?_⟩
  rw [split_slash]
  refine hp.append hdir ?_
  cases rooted with
  | false =>
    have : (mayClimb false sub) = (mayClimb false p) := by funext c; simp [mayClimb]
    rw [this]; exact hq
  | true => exact hq.widen (hp.within (List.prefix_refl _)) (fun _ => List.prefix_refl _)

/-! ## Cases -/

/-- The links of `exLinks` are plain. -/
example : ∀ h ∈ exLinks, h.typ = .symlink → isAbs h.linkname = false → PlainTarget h.linkname := by
  intro h hm ht _
  simp [exLinks] at hm
  rcases hm with rfl | rfl | rfl | rfl | rfl | rfl | rfl <;> first | (cases ht; done) | skip
  · exact ⟨0, [['b']], by decide, by simp, by decide⟩
  · exact ⟨0, [['a']], by decide, by simp, by decide⟩
  · exact ⟨1, [['g']], by decide, by simp, by decide⟩

/-- In `exLinks` the name d/u leads, by one link, to the file g; from the rooted subtree d it leads nowhere. -/
example : NameLeads exOpt exLinks [] true true ['d', '/', 'u'] [['g']] := by
  refine ⟨1, by omega, ?_⟩
  show Leads _ _ true 1 [] [['d'], ['u']] _
  refine .into (h := some { name := ['d', '/'], typ := .dir, linkname := [], id := 1 }) (by decide) (by decide +kernel) ?_
  refine .link (h := { name := ['d', '/', 'u'], typ := .symlink, linkname := ['.', '.', '/', 'g'], id := 5 }) (by decide) (by decide +kernel) (Or.inl rfl)
    (by decide) ?_
  show Leads _ _ true 0 [['d']] [dotdot, ['g']] _
  exact .up (by decide) (by intro _; decide) (.file (cur := []) (h := { name := ['g'], typ := .reg, linkname := [], id := 6 }) (by decide) (by decide +kernel))

example : readLink (whole exOpt exLinks) 99 2 ['d', '/', 'u'] = some (.ok ['.', '.', '/', 'g']) ∧
    readLink (whole exOpt exLinks) 99 2 ['g'] = some .notLink ∧
    lstat (whole exOpt exLinks) 99 2 ['h'] = some (.ok { name := ['h'], typ := .link, linkname := ['g'], id := 7 }) := by decide +kernel

/-- C71 fails for a target with ".." after a name: the target is cleaned as text, so a link before the ".." is not followed. Here a is a link to d/x and
l one to a/../g: POSIX leads to d/g, the file opened is g. -/
theorem C71_counterexample_lexical :
    let hs : List Hdr := [{ name := ['d', '/', 'x', '/'], typ := .dir, linkname := [], id := 1 }, { name := ['a'], typ := .symlink, linkname := ['d', '/', 'x'], id := 2 },
      { name := ['l'], typ := .symlink, linkname := ['a', '/', '.', '.', '/', 'g'], id := 3 }, { name := ['d', '/', 'g'], typ := .reg, linkname := [], id := 4 },
      { name := ['g'], typ := .reg, linkname := [], id := 5 }]
    NameLeads exOpt hs [] false true ['l'] [['d'], ['g']] ∧
    openFile (whole exOpt hs) 99 2 ['l'] = some (.file { name := ['g'], typ := .reg, linkname := [], id := 5 } { name := ['g'], typ := .reg, linkname := [], id := 5 }) := by
  intro hs
  refine ⟨⟨2, by omega, ?_⟩, by decide +kernel⟩
  show Leads _ _ true 2 [] [['l']] _
  refine .link (h := { name := ['l'], typ := .symlink, linkname := ['a', '/', '.', '.', '/', 'g'], id := 3 }) (by decide) (by decide +kernel) (Or.inl rfl) (by decide) ?_
  show Leads _ _ true 1 [] [['a'], dotdot, ['g']] _
  refine .link (h := { name := ['a'], typ := .symlink, linkname := ['d', '/', 'x'], id := 2 }) (by decide) (by decide +kernel) (Or.inl rfl) (by decide) ?_
  show Leads _ _ true 0 [] [['d'], ['x'], dotdot, ['g']] _
  refine .into (h := none) (by decide) (by decide +kernel) (.into (h := some { name := ['d', '/', 'x', '/'], typ := .dir, linkname := [], id := 1 }) (by decide) (by decide +kernel) ?_)
  exact .up (by decide) (by intro h; cases h) (.file (cur := [['d']]) (h := { name := ['d', '/', 'g'], typ := .reg, linkname := [], id := 4 }) (by decide) (by decide +kernel))

/-- C71 fails for `Lstat` of a directory that has no header of its own: it panics. -/
theorem C71_counterexample_lstat_implicit :
    lstat (whole exOpt [{ name := ['d', '/', 'f'], typ := .reg, linkname := [], id := 1 }]) 99 2 ['d'] = some .panic := by decide +kernel

end Verif.Tarfs
