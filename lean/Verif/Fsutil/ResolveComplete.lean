import Verif.Fsutil.ResolveErrors
/-
C29: what the kernel reaches through fewer than 40 links, `ResolvePath` resolves.
-/
namespace Verif.Fsutil.Resolve
open Verif.Path

/-! ### specification -/

/-- `Walk`, with the number of links followed. -/
inductive WalkN (T : Tree) : List Str → List Str → List Str → Nat → Prop
  | nil (d) : WalkN T d [] d 0
  | dot {d c rest r k} : c = [] ∨ c = dot → WalkN T d rest r k → WalkN T d (c :: rest) r k
  | up {d rest r k} : T d = some .dir → d ≠ [] → WalkN T d.dropLast rest r k → WalkN T d (dotdot :: rest) r k
  | plain {d c rest r e k} : IsName c → T d = some .dir → T (d ++ [c]) = some e → e.isLink = false → WalkN T (d ++ [c]) rest r k → WalkN T d (c :: rest) r k
  | link {d c rest r t k} : IsName c → T d = some .dir → T (d ++ [c]) = some (.link t) → isAbs t = false → WalkN T d (split t ++ rest) r k →
      WalkN T d (c :: rest) r (k + 1)

/-- The filesystem does answer, what the tree says, for names whose directory is `ok` and reached through fewer than 40 links. -/
structure AnswersOn (ok : List Str → Prop) (fs : Fs) (T : Tree) : Prop where
  lstat : ∀ i n cs c d e k, ok cs → split n = cs ++ [c] → IsName c → WalkN T [] cs d k → k < 40 → T d = some .dir → T (d ++ [c]) = some e → fs.lstat i n = some e.isLink
  lstat_root : ∀ i, ok [] → fs.lstat i dot = some false
  readlink : ∀ i n cs c d t k, ok cs → split n = cs ++ [c] → IsName c → WalkN T [] cs d k → k < 40 → T d = some .dir → T (d ++ [c]) = some (.link t) →
    fs.readlink i n = some t

/-- The same for all names. -/
def Answers (fs : Fs) (T : Tree) : Prop := AnswersOn (fun _ => True) fs T

/-! ### walks with counts -/

theorem WalkN.walk {T : Tree} {d cs r k} (h : WalkN T d cs r k) : Walk T d cs r := by
  induction h with
  | nil d => exact .nil d
  | dot hc _ ih => exact .dot hc ih
  | up hd hne _ ih => exact .up hd hne ih
  | plain hn hd he hl _ ih => exact .plain hn hd he hl ih
  | link hn hd he ha _ ih => exact .link hn hd he ha ih

theorem Walk.count {T : Tree} {d cs r} (h : Walk T d cs r) : ∃ k, WalkN T d cs r k := by
  induction h with
  | nil d => exact ⟨0, .nil d⟩
  | dot hc _ ih => obtain ⟨k, h⟩ := ih; exact ⟨k, .dot hc h⟩
  | up hd hne _ ih => obtain ⟨k, h⟩ := ih; exact ⟨k, .up hd hne h⟩
  | plain hn hd he hl _ ih => obtain ⟨k, h⟩ := ih; exact ⟨k, .plain hn hd he hl h⟩
  | link hn hd he ha _ ih => obtain ⟨k, h⟩ := ih; exact ⟨k + 1, .link hn hd he ha h⟩

theorem walkN_append {T : Tree} : ∀ {d x r k}, WalkN T d x r k → ∀ {a b}, x = a ++ b → ∃ m j l, WalkN T d a m j ∧ WalkN T m b r l ∧ j + l = k := by
  intro d x r k h
  induction h with
  | nil d =>
    intro a b hx
    obtain ⟨rfl, rfl⟩ := List.append_eq_nil_iff.1 hx.symm
    exact ⟨d, 0, 0, .nil d, .nil d, rfl⟩
  | dot hc hw ih =>
    intro a b hx
    cases a with
    | nil => simp only [List.nil_append] at hx; subst hx; exact ⟨_, 0, _, .nil _, .dot hc hw, Nat.zero_add _⟩
    | cons a0 a =>
      simp only [List.cons_append, List.cons.injEq] at hx
      obtain ⟨rfl, hx⟩ := hx
      obtain ⟨m, j, l, h1, h2, h3⟩ := ih hx
      exact ⟨m, j, l, .dot hc h1, h2, h3⟩
  | up hd hne hw ih =>
    intro a b hx
    cases a with
    | nil => simp only [List.nil_append] at hx; subst hx; exact ⟨_, 0, _, .nil _, .up hd hne hw, Nat.zero_add _⟩
    | cons a0 a =>
      simp only [List.cons_append, List.cons.injEq] at hx
      obtain ⟨rfl, hx⟩ := hx
      obtain ⟨m, j, l, h1, h2, h3⟩ := ih hx
      exact ⟨m, j, l, .up hd hne h1, h2, h3⟩
  | plain hn hd he hl hw ih =>
    intro a b hx
    cases a with
    | nil => simp only [List.nil_append] at hx; subst hx; exact ⟨_, 0, _, .nil _, .plain hn hd he hl hw, Nat.zero_add _⟩
    | cons a0 a =>
      simp only [List.cons_append, List.cons.injEq] at hx
      obtain ⟨rfl, hx⟩ := hx
      obtain ⟨m, j, l, h1, h2, h3⟩ := ih hx
      exact ⟨m, j, l, .plain hn hd he hl h1, h2, h3⟩
  | link hn hd he ha hw ih =>
    intro a b hx
    cases a with
    | nil => simp only [List.nil_append] at hx; subst hx; exact ⟨_, 0, _, .nil _, .link hn hd he ha hw, Nat.zero_add _⟩
    | cons a0 a =>
      simp only [List.cons_append, List.cons.injEq] at hx
      obtain ⟨rfl, hx⟩ := hx
      obtain ⟨m, j, l, h1, h2, h3⟩ := ih (a := split _ ++ a) (b := b) (by rw [hx, List.append_assoc])
      exact ⟨m, j + 1, l, .link hn hd he ha h1, h2, by omega⟩

theorem WalkN.trans {T : Tree} {d a m b r k j} (h : WalkN T d a m k) (h2 : WalkN T m b r j) : WalkN T d (a ++ b) r (k + j) := by
  induction h with
  | nil d => rw [Nat.zero_add]; exact h2
  | dot hc _ ih => exact .dot hc (ih h2)
  | up hd hne _ ih => exact .up hd hne (ih h2)
  | plain hn hd he hl _ ih => exact .plain hn hd he hl (ih h2)
  | link hn hd he ha _ ih =>
    rename_i k' _
    have := ih h2
    rw [List.append_assoc] at this
    rw [show k' + 1 + j = (k' + j) + 1 by omega]
    exact .link hn hd he ha this

theorem namesN_walk {T : Tree} (ts : List Str) : ∀ {d rest r k}, WalkN T d (ts ++ rest) r k → WalkN T d (names ts ++ rest) r k := by
  induction ts with
  | nil => intro d rest r k h; exact h
  | cons c ts ih =>
    intro d rest r k h
    simp only [List.cons_append] at h
    by_cases hc : c = [] ∨ c = dot
    · rw [names_skip hc]
      cases h with
      | dot _ h => exact ih h
      | up => exact absurd hc (by decide)
      | plain hn => exact absurd hc hn.notDot
      | link hn => exact absurd hc hn.notDot
    · rw [names_keep hc]
      cases h with
      | dot hc' h => exact absurd hc' hc
      | up hd hne h => exact .up hd hne (ih h)
      | plain hn hd he hl h => exact .plain hn hd he hl (ih h)
      | link hn hd he ha h =>
        refine .link hn hd he ha ?_
        obtain ⟨m, j, l, h1, h2, h3⟩ := walkN_append h rfl
        rw [← h3]
        exact h1.trans (ih h2)

theorem walkN_real {T : Tree} : ∀ (p d : List Str), (∀ c ∈ p, IsName c) → (∀ q, q <+: p → T (d ++ q) = some .dir) → WalkN T d p (d ++ p) 0 := by
  intro p
  induction p with
  | nil => intro d _ _; rw [List.append_nil]; exact .nil d
  | cons c p ih =>
    intro d hn h
    have h0 := h [] (List.nil_prefix)
    rw [List.append_nil] at h0
    have h1 := h [c] (by simp)
    refine .plain (hn c (by simp)) h0 h1 rfl ?_
    have := ih (d ++ [c]) (fun x hx => hn x (by simp [hx])) (by
      intro q hq
      rw [List.append_assoc]
      exact h (c :: q) (by simpa using hq))
    rw [List.append_assoc] at this
    exact this

theorem RealDir.walkN {T : Tree} {d : List Str} (hn : ∀ c ∈ d, IsName c) (h : RealDir T d) : WalkN T [] d d 0 := by
  have := walkN_real d [] hn (by intro q hq; simpa using h q hq)
  simpa using this

/-- Through real directories: if the walk succeeds, the lexical result is below the root and walks to the same place. -/
theorem direct_conv {T : Tree} (ts : List Str) (hts : ∀ c ∈ ts, slash ∉ c) : ∀ d, RealDir T d → (∀ c ∈ d, IsName c) → Direct T d ts →
    ∀ rest r k, WalkN T d (ts ++ rest) r k →
    dotdot ∉ ts.foldl (cleanStep false) d.reverse ∧ WalkN T [] ((ts.foldl (cleanStep false) d.reverse).reverse ++ rest) r k := by
  induction ts with
  | nil =>
    intro d hr hn _ rest r k h
    simp only [List.foldl_nil, List.reverse_reverse, List.nil_append] at h ⊢
    refine ⟨fun hm => (hn dotdot (List.mem_reverse.1 hm)).2.2 rfl, ?_⟩
    have := (hr.walkN hn).trans h
    rwa [Nat.zero_add] at this
  | cons c ts ih =>
    intro d hr hn hdir rest r k h
    have ih' := ih (fun x hx => hts x (by simp [hx]))
    rw [List.foldl_cons]
    simp only [List.cons_append] at h
    obtain ⟨g1, g2, g3⟩ := direct_tail hdir
    by_cases hc : c = [] ∨ c = dot
    · rw [step_skip hc]
      cases h with
      | dot _ h => exact ih' d hr hn (g1 hc) rest r k h
      | up => exact absurd hc (by decide)
      | plain hn => exact absurd hc hn.notDot
      | link hn => exact absurd hc hn.notDot
    · by_cases hu : c = dotdot
      · subst hu
        cases h with
        | dot hc' h => exact absurd hc' hc
        | up hd hne h =>
          rcases List.eq_nil_or_concat d with rfl | ⟨d', x, rfl⟩
          · exact absurd rfl hne
          · simp only [List.concat_eq_append] at *
            have hx := hn x (by simp)
            rw [List.reverse_append]
            simp only [List.reverse_cons, List.reverse_nil, List.nil_append, List.cons_append]
            rw [step_pop hx.2.2]
            have hd' : (d' ++ [x]).dropLast = d' := by simp
            have hr' := hr.dropLast
            have g2' := g2 trivial
            rw [hd'] at hr' g2' h
            exact ih' d' hr' (fun y hy => hn y (by simp [hy])) g2' rest r k h
        | plain hn => exact absurd rfl hn.2.2
        | link hn => exact absurd rfl hn.2.2
      · have hcn : IsName c := ⟨⟨fun h => hc (Or.inl h), hts c (by simp)⟩, fun h => hc (Or.inr h), hu⟩
        rw [step_name hcn]
        cases ts with
        | nil =>
          simp only [List.foldl_nil, List.reverse_cons, List.reverse_reverse, List.nil_append] at h ⊢
          refine ⟨?_, ?_⟩
          · intro hm
            rcases List.mem_cons.1 hm with hm | hm
            · exact hu hm.symm
            · exact (hn dotdot (List.mem_reverse.1 hm)).2.2 rfl
          · rw [List.append_assoc]
            have := (hr.walkN hn).trans h
            rwa [Nat.zero_add] at this
        | cons c' ts =>
          obtain ⟨k1, k2⟩ := g3 hcn (by simp)
          have hcr : c :: d.reverse = (d ++ [c]).reverse := by simp
          rw [hcr]
          cases h with
          | dot hc' h => exact absurd hc' hc
          | up => exact absurd rfl hu
          | plain _ _ _ _ h =>
            exact ih' (d ++ [c]) (hr.snoc k1) (by
              intro y hy
              rcases List.mem_append.1 hy with h | h
              · exact hn y h
              · simp only [List.mem_cons, List.not_mem_nil, or_false] at h; subst h; exact hcn) k2 rest r k h
          | link _ _ he => rw [k1] at he; cases he

/-! ### chains of links -/

theorem isAbs_target {cs : List Str} {c t : Str} (hn : ∀ x ∈ cs ++ [c], IsName x) : isAbs (join2 (dir (join (cs ++ [c]))) (clean t)) = false := by
  have hnorm : Normal false (cs ++ [c]) := .names hn
  have hd : dir (join (cs ++ [c])) = render false cs := by
    rw [← dir_render hnorm]
    unfold render
    simp
  have hne : dir (join (cs ++ [c])) ≠ [] := clean_ne_nil _
  rw [join2_clean hne (clean_ne_nil _), isAbs_clean, isAbs_append hne, hd, isAbs_render hnorm.init]

theorem resolveSymlink_complete {fs : Fs} {T : Tree} {ok : List Str → Prop} (hroot : T [] = some .dir) (ha : AnswersOn ok fs T) :
    ∀ (m : Nat) (cs : List Str) (c : Str) (i : Nat) (log : Log),
    (∀ x ∈ cs ++ [c], IsName x) → AtLink T ok cs → ∀ d kc k rest r t, WalkN T [] cs d kc → T (d ++ [c]) = some (.link t) → WalkN T d (c :: rest) r k → kc + k ≤ m → kc + k < 40 →
    ∃ log' q n k', resolveSymlink fs m (join (cs ++ [c])) i log = (log', .ok (some q, n)) ∧ WalkN T [] (split q ++ rest) r k' ∧ k' + n = kc + k + i := by
  intro m
  induction m with
  | zero =>
    intro cs c i log hn hat d kc k rest r t hd hl h hm
    exfalso
    cases h with
    | dot hc h => exact hc.elim (fun h => (hn c (by simp)).1.1 h) (fun h => (hn c (by simp)).2.1 h)
    | up => exact (hn dotdot (by simp)).2.2 rfl
    | plain _ _ he hl' => rw [hl] at he; cases he; cases hl'
    | link => omega
  | succ m ih =>
    intro cs c i log hn hat d kc k rest r t hd hl h hm hlim
    have hcn : IsName c := hn c (by simp)
    have hcs : ∀ x ∈ cs, IsName x := fun x hx => hn x (by simp [hx])
    have hsp : split (join (cs ++ [c])) = cs ++ [c] := split_join (by simp) (fun x hx => (hn x hx).1.2)
    cases h with
    | dot hc h => exact absurd hc hcn.notDot
    | up => exact absurd rfl hcn.2.2
    | plain _ _ he hl' => rw [hl] at he; cases he; cases hl'
    | link hcn2 hdir he habs hw =>
      rename_i t' k
      rw [hl] at he
      cases he
      have hrl := ha.readlink log.length _ _ _ _ _ _ (hat.ok hcs) hsp hcn hd (by omega) hdir hl
      have hcomp := comps_target (p := join (cs ++ [c])) rfl hn habs
      have hcl := clean_step (join (cs ++ [c])) t
      have hRabs := isAbs_target (t := t) hn
      generalize hR : join2 (dir (join (cs ++ [c]))) (clean t) = R at *
      -- the lexical result stays below the root and walks to the same place
      have hF : dotdot ∉ (split t).foldl (cleanStep false) cs.reverse ∧ WalkN T [] (comps R ++ rest) r (kc + k) := by
        rcases hat with ⟨hno, _⟩ | ⟨⟨hdt, _⟩, hrd⟩
        · have hts : ∀ x ∈ split t, slash ∉ x ∧ x ≠ dotdot :=
            fun x hx => ⟨split_no_slash t x hx, fun h => hno d c t hl (h ▸ hx)⟩
          rw [hcomp, foldl_noUp hts, List.reverse_append, List.reverse_reverse, List.reverse_reverse, List.append_assoc]
          refine ⟨?_, hd.trans (namesN_walk _ hw)⟩
          intro hm'
          rcases List.mem_append.1 hm' with h | h
          · exact (names_isName hts _ (List.mem_reverse.1 h)).2.2 rfl
          · exact (hcs _ (List.mem_reverse.1 h)).2.2 rfl
        · have hcsd : d = cs := hd.walk.det (hrd.walk hcs)
          subst hcsd
          obtain ⟨h1, h2⟩ := direct_conv (split t) (split_no_slash t) d hrd hcs (hdt d c t hl hrd) rest r k hw
          rw [hcomp]
          refine ⟨h1, ?_⟩
          have hk0 : kc = 0 := by
            have h3 := hrd.walkN hcs
            have key : ∀ {T : Tree} {d a r j}, WalkN T d a r j → ∀ {r' j'}, WalkN T d a r' j' → j = j' := by
              intro T d a r j h
              induction h with
              | nil d => intro r' j' h'; cases h'; rfl
              | dot hc _ ih =>
                intro r' j' h'
                cases h' with
                | dot _ h => exact ih h
                | up hd hne h => exact absurd hc (by decide)
                | plain hn => exact absurd hc hn.notDot
                | link hn => exact absurd hc hn.notDot
              | up hd hne _ ih =>
                intro r' j' h'
                cases h' with
                | dot hc h => exact absurd hc (by decide)
                | up hd hne h => exact ih h
                | plain hn => exact absurd rfl hn.2.2
                | link hn => exact absurd rfl hn.2.2
              | plain hn hd he hl _ ih =>
                intro r' j' h'
                cases h' with
                | dot hc h => exact absurd hc hn.notDot
                | up => exact absurd rfl hn.2.2
                | plain hn' hd' he' hl' h => exact ih h
                | link hn' hd' he' => rw [he] at he'; cases he'; cases hl
              | link hn hd he ha _ ih =>
                intro r' j' h'
                cases h' with
                | dot hc h => exact absurd hc hn.notDot
                | up => exact absurd rfl hn.2.2
                | plain hn' hd' he' hl' h => rw [he] at he'; cases he'; cases hl'
                | link hn' hd' he' ha' h => rw [he] at he'; cases he'; rw [ih h]
            exact key hd h3
          rw [hk0, Nat.zero_add]
          exact h2
      obtain ⟨hnodd, hwR⟩ := hF
      have hRn : ∀ x ∈ comps R, IsName x := by
        have h1 := comps_normal R
        intro x hx
        have h2 := (h1.isComp x hx)
        refine ⟨h2.1, h2.2, ?_⟩
        rintro rfl
        rw [hcomp] at hx
        exact hnodd (List.mem_reverse.1 hx)
      have hloc : isLocal R = true := by
        rw [isLocal_iff]
        refine ⟨?_, hRabs, hRn⟩
        rw [← hcl]; exact clean_ne_nil _
      unfold resolveSymlink
      rw [hrl]
      simp only [hR]
      rw [if_neg (by rw [isAbs_clean, habs]; simp), if_neg (by simp [hloc])]
      by_cases he : comps R = []
      · have hRd : R = dot := by
          have := split_of_empty hcl hRabs he
          have h2 := join_split R
          rw [this] at h2
          exact h2.symm.trans (by decide)
        have hok : ok [] := by
          rcases hat with ⟨_, h⟩ | ⟨⟨_, h⟩, _⟩
          · exact h []
          · refine h [] (by simp) (fun p t hp hv => ?_)
            simp only [names, List.filter_nil] at hp
            rw [List.prefix_nil.1 hp, hroot] at hv
            cases hv
        have hls := ha.lstat_root (log.length + 1) hok
        rw [hRd, hls]
        refine ⟨_, _, _, kc + k, rfl, ?_, by omega⟩
        rw [show split dot = [dot] by decide]
        rw [he] at hwR
        exact .dot (.inr rfl) hwR
      · have hspR := split_of_names hcl hRabs he
        rcases List.eq_nil_or_concat (comps R) with h0 | ⟨cs', c', hcc⟩
        · exact absurd h0 he
        · rw [List.concat_eq_append] at hcc
          have hn' : ∀ x ∈ cs' ++ [c'], IsName x := by rw [← hcc]; exact hRn
          have hcn' := hn' c' (by simp)
          have hRj : R = join (cs' ++ [c']) := by rw [← hcc, ← hspR, join_split]
          have hat' : AtLink T ok cs' := by
            rcases hat with hno | ⟨⟨hdt, hdo⟩, hrd⟩
            · exact Or.inl hno
            · refine Or.inr ⟨⟨hdt, hdo⟩, ?_⟩
              have hcsd : d = cs := hd.walk.det (hrd.walk hcs)
              subst hcsd
              obtain ⟨w, _⟩ := direct_walk (split t) (split_no_slash t) d hrd hcs (hdt d c t hl hrd) hnodd
              rw [← hcomp, hcc] at w
              simpa using w
          have hokc : ok cs' := hat'.ok fun x hx => hn' x (by simp [hx])
          have hwR' := hwR
          rw [hcc, List.append_assoc] at hwR'
          obtain ⟨d', j, l, w1, w2, w3⟩ := walkN_append hwR' rfl
          simp only [List.cons_append, List.nil_append] at w2
          have hw2 := w2
          cases w2 with
          | dot hc h => exact absurd hc hcn'.notDot
          | up => exact absurd rfl hcn'.2.2
          | plain hx1 hdir' he' hl' hx2 =>
            have hls := ha.lstat (log.length + 1) R cs' c' d' _ _ hokc (by rw [hspR, hcc]) hcn' w1 (by omega) hdir' he'
            rw [hl'] at hls
            rw [hls]
            refine ⟨_, _, _, kc + k, rfl, ?_, by omega⟩
            rw [hspR]; exact hwR
          | link hx1 hdir' he' hx2 hx3 =>
            rename_i t2 k2
            have hls := ha.lstat (log.length + 1) R cs' c' d' _ _ hokc (by rw [hspR, hcc]) hcn' w1 (by omega) hdir' he'
            rw [hls]
            simp only [Ent.isLink]
            obtain ⟨log', q, n, k', g1, g2, g3⟩ := ih cs' c' (i + 1) (log ++ [.readlink (join (cs ++ [c])) (some t), .lstat R (some true)]) hn' hat' d' j (k2 + 1) rest r t2 w1 he' hw2
              (by omega) (by omega)
            rw [← hRj] at g1
            exact ⟨log', q, n, k', g1, g2, by omega⟩

/-! ### the passes -/

theorem scan_complete {fs : Fs} {T : Tree} {ok : List Str → Prop} (ha : AgreesOn ok fs T) (hb : AnswersOn ok fs T) (hcov : Cover T ok) :
    ∀ (rest done : List Str) (log : Log) (r : List Str) (k : Nat), (∀ c ∈ done, Step c) → (∀ c ∈ rest, IsName c) → Passed T done → WalkN T [] (done ++ rest) r k → k < 40 →
    ∀ log' p, scan fs done rest log ≠ (log', .missing p) := by
  intro rest
  induction rest with
  | nil => intro done log r k _ _ _ _ _ log' p h; simp [scan] at h
  | cons c rest ih =>
    intro done log r k hst hn hp hw hk log' p
    obtain ⟨hp1, hp2, hp3⟩ := hp
    have hcn := hn c (by simp)
    have hok : ok done := hcov.ok hst hp3
    have hsp : split (join (done ++ [c])) = done ++ [c] := split_join (by simp) (fun x hx => by
      rcases List.mem_append.1 hx with h | h
      · exact (hst x h).1.2
      · simp only [List.mem_cons, List.not_mem_nil, or_false] at h; subst h; exact hcn.1.2)
    obtain ⟨m, j, l, w1, w2, w3⟩ := walkN_append hw rfl
    have hm := w1.walk.det hp1
    subst hm
    have hst' : ∀ x ∈ done ++ [c], Step x := fun x hx => by
      rcases List.mem_append.1 hx with h | h
      · exact hst x h
      · simp only [List.mem_cons, List.not_mem_nil, or_false] at h; subst h; exact ⟨hcn.1, hcn.2.2⟩
    unfold scan
    cases w2 with
    | dot hc h => exact absurd hc hcn.notDot
    | up => exact absurd rfl hcn.2.2
    | plain _ hdir he hl _ =>
      have hls := hb.lstat log.length _ _ _ _ _ _ hok hsp hcn w1 (by omega) hdir he
      rw [hl] at hls
      rw [hls]
      simp only
      have hp' : Passed T (done ++ [c]) := by
        have h2 := (scan_same ha hcov [c] done log hst' ⟨hp1, hp2, hp3⟩).1 (log ++ [.lstat (join (done ++ [c])) (some false)]) (done ++ [c])
        refine h2 ?_
        simp only [scan, hls]
      exact ih (done ++ [c]) _ r k hst' (fun x hx => hn x (by simp [hx])) hp' (by rw [List.append_assoc]; exact hw) hk log' p
    | link _ hdir he _ _ =>
      have hls := hb.lstat log.length _ _ _ _ _ _ hok hsp hcn w1 (by omega) hdir he
      rw [hls]
      simp [Ent.isLink]

/-- The names a pass is made over: names only, after "." perhaps. -/
def Plain (name : List Str) : Prop := (∀ c ∈ name, IsName c) ∨ ∃ rest, name = dot :: rest ∧ ∀ c ∈ rest, IsName c

theorem Plain.step {name : List Str} (h : Plain name) : ∀ c ∈ name, Step c := by
  intro c hc
  rcases h with h | ⟨rest, rfl, h⟩
  · exact ⟨(h c hc).1, (h c hc).2.2⟩
  · rcases List.mem_cons.1 hc with rfl | hc
    · exact ⟨by decide, by decide⟩
    · exact ⟨(h c hc).1, (h c hc).2.2⟩

theorem loop_complete {fs : Fs} {T : Tree} {ok : List Str → Prop} (ha : AgreesOn ok fs T) (hb : AnswersOn ok fs T) (ht : Cover T ok) :
    ∀ (fuel cur : Nat) (name : List Str) (log : Log) (r : List Str) (k : Nat),
    Plain name → name ≠ [] → WalkN T [] name r k → cur + k < maxLinks → maxLinks - cur ≤ fuel → ∃ log' d, loop fs fuel cur name log = some (log', .ok d) := by
  intro fuel
  induction fuel with
  | zero => intro cur name log r k _ _ _ h1 h2; omega
  | succ f ih =>
    intro cur name log r k hpl hne hw hk hfuel
    have hst := hpl.step
    have hp0 : Passed T [] := ⟨.nil _, by
      intro p hp
      simp only [names, List.filter_nil, List.dropLast_nil] at hp
      rw [List.prefix_nil.1 hp]
      exact ha.root, fun p t hp hv => by
      simp only [names, List.filter_nil] at hp
      rw [List.prefix_nil.1 hp, ha.root] at hv
      cases hv⟩
    obtain ⟨_, hs2⟩ := scan_same ha ht name [] log (by simpa using hst) hp0
    obtain ⟨_, _, _, _, _, _, h6⟩ := scan_spec fs name [] log (by simpa using hst)
    have hmiss : ∀ log' p, scan fs [] name log ≠ (log', .missing p) := by
      rcases hpl with hn | ⟨rest, rfl, hn⟩
      · exact scan_complete ha hb ht name [] log r k (by simp) hn hp0 (by simpa using hw) (by simp only [maxLinks] at hk; omega)
      · intro log' p
        have hls := hb.lstat_root log.length (ht.ok (cs := []) (by simp) hp0.2.2)
        have hj : join ([] ++ [dot]) = dot := by decide
        unfold scan
        rw [hj, hls]
        simp only
        refine scan_complete ha hb ht rest ([] ++ [dot]) _ r k (by intro c hc; simp at hc; subst hc; exact ⟨by decide, by decide⟩) hn ?_ (by simpa using hw)
          (by simp only [maxLinks] at hk; omega) log' p
        have h2 := (scan_same ha ht [dot] [] log (by intro c hc; simp at hc; subst hc; exact ⟨by decide, by decide⟩) hp0).1 (log ++ [.lstat dot (some false)]) ([] ++ [dot])
        refine h2 ?_
        simp only [scan, hj, hls]
    unfold loop
    rcases hsc : scan fs [] name log with ⟨log1, sc⟩
    rw [hsc] at h6 hs2 hmiss
    cases sc with
    | all d => exact ⟨log1, d, rfl⟩
    | missing p => exact absurd rfl (hmiss _ _)
    | link done rest =>
      obtain ⟨hdr, hdne⟩ := h6 done rest rfl
      simp only [List.nil_append] at hdr
      obtain ⟨init, c, hdc, hcn, hwi, hreal⟩ := hs2 _ _ _ rfl
      have hist : ∀ x ∈ init, Step x := fun x hx => hst x (by rw [← hdr, hdc]; simp [hx])
      have hrn : ∀ x ∈ rest, IsName x := by
        intro x hx
        rcases hpl with hn | ⟨rest', hr', hn⟩
        · exact hn x (by rw [← hdr]; simp [hx])
        · refine hn x ?_
          rw [hr', hdc] at hdr
          cases init with
          | nil =>
            simp only [List.nil_append, List.cons_append, List.cons.injEq] at hdr
            rw [← hdr.2]; simp [hx]
          | cons y init =>
            simp only [List.cons_append, List.cons.injEq] at hdr
            rw [← hdr.2]; simp [hx]
      have hni := names_isName (step_noUp hist)
      have hpn : ∀ x ∈ names init ++ [c], IsName x := by
        intro x hx
        rcases List.mem_append.1 hx with h' | h'
        · exact hni x h'
        · simp only [List.mem_cons, List.not_mem_nil, or_false] at h'; subst h'; exact hcn
      have hp : clean (join done) = join (names init ++ [c]) := by rw [hdc]; exact clean_join_steps hist hcn
      have hloc : isLocal (join (names init ++ [c])) = true := by
        rw [← hp]
        exact isLocal_clean (isLocal_join hdne (fun x hx => hst x (by rw [← hdr]; simp [hx])))
      have hat : AtLink T ok (names init) := by
        rcases ht with h | h
        · exact Or.inl h
        · exact Or.inr ⟨h, hreal⟩
      have hw0 := hreal.walkN hni
      rw [← hdr, hdc, List.append_assoc] at hw
      obtain ⟨m, j, l, w1, w2, w3⟩ := walkN_append hw rfl
      have hm := w1.walk.det hwi
      subst hm
      simp only [List.cons_append, List.nil_append] at w2
      -- the component found is a link of the tree
      obtain ⟨t, hlink⟩ : ∃ t, T (names init ++ [c]) = some (.link t) := by
        have hsp : split (join (init ++ [c])) = init ++ [c] := split_join (by simp) (fun x hx => by
          rcases List.mem_append.1 hx with h | h
          · exact (hist x h).1.2
          · simp only [List.mem_cons, List.not_mem_nil, or_false] at h; subst h; exact hcn.1.2)
        have key : ∀ (rest done : List Str) (log log' : Log) (d r : List Str), scan fs done rest log = (log', .link d r) → ∃ i, fs.lstat i (join d) = some true := by
          intro rest
          induction rest with
          | nil => intro done log log' d r h; simp [scan] at h
          | cons c rest ih =>
            intro done log log' d r h
            unfold scan at h
            split at h
            · simp at h
            · exact ih _ _ _ _ _ h
            · rename_i hls
              simp only [Prod.mk.injEq, Scan.link.injEq] at h
              rw [← h.2.1]
              exact ⟨_, hls⟩
        obtain ⟨i, hi⟩ := key _ _ _ _ _ _ hsc
        rw [hdc] at hi
        obtain ⟨d, e, k1, k2, k3, k4⟩ := ha.lstat_name i _ _ _ _ (ht.ok hist hreal.noLink) hsp hcn hi
        have := hwi.det k1
        subst this
        cases e with
        | link t => exact ⟨t, k3⟩
        | dir => cases k4
        | file => cases k4
      obtain ⟨log2, q, n, k', g1, g2, g3⟩ := resolveSymlink_complete ha.root hb (maxLinks - cur) (names init) c 0 log1 hpn hat _ 0 l rest r t hw0 hlink w2 (by omega)
        (by simp only [maxLinks] at hk; omega)
      obtain ⟨_, _, _, _, _, g5⟩ := resolveSymlink_spec fs (maxLinks - cur) (join (names init ++ [c])) 0 log1 hloc
      rw [g1] at g5
      obtain ⟨_, hn1, _, g9⟩ := g5 (some q) n rfl
      obtain ⟨g10, g11, _⟩ := g9 q rfl
      simp only [hp, g1]
      rw [if_neg (by omega)]
      simp only [g10, Bool.true_eq_false, if_false]
      refine ih (cur + n) (split q ++ rest) log2 r k' ?_ (by simp [split_ne_nil]) g2 (by omega) (by omega)
      rw [isLocal_iff] at g10
      by_cases he : comps q = []
      · exact .inr ⟨rest, by rw [split_of_empty g11 g10.2.1 he]; rfl, hrn⟩
      · left
        rw [split_of_names g11 g10.2.1 he]
        intro x hx
        rcases List.mem_append.1 hx with h | h
        · exact g10.2.2 x h
        · exact hrn x h

/-! ### C29 -/

theorem resolves_on {fs : Fs} {T : Tree} {ok : List Str → Prop} (ha : AgreesOn ok fs T) (hb : AnswersOn ok fs T) (ht : Cover T ok) (name : Str) (hrel : isAbs name = false)
    (hup : dotdot ∉ split name) (x : List Str) (k : Nat) (hk : k < 40) (h : WalkN T [] (split name) x k) :
    ∃ log r, resolvePath fs name false = some (log, .ok r) := by
  unfold resolvePath
  by_cases hdot : clean name = dot
  · rw [if_pos hdot]; exact ⟨_, _, rfl⟩
  · have hcomp := comps_of_noUp hup hrel
    have hn : ∀ c ∈ comps name, IsName c := by
      rw [hcomp]; exact names_isName (fun c hc => ⟨split_no_slash name c hc, fun h' => hup (h' ▸ hc)⟩)
    have hloc : isLocal (clean name) = true := by
      rw [isLocal_iff, isAbs_clean, comps_clean]; exact ⟨clean_ne_nil _, hrel, hn⟩
    obtain ⟨hs, _, hne⟩ := split_clean_eq hloc hdot
    rw [if_neg hdot, if_neg (by simp [hloc])]
    simp only [Bool.false_eq_true, if_false]
    have hw := namesN_walk (T := T) (d := []) (split name) (rest := []) (r := x) (k := k) (by simpa using h)
    rw [List.append_nil, ← hcomp] at hw
    obtain ⟨log', d, hl⟩ := loop_complete ha hb ht (maxLinks + 1) 0 (comps name) [] x k (.inl hn) hne hw (by simp only [maxLinks]; omega) (by simp)
    rw [hs, hl]
    exact ⟨_, _, rfl⟩

theorem resolves_parent_on {fs : Fs} {T : Tree} {ok : List Str → Prop} (ha : AgreesOn ok fs T) (hb : AnswersOn ok fs T) (ht : Cover T ok) (name : Str) (hrel : isAbs name = false)
    (hup : dotdot ∉ split name) (init : List Str) (c : Str) (hi : names (split name) = init ++ [c]) (x : List Str) (k : Nat) (hk : k < 40) (h : WalkN T [] init x k) :
    ∃ log r, resolvePath fs name true = some (log, .ok r) := by
  unfold resolvePath
  have hcomp := comps_of_noUp hup hrel
  have hn : ∀ c ∈ comps name, IsName c := by
    rw [hcomp]; exact names_isName (fun c hc => ⟨split_no_slash name c hc, fun h' => hup (h' ▸ hc)⟩)
  have hloc : isLocal (clean name) = true := by
    rw [isLocal_iff, isAbs_clean, comps_clean]; exact ⟨clean_ne_nil _, hrel, hn⟩
  by_cases hdot : clean name = dot
  · rw [if_pos hdot]; exact ⟨_, _, rfl⟩
  · obtain ⟨hs, _, hne⟩ := split_clean_eq hloc hdot
    rw [if_neg hdot, if_neg (by simp [hloc])]
    simp only [if_true]
    rw [hs, hcomp, hi]
    by_cases hlen : (init ++ [c]).length ≤ 1
    · rw [if_pos hlen]; exact ⟨_, _, rfl⟩
    · rw [if_neg hlen]
      rw [hcomp, hi] at hn
      have hin : ∀ c ∈ init, IsName c := fun x hx => hn x (by simp [hx])
      obtain ⟨log', d, hl⟩ := loop_complete ha hb ht (maxLinks + 1) 0 init [] x k (.inl hin) (by rintro rfl; simp at hlen) h (by simp only [maxLinks]; omega) (by simp)
      rw [show (init ++ [c]).dropLast = init by simp, hl]
      exact ⟨_, _, rfl⟩

/-- **C29** (partial) Conversely, what the kernel reaches through fewer than 40 links is resolved, in the same trees and for the same names: the walk of the path returned ends where the walk of
the name does, and the escape error, the loop error or the failure of a call do not occur. -/
theorem C29_resolves_partial {fs : Fs} {T : Tree} (ha : Agrees fs T) (hb : Answers fs T) (ht : Tame T) (name : Str) (hrel : isAbs name = false) (hup : dotdot ∉ split name)
    (x : List Str) (k : Nat) (hk : k < 40) (h : WalkN T [] (split name) x k) :
    ∃ log r, resolvePath fs name false = some (log, .ok r) ∧ Walk T [] (split r) x := by
  obtain ⟨log, r, hr⟩ := resolves_on ha.on hb (.of_tame ht) name hrel hup x k hk h
  obtain ⟨y, h1, h2⟩ := C29_same_file_partial ha ht name hup log r hr
  rw [h.walk.det h1]
  exact ⟨log, r, hr, h2⟩

/-- **C29** (partial) With the last element kept, it is enough that the kernel reaches the directory. -/
theorem C29_resolves_parent_partial {fs : Fs} {T : Tree} (ha : Agrees fs T) (hb : Answers fs T) (ht : Tame T) (name : Str) (hrel : isAbs name = false) (hup : dotdot ∉ split name)
    (init : List Str) (c : Str) (hi : names (split name) = init ++ [c]) (x : List Str) (k : Nat) (hk : k < 40) (h : WalkN T [] init x k) :
    ∃ log r init', resolvePath fs name true = some (log, .ok r) ∧ names (split r) = init' ++ [c] ∧ Walk T [] init' x := by
  obtain ⟨log, r, hr⟩ := resolves_parent_on ha.on hb (.of_tame ht) name hrel hup init c hi x k hk h
  have hdot : clean name ≠ dot := by
    intro hd
    have h1 := comps_of_noUp hup hrel
    rw [hi] at h1
    have h2 : comps name = [] := by rw [← comps_clean, hd]; rfl
    rw [h2] at h1
    simp at h1
  obtain ⟨i2, c2, d, init', h1, h2, h3, h4⟩ := C29_same_parent_partial ha ht name hdot hup log r hr
  rw [hi] at h1
  obtain ⟨rfl, hc⟩ := List.append_inj' h1 rfl
  simp only [List.cons.injEq, and_true] at hc
  subst hc
  rw [h.walk.det h3]
  exact ⟨log, r, init', hr, h2, h4⟩

/-! ### there are such filesystems -/

/-- The target of a link. -/
def Ent.target : Ent → Option Str
  | .link t => some t
  | _ => none

open Classical in
/-- The filesystem that answers every name as the kernel would. -/
noncomputable def kernelFs (T : Tree) : Fs where
  lstat := fun _ n =>
    if h : ∃ e cs c d, split n = cs ++ [c] ∧ IsName c ∧ Walk T [] cs d ∧ T d = some .dir ∧ T (d ++ [c]) = some e then some (choose h).isLink
    else if ∃ cs d, split n = cs ++ [dot] ∧ Walk T [] cs d ∧ T d = some .dir then some false else none
  readlink := fun _ n =>
    if h : ∃ e cs c d, split n = cs ++ [c] ∧ IsName c ∧ Walk T [] cs d ∧ T d = some .dir ∧ T (d ++ [c]) = some e then (choose h).target else none

theorem kernel_unique {T : Tree} {n : Str} {e e' : Ent} {cs cs' d d' : List Str} {c c' : Str} (h1 : split n = cs ++ [c]) (h2 : Walk T [] cs d) (h3 : T (d ++ [c]) = some e)
    (h1' : split n = cs' ++ [c']) (h2' : Walk T [] cs' d') (h3' : T (d' ++ [c']) = some e') : cs = cs' ∧ c = c' ∧ d = d' ∧ e = e' := by
  rw [h1] at h1'
  obtain ⟨rfl, hc⟩ := List.append_inj' h1' rfl
  simp only [List.cons.injEq, and_true] at hc
  subst hc
  have := h2.det h2'
  subst this
  rw [h3] at h3'
  cases h3'
  exact ⟨rfl, rfl, rfl, rfl⟩

theorem kernelFs_agrees {T : Tree} (hroot : T [] = some .dir) : Agrees (kernelFs T) T where
  root := hroot
  lstat_name := by
    intro k n cs c b hs hc h
    simp only [kernelFs] at h
    split at h
    · rename_i hx
      obtain ⟨cs', c', d', g1, g2, g3, g4, g5⟩ := Classical.choose_spec hx
      rw [hs] at g1
      obtain ⟨rfl, hcc⟩ := List.append_inj' g1 rfl
      simp only [List.cons.injEq, and_true] at hcc
      subst hcc
      cases h
      exact ⟨d', _, g3, g4, g5, rfl⟩
    · split at h
      · rename_i hx
        obtain ⟨cs', d, g1, _⟩ := hx
        rw [hs] at g1
        obtain ⟨_, hcc⟩ := List.append_inj' g1 rfl
        simp only [List.cons.injEq, and_true] at hcc
        exact absurd hcc hc.2.1
      · cases h
  lstat_dot := by
    intro k n cs b hs h
    simp only [kernelFs] at h
    split at h
    · rename_i hx
      obtain ⟨cs', c', d', g1, g2, _⟩ := Classical.choose_spec hx
      rw [hs] at g1
      obtain ⟨_, hcc⟩ := List.append_inj' g1 rfl
      simp only [List.cons.injEq, and_true] at hcc
      exact absurd hcc.symm g2.2.1
    · split at h
      · rename_i hx
        obtain ⟨cs', d, g1, g2, _⟩ := hx
        rw [hs] at g1
        obtain ⟨rfl, _⟩ := List.append_inj' g1 rfl
        cases h
        exact ⟨rfl, d, g2⟩
      · cases h
  readlink := by
    intro k n cs c t hs hc h
    simp only [kernelFs] at h
    split at h
    · rename_i hx
      obtain ⟨cs', c', d', g1, g2, g3, g4, g5⟩ := Classical.choose_spec hx
      rw [hs] at g1
      obtain ⟨rfl, hcc⟩ := List.append_inj' g1 rfl
      simp only [List.cons.injEq, and_true] at hcc
      subst hcc
      refine ⟨d', g3, g4, ?_⟩
      rw [g5]
      revert h
      generalize Classical.choose hx = e
      intro h
      cases e <;> simp only [Ent.target, reduceCtorEq, Option.some.injEq] at h
      rw [h]
    · cases h

theorem kernelFs_answers {T : Tree} (hroot : T [] = some .dir) : Answers (kernelFs T) T where
  lstat := by
    intro i n cs c d e k _ hs hc hw _ hd he
    have hx : ∃ e cs c d, split n = cs ++ [c] ∧ IsName c ∧ Walk T [] cs d ∧ T d = some .dir ∧ T (d ++ [c]) = some e := ⟨e, cs, c, d, hs, hc, hw.walk, hd, he⟩
    simp only [kernelFs]
    rw [dif_pos hx]
    obtain ⟨cs', c', d', g1, g2, g3, g4, g5⟩ := Classical.choose_spec hx
    rw [(kernel_unique hs hw.walk he g1 g3 g5).2.2.2]
  lstat_root := by
    intro i _
    simp only [kernelFs]
    have hsd : split dot = [] ++ [dot] := by decide
    rw [dif_neg, if_pos ⟨[], [], hsd, .nil _, hroot⟩]
    rintro ⟨e, cs, c, d, g1, g2, _⟩
    rw [hsd] at g1
    obtain ⟨_, hcc⟩ := List.append_inj' g1 rfl
    simp only [List.cons.injEq, and_true] at hcc
    exact g2.2.1 hcc.symm
  readlink := by
    intro i n cs c d t k _ hs hc hw _ hd he
    have hx : ∃ e cs c d, split n = cs ++ [c] ∧ IsName c ∧ Walk T [] cs d ∧ T d = some .dir ∧ T (d ++ [c]) = some e := ⟨_, cs, c, d, hs, hc, hw.walk, hd, he⟩
    simp only [kernelFs]
    rw [dif_pos hx]
    obtain ⟨cs', c', d', g1, g2, g3, g4, g5⟩ := Classical.choose_spec hx
    rw [← (kernel_unique hs hw.walk he g1 g3 g5).2.2.2]
    rfl

/-- A name is a name if it says so. -/
theorem isName_of {c : Str} (h : (c ≠ [] ∧ slash ∉ c) ∧ c ≠ dot ∧ c ≠ dotdot) : IsName c := h

/-- The hypotheses are met: "d/l" is reached through two links. -/
example : Agrees (kernelFs demoTree) demoTree ∧ Answers (kernelFs demoTree) demoTree ∧ Tame demoTree ∧ WalkN demoTree [] (split "d/l".toList) [['f']] 2 ∧
    isAbs "d/l".toList = false ∧ dotdot ∉ split "d/l".toList := by
  refine ⟨kernelFs_agrees rfl, kernelFs_answers rfl, demoTree_tame, ?_, by decide, by decide⟩
  show WalkN demoTree [] [['d'], ['l']] [['f']] 2
  refine .plain (e := .dir) (isName_of (by decide)) rfl rfl rfl ?_
  refine .link (t := ['.', '.', '/', 'm']) (isName_of (by decide)) rfl rfl rfl ?_
  refine WalkN.up (rest := [['m']]) rfl (by decide) ?_
  refine .link (t := ['e', '/', '.', '.', '/', 'f']) (isName_of (by decide)) rfl rfl rfl ?_
  refine WalkN.plain (rest := [['.', '.'], ['f']]) (c := ['e']) (e := .dir) (isName_of (by decide)) rfl rfl rfl ?_
  refine WalkN.up rfl (by decide) ?_
  exact .plain (e := .file) (isName_of (by decide)) rfl rfl rfl (.nil _)

end Verif.Fsutil.Resolve
