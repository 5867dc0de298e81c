import Verif.Proof.WalkPath
import Verif.Props.Creation
import Verif.Proof.WordsProof
/-!
# Walking and listing: C09–C12
-/
namespace Arx

/-- every path of the map comes from a request: it is (an ancestor of) an added path -/
theorem SpecRun.from_req {rs : List AddReq} : ∀ {m m' : PathMap}, SpecRun m rs m' →
    ∀ p n, m' p = some n → (∃ n, m p = some n) ∨ ∃ r ∈ rs, p <+: entryPath r.path := by
  induction rs with
  | nil => intro m m' h; cases h; exact fun p n hn => Or.inl ⟨n, hn⟩
  | cons r rs ih =>
    intro m m' h
    cases h with
    | @cons _ m1 _ _ _ o ha hne hrun =>
      intro p n hn
      rcases ih hrun p n hn with ⟨n1, h1⟩ | ⟨r', hr', hp⟩
      · have hwp : ∀ x, withParents m (entryPath r.path) p = some x → (∃ n, m p = some n) ∨ p <+: entryPath r.path := by
          intro x hx
          simp only [withParents] at hx
          cases hmp : m p with
          | some y => exact Or.inl ⟨y, rfl⟩
          | none =>
            rw [hmp] at hx
            simp only at hx
            split at hx
            · rename_i hh; exact Or.inr hh.2.2
            · cases hx
        have hl : (∃ n, m p = some n) ∨ p <+: entryPath r.path := by
          cases ha with
          | blocked => exact Or.inl ⟨n1, h1⟩
          | kindErr => exact hwp _ h1
          | ignored => exact hwp _ h1
          | noName => exact absurd rfl hne
          | sameDir => exact Or.inl ⟨n1, h1⟩
          | «exists» => exact Or.inl ⟨n1, h1⟩
          | added k =>
            by_cases he : p = entryPath r.path
            · exact Or.inr (by rw [he]; exact List.prefix_refl _)
            · simp only [setNode, if_neg he] at h1; exact hwp _ h1
        rcases hl with h | h
        · exact Or.inl h
        · exact Or.inr ⟨r, by simp, h⟩
      · exact Or.inr ⟨r', by simp [hr'], hp⟩

theorem mem_dropTrailingCur {l : List Bytes} {c : Bytes} (h : c ∈ dropTrailingCur l) : c ∈ l := by
  simp only [dropTrailingCur, List.mem_reverse] at h
  have := (List.dropWhile_sublist _).subset h
  simpa using this

/-- paths given to `add_entry` are UTF-8 texts, so all names are -/
theorem SpecRun.utf8_names {rs : List AddReq} {m : PathMap} (h : SpecRun PathMap.empty rs m)
    (hu : ∀ r ∈ rs, validUtf8 r.path = true) : ∀ p n, m p = some n → ∀ c ∈ p, validUtf8 c = true := by
  intro p n hn c hc
  rcases h.from_req p n hn with ⟨x, hx⟩ | ⟨r, hr, hp⟩
  · cases hx
  · exact (validUtf8_comps r.path).mp (hu r hr) c (mem_dropTrailingCur (hp.subset hc))

/-! ## C09 -/

/-- **C09.** Walking any created archive (with a recursion bound of at least the number of entries plus
one) terminates without error. There is one trace `T`, bracketed as a walk of the tree must be: its
first contacts list every path exactly once, directories before their content, siblings in byte order;
everything below a directory is strictly between entering and leaving it; and the calls the operator
receives are exactly `start`, the events of `T` — each with the entry stored at that path — and `stop`. -/
theorem C09_walk_once {rs : List AddReq} {a : Archive} {m : PathMap} (h : Written rs a)
    (hm : SpecRun PathMap.empty rs m) :
    ∃ (T : List Ev) (Lg : List (Call FileEntry LinkEntry DirEntry)),
      Listing m [] (T.filterMap Ev.visited) ∧
      (∀ p n, m p = some n → n.isDir = true → ∃ A B C, T = A ++ .enter p :: (B ++ .exit p :: C) ∧
        Listing m p (B.filterMap Ev.visited)) ∧
      All2 (CallFor a m) Lg T ∧
      ∀ depth, a.entries.length < depth →
        a.walk fullBuilder (recorder _ _ _) depth [] = (.start :: (Lg ++ [.stop]), .ok ()) ∧
        ∀ {E C : Type} (op : Operator E C FileEntry LinkEntry DirEntry), op.Plain → ∀ c,
          a.walk fullBuilder op depth c = ((Call.start :: (Lg ++ [.stop])).foldl op.call c, .ok ()) := by
  obtain ⟨P, G⟩ := h.good' hm
  obtain ⟨T, Lg, h1, h2, h3⟩ := specWalk_plain (fun d => G.kidsOf d) G.entOK_full (a.entries.length + 1) []
    (G.deepEnough (by omega) [])
  have hmemP : ∀ p n, m p = some n → p ∈ P := fun p n hn => (G.dom p).mpr ⟨n, hn⟩
  have hany : ∀ depth, a.entries.length < depth →
      ∀ {E C : Type} (op : Operator E C FileEntry LinkEntry DirEntry), op.Plain → ∀ c,
          a.walk fullBuilder op depth c = ((Call.start :: (Lg ++ [.stop])).foldl op.call c, .ok ()) := by
    intro depth hd E C op hop c
    -- the trace does not depend on the depth bound
    have hdep : ∀ c, specWalk P (a.entOf P fullBuilder) op depth [] c = (Lg.foldl op.call c, .ok ()) := by
      obtain ⟨T', L', t1, t2, t3⟩ := specWalk_plain (fun d => G.kidsOf d) G.entOK_full depth [] (G.deepEnough hd [])
      have e1 := h3 (recorder FileEntry LinkEntry DirEntry)
        ⟨fun _ => rfl, fun _ => rfl, fun _ _ => rfl, fun _ _ => rfl, fun _ _ => rfl, fun _ _ => rfl⟩ []
      have e2 := t3 (recorder FileEntry LinkEntry DirEntry)
        ⟨fun _ => rfl, fun _ => rfl, fun _ _ => rfl, fun _ _ => rfl, fun _ _ => rfl, fun _ _ => rfl⟩ []
      have hT : ∀ {d ns T1 T2}, TraceOf m d ns T1 → TraceOf m d ns T2 → T1 = T2 := by
        intro d ns T1 T2 hx
        induction hx generalizing T2 with
        | nil => intro hy; cases hy; rfl
        | leaf q1 q2 q3 ih =>
          intro hy
          cases hy with
          | leaf r1 r2 r3 => rw [ih r3]
          | dir r1 r2 r3 r4 r5 => rw [q1] at r1; cases r1; rw [q2] at r2; cases r2
        | dir q1 q2 q3 q4 q5 ih1 ih2 =>
          intro hy
          cases hy with
          | leaf r1 r2 r3 => rw [q1] at r1; cases r1; rw [q2] at r2; cases r2
          | dir r1 r2 r3 r4 r5 =>
            have := q3.unique r3; subst this
            rw [ih1 r4, ih2 r5]
      have := hT h1 t1; subst this
      have hL : ∀ {L1 L2 : List (Call FileEntry LinkEntry DirEntry)} {T : List Ev},
          All2 (CallEnt (a.entOf P fullBuilder)) L1 T → All2 (CallEnt (a.entOf P fullBuilder)) L2 T → L1 = L2 := by
        intro L1 L2 T hx
        induction hx generalizing L2 with
        | nil => intro hy; cases hy; rfl
        | cons hc _ ih =>
          intro hy
          cases hy with
          | cons hc' hy =>
            rw [ih hy]
            congr 1
            cases hc <;> cases hc' <;> simp_all
      have := hL h2 t2; subst this
      exact fun c => t3 op hop c
    simp only [Archive.walk, Archive.walkFrom]
    rw [pair_eq (hop.start c)]
    simp only [G.walkRange_eq fullBuilder op depth [] a.root _ G.rootRange, hdep, liftOp_ok (hop.stop _)]
    simp [Operator.call]
  refine ⟨T, Lg, h1.listing G.wf (G.kidsOf []), ?_, ?_, ?_⟩
  · intro p n hn hd
    have hp : Ev.enter p ∈ T := by
      have hl := (h1.listing G.wf (G.kidsOf [])).2 p
      have hpn : ([] : List Bytes) ≠ p := by intro e; subst e; rw [G.wf.root] at hn; cases hn
      have := hl.mpr ⟨⟨n, hn⟩, List.nil_prefix, hpn⟩
      obtain ⟨ev, hev, hv⟩ := List.mem_filterMap.mp this
      cases ev with
      | enter q => simp [Ev.visited] at hv; subst hv; exact hev
      | exit q => simp [Ev.visited] at hv
      | leaf q =>
        simp [Ev.visited] at hv; subst hv
        obtain ⟨n', hn', hnd⟩ := h1.kind.2.2 _ hev
        rw [hn] at hn'; cases hn'; rw [hd] at hnd; cases hnd
    obtain ⟨A, B, C, ks, e1, e2, e3⟩ := h1.bracket p hp
    exact ⟨A, B, C, e1, e3.listing G.wf e2⟩
  · refine h2.imp ?_
    intro call ev hev hc
    obtain ⟨k1, k2, k3⟩ := h1.kind
    cases hc with
    | @enter p r e he =>
      obtain ⟨n, hn, _⟩ := k1 p hev
      obtain ⟨g1, g2⟩ := G.entryAt (hmemP p n hn) he
      rw [← g2 r e rfl] at g1; exact .enter g1
    | @exit p r e he =>
      obtain ⟨n, hn, _⟩ := k2 p hev
      obtain ⟨g1, g2⟩ := G.entryAt (hmemP p n hn) he
      rw [← g2 r e rfl] at g1; exact .exit g1
    | @file p e he =>
      obtain ⟨n, hn, _⟩ := k3 p hev
      exact .file (G.entryAt (hmemP p n hn) he).1
    | @link p e he =>
      obtain ⟨n, hn, _⟩ := k3 p hev
      exact .link (G.entryAt (hmemP p n hn) he).1
  · intro depth hd
    refine ⟨?_, fun op hop c => hany depth hd op hop c⟩
    rw [hany depth hd (recorder _ _ _)
      ⟨fun _ => rfl, fun _ => rfl, fun _ _ => rfl, fun _ _ => rfl, fun _ _ => rfl, fun _ _ => rfl⟩ []]
    have hrec : ∀ (L : List (Call FileEntry LinkEntry DirEntry)) (c : List (Call FileEntry LinkEntry DirEntry)),
        L.foldl (recorder FileEntry LinkEntry DirEntry).call c = c ++ L := by
      intro L
      induction L with
      | nil => intro c; simp
      | cons x xs ih =>
        intro c
        rw [List.foldl_cons, ih]
        cases x <;> simp [Operator.call, recorder]
    rw [hrec]; rfl

example : (exArchive.walk fullBuilder (recorder _ _ _) 5 []).1.map
    (fun c => match c with
      | .start => ascii "start" | .stop => ascii "stop"
      | .enter d => ascii "enter " ++ d.common.path | .exit d => ascii "exit " ++ d.common.path
      | .file f => ascii "file " ++ f.common.path | .link l => ascii "link " ++ l.common.path) =
    [ascii "start", ascii "enter a", ascii "link l", ascii "exit a", ascii "enter b", ascii "file x",
     ascii "exit b", ascii "stop"] := by decide

/-! ## C10 -/

/-- The path of the entry a call is about, the directory containing it for a visit. -/
def LoggedPath (a : Archive) (x : RPath × Call FileEntry LinkEntry DirEntry) : Prop :=
  match x.2 with
  | .start => True
  | .stop => True
  | .enter d => ∃ p, pathUp a a.entries.length d.common.idx = some p ∧ comps x.1 = p.dropLast
  | .file f => ∃ p, pathUp a a.entries.length f.common.idx = some p ∧ comps x.1 = p.dropLast
  | .link l => ∃ p, pathUp a a.entries.length l.common.idx = some p ∧ comps x.1 = p.dropLast
  | .exit d => ∃ p, pathUp a a.entries.length d.common.idx = some p ∧ comps x.1 = p

/-- **C10.** For every operator that keeps its current path by pushing the name when entering
a directory and popping when leaving it (and is otherwise arbitrary: it may fail or refuse to enter any
directory at any time), walking a created archive in which no entry is named `"."`: at every call the
current path is that of the directory containing the entry (at a leave: of the directory left), and after
a complete walk it is the empty path again. -/
theorem C10_context_path {rs : List AddReq} {a : Archive} {m : PathMap} (h : Written rs a)
    (hm : SpecRun PathMap.empty rs m) (hdot : ∀ p n, m p = some n → CUR ∉ p)
    {E C : Type} (op : Operator E C FileEntry LinkEntry DirEntry) (cp : C → RPath)
    (hop : Tracks cp RPath.push RPath.pop (fun d => d.common.path) op) (depth : Nat) (c : C) (hc : cp c = []) :
    (∀ x ∈ (a.walkRange fullBuilder (watch cp op) depth a.root (c, [])).1.2, LoggedPath a x) ∧
    (a.walkRange fullBuilder (watch cp op) depth a.root (c, [])).1.1 = (a.walkRange fullBuilder op depth a.root c).1 ∧
    ((a.walkRange fullBuilder op depth a.root c).2 = .ok () → cp (a.walkRange fullBuilder op depth a.root c).1 = []) := by
  obtain ⟨P, G⟩ := h.good' hm
  have hval : ∀ d nm, d ++ [nm] ∈ P → (∀ x ∈ d, ValidName x) ∧ ValidName nm ∧ nm ≠ CUR := by
    intro d nm hp
    obtain ⟨n, hn⟩ := (G.dom _).mp hp
    have hv := G.wf.names _ _ hn
    refine ⟨fun x hx => hv x (by simp [hx]), hv nm (by simp), ?_⟩
    intro e; exact hdot _ _ hn (by simp [e])
  have key := specWalk_tracks hop joinPath
    (P := P) (ent := a.entOf P fullBuilder)
    (fun d nm hp => push_joinPath (hval d nm hp).1 (hval d nm hp).2.1)
    (fun d nm hp => pop_joinPath (hval d nm hp).1 (hval d nm hp).2.1 (hval d nm hp).2.2)
    (fun d nm r e hp he => by
      have := (G.entryAt hp he).1
      obtain ⟨n, _, _, _, h4⟩ := this
      simpa [Entry.common] using h4.symm)
    depth [] c [] (by simpa [joinPath] using hc)
  rw [← G.walkRange_eq fullBuilder (watch cp op) depth [] a.root (c, []) G.rootRange] at key
  obtain ⟨k1, k2⟩ := key
  obtain ⟨w1, w2⟩ := watch_walk cp op a fullBuilder depth a.root c []
  refine ⟨?_, w1, ?_⟩
  · intro x hx
    rcases k1 x hx with hh | ⟨ev, d, nm, hp, hce, hev⟩
    · simp at hh
    · have hv := hval d nm hp
      have hjd : comps (joinPath d) = d := comps_joinPath hv.1
      have hjp : comps (joinPath (d ++ [nm])) = d ++ [nm] := comps_joinPath (by
        intro y hy; simp at hy; rcases hy with hy | rfl
        · exact hv.1 y hy
        · exact hv.2.1)
      obtain ⟨k, call⟩ := x
      simp only at hce hev
      cases hce with
      | @enter p r e he =>
        rcases hev with ⟨e1, e2⟩ | ⟨e1, e2⟩ | ⟨e1, e2⟩ <;> cases e1
        obtain ⟨n, _, _, h3, _⟩ := (G.entryAt hp he).1
        exact ⟨_, h3, by rw [e2]; simpa using hjd⟩
      | @exit p r e he =>
        rcases hev with ⟨e1, e2⟩ | ⟨e1, e2⟩ | ⟨e1, e2⟩ <;> cases e1
        obtain ⟨n, _, _, h3, _⟩ := (G.entryAt hp he).1
        exact ⟨_, h3, by rw [e2]; exact hjp⟩
      | @file p e he =>
        rcases hev with ⟨e1, e2⟩ | ⟨e1, e2⟩ | ⟨e1, e2⟩ <;> cases e1
        obtain ⟨n, _, _, h3, _⟩ := (G.entryAt hp he).1
        exact ⟨_, h3, by rw [e2]; simpa using hjd⟩
      | @link p e he =>
        rcases hev with ⟨e1, e2⟩ | ⟨e1, e2⟩ | ⟨e1, e2⟩ <;> cases e1
        obtain ⟨n, _, _, h3, _⟩ := (G.entryAt hp he).1
        exact ⟨_, h3, by rw [e2]; simpa using hjd⟩
  · intro hok
    rw [← w2] at hok
    have := k2 hok
    rw [w1] at this
    simpa [joinPath] using this

/-- the example archive has no entry named `"."` -/
theorem exFinalPath : ∀ p n, SpecRun PathMap.empty exReqs n → n p ≠ none → CUR ∉ p := by
  intro p n hn hp
  cases hx : n p with
  | none => exact absurd hx hp
  | some x =>
    rcases hn.from_req p x hx with ⟨y, hy⟩ | ⟨r, hr, hpre⟩
    · cases hy
    · have : ∀ r ∈ exReqs, CUR ∉ entryPath r.path := by decide
      exact fun hc => this r hr (hpre.subset hc)

/-- An operator meeting the hypothesis of C10: it enters only directories whose name is not `"a"`. -/
def exSkip : Operator Unit RPath FileEntry LinkEntry DirEntry where
  onStart c := (c, .ok ())
  onStop c := (c, .ok ())
  onEnter c d := (RPath.push c d.common.path, .ok (d.common.path != ascii "a"))
  onExit c _ := (RPath.pop c, .ok ())
  onFile c _ := (c, .ok ())
  onLink c _ := (c, .ok ())

example : Tracks id RPath.push RPath.pop (fun d => d.common.path) exSkip :=
  ⟨fun _ _ => rfl, fun _ _ => rfl, fun _ _ => rfl, fun _ _ => rfl⟩

example : (exArchive.walkRange fullBuilder (watch id exSkip) 5 exArchive.root ([], [])).1.2.map (·.1) =
    [[], ascii "a", [], ascii "b", ascii "b"] := by decide

/-- the directory named `"."` of `a/./b` -/
def dotReqs : List AddReq :=
  [⟨ascii "a/./b", .ok (some (.file 3 ⟨1, 0⟩)), exMeta⟩, ⟨ascii "a/c", .ok (some (.file 4 ⟨1, 1⟩)), exMeta⟩]
def dotSt : Creator := (Creator.new.run dotReqs).getD Creator.new
def dotOrder : List Nat := [0, 1, 3, 2]
def dotArchive : Archive := writeArchive dotSt dotOrder

theorem dotWritten : Written dotReqs dotArchive := by
  obtain ⟨m, paths, hs, R⟩ := run_rel (st := dotSt) (rs := dotReqs) (by rfl)
  refine ⟨dotSt, dotOrder, rfl, ?_, rfl, by decide⟩
  exact R.layoutLoop_sound 4 _ _ (by rw [R.len]) (by decide)

/-- **C10 is false in general.** An archive with an entry `a/./b` has a directory named `"."`; leaving it
pops two names, so the sibling `a/c` visited afterwards is seen, and listed, as `c`. -/
theorem C10_counterexample : Written dotReqs dotArchive ∧
    (listCmd dotArchive (some 1) 10).1 =
      ascii "d 0 a\nd 0 a/.\nf 99 3 a/./b\nf 99 4 c\n" := by
  exact ⟨dotWritten, by decide⟩

/-! ## C11 -/

theorem println2_eq (p : List Bytes) (hp : ∀ c ∈ p, ValidName c) (c : Bytes) (hc : ValidName c) :
    LightPath.println2 p c = joinPath (p ++ [c]) ++ [10] := by
  have hce : c.isEmpty = false := by
    cases c with
    | nil => exact absurd rfl hc.1
    | cons => rfl
  have : ∀ (q : List Bytes) (x : Bytes), x ++ q.flatMap (fun x => SEP :: x) ++ [SEP] ++ c = joinPath (x :: (q ++ [c])) := by
    intro q
    induction q with
    | nil => intro x; simp [joinPath]
    | cons y ys ih =>
      intro x
      have := ih y
      rw [joinPath_cons (by simp), List.cons_append, ← this]
      simp
  cases p with
  | nil => simp [LightPath.println2, joinPath]
  | cons x xs =>
    simp only [LightPath.println2, hce, Bool.false_eq_true, if_false]
    rw [List.cons_append, ← this xs x]

theorem println_eq (p : List Bytes) : LightPath.println p = joinPath p ++ [10] := by
  have : ∀ (q : List Bytes) (x : Bytes), x ++ q.flatMap (fun x => SEP :: x) = joinPath (x :: q) := by
    intro q
    induction q with
    | nil => intro x; simp [joinPath]
    | cons y ys ih =>
      intro x
      rw [joinPath_cons (by simp), ← ih y]
      simp
  cases p with
  | nil => rfl
  | cons x xs => simp [LightPath.println, LightPath.println2, this]

theorem Good.light_name {a : Archive} {m : PathMap} {P : List (List Bytes)} (G : Good a m P) {d : List Bytes}
    {c : Bytes} (hp : d ++ [c] ∈ P) :
    (∀ r e, a.entOf P lightBuilder (d ++ [c]) = .ok (.dir r e) → e = c) ∧
    (∀ e, a.entOf P lightBuilder (d ++ [c]) = .ok (.file e) → e = c) ∧
    (∀ e, a.entOf P lightBuilder (d ++ [c]) = .ok (.link e) → e = c) := by
  obtain ⟨i, hi⟩ := List.mem_iff_getElem?.mp hp
  obtain ⟨r, n, h1, h2, h3, h4⟩ := G.create_spec lightBuilder hi
  have hn : r.name = c := by have := h3.1; simpa using this.symm
  rw [Archive.entOf, G.idxOf_eq hi, h4]
  cases n.kind <;> simp [lightBuilder, Except.map, hn]

/-- **C11.** `arx list` of a created archive succeeds and writes exactly one line per entry: its full
path with `/` between the names, directories before their content, siblings in byte order. -/
theorem C11_list {rs : List AddReq} {a : Archive} {m : PathMap} (h : Written rs a)
    (hm : SpecRun PathMap.empty rs m) (depth : Nat) (hd : a.entries.length < depth) :
    ∃ V, Listing m [] V ∧ listCmd a none depth = (V.flatMap (fun p => joinPath p ++ [10]), true) := by
  obtain ⟨P, G⟩ := h.good' hm
  have hent : EntOK m P (a.entOf P lightBuilder) := G.entOK (fun i r _ => by simp [lightBuilder])
  obtain ⟨T, Lg, h1, h2, h3⟩ := specWalk_plain (fun d => G.kidsOf d) hent depth [] (G.deepEnough hd [])
  refine ⟨T.filterMap Ev.visited, h1.listing G.wf (G.kidsOf []), ?_⟩
  have hplain : lister.Plain :=
    ⟨fun _ => rfl, fun _ => rfl, fun _ _ => rfl, fun _ _ => rfl, fun _ _ => rfl, fun _ _ => rfl⟩
  have hmemP : ∀ d c n, m (d ++ [c]) = some n → d ++ [c] ∈ P := fun d c n hn => (G.dom _).mpr ⟨n, hn⟩
  have hval : ∀ d c n, m (d ++ [c]) = some n → (∀ x ∈ d, ValidName x) ∧ ValidName c := by
    intro d c n hn
    have hv := G.wf.names _ _ hn
    exact ⟨fun x hx => hv x (by simp [hx]), hv c (by simp)⟩
  have hfold := fold_lines lister (rep := fun d => d) (line := fun p => joinPath p ++ [10])
    (m := m) (ent := a.entOf P lightBuilder)
    (fun d c n r e o hn he => by
      have := (G.light_name (hmemP d c n hn)).1 r e he; subst this
      simp [lister, LightPath.push, println_eq])
    (fun d c n r e o hn he => by simp [lister, LightPath.pop])
    (fun d c n e o hn he => by
      have := (G.light_name (hmemP d c n hn)).2.1 e he; subst this
      simp [lister, println2_eq d (hval _ _ _ hn).1 e (hval _ _ _ hn).2])
    (fun d c n e o hn he => by
      have := (G.light_name (hmemP d c n hn)).2.2 e he; subst this
      simp [lister, println2_eq d (hval _ _ _ hn).1 e (hval _ _ _ hn).2])
    h1 Lg [] h2
  have hw : a.walk lightBuilder lister depth ([], []) = (([], (T.filterMap Ev.visited).flatMap (fun p => joinPath p ++ [10])), .ok ()) := by
    simp only [Archive.walk, Archive.walkFrom]
    have e1 : lister.onStart ([], []) = (([], []), .ok ()) := rfl
    rw [e1]
    simp only [G.walkRange_eq lightBuilder lister depth [] a.root _ G.rootRange, h3 lister hplain]
    rw [hfold]; rfl
  simp only [listCmd, hw]; rfl

example : listCmd exArchive none 5 = (ascii "a\na/l\nb\nb/x\n", true) := by decide
example : Listing (fun p => if p ∈ [[ascii "a"], [ascii "b"], [ascii "a", ascii "l"]] then some defaultDir else none) []
    [[ascii "a"], [ascii "a", ascii "l"], [ascii "b"]] := by
  refine ⟨by decide, ?_⟩
  intro p
  by_cases hp : p ∈ [[ascii "a"], [ascii "b"], [ascii "a", ascii "l"]]
  · simp only [hp, if_true]
    simp only [List.mem_cons, List.not_mem_nil, or_false] at hp ⊢
    rcases hp with rfl | rfl | rfl <;> simp
  · simp only [hp, if_false]
    simp only [List.mem_cons, List.not_mem_nil, or_false, not_or] at hp ⊢
    simp [hp]

/-! ## C12 -/

/-- the line of `--stable-output 1` for the entry at path `p` -/
def stableLine (m : PathMap) (p : List Bytes) : Bytes :=
  match m p with
  | none => []
  | some n =>
    match n.kind with
    | .dir => ascii "d " ++ decimal n.info.mtime ++ ascii " " ++ joinPath p ++ [10]
    | .file size _ => ascii "f " ++ decimal n.info.mtime ++ ascii " " ++ decimal size ++ ascii " " ++ joinPath p ++ [10]
    | .link target => ascii "l " ++ decimal n.info.mtime ++ ascii " " ++ joinPath p ++ ascii "->" ++ lossy target ++ [10]

/-- **C12 (partial: no entry named `"."`).** `--stable-output 1` writes exactly one line per entry, in the
order of C11, with the values the entry was added with (a link target that is not UTF-8 is shown lossily);
any other version is refused without output. -/
theorem C12_stable_list_partial {rs : List AddReq} {a : Archive} {m : PathMap} (h : Written rs a)
    (hm : SpecRun PathMap.empty rs m) (hu : ∀ r ∈ rs, validUtf8 r.path = true)
    (hdot : ∀ p n, m p = some n → CUR ∉ p) (depth : Nat) (hd : a.entries.length < depth) :
    (∃ V, Listing m [] V ∧ listCmd a (some 1) depth = (V.flatMap (stableLine m), true)) ∧
    ∀ v, v ≠ 1 → listCmd a (some v) depth = ([], false) := by
  refine ⟨?_, fun v hv => by simp [listCmd, hv]⟩
  obtain ⟨P, G⟩ := h.good' hm
  obtain ⟨T, Lg, h1, h2, h3⟩ := specWalk_plain (fun d => G.kidsOf d) G.entOK_full depth [] (G.deepEnough hd [])
  refine ⟨T.filterMap Ev.visited, h1.listing G.wf (G.kidsOf []), ?_⟩
  have hplain : stableLister.Plain :=
    ⟨fun _ => rfl, fun _ => rfl, fun _ _ => rfl, fun _ _ => rfl, fun _ _ => rfl, fun _ _ => rfl⟩
  have hmemP : ∀ d c n, m (d ++ [c]) = some n → d ++ [c] ∈ P := fun d c n hn => (G.dom _).mpr ⟨n, hn⟩
  have hval : ∀ d c n, m (d ++ [c]) = some n →
      (∀ x ∈ d, ValidName x) ∧ ValidName c ∧ c ≠ CUR ∧ lossy c = c := by
    intro d c n hn
    have hv := G.wf.names _ _ hn
    exact ⟨fun x hx => hv x (by simp [hx]), hv c (by simp), fun e => hdot _ _ hn (by simp [e]),
      lossy_valid (hm.utf8_names hu _ _ hn c (by simp))⟩
  have hea : ∀ d c n e, m (d ++ [c]) = some n → a.entOf P fullBuilder (d ++ [c]) = .ok e →
      EntryIs e n ∧ e.common.path = c := by
    intro d c n e hn he
    obtain ⟨n', g1, g2, _, g4⟩ := (G.entryAt (hmemP d c n hn) he).1
    rw [hn] at g1; cases g1
    exact ⟨g2, by simpa using g4.symm⟩
  have hfold := fold_lines stableLister (rep := joinPath) (line := stableLine m)
    (m := m) (ent := a.entOf P fullBuilder)
    (fun d c n r e o hn he => by
      obtain ⟨g1, g2⟩ := hea d c n _ hn he
      obtain ⟨v1, v2, v3, v4⟩ := hval d c n hn
      obtain ⟨i1, _, _, i4⟩ := g1
      simp only [Entry.common] at g2 i1
      cases hk : n.kind <;> rw [hk] at i4
      · simp [stableLister, g2, v4, push_joinPath v1 v2, stableLine, hn, hk, i1, dec_eq]
      · obtain ⟨f, hf, _⟩ := i4; cases hf
      · obtain ⟨f, hf, _⟩ := i4; cases hf)
    (fun d c n r e o hn he => by
      obtain ⟨v1, v2, v3, v4⟩ := hval d c n hn
      simp [stableLister, pop_joinPath v1 v2 v3])
    (fun d c n e o hn he => by
      obtain ⟨g1, g2⟩ := hea d c n _ hn he
      obtain ⟨v1, v2, v3, v4⟩ := hval d c n hn
      obtain ⟨i1, _, _, i4⟩ := g1
      simp only [Entry.common] at g2 i1
      cases hk : n.kind <;> rw [hk] at i4
      · obtain ⟨r, f, hf⟩ := i4; cases hf
      · obtain ⟨f, hf, hs, _⟩ := i4; cases hf
        simp [stableLister, g2, v4, push_joinPath v1 v2, pop_joinPath v1 v2 v3, stableLine, hn, hk, i1, dec_eq, hs]
      · obtain ⟨f, hf, _⟩ := i4; cases hf)
    (fun d c n e o hn he => by
      obtain ⟨g1, g2⟩ := hea d c n _ hn he
      obtain ⟨v1, v2, v3, v4⟩ := hval d c n hn
      obtain ⟨i1, _, _, i4⟩ := g1
      simp only [Entry.common] at g2 i1
      cases hk : n.kind <;> rw [hk] at i4
      · obtain ⟨r, f, hf⟩ := i4; cases hf
      · obtain ⟨f, hf, _⟩ := i4; cases hf
      · obtain ⟨f, hf, hs⟩ := i4; cases hf
        simp [stableLister, g2, v4, push_joinPath v1 v2, pop_joinPath v1 v2 v3, stableLine, hn, hk, i1, dec_eq, hs])
    h1 Lg [] h2
  have hw : a.walk fullBuilder stableLister depth ([], []) = (([], (T.filterMap Ev.visited).flatMap (stableLine m)), .ok ()) := by
    simp only [Archive.walk, Archive.walkFrom]
    have e1 : stableLister.onStart ([], []) = (([], []), .ok ()) := rfl
    rw [e1]
    simp only [G.walkRange_eq fullBuilder stableLister depth [] a.root _ G.rootRange, h3 stableLister hplain]
    have := hfold
    simp only [joinPath] at this
    rw [this]; rfl
  simp only [listCmd, if_true, hw]; rfl

example : listCmd exArchive (some 1) 5 = (ascii "d 99 a\nl 99 a/l->../b\nd 0 b\nf 99 3 b/x\n", true) ∧
    (∀ r ∈ exReqs, validUtf8 r.path = true) := by decide

end Arx
