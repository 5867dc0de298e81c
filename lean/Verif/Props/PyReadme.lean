import Verif.Spec.PyReadme
import Verif.Props.PyEntry
import Verif.Props.ListFile
import Verif.Props.PyCreate

/-! C98: the programs of the Python README. -/
namespace Arx

theorem Printed.unique {m : PathMap} {bytes : ContentAddr → GetBytes} {p : List Bytes} {l l' : List PyLine} (h : Printed m bytes p l) (h' : Printed m bytes p l') : l = l' := by
  obtain ⟨n, hn, h⟩ := h
  obtain ⟨n', hn', h'⟩ := h'
  rw [hn] at hn'; cases hn'
  cases hk : n.kind with
  | dir =>
    rw [hk] at h h'
    obtain ⟨ns, h1, rfl⟩ := h
    obtain ⟨ns', h2, rfl⟩ := h'
    rw [h1.unique h2]
  | file s c =>
    rw [hk] at h h'
    obtain ⟨b, h1, rfl⟩ := h
    obtain ⟨b', h2, rfl⟩ := h'
    rw [h1] at h2; cases h2; rfl
  | link t => rw [hk] at h h'; rw [h, h']

/-- one turn after the other -/
def pyTurns (body : FullEntry → List PyLine × Bool) : List FullEntry → List PyLine × Bool
  | [] => ([], true)
  | e :: es =>
    let r := body e
    if r.2 then
      let r' := pyTurns body es
      (r.1 ++ r'.1, r'.2)
    else r

theorem PyIter.next_answers {a : Archive} {e : FullEntry} {es : List FullEntry} {it : PyIter} (h : ∀ n, it.nexts a n = answers (e :: es) n) :
    it.next a = (.ok (some e), ⟨it.start + 1, it.stop⟩) ∧ it.start ≠ it.stop ∧ ∀ n, (⟨it.start + 1, it.stop⟩ : PyIter).nexts a n = answers es n := by
  have h1 := h 1
  simp only [PyIter.nexts, answers, List.take_succ_cons, List.take_zero, List.map_cons, List.map_nil, List.length_cons] at h1
  have hn : it.start ≠ it.stop ∧ it.next a = (.ok (some e), ⟨it.start + 1, it.stop⟩) := by
    unfold PyIter.next at h1 ⊢
    by_cases hs : it.start = it.stop
    · rw [if_pos hs] at h1; simp at h1
    · rw [if_neg hs] at h1 ⊢
      refine ⟨hs, ?_⟩
      cases hg : a.getEntryAt fullBuilder it.start with
      | error x => rw [hg] at h1; simp at h1
      | ok x => rw [hg] at h1; simp at h1; simp [h1]
  refine ⟨hn.2, hn.1, fun n => ?_⟩
  have h2 := h (n + 1)
  simp only [PyIter.nexts, hn.2, answers, List.take_succ_cons, List.map_cons, List.length_cons, List.cons_append] at h2
  have h3 := List.tail_eq_of_cons_eq h2
  rw [h3, answers]
  congr 2
  omega

theorem pyFor_eq {a : Archive} {body : FullEntry → List PyLine × Bool} : ∀ (es : List FullEntry) (it : PyIter) (fuel : Nat), it.start ≤ it.stop → it.stop - it.start < fuel →
    (∀ n, it.nexts a n = answers es n) → pyFor a body fuel it = pyTurns body es := by
  intro es
  induction es with
  | nil =>
    intro it fuel _ hf h
    obtain ⟨fuel, rfl⟩ : ∃ k, fuel = k + 1 := ⟨fuel - 1, by omega⟩
    have h1 := h 1
    simp only [PyIter.nexts, answers, List.take_nil, List.map_nil, List.length_nil, List.nil_append] at h1
    have h1 : (it.next a).1 = .ok none := by simpa using h1
    unfold pyFor
    generalize it.next a = r at h1
    obtain ⟨r1, r2⟩ := r
    simp only at h1; subst h1; rfl
  | cons e es ih =>
    intro it fuel hle hf h
    obtain ⟨fuel, rfl⟩ : ∃ k, fuel = k + 1 := ⟨fuel - 1, by omega⟩
    obtain ⟨h1, h2, h3⟩ := PyIter.next_answers h
    unfold pyFor pyTurns
    rw [h1]
    simp only
    have h4 : it.stop - (it.start + 1) < fuel := by omega
    have h5 : it.start + 1 ≤ it.stop := by omega
    rw [ih ⟨it.start + 1, it.stop⟩ fuel h5 h4 h3]

/-- the text before the name of an entry of directory `d` -/
def slashed (d : List Bytes) : Bytes := d.flatMap (fun c => SEP :: c)

theorem slashed_join : ∀ {p : List Bytes}, p ≠ [] → slashed p = SEP :: joinPath p := by
  intro p
  induction p with
  | nil => intro h; exact absurd rfl h
  | cons c t ih =>
    intro _
    cases t with
    | nil => simp [slashed, joinPath]
    | cons c' t =>
      have := ih (by simp)
      rw [slashed] at this ⊢
      rw [List.flatMap_cons, this]
      simp [joinPath]

theorem slashed_snoc (d : List Bytes) (c : Bytes) : slashed (d ++ [c]) = slashed d ++ [SEP] ++ c := by simp [slashed]

theorem take_min_length (b : Bytes) (k : Nat) : b.take (min k b.length) = b.take k := by
  rcases Nat.le_total k b.length with h | h
  · rw [Nat.min_eq_left h]
  · rw [Nat.min_eq_right h, List.take_length, List.take_of_length_le h]

/-- what is to be printed -/
noncomputable def toPrint (m : PathMap) (bytes : ContentAddr → GetBytes) (p : List Bytes) : List PyLine :=
  open Classical in if h : ∃ l, Printed m bytes p l then h.choose else []

theorem toPrint_eq {m : PathMap} {bytes : ContentAddr → GetBytes} {p : List Bytes} {l : List PyLine} (h : Printed m bytes p l) : toPrint m bytes p = l := by
  have : ∃ l, Printed m bytes p l := ⟨l, h⟩
  rw [toPrint, dif_pos this]
  exact this.choose_spec.unique h

theorem pyTurns_spec {rs : List AddReq} {a : Archive} {m : PathMap} (h : Written rs a) (hm : SpecRun PathMap.empty rs m) {bytes : ContentAddr → GetBytes}
    (hnames : ∀ p n, m p = some n → ∀ c ∈ p, validUtf8 c = true) (hbytes : ∀ p n s c, m p = some n → n.kind = .file s c → ∃ b, bytes c = .found b) :
    ∀ (depth : Nat) (d : List Bytes), (∀ p n, m p = some n → p.length ≤ depth + d.length) →
    ∀ (ns : List Bytes) (es : List FullEntry), es.length = ns.length → (∀ c ∈ ns, ∃ n, m (d ++ [c]) = some n) →
      (∀ (k : Nat) c e, ns[k]? = some c → es[k]? = some e → (pyCommon e).path = c ∧ Shows a (d ++ [c]) e ∧ ∃ n, m (d ++ [c]) = some n ∧ EntryIs e n) →
      ∃ T, TraceOf m d ns T ∧ (∀ p ∈ T.filterMap Ev.visited, ∃ l, Printed m bytes p l) ∧
        pyTurns (pyTurn bytes (pyIterate a bytes depth) (slashed d)) es = ((T.filterMap Ev.visited).flatMap (toPrint m bytes), true) := by
  intro depth
  induction depth with
  | zero =>
    intro d hd ns es hl hns _
    cases ns with
    | nil =>
      obtain rfl := List.length_eq_zero_iff.mp hl
      exact ⟨[], .nil d, by simp, rfl⟩
    | cons c ns =>
      obtain ⟨n, hn⟩ := hns c (by simp)
      have := hd _ _ hn
      simp only [List.length_append, List.length_singleton] at this
      omega
  | succ depth ih =>
    intro d hd ns
    induction ns with
    | nil =>
      intro es hl _ _
      obtain rfl := List.length_eq_zero_iff.mp hl
      exact ⟨[], .nil d, by simp, rfl⟩
    | cons c ns ihn =>
      intro es hl hns hes
      cases es with
      | nil => simp at hl
      | cons e es =>
        obtain ⟨T2, ht2, hp2, he2⟩ := ihn es (by simpa using hl) (fun x hx => hns x (by simp [hx]))
          (fun k x y hx hy => hes (k + 1) x y (by simpa using hx) (by simpa using hy))
        obtain ⟨hname, hshow, n, hn, hE⟩ := hes 0 c e rfl rfl
        have hv : validUtf8 c = true := hnames _ _ hn c (by simp)
        have hpath : pyPath e = .ok c := by rw [pyPath, hname, if_pos hv]
        have hj : slashed d ++ [SEP] ++ c = SEP :: joinPath (d ++ [c]) := by rw [← slashed_snoc, slashed_join (by simp)]
        obtain ⟨_, _, _, hE⟩ := hE
        cases hk : n.kind with
        | file s ct =>
          rw [hk] at hE
          obtain ⟨f, rfl, _, hc⟩ := hE
          obtain ⟨b, hb⟩ := hbytes _ _ _ _ hn hk
          have hP : Printed m bytes (d ++ [c]) [.entry (SEP :: joinPath (d ++ [c])), .content b.length (b.take 100)] := by
            refine ⟨n, hn, ?_⟩
            rw [hk]; exact ⟨b, hb, rfl⟩
          refine ⟨.leaf (d ++ [c]) :: T2, .leaf hn (by rw [Node.isDir, hk]; rfl) ht2, ?_, ?_⟩
          · intro p hp
            simp only [List.filterMap_cons, Ev.visited, List.mem_cons] at hp
            rcases hp with rfl | hp
            · exact ⟨_, hP⟩
            · exact hp2 p hp
          · have ht : pyTurn bytes (pyIterate a bytes (depth + 1)) (slashed d) (.file f) =
                ([.entry (SEP :: joinPath (d ++ [c])), .content b.length (b.take 100)], true) := by
              simp only [pyTurn, hpath, pyContent, pyGetContent, hc, hb, hj]
              simp [PyStream.size, PyStream.read, PyStream.sizeLeft, take_min_length]
            simp only [pyTurns, ht, he2, List.filterMap_cons, Ev.visited, List.flatMap_cons, toPrint_eq hP, if_true]
        | link t =>
          rw [hk] at hE
          obtain ⟨f, rfl, hc⟩ := hE
          have hP : Printed m bytes (d ++ [c]) [.entry (SEP :: joinPath (d ++ [c])), .link t] := by
            refine ⟨n, hn, ?_⟩
            rw [hk]
          refine ⟨.leaf (d ++ [c]) :: T2, .leaf hn (by rw [Node.isDir, hk]; rfl) ht2, ?_, ?_⟩
          · intro p hp
            simp only [List.filterMap_cons, Ev.visited, List.mem_cons] at hp
            rcases hp with rfl | hp
            · exact ⟨_, hP⟩
            · exact hp2 p hp
          · have ht : pyTurn bytes (pyIterate a bytes (depth + 1)) (slashed d) (.link f) =
                ([.entry (SEP :: joinPath (d ++ [c])), .link t], true) := by
              simp only [pyTurn, hpath, pyTarget, hc, hj]
            simp only [pyTurns, ht, he2, List.filterMap_cons, Ev.visited, List.flatMap_cons, toPrint_eq hP, if_true]
        | dir =>
          have hdir : n.isDir = true := by rw [Node.isDir, hk]; rfl
          have := (C39_iteration h hm).2 _ _ hshow
          rw [hn] at this
          simp only [hdir, if_true] at this
          obtain ⟨_, it, ks, es', hit, hks, hl', hnb, hans, hes'⟩ := this
          rw [hk] at hE
          obtain ⟨r, x, rfl⟩ := hE
          have hP : Printed m bytes (d ++ [c]) [.entry (SEP :: joinPath (d ++ [c])), .children ks.length] := by
            refine ⟨n, hn, ?_⟩
            rw [hk]; exact ⟨ks, hks, rfl⟩
          obtain ⟨T1, ht1, hp1, he1⟩ := ih (d ++ [c]) (by intro p n' hp; have := hd p n' hp; simp only [List.length_append, List.length_singleton]; omega) ks es' hl'
            (fun x hx => (hks.2 x).mp hx) (fun k x y hx hy => ⟨(hes' k x y hx hy).1, (hes' k x y hx hy).2.1, (hes' k x y hx hy).2.2.1⟩)
          have hvis : (Ev.enter (d ++ [c]) :: (T1 ++ Ev.exit (d ++ [c]) :: T2)).filterMap Ev.visited
              = (d ++ [c]) :: (T1.filterMap Ev.visited ++ T2.filterMap Ev.visited) := by
            simp [List.filterMap_cons, Ev.visited]
          refine ⟨.enter (d ++ [c]) :: (T1 ++ .exit (d ++ [c]) :: T2), .dir hn hdir hks ht1 ht2, ?_, ?_⟩
          · intro p hp
            rw [hvis] at hp
            simp only [List.mem_cons, List.mem_append] at hp
            rcases hp with rfl | hp | hp
            · exact ⟨_, hP⟩
            · exact hp1 p hp
            · exact hp2 p hp
          · have hloop : pyIterate a bytes (depth + 1) it (slashed (d ++ [c])) = ((T1.filterMap Ev.visited).flatMap (toPrint m bytes), true) := by
              rw [← he1]
              have hle : it.start ≤ it.stop := by
                simp only [pyIterEntry, Option.some.injEq] at hit
                subst hit; simp [PyIter.new]
              exact pyFor_eq es' it _ hle (by omega) hans
            have ht : pyTurn bytes (pyIterate a bytes (depth + 1)) (slashed d) (.dir r x) =
                ([.entry (SEP :: joinPath (d ++ [c])), .children ks.length] ++ (T1.filterMap Ev.visited).flatMap (toPrint m bytes), true) := by
              simp only [pyTurn, hpath, hnb, hit, hj]
              rw [← slashed_join (by simp), hloop]
            simp only [pyTurns, ht, he2, hvis, List.flatMap_cons, List.flatMap_append, toPrint_eq hP, if_true, List.append_assoc]

/-- **C98 (reading).** The reading program of the README, run on an archive made by the creator (UTF-8 names, contents available), prints for every entry its path and the size
and first bytes of its content, its number of children or its target; in the order of `arx list`; and it ends without an exception. -/
theorem C98_read {rs : List AddReq} {a : Archive} {m : PathMap} (h : Written rs a) (hm : SpecRun PathMap.empty rs m)
    (hnames : ∀ p n, m p = some n → ∀ c ∈ p, validUtf8 c = true)
    {bytes : ContentAddr → GetBytes} (hbytes : ∀ p n s c, m p = some n → n.kind = .file s c → ∃ b, bytes c = .found b)
    {depth : Nat} (hd : a.entries.length < depth) :
    ∃ (V : List (List Bytes)) (f : List Bytes → List PyLine), Listing m [] V ∧ (∀ p ∈ V, Printed m bytes p (f p)) ∧ pyReadArchive a bytes depth = (V.flatMap f, true) ∧
      listCmd a none depth = (V.flatMap (fun p => joinPath p ++ [10]), true) := by
  obtain ⟨P, G⟩ := h.good' hm
  obtain ⟨V, hV, hlist⟩ := C11_list h hm depth hd
  obtain ⟨⟨ns, es, hk, hl, hans, hes⟩, _⟩ := C39_iteration h hm
  obtain ⟨depth, rfl⟩ : ∃ k, depth = k + 1 := ⟨depth - 1, by omega⟩
  obtain ⟨T, ht, hp, he⟩ := pyTurns_spec (bytes := bytes) h hm hnames hbytes depth [] (by
      intro p n hn
      obtain ⟨i, hi⟩ := List.mem_iff_getElem?.mp ((G.dom p).mpr ⟨n, hn⟩)
      have h1 := G.length_path_le p.length p i (Nat.le_refl _) hi
      have h2 := (List.getElem?_eq_some_iff.mp hi).1
      have h3 := G.len
      simp only [List.length_nil]
      omega) ns es hl (fun c hc => (hk.2 c).mp hc) (fun k c e hc he => ⟨(hes k c e hc he).1, (hes k c e hc he).2.1, (hes k c e hc he).2.2.1⟩)
  have hL := ht.listing (h.mapWF hm) hk
  obtain rfl := hV.unique hL
  refine ⟨_, toPrint m bytes, hL, fun p hp' => ?_, ?_, hlist⟩
  · obtain ⟨l, hl⟩ := hp p hp'
    rw [toPrint_eq hl]; exact hl
  · rw [← he]
    exact pyFor_eq es (pyIterRoot a) _ (by simp [pyIterRoot, PyIter.new]) (by omega) hans

theorem pyUp_spec {rs : List AddReq} {a : Archive} {m : PathMap} (h : Written rs a) (hm : SpecRun PathMap.empty rs m) :
    ∀ (q : List Bytes) (e : FullEntry), PyHas a q e →
      (∀ k, k < q.length → ∃ d, pyUp a k e = some (some d) ∧ PyHas a (q.take (q.length - k)) d) ∧ pyUp a q.length e = some none ∧ ∀ k, q.length < k → pyUp a k e = none := by
  intro q
  generalize hl : q.length = l
  induction l generalizing q with
  | zero =>
    intro e he
    obtain ⟨⟨n, hn, _⟩, _⟩ := C87_identity_partial h hm he
    rw [List.length_eq_zero_iff.mp hl, (h.mapWF hm).root] at hn; cases hn
  | succ l ih =>
    intro e he
    obtain ⟨_, _, h1, h2, _⟩ := C87_identity_partial h hm he
    have hne : q ≠ [] := by rintro rfl; simp at hl
    have hq : q = q.dropLast ++ [q.getLast hne] := (List.dropLast_concat_getLast hne).symm
    have hlen : q.dropLast.length = l := by simp [hl]
    by_cases hd : q.dropLast = []
    · have hp := h1 (q.getLast hne) (by rw [hd] at hq; exact hq)
      rw [hd] at hlen
      simp only [List.length_nil] at hlen
      subst hlen
      refine ⟨fun k hk => ?_, ?_, fun k hk => ?_⟩
      · obtain rfl : k = 0 := by omega
        exact ⟨e, rfl, by rw [List.take_of_length_le (by omega)]; exact he⟩
      · simp [pyUp, hp]
      · obtain ⟨k, rfl⟩ : ∃ j, k = j + 1 + 1 := ⟨k - 2, by omega⟩
        simp [pyUp, hp]
    · obtain ⟨d, hp, hhas⟩ := h2 _ _ hq hd
      obtain ⟨g1, g2, g5⟩ := ih _ hlen d hhas
      refine ⟨fun k hk => ?_, by simp only [pyUp, hp, g2], fun k hk => by
        obtain ⟨k, rfl⟩ : ∃ j, k = j + 1 := ⟨k - 1, by omega⟩
        simp only [pyUp, hp]
        exact g5 k (by omega)⟩
      cases k with
      | zero => exact ⟨e, rfl, by rw [List.take_of_length_le (by omega)]; exact he⟩
      | succ k =>
        obtain ⟨d', g3, g4⟩ := g1 k (by omega)
        refine ⟨d', by simp only [pyUp, hp, g3], ?_⟩
        have : (q.dropLast).take (l - k) = q.take (l + 1 - (k + 1)) := by
          rw [List.dropLast_eq_take, List.take_take, hl]
          congr 1
          omega
        rw [← this]; exact g4

/-- **C98 (names).** An entry got by its path has the last name of the path, its parent the name before that and so on; the entry at top level has no parent (and
asking that for its parent is an exception). -/
theorem C98_names {rs : List AddReq} {a : Archive} {m : PathMap} (h : Written rs a) (hm : SpecRun PathMap.empty rs m) {text : Bytes}
    (hrel : text.head? ≠ some SEP) (hu : ∀ c ∈ comps text, validUtf8 c = true) {n : Node} (hn : m (pyPathOf text) = some n) :
    ∃ e, pyGetEntry a text = .ok e ∧ EntryIs e n ∧
      (∀ k c, (pyPathOf text).reverse[k]? = some c → ∃ d, pyUp a k e = some (some d) ∧ pyPath d = .ok c) ∧
      pyUp a (pyPathOf text).length e = some none ∧ ∀ k, (pyPathOf text).length < k → pyUp a k e = none := by
  have hne : pyPathOf text ≠ [] := by intro e; rw [e, (h.mapWF hm).root] at hn; cases hn
  have := (C53_get_entry_partial h hm text).2.2 hrel hu hne
  rw [hn] at this
  obtain ⟨e, he, _, hE, _⟩ := this
  obtain ⟨g1, g2⟩ := pyUp_spec h hm _ e (.get text e he)
  refine ⟨e, he, hE, fun k c hk => ?_, g2⟩
  obtain ⟨hk1, hk2⟩ := List.getElem?_eq_some_iff.mp hk
  simp only [List.length_reverse] at hk1
  obtain ⟨d, h1, h2⟩ := g1 k hk1
  refine ⟨d, h1, ?_⟩
  have hlast := (C87_identity_partial h hm h2).2.1
  have hc : (pyCommon d).path = c := by
    rw [List.getLast?_take, if_neg (by omega)] at hlast
    rw [List.getElem_reverse] at hk2
    have hi : (pyPathOf text).length - 1 - k < (pyPathOf text).length := by omega
    have : (pyPathOf text).length - k - 1 = (pyPathOf text).length - 1 - k := by omega
    rw [this, List.getElem?_eq_getElem hi] at hlast
    simp at hlast
    rw [← hlast, hk2]
  have hcm : c ∈ comps text := by
    have := List.mem_of_getElem? hk
    exact (List.mem_filter.mp (List.mem_reverse.mp this)).1
  rw [pyPath, hc, if_pos (hu c hcm)]

/-- what an extraction made of a map that holds the source -/
theorem Held.same {s : Src} {bytes : ContentAddr → GetBytes} {q : List Bytes} {m : PathMap} {z : List Bytes} (hz : z ≠ []) (h : Held s bytes q (m z))
    {fs : FS} {base : List Bytes} (T : TreeAt fs base (m.sub []) bytes) : SameAt s q fs (base ++ z) := by
  have sub : ∀ n, m z = some n → m.sub [] z = some n := by
    intro n hn; simp only [PathMap.sub, if_neg hz]; exact hn
  unfold SameAt
  rcases h with h | ⟨t, n, h1, h2, h3⟩
  · unfold Archived at h
    cases hy : s.fs.nodes q with
    | none => rw [hy] at h; exact h.elim
    | some y =>
      rw [hy] at h
      cases y with
      | dir t => exact T.dirs z _ (sub _ h) rfl
      | link t u => exact T.links z _ t (sub _ h) rfl
      | file i =>
        simp only
        intro hsp
        simp only [hsp] at h
        obtain ⟨c, h, hc⟩ := h
        obtain ⟨j, h1, h2⟩ := T.files z _ _ c (sub _ h) rfl
        rw [hc] at h2
        injection h2 with h2
        exact ⟨j, h1, h2.symm⟩
  · rw [h1]
    refine T.dirs z n (sub n h2) ?_
    cases hk : n.kind with
    | dir => rfl
    | file a b => simp [Node.isDir, Kind.isDir, hk] at h3
    | link a => simp [Node.isDir, Kind.isDir, hk] at h3

/-- **C98 (the programs).** A program like the first of the README (any paths given to `add`) has ended without an exception. Then the second, run on its archive: the loop
prints all that was added; `get_entry` of each path that leads to a file gives an entry with the content of the file, whose name and whose parents' names are
those of the path; `extract` brings everything back. -/
theorem C98_programs {env : CEnv} {s : Src} (Q : Quiet env s) (W : s.WF) {adds : List PyAdd} (hF : ∀ x ∈ adds, x.Fair env s) (exc : Bool)
    (hok : ∀ r ∈ (PyCreator.new.run env (pyWith adds exc true)).1, r = .ok)
    (hargs : ∀ x ∈ adds, ∀ c ∈ comps x.path, c ≠ PARENT ∧ (0 : UInt8) ∉ c)
    (htargets : ∀ q t u, s.fs.nodes q = some (.link t u) → validUtf8 t = true)
    {a : Adder} (ha : (PyCreator.new.run env (pyWith adds exc true)).2.written = [a])
    {order : List Nat} (ho : IsLayout a.creator order) (hlen : a.creator.store.length < 2 ^ 32) {depth : Nat} (hd : a.creator.store.length < depth) :
    ∃ m, ReadmeShows s (fun u => ∃ x ∈ adds, x.Offers s env.cwd u)
      (fun text k i => k ≠ [] ∧ ∃ x ∈ adds, x.path = text ∧ ∃ q, InputAt s env.cwd [] text k q ∧ s.fs.nodes q = some (.file i) ∧ s.special i = false)
      (writeArchive a.creator order) (packBytes a.contents) depth m := by
  obtain ⟨l, rs, m, ht, h2, h3, h4, h5⟩ := addsOf_all_ok Q W hF exc hok ha
  have hplain : ∀ u, (∃ x ∈ adds, x.Offers s env.cwd u) → ∀ c ∈ u.1, PlainName c := by
    rintro _ ⟨x, hx, h0, k, q, p, i1, i2, _, rfl, _⟩ c hc
    rcases List.mem_append.mp hc with hk | hk
    · obtain ⟨j1, j2⟩ := i1.1.mem hk
      obtain ⟨j3, j4⟩ := hargs x hx c j1
      exact ⟨j2, j3, j4⟩
    · obtain ⟨y, hy⟩ := Option.ne_none_iff_exists'.mp i2
      exact (W.names _ y hy c (by simp [hk])).2
  have hnames : ∀ p n, m p = some n → ∀ c ∈ p, PlainName c := by
    intro p n hp c hc
    obtain ⟨u, hu, hpre, _⟩ := h5 p n hp
    exact hplain u hu c (hpre.subset hc)
  have hE := ht.extractable Q W h2 h3 hnames htargets
  have hw : Written rs (writeArchive a.creator order) := ⟨a.creator, order, h2, ho, rfl, hlen⟩
  have hlen' : (writeArchive a.creator order).entries.length < depth := by
    have : (writeArchive a.creator order).entries.length ≤ order.length := List.length_filterMap_le _ _
    have := ho.1.length_eq
    simp only [List.length_range] at this
    omega
  have hEs : Extractable (m.sub []) (packBytes a.contents) := by
    have hs : ∀ p n, m.sub [] p = some n → m p = some n := fun p n hp => by simpa using (PathMap.sub_some hp).2
    exact ⟨fun p n hp => hE.names p n (hs p n hp), fun p n hp => hE.utf8 p n (hs p n hp), fun p n t hp => hE.targets p n t (hs p n hp),
      fun p n s c hp => hE.content p n s c (hs p n hp)⟩
  refine ⟨m, h4, h5, ?_, ?_, ?_⟩
  · obtain ⟨V, f, g1, g2, g3, _⟩ := C98_read hw h3 hE.utf8 hE.content hlen'
    exact ⟨V, f, g1, g2, g3⟩
  · rintro text k i ⟨hk0, x, hx, rfl, q, hin, hq, hsp⟩
    have hA := ((C80_success_partial Q W hF exc).mp hok).1 x hx
    have hk : pyPathOf x.path = k := by have := hin.1; rw [StoredAs, show comps ([] : Bytes) = [] from rfl, List.nil_append] at this; exact this
    have hne : x.path ≠ [] := by
      intro e
      rw [e] at hk
      exact hk0 (by rw [← hk]; rfl)
    have hA := hA ⟨hne, q, hin.2.1⟩
    have hheld := h4 (k, q) ⟨x, hx, hne, k, q, [], hin, hin.2.2, .inl rfl, by simp, hk0⟩ (by rintro ⟨j, hj, hj'⟩; rw [hq] at hj; cases hj; rw [hsp] at hj'; cases hj')
    rcases hheld with hheld | ⟨_, _, e, _⟩
    · unfold Archived at hheld
      simp only [hq, hsp] at hheld
      obtain ⟨c, hm, hc⟩ := hheld
      obtain ⟨e, g1, g2, g3, g4, _⟩ := C98_names hw h3 hA.relative hA.utf8 (by rw [hk]; exact hm)
      rw [hk] at g3 g4
      refine ⟨e, g1, ?_, g3, g4⟩
      obtain ⟨_, _, _, f, rfl, _, hf⟩ := g2
      simp [pyContent, pyGetContent, hf, hc]
    · rw [hq] at e; cases e
  · intro env' cwd path before last w res hT hfault hns hnl hrun hfin
    obtain ⟨g1, g2⟩ := (C53_extract hw h3 (packBytes a.contents) env' cwd path before).2 hEs hT hfault hns depth last w res hlen' hnl hrun hfin
    refine ⟨g1, fun u hu => ?_, fun z x hz hx => ?_⟩
    · obtain ⟨x, hx, h0, k, q, p, i1, i2, i3, e, hne⟩ := hu
      by_cases hsp : s.Special u.2
      · obtain ⟨i, hi, hi'⟩ := hsp
        unfold SameAt
        rw [hi]
        simp [hi']
      · exact (h4 u ⟨x, hx, h0, k, q, p, i1, i2, i3, e, hne⟩ hsp).same hne g2
    · cases hm : m z with
      | none =>
        rw [g2.nothing z hz (by simp [PathMap.sub, hz, hm])] at hx; cases hx
      | some n => exact h5 z n hm

/-! ### Examples: `c.add("d/f"); c.add("d/s")` -/

def rdAdds : List PyAdd := [pyAdd "d/f" true, pyAdd "d/s" true]
def rdAdder : Adder := (PyCreator.new.run exEnv (pyWith rdAdds false true)).2.written.headD Adder.new
def rdArchive : Archive := writeArchive rdAdder.creator [0, 1, 2, 3]

theorem rdAdds_fair : ∀ x ∈ rdAdds, x.Fair exEnv exSrc := by
  intro x hx
  simp only [rdAdds, List.mem_cons, List.not_mem_nil, or_false] at hx
  rcases hx with rfl | rfl <;> exact pyAdd_fair (by decide +kernel)

theorem rdAdds_written : (PyCreator.new.run exEnv (pyWith rdAdds false true)).2.written = [rdAdder] := by
  have h : PyRes.panic ∉ (addsOf exEnv Adder.new false (addCalls rdAdds)).1 := by decide +kernel
  rw [rdAdder, pyWith_run]
  simp only [addsOf_kept h, Bool.false_eq_true, if_false, List.headD_cons]

/-- the hypotheses of `C98_programs` are met -/
example : ∃ m, ReadmeShows exSrc (fun u => ∃ x ∈ rdAdds, x.Offers exSrc [] u)
    (fun text k i => k ≠ [] ∧ ∃ x ∈ rdAdds, x.path = text ∧ ∃ q, InputAt exSrc [] [] text k q ∧ exSrc.fs.nodes q = some (.file i) ∧ exSrc.special i = false)
    rdArchive (packBytes rdAdder.contents) 5 m := by
  refine C98_programs exEnv_quiet exSrc_wf rdAdds_fair false (by decide +kernel) ?_ ?_ rdAdds_written ⟨by decide +kernel, by decide +kernel⟩
    (by decide +kernel) (by decide +kernel)
  · have : ∀ p ∈ rdAdds.map (·.path), ∀ c ∈ comps p, c ≠ PARENT ∧ (0 : UInt8) ∉ c := by decide +kernel
    exact fun x hx => this _ (List.mem_map_of_mem hx)
  · intro q t u h
    have := exSrc_nodes h
    simp only [List.mem_cons, Prod.mk.injEq, List.not_mem_nil, or_false] at this
    rcases this with ⟨_, e⟩ | ⟨_, e⟩ | ⟨_, e⟩ | ⟨_, e⟩ | ⟨_, e⟩ | ⟨_, e⟩ <;> cases e
    decide

/-- `d/f` leads to a regular file -/
example : ∃ i, (ascii "d/f" = ascii "d/f" ∧ InputAt exSrc [] [] (ascii "d/f") [ascii "d", ascii "f"] [ascii "d", ascii "f"]) ∧
    exSrc.fs.nodes [ascii "d", ascii "f"] = some (.file i) ∧ exSrc.special i = false := by
  refine ⟨0, ⟨rfl, ?_, ?_, ?_⟩, ?_, ?_⟩ <;> (try unfold StoredAs) <;> (try unfold Src.Has) <;> decide +kernel

/-- what is printed -/
example : pyReadArchive rdArchive (packBytes rdAdder.contents) 5 =
    ([.entry (ascii "/d"), .children 2, .entry (ascii "/d/f"), .content 2 (ascii "hi"), .entry (ascii "/d/s"), .children 1,
      .entry (ascii "/d/s/l"), .link (ascii "../f")], true) := by decide +kernel

/-- the hypotheses of `C98_read` and `C98_names` are met -/
example : ∃ (V : List (List Bytes)) (f : List Bytes → List PyLine), Listing exMap [] V ∧ (∀ p ∈ V, Printed exMap exBytes p (f p)) ∧
    pyReadArchive exArchive exBytes 9 = (V.flatMap f, true) := by
  obtain ⟨V, f, h1, h2, h3, _⟩ := C98_read exWritten exMap_spec (bytes := exBytes) (depth := 9) (fun p n hn c hc => by
      have := exMap_paths hn
      have h : ∀ p ∈ [[ascii "a"], [ascii "b"], [ascii "a", ascii "l"], [ascii "b", ascii "x"]], ∀ c ∈ p, validUtf8 c = true := by decide +kernel
      exact h p this c hc)
    (fun p n s c hn hk => by
      have hp : p ≠ [] := by rintro rfl; rw [(exWritten.mapWF exMap_spec).root] at hn; cases hn
      exact exExtractable.content p n s c (by simp [PathMap.sub, hp, hn]) hk)
    (by decide +kernel)
  exact ⟨V, f, h1, h2, h3⟩

end Arx
