import Verif.Props.CreateOk
import Verif.Proof.AddPanic
/-!
# C78: when `arx create` crashes
-/
namespace Arx

/-! ## In any environment -/

/-- The creator was reached by adding. -/
def Adder.Legit (a : Adder) : Prop := ∃ rs, Creator.new.run rs = some a.creator

theorem newFromPath_path {env : CEnv} {t : Nat} {cs cs' : List Bytes} {path : List Bytes} {arx : RPath} {follow : Bool} {r : AddReq}
    (h : newFromPath env t cs path arx follow = .ok (r, cs')) : r.path = arx := by
  unfold newFromPath at h
  split at h
  · cases h
  · simp only at h
    split at h
    · cases h; rfl
    · split at h
      · cases h
      · cases h; rfl
    · split at h
      · cases h
      · cases h; rfl
    · cases h; rfl

/-- A path with a usable name never makes the adding crash, whatever the environment does. -/
theorem Adder.Legit.step {env : CEnv} {pre : RPath} {a : Adder} {path : Bytes} {follow : Bool} (ha : a.Legit)
    (hp : ((comps path).filter (· ≠ CUR)).getLast? ≠ some PARENT) :
    (a.addEntryFromPath env pre path follow).2 ≠ .panic ∧
      ((a.addEntryFromPath env pre path follow).2 = .ok → (a.addEntryFromPath env pre path follow).1.Legit) := by
  rw [Adder.addEntryFromPath, fromPathBuf_eq]
  by_cases h1 : path.head? = some SEP
  · rw [if_pos h1]; exact ⟨by simp, fun h => by cases h⟩
  · rw [if_neg h1]
    by_cases h2 : ∀ c ∈ comps path, validUtf8 c = true
    · rw [if_pos h2]
      simp only
      have hv : ∀ c ∈ (comps path).filter (· ≠ CUR), ValidName c := fun c hc => filterCur_valid hc
      rw [RPath.stripPrefix, stripLoop_joinPath _ _ hv (fun c hc => comps_valid hc)]
      by_cases h3 : comps pre <+: (comps path).filter (· ≠ CUR)
      · obtain ⟨k, hk⟩ := h3
        rw [if_pos ⟨k, hk⟩]
        have hkk : ((comps path).filter (· ≠ CUR)).drop (comps pre).length = k := by rw [← hk]; simp
        rw [hkk]
        simp only
        have hkv : ∀ c ∈ k, ValidName c := fun c hc => hv c (by rw [← hk]; simp [hc])
        have hkc : ∀ c ∈ k, c ≠ CUR := fun c hc => by
          have : c ∈ (comps path).filter (· ≠ CUR) := by rw [← hk]; simp [hc]
          simpa using (List.mem_filter.mp this).2
        by_cases h4 : joinPath k = []
        · rw [if_pos h4]; exact ⟨by simp, fun _ => ha⟩
        · rw [if_neg h4]
          cases hn : newFromPath env a.tick a.contents (namesOf env.cwd path) (joinPath k) follow with
          | error e => exact ⟨by simp, fun h => by cases h⟩
          | ok rc =>
            obtain ⟨r, cs'⟩ := rc
            simp only
            have hep : entryPath r.path = k := by rw [newFromPath_path hn, entryPath_joinPath hkv hkc]
            have hne : k ≠ [] := fun e => h4 (by rw [e]; rfl)
            obtain ⟨rs, hrs⟩ := ha
            have hnp := C49_add_no_panic_partial hrs r (by rw [hep]; exact hne) (by
              rw [hep]; intro e
              apply hp
              rw [← hk, List.getLast?_append, e]; rfl)
            cases hadd : a.creator.addEntry r with
            | mk c o =>
              rw [hadd] at hnp
              cases o with
              | panic => exact absurd rfl hnp
              | err e => exact ⟨by simp, fun h => by cases h⟩
              | ok =>
                refine ⟨by simp, fun _ => ⟨rs ++ [r], ?_⟩⟩
                have app : ∀ (l l' : List AddReq) (st : Creator), st.run (l ++ l') = (st.run l).bind (fun st => st.run l') := by
                  intro l l'
                  induction l with
                  | nil => intro st; rfl
                  | cons y l ih =>
                    intro st
                    simp only [List.cons_append, Creator.run]
                    cases st.addEntry y with
                    | mk c o => cases o <;> simp [ih]
                rw [app, hrs]
                simp [Creator.run, hadd]
      · rw [if_neg h3]; exact ⟨by simp, fun h => by cases h⟩
    · rw [if_neg h2]; exact ⟨by simp, fun h => by cases h⟩

theorem Adder.Legit.all {env : CEnv} {pre : RPath} : ∀ (L : List (Bytes × Bool)) {a : Adder}, a.Legit →
    (∀ x ∈ L, ((comps x.1).filter (· ≠ CUR)).getLast? ≠ some PARENT) →
    (a.addAll env pre L).2 ≠ .panic ∧ ((a.addAll env pre L).2 = .ok → (a.addAll env pre L).1.Legit) := by
  intro L
  induction L with
  | nil => intro a ha _; exact ⟨by simp [Adder.addAll], fun _ => ha⟩
  | cons x L ih =>
    intro a ha hL
    obtain ⟨h1, h2⟩ := ha.step (env := env) (pre := pre) (follow := x.2) (hL x (by simp))
    rw [Adder.addAll]
    cases hx : a.addEntryFromPath env pre x.1 x.2 with
    | mk a1 o =>
      rw [hx] at h1 h2
      cases o with
      | ok => exact ih (h2 rfl) (fun y hy => hL y (by simp [hy]))
      | panic => exact absurd rfl h1
      | path e => exact ⟨by simp, fun h => by cases h⟩
      | notInPrefix => exact ⟨by simp, fun h => by cases h⟩
      | host e => exact ⟨by simp, fun h => by cases h⟩
      | add e => exact ⟨by simp, fun h => by cases h⟩

theorem Adder.new_legit : Adder.new.Legit := ⟨[], rfl⟩

theorem mem_goodPrefix {items : List (Except Unit Bytes)} {p : Bytes} (h : p ∈ goodPrefix items) : Except.ok p ∈ items := by
  induction items with
  | nil => cases h
  | cons x r ih =>
    cases x with
    | error u => cases h
    | ok y =>
      simp only [goodPrefix, List.mem_cons] at h
      rcases h with rfl | h
      · simp
      · simp [ih h]

/-- `readdir` yields names. -/
def ListsNames (ls : ReadDir) : Prop := ∀ d n, Except.ok n ∈ ls d → ValidName n ∧ PlainName n

theorem walkBelow_last {s : Src} {ls : ReadDir} (hls : ListsNames ls) : ∀ (f : Nat) (text : Bytes) (d : List Bytes) (p : Bytes),
    Except.ok p ∈ walkBelow s ls f text d → ((comps p).filter (· ≠ CUR)).getLast? ≠ some PARENT := by
  intro f
  induction f with
  | zero => intro text d p h; cases h
  | succ f ih =>
    intro text d p h
    simp only [walkBelow, List.mem_flatMap] at h
    obtain ⟨x, hx, h⟩ := h
    cases x with
    | error u => simp at h
    | ok n =>
      obtain ⟨h1, h2⟩ := hls d n hx
      simp only [List.mem_cons, Except.ok.injEq] at h
      rcases h with rfl | h
      · rw [joinChild_comps h1, List.filter_append, List.getLast?_append]
        have : [n].filter (· ≠ CUR) = [n] := by simp [h2.1]
        rw [this]
        simpa using h2.2.1
      · split at h
        · exact ih _ _ _ h
        · cases h

theorem walkItems_last {s : Src} {ls : ReadDir} (hls : ListsNames ls) {cwd : List Bytes} {depth : Nat} {root p : Bytes} {rc : Bool}
    (h : Except.ok p ∈ walkItems cwd s ls depth root rc) : p = root ∨ ((comps p).filter (· ≠ CUR)).getLast? ≠ some PARENT := by
  unfold walkItems at h
  repeat' split at h
  all_goals simp only [List.mem_cons, List.not_mem_nil, or_false, Except.ok.injEq, reduceCtorEq] at h
  all_goals first
    | exact Or.inl h
    | exact h.elim Or.inl (fun h => Or.inr (walkBelow_last hls _ _ _ _ h))

theorem addInputs_no_panic {sys : CreateSys} {cwd : List Bytes} {pre : RPath} {rc : Bool} (hls : ∀ i, ListsNames (sys.walks i).ls) :
    ∀ (roots : List Bytes) (i : Nat) {a : Adder}, a.Legit →
      (∀ f ∈ roots, ((comps f).filter (· ≠ CUR)).getLast? ≠ some PARENT) →
      (∀ i, ∀ f ∈ roots, ∀ a : Adder, (Chan.run (sys.cenv cwd) pre f
        (Chan.start a (walkItems cwd (sys.walks i).src (sys.walks i).ls (sys.walks i).depth f rc)) (sys.walks i).sched).result ≠ none) →
      (addInputs sys cwd pre rc a i roots).2.2 ≠ .panic := by
  intro roots
  induction roots with
  | nil => intro i a _ _ _; simp [addInputs]
  | cons f fs ih =>
    intro i a ha hr hret
    have hfrom : addFromPath (sys.cenv cwd) pre a f rc (sys.walks i) = a.addSeq (sys.cenv cwd) pre f
        (goodPrefix (walkItems cwd (sys.walks i).src (sys.walks i).ls (sys.walks i).depth f rc)) := by
      obtain ⟨e, he⟩ := Option.ne_none_iff_exists'.mp (hret i f (by simp) a)
      rw [Chan.run_result he]
      simp only [addFromPath]
      have : (sys.cenv cwd).cwd = cwd := rfl
      rw [this, he]; rfl
    have hall := Adder.Legit.all (env := sys.cenv cwd) (pre := pre)
      ((goodPrefix (walkItems cwd (sys.walks i).src (sys.walks i).ls (sys.walks i).depth f rc)).map
        (fun p => (p, decide (stdComps p = stdComps f)))) ha (by
        intro x hx
        obtain ⟨p, hp, rfl⟩ := List.mem_map.mp hx
        rcases walkItems_last (hls i) (mem_goodPrefix hp) with e | e
        · simp only [e]; exact hr f (by simp)
        · exact e)
    rw [← Adder.addSeq, ← hfrom] at hall
    rw [addInputs]
    cases hx : addFromPath (sys.cenv cwd) pre a f rc (sys.walks i) with
    | mk a1 o =>
      rw [hx] at hall
      cases o with
      | ok => exact ih (i + 1) (hall.2 rfl) (fun g hg => hr g (by simp [hg])) (fun i g hg => hret i g (by simp [hg]))
      | panic => exact absurd rfl hall.1
      | path e => simp
      | notInPrefix => simp
      | host e => simp
      | add e => simp

/-- The command crashes exactly if the output is the root, or the adding crashes. -/
theorem CreateOpts.run_panic {o : CreateOpts} {sys : CreateSys} (hacc : o.Accepted) (hl : o.listCompressions = false) :
    (o.run sys).2 = .panic ↔ OutputIsRoot o sys ∨ (OutputFree o sys ∧ o.fileList ≠ some [] ∧ sys.openOk = true ∧
      ∃ cwd, StartsIn o sys cwd ∧ (o.addAll sys cwd).2.2 = .panic) := by
  unfold CreateOpts.run
  rw [hl]
  simp only [Bool.false_eq_true, if_false]
  cases ho : o.outfile with
  | none => exact absurd (hacc.2.2 ho) (by simp [hl])
  | some out =>
    simp only
    rw [← checkOutput_ok ho]
    have hroot : OutputIsRoot o sys ↔ absNames sys.cwd out = [] := by
      unfold OutputIsRoot; rw [ho]; simp
    have hcp : checkOutput sys out o.force = .panic ↔ absNames sys.cwd out = [] := by
      unfold checkOutput
      constructor
      · intro h; split at h
        · assumption
        · split at h
          · cases h
          · split at h <;> cases h
      · intro h; rw [if_pos h]
    rw [hroot, ← hcp]
    cases hc : checkOutput sys out o.force with
    | panic => simp
    | err => simp
    | ok =>
      simp only [true_and, reduceCtorEq, false_or]
      by_cases hf : o.fileList = some []
      · simp [hf]
      · rw [if_neg hf]
        cases hch : sys.chdir o.baseDir with
        | none =>
          simp only [reduceCtorEq, false_iff]
          rintro ⟨_, _, cwd, e, _⟩
          rw [StartsIn.iff, hch] at e; cases e
        | some cwd =>
          have hcw : ∀ cwd', StartsIn o sys cwd' ↔ cwd' = cwd := by
            intro cwd'; rw [StartsIn.iff, hch]; simp [eq_comm]
          simp only [hcw, exists_eq_left]
          cases hop : sys.openOk with
          | false => simp
          | true =>
            simp only [Bool.not_true, Bool.false_eq_true, if_false, true_and]
            cases hAA : o.addAll sys cwd with
            | mk evs ar =>
              obtain ⟨a, r⟩ := ar
              cases r with
              | ok => simp; split <;> simp
              | err => simp [hf]
              | panic => simp [hf]

theorem AOut.toCmd_panic (x : AOut) : x.toCmd = .panic ↔ x = .panic := by cases x <;> simp [AOut.toCmd]

/-- **C78, partial.** Whatever happens to the source meanwhile and whichever calls fail: if the output is not the root directory
and no input or line of the list ends in `..`, `arx create` does not crash. (`hret`: the threads run until `add_from_path`
returns. Missing: those two cases, where it does crash, see below.) -/
theorem C78_no_crash_partial {o : CreateOpts} {sys : CreateSys} (hacc : o.Accepted) (hout : ¬ OutputIsRoot o sys)
    (hin : ∀ f ∈ o.infiles, ((comps f).filter (· ≠ CUR)).getLast? ≠ some PARENT)
    (hlist : ∀ l text lines, o.fileList = some l → sys.text (absFile sys.cwd l) = some text → TextOf lines text →
      ∀ x ∈ lines, ((comps x).filter (· ≠ CUR)).getLast? ≠ some PARENT)
    (hls : ∀ i, ListsNames (sys.walks i).ls)
    (hret : ∀ cwd, StartsIn o sys cwd → ∀ i, Returns o sys (sys.walks i).src cwd) :
    (o.run sys).2 ≠ .panic := by
  by_cases hl : o.listCompressions = true
  · unfold CreateOpts.run; rw [if_pos hl]; simp
  · have hl : o.listCompressions = false := by simpa using hl
    rw [ne_eq, CreateOpts.run_panic hacc hl]
    rintro (h | ⟨_, _, _, cwd, hcwd, h⟩)
    · exact hout h
    · unfold CreateOpts.addAll at h
      cases hfl : o.fileList with
      | none =>
        rw [hfl] at h
        simp only at h
        split at h
        · cases h
        · split at h
          · cases h
          · exact addInputs_no_panic (pre := o.stripPrefix.getD []) (rc := o.recursion) hls o.infiles 0 Adder.new_legit hin
              (fun i f hf a => hret cwd hcwd i i f hf a) ((AOut.toCmd_panic _).mp h)
      | some l =>
        rw [hfl] at h
        simp only at h
        cases ht : sys.text (absFile sys.cwd l) with
        | none => rw [ht] at h; simp [readLines] at h
        | some text =>
          rw [ht] at h
          obtain ⟨ls, hls'⟩ := TextOf.exists text
          simp only [readLines, hls'.lines] at h
          split at h
          · cases h
          · rename_i lines hlines
            split at hlines
            · cases hlines
              refine (Adder.Legit.all (env := sys.cenv cwd) (pre := o.stripPrefix.getD []) (ls.map (fun p => (p, o.followSymlink)))
                Adder.new_legit ?_).1 ((AOut.toCmd_panic _).mp h)
              intro x hx
              obtain ⟨p, hp, rfl⟩ := List.mem_map.mp hx
              exact hlist l text ls hfl ht hls' p hp
            · cases hlines

/-! ## On a source that does not change: exactly when -/

/-- Where a path of the walks comes from. -/
theorem WalkedEach.split {s : Src} {cwd : List Bytes} {roots : List (Bytes × Bool)} {L : List (Bytes × Bool)}
    (h : WalkedEach s cwd roots L) : ∀ (done rest : List (Bytes × Bool)) (x : Bytes × Bool), L = done ++ x :: rest →
      ∃ d f r Ld own q p, roots = d ++ f :: r ∧ WalkedEach s cwd d Ld ∧ done = Ld ++ own ∧ f.1 ≠ [] ∧
        s.fs.resolve true (namesOf cwd f.1) = .ok (.found q) ∧ s.Has q p ∧ x = (p.foldl joinChild f.1, decide (p = [])) ∧
        (p = [] → own = []) := by
  induction h with
  | nil => intro done rest x e; simp at e
  | @cons root rc roots L q order hne hq hhead hnd hord hL ih =>
    intro done rest x e
    have deeper : ∀ as, done = order.map (fun p => (p.foldl joinChild root, decide (p = []))) ++ as → L = as ++ x :: rest →
        ∃ d f r Ld own q p, (root, rc) :: roots = d ++ f :: r ∧ WalkedEach s cwd d Ld ∧ done = Ld ++ own ∧ f.1 ≠ [] ∧
        s.fs.resolve true (namesOf cwd f.1) = .ok (.found q) ∧ s.Has q p ∧ x = (p.foldl joinChild f.1, decide (p = [])) ∧
        (p = [] → own = []) := by
      intro as e1 e2
      obtain ⟨d, f, r, Ld, own, q', p, g1, g2, g3, g4⟩ := ih as rest x e2
      exact ⟨(root, rc) :: d, f, r, _, own, q', p, by rw [g1]; rfl, .cons hne hq hhead hnd hord g2, by rw [e1, g3, List.append_assoc], g4⟩
    rcases List.append_eq_append_iff.mp e with ⟨as, e1, e2⟩ | ⟨cs, e1, e2⟩
    · exact deeper as e1 e2
    · cases cs with
      | nil => exact deeper [] (by simpa using e1.symm) (by simpa using e2.symm)
      | cons c cs =>
        simp only [List.cons_append, List.cons.injEq] at e2
        obtain ⟨rfl, _⟩ := e2
        obtain ⟨o1, o2, rfl, e3, e4⟩ := List.map_eq_append_iff.mp e1
        cases o2 with
        | nil => simp at e4
        | cons p o2 =>
          simp only [List.map_cons, List.cons.injEq] at e4
          refine ⟨[], (root, rc), roots, [], done, q, p, rfl, .nil, rfl, hne, hq, ((hord p).mp (by simp)).1, e4.1.symm, ?_⟩
          rintro rfl
          cases o1 with
          | nil => simpa using e3.symm
          | cons y o1 =>
            simp only [List.cons_append, List.head?_cons, Option.some.injEq] at hhead
            subst hhead
            simp only [List.cons_append] at hnd
            exact absurd List.prefix_rfl ((List.pairwise_cons.mp hnd).1 [] (by simp))

theorem WalkedEach.append {s : Src} {cwd : List Bytes} : ∀ (d : List (Bytes × Bool)) {f : Bytes × Bool} {r : List (Bytes × Bool)} {L : List (Bytes × Bool)},
    WalkedEach s cwd (d ++ f :: r) L → ∃ Ld rest, WalkedEach s cwd d Ld ∧ L = Ld ++ (f.1, true) :: rest := by
  intro d
  induction d with
  | nil =>
    intro f r L h
    cases h with
    | @cons _ _ _ L' q order hne hq hhead hnd hord hL =>
      cases order with
      | nil => cases hhead
      | cons y order =>
        simp only [List.head?_cons, Option.some.injEq] at hhead
        subst hhead
        exact ⟨[], _, .nil, rfl⟩
  | cons g d ih =>
    intro f r L h
    cases h with
    | @cons _ _ _ L' q order hne hq hhead hnd hord hL =>
      obtain ⟨Ld, rest, h1, rfl⟩ := ih hL
      exact ⟨_, rest, .cons hne hq hhead hnd hord h1, by rw [List.append_assoc]⟩

/-- The walks of the inputs crash exactly if some input is nameless, not below a file or link of an input before, and
everything before can be added. -/
theorem WalkedEach.panics_iff {s : Src} {env : CEnv} (Q : Quiet env s) (W : s.WF) {pre : RPath} {roots : List (Bytes × Bool)} {L : List (Bytes × Bool)}
    (h : WalkedEach s env.cwd roots L) :
    (Adder.new.addAll env pre L).2 = .panic ↔ ∃ d f r k, roots = d ++ f :: r ∧ (∀ g ∈ d, ArchivableTree s env.cwd pre g.2 g.1) ∧
      d.Pairwise (fun f g => ∀ u v, OffersTree s env.cwd pre f.2 f.1 u → OffersTree s env.cwd pre g.2 g.1 v → ¬ Clash s u v ∧ ¬ Clash s v u) ∧
      NamelessInput s env.cwd pre f.1 k ∧ ∀ g ∈ d, ∀ v, OffersTree s env.cwd pre g.2 g.1 v → s.Leaf v.2 → v.1 <+: k → v.1 = k := by
  rw [Adder.addAll_panics_iff Q W L]
  constructor
  · rintro ⟨done, x, rest, u, hL, h1, h2, h3, h4⟩
    obtain ⟨d, f, r, Ld, own, q, p, g1, g2, g3, g4, g5, g6, g7, g8⟩ := h.split done rest x hL
    obtain ⟨v1, v2⟩ := W.below_names g6
    have hcomps : comps x.1 = comps f.1 ++ p := by rw [g7]; exact text_comps p f.1 v1
    have hp : p = [] := by
      rcases nil_or_snoc p with e | ⟨p', c, e⟩
      · exact e
      · exfalso
        have hst := h3.offers.1
        unfold StoredAs at hst
        have hpc : [c].filter (· ≠ CUR) = [c] := by simp [(v2 c (by rw [e]; simp)).1]
        have h5 : ((comps x.1).filter (· ≠ CUR)).getLast? = some c := by
          rw [hcomps, e, ← List.append_assoc, List.filter_append, List.getLast?_append, hpc]; rfl
        rw [hst, List.getLast?_append, h3.nameless] at h5
        simp only [Option.some_or, Option.some.injEq] at h5
        exact (v2 c (by rw [e]; simp)).2.1 h5.symm
    subst hp
    have := g8 rfl; subst this
    simp only [List.append_nil] at g3
    subst g3
    obtain ⟨⟨k1, k2⟩, k3⟩ := g2.iff (pre := pre) W
    simp only [List.foldl_nil, decide_true] at g7
    subst g7
    refine ⟨d, f, r, u.1, g1, k1.mp h1, (k2 h1).mp h2, ⟨h3.relative, h3.utf8, h3.offers.1, ⟨u.2, h3.offers.2.2, h3.archived⟩, h3.nameless⟩, ?_⟩
    intro g hg v hv hlf hpre
    obtain ⟨y, hy, hyv⟩ := (k3 h1 v).mpr ⟨g, hg, hv⟩
    exact h4 y hy v hyv hlf hpre
  · rintro ⟨d, f, r, k, rfl, h1, h2, h3, h4⟩
    obtain ⟨Ld, rest, hd, rfl⟩ := WalkedEach.append d h
    obtain ⟨⟨k1, k2⟩, k3⟩ := hd.iff (pre := pre) W
    have a1 := k1.mpr h1
    obtain ⟨q, hq, hsp⟩ := h3.archived
    refine ⟨Ld, (f.1, true), rest, (k, q), rfl, a1, (k2 a1).mpr h2, ⟨h3.relative, h3.utf8, ⟨h3.stored, ?_, hq⟩, hsp, h3.nameless⟩, ?_⟩
    · rintro e
      have := h3.nameless
      simp only at e
      rw [e] at this; cases this
    · intro y hy v hyv hlf hpre
      obtain ⟨g, hg, hv⟩ := (k3 a1 v).mp ⟨y, hy, hyv⟩
      exact h4 g hg v hv hlf hpre

theorem WalkedAs.panics_iff {s : Src} {env : CEnv} (Q : Quiet env s) (W : s.WF) {pre : RPath} {rc : Bool} {roots : List Bytes} {L : List (Bytes × Bool)}
    (h : WalkedAs s env.cwd rc roots L) :
    (Adder.new.addAll env pre L).2 = .panic ↔ ∃ d f r k, roots = d ++ f :: r ∧ (∀ g ∈ d, ArchivableTree s env.cwd pre rc g) ∧
      d.Pairwise (fun f g => ∀ u v, OffersTree s env.cwd pre rc f u → OffersTree s env.cwd pre rc g v → ¬ Clash s u v ∧ ¬ Clash s v u) ∧
      NamelessInput s env.cwd pre f k ∧ ∀ g ∈ d, ∀ v, OffersTree s env.cwd pre rc g v → s.Leaf v.2 → v.1 <+: k → v.1 = k := by
  rw [WalkedEach.panics_iff Q W h]
  constructor
  · rintro ⟨d, f, r, k, e, h1, h2, h3, h4⟩
    obtain ⟨d', r', rfl, rfl, e'⟩ := List.map_eq_append_iff.mp e
    cases r' with
    | nil => cases e'
    | cons g r' =>
      simp only [List.map_cons, List.cons.injEq] at e'
      obtain ⟨rfl, rfl⟩ := e'
      rw [List.pairwise_map] at h2
      exact ⟨d', g, r', k, rfl, fun x hx => h1 _ (List.mem_map_of_mem hx), h2, h3, fun x hx => h4 _ (List.mem_map_of_mem hx)⟩
  · rintro ⟨d, f, r, k, rfl, h1, h2, h3, h4⟩
    refine ⟨d.map (fun f => (f, rc)), (f, rc), r.map (fun f => (f, rc)), k, by simp, ?_, List.pairwise_map.mpr h2, h3, ?_⟩
    · intro _ hx
      obtain ⟨g, hg, rfl⟩ := List.mem_map.mp hx
      exact h1 g hg
    · intro _ hx
      obtain ⟨g, hg, rfl⟩ := List.mem_map.mp hx
      exact h4 g hg

/-- **C78, input files, exactly.** `arx create` with input files crashes exactly if the output is the root directory, or all
checks succeed and it comes to an input that would be stored under a path ending in `..` (it is relative, UTF-8, not a special
file, and not below a file or link stored before), everything before being fine. -/
theorem C78_inputs_iff {o : CreateOpts} {sys : CreateSys} {s : Src} (hacc : o.Accepted) (hl : o.listCompressions = false) (hfl : o.fileList = none)
    (Q : ∀ cwd, Quiet (sys.cenv cwd) s) (W : s.WF) (hcheck : sys.atCheck = s)
    (hw : ∀ i, (sys.walks i).src = s ∧ FullListing s (sys.walks i).ls ∧ ∀ q, s.fs.nodes q ≠ none → q.length ≤ (sys.walks i).depth)
    (hret : ∀ cwd, StartsIn o sys cwd → Returns o sys s cwd) :
    (o.run sys).2 = .panic ↔ OutputIsRoot o sys ∨ (OutputFree o sys ∧ sys.openOk = true ∧ ∃ cwd, StartsIn o sys cwd ∧
      (∀ f ∈ o.infiles, f.head? ≠ some SEP ∧ f ≠ [] ∧ Present s (namesOf cwd f)) ∧
      ∃ done f rest k, o.infiles = done ++ f :: rest ∧ (∀ g ∈ done, ArchivableTree s cwd (o.stripPrefix.getD []) o.recursion g) ∧
        done.Pairwise (fun f g => ∀ u v, OffersTree s cwd (o.stripPrefix.getD []) o.recursion f u →
          OffersTree s cwd (o.stripPrefix.getD []) o.recursion g v → ¬ Clash s u v ∧ ¬ Clash s v u) ∧
        NamelessInput s cwd (o.stripPrefix.getD []) f k ∧
        ∀ g ∈ done, ∀ v, OffersTree s cwd (o.stripPrefix.getD []) o.recursion g v → s.Leaf v.2 → v.1 <+: k → v.1 = k) := by
  rw [CreateOpts.run_panic hacc hl, hfl]
  simp only [ne_eq, reduceCtorEq, not_false_eq_true, true_and]
  refine or_congr Iff.rfl (and_congr_right fun _ => and_congr_right fun _ => exists_congr fun cwd => and_congr_right fun hcwd => ?_)
  have hadd : (∀ f ∈ o.infiles, f ≠ [] ∧ Present s (namesOf cwd f)) →
      ((addInputs sys cwd (o.stripPrefix.getD []) o.recursion Adder.new 0 o.infiles).2.2.toCmd = .panic ↔
      ∃ done f rest k, o.infiles = done ++ f :: rest ∧ (∀ g ∈ done, ArchivableTree s cwd (o.stripPrefix.getD []) o.recursion g) ∧
        done.Pairwise (fun f g => ∀ u v, OffersTree s cwd (o.stripPrefix.getD []) o.recursion f u →
          OffersTree s cwd (o.stripPrefix.getD []) o.recursion g v → ¬ Clash s u v ∧ ¬ Clash s v u) ∧
        NamelessInput s cwd (o.stripPrefix.getD []) f k ∧
        ∀ g ∈ done, ∀ v, OffersTree s cwd (o.stripPrefix.getD []) o.recursion g v → s.Leaf v.2 → v.1 <+: k → v.1 = k) := by
    intro hp
    obtain ⟨L, hL, hrun⟩ := addInputs_walked (pre := o.stripPrefix.getD []) (rc := o.recursion) W hw o.infiles 0 hp (hret cwd hcwd)
    rw [AOut.toCmd_panic, hrun]
    exact WalkedAs.panics_iff (Q cwd) W hL
  unfold CreateOpts.addAll
  rw [hfl]
  simp only
  by_cases habs : o.infiles.any (fun f => decide (f.head? = some SEP)) = true
  · rw [if_pos habs]
    simp only [reduceCtorEq, false_iff]
    rintro ⟨h, _⟩
    obtain ⟨f, hf, e⟩ := List.any_eq_true.mp habs
    exact (h f hf).1 (by simpa using e)
  · rw [if_neg habs]
    have hrel : ∀ f ∈ o.infiles, f.head? ≠ some SEP := fun f hf e => habs (List.any_eq_true.mpr ⟨f, hf, by simpa using e⟩)
    have hci : checkInputs sys cwd o.infiles = true ↔ ∀ f ∈ o.infiles, f ≠ [] ∧ Present s (namesOf cwd f) := by
      unfold checkInputs
      rw [List.all_eq_true]
      refine forall_congr' fun f => forall_congr' fun hf => ?_
      rw [Bool.and_eq_true, decide_eq_true_eq, hcheck, Src.exists_iff]
    by_cases hc : checkInputs sys cwd o.infiles = true
    · rw [if_neg (by simp [hc])]
      have hp := hci.mp hc
      simp only
      rw [hadd hp]
      exact ⟨fun h => ⟨fun f hf => ⟨hrel f hf, hp f hf⟩, h⟩, fun h => h.2⟩
    · rw [if_pos (by simpa using hc)]
      simp only [reduceCtorEq, false_iff]
      rintro ⟨h, _⟩
      exact hc (hci.mpr fun f hf => (h f hf).2)

/-- **C78, file list, exactly.** -/
theorem C78_list_iff {o : CreateOpts} {sys : CreateSys} {s : Src} {l : Bytes} (hacc : o.Accepted) (hl : o.listCompressions = false)
    (hfl : o.fileList = some l) (Q : ∀ cwd, Quiet (sys.cenv cwd) s) (W : s.WF) :
    (o.run sys).2 = .panic ↔ OutputIsRoot o sys ∨ (OutputFree o sys ∧ l ≠ [] ∧ sys.openOk = true ∧ ∃ cwd text lines, StartsIn o sys cwd ∧
      sys.text (absFile sys.cwd l) = some text ∧ TextOf lines text ∧ (∀ x ∈ lines, validUtf8 x = true) ∧
      ∃ done x rest u, lines = done ++ x :: rest ∧ (∀ y ∈ done, Archivable s cwd (o.stripPrefix.getD []) (y, o.followSymlink)) ∧
        done.Pairwise (fun x y => ∀ u v, OffersOne s cwd (o.stripPrefix.getD []) (x, o.followSymlink) u →
          OffersOne s cwd (o.stripPrefix.getD []) (y, o.followSymlink) v → ¬ Clash s u v ∧ ¬ Clash s v u) ∧
        Nameless s cwd (o.stripPrefix.getD []) (x, o.followSymlink) u ∧
        ∀ y ∈ done, ∀ v, OffersOne s cwd (o.stripPrefix.getD []) (y, o.followSymlink) v → s.Leaf v.2 → v.1 <+: u.1 → v.1 = u.1) := by
  rw [CreateOpts.run_panic hacc hl, hfl]
  simp only [ne_eq, Option.some.injEq]
  refine or_congr Iff.rfl (and_congr_right fun _ => and_congr_right fun _ => and_congr_right fun _ => exists_congr fun cwd => ?_)
  have main : ∀ lines : List Bytes, (Adder.new.addFromList (sys.cenv cwd) (o.stripPrefix.getD []) lines o.followSymlink).2.toCmd = .panic ↔
      ∃ done x rest u, lines = done ++ x :: rest ∧ (∀ y ∈ done, Archivable s cwd (o.stripPrefix.getD []) (y, o.followSymlink)) ∧
        done.Pairwise (fun x y => ∀ u v, OffersOne s cwd (o.stripPrefix.getD []) (x, o.followSymlink) u →
          OffersOne s cwd (o.stripPrefix.getD []) (y, o.followSymlink) v → ¬ Clash s u v ∧ ¬ Clash s v u) ∧
        Nameless s cwd (o.stripPrefix.getD []) (x, o.followSymlink) u ∧
        ∀ y ∈ done, ∀ v, OffersOne s cwd (o.stripPrefix.getD []) (y, o.followSymlink) v → s.Leaf v.2 → v.1 <+: u.1 → v.1 = u.1 := by
    intro lines
    rw [AOut.toCmd_panic, Adder.addFromList, Adder.addAll_panics_iff (Q cwd) W]
    constructor
    · rintro ⟨done, x, rest, u, e, h1, h2, h3, h4⟩
      obtain ⟨d, r, rfl, rfl, e2⟩ := List.map_eq_append_iff.mp e
      cases r with
      | nil => simp at e2
      | cons y r =>
        simp only [List.map_cons, List.cons.injEq] at e2
        obtain ⟨rfl, rfl⟩ := e2
        refine ⟨d, y, r, u, rfl, fun z hz => h1 _ (List.mem_map.mpr ⟨z, hz, rfl⟩), List.pairwise_map.mp h2, h3, fun z hz v => ?_⟩
        exact h4 _ (List.mem_map.mpr ⟨z, hz, rfl⟩) v
    · rintro ⟨d, y, r, u, rfl, h1, h2, h3, h4⟩
      refine ⟨_, _, _, u, List.map_append, ?_, List.pairwise_map.mpr h2, h3, ?_⟩
      · intro z hz
        obtain ⟨z', hz', rfl⟩ := List.mem_map.mp hz
        exact h1 z' hz'
      · intro z hz v
        obtain ⟨z', hz', rfl⟩ := List.mem_map.mp hz
        exact h4 z' hz' v
  unfold CreateOpts.addAll
  rw [hfl]
  simp only
  cases ht : sys.text (absFile sys.cwd l) with
  | none => simp [readLines]
  | some text =>
    obtain ⟨ls, hls⟩ := TextOf.exists text
    have hlf := hls.lines
    have huniq : ∀ lines, TextOf lines text → lines = ls := fun lines h => by rw [← h.lines, hlf]
    simp only [readLines, hlf]
    by_cases hu : ls.all validUtf8 = true
    · rw [if_pos hu]
      simp only [main]
      constructor
      · rintro ⟨a, b⟩; exact ⟨text, ls, a, rfl, hls, List.all_eq_true.mp hu, b⟩
      · rintro ⟨t, lines, a, e, h1, _, b⟩
        cases e
        have := huniq _ h1; subst this
        exact ⟨a, b⟩
    · rw [if_neg hu]
      constructor
      · rintro ⟨_, e⟩; cases e
      · rintro ⟨t, lines, a, e, h1, h2, _⟩
        cases e
        have := huniq _ h1; subst this
        exact absurd (List.all_eq_true.mpr h2) hu

/-- **C78 is false**: `arx create -o x.arx ..`, `arx create -o x.arx d/..` and `arx create -o / d` crash, although all are
accepted command lines and the inputs exist. -/
theorem C78_counterexample :
    (let o := { exCreate with infiles := [ascii ".."] }; o.Accepted ∧ (o.run exSys).2 = .panic) ∧
    (let o := { exCreate with infiles := [ascii "d/.."] }; o.Accepted ∧ (o.run exSys).2 = .panic) ∧
    (let o := { exCreate with outfile := some (ascii "/") }; o.Accepted ∧ (o.run exSys).2 = .panic) := by
  refine ⟨⟨⟨by decide, by decide, by decide⟩, ?_⟩, ⟨⟨by decide, by decide, by decide⟩, ?_⟩, ⟨⟨by decide, by decide, by decide⟩, ?_⟩⟩ <;>
    decide +kernel

/-- the hypotheses of `C78_no_crash_partial` are met -/
example : (exCreate.run exSys).2 ≠ .panic := by
  refine C78_no_crash_partial ⟨by decide, by decide, by decide⟩ ?_ (by decide) ?_ ?_ (fun cwd h _ => exSys_returns cwd h)
  · rintro ⟨out, e, h⟩
    cases e
    revert h; decide +kernel
  · rintro l text lines h; cases h
  · intro i d n hn
    have hn : Except.ok n ∈ exLs d := hn
    unfold exLs at hn
    repeat' split at hn
    all_goals simp only [List.mem_cons, List.not_mem_nil, or_false, Except.ok.injEq, reduceCtorEq] at hn
    all_goals (rcases hn with rfl | rfl | rfl <;> exact ⟨⟨by decide, by decide⟩, by decide, by decide, by decide⟩)

end Arx
