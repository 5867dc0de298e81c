import Verif.Props.Create2
import Verif.Props.Exact2
import Verif.Spec.Seen
/-!
# C70: a source that changes is archived as it was seen
-/
namespace Arx

variable {env : CEnv}

theorem detectKind_looked {t : Nat} {names p : List Bytes} {follow : Bool} {st : Stat} {x : Attempted}
    (hx : x.time = t ∧ x.follow = follow ∧ namesOf env.cwd x.path = names)
    (h : detectKind env t names follow = .ok (p, st)) : Looked env x p st := by
  obtain ⟨rfl, rfl, rfl⟩ := hx
  unfold detectKind at h
  cases h1 : env.call x.time (fun s => s.lstat (namesOf env.cwd x.path)) with
  | error e => rw [h1] at h; cases h
  | ok attr =>
    rw [h1] at h
    simp only at h
    split at h
    · rename_i hl
      cases h2 : env.call (x.time + 1) (fun s => s.canonicalize (namesOf env.cwd x.path)) with
      | error e => rw [h2] at h; cases h
      | ok p2 =>
        rw [h2] at h
        simp only at h
        cases h3 : env.call (x.time + 2) (fun s => s.lstat p2) with
        | error e => rw [h3] at h; cases h
        | ok attr2 => rw [h3] at h; cases h; exact Or.inr ⟨hl.2, attr, h1, hl.1, h2, h3⟩
    · rename_i hl
      cases h; exact Or.inl ⟨rfl, h1, hl⟩

/-- What is offered to the archive for one path. -/
theorem newFromPath_saw {t : Nat} {cs cs' : List Bytes} {names : List Bytes} {arx : RPath} {follow : Bool} {r : AddReq} {x : Attempted}
    (hx : x.time = t ∧ x.follow = follow ∧ namesOf env.cwd x.path = names)
    (h : newFromPath env t cs names arx follow = .ok (r, cs')) :
    r.path = arx ∧ (∃ ko, r.kind = .ok ko) ∧ (r.kind = .ok none → SawSpecial env x) ∧
    (∀ k, r.kind = .ok (some k) → Saw env (packBytes cs') x ⟨r.info, k⟩) ∧
    (∀ a b, packBytes cs a = .found b → packBytes cs' a = .found b) := by
  unfold newFromPath at h
  cases hd : detectKind env t names follow with
  | error e => rw [hd] at h; cases h
  | ok y =>
    obtain ⟨p, st⟩ := y
    have hl := detectKind_looked hx hd
    obtain ⟨rfl, rfl, rfl⟩ := hx
    rw [hd] at h
    simp only at h
    cases hk : st.kind with
    | dir =>
      rw [hk] at h; cases h
      refine ⟨rfl, ⟨_, rfl⟩, by simp, ?_, fun _ _ h => h⟩
      intro k e; cases e; exact ⟨p, st, hl, rfl, hk⟩
    | other =>
      rw [hk] at h; cases h
      exact ⟨rfl, ⟨_, rfl⟩, fun _ => ⟨p, st, hl, hk⟩, by simp, fun _ _ h => h⟩
    | link =>
      rw [hk] at h
      simp only at h
      cases hc : env.call (x.time + 3) (fun s => s.readLink p) with
      | error e => rw [hc] at h; cases h
      | ok b =>
        rw [hc] at h; cases h
        refine ⟨rfl, ⟨_, rfl⟩, by simp, ?_, fun _ _ h => h⟩
        intro k e; cases e; exact ⟨p, st, hl, rfl, hk, hc⟩
    | file size =>
      rw [hk] at h
      simp only at h
      cases hc : env.call (x.time + 3) (fun s => s.readFile p) with
      | error e => rw [hc] at h; cases h
      | ok b =>
        rw [hc] at h; cases h
        refine ⟨rfl, ⟨_, rfl⟩, by simp, ?_, fun _ _ h => packBytes_mono h⟩
        intro k e; cases e
        exact ⟨p, st, hl, rfl, hk, b, hc, packBytes_add cs b⟩

/-- One attempt: either nothing is offered to the archive, or one request for the path below the prefix. -/
theorem addEntryFromPath_cases {pre : RPath} {a a' : Adder} {path : Bytes} {follow : Bool} {o : AOut}
    (h : a.addEntryFromPath env pre path follow = (a', o)) :
    (a'.creator = a.creator ∧ a'.contents = a.contents ∧ (o = .ok → StoredAs path pre [])) ∨
    ∃ k r out, StoredAs path pre k ∧ k ≠ [] ∧ validUtf8 r.path = true ∧ entryPath r.path = k ∧ a.creator.addEntry r = (a'.creator, out) ∧
      (o = .ok ↔ out = .ok) ∧ (o = .panic ↔ out = .panic) ∧
      newFromPath env a.tick a.contents (namesOf env.cwd path) r.path follow = .ok (r, a'.contents) := by
  rw [Adder.addEntryFromPath, fromPathBuf_eq] at h
  by_cases h1 : path.head? = some SEP
  · rw [if_pos h1] at h; cases h; exact Or.inl ⟨rfl, rfl, by simp⟩
  · rw [if_neg h1] at h
    by_cases h2 : ∀ c ∈ comps path, validUtf8 c = true
    · rw [if_pos h2] at h
      simp only at h
      have hv : ∀ c ∈ (comps path).filter (· ≠ CUR), ValidName c := fun c hc => filterCur_valid hc
      rw [RPath.stripPrefix, stripLoop_joinPath _ _ hv (fun c hc => comps_valid hc)] at h
      by_cases h3 : comps pre <+: (comps path).filter (· ≠ CUR)
      · obtain ⟨k, hk⟩ := h3
        rw [if_pos ⟨k, hk⟩] at h
        have hkk : ((comps path).filter (· ≠ CUR)).drop (comps pre).length = k := by rw [← hk]; simp
        rw [hkk] at h
        simp only at h
        have hkv : ∀ c ∈ k, ValidName c := fun c hc => hv c (by rw [← hk]; simp [hc])
        have hkc : ∀ c ∈ k, c ≠ CUR := fun c hc => by
          have : c ∈ (comps path).filter (· ≠ CUR) := by rw [← hk]; simp [hc]
          simpa using (List.mem_filter.mp this).2
        by_cases h4 : k = []
        · subst h4
          rw [if_pos ((joinPath_eq_nil hkv).mpr rfl)] at h
          cases h; exact Or.inl ⟨rfl, rfl, fun _ => hk.symm⟩
        · rw [if_neg (fun e => h4 ((joinPath_eq_nil hkv).mp e))] at h
          cases hn : newFromPath env a.tick a.contents (namesOf env.cwd path) (joinPath k) follow with
          | error e => rw [hn] at h; cases h; exact Or.inl ⟨rfl, rfl, by simp⟩
          | ok rc =>
            rw [hn] at h
            obtain ⟨r, cs'⟩ := rc
            have hp := (newFromPath_saw (x := ⟨pre, path, follow, a.tick, o⟩) ⟨rfl, rfl, rfl⟩ hn).1
            simp only at h
            have hep : entryPath r.path = k := by rw [hp, entryPath_joinPath hkv hkc]
            have hu : validUtf8 r.path = true := by
              rw [hp, validUtf8_comps, comps_joinPath hkv]
              intro c hc
              exact h2 c (List.mem_filter.mp (by rw [← hk]; simp [hc] : c ∈ (comps path).filter (· ≠ CUR))).1
            right
            cases ha : a.creator.addEntry r with
            | mk st out =>
              rw [ha] at h
              cases out with
              | ok => cases h; exact ⟨k, r, .ok, hk.symm, h4, hu, hep, ha, by simp, by simp, by rw [hp]; exact hn⟩
              | err e => cases h; exact ⟨k, r, .err e, hk.symm, h4, hu, hep, ha, by simp, by simp, by rw [hp]; exact hn⟩
              | panic => cases h; exact ⟨k, r, .panic, hk.symm, h4, hu, hep, ha, by simp, by simp, by rw [hp]; exact hn⟩
      · rw [if_neg h3] at h; cases h; exact Or.inl ⟨rfl, rfl, by simp⟩
    · rw [if_neg h2] at h; cases h; exact Or.inl ⟨rfl, rfl, by simp⟩

theorem Saw.mono {bytes bytes' : ContentAddr → GetBytes} {x : Attempted} {n : Node} (h : Saw env bytes x n)
    (hb : ∀ a b, bytes a = .found b → bytes' a = .found b) : Saw env bytes' x n := by
  obtain ⟨p, st, h1, h2, h3⟩ := h
  refine ⟨p, st, h1, h2, ?_⟩
  cases hk : n.kind with
  | dir => rw [hk] at h3; exact h3
  | link t => rw [hk] at h3; exact h3
  | file sz c => rw [hk] at h3; obtain ⟨a, b, c1, d⟩ := h3; exact ⟨a, b, c1, hb _ _ d⟩

theorem AsSeen.weaken {bytes bytes' : ContentAddr → GetBytes} {l : List Attempted} {m m' : PathMap} {x : Attempted} (h : AsSeen env bytes l m)
    (hb : ∀ a b, bytes a = .found b → bytes' a = .found b) (hkeep : ∀ k n, m k = some n → m' k = some n)
    (hnew : ∀ k n, m' k = some n → m k = some n ∨ (x.out = .ok ∧ StoredAs x.path x.pre k ∧ Saw env bytes' x n) ∨
      (n = defaultDir ∧ ∃ k', StoredAs x.path x.pre k' ∧ ProperAncestor k k'))
    (hlast : x.out = .ok → ∃ k, StoredAs x.path x.pre k ∧ (k = [] ∨ SawSpecial env x ∨
      ∃ n, m' k = some n ∧ (Saw env bytes' x n ∨ (n.isDir = true ∧ SawDir env x)))) :
    AsSeen env bytes' (l ++ [x]) m' := by
  refine ⟨?_, ?_⟩
  · intro k n hk
    rcases hnew k n hk with h' | h' | ⟨h1, h2⟩
    · rcases h.only k n h' with ⟨y, hy, g1, g2, g3⟩ | ⟨g1, y, hy, g2⟩
      · exact Or.inl ⟨y, by simp [hy], g1, g2, g3.mono hb⟩
      · exact Or.inr ⟨g1, y, by simp [hy], g2⟩
    · exact Or.inl ⟨x, by simp, h'⟩
    · exact Or.inr ⟨h1, x, by simp, h2⟩
  · intro y hy ho
    simp only [List.mem_append, List.mem_cons, List.not_mem_nil, or_false] at hy
    rcases hy with hy | rfl
    · obtain ⟨k, h1, h2⟩ := h.all y hy ho
      refine ⟨k, h1, ?_⟩
      rcases h2 with h2 | h2 | ⟨n, h2, h3 | h3⟩
      · exact Or.inl h2
      · exact Or.inr (Or.inl h2)
      · exact Or.inr (Or.inr ⟨n, hkeep _ _ h2, Or.inl (h3.mono hb)⟩)
      · exact Or.inr (Or.inr ⟨n, hkeep _ _ h2, Or.inr h3⟩)
    · exact hlast ho

theorem Adder.Tried.asSeen {l : List Attempted} {a : Adder} (h : Adder.Tried env l a) :
    ∃ rs m, Creator.new.run rs = some a.creator ∧ SpecRun PathMap.empty rs m ∧ (∀ r ∈ rs, validUtf8 r.path = true) ∧
      AsSeen env (packBytes a.contents) l m := by
  induction h with
  | new =>
    exact ⟨[], PathMap.empty, rfl, .nil _, by simp, (by intro k n h; cases h), (by intro x hx; cases hx)⟩
  | @step l a a' o pre path follow _ hadd ho ih =>
    obtain ⟨rs, m, h1, h2, hu, h3⟩ := ih
    rcases addEntryFromPath_cases hadd with ⟨g1, g2, g3⟩ | ⟨k, r, out, g1, g2, gu, g3, g4, g5, g6, g7⟩
    · refine ⟨rs, m, by rw [g1]; exact h1, h2, hu, ?_⟩
      rw [g2]
      refine h3.weaken (fun _ _ h => h) (fun _ _ h => h) (fun _ _ h => Or.inl h) ?_
      intro e
      exact ⟨[], g3 e, Or.inl rfl⟩
    · obtain ⟨k1, k2, k3, k4, k5⟩ := newFromPath_saw (x := ⟨pre, path, follow, a.tick, o⟩) ⟨rfl, rfl, rfl⟩ g7
      have hout : out ≠ .panic := fun e => ho (g6.mpr e)
      obtain ⟨m', s1, s2⟩ := add_spec h1 h2 r
      rw [g4] at s1 s2
      have hm' := s2 hout
      have hkeep : ∀ z n, m z = some n → m' z = some n := fun z n hz => s1.keeps hout hz
      have hwp : ∀ z n, withParents m k z = some n → m z = some n ∨ (n = defaultDir ∧ ∃ k', StoredAs path pre k' ∧ ProperAncestor z k') := by
        intro z n hz
        simp only [withParents] at hz
        cases hmz : m z with
        | some n' => rw [hmz] at hz; left; exact hz
        | none =>
          rw [hmz] at hz
          simp only at hz
          split at hz
          · rename_i hpa; cases hz; exact Or.inr ⟨rfl, k, g1, hpa⟩
          · cases hz
      refine ⟨rs ++ [r], m', ?_, hm', ?_, h3.weaken k5 hkeep ?_ ?_⟩
      · rw [Creator.run_append, h1]
        cases out with
        | panic => exact absurd rfl hout
        | ok => simp [Creator.run, g4]
        | err e => simp [Creator.run, g4]
      · intro r' hr'
        rcases List.mem_append.mp hr' with hr' | hr'
        · exact hu r' hr'
        · simp only [List.mem_cons, List.not_mem_nil, or_false] at hr'
          rw [hr']; exact gu
      · intro z n hz
        simp only
        cases s1 with
        | blocked => exact Or.inl hz
        | kindErr u e1 e2 => rw [g3] at hz; rcases hwp z n hz with h | h; exact Or.inl h; exact Or.inr (Or.inr h)
        | ignored e1 e2 => rw [g3] at hz; rcases hwp z n hz with h | h; exact Or.inl h; exact Or.inr (Or.inr h)
        | noName => exact absurd rfl hout
        | sameDir => exact Or.inl hz
        | «exists» => exact Or.inl hz
        | added kd e1 e2 e3 e4 e5 =>
          rw [g3] at hz
          simp only [setNode] at hz
          split at hz
          · rename_i e; cases hz; rw [e]
            exact Or.inr (Or.inl ⟨g5.mpr rfl, g1, k4 kd e4⟩)
          · rcases hwp z n hz with h | h; exact Or.inl h; exact Or.inr (Or.inr h)
      · intro eo
        refine ⟨k, g1, Or.inr ?_⟩
        have hok := g5.mp eo
        cases s1 with
        | blocked => cases hok
        | kindErr u e1 e2 => cases hok
        | ignored e1 e2 => exact Or.inl (k3 e2)
        | noName => cases hok
        | sameDir n e1 e2 e3 e4 e5 e6 =>
          rw [g3] at e5
          obtain ⟨p, st, q1, _, q2⟩ := k4 _ e4
          exact Or.inr ⟨n, e5, Or.inr ⟨e6, p, st, q1, q2⟩⟩
        | «exists» => cases hok
        | added kd e1 e2 e3 e4 e5 =>
          rw [g3]
          refine Or.inr ⟨_, by simp [setNode], Or.inl (k4 kd e4)⟩


/-- **C70, the archive.** Let any paths be added to a new archive, one after the other, from a file system that other
processes change at any time and whose calls fail at any time; some attempts may be refused. Any archive written
afterwards holds what was seen, and nothing else: see `AsSeen`. -/
theorem C70_as_seen {l : List Attempted} {a : Adder} (h : Adder.Tried env l a) :
    ∃ rs m, SpecRun PathMap.empty rs m ∧
      (∀ order, IsLayout a.creator order → a.creator.store.length < 2 ^ 32 → Written rs (writeArchive a.creator order)) ∧
      AsSeen env (packBytes a.contents) l m := by
  obtain ⟨rs, m, h1, h2, _, h3⟩ := h.asSeen
  exact ⟨rs, m, h2, fun order ho hlen => ⟨_, order, h1, ho, rfl, hlen⟩, h3⟩

theorem Adder.Tried.addAll {pre : RPath} : ∀ (paths : List (Bytes × Bool)) {l : List Attempted} {a a' : Adder} {e : AOut},
    Adder.Tried env l a → a.addAll env pre paths = (a', e) → e ≠ .panic →
    ∃ l', Adder.Tried env (l ++ l') a' ∧ AttemptsFor pre paths e l' := by
  intro paths
  induction paths with
  | nil =>
    intro l a a' e h hadd _
    simp only [Adder.addAll, Prod.mk.injEq] at hadd
    obtain ⟨rfl, rfl⟩ := hadd
    exact ⟨[], by simpa using h, ⟨by simp, by simp, by simp, by simp⟩⟩
  | cons x xs ih =>
    intro l a a' e h hadd hp
    rw [Adder.addAll] at hadd
    cases hx : a.addEntryFromPath env pre x.1 x.2 with
    | mk a1 o =>
      rw [hx] at hadd
      by_cases ho : o = .ok
      · subst ho
        simp only at hadd
        have h1 := Adder.Tried.step pre x.1 x.2 h hx (by simp)
        obtain ⟨l', g1, g2⟩ := ih h1 hadd hp
        refine ⟨⟨pre, x.1, x.2, a.tick, .ok⟩ :: l', by simpa using g1, ?_⟩
        refine ⟨?_, ?_, ?_, ?_⟩
        · simpa using g2.prefixOf
        · intro y hy
          rcases List.mem_cons.mp hy with rfl | hy
          · rfl
          · exact g2.pre y hy
        · intro he
          obtain ⟨k1, k2⟩ := g2.ok he
          refine ⟨by simp [k1], ?_⟩
          intro y hy
          rcases List.mem_cons.mp hy with rfl | hy
          · rfl
          · exact k2 y hy
        · intro he
          obtain ⟨init, last, k1, k2, k3⟩ := g2.failed he
          refine ⟨⟨pre, x.1, x.2, a.tick, .ok⟩ :: init, last, by simp [k1], k2, ?_⟩
          intro y hy
          rcases List.mem_cons.mp hy with rfl | hy
          · rfl
          · exact k3 y hy
      · have hadd' : (a1, o) = (a', e) := by
          cases o <;> first | exact absurd rfl ho | exact hadd
        cases hadd'
        refine ⟨[⟨pre, x.1, x.2, a.tick, e⟩], Adder.Tried.step pre x.1 x.2 h hx hp, ?_⟩
        refine ⟨by simp, by simp, fun he => absurd he ho, fun _ => ⟨[], _, rfl, rfl, by simp⟩⟩

/-- **C70, recursive adding.** `add_from_path` returns, whatever its walk of the changing tree yields and however its two
threads are scheduled. Then it has looked at the paths the walk yielded before its first error, in that order, each once,
following a link at the root only; it stops at the first that fails, with its error. (So `C70_as_seen` tells what it has
put into the archive.) -/
theorem C70_walk {l : List Attempted} {a : Adder} (h : Adder.Tried env l a) {pre root : RPath} {items : List (Except Unit Bytes)}
    {sched : List Bool} {e : AOut} (hr : (Chan.run env pre root (Chan.start a items) sched).result = some e) (he : e ≠ .panic) :
    ∃ l' good, Adder.Tried env (l ++ l') (Chan.run env pre root (Chan.start a items) sched).adder ∧ UpToError items good ∧
      AttemptsFor pre (good.map (fun p => (p, decide (stdComps p = stdComps root)))) e l' := by
  obtain ⟨good, bad, h1, h2, h3⟩ := C34_schedule_independent hr
  obtain ⟨l', g1, g2⟩ := h.addAll _ h3 he
  exact ⟨l', good, g1, ⟨bad, h1, h2⟩, g2⟩

theorem addInputs_tried {sys : CreateSys} {cwd : List Bytes} {pre : RPath} {rc : Bool} :
    ∀ (roots : List Bytes) (i : Nat) {l : List Attempted} {a a' : Adder}, Adder.Tried (sys.cenv cwd) l a →
    (addInputs sys cwd pre rc a i roots).2 = (a', .ok) →
    ∃ l', Adder.Tried (sys.cenv cwd) (l ++ l') a' ∧ InputsTried sys cwd pre rc i roots l' := by
  intro roots
  induction roots with
  | nil =>
    intro i l a a' h he
    simp only [addInputs, Prod.mk.injEq, and_true] at he
    subst he
    exact ⟨[], by simpa using h, .nil i⟩
  | cons f fs ih =>
    intro i l a a' h he
    rw [addInputs] at he
    cases hadd : addFromPath (sys.cenv cwd) pre a f rc (sys.walks i) with
    | mk a1 o =>
      rw [hadd] at he
      by_cases ho : o = .ok
      · subst ho
        simp only at he
        have hres : (Chan.run (sys.cenv cwd) pre f (Chan.start a (walkItems cwd (sys.walks i).src (sys.walks i).ls
            (sys.walks i).depth f rc)) (sys.walks i).sched).result = some .ok := by
          have h' := congrArg Prod.snd hadd
          simp only [addFromPath] at h'
          have : (sys.cenv cwd).cwd = cwd := rfl
          rw [this] at h'
          cases hx : (Chan.run (sys.cenv cwd) pre f (Chan.start a (walkItems cwd (sys.walks i).src (sys.walks i).ls
            (sys.walks i).depth f rc)) (sys.walks i).sched).result with
          | none => rw [hx] at h'; cases h'
          | some o => rw [hx] at h'; simp at h'; rw [h']
        obtain ⟨l1, good, g1, g2, g3⟩ := C70_walk h hres (by simp)
        have ha1 : (Chan.run (sys.cenv cwd) pre f (Chan.start a (walkItems cwd (sys.walks i).src (sys.walks i).ls
            (sys.walks i).depth f rc)) (sys.walks i).sched).adder = a1 := congrArg Prod.fst hadd
        rw [ha1] at g1
        obtain ⟨l2, k1, k2⟩ := ih (i + 1) g1 he
        exact ⟨l1 ++ l2, by simpa using k1, .cons g2 g3 k2⟩
      · have : (addInputs sys cwd pre rc a i (f :: fs)).2 = (a1, o) := by
          rw [addInputs, hadd]
          cases o <;> first | exact absurd rfl ho | rfl
        rw [addInputs, hadd] at this
        rw [this] at he
        simp only [Prod.mk.injEq] at he
        exact absurd he.2 ho

theorem InputsTried.ok {sys : CreateSys} {cwd : List Bytes} {pre : RPath} {rc : Bool} {i : Nat} {roots : List Bytes} {l : List Attempted}
    (h : InputsTried sys cwd pre rc i roots l) : ∀ x ∈ l, x.out = .ok ∧ x.pre = pre := by
  induction h with
  | nil => simp
  | cons _ h2 _ ih =>
    intro x hx
    rcases List.mem_append.mp hx with hx | hx
    · exact ⟨(h2.ok rfl).2 x hx, h2.pre x hx⟩
    · exact ih x hx

/-- what an `arx create` that writes an archive has looked at -/
theorem CreateOpts.run_tried {o : CreateOpts} {sys : CreateSys} {N : List Bytes} {a : Adder}
    (h : CreateEv.written N a ∈ (o.run sys).1) :
    ∃ cwd, StartsIn o sys cwd ∧ ∃ l, Adder.Tried (sys.cenv cwd) l a ∧
      (∀ x ∈ l, x.out = .ok ∧ x.pre = o.stripPrefix.getD []) ∧
      (∀ list, o.fileList = some list → ∃ text lines, sys.text (absFile sys.cwd list) = some text ∧ TextOf lines text ∧
        l.map (fun x => (x.path, x.follow)) = lines.map (fun p => (p, o.followSymlink))) ∧
      (o.fileList = none → InputsTried sys cwd (o.stripPrefix.getD []) o.recursion 0 o.infiles l) := by
  obtain ⟨cwd, evs, hcwd, hadd⟩ := o.run_written h
  refine ⟨cwd, StartsIn.iff.mpr hcwd, ?_⟩
  unfold CreateOpts.addAll at hadd
  cases hfl : o.fileList with
  | some list =>
    simp only [hfl] at hadd
    cases ht : sys.text (absFile sys.cwd list) with
    | none => rw [ht] at hadd; simp [readLines] at hadd
    | some text =>
      rw [ht] at hadd
      cases hr : readLines (some text) with
      | none => rw [hr] at hadd; simp at hadd
      | some lines =>
        rw [hr] at hadd
        obtain ⟨ls, hls⟩ := TextOf.exists text
        have hlines : lines = ls := by
          have := TextOf.lines hls
          simp only [readLines] at hr
          split at hr
          · cases hr; exact this
          · cases hr
        subst hlines
        simp only [Prod.mk.injEq] at hadd
        obtain ⟨_, e1, e2⟩ := hadd
        have hall : Adder.new.addAll (sys.cenv cwd) (o.stripPrefix.getD []) (lines.map (fun p => (p, o.followSymlink))) = (a, .ok) := by
          simp only [Adder.addFromList] at e1 e2
          revert e1 e2
          cases Adder.new.addAll (sys.cenv cwd) (o.stripPrefix.getD []) (lines.map (fun p => (p, o.followSymlink))) with
          | mk u v =>
            intro e1 e2
            simp only at e1 e2
            subst e1
            cases v <;> first | rfl | cases e2
        obtain ⟨l', g1, g2⟩ := Adder.Tried.new.addAll _ hall (by simp)
        obtain ⟨g3, g4⟩ := g2.ok rfl
        refine ⟨l', by simpa using g1, fun x hx => ⟨g4 x hx, g2.pre x hx⟩, ?_, by simp⟩
        intro list' e
        cases e
        exact ⟨text, lines, ht, hls, g3⟩
  | none =>
    simp only [hfl] at hadd
    split at hadd
    · cases hadd
    · split at hadd
      · cases hadd
      · have h2 : (addInputs sys cwd (o.stripPrefix.getD []) o.recursion Adder.new 0 o.infiles).2 = (a, .ok) := by
          simp only [Prod.mk.injEq] at hadd
          obtain ⟨_, e1, e2⟩ := hadd
          revert e1 e2
          cases (addInputs sys cwd (o.stripPrefix.getD []) o.recursion Adder.new 0 o.infiles).2 with
          | mk u v =>
            intro e1 e2
            simp only at e1 e2
            subst e1
            cases v <;> first | rfl | cases e2
        obtain ⟨l', g1, g2⟩ := addInputs_tried _ _ Adder.Tried.new h2
        exact ⟨l', by simpa using g1, g2.ok, by simp, fun _ => g2⟩

/-- **C70, `arx create`.** If the command writes an archive, whatever other processes do meanwhile, then all it looked at was
read without error and the archive is what was seen (`AsSeen`): for a file list the lines of the list were looked at, in
order, each once; otherwise what the walk of each input yielded before its first error (`C34_counterexample`: such an error
is not reported), input by input, following links at the inputs only. -/
theorem C70_create {o : CreateOpts} {sys : CreateSys} {N : List Bytes} {a : Adder}
    (h : CreateEv.written N a ∈ (o.run sys).1) :
    ∃ cwd l rs m, StartsIn o sys cwd ∧ SpecRun PathMap.empty rs m ∧
      (∀ order, IsLayout a.creator order → a.creator.store.length < 2 ^ 32 → Written rs (writeArchive a.creator order)) ∧
      AsSeen (sys.cenv cwd) (packBytes a.contents) l m ∧
      (∀ x ∈ l, x.out = .ok ∧ x.pre = o.stripPrefix.getD []) ∧
      (∀ list, o.fileList = some list → ∃ text lines, sys.text (absFile sys.cwd list) = some text ∧ TextOf lines text ∧
        l.map (fun x => (x.path, x.follow)) = lines.map (fun p => (p, o.followSymlink))) ∧
      (o.fileList = none → InputsTried sys cwd (o.stripPrefix.getD []) o.recursion 0 o.infiles l) := by
  obtain ⟨cwd, hs, l, g1, g2, g3, g4⟩ := o.run_tried h
  obtain ⟨rs, m, k1, k2, k3⟩ := C70_as_seen g1
  exact ⟨cwd, l, rs, m, hs, k1, k2, k3, g2, g3, g4⟩

/-- No name of an archive made from files is `"."`. -/
theorem AsSeen.noDot {bytes : ContentAddr → GetBytes} {l : List Attempted} {m : PathMap} (h : AsSeen env bytes l m) :
    ∀ p n, m p = some n → CUR ∉ p := by
  have key : ∀ (path pre : Bytes) (k : List Bytes), StoredAs path pre k → CUR ∉ k := by
    intro path pre k hk hc
    have : CUR ∈ (comps path).filter (· ≠ CUR) := by rw [hk]; simp [hc]
    simpa using (List.mem_filter.mp this).2
  intro p n hp hc
  rcases h.only p n hp with ⟨x, _, _, h1, _⟩ | ⟨_, x, _, k', h1, h2⟩
  · exact key _ _ _ h1 hc
  · exact key _ _ _ h1 (h2.2.2.subset hc)

/-- **C12 for archives made from files.** Whatever is added from the file system, changing and failing as it may: the stable
listing of the archive written shows each entry once with its path and its values (no entry is named `"."`). -/
theorem C12_from_files {l : List Attempted} {a : Adder} (h : Adder.Tried env l a) {order : List Nat} (ho : IsLayout a.creator order)
    (hlen : a.creator.store.length < 2 ^ 32) (depth : Nat) (hd : a.creator.store.length < depth) :
    ∃ rs m V, SpecRun PathMap.empty rs m ∧ Written rs (writeArchive a.creator order) ∧ AsSeen env (packBytes a.contents) l m ∧
      Listing m [] V ∧ listCmd (writeArchive a.creator order) (some 1) depth = (V.flatMap (stableLine m), true) := by
  obtain ⟨rs, m, h1, h2, hu, h3⟩ := h.asSeen
  have hw : Written rs (writeArchive a.creator order) := ⟨_, order, h1, ho, rfl, hlen⟩
  have hl : (writeArchive a.creator order).entries.length < depth := by
    have : (writeArchive a.creator order).entries.length ≤ order.length := by
      simp only [writeArchive]; exact List.length_filterMap_le _ _
    have := ho.1.length_eq
    simp only [List.length_range] at this
    omega
  obtain ⟨⟨V, k1, k2⟩, _⟩ := C12_stable_list_partial hw h2 hu h3.noDot depth hl
  exact ⟨rs, m, V, h2, hw, h3, k1, k2⟩

/-- the growing file: seen with two bytes, read with four -/
example : Adder.Tried growEnv [⟨[], ascii "d/f", false, 0, .ok⟩] growAdder := by
  have h : Adder.new.addEntryFromPath growEnv [] (ascii "d/f") false = (growAdder, .ok) := by
    have : (Adder.new.addEntryFromPath growEnv [] (ascii "d/f") false).2 = .ok := by decide
    rw [← this]; rfl
  exact Adder.Tried.step [] (ascii "d/f") false .new h (by simp)

/-- the command of `exCreate` writes an archive -/
example : ∃ N a, CreateEv.written N a ∈ (exCreate.run exSys).1 := by
  obtain ⟨N, a, h, _⟩ := exCreate_written
  exact ⟨N, a, h⟩

/-- the walk of `exChan badLs` stops at an error; the function returns `Ok` -/
example : (Chan.run exEnv [] (ascii "d") (Chan.start Adder.new (walkItems [] exSrc badLs 3 (ascii "d") true)) turns).result = some .ok := by
  decide

end Arx
