import Verif.Proof.ExtractSched
import Verif.Spec.Extract
/-!
# File system calls at plain paths
-/
namespace Arx

/-- Every prefix of `p` but the root is a directory. -/
def DirsTo (fs : FS) (p : List Bytes) : Prop := ∀ q, q <+: p → q ≠ [] → ∃ t, fs.nodes q = some (.dir t)

theorem prefix_concat {α : Type} {q d : List α} {c : α} : q <+: d ++ [c] ↔ q = d ++ [c] ∨ q <+: d := by
  rw [List.prefix_concat_iff]

theorem nil_or_snoc {α : Type} (p : List α) : p = [] ∨ ∃ d c, p = d ++ [c] := by
  rcases List.eq_nil_or_concat p with h | ⟨d, c, h⟩
  · exact Or.inl h
  · exact Or.inr ⟨d, c, by rw [h, List.concat_eq_append]⟩

theorem DirsTo.concat {fs : FS} {d : List Bytes} {c : Bytes} (h : DirsTo fs d) {t : Int}
    (hn : fs.nodes (d ++ [c]) = some (.dir t)) : DirsTo fs (d ++ [c]) := by
  intro q hq hne
  rcases prefix_concat.mp hq with rfl | hq
  · exact ⟨t, hn⟩
  · exact h q hq hne

theorem DirsTo.mono {fs : FS} {p q : List Bytes} (h : DirsTo fs p) (hq : q <+: p) : DirsTo fs q :=
  fun r hr hne => h r (hr.trans hq) hne

theorem resAux_dirs {fs : FS} {follow : Bool} {retry : List Bytes → List Bytes → Except HErr Loc} (rest : List Bytes) :
    ∀ (p cur : List Bytes), (∀ c ∈ p, PlainName c) →
      (∀ q, q <+: p → q ≠ [] → ∃ t, fs.nodes (cur ++ q) = some (.dir t)) →
      resAux fs follow retry (p ++ rest) cur = resAux fs follow retry rest (cur ++ p) := by
  intro p
  induction p with
  | nil => intro cur _ _; simp
  | cons c p ih =>
    intro cur hn hd
    obtain ⟨h1, h2, h3⟩ := hn c (by simp)
    obtain ⟨t, ht⟩ := hd [c] (by simp) (by simp)
    simp only [List.cons_append, resAux, if_neg h1, if_neg h2, ht]
    rw [ih (cur ++ [c]) (fun c hc => hn c (by simp [hc]))]
    · simp
    · intro q hq hne
      obtain ⟨t, ht⟩ := hd (c :: q) (by simpa using hq) (by simp)
      exact ⟨t, by simpa using ht⟩

theorem plain_noNul {p : List Bytes} (h : ∀ c ∈ p, PlainName c) : p.any (fun c => c.contains 0) = false := by
  simp only [List.any_eq_false, List.contains_iff_mem, Bool.not_eq_true]
  intro c hc
  exact (h c hc).2.2

theorem FS.resolve_eq {fs : FS} {follow : Bool} {p : List Bytes} (h : ∀ c ∈ p, PlainName c) :
    fs.resolve follow p = resAux fs follow (resolveN fs follow 40) p [] := by
  rw [FS.resolve, plain_noNul h]; rfl

/-- A plain path whose directory exists: resolution finds what is there. -/
theorem FS.resolve_concat {fs : FS} {d : List Bytes} {c : Bytes} {follow : Bool} (hn : ∀ x ∈ d ++ [c], PlainName x)
    (hd : DirsTo fs d) (hl : follow = true → ∀ t s, fs.nodes (d ++ [c]) ≠ some (.link t s)) :
    fs.resolve follow (d ++ [c]) = .ok (if fs.nodes (d ++ [c]) = none then .missing d c else .found (d ++ [c])) := by
  obtain ⟨hc1, hc2, _⟩ := hn c (by simp)
  rw [FS.resolve_eq hn, resAux_dirs [c] d [] (fun x hx => hn x (by simp [hx])) (by simpa [DirsTo] using hd)]
  simp only [List.nil_append, resAux, if_neg hc1, if_neg hc2]
  cases hx : fs.nodes (d ++ [c]) with
  | none => simp
  | some x =>
    cases x with
    | dir t => simp
    | file i => simp
    | link t s =>
      cases follow with
      | false => simp
      | true => exact absurd hx (hl rfl t s)

theorem FS.resolve_nil (fs : FS) (follow : Bool) : fs.resolve follow [] = .ok (.found []) := rfl

/-- No symbolic link at a prefix of `p`. -/
def NoLinkTo (fs : FS) (p : List Bytes) : Prop := ∀ q, q <+: p → ∀ t s, fs.nodes q ≠ some (.link t s)

theorem NoLinkTo.mono {fs : FS} {p q : List Bytes} (h : NoLinkTo fs p) (hq : q <+: p) : NoLinkTo fs q :=
  fun r hr => h r (hr.trans hq)

/-- A plain path whose directory does not exist. -/
theorem resAux_broken {fs : FS} {follow : Bool} {retry : List Bytes → List Bytes → Except HErr Loc} (c : Bytes) :
    ∀ (p cur : List Bytes), (∀ x ∈ p, PlainName x) →
      (∀ q, q <+: p → ∀ t s, fs.nodes (cur ++ q) ≠ some (.link t s)) →
      ¬ (∀ q, q <+: p → q ≠ [] → ∃ t, fs.nodes (cur ++ q) = some (.dir t)) →
      resAux fs follow retry (p ++ [c]) cur = .error .notFound ∨
      (resAux fs follow retry (p ++ [c]) cur = .error .notDir ∧ ∃ q i, q <+: p ∧ fs.nodes (cur ++ q) = some (.file i)) := by
  intro p
  induction p with
  | nil =>
    intro cur _ _ h
    exact absurd (fun q hq hne => absurd (List.prefix_nil.mp hq) hne) h
  | cons x p ih =>
    intro cur hn hl hd
    obtain ⟨h1, h2, h3⟩ := hn x (by simp)
    simp only [List.cons_append, resAux, if_neg h1, if_neg h2]
    cases hx : fs.nodes (cur ++ [x]) with
    | none => left; simp
    | some y =>
      cases y with
      | link t s => exact absurd hx (hl [x] (by simp) t s)
      | file i => right; simp only [List.append_eq_nil_iff, List.cons_ne_self, and_false, if_false]
                  exact ⟨by simp, [x], i, by simp, hx⟩
      | dir t =>
        simp only
        rcases ih (cur ++ [x]) (fun c hc => hn c (by simp [hc])) (fun q hq t s => by
            have := hl (x :: q) (by simpa using hq) t s
            simpa using this) (by
          intro hall
          apply hd
          intro q hq hne
          cases q with
          | nil => exact absurd rfl hne
          | cons y q =>
            simp only [List.cons_prefix_cons] at hq
            obtain ⟨rfl, hq⟩ := hq
            by_cases hqe : q = []
            · subst hqe; exact ⟨t, hx⟩
            · obtain ⟨t, ht⟩ := hall q hq hqe
              exact ⟨t, by simpa using ht⟩) with h | ⟨h, q, i, hq, hf⟩
        · exact Or.inl h
        · exact Or.inr ⟨h, x :: q, i, by simpa using hq, by simpa using hf⟩

theorem FS.resolve_broken {fs : FS} {d : List Bytes} {c : Bytes} {follow : Bool} (hn : ∀ x ∈ d ++ [c], PlainName x)
    (hl : NoLinkTo fs d) (hd : ¬ DirsTo fs d) :
    fs.resolve follow (d ++ [c]) = .error .notFound ∨
    (fs.resolve follow (d ++ [c]) = .error .notDir ∧ ∃ q i, q <+: d ∧ fs.nodes q = some (.file i)) := by
  rw [FS.resolve_eq hn]
  have := resAux_broken (fs := fs) (follow := follow) (retry := resolveN fs follow 40) c d []
    (fun x hx => hn x (by simp [hx])) (by simpa [NoLinkTo] using hl) (by simpa [DirsTo] using hd)
  simpa using this

/-! ## Frames -/

/-- `w'` comes from `w` by writer steps and calls that neither open files nor touch file contents. -/
structure Frame (w w' : World) : Prop where
  next : w'.fs.next = w.fs.next
  now : w'.fs.now = w.fs.now
  tasks : w'.tasks.map (fun t => (t.ino, t.bytes)) = w.tasks.map (fun t => (t.ino, t.bytes))
  data : ∀ i, i ∉ w.tasks.map Task.ino → w'.fs.data i = w.fs.data i
  mtime : Prog w → ∀ i, (w'.fs.data i).mtime = (w.fs.data i).mtime
  ok : Prog w → ∀ t ∈ w'.tasks, TaskOK w'.fs t
  flag : Prog w → (w.okFlag = true → ∀ t ∈ w.tasks, t.st ≠ .failed) → (w'.okFlag = true → ∀ t ∈ w'.tasks, t.st ≠ .failed)

theorem Frame.refl (w : World) : Frame w w :=
  ⟨rfl, rfl, rfl, fun _ _ => rfl, fun _ _ => rfl, fun h => h.ok, fun _ h => h⟩

theorem Frame.trans {a b c : World} (h : Frame a b) (h' : Frame b c)
    (hp : Prog a → Prog b) : Frame a c where
  next := h'.next.trans h.next
  now := h'.now.trans h.now
  tasks := h'.tasks.trans h.tasks
  data i hi := by rw [h'.data i (by rw [map_ino_of h.tasks]; exact hi), h.data i hi]
  mtime p i := by rw [h'.mtime (hp p) i, h.mtime p i]
  ok p := h'.ok (hp p)
  flag p hf := h'.flag (hp p) (h.flag p hf)

theorem Frame.steps (w : World) (l : List (Nat × WriteRes)) (n : Nat) : Frame w { w.steps l with tick := n } := by
  obtain ⟨a1, a2, a3, a4, a5, a6⟩ := w.steps_fs l
  exact ⟨a2, a3, a5, a6, fun p => (p.steps l).2.1, fun p => (p.steps l).1.ok, fun p => (p.steps l).2.2.2⟩

theorem Frame.pre (env : Env) (w : World) : Frame w (w.pre env) := Frame.steps w _ _

theorem World.pre_nodes (env : Env) (w : World) : (w.pre env).fs.nodes = w.fs.nodes := (w.steps_fs _).1

theorem Prog.pre {w : World} (h : Prog w) (env : Env) : Prog (w.pre env) := by
  have := (h.steps (env.sched w.tick)).1
  exact ⟨this.ok, this.nodup, this.inos⟩

/-- change of directory entries only -/
theorem Frame.nodes {w w' : World} (h : Frame w w') (N : List Bytes → Option FNode) :
    Frame w { w' with fs := { w'.fs with nodes := N } } :=
  ⟨h.next, h.now, h.tasks, h.data, h.mtime, fun p t ht => by
    have := h.ok p t ht
    exact ⟨this.bytes, this.off, this.done, this.mtime, this.lt⟩, h.flag⟩

theorem Frame.prog {w w' : World} (h : Frame w w') (p : Prog w)
    (hin : ∀ q i, w'.fs.nodes q = some (.file i) → ∃ q', w.fs.nodes q' = some (.file i)) : Prog w' where
  ok := h.ok p
  nodup := by rw [map_ino_of h.tasks]; exact p.nodup
  inos q i hq := by
    obtain ⟨q', hq'⟩ := hin q i hq
    rw [h.next]
    exact p.inos q' i hq'

/-! ## `create_dir_all` -/

/-- Missing directories among the prefixes of `p` may have been created. -/
structure Mkd (p : List Bytes) (w w' : World) : Prop where
  frame : Frame w w'
  nodes : ∀ q, w'.fs.nodes q = w.fs.nodes q ∨
    (q <+: p ∧ q ≠ [] ∧ w.fs.nodes q = none ∧ ∃ t, w'.fs.nodes q = some (.dir t))

theorem Mkd.keep {p : List Bytes} {w w' : World} (h : Mkd p w w') {q : List Bytes} {x : FNode}
    (hq : w.fs.nodes q = some x) : w'.fs.nodes q = some x := by
  rcases h.nodes q with e | ⟨_, _, e, _⟩
  · rw [e, hq]
  · rw [hq] at e; cases e

theorem Mkd.back {p : List Bytes} {w w' : World} (h : Mkd p w w') {q : List Bytes} {x : FNode}
    (hq : w'.fs.nodes q = some x) (hx : ∀ t, x ≠ .dir t) : w.fs.nodes q = some x := by
  rcases h.nodes q with e | ⟨_, _, _, t, e⟩
  · rw [← e, hq]
  · rw [hq] at e; cases e; exact absurd rfl (hx t)

theorem Mkd.prog {p : List Bytes} {w w' : World} (h : Mkd p w w') (hp : Prog w) : Prog w' :=
  h.frame.prog hp (fun q i hq => ⟨q, h.back hq (by simp)⟩)

theorem Mkd.trans {p q : List Bytes} {a b c : World} (h : Mkd q a b) (h' : Mkd p b c) (hq : q <+: p) : Mkd p a c where
  frame := h.frame.trans h'.frame h.prog
  nodes r := by
    rcases h'.nodes r with e' | ⟨e1, e2, e3, e4⟩
    · rcases h.nodes r with e | ⟨d1, d2, d3, d4⟩
      · left; rw [e', e]
      · right; exact ⟨d1.trans hq, d2, d3, by rw [e']; exact d4⟩
    · rcases h.nodes r with e | ⟨d1, d2, d3, t, d4⟩
      · right; exact ⟨e1, e2, by rw [← e]; exact e3, e4⟩
      · rw [d4] at e3; cases e3

theorem Mkd.noLink {p r : List Bytes} {w w' : World} (h : Mkd p w w') (hl : NoLinkTo w.fs r) : NoLinkTo w'.fs r := by
  intro q hq t s e
  exact hl q hq t s (h.back e (by simp))

theorem Mkd.pre (p : List Bytes) (env : Env) (w : World) : Mkd p w (w.pre env) :=
  ⟨Frame.pre env w, fun q => Or.inl (by rw [World.pre_nodes])⟩

/-- `Path::is_dir` changes nothing; if it says yes, the directories are there. -/
theorem World.isDir_spec (env : Env) (w : World) (p : List Bytes) (hn : ∀ x ∈ p, PlainName x) (hl : NoLinkTo w.fs p) :
    ∃ b, w.isDir env p = (w.pre env, b) ∧ (b = true → DirsTo w.fs p) ∧
      (b = false → (∃ n, env.fault n = true) ∨ ∀ t, w.fs.nodes p = some (.dir t) → ¬ DirsTo w.fs p) := by
  simp only [World.isDir]
  rcases w.sys_cases env (fun fs => .ok (fs.isDir p, fs)) with ⟨e, h, hf⟩ | ⟨x, fs, hf, ho, h⟩
  · rw [h]
    refine ⟨false, rfl, by simp, fun _ => Or.inl ?_⟩
    rcases hf with ⟨hf, _⟩ | ⟨_, hf⟩
    · exact ⟨_, hf⟩
    · cases hf
  · rw [h]
    cases ho
    refine ⟨_, rfl, ?_, ?_⟩
    · intro hd
      rcases nil_or_snoc p with rfl | ⟨d, c, rfl⟩
      · intro q hq hne; exact absurd (List.prefix_nil.mp hq) hne
      · simp only [FS.isDir] at hd
        by_cases hdd : DirsTo w.fs d
        · rw [FS.resolve_concat hn (by simpa [DirsTo, World.pre_nodes] using hdd) (fun _ => by
            rw [World.pre_nodes]; exact hl _ (List.prefix_refl _))] at hd
          simp only [World.pre_nodes] at hd
          cases hx : w.fs.nodes (d ++ [c]) with
          | none => simp [hx] at hd
          | some x =>
            simp only [hx, reduceCtorEq, if_false] at hd
            cases x with
            | dir t => exact hdd.concat hx
            | file i => simp at hd
            | link t s => simp at hd
        · rcases FS.resolve_broken (fs := (w.pre env).fs) (follow := true) hn
            (by simpa [NoLinkTo, World.pre_nodes] using hl.mono (List.prefix_append _ _))
            (by simpa [DirsTo, World.pre_nodes] using hdd) with h | ⟨h, _⟩
          · rw [h] at hd; simp at hd
          · rw [h] at hd; simp at hd
    · intro hb
      right
      intro t ht hdd
      rcases nil_or_snoc p with rfl | ⟨d, c, rfl⟩
      · simp only [FS.isDir, FS.resolve_nil, World.pre_nodes, ht] at hb; cases hb
      · simp only [FS.isDir] at hb
        rw [FS.resolve_concat hn (by simpa [DirsTo, World.pre_nodes] using hdd.mono (List.prefix_append _ _)) (fun _ => by
            rw [World.pre_nodes]; exact hl _ (List.prefix_refl _))] at hb
        simp [World.pre_nodes, ht] at hb

/-- One `mkdir`. -/
theorem World.mkdir_spec (env : Env) (w : World) (d : List Bytes) (c : Bytes) (hn : ∀ x ∈ d ++ [c], PlainName x)
    (hl : NoLinkTo w.fs d) :
    ∃ w' r, w.sys env (fun fs => fs.mkdir (d ++ [c])) = (w', r) ∧ Mkd (d ++ [c]) w w' ∧
      match r with
      | .ok () => DirsTo w'.fs (d ++ [c])
      | .error .notFound => ¬ DirsTo w.fs d ∧ w'.fs.nodes = w.fs.nodes
      | .error e => w'.fs.nodes = w.fs.nodes ∧ ((∃ n, env.fault n = true) ∨ (∃ q i, q <+: d ∧ w.fs.nodes q = some (.file i)) ∨
          (DirsTo w.fs d ∧ e = .exists ∧ w.fs.nodes (d ++ [c]) ≠ none)) := by
  have hl' : NoLinkTo (w.pre env).fs d := by simpa [NoLinkTo, World.pre_nodes] using hl
  rcases w.sys_cases env (fun fs => fs.mkdir (d ++ [c])) with ⟨e, h, hf⟩ | ⟨x, fs, hf, ho, h⟩
  · refine ⟨_, _, h, .pre _ env w, ?_⟩
    rcases hf with ⟨hf, rfl⟩ | ⟨_, hf⟩
    · exact ⟨World.pre_nodes env w, Or.inl ⟨_, hf⟩⟩
    · simp only [FS.mkdir] at hf
      by_cases hd : DirsTo w.fs d
      · rw [FS.resolve_concat hn (by simpa [DirsTo, World.pre_nodes] using hd) (by simp), World.pre_nodes] at hf
        by_cases hx : w.fs.nodes (d ++ [c]) = none
        · rw [if_pos hx] at hf; cases hf
        · rw [if_neg hx] at hf; cases hf
          exact ⟨World.pre_nodes env w, Or.inr (Or.inr ⟨hd, rfl, hx⟩)⟩
      · rcases FS.resolve_broken (fs := (w.pre env).fs) (follow := false) hn hl'
            (by simpa [DirsTo, World.pre_nodes] using hd) with h | ⟨h, hq⟩
        · rw [h] at hf; cases hf
          exact ⟨hd, World.pre_nodes env w⟩
        · rw [h] at hf; cases hf
          exact ⟨World.pre_nodes env w, Or.inr (Or.inl (by simpa [World.pre_nodes] using hq))⟩
  · simp only [FS.mkdir] at ho
    by_cases hd : DirsTo w.fs d
    · rw [FS.resolve_concat hn (by simpa [DirsTo, World.pre_nodes] using hd) (by simp), World.pre_nodes] at ho
      by_cases hx : w.fs.nodes (d ++ [c]) = none
      · rw [if_pos hx] at ho
        cases ho
        refine ⟨_, _, h, ⟨(Frame.pre env w).nodes _, ?_⟩, ?_⟩
        · intro q
          simp only [FS.set, World.pre_nodes]
          by_cases hq : q = d ++ [c]
          · right; subst hq; exact ⟨List.prefix_refl _, by simp, hx, (w.pre env).fs.now, by simp⟩
          · left; rw [if_neg hq]
        · apply DirsTo.concat (t := (w.pre env).fs.now)
          · intro q hq hne
            simp only [FS.set, World.pre_nodes]
            rw [if_neg (by rintro rfl; have := hq.length_le; simp at this; omega)]
            exact hd q hq hne
          · simp [FS.set]
      · rw [if_neg hx] at ho; cases ho
    · rcases FS.resolve_broken (fs := (w.pre env).fs) (follow := false) hn hl'
            (by simpa [DirsTo, World.pre_nodes] using hd) with h | ⟨h, hq⟩
      · rw [h] at ho; cases ho
      · rw [h] at ho; cases ho

theorem parentOf_plain {d : List Bytes} {c : Bytes} (hn : ∀ x ∈ d ++ [c], PlainName x) : parentOf (d ++ [c]) = d := by
  have : (d ++ [c]).filter (fun c => decide (c ≠ CUR)) = d ++ [c] := by
    rw [List.filter_eq_self]
    intro x hx
    simpa using (hn x hx).1
  rw [parentOf, this, List.dropLast_concat]

/-- `create_dir_all` at a plain path without symbolic links. -/
theorem World.createDirAll_spec (env : Env) : ∀ (f : Nat) (p : List Bytes) (w : World), p.length < f →
    (∀ x ∈ p, PlainName x) → (∃ t, w.fs.nodes [] = some (.dir t)) → NoLinkTo w.fs p →
    ∃ w' r, World.createDirAll env f w p = (w', r) ∧ Mkd p w w' ∧
      match r with
      | .ok () => DirsTo w'.fs p
      | .error _ => (∃ n, env.fault n = true) ∨ ∃ q i, q <+: p ∧ w.fs.nodes q = some (.file i) := by
  intro f
  induction f with
  | zero => intro p w h; omega
  | succ f ih =>
    intro p w hf hn hroot hl
    have htail : ∀ (w1 : World) (x : HErr), Mkd p w w1 →
        ((∃ n, env.fault n = true) ∨ (∃ q i, q <+: p ∧ w.fs.nodes q = some (.file i)) ∨
          (∃ t, w1.fs.nodes p = some (.dir t) ∧ DirsTo w1.fs p)) →
        ∃ w' r, (match w1.isDir env p with | (w, true) => (w, (Except.ok () : Except HErr Unit)) | (w, false) => (w, .error x)) = (w', r) ∧
          Mkd p w w' ∧
          match r with
          | .ok () => DirsTo w'.fs p
          | .error _ => (∃ n, env.fault n = true) ∨ ∃ q i, q <+: p ∧ w.fs.nodes q = some (.file i) := by
      intro w1 x h1 h2
      obtain ⟨b, e, b1, b2⟩ := w1.isDir_spec env p hn (h1.noLink hl)
      have hm : Mkd p w (w1.pre env) := h1.trans (.pre p env w1) (List.prefix_refl _)
      rw [e]
      cases b with
      | true => exact ⟨_, _, rfl, hm, by simpa [DirsTo, World.pre_nodes] using b1 rfl⟩
      | false =>
        refine ⟨_, _, rfl, hm, ?_⟩
        rcases h2 with h2 | h2 | ⟨t, h2, h3⟩
        · exact Or.inl h2
        · exact Or.inr h2
        · rcases b2 rfl with h | h
          · exact Or.inl h
          · exact absurd h3 (h t h2)
    rcases nil_or_snoc p with rfl | ⟨d, c, rfl⟩
    · -- the root
      simp only [World.createDirAll]
      rcases w.sys_cases env (fun fs => fs.mkdir []) with ⟨e, h, hf⟩ | ⟨x, fs, hf, ho, h⟩
      · rw [h]
        have hE : e = .other ∨ e = .exists := by
          rcases hf with ⟨_, rfl⟩ | ⟨_, hf⟩
          · exact Or.inl rfl
          · simp only [FS.mkdir, FS.resolve_nil] at hf; cases hf; exact Or.inr rfl
        obtain ⟨t, ht⟩ := hroot
        have := htail (w.pre env) e (.pre _ env w) (Or.inr (Or.inr ⟨t, by rw [World.pre_nodes]; exact ht, by
          intro q hq hne; exact absurd (List.prefix_nil.mp hq) hne⟩))
        rcases hE with rfl | rfl <;> exact this
      · simp only [FS.mkdir, FS.resolve_nil] at ho; cases ho
    · have hld : NoLinkTo w.fs d := hl.mono (List.prefix_append _ _)
      obtain ⟨w1, r1, e1, m1, p1⟩ := w.mkdir_spec env d c hn hld
      simp only [World.createDirAll, e1]
      -- an error other than "not found"
      have hother : ∀ e, w1.fs.nodes = w.fs.nodes ∧ ((∃ n, env.fault n = true) ∨ (∃ q i, q <+: d ∧ w.fs.nodes q = some (.file i)) ∨
          (DirsTo w.fs d ∧ e = HErr.exists ∧ w.fs.nodes (d ++ [c]) ≠ none)) → 
          ((∃ n, env.fault n = true) ∨ (∃ q i, q <+: d ++ [c] ∧ w.fs.nodes q = some (.file i)) ∨
          (∃ t, w1.fs.nodes (d ++ [c]) = some (.dir t) ∧ DirsTo w1.fs (d ++ [c]))) := by
        rintro e ⟨hnodes, h | ⟨q, i, hq, hi⟩ | ⟨hd, _, hx⟩⟩
        · exact Or.inl h
        · exact Or.inr (Or.inl ⟨q, i, hq.trans (List.prefix_append _ _), hi⟩)
        · cases hy : w.fs.nodes (d ++ [c]) with
          | none => exact absurd hy hx
          | some y =>
            cases y with
            | dir t =>
              refine Or.inr (Or.inr ⟨t, by rw [hnodes]; exact hy, ?_⟩)
              have := hd.concat hy
              simpa [DirsTo, hnodes] using this
            | file i => exact Or.inr (Or.inl ⟨_, i, List.prefix_refl _, hy⟩)
            | link t s => exact absurd hy (hl _ (List.prefix_refl _) t s)
      cases r1 with
      | ok u => exact ⟨_, _, rfl, m1, p1⟩
      | error e =>
        cases e with
        | notFound =>
          simp only [List.append_eq_nil_iff, List.cons_ne_self, and_false, if_false, parentOf_plain hn]
          obtain ⟨w2, r2, e2, m2, p2⟩ := ih d w1 (by simp at hf; omega) (fun x hx => hn x (by simp [hx]))
            (by obtain ⟨t, ht⟩ := hroot; exact ⟨t, m1.keep ht⟩) (m1.noLink hld)
          rw [e2]
          have m12 : Mkd (d ++ [c]) w w2 := by
            have m1' : Mkd d w w1 := ⟨m1.frame, fun q => Or.inl (by rw [p1.2])⟩
            exact (m1'.trans m2 (List.prefix_refl _)).trans (p := d ++ [c]) ⟨.refl _, fun q => Or.inl rfl⟩ (List.prefix_append _ _)
          cases r2 with
          | error e =>
            refine ⟨_, _, rfl, m12, ?_⟩
            rcases p2 with h | ⟨q, i, hq, hi⟩
            · exact Or.inl h
            · exact Or.inr ⟨q, i, hq.trans (List.prefix_append _ _), m1.back hi (by simp)⟩
          | ok u =>
            simp only
            obtain ⟨w3, r3, e3, m3, p3⟩ := w2.mkdir_spec env d c hn (m12.noLink hld)
            rw [e3]
            have m13 := m12.trans m3 (List.prefix_refl _)
            cases r3 with
            | ok u => exact ⟨_, _, rfl, m13, p3⟩
            | error e =>
              simp only
              apply htail w3 e m13
              cases e with
              | notFound => exact absurd p2 p3.1
              | _ =>
                obtain ⟨hnodes, h | ⟨q, i, hq, hi⟩ | ⟨hd, _, hx⟩⟩ := p3
                · exact Or.inl h
                · exact Or.inr (Or.inl ⟨q, i, hq.trans (List.prefix_append _ _), m12.back hi (by simp)⟩)
                · cases hy : w2.fs.nodes (d ++ [c]) with
                  | none => exact absurd hy hx
                  | some y =>
                    cases y with
                    | dir t =>
                      refine Or.inr (Or.inr ⟨t, by rw [hnodes]; exact hy, ?_⟩)
                      have := hd.concat hy
                      simpa [DirsTo, hnodes] using this
                    | file i => exact Or.inr (Or.inl ⟨_, i, List.prefix_refl _, m12.back hy (by simp)⟩)
                    | link t s => exact absurd (m12.back hy (by simp)) (hl _ (List.prefix_refl _) t s)
        | «exists» => exact htail w1 _ m1 (hother _ p1)
        | notDir => exact htail w1 _ m1 (hother _ p1)
        | isDir => exact htail w1 _ m1 (hother _ p1)
        | loop => exact htail w1 _ m1 (hother _ p1)
        | inval => exact htail w1 _ m1 (hother _ p1)
        | other => exact htail w1 _ m1 (hother _ p1)

end Arx
