import Verif.Proof.Shape
import Verif.Props.Extract
/-!
# The files an extraction has begun
-/
namespace Arx

theorem Shape.plain {cfg : XCfg} {m : PathMap} {fs0 fs : FS} (h : Shape cfg.base m fs0 fs) (S : XSetup cfg fs0 m) :
    PlainTarget fs cfg.base m where
  toWF := h.wf
  baseNames := S.plain.baseNames
  baseLinks q hq t s := h.noLinkBase S hq t s
  links p n hp hk t s := h.noLink S hp hk t s
  alias p n i q hp hi hq := by
    by_cases hlt : fs0.next ≤ i
    · exact h.inj q _ i hlt hq hi
    · -- both are as before
      have old : ∀ r, fs.nodes r = some (.file i) → fs0.nodes r = some (.file i) := by
        intro r hr
        by_cases h1 : r <+: cfg.base
        · rcases h.way r h1 with e | ⟨_, t, e⟩
          · rw [← e]; exact hr
          · rw [hr] at e; cases e
        · by_cases h2 : ∃ p n, m p = some n ∧ r = cfg.base ++ p
          · obtain ⟨p', n', h3, rfl⟩ := h2
            rcases h.kind p' n' h3 with e | e
            · rw [← e]; exact hr
            · exfalso
              rw [hr] at e
              unfold OfKind at e
              split at e
              · obtain ⟨_, e⟩ := e; cases e
              · obtain ⟨j, hj, e⟩ := e; cases e; exact hlt hj
              · rcases e with e | ⟨_, e⟩ <;> cases e
          · rw [← h.out r h1 (fun p n h3 h4 => h2 ⟨p, n, h3, h4⟩)]; exact hr
      exact S.plain.alias p n i q hp (old _ hi) (old _ hq)
  names := S.plain.names

/-- Every running or ended writer belongs to one file of the archive that has been visited; the other files are as
before. -/
structure Parts (cfg : XCfg) (fs0 : FS) (m : PathMap) (V : List Bytes → Prop) (w : World) : Prop where
  shape : Shape cfg.base m fs0 w.fs
  prog : Prog w
  jobs : ∀ i b, (i, b) ∈ w.jobs → ∃ p n s c, V p ∧ m p = some n ∧ n.kind = .file s c ∧ cfg.bytes c = .found b ∧
    w.fs.nodes (cfg.base ++ p) = some (.file i)
  rest : ∀ p n s c i, m p = some n → n.kind = .file s c → w.fs.nodes (cfg.base ++ p) = some (.file i) →
    i ∉ w.tasks.map Task.ino → fs0.nodes (cfg.base ++ p) = some (.file i) ∧ w.fs.data i = fs0.data i

section
variable {cfg : XCfg} {m : PathMap} {fs0 : FS} {w w' : World} {V : List Bytes → Prop}

theorem Parts.init (S : XSetup cfg fs0 m) : Parts cfg fs0 m (fun _ => False) (World.init fs0) where
  shape := Shape.init S
  prog := ⟨by simp [World.init], by simp [World.init], S.plain.inos⟩
  jobs i b h := by simp [World.jobs, World.init] at h
  rest p n s c i _ _ h _ := ⟨h, rfl⟩

theorem Parts.mono (h : Parts cfg fs0 m V w) {V' : List Bytes → Prop} (hv : ∀ p, V p → V' p) : Parts cfg fs0 m V' w where
  shape := h.shape
  prog := h.prog
  jobs i b hb := by obtain ⟨p, n, s, c, h1, h2⟩ := h.jobs i b hb; exact ⟨p, n, s, c, hv p h1, h2⟩
  rest := h.rest

/-- nothing happens to files -/
theorem Parts.frame (h : Parts cfg fs0 m V w) (hf : Frame w w') (hs : Shape cfg.base m fs0 w'.fs)
    (hn : ∀ p n s c, m p = some n → n.kind = .file s c → w'.fs.nodes (cfg.base ++ p) = w.fs.nodes (cfg.base ++ p)) :
    Parts cfg fs0 m V w' where
  shape := hs
  prog := ⟨hf.ok h.prog, by rw [map_ino_of hf.tasks]; exact h.prog.nodup, hs.wf.inos⟩
  jobs i b hb := by
    have e : w'.jobs = w.jobs := hf.tasks
    rw [e] at hb
    obtain ⟨p, n, s, c, h1, h2, h3, h4, h5⟩ := h.jobs i b hb
    exact ⟨p, n, s, c, h1, h2, h3, h4, by rw [hn p n s c h2 h3]; exact h5⟩
  rest p n s c i hm hk hx hi := by
    rw [map_ino_of hf.tasks] at hi
    rw [hn p n s c hm hk] at hx
    obtain ⟨h1, h2⟩ := h.rest p n s c i hm hk hx hi
    exact ⟨h1, by rw [hf.data i hi, h2]⟩

theorem Parts.steps (h : Parts cfg fs0 m V w) (l : List (Nat × WriteRes)) : Parts cfg fs0 m V (w.steps l) := by
  have e := (w.steps_fs l).1
  exact h.frame (Frame.steps w l (w.steps l).tick) (h.shape.steps l) (fun p n s c _ _ => by rw [e])

theorem Parts.pre (h : Parts cfg fs0 m V w) (env : Env) : Parts cfg fs0 m V (w.pre env) :=
  h.frame (Frame.pre env w) (h.shape.pre env) (fun p n s c _ _ => by rw [World.pre_nodes])

theorem Parts.mkdirs (h : Parts cfg fs0 m V w) (S : XSetup cfg fs0 m) {p : List Bytes} (hp : DirTarget cfg m p) :
    Parts cfg fs0 m V (cfg.mkdirs w p).1 := by
  have hs := h.shape.mkdirs S hp
  have hl : NoLinkTo w.fs p := by
    intro q hq
    rcases hp with hp | ⟨r, n, rfl, h1, h2⟩
    · exact h.shape.noLinkBase S (hq.trans hp)
    · rcases nil_or_snoc r with rfl | ⟨r', c', rfl⟩
      · exact absurd rfl (S.ne_nil h1)
      · rw [← List.append_assoc] at hq
        rcases prefix_concat.mp hq with rfl | hq
        · rw [List.append_assoc]; exact h.shape.noLink S h1 (by rw [h2]; simp)
        · exact h.shape.noLinkTo S h1 q hq
  obtain ⟨w1, r1, e1, m1, _⟩ := World.createDirAll_spec cfg.env (p.length + 1) p w (by omega) (hp.plain S) h.shape.wf.root hl
  have e2 : (cfg.mkdirs w p).1 = w1 := by
    simp only [XCfg.mkdirs, e1]; cases r1 <;> rfl
  rw [e2] at hs ⊢
  refine h.frame m1.frame hs ?_
  intro p' n' s c hm hk
  rcases m1.nodes (cfg.base ++ p') with e | ⟨hpre, _⟩
  · exact e
  · exfalso
    rcases hp with hp | ⟨r, n, rfl, h1, h2⟩
    · exact not_prefix_base (S.ne_nil hm) (hpre.trans hp)
    · rw [List.prefix_append_right_inj] at hpre
      by_cases he : p' = r
      · subst he; rw [hm] at h1; cases h1; rw [hk] at h2; cases h2
      · obtain ⟨k, hk', hkd⟩ := S.above _ (Nat.le_refl _) h1 hpre (S.ne_nil hm) he
        rw [hm] at hk'; cases hk'
        rw [hk] at hkd; cases hkd

theorem Parts.sysMtime (h : Parts cfg fs0 m V w) (env : Env) (follow : Bool) (p : List Bytes) :
    Parts cfg fs0 m V (w.sys env (fun fs => fs.mtime follow p)).1 := by
  rcases w.sys_cases env (fun fs => fs.mtime follow p) with ⟨e, h1, _⟩ | ⟨x, fs, _, ho, h1⟩
  · rw [h1]; exact h.pre env
  · rw [h1]
    have : fs = (w.pre env).fs := by
      simp only [FS.mtime] at ho
      split at ho
      · cases ho
      · cases ho
      · unfold FS.mtimeAt at ho
        split at ho <;> cases ho <;> rfl
    rw [this]; exact h.pre env

/-- only directory entries where a link of the archive goes change -/
theorem Parts.setLink (h : Parts cfg fs0 m V w) (env : Env) {p : List Bytes} {n : Node} {t : Bytes} (hm : m p = some n)
    (hk : n.kind = .link t) {N : List Bytes → Option FNode} (hN : ∀ q, q ≠ cfg.base ++ p → N q = w.fs.nodes q)
    (hs : Shape cfg.base m fs0 { (w.pre env).fs with nodes := N }) :
    Parts cfg fs0 m V { w.pre env with fs := { (w.pre env).fs with nodes := N } } := by
  refine h.frame ((Frame.pre env w).nodes N) hs ?_
  intro p' n' s c hm' hk'
  refine hN _ ?_
  rw [Ne, List.append_cancel_left_eq]
  rintro rfl
  rw [hm] at hm'; cases hm'
  rw [hk] at hk'; cases hk'

section
variable {r : List Bytes} {c : Bytes} {n : Node} (hm : m (r ++ [c]) = some n)
include hm

theorem Parts.sysSymlink (h : Parts cfg fs0 m V w) (S : XSetup cfg fs0 m) {t : Bytes} (hk : n.kind = .link t) :
    Parts cfg fs0 m V (w.sys cfg.env (fun fs => fs.symlink t (cfg.base ++ (r ++ [c])))).1 := by
  have hs := h.shape.sysSymlink hm S hk
  have hn := S.absNames hm
  have habs : cfg.base ++ (r ++ [c]) = (cfg.base ++ r) ++ [c] := by simp
  rcases w.sys_cases cfg.env (fun fs => fs.symlink t (cfg.base ++ (r ++ [c]))) with ⟨e, h1, _⟩ | ⟨x, fs, _, ho, h1⟩
  · rw [h1]; exact h.pre cfg.env
  · rw [h1] at hs ⊢
    simp only [FS.symlink] at ho
    split at ho
    · cases ho
    · split at ho
      · cases ho
      · split at ho
        · cases ho
        · cases ho
        · rename_i d c' hr
          cases ho
          have hloc : d ++ [c'] = cfg.base ++ (r ++ [c]) := by
            rw [habs] at hr ⊢
            have hp := h.shape.pre cfg.env
            by_cases hd : DirsTo (w.pre cfg.env).fs (cfg.base ++ r)
            · rw [FS.resolve_concat hn hd (by simp)] at hr
              split at hr <;> cases hr
              rfl
            · rcases FS.resolve_broken (follow := false) hn (hp.noLinkTo S hm) hd with e | ⟨e, _⟩ <;> (rw [e] at hr; cases hr)
          refine h.setLink cfg.env hm hk (fun q hq => ?_) hs
          simp only [hloc, if_neg hq, World.pre_nodes]

theorem Parts.sysRemove (h : Parts cfg fs0 m V w) (S : XSetup cfg fs0 m) {t : Bytes} (hk : n.kind = .link t) :
    Parts cfg fs0 m V (w.sys cfg.env (fun fs => fs.removeFile (cfg.base ++ (r ++ [c])))).1 := by
  have hs := h.shape.sysRemove hm S hk
  have hn := S.absNames hm
  have habs : cfg.base ++ (r ++ [c]) = (cfg.base ++ r) ++ [c] := by simp
  rcases w.sys_cases cfg.env (fun fs => fs.removeFile (cfg.base ++ (r ++ [c]))) with ⟨e, h1, _⟩ | ⟨x, fs, _, ho, h1⟩
  · rw [h1]; exact h.pre cfg.env
  · rw [h1] at hs ⊢
    simp only [FS.removeFile] at ho
    split at ho
    · cases ho
    · cases ho
    · rename_i q hr
      have hloc : q = cfg.base ++ (r ++ [c]) := by
        rw [habs] at hr ⊢
        have hp := h.shape.pre cfg.env
        by_cases hd : DirsTo (w.pre cfg.env).fs (cfg.base ++ r)
        · rw [FS.resolve_concat hn hd (by simp)] at hr
          split at hr <;> cases hr
          rfl
        · rcases FS.resolve_broken (follow := false) hn (hp.noLinkTo S hm) hd with e | ⟨e, _⟩ <;> (rw [e] at hr; cases hr)
      split at ho
      · cases ho
      · cases ho
        refine h.setLink cfg.env hm hk (fun q' hq => ?_) hs
        simp only [hloc, if_neg hq, World.pre_nodes]

theorem Parts.writeLink (h : Parts cfg fs0 m V w) (S : XSetup cfg fs0 m) {t : Bytes} (hk : n.kind = .link t)
    (mt : Nat) : Parts cfg fs0 m V (cfg.writeLink w (cfg.base ++ (r ++ [c])) mt t).1 := by
  have hrep : ∀ {w : World}, Parts cfg fs0 m V w →
      Parts cfg fs0 m V (match w.sys cfg.env (fun fs => fs.removeFile (cfg.base ++ (r ++ [c]))) with
        | (w, .error e) => (w, (Except.error (EErr.host e) : Except EErr Unit))
        | (w, .ok ()) =>
          match w.sys cfg.env (fun fs => fs.symlink t (cfg.base ++ (r ++ [c]))) with
          | (w, .error e) => (w, .error (.host e))
          | (w, .ok ()) => (w, .ok ())).1 := by
    intro w h
    have h1 := h.sysRemove hm S hk
    revert h1
    cases w.sys cfg.env (fun fs => fs.removeFile (cfg.base ++ (r ++ [c]))) with
    | mk w1 r1 =>
      intro h1
      cases r1 with
      | error e => exact h1
      | ok u =>
        simp only
        have h2 := h1.sysSymlink hm S hk
        revert h2
        cases w1.sys cfg.env (fun fs => fs.symlink t (cfg.base ++ (r ++ [c]))) with
        | mk w2 r2 => cases r2 <;> exact id
  have h1 := h.sysSymlink hm S hk
  simp only [XCfg.writeLink]
  revert h1
  cases w.sys cfg.env (fun fs => fs.symlink t (cfg.base ++ (r ++ [c]))) with
  | mk w1 r1 =>
    intro h1
    cases r1 with
    | ok i => exact h1
    | error e =>
      cases e with
      | «exists» =>
        simp only
        cases cfg.mode with
        | skip => exact h1
        | warn => exact h1
        | error => exact h1
        | overwrite => exact hrep h1
        | newer =>
          simp only
          have h2 := h1.sysMtime cfg.env false (cfg.base ++ (r ++ [c]))
          revert h2
          cases w1.sys cfg.env (fun fs => fs.mtime false (cfg.base ++ (r ++ [c]))) with
          | mk w2 r2 =>
            intro h2
            cases r2 with
            | error e => exact h2
            | ok u =>
              simp only
              cases newTime mt with
              | none => exact h2
              | some v =>
                simp only
                split
                · exact hrep h2
                · exact h2
      | _ => exact h1

/-- the file of an entry not yet visited has no writer -/
theorem Parts.not_owned (h : Parts cfg fs0 m V w) (S : XSetup cfg fs0 m) (hv : ¬ V (r ++ [c])) {i : Nat}
    (hx : w.fs.nodes (cfg.base ++ (r ++ [c])) = some (.file i)) : i ∉ w.tasks.map Task.ino := by
  intro hc
  obtain ⟨b, hb⟩ := World.jobs_ino.mp hc
  obtain ⟨p, n', s, c', h1, h2, _, _, h5⟩ := h.jobs i b hb
  have := (h.shape.plain S).alias _ _ i _ hm hx h5
  rw [List.append_cancel_left_eq] at this
  subst this
  exact hv h1

/-- a file is opened, empty, and a writer started -/
theorem Parts.opened (h : Parts cfg fs0 m V w) (hv : ¬ V (r ++ [c])) {s : Nat} {a : ContentAddr} {b : Bytes} (hk : n.kind = .file s a)
    (hb : cfg.bytes a = .found b) {i : Nat} {fs : FS} (hi : i ∉ w.tasks.map Task.ino)
    (hN : ∀ q, q ≠ cfg.base ++ (r ++ [c]) → fs.nodes q = w.fs.nodes q) (hNp : fs.nodes (cfg.base ++ (r ++ [c])) = some (.file i))
    (hdata : fs.data = fun j => if j = i then ⟨[], w.fs.now⟩ else w.fs.data j) (hnow : fs.now = w.fs.now) (hle : w.fs.next ≤ fs.next)
    (hs : Shape cfg.base m fs0 fs) :
    Parts cfg fs0 m (fun q => V q ∨ q = r ++ [c]) (World.spawn { w with fs := fs } i b) := by
  have hinos : (World.spawn { w with fs := fs } i b).tasks.map Task.ino = w.tasks.map Task.ino ++ [i] := by simp [World.spawn]
  have hjobs : (World.spawn { w with fs := fs } i b).jobs = w.jobs ++ [(i, b)] := by simp [World.spawn, World.jobs]
  have hilt : i < fs.next := hs.wf.inos _ _ hNp
  refine ⟨hs, ⟨?_, ?_, hs.wf.inos⟩, ?_, ?_⟩
  · intro t ht
    simp only [World.spawn, List.mem_append, List.mem_singleton] at ht
    rcases ht with ht | rfl
    · have hti : t.ino ≠ i := by rintro rfl; exact hi (List.mem_map_of_mem ht)
      have h1 := h.prog.ok t ht
      have h2 := h1.lt
      exact ⟨by simp [World.spawn, hdata, if_neg hti, h1.bytes], h1.off, h1.done, by simp [World.spawn, hdata, if_neg hti, h1.mtime, hnow],
        Nat.lt_of_lt_of_le h2 hle⟩
    · exact ⟨by simp [World.spawn, hdata], by simp, by simp, by simp [World.spawn, hdata, hnow], hilt⟩
  · rw [hinos, List.nodup_append]
    refine ⟨h.prog.nodup, by simp, ?_⟩
    intro x hx y hy
    simp only [List.mem_singleton] at hy
    subst hy
    rintro rfl
    exact hi hx
  · intro j b' hj
    rw [hjobs, List.mem_append, List.mem_singleton] at hj
    rcases hj with hj | hj
    · obtain ⟨p, n', s', c', h1, h2, h3, h4, h5⟩ := h.jobs j b' hj
      refine ⟨p, n', s', c', Or.inl h1, h2, h3, h4, ?_⟩
      by_cases e : cfg.base ++ p = cfg.base ++ (r ++ [c])
      · rw [List.append_cancel_left_eq] at e
        subst e
        exact absurd h1 hv
      · show fs.nodes (cfg.base ++ p) = _
        rw [hN _ e]; exact h5
    · cases hj
      exact ⟨r ++ [c], n, s, a, Or.inr rfl, hm, hk, hb, hNp⟩
  · intro p n' s' c' j hm' hk' hx hj
    rw [hinos, List.mem_append, List.mem_singleton, not_or] at hj
    have e : cfg.base ++ p ≠ cfg.base ++ (r ++ [c]) := by
      intro e
      have hx' : fs.nodes (cfg.base ++ p) = some (.file j) := hx
      rw [e, hNp] at hx'
      cases hx'
      exact hj.2 rfl
    have hx' : fs.nodes (cfg.base ++ p) = some (.file j) := hx
    rw [hN _ e] at hx'
    obtain ⟨h1, h2⟩ := h.rest p n' s' c' j hm' hk' hx' hj.1
    refine ⟨h1, ?_⟩
    show fs.data j = fs0.data j
    rw [hdata]; simp only [if_neg hj.2]; exact h2

theorem Parts.sysOpenSpawn (h : Parts cfg fs0 m V w) (S : XSetup cfg fs0 m) (hv : ¬ V (r ++ [c])) {s : Nat} {a : ContentAddr}
    {b : Bytes} (hk : n.kind = .file s a) (hb : cfg.bytes a = .found b) :
    Parts cfg fs0 m (fun q => V q ∨ q = r ++ [c])
      (match w.sys cfg.env (fun fs => fs.openTrunc (cfg.base ++ (r ++ [c]))) with
        | (w, .error e) => (w, (Except.error (EErr.host e) : Except EErr Unit))
        | (w, .ok ino) => (w.spawn ino b, Except.ok ())).1 := by
  have hs := h.shape.sysOpen hm
  have hp := h.pre cfg.env
  have hn := S.absNames hm
  have habs : cfg.base ++ (r ++ [c]) = (cfg.base ++ r) ++ [c] := by simp
  rcases w.sys_cases cfg.env (fun fs => fs.openTrunc (cfg.base ++ (r ++ [c]))) with ⟨e, h1, _⟩ | ⟨x, fs, _, ho, h1⟩
  · rw [h1]; exact hp.mono (fun _ => Or.inl)
  · rw [h1] at hs ⊢
    simp only at ho hs ⊢
    by_cases hd : DirsTo (w.pre cfg.env).fs (cfg.base ++ r)
    · rw [habs, FS.openTrunc_plain hn hd (by
        rw [← habs]; exact hp.shape.noLink S hm (by rw [hk]; simp)), ← habs] at ho
      split at ho
      · rename_i i hx
        cases ho
        exact hp.opened hm hv hk hb (hp.not_owned hm S hv hx) (fun q _ => rfl) hx rfl rfl (Nat.le_refl _) hs
      · cases ho
      · cases ho
    · simp only [FS.openTrunc] at ho
      rw [habs] at ho
      rcases FS.resolve_broken (follow := true) hn (hp.shape.noLinkTo S hm) hd with e | ⟨e, _⟩ <;> (rw [e] at ho; cases ho)

theorem Parts.writeFile (h : Parts cfg fs0 m V w) (S : XSetup cfg fs0 m) (hv : ¬ V (r ++ [c])) {s : Nat} {a : ContentAddr}
    {b : Bytes} (hk : n.kind = .file s a) (hb : cfg.bytes a = .found b) (mt : Nat) :
    Parts cfg fs0 m (fun q => V q ∨ q = r ++ [c]) (cfg.writeFile w (cfg.base ++ (r ++ [c])) mt b).1 := by
  have hs := h.shape.sysCreate hm S hk
  have hp := h.pre cfg.env
  have hn := S.absNames hm
  have habs : cfg.base ++ (r ++ [c]) = (cfg.base ++ r) ++ [c] := by simp
  simp only [XCfg.writeFile]
  rcases w.sys_cases cfg.env (fun fs => fs.createNew (cfg.base ++ (r ++ [c]))) with ⟨e, h1, _⟩ | ⟨x, fs, _, ho, h1⟩
  · rw [h1]
    have hweak := hp.mono (V' := fun q => V q ∨ q = r ++ [c]) (fun _ => Or.inl)
    cases e with
    | «exists» =>
      simp only
      cases cfg.mode with
      | skip => exact hweak
      | warn => exact hweak
      | error => exact hweak
      | overwrite => exact hp.sysOpenSpawn hm S hv hk hb
      | newer =>
        simp only
        have h2 := hp.sysMtime cfg.env true (cfg.base ++ (r ++ [c]))
        revert h2
        cases (w.pre cfg.env).sys cfg.env (fun fs => fs.mtime true (cfg.base ++ (r ++ [c]))) with
        | mk w2 r2 =>
          intro h2
          have hweak := h2.mono (V' := fun q => V q ∨ q = r ++ [c]) (fun _ => Or.inl)
          cases r2 with
          | error e => exact hweak
          | ok t =>
            simp only
            cases newTime mt with
            | none => exact hweak
            | some u =>
              simp only
              split
              · exact h2.sysOpenSpawn hm S hv hk hb
              · exact hweak
    | _ => exact hweak
  · rw [h1] at hs ⊢
    simp only at ho hs ⊢
    by_cases hd : DirsTo (w.pre cfg.env).fs (cfg.base ++ r)
    · rw [habs, FS.createNew_plain hn hd, ← habs] at ho
      by_cases hx : (w.pre cfg.env).fs.nodes (cfg.base ++ (r ++ [c])) = none
      · rw [if_pos hx] at ho; cases ho
        refine hp.opened hm hv hk hb ?_ (fun q hq => ?_) ?_ rfl rfl (Nat.le_succ _) hs
        · intro hc
          obtain ⟨t, ht, e⟩ := List.mem_map.mp hc
          have := (hp.prog.ok t ht).lt
          omega
        · simp [FS.set, FS.setData, hq]
        · simp [FS.set, FS.setData]
      · rw [if_neg hx] at ho; cases ho
    · simp only [FS.createNew] at ho
      rw [habs] at ho
      rcases FS.resolve_broken (follow := false) hn (hp.shape.noLinkTo S hm) hd with e | ⟨e, _⟩ <;> (rw [e] at ho; cases ho)

end
end

/-! ## The walk -/

section
variable {cfg : XCfg} {fs0 : FS} {M : PathMap} {P : List (List Bytes)} {d0 : List Bytes}

def PInv (cfg : XCfg) (fs0 : FS) (M : PathMap) (d0 : List Bytes) (d : List Bytes) (V : List Bytes → Prop) (ctx : XCtx) : Prop :=
  ∃ r, d = d0 ++ r ∧ ctx.cur = joinPath r ∧ Parts cfg fs0 (M.sub d0) (fun q => V (d0 ++ q)) ctx.w

def PErrd (cfg : XCfg) (fs0 : FS) (M : PathMap) (d0 : List Bytes) (ctx : XCtx) : Prop :=
  ∃ V, Parts cfg fs0 (M.sub d0) V ctx.w

theorem Good.partsRule (G : Good cfg.a M P) (T : PlainTarget fs0 cfg.base (M.sub d0)) :
    WalkRule P (cfg.a.entOf P extractBuilder) (extractor cfg) (PInv cfg fs0 M d0) (PErrd cfg fs0 M d0) := by
  have S := xsetup G.wf d0 T
  have prep : ∀ {d c V ctx}, d ++ [c] ∈ P → PInv cfg fs0 M d0 d V ctx → ∃ r n, d = d0 ++ r ∧ M.sub d0 (r ++ [c]) = some n ∧
      M (d ++ [c]) = some n ∧ ctx.cur = joinPath r ∧ RPath.push ctx.cur c = joinPath (r ++ [c]) ∧
      comps (joinPath (r ++ [c])) = r ++ [c] ∧ (∀ x ∈ r ++ [c], x ≠ CUR) ∧ (∀ x ∈ r ++ [c], ValidName x) ∧
      Parts cfg fs0 (M.sub d0) (fun q => V (d0 ++ q)) ctx.w := by
    rintro d c V ctx hp ⟨r, rfl, h1, h4⟩
    obtain ⟨n, hn⟩ := (G.dom _).mp hp
    have hm : M.sub d0 (r ++ [c]) = some n := by rw [PathMap.sub_ne (by simp)]; simpa using hn
    have hval := S.valid _ _ hm
    refine ⟨r, n, rfl, hm, hn, h1, ?_, comps_joinPath hval, fun x hx => (S.plain.names _ _ hm x hx).1, hval, h4⟩
    rw [h1, push_joinPath (fun x hx => hval x (by simp [hx])) (hval c (by simp))]
  have notV : ∀ {d c : _} {V : List Bytes → Prop} {r : List Bytes}, d = d0 ++ r → (∀ p, V p → ¬ d ++ [c] <+: p) →
      ¬ V (d0 ++ (r ++ [c])) := by
    rintro d c V r rfl hV hv
    exact hV _ hv (by simp)
  have more : ∀ {d c : _} {V : List Bytes → Prop} {r : List Bytes} {w : World}, d = d0 ++ r → d ++ [c] ∈ P →
      Parts cfg fs0 (M.sub d0) (fun q => V (d0 ++ q) ∨ q = r ++ [c]) w →
      Parts cfg fs0 (M.sub d0) (fun q => V (d0 ++ q) ∨ (d0 ++ q ∈ P ∧ d ++ [c] <+: d0 ++ q)) w := by
    rintro d c V r w rfl hp h
    refine h.mono ?_
    rintro q (hv | rfl)
    · exact Or.inl hv
    · exact Or.inr ⟨by simpa using hp, by simp⟩
  refine ⟨?_, ?_, ?_, ?_, ?_⟩
  · rintro d c V x ctx hp ⟨r, _, _, h⟩ _ _; exact ⟨_, h⟩
  · intro d c V e ctx hp hI hV he
    obtain ⟨r, n, hd, hm, hM, hcur, hpush, hcomps, hncur, hval, hX⟩ := prep hp hI
    have hnv := notV hd hV
    obtain ⟨n', hn', h⟩ := G.xent hp
    rw [hM] at hn'; cases hn'
    rw [he] at h
    obtain ⟨hname, ⟨s, hk⟩, hmt⟩ := h
    have hweak := more hd hp (hX.mono (fun _ => Or.inl))
    simp only [extractor, XCfg.onFile, hname, hpush]
    split
    · rename_i e1; split at e1
      · cases e1; exact ⟨r, hd, hcur, hweak⟩
      · split at e1
        · cases e1
        · cases e1; exact ⟨r, hd, hcur, hweak⟩
        · rename_i b hb
          have := hX.writeFile hm S hnv hk hb e.mtime
          rw [XCfg.absPath, hcomps] at e1
          obtain ⟨e1, _⟩ := Prod.mk.injEq .. ▸ e1
          rw [← e1]; exact ⟨r, hd, hcur, more hd hp this⟩
    · rename_i e1; split at e1
      · cases e1
      · split at e1
        · cases e1; exact ⟨_, hX⟩
        · cases e1
        · rename_i b hb
          have := hX.writeFile hm S hnv hk hb e.mtime
          rw [XCfg.absPath, hcomps] at e1
          obtain ⟨e1, _⟩ := Prod.mk.injEq .. ▸ e1
          rw [← e1]; exact ⟨_, this⟩
  · intro d c V e ctx hp hI hV he
    obtain ⟨r, n, hd, hm, hM, hcur, hpush, hcomps, hncur, hval, hX⟩ := prep hp hI
    obtain ⟨n', hn', h⟩ := G.xent hp
    rw [hM] at hn'; cases hn'
    rw [he] at h
    obtain ⟨hname, hk, hmt, hu⟩ := h
    simp only [extractor, XCfg.onLink, hname, hpush]
    have hw := hX.writeLink hm S hk e.mtime
    split
    · rename_i e1; split at e1
      · cases e1; exact ⟨r, hd, hcur, more hd hp (hX.mono (fun _ => Or.inl))⟩
      · rw [XCfg.absPath, hcomps] at e1
        obtain ⟨e1, _⟩ := Prod.mk.injEq .. ▸ e1
        rw [← e1]; exact ⟨r, hd, hcur, more hd hp (hw.mono (fun _ => Or.inl))⟩
    · rename_i e1; split at e1
      · cases e1
      · rw [XCfg.absPath, hcomps] at e1
        obtain ⟨e1, _⟩ := Prod.mk.injEq .. ▸ e1
        rw [← e1]; exact ⟨_, hw⟩
  · intro d c V rg e ctx hp hI hV he
    obtain ⟨r, n, hd, hm, hM, hcur, hpush, hcomps, hncur, hval, hX⟩ := prep hp hI
    obtain ⟨n', hn', h⟩ := G.xent hp
    rw [hM] at hn'; cases hn'
    rw [he] at h
    obtain ⟨hname, hk⟩ := h
    have hw := hX.mkdirs S (p := cfg.base ++ (r ++ [c])) (Or.inr ⟨_, n, rfl, hm, hk⟩)
    simp only [extractor, XCfg.onEnter, hname, hpush]
    cases cfg.shouldExtract (joinPath (r ++ [c])) true with
    | false => exact ⟨r ++ [c], by rw [hd]; simp, rfl, hX.mono (fun _ => Or.inl)⟩
    | true =>
      simp only [Bool.not_true, Bool.false_eq_true, if_false]
      rw [XCfg.absPath, hcomps]
      revert hw
      cases cfg.mkdirs ctx.w (cfg.base ++ (r ++ [c])) with
      | mk w' res =>
        cases res with
        | error x => exact fun hw => ⟨_, hw⟩
        | ok u => intro hw; exact ⟨r ++ [c], by rw [hd]; simp, rfl, hw.mono (fun _ => Or.inl)⟩
  · intro d c V rg e ctx hp hI0 hI he
    obtain ⟨V0, ctx0, hI0, hV0⟩ := hI0
    obtain ⟨r, n, hd, hm, hM, _, _, hcomps, hncur, hval, _⟩ := prep hp hI0
    obtain ⟨r2, hr, hcur, hX⟩ := hI
    subst hd
    rw [List.append_assoc, List.append_cancel_left_eq] at hr
    subst hr
    simp only [extractor]
    refine ⟨r, rfl, ?_, hX⟩
    simp only [hcur]
    exact pop_joinPath (fun x hx => hval x (by simp [hx])) (hval c (by simp)) (hncur c (by simp))

/-- However an extraction to a plain target ends, and whatever the writers have done so far. -/
theorem Good.parts (G : Good cfg.a M P) (T : PlainTarget fs0 cfg.base (M.sub d0)) {rg : Range}
    (hrg : RangeIs P d0 rg.offset rg.count) {depth : Nat} (hdepth : cfg.a.entries.length < depth)
    (last : List (Nat × WriteRes)) :
    ∃ V, Parts cfg fs0 (M.sub d0) V (cfg.extractRange depth rg fs0 last).1 := by
  have S := xsetup G.wf d0 T
  have hstart := Parts.mkdirs (w := World.init fs0) (Parts.init S) S (p := cfg.base) (Or.inl (List.prefix_refl _))
  have key : PErrd cfg fs0 M d0 (cfg.a.walkFrom extractBuilder (extractor cfg) depth rg ⟨[], World.init fs0⟩).1 := by
    simp only [Archive.walkFrom]
    have e1 : (extractor cfg).onStart ⟨[], World.init fs0⟩ =
      (⟨[], (cfg.mkdirs (World.init fs0) cfg.base).1⟩, (cfg.mkdirs (World.init fs0) cfg.base).2) := rfl
    have e2 : ∀ c, (extractor cfg).onStop c = (c, .ok ()) := fun _ => rfl
    rw [e1]
    revert hstart
    cases cfg.mkdirs (World.init fs0) cfg.base with
    | mk w1 r1 =>
      cases r1 with
      | error x => exact fun h => ⟨_, h⟩
      | ok u =>
        intro hstart
        simp only [e2, liftOp]
        have hI : PInv cfg fs0 M d0 d0 (fun _ => False) ⟨[], w1⟩ := ⟨[], by simp, rfl, hstart⟩
        have hrule := specWalk_rule (G.partsRule T) (fun d => (G.kidsOf d).1) (by
          intro p hp q hq hpre
          obtain ⟨n, hn⟩ := (G.dom p).mp hp
          by_cases hqp : q = p
          · subst hqp; exact hp
          · obtain ⟨k, hk, _⟩ := G.wf.ancestors p n q hn ⟨hq, hqp, hpre⟩
            exact (G.dom q).mpr ⟨k, hk⟩) depth d0 (fun _ => False) ⟨[], w1⟩ (G.deepEnough hdepth d0) hI (fun p hp => hp.elim)
        rw [← G.walkRange_eq extractBuilder (extractor cfg) depth d0 rg ⟨[], w1⟩ hrg] at hrule
        revert hrule
        cases cfg.a.walkRange extractBuilder (extractor cfg) depth rg (⟨[], w1⟩ : XCtx) with
        | mk c2 r2 =>
          cases r2 with
          | error x => exact id
          | ok u => rintro ⟨r, _, _, h⟩; exact ⟨_, h⟩
  have : (cfg.extractRange depth rg fs0 last).1 =
      (cfg.a.walkFrom extractBuilder (extractor cfg) depth rg ⟨[], World.init fs0⟩).1.w.steps last := by
    simp only [XCfg.extractRange]; split <;> rfl
  rw [this]
  obtain ⟨V, key⟩ := key
  exact ⟨V, key.steps last⟩

end
end Arx
