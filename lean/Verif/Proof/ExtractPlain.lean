import Verif.Proof.HostProof
import Verif.Proof.SelectProof
import Verif.Proof.WalkRule
/-!
# Extraction to a plain target: the invariant of the walk
-/
namespace Arx

/-! ## Calls at a plain path whose directory exists -/

section
variable {fs : FS} {d : List Bytes} {c : Bytes} (hn : ∀ x ∈ d ++ [c], PlainName x) (hd : DirsTo fs d)
include hn hd

theorem FS.createNew_plain : fs.createNew (d ++ [c]) =
    if fs.nodes (d ++ [c]) = none then
      .ok (fs.next, { (fs.set (d ++ [c]) (some (.file fs.next))).setData fs.next ⟨[], fs.now⟩ with next := fs.next + 1 })
    else .error .exists := by
  obtain ⟨h1, h2, _⟩ := hn c (by simp)
  rw [FS.createNew, FS.resolve_concat hn hd (by simp)]
  split
  · rename_i hx; cases hx
  · rename_i hx
    by_cases h : fs.nodes (d ++ [c]) = none
    · rw [if_pos h] at hx; cases hx
    · rw [if_neg h]; simp [h1, h2]
  · rename_i hx
    by_cases h : fs.nodes (d ++ [c]) = none
    · rw [if_pos h] at hx ⊢; cases hx; rfl
    · rw [if_neg h] at hx; cases hx

theorem FS.symlink_plain {t : Bytes} (ht : (0 : UInt8) ∉ t) (hne : t ≠ []) : fs.symlink t (d ++ [c]) =
    if fs.nodes (d ++ [c]) = none then .ok ((), fs.set (d ++ [c]) (some (.link t fs.now))) else .error .exists := by
  have h0 : t.contains 0 = false := by simpa using ht
  rw [FS.symlink, h0, FS.resolve_concat hn hd (by simp)]
  simp only [Bool.false_eq_true, if_false, if_neg hne]
  split
  · rename_i hx; cases hx
  · rename_i hx
    by_cases h : fs.nodes (d ++ [c]) = none
    · rw [if_pos h] at hx; cases hx
    · rw [if_neg h]
  · rename_i hx
    by_cases h : fs.nodes (d ++ [c]) = none
    · rw [if_pos h] at hx ⊢; cases hx; rfl
    · rw [if_neg h] at hx; cases hx

theorem FS.openTrunc_plain (hl : ∀ t s, fs.nodes (d ++ [c]) ≠ some (.link t s)) : fs.openTrunc (d ++ [c]) =
    match fs.nodes (d ++ [c]) with
    | some (.file i) => .ok (i, fs.setData i ⟨[], fs.now⟩)
    | some _ => .error .isDir
    | none => .error .notFound := by
  rw [FS.openTrunc, FS.resolve_concat hn hd (fun _ => hl)]
  cases hx : fs.nodes (d ++ [c]) with
  | none => simp
  | some x => cases x <;> simp [hx]

theorem FS.mtime_plain {follow : Bool} (hl : follow = true → ∀ t s, fs.nodes (d ++ [c]) ≠ some (.link t s))
    {x : FNode} (hx : fs.nodes (d ++ [c]) = some x) : fs.mtime follow (d ++ [c]) = .ok (fs.timeOf x, fs) := by
  rw [FS.mtime, FS.resolve_concat hn hd hl]
  simp only [hx, reduceCtorEq, if_false]
  cases x <;> simp [FS.mtimeAt, hx, FS.timeOf]

theorem FS.removeFile_dir {u : Int} (hx : fs.nodes (d ++ [c]) = some (.dir u)) : fs.removeFile (d ++ [c]) = .error .isDir := by
  rw [FS.removeFile, FS.resolve_concat hn hd (by simp)]
  simp [hx]

theorem FS.removeFile_plain {x : FNode} (hx : fs.nodes (d ++ [c]) = some x) (hnd : ∀ u, x ≠ .dir u) :
    fs.removeFile (d ++ [c]) = .ok ((), fs.set (d ++ [c]) none) := by
  rw [FS.removeFile, FS.resolve_concat hn hd (by simp)]
  simp only [hx, reduceCtorEq, if_false]
  cases x with
  | dir u => exact absurd rfl (hnd u)
  | file i => simp
  | link t s => simp
end

/-- A call either fails for an external reason or behaves as the operation on the current entries. -/
theorem World.sys_or {α : Type} (env : Env) (w : World) (op : FS → Except HErr (α × FS)) :
    ((∃ n, env.fault n = true) ∧ w.sys env op = (w.pre env, .error .other)) ∨
    w.sys env op = (match op (w.pre env).fs with
      | .error e => (w.pre env, .error e)
      | .ok (x, fs) => ({ w.pre env with fs := fs }, .ok x)) := by
  simp only [World.sys]
  cases hf : env.fault w.tick with
  | true => left; exact ⟨⟨_, hf⟩, by simp⟩
  | false => right; simp only [Bool.false_eq_true, if_false]; cases op (w.pre env).fs <;> rfl

/-! ## The invariant -/

/-- `(i, b)`: some writer writes content `b` to inode `i`. -/
def World.jobs (w : World) : List (Nat × Bytes) := w.tasks.map (fun t => (t.ino, t.bytes))

theorem World.jobs_ino {w : World} {i : Nat} : i ∈ w.tasks.map Task.ino ↔ ∃ b, (i, b) ∈ w.jobs := by
  simp only [World.jobs, List.mem_map, Prod.mk.injEq]
  constructor
  · rintro ⟨t, ht, rfl⟩; exact ⟨t.bytes, t, ht, rfl, rfl⟩
  · rintro ⟨b, t, ht, h1, h2⟩; exact ⟨t, ht, h1⟩

/-- State of the target of a processed and selected entry. -/
def Expect (cfg : XCfg) (fs0 : FS) (w : World) (p : List Bytes) (n : Node) : Prop :=
  match n.kind with
  | .dir => (∃ t, w.fs.nodes (cfg.base ++ p) = some (.dir t)) ∧
      ∀ x, fs0.nodes (cfg.base ++ p) = some x → w.fs.nodes (cfg.base ++ p) = some x
  | .file _ addr =>
    match cfg.bytes addr with
    | .found b =>
      match fs0.nodes (cfg.base ++ p) with
      | none => ∃ i, w.fs.nodes (cfg.base ++ p) = some (.file i) ∧ fs0.next ≤ i ∧ (i, b) ∈ w.jobs
      | some x => cfg.mode ≠ .error ∧ w.fs.nodes (cfg.base ++ p) = some x ∧
        (Replaces cfg.mode n.info.mtime (fs0.timeOf x) → ∃ i, x = .file i ∧ (i, b) ∈ w.jobs) ∧
        (cfg.mode = .newer → n.info.mtime < 2 ^ 63)
    | .missing => w.fs.nodes (cfg.base ++ p) = fs0.nodes (cfg.base ++ p)
    | .err => False
  | .link target => LinkText target ∧
    match fs0.nodes (cfg.base ++ p) with
    | none => ∃ t, w.fs.nodes (cfg.base ++ p) = some (.link target t)
    | some x => cfg.mode ≠ .error ∧
      (Replaces cfg.mode n.info.mtime (fs0.timeOf x) →
        (∀ t, x ≠ .dir t) ∧ ∃ t, w.fs.nodes (cfg.base ++ p) = some (.link target t)) ∧
      (¬ Replaces cfg.mode n.info.mtime (fs0.timeOf x) → w.fs.nodes (cfg.base ++ p) = some x) ∧
      (cfg.mode = .newer → n.info.mtime < 2 ^ 63)

theorem Expect.mono {cfg : XCfg} {fs0 : FS} {w w' : World} {p : List Bytes} {n : Node} (h : Expect cfg fs0 w p n)
    (hn : w'.fs.nodes (cfg.base ++ p) = w.fs.nodes (cfg.base ++ p)) (hj : ∀ x ∈ w.jobs, x ∈ w'.jobs) :
    Expect cfg fs0 w' p n := by
  simp only [Expect] at h ⊢
  rw [hn]
  cases hk : n.kind with
  | dir => simpa [hk] using h
  | link t => simpa [hk] using h
  | file s a =>
    simp only [hk] at h ⊢
    cases hb : cfg.bytes a with
    | err => simpa [hb] using h
    | missing => simpa [hb] using h
    | found b =>
      simp only [hb] at h ⊢
      cases hx : fs0.nodes (cfg.base ++ p) with
      | none =>
        simp only [hx] at h ⊢
        obtain ⟨i, h1, h2, h3⟩ := h
        exact ⟨i, h1, h2, hj _ h3⟩
      | some x =>
        simp only [hx] at h ⊢
        refine ⟨h.1, h.2.1, fun hr => ?_, h.2.2.2⟩
        obtain ⟨i, h1, h2⟩ := h.2.2.1 hr
        exact ⟨i, h1, hj _ h2⟩

/-- Which file a writer can be writing to. -/
def Owner (cfg : XCfg) (fs0 : FS) (m : PathMap) (V : List Bytes → Prop) (i : Nat) : Prop :=
  ∃ p n s c b, m p = some n ∧ n.kind = .file s c ∧ Selected cfg.files cfg.recurse p n.isDir ∧ V p ∧ cfg.bytes c = .found b ∧
    ((fs0.nodes (cfg.base ++ p) = none ∧ fs0.next ≤ i) ∨
     (fs0.nodes (cfg.base ++ p) = some (.file i) ∧ Replaces cfg.mode n.info.mtime (fs0.data i).mtime))

theorem Owner.mono {cfg : XCfg} {fs0 : FS} {m : PathMap} {V V' : List Bytes → Prop} {i : Nat} (h : Owner cfg fs0 m V i)
    (hv : ∀ p n, m p = some n → Selected cfg.files cfg.recurse p n.isDir → V p → V' p) : Owner cfg fs0 m V' i := by
  obtain ⟨p, n, s, c, b, h1, h2, h3, h4, h5⟩ := h
  exact ⟨p, n, s, c, b, h1, h2, h3, hv p n h1 h3 h4, h5⟩

structure XInv (cfg : XCfg) (fs0 : FS) (m : PathMap) (V : List Bytes → Prop) (w : World) : Prop where
  prog : Prog w
  flag : w.okFlag = true → ∀ t ∈ w.tasks, t.st ≠ .failed
  next : fs0.next ≤ w.fs.next
  root : ∃ t, w.fs.nodes [] = some (.dir t)
  dirs : DirsTo w.fs cfg.base
  above : ∀ q x, q <+: cfg.base → fs0.nodes q = some x → w.fs.nodes q = some x
  same : ∀ q, ¬ q <+: cfg.base →
    ¬ (∃ p n, q = cfg.base ++ p ∧ m p = some n ∧ Selected cfg.files cfg.recurse p n.isDir ∧ V p) →
    w.fs.nodes q = fs0.nodes q
  done : ∀ p n, m p = some n → Selected cfg.files cfg.recurse p n.isDir → V p → Expect cfg fs0 w p n
  own : ∀ i ∈ w.tasks.map Task.ino, Owner cfg fs0 m V i
  data : ∀ i, i < fs0.next → i ∉ w.tasks.map Task.ino → w.fs.data i = fs0.data i

/-- What holds in any case. -/
structure XWeak (cfg : XCfg) (fs0 : FS) (m : PathMap) (w : World) : Prop where
  above : ∀ q x, q <+: cfg.base → fs0.nodes q = some x → w.fs.nodes q = some x
  same : ∀ q, ¬ q <+: cfg.base → ¬ IsTarget cfg.files cfg.recurse cfg.base m q → w.fs.nodes q = fs0.nodes q
  own : ∀ i ∈ w.tasks.map Task.ino, fs0.next ≤ i ∨
    ∃ q, IsTarget cfg.files cfg.recurse cfg.base m q ∧ fs0.nodes q = some (.file i)
  data : ∀ i, i < fs0.next → i ∉ w.tasks.map Task.ino → w.fs.data i = fs0.data i
  nodup : (w.tasks.map Task.ino).Nodup
  way : ∀ q, q <+: cfg.base → fs0.nodes q = none → w.fs.nodes q = none ∨ ∃ t, w.fs.nodes q = some (.dir t)

section
variable {cfg : XCfg} {fs0 : FS} {m : PathMap} {V : List Bytes → Prop} {w w' : World}

theorem XInv.weak (h : XInv cfg fs0 m V w) : XWeak cfg fs0 m w where
  above := h.above
  same q hq ht := h.same q hq (by
    rintro ⟨p, n, e, h1, h2, _⟩
    exact ht ⟨p, n, e, h1, h2⟩)
  own i hi := by
    obtain ⟨p, n, s, c, b, h1, h2, h3, h4, h5, h6⟩ := h.own i hi
    rcases h6 with ⟨_, h6⟩ | ⟨h6, _⟩
    · exact Or.inl h6
    · exact Or.inr ⟨_, ⟨p, n, rfl, h1, h3⟩, h6⟩
  data := h.data
  nodup := h.prog.nodup
  way q hq _ := by
    by_cases hqe : q = []
    · subst hqe; exact Or.inr h.root
    · exact Or.inr (h.dirs q hq hqe)

theorem XWeak.frame (h : XWeak cfg fs0 m w) (hf : Frame w w') (hn : w'.fs.nodes = w.fs.nodes) : XWeak cfg fs0 m w' where
  above := by rw [hn]; exact h.above
  same := by rw [hn]; exact h.same
  own := by rw [map_ino_of hf.tasks]; exact h.own
  data i hi ht := by
    rw [map_ino_of hf.tasks] at ht
    rw [hf.data i ht, h.data i hi ht]
  nodup := by rw [map_ino_of hf.tasks]; exact h.nodup
  way := by rw [hn]; exact h.way

theorem XWeak.untouched (h : XWeak cfg fs0 m w) : Untouched cfg.files cfg.recurse cfg.base m fs0 w.fs where
  nodes := h.same
  above := h.above
  way := h.way
  data i hi hq := h.data i hi (fun hc => by
    rcases h.own i hc with h1 | ⟨q, h1, h2⟩
    · omega
    · exact hq q h2 h1)

theorem XInv.congr {V' : List Bytes → Prop} (h : XInv cfg fs0 m V w)
    (hv : ∀ p n, m p = some n → Selected cfg.files cfg.recurse p n.isDir → (V p ↔ V' p)) : XInv cfg fs0 m V' w where
  prog := h.prog
  flag := h.flag
  next := h.next
  root := h.root
  dirs := h.dirs
  above := h.above
  same q hq hn := h.same q hq (by
    rintro ⟨p, n, e, h1, h2, h3⟩
    exact hn ⟨p, n, e, h1, h2, (hv p n h1 h2).mp h3⟩)
  done p n h1 h2 h3 := h.done p n h1 h2 ((hv p n h1 h2).mpr h3)
  own i hi := (h.own i hi).mono (fun p n h1 h2 h3 => (hv p n h1 h2).mp h3)
  data := h.data

theorem XInv.frame (h : XInv cfg fs0 m V w) (hf : Frame w w') (hn : w'.fs.nodes = w.fs.nodes) :
    XInv cfg fs0 m V w' where
  prog := hf.prog h.prog (by rw [hn]; exact fun q i hq => ⟨q, hq⟩)
  flag := hf.flag h.prog h.flag
  next := by rw [hf.next]; exact h.next
  root := by rw [hn]; exact h.root
  dirs := by simp only [DirsTo, hn]; exact h.dirs
  above := by rw [hn]; exact h.above
  same := by rw [hn]; exact h.same
  done p n h1 h2 h3 := (h.done p n h1 h2 h3).mono (by rw [hn]) (by simp only [World.jobs, hf.tasks]; exact fun _ => id)
  own := by rw [map_ino_of hf.tasks]; exact h.own
  data i hi ht := by
    rw [map_ino_of hf.tasks] at ht
    rw [hf.data i ht, h.data i hi ht]

theorem XInv.pre (h : XInv cfg fs0 m V w) (env : Env) : XInv cfg fs0 m V (w.pre env) :=
  h.frame (Frame.pre env w) (World.pre_nodes env w)

theorem not_prefix_base {base p : List Bytes} (hp : p ≠ []) : ¬ base ++ p <+: base := by
  intro h
  have := h.length_le
  simp at this
  exact hp (List.length_eq_zero_iff.mp (by omega))

/-- an entry not yet dealt with: its target is as before -/
theorem XInv.fresh (h : XInv cfg fs0 m V w) {p : List Bytes} (hp : p ≠ []) (hv : ¬ V p) :
    w.fs.nodes (cfg.base ++ p) = fs0.nodes (cfg.base ++ p) := by
  apply h.same _ (not_prefix_base hp)
  rintro ⟨p', n, e, _, _, h3⟩
  rw [List.append_cancel_left_eq] at e
  subst e
  exact hv h3

/-- One entry is dealt with. -/
theorem XInv.update (h : XInv cfg fs0 m V w) {p : List Bytes} {n : Node} (hp : p ≠ []) (hm : m p = some n)
    (hs : Selected cfg.files cfg.recurse p n.isDir)
    (hprog : Prog w') (hflag : w'.okFlag = true → ∀ t ∈ w'.tasks, t.st ≠ .failed) (hnext : w.fs.next ≤ w'.fs.next)
    (hnodes : ∀ q, q ≠ cfg.base ++ p → w'.fs.nodes q = w.fs.nodes q) (hjobs : ∀ x ∈ w.jobs, x ∈ w'.jobs)
    (hexp : Expect cfg fs0 w' p n) (hown : ∀ i ∈ w'.tasks.map Task.ino, Owner cfg fs0 m (fun q => V q ∨ q = p) i)
    (hdata : ∀ i, i < fs0.next → i ∉ w'.tasks.map Task.ino → w'.fs.data i = fs0.data i) :
    XInv cfg fs0 m (fun q => V q ∨ q = p) w' := by
  have hb : ∀ q, q <+: cfg.base → q ≠ cfg.base ++ p := by
    rintro q hq rfl; exact not_prefix_base hp hq
  refine ⟨hprog, hflag, Nat.le_trans h.next hnext, ?_, ?_, ?_, ?_, ?_, hown, hdata⟩
  · rw [hnodes _ (hb _ List.nil_prefix)]; exact h.root
  · intro q hq hne; rw [hnodes _ (hb _ hq)]; exact h.dirs q hq hne
  · intro q x hq hx; rw [hnodes _ (hb _ hq)]; exact h.above q x hq hx
  · intro q hq hno
    rw [hnodes q (by rintro rfl; exact hno ⟨p, n, rfl, hm, hs, Or.inr rfl⟩)]
    apply h.same q hq
    rintro ⟨p', n', e, h1, h2, h3⟩
    exact hno ⟨p', n', e, h1, h2, Or.inl h3⟩
  · intro p' n' h1 h2 h3
    by_cases hpe : p' = p
    · subst hpe; rw [hm] at h1; cases h1; exact hexp
    · have h3 : V p' := by rcases h3 with h3 | h3; exact h3; exact absurd h3 hpe
      exact (h.done p' n' h1 h2 h3).mono (hnodes _ (by simpa using hpe)) hjobs

/-- Nothing happened at the target. -/
theorem XInv.leave (h : XInv cfg fs0 m V w) {p : List Bytes} {n : Node} (hp : p ≠ []) (hm : m p = some n)
    (hs : Selected cfg.files cfg.recurse p n.isDir) (hexp : Expect cfg fs0 w p n) :
    XInv cfg fs0 m (fun q => V q ∨ q = p) w :=
  h.update hp hm hs h.prog h.flag (Nat.le_refl _) (fun _ _ => rfl) (fun _ => id) hexp
    (fun i hi => (h.own i hi).mono (fun _ _ _ _ hv => Or.inl hv)) h.data

/-- Only the entry at the target changed. -/
theorem XInv.setNode (h : XInv cfg fs0 m V w) {p : List Bytes} {n : Node} (hp : p ≠ []) (hm : m p = some n)
    (hs : Selected cfg.files cfg.recurse p n.isDir) (hf : Frame w w')
    (hnodes : ∀ q, q ≠ cfg.base ++ p → w'.fs.nodes q = w.fs.nodes q)
    (hfile : ∀ i, w'.fs.nodes (cfg.base ++ p) ≠ some (.file i))
    (hexp : Expect cfg fs0 w' p n) : XInv cfg fs0 m (fun q => V q ∨ q = p) w' :=
  h.update hp hm hs
    (hf.prog h.prog (by
      intro q i hq
      by_cases hqe : q = cfg.base ++ p
      · subst hqe; exact absurd hq (hfile i)
      · rw [hnodes q hqe] at hq; exact ⟨q, hq⟩))
    (hf.flag h.prog h.flag) (by rw [hf.next]; exact Nat.le_refl _) hnodes
    (by simp only [World.jobs, hf.tasks]; exact fun _ => id) hexp
    (by rw [map_ino_of hf.tasks]; exact fun i hi => (h.own i hi).mono (fun _ _ _ _ hv => Or.inl hv))
    (fun i hi ht => by
      rw [map_ino_of hf.tasks] at ht
      rw [hf.data i ht, h.data i hi ht])

/-- A file is opened (new or existing) and a writer is started. -/
theorem XInv.opened (h : XInv cfg fs0 m V w) {p : List Bytes} {n : Node} (hp : p ≠ []) (hm : m p = some n)
    (hs : Selected cfg.files cfg.recurse p n.isDir) {i : Nat} {b : Bytes} {N : List Bytes → Option FNode} {X : Nat}
    (hi : i ∉ w.tasks.map Task.ino) (hilt : i < X) (hle : w.fs.next ≤ X)
    (hN : ∀ q, q ≠ cfg.base ++ p → N q = w.fs.nodes q) (hNp : N (cfg.base ++ p) = some (.file i))
    (hw : w' = World.spawn { w with fs := ⟨N, fun j => if j = i then ⟨[], w.fs.now⟩ else w.fs.data j, X, w.fs.now⟩ } i b)
    (hexp : Expect cfg fs0 w' p n)
    (hown : Owner cfg fs0 m (fun q => V q ∨ q = p) i) : XInv cfg fs0 m (fun q => V q ∨ q = p) w' := by
  have hinos : w'.tasks.map Task.ino = w.tasks.map Task.ino ++ [i] := by rw [hw]; simp [World.spawn]
  have hjobs : w'.jobs = w.jobs ++ [(i, b)] := by rw [hw]; simp [World.spawn, World.jobs]
  refine h.update hp hm hs ?_ ?_ ?_ ?_ ?_ hexp ?_ ?_
  · rw [hw]
    refine ⟨?_, ?_, ?_⟩
    · intro t ht
      simp only [World.spawn, List.mem_append, List.mem_singleton] at ht
      rcases ht with ht | rfl
      · have hti : t.ino ≠ i := by rintro rfl; exact hi (List.mem_map_of_mem ht)
        have h1 := h.prog.ok t ht
        have h2 := h1.lt
        exact ⟨by simp [World.spawn, if_neg hti, h1.bytes], h1.off, h1.done, by simp [World.spawn, if_neg hti, h1.mtime], by
          simp only [World.spawn]; omega⟩
      · exact ⟨by simp [World.spawn], by simp, by simp, by simp [World.spawn], by simpa [World.spawn] using hilt⟩
    · rw [← hw, hinos, List.nodup_append]
      refine ⟨h.prog.nodup, by simp, ?_⟩
      intro a ha b' hb'
      simp only [List.mem_singleton] at hb'
      subst hb'
      rintro rfl
      exact hi ha
    · intro q j hq
      simp only [World.spawn] at hq ⊢
      by_cases hqe : q = cfg.base ++ p
      · subst hqe; rw [hNp] at hq; cases hq; exact hilt
      · rw [hN q hqe] at hq
        have := h.prog.inos q j hq
        omega
  · rw [hw]
    intro hfl t ht
    simp only [World.spawn, List.mem_append, List.mem_singleton] at ht hfl
    rcases ht with ht | rfl
    · exact h.flag hfl t ht
    · simp
  · rw [hw]; exact hle
  · rw [hw]; exact hN
  · rw [hjobs]; intro x hx; simp [hx]
  · rw [hinos]
    intro j hj
    simp only [List.mem_append, List.mem_singleton] at hj
    rcases hj with hj | rfl
    · exact (h.own j hj).mono (fun _ _ _ _ hv => Or.inl hv)
    · exact hown
  · rw [hinos]
    intro j hj hjn
    simp only [List.mem_append, List.mem_singleton, not_or] at hjn
    rw [hw]
    simp only [World.spawn, if_neg hjn.2]
    exact h.data j hj hjn.1

/-- Hypotheses about the target and the shape of the archive. -/
structure XSetup (cfg : XCfg) (fs0 : FS) (m : PathMap) : Prop where
  plain : PlainTarget fs0 cfg.base m
  root : m [] = none
  up : ∀ p c n, m (p ++ [c]) = some n → p ≠ [] → ∃ k, m p = some k ∧ k.isDir = true
  valid : ∀ p n, m p = some n → ∀ c ∈ p, ValidName c

theorem XSetup.absNames (S : XSetup cfg fs0 m) {r : List Bytes} {c : Bytes} {n : Node} (hm : m (r ++ [c]) = some n) :
    ∀ x ∈ (cfg.base ++ r) ++ [c], PlainName x := by
  intro x hx
  rw [List.append_assoc, List.mem_append] at hx
  rcases hx with hx | hx
  · exact S.plain.baseNames x hx
  · exact S.plain.names _ _ hm x hx

theorem DirsTo.pre {env : Env} {d : List Bytes} (h : DirsTo w.fs d) : DirsTo (w.pre env).fs d := by
  simpa [DirsTo, World.pre_nodes] using h

/-- what one operation must achieve -/
def XPost (cfg : XCfg) (fs0 : FS) (m : PathMap) (V : List Bytes → Prop) (x : World × Except EErr Unit) : Prop :=
  match x with
  | (w', .ok ()) => XInv cfg fs0 m V w'
  | (w', .error _) => XWeak cfg fs0 m w' ∧ ¬ NoObstacle cfg fs0 m

theorem XInv.fail (h : XInv cfg fs0 m V w) (hno : ¬ NoObstacle cfg fs0 m) {V' : List Bytes → Prop} (e : EErr) :
    XPost cfg fs0 m V' (w, .error e) := ⟨h.weak, hno⟩

theorem noObstacle_fault (h : ∃ n, cfg.env.fault n = true) : ¬ NoObstacle cfg fs0 m := by
  rintro hn
  obtain ⟨n, hf⟩ := h
  rw [hn.fault n] at hf; cases hf

/-- the file is not being written yet -/
theorem XInv.not_owned (h : XInv cfg fs0 m V w) (S : XSetup cfg fs0 m) {p : List Bytes} {n : Node} (hm : m p = some n)
    (hv : ¬ V p) {i : Nat} (hx : fs0.nodes (cfg.base ++ p) = some (.file i)) : i ∉ w.tasks.map Task.ino := by
  intro hc
  obtain ⟨p', n', s, c, b, h1, _, _, h4, _, h6⟩ := h.own i hc
  have hlt := S.plain.inos _ _ hx
  rcases h6 with ⟨_, h6⟩ | ⟨h6, _⟩
  · omega
  · have := S.plain.alias p n i _ hm hx h6
    rw [List.append_cancel_left_eq] at this
    subst this
    exact hv h4

theorem XInv.reopen (h : XInv cfg fs0 m V w) (S : XSetup cfg fs0 m) {r : List Bytes} {c : Bytes} {n : Node}
    {s : Nat} {a : ContentAddr} {b : Bytes} (hm : m (r ++ [c]) = some n) (hk : n.kind = .file s a)
    (hs : Selected cfg.files cfg.recurse (r ++ [c]) n.isDir) (hv : ¬ V (r ++ [c])) (hb : cfg.bytes a = .found b)
    (hd : DirsTo w.fs (cfg.base ++ r)) {x : FNode} (hx : fs0.nodes (cfg.base ++ (r ++ [c])) = some x)
    (hmode : cfg.mode ≠ .error) (hnew : cfg.mode = .newer → n.info.mtime < 2 ^ 63) (hrep : Replaces cfg.mode n.info.mtime (fs0.timeOf x)) :
    XPost cfg fs0 m (fun q => V q ∨ q = r ++ [c]) (cfg.reopen (cfg.base ++ (r ++ [c])) b w) := by
  have hn := S.absNames hm
  have habs : cfg.base ++ (r ++ [c]) = (cfg.base ++ r) ++ [c] := by simp
  have hcur : (w.pre cfg.env).fs.nodes (cfg.base ++ (r ++ [c])) = some x := by
    rw [World.pre_nodes, h.fresh (by simp) hv, hx]
  have hl : ∀ t s, x ≠ .link t s := by
    rintro t s rfl; exact S.plain.links _ _ hm (by simp [hk]) t s hx
  have hp := h.pre cfg.env
  simp only [XCfg.reopen]
  rcases w.sys_or cfg.env (fun fs => fs.openTrunc (cfg.base ++ (r ++ [c]))) with ⟨hf, e⟩ | e
  · rw [e]; exact hp.fail (noObstacle_fault hf) _
  · rw [e]
    simp only
    rw [habs, FS.openTrunc_plain hn hd.pre (by rw [← habs, hcur]; intro t s e; cases e; exact hl t s rfl), ← habs, hcur]
    cases x with
    | link t s => exact absurd rfl (hl t s)
    | dir t =>
      refine hp.fail (fun ho => ?_) _
      have := ho.conflict _ _ _ hm hs (by rw [hk]; intro s c e; cases e; rw [hb]; simp) hx
      simp only [NoConflict, hk] at this
      obtain ⟨i, hi⟩ := this.2.2 hrep
      cases hi
    | file i =>
      simp only
      refine hp.opened (X := (w.pre cfg.env).fs.next) (i := i) (b := b) (N := (w.pre cfg.env).fs.nodes) (by simp) hm hs
        (hp.not_owned S hm hv hx) (hp.prog.inos _ _ hcur) (Nat.le_refl _) (fun _ _ => rfl) hcur rfl ?_ ?_
      · simp only [Expect, hk, hb, hx]
        refine ⟨hmode, hcur, fun _ => ⟨i, rfl, ?_⟩, hnew⟩
        simp [World.jobs, World.spawn]
      · exact ⟨_, n, s, a, b, hm, hk, hs, Or.inr rfl, hb, Or.inr ⟨hx, hrep⟩⟩

theorem XCfg.writeFile_eq (cfg : XCfg) (w : World) (abs : List Bytes) (mtime : Nat) (b : Bytes) :
    cfg.writeFile w abs mtime b = match w.sys cfg.env (fun fs => fs.createNew abs) with
      | (w, .ok ino) => (w.spawn ino b, .ok ())
      | (w, .error .exists) =>
        match cfg.mode with
        | .skip => (w, .ok ())
        | .warn => (w, .ok ())
        | .newer =>
          match w.sys cfg.env (fun fs => fs.mtime true abs) with
          | (w, .error e) => (w, .error (.host e))
          | (w, .ok existing) =>
            match newTime mtime with
            | none => (w, .error .panic)
            | some new => if new ≥ existing then cfg.reopen abs b w else (w, .ok ())
        | .overwrite => cfg.reopen abs b w
        | .error => (w, .error .already)
      | (w, .error e) => (w, .error (.host e)) := rfl

theorem XInv.writeFile (h : XInv cfg fs0 m V w) (S : XSetup cfg fs0 m) {r : List Bytes} {c : Bytes} {n : Node}
    {s : Nat} {a : ContentAddr} {b : Bytes} (hm : m (r ++ [c]) = some n) (hk : n.kind = .file s a)
    (hs : Selected cfg.files cfg.recurse (r ++ [c]) n.isDir) (hv : ¬ V (r ++ [c])) (hb : cfg.bytes a = .found b)
    (hd : DirsTo w.fs (cfg.base ++ r)) :
    XPost cfg fs0 m (fun q => V q ∨ q = r ++ [c]) (cfg.writeFile w (cfg.base ++ (r ++ [c])) n.info.mtime b) := by
  have hn := S.absNames hm
  have habs : cfg.base ++ (r ++ [c]) = (cfg.base ++ r) ++ [c] := by simp
  have hcur : (w.pre cfg.env).fs.nodes (cfg.base ++ (r ++ [c])) = fs0.nodes (cfg.base ++ (r ++ [c])) := by
    rw [World.pre_nodes, h.fresh (by simp) hv]
  have hp := h.pre cfg.env
  rw [XCfg.writeFile_eq]
  rcases w.sys_or cfg.env (fun fs => fs.createNew (cfg.base ++ (r ++ [c]))) with ⟨hf, e⟩ | e
  · rw [e]; exact hp.fail (noObstacle_fault hf) _
  · rw [e]
    simp only
    rw [habs, FS.createNew_plain hn hd.pre, ← habs, hcur]
    cases hx : fs0.nodes (cfg.base ++ (r ++ [c])) with
    | none =>
      simp only [if_true]
      have hfresh : (w.pre cfg.env).fs.next ∉ (w.pre cfg.env).tasks.map Task.ino := by
        intro hc
        obtain ⟨t, ht, e⟩ := List.mem_map.mp hc
        have := (hp.prog.ok t ht).lt
        omega
      refine hp.opened (X := (w.pre cfg.env).fs.next + 1) (i := (w.pre cfg.env).fs.next) (b := b)
        (N := fun q => if q = cfg.base ++ (r ++ [c]) then some (.file (w.pre cfg.env).fs.next) else (w.pre cfg.env).fs.nodes q)
        (by simp) hm hs hfresh (by omega) (by omega) (fun q hq => if_neg hq) (if_pos rfl) rfl ?_ ?_
      · simp only [Expect, hk, hb, hx]
        refine ⟨_, ?_, hp.next, ?_⟩
        · simp [World.spawn, FS.set, FS.setData]
        · simp [World.jobs, World.spawn]
      · exact ⟨_, n, s, a, b, hm, hk, hs, Or.inr rfl, hb, Or.inl ⟨hx, hp.next⟩⟩
    | some x =>
      simp only [reduceCtorEq, if_false]
      have hl : ∀ t s, x ≠ .link t s := by
        rintro t s rfl; exact S.plain.links _ _ hm (by simp [hk]) t s hx
      have hleave : ∀ {w1 : World}, XInv cfg fs0 m V w1 → cfg.mode ≠ .error → (cfg.mode = .newer → n.info.mtime < 2 ^ 63) → ¬ Replaces cfg.mode n.info.mtime (fs0.timeOf x) →
          XPost cfg fs0 m (fun q => V q ∨ q = r ++ [c]) (w1, .ok ()) := by
        intro w1 h1 hmode hnew hrep
        refine h1.leave (by simp) hm hs ?_
        simp only [Expect, hk, hb, hx]
        exact ⟨hmode, by rw [h1.fresh (by simp) hv, hx], fun hr => absurd hr hrep, hnew⟩
      cases hmode : cfg.mode with
      | skip => exact hleave hp (by simp [hmode]) (by simp [hmode]) (by simp [hmode, Replaces])
      | warn => exact hleave hp (by simp [hmode]) (by simp [hmode]) (by simp [hmode, Replaces])
      | error =>
        refine hp.fail (fun ho => ?_) _
        have := ho.conflict _ _ _ hm hs (by rw [hk]; intro s c e; cases e; rw [hb]; simp) hx
        simp only [NoConflict, hk] at this
        exact this.1 hmode
      | overwrite =>
        exact hp.reopen S hm hk hs hv hb hd.pre hx (by simp [hmode]) (by simp [hmode]) (by simp [Replaces, hmode])
      | newer =>
        simp only
        have hp2 := hp.pre cfg.env
        rcases (w.pre cfg.env).sys_or cfg.env (fun fs => fs.mtime true (cfg.base ++ (r ++ [c]))) with ⟨hf, e⟩ | e
        · rw [e]; exact hp2.fail (noObstacle_fault hf) _
        · have hcur2 : ((w.pre cfg.env).pre cfg.env).fs.nodes (cfg.base ++ (r ++ [c])) = some x := by
            rw [World.pre_nodes, hcur, hx]
          rw [e]
          simp only
          rw [habs, FS.mtime_plain hn hd.pre.pre (by rw [← habs, hcur2]; intro _ t s e; cases e; exact hl t s rfl)
            (by rw [← habs]; exact hcur2), ← habs]
          have htime : ((w.pre cfg.env).pre cfg.env).fs.timeOf x = fs0.timeOf x := by
            cases x with
            | dir t => rfl
            | link t s => rfl
            | file i =>
              simp only [FS.timeOf]
              rw [hp2.data i (S.plain.inos _ _ hx) (hp2.not_owned S hm hv hx)]
          simp only [htime]
          simp only [newTime]
          by_cases hlt : n.info.mtime < 2 ^ 63
          · rw [if_pos hlt]
            simp only [ge_iff_le]
            by_cases hle : fs0.timeOf x ≤ (n.info.mtime : Int) * 1000000000
            · rw [if_pos hle]
              exact hp2.reopen S hm hk hs hv hb hd.pre.pre hx (by simp [hmode]) (fun _ => hlt) (Or.inr ⟨hmode, hle⟩)
            · rw [if_neg hle]
              exact hleave hp2 (by simp [hmode]) (fun _ => hlt) (by simp [Replaces, hmode, hle])
          · rw [if_neg hlt]
            refine hp2.fail (fun ho => ?_) _
            have := ho.conflict _ _ _ hm hs (by rw [hk]; intro s c e; cases e; rw [hb]; simp) hx
            simp only [NoConflict, hk] at this
            exact hlt (this.2.1 hmode)

theorem XCfg.writeLink_eq (cfg : XCfg) (w : World) (abs : List Bytes) (mtime : Nat) (target : Bytes) :
    cfg.writeLink w abs mtime target = match w.sys cfg.env (fun fs => fs.symlink target abs) with
      | (w, .ok ()) => (w, .ok ())
      | (w, .error .exists) =>
        match cfg.mode with
        | .skip => (w, .ok ())
        | .warn => (w, .ok ())
        | .newer =>
          match w.sys cfg.env (fun fs => fs.mtime false abs) with
          | (w, .error e) => (w, .error (.host e))
          | (w, .ok existing) =>
            match newTime mtime with
            | none => (w, .error .panic)
            | some new => if new ≥ existing then cfg.relink abs target w else (w, .ok ())
        | .overwrite => cfg.relink abs target w
        | .error => (w, .error .already)
      | (w, .error e) => (w, .error (.host e)) := rfl

theorem XInv.relink (h : XInv cfg fs0 m V w) (S : XSetup cfg fs0 m) {r : List Bytes} {c : Bytes} {n : Node}
    {t : Bytes} (hm : m (r ++ [c]) = some n) (hk : n.kind = .link t) (hu : validUtf8 t = true)
    (hs : Selected cfg.files cfg.recurse (r ++ [c]) n.isDir) (hv : ¬ V (r ++ [c])) (ht : (0 : UInt8) ∉ t) (hne : t ≠ [])
    (hd : DirsTo w.fs (cfg.base ++ r)) {x : FNode} (hx : fs0.nodes (cfg.base ++ (r ++ [c])) = some x)
    (hmode : cfg.mode ≠ .error) (hnew : cfg.mode = .newer → n.info.mtime < 2 ^ 63) (hrep : Replaces cfg.mode n.info.mtime (fs0.timeOf x)) :
    XPost cfg fs0 m (fun q => V q ∨ q = r ++ [c]) (cfg.relink (cfg.base ++ (r ++ [c])) t w) := by
  have hn := S.absNames hm
  have habs : cfg.base ++ (r ++ [c]) = (cfg.base ++ r) ++ [c] := by simp
  have hcur : (w.pre cfg.env).fs.nodes (cfg.base ++ (r ++ [c])) = some x := by
    rw [World.pre_nodes, h.fresh (by simp) hv, hx]
  have hp := h.pre cfg.env
  simp only [XCfg.relink]
  rcases w.sys_or cfg.env (fun fs => fs.removeFile (cfg.base ++ (r ++ [c]))) with ⟨hf, e⟩ | e
  · rw [e]; exact hp.fail (noObstacle_fault hf) _
  · rw [e]
    simp only
    by_cases hdir : ∃ u, x = .dir u
    · obtain ⟨u, rfl⟩ := hdir
      rw [habs, FS.removeFile_dir hn hd.pre (by rw [← habs]; exact hcur), ← habs]
      refine hp.fail (fun ho => ?_) _
      have := ho.conflict _ _ _ hm hs (by rw [hk]; simp) hx
      simp only [NoConflict, hk] at this
      exact this.2.2 hrep u rfl
    · have hxd : ∀ u, x ≠ .dir u := fun u e => hdir ⟨u, e⟩
      rw [habs, FS.removeFile_plain hn hd.pre (by rw [← habs]; exact hcur) hxd, ← habs]
      simp only
      -- the world after the removal
      generalize hw1 : ({ w.pre cfg.env with fs := (w.pre cfg.env).fs.set (cfg.base ++ (r ++ [c])) none } : World) = w1
      have hf1 : Frame w w1 := by rw [← hw1]; exact (Frame.pre cfg.env w).nodes _
      have hn1 : ∀ q, w1.fs.nodes q = if q = cfg.base ++ (r ++ [c]) then none else w.fs.nodes q := by
        intro q; rw [← hw1]; simp only [FS.set, World.pre_nodes]
      have hprog1 : Prog w1 := hf1.prog h.prog (by
        intro q i hq
        rw [hn1] at hq
        by_cases hqe : q = cfg.base ++ (r ++ [c])
        · rw [if_pos hqe] at hq; cases hq
        · rw [if_neg hqe] at hq; exact ⟨q, hq⟩)
      have hd1 : DirsTo w1.fs (cfg.base ++ r) := by
        intro q hq hqne
        rw [hn1, if_neg (by rintro rfl; have := hq.length_le; simp at this; omega)]
        exact hd q hq hqne
      have hw : XWeak cfg fs0 m (w1.pre cfg.env) := by
        have h0 := h.weak
        have : XWeak cfg fs0 m w1 := by
          refine ⟨?_, ?_, ?_, ?_, by rw [map_ino_of hf1.tasks]; exact h0.nodup, fun q hq hx => by
            rw [hn1, if_neg (by rintro rfl; exact not_prefix_base (by simp) hq)]
            exact h0.way q hq hx⟩
          · intro q y hq hy
            rw [hn1, if_neg (by rintro rfl; exact not_prefix_base (by simp) hq)]
            exact h0.above q y hq hy
          · intro q hq hnt
            rw [hn1, if_neg (by rintro rfl; exact hnt ⟨_, n, rfl, hm, hs⟩)]
            exact h0.same q hq hnt
          · rw [map_ino_of hf1.tasks]; exact h0.own
          · intro i hi hit
            rw [map_ino_of hf1.tasks] at hit
            rw [hf1.data i hit, h0.data i hi hit]
        exact this.frame (Frame.pre cfg.env w1) (World.pre_nodes cfg.env w1)
      rcases w1.sys_or cfg.env (fun fs => fs.symlink t (cfg.base ++ (r ++ [c]))) with ⟨hf, e⟩ | e
      · rw [e]; exact ⟨hw, noObstacle_fault hf⟩
      · rw [e]
        simp only
        rw [habs, FS.symlink_plain hn hd1.pre ht hne, ← habs, World.pre_nodes, hn1]
        simp only [if_true]
        refine h.setNode (by simp) hm hs (hf1.trans ((Frame.pre cfg.env w1).nodes _) (fun _ => hprog1)) ?_ ?_ ?_
        · intro q hq
          simp only [FS.set, if_neg hq, World.pre_nodes, hn1]
        · intro i; simp [FS.set]
        · simp only [Expect, hk, hx]
          refine ⟨⟨hu, hne, ht⟩, hmode, fun _ => ⟨hxd, ?_⟩, fun hr => absurd hrep hr, hnew⟩
          simp [FS.set]

theorem XInv.writeLink (h : XInv cfg fs0 m V w) (S : XSetup cfg fs0 m) {r : List Bytes} {c : Bytes} {n : Node}
    {t : Bytes} (hm : m (r ++ [c]) = some n) (hk : n.kind = .link t) (hu : validUtf8 t = true)
    (hs : Selected cfg.files cfg.recurse (r ++ [c]) n.isDir) (hv : ¬ V (r ++ [c]))
    (hd : DirsTo w.fs (cfg.base ++ r)) :
    XPost cfg fs0 m (fun q => V q ∨ q = r ++ [c]) (cfg.writeLink w (cfg.base ++ (r ++ [c])) n.info.mtime t) := by
  have hn := S.absNames hm
  have habs : cfg.base ++ (r ++ [c]) = (cfg.base ++ r) ++ [c] := by simp
  have hcur : (w.pre cfg.env).fs.nodes (cfg.base ++ (r ++ [c])) = fs0.nodes (cfg.base ++ (r ++ [c])) := by
    rw [World.pre_nodes, h.fresh (by simp) hv]
  have hp := h.pre cfg.env
  rw [XCfg.writeLink_eq]
  rcases w.sys_or cfg.env (fun fs => fs.symlink t (cfg.base ++ (r ++ [c]))) with ⟨hf, e⟩ | e
  · rw [e]; exact hp.fail (noObstacle_fault hf) _
  · rw [e]
    simp only
    by_cases ht : (0 : UInt8) ∈ t
    · have : (w.pre cfg.env).fs.symlink t (cfg.base ++ (r ++ [c])) = .error .inval := by
        simp [FS.symlink, ht]
      rw [this]
      exact hp.fail (fun ho => (ho.usable _ _ _ hm hs hk).2 ht) _
    by_cases hne : t = []
    · have : (w.pre cfg.env).fs.symlink t (cfg.base ++ (r ++ [c])) = .error .notFound := by
        simp [FS.symlink, hne]
      rw [this]
      exact hp.fail (fun ho => (ho.usable _ _ _ hm hs hk).1 hne) _
    rw [habs, FS.symlink_plain hn hd.pre ht hne, ← habs, hcur]
    cases hx : fs0.nodes (cfg.base ++ (r ++ [c])) with
    | none =>
      simp only [if_true]
      refine h.setNode (by simp) hm hs ((Frame.pre cfg.env w).nodes _) ?_ ?_ ?_
      · intro q hq; simp only [FS.set, if_neg hq, World.pre_nodes]
      · intro i; simp [FS.set]
      · simp only [Expect, hk, hx]
        exact ⟨⟨hu, hne, ht⟩, by simp [FS.set]⟩
    | some x =>
      simp only [reduceCtorEq, if_false]
      have hleave : ∀ {w1 : World}, XInv cfg fs0 m V w1 → cfg.mode ≠ .error → (cfg.mode = .newer → n.info.mtime < 2 ^ 63) → ¬ Replaces cfg.mode n.info.mtime (fs0.timeOf x) →
          XPost cfg fs0 m (fun q => V q ∨ q = r ++ [c]) (w1, .ok ()) := by
        intro w1 h1 hmode hnew hrep
        refine h1.leave (by simp) hm hs ?_
        simp only [Expect, hk, hx]
        exact ⟨⟨hu, hne, ht⟩, hmode, fun hr => absurd hr hrep, fun _ => (by rw [h1.fresh (by simp) hv, hx]), hnew⟩
      cases hmode : cfg.mode with
      | skip => exact hleave hp (by simp [hmode]) (by simp [hmode]) (by simp [hmode, Replaces])
      | warn => exact hleave hp (by simp [hmode]) (by simp [hmode]) (by simp [hmode, Replaces])
      | error =>
        refine hp.fail (fun ho => ?_) _
        have := ho.conflict _ _ _ hm hs (by rw [hk]; simp) hx
        simp only [NoConflict, hk] at this
        exact this.1 hmode
      | overwrite =>
        exact hp.relink S hm hk hu hs hv ht hne hd.pre hx (by simp [hmode]) (by simp [hmode]) (by simp [Replaces, hmode])
      | newer =>
        simp only
        have hp2 := hp.pre cfg.env
        rcases (w.pre cfg.env).sys_or cfg.env (fun fs => fs.mtime false (cfg.base ++ (r ++ [c]))) with ⟨hf, e⟩ | e
        · rw [e]; exact hp2.fail (noObstacle_fault hf) _
        · have hcur2 : ((w.pre cfg.env).pre cfg.env).fs.nodes (cfg.base ++ (r ++ [c])) = some x := by
            rw [World.pre_nodes, hcur, hx]
          rw [e]
          simp only
          rw [habs, FS.mtime_plain hn hd.pre.pre (by simp) (by rw [← habs]; exact hcur2), ← habs]
          have htime : ((w.pre cfg.env).pre cfg.env).fs.timeOf x = fs0.timeOf x := by
            cases x with
            | dir t => rfl
            | link t s => rfl
            | file i =>
              simp only [FS.timeOf]
              rw [hp2.data i (S.plain.inos _ _ hx) (hp2.not_owned S hm hv hx)]
          simp only [htime]
          simp only [newTime]
          by_cases hlt : n.info.mtime < 2 ^ 63
          · rw [if_pos hlt]
            simp only [ge_iff_le]
            by_cases hle : fs0.timeOf x ≤ (n.info.mtime : Int) * 1000000000
            · rw [if_pos hle]
              exact hp2.relink S hm hk hu hs hv ht hne hd.pre.pre hx (by simp [hmode]) (fun _ => hlt) (Or.inr ⟨hmode, hle⟩)
            · rw [if_neg hle]
              exact hleave hp2 (by simp [hmode]) (fun _ => hlt) (by simp [Replaces, hmode, hle])
          · rw [if_neg hlt]
            refine hp2.fail (fun ho => ?_) _
            have := ho.conflict _ _ _ hm hs (by rw [hk]; simp) hx
            simp only [NoConflict, hk] at this
            exact hlt (this.2.1 hmode)

/-- `create_dir_all` of a directory entry -/
theorem XInv.mkdirs (h : XInv cfg fs0 m V w) (S : XSetup cfg fs0 m) {r : List Bytes} {c : Bytes} {n : Node}
    (hm : m (r ++ [c]) = some n) (hk : n.kind = .dir)
    (hs : Selected cfg.files cfg.recurse (r ++ [c]) n.isDir) (hv : ¬ V (r ++ [c]))
    (hd : DirsTo w.fs (cfg.base ++ r)) :
    XPost cfg fs0 m (fun q => V q ∨ q = r ++ [c]) (cfg.mkdirs w (cfg.base ++ (r ++ [c]))) := by
  have hn := S.absNames hm
  have habs : cfg.base ++ (r ++ [c]) = (cfg.base ++ r) ++ [c] := by simp
  have hcur : w.fs.nodes (cfg.base ++ (r ++ [c])) = fs0.nodes (cfg.base ++ (r ++ [c])) := h.fresh (by simp) hv
  -- no symbolic link on the way
  have hl : NoLinkTo w.fs (cfg.base ++ (r ++ [c])) := by
    intro q hq t s e
    rw [habs] at hq
    rcases prefix_concat.mp hq with rfl | hq
    · rw [← habs, hcur] at e
      exact S.plain.links _ _ hm (by simp [hk]) t s e
    · by_cases hqe : q = []
      · subst hqe; obtain ⟨u, hu⟩ := h.root; rw [hu] at e; cases e
      · obtain ⟨u, hu⟩ := hd q hq hqe; rw [hu] at e; cases e
  obtain ⟨w1, r1, e1, m1, p1⟩ := World.createDirAll_spec cfg.env ((cfg.base ++ (r ++ [c])).length + 1) (cfg.base ++ (r ++ [c])) w
    (by omega) (by rw [habs]; exact hn) h.root hl
  -- only the last directory can be new
  have hnodes : ∀ q, q ≠ cfg.base ++ (r ++ [c]) → w1.fs.nodes q = w.fs.nodes q := by
    intro q hq
    rcases m1.nodes q with e | ⟨d1, d2, d3, _⟩
    · exact e
    · rw [habs] at d1
      rcases prefix_concat.mp d1 with rfl | d1
      · exact absurd habs.symm hq
      · obtain ⟨u, hu⟩ := hd q d1 d2; rw [hu] at d3; cases d3
  simp only [XCfg.mkdirs, e1]
  have hfile : (∃ i, fs0.nodes (cfg.base ++ (r ++ [c])) = some (.file i)) → ¬ NoObstacle cfg fs0 m := by
    rintro ⟨i, hi⟩ ho
    have := ho.conflict _ _ _ hm hs (by rw [hk]; simp) hi
    simp only [NoConflict, hk] at this
    obtain ⟨t, ht⟩ := this
    cases ht
  cases r1 with
  | ok u =>
    obtain ⟨t, ht⟩ := p1 _ (List.prefix_refl _) (by simp)
    refine h.setNode (by simp) hm hs m1.frame hnodes ?_ ?_
    · intro i hi; rw [ht] at hi; cases hi
    · simp only [Expect, hk]
      refine ⟨⟨t, ht⟩, fun x hx => ?_⟩
      apply m1.keep
      rw [hcur, hx]
  | error e =>
    have hfail : ¬ NoObstacle cfg fs0 m := by
      rcases p1 with hf | ⟨q, i, hq, hi⟩
      · exact noObstacle_fault hf
      · rw [habs] at hq
        rcases prefix_concat.mp hq with rfl | hq
        · exact hfile ⟨i, by rw [← hcur, habs]; exact hi⟩
        · by_cases hqe : q = []
          · subst hqe; obtain ⟨u, hu⟩ := h.root; rw [hu] at hi; cases hi
          · obtain ⟨u, hu⟩ := hd q hq hqe; rw [hu] at hi; cases hi
    refine ⟨?_, hfail⟩
    have h0 := h.weak
    refine ⟨?_, ?_, ?_, ?_, by rw [map_ino_of m1.frame.tasks]; exact h0.nodup, fun q hq hx => by
      rw [hnodes q (by rintro rfl; exact not_prefix_base (by simp) hq)]
      exact h0.way q hq hx⟩
    · intro q y hq hy; exact m1.keep (h0.above q y hq hy)
    · intro q hq hnt
      rw [hnodes q (by rintro rfl; exact hnt ⟨_, n, rfl, hm, hs⟩)]
      exact h0.same q hq hnt
    · rw [map_ino_of m1.frame.tasks]; exact h0.own
    · intro i hi hit
      rw [map_ino_of m1.frame.tasks] at hit
      rw [m1.frame.data i hit, h0.data i hi hit]

/-- `create_dir_all` of the output directory -/
theorem XInv.start (S : XSetup cfg fs0 m) :
    XPost cfg fs0 m (fun _ => False) (cfg.mkdirs (World.init fs0) cfg.base) := by
  have hp0 : Prog (World.init fs0) := ⟨by simp [World.init], by simp [World.init], S.plain.inos⟩
  obtain ⟨w1, r1, e1, m1, p1⟩ := World.createDirAll_spec cfg.env (cfg.base.length + 1) cfg.base (World.init fs0)
    (by omega) S.plain.baseNames S.plain.root S.plain.baseLinks
  have htasks : w1.tasks.map Task.ino = [] := by rw [map_ino_of m1.frame.tasks]; rfl
  have hsame : ∀ q, ¬ q <+: cfg.base → w1.fs.nodes q = fs0.nodes q := by
    intro q hq
    rcases m1.nodes q with e | ⟨d1, _⟩
    · exact e
    · exact absurd d1 hq
  have hdata : ∀ i, w1.fs.data i = fs0.data i := fun i => m1.frame.data i (by simp [World.init])
  simp only [XCfg.mkdirs, e1]
  cases r1 with
  | ok u =>
    refine ⟨m1.prog hp0, m1.frame.flag hp0 (by simp [World.init]), by rw [m1.frame.next]; exact Nat.le_refl _, ?_, p1,
      fun q x hq hx => m1.keep hx, fun q hq _ => hsame q hq, fun _ _ _ _ hv => hv.elim, by rw [htasks]; simp, fun i _ _ => hdata i⟩
    obtain ⟨t, ht⟩ := S.plain.root
    exact ⟨t, m1.keep ht⟩
  | error e =>
    refine ⟨⟨fun q x hq hx => m1.keep hx, fun q hq _ => hsame q hq, by rw [htasks]; simp, fun i _ _ => hdata i, by rw [htasks]; exact List.nodup_nil,
      fun q hq hx => by
        rcases m1.nodes q with e | ⟨_, _, _, e⟩
        · exact Or.inl (e.trans hx)
        · exact Or.inr e⟩, fun ho => ?_⟩
    rcases p1 with hf | ⟨q, i, hq, hi⟩
    · exact noObstacle_fault hf ho
    · exact ho.above q i hq hi

end

end Arx
