import Verif.Proof.ExtractMain
/-!
# What an extraction that is cut short leaves behind

`Shape` is kept by every single call of the extractor, whatever fails; no call need succeed.
-/
namespace Arx

/-- what may be at the target of entry `n` after any number of calls, if it is not what was there before;
`lo`: first inode number that was free before -/
def OfKind (lo : Nat) (n : Node) (o : Option FNode) : Prop :=
  match n.kind with
  | .dir => ∃ t, o = some (.dir t)
  | .file _ _ => ∃ i, lo ≤ i ∧ o = some (.file i)
  | .link t => o = none ∨ ∃ s, o = some (.link t s)

/-- what can have been where the extractor puts entry `n` -/
def Was (n : Node) (o : Option FNode) : Prop :=
  match n.kind with
  | .link _ => ∀ t, o ≠ some (.dir t)
  | _ => o = none

theorem Was.none {n : Node} {o : Option FNode} (h : o = Option.none) : Was n o := by
  unfold Was; split
  · rw [h]; simp
  · exact h

structure Shape (base : List Bytes) (m : PathMap) (fs0 fs : FS) : Prop where
  wf : FS.WF fs
  next : fs0.next ≤ fs.next
  out : ∀ q, ¬ q <+: base → (∀ p n, m p = some n → q ≠ base ++ p) → fs.nodes q = fs0.nodes q
  way : ∀ q, q <+: base → fs.nodes q = fs0.nodes q ∨ (fs0.nodes q = none ∧ ∃ t, fs.nodes q = some (.dir t))
  kind : ∀ p n, m p = some n → fs.nodes (base ++ p) = fs0.nodes (base ++ p) ∨ OfKind fs0.next n (fs.nodes (base ++ p))
  was : ∀ p n, m p = some n → fs.nodes (base ++ p) = fs0.nodes (base ++ p) ∨ Was n (fs0.nodes (base ++ p))
  inj : ∀ q q' i, fs0.next ≤ i → fs.nodes q = some (.file i) → fs.nodes q' = some (.file i) → q = q'

section
variable {cfg : XCfg} {m : PathMap} {fs0 fs fs' : FS} {w : World}

theorem Shape.init (S : XSetup cfg fs0 m) : Shape cfg.base m fs0 fs0 where
  wf := S.plain.toWF
  next := Nat.le_refl _
  out _ _ _ := rfl
  way _ _ := Or.inl rfl
  kind _ _ _ := Or.inl rfl
  was _ _ _ := Or.inl rfl
  inj q q' i hi h _ := by have := S.plain.inos q i h; omega

theorem Shape.congr (h : Shape cfg.base m fs0 fs) (hn : fs'.nodes = fs.nodes) (hx : fs'.next = fs.next) :
    Shape cfg.base m fs0 fs' where
  wf := ⟨by rw [hn]; exact h.wf.root, by rw [hn]; exact h.wf.tree, by rw [hn, hx]; exact h.wf.inos⟩
  next := by rw [hx]; exact h.next
  out := by rw [hn]; exact h.out
  way := by rw [hn]; exact h.way
  kind := by rw [hn]; exact h.kind
  was := by rw [hn]; exact h.was
  inj := by rw [hn]; exact h.inj

theorem Shape.steps (h : Shape cfg.base m fs0 w.fs) (l : List (Nat × WriteRes)) : Shape cfg.base m fs0 (w.steps l).fs := by
  obtain ⟨a1, a2, _⟩ := w.steps_fs l
  exact h.congr a1 a2

theorem Shape.pre (h : Shape cfg.base m fs0 w.fs) (env : Env) : Shape cfg.base m fs0 (w.pre env).fs := h.steps _

theorem XSetup.ne_nil (S : XSetup cfg fs0 m) {p : List Bytes} {n : Node} (h : m p = some n) : p ≠ [] := by
  rintro rfl; rw [S.root] at h; cases h

/-- no link stands where a file or directory of the archive goes -/
theorem Shape.noLink (h : Shape cfg.base m fs0 fs) (S : XSetup cfg fs0 m) {p : List Bytes} {n : Node} (hm : m p = some n)
    (hk : ∀ t, n.kind ≠ .link t) (t : Bytes) (s : Int) : fs.nodes (cfg.base ++ p) ≠ some (.link t s) := by
  intro e
  rcases h.kind p n hm with h1 | h1
  · rw [h1] at e; exact S.plain.links p n hm hk t s e
  · rw [e] at h1
    unfold OfKind at h1
    split at h1
    · obtain ⟨_, h1⟩ := h1; cases h1
    · obtain ⟨_, _, h1⟩ := h1; cases h1
    · rename_i hk'; exact hk _ hk'

theorem Shape.noLinkBase (h : Shape cfg.base m fs0 fs) (S : XSetup cfg fs0 m) {q : List Bytes} (hq : q <+: cfg.base)
    (t : Bytes) (s : Int) : fs.nodes q ≠ some (.link t s) := by
  intro e
  rcases h.way q hq with h1 | ⟨_, u, h1⟩
  · rw [h1] at e; exact S.plain.baseLinks q hq t s e
  · rw [h1] at e; cases e

/-- the ways to a target, without its last name -/
theorem Shape.noLinkTo (h : Shape cfg.base m fs0 fs) (S : XSetup cfg fs0 m) {r : List Bytes} {c : Bytes} {n : Node}
    (hm : m (r ++ [c]) = some n) : NoLinkTo fs (cfg.base ++ r) := by
  intro q hq t s
  by_cases hqb : q <+: cfg.base
  · exact h.noLinkBase S hqb t s
  · obtain ⟨r', hr', rfl⟩ : ∃ r', r' <+: r ∧ q = cfg.base ++ r' := by
      rcases List.prefix_or_prefix_of_prefix hq (List.prefix_append cfg.base r) with h1 | ⟨t, ht⟩
      · exact absurd h1 hqb
      · exact ⟨t, by rw [← ht] at hq; rw [List.prefix_append_right_inj] at hq; exact hq, ht.symm⟩
    have hne : r' ≠ [] := by rintro rfl; exact hqb (by simp)
    obtain ⟨k, hk, hkd⟩ := S.above _ (Nat.le_refl _) hm (hr'.trans (List.prefix_append _ _)) hne
      (by rintro rfl; have := hr'.length_le; simp at this; omega)
    exact h.noLink S hk (by rw [hkd]; simp) t s

/-- a new entry in an existing directory -/
theorem Shape.setNew (h : Shape cfg.base m fs0 fs) (S : XSetup cfg fs0 m) {d : List Bytes} {c : Bytes} {x : FNode} {X : Nat}
    (hd : DirsTo fs d) (hnone : fs.nodes (d ++ [c]) = none)
    (hX : (X = fs.next ∧ ∀ i, x ≠ .file i) ∨ (X = fs.next + 1 ∧ x = .file fs.next))
    (hat : (d ++ [c] <+: cfg.base ∧ ∃ t, x = .dir t) ∨
      ∃ p n, d ++ [c] = cfg.base ++ p ∧ m p = some n ∧ OfKind fs0.next n (some x))
    (hnodes : fs'.nodes = fun q => if q = d ++ [c] then some x else fs.nodes q) (hnext : fs'.next = X) :
    Shape cfg.base m fs0 fs' := by
  have hle : fs.next ≤ X := by rcases hX with ⟨rfl, _⟩ | ⟨rfl, _⟩ <;> omega
  have hfile : ∀ {q i}, fs'.nodes q = some (.file i) → (q = d ++ [c] ∧ i = fs.next ∧ X = fs.next + 1) ∨ (q ≠ d ++ [c] ∧ fs.nodes q = some (.file i)) := by
    intro q i hq
    rw [hnodes] at hq
    by_cases e : q = d ++ [c]
    · subst e
      simp only [if_true] at hq
      cases hq
      rcases hX with ⟨_, hX⟩ | ⟨hX, e⟩
      · exact absurd rfl (hX i)
      · cases e; exact Or.inl ⟨rfl, rfl, hX⟩
    · simp only [if_neg e] at hq; exact Or.inr ⟨e, hq⟩
  refine ⟨⟨?_, ?_, ?_⟩, by rw [hnext]; exact Nat.le_trans h.next hle, ?_, ?_, ?_, ?_, ?_⟩
  · rw [hnodes]; simp only [List.nil_eq, List.append_eq_nil_iff, List.cons_ne_self, and_false, if_false]; exact h.wf.root
  · intro q c' y hy
    have hpar : ∃ t, fs.nodes q = some (.dir t) := by
      rw [hnodes] at hy
      by_cases e : q ++ [c'] = d ++ [c]
      · obtain ⟨rfl, _⟩ := List.append_inj' e rfl
        rcases nil_or_snoc q with rfl | ⟨d', c'', rfl⟩
        · exact h.wf.root
        · exact hd _ (List.prefix_refl _) (by simp)
      · simp only [if_neg e] at hy; exact h.wf.tree q c' y hy
    obtain ⟨t, ht⟩ := hpar
    have : q ≠ d ++ [c] := by rintro rfl; rw [hnone] at ht; cases ht
    exact ⟨t, by rw [hnodes]; simp only [if_neg this]; exact ht⟩
  · intro q i hq
    rcases hfile hq with ⟨_, rfl, e⟩ | ⟨_, hq⟩
    · omega
    · have := h.wf.inos q i hq; omega
  · intro q hq hp
    have : q ≠ d ++ [c] := by
      rintro rfl
      rcases hat with ⟨h1, _⟩ | ⟨p, n, h1, h2, _⟩
      · exact hq h1
      · exact hp p n h2 h1
    rw [hnodes]; simp only [if_neg this]; exact h.out q hq hp
  · intro q hq
    by_cases e : q = d ++ [c]
    · rcases hat with ⟨h1, t, h2⟩ | ⟨p, n, h1, h2, _⟩
      · right
        constructor
        · rcases h.way q hq with h3 | ⟨h3, _⟩
          · rw [← h3, e]; exact hnone
          · exact h3
        · exact ⟨t, by rw [hnodes, e, h2]; simp⟩
      · exfalso
        rw [e, h1] at hq
        exact not_prefix_base (S.ne_nil h2) hq
    · rw [hnodes]; simp only [if_neg e]; exact h.way q hq
  · intro p n hm
    by_cases e : cfg.base ++ p = d ++ [c]
    · right
      rcases hat with ⟨h1, _⟩ | ⟨p', n', h1, h2, h3⟩
      · rw [← e] at h1; exact absurd h1 (not_prefix_base (S.ne_nil hm))
      · rw [h1, List.append_cancel_left_eq] at e
        subst e
        rw [hm] at h2; cases h2
        rw [hnodes]; simp only [← h1, if_true]; exact h3
    · rw [hnodes]; simp only [if_neg e]; exact h.kind p n hm
  · intro p n hm
    by_cases e : cfg.base ++ p = d ++ [c]
    · right
      rcases h.was p n hm with h1 | h1
      · exact .none (by rw [← h1, e]; exact hnone)
      · exact h1
    · rw [hnodes]; simp only [if_neg e]; exact h.was p n hm
  · intro q q' i hi hq hq'
    rcases hfile hq with ⟨e1, e2, _⟩ | ⟨e1, hq⟩
    · rcases hfile hq' with ⟨e3, _, _⟩ | ⟨e3, hq'⟩
      · rw [e1, e3]
      · have := h.wf.inos q' i hq'; omega
    · rcases hfile hq' with ⟨e3, e4, _⟩ | ⟨e3, hq'⟩
      · have := h.wf.inos q i hq; omega
      · exact h.inj q q' i hi hq hq'

/-- a file or link is removed where a link of the archive goes -/
theorem Shape.setNone (h : Shape cfg.base m fs0 fs) (S : XSetup cfg fs0 m) {p : List Bytes} {n : Node} {t : Bytes} {x : FNode}
    (hm : m p = some n) (hk : n.kind = .link t) (hx : fs.nodes (cfg.base ++ p) = some x) (hnd : ∀ u, x ≠ .dir u)
    (hnodes : fs'.nodes = fun q => if q = cfg.base ++ p then none else fs.nodes q) (hnext : fs'.next = fs.next) :
    Shape cfg.base m fs0 fs' := by
  have hpne := S.ne_nil hm
  have hsub : ∀ {q y}, fs'.nodes q = some y → q ≠ cfg.base ++ p ∧ fs.nodes q = some y := by
    intro q y hq
    rw [hnodes] at hq
    by_cases e : q = cfg.base ++ p
    · simp only [if_pos e] at hq; cases hq
    · simp only [if_neg e] at hq; exact ⟨e, hq⟩
  refine ⟨⟨?_, ?_, ?_⟩, by rw [hnext]; exact h.next, ?_, ?_, ?_, ?_, ?_⟩
  · rw [hnodes]
    have : [] ≠ cfg.base ++ p := by simp [hpne]
    simp only [if_neg this]; exact h.wf.root
  · intro q c y hy
    obtain ⟨_, hy⟩ := hsub hy
    obtain ⟨u, hu⟩ := h.wf.tree q c y hy
    have : q ≠ cfg.base ++ p := by rintro rfl; rw [hx] at hu; cases hu; exact hnd u rfl
    exact ⟨u, by rw [hnodes]; simp only [if_neg this]; exact hu⟩
  · intro q i hq; rw [hnext]; exact h.wf.inos q i (hsub hq).2
  · intro q hq hp
    rw [hnodes]; simp only [if_neg (hp p n hm)]; exact h.out q hq hp
  · intro q hq
    have : q ≠ cfg.base ++ p := by rintro rfl; exact not_prefix_base hpne hq
    rw [hnodes]; simp only [if_neg this]; exact h.way q hq
  · intro p' n' hm'
    by_cases e : cfg.base ++ p' = cfg.base ++ p
    · right
      rw [List.append_cancel_left_eq] at e
      subst e
      rw [hm] at hm'; cases hm'
      rw [hnodes]; simp only [if_true]
      unfold OfKind; rw [hk]; exact Or.inl rfl
    · rw [hnodes]; simp only [if_neg e]; exact h.kind p' n' hm'
  · intro p' n' hm'
    by_cases e : cfg.base ++ p' = cfg.base ++ p
    · right
      rw [List.append_cancel_left_eq] at e
      subst e
      rw [hm] at hm'; cases hm'
      rcases h.was p' n hm with h1 | h1
      · unfold Was; rw [hk, ← h1, hx]
        intro u e; cases e; exact hnd u rfl
      · exact h1
    · rw [hnodes]; simp only [if_neg e]; exact h.was p' n' hm'
  · intro q q' i hi hq hq'
    exact h.inj q q' i hi (hsub hq).2 (hsub hq').2

/-! ## The calls -/

theorem Shape.mkdir (h : Shape cfg.base m fs0 fs) (S : XSetup cfg fs0 m) {d : List Bytes} {c : Bytes}
    (hn : ∀ x ∈ d ++ [c], PlainName x) (hl : NoLinkTo fs d)
    (hat : d ++ [c] <+: cfg.base ∨ ∃ p n, d ++ [c] = cfg.base ++ p ∧ m p = some n ∧ n.kind = .dir)
    (ho : fs.mkdir (d ++ [c]) = .ok ((), fs')) : Shape cfg.base m fs0 fs' := by
  simp only [FS.mkdir] at ho
  by_cases hd : DirsTo fs d
  · rw [FS.resolve_concat hn hd (by simp)] at ho
    by_cases hx : fs.nodes (d ++ [c]) = none
    · rw [if_pos hx] at ho; cases ho
      refine h.setNew S hd hx (x := .dir fs.now) (X := fs.next) (Or.inl ⟨rfl, by simp⟩) ?_ rfl rfl
      rcases hat with hat | ⟨p, n, h1, h2, h3⟩
      · exact Or.inl ⟨hat, _, rfl⟩
      · exact Or.inr ⟨p, n, h1, h2, by unfold OfKind; rw [h3]; exact ⟨_, rfl⟩⟩
    · rw [if_neg hx] at ho; cases ho
  · rcases FS.resolve_broken (follow := false) hn hl hd with e | ⟨e, _⟩ <;> (rw [e] at ho; cases ho)

/-- directories the extractor may create: those on the way to `base`, and directories of the archive -/
def DirTarget (cfg : XCfg) (m : PathMap) (p : List Bytes) : Prop :=
  p <+: cfg.base ∨ ∃ r n, p = cfg.base ++ r ∧ m r = some n ∧ n.kind = .dir

theorem DirTarget.plain (S : XSetup cfg fs0 m) {p : List Bytes} (h : DirTarget cfg m p) : ∀ x ∈ p, PlainName x := by
  intro x hx
  rcases h with h | ⟨r, n, rfl, h1, _⟩
  · exact S.plain.baseNames x (h.subset hx)
  · rw [List.mem_append] at hx
    rcases hx with hx | hx
    · exact S.plain.baseNames x hx
    · exact S.plain.names _ _ h1 x hx

theorem DirTarget.up (S : XSetup cfg fs0 m) {d : List Bytes} {c : Bytes} (h : DirTarget cfg m (d ++ [c])) : DirTarget cfg m d := by
  rcases h with h | ⟨r, n, h1, h2, h3⟩
  · exact Or.inl ((List.prefix_append _ _).trans h)
  · rcases nil_or_snoc r with rfl | ⟨r', c', rfl⟩
    · exact absurd rfl (S.ne_nil h2)
    · rw [← List.append_assoc] at h1
      obtain ⟨rfl, _⟩ := List.append_inj' h1 rfl
      by_cases hr : r' = []
      · subst hr; exact Or.inl (by simp)
      · obtain ⟨k, hk, hkd⟩ := S.up r' c' n h2 hr
        exact Or.inr ⟨r', k, rfl, hk, Kind.isDir_iff.mp hkd⟩

theorem Shape.noLinkDir (h : Shape cfg.base m fs0 fs) (S : XSetup cfg fs0 m) {d : List Bytes} {c : Bytes}
    (hp : DirTarget cfg m (d ++ [c])) : NoLinkTo fs d := by
  rcases hp with hp | ⟨r, n, h1, h2, h3⟩
  · intro q hq
    exact h.noLinkBase S (hq.trans ((List.prefix_append _ _).trans hp))
  · rcases nil_or_snoc r with rfl | ⟨r', c', rfl⟩
    · exact absurd rfl (S.ne_nil h2)
    · rw [← List.append_assoc] at h1
      obtain ⟨rfl, _⟩ := List.append_inj' h1 rfl
      exact h.noLinkTo S h2

theorem Shape.sysMkdir (h : Shape cfg.base m fs0 w.fs) (S : XSetup cfg fs0 m) (env : Env) {p : List Bytes} (hp : DirTarget cfg m p) :
    Shape cfg.base m fs0 (w.sys env (fun fs => fs.mkdir p)).1.fs := by
  rcases w.sys_cases env (fun fs => fs.mkdir p) with ⟨e, h1, _⟩ | ⟨x, fs, _, ho, h1⟩
  · rw [h1]; exact h.pre env
  · rw [h1]
    rcases nil_or_snoc p with rfl | ⟨d, c, rfl⟩
    · simp only [FS.mkdir, FS.resolve_nil] at ho; cases ho
    · exact (h.pre env).mkdir S (hp.plain S) ((h.pre env).noLinkDir S hp) hp ho

theorem Shape.isDir (h : Shape cfg.base m fs0 w.fs) (env : Env) (p : List Bytes) : Shape cfg.base m fs0 (w.isDir env p).1.fs := by
  simp only [World.isDir]
  rcases w.sys_cases env (fun fs => .ok (fs.isDir p, fs)) with ⟨e, h1, _⟩ | ⟨x, fs, _, ho, h1⟩
  · rw [h1]; exact h.pre env
  · rw [h1]; cases ho; exact h.pre env

theorem Shape.createDirAll (S : XSetup cfg fs0 m) (env : Env) : ∀ (f : Nat) (w : World) (p : List Bytes),
    Shape cfg.base m fs0 w.fs → DirTarget cfg m p → Shape cfg.base m fs0 (World.createDirAll env f w p).1.fs := by
  intro f
  induction f with
  | zero => intro w p h _; exact h
  | succ f ih =>
    intro w p h hp
    have htail : ∀ (w : World) (e : HErr), Shape cfg.base m fs0 w.fs →
        Shape cfg.base m fs0 (match w.isDir env p with | (w, true) => (w, (Except.ok () : Except HErr Unit)) | (w, false) => (w, .error e)).1.fs := by
      intro w e h
      have h1 := h.isDir env p
      revert h1
      cases w.isDir env p with
      | mk w' b => cases b <;> exact id
    have h1 := h.sysMkdir S env hp
    simp only [World.createDirAll]
    revert h1
    cases w.sys env (fun fs => fs.mkdir p) with
    | mk w1 r1 =>
      cases r1 with
      | ok u => exact id
      | error e =>
        intro h1
        cases e with
        | notFound =>
          simp only
          by_cases hpe : p = []
          · rw [if_pos hpe]; exact h1
          · rw [if_neg hpe]
            have hpar : DirTarget cfg m (parentOf p) := by
              rcases nil_or_snoc p with rfl | ⟨d, c, rfl⟩
              · exact absurd rfl hpe
              · rw [parentOf_plain (hp.plain S)]; exact hp.up S
            have h2 := ih w1 (parentOf p) h1 hpar
            revert h2
            cases World.createDirAll env f w1 (parentOf p) with
            | mk w2 r2 =>
              cases r2 with
              | error e => exact id
              | ok u =>
                intro h2
                simp only
                have h3 := h2.sysMkdir S env hp
                revert h3
                cases w2.sys env (fun fs => fs.mkdir p) with
                | mk w3 r3 =>
                  cases r3 with
                  | ok u => exact id
                  | error e => intro h3; exact htail w3 e h3
        | «exists» => exact htail w1 _ h1
        | notDir => exact htail w1 _ h1
        | isDir => exact htail w1 _ h1
        | loop => exact htail w1 _ h1
        | inval => exact htail w1 _ h1
        | other => exact htail w1 _ h1

theorem Shape.mkdirs (h : Shape cfg.base m fs0 w.fs) (S : XSetup cfg fs0 m) {p : List Bytes} (hp : DirTarget cfg m p) :
    Shape cfg.base m fs0 (cfg.mkdirs w p).1.fs := by
  have := Shape.createDirAll S cfg.env (p.length + 1) w p h hp
  simp only [XCfg.mkdirs]
  revert this
  cases World.createDirAll cfg.env (p.length + 1) w p with
  | mk w' r => intro h; cases r <;> exact h

theorem Shape.sysMtime (h : Shape cfg.base m fs0 w.fs) (env : Env) (follow : Bool) (p : List Bytes) :
    Shape cfg.base m fs0 (w.sys env (fun fs => fs.mtime follow p)).1.fs := by
  rcases w.sys_cases env (fun fs => fs.mtime follow p) with ⟨e, h1, _⟩ | ⟨x, fs, _, ho, h1⟩
  · rw [h1]; exact h.pre env
  · rw [h1]
    have : fs = (w.pre env).fs := by
      simp only [FS.mtime] at ho
      split at ho
      · cases ho
      · cases ho
      · unfold FS.mtimeAt at ho
        split at ho <;> cases ho <;> rfl
    rw [this]; exact h.pre env

section
variable {r : List Bytes} {c : Bytes} {n : Node} (hm : m (r ++ [c]) = some n)
include hm

theorem Shape.sysCreate (h : Shape cfg.base m fs0 w.fs) (S : XSetup cfg fs0 m) {s : Nat} {a : ContentAddr} (hk : n.kind = .file s a) :
    Shape cfg.base m fs0 (w.sys cfg.env (fun fs => fs.createNew (cfg.base ++ (r ++ [c])))).1.fs := by
  have hn := S.absNames hm
  have habs : cfg.base ++ (r ++ [c]) = (cfg.base ++ r) ++ [c] := by simp
  rw [habs]
  rcases w.sys_cases cfg.env (fun fs => fs.createNew ((cfg.base ++ r) ++ [c])) with ⟨e, h1, _⟩ | ⟨x, fs, _, ho, h1⟩
  · rw [h1]; exact h.pre cfg.env
  · rw [h1]
    have hp := h.pre cfg.env
    simp only at ho ⊢
    by_cases hd : DirsTo (w.pre cfg.env).fs (cfg.base ++ r)
    · rw [FS.createNew_plain hn hd] at ho
      by_cases hx : (w.pre cfg.env).fs.nodes ((cfg.base ++ r) ++ [c]) = none
      · rw [if_pos hx] at ho; cases ho
        refine hp.setNew S hd hx (x := .file (w.pre cfg.env).fs.next) (X := (w.pre cfg.env).fs.next + 1) (Or.inr ⟨rfl, rfl⟩)
          (Or.inr ⟨r ++ [c], n, by simp, hm, ?_⟩) rfl rfl
        unfold OfKind; rw [hk]; exact ⟨_, hp.next, rfl⟩
      · rw [if_neg hx] at ho; cases ho
    · simp only [FS.createNew] at ho
      rcases FS.resolve_broken (follow := false) hn (hp.noLinkTo S hm) hd with e | ⟨e, _⟩ <;> (rw [e] at ho; cases ho)

theorem Shape.sysOpen (h : Shape cfg.base m fs0 w.fs) : 
    Shape cfg.base m fs0 (w.sys cfg.env (fun fs => fs.openTrunc (cfg.base ++ (r ++ [c])))).1.fs := by
  rcases w.sys_cases cfg.env (fun fs => fs.openTrunc (cfg.base ++ (r ++ [c]))) with ⟨e, h1, _⟩ | ⟨x, fs, _, ho, h1⟩
  · rw [h1]; exact h.pre cfg.env
  · rw [h1]
    have hp := h.pre cfg.env
    simp only [FS.openTrunc] at ho
    split at ho
    · cases ho
    · cases ho
    · split at ho
      · cases ho; exact hp.congr rfl rfl
      · cases ho

theorem Shape.sysSymlink (h : Shape cfg.base m fs0 w.fs) (S : XSetup cfg fs0 m) {t : Bytes} (hk : n.kind = .link t) :
    Shape cfg.base m fs0 (w.sys cfg.env (fun fs => fs.symlink t (cfg.base ++ (r ++ [c])))).1.fs := by
  have hn := S.absNames hm
  have habs : cfg.base ++ (r ++ [c]) = (cfg.base ++ r) ++ [c] := by simp
  rw [habs]
  rcases w.sys_cases cfg.env (fun fs => fs.symlink t ((cfg.base ++ r) ++ [c])) with ⟨e, h1, _⟩ | ⟨x, fs, _, ho, h1⟩
  · rw [h1]; exact h.pre cfg.env
  · rw [h1]
    have hp := h.pre cfg.env
    simp only at ho ⊢
    by_cases hd : DirsTo (w.pre cfg.env).fs (cfg.base ++ r)
    · have ht : (0 : UInt8) ∉ t ∧ t ≠ [] := by
        simp only [FS.symlink] at ho
        split at ho
        · cases ho
        · split at ho
          · cases ho
          · rename_i h1 h2; exact ⟨by simpa using h1, h2⟩
      rw [FS.symlink_plain hn hd ht.1 ht.2] at ho
      by_cases hx : (w.pre cfg.env).fs.nodes ((cfg.base ++ r) ++ [c]) = none
      · rw [if_pos hx] at ho; cases ho
        refine hp.setNew S hd hx (x := .link t (w.pre cfg.env).fs.now) (X := (w.pre cfg.env).fs.next) (Or.inl ⟨rfl, by simp⟩)
          (Or.inr ⟨r ++ [c], n, by simp, hm, ?_⟩) rfl rfl
        unfold OfKind; rw [hk]; exact Or.inr ⟨_, rfl⟩
      · rw [if_neg hx] at ho; cases ho
    · simp only [FS.symlink] at ho
      split at ho
      · cases ho
      · split at ho
        · cases ho
        · rcases FS.resolve_broken (follow := false) hn (hp.noLinkTo S hm) hd with e | ⟨e, _⟩ <;> (rw [e] at ho; cases ho)

theorem Shape.sysRemove (h : Shape cfg.base m fs0 w.fs) (S : XSetup cfg fs0 m) {t : Bytes} (hk : n.kind = .link t) :
    Shape cfg.base m fs0 (w.sys cfg.env (fun fs => fs.removeFile (cfg.base ++ (r ++ [c])))).1.fs := by
  have hn := S.absNames hm
  have habs : cfg.base ++ (r ++ [c]) = (cfg.base ++ r) ++ [c] := by simp
  rw [habs]
  rcases w.sys_cases cfg.env (fun fs => fs.removeFile ((cfg.base ++ r) ++ [c])) with ⟨e, h1, _⟩ | ⟨x, fs, _, ho, h1⟩
  · rw [h1]; exact h.pre cfg.env
  · rw [h1]
    have hp := h.pre cfg.env
    simp only at ho ⊢
    by_cases hd : DirsTo (w.pre cfg.env).fs (cfg.base ++ r)
    · cases hx : (w.pre cfg.env).fs.nodes ((cfg.base ++ r) ++ [c]) with
      | none => rw [FS.removeFile, FS.resolve_concat hn hd (by simp), if_pos hx] at ho; cases ho
      | some x =>
        by_cases hnd : ∃ u, x = .dir u
        · obtain ⟨u, rfl⟩ := hnd
          rw [FS.removeFile_dir hn hd hx] at ho; cases ho
        · have hnd : ∀ u, x ≠ .dir u := fun u e => hnd ⟨u, e⟩
          rw [FS.removeFile_plain hn hd hx hnd] at ho; cases ho
          rw [← habs] at hx
          exact hp.setNone S hm hk hx hnd (by simp only [FS.set, habs]) rfl
    · simp only [FS.removeFile] at ho
      rcases FS.resolve_broken (follow := false) hn (hp.noLinkTo S hm) hd with e | ⟨e, _⟩ <;> (rw [e] at ho; cases ho)

theorem Shape.writeFile (h : Shape cfg.base m fs0 w.fs) (S : XSetup cfg fs0 m) {s : Nat} {a : ContentAddr} (hk : n.kind = .file s a)
    (mt : Nat) (b : Bytes) : Shape cfg.base m fs0 (cfg.writeFile w (cfg.base ++ (r ++ [c])) mt b).1.fs := by
  have hopen : ∀ {w : World}, Shape cfg.base m fs0 w.fs →
      Shape cfg.base m fs0 (match w.sys cfg.env (fun fs => fs.openTrunc (cfg.base ++ (r ++ [c]))) with
        | (w, .error e) => (w, (Except.error (EErr.host e) : Except EErr Unit))
        | (w, .ok ino) => (w.spawn ino b, Except.ok ())).1.fs := by
    intro w h
    have := h.sysOpen hm
    revert this
    cases w.sys cfg.env (fun fs => fs.openTrunc (cfg.base ++ (r ++ [c]))) with
    | mk w' r => cases r <;> exact id
  have h1 := h.sysCreate hm S hk
  simp only [XCfg.writeFile]
  revert h1
  cases w.sys cfg.env (fun fs => fs.createNew (cfg.base ++ (r ++ [c]))) with
  | mk w1 r1 =>
    intro h1
    cases r1 with
    | ok i => exact h1
    | error e =>
      cases e with
      | «exists» =>
        simp only
        cases cfg.mode with
        | skip => exact h1
        | warn => exact h1
        | error => exact h1
        | overwrite => exact hopen h1
        | newer =>
          simp only
          have h2 := h1.sysMtime cfg.env true (cfg.base ++ (r ++ [c]))
          revert h2
          cases w1.sys cfg.env (fun fs => fs.mtime true (cfg.base ++ (r ++ [c]))) with
          | mk w2 r2 =>
            intro h2
            cases r2 with
            | error e => exact h2
            | ok t =>
              simp only
              cases newTime mt with
              | none => exact h2
              | some u =>
                simp only
                split
                · exact hopen h2
                · exact h2
      | _ => exact h1

theorem Shape.writeLink (h : Shape cfg.base m fs0 w.fs) (S : XSetup cfg fs0 m) {t : Bytes} (hk : n.kind = .link t)
    (mt : Nat) : Shape cfg.base m fs0 (cfg.writeLink w (cfg.base ++ (r ++ [c])) mt t).1.fs := by
  have hrep : ∀ {w : World}, Shape cfg.base m fs0 w.fs →
      Shape cfg.base m fs0 (match w.sys cfg.env (fun fs => fs.removeFile (cfg.base ++ (r ++ [c]))) with
        | (w, .error e) => (w, (Except.error (EErr.host e) : Except EErr Unit))
        | (w, .ok ()) =>
          match w.sys cfg.env (fun fs => fs.symlink t (cfg.base ++ (r ++ [c]))) with
          | (w, .error e) => (w, .error (.host e))
          | (w, .ok ()) => (w, .ok ())).1.fs := by
    intro w h
    have h1 := h.sysRemove hm S hk
    revert h1
    cases w.sys cfg.env (fun fs => fs.removeFile (cfg.base ++ (r ++ [c]))) with
    | mk w1 r1 =>
      intro h1
      cases r1 with
      | error e => exact h1
      | ok u =>
        simp only
        have h2 := h1.sysSymlink hm S hk
        revert h2
        cases w1.sys cfg.env (fun fs => fs.symlink t (cfg.base ++ (r ++ [c]))) with
        | mk w2 r2 => cases r2 <;> exact id
  have h1 := h.sysSymlink hm S hk
  simp only [XCfg.writeLink]
  revert h1
  cases w.sys cfg.env (fun fs => fs.symlink t (cfg.base ++ (r ++ [c]))) with
  | mk w1 r1 =>
    intro h1
    cases r1 with
    | ok i => exact h1
    | error e =>
      cases e with
      | «exists» =>
        simp only
        cases cfg.mode with
        | skip => exact h1
        | warn => exact h1
        | error => exact h1
        | overwrite => exact hrep h1
        | newer =>
          simp only
          have h2 := h1.sysMtime cfg.env false (cfg.base ++ (r ++ [c]))
          revert h2
          cases w1.sys cfg.env (fun fs => fs.mtime false (cfg.base ++ (r ++ [c]))) with
          | mk w2 r2 =>
            intro h2
            cases r2 with
            | error e => exact h2
            | ok u =>
              simp only
              cases newTime mt with
              | none => exact h2
              | some v =>
                simp only
                split
                · exact hrep h2
                · exact h2
      | _ => exact h1

end
end

/-! ## The walk -/

section
variable {cfg : XCfg} {fs0 : FS} {M : PathMap} {P : List (List Bytes)} {d0 : List Bytes}

def SInv (cfg : XCfg) (fs0 : FS) (M : PathMap) (d0 : List Bytes) (d : List Bytes) (_ : List Bytes → Prop) (ctx : XCtx) : Prop :=
  ∃ r, d = d0 ++ r ∧ ctx.cur = joinPath r ∧ Shape cfg.base (M.sub d0) fs0 ctx.w.fs

theorem Good.shapeRule (G : Good cfg.a M P) (T : PlainTarget fs0 cfg.base (M.sub d0)) :
    WalkRule P (cfg.a.entOf P extractBuilder) (extractor cfg) (SInv cfg fs0 M d0) (fun c => Shape cfg.base (M.sub d0) fs0 c.w.fs) := by
  have S := xsetup G.wf d0 T
  have prep : ∀ {d c V ctx}, d ++ [c] ∈ P → SInv cfg fs0 M d0 d V ctx → ∃ r n, d = d0 ++ r ∧ M.sub d0 (r ++ [c]) = some n ∧
      M (d ++ [c]) = some n ∧ ctx.cur = joinPath r ∧ RPath.push ctx.cur c = joinPath (r ++ [c]) ∧
      comps (joinPath (r ++ [c])) = r ++ [c] ∧ (∀ x ∈ r ++ [c], x ≠ CUR) ∧ (∀ x ∈ r ++ [c], ValidName x) ∧
      Shape cfg.base (M.sub d0) fs0 ctx.w.fs := by
    rintro d c V ctx hp ⟨r, rfl, h1, h4⟩
    obtain ⟨n, hn⟩ := (G.dom _).mp hp
    have hm : M.sub d0 (r ++ [c]) = some n := by rw [PathMap.sub_ne (by simp)]; simpa using hn
    have hval := S.valid _ _ hm
    refine ⟨r, n, rfl, hm, hn, h1, ?_, comps_joinPath hval, fun x hx => (S.plain.names _ _ hm x hx).1, hval, h4⟩
    rw [h1, push_joinPath (fun x hx => hval x (by simp [hx])) (hval c (by simp))]
  refine ⟨?_, ?_, ?_, ?_, ?_⟩
  · rintro d c V x ctx hp ⟨r, _, _, h⟩ _ _; exact h
  · intro d c V e ctx hp hI hV he
    obtain ⟨r, n, hd, hm, hM, hcur, hpush, hcomps, hncur, hval, hX⟩ := prep hp hI
    obtain ⟨n', hn', h⟩ := G.xent hp
    rw [hM] at hn'; cases hn'
    rw [he] at h
    obtain ⟨hname, ⟨s, hk⟩, hmt⟩ := h
    simp only [extractor, XCfg.onFile, hname, hpush]
    split
    · rename_i e1; split at e1
      · cases e1; exact ⟨r, hd, hcur, hX⟩
      · split at e1
        · cases e1
        · cases e1; exact ⟨r, hd, hcur, hX⟩
        · rename_i b _
          have := hX.writeFile hm S hk e.mtime b
          rw [XCfg.absPath, hcomps] at e1
          obtain ⟨e1, _⟩ := Prod.mk.injEq .. ▸ e1
          rw [← e1]; exact ⟨r, hd, hcur, this⟩
    · rename_i e1; split at e1
      · cases e1
      · split at e1
        · cases e1; exact hX
        · cases e1
        · rename_i b _
          have := hX.writeFile hm S hk e.mtime b
          rw [XCfg.absPath, hcomps] at e1
          obtain ⟨e1, _⟩ := Prod.mk.injEq .. ▸ e1
          rw [← e1]; exact this
  · intro d c V e ctx hp hI hV he
    obtain ⟨r, n, hd, hm, hM, hcur, hpush, hcomps, hncur, hval, hX⟩ := prep hp hI
    obtain ⟨n', hn', h⟩ := G.xent hp
    rw [hM] at hn'; cases hn'
    rw [he] at h
    obtain ⟨hname, hk, hmt, hu⟩ := h
    simp only [extractor, XCfg.onLink, hname, hpush]
    have hw := hX.writeLink hm S hk e.mtime
    split
    · rename_i e1; split at e1
      · cases e1; exact ⟨r, hd, hcur, hX⟩
      · rw [XCfg.absPath, hcomps] at e1
        obtain ⟨e1, _⟩ := Prod.mk.injEq .. ▸ e1
        rw [← e1]; exact ⟨r, hd, hcur, hw⟩
    · rename_i e1; split at e1
      · cases e1
      · rw [XCfg.absPath, hcomps] at e1
        obtain ⟨e1, _⟩ := Prod.mk.injEq .. ▸ e1
        rw [← e1]; exact hw
  · intro d c V rg e ctx hp hI hV he
    obtain ⟨r, n, hd, hm, hM, hcur, hpush, hcomps, hncur, hval, hX⟩ := prep hp hI
    obtain ⟨n', hn', h⟩ := G.xent hp
    rw [hM] at hn'; cases hn'
    rw [he] at h
    obtain ⟨hname, hk⟩ := h
    have hw := hX.mkdirs S (p := cfg.base ++ (r ++ [c])) (Or.inr ⟨_, n, rfl, hm, hk⟩)
    simp only [extractor, XCfg.onEnter, hname, hpush]
    cases cfg.shouldExtract (joinPath (r ++ [c])) true with
    | false => exact ⟨r ++ [c], by rw [hd]; simp, rfl, hX⟩
    | true =>
      simp only [Bool.not_true, Bool.false_eq_true, if_false]
      rw [XCfg.absPath, hcomps]
      revert hw
      cases cfg.mkdirs ctx.w (cfg.base ++ (r ++ [c])) with
      | mk w' res =>
        cases res with
        | error x => exact id
        | ok u => intro hw; exact ⟨r ++ [c], by rw [hd]; simp, rfl, hw⟩
  · intro d c V rg e ctx hp hI0 hI he
    obtain ⟨V0, ctx0, hI0, hV0⟩ := hI0
    obtain ⟨r, n, hd, hm, hM, _, _, hcomps, hncur, hval, _⟩ := prep hp hI0
    obtain ⟨r2, hr, hcur, hX⟩ := hI
    subst hd
    rw [List.append_assoc, List.append_cancel_left_eq] at hr
    subst hr
    simp only [extractor]
    refine ⟨r, rfl, ?_, hX⟩
    simp only [hcur]
    exact pop_joinPath (fun x hx => hval x (by simp [hx])) (hval c (by simp)) (hncur c (by simp))

/-- However an extraction to a plain target ends, and whatever the writers have done so far. -/
theorem Good.shape (G : Good cfg.a M P) (T : PlainTarget fs0 cfg.base (M.sub d0)) {rg : Range}
    (hrg : RangeIs P d0 rg.offset rg.count) {depth : Nat} (hdepth : cfg.a.entries.length < depth)
    (last : List (Nat × WriteRes)) :
    Shape cfg.base (M.sub d0) fs0 (cfg.extractRange depth rg fs0 last).1.fs := by
  have S := xsetup G.wf d0 T
  have hstart := Shape.mkdirs (w := World.init fs0) (Shape.init S) S (p := cfg.base) (Or.inl (List.prefix_refl _))
  have key : Shape cfg.base (M.sub d0) fs0 (cfg.a.walkFrom extractBuilder (extractor cfg) depth rg ⟨[], World.init fs0⟩).1.w.fs := by
    simp only [Archive.walkFrom]
    have e1 : (extractor cfg).onStart ⟨[], World.init fs0⟩ =
      (⟨[], (cfg.mkdirs (World.init fs0) cfg.base).1⟩, (cfg.mkdirs (World.init fs0) cfg.base).2) := rfl
    have e2 : ∀ c, (extractor cfg).onStop c = (c, .ok ()) := fun _ => rfl
    rw [e1]
    revert hstart
    cases cfg.mkdirs (World.init fs0) cfg.base with
    | mk w1 r1 =>
      cases r1 with
      | error x => exact id
      | ok u =>
        intro hstart
        simp only [e2, liftOp]
        have hI : SInv cfg fs0 M d0 d0 (fun _ => False) ⟨[], w1⟩ := ⟨[], by simp, rfl, hstart⟩
        have hrule := specWalk_rule (G.shapeRule T) (fun d => (G.kidsOf d).1) (by
          intro p hp q hq hpre
          obtain ⟨n, hn⟩ := (G.dom p).mp hp
          by_cases hqp : q = p
          · subst hqp; exact hp
          · obtain ⟨k, hk, _⟩ := G.wf.ancestors p n q hn ⟨hq, hqp, hpre⟩
            exact (G.dom q).mpr ⟨k, hk⟩) depth d0 (fun _ => False) ⟨[], w1⟩ (G.deepEnough hdepth d0) hI (fun p hp => hp.elim)
        rw [← G.walkRange_eq extractBuilder (extractor cfg) depth d0 rg ⟨[], w1⟩ hrg] at hrule
        revert hrule
        cases cfg.a.walkRange extractBuilder (extractor cfg) depth rg (⟨[], w1⟩ : XCtx) with
        | mk c2 r2 =>
          cases r2 with
          | error x => exact id
          | ok u => rintro ⟨r, _, _, h⟩; exact h
  have : (cfg.extractRange depth rg fs0 last).1 =
      (cfg.a.walkFrom extractBuilder (extractor cfg) depth rg ⟨[], World.init fs0⟩).1.w.steps last := by
    simp only [XCfg.extractRange]; split <;> rfl
  rw [this]
  exact key.steps last

end
end Arx
