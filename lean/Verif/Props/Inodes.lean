import Verif.Props.Mount2
import Verif.Props.Creation
/-!
# C105: inode numbers and what is told about an inode are the same in every mount of an archive
-/
namespace Arx

/-- The requests that ask about the entry with number `ino`: its attributes, the target of a link, the names in a directory. -/
inductive AboutEntry (ino : Nat) : FReq → Prop
  | lookup (name : Bytes) : AboutEntry ino (.lookup ino name)
  | getattr : AboutEntry ino (.getattr ino)
  | readlink : AboutEntry ino (.readlink ino)
  | opendir : AboutEntry ino (.opendir ino)
  | readdir (offset buf : Nat) : AboutEntry ino (.readdir ino offset buf)

theorem entryRange_same {cfg cfg' : FsCfg} (e : cfg.a = cfg'.a) {ino : Nat} (h : ino ≠ 1) : cfg.entryRange ino = cfg'.entryRange ino := by
  have hi : inoIdx ino ≠ some none := by
    simp only [inoIdx]
    split
    · simp
    · simp
  simp only [FsCfg.entryRange, e]
  cases hx : inoIdx ino with
  | none => rfl
  | some o =>
    cases o with
    | none => exact absurd hx hi
    | some i => rfl

theorem readdirLoop_same {cfg cfg' : FsCfg} (e : cfg.a = cfg'.a) (ino : Nat) (range : Range) (buf : Nat) :
    ∀ (is : List Nat) (cur : Nat) (l : List DirEnt) (c : Lru (Nat × Bytes) (Option Nat)),
      readdirLoop cfg ino range buf is cur l c = readdirLoop cfg' ino range buf is cur l c
  | [], _, _, _ => rfl
  | i :: is, cur, l, c => by
    have ih := readdirLoop_same e ino range buf is
    have hp : cfg.parentIno ino = cfg'.parentIno ino := by simp only [FsCfg.parentIno, e]
    simp only [readdirLoop, ih, hp, e]

theorem pureStep_same {cfg cfg' : FsCfg} (e : cfg.a = cfg'.a) {ino : Nat} (h : ino ≠ 1) {r : FReq} (hr : AboutEntry ino r)
    (o o' : Nat → Nat) : (pureStep cfg o r).1 = (pureStep cfg' o' r).1 := by
  cases hr with
  | lookup name =>
    simp only [pureStep, entryRange_same e h, e]
    split
    · rfl
    · split
      · rfl
      · rfl
      · split <;> rfl
  | getattr =>
    simp only [pureStep, e]
    split
    · rfl
    · rfl
    · split <;> rfl
  | readlink => simp only [pureStep, FsState.readlink, e]
  | opendir => simp only [pureStep, FsState.opendir, e]
  | readdir offset buf => simp only [pureStep, FsState.readdir, entryRange_same e h, readdirLoop_same e]

/-- **C105.** Take any two mounts of archives with the same content `m`: the archives may have been created by different
histories of adds, the mounts may show different directories of them, their content packs may be missing or not, and
each has answered any requests. Then every number from 2 up stands for the same entry in both, every question
about it has the same answer in both, a path leads to the same number and attributes in both, and where both give bytes of a
file, from packs that agree on what both have, these are the same. -/
theorem C105_inodes {rs ss : List AddReq} {m : PathMap} {cfg cfg' : FsCfg} {d0 d0' : List Bytes}
    (h : Mounted rs m cfg d0) (h' : Mounted ss m cfg' d0') {s s' : FsState} (hs : FsReach cfg s) (hs' : FsReach cfg' s') :
    (∀ ino, 2 ≤ ino → inoPath cfg d0 ino = inoPath cfg' d0' ino) ∧
    (∀ ino r, 2 ≤ ino → AboutEntry ino r → (s.step cfg r).1 = (s'.step cfg' r).1) ∧
    (∀ (path : RPath) (cs cs' : List Bytes), cs ≠ [] → cs' ≠ [] → comps path = d0 ++ cs → comps path = d0' ++ cs' →
      (∀ q n, q <+: comps path → m q = some n → n.HasAttr) →
      (resolveFs cfg s 1 cs).1 = (resolveFs cfg' s' 1 cs').1) ∧
    ((∀ (c : ContentAddr) (b b' : Bytes), cfg.bytes c = .found b → cfg'.bytes c = .found b' → b = b') →
      ∀ (ino : Nat) (off : Int) (size : Nat) (x y : Bytes), (s.step cfg (.read ino off size)).1 = .data x →
        (s'.step cfg' (.read ino off size)).1 = .data y → x = y) := by
  have e : cfg.a = cfg'.a := C06_order_independent h.written h'.written h.spec h'.spec
  have hp : ∀ ino, 2 ≤ ino → ∀ d d' : List Bytes, inoPath cfg d ino = inoPath cfg' d' ino := by
    intro ino hi d d'
    simp only [inoPath, e]
    rw [if_neg (by omega), if_neg (by omega), if_neg (by omega), if_neg (by omega)]
  obtain ⟨o, _, st⟩ := h.step hs
  obtain ⟨o', _, st'⟩ := h'.step hs'
  refine ⟨fun ino hi => hp ino hi d0 d0', ?_, ?_, ?_⟩
  · intro ino r hi hr
    rw [st, st']
    exact pureStep_same e (by omega) hr o o'
  · intro path cs cs' hc hc' e1 e2 hf
    have k := C23_resolve h hs cs hc path e1 (fun q n _ hq hn => hf q n (by rw [e1]; exact hq) hn)
    have k' := C23_resolve h' hs' cs' hc' path e2 (fun q n _ hq hn => hf q n (by rw [e2]; exact hq) hn)
    rw [← e] at k'
    revert k k'
    cases cfg.a.getEntry fullBuilder path with
    | error x => intro k k'; rw [k.2, k'.2]
    | ok en =>
      rintro ⟨a1, g1, i1, n1, ns1, m1, k1, _, _, at1⟩ ⟨a2, g2, i2, n2, ns2, m2, k2, _, _, at2⟩
      rw [← e1] at m1 k1
      rw [← e2] at m2 k2
      rw [m1] at m2; cases m2
      rw [g1, g2, at1, at2, i1, i2, KidsOf.unique k1 k2]
  · intro hb ino off size x y hx hy
    rw [st] at hx
    rw [st'] at hy
    simp only [pureStep] at hx hy
    split at hx
    · cases hx
    split at hy
    · cases hy
    revert hx hy
    have hfb : ∀ b b', cfg.fileBytes ino = some b → cfg'.fileBytes ino = some b' → b = b' := by
      intro b b'
      simp only [FsCfg.fileBytes, e]
      split
      · split
        · split
          · rename_i r _ _
            intro g g'
            cases w : cfg.bytes r.content <;> rw [w] at g <;> simp at g
            cases w' : cfg'.bytes r.content <;> rw [w'] at g' <;> simp at g'
            subst g; subst g'
            exact hb _ _ _ w w'
          · intro g; cases g
        · intro g; cases g
      · intro g; cases g
    cases g : cfg.fileBytes ino with
    | none => intro hx; cases hx
    | some b =>
      cases g' : cfg'.fileBytes ino with
      | none => intro _ hy; cases hy
      | some b' =>
        have := hfb b b' g g'
        subst this
        simp only
        split
        · intro hx; cases hx
        · intro hx hy
          cases hx; cases hy; rfl

/-- the hypotheses are met by the whole example archive and the mount of its directory `b`, both after some requests -/
example : Mounted exReqs exMap exFs [] ∧ Mounted exReqs exMap exFsB [ascii "b"] ∧
    FsReach exFs (FsState.init.run exFs [.lookup 1 (ascii "b")]).2 ∧ FsReach exFsB (FsState.init.run exFsB [.lookup 1 (ascii "x"), .open 5]).2 ∧
    ((resolveFs exFs FsState.init 1 [ascii "b", ascii "x"]).1.map (fun a => a.ino)) = some 5 ∧
    ((resolveFs exFsB FsState.init 1 [ascii "x"]).1.map (fun a => a.ino)) = some 5 :=
  ⟨exMounted, exMountedB, ⟨_, rfl⟩, ⟨_, rfl⟩, by decide, by decide⟩

end Arx
