import Verif.Props.Extract3
/-!
# C16 for a single entry in an arbitrary file system state
-/
namespace Arx

theorem resAux_follow {fs : FS} {retry retry' : List Bytes → List Bytes → Except HErr Loc} {q : List Bytes}
    (hq : ∀ t s, fs.nodes q ≠ some (.link t s))
    (hr : ∀ todo cur, retry todo cur = .ok (.found q) → retry' todo cur = .ok (.found q)) :
    ∀ (todo cur : List Bytes), resAux fs false retry todo cur = .ok (.found q) → resAux fs true retry' todo cur = .ok (.found q) := by
  intro todo
  induction todo with
  | nil => intro cur h; exact h
  | cons c rest ih =>
    intro cur h
    simp only [resAux] at h ⊢
    split
    · rename_i hc; rw [if_pos hc] at h; exact ih _ h
    · rename_i hc; rw [if_neg hc] at h
      split
      · rename_i hc2; rw [if_pos hc2] at h; exact ih _ h
      · rename_i hc2; rw [if_neg hc2] at h
        cases hn : fs.nodes (cur ++ [c]) with
        | none => rw [hn] at h; simp only at h; split at h <;> cases h
        | some x =>
          rw [hn] at h
          cases x with
          | dir t => exact ih _ h
          | file i => exact h
          | link t s =>
            simp only [Bool.true_eq_false, and_false, if_false] at h ⊢
            split at h
            · simp only [Except.ok.injEq, Loc.found.injEq] at h
              subst h
              exact absurd hn (hq t s)
            · exact hr _ _ h

theorem resolveN_follow {fs : FS} {q : List Bytes} (hq : ∀ t s, fs.nodes q ≠ some (.link t s)) : ∀ (n : Nat) (todo cur : List Bytes),
    resolveN fs false n todo cur = .ok (.found q) → resolveN fs true n todo cur = .ok (.found q) := by
  intro n
  induction n with
  | zero => intro todo cur h; cases h
  | succ n ih => intro todo cur h; exact resAux_follow hq ih todo cur h

theorem FS.resolve_follow {fs : FS} {p q : List Bytes} (hq : ∀ t s, fs.nodes q ≠ some (.link t s))
    (h : fs.resolve false p = .ok (.found q)) : fs.resolve true p = .ok (.found q) := by
  simp only [FS.resolve] at h ⊢
  split at h
  · cases h
  · rename_i hc; rw [if_neg hc]; exact resolveN_follow hq _ _ _ h

/-- **C16, one file, any state.** Extracting a file of content `b` and time `mtime` to a path that leads (in
whatever way, through whatever links) to an existing regular file `i`: modes skip and warn do nothing; mode
error fails without effect; mode overwrite empties the file and starts a writer of `b` on it; mode newer does
so iff the archived time is not before the file's, and otherwise does nothing. No other entry or file changes.
(The writers already running make no step during the call, and no call fails.) -/
theorem C16_one_file (cfg : XCfg) (henv : cfg.env = quiet) (w : World) (abs q : List Bytes) (i mtime : Nat) (b : Bytes)
    (hq : w.fs.resolve false abs = .ok (.found q)) (hi : w.fs.nodes q = some (.file i))
    (hlast : abs.getLast? ≠ some CUR ∧ abs.getLast? ≠ some PARENT) :
    let r := cfg.writeFile w abs mtime b
    let opened := r.2 = .ok () ∧ r.1.tasks = w.tasks ++ [⟨i, b, 0, .running⟩] ∧ r.1.fs.nodes = w.fs.nodes ∧
      (r.1.fs.data i).bytes = [] ∧ ∀ j, j ≠ i → r.1.fs.data j = w.fs.data j
    let nothing := r.1.tasks = w.tasks ∧ r.1.fs = w.fs
    match cfg.mode with
    | .skip => r.2 = .ok () ∧ nothing
    | .warn => r.2 = .ok () ∧ nothing
    | .error => r.2 = .error .already ∧ nothing
    | .overwrite => opened
    | .newer =>
      if 2 ^ 63 ≤ mtime then r.2 = .error .panic ∧ nothing
      else if (w.fs.data i).mtime ≤ (mtime : Int) * 1000000000 then opened
      else r.2 = .ok () ∧ nothing := by
  have ht := FS.resolve_follow (by rw [hi]; simp) hq
  have hpre : ∀ w : World, w.pre quiet = { w with tick := w.tick + 1 } := fun w => rfl
  have hc : w.fs.createNew abs = .error .exists := by
    simp only [FS.createNew, hq]
    rw [if_neg]; rintro (h | h)
    · exact hlast.1 h
    · exact hlast.2 h
  have ho : w.fs.openTrunc abs = .ok (i, w.fs.setData i ⟨[], w.fs.now⟩) := by
    simp only [FS.openTrunc, ht, hi]
  have hm : w.fs.mtime true abs = .ok ((w.fs.data i).mtime, w.fs) := by
    simp only [FS.mtime, ht, FS.mtimeAt, hi]
  have e1 : ∀ {α : Type} (w : World) (op : FS → Except HErr (α × FS)), w.sys quiet op =
      match op w.fs with
      | .error e => ({ w with tick := w.tick + 1 }, .error e)
      | .ok (x, fs) => ({ w with tick := w.tick + 1, fs := fs }, .ok x) := by
    intro α w op
    simp only [World.sys, hpre]
    rfl
  have hopened : ∀ (fs : FS), fs = w.fs → (fs.setData i ⟨[], fs.now⟩).nodes = w.fs.nodes ∧
      ((fs.setData i ⟨[], fs.now⟩).data i).bytes = [] ∧ ∀ j, j ≠ i → (fs.setData i ⟨[], fs.now⟩).data j = w.fs.data j := by
    rintro fs rfl
    exact ⟨rfl, by simp [FS.setData], fun j hj => by simp [FS.setData, hj]⟩
  simp only [XCfg.writeFile, henv, e1, hc]
  cases hmode : cfg.mode with
  | skip => simp only [and_self]
  | warn => simp only [and_self]
  | error => simp only [and_self]
  | overwrite =>
    simp only [ho, World.spawn]
    exact ⟨trivial, trivial, hopened _ rfl⟩
  | newer =>
    simp only [hm, newTime]
    by_cases hlt : mtime < 2 ^ 63
    · rw [if_pos hlt, if_neg (by omega)]
      simp only
      by_cases hle : (w.fs.data i).mtime ≤ (mtime : Int) * 1000000000
      · rw [if_pos hle, if_pos hle]
        simp only [ho, World.spawn]
        exact ⟨trivial, trivial, hopened _ rfl⟩
      · rw [if_neg hle, if_neg hle]
        simp only [and_self]
    · rw [if_neg hlt, if_pos (by omega)]
      simp only [and_self]

/-- **C16, one link, any state.** Extracting a link to a path that leads to an existing file or symbolic link
(the last name is not followed): the same, where replacing removes the existing entry and creates the link at
its place. -/
theorem C16_one_link (cfg : XCfg) (henv : cfg.env = quiet) (w : World) (abs q : List Bytes) (mtime : Nat) (t : Bytes)
    (x : FNode) (hq : w.fs.resolve false abs = .ok (.found q)) (hx : w.fs.nodes q = some x) (hnd : ∀ u, x ≠ .dir u)
    (ht : t ≠ [] ∧ (0 : UInt8) ∉ t)
    (hafter : (w.fs.set q none).resolve false abs = .ok (.missing q.dropLast (q.getLast?.getD []))) (hqne : q ≠ []) :
    let r := cfg.writeLink w abs mtime t
    let replaced := r.2 = .ok () ∧ r.1.tasks = w.tasks ∧ r.1.fs.data = w.fs.data ∧
      r.1.fs.nodes q = some (.link t w.fs.now) ∧ ∀ q', q' ≠ q → r.1.fs.nodes q' = w.fs.nodes q'
    let nothing := r.1.tasks = w.tasks ∧ r.1.fs = w.fs
    match cfg.mode with
    | .skip => r.2 = .ok () ∧ nothing
    | .warn => r.2 = .ok () ∧ nothing
    | .error => r.2 = .error .already ∧ nothing
    | .overwrite => replaced
    | .newer =>
      if 2 ^ 63 ≤ mtime then r.2 = .error .panic ∧ nothing
      else if w.fs.timeOf x ≤ (mtime : Int) * 1000000000 then replaced
      else r.2 = .ok () ∧ nothing := by
  have hz : t.contains 0 = false := by simpa using ht.2
  have hpre : ∀ w : World, w.pre quiet = { w with tick := w.tick + 1 } := fun w => rfl
  have hs : w.fs.symlink t abs = .error .exists := by
    simp only [FS.symlink, hz, ht.1, hq, if_false, Bool.false_eq_true]
  have hrm : w.fs.removeFile abs = .ok ((), w.fs.set q none) := by
    simp only [FS.removeFile, hq, hx]
    cases x with
    | dir u => exact absurd rfl (hnd u)
    | file i => rfl
    | link a c => rfl
  have hlast : q.dropLast ++ [q.getLast?.getD []] = q := by
    have h := List.dropLast_concat_getLast hqne
    rw [List.getLast?_eq_some_getLast hqne]
    exact h
  have hs2 : (w.fs.set q none).symlink t abs = .ok ((), (w.fs.set q none).set q (some (.link t w.fs.now))) := by
    simp only [FS.symlink, hz, ht.1, hafter, if_false, Bool.false_eq_true, hlast]
    rfl
  have hm : w.fs.mtime false abs = .ok (w.fs.timeOf x, w.fs) := by
    simp only [FS.mtime, hq, FS.mtimeAt, hx]
    cases x <;> rfl
  have e1 : ∀ {α : Type} (w : World) (op : FS → Except HErr (α × FS)), w.sys quiet op =
      match op w.fs with
      | .error e => ({ w with tick := w.tick + 1 }, .error e)
      | .ok (x, fs) => ({ w with tick := w.tick + 1, fs := fs }, .ok x) := by
    intro α w op
    simp only [World.sys, hpre]
    rfl
  have hrep : ((w.fs.set q none).set q (some (.link t w.fs.now))).data = w.fs.data ∧
      ((w.fs.set q none).set q (some (.link t w.fs.now))).nodes q = some (.link t w.fs.now) ∧
      ∀ q', q' ≠ q → ((w.fs.set q none).set q (some (.link t w.fs.now))).nodes q' = w.fs.nodes q' :=
    ⟨rfl, by simp [FS.set], fun q' h => by simp [FS.set, h]⟩
  simp only [XCfg.writeLink, henv, e1, hs]
  cases hmode : cfg.mode with
  | skip => simp only [and_self]
  | warn => simp only [and_self]
  | error => simp only [and_self]
  | overwrite =>
    simp only [hrm, hs2]
    exact ⟨trivial, trivial, hrep⟩
  | newer =>
    simp only [hm, newTime]
    by_cases hlt : mtime < 2 ^ 63
    · rw [if_pos hlt, if_neg (by omega)]
      simp only
      by_cases hle : w.fs.timeOf x ≤ (mtime : Int) * 1000000000
      · rw [if_pos hle, if_pos hle]
        simp only [hrm, hs2]
        exact ⟨trivial, trivial, hrep⟩
      · rw [if_neg hle, if_neg hle]
        simp only [and_self]
    · rw [if_neg hlt, if_pos (by omega)]
      simp only [and_self]

/-- a file in a directory that is reached through a link -/
def fsVia : FS := mkFs [([ascii "d"], .dir 0), ([ascii "d", ascii "f"], .file 0), ([ascii "l"], .link (ascii "d") 0)]
  (fun _ => ⟨ascii "old", 7⟩) 1

/-- the hypotheses are met, also when the path goes through a link -/
example : fsVia.resolve false [ascii "l", ascii "f"] = .ok (.found [ascii "d", ascii "f"]) ∧
    fsVia.nodes [ascii "d", ascii "f"] = some (.file 0) ∧
    (fsVia.set [ascii "l"] none).resolve false [ascii "l"] = .ok (.missing [] (ascii "l")) := by decide

end Arx
