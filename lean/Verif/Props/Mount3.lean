import Verif.Props.Mount2
/-!
# C51: what `open` answers
-/
namespace Arx

/-- **C51.** After any history of requests, `open` of an inode the mount has given out answers:
* for the mount root and for a directory: EISDIR;
* for a symbolic link: ENOENT;
* for a file: success if its content is available, ENOMEDIUM if the pack that holds it is missing, EIO if it
  cannot be read;
and an `open` that is refused changes nothing: no later answer depends on it. -/
theorem C51_open_replies {rs : List AddReq} {m : PathMap} {cfg : FsCfg} {d0 : List Bytes} (h : Mounted rs m cfg d0)
    (reqs : List FReq) :
    let s := (FsState.init.run cfg reqs).2
    s.step cfg (.open 1) = (.error .EISDIR, s) ∧
    ∀ ino p n, 2 ≤ ino → inoPath cfg d0 ino = some p → m p = some n →
      ((s.step cfg (.open ino)).1 =
        match n.kind with
        | .dir => .error .EISDIR
        | .link _ => .error .ENOENT
        | .file _ c =>
          match cfg.bytes c with
          | .found _ => .opened
          | .missing => .error .ENOMEDIUM
          | .err => .error .EIO) ∧
      ((s.step cfg (.open ino)).1 ≠ .opened → (s.step cfg (.open ino)).2 = s) := by
  intro s
  have I := h.inv reqs
  have hfb : ∀ ino b c, s.region ino = some (b, c) → cfg.fileBytes ino = some b := fun ino b c hr =>
    (I.opened ino b c hr).2.2.2
  constructor
  · have : s.region 1 = none := by
      cases hr : s.region 1 with
      | none => rfl
      | some x =>
        have := hfb 1 x.1 x.2 hr
        simp [FsCfg.fileBytes, inoIdx] at this
    simp [FsState.step, FsState.open, inoIdx, this]
  · intro ino p n hi hp hn
    obtain ⟨P, G, hroot, _⟩ := h.good
    rcases G.inoPath_cases hp with ⟨h1, _⟩ | ⟨i, rfl, hi', hidx⟩
    · omega
    obtain ⟨r, n', g1, g2, g3⟩ := G.row_at hi'
    rw [hn] at g2; cases g2
    obtain ⟨_, _, _, _, _, _, q7⟩ := g3
    cases hr : s.region (i + 2) with
    | some x =>
      have hb := hfb _ _ _ hr
      have hstep : (s.step cfg (.open (i + 2))).1 = .opened := by
        simp only [FsState.step, FsState.open, hidx, hr]
      rw [hstep]
      refine ⟨?_, fun hne => absurd rfl hne⟩
      simp only [FsCfg.fileBytes, hidx, g1] at hb
      cases hk : n.kind with
      | dir => rw [hk] at q7; simp [q7.1, EntryType.tryFrom] at hb
      | link t => rw [hk] at q7; simp [q7.1, EntryType.tryFrom] at hb
      | file sz c =>
        rw [hk] at q7
        simp only
        cases hc : cfg.bytes c with
        | found b => rfl
        | missing => simp [q7.1, q7.2.2.1, hc] at hb
        | err => simp [q7.1, q7.2.2.1, hc] at hb
    | none =>
      simp only [FsState.step, FsState.open, hidx, hr, g1]
      cases hk : n.kind with
      | dir => rw [hk] at q7; simp [q7.1, EntryType.tryFrom]
      | link t => rw [hk] at q7; simp [q7.1, EntryType.tryFrom]
      | file sz c =>
        rw [hk] at q7
        simp only [q7.1, q7.2.2.1, EntryType.tryFrom]
        cases hc : cfg.bytes c with
        | found b => simp
        | missing => simp
        | err => simp

/-- the hypotheses are met, and the answers occur: root, directory, link, file (with its content, without its
pack, unreadable) -/
example : Mounted exReqs exMap exFs [] ∧
    (FsState.init.run exFs [.open 1, .open 2, .open 3, .open 4, .open 5]).1 =
      [.error .EISDIR, .error .EISDIR, .error .EISDIR, .error .ENOENT, .opened] ∧
    (FsState.init.run { exFs with bytes := fun _ => .missing } [.open 5]).1 = [.error .ENOMEDIUM] ∧
    (FsState.init.run { exFs with bytes := fun _ => .err } [.open 5]).1 = [.error .EIO] :=
  ⟨exMounted, by decide, by decide, by decide⟩

end Arx
