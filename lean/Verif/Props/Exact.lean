import Verif.Props.Creation
import Verif.Props.Mount2
import Verif.Props.CmdUtils
/-!
# What exactly happens where a property is violated

Theorems about the whole domain of properties that are false in full.
-/
namespace Arx

/-- **C02, in full.** Whatever the reason for which `add_entry` refuses an entry, every entry archived so far
stays as it is, and nothing is added; except that, when `kind()` fails, the missing directories leading to the
refused entry are added (with default metadata). -/
theorem C02_exact {rs : List AddReq} {st : Creator} {r : AddReq} {e : AddErr} {m m' : PathMap}
    (h : Creator.new.run rs = some st) (he : (st.addEntry r).2 = .err e)
    (hm : SpecRun PathMap.empty rs m) (hm' : SpecRun PathMap.empty (rs ++ [r]) m') :
    (∀ p n, m p = some n → m' p = some n) ∧
    (∀ p, m p = none → (e = .kind ∧ ProperAncestor p (entryPath r.path) ∧ m' p = some defaultDir) ∨
      ((e = .kind → ¬ ProperAncestor p (entryPath r.path)) ∧ m' p = none)) := by
  obtain ⟨m0, paths, hs, R⟩ := run_rel h
  have := hm.det hs; subst this
  obtain ⟨m1, h1, _⟩ := R.addEntry r
  rw [he] at h1
  have := hm'.det (hm.append (.cons h1 (by simp) (.nil _))); subst this
  cases h1 with
  | blocked hb => exact ⟨fun p n h => h, fun p h => .inr ⟨by simp, h⟩⟩
  | «exists» k n e h1 h2 h3 h4 h5 h6 =>
    refine ⟨fun p n h => h, fun p h => ?_⟩
    by_cases hp : ProperAncestor p (entryPath r.path)
    · obtain ⟨q, hq⟩ := hp.2.2
      obtain ⟨d, hd, _⟩ := R.wf.ancestors _ _ p h5 hp
      rw [h] at hd; cases hd
    · exact .inr ⟨fun _ => hp, h⟩
  | kindErr u h1 h2 =>
    refine ⟨fun p n h => by simp [withParents, h], fun p h => ?_⟩
    by_cases hp : ProperAncestor p (entryPath r.path)
    · exact .inl ⟨rfl, hp, by simp [withParents, h, hp]⟩
    · exact .inr ⟨fun _ => hp, by simp [withParents, h, hp]⟩

example : (exSt.addEntry ⟨ascii "b/n/f", .error (), exMeta⟩).2 = .err .kind ∧
    (exSt.addEntry ⟨ascii "b/x/f", .error (), exMeta⟩).2 = .err .notADir := by decide

/-- **C32, in full.** `get_entry` crashes exactly for the paths without any name (`""`, `"/"`, ...). -/
theorem C32_panics_iff {rs : List AddReq} {a : Archive} (h : Written rs a) (path : RPath) :
    a.getEntry fullBuilder path = .error .panic ↔ comps path = [] := by
  constructor
  · intro he
    refine Classical.byContradiction fun hn => C32_lookup_no_panic_partial h path hn he
  · intro hp
    unfold Archive.getEntry
    rw [hp]; rfl

example : comps (ascii "//") = [] ∧ comps (ascii "/a") ≠ [] := by decide

/-- **C40, in full.** The modification time is read back exactly, owner and group modulo 2^32, the access
rights modulo 2^8. -/
theorem C40_exact {rs : List AddReq} {a : Archive} {m : PathMap} (h : Written rs a)
    (hm : SpecRun PathMap.empty rs m) (path : RPath) (n : Node) (hn : m (comps path) = some n) :
    ∃ e, a.getEntry fullBuilder path = .ok e ∧ e.common.mtime = n.info.mtime ∧
      e.common.owner = n.info.owner % 2 ^ 32 ∧ e.common.group = n.info.group % 2 ^ 32 ∧
      e.common.rights = n.info.rights % 256 := by
  obtain ⟨P, G⟩ := h.good' hm
  have hp : comps path ≠ [] := by intro e; rw [e, G.wf.root] at hn; cases hn
  have hroot : RangeIs P [] a.root.offset a.root.count := by rw [G.root.1]; exact G.root.2
  have hl := G.getLoop G.fullBuilder_total (comps path) [] a.root hp hroot
  simp only [List.nil_append] at hl
  rcases hl with ⟨i, hi, hc⟩ | ⟨hx, _⟩ | ⟨q, n', _, _, _, _, _, _, hx, _⟩
  · obtain ⟨e, h1, h2, _, _, h5, _⟩ := G.getEntryAt hi hn
    exact ⟨e, by rw [Archive.getEntry, hc, h1], h2.1, h2.2.1, h2.2.2.1, h5⟩
  · rw [hx] at hn; cases hn
  · rw [hx] at hn; cases hn

/-- **C25, in full.** After any history in which the file is open, `read(ino, offset, size)` answers exactly
the bytes of the stored content from `offset`, at most `size` of them, if `offset` is not beyond the end; if it
is, or is negative, the request crashes the mount. -/
theorem C25_exact {rs : List AddReq} {m : PathMap} {cfg : FsCfg} {d0 : List Bytes} (h : Mounted rs m cfg d0)
    (reqs : List FReq) {ino : Nat} {p : List Bytes} {n : Node} {fsize : Nat} {c : ContentAddr} {b : Bytes}
    (hp : inoPath cfg d0 ino = some p) (hi : 2 ≤ ino) (hn : m p = some n) (hk : n.kind = .file fsize c)
    (hb : cfg.bytes c = .found b) (hopen : 0 < openCount (logOf cfg reqs) ino) (offset : Int) (size : Nat) :
    (((FsState.init.run cfg reqs).2).step cfg (.read ino offset size)).1 =
      if 0 ≤ offset ∧ offset ≤ b.length then .data ((b.drop offset.toNat).take size) else .panic := by
  split
  · rename_i hr
    have := C25_read_partial h reqs hp hi hn hk hb hopen offset.toNat size (by omega)
    rwa [Int.toNat_of_nonneg hr.1] at this
  · rename_i hr
    have hfb := (C26_open h (s := FsState.init) hi hp hn hk hb).2
    have I := h.inv reqs
    obtain ⟨⟨b', c'⟩, hx⟩ := ((C26_open_counts h reqs ino).2.1).mpr hopen
    obtain ⟨o1, o2, o3, o4⟩ := I.opened ino b' c' hx
    rw [hfb] at o4; cases o4
    simp only [FsState.step, FsState.read, if_neg o3, hx]
    split
    · rfl
    · rename_i h0
      rw [if_pos (by omega)]

/-- **C46, in full.** As `C46_parse_partial`, without restriction: `none` is accepted with any level, which is
ignored. -/
theorem C46_exact (ft : Features) {s algo : Bytes} {level : Option Bytes} (h : ArgIs s algo level) :
    (SameName algo (ascii "none") → compressionArg ft s = .ok .none) ∧
    (∀ A : Algo, A.present ft = true → SameName algo A.name →
      (level = none → compressionArg ft s = .ok (A.comp .default)) ∧
      (∀ l v, level = some l → IntText A.signed l v → A.lo ≤ v → v ≤ A.hi → compressionArg ft s = .ok (A.comp (.given v))) ∧
      (∀ l, level = some l → (¬ ∃ v, IntText A.signed l v ∧ A.lo ≤ v ∧ v ≤ A.hi) → compressionArg ft s = .error .level)) ∧
    (¬ SameName algo (ascii "none") → (∀ A : Algo, A.present ft = true → ¬ SameName algo A.name) →
      ∃ name, SameName algo name ∧ compressionArg ft s = .error (.algorithm name)) := by
  refine ⟨fun hn => ?_, (C46_parse_partial ft h).2.1, (C46_parse_partial ft h).2.2⟩
  have hl : lower algo = ascii "none" := (lower_eq_iff (by decide)).mpr hn
  rw [compressionArg, splitEq_of_argIs h]
  simp [hl]

/-- pages with room for `"."` but not for `".."` -/
def onlyDot (pages : List (Nat × List FReq)) : Nat := (pages.filter (fun p => decide (32 ≤ p.1 ∧ p.1 < 64))).length

/-- **C24, in full.** Reading a directory page by page from the start with buffers of any sizes, each time passing
the cookie of the last entry received, with any other requests in between: what has been received is an initial
part of the complete listing, so nothing is skipped or reordered, preceded by the entry `"."` once for each page
(before the first one with at least 64 bytes) that had room for `"."` alone; and from the first page with 64
bytes on, if later buffers can hold any entry, every page brings at least one entry until the end. -/
theorem C24_exact {rs : List AddReq} {m : PathMap} {cfg : FsCfg} {d0 : List Bytes} (h : Mounted rs m cfg d0)
    (hsz : Listable cfg) {ino : Nat} {d : List Bytes} (hi : inoPath cfg d0 ino = some d)
    (hd : ino = 1 ∨ ∃ n, m d = some n ∧ n.isDir = true) :
    ∃ L, DirListing cfg m ino d L ∧ ∀ (s : FsState) (small pages : List (Nat × List FReq)),
      (∀ p ∈ small, p.1 < 64) → (∀ p ∈ pages.head?, 64 ≤ p.1) →
      ∃ k, readPages cfg ino s [] (small ++ pages) = some (List.replicate (onlyDot small) ⟨ino, 0, .dir, CUR⟩ ++ L.take k) ∧
        (pages = [] → k = 0) ∧
        ((∀ p ∈ pages.tail, ∀ e ∈ L, direntSize e.name ≤ p.1) → min pages.length L.length ≤ k) := by
  obtain ⟨L, hL, hread⟩ := h.readdir hsz hi hd
  refine ⟨L, hL, ?_⟩
  obtain ⟨par, tl, hLe⟩ := hL.length_ge
  have hlen2 : 2 ≤ L.length := by rw [hLe]; simp
  have later : ∀ (pages : List (Nat × List FReq)) (s : FsState) (X : List DirEnt) (k : Nat), 2 ≤ k → k ≤ L.length →
      ∃ k', readPages cfg ino s (X ++ L.take k) pages = some (X ++ L.take k') ∧ k ≤ k' ∧
        ((∀ p ∈ pages, ∀ e ∈ L, direntSize e.name ≤ p.1) → min (k + pages.length) L.length ≤ k') := by
    intro pages
    induction pages with
    | nil => intro s X k _ _; exact ⟨k, rfl, Nat.le_refl _, fun _ => by simp; omega⟩
    | cons pg pages ih =>
      obtain ⟨buf, noise⟩ := pg
      intro s X k hk2 hkl
      simp only [readPages]
      have hr := hread s (k - 1) buf
      have hlast : (X ++ L.take k).getLast? = (L.take k).getLast? := by
        rw [List.getLast?_append]
        cases e : (L.take k).getLast? with
        | some x => rfl
        | none =>
          have := congrArg List.length (List.getLast?_eq_none_iff.mp e)
          simp at this
          rcases this with h0 | h0
          · omega
          · rw [hLe] at h0; cases h0
      rw [hlast, hL.lastCookie hkl]
      rw [if_neg (by omega), show k - 1 + 1 = k by omega] at hr
      revert hr
      cases s.step cfg (.readdir ino (k - 1) buf) with
      | mk r s1 =>
        intro hr
        simp only at hr; subst hr
        simp only
        obtain ⟨j, hj, hjl⟩ := fill_take buf 0 (L.drop k)
        rw [hj, List.append_assoc, List.take_append_drop_take]
        simp at hjl
        obtain ⟨k', h1, h2, h3⟩ := ih (s1.run cfg noise).2 X (k + j) (by omega) (by omega)
        refine ⟨k', h1, by omega, ?_⟩
        intro hall
        have h3' := h3 (fun p hp => hall p (by simp [hp]))
        by_cases hkL : k = L.length
        · omega
        · have hj1 : 1 ≤ j := by
            have hlt : k < L.length := by omega
            rw [List.drop_eq_getElem_cons hlt] at hj
            have hfit := hall (buf, noise) (by simp) L[k] (List.getElem_mem hlt)
            simp only [fill] at hj
            rw [if_neg (by omega)] at hj
            cases j with
            | zero => simp at hj
            | succ j => omega
          simp only [List.length_cons]; omega
  have hcookie : ∀ j, (((List.replicate j (⟨ino, 0, .dir, CUR⟩ : DirEnt)).getLast?.map (fun e => e.cookie)).getD 0) = 0 := by
    intro j
    cases j with
    | zero => rfl
    | succ k => simp [List.getLast?_replicate]
  have start : ∀ (small pages : List (Nat × List FReq)) (s : FsState) (j : Nat),
      (∀ p ∈ small, p.1 < 64) → (∀ p ∈ pages.head?, 64 ≤ p.1) →
      ∃ k, readPages cfg ino s (List.replicate j ⟨ino, 0, .dir, CUR⟩) (small ++ pages) =
          some (List.replicate (j + onlyDot small) ⟨ino, 0, .dir, CUR⟩ ++ L.take k) ∧ (pages = [] → k = 0) ∧
        ((∀ p ∈ pages.tail, ∀ e ∈ L, direntSize e.name ≤ p.1) → min pages.length L.length ≤ k) := by
    intro small
    induction small with
    | nil =>
      intro pages s j _ hbig
      cases pages with
      | nil => exact ⟨0, by simp [readPages, onlyDot], fun _ => rfl, by simp⟩
      | cons pg pages =>
        obtain ⟨buf, noise⟩ := pg
        have hbuf : 64 ≤ buf := hbig (buf, noise) (by simp)
        simp only [List.nil_append, readPages]
        rw [hcookie]
        have hr := hread s 0 buf
        simp only [if_true, List.drop_zero] at hr
        revert hr
        cases s.step cfg (.readdir ino 0 buf) with
        | mk r s1 =>
          intro hr
          simp only at hr; subst hr
          simp only
          obtain ⟨i, hj, hjl⟩ := fill_take buf 0 L
          have hj2 : 2 ≤ i := by
            rw [hLe] at hj
            simp only [fill] at hj
            rw [DirListing.dotSize.1, DirListing.dotSize.2] at hj
            rw [if_neg (by omega), if_neg (by omega)] at hj
            match i, hj with
            | 0, hj => simp at hj
            | 1, hj => simp at hj
            | i + 2, _ => omega
          rw [hj]
          obtain ⟨k', h1, h2, h3⟩ := later pages (s1.run cfg noise).2 (List.replicate j ⟨ino, 0, .dir, CUR⟩) i hj2 hjl
          refine ⟨k', by simpa [onlyDot] using h1, by simp, fun hall => ?_⟩
          have := h3 hall
          simp only [List.length_cons]; omega
    | cons pg small ih =>
      obtain ⟨buf, noise⟩ := pg
      intro pages s j hs hbig
      have hbuf : buf < 64 := hs (buf, noise) (by simp)
      simp only [List.cons_append, readPages]
      rw [hcookie]
      have hr := hread s 0 buf
      simp only [if_true, List.drop_zero] at hr
      have hfill : fill buf 0 L = List.replicate (if 32 ≤ buf then 1 else 0) ⟨ino, 0, .dir, CUR⟩ := by
        rw [hLe]
        simp only [fill]
        rw [DirListing.dotSize.1, DirListing.dotSize.2]
        by_cases hb : 32 ≤ buf
        · rw [if_pos hb, if_neg (by omega), if_pos (by omega)]; rfl
        · rw [if_neg hb, if_pos (by omega)]; rfl
      rw [hfill] at hr
      revert hr
      cases s.step cfg (.readdir ino 0 buf) with
      | mk r s1 =>
        intro hr
        simp only at hr; subst hr
        simp only
        obtain ⟨k, h1, h2⟩ := ih pages (s1.run cfg noise).2 (j + if 32 ≤ buf then 1 else 0) (fun p hp => hs p (by simp [hp])) hbig
        refine ⟨k, ?_, h2⟩
        rw [List.replicate_append_replicate, h1]
        have : j + onlyDot ((buf, noise) :: small) = (j + if 32 ≤ buf then 1 else 0) + onlyDot small := by
          unfold onlyDot
          by_cases hb : 32 ≤ buf
          · simp [hb, hbuf]; omega
          · simp [hb]
        rw [this]
  intro s small pages h1 h2
  have := start small pages s 0 h1 h2
  simpa using this

/-- the example root read with buffers of 32, 40 and 100 bytes: `"."`, `"."`, `"."`, `".."`, ... -/
example : ((readPages exFs 1 FsState.init [] ([(32, []), (8, []), (40, [])] ++ [(100, []), (100, [])])).map (fun l => l.map (fun e => e.name))) =
    some [CUR, CUR, CUR, PARENT, ascii "a", ascii "b"] := by decide

/-! ## C30 -/

/-- A request a kernel makes after `log`, at whatever offset it reads. -/
def KernelReq (log : FLog) : FReq → Prop
  | .lookup p _ => (p, .dir) ∈ seenIn log
  | .readdir i _ _ => (i, .dir) ∈ seenIn log
  | .getattr i | .readlink i | .open i | .release i | .opendir i | .releasedir i => ∃ k, (i, k) ∈ seenIn log
  | .read i _ _ => 0 < openCount log i

/-- The requests that crash the mount: the attributes of an entry that has none (`Node.HasAttr`), by inode or by
name; reading before the start or beyond the end of a file. -/
def CrashCause (cfg : FsCfg) (m : PathMap) (d0 : List Bytes) : FReq → Prop
  | .lookup i name => ∃ d n, inoPath cfg d0 i = some d ∧ m (d ++ [name]) = some n ∧ ¬ n.HasAttr
  | .getattr i => 2 ≤ i ∧ ∃ p n, inoPath cfg d0 i = some p ∧ m p = some n ∧ ¬ n.HasAttr
  | .read i off _ => off < 0 ∨ ∃ b, cfg.fileBytes i = some b ∧ b.length < off.toNat
  | _ => False

theorem Good.attrOf_none {P : List (List Bytes)} {m : PathMap} {cfg : FsCfg} (G : Good cfg.a m P) {i : Nat} {p : List Bytes} {n : Node}
    (hp : P[i]? = some p) (hn : m p = some n) (hfit : ¬ n.HasAttr) : cfg.a.attrOf i = none := by
  obtain ⟨r, n', h1, h2, h3⟩ := G.row_at hp
  rw [hn] at h2; cases h2
  obtain ⟨q1, q2, q3, q4, q5, q6, q7⟩ := h3
  have hceil : ∀ size, divCeil size (4 * 1024) = (size + 4095) / 4096 := by
    intro size
    simp only [divCeil]; split <;> omega
  simp only [Archive.attrOf, h1]
  unfold Node.HasAttr at hfit
  cases hk : n.kind with
  | dir =>
    rw [hk] at q7 hfit
    rw [q7.1]
    simp only [EntryType.tryFrom]
    rw [if_pos]
    simp only [and_true] at hfit
    exact .inr (.inr (by omega))
  | file size c =>
    rw [hk] at q7 hfit
    obtain ⟨v, hsz, _⟩ := q7
    rw [v]
    simp only [EntryType.tryFrom, hsz, hceil]
    rw [if_pos]
    simp only at hfit
    by_cases hm : n.info.mtime < 2 ^ 63
    · exact .inr (.inl (by omega))
    · exact .inr (.inr (by omega))
  | link t =>
    rw [hk] at q7 hfit
    obtain ⟨v, hsz, _⟩ := q7
    rw [v]
    simp only [EntryType.tryFrom, hsz, hceil]
    rw [if_pos]
    simp only at hfit
    by_cases hm : n.info.mtime < 2 ^ 63
    · exact .inr (.inl (by omega))
    · exact .inr (.inr (by omega))

theorem Mounted.kernel_step {rs : List AddReq} {m : PathMap} {cfg : FsCfg} {d0 : List Bytes} (h : Mounted rs m cfg d0)
    (hsz : Listable cfg) (reqs : List FReq)
    (hseen : ∀ x ∈ seenIn (logOf cfg reqs), KnownIno cfg m d0 x) (r : FReq) (hr : KernelReq (logOf cfg reqs) r) :
    (((FsState.init.run cfg reqs).2.step cfg r).1 = .panic ↔ CrashCause cfg m d0 r) ∧
    ∀ x ∈ ((FsState.init.run cfg reqs).2.step cfg r).1.seen, KnownIno cfg m d0 x := by
  have simple : (∀ p nm, r ≠ .lookup p nm) → (∀ i, r ≠ .getattr i) → (∀ i off size, r ≠ .read i off size) →
      (((FsState.init.run cfg reqs).2.step cfg r).1 = .panic ↔ CrashCause cfg m d0 r) ∧
      ∀ x ∈ ((FsState.init.run cfg reqs).2.step cfg r).1.seen, KnownIno cfg m d0 x := by
    intro h1 h2 h3
    have hp : Polite cfg (logOf cfg reqs) r := by
      cases r <;> first | exact hr | exact absurd rfl (h3 _ _ _)
    obtain ⟨k1, k2⟩ := h.polite_step hsz reqs hseen r (.inr ⟨h1, h2⟩) hp
    refine ⟨⟨fun e => absurd e k1, fun e => ?_⟩, k2⟩
    cases r <;> first | exact e.elim | exact absurd rfl (h1 _ _) | exact absurd rfl (h2 _) | exact absurd rfl (h3 _ _ _)
  obtain ⟨opens, I, hstep⟩ := h.step ⟨reqs, rfl⟩
  obtain ⟨P, G, hroot, _⟩ := h.good
  cases r with
  | lookup ino name =>
    obtain ⟨d, hd, hdir⟩ := hseen _ hr
    simp only at hd hdir
    obtain ⟨rg, hrg, hR⟩ := G.entryRange hroot hd (hdir trivial)
    rw [hstep]
    simp only [pureStep, hrg]
    have huniq : ∀ d', inoPath cfg d0 ino = some d' → d' = d := by
      intro d' hd'; rw [hd] at hd'; exact (Option.some.inj hd').symm
    rcases G.find_spec hR name with ⟨j, hj, hP, hf⟩ | ⟨hn, hf⟩
    · obtain ⟨n, hn⟩ := (G.dom _).mp (List.mem_of_getElem? hP)
      simp only [hf]
      rw [show j + rg.offset = rg.offset + j by omega]
      by_cases hfit : n.HasAttr
      · rw [G.attrOf hP hn hfit]
        refine ⟨⟨fun e => by simp at e, ?_⟩, ?_⟩
        · rintro ⟨d', n', k1, k2, k3⟩
          rw [huniq d' k1, hn] at k2
          cases k2
          exact absurd hfit k3
        · intro x hx
          simp only [Reply.seen, List.mem_singleton] at hx
          subst hx
          refine ⟨d ++ [name], ?_, fun hk => Or.inr ⟨n, hn, etype_dir hk⟩⟩
          have := G.inoPath_of hP (d0 := d0)
          exact this
      · rw [G.attrOf_none hP hn hfit]
        exact ⟨⟨fun _ => ⟨d, n, hd, hn, hfit⟩, fun _ => rfl⟩, by simp [Reply.seen]⟩
    · simp only [hf]
      refine ⟨⟨fun e => by simp at e, ?_⟩, by simp [Reply.seen]⟩
      rintro ⟨d', n', k1, k2, k3⟩
      rw [huniq d' k1, hn] at k2
      cases k2
  | getattr ino =>
    obtain ⟨k, hk⟩ := hr
    obtain ⟨p, hp, _⟩ := hseen _ hk
    simp only at hp
    rw [hstep]
    rcases G.inoPath_cases hp with ⟨h1, _⟩ | ⟨i, h1, h2, h3⟩
    · subst h1
      simp only [pureStep, inoIdx]
      refine ⟨⟨fun e => by simp at e, fun e => ?_⟩, by simp [Reply.seen]⟩
      have := e.1; omega
    · obtain ⟨n, hn⟩ := (G.dom _).mp (List.mem_of_getElem? h2)
      simp only [pureStep, h3]
      by_cases hfit : n.HasAttr
      · rw [G.attrOf h2 hn hfit]
        refine ⟨⟨fun e => by simp at e, ?_⟩, by simp [Reply.seen]⟩
        rintro ⟨_, p', n', k1, k2, k3⟩
        rw [hp] at k1; cases k1
        rw [hn] at k2; cases k2
        exact absurd hfit k3
      · rw [G.attrOf_none h2 hn hfit]
        exact ⟨⟨fun _ => ⟨by omega, p, n, hp, hn, hfit⟩, fun _ => rfl⟩, by simp [Reply.seen]⟩
  | read ino off size =>
    have hI := h.inv reqs
    have hr' : 0 < Arx.openCount (logOf cfg reqs) ino := hr
    rw [← h.openCount] at hr'
    simp only [FsState.step, FsState.read]
    cases hreg : (FsState.init.run cfg reqs).2.region ino with
    | none => have := hI.closed ino hreg; omega
    | some x =>
      obtain ⟨b, c⟩ := x
      obtain ⟨o1, o2, o3, o4⟩ := hI.opened ino b c hreg
      rw [if_neg o3]
      simp only [CrashCause, o4, Option.some.injEq]
      by_cases h0 : off < 0
      · rw [if_pos h0]; exact ⟨⟨fun _ => .inl h0, fun _ => rfl⟩, by simp [Reply.seen]⟩
      · rw [if_neg h0]
        by_cases h1 : b.length < off.toNat
        · rw [if_pos h1]; exact ⟨⟨fun _ => .inr ⟨b, rfl, h1⟩, fun _ => rfl⟩, by simp [Reply.seen]⟩
        · rw [if_neg h1]
          refine ⟨⟨fun e => by simp at e, ?_⟩, by simp [Reply.seen]⟩
          rintro (e | ⟨b', rfl, e⟩)
          · exact absurd e h0
          · exact absurd e h1
  | readdir _ _ _ => exact simple (by simp) (by simp) (by simp)
  | readlink _ => exact simple (by simp) (by simp) (by simp)
  | «open» _ => exact simple (by simp) (by simp) (by simp)
  | release _ => exact simple (by simp) (by simp) (by simp)
  | opendir _ => exact simple (by simp) (by simp) (by simp)
  | releasedir _ => exact simple (by simp) (by simp) (by simp)

/-- **C30, in full.** For every created archive: in every history in which each request is one a kernel makes
after the replies so far, a request crashes the mount exactly if it is one of `CrashCause`. -/
theorem C30_exact {rs : List AddReq} {m : PathMap} {cfg : FsCfg} {d0 : List Bytes} (h : Mounted rs m cfg d0)
    (hsz : Listable cfg) (reqs : List FReq)
    (hk : ∀ pre r post, reqs = pre ++ r :: post → KernelReq (logOf cfg pre) r) :
    ∀ pre r post, reqs = pre ++ r :: post →
      (((FsState.init.run cfg pre).2.step cfg r).1 = .panic ↔ CrashCause cfg m d0 r) := by
  have key : ∀ k, k ≤ reqs.length → ∀ x ∈ seenIn (logOf cfg (reqs.take k)), KnownIno cfg m d0 x := by
    intro k
    induction k with
    | zero =>
      intro _ x hx
      simp [seenIn, logOf] at hx
      subst hx
      exact ⟨d0, by simp [inoPath], fun _ => Or.inl rfl⟩
    | succ k ih =>
      intro hle
      have h2 := ih (by omega)
      have hlt : k < reqs.length := by omega
      have hsplit : reqs = reqs.take k ++ reqs[k] :: reqs.drop (k + 1) := by
        rw [← List.drop_eq_getElem_cons hlt, List.take_append_drop]
      have htake : reqs.take (k + 1) = reqs.take k ++ [reqs[k]] := (List.take_append_getElem hlt).symm
      have hst := h.kernel_step hsz (reqs.take k) h2 reqs[k] (hk _ _ _ hsplit)
      rw [htake, logOf_snoc]
      intro x hx
      rw [seenIn_append] at hx
      rcases hx with hx | hx
      · exact h2 x hx
      · simp at hx; exact hst.2 x hx
  intro pre r post he
  have hpre : reqs.take pre.length = pre := by rw [he]; simp
  have := key pre.length (by rw [he]; simp)
  rw [hpre] at this
  exact (h.kernel_step hsz pre this r (hk _ _ _ he)).1

/-- the hypotheses are met: `x` of `b` is looked up, opened, and read inside and beyond its three bytes -/
example : KernelReq (logOf exFs []) (.readdir 1 0 4096) ∧ KernelReq (logOf exFs [.readdir 1 0 4096]) (.lookup 3 (ascii "x")) ∧
    KernelReq (logOf exFs [.readdir 1 0 4096, .lookup 3 (ascii "x")]) (.open 5) ∧
    KernelReq (logOf exFs [.readdir 1 0 4096, .lookup 3 (ascii "x"), .open 5]) (.read 5 4 10) ∧
    CrashCause exFs exMap [] (.read 5 4 10) ∧ ¬ CrashCause exFs exMap [] (.read 5 3 10) := by
  have hb : exFs.fileBytes 5 = some (ascii "xyz") := by decide
  refine ⟨?_, ?_, ?_, ?_, .inr ⟨_, hb, by decide⟩, ?_⟩
  · show (1, EntryType.dir) ∈ _; decide
  · show (3, EntryType.dir) ∈ _; decide
  · exact ⟨.file, by decide⟩
  · show 0 < openCount _ _; decide
  · rintro (h | ⟨b, h1, h2⟩)
    · omega
    · rw [hb] at h1; cases h1; revert h2; decide

/-- **C23, for every archive.** A lookup answers the attributes of the child with exactly this name, ENOENT if there is none, and crashes
exactly if the attributes of the child cannot be given to the kernel (`Node.HasAttr`), whatever the other entries are. -/
theorem C23_exact {rs : List AddReq} {m : PathMap} {cfg : FsCfg} {d0 : List Bytes} (h : Mounted rs m cfg d0)
    {s : FsState} (hs : FsReach cfg s) {ino : Nat} {d : List Bytes} (name : Bytes)
    (hi : inoPath cfg d0 ino = some d) (hd : ino = 1 ∨ ∃ n, m d = some n ∧ n.isDir = true) :
    (m (d ++ [name]) = none → (s.step cfg (.lookup ino name)).1 = .error .ENOENT) ∧
    (∀ n, m (d ++ [name]) = some n →
      (n.HasAttr → ∃ at', (s.step cfg (.lookup ino name)).1 = .entry at' ∧ AttrAt cfg m (d ++ [name]) at') ∧
      (¬ n.HasAttr → (s.step cfg (.lookup ino name)).1 = .panic)) := by
  refine ⟨fun hn => ?_, fun n hn => ⟨fun hfit => ?_, fun hfit => ?_⟩⟩
  · have := h.lookup_at hs name hi hd (by rw [hn]; intro n e; cases e)
    rw [hn] at this; exact this
  · have := h.lookup_at hs name hi hd (by rw [hn]; intro n e; cases e; exact hfit)
    rw [hn] at this; exact this
  · obtain ⟨opens, I, hstep⟩ := h.step hs
    obtain ⟨P, G, hroot, _⟩ := h.good
    obtain ⟨rg, hrg, hR⟩ := G.entryRange hroot hi hd
    rw [hstep]
    simp only [pureStep, hrg]
    rcases G.find_spec hR name with ⟨j, hj, hP, hf⟩ | ⟨hn', hf⟩
    · simp only [hf]
      rw [show j + rg.offset = rg.offset + j by omega, G.attrOf_none hP hn hfit]
    · rw [hn] at hn'; cases hn'

/-- **C28, for every archive.** What `getattr` answers depends on the entry alone: its attributes, or a crash exactly if they cannot be
given to the kernel. `readlink` and `opendir` never crash. -/
theorem C28_exact {rs : List AddReq} {m : PathMap} {cfg : FsCfg} {d0 : List Bytes} (h : Mounted rs m cfg d0)
    {s : FsState} (hs : FsReach cfg s) {ino : Nat} {p : List Bytes} {n : Node} (h2 : 2 ≤ ino)
    (hp : inoPath cfg d0 ino = some p) (hn : m p = some n) :
    (n.HasAttr → ∃ ns, KidsOf m p ns ∧ (s.step cfg (.getattr ino)).1 = .attr (attrSpec ino ns.length n)) ∧
    (¬ n.HasAttr → (s.step cfg (.getattr ino)).1 = .panic) ∧
    (s.step cfg (.readlink ino)).1 = (match n.kind with | .link t => .data t | _ => .error .ENOLINK) ∧
    (s.step cfg (.opendir ino)).1 = (if n.isDir then .opened else .error .ENOTDIR) := by
  obtain ⟨opens, I, hstep⟩ := h.step hs
  obtain ⟨P, G, hroot, _⟩ := h.good
  rcases G.inoPath_cases hp with ⟨h1, _⟩ | ⟨i, rfl, hi, hidx⟩
  · omega
  obtain ⟨r, n', g1, g2, g3⟩ := G.row_at hi
  rw [hn] at g2; cases g2
  obtain ⟨_, _, _, _, _, _, q7⟩ := g3
  refine ⟨fun hfit => ⟨kids P p, G.kidsOf p, ?_⟩, fun hfit => ?_, ?_, ?_⟩
  · rw [hstep]
    simp only [pureStep, hidx, G.attrOf hi hn hfit]
  · rw [hstep]
    simp only [pureStep, hidx, G.attrOf_none hi hn hfit]
  · simp only [FsState.step, FsState.readlink, hidx, g1]
    cases hk : n.kind <;> rw [hk] at q7 <;> simp [q7.1, EntryType.tryFrom]
    exact q7.2.1
  · simp only [FsState.step, FsState.opendir, hidx, g1]
    cases hk : n.kind <;> rw [hk] at q7 <;> simp [q7.1, EntryType.tryFrom, Node.isDir, hk, Kind.isDir]

/-- **C29, for every archive.** Each name that is listed is found by a lookup with the same inode and kind, unless the attributes of that
entry cannot be given to the kernel; each name that is found is listed. -/
theorem C29_exact {rs : List AddReq} {m : PathMap} {cfg : FsCfg} {d0 : List Bytes} (h : Mounted rs m cfg d0)
    (hsz : Listable cfg) {ino : Nat} {d : List Bytes} (hi : inoPath cfg d0 ino = some d)
    (hd : ino = 1 ∨ ∃ n, m d = some n ∧ n.isDir = true) :
    (∀ (s1 s2 : FsState) off buf page e, FsReach cfg s2 → (s1.step cfg (.readdir ino off buf)).1 = .dir page →
      e ∈ page → 2 ≤ e.cookie →
      (∃ at', (s2.step cfg (.lookup ino e.name)).1 = .entry at' ∧ at'.ino = e.ino ∧ at'.kind = e.kind) ∨
      (s2.step cfg (.lookup ino e.name)).1 = .panic ∧ ∃ n, m (d ++ [e.name]) = some n ∧ ¬ n.HasAttr) ∧
    (∃ buf, ∀ (s1 s2 : FsState) name at', FsReach cfg s2 → (s2.step cfg (.lookup ino name)).1 = .entry at' →
      ∃ page e, (s1.step cfg (.readdir ino 0 buf)).1 = .dir page ∧ e ∈ page ∧ e.name = name ∧ 2 ≤ e.cookie ∧
        e.ino = at'.ino ∧ e.kind = at'.kind) := by
  obtain ⟨L, hL, hread⟩ := h.readdir hsz hi hd
  have huniq := (C22_inode_paths h).2.2
  have agree : ∀ (e : DirEnt) at', e ∈ L → 2 ≤ e.cookie → AttrAt cfg m (d ++ [e.name]) at' →
      at'.ino = e.ino ∧ at'.kind = e.kind := by
    intro e at' he hc hat
    obtain ⟨h2, h3, n, h4, h5⟩ := hL.child he hc
    obtain ⟨n', ns, a1, a2, a3, a4, a5⟩ := hat
    rw [h4] at a1; cases a1
    obtain ⟨i0, g1, g2, g3⟩ := huniq _ _ h4
    have e1 := g3 e.ino h2 (by rw [← h3]; exact inoPath_ge2 h2)
    have e2 := g3 at'.ino a4 (by rw [← a3]; exact inoPath_ge2 a4)
    refine ⟨by omega, ?_⟩
    rw [a5, h5]; rfl
  refine ⟨?_, ?_⟩
  · intro s1 s2 off buf page e hs2 hp he hc
    rw [hread] at hp
    have hp := Reply.dir.inj hp
    have heL : e ∈ L := by
      obtain ⟨j, hj, _⟩ := fill_take buf 0 (L.drop (if off = 0 then 0 else off + 1))
      rw [← hp, hj] at he
      exact List.mem_of_mem_drop (List.mem_of_mem_take he)
    obtain ⟨_, _, n, h4, _⟩ := hL.child heL hc
    obtain ⟨l1, l2⟩ := (C23_exact h hs2 e.name hi hd).2 n h4
    by_cases hfit : n.HasAttr
    · obtain ⟨at', hr, hat⟩ := l1 hfit
      obtain ⟨a1, a2⟩ := agree e at' heL hc hat
      exact Or.inl ⟨at', hr, a1, a2⟩
    · exact Or.inr ⟨l2 hfit, n, h4, hfit⟩
  · refine ⟨entsSize L, fun s1 s2 name at' hs2 hr => ?_⟩
    have hl := C23_exact h hs2 name hi hd
    cases hm : m (d ++ [name]) with
    | none => have := hl.1 hm; rw [hr] at this; cases this
    | some n =>
      obtain ⟨l1, l2⟩ := hl.2 n hm
      by_cases hfit : n.HasAttr
      · obtain ⟨at'', hr', hat⟩ := l1 hfit
        rw [hr] at hr'; cases hr'
        obtain ⟨ns, hk, ha⟩ := hL.kids
        obtain ⟨e, he, h1, h2, h3, h4⟩ := ha.right_mem ((hk.2 name).mpr ⟨n, hm⟩)
        have heL : e ∈ L := List.mem_of_mem_drop he
        obtain ⟨i, hi'⟩ := List.mem_iff_getElem?.mp he
        rw [List.getElem?_drop] at hi'
        have hc : 2 ≤ e.cookie := by rw [hL.cookie hi']; omega
        have hag := agree e at' heL hc (by rw [h1]; exact hat)
        refine ⟨L, e, ?_, heL, h1, hc, hag.1.symm, hag.2.symm⟩
        rw [hread]
        simp only [if_true, List.drop_zero]
        rw [fill_all _ _ _ (by omega)]
      · have := l2 hfit; rw [hr] at this; cases this

/-- both cases of `C23_exact` and `C28_exact` occur -/
example : (∃ at', (FsState.init.step exFs (.lookup 3 (ascii "x"))).1 = .entry at') ∧
    (FsState.init.step ⟨oldArchive, oldArchive.root, exBytes⟩ (.lookup 1 (ascii "f"))).1 = .panic ∧
    (FsState.init.step ⟨oldArchive, oldArchive.root, exBytes⟩ (.lookup 1 (ascii "g"))).1 = .error .ENOENT :=
  ⟨⟨_, rfl⟩, C50_mtime_counterexample.2.1, by decide⟩

end Arx
