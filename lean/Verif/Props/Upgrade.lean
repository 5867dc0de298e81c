import Verif.Spec.Upgrade
import Verif.Props.Steps
import Verif.Props.Success
import Verif.Props.ListFile

/-! C97: extracting a new version over an old one. -/
namespace Arx

/-- What is there after the runs is the part of the old archive that was asked for. -/
theorem old_here {old : PathMap} {sels : List Selection} {bytes : ContentAddr → GetBytes} {base : List Bytes} {mid before : FS}
    (L : Leftover base old before mid) (P : PartAt mid base old bytes sels) {p : List Bytes} (hp : p ≠ []) {x : FNode}
    (hx : mid.nodes (base ++ p) = some x) : ∃ n, OldEntry old sels p n ∧ Fits before.next n x := by
  obtain ⟨n, h1, h2⟩ := L.below p x hp hx
  refine ⟨n, ⟨h1, Classical.byContradiction fun hno => ?_⟩, h2⟩
  rw [P.unselected p n h1 hno] at hx; cases hx

theorem IsEntry.stillThere {bytes : ContentAddr → GetBytes} {fs : FS} {q : List Bytes} {n : Node} (h : IsEntry bytes fs q n) {lo : Nat} {x : FNode}
    (hx : fs.nodes q = Option.some x) (hf : Fits lo n x) : ∀ {fs' : FS}, fs'.nodes q = Option.some x → (∀ i, x = .file i → fs'.data i = fs.data i) → IsEntry bytes fs' q n := by
  intro fs' h' hd
  unfold IsEntry at h ⊢
  cases hk : n.kind with
  | dir => rw [hk] at h; obtain ⟨t, ht⟩ := h; exact ⟨t, by rw [h', ← hx, ht]⟩
  | link t => rw [hk] at h; obtain ⟨u, hu⟩ := h; exact ⟨u, by rw [h', ← hx, hu]⟩
  | file s c =>
    rw [hk] at h
    obtain ⟨i, hi, hb⟩ := h
    rw [hx] at hi; cases hi
    exact ⟨i, h', by rw [hd i rfl]; exact hb⟩

theorem PlainTarget.upgrade {old new : PathMap} {sels : List Selection} {bytes : ContentAddr → GetBytes} {base : List Bytes} {mid before : FS}
    (L : Leftover base old before mid) (P : PartAt mid base old bytes sels) (hnew : new [] = none) (hnames : ∀ p n, new p = some n → ∀ c ∈ p, PlainName c)
    (hlinks : ∀ p n n' t, OldEntry old sels p n → n.kind = .link t → new p = some n' → ∃ t', n'.kind = .link t') : PlainTarget mid base new := by
  have hne : ∀ p n, new p = some n → p ≠ [] := by rintro p n h rfl; rw [hnew] at h; cases h
  refine ⟨⟨L.plain.root, L.plain.tree, L.plain.inos⟩, L.plain.baseNames, L.plain.baseLinks, ?_, ?_, hnames⟩
  · intro p n' hn' hk t u hx
    obtain ⟨n, h1, h2⟩ := old_here L P (hne p n' hn') hx
    cases hkk : n.kind with
    | dir => simp only [Fits, hkk] at h2; obtain ⟨_, e⟩ := h2; cases e
    | file s c => simp only [Fits, hkk] at h2; obtain ⟨_, _, e⟩ := h2; cases e
    | link t' =>
      obtain ⟨t'', e⟩ := hlinks p n n' t' h1 hkk hn'
      exact hk t'' e
  · intro p n' i q hn' hx hq
    obtain ⟨n, h1, h2⟩ := old_here L P (hne p n' hn') hx
    exact L.plain.alias p n i q h1.1 hx hq

/-- **C97 (when).** An archive was extracted to an empty or missing directory, in one or several runs, perhaps only in part. Now
another archive (or a part of it) is extracted to the same directory with `overwrite`, no call failing. If no link of
the first is where the second has a file or directory, the extraction succeeds exactly if each entry that is extracted can take the place of the
old one: a directory of a directory, a file of a file, a link of a file or link. -/
theorem C97_when {rs rs' : List AddReq} {m m' : PathMap} {a : Archive} {oldBytes : ContentAddr → GetBytes} {rg rg' : Range} {d0 d1 : List Bytes}
    {before mid after : FS} {sels : List Selection} {cfg : XCfg} {res : XResult}
    (h : Source rs m a rg d0) (hE : Extractable (m.sub d0) oldBytes) (hT : EmptyTarget before cfg.base)
    (hr : Runs a oldBytes cfg.base rg before sels mid)
    (h' : Source rs' m' cfg.a rg' d1) (hE' : Extractable (m'.sub d1) cfg.bytes) (hmode : cfg.mode = .overwrite) (hx : CleanExtraction cfg rg' mid after res)
    (hlinks : ∀ p n n' t, OldEntry (m.sub d0) sels p n → n.kind = .link t → m'.sub d1 p = some n' → ∃ t', n'.kind = .link t') :
    res = .ok ↔ ∀ p n n', OldEntry (m.sub d0) sels p n → NewEntry (m'.sub d1) (cfg.files, cfg.recurse) p n' → KindReplaces n.kind n'.kind := by
  obtain ⟨L, P⟩ := hr.inv h hE hT
  have T := PlainTarget.upgrade L P (by simp [PathMap.sub]) hE'.names hlinks
  rw [C75_success h' T hx]
  constructor
  · intro U p n n' ho hn
    have hp := (PathMap.sub_some hn.1).1
    have hI := P.there p n ho.1 ho.2
    have hnm : ∀ s c, n'.kind = .file s c → cfg.bytes c ≠ .missing := by
      intro s c hk e
      obtain ⟨b, hb⟩ := hE'.content p n' s c hn.1 hk
      rw [hb] at e; cases e
    have hr : Replaces cfg.mode n'.info.mtime = fun _ => True := by funext x; simp [Replaces, hmode]
    cases hk : n.kind with
    | dir =>
      simp only [IsEntry, hk] at hI
      obtain ⟨t, ht⟩ := hI
      have := U.conflict p n' _ hn.1 hn.2 hnm ht
      cases hk' : n'.kind with
      | dir => trivial
      | file s c => simp only [NoConflict, hk', hr] at this; obtain ⟨_, _, h3⟩ := this; obtain ⟨i, e⟩ := h3 trivial; cases e
      | link t' => simp only [NoConflict, hk', hr] at this; obtain ⟨_, _, h3⟩ := this; exact absurd rfl (h3 trivial t)
    | file s c =>
      simp only [IsEntry, hk] at hI
      obtain ⟨i, hi, _⟩ := hI
      have := U.conflict p n' _ hn.1 hn.2 hnm hi
      cases hk' : n'.kind with
      | dir => simp only [NoConflict, hk'] at this; obtain ⟨t, e⟩ := this; cases e
      | file s c => trivial
      | link t' => trivial
    | link t =>
      obtain ⟨t', e⟩ := hlinks p n n' t ho hk hn.1
      rw [e]; trivial
  · intro hc
    have hno : NoObstacle cfg mid (m'.sub d1) := by
      refine NoObstacle.of hx.1 ?_ ?_ ?_ hE'.utf8 (fun p n t h1 h2 => (hE'.targets p n t h1 h2).1)
        (fun p n t h1 _ h2 => (hE'.targets p n t h1 h2).2)
      · intro q i hq e
        obtain ⟨u, hu⟩ := L.way q _ hq e
        cases hu
      · intro p n' x hp hs hx'
        obtain ⟨n, h1, h2⟩ := old_here L P (PathMap.sub_some hp).1 hx'
        have := hc p n n' h1 ⟨hp, hs⟩
        unfold NoConflict
        unfold Fits at h2
        cases hk : n.kind <;> cases hk' : n'.kind <;> simp only [hk, hk', KindReplaces] at this h2 ⊢
        · exact h2
        · obtain ⟨i, _, e⟩ := h2; subst e; simp [hmode]
        · obtain ⟨i, _, e⟩ := h2; subst e; simp [hmode]
        · obtain ⟨i, e⟩ := h2; subst e; simp [hmode]
      · intro p n s c hp _ hk e
        obtain ⟨b, hb⟩ := hE'.content p n s c hp hk
        rw [hb] at e; cases e
    exact hno.toUnhindered

/-- **C97 (what).** When the second extraction, in whatever mode, has succeeded: what is only in the second archive has been added; what is
in both is as in the second if the mode replaces it, and as it was otherwise; what is only in the first is as it was; nothing else is there.
Nothing outside of the directory has changed. -/
theorem C97_upgrade {rs rs' : List AddReq} {m m' : PathMap} {a : Archive} {oldBytes : ContentAddr → GetBytes} {rg rg' : Range} {d0 d1 : List Bytes}
    {before mid after : FS} {sels : List Selection} {cfg : XCfg}
    (h : Source rs m a rg d0) (hE : Extractable (m.sub d0) oldBytes) (hT : EmptyTarget before cfg.base)
    (hr : Runs a oldBytes cfg.base rg before sels mid)
    (h' : Source rs' m' cfg.a rg' d1) (hE' : Extractable (m'.sub d1) cfg.bytes) (hx : Extraction cfg rg' mid after .ok)
    (hlinks : ∀ p n n' t, OldEntry (m.sub d0) sels p n → n.kind = .link t → m'.sub d1 p = some n' → ∃ t', n'.kind = .link t') :
    Upgraded mid after cfg.base cfg.mode (OldEntry (m.sub d0) sels) (NewEntry (m'.sub d1) (cfg.files, cfg.recurse)) oldBytes cfg.bytes ∧
    (∀ q, ¬ cfg.base <+: q → ¬ q <+: cfg.base → after.nodes q = before.nodes q) ∧
    (∀ q x, q <+: cfg.base → before.nodes q = some x → after.nodes q = some x) ∧
    (∀ i, i < before.next → after.data i = before.data i) := by
  obtain ⟨L, P⟩ := hr.inv h hE hT
  have T := PlainTarget.upgrade L P (by simp [PathMap.sub]) hE'.names hlinks
  obtain ⟨k1, _, k3⟩ := hx.main h' T
  obtain ⟨_, k4⟩ := k3 rfl
  have hnil : ∀ p n, NewEntry (m'.sub d1) (cfg.files, cfg.recurse) p n → p ≠ [] := fun p n hn => (PathMap.sub_some hn.1).1
  have hnil' : ∀ p n, OldEntry (m.sub d0) sels p n → p ≠ [] := fun p n hn => (PathMap.sub_some hn.1).1
  have hnone : ∀ p, p ≠ [] → (∀ n, ¬ OldEntry (m.sub d0) sels p n) → mid.nodes (cfg.base ++ p) = none := by
    intro p hp hno
    cases hx : mid.nodes (cfg.base ++ p) with
    | none => rfl
    | some x =>
      obtain ⟨n, h1, _⟩ := old_here L P hp hx
      exact absurd h1 (hno n)
  have hhere : ∀ p n, OldEntry (m.sub d0) sels p n → ∃ x, mid.nodes (cfg.base ++ p) = some x ∧ Fits before.next n x := by
    intro p n ho
    have hI := P.there p n ho.1 ho.2
    cases hx : mid.nodes (cfg.base ++ p) with
    | none =>
      unfold IsEntry at hI
      rw [hx] at hI
      split at hI
      · obtain ⟨_, e⟩ := hI; cases e
      · obtain ⟨_, e, _⟩ := hI; cases e
      · obtain ⟨_, e⟩ := hI; cases e
    | some x =>
      obtain ⟨n', h1, h2⟩ := old_here L P (hnil' p n ho) hx
      have e := h1.1
      rw [ho.1] at e; cases e
      exact ⟨x, rfl, h2⟩
  have hcontent : ∀ p n s c, NewEntry (m'.sub d1) (cfg.files, cfg.recurse) p n → n.kind = .file s c → ∃ b, cfg.bytes c = .found b :=
    fun p n s c hn hk => hE'.content p n s c hn.1 hk
  refine ⟨⟨?_, ?_, ?_, ?_, ?_⟩, ?_, ?_, ?_⟩
  · -- added
    intro p n hn hno
    have hb := hnone p (hnil p n hn) hno
    have hE1 := k4 p n hn.1 hn.2
    unfold IsEntry
    cases hk : n.kind with
    | dir => simp only [Extracted, hk] at hE1; exact hE1.1
    | file s c =>
      obtain ⟨b, hb'⟩ := hcontent p n s c hn hk
      simp only [Extracted, hk, hb', hb] at hE1
      obtain ⟨i, h1, _, h2⟩ := hE1
      exact ⟨i, h1, by rw [hb', h2]⟩
    | link t =>
      simp only [Extracted, hk, hb] at hE1
      exact hE1.2
  · -- replaced
    intro p n n' x ho hn hx' hR
    have hE1 := k4 p n' hn.1 hn.2
    unfold IsEntry
    cases hk : n'.kind with
    | dir => simp only [Extracted, hk] at hE1; exact hE1.1
    | file s c =>
      obtain ⟨b, hb'⟩ := hcontent p n' s c hn hk
      simp only [Extracted, hk, hb', hx'] at hE1
      obtain ⟨_, h1, h2, _⟩ := hE1
      obtain ⟨i, e, h3⟩ := h2 hR
      subst e
      exact ⟨i, h1, by rw [hb', h3]⟩
    | link t =>
      simp only [Extracted, hk, hx'] at hE1
      exact (hE1.2.2.1 hR).2
  · -- kept
    intro p n n' x ho hn hx' hR
    have hI := P.there p n ho.1 ho.2
    obtain ⟨x', hx'', hf⟩ := hhere p n ho
    rw [hx'] at hx''; cases hx''
    have hE1 := k4 p n' hn.1 hn.2
    cases hk : n'.kind with
    | dir =>
      simp only [Extracted, hk] at hE1
      obtain ⟨⟨t, ht⟩, h2⟩ := hE1
      have := h2 x hx'
      rw [ht] at this; cases this
      exact hI.stillThere hx' hf ht (by intro i e; cases e)
    | file s c =>
      obtain ⟨b, hb'⟩ := hcontent p n' s c hn hk
      simp only [Extracted, hk, hb', hx'] at hE1
      obtain ⟨_, h1, _, h3⟩ := hE1
      exact hI.stillThere hx' hf h1 (h3 hR)
    | link t =>
      simp only [Extracted, hk, hx'] at hE1
      have h1 := hE1.2.2.2 hR
      exact hI.stillThere hx' hf h1.1 h1.2
  · -- stays
    intro p n ho hno
    have hI := P.there p n ho.1 ho.2
    obtain ⟨x, hx', hf⟩ := hhere p n ho
    have hnt : ¬ IsTarget cfg.files cfg.recurse cfg.base (m'.sub d1) (cfg.base ++ p) := by
      rintro ⟨p', n', e, h1, h2⟩
      rw [List.append_cancel_left_eq] at e; subst e
      exact hno n' ⟨h1, h2⟩
    refine hI.stillThere hx' hf (by rw [k1.nodes _ (not_prefix_base (hnil' p n ho)) hnt]; exact hx') ?_
    intro i e
    subst e
    refine k1.data i (L.plain.inos _ _ hx') ?_
    intro q hq
    rw [L.plain.alias p n i q ho.1 hx' hq]
    exact hnt
  · -- nothing
    intro p hp h1 h2
    rw [k1.nodes _ (not_prefix_base hp), hnone p hp h1]
    rintro ⟨p', n', e, h3, h4⟩
    rw [List.append_cancel_left_eq] at e; subst e
    exact h2 n' ⟨h3, h4⟩
  · intro q h1 h2
    rw [k1.nodes q h2, L.outside q h1 h2]
    rintro ⟨p, n, e, _⟩
    exact h1 (by rw [e]; exact List.prefix_append _ _)
  · intro q x hq hx'
    exact k1.above q x hq (L.above q x hq hx')
  · intro i hi
    have hnx := L.next
    rw [k1.data i (by omega), L.data i hi]
    rintro q hq ⟨p, n, e, h1, h2⟩
    subst e
    obtain ⟨n', h3, h4⟩ := old_here L P (PathMap.sub_some h1).1 hq
    unfold Fits at h4
    split at h4
    · obtain ⟨_, e⟩ := h4; cases e
    · obtain ⟨j, hj, e⟩ := h4; cases e; omega
    · obtain ⟨_, e⟩ := h4; cases e

/-- **C97 (overwrite).** The whole of the old archive had been extracted (in one or several runs) and the whole of the new one is extracted over it with `overwrite`: every entry of the new
archive is there with its content; of the old archive, what the new one does not have; and nothing else. -/
theorem C97_overwrite {rs rs' : List AddReq} {m m' : PathMap} {a : Archive} {oldBytes : ContentAddr → GetBytes} {rg rg' : Range} {d0 d1 : List Bytes}
    {before mid after : FS} {sels : List Selection} {cfg : XCfg}
    (h : Source rs m a rg d0) (hE : Extractable (m.sub d0) oldBytes) (hT : EmptyTarget before cfg.base)
    (hr : Runs a oldBytes cfg.base rg before sels mid) {rc : Bool} (hsels : ([], rc) ∈ sels)
    (h' : Source rs' m' cfg.a rg' d1) (hE' : Extractable (m'.sub d1) cfg.bytes) (hmode : cfg.mode = .overwrite) (hfiles : cfg.files = [])
    (hx : Extraction cfg rg' mid after .ok)
    (hlinks : ∀ p n n' t, m.sub d0 p = some n → n.kind = .link t → m'.sub d1 p = some n' → ∃ t', n'.kind = .link t') :
    (∀ p n, m'.sub d1 p = some n → IsEntry cfg.bytes after (cfg.base ++ p) n) ∧
    (∀ p n, m.sub d0 p = some n → m'.sub d1 p = none → IsEntry oldBytes after (cfg.base ++ p) n) ∧
    (∀ p, p ≠ [] → m.sub d0 p = none → m'.sub d1 p = none → after.nodes (cfg.base ++ p) = none) := by
  obtain ⟨U, _⟩ := C97_upgrade h hE hT hr h' hE' hx (fun p n n' t ho => hlinks p n n' t ho.1)
  have hold : ∀ p n, m.sub d0 p = some n → OldEntry (m.sub d0) sels p n := fun p n e => ⟨e, _, hsels, Or.inl rfl⟩
  have hnew : ∀ p n, m'.sub d1 p = some n → NewEntry (m'.sub d1) (cfg.files, cfg.recurse) p n := fun p n e => ⟨e, Or.inl hfiles⟩
  refine ⟨fun p n hp => ?_, fun p n hp hno => ?_, fun p hp h1 h2 => ?_⟩
  · cases ho : m.sub d0 p with
    | none => exact U.added p n (hnew p n hp) (by rintro n' ⟨e, _⟩; rw [ho] at e; cases e)
    | some n' =>
      cases hmid : mid.nodes (cfg.base ++ p) with
      | some x => exact U.replaced p n' n x (hold p n' ho) (hnew p n hp) hmid (Or.inl hmode)
      | none =>
        obtain ⟨_, P⟩ := hr.inv h hE hT
        have hI := P.there p n' ho (hold p n' ho).2
        unfold IsEntry at hI
        rw [hmid] at hI
        split at hI
        · obtain ⟨_, e⟩ := hI; cases e
        · obtain ⟨_, e, _⟩ := hI; cases e
        · obtain ⟨_, e⟩ := hI; cases e
  · exact U.stays p n (hold p n hp) (by rintro n' ⟨e, _⟩; rw [hno] at e; cases e)
  · exact U.nothing p hp (by rintro n' ⟨e, _⟩; rw [h1] at e; cases e) (by rintro n' ⟨e, _⟩; rw [h2] at e; cases e)

/-! ### Example: in the new version `b/x` is a link, `c` is new, `a` is gone -/

def ver2Reqs : List AddReq := [⟨ascii "b", .ok (some .dir), exMeta⟩, ⟨ascii "b/x", .ok (some (.link (ascii "y"))), exMeta⟩, ⟨ascii "c", .ok (some (.link (ascii "z"))), exMeta⟩]
def ver2St : Creator := (Creator.new.run ver2Reqs).getD Creator.new
def ver2Archive : Archive := writeArchive ver2St [0, 2, 1]
theorem ver2Written : Written ver2Reqs ver2Archive := by
  obtain ⟨m, paths, hs, R⟩ := run_rel (show Creator.new.run ver2Reqs = some ver2St from rfl)
  exact ⟨ver2St, [0, 2, 1], rfl, R.layoutLoop_sound 3 _ _ (by rw [R.len]) (by decide), rfl, by decide⟩

theorem ver2Map {m : PathMap} (hm : SpecRun PathMap.empty ver2Reqs m) {p : List Bytes} {n : Node} (hp : m p = some n) :
    (p = [ascii "b"] ∧ n.kind = .dir) ∨ (p = [ascii "c"] ∧ n.kind = .link (ascii "z")) ∨ (p = [ascii "b", ascii "x"] ∧ n.kind = .link (ascii "y")) := by
  obtain ⟨i, hi, hu⟩ := map_cases ver2Written hm hp
  have hl : ver2Archive.entries.length = 3 := by decide
  rw [hl] at hi hu
  match i, hi with
  | 0, _ =>
    have : pathUp ver2Archive 3 0 = some [ascii "b"] := by decide
    rw [this] at hu; cases hu
    obtain ⟨n', hn, h1, h2, h3, h⟩ := map_kind ver2Written hm (ascii "b") (by decide) rfl
    rw [show comps (ascii "b") = [ascii "b"] by decide, hp] at hn
    cases hn
    refine .inl ⟨rfl, ?_⟩
    cases hk : n.kind <;> simp only [hk] at h
    · rfl
    · obtain ⟨f, hf, _⟩ := h; cases hf
    · obtain ⟨f, hf, _⟩ := h; cases hf
  | 1, _ =>
    have : pathUp ver2Archive 3 1 = some [ascii "c"] := by decide
    rw [this] at hu; cases hu
    obtain ⟨n', hn, h1, h2, h3, h⟩ := map_kind ver2Written hm (ascii "c") (by decide) rfl
    rw [show comps (ascii "c") = [ascii "c"] by decide, hp] at hn
    cases hn
    refine .inr (.inl ⟨rfl, ?_⟩)
    cases hk : n.kind <;> simp only [hk] at h
    · obtain ⟨_, _, hf⟩ := h; cases hf
    · obtain ⟨f, hf, _⟩ := h; cases hf
    · obtain ⟨f, hf, hf'⟩ := h; cases hf; rw [← hf']; rfl
  | 2, _ =>
    have : pathUp ver2Archive 3 2 = some [ascii "b", ascii "x"] := by decide
    rw [this] at hu; cases hu
    obtain ⟨n', hn, h1, h2, h3, h⟩ := map_kind ver2Written hm (ascii "b/x") (by decide) rfl
    rw [show comps (ascii "b/x") = [ascii "b", ascii "x"] by decide, hp] at hn
    cases hn
    refine .inr (.inr ⟨rfl, ?_⟩)
    cases hk : n.kind <;> simp only [hk] at h
    · obtain ⟨_, _, hf⟩ := h; cases hf
    · obtain ⟨f, hf, _⟩ := h; cases hf
    · obtain ⟨f, hf, hf'⟩ := h; cases hf; rw [← hf']; rfl

theorem ver2Sub {m : PathMap} (hm : SpecRun PathMap.empty ver2Reqs m) {p : List Bytes} {n : Node} (hp : m.sub [] p = some n) :
    (p = [ascii "b"] ∧ n.kind = .dir) ∨ (p = [ascii "c"] ∧ n.kind = .link (ascii "z")) ∨ (p = [ascii "b", ascii "x"] ∧ n.kind = .link (ascii "y")) :=
  ver2Map hm (by simpa using (PathMap.sub_some hp).2)

theorem ver2Extractable {m : PathMap} (hm : SpecRun PathMap.empty ver2Reqs m) : Extractable (m.sub []) exBytes := by
  refine ⟨?_, ?_, ?_, ?_⟩
  · intro p n hp c hc
    rcases ver2Sub hm hp with ⟨rfl, _⟩ | ⟨rfl, _⟩ | ⟨rfl, _⟩ <;> simp only [List.mem_cons, List.not_mem_nil, or_false] at hc <;>
      rcases hc with rfl | rfl <;> exact ⟨by decide, by decide, by decide⟩
  · intro p n hp c hc
    rcases ver2Sub hm hp with ⟨rfl, _⟩ | ⟨rfl, _⟩ | ⟨rfl, _⟩ <;> simp only [List.mem_cons, List.not_mem_nil, or_false] at hc <;>
      rcases hc with rfl | rfl <;> decide
  · intro p n t hp ht
    rcases ver2Sub hm hp with ⟨rfl, hk⟩ | ⟨rfl, hk⟩ | ⟨rfl, hk⟩ <;> rw [hk] at ht <;> cases ht <;> exact ⟨by decide, by decide, by decide⟩
  · intro p n s c hp ht
    rcases ver2Sub hm hp with ⟨rfl, hk⟩ | ⟨rfl, hk⟩ | ⟨rfl, hk⟩ <;> rw [hk] at ht <;> cases ht

def ver2X (mode : Overwrite) : XCfg := ⟨ver2Archive, exBytes, [], true, [ascii "t"], mode, quiet⟩
def ver2Run (mode : Overwrite) (fs : FS) : World × XResult := (ver2X mode).extractRange 5 ver2Archive.root fs finish

theorem ver2Clean {mode : Overwrite} {fs : FS} (h2 : (ver2Run mode fs).1.finished) :
    CleanExtraction (ver2X mode) ver2Archive.root fs (ver2Run mode fs).1.fs (ver2Run mode fs).2 := by
  refine ⟨fun _ => rfl, fun _ x hx => by simp [ver2X, quiet] at hx, 5, finish, _, ?_, rfl, h2, rfl, ?_⟩
  · show ver2Archive.entries.length < 5
    decide
  · intro x hx; simp only [finish, List.mem_cons, List.not_mem_nil, or_false] at hx; rcases hx with rfl | rfl | rfl <;> simp

theorem ver2Links {m : PathMap} (hm : SpecRun PathMap.empty ver2Reqs m) : ∀ p n n' t, exMap.sub [] p = some n → n.kind = .link t → m.sub [] p = some n' → ∃ t', n'.kind = .link t' := by
  intro p n n' t hp hk hn
  obtain ⟨⟨n1, a1, b1⟩, ⟨n2, a2, b2⟩, ⟨n3, a3, b3⟩, ⟨n4, a4, b4, c4⟩⟩ := exMap_kinds
  have hp' : exMap p = some n := by simpa using (PathMap.sub_some hp).2
  rcases ver2Sub hm hn with ⟨rfl, hk'⟩ | ⟨rfl, hk'⟩ | ⟨rfl, hk'⟩
  · rw [a2] at hp'; cases hp'; rw [b2] at hk; cases hk
  · exact ⟨_, hk'⟩
  · exact ⟨_, hk'⟩

/-- the hypotheses of `C97_when` and `C97_overwrite` are met, … -/
example : ∃ m, SpecRun PathMap.empty ver2Reqs m ∧
    (∀ p n, m.sub [] p = some n → IsEntry exBytes (ver2Run .overwrite step3).1.fs ([ascii "t"] ++ p) n) ∧
    (∀ p n, exMap.sub [] p = some n → m.sub [] p = none → IsEntry exBytes (ver2Run .overwrite step3).1.fs ([ascii "t"] ++ p) n) := by
  obtain ⟨m, hm, _⟩ := spec_exists ver2Written
  have hs : Source ver2Reqs m ver2Archive ver2Archive.root [] := ⟨ver2Written, hm, Or.inl ⟨rfl, rfl⟩⟩
  have hc := ver2Clean (mode := .overwrite) (fs := step3) (by decide +kernel)
  have hres : (ver2Run .overwrite step3).2 = .ok := by
    rw [C97_when (cfg := ver2X .overwrite) exSource exExtractable exT exRuns hs (ver2Extractable hm) rfl hc (fun p n n' t ho => ver2Links hm p n n' t ho.1)]
    intro p n n' ho hn
    obtain ⟨⟨n1, a1, b1⟩, ⟨n2, a2, b2⟩, ⟨n3, a3, b3⟩, ⟨n4, a4, b4, c4⟩⟩ := exMap_kinds
    have hp' : exMap p = some n := by simpa using (PathMap.sub_some ho.1).2
    rcases ver2Sub hm hn.1 with ⟨rfl, hk'⟩ | ⟨rfl, hk'⟩ | ⟨rfl, hk'⟩
    · rw [a2] at hp'; cases hp'; rw [b2, hk']; trivial
    · have := exMap_paths hp'; exact absurd this (by decide)
    · rw [a4] at hp'; cases hp'; rw [b4, hk']; trivial
  rw [hres] at hc
  have hc' : Extraction (ver2X .overwrite) ver2Archive.root step3 (ver2Run .overwrite step3).1.fs .ok := by
    obtain ⟨_, _, d, l, w, h1, h2, h3, h4, _⟩ := hc
    exact ⟨d, l, w, h1, h2, h3, h4⟩
  obtain ⟨h1, h2, _⟩ := C97_overwrite (cfg := ver2X .overwrite) (rc := true) exSource exExtractable exT exRuns (by simp) hs (ver2Extractable hm) rfl rfl hc' (ver2Links hm)
  exact ⟨m, hm, h1, h2⟩

/-- … and the conclusion can be seen: `b/x` is now a link and `c` is there, `a/l` as well -/
example : (ver2Run .overwrite step3).1.fs.nodes [ascii "t", ascii "b", ascii "x"] = some (.link (ascii "y") 9000000000) ∧
    (ver2Run .overwrite step3).1.fs.nodes [ascii "t", ascii "c"] = some (.link (ascii "z") 9000000000) ∧
    ((ver2Run .overwrite step3).1.fs.nodes [ascii "t", ascii "a", ascii "l"]).isSome = true := by decide +kernel

/-- `newer` compares the time in the archive with the time of the first extraction (which is the time of the extracted file): the new `b/x`, of
second 99, replaces the old one if that was extracted at second 9, but not if it was extracted at second 200 -/
def late : FS := (stepFs [] .error { fs0 with now := 200000000000 }).1.fs
example : (ver2Run .newer step3).2 = .ok ∧ (ver2Run .newer step3).1.fs.nodes [ascii "t", ascii "b", ascii "x"] = some (.link (ascii "y") 9000000000) ∧
    (ver2Run .newer late).2 = .ok ∧ (ver2Run .newer late).1.fs.nodes [ascii "t", ascii "b", ascii "x"] = some (.file 0) ∧
    ((ver2Run .newer late).1.fs.nodes [ascii "t", ascii "c"]).isSome = true := by decide +kernel

end Arx
