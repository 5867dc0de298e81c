import Verif.Props.Exact3
import Verif.Props.Steps
/-!
# C75: when an extraction succeeds
-/
namespace Arx

/-- what success implies -/
theorem Extraction.unhindered {rs : List AddReq} {m : PathMap} {cfg : XCfg} {rg : Range} {d0 : List Bytes} {before after : FS}
    (h : Source rs m cfg.a rg d0) (T : PlainTarget before cfg.base (m.sub d0))
    (hx : Extraction cfg rg before after .ok) : Unhindered cfg before (m.sub d0) := by
  obtain ⟨P, G, hrg⟩ := h.good
  obtain ⟨depth, last, w, hd, hrun, hfin, rfl⟩ := hx
  have key := G.extractRange T hrg hd last
  rw [hrun] at key
  obtain ⟨k, _, hR⟩ := key.2.2.1 rfl
  have S := xsetup G.wf d0 T
  refine ⟨?_, ?_, ?_, fun p c n hm hr => hR.2 p c n hm trivial hr, ?_⟩
  · intro q i hq e
    by_cases hne : q = []
    · subst hne
      obtain ⟨t, ht⟩ := T.root
      rw [ht] at e; cases e
    · obtain ⟨t, ht⟩ := k.dirs q hq hne
      rw [k.above q _ hq e] at ht; cases ht
  · intro p n x hm hs hc hx
    have he := k.done p n hm hs trivial
    simp only [Expect] at he
    unfold NoConflict
    cases hk : n.kind with
    | dir =>
      simp only [hk] at he ⊢
      obtain ⟨t, ht⟩ := he.1
      rw [he.2 x hx] at ht
      exact ⟨t, Option.some.inj ht⟩
    | file s c =>
      simp only [hk] at he ⊢
      cases hb : cfg.bytes c with
      | err => rw [hb] at he; exact he.elim
      | missing => exact absurd hb (hc s c hk)
      | found b =>
        rw [hb, hx] at he
        refine ⟨he.1, he.2.2.2, fun hr => ?_⟩
        obtain ⟨i, hi, _⟩ := he.2.2.1 hr
        exact ⟨i, hi⟩
    | link t =>
      simp only [hk] at he ⊢
      rw [hx] at he
      exact ⟨he.2.1, he.2.2.2.2, fun hr => (he.2.2.1 hr).1⟩
  · intro p n s c hm hs hk hb
    have he := k.done p n hm hs trivial
    simp only [Expect, hk, hb] at he
  · intro p n t hm hs hk
    have he := k.done p n hm hs trivial
    simp only [Expect, hk] at he
    exact he.1.2

/-- **C75.** An extraction, in whatever mode, with whatever selection and interleaving of the writers, in which no
system call fails for an external reason, succeeds exactly if nothing that is in the archive or at the target stands
in its way. -/
theorem C75_success {rs : List AddReq} {m : PathMap} {cfg : XCfg} {rg : Range} {d0 : List Bytes} {before after : FS}
    {res : XResult} (h : Source rs m cfg.a rg d0) (T : PlainTarget before cfg.base (m.sub d0))
    (hx : CleanExtraction cfg rg before after res) : res = .ok ↔ Unhindered cfg before (m.sub d0) := by
  constructor
  · rintro rfl
    obtain ⟨_, _, depth, last, w, hd, hrun, hfin, haft, _⟩ := hx
    exact Extraction.unhindered h T ⟨depth, last, w, hd, hrun, hfin, haft⟩
  · intro hu
    exact hx.ok h T ⟨hu, hx.1⟩

/-- **C75.** Also if system calls fail: success means that nothing stood in the way. -/
theorem C75_necessary {rs : List AddReq} {m : PathMap} {cfg : XCfg} {rg : Range} {d0 : List Bytes} {before after : FS}
    (h : Source rs m cfg.a rg d0) (T : PlainTarget before cfg.base (m.sub d0))
    (hx : Extraction cfg rg before after .ok) : Unhindered cfg before (m.sub d0) := Extraction.unhindered h T hx

/-- **C75.** So the result depends neither on the interleaving of the writers nor on anything else outside of the
archive and the target. -/
theorem C75_deterministic {rs : List AddReq} {m : PathMap} {cfg : XCfg} {rg : Range} {d0 : List Bytes} {before after after' : FS}
    {env' : Env} {res res' : XResult} (h : Source rs m cfg.a rg d0) (T : PlainTarget before cfg.base (m.sub d0))
    (hx : CleanExtraction cfg rg before after res) (hx' : CleanExtraction { cfg with env := env' } rg before after' res') :
    res = .ok ↔ res' = .ok := by
  rw [C75_success h T hx, C75_success (cfg := { cfg with env := env' }) h T hx']
  exact ⟨fun ⟨a, b, c, d, e⟩ => ⟨a, b, c, d, e⟩, fun ⟨a, b, c, d, e⟩ => ⟨a, b, c, d, e⟩⟩

/-- **C50 (extraction), in full.** Mode `newer`: the archived times that matter are those of the selected files and
links that exist already; the extraction of entries that can be recreated over entries of the same kinds succeeds
exactly if those are below 2^63 seconds. -/
theorem C50_newer_exact {rs : List AddReq} {m : PathMap} {cfg : XCfg} {rg : Range} {d0 : List Bytes} {before after : FS}
    {res : XResult} (h : Source rs m cfg.a rg d0) (T : PlainTarget before cfg.base (m.sub d0))
    (hE : Extractable (m.sub d0) cfg.bytes) (hx : CleanExtraction cfg rg before after res) (hmode : cfg.mode = .newer)
    (hbase : ∀ q i, q <+: cfg.base → before.nodes q ≠ some (.file i))
    (hkind : ∀ p n x, m.sub d0 p = some n → before.nodes (cfg.base ++ p) = some x →
      ((n.isDir = true ↔ ∃ t, x = .dir t) ∧ (∀ s c, n.kind = .file s c → ∃ i, x = .file i))) :
    res = .ok ↔ ∀ p n x, m.sub d0 p = some n → n.isDir = false → Selected cfg.files cfg.recurse p n.isDir →
      before.nodes (cfg.base ++ p) = some x → n.info.mtime < 2 ^ 63 := by
  rw [C75_success h T hx]
  constructor
  · intro hu p n x hm hd hs hx'
    have hc := hu.conflict p n x hm hs (by
      intro s c hk e
      obtain ⟨b, hb⟩ := hE.content p n s c hm hk
      rw [hb] at e; cases e) hx'
    unfold NoConflict at hc
    cases hk : n.kind with
    | dir => rw [isDir_kind hk] at hd; cases hd
    | file s c => rw [hk] at hc; exact hc.2.1 hmode
    | link t => rw [hk] at hc; exact hc.2.1 hmode
  · intro ht
    refine ⟨hbase, ?_, ?_, fun p c n hm _ => ⟨hE.utf8 _ n hm c (by simp), fun t hk => (hE.targets _ n t hm hk).1⟩,
      fun p n t hm _ hk => (hE.targets p n t hm hk).2⟩
    · intro p n x hm hs _ hxx
      obtain ⟨k1, k2⟩ := hkind p n x hm hxx
      unfold NoConflict
      cases hk : n.kind with
      | dir => simp only; exact k1.mp (isDir_kind hk)
      | file s c =>
        have := ht p n x hm (by rw [Node.isDir, hk]; rfl) hs hxx
        simp only; exact ⟨by rw [hmode]; simp, fun _ => this, fun _ => k2 s c hk⟩
      | link t =>
        have := ht p n x hm (by rw [Node.isDir, hk]; rfl) hs hxx
        simp only
        refine ⟨by rw [hmode]; simp, fun _ => this, fun _ u hu => ?_⟩
        have := k1.mpr ⟨u, hu⟩
        rw [Node.isDir, hk] at this; cases this
    · intro p n s c hp _ hk e
      obtain ⟨b, hb⟩ := hE.content p n s c hp hk
      rw [hb] at e; cases e

/-- **C75 (which names matter).** An archived name that is not UTF-8 makes the extraction fail if its
directory is selected (or is the directory being extracted), even if the entry itself is not selected. -/
theorem C75_names {rs : List AddReq} {m : PathMap} {cfg : XCfg} {rg : Range} {d0 : List Bytes} {before after : FS}
    {res : XResult} (h : Source rs m cfg.a rg d0) (T : PlainTarget before cfg.base (m.sub d0))
    (hx : Extraction cfg rg before after res) {p : List Bytes} {c : Bytes} {n : Node} (hm : m.sub d0 (p ++ [c]) = some n)
    (hc : validUtf8 c = false) (hr : p = [] ∨ Selected cfg.files cfg.recurse p true) : res ≠ .ok := by
  rintro rfl
  have := (Extraction.unhindered h T hx).readable p c n hm (by simpa [Reached] using hr)
  rw [hc] at this
  cases this.1

/-! ## Examples -/

example : Source exReqs exMap (exX [] .overwrite).a exArchive.root [] ∧ PlainTarget fs0 (exX [] .overwrite).base (exMap.sub []) ∧
    CleanExtraction (exX [] .overwrite) exArchive.root fs0 ((exX [] .overwrite).extractRange 5 exArchive.root fs0 finish).1.fs .ok :=
  ⟨exSource, exT.plain (bytes := exBytes) exExtractable.names, exClean _⟩

example : Unhindered (exX [] .error) fs0 (exMap.sub []) :=
  (C75_success exSource (exT.plain (bytes := exBytes) exExtractable.names) (exClean _)).mp rfl

/-- in mode `error` something is in the way in `fsOld`, in mode `skip` nothing is -/
example : ¬ Unhindered (exX [] .error) fsOld (exMap.sub []) ∧ Unhindered (exX [] .skip) fsOld (exMap.sub []) := by
  have hc : ∀ mode, CleanExtraction (exX [] mode) exArchive.root fsOld
      ((exX [] mode).extractRange 5 exArchive.root fsOld finish).1.fs ((exX [] mode).extractRange 5 exArchive.root fsOld finish).2 := by
    intro mode
    refine ⟨fun _ => rfl, fun _ x hx => by simp [exX, quiet] at hx, 5, finish, _, ?_, rfl, ?_, rfl, ?_⟩
    · show exArchive.entries.length < 5
      decide
    · cases mode <;> decide +kernel
    · intro x hx; simp only [finish, List.mem_cons, List.not_mem_nil, or_false] at hx; rcases hx with rfl | rfl | rfl <;> simp
  have h1 : ((exX [] .error).extractRange 5 exArchive.root fsOld finish).2 ≠ .ok := by decide +kernel
  have h2 : ((exX [] .skip).extractRange 5 exArchive.root fsOld finish).2 = .ok := by decide +kernel
  exact ⟨fun hu => h1 ((C75_success exSource fsOld_plain (hc .error)).mpr hu),
    (C75_success exSource fsOld_plain (hc .skip)).mp h2⟩

/-- the hypotheses of `C50_newer_partial` are met by extracting over the older files of `fsOld` -/
example : PlainTarget fsOld [ascii "t"] (exMap.sub []) ∧ Extractable (exMap.sub []) exBytes ∧
    CleanExtraction (exX [] .newer) exArchive.root fsOld ((exX [] .newer).extractRange 5 exArchive.root fsOld finish).1.fs .ok ∧
    fsOld.nodes [ascii "t", ascii "a"] ≠ none := by
  refine ⟨fsOld_plain, exExtractable, ⟨fun _ => rfl, fun _ x hx => by simp [exX, quiet] at hx, 5, finish, _, ?_, ?_, ?_, rfl, ?_⟩, by decide⟩
  · show exArchive.entries.length < 5
    decide
  · exact Prod.ext rfl (by decide +kernel)
  · decide +kernel
  · intro x hx; simp only [finish, List.mem_cons, List.not_mem_nil, or_false] at hx; rcases hx with rfl | rfl | rfl <;> simp

end Arx
