import Verif.Props.Mount2
import Verif.Proof.ExtractFlag
import Verif.Proof.ExtractMain
/-!
# Properties of extraction (C13–C20, C31, C47, C50)
-/
namespace Arx

theorem Source.good {rs : List AddReq} {m : PathMap} {a : Archive} {rg : Range} {d0 : List Bytes}
    (h : Source rs m a rg d0) : ∃ P, Good a m P ∧ RangeIs P d0 rg.offset rg.count := by
  obtain ⟨P, G⟩ := h.written.good' h.spec
  refine ⟨P, G, ?_⟩
  rcases h.root with ⟨rfl, rfl⟩ | ⟨path, rfl, hp⟩
  · exact G.rootRange
  · exact (G.dummy hp).1

/-- everything the proofs give about a finished run to a plain target -/
theorem Extraction.main {rs : List AddReq} {m : PathMap} {cfg : XCfg} {rg : Range} {d0 : List Bytes} {before after : FS}
    {res : XResult} (h : Source rs m cfg.a rg d0) (T : PlainTarget before cfg.base (m.sub d0))
    (hx : Extraction cfg rg before after res) :
    Untouched cfg.files cfg.recurse cfg.base (m.sub d0) before after ∧
    (∀ e, res = .walk e → ¬ NoObstacle cfg before (m.sub d0)) ∧
    (res = .ok → (∃ t, after.nodes cfg.base = some (.dir t)) ∧
      ∀ p n, m.sub d0 p = some n → Selected cfg.files cfg.recurse p n.isDir →
        Extracted cfg.mode cfg.bytes before after (cfg.base ++ p) n) := by
  obtain ⟨P, G, hrg⟩ := h.good
  obtain ⟨depth, last, w, hd, hrun, hfin, rfl⟩ := hx
  have key := G.extractRange T hrg hd last
  rw [hrun] at key
  obtain ⟨k1, k2, k3, _⟩ := key
  refine ⟨k1.untouched, k2, fun ho => ?_⟩
  obtain ⟨k3, k4, _⟩ := k3 ho
  refine ⟨?_, fun p n hm hs => k3.extracted (xsetup G.wf d0 T) hfin k4 hm hs⟩
  by_cases hb : cfg.base = []
  · rw [hb]; exact k3.root
  · exact k3.dirs _ (List.prefix_refl _) hb

/-! ## The example: extracting the archive of `Props/Creation` -/

/-- what the rows of a written archive say about its map -/
theorem map_cases {rs : List AddReq} {a : Archive} {m : PathMap} (h : Written rs a) (hm : SpecRun PathMap.empty rs m)
    {p : List Bytes} {n : Node} (hp : m p = some n) : ∃ i, i < a.entries.length ∧ pathUp a a.entries.length i = some p :=
  ((C05_child_ranges h hm).1 p).mp ⟨n, hp⟩

theorem exMap_paths {p : List Bytes} {n : Node} (hp : exMap p = some n) :
    p ∈ [[ascii "a"], [ascii "b"], [ascii "a", ascii "l"], [ascii "b", ascii "x"]] := by
  obtain ⟨i, hi, hu⟩ := map_cases exWritten exMap_spec hp
  have hl : exArchive.entries.length = 4 := by decide
  rw [hl] at hi hu
  match i, hi with
  | 0, _ => have : pathUp exArchive 4 0 = some [ascii "a"] := by decide
            rw [this] at hu; cases hu; decide
  | 1, _ => have : pathUp exArchive 4 1 = some [ascii "b"] := by decide
            rw [this] at hu; cases hu; decide
  | 2, _ => have : pathUp exArchive 4 2 = some [ascii "a", ascii "l"] := by decide
            rw [this] at hu; cases hu; decide
  | 3, _ => have : pathUp exArchive 4 3 = some [ascii "b", ascii "x"] := by decide
            rw [this] at hu; cases hu; decide

/-- the kind of an entry of the map, from what a lookup answers -/
theorem map_kind {rs : List AddReq} {a : Archive} {m : PathMap} (h : Written rs a) (hm : SpecRun PathMap.empty rs m)
    (path : RPath) (hne : comps path ≠ []) {e : Entry FileEntry LinkEntry DirEntry}
    (he : a.getEntry fullBuilder path = .ok e) : ∃ n, m (comps path) = some n ∧ EntryIs e n := by
  have := C01_read_back h hm path hne
  cases hx : m (comps path) with
  | none => rw [hx, he] at this; cases this
  | some n =>
    rw [hx] at this
    obtain ⟨e', h1, h2, _⟩ := this
    rw [he] at h1; cases h1
    exact ⟨n, rfl, h2⟩

theorem exMap_kinds :
    (∃ n, exMap [ascii "a"] = some n ∧ n.kind = .dir) ∧ (∃ n, exMap [ascii "b"] = some n ∧ n.kind = .dir) ∧
    (∃ n, exMap [ascii "a", ascii "l"] = some n ∧ n.kind = .link (ascii "../b")) ∧
    (∃ n, exMap [ascii "b", ascii "x"] = some n ∧ n.kind = .file 3 ⟨1, 0⟩ ∧ n.info.mtime = 99) := by
  have e1 : comps (ascii "a") = [ascii "a"] := by decide
  have e2 : comps (ascii "b") = [ascii "b"] := by decide
  have e3 : comps (ascii "a/l") = [ascii "a", ascii "l"] := by decide
  have e4 : comps (ascii "b/x") = [ascii "b", ascii "x"] := by decide
  refine ⟨?_, ?_, ?_, ?_⟩
  · obtain ⟨n, hn, h1, h2, h3, h⟩ := map_kind exWritten exMap_spec (ascii "a") (by decide) rfl
    rw [e1] at hn
    refine ⟨n, hn, ?_⟩
    cases hk : n.kind <;> simp only [hk] at h
    · rfl
    · obtain ⟨f, hf, _⟩ := h; cases hf
    · obtain ⟨f, hf, _⟩ := h; cases hf
  · obtain ⟨n, hn, h1, h2, h3, h⟩ := map_kind exWritten exMap_spec (ascii "b") (by decide) rfl
    rw [e2] at hn
    refine ⟨n, hn, ?_⟩
    cases hk : n.kind <;> simp only [hk] at h
    · rfl
    · obtain ⟨f, hf, _⟩ := h; cases hf
    · obtain ⟨f, hf, _⟩ := h; cases hf
  · obtain ⟨n, hn, h1, h2, h3, h⟩ := map_kind exWritten exMap_spec (ascii "a/l") (by decide) rfl
    rw [e3] at hn
    refine ⟨n, hn, ?_⟩
    cases hk : n.kind <;> simp only [hk] at h
    · obtain ⟨f, g, hf⟩ := h; cases hf
    · obtain ⟨f, hf, _⟩ := h; cases hf
    · obtain ⟨f, hf, ht⟩ := h; cases hf; rw [← ht]; rfl
  · obtain ⟨n, hn, h1, h2, h3, h⟩ := map_kind exWritten exMap_spec (ascii "b/x") (by decide) rfl
    rw [e4] at hn
    refine ⟨n, hn, ?_, h1.symm⟩
    cases hk : n.kind <;> simp only [hk] at h
    · obtain ⟨f, g, hf⟩ := h; cases hf
    · obtain ⟨f, hf, hs, hc⟩ := h; cases hf; rw [← hs, ← hc]; rfl
    · obtain ⟨f, hf, _⟩ := h; cases hf

/-- file system with a root directory and the given other entries -/
def mkFs (l : List (List Bytes × FNode)) (d : Nat → FData) (next : Nat) : FS where
  nodes q := if q = [] then some (.dir 0) else l.lookup q
  data := d
  next := next
  now := 5000000000

/-- only the root directory -/
def fs0 : FS := mkFs [] (fun _ => ⟨[], 0⟩) 0

/-- no failing call; the writers run after the walk -/
def quiet : Env := ⟨fun _ => false, fun _ => []⟩

def exX (files : List RPath) (mode : Overwrite) : XCfg := ⟨exArchive, exBytes, files, true, [ascii "t"], mode, quiet⟩

theorem exSource : Source exReqs exMap exArchive exArchive.root [] := ⟨exWritten, exMap_spec, Or.inl ⟨rfl, rfl⟩⟩

theorem exExtractable : Extractable (exMap.sub []) exBytes := by
  obtain ⟨⟨n1, a1, b1⟩, ⟨n2, a2, b2⟩, ⟨n3, a3, b3⟩, ⟨n4, a4, b4, c4⟩⟩ := exMap_kinds
  have hk : ∀ p n, exMap.sub [] p = some n → (p = [ascii "a"] ∧ n.kind = .dir) ∨ (p = [ascii "b"] ∧ n.kind = .dir) ∨
      (p = [ascii "a", ascii "l"] ∧ n.kind = .link (ascii "../b")) ∨ (p = [ascii "b", ascii "x"] ∧ n.kind = .file 3 ⟨1, 0⟩) := by
    intro p n hp
    obtain ⟨_, hp⟩ := PathMap.sub_some hp
    have := exMap_paths hp
    simp only [List.nil_append, List.mem_cons, List.not_mem_nil, or_false] at this hp
    rcases this with rfl | rfl | rfl | rfl
    · rw [a1] at hp; cases hp; exact Or.inl ⟨rfl, b1⟩
    · rw [a2] at hp; cases hp; exact Or.inr (Or.inl ⟨rfl, b2⟩)
    · rw [a3] at hp; cases hp; exact Or.inr (Or.inr (Or.inl ⟨rfl, b3⟩))
    · rw [a4] at hp; cases hp; exact Or.inr (Or.inr (Or.inr ⟨rfl, b4⟩))
  have plain : ∀ s : String, ascii s ∈ [ascii "a", ascii "b", ascii "l", ascii "x"] →
      (ascii s ≠ CUR ∧ ascii s ≠ PARENT ∧ (0 : UInt8) ∉ ascii s) ∧ validUtf8 (ascii s) = true := by
    intro s hs
    simp only [List.mem_cons, List.not_mem_nil, or_false] at hs
    rcases hs with h | h | h | h <;> rw [h] <;> decide
  refine ⟨?_, ?_, ?_, ?_⟩
  · intro p n hp c hc
    rcases hk p n hp with ⟨rfl, _⟩ | ⟨rfl, _⟩ | ⟨rfl, _⟩ | ⟨rfl, _⟩ <;> simp at hc
    · subst hc; exact (plain "a" (by decide)).1
    · subst hc; exact (plain "b" (by decide)).1
    · rcases hc with rfl | rfl
      · exact (plain "a" (by decide)).1
      · exact (plain "l" (by decide)).1
    · rcases hc with rfl | rfl
      · exact (plain "b" (by decide)).1
      · exact (plain "x" (by decide)).1
  · intro p n hp c hc
    rcases hk p n hp with ⟨rfl, _⟩ | ⟨rfl, _⟩ | ⟨rfl, _⟩ | ⟨rfl, _⟩ <;> simp at hc
    · subst hc; exact (plain "a" (by decide)).2
    · subst hc; exact (plain "b" (by decide)).2
    · rcases hc with rfl | rfl
      · exact (plain "a" (by decide)).2
      · exact (plain "l" (by decide)).2
    · rcases hc with rfl | rfl
      · exact (plain "b" (by decide)).2
      · exact (plain "x" (by decide)).2
  · intro p n t hp ht
    rcases hk p n hp with ⟨rfl, e⟩ | ⟨rfl, e⟩ | ⟨rfl, e⟩ | ⟨rfl, e⟩ <;> rw [e] at ht <;> cases ht
    decide
  · intro p n s c hp ht
    rcases hk p n hp with ⟨rfl, e⟩ | ⟨rfl, e⟩ | ⟨rfl, e⟩ | ⟨rfl, e⟩ <;> rw [e] at ht <;> cases ht
    exact ⟨_, rfl⟩

theorem fs0_nodes {q : List Bytes} {x : FNode} (h : fs0.nodes q = some x) : q = [] ∧ x = .dir 0 := by
  simp only [fs0, mkFs] at h
  split at h
  · rename_i hq; cases h; exact ⟨hq, rfl⟩
  · cases h

theorem fs0_empty (base : List Bytes) (hb : ∀ c ∈ base, PlainName c) : EmptyTarget fs0 base where
  root := ⟨0, rfl⟩
  tree q c x h := by have := (fs0_nodes h).1; simp at this
  inos q i h := by have := (fs0_nodes h).2; cases this
  names := hb
  below q hq hne := by
    cases h : fs0.nodes q with
    | none => rfl
    | some x =>
      have := (fs0_nodes h).1; subst this
      exact absurd (List.prefix_nil.mp hq).symm hne
  way q x hq h := ⟨0, (fs0_nodes h).2⟩

theorem exT : EmptyTarget fs0 [ascii "t"] := fs0_empty _ (by
  intro c hc
  simp only [List.mem_cons, List.not_mem_nil, or_false] at hc
  subst hc; exact ⟨by decide, by decide, by decide⟩)

/-- every writer writes its content in one or two steps -/
def finish : List (Nat × WriteRes) := [(0, .wrote 2), (0, .wrote 4096), (1, .wrote 4096)]

/-! ## C14, C47, C31 -/

theorem EmptyTarget.plain {fs : FS} {base : List Bytes} {m : PathMap} {bytes : ContentAddr → GetBytes} {d0 : List Bytes}
    (h : EmptyTarget fs base) (hn : ∀ p n, m.sub d0 p = some n → ∀ c ∈ p, PlainName c) : PlainTarget fs base (m.sub d0) where
  toWF := h.toWF
  baseNames := h.names
  baseLinks q hq t s e := by obtain ⟨u, hu⟩ := h.way q _ hq e; cases hu
  links p n hp _ t s e := by
    rw [h.below (base ++ p) (List.prefix_append _ _) (by simpa using (PathMap.sub_some hp).1)] at e; cases e
  alias p n i q hp e := by
    rw [h.below (base ++ p) (List.prefix_append _ _) (by simpa using (PathMap.sub_some hp).1)] at e; cases e
  names := hn

/-- An extraction without failing calls and writes succeeds when nothing is in its way. -/
theorem CleanExtraction.ok {rs : List AddReq} {m : PathMap} {cfg : XCfg} {rg : Range} {d0 : List Bytes} {before after : FS}
    {res : XResult} (hx : CleanExtraction cfg rg before after res) (h : Source rs m cfg.a rg d0)
    (T : PlainTarget before cfg.base (m.sub d0)) (hno : NoObstacle cfg before (m.sub d0)) : res = .ok := by
  obtain ⟨hfault, hns, depth, last, w, hd, hrun, hfin, haft, hnl⟩ := hx
  have hX : Extraction cfg rg before after res := ⟨depth, last, w, hd, hrun, hfin, haft⟩
  obtain ⟨k1, k2, k3⟩ := hX.main h T
  cases hr : res with
  | ok => rfl
  | walk e => exact absurd hno (k2 e hr)
  | writes =>
    have hflag := cfg.extractRange_flag hns depth rg before hnl
    rw [hrun] at hflag
    have : (cfg.extractRange depth rg before last).2 = .writes := by rw [hrun, hr]
    simp only [XCfg.extractRange] at this hrun
    revert this hrun
    cases cfg.a.walkFrom extractBuilder (extractor cfg) depth rg ⟨[], World.init before⟩ with
    | mk c r =>
      cases r with
      | error x => intro h; cases h; cases hr
      | ok u =>
        intro h1 h2
        simp only [Prod.mk.injEq] at h1
        rw [← h1.1] at hflag
        rw [hflag] at h2
        cases h2

/-- **C14** (and C31 for extraction). Whatever directory `d0` of whatever created archive is extracted
without selection to a place that is empty or does not exist, in whatever overwrite mode and with whatever
interleaving of the writers: if its names, link targets and contents can be recreated at all and no system
call fails, the extraction succeeds, the output directory contains exactly the tree below `d0`, and nothing
outside of it has changed (apart from the creation of the missing directories leading to it). -/
theorem C14_reproduces {rs : List AddReq} {m : PathMap} {cfg : XCfg} {rg : Range} {d0 : List Bytes} {before after : FS}
    {res : XResult} (h : Source rs m cfg.a rg d0) (hall : cfg.files = [])
    (hE : Extractable (m.sub d0) cfg.bytes) (hT : EmptyTarget before cfg.base)
    (hx : CleanExtraction cfg rg before after res) :
    res = .ok ∧ TreeAt after cfg.base (m.sub d0) cfg.bytes ∧
    (∀ q, ¬ cfg.base <+: q → ¬ q <+: cfg.base → after.nodes q = before.nodes q) ∧
    (∀ q x, before.nodes q = some x → after.nodes q = some x) ∧
    (∀ i, i < before.next → after.data i = before.data i) := by
  obtain ⟨hfault, hns, depth, last, w, hd, hrun, hfin, haft, hnl⟩ := id hx
  have hX : Extraction cfg rg before after res := ⟨depth, last, w, hd, hrun, hfin, haft⟩
  have T : PlainTarget before cfg.base (m.sub d0) := hT.plain (bytes := cfg.bytes) hE.names
  obtain ⟨k1, k2, k3⟩ := hX.main h T
  have hnone : ∀ p, p ≠ [] → before.nodes (cfg.base ++ p) = none := fun p hp =>
    hT.below _ (List.prefix_append _ _) (by simpa using hp)
  have hsel : ∀ p b, Selected cfg.files cfg.recurse p b := fun _ _ => Or.inl hall
  have hno : NoObstacle cfg before (m.sub d0) := by
    refine NoObstacle.of hfault ?_ ?_ ?_ hE.utf8 (fun p n t h1 h2 => (hE.targets p n t h1 h2).1)
      (fun p n t h1 _ h2 => (hE.targets p n t h1 h2).2)
    · intro q i hq e
      obtain ⟨u, hu⟩ := hT.way q _ hq e
      cases hu
    · intro p n x hp _ e
      rw [hnone p (PathMap.sub_some hp).1] at e; cases e
    · intro p n s c hp _ hk e
      obtain ⟨b, hb⟩ := hE.content p n s c hp hk
      rw [hb] at e; cases e
  have hok : res = .ok := hx.ok h T hno
  obtain ⟨k3, k4⟩ := k3 hok
  refine ⟨hok, ⟨k3, ?_, ?_, ?_, ?_⟩, ?_, ?_, ?_⟩
  · intro p hp hm
    rw [k1.nodes (cfg.base ++ p) (not_prefix_base hp)]
    · exact hnone p hp
    · rintro ⟨p', n, e, h1, _⟩
      rw [List.append_cancel_left_eq] at e
      subst e
      rw [hm] at h1; cases h1
  · intro p n hp hk
    have := k4 p n hp (hsel _ _)
    simp only [Extracted, hk] at this
    exact this.1
  · intro p n s c hp hk
    have := k4 p n hp (hsel _ _)
    obtain ⟨b, hb⟩ := hE.content p n s c hp hk
    simp only [Extracted, hk, hb, hnone p (PathMap.sub_some hp).1] at this
    obtain ⟨i, h1, _, h3⟩ := this
    exact ⟨i, h1, by rw [h3]; exact hb⟩
  · intro p n t hp hk
    have := k4 p n hp (hsel _ _)
    simp only [Extracted, hk, hnone p (PathMap.sub_some hp).1] at this
    exact this.2
  · intro q h1 h2
    refine k1.nodes q h2 ?_
    rintro ⟨p, n, rfl, _⟩
    exact h1 (List.prefix_append _ _)
  · intro q x hq
    by_cases hb : q <+: cfg.base
    · exact k1.above q x hb hq
    · rw [k1.nodes q hb]
      · exact hq
      · rintro ⟨p, n, rfl, h1, _⟩
        rw [hnone p (PathMap.sub_some h1).1] at hq; cases hq
  · intro i hi
    refine k1.data i hi ?_
    rintro q hq ⟨p, n, rfl, h1, _⟩
    rw [hnone p (PathMap.sub_some h1).1] at hq; cases hq

/-- the hypotheses are met and the run is not trivial: directory `t` is created and filled -/
theorem exRes (mode : Overwrite) : ((exX [] mode).extractRange 5 exArchive.root fs0 finish).2 = .ok := by
  cases mode <;> decide

theorem exFin (mode : Overwrite) : ((exX [] mode).extractRange 5 exArchive.root fs0 finish).1.finished := by
  cases mode <;> decide

theorem exClean (mode : Overwrite) : CleanExtraction (exX [] mode) exArchive.root fs0
    ((exX [] mode).extractRange 5 exArchive.root fs0 finish).1.fs .ok := by
  refine ⟨fun _ => rfl, fun _ x hx => by simp [exX, quiet] at hx, 5, finish, _, ?_, ?_, exFin mode, rfl, ?_⟩
  · show exArchive.entries.length < 5
    decide
  · rw [← exRes mode]
  · intro x hx; simp only [finish, List.mem_cons, List.not_mem_nil, or_false] at hx; rcases hx with rfl | rfl | rfl <;> simp

example : Source exReqs exMap (exX [] .error).a exArchive.root [] ∧ Extractable (exMap.sub []) (exX [] .error).bytes ∧
    EmptyTarget fs0 (exX [] .error).base := ⟨exSource, exExtractable, exT⟩

example : let r := (exX [] .error).extractRange 5 exArchive.root fs0 finish
    r.2 = .ok ∧ r.1.finished ∧ r.1.fs.nodes [ascii "t", ascii "b", ascii "x"] = some (.file 0) ∧
    (r.1.fs.data 0).bytes = ascii "xyz" ∧
    r.1.fs.nodes [ascii "t", ascii "a", ascii "l"] = some (.link (ascii "../b") 5000000000) ∧
    r.1.fs.nodes [ascii "a"] = none := by decide

end Arx
