import Verif.Spec.RoundTrip
import Verif.Props.Adder3
/-!
# C55: extract, then create
-/
namespace Arx

/-- what a complete extraction leaves is a tree, and what is in it is known -/
theorem after_wf {rs : List AddReq} {m : PathMap} {cfg : XCfg} {rg : Range} {d0 : List Bytes} {before after : FS}
    {res : XResult} (h : Source rs m cfg.a rg d0) (hall : cfg.files = [])
    (hE : Extractable (m.sub d0) cfg.bytes) (hT : EmptyTarget before cfg.base)
    (hx : CleanExtraction cfg rg before after res) :
    after.WF ∧ (∀ q x, after.nodes q = some x → before.nodes q = some x ∨ q <+: cfg.base ∨
      ∃ p n, q = cfg.base ++ p ∧ m.sub d0 p = some n) ∧
    (∀ p n s c, m.sub d0 p = some n → n.kind = .file s c → ∃ i, after.nodes (cfg.base ++ p) = some (.file i) ∧ before.next ≤ i) ∧
    DirsTo after cfg.base := by
  obtain ⟨hok, tree, hout, hkeep, hdata⟩ := C14_reproduces h hall hE hT hx
  obtain ⟨hfault, hns, depth, last, w, hd, hrun, hfin, haft, hnl⟩ := id hx
  have hX : Extraction cfg rg before after res := ⟨depth, last, w, hd, hrun, hfin, haft⟩
  have T : PlainTarget before cfg.base (m.sub d0) := hT.plain (bytes := cfg.bytes) hE.names
  obtain ⟨P, G, hrg⟩ := h.good
  have key := G.extractRange T hrg hd last
  rw [hrun] at key
  obtain ⟨_, _, key, _⟩ := key
  obtain ⟨I, _⟩ := key hok
  simp only [haft] at I
  have S := xsetup G.wf d0 T
  have hfrom : ∀ q x, after.nodes q = some x → before.nodes q = some x ∨ q <+: cfg.base ∨
      ∃ p n, q = cfg.base ++ p ∧ m.sub d0 p = some n := by
    intro q x hq
    by_cases h1 : q <+: cfg.base
    · exact Or.inr (Or.inl h1)
    · by_cases h2 : ∃ p n, q = cfg.base ++ p ∧ m.sub d0 p = some n ∧ Selected cfg.files cfg.recurse p n.isDir ∧ True
      · obtain ⟨p, n, e, h3, _⟩ := h2; exact Or.inr (Or.inr ⟨p, n, e, h3⟩)
      · left; rw [← I.same q h1 h2, haft]; exact hq
  refine ⟨⟨?_, ?_, ?_⟩, hfrom, ?_, by rw [← haft]; exact I.dirs⟩
  · obtain ⟨t, ht⟩ := I.root; exact ⟨t, by rw [← haft]; exact ht⟩
  · intro q c x hq
    rcases hfrom _ _ hq with h1 | h1 | ⟨p, n, e, h1⟩
    · obtain ⟨t, ht⟩ := hT.tree q c x h1
      exact ⟨t, hkeep _ _ ht⟩
    · by_cases e : q = []
      · rw [e, ← haft]; exact I.root
      · rw [← haft]
        exact I.dirs q (List.IsPrefix.trans (List.prefix_append _ _) h1) e
    · rcases List.eq_nil_or_concat p with rfl | ⟨p', c', rfl⟩
      · exact absurd rfl (PathMap.sub_some h1).1
      · rw [List.concat_eq_append] at e h1
        rw [← List.append_assoc] at e
        obtain ⟨e1, _⟩ := List.append_inj' e rfl
        subst e1
        by_cases e2 : p' = []
        · rw [e2, List.append_nil]; exact tree.root
        · obtain ⟨k, hk, hkd⟩ := S.up p' c' n h1 e2
          refine tree.dirs p' k hk ?_
          unfold Node.isDir Kind.isDir at hkd
          cases hkk : k.kind <;> rw [hkk] at hkd <;> first | rfl | cases hkd
  · intro q i hq
    rw [← haft] at hq ⊢
    exact I.prog.inos q i hq
  · intro p n s c hp hk
    have := (hX.main h T).2.2 hok
    have := this.2 p n hp (Or.inl hall)
    obtain ⟨b, hb⟩ := hE.content p n s c hp hk
    have hnone : before.nodes (cfg.base ++ p) = none := hT.below _ (List.prefix_append _ _) (by simpa using (PathMap.sub_some hp).1)
    simp only [Extracted, hk, hb, hnone] at this
    obtain ⟨i, h1, h2, _⟩ := this
    exact ⟨i, h1, h2⟩

/-- **C55.** Let a directory (or the whole) of a created archive be extracted to an empty or missing directory,
in any mode and with any interleaving of the writers, with names and link targets that can be recreated and no
failing call. Let the result then be archived with `add_from_path(root, recurse)`, where `root` leads to the
output directory and is stored under `k` (nothing, if it is the prefix to strip), in any order of listing and
interleaving of the two threads, while nothing changes. Then adding succeeds, and however the new archive is
laid out, it holds under `k` exactly what the first archive holds in that directory: the same paths, kinds,
contents and link targets (metadata are not restored by extraction); and nothing else but `k` itself and the
directories above it. -/
theorem C55_extract_create {rs : List AddReq} {m : PathMap} {cfg : XCfg} {rg : Range} {d0 : List Bytes} {before : FS}
    {res : XResult} {s : Src} {env : CEnv} {pre root : RPath} {k : List Bytes} {ls : ReadDir} {depth : Nat}
    {sched : List Bool} {e : AOut}
    (h : Source rs m cfg.a rg d0) (hall : cfg.files = []) (hE : Extractable (m.sub d0) cfg.bytes)
    (hT : EmptyTarget before cfg.base) (hnames : ∀ q x, before.nodes q = some x → ∀ c ∈ q, ValidName c ∧ PlainName c)
    (hbase : ∀ c ∈ cfg.base, ValidName c)
    (htargets : ∀ q t u, before.nodes q = some (.link t u) → t ≠ [] ∧ (0 : UInt8) ∉ t)
    (hx : CleanExtraction cfg rg before s.fs res)
    (hspecial : ∀ i, s.special i = true → i < before.next)
    (hquiet : Quiet env s) (hls : FullListing s ls) (hq : LeadsTo s env.cwd root cfg.base)
    (hdepth : ∀ p n, m.sub d0 p = some n → p.length ≤ depth)
    (hrel : root.head? ≠ some SEP) (hstored : StoredAs root pre k) (hlast : k.getLast? ≠ some PARENT)
    (hroot : ∀ c ∈ comps root, validUtf8 c = true)
    (hend : (Chan.run env pre root (Chan.start Adder.new (walkItems env.cwd s ls depth root true)) sched).result = some e) :
    e = .ok ∧
    let fin := (Chan.run env pre root (Chan.start Adder.new (walkItems env.cwd s ls depth root true)) sched).adder
    ∃ rs' m', SpecRun PathMap.empty rs' m' ∧
      (∀ order, IsLayout fin.creator order → fin.creator.store.length < 2 ^ 32 → Written rs' (writeArchive fin.creator order)) ∧
      (∀ p, p ≠ [] → SameEntry cfg.bytes (packBytes fin.contents) (m.sub d0 p) (m' (k ++ p))) ∧
      (∀ z n, m' z = some n → k <+: z ∨ (z <+: k ∧ n.isDir = true)) := by
  obtain ⟨hwf, hfrom, hnew, hdirs⟩ := after_wf h hall hE hT hx
  obtain ⟨hok, tree, hout, hkeep, hdata⟩ := C14_reproduces h hall hE hT hx
  obtain ⟨P, G, hrg⟩ := h.good
  have T : PlainTarget before cfg.base (m.sub d0) := hT.plain (bytes := cfg.bytes) hE.names
  have S := xsetup G.wf d0 T
  have hbelow' : ∀ p x, s.fs.nodes (cfg.base ++ p) = some x → p ≠ [] → ∃ n, m.sub d0 p = some n := by
    intro p x hp hne
    cases hm : m.sub d0 p with
    | some n => exact ⟨n, rfl⟩
    | none => rw [tree.nothing p hne hm] at hp; cases hp
  have W : s.WF := by
    refine ⟨hwf, ?_, ?_⟩
    · intro q x hq' c hc
      rcases hfrom q x hq' with h1 | h1 | ⟨p, n, rfl, h1⟩
      · exact hnames q x h1 c hc
      · exact ⟨hbase c (h1.subset hc), hT.names c (h1.subset hc)⟩
      · rcases List.mem_append.mp hc with h2 | h2
        · exact ⟨hbase c h2, hT.names c h2⟩
        · exact ⟨S.valid p n h1 c h2, hE.names p n h1 c h2⟩
    · intro q t u hq'
      rcases hfrom q _ hq' with h1 | h1 | ⟨p, n, rfl, h1⟩
      · exact htargets q t u h1
      · by_cases e0 : q = []
        · subst e0
          obtain ⟨v, hv⟩ := hwf.root
          rw [hv] at hq'; cases hq'
        · obtain ⟨v, hv⟩ := hdirs q h1 e0
          rw [hv] at hq'; cases hq'
      · cases hk : n.kind with
        | dir => obtain ⟨v, hv⟩ := tree.dirs p n h1 hk; rw [hv] at hq'; cases hq'
        | file a b => obtain ⟨v, hv, _⟩ := tree.files p n _ _ h1 hk; rw [hv] at hq'; cases hq'
        | link t' =>
          obtain ⟨v, hv⟩ := tree.links p n _ h1 hk
          rw [hv] at hq'; cases hq'
          exact (hE.targets p n _ h1 hk).2
  obtain ⟨hne, hres, hdir⟩ := hq
  have C : TreeCtx s env pre root cfg.base k := ⟨hquiet, W, hne, hrel, hres, hdir, hstored, hroot, by
    intro p x hp c hc
    have hne : p ≠ [] := fun e => by rw [e] at hc; cases hc
    obtain ⟨n, hn⟩ := hbelow' p x hp hne
    exact hE.utf8 p n hn c hc⟩
  obtain ⟨t, hd⟩ := hdir
  obtain ⟨ns, hns, hg⟩ := hls.names
  have hdep : ∀ p, s.fs.nodes (cfg.base ++ p) ≠ none → p.length ≤ depth := by
    intro p hp
    by_cases e0 : p = []
    · simp [e0]
    · obtain ⟨x, hx'⟩ := Option.ne_none_iff_exists'.mp hp
      obtain ⟨n, hn⟩ := hbelow' p x hx' e0
      exact hdepth p n hn
  obtain ⟨a', m', rs', w1, w2, w3, w4, w5⟩ := C.whole hlast hg hdep
  have hitems := walkItems_eq hns hne hres hd depth
  have hrun := Chan.run_result hend
  have hgp : goodPrefix (walkItems env.cwd s ls depth root true) =
      ([] :: walkRel s ns depth cfg.base).map (fun p => p.foldl joinChild root) := by
    rw [hitems]
    have := goodPrefix_ok (([] :: walkRel s ns depth cfg.base).map (fun p => p.foldl joinChild root))
    rw [List.map_map] at this
    exact this
  rw [hgp, w1] at hrun
  have e1 := congrArg Prod.fst hrun
  have e2 := congrArg Prod.snd hrun
  simp only at e1 e2
  refine ⟨e2.symm, ?_⟩
  simp only
  rw [← e1]
  refine ⟨rs', m', w3, fun order h1 h2 => ⟨_, order, w2, h1, rfl, h2⟩, ?_, ?_⟩
  · intro p hp
    cases hm : m.sub d0 p with
    | none =>
      have hno := tree.nothing p hp hm
      cases hm' : m' (k ++ p) with
      | none => trivial
      | some n =>
        rcases w5 _ _ hm' with ⟨p', e, hp'⟩ | ⟨hpre, _⟩
        · rw [List.append_cancel_left_eq] at e
          subst e; exact absurd hno hp'
        · exact absurd hpre (not_prefix_base hp)
    | some n =>
      have hA : s.fs.nodes (cfg.base ++ p) ≠ none → Archived s (packBytes a'.contents) (cfg.base ++ p) (m' (k ++ p)) :=
        fun hh => w4 p hh (by simp [hp])
      unfold Archived at hA
      cases hk : n.kind with
      | dir =>
        obtain ⟨u, hu⟩ := tree.dirs p n hm hk
        rw [hu] at hA
        rw [hA (by simp)]
        simp [SameEntry, hk]
      | link tg =>
        obtain ⟨u, hu⟩ := tree.links p n tg hm hk
        rw [hu] at hA
        rw [hA (by simp)]
        simp [SameEntry, hk]
      | file sz c =>
        obtain ⟨i, hi, hb⟩ := tree.files p n sz c hm hk
        obtain ⟨j, hj, hlt⟩ := hnew p n sz c hm hk
        rw [hi] at hj; cases hj
        have hsp : s.special i = false := by
          cases hs : s.special i with
          | false => rfl
          | true => have := hspecial i hs; omega
        rw [hi] at hA
        have hA := hA (by simp)
        simp only [hsp, Bool.false_eq_true, if_false] at hA
        obtain ⟨ad, hA, hbb⟩ := hA
        rw [hA]
        simp only [SameEntry, hk]
        exact ⟨_, hb, hbb, rfl⟩
  · intro z n hz
    rcases w5 z n hz with ⟨p, rfl, _⟩ | ⟨hpre, rfl⟩
    · exact Or.inl (List.prefix_append _ _)
    · exact Or.inr ⟨hpre, rfl⟩

/-! ## the hypotheses are met: the example archive is extracted to `t`, then `t` is archived with `--strip-prefix t` -/

/-- the file system after the extraction -/
def exBack : Src := ⟨((exX [] .error).extractRange 5 exArchive.root fs0 finish).1.fs, fun _ => (0, 0, 0o644), fun _ => false⟩

def exBackEnv : CEnv := ⟨fun _ => exBack, fun _ => false, []⟩

def exBackLs : ReadDir := fun d =>
  if d = [] then [.ok (ascii "t")]
  else if d = [ascii "t"] then [.ok (ascii "b"), .ok (ascii "a")]
  else if d = [ascii "t", ascii "a"] then [.ok (ascii "l")]
  else if d = [ascii "t", ascii "b"] then [.ok (ascii "x")]
  else []

theorem exBack_paths {q : List Bytes} (h : exBack.fs.nodes q ≠ none) :
    q ∈ [[], [ascii "t"], [ascii "t", ascii "a"], [ascii "t", ascii "b"], [ascii "t", ascii "a", ascii "l"], [ascii "t", ascii "b", ascii "x"]] := by
  obtain ⟨x, hx⟩ := Option.ne_none_iff_exists'.mp h
  rcases (after_wf (cfg := exX [] .error) exSource rfl exExtractable exT (exClean .error)).2.1 q x hx with h1 | h1 | ⟨p, n, rfl, h1⟩
  · simp only [fs0, mkFs, List.lookup_nil] at h1
    split at h1
    · rename_i e; simp [e]
    · cases h1
  · have : q <+: [ascii "t"] := h1
    rw [List.prefix_cons_iff] at this
    rcases this with rfl | ⟨z, rfl, hz⟩
    · simp
    · rw [List.prefix_nil] at hz; simp [hz]
  · have := exMap_paths (PathMap.sub_some h1).2
    simp only [List.nil_append, List.mem_cons, List.not_mem_nil, or_false] at this
    rcases this with rfl | rfl | rfl | rfl <;> decide

theorem exBackLs_full : FullListing exBack exBackLs := by
  intro d t h
  have hd := exBack_paths (q := d) (by rw [h]; simp)
  have hc := fun n (hn : exBack.fs.nodes (d ++ [n]) ≠ none) => exBack_paths hn
  simp only [List.mem_cons, List.not_mem_nil, or_false] at hd
  rcases hd with rfl | rfl | rfl | rfl | rfl | rfl
  · refine ⟨[ascii "t"], rfl, by decide, fun n => ⟨?_, ?_⟩⟩
    · intro hn; simp only [List.mem_cons, List.not_mem_nil, or_false] at hn; subst hn; decide
    · intro hn; have := hc n hn; simp at this; simp [this]
  · refine ⟨[ascii "b", ascii "a"], rfl, by decide, fun n => ⟨?_, ?_⟩⟩
    · intro hn; simp only [List.mem_cons, List.not_mem_nil, or_false] at hn; rcases hn with rfl | rfl <;> decide
    · intro hn; have := hc n hn; simp at this; rcases this with h | h <;> simp [h]
  · refine ⟨[ascii "l"], rfl, by decide, fun n => ⟨?_, ?_⟩⟩
    · intro hn; simp only [List.mem_cons, List.not_mem_nil, or_false] at hn; subst hn; decide
    · intro hn; have := hc n hn; simp at this; rcases this with ⟨_, h⟩ | ⟨h, _⟩
      · simp [h]
      · exact absurd h (by decide)
  · refine ⟨[ascii "x"], rfl, by decide, fun n => ⟨?_, ?_⟩⟩
    · intro hn; simp only [List.mem_cons, List.not_mem_nil, or_false] at hn; subst hn; decide
    · intro hn; have := hc n hn; simp at this; rcases this with ⟨h, _⟩ | ⟨_, h⟩
      · exact absurd h (by decide)
      · simp [h]
  · exact absurd h (by
      have : exBack.fs.nodes [ascii "t", ascii "a", ascii "l"] = some (.link (ascii "../b") 5000000000) := by decide
      rw [this]; simp)
  · exact absurd h (by
      have : exBack.fs.nodes [ascii "t", ascii "b", ascii "x"] = some (.file 0) := by decide
      rw [this]; simp)

example : CleanExtraction (exX [] .error) exArchive.root fs0 exBack.fs .ok ∧ Quiet exBackEnv exBack ∧
    LeadsTo exBack [] (ascii "t") [ascii "t"] ∧ StoredAs (ascii "t") (ascii "t") [] ∧
    (∀ p n, exMap.sub [] p = some n → p.length ≤ 4) := by
  refine ⟨exClean .error, ⟨fun _ => rfl, fun _ => rfl⟩, ⟨by decide, by decide, _, rfl⟩, by unfold StoredAs; decide, ?_⟩
  intro p n h
  have := exMap_paths (PathMap.sub_some h).2
  simp only [List.nil_append, List.mem_cons, List.not_mem_nil, or_false] at this
  rcases this with rfl | rfl | rfl | rfl <;> decide

def exAgain : Chan := Chan.run exBackEnv (ascii "t") (ascii "t") (Chan.start Adder.new (walkItems [] exBack exBackLs 4 (ascii "t") true))
  (List.replicate 6 true ++ List.replicate 6 false)

/-- and the new archive has the entries of the first -/
example : exAgain.result = some .ok ∧ exAgain.adder.creator.store.map (fun e => (e.name, e.kind)) =
      [(ascii "b", .dir), (ascii "x", .file 3 ⟨1, 0⟩), (ascii "a", .dir), (ascii "l", .link (ascii "../b"))] ∧
    (packBytes exAgain.adder.contents ⟨1, 0⟩) = exBytes ⟨1, 0⟩ := by
  constructor
  · decide +kernel
  · constructor <;> decide +kernel

end Arx
