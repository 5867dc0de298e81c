import Verif.Spec.Migrate
import Verif.Props.Client
import Verif.Props.Reproduce
import Verif.Props.ToolReadme
import Verif.Props.ListText
/-!
# Migration by mounting (C100)
-/
namespace Arx

theorem asU64_nat {n : Nat} (h : n < 2 ^ 63) : asU64 (seconds ((n : Int) * 1000000000)) = n := by
  have : seconds ((n : Int) * 1000000000) = n := by
    unfold seconds
    rw [Int.mul_fdiv_cancel _ (by decide)]
  rw [this]
  unfold asU64
  omega

/-- **C100.** Let an archive, or a directory of it, be mounted, and let `arx create` with one input, recursively, write an archive of a
source which has at that input what a program that copies the mount gets, whatever others ask meanwhile (such a program gets
something: the mount can be copied), with any options, order of listing and interleaving of the threads. Then the new archive holds, under
the path the input is stored at, exactly what was mounted: the same paths, kinds, link targets, sizes, contents and times; the
owners and groups, as numbers of 32 bits; the rights, without those to write. -/
theorem C100_migrate {rs : List AddReq} {m : PathMap} {cfg : FsCfg} {d0 : List Bytes} (h : Mounted rs m cfg d0)
    (hfit : AttrsFit m) (hsz : Listable cfg) (hdots : ∀ p n, m.sub d0 p = some n → ∀ c ∈ p, c ≠ CUR ∧ c ≠ PARENT)
    (hbytes : ∀ p n size ca, m.sub d0 p = some n → n.kind = .file size ca → ∃ b, cfg.bytes ca = .found b ∧ b.length = size) :
    ∃ B, ∀ (cl : Client) (before : List FReq), cl.Fair (m.sub d0) before → ∀ fuel ≥ B,
      ∃ l c, cl.copy cfg fuel ((FsState.init.run cfg before).2, 0) [] 1 = (some l, c) ∧
      ∀ (o : CreateOpts) (sys : CreateSys) (s : Src) (cwd N : List Bytes) (a : Adder) (f : Bytes) (k q : List Bytes),
        o.fileList = none → o.infiles = [f] → o.recursion = true → StartsIn o sys cwd → Quiet (sys.cenv cwd) s → s.WF → sys.atCheck = s →
        (∀ i, (sys.walks i).src = s ∧ FullListing s (sys.walks i).ls ∧ ∀ q, s.fs.nodes q ≠ none → q.length ≤ (sys.walks i).depth) →
        InputAt s cwd (o.stripPrefix.getD []) f k q → s.DirAt q → ShowsMount s q l →
        CreateEv.written N a ∈ (o.run sys).1 →
        ∃ rs' m', Creator.new.run rs' = some a.creator ∧
          (∀ order, IsLayout a.creator order → a.creator.store.length < 2 ^ 32 → Written rs' (writeArchive a.creator order)) ∧
          SpecRun PathMap.empty rs' m' ∧ Migration cfg.bytes (packBytes a.contents) (m.sub d0) k m' := by
  obtain ⟨B, hB⟩ := C67_copy h hfit hsz hdots hbytes
  refine ⟨B, fun cl before F fuel hf => ?_⟩
  obtain ⟨l, c, e1, e2, e3⟩ := hB cl before F fuel hf
  refine ⟨l, c, e1, ?_⟩
  intro o sys s cwd N a f k q hfl hin hrec hcwd Q W hcheck hw hat hdir hshow hwr
  obtain ⟨rs', m', g1, g2, g3⟩ := CreateOpts.inputs_exact hfl hcwd Q W hcheck hw hwr
  rw [hin, hrec] at g3
  refine ⟨rs', m', g1, fun order ho hlen => ⟨_, order, g1, ho, rfl, hlen⟩, g2, ?_, ?_⟩
  · intro p n hn
    obtain ⟨hp, hmp⟩ := PathMap.sub_some hn
    obtain ⟨x, hx, hxp⟩ : ∃ x ∈ l, d0 ++ x.path = d0 ++ p := by
      have := (e2.2 (d0 ++ p)).mpr ⟨⟨n, hmp⟩, List.prefix_append _ _, fun e => hp (by simpa using e.symm)⟩
      obtain ⟨x, hx, e⟩ := List.mem_map.mp this
      exact ⟨x, hx, e⟩
    rw [List.append_cancel_left_eq] at hxp
    subst hxp
    obtain ⟨⟨n1, ns, a1, a2, a3, a4, a5⟩, n2, b1, b2⟩ := e3 x hx
    rw [hmp] at a1 b1
    cases a1; cases b1
    have hids := hshow.modes x hx
    have hmt := (hfit _ _ hmp).1
    have hu : x.attr.uid = n.info.owner % 2 ^ 32 ∧ x.attr.gid = n.info.group % 2 ^ 32 ∧ x.attr.mtime = n.info.mtime ∧
        x.attr.kind = n.kind.etype ∧ x.attr.perm = (n.info.rights % 2 ^ 16) &&& 0b1111_1111_0110_1101 := by
      rw [a5]; exact ⟨rfl, rfl, rfl, rfl, rfl⟩
    obtain ⟨u1, u2, u3, u4, u5⟩ := hu
    rw [u1, u2, u4, u5] at hids
    have off : s.Has q x.path → ¬ s.Special (q ++ x.path) → Archived s (packBytes a.contents) (q ++ x.path) (m' (k ++ x.path)) := by
      intro h1 h2
      exact g3.entry [] f [] (k ++ x.path, q ++ x.path) rfl ⟨k, q, x.path, hat, h1, Or.inr rfl, rfl, by simp [hp]⟩ h2 (by simp)
    have hinfo : ∀ kd, (⟨s.info (q ++ x.path) ((x.attr.mtime : Int) * 1000000000), kd⟩ : Node).info =
        ⟨n.info.owner % 2 ^ 32, n.info.group % 2 ^ 32, typeBits n.kind.etype ||| ((n.info.rights % 2 ^ 16) &&& 0b1111_1111_0110_1101), n.info.mtime⟩ := by
      intro kd
      unfold Src.info
      rw [hids, u3, asU64_nat hmt]
    cases hk : n.kind with
    | dir =>
      rw [hk] at b2
      have hd := hshow.dirs x hx b2
      have A := off (by unfold Src.Has; rw [hd]; simp) (by rintro ⟨i, hi, _⟩; rw [hd] at hi; cases hi)
      unfold Archived at A
      rw [hd] at A
      refine ⟨_, A, ?_, ?_, ?_, ?_, ?_⟩
      all_goals first | rw [hinfo] | (rw [hk])
    | link t =>
      rw [hk] at b2
      have hd := hshow.links x hx t b2
      have A := off (by unfold Src.Has; rw [hd]; simp) (by rintro ⟨i, hi, _⟩; rw [hd] at hi; cases hi)
      unfold Archived at A
      rw [hd] at A
      refine ⟨_, A, ?_, ?_, ?_, ?_, ?_⟩
      all_goals first | rw [hinfo] | (rw [hk])
    | file size ca =>
      rw [hk] at b2
      obtain ⟨b, hb, hgot⟩ := b2
      obtain ⟨i, hd, hsp, hdat, hmt'⟩ := hshow.files x hx b hgot
      have A := off (by unfold Src.Has; rw [hd]; simp) (by rintro ⟨j, hj, hs⟩; rw [hd] at hj; cases hj; rw [hsp] at hs; cases hs)
      unfold Archived at A
      rw [hd] at A
      simp only [hsp, Bool.false_eq_true, if_false, hmt', hdat] at A
      obtain ⟨ad, A, hbb⟩ := A
      obtain ⟨b', hb', hlen'⟩ := hbytes _ _ _ _ hn hk
      rw [hb] at hb'
      cases hb'
      refine ⟨_, A, ?_, ?_, ?_, ?_, ?_⟩
      iterate 4 rw [hinfo]
      rw [hk]
      exact ⟨ad, b, by rw [hlen'], hb, hbb⟩
  · intro z n' hz
    have hz0 : ∃ f' ∈ [f], TreeMakes s cwd (o.stripPrefix.getD []) true f' z := by
      refine Classical.byContradiction fun hno => ?_
      rw [g3.nothing z fun f' hf' ht => hno ⟨f', hf', ht⟩] at hz
      cases hz
    obtain ⟨f', hf', hz1, u, ⟨k', q', p, i1, i2, i3, rfl, i5⟩, hpre, hsp⟩ := hz0
    cases List.mem_singleton.mp hf'
    obtain ⟨rfl, rfl⟩ := hat.unique i1
    obtain ⟨t, ht⟩ := hdir
    rcases List.prefix_or_prefix_of_prefix hpre (List.prefix_append k p) with hzk | ⟨p', rfl⟩
    · refine Or.inr ⟨hzk, ?_⟩
      by_cases e : z = k
      · subst e
        have A := g3.entry [] f [] (z ++ [], q ++ []) rfl ⟨z, q, [], hat, by unfold Src.Has; simp [ht], Or.inr rfl, rfl, by simpa using hz1⟩
          (by rintro ⟨i, hi, _⟩; simp [ht] at hi) (by simp)
        simp only [List.append_nil] at A
        unfold Archived at A
        rw [ht] at A
        rw [hz] at A
        cases A
        rfl
      · have := g3.above [] f [] k q z rfl hat ⟨hz1, e, hzk⟩ (by simp)
        rw [hz] at this
        cases this
        rfl
    · by_cases e : p' = []
      · subst e
        refine Or.inr ⟨by simp, ?_⟩
        have A := g3.entry [] f [] (k ++ [], q ++ []) rfl ⟨k, q, [], hat, by unfold Src.Has; simp [ht], Or.inr rfl, rfl, by simpa using hz1⟩
          (by rintro ⟨i, hi, _⟩; simp [ht] at hi) (by simp)
        simp only [List.append_nil] at A hz
        unfold Archived at A
        rw [ht] at A
        rw [hz] at A
        cases A
        rfl
      · refine Or.inl ⟨p', e, rfl, ?_⟩
        have hpp : p' <+: p := by rwa [List.prefix_append_right_inj] at hpre
        have hhas : s.Has q p' := by
          obtain ⟨y, hy⟩ := Option.ne_none_iff_exists'.mp i2
          by_cases ew : p' = p
          · exact ew ▸ i2
          · obtain ⟨v, hv⟩ := W.dirsTo hy (q ++ p') ((List.prefix_append_right_inj q).mpr hpp) (by simpa using ew)
            unfold Src.Has
            rw [hv]; simp
        obtain ⟨x, hx, rfl⟩ := hshow.only p' e hhas
        obtain ⟨_, n2, b1, _⟩ := e3 x hx
        simp [PathMap.sub, e, b1]

/-- The tree of such a source can be archived: with `C77_inputs`, the command succeeds if the output is free and can be written. -/
theorem C100_archivable {rs : List AddReq} {m : PathMap} {cfg : FsCfg} {d0 : List Bytes} (h : Mounted rs m cfg d0)
    (hfit : AttrsFit m) (hsz : Listable cfg)
    (hnames : ∀ p n, m.sub d0 p = some n → ∀ c ∈ p, c ≠ CUR ∧ c ≠ PARENT ∧ validUtf8 c = true)
    (hbytes : ∀ p n size ca, m.sub d0 p = some n → n.kind = .file size ca → ∃ b, cfg.bytes ca = .found b ∧ b.length = size) :
    ∃ B, ∀ (cl : Client) (before : List FReq), cl.Fair (m.sub d0) before → ∀ fuel ≥ B,
      ∃ l c, cl.copy cfg fuel ((FsState.init.run cfg before).2, 0) [] 1 = (some l, c) ∧
      ∀ (s : Src) (cwd k q : List Bytes) (pre : RPath) (f : Bytes), ShowsMount s q l → InputAt s cwd pre f k q → k.getLast? ≠ some PARENT →
        f ≠ [] → f.head? ≠ some SEP → (∀ c ∈ comps f, validUtf8 c = true) → ArchivableTree s cwd pre true f := by
  obtain ⟨B, hB⟩ := C67_copy h hfit hsz (fun p n hp c hc => ⟨(hnames p n hp c hc).1, (hnames p n hp c hc).2.1⟩) hbytes
  refine ⟨B, fun cl before F fuel hf => ?_⟩
  obtain ⟨l, c, e1, e2, e3⟩ := hB cl before F fuel hf
  refine ⟨l, c, e1, fun s cwd k q pre f hs hi hk h1 h2 h3 => ⟨h1, h2, h3, k, q, hi, Or.inr (Or.inr hk), fun _ p hp c hc => ?_⟩⟩
  have hne : p ≠ [] := fun e => by rw [e] at hc; cases hc
  obtain ⟨x, hx, rfl⟩ := hs.only p hne hp
  obtain ⟨_, n, b1, _⟩ := e3 x hx
  exact (hnames x.path n (by simp [PathMap.sub, hne, b1]) c hc).2.2

/-! ## What the readers of the new archive show -/

theorem Migration.same {bytes bytes' : ContentAddr → GetBytes} {m m' : PathMap} (M : Migration bytes bytes' (m.sub []) [] m') (h : m [] = none) (h' : m' [] = none) :
    SameListing m m' ∧ ∀ p, (∃ n, m p = some n) ↔ ∃ n, m' p = some n := by
  have hsub : ∀ p, p ≠ [] → m.sub [] p = m p := fun p hp => by simp [PathMap.sub, hp]
  have key : ∀ p, p ≠ [] → (∃ n n', m p = some n ∧ m' p = some n' ∧ SameListed n n') ∨ (m p = none ∧ m' p = none) := by
    intro p hp
    cases hm : m p with
    | some n =>
      obtain ⟨n', h1, h2⟩ := M.all p n (by rw [hsub p hp, hm])
      refine Or.inl ⟨n, n', rfl, by simpa using h1, h2.mtime.symm, ?_⟩
      have := h2.kind
      cases hk : n.kind with
      | dir => rw [hk] at this; simp only at this ⊢; rw [this]; trivial
      | link t => rw [hk] at this; simp only at this ⊢; rw [this]
      | file sz c => rw [hk] at this; obtain ⟨c', b, e, _⟩ := this; rw [e]
    | none =>
      refine Or.inr ⟨rfl, ?_⟩
      cases hm' : m' p with
      | none => rfl
      | some n' =>
        rcases M.only p n' hm' with ⟨p', h1, h2, h3⟩ | ⟨h1, _⟩
        · simp only [List.nil_append] at h2
          subst h2
          rw [hsub p hp, hm] at h3
          exact absurd rfl h3
        · exact absurd (List.prefix_nil.mp h1) hp
  refine ⟨fun p => ?_, fun p => ?_⟩
  · by_cases hp : p = []
    · subst hp; rw [h, h']; trivial
    · rcases key p hp with ⟨n, n', h1, h2, h3⟩ | ⟨h1, h2⟩
      · rw [h1, h2]; exact h3
      · rw [h1, h2]; trivial
  · by_cases hp : p = []
    · subst hp; rw [h, h']
    · rcases key p hp with ⟨n, n', h1, h2, h3⟩ | ⟨h1, h2⟩
      · rw [h1, h2]; exact ⟨fun _ => ⟨_, rfl⟩, fun _ => ⟨_, rfl⟩⟩
      · rw [h1, h2]

/-- **C100, the listings.** If the whole archive was mounted, and the mount point is the prefix to strip, then `arx list` prints the same for both archives, and
so does `arx list --stable-output 1` (of the old archive with UTF-8 names other than `.`). -/
theorem C100_listing {rs : List AddReq} {m : PathMap} {old : Archive} (h : Written rs old) (hm : SpecRun PathMap.empty rs m)
    {o : CreateOpts} {sys : CreateSys} {cwd N : List Bytes} {a : Adder} {order : List Nat} (hcwd : StartsIn o sys cwd)
    (hwr : CreateEv.written N a ∈ (o.run sys).1) (ho : IsLayout a.creator order) (hlen : a.creator.store.length < 2 ^ 32)
    {rs' : List AddReq} {m' : PathMap} (g1 : Creator.new.run rs' = some a.creator) (hm' : SpecRun PathMap.empty rs' m')
    {bytes bytes' : ContentAddr → GetBytes} (M : Migration bytes bytes' (m.sub []) [] m')
    {depth depth' : Nat} (hd : old.entries.length < depth) (hd' : (writeArchive a.creator order).entries.length < depth') :
    listCmd (writeArchive a.creator order) none depth' = listCmd old none depth ∧
    ((∀ r ∈ rs, validUtf8 r.path = true) → (∀ p n, m p = some n → CUR ∉ p) →
      listCmd (writeArchive a.creator order) (some 1) depth' = listCmd old (some 1) depth) := by
  have h' : Written rs' (writeArchive a.creator order) := ⟨_, order, g1, ho, rfl, hlen⟩
  obtain ⟨P, G⟩ := h.good' hm
  obtain ⟨P', G'⟩ := h'.good' hm'
  obtain ⟨S, D⟩ := M.same G.wf.root G'.wf.root
  constructor
  · obtain ⟨V, hV, e⟩ := C11_list h hm depth hd
    obtain ⟨V', hV', e'⟩ := C11_list h' hm' depth' hd'
    have hL : Listing m' [] V := ⟨hV.1, fun p => by rw [hV.2, D p]⟩
    rw [e, e', hL.unique hV']
  · intro hu hdot
    obtain ⟨⟨V, hV, e⟩, _⟩ := C12_stable_list_partial h hm hu hdot depth hd
    obtain ⟨l, T⟩ := CreateOpts.tried hcwd hwr
    obtain ⟨rs1, m1, k1, k2, k3, k4⟩ := T.asSeen
    have em : m1 = m' := SpecRun.same_creator k1 g1 k2 hm'
    subst em
    obtain ⟨⟨V', hV', e'⟩, _⟩ := C12_stable_list_partial (⟨_, order, k1, ho, rfl, hlen⟩ : Written rs1 (writeArchive a.creator order)) k2 k3 k4.noDot depth' hd'
    have hL : Listing m1 [] V := ⟨hV.1, fun p => by rw [hV.2, D p]⟩
    rw [e, e', ← hL.unique hV', List.flatMap_def, List.flatMap_def]
    refine congrArg (fun x => (List.flatten x, true)) (List.map_congr_left ?_)
    intro p _
    have := S p
    simp only [stableLine]
    cases h1 : m p with
    | none => cases h2 : m1 p with
      | none => rfl
      | some n' => rw [h1, h2] at this; cases this
    | some n => cases h2 : m1 p with
     | none => rw [h1, h2] at this; cases this
     | some n' =>
      rw [h1, h2] at this
      obtain ⟨h3, h4⟩ := this
      simp only [h3]
      cases hk : n.kind <;> cases hk' : n'.kind <;> rw [hk, hk'] at h4 <;> simp_all

/-! ## The rights -/

theorem typeBits_mask (t : EntryType) : typeBits t &&& 0b1111_1111_0110_1101 = typeBits t := by cases t <;> decide

/-- **C100, the rights.** If the mode of the old entry is that of a file system (the type of the entry in the highest 4 of 16 bits), with owner and group of 32
bits, then only the rights to write are lost. They are always lost, and migrating again changes nothing more. -/
theorem C100_rights {bytes bytes' : ContentAddr → GetBytes} {n n' : Node} (M : MigratedNode bytes bytes' n n') :
    (n.info.rights < 2 ^ 16 → n.info.rights &&& 0o170000 = typeBits n.kind.etype → n.info.owner < 2 ^ 32 → n.info.group < 2 ^ 32 →
      n'.info = { n.info with rights := n.info.rights &&& 0b1111_1111_0110_1101 }) ∧
    n'.info.rights &&& 0o222 = 0 ∧
    ∀ (bytes'' : ContentAddr → GetBytes) (n'' : Node), MigratedNode bytes' bytes'' n' n'' → n''.info = n'.info := by
  have hk : n'.kind.etype = n.kind.etype := by
    have := M.kind
    cases hk : n.kind with
    | dir => rw [hk] at this; rw [this]
    | link t => rw [hk] at this; rw [this]
    | file sz c => rw [hk] at this; obtain ⟨c', b, e, _⟩ := this; rw [e]; rfl
  have ext : ∀ x y : Meta, x.owner = y.owner → x.group = y.group → x.rights = y.rights → x.mtime = y.mtime → x = y := by
    rintro ⟨_, _, _, _⟩ ⟨_, _, _, _⟩ rfl rfl rfl rfl; rfl
  refine ⟨fun h1 h2 h3 h4 => ext _ _ ?_ ?_ ?_ ?_, ?_, fun bytes'' n'' M' => ext _ _ ?_ ?_ ?_ ?_⟩
  · rw [M.owner]; exact Nat.mod_eq_of_lt h3
  · rw [M.group]; exact Nat.mod_eq_of_lt h4
  · rw [M.rights, Nat.mod_eq_of_lt h1, ← h2, ← Nat.and_or_distrib_left]
    rfl
  · exact M.mtime
  · rw [M.rights, Nat.and_or_distrib_right, Nat.and_assoc]
    cases n.kind.etype <;> simp [typeBits]
  · rw [M'.owner, M.owner, Nat.mod_mod]
  · rw [M'.group, M.group, Nat.mod_mod]
  · have hlt : n'.info.rights < 2 ^ 16 := by
      rw [M.rights]
      exact Nat.or_lt_two_pow (by cases n.kind.etype <;> decide) (Nat.and_lt_two_pow _ (by decide))
    rw [M'.rights, Nat.mod_eq_of_lt hlt, hk, M.rights, Nat.and_or_distrib_right, typeBits_mask, Nat.and_assoc, Nat.and_self, ← Nat.or_assoc, Nat.or_self]
  · exact M'.mtime

/-! ## The hypotheses are met: the example archive is mounted at `t`, and `t` is archived with `--strip-prefix t` -/

def mgSrc : Src where
  fs := {
    nodes := fun q =>
      if q = [] then some (.dir 0)
      else if q = [ascii "t"] then some (.dir 0)
      else if q = [ascii "t", ascii "a"] then some (.dir 99000000000)
      else if q = [ascii "t", ascii "b"] then some (.dir 0)
      else if q = [ascii "t", ascii "a", ascii "l"] then some (.link (ascii "../b") 99000000000)
      else if q = [ascii "t", ascii "b", ascii "x"] then some (.file 0)
      else none
    data := fun _ => ⟨ascii "xyz", 99000000000⟩
    next := 1
    now := 200000000000 }
  ids := fun q =>
    if q = [ascii "t", ascii "a"] then (7, 8, 0o040440)
    else if q = [ascii "t", ascii "b"] then (1000, 1000, 0o040555)
    else if q = [ascii "t", ascii "a", ascii "l"] then (7, 8, 0o120440)
    else if q = [ascii "t", ascii "b", ascii "x"] then (7, 8, 0o100440)
    else (0, 0, 0o040755)
  special := fun _ => false

theorem mgSrc_nodes {q : List Bytes} {x : FNode} (h : mgSrc.fs.nodes q = some x) :
    (q, x) ∈ [([], FNode.dir 0), ([ascii "t"], .dir 0), ([ascii "t", ascii "a"], .dir 99000000000), ([ascii "t", ascii "b"], .dir 0),
      ([ascii "t", ascii "a", ascii "l"], .link (ascii "../b") 99000000000), ([ascii "t", ascii "b", ascii "x"], .file 0)] := by
  simp only [mgSrc] at h
  repeat' (split at h)
  all_goals (first | (cases h; done) | (cases h; simp_all))

theorem mgSrc_wf : mgSrc.WF where
  root := ⟨0, rfl⟩
  tree := by
    intro q c x h
    have := mgSrc_nodes h
    simp only [List.mem_cons, Prod.mk.injEq, List.not_mem_nil, or_false] at this
    rcases this with ⟨e, _⟩ | ⟨e, _⟩ | ⟨e, _⟩ | ⟨e, _⟩ | ⟨e, _⟩ | ⟨e, _⟩
    · simp at e
    · have := List.append_inj_left' (s₁ := q) (s₂ := []) e rfl; subst this; exact ⟨0, rfl⟩
    · have := List.append_inj_left' (s₁ := q) (s₂ := [ascii "t"]) e rfl; subst this; exact ⟨_, rfl⟩
    · have := List.append_inj_left' (s₁ := q) (s₂ := [ascii "t"]) e rfl; subst this; exact ⟨_, rfl⟩
    · have := List.append_inj_left' (s₁ := q) (s₂ := [ascii "t", ascii "a"]) e rfl; subst this; exact ⟨_, rfl⟩
    · have := List.append_inj_left' (s₁ := q) (s₂ := [ascii "t", ascii "b"]) e rfl; subst this; exact ⟨_, rfl⟩
  inos := by
    intro q i h
    have := mgSrc_nodes h
    simp only [List.mem_cons, Prod.mk.injEq, List.not_mem_nil, or_false] at this
    rcases this with ⟨_, e⟩ | ⟨_, e⟩ | ⟨_, e⟩ | ⟨_, e⟩ | ⟨_, e⟩ | ⟨_, e⟩ <;> cases e <;> decide
  names := by
    intro q x h c hc
    have := mgSrc_nodes h
    simp only [List.mem_cons, Prod.mk.injEq, List.not_mem_nil, or_false] at this
    rcases this with ⟨e, _⟩ | ⟨e, _⟩ | ⟨e, _⟩ | ⟨e, _⟩ | ⟨e, _⟩ | ⟨e, _⟩ <;> subst e <;> clear h <;>
      simp only [List.mem_cons, List.not_mem_nil, or_false] at hc
    all_goals (first | (cases hc; done) | (repeat' (first | subst hc | (rcases hc with rfl | hc))))
    all_goals (exact ⟨by decide, by decide, by decide, by decide⟩)
  targets := by
    intro q t u h
    have := mgSrc_nodes h
    simp only [List.mem_cons, Prod.mk.injEq, List.not_mem_nil, or_false] at this
    rcases this with ⟨_, e⟩ | ⟨_, e⟩ | ⟨_, e⟩ | ⟨_, e⟩ | ⟨_, e⟩ | ⟨_, e⟩ <;> cases e
    decide

theorem mgRows : ∀ r ∈ exArchive.entries,
    (r.name = ascii "a" ∨ r.name = ascii "l" ∨ r.name = ascii "x" → r.owner = 7 ∧ r.group = 8 ∧ r.rights = 0o640 ∧ r.mtime = 99) ∧
    (r.name = ascii "b" → r.owner = 1000 ∧ r.group = 1000 ∧ r.rights = 0o755 ∧ r.mtime = 0) := by decide +kernel

theorem mgInfo {p : List Bytes} {n : Node} (hp : exMap p = some n) :
    (p = [ascii "a"] ∧ n = ⟨⟨7, 8, 0o640, 99⟩, .dir⟩) ∨ (p = [ascii "b"] ∧ n = ⟨⟨1000, 1000, 0o755, 0⟩, .dir⟩) ∨
    (p = [ascii "a", ascii "l"] ∧ n = ⟨⟨7, 8, 0o640, 99⟩, .link (ascii "../b")⟩) ∨ (p = [ascii "b", ascii "x"] ∧ n = ⟨⟨7, 8, 0o640, 99⟩, .file 3 ⟨1, 0⟩⟩) := by
  obtain ⟨⟨n1, h1, k1⟩, ⟨n2, h2, k2⟩, ⟨n3, h3, k3⟩, ⟨n4, h4, k4, _⟩⟩ := exMap_kinds
  obtain ⟨P, r, hr, g1, g2, g3, g4, g5, g6, _⟩ := map_row exWritten exMap_spec hp
  obtain ⟨r1, r2⟩ := mgRows r hr
  have := exMap_paths hp
  simp only [List.mem_cons, List.not_mem_nil, or_false] at this
  obtain ⟨⟨o, g, ri, mt⟩, kd⟩ := n
  simp only at g3 g4 g5 g6
  rcases this with rfl | rfl | rfl | rfl
  · rw [h1] at hp; cases hp
    obtain ⟨q1, q2, q3, q4⟩ := r1 (Or.inl (by simpa using g1.symm))
    simp only at k1
    left
    simp [k1, ← g3, ← g4, ← g5, ← g6, q1, q2, q3, q4]
  · rw [h2] at hp; cases hp
    obtain ⟨q1, q2, q3, q4⟩ := r2 (by simpa using g1.symm)
    simp only at k2
    right; left
    simp [k2, ← g3, ← g4, ← g5, ← g6, q1, q2, q3, q4]
  · rw [h3] at hp; cases hp
    obtain ⟨q1, q2, q3, q4⟩ := r1 (Or.inr (Or.inl (by simpa using g1.symm)))
    simp only at k3
    right; right; left
    simp [k3, ← g3, ← g4, ← g5, ← g6, q1, q2, q3, q4]
  · rw [h4] at hp; cases hp
    obtain ⟨q1, q2, q3, q4⟩ := r1 (Or.inr (Or.inr (by simpa using g1.symm)))
    simp only at k4
    right; right; right
    simp [k4, ← g3, ← g4, ← g5, ← g6, q1, q2, q3, q4]

/-- whatever a program copies of the mount of the example archive, this source has at `t` -/
theorem mgShows {l : List Copied} (h1 : Listing exMap [] (l.map (fun x => [] ++ x.path))) (h2 : ∀ x ∈ l, CopyOf exFs exMap [] x) :
    ShowsMount mgSrc [ascii "t"] l := by
  have key : ∀ x ∈ l, (x.path = [ascii "a"] ∧ x.got = .dir ∧ x.attr.mtime = 99 ∧ x.attr.uid = 7 ∧ x.attr.gid = 8 ∧ typeBits x.attr.kind ||| x.attr.perm = 0o040440) ∨
      (x.path = [ascii "b"] ∧ x.got = .dir ∧ x.attr.mtime = 0 ∧ x.attr.uid = 1000 ∧ x.attr.gid = 1000 ∧ typeBits x.attr.kind ||| x.attr.perm = 0o040555) ∨
      (x.path = [ascii "a", ascii "l"] ∧ x.got = .link (ascii "../b") ∧ x.attr.mtime = 99 ∧ x.attr.uid = 7 ∧ x.attr.gid = 8 ∧ typeBits x.attr.kind ||| x.attr.perm = 0o120440) ∨
      (x.path = [ascii "b", ascii "x"] ∧ x.got = .file (ascii "xyz") ∧ x.attr.mtime = 99 ∧ x.attr.uid = 7 ∧ x.attr.gid = 8 ∧ typeBits x.attr.kind ||| x.attr.perm = 0o100440) := by
    intro x hx
    obtain ⟨⟨n, ns, g1, _, _, _, g5⟩, n', g6, g7⟩ := h2 x hx
    rw [g1] at g6; cases g6
    rcases mgInfo g1 with ⟨e, rfl⟩ | ⟨e, rfl⟩ | ⟨e, rfl⟩ | ⟨e, rfl⟩
    · exact Or.inl ⟨e, g7, by rw [g5]; exact ⟨rfl, rfl, rfl, by simp [attrSpec, typeBits, Kind.etype]⟩⟩
    · exact Or.inr (Or.inl ⟨e, g7, by rw [g5]; exact ⟨rfl, rfl, rfl, by simp [attrSpec, typeBits, Kind.etype]⟩⟩)
    · exact Or.inr (Or.inr (Or.inl ⟨e, g7, by rw [g5]; exact ⟨rfl, rfl, rfl, by simp [attrSpec, typeBits, Kind.etype]⟩⟩))
    · obtain ⟨b, hb, hg⟩ := g7
      have hb' : b = ascii "xyz" := by
        have : exFs.bytes ⟨1, 0⟩ = .found (ascii "xyz") := by decide
        rw [this] at hb; cases hb; rfl
      exact Or.inr (Or.inr (Or.inr ⟨e, by rw [hg, hb'], by rw [g5]; exact ⟨rfl, rfl, rfl, by simp [attrSpec, typeBits, Kind.etype]⟩⟩))
  refine ⟨?_, ?_, ?_, ?_, ?_⟩
  · intro x hx hg
    rcases key x hx with ⟨e, h, m, _⟩ | ⟨e, h, m, _⟩ | ⟨e, h, m, _⟩ | ⟨e, h, m, _⟩ <;> rw [h] at hg <;> cases hg <;> rw [e, m] <;> decide
  · intro x hx t hg
    rcases key x hx with ⟨e, h, m, _⟩ | ⟨e, h, m, _⟩ | ⟨e, h, m, _⟩ | ⟨e, h, m, _⟩ <;> rw [h] at hg <;> cases hg <;> rw [e, m] <;> decide
  · intro x hx b hg
    rcases key x hx with ⟨e, h, m, _⟩ | ⟨e, h, m, _⟩ | ⟨e, h, m, _⟩ | ⟨e, h, m, _⟩ <;> rw [h] at hg <;> cases hg <;> rw [e, m]
    exact ⟨0, by decide, rfl, rfl, rfl⟩
  · intro x hx
    rcases key x hx with ⟨e, _, _, u, g, p⟩ | ⟨e, _, _, u, g, p⟩ | ⟨e, _, _, u, g, p⟩ | ⟨e, _, _, u, g, p⟩ <;> rw [e, u, g, p] <;> decide
  · intro p hp hh
    have hm : ∃ n, exMap p = some n := by
      obtain ⟨⟨n1, k1, _⟩, ⟨n2, k2, _⟩, ⟨n3, k3, _⟩, ⟨n4, k4, _⟩⟩ := exMap_kinds
      obtain ⟨y, hy⟩ := Option.ne_none_iff_exists'.mp hh
      have := mgSrc_nodes hy
      simp only [List.mem_cons, Prod.mk.injEq, List.not_mem_nil, or_false, List.cons_append, List.nil_append, List.cons.injEq, true_and, reduceCtorEq, false_and, false_or] at this
      rcases this with ⟨e, _⟩ | ⟨e, _⟩ | ⟨e, _⟩ | ⟨e, _⟩ | ⟨e, _⟩
      · exact absurd e hp
      all_goals (rw [e]; exact ⟨_, by assumption⟩)
    have := (h1.2 p).mpr ⟨hm, List.nil_prefix, fun e => hp e.symm⟩
    obtain ⟨x, hx, e⟩ := List.mem_map.mp this
    exact ⟨x, hx, by simpa using e⟩

def mgLs : ReadDir := fun d =>
  if d = [] then [.ok (ascii "t")]
  else if d = [ascii "t"] then [.ok (ascii "b"), .ok (ascii "a")]
  else if d = [ascii "t", ascii "a"] then [.ok (ascii "l")]
  else if d = [ascii "t", ascii "b"] then [.ok (ascii "x")]
  else []

theorem mgLs_full : FullListing mgSrc mgLs := by
  intro d t h
  have := mgSrc_nodes h
  simp only [List.mem_cons, Prod.mk.injEq, List.not_mem_nil, or_false] at this
  have hc : ∀ n, mgSrc.fs.nodes (d ++ [n]) ≠ none → ∃ y, (d ++ [n], y) ∈ [([], FNode.dir 0), ([ascii "t"], .dir 0), ([ascii "t", ascii "a"], .dir 99000000000), ([ascii "t", ascii "b"], .dir 0),
      ([ascii "t", ascii "a", ascii "l"], .link (ascii "../b") 99000000000), ([ascii "t", ascii "b", ascii "x"], .file 0)] := by
    intro n hn
    obtain ⟨y, hy⟩ := Option.ne_none_iff_exists'.mp hn
    exact ⟨y, mgSrc_nodes hy⟩
  rcases this with ⟨e, _⟩ | ⟨e, _⟩ | ⟨e, _⟩ | ⟨e, _⟩ | ⟨e, e'⟩ | ⟨e, e'⟩
  · subst e
    refine ⟨[ascii "t"], rfl, by decide, fun n => ⟨?_, ?_⟩⟩
    · intro hn; simp only [List.mem_cons, List.not_mem_nil, or_false] at hn; subst hn; decide
    · intro hn; obtain ⟨y, this⟩ := hc n hn; simp at this; simp [this]
  · subst e
    refine ⟨[ascii "b", ascii "a"], rfl, by decide, fun n => ⟨?_, ?_⟩⟩
    · intro hn; simp only [List.mem_cons, List.not_mem_nil, or_false] at hn; rcases hn with rfl | rfl <;> decide
    · intro hn; obtain ⟨y, this⟩ := hc n hn; simp at this; rcases this with h | h <;> simp [h]
  · subst e
    refine ⟨[ascii "l"], rfl, by decide, fun n => ⟨?_, ?_⟩⟩
    · intro hn; simp only [List.mem_cons, List.not_mem_nil, or_false] at hn; subst hn; decide
    · intro hn; obtain ⟨y, this⟩ := hc n hn; simp at this; rcases this with ⟨⟨_, h⟩, _⟩ | ⟨⟨h, _⟩, _⟩
      · simp [h]
      · exact absurd h (by decide)
  · subst e
    refine ⟨[ascii "x"], rfl, by decide, fun n => ⟨?_, ?_⟩⟩
    · intro hn; simp only [List.mem_cons, List.not_mem_nil, or_false] at hn; subst hn; decide
    · intro hn; obtain ⟨y, this⟩ := hc n hn; simp at this; rcases this with ⟨⟨h, _⟩, _⟩ | ⟨⟨_, h⟩, _⟩
      · exact absurd h (by decide)
      · simp [h]
  · cases e'
  · cases e'

def mgSys : CreateSys where
  cwd := []
  atParent := mgSrc
  atOut := mgSrc
  atChdir := mgSrc
  atCheck := mgSrc
  src _ := mgSrc
  fault _ := false
  text _ := none
  walks _ := ⟨mgSrc, mgLs, 5, List.replicate 20 true ++ List.replicate 20 false⟩
  openOk := true
  writeOk := true

/-- `arx create -o x.arx -r --strip-prefix t t` -/
def mgOpts : CreateOpts := ⟨some (ascii "x.arx"), some (ascii "t"), none, [ascii "t"], none, true, false, false, false, false⟩

def mgAdder : Adder := ((mgOpts.run mgSys).1.filterMap CreateEv.adder?).headD Adder.new

theorem mgAdder_written : ∃ N, CreateEv.written N mgAdder ∈ (mgOpts.run mgSys).1 :=
  CreateEv.written_of (by
    intro h
    have : ((mgOpts.run mgSys).1.filterMap CreateEv.adder?).length = 1 := by decide +kernel
    rw [h] at this; cases this)

/-- `C100_migrate` and `C100_listing` apply to it -/
example : ∃ rs' m', SpecRun PathMap.empty rs' m' ∧ Migration exBytes (packBytes mgAdder.contents) (exMap.sub []) [] m' ∧
    ∀ order, IsLayout mgAdder.creator order → listCmd (writeArchive mgAdder.creator order) (some 1) 9 = listCmd exArchive (some 1) 9 := by
  obtain ⟨B, hB⟩ := C100_migrate exMounted exFit (by unfold Listable; decide)
    (fun p n hp c hc => ⟨(exNames p n hp c hc).1, (exNames p n hp c hc).2.1⟩) exSizes
  obtain ⟨B2, hB2⟩ := C67_copy exMounted exFit (by unfold Listable; decide)
    (fun p n hp c hc => ⟨(exNames p n hp c hc).1, (exNames p n hp c hc).2.1⟩) exSizes
  have F := exFair (exMap.sub []) fun p n c hp => (exNames _ n hp c (by simp)).2.2
  obtain ⟨l, c, e1, e2⟩ := hB exClient [.open 5] F (B + B2) (by omega)
  obtain ⟨l', c', k1, k2, k3⟩ := hB2 exClient [.open 5] F (B + B2) (by omega)
  rw [k1] at e1
  cases e1
  obtain ⟨N, hN⟩ := mgAdder_written
  obtain ⟨rs', m', g1, g2, g3, g4⟩ := e2 mgOpts mgSys mgSrc [] N mgAdder (ascii "t") [] [ascii "t"] rfl rfl rfl rfl ⟨fun _ => rfl, fun _ => rfl⟩ mgSrc_wf rfl
    (fun _ => ⟨rfl, mgLs_full, fun q hq => by
      obtain ⟨y, hy⟩ := Option.ne_none_iff_exists'.mp hq
      have := mgSrc_nodes hy
      simp only [List.mem_cons, Prod.mk.injEq, List.not_mem_nil, or_false] at this
      rcases this with ⟨e, _⟩ | ⟨e, _⟩ | ⟨e, _⟩ | ⟨e, _⟩ | ⟨e, _⟩ | ⟨e, _⟩ <;> rw [e] <;> simp [mgSys]⟩)
    ⟨by unfold StoredAs; decide, by decide, by unfold Src.Has; decide⟩ ⟨0, rfl⟩ (mgShows k2 k3) hN
  refine ⟨rs', m', g3, g4, fun order ho => ?_⟩
  have hlen : mgAdder.creator.store.length = 4 := by decide +kernel
  have := written_entries ho
  exact (C100_listing exWritten exMap_spec (o := mgOpts) (sys := mgSys) (cwd := []) rfl hN ho (by omega) g1 g3 g4
    (depth := 9) (depth' := 9) (by decide +kernel) (by omega)).2 (by decide +kernel) (fun p n hp => by
      have := exMap_paths hp
      simp only [List.mem_cons, List.not_mem_nil, or_false] at this
      rcases this with rfl | rfl | rfl | rfl <;> decide)

end Arx
