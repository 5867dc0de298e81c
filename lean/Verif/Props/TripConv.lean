import Verif.Props.ConvertMain
import Verif.Props.Extract
import Verif.Spec.TripConv
/-!
# C73: convert, then extract
-/
namespace Arx

/-- The bytes of a piece of a text are bytes of the text. -/
theorem mem_of_splitSep : ∀ {p c : Bytes} {b : UInt8}, c ∈ splitSep p → b ∈ c → b ∈ p
  | [], c, b, h, hb => by
    simp only [splitSep, List.mem_singleton] at h
    subst h; exact hb
  | x :: xs, c, b, h, hb => by
    unfold splitSep at h
    split at h
    · rcases List.mem_cons.mp h with rfl | h
      · cases hb
      · exact List.mem_cons_of_mem _ (mem_of_splitSep h hb)
    · split at h
      · rename_i s ss hs
        rcases List.mem_cons.mp h with rfl | h
        · rcases List.mem_cons.mp hb with rfl | hb
          · exact List.mem_cons_self
          · exact List.mem_cons_of_mem _ (mem_of_splitSep (by rw [hs]; exact List.mem_cons_self) hb)
        · exact List.mem_cons_of_mem _ (mem_of_splitSep (by rw [hs]; exact List.mem_cons_of_mem _ h) hb)
      · rw [List.mem_singleton] at h
        subst h
        rw [List.mem_singleton] at hb
        subst hb; exact List.mem_cons_self

/-- The bytes of a component are bytes of the path. -/
theorem mem_of_comps {p c : Bytes} {b : UInt8} (h : c ∈ comps p) (hb : b ∈ c) : b ∈ p :=
  mem_of_splitSep (List.mem_filter.mp h).1 hb

theorem TarMember.sort (e : TarMember) (h : ¬ e.Ignored) : e.Directory ∨ e.type = .symlink ∨ e.FileLike := by
  unfold TarMember.Ignored at h
  unfold TarMember.Directory TarMember.FileLike
  cases ht : e.type <;> simp_all <;> exact fun _ => Classical.em _

theorem memberNames_mem {path c : Bytes} (h : c ∈ memberNames path) : c ∈ comps path ∧ c ≠ CUR := by
  obtain ⟨h1, h2⟩ := List.mem_filter.mp h
  exact ⟨h1, by simpa using h2⟩

theorem SpecRun.wf {rs : List AddReq} {st : Creator} {m : PathMap} (h : Creator.new.run rs = some st) (hm : SpecRun PathMap.empty rs m) : m.WF := by
  obtain ⟨m', _, hm', R⟩ := run_rel h
  rw [hm.det hm']; exact R.wf

theorem TreeAt.at {fs : FS} {base : List Bytes} {m : PathMap} {bytes : ContentAddr → GetBytes} (h : TreeAt fs base m bytes) {p : List Bytes} {x : FNode}
    (hp : p ≠ []) (hx : fs.nodes (base ++ p) = some x) : ∃ n, m p = some n ∧ (n.isDir = true → ∃ t, x = .dir t) := by
  cases hm : m p with
  | none => rw [h.nothing p hp hm] at hx; cases hx
  | some n =>
    refine ⟨n, rfl, fun hd => ?_⟩
    have hk : n.kind = .dir := by
      cases hk : n.kind with
      | dir => rfl
      | file a b => simp [Node.isDir, Kind.isDir, hk] at hd
      | link a => simp [Node.isDir, Kind.isDir, hk] at hd
    obtain ⟨t, ht⟩ := h.dirs p n hm hk
    rw [hx] at ht
    exact ⟨t, Option.some.inj ht⟩

/-- **C73, tar.** Convert a tar archive with `tar2arx`, extract the result with any interleaving of the threads to an empty or missing directory, no call
failing. If names and link targets are such that a file system takes them, the extraction succeeds and the directory contains the
tree of the tar archive: every member at its path with its kind and its data or target, and nothing else except parent directories. -/
theorem C73_tar {tarFile outfile : Option Bytes} {sys : ConvSys TarMember} {out : Bytes} {c : Conv}
    (hw : ConvEv.written out c ∈ (tar2arx tarFile outfile sys).1) {ms : List TarMember}
    (hin : sys.input (TarInput tarFile) = .ok (ms.map .ok)) (hplace : ∀ e ∈ ms, ¬ e.Ignored → e.Placeable)
    {order : List Nat} (ho : IsLayout c.creator order) (hlen : c.creator.store.length < 2 ^ 32)
    {cfg : XCfg} (ha : cfg.a = writeArchive c.creator order) (hb : cfg.bytes = packBytes c.contents) (hall : cfg.files = [])
    {before after : FS} {res : XResult} (hT : EmptyTarget before cfg.base) (hx : CleanExtraction cfg cfg.a.root before after res) :
    res = .ok ∧ TarTree ms after cfg.base ∧ (∀ q, ¬ cfg.base <+: q → ¬ q <+: cfg.base → after.nodes q = before.nodes q) ∧
    (∀ i, i < before.next → after.data i = before.data i) := by
  obtain ⟨i, hi⟩ := List.mem_iff_getElem?.mp hw
  obtain ⟨_, out', c', items, _, e1, e2, e3⟩ := (C61_tar tarFile outfile sys).1 i _ hi rfl
  cases e1
  rw [hin] at e2; cases e2
  have hvalid := (C41_accepts_iff (ms.map .ok)).mp (by rw [e3])
  obtain ⟨ms', em, hv, _⟩ := hvalid
  have : ms = ms' := by
    have h2 := congrArg (List.filterMap (fun x : Except Unit TarMember => match x with | .ok e => some e | .error _ => none)) em
    simpa [List.filterMap_map, Function.comp_def] using h2
  subst this
  obtain ⟨rs, m, g1, g2, g3, g4⟩ := C41_tar_partial e3
  have W := SpecRun.wf g1 g2
  have hmem : ∀ e, Except.ok e ∈ ms.map (Except.ok (ε := Unit)) ↔ e ∈ ms := by
    intro e; simp
  have hat : ∀ e ∈ ms, ¬ e.Ignored → ∃ info, e.HasMeta info ∧ memberNames e.path ≠ [] ∧
        (e.type = .symlink → ∃ t, e.linkName = some t ∧ m (memberNames e.path) = some ⟨info, .link t⟩) ∧
        (e.FileLike → ∃ d a, e.data = .ok d ∧ packBytes c.contents a = .found d ∧
          m (memberNames e.path) = some ⟨info, .file d.length a⟩) ∧
        (e.Directory → ∃ n, m (memberNames e.path) = some n ∧ n.isDir = true) := by
    intro e he hig
    obtain ⟨A, B, hAB⟩ := List.append_of_mem ((hmem e).mpr he)
    obtain ⟨info, k1, k2, k3, k4, k5⟩ := g3 A e B hAB hig
    exact ⟨info, k1, k2, k3, k4, fun hd => by obtain ⟨n, h1, h2, _⟩ := k5 hd; exact ⟨n, h1, h2⟩⟩
  have hsub : ∀ p n, m.sub [] p = some n → m p = some n := fun p n hp => (PathMap.sub_some hp).2
  have hkind : ∀ p n, m p = some n → ∃ e ∈ ms, ¬ e.Ignored ∧ p <+: memberNames e.path ∧ (p ≠ memberNames e.path → n.isDir = true) := by
    intro p n hp
    obtain ⟨e, h1, h2, h3⟩ := g4 p n hp
    have h1 := (hmem e).mp h1
    refine ⟨e, h1, h2, h3, fun hne => ?_⟩
    have hp0 : p ≠ [] := by rintro rfl; rw [W.root] at hp; cases hp
    obtain ⟨info, _, _, k3, k4, k5⟩ := hat e h1 h2
    have : ∃ n', m (memberNames e.path) = some n' := by
      rcases e.sort h2 with hd | hl | hf
      · obtain ⟨n', h, _⟩ := k5 hd; exact ⟨n', h⟩
      · obtain ⟨t, _, h⟩ := k3 hl; exact ⟨_, h⟩
      · obtain ⟨d, a, _, _, h⟩ := k4 hf; exact ⟨_, h⟩
    obtain ⟨n', hn'⟩ := this
    obtain ⟨d, hd1, hd2⟩ := W.ancestors _ n' p hn' ⟨hp0, hne, h3⟩
    rw [hp] at hd1; cases hd1; exact hd2
  have hE : Extractable (m.sub []) cfg.bytes := by
    refine ⟨?_, ?_, ?_, ?_⟩
    · intro p n hp x hx
      obtain ⟨e, h1, h2, h3, _⟩ := hkind p n (hsub p n hp)
      have hx' := h3.subset hx
      exact ⟨(memberNames_mem hx').2, (hplace e h1 h2).names x hx'⟩
    · intro p n hp x hx
      obtain ⟨e, h1, h2, h3, _⟩ := hkind p n (hsub p n hp)
      exact (hv e h1).utf8 x (memberNames_mem (h3.subset hx)).1
    · intro p n t hp hk
      obtain ⟨e, h1, h2, h3, h4⟩ := hkind p n (hsub p n hp)
      have hpe : p = memberNames e.path := by
        refine Classical.byContradiction fun hne => ?_
        have := h4 hne
        simp [Node.isDir, Kind.isDir, hk] at this
      subst hpe
      obtain ⟨info, _, _, k3, k4, k5⟩ := hat e h1 h2
      rcases e.sort h2 with hd | hl | hf
      · obtain ⟨n', h, h'⟩ := k5 hd
        rw [hsub _ n hp] at h; cases h
        simp [Node.isDir, Kind.isDir, hk] at h'
      · obtain ⟨t', ht', h⟩ := k3 hl
        rw [hsub _ n hp] at h; cases h; cases hk
        exact (hplace e h1 h2).target hl t ht'
      · obtain ⟨d, a, _, _, h⟩ := k4 hf
        rw [hsub _ n hp] at h; cases h; cases hk
    · intro p n s a hp hk
      obtain ⟨e, h1, h2, h3, h4⟩ := hkind p n (hsub p n hp)
      have hpe : p = memberNames e.path := by
        refine Classical.byContradiction fun hne => ?_
        have := h4 hne
        simp [Node.isDir, Kind.isDir, hk] at this
      subst hpe
      obtain ⟨info, _, _, k3, k4, k5⟩ := hat e h1 h2
      rcases e.sort h2 with hd | hl | hf
      · obtain ⟨n', h, h'⟩ := k5 hd
        rw [hsub _ n hp] at h; cases h
        simp [Node.isDir, Kind.isDir, hk] at h'
      · obtain ⟨t', ht', h⟩ := k3 hl
        rw [hsub _ n hp] at h; cases h; cases hk
      · obtain ⟨d, a', _, hd', h⟩ := k4 hf
        rw [hsub _ n hp] at h; cases h; cases hk
        exact ⟨d, by rw [hb]; exact hd'⟩
  have hS : Source rs m cfg.a cfg.a.root [] := ⟨⟨_, order, g1, ho, ha, hlen⟩, g2, Or.inl ⟨rfl, rfl⟩⟩
  obtain ⟨r1, r2, r3, _, r5⟩ := C14_reproduces hS hall hE hT hx
  have hne : ∀ {p : List Bytes} {n : Node}, m p = some n → m.sub [] p = some n := by
    intro p n hp
    have hp0 : p ≠ [] := by rintro rfl; rw [W.root] at hp; cases hp
    rw [PathMap.sub_ne hp0]; exact hp
  refine ⟨r1, ⟨?_, ?_, ?_, ?_⟩, r3, r5⟩
  · intro e he hd
    have hig : ¬ e.Ignored := by
      unfold TarMember.Ignored; unfold TarMember.Directory at hd
      rcases hd with hd | ⟨hd | hd | hd, _⟩ <;> simp [hd]
    obtain ⟨info, _, _, k3, k4, k5⟩ := hat e he hig
    obtain ⟨n, h1, h2⟩ := k5 hd
    have hk : n.kind = .dir := by
      cases hk : n.kind with
      | dir => rfl
      | file a b => simp [Node.isDir, Kind.isDir, hk] at h2
      | link a => simp [Node.isDir, Kind.isDir, hk] at h2
    exact r2.dirs _ n (hne h1) hk
  · intro e he hl
    obtain ⟨info, _, _, k3, _⟩ := hat e he (by unfold TarMember.Ignored; simp [hl])
    obtain ⟨t, ht, h1⟩ := k3 hl
    obtain ⟨u, hu⟩ := r2.links _ _ t (hne h1) rfl
    exact ⟨t, u, ht, hu⟩
  · intro e he hf
    have hig : ¬ e.Ignored := by
      unfold TarMember.Ignored
      obtain ⟨hd, _⟩ := hf
      rcases hd with hd | hd | hd <;> simp [hd]
    obtain ⟨info, _, _, _, k4, _⟩ := hat e he hig
    obtain ⟨d, a, hd, hp, h1⟩ := k4 hf
    obtain ⟨j, hj, hbj⟩ := r2.files _ _ _ a (hne h1) rfl
    rw [hb, hp] at hbj
    exact ⟨d, j, hd, hj, by injection hbj with h; exact h.symm⟩
  · intro p x hp hx
    obtain ⟨n, hn, hd⟩ := r2.at hp hx
    obtain ⟨e, h1, h2, h3, h4⟩ := hkind p n (hsub p n hn)
    exact ⟨e, h1, h2, h3, fun h => hd (h4 h)⟩

/-- **C73, zip.** The same for `zip2arx`. -/
theorem C73_zip {zipFile outfile out : Bytes} {sys : ConvSys ZipMember} {c : Conv}
    (hw : ConvEv.written out c ∈ (zip2arx zipFile outfile sys).1) {ms : List ZipMember}
    (hin : sys.input (some zipFile) = .ok (ms.map .ok)) (hplace : ∀ e ∈ ms, PARENT ∉ memberNames e.name)
    {order : List Nat} (ho : IsLayout c.creator order) (hlen : c.creator.store.length < 2 ^ 32)
    {cfg : XCfg} (ha : cfg.a = writeArchive c.creator order) (hb : cfg.bytes = packBytes c.contents) (hall : cfg.files = [])
    {before after : FS} {res : XResult} (hT : EmptyTarget before cfg.base) (hx : CleanExtraction cfg cfg.a.root before after res) :
    res = .ok ∧ ZipTree ms after cfg.base ∧ (∀ q, ¬ cfg.base <+: q → ¬ q <+: cfg.base → after.nodes q = before.nodes q) ∧
    (∀ i, i < before.next → after.data i = before.data i) := by
  obtain ⟨i, hi⟩ := List.mem_iff_getElem?.mp hw
  obtain ⟨_, c', items, e1, e2, e3⟩ := (C61_zip zipFile outfile sys).1 i _ hi rfl
  cases e1
  rw [hin] at e2; cases e2
  have hvalid := (C42_accepts_iff (ms.map .ok)).mp (by rw [e3])
  obtain ⟨ms', em, hv, _⟩ := hvalid
  have : ms = ms' := by
    have h2 := congrArg (List.filterMap (fun x : Except Unit ZipMember => match x with | .ok e => some e | .error _ => none)) em
    simpa [List.filterMap_map, Function.comp_def] using h2
  subst this
  obtain ⟨rs, m, g1, g2, g3, g4⟩ := C42_zip_partial e3
  have W := SpecRun.wf g1 g2
  have hmem : ∀ e, Except.ok e ∈ ms.map (Except.ok (ε := Unit)) ↔ e ∈ ms := by
    intro e; simp
  have hat : ∀ e ∈ ms, ∃ t, memberNames e.name ≠ [] ∧
        (e.isDir = false → ∃ d a, e.content = .ok d ∧ packBytes c.contents a = .found d ∧
          m (memberNames e.name) = some ⟨⟨0, 0, e.unixMode.getD 0o644, t⟩, .file e.size a⟩) ∧
        (e.isDir = true → ∃ n, m (memberNames e.name) = some n ∧ n.isDir = true) := by
    intro e he
    obtain ⟨A, B, hAB⟩ := List.append_of_mem ((hmem e).mpr he)
    obtain ⟨t, k1, k2, k4, k5⟩ := g3 A e B hAB
    exact ⟨t, k2, k4, fun hd => by obtain ⟨n, h1, h2, _⟩ := k5 hd; exact ⟨n, h1, h2⟩⟩
  have hsub : ∀ p n, m.sub [] p = some n → m p = some n := fun p n hp => (PathMap.sub_some hp).2
  have hkind : ∀ p n, m p = some n → ∃ e ∈ ms, p <+: memberNames e.name ∧ (p ≠ memberNames e.name → n.isDir = true) := by
    intro p n hp
    obtain ⟨_, e, h1, h3⟩ := g4 p n hp
    have h1 := (hmem e).mp h1
    refine ⟨e, h1, h3, fun hne => ?_⟩
    have hp0 : p ≠ [] := by rintro rfl; rw [W.root] at hp; cases hp
    obtain ⟨t, _, k4, k5⟩ := hat e h1
    have : ∃ n', m (memberNames e.name) = some n' := by
      cases hd : e.isDir with
      | true => obtain ⟨n', h, _⟩ := k5 hd; exact ⟨n', h⟩
      | false => obtain ⟨d, a, _, _, h⟩ := k4 hd; exact ⟨_, h⟩
    obtain ⟨n', hn'⟩ := this
    obtain ⟨d, hd1, hd2⟩ := W.ancestors _ n' p hn' ⟨hp0, hne, h3⟩
    rw [hp] at hd1; cases hd1; exact hd2
  have hexact : ∀ p n, m p = some n → n.isDir = false → ∃ e ∈ ms, p = memberNames e.name ∧ e.isDir = false ∧
      ∃ d a s, n.kind = .file s a ∧ packBytes c.contents a = .found d := by
    intro p n hp hnd
    obtain ⟨e, h1, h3, h4⟩ := hkind p n hp
    have hpe : p = memberNames e.name := by
      refine Classical.byContradiction fun hne => ?_
      rw [h4 hne] at hnd; cases hnd
    obtain ⟨t, _, k4, k5⟩ := hat e h1
    rw [hpe] at hp
    cases hd : e.isDir with
    | true =>
      obtain ⟨n', h, h'⟩ := k5 hd
      rw [hp] at h; cases h
      rw [h'] at hnd; cases hnd
    | false =>
      obtain ⟨d, a, _, hd', h⟩ := k4 hd
      rw [hp] at h; cases h
      exact ⟨e, h1, hpe, hd, d, a, _, rfl, hd'⟩
  have hE : Extractable (m.sub []) cfg.bytes := by
    refine ⟨?_, ?_, ?_, ?_⟩
    · intro p n hp x hx
      obtain ⟨e, h1, h3, _⟩ := hkind p n (hsub p n hp)
      have hx' := h3.subset hx
      refine ⟨(memberNames_mem hx').2, fun e' => hplace e h1 (by rw [← e']; exact hx'), fun h0 => ?_⟩
      exact (hv e h1).noNul (mem_of_comps (memberNames_mem hx').1 h0)
    · intro p n hp x hx
      obtain ⟨e, h1, h3, _⟩ := hkind p n (hsub p n hp)
      exact (hv e h1).utf8 x (memberNames_mem (h3.subset hx)).1
    · intro p n t hp hk
      obtain ⟨e, _, _, _, d, a, s, hk', _⟩ := hexact p n (hsub p n hp) (by simp [Node.isDir, Kind.isDir, hk])
      rw [hk] at hk'; cases hk'
    · intro p n s a hp hk
      obtain ⟨e, _, _, _, d, a', s', hk', hd'⟩ := hexact p n (hsub p n hp) (by simp [Node.isDir, Kind.isDir, hk])
      rw [hk] at hk'; cases hk'
      exact ⟨d, by rw [hb]; exact hd'⟩
  have hS : Source rs m cfg.a cfg.a.root [] := ⟨⟨_, order, g1, ho, ha, hlen⟩, g2, Or.inl ⟨rfl, rfl⟩⟩
  obtain ⟨r1, r2, r3, _, r5⟩ := C14_reproduces hS hall hE hT hx
  have hne : ∀ {p : List Bytes} {n : Node}, m p = some n → m.sub [] p = some n := by
    intro p n hp
    have hp0 : p ≠ [] := by rintro rfl; rw [W.root] at hp; cases hp
    rw [PathMap.sub_ne hp0]; exact hp
  refine ⟨r1, ⟨?_, ?_, ?_⟩, r3, r5⟩
  · intro e he hd
    obtain ⟨t, _, _, k5⟩ := hat e he
    obtain ⟨n, h1, h2⟩ := k5 hd
    have hk : n.kind = .dir := by
      cases hk : n.kind with
      | dir => rfl
      | file a b => simp [Node.isDir, Kind.isDir, hk] at h2
      | link a => simp [Node.isDir, Kind.isDir, hk] at h2
    exact r2.dirs _ n (hne h1) hk
  · intro e he hf
    obtain ⟨t, _, k4, _⟩ := hat e he
    obtain ⟨d, a, hd, hp, h1⟩ := k4 hf
    obtain ⟨j, hj, hbj⟩ := r2.files _ _ _ a (hne h1) rfl
    rw [hb, hp] at hbj
    exact ⟨d, j, hd, hj, by injection hbj with h; exact h.symm⟩
  · intro p x hp hx
    obtain ⟨n, hn, hd⟩ := r2.at hp hx
    obtain ⟨e, h1, h3, h4⟩ := hkind p n (hsub p n hn)
    exact ⟨e, h1, h3, fun h => hd (h4 h)⟩

/-! ### Examples -/

/-- extraction of the result of a conversion, rows in the given order, to the missing directory `/t` -/
def convX (c : Conv) (order : List Nat) : XCfg :=
  ⟨writeArchive c.creator order, packBytes c.contents, [], true, [ascii "t"], .error, quiet⟩

def convRun (c : Conv) (order : List Nat) : World × XResult := (convX c order).extractRange 5 (convX c order).a.root fs0 finish

theorem convClean {c : Conv} {order : List Nat} (hl : (convX c order).a.entries.length < 5) (h2 : (convRun c order).1.finished) :
    CleanExtraction (convX c order) (convX c order).a.root fs0 (convRun c order).1.fs (convRun c order).2 := by
  refine ⟨fun _ => rfl, fun _ x hx => by simp [convX, quiet] at hx, 5, finish, _, hl, rfl, h2, rfl, ?_⟩
  intro x hx; simp only [finish, List.mem_cons, List.not_mem_nil, or_false] at hx; rcases hx with rfl | rfl | rfl <;> simp

def ConvEv.conv? : ConvEv → Option Conv
  | .written _ c => some c
  | _ => none

theorem ConvEv.written_of {evs : List ConvEv} (h : (evs.filterMap ConvEv.conv?).isEmpty = false) :
    ∃ N, ConvEv.written N ((evs.filterMap ConvEv.conv?).headD Conv.new) ∈ evs := by
  have hm : (evs.filterMap ConvEv.conv?).headD Conv.new ∈ evs.filterMap ConvEv.conv? := by
    cases hl : evs.filterMap ConvEv.conv? with
    | nil => rw [hl] at h; cases h
    | cons x l => simp
  obtain ⟨e, he, hl⟩ := List.mem_filterMap.mp hm
  cases e with
  | written N a => exact ⟨N, by rw [← Option.some.inj hl]; exact he⟩
  | _ => cases hl

/-- what `tar2arx a.tar` has collected when it writes the archive -/
def tripTarConv : Conv := ((tar2arx (some (ascii "a.tar")) none exConvSys).1.filterMap ConvEv.conv?).headD Conv.new

def tripZip : List ZipMember :=
  [zipMem (ascii "d/") true (some 0o755) [], zipMem (ascii "d/f") false none (ascii "hello"), zipMem (ascii "e/./g") false none []]
def tripZipSys : ConvSys ZipMember := ⟨fun _ => .ok (tripZip.map .ok), true, true⟩
def tripZipConv : Conv := ((zip2arx (ascii "a.zip") (ascii "a.arx") tripZipSys).1.filterMap ConvEv.conv?).headD Conv.new

/-- the hypotheses of `C73_tar` are met, … -/
theorem exTripTar : (convRun tripTarConv [0, 2, 1]).2 = .ok ∧ TarTree exTar (convRun tripTarConv [0, 2, 1]).1.fs [ascii "t"] := by
  obtain ⟨N, hN⟩ := ConvEv.written_of (evs := (tar2arx (some (ascii "a.tar")) none exConvSys).1) (by decide +kernel)
  have h := C73_tar (tarFile := some (ascii "a.tar")) (outfile := none) (sys := exConvSys) (out := N) (c := tripTarConv)
    (order := [0, 2, 1]) (ms := exTar) (cfg := convX tripTarConv [0, 2, 1])
    hN rfl ?_ ⟨by decide +kernel, by decide +kernel⟩ (by decide +kernel) rfl rfl rfl exT
    (convClean (by decide +kernel) (by decide +kernel))
  · exact ⟨h.1, h.2.1⟩
  · intro e he _
    simp only [exTar, List.mem_cons, List.not_mem_nil, or_false] at he
    rcases he with rfl | rfl | rfl | rfl
    · exact ⟨by decide +kernel, fun h => by cases h⟩
    · exact ⟨by decide +kernel, fun h => by cases h⟩
    · exact ⟨by decide +kernel, fun h => by cases h⟩
    · exact ⟨by decide +kernel, fun _ t ht => by cases ht; exact ⟨by decide +kernel, by decide +kernel⟩⟩

/-- … and those of `C73_zip` … -/
theorem exTripZip : (convRun tripZipConv [0, 2, 1, 3]).2 = .ok ∧ ZipTree tripZip (convRun tripZipConv [0, 2, 1, 3]).1.fs [ascii "t"] := by
  obtain ⟨N, hN⟩ := ConvEv.written_of (evs := (zip2arx (ascii "a.zip") (ascii "a.arx") tripZipSys).1) (by decide +kernel)
  have h := C73_zip (zipFile := ascii "a.zip") (outfile := ascii "a.arx") (sys := tripZipSys) (out := N)
    (c := tripZipConv) (order := [0, 2, 1, 3]) (ms := tripZip) (cfg := convX tripZipConv [0, 2, 1, 3])
    hN rfl (by decide +kernel) ⟨by decide +kernel, by decide +kernel⟩ (by decide +kernel) rfl rfl rfl exT
    (convClean (by decide +kernel) (by decide +kernel))
  exact ⟨h.1, h.2.1⟩

/-- … and the trees are what one expects. -/
example : (convRun tripTarConv [0, 2, 1]).1.fs.nodes [ascii "t", ascii "l"] = some (.link (ascii "d/f") 5000000000) ∧
    (convRun tripTarConv [0, 2, 1]).1.fs.nodes [ascii "t", ascii "pax_global_header"] = none ∧
    (convRun tripZipConv [0, 2, 1, 3]).1.fs.nodes [ascii "t", ascii "e", ascii "g"] = some (.file 1) := by
  refine ⟨by decide +kernel, by decide +kernel, by decide +kernel⟩

end Arx
