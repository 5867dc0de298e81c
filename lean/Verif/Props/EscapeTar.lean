import Verif.Props.Escape
/-!
# C89: every tar archive with a file whose path leads out
-/
namespace Arx

/-- **C89 is false of every tar archive with a file whose path leads out.** Let `tar2arx` convert a tar archive with a file
member whose path (without its `.`) leads from `base` to a place outside of it, where there is nothing, and extract the result as
a whole to the existing directory `base`, with success and in a mode that replaces nothing, such that no symbolic link is on the
way of that path. Then there is something at that place: not only `base` has changed. -/
theorem C89_tar_escapes {tarFile outfile : Option Bytes} {sys : ConvSys TarMember} {out : Bytes} {conv : Conv}
    (hw : ConvEv.written out conv ∈ (tar2arx tarFile outfile sys).1) {ms : List TarMember}
    (hin : sys.input (TarInput tarFile) = .ok (ms.map .ok)) {e : TarMember} (he : e ∈ ms) (hig : ¬ e.Ignored) (hfile : e.FileLike)
    {d : List Bytes} {f : Bytes} (hnames : memberNames e.path = d ++ [f]) (hf : f ≠ PARENT)
    {order : List Nat} (ho : IsLayout conv.creator order) (hlen : conv.creator.store.length < 2 ^ 32)
    {cfg : XCfg} (ha : cfg.a = writeArchive conv.creator order) (hbytes : cfg.bytes = packBytes conv.contents) (hfiles : cfg.files = [])
    (hm : cfg.mode = .skip ∨ cfg.mode = .warn ∨ cfg.mode = .error) (hplain : ∀ c ∈ cfg.base, PlainName c) {before after : FS}
    (hdirs : ∀ q, q <+: cfg.base → q ≠ [] → ∃ t, before.nodes q = some (.dir t))
    (hlinks : ∀ q, q <+: d → q ≠ [] → ∀ t x, after.nodes (leadsFrom cfg.base q) ≠ some (.link t x))
    (hout : ¬ cfg.base <+: leadsFrom cfg.base (d ++ [f])) (hfree : before.nodes (leadsFrom cfg.base (d ++ [f])) = none)
    (hx : Extraction cfg cfg.a.root before after .ok) :
    after.nodes (leadsFrom cfg.base (d ++ [f])) ≠ none ∧ ¬ OnlyBelow cfg.base before after := by
  obtain ⟨i, hi⟩ := List.mem_iff_getElem?.mp hw
  obtain ⟨_, out', c', items, _, e1, e2, e3⟩ := (C61_tar tarFile outfile sys).1 i _ hi rfl
  cases e1
  rw [hin] at e2; cases e2
  obtain ⟨rs, m, g1, g2, g3, g4⟩ := C41_tar_partial e3
  obtain ⟨A, B, hAB⟩ := List.append_of_mem (List.mem_map_of_mem (f := Except.ok (ε := Unit)) he)
  obtain ⟨info, _, _, _, hk, _⟩ := g3 A e B hAB hig
  obtain ⟨b, a, _, hb, hp⟩ := hk hfile
  have sub : ∀ p n, m.sub [] p = some n → m p = some n := fun p n hp => by simpa using (PathMap.sub_some hp).2
  have hS : Source rs m cfg.a cfg.a.root [] := ⟨ha ▸ ⟨_, order, g1, ho, rfl, hlen⟩, g2, .inl ⟨rfl, rfl⟩⟩
  have hcur : ∀ p n, m.sub [] p = some n → CUR ∉ p := by
    intro p n hp hc
    obtain ⟨e, _, _, k2⟩ := g4 p n (sub p n hp)
    exact (memberNames_mem (k2.subset hc)).2 rfl
  have hp' : m.sub [] (d ++ [f]) = some ⟨info, .file b.length a⟩ := by
    rw [PathMap.sub_ne (by simp), List.nil_append, ← hnames]; exact hp
  exact C17_escapes_any hS hcur hfiles hm hplain hdirs hf hp' rfl (by rw [hbytes]; exact hb) hlinks hout hfree hx

def outTarX : XCfg := ⟨writeArchive outTarConv.creator [0, 1], packBytes outTarConv.contents, [], true, [ascii "u", ascii "t"], .error, quiet⟩

theorem outTarX_ok : ∃ w, outTarX.extractRange 5 outTarX.a.root escapeFs finish = (w, .ok) ∧ w.finished ∧
    (∃ y, w.fs.nodes [ascii "u"] = some (.dir y)) := by
  have h : (outTarX.extractRange 5 outTarX.a.root escapeFs finish).2 = .ok ∧ (outTarX.extractRange 5 outTarX.a.root escapeFs finish).1.finished ∧
      (((outTarX.extractRange 5 outTarX.a.root escapeFs finish).1.fs.nodes [ascii "u"]).map dirNode = some true) := by decide +kernel
  revert h
  generalize outTarX.extractRange 5 outTarX.a.root escapeFs finish = r
  obtain ⟨w, res⟩ := r
  rintro ⟨h1, h2, h3⟩
  simp only at h1
  subst h1
  refine ⟨w, rfl, h2, ?_⟩
  simp only at h3
  cases hx : w.fs.nodes [ascii "u"] with
  | none => rw [hx] at h3; cases h3
  | some x => cases x with
    | dir y => exact ⟨y, rfl⟩
    | file _ => rw [hx] at h3; cases h3
    | link _ _ => rw [hx] at h3; cases h3

/-- the tar archive with the member `../x` -/
example : ∃ after, Extraction outTarX outTarX.a.root escapeFs after .ok ∧ after.nodes [ascii "u", ascii "x"] ≠ none ∧
    ¬ OnlyBelow [ascii "u", ascii "t"] escapeFs after := by
  obtain ⟨⟨N, hw⟩, ho, _⟩ := C89_tar_counterexample
  obtain ⟨w, hrun, hfin, hu⟩ := outTarX_ok
  have hx : Extraction outTarX outTarX.a.root escapeFs w.fs .ok := ⟨5, finish, w, by decide +kernel, hrun, hfin, rfl⟩
  refine ⟨w.fs, hx, ?_⟩
  refine C89_tar_escapes (cfg := outTarX) (d := [PARENT]) (f := ascii "x") hw (ms := [tarMem (ascii "../x") .regular none (ascii "hello")]) rfl
    (List.mem_singleton.mpr rfl) (by unfold TarMember.Ignored; decide) (by unfold TarMember.FileLike; decide) (by decide) (by decide) ho (by decide +kernel) rfl rfl rfl (.inr (.inr rfl)) (by
    intro c hc
    unfold PlainName
    revert c
    decide) ?_ ?_ (by decide) (by decide) hx
  · intro q hq hne
    have : q = [ascii "u"] ∨ q = [ascii "u", ascii "t"] := by
      obtain ⟨r, hr⟩ := hq
      match q, hr with
      | [], _ => exact absurd rfl hne
      | [a], hr => left; cases hr; rfl
      | [a, b], hr => right; cases hr; rfl
      | a :: b :: c :: l, hr => cases hr
    rcases this with rfl | rfl
    · exact ⟨1, by decide⟩
    · exact ⟨2, by decide⟩
  · intro q hq hne t x hlink
    have hin : q = [PARENT] := by
      obtain ⟨r, hr⟩ := hq
      match q, hr with
      | [], _ => exact absurd rfl hne
      | [a], hr => cases hr; rfl
      | a :: b :: l, hr => cases hr
    subst hin
    obtain ⟨y, hy⟩ := hu
    have e : leadsFrom outTarX.base [PARENT] = [ascii "u"] := by decide
    rw [e, hy] at hlink
    cases hlink

end Arx
