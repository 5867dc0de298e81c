import Verif.Spec.Views
import Verif.Props.Client
import Verif.Props.Python2
import Verif.Props.Cmd
/-!
# C76: every way of reading an archive shows the same
-/
namespace Arx

theorem joinPath_relative {p : List Bytes} (hv : ∀ c ∈ p, ValidName c) : (joinPath p).head? ≠ some SEP := by
  intro h
  cases p with
  | nil => simp [joinPath] at h
  | cons c l =>
    have hc := hv c (by simp)
    have : ∃ b t, c = b :: t ∧ b ≠ SEP := by
      cases c with
      | nil => exact absurd rfl hc.1
      | cons b t => exact ⟨b, t, rfl, fun e => hc.2 (by simp [e])⟩
    obtain ⟨b, t, rfl, hb⟩ := this
    cases l with
    | nil => simp [joinPath] at h; exact hb h
    | cons d l => simp [joinPath] at h; exact hb h

/-- **C76.** Whatever program copies the mount of an archive gets the same as every other reader: `arx list` prints
exactly the paths copied, in that order, `--stable-output 1` also what was seen of them; `get_entry` of the Python
module gives for each of them the same attributes, content and link target, and finds nothing else; `arx dump` to
an output that accepts everything writes the content that was copied for files, and refuses everything else. -/
theorem C76_readers {rs : List AddReq} {m : PathMap} {cfg : FsCfg} (h : Mounted rs m cfg [])
    (hfit : AttrsFit m) (hsz : Listable cfg) (hu : ∀ r ∈ rs, validUtf8 r.path = true)
    (hnames : ∀ p n, m p = some n → ∀ c ∈ p, c ≠ CUR ∧ c ≠ PARENT ∧ validUtf8 c = true)
    (hbytes : ∀ p n size ca, m p = some n → n.kind = .file size ca → ∃ b, cfg.bytes ca = .found b ∧ b.length = size) :
    ∃ N, ∀ (cl : Client) (before : List FReq), cl.Fair (m.sub []) before → ∀ f ≥ N,
      ∃ l c, cl.copy cfg f ((FsState.init.run cfg before).2, 0) [] 1 = (some l, c) ∧
        (∀ depth, cfg.a.entries.length < depth →
          listCmd cfg.a none depth = (l.flatMap (fun x => joinPath x.path ++ [10]), true) ∧
          listCmd cfg.a (some 1) depth = (l.flatMap Copied.line, true)) ∧
        (∀ x ∈ l, ∃ e, pyGetEntry cfg.a (joinPath x.path) = .ok e ∧ PySame cfg.bytes x e) ∧
        (∀ p : List Bytes, p ≠ [] → (∀ c ∈ p, ValidName c ∧ c ≠ CUR ∧ validUtf8 c = true) → (∀ x ∈ l, x.path ≠ p) →
          pyGetEntry cfg.a (joinPath p) = .error .value) ∧
        ∀ (o : OutEnv) (ns : List Nat) (d : DumpSys), o.Healthy 1024 →
          (∀ x ∈ l, dump o ns cfg.a cfg.bytes (joinPath x.path) none d =
            match x.got with
            | .file b => ({ d with stdout := d.stdout ++ b }, .ok)
            | _ => (d, .err)) ∧
          ∀ p : List Bytes, p ≠ [] → (∀ c ∈ p, ValidName c) → (∀ x ∈ l, x.path ≠ p) →
            dump o ns cfg.a cfg.bytes (joinPath p) none d = (d, .err) := by
  have hsub : ∀ p n, m.sub [] p = some n → m p = some n := fun p n hp => by simpa using (PathMap.sub_some hp).2
  obtain ⟨P, G, _, _⟩ := h.good
  obtain ⟨N, hN⟩ := C67_copy h hfit hsz (fun p n hp c hc => ⟨(hnames p n (hsub p n hp) c hc).1, (hnames p n (hsub p n hp) c hc).2.1⟩)
    (fun p n size ca hp hk => hbytes p n size ca (hsub p n hp) hk)
  refine ⟨N, fun cl before F f hf => ?_⟩
  obtain ⟨l, c, h1, h2, h3⟩ := hN cl before F f hf
  have hval : ∀ p n, m p = some n → ∀ c ∈ p, ValidName c := fun p n hp => G.wf.names p n hp
  have hl2 : Listing m [] (l.map (fun x => x.path)) := by simpa using h2
  have hin : ∀ x ∈ l, ∃ n, m x.path = some n ∧ x.path ≠ [] := by
    intro x hx
    obtain ⟨hn, _, hne⟩ := (hl2.2 x.path).mp (List.mem_map.mpr ⟨x, hx, rfl⟩)
    obtain ⟨n, hn⟩ := hn
    exact ⟨n, hn, fun e => hne e.symm⟩
  have hout : ∀ p : List Bytes, p ≠ [] → (∀ x ∈ l, x.path ≠ p) → m p = none := by
    intro p hp hx
    cases hm : m p with
    | none => rfl
    | some n =>
      obtain ⟨x, hxl, e⟩ := List.mem_map.mp ((hl2.2 p).mpr ⟨⟨n, hm⟩, List.nil_prefix, fun e => hp e.symm⟩)
      exact absurd e (hx x hxl)
  refine ⟨l, c, h1, ?_, ?_, ?_, ?_⟩
  · intro depth hd
    constructor
    · obtain ⟨V, hV, e⟩ := C11_list h.written h.spec depth hd
      rw [e, hV.unique hl2]
      simp [List.flatMap_map]
    · obtain ⟨⟨V, hV, e⟩, _⟩ := C12_stable_list_partial h.written h.spec hu
        (fun p n hp hc => (hnames p n hp CUR hc).1 rfl) depth hd
      rw [e, hV.unique hl2, List.flatMap_map]
      congr 1
      rw [List.flatMap_def, List.flatMap_def]
      refine congrArg List.flatten (List.map_congr_left ?_)
      intro x hx
      obtain ⟨⟨n, ns, hn, _, _, _, ha⟩, n', hn', hk⟩ := h3 x hx
      simp only [List.nil_append] at hn hn'
      rw [hn] at hn'; cases hn'
      have hmt : x.attr.mtime = n.info.mtime := by rw [ha]; rfl
      simp only [stableLine, hn]
      unfold Copied.line
      cases hkk : n.kind with
      | dir => rw [hkk] at hk; simp only at hk ⊢; rw [hk, hmt]
      | file s ca =>
        rw [hkk] at hk
        obtain ⟨b, hb, hg⟩ := hk
        obtain ⟨b', hb', hlen⟩ := hbytes _ n s ca hn hkk
        rw [hb] at hb'; cases hb'
        simp only
        rw [hg, hmt]
        simp only [hlen]
      | link t => rw [hkk] at hk; simp only at hk ⊢; rw [hk, hmt]
  · intro x hx
    obtain ⟨n, hn, hne⟩ := hin x hx
    have hv := hval _ n hn
    have hcomps := comps_joinPath hv
    have hpy : pyPathOf (joinPath x.path) = x.path := by
      simp only [pyPathOf, hcomps]
      exact List.filter_eq_self.mpr (fun c hc => by simpa using (hnames _ n hn c hc).1)
    obtain ⟨_, _, k⟩ := C53_get_entry_partial h.written h.spec (joinPath x.path)
    have k := k (joinPath_relative hv) (by rw [hcomps]; exact fun c hc => (hnames _ n hn c hc).2.2) (by rw [hpy]; exact hne)
    rw [hpy, hn] at k
    obtain ⟨e, he, hs, hi, hname, _⟩ := k
    refine ⟨e, he, ?_⟩
    obtain ⟨⟨n1, ns, hn1, _, _, _, ha⟩, n', hn', hk⟩ := h3 x hx
    simp only [List.nil_append] at hn1 hn'
    rw [hn] at hn1 hn'; cases hn1; cases hn'
    obtain ⟨n2, hn2, _, g1, g2, g3⟩ := C53_entry h.written h.spec cfg.bytes hs
    rw [hn] at hn2; cases hn2
    have hcm : ∀ e : FullEntry, pyCommon e = e.common := by intro e; cases e <;> rfl
    obtain ⟨i1, i2, i3, _⟩ := hi
    refine ⟨?_, by rw [ha, hcm]; exact i2, by rw [ha, hcm]; exact i3, by rw [ha, hcm]; exact i1, ?_⟩
    · have : (pyCommon e).path = x.path.getLastD [] := by
        simp only [pyPath] at hname
        split at hname
        · exact Except.ok.inj hname
        · cases hname
      rw [this]
      cases hl : x.path.getLast? with
      | none => exact absurd (List.getLast?_eq_none_iff.mp hl) hne
      | some z => rw [List.getLastD_eq_getLast?, hl]; rfl
    · cases hkk : n.kind with
      | dir => rw [hkk] at hk; simp only at hk; rw [hk]; exact ⟨(g3 hkk).2, (g3 hkk).1⟩
      | file s ca =>
        rw [hkk] at hk
        obtain ⟨b, hb, hg⟩ := hk
        rw [hg]
        exact ⟨(g1 s ca hkk).2.1 b hb, (g1 s ca hkk).1⟩
      | link t => rw [hkk] at hk; simp only at hk; rw [hk]; exact ⟨(g2 t hkk).2, (g2 t hkk).1⟩
  · intro p hp hv hx
    have hcomps := comps_joinPath (fun c hc => (hv c hc).1)
    have hpy : pyPathOf (joinPath p) = p := by
      simp only [pyPathOf, hcomps]
      exact List.filter_eq_self.mpr (fun c hc => by simpa using (hv c hc).2.1)
    obtain ⟨_, _, k⟩ := C53_get_entry_partial h.written h.spec (joinPath p)
    have k := k (joinPath_relative fun c hc => (hv c hc).1) (by rw [hcomps]; exact fun c hc => (hv c hc).2.2) (by rw [hpy]; exact hp)
    rw [hpy, hout p hp hx] at k
    exact k
  · intro o ns d ho
    constructor
    · intro x hx
      obtain ⟨n, hn, hne⟩ := hin x hx
      have hcomps := comps_joinPath (hval _ n hn)
      have k := C45_dump_partial h.written h.spec cfg.bytes (joinPath x.path) (by rw [hcomps]; exact hne) none (Or.inl rfl) o ns d
      rw [hcomps, hn] at k
      obtain ⟨_, n', hn', hk⟩ := h3 x hx
      simp only [List.nil_append] at hn'
      rw [hn] at hn'; cases hn'
      cases hkk : n.kind with
      | dir => rw [hkk] at hk; simp only [hkk] at k; simp only at hk; rw [hk, k]
      | link t => rw [hkk] at hk; simp only [hkk] at k; simp only at hk; rw [hk, k]
      | file s ca =>
        rw [hkk] at hk
        simp only [hkk] at k
        obtain ⟨b, hb, hg⟩ := hk
        obtain ⟨got, res, e, _, hh, _⟩ := k.1 b hb
        obtain ⟨rfl, rfl⟩ := hh ho
        rw [hg, e]
    · intro p hp hv hx
      have hcomps := comps_joinPath hv
      have k := C45_dump_partial h.written h.spec cfg.bytes (joinPath p) (by rw [hcomps]; exact hp) none (Or.inl rfl) o ns d
      rw [hcomps, hout p hp hx] at k
      exact k

/-! ## The hypotheses are met -/

example : ∃ N, ∀ f ≥ N, ∃ l c, exClient.copy exFs f ((FsState.init.run exFs [.open 5]).2, 0) [] 1 = (some l, c) ∧
    listCmd exArchive none 5 = (l.flatMap (fun x => joinPath x.path ++ [10]), true) := by
  obtain ⟨N, hN⟩ := C76_readers exMounted exFit (by unfold Listable; decide) (by decide)
    (fun p n hp c hc => by
      have hp' : exMap.sub [] p = some n := by
        rw [PathMap.sub_ne (by rintro rfl; cases hc)]; exact hp
      exact ⟨(exNames p n hp' c hc).1, (exNames p n hp' c hc).2.1, exExtractable.utf8 p n hp' c hc⟩)
    (fun p n size ca hp hk => exSizes p n size ca (by
      rw [PathMap.sub_ne (by rintro rfl; have := exMap_paths hp; revert this; decide)]; exact hp) hk)
  refine ⟨N, fun f hf => ?_⟩
  obtain ⟨l, c, h1, h2, _⟩ := hN exClient [.open 5] (exFair (exMap.sub []) fun p n c hp => (exNames _ n hp c (by simp)).2.2) f hf
  exact ⟨l, c, h1, (h2 5 (by decide)).1⟩

end Arx
