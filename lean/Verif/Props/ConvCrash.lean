import Verif.Props.ConvertMain
import Verif.Props.ConvMount
import Verif.Props.FileName
/-!
# When a converter crashes (C88)
-/
namespace Arx

/-- No entry can have this path: it is empty, or ends with `..`. -/
def Unusable (p : List Bytes) : Prop := p = [] ∨ p.getLast? = some PARENT

/-- What crashes `tar2arx` at the member `e`, after the members `pre`: its metadata can be read, and
* its path is absolute or not valid UTF-8, or
* it is a symbolic link without a target, or
* it is to be added under an unusable path (its data, if any, can be read, and no file or link is in the way). -/
def TarMember.Crashes (pre : List TarMember) (e : TarMember) : Prop :=
  (∃ i, e.HasMeta i) ∧
  (e.path.head? = some SEP ∨ (∃ c ∈ comps e.path, validUtf8 c = false) ∨ (e.type = .symlink ∧ e.linkName = none) ∨
    (¬ e.Ignored ∧ (e.FileLike → ∃ b, e.data = .ok b) ∧ Unusable (memberNames e.path) ∧
      ∀ e' ∈ pre, ¬ e'.Ignored → ¬ e'.Directory → ¬ memberNames e'.path <+: memberNames e.path))

/-- What crashes `zip2arx` at the member `e`, after the members `pre`:
* its time is out of range, or
* its name (without NUL, relative, never leading above the root) is not valid UTF-8, or
* the name is unusable (its data, if any, can be read, and no file is in the way). -/
def ZipMember.Crashes (pre : List ZipMember) (e : ZipMember) : Prop :=
  (¬ ∃ t, e.HasTime t) ∨
  ((0 : UInt8) ∉ e.name ∧ e.name.head? ≠ some SEP ∧ StaysInside (memberNames e.name) ∧
    ((∃ c ∈ comps e.name, validUtf8 c = false) ∨
     ((e.isDir = false → ∃ b, e.content = .ok b) ∧ Unusable (memberNames e.name) ∧
      ∀ e' ∈ pre, e'.isDir = false → ¬ memberNames e'.name <+: memberNames e.name)))

/-- A URL without a file name at its end. -/
def NamelessUrl (f : Bytes) : Prop :=
  (ascii "http:/" <+: f ∨ ascii "https:/" <+: f) ∧ ¬ ∃ pre name, NamesFile f pre name

/-! ## Adding after requests that were all accepted -/

theorem Accepts.panics_iff {rs : List AddReq} {st : Creator} (h : Accepts Creator.new rs st)
    (hk : ∀ r ∈ rs, ∃ k, r.kind = .ok (some k)) {r : AddReq} (hr : ∃ k, r.kind = .ok (some k)) :
    (st.addEntry r).2 = .panic ↔ Unusable (entryPath r.path) ∧
      ∀ r' ∈ rs, r'.kind ≠ .ok (some .dir) → ¬ entryPath r'.path <+: entryPath r.path := by
  obtain ⟨m, _, hs, _⟩ := run_rel h.run
  rw [C49_panics_iff h.run hs r]
  obtain ⟨hu, _⟩ := Accepts.usable h hk
  have entry : ∀ r' ∈ rs, ∀ k', r'.kind = .ok (some k') → k' ≠ .dir → m (entryPath r'.path) = some ⟨r'.info, k'⟩ := by
    intro r' hr' k' hk' hd
    obtain ⟨A, B, rfl⟩ := List.append_of_mem hr'
    exact (Accepts.entry h hs hk').2.1 hd
  constructor
  · rintro ⟨_, h2, h3⟩
    refine ⟨h3, fun r' hr' hd hp => ?_⟩
    obtain ⟨k', hk'⟩ := hk r' hr'
    have hkd : k' ≠ .dir := fun e => hd (by rw [hk', e])
    obtain ⟨u1, u2⟩ := hu r' hr'
    have hne : entryPath r'.path ≠ entryPath r.path := by
      intro e; rw [e] at u1 u2
      rcases h3 with h3 | h3
      · exact u1 h3
      · exact u2 h3
    exact h2 ⟨_, _, ⟨u1, hne, hp⟩, entry r' hr' k' hk' hkd, by cases k' <;> first | rfl | exact absurd rfl hkd⟩
  · rintro ⟨h3, h4⟩
    refine ⟨hr, ?_, h3⟩
    rintro ⟨q, n, ⟨_, _, hp⟩, hn, hd⟩
    obtain ⟨r', hr', hcase | hcase⟩ := SpecRun.sources h.run hs hn
    · obtain ⟨rfl, g2, _⟩ := hcase
      refine h4 r' hr' ?_ hp
      rw [g2]
      intro e
      injection e with e; injection e with e
      simp only [Node.isDir, e] at hd
      cases hd
    · rw [hcase.2] at hd; cases hd

/-! ## tar -/

theorem badUtf8 {p : Bytes} : ¬ (∀ c ∈ comps p, validUtf8 c = true) ↔ ∃ c ∈ comps p, validUtf8 c = false := by
  constructor
  · intro h
    refine Classical.byContradiction fun hn => h fun c hc => ?_
    cases hv : validUtf8 c with
    | true => rfl
    | false => exact absurd ⟨c, hc, hv⟩ hn
  · rintro ⟨c, hc, hv⟩ h
    rw [h c hc] at hv; cases hv

theorem TarMember.toEntry_panic (e : TarMember) (cs : List Bytes) :
    e.toEntry cs = .error .panic ↔ (∃ i, e.HasMeta i) ∧
      (e.path.head? = some SEP ∨ (∃ c ∈ comps e.path, validUtf8 c = false) ∨ (e.type = .symlink ∧ e.linkName = none)) := by
  unfold TarMember.toEntry
  have nometa : (∀ i, ¬ e.HasMeta i) → ∀ P : Prop, ((.error .source : Except COut (Option AddReq × List Bytes)) = .error .panic ↔ (∃ i, e.HasMeta i) ∧ P) := by
    intro h P
    exact ⟨fun e => (by cases e), fun ⟨⟨i, hi⟩, _⟩ => absurd hi (h i)⟩
  cases h1 : e.uid with
  | error u => exact nometa (fun i hi => by have := hi.1; rw [h1] at this; cases this) _
  | ok uid =>
  cases h2 : e.gid with
  | error u => exact nometa (fun i hi => by have := hi.2.1; rw [h2] at this; cases this) _
  | ok gid =>
  cases h3 : e.mtime with
  | error u => exact nometa (fun i hi => by have := hi.2.2.2; rw [h3] at this; cases this) _
  | ok mtime =>
  cases h4 : e.mode with
  | error u => exact nometa (fun i hi => by have := hi.2.2.1; rw [h4] at this; cases this) _
  | ok mode =>
    have hm : ∃ i, e.HasMeta i := ⟨⟨uid, gid, mode, mtime⟩, h1, h2, h4, h3⟩
    simp only [fromPathBuf_eq]
    by_cases ha : e.path.head? = some SEP
    · rw [if_pos ha]; exact ⟨fun _ => ⟨hm, Or.inl ha⟩, fun _ => rfl⟩
    · rw [if_neg ha]
      by_cases hv : ∀ c ∈ comps e.path, validUtf8 c = true
      · rw [if_pos hv]
        simp only
        have hb : ¬ ∃ c ∈ comps e.path, validUtf8 c = false := fun h => badUtf8.mpr h hv
        have notsym : e.type ≠ .symlink → ∀ x : Except COut (Option AddReq × List Bytes), x ≠ .error .panic →
            (x = .error .panic ↔ (∃ i, e.HasMeta i) ∧
              (e.path.head? = some SEP ∨ (∃ c ∈ comps e.path, validUtf8 c = false) ∨ (e.type = .symlink ∧ e.linkName = none))) := by
          intro ht x hx
          refine ⟨fun e => absurd e hx, ?_⟩
          rintro ⟨_, h | h | ⟨h, _⟩⟩
          · exact absurd h ha
          · exact absurd h hb
          · exact absurd h ht
        by_cases hs : e.type = .symlink
        · rw [hs]
          simp only
          cases hl : e.linkName with
          | none => exact ⟨fun _ => ⟨hm, Or.inr (Or.inr ⟨trivial, rfl⟩)⟩, fun _ => rfl⟩
          | some t =>
            refine ⟨fun e => (by cases e), ?_⟩
            rintro ⟨_, h | h | ⟨_, h⟩⟩
            · exact absurd h ha
            · exact absurd h hb
            · cases h
        · refine notsym hs _ ?_
          intro hx
          split at hx
          · cases hx
          · rename_i ht; exact hs ht
          · cases hx
          · cases hx
          · cases hx
          · cases hx
          all_goals
            split at hx
            · cases hx
            · split at hx <;> cases hx
      · rw [if_neg hv]
        exact ⟨fun _ => ⟨hm, Or.inr (Or.inl (badUtf8.mp hv))⟩, fun _ => rfl⟩

theorem tarRun_panic : ∀ (items : List (Except Unit TarMember)) (c : Conv), (c.tarRun items).2 = .panic ↔
    ∃ (pre : List TarMember) (e : TarMember) (rest : List (Except Unit TarMember)) (c1 : Conv),
      items = pre.map .ok ++ .ok e :: rest ∧ c.tarRun (pre.map .ok) = (c1, .ok) ∧
      (e.toEntry c1.contents = .error .panic ∨
        ∃ r cs, e.toEntry c1.contents = .ok (some r, cs) ∧ (c1.creator.addEntry r).2 = .panic) := by
  intro items
  induction items with
  | nil =>
    intro c
    refine ⟨fun h => (by cases h), ?_⟩
    rintro ⟨pre, e, rest, c1, h, _⟩
    exact absurd (congrArg List.length h) (by simp)
  | cons x items ih =>
    intro c
    cases x with
    | error u =>
      refine ⟨fun h => (by cases h), ?_⟩
      rintro ⟨pre, e, rest, c1, h, _⟩
      cases pre with
      | nil => cases h
      | cons p pre => cases h
    | ok e =>
      -- the member is the one that crashes, or comes before it
      have step : (∃ (pre : List TarMember) (e' : TarMember) (rest : List (Except Unit TarMember)) (c1 : Conv),
            (Except.ok e :: items) = pre.map .ok ++ .ok e' :: rest ∧ c.tarRun (pre.map .ok) = (c1, .ok) ∧
            (e'.toEntry c1.contents = .error .panic ∨
              ∃ r cs, e'.toEntry c1.contents = .ok (some r, cs) ∧ (c1.creator.addEntry r).2 = .panic)) ↔
          (e.toEntry c.contents = .error .panic ∨
              ∃ r cs, e.toEntry c.contents = .ok (some r, cs) ∧ (c.creator.addEntry r).2 = .panic) ∨
          (∃ (pre : List TarMember) (e' : TarMember) (rest : List (Except Unit TarMember)) (c1 : Conv),
            items = pre.map .ok ++ .ok e' :: rest ∧ c.tarRun (.ok e :: pre.map .ok) = (c1, .ok) ∧
            (e'.toEntry c1.contents = .error .panic ∨
              ∃ r cs, e'.toEntry c1.contents = .ok (some r, cs) ∧ (c1.creator.addEntry r).2 = .panic)) := by
        constructor
        · rintro ⟨pre, e', rest, c1, h1, h2, h3⟩
          cases pre with
          | nil => cases h1; cases h2; exact Or.inl h3
          | cons p pre =>
            rw [List.map_cons, List.cons_append] at h1
            injection h1 with h1 h1'
            cases h1
            exact Or.inr ⟨pre, e', rest, c1, h1', h2, h3⟩
        · rintro (h | ⟨pre, e', rest, c1, h1, h2, h3⟩)
          · exact ⟨[], e, items, c, rfl, rfl, h⟩
          · exact ⟨e :: pre, e', rest, c1, by rw [h1]; rfl, h2, h3⟩
      rw [step]
      simp only [Conv.tarRun]
      cases hE : e.toEntry c.contents with
      | error o =>
        simp only
        constructor
        · intro h; exact Or.inl (Or.inl (by rw [h]))
        · rintro ((h | ⟨r, cs, h, _⟩) | ⟨pre, e', rest, c1, _, h, _⟩)
          · injection h
          · cases h
          · injection h with _ h
            subst h
            unfold TarMember.toEntry at hE
            repeat' first | (cases hE; done) | split at hE
      | ok y =>
        obtain ⟨o, cs⟩ := y
        cases o with
        | none =>
          simp only
          rw [ih]
          refine ⟨Or.inr, ?_⟩
          rintro ((h | ⟨r, cs, h, _⟩) | h)
          · cases h
          · cases h
          · exact h
        | some r =>
          simp only [Conv.add]
          cases hA : c.creator.addEntry r with
          | mk st a =>
            cases a with
            | ok =>
              simp only
              rw [ih]
              refine ⟨Or.inr, ?_⟩
              rintro ((h | ⟨r', cs', h, h'⟩) | h)
              · cases h
              · cases h; rw [hA] at h'; cases h'
              · exact h
            | err x =>
              simp only
              refine ⟨fun h => (by cases h), ?_⟩
              rintro ((h | ⟨r', cs', h, h'⟩) | ⟨_, _, _, _, _, h, _⟩)
              · cases h
              · cases h; rw [hA] at h'; cases h'
              · cases h
            | panic => exact ⟨fun _ => Or.inl (Or.inr ⟨r, cs, rfl, by rw [hA]⟩), fun _ => rfl⟩

theorem TarMember.ReqIs.dir_iff {e : TarMember} {f : ContentAddr → GetBytes} {r : AddReq} (h : e.ReqIs f r) (hi : ¬ e.Ignored) :
    ¬ e.Directory ↔ r.kind ≠ .ok (some .dir) := by
  refine ⟨h.kind_dir hi, fun hn hd => ?_⟩
  obtain ⟨_, _, k, h1, h2, _⟩ := h
  exact hn (by rw [h1, h2 hd])

theorem tarRun_panics_iff (items : List (Except Unit TarMember)) : (Conv.new.tarRun items).2 = .panic ↔
    ∃ (pre : List TarMember) (e : TarMember) (rest : List (Except Unit TarMember)), items = pre.map .ok ++ .ok e :: rest ∧
      (∀ e' ∈ pre, e'.Valid) ∧ pre.Pairwise TarMember.Compatible ∧ e.Crashes pre := by
  rw [tarRun_panic]
  have key : ∀ (pre : List TarMember) (c1 : Conv) (e : TarMember), Conv.new.tarRun (pre.map .ok) = (c1, .ok) →
      ((e.toEntry c1.contents = .error .panic ∨
        ∃ r cs, e.toEntry c1.contents = .ok (some r, cs) ∧ (c1.creator.addEntry r).2 = .panic) ↔ e.Crashes pre) := by
    intro pre c1 e hrun
    obtain ⟨_, rs, hacc, hsrc, hall⟩ := Conv.tarRun_ok _ _ _ hrun
    have hk : ∀ r ∈ rs, ∃ k, r.kind = .ok (some k) := by
      intro r hr; obtain ⟨_, _, _, _, _, k, hk, _⟩ := hsrc r hr; exact ⟨k, hk⟩
    -- the requests that are in the way
    have blocked : ∀ p : List Bytes, (∀ r' ∈ rs, r'.kind ≠ .ok (some .dir) → ¬ entryPath r'.path <+: p) ↔
        ∀ e' ∈ pre, ¬ e'.Ignored → ¬ e'.Directory → ¬ memberNames e'.path <+: p := by
      intro p
      constructor
      · intro h e' he' hi hd
        obtain ⟨A, B, hAB⟩ := List.append_of_mem (List.mem_map.mpr ⟨e', he', rfl⟩ : Except.ok e' ∈ pre.map (Except.ok (ε := Unit)))
        rcases hall A e' B hAB with hx | ⟨_, A', r, B', hrs, hq, _⟩
        · exact absurd hx hi
        · rw [← hq.1]; exact h r (by rw [hrs]; simp) ((hq.dir_iff hi).mp hd)
      · intro h r hr hd
        obtain ⟨e', he', hi, hq⟩ := hsrc r hr
        obtain ⟨e'', he'', hee⟩ := List.mem_map.mp he'
        cases hee
        rw [hq.1]; exact h e' he'' hi ((hq.dir_iff hi).mpr hd)
    unfold TarMember.Crashes
    rw [TarMember.toEntry_panic]
    constructor
    · rintro (⟨hm, h⟩ | ⟨r, cs, hE, hp⟩)
      · refine ⟨hm, ?_⟩
        rcases h with h | h | h
        · exact Or.inl h
        · exact Or.inr (Or.inl h)
        · exact Or.inr (Or.inr (Or.inl h))
      · obtain ⟨hm, _, _, _, hd⟩ := TarMember.toEntry_valid hE
        refine ⟨hm, Or.inr (Or.inr (Or.inr ?_))⟩
        rcases (TarMember.toEntry_ok hE).2 with ⟨_, h⟩ | ⟨hi, r', hr', hq⟩
        · cases h
        · cases hr'
          have hkr : ∃ k, r.kind = .ok (some k) := by obtain ⟨_, _, k, hk, _⟩ := hq; exact ⟨k, hk⟩
          obtain ⟨p1, p2⟩ := (Accepts.panics_iff hacc hk hkr).mp hp
          rw [hq.1] at p1 p2
          exact ⟨hi, hd, p1, (blocked _).mp p2⟩
    · rintro ⟨hm, h⟩
      by_cases hearly : e.path.head? = some SEP ∨ (∃ c ∈ comps e.path, validUtf8 c = false) ∨ (e.type = .symlink ∧ e.linkName = none)
      · exact Or.inl ⟨hm, hearly⟩
      · right
        have h' : ¬ e.Ignored ∧ (e.FileLike → ∃ b, e.data = .ok b) ∧ Unusable (memberNames e.path) ∧
            ∀ e' ∈ pre, ¬ e'.Ignored → ¬ e'.Directory → ¬ memberNames e'.path <+: memberNames e.path := by
          rcases h with h | h | h | h
          · exact absurd (Or.inl h) hearly
          · exact absurd (Or.inr (Or.inl h)) hearly
          · exact absurd (Or.inr (Or.inr h)) hearly
          · exact h
        obtain ⟨hi, hd, hu, hb⟩ := h'
        cases hE : e.toEntry c1.contents with
        | error o =>
          exfalso
          have hnp : o ≠ .panic := by
            intro ho; rw [ho] at hE
            exact hearly ((TarMember.toEntry_panic e _).mp hE).2
          obtain ⟨i, m1, m2, m3, m4⟩ := hm
          unfold TarMember.toEntry at hE
          rw [m1, m2, m3, m4] at hE
          simp only at hE
          repeat' first | (cases hE; done) | (injection hE with hE; exact hnp hE.symm) | split at hE
          all_goals
            rename_i hty hdir _ _ hdata
            obtain ⟨b, hb'⟩ := hd ⟨by rw [hty]; simp, hdir⟩
            rw [hb'] at hdata; cases hdata
        | ok y =>
          obtain ⟨o, cs⟩ := y
          rcases (TarMember.toEntry_ok hE).2 with ⟨h, _⟩ | ⟨_, r, rfl, hq⟩
          · exact absurd h hi
          · have hkr : ∃ k, r.kind = .ok (some k) := by obtain ⟨_, _, k, hk, _⟩ := hq; exact ⟨k, hk⟩
            refine ⟨r, cs, rfl, (Accepts.panics_iff hacc hk hkr).mpr ?_⟩
            rw [hq.1]
            exact ⟨hu, (blocked _).mpr hb⟩
  constructor
  · rintro ⟨pre, e, rest, c1, h1, h2, h3⟩
    obtain ⟨ms, g1, g2, g3⟩ := (C41_accepts_iff _).mp (show (Conv.new.tarRun (pre.map .ok)).2 = .ok by rw [h2])
    cases okMap_inj g1
    exact ⟨pre, e, rest, h1, g2, g3, (key pre c1 e h2).mp h3⟩
  · rintro ⟨pre, e, rest, h1, g2, g3, h3⟩
    have hok := (C41_accepts_iff _).mpr ⟨pre, rfl, g2, g3⟩
    have h2 : Conv.new.tarRun (pre.map .ok) = ((Conv.new.tarRun (pre.map .ok)).1, .ok) := by rw [← hok]
    exact ⟨pre, e, rest, _, h1, h2, (key pre _ e h2).mpr h3⟩

/-! ## zip -/

theorem inside_iff {name : Bytes} : StaysInside (memberNames name) ↔ zipDepth 0 (comps name) = true :=
  ⟨fun h => zipDepth_of_inside _ 0 (fun q hq => by have := h q hq; omega), fun h q hq => by have := zipDepth_inside _ 0 h q hq; omega⟩

theorem ZipMember.mtime_eq (e : ZipMember) : (∃ t, e.HasTime t ∧ e.mtime = .ok t) ∨ ((¬ ∃ t, e.HasTime t) ∧ e.mtime = .error .panic) := by
  cases h : e.mtime with
  | ok t => exact Or.inl ⟨t, ZipMember.mtime_ok h, rfl⟩
  | error o =>
    refine Or.inr ⟨fun ⟨t, ht⟩ => (by rw [ht.mtime] at h; cases h), ?_⟩
    unfold ZipMember.mtime at h
    split at h
    · cases h
    · split at h
      · cases h
      · cases h
      · injection h with h; rw [h]

theorem ZipMember.toEntry_panic (e : ZipMember) (cs : List Bytes) :
    e.toEntry cs = .error .panic ↔ (¬ ∃ t, e.HasTime t) ∨
      ((0 : UInt8) ∉ e.name ∧ e.name.head? ≠ some SEP ∧ StaysInside (memberNames e.name) ∧ ∃ c ∈ comps e.name, validUtf8 c = false) := by
  unfold ZipMember.toEntry
  rcases e.mtime_eq with ⟨t, ht, hm⟩ | ⟨ht, hm⟩
  · rw [hm]
    simp only [enclosedName_eq]
    rw [inside_iff]
    by_cases hc : (0 : UInt8) ∉ e.name ∧ e.name.head? ≠ some SEP ∧ zipDepth 0 (comps e.name) = true
    · rw [if_pos hc]
      simp only [fromPathBuf_eq, if_neg hc.2.1]
      by_cases hv : ∀ c ∈ comps e.name, validUtf8 c = true
      · rw [if_pos hv]
        simp only
        have hb : ¬ ∃ c ∈ comps e.name, validUtf8 c = false := fun h => badUtf8.mpr h hv
        constructor
        · intro h
          split at h
          · cases h
          · split at h <;> cases h
        · rintro (h | ⟨_, _, _, h⟩)
          · exact absurd ⟨t, ht⟩ h
          · exact absurd h hb
      · rw [if_neg hv]
        exact ⟨fun _ => Or.inr ⟨hc.1, hc.2.1, hc.2.2, badUtf8.mp hv⟩, fun _ => rfl⟩
    · rw [if_neg hc]
      refine ⟨fun h => (by cases h), ?_⟩
      rintro (h | ⟨h1, h2, h3, _⟩)
      · exact absurd ⟨t, ht⟩ h
      · exact absurd ⟨h1, h2, h3⟩ hc
  · rw [hm]
    exact ⟨fun _ => Or.inl ht, fun _ => rfl⟩

theorem ZipMember.toEntry_ne (e : ZipMember) (cs : List Bytes) : e.toEntry cs ≠ .error .ok := by
  intro h
  unfold ZipMember.toEntry at h
  rcases e.mtime_eq with ⟨t, ht, hm⟩ | ⟨ht, hm⟩
  · rw [hm] at h
    simp only at h
    repeat' first | (cases h; done) | split at h
  · rw [hm] at h; cases h

theorem zipRun_panic : ∀ (items : List (Except Unit ZipMember)) (c : Conv), (c.zipRun items).2 = .panic ↔
    ∃ (pre : List ZipMember) (x : Except Unit ZipMember) (rest : List (Except Unit ZipMember)) (c1 : Conv),
      items = pre.map .ok ++ x :: rest ∧ c.zipRun (pre.map .ok) = (c1, .ok) ∧
      ∀ e, x = .ok e → (e.toEntry c1.contents = .error .panic ∨
        ∃ r cs, e.toEntry c1.contents = .ok (r, cs) ∧ (c1.creator.addEntry r).2 = .panic) := by
  intro items
  induction items with
  | nil =>
    intro c
    refine ⟨fun h => (by cases h), ?_⟩
    rintro ⟨pre, e, rest, c1, h, _⟩
    exact absurd (congrArg List.length h) (by simp)
  | cons x items ih =>
    intro c
    cases x with
    | error u =>
      exact ⟨fun _ => ⟨[], .error u, items, c, rfl, rfl, fun e h => by cases h⟩, fun _ => rfl⟩
    | ok e =>
      have step : (∃ (pre : List ZipMember) (x : Except Unit ZipMember) (rest : List (Except Unit ZipMember)) (c1 : Conv),
            (Except.ok e :: items) = pre.map .ok ++ x :: rest ∧ c.zipRun (pre.map .ok) = (c1, .ok) ∧
            ∀ e', x = .ok e' → (e'.toEntry c1.contents = .error .panic ∨
              ∃ r cs, e'.toEntry c1.contents = .ok (r, cs) ∧ (c1.creator.addEntry r).2 = .panic)) ↔
          (e.toEntry c.contents = .error .panic ∨
              ∃ r cs, e.toEntry c.contents = .ok (r, cs) ∧ (c.creator.addEntry r).2 = .panic) ∨
          (∃ (pre : List ZipMember) (x : Except Unit ZipMember) (rest : List (Except Unit ZipMember)) (c1 : Conv),
            items = pre.map .ok ++ x :: rest ∧ c.zipRun (.ok e :: pre.map .ok) = (c1, .ok) ∧
            ∀ e', x = .ok e' → (e'.toEntry c1.contents = .error .panic ∨
              ∃ r cs, e'.toEntry c1.contents = .ok (r, cs) ∧ (c1.creator.addEntry r).2 = .panic)) := by
        constructor
        · rintro ⟨pre, x, rest, c1, h1, h2, h3⟩
          cases pre with
          | nil => cases h1; cases h2; exact Or.inl (h3 e rfl)
          | cons p pre =>
            rw [List.map_cons, List.cons_append] at h1
            injection h1 with h1 h1'
            cases h1
            exact Or.inr ⟨pre, x, rest, c1, h1', h2, h3⟩
        · rintro (h | ⟨pre, x, rest, c1, h1, h2, h3⟩)
          · exact ⟨[], .ok e, items, c, rfl, rfl, fun e' he' => by cases he'; exact h⟩
          · exact ⟨e :: pre, x, rest, c1, by rw [h1]; rfl, h2, h3⟩
      rw [step]
      simp only [Conv.zipRun]
      cases hE : e.toEntry c.contents with
      | error o =>
        simp only
        constructor
        · intro h; exact Or.inl (Or.inl (by rw [h]))
        · rintro ((h | ⟨r, cs, h, _⟩) | ⟨pre, e', rest, c1, _, h, _⟩)
          · injection h
          · cases h
          · injection h with _ h
            subst h
            exact absurd hE (e.toEntry_ne _)
      | ok y =>
        obtain ⟨r, cs⟩ := y
        simp only [Conv.add]
        cases hA : c.creator.addEntry r with
        | mk st a =>
          cases a with
          | ok =>
            simp only
            rw [ih]
            refine ⟨Or.inr, ?_⟩
            rintro ((h | ⟨r', cs', h, h'⟩) | h)
            · cases h
            · cases h; rw [hA] at h'; cases h'
            · exact h
          | err x =>
            simp only
            refine ⟨fun h => (by cases h), ?_⟩
            rintro ((h | ⟨r', cs', h, h'⟩) | ⟨_, _, _, _, _, h, _⟩)
            · cases h
            · cases h; rw [hA] at h'; cases h'
            · cases h
          | panic => exact ⟨fun _ => Or.inl (Or.inr ⟨r, cs, rfl, by rw [hA]⟩), fun _ => rfl⟩

theorem zipRun_panics_iff (items : List (Except Unit ZipMember)) : (Conv.new.zipRun items).2 = .panic ↔
    ∃ (pre : List ZipMember) (x : Except Unit ZipMember) (rest : List (Except Unit ZipMember)), items = pre.map .ok ++ x :: rest ∧
      (∀ e' ∈ pre, e'.Valid) ∧ pre.Pairwise ZipMember.Compatible ∧ ∀ e, x = .ok e → e.Crashes pre := by
  rw [zipRun_panic]
  have key : ∀ (pre : List ZipMember) (c1 : Conv) (e : ZipMember), Conv.new.zipRun (pre.map .ok) = (c1, .ok) →
      ((e.toEntry c1.contents = .error .panic ∨
        ∃ r cs, e.toEntry c1.contents = .ok (r, cs) ∧ (c1.creator.addEntry r).2 = .panic) ↔ e.Crashes pre) := by
    intro pre c1 e hrun
    obtain ⟨ms, rs, hms, hacc, hall⟩ := zipRun_requests _ _ _ hrun
    cases okMap_inj hms
    have hk : ∀ r ∈ rs, ∃ k, r.kind = .ok (some k) := by
      intro r hr
      obtain ⟨e, _, _, f, _, _, _, k, hk, _⟩ := hall.right_mem hr
      exact ⟨k, hk⟩
    have blocked : ∀ p : List Bytes, (∀ r' ∈ rs, r'.kind ≠ .ok (some .dir) → ¬ entryPath r'.path <+: p) ↔
        ∀ e' ∈ pre, e'.isDir = false → ¬ memberNames e'.name <+: p := by
      intro p
      constructor
      · intro h e' he' hd
        obtain ⟨r, hr, _, f, hq⟩ := hall.left_mem he'
        rw [← hq.1]; exact h r hr (hq.kind_iff.mp hd)
      · intro h r hr hd
        obtain ⟨e', he', _, f, hq⟩ := hall.right_mem hr
        rw [hq.1]; exact h e' he' (hq.kind_iff.mpr hd)
    unfold ZipMember.Crashes
    rw [ZipMember.toEntry_panic]
    constructor
    · rintro ((h | ⟨h1, h2, h3, h4⟩) | ⟨r, cs, hE, hp⟩)
      · exact Or.inl h
      · exact Or.inr ⟨h1, h2, h3, Or.inl h4⟩
      · obtain ⟨_, k2, k3, k4, _, k6⟩ := (ZipMember.toEntry_iff e _).mp ⟨r, cs, hE⟩
        obtain ⟨_, hq⟩ := ZipMember.toEntry_ok hE
        have hkr : ∃ k, r.kind = .ok (some k) := by obtain ⟨_, _, _, k, hk, _⟩ := hq; exact ⟨k, hk⟩
        obtain ⟨p1, p2⟩ := (Accepts.panics_iff hacc hk hkr).mp hp
        rw [hq.1] at p1 p2
        exact Or.inr ⟨k2, k3, k4, Or.inr ⟨k6, p1, (blocked _).mp p2⟩⟩
    · rintro (h | ⟨h1, h2, h3, h4⟩)
      · exact Or.inl (Or.inl h)
      · by_cases ht : ∃ t, e.HasTime t
        · by_cases hv : ∃ c ∈ comps e.name, validUtf8 c = false
          · exact Or.inl (Or.inr ⟨h1, h2, h3, hv⟩)
          · rcases h4 with h4 | ⟨h5, h6, h7⟩
            · exact absurd h4 hv
            · right
              obtain ⟨r, cs, hE⟩ := (ZipMember.toEntry_iff e c1.contents).mpr ⟨ht, h1, h2, h3,
                Classical.byContradiction fun h => hv (badUtf8.mp h), h5⟩
              obtain ⟨_, hq⟩ := ZipMember.toEntry_ok hE
              have hkr : ∃ k, r.kind = .ok (some k) := by obtain ⟨_, _, _, k, hk, _⟩ := hq; exact ⟨k, hk⟩
              refine ⟨r, cs, hE, (Accepts.panics_iff hacc hk hkr).mpr ?_⟩
              rw [hq.1]
              exact ⟨h6, (blocked _).mpr h7⟩
        · exact Or.inl (Or.inl ht)
  constructor
  · rintro ⟨pre, x, rest, c1, h1, h2, h3⟩
    obtain ⟨ms, g1, g2, g3⟩ := (C42_accepts_iff _).mp (show (Conv.new.zipRun (pre.map .ok)).2 = .ok by rw [h2])
    cases okMap_inj g1
    exact ⟨pre, x, rest, h1, g2, g3, fun e he => (key pre c1 e h2).mp (h3 e he)⟩
  · rintro ⟨pre, x, rest, h1, g2, g3, h3⟩
    have hok := (C42_accepts_iff _).mpr ⟨pre, rfl, g2, g3⟩
    have h2 : Conv.new.zipRun (pre.map .ok) = ((Conv.new.zipRun (pre.map .ok)).1, .ok) := by rw [← hok]
    exact ⟨pre, x, rest, _, h1, h2, fun e he => (key pre _ e h2).mpr (h3 e he)⟩

/-! ## The commands -/

theorem convertTo_panic {M : Type} (run : Conv → List (Except Unit M) → Conv × COut) (sys : ConvSys M) (out : Bytes)
    (items : List (Except Unit M)) :
    (convertTo run sys out items).2 = .panic ↔ sys.openOk = true ∧ (run Conv.new items).2 = .panic := by
  unfold convertTo
  cases sys.openOk with
  | false => simp
  | true =>
    simp only [Bool.not_true, Bool.false_eq_true, if_false, true_and]
    cases run Conv.new items with
    | mk c o => cases o <;> first | (simp [COut.toCmd]; done) | (cases sys.writeOk <;> simp)

theorem urlLike_of_prefix {f : Bytes} (h : ascii "http:/" <+: f ∨ ascii "https:/" <+: f) : urlLike f = true := by
  have key : ∀ (s x : Bytes), s ∈ schemes → comps (s ++ [58]) = [s ++ [58]] → (s ++ [58] ++ SEP :: x).head? ≠ some SEP →
      urlLike (s ++ [58] ++ SEP :: x) = true := by
    intro s x hs hc hh
    unfold urlLike
    rw [Bool.and_eq_true, decide_eq_true_iff, List.any_eq_true]
    refine ⟨hh, s, hs, ?_⟩
    rw [comps_append, hc]
    simp
  rcases h with ⟨x, rfl⟩ | ⟨x, rfl⟩
  · exact key [104, 116, 116, 112] x (by simp [schemes]) (by decide +kernel) (by simp [SEP])
  · exact key [104, 116, 116, 112, 115] x (by simp [schemes]) (by decide +kernel) (by simp [SEP])

theorem urlLike_cases {f : Bytes} (h : urlLike f = true) :
    f = ascii "http:" ∨ f = ascii "https:" ∨ ascii "http:/" <+: f ∨ ascii "https:/" <+: f := by
  unfold urlLike at h
  rw [Bool.and_eq_true, decide_eq_true_iff, List.any_eq_true] at h
  obtain ⟨h1, s, hs, h2⟩ := h
  rw [decide_eq_true_iff] at h2
  simp only [schemes, List.mem_cons, List.not_mem_nil, or_false] at hs
  rcases hs with rfl | rfl <;> rcases comps_head h1 h2 with e | e
  · exact Or.inr (Or.inl e)
  · exact Or.inr (Or.inr (Or.inr e))
  · exact Or.inl e
  · exact Or.inr (Or.inr (Or.inl e))

theorem tarOutName_none (f : Bytes) : tarOutName f = none ↔ NamelessUrl f := by
  have hs : splitName f = none ↔ ¬ ∃ pre name, NamesFile f pre name := by
    cases h : splitName f with
    | none =>
      refine ⟨fun _ ⟨pre, name, hn⟩ => ?_, fun _ => rfl⟩
      rw [splitName_iff.mpr hn] at h; cases h
    | some y => exact ⟨fun h => (by cases h), fun hn => absurd ⟨y.1, y.2, splitName_iff.mp h⟩ hn⟩
  have eq : tarOutName f = none ↔ urlLike f = true ∧ splitName f = none := by
    unfold tarOutName
    cases urlLike f with
    | false => simp
    | true =>
      simp only [if_true, true_and]
      cases splitName f with
      | none => simp
      | some y => simp
  unfold NamelessUrl
  rw [eq, hs]
  constructor
  · rintro ⟨h1, h2⟩
    refine ⟨?_, h2⟩
    rcases urlLike_cases h1 with rfl | rfl | h | h
    · exact absurd ⟨[], _, splitName_iff.mp (by decide +kernel : splitName (ascii "http:") = some ([], ascii "http:"))⟩ h2
    · exact absurd ⟨[], _, splitName_iff.mp (by decide +kernel : splitName (ascii "https:") = some ([], ascii "https:"))⟩ h2
    · exact Or.inl h
    · exact Or.inr h
  · rintro ⟨h1, h2⟩
    exact ⟨urlLike_of_prefix h1, h2⟩

/-- **C88, exactly when `tar2arx` crashes.** Its output is not given and cannot be named after its input, the URL of
something without a file name; or the output is known and the input is not an archive (its compression cannot be
recognised); or jubako can prepare the archive and, after members that are all valid and not in conflict, there is
one that crashes it (`TarMember.Crashes`). -/
theorem C88_tar_partial (tarFile outfile : Option Bytes) (sys : ConvSys TarMember) :
    (tar2arx tarFile outfile sys).2 = .panic ↔
      (outfile = none ∧ ∃ f, tarFile = some f ∧ NamelessUrl f) ∨
      ((∃ out, TarOutput tarFile outfile out) ∧
        (sys.input (TarInput tarFile) = .error .panic ∨
         (sys.openOk = true ∧ ∃ (pre : List TarMember) (e : TarMember) (rest : List (Except Unit TarMember)),
            sys.input (TarInput tarFile) = .ok (pre.map .ok ++ .ok e :: rest) ∧
            (∀ e' ∈ pre, e'.Valid) ∧ pre.Pairwise TarMember.Compatible ∧ e.Crashes pre))) := by
  have hurl : (outfile = none ∧ ∃ f, tarFile = some f ∧ NamelessUrl f) ↔
      (outfile = none ∧ ∃ f, tarFile = some f ∧ f ≠ ascii "-" ∧ tarOutName f = none) := by
    constructor
    · rintro ⟨h1, f, h2, h3⟩
      refine ⟨h1, f, h2, ?_, (tarOutName_none f).mpr h3⟩
      rintro rfl
      rcases h3.1 with ⟨x, h⟩ | ⟨x, h⟩ <;> exact absurd (congrArg List.length h) (by rw [List.length_append, show (ascii "-").length = 1 from rfl]; show ¬ _ + _ = 1; simp [ascii]; try omega)
    · rintro ⟨h1, f, h2, _, h3⟩
      exact ⟨h1, f, h2, (tarOutName_none f).mp h3⟩
  rw [hurl]
  rcases tar2arx_eq tarFile outfile sys with ⟨hno, _, _⟩ | ⟨out, evs, hout, _, heq⟩
  · have hcase : outfile = none ∧ (tarFile = none ∨ tarFile = some [45] ∨ ∃ f, tarFile = some f ∧ f ≠ [45] ∧ tarOutName f = none) := by
      cases outfile with
      | some o => exact absurd ⟨o, Or.inl rfl⟩ hno
      | none =>
        refine ⟨rfl, ?_⟩
        cases tarFile with
        | none => exact Or.inl rfl
        | some f =>
          right
          by_cases hf : f = [45]
          · exact Or.inl (by rw [hf])
          · cases hn : tarOutName f with
            | none => exact Or.inr ⟨f, rfl, hf, hn⟩
            | some o => exact absurd ⟨o, Or.inr ⟨rfl, f, rfl, hf, hn⟩⟩ hno
    obtain ⟨rfl, hcase⟩ := hcase
    unfold tar2arx
    rcases hcase with rfl | rfl | ⟨f, rfl, hf, hn⟩
    · simp [TarOutput]
    · simp [TarOutput, show ascii "-" = [45] from rfl]
    · simp [hf, hn, show ascii "-" = [45] from rfl]
  · rw [heq]
    have hne : ¬ (outfile = none ∧ ∃ f, tarFile = some f ∧ f ≠ ascii "-" ∧ tarOutName f = none) := by
      rintro ⟨h1, f, h2, h3, h4⟩
      rcases hout with h | ⟨_, f', h5, _, h6⟩
      · rw [h] at h1; cases h1
      · rw [h2] at h5; cases h5; rw [h4] at h6; cases h6
    cases hin : sys.input (TarInput tarFile) with
    | error x =>
      cases x with
      | err =>
        simp only [InErr.toCmd]
        refine ⟨fun h => (by cases h), ?_⟩
        rintro (h | ⟨_, h | ⟨_, _, _, _, h, _⟩⟩)
        · exact absurd h hne
        · cases h
        · cases h
      | panic => exact ⟨fun _ => Or.inr ⟨⟨out, hout⟩, Or.inl rfl⟩, fun _ => rfl⟩
    | ok items =>
      simp only
      rw [convertTo_panic, tarRun_panics_iff]
      constructor
      · rintro ⟨h1, pre, e, rest, h2, h3⟩
        exact Or.inr ⟨⟨out, hout⟩, Or.inr ⟨h1, pre, e, rest, by rw [h2], h3⟩⟩
      · rintro (h | ⟨_, h | ⟨h1, pre, e, rest, h2, h3⟩⟩)
        · exact absurd h hne
        · cases h
        · exact ⟨h1, pre, e, rest, by injection h2, h3⟩

/-- **C88, exactly when `zip2arx` crashes.** The input is not a zip archive; or jubako can prepare the output and, after
members that are all valid and not in conflict, there is one that cannot be opened (for example it is encrypted) or
crashes it (`ZipMember.Crashes`). -/
theorem C88_zip_partial (zipFile outfile : Bytes) (sys : ConvSys ZipMember) :
    (zip2arx zipFile outfile sys).2 = .panic ↔
      sys.input (some zipFile) = .error .panic ∨
      (sys.openOk = true ∧ ∃ (pre : List ZipMember) (x : Except Unit ZipMember) (rest : List (Except Unit ZipMember)),
        sys.input (some zipFile) = .ok (pre.map .ok ++ x :: rest) ∧
        (∀ e' ∈ pre, e'.Valid) ∧ pre.Pairwise ZipMember.Compatible ∧ ∀ e, x = .ok e → e.Crashes pre) := by
  unfold zip2arx
  cases hin : sys.input (some zipFile) with
  | error x =>
    cases x with
    | err =>
      refine ⟨fun h => (by cases h), ?_⟩
      rintro (h | ⟨_, _, _, _, h, _⟩) <;> cases h
    | panic => exact ⟨fun _ => Or.inl rfl, fun _ => rfl⟩
  | ok items =>
    simp only
    rw [convertTo_panic, zipRun_panics_iff]
    constructor
    · rintro ⟨h1, pre, e, rest, h2, h3⟩
      exact Or.inr ⟨h1, pre, e, rest, by rw [h2], h3⟩
    · rintro (h | ⟨h1, pre, e, rest, h2, h3⟩)
      · cases h
      · exact ⟨h1, pre, e, rest, by injection h2, h3⟩

/-! ## Concrete cases -/

/-- what `tar c .` makes: the first member is `./` -/
def hereTar : List TarMember := [tarMem (ascii "./") .directory none [], tarMem (ascii "./f") .regular none (ascii "hello")]

/-- a disk with one archive -/
def oneInput {M : Type} (items : List (Except Unit M)) : ConvSys M := ⟨fun _ => .ok items, true, true⟩

/-- **C88 is false.** Each of these inputs makes a converter crash instead of reporting an error:
* the archive that `tar c .` makes;
* a tar archive with an absolute member (`tar cP`), even after members that are fine;
* a URL without a file name;
* an empty or unknown input;
* a zip archive with an encrypted member, one with a member dated month 0, one with a name in Latin-1. -/
theorem C88_counterexamples :
    (tar2arx (some (ascii "a.tar")) none (oneInput (hereTar.map .ok))).2 = .panic ∧
    (tar2arx (some (ascii "a.tar")) none (oneInput ((exTar ++ [tarMem (ascii "/etc/passwd") .regular none []]).map .ok))).2 = .panic ∧
    (tar2arx (some (ascii "https:")) none (oneInput (exTar.map .ok))).2 = .ok ∧
    (tar2arx (some (ascii "https://..")) none (oneInput (exTar.map .ok))).2 = .panic ∧
    (tar2arx none (some (ascii "o.arx")) ⟨fun _ => .error .panic, true, true⟩).2 = .panic ∧
    (zip2arx (ascii "a.zip") (ascii "a.arx") ⟨fun _ => .error .panic, true, true⟩).2 = .panic ∧
    (zip2arx (ascii "a.zip") (ascii "a.arx") (oneInput [.error ()])).2 = .panic ∧
    (zip2arx (ascii "a.zip") (ascii "a.arx")
      (oneInput [.ok { zipMem (ascii "f") false none [] with extTimes := [], dosTime := some (.error ()) }])).2 = .panic ∧
    (zip2arx (ascii "a.zip") (ascii "a.arx") (oneInput [.ok (zipMem [0xe9] false none [])])).2 = .panic := by
  refine ⟨by decide +kernel, by decide +kernel, by decide +kernel, by decide +kernel, by decide +kernel, by decide +kernel,
    by decide +kernel, by decide +kernel, by decide +kernel⟩

/-- the last condition of `TarMember.Crashes` matters: below a file, a path ending with `..` is refused, not a crash;
data that cannot be read is an error too -/
example : TarMember.Crashes [] (tarMem (ascii "f/..") .regular none []) ∧
    ¬ TarMember.Crashes [tarMem (ascii "f") .regular none []] (tarMem (ascii "f/..") .regular none []) ∧
    (Conv.new.tarRun [.ok (tarMem (ascii "f/..") .regular none [])]).2 = .panic ∧
    (Conv.new.tarRun [.ok (tarMem (ascii "f") .regular none []), .ok (tarMem (ascii "f/..") .regular none [])]).2 = .add .notADir ∧
    (Conv.new.tarRun [.ok { tarMem (ascii ".") .regular none [] with data := .error () }]).2 = .source := by
  refine ⟨⟨⟨⟨1, 2, 0o600, 77⟩, rfl, rfl, rfl, rfl⟩, Or.inr (Or.inr (Or.inr ⟨?_, fun _ => ⟨[], rfl⟩, Or.inr (by decide +kernel), by simp⟩))⟩,
    ?_, by decide +kernel, by decide +kernel, by decide +kernel⟩
  · rintro (h | h | h | h) <;> cases h
  · rintro ⟨_, h | ⟨c, hc, hv⟩ | ⟨h, _⟩ | ⟨_, _, _, h⟩⟩
    · exact absurd h (by decide +kernel)
    · have : ∀ c ∈ comps (ascii "f/.."), validUtf8 c = true := by decide +kernel
      rw [this c hc] at hv; cases hv
    · cases h
    · exact h _ (List.mem_cons_self) (by rintro (h | h | h | h) <;> cases h) (by rintro (h | ⟨_, h, _⟩) <;> cases h) (by decide +kernel)

end Arx
