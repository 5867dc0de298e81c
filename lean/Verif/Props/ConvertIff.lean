import Verif.Props.ConvertEx
import Verif.Props.Zip
/-!
# Which archives are converted (C41, C42)
-/
namespace Arx

theorem Accepts.usable {rs : List AddReq} {st : Creator} (h : Accepts Creator.new rs st)
    (hk : ∀ r ∈ rs, ∃ k, r.kind = .ok (some k)) :
    (∀ r ∈ rs, entryPath r.path ≠ [] ∧ (entryPath r.path).getLast? ≠ some PARENT) ∧ rs.Pairwise Compatible := by
  have key : ∀ (post pre : List AddReq) (st1 : Creator), pre ++ post = rs → Accepts Creator.new pre st1 → Accepts st1 post st →
      (∀ r ∈ post, (entryPath r.path ≠ [] ∧ (entryPath r.path).getLast? ≠ some PARENT) ∧ ∀ r' ∈ pre, Compatible r' r) ∧
      post.Pairwise Compatible := by
    intro post
    induction post with
    | nil => intro pre st1 _ _ _; exact ⟨(fun r hr => by cases hr), .nil⟩
    | cons r post ih =>
      intro pre st1 he h1 h2
      cases h2 with
      | @cons _ st2 _ _ _ hadd hpost =>
        have hsnoc : Accepts Creator.new (pre ++ [r]) st2 := h1.append (.cons hadd (.nil _))
        obtain ⟨i1, i2⟩ := ih (pre ++ [r]) st2 (by rw [← he]; simp) hsnoc hpost
        refine ⟨?_, List.pairwise_cons.mpr ⟨fun r' hr' => (i1 r' hr').2 r (by simp), i2⟩⟩
        intro x hx
        rcases List.mem_cons.mp hx with rfl | hx
        · obtain ⟨k, hkr⟩ := hk x (by rw [← he]; simp)
          obtain ⟨m, paths, hs, R⟩ := run_rel h1.run
          obtain ⟨m', hsa, _⟩ := R.addEntry x
          rw [hadd] at hsa
          have facts : (entryPath x.path ≠ [] ∧ (entryPath x.path).getLast? ≠ some PARENT) ∧ ¬ Blocked m (entryPath x.path) ∧
              ∀ n, m (entryPath x.path) = some n → k = .dir ∧ n.isDir = true := by
            cases hsa with
            | ignored _ hk' => rw [hkr] at hk'; cases hk'
            | sameDir n hb hne hl hk' hmn hd =>
              rw [hkr] at hk'; cases hk'
              exact ⟨⟨hne, hl⟩, hb, fun n' hn' => by rw [hmn] at hn'; cases hn'; exact ⟨rfl, hd⟩⟩
            | added k' hb hne hl hk' hmn => exact ⟨⟨hne, hl⟩, hb, fun n' hn' => by rw [hmn] at hn'; cases hn'⟩
          obtain ⟨f1, f2, f3⟩ := facts
          refine ⟨f1, fun r' hr' => ?_⟩
          obtain ⟨k', hk'⟩ := hk r' (by rw [← he]; simp [hr'])
          obtain ⟨A, B, hAB⟩ := List.append_of_mem hr'
          subst hAB
          obtain ⟨e1, e2, e3⟩ := Accepts.entry h1 hs hk'
          obtain ⟨n, hn, hnk⟩ : ∃ n, m (entryPath r'.path) = some n ∧ (k' ≠ .dir → n.isDir = false) := by
            by_cases hkd : k' = .dir
            · obtain ⟨n, g, _⟩ := e3 hkd; exact ⟨n, g, fun h => absurd hkd h⟩
            · exact ⟨_, e2 hkd, fun _ => by cases k' <;> first | rfl | exact absurd rfl hkd⟩
          constructor
          · intro hnd hpre
            have hkd : k' ≠ .dir := fun e => hnd (by rw [hk', e])
            by_cases heq : entryPath r'.path = entryPath x.path
            · rw [heq] at hn
              have := (f3 n hn).2
              rw [hnk hkd] at this; cases this
            · exact f2 ⟨_, n, ⟨e1, heq, hpre⟩, hn, hnk hkd⟩
          · intro hnd hpre
            have hkd : k ≠ .dir := fun e => hnd (by rw [hkr, e])
            by_cases heq : entryPath x.path = entryPath r'.path
            · exact hkd (f3 n (by rw [heq]; exact hn)).1
            · obtain ⟨d, hd, _⟩ := R.wf.ancestors _ _ (entryPath x.path) hn ⟨f1.1, heq, hpre⟩
              exact hkd (f3 d hd).1
        · exact ⟨(i1 x hx).1, fun r' hr' => (i1 x hx).2 r' (by simp [hr'])⟩
  obtain ⟨k1, k2⟩ := key rs [] Creator.new rfl (.nil _) h
  exact ⟨fun r hr => (k1 r hr).1, k2⟩

/-! ## tar -/

theorem TarMember.toEntry_valid {e : TarMember} {cs cs' : List Bytes} {o : Option AddReq} (h : e.toEntry cs = .ok (o, cs')) :
    (∃ i, e.HasMeta i) ∧ e.path.head? ≠ some SEP ∧ (∀ c ∈ comps e.path, validUtf8 c = true) ∧
    (e.type = .symlink → ∃ t, e.linkName = some t) ∧ (e.FileLike → ∃ b, e.data = .ok b) := by
  unfold TarMember.toEntry at h
  cases h1 : e.uid with
  | error u => rw [h1] at h; cases h
  | ok uid =>
  cases h2 : e.gid with
  | error u => rw [h1, h2] at h; cases h
  | ok gid =>
  cases h3 : e.mtime with
  | error u => rw [h1, h2, h3] at h; cases h
  | ok mtime =>
  cases h4 : e.mode with
  | error u => rw [h1, h2, h3, h4] at h; cases h
  | ok mode =>
    rw [h1, h2, h3, h4] at h
    simp only at h
    refine ⟨⟨⟨uid, gid, mode, mtime⟩, h1, h2, h4, h3⟩, ?_⟩
    rw [fromPathBuf_eq] at h
    split at h
    · cases h
    · rename_i path hp
      have hr : e.path.head? ≠ some SEP := by intro hh; rw [if_pos hh] at hp; cases hp
      rw [if_neg hr] at hp
      have hu : ∀ c ∈ comps e.path, validUtf8 c = true := by
        refine Classical.byContradiction fun hn => ?_
        rw [if_neg hn] at hp; cases hp
      refine ⟨hr, hu, ?_, ?_⟩
      · intro ht
        rw [ht] at h
        simp only at h
        cases hl : e.linkName with
        | none => rw [hl] at h; cases h
        | some t => exact ⟨t, rfl⟩
      · rintro ⟨ht, hf⟩
        cases hd : e.data with
        | ok b => exact ⟨b, rfl⟩
        | error u => rcases ht with ht | ht | ht <;> (rw [ht] at h; simp only [if_neg hf, hd] at h; cases h)

theorem TarMember.ReqIs.kind_dir {e : TarMember} {f : ContentAddr → GetBytes} {r : AddReq} (h : e.ReqIs f r) (hi : ¬ e.Ignored)
    (hd : ¬ e.Directory) : r.kind ≠ .ok (some .dir) := by
  obtain ⟨_, _, k, h1, _, h3, h4⟩ := h
  rw [h1]
  intro e'
  injection e' with e'; injection e' with e'; subst e'
  have hs : e.type = .symlink ∨ e.FileLike := by
    unfold TarMember.Ignored at hi
    unfold TarMember.Directory at hd
    unfold TarMember.FileLike
    cases ht : e.type <;> simp_all
  rcases hs with hs | hs
  · obtain ⟨t, _, e⟩ := h3 hs; cases e
  · obtain ⟨d, c, _, e, _⟩ := h4 hs; cases e

theorem tarRun_requests : ∀ (items : List (Except Unit TarMember)) (c c' : Conv), c.tarRun items = (c', .ok) →
    ∃ (ms : List TarMember) (rs : List AddReq), items = ms.map .ok ∧ Accepts c.creator rs c'.creator ∧ (∀ r ∈ rs, ∃ k, r.kind = .ok (some k)) ∧
      (∀ e ∈ ms, ((∃ i, e.HasMeta i) ∧ e.path.head? ≠ some SEP ∧ (∀ c ∈ comps e.path, validUtf8 c = true) ∧
        (e.type = .symlink → ∃ t, e.linkName = some t) ∧ (e.FileLike → ∃ b, e.data = .ok b)) ∧
        (¬ e.Ignored → ∃ r ∈ rs, ∃ f, e.ReqIs f r)) ∧
      (rs.Pairwise Compatible → ms.Pairwise TarMember.Compatible) := by
  intro items
  induction items with
  | nil => intro c c' h; cases h; exact ⟨[], [], rfl, .nil _, by simp, by simp, fun _ => .nil⟩
  | cons x items ih =>
    intro c c' h
    cases x with
    | error u => cases h
    | ok e =>
      simp only [Conv.tarRun] at h
      cases hE : e.toEntry c.contents with
      | error o =>
        rw [hE] at h; simp only at h; cases h
        unfold TarMember.toEntry at hE
        repeat' first | (cases hE; done) | split at hE
      | ok y =>
        obtain ⟨o, cs⟩ := y
        have hv := TarMember.toEntry_valid hE
        obtain ⟨_, hcase⟩ := TarMember.toEntry_ok hE
        rw [hE] at h
        rcases hcase with ⟨hi, rfl⟩ | ⟨hi, r, rfl, hr⟩
        · simp only at h
          obtain ⟨ms, rs, g1, g2, g3, g4, g5⟩ := ih _ _ h
          refine ⟨e :: ms, rs, by rw [g1]; rfl, g2, g3, ?_, ?_⟩
          · intro e' he'
            rcases List.mem_cons.mp he' with rfl | he'
            · exact ⟨hv, fun hn => absurd hi hn⟩
            · exact g4 e' he'
          · intro hp; exact List.pairwise_cons.mpr ⟨fun _ _ => Or.inl hi, g5 hp⟩
        · simp only at h
          cases hadd : c.add r cs with
          | mk c1 o =>
            rw [hadd] at h
            cases o with
            | source => cases h
            | add e => cases h
            | panic => cases h
            | ok =>
              simp only at h
              obtain ⟨hacc, _⟩ := Conv.add_ok hadd
              obtain ⟨ms, rs, g1, g2, g3, g4, g5⟩ := ih _ _ h
              have hkr : ∃ k, r.kind = .ok (some k) := by obtain ⟨_, _, k, hk, _⟩ := hr; exact ⟨k, hk⟩
              refine ⟨e :: ms, r :: rs, by rw [g1]; rfl, .cons hacc g2, ?_, ?_, ?_⟩
              · intro r' hr'
                rcases List.mem_cons.mp hr' with rfl | hr'
                · exact hkr
                · exact g3 r' hr'
              · intro e' he'
                rcases List.mem_cons.mp he' with rfl | he'
                · exact ⟨hv, fun _ => ⟨r, by simp, _, hr⟩⟩
                · obtain ⟨k1, k2⟩ := g4 e' he'
                  exact ⟨k1, fun hn => by obtain ⟨r', l1, l2⟩ := k2 hn; exact ⟨r', by simp [l1], l2⟩⟩
              · intro hp
                obtain ⟨p1, p2⟩ := List.pairwise_cons.mp hp
                refine List.pairwise_cons.mpr ⟨fun e' he' => ?_, g5 p2⟩
                by_cases hi' : e'.Ignored
                · exact Or.inr (Or.inl hi')
                · obtain ⟨r', l1, f, l2⟩ := (g4 e' he').2 hi'
                  obtain ⟨c1, c2⟩ := p1 r' l1
                  rw [hr.1, l2.1] at c1 c2
                  exact Or.inr (Or.inr ⟨fun hd => c1 (hr.kind_dir hi hd), fun hd => c2 (l2.kind_dir hi' hd)⟩)

/-- **C41, exactly which archives are converted.** The conversion of a tar archive succeeds exactly if every member
can be read and is valid, and no two members are in conflict. -/
theorem C41_accepts_iff (items : List (Except Unit TarMember)) :
    (Conv.new.tarRun items).2 = .ok ↔
      ∃ ms : List TarMember, items = ms.map .ok ∧ (∀ e ∈ ms, e.Valid) ∧ ms.Pairwise TarMember.Compatible := by
  constructor
  · intro h
    obtain ⟨ms, rs, g1, g2, g3, g4, g5⟩ := tarRun_requests items Conv.new (Conv.new.tarRun items).1 (by rw [← h])
    obtain ⟨u1, u2⟩ := Accepts.usable g2 g3
    refine ⟨ms, g1, fun e he => ?_, g5 u2⟩
    obtain ⟨⟨k1, k2, k3, k4, k5⟩, k6⟩ := g4 e he
    refine ⟨k1, k2, k3, fun hi => ?_, k4, k5⟩
    obtain ⟨r, hr, f, hq⟩ := k6 hi
    rw [← hq.1]; exact u1 r hr
  · rintro ⟨ms, rfl, hv, hc⟩
    obtain ⟨c, hrun⟩ := C41_accepts hv hc
    rw [hrun]

/-! ## zip -/

theorem zipDepth_of_inside : ∀ (cs : List Bytes) (d : Nat),
    (∀ q, q <+: cs.filter (· ≠ CUR) → 2 * q.count PARENT ≤ q.length + d) → zipDepth d cs = true := by
  intro cs
  induction cs with
  | nil => intro d _; rfl
  | cons c cs ih =>
    intro d h
    unfold zipDepth
    by_cases hp : c = PARENT
    · rw [if_pos hp]
      have hc : c ≠ CUR := by rw [hp]; decide
      rw [List.filter_cons, if_pos (by simpa using hc)] at h
      cases d with
      | zero =>
        have := h [c] (by simp)
        rw [hp] at this; simp at this
      | succ d =>
        refine ih d fun q hq => ?_
        have := h (c :: q) (List.cons_prefix_cons.mpr ⟨rfl, hq⟩)
        rw [hp, List.count_cons_self, List.length_cons] at this; omega
    · rw [if_neg hp]
      by_cases hc : c = CUR
      · rw [if_pos hc]
        rw [List.filter_cons, if_neg (by simp [hc])] at h
        exact ih d h
      · rw [if_neg hc]
        rw [List.filter_cons, if_pos (by simpa using hc)] at h
        refine ih (d + 1) fun q hq => ?_
        have := h (c :: q) (List.cons_prefix_cons.mpr ⟨rfl, hq⟩)
        rw [List.count_cons_of_ne hp, List.length_cons] at this; omega

theorem ZipMember.HasTime.mtime {e : ZipMember} {t : Nat} (h : e.HasTime t) : e.mtime = .ok t := by
  unfold ZipMember.mtime
  rcases h with h | ⟨h1, h2⟩
  · rw [h]; rfl
  · have hj : e.extTimes.getLast?.join = none := by
      cases hl : e.extTimes.getLast? with
      | none => rfl
      | some x =>
        cases x with
        | none => rfl
        | some u => exact absurd hl (h1 u)
    rw [hj]
    rcases h2 with h2 | ⟨h2, rfl⟩ <;> rw [h2]

theorem enclosedName_eq (name : Bytes) : enclosedName name =
    if (0 : UInt8) ∉ name ∧ name.head? ≠ some SEP ∧ zipDepth 0 (comps name) = true then some name else none := by
  unfold enclosedName
  by_cases h0 : (0 : UInt8) ∈ name
  · simp [h0]
  · by_cases h1 : name.head? = some SEP
    · simp [h0, h1]
    · simp [h0, h1]

theorem ZipMember.toEntry_iff (e : ZipMember) (cs : List Bytes) :
    (∃ r cs', e.toEntry cs = .ok (r, cs')) ↔
      ((∃ t, e.HasTime t) ∧ (0 : UInt8) ∉ e.name ∧ e.name.head? ≠ some SEP ∧ StaysInside (memberNames e.name) ∧
        (∀ c ∈ comps e.name, validUtf8 c = true) ∧ (e.isDir = false → ∃ b, e.content = .ok b)) := by
  constructor
  · rintro ⟨r, cs', h⟩
    obtain ⟨_, hq⟩ := ZipMember.toEntry_ok h
    obtain ⟨_, q2, ⟨t, q3, _⟩, k, _, _, q5⟩ := hq
    refine ⟨⟨t, q3⟩, ?_⟩
    unfold ZipMember.toEntry at h
    rw [q3.mtime] at h
    simp only [enclosedName_eq] at h
    by_cases hc : (0 : UInt8) ∉ e.name ∧ e.name.head? ≠ some SEP ∧ zipDepth 0 (comps e.name) = true
    · rw [if_pos hc] at h
      simp only [fromPathBuf_eq, if_neg hc.2.1] at h
      refine ⟨hc.1, hc.2.1, q2, ?_, fun hd => by obtain ⟨d, c, k1, _⟩ := q5 hd; exact ⟨d, k1⟩⟩
      refine Classical.byContradiction fun hn => ?_
      rw [if_neg hn] at h; cases h
    · rw [if_neg hc] at h; cases h
  · rintro ⟨⟨t, h1⟩, h2, h3, h4, h5, h6⟩
    unfold ZipMember.toEntry
    rw [h1.mtime]
    have hz : zipDepth 0 (comps e.name) = true := zipDepth_of_inside _ 0 (fun q hq => by have := h4 q hq; omega)
    simp only [enclosedName_eq, if_pos (show (0 : UInt8) ∉ e.name ∧ e.name.head? ≠ some SEP ∧ zipDepth 0 (comps e.name) = true from ⟨h2, h3, hz⟩),
      fromPathBuf_eq, if_neg h3, if_pos h5]
    cases hd : e.isDir with
    | true => exact ⟨_, _, rfl⟩
    | false =>
      obtain ⟨b, hb⟩ := h6 hd
      unfold ZipMember.content at hb
      simp only [Bool.false_eq_true, if_false, hb]
      exact ⟨_, _, rfl⟩

theorem ZipMember.ReqIs.kind_iff {e : ZipMember} {f : ContentAddr → GetBytes} {r : AddReq} (h : e.ReqIs f r) :
    e.isDir = false ↔ r.kind ≠ .ok (some .dir) := by
  obtain ⟨_, _, _, k, h1, h2, h3⟩ := h
  rw [h1]
  constructor
  · intro hd e'
    injection e' with e'; injection e' with e'; subst e'
    obtain ⟨d, c, _, e, _⟩ := h3 hd; cases e
  · intro hn
    cases hd : e.isDir with
    | false => rfl
    | true => exact absurd (by rw [h2 hd]) hn

theorem zipRun_requests : ∀ (items : List (Except Unit ZipMember)) (c c' : Conv), c.zipRun items = (c', .ok) →
    ∃ (ms : List ZipMember) (rs : List AddReq), items = ms.map .ok ∧ Accepts c.creator rs c'.creator ∧
      All2 (fun e r => (∃ cs, ∃ y, e.toEntry cs = .ok y) ∧ ∃ f, e.ReqIs f r) ms rs := by
  intro items
  induction items with
  | nil => intro c c' h; cases h; exact ⟨[], [], rfl, .nil _, .nil⟩
  | cons x items ih =>
    intro c c' h
    cases x with
    | error u => cases h
    | ok e =>
      simp only [Conv.zipRun] at h
      cases hE : e.toEntry c.contents with
      | error o =>
        rw [hE] at h; simp only at h; cases h
        unfold ZipMember.toEntry at hE
        split at hE
        · rename_i hmt
          cases hE
          unfold ZipMember.mtime at hmt
          split at hmt <;> (try split at hmt) <;> cases hmt
        · simp only at hE
          split at hE <;> (try split at hE) <;> (try split at hE) <;> (try split at hE) <;> cases hE
      | ok y =>
        obtain ⟨r, cs⟩ := y
        obtain ⟨_, hr⟩ := ZipMember.toEntry_ok hE
        rw [hE] at h
        simp only at h
        cases hadd : c.add r cs with
        | mk c1 o =>
          rw [hadd] at h
          cases o with
          | source => cases h
          | add e => cases h
          | panic => cases h
          | ok =>
            simp only at h
            obtain ⟨hacc, _⟩ := Conv.add_ok hadd
            obtain ⟨ms, rs, g1, g2, g3⟩ := ih _ _ h
            exact ⟨e :: ms, r :: rs, by rw [g1]; rfl, .cons hacc g2, .cons ⟨⟨_, _, hE⟩, _, hr⟩ g3⟩

theorem zip_pairwise {ms : List ZipMember} {rs : List AddReq} {R : ZipMember → AddReq → Prop}
    (hR : ∀ e r, R e r → ∃ f, e.ReqIs f r) (h : All2 R ms rs) :
    rs.Pairwise Compatible ↔ ms.Pairwise ZipMember.Compatible := by
  induction h with
  | nil => exact ⟨fun _ => .nil, fun _ => .nil⟩
  | @cons e r ms rs h1 h2 ih =>
    obtain ⟨f, hf⟩ := hR _ _ h1
    have one : ∀ {e' r'}, R e' r' → (Compatible r r' ↔ ZipMember.Compatible e e') := by
      intro e' r' h'
      obtain ⟨g, hg⟩ := hR _ _ h'
      unfold Compatible ZipMember.Compatible
      rw [hf.1, hg.1, ← hf.kind_iff, ← hg.kind_iff]
    rw [List.pairwise_cons, List.pairwise_cons, ih]
    constructor
    · rintro ⟨a, b⟩
      refine ⟨fun e' he' => ?_, b⟩
      obtain ⟨r', hr', hh⟩ := h2.left_mem he'
      exact (one hh).mp (a r' hr')
    · rintro ⟨a, b⟩
      refine ⟨fun r' hr' => ?_, b⟩
      obtain ⟨e', he', hh⟩ := h2.right_mem hr'
      exact (one hh).mpr (a e' he')

theorem zip_accept : ∀ (ms : List ZipMember), (∀ e ∈ ms, e.Valid) → ∀ cs : List Bytes, ∃ rs : List AddReq,
    All2 (fun e r => ∃ f, e.ReqIs f r) ms rs ∧
    ∀ st st', Accepts st rs st' → ∃ cs', Conv.zipRun ⟨st, cs⟩ (ms.map .ok) = (⟨st', cs'⟩, .ok) := by
  intro ms
  induction ms with
  | nil => intro _ cs; exact ⟨[], .nil, fun st st' h => by cases h; exact ⟨cs, rfl⟩⟩
  | cons e ms ih =>
    intro hv cs
    have hve := hv e (by simp)
    obtain ⟨r, cs1, hE⟩ := (ZipMember.toEntry_iff e cs).mpr ⟨hve.time, hve.noNul, hve.relative, hve.inside, hve.utf8, hve.data⟩
    obtain ⟨_, hr⟩ := ZipMember.toEntry_ok hE
    obtain ⟨rs, g1, g2⟩ := ih (fun e' he' => hv e' (by simp [he'])) cs1
    refine ⟨r :: rs, .cons ⟨_, hr⟩ g1, fun st st' h => ?_⟩
    cases h with
    | @cons _ st1 _ _ _ h1 h2 =>
      obtain ⟨cs', hrun⟩ := g2 st1 st' h2
      refine ⟨cs', ?_⟩
      have hadd : Conv.add ⟨st, cs⟩ r cs1 = (⟨st1, cs1⟩, .ok) := by simp only [Conv.add, h1]
      simp only [List.map_cons, Conv.zipRun, hE, hadd, hrun]

/-- **C42, exactly which archives are converted.** The conversion of a zip archive succeeds exactly if every member
can be opened and is valid, and no two members are in conflict. -/
theorem C42_accepts_iff (items : List (Except Unit ZipMember)) :
    (Conv.new.zipRun items).2 = .ok ↔
      ∃ ms : List ZipMember, items = ms.map .ok ∧ (∀ e ∈ ms, e.Valid) ∧ ms.Pairwise ZipMember.Compatible := by
  constructor
  · intro h
    obtain ⟨ms, rs, g1, g2, g3⟩ := zipRun_requests items Conv.new (Conv.new.zipRun items).1 (by rw [← h])
    have hkr : ∀ r ∈ rs, ∃ k, r.kind = .ok (some k) := by
      intro r hr
      obtain ⟨e, _, _, f, _, _, _, k, hk, _⟩ := g3.right_mem hr
      exact ⟨k, hk⟩
    obtain ⟨u1, u2⟩ := Accepts.usable g2 hkr
    refine ⟨ms, g1, fun e he => ?_, (zip_pairwise (fun _ _ h => h.2) g3).mp u2⟩
    obtain ⟨r, hr, ⟨cs, ⟨r', cs'⟩, hE⟩, f, hq⟩ := g3.left_mem he
    obtain ⟨k1, k2, k3, k4, k5, k6⟩ := (ZipMember.toEntry_iff e cs).mp ⟨r', cs', hE⟩
    exact ⟨k1, k2, k3, k4, k5, by rw [← hq.1]; exact u1 r hr, k6⟩
  · rintro ⟨ms, rfl, hv, hc⟩
    obtain ⟨rs, g1, g2⟩ := zip_accept ms hv []
    obtain ⟨st, hst⟩ := accepts_of_compatible (rs := rs)
      (fun r hr => by obtain ⟨e, _, f, _, _, _, k, hk, _⟩ := g1.right_mem hr; exact ⟨k, hk⟩)
      (fun r hr => by obtain ⟨e, he, f, hq⟩ := g1.right_mem hr; rw [hq.1]; exact (hv e he).named.1)
      (fun r hr => by obtain ⟨e, he, f, hq⟩ := g1.right_mem hr; rw [hq.1]; exact (hv e he).named.2)
      ((zip_pairwise (fun _ _ h => h) g1).mpr hc)
    obtain ⟨cs, hrun⟩ := g2 _ _ hst
    show (Conv.zipRun ⟨Creator.new, []⟩ (ms.map .ok)).2 = .ok
    rw [hrun]

/-- a member with a NUL in its name is refused; the example is valid -/
example : (Conv.new.zipRun [.ok (zipMem [97, 0] false none [])]).2 = .source := by decide +kernel
example : (zipMem (ascii "d/../e/f") false none (ascii "hello")).Valid := by
  refine ⟨⟨1234, Or.inl rfl⟩, by decide +kernel, by decide +kernel, ?_, by decide +kernel, by decide +kernel, fun _ => ⟨_, rfl⟩⟩
  have : memberNames (zipMem (ascii "d/../e/f") false none (ascii "hello")).name = [ascii "d", PARENT, ascii "e", ascii "f"] := by decide +kernel
  rw [this]
  intro q hq
  have hz := zipDepth_inside [ascii "d", PARENT, ascii "e", ascii "f"] 0 (by decide +kernel) q
    (by rw [show ([ascii "d", PARENT, ascii "e", ascii "f"].filter (· ≠ CUR)) = [ascii "d", PARENT, ascii "e", ascii "f"] by decide +kernel]; exact hq)
  omega

end Arx
