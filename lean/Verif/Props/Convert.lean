import Verif.Spec.Convert
import Verif.Proof.Accepted
import Verif.Proof.AdderProof
/-!
# Properties of the converters (C41, C42)
-/
namespace Arx

theorem Conv.add_ok {c c' : Conv} {r : AddReq} {cs : List Bytes} (h : c.add r cs = (c', .ok)) :
    c.creator.addEntry r = (c'.creator, .ok) ∧ c'.contents = cs := by
  unfold Conv.add at h
  revert h
  cases c.creator.addEntry r with
  | mk st o => intro h; cases o <;> cases h; exact ⟨rfl, rfl⟩

/-- the request made for a member, and the contents -/
def TarMember.ReqIs (e : TarMember) (bytes : ContentAddr → GetBytes) (r : AddReq) : Prop :=
  entryPath r.path = memberNames e.path ∧ e.HasMeta r.info ∧ ∃ k, r.kind = .ok (some k) ∧
    (e.Directory → k = .dir) ∧ (e.type = .symlink → ∃ t, e.linkName = some t ∧ k = .link t) ∧
    (e.FileLike → ∃ d c, e.data = .ok d ∧ k = .file d.length c ∧ bytes c = .found d)

theorem TarMember.toEntry_ok {e : TarMember} {cs cs' : List Bytes} {o : Option AddReq} (h : e.toEntry cs = .ok (o, cs')) :
    (∀ a b, packBytes cs a = .found b → packBytes cs' a = .found b) ∧
    ((e.Ignored ∧ o = none) ∨ (¬ e.Ignored ∧ ∃ r, o = some r ∧ e.ReqIs (packBytes cs') r)) := by
  unfold TarMember.toEntry at h
  cases h1 : e.uid with
  | error u => rw [h1] at h; cases h
  | ok uid =>
  cases h2 : e.gid with
  | error u => rw [h1, h2] at h; cases h
  | ok gid =>
  cases h3 : e.mtime with
  | error u => rw [h1, h2, h3] at h; cases h
  | ok mtime =>
  cases h4 : e.mode with
  | error u => rw [h1, h2, h3, h4] at h; cases h
  | ok mode =>
  rw [h1, h2, h3, h4] at h
  simp only at h
  cases h5 : RPath.fromPathBuf e.path with
  | error u => rw [h5] at h; cases h
  | ok path =>
    rw [h5] at h
    simp only at h
    have hp : entryPath path = memberNames e.path := by
      rw [fromPathBuf_eq] at h5
      split at h5
      · cases h5
      · split at h5
        · cases h5
          exact entryPath_joinPath (fun c hc => filterCur_valid hc) (fun c hc => by simpa using (List.mem_filter.mp hc).2)
        · cases h5
    have hmeta : e.HasMeta ⟨uid, gid, mode, mtime⟩ := ⟨h1, h2, h4, h3⟩
    have same : cs' = cs → ∀ a b, packBytes cs a = .found b → packBytes cs' a = .found b := by
      rintro rfl; exact fun _ _ h => h
    have ign : e.Ignored → o = none ∧ cs' = cs := by
      rintro (ht | ht | ht | ht) <;> rw [ht] at h <;> cases h <;> exact ⟨rfl, rfl⟩
    by_cases hi : e.Ignored
    · exact ⟨same (ign hi).2, Or.inl ⟨hi, (ign hi).1⟩⟩
    · -- directories, links and files
      have fin : ∀ k, o = some ⟨path, .ok (some k), ⟨uid, gid, mode, mtime⟩⟩ →
          (e.Directory → k = .dir) → (e.type = .symlink → ∃ t, e.linkName = some t ∧ k = .link t) →
          (e.FileLike → ∃ d c, e.data = .ok d ∧ k = .file d.length c ∧ packBytes cs' c = .found d) →
          ∃ r, o = some r ∧ e.ReqIs (packBytes cs') r :=
        fun k ho g1 g2 g3 => ⟨_, ho, hp, hmeta, k, rfl, g1, g2, g3⟩
      have fileCase : (e.type = .regular ∨ e.type = .hardLink ∨ e.type = .other) →
          (if e.ustar = false ∧ e.headerPath.getLast? = some SEP then
            (.ok (some ⟨path, .ok (some .dir), ⟨uid, gid, mode, mtime⟩⟩, cs) : Except COut (Option AddReq × List Bytes))
          else match e.data with
            | .error _ => .error .source
            | .ok data => .ok (some ⟨path, .ok (some (.file data.length (addContent cs data).1)), ⟨uid, gid, mode, mtime⟩⟩, (addContent cs data).2)) =
          .ok (o, cs') →
          (∀ a b, packBytes cs a = .found b → packBytes cs' a = .found b) ∧ ∃ r, o = some r ∧ e.ReqIs (packBytes cs') r := by
        intro ht h
        have hns : e.type ≠ .symlink := by rcases ht with ht | ht | ht <;> rw [ht] <;> simp
        split at h
        · rename_i hc
          cases h
          exact ⟨fun _ _ h => h, fin .dir rfl (fun _ => rfl) (fun h => absurd h hns) (fun h => absurd hc h.2)⟩
        · rename_i hc
          cases hd : e.data with
          | error u => rw [hd] at h; cases h
          | ok d =>
            rw [hd] at h
            cases h
            refine ⟨fun _ _ h => packBytes_mono h, fin _ rfl ?_ (fun h => absurd h hns) (fun _ => ⟨d, _, hd, rfl, packBytes_add cs d⟩)⟩
            rintro (hd | ⟨_, hd⟩)
            · rcases ht with ht | ht | ht <;> rw [ht] at hd <;> cases hd
            · exact absurd hd hc
      cases ht : e.type with
      | directory =>
        rw [ht] at h
        cases h
        exact ⟨fun _ _ h => h, Or.inr ⟨hi, fin .dir rfl (fun _ => rfl) (fun h => by rw [ht] at h; cases h)
          (fun h => by rcases h.1 with h | h | h <;> rw [ht] at h <;> cases h)⟩⟩
      | symlink =>
        rw [ht] at h
        simp only at h
        cases hl : e.linkName with
        | none => rw [hl] at h; cases h
        | some t =>
          rw [hl] at h
          cases h
          refine ⟨fun _ _ h => h, Or.inr ⟨hi, fin (.link t) rfl ?_ (fun _ => ⟨t, hl, rfl⟩)
            (fun h => by rcases h.1 with h | h | h <;> rw [ht] at h <;> cases h)⟩⟩
          rintro (h | ⟨h, _⟩)
          · rw [ht] at h; cases h
          · rcases h with h | h | h <;> rw [ht] at h <;> cases h
      | longName => exact absurd (Or.inl ht) hi
      | longLink => exact absurd (Or.inr (Or.inl ht)) hi
      | xHeader => exact absurd (Or.inr (Or.inr (Or.inl ht))) hi
      | xGlobalHeader => exact absurd (Or.inr (Or.inr (Or.inr ht))) hi
      | regular => rw [ht] at h; obtain ⟨g1, g2⟩ := fileCase (Or.inl ht) h; exact ⟨g1, Or.inr ⟨hi, g2⟩⟩
      | hardLink => rw [ht] at h; obtain ⟨g1, g2⟩ := fileCase (Or.inr (Or.inl ht)) h; exact ⟨g1, Or.inr ⟨hi, g2⟩⟩
      | other => rw [ht] at h; obtain ⟨g1, g2⟩ := fileCase (Or.inr (Or.inr ht)) h; exact ⟨g1, Or.inr ⟨hi, g2⟩⟩

theorem TarMember.ReqIs.mono {e : TarMember} {f g : ContentAddr → GetBytes} {r : AddReq} (h : e.ReqIs f r)
    (hfg : ∀ a b, f a = .found b → g a = .found b) : e.ReqIs g r := by
  obtain ⟨h1, h2, k, h3, h4, h5, h6⟩ := h
  exact ⟨h1, h2, k, h3, h4, h5, fun hf => by obtain ⟨d, c, g1, g2, g3⟩ := h6 hf; exact ⟨d, c, g1, g2, hfg _ _ g3⟩⟩

/-- A finished tar conversion: every member that is not ignored has been added, in order. -/
theorem Conv.tarRun_ok : ∀ (items : List (Except Unit TarMember)) (c c' : Conv), c.tarRun items = (c', .ok) →
    (∀ a b, packBytes c.contents a = .found b → packBytes c'.contents a = .found b) ∧
    ∃ rs, Accepts c.creator rs c'.creator ∧
      (∀ r ∈ rs, ∃ e, .ok e ∈ items ∧ ¬ e.Ignored ∧ e.ReqIs (packBytes c'.contents) r) ∧
      ∀ A e B, items = A ++ .ok e :: B → e.Ignored ∨ (¬ e.Ignored ∧ ∃ pre r post, rs = pre ++ r :: post ∧
        e.ReqIs (packBytes c'.contents) r ∧
        ∀ r' ∈ pre, ∃ e', .ok e' ∈ A ∧ ¬ e'.Ignored ∧ entryPath r'.path = memberNames e'.path) := by
  intro items
  induction items with
  | nil =>
    intro c c' h
    cases h
    exact ⟨fun _ _ h => h, [], .nil _, (fun r hr => by cases hr), (fun A e B h => by cases A <;> cases h)⟩
  | cons x rest ih =>
    intro c c' h
    cases x with
    | error u => cases h
    | ok e =>
      simp only [Conv.tarRun] at h
      cases hE : e.toEntry c.contents with
      | error o => rw [hE] at h; simp only at h; cases h; unfold TarMember.toEntry at hE; split at hE <;> (try split at hE) <;> (try split at hE) <;> (try split at hE) <;> (try split at hE) <;> cases hE
      | ok y =>
        obtain ⟨o, cs⟩ := y
        obtain ⟨hmono, hcase⟩ := TarMember.toEntry_ok hE
        rw [hE] at h
        rcases hcase with ⟨hi, rfl⟩ | ⟨hi, r, rfl, hr⟩
        · simp only at h
          obtain ⟨g1, rs, g2, g3, g4⟩ := ih ⟨c.creator, cs⟩ c' h
          refine ⟨fun a b hab => g1 a b (hmono a b hab), rs, g2, ?_, ?_⟩
          · intro r hr; obtain ⟨e', k1, k2⟩ := g3 r hr; exact ⟨e', by simp [k1], k2⟩
          · intro A e' B hs
            cases A with
            | nil => cases hs; exact Or.inl hi
            | cons a A =>
              cases hs
              rcases g4 A e' B rfl with g | ⟨g, pre, r, post, k1, k2, k3⟩
              · exact Or.inl g
              · exact Or.inr ⟨g, pre, r, post, k1, k2, fun r' hr' => by obtain ⟨e2, l1, l2⟩ := k3 r' hr'; exact ⟨e2, by simp [l1], l2⟩⟩
        · simp only at h
          cases hadd : c.add r cs with
          | mk c1 o =>
            rw [hadd] at h
            cases o with
            | source => cases h
            | add e => cases h
            | panic => cases h
            | ok =>
              simp only at h
              obtain ⟨hacc, hcs⟩ := Conv.add_ok hadd
              obtain ⟨g1, rs, g2, g3, g4⟩ := ih c1 c' h
              rw [hcs] at g1
              refine ⟨fun a b hab => g1 a b (hmono a b hab), r :: rs, .cons hacc g2, ?_, ?_⟩
              · intro r2 hr2
                rcases List.mem_cons.mp hr2 with rfl | hr2
                · exact ⟨e, by simp, hi, hr.mono g1⟩
                · obtain ⟨e', k1, k2⟩ := g3 r2 hr2; exact ⟨e', by simp [k1], k2⟩
              · intro A e' B hs
                cases A with
                | nil => cases hs; exact Or.inr ⟨hi, [], r, rs, rfl, hr.mono g1, (fun _ h => by cases h)⟩
                | cons a A =>
                  cases hs
                  rcases g4 A e' B rfl with g | ⟨g, pre, r2, post, k1, k2, k3⟩
                  · exact Or.inl g
                  · refine Or.inr ⟨g, r :: pre, r2, post, by rw [k1]; rfl, k2, fun r' hr' => ?_⟩
                    rcases List.mem_cons.mp hr' with rfl | hr'
                    · exact ⟨e, by simp, hi, hr.1⟩
                    · obtain ⟨e2, l1, l2⟩ := k3 r' hr'; exact ⟨e2, by simp [l1], l2⟩

/-- **C41 (partial).** If the conversion of a tar archive succeeds, the archive contains, for every member that
is not a mere extension header, an entry at its path:
* a symbolic link with the member's target and metadata;
* a regular file (also a device, …) with the member's data and metadata;
* a directory; with the member's metadata if no earlier member has a path at or below it;
and nothing but these and the directories leading to them.
Missing: the content of hard links, the metadata of a directory that follows its content, and members that
make the conversion crash, see `C41_counterexamples`. -/
theorem C41_tar_partial {items : List (Except Unit TarMember)} {c : Conv} (h : Conv.new.tarRun items = (c, .ok)) :
    ∃ rs m, Creator.new.run rs = some c.creator ∧ SpecRun PathMap.empty rs m ∧
      (∀ A e B, items = A ++ .ok e :: B → ¬ e.Ignored → ∃ info, e.HasMeta info ∧ memberNames e.path ≠ [] ∧
        (e.type = .symlink → ∃ t, e.linkName = some t ∧ m (memberNames e.path) = some ⟨info, .link t⟩) ∧
        (e.FileLike → ∃ d a, e.data = .ok d ∧ packBytes c.contents a = .found d ∧
          m (memberNames e.path) = some ⟨info, .file d.length a⟩) ∧
        (e.Directory → ∃ n, m (memberNames e.path) = some n ∧ n.isDir = true ∧
          ((∀ e', .ok e' ∈ A → ¬ e'.Ignored → ¬ memberNames e.path <+: memberNames e'.path) → n.info = info))) ∧
      (∀ p n, m p = some n → ∃ e, .ok e ∈ items ∧ ¬ e.Ignored ∧ p <+: memberNames e.path) := by
  obtain ⟨_, rs, hacc, hfrom, hall⟩ := Conv.tarRun_ok items _ _ h
  obtain ⟨m, paths, hm, R⟩ := run_rel hacc.run
  refine ⟨rs, m, hacc.run, hm, ?_, ?_⟩
  · intro A e B hs hi
    rcases hall A e B hs with h | ⟨_, pre, r, post, rfl, hr, hpre⟩
    · exact absurd h hi
    · obtain ⟨h1, h2, k, h3, h4, h5, h6⟩ := hr
      obtain ⟨g1, g2, g3⟩ := Accepts.entry hacc hm h3
      rw [h1] at g1 g2 g3
      refine ⟨r.info, h2, g1, ?_, ?_, ?_⟩
      · intro ht
        obtain ⟨t, k1, rfl⟩ := h5 ht
        exact ⟨t, k1, g2 (by simp)⟩
      · intro ht
        obtain ⟨d, a, k1, rfl, k2⟩ := h6 ht
        exact ⟨d, a, k1, k2, g2 (by simp)⟩
      · intro ht
        have := h4 ht; subst this
        obtain ⟨n, k1, k2, k3⟩ := g3 rfl
        refine ⟨n, k1, k2, fun hA => k3 fun r' hr' => ?_⟩
        obtain ⟨e', l1, l2, l3⟩ := hpre r' hr'
        rw [l3]; exact hA e' l1 l2
  · intro p n hp
    rcases hm.from_req p n hp with ⟨x, hx⟩ | ⟨r, hr, hpr⟩
    · cases hx
    · obtain ⟨e, k1, k2, k3⟩ := hfrom r hr
      exact ⟨e, k1, k2, by rw [← k3.1]; exact hpr⟩

theorem TarMember.Valid.toEntry {e : TarMember} (h : e.Valid) (cs : List Bytes) : ∃ o cs', e.toEntry cs = .ok (o, cs') := by
  obtain ⟨⟨i, h1, h2, h3, h4⟩, h5, h6, h7, h8, h9⟩ := h
  have hp : RPath.fromPathBuf e.path = .ok (joinPath ((comps e.path).filter (· ≠ CUR))) := by
    rw [fromPathBuf_eq, if_neg h5, if_pos h6]
  unfold TarMember.toEntry
  rw [h1, h2, h3, h4]
  simp only
  rw [hp]
  simp only
  have file : (e.type = .regular ∨ e.type = .hardLink ∨ e.type = .other) → ∃ o cs',
      (if e.ustar = false ∧ e.headerPath.getLast? = some SEP then
        (.ok (some ⟨joinPath ((comps e.path).filter (· ≠ CUR)), .ok (some .dir), ⟨i.owner, i.group, i.rights, i.mtime⟩⟩, cs) : Except COut (Option AddReq × List Bytes))
      else match e.data with
        | .error _ => .error .source
        | .ok data => .ok (some ⟨joinPath ((comps e.path).filter (· ≠ CUR)), .ok (some (.file data.length (addContent cs data).1)), ⟨i.owner, i.group, i.rights, i.mtime⟩⟩, (addContent cs data).2)) =
      .ok (o, cs') := by
    intro ht
    split
    · exact ⟨_, _, rfl⟩
    · rename_i hc
      obtain ⟨b, hb⟩ := h9 ⟨ht, hc⟩
      rw [hb]
      exact ⟨_, _, rfl⟩
  cases ht : e.type with
  | directory => exact ⟨_, _, rfl⟩
  | symlink =>
    obtain ⟨t, hl⟩ := h8 ht
    simp only [hl]
    exact ⟨_, _, rfl⟩
  | longName => exact ⟨_, _, rfl⟩
  | longLink => exact ⟨_, _, rfl⟩
  | xHeader => exact ⟨_, _, rfl⟩
  | xGlobalHeader => exact ⟨_, _, rfl⟩
  | regular => exact file (Or.inl ht)
  | hardLink => exact file (Or.inr (Or.inl ht))
  | other => exact file (Or.inr (Or.inr ht))

theorem tar_requests : ∀ (ms : List TarMember), (∀ e ∈ ms, e.Valid) → ∀ cs : List Bytes, ∃ rs : List AddReq,
    (∀ r ∈ rs, ∃ e ∈ ms, ¬ e.Ignored ∧ ∃ f, e.ReqIs f r) ∧
    (ms.Pairwise TarMember.Compatible → rs.Pairwise Compatible) ∧
    ∀ st st', Accepts st rs st' → ∃ cs', Conv.tarRun ⟨st, cs⟩ (ms.map .ok) = (⟨st', cs'⟩, .ok) := by
  intro ms
  induction ms with
  | nil =>
    intro _ cs
    exact ⟨[], (fun r hr => by cases hr), fun _ => .nil, fun st st' h => by cases h; exact ⟨cs, rfl⟩⟩
  | cons e ms ih =>
    intro hv cs
    obtain ⟨o, cs1, hE⟩ := (hv e (by simp)).toEntry cs
    obtain ⟨_, hcase⟩ := TarMember.toEntry_ok hE
    obtain ⟨rs, g1, g2, g3⟩ := ih (fun e' he' => hv e' (by simp [he'])) cs1
    rcases hcase with ⟨hi, rfl⟩ | ⟨hi, r, rfl, hr⟩
    · refine ⟨rs, ?_, ?_, ?_⟩
      · intro r hr; obtain ⟨e', k1, k2⟩ := g1 r hr; exact ⟨e', by simp [k1], k2⟩
      · intro hp; exact g2 (List.pairwise_cons.mp hp).2
      · intro st st' h
        obtain ⟨cs', hrun⟩ := g3 st st' h
        exact ⟨cs', by simp only [List.map_cons, Conv.tarRun, hE, hrun]⟩
    · refine ⟨r :: rs, ?_, ?_, ?_⟩
      · intro r' hr'
        rcases List.mem_cons.mp hr' with rfl | hr'
        · exact ⟨e, by simp, hi, _, hr⟩
        · obtain ⟨e', k1, k2⟩ := g1 r' hr'; exact ⟨e', by simp [k1], k2⟩
      · intro hp
        obtain ⟨p1, p2⟩ := List.pairwise_cons.mp hp
        refine List.pairwise_cons.mpr ⟨fun r' hr' => ?_, g2 p2⟩
        obtain ⟨e', k1, k2, f, k3⟩ := g1 r' hr'
        have nd : ∀ {e : TarMember} {f} {r : AddReq}, e.ReqIs f r → r.kind ≠ .ok (some .dir) → ¬ e.Directory := by
          rintro e f r ⟨_, _, k, h1, h2, _⟩ h3 hd
          exact h3 (by rw [h1, h2 hd])
        rcases p1 e' k1 with h | h | ⟨c1, c2⟩
        · exact absurd h hi
        · exact absurd h k2
        · refine ⟨fun hk => ?_, fun hk => ?_⟩
          · rw [hr.1, k3.1]; exact c1 (nd hr hk)
          · rw [hr.1, k3.1]; exact c2 (nd k3 hk)
      · intro st st' h
        cases h with
        | @cons _ st1 _ _ _ h1 h2 =>
          obtain ⟨cs', hrun⟩ := g3 st1 st' h2
          refine ⟨cs', ?_⟩
          have hadd : Conv.add ⟨st, cs⟩ r cs1 = (⟨st1, cs1⟩, .ok) := by simp only [Conv.add, h1]
          simp only [List.map_cons, Conv.tarRun, hE, hadd, hrun]

/-- **C41, acceptance.** A tar archive of valid members whose paths are not in conflict is converted. -/
theorem C41_accepts {ms : List TarMember} (hv : ∀ e ∈ ms, e.Valid) (hc : ms.Pairwise TarMember.Compatible) :
    ∃ c, Conv.new.tarRun (ms.map .ok) = (c, .ok) := by
  obtain ⟨rs, g1, g2, g3⟩ := tar_requests ms hv []
  have hp : ∀ r ∈ rs, entryPath r.path ≠ [] ∧ (entryPath r.path).getLast? ≠ some PARENT := by
    intro r hr
    obtain ⟨e, k1, k2, f, k3⟩ := g1 r hr
    rw [k3.1]; exact (hv e k1).named k2
  obtain ⟨st, hst⟩ := accepts_of_compatible (rs := rs)
    (fun r hr => by obtain ⟨e, _, _, f, _, _, k, h, _⟩ := g1 r hr; exact ⟨k, h⟩)
    (fun r hr => (hp r hr).1) (fun r hr => (hp r hr).2) (g2 hc)
  obtain ⟨cs, h⟩ := g3 _ _ hst
  exact ⟨⟨st, cs⟩, h⟩

end Arx
