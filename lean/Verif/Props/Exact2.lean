import Verif.Props.Adder4
/-!
# Archiving from a changing source (C36), exactly
-/
namespace Arx

theorem detectKind_call {env : CEnv} {t : Nat} {path p' : List Bytes} {follow : Bool} {st : Stat}
    (h : detectKind env t path follow = .ok (p', st)) : ∃ i, i < 3 ∧ env.call (t + i) (fun s => s.lstat p') = .ok st := by
  unfold detectKind at h
  cases h1 : env.call t (fun s => s.lstat path) with
  | error e => rw [h1] at h; cases h
  | ok attr =>
    rw [h1] at h
    simp only at h
    split at h
    · cases h2 : env.call (t + 1) (fun s => s.canonicalize path) with
      | error e => rw [h2] at h; cases h
      | ok p2 =>
        rw [h2] at h
        simp only at h
        cases h3 : env.call (t + 2) (fun s => s.lstat p2) with
        | error e => rw [h3] at h; cases h
        | ok attr2 => rw [h3] at h; cases h; exact ⟨2, by omega, h3⟩
    · cases h; exact ⟨0, by omega, h1⟩

/-- Where the size and the content of an archived file come from: `lstat` of some path at time `t1` gave the size, and
reading the same path at the later time `t2`, at most three calls after, gave the content. -/
def FileSeen (env : CEnv) (contents : List Bytes) (size : Nat) (c : ContentAddr) : Prop :=
  ∃ t1 t2 path st b, t1 < t2 ∧ t2 ≤ t1 + 3 ∧ env.call t1 (fun s => s.lstat path) = .ok st ∧ st.kind = .file size ∧
    env.call t2 (fun s => s.readFile path) = .ok b ∧ packBytes contents c = .found b

theorem newFromPath_seen {env : CEnv} {t : Nat} {cs cs' : List Bytes} {path : List Bytes} {arx : RPath} {follow : Bool} {r : AddReq}
    (h : newFromPath env t cs path arx follow = .ok (r, cs')) :
    (∀ size c, r.kind = .ok (some (.file size c)) → FileSeen env cs' size c) ∧
    (∀ a b, packBytes cs a = .found b → packBytes cs' a = .found b) := by
  unfold newFromPath at h
  cases hd : detectKind env t path follow with
  | error e => rw [hd] at h; cases h
  | ok y =>
    obtain ⟨p', st⟩ := y
    obtain ⟨i, hi, hl⟩ := detectKind_call hd
    rw [hd] at h
    simp only at h
    cases hk : st.kind with
    | dir => rw [hk] at h; cases h; exact ⟨(fun _ _ h => by cases h), fun _ _ h => h⟩
    | other => rw [hk] at h; cases h; exact ⟨(fun _ _ h => by cases h), fun _ _ h => h⟩
    | link =>
      rw [hk] at h
      simp only at h
      cases hc : env.call (t + 3) (fun s => s.readLink p') with
      | error e => rw [hc] at h; cases h
      | ok b => rw [hc] at h; cases h; exact ⟨(fun _ _ h => by cases h), fun _ _ h => h⟩
    | file size =>
      rw [hk] at h
      simp only at h
      cases hc : env.call (t + 3) (fun s => s.readFile p') with
      | error e => rw [hc] at h; cases h
      | ok b =>
        rw [hc] at h
        cases h
        refine ⟨?_, fun _ _ h => packBytes_mono h⟩
        intro sz c e
        cases e
        exact ⟨t + i, t + 3, p', st, b, by omega, by omega, hl, hk, hc, packBytes_add cs b⟩

theorem FileSeen.mono {env : CEnv} {cs cs' : List Bytes} {size : Nat} {c : ContentAddr}
    (h : ∀ a b, packBytes cs a = .found b → packBytes cs' a = .found b) (hf : FileSeen env cs size c) : FileSeen env cs' size c := by
  obtain ⟨t1, t2, p, st, b, h1, h2, h3, h4, h5, h6⟩ := hf
  exact ⟨t1, t2, p, st, b, h1, h2, h3, h4, h5, h _ _ h6⟩

theorem Adder.Reached.seen {env : CEnv} {a : Adder} (h : Adder.Reached env a) :
    ∃ rs, Creator.new.run rs = some a.creator ∧ ∀ r ∈ rs, ∀ size c,
      r.kind = .ok (some (.file size c)) → FileSeen env a.contents size c := by
  induction h with
  | new => exact ⟨[], rfl, (fun r hr => by cases hr)⟩
  | @step a a' o pre path follow _ hadd ho ih =>
    obtain ⟨rs, h1, h2⟩ := ih
    unfold Adder.addEntryFromPath at hadd
    cases hp : RPath.fromPathBuf path with
    | error e => rw [hp] at hadd; cases hadd; exact ⟨rs, h1, h2⟩
    | ok arx =>
      rw [hp] at hadd
      simp only at hadd
      cases hst : RPath.stripPrefix arx pre with
      | none => rw [hst] at hadd; cases hadd; exact ⟨rs, h1, h2⟩
      | some arx' =>
        rw [hst] at hadd
        simp only at hadd
        split at hadd
        · cases hadd; exact ⟨rs, h1, h2⟩
        · cases hn : newFromPath env a.tick a.contents (namesOf env.cwd path) arx' follow with
          | error e => rw [hn] at hadd; cases hadd; exact ⟨rs, h1, h2⟩
          | ok y =>
            obtain ⟨r, cs⟩ := y
            rw [hn] at hadd
            simp only at hadd
            obtain ⟨k1, k2⟩ := newFromPath_seen hn
            have done : ∀ st, Creator.new.run (rs ++ [r]) = some st →
                ∃ rs, Creator.new.run rs = some st ∧ ∀ r ∈ rs, ∀ size c,
                  r.kind = .ok (some (.file size c)) → FileSeen env cs size c := by
              intro st hst
              refine ⟨rs ++ [r], hst, ?_⟩
              intro r' hr' size c hk
              rcases List.mem_append.mp hr' with h | h
              · exact (h2 r' h size c hk).mono k2
              · simp only [List.mem_cons, List.not_mem_nil, or_false] at h
                subst h
                exact k1 size c hk
            cases ha : a.creator.addEntry r with
            | mk st out =>
              rw [ha] at hadd
              cases out with
              | ok => cases hadd; exact done _ (by rw [Creator.run_append, h1]; simp [Creator.run, ha])
              | err e => cases hadd; exact done _ (by rw [Creator.run_append, h1]; simp [Creator.run, ha])
              | panic => cases hadd; exact absurd rfl ho

/-- **C36, in full.** For any source, changing at any time, with any failing calls: every file entry of the
archive written was seen as a file of its size by `lstat`, and its content is what the same path contained when
it was read, at most three system calls later. (So the size is the length of the content unless the file changed between
these two calls.) -/
theorem C36_exact {env : CEnv} {a : Adder} (h : Adder.Reached env a) {o : List Nat}
    (hl : IsLayout a.creator o) (hlen : a.creator.store.length < 2 ^ 32) (i : Nat) (fe : FileEntry)
    (hi : (writeArchive a.creator o).getEntryAt fullBuilder i = .ok (.file fe)) :
    FileSeen env a.contents fe.size fe.content := by
  obtain ⟨rs, h1, h2⟩ := h.seen
  have hw : Written rs (writeArchive a.creator o) := ⟨_, o, h1, hl, rfl, hlen⟩
  obtain ⟨m, paths, hm, R⟩ := run_rel h1
  have hlt : i < (writeArchive a.creator o).entries.length := by
    refine Classical.byContradiction fun hn => ?_
    have : (writeArchive a.creator o).entries[i]? = none := List.getElem?_eq_none (by omega)
    rw [Archive.getEntryAt, Archive.create, this] at hi
    cases hi
  obtain ⟨p, n, e, _, g2, g3, g4, _⟩ := C08_parent_links hw hm i hlt
  rw [hi] at g3
  cases g3
  obtain ⟨_, _, _, g5⟩ := g4
  cases hk : n.kind with
  | dir => rw [hk] at g5; obtain ⟨_, _, e⟩ := g5; cases e
  | link t => rw [hk] at g5; obtain ⟨_, e, _⟩ := g5; cases e
  | file sz c =>
    rw [hk] at g5
    obtain ⟨f, ef, g5⟩ := g5
    cases ef
    rcases hm.kind_from_req p n g2 with h | h | ⟨r, hr, h⟩
    · cases h
    · rw [hk] at h; cases h
    · rw [hk] at h
      rw [g5.1, g5.2]
      exact h2 r hr sz c h

/-- the growing file of `C36_counterexample` meets the hypotheses -/
example : Adder.Reached growEnv growAdder ∧ IsLayout growAdder.creator [0, 1] ∧ growAdder.creator.store.length < 2 ^ 32 := by
  refine ⟨.step (o := .ok) [] (ascii "d/f") false .new ?_ (by simp), ⟨by decide, by decide⟩, by decide⟩
  have : (Adder.new.addEntryFromPath growEnv [] (ascii "d/f") false).2 = .ok := by decide
  rw [← this]; rfl

end Arx
