import Verif.Props.Adder3
/-!
# Sizes and times of archived files (C36, C50)
-/
namespace Arx

/-- `detect_kind` returns a path and what `lstat` says about it. -/
theorem detectKind_lstat {env : CEnv} {t : Nat} {path p' : List Bytes} {follow : Bool} {st : Stat} {s : Src}
    (hs : ∀ i, i < 4 → env.src (t + i) = s) (h : detectKind env t path follow = .ok (p', st)) : s.lstat p' = .ok st := by
  have call : ∀ {i : Nat} {p : List Bytes} {y : Stat}, i < 4 → env.call (t + i) (fun s => s.lstat p) = .ok y → s.lstat p = .ok y := by
    intro i p y hi h
    unfold CEnv.call at h
    split at h
    · cases h
    · rwa [hs i hi] at h
  unfold detectKind at h
  cases h1 : env.call t (fun s => s.lstat path) with
  | error e => rw [h1] at h; cases h
  | ok attr =>
    rw [h1] at h
    simp only at h
    split at h
    · cases h2 : env.call (t + 1) (fun s => s.canonicalize path) with
      | error e => rw [h2] at h; cases h
      | ok p2 =>
        rw [h2] at h
        simp only at h
        cases h3 : env.call (t + 2) (fun s => s.lstat p2) with
        | error e => rw [h3] at h; cases h
        | ok attr2 => rw [h3] at h; cases h; exact call (i := 2) (by omega) h3
    · cases h; exact call (i := 0) (by omega) h1

/-- In one state of the source, the size `lstat` gives for a file is the number of bytes read from it. -/
theorem Src.size_read {s : Src} {p : List Bytes} {st : Stat} {size : Nat} {b : Bytes} (h : s.lstat p = .ok st)
    (hk : st.kind = .file size) (hr : s.readFile p = .ok b) : b.length = size := by
  unfold Src.lstat at h
  cases hf : s.fs.resolve false p with
  | error e => rw [hf] at h; cases h
  | ok l =>
    cases l with
    | missing a c => rw [hf] at h; cases h
    | found q =>
      rw [hf] at h
      simp only [Src.statAt] at h
      cases hn : s.fs.nodes q with
      | none => rw [hn] at h; cases h
      | some x =>
        rw [hn] at h
        cases x with
        | dir t => simp only at h; cases h; cases hk
        | link a t => simp only at h; cases h; cases hk
        | file i =>
          simp only at h
          split at h
          · cases h; cases hk
          · rename_i hsp
            cases h
            simp only [SKind.file.injEq] at hk
            obtain ⟨k1, k2⟩ := FS.resolve_ok hf
            have ht := FS.resolve_of k1 (resAux_follow_of (q := q) (by rw [hn]; intro t s e; cases e) 40 p [] k2)
            unfold Src.readFile at hr
            rw [ht] at hr
            simp only [hn, hsp] at hr
            cases hr
            exact hk

/-- A file request from the source has the size of its content. -/
theorem newFromPath_size {env : CEnv} {t : Nat} {cs cs' : List Bytes} {path : List Bytes} {arx : RPath} {follow : Bool} {r : AddReq}
    {s : Src} (hs : ∀ i, i < 4 → env.src (t + i) = s) (h : newFromPath env t cs path arx follow = .ok (r, cs')) :
    (∀ size c, r.kind = .ok (some (.file size c)) → ∃ b, packBytes cs' c = .found b ∧ b.length = size) ∧
    (∀ a b, packBytes cs a = .found b → packBytes cs' a = .found b) := by
  unfold newFromPath at h
  cases hd : detectKind env t path follow with
  | error e => rw [hd] at h; cases h
  | ok y =>
    obtain ⟨p', st⟩ := y
    have hl := detectKind_lstat hs hd
    rw [hd] at h
    simp only at h
    cases hk : st.kind with
    | dir => rw [hk] at h; cases h; exact ⟨(fun _ _ h => by cases h), fun _ _ h => h⟩
    | other => rw [hk] at h; cases h; exact ⟨(fun _ _ h => by cases h), fun _ _ h => h⟩
    | link =>
      rw [hk] at h
      simp only at h
      cases hc : env.call (t + 3) (fun s => s.readLink p') with
      | error e => rw [hc] at h; cases h
      | ok b => rw [hc] at h; cases h; exact ⟨(fun _ _ h => by cases h), fun _ _ h => h⟩
    | file size =>
      rw [hk] at h
      simp only at h
      cases hc : env.call (t + 3) (fun s => s.readFile p') with
      | error e => rw [hc] at h; cases h
      | ok b =>
        rw [hc] at h
        cases h
        have hr : s.readFile p' = .ok b := by
          unfold CEnv.call at hc
          split at hc
          · cases hc
          · rwa [hs 3 (by omega)] at hc
        refine ⟨?_, fun _ _ h => packBytes_mono h⟩
        intro sz c e
        cases e
        exact ⟨b, packBytes_add cs b, Src.size_read hl hk hr⟩

theorem Adder.Reached.inv {env : CEnv} (hs : SteadyPerEntry env) {a : Adder} (h : Adder.Reached env a) :
    (∃ j, a.tick = 4 * j) ∧ ∃ rs, Creator.new.run rs = some a.creator ∧ ∀ r ∈ rs, ∀ size c,
      r.kind = .ok (some (.file size c)) → ∃ b, packBytes a.contents c = .found b ∧ b.length = size := by
  induction h with
  | new => exact ⟨⟨0, rfl⟩, [], rfl, (fun r hr => by cases hr)⟩
  | @step a a' o pre path follow _ hadd ho ih =>
    obtain ⟨⟨j, hj⟩, rs, h1, h2⟩ := ih
    unfold Adder.addEntryFromPath at hadd
    cases hp : RPath.fromPathBuf path with
    | error e => rw [hp] at hadd; cases hadd; exact ⟨⟨j, hj⟩, rs, h1, h2⟩
    | ok arx =>
      rw [hp] at hadd
      simp only at hadd
      cases hst : RPath.stripPrefix arx pre with
      | none => rw [hst] at hadd; cases hadd; exact ⟨⟨j, hj⟩, rs, h1, h2⟩
      | some arx' =>
        rw [hst] at hadd
        simp only at hadd
        split at hadd
        · cases hadd; exact ⟨⟨j, hj⟩, rs, h1, h2⟩
        · cases hn : newFromPath env a.tick a.contents (namesOf env.cwd path) arx' follow with
          | error e =>
            rw [hn] at hadd; cases hadd
            exact ⟨⟨j + 1, by simp only; omega⟩, rs, h1, h2⟩
          | ok y =>
            obtain ⟨r, cs⟩ := y
            rw [hn] at hadd
            simp only at hadd
            obtain ⟨k1, k2⟩ := newFromPath_size (s := env.src (4 * j)) (by rw [hj]; exact fun i hi => hs j i hi) hn
            have done : ∀ st, Creator.new.run (rs ++ [r]) = some st →
                (∃ j, a.tick + 4 = 4 * j) ∧ ∃ rs, Creator.new.run rs = some st ∧ ∀ r ∈ rs, ∀ size c,
                  r.kind = .ok (some (.file size c)) → ∃ b, packBytes cs c = .found b ∧ b.length = size := by
              intro st hst
              refine ⟨⟨j + 1, by omega⟩, rs ++ [r], hst, ?_⟩
              intro r' hr' size c hk
              rcases List.mem_append.mp hr' with h | h
              · obtain ⟨b, g1, g2⟩ := h2 r' h size c hk
                exact ⟨b, k2 _ _ g1, g2⟩
              · simp only [List.mem_cons, List.not_mem_nil, or_false] at h
                subst h
                exact k1 size c hk
            cases ha : a.creator.addEntry r with
            | mk st out =>
              rw [ha] at hadd
              cases out with
              | ok => cases hadd; exact done _ (by rw [Creator.run_append, h1]; simp [Creator.run, ha])
              | err e => cases hadd; exact done _ (by rw [Creator.run_append, h1]; simp [Creator.run, ha])
              | panic => cases hadd; exact absurd rfl ho

/-- **C36 (partial).** Take any archive written after adding any entries from the file system, where the
source does not change while one entry is looked at (it may between two entries; calls may fail). Then every
file entry read from it has as size the length of its content. Missing: a change between the calls of one
entry, see `C36_counterexample`. -/
theorem C36_size_partial {env : CEnv} (hs : SteadyPerEntry env) {a : Adder} (h : Adder.Reached env a) {o : List Nat}
    (hl : IsLayout a.creator o) (hlen : a.creator.store.length < 2 ^ 32) (i : Nat) (fe : FileEntry)
    (hi : (writeArchive a.creator o).getEntryAt fullBuilder i = .ok (.file fe)) :
    ∃ b, packBytes a.contents fe.content = .found b ∧ b.length = fe.size := by
  obtain ⟨_, rs, h1, h2⟩ := h.inv hs
  have hw : Written rs (writeArchive a.creator o) := ⟨_, o, h1, hl, rfl, hlen⟩
  obtain ⟨m, paths, hm, R⟩ := run_rel h1
  have hlt : i < (writeArchive a.creator o).entries.length := by
    refine Classical.byContradiction fun hn => ?_
    have : (writeArchive a.creator o).entries[i]? = none := List.getElem?_eq_none (by omega)
    rw [Archive.getEntryAt, Archive.create, this] at hi
    cases hi
  obtain ⟨p, n, e, _, g2, g3, g4, _⟩ := C08_parent_links hw hm i hlt
  rw [hi] at g3
  cases g3
  obtain ⟨_, _, _, g5⟩ := g4
  cases hk : n.kind with
  | dir => rw [hk] at g5; obtain ⟨_, _, e⟩ := g5; cases e
  | link t => rw [hk] at g5; obtain ⟨_, e, _⟩ := g5; cases e
  | file sz c =>
    rw [hk] at g5
    obtain ⟨f, ef, g5⟩ := g5
    cases ef
    rcases hm.kind_from_req p n g2 with h | h | ⟨r, hr, h⟩
    · cases h
    · rw [hk] at h; cases h
    · rw [hk] at h
      have := h2 r hr sz c h
      rw [g5.1, g5.2]
      exact this

/-- the hypotheses are met: the example source does not change, and an archive of `d/f` is written -/
def sizeAdder : Adder := (Adder.new.addEntryFromPath exEnv [] (ascii "d/f") false).1
example : SteadyPerEntry exEnv ∧ Adder.Reached exEnv sizeAdder ∧ IsLayout sizeAdder.creator [0, 1] ∧
    sizeAdder.creator.store.length < 2 ^ 32 ∧
    ∃ fe, (writeArchive sizeAdder.creator [0, 1]).getEntryAt fullBuilder 1 = .ok (.file fe) ∧ fe.size = 2 := by
  refine ⟨fun _ _ _ => rfl, .step (o := .ok) [] (ascii "d/f") false .new ?_ (by simp), ⟨by decide, by decide⟩, by decide, ?_⟩
  · have : (Adder.new.addEntryFromPath exEnv [] (ascii "d/f") false).2 = .ok := by decide
    rw [← this]; rfl
  · exact ⟨_, rfl, by decide⟩

/-- the source, where `d/f` grows from `hi` to `hi!!` between the third and the fourth call -/
def growEnv : CEnv where
  src t := if t < 3 then exSrc else { exSrc with fs := { exSrc.fs with data := fun _ => ⟨ascii "hi!!", 8000000000⟩ } }
  fault _ := false
  cwd := []

def growAdder : Adder := (Adder.new.addEntryFromPath growEnv [] (ascii "d/f") false).1

/-- **C36 is false in full**: a file that grows between the call that gets its size and the one that reads it
is archived with the old size and the new content: size 2, content of 4 bytes. -/
theorem C36_counterexample : (Adder.new.addEntryFromPath growEnv [] (ascii "d/f") false).2 = .ok ∧
    IsLayout growAdder.creator [0, 1] ∧
    ∃ fe, (writeArchive growAdder.creator [0, 1]).getEntryAt fullBuilder 1 = .ok (.file fe) ∧ fe.size = 2 ∧
      packBytes growAdder.contents fe.content = .found (ascii "hi!!") :=
  ⟨by decide, ⟨by decide, by decide⟩, _, rfl, by decide, by decide⟩

/-! ## C50: times before 1970 -/

/-- The time archived for an entry of the file system (dated `t` nanoseconds after 1970) is the number of the second it is in,
if that is not negative; a time before 1970 is archived as 2^64 minus the distance of its second to 1970. -/
theorem C50_archived_time (s : Src) (q : List Bytes) (t : Int) (h1 : -(2 ^ 63 * 10 ^ 9) ≤ t) (h2 : t < 2 ^ 63 * 10 ^ 9) :
    (0 ≤ t → ((s.info q t).mtime : Int) * 10 ^ 9 ≤ t ∧ t < ((s.info q t).mtime + 1) * 10 ^ 9) ∧
    (t < 0 → (((s.info q t).mtime : Int) - 2 ^ 64) * 10 ^ 9 ≤ t ∧ t < ((s.info q t).mtime - 2 ^ 64 + 1) * 10 ^ 9 ∧
      2 ^ 63 ≤ (s.info q t).mtime) := by
  have hm : (s.info q t).mtime = (seconds t % 2 ^ 64).toNat := rfl
  rw [hm]
  have hs : seconds t = t / 1000000000 := Int.fdiv_eq_ediv_of_nonneg _ (by decide)
  rw [hs]
  constructor
  · intro h0; omega
  · intro h0; omega

example (s : Src) : (s.info [] 1999999999).mtime = 1 ∧ (s.info [] (-1)).mtime = 2 ^ 64 - 1 := ⟨rfl, rfl⟩

/-- a file dated one second before 1970 -/
def pastSrc : Src := { exSrc with fs := { exSrc.fs with data := fun _ => ⟨ascii "hi", -1000000000⟩ } }
def pastEnv : CEnv := ⟨fun _ => pastSrc, fun _ => false, []⟩
def pastAdder : Adder := (Adder.new.addEntryFromPath pastEnv [] (ascii "d/f") false).1
def pastArchive : Archive := writeArchive pastAdder.creator [0, 1]

/-- **C50 is false**: an existing file dated before 1970 is archived without error, but then asking for its
attributes through the mount crashes the mount. -/
theorem C50_past_counterexample : Quiet pastEnv pastSrc ∧
    (Adder.new.addEntryFromPath pastEnv [] (ascii "d/f") false).2 = .ok ∧ IsLayout pastAdder.creator [0, 1] ∧
    (FsState.init.step ⟨pastArchive, pastArchive.root, packBytes pastAdder.contents⟩ (.lookup 2 (ascii "f"))).1 = .panic :=
  ⟨⟨fun _ => rfl, fun _ => rfl⟩, by decide, ⟨by decide, by decide⟩, by decide⟩

end Arx
