import Verif.Spec.ContentRead
import Verif.Props.Output
import Verif.Props.Mount2
import Verif.Props.Python
import Verif.Props.Extract
/-!
# C106: contents that cannot be read
-/
namespace Arx

theorem PyStream.readExact_spec (evs : List ReadEv) : ∀ (s : PyStream) (n : Nat), s.offset + n ≤ s.content.length →
    (s.readExact evs n).2.content = s.content ∧
    (((s.readExact evs n).1 = some ((s.content.drop s.offset).take n) ∧ (s.readExact evs n).2.offset = s.offset + n) ∨
     ((s.readExact evs n).1 = none ∧ Faulty evs ∧ s.offset ≤ (s.readExact evs n).2.offset ∧
      (s.readExact evs n).2.offset < s.offset + n)) := by
  induction evs with
  | nil =>
    intro s n hn
    cases n with
    | zero => simp [PyStream.readExact]
    | succ n =>
      have : min (n + 1) s.sizeLeft = n + 1 := Nat.min_eq_left (by simp only [PyStream.sizeLeft]; omega)
      simp only [PyStream.readExact, this, if_pos]
      exact ⟨trivial, .inl ⟨trivial, trivial⟩⟩
  | cons e evs ih =>
    intro s n hn
    have hF : Faulty evs → Faulty (e :: evs) := by
      rintro (h | h)
      · exact .inl (List.mem_cons_of_mem _ h)
      · exact .inr (List.mem_cons_of_mem _ h)
    cases n with
    | zero => cases e <;> simp [PyStream.readExact]
    | succ n =>
      cases e with
      | interrupted =>
        simp only [PyStream.readExact]
        obtain ⟨h1, h2⟩ := ih s (n + 1) hn
        refine ⟨h1, h2.imp id ?_⟩
        rintro ⟨a, b, c⟩
        exact ⟨a, hF b, c⟩
      | fail =>
        simp only [PyStream.readExact]
        exact ⟨trivial, .inr ⟨trivial, .inl (by simp), Nat.le_refl _, by omega⟩⟩
      | got k =>
        simp only [PyStream.readExact]
        split
        · rename_i h0
          have : k = 0 := by simp only [PyStream.sizeLeft] at h0; omega
          subst this
          exact ⟨rfl, .inr ⟨rfl, .inr (by simp), Nat.le_refl _, by simp⟩⟩
        · rename_i h0
          have hle : min k (min (n + 1) s.sizeLeft) ≤ n + 1 := by omega
          generalize hk : min k (min (n + 1) s.sizeLeft) = k' at *
          obtain ⟨h1, h2⟩ := ih { s with offset := s.offset + k' } (n + 1 - k') (by simp only; omega)
          refine ⟨h1, ?_⟩
          rcases h2 with ⟨a, b⟩ | ⟨a, b, c, d⟩
          · refine .inl ⟨?_, ?_⟩
            · rw [a]
              simp only [Option.map_some, Option.some.injEq]
              rw [← List.drop_drop, ← List.take_add]
              congr 1
              omega
            · rw [b]; simp only; omega
          · refine .inr ⟨by rw [a]; rfl, hF b, ?_, ?_⟩
            · simp only at c ⊢; omega
            · simp only at d ⊢; omega

theorem PyStream.tryReads_spec (content : Bytes) (reads : List (Nat × List ReadEv)) : ∀ pos, pos ≤ content.length →
    let r := PyStream.tryReads ⟨content, pos⟩ reads
    ReadTrace content pos reads r.1 r.2.offset ∧ r.2.content = content ∧ r.2.offset ≤ content.length := by
  induction reads with
  | nil => intro pos hp; exact ⟨.nil pos, rfl, hp⟩
  | cons x rest ih =>
    obtain ⟨n, evs⟩ := x
    intro pos hp
    simp only [PyStream.tryReads, PyStream.tryRead]
    have hs := PyStream.readExact_spec evs ⟨content, pos⟩ (min n (content.length - pos)) (by simp only; omega)
    simp only [PyStream.sizeLeft]
    generalize hr : PyStream.readExact evs ⟨content, pos⟩ (min n (content.length - pos)) = r at *
    obtain ⟨res, c, o⟩ := r
    simp only at hs ⊢
    obtain ⟨rfl, h⟩ := hs
    rcases h with ⟨rfl, rfl⟩ | ⟨rfl, hf, h1, h2⟩
    · obtain ⟨k1, k2, k3⟩ := ih (pos + min n (c.length - pos)) (by omega)
      have hb : (c.drop pos).take (min n (c.length - pos)) = (c.drop pos).take n := by
        rw [List.take_eq_take_iff]; simp
      refine ⟨.ok hb ?_, k2, k3⟩
      have hl : ((c.drop pos).take (min n (c.length - pos))).length = min n (c.length - pos) := by simp
      rw [hl]; exact k1
    · obtain ⟨k1, k2, k3⟩ := ih o (by omega)
      exact ⟨.raised hf h1 (by omega) (by omega) k1, k2, k3⟩

/-- **C106, Python.** Whatever is read from a stream, in whatever pieces, whatever happens to the calls that read the
content (failures at any moment, partial reads, interruptions), and even if the program goes on after an exception: a
`read` that returns gives the bytes at the position `tell()` told, as many as asked for or as there are; one raises only
if a call failed; and `tell() + size_left() == size()`, before and after. -/
theorem C106_python (content : Bytes) (reads : List (Nat × List ReadEv)) :
    let r := PyStream.tryReads ⟨content, 0⟩ reads
    ReadTrace content 0 reads r.1 r.2.tell ∧ r.2.tell + r.2.sizeLeft = r.2.size ∧ r.2.size = content.length := by
  obtain ⟨h1, h2, h3⟩ := PyStream.tryReads_spec content reads 0 (Nat.zero_le _)
  refine ⟨h1, ?_, ?_⟩
  · simp only [PyStream.tell, PyStream.sizeLeft, PyStream.size]
    rw [h2]; omega
  · simp only [PyStream.size]; rw [h2]

/-- a read in three calls, one that fails after two bytes, and one that goes on behind these -/
example : (PyStream.tryReads ⟨ascii "hello world", 0⟩
      [(5, [.got 2, .interrupted, .got 1]), (4, [.got 2, .fail]), (10, [])]) =
    ([some (ascii "hello"), none, some (ascii "orld")], ⟨ascii "hello world", 11⟩) := by decide +kernel

theorem ReadTrace.no_fault {content : Bytes} {pos pos' : Nat} {reads : List (Nat × List ReadEv)} {res : List (Option Bytes)}
    (h : ReadTrace content pos reads res pos') (hp : pos ≤ content.length) (hok : ∀ r ∈ res, r ≠ none) :
    (res.filterMap id).flatten = (content.drop pos).take (reads.map (·.1)).sum ∧ pos' = pos + (res.filterMap id).flatten.length := by
  induction h with
  | nil pos => simp
  | @ok pos pos' n evs b rest res hb _ ih =>
    have hl : b.length = min n (content.length - pos) := by rw [hb]; simp
    obtain ⟨h1, h2⟩ := ih (by omega) (fun r hr => hok r (List.mem_cons_of_mem _ hr))
    simp only [List.filterMap_cons, id_eq, List.flatten_cons, List.map_cons, List.sum_cons, List.length_append]
    refine ⟨?_, by omega⟩
    rw [h1]
    by_cases hn : n ≤ content.length - pos
    · rw [hl, Nat.min_eq_left hn, hb, ← List.drop_drop, ← List.take_add]
    · have e1 : content.drop (pos + (content.length - pos)) = [] := List.drop_of_length_le (by omega)
      have e2 : (content.drop pos).take n = content.drop pos := List.take_of_length_le (by simp; omega)
      have e3 : (content.drop pos).take (n + (rest.map (·.1)).sum) = content.drop pos := List.take_of_length_le (by simp; omega)
      rw [hl, Nat.min_eq_right (by omega), hb, e1, e2, e3, List.take_nil, List.append_nil]
  | raised => exact absurd rfl (hok none (by simp))

/-- **C106, Python.** If no exception is raised, what was read is the beginning of the content. -/
theorem C106_python_all (content : Bytes) (reads : List (Nat × List ReadEv)) :
    let r := PyStream.tryReads ⟨content, 0⟩ reads
    (∀ x ∈ r.1, x ≠ none) → (r.1.filterMap id).flatten = content.take (reads.map (·.1)).sum := by
  intro r h
  have := (C106_python content reads).1.no_fault (Nat.zero_le _) h
  simpa using this.1

/-! ## `arx dump` -/

theorem copyReads_spec (evs : List ReadEv) : ∀ b : Bytes, ReadEv.got 0 ∉ evs →
    (copyReads evs b).1.flatten <+: b ∧
    ((copyReads evs b).2 = true → (copyReads evs b).1.flatten = b ∧ ¬ FailsBefore b.length evs) ∧
    ((copyReads evs b).2 = false → FailsBefore b.length evs) := by
  induction evs with
  | nil =>
    intro b _
    have hn : ¬ FailsBefore b.length [] := by
      rintro ⟨pre, post, h, _⟩
      cases pre <;> simp at h
    cases b with
    | nil => simpa [copyReads] using hn
    | cons x b => simpa [copyReads] using hn
  | cons e evs ih =>
    intro b h0
    have h0' : ReadEv.got 0 ∉ evs := fun h => h0 (List.mem_cons_of_mem _ h)
    cases b with
    | nil =>
      have hn : ¬ FailsBefore 0 (e :: evs) := by
        rintro ⟨pre, post, _, h⟩
        omega
      cases e <;> simpa [copyReads] using hn
    | cons x b =>
      cases e with
      | interrupted =>
        simp only [copyReads]
        obtain ⟨h1, h2, h3⟩ := ih (x :: b) h0'
        have hiff : FailsBefore (x :: b).length (.interrupted :: evs) ↔ FailsBefore (x :: b).length evs := by
          constructor
          · rintro ⟨pre, post, h, hl⟩
            cases pre with
            | nil => simp at h
            | cons p pre =>
              simp only [List.cons_append, List.cons.injEq] at h
              obtain ⟨rfl, rfl⟩ := h
              exact ⟨pre, post, rfl, hl⟩
          · rintro ⟨pre, post, rfl, hl⟩
            exact ⟨.interrupted :: pre, post, rfl, hl⟩
        rw [hiff]
        exact ⟨h1, h2, h3⟩
      | fail =>
        simp only [copyReads]
        exact ⟨by simp, by simp, fun _ => ⟨[], evs, rfl, by simp [gotten]⟩⟩
      | got k =>
        have hk : k ≠ 0 := by rintro rfl; exact h0 (by simp)
        simp only [copyReads, if_neg hk]
        obtain ⟨h1, h2, h3⟩ := ih ((x :: b).drop k) h0'
        have hiff : FailsBefore (x :: b).length (.got k :: evs) ↔ FailsBefore ((x :: b).drop k).length evs := by
          constructor
          · rintro ⟨pre, post, h, hl⟩
            cases pre with
            | nil => simp at h
            | cons p pre =>
              simp only [List.cons_append, List.cons.injEq] at h
              obtain ⟨rfl, rfl⟩ := h
              refine ⟨pre, post, rfl, ?_⟩
              simp only [gotten] at hl
              rw [List.length_drop]; omega
          · rintro ⟨pre, post, rfl, hl⟩
            refine ⟨.got k :: pre, post, rfl, ?_⟩
            rw [List.length_drop] at hl
            simp only [gotten]; omega
        rw [hiff]
        refine ⟨?_, fun h => ⟨?_, (h2 h).2⟩, h3⟩
        · rw [List.flatten_cons]
          obtain ⟨t, ht⟩ := h1
          exact ⟨t, by rw [List.append_assoc, ht, List.take_append_drop]⟩
        · rw [List.flatten_cons, (h2 h).1, List.take_append_drop]

/-- **C106, `arx dump`.** The path leads to a file of the archive, whose content is `b`; its reads and the writes to standard output may
fail at any moment, read and write less than asked for, and be interrupted (a read gives nothing only at the end). What
is delivered is a prefix of the content. If a read fails before everything was read, the command reports an error; if it
reports success, everything was delivered (but at most 1024 bytes that are lost at the end of the process, C58); and if
no read fails and standard output takes what is written, everything is delivered and the command succeeds. -/
theorem C106_dump (o : OutEnv) (evs : List ReadEv) {a : Archive} (bytes : ContentAddr → GetBytes) (path : RPath) (d : DumpSys)
    {rs : List AddReq} {m : PathMap} (h : Written rs a) (hm : SpecRun PathMap.empty rs m) (hp : comps path ≠ [])
    {n : Node} {s : Nat} {c : ContentAddr} {b : Bytes} (hn : m (comps path) = some n) (hk : n.kind = .file s c)
    (hb : bytes c = .found b) (h0 : ReadEv.got 0 ∉ evs) :
    ∃ got res, dumpReads o evs a bytes path d = ({ d with stdout := d.stdout ++ got }, res) ∧ Delivered got b ∧
      (FailsBefore b.length evs → res = .err) ∧ (res = .ok → AllBut 1024 got b) ∧
      (o.Healthy 1024 → ¬ FailsBefore b.length evs → got = b ∧ res = .ok) ∧
      (res = .ok ∨ (res = .err ∧ (FailsBefore b.length evs ∨ ∃ t k j, o.ev t = .fail k j))) := by
  obtain ⟨h1, h2, h3⟩ := copyReads_spec evs b h0
  have he := dump_getEntry h hm path hp
  rw [hn] at he
  simp only [hk] at he
  obtain ⟨e, he, rfl⟩ := he
  unfold dumpReads
  rw [he]
  simp only [dumpEntry, hb, DumpSys.copyStdout]
  have hw := Sink.writes_spec (o := o) (copyReads evs b).1 (Sink.Has.new dumpCap)
  rw [List.nil_append] at hw
  revert hw
  cases Sink.new.writes dumpCap o (copyReads evs b).1 with
  | mk s' ok =>
    intro hw
    refine ⟨_, _, rfl, ?_⟩
    cases ok with
    | false =>
      simp only at hw
      refine ⟨((s'.close_prefix o).trans hw.1).trans h1, fun _ => rfl, (fun e => by cases e), fun ho => absurd hw.2 ho.not_failed,
        .inr ⟨rfl, .inr hw.2⟩⟩
    | true =>
      simp only at hw
      have hp : s'.close o <+: (copyReads evs b).1.flatten := by
        have := s'.close_prefix o
        rw [hw.1] at this
        exact this
      refine ⟨hp.trans h1, ?_, ?_, ?_, ?_⟩
      · intro hf
        cases h : (copyReads evs b).2 with
        | true => exact absurd hf (h2 h).2
        | false => rfl
      · intro hok
        cases h : (copyReads evs b).2 with
        | true =>
          have := hw.close (o := o)
          rw [(h2 h).1] at this
          exact this
        | false => rw [h] at hok; cases hok
      · intro ho hf
        cases h : (copyReads evs b).2 with
        | true =>
          refine ⟨?_, rfl⟩
          have := hw.close_healthy ho
          rw [(h2 h).1] at this
          exact this
        | false => exact absurd (h3 h) hf
      · cases h : (copyReads evs b).2 with
        | true => exact .inl rfl
        | false => exact .inr ⟨rfl, .inl (h3 h)⟩

/-- the example archive: everything is read in three calls; the second call fails; it fails after the end was reached -/
example : let d : DumpSys := ⟨ascii "> ", fun _ => none⟩
    ((dumpReads fineOut [.got 1, .interrupted, .got 1] exArchive exBytes (ascii "b/x") d).1.stdout = ascii "> xyz" ∧
     (dumpReads fineOut [.got 1, .interrupted, .got 1] exArchive exBytes (ascii "b/x") d).2 = .ok) ∧
    ((dumpReads fineOut [.got 1, .fail] exArchive exBytes (ascii "b/x") d).1.stdout = ascii "> x" ∧
     (dumpReads fineOut [.got 1, .fail] exArchive exBytes (ascii "b/x") d).2 = .err) ∧
    (dumpReads fineOut [.got 3, .fail] exArchive exBytes (ascii "b/x") d).2 = .ok := by decide +kernel

/-- `C106_dump` applies to it -/
example : ∃ m, SpecRun PathMap.empty exReqs m ∧ Written exReqs exArchive ∧ comps (ascii "b/x") ≠ [] ∧
    FailsBefore 3 [.got 1, .fail] ∧ ¬ FailsBefore 3 [.got 3, .fail] ∧ ReadEv.got 0 ∉ [ReadEv.got 1, .fail] := by
  obtain ⟨m, hm, _⟩ := spec_exists exWritten
  refine ⟨m, hm, exWritten, by decide, ⟨[.got 1], [], rfl, by decide⟩, ?_, by decide⟩
  rintro ⟨pre, post, h, hl⟩
  match pre, h with
  | [x], h =>
    simp only [List.cons_append, List.nil_append, List.cons.injEq] at h
    obtain ⟨rfl, _⟩ := h
    simp [gotten] at hl
  | [_, _], h => simp at h
  | _ :: _ :: _ :: _, h => simp at h

/-! ## The mounted file system -/

theorem readSlice_true (s : FsState) (ino : Nat) (offset : Int) (size : Nat) :
    s.readSlice true ino offset size = s.read ino offset size := by
  unfold FsState.readSlice FsState.read
  cases s.region ino with
  | none => rfl
  | some x => rfl

theorem readSlice_false (s : FsState) (ino : Nat) (offset : Int) (size : Nat) :
    (s.readSlice false ino offset size).1 = .panic := by
  unfold FsState.readSlice
  cases s.region ino with
  | none => simp
  | some x =>
    simp only [Bool.false_eq_true, if_false]
    repeat' (first | rfl | split)

/-- **C106, mounted (partial).** After any requests, a read of an open file (up to its end) gives the bytes that are
there, if they can be read. Missing: if they cannot, the answer is no error, see the counterexample. -/
theorem C106_mount_partial {rs : List AddReq} {m : PathMap} {cfg : FsCfg} {d0 : List Bytes} (h : Mounted rs m cfg d0)
    (reqs : List FReq) {ino : Nat} {p : List Bytes} {n : Node} {fsize : Nat} {c : ContentAddr} {b : Bytes}
    (hp : inoPath cfg d0 ino = some p) (hi : 2 ≤ ino) (hn : m p = some n) (hk : n.kind = .file fsize c)
    (hb : cfg.bytes c = .found b) (hopen : 0 < openCount (logOf cfg reqs) ino) (offset size : Nat)
    (hoff : offset ≤ b.length) (readable : Bool) :
    (((FsState.init.run cfg reqs).2).readSlice readable ino (offset : Int) size).1 =
      if readable then .data ((b.drop offset).take size) else .panic := by
  cases readable with
  | true =>
    rw [readSlice_true]
    exact C25_read_partial h reqs hp hi hn hk hb hopen offset size hoff
  | false => exact readSlice_false _ _ _ _

/-- the file `b/x` of the example, opened twice and closed once -/
example (readable : Bool) :
    (((FsState.init.run exFs [.open 5, .open 5, .release 5]).2).readSlice readable 5 ((1 : Nat) : Int) 7).1 =
      if readable then .data (((ascii "xyz").drop 1).take 7) else .panic := by
  obtain ⟨n, h1, h2, _⟩ := exMap_kinds.2.2.2
  exact C106_mount_partial exMounted _ (by decide) (by decide) h1 h2 (by decide) (by decide) 1 7 (by decide) readable

/-- **C106 is false of the mounted file system**: a read of an open file whose bytes cannot be read (here, the first file of
the example) crashes the file system, so that nothing in the mounted archive can be read any more. -/
theorem C106_mount_counterexample : (FsState.init.run exFs [.open 5]).1 = [.opened] ∧
    ∀ offset size, ((FsState.init.run exFs [.open 5]).2.readSlice false 5 offset size).1 = .panic :=
  ⟨by decide, fun _ _ => readSlice_false _ _ _ _⟩

end Arx
