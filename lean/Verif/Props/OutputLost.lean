import Verif.Props.Output
import Verif.Proof.ExtractGen
/-!
# C58: what fits in the buffers is lost silently
-/
namespace Arx

/-- nothing is delivered before the buffers are full -/
def Sink.Lazy (cap : Nat) (s : Sink) : Prop := s.out ≠ [] → cap < (s.out ++ s.held).length

theorem Sink.Lazy.new (cap : Nat) : Sink.new.Lazy cap := fun h => absurd rfl h

theorem Sink.Lazy.write {cap : Nat} {s : Sink} (h : s.Lazy cap) (b : Bytes) : (s.write cap fullOut b).1.Lazy cap := by
  intro hne
  simp only [Sink.write, fullOut, Nat.zero_max] at hne ⊢
  rw [List.append_assoc, List.take_append_drop]
  by_cases ho : s.out = []
  · rw [ho, List.nil_append] at hne ⊢
    apply Classical.byContradiction
    intro hle
    apply hne
    rw [Nat.sub_eq_zero_of_le (Nat.le_of_not_lt hle), List.take_zero]
  · have := h ho
    simp only [List.length_append] at this ⊢
    omega

theorem Sink.Lazy.writes {cap : Nat} : ∀ (bs : List Bytes) {s : Sink}, s.Lazy cap → (s.writes cap fullOut bs).1.Lazy cap
  | [], _, h => h
  | b :: bs, s, h => by
    have h1 := h.write b
    simp only [Sink.writes]
    revert h1
    cases s.write cap fullOut b with
    | mk s' ok =>
      intro h1
      cases ok with
      | false => exact h1
      | true => exact Sink.Lazy.writes bs h1

theorem emit_lazy {P : Type} (p : P) {s : Sink} (h : s.Lazy listCap) (bs : List Bytes) :
    (emit fullOut p s bs).1.2.Lazy listCap := by
  have := h.writes bs
  unfold emit
  revert this
  cases s.writes listCap fullOut bs with
  | mk s' ok => intro h; cases ok <;> exact h

theorem sinkLister_lazy : (sinkLister fullOut).Keeps (fun c => c.2.Lazy listCap) where
  enter c d hc := by
    have := emit_lazy (c.1.push d) hc ((c.1.push d).pieces [])
    simp only [sinkLister]
    revert this
    cases emit fullOut (c.1.push d) c.2 ((c.1.push d).pieces []) with
    | mk c' r => intro h; cases r <;> exact h
  exit c d hc := hc
  file c f hc := emit_lazy c.1 hc _
  link c l hc := emit_lazy c.1 hc _

theorem sinkStableLister_lazy : (sinkStableLister fullOut).Keeps (fun c => c.2.Lazy listCap) where
  enter c d hc := by
    have := emit_lazy (RPath.push c.1 (lossy d.common.path)) hc
      [ascii "d ", dec d.common.mtime, ascii " ", RPath.push c.1 (lossy d.common.path), [10]]
    simp only [sinkStableLister]
    revert this
    cases emit fullOut (RPath.push c.1 (lossy d.common.path)) c.2
      [ascii "d ", dec d.common.mtime, ascii " ", RPath.push c.1 (lossy d.common.path), [10]] with
    | mk c' r => intro h; cases r <;> exact h
  exit c d hc := hc
  file c f hc := by
    have := emit_lazy (RPath.push c.1 (lossy f.common.path)) hc
      [ascii "f ", dec f.common.mtime, ascii " ", dec f.size, ascii " ", RPath.push c.1 (lossy f.common.path), [10]]
    simp only [sinkStableLister]
    revert this
    cases emit fullOut (RPath.push c.1 (lossy f.common.path)) c.2
      [ascii "f ", dec f.common.mtime, ascii " ", dec f.size, ascii " ", RPath.push c.1 (lossy f.common.path), [10]] with
    | mk c' r => intro h; cases r <;> exact h
  link c l hc := by
    have := emit_lazy (RPath.push c.1 (lossy l.common.path)) hc
      [ascii "l ", dec l.common.mtime, ascii " ", RPath.push c.1 (lossy l.common.path), ascii "->", lossy l.target, [10]]
    simp only [sinkStableLister]
    revert this
    cases emit fullOut (RPath.push c.1 (lossy l.common.path)) c.2
      [ascii "l ", dec l.common.mtime, ascii " ", RPath.push c.1 (lossy l.common.path), ascii "->", lossy l.target, [10]] with
    | mk c' r => intro h; cases r <;> exact h

theorem Sink.Lazy.close {s : Sink} {w : Bytes} (h : s.Lazy listCap) (hw : s.Has listCap w) (hlen : w.length ≤ 8192) :
    s.close fullOut = [] := by
  have hout : s.out = [] := by
    apply Classical.byContradiction
    intro hne
    have := h hne
    rw [hw.1] at this
    have e : listCap = 9216 := rfl
    omega
  simp [Sink.close, fullOut, hout]

theorem fullOut_ok : ¬ fullOut.Failed := by rintro ⟨t, k, j, h⟩; cases h

/-- **C58 fails for every small listing.** If the listing (of any archive, in any format) is of at most 8192 bytes, which is
the size of the buffer `list` writes to, and standard output is a full device, then nothing at all is delivered, and the
verdict is the one of a listing that is delivered: a success, if the archive can be listed. -/
theorem C58_list_lost (a : Archive) (stable : Option Nat) (depth : Nat) (hlen : (listCmd a stable depth).1.length ≤ 8192) :
    listCmdOut fullOut a stable depth = ([], (listCmd a stable depth).2) := by
  revert hlen
  unfold listCmdOut listCmd
  cases stable with
  | none =>
    simp only
    intro hlen
    have hl : (a.walk lightBuilder (sinkLister fullOut) depth ([], Sink.new)).1.2.Lazy listCap :=
      a.walkFrom_inv lightBuilder sinkLister_lazy (fun _ h => h) (fun _ h => h) depth a.root ([], Sink.new) (Sink.Lazy.new _)
    rcases a.walk_tracked lightBuilder (lister_tracks fullOut) depth (c1 := ([], [])) (c2 := ([], Sink.new)) ⟨rfl, Sink.Has.new _⟩ with
      ⟨h1, h2⟩ | ⟨_, h2⟩
    · rw [h1, hl.close h2.2 hlen]
    · exact absurd h2.2 fullOut_ok
  | some v =>
    simp only
    split
    · intro hlen
      have hl : (a.walk fullBuilder (sinkStableLister fullOut) depth ([], Sink.new)).1.2.Lazy listCap :=
        a.walkFrom_inv fullBuilder sinkStableLister_lazy (fun _ h => h) (fun _ h => h) depth a.root ([], Sink.new) (Sink.Lazy.new _)
      rcases a.walk_tracked fullBuilder (stableLister_tracks fullOut) depth (c1 := ([], [])) (c2 := ([], Sink.new)) ⟨rfl, Sink.Has.new _⟩ with
        ⟨h1, h2⟩ | ⟨_, h2⟩
      · rw [h1, hl.close h2.2 hlen]
      · exact absurd h2.2 fullOut_ok
    · intro _; rfl

/-- `arx list` of the archive of the examples -/
example : (listCmd exArchive none 10).1.length ≤ 8192 ∧ (listCmd exArchive none 10).1 ≠ [] ∧ (listCmd exArchive none 10).2 = true := by
  refine ⟨by decide +kernel, by decide +kernel, by decide +kernel⟩

theorem toStdout_lost (ns : List Nat) (d : DumpSys) {b : Bytes} (hb : b.length ≤ 1024) : d.toStdout fullOut ns b = (d, .ok) := by
  have h1 := Sink.writes_spec (o := fullOut) (chop ns b) (Sink.Has.new dumpCap)
  have h2 := (Sink.Lazy.new dumpCap).writes (chop ns b)
  unfold DumpSys.toStdout
  rw [chop_flatten, List.nil_append] at h1
  revert h1 h2
  cases Sink.new.writes dumpCap fullOut (chop ns b) with
  | mk s ok =>
    intro h1 h2
    cases ok with
    | false => exact absurd h1.2 fullOut_ok
    | true =>
      have hout : s.out = [] := by
        apply Classical.byContradiction
        intro hne
        have := h2 hne
        rw [h1.1] at this
        have e : dumpCap = 1024 := rfl
        omega
      simp [Sink.close, fullOut, hout]

/-- **… and for every small content.** If `dump` prints at most 1024 bytes, which is the size of the buffer of standard output,
to an output that takes everything, then with a full device (on which `std` tries to write only when the buffer is full: for
contents without newlines) it prints nothing and reports the same. -/
theorem C58_dump_lost {o : OutEnv} (ho : o.Healthy 1024) {ns ns' : List Nat} {a : Archive} {bytes : ContentAddr → GetBytes} {path : RPath} {d d' : DumpSys}
    {res : CmdRes} (h : dump o ns a bytes path none d = (d', res)) (hlen : d'.stdout.length ≤ d.stdout.length + 1024) :
    dump fullOut ns' a bytes path none d = (d, res) := by
  revert h
  unfold dump
  cases a.getEntry dumpBuilder path with
  | error e => cases e <;> (intro h; cases h; rfl)
  | ok e =>
    simp only
    unfold dumpEntry
    cases e with
    | dir _ _ => intro h; cases h; rfl
    | link _ => intro h; cases h; rfl
    | file c =>
      simp only
      cases bytes c with
      | err => intro h; cases h; rfl
      | missing => intro h; cases h; rfl
      | found b =>
        simp only
        intro h
        have h1 := Sink.writes_spec (o := o) (chop ns b) (Sink.Has.new dumpCap)
        rw [chop_flatten, List.nil_append] at h1
        unfold DumpSys.toStdout at h
        revert h h1
        cases Sink.new.writes dumpCap o (chop ns b) with
        | mk s ok =>
          cases ok with
          | false => intro _ h1; exact absurd h1.2 ho.not_failed
          | true =>
            intro h h1
            simp only [h1.close_healthy ho] at h
            cases h
            simp only [List.length_append] at hlen
            exact toStdout_lost ns' d (by omega)

/-- `arx dump` of a file of the examples -/
example : fineOut.Healthy 1024 ∧
    (∃ d', dump fineOut [] exArchive exBytes (ascii "b/x") none ⟨[], fun _ => none⟩ = (d', .ok) ∧ d'.stdout ≠ [] ∧ d'.stdout.length ≤ 1024) ∧
    dump fullOut [] exArchive exBytes (ascii "b/x") none ⟨[], fun _ => none⟩ = (⟨[], fun _ => none⟩, .ok) := by
  have h : fineOut.Healthy 1024 := ⟨fun t => ⟨0, rfl⟩, by decide⟩
  refine ⟨h, ⟨_, rfl, by decide +kernel, by decide +kernel⟩, ?_⟩
  exact C58_dump_lost (o := fineOut) h (ns := []) (d' := _) rfl (by decide +kernel)

end Arx
