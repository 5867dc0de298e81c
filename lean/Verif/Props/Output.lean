import Verif.Props.Cmd
/-!
# C58: output that cannot be written
-/
namespace Arx

theorem listCmdOut_cases (o : OutEnv) (a : Archive) (stable : Option Nat) (depth : Nat) :
    ((listCmdOut o a stable depth).2 = (listCmd a stable depth).2 ∧
      ∃ s : Sink, s.Has listCap (listCmd a stable depth).1 ∧ (listCmdOut o a stable depth).1 = s.close o) ∨
    ((listCmdOut o a stable depth).2 = false ∧ o.Failed ∧ (listCmdOut o a stable depth).1 <+: (listCmd a stable depth).1) := by
  unfold listCmdOut listCmd
  cases stable with
  | none =>
    simp only
    rcases a.walk_tracked lightBuilder (lister_tracks o) depth (c1 := ([], [])) (c2 := ([], Sink.new)) ⟨rfl, Sink.Has.new _⟩ with
      ⟨h1, h2⟩ | ⟨⟨e, h1⟩, h2⟩
    · rw [h1]; exact .inl ⟨rfl, _, h2.2, rfl⟩
    · rw [h1]; exact .inr ⟨rfl, h2.2, (Sink.close_prefix _ _).trans h2.1⟩
  | some v =>
    simp only
    split
    · rcases a.walk_tracked fullBuilder (stableLister_tracks o) depth (c1 := ([], [])) (c2 := ([], Sink.new)) ⟨rfl, Sink.Has.new _⟩ with
        ⟨h1, h2⟩ | ⟨⟨e, h1⟩, h2⟩
      · rw [h1]; exact .inl ⟨rfl, _, h2.2, rfl⟩
      · rw [h1]; exact .inr ⟨rfl, h2.2, (Sink.close_prefix _ _).trans h2.1⟩
    · exact .inl ⟨rfl, Sink.new, Sink.Has.new _, by simp [Sink.close, Sink.new]⟩

/-- **C58 (partial).** `arx list`, both formats, of any archive (even a malformed one), whatever happens to
standard output; `listCmd` is the listing and the verdict when output cannot fail (C11, C12):
* what is delivered is a prefix of the listing;
* if standard output takes everything, all is delivered and the verdict is the one without failures;
* if a success is reported, all but the last 9216 bytes at most are delivered, and the listing itself did not fail;
* if a failure is reported, then the listing itself failed, or a write failed.
Missing: a success is reported also when the last bytes cannot be written (`C58_counterexample`). -/
theorem C58_list_partial (o : OutEnv) (a : Archive) (stable : Option Nat) (depth : Nat) :
    Delivered (listCmdOut o a stable depth).1 (listCmd a stable depth).1 ∧
    (o.Healthy 9216 → listCmdOut o a stable depth = listCmd a stable depth) ∧
    ((listCmdOut o a stable depth).2 = true →
      (listCmd a stable depth).2 = true ∧ AllBut 9216 (listCmdOut o a stable depth).1 (listCmd a stable depth).1) ∧
    ((listCmdOut o a stable depth).2 = false → (listCmd a stable depth).2 = false ∨ ∃ t k j, o.ev t = .fail k j) := by
  rcases listCmdOut_cases o a stable depth with ⟨h1, s, h2, h3⟩ | ⟨h1, h2, h3⟩
  · refine ⟨?_, ?_, ?_, ?_⟩
    · rw [h3, Delivered]
      have := s.close_prefix o
      rwa [h2.1] at this
    · intro ho
      refine Prod.ext ?_ h1
      rw [h3]; exact h2.close_healthy ho
    · intro h
      rw [h3]
      exact ⟨by rw [← h1]; exact h, h2.close⟩
    · intro h
      exact .inl (by rw [← h1]; exact h)
  · exact ⟨h3, fun ho => absurd h2 ho.not_failed, fun h => absurd (h1.symm.trans h) (by simp), fun _ => .inr h2⟩

/-- **C58 is false in general**: on a device that takes no byte (and for which every write of the process
fails), `arx list` of a small archive and `arx dump` of a small file report success: their output stays in the
buffers and the failure to write them at the end is ignored. -/
theorem C58_counterexample :
    listCmdOut fullOut exArchive none 10 = ([], true) ∧ (listCmd exArchive none 10).1 ≠ [] ∧
    dump fullOut [] exArchive exBytes (ascii "b/x") none ⟨[], fun _ => none⟩ = (⟨[], fun _ => none⟩, .ok) := by
  refine ⟨by decide +kernel, by decide +kernel, ?_⟩
  rfl

/-- a listing that works, one whose second write fails -/
example : fineOut.Healthy 9216 ∧ (listCmdOut fineOut exArchive none 10).1 = (listCmd exArchive none 10).1 ∧
    (listCmdOut brokenOut exArchive none 10).2 = false ∧ (listCmdOut brokenOut exArchive (some 1) 10).2 = false ∧
    (listCmdOut brokenOut exArchive none 10).1.length = 2 := by
  refine ⟨⟨fun t => ⟨0, rfl⟩, by decide⟩, by decide +kernel, by decide +kernel, by decide +kernel, by decide +kernel⟩

end Arx
