import Verif.Props.Convert
/-! # Examples of tar conversions (C41) -/
namespace Arx

/-! Examples -/

def tarMem (path : Bytes) (type : TarType) (link : Option Bytes) (data : Bytes) : TarMember :=
  ⟨path, type, .ok 1, .ok 2, .ok 77, .ok 0o600, link, true, path, .ok data⟩

def exTar : List TarMember :=
  [tarMem (ascii "pax_global_header") .xGlobalHeader none [], tarMem (ascii "d/") .directory none [],
   tarMem (ascii "d/f") .regular none (ascii "hello"), tarMem (ascii "l") .symlink (some (ascii "d/f")) []]

/-- the hypotheses of `C41_accepts`, and so of `C41_tar_partial`, are met -/
example : (∀ e ∈ exTar, e.Valid) ∧ exTar.Pairwise TarMember.Compatible := by
  constructor
  · intro e he
    simp only [exTar, List.mem_cons, List.not_mem_nil, or_false] at he
    rcases he with rfl | rfl | rfl | rfl
    all_goals
      refine ⟨⟨⟨1, 2, 0o600, 77⟩, rfl, rfl, rfl, rfl⟩, by decide, by decide +kernel, fun _ => by decide +kernel, ?_, fun _ => ⟨_, rfl⟩⟩
      intro h; first | (cases h; done) | exact ⟨_, rfl⟩
  · simp only [exTar, List.pairwise_cons, List.mem_cons, List.not_mem_nil, or_false]
    have ig : (tarMem (ascii "pax_global_header") .xGlobalHeader none []).Ignored := Or.inr (Or.inr (Or.inr rfl))
    refine ⟨fun _ _ => Or.inl ig, ?_, ?_, (fun _ h => by cases h), .nil⟩
    · intro e he
      rcases he with rfl | rfl
      · exact Or.inr (Or.inr ⟨fun h => absurd (Or.inl rfl) h, fun _ => by decide +kernel⟩)
      · exact Or.inr (Or.inr ⟨fun h => absurd (Or.inl rfl) h, fun _ => by decide +kernel⟩)
    · rintro e rfl
      exact Or.inr (Or.inr ⟨fun _ => by decide +kernel, fun _ => by decide +kernel⟩)

/-- the archive of a conversion, rows in the given order -/
def tarResult (ms : List TarMember) : Conv := (Conv.new.tarRun (ms.map .ok)).1

/-- `a` with content, and `b`, a hard link to it -/
def hardTar : List TarMember := [tarMem (ascii "a") .regular none (ascii "hi"), tarMem (ascii "b") .hardLink (some (ascii "a")) []]
/-- a directory that follows its content -/
def lateDirTar : List TarMember := [tarMem (ascii "d/f") .regular none (ascii "hi"), tarMem (ascii "d") .directory none []]
/-- what `tar c .` produces: the member `./` -/
def dotTar : List TarMember := [tarMem (ascii "./") .directory none [], tarMem (ascii "./a") .regular none (ascii "hi")]
/-- a member with an absolute path -/
def absTar : List TarMember := [tarMem (ascii "/a") .regular none (ascii "hi")]

/-- **C41 is false in full**: a hard link becomes an empty file; a directory that follows its content loses its
metadata; a tar archive with a member for the current directory (as `tar c .` makes) or with an absolute path
crashes the conversion. -/
theorem C41_counterexamples :
    ((Conv.new.tarRun (hardTar.map .ok)).2 = .ok ∧ (tarResult hardTar).creator.store.map (fun s => (s.name, s.node.kind)) =
      [(ascii "a", .file 2 ⟨1, 0⟩), (ascii "b", .file 0 ⟨1, 1⟩)] ∧ packBytes (tarResult hardTar).contents ⟨1, 1⟩ = .found []) ∧
    ((Conv.new.tarRun (lateDirTar.map .ok)).2 = .ok ∧
      ((tarResult lateDirTar).creator.store.head?.map (fun s => (s.name, s.node))) = some (ascii "d", defaultDir)) ∧
    (Conv.new.tarRun (dotTar.map .ok)).2 = .panic ∧ (Conv.new.tarRun (absTar.map .ok)).2 = .panic := by
  refine ⟨⟨by decide, by decide, by decide⟩, ⟨by decide, by decide⟩, by decide, by decide⟩

end Arx
