import Verif.Model.Stats
import Verif.Props.Mount
import Verif.Proof.WordsProof
/-!
# C85: statistics of a mount
-/
namespace Arx

/-- The name that the statistics use for a kind of request. -/
def FReq.kindName : FReq → String
  | .lookup _ _ => "lookup"
  | .getattr _ => "getattr"
  | .readlink _ => "readlink"
  | .open _ => "open"
  | .read _ _ _ => "read"
  | .release _ => "release"
  | .opendir _ => "opendir"
  | .readdir _ _ _ => "readdir"
  | .releasedir _ => "releasedir"

/-- The lines that are logged for a session with the requests `rs`. -/
def statLines (rs : List FReq) : Bytes :=
  ["lookup", "getattr", "readlink", "open", "read", "release", "opendir", "readdir", "releasedir"].flatMap fun k =>
    ascii ("nb_" ++ k ++ ": ") ++ decimal (rs.countP (fun r => r.kindName == k)) ++ [10]

theorem runCounted_eq (cfg : FsCfg) : ∀ (rs : List FReq) (s : FsState) (c : StatCounter),
    runCounted cfg (s, c) rs = ((s.run cfg rs).1, ((s.run cfg rs).2, rs.foldl StatCounter.count c)) := by
  intro rs
  induction rs with
  | nil => intro s c; rfl
  | cons r rs ih =>
    intro s c
    simp only [runCounted, stepCounted, ih, FsState.run, List.foldl_cons]

theorem count_fold : ∀ (rs : List FReq) (c : StatCounter), rs.foldl StatCounter.count c =
    ⟨c.nbLookup + rs.countP (fun r => r.kindName == "lookup"), c.nbGetattr + rs.countP (fun r => r.kindName == "getattr"),
      c.nbReadlink + rs.countP (fun r => r.kindName == "readlink"), c.nbOpen + rs.countP (fun r => r.kindName == "open"),
      c.nbRead + rs.countP (fun r => r.kindName == "read"), c.nbRelease + rs.countP (fun r => r.kindName == "release"),
      c.nbOpendir + rs.countP (fun r => r.kindName == "opendir"), c.nbReaddir + rs.countP (fun r => r.kindName == "readdir"),
      c.nbReleasedir + rs.countP (fun r => r.kindName == "releasedir")⟩ := by
  intro rs
  induction rs with
  | nil => intro c; simp
  | cons r rs ih =>
    intro c
    rw [List.foldl_cons, ih]
    cases r <;> simp [StatCounter.count, FReq.kindName, List.countP_cons] <;> omega

/-- **C85.** Whatever the kernel asks a mounted archive during a session, the statistics that `arx mount` logs at the end say for each kind of request
how many there were, and keeping them changes no answer. -/
theorem C85_statistics (cfg : FsCfg) (rs : List FReq) :
    (runCounted cfg (FsState.init, StatCounter.new) rs).1 = (FsState.init.run cfg rs).1 ∧
    (runCounted cfg (FsState.init, StatCounter.new) rs).2.2.text = statLines rs := by
  rw [runCounted_eq, count_fold]
  refine ⟨rfl, ?_⟩
  simp only [StatCounter.text, StatCounter.new, Nat.zero_add, statLines, dec_eq, List.flatMap_cons, List.flatMap_nil, List.append_nil, List.append_assoc]
  rfl

/-- a session -/
example : statLines [.lookup 1 (ascii "a"), .opendir 1, .lookup 1 (ascii "b"), .releasedir 1] =
    ascii "nb_lookup: 2\nnb_getattr: 0\nnb_readlink: 0\nnb_open: 0\nnb_read: 0\nnb_release: 0\nnb_opendir: 1\nnb_readdir: 0\nnb_releasedir: 1\n" := by
  decide +kernel

end Arx
