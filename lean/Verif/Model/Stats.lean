import Verif.Model.ArxFs
import Verif.Model.List
/-!
# Statistics of a mounted file system

Model of the trait `Stats` (/repo/libarx/src/arx_fs.rs:22-34) and its implementation `StatCounter`
(/repo/arx/src/mount.rs:7-91). Simplified: the counters are unbounded (`u64` in the code).
-/
namespace Arx

/-- `StatCounter` (/repo/arx/src/mount.rs:7-17). -/
structure StatCounter where
  nbLookup : Nat
  nbGetattr : Nat
  nbReadlink : Nat
  nbOpen : Nat
  nbRead : Nat
  nbRelease : Nat
  nbOpendir : Nat
  nbReaddir : Nat
  nbReleasedir : Nat
  deriving DecidableEq, Repr

/-- `StatCounter::new` (/repo/arx/src/mount.rs:20-32). -/
def StatCounter.new : StatCounter := ⟨0, 0, 0, 0, 0, 0, 0, 0, 0⟩

/-- `impl Stats for StatCounter` (/repo/arx/src/mount.rs:35-71): the method called for a request. -/
def StatCounter.count (c : StatCounter) : FReq → StatCounter
  | .lookup _ _ => { c with nbLookup := c.nbLookup + 1 }
  | .getattr _ => { c with nbGetattr := c.nbGetattr + 1 }
  | .readlink _ => { c with nbReadlink := c.nbReadlink + 1 }
  | .open _ => { c with nbOpen := c.nbOpen + 1 }
  | .read _ _ _ => { c with nbRead := c.nbRead + 1 }
  | .release _ => { c with nbRelease := c.nbRelease + 1 }
  | .opendir _ => { c with nbOpendir := c.nbOpendir + 1 }
  | .readdir _ _ _ => { c with nbReaddir := c.nbReaddir + 1 }
  | .releasedir _ => { c with nbReleasedir := c.nbReleasedir + 1 }

/-- `Display for StatCounter` (/repo/arx/src/mount.rs:79-91). -/
def StatCounter.text (c : StatCounter) : Bytes :=
  ascii "nb_lookup: " ++ dec c.nbLookup ++ [10] ++
  (ascii "nb_getattr: " ++ dec c.nbGetattr ++ [10]) ++
  (ascii "nb_readlink: " ++ dec c.nbReadlink ++ [10]) ++
  (ascii "nb_open: " ++ dec c.nbOpen ++ [10]) ++
  (ascii "nb_read: " ++ dec c.nbRead ++ [10]) ++
  (ascii "nb_release: " ++ dec c.nbRelease ++ [10]) ++
  (ascii "nb_opendir: " ++ dec c.nbOpendir ++ [10]) ++
  (ascii "nb_readdir: " ++ dec c.nbReaddir ++ [10]) ++
  (ascii "nb_releasedir: " ++ dec c.nbReleasedir ++ [10])

/-- The file system with its statistics: the counter is called first, at the begin of each request
(/repo/libarx/src/arx_fs.rs:464, 506, 528, 546, 594, 613, 628, 653, 720). -/
def stepCounted (cfg : FsCfg) (s : FsState × StatCounter) (r : FReq) : Reply × (FsState × StatCounter) :=
  let c := s.2.count r
  let y := s.1.step cfg r
  (y.1, (y.2, c))

/-- A whole session: the replies, and the statistics that `arx mount` logs at the end (/repo/arx/src/mount.rs:120, 135, 176-178). -/
def runCounted (cfg : FsCfg) (s : FsState × StatCounter) : List FReq → List Reply × (FsState × StatCounter)
  | [] => ([], s)
  | r :: rs =>
    let (y, s1) := stepCounted cfg s r
    let (ys, s2) := runCounted cfg s1 rs
    (y :: ys, s2)

end Arx
