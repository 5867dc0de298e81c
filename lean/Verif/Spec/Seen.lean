import Verif.Spec.Adder
import Verif.Spec.Create
/-!
# Specification: archiving a source that changes

What the archive holds is compared with the answers of the file system at the moments it was asked.
-/
namespace Arx

/-- One attempt to add a path: the prefix to remove, the path, whether a symbolic link is followed, the number of its
first system call, and the outcome. -/
structure Attempted where
  pre : RPath
  path : Bytes
  follow : Bool
  time : Nat
  out : AOut

/-- Adding the paths of `l`, one after the other, to a new archive leads to `a`. Attempts may be refused or fail. -/
inductive Adder.Tried (env : CEnv) : List Attempted → Adder → Prop
  | new : Adder.Tried env [] Adder.new
  | step {l : List Attempted} {a a' : Adder} {o : AOut} (pre : RPath) (path : Bytes) (follow : Bool) : Adder.Tried env l a →
      a.addEntryFromPath env pre path follow = (a', o) → o ≠ .panic →
      Adder.Tried env (l ++ [⟨pre, path, follow, a.tick, o⟩]) a'

/-- The attempt `x` looked at the place `p` and got the answer `st`: the path itself is asked first; if it was a symbolic
link that is to be followed then the place it led to was asked for, and then that place. -/
def Looked (env : CEnv) (x : Attempted) (p : List Bytes) (st : Stat) : Prop :=
  (p = namesOf env.cwd x.path ∧ env.call x.time (fun s => s.lstat p) = .ok st ∧ ¬ (st.kind = .link ∧ x.follow = true)) ∨
  (x.follow = true ∧ ∃ st0, env.call x.time (fun s => s.lstat (namesOf env.cwd x.path)) = .ok st0 ∧ st0.kind = .link ∧
    env.call (x.time + 1) (fun s => s.canonicalize (namesOf env.cwd x.path)) = .ok p ∧
    env.call (x.time + 2) (fun s => s.lstat p) = .ok st)

/-- The node `n` is what the attempt `x` saw: owner, group, mode and modification time are all from one answer of `lstat`,
which also gave the kind and the size of a file; the content of a file and the target of a link are what the same place
had when it was read, one to three calls later. -/
def Saw (env : CEnv) (bytes : ContentAddr → GetBytes) (x : Attempted) (n : Node) : Prop :=
  ∃ p st, Looked env x p st ∧ n.info = ⟨st.uid, st.gid, st.mode, asU64 st.mtime⟩ ∧
    match n.kind with
    | .dir => st.kind = .dir
    | .file size c => st.kind = .file size ∧ ∃ b, env.call (x.time + 3) (fun s => s.readFile p) = .ok b ∧ bytes c = .found b
    | .link target => st.kind = .link ∧ env.call (x.time + 3) (fun s => s.readLink p) = .ok target

/-- The attempt saw a special file (which is not archived). -/
def SawSpecial (env : CEnv) (x : Attempted) : Prop := ∃ p st, Looked env x p st ∧ st.kind = .other

/-- The attempt saw a directory. -/
def SawDir (env : CEnv) (x : Attempted) : Prop := ∃ p st, Looked env x p st ∧ st.kind = .dir

/-- The archive with map `m` is what the attempts saw. -/
structure AsSeen (env : CEnv) (bytes : ContentAddr → GetBytes) (l : List Attempted) (m : PathMap) : Prop where
  /-- every entry was seen by a successful attempt for its path, or is a directory implied by a path below it -/
  only : ∀ k n, m k = some n →
    (∃ x ∈ l, x.out = .ok ∧ StoredAs x.path x.pre k ∧ Saw env bytes x n) ∨
    (n = defaultDir ∧ ∃ x ∈ l, ∃ k', StoredAs x.path x.pre k' ∧ ProperAncestor k k')
  /-- every successful attempt is in the archive: with what it saw, or, for a directory, as a directory; except for a
  path that is nothing but the prefix, and for special files -/
  all : ∀ x ∈ l, x.out = .ok → ∃ k, StoredAs x.path x.pre k ∧ (k = [] ∨ SawSpecial env x ∨
    ∃ n, m k = some n ∧ (Saw env bytes x n ∨ (n.isDir = true ∧ SawDir env x)))

/-- The attempts `l` are for the paths `paths`, in order, each with its own `follow`, and stopped early only by the result
`e` of the last. -/
structure AttemptsFor (pre : RPath) (paths : List (Bytes × Bool)) (e : AOut) (l : List Attempted) : Prop where
  prefixOf : l.map (fun x => (x.path, x.follow)) <+: paths
  pre : ∀ x ∈ l, x.pre = pre
  ok : e = .ok → l.map (fun x => (x.path, x.follow)) = paths ∧ ∀ x ∈ l, x.out = .ok
  failed : e ≠ .ok → ∃ init last, l = init ++ [last] ∧ last.out = e ∧ ∀ x ∈ init, x.out = .ok

/-- The items of a walk before its first error. -/
def UpToError (items : List (Except Unit Bytes)) (good : List Bytes) : Prop :=
  ∃ bad, items = good.map .ok ++ bad ∧ (bad = [] ∨ ∃ u rest, bad = .error u :: rest)

/-- The attempts `l` are those for the inputs `roots` of the command, one after the other (input number `i` is walked by
walk number `i`): what each walk yields before its first error. -/
inductive InputsTried (sys : CreateSys) (cwd : List Bytes) (pre : RPath) (recurse : Bool) : Nat → List Bytes → List Attempted → Prop
  | nil (i : Nat) : InputsTried sys cwd pre recurse i [] []
  | cons {i : Nat} {root : Bytes} {roots good : List Bytes} {l l' : List Attempted} :
      UpToError (walkItems cwd (sys.walks i).src (sys.walks i).ls (sys.walks i).depth root recurse) good →
      AttemptsFor pre (good.map (fun p => (p, decide (stdComps p = stdComps root)))) .ok l →
      InputsTried sys cwd pre recurse (i + 1) roots l' → InputsTried sys cwd pre recurse i (root :: roots) (l ++ l')

end Arx
