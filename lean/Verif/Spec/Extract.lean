import Verif.Model.Extract
import Verif.Spec.Written
/-!
# Specification of extraction
-/
namespace Arx

/-- The entry at path `p` is selected by the given list of paths: the list is empty, or some listed path
is `p` itself, or (with `recurse`) a directory `p` lies in — the empty path included — or, for a directory,
a path inside `p`. (Listed paths are compared component by component; a `"."` component of a listed path
is an ordinary component: `a/./b` does not lie in `a`.) -/
def Selected (files : List RPath) (recurse : Bool) (p : List Bytes) (isDir : Bool) : Prop :=
  files = [] ∨ ∃ f ∈ files,
    comps f = p ∨
    (recurse = true ∧ comps f <+: p ∧ comps f ≠ p) ∨
    (isDir = true ∧ ∃ c t, comps f = p ++ c :: t ∧ c ≠ CUR)

/-- A name that a file system takes literally: not `"."`, not `".."`, without NUL byte. -/
def PlainName (c : Bytes) : Prop := c ≠ CUR ∧ c ≠ PARENT ∧ (0 : UInt8) ∉ c

/-- The part of an archive below directory `d`, with paths relative to `d`. -/
def PathMap.sub (m : PathMap) (d : List Bytes) : PathMap := fun p => if p = [] then none else m (d ++ p)

/-- The file system `fs` has the shape of a tree. -/
structure FS.WF (fs : FS) : Prop where
  root : ∃ t, fs.nodes [] = some (.dir t)
  tree : ∀ q c x, fs.nodes (q ++ [c]) = some x → ∃ t, fs.nodes q = some (.dir t)
  inos : ∀ q i, fs.nodes q = some (.file i) → i < fs.next

/-- The conditions under which extracting entries `m` to `base` has a simple description: names are plain;
no symbolic link is met on the way to `base` nor where a file or directory of the archive goes; an existing
file that would be replaced has no other hard link. -/
structure PlainTarget (fs : FS) (base : List Bytes) (m : PathMap) : Prop extends FS.WF fs where
  baseNames : ∀ c ∈ base, PlainName c
  baseLinks : ∀ q, q <+: base → ∀ t s, fs.nodes q ≠ some (.link t s)
  links : ∀ p n, m p = some n → (∀ t, n.kind ≠ .link t) → ∀ t s, fs.nodes (base ++ p) ≠ some (.link t s)
  alias : ∀ p n i q, m p = some n → fs.nodes (base ++ p) = some (.file i) → fs.nodes q = some (.file i) → q = base ++ p
  names : ∀ p n, m p = some n → ∀ c ∈ p, PlainName c

/-- Modification time of what is at a path. -/
def FS.timeOf (fs : FS) : FNode → Int
  | .dir t => t
  | .file i => (fs.data i).mtime
  | .link _ t => t

/-- Overwrite mode `mode` replaces an existing entry: mode `overwrite`, or mode `newer` and the archived
time (seconds) is not before the existing one (nanoseconds). -/
def Replaces (mode : Overwrite) (archived : Nat) (existing : Int) : Prop :=
  mode = .overwrite ∨ (mode = .newer ∧ existing ≤ (archived : Int) * 1000000000)

/-- A text that can be the target of a symbolic link and is extracted: UTF-8, not empty, without NUL. -/
def LinkText (t : Bytes) : Prop := validUtf8 t = true ∧ t ≠ [] ∧ (0 : UInt8) ∉ t

/-- What is at `q` after the extraction of the entry `n` to `q`, given the file system before.
* a directory is there; if something was there it is unchanged;
* a file with available content: created with that content if nothing was there; an existing file that is
  replaced has that content, otherwise nothing changes (and the mode is not `error`); if its pack is missing,
  nothing changes;
* a link: it has a target that a link can have; created if nothing was there; an existing file or link that is replaced is now this link,
  otherwise nothing changes. -/
def Extracted (mode : Overwrite) (bytes : ContentAddr → GetBytes) (before after : FS) (q : List Bytes) (n : Node) : Prop :=
  match n.kind with
  | .dir => (∃ t, after.nodes q = some (.dir t)) ∧ ∀ x, before.nodes q = some x → after.nodes q = some x
  | .file _ addr =>
    match bytes addr with
    | .found b =>
      match before.nodes q with
      | none => ∃ i, after.nodes q = some (.file i) ∧ before.next ≤ i ∧ (after.data i).bytes = b
      | some x => mode ≠ .error ∧ after.nodes q = some x ∧
        (Replaces mode n.info.mtime (before.timeOf x) → ∃ i, x = .file i ∧ (after.data i).bytes = b) ∧
        (¬ Replaces mode n.info.mtime (before.timeOf x) → ∀ i, x = .file i → after.data i = before.data i)
    | .missing => after.nodes q = before.nodes q ∧ ∀ i, before.nodes q = some (.file i) → after.data i = before.data i
    | .err => False
  | .link target => LinkText target ∧
    match before.nodes q with
    | none => ∃ t, after.nodes q = some (.link target t)
    | some x => mode ≠ .error ∧
      (Replaces mode n.info.mtime (before.timeOf x) → (∀ t, x ≠ .dir t) ∧ ∃ t, after.nodes q = some (.link target t)) ∧
      (¬ Replaces mode n.info.mtime (before.timeOf x) → after.nodes q = some x ∧ ∀ i, x = .file i → after.data i = before.data i)

/-- `q` is where a selected entry of `m` goes. -/
def IsTarget (files : List RPath) (recurse : Bool) (base : List Bytes) (m : PathMap) (q : List Bytes) : Prop :=
  ∃ p n, q = base ++ p ∧ m p = some n ∧ Selected files recurse p n.isDir

/-- Nothing but the targets of selected entries (and missing directories on the way to `base`) has changed:
other paths, and the content of all files that existed before except files at targets; what was missing on
the way to `base` is still missing or a directory. -/
structure Untouched (files : List RPath) (recurse : Bool) (base : List Bytes) (m : PathMap) (before after : FS) : Prop where
  nodes : ∀ q, ¬ q <+: base → ¬ IsTarget files recurse base m q → after.nodes q = before.nodes q
  above : ∀ q x, q <+: base → before.nodes q = some x → after.nodes q = some x
  way : ∀ q, q <+: base → before.nodes q = none → after.nodes q = none ∨ ∃ t, after.nodes q = some (.dir t)
  data : ∀ i, i < before.next → (∀ q, before.nodes q = some (.file i) → ¬ IsTarget files recurse base m q) →
    after.data i = before.data i

/-- Existing `x` does not get in the way of extracting `n`: an existing directory for a directory; any mode
but `error` for a file or link, where an entry to be replaced must be a file (file or link, for a link), and
the comparison of times in mode `newer` needs an archived time below 2^63. -/
def NoConflict (mode : Overwrite) (before : FS) (n : Node) (x : FNode) : Prop :=
  match n.kind with
  | .dir => ∃ t, x = .dir t
  | .file _ _ => mode ≠ .error ∧ (mode = .newer → n.info.mtime < 2 ^ 63) ∧
      (Replaces mode n.info.mtime (before.timeOf x) → ∃ i, x = .file i)
  | .link _ => mode ≠ .error ∧ (mode = .newer → n.info.mtime < 2 ^ 63) ∧
      (Replaces mode n.info.mtime (before.timeOf x) → ∀ t, x ≠ .dir t)

/-- The walk of an extraction reads the entry at `p`: the directory it is in is the top level or is selected. -/
def Reached (files : List RPath) (recurse : Bool) (p : List Bytes) : Prop :=
  p.dropLast = [] ∨ Selected files recurse p.dropLast true

/-- Nothing stands in the way of an extraction of the entries `m` with the given options: no file is on the way to
`base`; where a selected entry goes is nothing, or something that is no conflict (a file whose content pack is missing
is not extracted, there is no conflict then); the content of every selected file can be looked up; the names of the
entries that are read and the targets of links among them are UTF-8; the targets of selected links are not empty and
without NUL. -/
structure Unhindered (cfg : XCfg) (before : FS) (m : PathMap) : Prop where
  above : ∀ q i, q <+: cfg.base → before.nodes q ≠ some (.file i)
  conflict : ∀ p n x, m p = some n → Selected cfg.files cfg.recurse p n.isDir →
    (∀ s c, n.kind = .file s c → cfg.bytes c ≠ .missing) →
    before.nodes (cfg.base ++ p) = some x → NoConflict cfg.mode before n x
  content : ∀ p n s c, m p = some n → Selected cfg.files cfg.recurse p n.isDir → n.kind = .file s c → cfg.bytes c ≠ .err
  readable : ∀ p c n, m (p ++ [c]) = some n → Reached cfg.files cfg.recurse (p ++ [c]) →
    validUtf8 c = true ∧ ∀ t, n.kind = .link t → validUtf8 t = true
  usable : ∀ p n t, m p = some n → Selected cfg.files cfg.recurse p n.isDir → n.kind = .link t → t ≠ [] ∧ (0 : UInt8) ∉ t

/-- The same, and no call fails for an external reason. -/
structure NoObstacle (cfg : XCfg) (before : FS) (m : PathMap) : Prop extends Unhindered cfg before m where
  fault : ∀ n, cfg.env.fault n = false

/-- It is enough that all names and targets are UTF-8. -/
theorem NoObstacle.of {cfg : XCfg} {before : FS} {m : PathMap} (fault : ∀ n, cfg.env.fault n = false)
    (above : ∀ q i, q <+: cfg.base → before.nodes q ≠ some (.file i))
    (conflict : ∀ p n x, m p = some n → Selected cfg.files cfg.recurse p n.isDir →
      before.nodes (cfg.base ++ p) = some x → NoConflict cfg.mode before n x)
    (content : ∀ p n s c, m p = some n → Selected cfg.files cfg.recurse p n.isDir → n.kind = .file s c → cfg.bytes c ≠ .err)
    (names : ∀ p n, m p = some n → ∀ c ∈ p, validUtf8 c = true)
    (targets : ∀ p n t, m p = some n → n.kind = .link t → validUtf8 t = true)
    (usable : ∀ p n t, m p = some n → Selected cfg.files cfg.recurse p n.isDir → n.kind = .link t → t ≠ [] ∧ (0 : UInt8) ∉ t) :
    NoObstacle cfg before m where
  fault := fault
  above := above
  conflict p n x h1 h2 _ h3 := conflict p n x h1 h2 h3
  content := content
  readable p c n h _ := ⟨names _ n h c (by simp), fun t ht => targets _ n t h ht⟩
  usable := usable

/-- What the command extracts: the rows `rg` are the top level of the whole archive (`d0 = []`), or of the
directory at `d0` found by `get_entry` for `--root-dir`. `m` is what the add history `rs` describes. -/
structure Source (rs : List AddReq) (m : PathMap) (a : Archive) (rg : Range) (d0 : List Bytes) : Prop where
  written : Written rs a
  spec : SpecRun PathMap.empty rs m
  root : (d0 = [] ∧ rg = a.root) ∨ ∃ path, d0 = comps path ∧
    a.getEntry (⟨fun _ _ => .ok (), fun _ _ => .ok (), fun _ _ => .ok ()⟩ : Builder Unit Unit Unit) path = .ok (.dir rg ())

/-- One finished run of `extract_arx_range` from file system `before` to `after`, with result `res`: for
some sequence of writer steps after the walk, after which no writer is running. (The walk is given enough
recursion depth.) -/
def Extraction (cfg : XCfg) (rg : Range) (before after : FS) (res : XResult) : Prop :=
  ∃ depth last w, cfg.a.entries.length < depth ∧ cfg.extractRange depth rg before last = (w, res) ∧ w.finished ∧
    w.fs = after

/-- The same when no call and no write fails. -/
def CleanExtraction (cfg : XCfg) (rg : Range) (before after : FS) (res : XResult) : Prop :=
  (∀ n, cfg.env.fault n = false) ∧ (∀ n, NoErr (cfg.env.sched n)) ∧
  ∃ depth last w, cfg.a.entries.length < depth ∧ cfg.extractRange depth rg before last = (w, res) ∧ w.finished ∧
    w.fs = after ∧ NoErr last

/-- The directory `base` of `fs` contains exactly the tree `m`. -/
structure TreeAt (fs : FS) (base : List Bytes) (m : PathMap) (bytes : ContentAddr → GetBytes) : Prop where
  root : ∃ t, fs.nodes base = some (.dir t)
  nothing : ∀ p, p ≠ [] → m p = none → fs.nodes (base ++ p) = none
  dirs : ∀ p n, m p = some n → n.kind = .dir → ∃ t, fs.nodes (base ++ p) = some (.dir t)
  files : ∀ p n s c, m p = some n → n.kind = .file s c →
    ∃ i, fs.nodes (base ++ p) = some (.file i) ∧ bytes c = .found (fs.data i).bytes
  links : ∀ p n target, m p = some n → n.kind = .link target → ∃ t, fs.nodes (base ++ p) = some (.link target t)

/-- The directory at `base` is empty or can be created: nothing is below it, and neither a file nor a
symbolic link is at it or on the way to it. -/
structure EmptyTarget (fs : FS) (base : List Bytes) : Prop extends FS.WF fs where
  names : ∀ c ∈ base, PlainName c
  below : ∀ q, base <+: q → q ≠ base → fs.nodes q = none
  way : ∀ q x, q <+: base → fs.nodes q = some x → ∃ t, x = .dir t

/-- Every entry of `m` can be recreated on a file system: plain names, UTF-8; link targets UTF-8, not
empty, without NUL; content available. -/
structure Extractable (m : PathMap) (bytes : ContentAddr → GetBytes) : Prop where
  names : ∀ p n, m p = some n → ∀ c ∈ p, PlainName c
  utf8 : ∀ p n, m p = some n → ∀ c ∈ p, validUtf8 c = true
  targets : ∀ p n t, m p = some n → n.kind = .link t → validUtf8 t = true ∧ t ≠ [] ∧ (0 : UInt8) ∉ t
  content : ∀ p n s c, m p = some n → n.kind = .file s c → ∃ b, bytes c = .found b

end Arx
