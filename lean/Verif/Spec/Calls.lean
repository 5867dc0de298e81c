import Verif.Model.ExtractCalls
import Verif.Spec.Extract
/-!
# Which system calls an extraction may make

Vocabulary on the sequence of calls and answers of an extraction that runs beside other processes.
-/
namespace Arx

/-- The files opened so far, in order: path and file. Each has one writer, with the same number. -/
def opens (t : XTrace) : List (List Bytes × Nat) :=
  t.filterMap (fun x => match x with
    | (.openNew p, .opened f) => some (p, f)
    | (.openTrunc p, .opened f) => some (p, f)
    | _ => none)

/-- The bytes that the system accepted from writer `i`, one after the other. -/
def writtenBy (i : Nat) (t : XTrace) : Bytes :=
  (t.filterMap (fun x => match x with
    | (.write j _ _ s, .wrote k) => if j = i then some (s.take k) else none
    | _ => none)).flatten

/-- What is to be extracted: which paths are directories to make, files (archived time, content) and links
(archived time, target); and the overwrite mode. -/
structure Plan where
  dir : List Bytes → Prop
  file : List Bytes → Nat → Bytes → Prop
  link : List Bytes → Nat → Bytes → Prop
  mode : Overwrite

/-- An existing entry may be replaced: in mode `overwrite`; in mode `newer` if the archived time is not before
the time that the system has answered for it. -/
def Plan.MayReplace (P : Plan) (past : XTrace) (follow : Bool) (p : List Bytes) (mtime : Nat) : Prop :=
  P.mode = .overwrite ∨ (P.mode = .newer ∧ ∃ t, (XCall.modified follow p, XAns.time t) ∈ past ∧ t ≤ (mtime : Int) * 1000000000)

/-- The calls that may be made after `past`:
* directories are made (or looked for) where directories are to be;
* a file is opened, to be created and only if nothing is there, where a file is to be; it is opened for
  replacing only after the system has said that there is something, and the mode allows it;
* a link is made where a link is to be; something is removed only there, after the system has said that there
  is something, and the mode allows it;
* times are asked in mode `newer`, where something is in the way;
* a writer writes to the file that was opened for it, at the end of what it has written, the next bytes of the
  content of that file. -/
def Plan.Allows (P : Plan) (past : XTrace) : XCall → Prop
  | .mkdir p => P.dir p
  | .isDir p => P.dir p
  | .openNew p => ∃ mt b, P.file p mt b
  | .openTrunc p => ∃ mt b, P.file p mt b ∧ (XCall.openNew p, XAns.err .exists) ∈ past ∧ P.MayReplace past true p mt
  | .modified true p => ∃ mt b, P.file p mt b ∧ P.mode = .newer ∧ (XCall.openNew p, XAns.err .exists) ∈ past
  | .modified false p => ∃ mt t, P.link p mt t ∧ P.mode = .newer ∧ (XCall.symlink t p, XAns.err .exists) ∈ past
  | .symlink t p => ∃ mt, P.link p mt t
  | .unlink p => ∃ mt t, P.link p mt t ∧ (XCall.symlink t p, XAns.err .exists) ∈ past ∧ P.MayReplace past false p mt
  | .write i f off s => ∃ p mt b, P.file p mt b ∧ (opens past)[i]? = some (p, f) ∧
      off = (writtenBy i past).length ∧ writtenBy i past = b.take off ∧ s = (b.drop off).take 4096

/-- Every call was allowed when it was made. -/
def Plan.Obeyed (P : Plan) (t : XTrace) : Prop :=
  ∀ past c a rest, t = past ++ (c, a) :: rest → P.Allows past c

/-- The writers: what writer `i` has delivered is a first part of the content of the file that was opened for
it; if the extraction has succeeded it is all of it. -/
def Plan.Written (P : Plan) (t : XTrace) (ok : Prop) : Prop :=
  ∀ (i : Nat) (p : List Bytes) (f : Nat), (opens t)[i]? = some (p, f) →
    ∃ mt b, P.file p mt b ∧ writtenBy i t <+: b ∧ (ok → writtenBy i t = b)

/-- The plan of extracting the entries `m` of an archive to the directory `cfg.base`. -/
def XCfg.plan (cfg : XCfg) (m : PathMap) : Plan where
  dir p := p <+: cfg.base ∨ ∃ q n, p = cfg.base ++ q ∧ m q = some n ∧ n.kind = .dir ∧ Selected cfg.files cfg.recurse q true
  file p mt b := ∃ q n s c, p = cfg.base ++ q ∧ m q = some n ∧ n.kind = .file s c ∧ Selected cfg.files cfg.recurse q false ∧
    mt = n.info.mtime ∧ cfg.bytes c = .found b
  link p mt t := ∃ q n, p = cfg.base ++ q ∧ m q = some n ∧ n.kind = .link t ∧ Selected cfg.files cfg.recurse q false ∧
    mt = n.info.mtime
  mode := cfg.mode

/-- The plan of extracting any table: the content of a file is the one of a file of the table, the target of a
link is the one of a link of the table; paths may be anything (`".."` in names). -/
def XCfg.tablePlan (cfg : XCfg) : Plan where
  dir _ := True
  file _ mt b := ∃ (i : Nat) (r : RawEntry), cfg.a.entries[i]? = some r ∧ r.variant = 0 ∧ mt = r.mtime ∧ cfg.bytes r.content = .found b
  link _ mt t := ∃ (i : Nat) (r : RawEntry), cfg.a.entries[i]? = some r ∧ r.variant = 2 ∧ mt = r.mtime ∧ t = r.target
  mode := cfg.mode

/-- What the system has answered shows that the entry `n` was extracted to `p` (or left alone as the mode says):
* a directory was made, or the system said that there is one;
* a file was opened for writing (what was written is `Plan.Written`), or something was there and the mode says to
  keep it; nothing is claimed if its pack is missing; an unreadable content is not a success;
* a link was made, or something was there and the mode says to keep it. -/
def Handled (cfg : XCfg) (t : XTrace) (p : List Bytes) (n : Node) : Prop :=
  let kept (follow : Bool) := cfg.mode = .skip ∨ cfg.mode = .warn ∨
    (cfg.mode = .newer ∧ ∃ x, (XCall.modified follow p, XAns.time x) ∈ t ∧ (n.info.mtime : Int) * 1000000000 < x)
  match n.kind with
  | .dir => (XCall.mkdir p, XAns.done) ∈ t ∨ (XCall.isDir p, XAns.bool true) ∈ t
  | .file _ c =>
    match cfg.bytes c with
    | .found _ => (∃ f, (p, f) ∈ opens t) ∨ ((XCall.openNew p, XAns.err .exists) ∈ t ∧ kept true)
    | .missing => True
    | .err => False
  | .link target => (XCall.symlink target p, XAns.done) ∈ t ∨ ((XCall.symlink target p, XAns.err .exists) ∈ t ∧ kept false)

/-- What a call with this answer does to the file system: nothing if it failed; else what the call does (for a
write: the accepted bytes are put at the position). -/
def Does (c : XCall) (a : XAns) (fs fs' : FS) : Prop :=
  ((∃ e, a = .err e) ∧ fs' = fs) ∨ c.run fs = .ok (a, fs') ∨
  (∃ i f off s k, c = .write i f off s ∧ a = .wrote k ∧ fs' = fs.setData f ⟨writeAt (fs.data f).bytes off (s.take k), fs.now⟩)

/-- The calls, one after the other, on a file system that nobody else changes: every call is answered as this
file system does, or fails. -/
inductive AloneOn : FS → XTrace → FS → Prop
  | start (fs : FS) : AloneOn fs [] fs
  | call {fs fs' fs'' : FS} {t : XTrace} {c : XCall} {a : XAns} : AloneOn fs t fs' → Does c a fs' fs'' → AloneOn fs (t ++ [(c, a)]) fs''

/-- The calls of an extraction on a file system that others change too: between two calls they do something that
`others` allows (which may depend on the calls so far). A call may also fail for another reason. -/
inductive Beside (others : XTrace → FS → FS → Prop) : FS → XTrace → FS → Prop
  | start (fs : FS) : Beside others fs [] fs
  | call {fs fs' fs'' : FS} {t : XTrace} {c : XCall} {a : XAns} : Beside others fs t fs' → Does c a fs' fs'' →
      Beside others fs (t ++ [(c, a)]) fs''
  | other {fs fs' fs'' : FS} {t : XTrace} : Beside others fs t fs' → others t fs' fs'' → Beside others fs t fs''

/-- One finished run of the extraction of range `rg`, whose calls are answered by `env`: the calls `t` were made,
the result is `res`, no writer is running. (The walk is given enough recursion depth.) -/
def CallRun (cfg : XCfg) (env : CallEnv) (rg : Range) (t : XTrace) (res : XResult) : Prop :=
  ∃ depth last w, cfg.a.entries.length < depth ∧ cfg.callExtract env depth rg last = (w, res) ∧ w.finished ∧ w.trace = t

/-- Neither the output directory nor the paths of the entries contain the name `"."`. -/
structure NoDots (base : List Bytes) (m : PathMap) : Prop where
  base : ∀ c ∈ base, c ≠ CUR
  names : ∀ p n, m p = some n → ∀ c ∈ p, c ≠ CUR

/-- The entry `x` at `q` is as it was: it is there, and the data of a file are the same. -/
def EntryKept (fs fs' : FS) (q : List Bytes) (x : FNode) : Prop :=
  fs'.nodes q = some x ∧ ∀ i, x = .file i → fs'.data i = fs.data i

end Arx
