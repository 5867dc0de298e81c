import Verif.Model.FsAdder
/-!
# Conversion of tar and zip archives

Models of /repo/tar2arx/src/main.rs and /repo/zip2arx/src/main.rs.  The readers of the crates `tar` and `zip`
are external: their results are given as lists of members.  Progress bars and the choice of the input stream
are not modelled.
-/
namespace Arx

/-- The creator and the contents added so far (`SimpleCreator`, /repo/libarx/src/create/creator.rs:9-12). -/
structure Conv where
  creator : Creator
  contents : List Bytes

def Conv.new : Conv := ⟨Creator.new, []⟩

/-- Results of a conversion, before finalization. `source`: the input cannot be read or is malformed. -/
inductive COut where
  | ok
  | source
  | add (e : AddErr)
  | panic
  deriving DecidableEq, Repr

/-- `add_entry(..)?`. -/
def Conv.add (c : Conv) (r : AddReq) (contents : List Bytes) : Conv × COut :=
  match c.creator.addEntry r with
  | (st, .ok) => (⟨st, contents⟩, .ok)
  | (st, .err e) => (⟨st, contents⟩, .add e)
  | (st, .panic) => (⟨st, contents⟩, .panic)

/-! ## tar -/

/-- `tar::EntryType`. `other`: character and block devices, FIFOs, continuous and sparse files, unknown. -/
inductive TarType where
  | regular | hardLink | symlink | directory | longName | longLink | xHeader | xGlobalHeader | other
  deriving DecidableEq, Repr

/-- One member, as the crate `tar` gives it. Header fields may be malformed. `path` and `linkName` take the
long name extensions into account; `headerPath` is the name field of the header. -/
structure TarMember where
  path : Bytes
  type : TarType
  uid : Except Unit Nat
  gid : Except Unit Nat
  mtime : Except Unit Nat
  mode : Except Unit Nat
  linkName : Option Bytes
  ustar : Bool
  headerPath : Bytes
  data : Except Unit Bytes

/-- `TarEntry::new` (/repo/tar2arx/src/main.rs:145-216) and `EntryTrait for TarEntry` (lines 219-240). -/
def TarMember.toEntry (e : TarMember) (contents : List Bytes) : Except COut (Option AddReq × List Bytes) :=
  match e.uid, e.gid, e.mtime, e.mode with                          -- 150-153
  | .ok uid, .ok gid, .ok mtime, .ok mode =>
    match RPath.fromPathBuf e.path with                             -- 154-155
    | .error _ => .error .panic
    | .ok path =>
      let info : Meta := ⟨uid, gid, mode, mtime⟩
      match e.type with
      | .directory => .ok (some ⟨path, .ok (some .dir), info⟩, contents)
      | .symlink =>
        match e.linkName with
        | none => .error .panic                                     -- 166 `unwrap`
        | some target => .ok (some ⟨path, .ok (some (.link target)), info⟩, contents)
      | .longName | .longLink | .xHeader | .xGlobalHeader => .ok (none, contents)
      | .regular | .hardLink | .other =>
        if e.ustar = false ∧ e.headerPath.getLast? = some SEP then
          .ok (some ⟨path, .ok (some .dir), info⟩, contents)
        else
          match e.data with
          | .error _ => .error .source
          | .ok data =>
            let r := addContent contents data
            .ok (some ⟨path, .ok (some (.file data.length r.1)), info⟩, r.2)
  | _, _, _, _ => .error .source

/-- `Converter::run` before `finalize` (/repo/tar2arx/src/main.rs:268-277). -/
def Conv.tarRun (c : Conv) : List (Except Unit TarMember) → Conv × COut
  | [] => (c, .ok)
  | .error _ :: _ => (c, .source)
  | .ok e :: rest =>
    match e.toEntry c.contents with
    | .error o => (c, o)
    | .ok (none, contents) => Conv.tarRun ⟨c.creator, contents⟩ rest
    | .ok (some r, contents) =>
      match c.add r contents with
      | (c, .ok) => Conv.tarRun c rest
      | (c, o) => (c, o)

/-! ## zip -/

/-- One member, as the crate `zip` gives it. `extTimes`: for each extended timestamp field, its modification
time (32 bits) if it has one; `dosTime`: the time of the header, in seconds since 1970, if it is a valid one
(`error`: fields out of range, the conversion fails). `stored`: not compressed. `raw`: the bytes of the zip
file at the member's data; `data`: the decompressed bytes. -/
structure ZipMember where
  name : Bytes
  isDir : Bool
  extTimes : List (Option Nat)
  dosTime : Option (Except Unit Nat)
  unixMode : Option Nat
  stored : Bool
  size : Nat
  raw : Except Unit Bytes
  data : Except Unit Bytes

/-- The `depth` loop of `enclosed_name`. -/
def zipDepth : Nat → List Bytes → Bool
  | _, [] => true
  | d, c :: cs =>
    if c = PARENT then
      match d with
      | 0 => false
      | d + 1 => zipDepth d cs
    else if c = CUR then zipDepth d cs
    else zipDepth (d + 1) cs

/-- `ZipFile::enclosed_name` (crate zip 2.2.1, external): no NUL, not absolute, never above the root. -/
def enclosedName (name : Bytes) : Option Bytes :=
  if (0 : UInt8) ∈ name then none
  else if name.head? = some SEP then none
  else if zipDepth 0 (comps name) then some name
  else none

/-- The modification time (/repo/zip2arx/src/main.rs:151-165). -/
def ZipMember.mtime (e : ZipMember) : Except COut Nat :=
  match e.extTimes.getLast?.join with
  | some t => .ok t
  | none =>
    match e.dosTime with
    | none => .ok 0
    | some (.ok t) => .ok t
    | some (.error _) => .error .panic

/-- `ZipEntry::new` (/repo/zip2arx/src/main.rs:146-205) and `EntryTrait for ZipEntry` (lines 208-228). -/
def ZipMember.toEntry (e : ZipMember) (contents : List Bytes) : Except COut (AddReq × List Bytes) :=
  match e.mtime with
  | .error o => .error o
  | .ok mtime =>
    let info : Meta := ⟨0, 0, e.unixMode.getD 0o644, mtime⟩
    match enclosedName e.name with
    | none => .error .source
    | some name =>
      match RPath.fromPathBuf name with
      | .error _ => .error .panic
      | .ok path =>
        if e.isDir then .ok (⟨path, .ok (some .dir), info⟩, contents)
        else
          match (if e.stored then e.raw else e.data) with
          | .error _ => .error .source
          | .ok data =>
            let r := addContent contents data
            .ok (⟨path, .ok (some (.file e.size r.1)), info⟩, r.2)

/-- `Converter::run` before `finalize` (/repo/zip2arx/src/main.rs:258-266); a member that cannot be opened
(for example encrypted) makes `by_index(..).unwrap()` panic. -/
def Conv.zipRun (c : Conv) : List (Except Unit ZipMember) → Conv × COut
  | [] => (c, .ok)
  | .error _ :: _ => (c, .panic)
  | .ok e :: rest =>
    match e.toEntry c.contents with
    | .error o => (c, o)
    | .ok (r, contents) =>
      match c.add r contents with
      | (c, .ok) => Conv.zipRun c rest
      | (c, o) => (c, o)

end Arx
