import Verif.Model.ArxFs
import Verif.Model.ConvertMain
/-!
# The commands `arx mount`, `mount.fuse.arx` and the self mounting executable

Models of /repo/arx/src/mount.rs, /repo/arx/src/bin/mount_fuse_arx.rs and /repo/arx/src/bin/auto_mount.rs, without
messages (statistics: Model/Stats). What the mounted file system answers is `FsState.step`.
-/
namespace Arx

/-- `fuser::MountOption`, those that are used. -/
inductive MountOption where
  | ro
  | fsName (n : Bytes)
  | subtype (n : Bytes)
  | defaultPermissions
  deriving DecidableEq, Repr

/-- `mount_options` (/repo/libarx/src/arx_fs.rs:411-418). -/
def mountOptions (name : Bytes) : List MountOption :=
  [.ro, .fsName name, .subtype [97, 114, 120], .defaultPermissions]

/-- What a mount command does: makes a directory beside the archive; goes to the background; asks the kernel for a
mount and serves it until it is unmounted; removes the directory it has made. -/
inductive MountEv where
  | mkdir (dir : Bytes)
  | detach
  | serve (dir : Bytes) (root : Range) (options : List MountOption)
  | rmdir (dir : Bytes)
  deriving DecidableEq, Repr

/-- `mount::Options` (/repo/arx/src/mount.rs:95-115). -/
structure MountOpts where
  infile : Bytes
  mountdir : Option Bytes
  rootDir : Option Bytes
  foreground : Bool

/-- What the command finds: the text of the current directory, the archive (`none`: it cannot be opened), the random
end of a temporary directory's name (`none`: it cannot be made), whether it can detach, whether the kernel mounts
and the session ends without error. -/
structure MountSys where
  cwd : Bytes
  archive : Option Archive
  tmp : Option Bytes
  detachOk : Bool
  mountOk : Bool

/-- `PathBuf::join`. -/
def joinPaths (cwd p : Bytes) : Bytes := if p.head? = some SEP then p else joinChild cwd p

/-- The directory to show (/repo/arx/src/mount.rs:122-133). -/
def mountRootCmd (a : Archive) (rootDir : Option Bytes) : Except CmdRes Range :=
  match rootDir with
  | none => .ok a.root
  | some p =>
    match RPath.fromPathRef p with
    | .error _ => .error .err
    | .ok rp =>
      match a.getEntry (F := Unit) (L := Unit) (D := Unit)
          ⟨fun _ _ => .ok (), fun _ _ => .ok (), fun _ _ => .ok ()⟩ rp with
      | .ok (.dir r _) => .ok r
      | .error .panic => .error .panic
      | _ => .error .err

/-- `arx mount` (/repo/arx/src/mount.rs:119-180): events, and the result the caller of the command sees. In the
background the first process ends with success as soon as the second one runs (crate `daemonize`, external), so what
happens later is not seen. A temporary directory is removed when the command ends (crate `tempfile`, external). -/
def mountCmd (o : MountOpts) (sys : MountSys) : List MountEv × CmdRes :=
  match sys.archive with
  | none => ([], .err)
  | some a =>
    match mountRootCmd a o.rootDir with
    | .error e => ([], e)
    | .ok range =>
      let abs := joinPaths sys.cwd o.infile
      match (match o.mountdir with
        | some d => (.ok (d, none) : Except CmdRes (Bytes × Option Bytes))
        | none =>
          match splitName abs with
          | none => .error .panic
          | some (pre, name) =>
            match sys.tmp with
            | none => .error .err
            | some r => .ok (pre ++ name ++ 46 :: r, some (pre ++ name ++ 46 :: r))) with
      | .error e => ([], e)
      | .ok (dir, tmp) =>
        let made := tmp.toList.map MountEv.mkdir
        let removed := tmp.toList.map MountEv.rmdir
        let point := joinPaths sys.cwd dir
        if !o.foreground && !sys.detachOk then (made ++ removed, .err)
        else
          let detached := if o.foreground then [] else [MountEv.detach]
          let (served, res) :=
            if validUtf8 abs then
              ([MountEv.serve point range (mountOptions abs)], if sys.mountOk then CmdRes.ok else .err)
            else ([], .panic)
          (made ++ detached ++ served ++ removed, if o.foreground then res else .ok)

/-- `mount.fuse.arx` (/repo/arx/src/bin/mount_fuse_arx.rs:18-50). -/
def mountFuse (infile mountdir : Bytes) (options : List Bytes) (sys : MountSys) : List MountEv × CmdRes :=
  if options.contains [114, 119] then ([], .err)
  else
    match sys.archive with
    | none => ([], .err)
    | some a =>
      let abs := joinPaths sys.cwd infile
      if validUtf8 abs then ([.serve mountdir a.root (mountOptions abs)], if sys.mountOk then .ok else .err)
      else ([], .panic)

/-- The executable with an archive at its end (/repo/arx/src/bin/auto_mount.rs:19-70); `exe`: its own path, if it can
be found. -/
def autoMount (exe : Option Bytes) (mountdir : Bytes) (sys : MountSys) : List MountEv × CmdRes :=
  match exe with
  | none => ([], .err)
  | some exe =>
    match sys.archive with
    | none => ([], .err)
    | some a =>
      let abs := joinPaths sys.cwd exe
      if validUtf8 abs then ([.serve mountdir a.root (mountOptions abs)], if sys.mountOk then .ok else .err)
      else ([], .panic)

end Arx
