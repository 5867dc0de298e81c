import Verif.Spec.Mount
import Verif.Spec.Extract
/-!
# A program that copies a mounted archive

What a program like `cp -r` asks of the mount, directory by directory, while other programs ask other things. It is
written against `FsState.step` only.
-/
namespace Arx

/-- What the program cannot choose: what others ask after its request number `t`, and the sizes of the buffers the
kernel passes for it. -/
structure Client where
  noise : Nat → List FReq
  buf : Nat → Nat
  chunk : Nat → Nat

/-- One request at time `t`, then the requests of others. -/
def Client.ask (cl : Client) (cfg : FsCfg) (c : FsState × Nat) (r : FReq) : Reply × (FsState × Nat) :=
  ((c.1.step cfg r).1, (((c.1.step cfg r).2.run cfg (cl.noise c.2)).2, c.2 + 1))

/-- List a directory: ask for what comes after the last entry received, until nothing comes. (The first argument of
this and the following programs bounds the number of rounds.) -/
def Client.list (cl : Client) (cfg : FsCfg) (ino : Nat) : Nat → FsState × Nat → List DirEnt → Option (List DirEnt) × (FsState × Nat)
  | 0, c, _ => (none, c)
  | f + 1, c, got =>
    match cl.ask cfg c (.readdir ino ((got.getLast?.map (fun e => e.cookie)).getD 0) (cl.buf c.2)) with
    | (.dir [], c) => (some got, c)
    | (.dir page, c) => cl.list cfg ino f c (got ++ page)
    | (_, c) => (none, c)

/-- Read an open file of the given size from where it was read so far. -/
def Client.cat (cl : Client) (cfg : FsCfg) (ino size : Nat) : Nat → FsState × Nat → Bytes → Option Bytes × (FsState × Nat)
  | 0, c, _ => (none, c)
  | f + 1, c, got =>
    if size ≤ got.length then (some got, c)
    else
      match cl.ask cfg c (.read ino got.length (cl.chunk c.2)) with
      | (.data [], c) => (some got, c)
      | (.data d, c) => cl.cat cfg ino size f c (got ++ d)
      | (_, c) => (none, c)

/-- what was copied of one entry -/
inductive Got where
  | dir
  | file (b : Bytes)
  | link (target : Bytes)
  deriving DecidableEq, Repr

/-- one copied entry: path below the mount point, attributes, content -/
structure Copied where
  path : List Bytes
  attr : Attr
  got : Got
  deriving DecidableEq, Repr

/-- Do something for every name. -/
def eachName {C A : Type} (one : C → Bytes → Option (List A) × C) : C → List Bytes → Option (List A) × C
  | c, [] => (some [], c)
  | c, n :: ns =>
    match one c n with
    | (some l, c) =>
      match eachName one c ns with
      | (some k, c) => (some (l ++ k), c)
      | (none, c) => (none, c)
    | (none, c) => (none, c)

/-- Copy the child `name` of the directory with path `path` and inode `ino`; `sub` copies the content of a
directory. -/
def Client.copyChild (cl : Client) (cfg : FsCfg) (f : Nat)
    (sub : FsState × Nat → List Bytes → Nat → Option (List Copied) × (FsState × Nat)) (path : List Bytes) (ino : Nat)
    (c : FsState × Nat) (name : Bytes) : Option (List Copied) × (FsState × Nat) :=
  match cl.ask cfg c (.lookup ino name) with
  | (.entry a, c) =>
    match a.kind with
    | .dir =>
      match sub c (path ++ [name]) a.ino with
      | (some l, c) => (some (⟨path ++ [name], a, .dir⟩ :: l), c)
      | (none, c) => (none, c)
    | .link =>
      match cl.ask cfg c (.readlink a.ino) with
      | (.data t, c) => (some [⟨path ++ [name], a, .link t⟩], c)
      | (_, c) => (none, c)
    | .file =>
      match cl.ask cfg c (.open a.ino) with
      | (.opened, c) =>
        match cl.cat cfg a.ino a.size f c [] with
        | (some b, c) =>
          match cl.ask cfg c (.release a.ino) with
          | (.ok, c) => (some [⟨path ++ [name], a, .file b⟩], c)
          | (_, c) => (none, c)
        | (none, c) => (none, c)
      | (_, c) => (none, c)
  | (_, c) => (none, c)

/-- Copy what is in the directory with path `path` and inode `ino`, all but `.` and `..`. -/
def Client.copy (cl : Client) (cfg : FsCfg) : Nat → FsState × Nat → List Bytes → Nat → Option (List Copied) × (FsState × Nat)
  | 0, c, _, _ => (none, c)
  | f + 1, c, path, ino =>
    match cl.ask cfg c (.opendir ino) with
    | (.opened, c) =>
      match cl.list cfg ino f c [] with
      | (some L, c) =>
        match eachName (cl.copyChild cfg f (cl.copy cfg f) path ino) c
            ((L.map (fun e => e.name)).filter (fun n => decide (n ≠ CUR ∧ n ≠ PARENT))) with
        | (some l, c) =>
          match cl.ask cfg c (.releasedir ino) with
          | (.ok, c) => (some l, c)
          | (_, c) => (none, c)
        | (none, c) => (none, c)
      | (none, c) => (none, c)
    | (_, c) => (none, c)

/-- The requests of others, from the mount on, up to the program's request number `t`: `before` came before the
program started. -/
def Client.others (cl : Client) (before : List FReq) (t : Nat) : List FReq := before ++ (List.range t).flatMap cl.noise

/-- At no time has a file been released more often than opened. -/
def NoSteal (l : List FReq) : Prop := ∀ k ino, (l.take k).count (.release ino) ≤ (l.take k).count (.open ino)

/-- A copied entry is the entry of the archive: its attributes, and its content. -/
def CopyOf (cfg : FsCfg) (m : PathMap) (d0 : List Bytes) (x : Copied) : Prop :=
  AttrAt cfg m (d0 ++ x.path) x.attr ∧ ∃ n, m (d0 ++ x.path) = some n ∧
    match n.kind with
    | .dir => x.got = .dir
    | .file _ a => ∃ b, cfg.bytes a = .found b ∧ x.got = .file b
    | .link t => x.got = .link t

/-- What the program may rely on: the others release only what they opened; the buffers hold `"."` and `".."`, and
any entry; files are read at least one byte at a time. -/
structure Client.Fair (cl : Client) (m : PathMap) (before : List FReq) : Prop where
  others : ∀ t, NoSteal (cl.others before t)
  buf : ∀ t, 64 ≤ cl.buf t ∧ ∀ p n c, m (p ++ [c]) = some n → direntSize c ≤ cl.buf t
  chunk : ∀ t, 1 ≤ cl.chunk t

/-- What is at `p` of a file system is what was copied. -/
def SameThing (fs : FS) (p : List Bytes) : Got → Prop
  | .dir => ∃ t, fs.nodes p = some (.dir t)
  | .file b => ∃ i, fs.nodes p = some (.file i) ∧ (fs.data i).bytes = b
  | .link target => ∃ t, fs.nodes p = some (.link target t)

end Arx
