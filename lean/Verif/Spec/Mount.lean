import Verif.Model.ArxFs
import Verif.Spec.Written
import Verif.Spec.Walk
/-!
# Specification of a mounted archive
-/
namespace Arx

/-- A text that can be given to `--root-dir`: a relative path in UTF-8 without `.` between names (one in front, and any number behind,
does no harm). -/
def RootName (p : Bytes) : Prop :=
  validUtf8 p = true ∧ p.head? ≠ some 47 ∧ ∃ a b, comps p = a ++ b ∧ CUR ∉ a.tail ∧ ∀ c ∈ b, c = CUR

/-- The bytes of the file with inode `ino`, if it is a file whose content is available. -/
def FsCfg.fileBytes (cfg : FsCfg) (ino : Nat) : Option Bytes :=
  match inoIdx ino with
  | some (some idx) =>
    match cfg.a.entries[idx]? with
    | some r =>
      if EntryType.tryFrom r.variant = some .file then
        match cfg.bytes r.content with
        | .found b => some b
        | _ => none
      else none
    | none => none
  | _ => none

/-- The mount without any cache. Its only state is how many times each file is open; every answer is
computed from the archive. -/
def pureStep (cfg : FsCfg) (opens : Nat → Nat) : FReq → Reply × (Nat → Nat)
  | .lookup parent name =>
    match cfg.entryRange parent with
    | none => (.panic, opens)
    | some range =>
      match cfg.a.find range name with
      | .error _ => (.panic, opens)
      | .ok none => (.error .ENOENT, opens)
      | .ok (some i) =>
        match cfg.a.attrOf (i + range.offset) with
        | none => (.panic, opens)
        | some a => (.entry a, opens)
  | .getattr ino =>
    match inoIdx ino with
    | none => (.panic, opens)
    | some none => (.attr rootAttr, opens)
    | some (some idx) =>
      match cfg.a.attrOf idx with
      | none => (.panic, opens)
      | some a => (.attr a, opens)
  | .readlink ino => ((FsState.init.readlink cfg ino).1, opens)
  | .opendir ino => ((FsState.init.opendir cfg ino).1, opens)
  | .releasedir _ => (.ok, opens)
  | .open ino =>
    if 0 < opens ino then (.opened, fun i => if i = ino then opens ino + 1 else opens i)
    else
      match (FsState.init.open cfg ino).1 with
      | .opened => (.opened, fun i => if i = ino then 1 else opens i)
      | r => (r, opens)
  | .read ino offset size =>
    if ino = 0 ∨ offset < 0 ∨ opens ino = 0 then (.panic, opens)
    else
      match cfg.fileBytes ino with
      | none => (.panic, opens)
      | some b =>
        if b.length < offset.toNat then (.panic, opens)
        else (.data ((b.drop offset.toNat).take (min size (b.length - offset.toNat))), opens)
  | .release ino =>
    if ino = 0 then (.panic, opens)
    else if opens ino = 0 then (.error .ENOENT, opens)
    else (.ok, fun i => if i = ino then opens ino - 1 else opens i)
  | .readdir ino offset bufSize => ((FsState.init.readdir cfg ino offset bufSize).1, opens)

/-- A history without caches. -/
def pureRun (cfg : FsCfg) (opens : Nat → Nat) : List FReq → List Reply × (Nat → Nat)
  | [] => ([], opens)
  | r :: rs =>
    let (y, o1) := pureStep cfg opens r
    let (ys, o2) := pureRun cfg o1 rs
    (y :: ys, o2)

/-- The states a mount can be in. -/
def FsReach (cfg : FsCfg) (s : FsState) : Prop := ∃ reqs, s = (FsState.init.run cfg reqs).2

/-- `cfg` is a mount of the archive `a` created by `rs`, whose content is `m`, showing the directory
`d0` (`[]`: the whole archive). -/
structure Mounted (rs : List AddReq) (m : PathMap) (cfg : FsCfg) (d0 : List Bytes) : Prop where
  written : Written rs cfg.a
  spec : SpecRun PathMap.empty rs m
  root : (d0 = [] ∧ cfg.root = cfg.a.root) ∨
    ∃ rd, comps rd = d0 ∧ mountRoot cfg.a (some rd) = some cfg.root

/-- The path of the entry inode `ino` stands for (by following parents in the archive). -/
def inoPath (cfg : FsCfg) (d0 : List Bytes) (ino : Nat) : Option (List Bytes) :=
  if ino = 0 then none else if ino = 1 then some d0 else pathUp cfg.a cfg.a.entries.length (ino - 2)

/-- The attributes of the entry can be given to the kernel: the modification time is below 2^63 seconds, and
the size, rounded up to blocks of 4 KiB, below 2^64. -/
def Node.HasAttr (n : Node) : Prop :=
  n.info.mtime < 2 ^ 63 ∧
    match n.kind with
    | .dir => True
    | .file size _ => size ≤ 2 ^ 64 - 4096
    | .link target => target.length ≤ 2 ^ 64 - 4096

/-- This holds for all entries. -/
def AttrsFit (m : PathMap) : Prop := ∀ p n, m p = some n → n.HasAttr

def Kind.etype : Kind → EntryType
  | .dir => .dir
  | .file _ _ => .file
  | .link _ => .link

/-- Attributes of an entry: size of the file, length of the link target, 10 per child (plus one) for a
directory; permission bits without the write bits; 8 blocks of 512 bytes per started 4 KiB. -/
def attrSpec (ino nbChildren : Nat) (n : Node) : Attr :=
  let size := match n.kind with
    | .file size _ => size
    | .link target => target.length
    | .dir => (nbChildren + 1) * 10
  { ino := ino, size := size,
    blocks := if n.kind.etype = .dir then 0 else 8 * ((size + 4095) / 4096),
    kind := n.kind.etype,
    perm := (n.info.rights % 2 ^ 16) &&& 0b1111_1111_0110_1101,
    uid := asU32 n.info.owner, gid := asU32 n.info.group, mtime := n.info.mtime, nlink := 1 }

/-- `at` are the attributes of the entry of `m` at path `p`. -/
def AttrAt (cfg : FsCfg) (m : PathMap) (p : List Bytes) (at' : Attr) : Prop :=
  ∃ n ns, m p = some n ∧ KidsOf m p ns ∧ inoPath cfg [] at'.ino = some p ∧ 2 ≤ at'.ino ∧
    at' = attrSpec at'.ino ns.length n

/-! ## Directory listings and pages -/

/-- `L` is the complete listing of the directory with inode `ino` and path `d`: `"."`, `".."`, then the
children in name order with their inode and kind; the cookie of each is its position. -/
structure DirListing (cfg : FsCfg) (m : PathMap) (ino : Nat) (d : List Bytes) (L : List DirEnt) : Prop where
  dot : L[0]? = some ⟨ino, 0, .dir, CUR⟩
  dotdot : ∃ p, L[1]? = some ⟨p, 1, .dir, PARENT⟩ ∧ (ino = 1 → p = 1) ∧
    (ino ≠ 1 → inoPath cfg [] p = some d.dropLast)
  kids : ∃ ns, KidsOf m d ns ∧ All2 (fun (e : DirEnt) c => e.name = c ∧ 2 ≤ e.ino ∧
    inoPath cfg [] e.ino = some (d ++ [c]) ∧ ∃ n, m (d ++ [c]) = some n ∧ e.kind = n.kind.etype) (L.drop 2) ns
  cookies : L.map (fun e => e.cookie) = List.range L.length

/-- bytes a list of entries takes in a reply buffer -/
def entsSize (l : List DirEnt) : Nat := (l.map (fun e => direntSize e.name)).sum

/-- `page` is what a buffer of `buf` bytes holds of `rest`: as many entries as fit, in order. -/
def IsPage (buf : Nat) (rest page : List DirEnt) : Prop :=
  page <+: rest ∧ entsSize page ≤ buf ∧
    ∀ e t, rest = page ++ e :: t → buf < entsSize page + direntSize e.name

/-- Read directory `ino` page by page with the given buffer sizes, each request passing the cookie of
the last entry received so far (0 at first); any other requests may happen in between (`noise`). Returns
everything received (`none`: a request failed). -/
def readPages (cfg : FsCfg) (ino : Nat) : FsState → List DirEnt → List (Nat × List FReq) → Option (List DirEnt)
  | _, got, [] => some got
  | s, got, (buf, noise) :: rest =>
    match s.step cfg (.readdir ino ((got.getLast?.map (fun e => e.cookie)).getD 0) buf) with
    | (.dir page, s1) => readPages cfg ino (s1.run cfg noise).2 (got ++ page) rest
    | _ => none

/-! ## Resolving a path -/

/-- What the kernel does to resolve a path below inode `ino`: one `lookup` per name, going on only in
directories. -/
def resolveFs (cfg : FsCfg) : FsState → Nat → List Bytes → Option Attr × FsState
  | s, _, [] => (none, s)
  | s, ino, c :: cs =>
    match s.step cfg (.lookup ino c) with
    | (.entry a, s1) =>
      if cs = [] then (some a, s1) else if a.kind = .dir then resolveFs cfg s1 a.ino cs else (none, s1)
    | (_, s1) => (none, s1)

/-! ## What the kernel has seen -/

/-- inodes and kinds in a reply -/
def Reply.seen : Reply → List (Nat × EntryType)
  | .entry a => [(a.ino, a.kind)]
  | .dir l => l.map (fun e => (e.ino, e.kind))
  | _ => []

/-- requests with their replies -/
abbrev FLog := List (FReq × Reply)

def seenIn (log : FLog) : List (Nat × EntryType) := (1, .dir) :: log.flatMap (fun x => x.2.seen)

/-- how many successful opens of `ino` have not been released -/
def openCount (log : FLog) (ino : Nat) : Nat :=
  log.foldl (fun n x =>
    if x = (.open ino, .opened) then n + 1 else if x = (.release ino, .ok) then n - 1 else n) 0

/-- the log of a history of requests on a fresh mount -/
def logOf (cfg : FsCfg) (reqs : List FReq) : FLog := reqs.zip (FsState.init.run cfg reqs).1

/-- A request a kernel makes after `log`: it uses inodes it was given, looks up names and lists only in
directories, reads only open files and inside the file. -/
def Polite (cfg : FsCfg) (log : FLog) : FReq → Prop
  | .lookup p _ => (p, .dir) ∈ seenIn log
  | .readdir i _ _ => (i, .dir) ∈ seenIn log
  | .getattr i | .readlink i | .open i | .release i | .opendir i | .releasedir i => ∃ k, (i, k) ∈ seenIn log
  | .read i off _ => 0 < openCount log i ∧ 0 ≤ off ∧ ∀ b, cfg.fileBytes i = some b → off.toNat ≤ b.length

end Arx
