import Verif.Spec.Hostile
import Verif.Spec.Mount
/-!
# Mounting archives not made by the creator
-/
namespace Arx

/-- the inodes a kernel uses after `log`: the root and those it was given by `lookup` (it does not use the numbers
`readdir` shows) -/
def entered (log : FLog) : List (Nat × EntryType) :=
  (1, .dir) :: log.flatMap (fun x => match x.2 with | .entry a => [(a.ino, a.kind)] | _ => [])

/-- A request a kernel makes after `log`: it uses inodes it has entered, looks up names and lists only in
directories, and reads only open files, at an offset inside the file. -/
def EnteredReq (cfg : FsCfg) (log : FLog) : FReq → Prop
  | .lookup p _ => (p, .dir) ∈ entered log
  | .readdir i _ _ => (i, .dir) ∈ entered log
  | .getattr i | .readlink i | .open i | .release i | .opendir i | .releasedir i => ∃ k, (i, k) ∈ entered log
  | .read i off _ => 0 < openCount log i ∧ 0 ≤ off ∧ ∀ b, cfg.fileBytes i = some b → off.toNat ≤ b.length

/-- A row whose numbers can be used: its variant is known, its children are rows of the table, its parent number is
not a positive multiple of 2^32, its time and sizes fit in what the mount answers. -/
structure RowFits (a : Archive) (r : RawEntry) : Prop where
  variant : r.variant ≤ 2
  children : r.variant = 1 → (rowRange r).count = 0 ∨ (rowRange r).offset + (rowRange r).count ≤ a.entries.length
  parent : r.parent = 0 ∨ r.parent % 2 ^ 32 ≠ 0
  mtime : r.mtime < 2 ^ 63
  size : r.variant = 0 → r.size + 4096 ≤ 2 ^ 64
  count : r.variant = 1 → (r.nbChildren + 1) * 10 < 2 ^ 64
  target : r.variant = 2 → r.target.length + 4096 ≤ 2 ^ 64

/-- A table that can be mounted: names, order of rows, order of names, sharing and cycles do not matter. -/
structure TableFits (cfg : FsCfg) : Prop where
  len : cfg.a.entries.length + 2 < 2 ^ 32
  root : cfg.root.count = 0 ∨ cfg.root.offset + cfg.root.count ≤ cfg.a.entries.length
  rows : ∀ (i : Nat) (r : RawEntry), cfg.a.entries[i]? = some r → RowFits cfg.a r

/-- What a directory entry of a listing of inode `ino`, whose children are the rows of `range`, can be. -/
def ShownIn (cfg : FsCfg) (ino : Nat) (range : Range) (e : DirEnt) : Prop :=
  (e.cookie = 0 ∧ e.name = CUR ∧ e.ino = ino) ∨ (e.cookie = 1 ∧ e.name = PARENT) ∨
  ∃ j r, e.cookie = j + 2 ∧ cfg.a.RowIn range (range.offset + j) r ∧ e.name = r.name ∧
    EntryType.tryFrom r.variant = some e.kind ∧ e.ino = range.offset + j + 2

end Arx
