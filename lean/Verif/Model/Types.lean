import Verif.Base.RelPath
/-!
# Common data of the model
-/
namespace Arx

/-- `Except` values can be compared (used by the concrete examples). -/
instance instDecEqExcept {ε α : Type} [DecidableEq ε] [DecidableEq α] : DecidableEq (Except ε α)
  | .ok a, .ok b => if h : a = b then isTrue (by rw [h]) else isFalse (by intro e; cases e; exact h rfl)
  | .error a, .error b => if h : a = b then isTrue (by rw [h]) else isFalse (by intro e; cases e; exact h rfl)
  | .ok _, .error _ => isFalse (by intro e; cases e)
  | .error _, .ok _ => isFalse (by intro e; cases e)

/-- `jbk::ContentAddress` (pack id, content id). External type; values are opaque to arx. -/
structure ContentAddr where
  pack : Nat
  content : Nat
  deriving DecidableEq, Repr, Inhabited

/-- The per-entry metadata an `EntryTrait` supplies: `uid`, `gid`, `mode`, `mtime`, all `u64`
(/repo/libarx/src/create/mod.rs:16-27). -/
structure Meta where
  owner : Nat
  group : Nat
  rights : Nat
  mtime : Nat
  deriving DecidableEq, Repr, Inhabited

/-- `EntryKind` (/repo/libarx/src/create/mod.rs:9-14). -/
inductive Kind where
  | dir
  | file (size : Nat) (content : ContentAddr)
  | link (target : Bytes)
  deriving DecidableEq, Repr, Inhabited

def Kind.isDir : Kind → Bool
  | .dir => true
  | _ => false

/-- What one entry of an archive is, independently of where it is stored. -/
structure Node where
  info : Meta
  kind : Kind
  deriving DecidableEq, Repr, Inhabited

def Node.isDir (n : Node) : Bool := n.kind.isDir

theorem Kind.isDir_iff {k : Kind} : k.isDir = true ↔ k = .dir := by
  cases k <;> simp [Kind.isDir]

/-- Metadata of directories created implicitly
(/repo/libarx/src/create/entry_store_creator.rs:112-115: 1000, 1000, 0o755, 0). -/
def defaultMeta : Meta := { owner := 1000, group := 1000, rights := 0o755, mtime := 0 }

/-- An implicitly created directory. -/
def defaultDir : Node := { info := defaultMeta, kind := .dir }

/-- One call to `add_entry`: the `EntryTrait` value it receives. `kind` is the result of
`EntryTrait::kind()` (an error, `None` for "ignore", or a kind). -/
structure AddReq where
  path : RPath
  kind : Except Unit (Option Kind)
  info : Meta

/-- Error messages of `add_entry` (/repo/libarx/src/create/entry_store_creator.rs:88,173,206,224
and the `?` at 143). -/
inductive AddErr where
  | notADir | dirOverNonDir | fileExists | linkExists | kind
  deriving DecidableEq, Repr

inductive AddOut where
  | ok
  | err (e : AddErr)
  | panic
  deriving DecidableEq, Repr

end Arx
