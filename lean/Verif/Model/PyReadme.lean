import Verif.Model.Python

/-!
# The reading program of the Python README

Model of the program `iterate` (/repo/python/README.md:53-75) on the modelled calls of the Python module.  In the README the
recursive call reads `loop_on_entry_generator(entry)` and `nb_childen`, names that do not exist; the model has what is meant,
`iterate(entry, path)` and `nb_children`.  What is printed is kept as data, without the text around it.
-/
namespace Arx

/-- What one `print` prints: the path; size and first bytes of a content; a number of children; a target. -/
inductive PyLine where
  | entry (path : Bytes)
  | content (size : Nat) (start : Bytes)
  | children (count : Nat)
  | link (target : Bytes)
  deriving DecidableEq, Repr

/-- `for entry in iterable: body` (at most `fuel` turns); `false`: an exception ended the program. -/
def pyFor (a : Archive) (body : FullEntry → List PyLine × Bool) : Nat → PyIter → List PyLine × Bool
  | 0, _ => ([], false)
  | fuel + 1, it =>
    match it.next a with
    | (.error _, _) => ([], false)
    | (.ok none, _) => ([], true)
    | (.ok (some e), it) =>
      let r := body e
      if r.2 then
        let r' := pyFor a body fuel it
        (r.1 ++ r'.1, r'.2)
      else r

/-- The body of the loop (/repo/python/README.md:61-72); `again`: the recursive call. -/
def pyTurn (bytes : ContentAddr → GetBytes) (again : PyIter → Bytes → List PyLine × Bool) (root : Bytes) (e : FullEntry) : List PyLine × Bool :=
  match pyPath e with
  | .error _ => ([], false)
  | .ok name =>
    let path := root ++ [SEP] ++ name
    match e with
    | .file _ =>
      match pyContent bytes e with
      | .stream s => ([.entry path, .content s.size (s.read (min 100 s.size)).1], true)
      | _ => ([.entry path], false)
    | .dir _ _ =>
      match pyNbChildren e, pyIterEntry e with
      | some n, some it =>
        let r := again it path
        ([.entry path, .children n] ++ r.1, r.2)
      | _, _ => ([.entry path], false)
    | .link _ =>
      match pyTarget e with
      | some t => ([.entry path, .link t], true)
      | none => ([.entry path], false)

/-- `iterate(iterable, root)` (/repo/python/README.md:59-72), to at most `depth` nested directories; the iterator gives at most
`stop - start` entries. -/
def pyIterate (a : Archive) (bytes : ContentAddr → GetBytes) : Nat → PyIter → Bytes → List PyLine × Bool
  | 0, _, _ => ([], false)
  | depth + 1, it, root => pyFor a (pyTurn bytes (pyIterate a bytes depth) root) (it.stop - it.start + 1) it

/-- `iterate(arx)` (/repo/python/README.md:75). -/
def pyReadArchive (a : Archive) (bytes : ContentAddr → GetBytes) (depth : Nat) : List PyLine × Bool :=
  pyIterate a bytes depth (pyIterRoot a) []

/-- `entry.parent`, `n` times (/repo/python/README.md:80-82); `none`: an exception or no entry before. -/
def pyUp (a : Archive) : Nat → FullEntry → Option (Option FullEntry)
  | 0, e => some (some e)
  | n + 1, e =>
    match pyParent a e with
    | .error _ => none
    | .ok none => if n = 0 then some none else none
    | .ok (some d) => pyUp a n d

end Arx
