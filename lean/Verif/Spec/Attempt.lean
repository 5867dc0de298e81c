import Verif.Spec.Extract
/-!
# Extractions that are cut short
-/
namespace Arx

/-- `after` is the file system at some moment of, or after, an extraction with options `cfg` that started from
`before`: any calls may have failed (`cfg.env`), any result is allowed, and the writers may be anywhere in
their work (`last`, they need not have ended).  A process killed at its `k`-th call is included: it is the one
whose calls all fail from the `k`-th on, since a failing call has no effect. -/
def Attempt (cfg : XCfg) (rg : Range) (before after : FS) : Prop :=
  ∃ depth last, cfg.a.entries.length < depth ∧ (cfg.extractRange depth rg before last).1.fs = after

/-- Any number of attempts to extract the same part of archive `a` to the same place, each with its own
selection, overwrite mode and failures; time passes in between. -/
inductive Attempts (a : Archive) (base : List Bytes) (rg : Range) : FS → FS → Prop
  | none (fs : FS) : Attempts a base rg fs fs
  | wait {before fs after : FS} (t : Int) : Attempts a base rg { fs with now := t } after → before = fs → Attempts a base rg before after
  | attempt {before fs after : FS} (cfg : XCfg) : cfg.a = a → cfg.base = base → Attempt cfg rg before fs →
      Attempts a base rg fs after → Attempts a base rg before after

/-- What may be at `q`, the place of entry `n`, at some moment of an extraction: what was there before, unchanged;
or what the entry describes, as far as it has got:
* a directory, where nothing was;
* a file that holds the first part of the content: the file that was there before or, where nothing was, a new one;
* the link; or nothing, where a file or link was and the link is not yet created. -/
def Partway (bytes : ContentAddr → GetBytes) (before after : FS) (q : List Bytes) (n : Node) : Prop :=
  (after.nodes q = before.nodes q ∧ ∀ i, before.nodes q = some (.file i) → after.data i = before.data i) ∨
  match n.kind with
  | .dir => before.nodes q = none ∧ ∃ t, after.nodes q = some (.dir t)
  | .file _ addr => ∃ i b, after.nodes q = some (.file i) ∧ bytes addr = .found b ∧ (after.data i).bytes <+: b ∧
      (before.nodes q = some (.file i) ∨ (before.nodes q = none ∧ before.next ≤ i))
  | .link target => (∀ t, before.nodes q ≠ some (.dir t)) ∧ (after.nodes q = none ∨ ∃ t, after.nodes q = some (.link target t))

end Arx
