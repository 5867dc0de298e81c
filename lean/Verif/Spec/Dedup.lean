import Verif.Model.Convert
import Verif.Spec.Adder
/-!
# Specification of content sharing
-/
namespace Arx

/-- Every content of the pack is stored once: two addresses that give the same bytes are equal. -/
def StoredOnce (bytes : ContentAddr → GetBytes) : Prop :=
  ∀ a a' b, bytes a = .found b → bytes a' = .found b → a = a'

/-- Creators in use with the contents of their pack: by adding any paths of the file system (some may be
refused), or by converting the members of a tar or zip file (the conversion may have been stopped by an error). -/
inductive Filled : Creator → List Bytes → Prop
  | added {env : CEnv} {a : Adder} : Adder.Reached env a → Filled a.creator a.contents
  | tar {items : List (Except Unit TarMember)} {c : Conv} {o : COut} : Conv.new.tarRun items = (c, o) → o ≠ .panic → Filled c.creator c.contents
  | zip {items : List (Except Unit ZipMember)} {c : Conv} {o : COut} : Conv.new.zipRun items = (c, o) → o ≠ .panic → Filled c.creator c.contents

end Arx
