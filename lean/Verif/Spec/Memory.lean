import Verif.Spec.Mount

/-!
# The memory of a mount
-/
namespace Arx

/-- How often a request was answered so. -/
def timesOf (log : FLog) (r : FReq) (y : Reply) : Nat := (log.filter (fun x => decide (x = (r, y)))).length

/-- A cache holds at most `n` answers, each once. -/
structure Within {K V : Type} (c : Lru K V) (n : Nat) : Prop where
  size : c.cap = n
  room : c.items.length ≤ n
  once : (c.items.map Prod.fst).Nodup

/-- The caches hold at most 4096 answers to lookups and the attributes of at most 100 entries. -/
def Bounded (s : FsState) : Prop := Within s.resolve (4 * 1024) ∧ Within s.attr 100

end Arx
