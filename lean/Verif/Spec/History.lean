import Verif.Spec.Written
/-!
# The content of an archive in terms of the history of calls

No path map here: only the calls, in order, and what each of them returned.
-/
namespace Arx

/-- The call `add_entry(r)`, made on the creator `st`, provides an entry at `p`, namely `n`: it was accepted with the
kind `k` and `p` is its path; or `p` is one of the directories of its path, and the call was accepted (or refused only when the
kind was asked for, which comes last). -/
inductive Provides (st : Creator) (r : AddReq) : List Bytes → Node → Prop
  | entry (k : Kind) : (st.addEntry r).2 = .ok → r.kind = .ok (some k) → Provides st r (entryPath r.path) ⟨r.info, k⟩
  | parent (p : List Bytes) : (st.addEntry r).2 = .ok ∨ (st.addEntry r).2 = .err .kind → ProperAncestor p (entryPath r.path) →
      Provides st r p ⟨⟨1000, 1000, 0o755, 0⟩, .dir⟩

/-- The first call of the history `rs` that provides an entry at `p` provides `n`. -/
def FirstProvides (rs : List AddReq) (p : List Bytes) (n : Node) : Prop :=
  ∃ rs1 r rs2 st, rs = rs1 ++ r :: rs2 ∧ Creator.new.run rs1 = some st ∧ Provides st r p n ∧
    ∀ rs3 r' rs4 st', rs1 = rs3 ++ r' :: rs4 → Creator.new.run rs3 = some st' → ∀ n', ¬ Provides st' r' p n'

end Arx
