import Verif.Model.MountCmd
import Verif.Props.ConvertMain
/-!
# File names in texts of paths
-/
namespace Arx

/-- What is ignored at the end of the text of a path: separators, also with dots between them. -/
inductive Trail : Bytes → Prop where
  | nil : Trail []
  | sep {t : Bytes} : Trail t → Trail (t ++ ascii "/")
  | dot {t : Bytes} : Trail t → Trail (t ++ ascii "/.")

/-- The text `p` of a path names the file `name` in the directory `pre` (empty, or ended by a separator). -/
def NamesFile (p pre name : Bytes) : Prop :=
  ∃ t, Trail t ∧ p = pre ++ name ++ t ∧ DirText pre ∧ SEP ∉ name ∧ name ≠ [] ∧ name ≠ ascii "." ∧ name ≠ ascii ".."

theorem trimPath_trail {q t : Bytes} (h : Trail t) : ∀ n, t.length ≤ n → ∃ k, trimPath n (q ++ t) = trimPath k q := by
  have hs : ascii "/" = [SEP] := rfl
  have hd : ascii "/." = [SEP, 46] := rfl
  have step : ∀ (r : Bytes) n, trimPath (n + 1) (r ++ [SEP]) = trimPath n r := by
    intro r n
    rw [trimPath, if_pos (by simp), List.dropLast_concat]
  induction h with
  | nil => intro n _; exact ⟨n, by simp⟩
  | @sep t _ ih =>
    intro n hn
    rw [hs] at hn ⊢
    simp at hn
    obtain ⟨m, rfl⟩ : ∃ m, n = m + 1 := ⟨n - 1, by omega⟩
    rw [← List.append_assoc, step]
    exact ih m (by omega)
  | @dot t _ ih =>
    intro n hn
    rw [hd] at hn ⊢
    simp at hn
    obtain ⟨m, rfl⟩ : ∃ m, n = m + 2 := ⟨n - 2, by omega⟩
    have e : trimPath (m + 2) (q ++ (t ++ [SEP, 46])) = trimPath (m + 1) (q ++ t ++ [SEP]) := by
      rw [trimPath, if_neg (by rw [← List.append_assoc, show [SEP, 46] = [SEP] ++ [46] from rfl, ← List.append_assoc]; simp [SEP]),
        if_pos, show q ++ (t ++ [SEP, 46]) = q ++ t ++ [SEP] ++ [46] from by simp, List.dropLast_concat]
      rw [← List.append_assoc, List.length_append, List.drop_append]
      simp
    rw [e, step]
    exact ih m (by omega)

/-- what `trimPath` removes -/
theorem trimPath_spec : ∀ n (p : Bytes), p.length ≤ n → ∃ t, Trail t ∧ p = trimPath n p ++ t ∧
    (trimPath n p).getLast? ≠ some SEP ∧ ∀ r, trimPath n p ≠ r ++ [SEP, 46]
  | 0, p, h => by
    have : p = [] := List.eq_nil_of_length_eq_zero (by omega)
    subst this
    exact ⟨[], .nil, rfl, by simp [trimPath], by simp [trimPath]⟩
  | n + 1, p, h => by
    rw [trimPath]
    split
    · rename_i hl
      obtain ⟨r, rfl⟩ := List.getLast?_eq_some_iff.mp hl
      rw [List.dropLast_concat]
      obtain ⟨t, h1, h2, h3⟩ := trimPath_spec n r (by simp at h; omega)
      refine ⟨t ++ ascii "/", h1.sep, ?_, h3⟩
      rw [← List.append_assoc, ← h2]; rfl
    · split
      · rename_i hl hd
        have he : p = p.take (p.length - 2) ++ [SEP, 46] := by
          conv => lhs; rw [← List.take_append_drop (p.length - 2) p, hd]
        have hlen : (p.take (p.length - 2)).length + 2 = p.length := by
          have := congrArg List.length he
          simpa using this.symm
        obtain ⟨r, hr⟩ : ∃ r, p = r ++ [SEP, 46] := ⟨_, he⟩
        subst hr
        have hdl : (r ++ [SEP, 46]).dropLast = r ++ [SEP] := by
          rw [show [SEP, 46] = [SEP] ++ [(46 : UInt8)] from rfl, ← List.append_assoc, List.dropLast_concat]
        rw [hdl]
        have hn : r.length + 1 ≤ n := by simp at h; omega
        obtain ⟨m, rfl⟩ : ∃ m, n = m + 1 := ⟨n - 1, by omega⟩
        have hst : trimPath (m + 1) (r ++ [SEP]) = trimPath m r := by
          rw [trimPath, if_pos (by simp), List.dropLast_concat]
        obtain ⟨t, h1, h2, h3⟩ := trimPath_spec m r (by omega)
        rw [hst]
        refine ⟨t ++ ascii "/.", h1.dot, ?_, h3⟩
        rw [← List.append_assoc, ← h2]; rfl
      · rename_i hl hd
        refine ⟨[], .nil, by simp, hl, ?_⟩
        intro r e
        apply hd
        rw [e, List.length_append, List.drop_append]
        simp

/-- **The last name of a path.** `splitName` finds the file name, and the text before it. -/
theorem splitName_iff {p pre name : Bytes} : splitName p = some (pre, name) ↔ NamesFile p pre name := by
  constructor
  · intro h
    obtain ⟨t, h1, h2, h3, h4⟩ := trimPath_spec p.length p (Nat.le_refl _)
    unfold splitName at h
    simp only at h
    split at h
    · cases h
    · rename_i hc
      simp only [not_or] at hc
      obtain ⟨hc1, hc2, hc3⟩ := hc
      generalize hq : trimPath p.length p = q at *
      injection h with h
      injection h with hpre hname
      have hsplit : q = (q.reverse.dropWhile (· != SEP)).reverse ++ name := by
        rw [← hname, ← List.reverse_append, List.takeWhile_append_dropWhile, List.reverse_reverse]
      have hp : pre = (q.reverse.dropWhile (· != SEP)).reverse := by
        rw [← hpre, hname]
        conv => lhs; rw [hsplit]
        simp
      refine ⟨t, h1, ?_, ?_, ?_, ?_, ?_, ?_⟩
      · rw [hp, ← hsplit]; exact h2
      · rw [hp]
        cases hd : q.reverse.dropWhile (· != SEP) with
        | nil => exact Or.inl rfl
        | cons a l =>
          have := List.head?_dropWhile_not (· != SEP) q.reverse
          rw [hd] at this
          simp at this
          right
          subst this
          simp
      · rw [← hname]
        intro hm
        have := List.all_takeWhile (p := (· != SEP)) (l := q.reverse)
        rw [List.all_eq_true] at this
        have := this _ (List.mem_reverse.mp hm)
        simp at this
      · rw [← hname]; exact hc1
      · rw [← hname]; exact hc2
      · rw [← hname]; exact hc3
  · rintro ⟨t, h1, rfl, h2, h3, h4, h5, h6⟩
    obtain ⟨k, hk⟩ := trimPath_trail (q := pre ++ name) h1 (pre ++ name ++ t).length (by simp; omega)
    have := splitName_name h2 h3 h4 h5 h6
    unfold splitName at this ⊢
    rw [hk]
    rw [trimPath_name h3 h4 h5] at this ⊢
    exact this

/-- A path is taken from the current directory `cwd`, unless it is absolute. -/
def absolute (cwd p : Bytes) : Bytes :=
  if (ascii "/").isPrefixOf p then p
  else if cwd = [] ∨ (ascii "/").isSuffixOf cwd then cwd ++ p
  else cwd ++ ascii "/" ++ p

theorem joinPaths_absolute (cwd p : Bytes) : joinPaths cwd p = absolute cwd p := by
  have h1 : ((ascii "/").isPrefixOf p = true) ↔ p.head? = some SEP := by
    cases p with
    | nil => simp [show ascii "/" = [SEP] from rfl]
    | cons a l => simp [show ascii "/" = [SEP] from rfl, List.isPrefixOf]; exact eq_comm
  have h2 : ((ascii "/").isSuffixOf cwd = true) ↔ cwd.getLast? = some SEP := by
    rw [List.isSuffixOf_iff_suffix, show ascii "/" = [SEP] from rfl, List.getLast?_eq_some_iff]
    constructor
    · rintro ⟨t, rfl⟩; exact ⟨t, rfl⟩
    · rintro ⟨t, rfl⟩; exact ⟨t, rfl⟩
  unfold joinPaths absolute joinChild
  simp only [h1, h2]
  simp [show ascii "/" = [SEP] from rfl]

/-- trailing separators, and dots between them, are ignored -/
example : NamesFile (ascii "d/x.tar/.//") (ascii "d/") (ascii "x.tar") ∧ splitName (ascii "/..") = none ∧ splitName (ascii "..x/.") = some ([], ascii "..x") := by
  refine ⟨⟨ascii "/.//", ?_, by decide, Or.inr ⟨ascii "d", by decide⟩, by decide, by decide, by decide, by decide⟩, by decide, by decide⟩
  exact .sep (.sep (.dot .nil))

end Arx
