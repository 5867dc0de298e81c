import Verif.Spec.HostileMount
import Verif.Proof.MountProof
import Verif.Props.Hostile
import Verif.Props.Mount2
/-!
# C64: mounting archives that were not made by the creator
-/
namespace Arx

/-- how a request and its reply change the number of open files -/
def bump (opens : Nat → Nat) (r : FReq) (y : Reply) : Nat → Nat := fun ino =>
  if (r, y) = (.open ino, .opened) then opens ino + 1 else if (r, y) = (.release ino, .ok) then opens ino - 1 else opens ino

/-- Everything cached is true of the table; for any table. -/
structure AnyInv (cfg : FsCfg) (opens : Nat → Nat) (s : FsState) : Prop where
  resolve : ∀ (k : Nat × Bytes) (idx : Nat), (k, some idx) ∈ s.resolve.items →
    ∃ rg r, cfg.entryRange k.1 = some rg ∧ cfg.a.RowIn rg idx r ∧ r.name = k.2
  attr : ∀ i at', (i, at') ∈ s.attr.items → cfg.a.attrOf i = some at'
  cap : 0 < s.attr.cap
  closed : ∀ ino, s.region ino = none → opens ino = 0
  opened : ∀ ino b c, s.region ino = some (b, c) → opens ino = c ∧ 0 < c ∧ ino ≠ 0 ∧ cfg.fileBytes ino = some b

variable {cfg : FsCfg} {opens : Nat → Nat} {s : FsState}

theorem AnyInv.init (cfg : FsCfg) : AnyInv cfg (fun _ => 0) FsState.init :=
  ⟨fun _ _ h => by simp [FsState.init] at h, fun _ _ h => by simp [FsState.init] at h, by simp [FsState.init],
    fun _ _ => rfl, fun _ _ _ h => by simp [FsState.init] at h⟩

theorem AnyInv.cachedAttr (I : AnyInv cfg opens s) (idx : Nat) :
    (s.cachedAttr cfg idx).1 = cfg.a.attrOf idx ∧ AnyInv cfg opens (s.cachedAttr cfg idx).2 := by
  simp only [FsState.cachedAttr]
  split
  · rename_i at' c h
    obtain ⟨h1, h2, h3⟩ := Lru.get_some h
    refine ⟨(I.attr _ _ h1).symm, ⟨I.resolve, fun i x hx => I.attr i x (h2 _ hx), by rw [h3]; exact I.cap, I.closed, I.opened⟩⟩
  · split
    · rename_i h; exact ⟨h.symm, I⟩
    · rename_i at' h
      have hg := Lru.get_put s.attr idx at' I.cap
      split
      · rename_i v c hc
        obtain ⟨h1, h2, h3⟩ := Lru.get_some hc
        rw [hc] at hg; simp at hg; subst hg
        refine ⟨h.symm, ⟨I.resolve, ?_, by rw [h3]; exact I.cap, I.closed, I.opened⟩⟩
        intro i x hx
        rcases Lru.mem_put (h2 _ hx) with e | e
        · cases e; exact h
        · exact I.attr i x e
      · rename_i hc; rw [hc] at hg; cases hg

/-- the rest of `lookup`, once the row is known -/
theorem AnyInv.answer (I : AnyInv cfg opens s) (idx : Nat) :
    ((match s.cachedAttr cfg idx with | (none, s) => (Reply.panic, s) | (some a, s) => (Reply.entry a, s)) : Reply × FsState).1 =
      (match cfg.a.attrOf idx with | none => .panic | some a => .entry a) ∧
    AnyInv cfg opens ((match s.cachedAttr cfg idx with | (none, s) => (Reply.panic, s) | (some a, s) => (Reply.entry a, s)) : Reply × FsState).2 := by
  obtain ⟨a1, a2⟩ := I.cachedAttr idx
  revert a1 a2
  cases FsState.cachedAttr cfg s idx with
  | mk x y =>
    intro a1 a2
    simp only at a1 a2
    rw [← a1]
    cases x <;> exact ⟨rfl, a2⟩

/-- `lookup`, for any table: the row it answers is one of the directory, with this name. It crashes only if the
parent is not a directory, searching fails or the row has no attributes. -/
theorem AnyInv.lookup (I : AnyInv cfg opens s) (p : Nat) (name : Bytes) :
    AnyInv cfg opens (s.lookup cfg p name).2 ∧
    ((s.lookup cfg p name).1 = .panic ∧ (p = 0 ∨ cfg.entryRange p = none ∨ (∃ rg e, cfg.entryRange p = some rg ∧ cfg.a.find rg name = .error e) ∨
        ∃ rg idx r, cfg.entryRange p = some rg ∧ cfg.a.RowIn rg idx r ∧ r.name = name ∧ cfg.a.attrOf idx = none) ∨
      (s.lookup cfg p name).1 = .error .ENOENT ∨
      ∃ rg idx r a, cfg.entryRange p = some rg ∧ cfg.a.RowIn rg idx r ∧ r.name = name ∧ cfg.a.attrOf idx = some a ∧
        (s.lookup cfg p name).1 = .entry a) := by
  have fin : ∀ (s' : FsState) (rg : Range) (idx : Nat) (r : RawEntry), AnyInv cfg opens s' → cfg.entryRange p = some rg →
      cfg.a.RowIn rg idx r → r.name = name → ∀ res : Reply × FsState,
      res = ((match s'.cachedAttr cfg idx with | (none, s) => (Reply.panic, s) | (some a, s) => (Reply.entry a, s)) : Reply × FsState) →
      AnyInv cfg opens res.2 ∧ (res.1 = .panic ∧ (p = 0 ∨ cfg.entryRange p = none ∨ (∃ rg e, cfg.entryRange p = some rg ∧ cfg.a.find rg name = .error e) ∨
        ∃ rg idx r, cfg.entryRange p = some rg ∧ cfg.a.RowIn rg idx r ∧ r.name = name ∧ cfg.a.attrOf idx = none) ∨ res.1 = .error .ENOENT ∨
        ∃ rg idx r a, cfg.entryRange p = some rg ∧ cfg.a.RowIn rg idx r ∧ r.name = name ∧ cfg.a.attrOf idx = some a ∧ res.1 = .entry a) := by
    intro s' rg idx r I' h1 h2 h3 res e
    obtain ⟨a1, a2⟩ := I'.answer idx
    rw [e]
    refine ⟨a2, ?_⟩
    rw [a1]
    cases ha : cfg.a.attrOf idx with
    | none => exact Or.inl ⟨rfl, Or.inr (Or.inr (Or.inr ⟨rg, idx, r, h1, h2, h3, ha⟩))⟩
    | some a => exact Or.inr (Or.inr ⟨rg, idx, r, a, h1, h2, h3, ha, rfl⟩)
  simp only [FsState.lookup]
  by_cases h0 : p = 0
  · simp only [if_pos h0]; exact ⟨I, Or.inl ⟨trivial, Or.inl h0⟩⟩
  · simp only [if_neg h0]
    split
    · rename_i idx c h
      obtain ⟨g1, g2, g3⟩ := Lru.get_some h
      have I' : AnyInv cfg opens { s with resolve := c } :=
        ⟨fun k v hk => I.resolve k v (g2 _ hk), I.attr, I.cap, I.closed, I.opened⟩
      cases idx with
      | none => exact ⟨I', Or.inr (Or.inl rfl)⟩
      | some idx =>
        obtain ⟨rg, r, e1, e2, e3⟩ := I.resolve _ _ g1
        exact fin _ rg idx r I' e1 e2 e3 _ rfl
    · cases he : cfg.entryRange p with
      | none => exact ⟨I, Or.inl ⟨rfl, Or.inr (Or.inl rfl)⟩⟩
      | some rg =>
        simp only
        cases hf : cfg.a.find rg name with
        | error e => exact ⟨I, Or.inl ⟨rfl, Or.inr (Or.inr (Or.inl ⟨rg, e, rfl, hf⟩))⟩⟩
        | ok found =>
          simp only
          cases found with
          | none =>
            refine ⟨⟨?_, I.attr, I.cap, I.closed, I.opened⟩, Or.inr (Or.inl rfl)⟩
            intro k v hk
            rcases Lru.mem_put hk with e | e
            · cases e
            · exact I.resolve k v e
          | some j =>
            obtain ⟨r, hin, hn⟩ := Archive.find_sound hf
            have I' : AnyInv cfg opens { s with resolve := s.resolve.put (p, name) (some (j + rg.offset)) } := by
              refine ⟨?_, I.attr, I.cap, I.closed, I.opened⟩
              intro k v hk
              rcases Lru.mem_put hk with e | e
              · cases e; exact ⟨rg, r, he, by rw [Nat.add_comm]; exact hin, hn⟩
              · exact I.resolve k v e
            have := fin _ rg (j + rg.offset) r I' he (by rw [Nat.add_comm]; exact hin) hn _ rfl
            rw [he] at this
            exact this

/-- `readdir`, for any table. -/
theorem readdirLoop_any {ino : Nat} {rg : Range} (bufSize : Nat) (hb : rg.count + 2 < 2 ^ 32) :
    ∀ (k i cur : Nat) (l : List DirEnt) (c : Lru (Nat × Bytes) (Option Nat)), k + i = rg.count + 2 →
      (2 ≤ i → cur = rg.offset + (i - 2)) → (i < 2 → cur = rg.offset) →
      (readdirLoop cfg ino rg bufSize (List.range' i k) cur l c = none ∧
        (cfg.parentIno ino = none ∨ ∃ j, j < rg.count ∧ (cfg.a.entries[rg.offset + j]? = none ∨
          ∃ r, cfg.a.entries[rg.offset + j]? = some r ∧ EntryType.tryFrom r.variant = none))) ∨
      ∃ l' c1, readdirLoop cfg ino rg bufSize (List.range' i k) cur l c = some (l ++ l', c1) ∧
        (∀ x ∈ c1.items, x ∈ c.items ∨ ∃ idx r, x = ((ino, r.name), some idx) ∧ cfg.a.RowIn rg idx r) ∧
        (∀ e ∈ l', ShownIn cfg ino rg e) ∧ l'.map (·.cookie) = List.range' i l'.length := by
  intro k
  induction k with
  | zero =>
    intro i cur l c _ _ _
    exact Or.inr ⟨[], c, by simp [readdirLoop], fun x hx => Or.inl hx, by simp, by simp⟩
  | succ k ih =>
    intro i cur l c hk h2 h3
    rw [List.range'_succ]
    simp only [readdirLoop]
    by_cases hi0 : i = 0
    · subst hi0
      simp only [if_true]
      simp only [replyAdd]
      split
      · rename_i b l1 e
        split at e
        · cases e
          exact Or.inr ⟨[], c, by simp, fun x hx => Or.inl hx, by simp, by simp⟩
        · cases e
      · rename_i b l1 e
        split at e
        · cases e
        · cases e
          rcases ih 1 cur (l ++ [⟨ino, 0, .dir, CUR⟩]) c (by omega) (by omega) (by omega) with h | ⟨l', c1, e1, e2, e3, e4⟩
          · exact Or.inl h
          · refine Or.inr ⟨⟨ino, 0, .dir, CUR⟩ :: l', c1, by rw [e1]; simp, e2, ?_, ?_⟩
            · intro e he
              rcases List.mem_cons.mp he with rfl | he
              · exact Or.inl ⟨rfl, rfl, rfl⟩
              · exact e3 e he
            · simp [List.range'_succ, e4]
    · simp only [if_neg hi0]
      by_cases hi1 : i = 1
      · subst hi1
        simp only [if_true]
        cases hp : cfg.parentIno ino with
        | none => exact Or.inl ⟨rfl, Or.inl rfl⟩
        | some p =>
          simp only [replyAdd]
          split
          · rename_i b l1 e
            split at e
            · cases e
              exact Or.inr ⟨[], c, by simp, fun x hx => Or.inl hx, by simp, by simp⟩
            · cases e
          · rename_i b l1 e
            split at e
            · cases e
            · cases e
              rcases ih 2 cur (l ++ [⟨p, 1, .dir, PARENT⟩]) c (by omega) (fun _ => by rw [h3 (by omega)]; omega) (by omega) with h | ⟨l', c1, e1, e2, e3, e4⟩
              · rw [hp] at h; exact Or.inl h
              · refine Or.inr ⟨⟨p, 1, .dir, PARENT⟩ :: l', c1, by rw [e1]; simp, e2, ?_, ?_⟩
                · intro e he
                  rcases List.mem_cons.mp he with rfl | he
                  · exact Or.inr (Or.inl ⟨rfl, rfl⟩)
                  · exact e3 e he
                · simp [List.range'_succ, e4]
      · simp only [if_neg hi1]
        have hcur := h2 (by omega)
        simp only [if_neg (show ¬ cur = rg.offset + rg.count by omega)]
        cases he : cfg.a.entries[cur]? with
        | none => exact Or.inl ⟨rfl, Or.inr ⟨i - 2, by omega, Or.inl (by rw [← hcur]; exact he)⟩⟩
        | some r =>
          simp only
          cases ht : EntryType.tryFrom r.variant with
          | none => exact Or.inl ⟨rfl, Or.inr ⟨i - 2, by omega, Or.inr ⟨r, by rw [← hcur]; exact he, ht⟩⟩⟩
          | some kind =>
            simp only
            have hui : asU32 i = i := asU32_lt (by omega)
            have hin : cfg.a.RowIn rg (rg.offset + (i - 2)) r := ⟨by omega, by omega, by rw [← hcur]; exact he⟩
            have hput : ∀ x ∈ (c.put (ino, r.name) (some (rg.offset + (asU32 i - 2)))).items,
                x ∈ c.items ∨ ∃ idx r, x = ((ino, r.name), some idx) ∧ cfg.a.RowIn rg idx r := by
              intro x hx
              rcases Lru.mem_put hx with e | e
              · exact Or.inr ⟨_, r, e, by rw [hui]; exact hin⟩
              · exact Or.inl e
            simp only [replyAdd]
            split
            · rename_i b l1 e
              split at e
              · cases e
                exact Or.inr ⟨[], _, by simp, hput, by simp, by simp⟩
              · cases e
            · rename_i b l1 e
              split at e
              · cases e
              · cases e
                rcases ih (i + 1) (cur + 1) (l ++ [⟨idxIno (rg.offset + (asU32 i - 2)), i, kind, r.name⟩])
                    (c.put (ino, r.name) (some (rg.offset + (asU32 i - 2)))) (by omega) (fun _ => by omega) (by omega) with h | ⟨l', c1, e1, e2, e3, e4⟩
                · exact Or.inl h
                · refine Or.inr ⟨⟨idxIno (rg.offset + (asU32 i - 2)), i, kind, r.name⟩ :: l', c1, by rw [e1]; simp, ?_, ?_, ?_⟩
                  · intro x hx
                    rcases e2 x hx with e | e
                    · exact hput x e
                    · exact Or.inr e
                  · intro e he
                    rcases List.mem_cons.mp he with rfl | he
                    · exact Or.inr (Or.inr ⟨i - 2, r, by simp; omega, hin, rfl, ht, by simp [idxIno, hui]⟩)
                    · exact e3 e he
                  · simp [List.range'_succ, e4]

theorem AnyInv.readdir (I : AnyInv cfg opens s) (ino off buf : Nat) :
    AnyInv cfg opens (s.readdir cfg ino off buf).2 ∧
    ((s.readdir cfg ino off buf).1 = .panic ∧ (ino = 0 ∨ cfg.entryRange ino = none ∨
        ∃ rg, cfg.entryRange ino = some rg ∧ (2 ^ 32 ≤ rg.count + 2 ∨ cfg.parentIno ino = none ∨
          ∃ j, j < rg.count ∧ (cfg.a.entries[rg.offset + j]? = none ∨
            ∃ r, cfg.a.entries[rg.offset + j]? = some r ∧ EntryType.tryFrom r.variant = none))) ∨
      ∃ rg l, cfg.entryRange ino = some rg ∧ (s.readdir cfg ino off buf).1 = .dir l ∧ (∀ e ∈ l, ShownIn cfg ino rg e) ∧
        l.map (·.cookie) = List.range' (if off = 0 then 0 else off + 1) l.length) := by
  simp only [FsState.readdir]
  by_cases h0 : ino = 0
  · simp only [if_pos h0]; exact ⟨I, Or.inl ⟨trivial, Or.inl h0⟩⟩
  · simp only [if_neg h0]
    cases he : cfg.entryRange ino with
    | none => exact ⟨I, Or.inl ⟨rfl, Or.inr (Or.inl rfl)⟩⟩
    | some rg =>
      simp only
      by_cases hb : rg.count + 2 ≥ 2 ^ 32
      · rw [if_pos hb]
        exact ⟨I, Or.inl ⟨rfl, Or.inr (Or.inr ⟨rg, rfl, Or.inl hb⟩)⟩⟩
      · rw [if_neg hb]
        generalize hoff : (if off = 0 then 0 else off + 1) = o
        by_cases hin : o ≤ rg.count + 2
        · have hcur : (2 ≤ o → (if o > 2 then rg.offset + asU32 (o - 2) else rg.offset) = rg.offset + (o - 2)) ∧
              (o < 2 → (if o > 2 then rg.offset + asU32 (o - 2) else rg.offset) = rg.offset) := by
            constructor
            · intro h
              split
              · rw [asU32_lt (by omega)]
              · omega
            · intro h; rw [if_neg (by omega)]
          rcases readdirLoop_any (cfg := cfg) (ino := ino) (rg := rg) buf (by omega) (rg.count + 2 - o) o
              (if o > 2 then rg.offset + asU32 (o - 2) else rg.offset) [] s.resolve (by omega) hcur.1 hcur.2 with ⟨h, hc⟩ | ⟨l', c1, e1, e2, e3, e4⟩
          · rw [h]
            exact ⟨I, Or.inl ⟨rfl, Or.inr (Or.inr ⟨rg, rfl, Or.inr hc⟩)⟩⟩
          · rw [e1]
            simp only [List.nil_append]
            refine ⟨⟨?_, I.attr, I.cap, I.closed, I.opened⟩, Or.inr ⟨rg, l', rfl, rfl, e3, e4⟩⟩
            intro k v hk
            rcases e2 _ hk with e | ⟨idx, r, e, hr⟩
            · exact I.resolve k v e
            · cases e; exact ⟨rg, r, he, hr, rfl⟩
        · have : rg.count + 2 - o = 0 := by omega
          rw [this]
          simp only [List.range'_zero, readdirLoop]
          exact ⟨⟨I.resolve, I.attr, I.cap, I.closed, I.opened⟩, Or.inr ⟨rg, [], rfl, rfl, by simp, by simp⟩⟩

theorem AnyInv.setOpens {opens' : Nat → Nat} (I : AnyInv cfg opens s) (h : ∀ i, opens' i = opens i) : AnyInv cfg opens' s := by
  have : opens' = opens := funext h
  rw [this]; exact I

/-- One request keeps the invariant, whatever the table. -/
theorem AnyInv.step (I : AnyInv cfg opens s) (r : FReq) : AnyInv cfg (bump opens r (s.step cfg r).1) (s.step cfg r).2 := by
  cases r with
  | lookup p n => exact (I.lookup p n).1.setOpens (fun i => by simp [bump])
  | readdir i o z => exact (I.readdir i o z).1.setOpens (fun i => by simp [bump])
  | getattr i =>
    refine AnyInv.setOpens (opens := opens) ?_ (fun i => by simp [bump])
    simp only [FsState.step, FsState.getattr]
    split
    · exact I
    · exact I
    · rename_i idx _
      have := (I.cachedAttr idx).2
      revert this
      cases s.cachedAttr cfg idx with
      | mk x y => intro h; cases x <;> exact h
  | readlink i =>
    refine AnyInv.setOpens (opens := opens) ?_ (fun i => by simp [bump])
    simp only [FsState.step, FsState.readlink]
    repeat' split
    all_goals exact I
  | opendir i =>
    refine AnyInv.setOpens (opens := opens) ?_ (fun i => by simp [bump])
    simp only [FsState.step, FsState.opendir]
    repeat' split
    all_goals exact I
  | releasedir i => exact I.setOpens (fun i => by simp [bump])
  | read i o z =>
    refine AnyInv.setOpens (opens := opens) ?_ (fun i => by simp [bump])
    simp only [FsState.step, FsState.read]
    repeat' split
    all_goals exact I
  | «open» i =>
    simp only [FsState.step, FsState.open]
    have same : ∀ y : Reply, y ≠ .opened → AnyInv cfg (bump opens (.open i) y) s := by
      intro y hy
      refine I.setOpens (fun j => ?_)
      simp [bump, hy]
    cases hi : inoIdx i with
    | none => exact same _ (by simp)
    | some idx =>
      simp only
      cases hr : s.region i with
      | some x =>
        obtain ⟨b, c⟩ := x
        obtain ⟨o1, o2, o3, o4⟩ := I.opened i b c hr
        refine ⟨I.resolve, I.attr, I.cap, ?_, ?_⟩
        · intro j hj
          simp only [setRegion] at hj
          by_cases e : j = i
          · rw [if_pos e] at hj; cases hj
          · rw [if_neg e] at hj
            simp only [bump]
            rw [if_neg (by simp; exact fun h => e h.symm)]
            simp [I.closed j hj]
        · intro j b' c' hj
          simp only [setRegion] at hj
          by_cases e : j = i
          · subst e
            rw [if_pos rfl] at hj
            cases hj
            exact ⟨by simp [bump, o1], by omega, o3, o4⟩
          · rw [if_neg e] at hj
            simp only [bump]
            rw [if_neg (by simp; exact fun h => e h.symm)]
            simpa using I.opened j b' c' hj
      | none =>
        simp only
        cases idx with
        | none => exact same _ (by simp)
        | some idx =>
          simp only
          cases he : cfg.a.entries[idx]? with
          | none => exact same _ (by simp)
          | some r =>
            simp only
            cases ht : EntryType.tryFrom r.variant with
            | none => exact same _ (by simp)
            | some k =>
              cases k with
              | dir => exact same _ (by simp)
              | link => exact same _ (by simp)
              | file =>
                simp only
                cases hb : cfg.bytes r.content with
                | err => exact same _ (by simp)
                | missing => exact same _ (by simp)
                | found b =>
                  have hfb : cfg.fileBytes i = some b := by simp [FsCfg.fileBytes, hi, he, ht, hb]
                  have h0 : i ≠ 0 := by rintro rfl; simp [inoIdx] at hi
                  refine ⟨I.resolve, I.attr, I.cap, ?_, ?_⟩
                  · intro j hj
                    simp only [setRegion] at hj
                    by_cases e : j = i
                    · rw [if_pos e] at hj; cases hj
                    · rw [if_neg e] at hj
                      simp only [bump]
                      rw [if_neg (by simp; exact fun h => e h.symm)]
                      simp [I.closed j hj]
                  · intro j b' c' hj
                    simp only [setRegion] at hj
                    by_cases e : j = i
                    · subst e
                      rw [if_pos rfl] at hj
                      cases hj
                      exact ⟨by simp [bump, I.closed j hr], by omega, h0, hfb⟩
                    · rw [if_neg e] at hj
                      simp only [bump]
                      rw [if_neg (by simp; exact fun h => e h.symm)]
                      simpa using I.opened j b' c' hj
  | release i =>
    simp only [FsState.step, FsState.release]
    have same : ∀ y : Reply, y ≠ .ok → AnyInv cfg (bump opens (.release i) y) s := by
      intro y hy
      refine I.setOpens (fun j => ?_)
      simp [bump, hy]
    by_cases h0 : i = 0
    · simp only [if_pos h0]; exact same _ (by simp)
    · simp only [if_neg h0]
      cases hr : s.region i with
      | none => exact same _ (by simp)
      | some x =>
        obtain ⟨b, c⟩ := x
        obtain ⟨o1, o2, o3, o4⟩ := I.opened i b c hr
        simp only
        rw [if_neg (by omega)]
        have other : ∀ j, j ≠ i → bump opens (.release i) .ok j = opens j := by
          intro j hj
          simp only [bump]
          rw [if_neg (by simp), if_neg (by simp; exact fun h => hj h.symm)]
        split
        · rename_i hc
          refine ⟨I.resolve, I.attr, I.cap, ?_, ?_⟩
          · intro j hj
            by_cases e : j = i
            · subst e; simp [bump, o1]; omega
            · simp only [setRegion, if_neg e] at hj
              rw [other j e]; exact I.closed j hj
          · intro j b' c' hj
            by_cases e : j = i
            · subst e; simp [setRegion] at hj
            · simp only [setRegion, if_neg e] at hj
              rw [other j e]; exact I.opened j b' c' hj
        · rename_i hc
          refine ⟨I.resolve, I.attr, I.cap, ?_, ?_⟩
          · intro j hj
            by_cases e : j = i
            · subst e; simp [setRegion] at hj
            · simp only [setRegion, if_neg e] at hj
              rw [other j e]; exact I.closed j hj
          · intro j b' c' hj
            by_cases e : j = i
            · subst e
              simp [setRegion] at hj
              obtain ⟨rfl, rfl⟩ := hj
              exact ⟨by simp [bump, o1], by omega, o3, o4⟩
            · simp only [setRegion, if_neg e] at hj
              rw [other j e]; exact I.opened j b' c' hj

theorem openCount_snoc (log : FLog) (r : FReq) (y : Reply) (ino : Nat) :
    openCount (log ++ [(r, y)]) ino = bump (openCount log) r y ino := by
  simp only [openCount, List.foldl_append, List.foldl_cons, List.foldl_nil, bump]

theorem AnyInv.reach (cfg : FsCfg) (reqs : List FReq) : AnyInv cfg (openCount (logOf cfg reqs)) (FsState.init.run cfg reqs).2 := by
  have key : ∀ k, k ≤ reqs.length → AnyInv cfg (openCount (logOf cfg (reqs.take k))) (FsState.init.run cfg (reqs.take k)).2 := by
    intro k
    induction k with
    | zero => intro _; exact AnyInv.init cfg
    | succ k ih =>
      intro hk
      have hlt : k < reqs.length := by omega
      have htake : reqs.take (k + 1) = reqs.take k ++ [reqs[k]] := (List.take_append_getElem hlt).symm
      have := (ih (by omega)).step reqs[k]
      rw [htake, logOf_snoc, FsState.run_append]
      exact this.setOpens (fun i => openCount_snoc _ _ _ _)
  have := key reqs.length (Nat.le_refl _)
  rwa [List.take_length] at this

/-! ## The theorems -/

/-- **C64, lookups.** Whatever the table of the archive is — unsorted, with wrong ranges, made up — and whatever
requests were made before: if the mount answers an entry for a name, it is a row with this name among the children
of the directory, with the attributes of this row. -/
theorem C64_lookup (cfg : FsCfg) (reqs : List FReq) (parent : Nat) (name : Bytes) (at' : Attr)
    (h : ((FsState.init.run cfg reqs).2.step cfg (.lookup parent name)).1 = .entry at') :
    ∃ range i r, cfg.entryRange parent = some range ∧ cfg.a.RowIn range i r ∧ r.name = name ∧ cfg.a.attrOf i = some at' := by
  rcases ((AnyInv.reach cfg reqs).lookup parent name).2 with ⟨e, _⟩ | e | ⟨rg, idx, r, a, h1, h2, h3, h4, e⟩
  · rw [FsState.step, e] at h; cases h
  · rw [FsState.step, e] at h; cases h
  · rw [FsState.step, e] at h; cases h
    exact ⟨rg, idx, r, h1, h2, h3, h4⟩

/-- **C64, listings.** In any table, after any requests: a page of a listing shows `.`, `..` and rows that are
children of the directory, each with its own name, kind and inode, without gap or repetition, from the place asked
for. -/
theorem C64_listing (cfg : FsCfg) (reqs : List FReq) (ino off buf : Nat) (l : List DirEnt)
    (h : ((FsState.init.run cfg reqs).2.step cfg (.readdir ino off buf)).1 = .dir l) :
    ∃ range, cfg.entryRange ino = some range ∧ (∀ e ∈ l, ShownIn cfg ino range e) ∧
      l.map (·.cookie) = List.range' (if off = 0 then 0 else off + 1) l.length := by
  rcases ((AnyInv.reach cfg reqs).readdir ino off buf).2 with ⟨e, _⟩ | ⟨rg, l', h1, e, h2, h3⟩
  · rw [FsState.step, e] at h; cases h
  · rw [FsState.step, e] at h; cases h
    exact ⟨rg, h1, h2, h3⟩

/-- **C64, contents.** In any table, after any requests: what `read` answers is the asked part of the content of
that file. -/
theorem C64_read (cfg : FsCfg) (reqs : List FReq) (ino size : Nat) (off : Int) (d : Bytes)
    (h : ((FsState.init.run cfg reqs).2.step cfg (.read ino off size)).1 = .data d) :
    ∃ b, cfg.fileBytes ino = some b ∧ 0 ≤ off ∧ off.toNat ≤ b.length ∧ d = (b.drop off.toNat).take size := by
  simp only [FsState.step, FsState.read] at h
  split at h
  · cases h
  split at h
  · cases h
  rename_i h0 hneg
  cases hr : (FsState.init.run cfg reqs).2.region ino with
  | none => rw [hr] at h; cases h
  | some x =>
    obtain ⟨b, c⟩ := x
    rw [hr] at h
    simp only at h
    split at h
    · cases h
    · rename_i hlen
      cases h
      refine ⟨b, ((AnyInv.reach cfg reqs).opened ino b c hr).2.2.2, by omega, by omega, ?_⟩
      rw [← List.take_take]
      congr 1
      exact List.take_of_length_le (by simp)

theorem tryFrom_le {v : Nat} (h : v ≤ 2) : ∃ k, EntryType.tryFrom v = some k := by
  match v, h with
  | 0, _ => exact ⟨_, rfl⟩
  | 1, _ => exact ⟨_, rfl⟩
  | 2, _ => exact ⟨_, rfl⟩

theorem attrOf_shape {a : Archive} {i : Nat} {at' : Attr} (h : a.attrOf i = some at') :
    ∃ r, a.entries[i]? = some r ∧ EntryType.tryFrom r.variant = some at'.kind ∧ at'.ino = i + 2 := by
  unfold Archive.attrOf at h
  cases hr : a.entries[i]? with
  | none => rw [hr] at h; cases h
  | some r =>
    rw [hr] at h
    simp only at h
    cases ht : EntryType.tryFrom r.variant with
    | none => rw [ht] at h; cases h
    | some k =>
      rw [ht] at h
      cases k <;> simp only at h <;> rw [Option.ite_none_left_eq_some] at h <;> obtain ⟨_, h⟩ := h <;> cases h <;>
        exact ⟨r, rfl, ht, rfl⟩

theorem RowFits.attr {a : Archive} {i : Nat} {r : RawEntry} (hr : a.entries[i]? = some r) (h : RowFits a r) :
    ∃ at', a.attrOf i = some at' := by
  have hceil : ∀ size, divCeil size (4 * 1024) * (4 * 1024) ≤ size + 4095 := by
    intro size
    simp only [divCeil]; split <;> omega
  unfold Archive.attrOf
  rw [hr]
  simp only
  match hv : r.variant, h.variant with
  | 0, _ =>
    have h1 := h.size hv
    have h2 := h.mtime
    have h3 := hceil r.size
    rw [show EntryType.tryFrom 0 = some .file from rfl]
    simp only
    rw [if_neg (by omega)]
    exact ⟨_, rfl⟩
  | 1, _ =>
    have h1 := h.count hv
    have h2 := h.mtime
    rw [show EntryType.tryFrom 1 = some .dir from rfl]
    simp only
    rw [if_neg (by omega)]
    exact ⟨_, rfl⟩
  | 2, _ =>
    have h1 := h.target hv
    have h2 := h.mtime
    have h3 := hceil r.target.length
    rw [show EntryType.tryFrom 2 = some .link from rfl]
    simp only
    rw [if_neg (by omega)]
    exact ⟨_, rfl⟩

/-- an inode a kernel has entered -/
def RowIno (cfg : FsCfg) (x : Nat × EntryType) : Prop :=
  x = (1, .dir) ∨ ∃ i r, cfg.a.entries[i]? = some r ∧ x.1 = i + 2 ∧ EntryType.tryFrom r.variant = some x.2

theorem TableFits.inoIdx (T : TableFits cfg) {i : Nat} {r : RawEntry} (hr : cfg.a.entries[i]? = some r) :
    Arx.inoIdx (i + 2) = some (some i) := by
  have : i < cfg.a.entries.length := (List.getElem?_eq_some_iff.mp hr).1
  have := T.len
  simp [Arx.inoIdx, asU32_lt (show i < 2 ^ 32 by omega)]

theorem TableFits.range (T : TableFits cfg) {ino : Nat} (h : RowIno cfg (ino, .dir)) :
    ∃ rg, cfg.entryRange ino = some rg ∧ (rg.count = 0 ∨ rg.offset + rg.count ≤ cfg.a.entries.length) := by
  rcases h with e | ⟨i, r, hr, e, hk⟩
  · cases e; exact ⟨cfg.root, by simp [FsCfg.entryRange, Arx.inoIdx], T.root⟩
  · simp only at e; subst e
    refine ⟨rowRange r, ?_, (T.rows i r hr).children (tryFrom_dir.mp hk)⟩
    simp [FsCfg.entryRange, T.inoIdx hr, hr, hk]

theorem Archive.find_inside {a : Archive} {rg : Range} (h : rg.count = 0 ∨ rg.offset + rg.count ≤ a.entries.length) (name : Bytes) :
    ∃ x, a.find rg name = .ok x := by
  have : ∀ (f l r : Nat), r ≤ rg.count → ∃ x, bsearch (fun i => a.compareName name (rg.offset + i)) f l r = .ok x := by
    intro f
    induction f with
    | zero => intro l r _; exact ⟨none, rfl⟩
    | succ f ih =>
      intro l r hr
      unfold bsearch
      split
      · rename_i hlr
        simp only
        have hlt : rg.offset + (l + (r - l) / 2) < a.entries.length := by omega
        have : a.compareName name (rg.offset + (l + (r - l) / 2)) = .ok (cmpBytes a.entries[rg.offset + (l + (r - l) / 2)].name name) := by
          unfold Archive.compareName
          rw [List.getElem?_eq_getElem hlt]
        rw [this]
        split
        · rename_i e; cases e
        · exact ih _ _ hr
        · exact ih _ _ (by omega)
        · exact ⟨_, rfl⟩
      · exact ⟨none, rfl⟩
  exact this _ _ _ (Nat.le_refl _)

theorem entered_append (log : FLog) (r : FReq) (y : Reply) (x : Nat × EntryType) :
    x ∈ entered (log ++ [(r, y)]) ↔ x ∈ entered log ∨ ∃ a, y = .entry a ∧ x = (a.ino, a.kind) := by
  simp only [entered, List.flatMap_append, List.mem_cons, List.mem_append, List.flatMap_cons, List.flatMap_nil, List.append_nil]
  constructor
  · rintro (h | h | h)
    · exact Or.inl (Or.inl h)
    · exact Or.inl (Or.inr h)
    · cases y with
      | entry a => simp at h; exact Or.inr ⟨a, rfl, h⟩
      | _ => simp at h
  · rintro ((h | h) | ⟨a, rfl, h⟩)
    · exact Or.inl h
    · exact Or.inr (Or.inl h)
    · exact Or.inr (Or.inr (by simp [h]))

/-- One request of a kernel to a table that fits. -/
theorem TableFits.step (T : TableFits cfg) (reqs : List FReq) (hk : ∀ x ∈ entered (logOf cfg reqs), RowIno cfg x) (r : FReq)
    (hr : EnteredReq cfg (logOf cfg reqs) r) :
    ((FsState.init.run cfg reqs).2.step cfg r).1 ≠ .panic ∧
      ∀ a, ((FsState.init.run cfg reqs).2.step cfg r).1 = .entry a → RowIno cfg (a.ino, a.kind) := by
  have I := AnyInv.reach cfg reqs
  generalize hs : (FsState.init.run cfg reqs).2 = s at I
  have h0 : ∀ i k, RowIno cfg (i, k) → i ≠ 0 := by
    rintro i k (e | ⟨_, _, _, e, _⟩)
    · cases e; simp
    · simp only at e; omega
  cases r with
  | lookup p name =>
    have hd := hk _ hr
    obtain ⟨rg, h1, h2⟩ := T.range hd
    obtain ⟨f, hf⟩ := Archive.find_inside h2 name
    rcases (I.lookup p name).2 with ⟨e, hc⟩ | e | ⟨rg', idx, r, a, _, h4, _, h6, e⟩
    · exfalso
      rcases hc with hc | hc | ⟨rg', e', h3, h4⟩ | ⟨rg', idx, r, h3, h4, _, h5⟩
      · exact h0 _ _ hd hc
      · rw [h1] at hc; cases hc
      · rw [h1] at h3; cases h3; rw [hf] at h4; cases h4
      · obtain ⟨at', ha⟩ := (T.rows idx r h4.2.2).attr h4.2.2
        rw [h5] at ha; cases ha
    · simp only [FsState.step, e]
      exact ⟨by simp, fun a h => by cases h⟩
    · simp only [FsState.step, e]
      refine ⟨by simp, fun a' h => ?_⟩
      cases h
      obtain ⟨r', g1, g2, g3⟩ := attrOf_shape h6
      exact Or.inr ⟨idx, r', g1, g3, g2⟩
  | readdir i o z =>
    have hd := hk _ hr
    obtain ⟨rg, h1, h2⟩ := T.range hd
    have hlen := T.len
    rcases (I.readdir i o z).2 with ⟨e, hc⟩ | ⟨rg', l, _, e, _⟩
    · exfalso
      rcases hc with hc | hc | ⟨rg', h3, hc⟩
      · exact h0 _ _ hd hc
      · rw [h1] at hc; cases hc
      · rw [h1] at h3; cases h3
        rcases hc with hc | hc | ⟨j, hj, hc⟩
        · omega
        · rcases hd with e | ⟨idx, r, hx, e, hv⟩
          · cases e; simp [FsCfg.parentIno, Arx.inoIdx] at hc
          · simp only at e; subst e
            simp only [FsCfg.parentIno, T.inoIdx hx, hx] at hc
            have hp := (T.rows idx r hx).parent
            split at hc
            · cases hc
            · split at hc
              · rename_i e1 e2
                rcases hp with hp | hp
                · exact e1 hp
                · exact hp (by simpa [asU32] using e2)
              · cases hc
        · have hlt : rg.offset + j < cfg.a.entries.length := by omega
          rcases hc with hc | ⟨r, hc, hv⟩
          · rw [List.getElem?_eq_getElem hlt] at hc; cases hc
          · obtain ⟨k, hk'⟩ := tryFrom_le (T.rows _ r hc).variant
            rw [hk'] at hv; cases hv
    · simp only [FsState.step, e]
      exact ⟨by simp, fun a h => by cases h⟩
  | getattr i =>
    obtain ⟨k, hx⟩ := hr
    simp only [FsState.step, FsState.getattr]
    rcases hk _ hx with e | ⟨idx, r, hr, e, hv⟩
    · cases e; simp [Arx.inoIdx]
    · simp only at e; subst e
      rw [T.inoIdx hr]
      simp only
      have h1 := (I.cachedAttr idx).1
      obtain ⟨at', ha⟩ := (T.rows idx r hr).attr hr
      rw [ha] at h1
      revert h1
      cases s.cachedAttr cfg idx with
      | mk x y => intro h1; simp only at h1; subst h1; simp
  | readlink i =>
    obtain ⟨k, hx⟩ := hr
    simp only [FsState.step, FsState.readlink]
    rcases hk _ hx with e | ⟨idx, r, hr, e, hv⟩
    · cases e; simp [Arx.inoIdx]
    · simp only at e; subst e
      rw [T.inoIdx hr]
      simp only [hr, hv]
      cases k <;> simp
  | opendir i =>
    obtain ⟨k, hx⟩ := hr
    simp only [FsState.step, FsState.opendir]
    rcases hk _ hx with e | ⟨idx, r, hr, e, hv⟩
    · cases e; simp [Arx.inoIdx]
    · simp only at e; subst e
      rw [T.inoIdx hr]
      simp only [hr, hv]
      cases k <;> simp
  | releasedir i => simp [FsState.step]
  | «open» i =>
    obtain ⟨k, hx⟩ := hr
    simp only [FsState.step, FsState.open]
    rcases hk _ hx with e | ⟨idx, r, hr, e, hv⟩
    · cases e
      simp only [Arx.inoIdx]
      cases s.region 1 <;> simp
    · simp only at e; subst e
      rw [T.inoIdx hr]
      simp only [hr, hv]
      cases s.region (idx + 2) with
      | some x => simp
      | none =>
        cases k with
        | dir => simp
        | link => simp
        | file => simp only; cases cfg.bytes r.content <;> simp
  | release i =>
    obtain ⟨k, hx⟩ := hr
    simp only [FsState.step, FsState.release]
    rw [if_neg (h0 _ _ (hk _ hx))]
    cases hreg : s.region i with
    | none => simp
    | some x =>
      obtain ⟨b, c⟩ := x
      have := (I.opened i b c hreg).2.1
      simp only
      rw [if_neg (by omega)]
      split <;> simp
  | read i off size =>
    obtain ⟨h1, h2, h3⟩ := hr
    simp only [FsState.step, FsState.read]
    cases hreg : s.region i with
    | none => have := I.closed i hreg; omega
    | some x =>
      obtain ⟨b, c⟩ := x
      obtain ⟨_, _, o3, o4⟩ := I.opened i b c hreg
      rw [if_neg o3, if_neg (by omega)]
      simp only
      rw [if_neg (by have := h3 b o4; omega)]
      simp

/-- **C64, crashes.** For every table whose rows fit (`TableFits`): in every history in which each request is one a
kernel makes after the replies so far, no request handler crashes — even if rows are not sorted, names are repeated,
directories share children, contain themselves or are not reachable, and parents are wrong. -/
theorem C64_no_crash (cfg : FsCfg) (T : TableFits cfg) (reqs : List FReq)
    (hpol : ∀ pre r post, reqs = pre ++ r :: post → EnteredReq cfg (logOf cfg pre) r) :
    .panic ∉ (FsState.init.run cfg reqs).1 := by
  have key : ∀ k, k ≤ reqs.length → .panic ∉ (FsState.init.run cfg (reqs.take k)).1 ∧
      ∀ x ∈ entered (logOf cfg (reqs.take k)), RowIno cfg x := by
    intro k
    induction k with
    | zero =>
      intro _
      refine ⟨by simp [FsState.run], ?_⟩
      intro x hx
      simp [entered, logOf] at hx
      exact Or.inl hx
    | succ k ih =>
      intro hk
      obtain ⟨h1, h2⟩ := ih (by omega)
      have hlt : k < reqs.length := by omega
      have hsplit : reqs = reqs.take k ++ reqs[k] :: reqs.drop (k + 1) := by
        rw [← List.drop_eq_getElem_cons hlt, List.take_append_drop]
      have htake : reqs.take (k + 1) = reqs.take k ++ [reqs[k]] := (List.take_append_getElem hlt).symm
      have hst := T.step (reqs.take k) h2 reqs[k] (hpol _ _ _ hsplit)
      rw [htake]
      refine ⟨?_, ?_⟩
      · rw [FsState.run_append]
        simp only [List.mem_append, not_or]
        refine ⟨h1, ?_⟩
        simp only [FsState.run, List.mem_singleton]
        exact fun e => hst.1 e.symm
      · rw [logOf_snoc]
        intro x hx
        rw [entered_append] at hx
        rcases hx with hx | ⟨a, ha, rfl⟩
        · exact h2 x hx
        · exact hst.2 a ha
  have := (key reqs.length (Nat.le_refl _)).1
  rwa [List.take_length] at this

/-- **C64, created archives.** The table of a created archive, mounted as a whole or in part, fits exactly if the attributes of all entries
can be given to the kernel and its rows can be numbered. -/
theorem C64_created {rs : List AddReq} {m : PathMap} {cfg : FsCfg} {d0 : List Bytes} (h : Mounted rs m cfg d0) :
    TableFits cfg ↔ AttrsFit m ∧ Listable cfg := by
  obtain ⟨P, G, hroot, _⟩ := h.good
  constructor
  · intro T
    refine ⟨?_, T.len⟩
    intro p n hn
    obtain ⟨i, hi⟩ := G.idx_of hn
    obtain ⟨r, n', h1, h2, h3⟩ := G.row_at hi
    rw [hn] at h2; cases h2
    have R := T.rows i r h1
    obtain ⟨_, _, _, _, _, h4, h5⟩ := h3
    refine ⟨by rw [← h4]; exact R.mtime, ?_⟩
    cases hk : n.kind <;> rw [hk] at h5
    · trivial
    · have := R.size h5.1; rw [h5.2.1] at this; simp only; omega
    · have := R.target h5.1; rw [h5.2.1] at this; simp only; omega
  · rintro ⟨hfit, hlen⟩
    refine ⟨hlen, ?_, ?_⟩
    · by_cases h0 : cfg.root.count = 0
      · exact Or.inl h0
      · exact Or.inr (by rw [G.len]; exact G.range_bound hroot h0)
    · intro i r hr
      have hi : i < P.length := by rw [← G.len]; exact (List.getElem?_eq_some_iff.mp hr).1
      obtain ⟨r', n, h1, h2, h3⟩ := G.row_exists hi
      rw [hr] at h1; cases h1
      have hA := hfit _ _ h2
      have hpar := G.parent_lt hr
      have hs := G.small
      obtain ⟨_, _, _, _, _, h4, h5⟩ := h3
      have hpar' : r.parent = 0 ∨ r.parent % 2 ^ 32 ≠ 0 := by
        rcases hpar with e | ⟨_, e1, e2⟩
        · exact Or.inl e
        · exact Or.inr (by simp only [asU32] at e1; rw [e1]; exact e2)
      cases hk : n.kind <;> rw [hk] at h5
      · have hrg := G.rowRange (List.getElem?_eq_getElem hi) hr h2 hk
        have hnb : r.nbChildren ≤ P.length := by
          by_cases h0 : r.nbChildren = 0
          · omega
          · have := G.range_bound h5.2.1 h0; omega
        refine ⟨by omega, fun _ => Or.inr (by rw [G.len]; exact hrg.2), hpar', by rw [h4]; exact hA.1, fun e => by omega, fun _ => by omega, fun e => by omega⟩
      · have h6 := hA.2
        rw [hk] at h6; simp only at h6
        refine ⟨by omega, fun e => by omega, hpar', by rw [h4]; exact hA.1, fun _ => by rw [h5.2.1]; omega, fun e => by omega, fun e => by omega⟩
      · have h6 := hA.2
        rw [hk] at h6; simp only at h6
        refine ⟨by omega, fun e => by omega, hpar', by rw [h4]; exact hA.1, fun e => by omega, fun e => by omega, fun _ => by rw [h5.2.1]; omega⟩

example : TableFits exFs ↔ AttrsFit exMap ∧ Listable exFs := C64_created exMounted

/-! ## Concrete cases -/

/-- the directory that contains itself, mounted -/
def loopFs : FsCfg := ⟨loopTable, ⟨0, 1⟩, fun _ => .err⟩

theorem loopFs_fits : TableFits loopFs := by
  refine ⟨by decide, Or.inr (by decide), ?_⟩
  intro i r h
  match i with
  | 0 =>
    cases h
    exact ⟨by decide, fun _ => Or.inr (by decide), Or.inl (by decide), by decide, (fun h => by cases h), fun _ => by decide, (fun h => by cases h)⟩
  | n + 1 => simp [loopFs, loopTable] at h

/-- the hypotheses of `C64_no_crash` are met: `a/a/a` is looked up -/
example : EnteredReq loopFs (logOf loopFs [.lookup 1 (ascii "a")]) (.lookup 2 (ascii "a")) ∧
    (FsState.init.run loopFs [.lookup 1 (ascii "a"), .lookup 2 (ascii "a"), .readdir 2 0 4096]).1.length = 3 := by
  refine ⟨?_, by decide⟩
  show (2, EntryType.dir) ∈ _
  decide

/-- rows that are not sorted -/
def mixedFs : FsCfg := ⟨⟨[row "b" 0 0 0 0, row "a" 0 0 0 0, row "c" 0 0 0 0], ⟨0, 3⟩⟩, ⟨0, 3⟩, fun _ => .err⟩

/-- children that do not exist -/
def wrongFs : FsCfg := ⟨⟨[row "d" 1 0 7 1], ⟨0, 1⟩⟩, ⟨0, 1⟩, fun _ => .err⟩

/-- What does not hold for such tables. If names are not sorted, a name that is listed is not found, until it has been
listed (the listing puts it into the cache). If children are not in the table, looking into the directory crashes. -/
theorem C64_counterexamples :
    (FsState.init.run mixedFs [.lookup 1 (ascii "b"), .readdir 1 0 4096, .lookup 1 (ascii "b")]).1.head? = some (.error .ENOENT) ∧
    (∃ at', (FsState.init.run mixedFs [.lookup 1 (ascii "b"), .readdir 1 0 4096, .lookup 1 (ascii "b")]).1[2]? = some (.entry at')) ∧
    (FsState.init.run wrongFs [.lookup 1 (ascii "d"), .lookup 2 (ascii "x")]).1[1]? = some .panic := by
  refine ⟨by decide, ⟨_, by rfl⟩, by decide⟩

end Arx
