import Verif.Spec.Rows
import Verif.Props.Mount2
import Verif.Props.Python2

/-!
# C103: an entry is found by reading few rows
-/
namespace Arx

theorem RowsRead.const {α : Type} (x : α) (a : Archive) : RowsRead 0 (fun _ => x) a := ⟨[], by simp, fun _ _ _ => rfl⟩

theorem RowsRead.row {α : Type} {f : Archive → α} {a : Archive} (i : Nat) (h : ∀ a' : Archive, a'.entries[i]? = a.entries[i]? → f a' = f a) :
    RowsRead 1 f a :=
  ⟨[i], by simp, fun a' _ h' => h a' (h' i (by simp))⟩

theorem RowsRead.root {α : Type} (g : Range → α) (a : Archive) : RowsRead 0 (fun a => g a.root) a :=
  ⟨[], by simp, fun a' h _ => by simp only [h]⟩

theorem RowsRead.mono {α : Type} {k j : Nat} {f : Archive → α} {a : Archive} (h : RowsRead k f a) (hk : k ≤ j) : RowsRead j f a := by
  obtain ⟨L, h1, h2⟩ := h
  exact ⟨L, by omega, h2⟩

/-- One reading after another. -/
theorem RowsRead.bind {α β : Type} {k j : Nat} {f : Archive → α} {g : α → Archive → β} {a : Archive} (h : RowsRead k f a)
    (hg : RowsRead j (g (f a)) a) : RowsRead (k + j) (fun a => g (f a) a) a := by
  obtain ⟨L, h1, h2⟩ := h
  obtain ⟨L', h3, h4⟩ := hg
  refine ⟨L ++ L', by simp; omega, fun a' hr he => ?_⟩
  simp only
  rw [h2 a' hr (fun i hi => he i (by simp [hi])), h4 a' hr (fun i hi => he i (by simp [hi]))]

theorem RowsRead.congr {α : Type} {k : Nat} {f g : Archive → α} {a : Archive} (h : RowsRead k f a) (e : ∀ a, f a = g a) : RowsRead k g a := by
  obtain ⟨L, h1, h2⟩ := h
  exact ⟨L, h1, fun a' hr he => by rw [← e, ← e]; exact h2 a' hr he⟩

theorem rounds_half {n : Nat} (h : 0 < n) : rounds n = 1 + rounds (n / 2) := by
  unfold rounds
  rw [if_neg (by omega)]
  by_cases h2 : n / 2 = 0
  · rw [if_pos h2]
    have : n = 1 := by omega
    subst this
    decide
  · rw [if_neg h2]
    conv => lhs; rw [Nat.log2_def]
    rw [if_pos (by omega)]
    omega

theorem rounds_mono {n m : Nat} (h : n ≤ m) : rounds n ≤ rounds m := by
  unfold rounds
  split
  · omega
  · rw [if_neg (by omega)]
    have : Nat.log2 n ≤ Nat.log2 m := by
      rw [Nat.le_log2 (by omega)]
      exact Nat.le_trans (Nat.log2_self_le (by omega)) h
    omega

theorem bsearch_rows (name : Bytes) (off : Nat) (a : Archive) : ∀ (f l r : Nat),
    RowsRead (rounds (r - l)) (fun a => bsearch (fun i => a.compareName name (off + i)) f l r) a := by
  intro f
  induction f with
  | zero => intro l r; exact (RowsRead.const _ a).mono (by omega)
  | succ f ih =>
    intro l r
    by_cases h : l < r
    · rw [rounds_half (by omega)]
      have h1 : RowsRead 1 (fun a => a.compareName name (off + (l + (r - l) / 2))) a :=
        RowsRead.row (off + (l + (r - l) / 2)) (fun a' e => by unfold Archive.compareName; rw [e])
      refine (RowsRead.bind (g := fun x a => match x with
        | .error e => Except.error e
        | .ok .lt => bsearch (fun i => a.compareName name (off + i)) f (l + (r - l) / 2 + 1) r
        | .ok .gt => bsearch (fun i => a.compareName name (off + i)) f l (l + (r - l) / 2)
        | .ok .eq => .ok (some (l + (r - l) / 2))) h1 ?_).congr ?_
      · match a.compareName name (off + (l + (r - l) / 2)) with
        | .error e => exact (RowsRead.const _ a).mono (by omega)
        | .ok .lt => exact (ih _ _).mono (rounds_mono (by omega))
        | .ok .gt => exact (ih _ _).mono (rounds_mono (by omega))
        | .ok .eq => exact (RowsRead.const _ a).mono (by omega)
      · intro a
        simp only [bsearch, if_pos h]
        generalize a.compareName name _ = x
        rcases x with e | (_ | _ | _) <;> rfl
    · refine ((RowsRead.const (.ok none) a).mono (by omega)).congr ?_
      intro a
      simp only [bsearch, if_neg h]

/-- **C103: a name is found in a directory of `n` by reading at most ⌊log₂ n⌋ + 1 rows**, in any archive. -/
theorem C103_find (a : Archive) (range : Range) (name : Bytes) : RowsRead (rounds range.count) (fun a => a.find range name) a :=
  bsearch_rows name range.offset a range.count 0 range.count

theorem create_reads {F L D : Type} (B : Builder F L D) (idx : Nat) (a : Archive) : RowsRead 1 (fun a => a.create B idx) a :=
  RowsRead.row idx (fun a' e => by unfold Archive.create; rw [e])

theorem create_range {F L D : Type} {B : Builder F L D} {idx : Nat} {a : Archive} {n : Nat} (h : DirsUpTo n a) {r : Range} {d : D}
    (e : a.create B idx = .ok (.dir r d)) : r.count ≤ n := by
  unfold Archive.create at e
  split at e
  · cases e
  · rename_i row hrow
    split at e
    · cases e
    · cases hx : B.file idx row <;> rw [hx] at e <;> cases e
    · cases hx : B.link idx row <;> rw [hx] at e <;> cases e
    · cases hx : B.dir idx row <;> rw [hx] at e
      · cases e
      · cases e
        exact h.2 row (List.mem_of_getElem? hrow) (by assumption)

theorem getLoop_rows {F L D : Type} (B : Builder F L D) {a : Archive} {n : Nat} (h : DirsUpTo n a) (cs : List Bytes) : ∀ range : Range, range.count ≤ n →
    RowsRead (cs.length * (rounds n + 1)) (fun a => a.getLoop B range cs) a := by
  induction cs with
  | nil => intro range _; exact (RowsRead.const (Except.error RErr.panic : Res (Entry F L D)) a).mono (by simp)
  | cons c cs ih =>
    intro range hr
    rw [List.length_cons, Nat.add_mul, Nat.one_mul]
    have hf := (C103_find a range c).mono (rounds_mono hr)
    have hb : RowsRead (rounds n + (1 + cs.length * (rounds n + 1))) _ a := RowsRead.bind (g := fun (x : Res (Option Nat)) (a : Archive) => match x with
        | .error e => Except.error e
        | .ok none => .error .notFound
        | .ok (some idx) =>
          match a.create B (range.offset + idx) with
          | .error e => .error e
          | .ok entry =>
            match cs with
            | [] => .ok entry
            | _ :: _ =>
              match entry with
              | .dir r _ => Archive.getLoop a B r cs
              | _ => .error .notFound) hf (by
      match a.find range c with
      | .error e => exact (RowsRead.const _ a).mono (by omega)
      | .ok none => exact (RowsRead.const _ a).mono (by omega)
      | .ok (some idx) =>
        refine RowsRead.bind (g := fun (x : Res (Entry F L D)) (a : Archive) => match x with
          | .error e => Except.error e
          | .ok entry =>
            match cs with
            | [] => .ok entry
            | _ :: _ =>
              match entry with
              | .dir r _ => Archive.getLoop a B r cs
              | _ => .error .notFound) (create_reads B (range.offset + idx) a) ?_
        match he : a.create B (range.offset + idx) with
        | .error e => exact (RowsRead.const _ a).mono (by omega)
        | .ok (.file e) => cases cs <;> exact (RowsRead.const _ a).mono (by omega)
        | .ok (.link e) => cases cs <;> exact (RowsRead.const _ a).mono (by omega)
        | .ok (.dir r e) =>
          cases cs with
          | nil => exact (RowsRead.const _ a).mono (by omega)
          | cons c' cs' => exact ih r (create_range h he))
    refine (hb.mono (by omega)).congr ?_
    intro a
    conv => rhs; unfold Archive.getLoop
    rfl

/-- **C103: a path is found by reading few rows**: for each of its names at most ⌊log₂ n⌋ + 2, if no directory has more than `n` children. This
is for any archive and any builder (`arx dump`, `arx mount --root-dir`, `arx extract --root-dir`, Python's `get_entry`). -/
theorem C103_get {F L D : Type} (B : Builder F L D) {a : Archive} {n : Nat} (h : DirsUpTo n a) (path : RPath) :
    RowsRead ((comps path).length * (rounds n + 1)) (fun a => a.getEntry B path) a := by
  obtain ⟨L, h1, h2⟩ := getLoop_rows B h (comps path) a.root h.1
  refine ⟨L, h1, fun a' hr he => ?_⟩
  simp only [Archive.getEntry]
  rw [hr]
  exact h2 a' hr he

/-! ## The mount -/

theorem entryRange_row (cfg : FsCfg) (ino : Nat) : RowsRead 1 (fun a => (cfg.on a).entryRange ino) cfg.a := by
  cases hi : inoIdx ino with
  | none => exact ((RowsRead.const none cfg.a).mono (by omega)).congr (fun a => by simp [FsCfg.entryRange, hi])
  | some o =>
    cases o with
    | none => exact ((RowsRead.const (some cfg.root) cfg.a).mono (by omega)).congr (fun a => by simp [FsCfg.entryRange, hi, FsCfg.on])
    | some idx => exact RowsRead.row idx (fun a' e => by simp only [FsCfg.entryRange, hi, FsCfg.on]; rw [e])

theorem cachedAttr_row (cfg : FsCfg) (s : FsState) (idx : Nat) : RowsRead 1 (fun a => s.cachedAttr (cfg.on a) idx) cfg.a :=
  RowsRead.row idx (fun a' e => by simp only [FsState.cachedAttr, FsCfg.on, Archive.attrOf]; rw [e])

theorem parentIno_row (cfg : FsCfg) (ino : Nat) : RowsRead 1 (fun a => (cfg.on a).parentIno ino) cfg.a := by
  cases hi : inoIdx ino with
  | none => exact ((RowsRead.const none cfg.a).mono (by omega)).congr (fun a => by simp [FsCfg.parentIno, hi])
  | some o =>
    cases o with
    | none => exact ((RowsRead.const (some ino) cfg.a).mono (by omega)).congr (fun a => by simp [FsCfg.parentIno, hi])
    | some idx => exact RowsRead.row idx (fun a' e => by simp only [FsCfg.parentIno, hi, FsCfg.on]; rw [e])

theorem entryRange_upTo {cfg : FsCfg} {n : Nat} (h : DirsUpTo n cfg.a) (hr : cfg.root.count ≤ n) {ino : Nat} {r : Range}
    (e : cfg.entryRange ino = some r) : r.count ≤ n := by
  unfold FsCfg.entryRange at e
  split at e
  · cases e
  · cases e; exact hr
  · split at e
    · cases e
    · rename_i row hrow
      split at e
      · rename_i hd; cases e; exact h.2 _ (List.mem_of_getElem? hrow) hd
      · cases e

theorem lookup_rows (cfg : FsCfg) (s : FsState) {n : Nat} (h : DirsUpTo n cfg.a) (hr : cfg.root.count ≤ n) (p : Nat) (name : Bytes) :
    RowsRead (rounds n + 2) (fun a => s.lookup (cfg.on a) p name) cfg.a := by
  by_cases h0 : p = 0
  · exact ((RowsRead.const (Reply.panic, s) cfg.a).mono (by omega)).congr (fun a => by simp [FsState.lookup, h0])
  -- the answer, once the index is known
  have ans : ∀ (idx : Option Nat) (s : FsState), RowsRead 1 (fun a => match idx with
      | none => (Reply.error .ENOENT, s)
      | some idx =>
        match s.cachedAttr (cfg.on a) idx with
        | (none, s) => (.panic, s)
        | (some a, s) => (.entry a, s)) cfg.a := by
    intro idx s
    cases idx with
    | none => exact (RowsRead.const _ cfg.a).mono (by omega)
    | some idx =>
      exact (RowsRead.bind (g := fun (x : Option Attr × FsState) _ => match x with
        | (none, s) => (Reply.panic, s)
        | (some a, s) => (.entry a, s)) (cachedAttr_row cfg s idx) (RowsRead.const _ _)).mono (j := 1) (by simp)
  cases hg : s.resolve.get (p, name) with
  | mk found c =>
    cases found with
    | some idx =>
      refine ((ans idx { s with resolve := c }).mono (by omega)).congr (fun a => ?_)
      simp only [FsState.lookup, if_neg h0, hg]
      cases idx <;> rfl
    | none =>
      refine (RowsRead.bind (k := 1) (j := rounds n + 1) (g := fun (x : Option Range) (a : Archive) => match x with
        | none => (Reply.panic, s)
        | some range =>
          match a.find range name with
          | .error _ => (.panic, s)
          | .ok found =>
            match found.map (fun i => i + range.offset) with
            | none => (Reply.error .ENOENT, { s with resolve := s.resolve.put (p, name) (found.map (fun i => i + range.offset)) })
            | some idx =>
              match FsState.cachedAttr (cfg.on a) { s with resolve := s.resolve.put (p, name) (found.map (fun i => i + range.offset)) } idx with
              | (none, s) => (.panic, s)
              | (some a, s) => (.entry a, s)) (entryRange_row cfg p) ?_).mono (by omega) |>.congr (fun a => ?_)
      · have hon : cfg.on cfg.a = cfg := rfl
        simp only [hon]
        cases he : cfg.entryRange p with
        | none => exact (RowsRead.const _ cfg.a).mono (by omega)
        | some range =>
          have hc := entryRange_upTo h hr he
          refine RowsRead.bind (g := fun (x : Res (Option Nat)) (a : Archive) => match x with
            | .error _ => (Reply.panic, s)
            | .ok found =>
              match found.map (fun i => i + range.offset) with
              | none => (Reply.error .ENOENT, { s with resolve := s.resolve.put (p, name) (found.map (fun i => i + range.offset)) })
              | some idx =>
                match FsState.cachedAttr (cfg.on a) { s with resolve := s.resolve.put (p, name) (found.map (fun i => i + range.offset)) } idx with
                | (none, s) => (.panic, s)
                | (some a, s) => (.entry a, s)) ((C103_find cfg.a range name).mono (rounds_mono hc)) ?_
          cases hf : cfg.a.find range name with
          | error e => exact (RowsRead.const _ cfg.a).mono (by omega)
          | ok found =>
            refine (ans (found.map (fun i => i + range.offset)) { s with resolve := s.resolve.put (p, name) (found.map (fun i => i + range.offset)) }).congr (fun a => ?_)
            cases found <;> rfl
      · simp only [FsState.lookup, if_neg h0, hg]
        cases (cfg.on a).entryRange p with
        | none => rfl
        | some range =>
          simp only
          show _ = (match a.find range name with
            | .error _ => (Reply.panic, s)
            | .ok found => _)
          cases a.find range name with
          | error e => rfl
          | ok found => cases found <;> rfl

theorem replyAdd_count {bufSize : Nat} {l l' : List DirEnt} {e : DirEnt} (h : replyAdd bufSize l e = (false, l')) :
    l'.length = l.length + 1 ∧ l.length + 1 ≤ bufSize / 24 := by
  unfold replyAdd at h
  split at h
  · simp at h
  · rename_i hs
    simp only [Prod.mk.injEq, true_and] at h
    subst h
    have hsum : ∀ l : List DirEnt, 24 * l.length ≤ (l.map (fun x => direntSize x.name)).sum := by
      intro l
      induction l with
      | nil => simp
      | cons x l ih =>
        have : 24 ≤ direntSize x.name := by unfold direntSize; omega
        simp only [List.map_cons, List.sum_cons, List.length_cons]
        omega
    have := hsum l
    have : 24 ≤ direntSize e.name := by unfold direntSize; omega
    refine ⟨by simp, ?_⟩
    rw [Nat.le_div_iff_mul_le (by omega)]
    omega

theorem readdirLoop_rows (cfg : FsCfg) (ino : Nat) (range : Range) (bufSize : Nat) : ∀ (is : List Nat) (cur : Nat) (l : List DirEnt)
    (c : Lru (Nat × Bytes) (Option Nat)), l.length ≤ bufSize / 24 →
    RowsRead (bufSize / 24 + 1 - l.length) (fun a => readdirLoop (cfg.on a) ino range bufSize is cur l c) cfg.a := by
  intro is
  induction is with
  | nil => intro cur l c _; exact (RowsRead.const (some (l, c)) cfg.a).mono (by omega)
  | cons i is ih =>
    intro cur l c hl
    -- after the entry is chosen
    have next : ∀ (e : DirEnt) (cur : Nat) (c : Lru (Nat × Bytes) (Option Nat)), RowsRead (bufSize / 24 - l.length)
        (fun a => match replyAdd bufSize l e with
          | (true, l) => some (l, c)
          | (false, l) => readdirLoop (cfg.on a) ino range bufSize is cur l c) cfg.a := by
      intro e cur c
      cases hr : replyAdd bufSize l e with
      | mk b l' =>
        cases b with
        | true => exact (RowsRead.const _ cfg.a).mono (by omega)
        | false =>
          obtain ⟨h1, h2⟩ := replyAdd_count hr
          exact (ih cur l' c (by omega)).mono (by omega)
    by_cases h0 : i = 0
    · refine ((next ⟨ino, i, .dir, CUR⟩ cur c).mono (by omega)).congr (fun a => ?_)
      rw [readdirLoop, if_pos h0]
      rfl
    · by_cases h1 : i = 1
      · refine (RowsRead.bind (k := 1) (j := bufSize / 24 - l.length) (g := fun (x : Option Nat) (a : Archive) => match x with
          | none => none
          | some p =>
            match replyAdd bufSize l ⟨p, i, .dir, PARENT⟩ with
            | (true, l) => some (l, c)
            | (false, l) => readdirLoop (cfg.on a) ino range bufSize is cur l c) (parentIno_row cfg ino) ?_).mono (by omega) |>.congr (fun a => ?_)
        · cases (cfg.on cfg.a).parentIno ino with
          | none => exact (RowsRead.const _ cfg.a).mono (by omega)
          | some p => exact next ⟨p, i, .dir, PARENT⟩ cur c
        · rw [readdirLoop, if_neg h0, if_pos h1]
          cases (cfg.on a).parentIno ino <;> rfl
      · by_cases h2 : cur = range.offset + range.count
        · refine ((RowsRead.const (some (l, c)) cfg.a).mono (by omega)).congr (fun a => ?_)
          rw [readdirLoop, if_neg h0, if_neg h1, if_pos h2]
        · refine (RowsRead.bind (k := 1) (j := bufSize / 24 - l.length) (f := fun a => a.entries[cur]?) (g := fun (x : Option RawEntry) (a : Archive) => match x with
            | none => none
            | some r =>
              match EntryType.tryFrom r.variant with
              | none => none
              | some kind =>
                match replyAdd bufSize l ⟨idxIno (range.offset + (asU32 i - 2)), i, kind, r.name⟩ with
                | (true, l) => some (l, c.put (ino, r.name) (some (range.offset + (asU32 i - 2))))
                | (false, l) => readdirLoop (cfg.on a) ino range bufSize is (cur + 1) l (c.put (ino, r.name) (some (range.offset + (asU32 i - 2)))))
            (RowsRead.row cur (fun _ e => e)) ?_).mono (by omega) |>.congr (fun a => ?_)
          · cases cfg.a.entries[cur]? with
            | none => exact (RowsRead.const _ cfg.a).mono (by omega)
            | some r =>
              simp only
              cases EntryType.tryFrom r.variant with
              | none => exact (RowsRead.const _ cfg.a).mono (by omega)
              | some kind => exact next ⟨idxIno (range.offset + (asU32 i - 2)), i, kind, r.name⟩ (cur + 1) (c.put (ino, r.name) (some (range.offset + (asU32 i - 2))))
          · rw [readdirLoop, if_neg h0, if_neg h1, if_neg h2]
            show _ = (match a.entries[cur]? with | none => none | some r => _)
            cases a.entries[cur]? with
            | none => rfl
            | some r =>
              simp only
              cases EntryType.tryFrom r.variant <;> rfl

/-- **C103: a request to a mount reads few rows**, in any state, of any archive: the reply and what the mount remembers are the same for
another archive with the same rows. -/
theorem C103_mount (cfg : FsCfg) (s : FsState) {n : Nat} (h : DirsUpTo n cfg.a) (hr : cfg.root.count ≤ n) (r : FReq) :
    RowsRead (r.mayRead n) (fun a => s.step (cfg.on a) r) cfg.a := by
  cases r with
  | lookup p name => exact lookup_rows cfg s h hr p name
  | getattr i =>
    simp only [FReq.mayRead, FsState.step]
    cases hi : inoIdx i with
    | none => exact ((RowsRead.const (Reply.panic, s) cfg.a).mono (by omega)).congr (fun a => by simp [FsState.getattr, hi])
    | some o =>
      cases o with
      | none => exact ((RowsRead.const (Reply.attr rootAttr, s) cfg.a).mono (by omega)).congr (fun a => by simp [FsState.getattr, hi])
      | some idx =>
        exact RowsRead.row idx (fun a' e => by simp only [FsState.getattr, hi, FsState.cachedAttr, FsCfg.on, Archive.attrOf]; rw [e])
  | readlink i =>
    simp only [FReq.mayRead, FsState.step]
    cases hi : inoIdx i with
    | none => exact ((RowsRead.const (Reply.panic, s) cfg.a).mono (by omega)).congr (fun a => by simp [FsState.readlink, hi])
    | some o =>
      cases o with
      | none => exact ((RowsRead.const (Reply.error .ENOLINK, s) cfg.a).mono (by omega)).congr (fun a => by simp [FsState.readlink, hi])
      | some idx => exact RowsRead.row idx (fun a' e => by simp only [FsState.readlink, hi, FsCfg.on]; rw [e])
  | «open» i =>
    simp only [FReq.mayRead, FsState.step]
    cases hi : inoIdx i with
    | none => exact ((RowsRead.const (Reply.panic, s) cfg.a).mono (by omega)).congr (fun a => by simp [FsState.open, hi])
    | some o =>
      cases o with
      | none => exact ⟨[], by simp, fun a' _ _ => by simp only [FsState.open, hi]⟩
      | some idx => exact RowsRead.row idx (fun a' e => by simp only [FsState.open, hi, FsCfg.on]; rw [e])
  | opendir i =>
    simp only [FReq.mayRead, FsState.step]
    cases hi : inoIdx i with
    | none => exact ((RowsRead.const (Reply.panic, s) cfg.a).mono (by omega)).congr (fun a => by simp [FsState.opendir, hi])
    | some o =>
      cases o with
      | none => exact ((RowsRead.const (Reply.opened, s) cfg.a).mono (by omega)).congr (fun a => by simp [FsState.opendir, hi])
      | some idx => exact RowsRead.row idx (fun a' e => by simp only [FsState.opendir, hi, FsCfg.on]; rw [e])
  | read i o z => exact RowsRead.const _ cfg.a
  | release i => exact RowsRead.const _ cfg.a
  | releasedir i => exact RowsRead.const _ cfg.a
  | readdir i o z =>
    simp only [FReq.mayRead, FsState.step]
    by_cases h0 : i = 0
    · exact ((RowsRead.const (Reply.panic, s) cfg.a).mono (by omega)).congr (fun a => by simp [FsState.readdir, h0])
    refine (RowsRead.bind (k := 1) (j := z / 24 + 1) (g := fun (x : Option Range) (a : Archive) => match x with
      | none => (Reply.panic, s)
      | some range =>
        if range.count + 2 ≥ 2 ^ 32 then (.panic, s) else
        match readdirLoop (cfg.on a) i range z (List.range' (if o = 0 then 0 else o + 1) (range.count + 2 - (if o = 0 then 0 else o + 1)))
            (if (if o = 0 then 0 else o + 1) > 2 then range.offset + asU32 ((if o = 0 then 0 else o + 1) - 2) else range.offset) [] s.resolve with
        | none => (.panic, s)
        | some (l, c) => (.dir l, { s with resolve := c })) (entryRange_row cfg i) ?_).mono (by omega) |>.congr (fun a => ?_)
    · cases (cfg.on cfg.a).entryRange i with
      | none => exact (RowsRead.const _ cfg.a).mono (by omega)
      | some range =>
        simp only
        by_cases hc : range.count + 2 ≥ 2 ^ 32
        · exact ((RowsRead.const (Reply.panic, s) cfg.a).mono (by omega)).congr (fun a => by rw [if_pos hc])
        · refine (RowsRead.bind (j := 0) (g := fun (x : Option (List DirEnt × Lru (Nat × Bytes) (Option Nat))) (_ : Archive) => match x with
            | none => (Reply.panic, s)
            | some (l, c) => (.dir l, { s with resolve := c })) (readdirLoop_rows cfg i range z (List.range' (if o = 0 then 0 else o + 1) (range.count + 2 - (if o = 0 then 0 else o + 1)))
              (if (if o = 0 then 0 else o + 1) > 2 then range.offset + asU32 ((if o = 0 then 0 else o + 1) - 2) else range.offset) [] s.resolve (by simp)) (RowsRead.const _ _)).mono (by simp) |>.congr (fun a => ?_)
          rw [if_neg hc]
    · simp only [FsState.readdir, if_neg h0]
      cases (cfg.on a).entryRange i <;> rfl

/-! ## Archives made by the creator -/

theorem Written.upTo {rs : List AddReq} {a : Archive} {m : PathMap} (h : Written rs a) (hm : SpecRun PathMap.empty rs m) {n : Nat} (hn : m.KidsUpTo n) :
    DirsUpTo n a := by
  obtain ⟨P, G⟩ := h.good' hm
  refine ⟨?_, ?_⟩
  · obtain ⟨ns, _, h1, _, h2, _⟩ := G.rows G.rootRange
    rw [h2]; exact hn _ _ h1
  · intro r hr hd
    obtain ⟨i, hi⟩ := List.mem_iff_getElem?.mp hr
    have hlt : i < P.length := by rw [← G.len]; exact (List.getElem?_eq_some_iff.mp hi).1
    have hp : P[i]? = some P[i] := List.getElem?_eq_getElem hlt
    obtain ⟨nd, hnd, hrow⟩ := G.row i P[i] r hp hi
    have hk : nd.kind = .dir := by
      obtain ⟨_, _, _, _, _, _, h4⟩ := hrow
      cases hk : nd.kind with
      | dir => rfl
      | file s c => rw [hk] at h4; rw [h4.1] at hd; cases hd
      | link t => rw [hk] at h4; rw [h4.1] at hd; cases hd
    obtain ⟨ns, _, h1, _, h2, _⟩ := G.rows (G.rowRange hp hi hnd hk).1
    rw [h2]; exact hn _ _ h1

/-- **C103: an entry of a created archive is found by reading few rows.** If no directory has more than `n` children: a path by at most ⌊log₂ n⌋ + 2
for each of its names, a request to the mount (of the archive or of a directory of it) in any state by `FReq.mayRead n`. -/
theorem C103_created {rs : List AddReq} {a : Archive} {m : PathMap} (h : Written rs a) (hm : SpecRun PathMap.empty rs m) {n : Nat} (hn : m.KidsUpTo n) :
    (∀ {F L D : Type} (B : Builder F L D) (path : RPath), RowsRead ((comps path).length * (rounds n + 1)) (fun a => a.getEntry B path) a) ∧
    ∀ (cfg : FsCfg) (d0 : List Bytes), Mounted rs m cfg d0 → cfg.a = a → ∀ (s : FsState) (r : FReq),
      RowsRead (r.mayRead n) (fun a => s.step (cfg.on a) r) a := by
  have hU := h.upTo hm hn
  refine ⟨fun B path => C103_get B hU path, ?_⟩
  rintro cfg d0 hM rfl s r
  obtain ⟨P, G, hr, _⟩ := hM.good
  obtain ⟨ns, _, h1, _, h2, _⟩ := G.rows hr
  exact C103_mount cfg s hU (by rw [h2]; exact hn _ _ h1) r

/-! ## Examples -/

/-- A directory of a million: 20 rows. -/
example : rounds 1000000 = 20 := by decide +kernel

/-- A bound that is met: `exArchive` has no directory of more than two. -/
example : DirsUpTo 2 exArchive := by unfold DirsUpTo; decide

/-- Its rows are needed: the search is not constant. -/
example : exArchive.find exArchive.root (ascii "b") ≠ exArchive.find exArchive.root (ascii "zz") := by decide

end Arx
