import Verif.Proof.AdderMain
import Verif.Props.Adder2
import Verif.Proof.Accepted
import Verif.Spec.Create
/-!
# What adding any list of paths makes
-/
namespace Arx

variable {s : Src} {env : CEnv}

/-- A resolved path exists, and is not a link if links are followed. -/
theorem FS.WF.resAux_found {fs : FS} (W : fs.WF) {follow : Bool} {q : List Bytes} : ∀ (n : Nat) (todo cur : List Bytes) (t : Int),
    fs.nodes cur = some (.dir t) → resAux fs follow (resolveN fs follow n) todo cur = .ok (.found q) →
    ∃ x, fs.nodes q = some x ∧ (follow = true → ∀ a b, x ≠ .link a b) := by
  have hup : ∀ (cur : List Bytes) (t : Int), fs.nodes cur = some (.dir t) → ∃ t, fs.nodes cur.dropLast = some (.dir t) := by
    intro cur t h
    rcases nil_or_snoc cur with rfl | ⟨d, c, rfl⟩
    · exact ⟨t, h⟩
    · simpa using W.tree d c _ h
  have hroot := W.root
  intro n
  induction n with
  | zero =>
    intro todo
    induction todo with
    | nil => intro cur t hc h; simp only [resAux, Except.ok.injEq, Loc.found.injEq] at h; subst h; exact ⟨_, hc, fun _ a b => by simp⟩
    | cons c rest ih =>
      intro cur t hc h
      simp only [resAux] at h
      split at h
      · exact ih _ _ hc h
      · split at h
        · obtain ⟨t', ht⟩ := hup cur t hc; exact ih _ _ ht h
        · split at h
          · split at h <;> simp at h
          · rename_i ht; exact ih _ _ ht h
          · rename_i hf
            split at h
            · simp only [Except.ok.injEq, Loc.found.injEq] at h; subst h; exact ⟨_, hf, fun _ a b => by simp⟩
            · cases h
          · rename_i hl
            split at h
            · rename_i hr
              simp only [Except.ok.injEq, Loc.found.injEq] at h; subst h
              exact ⟨_, hl, fun hf => by rw [hr.2] at hf; cases hf⟩
            · simp [resolveN] at h
  | succ n ihn =>
    intro todo
    induction todo with
    | nil => intro cur t hc h; simp only [resAux, Except.ok.injEq, Loc.found.injEq] at h; subst h; exact ⟨_, hc, fun _ a b => by simp⟩
    | cons c rest ih =>
      intro cur t hc h
      simp only [resAux] at h
      split at h
      · exact ih _ _ hc h
      · split at h
        · obtain ⟨t', ht⟩ := hup cur t hc; exact ih _ _ ht h
        · split at h
          · split at h <;> simp at h
          · rename_i ht; exact ih _ _ ht h
          · rename_i hf
            split at h
            · simp only [Except.ok.injEq, Loc.found.injEq] at h; subst h; exact ⟨_, hf, fun _ a b => by simp⟩
            · cases h
          · rename_i hl
            split at h
            · rename_i hr
              simp only [Except.ok.injEq, Loc.found.injEq] at h; subst h
              exact ⟨_, hl, fun hf => by rw [hr.2] at hf; cases hf⟩
            · simp only [resolveN] at h
              obtain ⟨t0, h0⟩ := hroot
              split at h
              · exact ihn _ _ _ h0 h
              · exact ihn _ _ _ hc h

theorem FS.WF.resolve_found {fs : FS} (W : fs.WF) {follow : Bool} {p q : List Bytes} (h : fs.resolve follow p = .ok (.found q)) :
    ∃ x, fs.nodes q = some x ∧ (follow = true → ∀ a b, x ≠ .link a b) := by
  obtain ⟨t, ht⟩ := W.root
  exact W.resAux_found 40 p [] t ht (FS.resolve_ok h).2

/-- The request of an entry that could be read. -/
theorem newFromPath_inv (Q : Quiet env s) (W : s.WF) {t : Nat} {cs cs' : List Bytes} {names : List Bytes} {arx : RPath} {follow : Bool}
    {r : AddReq} (h : newFromPath env t cs names arx follow = .ok (r, cs')) :
    ∃ q x, s.fs.resolve follow names = .ok (.found q) ∧ s.fs.nodes q = some x ∧ ReqFor s cs' q arx r ∧
      ∀ a b, packBytes cs a = .found b → packBytes cs' a = .found b := by
  have key : ∀ q x, s.fs.resolve follow names = .ok (.found q) → s.fs.nodes q = some x → (follow = true → ∀ a b, x ≠ .link a b) →
      ReqFor s cs' q arx r ∧ ∀ a b, packBytes cs a = .found b → packBytes cs' a = .found b := by
    intro q x h1 h2 h3
    cases follow with
    | false =>
      obtain ⟨r', c', g1, g2, g3⟩ := newFromPath_plain Q W t cs arx h1 h2
      rw [h] at g1; cases g1; exact ⟨g2, g3⟩
    | true =>
      obtain ⟨r', c', g1, g2, g3⟩ := newFromPath_follow Q W t cs arx h1 h2 (h3 rfl)
      rw [h] at g1; cases g1; exact ⟨g2, g3⟩
  suffices H : ∃ q, s.fs.resolve follow names = .ok (.found q) by
    obtain ⟨q, hq⟩ := H
    obtain ⟨x, h1, h2⟩ := W.toWF.resolve_found hq
    obtain ⟨k1, k2⟩ := key q x hq h1 h2
    exact ⟨q, x, hq, h1, k1, k2⟩
  cases hd : detectKind env t names follow with
  | error e => rw [newFromPath, hd] at h; cases h
  | ok pa =>
    unfold detectKind at hd
    simp only [Q.call, Src.lstat] at hd
    cases hr : s.fs.resolve false names with
    | error e => rw [hr] at hd; cases hd
    | ok l =>
      rw [hr] at hd
      cases l with
      | missing a b => cases hd
      | found q0 =>
        cases follow with
        | false => exact ⟨q0, hr⟩
        | true =>
          obtain ⟨x0, hx0, _⟩ := W.toWF.resolve_found hr
          by_cases hl : ∀ a b, x0 ≠ .link a b
          · obtain ⟨a, b⟩ := FS.resolve_ok hr
            exact ⟨q0, FS.resolve_of a (resAux_follow_of (by intro t s' e; rw [hx0] at e; exact hl _ _ (Option.some.inj e)) _ _ _ b)⟩
          · have : ∃ a b, x0 = .link a b := Classical.byContradiction fun hn => hl (fun a b e => hn ⟨a, b, e⟩)
            obtain ⟨a, b, rfl⟩ := this
            simp only [Src.statAt, hx0, and_self, if_true, Src.canonicalize] at hd
            cases hr2 : s.fs.resolve true names with
            | error e => rw [hr2] at hd; cases hd
            | ok l =>
              rw [hr2] at hd
              cases l with
              | missing a b => cases hd
              | found q => exact ⟨q, rfl⟩

/-- One accepted add. -/
theorem Adder.addEntryFromPath_ok (Q : Quiet env s) (W : s.WF) {pre : RPath} {a a' : Adder} {path : Bytes} {follow : Bool}
    (h : a.addEntryFromPath env pre path follow = (a', .ok)) :
    ∃ k, StoredAs path pre k ∧ ((k = [] ∧ a' = a) ∨ (k ≠ [] ∧ ∃ q x r, s.fs.resolve follow (namesOf env.cwd path) = .ok (.found q) ∧
      s.fs.nodes q = some x ∧ ReqFor s a'.contents q (joinPath k) r ∧ entryPath r.path = k ∧
      a.creator.addEntry r = (a'.creator, .ok) ∧
      ∀ c b, packBytes a.contents c = .found b → packBytes a'.contents c = .found b)) := by
  rw [Adder.addEntryFromPath, fromPathBuf_eq] at h
  by_cases h1 : path.head? = some SEP
  · rw [if_pos h1] at h; cases h
  · rw [if_neg h1] at h
    by_cases h2 : ∀ c ∈ comps path, validUtf8 c = true
    · rw [if_pos h2] at h
      simp only at h
      have hv : ∀ c ∈ (comps path).filter (· ≠ CUR), ValidName c := fun c hc => filterCur_valid hc
      rw [RPath.stripPrefix, stripLoop_joinPath _ _ hv (fun c hc => comps_valid hc)] at h
      by_cases h3 : comps pre <+: (comps path).filter (· ≠ CUR)
      · obtain ⟨k, hk⟩ := h3
        rw [if_pos ⟨k, hk⟩] at h
        have hkk : ((comps path).filter (· ≠ CUR)).drop (comps pre).length = k := by rw [← hk]; simp
        rw [hkk] at h
        simp only at h
        refine ⟨k, hk.symm, ?_⟩
        have hkv : ∀ c ∈ k, ValidName c := fun c hc => hv c (by rw [← hk]; simp [hc])
        have hkc : ∀ c ∈ k, c ≠ CUR := fun c hc => by
          have : c ∈ (comps path).filter (· ≠ CUR) := by rw [← hk]; simp [hc]
          simpa using (List.mem_filter.mp this).2
        by_cases h4 : k = []
        · subst h4
          rw [if_pos ((joinPath_eq_nil hkv).mpr rfl)] at h
          cases h; exact Or.inl ⟨rfl, rfl⟩
        · rw [if_neg (fun e => h4 ((joinPath_eq_nil hkv).mp e))] at h
          right
          refine ⟨h4, ?_⟩
          cases hn : newFromPath env a.tick a.contents (namesOf env.cwd path) (joinPath k) follow with
          | error e => rw [hn] at h; cases h
          | ok rc =>
            rw [hn] at h
            obtain ⟨r, cs'⟩ := rc
            obtain ⟨q, x, g1, g2, g3, g4⟩ := newFromPath_inv Q W hn
            simp only at h
            have hep : entryPath r.path = k := by rw [g3.path, entryPath_joinPath hkv hkc]
            cases ha : a.creator.addEntry r with
            | mk st out =>
              rw [ha] at h
              cases out with
              | ok => cases h; exact ⟨q, x, r, g1, g2, g3, hep, ha, g4⟩
              | err e => cases h
              | panic => cases h
      · rw [if_neg h3] at h; cases h
    · rw [if_neg h2] at h; cases h

theorem Held.mono {cs cs' : List Bytes} {q : List Bytes} {o : Option Node} (h : Held s (packBytes cs) q o)
    (hc : ∀ a b, packBytes cs a = .found b → packBytes cs' a = .found b) : Held s (packBytes cs') q o := by
  rcases h with h | h
  · exact Or.inl (h.mono hc)
  · exact Or.inr h

theorem StoredAs.unique {path pre : Bytes} {k k' : List Bytes} (h : StoredAs path pre k) (h' : StoredAs path pre k') : k = k' := by
  unfold StoredAs at h h'
  rw [h] at h'
  exact List.append_cancel_left h'

theorem Archived.special {bytes : ContentAddr → GetBytes} {q : List Bytes} (h : Archived s bytes q none) : s.Special q := by
  unfold Archived at h
  cases hx : s.fs.nodes q with
  | none => rw [hx] at h; exact h.elim
  | some x =>
    rw [hx] at h
    cases x with
    | dir t => cases h
    | link t u => cases h
    | file i =>
      simp only at h
      split at h
      · rename_i hs; exact ⟨i, hx, hs⟩
      · obtain ⟨a, h, _⟩ := h; cases h

theorem Archived.not_special {bytes : ContentAddr → GetBytes} {q : List Bytes} {n : Node} (h : Archived s bytes q (some n)) : ¬ s.Special q := by
  rintro ⟨i, hx, hs⟩
  unfold Archived at h
  rw [hx] at h
  simp only [hs, if_true] at h
  cases h

/-- One accepted add, in terms of maps. -/
theorem Adder.addEntryFromPath_spec (Q : Quiet env s) (W : s.WF) {pre : RPath} {a a' : Adder} {path : Bytes} {follow : Bool}
    {rs : List AddReq} {m : PathMap} (hrun : Creator.new.run rs = some a.creator) (hm : SpecRun PathMap.empty rs m)
    (h : a.addEntryFromPath env pre path follow = (a', .ok)) :
    ∃ rs' m', Creator.new.run rs' = some a'.creator ∧ SpecRun PathMap.empty rs' m' ∧
      (∀ c b, packBytes a.contents c = .found b → packBytes a'.contents c = .found b) ∧
      AfterAdding s env.cwd pre (packBytes a'.contents) [(path, follow)] m m' := by
  obtain ⟨k, hk, h⟩ := Adder.addEntryFromPath_ok Q W h
  rcases h with ⟨rfl, rfl⟩ | ⟨hne, q, x, r, g1, g2, g3, g4, g5, g6⟩
  · refine ⟨rs, m, hrun, hm, fun _ _ h => h, fun _ _ h => h, ?_, fun z n h => Or.inl h⟩
    intro y hy
    simp only [List.mem_cons, List.not_mem_nil, or_false] at hy
    subst hy
    exact ⟨[], hk, fun h => absurd rfl h⟩
  · obtain ⟨m', s1, s2⟩ := add_spec hrun hm r
    rw [g5] at s1 s2
    have hm' := s2 (by simp)
    have hkeep : ∀ z n, m z = some n → m' z = some n := fun z n hz => s1.keeps (by simp) hz
    obtain ⟨ko, hko, harch⟩ := g3.kind
    refine ⟨rs ++ [r], m', ?_, hm', g6, hkeep, ?_, ?_⟩
    · rw [Creator.run_append, hrun]
      simp [Creator.run, g5]
    · intro y hy
      simp only [List.mem_cons, List.not_mem_nil, or_false] at hy
      subst hy
      refine ⟨k, hk, fun _ => ⟨q, g1, by simp [Src.Has, g2], ?_, ?_⟩⟩
      · intro hsp
        cases s1 with
        | ignored h1 h2 =>
          rw [hko] at h2; cases h2
          exact absurd harch.special hsp
        | sameDir n h1 h2 h3 h4 h5 h6 =>
          rw [hko] at h4; cases h4
          right
          rw [g4] at h5
          have : ∃ t, s.fs.nodes q = some (.dir t) := by
            unfold Archived at harch
            rw [g2] at harch ⊢
            cases x with
            | dir t => exact ⟨t, rfl⟩
            | link t u => simp at harch
            | file i =>
              simp only [Option.map_some] at harch
              split at harch
              · cases harch
              · obtain ⟨_, e, _⟩ := harch; simp at e
          obtain ⟨t, ht⟩ := this
          exact ⟨t, n, ht, h5, h6⟩
        | added k' h1 h2 h3 h4 h5 =>
          rw [hko] at h4; cases h4
          left
          rw [g4]
          simpa [setNode] using harch
      · intro z hz
        obtain ⟨m0, P, hs0, R⟩ := run_rel (rs := rs ++ [r]) (st := a'.creator) (by rw [Creator.run_append, hrun]; simp [Creator.run, g5])
        have := hs0.det hm'; subst this
        cases s1 with
        | ignored h1 h2 =>
          rw [g4] at h1
          cases hz' : m z with
          | some n =>
            refine ⟨n, by simp [withParents, hz'], ?_⟩
            cases hd : n.isDir with
            | true => rfl
            | false => exact absurd ⟨z, n, hz, hz', hd⟩ h1
          | none => exact ⟨defaultDir, by simp [withParents, hz', g4, hz], rfl⟩
        | sameDir n h1 h2 h3 h4 h5 h6 =>
          rw [g4] at h5
          exact R.wf.ancestors k n z h5 hz
        | added k' h1 h2 h3 h4 h5 =>
          refine R.wf.ancestors k ⟨r.info, k'⟩ z (by rw [g4]; simp [setNode]) hz
    · intro z n hz
      cases hmz : m z with
      | some n' => left; rw [← hz, hkeep z n' hmz]
      | none =>
        right
        refine ⟨_, List.mem_singleton.mpr rfl, k, q, hk, g1, ?_⟩
        cases s1 with
        | ignored h1 h2 =>
          simp only [withParents, hmz, g4] at hz
          split at hz
          · rename_i hp; exact Or.inl hp
          · cases hz
        | sameDir n h1 h2 h3 h4 h5 h6 => rw [hmz] at hz; cases hz
        | added k' h1 h2 h3 h4 h5 =>
          rw [hko] at h4; cases h4
          simp only [setNode, g4] at hz
          split at hz
          · rename_i e
            refine Or.inr ⟨e, hne, Archived.not_special harch⟩
          · simp only [withParents, hmz] at hz
            split at hz
            · rename_i hp; exact Or.inl hp
            · cases hz

/-- Many accepted adds. -/
theorem Adder.addAll_spec (Q : Quiet env s) (W : s.WF) {pre : RPath} : ∀ (L : List (Bytes × Bool)) {a a' : Adder}
    {rs : List AddReq} {m : PathMap}, Creator.new.run rs = some a.creator → SpecRun PathMap.empty rs m →
    a.addAll env pre L = (a', .ok) →
    ∃ rs' m', Creator.new.run rs' = some a'.creator ∧ SpecRun PathMap.empty rs' m' ∧
      (∀ c b, packBytes a.contents c = .found b → packBytes a'.contents c = .found b) ∧
      AfterAdding s env.cwd pre (packBytes a'.contents) L m m' := by
  intro L
  induction L with
  | nil =>
    intro a a' rs m hrun hm h
    cases h
    exact ⟨rs, m, hrun, hm, fun _ _ h => h, fun _ _ h => h, fun x hx => (by cases hx), fun z n h => Or.inl h⟩
  | cons x L ih =>
    intro a a' rs m hrun hm h
    rw [Adder.addAll] at h
    cases h1 : a.addEntryFromPath env pre x.1 x.2 with
    | mk a1 o =>
      rw [h1] at h
      cases o with
      | ok =>
        obtain ⟨rs1, m1, k1, k2, k3, k4⟩ := Adder.addEntryFromPath_spec Q W hrun hm h1
        obtain ⟨rs', m', g1, g2, g3, g4⟩ := ih k1 k2 h
        refine ⟨rs', m', g1, g2, fun c b hb => g3 c b (k3 c b hb), fun z n hz => g4.keeps z n (k4.keeps z n hz), ?_, ?_⟩
        · intro y hy
          simp only [List.mem_cons] at hy
          rcases hy with rfl | hy
          · obtain ⟨k, e1, e2⟩ := k4.held _ (List.mem_singleton.mpr rfl)
            refine ⟨k, e1, fun hne => ?_⟩
            obtain ⟨q, e3, e4, e5, e6⟩ := e2 hne
            refine ⟨q, e3, e4, fun hsp => ?_, fun z hz => ?_⟩
            · have := e5 hsp
              rcases this with this | ⟨t, n, f1, f2, f3⟩
              · cases hmk : m1 k with
                | none => rw [hmk] at this; exact absurd this.special hsp
                | some n => rw [g4.keeps k n hmk]; rw [hmk] at this; exact Or.inl (this.mono g3)
              · exact Or.inr ⟨t, n, f1, g4.keeps k n f2, f3⟩
            · obtain ⟨n, f1, f2⟩ := e6 z hz
              exact ⟨n, g4.keeps z n f1, f2⟩
          · exact g4.held y hy
        · intro z n hz
          rcases g4.only z n hz with hz | ⟨y, hy, hh⟩
          · rcases k4.only z n hz with hz | ⟨y, hy, hh⟩
            · exact Or.inl hz
            · simp only [List.mem_cons, List.not_mem_nil, or_false] at hy
              subst hy
              exact Or.inr ⟨_, by simp, hh⟩
          · exact Or.inr ⟨y, by simp [hy], hh⟩
      | path e => cases h
      | notInPrefix => cases h
      | host e => cases h
      | add e => cases h
      | panic => cases h

end Arx
