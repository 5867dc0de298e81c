import Verif.Proof.AddList
import Verif.Spec.CreateOk
/-!
# When paths can be added
-/
namespace Arx

variable {s : Src} {env : CEnv}

theorem Adder.addAll_append {pre : RPath} : ∀ (L L' : List (Bytes × Bool)) (a : Adder),
    a.addAll env pre (L ++ L') = (match a.addAll env pre L with | (a, .ok) => a.addAll env pre L' | (a, e) => (a, e)) := by
  intro L
  induction L with
  | nil => intro L' a; rfl
  | cons x L ih =>
    intro L' a
    simp only [List.cons_append, Adder.addAll]
    cases a.addEntryFromPath env pre x.1 x.2 with
    | mk a1 o => cases o <;> simp only [ih]

theorem Held.leaf {bytes : ContentAddr → GetBytes} {q : List Bytes} {o : Option Node} (h : Held s bytes q o) (hs : ¬ s.Special q) :
    ∃ n, o = some n ∧ (n.isDir = false ↔ s.Leaf q) := by
  rcases h with h | ⟨t, n, h1, h2, h3⟩
  · unfold Archived at h
    cases hx : s.fs.nodes q with
    | none => rw [hx] at h; exact h.elim
    | some x =>
      rw [hx] at h
      cases x with
      | dir t => exact ⟨_, h, ⟨fun e => (by cases e), fun e => absurd hx (e.1 t)⟩⟩
      | link t u => exact ⟨_, h, ⟨fun _ => ⟨fun t => by rw [hx]; simp, hs⟩, fun _ => rfl⟩⟩
      | file i =>
        simp only at h
        split at h
        · rename_i hsp; exact absurd ⟨i, hx, hsp⟩ hs
        · obtain ⟨a, h, _⟩ := h
          exact ⟨_, h, ⟨fun _ => ⟨fun t => by rw [hx]; simp, hs⟩, fun _ => rfl⟩⟩
  · exact ⟨n, h2, ⟨fun e => (by rw [h3] at e; cases e), fun e => absurd h1 (e.1 t)⟩⟩

/-- What is in the archive after paths were added to an empty one. -/
theorem AfterAdding.some_iff {cwd : List Bytes} {pre : RPath} {bytes : ContentAddr → GetBytes} {L : List (Bytes × Bool)} {m : PathMap}
    (h : AfterAdding s cwd pre bytes L PathMap.empty m) (z : List Bytes) :
    ((∃ n, m z = some n) ↔ ∃ x ∈ L, ∃ u, OffersOne s cwd pre x u ∧ (ProperAncestor z u.1 ∨ (z = u.1 ∧ ¬ s.Special u.2))) ∧
    ((∃ n, m z = some n ∧ n.isDir = false) ↔ ∃ x ∈ L, ∃ u, OffersOne s cwd pre x u ∧ z = u.1 ∧ s.Leaf u.2) := by
  have held : ∀ x ∈ L, ∀ u, OffersOne s cwd pre x u →
      (¬ s.Special u.2 → Held s bytes u.2 (m u.1)) ∧ ∀ z, ProperAncestor z u.1 → ∃ n, m z = some n ∧ n.isDir = true := by
    intro x hx u ⟨h1, h2, h3⟩
    obtain ⟨k, e1, e2⟩ := h.held x hx
    have := StoredAs.unique h1 e1; subst this
    obtain ⟨q, e3, _, e4, e5⟩ := e2 h2
    rw [h3] at e3; cases e3
    exact ⟨e4, e5⟩
  have only : ∀ n, m z = some n → ∃ x ∈ L, ∃ u, OffersOne s cwd pre x u ∧ (ProperAncestor z u.1 ∨ (z = u.1 ∧ ¬ s.Special u.2)) := by
    intro n hz
    rcases h.only z n hz with hz | ⟨x, hx, k, q, e1, e2, e3⟩
    · cases hz
    · have hk : k ≠ [] := by
        rcases e3 with e3 | e3
        · rintro rfl; exact e3.2.1 (List.prefix_nil.mp e3.2.2)
        · exact e3.2.1
      exact ⟨x, hx, (k, q), ⟨e1, hk, e2⟩, e3.imp id (fun e => ⟨e.1, e.2.2⟩)⟩
  refine ⟨⟨fun ⟨n, hz⟩ => only n hz, ?_⟩, ⟨?_, ?_⟩⟩
  · rintro ⟨x, hx, u, hu, hz | ⟨rfl, hs⟩⟩
    · obtain ⟨n, hn, _⟩ := (held x hx u hu).2 z hz; exact ⟨n, hn⟩
    · obtain ⟨n, hn, _⟩ := ((held x hx u hu).1 hs).leaf hs; exact ⟨n, hn⟩
  · rintro ⟨n, hz, hd⟩
    obtain ⟨x, hx, u, hu, h' | ⟨rfl, hs⟩⟩ := only n hz
    · obtain ⟨n', hn', hd'⟩ := (held x hx u hu).2 z h'
      rw [hz] at hn'; cases hn'; rw [hd] at hd'; cases hd'
    · obtain ⟨n', hn', hi⟩ := ((held x hx u hu).1 hs).leaf hs
      rw [hz] at hn'; cases hn'
      exact ⟨x, hx, u, hu, rfl, hi.mp hd⟩
  · rintro ⟨x, hx, u, hu, rfl, hl⟩
    obtain ⟨n, hn, hi⟩ := ((held x hx u hu).1 hl.2).leaf hl.2
    exact ⟨n, hn, hi.mpr hl⟩

/-- No offer of one clashes with an offer of the other. -/
def NoClash (s : Src) (cwd : List Bytes) (pre : RPath) (x y : Bytes × Bool) : Prop :=
  ∀ u v, OffersOne s cwd pre x u → OffersOne s cwd pre y v → ¬ Clash s u v ∧ ¬ Clash s v u

/-- The next path is accepted exactly if it can be archived and clashes with none before. -/
theorem Adder.addEntryFromPath_iff (Q : Quiet env s) (W : s.WF) {pre : RPath} {a : Adder} {done : List (Bytes × Bool)}
    (h : Adder.new.addAll env pre done = (a, .ok)) (x : Bytes × Bool) :
    (a.addEntryFromPath env pre x.1 x.2).2 = .ok ↔
      Archivable s env.cwd pre x ∧ ∀ y ∈ done, NoClash s env.cwd pre y x := by
  obtain ⟨rs, m, hrun, hm, _, haft⟩ := Adder.addAll_spec Q W done (a := Adder.new) (rs := []) (m := PathMap.empty) rfl (.nil _) h
  have hmap := haft.some_iff
  -- everything about a path that leads to something
  have main : x.1.head? ≠ some SEP → (∀ c ∈ comps x.1, validUtf8 c = true) → ∀ k q, StoredAs x.1 pre k → k ≠ [] →
      s.fs.resolve x.2 (namesOf env.cwd x.1) = .ok (.found q) →
      ((a.addEntryFromPath env pre x.1 x.2).2 = .ok ↔
        (s.Special q ∨ k.getLast? ≠ some PARENT) ∧ ∀ y ∈ done, NoClash s env.cwd pre y x) := by
    intro hrel hutf k q hk hne hq
    have hoff : ∀ v, OffersOne s env.cwd pre x v ↔ v = (k, q) := by
      intro v
      constructor
      · rintro ⟨e1, e2, e3⟩
        have := StoredAs.unique e1 hk
        rw [hq] at e3; cases e3
        exact Prod.ext this rfl
      · rintro rfl; exact ⟨hk, hne, hq⟩
    obtain ⟨xx, hxx, hl⟩ := W.toWF.resolve_found hq
    have hv : ∀ c ∈ (comps x.1).filter (· ≠ CUR), ValidName c := fun c hc => filterCur_valid hc
    have hk' := hk
    unfold StoredAs at hk'
    have hkv : ∀ c ∈ k, ValidName c := fun c hc => hv c (by rw [hk']; simp [hc])
    have hkc : ∀ c ∈ k, c ≠ CUR := fun c hc => by
      have : c ∈ (comps x.1).filter (· ≠ CUR) := by rw [hk']; simp [hc]
      simpa using (List.mem_filter.mp this).2
    obtain ⟨r, cs', hn, hreq, _⟩ : ∃ r cs', newFromPath env a.tick a.contents (namesOf env.cwd x.1) (joinPath k) x.2 = .ok (r, cs') ∧
        ReqFor s cs' q (joinPath k) r ∧ ∀ a' b, packBytes a.contents a' = .found b → packBytes cs' a' = .found b := by
      cases hf : x.2 with
      | false => rw [hf] at hq; exact newFromPath_plain Q W _ _ _ hq hxx
      | true => rw [hf] at hq hl; exact newFromPath_follow Q W _ _ _ hq hxx (hl rfl)
    have hep : entryPath r.path = k := by rw [hreq.path, entryPath_joinPath hkv hkc]
    have heq : (a.addEntryFromPath env pre x.1 x.2).2 = .ok ↔ (a.creator.addEntry r).2 = .ok := by
      rw [Adder.addEntryFromPath, fromPathBuf_eq, if_neg hrel, if_pos hutf]
      simp only
      rw [RPath.stripPrefix, stripLoop_joinPath _ _ hv (fun c hc => comps_valid hc), if_pos ⟨k, hk'.symm⟩]
      have hkk : ((comps x.1).filter (· ≠ CUR)).drop (comps pre).length = k := by rw [hk']; simp
      rw [hkk]
      simp only
      rw [if_neg (fun e => hne ((joinPath_eq_nil hkv).mp e)), hn]
      simp only
      cases a.creator.addEntry r with
      | mk c o => cases o <;> simp
    rw [heq]
    obtain ⟨ko, hko, harch⟩ := hreq.kind
    have hblock : Blocked m k ↔ ∃ y ∈ done, ∃ u, OffersOne s env.cwd pre y u ∧ s.Leaf u.2 ∧ u.1 <+: k ∧ u.1 ≠ k := by
      constructor
      · rintro ⟨z, n, hz, hmz, hd⟩
        obtain ⟨y, hy, u, hu, rfl, hlf⟩ := (hmap z).2.mp ⟨n, hmz, hd⟩
        exact ⟨y, hy, u, hu, hlf, hz.2.2, hz.2.1⟩
      · rintro ⟨y, hy, u, hu, hlf, h1, h2⟩
        obtain ⟨n, hmz, hd⟩ := (hmap u.1).2.mpr ⟨y, hy, u, hu, rfl, hlf⟩
        exact ⟨u.1, n, ⟨hu.2.1, h2, h1⟩, hmz, hd⟩
    -- the clashes
    have hnc : (∀ y ∈ done, NoClash s env.cwd pre y x) ↔ ¬ Blocked m k ∧
        (¬ s.Special q → ¬ ∃ n, m k = some n ∧ n.isDir = false) ∧ (s.Leaf q → ¬ ∃ n, m k = some n) := by
      constructor
      · intro hcl
        refine ⟨fun hb => ?_, fun hsp hmk => ?_, fun hlf hmk => ?_⟩
        · obtain ⟨y, hy, u, hu, hlf, h1, h2⟩ := hblock.mp hb
          exact (hcl y hy u _ hu ((hoff _).mpr rfl)).1 ⟨hlf, Or.inl ⟨h1, h2⟩⟩
        · obtain ⟨y, hy, u, hu, e, hlf⟩ := (hmap k).2.mp hmk
          exact (hcl y hy u _ hu ((hoff _).mpr rfl)).1 ⟨hlf, Or.inr ⟨e.symm, hsp⟩⟩
        · obtain ⟨y, hy, u, hu, e⟩ := (hmap k).1.mp hmk
          refine (hcl y hy u _ hu ((hoff _).mpr rfl)).2 ⟨hlf, ?_⟩
          rcases e with e | ⟨e, hs⟩
          · exact Or.inl ⟨e.2.2, e.2.1⟩
          · exact Or.inr ⟨e, hs⟩
      · rintro ⟨h1, h2, h3⟩ y hy u v hu hv
        have := (hoff v).mp hv; subst this
        constructor
        · rintro ⟨hlf, ⟨e1, e2⟩ | ⟨e, hs⟩⟩
          · exact h1 (hblock.mpr ⟨y, hy, u, hu, hlf, e1, e2⟩)
          · exact h2 hs ((hmap k).2.mpr ⟨y, hy, u, hu, e.symm, hlf⟩)
        · rintro ⟨hlf, ⟨e1, e2⟩ | ⟨e, hs⟩⟩
          · exact h3 hlf ((hmap k).1.mpr ⟨y, hy, u, hu, Or.inl ⟨hne, e2, e1⟩⟩)
          · exact h3 hlf ((hmap k).1.mpr ⟨y, hy, u, hu, Or.inr ⟨e, hs⟩⟩)
    rw [hnc]
    cases ko with
    | none =>
      have hsp : s.Special q := harch.special
      have hlf : ¬ s.Leaf q := fun hlf => hlf.2 hsp
      obtain ⟨m', hs, _⟩ := add_spec hrun hm r
      constructor
      · intro hok
        rw [hok] at hs
        refine ⟨Or.inl hsp, ?_, fun h => absurd hsp h, fun h => absurd h hlf⟩
        cases hs with
        | ignored h1 h2 => rwa [hep] at h1
        | sameDir n h1 h2 h3 h4 => rw [hko] at h4; cases h4
        | added k' h1 h2 h3 h4 => rw [hko] at h4; cases h4
      · rintro ⟨_, hb, _⟩
        generalize (a.creator.addEntry r).2 = o at hs
        cases hs with
        | ignored h1 h2 => rfl
        | blocked h => rw [hep] at h; exact absurd h hb
        | kindErr u _ h => rw [hko] at h; cases h
        | noName _ k' _ h => rw [hko] at h; cases h
        | sameDir n h1 h2 h3 h4 => rfl
        | «exists» k' n e _ _ _ h4 => rw [hko] at h4; cases h4
        | added k' h1 h2 h3 h4 => rfl
    | some kd =>
      have hsp : ¬ s.Special q := harch.not_special
      obtain ⟨n0, hn0, hlf⟩ := Held.leaf (s := s) (Or.inl harch) hsp
      simp only [Option.map_some, Option.some.injEq] at hn0
      subst hn0
      have hlf' : s.Leaf q ↔ kd ≠ .dir := by
        rw [← hlf]; cases kd <;> simp [Node.isDir, Kind.isDir]
      by_cases hp : k.getLast? = some PARENT
      · have : (a.creator.addEntry r).2 ≠ .ok := by
          intro hok
          obtain ⟨m', hs, _⟩ := add_spec hrun hm r
          rw [hok] at hs
          cases hs with
          | ignored h1 h2 => rw [hko] at h2; cases h2
          | sameDir n h1 h2 h3 => rw [hep] at h3; exact h3 hp
          | added k' h1 h2 h3 => rw [hep] at h3; exact h3 hp
        constructor
        · exact fun h => absurd h this
        · rintro ⟨h | h, _⟩
          · exact absurd h hsp
          · exact absurd hp h
      · have := (C03_accepted_iff hrun hm r kd hko (by rw [hep]; exact hne) (by rw [hep]; exact hp)).1
        rw [this, hep]
        constructor
        · rintro ⟨h1, h2⟩
          refine ⟨Or.inr hp, h1, fun _ => ?_, fun hl => ?_⟩
          · rintro ⟨n, hn, hd⟩
            rcases h2 with h2 | ⟨_, n', hn', hd'⟩
            · rw [hn] at h2; cases h2
            · rw [hn] at hn'; cases hn'; rw [hd] at hd'; cases hd'
          · rintro ⟨n, hn⟩
            rcases h2 with h2 | ⟨e, _⟩
            · rw [hn] at h2; cases h2
            · exact (hlf'.mp hl) e
        · rintro ⟨_, h1, h2, h3⟩
          refine ⟨h1, ?_⟩
          cases hmk : m k with
          | none => exact Or.inl rfl
          | some n =>
            right
            have hkd : kd = .dir := Classical.byContradiction fun e => h3 (hlf'.mpr e) ⟨n, hmk⟩
            refine ⟨hkd, n, rfl, ?_⟩
            cases hd : n.isDir with
            | true => rfl
            | false => exact absurd ⟨n, hmk, hd⟩ (h2 hsp)
  constructor
  · intro hok
    have hok' : a.addEntryFromPath env pre x.1 x.2 = ((a.addEntryFromPath env pre x.1 x.2).1, .ok) := by rw [← hok]
    have hrel : x.1.head? ≠ some SEP := by
      intro e; rw [Adder.addEntryFromPath, fromPathBuf_eq, if_pos e] at hok; cases hok
    have hutf : ∀ c ∈ comps x.1, validUtf8 c = true := by
      refine Classical.byContradiction fun hn => ?_
      rw [Adder.addEntryFromPath, fromPathBuf_eq, if_neg hrel, if_neg hn] at hok; cases hok
    obtain ⟨k, hk, hcase⟩ := Adder.addEntryFromPath_ok Q W hok'
    rcases hcase with ⟨rfl, _⟩ | ⟨hne, q, y, r, g1, g2, _⟩
    · refine ⟨⟨hrel, hutf, [], hk, fun h => absurd rfl h⟩, fun y _ u v _ hv => ?_⟩
      exact absurd (StoredAs.unique hv.1 hk) hv.2.1
    · obtain ⟨k1, k2⟩ := (main hrel hutf k q hk hne g1).mp hok
      exact ⟨⟨hrel, hutf, k, hk, fun _ => ⟨q, g1, k1⟩⟩, k2⟩
  · rintro ⟨⟨hrel, hutf, k, hk, hq⟩, hcl⟩
    by_cases hne : k = []
    · subst hne
      rw [((C33_strip_prefix env pre a x.1 x.2).2.2 hrel hutf).2.1 hk]
    · obtain ⟨q, hq, hp⟩ := hq hne
      exact (main hrel hutf k q hk hne hq).mpr ⟨hp, hcl⟩

/-- Adding a list of paths succeeds exactly if each can be archived and no two clash. -/
theorem Adder.addAll_iff (Q : Quiet env s) (W : s.WF) {pre : RPath} (L : List (Bytes × Bool)) :
    (Adder.new.addAll env pre L).2 = .ok ↔
      (∀ x ∈ L, Archivable s env.cwd pre x) ∧ L.Pairwise (NoClash s env.cwd pre) := by
  have key : ∀ (rest done : List (Bytes × Bool)) (a : Adder), Adder.new.addAll env pre done = (a, .ok) →
      ((a.addAll env pre rest).2 = .ok ↔
        (∀ x ∈ rest, Archivable s env.cwd pre x ∧ ∀ y ∈ done, NoClash s env.cwd pre y x) ∧ rest.Pairwise (NoClash s env.cwd pre)) := by
    intro rest
    induction rest with
    | nil => intro done a _; simp [Adder.addAll]
    | cons x rest ih =>
      intro done a h
      have hstep := Adder.addEntryFromPath_iff Q W h x
      rw [Adder.addAll]
      cases hx : a.addEntryFromPath env pre x.1 x.2 with
      | mk a1 o =>
        rw [hx] at hstep
        by_cases ho : o = .ok
        · subst ho
          have hd : Adder.new.addAll env pre (done ++ [x]) = (a1, .ok) := by
            rw [Adder.addAll_append, h]
            simp only [Adder.addAll, hx]
          have := ih (done ++ [x]) a1 hd
          simp only
          rw [this]
          have hst := hstep.mp rfl
          constructor
          · rintro ⟨h1, h2⟩
            refine ⟨fun y hy => ?_, List.pairwise_cons.mpr ⟨fun y hy => (h1 y hy).2 x (by simp), h2⟩⟩
            rcases List.mem_cons.mp hy with rfl | hy
            · exact hst
            · exact ⟨(h1 y hy).1, fun z hz => (h1 y hy).2 z (by simp [hz])⟩
          · rintro ⟨h1, h2⟩
            obtain ⟨p1, p2⟩ := List.pairwise_cons.mp h2
            refine ⟨fun y hy => ⟨(h1 y (by simp [hy])).1, fun z hz => ?_⟩, p2⟩
            rcases List.mem_append.mp hz with hz | hz
            · exact (h1 y (by simp [hy])).2 z hz
            · rw [List.mem_singleton.mp hz]; exact p1 y hy
        · have hno : ¬ (Archivable s env.cwd pre x ∧ ∀ y ∈ done, NoClash s env.cwd pre y x) := fun e => ho (hstep.mpr e)
          constructor
          · intro hr
            exfalso
            cases o <;> simp_all
          · rintro ⟨h1, _⟩
            exact absurd (h1 x (by simp)) hno
  rw [key L [] Adder.new rfl]
  simp

end Arx
