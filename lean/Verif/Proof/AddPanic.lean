import Verif.Proof.AddIff
import Verif.Spec.CreateCrash
/-!
# When adding a path panics
-/
namespace Arx

variable {s : Src} {env : CEnv}

theorem Adder.addEntryFromPath_panic (Q : Quiet env s) (W : s.WF) {pre : RPath} {a : Adder} {path : Bytes} {follow : Bool}
    (h : (a.addEntryFromPath env pre path follow).2 = .panic) :
    path.head? ≠ some SEP ∧ (∀ c ∈ comps path, validUtf8 c = true) ∧ ∃ k, StoredAs path pre k ∧ k ≠ [] ∧
      ∃ q, s.fs.resolve follow (namesOf env.cwd path) = .ok (.found q) := by
  rw [Adder.addEntryFromPath, fromPathBuf_eq] at h
  by_cases h1 : path.head? = some SEP
  · rw [if_pos h1] at h; cases h
  · rw [if_neg h1] at h
    refine ⟨h1, ?_⟩
    by_cases h2 : ∀ c ∈ comps path, validUtf8 c = true
    · rw [if_pos h2] at h
      refine ⟨h2, ?_⟩
      simp only at h
      have hv : ∀ c ∈ (comps path).filter (· ≠ CUR), ValidName c := fun c hc => filterCur_valid hc
      rw [RPath.stripPrefix, stripLoop_joinPath _ _ hv (fun c hc => comps_valid hc)] at h
      by_cases h3 : comps pre <+: (comps path).filter (· ≠ CUR)
      · obtain ⟨k, hk⟩ := h3
        rw [if_pos ⟨k, hk⟩] at h
        have hkk : ((comps path).filter (· ≠ CUR)).drop (comps pre).length = k := by rw [← hk]; simp
        rw [hkk] at h
        simp only at h
        have hkv : ∀ c ∈ k, ValidName c := fun c hc => hv c (by rw [← hk]; simp [hc])
        by_cases h4 : k = []
        · subst h4
          rw [if_pos ((joinPath_eq_nil hkv).mpr rfl)] at h
          cases h
        · rw [if_neg (fun e => h4 ((joinPath_eq_nil hkv).mp e))] at h
          refine ⟨k, hk.symm, h4, ?_⟩
          cases hn : newFromPath env a.tick a.contents (namesOf env.cwd path) (joinPath k) follow with
          | error e => rw [hn] at h; cases h
          | ok rc =>
            obtain ⟨r, cs'⟩ := rc
            obtain ⟨q, x, g1, _⟩ := newFromPath_inv Q W hn
            exact ⟨q, g1⟩
      · rw [if_neg h3] at h; cases h
    · rw [if_neg h2] at h; cases h

/-- Adding the next path panics exactly if it is nameless and not below a file or link added before. -/
theorem Adder.addEntryFromPath_panics_iff (Q : Quiet env s) (W : s.WF) {pre : RPath} {a : Adder} {done : List (Bytes × Bool)}
    (h : Adder.new.addAll env pre done = (a, .ok)) (x : Bytes × Bool) :
    (a.addEntryFromPath env pre x.1 x.2).2 = .panic ↔
      ∃ u, Nameless s env.cwd pre x u ∧ ∀ y ∈ done, ∀ v, OffersOne s env.cwd pre y v → s.Leaf v.2 → v.1 <+: u.1 → v.1 = u.1 := by
  obtain ⟨rs, m, hrun, hm, _, haft⟩ := Adder.addAll_spec Q W done (a := Adder.new) (rs := []) (m := PathMap.empty) rfl (.nil _) h
  have hmap := haft.some_iff
  have main : x.1.head? ≠ some SEP → (∀ c ∈ comps x.1, validUtf8 c = true) → ∀ k q, StoredAs x.1 pre k → k ≠ [] →
      s.fs.resolve x.2 (namesOf env.cwd x.1) = .ok (.found q) →
      ((a.addEntryFromPath env pre x.1 x.2).2 = .panic ↔ ¬ s.Special q ∧ k.getLast? = some PARENT ∧
        ∀ y ∈ done, ∀ v, OffersOne s env.cwd pre y v → s.Leaf v.2 → v.1 <+: k → v.1 = k) := by
    intro hrel hutf k q hk hne hq
    obtain ⟨xx, hxx, hl⟩ := W.toWF.resolve_found hq
    have hv : ∀ c ∈ (comps x.1).filter (· ≠ CUR), ValidName c := fun c hc => filterCur_valid hc
    have hk' := hk
    unfold StoredAs at hk'
    have hkv : ∀ c ∈ k, ValidName c := fun c hc => hv c (by rw [hk']; simp [hc])
    have hkc : ∀ c ∈ k, c ≠ CUR := fun c hc => by
      have : c ∈ (comps x.1).filter (· ≠ CUR) := by rw [hk']; simp [hc]
      simpa using (List.mem_filter.mp this).2
    obtain ⟨r, cs', hn, hreq, _⟩ : ∃ r cs', newFromPath env a.tick a.contents (namesOf env.cwd x.1) (joinPath k) x.2 = .ok (r, cs') ∧
        ReqFor s cs' q (joinPath k) r ∧ ∀ a' b, packBytes a.contents a' = .found b → packBytes cs' a' = .found b := by
      cases hf : x.2 with
      | false => rw [hf] at hq; exact newFromPath_plain Q W _ _ _ hq hxx
      | true => rw [hf] at hq hl; exact newFromPath_follow Q W _ _ _ hq hxx (hl rfl)
    have hep : entryPath r.path = k := by rw [hreq.path, entryPath_joinPath hkv hkc]
    have heq : (a.addEntryFromPath env pre x.1 x.2).2 = .panic ↔ (a.creator.addEntry r).2 = .panic := by
      rw [Adder.addEntryFromPath, fromPathBuf_eq, if_neg hrel, if_pos hutf]
      simp only
      rw [RPath.stripPrefix, stripLoop_joinPath _ _ hv (fun c hc => comps_valid hc), if_pos ⟨k, hk'.symm⟩]
      have hkk : ((comps x.1).filter (· ≠ CUR)).drop (comps pre).length = k := by rw [hk']; simp
      rw [hkk]
      simp only
      rw [if_neg (fun e => hne ((joinPath_eq_nil hkv).mp e)), hn]
      simp only
      cases a.creator.addEntry r with
      | mk c o => cases o <;> simp
    rw [heq, C49_panics_iff hrun hm r, hep]
    obtain ⟨ko, hko, harch⟩ := hreq.kind
    have hblock : Blocked m k ↔ ∃ y ∈ done, ∃ u, OffersOne s env.cwd pre y u ∧ s.Leaf u.2 ∧ u.1 <+: k ∧ u.1 ≠ k := by
      constructor
      · rintro ⟨z, n, hz, hmz, hd⟩
        obtain ⟨y, hy, u, hu, rfl, hlf⟩ := (hmap z).2.mp ⟨n, hmz, hd⟩
        exact ⟨y, hy, u, hu, hlf, hz.2.2, hz.2.1⟩
      · rintro ⟨y, hy, u, hu, hlf, h1, h2⟩
        obtain ⟨n, hmz, hd⟩ := (hmap u.1).2.mpr ⟨y, hy, u, hu, rfl, hlf⟩
        exact ⟨u.1, n, ⟨hu.2.1, h2, h1⟩, hmz, hd⟩
    have hkind : (∃ kd, r.kind = .ok (some kd)) ↔ ¬ s.Special q := by
      rw [hko]
      cases ko with
      | none => exact ⟨fun ⟨_, e⟩ => by (cases e), fun e => absurd harch.special e⟩
      | some kd => exact ⟨fun _ => harch.not_special, fun _ => ⟨kd, rfl⟩⟩
    rw [hkind, hblock]
    constructor
    · rintro ⟨h1, h2, h3⟩
      refine ⟨h1, h3.resolve_left hne, fun y hy v hv hl hp => ?_⟩
      exact Classical.byContradiction fun e => h2 ⟨y, hy, v, hv, hl, hp, e⟩
    · rintro ⟨h1, h2, h3⟩
      exact ⟨h1, fun ⟨y, hy, v, hv, hl, hp, e⟩ => e (h3 y hy v hv hl hp), Or.inr h2⟩
  constructor
  · intro hp
    obtain ⟨h1, h2, k, h3, h4, q, h5⟩ := Adder.addEntryFromPath_panic Q W hp
    obtain ⟨g1, g2, g3⟩ := (main h1 h2 k q h3 h4 h5).mp hp
    exact ⟨(k, q), ⟨h1, h2, ⟨h3, h4, h5⟩, g1, g2⟩, g3⟩
  · rintro ⟨⟨k, q⟩, ⟨h1, h2, ⟨h3, h4, h5⟩, g1, g2⟩, g3⟩
    exact (main h1 h2 k q h3 h4 h5).mpr ⟨g1, g2, g3⟩

/-- Adding a list of paths panics exactly if some path is nameless, not below a file or link added before, and all before
can be added. -/
theorem Adder.addAll_panics_iff (Q : Quiet env s) (W : s.WF) {pre : RPath} (L : List (Bytes × Bool)) :
    (Adder.new.addAll env pre L).2 = .panic ↔ ∃ done x rest u, L = done ++ x :: rest ∧
      (∀ y ∈ done, Archivable s env.cwd pre y) ∧ done.Pairwise (NoClash s env.cwd pre) ∧ Nameless s env.cwd pre x u ∧
      ∀ y ∈ done, ∀ v, OffersOne s env.cwd pre y v → s.Leaf v.2 → v.1 <+: u.1 → v.1 = u.1 := by
  constructor
  · have key : ∀ (rest done : List (Bytes × Bool)) (a : Adder), Adder.new.addAll env pre done = (a, .ok) →
        (a.addAll env pre rest).2 = .panic → ∃ l x r u, done ++ rest = l ++ x :: r ∧ (Adder.new.addAll env pre l).2 = .ok ∧
          Nameless s env.cwd pre x u ∧ ∀ y ∈ l, ∀ v, OffersOne s env.cwd pre y v → s.Leaf v.2 → v.1 <+: u.1 → v.1 = u.1 := by
      intro rest
      induction rest with
      | nil => intro done a _ h; cases h
      | cons x rest ih =>
        intro done a h hp
        have hstep := Adder.addEntryFromPath_panics_iff Q W h x
        rw [Adder.addAll] at hp
        cases hx : a.addEntryFromPath env pre x.1 x.2 with
        | mk a1 o =>
          rw [hx] at hstep hp
          cases o with
          | ok =>
            have hd : Adder.new.addAll env pre (done ++ [x]) = (a1, .ok) := by
              rw [Adder.addAll_append, h]
              simp only [Adder.addAll, hx]
            obtain ⟨l, y, r, u, e, rest'⟩ := ih (done ++ [x]) a1 hd hp
            exact ⟨l, y, r, u, by simpa using e, rest'⟩
          | panic =>
            obtain ⟨u, h1, h2⟩ := hstep.mp rfl
            exact ⟨done, x, rest, u, rfl, by rw [h], h1, h2⟩
          | path e => cases hp
          | notInPrefix => cases hp
          | host e => cases hp
          | add e => cases hp
    intro h
    obtain ⟨l, x, r, u, e, h1, h2⟩ := key L [] Adder.new rfl h
    obtain ⟨k1, k2⟩ := (Adder.addAll_iff Q W l).mp h1
    exact ⟨l, x, r, u, e, k1, k2, h2⟩
  · rintro ⟨done, x, rest, u, rfl, h1, h2, h3⟩
    have hok := (Adder.addAll_iff (env := env) Q W done).mpr ⟨h1, h2⟩
    rw [Adder.addAll_append]
    cases hd : Adder.new.addAll env pre done with
    | mk a o =>
      rw [hd] at hok
      simp only at hok
      subst hok
      have := (Adder.addEntryFromPath_panics_iff Q W hd x).mpr ⟨u, h3⟩
      simp only [Adder.addAll]
      revert this
      cases a.addEntryFromPath env pre x.1 x.2 with
      | mk a1 o => intro h; simp only at h; subst h; rfl

end Arx
