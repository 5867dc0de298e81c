import Verif.Props.Walk
/-!
# Histories in which every add is accepted
-/
namespace Arx

/-- Every add of `rs` is accepted, leading from `st` to the last argument. -/
inductive Accepts : Creator → List AddReq → Creator → Prop
  | nil (st : Creator) : Accepts st [] st
  | cons {st st1 st2 : Creator} {r : AddReq} {rs : List AddReq} : st.addEntry r = (st1, .ok) → Accepts st1 rs st2 → Accepts st (r :: rs) st2

theorem Accepts.run {st st' : Creator} {rs : List AddReq} (h : Accepts st rs st') : st.run rs = some st' := by
  induction h with
  | nil st => rfl
  | cons h1 _ ih => simp only [Creator.run, h1, ih]

theorem Accepts.append {st st1 st2 : Creator} {rs ss : List AddReq} (h1 : Accepts st rs st1) (h2 : Accepts st1 ss st2) :
    Accepts st (rs ++ ss) st2 := by
  induction h1 with
  | nil st => exact h2
  | cons h _ ih => exact .cons h (ih h2)

theorem Accepts.split {st st' : Creator} {ss : List AddReq} : ∀ {rs : List AddReq}, Accepts st (rs ++ ss) st' →
    ∃ st1, Accepts st rs st1 ∧ Accepts st1 ss st' := by
  intro rs
  induction rs generalizing st with
  | nil => intro h; exact ⟨st, .nil _, h⟩
  | cons r rs ih =>
    intro h
    cases h with
    | cons h1 h2 =>
      obtain ⟨st1, g1, g2⟩ := ih h2
      exact ⟨st1, .cons h1 g1, g2⟩

/-- Adds never remove or change an entry. -/
theorem SpecAdd.keeps {m m' : PathMap} {r : AddReq} {o : AddOut} (h : SpecAdd m r m' o) (ho : o ≠ .panic) {p : List Bytes} {n : Node}
    (hp : m p = some n) : m' p = some n := by
  have hw : withParents m (entryPath r.path) p = some n := by simp only [withParents, hp]
  cases h with
  | blocked _ => exact hp
  | kindErr u _ _ => exact hw
  | ignored _ _ => exact hw
  | noName => exact absurd rfl ho
  | sameDir => exact hp
  | «exists» => exact hp
  | added k _ _ _ _ hn =>
    simp only [setNode]
    split
    · rename_i e; rw [e, hn] at hp; cases hp
    · exact hw

theorem SpecRun.keeps {rs : List AddReq} : ∀ {m m' : PathMap}, SpecRun m rs m' → ∀ {p : List Bytes} {n : Node},
    m p = some n → m' p = some n := by
  intro m m' h
  induction h with
  | nil m => exact fun hp => hp
  | cons h1 h2 _ ih => exact fun hp => ih (h1.keeps h2 hp)

/-- What an accepted history leads to. -/
theorem Accepts.entry {pre post : List AddReq} {r : AddReq} {st : Creator} {k : Kind} {m : PathMap}
    (h : Accepts Creator.new (pre ++ r :: post) st) (hm : SpecRun PathMap.empty (pre ++ r :: post) m)
    (hk : r.kind = .ok (some k)) :
    entryPath r.path ≠ [] ∧
    (k ≠ .dir → m (entryPath r.path) = some ⟨r.info, k⟩) ∧
    (k = .dir → ∃ n, m (entryPath r.path) = some n ∧ n.isDir = true ∧
      ((∀ r' ∈ pre, ¬ entryPath r.path <+: entryPath r'.path) → n.info = r.info)) := by
  obtain ⟨st1, h1, h2⟩ := h.split
  obtain ⟨m1, paths1, hs1, R1⟩ := run_rel h1.run
  cases h2 with
  | @cons _ st2 _ _ _ hadd hpost =>
    obtain ⟨m2, hsa, hrel⟩ := R1.addEntry r
    rw [hadd] at hsa hrel
    obtain ⟨paths2, R2⟩ := hrel (by simp)
    obtain ⟨m3, paths3, hs3, _⟩ := Rel.run R2 hpost.run
    have hall : SpecRun PathMap.empty (pre ++ r :: post) m3 := hs1.append (.cons hsa (by simp) hs3)
    have := hall.det hm; subst this
    cases hsa with
    | ignored _ hk' => rw [hk] at hk'; cases hk'
    | sameDir n hb hne hl hk' hmn hd =>
      rw [hk] at hk'; cases hk'
      refine ⟨hne, fun h => absurd rfl h, fun _ => ⟨n, hs3.keeps hmn, hd, ?_⟩⟩
      intro hfirst
      rcases hs1.from_req _ n hmn with ⟨x, hx⟩ | ⟨r', hr', hp⟩
      · cases hx
      · exact absurd hp (hfirst r' hr')
    | added k' hb hne hl hk' hmn =>
      rw [hk] at hk'; cases hk'
      have hset : setNode (withParents m1 (entryPath r.path)) (entryPath r.path) ⟨r.info, k⟩ (entryPath r.path) = some ⟨r.info, k⟩ := by
        simp [setNode]
      refine ⟨hne, fun _ => hs3.keeps hset, ?_⟩
      rintro rfl
      exact ⟨_, hs3.keeps hset, rfl, fun _ => rfl⟩

/-- An entry that is not a directory comes from an add for exactly its path. -/
theorem SpecRun.nondir_from {rs : List AddReq} : ∀ {m m' : PathMap}, SpecRun m rs m' →
    ∀ p n, m' p = some n → n.isDir = false → m p = some n ∨ ∃ r ∈ rs, entryPath r.path = p ∧ r.kind = .ok (some n.kind) ∧ r.info = n.info := by
  intro m m' h
  induction h with
  | nil m => exact fun p n hp _ => Or.inl hp
  | @cons m m1 m2 r rs o h1 h2 h3 ih =>
    intro p n hp hd
    have hwp : withParents m (entryPath r.path) p = some n → m p = some n := by
      intro hx
      simp only [withParents] at hx
      cases hm : m p with
      | some k => rw [hm] at hx; simpa using hx
      | none =>
        rw [hm] at hx
        simp only at hx
        split at hx
        · cases hx; cases hd
        · cases hx
    rcases ih p n hp hd with h | ⟨r', hr', h⟩
    · cases h1 with
      | blocked _ => exact Or.inl h
      | kindErr u _ _ => exact Or.inl (hwp h)
      | ignored _ _ => exact Or.inl (hwp h)
      | noName => exact absurd rfl h2
      | sameDir => exact Or.inl h
      | «exists» => exact Or.inl h
      | added k _ _ _ hk hn =>
        simp only [setNode] at h
        split at h
        · rename_i e; cases h; exact Or.inr ⟨r, by simp, e.symm, hk, rfl⟩
        · exact Or.inl (hwp h)
    · exact Or.inr ⟨r', by simp [hr'], h⟩

/-- Two requests that do not get in each other's way. -/
def Compatible (r r' : AddReq) : Prop :=
  (r.kind ≠ .ok (some .dir) → ¬ entryPath r.path <+: entryPath r'.path) ∧
  (r'.kind ≠ .ok (some .dir) → ¬ entryPath r'.path <+: entryPath r.path)

/-- Requests with usable names that are compatible are all accepted. -/
theorem accepts_of_compatible {rs : List AddReq}
    (hk : ∀ r ∈ rs, ∃ k, r.kind = .ok (some k)) (hne : ∀ r ∈ rs, entryPath r.path ≠ [])
    (hl : ∀ r ∈ rs, (entryPath r.path).getLast? ≠ some PARENT) (hc : rs.Pairwise Compatible) :
    ∃ st, Accepts Creator.new rs st := by
  have key : ∀ (post pre : List AddReq) (st : Creator), pre ++ post = rs → Accepts Creator.new pre st →
      ∃ st', Accepts Creator.new rs st' := by
    intro post
    induction post with
    | nil => intro pre st e h; rw [List.append_nil] at e; subst e; exact ⟨st, h⟩
    | cons r post ih =>
      intro pre st e h
      have hr : r ∈ rs := by rw [← e]; simp
      obtain ⟨k, hkr⟩ := hk r hr
      obtain ⟨m, paths, hs, R⟩ := run_rel h.run
      have hcomp : ∀ r' ∈ pre, Compatible r' r := by
        intro r' hr'
        rw [← e] at hc
        exact (List.pairwise_append.mp hc).2.2 r' hr' r (by simp)
      have hok : (st.addEntry r).2 = .ok := by
        obtain ⟨m', hsa, _⟩ := R.addEntry r
        revert hsa
        generalize (st.addEntry r).2 = o
        intro hsa
        cases hsa with
        | blocked hb =>
          obtain ⟨q, n, hq, hmq, hd⟩ := hb
          rcases hs.nondir_from q n hmq hd with hx | ⟨r', hr', h1, h2, _⟩
          · cases hx
          · refine absurd ?_ ((hcomp r' hr').1 ?_)
            · rw [h1]; exact hq.2.2
            · rw [h2]; intro he; injection he with he; injection he with he; rw [Node.isDir, he] at hd; cases hd
        | kindErr u _ hku => rw [hkr] at hku; cases hku
        | ignored => rfl
        | noName m' k' _ _ h =>
          rcases h with h | h
          · exact absurd h (hne r hr)
          · exact absurd h (hl r hr)
        | sameDir => rfl
        | «exists» k' n e' _ _ _ hk' hmn hnd =>
          exfalso
          rw [hkr] at hk'; cases hk'
          by_cases hdk : k = .dir
          · subst hdk
            have hnd' : n.isDir = false := by simpa [Kind.isDir] using hnd
            rcases hs.nondir_from _ n hmn hnd' with hx | ⟨r', hr', h1, h2, _⟩
            · cases hx
            · refine absurd ?_ ((hcomp r' hr').1 ?_)
              · rw [h1]; exact List.prefix_refl _
              · rw [h2]; intro he; injection he with he; injection he with he; rw [Node.isDir, he] at hnd'; cases hnd'
          · rcases hs.from_req _ n hmn with ⟨x, hx⟩ | ⟨r', hr', hp⟩
            · cases hx
            · exact (hcomp r' hr').2 (by rw [hkr]; intro he; injection he with he; injection he with he; exact hdk he) hp
        | added => rfl
      refine ih (pre ++ [r]) (st.addEntry r).1 (by rw [← e]; simp) (h.append (.cons ?_ (.nil _)))
      rw [← hok]
  exact key rs [] _ rfl (.nil _)

end Arx
