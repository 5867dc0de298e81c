import Verif.Proof.AdderTree
/-!
# Adding a whole directory tree: requests and walk
-/
namespace Arx

variable {s : Src} {env : CEnv}

theorem Quiet.call (Q : Quiet env s) {α : Type} (t : Nat) (f : Src → Except HErr α) : env.call t f = f s := by
  simp [CEnv.call, Q.fault, Q.src]

/-- The request made for an entry of the source. -/
structure ReqFor (s : Src) (cs : List Bytes) (q : List Bytes) (arx : RPath) (r : AddReq) : Prop where
  path : r.path = arx
  kind : ∃ ko, r.kind = .ok ko ∧ Archived s (packBytes cs) q (ko.map (fun k => ⟨r.info, k⟩))

theorem Archived.mono {cs : List Bytes} {q : List Bytes} {o : Option Node} (h : Archived s (packBytes cs) q o)
    {cs' : List Bytes} (hc : ∀ a b, packBytes cs a = .found b → packBytes cs' a = .found b) : Archived s (packBytes cs') q o := by
  unfold Archived at h ⊢
  cases hx : s.fs.nodes q with
  | none => rw [hx] at h; exact h
  | some x =>
    rw [hx] at h
    cases x with
    | dir t => exact h
    | link t u => exact h
    | file i =>
      simp only at h ⊢
      split
      · rename_i hs; rw [if_pos hs] at h; exact h
      · rename_i hs
        rw [if_neg hs] at h
        obtain ⟨a, h1, h2⟩ := h
        exact ⟨a, h1, hc _ _ h2⟩

theorem ReqFor.mono {cs : List Bytes} {q : List Bytes} {arx : RPath} {r : AddReq} (h : ReqFor s cs q arx r)
    {cs' : List Bytes} (hc : ∀ a b, packBytes cs a = .found b → packBytes cs' a = .found b) : ReqFor s cs' q arx r :=
  ⟨h.path, by obtain ⟨ko, h1, h2⟩ := h.kind; exact ⟨ko, h1, h2.mono hc⟩⟩

/-- After `detect_kind` on a quiet source, reading yields what the metadata says. -/
theorem newFromPath_at (Q : Quiet env s) (W : s.WF) (t : Nat) (cs : List Bytes) {names q : List Bytes} {x : FNode} (arx : RPath)
    {follow : Bool}
    (hd : detectKind env t names follow = (s.statAt q).map (fun a => (names, a)))
    (hf : s.fs.resolve false names = .ok (.found q)) (hx : s.fs.nodes q = some x) :
    ∃ r cs', newFromPath env t cs names arx follow = .ok (r, cs') ∧ ReqFor s cs' q arx r ∧
      ∀ a b, packBytes cs a = .found b → packBytes cs' a = .found b := by
  unfold newFromPath
  rw [hd]
  cases x with
  | dir u =>
    simp only [Src.statAt, hx, Except.map]
    exact ⟨_, _, rfl, ⟨rfl, some .dir, rfl, by simp [Archived, hx, Src.info]⟩, fun _ _ h => h⟩
  | link target u =>
    simp only [Src.statAt, hx, Except.map, Q.call, Src.readLink, hf]
    exact ⟨_, _, rfl, ⟨rfl, some (.link target), rfl, by simp [Archived, hx, Src.info]⟩, fun _ _ h => h⟩
  | file i =>
    simp only [Src.statAt, hx, Except.map]
    cases hs : s.special i with
    | true =>
      simp only [if_true]
      exact ⟨_, _, rfl, ⟨rfl, none, rfl, by simp [Archived, hx, hs]⟩, fun _ _ h => h⟩
    | false =>
      have h2 : s.fs.resolve true names = .ok (.found q) := by
        obtain ⟨a, b⟩ := FS.resolve_ok hf
        exact FS.resolve_of a (resAux_follow_of (by intro t s' e; rw [hx] at e; cases e) _ _ _ b)
      simp only [Bool.false_eq_true, if_false, Q.call, Src.readFile, h2, hx, hs]
      refine ⟨_, _, rfl, ⟨rfl, some (.file (s.fs.data i).bytes.length (addContent cs (s.fs.data i).bytes).1), rfl, ?_⟩,
        fun a b h => packBytes_mono h⟩
      simp only [Archived, hx, hs, Bool.false_eq_true, if_false, Option.map_some]
      exact ⟨_, rfl, packBytes_add _ _⟩

theorem newFromPath_plain (Q : Quiet env s) (W : s.WF) (t : Nat) (cs : List Bytes) {names q : List Bytes} {x : FNode} (arx : RPath)
    (hf : s.fs.resolve false names = .ok (.found q)) (hx : s.fs.nodes q = some x) :
    ∃ r cs', newFromPath env t cs names arx false = .ok (r, cs') ∧ ReqFor s cs' q arx r ∧
      ∀ a b, packBytes cs a = .found b → packBytes cs' a = .found b := by
  refine newFromPath_at Q W t cs arx ?_ hf hx
  unfold detectKind
  simp only [Q.call, Src.lstat, hf]
  cases s.statAt q with
  | error e => rfl
  | ok a => simp [Except.map]

/-- With `follow_symlink`, the entry is the one the path leads to. -/
theorem newFromPath_follow (Q : Quiet env s) (W : s.WF) (t : Nat) (cs : List Bytes) {names q : List Bytes} {x : FNode} (arx : RPath)
    (hf : s.fs.resolve true names = .ok (.found q)) (hx : s.fs.nodes q = some x) (hl : ∀ a b, x ≠ .link a b) :
    ∃ r cs', newFromPath env t cs names arx true = .ok (r, cs') ∧ ReqFor s cs' q arx r ∧
      ∀ a b, packBytes cs a = .found b → packBytes cs' a = .found b := by
  obtain ⟨h1, h2⟩ := FS.resolve_ok hf
  obtain ⟨q', h3, h4⟩ := resAux_unfollow 40 names [] h2
  have hf' := FS.resolve_of h1 h3
  have same : q' = q → ∃ r cs', newFromPath env t cs names arx true = .ok (r, cs') ∧ ReqFor s cs' q arx r ∧
      ∀ a b, packBytes cs a = .found b → packBytes cs' a = .found b := by
    intro e
    rw [e] at hf'
    refine newFromPath_at Q W t cs arx ?_ hf' hx
    unfold detectKind
    simp only [Q.call, Src.lstat, hf']
    cases hst : s.statAt q with
    | error e => rfl
    | ok a =>
      have : a.kind ≠ .link := by
        intro hk
        simp only [Src.statAt, hx] at hst
        cases x with
        | dir u => cases hst; cases hk
        | link t u => exact absurd rfl (hl t u)
        | file i => simp only [Except.ok.injEq] at hst; rw [← hst] at hk; revert hk; split <;> simp
      simp [Except.map, this]
  rcases h4 with e | ⟨tg, u, hlink⟩
  · exact same e
  · have hself := W.resolve_self hx
    obtain ⟨r, cs', h5, h6, h7⟩ := newFromPath_at (env := env) (follow := false) Q W t cs (names := q) arx (by
      unfold detectKind
      simp only [Q.call, Src.lstat, hself]
      cases s.statAt q with
      | error e => rfl
      | ok a => simp [Except.map]) hself hx
    refine ⟨r, cs', ?_, h6, h7⟩
    rw [← h5]
    unfold newFromPath
    have e1 : detectKind env t names true = (s.statAt q).map (fun a => (q, a)) := by
      unfold detectKind
      simp only [Q.call, Src.lstat, hf', Src.canonicalize, hf, hself, Src.statAt, hlink]
      simp only [and_self, if_true]
      generalize hst : s.statAt q = st
      simp only [Src.statAt] at hst
      rw [hst]
      cases st <;> rfl
    have e2 : detectKind env t q false = (s.statAt q).map (fun a => (q, a)) := by
      unfold detectKind
      simp only [Q.call, Src.lstat, hself]
      cases s.statAt q with
      | error e => rfl
      | ok a => simp [Except.map]
    rw [e1, e2]

/-! ## The walk -/

/-- Relative paths of everything below `d`, in the order of the walk. -/
def walkRel (s : Src) (ns : List Bytes → List Bytes) : Nat → List Bytes → List (List Bytes)
  | 0, _ => []
  | f + 1, d => (ns d).flatMap fun n =>
      [n] :: (match s.fs.nodes (d ++ [n]) with
        | some (.dir _) => (walkRel s ns f (d ++ [n])).map (n :: ·)
        | _ => [])

theorem walkBelow_eq {ls : ReadDir} {ns : List Bytes → List Bytes}
    (hls : ∀ d t, s.fs.nodes d = some (.dir t) → ls d = (ns d).map .ok) : ∀ (f : Nat) (text : Bytes) (d : List Bytes) (t : Int),
    s.fs.nodes d = some (.dir t) →
    walkBelow s ls f text d = (walkRel s ns f d).map (fun p => .ok (p.foldl joinChild text)) := by
  intro f
  induction f with
  | zero => intro text d t _; rfl
  | succ f ih =>
    intro text d t hd
    simp only [walkBelow, walkRel, hls d t hd, List.flatMap_map, List.map_flatMap]
    congr 1
    funext n
    simp only [List.map_cons, List.foldl_cons, List.foldl_nil, List.cons.injEq, true_and]
    cases hx : s.fs.nodes (d ++ [n]) with
    | none => rfl
    | some x =>
      cases x with
      | dir u => simp only [ih _ _ u hx, List.map_map]; rfl
      | file i => rfl
      | link a b => rfl

/-- What `walkRel` needs of a listing. -/
def GoodNames (s : Src) (ns : List Bytes → List Bytes) : Prop :=
  ∀ d t, s.fs.nodes d = some (.dir t) → (ns d).Nodup ∧ ∀ n, n ∈ ns d ↔ s.fs.nodes (d ++ [n]) ≠ none

theorem mem_walkRel {ns : List Bytes → List Bytes} (hns : GoodNames s ns) (W : s.WF) : ∀ (f : Nat) (d : List Bytes) (t : Int),
    s.fs.nodes d = some (.dir t) → ∀ p, p ∈ walkRel s ns f d ↔ p ≠ [] ∧ p.length ≤ f ∧ s.fs.nodes (d ++ p) ≠ none := by
  intro f
  induction f with
  | zero =>
    intro d t _ p
    simp only [walkRel, List.not_mem_nil, false_iff]
    intro ⟨h1, h2, _⟩
    exact h1 (List.length_eq_zero_iff.mp (by omega))
  | succ f ih =>
    intro d t hd p
    simp only [walkRel, List.mem_flatMap, List.mem_cons]
    constructor
    · rintro ⟨n, hn, h⟩
      have hex := ((hns d t hd).2 n).mp hn
      rcases h with rfl | h
      · exact ⟨by simp, by simp, hex⟩
      · cases hx : s.fs.nodes (d ++ [n]) with
        | none => exact absurd hx hex
        | some x =>
          rw [hx] at h
          cases x with
          | file i => simp at h
          | link a b => simp at h
          | dir u =>
            simp only [List.mem_map] at h
            obtain ⟨p', hp', rfl⟩ := h
            have := (ih _ u hx p').mp hp'
            exact ⟨by simp, by simp; omega, by simpa using this.2.2⟩
    · rintro ⟨h1, h2, h3⟩
      cases p with
      | nil => exact absurd rfl h1
      | cons n p =>
        obtain ⟨x, hx⟩ := Option.ne_none_iff_exists'.mp h3
        by_cases hp : p = []
        · subst hp
          exact ⟨n, ((hns d t hd).2 n).mpr h3, Or.inl rfl⟩
        · obtain ⟨u, hu⟩ := W.dirsTo hx (d ++ [n]) ⟨p, by simp⟩ (by simp; exact hp)
          refine ⟨n, ((hns d t hd).2 n).mpr (by rw [hu]; simp), Or.inr ?_⟩
          rw [hu]
          simp only [List.mem_map, List.cons.injEq, true_and, exists_eq_right]
          refine (ih _ u hu p).mpr ⟨hp, by simp at h2; omega, by simpa using h3⟩

theorem walkRel_nodup {ns : List Bytes → List Bytes} (hns : GoodNames s ns) (W : s.WF) : ∀ (f : Nat) (d : List Bytes) (t : Int),
    s.fs.nodes d = some (.dir t) → (walkRel s ns f d).Nodup := by
  intro f
  induction f with
  | zero => intro d t _; exact List.Pairwise.nil
  | succ f ih =>
    intro d t hd
    simp only [walkRel]
    rw [List.Nodup, List.pairwise_flatMap]
    constructor
    · intro n hn
      show List.Nodup _
      rw [List.nodup_cons]
      cases hx : s.fs.nodes (d ++ [n]) with
      | none => simp
      | some x =>
        cases x with
        | file i => simp
        | link a b => simp
        | dir u =>
          refine ⟨?_, ?_⟩
          · simp only [List.mem_map, not_exists, not_and]
            intro p hp e
            simp only [List.cons.injEq, true_and] at e
            exact ((mem_walkRel hns W f _ u hx p).mp hp).1 e
          · rw [List.Nodup, List.pairwise_map]
            refine List.Pairwise.imp ?_ (ih _ u hx)
            intro a b hab e
            exact hab (by simpa using e)
    · have key : ∀ n p, p ∈ ([n] :: (match s.fs.nodes (d ++ [n]) with
          | some (.dir _) => (walkRel s ns f (d ++ [n])).map (n :: ·)
          | _ => []) : List (List Bytes)) → p.head? = some n := by
        intro n p hp
        rw [List.mem_cons] at hp
        rcases hp with rfl | hp
        · rfl
        · cases hx : s.fs.nodes (d ++ [n]) with
          | none => rw [hx] at hp; simp at hp
          | some x =>
            rw [hx] at hp
            cases x with
            | file i => simp at hp
            | link a b => simp at hp
            | dir u => simp only [List.mem_map] at hp; obtain ⟨p', _, rfl⟩ := hp; rfl
      refine (hns d t hd).1.imp ?_
      intro a b hab p hpa p' hpb e
      have h1 := key a p hpa
      have h2 := key b p' hpb
      rw [← e, h1] at h2
      exact hab (Option.some.inj h2)

/-- Parents come before children. -/
theorem walkRel_order {ns : List Bytes → List Bytes} (hns : GoodNames s ns) (W : s.WF) : ∀ (f : Nat) (d : List Bytes) (t : Int),
    s.fs.nodes d = some (.dir t) → (walkRel s ns f d).Pairwise (fun a b => ¬ (b <+: a ∧ b ≠ a)) := by
  intro f
  induction f with
  | zero => intro d t _; exact List.Pairwise.nil
  | succ f ih =>
    intro d t hd
    simp only [walkRel]
    have key : ∀ n p, p ∈ ([n] :: (match s.fs.nodes (d ++ [n]) with
        | some (.dir _) => (walkRel s ns f (d ++ [n])).map (n :: ·)
        | _ => []) : List (List Bytes)) → p.head? = some n := by
      intro n p hp
      rw [List.mem_cons] at hp
      rcases hp with rfl | hp
      · rfl
      · cases hx : s.fs.nodes (d ++ [n]) with
        | none => rw [hx] at hp; simp at hp
        | some x =>
          rw [hx] at hp
          cases x with
          | file i => simp at hp
          | link a b => simp at hp
          | dir u => simp only [List.mem_map] at hp; obtain ⟨p', _, rfl⟩ := hp; rfl
    rw [List.pairwise_flatMap]
    constructor
    · intro n hn
      rw [List.pairwise_cons]
      constructor
      · intro p hp ⟨h1, h2⟩
        have hh := key n p (by rw [List.mem_cons]; exact Or.inr hp)
        cases p with
        | nil => cases hh
        | cons c p =>
          have hl := h1.length_le
          simp only [List.length_cons, List.length_nil] at hl
          have : p = [] := List.length_eq_zero_iff.mp (by omega)
          subst this
          simp only [List.head?_cons, Option.some.injEq] at hh
          exact h2 (by rw [hh])
      · cases hx : s.fs.nodes (d ++ [n]) with
        | none => simp
        | some x =>
          cases x with
          | file i => simp
          | link a b => simp
          | dir u =>
            rw [List.pairwise_map]
            refine (ih _ u hx).imp ?_
            intro a b h ⟨h1, h2⟩
            exact h ⟨by simpa [List.cons_prefix_cons] using h1, by simpa using h2⟩
    · refine (hns d t hd).1.imp ?_
      intro a b hab p hp p' hp' ⟨h1, _⟩
      have e1 := key a p hp
      have e2 := key b p' hp'
      cases p' with
      | nil => cases e2
      | cons c p' =>
        obtain ⟨z, rfl⟩ := h1
        simp only [List.cons_append, List.head?_cons, Option.some.injEq] at e1 e2
        exact hab (by rw [← e1, ← e2])

end Arx
