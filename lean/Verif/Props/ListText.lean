import Verif.Spec.ListText
import Verif.Props.Walk
import Verif.Props.Extract
import Verif.Props.StableList
/-!
# C86: the stable listing tells archives apart
-/
namespace Arx

/-- what is in front of the first `c` is determined by the text -/
theorem split_before {α : Type} {c : α} : ∀ {x y r s : List α}, c ∉ x → c ∉ y → x ++ c :: r = y ++ c :: s → x = y ∧ r = s
  | [], [], r, s, _, _, e => by simpa using e
  | [], b :: y, r, s, _, hy, e => by
    simp only [List.nil_append, List.cons_append, List.cons.injEq] at e
    exact absurd (by simp [e.1]) hy
  | a :: x, [], r, s, hx, _, e => by
    simp only [List.nil_append, List.cons_append, List.cons.injEq] at e
    exact absurd (by simp [e.1]) hx
  | a :: x, b :: y, r, s, hx, hy, e => by
    simp only [List.cons_append, List.cons.injEq] at e
    obtain ⟨h1, h2⟩ := split_before (fun h => hx (List.mem_cons_of_mem _ h)) (fun h => hy (List.mem_cons_of_mem _ h)) e.2
    exact ⟨by rw [e.1, h1], h2⟩

/-- lines without a newline in them are determined by the text -/
theorem lines_inj {c : UInt8} : ∀ {A B : List Bytes}, (∀ x ∈ A, c ∉ x) → (∀ x ∈ B, c ∉ x) →
    A.flatMap (fun x => x ++ [c]) = B.flatMap (fun x => x ++ [c]) → A = B
  | [], [], _, _, _ => rfl
  | [], b :: B, _, _, e => by simp at e
  | a :: A, [], _, _, e => by simp at e
  | a :: A, b :: B, ha, hb, e => by
    simp only [List.flatMap_cons, List.append_assoc, List.singleton_append] at e
    obtain ⟨h1, h2⟩ := split_before (ha a (by simp)) (hb b (by simp)) e
    rw [h1, lines_inj (fun x hx => ha x (by simp [hx])) (fun x hx => hb x (by simp [hx])) h2]

theorem char_ofNat_inj {x y : Char} (hx : x.isDigit = true) (hy : y.isDigit = true)
    (e : UInt8.ofNat x.toNat = UInt8.ofNat y.toNat) : x = y := by
  have key : ∀ z : Char, z.isDigit = true → z.toNat < 256 := by
    intro z hz
    simp only [Char.isDigit, Bool.and_eq_true, decide_eq_true_eq] at hz
    have := hz.2
    have h2 : z.val.toNat ≤ 57 := by simpa [UInt32.le_iff_toNat_le] using this
    show z.val.toNat < 256
    omega
  have e' : (UInt8.ofNat x.toNat).toNat = (UInt8.ofNat y.toNat).toNat := by rw [e]
  simp only [UInt8.toNat_ofNat'] at e'
  have hx' := key x hx
  have hy' := key y hy
  apply Char.toNat_inj.mp
  omega

theorem dec_digits (n : Nat) : dec n = (Nat.toDigits 10 n).map (fun c => UInt8.ofNat c.toNat) := by
  unfold dec ascii
  rw [show (toString n : String) = n.repr from rfl, Nat.toList_repr]

/-- a printed number contains no character other than digits -/
theorem dec_no {n : Nat} {c : UInt8} (hc : c < 48) : c ∉ dec n := by
  rw [dec_digits]
  intro h
  obtain ⟨d, hd, e⟩ := List.mem_map.mp h
  have hdig := Nat.isDigit_of_mem_toDigits (by decide) (by decide) hd
  simp only [Char.isDigit, Bool.and_eq_true, decide_eq_true_eq] at hdig
  have h1 : 48 ≤ d.val.toNat := by simpa [UInt32.le_iff_toNat_le] using hdig.1
  have h2 : d.val.toNat ≤ 57 := by simpa [UInt32.le_iff_toNat_le] using hdig.2
  have h3 : c.toNat = d.val.toNat := by
    rw [← e]; simp only [UInt8.toNat_ofNat']; show d.val.toNat % 256 = _; omega
  have h4 : c.toNat < 48 := by simpa [UInt8.lt_iff_toNat_lt] using hc
  omega

theorem dec_inj {n k : Nat} (e : dec n = dec k) : n = k := by
  rw [dec_digits, dec_digits] at e
  have key : ∀ {A B : List Char}, (∀ c ∈ A, c.isDigit = true) → (∀ c ∈ B, c.isDigit = true) →
      A.map (fun c => UInt8.ofNat c.toNat) = B.map (fun c => UInt8.ofNat c.toNat) → A = B := by
    intro A
    induction A with
    | nil => intro B _ _ e; cases B with
      | nil => rfl
      | cons b B => simp at e
    | cons a A ih => intro B hA hB e; cases B with
      | nil => simp at e
      | cons b B =>
        simp only [List.map_cons, List.cons.injEq] at e
        rw [char_ofNat_inj (hA a (by simp)) (hB b (by simp)) e.1,
          ih (fun c hc => hA c (by simp [hc])) (fun c hc => hB c (by simp [hc])) e.2]
  have h := key (fun c hc => Nat.isDigit_of_mem_toDigits (by decide) (by decide) hc)
    (fun c hc => Nat.isDigit_of_mem_toDigits (by decide) (by decide) hc) e
  rw [← Nat.ofDigitChars_ten_toDigits (n := n), h, Nat.ofDigitChars_ten_toDigits]

/-- the text in front of the first `->` is determined -/
theorem split_arrow {x y r s : Bytes} (hx : ¬ ascii "->" <:+: x) (hy : ¬ ascii "->" <:+: y)
    (e : x ++ ascii "->" ++ r = y ++ ascii "->" ++ s) : x = y ∧ r = s := by
  have harrow : ascii "->" = [45, 62] := by decide
  rw [harrow] at hx hy e
  simp only [List.append_assoc, List.cons_append, List.nil_append] at e
  rcases List.append_eq_append_iff.mp e with ⟨z, h1, h2⟩ | ⟨z, h1, h2⟩
  · match z with
    | [] => simp_all
    | [a] =>
      simp only [List.cons_append, List.nil_append, List.cons.injEq] at h2
      exact absurd h2.2.1 (by decide)
    | a :: b :: z =>
      simp only [List.cons_append, List.cons.injEq] at h2
      obtain ⟨rfl, rfl, _⟩ := h2
      exact absurd ⟨x, z, by rw [h1]; simp⟩ hy
  · match z with
    | [] => simp_all
    | [a] =>
      simp only [List.cons_append, List.nil_append, List.cons.injEq] at h2
      exact absurd h2.2.1 (by decide)
    | a :: b :: z =>
      simp only [List.cons_append, List.cons.injEq] at h2
      obtain ⟨rfl, rfl, _⟩ := h2
      exact absurd ⟨y, z, by rw [h1]; simp⟩ hx

theorem joinPath_no {c : UInt8} (hc : c ≠ SEP) : ∀ {p : List Bytes}, (∀ x ∈ p, c ∉ x) → c ∉ joinPath p
  | [], _ => by simp [joinPath]
  | [x], h => by simpa [joinPath] using h x (by simp)
  | x :: y :: p, h => by
    rw [joinPath_cons (by simp)]
    simp only [List.mem_append, List.mem_cons, not_or]
    have := joinPath_no hc (p := y :: p) (fun z hz => h z (by simp [hz]))
    simp_all

/-- the line of an entry, without its newline -/
def stableBody (n : Node) (p : List Bytes) : Bytes :=
  match n.kind with
  | .dir => ascii "d " ++ decimal n.info.mtime ++ ascii " " ++ joinPath p
  | .file size _ => ascii "f " ++ decimal n.info.mtime ++ ascii " " ++ decimal size ++ ascii " " ++ joinPath p
  | .link target => ascii "l " ++ decimal n.info.mtime ++ ascii " " ++ joinPath p ++ ascii "->" ++ lossy target

theorem stableLine_body {m : PathMap} {p : List Bytes} {n : Node} (h : m p = some n) :
    stableLine m p = stableBody n p ++ [10] := by
  simp only [stableLine, h, stableBody]
  cases n.kind <;> rfl

theorem joinPath_inj {p q : List Bytes} (hp : ∀ c ∈ p, ValidName c) (hq : ∀ c ∈ q, ValidName c)
    (e : joinPath p = joinPath q) : p = q := by
  rw [← comps_joinPath hp, e, comps_joinPath hq]

theorem arrow_eq : ascii "->" = [45, 62] := by decide
theorem d_eq : ascii "d " = [100, 32] := by decide
theorem f_eq : ascii "f " = [102, 32] := by decide
theorem l_eq : ascii "l " = [108, 32] := by decide
theorem space_eq : ascii " " = [32] := by decide

theorem stableBody_no {n : Node} {p : List Bytes} (hp : ∀ c ∈ p, (10 : UInt8) ∉ c)
    (ht : ∀ t, n.kind = .link t → validUtf8 t = true ∧ (10 : UInt8) ∉ t) : (10 : UInt8) ∉ stableBody n p := by
  have h1 := joinPath_no (c := 10) (by decide) hp
  have h2 := dec_no (n := n.info.mtime) (c := 10) (by decide)
  unfold stableBody
  simp only [← dec_eq]
  cases hk : n.kind with
  | dir => simp [d_eq, space_eq, h1, h2]
  | file s c => simp [f_eq, space_eq, h1, h2, dec_no (n := s) (c := 10) (by decide)]
  | link t =>
    obtain ⟨h3, h4⟩ := ht t hk
    simp [l_eq, space_eq, arrow_eq, h1, h2, lossy_valid h3, h4]

theorem stableBody_inj {n n' : Node} {p p' : List Bytes} (hp : ∀ c ∈ p, ValidName c) (hp' : ∀ c ∈ p', ValidName c)
    (ht : ∀ t, n.kind = .link t → ¬ ascii "->" <:+: joinPath p ∧ validUtf8 t = true)
    (ht' : ∀ t, n'.kind = .link t → ¬ ascii "->" <:+: joinPath p' ∧ validUtf8 t = true)
    (e : stableBody n p = stableBody n' p') : p = p' ∧ SameListed n n' := by
  unfold stableBody at e
  simp only [← dec_eq] at e
  have sp : ∀ k, (32 : UInt8) ∉ dec k := fun k => dec_no (by decide)
  unfold SameListed
  cases hk : n.kind with
  | dir =>
    cases hk' : n'.kind with
    | dir =>
      rw [hk, hk'] at e
      simp only [d_eq, space_eq, List.append_assoc, List.cons_append, List.nil_append, List.cons.injEq, true_and] at e
      obtain ⟨h1, h2⟩ := split_before (sp _) (sp _) e
      exact ⟨joinPath_inj hp hp' h2, dec_inj h1, trivial⟩
    | file s c => rw [hk, hk'] at e; simp [d_eq, f_eq] at e
    | link t => rw [hk, hk'] at e; simp [d_eq, l_eq] at e
  | file s c =>
    cases hk' : n'.kind with
    | dir => rw [hk, hk'] at e; simp [d_eq, f_eq] at e
    | file s' c' =>
      rw [hk, hk'] at e
      simp only [f_eq, space_eq, List.append_assoc, List.cons_append, List.nil_append, List.cons.injEq, true_and] at e
      obtain ⟨h1, h2⟩ := split_before (sp _) (sp _) e
      obtain ⟨h3, h4⟩ := split_before (sp _) (sp _) h2
      exact ⟨joinPath_inj hp hp' h4, dec_inj h1, dec_inj h3⟩
    | link t => rw [hk, hk'] at e; simp [f_eq, l_eq] at e
  | link t =>
    cases hk' : n'.kind with
    | dir => rw [hk, hk'] at e; simp [d_eq, l_eq] at e
    | file s' c' => rw [hk, hk'] at e; simp [f_eq, l_eq] at e
    | link t' =>
      rw [hk, hk'] at e
      simp only [l_eq, space_eq, List.append_assoc, List.cons_append, List.nil_append, List.cons.injEq, true_and] at e
      obtain ⟨h1, h2⟩ := split_before (sp _) (sp _) e
      obtain ⟨g1, g2⟩ := ht t hk
      obtain ⟨g1', g2'⟩ := ht' t' hk'
      obtain ⟨h3, h4⟩ := split_arrow g1 g1' (by simpa using h2)
      rw [lossy_valid g2, lossy_valid g2'] at h4
      exact ⟨joinPath_inj hp hp' h3, dec_inj h1, h4⟩

/-- two lists of lines that agree line by line -/
theorem map_rel {α β γ : Type} {f : α → γ} {g : β → γ} {R : α → β → Prop} : ∀ {A : List α} {B : List β}, A.map f = B.map g →
    (∀ a ∈ A, ∀ b ∈ B, f a = g b → R a b) → A.length = B.length ∧ ∀ (i : Nat) (a : α) (b : β), A[i]? = some a → B[i]? = some b → R a b
  | [], [], _, _ => ⟨rfl, by simp⟩
  | [], b :: B, e, _ => by simp at e
  | a :: A, [], e, _ => by simp at e
  | a :: A, b :: B, e, h => by
    simp only [List.map_cons, List.cons.injEq] at e
    obtain ⟨h1, h2⟩ := map_rel (R := R) e.2 (fun x hx y hy => h x (by simp [hx]) y (by simp [hy]))
    refine ⟨by simp [h1], fun i x y hx hy => ?_⟩
    cases i with
    | zero =>
      simp only [List.getElem?_cons_zero, Option.some.injEq] at hx hy
      subst hx; subst hy
      exact h _ (by simp) _ (by simp) e.1
    | succ i => exact h2 i x y (by simpa using hx) (by simpa using hy)

theorem Listing.inPlace {m : PathMap} {V : List (List Bytes)} (h : Listing m [] V) (p : List Bytes) (hp : p ≠ []) :
    p ∈ V ↔ ∃ n, m p = some n := by
  rw [h.2]
  exact ⟨fun x => x.1, fun x => ⟨x, List.nil_prefix, fun e => hp e.symm⟩⟩

/-- **C86 (partial: no entry after one named `.` as in C12_iff, names and link targets without newlines, link paths without `->`, targets that are text).**
Two created archives have the same stable listing exactly when they have the same paths, and at each path the
same kind, modification time, size (files) and target (links). -/
theorem C86_stable_partial {rs rs' : List AddReq} {a a' : Archive} {m m' : PathMap} (h : Written rs a) (h' : Written rs' a')
    (hm : SpecRun PathMap.empty rs m) (hm' : SpecRun PathMap.empty rs' m')
    (hu : ∀ r ∈ rs, validUtf8 r.path = true) (hu' : ∀ r ∈ rs', validUtf8 r.path = true)
    (hdot : ∀ r, m r ≠ none → ¬ AfterDot m r) (hdot' : ∀ r, m' r ≠ none → ¬ AfterDot m' r)
    (hn : NoNewline m) (hn' : NoNewline m') (hl : ClearLinks m) (hl' : ClearLinks m')
    (depth depth' : Nat) (hd : a.entries.length < depth) (hd' : a'.entries.length < depth') :
    listCmd a (some 1) depth = listCmd a' (some 1) depth' ↔ SameListing m m' := by
  obtain ⟨V, hV, e⟩ := (C12_iff h hm hu depth hd).mpr hdot
  obtain ⟨V', hV', e'⟩ := (C12_iff h' hm' hu' depth' hd').mpr hdot'
  obtain ⟨P, G⟩ := h.good' hm
  obtain ⟨P', G'⟩ := h'.good' hm'
  have hroot := G.wf.root
  have hroot' := G'.wf.root
  rw [e, e']
  simp only [Prod.mk.injEq, and_true]
  constructor
  · intro ht
    have hx : ∀ {m : PathMap} {V : List (List Bytes)}, Listing m [] V → 
        V.flatMap (stableLine m) = (V.map (fun p => stableBody ((m p).getD defaultDir) p)).flatMap (fun x => x ++ [10]) := by
      intro m V hV
      rw [List.flatMap_map, List.flatMap_def, List.flatMap_def]
      refine congrArg List.flatten (List.map_congr_left ?_)
      intro p hp
      obtain ⟨⟨n, hn⟩, _⟩ := (hV.2 p).mp hp
      rw [stableLine_body hn]; simp [hn]
    rw [hx hV, hx hV'] at ht
    have hno : ∀ {m : PathMap} {V : List (List Bytes)}, Listing m [] V → NoNewline m → ClearLinks m →
        ∀ x ∈ V.map (fun p => stableBody ((m p).getD defaultDir) p), (10 : UInt8) ∉ x := by
      intro m V hV hn hl x hx
      obtain ⟨p, hp, rfl⟩ := List.mem_map.mp hx
      obtain ⟨⟨n, hmn⟩, _⟩ := (hV.2 p).mp hp
      refine stableBody_no (hn p n hmn) (fun t ht => ?_)
      rw [hmn] at ht
      exact (hl p n t hmn ht).2
    have hmap := lines_inj (hno hV hn hl) (hno hV' hn' hl') ht
    obtain ⟨hlen, hrel⟩ := map_rel (R := fun p q => p = q ∧ SameListed ((m p).getD defaultDir) ((m' q).getD defaultDir)) hmap (by
      intro p hp q hq heq
      obtain ⟨⟨n, hmn⟩, _⟩ := (hV.2 p).mp hp
      obtain ⟨⟨n', hmn'⟩, _⟩ := (hV'.2 q).mp hq
      rw [hmn, hmn'] at heq ⊢
      exact stableBody_inj (G.wf.names _ _ hmn) (G'.wf.names _ _ hmn')
        (fun t ht => ⟨(hl p n t hmn ht).1, (hl p n t hmn ht).2.1⟩)
        (fun t ht => ⟨(hl' q n' t hmn' ht).1, (hl' q n' t hmn' ht).2.1⟩) heq)
    have hVV : V = V' := by
      apply List.ext_getElem? 
      intro i
      by_cases hi : i < V.length
      · have h1 : V[i]? = some V[i] := List.getElem?_eq_getElem hi
        have h2 : V'[i]? = some (V'[i]'(hlen ▸ hi)) := List.getElem?_eq_getElem _
        rw [h1, h2, (hrel i _ _ h1 h2).1]
      · rw [List.getElem?_eq_none (by omega), List.getElem?_eq_none (by omega)]
    intro p
    by_cases hp : p = []
    · subst hp; rw [hroot, hroot']; trivial
    · have hiff := hV.inPlace p hp
      have hiff' := hV'.inPlace p hp
      by_cases hpV : p ∈ V
      · obtain ⟨n, hmn⟩ := hiff.mp hpV
        obtain ⟨n', hmn'⟩ := hiff'.mp (hVV ▸ hpV)
        obtain ⟨i, hi⟩ := List.mem_iff_getElem?.mp hpV
        have := (hrel i p p hi (hVV ▸ hi)).2
        rw [hmn, hmn'] at this ⊢
        exact this
      · have h1 : m p = none := by
          cases hc : m p with
          | none => rfl
          | some n => exact absurd (hiff.mpr ⟨n, hc⟩) hpV
        have h2 : m' p = none := by
          cases hc : m' p with
          | none => rfl
          | some n => exact absurd (hiff'.mpr ⟨n, hc⟩) (hVV ▸ hpV)
        rw [h1, h2]; trivial
  · intro hs
    have hL : Listing m' [] V := ⟨hV.1, fun p => by
      rw [hV.2]
      have := hs p
      cases h1 : m p <;> cases h2 : m' p <;> rw [h1, h2] at this <;> simp_all⟩
    rw [hL.unique hV', List.flatMap_def, List.flatMap_def]
    refine congrArg List.flatten (List.map_congr_left ?_)
    intro p _
    have := hs p
    simp only [stableLine]
    cases h1 : m p with
    | none => cases h2 : m' p with
      | none => rfl
      | some n' => rw [h1, h2] at this; cases this
    | some n => cases h2 : m' p with
     | none => rw [h1, h2] at this; cases this
     | some n' =>
      rw [h1, h2] at this
      obtain ⟨h3, h4⟩ := this
      simp only [h3]
      cases hk : n.kind <;> cases hk' : n'.kind <;> rw [hk, hk'] at h4 <;> simp_all

/-- **C86, plain listing (partial: names without newlines).** Two created archives have the same `arx list` output exactly when
they have the same paths. -/
theorem C86_plain_partial {rs rs' : List AddReq} {a a' : Archive} {m m' : PathMap} (h : Written rs a) (h' : Written rs' a')
    (hm : SpecRun PathMap.empty rs m) (hm' : SpecRun PathMap.empty rs' m')
    (hn : NoNewline m) (hn' : NoNewline m')
    (depth depth' : Nat) (hd : a.entries.length < depth) (hd' : a'.entries.length < depth') :
    listCmd a none depth = listCmd a' none depth' ↔ ∀ p, (m p).isSome = (m' p).isSome := by
  obtain ⟨V, hV, e⟩ := C11_list h hm depth hd
  obtain ⟨V', hV', e'⟩ := C11_list h' hm' depth' hd'
  obtain ⟨P, G⟩ := h.good' hm
  obtain ⟨P', G'⟩ := h'.good' hm'
  rw [e, e']
  simp only [Prod.mk.injEq, and_true]
  constructor
  · intro ht
    have hx : ∀ {V : List (List Bytes)},
        V.flatMap (fun p => joinPath p ++ [10]) = (V.map joinPath).flatMap (fun x => x ++ [10]) := by
      intro V; rw [List.flatMap_map]
    rw [hx, hx] at ht
    have hno : ∀ {m : PathMap} {V : List (List Bytes)}, Listing m [] V → NoNewline m →
        ∀ x ∈ V.map joinPath, (10 : UInt8) ∉ x := by
      intro m V hV hn x hx
      obtain ⟨p, hp, rfl⟩ := List.mem_map.mp hx
      obtain ⟨⟨n, hmn⟩, _⟩ := (hV.2 p).mp hp
      exact joinPath_no (by decide) (hn p n hmn)
    have hmap := lines_inj (hno hV hn) (hno hV' hn') ht
    have hVV : V = V' := by
      have hc : ∀ {m : PathMap} {V : List (List Bytes)}, m.WF → Listing m [] V → (V.map joinPath).map comps = V := by
        intro m V hwf hV
        rw [List.map_map]
        refine (List.map_congr_left (fun p hp => ?_)).trans (List.map_id V)
        obtain ⟨⟨n, hmn⟩, _⟩ := (hV.2 p).mp hp
        exact comps_joinPath (hwf.names _ _ hmn)
      rw [← hc G.wf hV, hmap, hc G'.wf hV']
    intro p
    by_cases hp : p = []
    · subst hp; rw [G.wf.root, G'.wf.root]
    · have h1 := hV.inPlace p hp
      have h2 := hV'.inPlace p hp
      rw [hVV] at h1
      rw [Bool.eq_iff_iff, Option.isSome_iff_exists, Option.isSome_iff_exists, ← h1, ← h2]
  · intro hs
    have hL : Listing m' [] V := ⟨hV.1, fun p => by
      rw [hV.2, ← Option.isSome_iff_exists, ← Option.isSome_iff_exists, hs p]⟩
    rw [hL.unique hV']

/-! ## The hypotheses are met by the example archive -/

theorem exMap_noNewline : NoNewline exMap := by
  intro p n hp
  have := exMap_paths hp
  simp only [List.mem_cons, List.not_mem_nil, or_false] at this
  rcases this with rfl | rfl | rfl | rfl <;> decide

theorem exMap_clearLinks : ClearLinks exMap := by
  intro p n t hp hk
  obtain ⟨⟨n1, h1, k1⟩, ⟨n2, h2, k2⟩, ⟨n3, h3, k3⟩, ⟨n4, h4, k4, _⟩⟩ := exMap_kinds
  have := exMap_paths hp
  simp only [List.mem_cons, List.not_mem_nil, or_false] at this
  rcases this with rfl | rfl | rfl | rfl
  · rw [h1] at hp; cases hp; rw [k1] at hk; cases hk
  · rw [h2] at hp; cases hp; rw [k2] at hk; cases hk
  · rw [h3] at hp; cases hp; rw [k3] at hk; cases hk
    exact ⟨by decide, by decide, by decide⟩
  · rw [h4] at hp; cases hp; rw [k4] at hk; cases hk

example : listCmd exArchive (some 1) 5 = listCmd exArchive (some 1) 6 ↔ SameListing exMap exMap :=
  C86_stable_partial exWritten exWritten exMap_spec exMap_spec (by decide) (by decide)
    (not_afterDot fun p n hp => by
      have := exMap_paths hp
      simp only [List.mem_cons, List.not_mem_nil, or_false] at this
      rcases this with rfl | rfl | rfl | rfl <;> decide)
    (not_afterDot fun p n hp => by
      have := exMap_paths hp
      simp only [List.mem_cons, List.not_mem_nil, or_false] at this
      rcases this with rfl | rfl | rfl | rfl <;> decide)
    exMap_noNewline exMap_noNewline exMap_clearLinks exMap_clearLinks 5 6 (by decide) (by decide)

/-! ## What the listing does not tell apart -/

def zeroMeta : Meta := { exMeta with mtime := 0 }

/-- archive 1: one directory whose name contains a newline -/
def oneReqs : List AddReq := [⟨ascii "a\nd 0 b", .ok (some .dir), zeroMeta⟩]
def oneSt : Creator := (Creator.new.run oneReqs).getD Creator.new
def oneArchive : Archive := writeArchive oneSt [0]
theorem oneWritten : Written oneReqs oneArchive := by
  obtain ⟨m, paths, hs, R⟩ := run_rel (show Creator.new.run oneReqs = some oneSt from rfl)
  exact ⟨oneSt, [0], rfl, R.layoutLoop_sound 3 _ _ (by rw [R.len]) (by decide), rfl, by decide⟩

/-- archive 2: two directories -/
def twoReqs : List AddReq := [⟨ascii "a", .ok (some .dir), zeroMeta⟩, ⟨ascii "b", .ok (some .dir), zeroMeta⟩]
def twoSt : Creator := (Creator.new.run twoReqs).getD Creator.new
def twoArchive : Archive := writeArchive twoSt [0, 1]
theorem twoWritten : Written twoReqs twoArchive := by
  obtain ⟨m, paths, hs, R⟩ := run_rel (show Creator.new.run twoReqs = some twoSt from rfl)
  exact ⟨twoSt, [0, 1], rfl, R.layoutLoop_sound 3 _ _ (by rw [R.len]) (by decide), rfl, by decide⟩

/-- archive 3: link `a->b` to `c` -/
def threeReqs : List AddReq := [⟨ascii "a->b", .ok (some (.link (ascii "c"))), zeroMeta⟩]
def threeSt : Creator := (Creator.new.run threeReqs).getD Creator.new
def threeArchive : Archive := writeArchive threeSt [0]
theorem threeWritten : Written threeReqs threeArchive := by
  obtain ⟨m, paths, hs, R⟩ := run_rel (show Creator.new.run threeReqs = some threeSt from rfl)
  exact ⟨threeSt, [0], rfl, R.layoutLoop_sound 3 _ _ (by rw [R.len]) (by decide), rfl, by decide⟩

/-- archive 4: link `a` to `b->c` -/
def fourReqs : List AddReq := [⟨ascii "a", .ok (some (.link (ascii "b->c"))), zeroMeta⟩]
def fourSt : Creator := (Creator.new.run fourReqs).getD Creator.new
def fourArchive : Archive := writeArchive fourSt [0]
theorem fourWritten : Written fourReqs fourArchive := by
  obtain ⟨m, paths, hs, R⟩ := run_rel (show Creator.new.run fourReqs = some fourSt from rfl)
  exact ⟨fourSt, [0], rfl, R.layoutLoop_sound 3 _ _ (by rw [R.len]) (by decide), rfl, by decide⟩

/-- an entry that a lookup does not find is not in the map -/
theorem map_missing {rs : List AddReq} {a : Archive} {m : PathMap} (h : Written rs a) (hm : SpecRun PathMap.empty rs m)
    (path : RPath) (hne : comps path ≠ []) {x : RErr} (he : a.getEntry fullBuilder path = .error x) : m (comps path) = none := by
  have := C01_read_back h hm path hne
  cases hx : m (comps path) with
  | none => rfl
  | some n =>
    rw [hx] at this
    obtain ⟨e', h1, h2, _⟩ := this
    rw [he] at h1; cases h1

/-- a walk sees only which paths there are and which are directories -/
theorem TraceOf.same {m m' : PathMap} (hs : SameListing m m') {d ns : List Bytes} {T : List Ev} (h : TraceOf m d ns T) :
    TraceOf m' d ns T ∧ (∀ d ks, KidsOf m d ks → KidsOf m' d ks) := by
  have hsome : ∀ p, (∃ n, m p = some n) ↔ ∃ n, m' p = some n := by
    intro p
    have := hs p
    cases h1 : m p <;> cases h2 : m' p <;> rw [h1, h2] at this <;> simp_all
  have hkids : ∀ d ks, KidsOf m d ks → KidsOf m' d ks := fun d ks hk => ⟨hk.1, fun c => by rw [hk.2, hsome]⟩
  have hdir : ∀ p n, m p = some n → ∃ n', m' p = some n' ∧ n'.isDir = n.isDir := by
    intro p n hn
    have := hs p
    obtain ⟨n', hn'⟩ := (hsome p).mp ⟨n, hn⟩
    rw [hn, hn'] at this
    refine ⟨n', hn', ?_⟩
    obtain ⟨_, h4⟩ := this
    simp only [Node.isDir]
    cases hk : n.kind <;> cases hk' : n'.kind <;> rw [hk, hk'] at h4 <;> simp_all [Kind.isDir]
  refine ⟨?_, hkids⟩
  induction h with
  | nil => exact .nil _
  | leaf h1 h2 _ ih =>
    obtain ⟨n', g1, g2⟩ := hdir _ _ h1
    exact .leaf g1 (g2.trans h2) ih
  | dir h1 h2 h3 _ _ ih1 ih2 =>
    obtain ⟨n', g1, g2⟩ := hdir _ _ h1
    exact .dir g1 (g2.trans h2) (hkids _ _ h3) ih1 ih2

theorem shownFrom_same {m m' : PathMap} (hs : SameListing m m') (c : List Bytes) (T : List Ev) : shownFrom m c T = shownFrom m' c T := by
  have hl : ∀ p q, lineAs m p q = lineAs m' p q := by
    intro p q
    have := hs p
    simp only [lineAs]
    cases h1 : m p with
    | none => cases h2 : m' p with
      | none => rfl
      | some n' => rw [h1, h2] at this; cases this
    | some n => cases h2 : m' p with
     | none => rw [h1, h2] at this; cases this
     | some n' =>
      rw [h1, h2] at this
      obtain ⟨h3, h4⟩ := this
      simp only [h3]
      cases hk : n.kind <;> cases hk' : n'.kind <;> rw [hk, hk'] at h4 <;> simp_all
  induction T generalizing c with
  | nil => rfl
  | cons ev T ih => cases ev <;> simp only [shownFrom, hl, ih]

/-- **C86, one direction without exceptions.** Two created archives with the same paths and, at each path, the same kind, modification time, size and target
have the same stable listing, whatever the names are. -/
theorem C86_same {rs rs' : List AddReq} {a a' : Archive} {m m' : PathMap} (h : Written rs a) (h' : Written rs' a')
    (hm : SpecRun PathMap.empty rs m) (hm' : SpecRun PathMap.empty rs' m')
    (hu : ∀ r ∈ rs, validUtf8 r.path = true) (hu' : ∀ r ∈ rs', validUtf8 r.path = true) (hs : SameListing m m')
    (depth depth' : Nat) (hd : a.entries.length < depth) (hd' : a'.entries.length < depth') :
    listCmd a (some 1) depth = listCmd a' (some 1) depth' := by
  obtain ⟨ks, T, k1, t1, _, e⟩ := C12_exact h hm hu depth hd
  obtain ⟨ks', T', k2, t2, _, e'⟩ := C12_exact h' hm' hu' depth' hd'
  obtain ⟨t3, hk⟩ := t1.same hs
  have := (hk _ _ k1).unique k2; subst this
  have := t3.det t2; subst this
  rw [e, e', shownFrom_same hs]

/-- **C86, plain listing, one direction without exceptions.** -/
theorem C86_same_plain {rs rs' : List AddReq} {a a' : Archive} {m m' : PathMap} (h : Written rs a) (h' : Written rs' a')
    (hm : SpecRun PathMap.empty rs m) (hm' : SpecRun PathMap.empty rs' m') (hs : ∀ p, (m p).isSome = (m' p).isSome)
    (depth depth' : Nat) (hd : a.entries.length < depth) (hd' : a'.entries.length < depth') :
    listCmd a none depth = listCmd a' none depth' := by
  obtain ⟨V, hV, e⟩ := C11_list h hm depth hd
  obtain ⟨V', hV', e'⟩ := C11_list h' hm' depth' hd'
  have hL : Listing m' [] V := ⟨hV.1, fun p => by
    rw [hV.2, ← Option.isSome_iff_exists, ← Option.isSome_iff_exists, hs p]⟩
  rw [e, e', hL.unique hV']

example : listCmd oneArchive none 5 = listCmd oneArchive none 7 := by
  obtain ⟨m, hm, _⟩ := spec_exists oneWritten
  exact C86_same_plain oneWritten oneWritten hm hm (fun _ => rfl) 5 7 (by decide +kernel) (by decide +kernel)

theorem SameListing.refl (m : PathMap) : SameListing m m := by
  intro p
  cases h : m p with
  | none => trivial
  | some n => refine ⟨rfl, ?_⟩; cases n.kind <;> simp

example : listCmd dotArchive (some 1) 5 = listCmd dotArchive (some 1) 7 := by
  obtain ⟨m, hm, _⟩ := spec_exists dotWritten
  exact C86_same dotWritten dotWritten hm hm (by decide) (by decide) (.refl m) 5 7 (by decide) (by decide)

/-- the listing does not depend on how deep the reader may go, once that is enough -/
theorem stable_any_depth {rs : List AddReq} {a : Archive} {m : PathMap} (h : Written rs a)
    (hm : SpecRun PathMap.empty rs m) (hu : ∀ r ∈ rs, validUtf8 r.path = true)
    {d d' : Nat} (hd : a.entries.length < d) (hd' : a.entries.length < d') :
    listCmd a (some 1) d = listCmd a (some 1) d' := C86_same h h hm hm hu hu (.refl m) d d' hd hd'

/-- **C86: a newline in a name hides what the archive contains.** One directory named `a⏎d 0 b` and two directories
`a` and `b` have the same stable listing. -/
theorem C86_newline {m m' : PathMap} (hm : SpecRun PathMap.empty oneReqs m) (hm' : SpecRun PathMap.empty twoReqs m') :
    (∀ depth depth', 2 < depth → 2 < depth' → listCmd oneArchive (some 1) depth = listCmd twoArchive (some 1) depth') ∧
    m [ascii "a"] = none ∧ ∃ n, m' [ascii "a"] = some n := by
  refine ⟨?_, ?_, ?_⟩
  · intro depth depth' hd hd'
    have h1 : oneArchive.entries.length = 1 := by decide +kernel
    have h2 : twoArchive.entries.length = 2 := by decide +kernel
    rw [stable_any_depth oneWritten hm (by decide +kernel) (d := depth) (d' := 3) (by omega) (by omega),
      stable_any_depth twoWritten hm' (by decide +kernel) (d := depth') (d' := 3) (by omega) (by omega)]
    decide +kernel
  · exact map_missing oneWritten hm (ascii "a") (by decide +kernel) rfl
  · obtain ⟨n, hn, _⟩ := map_kind twoWritten hm' (ascii "a") (by decide +kernel) rfl
    exact ⟨n, hn⟩

/-- **C86: `->` in the path of a link hides what the archive contains.** Link `a->b` to `c` and link `a` to `b->c`
have the same stable listing. -/
theorem C86_arrow {m m' : PathMap} (hm : SpecRun PathMap.empty threeReqs m) (hm' : SpecRun PathMap.empty fourReqs m') :
    (∀ depth depth', 1 < depth → 1 < depth' → listCmd threeArchive (some 1) depth = listCmd fourArchive (some 1) depth') ∧
    m [ascii "a"] = none ∧ ∃ n, m' [ascii "a"] = some n := by
  refine ⟨?_, ?_, ?_⟩
  · intro depth depth' hd hd'
    have h1 : threeArchive.entries.length = 1 := by decide +kernel
    have h2 : fourArchive.entries.length = 1 := by decide +kernel
    rw [stable_any_depth threeWritten hm (by decide +kernel) (d := depth) (d' := 3) (by omega) (by omega),
      stable_any_depth fourWritten hm' (by decide +kernel) (d := depth') (d' := 3) (by omega) (by omega)]
    decide +kernel
  · exact map_missing threeWritten hm (ascii "a") (by decide +kernel) rfl
  · obtain ⟨n, hn, _⟩ := map_kind fourWritten hm' (ascii "a") (by decide +kernel) rfl
    exact ⟨n, hn⟩

/-- archive 5: `a/./b` and `c` -/
def fiveReqs : List AddReq :=
  [⟨ascii "a/./b", .ok (some (.file 3 ⟨1, 0⟩)), exMeta⟩, ⟨ascii "c", .ok (some (.file 4 ⟨1, 1⟩)), exMeta⟩]
def fiveSt : Creator := (Creator.new.run fiveReqs).getD Creator.new
def fiveArchive : Archive := writeArchive fiveSt [0, 3, 1, 2]
theorem fiveWritten : Written fiveReqs fiveArchive := by
  obtain ⟨m, paths, hs, R⟩ := run_rel (show Creator.new.run fiveReqs = some fiveSt from rfl)
  exact ⟨fiveSt, [0, 3, 1, 2], rfl, R.layoutLoop_sound 4 _ _ (by rw [R.len]) (by decide), rfl, by decide⟩

/-- **C86: a directory named `.` hides where an entry is.** With `a/./b`, the entry `a/c` is listed as the entry `c` is. -/
theorem C86_dot {m m' : PathMap} (hm : SpecRun PathMap.empty dotReqs m) (hm' : SpecRun PathMap.empty fiveReqs m') :
    (∀ depth depth', 4 < depth → 4 < depth' → listCmd dotArchive (some 1) depth = listCmd fiveArchive (some 1) depth') ∧
    m [ascii "c"] = none ∧ ∃ n, m' [ascii "c"] = some n := by
  refine ⟨?_, ?_, ?_⟩
  · intro depth depth' hd hd'
    have h1 : dotArchive.entries.length = 4 := by decide +kernel
    have h2 : fiveArchive.entries.length = 4 := by decide +kernel
    rw [stable_any_depth dotWritten hm (by decide +kernel) (d := depth) (d' := 5) (by omega) (by omega),
      stable_any_depth fiveWritten hm' (by decide +kernel) (d := depth') (d' := 5) (by omega) (by omega)]
    decide +kernel
  · exact map_missing dotWritten hm (ascii "c") (by decide +kernel) rfl
  · obtain ⟨n, hn, _⟩ := map_kind fiveWritten hm' (ascii "c") (by decide +kernel) rfl
    exact ⟨n, hn⟩

example : ∃ m m', SpecRun PathMap.empty dotReqs m ∧ SpecRun PathMap.empty fiveReqs m' :=
  ⟨_, _, (spec_exists dotWritten).choose_spec.1, (spec_exists fiveWritten).choose_spec.1⟩

/-- the two archives of `C86_newline` exist as creation runs -/
example : ∃ m m', SpecRun PathMap.empty oneReqs m ∧ SpecRun PathMap.empty twoReqs m' := by
  obtain ⟨m, _, h, _⟩ := run_rel (show Creator.new.run oneReqs = some oneSt from rfl)
  obtain ⟨m', _, h', _⟩ := run_rel (show Creator.new.run twoReqs = some twoSt from rfl)
  exact ⟨m, m', h, h'⟩

end Arx
