import Verif.Model.Creator
import Verif.Spec.PathMap
/-!
# Refinement: the creator's store and caches implement the path map
-/
namespace Arx

theorem lookupName_some {l : List (Bytes × Child)} {n : Bytes} {ch : Child}
    (h : lookupName l n = some ch) : (n, ch) ∈ l := by
  simp only [lookupName, Option.map_eq_some_iff] at h
  obtain ⟨x, hx, rfl⟩ := h
  have h1 := List.find?_some hx
  have h2 := List.mem_of_find?_eq_some hx
  simp at h1; rw [← h1]; exact h2

theorem lookupName_none {l : List (Bytes × Child)} {n : Bytes}
    (h : lookupName l n = none) (ch : Child) : (n, ch) ∉ l := by
  simp only [lookupName, Option.map_eq_none_iff, List.find?_eq_none] at h
  intro hm; exact h _ hm (by simp)

theorem lookupName_of_mem {l : List (Bytes × Child)} {n : Bytes} {ch : Child}
    (hn : (l.map (·.1)).Nodup) (h : (n, ch) ∈ l) : lookupName l n = some ch := by
  cases hl : lookupName l n with
  | none => exact absurd h (lookupName_none hl ch)
  | some ch' =>
    have h' := lookupName_some hl
    have : ∀ (l : List (Bytes × Child)), (l.map (·.1)).Nodup → (n, ch) ∈ l → (n, ch') ∈ l → ch' = ch := by
      intro l
      induction l with
      | nil => simp
      | cons x xs ih =>
        intro hn h1 h2
        simp only [List.map_cons, List.nodup_cons] at hn
        simp only [List.mem_cons] at h1 h2
        rcases h1 with h1 | h1 <;> rcases h2 with h2 | h2
        · rw [← h1] at h2; simpa using h2
        · exact absurd (List.mem_map.mpr ⟨_, h2, by rw [← h1]⟩) hn.1
        · exact absurd (List.mem_map.mpr ⟨_, h1, by rw [← h2]⟩) hn.1
        · exact ih hn.2 h1 h2
    rw [this l hn h h']

/-- Path of a directory handle, given the ghost list of paths of all created entries. -/
def curPath (paths : List (List Bytes)) : Option Nat → List Bytes
  | none => []
  | some i => (paths[i]?).getD []

@[simp] theorem curPath_none (paths : List (List Bytes)) : curPath paths none = [] := rfl

/-- The creator state `st` represents the map `m`; `paths` (ghost) are the paths of the entries. -/
structure Rel (st : Creator) (m : PathMap) (paths : List (List Bytes)) : Prop where
  len : paths.length = st.store.length
  nodup : paths.Nodup
  path : ∀ (i : Nat) (e : CEntry), st.store[i]? = some e → paths[i]? = some (curPath paths e.parent ++ [e.name])
  node : ∀ (i : Nat) (e : CEntry), st.store[i]? = some e → m (curPath paths e.parent ++ [e.name]) = some e.node
  name : ∀ (i : Nat) (e : CEntry), st.store[i]? = some e → ValidName e.name
  incache : ∀ (i : Nat) (e : CEntry), st.store[i]? = some e → (e.name, ⟨i, e.kind.isDir⟩) ∈ st.cache e.parent
  parent : ∀ (i : Nat) (e : CEntry) p, st.store[i]? = some e → e.parent = some p →
    p < i ∧ ∃ pe : CEntry, st.store[p]? = some pe ∧ pe.kind = .dir
  cache : ∀ cur n ch, (n, ch) ∈ st.cache cur →
    ∃ e : CEntry, st.store[ch.id]? = some e ∧ e.name = n ∧ e.parent = cur ∧ ch.isDir = e.kind.isDir
  cacheNodup : ∀ cur, ((st.cache cur).map (·.1)).Nodup
  dom : ∀ p n, m p = some n → p ∈ paths

/-- A directory handle that designates an existing directory (or the root). -/
def DirHandle (st : Creator) (cur : Option Nat) : Prop :=
  ∀ i, cur = some i → ∃ e : CEntry, st.store[i]? = some e ∧ e.kind = .dir

theorem Rel.new : Rel Creator.new PathMap.empty [] := by
  constructor <;> simp [Creator.new, PathMap.empty]

section
variable {st : Creator} {m : PathMap} {paths : List (List Bytes)} (R : Rel st m paths)
include R

theorem Rel.curPath_inj {c d : Option Nat} (hc : DirHandle st c) (hd : DirHandle st d)
    (h : curPath paths c = curPath paths d) : c = d := by
  cases c with
  | none =>
    cases d with
    | none => rfl
    | some j =>
      obtain ⟨e, he, _⟩ := hd j rfl
      simp [curPath, R.path j e he] at h
  | some i =>
    obtain ⟨e, he, _⟩ := hc i rfl
    cases d with
    | none => simp [curPath, R.path i e he] at h
    | some j =>
      obtain ⟨e', he', _⟩ := hd j rfl
      have h1 := R.path i e he
      have h2 := R.path j e' he'
      have h' : curPath paths e.parent ++ [e.name] = curPath paths e'.parent ++ [e'.name] := by
        have a1 : curPath paths (some i) = curPath paths e.parent ++ [e.name] := by
          rw [curPath, h1]; rfl
        have a2 : curPath paths (some j) = curPath paths e'.parent ++ [e'.name] := by
          rw [curPath, h2]; rfl
        rw [← a1, ← a2, h]
      have : paths[i]? = paths[j]? := by rw [h1, h2, h']
      have hi : i < paths.length := by
        rw [List.getElem?_eq_some_iff] at h1; exact h1.1
      rw [(List.getElem?_inj hi R.nodup).mp this]

/-- The cache of a directory is the map restricted to its children. -/
theorem Rel.lookup_some {cur : Option Nat} {n : Bytes} {ch : Child} (h : lookupName (st.cache cur) n = some ch) :
    ∃ e : CEntry, st.store[ch.id]? = some e ∧ e.parent = cur ∧ e.name = n ∧ ch.isDir = e.kind.isDir ∧
      m (curPath paths cur ++ [n]) = some e.node ∧ paths[ch.id]? = some (curPath paths cur ++ [n]) := by
  obtain ⟨e, he, hn, hp, hd⟩ := R.cache _ _ _ (lookupName_some h)
  refine ⟨e, he, hp, hn, hd, ?_, ?_⟩
  · have := R.node _ e he; rw [hn, hp] at this; exact this
  · have := R.path _ e he; rw [hn, hp] at this; exact this

theorem Rel.parentHandle {i : Nat} {e : CEntry} (h : st.store[i]? = some e) : DirHandle st e.parent := by
  intro p hp; exact (R.parent i e p h hp).2

theorem Rel.mem_paths {p : List Bytes} (h : p ∈ paths) :
    ∃ i : Nat, ∃ e : CEntry, st.store[i]? = some e ∧ p = curPath paths e.parent ++ [e.name] ∧ paths[i]? = some p := by
  obtain ⟨i, hi, rfl⟩ := List.mem_iff_getElem.mp h
  have hi' : i < st.store.length := by rw [← R.len]; exact hi
  refine ⟨i, st.store[i], by simp, ?_, by simp⟩
  have := R.path i st.store[i] (by simp)
  rw [List.getElem?_eq_getElem hi] at this; simpa using this

theorem Rel.not_mem_of_lookup_none {cur : Option Nat} {n : Bytes} (hc : DirHandle st cur)
    (h : lookupName (st.cache cur) n = none) : curPath paths cur ++ [n] ∉ paths := by
  intro hm
  obtain ⟨i, e, he, hp, _⟩ := R.mem_paths hm
  have hp' := List.append_inj' hp rfl
  have : cur = e.parent := R.curPath_inj hc (R.parentHandle he) hp'.1
  have hn : n = e.name := by simpa using hp'.2
  subst this; subst hn
  exact lookupName_none h _ (R.incache i e he)

theorem Rel.map_none_of_lookup_none {cur : Option Nat} {n : Bytes} (hc : DirHandle st cur)
    (h : lookupName (st.cache cur) n = none) : m (curPath paths cur ++ [n]) = none := by
  cases hm : m (curPath paths cur ++ [n]) with
  | none => rfl
  | some x => exact absurd (R.dom _ _ hm) (R.not_mem_of_lookup_none hc h)

theorem Rel.insertNew {cur : Option Nat} {n : Bytes} (hc : DirHandle st cur) (hn : ValidName n)
    (h : lookupName (st.cache cur) n = none) (info : Meta) (kind : Kind) :
    Rel (st.insertNew cur n info kind) (setNode m (curPath paths cur ++ [n]) ⟨info, kind⟩)
      (paths ++ [curPath paths cur ++ [n]]) := by
  have hnot := R.not_mem_of_lookup_none hc h
  -- lookups of old handles are unchanged
  have hcp : ∀ c, DirHandle st c → curPath (paths ++ [curPath paths cur ++ [n]]) c = curPath paths c := by
    intro c hcd
    cases c with
    | none => rfl
    | some i =>
      obtain ⟨e, he, _⟩ := hcd i rfl
      have hi : i < paths.length := by
        rw [R.len]; exact (List.getElem?_eq_some_iff.mp he).1
      simp [curPath, List.getElem?_append_left hi]
  have hstore : ∀ (i : Nat) (e : CEntry), (st.insertNew cur n info kind).store[i]? = some e →
      st.store[i]? = some e ∨ (i = st.store.length ∧ e = ⟨n, cur, info, kind⟩) := by
    intro i e he
    simp only [Creator.insertNew, List.getElem?_append] at he
    split at he
    · exact Or.inl he
    · rename_i hi
      have : i - st.store.length = 0 := by
        cases hk : i - st.store.length with
        | zero => rfl
        | succ k => rw [hk] at he; simp at he
      right
      rw [this] at he; simp at he
      exact ⟨by omega, he.symm⟩
  have hstoreOld : ∀ (i : Nat) (e : CEntry), st.store[i]? = some e → (st.insertNew cur n info kind).store[i]? = some e := by
    intro i e he
    have := (List.getElem?_eq_some_iff.mp he).1
    simp [Creator.insertNew, List.getElem?_append_left this, he]
  have hstoreNew : (st.insertNew cur n info kind).store[st.store.length]? = some ⟨n, cur, info, kind⟩ := by
    simp [Creator.insertNew]
  constructor
  · simp [Creator.insertNew, R.len]
  · rw [List.nodup_append]
    refine ⟨R.nodup, by simp, ?_⟩
    intro a ha b hb; simp at hb; subst hb; exact fun e => hnot (e ▸ ha)
  · intro i e he
    rcases hstore i e he with he' | ⟨hi, rfl⟩
    · have hlt : i < paths.length := by
        rw [R.len]; exact (List.getElem?_eq_some_iff.mp he').1
      rw [List.getElem?_append_left hlt, hcp _ (R.parentHandle he')]
      exact R.path i e he'
    · subst hi; rw [← R.len, hcp cur hc]; simp
  · intro i e he
    rcases hstore i e he with he' | ⟨hi, rfl⟩
    · rw [hcp _ (R.parentHandle he')]
      have hp := R.path i e he'
      have : curPath paths e.parent ++ [e.name] ≠ curPath paths cur ++ [n] := by
        intro hh; rw [hh] at hp
        exact hnot (List.mem_of_getElem? hp)
      simp only [setNode, if_neg this]; exact R.node i e he'
    · rw [hcp cur hc]; simp [setNode, CEntry.node]
  · intro i e he
    rcases hstore i e he with he' | ⟨hi, rfl⟩
    · exact R.name i e he'
    · exact hn
  · intro i e he
    rcases hstore i e he with he' | ⟨hi, rfl⟩
    · simp only [Creator.insertNew]
      split
      · rename_i hpar; rw [List.mem_append]; left; rw [← hpar]; exact R.incache i e he'
      · exact R.incache i e he'
    · subst hi; simp [Creator.insertNew]
  · intro i e p he hp
    rcases hstore i e he with he' | ⟨hi, rfl⟩
    · obtain ⟨h1, pe, h2, h3⟩ := R.parent i e p he' hp
      exact ⟨h1, pe, hstoreOld _ _ h2, h3⟩
    · obtain ⟨pe, h2, h3⟩ := hc p hp
      refine ⟨?_, pe, hstoreOld _ _ h2, h3⟩
      rw [hi]; exact (List.getElem?_eq_some_iff.mp h2).1
  · intro c n' ch hm
    simp only [Creator.insertNew] at hm
    split at hm
    · rename_i hcc
      rw [List.mem_append] at hm
      rcases hm with hm | hm
      · obtain ⟨e, h1, h2, h3, h4⟩ := R.cache _ _ _ hm
        exact ⟨e, hstoreOld _ _ h1, h2, h3.trans hcc.symm, h4⟩
      · simp at hm; obtain ⟨rfl, rfl⟩ := hm
        exact ⟨_, hstoreNew, rfl, hcc.symm, rfl⟩
    · obtain ⟨e, h1, h2, h3, h4⟩ := R.cache _ _ _ hm
      exact ⟨e, hstoreOld _ _ h1, h2, h3, h4⟩
  · intro c
    simp only [Creator.insertNew]
    split
    · rw [List.map_append, List.nodup_append]
      refine ⟨R.cacheNodup cur, by simp, ?_⟩
      intro a ha b hb
      simp at hb; subst hb
      intro e; subst e
      obtain ⟨x, hx, hx2⟩ := List.mem_map.mp ha
      refine lookupName_none h x.2 ?_
      rw [← hx2]; exact hx
    · exact R.cacheNodup c
  · intro p x hp
    simp only [setNode] at hp
    split at hp
    · rename_i hpe; simp [hpe]
    · rw [List.mem_append]; exact Or.inl (R.dom p x hp)

/-- paths are what the entries spell; every prefix is a directory -/
theorem Rel.wf : m.WF := by
  have key : ∀ (k i : Nat) (e : CEntry), i < k → st.store[i]? = some e →
      (∀ c ∈ curPath paths e.parent ++ [e.name], ValidName c) ∧
      (∀ q, ProperAncestor q (curPath paths e.parent ++ [e.name]) → ∃ d, m q = some d ∧ d.isDir = true) := by
    intro k
    induction k with
    | zero => intro i e h; omega
    | succ k ih =>
      intro i e hi he
      cases hp : e.parent with
      | none =>
        constructor
        · intro c hc; simp [curPath] at hc; subst hc; exact R.name i e he
        · intro q hq
          obtain ⟨h1, h2, h3⟩ := hq
          simp [curPath] at h3 h2
          rcases q with _ | ⟨x, xs⟩
          · exact absurd rfl h1
          · obtain ⟨t, ht⟩ := h3; simp at ht; simp [ht] at h2
      | some p =>
        obtain ⟨hlt, pe, hpe, hdir⟩ := R.parent i e p he hp
        obtain ⟨ihn, iha⟩ := ih p pe (by omega) hpe
        have hcp : curPath paths (some p) = curPath paths pe.parent ++ [pe.name] := by
          simp [curPath, R.path p pe hpe]
        rw [hcp]
        constructor
        · intro c hc
          rw [List.mem_append] at hc
          rcases hc with hc | hc
          · exact ihn c hc
          · simp at hc; subst hc; exact R.name i e he
        · intro q hq
          obtain ⟨h1, h2, h3⟩ := hq
          rw [List.prefix_concat_iff] at h3
          rcases h3 with h3 | h3
          · exact absurd h3 h2
          · by_cases hq : q = curPath paths pe.parent ++ [pe.name]
            · subst hq; exact ⟨_, R.node p pe hpe, by simp [CEntry.node, Node.isDir, hdir, Kind.isDir]⟩
            · exact iha q ⟨h1, hq, h3⟩
  constructor
  · cases h : m [] with
    | none => rfl
    | some x =>
      obtain ⟨i, e, _, hp, _⟩ := R.mem_paths (R.dom _ _ h)
      simp at hp
  · intro p x hx c hc
    obtain ⟨i, e, he, hp, _⟩ := R.mem_paths (R.dom _ _ hx)
    rw [hp] at hc; exact (key (i+1) i e (by omega) he).1 c hc
  · intro p x q hx hq
    obtain ⟨i, e, he, hp, _⟩ := R.mem_paths (R.dom _ _ hx)
    rw [hp] at hq; exact (key (i+1) i e (by omega) he).2 q hq

end

/-- Names along `cs` below `q` that do not exist yet, added as default directories. -/
def addDirs (m : PathMap) : List Bytes → List Bytes → PathMap
  | _, [] => m
  | q, c :: cs => addDirs (match m (q ++ [c]) with | some _ => m | none => setNode m (q ++ [c]) defaultDir) (q ++ [c]) cs

theorem setNode_same (m : PathMap) (p n) : setNode m p n p = some n := by simp [setNode]

theorem setNode_other (m : PathMap) {p q} (n) (h : q ≠ p) : setNode m p n q = m q := by simp [setNode, h]

theorem properAncestor_snoc {q p : List Bytes} {c : Bytes} (hq : q ≠ []) :
    ProperAncestor q (p ++ [c]) ↔ q <+: p := by
  unfold ProperAncestor
  rw [List.prefix_concat_iff]
  constructor
  · rintro ⟨_, h2, h3⟩; exact h3.resolve_left h2
  · intro h; refine ⟨hq, ?_, Or.inr h⟩
    intro e; subst e
    have := h.length_le; simp at this
    omega

/-- Effect of the descent through the parent components: it either stops on a non-directory with the
map unchanged, or ends in the directory handle of the full parent path, all parents existing. -/
theorem Rel.addLoop {req : AddReq} : ∀ (cs : List Bytes) {st : Creator} {m : PathMap} {paths : List (List Bytes)}
    {cur : Option Nat}, Rel st m paths → DirHandle st cur → (∀ c ∈ cs, ValidName c) →
    (∃ q n, q <+: curPath paths cur ++ cs ∧ (curPath paths cur).length < q.length ∧ m q = some n ∧ n.isDir = false ∧
        st.addLoop req cur cs = (st, .err .notADir)) ∨
    ((∀ q, q <+: curPath paths cur ++ cs → (curPath paths cur).length < q.length →
        ∀ n, m q = some n → n.isDir = true) ∧
      ∃ st' paths' cur' m', Rel st' m' paths' ∧ DirHandle st' cur' ∧
        curPath paths' cur' = curPath paths cur ++ cs ∧
        (∀ q, m' q = match m q with
          | some n => some n
          | none => if q <+: curPath paths cur ++ cs ∧ (curPath paths cur).length < q.length
              then some defaultDir else none) ∧
        st.addLoop req cur cs = st'.addFinal req cur') := by
  intro cs
  induction cs with
  | nil =>
    intro st m paths cur R hc hv
    right
    refine ⟨?_, st, paths, cur, m, R, hc, by simp, ?_, rfl⟩
    · intro q hq hl; simp at hq; have := hq.length_le; omega
    · intro q
      cases m q with
      | some n => rfl
      | none =>
        simp only; rw [if_neg]
        rintro ⟨h1, h2⟩
        simp at h1; have := h1.length_le; omega
  | cons c cs ih =>
    intro st m paths cur R hc hv
    have hcv := hv c (by simp)
    have hcsv : ∀ d ∈ cs, ValidName d := fun d hd => hv d (by simp [hd])
    have hassoc : curPath paths cur ++ c :: cs = (curPath paths cur ++ [c]) ++ cs := by simp
    -- prefixes strictly longer than cur: `cur ++ [c]` or longer than that
    have hcase : ∀ q, q <+: (curPath paths cur ++ [c]) ++ cs → (curPath paths cur).length < q.length →
        q = curPath paths cur ++ [c] ∨ (curPath paths cur ++ [c]).length < q.length := by
      intro q hq hl
      by_cases hlen : (curPath paths cur ++ [c]).length < q.length
      · exact Or.inr hlen
      · left
        have h1 : (curPath paths cur ++ [c]) <+: (curPath paths cur ++ [c]) ++ cs := List.prefix_append _ _
        have h2 := List.prefix_of_prefix_length_le hq h1 (by simp at hlen ⊢; omega)
        exact h2.eq_of_length (by simp at hlen ⊢; omega)
    simp only [Creator.addLoop]
    cases hl : lookupName (st.cache cur) c with
    | some ch =>
      have hens : st.ensureDir cur c = st := by simp [Creator.ensureDir, hl]
      rw [hens, hl]
      obtain ⟨e, he, hpar, hname, hdir, hm, hpath⟩ := R.lookup_some hl
      obtain ⟨id, b⟩ := ch
      simp only at he hdir hpath
      cases b with
      | false =>
        left
        refine ⟨curPath paths cur ++ [c], e.node, ?_, by simp, hm, by simp [CEntry.node, Node.isDir, ← hdir], rfl⟩
        rw [hassoc]; exact List.prefix_append _ _
      | true =>
        have hk : e.kind = .dir := Kind.isDir_iff.mp hdir.symm
        have hdh : DirHandle st (some id) := by
          intro i hi; cases hi; exact ⟨e, he, hk⟩
        have hcp : curPath paths (some id) = curPath paths cur ++ [c] := by simp [curPath, hpath]
        have hI := ih (st := st) (m := m) (paths := paths) (cur := some id) R hdh hcsv
        rw [hcp] at hI
        rw [hassoc]
        rcases hI with ⟨q, n, h1, h2, h3, h4, h5⟩ | ⟨hall, st', paths', cur', m', R', hd', hp', hm', heq⟩
        · left; exact ⟨q, n, h1, by simp at h2; omega, h3, h4, h5⟩
        · right
          refine ⟨?_, st', paths', cur', m', R', hd', hp', ?_, heq⟩
          · intro q hq hlen n hn
            rcases hcase q hq hlen with rfl | hlong
            · rw [hm] at hn; cases hn; simp [CEntry.node, Node.isDir, hk, Kind.isDir]
            · exact hall q hq hlong n hn
          · intro q
            rw [hm' q]
            cases hq : m q with
            | some n => rfl
            | none =>
              simp only
              by_cases hx : q <+: (curPath paths cur ++ [c]) ++ cs ∧ (curPath paths cur ++ [c]).length < q.length
              · rw [if_pos hx, if_pos ⟨hx.1, by have := hx.2; simp at this; omega⟩]
              · rw [if_neg hx, if_neg]
                rintro ⟨h1, h2⟩
                rcases hcase q h1 h2 with rfl | hlong
                · rw [hm] at hq; cases hq
                · exact hx ⟨h1, hlong⟩
    | none =>
      have hens : st.ensureDir cur c = st.insertNew cur c defaultMeta .dir := by simp [Creator.ensureDir, hl]
      have R1 := R.insertNew hc hcv hl defaultMeta .dir
      have hmn := R.map_none_of_lookup_none hc hl
      have hl1 : lookupName ((st.insertNew cur c defaultMeta .dir).cache cur) c = some ⟨st.store.length, true⟩ := by
        apply lookupName_of_mem (R1.cacheNodup cur)
        simp [Creator.insertNew, Kind.isDir]
      rw [hens, hl1]
      simp only
      have hdh : DirHandle (st.insertNew cur c defaultMeta .dir) (some st.store.length) := by
        intro i hi; cases hi; exact ⟨⟨c, cur, defaultMeta, .dir⟩, by simp [Creator.insertNew], rfl⟩
      have hcp : curPath (paths ++ [curPath paths cur ++ [c]]) (some st.store.length) = curPath paths cur ++ [c] := by
        simp [curPath, ← R.len]
      have hI := ih R1 hdh hcsv
      rw [hcp] at hI
      rw [hassoc]
      -- nothing exists below a missing path
      have hbelow : ∀ q, (curPath paths cur ++ [c]) <+: q → m q = none := by
        intro q hq
        cases hx : m q with
        | none => rfl
        | some n =>
          by_cases hqq : curPath paths cur ++ [c] = q
          · rw [← hqq, hmn] at hx; cases hx
          · obtain ⟨d, hd, _⟩ := R.wf.ancestors q n _ hx ⟨by simp, hqq, hq⟩
            rw [hmn] at hd; cases hd
      rcases hI with ⟨q, n, h1, h2, h3, h4, h5⟩ | ⟨hall, st', paths', cur', m', R', hd', hp', hm', heq⟩
      · exfalso
        have hpre : (curPath paths cur ++ [c]) <+: q :=
          List.prefix_of_prefix_length_le (List.prefix_append _ _) h1 (by omega)
        rw [setNode_other _ _ (by intro e; subst e; omega), hbelow q hpre] at h3
        cases h3
      · right
        refine ⟨?_, st', paths', cur', m', R', hd', hp', ?_, heq⟩
        · intro q hq hlen n hn
          have hpre : (curPath paths cur ++ [c]) <+: q :=
            List.prefix_of_prefix_length_le (List.prefix_append _ _) hq (by simp; omega)
          rw [hbelow q hpre] at hn; cases hn
        · intro q
          rw [hm' q]
          by_cases hq : q = curPath paths cur ++ [c]
          · subst hq
            rw [setNode_same, hmn]
            simp [defaultDir]
          · rw [setNode_other _ _ hq]
            cases hmq : m q with
            | some n => rfl
            | none =>
              simp only
              by_cases hx : q <+: (curPath paths cur ++ [c]) ++ cs ∧ (curPath paths cur ++ [c]).length < q.length
              · rw [if_pos hx, if_pos ⟨hx.1, by have := hx.2; simp at this; omega⟩]
              · rw [if_neg hx, if_neg]
                rintro ⟨h1, h2⟩
                rcases hcase q h1 h2 with rfl | hlong
                · exact hq rfl
                · exact hx ⟨h1, hlong⟩

theorem entryPath_valid {p : RPath} {c : Bytes} (h : c ∈ entryPath p) : ValidName c := by
  apply comps_valid (p := p)
  simp only [entryPath, dropTrailingCur, List.mem_reverse] at h
  have := (List.dropWhile_sublist (· == CUR)).subset h
  simpa using this

theorem entryPath_fileName (p : RPath) :
    RPath.fileName p = match (entryPath p).getLast? with
      | some c => if c = PARENT then none else some c
      | none => none := fileName_eq p

theorem addEntry_eq (st : Creator) (req : AddReq) :
    st.addEntry req = st.addLoop req none (entryPath req.path).dropLast := by
  simp only [Creator.addEntry]
  cases h : RPath.parent req.path with
  | none =>
    rw [parent_eq_none] at h
    simp [h, entryPath]
  | some q => simp [comps_parent h, entryPath]

/-- One add refines the specification. -/
theorem Rel.addEntry {st : Creator} {m : PathMap} {paths : List (List Bytes)} (R : Rel st m paths) (req : AddReq) :
    ∃ m', SpecAdd m req m' (st.addEntry req).2 ∧
      ((st.addEntry req).2 ≠ .panic → ∃ paths', Rel (st.addEntry req).1 m' paths') := by
  rw [addEntry_eq]
  have hv : ∀ c ∈ (entryPath req.path).dropLast, ValidName c :=
    fun c hc => entryPath_valid (List.dropLast_subset _ hc)
  have hroot : DirHandle st none := by intro i hi; cases hi
  have hanc : ∀ q, (q <+: (entryPath req.path).dropLast ∧ 0 < q.length) ↔ ProperAncestor q (entryPath req.path) := by
    intro q
    rcases List.eq_nil_or_concat (entryPath req.path) with h | ⟨p, c, h⟩
    · rw [h]; simp [ProperAncestor]
    · rw [h]; simp only [List.concat_eq_append, List.dropLast_concat]
      constructor
      · rintro ⟨h1, h2⟩
        have hq : q ≠ [] := by intro e; subst e; simp at h2
        exact (properAncestor_snoc hq).mpr h1
      · intro hpa
        exact ⟨(properAncestor_snoc hpa.1).mp hpa, List.length_pos_iff.mpr hpa.1⟩
  have h := Rel.addLoop (req := req) (entryPath req.path).dropLast R hroot hv
  simp only [curPath_none, List.nil_append, List.length_nil] at h
  rcases h with ⟨q, n, h1, h2, h3, h4, h5⟩ | ⟨hall, st', paths', cur', m', R', hd', hp', hm', heq⟩
  · rw [h5]
    exact ⟨m, .blocked ⟨q, n, (hanc q).mp ⟨h1, h2⟩, h3, h4⟩, fun _ => ⟨paths, R⟩⟩
  · have hnb : ¬ Blocked m (entryPath req.path) := by
      rintro ⟨q, n, hpa, hmq, hnd⟩
      obtain ⟨h1, h2⟩ := (hanc q).mpr hpa
      rw [hall q h1 h2 n hmq] at hnd; cases hnd
    have hwp : m' = withParents m (entryPath req.path) := by
      funext q
      rw [hm' q]; simp only [withParents]
      cases m q with
      | some n => rfl
      | none =>
        simp only
        by_cases hx : ProperAncestor q (entryPath req.path)
        · rw [if_pos hx]; exact if_pos ((hanc q).mpr hx)
        · rw [if_neg hx]; exact if_neg (fun hh => hx ((hanc q).mp hh))
    rw [heq]
    simp only [Creator.addFinal]
    cases hk : req.kind with
    | error u => exact ⟨m', hwp ▸ .kindErr u hnb hk, fun _ => ⟨paths', R'⟩⟩
    | ok ok =>
      cases ok with
      | none => exact ⟨m', hwp ▸ .ignored hnb hk, fun _ => ⟨paths', R'⟩⟩
      | some k =>
        simp only
        rw [entryPath_fileName]
        rcases List.eq_nil_or_concat (entryPath req.path) with h | ⟨p, c, h⟩
        · simp only [h, List.getLast?_nil]
          exact ⟨m, .noName m k hnb hk (Or.inl h), fun hh => absurd rfl hh⟩
        · rw [List.concat_eq_append] at h
          simp only [h, List.getLast?_concat]
          by_cases hpar : c = PARENT
          · simp only [if_pos hpar]
            exact ⟨m, .noName m k hnb hk (Or.inr (by rw [h, hpar]; simp)), fun hh => absurd rfl hh⟩
          · simp only [if_neg hpar]
            have hne : entryPath req.path ≠ [] := by rw [h]; simp
            have hlast : (entryPath req.path).getLast? ≠ some PARENT := by rw [h]; simpa using hpar
            have hcv : ValidName c := entryPath_valid (p := req.path) (by rw [h]; simp)
            have hp'' : curPath paths' cur' = p := by rw [hp', h]; simp
            -- the map at the path itself
            have hmp : m' (entryPath req.path) = m (entryPath req.path) := by
              rw [hwp]; simp only [withParents]
              cases m (entryPath req.path) with
              | some n => rfl
              | none => simp [ProperAncestor]
            cases hl : lookupName (st'.cache cur') c with
            | none =>
              have hmn := R'.map_none_of_lookup_none hd' hl
              rw [hp'', ← h, hmp] at hmn
              have hins := R'.insertNew hd' hcv hl req.info k
              rw [hp'', ← h, hwp] at hins
              have hadd := SpecAdd.added (m := m) (r := req) k hnb hne hlast hk hmn
              cases k with
              | dir => exact ⟨_, hadd, fun _ => ⟨_, hins⟩⟩
              | file s a => exact ⟨_, hadd, fun _ => ⟨_, hins⟩⟩
              | link t => exact ⟨_, hadd, fun _ => ⟨_, hins⟩⟩
            | some ch =>
              obtain ⟨e, he, hpar', hname, hdir, hm, hpath⟩ := R'.lookup_some hl
              rw [hp'', ← h, hmp] at hm
              -- the whole path exists, so no parent was missing
              have hsame : m' = m := by
                funext q
                rw [hwp]; simp only [withParents]
                cases hmq : m q with
                | some n => rfl
                | none =>
                  simp only
                  rw [if_neg]
                  intro hpa
                  obtain ⟨d, hd, _⟩ := R.wf.ancestors _ _ q hm hpa
                  rw [hmq] at hd; cases hd
              rw [hsame] at R'
              obtain ⟨id, b⟩ := ch
              cases k with
              | dir =>
                cases b with
                | true =>
                  exact ⟨m, .sameDir e.node hnb hne hlast hk hm (by simp [CEntry.node, Node.isDir, ← hdir]),
                    fun _ => ⟨_, R'⟩⟩
                | false =>
                  exact ⟨m, .exists .dir e.node _ hnb hne hlast hk hm (by simp [CEntry.node, Node.isDir, ← hdir]),
                    fun _ => ⟨_, R'⟩⟩
              | file s a =>
                exact ⟨m, .exists _ e.node _ hnb hne hlast hk hm (by simp [Kind.isDir]), fun _ => ⟨_, R'⟩⟩
              | link t =>
                exact ⟨m, .exists _ e.node _ hnb hne hlast hk hm (by simp [Kind.isDir]), fun _ => ⟨_, R'⟩⟩

/-- Every history refines the specification. -/
theorem Rel.run {rs : List AddReq} : ∀ {st st' : Creator} {m : PathMap} {paths : List (List Bytes)},
    Rel st m paths → st.run rs = some st' → ∃ m' paths', SpecRun m rs m' ∧ Rel st' m' paths' := by
  induction rs with
  | nil => intro st st' m paths R h; simp [Creator.run] at h; subst h; exact ⟨m, paths, .nil m, R⟩
  | cons r rs ih =>
    intro st st' m paths R h
    obtain ⟨m1, hs, hR⟩ := R.addEntry r
    simp only [Creator.run] at h
    cases ho : st.addEntry r with
    | mk s1 o =>
      rw [ho] at h hs hR
      have hne : o ≠ .panic := by intro e; subst e; simp at h
      obtain ⟨p1, R1⟩ := hR hne
      have h' : s1.run rs = some st' := by
        cases o with
        | panic => exact absurd rfl hne
        | ok => exact h
        | err e => exact h
      obtain ⟨m', p', hr, hR'⟩ := ih R1 h'
      exact ⟨m', p', .cons hs hne hr, hR'⟩

end Arx
