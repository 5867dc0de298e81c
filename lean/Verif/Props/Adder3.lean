import Verif.Props.Adder2
/-!
# Create then extract (C35)
-/
namespace Arx

/-- **C35.** Let a directory tree at `q` of an unchanging source be added to a new archive with
`add_from_path(root, recurse)`, stored under the names `k`: for every tree with UTF-8 names and link targets,
every order in which directories are listed and every interleaving of the two threads, the result is Ok; and
for every way jubako may lay out the archive, and every extraction of it to an empty or missing directory in
which no call fails — in any mode, with any interleaving of the writers — the extraction succeeds, and
reproduces the tree at `q` — the same paths, file contents and link targets — and nothing else. -/
theorem C35_create_extract {s : Src} {env : CEnv} {pre root : RPath} {q k : List Bytes} {ls : ReadDir} {depth : Nat}
    {sched : List Bool} {e : AOut}
    (hquiet : Quiet env s) (hwf : s.WF) (hls : FullListing s ls) (hq : LeadsTo s env.cwd root q)
    (hdepth : ∀ p, s.fs.nodes (q ++ p) ≠ none → p.length ≤ depth)
    (hrel : root.head? ≠ some SEP) (hstored : StoredAs root pre k) (hpar : PARENT ∉ k)
    (hroot : ∀ c ∈ comps root, validUtf8 c = true)
    (hbelow : ∀ p x, s.fs.nodes (q ++ p) = some x → ∀ c ∈ p, validUtf8 c = true)
    (htargets : ∀ p t u, s.fs.nodes (q ++ p) = some (.link t u) → validUtf8 t = true)
    (hend : (Chan.run env pre root (Chan.start Adder.new (walkItems env.cwd s ls depth root true)) sched).result = some e) :
    e = .ok ∧
    let fin := (Chan.run env pre root (Chan.start Adder.new (walkItems env.cwd s ls depth root true)) sched).adder
    ∀ o, IsLayout fin.creator o → fin.creator.store.length < 2 ^ 32 →
    ∀ (cfg : XCfg) (before after : FS) (res : XResult), cfg.a = writeArchive fin.creator o → cfg.bytes = packBytes fin.contents →
      cfg.files = [] → EmptyTarget before cfg.base → CleanExtraction cfg cfg.a.root before after res →
      res = .ok ∧ SameTree s q after (cfg.base ++ k) ∧
      (∀ z, ¬ k <+: z → ¬ z <+: k → after.nodes (cfg.base ++ z) = none) := by
  obtain ⟨hne, hres, hdir⟩ := hq
  have C : TreeCtx s env pre root q k := ⟨hquiet, hwf, hne, hrel, hres, hdir, hstored, hroot, hbelow⟩
  obtain ⟨t, hd⟩ := hdir
  obtain ⟨ns, hns, hg⟩ := hls.names
  have hlast : k.getLast? ≠ some PARENT := fun h => hpar (List.mem_of_getLast? h)
  obtain ⟨a', m', rs, w1, w2, w3, w4, w5⟩ := C.whole hlast hg hdepth
  have hitems := walkItems_eq hns hne hres hd depth
  have hrun := Chan.run_result hend
  have hgp : goodPrefix (walkItems env.cwd s ls depth root true) =
      ([] :: walkRel s ns depth q).map (fun p => p.foldl joinChild root) := by
    rw [hitems]
    have := goodPrefix_ok (([] :: walkRel s ns depth q).map (fun p => p.foldl joinChild root))
    rw [List.map_map] at this
    exact this
  rw [hgp, w1] at hrun
  have e1 := congrArg Prod.fst hrun
  have e2 := congrArg Prod.snd hrun
  simp only at e1 e2
  refine ⟨e2.symm, ?_⟩
  simp only
  rw [← e1]
  intro o hlay hlen cfg before after res ha hb hf hT hx
  have hW : Written rs cfg.a := ⟨_, o, w2, hlay, ha, hlen⟩
  have hnul : ∀ c ∈ namesOf env.cwd root, (0 : UInt8) ∉ c := by
    have := (FS.resolve_ok hres).1
    simpa using this
  have hsub : ∀ c ∈ k, c ∈ comps root := fun c hc => (List.mem_filter.mp (by rw [hstored]; simp [hc])).1
  have hkp : ∀ c ∈ k, PlainName c := fun c hc => ⟨C.kValid.2 c hc, fun e => hpar (e ▸ hc), hnul c (by
    refine List.mem_append_left _ ?_
    unfold baseNames; split
    · exact hsub c hc
    · simp [hsub c hc])⟩
  have hku : ∀ c ∈ k, validUtf8 c = true := fun c hc => hroot c (hsub c hc)
  have hsplit : ∀ z n, m' z = some n → (∀ c ∈ z, PlainName c) ∧ ∀ c ∈ z, validUtf8 c = true := by
    intro z n hz
    rcases w5 z n hz with ⟨p, rfl, hp⟩ | ⟨hp, _⟩
    · obtain ⟨x, hx⟩ := Option.ne_none_iff_exists'.mp hp
      refine ⟨fun c hc => ?_, fun c hc => ?_⟩ <;> rcases List.mem_append.mp hc with h | h
      · exact hkp c h
      · exact (C.names hx).2 c h
      · exact hku c h
      · exact hbelow p x hx c h
    · exact ⟨fun c hc => hkp c (hp.subset hc), fun c hc => hku c (hp.subset hc)⟩
  have hs : m'.sub [] = m' := by
    obtain ⟨P, G⟩ := hW.good' w3
    funext p
    simp only [PathMap.sub, List.nil_append]
    split
    · rename_i e; rw [e]; exact G.wf.root.symm
    · rfl
  have m0 : m' [] = none := by
    rw [← hs]; simp [PathMap.sub]
  -- an entry of the archive that is not a directory is one of the tree
  have hone : ∀ z n, m' z = some n → n.kind ≠ .dir → ∃ p, z = k ++ p ∧ Archived s (packBytes a'.contents) (q ++ p) (some n) := by
    intro z n hz hnd
    rcases w5 z n hz with ⟨p, rfl, hp⟩ | ⟨_, rfl⟩
    · refine ⟨p, rfl, ?_⟩
      have := w4 p hp (fun e => by rw [e, m0] at hz; cases hz)
      rwa [hz] at this
    · exact absurd rfl hnd
  have hE : Extractable (m'.sub []) cfg.bytes := by
    rw [hs]
    refine ⟨fun p n hp => (hsplit p n hp).1, fun p n hp => (hsplit p n hp).2, ?_, ?_⟩
    · intro z n tg hz hk
      obtain ⟨p, rfl, hA⟩ := hone z n hz (by rw [hk]; simp)
      unfold Archived at hA
      cases hx : s.fs.nodes (q ++ p) with
      | none => rw [hx] at hA; exact hA.elim
      | some x =>
        rw [hx] at hA
        cases x with
        | dir u => simp only at hA; cases hA; cases hk
        | link tg' u =>
          simp only at hA; cases hA; cases hk
          exact ⟨htargets p _ u hx, hwf.targets _ _ u hx⟩
        | file i =>
          simp only at hA
          split at hA
          · cases hA
          · obtain ⟨ad, hA, _⟩ := hA; cases hA; cases hk
    · intro z n sz c hz hk
      obtain ⟨p, rfl, hA⟩ := hone z n hz (by rw [hk]; simp)
      unfold Archived at hA
      cases hx : s.fs.nodes (q ++ p) with
      | none => rw [hx] at hA; exact hA.elim
      | some x =>
        rw [hx] at hA
        cases x with
        | dir u => simp only at hA; cases hA; cases hk
        | link tg' u => simp only at hA; cases hA; cases hk
        | file i =>
          simp only at hA
          split at hA
          · cases hA
          · obtain ⟨ad, hA, hb'⟩ := hA; cases hA; cases hk
            exact ⟨_, by rw [hb]; exact hb'⟩
  obtain ⟨r1, r2, _⟩ := C14_reproduces ⟨hW, w3, Or.inl ⟨rfl, rfl⟩⟩ hf hE hT hx
  rw [hs] at r2
  refine ⟨r1, ⟨?_, ?_, ?_, ?_, ?_⟩, ?_⟩
  · intro p u hp
    rw [List.append_assoc]
    by_cases e : k ++ p = []
    · rw [e, List.append_nil]; exact r2.root
    · have := w4 p (by rw [hp]; simp) e
      unfold Archived at this; rw [hp] at this
      exact r2.dirs _ _ this rfl
  · intro p i hp hsp
    have hne : k ++ p ≠ [] := by
      intro e
      obtain ⟨_, rfl⟩ := List.append_eq_nil_iff.mp e
      rw [List.append_nil, hd] at hp; cases hp
    have := w4 p (by rw [hp]; simp) hne
    unfold Archived at this; rw [hp] at this
    simp only [hsp, Bool.false_eq_true, if_false] at this
    obtain ⟨ad, h1, h2⟩ := this
    obtain ⟨j, hj1, hj2⟩ := r2.files _ _ _ ad h1 rfl
    rw [hb, h2] at hj2
    exact ⟨j, by rw [List.append_assoc]; exact hj1, by injection hj2 with h; exact h.symm⟩
  · intro p tg u hp
    have hne : k ++ p ≠ [] := by
      intro e
      obtain ⟨_, rfl⟩ := List.append_eq_nil_iff.mp e
      rw [List.append_nil, hd] at hp; cases hp
    have := w4 p (by rw [hp]; simp) hne
    unfold Archived at this; rw [hp] at this
    rw [List.append_assoc]
    exact r2.links _ _ tg this rfl
  · intro p i hp hsp
    have hne : k ++ p ≠ [] := by
      intro e
      obtain ⟨_, rfl⟩ := List.append_eq_nil_iff.mp e
      rw [List.append_nil, hd] at hp; cases hp
    have := w4 p (by rw [hp]; simp) hne
    unfold Archived at this; rw [hp] at this
    simp only [hsp, if_true] at this
    rw [List.append_assoc]
    exact r2.nothing _ hne this
  · intro p hp
    have hpe : p ≠ [] := by rintro rfl; rw [List.append_nil, hd] at hp; cases hp
    rw [List.append_assoc]
    refine r2.nothing _ (by simp [hpe]) ?_
    cases hm : m' (k ++ p) with
    | none => rfl
    | some n =>
      rcases w5 _ n hm with ⟨p', e, hp'⟩ | ⟨h, _⟩
      · have := List.append_cancel_left e; subst this; exact absurd hp hp'
      · have := h.length_le
        simp only [List.length_append] at this
        exact absurd (List.length_eq_zero_iff.mp (by omega)) hpe
  · intro z h1 h2
    refine r2.nothing z (fun e => h2 (by rw [e]; exact List.nil_prefix)) ?_
    cases hm : m' z with
    | none => rfl
    | some n =>
      rcases w5 _ n hm with ⟨p', e, _⟩ | ⟨h, _⟩
      · exact absurd (by rw [e]; exact List.prefix_append _ _) h1
      · exact absurd h h2

/-- the example source, archived, … -/
def treeFin : Adder := (exChan exLs).adder
/-- … laid out, … -/
def treeArchive : Archive := writeArchive treeFin.creator [0, 3, 1, 2]
/-- … and extracted to `/t` -/
def treeCfg : XCfg := ⟨treeArchive, packBytes treeFin.contents, [], true, [ascii "t"], .error, quiet⟩
def treeRun : World × XResult := treeCfg.extractRange 5 treeArchive.root fs0 finish

/-- the hypotheses of `C35_create_extract` are met -/
example : (exChan exLs).result = some .ok ∧ IsLayout treeFin.creator [0, 3, 1, 2] ∧ treeFin.creator.store.length < 2 ^ 32 ∧
    EmptyTarget fs0 treeCfg.base ∧ CleanExtraction treeCfg treeCfg.a.root fs0 treeRun.1.fs treeRun.2 := by
  refine ⟨by decide, ⟨by decide, by decide⟩, by decide, exT, fun _ => rfl, (fun _ x h => by cases h), 5, finish, treeRun.1,
    by decide, rfl, by decide, rfl, by intro x hx; revert x; decide⟩

/-- and the conclusion can be seen -/
example : treeRun.2 = .ok ∧
    treeRun.1.fs.nodes [ascii "t", ascii "d", ascii "s", ascii "l"] = some (.link (ascii "../f") fs0.now) ∧
    treeRun.1.fs.nodes [ascii "t", ascii "d", ascii "p"] = none ∧
    (treeRun.1.fs.data 0).bytes = ascii "hi" := by decide

end Arx
