import Verif.Spec.SameItems
import Verif.Props.Reproduce
import Verif.Props.ConvMount
/-!
# C91: the same items, the same archive
-/
namespace Arx

/-! ## From items to archives -/

theorem PackItem.Is.equal {x : PackItem} {bytes bytes' : ContentAddr → GetBytes} {n n' : Node} (h : x.Is bytes n) (h' : x.Is bytes' n') :
    EqualEntry bytes bytes' n n' := by
  obtain ⟨h1, h2⟩ := h
  obtain ⟨h3, h4⟩ := h'
  refine ⟨h1.trans h3.symm, ?_⟩
  cases hw : x.what <;> cases hk : n.kind <;> cases hk' : n'.kind <;> rw [hw, hk] at h2 <;> rw [hw, hk'] at h4 <;>
    first | trivial | exact False.elim h2 | exact False.elim h4 | exact h2.symm.trans h4 | exact ⟨h2.1.symm.trans h4.1, _, h2.2, h4.2⟩

theorem HasItems.same {bytes bytes' : ContentAddr → GetBytes} {I J : PackItem → Prop} (hIJ : ∀ x, I x ↔ J x) {m m' : PathMap}
    (h : HasItems bytes I m) (h' : HasItems bytes' J m') : SameMap bytes bytes' m m' := by
  -- what is in one is in the other
  have key : ∀ z n, m z = some n → ∃ n', m' z = some n' ∧ EqualEntry bytes bytes' n n' := by
    intro z n hz
    obtain ⟨x, hx, hpos⟩ := h.only z n hz
    by_cases hitem : ∃ y, I y ∧ y.names = z
    · obtain ⟨y, hy, rfl⟩ := hitem
      obtain ⟨n1, e1, i1⟩ := h.items y hy
      rw [hz] at e1; cases e1
      obtain ⟨n2, e2, i2⟩ := h'.items y ((hIJ y).mp hy)
      exact ⟨n2, e2, i1.equal i2⟩
    · have hno : ∀ y, I y → y.names ≠ z := fun y hy e => hitem ⟨y, hy, e⟩
      rcases hpos with rfl | hp
      · exact absurd rfl (hno x hx)
      · have e1 := h.above x z hx hp hno
        have e2 := h'.above x z ((hIJ x).mp hx) hp (fun y hy => hno y ((hIJ y).mpr hy))
        rw [hz] at e1; cases e1
        exact ⟨_, e2, rfl, trivial⟩
  have key' : ∀ z n', m' z = some n' → ∃ n, m z = some n := by
    intro z n' hz
    obtain ⟨x, hx, hpos⟩ := h'.only z n' hz
    have hx := (hIJ x).mpr hx
    by_cases hitem : ∃ y, I y ∧ y.names = z
    · obtain ⟨y, hy, rfl⟩ := hitem
      obtain ⟨n1, e1, _⟩ := h.items y hy
      exact ⟨n1, e1⟩
    · have hno : ∀ y, I y → y.names ≠ z := fun y hy e => hitem ⟨y, hy, e⟩
      rcases hpos with rfl | hp
      · exact absurd rfl (hno x hx)
      · exact ⟨_, h.above x z hx hp hno⟩
  intro z
  cases hz : m z with
  | some n =>
    obtain ⟨n', e, heq⟩ := key z n hz
    exact Or.inr ⟨n, n', rfl, e, heq⟩
  | none =>
    left
    refine ⟨rfl, ?_⟩
    cases hz' : m' z with
    | none => rfl
    | some n' =>
      obtain ⟨n, e⟩ := key' z n' hz'
      rw [hz] at e; cases e

/-- what is known of the creator of a finished tool -/
structure PackedAs (st : Creator) (bytes : ContentAddr → GetBytes) (I : PackItem → Prop) : Prop where
  out : ∃ rs m, Creator.new.run rs = some st ∧ SpecRun PathMap.empty rs m ∧ (∀ r ∈ rs, validUtf8 r.path = true) ∧
    (∀ p n, m p = some n → CUR ∉ p) ∧ HasItems bytes I m

theorem PackedAs.same {st st' : Creator} {bytes bytes' : ContentAddr → GetBytes} {I J : PackItem → Prop} (h : PackedAs st bytes I)
    (h' : PackedAs st' bytes' J) (hIJ : ∀ x, I x ↔ J x) {order order' : List Nat} (ho : IsLayout st order) (ho' : IsLayout st' order')
    (hlen : st.store.length < 2 ^ 32) (hlen' : st'.store.length < 2 ^ 32) : ReadSame st st' order order' bytes bytes' := by
  obtain ⟨rs, m, hr, hm, hu, hdot, hI⟩ := h.out
  obtain ⟨rs', m', hr', hm', hu', hdot', hI'⟩ := h'.out
  have hsame := hI.same hIJ hI'
  have hW : Written rs (writeArchive st order) := ⟨_, order, hr, ho, rfl, hlen⟩
  have hW' : Written rs' (writeArchive st' order') := ⟨_, order', hr', ho', rfl, hlen'⟩
  obtain ⟨P, G⟩ := hW.good' hm
  obtain ⟨P', G'⟩ := hW'.good' hm'
  have hlt : ∀ {st : Creator} {order : List Nat} {depth : Nat}, IsLayout st order → st.store.length < depth →
      (writeArchive st order).entries.length < depth := by
    intro st order depth ho hd
    have : (writeArchive st order).entries.length ≤ order.length := by
      simp only [writeArchive]; exact List.length_filterMap_le _ _
    have := ho.1.length_eq
    simp only [List.length_range] at this
    omega
  refine ⟨hsame.archive G.toEncodes G'.toEncodes, fun depth depth' hd hd' => ⟨?_, ?_⟩⟩
  · obtain ⟨V, hV, h1⟩ := C11_list hW hm depth (hlt ho hd)
    obtain ⟨V', hV', h2⟩ := C11_list hW' hm' depth' (hlt ho' hd')
    rw [h1, h2, (hsame.listing hV).unique hV']
  · obtain ⟨⟨V, hV, h1⟩, _⟩ := C12_stable_list_partial hW hm hu hdot depth (hlt ho hd)
    obtain ⟨⟨V', hV', h2⟩, _⟩ := C12_stable_list_partial hW' hm' hu' hdot' depth' (hlt ho' hd')
    rw [h1, h2, (hsame.listing hV).unique hV', List.flatMap_def, List.flatMap_def, List.map_congr_left (fun z _ => hsame.line z)]

/-! ## The tools -/

theorem ProperAncestor.of_prefix {p q : List Bytes} (h0 : p ≠ []) (h : p <+: q) : p = q ∨ ProperAncestor p q := by
  by_cases e : p = q
  · exact Or.inl e
  · exact Or.inr ⟨h0, e, h⟩

theorem tar_packed {ms : List TarMember} {c : Conv} (h : Conv.new.tarRun (ms.map .ok) = (c, .ok)) (hf : TarMember.FoldersFirst ms) :
    PackedAs c.creator (packBytes c.contents) (TarItems ms) := by
  obtain ⟨ms', em, hv, _⟩ := (C41_accepts_iff (ms.map .ok)).mp (by rw [h])
  have := okMap_inj em
  subst this
  obtain ⟨rs0, m, g1, g2, g3, g4⟩ := C41_tar_partial h
  obtain ⟨_, rs, hacc, hfrom, _⟩ := Conv.tarRun_ok _ _ _ h
  have hrun : Creator.new.run rs = some c.creator := hacc.run
  obtain ⟨m', _, hm', _⟩ := run_rel hrun
  have := SpecRun.same_creator hrun g1 hm' g2
  subst this
  have hmem : ∀ e, Except.ok e ∈ ms.map (Except.ok (ε := Unit)) ↔ e ∈ ms := by
    intro e; simp
  have hsplit : ∀ e ∈ ms, ∃ A B, ms = A ++ e :: B := fun e he => List.append_of_mem he
  -- each member
  have hat : ∀ x, TarItems ms x → ∃ n, m' x.names = some n ∧ x.Is (packBytes c.contents) n := by
    rintro x ⟨e, he, hig, hn, hmeta, hwhat⟩
    obtain ⟨A, B, rfl⟩ := hsplit e he
    obtain ⟨info, h1, _, h3, h4, h5⟩ := g3 (A.map .ok) e (B.map .ok) (by simp) hig
    have hinfo : info = x.info := by
      obtain ⟨a1, a2, a3, a4⟩ := h1
      obtain ⟨b1, b2, b3, b4⟩ := hmeta
      rw [b1] at a1; rw [b2] at a2; rw [b3] at a3; rw [b4] at a4
      cases info; cases hx : x.info
      rw [hx] at a1 a2 a3 a4
      simp only [Except.ok.injEq] at a1 a2 a3 a4
      subst a1; subst a2; subst a3; subst a4
      rfl
    subst hinfo
    rw [hn]
    rcases hwhat with ⟨hd, hw⟩ | ⟨hl, t, ht, hw⟩ | ⟨hf', d, hd, hw⟩
    · obtain ⟨n, e1, e2, e3⟩ := h5 hd
      refine ⟨n, e1, e3 ?_, ?_⟩
      · intro e' he' hi'
        exact hf A e B rfl hd e' (by simpa using he') hi'
      · rw [hw, kind_of_isDir e2]; trivial
    · obtain ⟨t', e1, e2⟩ := h3 hl
      rw [ht] at e1; cases e1
      exact ⟨_, e2, rfl, by rw [hw]⟩
    · obtain ⟨d', a, e1, e2, e3⟩ := h4 hf'
      rw [hd] at e1; cases e1
      exact ⟨_, e3, rfl, by rw [hw]; exact ⟨rfl, e2⟩⟩
  -- each member has an item
  have hitem : ∀ e ∈ ms, ¬ e.Ignored → ∃ x, TarItems ms x ∧ x.names = memberNames e.path := by
    intro e he hig
    obtain ⟨i, hi⟩ := (hv e he).hasMeta
    rcases e.sort hig with hd | hl | hf'
    · exact ⟨⟨_, i, .dir⟩, ⟨e, he, hig, rfl, hi, Or.inl ⟨hd, rfl⟩⟩, rfl⟩
    · obtain ⟨t, ht⟩ := (hv e he).target hl
      exact ⟨⟨_, i, .link t⟩, ⟨e, he, hig, rfl, hi, Or.inr (Or.inl ⟨hl, t, ht, rfl⟩)⟩, rfl⟩
    · obtain ⟨b, hb⟩ := (hv e he).data hf'
      exact ⟨⟨_, i, .file b.length b⟩, ⟨e, he, hig, rfl, hi, Or.inr (Or.inr ⟨hf', b, hb, rfl⟩)⟩, rfl⟩
  have hwf := SpecRun.wf hrun hm'
  refine ⟨rs, m', hrun, hm', ?_, ?_, hat, ?_, ?_⟩
  · intro r hr
    obtain ⟨e, h1, _, h3⟩ := hfrom r hr
    refine entryPath_utf8 fun x hx => ?_
    rw [h3.1] at hx
    exact (hv e ((hmem e).mp h1)).utf8 x (memberNames_mem hx).1
  · intro p n hp hc
    obtain ⟨e, h1, h2, h3⟩ := g4 p n hp
    exact (memberNames_mem (h3.subset hc)).2 rfl
  · intro x p hx hp hno
    obtain ⟨n, hn, _⟩ := hat x hx
    obtain ⟨d, hd, _⟩ := hwf.ancestors _ _ p hn hp
    obtain ⟨r, hr, ⟨h1, _⟩ | ⟨_, h2⟩⟩ := SpecRun.sources hrun hm' hd
    · obtain ⟨e, f1, f2, f3⟩ := hfrom r hr
      obtain ⟨y, hy, hyn⟩ := hitem e ((hmem e).mp f1) f2
      exact absurd (by rw [hyn, h1, f3.1]) (hno y hy)
    · rw [hd, h2]
  · intro p n hp
    obtain ⟨e, h1, h2, h3⟩ := g4 p n hp
    obtain ⟨x, hx, hxn⟩ := hitem e ((hmem e).mp h1) h2
    refine ⟨x, hx, ?_⟩
    rw [hxn]
    exact ProperAncestor.of_prefix (fun e0 => by rw [e0, hwf.root] at hp; cases hp) h3

theorem zip_packed {ms : List ZipMember} {c : Conv} (h : Conv.new.zipRun (ms.map .ok) = (c, .ok)) (hf : ZipMember.FoldersFirst ms) :
    PackedAs c.creator (packBytes c.contents) (ZipItems ms) := by
  obtain ⟨ms', em, hv, _⟩ := (C42_accepts_iff (ms.map .ok)).mp (by rw [h])
  have := okMap_inj em
  subst this
  obtain ⟨rs0, m, g1, g2, g3, g4⟩ := C42_zip_partial h
  obtain ⟨_, rs, hacc, hfrom, _⟩ := Conv.zipRun_ok _ _ _ h
  have hrun : Creator.new.run rs = some c.creator := hacc.run
  obtain ⟨m', _, hm', _⟩ := run_rel hrun
  have := SpecRun.same_creator hrun g1 hm' g2
  subst this
  have hmem : ∀ e, Except.ok e ∈ ms.map (Except.ok (ε := Unit)) ↔ e ∈ ms := by
    intro e; simp
  have hat : ∀ x, ZipItems ms x → ∃ n, m' x.names = some n ∧ x.Is (packBytes c.contents) n := by
    rintro x ⟨e, he, hn, ⟨t, ht, hinfo⟩, hwhat⟩
    obtain ⟨A, B, rfl⟩ := List.append_of_mem he
    obtain ⟨t', h1, _, h4, h5⟩ := g3 (A.map .ok) e (B.map .ok) (by simp)
    have htt : t' = t := by
      have := ZipMember.HasTime.mtime h1
      rw [ZipMember.HasTime.mtime ht] at this
      cases this; rfl
    subst htt
    rw [hn]
    rcases hwhat with ⟨hd, hw⟩ | ⟨hf', d, hd, hw⟩
    · obtain ⟨n, e1, e2, e3⟩ := h5 hd
      refine ⟨n, e1, ?_, ?_⟩
      · rw [hinfo]
        exact e3 (fun e' he' => hf A e B rfl hd e' (by simpa using he'))
      · rw [hw, kind_of_isDir e2]; trivial
    · obtain ⟨d', a, e1, e2, e3⟩ := h4 hf'
      rw [hd] at e1; cases e1
      exact ⟨_, e3, hinfo.symm, by rw [hw]; exact ⟨rfl, e2⟩⟩
  have hitem : ∀ e ∈ ms, ∃ x, ZipItems ms x ∧ x.names = memberNames e.name := by
    intro e he
    obtain ⟨A, B, rfl⟩ := List.append_of_mem he
    obtain ⟨t, h1, _, h4, _⟩ := g3 (A.map .ok) e (B.map .ok) (by simp)
    cases hd : e.isDir with
    | true => exact ⟨⟨_, _, .dir⟩, ⟨e, he, rfl, ⟨t, h1, rfl⟩, Or.inl ⟨hd, rfl⟩⟩, rfl⟩
    | false =>
      obtain ⟨d, a, e1, _⟩ := h4 hd
      exact ⟨⟨_, _, .file e.size d⟩, ⟨e, he, rfl, ⟨t, h1, rfl⟩, Or.inr ⟨hd, d, e1, rfl⟩⟩, rfl⟩
  have hwf := SpecRun.wf hrun hm'
  refine ⟨rs, m', hrun, hm', ?_, ?_, hat, ?_, ?_⟩
  · intro r hr
    obtain ⟨e, h1, h3⟩ := hfrom r hr
    refine entryPath_utf8 fun x hx => ?_
    rw [h3.1] at hx
    exact (hv e ((hmem e).mp h1)).utf8 x (memberNames_mem hx).1
  · intro p n hp hc
    obtain ⟨_, e, h1, h3⟩ := g4 p n hp
    exact (memberNames_mem (h3.subset hc)).2 rfl
  · intro x p hx hp hno
    obtain ⟨n, hn, _⟩ := hat x hx
    obtain ⟨d, hd, _⟩ := hwf.ancestors _ _ p hn hp
    obtain ⟨r, hr, ⟨h1, _⟩ | ⟨_, h2⟩⟩ := SpecRun.sources hrun hm' hd
    · obtain ⟨e, f1, f3⟩ := hfrom r hr
      obtain ⟨y, hy, hyn⟩ := hitem e ((hmem e).mp f1)
      exact absurd (by rw [hyn, h1, f3.1]) (hno y hy)
    · rw [hd, h2]
  · intro p n hp
    obtain ⟨_, e, h1, h3⟩ := g4 p n hp
    obtain ⟨x, hx, hxn⟩ := hitem e ((hmem e).mp h1)
    refine ⟨x, hx, ?_⟩
    rw [hxn]
    exact ProperAncestor.of_prefix (fun e0 => by rw [e0, hwf.root] at hp; cases hp) h3

/-- an archive that holds what one input stands for -/
theorem source_packed {env : CEnv} {s : Src} {cwd : List Bytes} {pre : RPath} {rc : Bool} {a : Adder} {f : Bytes} (W : s.WF)
    {l : List Attempted} (hl : Adder.Tried env l a) {rs0 : List AddReq} {m : PathMap}
    (h1 : Creator.new.run rs0 = some a.creator) (h2 : SpecRun PathMap.empty rs0 m)
    (h3 : FirstInput s cwd pre (packBytes a.contents) rc [f] m)
    (hroot : ∀ k q, InputAt s cwd pre f k q → ¬ s.Special q) :
    PackedAs a.creator (packBytes a.contents) (SourceItems s cwd pre rc f) := by
  obtain ⟨rs, m1, c1, s1, u1, n1⟩ := hl.asSeen
  have e1 : m1 = m := SpecRun.same_creator c1 h1 s1 h2
  subst e1
  -- what is offered has an item, if it is not special
  have hoff : ∀ u, OffersTree s cwd pre rc f u → ¬ s.Special u.2 →
      ∃ x, SourceItems s cwd pre rc f x ∧ x.names = u.1 := by
    rintro ⟨k, q⟩ hu hsp
    have hx := h3.entry [] f [] (k, q) rfl hu hsp (by simp)
    cases hn : s.fs.nodes q with
    | none => rw [Archived, hn] at hx; cases hx
    | some y =>
      cases y with
      | dir t => exact ⟨⟨k, _, .dir⟩, ⟨q, hu, hsp, Or.inl ⟨t, hn, rfl, rfl⟩⟩, rfl⟩
      | link t u => exact ⟨⟨k, _, .link t⟩, ⟨q, hu, hsp, Or.inr (Or.inl ⟨t, u, hn, rfl, rfl⟩)⟩, rfl⟩
      | file i => exact ⟨⟨k, _, .file _ _⟩, ⟨q, hu, hsp, Or.inr (Or.inr ⟨i, hn, rfl, rfl⟩)⟩, rfl⟩
  -- what makes an entry at `z`
  have hmake : ∀ z, TreeMakes s cwd pre rc f z →
      (∃ q, OffersTree s cwd pre rc f (z, q) ∧ ¬ s.Special q) ∨
      ∃ k q, InputAt s cwd pre f k q ∧ ProperAncestor z k := by
    rintro z ⟨hne, u, ⟨k, q, p, hin, hp, hrc, rfl, hu⟩, hpre, hsp⟩
    simp only at hpre hsp
    by_cases hk : k <+: z
    · obtain ⟨p0, rfl⟩ := hk
      left
      have hpp : p0 <+: p := (List.prefix_append_right_inj k).mp hpre
      have h0 : s.Has q p0 ∧ ¬ s.Special (q ++ p0) := by
        by_cases e : p0 = p
        · rw [e]; exact ⟨hp, hsp (by rw [e])⟩
        · obtain ⟨y, hy⟩ := Option.ne_none_iff_exists'.mp hp
          obtain ⟨t, ht⟩ := W.dirsTo hy (q ++ p0) ((List.prefix_append_right_inj q).mpr hpp) (by simpa using e)
          refine ⟨by rw [Src.Has, ht]; simp, ?_⟩
          rintro ⟨i, hi, _⟩
          rw [ht] at hi; cases hi
      have hrc0 : p0 = [] ∨ rc = true := by
        rcases hrc with rfl | hrc
        · exact Or.inl (List.prefix_nil.mp hpp)
        · exact Or.inr hrc
      exact ⟨q ++ p0, ⟨k, q, p0, hin, h0.1, hrc0, rfl, hne⟩, h0.2⟩
    · right
      have hzk : z <+: k := by
        rcases List.prefix_or_prefix_of_prefix hpre (List.prefix_append k p) with h | h
        · exact h
        · exact absurd h hk
      exact ⟨k, q, hin, hne, fun e => hk (e ▸ List.prefix_rfl), hzk⟩
  have hat : ∀ x, SourceItems s cwd pre rc f x → ∃ n, m1 x.names = some n ∧ x.Is (packBytes a.contents) n := by
    rintro x ⟨q, hu, hsp, hwhat⟩
    have hx := h3.entry [] f [] (x.names, q) rfl hu hsp (by simp)
    unfold Archived at hx
    rcases hwhat with ⟨t, hn, hi, hw'⟩ | ⟨tg, t, hn, hi, hw'⟩ | ⟨i, hn, hi, hw'⟩
    · simp only [hn] at hx
      exact ⟨_, hx, hi.symm, by rw [hw']; trivial⟩
    · simp only [hn] at hx
      exact ⟨_, hx, hi.symm, by rw [hw']⟩
    · simp only [hn] at hx
      have : s.special i = false := by
        cases hs : s.special i with
        | false => rfl
        | true => exact absurd ⟨i, hn, hs⟩ hsp
      rw [if_neg (by simp [this])] at hx
      obtain ⟨ad, e1, e2⟩ := hx
      exact ⟨_, e1, hi.symm, by rw [hw']; exact ⟨rfl, e2⟩⟩
  refine ⟨rs, m1, c1, s1, u1, n1.noDot, hat, ?_, ?_⟩
  · rintro x p hx hp hno
    obtain ⟨q, hu, hsp, _⟩ := id hx
    have hmk : TreeMakes s cwd pre rc f p := ⟨hp.1, (x.names, q), hu, hp.2.2, fun e => absurd e hp.2.1⟩
    rcases hmake p hmk with ⟨q', hu', hsp'⟩ | ⟨k, q', hin, hpk⟩
    · obtain ⟨y, hy, hyn⟩ := hoff (p, q') hu' hsp'
      exact absurd hyn (hno y hy)
    · exact h3.above [] f [] k q' p rfl hin hpk (by simp)
  · intro p n hp
    have hmk : TreeMakes s cwd pre rc f p := by
      apply Classical.byContradiction
      intro hn
      rw [h3.nothing p (by simpa using hn)] at hp
      cases hp
    obtain ⟨hne, u, hu, hpre, hsp⟩ := id hmk
    rcases hmake p hmk with ⟨q', hu', hsp'⟩ | ⟨k, q', hin, hpk⟩
    · obtain ⟨y, hy, hyn⟩ := hoff (p, q') hu' hsp'
      exact ⟨y, hy, Or.inl hyn.symm⟩
    · have hkne : k ≠ [] := by
        rintro rfl
        exact hpk.1 (List.prefix_nil.mp hpk.2.2)
      obtain ⟨y, hy, hyn⟩ := hoff (k, q') ⟨k, q', [], hin, hin.2.2, Or.inl rfl, by simp, hkne⟩ (hroot k q' hin)
      exact ⟨y, hy, Or.inr (by rw [hyn]; exact hpk)⟩

theorem create_packed {o : CreateOpts} {sys : CreateSys} {s : Src} {cwd N : List Bytes} {a : Adder} {f : Bytes}
    (hfl : o.fileList = none) (hone : o.infiles = [f]) (W : s.WF) (hcwd : StartsIn o sys cwd) (Q : Quiet (sys.cenv cwd) s)
    (hcheck : sys.atCheck = s)
    (hw : ∀ i, (sys.walks i).src = s ∧ FullListing s (sys.walks i).ls ∧ ∀ q, s.fs.nodes q ≠ none → q.length ≤ (sys.walks i).depth)
    (hroot : ∀ k q, InputAt s cwd (o.stripPrefix.getD []) f k q → ¬ s.Special q)
    (h : CreateEv.written N a ∈ (o.run sys).1) :
    PackedAs a.creator (packBytes a.contents) (SourceItems s cwd (o.stripPrefix.getD []) o.recursion f) := by
  obtain ⟨rs0, m, h1, h2, h3⟩ := CreateOpts.inputs_exact hfl hcwd Q W hcheck hw h
  obtain ⟨l, hl⟩ := CreateOpts.tried hcwd h
  rw [hone] at h3
  exact source_packed W hl h1 h2 h3 hroot

/-! ## The property -/

theorem tar_written {tarFile outfile : Option Bytes} {sys : ConvSys TarMember} {out : Bytes} {c : Conv}
    (hw : ConvEv.written out c ∈ (tar2arx tarFile outfile sys).1) {ms : List TarMember}
    (hin : sys.input (TarInput tarFile) = .ok (ms.map .ok)) : Conv.new.tarRun (ms.map .ok) = (c, .ok) := by
  obtain ⟨i, hi⟩ := List.mem_iff_getElem?.mp hw
  obtain ⟨_, out', c', items, _, e1, e2, e3⟩ := (C61_tar tarFile outfile sys).1 i _ hi rfl
  cases e1
  rw [hin] at e2; cases e2
  exact e3

theorem zip_written {zipFile outfile out : Bytes} {sys : ConvSys ZipMember} {c : Conv}
    (hw : ConvEv.written out c ∈ (zip2arx zipFile outfile sys).1) {ms : List ZipMember}
    (hin : sys.input (some zipFile) = .ok (ms.map .ok)) : Conv.new.zipRun (ms.map .ok) = (c, .ok) := by
  obtain ⟨i, hi⟩ := List.mem_iff_getElem?.mp hw
  obtain ⟨_, c', items, e1, e2, e3⟩ := (C61_zip zipFile outfile sys).1 i _ hi rfl
  cases e1
  rw [hin] at e2; cases e2
  exact e3

/-- **C91, tar.** Two tar archives with the same items, in each of which every directory is before all that it contains, are
converted to the same archive: in whatever order the members are, and whichever extension members, formats of headers, spellings of
paths and numberings of the archive are used. -/
theorem C91_tar {tarFile tarFile' outfile outfile' : Option Bytes} {sys sys' : ConvSys TarMember} {out out' : Bytes} {c c' : Conv}
    (hw : ConvEv.written out c ∈ (tar2arx tarFile outfile sys).1) (hw' : ConvEv.written out' c' ∈ (tar2arx tarFile' outfile' sys').1)
    {ms ms' : List TarMember} (hin : sys.input (TarInput tarFile) = .ok (ms.map .ok))
    (hin' : sys'.input (TarInput tarFile') = .ok (ms'.map .ok)) (hf : TarMember.FoldersFirst ms) (hf' : TarMember.FoldersFirst ms')
    (hsame : ∀ x, TarItems ms x ↔ TarItems ms' x)
    {order order' : List Nat} (ho : IsLayout c.creator order) (ho' : IsLayout c'.creator order')
    (hlen : c.creator.store.length < 2 ^ 32) (hlen' : c'.creator.store.length < 2 ^ 32) :
    ReadSame c.creator c'.creator order order' (packBytes c.contents) (packBytes c'.contents) :=
  (tar_packed (tar_written hw hin) hf).same (tar_packed (tar_written hw' hin') hf') hsame ho ho' hlen hlen'

/-- **C91, zip.** The same for `zip2arx`. -/
theorem C91_zip {zipFile zipFile' outfile outfile' out out' : Bytes} {sys sys' : ConvSys ZipMember} {c c' : Conv}
    (hw : ConvEv.written out c ∈ (zip2arx zipFile outfile sys).1) (hw' : ConvEv.written out' c' ∈ (zip2arx zipFile' outfile' sys').1)
    {ms ms' : List ZipMember} (hin : sys.input (some zipFile) = .ok (ms.map .ok))
    (hin' : sys'.input (some zipFile') = .ok (ms'.map .ok)) (hf : ZipMember.FoldersFirst ms) (hf' : ZipMember.FoldersFirst ms')
    (hsame : ∀ x, ZipItems ms x ↔ ZipItems ms' x)
    {order order' : List Nat} (ho : IsLayout c.creator order) (ho' : IsLayout c'.creator order')
    (hlen : c.creator.store.length < 2 ^ 32) (hlen' : c'.creator.store.length < 2 ^ 32) :
    ReadSame c.creator c'.creator order order' (packBytes c.contents) (packBytes c'.contents) :=
  (zip_packed (zip_written hw hin) hf).same (zip_packed (zip_written hw' hin') hf') hsame ho ho' hlen hlen'

/-- **C91, tar and zip.** A tar and a zip archive with the same items are converted to the same archive. -/
theorem C91_tar_zip {tarFile outfile : Option Bytes} {zipFile outfile' : Bytes} {sys : ConvSys TarMember} {sys' : ConvSys ZipMember}
    {out out' : Bytes} {c c' : Conv}
    (hw : ConvEv.written out c ∈ (tar2arx tarFile outfile sys).1) (hw' : ConvEv.written out' c' ∈ (zip2arx zipFile outfile' sys').1)
    {ms : List TarMember} {ms' : List ZipMember} (hin : sys.input (TarInput tarFile) = .ok (ms.map .ok))
    (hin' : sys'.input (some zipFile) = .ok (ms'.map .ok)) (hf : TarMember.FoldersFirst ms) (hf' : ZipMember.FoldersFirst ms')
    (hsame : ∀ x, TarItems ms x ↔ ZipItems ms' x)
    {order order' : List Nat} (ho : IsLayout c.creator order) (ho' : IsLayout c'.creator order')
    (hlen : c.creator.store.length < 2 ^ 32) (hlen' : c'.creator.store.length < 2 ^ 32) :
    ReadSame c.creator c'.creator order order' (packBytes c.contents) (packBytes c'.contents) :=
  (tar_packed (tar_written hw hin) hf).same (zip_packed (zip_written hw' hin') hf') hsame ho ho' hlen hlen'

/-- **C91, create and tar.** `arx create` of one input, and `tar2arx` of a tar archive with the same items, make the same archive. -/
theorem C91_create_tar {o : CreateOpts} {sys : CreateSys} {s : Src} {cwd N : List Bytes} {a : Adder} {f : Bytes}
    (hfl : o.fileList = none) (hone : o.infiles = [f]) (W : s.WF) (hcwd : StartsIn o sys cwd) (Q : Quiet (sys.cenv cwd) s)
    (hcheck : sys.atCheck = s)
    (hwalk : ∀ i, (sys.walks i).src = s ∧ FullListing s (sys.walks i).ls ∧ ∀ q, s.fs.nodes q ≠ none → q.length ≤ (sys.walks i).depth)
    (hroot : ∀ k q, InputAt s cwd (o.stripPrefix.getD []) f k q → ¬ s.Special q)
    (h : CreateEv.written N a ∈ (o.run sys).1)
    {tarFile outfile : Option Bytes} {tsys : ConvSys TarMember} {out : Bytes} {c : Conv}
    (hw : ConvEv.written out c ∈ (tar2arx tarFile outfile tsys).1) {ms : List TarMember}
    (hin : tsys.input (TarInput tarFile) = .ok (ms.map .ok)) (hf : TarMember.FoldersFirst ms)
    (hsame : ∀ x, SourceItems s cwd (o.stripPrefix.getD []) o.recursion f x ↔ TarItems ms x)
    {order order' : List Nat} (ho : IsLayout a.creator order) (ho' : IsLayout c.creator order')
    (hlen : a.creator.store.length < 2 ^ 32) (hlen' : c.creator.store.length < 2 ^ 32) :
    ReadSame a.creator c.creator order order' (packBytes a.contents) (packBytes c.contents) :=
  (create_packed hfl hone W hcwd Q hcheck hwalk hroot h).same (tar_packed (tar_written hw hin) hf) hsame ho ho' hlen hlen'

/-- **C91, create and zip.** The same for a zip archive. -/
theorem C91_create_zip {o : CreateOpts} {sys : CreateSys} {s : Src} {cwd N : List Bytes} {a : Adder} {f : Bytes}
    (hfl : o.fileList = none) (hone : o.infiles = [f]) (W : s.WF) (hcwd : StartsIn o sys cwd) (Q : Quiet (sys.cenv cwd) s)
    (hcheck : sys.atCheck = s)
    (hwalk : ∀ i, (sys.walks i).src = s ∧ FullListing s (sys.walks i).ls ∧ ∀ q, s.fs.nodes q ≠ none → q.length ≤ (sys.walks i).depth)
    (hroot : ∀ k q, InputAt s cwd (o.stripPrefix.getD []) f k q → ¬ s.Special q)
    (h : CreateEv.written N a ∈ (o.run sys).1)
    {zipFile outfile out : Bytes} {zsys : ConvSys ZipMember} {c : Conv}
    (hw : ConvEv.written out c ∈ (zip2arx zipFile outfile zsys).1) {ms : List ZipMember}
    (hin : zsys.input (some zipFile) = .ok (ms.map .ok)) (hf : ZipMember.FoldersFirst ms)
    (hsame : ∀ x, SourceItems s cwd (o.stripPrefix.getD []) o.recursion f x ↔ ZipItems ms x)
    {order order' : List Nat} (ho : IsLayout a.creator order) (ho' : IsLayout c.creator order')
    (hlen : a.creator.store.length < 2 ^ 32) (hlen' : c.creator.store.length < 2 ^ 32) :
    ReadSame a.creator c.creator order order' (packBytes a.contents) (packBytes c.contents) :=
  (create_packed hfl hone W hcwd Q hcheck hwalk hroot h).same (zip_packed (zip_written hw hin) hf) hsame ho ho' hlen hlen'

/-- the items of a list of members do not depend on its order -/
theorem TarItems.perm {ms ms' : List TarMember} (h : ms.Perm ms') (x : PackItem) : TarItems ms x ↔ TarItems ms' x := by
  simp only [TarItems, h.mem_iff]

theorem ZipItems.perm {ms ms' : List ZipMember} (h : ms.Perm ms') (x : PackItem) : ZipItems ms x ↔ ZipItems ms' x := by
  simp only [ZipItems, h.mem_iff]

/-- **C91, whether it is converted.** The order of the members, also of directories, does not matter for whether a tar archive is
converted without error. -/
theorem C91_tar_accepted {ms ms' : List TarMember} (h : ms.Perm ms') :
    (Conv.new.tarRun (ms.map .ok)).2 = .ok ↔ (Conv.new.tarRun (ms'.map .ok)).2 = .ok := by
  have key : ∀ {ms ms' : List TarMember}, ms.Perm ms' → (Conv.new.tarRun (ms.map .ok)).2 = .ok → (Conv.new.tarRun (ms'.map .ok)).2 = .ok := by
    intro ms ms' h hk
    obtain ⟨l, e, hv, hc⟩ := (C41_accepts_iff _).mp hk
    have := okMap_inj e
    subst this
    refine (C41_accepts_iff _).mpr ⟨ms', rfl, fun e he => hv e (h.mem_iff.mpr he), h.pairwise hc ?_⟩
    rintro x y (h1 | h1 | ⟨h1, h2⟩)
    · exact Or.inr (Or.inl h1)
    · exact Or.inl h1
    · exact Or.inr (Or.inr ⟨h2, h1⟩)
  exact ⟨key h, key h.symm⟩

/-- **C91, whether it is converted, zip.** -/
theorem C91_zip_accepted {ms ms' : List ZipMember} (h : ms.Perm ms') :
    (Conv.new.zipRun (ms.map .ok)).2 = .ok ↔ (Conv.new.zipRun (ms'.map .ok)).2 = .ok := by
  have key : ∀ {ms ms' : List ZipMember}, ms.Perm ms' → (Conv.new.zipRun (ms.map .ok)).2 = .ok → (Conv.new.zipRun (ms'.map .ok)).2 = .ok := by
    intro ms ms' h hk
    obtain ⟨l, e, hv, hc⟩ := (C42_accepts_iff _).mp hk
    have := okMap_inj e
    subst this
    refine (C42_accepts_iff _).mpr ⟨ms', rfl, fun e he => hv e (h.mem_iff.mpr he), h.pairwise hc ?_⟩
    rintro x y ⟨h1, h2⟩
    exact ⟨h2, h1⟩
  exact ⟨key h, key h.symm⟩

/-- **The condition on directories is needed**: a directory after what it contains keeps the metadata of an implied one, so that the same
members in the other order make another archive. -/
theorem C91_order_needed : lateDirTar.Perm lateDirTar.reverse ∧
    (Conv.new.tarRun (lateDirTar.map .ok)).2 = .ok ∧ (Conv.new.tarRun (lateDirTar.reverse.map .ok)).2 = .ok ∧
    IsLayout (tarResult lateDirTar).creator [0, 1] ∧ IsLayout (tarResult lateDirTar.reverse).creator [0, 1] ∧
    ¬ SameArchive (writeArchive (tarResult lateDirTar).creator [0, 1]) (writeArchive (tarResult lateDirTar.reverse).creator [0, 1])
      (packBytes (tarResult lateDirTar).contents) (packBytes (tarResult lateDirTar.reverse).contents) := by
  refine ⟨(List.reverse_perm _).symm, by decide, by decide, ⟨by decide +kernel, by decide +kernel⟩, ⟨by decide +kernel, by decide +kernel⟩, ?_⟩
  intro h
  have := (h.rows 0 _ _ (List.getElem?_eq_getElem (by decide +kernel)) (List.getElem?_eq_getElem (by decide +kernel))).1
  have := congrArg RawEntry.mtime this
  revert this
  decide +kernel

/-! ## Examples -/

theorem TarMember.FoldersFirst.of_pairwise {ms : List TarMember}
    (h : ms.Pairwise (fun e' e => e.Directory → ¬ e'.Ignored → ¬ memberNames e.path <+: memberNames e'.path)) : TarMember.FoldersFirst ms := by
  rintro A e B rfl hd e' he' hi
  exact (List.pairwise_append.mp h).2.2 e' he' e (by simp) hd hi

theorem ZipMember.FoldersFirst.of_pairwise {ms : List ZipMember}
    (h : ms.Pairwise (fun e' e => e.isDir = true → ¬ memberNames e.name <+: memberNames e'.name)) : ZipMember.FoldersFirst ms := by
  rintro A e B rfl hd e' he'
  exact (List.pairwise_append.mp h).2.2 e' he' e (by simp) hd

/-- the members of `exTar` in another order, one path spelled otherwise, without the extension member -/
def exTar2 : List TarMember :=
  [tarMem (ascii "l") .symlink (some (ascii "d/f")) [], tarMem (ascii "./d") .directory none [],
   tarMem (ascii "d//f") .regular none (ascii "hello")]
def exTar2Sys : ConvSys TarMember := ⟨fun _ => .ok (exTar2.map .ok), true, true⟩
def exTar2Conv : Conv := ((tar2arx (some (ascii "b.tar")) none exTar2Sys).1.filterMap ConvEv.conv?).headD Conv.new

theorem exTar_first : TarMember.FoldersFirst exTar := by
  refine .of_pairwise ?_
  simp only [exTar, List.pairwise_cons, List.mem_cons, List.not_mem_nil, or_false]
  refine ⟨fun e he _ hi => absurd (Or.inr (Or.inr (Or.inr rfl))) hi, ?_, ?_, (fun _ h => by cases h), .nil⟩
  · rintro e (rfl | rfl)
    · intro _ _; decide +kernel
    · intro _ _; decide +kernel
  · rintro e rfl _ _; decide +kernel

theorem exTar2_first : TarMember.FoldersFirst exTar2 := by
  refine .of_pairwise ?_
  simp only [exTar2, List.pairwise_cons, List.mem_cons, List.not_mem_nil, or_false]
  refine ⟨?_, ?_, (fun _ h => by cases h), .nil⟩
  · rintro e (rfl | rfl)
    · intro _ _; decide +kernel
    · intro _ _; decide +kernel
  · rintro e rfl _ _; decide +kernel

/-- members that stand for the same -/
theorem exTar_items (x : PackItem) : TarItems exTar x ↔ TarItems exTar2 x := by
  have n1 : memberNames (ascii "d/") = memberNames (ascii "./d") := by decide +kernel
  have n2 : memberNames (ascii "d/f") = memberNames (ascii "d//f") := by decide +kernel
  constructor
  · rintro ⟨e, he, hi, hn, hm, hw⟩
    simp only [exTar, List.mem_cons, List.not_mem_nil, or_false] at he
    rcases he with rfl | rfl | rfl | rfl
    · exact absurd (Or.inr (Or.inr (Or.inr rfl))) hi
    · refine ⟨tarMem (ascii "./d") .directory none [], by simp [exTar2], by simp [TarMember.Ignored, tarMem], hn.trans n1, hm, ?_⟩
      rcases hw with ⟨_, hw⟩ | ⟨h, _⟩ | ⟨⟨h, _⟩, _⟩
      · exact Or.inl ⟨Or.inl rfl, hw⟩
      · cases h
      · rcases h with h | h | h <;> cases h
    · refine ⟨tarMem (ascii "d//f") .regular none (ascii "hello"), by simp [exTar2], by simp [TarMember.Ignored, tarMem], hn.trans n2, hm, ?_⟩
      rcases hw with ⟨h, _⟩ | ⟨h, _⟩ | ⟨_, hw⟩
      · rcases h with h | ⟨_, h, _⟩ <;> cases h
      · cases h
      · exact Or.inr (Or.inr ⟨⟨Or.inl rfl, fun h => by cases h.1⟩, hw⟩)
    · exact ⟨_, by simp [exTar2], hi, hn, hm, hw⟩
  · rintro ⟨e, he, hi, hn, hm, hw⟩
    simp only [exTar2, List.mem_cons, List.not_mem_nil, or_false] at he
    rcases he with rfl | rfl | rfl
    · exact ⟨_, by simp [exTar], hi, hn, hm, hw⟩
    · refine ⟨tarMem (ascii "d/") .directory none [], by simp [exTar], by simp [TarMember.Ignored, tarMem], hn.trans n1.symm, hm, ?_⟩
      rcases hw with ⟨_, hw⟩ | ⟨h, _⟩ | ⟨⟨h, _⟩, _⟩
      · exact Or.inl ⟨Or.inl rfl, hw⟩
      · cases h
      · rcases h with h | h | h <;> cases h
    · refine ⟨tarMem (ascii "d/f") .regular none (ascii "hello"), by simp [exTar], by simp [TarMember.Ignored, tarMem], hn.trans n2.symm, hm, ?_⟩
      rcases hw with ⟨h, _⟩ | ⟨h, _⟩ | ⟨_, hw⟩
      · rcases h with h | ⟨_, h, _⟩ <;> cases h
      · cases h
      · exact Or.inr (Or.inr ⟨⟨Or.inl rfl, fun h => by cases h.1⟩, hw⟩)

/-- the hypotheses of `C91_tar` are met by two different tar archives -/
example : ReadSame tripTarConv.creator exTar2Conv.creator [0, 2, 1] [1, 0, 2] (packBytes tripTarConv.contents) (packBytes exTar2Conv.contents) := by
  obtain ⟨N, hN⟩ := ConvEv.written_of (evs := (tar2arx (some (ascii "a.tar")) none exConvSys).1) (by decide +kernel)
  obtain ⟨N', hN'⟩ := ConvEv.written_of (evs := (tar2arx (some (ascii "b.tar")) none exTar2Sys).1) (by decide +kernel)
  exact C91_tar (c := tripTarConv) (c' := exTar2Conv) (ms := exTar) (ms' := exTar2) hN hN' rfl rfl exTar_first exTar2_first exTar_items
    ⟨by decide +kernel, by decide +kernel⟩ ⟨by decide +kernel, by decide +kernel⟩ (by decide +kernel) (by decide +kernel)

/-- the items of the directory `d` of `exSrc` (`d/p` is a special file) -/
def exItems : List PackItem :=
  [⟨[ascii "d"], ⟨1, 2, 0o100644, 1⟩, .dir⟩, ⟨[ascii "d", ascii "f"], ⟨1, 2, 0o100644, 7⟩, .file 2 (ascii "hi")⟩,
   ⟨[ascii "d", ascii "s"], ⟨1, 2, 0o100644, 2⟩, .dir⟩, ⟨[ascii "d", ascii "s", ascii "l"], ⟨1, 2, 0o100644, 3⟩, .link (ascii "../f")⟩]

theorem exSrc_at {q : List Bytes} (h : InputAt exSrc [] [] (ascii "d") k q) : k = [ascii "d"] ∧ q = [ascii "d"] := by
  obtain ⟨h1, h2, _⟩ := h
  have e1 : (comps (ascii "d")).filter (· ≠ CUR) = comps [] ++ [ascii "d"] := by decide +kernel
  have e2 : exSrc.fs.resolve true (namesOf [] (ascii "d")) = .ok (.found [ascii "d"]) := by decide +kernel
  rw [e2] at h2
  cases h2
  unfold StoredAs at h1
  rw [e1] at h1
  exact ⟨(List.append_cancel_left h1).symm, rfl⟩

theorem exSrc_items (x : PackItem) : SourceItems exSrc [] [] true (ascii "d") x ↔ x ∈ exItems := by
  constructor
  · obtain ⟨xn, xi, xw⟩ := x
    rintro ⟨q, ⟨k, q0, p, hat, hhas, _, hu, _⟩, hs, hw⟩
    obtain ⟨rfl, rfl⟩ := exSrc_at hat
    have hu1 : xn = [ascii "d"] ++ p := congrArg Prod.fst hu
    have hu2 : q = [ascii "d"] ++ p := congrArg Prod.snd hu
    subst hu1; subst hu2
    simp only at hw ⊢
    cases hn : exSrc.fs.nodes ([ascii "d"] ++ p) with
    | none => exact absurd hn hhas
    | some y =>
      have hmem := exSrc_nodes hn
      rw [hn] at hw
      simp only [List.mem_cons, Prod.mk.injEq, List.not_mem_nil, or_false] at hmem
      rcases hmem with ⟨e, rfl⟩ | ⟨e, rfl⟩ | ⟨e, rfl⟩ | ⟨e, rfl⟩ | ⟨e, rfl⟩ | ⟨e, rfl⟩
      · cases e
      · rcases hw with ⟨t, h, hi, rfl⟩ | ⟨l, t, h, _⟩ | ⟨i, h, _⟩ <;> cases h
        rw [e] at hi ⊢
        subst hi
        exact List.mem_cons_self
      · rcases hw with ⟨t, h, hi, rfl⟩ | ⟨l, t, h, _⟩ | ⟨i, h, hi, rfl⟩ <;> cases h
        rw [e] at hi ⊢
        subst hi
        exact List.mem_cons_of_mem _ List.mem_cons_self
      · exact absurd ⟨1, hn, rfl⟩ hs
      · rcases hw with ⟨t, h, hi, rfl⟩ | ⟨l, t, h, _⟩ | ⟨i, h, _⟩ <;> cases h
        rw [e] at hi ⊢
        subst hi
        exact List.mem_cons_of_mem _ (List.mem_cons_of_mem _ List.mem_cons_self)
      · rcases hw with ⟨t, h, _⟩ | ⟨l, t, h, hi, rfl⟩ | ⟨i, h, _⟩ <;> cases h
        rw [e] at hi ⊢
        subst hi
        exact List.mem_cons_of_mem _ (List.mem_cons_of_mem _ (List.mem_cons_of_mem _ List.mem_cons_self))
  · have hat : InputAt exSrc [] [] (ascii "d") [ascii "d"] [ascii "d"] := ⟨by unfold StoredAs; decide +kernel, by decide +kernel, by
      unfold Src.Has; decide +kernel⟩
    have hnot : ∀ q t, exSrc.fs.nodes q = some t → (∀ i, t ≠ .file i) → ¬ exSrc.Special q := by
      rintro q t h1 h2 ⟨i, h3, _⟩
      rw [h1] at h3; cases h3
      exact h2 i rfl
    intro hx
    simp only [exItems, List.mem_cons, List.not_mem_nil, or_false] at hx
    rcases hx with rfl | rfl | rfl | rfl
    · refine ⟨[ascii "d"], ⟨_, _, [], hat, by unfold Src.Has; decide +kernel, Or.inr rfl, rfl, by simp⟩, hnot _ _ rfl (by intro i h; cases h), ?_⟩
      exact Or.inl ⟨_, rfl, rfl, rfl⟩
    · refine ⟨[ascii "d", ascii "f"], ⟨_, _, [ascii "f"], hat, by unfold Src.Has; decide +kernel, Or.inr rfl, rfl, by simp⟩, ?_, ?_⟩
      · rintro ⟨i, h1, h2⟩
        have : exSrc.fs.nodes [ascii "d", ascii "f"] = some (.file 0) := rfl
        rw [this] at h1; cases h1; cases h2
      · exact Or.inr (Or.inr ⟨0, rfl, rfl, rfl⟩)
    · refine ⟨[ascii "d", ascii "s"], ⟨_, _, [ascii "s"], hat, by unfold Src.Has; decide +kernel, Or.inr rfl, rfl, by simp⟩,
        hnot _ _ rfl (by intro i h; cases h), ?_⟩
      exact Or.inl ⟨_, rfl, rfl, rfl⟩
    · refine ⟨[ascii "d", ascii "s", ascii "l"], ⟨_, _, [ascii "s", ascii "l"], hat, by unfold Src.Has; decide +kernel, Or.inr rfl, rfl, by simp⟩,
        hnot _ _ rfl (by intro i h; cases h), ?_⟩
      exact Or.inr (Or.inl ⟨_, _, rfl, rfl, rfl⟩)

/-- a tar archive of it -/
def srcTar : List TarMember :=
  [⟨ascii "d/", .directory, .ok 1, .ok 2, .ok 1, .ok 0o100644, none, true, ascii "d/", .ok []⟩,
   ⟨ascii "d/s/", .directory, .ok 1, .ok 2, .ok 2, .ok 0o100644, none, true, ascii "d/s/", .ok []⟩,
   ⟨ascii "d/s/l", .symlink, .ok 1, .ok 2, .ok 3, .ok 0o100644, some (ascii "../f"), true, ascii "d/s/l", .ok []⟩,
   ⟨ascii "d/f", .regular, .ok 1, .ok 2, .ok 7, .ok 0o100644, none, true, ascii "d/f", .ok (ascii "hi")⟩]
def srcTarSys : ConvSys TarMember := ⟨fun _ => .ok (srcTar.map .ok), true, true⟩
def srcTarConv : Conv := ((tar2arx (some (ascii "d.tar")) none srcTarSys).1.filterMap ConvEv.conv?).headD Conv.new

theorem srcTar_first : TarMember.FoldersFirst srcTar := by
  refine .of_pairwise ?_
  simp only [srcTar, List.pairwise_cons, List.mem_cons, List.not_mem_nil, or_false]
  refine ⟨?_, ?_, ?_, (fun _ h => by cases h), .nil⟩
  · rintro e (rfl | rfl | rfl) <;> (intro _ _; decide +kernel)
  · rintro e (rfl | rfl) <;> (intro _ _; decide +kernel)
  · rintro e rfl
    intro _ _; decide +kernel

theorem TarMember.item_eq {e : TarMember} {x y : PackItem} (hn : x.names = memberNames e.path) (hm : e.HasMeta x.info)
    (hyn : y.names = memberNames e.path) (hym : e.HasMeta y.info) (hw : x.what = y.what) : x = y := by
  obtain ⟨xn, ⟨a, b, c, d⟩, xw⟩ := x
  obtain ⟨yn, ⟨a', b', c', d'⟩, yw⟩ := y
  obtain ⟨h1, h2, h3, h4⟩ := hm
  obtain ⟨g1, g2, g3, g4⟩ := hym
  simp only at *
  rw [h1] at g1; rw [h2] at g2; rw [h3] at g3; rw [h4] at g4
  cases g1; cases g2; cases g3; cases g4
  rw [hn, hyn, hw]

theorem srcTar_items (x : PackItem) : TarItems srcTar x ↔ x ∈ exItems := by
  constructor
  · rintro ⟨e, he, _, hn, hm, hw⟩
    simp only [srcTar, List.mem_cons, List.not_mem_nil, or_false] at he
    rcases he with rfl | rfl | rfl | rfl
    · rcases hw with ⟨_, hw⟩ | ⟨h, _⟩ | ⟨⟨h, _⟩, _⟩
      · rw [TarMember.item_eq (y := exItems[0]) hn hm (by decide +kernel) ⟨rfl, rfl, rfl, rfl⟩ hw]; exact List.getElem_mem _
      · cases h
      · rcases h with h | h | h <;> cases h
    · rcases hw with ⟨_, hw⟩ | ⟨h, _⟩ | ⟨⟨h, _⟩, _⟩
      · rw [TarMember.item_eq (y := exItems[2]) hn hm (by decide +kernel) ⟨rfl, rfl, rfl, rfl⟩ hw]; exact List.getElem_mem _
      · cases h
      · rcases h with h | h | h <;> cases h
    · rcases hw with ⟨h, _⟩ | ⟨_, t, ht, hw⟩ | ⟨⟨h, _⟩, _⟩
      · rcases h with h | ⟨h, _⟩ <;> simp_all [TarMember.FileLike]
      · cases ht
        rw [TarMember.item_eq (y := exItems[3]) hn hm (by decide +kernel) ⟨rfl, rfl, rfl, rfl⟩ hw]; exact List.getElem_mem _
      · rcases h with h | h | h <;> cases h
    · rcases hw with ⟨h, _⟩ | ⟨h, _⟩ | ⟨_, d, hd, hw⟩
      · rcases h with h | ⟨_, h, _⟩ <;> cases h
      · cases h
      · cases hd
        rw [TarMember.item_eq (y := exItems[1]) hn hm (by decide +kernel) ⟨rfl, rfl, rfl, rfl⟩ hw]; exact List.getElem_mem _
  · intro hx
    simp only [exItems, List.mem_cons, List.not_mem_nil, or_false] at hx
    rcases hx with rfl | rfl | rfl | rfl
    · exact ⟨srcTar[0], List.getElem_mem _, by simp [TarMember.Ignored, srcTar], by decide +kernel, ⟨rfl, rfl, rfl, rfl⟩,
        Or.inl ⟨Or.inl rfl, rfl⟩⟩
    · exact ⟨srcTar[3], List.getElem_mem _, by simp [TarMember.Ignored, srcTar], by decide +kernel, ⟨rfl, rfl, rfl, rfl⟩,
        Or.inr (Or.inr ⟨⟨Or.inl rfl, by decide +kernel⟩, _, rfl, rfl⟩)⟩
    · exact ⟨srcTar[1], List.getElem_mem _, by simp [TarMember.Ignored, srcTar], by decide +kernel, ⟨rfl, rfl, rfl, rfl⟩,
        Or.inl ⟨Or.inl rfl, rfl⟩⟩
    · exact ⟨srcTar[2], List.getElem_mem _, by simp [TarMember.Ignored, srcTar], by decide +kernel, ⟨rfl, rfl, rfl, rfl⟩,
        Or.inr (Or.inl ⟨rfl, _, rfl, rfl⟩)⟩

/-- the hypotheses of `C91_create_tar` are met: `arx create` of `d` and `tar2arx` of the tar archive of `d` -/
example : ReadSame tripAdder.creator srcTarConv.creator tripOrder [0, 3, 1, 2] (packBytes tripAdder.contents) (packBytes srcTarConv.contents) := by
  obtain ⟨N, hN⟩ := tripAdder_written
  obtain ⟨N', hN'⟩ := ConvEv.written_of (evs := (tar2arx (some (ascii "d.tar")) none srcTarSys).1) (by decide +kernel)
  refine C91_create_tar (o := exCreate) (sys := exSys) (s := exSrc) (cwd := []) (c := srcTarConv) (ms := srcTar) rfl rfl exSrc_wf rfl exEnv_quiet rfl
    exSys_walks ?_ hN hN' rfl srcTar_first (fun x => (exSrc_items x).trans (srcTar_items x).symm)
    ⟨by decide +kernel, by decide +kernel⟩ ⟨by decide +kernel, by decide +kernel⟩ (by decide +kernel) (by decide +kernel)
  rintro k q hat ⟨i, h, _⟩
  rw [(exSrc_at hat).2] at h
  cases h

/-- a tar archive with the items of `tripZip` -/
def sameTar : List TarMember :=
  [⟨ascii "d/", .directory, .ok 0, .ok 0, .ok 1234, .ok 0o755, none, true, ascii "d/", .ok []⟩,
   ⟨ascii "e/g", .regular, .ok 0, .ok 0, .ok 1234, .ok 0o644, none, true, ascii "e/g", .ok []⟩,
   ⟨ascii "d/f", .regular, .ok 0, .ok 0, .ok 1234, .ok 0o644, none, true, ascii "d/f", .ok (ascii "hello")⟩]
def sameTarSys : ConvSys TarMember := ⟨fun _ => .ok (sameTar.map .ok), true, true⟩
def sameTarConv : Conv := ((tar2arx (some (ascii "d.tar")) none sameTarSys).1.filterMap ConvEv.conv?).headD Conv.new

def zipItemList : List PackItem :=
  [⟨[ascii "d"], ⟨0, 0, 0o755, 1234⟩, .dir⟩, ⟨[ascii "d", ascii "f"], ⟨0, 0, 0o644, 1234⟩, .file 5 (ascii "hello")⟩,
   ⟨[ascii "e", ascii "g"], ⟨0, 0, 0o644, 1234⟩, .file 0 []⟩]

theorem sameTar_first : TarMember.FoldersFirst sameTar := by
  refine .of_pairwise ?_
  simp only [sameTar, List.pairwise_cons, List.mem_cons, List.not_mem_nil, or_false]
  refine ⟨?_, ?_, (fun _ h => by cases h), .nil⟩
  · rintro e (rfl | rfl) <;> (intro _ _; decide +kernel)
  · rintro e rfl
    intro _ _; decide +kernel

theorem tripZip_first : ZipMember.FoldersFirst tripZip := by
  refine .of_pairwise ?_
  simp only [tripZip, List.pairwise_cons, List.mem_cons, List.not_mem_nil, or_false]
  refine ⟨?_, ?_, (fun _ h => by cases h), .nil⟩
  · rintro e (rfl | rfl) <;> (intro _; decide +kernel)
  · rintro e rfl
    intro _; decide +kernel

theorem sameTar_items (x : PackItem) : TarItems sameTar x ↔ x ∈ zipItemList := by
  constructor
  · rintro ⟨e, he, _, hn, hm, hw⟩
    simp only [sameTar, List.mem_cons, List.not_mem_nil, or_false] at he
    rcases he with rfl | rfl | rfl
    · rcases hw with ⟨_, hw⟩ | ⟨h, _⟩ | ⟨⟨h, _⟩, _⟩
      · rw [TarMember.item_eq (y := zipItemList[0]) hn hm (by decide +kernel) ⟨rfl, rfl, rfl, rfl⟩ hw]; exact List.getElem_mem _
      · cases h
      · rcases h with h | h | h <;> cases h
    · rcases hw with ⟨h, _⟩ | ⟨h, _⟩ | ⟨_, d, hd, hw⟩
      · rcases h with h | ⟨_, h, _⟩ <;> cases h
      · cases h
      · cases hd
        rw [TarMember.item_eq (y := zipItemList[2]) hn hm (by decide +kernel) ⟨rfl, rfl, rfl, rfl⟩ hw]; exact List.getElem_mem _
    · rcases hw with ⟨h, _⟩ | ⟨h, _⟩ | ⟨_, d, hd, hw⟩
      · rcases h with h | ⟨_, h, _⟩ <;> cases h
      · cases h
      · cases hd
        rw [TarMember.item_eq (y := zipItemList[1]) hn hm (by decide +kernel) ⟨rfl, rfl, rfl, rfl⟩ hw]; exact List.getElem_mem _
  · intro hx
    simp only [zipItemList, List.mem_cons, List.not_mem_nil, or_false] at hx
    rcases hx with rfl | rfl | rfl
    · exact ⟨sameTar[0], List.getElem_mem _, by simp [TarMember.Ignored, sameTar], by decide +kernel, ⟨rfl, rfl, rfl, rfl⟩,
        Or.inl ⟨Or.inl rfl, rfl⟩⟩
    · exact ⟨sameTar[2], List.getElem_mem _, by simp [TarMember.Ignored, sameTar], by decide +kernel, ⟨rfl, rfl, rfl, rfl⟩,
        Or.inr (Or.inr ⟨⟨Or.inl rfl, by decide +kernel⟩, _, rfl, rfl⟩)⟩
    · exact ⟨sameTar[1], List.getElem_mem _, by simp [TarMember.Ignored, sameTar], by decide +kernel, ⟨rfl, rfl, rfl, rfl⟩,
        Or.inr (Or.inr ⟨⟨Or.inl rfl, by decide +kernel⟩, _, rfl, rfl⟩)⟩

theorem tripZip_items (x : PackItem) : ZipItems tripZip x ↔ x ∈ zipItemList := by
  have htime : ∀ n d m b t, (zipMem n d m b).HasTime t ↔ t = 1234 := by
    intro n d m b t
    constructor
    · rintro (h | ⟨h, _⟩)
      · cases h; rfl
      · exact absurd rfl (h 1234)
    · rintro rfl; exact Or.inl rfl
  have heq : ∀ {x y : PackItem}, x.names = y.names → x.info = y.info → x.what = y.what → x = y := by
    rintro ⟨a, b, c⟩ ⟨a', b', c'⟩ rfl rfl rfl
    rfl
  constructor
  · rintro ⟨e, he, hn, ⟨t, ht, hi⟩, hw⟩
    simp only [tripZip, List.mem_cons, List.not_mem_nil, or_false] at he
    rcases he with rfl | rfl | rfl
    · rw [htime] at ht
      subst ht
      rcases hw with ⟨_, hw⟩ | ⟨h, _⟩
      · rw [heq (y := zipItemList[0]) (hn.trans (by decide +kernel)) hi hw]; exact List.getElem_mem _
      · cases h
    · rw [htime] at ht
      subst ht
      rcases hw with ⟨h, _⟩ | ⟨_, d, hd, hw⟩
      · cases h
      · cases hd
        rw [heq (y := zipItemList[1]) (hn.trans (by decide +kernel)) hi (hw.trans (by rfl))]; exact List.getElem_mem _
    · rw [htime] at ht
      subst ht
      rcases hw with ⟨h, _⟩ | ⟨_, d, hd, hw⟩
      · cases h
      · cases hd
        rw [heq (y := zipItemList[2]) (hn.trans (by decide +kernel)) hi (hw.trans (by rfl))]; exact List.getElem_mem _
  · intro hx
    simp only [zipItemList, List.mem_cons, List.not_mem_nil, or_false] at hx
    rcases hx with rfl | rfl | rfl
    · exact ⟨tripZip[0], List.getElem_mem _, by decide +kernel, ⟨1234, (htime _ _ _ _ _).mpr rfl, rfl⟩, Or.inl ⟨rfl, rfl⟩⟩
    · exact ⟨tripZip[1], List.getElem_mem _, by decide +kernel, ⟨1234, (htime _ _ _ _ _).mpr rfl, rfl⟩, Or.inr ⟨rfl, _, rfl, rfl⟩⟩
    · exact ⟨tripZip[2], List.getElem_mem _, by decide +kernel, ⟨1234, (htime _ _ _ _ _).mpr rfl, rfl⟩, Or.inr ⟨rfl, _, rfl, rfl⟩⟩

/-- the hypotheses of `C91_tar_zip` are met -/
example : ReadSame sameTarConv.creator tripZipConv.creator [0, 1, 3, 2] [0, 2, 1, 3] (packBytes sameTarConv.contents)
    (packBytes tripZipConv.contents) := by
  obtain ⟨N, hN⟩ := ConvEv.written_of (evs := (tar2arx (some (ascii "d.tar")) none sameTarSys).1) (by decide +kernel)
  obtain ⟨N', hN'⟩ := ConvEv.written_of (evs := (zip2arx (ascii "a.zip") (ascii "a.arx") tripZipSys).1) (by decide +kernel)
  exact C91_tar_zip (c := sameTarConv) (c' := tripZipConv) (ms := sameTar) (ms' := tripZip) hN hN' rfl rfl sameTar_first tripZip_first
    (fun x => (sameTar_items x).trans (tripZip_items x).symm)
    ⟨by decide +kernel, by decide +kernel⟩ ⟨by decide +kernel, by decide +kernel⟩ (by decide +kernel) (by decide +kernel)

end Arx
