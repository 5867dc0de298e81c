import Verif.Spec.Dedup
import Verif.Props.Adder4
import Verif.Props.ConvertEx
import Verif.Props.Zip
/-!
# C56: equal contents are stored once, different contents are kept apart
-/
namespace Arx

theorem addContent_nodup {cs : List Bytes} (h : cs.Nodup) (b : Bytes) : (addContent cs b).2.Nodup := by
  unfold addContent
  simp only
  split
  · exact h
  · rename_i hb
    rw [List.nodup_append]
    refine ⟨h, by simp, ?_⟩
    intro x hx y hy e
    simp only [List.mem_cons, List.not_mem_nil, or_false] at hy
    exact hb (hy ▸ e ▸ hx)

theorem packBytes_inj {cs : List Bytes} (h : cs.Nodup) : StoredOnce (packBytes cs) := by
  intro a a' b h1 h2
  unfold packBytes at h1 h2
  split at h1
  · rename_i e1
    split at h2
    · rename_i e2
      cases h3 : cs[a.content]? with
      | none => rw [h3] at h1; cases h1
      | some x =>
        cases h4 : cs[a'.content]? with
        | none => rw [h4] at h2; cases h2
        | some y =>
          rw [h3] at h1; rw [h4] at h2
          cases h1; cases h2
          have hlt : a.content < cs.length := by
            rw [List.getElem?_eq_some_iff] at h3; exact h3.1
          have := (List.getElem?_inj (j := a'.content) hlt h).mp (by rw [h3, h4])
          cases a; cases a'; simp_all
    · cases h2
  · cases h1

/-- the state of a creator and the contents of its pack: nothing is stored twice and every file asked for
has its content there -/
def Shared (st : Creator) (cs : List Bytes) : Prop :=
  cs.Nodup ∧ ∃ rs, Creator.new.run rs = some st ∧ ∀ r ∈ rs, ∀ size c,
    r.kind = .ok (some (.file size c)) → ∃ b, packBytes cs c = .found b

/-- what one request does to the contents -/
def Extends (cs cs' : List Bytes) (r : AddReq) : Prop :=
  (cs.Nodup → cs'.Nodup) ∧ (∀ size c, r.kind = .ok (some (.file size c)) → ∃ b, packBytes cs' c = .found b) ∧
  (∀ a b, packBytes cs a = .found b → packBytes cs' a = .found b)

theorem Extends.add (cs : List Bytes) (b : Bytes) (arx : RPath) (size : Nat) (info : Meta) :
    Extends cs (addContent cs b).2 ⟨arx, .ok (some (.file size (addContent cs b).1)), info⟩ :=
  ⟨fun h => addContent_nodup h b, (fun _ _ e => by cases e; exact ⟨b, packBytes_add cs b⟩), fun _ _ h => packBytes_mono h⟩

theorem Extends.same {cs : List Bytes} {r : AddReq} (h : ∀ size c, r.kind ≠ .ok (some (.file size c))) : Extends cs cs r :=
  ⟨id, fun s c e => absurd e (h s c), fun _ _ h => h⟩

theorem Shared.step {st st' : Creator} {cs cs' : List Bytes} {r : AddReq} {o : AddOut} (h : Shared st cs)
    (hr : Extends cs cs' r) (ha : st.addEntry r = (st', o)) (ho : o ≠ .panic) : Shared st' cs' := by
  obtain ⟨h1, rs, h2, h3⟩ := h
  refine ⟨hr.1 h1, rs ++ [r], ?_, ?_⟩
  · rw [Creator.run_append, h2]
    cases o with
    | ok => simp [Creator.run, ha]
    | err e => simp [Creator.run, ha]
    | panic => exact absurd rfl ho
  · intro r' hr' size c hk
    rcases List.mem_append.mp hr' with h | h
    · obtain ⟨b, g⟩ := h3 r' h size c hk
      exact ⟨b, hr.2.2 _ _ g⟩
    · simp only [List.mem_cons, List.not_mem_nil, or_false] at h
      subst h
      exact hr.2.1 size c hk

theorem newFromPath_extends {env : CEnv} {t : Nat} {cs cs' : List Bytes} {path : List Bytes} {arx : RPath} {follow : Bool} {r : AddReq}
    (h : newFromPath env t cs path arx follow = .ok (r, cs')) : Extends cs cs' r := by
  unfold newFromPath at h
  cases hd : detectKind env t path follow with
  | error e => rw [hd] at h; cases h
  | ok y =>
    obtain ⟨p', st⟩ := y
    rw [hd] at h
    simp only at h
    cases hk : st.kind with
    | dir => rw [hk] at h; cases h; exact Extends.same (by simp)
    | other => rw [hk] at h; cases h; exact Extends.same (by simp)
    | link =>
      rw [hk] at h
      simp only at h
      cases hc : env.call (t + 3) (fun s => s.readLink p') with
      | error e => rw [hc] at h; cases h
      | ok b => rw [hc] at h; cases h; exact Extends.same (by simp)
    | file size =>
      rw [hk] at h
      simp only at h
      cases hc : env.call (t + 3) (fun s => s.readFile p') with
      | error e => rw [hc] at h; cases h
      | ok b => rw [hc] at h; cases h; exact Extends.add _ _ _ _ _

theorem Shared.new : Shared Creator.new [] := ⟨List.nodup_nil, [], rfl, fun r hr => by cases hr⟩

theorem Adder.Reached.shared {env : CEnv} {a : Adder} (h : Adder.Reached env a) : Shared a.creator a.contents := by
  induction h with
  | new => exact Shared.new
  | @step a a' o pre path follow _ hadd ho ih =>
    unfold Adder.addEntryFromPath at hadd
    cases hp : RPath.fromPathBuf path with
    | error e => rw [hp] at hadd; cases hadd; exact ih
    | ok arx =>
      rw [hp] at hadd
      simp only at hadd
      cases hst : RPath.stripPrefix arx pre with
      | none => rw [hst] at hadd; cases hadd; exact ih
      | some arx' =>
        rw [hst] at hadd
        simp only at hadd
        split at hadd
        · cases hadd; exact ih
        · cases hn : newFromPath env a.tick a.contents (namesOf env.cwd path) arx' follow with
          | error e => rw [hn] at hadd; cases hadd; exact ih
          | ok y =>
            obtain ⟨r, cs⟩ := y
            rw [hn] at hadd
            simp only at hadd
            have hx := newFromPath_extends hn
            cases ha : a.creator.addEntry r with
            | mk st out =>
              rw [ha] at hadd
              cases out with
              | ok => cases hadd; exact ih.step hx ha (by simp)
              | err e => cases hadd; exact ih.step hx ha (by simp)
              | panic => cases hadd; exact absurd rfl ho

theorem Conv.add_shared {c c' : Conv} {cs : List Bytes} {r : AddReq} {o : COut} (h : Shared c.creator c.contents)
    (hx : Extends c.contents cs r) (ha : c.add r cs = (c', o)) (ho : o ≠ .panic) : Shared c'.creator c'.contents := by
  unfold Conv.add at ha
  cases hh : c.creator.addEntry r with
  | mk st out =>
    rw [hh] at ha
    cases out with
    | ok => cases ha; exact h.step hx hh (by simp)
    | err e => cases ha; exact h.step hx hh (by simp)
    | panic => cases ha; exact absurd rfl ho

theorem TarMember.toEntry_extends {e : TarMember} {cs cs' : List Bytes} {o : Option AddReq} (h : e.toEntry cs = .ok (o, cs')) :
    (o = none ∧ cs' = cs) ∨ ∃ r, o = some r ∧ Extends cs cs' r := by
  unfold TarMember.toEntry at h
  split at h
  · cases hp : RPath.fromPathBuf e.path with
    | error _ => rw [hp] at h; cases h
    | ok path =>
      rw [hp] at h
      simp only at h
      split at h
      · cases h; exact .inr ⟨_, rfl, Extends.same (by simp)⟩
      · split at h
        · cases h
        · cases h; exact .inr ⟨_, rfl, Extends.same (by simp)⟩
      · cases h; exact .inl ⟨rfl, rfl⟩
      · cases h; exact .inl ⟨rfl, rfl⟩
      · cases h; exact .inl ⟨rfl, rfl⟩
      · cases h; exact .inl ⟨rfl, rfl⟩
      all_goals
        split at h
        · cases h; exact .inr ⟨_, rfl, Extends.same (by simp)⟩
        · split at h
          · cases h
          · cases h; exact .inr ⟨_, rfl, Extends.add _ _ _ _ _⟩
  · cases h

theorem Conv.tarRun_shared : ∀ (items : List (Except Unit TarMember)) (c c' : Conv) (o : COut), Shared c.creator c.contents →
    c.tarRun items = (c', o) → o ≠ .panic → Shared c'.creator c'.contents
  | [], c, c', o, h, hr, _ => by cases hr; exact h
  | .error _ :: _, c, c', o, h, hr, _ => by cases hr; exact h
  | .ok e :: rest, c, c', o, h, hr, ho => by
    unfold Conv.tarRun at hr
    cases ht : e.toEntry c.contents with
    | error x => rw [ht] at hr; cases hr; exact h
    | ok y =>
      obtain ⟨q, cs⟩ := y
      rw [ht] at hr
      rcases TarMember.toEntry_extends ht with ⟨rfl, rfl⟩ | ⟨r, rfl, hx⟩
      · exact Conv.tarRun_shared rest _ _ _ (by exact h) hr ho
      · simp only at hr
        cases ha : c.add r cs with
        | mk c1 o1 =>
          rw [ha] at hr
          cases o1 with
          | ok => exact Conv.tarRun_shared rest _ _ _ (Conv.add_shared h hx ha (by simp)) hr ho
          | source => cases hr; exact Conv.add_shared h hx ha ho
          | add x => cases hr; exact Conv.add_shared h hx ha ho
          | panic => cases hr; exact absurd rfl ho

theorem ZipMember.toEntry_extends {e : ZipMember} {cs cs' : List Bytes} {r : AddReq} (h : e.toEntry cs = .ok (r, cs')) :
    Extends cs cs' r := by
  unfold ZipMember.toEntry at h
  split at h
  · cases h
  · simp only at h
    split at h
    · cases h
    · split at h
      · cases h
      · split at h
        · cases h; exact Extends.same (by simp)
        · split at h
          · cases h
          · cases h; exact Extends.add _ _ _ _ _

theorem Conv.zipRun_shared : ∀ (items : List (Except Unit ZipMember)) (c c' : Conv) (o : COut), Shared c.creator c.contents →
    c.zipRun items = (c', o) → o ≠ .panic → Shared c'.creator c'.contents
  | [], c, c', o, h, hr, _ => by cases hr; exact h
  | .error _ :: _, c, c', o, h, hr, _ => by cases hr; exact h
  | .ok e :: rest, c, c', o, h, hr, ho => by
    unfold Conv.zipRun at hr
    cases ht : e.toEntry c.contents with
    | error x => rw [ht] at hr; cases hr; exact h
    | ok y =>
      obtain ⟨r, cs⟩ := y
      rw [ht] at hr
      have hx := ZipMember.toEntry_extends ht
      simp only at hr
      cases ha : c.add r cs with
      | mk c1 o1 =>
        rw [ha] at hr
        cases o1 with
        | ok => exact Conv.zipRun_shared rest _ _ _ (Conv.add_shared h hx ha (by simp)) hr ho
        | source => cases hr; exact Conv.add_shared h hx ha ho
        | add x => cases hr; exact Conv.add_shared h hx ha ho
        | panic => cases hr; exact absurd rfl ho

theorem Filled.shared {st : Creator} {cs : List Bytes} (h : Filled st cs) : Shared st cs := by
  cases h with
  | added h => exact h.shared
  | tar h ho => exact Conv.tarRun_shared _ _ _ _ Shared.new h ho
  | zip h ho => exact Conv.zipRun_shared _ _ _ _ Shared.new h ho

/-- **C56.** Take any archive written by `arx create`, tar2arx or zip2arx (or a program using the library to add
paths), whatever was added, refused or changed meanwhile. Its pack stores no content twice; every file entry
has its content there; and two file entries have the same address exactly if they have the same content. -/
theorem C56_dedup {st : Creator} {cs : List Bytes} (h : Filled st cs) {order : List Nat} (hl : IsLayout st order)
    (hlen : st.store.length < 2 ^ 32) :
    StoredOnce (packBytes cs) ∧
    ∀ i j f g, (writeArchive st order).getEntryAt fullBuilder i = .ok (.file f) →
      (writeArchive st order).getEntryAt fullBuilder j = .ok (.file g) →
      ∃ b b', packBytes cs f.content = .found b ∧ packBytes cs g.content = .found b' ∧ (f.content = g.content ↔ b = b') := by
  obtain ⟨h0, rs, h1, h2⟩ := h.shared
  have hw : Written rs (writeArchive st order) := ⟨_, order, h1, hl, rfl, hlen⟩
  obtain ⟨m, paths, hm, R⟩ := run_rel h1
  have key : ∀ i f, (writeArchive st order).getEntryAt fullBuilder i = .ok (.file f) → ∃ b, packBytes cs f.content = .found b := by
    intro i f hi
    have hlt : i < (writeArchive st order).entries.length := by
      refine Classical.byContradiction fun hn => ?_
      have : (writeArchive st order).entries[i]? = none := List.getElem?_eq_none (by omega)
      rw [Archive.getEntryAt, Archive.create, this] at hi
      cases hi
    obtain ⟨p, n, e, _, g2, g3, g4, _⟩ := C08_parent_links hw hm i hlt
    rw [hi] at g3
    cases g3
    obtain ⟨_, _, _, g5⟩ := g4
    cases hk : n.kind with
    | dir => rw [hk] at g5; obtain ⟨_, _, e⟩ := g5; cases e
    | link t => rw [hk] at g5; obtain ⟨_, e, _⟩ := g5; cases e
    | file sz c =>
      rw [hk] at g5
      obtain ⟨f, ef, g5⟩ := g5
      cases ef
      rcases hm.kind_from_req p n g2 with h | h | ⟨r, hr, h⟩
      · cases h
      · rw [hk] at h; cases h
      · rw [hk] at h
        rw [g5.2]
        exact h2 r hr sz c h
  refine ⟨packBytes_inj h0, ?_⟩
  intro i j f g hf hg
  obtain ⟨b, hb⟩ := key i f hf
  obtain ⟨b', hb'⟩ := key j g hg
  refine ⟨b, b', hb, hb', ?_, ?_⟩
  · intro e
    rw [e, hb'] at hb
    cases hb; rfl
  · intro e
    exact packBytes_inj h0 _ _ b hb (e ▸ hb')

/-- three zip members, two with the same content; the last repeats a name and is refused -/
def sharedItems : List (Except Unit ZipMember) :=
  let f (n c : String) : Except Unit ZipMember := .ok ⟨ascii n, false, [], none, none, false, (ascii c).length, .error (), .ok (ascii c)⟩
  [f "a" "same", f "b" "other", f "c" "same", f "a" "refused"]

def sharedConv : Conv × COut := Conv.new.zipRun sharedItems

/-- the hypotheses are met: the content of the refused member is in the pack, too -/
example : sharedConv.2 = .add .fileExists ∧ Filled sharedConv.1.creator sharedConv.1.contents ∧
    IsLayout sharedConv.1.creator [0, 1, 2] ∧ sharedConv.1.creator.store.length < 2 ^ 32 ∧
    sharedConv.1.contents = [ascii "same", ascii "other", ascii "refused"] ∧
    (∃ f g, (writeArchive sharedConv.1.creator [0, 1, 2]).getEntryAt fullBuilder 0 = .ok (.file f) ∧
      (writeArchive sharedConv.1.creator [0, 1, 2]).getEntryAt fullBuilder 2 = .ok (.file g) ∧ f.content = g.content) := by
  refine ⟨by decide +kernel, .zip (items := sharedItems) (o := sharedConv.2) rfl (by decide +kernel), ⟨by decide +kernel, by decide +kernel⟩,
    by decide +kernel, by decide +kernel, _, _, rfl, rfl, by decide +kernel⟩

end Arx
