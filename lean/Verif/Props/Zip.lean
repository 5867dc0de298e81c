import Verif.Props.Convert
/-!
# Properties of the zip converter (C42)
-/
namespace Arx

theorem ZipMember.mtime_ok {e : ZipMember} {t : Nat} (h : e.mtime = .ok t) : e.HasTime t := by
  unfold ZipMember.mtime at h
  unfold ZipMember.HasTime
  cases hl : e.extTimes.getLast? with
  | some x =>
    rw [hl] at h
    cases x with
    | some u => simp only [Option.join_some] at h; cases h; exact Or.inl rfl
    | none =>
      simp only [Option.join_some] at h
      refine Or.inr ⟨by simp, ?_⟩
      cases hd : e.dosTime with
      | none => rw [hd] at h; cases h; exact Or.inr ⟨rfl, rfl⟩
      | some y =>
        rw [hd] at h
        cases y with
        | ok u => cases h; exact Or.inl rfl
        | error u => cases h
  | none =>
    rw [hl] at h
    simp only [Option.join_none] at h
    refine Or.inr ⟨by simp, ?_⟩
    cases hd : e.dosTime with
    | none => rw [hd] at h; cases h; exact Or.inr ⟨rfl, rfl⟩
    | some y =>
      rw [hd] at h
      cases y with
      | ok u => cases h; exact Or.inl rfl
      | error u => cases h


theorem zipDepth_inside : ∀ (cs : List Bytes) (d : Nat), zipDepth d cs = true →
    ∀ q, q <+: cs.filter (· ≠ CUR) → 2 * q.count PARENT ≤ q.length + d := by
  intro cs
  induction cs with
  | nil => intro d _ q hq; simp at hq; subst hq; simp
  | cons c cs ih =>
    intro d h q hq
    unfold zipDepth at h
    by_cases hp : c = PARENT
    · rw [if_pos hp] at h
      cases d with
      | zero => cases h
      | succ d =>
        simp only at h
        have hc : c ≠ CUR := by rw [hp]; decide
        rw [List.filter_cons, if_pos (by simpa using hc)] at hq
        cases q with
        | nil => simp
        | cons x q =>
          obtain ⟨rfl, hq2⟩ := List.cons_prefix_cons.mp hq
          have := ih d h q hq2
          rw [hp, List.count_cons_self, List.length_cons]; omega
    · rw [if_neg hp] at h
      by_cases hc : c = CUR
      · rw [if_pos hc] at h
        rw [List.filter_cons, if_neg (by simp [hc])] at hq
        exact ih d h q hq
      · rw [if_neg hc] at h
        rw [List.filter_cons, if_pos (by simpa using hc)] at hq
        cases q with
        | nil => simp
        | cons x q =>
          obtain ⟨rfl, hq2⟩ := List.cons_prefix_cons.mp hq
          have := ih (d + 1) h q hq2
          rw [List.count_cons_of_ne hp, List.length_cons]; omega

/-- the request made for a member -/
def ZipMember.ReqIs (e : ZipMember) (bytes : ContentAddr → GetBytes) (r : AddReq) : Prop :=
  entryPath r.path = memberNames e.name ∧ StaysInside (memberNames e.name) ∧
  (∃ t, e.HasTime t ∧ r.info = ⟨0, 0, e.unixMode.getD 0o644, t⟩) ∧ ∃ k, r.kind = .ok (some k) ∧
    (e.isDir = true → k = .dir) ∧
    (e.isDir = false → ∃ d c, e.content = .ok d ∧ k = .file e.size c ∧ bytes c = .found d)

theorem ZipMember.ReqIs.mono {e : ZipMember} {f g : ContentAddr → GetBytes} {r : AddReq} (h : e.ReqIs f r)
    (hfg : ∀ a b, f a = .found b → g a = .found b) : e.ReqIs g r := by
  obtain ⟨h1, h2, h3, k, h4, h5, h6⟩ := h
  exact ⟨h1, h2, h3, k, h4, h5, fun hf => by obtain ⟨d, c, g1, g2, g3⟩ := h6 hf; exact ⟨d, c, g1, g2, hfg _ _ g3⟩⟩

theorem ZipMember.toEntry_ok {e : ZipMember} {cs cs' : List Bytes} {r : AddReq} (h : e.toEntry cs = .ok (r, cs')) :
    (∀ a b, packBytes cs a = .found b → packBytes cs' a = .found b) ∧ e.ReqIs (packBytes cs') r := by
  unfold ZipMember.toEntry at h
  cases h1 : e.mtime with
  | error o => rw [h1] at h; cases h
  | ok t =>
    rw [h1] at h
    simp only at h
    cases h2 : enclosedName e.name with
    | none => rw [h2] at h; cases h
    | some name =>
      rw [h2] at h
      simp only at h
      have hin : StaysInside (memberNames e.name) ∧ name = e.name := by
        unfold enclosedName at h2
        split at h2
        · cases h2
        · split at h2
          · cases h2
          · split at h2
            · rename_i hz
              cases h2
              exact ⟨fun q hq => by have := zipDepth_inside _ 0 hz q hq; omega, rfl⟩
            · cases h2
      obtain ⟨hin, rfl⟩ := hin
      cases h3 : RPath.fromPathBuf e.name with
      | error o => rw [h3] at h; cases h
      | ok path =>
        rw [h3] at h
        simp only at h
        have hp : entryPath path = memberNames e.name := by
          rw [fromPathBuf_eq] at h3
          split at h3
          · cases h3
          · split at h3
            · cases h3
              exact entryPath_joinPath (fun c hc => filterCur_valid hc) (fun c hc => by simpa using (List.mem_filter.mp hc).2)
            · cases h3
        have ht : ∃ t', e.HasTime t' ∧ (⟨0, 0, e.unixMode.getD 0o644, t⟩ : Meta) = ⟨0, 0, e.unixMode.getD 0o644, t'⟩ :=
          ⟨t, ZipMember.mtime_ok h1, rfl⟩
        cases hd : e.isDir with
        | true =>
          simp only [hd, if_true] at h
          cases h
          exact ⟨fun _ _ h => h, hp, hin, ht, _, rfl, fun _ => rfl, fun h => by rw [hd] at h; cases h⟩
        | false =>
          simp only [hd, Bool.false_eq_true, if_false] at h
          cases hc : e.content with
          | error u => unfold ZipMember.content at hc; rw [hc] at h; cases h
          | ok d =>
            have hc' := hc
            unfold ZipMember.content at hc
            rw [hc] at h
            cases h
            exact ⟨fun _ _ h => packBytes_mono h, hp, hin, ht, _, rfl, (fun h => by rw [hd] at h; cases h),
              fun _ => ⟨d, _, hc', rfl, packBytes_add cs d⟩⟩

theorem Conv.zipRun_ok : ∀ (items : List (Except Unit ZipMember)) (c c' : Conv), c.zipRun items = (c', .ok) →
    (∀ a b, packBytes c.contents a = .found b → packBytes c'.contents a = .found b) ∧
    ∃ rs, Accepts c.creator rs c'.creator ∧
      (∀ r ∈ rs, ∃ e, .ok e ∈ items ∧ e.ReqIs (packBytes c'.contents) r) ∧
      ∀ A e B, items = A ++ .ok e :: B → ∃ pre r post, rs = pre ++ r :: post ∧
        e.ReqIs (packBytes c'.contents) r ∧
        ∀ r' ∈ pre, ∃ e', .ok e' ∈ A ∧ entryPath r'.path = memberNames e'.name := by
  intro items
  induction items with
  | nil =>
    intro c c' h
    cases h
    exact ⟨fun _ _ h => h, [], .nil _, (fun r hr => by cases hr), (fun A e B h => by cases A <;> cases h)⟩
  | cons x rest ih =>
    intro c c' h
    cases x with
    | error u => cases h
    | ok e =>
      simp only [Conv.zipRun] at h
      cases hE : e.toEntry c.contents with
      | error o =>
        rw [hE] at h; simp only at h; cases h
        unfold ZipMember.toEntry at hE
        split at hE
        · rename_i hmt
          cases hE
          unfold ZipMember.mtime at hmt
          split at hmt <;> (try split at hmt) <;> cases hmt
        · simp only at hE
          split at hE <;> (try split at hE) <;> (try split at hE) <;> (try split at hE) <;> cases hE
      | ok y =>
        obtain ⟨r, cs⟩ := y
        obtain ⟨hmono, hr⟩ := ZipMember.toEntry_ok hE
        rw [hE] at h
        simp only at h
        cases hadd : c.add r cs with
        | mk c1 o =>
          rw [hadd] at h
          cases o with
          | source => cases h
          | add e => cases h
          | panic => cases h
          | ok =>
            simp only at h
            obtain ⟨hacc, hcs⟩ := Conv.add_ok hadd
            obtain ⟨g1, rs, g2, g3, g4⟩ := ih c1 c' h
            rw [hcs] at g1
            refine ⟨fun a b hab => g1 a b (hmono a b hab), r :: rs, .cons hacc g2, ?_, ?_⟩
            · intro r2 hr2
              rcases List.mem_cons.mp hr2 with rfl | hr2
              · exact ⟨e, by simp, hr.mono g1⟩
              · obtain ⟨e', k1, k2⟩ := g3 r2 hr2; exact ⟨e', by simp [k1], k2⟩
            · intro A e' B hs
              cases A with
              | nil => cases hs; exact ⟨[], r, rs, rfl, hr.mono g1, (fun _ h => by cases h)⟩
              | cons a A =>
                cases hs
                obtain ⟨pre, r2, post, k1, k2, k3⟩ := g4 A e' B rfl
                refine ⟨r :: pre, r2, post, by rw [k1]; rfl, k2, fun r' hr' => ?_⟩
                rcases List.mem_cons.mp hr' with rfl | hr'
                · exact ⟨e, by simp, hr.1⟩
                · obtain ⟨e2, l1, l2⟩ := k3 r' hr'; exact ⟨e2, by simp [l1], l2⟩

/-- **C42 (partial).** If the conversion of a zip archive succeeds, the archive contains for every member an
entry at its path: a file with the member's content and metadata (owner and group 0, mode 0644 when it has
none, time by extended timestamp, DOS time or 0), or a directory, with that metadata if no earlier member is at
or below its path; and nothing but these and the directories leading to them. No path leads above the root.
Missing: symbolic links, the metadata of directories that follow their content, members that crash the
conversion, see `C42_counterexamples`. -/
theorem C42_zip_partial {items : List (Except Unit ZipMember)} {c : Conv} (h : Conv.new.zipRun items = (c, .ok)) :
    ∃ rs m, Creator.new.run rs = some c.creator ∧ SpecRun PathMap.empty rs m ∧
      (∀ A e B, items = A ++ .ok e :: B → ∃ t, e.HasTime t ∧ memberNames e.name ≠ [] ∧
        (e.isDir = false → ∃ d a, e.content = .ok d ∧ packBytes c.contents a = .found d ∧
          m (memberNames e.name) = some ⟨⟨0, 0, e.unixMode.getD 0o644, t⟩, .file e.size a⟩) ∧
        (e.isDir = true → ∃ n, m (memberNames e.name) = some n ∧ n.isDir = true ∧
          ((∀ e', .ok e' ∈ A → ¬ memberNames e.name <+: memberNames e'.name) →
            n.info = ⟨0, 0, e.unixMode.getD 0o644, t⟩))) ∧
      (∀ p n, m p = some n → StaysInside p ∧ ∃ e, .ok e ∈ items ∧ p <+: memberNames e.name) := by
  obtain ⟨_, rs, hacc, hfrom, hall⟩ := Conv.zipRun_ok items _ _ h
  obtain ⟨m, paths, hm, R⟩ := run_rel hacc.run
  refine ⟨rs, m, hacc.run, hm, ?_, ?_⟩
  · intro A e B hs
    obtain ⟨pre, r, post, rfl, hr, hpre⟩ := hall A e B hs
    obtain ⟨h1, h2, ⟨t, ht, hinfo⟩, k, h3, h4, h5⟩ := hr
    obtain ⟨g1, g2, g3⟩ := Accepts.entry hacc hm h3
    rw [h1] at g1 g2 g3
    rw [hinfo] at g2 g3
    refine ⟨t, ht, g1, ?_, ?_⟩
    · intro hd
      obtain ⟨d, a, k1, rfl, k2⟩ := h5 hd
      exact ⟨d, a, k1, k2, g2 (by simp)⟩
    · intro hd
      have := h4 hd; subst this
      obtain ⟨n, k1, k2, k3⟩ := g3 rfl
      refine ⟨n, k1, k2, fun hA => k3 fun r' hr' => ?_⟩
      obtain ⟨e', l1, l2⟩ := hpre r' hr'
      rw [l2]; exact hA e' l1
  · intro p n hp
    rcases hm.from_req p n hp with ⟨x, hx⟩ | ⟨r, hr, hpr⟩
    · cases hx
    · obtain ⟨e, k1, k2⟩ := hfrom r hr
      rw [k2.1] at hpr
      exact ⟨fun q hq => k2.2.1 q (hq.trans hpr), e, k1, hpr⟩

/-! Examples -/

def zipMem (name : Bytes) (isDir : Bool) (mode : Option Nat) (data : Bytes) : ZipMember :=
  ⟨name, isDir, [some 1234], some (.ok 99), mode, false, data.length, .ok [], .ok data⟩

def exZip : List (Except Unit ZipMember) :=
  [.ok (zipMem (ascii "d/") true (some 0o755) []), .ok (zipMem (ascii "d/../e/f") false none (ascii "hello"))]

/-- the hypothesis of `C42_zip_partial` is met -/
example : (Conv.new.zipRun exZip).2 = .ok ∧
    (Conv.new.zipRun exZip).1.creator.store.map (fun s => (s.name, s.info.rights)) =
      [(ascii "d", 0o755), (PARENT, 0o755), (ascii "e", 0o755), (ascii "f", 0o644)] := by decide +kernel
example : (Conv.new.zipRun [.ok (zipMem (ascii "../f") false none [])]).2 = .source := by decide +kernel

/-- a symbolic link to `d`, as zip stores it: its content is the target, its mode says it is a link -/
def linkZip : List (Except Unit ZipMember) := [.ok (zipMem (ascii "l") false (some 0o120777) (ascii "d"))]

/-- **C42 is false in full**: a symbolic link becomes a file that contains the target; a directory that follows
its content loses its metadata; a member for the current directory, or one that cannot be opened (encrypted),
crashes the conversion. -/
theorem C42_counterexamples :
    ((Conv.new.zipRun linkZip).2 = .ok ∧ (Conv.new.zipRun linkZip).1.creator.store.map (fun s => (s.name, s.kind)) =
      [(ascii "l", .file 1 ⟨1, 0⟩)]) ∧
    ((Conv.new.zipRun [.ok (zipMem (ascii "d/f") false none []), .ok (zipMem (ascii "d/") true (some 0o700) [])]).2 = .ok ∧
      (Conv.new.zipRun [.ok (zipMem (ascii "d/f") false none []), .ok (zipMem (ascii "d/") true (some 0o700) [])]).1.creator.store.head?.map
        (fun s => (s.name, s.info)) = some (ascii "d", defaultMeta)) ∧
    (Conv.new.zipRun [.ok (zipMem (ascii "./") true none [])]).2 = .panic ∧
    (Conv.new.zipRun [.error ()]).2 = .panic := by
  refine ⟨⟨by decide +kernel, by decide +kernel⟩, ⟨by decide +kernel, by decide +kernel⟩, by decide +kernel, by decide +kernel⟩

end Arx
