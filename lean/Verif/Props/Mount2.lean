import Verif.Props.Mount
/-!
# Properties of the mounted archive: listing, reading, robustness (C24–C26, C29–C31)
-/
namespace Arx

/-- The table can be listed: row numbers plus two fit in 32 bits. -/
def Listable (cfg : FsCfg) : Prop := cfg.a.entries.length + 2 < 2 ^ 32

/-! ## C24, C29 -/

theorem Mounted.readdir {rs : List AddReq} {m : PathMap} {cfg : FsCfg} {d0 : List Bytes} (h : Mounted rs m cfg d0)
    (hsz : Listable cfg) {ino : Nat} {d : List Bytes} (hi : inoPath cfg d0 ino = some d)
    (hd : ino = 1 ∨ ∃ n, m d = some n ∧ n.isDir = true) :
    ∃ L, DirListing cfg m ino d L ∧ ∀ (s : FsState) off buf,
      (s.step cfg (.readdir ino off buf)).1 = .dir (fill buf 0 (L.drop (if off = 0 then 0 else off + 1))) := by
  obtain ⟨P, G, hroot, _⟩ := h.good
  obtain ⟨L, hL, _, hread⟩ := G.readdir hroot hi hd hsz
  exact ⟨L, hL, hread⟩

/-- **C24, one page.** Every directory has one complete listing `L`; in every state, a request at offset
0 answers what fits of `L` from its start, and a request at offset `o > 0` what fits after the entry
with cookie `o`. -/
theorem C24_page {rs : List AddReq} {m : PathMap} {cfg : FsCfg} {d0 : List Bytes} (h : Mounted rs m cfg d0)
    (hsz : Listable cfg) {ino : Nat} {d : List Bytes} (hi : inoPath cfg d0 ino = some d)
    (hd : ino = 1 ∨ ∃ n, m d = some n ∧ n.isDir = true) :
    ∃ L, DirListing cfg m ino d L ∧ ∀ (s : FsState) off buf, ∃ page,
      (s.step cfg (.readdir ino off buf)).1 = .dir page ∧
      IsPage buf (L.drop (if off = 0 then 0 else off + 1)) page := by
  obtain ⟨L, hL, hread⟩ := h.readdir hsz hi hd
  refine ⟨L, hL, fun s off buf => ⟨_, hread s off buf, ?_⟩⟩
  obtain ⟨h1, h2, h3⟩ := fill_isPage buf (L.drop (if off = 0 then 0 else off + 1)) 0 (Nat.zero_le _)
  exact ⟨h1, by omega, fun e t he => by have := h3 e t he; omega⟩

theorem DirListing.dotSize : direntSize CUR = 32 ∧ direntSize PARENT = 32 := by decide

theorem DirListing.length_ge {cfg : FsCfg} {m : PathMap} {ino : Nat} {d : List Bytes} {L : List DirEnt}
    (h : DirListing cfg m ino d L) : ∃ p t, L = ⟨ino, 0, .dir, CUR⟩ :: ⟨p, 1, .dir, PARENT⟩ :: t := by
  have h0 := h.dot
  obtain ⟨p, h1, _⟩ := h.dotdot
  match L, h0, h1 with
  | [], h0, _ => simp at h0
  | [x], _, h1 => simp at h1
  | x :: y :: t, h0, h1 =>
    simp at h0 h1
    exact ⟨p, t, by rw [h0, h1]⟩

theorem DirListing.cookie {cfg : FsCfg} {m : PathMap} {ino : Nat} {d : List Bytes} {L : List DirEnt}
    (h : DirListing cfg m ino d L) {i : Nat} {e : DirEnt} (he : L[i]? = some e) : e.cookie = i := by
  have h1 : (L.map (fun e => e.cookie))[i]? = some e.cookie := by rw [List.getElem?_map, he]; rfl
  have hi := (List.getElem?_eq_some_iff.mp he).1
  rw [h.cookies, List.getElem?_range hi] at h1
  exact (Option.some.inj h1).symm

/-- cookie of the last entry of a prefix -/
theorem DirListing.lastCookie {cfg : FsCfg} {m : PathMap} {ino : Nat} {d : List Bytes} {L : List DirEnt}
    (h : DirListing cfg m ino d L) {k : Nat} (hk : k ≤ L.length) :
    (((L.take k).getLast?.map (fun e => e.cookie)).getD 0) = k - 1 := by
  rw [List.getLast?_take]
  by_cases h0 : k = 0
  · simp [h0]
  · rw [if_neg h0]
    have hlt : k - 1 < L.length := by omega
    have hg : L[k - 1]? = some L[k - 1] := List.getElem?_eq_getElem hlt
    rw [hg]
    simp
    exact h.cookie hg

theorem fill_take (buf used : Nat) (L : List DirEnt) : ∃ j, fill buf used L = L.take j ∧ j ≤ L.length := by
  have : fill buf used L <+: L := by
    induction L generalizing used with
    | nil => exact List.nil_prefix
    | cons x L ih =>
      simp only [fill]
      split
      · exact List.nil_prefix
      · exact List.cons_prefix_cons.mpr ⟨rfl, ih _⟩
  exact ⟨(fill buf used L).length, List.prefix_iff_eq_take.mp this, this.length_le⟩

theorem List.take_append_drop_take {α : Type} (L : List α) (k j : Nat) : L.take k ++ (L.drop k).take j = L.take (k + j) := by
  rw [List.take_add]

/-- **C24 (partial).** Reading a directory page by page from the start, each time passing the cookie of
the last entry received, with any other requests in between: if the first buffer holds at least `"."`
and `".."` (64 bytes), what has been received is always an initial part of the complete listing (so
nothing is skipped, repeated or reordered), and if every buffer can hold any entry, `n` pages bring at
least `n` entries or the whole listing. Missing: a first buffer with room for one entry only, see
`C24_counterexample`. -/
theorem C24_pages_partial {rs : List AddReq} {m : PathMap} {cfg : FsCfg} {d0 : List Bytes} (h : Mounted rs m cfg d0)
    (hsz : Listable cfg) {ino : Nat} {d : List Bytes} (hi : inoPath cfg d0 ino = some d)
    (hd : ino = 1 ∨ ∃ n, m d = some n ∧ n.isDir = true) :
    ∃ L, DirListing cfg m ino d L ∧ ∀ (s : FsState) (buf : Nat) (noise : List FReq) (pages : List (Nat × List FReq)),
      64 ≤ buf → ∃ k, readPages cfg ino s [] ((buf, noise) :: pages) = some (L.take k) ∧
        ((∀ p ∈ pages, ∀ e ∈ L, direntSize e.name ≤ p.1) → min (pages.length + 1) L.length ≤ k) := by
  obtain ⟨L, hL, hread⟩ := h.readdir hsz hi hd
  refine ⟨L, hL, ?_⟩
  have hlen2 : 2 ≤ L.length := by
    obtain ⟨p, t, hLe⟩ := hL.length_ge
    rw [hLe]; simp
  -- later pages
  have later : ∀ (pages : List (Nat × List FReq)) (s : FsState) (k : Nat), 2 ≤ k → k ≤ L.length →
      ∃ k', readPages cfg ino s (L.take k) pages = some (L.take k') ∧ k ≤ k' ∧
        ((∀ p ∈ pages, ∀ e ∈ L, direntSize e.name ≤ p.1) → min (k + pages.length) L.length ≤ k') := by
    intro pages
    induction pages with
    | nil => intro s k _ _; exact ⟨k, rfl, Nat.le_refl _, fun _ => by simp; omega⟩
    | cons pg pages ih =>
      obtain ⟨buf, noise⟩ := pg
      intro s k hk2 hkl
      simp only [readPages]
      have hr := hread s (k - 1) buf
      rw [hL.lastCookie hkl]
      rw [if_neg (by omega), show k - 1 + 1 = k by omega] at hr
      revert hr
      cases s.step cfg (.readdir ino (k - 1) buf) with
      | mk r s1 =>
        intro hr
        simp only at hr; subst hr
        simp only
        obtain ⟨j, hj, hjl⟩ := fill_take buf 0 (L.drop k)
        rw [hj, List.take_append_drop_take]
        simp at hjl
        obtain ⟨k', h1, h2, h3⟩ := ih (s1.run cfg noise).2 (k + j) (by omega) (by omega)
        refine ⟨k', h1, by omega, ?_⟩
        intro hall
        have h3' := h3 (fun p hp => hall p (by simp [hp]))
        by_cases hkL : k = L.length
        · omega
        · have hj1 : 1 ≤ j := by
            have hlt : k < L.length := by omega
            rw [List.drop_eq_getElem_cons hlt] at hj
            have hfit := hall (buf, noise) (by simp) L[k] (List.getElem_mem hlt)
            simp only [fill] at hj
            rw [if_neg (by omega)] at hj
            cases j with
            | zero => simp at hj
            | succ j => omega
          simp only [List.length_cons]; omega
  intro s buf noise pages hbuf
  simp only [readPages]
  have hr := hread s 0 buf
  simp only [if_true, List.drop_zero] at hr
  simp only [List.getLast?_nil, Option.map_none, Option.getD_none]
  revert hr
  cases s.step cfg (.readdir ino 0 buf) with
  | mk r s1 =>
    intro hr
    simp only at hr; subst hr
    simp only [List.nil_append]
    obtain ⟨j, hj, hjl⟩ := fill_take buf 0 L
    have hj2 : 2 ≤ j := by
      obtain ⟨p, t, hLe⟩ := hL.length_ge
      rw [hLe] at hj
      simp only [fill] at hj
      rw [DirListing.dotSize.1, DirListing.dotSize.2] at hj
      rw [if_neg (by omega), if_neg (by omega)] at hj
      match j, hj with
      | 0, hj => simp at hj
      | 1, hj => simp at hj
      | j + 2, _ => omega
    rw [hj]
    obtain ⟨k', h1, h2, h3⟩ := later pages (s1.run cfg noise).2 j hj2 hjl
    exact ⟨k', h1, fun hall => by have := h3 hall; omega⟩

/-- in particular, enough big enough pages give the whole listing -/
theorem C24_complete {rs : List AddReq} {m : PathMap} {cfg : FsCfg} {d0 : List Bytes} (h : Mounted rs m cfg d0)
    (hsz : Listable cfg) {ino : Nat} {d : List Bytes} (hi : inoPath cfg d0 ino = some d)
    (hd : ino = 1 ∨ ∃ n, m d = some n ∧ n.isDir = true) :
    ∃ L, DirListing cfg m ino d L ∧ ∀ (s : FsState) (buf : Nat) (noise : List FReq) (pages : List (Nat × List FReq)),
      64 ≤ buf → (∀ p ∈ pages, ∀ e ∈ L, direntSize e.name ≤ p.1) → L.length ≤ pages.length + 1 →
      readPages cfg ino s [] ((buf, noise) :: pages) = some L := by
  obtain ⟨L, hL, hp⟩ := C24_pages_partial h hsz hi hd
  refine ⟨L, hL, fun s buf noise pages hbuf hall hlen => ?_⟩
  obtain ⟨k, h1, h2⟩ := hp s buf noise pages hbuf
  have := h2 hall
  rw [h1, List.take_of_length_le (by omega)]

/-- **C24 is false in full**: the cookie of `"."` is 0, the cookie of the start; a reader whose pages
have room for one entry gets `"."` for ever, whatever the directory contains. -/
theorem C24_counterexample {rs : List AddReq} {m : PathMap} {cfg : FsCfg} {d0 : List Bytes} (h : Mounted rs m cfg d0)
    (hsz : Listable cfg) {ino : Nat} {d : List Bytes} (hi : inoPath cfg d0 ino = some d)
    (hd : ino = 1 ∨ ∃ n, m d = some n ∧ n.isDir = true) (s : FsState) (n : Nat) :
    readPages cfg ino s [] (List.replicate n (32, [])) = some (List.replicate n ⟨ino, 0, .dir, CUR⟩) := by
  obtain ⟨L, hL, hread⟩ := h.readdir hsz hi hd
  obtain ⟨p, t, hLe⟩ := hL.length_ge
  have hfill : fill 32 0 L = [⟨ino, 0, .dir, CUR⟩] := by
    rw [hLe]
    simp only [fill]
    rw [DirListing.dotSize.1, DirListing.dotSize.2]; simp
  have : ∀ n k (s : FsState), readPages cfg ino s (List.replicate k ⟨ino, 0, .dir, CUR⟩) (List.replicate n (32, [])) =
      some (List.replicate (k + n) ⟨ino, 0, .dir, CUR⟩) := by
    intro n
    induction n with
    | zero => intro k s; rfl
    | succ n ih =>
      intro k s
      simp only [List.replicate_succ, readPages]
      have hc : (((List.replicate k (⟨ino, 0, .dir, CUR⟩ : DirEnt)).getLast?.map (fun e => e.cookie)).getD 0) = 0 := by
        cases k with
        | zero => rfl
        | succ k => simp [List.getLast?_replicate]
      rw [hc]
      have hr := hread s 0 32
      simp only [if_true, List.drop_zero, hfill] at hr
      revert hr
      cases s.step cfg (.readdir ino 0 32) with
      | mk r s1 =>
        intro hr
        simp only at hr; subst hr
        simp only [FsState.run]
        have : List.replicate k (⟨ino, 0, .dir, CUR⟩ : DirEnt) ++ [⟨ino, 0, .dir, CUR⟩] = List.replicate (k + 1) ⟨ino, 0, .dir, CUR⟩ := by
          rw [List.replicate_succ']
        rw [this, ih (k + 1)]
        congr 2; omega
  have := this n 0 s
  simpa using this

/-- the hypotheses are met, and a two-page reading of the example root -/
example : Listable exFs ∧ inoPath exFs [] 1 = some [] ∧
    (readPages exFs 1 FsState.init [] [(64, []), (32, [.getattr 3]), (32, []), (4096, [])]).map
      (fun l => l.map (fun e => (e.name, e.ino, e.cookie))) =
    some [(ascii ".", 1, 0), (ascii "..", 1, 1), (ascii "a", 2, 2), (ascii "b", 3, 3)] := by
  refine ⟨?_, by decide, by decide⟩
  unfold Listable; decide

theorem fill_all (buf : Nat) : ∀ (L : List DirEnt) (used : Nat), used + entsSize L ≤ buf → fill buf used L = L := by
  intro L
  induction L with
  | nil => intro used _; rfl
  | cons x L ih =>
    intro used h
    simp only [entsSize, List.map_cons, List.sum_cons] at h
    simp only [fill]
    rw [if_neg (by omega), ih _ (by simp only [entsSize]; omega)]

/-- entries of a listing beyond `".."` are children -/
theorem DirListing.child {cfg : FsCfg} {m : PathMap} {ino : Nat} {d : List Bytes} {L : List DirEnt}
    (h : DirListing cfg m ino d L) {e : DirEnt} (he : e ∈ L) (hc : 2 ≤ e.cookie) :
    2 ≤ e.ino ∧ inoPath cfg [] e.ino = some (d ++ [e.name]) ∧ ∃ n, m (d ++ [e.name]) = some n ∧ e.kind = n.kind.etype := by
  obtain ⟨i, hi⟩ := List.mem_iff_getElem?.mp he
  have hci := h.cookie hi
  obtain ⟨ns, hk, ha⟩ := h.kids
  have hmem : e ∈ L.drop 2 := by
    apply List.mem_of_getElem? (i := i - 2)
    rw [List.getElem?_drop, show 2 + (i - 2) = i by omega]; exact hi
  obtain ⟨c, hcns, h1, h2, h3, h4⟩ := ha.left_mem hmem
  rw [h1]; exact ⟨h2, h3, h4⟩

/-- **C29.** In every reachable state: every child listed by any `readdir` page is found by `lookup` with
the same inode and kind, and every name found by `lookup` is listed by a `readdir` of the directory with
a sufficient buffer, with the same inode and kind. -/
theorem C29_readdir_lookup {rs : List AddReq} {m : PathMap} {cfg : FsCfg} {d0 : List Bytes} (h : Mounted rs m cfg d0)
    (hfit : AttrsFit m) (hsz : Listable cfg) {ino : Nat} {d : List Bytes} (hi : inoPath cfg d0 ino = some d)
    (hd : ino = 1 ∨ ∃ n, m d = some n ∧ n.isDir = true) :
    (∀ (s1 s2 : FsState) off buf page e, FsReach cfg s2 → (s1.step cfg (.readdir ino off buf)).1 = .dir page →
      e ∈ page → 2 ≤ e.cookie →
      ∃ at', (s2.step cfg (.lookup ino e.name)).1 = .entry at' ∧ at'.ino = e.ino ∧ at'.kind = e.kind) ∧
    (∃ buf, ∀ (s1 s2 : FsState) name at', FsReach cfg s2 → (s2.step cfg (.lookup ino name)).1 = .entry at' →
      ∃ page e, (s1.step cfg (.readdir ino 0 buf)).1 = .dir page ∧ e ∈ page ∧ e.name = name ∧ 2 ≤ e.cookie ∧
        e.ino = at'.ino ∧ e.kind = at'.kind) := by
  obtain ⟨L, hL, hread⟩ := h.readdir hsz hi hd
  have huniq := (C22_inode_paths h).2.2
  -- agreement of a listed child with the attributes found by lookup
  have agree : ∀ (e : DirEnt) at', e ∈ L → 2 ≤ e.cookie → AttrAt cfg m (d ++ [e.name]) at' →
      at'.ino = e.ino ∧ at'.kind = e.kind := by
    intro e at' he hc hat
    obtain ⟨h2, h3, n, h4, h5⟩ := hL.child he hc
    obtain ⟨n', ns, a1, a2, a3, a4, a5⟩ := hat
    rw [h4] at a1; cases a1
    obtain ⟨i0, g1, g2, g3⟩ := huniq _ _ h4
    have e1 := g3 e.ino h2 (by rw [← h3]; exact inoPath_ge2 h2)
    have e2 := g3 at'.ino a4 (by rw [← a3]; exact inoPath_ge2 a4)
    refine ⟨by omega, ?_⟩
    rw [a5, h5]; rfl
  refine ⟨?_, ?_⟩
  · intro s1 s2 off buf page e hs2 hp he hc
    rw [hread] at hp
    have hp := Reply.dir.inj hp
    have heL : e ∈ L := by
      obtain ⟨j, hj, _⟩ := fill_take buf 0 (L.drop (if off = 0 then 0 else off + 1))
      rw [← hp, hj] at he
      exact List.mem_of_mem_drop (List.mem_of_mem_take he)
    obtain ⟨_, _, n, h4, _⟩ := hL.child heL hc
    have hl := C23_lookup h hfit hs2 e.name hi hd
    rw [h4] at hl; simp only at hl
    obtain ⟨at', hr, hat⟩ := hl
    obtain ⟨a1, a2⟩ := agree e at' heL hc hat
    exact ⟨at', hr, a1, a2⟩
  · refine ⟨entsSize L, fun s1 s2 name at' hs2 hr => ?_⟩
    have hl := C23_lookup h hfit hs2 name hi hd
    cases hm : m (d ++ [name]) with
    | none => rw [hm] at hl; simp only at hl; rw [hr] at hl; cases hl
    | some n =>
      rw [hm] at hl; simp only at hl
      obtain ⟨at'', hr', hat⟩ := hl
      rw [hr] at hr'; cases hr'
      obtain ⟨ns, hk, ha⟩ := hL.kids
      obtain ⟨e, he, h1, h2, h3, h4⟩ := ha.right_mem ((hk.2 name).mpr ⟨n, hm⟩)
      have heL : e ∈ L := List.mem_of_mem_drop he
      obtain ⟨i, hi'⟩ := List.mem_iff_getElem?.mp he
      rw [List.getElem?_drop] at hi'
      have hc : 2 ≤ e.cookie := by rw [hL.cookie hi']; omega
      have hag := agree e at' heL hc (by rw [h1]; exact hat)
      refine ⟨L, e, ?_, heL, h1, hc, hag.1.symm, hag.2.symm⟩
      rw [hread]
      simp only [if_true, List.drop_zero]
      rw [fill_all _ _ _ (by omega)]

/-! ## C25, C26 -/

theorem openCount_run (cfg : FsCfg) (ino : Nat) (reqs : List FReq) : ∀ opens : Nat → Nat,
    (pureRun cfg opens reqs).2 ino = (reqs.zip (pureRun cfg opens reqs).1).foldl (fun n x =>
      if x = (.open ino, .opened) then n + 1 else if x = (.release ino, .ok) then n - 1 else n) (opens ino) := by
  induction reqs with
  | nil => intro opens; rfl
  | cons r rs ih =>
    intro opens
    simp only [pureRun, List.zip_cons_cons, List.foldl_cons]
    rw [ih]
    congr 1
    cases r with
    | «open» i =>
      simp only [pureStep]
      by_cases hi : i = ino
      · subst hi
        by_cases ho : 0 < opens i
        · simp [ho]
        · simp only [ho, if_false]
          split
          · rename_i heq; simp; omega
          · rename_i hne; simp only [Prod.mk.injEq, true_and, reduceCtorEq, false_and, if_false]
            rw [if_neg hne]
      · have hi' : ¬ ino = i := fun e => hi e.symm
        simp only [Prod.mk.injEq, FReq.open.injEq, hi, false_and, if_false, reduceCtorEq]
        split
        · simp [hi']
        · split <;> simp [hi']
    | release i =>
      simp only [pureStep]
      by_cases hi : i = ino
      · subst hi
        by_cases h0 : i = 0
        · simp [h0]
        · by_cases ho : opens i = 0
          · simp [h0, ho]
          · simp [h0, ho]
      · have hi' : ¬ ino = i := fun e => hi e.symm
        by_cases h0 : i = 0
        · simp [h0]
        · by_cases ho : opens i = 0
          · simp [h0, ho]
          · simp [h0, ho, hi, hi']
    | lookup p n =>
      have hp : (pureStep cfg opens (.lookup p n)).2 = opens := by
        simp only [pureStep]; repeat' split
        all_goals rfl
      rw [hp]; simp
    | getattr i =>
      have hp : (pureStep cfg opens (.getattr i)).2 = opens := by
        simp only [pureStep]; repeat' split
        all_goals rfl
      rw [hp]; simp
    | read i o z =>
      have hp : (pureStep cfg opens (.read i o z)).2 = opens := by
        simp only [pureStep]; repeat' split
        all_goals rfl
      rw [hp]; simp
    | readlink i => simp [pureStep]
    | opendir i => simp [pureStep]
    | releasedir i => simp [pureStep]
    | readdir i o z => simp [pureStep]

theorem Mounted.openCount {rs : List AddReq} {m : PathMap} {cfg : FsCfg} {d0 : List Bytes} (h : Mounted rs m cfg d0)
    (reqs : List FReq) (ino : Nat) :
    (pureRun cfg (fun _ => 0) reqs).2 ino = Arx.openCount (logOf cfg reqs) ino := by
  rw [openCount_run, Arx.openCount, logOf, C21_default h]

/-- **C26.** After any history of requests: a file can be read iff it has been opened more often than
released, its content is kept in memory exactly then, and releasing a file that is not open answers
ENOENT and changes nothing. -/
theorem C26_open_counts {rs : List AddReq} {m : PathMap} {cfg : FsCfg} {d0 : List Bytes} (h : Mounted rs m cfg d0)
    (reqs : List FReq) (ino : Nat) :
    let s := (FsState.init.run cfg reqs).2
    (∀ size, (∃ b, (s.step cfg (.read ino 0 size)).1 = .data b) ↔ 0 < openCount (logOf cfg reqs) ino) ∧
    ((∃ x, s.region ino = some x) ↔ 0 < openCount (logOf cfg reqs) ino) ∧
    (ino ≠ 0 → openCount (logOf cfg reqs) ino = 0 →
      s.step cfg (.release ino) = (.error .ENOENT, s)) ∧
    (0 < openCount (logOf cfg reqs) ino → (s.step cfg (.release ino)).1 = .ok ∧ (s.step cfg (.open ino)).1 = .opened) := by
  intro s
  have I := h.inv reqs
  have hc := h.openCount reqs ino
  have hreg : (∃ x, s.region ino = some x) ↔ 0 < Arx.openCount (logOf cfg reqs) ino := by
    rw [← hc]
    cases hr : s.region ino with
    | none => have := I.closed ino hr; simp [this]
    | some x => have := I.opened ino x.1 x.2 hr; simp; omega
  refine ⟨?_, hreg, ?_, ?_⟩
  · intro size
    rw [← hreg]
    simp only [FsState.step, FsState.read]
    by_cases h0 : ino = 0
    · subst h0
      simp only [if_true, reduceCtorEq, exists_false, false_iff]
      rintro ⟨x, hx⟩
      exact (I.opened 0 x.1 x.2 hx).2.2.1 rfl
    · simp only [if_neg h0, Int.lt_irrefl, if_false]
      cases hr : s.region ino with
      | none => simp
      | some x => simp
  · intro h0 hz
    have : s.region ino = none := by
      cases hr : s.region ino with
      | none => rfl
      | some x => have := hreg.mp ⟨x, hr⟩; omega
    simp [FsState.step, FsState.release, h0, this]
  · intro hp
    obtain ⟨x, hx⟩ := hreg.mpr hp
    obtain ⟨b, c⟩ := x
    obtain ⟨o1, o2, o3, o4⟩ := I.opened ino b c hx
    have hidx : ∃ idx, inoIdx ino = some idx := by
      simp only [inoIdx, if_neg o3]
      split <;> exact ⟨_, rfl⟩
    obtain ⟨idx, hidx⟩ := hidx
    constructor
    · simp only [FsState.step, FsState.release, if_neg o3, hx]
      rw [if_neg (by omega)]
      split <;> rfl
    · simp only [FsState.step, FsState.open, hidx, hx]

/-- file opened twice and released once is still readable -/
example : (FsState.init.run exFs [.open 5, .open 5, .release 5, .read 5 1 10, .release 5, .release 5]).1 =
    [.opened, .opened, .ok, .data (ascii "yz"), .ok, .error .ENOENT] := by decide

/-- opening a file whose content is available succeeds in every state -/
theorem C26_open {rs : List AddReq} {m : PathMap} {cfg : FsCfg} {d0 : List Bytes} (h : Mounted rs m cfg d0)
    {s : FsState} {ino : Nat} {p : List Bytes} {n : Node} {size : Nat} {c : ContentAddr} {b : Bytes}
    (hi : 2 ≤ ino) (hp : inoPath cfg d0 ino = some p) (hn : m p = some n) (hk : n.kind = .file size c)
    (hb : cfg.bytes c = .found b) : (s.step cfg (.open ino)).1 = .opened ∧ cfg.fileBytes ino = some b := by
  obtain ⟨P, G, hroot, _⟩ := h.good
  rcases G.inoPath_cases hp with ⟨h1, _⟩ | ⟨i, rfl, hi', hidx⟩
  · omega
  obtain ⟨r, n', g1, g2, g3⟩ := G.row_at hi'
  rw [hn] at g2; cases g2
  obtain ⟨_, _, _, _, _, _, q7⟩ := g3
  rw [hk] at q7
  obtain ⟨q8, q9, q10, _⟩ := q7
  have ht : EntryType.tryFrom r.variant = some .file := by rw [q8]; rfl
  refine ⟨?_, ?_⟩
  · simp only [FsState.step, FsState.open, hidx, g1, ht, q10, hb]
    split <;> rfl
  · simp [FsCfg.fileBytes, hidx, g1, ht, q10, hb]

/-- **C25 (partial).** After any history in which the file is open, `read(ino, offset, size)` answers
exactly the bytes of the stored content from `offset`, at most `size` of them, stopping at the end —
for every offset up to the end of the file. Missing: offsets beyond the end, where the request handler
crashes (`C25_counterexample`). -/
theorem C25_read_partial {rs : List AddReq} {m : PathMap} {cfg : FsCfg} {d0 : List Bytes} (h : Mounted rs m cfg d0)
    (reqs : List FReq) {ino : Nat} {p : List Bytes} {n : Node} {fsize : Nat} {c : ContentAddr} {b : Bytes}
    (hp : inoPath cfg d0 ino = some p) (hi : 2 ≤ ino) (hn : m p = some n) (hk : n.kind = .file fsize c)
    (hb : cfg.bytes c = .found b) (hopen : 0 < openCount (logOf cfg reqs) ino) (offset size : Nat)
    (hoff : offset ≤ b.length) :
    (((FsState.init.run cfg reqs).2).step cfg (.read ino (offset : Int) size)).1 = .data ((b.drop offset).take size) := by
  have hfb := (C26_open h (s := FsState.init) hi hp hn hk hb).2
  have I := h.inv reqs
  obtain ⟨x, hx⟩ := ((C26_open_counts h reqs ino).2.1).mpr hopen
  obtain ⟨b', c'⟩ := x
  obtain ⟨o1, o2, o3, o4⟩ := I.opened ino b' c' hx
  rw [hfb] at o4; cases o4
  have : ¬ ((offset : Int) < 0) := by omega
  simp only [FsState.step, FsState.read, if_neg o3, if_neg this, hx]
  simp only [Int.toNat_natCast]
  rw [if_neg (by omega)]
  congr 1
  have hl : (b.drop offset).length = b.length - offset := by simp
  by_cases hs : size ≤ b.length - offset
  · rw [Nat.min_eq_left hs]
  · rw [Nat.min_eq_right (by omega), List.take_of_length_le (by omega), List.take_of_length_le (by omega)]

/-- **C25 is false in full**: reading past the end of an open file crashes the mount process instead of
answering no bytes. -/
theorem C25_counterexample : (FsState.init.run exFs [.open 5, .read 5 3 10, .read 5 4 10]).1 =
    [.opened, .data [], .panic] := by decide

/-! ## C30 -/

theorem seenIn_append (log log' : FLog) (x : Nat × EntryType) :
    x ∈ seenIn (log ++ log') ↔ x ∈ seenIn log ∨ x ∈ log'.flatMap (fun x => x.2.seen) := by
  simp [seenIn, or_assoc]

theorem run_length (cfg : FsCfg) (reqs : List FReq) : ∀ s : FsState, (s.run cfg reqs).1.length = reqs.length := by
  induction reqs with
  | nil => intro s; rfl
  | cons r rs ih => intro s; simp [FsState.run, ih]

theorem logOf_snoc (cfg : FsCfg) (reqs : List FReq) (r : FReq) :
    logOf cfg (reqs ++ [r]) = logOf cfg reqs ++ [(r, ((FsState.init.run cfg reqs).2.step cfg r).1)] := by
  simp only [logOf, FsState.run_append]
  rw [List.zip_append (by rw [run_length])]
  rfl

/-- An inode the kernel may know: the root or an entry, with the right kind if it is said to be a
directory. -/
def KnownIno (cfg : FsCfg) (m : PathMap) (d0 : List Bytes) (x : Nat × EntryType) : Prop :=
  ∃ p, inoPath cfg d0 x.1 = some p ∧ (x.2 = .dir → x.1 = 1 ∨ ∃ n, m p = some n ∧ n.isDir = true)

theorem etype_dir {n : Node} (h : n.kind.etype = .dir) : n.isDir = true := by
  cases hk : n.kind <;> rw [hk] at h <;> simp [Kind.etype] at h
  simp [Node.isDir, hk, Kind.isDir]

theorem Mounted.polite_step {rs : List AddReq} {m : PathMap} {cfg : FsCfg} {d0 : List Bytes} (h : Mounted rs m cfg d0)
    (hsz : Listable cfg) (reqs : List FReq)
    (hseen : ∀ x ∈ seenIn (logOf cfg reqs), KnownIno cfg m d0 x) (r : FReq)
    (hfit : AttrsFit m ∨ (∀ p nm, r ≠ .lookup p nm) ∧ ∀ i, r ≠ .getattr i) (hr : Polite cfg (logOf cfg reqs) r) :
    ((FsState.init.run cfg reqs).2.step cfg r).1 ≠ .panic ∧
    ∀ x ∈ ((FsState.init.run cfg reqs).2.step cfg r).1.seen, KnownIno cfg m d0 x := by
  obtain ⟨P, G, hroot, hd0⟩ := h.good
  have hs : FsReach cfg (FsState.init.run cfg reqs).2 := ⟨reqs, rfl⟩
  have I := h.inv reqs
  -- an entry inode has a row
  have hrow : ∀ ino p, inoPath cfg d0 ino = some p → inoIdx ino = some none ∨
      ∃ i r k, inoIdx ino = some (some i) ∧ cfg.a.entries[i]? = some r ∧ EntryType.tryFrom r.variant = some k := by
    intro ino p hp
    rcases G.inoPath_cases hp with ⟨h1, _⟩ | ⟨i, h1, h2, h3⟩
    · left; subst h1; rfl
    · right
      obtain ⟨r, n, g1, g2, g3⟩ := G.row_at h2
      obtain ⟨_, _, _, _, _, _, q7⟩ := g3
      refine ⟨i, r, n.kind.etype, h3, g1, ?_⟩
      cases hk : n.kind <;> rw [hk] at q7 <;> rw [q7.1] <;> rfl
  generalize hS : (FsState.init.run cfg reqs).2 = s at *
  cases r with
  | lookup parent name =>
    obtain ⟨d, hd, hdir⟩ := hseen _ hr
    have hfit : AttrsFit m := hfit.resolve_right fun e => e.1 _ _ rfl
    have hl := C23_lookup h hfit hs name hd (hdir rfl)
    cases hm : m (d ++ [name]) with
    | none => rw [hm] at hl; simp only at hl; rw [hl]; simp [Reply.seen]
    | some n =>
      rw [hm] at hl; simp only at hl
      obtain ⟨at', h1, n', ns, a1, a2, a3, a4, a5⟩ := hl
      rw [h1]
      simp only [ne_eq, reduceCtorEq, not_false_eq_true, Reply.seen, List.mem_singleton, true_and]
      rintro x rfl
      refine ⟨_, by rw [← a3]; exact inoPath_ge2 a4, fun hk => Or.inr ⟨n', a1, ?_⟩⟩
      have : at'.kind = n'.kind.etype := by rw [a5]; rfl
      exact etype_dir (this.symm.trans hk)
  | readdir ino off buf =>
    obtain ⟨d, hd, hdir⟩ := hseen _ hr
    obtain ⟨L, hL, hread⟩ := h.readdir hsz hd (hdir rfl)
    rw [hread]
    simp only [ne_eq, reduceCtorEq, not_false_eq_true, Reply.seen, true_and, List.mem_map]
    rintro x ⟨e, he, rfl⟩
    have heL : e ∈ L := by
      obtain ⟨j, hj, _⟩ := fill_take buf 0 (L.drop (if off = 0 then 0 else off + 1))
      rw [hj] at he
      exact List.mem_of_mem_drop (List.mem_of_mem_take he)
    by_cases hc : 2 ≤ e.cookie
    · obtain ⟨h2, h3, n, h4, h5⟩ := hL.child heL hc
      exact ⟨_, by rw [← h3]; exact inoPath_ge2 h2, fun hk => Or.inr ⟨n, h4, etype_dir (h5.symm.trans hk)⟩⟩
    · obtain ⟨i, hi⟩ := List.mem_iff_getElem?.mp heL
      have hci := hL.cookie hi
      obtain ⟨p, hp, hp1, hp2⟩ := hL.dotdot
      match i, hi, hci with
      | 0, hi, _ => rw [hL.dot] at hi; cases hi; exact ⟨d, hd, fun _ => hdir rfl⟩
      | 1, hi, _ =>
        rw [hp] at hi; cases hi
        by_cases h1 : ino = 1
        · rw [hp1 h1]; exact ⟨d0, by simp [inoPath], fun _ => Or.inl rfl⟩
        · have hpp := hp2 h1
          rcases G.inoPath_cases hpp with ⟨e1, _⟩ | ⟨j, e1, e2, _⟩
          · simp only; rw [e1]; exact ⟨d0, by simp [inoPath], fun _ => Or.inl rfl⟩
          · refine ⟨d.dropLast, by rw [← hpp]; exact inoPath_ge2 (by simp only; omega), fun _ => Or.inr ?_⟩
            rcases hdir rfl with hh | ⟨n, hn, _⟩
            · exact absurd hh h1
            · have hne : d.dropLast ≠ [] := by
                intro e; rw [e] at e2
                obtain ⟨n0, hn0⟩ := (G.dom _).mp (List.mem_of_getElem? e2)
                rw [G.wf.root] at hn0; cases hn0
              exact G.wf.ancestors d n d.dropLast hn ⟨hne, by
                intro e
                have := congrArg List.length e
                have hl : d.length ≠ 0 := by intro hz; exact hne (by rw [List.eq_nil_of_length_eq_zero hz]; rfl)
                simp at this; omega, List.dropLast_prefix d⟩
      | i + 2, hi, hci => omega
  | getattr ino =>
    obtain ⟨k, hk⟩ := hr
    obtain ⟨p, hp, _⟩ := hseen _ hk
    have hfit : AttrsFit m := hfit.resolve_right fun e => e.2 _ rfl
    have hc28 := C28_attributes h hfit hs
    rcases G.inoPath_cases hp with ⟨h1, _⟩ | ⟨i, h1, h2, h3⟩
    · simp only at h1; rw [h1, hc28.2.1]; simp [Reply.seen]
    · obtain ⟨n, hn⟩ := (G.dom _).mp (List.mem_of_getElem? h2)
      simp only at h1
      obtain ⟨⟨ns, _, hh⟩, _⟩ := hc28.1 ino p n (by omega) hp hn
      rw [hh]; simp [Reply.seen]
  | readlink ino =>
    obtain ⟨k, hk⟩ := hr
    obtain ⟨p, hp, _⟩ := hseen _ hk
    rcases hrow _ _ hp with h1 | ⟨i, r, k', h1, h2, h3⟩
    · simp only at h1; simp [FsState.step, FsState.readlink, h1, Reply.seen]
    · simp only at h1; simp only [FsState.step, FsState.readlink, h1, h2, h3]
      cases k' <;> simp [Reply.seen]
  | opendir ino =>
    obtain ⟨k, hk⟩ := hr
    obtain ⟨p, hp, _⟩ := hseen _ hk
    rcases hrow _ _ hp with h1 | ⟨i, r, k', h1, h2, h3⟩
    · simp only at h1; simp [FsState.step, FsState.opendir, h1, Reply.seen]
    · simp only at h1; simp only [FsState.step, FsState.opendir, h1, h2, h3]
      cases k' <;> simp [Reply.seen]
  | releasedir ino => simp [FsState.step, Reply.seen]
  | «open» ino =>
    obtain ⟨k, hk⟩ := hr
    obtain ⟨p, hp, _⟩ := hseen _ hk
    simp only [FsState.step, FsState.open]
    rcases hrow _ _ hp with h1 | ⟨i, r, k', h1, h2, h3⟩
    · simp only at h1
      simp only [h1]
      split <;> simp [Reply.seen]
    · simp only at h1
      simp only [h1, h2, h3]
      split
      · simp [Reply.seen]
      · cases k' with
        | dir => simp [Reply.seen]
        | link => simp [Reply.seen]
        | file =>
          simp only
          cases cfg.bytes r.content <;> simp [Reply.seen]
  | read ino off size =>
    obtain ⟨h1, h2, h3⟩ := hr
    rw [← h.openCount] at h1
    simp only [FsState.step, FsState.read]
    cases hreg : s.region ino with
    | none => have := I.closed ino hreg; omega
    | some x =>
      obtain ⟨b, c⟩ := x
      obtain ⟨o1, o2, o3, o4⟩ := I.opened ino b c hreg
      have := h3 b o4
      rw [if_neg o3, if_neg (by omega)]
      simp only
      rw [if_neg (by omega)]
      simp [Reply.seen]
  | release ino =>
    obtain ⟨k, hk⟩ := hr
    obtain ⟨p, hp, _⟩ := hseen _ hk
    have h0 : ino ≠ 0 := by intro e; simp [inoPath, e] at hp
    simp only [FsState.step, FsState.release, if_neg h0]
    cases hreg : s.region ino with
    | none => simp [Reply.seen]
    | some x =>
      obtain ⟨b, c⟩ := x
      obtain ⟨o1, o2, o3, o4⟩ := I.opened ino b c hreg
      simp only
      rw [if_neg (by omega)]
      split <;> simp [Reply.seen]

/-- **C30 (partial).** For every created archive with representable attributes: in every history in
which each request is one a kernel makes after the replies so far (`Polite`), no request handler
crashes. Missing with respect to the full claim: reads beyond the end of an open file (`C25_counterexample`)
and entries with a modification time of 2^63 or more (`C50_mtime_counterexample`). -/
theorem C30_no_crash_partial {rs : List AddReq} {m : PathMap} {cfg : FsCfg} {d0 : List Bytes} (h : Mounted rs m cfg d0)
    (hfit : AttrsFit m) (hsz : Listable cfg) (reqs : List FReq)
    (hpol : ∀ pre r post, reqs = pre ++ r :: post → Polite cfg (logOf cfg pre) r) :
    .panic ∉ (FsState.init.run cfg reqs).1 := by
  -- induction on prefixes, keeping that every inode seen is known
  have key : ∀ k, k ≤ reqs.length → .panic ∉ (FsState.init.run cfg (reqs.take k)).1 ∧
      ∀ x ∈ seenIn (logOf cfg (reqs.take k)), KnownIno cfg m d0 x := by
    intro k
    induction k with
    | zero =>
      intro _
      refine ⟨by simp [FsState.run], ?_⟩
      intro x hx
      simp [seenIn, logOf] at hx
      subst hx
      exact ⟨d0, by simp [inoPath], fun _ => Or.inl rfl⟩
    | succ k ih =>
      intro hk
      obtain ⟨h1, h2⟩ := ih (by omega)
      have hlt : k < reqs.length := by omega
      have hsplit : reqs = reqs.take k ++ reqs[k] :: reqs.drop (k + 1) := by
        rw [← List.drop_eq_getElem_cons hlt, List.take_append_drop]
      have htake : reqs.take (k + 1) = reqs.take k ++ [reqs[k]] := (List.take_append_getElem hlt).symm
      have hst := h.polite_step hsz (reqs.take k) h2 reqs[k] (.inl hfit) (hpol _ _ _ hsplit)
      rw [htake]
      refine ⟨?_, ?_⟩
      · rw [FsState.run_append]
        simp only [List.mem_append, not_or]
        refine ⟨h1, ?_⟩
        simp only [FsState.run, List.mem_singleton]
        exact fun e => hst.1 e.symm
      · rw [logOf_snoc]
        intro x hx
        rw [seenIn_append] at hx
        rcases hx with hx | hx
        · exact h2 x hx
        · simp at hx; exact hst.2 x hx
  have := (key reqs.length (Nat.le_refl _)).1
  rwa [List.take_length] at this

/-- a non-trivial polite history -/
example : ∀ r ∈ (FsState.init.run exFs [.readdir 1 0 4096, .lookup 3 (ascii "x"), .open 5, .read 5 0 2]).1, r ≠ .panic := by
  decide
example : Polite exFs (logOf exFs [.readdir 1 0 4096]) (.lookup 3 (ascii "x")) := by
  show (3, EntryType.dir) ∈ _
  decide

/-! ## C31 (mount) -/

/-- **C31, refusal.** `--root-dir p` is accepted exactly when `p` is a relative UTF-8 path (see `RootName`) and names a directory of the archive. -/
theorem C31_root_dir_accepted {rs : List AddReq} {a : Archive} {m : PathMap} (h : Written rs a)
    (hm : SpecRun PathMap.empty rs m) (p : Bytes) :
    (∃ rg, mountRoot a (some p) = some rg) ↔
      RootName p ∧ ∃ n, m (comps p) = some n ∧ n.isDir = true := by
  obtain ⟨P, G⟩ := h.good' hm
  rw [← fromPathRef_iff]
  constructor
  · rintro ⟨rg, hrg⟩
    obtain ⟨h1, h2⟩ := mountRoot_some hrg
    exact ⟨h1, (G.dummy h2).2⟩
  · rintro ⟨h1, n, hn, hd⟩
    have hroot : RangeIs P [] a.root.offset a.root.count := by rw [G.root.1]; exact G.root.2
    have hne : comps p ≠ [] := by intro e; rw [e, G.wf.root] at hn; cases hn
    rcases G.getLoop (dummy_total a) (comps p) [] a.root hne hroot with ⟨i, hi, he⟩ | ⟨hx, _⟩ | ⟨_, _, _, _, _, _, _, _, hx, _⟩
    · simp only [List.nil_append] at hi
      obtain ⟨row, n', g1, g2, g3, g4⟩ := G.create_spec dummyBuilder hi
      rw [hn] at g2; cases g2
      have hk : n.kind = .dir := Kind.isDir_iff.mp hd
      rw [hk] at g4
      refine ⟨Arx.rowRange row, ?_⟩
      have : a.getEntry dummyBuilder p = .ok (.dir (Arx.rowRange row) ()) := by
        rw [Archive.getEntry, he, g4]; rfl
      simp only [mountRoot, h1]
      have hD : (⟨fun _ _ => .ok (), fun _ _ => .ok (), fun _ _ => .ok ()⟩ : Builder Unit Unit Unit) = dummyBuilder := rfl
      rw [hD, this]
    · simp only [List.nil_append] at hx; rw [hn] at hx; cases hx
    · simp only [List.nil_append] at hx; rw [hn] at hx; cases hx

/-- **C31 (mount, partial).** Mounting the directory `d0`: every path below the mount point resolves to
the same entry, with the same attributes, as `d0/path` in a mount of the whole archive, and fails
together with it; the root lists exactly the children of `d0` (`C24_page` with `d := d0`). Missing:
`".."` of the top-level directories, see `C31_dotdot_counterexample`. -/
theorem C31_subtree_partial {rs : List AddReq} {m : PathMap} {cfg whole : FsCfg} {d0 : List Bytes}
    (h : Mounted rs m cfg d0) (hw : Mounted rs m whole []) (hsame : whole.a = cfg.a) (hfit : AttrsFit m)
    {s s' : FsState} (hs : FsReach cfg s) (hs' : FsReach whole s') (cs : List Bytes) (hcs : cs ≠ [])
    (hnames : ∀ c ∈ d0 ++ cs, ValidName c) :
    (resolveFs cfg s 1 cs).1 = (resolveFs whole s' 1 (d0 ++ cs)).1 := by
  have hj : comps (joinPath (d0 ++ cs)) = d0 ++ cs := comps_joinPath hnames
  have h1 := C23_resolve h hs cs hcs (joinPath (d0 ++ cs)) hj (fun q n _ _ hn => hfit q n hn)
  have h2 := C23_resolve hw hs' (d0 ++ cs) (by simp [hcs]) (joinPath (d0 ++ cs)) (by simpa using hj) (fun q n _ _ hn => hfit q n hn)
  rw [hsame] at h2
  cases he : cfg.a.getEntry fullBuilder (joinPath (d0 ++ cs)) with
  | error x => rw [he] at h1 h2; simp only at h1 h2; rw [h1.2, h2.2]
  | ok e =>
    rw [he] at h1 h2
    simp only at h1 h2
    obtain ⟨a1, b1, b2, b3⟩ := h1
    obtain ⟨a2, c1, c2, c3⟩ := h2
    rw [b1, c1]
    obtain ⟨n, ns, d1, d2, d3, d4, d5⟩ := b3
    obtain ⟨n', ns', e1, e2, e3, e4, e5⟩ := c3
    simp only [List.nil_append] at e1 e2
    rw [d1] at e1; cases e1
    have := d2.unique e2; subst this
    rw [d5, e5, b2, c2]

/-- **C31 is false in full**: when a sub-directory is mounted, `".."` of each of its top-level
directories is not the mount root: it is listed with the inode of the mounted directory's entry, which
is not the inode (1) the mounted directory has as root. -/
theorem C31_dotdot_counterexample {rs : List AddReq} {m : PathMap} {cfg : FsCfg} {d0 : List Bytes}
    (h : Mounted rs m cfg d0) (hsz : Listable cfg) (hd0 : d0 ≠ []) {ino : Nat} {c : Bytes}
    (hi2 : ino ≠ 1) (hi : inoPath cfg d0 ino = some (d0 ++ [c])) {n : Node} (hn : m (d0 ++ [c]) = some n) (hd : n.isDir = true)
    (s : FsState) : ∃ page p, (s.step cfg (.readdir ino 0 64)).1 = .dir page ∧
      page[1]? = some ⟨p, 1, .dir, PARENT⟩ ∧ p ≠ 1 ∧ inoPath cfg [] p = some d0 := by
  obtain ⟨L, hL, hread⟩ := h.readdir hsz hi (Or.inr ⟨n, hn, hd⟩)
  obtain ⟨p, hp, _, hp2⟩ := hL.dotdot
  have hpp := hp2 hi2
  simp only [List.dropLast_concat] at hpp
  have hne : p ≠ 1 := by
    intro e
    rw [e] at hpp
    simp [inoPath] at hpp
    exact hd0 hpp
  refine ⟨_, p, hread s 0 64, ?_, hne, hpp⟩
  obtain ⟨p', t, hLe⟩ := hL.length_ge
  simp only [if_true, List.drop_zero]
  rw [hLe] at hp ⊢
  simp at hp
  simp only [fill]
  rw [DirListing.dotSize.1, DirListing.dotSize.2]
  simp [hp]

/-- **C31, `..` exactly.** `".."` of a top-level directory of any mount is listed with the inode that the directory containing it has in the whole archive; this is the
mount root exactly when the whole archive is mounted. -/
theorem C31_dotdot_iff {rs : List AddReq} {m : PathMap} {cfg : FsCfg} {d0 : List Bytes}
    (h : Mounted rs m cfg d0) (hsz : Listable cfg) {ino : Nat} {c : Bytes}
    (hi : inoPath cfg d0 ino = some (d0 ++ [c])) {n : Node} (hn : m (d0 ++ [c]) = some n) (hd : n.isDir = true)
    (s : FsState) : ∃ page p, (s.step cfg (.readdir ino 0 64)).1 = .dir page ∧
      page[1]? = some ⟨p, 1, .dir, PARENT⟩ ∧ inoPath cfg [] p = some d0 ∧ (p = 1 ↔ d0 = []) := by
  have hi2 : ino ≠ 1 := by
    rintro rfl
    simp [inoPath] at hi
  obtain ⟨P, G, _⟩ := h.good
  obtain ⟨L, hL, hread⟩ := h.readdir hsz hi (Or.inr ⟨n, hn, hd⟩)
  obtain ⟨p, hp, _, hp2⟩ := hL.dotdot
  have hpp := hp2 hi2
  simp only [List.dropLast_concat] at hpp
  refine ⟨_, p, hread s 0 64, ?_, hpp, ?_⟩
  · obtain ⟨p', t, hLe⟩ := hL.length_ge
    simp only [if_true, List.drop_zero]
    rw [hLe] at hp ⊢
    simp at hp
    simp only [fill]
    rw [DirListing.dotSize.1, DirListing.dotSize.2]
    simp [hp]
  · constructor
    · rintro rfl
      simpa [inoPath] using hpp.symm
    · rintro rfl
      rcases G.inoPath_cases hpp with ⟨e, _⟩ | ⟨i, _, hP⟩
      · exact e
      · obtain ⟨x, hx⟩ := (G.dom _).mp (List.mem_of_getElem? hP.1)
        rw [G.wf.root] at hx; cases hx

/-- an archive with a directory in a directory, mounted at `a`: `".."` of `b` is inode 2, not 1 -/
def nestReqs : List AddReq := [⟨ascii "a/b", .ok (some .dir), exMeta⟩]
def nestSt : Creator := (Creator.new.run nestReqs).getD Creator.new
def nestArchive : Archive := writeArchive nestSt [0, 1]
theorem nestWritten : Written nestReqs nestArchive := by
  have hr : Creator.new.run nestReqs = some nestSt := by rfl
  obtain ⟨m, paths, hs, R⟩ := run_rel hr
  refine ⟨nestSt, [0, 1], hr, ?_, rfl, by decide⟩
  exact R.layoutLoop_sound 3 _ _ (by rw [R.len]) (by decide)
def nestFs : FsCfg := ⟨nestArchive, ⟨1, 1⟩, exBytes⟩
/-- the hypotheses of `C31_dotdot_iff` are met by both mounts -/
example : Mounted exReqs exMap exFs [] ∧ inoPath exFs [] 2 = some ([] ++ [ascii "a"]) ∧ Listable exFs ∧
    inoPath nestFs [ascii "a"] 3 = some ([ascii "a"] ++ [ascii "b"]) ∧ Listable nestFs :=
  ⟨exMounted, by decide, by unfold Listable; decide, by decide, by unfold Listable; decide⟩
example : mountRoot nestArchive (some (ascii "a")) = some nestFs.root ∧
    (FsState.init.step nestFs (.lookup 1 (ascii "b"))).1.attrs.map (fun a => a.ino) = [3] ∧
    (FsState.init.step nestFs (.readdir 3 0 64)).1 =
      .dir [⟨3, 0, .dir, ascii "."⟩, ⟨2, 1, .dir, ascii ".."⟩] := by decide

/-! ## C50 (mount) -/

/-- a file dated one second before 1970: the adder stores `-1i64 as u64` -/
def oldReqs : List AddReq := [⟨ascii "f", .ok (some (.file 0 ⟨1, 0⟩)), ⟨0, 0, 0o644, 2 ^ 64 - 1⟩⟩]
def oldSt : Creator := (Creator.new.run oldReqs).getD Creator.new
def oldArchive : Archive := writeArchive oldSt [0]
theorem oldWritten : Written oldReqs oldArchive := by
  have hr : Creator.new.run oldReqs = some oldSt := by rfl
  obtain ⟨m, paths, hs, R⟩ := run_rel hr
  refine ⟨oldSt, [0], hr, ?_, rfl, by decide⟩
  exact R.layoutLoop_sound 3 _ _ (by rw [R.len]) (by decide)

/-- **C50 is false for the mount**: asking for the attributes of a file archived with a date before
1970 crashes the mount, both through `lookup` and through `getattr`. -/
theorem C50_mtime_counterexample : Written oldReqs oldArchive ∧
    (FsState.init.step ⟨oldArchive, oldArchive.root, exBytes⟩ (.lookup 1 (ascii "f"))).1 = .panic ∧
    (FsState.init.step ⟨oldArchive, oldArchive.root, exBytes⟩ (.getattr 2)).1 = .panic :=
  ⟨oldWritten, by decide, by decide⟩

end Arx
