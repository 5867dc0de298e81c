import Verif.Spec.Memory
import Verif.Props.Mount2

/-!
# C102: a mount uses bounded memory
-/
namespace Arx

theorem Within.get {K V : Type} [DecidableEq K] {c : Lru K V} {cap : Nat} (h : Within c cap) (k : K) : Within (c.get k).2 cap := by
  unfold Lru.get
  split
  · exact h
  · rename_i x hx
    have hk : x.1 = k := by have := List.find?_some hx; simpa using this
    have hm := List.mem_of_find?_eq_some hx
    have hlen : (c.items.filter (fun y => decide (y.1 ≠ k))).length < c.items.length := by
      have : x ∉ c.items.filter (fun y => decide (y.1 ≠ k)) := by
        intro hc
        have := (List.mem_filter.mp hc).2
        simp [hk] at this
      apply Nat.lt_of_le_of_ne (List.length_filter_le _ _)
      intro e
      rw [List.length_filter_eq_length_iff] at e
      have := e x hm
      simp [hk] at this
    refine ⟨h.size, ?_, ?_⟩
    · have := h.room; simp only [List.length_cons]; omega
    · simp only [List.map_cons, List.nodup_cons]
      refine ⟨?_, h.once.sublist (List.Sublist.map _ List.filter_sublist)⟩
      intro hc
      obtain ⟨y, hy, e⟩ := List.mem_map.mp hc
      have := (List.mem_filter.mp hy).2
      simp [e, hk] at this

theorem Within.put {K V : Type} [DecidableEq K] {c : Lru K V} {cap : Nat} (h : Within c cap) (k : K) (v : V) : Within (c.put k v) cap := by
  refine ⟨h.size, ?_, ?_⟩
  · have := h.size
    simp only [Lru.put, List.length_take]
    omega
  · apply List.Nodup.sublist (List.Sublist.map _ (List.take_sublist _ _))
    simp only [List.map_cons, List.nodup_cons]
    refine ⟨?_, h.once.sublist (List.Sublist.map _ List.filter_sublist)⟩
    intro hc
    obtain ⟨y, hy, e⟩ := List.mem_map.mp hc
    have := (List.mem_filter.mp hy).2
    simp [e] at this

theorem Bounded.cachedAttr {cfg : FsCfg} {s : FsState} (h : Bounded s) (idx : Nat) :
    Bounded (s.cachedAttr cfg idx).2 ∧ (s.cachedAttr cfg idx).2.region = s.region := by
  unfold FsState.cachedAttr
  have hg := h.2.get idx
  split
  · rename_i a c he
    rw [he] at hg
    exact ⟨⟨h.1, hg⟩, rfl⟩
  · split
    · exact ⟨h, rfl⟩
    · rename_i a _
      have hp := (h.2.put idx a).get idx
      simp only
      split
      · rename_i a' c he
        rw [he] at hp
        exact ⟨⟨h.1, hp⟩, rfl⟩
      · exact ⟨h, rfl⟩

theorem Within.readdirLoop {cfg : FsCfg} {ino : Nat} {range : Range} {bufSize : Nat} {cap : Nat} : ∀ (is : List Nat) (cur : Nat) (l : List DirEnt)
    (c : Lru (Nat × Bytes) (Option Nat)) (l' : List DirEnt) (c' : Lru (Nat × Bytes) (Option Nat)), Within c cap →
    Arx.readdirLoop cfg ino range bufSize is cur l c = some (l', c') → Within c' cap := by
  intro is
  induction is with
  | nil => intro cur l c l' c' h e; simp only [Arx.readdirLoop, Option.some.injEq, Prod.mk.injEq] at e; rw [← e.2]; exact h
  | cons i is ih =>
    intro cur l c l' c' h e
    unfold Arx.readdirLoop at e
    split at e
    · split at e
      · simp only [Option.some.injEq, Prod.mk.injEq] at e; rw [← e.2]; exact h
      · exact ih _ _ _ _ _ h e
    · split at e
      · split at e
        · cases e
        · split at e
          · simp only [Option.some.injEq, Prod.mk.injEq] at e; rw [← e.2]; exact h
          · exact ih _ _ _ _ _ h e
      · split at e
        · simp only [Option.some.injEq, Prod.mk.injEq] at e; rw [← e.2]; exact h
        · split at e
          · cases e
          · split at e
            · cases e
            · simp only at e
              split at e
              · simp only [Option.some.injEq, Prod.mk.injEq] at e; rw [← e.2]; exact h.put _ _
              · exact ih _ _ _ _ _ (h.put _ _) e

/-- How often a file is open. -/
def FsState.handles (s : FsState) (ino : Nat) : Nat :=
  match s.region ino with
  | some (_, c) => c
  | none => 0

/-- The table of open files holds contents of the archive only, for files that are open. -/
def Holds (cfg : FsCfg) (s : FsState) : Prop := ∀ ino b c, s.region ino = some (b, c) → cfg.fileBytes ino = some b ∧ 0 < c

def isOpen (ino : Nat) (r : FReq) (y : Reply) : Nat := if r = .open ino ∧ y = .opened then 1 else 0
def isRelease (ino : Nat) (r : FReq) (y : Reply) : Nat := if r = .release ino ∧ y = .ok then 1 else 0

theorem step_same {cfg : FsCfg} {s s' : FsState} (hh : Holds cfg s) (e : s'.region = s.region) :
    Holds cfg s' ∧ ∀ ino, s'.handles ino = s.handles ino := by
  unfold Holds FsState.handles
  rw [e]
  exact ⟨hh, fun _ => rfl⟩

theorem step_bounded {cfg : FsCfg} {s : FsState} (h : Bounded s) (hh : Holds cfg s) (r : FReq) :
    Bounded (s.step cfg r).2 ∧ Holds cfg (s.step cfg r).2 ∧
      ∀ ino, (s.step cfg r).2.handles ino + isRelease ino r (s.step cfg r).1 = s.handles ino + isOpen ino r (s.step cfg r).1 := by
  have same : ∀ s' y, Bounded s' → s'.region = s.region → (∀ ino, isRelease ino r y = 0 ∧ isOpen ino r y = 0) →
      Bounded s' ∧ Holds cfg s' ∧ ∀ ino, s'.handles ino + isRelease ino r y = s.handles ino + isOpen ino r y := by
    intro s' y h1 h2 h3
    obtain ⟨g1, g2⟩ := step_same (s' := s') hh h2
    exact ⟨h1, g1, fun ino => by rw [g2, (h3 ino).1, (h3 ino).2]⟩
  cases r with
  | lookup p n =>
    apply same _ _ ?_ ?_ (fun ino => by simp [isRelease, isOpen])
    all_goals simp only [FsState.step, FsState.lookup]
    all_goals split
    all_goals try first | exact h | rfl
    all_goals split
    · rename_i idx c he
      have hg := h.1.get (p, n)
      rw [he] at hg
      cases idx with
      | none => exact ⟨hg, h.2⟩
      | some idx =>
        have hb : Bounded { s with resolve := c } := ⟨hg, h.2⟩
        have := (hb.cachedAttr (cfg := cfg) idx).1
        simp only
        split <;> (rename_i he'; rw [he'] at this; exact this)
    · split
      · exact h
      · split
        · exact h
        · rename_i range _ _ found _
          cases found with
          | none => exact ⟨h.1.put _ _, h.2⟩
          | some i =>
            have hb : Bounded { s with resolve := s.resolve.put (p, n) (some (i + range.offset)) } := ⟨h.1.put _ _, h.2⟩
            have := (hb.cachedAttr (cfg := cfg) (i + range.offset)).1
            simp only [Option.map_some]
            split <;> (rename_i he'; rw [he'] at this; exact this)
    · rename_i idx c he
      have hg := h.1.get (p, n)
      rw [he] at hg
      cases idx with
      | none => rfl
      | some idx =>
        have hb : Bounded { s with resolve := c } := ⟨hg, h.2⟩
        have := (hb.cachedAttr (cfg := cfg) idx).2
        simp only
        split <;> (rename_i he'; rw [he'] at this; exact this)
    · split
      · rfl
      · split
        · rfl
        · rename_i range _ _ found _
          cases found with
          | none => rfl
          | some i =>
            have hb : Bounded { s with resolve := s.resolve.put (p, n) (some (i + range.offset)) } := ⟨h.1.put _ _, h.2⟩
            have := (hb.cachedAttr (cfg := cfg) (i + range.offset)).2
            simp only [Option.map_some]
            split <;> (rename_i he'; rw [he'] at this; exact this)
  | getattr i =>
    have hb := h.cachedAttr (cfg := cfg)
    apply same _ _ ?_ ?_ (fun ino => by simp [isRelease, isOpen])
    all_goals simp only [FsState.step, FsState.getattr]
    all_goals split
    all_goals try first | exact h | rfl
    all_goals
      rename_i idx _
      have := hb idx
      split <;> (rename_i he'; rw [he'] at this; first | exact this.1 | exact this.2)
  | readlink i =>
    have hs : (s.step cfg (.readlink i)).2 = s := by
      simp only [FsState.step, FsState.readlink]
      repeat' split
      all_goals rfl
    apply same _ _ (by rw [hs]; exact h) (by rw [hs]) (fun ino => by simp [isRelease, isOpen])
  | opendir i =>
    have hs : (s.step cfg (.opendir i)).2 = s := by
      simp only [FsState.step, FsState.opendir]
      repeat' split
      all_goals rfl
    apply same _ _ (by rw [hs]; exact h) (by rw [hs]) (fun ino => by simp [isRelease, isOpen])
  | releasedir i => exact same _ _ h rfl (fun ino => by simp [isRelease, isOpen])
  | read i o z =>
    have hs : (s.step cfg (.read i o z)).2 = s := by
      simp only [FsState.step, FsState.read]
      repeat' split
      all_goals rfl
    apply same _ _ (by rw [hs]; exact h) (by rw [hs]) (fun ino => by simp [isRelease, isOpen])
  | readdir i o z =>
    apply same _ _ ?_ ?_ (fun ino => by simp [isRelease, isOpen])
    all_goals simp only [FsState.step, FsState.readdir]
    all_goals repeat' split
    all_goals try first | exact h | rfl
    rename_i l c he
    exact ⟨Within.readdirLoop _ _ _ _ _ _ h.1 he, h.2⟩
  | «open» i =>
    simp only [FsState.step]
    have refused : ∀ y, y ≠ Reply.opened → Bounded s ∧ Holds cfg s ∧ ∀ ino, s.handles ino + isRelease ino (.open i) y = s.handles ino + isOpen ino (.open i) y := by
      intro y hy
      exact ⟨h, hh, fun ino => by simp [isRelease, isOpen, hy]⟩
    unfold FsState.open
    split
    · exact refused _ (by simp)
    · rename_i idx hidx
      split
      · rename_i b c hr
        refine ⟨h, ?_, ?_⟩
        · intro ino b' c' e
          simp only [setRegion] at e
          split at e
          · rename_i ei
            subst ei
            simp only [Option.some.injEq, Prod.mk.injEq] at e
            obtain ⟨rfl, rfl⟩ := e
            exact ⟨(hh _ _ _ hr).1, by omega⟩
          · exact hh _ _ _ e
        · intro ino
          by_cases ei : ino = i
          · subst ei; simp [FsState.handles, setRegion, isRelease, isOpen, hr]
          · have ei' : ¬ i = ino := fun e => ei e.symm
            simp [FsState.handles, setRegion, isRelease, isOpen, ei, ei']
      · rename_i hr
        split
        · exact refused _ (by simp)
        · rename_i idx' 
          split
          · exact refused _ (by simp)
          · rename_i r hrow
            split
            · exact refused _ (by simp)
            · exact refused _ (by simp)
            · exact refused _ (by simp)
            · rename_i ht
              split
              · exact refused _ (by simp)
              · exact refused _ (by simp)
              · rename_i b hb
                have hf : cfg.fileBytes i = some b := by simp [FsCfg.fileBytes, hidx, hrow, ht, hb]
                refine ⟨h, ?_, ?_⟩
                · intro ino b' c' e
                  simp only [setRegion] at e
                  split at e
                  · rename_i ei
                    subst ei
                    simp only [Option.some.injEq, Prod.mk.injEq] at e
                    obtain ⟨rfl, rfl⟩ := e
                    exact ⟨hf, by omega⟩
                  · exact hh _ _ _ e
                · intro ino
                  by_cases ei : ino = i
                  · subst ei; simp [FsState.handles, setRegion, isRelease, isOpen, hr]
                  · have ei' : ¬ i = ino := fun e => ei e.symm
                    simp [FsState.handles, setRegion, isRelease, isOpen, ei, ei']
  | release i =>
    simp only [FsState.step]
    unfold FsState.release
    split
    · exact ⟨h, hh, fun ino => by simp [isRelease, isOpen]⟩
    · split
      · rename_i b c hr
        have hc := (hh _ _ _ hr).2
        split
        · omega
        · split
          · refine ⟨h, ?_, ?_⟩
            · intro ino b' c' e
              simp only [setRegion] at e
              split at e
              · cases e
              · exact hh _ _ _ e
            · intro ino
              by_cases ei : ino = i
              · subst ei; simp [FsState.handles, setRegion, isRelease, isOpen, hr]; omega
              · have ei' : ¬ i = ino := fun e => ei e.symm
                simp [FsState.handles, setRegion, isRelease, isOpen, ei, ei']
          · refine ⟨h, ?_, ?_⟩
            · intro ino b' c' e
              simp only [setRegion] at e
              split at e
              · rename_i ei
                subst ei
                simp only [Option.some.injEq, Prod.mk.injEq] at e
                obtain ⟨rfl, rfl⟩ := e
                exact ⟨(hh _ _ _ hr).1, by omega⟩
              · exact hh _ _ _ e
            · intro ino
              by_cases ei : ino = i
              · subst ei; simp [FsState.handles, setRegion, isRelease, isOpen, hr]; omega
              · have ei' : ¬ i = ino := fun e => ei e.symm
                simp [FsState.handles, setRegion, isRelease, isOpen, ei, ei']
      · exact ⟨h, hh, fun ino => by simp [isRelease, isOpen]⟩

theorem timesOf_cons (r : FReq) (y : Reply) (log : FLog) (r' : FReq) (y' : Reply) :
    timesOf ((r, y) :: log) r' y' = timesOf log r' y' + (if r = r' ∧ y = y' then 1 else 0) := by
  unfold timesOf
  rw [List.filter_cons]
  by_cases e : r = r' ∧ y = y'
  · simp [e]
  · simp [e]

theorem run_bounded {cfg : FsCfg} (reqs : List FReq) : ∀ (s : FsState), Bounded s → Holds cfg s →
    Bounded (s.run cfg reqs).2 ∧ Holds cfg (s.run cfg reqs).2 ∧
      ∀ ino, (s.run cfg reqs).2.handles ino + timesOf (reqs.zip (s.run cfg reqs).1) (.release ino) .ok =
        s.handles ino + timesOf (reqs.zip (s.run cfg reqs).1) (.open ino) .opened := by
  induction reqs with
  | nil => intro s h hh; exact ⟨h, hh, fun _ => rfl⟩
  | cons r rs ih =>
    intro s h hh
    obtain ⟨g1, g2, g3⟩ := step_bounded h hh r
    obtain ⟨k1, k2, k3⟩ := ih _ g1 g2
    simp only [FsState.run]
    refine ⟨k1, k2, fun ino => ?_⟩
    have := g3 ino
    have := k3 ino
    rw [List.zip_cons_cons, timesOf_cons, timesOf_cons]
    simp only [isRelease, isOpen] at *
    omega

/-- **C102: a mount uses bounded memory and leaks nothing.** For every archive, well formed or not, and every history of requests: the mount remembers
at most 4096 answers to lookups and the attributes of at most 100 entries, each once; and it holds the content of exactly the files
that were opened more often than released, once each and with that difference as count. -/
theorem C102_memory (cfg : FsCfg) (reqs : List FReq) :
    Bounded (FsState.init.run cfg reqs).2 ∧
    ∀ ino b c, (FsState.init.run cfg reqs).2.region ino = some (b, c) ↔
      cfg.fileBytes ino = some b ∧ 0 < c ∧ timesOf (logOf cfg reqs) (.open ino) .opened = timesOf (logOf cfg reqs) (.release ino) .ok + c := by
  have h0 : Bounded FsState.init := ⟨⟨rfl, by simp [FsState.init], by simp [FsState.init]⟩, ⟨rfl, by simp [FsState.init], by simp [FsState.init]⟩⟩
  have hh0 : Holds cfg FsState.init := by intro ino b c e; simp [FsState.init] at e
  obtain ⟨g1, g2, g3⟩ := run_bounded (cfg := cfg) reqs _ h0 hh0
  refine ⟨g1, fun ino b c => ?_⟩
  have h3 := g3 ino
  rw [show FsState.init.handles ino = 0 from rfl] at h3
  unfold logOf
  constructor
  · intro e
    obtain ⟨k1, k2⟩ := g2 _ _ _ e
    refine ⟨k1, k2, ?_⟩
    simp only [FsState.handles, e] at h3
    omega
  · rintro ⟨k1, k2, k3⟩
    cases hr : (FsState.init.run cfg reqs).2.region ino with
    | none =>
      simp only [FsState.handles, hr] at h3
      omega
    | some x =>
      obtain ⟨b', c'⟩ := x
      obtain ⟨j1, _⟩ := g2 _ _ _ hr
      rw [k1] at j1
      cases j1
      simp only [FsState.handles, hr] at h3
      have : c' = c := by omega
      rw [this]

/-- When every file has been released as often as it was opened, no content is held. -/
theorem C102_released (cfg : FsCfg) (reqs : List FReq)
    (h : ∀ ino, timesOf (logOf cfg reqs) (.open ino) .opened = timesOf (logOf cfg reqs) (.release ino) .ok) :
    (FsState.init.run cfg reqs).2.region = fun _ => none := by
  funext ino
  cases hr : (FsState.init.run cfg reqs).2.region ino with
  | none => rfl
  | some x =>
    obtain ⟨_, h1, h2⟩ := ((C102_memory cfg reqs).2 ino x.1 x.2).mp hr
    have := h ino
    omega

/-- A file opened twice and released once is held once. -/
example : (FsState.init.run exFs [.open 5, .open 5, .release 5]).2.region 5 = some (ascii "xyz", 1) := by decide

/-- Looking up more names than fit. -/
example : ((FsState.init.run exFs ((List.range 200).map (fun i => .getattr (2 + i % 3)))).2.attr.items.length = 3) := by decide +kernel

end Arx
