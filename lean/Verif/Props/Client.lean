import Verif.Spec.Client
import Verif.Props.Mount3
import Verif.Props.Extract
/-!
# C67: copying a mounted archive
-/
namespace Arx

theorem All2.length_eq {α β : Type} {R : α → β → Prop} {l : List α} {k : List β} (h : All2 R l k) : l.length = k.length := by
  induction h with
  | nil => rfl
  | cons _ _ ih => simp [ih]

/-! ## Open counts -/

theorem pureStep_count {cfg : FsCfg} {ino : Nat} {b : Bytes} (hb : cfg.fileBytes ino = some b) (opens : Nat → Nat) (r : FReq) :
    (pureStep cfg opens r).2 ino =
      if r = .open ino then opens ino + 1 else if r = .release ino then opens ino - 1 else opens ino := by
  have h0 : ino ≠ 0 := by intro e; subst e; simp [FsCfg.fileBytes, inoIdx] at hb
  cases r with
  | «open» i =>
    simp only [pureStep]
    by_cases hi : i = ino
    · subst hi
      by_cases ho : 0 < opens i
      · simp [ho]
      · simp only [ho, if_false]
        have : (FsState.init.open cfg i).1 = .opened := by
          simp only [FsCfg.fileBytes] at hb
          simp only [FsState.open]
          revert hb
          cases inoIdx i with
          | none => intro hb; cases hb
          | some idx =>
            cases idx with
            | none => intro hb; cases hb
            | some idx =>
              simp only
              cases cfg.a.entries[idx]? with
              | none => intro hb; cases hb
              | some r =>
                simp only [FsState.init]
                split
                · rename_i h; simp only [h]
                  cases cfg.bytes r.content <;> simp
                · intro hb; cases hb
        rw [this]; simp; omega
    · have hi' : ¬ ino = i := fun e => hi e.symm
      simp only [FReq.open.injEq, hi, if_false, reduceCtorEq]
      split
      · simp [hi']
      · split <;> simp [hi']
  | release i =>
    simp only [pureStep]
    by_cases hi : i = ino
    · subst hi
      by_cases ho : opens i = 0
      · simp [h0, ho]
      · simp [h0, ho]
    · have hi' : ¬ ino = i := fun e => hi e.symm
      by_cases hz : i = 0
      · subst hz; simp [Ne.symm h0]
      · by_cases ho : opens i = 0
        · simp [hz, ho, hi]
        · simp [hz, ho, hi, hi']
  | lookup p n =>
    have hp : (pureStep cfg opens (.lookup p n)).2 = opens := by
      simp only [pureStep]; repeat' split
      all_goals rfl
    rw [hp]; simp
  | getattr i =>
    have hp : (pureStep cfg opens (.getattr i)).2 = opens := by
      simp only [pureStep]; repeat' split
      all_goals rfl
    rw [hp]; simp
  | read i o z =>
    have hp : (pureStep cfg opens (.read i o z)).2 = opens := by
      simp only [pureStep]; repeat' split
      all_goals rfl
    rw [hp]; simp
  | readlink i => simp [pureStep]
  | opendir i => simp [pureStep]
  | releasedir i => simp [pureStep]
  | readdir i o z => simp [pureStep]

/-- Every available file is open as often as the others hold it open (they have made the requests `H`), plus once if
it is the file the program holds open. -/
def Counts (cfg : FsCfg) (H : List FReq) (own : Option Nat) (opens : Nat → Nat) : Prop :=
  ∀ ino b, cfg.fileBytes ino = some b →
    opens ino + H.count (.release ino) = H.count (.open ino) + (if own = some ino then 1 else 0)

structure ClientInv (cfg : FsCfg) (H : List FReq) (own : Option Nat) (s : FsState) : Prop where
  reach : FsReach cfg s
  counts : ∃ opens, CacheInv cfg opens s ∧ Counts cfg H own opens

theorem NoSteal.prefix {l : List FReq} (h : NoSteal l) {a b : List FReq} (e : l = a ++ b) : ∀ ino,
    a.count (.release ino) ≤ a.count (.open ino) := by
  intro ino
  have := h a.length ino
  rw [e, List.take_left] at this
  exact this

section
variable {rs : List AddReq} {m : PathMap} {cfg : FsCfg} {d0 : List Bytes} (h : Mounted rs m cfg d0)
include h

/-- a request of the program -/
theorem ClientInv.own {H : List FReq} {own own' : Option Nat} {s : FsState} (I : ClientInv cfg H own s) (r : FReq)
    (hr : ∀ ino b, cfg.fileBytes ino = some b → H.count (.release ino) ≤ H.count (.open ino) →
      ((if r = .open ino then 1 else 0) + (if own = some ino then 1 else 0) =
        (if own' = some ino then 1 else 0) + (if r = .release ino then 1 else 0)))
    (hle : ∀ ino, H.count (.release ino) ≤ H.count (.open ino)) : ClientInv cfg H own' (s.step cfg r).2 := by
  obtain ⟨P, G, hroot, _⟩ := h.good
  obtain ⟨opens, C, K⟩ := I.counts
  refine ⟨I.reach.step r, _, (C.step G hroot r).2, ?_⟩
  intro ino b hb
  have h1 := K ino b hb
  have h2 := hr ino b hb (hle ino)
  have h3 := hle ino
  rw [pureStep_count hb]
  by_cases e1 : r = .open ino
  · subst e1
    simp only [if_true, reduceCtorEq, if_false] at h2 ⊢
    omega
  · by_cases e2 : r = .release ino
    · subst e2
      simp only [if_true, reduceCtorEq, if_false] at h2 ⊢
      omega
    · simp only [e1, e2, if_false] at h2 ⊢
      omega

/-- a request of others -/
theorem ClientInv.other {H : List FReq} {own : Option Nat} {s : FsState} (I : ClientInv cfg H own s) (r : FReq)
    (hle : ∀ ino, (H ++ [r]).count (.release ino) ≤ (H ++ [r]).count (.open ino)) :
    ClientInv cfg (H ++ [r]) own (s.step cfg r).2 := by
  obtain ⟨P, G, hroot, _⟩ := h.good
  obtain ⟨opens, C, K⟩ := I.counts
  refine ⟨I.reach.step r, _, (C.step G hroot r).2, ?_⟩
  intro ino b hb
  have h1 := K ino b hb
  have h3 := hle ino
  rw [pureStep_count hb]
  simp only [List.count_append, List.count_singleton, beq_iff_eq] at h3 ⊢
  by_cases e1 : r = .open ino
  · subst e1
    simp only [if_true, reduceCtorEq, if_false] at h3 ⊢
    omega
  · by_cases e2 : r = .release ino
    · subst e2
      simp only [if_true, reduceCtorEq, if_false] at h3 ⊢
      omega
    · simp only [e1, e2, if_false] at h3 ⊢
      omega

theorem ClientInv.others {own : Option Nat} : ∀ (l H : List FReq) {s : FsState}, ClientInv cfg H own s → NoSteal (H ++ l) →
    ClientInv cfg (H ++ l) own (s.run cfg l).2 := by
  intro l
  induction l with
  | nil => intro H s I _; simpa [FsState.run] using I
  | cons r l ih =>
    intro H s I hN
    have e : H ++ r :: l = H ++ [r] ++ l := by simp
    rw [e] at hN ⊢
    have := ih (H ++ [r]) (I.other h r (hN.prefix rfl)) hN
    simpa [FsState.run] using this
end

theorem Client.others_succ (cl : Client) (before : List FReq) (t : Nat) :
    cl.others before (t + 1) = cl.others before t ++ cl.noise t := by
  simp [Client.others, List.range_succ]

section
variable {rs : List AddReq} {m : PathMap} {cfg : FsCfg} {d0 : List Bytes} (h : Mounted rs m cfg d0)
  {cl : Client} {before : List FReq} (F : cl.Fair (m.sub d0) before)

/-- the invariant of the program at a configuration -/
def Client.At (cl : Client) (cfg : FsCfg) (before : List FReq) (own : Option Nat) (c : FsState × Nat) : Prop :=
  ClientInv cfg (cl.others before c.2) own c.1

include h F

theorem Client.At.ask {own own' : Option Nat} {c : FsState × Nat} (I : cl.At cfg before own c) (r : FReq)
    (hr : ∀ ino, ((if r = .open ino then 1 else 0) + (if own = some ino then 1 else 0) =
        (if own' = some ino then 1 else 0) + (if r = .release ino then 1 else 0))) :
    cl.At cfg before own' (cl.ask cfg c r).2 := by
  have h1 := ClientInv.own h I (own' := own') r (fun ino _ _ _ => hr ino) ((F.others c.2).prefix (b := []) (by simp))
  have h2 := ClientInv.others h (cl.noise c.2) _ h1 (by rw [← Client.others_succ]; exact F.others _)
  rw [← Client.others_succ] at h2
  exact h2

/-- a request that is neither `open` nor `release` -/
theorem Client.At.ask' {own : Option Nat} {c : FsState × Nat} (I : cl.At cfg before own c) (r : FReq)
    (h1 : ∀ ino, r ≠ .open ino) (h2 : ∀ ino, r ≠ .release ino) : cl.At cfg before own (cl.ask cfg c r).2 :=
  I.ask h F r (fun ino => by simp [h1 ino, h2 ino])

/-- listing a directory gives its listing -/
theorem Client.list_ok {ino : Nat} {path : List Bytes} {L : List DirEnt} (hL : DirListing cfg m ino (d0 ++ path) L)
    (hread : ∀ (s : FsState) off buf,
      (s.step cfg (.readdir ino off buf)).1 = .dir (fill buf 0 (L.drop (if off = 0 then 0 else off + 1))))
    {own : Option Nat} : ∀ (f : Nat) (c : FsState × Nat) (k : Nat), cl.At cfg before own c → k ≤ L.length → k ≠ 1 →
      L.length + 2 ≤ f + k → ∃ c', cl.list cfg ino f c (L.take k) = (some L, c') ∧ cl.At cfg before own c' := by
  intro f
  induction f with
  | zero => intro c k _ h1 _ h2; omega
  | succ f ih =>
    intro c k I hk hk1 hf
    have I' := I.ask' h F (.readdir ino (k - 1) (cl.buf c.2)) (by simp) (by simp)
    have hr := hread c.1 (k - 1) (cl.buf c.2)
    have hoff : (if k - 1 = 0 then 0 else k - 1 + 1) = k := by split <;> omega
    rw [hoff] at hr
    obtain ⟨j, hj, hjl⟩ := fill_take (cl.buf c.2) 0 (L.drop k)
    have hnames : ∀ e ∈ L, direntSize e.name ≤ cl.buf c.2 := by
      intro e he
      obtain ⟨i, hi⟩ := List.mem_iff_getElem?.mp he
      have hc := hL.cookie hi
      by_cases h2 : 2 ≤ e.cookie
      · obtain ⟨_, _, n, hn, _⟩ := hL.child he h2
        exact (F.buf c.2).2 path n _ (by rw [← hn]; simp [PathMap.sub])
      · have h64 := (F.buf c.2).1
        match i, hi, hc with
        | 0, hi, _ => rw [hL.dot] at hi; cases hi; rw [DirListing.dotSize.1]; omega
        | 1, hi, _ =>
          obtain ⟨p, hp, _⟩ := hL.dotdot
          rw [hp] at hi; cases hi
          show direntSize PARENT ≤ _
          rw [DirListing.dotSize.2]; omega
        | i + 2, _, hc => omega
    unfold Client.list
    rw [hL.lastCookie hk]
    revert I' hr
    simp only [Client.ask]
    cases c.1.step cfg (.readdir ino (k - 1) (cl.buf c.2)) with
    | mk r s1 =>
      intro I' hr
      simp only at hr I'
      subst hr
      by_cases hkl : k = L.length
      · subst hkl
        simp only [List.drop_length, fill, List.take_length]
        exact ⟨_, rfl, I'⟩
      · have hlt : k < L.length := by omega
        have hj1 : 1 ≤ j := by
          rw [List.drop_eq_getElem_cons hlt] at hj
          have hfit := hnames L[k] (List.getElem_mem hlt)
          simp only [fill] at hj
          rw [if_neg (by omega)] at hj
          cases j with
          | zero => simp at hj
          | succ j => omega
        have hj2 : k = 0 → 2 ≤ j := by
          intro e
          subst e
          obtain ⟨p, t, hLe⟩ := hL.length_ge
          simp only [List.drop_zero] at hj
          rw [hLe] at hj
          have h64 := (F.buf c.2).1
          simp only [fill] at hj
          rw [DirListing.dotSize.1, DirListing.dotSize.2] at hj
          rw [if_neg (by omega), if_neg (by omega)] at hj
          match j, hj with
          | 0, hj => simp at hj
          | 1, hj => simp at hj
          | j + 2, _ => omega
        rw [hj]
        simp only [List.length_drop] at hjl
        obtain ⟨c', h1, h2⟩ := ih _ (k + j) I' (by omega) (by omega) (by omega)
        rw [← List.take_append_drop_take] at h1
        refine ⟨c', ?_, h2⟩
        rw [← h1]
        cases hp : (L.drop k).take j with
        | nil =>
          have := congrArg List.length hp
          simp only [List.length_take, List.length_drop, List.length_nil] at this
          omega
        | cons x l => rfl

/-- reading an open file gives its content -/
theorem Client.cat_ok {ino : Nat} {b : Bytes} (hb : cfg.fileBytes ino = some b) :
    ∀ (f : Nat) (c : FsState × Nat) (k : Nat), cl.At cfg before (some ino) c → k ≤ b.length →
      b.length + 1 ≤ f + k → ∃ c', cl.cat cfg ino b.length f c (b.take k) = (some b, c') ∧ cl.At cfg before (some ino) c' := by
  intro f
  induction f with
  | zero => intro c k _ h1 h2; omega
  | succ f ih =>
    intro c k I hk hf
    have hlen : (b.take k).length = k := by simp [hk]
    unfold Client.cat
    rw [hlen]
    by_cases hkl : b.length ≤ k
    · rw [if_pos hkl, List.take_of_length_le hkl]
      exact ⟨c, rfl, I⟩
    · rw [if_neg hkl]
      have I' := I.ask' h F (.read ino (k : Int) (cl.chunk c.2)) (by simp) (by simp)
      have hr : (c.1.step cfg (.read ino (k : Int) (cl.chunk c.2))).1 = .data ((b.drop k).take (cl.chunk c.2)) := by
        obtain ⟨opens, C, K⟩ := I.counts
        have h1 := K ino b hb
        have h2 := (F.others c.2).prefix (a := cl.others before c.2) (b := []) (by simp) ino
        simp only [if_true] at h1
        simp only [FsState.step, FsState.read]
        cases hreg : c.1.region ino with
        | none => have := C.closed ino hreg; omega
        | some x =>
          obtain ⟨b', n⟩ := x
          obtain ⟨o1, o2, o3, o4⟩ := C.opened ino b' n hreg
          rw [hb] at o4; cases o4
          rw [if_neg o3, if_neg (by omega)]
          simp only [Int.toNat_natCast]
          rw [if_neg (by omega)]
          show Reply.data _ = Reply.data _
          congr 1
          rw [List.take_eq_take_iff]
          simp only [List.length_drop]
          omega
      revert I' hr
      simp only [Client.ask]
      cases c.1.step cfg (.read ino (k : Int) (cl.chunk c.2)) with
      | mk r s1 =>
        intro I' hr
        simp only at hr I'
        subst hr
        have hch := F.chunk c.2
        obtain ⟨c', h1, h2⟩ := ih _ (min (k + cl.chunk c.2) b.length) I' (by omega) (by omega)
        have e : b.take (min (k + cl.chunk c.2) b.length) = b.take k ++ (b.drop k).take (cl.chunk c.2) := by
          rw [List.take_append_drop_take, ← List.take_take, List.take_length]
        rw [e] at h1
        refine ⟨c', ?_, h2⟩
        rw [← h1]
        cases hp : (b.drop k).take (cl.chunk c.2) with
        | nil =>
          have := congrArg List.length hp
          simp only [List.length_take, List.length_drop, List.length_nil] at this
          omega
        | cons x l => rfl

/-- copying one child -/
theorem Client.copyChild_ok (hfit : AttrsFit m)
    (hbytes : ∀ p n size ca, m.sub d0 p = some n → n.kind = .file size ca → ∃ b, cfg.bytes ca = .found b ∧ b.length = size)
    {f : Nat} (hf : ∀ p n size ca, m.sub d0 p = some n → n.kind = .file size ca → size + 1 ≤ f)
    {sub : FsState × Nat → List Bytes → Nat → Option (List Copied) × (FsState × Nat)} {path : List Bytes} {ino : Nat}
    (hi : inoPath cfg d0 ino = some (d0 ++ path))
    (hd : ino = 1 ∨ ∃ n, m (d0 ++ path) = some n ∧ n.isDir = true) (name : Bytes) {n : Node}
    (hn : m (d0 ++ path ++ [name]) = some n)
    (hsub : n.isDir = true → ∀ c ino', cl.At cfg before none c → 2 ≤ ino' → inoPath cfg d0 ino' = some (d0 ++ (path ++ [name])) →
      ∃ l c' ns T, sub c (path ++ [name]) ino' = (some l, c') ∧ cl.At cfg before none c' ∧
        KidsOf m (d0 ++ (path ++ [name])) ns ∧ TraceOf m (d0 ++ (path ++ [name])) ns T ∧
        l.map (fun x => d0 ++ x.path) = T.filterMap Ev.visited ∧ ∀ x ∈ l, CopyOf cfg m d0 x)
    {c : FsState × Nat} (I : cl.At cfg before none c) :
    ∃ l c', cl.copyChild cfg f sub path ino c name = (some l, c') ∧ cl.At cfg before none c' ∧
      (∀ x ∈ l, CopyOf cfg m d0 x) ∧
      ∀ cs T', TraceOf m (d0 ++ path) cs T' → ∃ T, TraceOf m (d0 ++ path) (name :: cs) T ∧
        T.filterMap Ev.visited = l.map (fun x => d0 ++ x.path) ++ T'.filterMap Ev.visited := by
  have hassoc : d0 ++ path ++ [name] = d0 ++ (path ++ [name]) := by simp
  have hl := C23_lookup h hfit I.reach name hi hd
  rw [hn] at hl
  simp only at hl
  obtain ⟨a, hr, hat⟩ := hl
  have hat' := hat
  obtain ⟨n', ns, h1, h2, h3, h4, h5⟩ := hat
  rw [hn] at h1; cases h1
  rw [hassoc] at hat'
  have hino : inoPath cfg d0 a.ino = some (d0 ++ path ++ [name]) := by rw [← h3]; exact inoPath_ge2 h4
  have I1 := I.ask' h F (.lookup ino name) (by simp) (by simp)
  have hkind : a.kind = n.kind.etype := by rw [h5]; rfl
  have hsize : ∀ size ca, n.kind = .file size ca → a.size = size := by
    intro size ca hk; rw [h5]; simp [attrSpec, hk]
  unfold Client.copyChild
  have hask : cl.ask cfg c (.lookup ino name) = (.entry a, (cl.ask cfg c (.lookup ino name)).2) := by
    rw [← hr]; rfl
  rw [hask]
  simp only
  revert I1
  generalize (cl.ask cfg c (.lookup ino name)).2 = c1
  intro I1
  have hm : m (d0 ++ (path ++ [name])) = some n := by rw [← hassoc]; exact hn
  have hms : m.sub d0 (path ++ [name]) = some n := by rw [← hm]; simp [PathMap.sub]
  have hc28 := (C28_attributes h hfit I1.reach).1 a.ino _ n h4 hino hn
  cases hk : n.kind with
  | dir =>
    rw [hk] at hkind
    rw [hkind]
    simp only [Kind.etype]
    have hdir : n.isDir = true := by simp [Node.isDir, hk, Kind.isDir]
    obtain ⟨l, c2, ks, T1, e1, e2, e3, e4, e5, e6⟩ := hsub hdir c1 a.ino I1 h4 (by rw [← hassoc]; exact hino)
    rw [e1]
    refine ⟨_, _, rfl, e2, ?_, ?_⟩
    · intro x hx
      rcases List.mem_cons.mp hx with rfl | hx
      · exact ⟨hat', n, hm, by rw [hk]⟩
      · exact e6 x hx
    · intro cs T' hT'
      rw [← hassoc] at e3 e4
      refine ⟨_, .dir hn hdir e3 e4 hT', ?_⟩
      simp [List.filterMap_cons, Ev.visited, e5]
  | link t =>
    rw [hk] at hkind
    rw [hkind]
    simp only [Kind.etype]
    have hr2 : (c1.1.step cfg (.readlink a.ino)).1 = .data t := by rw [hc28.2.1, hk]
    have I2 := I1.ask' h F (.readlink a.ino) (by simp) (by simp)
    have hask : cl.ask cfg c1 (.readlink a.ino) = (.data t, (cl.ask cfg c1 (.readlink a.ino)).2) := by rw [← hr2]; rfl
    rw [hask]
    refine ⟨_, _, rfl, I2, ?_, ?_⟩
    · intro x hx
      simp only [List.mem_singleton] at hx
      subst hx
      exact ⟨hat', n, hm, by rw [hk]⟩
    · intro cs T' hT'
      refine ⟨_, .leaf hn (by simp [Node.isDir, hk, Kind.isDir]) hT', ?_⟩
      simp [List.filterMap_cons, Ev.visited]
  | file size ca =>
    rw [hk] at hkind
    rw [hkind]
    simp only [Kind.etype]
    obtain ⟨b, hb, hbl⟩ := hbytes _ n size ca hms hk
    obtain ⟨hopen, hfb⟩ := C26_open h (s := c1.1) h4 hino hn hk hb
    have I2 := I1.ask h F (own' := some a.ino) (.open a.ino) (by
      intro i; by_cases e : a.ino = i <;> simp [e])
    have hask : cl.ask cfg c1 (.open a.ino) = (.opened, (cl.ask cfg c1 (.open a.ino)).2) := by rw [← hopen]; rfl
    rw [hask]
    simp only
    obtain ⟨c3, e1, I3⟩ := Client.cat_ok h F hfb f _ 0 I2 (Nat.zero_le _) (by
      have := hf _ n size ca hms hk; omega)
    rw [List.take_zero] at e1
    rw [hsize size ca hk, ← hbl, e1]
    simp only
    have hrel : (c3.1.step cfg (.release a.ino)).1 = .ok := by
      obtain ⟨opens, C, K⟩ := I3.counts
      have h1 := K a.ino b hfb
      have h2 := (F.others c3.2).prefix (a := cl.others before c3.2) (b := []) (by simp) a.ino
      simp only [if_true] at h1
      simp only [FsState.step, FsState.release]
      cases hreg : c3.1.region a.ino with
      | none => have := C.closed a.ino hreg; omega
      | some x =>
        obtain ⟨b', k⟩ := x
        obtain ⟨o1, o2, o3, o4⟩ := C.opened a.ino b' k hreg
        rw [if_neg o3]
        simp only
        rw [if_neg (by omega)]
        split <;> rfl
    have I4 := I3.ask h F (own' := none) (.release a.ino) (by
      intro i; by_cases e : a.ino = i <;> simp [e])
    have hask : cl.ask cfg c3 (.release a.ino) = (.ok, (cl.ask cfg c3 (.release a.ino)).2) := by rw [← hrel]; rfl
    rw [hask]
    refine ⟨_, _, rfl, I4, ?_, ?_⟩
    · intro x hx
      simp only [List.mem_singleton] at hx
      subst hx
      exact ⟨hat', n, hm, by rw [hk]; exact ⟨b, hb, rfl⟩⟩
    · intro cs T' hT'
      refine ⟨_, .leaf hn (by simp [Node.isDir, hk, Kind.isDir]) hT', ?_⟩
      simp [List.filterMap_cons, Ev.visited]

/-- copying a directory -/
theorem Client.copy_ok (hfit : AttrsFit m) (hsz : Listable cfg)
    (hdots : ∀ p n, m.sub d0 p = some n → ∀ c ∈ p, c ≠ CUR ∧ c ≠ PARENT)
    (hbytes : ∀ p n size ca, m.sub d0 p = some n → n.kind = .file size ca → ∃ b, cfg.bytes ca = .found b ∧ b.length = size)
    {N : Nat} (hN1 : ∀ p n size ca, m.sub d0 p = some n → n.kind = .file size ca → size + 1 ≤ N)
    (hN2 : ∀ d ns, KidsOf m d ns → ns.length + 4 ≤ N) :
    ∀ (k f : Nat) (path : List Bytes) (ino : Nat) (c : FsState × Nat),
      1 ≤ k → (∀ p n, m (d0 ++ path ++ p) = some n → p.length < k) → N + k ≤ f →
      inoPath cfg d0 ino = some (d0 ++ path) → (ino = 1 ∨ ∃ n, m (d0 ++ path) = some n ∧ n.isDir = true) →
      cl.At cfg before none c →
      ∃ l c' ns T, cl.copy cfg f c path ino = (some l, c') ∧ cl.At cfg before none c' ∧
        KidsOf m (d0 ++ path) ns ∧ TraceOf m (d0 ++ path) ns T ∧
        l.map (fun x => d0 ++ x.path) = T.filterMap Ev.visited ∧ ∀ x ∈ l, CopyOf cfg m d0 x := by
  intro k
  induction k with
  | zero => intro f path ino c h1; omega
  | succ k ih =>
    intro f path ino c _ hdeep hf hi hd I
    obtain ⟨f, rfl⟩ : ∃ g, f = g + 1 := ⟨f - 1, by omega⟩
    obtain ⟨L, hL, hread⟩ := h.readdir hsz hi hd
    obtain ⟨ns, hns, hall⟩ := hL.kids
    have hLlen : L.length = ns.length + 2 := by
      have := hall.length_eq
      obtain ⟨p, t, hLe⟩ := hL.length_ge
      rw [hLe] at this ⊢
      simp at this ⊢
      exact this
    -- opendir
    have hod : (c.1.step cfg (.opendir ino)).1 = .opened := by
      have hc28 := C28_attributes h hfit I.reach
      rcases Nat.lt_or_ge 1 ino with h2 | h2
      · rcases hd with e | ⟨n, hn, hnd⟩
        · omega
        · rw [(hc28.1 ino _ n h2 hi hn).2.2, hnd]; rfl
      · have : ino = 1 := by
          have h0 : ino ≠ 0 := by intro e; simp [inoPath, e] at hi
          omega
        rw [this]; exact hc28.2.2.2
    have I1 := I.ask' h F (.opendir ino) (by simp) (by simp)
    have hask : cl.ask cfg c (.opendir ino) = (.opened, (cl.ask cfg c (.opendir ino)).2) := by rw [← hod]; rfl
    unfold Client.copy
    rw [hask]
    simp only
    have hb := hN2 _ ns hns
    obtain ⟨c2, e2, I2⟩ := Client.list_ok h F hL hread f _ 0 I1 (Nat.zero_le _) (by omega) (by omega)
    rw [List.take_zero] at e2
    rw [e2]
    simp only
    -- the names
    have hnames : (L.map (fun e => e.name)).filter (fun n => decide (n ≠ CUR ∧ n ≠ PARENT)) = ns := by
      have hdrop : (L.drop 2).map (fun e => e.name) = ns := by
        clear hns hLlen hb e2
        revert hall
        generalize L.drop 2 = K
        intro hall
        induction hall with
        | nil => rfl
        | cons h1 _ ih => simp only [List.map_cons, h1.1, ih]
      obtain ⟨p, t, hLe⟩ := hL.length_ge
      rw [hLe] at hdrop ⊢
      simp only [List.drop_succ_cons, List.drop_zero] at hdrop
      simp only [List.map_cons, hdrop]
      rw [List.filter_cons_of_neg (by simp), List.filter_cons_of_neg (by simp)]
      rw [List.filter_eq_self]
      intro x hx
      obtain ⟨n, hn⟩ := (hns.2 x).mp hx
      simpa using hdots (path ++ [x]) n (by rw [← hn]; simp [PathMap.sub]) x (by simp)
    rw [hnames]
    -- the children
    have hkids : ∀ cs : List Bytes, (∀ x ∈ cs, x ∈ ns) → ∀ c : FsState × Nat, cl.At cfg before none c →
        ∃ l c' T, eachName (cl.copyChild cfg f (cl.copy cfg f) path ino) c cs = (some l, c') ∧ cl.At cfg before none c' ∧
          TraceOf m (d0 ++ path) cs T ∧ l.map (fun x => d0 ++ x.path) = T.filterMap Ev.visited ∧ ∀ x ∈ l, CopyOf cfg m d0 x := by
      intro cs
      induction cs with
      | nil => intro _ c I; exact ⟨[], c, [], rfl, I, .nil _, rfl, by simp⟩
      | cons name cs ihc =>
        intro hmem c I
        obtain ⟨n, hn⟩ := (hns.2 name).mp (hmem name (by simp))
        have hk1 : 1 ≤ k := by
          have := hdeep [name] n hn
          simp at this; omega
        obtain ⟨l1, c1, a1, a2, a3, a4⟩ := Client.copyChild_ok h F hfit hbytes (f := f)
          (fun p n size ca hp hk => by have := hN1 p n size ca hp hk; omega) (sub := cl.copy cfg f) hi hd name hn
          (fun hnd c ino' I h2 hi' => ih f (path ++ [name]) ino' c hk1 (by
              intro p n' hp
              have := hdeep ([name] ++ p) n' (by simpa using hp)
              simp at this; omega) (by omega) hi' (Or.inr ⟨n, by simpa using hn, hnd⟩) I) I
        obtain ⟨l2, c2, T2, b1, b2, b3, b4, b5⟩ := ihc (fun x hx => hmem x (by simp [hx])) c1 a2
        obtain ⟨T, t1, t2⟩ := a4 cs T2 b3
        refine ⟨l1 ++ l2, c2, T, ?_, b2, t1, ?_, ?_⟩
        · simp only [eachName, a1, b1]
        · rw [t2, List.map_append, b4]
        · intro x hx
          rcases List.mem_append.mp hx with hx | hx
          · exact a3 x hx
          · exact b5 x hx
    obtain ⟨l, c3, T, e3, I3, t1, t2, t3⟩ := hkids ns (fun x hx => hx) c2 I2
    rw [e3]
    simp only
    have I4 := I3.ask' h F (.releasedir ino) (by simp) (by simp)
    have hask : cl.ask cfg c3 (.releasedir ino) = (.ok, (cl.ask cfg c3 (.releasedir ino)).2) := rfl
    rw [hask]
    exact ⟨l, _, ns, T, rfl, I4, hns, t1, t2, t3⟩
end

/-- a bound for finitely many numbers -/
theorem exists_bound {α : Type} (l : List α) (g : α → Nat) : ∃ N, ∀ x ∈ l, g x ≤ N := by
  induction l with
  | nil => exact ⟨0, by simp⟩
  | cons x l ih =>
    obtain ⟨N, hN⟩ := ih
    refine ⟨max N (g x), fun y hy => ?_⟩
    rcases List.mem_cons.mp hy with rfl | hy
    · omega
    · have := hN y hy; omega

/-- **C67.** Copying a mounted archive: a program that lists every directory page by page, looks up every name, goes
into the directories, reads the links and opens, reads piece by piece and closes the files, while other programs make any other requests in between (releasing no
file more often than they opened it), ends after a bounded number of steps — without an error, and with every entry
below the mounted directory exactly once, directories before their content and siblings in byte order, each with its
attributes and its content. Assumed: attributes and row numbers are representable, no entry below the mounted directory is called `"."` or `".."`,
and all contents are available with their recorded sizes. -/
theorem C67_copy {rs : List AddReq} {m : PathMap} {cfg : FsCfg} {d0 : List Bytes} (h : Mounted rs m cfg d0)
    (hfit : AttrsFit m) (hsz : Listable cfg) (hdots : ∀ p n, m.sub d0 p = some n → ∀ c ∈ p, c ≠ CUR ∧ c ≠ PARENT)
    (hbytes : ∀ p n size ca, m.sub d0 p = some n → n.kind = .file size ca → ∃ b, cfg.bytes ca = .found b ∧ b.length = size) :
    ∃ N, ∀ (cl : Client) (before : List FReq), cl.Fair (m.sub d0) before → ∀ f ≥ N,
      ∃ l c, cl.copy cfg f ((FsState.init.run cfg before).2, 0) [] 1 = (some l, c) ∧
        Listing m d0 (l.map (fun x => d0 ++ x.path)) ∧ ∀ x ∈ l, CopyOf cfg m d0 x := by
  obtain ⟨P, G, hroot, hd0⟩ := h.good
  obtain ⟨K, hK⟩ := exists_bound P (fun p => p.length)
  obtain ⟨S, hS⟩ := exists_bound P (fun p => match m p with | some n => (match n.kind with | .file size _ => size | _ => 0) | none => 0)
  refine ⟨S + 1 + (P.length + 4) + (K + 1), ?_⟩
  intro cl before F f hf
  have hdeep : ∀ p n, m (d0 ++ [] ++ p) = some n → p.length < K + 1 := by
    intro p n hp
    have := hK _ ((G.dom _).mpr ⟨n, hp⟩)
    simp at this; omega
  have hkids : ∀ d ns, KidsOf m d ns → ns.length + 4 ≤ S + 1 + (P.length + 4) := by
    intro d ns hns
    have hnd : (ns.map (fun c => d ++ [c])).Nodup := by
      rw [List.nodup_iff_pairwise_ne, List.pairwise_map]
      refine hns.1.imp ?_
      intro a b hab e
      have : a = b := by simpa using e
      subst this
      exact ltBytes_irrefl _ hab
    have hsub : ∀ x ∈ ns.map (fun c => d ++ [c]), x ∈ P := by
      intro x hx
      obtain ⟨c, hc, rfl⟩ := List.mem_map.mp hx
      exact (G.dom _).mpr ((hns.2 c).mp hc)
    have := hnd.length_le_of_subset hsub
    simp at this; omega
  have hstart : cl.At cfg before none ((FsState.init.run cfg before).2, 0) := by
    have h1 : ClientInv cfg [] none FsState.init :=
      ⟨FsReach.init cfg, _, CacheInv.init cfg, fun _ _ _ => by simp⟩
    have := ClientInv.others h before [] h1 (by
      have := F.others 0
      simpa [Client.others] using this)
    simpa [Client.At, Client.others] using this
  obtain ⟨l, c, ns, T, e1, _, e3, e4, e5, e6⟩ := Client.copy_ok h F hfit hsz hdots hbytes (N := S + 1 + (P.length + 4))
    (fun p n size ca hp hk => by
      have hp := (PathMap.sub_some hp).2
      have := hS _ ((G.dom _).mpr ⟨n, hp⟩)
      simp only [hp, hk] at this
      omega) hkids (K + 1) f [] 1 _ (by omega) hdeep (by omega) (by simp [inoPath]) (Or.inl rfl) hstart
  refine ⟨l, c, e1, ?_, e6⟩
  rw [e5]
  rw [List.append_nil] at e3 e4
  exact e4.listing G.wf e3

/-! ## The example archive, copied -/

/-- the row of an entry -/
theorem map_row {rs : List AddReq} {a : Archive} {m : PathMap} (h : Written rs a) (hm : SpecRun PathMap.empty rs m)
    {p : List Bytes} {n : Node} (hp : m p = some n) : ∃ P r, r ∈ a.entries ∧ RowOK P p n r := by
  obtain ⟨P, G⟩ := h.good' hm
  obtain ⟨i, hi⟩ := G.idx_of hp
  obtain ⟨r, n', h1, h2, h3⟩ := G.row_at hi
  rw [hp] at h2; cases h2
  exact ⟨P, r, List.mem_of_getElem? h1, h3⟩

/-- a program whose neighbour opened a file before it started, and closes it while it is being read -/
def exClient : Client where
  noise t := if t = 19 then [.read 5 0 1, .release 5, .lookup 1 (ascii "zz")] else []
  buf t := 64 + t
  chunk t := if t % 2 = 0 then 1 else 2

theorem exFair (m : PathMap) (hm : ∀ p n c, m (p ++ [c]) = some n → direntSize c ≤ 64) : exClient.Fair m [.open 5] := by
  refine ⟨?_, ?_, ?_⟩
  · have hH : ∀ t, exClient.others [.open 5] t = if t ≤ 19 then [.open 5] else [.open 5, .read 5 0 1, .release 5, .lookup 1 (ascii "zz")] := by
      intro t
      induction t with
      | zero => rfl
      | succ t ih =>
        rw [Client.others_succ, ih]
        simp only [exClient]
        by_cases h1 : t = 19
        · subst h1; rfl
        · rw [if_neg h1, List.append_nil]
          by_cases h2 : t ≤ 19
          · rw [if_pos h2, if_pos (by omega)]
          · rw [if_neg h2, if_neg (by omega)]
    intro t
    rw [hH]
    split
    · intro k ino
      match k with
      | 0 => simp
      | k + 1 => simp [List.count_cons]
    · intro k ino
      match k with
      | 0 => simp
      | 1 => simp [List.count_cons]
      | 2 => simp [List.count_cons]
      | 3 => simp [List.count_cons]
      | k + 4 => simp [List.count_cons]
  · intro t
    simp only [exClient]
    exact ⟨by omega, fun p n c hp => by have := hm p n c hp; omega⟩
  · intro t; simp only [exClient]; split <;> omega

/-- the copy: the neighbour's request comes between the two reads of `b/x` -/
example : ((exClient.copy exFs 20 ((FsState.init.run exFs [.open 5]).2, 0) [] 1).1.map (fun l => l.map (fun x => (x.path, x.got)))) =
    some [([ascii "a"], .dir), ([ascii "a", ascii "l"], .link (ascii "../b")), ([ascii "b"], .dir),
      ([ascii "b", ascii "x"], .file (ascii "xyz"))] := by decide +kernel

theorem exRows : ∀ r ∈ exArchive.entries, r.mtime < 2 ^ 63 ∧ r.size ≤ 2 ^ 64 - 4096 ∧ r.target.length ≤ 2 ^ 64 - 4096 ∧
      (r.variant = 0 → r.content = ⟨1, 0⟩ ∧ r.size = 3) := by
    decide +kernel

theorem exFit : AttrsFit exMap := by
    intro p n hp
    obtain ⟨P, r, hr, h1, h2, h3, h4, h5, h6, h7⟩ := map_row exWritten exMap_spec hp
    obtain ⟨q1, q2, q3, _⟩ := exRows r hr
    refine ⟨by omega, ?_⟩
    cases hk : n.kind with
    | dir => trivial
    | file size ca => rw [hk] at h7; simp only; rw [← h7.2.1]; exact q2
    | link t => rw [hk] at h7; simp only; rw [← h7.2.1]; exact q3

theorem exNames : ∀ p n, exMap.sub [] p = some n → ∀ c ∈ p, c ≠ CUR ∧ c ≠ PARENT ∧ direntSize c ≤ 64 := by
    intro p n hp
    have := exMap_paths (PathMap.sub_some hp).2
    simp only [List.nil_append, List.mem_cons, List.not_mem_nil, or_false] at this
    rcases this with rfl | rfl | rfl | rfl <;> decide

theorem exSizes : ∀ p n size ca, exMap.sub [] p = some n → n.kind = .file size ca → ∃ b, exFs.bytes ca = .found b ∧ b.length = size := by
    intro p n size ca hp hk
    obtain ⟨P, r, hr, h1, h2, h3, h4, h5, h6, h7⟩ := map_row exWritten exMap_spec (PathMap.sub_some hp).2
    obtain ⟨_, _, _, q4⟩ := exRows r hr
    rw [hk] at h7
    obtain ⟨e1, e2⟩ := q4 h7.1
    rw [← h7.2.1, ← h7.2.2.1, e1, e2]
    exact ⟨ascii "xyz", rfl, rfl⟩

/-- the hypotheses of the theorem are met -/
theorem exCopied : ∃ N, ∀ f ≥ N, ∃ l c, exClient.copy exFs f ((FsState.init.run exFs [.open 5]).2, 0) [] 1 = (some l, c) := by
  obtain ⟨N, hN⟩ := C67_copy exMounted exFit (by unfold Listable; decide)
    (fun p n hp c hc => ⟨(exNames p n hp c hc).1, (exNames p n hp c hc).2.1⟩) exSizes
  refine ⟨N, fun f hf => ?_⟩
  obtain ⟨l, c, h1, _⟩ := hN exClient [.open 5] (exFair (exMap.sub []) fun p n c hp => (exNames _ n hp c (by simp)).2.2) f hf
  exact ⟨l, c, h1⟩

/-! ## C68 -/

/-- **C68.** Copying a mounted directory and extracting it give the same tree: whatever a program has copied from the mount (as in `C67_copy`), and whatever the
extraction of the same directory of the same archive into an empty place has made (no call failing): the copied paths are exactly
the paths that were made, and each copied file, link or directory is what is at its path, with the same content. -/
theorem C68_extract_is_copy {rs : List AddReq} {m : PathMap} {cfg : FsCfg} {d0 : List Bytes} (h : Mounted rs m cfg d0)
    (hfit : AttrsFit m) (hsz : Listable cfg)
    (hsize : ∀ p n size ca b, m.sub d0 p = some n → n.kind = .file size ca → cfg.bytes ca = .found b → b.length = size)
    {x : XCfg} {rg : Range} {before after : FS} {res : XResult} (hs : Source rs m x.a rg d0) (hbytes : x.bytes = cfg.bytes)
    (hall : x.files = []) (hE : Extractable (m.sub d0) x.bytes) (hT : EmptyTarget before x.base)
    (hx : CleanExtraction x rg before after res) :
    ∃ N, ∀ (cl : Client) (pre : List FReq), cl.Fair (m.sub d0) pre → ∀ f ≥ N,
      ∃ l c, cl.copy cfg f ((FsState.init.run cfg pre).2, 0) [] 1 = (some l, c) ∧
        (l.map (fun e => e.path)).Nodup ∧
        (∀ p, p ≠ [] → ((∃ e ∈ l, e.path = p) ↔ ∃ o, after.nodes (x.base ++ p) = some o)) ∧
        ∀ e ∈ l, SameThing after (x.base ++ e.path) e.got := by
  obtain ⟨_, hA, _⟩ := C14_reproduces hs hall hE hT hx
  obtain ⟨N, hN⟩ := C67_copy h hfit hsz
    (fun p n hp c hc => by have := hE.names p n hp c hc; exact ⟨this.1, this.2.1⟩)
    (fun p n size ca hp hk => by
      obtain ⟨b, hb⟩ := hE.content p n size ca hp hk
      rw [hbytes] at hb
      exact ⟨b, hb, hsize p n size ca b hp hk hb⟩)
  refine ⟨N, fun cl pre F f hf => ?_⟩
  obtain ⟨l, c, h1, h2, h3⟩ := hN cl pre F f hf
  have hmem : ∀ e ∈ l, ∃ n, m.sub d0 e.path = some n ∧ m (d0 ++ e.path) = some n := by
    intro e he
    obtain ⟨⟨n, hn⟩, _, hne⟩ := (h2.2 (d0 ++ e.path)).mp (List.mem_map.mpr ⟨e, he, rfl⟩)
    have : e.path ≠ [] := by intro e'; rw [e'] at hne; simp at hne
    exact ⟨n, by simp [PathMap.sub, this, hn], hn⟩
  refine ⟨l, c, h1, ?_, ?_, ?_⟩
  · have := h2.1
    rw [List.pairwise_map] at this
    rw [List.nodup_iff_pairwise_ne, List.pairwise_map]
    refine this.imp ?_
    intro a b hab e
    rw [e] at hab
    exact lexLt_irrefl _ hab
  · intro p hp
    constructor
    · rintro ⟨e, he, rfl⟩
      obtain ⟨n, hn, _⟩ := hmem e he
      cases hk : n.kind with
      | dir => obtain ⟨t, ht⟩ := hA.dirs _ n hn hk; exact ⟨_, ht⟩
      | file s c => obtain ⟨i, ht, _⟩ := hA.files _ n s c hn hk; exact ⟨_, ht⟩
      | link t => obtain ⟨_, ht⟩ := hA.links _ n t hn hk; exact ⟨_, ht⟩
    · rintro ⟨o, ho⟩
      cases hm : m.sub d0 p with
      | none => rw [hA.nothing p hp hm] at ho; cases ho
      | some n =>
        have := (h2.2 (d0 ++ p)).mpr ⟨⟨n, (PathMap.sub_some hm).2⟩, List.prefix_append _ _, by simp [hp]⟩
        obtain ⟨e, he, heq⟩ := List.mem_map.mp this
        exact ⟨e, he, List.append_cancel_left heq⟩
  · intro e he
    obtain ⟨n, hn, hm⟩ := hmem e he
    obtain ⟨_, n', hn', hk⟩ := h3 e he
    rw [hm] at hn'; cases hn'
    cases hkk : n.kind with
    | dir =>
      rw [hkk] at hk
      simp only at hk
      rw [hk]
      exact hA.dirs _ n hn hkk
    | file s ca =>
      rw [hkk] at hk
      obtain ⟨b, hb, hg⟩ := hk
      rw [hg]
      obtain ⟨i, hi, hib⟩ := hA.files _ n s ca hn hkk
      rw [hbytes, hb] at hib
      exact ⟨i, hi, (GetBytes.found.inj hib).symm⟩
    | link t =>
      rw [hkk] at hk
      simp only at hk
      rw [hk]
      exact hA.links _ n t hn hkk

/-- the hypotheses are met: the example archive, extracted to `t` and copied by `exClient` -/
example (mode : Overwrite) : ∃ N, ∀ f ≥ N, ∃ l c, exClient.copy exFs f ((FsState.init.run exFs [.open 5]).2, 0) [] 1 = (some l, c) ∧
    ∀ e ∈ l, SameThing ((exX [] mode).extractRange 5 exArchive.root fs0 finish).1.fs ((exX [] mode).base ++ e.path) e.got := by
  obtain ⟨N, hN⟩ := C68_extract_is_copy exMounted exFit (by unfold Listable; decide)
    (fun p n size ca b hp hk hb => by
      obtain ⟨b', h1, h2⟩ := exSizes p n size ca hp hk
      rw [hb] at h1; cases h1; exact h2)
    (x := exX [] mode) exSource rfl rfl exExtractable exT (exClean mode)
  refine ⟨N, fun f hf => ?_⟩
  obtain ⟨l, c, h1, _, _, h2⟩ := hN exClient [.open 5] (exFair (exMap.sub []) fun p n c hp => (exNames _ n hp c (by simp)).2.2) f hf
  exact ⟨l, c, h1, h2⟩

end Arx
