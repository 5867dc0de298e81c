import Verif.Proof.CallsWalk
import Verif.Proof.CallsFs
import Verif.Proof.CallsBeside
import Verif.Props.Extract2
/-!
# C69: extraction beside other processes

The answers of the system to the calls of an extraction are arbitrary here: other processes may change anything at
any time.
-/
namespace Arx

/-- **C69 (the calls, archives written by arx).** Whatever the system answers and whenever the writers run, an
extraction of a created archive makes only the calls of `Plan.Allows`: directories where selected directories go, new
files where selected files go, and so on; something existing is opened for replacing or removed only where a
selected file or link goes, after the system said that there is something, and only if the mode allows it (in mode
`newer`, for a time that the system has answered). Writers deliver a first part of the content, in order; all of it if the
extraction succeeds. -/
theorem C69_created {rs : List AddReq} {m : PathMap} {cfg : XCfg} {rg : Range} {d0 : List Bytes} {env : CallEnv} {t : XTrace}
    {res : XResult} (h : Source rs m cfg.a rg d0) (hn : NoDots cfg.base (m.sub d0)) (hr : CallRun cfg env rg t res) :
    (cfg.plan (m.sub d0)).Obeyed t ∧ (cfg.plan (m.sub d0)).Written t (res = .ok) := by
  obtain ⟨P, G, hrg⟩ := h.good
  obtain ⟨depth, last, w, hd, hrun, hfin, rfl⟩ := hr
  have key := G.callExtract hn env hrg hd last
  rw [hrun] at key
  exact ⟨key.1.obey, key.1.written (fun hok => ⟨(key.2 hok).1, hfin⟩)⟩

/-- **C69 (success).** If the extraction reports success, every selected entry was dealt with according to what the
system answered: a directory was made or was there, a file was opened and written completely or existed and was to be
kept, likewise a link. -/
theorem C69_success {rs : List AddReq} {m : PathMap} {cfg : XCfg} {rg : Range} {d0 : List Bytes} {env : CallEnv} {t : XTrace}
    (h : Source rs m cfg.a rg d0) (hn : NoDots cfg.base (m.sub d0)) (hr : CallRun cfg env rg t .ok) :
    ∀ p n, m.sub d0 p = some n → Selected cfg.files cfg.recurse p n.isDir → Handled cfg t (cfg.base ++ p) n := by
  obtain ⟨P, G, hrg⟩ := h.good
  obtain ⟨depth, last, w, hd, hrun, hfin, rfl⟩ := hr
  have key := G.callExtract hn env hrg hd last
  rw [hrun] at key
  exact (key.2 rfl).2

/-- **C69 (any table).** The same for any entry table, except for the paths: files are opened before they are written, at
most with the times and contents of file rows; links are made with targets of link rows; nothing is replaced unless the system
said that there is something and the mode allows it. -/
theorem C69_any_table {cfg : XCfg} {rg : Range} {env : CallEnv} {t : XTrace} {res : XResult} (hr : CallRun cfg env rg t res) :
    cfg.tablePlan.Obeyed t ∧ cfg.tablePlan.Written t (res = .ok) := by
  obtain ⟨depth, last, w, hd, hrun, hfin, rfl⟩ := hr
  have key := callExtract_any cfg env depth rg last
  rw [hrun] at key
  exact ⟨key.1.obey, key.1.written (fun hok => ⟨key.2 hok, hfin⟩)⟩

/-- **C69 (nothing is lost).** In the modes `skip`, `warn` and `error`, for any entry table, at every moment of the extraction
(`t` is any first part of its calls): an entry that was there before and that the other processes leave alone is still there,
and a file has the same data. -/
theorem C69_kept {cfg : XCfg} {rg : Range} {env : CallEnv} {t more : XTrace} {res : XResult} {others : XTrace → FS → FS → Prop}
    {before after : FS} (hmode : cfg.mode = .skip ∨ cfg.mode = .warn ∨ cfg.mode = .error) (hr : CallRun cfg env rg (t ++ more) res)
    (hb : Beside others before t after) (hwf : before.WF) {q : List Bytes} {x : FNode} (hq : before.nodes q = some x)
    (hoth : ∀ t g g', others t g g' → g.nodes q = some x → EntryKept g g' q x ∧ g.next ≤ g'.next) :
    EntryKept before after q x := by
  have ho : cfg.tablePlan.Obeyed t := by
    intro past c a rest e
    exact (C69_any_table hr).1 past c a (rest ++ more) (by rw [e]; simp)
  refine hb.keeps (P := cfg.tablePlan) ?_ ho hq (fun i e => hwf.inos q i (by rw [hq, e])) hoth
  have : cfg.tablePlan.mode = cfg.mode := rfl
  rw [this]
  rcases hmode with h | h | h <;> rw [h] <;> constructor <;> intro e <;> cases e

/-- **C69 (contents).** At the end of a successful extraction, a file that was opened for one entry only, and whose data the other
processes have left alone since, contains the content of a selected file of the archive whose path it was opened for. -/
theorem C69_content {rs : List AddReq} {m : PathMap} {cfg : XCfg} {rg : Range} {d0 : List Bytes} {env : CallEnv} {t : XTrace}
    {others : XTrace → FS → FS → Prop} {before after : FS} (h : Source rs m cfg.a rg d0) (hn : NoDots cfg.base (m.sub d0))
    (hr : CallRun cfg env rg t .ok) (hb : Beside others before t after)
    (hoth : ∀ t g g', others t g g' → ∀ p f, (p, f) ∈ opens t → g'.data f = g.data f)
    {i : Nat} {p : List Bytes} {f : Nat} (hi : (opens t)[i]? = some (p, f))
    (hu : ∀ (j : Nat) (q : List Bytes), (opens t)[j]? = some (q, f) → j = i) :
    ∃ q n s c, p = cfg.base ++ q ∧ m.sub d0 q = some n ∧ n.kind = .file s c ∧ Selected cfg.files cfg.recurse q false ∧
      cfg.bytes c = .found (after.data f).bytes := by
  obtain ⟨h1, h2⟩ := C69_created h hn hr
  obtain ⟨mt, b, ⟨q, n, s, c, k1, k2, k3, k4, k5, k6⟩, _, h4⟩ := h2 i p f hi
  refine ⟨q, n, s, c, k1, k2, k3, k4, ?_⟩
  rw [hb.content h1 hoth i p f hi hu, h4 rfl]
  exact k6

/-- **C69 (every interference is covered).** For whatever the other processes do (`acts n` happens after the first `n` calls), the
extraction whose calls are answered by the shared file system is a run in the sense of `C69_kept` and `C69_content`. -/
theorem C69_every_interference (cfg : XCfg) (acts : Nat → FS → FS) (sched : XTrace → List (Nat × WriteRes)) (before : FS)
    (depth : Nat) (rg : Range) (last : List (Nat × WriteRes)) :
    let t := (cfg.callExtract (sharedEnv acts sched before) depth rg last).1.trace
    Beside (fun t g g' => g' = acts t.length g) before t (sharedState acts before t).1 :=
  beside_any cfg acts sched before depth rg last

/-- **C69 (alone).** The extraction on a file system that nobody else changes (C14 and others) is the case where the
system answers as that file system does: same result, same writers, and the calls lead from the first to the last state. -/
theorem C69_alone (cfg : XCfg) (depth : Nat) (rg : Range) (before : FS) (last : List (Nat × WriteRes)) :
    let r := cfg.callExtract (fsEnv cfg.env before) depth rg last
    let x := cfg.extractRange depth rg before last
    r.2 = x.2 ∧ r.1.tasks = x.1.tasks ∧ AloneOn before r.1.trace x.1.fs :=
  callExtract_fs cfg depth rg before last

/-! ## Examples -/

theorem exNoDots : NoDots [ascii "t"] (exMap.sub []) := by
  refine ⟨by decide, fun p n h => ?_⟩
  have hp := exMap_paths (PathMap.sub_some h).2
  simp only [List.nil_append] at hp
  simp only [List.mem_cons, List.not_mem_nil, or_false] at hp
  rcases hp with rfl | rfl | rfl | rfl <;> decide

/-- another process creates `t/b/x` after the fourth call (just before the extraction comes to it), with a new time -/
def intruder (n : Nat) (fs : FS) : FS :=
  if n = 4 then { (fs.set [ascii "t", ascii "b", ascii "x"] (some (.file fs.next))).setData fs.next ⟨ascii "mine", 7000000000⟩ with next := fs.next + 1 } else fs

def exShared (mode : Overwrite) : CWorld × XResult :=
  (exX [] mode).callExtract (sharedEnv intruder (fun _ => []) fs0) 5 exArchive.root finish

theorem exSharedRun {mode : Overwrite} {res : XResult} (h : (exShared mode).2 = res) (hf : (exShared mode).1.finished) :
    CallRun (exX [] mode) (sharedEnv intruder (fun _ => []) fs0) exArchive.root (exShared mode).1.trace res := by
  refine ⟨5, finish, (exShared mode).1, ?_, ?_, hf, rfl⟩
  · show exArchive.entries.length < 5
    decide
  · rw [← h, exShared]

/-- in mode `overwrite` the file of the other process is replaced, after the system said that it is there -/
example : CallRun (exX [] .overwrite) (sharedEnv intruder (fun _ => []) fs0) exArchive.root (exShared .overwrite).1.trace .ok ∧
    opens (exShared .overwrite).1.trace = [([ascii "t", ascii "b", ascii "x"], 0)] ∧
    writtenBy 0 (exShared .overwrite).1.trace = ascii "xyz" ∧
    ((sharedState intruder fs0 (exShared .overwrite).1.trace).1.data 0).bytes = ascii "xyz" ∧
    (exShared .overwrite).1.trace.map Prod.fst = [.mkdir [ascii "t"], .mkdir [ascii "t", ascii "a"], .symlink (ascii "../b") [ascii "t", ascii "a", ascii "l"],
      .mkdir [ascii "t", ascii "b"], .openNew [ascii "t", ascii "b", ascii "x"], .openTrunc [ascii "t", ascii "b", ascii "x"],
      .write 0 0 0 (ascii "xyz"), .write 0 0 2 (ascii "z")] := by
  refine ⟨exSharedRun ?_ ?_, ?_, ?_, ?_, ?_⟩ <;> decide +kernel

/-- in mode `skip` it is kept, and the extraction succeeds -/
example : CallRun (exX [] .skip) (sharedEnv intruder (fun _ => []) fs0) exArchive.root (exShared .skip).1.trace .ok ∧
    opens (exShared .skip).1.trace = [] ∧
    ((sharedState intruder fs0 (exShared .skip).1.trace).1.data 0).bytes = ascii "mine" := by
  refine ⟨exSharedRun ?_ ?_, ?_, ?_⟩ <;> decide +kernel

/-- in mode `error` it is kept, and the extraction fails -/
example : CallRun (exX [] .error) (sharedEnv intruder (fun _ => []) fs0) exArchive.root (exShared .error).1.trace (.walk (.op .already)) ∧
    ((sharedState intruder fs0 (exShared .error).1.trace).1.data 0).bytes = ascii "mine" := by
  refine ⟨exSharedRun ?_ ?_, ?_⟩ <;> decide +kernel

/-- the hypotheses of the theorems for this run -/
example : Source exReqs exMap (exX [] .skip).a exArchive.root [] ∧ NoDots (exX [] .skip).base (exMap.sub []) ∧ fs0.WF :=
  ⟨exSource, exNoDots, exT.toWF⟩

/-- the other process of `C69_kept` may do anything but touch the entry: here it creates a file -/
example : fs0.nodes [] = some (.dir 0) ∧ ∀ (t : XTrace) (g g' : FS), g' = intruder t.length g → g.nodes [] = some (.dir 0) →
    EntryKept g g' [] (.dir 0) ∧ g.next ≤ g'.next := by
  refine ⟨rfl, ?_⟩
  rintro t g g' rfl h
  unfold intruder EntryKept
  split
  · exact ⟨⟨by simpa [FS.set, FS.setData] using h, by intro i e; cases e⟩, Nat.le_succ _⟩
  · exact ⟨⟨h, by intro i e; cases e⟩, Nat.le_refl _⟩

/-! ### The decision of mode `newer` is not atomic

The system is asked for the time of what is in the way, and then it is replaced: another process may have put something newer
there in between. (No extraction by path can exclude this; the theorem says only that the time was answered.) -/

/-- the other process creates an old file, and replaces it after the time was read (call 6) -/
def racer (n : Nat) (fs : FS) : FS :=
  if n = 4 then { (fs.set [ascii "t", ascii "b", ascii "x"] (some (.file 0))).setData 0 ⟨ascii "old", 0⟩ with next := 1 }
  else if n = 6 then { (fs.set [ascii "t", ascii "b", ascii "x"] (some (.file 1))).setData 1 ⟨ascii "newest", 9000000000000⟩ with next := 2 }
  else fs

theorem C69_newer_race :
    let r := (exX [] .newer).callExtract (sharedEnv racer (fun _ => []) fs0) 5 exArchive.root finish
    r.2 = .ok ∧ (.modified true [ascii "t", ascii "b", ascii "x"], XAns.time 0) ∈ r.1.trace ∧
    opens r.1.trace = [([ascii "t", ascii "b", ascii "x"], 1)] ∧
    ((sharedState racer fs0 r.1.trace).1.data 1).bytes = ascii "xyz" := by
  refine ⟨?_, ?_, ?_, ?_⟩ <;> decide +kernel

end Arx
