import Verif.Props.SameItems
import Verif.Props.PySame
/-!
# C91: Python programs, and two sources
-/
namespace Arx

theorem python_packed {env : CEnv} {s : Src} (Q : Quiet env s) (W : s.WF) {x : PyAdd} (hF : x.Fair env s) (exc : Bool)
    (hok : ∀ r ∈ (PyCreator.new.run env (pyWith [x] exc true)).1, r = .ok) (hpath : x.path ≠ [])
    (hroot : ∀ k q, InputAt s env.cwd [] x.path k q → ¬ s.Special q)
    {a : Adder} (ha : (PyCreator.new.run env (pyWith [x] exc true)).2.written = [a]) :
    PackedAs a.creator (packBytes a.contents) (SourceItems s env.cwd [] x.recursive x.path) := by
  have hF' : ∀ y ∈ [x], y.Fair env s := by intro y hy; cases List.mem_singleton.mp hy; exact hF
  obtain ⟨b, rs, m, w, h1, h2, h3⟩ := C80_exact Q W hF' exc hok
  rw [ha] at w; cases w
  obtain ⟨l, _, _, t, _⟩ := addsOf_all_ok Q W hF' exc hok ha
  have mk : ∀ z, x.Makes s env.cwd z → TreeMakes s env.cwd [] x.recursive x.path z :=
    fun z h => ⟨h.1, by obtain ⟨u, hu, hr⟩ := h.2; exact ⟨u, hu.2, hr⟩⟩
  refine source_packed W t h1 h2 ⟨?_, ?_, ?_⟩ hroot
  · intro z hz
    refine h3.nothing z fun y hy hm => ?_
    cases List.mem_singleton.mp hy
    exact hz x.path (by simp) (mk z hm)
  · intro A f B u e hu hsp _
    have : A = [] ∧ f = x.path := by
      cases A with
      | nil => simp at e; exact ⟨rfl, e.1.symm⟩
      | cons y A => simp at e
    obtain ⟨rfl, rfl⟩ := this
    exact h3.entry [] x [] u rfl ⟨hpath, hu⟩ hsp (by simp)
  · intro A f B k q z e hin hz _
    have : A = [] ∧ f = x.path := by
      cases A with
      | nil => simp at e; exact ⟨rfl, e.1.symm⟩
      | cons y A => simp at e
    obtain ⟨rfl, rfl⟩ := this
    exact h3.above [] x [] k q z rfl hpath hin hz (by simp)

/-- **C91, Python and tar.** A Python program that adds one path (which is not empty nor leads to a special file), without
exception, and `tar2arx` of a tar archive with the same items, make the same archive. -/
theorem C91_python_tar {env : CEnv} {s : Src} (Q : Quiet env s) (W : s.WF) {x : PyAdd} (hF : x.Fair env s) (exc : Bool)
    (hok : ∀ r ∈ (PyCreator.new.run env (pyWith [x] exc true)).1, r = .ok) (hpath : x.path ≠ [])
    (hroot : ∀ k q, InputAt s env.cwd [] x.path k q → ¬ s.Special q)
    {a : Adder} (ha : (PyCreator.new.run env (pyWith [x] exc true)).2.written = [a])
    {tarFile outfile : Option Bytes} {tsys : ConvSys TarMember} {out : Bytes} {c : Conv}
    (hw : ConvEv.written out c ∈ (tar2arx tarFile outfile tsys).1) {ms : List TarMember}
    (hin : tsys.input (TarInput tarFile) = .ok (ms.map .ok)) (hf : TarMember.FoldersFirst ms)
    (hsame : ∀ y, SourceItems s env.cwd [] x.recursive x.path y ↔ TarItems ms y)
    {order order' : List Nat} (ho : IsLayout a.creator order) (ho' : IsLayout c.creator order')
    (hlen : a.creator.store.length < 2 ^ 32) (hlen' : c.creator.store.length < 2 ^ 32) :
    ReadSame a.creator c.creator order order' (packBytes a.contents) (packBytes c.contents) :=
  (python_packed Q W hF exc hok hpath hroot ha).same (tar_packed (tar_written hw hin) hf) hsame ho ho' hlen hlen'

/-- **C91, Python and zip.** The same for a zip archive. -/
theorem C91_python_zip {env : CEnv} {s : Src} (Q : Quiet env s) (W : s.WF) {x : PyAdd} (hF : x.Fair env s) (exc : Bool)
    (hok : ∀ r ∈ (PyCreator.new.run env (pyWith [x] exc true)).1, r = .ok) (hpath : x.path ≠ [])
    (hroot : ∀ k q, InputAt s env.cwd [] x.path k q → ¬ s.Special q)
    {a : Adder} (ha : (PyCreator.new.run env (pyWith [x] exc true)).2.written = [a])
    {zipFile outfile out : Bytes} {zsys : ConvSys ZipMember} {c : Conv}
    (hw : ConvEv.written out c ∈ (zip2arx zipFile outfile zsys).1) {ms : List ZipMember}
    (hin : zsys.input (some zipFile) = .ok (ms.map .ok)) (hf : ZipMember.FoldersFirst ms)
    (hsame : ∀ y, SourceItems s env.cwd [] x.recursive x.path y ↔ ZipItems ms y)
    {order order' : List Nat} (ho : IsLayout a.creator order) (ho' : IsLayout c.creator order')
    (hlen : a.creator.store.length < 2 ^ 32) (hlen' : c.creator.store.length < 2 ^ 32) :
    ReadSame a.creator c.creator order order' (packBytes a.contents) (packBytes c.contents) :=
  (python_packed Q W hF exc hok hpath hroot ha).same (zip_packed (zip_written hw hin) hf) hsame ho ho' hlen hlen'

/-- a program that adds the directory `d` of `exSrc`, and a tar archive of it with the members in another order -/
example : ReadSame pyOnce.creator srcTarConv.creator tripOrder [0, 3, 1, 2] (packBytes pyOnce.contents) (packBytes srcTarConv.contents) := by
  obtain ⟨N', hN'⟩ := ConvEv.written_of (evs := (tar2arx (some (ascii "d.tar")) none srcTarSys).1) (by decide +kernel)
  refine C91_python_tar (env := exEnv) (s := exSrc) (x := pyAdd "d" true) (c := srcTarConv) (ms := srcTar) exEnv_quiet exSrc_wf
    (pyOnce_fair _ (by simp)) false pyOnce_ok (by decide) ?_ pyOnce_written hN' rfl srcTar_first (fun x => (exSrc_items x).trans (srcTar_items x).symm)
    ⟨by decide +kernel, by decide +kernel⟩ ⟨by decide +kernel, by decide +kernel⟩ (by decide +kernel) (by decide +kernel)
  rintro k q hat ⟨i, h, _⟩
  rw [(exSrc_at hat).2] at h
  cases h


/-- **C91, two creates.** `arx create` of one input in one source and `arx create` of one input in another source (another copy, spelling,
working directory, prefix that is stripped or order of the directories) with the same items make the same archive. -/
theorem C91_create_create {o o' : CreateOpts} {sys sys' : CreateSys} {s s' : Src} {cwd cwd' N N' : List Bytes} {a a' : Adder} {f f' : Bytes}
    (hfl : o.fileList = none) (hone : o.infiles = [f]) (W : s.WF) (hcwd : StartsIn o sys cwd) (Q : Quiet (sys.cenv cwd) s)
    (hcheck : sys.atCheck = s)
    (hwalk : ∀ i, (sys.walks i).src = s ∧ FullListing s (sys.walks i).ls ∧ ∀ q, s.fs.nodes q ≠ none → q.length ≤ (sys.walks i).depth)
    (hroot : ∀ k q, InputAt s cwd (o.stripPrefix.getD []) f k q → ¬ s.Special q)
    (h : CreateEv.written N a ∈ (o.run sys).1)
    (hfl' : o'.fileList = none) (hone' : o'.infiles = [f']) (W' : s'.WF) (hcwd' : StartsIn o' sys' cwd') (Q' : Quiet (sys'.cenv cwd') s')
    (hcheck' : sys'.atCheck = s')
    (hwalk' : ∀ i, (sys'.walks i).src = s' ∧ FullListing s' (sys'.walks i).ls ∧ ∀ q, s'.fs.nodes q ≠ none → q.length ≤ (sys'.walks i).depth)
    (hroot' : ∀ k q, InputAt s' cwd' (o'.stripPrefix.getD []) f' k q → ¬ s'.Special q)
    (h' : CreateEv.written N' a' ∈ (o'.run sys').1)
    (hsame : ∀ x, SourceItems s cwd (o.stripPrefix.getD []) o.recursion f x ↔ SourceItems s' cwd' (o'.stripPrefix.getD []) o'.recursion f' x)
    {order order' : List Nat} (ho : IsLayout a.creator order) (ho' : IsLayout a'.creator order')
    (hlen : a.creator.store.length < 2 ^ 32) (hlen' : a'.creator.store.length < 2 ^ 32) :
    ReadSame a.creator a'.creator order order' (packBytes a.contents) (packBytes a'.contents) :=
  (create_packed hfl hone W hcwd Q hcheck hwalk hroot h).same (create_packed hfl' hone' W' hcwd' Q' hcheck' hwalk' hroot' h') hsame ho ho'
    hlen hlen'

/-- **C91, create and Python.** The same for a program and `arx create`, each with its own source. -/
theorem C91_create_python {o : CreateOpts} {sys : CreateSys} {s : Src} {cwd N : List Bytes} {a : Adder} {f : Bytes}
    (hfl : o.fileList = none) (hone : o.infiles = [f]) (W : s.WF) (hcwd : StartsIn o sys cwd) (Q : Quiet (sys.cenv cwd) s)
    (hcheck : sys.atCheck = s)
    (hwalk : ∀ i, (sys.walks i).src = s ∧ FullListing s (sys.walks i).ls ∧ ∀ q, s.fs.nodes q ≠ none → q.length ≤ (sys.walks i).depth)
    (hroot : ∀ k q, InputAt s cwd (o.stripPrefix.getD []) f k q → ¬ s.Special q)
    (h : CreateEv.written N a ∈ (o.run sys).1)
    {env : CEnv} {s' : Src} (Q' : Quiet env s') (W' : s'.WF) {x : PyAdd} (hF : x.Fair env s') (exc : Bool)
    (hok : ∀ r ∈ (PyCreator.new.run env (pyWith [x] exc true)).1, r = .ok) (hpath : x.path ≠ [])
    (hroot' : ∀ k q, InputAt s' env.cwd [] x.path k q → ¬ s'.Special q)
    {a' : Adder} (ha : (PyCreator.new.run env (pyWith [x] exc true)).2.written = [a'])
    (hsame : ∀ y, SourceItems s cwd (o.stripPrefix.getD []) o.recursion f y ↔ SourceItems s' env.cwd [] x.recursive x.path y)
    {order order' : List Nat} (ho : IsLayout a.creator order) (ho' : IsLayout a'.creator order')
    (hlen : a.creator.store.length < 2 ^ 32) (hlen' : a'.creator.store.length < 2 ^ 32) :
    ReadSame a.creator a'.creator order order' (packBytes a.contents) (packBytes a'.contents) :=
  (create_packed hfl hone W hcwd Q hcheck hwalk hroot h).same (python_packed Q' W' hF exc hok hpath hroot' ha) hsame ho ho' hlen hlen'

/-- **C91, two programs.** Two Python programs, each of which adds one path of its own source, with the same items. -/
theorem C91_python_python {env env' : CEnv} {s s' : Src} (Q : Quiet env s) (W : s.WF) {x x' : PyAdd} (hF : x.Fair env s) (exc exc' : Bool)
    (hok : ∀ r ∈ (PyCreator.new.run env (pyWith [x] exc true)).1, r = .ok) (hpath : x.path ≠ [])
    (hroot : ∀ k q, InputAt s env.cwd [] x.path k q → ¬ s.Special q)
    {a : Adder} (ha : (PyCreator.new.run env (pyWith [x] exc true)).2.written = [a])
    (Q' : Quiet env' s') (W' : s'.WF) (hF' : x'.Fair env' s')
    (hok' : ∀ r ∈ (PyCreator.new.run env' (pyWith [x'] exc' true)).1, r = .ok) (hpath' : x'.path ≠ [])
    (hroot' : ∀ k q, InputAt s' env'.cwd [] x'.path k q → ¬ s'.Special q)
    {a' : Adder} (ha' : (PyCreator.new.run env' (pyWith [x'] exc' true)).2.written = [a'])
    (hsame : ∀ y, SourceItems s env.cwd [] x.recursive x.path y ↔ SourceItems s' env'.cwd [] x'.recursive x'.path y)
    {order order' : List Nat} (ho : IsLayout a.creator order) (ho' : IsLayout a'.creator order')
    (hlen : a.creator.store.length < 2 ^ 32) (hlen' : a'.creator.store.length < 2 ^ 32) :
    ReadSame a.creator a'.creator order order' (packBytes a.contents) (packBytes a'.contents) :=
  (python_packed Q W hF exc hok hpath hroot ha).same (python_packed Q' W' hF' exc' hok' hpath' hroot' ha') hsame ho ho' hlen hlen'

/-- `arx create ./d`, with the directories listed in the other order -/
def dotCreate : CreateOpts := { exCreate with infiles := [ascii "./d"] }
def dotSys : CreateSys := { exSys with walks := fun _ => ⟨exSrc, fun d => (exLs d).reverse, 5, List.replicate 20 true ++ List.replicate 20 false⟩ }
def dotAdder : Adder := ((dotCreate.run dotSys).1.filterMap CreateEv.adder?).headD Adder.new

theorem dot_at {k q : List Bytes} : InputAt exSrc [] [] (ascii "./d") k q ↔ InputAt exSrc [] [] (ascii "d") k q := by
  have e1 : (comps (ascii "./d")).filter (· ≠ CUR) = (comps (ascii "d")).filter (· ≠ CUR) := by decide +kernel
  have e2 : exSrc.fs.resolve true (namesOf [] (ascii "./d")) = exSrc.fs.resolve true (namesOf [] (ascii "d")) := by decide +kernel
  unfold InputAt StoredAs
  rw [e1, e2]

theorem dot_items (x : PackItem) : SourceItems exSrc [] [] true (ascii "./d") x ↔ SourceItems exSrc [] [] true (ascii "d") x := by
  simp only [SourceItems, OffersTree, dot_at]

theorem ex_not_special : ∀ k q, InputAt exSrc [] [] (ascii "d") k q → ¬ exSrc.Special q := by
  rintro k q hat ⟨i, h, _⟩
  rw [(exSrc_at hat).2] at h
  cases h

/-- the hypotheses of `C91_create_create` are met -/
example : ReadSame tripAdder.creator dotAdder.creator tripOrder backOrder (packBytes tripAdder.contents) (packBytes dotAdder.contents) := by
  obtain ⟨N, hN⟩ := tripAdder_written
  have hn : (((dotCreate.run dotSys).1.filterMap CreateEv.adder?).length = 1) := by decide +kernel
  obtain ⟨N', hN'⟩ := CreateEv.written_of (evs := (dotCreate.run dotSys).1) (by intro e; rw [e] at hn; cases hn)
  refine C91_create_create (o := exCreate) (sys := exSys) (s := exSrc) (cwd := []) (o' := dotCreate) (sys' := dotSys) (s' := exSrc) (cwd' := [])
    (a' := dotAdder) rfl rfl exSrc_wf rfl exEnv_quiet rfl exSys_walks ex_not_special hN rfl rfl exSrc_wf rfl exEnv_quiet rfl
    (fun i => ⟨rfl, ?_, (exSys_walks i).2.2⟩) (fun k q hat => ex_not_special k q (dot_at.mp hat)) hN' (fun x => (dot_items x).symm)
    ⟨by decide +kernel, by decide +kernel⟩ ⟨by decide +kernel, by decide +kernel⟩ (by decide +kernel) (by decide +kernel)
  exact exLs_full.reverse

/-- the hypotheses of `C91_create_python` are met: `arx create ./d`, and a program that adds `d` -/
example : ReadSame dotAdder.creator pyOnce.creator backOrder tripOrder (packBytes dotAdder.contents) (packBytes pyOnce.contents) := by
  have hn : (((dotCreate.run dotSys).1.filterMap CreateEv.adder?).length = 1) := by decide +kernel
  obtain ⟨N', hN'⟩ := CreateEv.written_of (evs := (dotCreate.run dotSys).1) (by intro e; rw [e] at hn; cases hn)
  exact C91_create_python (o := dotCreate) (sys := dotSys) (s := exSrc) (cwd := []) (a := dotAdder) (env := exEnv) (s' := exSrc)
    (x := pyAdd "d" true) rfl rfl exSrc_wf rfl exEnv_quiet rfl (fun i => ⟨rfl, exLs_full.reverse, (exSys_walks i).2.2⟩)
    (fun k q hat => ex_not_special k q (dot_at.mp hat)) hN' exEnv_quiet exSrc_wf
    (pyOnce_fair _ (by simp)) false pyOnce_ok (by decide) ex_not_special pyOnce_written dot_items
    ⟨by decide +kernel, by decide +kernel⟩ ⟨by decide +kernel, by decide +kernel⟩ (by decide +kernel) (by decide +kernel)

/-- the hypotheses of `C91_python_python` are met -/
example : ReadSame pyOnce.creator pyTwice.creator tripOrder backOrder (packBytes pyOnce.contents) (packBytes pyTwice.contents) :=
  C91_python_python (env := exEnv) (env' := exEnv) (s := exSrc) (s' := exSrc) (x := pyAdd "d" true) (x' := pyAddBack "d" true)
    exEnv_quiet exSrc_wf (pyOnce_fair _ (by simp)) false false pyOnce_ok (by decide) ex_not_special pyOnce_written
    exEnv_quiet exSrc_wf (pyTwice_fair _ (by simp)) pyTwice_ok (by decide) ex_not_special pyTwice_written (fun _ => Iff.rfl)
    ⟨by decide +kernel, by decide +kernel⟩ ⟨by decide +kernel, by decide +kernel⟩ (by decide +kernel) (by decide +kernel)

end Arx
