import Verif.Spec.Calls
import Verif.Proof.HostileExtract
import Verif.Proof.ExtractPlain
/-!
# The calls of an extraction: invariants
-/
namespace Arx

theorem opens_append (s t : XTrace) : opens (s ++ t) = opens s ++ opens t := by
  simp [opens, List.filterMap_append]

theorem writtenBy_append (i : Nat) (s t : XTrace) : writtenBy i (s ++ t) = writtenBy i s ++ writtenBy i t := by
  simp [writtenBy, List.filterMap_append]

theorem Plan.Obeyed.nil (P : Plan) : P.Obeyed [] := by
  intro past c a rest h
  cases past <;> cases h

theorem Plan.Obeyed.snoc {P : Plan} {t : XTrace} {c : XCall} {a : XAns} (h : P.Obeyed t) (hc : P.Allows t c) :
    P.Obeyed (t ++ [(c, a)]) := by
  intro past c' a' rest e
  rcases nil_or_snoc rest with rfl | ⟨r, x, rfl⟩
  · have := List.append_inj' e rfl
    obtain ⟨rfl, h2⟩ := this
    cases h2
    exact hc
  · have e' : t ++ [(c, a)] = (past ++ (c', a') :: r) ++ [x] := by rw [e]; simp
    obtain ⟨rfl, _⟩ := List.append_inj' e' rfl
    exact h _ _ _ _ rfl

/-- the invariant of an extraction -/
structure CInv (P : Plan) (w : CWorld) : Prop where
  obey : P.Obeyed w.trace
  len : w.tasks.length = (opens w.trace).length
  task : ∀ (i : Nat) (t : Task), w.tasks[i]? = some t → ∃ p mt, (opens w.trace)[i]? = some (p, t.ino) ∧ P.file p mt t.bytes ∧
    t.off ≤ t.bytes.length ∧ writtenBy i w.trace = t.bytes.take t.off ∧ (t.st = .done → t.off = t.bytes.length) ∧
    (t.st = .failed → w.okFlag = false)

/-- the walking thread may make this call from now on -/
def Plan.From (P : Plan) (t : XTrace) (c : XCall) : Prop := ∀ t', t <+: t' → P.Allows t' c

theorem Task.slice_next (t : Task) : t.slice = (t.bytes.drop t.off).take 4096 := by
  unfold Task.slice Task.subSize
  rw [List.take_eq_take_iff, List.length_drop]
  omega

theorem writtenBy_write (i j f off k : Nat) (s : Bytes) :
    writtenBy i [(.write j f off s, .wrote k)] = if j = i then s.take k else [] := by
  unfold writtenBy
  by_cases h : j = i <;> simp [h]

theorem CInv.step {P : Plan} {w : CWorld} (h : CInv P w) (x : Nat × WriteRes) :
    CInv P (w.step x) ∧ w.trace <+: (w.step x).trace := by
  unfold CWorld.step
  cases ht : w.tasks[x.1]? with
  | none => exact ⟨h, List.prefix_refl _⟩
  | some t =>
    by_cases hst : t.st ≠ .running
    · simp only; rw [if_pos hst]; exact ⟨h, List.prefix_refl _⟩
    · obtain ⟨p, mt, h1, h2, h3, h4, h5, h6⟩ := h.task _ _ ht
      have hlt : x.1 < w.tasks.length := (List.getElem?_eq_some_iff.mp ht).1
      have hall : P.Allows w.trace (.write x.1 t.ino t.off t.slice) :=
        ⟨p, mt, t.bytes, h2, h1, by rw [h4, List.length_take]; omega, h4, t.slice_next⟩
      simp only
      rw [if_neg hst]
      cases x.2 with
      | err =>
        refine ⟨⟨h.obey.snoc hall, ?_, ?_⟩, List.prefix_append _ _⟩
        · rw [opens_append]; simp [opens]; exact h.len
        · intro i u hu
          rw [opens_append, writtenBy_append]
          have e0 : opens [(XCall.write x.1 t.ino t.off t.slice, XAns.err .other)] = [] := rfl
          have e1 : writtenBy i [(XCall.write x.1 t.ino t.off t.slice, XAns.err .other)] = [] := rfl
          rw [e0, e1, List.append_nil, List.append_nil]
          rw [List.getElem?_set] at hu
          split at hu
          · rename_i hi
            subst hi
            try rw [if_pos hlt] at hu
            cases hu
            exact ⟨p, mt, h1, h2, h3, h4, (fun e => by cases e), fun _ => rfl⟩
          · obtain ⟨p', mt', k1, k2, k3, k4, k5, k6⟩ := h.task _ _ hu
            exact ⟨p', mt', k1, k2, k3, k4, k5, fun _ => rfl⟩
      | wrote k =>
        refine ⟨⟨h.obey.snoc hall, ?_, ?_⟩, List.prefix_append _ _⟩
        · rw [opens_append]; simp [opens]; exact h.len
        · intro i u hu
          rw [opens_append, writtenBy_append]
          have e0 : opens [(XCall.write x.1 t.ino t.off t.slice, XAns.wrote (t.slice.take k).length)] = [] := rfl
          rw [e0, writtenBy_write, List.append_nil]
          rw [List.getElem?_set] at hu
          split at hu
          · rename_i hi
            subst hi
            try rw [if_pos hlt] at hu
            cases hu
            simp only [if_true]
            have hl : (t.slice.take k).length ≤ t.bytes.length - t.off := by
              rw [t.slice_next, List.length_take, List.length_take, List.length_drop]; omega
            refine ⟨p, mt, h1, h2, by show t.off + (t.slice.take k).length ≤ _; omega, ?_, ?_, ?_⟩
            · rw [h4, t.slice_next, List.take_add]
              congr 1
              simp only [List.length_take, List.length_drop, List.take_take]
              rw [List.take_eq_take_iff]
              simp only [List.length_drop]
              omega
            · show (if t.off + (t.slice.take k).length = t.bytes.length then TState.done else .running) = .done → _
              split
              · intro _; assumption
              · intro e; cases e
            · show (if t.off + (t.slice.take k).length = t.bytes.length then TState.done else .running) = .failed → _
              split <;> (intro e; cases e)
          · rename_i hne
            obtain ⟨p', mt', k1, k2, k3, k4, k5, k6⟩ := h.task _ _ hu
            rw [if_neg hne, List.append_nil]
            exact ⟨p', mt', k1, k2, k3, k4, k5, k6⟩

theorem CInv.steps {P : Plan} : ∀ (l : List (Nat × WriteRes)) {w : CWorld}, CInv P w →
    CInv P (w.steps l) ∧ w.trace <+: (w.steps l).trace := by
  intro l
  induction l with
  | nil => intro w h; exact ⟨h, List.prefix_refl _⟩
  | cons x l ih =>
    intro w h
    have h1 := h.step x
    have h2 := ih h1.1
    exact ⟨h2.1, h1.2.trans h2.2⟩

/-- a call that is neither a write nor the successful opening of a file -/
theorem CInv.push {P : Plan} {w : CWorld} (h : CInv P w) {c : XCall} {a : XAns} (hc : P.Allows w.trace c)
    (hw : ∀ i, writtenBy i [(c, a)] = []) (ho : opens [(c, a)] = []) : CInv P { w with trace := w.trace ++ [(c, a)] } := by
  refine ⟨h.obey.snoc hc, ?_, ?_⟩
  · rw [opens_append, ho, List.append_nil]; exact h.len
  · intro i t ht
    simp only [opens_append, writtenBy_append, hw, ho, List.append_nil]
    exact h.task i t ht

theorem CInv.pushOpen {P : Plan} {w : CWorld} (h : CInv P w) {c : XCall} {p : List Bytes} {mt f : Nat} {b : Bytes}
    (hc : P.Allows w.trace c) (ho : opens [(c, .opened f)] = [(p, f)]) (hw : ∀ i, writtenBy i [(c, .opened f)] = [])
    (hf : P.file p mt b) : CInv P (CWorld.spawn { w with trace := w.trace ++ [(c, .opened f)] } f b) := by
  have hempty : ∀ (i : Nat) (t : XTrace), P.Obeyed t → (opens t).length ≤ i → writtenBy i t = [] := by
    intro i t
    generalize hn : t.length = n
    induction n generalizing t with
    | zero => intro _ _; rw [List.length_eq_zero_iff.mp hn]; rfl
    | succ n ih =>
      intro ho hl
      rcases nil_or_snoc t with rfl | ⟨t, ⟨c, a⟩, rfl⟩
      · rfl
      have ih := ih t (by simpa using hn)
      have ho' : P.Obeyed t := by
        intro past c' a' rest e
        exact ho past c' a' (rest ++ [(c, a)]) (by rw [e]; simp)
      have hlt : (opens t).length ≤ i := by
        rw [opens_append, List.length_append] at hl; omega
      rw [writtenBy_append, ih ho' hlt, List.nil_append]
      cases c with
      | write j f off s =>
        obtain ⟨p, mt, b, _, h1, _⟩ := ho t _ _ [] rfl
        have hj : j < (opens t).length := (List.getElem?_eq_some_iff.mp h1).1
        cases a with
        | wrote k => rw [writtenBy_write, if_neg (by omega)]
        | _ => rfl
      | _ => cases a <;> rfl
  unfold CWorld.spawn
  refine ⟨h.obey.snoc hc, ?_, ?_⟩
  · simp only [opens_append, ho, List.length_append, h.len, List.length_singleton]
  · intro i t ht
    simp only [opens_append, writtenBy_append, hw, ho, List.append_nil] at ht ⊢
    by_cases hi : i < w.tasks.length
    · rw [List.getElem?_append_left hi] at ht
      obtain ⟨p', mt', k1, k2, k3, k4, k5, k6⟩ := h.task _ _ ht
      refine ⟨p', mt', ?_, k2, k3, k4, k5, k6⟩
      rw [List.getElem?_append_left (by rw [← h.len]; exact hi)]
      exact k1
    · have hi' : i = w.tasks.length := by
        have := (List.getElem?_eq_some_iff.mp ht).1
        simp at this
        omega
      subst hi'
      rw [List.getElem?_append_right (Nat.le_refl _)] at ht
      simp at ht
      subst ht
      refine ⟨p, mt, ?_, hf, Nat.zero_le _, ?_, (fun e => by cases e), (fun e => by cases e)⟩
      · rw [h.len, List.getElem?_append_right (Nat.le_refl _)]
        simp
      · rw [hempty _ _ h.obey (by rw [h.len]; exact Nat.le_refl _)]
        simp

/-- not an opening or write -/
def XCall.plain : XCall → Bool
  | .openNew _ | .openTrunc _ | .write _ _ _ _ => false
  | _ => true

theorem XCall.plain_opens {c : XCall} (h : c.plain = true) (a : XAns) : opens [(c, a)] = [] ∧ ∀ i, writtenBy i [(c, a)] = [] := by
  cases c <;> first | (cases h; done) | (cases a <;> exact ⟨rfl, fun _ => rfl⟩)

section
variable {P : Plan} {env : CallEnv}

theorem CInv.call {w : CWorld} (h : CInv P w) {c : XCall} (hc : P.From w.trace c) (hp : c.plain = true) :
    CInv P (w.call env c).1 ∧ w.trace <+: (w.call env c).1.trace ∧ (c, (w.call env c).2) ∈ (w.call env c).1.trace := by
  unfold CWorld.call
  have h1 := CInv.steps (env.sched w.trace) h
  obtain ⟨e1, e2⟩ := XCall.plain_opens hp (env.answer (w.steps (env.sched w.trace)).trace c)
  exact ⟨h1.1.push (hc _ h1.2) e2 e1, h1.2.trans (List.prefix_append _ _), by simp⟩

theorem CInv.callUnit {w : CWorld} (h : CInv P w) {c : XCall} (hc : P.From w.trace c) (hp : c.plain = true) :
    CInv P (w.callUnit env c).1 ∧ w.trace <+: (w.callUnit env c).1.trace ∧
    ((w.callUnit env c).2 = .ok () → (c, XAns.done) ∈ (w.callUnit env c).1.trace) ∧
    ((w.callUnit env c).2 = .error .exists → (c, XAns.err .exists) ∈ (w.callUnit env c).1.trace) := by
  have := h.call (env := env) hc hp
  unfold CWorld.callUnit
  revert this
  cases w.call env c with
  | mk w' a =>
    rintro ⟨h1, h2, h3⟩
    cases a <;> refine ⟨h1, h2, ?_, ?_⟩ <;> intro e <;> cases e <;> exact h3

theorem CInv.callTime {w : CWorld} (h : CInv P w) {c : XCall} (hc : P.From w.trace c) (hp : c.plain = true) :
    CInv P (w.callTime env c).1 ∧ w.trace <+: (w.callTime env c).1.trace ∧
    (∀ t, (w.callTime env c).2 = .ok t → (c, XAns.time t) ∈ (w.callTime env c).1.trace) := by
  have := h.call (env := env) hc hp
  unfold CWorld.callTime
  revert this
  cases w.call env c with
  | mk w' a =>
    rintro ⟨h1, h2, h3⟩
    cases a <;> refine ⟨h1, h2, ?_⟩ <;> intro t e <;> cases e <;> exact h3

theorem CInv.callIsDir {w : CWorld} (h : CInv P w) {p : List Bytes} (hc : P.dir p) :
    CInv P (w.callIsDir env p).1 ∧ w.trace <+: (w.callIsDir env p).1.trace ∧
    ((w.callIsDir env p).2 = true → (XCall.isDir p, XAns.bool true) ∈ (w.callIsDir env p).1.trace) := by
  have := h.call (env := env) (c := .isDir p) (fun _ _ => hc) rfl
  unfold CWorld.callIsDir
  revert this
  cases w.call env (.isDir p) with
  | mk w' a =>
    rintro ⟨h1, h2, h3⟩
    cases a <;> refine ⟨h1, h2, ?_⟩ <;> intro e <;> first | (cases e; done) | (simp only at e; subst e; exact h3)

/-- opening a file, with the writer that is spawned if it succeeds -/
theorem CInv.callOpen {w : CWorld} (h : CInv P w) {c : XCall} {p : List Bytes} (hcp : c = .openNew p ∨ c = .openTrunc p)
    (hc : P.From w.trace c) {mt : Nat} {b : Bytes} (hf : P.file p mt b) :
    match w.callOpen env c with
    | (w', .ok f) => CInv P (w'.spawn f b) ∧ w.trace <+: (w'.spawn f b).trace ∧ (p, f) ∈ opens (w'.spawn f b).trace
    | (w', .error e) => CInv P w' ∧ w.trace <+: w'.trace ∧ (e = .exists → (c, XAns.err .exists) ∈ w'.trace) := by
  have h1 := CInv.steps (env.sched w.trace) h
  unfold CWorld.callOpen CWorld.call
  simp only
  have hopen : ∀ f, opens [(c, .opened f)] = [(p, f)] := by rcases hcp with rfl | rfl <;> intro f <;> rfl
  have hno : ∀ a, (∀ f, a ≠ .opened f) → opens [(c, a)] = [] := by
    rcases hcp with rfl | rfl <;> intro a ha <;> cases a <;> first | rfl | exact absurd rfl (ha _)
  have hw : ∀ a i, writtenBy i [(c, a)] = [] := by rcases hcp with rfl | rfl <;> intro a i <;> cases a <;> rfl
  generalize ha : env.answer (w.steps (env.sched w.trace)).trace c = a
  have hpre := h1.2.trans (List.prefix_append (w.steps (env.sched w.trace)).trace [(c, a)])
  cases a with
  | opened f =>
    refine ⟨h1.1.pushOpen (hc _ h1.2) (hopen f) (hw _) hf, hpre, ?_⟩
    simp [CWorld.spawn, opens_append, hopen]
  | err e =>
    refine ⟨h1.1.push (hc _ h1.2) (hw _) (hno _ (by intro f e; cases e)), hpre, ?_⟩
    rintro rfl; simp
  | done => exact ⟨h1.1.push (hc _ h1.2) (hw _) (hno _ (by intro f e; cases e)), hpre, (by intro e; cases e)⟩
  | bool _ => exact ⟨h1.1.push (hc _ h1.2) (hw _) (hno _ (by intro f e; cases e)), hpre, (by intro e; cases e)⟩
  | time _ => exact ⟨h1.1.push (hc _ h1.2) (hw _) (hno _ (by intro f e; cases e)), hpre, (by intro e; cases e)⟩
  | wrote _ => exact ⟨h1.1.push (hc _ h1.2) (hw _) (hno _ (by intro f e; cases e)), hpre, (by intro e; cases e)⟩

/-- after `create_dir_all` of a directory that may be made, with all directories above it -/
theorem CInv.createDirAll (hup : ∀ p, P.dir p → P.dir (parentOf p)) : ∀ (n : Nat) {w : CWorld} {p : List Bytes}, CInv P w → P.dir p →
    CInv P (CWorld.createDirAll env n w p).1 ∧ w.trace <+: (CWorld.createDirAll env n w p).1.trace ∧
    ((CWorld.createDirAll env n w p).2 = .ok () → (XCall.mkdir p, XAns.done) ∈ (CWorld.createDirAll env n w p).1.trace ∨
      (XCall.isDir p, XAns.bool true) ∈ (CWorld.createDirAll env n w p).1.trace) := by
  intro n
  induction n with
  | zero => intro w p h _; exact ⟨h, List.prefix_refl _, by intro e; cases e⟩
  | succ n ih =>
    intro w p h hp
    have hcheck : ∀ {w' : CWorld} {e : HErr}, CInv P w' → w.trace <+: w'.trace →
        let r := (match w'.callIsDir env p with
          | (w, true) => (w, .ok ())
          | (w, false) => (w, .error e) : CWorld × Except HErr Unit)
        CInv P r.1 ∧ w.trace <+: r.1.trace ∧ (r.2 = .ok () → (XCall.mkdir p, XAns.done) ∈ r.1.trace ∨
          (XCall.isDir p, XAns.bool true) ∈ r.1.trace) := by
      intro w' e hw' hpre
      have := hw'.callIsDir (env := env) hp
      revert this
      cases w'.callIsDir env p with
      | mk w2 b =>
        rintro ⟨h1, h2, h3⟩
        cases b with
        | true => exact ⟨h1, hpre.trans h2, fun _ => .inr (h3 rfl)⟩
        | false => exact ⟨h1, hpre.trans h2, by intro e; cases e⟩
    have h1 := h.callUnit (env := env) (c := .mkdir p) (fun _ _ => hp) rfl
    simp only [CWorld.createDirAll]
    revert h1
    cases w.callUnit env (.mkdir p) with
    | mk w1 r1 =>
      rintro ⟨h1, h2, h3, _⟩
      cases r1 with
      | ok u => exact ⟨h1, h2, fun _ => .inl (h3 rfl)⟩
      | error e =>
        cases e with
        | notFound =>
          simp only
          by_cases hnil : p = []
          · rw [if_pos hnil]; exact ⟨h1, h2, by intro e; cases e⟩
          · rw [if_neg hnil]
            have h4 := ih h1 (hup p hp)
            revert h4
            cases CWorld.createDirAll env n w1 (parentOf p) with
            | mk w2 r2 =>
              rintro ⟨h4, h5, _⟩
              cases r2 with
              | error e => exact ⟨h4, h2.trans h5, by intro e; cases e⟩
              | ok u =>
                simp only
                have h6 := h4.callUnit (env := env) (c := .mkdir p) (fun _ _ => hp) rfl
                revert h6
                cases w2.callUnit env (.mkdir p) with
                | mk w3 r3 =>
                  rintro ⟨h6, h7, h8, _⟩
                  cases r3 with
                  | ok u => exact ⟨h6, (h2.trans h5).trans h7, fun _ => .inl (h8 rfl)⟩
                  | error e => exact hcheck h6 ((h2.trans h5).trans h7)
        | _ => exact hcheck h1 h2

theorem CInv.mkdirs (hup : ∀ p, P.dir p → P.dir (parentOf p)) {w : CWorld} {p : List Bytes} (h : CInv P w) (hp : P.dir p) :
    CInv P (w.mkdirs env p).1 ∧ w.trace <+: (w.mkdirs env p).1.trace ∧
    ((w.mkdirs env p).2 = .ok () → (XCall.mkdir p, XAns.done) ∈ (w.mkdirs env p).1.trace ∨
      (XCall.isDir p, XAns.bool true) ∈ (w.mkdirs env p).1.trace) := by
  have := CInv.createDirAll (env := env) hup (p.length + 1) h hp
  unfold CWorld.mkdirs
  revert this
  cases CWorld.createDirAll env (p.length + 1) w p with
  | mk w' r =>
    rintro ⟨h1, h2, h3⟩
    cases r with
    | ok u => exact ⟨h1, h2, fun _ => h3 rfl⟩
    | error e => exact ⟨h1, h2, by intro e; cases e⟩

/-- what an extraction of a file to `p` that returns Ok has been told -/
def KeptBy (mode : Overwrite) (t : XTrace) (follow : Bool) (p : List Bytes) (mt : Nat) : Prop :=
  mode = .skip ∨ mode = .warn ∨
    (mode = .newer ∧ ∃ x, (XCall.modified follow p, XAns.time x) ∈ t ∧ (mt : Int) * 1000000000 < x)

theorem mem_of_prefix {α : Type} {x : α} {s t : List α} (h : s <+: t) (hx : x ∈ s) : x ∈ t := h.subset hx

theorem CInv.writeFile {w : CWorld} (h : CInv P w) {p : List Bytes} {mt : Nat} {b : Bytes} (hf : P.file p mt b) :
    let r := w.writeFile env P.mode p mt b
    CInv P r.1 ∧ w.trace <+: r.1.trace ∧
    (r.2 = .ok () → (∃ f, (p, f) ∈ opens r.1.trace) ∨ ((XCall.openNew p, XAns.err .exists) ∈ r.1.trace ∧ KeptBy P.mode r.1.trace true p mt)) := by
  have hreopen : ∀ {w' : CWorld}, CInv P w' → w.trace <+: w'.trace → (XCall.openNew p, XAns.err .exists) ∈ w'.trace →
      P.MayReplace w'.trace true p mt →
      let r := (match w'.callOpen env (.openTrunc p) with
        | (w, .error e) => (w, .error (.host e))
        | (w, .ok f) => (w.spawn f b, .ok ()) : CWorld × Except EErr Unit)
      CInv P r.1 ∧ w.trace <+: r.1.trace ∧ (r.2 = .ok () → (∃ f, (p, f) ∈ opens r.1.trace) ∨
        ((XCall.openNew p, XAns.err .exists) ∈ r.1.trace ∧ KeptBy P.mode r.1.trace true p mt)) := by
    intro w' hw' hpre hex hmay
    have := hw'.callOpen (env := env) (c := .openTrunc p) (.inr rfl) (fun t' ht' => ⟨mt, b, hf, mem_of_prefix ht' hex, by
      rcases hmay with h | ⟨h, t, h1, h2⟩
      · exact .inl h
      · exact .inr ⟨h, t, mem_of_prefix ht' h1, h2⟩⟩) hf
    revert this
    cases w'.callOpen env (.openTrunc p) with
    | mk w2 r2 =>
      cases r2 with
      | ok f => rintro ⟨h1, h2, h3⟩; exact ⟨h1, hpre.trans h2, fun _ => .inl ⟨f, h3⟩⟩
      | error e => rintro ⟨h1, h2, _⟩; exact ⟨h1, hpre.trans h2, by intro e; cases e⟩
  have h1 := h.callOpen (env := env) (c := .openNew p) (.inl rfl) (fun _ _ => ⟨mt, b, hf⟩) hf
  unfold CWorld.writeFile
  revert h1
  cases w.callOpen env (.openNew p) with
  | mk w1 r1 =>
    cases r1 with
    | ok f => rintro ⟨h1, h2, h3⟩; exact ⟨h1, h2, fun _ => .inl ⟨f, h3⟩⟩
    | error e =>
      rintro ⟨h1, h2, h3⟩
      cases e with
      | «exists» =>
        have hex := h3 rfl
        cases hm : P.mode with
        | skip => exact ⟨h1, h2, fun _ => .inr ⟨hex, .inl rfl⟩⟩
        | warn => exact ⟨h1, h2, fun _ => .inr ⟨hex, .inr (.inl rfl)⟩⟩
        | error => exact ⟨h1, h2, by intro e; cases e⟩
        | overwrite =>
          have := hreopen h1 h2 hex (.inl hm)
          rw [hm] at this
          exact this
        | newer =>
          have h4 := h1.callTime (env := env) (c := .modified true p) (fun t' ht' => ⟨mt, b, hf, hm, mem_of_prefix ht' hex⟩) rfl
          simp only
          revert h4
          cases w1.callTime env (.modified true p) with
          | mk w2 r2 =>
            rintro ⟨h4, h5, h6⟩
            cases r2 with
            | error e => exact ⟨h4, h2.trans h5, by intro e; cases e⟩
            | ok t =>
              simp only
              unfold newTime
              by_cases hlt : mt < 2 ^ 63
              · rw [if_pos hlt]
                simp only
                by_cases hge : (mt : Int) * 1000000000 ≥ t
                · rw [if_pos hge]
                  have := hreopen h4 (h2.trans h5) (mem_of_prefix h5 hex) (.inr ⟨hm, t, h6 t rfl, hge⟩)
                  rw [hm] at this
                  exact this
                · rw [if_neg hge]
                  exact ⟨h4, h2.trans h5, fun _ => .inr ⟨mem_of_prefix h5 hex, .inr (.inr ⟨rfl, t, h6 t rfl, by omega⟩)⟩⟩
              · rw [if_neg hlt]
                exact ⟨h4, h2.trans h5, by intro e; cases e⟩
      | _ => exact ⟨h1, h2, by intro e; cases e⟩

theorem CInv.writeLink {w : CWorld} (h : CInv P w) {p : List Bytes} {mt : Nat} {t : Bytes} (hf : P.link p mt t) :
    let r := w.writeLink env P.mode p mt t
    CInv P r.1 ∧ w.trace <+: r.1.trace ∧
    (r.2 = .ok () → (XCall.symlink t p, XAns.done) ∈ r.1.trace ∨ ((XCall.symlink t p, XAns.err .exists) ∈ r.1.trace ∧ KeptBy P.mode r.1.trace false p mt)) := by
  have hreplace : ∀ {w' : CWorld}, CInv P w' → w.trace <+: w'.trace → (XCall.symlink t p, XAns.err .exists) ∈ w'.trace →
      P.MayReplace w'.trace false p mt →
      let r := (match w'.callUnit env (.unlink p) with
        | (w, .error e) => (w, .error (.host e))
        | (w, .ok ()) =>
          match w.callUnit env (.symlink t p) with
          | (w, .error e) => (w, .error (.host e))
          | (w, .ok ()) => (w, .ok ()) : CWorld × Except EErr Unit)
      CInv P r.1 ∧ w.trace <+: r.1.trace ∧ (r.2 = .ok () → (XCall.symlink t p, XAns.done) ∈ r.1.trace ∨
        ((XCall.symlink t p, XAns.err .exists) ∈ r.1.trace ∧ KeptBy P.mode r.1.trace false p mt)) := by
    intro w' hw' hpre hex hmay
    have := hw'.callUnit (env := env) (c := .unlink p) (fun t' ht' => ⟨mt, t, hf, mem_of_prefix ht' hex, by
      rcases hmay with h | ⟨h, x, h1, h2⟩
      · exact .inl h
      · exact .inr ⟨h, x, mem_of_prefix ht' h1, h2⟩⟩) rfl
    revert this
    cases w'.callUnit env (.unlink p) with
    | mk w2 r2 =>
      rintro ⟨h1, h2, _, _⟩
      cases r2 with
      | error e => exact ⟨h1, hpre.trans h2, by intro e; cases e⟩
      | ok u =>
        simp only
        have := h1.callUnit (env := env) (c := .symlink t p) (fun _ _ => ⟨mt, hf⟩) rfl
        revert this
        cases w2.callUnit env (.symlink t p) with
        | mk w3 r3 =>
          rintro ⟨h4, h5, h6, _⟩
          cases r3 with
          | error e => exact ⟨h4, (hpre.trans h2).trans h5, by intro e; cases e⟩
          | ok u => exact ⟨h4, (hpre.trans h2).trans h5, fun _ => .inl (h6 rfl)⟩
  have h1 := h.callUnit (env := env) (c := .symlink t p) (fun _ _ => ⟨mt, hf⟩) rfl
  unfold CWorld.writeLink
  revert h1
  cases w.callUnit env (.symlink t p) with
  | mk w1 r1 =>
    rintro ⟨h1, h2, hd, h3⟩
    cases r1 with
    | ok u => exact ⟨h1, h2, fun _ => .inl (hd rfl)⟩
    | error e =>
      cases e with
      | «exists» =>
        have hex := h3 rfl
        cases hm : P.mode with
        | skip => exact ⟨h1, h2, fun _ => .inr ⟨hex, .inl rfl⟩⟩
        | warn => exact ⟨h1, h2, fun _ => .inr ⟨hex, .inr (.inl rfl)⟩⟩
        | error => exact ⟨h1, h2, by intro e; cases e⟩
        | overwrite =>
          have := hreplace h1 h2 hex (.inl hm)
          rw [hm] at this
          exact this
        | newer =>
          have h4 := h1.callTime (env := env) (c := .modified false p) (fun t' ht' => ⟨mt, t, hf, hm, mem_of_prefix ht' hex⟩) rfl
          simp only
          revert h4
          cases w1.callTime env (.modified false p) with
          | mk w2 r2 =>
            rintro ⟨h4, h5, h6⟩
            cases r2 with
            | error e => exact ⟨h4, h2.trans h5, by intro e; cases e⟩
            | ok x =>
              simp only
              unfold newTime
              by_cases hlt : mt < 2 ^ 63
              · rw [if_pos hlt]
                simp only
                by_cases hge : (mt : Int) * 1000000000 ≥ x
                · rw [if_pos hge]
                  have := hreplace h4 (h2.trans h5) (mem_of_prefix h5 hex) (.inr ⟨hm, x, h6 x rfl, hge⟩)
                  rw [hm] at this
                  exact this
                · rw [if_neg hge]
                  exact ⟨h4, h2.trans h5, fun _ => .inr ⟨mem_of_prefix h5 hex, .inr (.inr ⟨rfl, x, h6 x rfl, by omega⟩)⟩⟩
              · rw [if_neg hlt]
                exact ⟨h4, h2.trans h5, by intro e; cases e⟩
      | _ => exact ⟨h1, h2, by intro e; cases e⟩

end

theorem CInv.start (P : Plan) : CInv P ⟨[], [], true⟩ :=
  ⟨Plan.Obeyed.nil P, rfl, by intro i t h; cases h⟩

/-- what the invariant says about the writers -/
theorem CInv.written {P : Plan} {w : CWorld} (h : CInv P w) {ok : Prop} (hok : ok → w.okFlag = true ∧ w.finished) :
    P.Written w.trace ok := by
  intro i p f hi
  have hlt : i < w.tasks.length := by rw [h.len]; exact (List.getElem?_eq_some_iff.mp hi).1
  obtain ⟨p', mt, k1, k2, k3, k4, k5, k6⟩ := h.task i _ (List.getElem?_eq_getElem hlt)
  rw [hi] at k1
  cases k1
  refine ⟨mt, _, k2, by rw [k4]; exact List.take_prefix _ _, fun hk => ?_⟩
  obtain ⟨o1, o2⟩ := hok hk
  have hst := o2 _ (List.getElem_mem hlt)
  cases hs : w.tasks[i].st with
  | running => exact absurd hs hst
  | failed => rw [k6 hs] at o1; cases o1
  | done => rw [k4, k5 hs, List.take_length]

end Arx
