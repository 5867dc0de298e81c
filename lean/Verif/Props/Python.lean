import Verif.Model.Python
import Verif.Props.Walk
import Verif.Props.Extract3
import Verif.Props.Adder2
/-!
# C37, C38, C39, C53: the Python module
-/
namespace Arx

/-! ## C37 -/

def PyCall.isEnter : PyCall → Bool
  | .enter => true
  | _ => false

def PyCall.isExit : PyCall → Bool
  | .exit _ _ => true
  | _ => false

/-- What the calls between `__enter__` and `__exit__` do to the archive being made, and how they end: `add`
adds; `__enter__` raises. The last component says whether the archive is lost, by a crash. -/
def addsOf (env : CEnv) (a : Adder) (lost : Bool) : List PyCall → List PyRes × Adder × Bool
  | [] => ([], a, lost)
  | .add p rec r :: xs =>
    let x := if lost then addPoisoned env a p rec r else addFromPath env [] a p rec r
    let y := addsOf env x.1 (lost || (x.2 == .panic && crashPoisons p)) xs
    ((match x.2 with | .ok => .ok | .panic => .panic | _ => .raised) :: y.1, y.2)
  | _ :: xs => let y := addsOf env a lost xs; (.raised :: y.1, y.2)

theorem PyCreator.run_append (env : CEnv) (c : PyCreator) (xs ys : List PyCall) :
    c.run env (xs ++ ys) = ((c.run env xs).1 ++ ((c.run env xs).2.run env ys).1, ((c.run env xs).2.run env ys).2) := by
  induction xs generalizing c with
  | nil => rfl
  | cons x xs ih => simp only [List.cons_append, PyCreator.run, ih]

theorem PyCreator.run_new (env : CEnv) {xs : List PyCall} (h : ∀ x ∈ xs, x.isEnter = false) (a : Adder) (w : List Adder) (b : Bool) :
    PyCreator.run env ⟨false, some a, w, b⟩ xs = (xs.map (fun _ => .raised), ⟨false, some a, w, b⟩) := by
  induction xs with
  | nil => rfl
  | cons x xs ih =>
    have hx := h x (by simp)
    have hstep : PyCreator.step env ⟨false, some a, w, b⟩ x = (.raised, ⟨false, some a, w, b⟩) := by
      cases x with
      | enter => cases hx
      | exit e wk => rfl
      | add p rc r => rfl
    simp only [PyCreator.run, hstep, ih (fun y hy => h y (by simp [hy])), List.map_cons]

theorem PyCreator.run_open (env : CEnv) {xs : List PyCall} (h : ∀ x ∈ xs, x.isExit = false) (a : Adder) (w : List Adder) (b : Bool) :
    PyCreator.run env ⟨true, some a, w, b⟩ xs =
      ((addsOf env a b xs).1, ⟨true, some (addsOf env a b xs).2.1, w, (addsOf env a b xs).2.2⟩) := by
  induction xs generalizing a b with
  | nil => rfl
  | cons x xs ih =>
    have hx := h x (by simp)
    have ih := fun a b => ih (fun y hy => h y (by simp [hy])) a b
    cases x with
    | enter =>
      have hstep : PyCreator.step env ⟨true, some a, w, b⟩ .enter = (.raised, ⟨true, some a, w, b⟩) := rfl
      simp only [PyCreator.run, hstep, ih, addsOf]
    | exit e b => cases hx
    | add p rc r =>
      simp only [PyCreator.run, PyCreator.step, PyCreator.add, Bool.not_true, Bool.false_eq_true, if_false, addsOf]
      cases hr : (if b = true then addPoisoned env a p rc r else addFromPath env [] a p rc r) with
      | mk a' o =>
        have e : ∀ o : AOut, o ≠ .panic → (o == AOut.panic && crashPoisons p) = false := by
          intro o ho
          have : (o == AOut.panic) = false := by simpa using ho
          simp [this]
        cases o <;> simp [ih, e]

theorem PyCreator.run_closed (env : CEnv) (xs : List PyCall) (w : List Adder) (b : Bool) :
    PyCreator.run env ⟨false, none, w, b⟩ xs = (xs.map (fun _ => .raised), ⟨false, none, w, b⟩) := by
  induction xs with
  | nil => rfl
  | cons x xs ih =>
    have hstep : PyCreator.step env ⟨false, none, w, b⟩ x = (.raised, ⟨false, none, w, b⟩) := by
      cases x <;> rfl
    simp only [PyCreator.run, hstep, ih, List.map_cons]

theorem addsOf_length {env : CEnv} : ∀ (xs : List PyCall) (a : Adder) (b : Bool), (addsOf env a b xs).1.length = xs.length := by
  intro xs
  induction xs with
  | nil => intro a b; rfl
  | cons x xs ih => intro a b; cases x <;> simp [addsOf, ih]

/-- A relative UTF-8 path that, apart from `.`, has more than one component. -/
def Inner (p : Bytes) : Prop :=
  p.head? ≠ some SEP ∧ (∀ c ∈ comps p, validUtf8 c = true) ∧ 2 ≤ ((comps p).filter (· ≠ CUR)).length

/-- A call of `add` crashed whose path has more than one component. -/
def Lost (calls : List PyCall) (results : List PyRes) : Prop :=
  ∃ p rc w, (PyCall.add p rc w, PyRes.panic) ∈ calls.zip results ∧ Inner p

theorem crashPoisons_iff (p : Bytes) : crashPoisons p = true ↔ Inner p := by
  unfold crashPoisons Inner
  rw [fromPathBuf_eq]
  by_cases h1 : p.head? = some SEP
  · simp [h1]
  · by_cases h2 : ∀ c ∈ comps p, validUtf8 c = true
    · rw [if_neg h1, if_pos h2]
      simp only
      have hv : ∀ c ∈ (comps p).filter (· ≠ CUR), ValidName c := fun c hc => comps_valid (List.mem_filter.mp hc).1
      have hn : ∀ c ∈ (comps p).filter (· ≠ CUR), c ≠ CUR := fun c hc => by simpa using (List.mem_filter.mp hc).2
      generalize (comps p).filter (· ≠ CUR) = l at hv hn
      have hcur : dropTrailingCur l = l := by
        rcases nil_or_snoc l with rfl | ⟨l', c, rfl⟩
        · rfl
        · exact dropTrailingCur_concat _ (hn c (by simp))
      have key : (match RPath.parent (joinPath l) with | none => false | some q => !(comps q).isEmpty) = true ↔ 2 ≤ l.length := by
        cases hp : RPath.parent (joinPath l) with
        | none =>
          have e := comps_joinPath hv
          rw [parent_eq_none.mp hp, comps_nil] at e
          simp [← e]
        | some q =>
          have e := comps_parent hp
          rw [comps_joinPath hv, hcur] at e
          simp only [e]
          match l with
          | [] => simp
          | [a] => simp
          | a :: b :: l => simp
      exact ⟨fun h => ⟨h1, h2, key.mp h⟩, fun h => key.mpr h.2.2⟩
    · rw [if_neg h1, if_neg h2]
      simp [h2]

theorem addsOf_lost {env : CEnv} : ∀ (xs : List PyCall) (a : Adder) (b : Bool),
    (addsOf env a b xs).2.2 = true ↔ b = true ∨ Lost xs (addsOf env a b xs).1 := by
  intro xs
  induction xs with
  | nil => intro a b; simp [addsOf, Lost]
  | cons x xs ih =>
    intro a b
    have hcons : ∀ (r : PyRes) (rs : List PyRes), Lost (x :: xs) (r :: rs) ↔
        (∃ p rc w, x = .add p rc w ∧ r = .panic ∧ Inner p) ∨ Lost xs rs := by
      intro r rs
      constructor
      · rintro ⟨p, rc, w, hm, hi⟩
        simp only [List.zip_cons_cons, List.mem_cons, Prod.mk.injEq] at hm
        rcases hm with ⟨e1, e2⟩ | hm
        · exact Or.inl ⟨p, rc, w, e1.symm, e2.symm, hi⟩
        · exact Or.inr ⟨p, rc, w, hm, hi⟩
      · rintro (⟨p, rc, w, rfl, rfl, hi⟩ | ⟨p, rc, w, hm, hi⟩)
        · exact ⟨p, rc, w, by simp, hi⟩
        · exact ⟨p, rc, w, by simp [hm], hi⟩
    cases x with
    | enter => simp only [addsOf, ih, hcons]; simp
    | exit e w => simp only [addsOf, ih, hcons]; simp
    | add p rc r =>
      simp only [addsOf, ih, hcons]
      generalize (if b = true then addPoisoned env a p rc r else addFromPath env [] a p rc r) = z
      obtain ⟨a', o⟩ := z
      simp only [Bool.or_eq_true, Bool.and_eq_true, crashPoisons_iff, beq_iff_eq, PyCall.add.injEq, or_assoc]
      refine or_congr_right (or_congr_left ?_)
      constructor
      · rintro ⟨rfl, h⟩
        exact ⟨p, rc, r, ⟨rfl, rfl, rfl⟩, rfl, h⟩
      · rintro ⟨p', rc', w', ⟨rfl, rfl, rfl⟩, h1, h2⟩
        refine ⟨?_, h2⟩
        cases o <;> first | rfl | cases h1

theorem split_first {p : PyCall → Bool} (xs : List PyCall) :
    (∀ x ∈ xs, p x = false) ∨ ∃ l x r, xs = l ++ x :: r ∧ p x = true ∧ ∀ y ∈ l, p y = false := by
  induction xs with
  | nil => left; simp
  | cons x xs ih =>
    cases hx : p x with
    | true => right; exact ⟨[], x, xs, rfl, hx, by simp⟩
    | false =>
      rcases ih with ih | ⟨l, y, r, rfl, h1, h2⟩
      · left; simpa [hx] using ih
      · right; exact ⟨x :: l, y, r, rfl, h1, by simpa [hx] using h2⟩

/-- **C37.** Every history of calls on a `Creator` has one of three forms.
* No `__enter__`: every call raises, nothing is added, nothing is written.
* A first `__enter__` and no `__exit__` after it: the calls before it raise; after it, `add`s add to the
  archive (and report how that went), other `__enter__`s raise; nothing is written.
* A first `__enter__`, then a first `__exit__`: the same up to there; this `__exit__` writes the archive with
  what the `add`s in between have added — whether or not it was given an exception; or, if an `add` of an inner path has
  crashed, it crashes and nothing is written. All later calls raise and nothing more is written.
So an archive is written once at most. -/
theorem C37_life_cycle (env : CEnv) (calls : List PyCall) :
    let r := PyCreator.new.run env calls
    ((∀ x ∈ calls, x.isEnter = false) ∧ r.1 = calls.map (fun _ => .raised) ∧ r.2.written = [] ∧
      r.2.creator = some Adder.new) ∨
    (∃ pre mid, calls = pre ++ .enter :: mid ∧ (∀ x ∈ pre, x.isEnter = false) ∧ (∀ x ∈ mid, x.isExit = false) ∧
      r.1 = pre.map (fun _ => .raised) ++ .ok :: (addsOf env Adder.new false mid).1 ∧ r.2.written = [] ∧
      r.2.creator = some (addsOf env Adder.new false mid).2.1) ∨
    (∃ pre mid exc writeOk post, calls = pre ++ .enter :: mid ++ .exit exc writeOk :: post ∧
      (∀ x ∈ pre, x.isEnter = false) ∧ (∀ x ∈ mid, x.isExit = false) ∧ r.2.creator = none ∧
      (¬ Lost mid (addsOf env Adder.new false mid).1 →
        r.1 = pre.map (fun _ => .raised) ++ .ok :: (addsOf env Adder.new false mid).1 ++
          (if writeOk then .ok else .raised) :: post.map (fun _ => .raised) ∧
        r.2.written = [(addsOf env Adder.new false mid).2.1]) ∧
      (Lost mid (addsOf env Adder.new false mid).1 →
        r.1 = pre.map (fun _ => .raised) ++ .ok :: (addsOf env Adder.new false mid).1 ++ .panic :: post.map (fun _ => .raised) ∧
        r.2.written = [])) := by
  intro r
  rcases split_first (p := PyCall.isEnter) calls with h | ⟨pre, x, rest, hc, hx, hpre⟩
  · left
    have : r = _ := PyCreator.run_new env h Adder.new [] false
    rw [this]
    exact ⟨h, rfl, rfl, rfl⟩
  · right
    cases x with
    | exit e b => cases hx
    | add p rc w => cases hx
    | enter =>
      have hstep : PyCreator.step env ⟨false, some Adder.new, [], false⟩ .enter = (.ok, ⟨true, some Adder.new, [], false⟩) := rfl
      have hr : r = (pre.map (fun _ => .raised) ++ .ok :: (PyCreator.run env ⟨true, some Adder.new, [], false⟩ rest).1,
          (PyCreator.run env ⟨true, some Adder.new, [], false⟩ rest).2) := by
        show PyCreator.run env ⟨false, some Adder.new, [], false⟩ calls = _
        rw [hc, PyCreator.run_append, PyCreator.run_new env hpre]
        simp only [PyCreator.run, hstep]
      rcases split_first (p := PyCall.isExit) rest with h | ⟨mid, y, post, hrest, hy, hmid⟩
      · left
        rw [PyCreator.run_open env h] at hr
        rw [hr]
        exact ⟨pre, rest, hc, hpre, h, rfl, rfl, rfl⟩
      · right
        cases y with
        | enter => cases hy
        | add p rc w => cases hy
        | exit exc wok =>
          refine ⟨pre, mid, exc, wok, post, by rw [hc, hrest]; simp, hpre, hmid, ?_⟩
          have hl := addsOf_lost (env := env) mid Adder.new false
          simp only [Bool.false_eq_true, false_or] at hl
          rw [hrest, PyCreator.run_append, PyCreator.run_open env hmid] at hr
          cases hb : (addsOf env Adder.new false mid).2.2 with
          | false =>
            have hex : PyCreator.step env ⟨true, some (addsOf env Adder.new false mid).2.1, [], false⟩ (.exit exc wok) =
                (if wok then .ok else .raised, ⟨false, none, [(addsOf env Adder.new false mid).2.1], false⟩) := rfl
            simp only [PyCreator.run, hb, hex, PyCreator.run_closed] at hr
            rw [hr]
            refine ⟨rfl, fun _ => ⟨by simp, rfl⟩, fun h => ?_⟩
            rw [← hl, hb] at h; cases h
          | true =>
            have hex : PyCreator.step env ⟨true, some (addsOf env Adder.new false mid).2.1, [], true⟩ (.exit exc wok) =
                (.panic, ⟨false, none, [], true⟩) := rfl
            simp only [PyCreator.run, hb, hex, PyCreator.run_closed] at hr
            rw [hr]
            exact ⟨rfl, fun h => absurd (hl.mp hb) h, fun _ => ⟨by simp, rfl⟩⟩

/-- an `add` too early, a good one, one too late; a second `with` -/
def exPy : List PyCall :=
  let w : WalkRun := ⟨exSrc, exLs, 5, List.replicate 20 true ++ List.replicate 20 false⟩
  [.add (ascii "d") true w, .exit false true, .enter, .enter, .add (ascii "d") true w, .exit true true, .enter, .add (ascii "d") true w,
    .exit false true]

example : (PyCreator.new.run exEnv exPy).1 = [.raised, .raised, .ok, .raised, .ok, .ok, .raised, .raised, .raised] ∧
    (PyCreator.new.run exEnv exPy).2.written.map (fun a => a.creator.store.map (·.name)) ≠ [] := by
  constructor <;> decide +kernel

/-- **C37 is false if an `add` crashes**: after a good `add` and one of `d/..` that crashes (and is caught), the `__exit__`
crashes as well, and what was added is lost. -/
theorem C37_counterexample :
    let w : WalkRun := ⟨exSrc, exLs, 5, List.replicate 20 true ++ List.replicate 20 false⟩
    let r := PyCreator.new.run exEnv [.enter, .add (ascii "d") true w, .add (ascii "d/..") false w, .add (ascii "d/f") true w, .exit false true]
    r.1 = [.ok, .ok, .panic, .panic, .panic] ∧ r.2.written.length = 0 := by
  constructor <;> decide +kernel

/-- a crash of `add("..")` loses nothing -/
example : let w : WalkRun := ⟨exSrc, exLs, 5, List.replicate 20 true ++ List.replicate 20 false⟩
    let r := PyCreator.new.run exEnv [.enter, .add (ascii "d") true w, .add (ascii "..") false w, .add (ascii "d/f") true w, .exit false true]
    r.1 = [.ok, .ok, .panic, .raised, .ok] ∧ r.2.written.length = 1 := by
  constructor <;> decide +kernel

/-! ## C38 -/

/-- **C38.** Whatever is read from a stream and in whatever pieces: each read returns the next bytes, as many as
asked for or as are left; so together they are the beginning of the content; and `tell() + size_left() =
size()` all the time, where `tell()` is the number of bytes read. -/
theorem C38_reads (content : Bytes) (sizes : List Nat) :
    let s0 : PyStream := ⟨content, 0⟩
    let r := s0.reads sizes
    r.1.flatten = content.take sizes.sum ∧ r.1.length = sizes.length ∧
    (∀ i n b, sizes[i]? = some n → r.1[i]? = some b → b.length = min n (content.length - (sizes.take i).sum)) ∧
    r.2.tell = r.1.flatten.length ∧ r.2.tell + r.2.sizeLeft = r.2.size ∧ r.2.size = content.length := by
  have key : ∀ (sizes : List Nat) (o : Nat), o ≤ content.length →
      let r := (PyStream.reads ⟨content, o⟩ sizes)
      r.1.flatten = (content.drop o).take sizes.sum ∧ r.1.length = sizes.length ∧
      (∀ i n b, sizes[i]? = some n → r.1[i]? = some b → b.length = min n (content.length - (o + (sizes.take i).sum))) ∧
      r.2.content = content ∧ r.2.offset = o + r.1.flatten.length ∧ r.2.offset ≤ content.length := by
    intro sizes
    induction sizes with
    | nil => intro o ho; simp [PyStream.reads, ho]
    | cons n ns ih =>
      intro o ho
      obtain ⟨k1, k2, k3, k4, k5, k6⟩ := ih (o + min n (content.length - o)) (by omega)
      simp only [PyStream.reads, PyStream.read, PyStream.sizeLeft]
      have hlen : ((content.drop o).take (min n (content.length - o))).length = min n (content.length - o) := by
        simp
      refine ⟨?_, by simp [k2], ?_, k4, ?_, k6⟩
      · rw [List.flatten_cons, k1, List.sum_cons]
        have : content.drop (o + min n (content.length - o)) = (content.drop o).drop (min n (content.length - o)) := by
          rw [List.drop_drop]
        rw [this, ← List.take_add]
        by_cases hn : n ≤ content.length - o
        · rw [Nat.min_eq_left hn]
        · rw [Nat.min_eq_right (by omega)]
          rw [List.take_of_length_le (by simp), List.take_of_length_le (by simp; omega)]
      · intro i n' b h1 h2
        cases i with
        | zero =>
          simp only [List.getElem?_cons_zero, Option.some.injEq] at h1 h2
          subst h1; subst h2
          rw [hlen]; simp
        | succ i =>
          simp only [List.getElem?_cons_succ] at h1 h2
          rw [k3 i n' b h1 h2]
          simp only [List.take_succ_cons, List.sum_cons]
          by_cases hn : n ≤ content.length - o
          · rw [Nat.min_eq_left hn]; congr 1; omega
          · rw [Nat.min_eq_right (by omega)]
            omega
      · rw [k5, List.flatten_cons, List.length_append, hlen]; omega
  intro s0 r
  obtain ⟨k1, k2, k3, k4, k5, k6⟩ := key sizes 0 (Nat.zero_le _)
  refine ⟨by simpa using k1, k2, fun i n b h1 h2 => by simpa using k3 i n b h1 h2, ?_, ?_, ?_⟩
  · simpa [PyStream.tell] using k5
  · have k4' : r.2.content = content := k4
    have k6' : r.2.offset ≤ content.length := k6
    simp only [PyStream.tell, PyStream.sizeLeft, PyStream.size]
    rw [k4']; omega
  · have k4' : r.2.content = content := k4
    simp only [PyStream.size]; rw [k4']

example : (PyStream.reads ⟨ascii "hello", 0⟩ [2, 0, 10, 1]).1 = [ascii "he", [], ascii "llo", []] := by decide

end Arx
