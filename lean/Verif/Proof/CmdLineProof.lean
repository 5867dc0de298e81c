import Verif.Spec.CmdLine
/-!
# Proofs: command lines
-/
namespace Arx

/-- The table is well formed: no subcommands, no argument with an optional value, names used once. -/
structure CmdDef.WF (c : CmdDef) : Prop where
  subs : c.subs = []
  takes : ∀ o ∈ c.opts, o.takes ≠ .maybe
  long : ∀ o ∈ c.opts, ∀ n, o.long = some n → n ≠ [] ∧ (61 : UInt8) ∉ n
  short : ∀ o ∈ c.opts, o.short ≠ some 45
  longs : ∀ o ∈ c.opts, ∀ o' ∈ c.opts, o.long ≠ none → o.long = o'.long → o = o'
  shorts : ∀ o ∈ c.opts, ∀ o' ∈ c.opts, o.short ≠ none → o.short = o'.short → o = o'
  args : ∀ o ∈ c.opts, ∀ o' ∈ c.opts, o.arg = o'.arg → o = o'

theorem isPlain_iff (w : Bytes) : isPlain w = true ↔ Plain w := by
  unfold isPlain Plain
  simp [bne_iff_ne]

theorem splitEq_no {n : Bytes} (h : (61 : UInt8) ∉ n) : splitEq n = (n, none) := by
  induction n with
  | nil => rfl
  | cons x t ih =>
    have h1 : x ≠ 61 := fun e => h (by simp [e])
    have h2 := ih (fun e => h (by simp [e]))
    simp only [splitEq, if_neg h1, h2]

theorem splitEq_is {n v : Bytes} (h : (61 : UInt8) ∉ n) : splitEq (n ++ 61 :: v) = (n, some v) := by
  induction n with
  | nil => rfl
  | cons x t ih =>
    have h1 : x ≠ 61 := fun e => h (by simp [e])
    have h2 := ih (fun e => h (by simp [e]))
    simp only [List.cons_append, splitEq, if_neg h1, h2]

theorem splitEq_spec (t : Bytes) : (61 : UInt8) ∉ (splitEq t).1 ∧
    (((splitEq t).2 = none ∧ t = (splitEq t).1) ∨ ∃ v, (splitEq t).2 = some v ∧ t = (splitEq t).1 ++ 61 :: v) := by
  induction t with
  | nil => exact ⟨by simp [splitEq], Or.inl ⟨rfl, rfl⟩⟩
  | cons x t ih =>
    by_cases hx : x = 61
    · subst hx; exact ⟨by simp [splitEq], Or.inr ⟨t, by simp [splitEq], by simp [splitEq]⟩⟩
    · obtain ⟨h1, h2⟩ := ih
      refine ⟨by simp [splitEq, hx, h1, Ne.symm hx], ?_⟩
      rcases h2 with ⟨h2, h3⟩ | ⟨v, h2, h3⟩
      · left; simp only [splitEq, if_neg hx]; exact ⟨h2, by rw [← h3]⟩
      · right; refine ⟨v, by simp only [splitEq, if_neg hx]; exact h2, ?_⟩
        simp only [splitEq, if_neg hx, List.cons_append]; rw [← h3]

section
variable {c : CmdDef} (W : c.WF)
include W

theorem CmdDef.WF.byLong_some {n : Bytes} {o : OptDef} : c.byLong n = some o ↔ o ∈ c.opts ∧ o.long = some n := by
  unfold CmdDef.byLong
  constructor
  · intro h
    exact ⟨List.mem_of_find?_eq_some h, by simpa using List.find?_some h⟩
  · rintro ⟨h1, h2⟩
    cases hf : c.opts.find? (fun o => decide (o.long = some n)) with
    | none => exact absurd (by simpa using h2) (by simpa using List.find?_eq_none.mp hf o h1)
    | some o' =>
      have g1 := List.mem_of_find?_eq_some hf
      have g2 : o'.long = some n := by simpa using List.find?_some hf
      rw [W.longs o' g1 o h1 (by rw [g2]; simp) (by rw [g2, h2])]

theorem CmdDef.WF.byShort_some {x : UInt8} {o : OptDef} : c.byShort x = some o ↔ o ∈ c.opts ∧ o.short = some x := by
  unfold CmdDef.byShort
  constructor
  · intro h
    exact ⟨List.mem_of_find?_eq_some h, by simpa using List.find?_some h⟩
  · rintro ⟨h1, h2⟩
    cases hf : c.opts.find? (fun o => decide (o.short = some x)) with
    | none => exact absurd (by simpa using h2) (by simpa using List.find?_eq_none.mp hf o h1)
    | some o' =>
      have g1 := List.mem_of_find?_eq_some hf
      have g2 : o'.short = some x := by simpa using List.find?_some hf
      rw [W.shorts o' g1 o h1 (by rw [g2]; simp) (by rw [g2, h2])]

omit W in
/-- The checks of the loop on one use. -/
def CmdDef.okUse (c : CmdDef) (acc : List Use) : Use → Prop
  | .flag a => ∃ o ∈ c.opts, o.arg = a ∧ o.again acc = true
  | .value a v => ∃ o ∈ c.opts, o.arg = a ∧ o.fits acc v = true
  | .word w => c.wordFits acc w = true

omit W in
def CmdDef.okFrom (c : CmdDef) : List Use → List Use → Prop
  | _, [] => True
  | acc, u :: us => c.okUse acc u ∧ c.okFrom (acc ++ [u]) us

omit W in
theorem CmdDef.okFrom_append {acc us us' : List Use} : c.okFrom acc (us ++ us') ↔ c.okFrom acc us ∧ c.okFrom (acc ++ us) us' := by
  induction us generalizing acc with
  | nil => simp [CmdDef.okFrom]
  | cons u us ih => simp only [List.cons_append, CmdDef.okFrom, ih, List.append_assoc, and_assoc, List.singleton_append, List.nil_append]

theorem CmdDef.WF.again_of {o : OptDef} {acc : List Use} (ho : o ∈ c.opts) (h : c.okUse acc (.flag o.arg)) : o.again acc = true := by
  obtain ⟨o', h1, h2, h3⟩ := h
  rw [← W.args o' h1 o ho h2]; exact h3

theorem CmdDef.WF.fits_of {o : OptDef} {acc : List Use} {v : Bytes} (ho : o ∈ c.opts) (h : c.okUse acc (.value o.arg v)) :
    o.fits acc v = true := by
  obtain ⟨o', h1, h2, h3⟩ := h
  rw [← W.args o' h1 o ho h2]; exact h3

/-! ## Letters -/

theorem Letters.shorts {xs : Bytes} {us : List Use} (h : Letters c xs us) {acc : List Use} (hok : c.okFrom acc us) (t : Bytes) :
    c.shorts acc (xs ++ t) = c.shorts (acc ++ us) t := by
  induction h generalizing acc with
  | nil => simp
  | @cons o x xs us ho hx hb _ ih =>
    have h1 : c.byShort x = some o := W.byShort_some.mpr ⟨ho, hx⟩
    have h2 := W.again_of ho hok.1
    have h3 := ih hok.2
    simp only [List.cons_append]
    rw [CmdDef.shorts, h1]
    rcases hb with hb | hb <;> simp only [hb, h2, if_true] <;> rw [h3, List.append_assoc] <;> rfl

omit W in
theorem Letters.ne_dash (W : c.WF) {xs : Bytes} {us : List Use} (h : Letters c xs us) : xs.head? ≠ some 45 := by
  cases h with
  | nil => simp
  | cons ho hx _ _ =>
    intro e
    simp only [List.head?_cons, Option.some.injEq] at e
    exact W.short _ ho (by rw [hx, e])

/-- A cluster of letters, read. -/
inductive ReadsAs (c : CmdDef) (acc : List Use) (w : Bytes) : Shorts → Prop where
  | done {us : List Use} : Letters c w us → c.okFrom acc us → ReadsAs c acc w (.done (acc ++ us))
  | pending {xs : Bytes} {us : List Use} {o : OptDef} {x : UInt8} : Letters c xs us → c.okFrom acc us → o ∈ c.opts → o.short = some x →
      o.Valued → w = xs ++ [x] → ReadsAs c acc w (.pending (acc ++ us) o)
  | valueIs {xs : Bytes} {us : List Use} {o : OptDef} {x : UInt8} {v : Bytes} : Letters c xs us → c.okFrom acc us → o ∈ c.opts →
      o.short = some x → o.Valued → o.fits (acc ++ us) v = true → w = xs ++ x :: 61 :: v → ReadsAs c acc w (.done (acc ++ us ++ [.value o.arg v]))
  | value {xs : Bytes} {us : List Use} {o : OptDef} {x : UInt8} {v : Bytes} : Letters c xs us → c.okFrom acc us → o ∈ c.opts →
      o.short = some x → o.Valued → o.fits (acc ++ us) v = true → v ≠ [] → v.head? ≠ some 61 → w = xs ++ x :: v →
      ReadsAs c acc w (.done (acc ++ us ++ [.value o.arg v]))
  | help {xs : Bytes} {us : List Use} {o : OptDef} {x : UInt8} {t : Bytes} : Letters c xs us → c.okFrom acc us → o ∈ c.opts →
      o.short = some x → o.takes = .stop → w = xs ++ x :: t → ReadsAs c acc w .help

theorem CmdDef.WF.shorts_reads (w : Bytes) (acc : List Use) (h : c.shorts acc w ≠ .usage) : ReadsAs c acc w (c.shorts acc w) := by
  induction w generalizing acc with
  | nil => have := ReadsAs.done (c := c) (acc := acc) (w := []) Letters.nil trivial; simpa [CmdDef.shorts] using this
  | cons x t ih =>
    rw [CmdDef.shorts] at h ⊢
    cases hb : c.byShort x with
    | none => simp only [hb] at h; exact absurd rfl h
    | some o =>
      obtain ⟨ho, hx⟩ := W.byShort_some.mp hb
      simp only [hb] at h ⊢
      have bare : o.Bare → (if o.again acc = true then c.shorts (acc ++ [.flag o.arg]) t else .usage) ≠ .usage →
          ReadsAs c acc (x :: t) (if o.again acc = true then c.shorts (acc ++ [.flag o.arg]) t else .usage) := by
        intro hB hne
        by_cases ha : o.again acc = true
        · rw [if_pos ha] at hne ⊢
          have okc : ∀ us, c.okFrom (acc ++ [.flag o.arg]) us → c.okFrom acc (.flag o.arg :: us) := fun us hu => ⟨⟨o, ho, rfl, ha⟩, hu⟩
          cases hr : c.shorts (acc ++ [.flag o.arg]) t with
          | usage => exact absurd hr hne
          | help =>
            have := ih _ hne; rw [hr] at this
            cases this with
            | help h1 h2 h3 h4 h5 h6 => exact ReadsAs.help (.cons ho hx hB h1) (okc _ h2) h3 h4 h5 (by rw [h6]; rfl)
          | pending l o' =>
            have := ih _ hne; rw [hr] at this
            cases this with
            | pending h1 h2 h3 h4 h5 h6 =>
              rw [List.append_assoc]
              exact ReadsAs.pending (.cons ho hx hB h1) (okc _ h2) h3 h4 h5 (by rw [h6]; rfl)
          | done l =>
            have := ih _ hne; rw [hr] at this
            cases this with
            | done h1 h2 =>
              rw [List.append_assoc]
              exact ReadsAs.done (.cons ho hx hB h1) (okc _ h2)
            | valueIs h1 h2 h3 h4 h5 h6 h7 =>
              rw [List.append_assoc acc] at h6 ⊢
              exact ReadsAs.valueIs (.cons ho hx hB h1) (okc _ h2) h3 h4 h5 h6 (by rw [h7]; rfl)
            | value h1 h2 h3 h4 h5 h6 h7 h8 h9 =>
              rw [List.append_assoc acc] at h6 ⊢
              exact ReadsAs.value (.cons ho hx hB h1) (okc _ h2) h3 h4 h5 h6 h7 h8 (by rw [h9]; rfl)
        · rw [if_neg ha] at hne; exact absurd rfl hne
      have valued : o.Valued → o.attached acc t ≠ .usage → ReadsAs c acc (x :: t) (o.attached acc t) := by
        intro hV hne
        cases t with
        | nil =>
          have := ReadsAs.pending (c := c) (acc := acc) (w := [x]) Letters.nil trivial ho hx hV rfl
          rw [List.append_nil] at this; exact this
        | cons y v =>
          unfold OptDef.attached at hne ⊢
          by_cases hf : o.fits acc (if y = 61 then v else y :: v) = true
          · simp only [if_pos hf]
            by_cases hy : y = 61
            · simp only [if_pos hy] at hf ⊢
              have := ReadsAs.valueIs (c := c) (acc := acc) (w := x :: y :: v) (v := v) Letters.nil trivial ho hx hV
                (by rw [List.append_nil]; exact hf) (by rw [hy]; rfl)
              rw [List.append_nil] at this; exact this
            · simp only [if_neg hy] at hf ⊢
              have := ReadsAs.value (c := c) (acc := acc) (w := x :: y :: v) (v := y :: v) Letters.nil trivial ho hx hV
                (by rw [List.append_nil]; exact hf) (by simp) (by simpa using hy) rfl
              rw [List.append_nil] at this; exact this
          · simp only [if_neg hf] at hne; exact absurd rfl hne
      cases ht : o.takes with
      | flag => simp only [ht] at h ⊢; exact bare (Or.inl ht) h
      | count => simp only [ht] at h ⊢; exact bare (Or.inr ht) h
      | stop => exact ReadsAs.help Letters.nil trivial ho hx ht rfl
      | value => simp only [ht] at h ⊢; exact valued (Or.inl ht) h
      | values => simp only [ht] at h ⊢; exact valued (Or.inr ht) h
      | maybe => exact absurd ht (W.takes o ho)

/-! ## The loop, word by word -/

omit W in
theorem plain_cons {x : UInt8} {t : Bytes} (h : Plain (x :: t)) : x ≠ 45 ∨ (x = 45 ∧ t = []) := by
  rcases h with h | h
  · left; simpa using h
  · right; simpa using h

theorem CmdDef.WF.read_word {acc : List Use} {w : Bytes} (h : Plain w) (ws : List Bytes) :
    c.read acc none (w :: ws) = if c.wordFits acc w then c.read (acc ++ [.word w]) none ws else .usage := by
  conv => lhs; unfold CmdDef.read
  simp only [W.subs, List.not_mem_nil, and_false, if_false, ne_eq, not_true_eq_false, false_and, OptDef.flush]
  match w, h with
  | [], _ => rfl
  | x :: t, h =>
    rcases plain_cons h with hx | ⟨hx, ht⟩
    · split
      · rename_i e; simp only [List.cons.injEq] at e; exact absurd e.1 hx
      · rename_i e; simp only [List.cons.injEq] at e; exact absurd e.1 hx
      · rename_i e; simp only [List.cons.injEq] at e; exact absurd e.1 hx
      · rfl
    · subst hx; subst ht; rfl

theorem CmdDef.WF.read_esc {acc : List Use} (ws : List Bytes) : c.read acc none ([45, 45] :: ws) = c.trailing acc ws := by
  conv => lhs; unfold CmdDef.read
  simp only [W.subs, List.not_mem_nil, and_false, if_false, ne_eq, not_true_eq_false, false_and, OptDef.flush]

theorem CmdDef.WF.read_long {acc : List Use} {t : Bytes} (h : t ≠ []) (ws : List Bytes) : c.read acc none ((45 :: 45 :: t) :: ws) =
    match c.byLong (splitEq t).1 with
    | none => .usage
    | some o =>
      match o.takes, (splitEq t).2 with
      | .stop, none => .help
      | .flag, none | .count, none => if o.again acc then c.read (acc ++ [.flag o.arg]) none ws else .usage
      | .stop, some _ | .flag, some _ | .count, some _ => .usage
      | _, some v => if o.fits acc v then c.read (acc ++ [.value o.arg v]) none ws else .usage
      | _, none => c.read acc (some o) ws := by
  conv => lhs; unfold CmdDef.read
  simp only [W.subs, List.not_mem_nil, and_false, if_false, ne_eq, not_true_eq_false, false_and, OptDef.flush]
  cases t with
  | nil => exact absurd rfl h
  | cons y t => rfl

theorem CmdDef.WF.read_short {acc : List Use} {x : UInt8} {t : Bytes} (h : x ≠ 45) (ws : List Bytes) : c.read acc none ((45 :: x :: t) :: ws) =
    match c.shorts acc (x :: t) with
    | .done acc' => c.read acc' none ws
    | .pending acc' o => c.read acc' (some o) ws
    | .help => .help
    | .usage => .usage := by
  conv => lhs; unfold CmdDef.read
  simp only [W.subs, List.not_mem_nil, and_false, if_false, ne_eq, not_true_eq_false, false_and, OptDef.flush]
  split
  · rename_i e; simp only [List.cons.injEq] at e; exact absurd e.2.1 h
  · rename_i e; simp only [List.cons.injEq] at e; exact absurd e.2.1 h
  · rename_i e; simp only [List.cons.injEq] at e; obtain ⟨_, rfl, rfl⟩ := e; rfl
  · rename_i h1 h2 h3; exact absurd rfl (h3 _ _)

omit W in
theorem CmdDef.read_pend {acc : List Use} {o : OptDef} {w : Bytes} (h : Plain w) (ws : List Bytes) :
    c.read acc (some o) (w :: ws) = if o.fits acc w then c.read (acc ++ [.value o.arg w]) none ws else .usage := by
  conv => lhs; unfold CmdDef.read
  simp only [(isPlain_iff w).mpr h]

omit W in
theorem CmdDef.read_pend_not {acc : List Use} {o : OptDef} (ho : o.takes ≠ .maybe) {argv : List Bytes} (h : ∀ w ∈ argv.head?, ¬ Plain w) :
    c.read acc (some o) argv = .usage := by
  cases argv with
  | nil => rw [CmdDef.read]; simp [OptDef.flush, ho]
  | cons w ws =>
    have h1 : isPlain w = false := by
      cases hp : isPlain w with
      | false => rfl
      | true => exact absurd ((isPlain_iff w).mp hp) (h w (by simp))
    conv => lhs; unfold CmdDef.read
    simp [h1, OptDef.flush, ho]

/-! ## Pieces are read -/

theorem CmdDef.WF.read_piece {ws : List Bytes} {us : List Use} (h : Piece c ws us) {acc : List Use} (hok : c.okFrom acc us) (rest : List Bytes) :
    c.read acc none (ws ++ rest) = c.read (acc ++ us) none rest := by
  have dash : ascii "-" = [45] := rfl
  have dash2 : ascii "--" = [45, 45] := rfl
  have eqs : ascii "=" = [61] := rfl
  have lval : ∀ {xs : Bytes} {us : List Use} {o : OptDef} {x : UInt8}, Letters c xs us → o ∈ c.opts → o.short = some x → o.Valued →
      ∀ {acc : List Use} {t : Bytes} (ws : List Bytes), c.okFrom acc us →
      c.read acc none ((45 :: (xs ++ x :: t)) :: ws) =
        match o.attached (acc ++ us) t with
        | .done acc' => c.read acc' none ws
        | .pending acc' o => c.read acc' (some o) ws
        | .help => .help
        | .usage => .usage := by
    intro xs us o x hl ho hx hv acc t ws hok
    have e1 : c.shorts acc (xs ++ x :: t) = o.attached (acc ++ us) t := by
      rw [Letters.shorts W hl hok, CmdDef.shorts, W.byShort_some.mpr ⟨ho, hx⟩]
      rcases hv with hv | hv <;> simp only [hv]
    have hne : (xs ++ x :: t).head? ≠ some 45 := by
      cases xs with
      | nil => simp only [List.nil_append, List.head?_cons, ne_eq, Option.some.injEq]; intro e; exact W.short o ho (by rw [hx, e])
      | cons y ys => have := Letters.ne_dash W hl; simpa using this
    cases hq : xs ++ x :: t with
    | nil => simp at hq
    | cons y ys =>
      rw [hq] at e1 hne
      rw [W.read_short (by simpa using hne), e1]
  cases h with
  | word hp =>
    have h1 : c.wordFits acc _ = true := hok.1
    rw [List.singleton_append, W.read_word hp, if_pos h1]
  | @long o n ho hn hb =>
    obtain ⟨hn1, hn2⟩ := W.long o ho n hn
    have ha := W.again_of ho hok.1
    rw [dash2, List.singleton_append, List.cons_append, List.singleton_append, W.read_long hn1, splitEq_no hn2, W.byLong_some.mpr ⟨ho, hn⟩]
    rcases hb with hb | hb <;> simp only [hb, ha, if_true]
  | @longIs o n v ho hn hv =>
    obtain ⟨hn1, hn2⟩ := W.long o ho n hn
    have hf := W.fits_of ho hok.1
    rw [dash2, eqs]
    have e1 : ([45, 45] ++ n ++ [61] ++ v : Bytes) = 45 :: 45 :: (n ++ 61 :: v) := by simp
    rw [e1, List.singleton_append, W.read_long (by simp), splitEq_is hn2, W.byLong_some.mpr ⟨ho, hn⟩]
    rcases hv with hv | hv <;> simp only [hv, hf, if_true]
  | @longNext o n v ho hn hv hp =>
    obtain ⟨hn1, hn2⟩ := W.long o ho n hn
    have hf := W.fits_of ho hok.1
    rw [dash2]
    have e1 : ([45, 45] ++ n : Bytes) = 45 :: 45 :: n := rfl
    rw [e1, List.cons_append, List.singleton_append, W.read_long hn1, splitEq_no hn2, W.byLong_some.mpr ⟨ho, hn⟩]
    rcases hv with hv | hv <;> simp only [hv] <;> rw [CmdDef.read_pend hp, if_pos hf]
  | letters hne hl =>
    rename_i xs
    cases xs with
    | nil => exact absurd rfl hne
    | cons x t =>
      have h1 := Letters.shorts W hl hok []
      rw [List.append_nil] at h1
      have h2 := Letters.ne_dash W hl
      rw [dash, List.singleton_append, List.singleton_append, W.read_short (by simpa using h2), h1]
      simp only [CmdDef.shorts]
  | @lettersNext xs us o x v hl ho hx hv hp =>
    obtain ⟨h1, h2⟩ := CmdDef.okFrom_append.mp hok
    have hf := W.fits_of ho h2.1
    have e1 : (ascii "-" ++ xs ++ [x] : Bytes) = 45 :: (xs ++ x :: []) := by rw [dash]; simp
    rw [e1, List.cons_append, List.singleton_append, lval hl ho hx hv _ h1]
    simp only [OptDef.attached]
    rw [CmdDef.read_pend hp, if_pos hf, List.append_assoc]
  | @lettersIs xs us o x v hl ho hx hv =>
    obtain ⟨h1, h2⟩ := CmdDef.okFrom_append.mp hok
    have hf := W.fits_of ho h2.1
    have e1 : (ascii "-" ++ xs ++ [x] ++ ascii "=" ++ v : Bytes) = 45 :: (xs ++ x :: 61 :: v) := by rw [dash, eqs]; simp
    rw [e1, List.singleton_append, lval hl ho hx hv _ h1]
    simp only [OptDef.attached, if_true, hf]
    rw [List.append_assoc]
  | @lettersValue xs us o x v hl ho hx hv hne h61 =>
    obtain ⟨h1, h2⟩ := CmdDef.okFrom_append.mp hok
    have hf := W.fits_of ho h2.1
    have e1 : (ascii "-" ++ xs ++ [x] ++ v : Bytes) = 45 :: (xs ++ x :: v) := by rw [dash]; simp
    rw [e1, List.singleton_append, lval hl ho hx hv _ h1]
    cases v with
    | nil => exact absurd rfl hne
    | cons y v =>
      have hy : y ≠ 61 := by simpa using h61
      simp only [OptDef.attached, if_neg hy, hf, if_true]
      rw [List.append_assoc]

theorem CmdDef.WF.read_pieces {ws : List Bytes} {us : List Use} (h : Pieces c ws us) {acc : List Use} (hok : c.okFrom acc us) (rest : List Bytes) :
    c.read acc none (ws ++ rest) = c.read (acc ++ us) none rest := by
  induction h generalizing acc with
  | nil => simp
  | cons hp _ ih =>
    obtain ⟨h1, h2⟩ := CmdDef.okFrom_append.mp hok
    rw [List.append_assoc, W.read_piece hp h1, ih h2, List.append_assoc]

omit W in
open Classical in
theorem CmdDef.trailing_iff {acc : List Use} {after : List Bytes} :
    c.trailing acc after = if c.okFrom acc (after.map .word) then .uses (acc ++ after.map .word) else .usage := by
  induction after generalizing acc with
  | nil => simp [CmdDef.trailing, CmdDef.okFrom]
  | cons w ws ih =>
    rw [CmdDef.trailing]
    by_cases h : c.wordFits acc w = true
    · rw [if_pos h, ih]
      simp only [List.map_cons, CmdDef.okFrom, CmdDef.okUse, h, true_and, List.append_assoc, List.singleton_append]
    · rw [if_neg h]
      simp [CmdDef.okFrom, CmdDef.okUse, h]

theorem CmdDef.WF.read_line {argv : List Bytes} {l : List Use} (h : Line c argv l) {acc : List Use} (hok : c.okFrom acc l) :
    c.read acc none argv = .uses (acc ++ l) := by
  rcases h with h | ⟨ws, us, after, h1, h2, h3⟩
  · have := W.read_pieces h hok []
    rw [List.append_nil] at this
    rw [this, CmdDef.read]; rfl
  · subst h2 h3
    obtain ⟨g1, g2⟩ := CmdDef.okFrom_append.mp hok
    have e : ascii "--" = [45, 45] := rfl
    rw [W.read_pieces h1 g1, e, W.read_esc, CmdDef.trailing_iff, if_pos g2, List.append_assoc]

/-! ## What is read is a line -/

/-- The word asks for help after `acc`. -/
def AsksAfter (c : CmdDef) (acc : List Use) (w : Bytes) : Prop :=
  (∃ o ∈ c.opts, o.takes = .stop ∧ ∃ n, o.long = some n ∧ w = 45 :: 45 :: n) ∨
  (∃ o ∈ c.opts, o.takes = .stop ∧ ∃ x, o.short = some x ∧ ∃ xs fs t, Letters c xs fs ∧ c.okFrom acc fs ∧ w = 45 :: (xs ++ x :: t))

omit W in
theorem Line.cons {ws argv : List Bytes} {us l : List Use} (hp : Piece c ws us) (hl : Line c argv l) : Line c (ws ++ argv) (us ++ l) := by
  rcases hl with hl | ⟨ws', us', after, h1, rfl, rfl⟩
  · exact Or.inl (.cons hp hl)
  · exact Or.inr ⟨ws ++ ws', us ++ us', after, .cons hp h1, by simp, by simp⟩

/-- What the loop can answer. -/
def Answers (c : CmdDef) (acc : List Use) (argv : List Bytes) (r : Read) : Prop :=
  (∃ l, r = .uses (acc ++ l) ∧ Line c argv l ∧ c.okFrom acc l) ∨
  (r = .help ∧ ∃ ws us w rest, argv = ws ++ w :: rest ∧ Pieces c ws us ∧ c.okFrom acc us ∧ AsksAfter c (acc ++ us) w)

omit W in
theorem Answers.cons {ws argv : List Bytes} {us acc : List Use} {r : Read} (hp : Piece c ws us) (hok : c.okFrom acc us)
    (h : Answers c (acc ++ us) argv r) : Answers c acc (ws ++ argv) r := by
  rcases h with ⟨l, h1, h2, h3⟩ | ⟨h1, ws', us', w, rest, h2, h3, h4, h5⟩
  · exact Or.inl ⟨us ++ l, by rw [h1, List.append_assoc], Line.cons hp h2, CmdDef.okFrom_append.mpr ⟨hok, h3⟩⟩
  · exact Or.inr ⟨h1, ws ++ ws', us ++ us', w, rest, by rw [h2, List.append_assoc], .cons hp h3, CmdDef.okFrom_append.mpr ⟨hok, h4⟩,
      by rw [← List.append_assoc]; exact h5⟩

theorem CmdDef.WF.read_answers (n : Nat) : ∀ (acc : List Use) (argv : List Bytes), argv.length ≤ n → c.read acc none argv ≠ .usage →
    Answers c acc argv (c.read acc none argv) := by
  induction n with
  | zero =>
    intro acc argv hn _
    have : argv = [] := List.length_eq_zero_iff.mp (by omega)
    subst this
    exact Or.inl ⟨[], by rw [CmdDef.read]; simp [OptDef.flush], Or.inl .nil, trivial⟩
  | succ n ih =>
    intro acc argv hn hne
    match argv, hn, hne with
    | [], _, _ => exact Or.inl ⟨[], by rw [CmdDef.read]; simp [OptDef.flush], Or.inl .nil, trivial⟩
    | w :: ws, hn, hne =>
      have hn' : ws.length ≤ n := by simpa using hn
      -- a value that is the next word
      have pend : ∀ (acc' : List Use) (o : OptDef) (us : List Use), o ∈ c.opts → acc' = acc ++ us → c.okFrom acc us →
          (∀ v, Plain v → Piece c [w, v] (us ++ [.value o.arg v])) →
          c.read acc' (some o) ws ≠ .usage → Answers c acc (w :: ws) (c.read acc' (some o) ws) := by
        intro acc' o us ho ha hok hpc hr
        subst ha
        match ws, hr, hn' with
        | [], hr, _ => exact absurd (CmdDef.read_pend_not (W.takes o ho) (by simp)) hr
        | v :: ws', hr, hn' =>
          by_cases hp : Plain v
          · rw [CmdDef.read_pend hp] at hr ⊢
            by_cases hf : o.fits (acc ++ us) v = true
            · rw [if_pos hf] at hr ⊢
              have h1 := ih _ ws' (by simp at hn'; omega) hr
              rw [List.append_assoc] at h1 ⊢
              exact Answers.cons (ws := [w, v]) (hpc v hp) (CmdDef.okFrom_append.mpr ⟨hok, ⟨o, ho, rfl, hf⟩, trivial⟩) h1
            · rw [if_neg hf] at hr; exact absurd rfl hr
          · exact absurd (CmdDef.read_pend_not (W.takes o ho) (by simpa using hp)) hr
      by_cases hp : Plain w
      · rw [W.read_word hp] at hne ⊢
        by_cases hf : c.wordFits acc w = true
        · rw [if_pos hf] at hne ⊢
          exact Answers.cons (ws := [w]) (.word hp) ⟨hf, trivial⟩ (ih _ ws hn' hne)
        · rw [if_neg hf] at hne; exact absurd rfl hne
      · match w, hp, hne, pend with
        | [], hp, _, _ => exact absurd (Or.inl (by simp)) hp
        | x :: t, hp, hne, pend =>
          have hx : x = 45 := Classical.byContradiction fun e => hp (Or.inl (by simpa using e))
          subst hx
          match t, hp, hne, pend with
          | [], hp, _, _ => exact absurd (Or.inr rfl) hp
          | y :: t, hp, hne, pend =>
            by_cases hy : y = 45
            · subst hy
              match t, hne, pend with
              | [], hne, _ =>
                rw [W.read_esc, CmdDef.trailing_iff] at hne ⊢
                by_cases hk : c.okFrom acc (ws.map .word)
                · rw [if_pos hk]
                  exact Or.inl ⟨ws.map .word, rfl, Or.inr ⟨[], [], ws, .nil, rfl, rfl⟩, hk⟩
                · rw [if_neg hk] at hne; exact absurd rfl hne
              | z :: t, hne, pend =>
                rw [W.read_long (by simp)] at hne ⊢
                generalize z :: t = t at hne pend ⊢
                obtain ⟨hs1, hs2⟩ := splitEq_spec t
                cases hb : c.byLong (splitEq t).1 with
                | none => simp only [hb] at hne; exact absurd rfl hne
                | some o =>
                  obtain ⟨ho, hl⟩ := W.byLong_some.mp hb
                  simp only [hb] at hne ⊢
                  rcases hs2 with ⟨hs2, hs3⟩ | ⟨v, hs2, hs3⟩
                  · have hl' : o.long = some t := by rw [hl, ← hs3]
                    cases ht : o.takes with
                    | flag =>
                      simp only [ht, hs2] at hne ⊢
                      by_cases ha : o.again acc = true
                      · rw [if_pos ha] at hne ⊢
                        exact Answers.cons (ws := [45 :: 45 :: t]) (.long ho hl' (Or.inl ht)) ⟨⟨o, ho, rfl, ha⟩, trivial⟩ (ih _ ws hn' hne)
                      · rw [if_neg ha] at hne; exact absurd rfl hne
                    | count =>
                      simp only [ht, hs2] at hne ⊢
                      by_cases ha : o.again acc = true
                      · rw [if_pos ha] at hne ⊢
                        exact Answers.cons (ws := [45 :: 45 :: t]) (.long ho hl' (Or.inr ht)) ⟨⟨o, ho, rfl, ha⟩, trivial⟩ (ih _ ws hn' hne)
                      · rw [if_neg ha] at hne; exact absurd rfl hne
                    | stop =>
                      simp only [hs2]
                      exact Or.inr ⟨rfl, [], [], _, ws, rfl, .nil, trivial, Or.inl ⟨o, ho, ht, t, hl', rfl⟩⟩
                    | value =>
                      simp only [ht, hs2] at hne ⊢
                      exact pend acc o [] ho (by simp) trivial (fun v hv => .longNext ho hl' (Or.inl ht) hv) hne
                    | values =>
                      simp only [ht, hs2] at hne ⊢
                      exact pend acc o [] ho (by simp) trivial (fun v hv => .longNext ho hl' (Or.inr ht) hv) hne
                    | maybe => exact absurd ht (W.takes o ho)
                  · have hw : ∀ (hv : o.Valued), Piece c [45 :: 45 :: t] [.value o.arg v] := by
                      intro hv
                      have := Piece.longIs (v := v) ho hl hv
                      have e : ascii "--" ++ (splitEq t).1 ++ ascii "=" ++ v = 45 :: 45 :: t := by
                        conv => rhs; rw [hs3]
                        simp [ascii]
                      rw [e] at this; exact this
                    cases ht : o.takes with
                    | flag => simp only [ht, hs2] at hne; exact absurd rfl hne
                    | count => simp only [ht, hs2] at hne; exact absurd rfl hne
                    | stop => simp only [ht, hs2] at hne; exact absurd rfl hne
                    | value =>
                      simp only [ht, hs2] at hne ⊢
                      by_cases hf : o.fits acc v = true
                      · rw [if_pos hf] at hne ⊢
                        exact Answers.cons (ws := [45 :: 45 :: t]) (hw (Or.inl ht)) ⟨⟨o, ho, rfl, hf⟩, trivial⟩ (ih _ ws hn' hne)
                      · rw [if_neg hf] at hne; exact absurd rfl hne
                    | values =>
                      simp only [ht, hs2] at hne ⊢
                      by_cases hf : o.fits acc v = true
                      · rw [if_pos hf] at hne ⊢
                        exact Answers.cons (ws := [45 :: 45 :: t]) (hw (Or.inr ht)) ⟨⟨o, ho, rfl, hf⟩, trivial⟩ (ih _ ws hn' hne)
                      · rw [if_neg hf] at hne; exact absurd rfl hne
                    | maybe => exact absurd ht (W.takes o ho)
            · rw [W.read_short hy] at hne ⊢
              have hsr := W.shorts_reads (y :: t) acc
              cases hr : c.shorts acc (y :: t) with
              | usage => simp only [hr] at hne; exact absurd rfl hne
              | help =>
                have := hsr (by rw [hr]; simp)
                rw [hr] at this
                cases this with
                | help h1 h2 h3 h4 h5 h6 =>
                  exact Or.inr ⟨rfl, [], [], _, ws, rfl, .nil, trivial, Or.inr ⟨_, h3, h5, _, h4, _, _, _, h1, by rw [List.append_nil]; exact h2,
                    by rw [h6]⟩⟩
              | pending l o =>
                have := hsr (by rw [hr]; simp)
                rw [hr] at this
                simp only [hr] at hne ⊢
                cases this with
                | pending h1 h2 h3 h4 h5 h6 =>
                  exact pend _ o _ h3 rfl h2 (fun v hv => by
                    have := Piece.lettersNext h1 h3 h4 h5 hv
                    rw [h6]; exact this) hne
              | done l =>
                have := hsr (by rw [hr]; simp)
                rw [hr] at this
                simp only [hr] at hne ⊢
                cases this with
                | done h1 h2 =>
                  exact Answers.cons (ws := [45 :: y :: t]) (.letters (by simp) h1) h2 (ih _ ws hn' hne)
                | @valueIs xs us o x v h1 h2 h3 h4 h5 h6 h7 =>
                  have hpc := Piece.lettersIs (v := v) h1 h3 h4 h5
                  have e : ascii "-" ++ xs ++ [x] ++ ascii "=" ++ v = 45 :: y :: t := by rw [h7]; simp [ascii]
                  rw [e] at hpc
                  have := ih _ ws hn' hne
                  rw [List.append_assoc] at this ⊢
                  exact Answers.cons (ws := [45 :: y :: t]) hpc (CmdDef.okFrom_append.mpr ⟨h2, ⟨o, h3, rfl, h6⟩, trivial⟩) this
                | @value xs us o x v h1 h2 h3 h4 h5 h6 h7 h8 h9 =>
                  have hpc := Piece.lettersValue (v := v) h1 h3 h4 h5 h7 h8
                  have e : ascii "-" ++ xs ++ [x] ++ v = 45 :: y :: t := by rw [h9]; simp [ascii]
                  rw [e] at hpc
                  have := ih _ ws hn' hne
                  rw [List.append_assoc] at this ⊢
                  exact Answers.cons (ws := [45 :: y :: t]) hpc (CmdDef.okFrom_append.mpr ⟨h2, ⟨o, h3, rfl, h6⟩, trivial⟩) this

/-! ## The checks are those of the specification -/

omit W in
theorem usedIn_iff {l : List Use} {a : Arg} : usedIn l a = true ↔ ∃ u ∈ l, u.Of a := by
  unfold usedIn
  rw [List.any_eq_true]
  constructor
  · rintro ⟨u, h1, h2⟩
    refine ⟨u, h1, ?_⟩
    cases u <;> simpa [Use.Of] using h2
  · rintro ⟨u, h1, h2⟩
    refine ⟨u, h1, ?_⟩
    cases u <;> simpa [Use.Of] using h2

omit W in
theorem wordsOf_eq (l : List Use) : wordsOf l = said l := by
  unfold wordsOf said
  congr 1

omit W in
theorem CmdDef.wordFits_iff {acc : List Use} {w : Bytes} : c.wordFits acc w = true ↔ c.WordAt (said acc).length w := by
  unfold CmdDef.wordFits CmdDef.WordAt
  rw [wordsOf_eq]
  cases h : c.words[(said acc).length]? with
  | some f =>
    have : ¬ c.words.length ≤ (said acc).length := by
      intro hle; rw [List.getElem?_eq_none hle] at h; exact absurd h (by simp)
    simp [this]
  | none =>
    have : c.words.length ≤ (said acc).length := List.getElem?_eq_none_iff.mp h
    cases hr : c.rest with
    | none => simp
    | some f => simp [this]

omit W in
theorem said_append (l l' : List Use) : said (l ++ l') = said l ++ said l' := List.filterMap_append

/-- The use is one of an argument of the command. -/
def Use.Known (c : CmdDef) : Use → Prop
  | .flag a => ∃ o ∈ c.opts, o.arg = a ∧ o.Bare
  | _ => True

theorem CmdDef.WF.allowed_snoc {acc : List Use} {u : Use} (hk : u.Known c) : Allowed c (acc ++ [u]) ↔ Allowed c acc ∧ c.okUse acc u := by
  have again : ∀ o ∈ c.opts, u.Of o.arg → ((∀ u' ∈ acc, ∀ o ∈ c.opts, o.takes ≠ .count → o.takes ≠ .values → u'.Of o.arg → ¬ u.Of o.arg) ↔
      o.again acc = true) := by
    intro o ho hu
    unfold OptDef.again
    constructor
    · intro h
      by_cases h1 : o.takes = .count
      · simp [h1]
      · by_cases h2 : o.takes = .values
        · simp [h2]
        · have : usedIn acc o.arg = false := by
            cases hu' : usedIn acc o.arg with
            | false => rfl
            | true =>
              obtain ⟨u', g1, g2⟩ := usedIn_iff.mp hu'
              exact absurd hu (h u' g1 o ho h1 h2 g2)
          simp [this]
    · intro h u' hu' o' ho' h1 h2 h3 h4
      have : o = o' := by
        apply W.args o ho o' ho'
        cases u <;> simp_all [Use.Of]
      subst this
      have : usedIn acc o.arg = true := usedIn_iff.mpr ⟨u', hu', h3⟩
      simp [h1, h2, this] at h
  have saidw : ∀ w, (∀ i v, (said acc ++ [w])[i]? = some v → c.WordAt i v) ↔
      (∀ i v, (said acc)[i]? = some v → c.WordAt i v) ∧ c.WordAt (said acc).length w := by
    intro w
    constructor
    · intro h
      refine ⟨fun i v hi => h i v ?_, h _ w (by simp)⟩
      rw [List.getElem?_append_left (by
        rcases Nat.lt_or_ge i (said acc).length with h | h
        · exact h
        · rw [List.getElem?_eq_none h] at hi; exact absurd hi (by simp))]
      exact hi
    · rintro ⟨h1, h2⟩ i v hi
      rcases Nat.lt_or_ge i (said acc).length with h | h
      · rw [List.getElem?_append_left h] at hi; exact h1 i v hi
      · rw [List.getElem?_append_right h] at hi
        cases hd : i - (said acc).length with
        | zero =>
          rw [hd] at hi
          simp only [List.getElem?_cons_zero, Option.some.injEq] at hi
          subst hi
          have : i = (said acc).length := by omega
          rw [this]; exact h2
        | succ k => rw [hd] at hi; simp at hi
  have once_iff : (acc ++ [u]).Pairwise (fun u u' => ∀ o ∈ c.opts, o.takes ≠ .count → o.takes ≠ .values → u.Of o.arg → ¬ u'.Of o.arg) ↔
      acc.Pairwise (fun u u' => ∀ o ∈ c.opts, o.takes ≠ .count → o.takes ≠ .values → u.Of o.arg → ¬ u'.Of o.arg) ∧
      (∀ u' ∈ acc, ∀ o ∈ c.opts, o.takes ≠ .count → o.takes ≠ .values → u'.Of o.arg → ¬ u.Of o.arg) := by
    rw [List.pairwise_append]
    simp
  cases u with
  | word w =>
    have hs : said (acc ++ [.word w]) = said acc ++ [w] := by rw [said_append]; rfl
    constructor
    · rintro ⟨h1, h2, h3⟩
      rw [hs] at h3
      obtain ⟨g1, g2⟩ := (saidw w).mp h3
      exact ⟨⟨(once_iff.mp h1).1, fun a v hv => h2 a v (by simp [hv]), g1⟩, CmdDef.wordFits_iff.mpr g2⟩
    · rintro ⟨⟨h1, h2, h3⟩, h4⟩
      refine ⟨once_iff.mpr ⟨h1, fun _ _ _ _ _ _ _ h => h⟩, fun a v hv => h2 a v (by simpa using hv), ?_⟩
      rw [hs]
      exact (saidw w).mpr ⟨h3, CmdDef.wordFits_iff.mp h4⟩
  | flag a =>
    have hs : said (acc ++ [.flag a]) = said acc := by rw [said_append]; simp [said, Use.text]
    obtain ⟨o, ho, rfl, _⟩ := hk
    constructor
    · rintro ⟨h1, h2, h3⟩
      rw [hs] at h3
      obtain ⟨g1, g2⟩ := once_iff.mp h1
      exact ⟨⟨g1, fun a v hv => h2 a v (by simp [hv]), h3⟩, o, ho, rfl, (again o ho rfl).mp g2⟩
    · rintro ⟨⟨h1, h2, h3⟩, o', ho', he, h4⟩
      have := W.args o' ho' o ho he
      subst this
      refine ⟨once_iff.mpr ⟨h1, (again o' ho rfl).mpr h4⟩, fun a v hv => h2 a v (by simpa using hv), ?_⟩
      rw [hs]; exact h3
  | value a v =>
    have hs : said (acc ++ [.value a v]) = said acc := by rw [said_append]; simp [said, Use.text]
    constructor
    · rintro ⟨h1, h2, h3⟩
      rw [hs] at h3
      obtain ⟨g1, g2⟩ := once_iff.mp h1
      obtain ⟨o, ho, rfl, hc⟩ := h2 a v (by simp)
      exact ⟨⟨g1, fun a v hv => h2 a v (by simp [hv]), h3⟩, o, ho, rfl, by
        have := (again o ho rfl).mp g2
        simp [OptDef.fits, hc, this]⟩
    · rintro ⟨⟨h1, h2, h3⟩, o, ho, rfl, h4⟩
      simp only [OptDef.fits, Bool.and_eq_true] at h4
      refine ⟨once_iff.mpr ⟨h1, (again o ho rfl).mpr h4.2⟩, fun a w hv => ?_, by rw [hs]; exact h3⟩
      rcases List.mem_append.mp hv with hv | hv
      · exact h2 a w hv
      · simp only [List.mem_singleton, Use.value.injEq] at hv
        obtain ⟨rfl, rfl⟩ := hv
        exact ⟨o, ho, rfl, h4.1⟩

omit W in
theorem Allowed.prefix {l l' : List Use} (h : Allowed c (l ++ l')) : Allowed c l := by
  refine ⟨(List.pairwise_append.mp h.once).1, fun a v hv => h.values a v (by simp [hv]), fun i w hi => h.words i w ?_⟩
  rw [said_append, List.getElem?_append_left (by
    rcases Nat.lt_or_ge i (said l).length with h | h
    · exact h
    · rw [List.getElem?_eq_none h] at hi; exact absurd hi (by simp))]
  exact hi

theorem CmdDef.WF.ok_allowed {acc l : List Use} (hk : ∀ u ∈ l, u.Known c) : Allowed c (acc ++ l) ↔ Allowed c acc ∧ c.okFrom acc l := by
  induction l generalizing acc with
  | nil => simp [CmdDef.okFrom]
  | cons u l ih =>
    have h1 := W.allowed_snoc (acc := acc) (hk u (by simp))
    have h2 := ih (acc := acc ++ [u]) (fun v hv => hk v (by simp [hv]))
    rw [List.append_assoc, List.singleton_append] at h2
    rw [h2, h1, and_assoc]; rfl

omit W in
theorem Letters.known {xs : Bytes} {us : List Use} (h : Letters c xs us) : ∀ u ∈ us, u.Known c := by
  induction h with
  | nil => simp
  | cons ho _ hb _ ih =>
    intro u hu
    rcases List.mem_cons.mp hu with rfl | hu
    · exact ⟨_, ho, rfl, hb⟩
    · exact ih u hu

omit W in
theorem Piece.known {ws : List Bytes} {us : List Use} (h : Piece c ws us) : ∀ u ∈ us, u.Known c := by
  cases h with
  | word _ => intro u hu; simp only [List.mem_singleton] at hu; subst hu; trivial
  | long ho _ hb => intro u hu; simp only [List.mem_singleton] at hu; subst hu; exact ⟨_, ho, rfl, hb⟩
  | longIs _ _ _ => intro u hu; simp only [List.mem_singleton] at hu; subst hu; trivial
  | longNext _ _ _ _ => intro u hu; simp only [List.mem_singleton] at hu; subst hu; trivial
  | letters _ hl => exact hl.known
  | lettersNext hl _ _ _ _ =>
    intro u hu
    rcases List.mem_append.mp hu with hu | hu
    · exact hl.known u hu
    · simp only [List.mem_singleton] at hu; subst hu; trivial
  | lettersIs hl _ _ _ =>
    intro u hu
    rcases List.mem_append.mp hu with hu | hu
    · exact hl.known u hu
    · simp only [List.mem_singleton] at hu; subst hu; trivial
  | lettersValue hl _ _ _ _ _ =>
    intro u hu
    rcases List.mem_append.mp hu with hu | hu
    · exact hl.known u hu
    · simp only [List.mem_singleton] at hu; subst hu; trivial

omit W in
theorem Pieces.known {ws : List Bytes} {us : List Use} (h : Pieces c ws us) : ∀ u ∈ us, u.Known c := by
  induction h with
  | nil => simp
  | cons hp _ ih =>
    intro u hu
    rcases List.mem_append.mp hu with hu | hu
    · exact hp.known u hu
    · exact ih u hu

omit W in
theorem Line.known {argv : List Bytes} {l : List Use} (h : Line c argv l) : ∀ u ∈ l, u.Known c := by
  rcases h with h | ⟨ws, us, after, h1, rfl, rfl⟩
  · exact h.known
  · intro u hu
    rcases List.mem_append.mp hu with hu | hu
    · exact h1.known u hu
    · obtain ⟨w, _, rfl⟩ := List.mem_map.mp hu
      trivial

omit W in
theorem Allowed.nil : Allowed c [] := ⟨.nil, by simp, by simp [said]⟩

theorem CmdDef.WF.ok_iff {l : List Use} (hk : ∀ u ∈ l, u.Known c) : c.okFrom [] l ↔ Allowed c l := by
  have := W.ok_allowed (acc := []) hk
  rw [List.nil_append] at this
  rw [this]
  exact ⟨fun h => ⟨Allowed.nil, h⟩, fun h => h.2⟩

/-- **The loop reads exactly the lines whose uses are allowed.** -/
theorem CmdDef.WF.read_iff {argv : List Bytes} {l : List Use} : c.read [] none argv = .uses l ↔ Line c argv l ∧ Allowed c l := by
  constructor
  · intro h
    rcases W.read_answers argv.length [] argv (Nat.le_refl _) (by rw [h]; simp) with ⟨l', h1, h2, h3⟩ | ⟨h1, _⟩
    · rw [h1, List.nil_append] at h
      simp only [Read.uses.injEq] at h
      subst h
      exact ⟨h2, (W.ok_iff h2.known).mp h3⟩
    · rw [h1] at h; exact absurd h (by simp)
  · rintro ⟨h1, h2⟩
    have := W.read_line h1 ((W.ok_iff h1.known).mpr h2)
    simpa using this

/-- The loop never answers with a subcommand. -/
theorem CmdDef.WF.read_no_sub {argv : List Bytes} {l : List Use} {n : Bytes} {r : List Bytes} : c.read [] none argv ≠ .sub l n r := by
  intro h
  rcases W.read_answers argv.length [] argv (Nat.le_refl _) (by rw [h]; simp) with ⟨l', h1, _⟩ | ⟨h1, _⟩
  · rw [h1] at h; exact absurd h (by simp)
  · rw [h1] at h; exact absurd h (by simp)

theorem CmdDef.WF.help_iff {argv : List Bytes} : c.read [] none argv = .help ↔
    ∃ ws us w rest, argv = ws ++ w :: rest ∧ Pieces c ws us ∧ Allowed c us ∧ AsksHelp c us w := by
  have dash : ascii "-" = [45] := rfl
  have dash2 : ascii "--" = [45, 45] := rfl
  constructor
  · intro h
    rcases W.read_answers argv.length [] argv (Nat.le_refl _) (by rw [h]; simp) with ⟨l', h1, _⟩ | ⟨_, ws, us, w, rest, h1, h2, h3, h4⟩
    · rw [h1] at h; exact absurd h (by simp)
    · have ha := (W.ok_iff h2.known).mp h3
      refine ⟨ws, us, w, rest, h1, h2, ha, ?_⟩
      rw [List.nil_append] at h4
      rcases h4 with ⟨o, g1, g2, n, g3, g4⟩ | ⟨o, g1, g2, x, g3, xs, fs, t, g4, g5, g6⟩
      · exact Or.inl ⟨o, g1, g2, n, g3, by rw [g4]; rfl⟩
      · exact Or.inr ⟨o, g1, g2, x, g3, xs, fs, t, g4, (W.ok_allowed g4.known).mpr ⟨ha, g5⟩, by rw [g6]; simp [dash]⟩
  · rintro ⟨ws, us, w, rest, rfl, h2, h3, h4⟩
    rw [W.read_pieces h2 ((W.ok_iff h2.known).mpr h3), List.nil_append]
    rcases h4 with ⟨o, g1, g2, n, g3, rfl⟩ | ⟨o, g1, g2, x, g3, xs, fs, t, g4, g5, rfl⟩
    · obtain ⟨hn1, hn2⟩ := W.long o g1 n g3
      have : ascii "--" ++ n = 45 :: 45 :: n := rfl
      rw [this, W.read_long hn1, splitEq_no hn2, W.byLong_some.mpr ⟨g1, g3⟩]
      simp only [g2]
    · have hok := ((W.ok_allowed g4.known).mp g5).2
      have e1 : c.shorts us (xs ++ x :: t) = .help := by
        rw [Letters.shorts W g4 hok, CmdDef.shorts, W.byShort_some.mpr ⟨g1, g3⟩]
        simp only [g2]
      have hne : (xs ++ x :: t).head? ≠ some 45 := by
        cases xs with
        | nil => simp only [List.nil_append, List.head?_cons, ne_eq, Option.some.injEq]; intro e; exact W.short o g1 (by rw [g3, e])
        | cons y ys => have := Letters.ne_dash W g4; simpa using this
      have e2 : ascii "-" ++ xs ++ x :: t = 45 :: (xs ++ x :: t) := by simp [dash]
      rw [e2]
      cases hq : xs ++ x :: t with
      | nil => simp at hq
      | cons y ys =>
        rw [hq] at e1 hne
        rw [W.read_short (by simpa using hne), e1]

end

/-! ## Values and flags -/

theorem inj_of_nodup_map {α β : Type} {f : α → β} {l : List α} (h : (l.map f).Nodup) {a b : α} (ha : a ∈ l) (hb : b ∈ l) (e : f a = f b) : a = b := by
  induction l with
  | nil => simp at ha
  | cons x t ih =>
    rw [List.map_cons, List.nodup_cons] at h
    rcases List.mem_cons.mp ha with rfl | ha' <;> rcases List.mem_cons.mp hb with rfl | hb'
    · rfl
    · exact absurd (List.mem_map.mpr ⟨b, hb', e.symm⟩) h.1
    · exact absurd (List.mem_map.mpr ⟨a, ha', e⟩) h.1
    · exact ih h.2 ha' hb'

theorem inj_of_nodup_filterMap {α β : Type} {f : α → Option β} {l : List α} (h : (l.filterMap f).Nodup) {a b : α} (ha : a ∈ l) (hb : b ∈ l)
    (hn : f a ≠ none) (e : f a = f b) : a = b := by
  induction l with
  | nil => simp at ha
  | cons x t ih =>
    have key : ∀ {y z : α}, (x :: t).filterMap f = (f x).toList ++ t.filterMap f := by
      intro _ _; cases hx : f x <;> simp [hx]
    rw [key (y := a) (z := a)] at h
    have h2 := (List.nodup_append.mp h).2.1
    have h3 := (List.nodup_append.mp h).2.2
    rcases List.mem_cons.mp ha with rfl | ha' <;> rcases List.mem_cons.mp hb with rfl | hb'
    · rfl
    · cases hv : f a with
      | none => exact absurd hv hn
      | some v => exact absurd rfl (h3 v (by simp [hv]) v (List.mem_filterMap.mpr ⟨b, hb', by rw [← e, hv]⟩))
    · cases hv : f a with
      | none => exact absurd hv hn
      | some v => exact absurd rfl (h3 v (by rw [← e, hv]; simp) v (List.mem_filterMap.mpr ⟨a, ha', hv⟩))
    · exact ih h2 ha' hb'

/-- A table is well formed if some lists have no duplicates. -/
theorem CmdDef.wf_of {c : CmdDef} (h1 : c.subs = []) (h2 : ∀ o ∈ c.opts, o.takes ≠ .maybe)
    (h3 : ∀ n ∈ c.opts.filterMap (·.long), n ≠ [] ∧ (61 : UInt8) ∉ n) (h4 : (45 : UInt8) ∉ c.opts.filterMap (·.short))
    (h5 : (c.opts.filterMap (·.long)).Nodup) (h6 : (c.opts.filterMap (·.short)).Nodup) (h7 : (c.opts.map (·.arg)).Nodup) : c.WF where
  subs := h1
  takes := h2
  long := fun o ho n hn => h3 n (List.mem_filterMap.mpr ⟨o, ho, hn⟩)
  short := fun o ho e => h4 (List.mem_filterMap.mpr ⟨o, ho, e⟩)
  longs := fun _ ho _ ho' hn e => inj_of_nodup_filterMap h5 ho ho' hn e
  shorts := fun _ ho _ ho' hn e => inj_of_nodup_filterMap h6 ho ho' hn e
  args := fun _ ho _ ho' e => inj_of_nodup_map h7 ho ho' e

theorem createDef_wf (ft : Features) : (createDef ft).WF := by
  refine CmdDef.wf_of rfl ?_ ?_ ?_ ?_ ?_ ?_
  · simp [createDef, concatOpts, verboseOpt, helpOpt]
  all_goals simp only [createDef, concatOpts, verboseOpt, helpOpt, List.cons_append, List.nil_append, List.filterMap_cons, List.filterMap_nil, List.map_cons, List.map_nil]; decide +kernel

theorem listDef_wf : listDef.WF := by
  refine CmdDef.wf_of rfl ?_ ?_ ?_ ?_ ?_ ?_
  · simp [listDef, verboseOpt, helpOpt]
  all_goals simp only [listDef, verboseOpt, helpOpt, List.filterMap_cons, List.filterMap_nil, List.map_cons, List.map_nil]; decide +kernel

theorem dumpDef_wf : dumpDef.WF := by
  refine CmdDef.wf_of rfl ?_ ?_ ?_ ?_ ?_ ?_
  · simp [dumpDef, verboseOpt, helpOpt]
  all_goals simp only [dumpDef, verboseOpt, helpOpt, List.filterMap_cons, List.filterMap_nil, List.map_cons, List.map_nil]; decide +kernel

theorem extractDef_wf : extractDef.WF := by
  refine CmdDef.wf_of rfl ?_ ?_ ?_ ?_ ?_ ?_
  · simp [extractDef, verboseOpt, helpOpt]
  all_goals simp only [extractDef, verboseOpt, helpOpt, List.filterMap_cons, List.filterMap_nil, List.map_cons, List.map_nil]; decide +kernel

theorem mountDef_wf : mountDef.WF := by
  refine CmdDef.wf_of rfl ?_ ?_ ?_ ?_ ?_ ?_
  · simp [mountDef, verboseOpt, helpOpt]
  all_goals simp only [mountDef, verboseOpt, helpOpt, List.filterMap_cons, List.filterMap_nil, List.map_cons, List.map_nil]; decide +kernel

theorem tarDef_wf (ft : Features) : (tarDef ft).WF := by
  refine CmdDef.wf_of rfl ?_ ?_ ?_ ?_ ?_ ?_
  · simp [tarDef, toolOpts, concatOpts, versionOpt, helpOpt]
  all_goals simp only [tarDef, toolOpts, concatOpts, versionOpt, helpOpt, List.cons_append, List.nil_append, List.filterMap_cons, List.filterMap_nil, List.map_cons, List.map_nil]; decide +kernel

theorem zipDef_wf (ft : Features) : (zipDef ft).WF := by
  refine CmdDef.wf_of rfl ?_ ?_ ?_ ?_ ?_ ?_
  · simp [zipDef, toolOpts, concatOpts, versionOpt, helpOpt]
  all_goals simp only [zipDef, toolOpts, concatOpts, versionOpt, helpOpt, List.cons_append, List.nil_append, List.filterMap_cons, List.filterMap_nil, List.map_cons, List.map_nil]; decide +kernel

theorem fuseDef_wf : fuseDef.WF := by
  refine CmdDef.wf_of rfl ?_ ?_ ?_ ?_ ?_ ?_
  · simp [fuseDef, versionOpt, helpOpt]
  all_goals simp only [fuseDef, versionOpt, helpOpt, List.filterMap_cons, List.filterMap_nil, List.map_cons, List.map_nil]; decide +kernel

theorem autoDef_wf : autoDef.WF := by
  refine CmdDef.wf_of rfl ?_ ?_ ?_ ?_ ?_ ?_
  · simp [autoDef, verboseOpt, versionOpt, helpOpt]
  all_goals simp only [autoDef, verboseOpt, versionOpt, helpOpt, List.filterMap_cons, List.filterMap_nil, List.map_cons, List.map_nil]; decide +kernel

section
variable {c : CmdDef} {l : List Use}

/-- An argument that takes one value has the value that was given. -/
theorem Allowed.gives (h : Allowed c l) {o : OptDef} (ho : o ∈ c.opts) (ht : o.takes = .value) : GivesValue l o.arg (valueOf l o.arg) := by
  have hpw := h.once
  clear h
  intro v
  unfold valueOf
  induction l with
  | nil => simp
  | cons u l ih =>
    have hc := List.pairwise_cons.mp hpw
    have ih := ih hc.2
    by_cases hu : ∃ w, u = .value o.arg w
    · obtain ⟨w, rfl⟩ := hu
      simp only [List.findSome?_cons, Use.valueFor, if_true, Option.some.injEq, List.mem_cons, Use.value.injEq, true_and]
      constructor
      · intro e; exact Or.inl e.symm
      · rintro (e | e)
        · exact e.symm
        · exact absurd rfl (hc.1 _ e o ho (by rw [ht]; simp) (by rw [ht]; simp) rfl)
    · have hz : Use.valueFor o.arg u = none := by
        cases u with
        | value b w =>
          by_cases hb : b = o.arg
          · exact absurd ⟨w, by rw [hb]⟩ hu
          · simp [Use.valueFor, hb]
        | flag _ => rfl
        | word _ => rfl
      rw [List.findSome?_cons, hz]
      simp only [List.mem_cons]
      rw [ih]
      constructor
      · intro h; exact Or.inr h
      · rintro (e | e)
        · exact absurd ⟨v, e.symm⟩ hu
        · exact e

/-- A flag is used iff it was given. -/
theorem CmdDef.WF.gives_flag (W : c.WF) (h : Allowed c l) {o : OptDef} (ho : o ∈ c.opts) (ht : o.check = noValue) :
    GivesFlag l o.arg (usedIn l o.arg) := by
  unfold GivesFlag
  rw [usedIn_iff]
  constructor
  · rintro ⟨u, h1, h2⟩
    cases u with
    | flag b => rw [← show b = o.arg from h2]; exact h1
    | value b v =>
      obtain ⟨o', g1, g2, g3⟩ := h.values b v h1
      have : o' = o := W.args o' g1 o ho (by rw [g2]; exact h2)
      rw [this, ht] at g3
      simp [noValue] at g3
    | word _ => exact h2.elim
  · intro hm; exact ⟨_, hm, rfl⟩

/-- An argument that takes a value is used iff it has one. -/
theorem CmdDef.WF.used_value (W : c.WF) (hk : ∀ u ∈ l, u.Known c) {o : OptDef} (ho : o ∈ c.opts) (ht : o.takes = .value) :
    usedIn l o.arg = true ↔ ∃ v, .value o.arg v ∈ l := by
  rw [usedIn_iff]
  constructor
  · rintro ⟨u, h1, h2⟩
    cases u with
    | flag b =>
      obtain ⟨o', g1, g2, g3⟩ := hk _ h1
      have : o' = o := W.args o' g1 o ho (by rw [g2]; exact h2)
      rw [this] at g3
      rcases g3 with g3 | g3 <;> rw [ht] at g3 <;> exact absurd g3 (by simp)
    | value b v => rw [← show b = o.arg from h2]; exact ⟨v, h1⟩
    | word _ => exact h2.elim
  · rintro ⟨v, hm⟩; exact ⟨_, hm, rfl⟩

end

theorem GivesValue.unique {l : List Use} {a : Arg} {r r' : Option Bytes} (h : GivesValue l a r) (h' : GivesValue l a r') : r = r' := by
  cases r with
  | some v => exact ((h' v).mpr ((h v).mp rfl)).symm
  | none =>
    cases r' with
    | none => rfl
    | some v => exact (h v).mpr ((h' v).mp rfl)

theorem GivesFlag.unique {l : List Use} {a : Arg} {b b' : Bool} (h : GivesFlag l a b) (h' : GivesFlag l a b') : b = b' := by
  have : b = true ↔ b' = true := h.trans h'.symm
  cases b <;> cases b' <;> simp_all

end Arx
