import Verif.Spec.Display

/-!
# Unique readability of printed texts
-/

set_option linter.unusedSectionVars false

namespace Algebraics

/-! ## Lists of characters -/

/-- the text is empty or starts with a character that does not satisfy `P`. -/
def StartsOutside (P : Char → Prop) (r : Text) : Prop := ∀ c r', r = c :: r' → ¬ P c

theorem StartsOutside.nil {P : Char → Prop} : StartsOutside P [] := by
  intro c r' h; cases h

theorem StartsOutside.cons {P : Char → Prop} {c : Char} {r : Text} (h : ¬ P c) :
    StartsOutside P (c :: r) := by
  intro d r' hd; cases hd; exact h

theorem StartsOutside.literal {P : Char → Prop} {s : Text} {r : Text} (c : Char)
    (h : s.head? = some c) (hc : ¬ P c) : StartsOutside P (s ++ r) := by
  cases s with
  | nil => cases h
  | cons d s =>
    simp only [List.head?_cons, Option.some.injEq] at h
    subst h
    exact StartsOutside.cons hc

theorem span_unique {P : Char → Prop} : ∀ {u u' r r' : Text}, (∀ c ∈ u, P c) → (∀ c ∈ u', P c) →
    StartsOutside P r → StartsOutside P r' → u ++ r = u' ++ r' → u = u' ∧ r = r' := by
  intro u
  induction u with
  | nil =>
    intro u' r r' _ h' hr hr' h
    cases u' with
    | nil => exact ⟨rfl, by simpa using h⟩
    | cons c u' =>
      exact absurd (h' c (by simp)) (hr c (u' ++ r') (by simpa using h))
  | cons c u ih =>
    intro u' r r' hu h' hr hr' h
    cases u' with
    | nil => exact absurd (hu c (by simp)) (hr' c (u ++ r) (by simpa using h.symm))
    | cons d u' =>
      simp only [List.cons_append, List.cons.injEq] at h
      obtain ⟨rfl, h⟩ := h
      obtain ⟨rfl, rfl⟩ := ih (fun x hx => hu x (by simp [hx])) (fun x hx => h' x (by simp [hx]))
        hr hr' h
      exact ⟨rfl, rfl⟩

/-- counting parentheses: the number of open ones, `none` when one is closed that was not opened. -/
def scan : ℕ → Text → Option ℕ
  | d, [] => some d
  | d, c :: cs =>
    if c = '(' then scan (d + 1) cs
    else if c = ')' then (match d with
      | 0 => none
      | d + 1 => scan d cs)
    else scan d cs

/-- every parenthesis is matched -/
def Balanced (u : Text) : Prop := scan 0 u = some 0

theorem scan_append (u v : Text) : ∀ d, scan d (u ++ v) = (scan d u).bind (scan · v) := by
  induction u with
  | nil => intro d; rfl
  | cons c u ih =>
    intro d
    simp only [List.cons_append, scan]
    by_cases h1 : c = '('
    · rw [if_pos h1, if_pos h1, ih]
    · rw [if_neg h1, if_neg h1]
      by_cases h2 : c = ')'
      · rw [if_pos h2, if_pos h2]
        cases d with
        | zero => rfl
        | succ d => exact ih d
      · rw [if_neg h2, if_neg h2, ih]

theorem scan_add (u : Text) (e : ℕ) : ∀ d f, scan d u = some f → scan (d + e) u = some (f + e) := by
  induction u with
  | nil => intro d f h; simp only [scan, Option.some.injEq] at h ⊢; omega
  | cons c u ih =>
    intro d f
    simp only [scan]
    by_cases h1 : c = '('
    · rw [if_pos h1, if_pos h1, show d + e + 1 = d + 1 + e by omega]; exact ih _ _
    · rw [if_neg h1, if_neg h1]
      by_cases h2 : c = ')'
      · rw [if_pos h2, if_pos h2]
        cases d with
        | zero => intro h; cases h
        | succ d => rw [show d + 1 + e = (d + e) + 1 by omega]; exact ih d f
      · rw [if_neg h2, if_neg h2]; exact ih _ _

theorem Balanced.append {u v : Text} (hu : Balanced u) (hv : Balanced v) : Balanced (u ++ v) := by
  unfold Balanced at *
  rw [scan_append, hu]; exact hv

theorem Balanced.paren {u : Text} (hu : Balanced u) : Balanced ('(' :: (u ++ [')'])) := by
  unfold Balanced at *
  have h1 : scan 0 ('(' :: (u ++ [')'])) = scan 1 (u ++ [')']) := rfl
  rw [h1, scan_append, scan_add u 1 0 0 hu]
  rfl

theorem Balanced.of_no_paren {u : Text} (h : ∀ c ∈ u, c ≠ '(' ∧ c ≠ ')') : Balanced u := by
  unfold Balanced
  induction u with
  | nil => rfl
  | cons c u ih =>
    rw [scan, if_neg (h c (by simp)).1, if_neg (h c (by simp)).2]
    exact ih fun x hx => h x (by simp [hx])

theorem balanced_unique {u u' r r' : Text} (hu : Balanced u) (hu' : Balanced u')
    (h : u ++ ')' :: r = u' ++ ')' :: r') : u = u' ∧ r = r' := by
  have aux : ∀ {u u' r r' : Text} {w : Text}, Balanced u → Balanced u' → u' = u ++ w →
      ')' :: r = w ++ ')' :: r' → w = [] := by
    intro u u' r r' w hu hu' hw hr
    cases w with
    | nil => rfl
    | cons c w =>
      simp only [List.cons_append, List.cons.injEq] at hr
      obtain ⟨rfl, _⟩ := hr
      unfold Balanced at hu hu'
      rw [hw, scan_append, hu] at hu'
      simp [scan] at hu'
  rcases List.append_eq_append_iff.mp h with ⟨w, h1, h2⟩ | ⟨w, h1, h2⟩
  · have := aux hu hu' h1 h2
    subst this
    simp at h1 h2
    exact ⟨h1.symm, h2⟩
  · have := aux hu' hu h1 h2
    subst this
    simp at h1 h2
    exact ⟨h1, h2.symm⟩

/-! ## Numbers -/

theorem decimal_digits (n : ℕ) : ∀ c ∈ decimal n, c.isDigit = true := fun _ h =>
  Nat.isDigit_of_mem_toDigits (by decide) (by decide) h

theorem decimal_injective {m n : ℕ} (h : decimal m = decimal n) : m = n := by
  have := congrArg (fun l => Nat.ofDigitChars 10 l 0) h
  simpa [decimal, Nat.ofDigitChars_ten_toDigits] using this

theorem decimal_ne_nil (n : ℕ) : decimal n ≠ [] := Nat.toDigits_ne_nil

theorem decimal_unique {m n : ℕ} {r r' : Text} (hr : StartsOutside (·.isDigit = true) r)
    (hr' : StartsOutside (·.isDigit = true) r') (h : decimal m ++ r = decimal n ++ r') :
    m = n ∧ r = r' := by
  obtain ⟨h1, h2⟩ := span_unique (decimal_digits m) (decimal_digits n) hr hr' h
  exact ⟨decimal_injective h1, h2⟩

/-- a character of an integer -/
def IntChar (c : Char) : Prop := c.isDigit = true ∨ c = '-'

theorem intText_chars (z : ℤ) : ∀ c ∈ intText z, IntChar c := by
  intro c hc
  unfold intText at hc
  split_ifs at hc
  · rcases List.mem_cons.mp hc with rfl | hc
    · exact Or.inr rfl
    · exact Or.inl (decimal_digits _ c hc)
  · exact Or.inl (decimal_digits _ c hc)

theorem decimal_head_ne (n : ℕ) (c : Char) (hc : c.isDigit = false) (l : Text) :
    decimal n ≠ c :: l := by
  intro h
  have := decimal_digits n c (by rw [h]; simp)
  rw [hc] at this; cases this

theorem intText_injective {y z : ℤ} (h : intText y = intText z) : y = z := by
  unfold intText at h
  split_ifs at h with h1 h2 h2
  · simp only [List.cons.injEq, true_and] at h
    have := decimal_injective h
    omega
  · exact absurd h.symm (decimal_head_ne _ _ (by decide) _)
  · exact absurd h (decimal_head_ne _ _ (by decide) _)
  · have := decimal_injective h
    omega

theorem intText_unique {y z : ℤ} {r r' : Text} (hr : StartsOutside IntChar r)
    (hr' : StartsOutside IntChar r') (h : intText y ++ r = intText z ++ r') : y = z ∧ r = r' := by
  obtain ⟨h1, h2⟩ := span_unique (intText_chars y) (intText_chars z) hr hr' h
  exact ⟨intText_injective h1, h2⟩

/-! ## Variable names -/

/-- a character of a variable name -/
def NameChar (c : Char) : Prop := c ∈ variableChars

theorem variableName_eq (n : ℕ) : variableName n =
    if n < 26 then [variableChars.getD n ' ']
    else variableName (n / 26) ++ [variableChars.getD (n % 26) ' '] := by
  conv_lhs => unfold variableName
  rfl

theorem variableChars_getD_mem {n : ℕ} (h : n < 26) : variableChars.getD n ' ' ∈ variableChars := by
  have : n < variableChars.length := h
  rw [List.getD_eq_getElem?_getD, List.getElem?_eq_getElem this]
  exact List.getElem_mem this

theorem variableChars_getD_inj {m n : ℕ} (hm : m < 26) (hn : n < 26)
    (h : variableChars.getD m ' ' = variableChars.getD n ' ') : m = n := by
  have hnd : variableChars.Nodup := by decide
  have hm' : m < variableChars.length := hm
  have hn' : n < variableChars.length := hn
  rw [List.getD_eq_getElem?_getD, List.getElem?_eq_getElem hm', List.getD_eq_getElem?_getD,
    List.getElem?_eq_getElem hn'] at h
  exact (List.Nodup.getElem_inj_iff hnd).mp h

theorem variableName_chars (n : ℕ) : ∀ c ∈ variableName n, NameChar c := by
  induction n using Nat.strong_induction_on with
  | _ n ih =>
    intro c hc
    rw [variableName_eq] at hc
    split_ifs at hc with h
    · rw [List.mem_singleton] at hc
      subst hc
      exact variableChars_getD_mem h
    · rcases List.mem_append.mp hc with hc | hc
      · exact ih _ (by omega) c hc
      · rw [List.mem_singleton] at hc
        subst hc
        exact variableChars_getD_mem (Nat.mod_lt _ (by decide))

theorem variableName_ne_nil (n : ℕ) : variableName n ≠ [] := by
  rw [variableName_eq]; split_ifs <;> simp

theorem variableName_injective {m n : ℕ} (h : variableName m = variableName n) : m = n := by
  induction m using Nat.strong_induction_on generalizing n with
  | _ m ih =>
    rw [variableName_eq m, variableName_eq n] at h
    split_ifs at h with h1 h2 h2
    · exact variableChars_getD_inj h1 h2 (by simpa using h)
    · exfalso
      have h' := congrArg List.length h
      have := List.length_pos_of_ne_nil (variableName_ne_nil (n / 26))
      simp only [List.length_append, List.length_cons, List.length_nil] at h'
      omega
    · exfalso
      have h' := congrArg List.length h
      have := List.length_pos_of_ne_nil (variableName_ne_nil (m / 26))
      simp only [List.length_append, List.length_cons, List.length_nil] at h'
      omega
    · have h3 := List.append_inj' h rfl
      have h4 := ih (m / 26) (by omega) h3.1
      have h5 := variableChars_getD_inj (Nat.mod_lt m (by decide)) (Nat.mod_lt n (by decide))
        (by simpa using h3.2)
      omega

/-! ## What may follow the text of a coefficient -/

/-- the end of a text, or of a text inside another one. -/
def AtEnd (r : Text) : Prop := r = [] ∨ (∃ r', r = ')' :: r') ∨ ∃ r', r = ',' :: r'

/-- what may follow a coefficient of nesting depth `n`. -/
def Follow (n : ℕ) (r : Text) : Prop :=
  AtEnd r ∨ (n = 0 ∧ ((∃ r', r = '*' :: r') ∨ ∃ r', r = ' ' :: r')) ∨
    (n ≠ 0 ∧ ∃ (t : Text) (k : ℕ) (r' : Text), Balanced t ∧ n ≤ k ∧ StartsOutside NameChar r' ∧
      r = ' ' :: '+' :: ' ' :: '(' :: (t ++ ')' :: '*' :: (variableName k ++ r')))

/-- texts of nesting depth `n` that can be read back inside longer texts. -/
structure Readable {T : Type} [Zero T] (n : ℕ) (text : T → Text) : Prop where
  balanced : ∀ c, Balanced (text c)
  unique : ∀ c d r r', Follow n r → Follow n r' → text c ++ r = text d ++ r' → c = d ∧ r = r'
  zero : ∀ c r r', Follow n r → Follow n r' → '0' :: r = text c ++ r' → c = 0 ∧ r = r'
  noParen : n = 0 → ∀ c l, text c ≠ '(' :: l

theorem Follow.nil (n : ℕ) : Follow n [] := Or.inl (Or.inl rfl)

theorem Follow.of_succ {n : ℕ} {r : Text} (h : Follow (n + 1) r) : Follow n r := by
  rcases h with h | ⟨h, _⟩ | ⟨_, t, k, r', hb, hk, ho, rfl⟩
  · exact Or.inl h
  · omega
  · by_cases hn : n = 0
    · exact Or.inr (Or.inl ⟨hn, Or.inr ⟨_, rfl⟩⟩)
    · exact Or.inr (Or.inr ⟨hn, t, k, r', hb, by omega, ho, rfl⟩)

theorem Follow.first {n : ℕ} {r : Text} (h : Follow n r) (c : Char) (r' : Text) (hr : r = c :: r') :
    c = ')' ∨ c = ',' ∨ c = '*' ∨ c = ' ' := by
  subst hr
  rcases h with (h | ⟨_, h⟩ | ⟨_, h⟩) | ⟨_, ⟨_, h⟩ | ⟨_, h⟩⟩ | ⟨_, _, _, _, _, _, _, h⟩ <;>
    simp only [List.cons.injEq, reduceCtorEq] at h <;> simp [h.1]

theorem Follow.outside {n : ℕ} {r : Text} (h : Follow n r) (P : Char → Prop)
    (h1 : ¬ P ')') (h2 : ¬ P ',') (h3 : ¬ P '*') (h4 : ¬ P ' ') : StartsOutside P r := by
  intro c r' hr
  rcases h.first c r' hr with rfl | rfl | rfl | rfl <;> assumption

section step
variable {T : Type} [CommRing T] [Printable T]

theorem PrintedTerm.written_zero (h0 : Printable.nestingDepth T = 0) (t : PrintedTerm T) :
    t.written = ' ' :: '+' :: ' ' :: (Printable.text t.coefficient ++ '*' ::
      (variableName 0 ++ (match t.exponent with
        | none => []
        | some k => '^' :: decimal k))) := by
  unfold PrintedTerm.written
  rw [if_pos h0, h0]
  cases t.exponent <;> simp

theorem PrintedTerm.written_pos (h0 : Printable.nestingDepth T ≠ 0) (t : PrintedTerm T) :
    t.written = ' ' :: '+' :: ' ' :: '(' :: (Printable.text t.coefficient ++ ')' :: '*' ::
      (variableName (Printable.nestingDepth T) ++ (match t.exponent with
        | none => []
        | some k => '^' :: decimal k))) := by
  unfold PrintedTerm.written
  rw [if_neg h0]
  cases t.exponent <;> simp

/-- the text after the variable name -/
def exponentText (e : Option ℕ) : Text :=
  match e with
  | none => []
  | some k => '^' :: decimal k

theorem not_nameChar_follow {n : ℕ} {r : Text} (h : Follow n r) : StartsOutside NameChar r :=
  h.outside _ (by unfold NameChar; decide) (by unfold NameChar; decide)
    (by unfold NameChar; decide) (by unfold NameChar; decide)

theorem not_digit_follow {n : ℕ} {r : Text} (h : Follow n r) :
    StartsOutside (·.isDigit = true) r :=
  h.outside _ (by decide) (by decide) (by decide) (by decide)

theorem exponentText_outside {n : ℕ} {r : Text} (e : Option ℕ) (h : Follow n r) :
    StartsOutside NameChar (exponentText e ++ r) := by
  cases e with
  | none => exact not_nameChar_follow h
  | some k => exact StartsOutside.cons (by unfold NameChar; decide)

theorem exponentText_unique {n : ℕ} {r r' : Text} {e e' : Option ℕ} (h : Follow n r)
    (h' : Follow n r') (he : exponentText e ++ r = exponentText e' ++ r') : e = e' ∧ r = r' := by
  have aux : ∀ {r : Text} (k : ℕ) (r' : Text), Follow n r → r = '^' :: (decimal k ++ r') → False := by
    intro r k r' h hr
    rcases h.first _ _ hr with h | h | h | h <;> simp at h
  cases e with
  | none =>
    cases e' with
    | none => exact ⟨rfl, he⟩
    | some k => exact (aux k r' h he).elim
  | some k =>
    cases e' with
    | none => exact (aux k r h' he.symm).elim
    | some k' =>
      simp only [exponentText, List.cons_append, List.cons.injEq, true_and] at he
      obtain ⟨rfl, rfl⟩ := decimal_unique (not_digit_follow h) (not_digit_follow h') he
      exact ⟨rfl, rfl⟩

/-- all the products of a sum -/
def termsText (ts : List (PrintedTerm T)) : Text := (ts.map PrintedTerm.written).flatten

theorem termsText_cons (t : PrintedTerm T) (ts : List (PrintedTerm T)) :
    termsText (t :: ts) = t.written ++ termsText ts := by
  simp [termsText]

theorem follow_terms (hb : ∀ c : T, Balanced (Printable.text c)) (ts : List (PrintedTerm T))
    {r : Text} (hr : Follow (Printable.nestingDepth T + 1) r) :
    Follow (Printable.nestingDepth T) (termsText ts ++ r) := by
  induction ts with
  | nil => exact hr.of_succ
  | cons t ts ih =>
    rw [termsText_cons]
    by_cases h0 : Printable.nestingDepth T = 0
    · rw [t.written_zero h0]
      exact Or.inr (Or.inl ⟨h0, Or.inr ⟨_, rfl⟩⟩)
    · rw [t.written_pos h0]
      refine Or.inr (Or.inr ⟨h0, Printable.text t.coefficient, Printable.nestingDepth T,
        exponentText t.exponent ++ (termsText ts ++ r), hb _, le_refl _,
        exponentText_outside _ ih, ?_⟩)
      simp [exponentText]

theorem term_ne_follow (H : Readable (T := T) (Printable.nestingDepth T) Printable.text)
    (t : PrintedTerm T) {s r : Text} (hr : Follow (Printable.nestingDepth T + 1) r)
    (hs : Follow (Printable.nestingDepth T) s) (h : r = t.written ++ s) : False := by
  by_cases h0 : Printable.nestingDepth T = 0
  · rw [t.written_zero h0] at h
    rcases hr with (hr | ⟨_, hr⟩ | ⟨_, hr⟩) | ⟨hr, _⟩ | ⟨_, u, k, r', hb, hk, ho, hr⟩
    · rw [h] at hr; cases hr
    · rw [h] at hr; cases hr
    · rw [h] at hr; cases hr
    · omega
    · rw [h] at hr
      simp only [List.cons_append, List.cons.injEq, true_and, List.append_assoc] at hr
      cases ht : Printable.text t.coefficient with
      | nil => rw [ht] at hr; simp at hr
      | cons c l =>
        rw [ht] at hr
        simp only [List.cons_append, List.cons.injEq] at hr
        exact H.noParen h0 _ _ (by rw [ht, hr.1])
  · rw [t.written_pos h0] at h
    rcases hr with (hr | ⟨_, hr⟩ | ⟨_, hr⟩) | ⟨hr, _⟩ | ⟨_, u, k, r', hb, hk, ho, hr⟩
    · rw [h] at hr; cases hr
    · rw [h] at hr; cases hr
    · rw [h] at hr; cases hr
    · omega
    · rw [h] at hr
      simp only [List.cons_append, List.cons.injEq, true_and, List.append_assoc] at hr
      obtain ⟨_, h2⟩ := balanced_unique (H.balanced _) hb hr
      simp only [List.cons.injEq, true_and] at h2
      obtain ⟨h3, _⟩ := span_unique (variableName_chars _) (variableName_chars _)
        (exponentText_outside t.exponent hs) ho h2
      have := variableName_injective h3
      omega

theorem terms_unique (H : Readable (T := T) (Printable.nestingDepth T) Printable.text)
    (ts : List (PrintedTerm T)) : ∀ (ts' : List (PrintedTerm T)) (r r' : Text),
    Follow (Printable.nestingDepth T + 1) r → Follow (Printable.nestingDepth T + 1) r' →
    termsText ts ++ r = termsText ts' ++ r' → ts = ts' ∧ r = r' := by
  induction ts with
  | nil =>
    intro ts' r r' hr hr' h
    cases ts' with
    | nil => exact ⟨rfl, h⟩
    | cons t ts' =>
      rw [termsText_cons, List.append_assoc] at h
      exact (term_ne_follow H t hr (follow_terms H.balanced ts' hr') h).elim
  | cons t ts ih =>
    intro ts' r r' hr hr' h
    cases ts' with
    | nil =>
      rw [termsText_cons, List.append_assoc] at h
      exact (term_ne_follow H t hr' (follow_terms H.balanced ts hr) h.symm).elim
    | cons t' ts' =>
      rw [termsText_cons, termsText_cons, List.append_assoc, List.append_assoc] at h
      have hf := follow_terms H.balanced ts hr
      have hf' := follow_terms H.balanced ts' hr'
      have key : t = t' ∧ termsText ts ++ r = termsText ts' ++ r' := by
        obtain ⟨c, e⟩ := t
        obtain ⟨c', e'⟩ := t'
        by_cases h0 : Printable.nestingDepth T = 0
        · rw [PrintedTerm.written_zero h0, PrintedTerm.written_zero h0] at h
          simp only [List.cons_append, List.cons.injEq, true_and, List.append_assoc] at h
          obtain ⟨rfl, h2⟩ := H.unique _ _ _ _ (Or.inr (Or.inl ⟨h0, Or.inl ⟨_, rfl⟩⟩))
            (Or.inr (Or.inl ⟨h0, Or.inl ⟨_, rfl⟩⟩)) h
          simp only [List.cons.injEq, true_and] at h2
          have h3 := List.append_cancel_left h2
          obtain ⟨rfl, h4⟩ := exponentText_unique hf hf' h3
          exact ⟨rfl, h4⟩
        · rw [PrintedTerm.written_pos h0, PrintedTerm.written_pos h0] at h
          simp only [List.cons_append, List.cons.injEq, true_and, List.append_assoc] at h
          obtain ⟨rfl, h2⟩ := H.unique _ _ _ _ (Or.inl (Or.inr (Or.inl ⟨_, rfl⟩)))
            (Or.inl (Or.inr (Or.inl ⟨_, rfl⟩))) h
          simp only [List.cons.injEq, true_and] at h2
          have h3 := List.append_cancel_left h2
          obtain ⟨rfl, h4⟩ := exponentText_unique hf hf' h3
          exact ⟨rfl, h4⟩
      obtain ⟨rfl, h2⟩ := key
      obtain ⟨rfl, rfl⟩ := ih _ _ _ hr hr' h2
      exact ⟨rfl, rfl⟩

/-- the constant term: its text, or a bare zero. -/
def FirstText (c : T) (s : Text) : Prop := s = Printable.text c ∨ c = 0 ∧ s = "0".toList

theorem first_unique (H : Readable (T := T) (Printable.nestingDepth T) Printable.text) {c c' : T}
    {s s' r r' : Text} (hs : FirstText c s) (hs' : FirstText c' s')
    (hr : Follow (Printable.nestingDepth T) r) (hr' : Follow (Printable.nestingDepth T) r')
    (h : s ++ r = s' ++ r') : c = c' ∧ r = r' := by
  rcases hs with rfl | ⟨rfl, rfl⟩ <;> rcases hs' with rfl | ⟨rfl, rfl⟩
  · exact H.unique _ _ _ _ hr hr' h
  · obtain ⟨h1, h2⟩ := H.zero _ _ _ hr' hr h.symm
    exact ⟨h1, h2.symm⟩
  · obtain ⟨h1, h2⟩ := H.zero _ _ _ hr hr' h
    exact ⟨h1.symm, h2⟩
  · exact ⟨rfl, by simpa using h⟩

theorem sum_unique (H : Readable (T := T) (Printable.nestingDepth T) Printable.text) {c c' : T}
    {ts ts' : List (PrintedTerm T)} {s s' r r' : Text} (hs : FirstText c s) (hs' : FirstText c' s')
    (hr : Follow (Printable.nestingDepth T + 1) r) (hr' : Follow (Printable.nestingDepth T + 1) r')
    (h : s ++ termsText ts ++ r = s' ++ termsText ts' ++ r') : c = c' ∧ ts = ts' ∧ r = r' := by
  rw [List.append_assoc, List.append_assoc] at h
  obtain ⟨rfl, h2⟩ := first_unique H hs hs' (follow_terms H.balanced ts hr)
    (follow_terms H.balanced ts' hr') h
  obtain ⟨rfl, rfl⟩ := terms_unique H _ _ _ _ hr hr' h2
  exact ⟨rfl, rfl, rfl⟩

/-! ## The text of a polynomial -/

/-- the products that are printed for the coefficients from `X^i` on. -/
def printedTerms (i : ℕ) : List T → List (PrintedTerm T)
  | [] => []
  | c :: cs => ⟨c, if i = 1 then none else some i⟩ :: printedTerms (i + 1) cs

theorem printedTerms_injective : ∀ (cs cs' : List T) (i : ℕ),
    printedTerms i cs = printedTerms i cs' → cs = cs' := by
  intro cs
  induction cs with
  | nil => intro cs' i h; cases cs' with
    | nil => rfl
    | cons c cs' => cases h
  | cons c cs ih =>
    intro cs' i h
    cases cs' with
    | nil => cases h
    | cons c' cs' =>
      simp only [printedTerms, List.cons.injEq, PrintedTerm.mk.injEq, and_true] at h
      rw [h.1, ih _ _ h.2]

theorem coefficientText_succ (i : ℕ) (c : T) : coefficientText (i + 1) c =
    PrintedTerm.written ⟨c, if i + 1 = 1 then none else some (i + 1)⟩ := by
  cases i with
  | zero =>
    by_cases h0 : Printable.nestingDepth T = 0 <;> simp [coefficientText, PrintedTerm.written, h0]
  | succ i =>
    by_cases h0 : Printable.nestingDepth T = 0 <;> simp [coefficientText, PrintedTerm.written, h0]

theorem coefficientsText_succ (cs : List T) : ∀ i, coefficientsText (i + 1) cs =
    termsText (printedTerms (i + 1) cs) := by
  induction cs with
  | nil => intro i; rfl
  | cons c cs ih =>
    intro i
    rw [coefficientsText, printedTerms, termsText_cons, coefficientText_succ, ih]

variable [PolyCoeff T]

theorem poly_text_eq (p : Poly T) : ∃ (c : T) (cs : List T) (s : Text), FirstText c s ∧
    p.text = s ++ termsText (printedTerms 1 cs) ∧
    (p.coeffs = c :: cs ∨ p.coeffs = [] ∧ c = 0 ∧ cs = []) := by
  unfold Poly.text
  cases hc : p.coeffs with
  | nil => exact ⟨0, [], "0".toList, Or.inr ⟨rfl, rfl⟩, rfl, Or.inr ⟨rfl, rfl, rfl⟩⟩
  | cons c cs =>
    refine ⟨c, cs, Printable.text c, Or.inl rfl, ?_, Or.inl rfl⟩
    rw [← coefficientsText_succ]
    rfl

theorem balanced_exponent (e : Option ℕ) : Balanced (exponentText e) := by
  apply Balanced.of_no_paren
  intro c hc
  cases e with
  | none => cases hc
  | some k =>
    rcases List.mem_cons.mp hc with rfl | hc
    · decide
    · have := decimal_digits k c hc
      constructor <;> rintro rfl <;> cases this

theorem balanced_name (n : ℕ) : Balanced (variableName n) := by
  apply Balanced.of_no_paren
  intro c hc
  have := variableName_chars n c hc
  constructor <;> rintro rfl <;> revert this <;> unfold NameChar <;> decide

theorem balanced_term (hb : ∀ c : T, Balanced (Printable.text c)) (t : PrintedTerm T) :
    Balanced t.written := by
  by_cases h0 : Printable.nestingDepth T = 0
  · have h : t.written = [' ', '+', ' '] ++ (Printable.text t.coefficient ++ (['*'] ++
      (variableName 0 ++ exponentText t.exponent))) := by
      rw [t.written_zero h0]; rfl
    rw [h]
    exact Balanced.append rfl ((hb _).append (Balanced.append rfl ((balanced_name _).append
      (balanced_exponent _))))
  · have h : t.written = [' ', '+', ' '] ++ (('(' :: (Printable.text t.coefficient ++ [')'])) ++
      (['*'] ++ (variableName (Printable.nestingDepth T) ++ exponentText t.exponent))) := by
      rw [t.written_pos h0]; simp [exponentText]
    rw [h]
    exact Balanced.append rfl ((hb _).paren.append (Balanced.append rfl ((balanced_name _).append
      (balanced_exponent _))))

theorem balanced_terms (hb : ∀ c : T, Balanced (Printable.text c)) (ts : List (PrintedTerm T)) :
    Balanced (termsText ts) := by
  induction ts with
  | nil => rfl
  | cons t ts ih => rw [termsText_cons]; exact (balanced_term hb t).append ih

theorem coeffs_ne_zero_singleton (p : Poly T) : p.coeffs ≠ [0] := by
  intro h
  have hne : p.coeffs ≠ [] := by rw [h]; simp
  apply Poly.coeffs_last p hne
  simp [h]

/-- polynomials over readable coefficients are readable. -/
theorem readable_poly (H : Readable (T := T) (Printable.nestingDepth T) Printable.text)
    [DecidableEq T] : Readable (T := Poly T) (Printable.nestingDepth T + 1) Poly.text where
  balanced p := by
    obtain ⟨c, cs, s, hs, hp, _⟩ := poly_text_eq p
    rw [hp]
    refine Balanced.append ?_ (balanced_terms H.balanced _)
    rcases hs with rfl | ⟨_, rfl⟩
    · exact H.balanced c
    · rfl
  unique p q r r' hr hr' h := by
    obtain ⟨c, cs, s, hs, hp, hc⟩ := poly_text_eq p
    obtain ⟨c', cs', s', hs', hq, hc'⟩ := poly_text_eq q
    rw [hp, hq] at h
    obtain ⟨rfl, h2, h3⟩ := sum_unique H hs hs' hr hr' h
    have h4 := printedTerms_injective _ _ _ h2
    subst h4
    refine ⟨Poly.coeffs_injective ?_, h3⟩
    rcases hc with hc | ⟨hc, rfl, rfl⟩ <;> rcases hc' with hc' | ⟨hc', h0, h1⟩
    · rw [hc, hc']
    · subst h0 h1; exact absurd hc (coeffs_ne_zero_singleton p)
    · exact absurd hc' (coeffs_ne_zero_singleton q)
    · rw [hc, hc']
  zero p r r' hr hr' h := by
    obtain ⟨c, cs, s, hs, hp, hc⟩ := poly_text_eq p
    rw [hp] at h
    obtain ⟨rfl, h2, h3⟩ := sum_unique (c := 0) (s := "0".toList) (ts := []) H
      (Or.inr ⟨rfl, rfl⟩) hs hr hr' h
    refine ⟨?_, h3⟩
    have h4 := printedTerms_injective [] cs 1 h2
    subst h4
    rcases hc with hc | ⟨hc, _, _⟩
    · exact absurd hc (coeffs_ne_zero_singleton p)
    · apply Poly.toPoly_injective
      rw [(Poly.coeffs_eq_nil_iff p).mp hc, Poly.toPoly_zero]
  noParen h := by omega

end step

/-! ## Integers, fractions and modular integers -/

theorem IntChar.not_paren {c : Char} (h : IntChar c) : c ≠ '(' ∧ c ≠ ')' := by
  constructor <;> rintro rfl <;> rcases h with h | h <;> revert h <;> decide

theorem not_intChar_follow {n : ℕ} {r : Text} (h : Follow n r) : StartsOutside IntChar r :=
  h.outside _ (by unfold IntChar; decide) (by unfold IntChar; decide) (by unfold IntChar; decide)
    (by unfold IntChar; decide)

theorem readable_int : Readable (T := ℤ) 0 intText where
  balanced z := Balanced.of_no_paren fun c hc => (intText_chars z c hc).not_paren
  unique _ _ _ _ hr hr' h := intText_unique (not_intChar_follow hr) (not_intChar_follow hr') h
  zero c r r' hr hr' h := by
    have h0 : intText 0 = ['0'] := rfl
    have h' : intText 0 ++ r = intText c ++ r' := by rw [h0]; exact h
    obtain ⟨h1, h2⟩ := intText_unique (not_intChar_follow hr) (not_intChar_follow hr') h'
    exact ⟨h1.symm, h2⟩
  noParen _ z l h := (intText_chars z '(' (by rw [h]; simp)).not_paren.1 rfl

theorem ratText_eq (q : ℚ) :
    ratText q = intText q.num ++ (if q.den = 1 then [] else '/' :: decimal q.den) := by
  unfold ratText; split_ifs <;> simp

/-- a character of a fraction -/
def RatChar (c : Char) : Prop := IntChar c ∨ c = '/'

theorem ratText_chars (q : ℚ) : ∀ c ∈ ratText q, RatChar c := by
  intro c hc
  rw [ratText_eq] at hc
  rcases List.mem_append.mp hc with hc | hc
  · exact Or.inl (intText_chars _ c hc)
  · split_ifs at hc
    · cases hc
    · rcases List.mem_cons.mp hc with rfl | hc
      · exact Or.inr rfl
      · exact Or.inl (Or.inl (decimal_digits _ c hc))

theorem RatChar.not_paren {c : Char} (h : RatChar c) : c ≠ '(' ∧ c ≠ ')' := by
  rcases h with h | rfl
  · exact h.not_paren
  · decide

theorem not_ratChar_follow {n : ℕ} {r : Text} (h : Follow n r) : StartsOutside RatChar r :=
  h.outside _ (by unfold RatChar IntChar; decide) (by unfold RatChar IntChar; decide)
    (by unfold RatChar IntChar; decide) (by unfold RatChar IntChar; decide)

theorem ratText_injective {p q : ℚ} (h : ratText p = ratText q) : p = q := by
  rw [ratText_eq, ratText_eq] at h
  have hout : ∀ q : ℚ, StartsOutside IntChar (if q.den = 1 then [] else '/' :: decimal q.den) := by
    intro q
    split_ifs
    · exact StartsOutside.nil
    · exact StartsOutside.cons (by unfold IntChar; decide)
  obtain ⟨h1, h2⟩ := intText_unique (hout p) (hout q) h
  refine Rat.ext h1 ?_
  split_ifs at h2 with h3 h4 h4
  · rw [h3, h4]
  · simp only [List.cons.injEq, true_and] at h2
    exact decimal_injective h2

theorem ratText_unique {p q : ℚ} {r r' : Text} (hr : StartsOutside RatChar r)
    (hr' : StartsOutside RatChar r') (h : ratText p ++ r = ratText q ++ r') : p = q ∧ r = r' := by
  obtain ⟨h1, h2⟩ := span_unique (ratText_chars p) (ratText_chars q) hr hr' h
  exact ⟨ratText_injective h1, h2⟩

theorem readable_rat : Readable (T := ℚ) 0 ratText where
  balanced z := Balanced.of_no_paren fun c hc => (ratText_chars z c hc).not_paren
  unique _ _ _ _ hr hr' h := ratText_unique (not_ratChar_follow hr) (not_ratChar_follow hr') h
  zero c r r' hr hr' h := by
    have h0 : ratText 0 = ['0'] := rfl
    have h' : ratText 0 ++ r = ratText c ++ r' := by rw [h0]; exact h
    obtain ⟨h1, h2⟩ := ratText_unique (not_ratChar_follow hr) (not_ratChar_follow hr') h'
    exact ⟨h1.symm, h2⟩
  noParen _ z l h := (ratText_chars z '(' (by rw [h]; simp)).not_paren.1 rfl

theorem balanced_decimal (n : ℕ) : Balanced (decimal n) := by
  apply Balanced.of_no_paren
  intro c hc
  have := decimal_digits n c hc
  constructor <;> rintro rfl <;> cases this

theorem modIntText_eq (m : ℕ) (v : ZMod m) : modIntText m v = 'm' :: ("od_int".toList ++ ('(' ::
    ((decimal v.val ++ ([',', ' '] ++ decimal m)) ++ [')']))) := by
  unfold modIntText
  generalize decimal v.val = a
  generalize decimal m = b
  simp

theorem modInt_balanced (m : ℕ) (v : ZMod m) : Balanced (modIntText m v) := by
  rw [modIntText_eq]
  generalize v.val = a
  exact Balanced.append (u := ['m']) rfl (Balanced.append (u := "od_int".toList) rfl
    (((balanced_decimal _).append (Balanced.append (u := [',', ' ']) rfl
      (balanced_decimal _))).paren))

theorem modInt_unique (m : ℕ) [NeZero m] (v w : ZMod m) (r r' : Text)
    (h : modIntText m v ++ r = modIntText m w ++ r') : v = w ∧ r = r' := by
  rw [modIntText_eq, modIntText_eq] at h
  simp only [List.append_assoc, List.cons_append, List.cons.injEq, true_and] at h
  have h1 := List.append_cancel_left h
  simp only [List.cons.injEq, true_and] at h1
  obtain ⟨h2, h3⟩ := decimal_unique (StartsOutside.cons (by decide))
    (StartsOutside.cons (by decide)) h1
  refine ⟨ZMod.val_injective m h2, ?_⟩
  simp only [List.cons.injEq, true_and] at h3
  have h4 := List.append_cancel_left h3
  simpa using h4

theorem readable_modInt (m : ℕ) [NeZero m] : Readable (T := ZMod m) 0 (modIntText m) :=
  Readable.mk (modInt_balanced m) (fun v w r r' _ _ h => modInt_unique m v w r r' h)
    (fun v r r' _ _ h => by rw [modIntText_eq] at h; cases h)
    (fun _ v l h => by rw [modIntText_eq] at h; cases h)

end Algebraics
