import Verif.Lemmas.IntervalExpr

/-!
Properties C74 and C75: expressions of any size built from interval operations. Narrower operands never give a wider
result or a failure; the result holds the value; and it becomes as narrow as wanted when the operands do.
-/

namespace Algebraics

open DFI IExpr

namespace IExpr

theorem bind_eq_some' {α β : Type} {o : Option α} {f : α → Option β} {b : β} :
    (o >>= f) = some b ↔ ∃ a, o = some a ∧ f a = some b := Option.bind_eq_some_iff

/-- what the induction of C74 carries for one operand. -/
theorem unary_step {op : DFI → Option DFI} {f : ℝ → ℝ} (h : Unary op f) {o o' : Option DFI}
    (ih : ∀ a', o' = some a' → ∃ a, o = some a ∧ a.Ordered ∧ a.Refines a')
    (hret : ∀ a a', a.Ordered → a.Refines a' → op a' ≠ none → op a ≠ none) {r' : DFI}
    (hr' : (o' >>= op) = some r') : ∃ r, (o >>= op) = some r ∧ r.Ordered ∧ r.Refines r' := by
  obtain ⟨a', ha', hop'⟩ := bind_eq_some'.mp hr'
  obtain ⟨a, ha, oa, haa⟩ := ih a' ha'
  obtain ⟨r, hr⟩ := Option.ne_none_iff_exists'.mp (hret a a' oa haa (by rw [hop']; simp))
  refine ⟨r, bind_eq_some'.mpr ⟨a, ha, hr⟩, ?_, h.refines oa haa hr hop'⟩
  exact ((h a r oa hr).2.1 _ ⟨_, contains_lower oa, rfl⟩).ordered

theorem binary_step {op : DFI → DFI → DFI} {f : ℝ → ℝ → ℝ} (h : Binary op f) {o o' p p' : Option DFI}
    (ih : ∀ a', o' = some a' → ∃ a, o = some a ∧ a.Ordered ∧ a.Refines a')
    (jh : ∀ a', p' = some a' → ∃ a, p = some a ∧ a.Ordered ∧ a.Refines a') {r' : DFI}
    (hr' : (do return op (← o') (← p')) = some r') :
    ∃ r, (do return op (← o) (← p)) = some r ∧ r.Ordered ∧ r.Refines r' := by
  obtain ⟨a', ha', h1⟩ := bind_eq_some'.mp hr'
  obtain ⟨b', hb', h2⟩ := bind_eq_some'.mp h1
  cases h2
  obtain ⟨a, ha, oa, haa⟩ := ih a' ha'
  obtain ⟨b, hb, ob, hbb⟩ := jh b' hb'
  refine ⟨op a b, by rw [ha, hb]; rfl, ?_, h.refines oa ob haa hbb⟩
  exact ((h a b oa ob).2.1 _ ⟨_, _, contains_lower oa, contains_lower ob, rfl⟩).ordered

theorem recip_returns (a a' : DFI) (_ : a.Ordered) (h : a.Refines a') (hn : a'.checkedRecip ≠ none) :
    a.checkedRecip ≠ none := by
  rw [ne_eq, checkedRecip_eq_none_iff] at hn ⊢
  exact fun hc => hn (h.1 0 hc)

theorem sqrt_returns (a a' : DFI) (ha : a.Ordered) (h : a.Refines a') (hn : a'.sqrt ≠ none) : a.sqrt ≠ none := by
  have c := contains_lower ha
  have c' := h.1 _ c
  rw [ne_eq, sqrt_eq_none_iff _ c'.ordered] at hn
  rw [ne_eq, sqrt_eq_none_iff _ ha]
  intro hlt
  have h1 : (a.lo : ℝ) < 0 := by exact_mod_cast hlt
  have h2 := div_neg_of_neg_of_pos h1 (by positivity : (0:ℝ) < 2 ^ a.log2Denom)
  have h3 : (0:ℝ) ≤ a'.lo := by exact_mod_cast not_lt.mp hn
  have h4 : (0:ℝ) ≤ a'.lo / 2 ^ a'.log2Denom := by positivity
  linarith [c'.1]

theorem eval_refines (ln2 : ℕ → ℕ → DFI) (env env' : ℕ → DFI) (ho : ∀ i, (env i).Ordered)
    (h : ∀ i, (env i).Refines (env' i)) (e : IExpr) (he : e.Algebraic) :
    ∀ r', e.eval ln2 env' = some r' → ∃ r, e.eval ln2 env = some r ∧ r.Ordered ∧ r.Refines r' := by
  have some_ret : ∀ (g : DFI → DFI), ∀ a a' : DFI, a.Ordered → a.Refines a' → (fun a => some (g a)) a' ≠ none →
      (fun a => some (g a)) a ≠ none := fun _ _ _ _ _ _ => by simp
  induction e with
  | var i => rintro r' ⟨⟩; exact ⟨env i, rfl, ho i, h i⟩
  | neg e ih => exact fun r' => unary_step unary_neg (ih he) (some_ret _)
  | abs e ih => exact fun r' => unary_step unary_abs (ih he) (some_ret _)
  | square e ih => exact fun r' => unary_step unary_square (ih he) (some_ret _)
  | recip e ih => exact fun r' => unary_step unary_recip (ih he) recip_returns
  | sqrt e ih => exact fun r' => unary_step unary_sqrt (ih he) sqrt_returns
  | log t e ih => exact absurd he id
  | addInt e k ih => exact fun r' => unary_step (unary_addInt k) (ih he) (some_ret _)
  | subInt e k ih => exact fun r' => unary_step (unary_subInt k) (ih he) (some_ret _)
  | mulInt e k ih => exact fun r' => unary_step (unary_mulInt k) (ih he) (some_ret _)
  | divInt e k ih =>
    refine fun r' => unary_step (unary_divInt k) (ih he) fun a a' _ _ hn => ?_
    rw [ne_eq, (C04_div_scalar _ k 0).1] at hn ⊢
    exact hn
  | addRatio e q ih => exact fun r' => unary_step (unary_addRatio q) (ih he) (some_ret _)
  | subRatio e q ih => exact fun r' => unary_step (unary_subRatio q) (ih he) (some_ret _)
  | mulRatio e q ih => exact fun r' => unary_step (unary_mulRatio q) (ih he) (some_ret _)
  | divRatio e q ih =>
    refine fun r' => unary_step (unary_divRatio q) (ih he) fun a a' _ _ hn => ?_
    rw [ne_eq, (C04_div_scalar _ 0 q).2.1] at hn ⊢
    exact hn
  | add e f ih jh => exact fun r' => binary_step binary_add (ih he.1) (jh he.2)
  | sub e f ih jh => exact fun r' => binary_step binary_sub (ih he.1) (jh he.2)
  | mul e f ih jh => exact fun r' => binary_step binary_mul (ih he.1) (jh he.2)
  | div e f ih jh =>
    intro r' hr'
    obtain ⟨a', ha', h1⟩ := bind_eq_some'.mp hr'
    obtain ⟨b', hb', h2⟩ := bind_eq_some'.mp h1
    obtain ⟨a, ha, oa, haa⟩ := ih he.1 a' ha'
    obtain ⟨b, hb, ob, hbb⟩ := jh he.2 b' hb'
    unfold checkedDiv at h2
    obtain ⟨t', ht', rfl⟩ := Option.map_eq_some_iff.mp h2
    obtain ⟨t, ht⟩ := Option.ne_none_iff_exists'.mp (recip_returns b b' ob hbb (by rw [ht']; simp))
    have ot : t.Ordered := ((unary_recip b t ob ht).2.1 _ ⟨_, contains_lower ob, rfl⟩).ordered
    refine ⟨a.mul t, ?_, ?_, binary_mul.refines oa ot haa (unary_recip.refines ob hbb ht ht')⟩
    · unfold eval; rw [ha, hb]; simp [checkedDiv, ht]
    · exact (contains_mul (contains_lower oa) (contains_lower ot)).ordered
  | agm e f ih jh => exact absurd he id

end IExpr

/-- C74: for every expression built from the algebraic operations, of any size: when each operand is replaced by an
interval inside it that is not less precise, and the expression could be computed before, it can be computed again,
and the new result lies inside the old one and is not less precise. -/
theorem C74_expressions (ln2 : ℕ → ℕ → DFI) (env env' : ℕ → DFI) (ho : ∀ i, (env i).Ordered)
    (h : ∀ i, (env i).Refines (env' i)) (e : IExpr) (he : e.Algebraic) (r' : DFI)
    (hr' : e.eval ln2 env' = some r') : ∃ r, e.eval ln2 env = some r ∧ r.Refines r' := by
  obtain ⟨r, h1, -, h2⟩ := eval_refines ln2 env env' ho h e he r' hr'
  exact ⟨r, h1, h2⟩

/-- C74: the same for the union, for rounding, for constants, and for changes of precision, where the new precision is
that of the result. -/
theorem C74_union_round (a a' b b' : DFI) (ha : a.Ordered) (hb : b.Ordered) (h : a.Refines a') (k : b.Refines b')
    (n n' : ℕ) (hn : n' ≤ n) (q : ℚ) :
    (a.union b).Refines (a'.union b') ∧ (a.floor n).Refines (a'.floor n') ∧ (a.ceil n).Refines (a'.ceil n') ∧
    (fromRatio q n).Refines (fromRatio q n') ∧ (a.convertLog2Denom n).Refines (a'.convertLog2Denom n') := by
  have ha' := (h.1 _ (contains_lower ha)).ordered
  have hb' := (k.1 _ (contains_lower hb)).ordered
  refine ⟨?_, ?_, ?_, ?_, ?_⟩
  · refine (C73_add_sub a b ha hb).2.2.2.refines (C73_add_sub a' b' ha' hb').2.2.2 ?_ ?_
    · rintro z (hz | hz)
      · exact Or.inl (h.1 z hz)
      · exact Or.inr (k.1 z hz)
    · rw [union_log2Denom, union_log2Denom]; exact max_le_max h.2 k.2
  · refine (C73_abs_floor_ceil a ha n).2.1.refines (C73_abs_floor_ceil a' ha' n').2.1 ?_ hn
    rintro z ⟨x, hx, rfl⟩; exact ⟨x, h.1 x hx, rfl⟩
  · refine (C73_abs_floor_ceil a ha n).2.2.refines (C73_abs_floor_ceil a' ha' n').2.2 ?_ hn
    rintro z ⟨x, hx, rfl⟩; exact ⟨x, h.1 x hx, rfl⟩
  · refine (C73_constructors q n a ha).1.refines (C73_constructors q n' a ha).1 (le_refl _) ?_
    rw [(C01_from_ratio q n).1, (C01_from_ratio q n').1]; exact hn
  · refine (C73_constructors q n a ha).2.1.refines (C73_constructors q n' a' ha').2.1 (fun x hx => h.1 x hx) ?_
    rw [(C01_convert a n).1, (C01_convert a' n').1]; exact hn

/-- C75: the result of an expression of any size, including logarithms and means, holds its value. -/
theorem C75_encloses (ln2 : ℕ → ℕ → DFI) (hln2 : ∀ t, IsLn2 (ln2 t)) (env : ℕ → DFI) (ρ : ℕ → ℝ)
    (h : ∀ i, (env i).Contains (ρ i)) (e : IExpr) (x : ℝ) (hx : Value ρ e x) :
    ∀ r, e.eval ln2 env = some r → r.Contains x := by
  induction hx with
  | var i => rintro r ⟨⟩; exact h i
  | neg _ ih => intro r hr; obtain ⟨a, ha, ⟨⟩⟩ := bind_eq_some'.mp hr; exact contains_neg (ih a ha)
  | abs _ ih => intro r hr; obtain ⟨a, ha, ⟨⟩⟩ := bind_eq_some'.mp hr; exact contains_abs (ih a ha)
  | square _ ih => intro r hr; obtain ⟨a, ha, ⟨⟩⟩ := bind_eq_some'.mp hr; exact contains_square (ih a ha)
  | recip _ _ ih => intro r hr; obtain ⟨a, ha, h'⟩ := bind_eq_some'.mp hr; exact contains_recip (ih a ha) h'
  | sqrt _ _ ih => intro r hr; obtain ⟨a, ha, h'⟩ := bind_eq_some'.mp hr; exact contains_sqrt (ih a ha) h'
  | log t _ _ ih =>
    intro r hr
    obtain ⟨a, ha, h'⟩ := bind_eq_some'.mp hr
    have c := ih a ha
    have hpos : 0 < a.lo := by
      by_contra hc
      rw [C07_log_not_positive (ln2 t) a (not_lt.mp hc)] at h'; cases h'
    obtain ⟨r', hr', -, hc⟩ := C07_log (ln2 t) (hln2 t) a c.ordered hpos
    rw [hr'] at h'; cases h'
    exact hc _ c
  | addInt k _ ih => intro r hr; obtain ⟨a, ha, ⟨⟩⟩ := bind_eq_some'.mp hr; exact contains_addInt (ih a ha) k
  | subInt k _ ih => intro r hr; obtain ⟨a, ha, ⟨⟩⟩ := bind_eq_some'.mp hr; exact contains_subInt (ih a ha) k
  | mulInt k _ ih => intro r hr; obtain ⟨a, ha, ⟨⟩⟩ := bind_eq_some'.mp hr; exact contains_mulInt (ih a ha) k
  | divInt k _ _ ih =>
    intro r hr; obtain ⟨a, ha, h'⟩ := bind_eq_some'.mp hr
    exact (C04_div_scalar a k 0).2.2.1 r h' _ (ih a ha)
  | addRatio q _ ih =>
    intro r hr; obtain ⟨a, ha, ⟨⟩⟩ := bind_eq_some'.mp hr; exact (C02_scalar a _ (ih a ha) 0 q).2.2.1
  | subRatio q _ ih =>
    intro r hr; obtain ⟨a, ha, ⟨⟩⟩ := bind_eq_some'.mp hr; exact (C02_scalar a _ (ih a ha) 0 q).2.2.2.1
  | mulRatio q _ ih => intro r hr; obtain ⟨a, ha, ⟨⟩⟩ := bind_eq_some'.mp hr; exact contains_mulRatio (ih a ha) q
  | divRatio q _ _ ih =>
    intro r hr; obtain ⟨a, ha, h'⟩ := bind_eq_some'.mp hr
    exact (C04_div_scalar a 0 q).2.2.2 r h' _ (ih a ha)
  | add _ _ ih jh =>
    intro r hr
    obtain ⟨a, ha, h1⟩ := bind_eq_some'.mp hr
    obtain ⟨b, hb, ⟨⟩⟩ := bind_eq_some'.mp h1
    exact contains_add (ih a ha) (jh b hb)
  | sub _ _ ih jh =>
    intro r hr
    obtain ⟨a, ha, h1⟩ := bind_eq_some'.mp hr
    obtain ⟨b, hb, ⟨⟩⟩ := bind_eq_some'.mp h1
    exact contains_sub (ih a ha) (jh b hb)
  | mul _ _ ih jh =>
    intro r hr
    obtain ⟨a, ha, h1⟩ := bind_eq_some'.mp hr
    obtain ⟨b, hb, ⟨⟩⟩ := bind_eq_some'.mp h1
    exact contains_mul (ih a ha) (jh b hb)
  | div _ _ _ ih jh =>
    intro r hr
    obtain ⟨a, ha, h1⟩ := bind_eq_some'.mp hr
    obtain ⟨b, hb, h2⟩ := bind_eq_some'.mp h1
    exact contains_div (ih a ha) (jh b hb) h2
  | agm _ _ _ _ hm ih jh =>
    intro r hr
    obtain ⟨a, ha, h1⟩ := bind_eq_some'.mp hr
    obtain ⟨b, hb, h2⟩ := bind_eq_some'.mp h1
    have ca := ih a ha
    have cb := jh b hb
    have hn : ¬ (a.lo < 0 ∨ b.lo < 0) := by
      intro hc
      rw [C11_agm_negative a b hc] at h2; cases h2
    rw [not_or, not_lt, not_lt] at hn
    obtain ⟨r', hr', hc⟩ := C11_agm a b ca.ordered cb.ordered hn.1 hn.2
    rw [hr'] at h2; cases h2
    exact hc _ _ _ ca cb hm

namespace IExpr

/-- what the induction of C75 carries: close operands give a close result. -/
def Tends (ln2 : ℕ → ℕ → DFI) (ρ : ℕ → ℝ) (e : IExpr) (x : ℝ) : Prop :=
  ∀ ε > 0, ∀ D : ℕ, ∃ δ > 0, ∃ D' : ℕ, ∀ env : ℕ → DFI, (∀ i, Around (ρ i) δ D' (env i)) →
    ∃ r, e.eval ln2 env = some r ∧ Around x ε D r

theorem tends_unary {ln2 : ℕ → ℕ → DFI} {ρ : ℕ → ℝ} {e e' : IExpr} {x y : ℝ} {op : DFI → Option DFI}
    (he : ∀ env, e'.eval ln2 env = (e.eval ln2 env >>= op)) (ih : Tends ln2 ρ e x)
    (hop : ∀ ε > 0, ∀ D : ℕ, ∃ δ > 0, ∃ D' : ℕ, ∀ a, Around x δ D' a → ∃ r, op a = some r ∧ Around y ε D r) :
    Tends ln2 ρ e' y := by
  intro ε hε D
  obtain ⟨δ, hδ, D', h1⟩ := hop ε hε D
  obtain ⟨δ2, hδ2, D2, h2⟩ := ih δ hδ D'
  refine ⟨δ2, hδ2, D2, fun env henv => ?_⟩
  obtain ⟨a, ha, na⟩ := h2 env henv
  obtain ⟨r, hr, nr⟩ := h1 a na
  exact ⟨r, by rw [he, ha]; exact hr, nr⟩

theorem tends_binary {ln2 : ℕ → ℕ → DFI} {ρ : ℕ → ℝ} {e f e' : IExpr} {x y z : ℝ} {op : DFI → DFI → Option DFI}
    (he : ∀ env, e'.eval ln2 env = (do op (← e.eval ln2 env) (← f.eval ln2 env)))
    (ih : Tends ln2 ρ e x) (jh : Tends ln2 ρ f y)
    (hop : ∀ ε > 0, ∀ D : ℕ, ∃ δ > 0, ∃ D' : ℕ, ∀ a b, Around x δ D' a → Around y δ D' b →
      ∃ r, op a b = some r ∧ Around z ε D r) :
    Tends ln2 ρ e' z := by
  intro ε hε D
  obtain ⟨δ, hδ, D', h1⟩ := hop ε hε D
  obtain ⟨δ2, hδ2, D2, h2⟩ := ih δ hδ D'
  obtain ⟨δ3, hδ3, D3, h3⟩ := jh δ hδ D'
  refine ⟨min δ2 δ3, lt_min hδ2 hδ3, max D2 D3, fun env henv => ?_⟩
  obtain ⟨a, ha, na⟩ := h2 env fun i => (henv i).mono (min_le_left _ _) (le_max_left _ _)
  obtain ⟨b, hb, nb⟩ := h3 env fun i => (henv i).mono (min_le_right _ _) (le_max_right _ _)
  obtain ⟨r, hr, nr⟩ := h1 a b na nb
  exact ⟨r, by rw [he, ha, hb]; exact hr, nr⟩

theorem total_around {g : DFI → DFI} {f : ℝ → ℝ} (h : Unary (fun a => some (g a)) f) {x : ℝ} (hf : ContinuousAt f x) :
    ∀ ε > 0, ∀ D : ℕ, ∃ δ > 0, ∃ D' : ℕ, ∀ a, Around x δ D' a → ∃ r, some (g a) = some r ∧ Around (f x) ε D r := by
  intro ε hε D
  obtain ⟨δ, hδ, D', h1⟩ := h.around hf hε D
  exact ⟨δ, hδ, D', fun a ha => ⟨g a, rfl, h1 a _ ha rfl⟩⟩

theorem recip_around {x : ℝ} (hx : x ≠ 0) :
    ∀ ε > 0, ∀ D : ℕ, ∃ δ > 0, ∃ D' : ℕ, ∀ a, Around x δ D' a → ∃ r, a.checkedRecip = some r ∧ Around x⁻¹ ε D r := by
  intro ε hε D
  obtain ⟨δ, hδ, D', h1⟩ := unary_recip.around (continuousAt_inv₀ hx) hε D
  refine ⟨min δ |x|, lt_min hδ (abs_pos.mpr hx), D', fun a ha => ?_⟩
  obtain ⟨r, hr⟩ := Option.ne_none_iff_exists'.mp (show a.checkedRecip ≠ none by
    rw [ne_eq, checkedRecip_eq_none_iff]
    intro h0
    have := (ha.mono (min_le_right _ _) le_rfl).close h0
    rw [zero_sub, abs_neg] at this
    exact lt_irrefl _ this)
  exact ⟨r, hr, h1 a r (ha.mono (min_le_left _ _) le_rfl) hr⟩

theorem lo_pos_of_around {x : ℝ} (hx : 0 < x) {D : ℕ} {a : DFI} (h : Around x x D a) : 0 < a.lo := by
  have := abs_lt.mp (h.close (contains_lower h.1.ordered))
  by_contra hc
  have h1 : (a.lo : ℝ) ≤ 0 := by exact_mod_cast not_lt.mp hc
  have := div_nonpos_of_nonpos_of_nonneg h1 (by positivity : (0:ℝ) ≤ 2 ^ a.log2Denom)
  linarith

theorem tends_value {ln2 : ℕ → ℕ → DFI} (hln2 : ∀ t, IsLn2 (ln2 t)) {ρ : ℕ → ℝ} {e : IExpr} {x : ℝ} (hx : Value ρ e x) :
    Regular ρ e → Tends ln2 ρ e x := by
  induction hx with
  | var i => exact fun _ ε hε D => ⟨ε, hε, D, fun env henv => ⟨env i, rfl, henv i⟩⟩
  | neg _ ih =>
    intro hr; cases hr with | neg hr => exact tends_unary (fun _ => rfl) (ih hr) (total_around unary_neg continuous_neg.continuousAt)
  | abs _ ih =>
    intro hr; cases hr with | abs hr => exact tends_unary (fun _ => rfl) (ih hr) (total_around unary_abs continuous_abs.continuousAt)
  | square _ ih =>
    intro hr; cases hr with
    | square hr =>
      exact tends_unary (fun _ => rfl) (ih hr) (total_around unary_square (by fun_prop))
  | recip _ h0 ih => intro hr; cases hr with | recip hr => exact tends_unary (fun _ => rfl) (ih hr) (recip_around h0)
  | @sqrt e x hv h0 ih =>
    intro hr; cases hr with
    | sqrt hr hz =>
      refine tends_unary (fun _ => rfl) (ih hr) ?_
      intro ε hε D
      have hx0 : 0 < x := lt_of_le_of_ne h0 (by rintro rfl; exact hz hv)
      obtain ⟨δ, hδ, D', h1⟩ := unary_sqrt.around (Real.continuous_sqrt.continuousAt (x := x)) hε D
      refine ⟨min δ x, lt_min hδ hx0, D', fun a ha => ?_⟩
      have hlo := lo_pos_of_around hx0 (ha.mono (min_le_right _ _) le_rfl)
      obtain ⟨r, hr⟩ := Option.ne_none_iff_exists'.mp (show a.sqrt ≠ none by
        rw [ne_eq, sqrt_eq_none_iff _ ha.1.ordered]; omega)
      exact ⟨r, hr, h1 a r (ha.mono (min_le_left _ _) le_rfl) hr⟩
  | @log e x t hv h0 ih =>
    intro hr; cases hr with
    | log _ hr h3 =>
      refine tends_unary (fun _ => rfl) (ih hr) ?_
      intro ε hε D
      obtain ⟨η, hη, h1⟩ := C72_log_converges_partial x h0 (fun j hj => h3 j (hj ▸ hv)) ε hε
      obtain ⟨D2, hD2⟩ := exists_unit_lt hη
      refine ⟨min η x, lt_min hη h0, max D D2, fun a ha => ?_⟩
      have hlo := lo_pos_of_around h0 (ha.mono (min_le_right _ _) le_rfl)
      obtain ⟨r, hr, -⟩ := C07_log (ln2 t) (hln2 t) a ha.1.ordered hlo
      obtain ⟨d, c, w⟩ := h1 (ln2 t) (hln2 t) a r ha.1 (lt_of_lt_of_le ha.2.1 (min_le_left _ _))
        (hD2 _ ((le_max_right _ _).trans ha.2.2)) hr
      exact ⟨r, hr, c, w, by rw [d]; exact (le_max_left _ _).trans ha.2.2⟩
  | addInt k _ ih =>
    intro hr; cases hr with
    | addInt _ hr => exact tends_unary (fun _ => rfl) (ih hr) (total_around (unary_addInt k) (by fun_prop))
  | subInt k _ ih =>
    intro hr; cases hr with
    | subInt _ hr => exact tends_unary (fun _ => rfl) (ih hr) (total_around (unary_subInt k) (by fun_prop))
  | mulInt k _ ih =>
    intro hr; cases hr with
    | mulInt _ hr => exact tends_unary (fun _ => rfl) (ih hr) (total_around (unary_mulInt k) (by fun_prop))
  | @divInt e x k _ hk ih =>
    intro hr; cases hr with
    | divInt _ hr =>
      refine tends_unary (fun _ => rfl) (ih hr) ?_
      intro ε hε D
      obtain ⟨δ, hδ, D', h1⟩ := (unary_divInt k).around (x := x) (by fun_prop) hε D
      refine ⟨δ, hδ, D', fun a ha => ?_⟩
      obtain ⟨r, hr⟩ := Option.ne_none_iff_exists'.mp (show a.divInt k ≠ none by
        rw [ne_eq, (C04_div_scalar _ k 0).1]; exact hk)
      exact ⟨r, hr, h1 a r ha hr⟩
  | addRatio q _ ih =>
    intro hr; cases hr with
    | addRatio _ hr => exact tends_unary (fun _ => rfl) (ih hr) (total_around (unary_addRatio q) (by fun_prop))
  | subRatio q _ ih =>
    intro hr; cases hr with
    | subRatio _ hr => exact tends_unary (fun _ => rfl) (ih hr) (total_around (unary_subRatio q) (by fun_prop))
  | mulRatio q _ ih =>
    intro hr; cases hr with
    | mulRatio _ hr => exact tends_unary (fun _ => rfl) (ih hr) (total_around (unary_mulRatio q) (by fun_prop))
  | @divRatio e x q _ hk ih =>
    intro hr; cases hr with
    | divRatio _ hr =>
      refine tends_unary (fun _ => rfl) (ih hr) ?_
      intro ε hε D
      obtain ⟨δ, hδ, D', h1⟩ := (unary_divRatio q).around (x := x) (by fun_prop) hε D
      refine ⟨δ, hδ, D', fun a ha => ?_⟩
      obtain ⟨r, hr⟩ := Option.ne_none_iff_exists'.mp (show a.divRatio q ≠ none by
        rw [ne_eq, (C04_div_scalar _ 0 q).2.1]; exact hk)
      exact ⟨r, hr, h1 a r ha hr⟩
  | add _ _ ih jh =>
    intro hr; cases hr with
    | add h1 h2 =>
      refine tends_binary (op := fun a b => some (a.add b)) (fun _ => rfl) (ih h1) (jh h2) ?_
      intro ε hε D
      obtain ⟨δ, hδ, D', h⟩ := binary_add.around (by fun_prop) hε D
      exact ⟨δ, hδ, D', fun a b ha hb => ⟨_, rfl, h a b ha hb⟩⟩
  | sub _ _ ih jh =>
    intro hr; cases hr with
    | sub h1 h2 =>
      refine tends_binary (op := fun a b => some (a.sub b)) (fun _ => rfl) (ih h1) (jh h2) ?_
      intro ε hε D
      obtain ⟨δ, hδ, D', h⟩ := binary_sub.around (by fun_prop) hε D
      exact ⟨δ, hδ, D', fun a b ha hb => ⟨_, rfl, h a b ha hb⟩⟩
  | mul _ _ ih jh =>
    intro hr; cases hr with
    | mul h1 h2 =>
      refine tends_binary (op := fun a b => some (a.mul b)) (fun _ => rfl) (ih h1) (jh h2) ?_
      intro ε hε D
      obtain ⟨δ, hδ, D', h⟩ := binary_mul.around (by fun_prop) hε D
      exact ⟨δ, hδ, D', fun a b ha hb => ⟨_, rfl, h a b ha hb⟩⟩
  | div _ _ hy ih jh =>
    intro hr; cases hr with
    | div h1 h2 =>
      refine tends_binary (op := fun a b => a.checkedDiv b) (fun _ => rfl) (ih h1) (jh h2) ?_
      intro ε hε D
      obtain ⟨δ, hδ, D', h⟩ := binary_mul.around (by fun_prop) hε D
      obtain ⟨δ2, hδ2, D2, h2⟩ := recip_around hy δ hδ D'
      refine ⟨min δ δ2, lt_min hδ hδ2, max D' D2, fun a b ha hb => ?_⟩
      obtain ⟨t, ht, nt⟩ := h2 b (hb.mono (min_le_right _ _) (le_max_right _ _))
      refine ⟨a.mul t, by simp [checkedDiv, ht], ?_⟩
      rw [div_eq_mul_inv]
      exact h a t (ha.mono (min_le_left _ _) (le_max_left _ _)) nt
  | @agm e f x y m _ _ hx hy hm ih jh =>
    intro hr; cases hr with
    | agm h1 h2 =>
      refine tends_binary (op := fun a b => a.agm b) (fun _ => rfl) (ih h1) (jh h2) ?_
      intro ε hε D
      obtain ⟨δ, hδ, D', h⟩ := C11_agm_converges x y ε hx hy hε
      refine ⟨min δ (min x y), lt_min hδ (lt_min hx hy), max D D', fun a b ha hb => ?_⟩
      have wa := ha.2.1
      have wb := hb.2.1
      rw [width_ends] at wa wb
      obtain ⟨r, hr, w⟩ := h a b ha.1 hb.1 (lt_of_lt_of_le wa (min_le_left _ _)) (lt_of_lt_of_le wb (min_le_left _ _))
        (((le_max_right _ _).trans ha.2.2).trans (le_max_left _ _))
      have la := lo_pos_of_around hx (ha.mono ((min_le_right _ _).trans (min_le_left _ _)) le_rfl)
      have lb := lo_pos_of_around hy (hb.mono ((min_le_right _ _).trans (min_le_right _ _)) le_rfl)
      obtain ⟨r', hr', hc⟩ := C11_agm a b ha.1.ordered hb.1.ordered la.le lb.le
      rw [hr] at hr'; cases hr'
      refine ⟨r, hr, hc _ _ _ ha.1 hb.1 hm, by rw [width_ends]; exact w, ?_⟩
      rw [(C11_agm_within_hull a b r hr).1]
      exact ((le_max_left _ _).trans ha.2.2).trans (le_max_left _ _)

end IExpr

/-- C75: expressions converge. For every expression of any size that has a value `x` and takes no root of zero and no
logarithm of a number `3 * 2^j`, and every `ε`: if the intervals of the variables are narrow and precise enough, every
call returns, and the result holds `x` and is narrower than `ε`. -/
theorem C75_converges (ln2 : ℕ → ℕ → DFI) (hln2 : ∀ t, IsLn2 (ln2 t)) (ρ : ℕ → ℝ) (e : IExpr) (x : ℝ) (hx : Value ρ e x)
    (hr : Regular ρ e) (ε : ℝ) (hε : 0 < ε) :
    ∃ δ > 0, ∃ D : ℕ, ∀ env : ℕ → DFI,
      (∀ i, (env i).Contains (ρ i) ∧ ((env i).width : ℝ) < δ ∧ D ≤ (env i).log2Denom) →
      ∃ r, e.eval ln2 env = some r ∧ r.Contains x ∧ (r.width : ℝ) < ε := by
  obtain ⟨δ, hδ, D, h⟩ := tends_value hln2 hx hr ε hε 0
  refine ⟨δ, hδ, D, fun env henv => ?_⟩
  obtain ⟨r, h1, h2, h3, -⟩ := h env henv
  exact ⟨r, h1, h2, h3⟩

/-- an expression that meets the hypotheses: `log (sqrt (x * x + 12) / y)` at `x = y = 2`. -/
example : Value (fun _ => 2) (.log 0 (.div (.sqrt (.addInt (.mul (.var 0) (.var 0)) 12)) (.var 1)))
      (Real.log (√(2 * 2 + (12 : ℤ)) / 2)) ∧
    Regular (fun _ => 2) (.log 0 (.div (.sqrt (.addInt (.mul (.var 0) (.var 0)) 12)) (.var 1))) := by
  have h0 : ∀ i, Value (fun _ => (2:ℝ)) (.var i) 2 := fun i => .var i
  have h2 := Value.addInt 12 (Value.mul (h0 0) (h0 0))
  have h5 : ∀ w, Value (fun _ => (2:ℝ)) (.addInt (.mul (.var 0) (.var 0)) 12) w → w = 16 := by
    intro w hw
    cases hw with
    | addInt _ hm =>
      cases hm with
      | mul ha hb => cases ha; cases hb; norm_num
  have h6 : ∀ w, Value (fun _ => (2:ℝ)) (.sqrt (.addInt (.mul (.var 0) (.var 0)) 12)) w → w = 4 := by
    intro w hw
    cases hw with
    | sqrt hs _ => rw [h5 _ hs, show (16:ℝ) = 4 ^ 2 by norm_num, Real.sqrt_sq (by norm_num)]
  have h7 : ∀ w, Value (fun _ => (2:ℝ)) (.div (.sqrt (.addInt (.mul (.var 0) (.var 0)) 12)) (.var 1)) w → w = 2 := by
    intro w hw
    generalize hv : IExpr.var 1 = v at hw
    cases hw with
    | div ha hb _ =>
      subst hv
      cases hb
      rw [h6 _ ha]; norm_num
  refine ⟨.log 0 (.div (.sqrt h2 (by norm_num)) (h0 1) (by norm_num)) (by positivity), .log 0 (.div (.sqrt (.addInt 12
    (.mul (.var 0) (.var 0))) fun hz => by have := h5 0 hz; norm_num at this) (.var 1)) fun j hj => ?_⟩
  have h8 := h7 _ hj
  rcases le_or_gt 0 j with hj | hj
  · have := one_le_zpow₀ (by norm_num : (1:ℝ) ≤ 2) hj
    linarith
  · have := zpow_le_zpow_right₀ (by norm_num : (1:ℝ) ≤ 2) (show j ≤ -1 by omega)
    norm_num at this
    linarith

/-- intervals that refine each other. -/
example : (⟨5, 6, 2⟩ : DFI).Refines ⟨1, 2, 0⟩ ∧ (⟨5, 6, 2⟩ : DFI).Ordered := by
  refine ⟨⟨fun x hx => ?_, by norm_num⟩, by unfold DFI.Ordered; norm_num⟩
  unfold DFI.Contains at hx ⊢
  norm_num at hx ⊢
  constructor <;> linarith [hx.1, hx.2]

end Algebraics
