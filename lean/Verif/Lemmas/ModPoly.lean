import Verif.Model.ModPoly
import Verif.Props.ModInt
import Verif.Lemmas.PolyGcd

/-!
# Polynomials over modular integers: the stored lists and the polynomials over `ZMod m`
-/

namespace Algebraics

namespace ModPoly

set_option linter.unusedSectionVars false

variable {t : IntTy} {m : ℕ} [NeZero m]

/-- the stored form of a residue -/
def enc (x : ZMod m) : ModInt := ⟨(x.val : ℤ), (m : ℤ)⟩

/-- the stored form of a list of residues -/
abbrev encL (l : List (ZMod m)) : List ModInt := l.map enc

/-- the stored form of a polynomial -/
def encP (p : Poly (ZMod m)) : List ModInt := encL (m := m) p.raw.elements

theorem enc_valid (hm : t.fits m) (x : ZMod m) : (enc x).Valid t :=
  ⟨hm, Int.natCast_pos.mpr (Nat.pos_of_ne_zero (NeZero.ne m)), Int.natCast_nonneg _,
    Int.ofNat_lt.mpr (ZMod.val_lt x)⟩

/-- a valid modular integer is the stored form of its residue -/
theorem enc_intCast {a : ModInt} (ha : a.Valid t) (h : a.modulus = m) : enc ((a.value : ZMod m)) = a := by
  obtain ⟨-, -, h1, h2⟩ := ha
  obtain ⟨v, k⟩ := a
  simp only at h h1 h2
  subst h
  unfold enc
  rw [ZMod.val_intCast, Int.emod_eq_of_lt h1 h2]

theorem enc_cast (x : ZMod m) : (((enc x).value : ℤ) : ZMod m) = x := by simp [enc]

theorem eq_enc {a : ModInt} (ha : a.Valid t) (h : a.modulus = m) {x : ZMod m} (hx : (a.value : ZMod m) = x) :
    a = enc x := by rw [← hx, enc_intCast ha h]

theorem cast_of_modEq {a b : ℤ} (h : a ≡ b [ZMOD (m : ℤ)]) : (a : ZMod m) = (b : ZMod m) :=
  (ZMod.intCast_eq_intCast_iff _ _ _).mpr h

theorem new_enc (hm : t.fits m) (v : ℤ) : ModInt.new t v m = some (enc ((v : ZMod m))) := by
  obtain ⟨x, h1, -, h2, h3, h4⟩ := C31_new t v m hm (by exact_mod_cast Nat.pos_of_ne_zero (NeZero.ne m))
  rw [h1, eq_enc h2 h3 (cast_of_modEq h4)]

theorem add_enc (ht : t.Instantiated) (hm : t.fits m) (a b : ZMod m) :
    ModInt.add t (enc a) (enc b) = some (enc (a + b)) := by
  obtain ⟨z, h1, h2, h3, h4⟩ := C31_add t ht _ _ (enc_valid hm a) (enc_valid hm b) rfl
  rw [h1, eq_enc h2 h3 (x := a + b) ?_]
  rw [cast_of_modEq h4, Int.cast_add, enc_cast, enc_cast]

theorem sub_enc (ht : t.Instantiated) (hm : t.fits m) (a b : ZMod m) :
    ModInt.sub t (enc a) (enc b) = some (enc (a - b)) := by
  obtain ⟨z, h1, h2, h3, h4⟩ := C31_sub t ht _ _ (enc_valid hm a) (enc_valid hm b) rfl
  rw [h1, eq_enc h2 h3 (x := a - b) ?_]
  rw [cast_of_modEq h4, Int.cast_sub, enc_cast, enc_cast]

theorem mul_enc (ht : t.Instantiated) (hm : t.fits m) (a b : ZMod m) :
    ModInt.mul t (enc a) (enc b) = some (enc (a * b)) := by
  obtain ⟨z, h1, h2, h3, h4⟩ := C31_mul t ht _ _ (enc_valid hm a) (enc_valid hm b) rfl
  rw [h1, eq_enc h2 h3 (x := a * b) ?_]
  rw [cast_of_modEq h4, Int.cast_mul, enc_cast, enc_cast]

theorem neg_enc (hm : t.fits m) (a : ZMod m) : ModInt.neg t (enc a) = some (enc (-a)) := by
  obtain ⟨z, h1, h2, h3, h4⟩ := C31_neg t _ (enc_valid hm a)
  rw [h1, eq_enc h2 h3 (x := -a) ?_]
  rw [cast_of_modEq h4, Int.cast_neg, enc_cast]

theorem mulByUsize_enc (ht : t.Instantiated) (hm : t.fits m) (a : ZMod m) (n : ℕ) :
    ModInt.mulByUsize t (enc a) n = some (enc (a * (n : ZMod m))) := by
  obtain ⟨z, h1, h2, h3, h4⟩ := C31_mul_by_usize t ht _ n (enc_valid hm a)
  rw [h1, eq_enc h2 h3 (x := a * (n : ZMod m)) ?_]
  rw [cast_of_modEq h4, Int.cast_mul, enc_cast]
  simp

theorem zeroLike_enc (hm : t.fits m) (a : ZMod m) : zeroLike t (enc a) = some (enc (0 : ZMod m)) := by
  unfold zeroLike
  show ModInt.new t 0 (m : ℤ) = _
  rw [new_enc hm]; simp

theorem oneLike_enc (hm : t.fits m) (a : ZMod m) : oneLike t (enc a) = some (enc (1 : ZMod m)) := by
  unfold oneLike
  show ModInt.new t 1 (m : ℤ) = _
  rw [new_enc hm]; simp

theorem enc_value_eq_zero (a : ZMod m) : (enc a).value = 0 ↔ a = 0 := by
  show ((a.val : ℕ) : ℤ) = 0 ↔ a = 0
  rw [Int.natCast_eq_zero, ZMod.val_eq_zero]

theorem checkedInverse_enc {ext : ℤ → ℤ → ModInt.ExtGcd} (hext : ModInt.IsExtGcd ext)
    (hm : t.fits m) (b : ZMod m) :
    ModInt.checkedInverse t ext (enc b) =
      if b = 0 then none else if Nat.gcd b.val m = 1 then some (enc b⁻¹) else none := by
  by_cases hb : b = 0
  · rw [if_pos hb]
    unfold ModInt.checkedInverse
    rw [if_pos ((enc_value_eq_zero b).mpr hb)]
  · have h2 : 2 ≤ (enc b).modulus := by
      simp only [enc]
      have h0 := NeZero.ne m
      have : m ≠ 1 := by
        rintro rfl
        exact hb (Subsingleton.elim _ _)
      exact_mod_cast (show 2 ≤ m by omega)
    obtain ⟨h3, h4⟩ := C32_inverse t ext hext (enc b) (enc_valid hm b) h2
    have hg : Int.gcd (enc b).value (enc b).modulus = Nat.gcd b.val m :=
      Int.gcd_natCast_natCast _ _
    rw [hg] at h3 h4
    rw [if_neg hb]
    by_cases hc : Nat.gcd b.val m = 1
    · rw [if_pos hc]
      obtain ⟨c, h5, h6, h7, h8⟩ := h3 hc
      rw [h5, eq_enc h6 h7 (x := b⁻¹) ?_]
      have h9 := cast_of_modEq (m := m) h8
      rw [Int.cast_mul, enc_cast, Int.cast_one] at h9
      have h10 : b⁻¹ * b = 1 := by rw [mul_comm, ZMod.mul_inv_eq_gcd, hc, Nat.cast_one]
      calc ((c.value : ℤ) : ZMod m) = b⁻¹ * b * (c.value : ZMod m) := by rw [h10, one_mul]
        _ = b⁻¹ := by rw [mul_assoc, h9, mul_one]
    · rw [if_neg hc, h4 hc]

theorem div_enc {ext : ℤ → ℤ → ModInt.ExtGcd} (hext : ModInt.IsExtGcd ext) (ht : t.Instantiated) (hm : t.fits m)
    (a b : ZMod m) :
    ModInt.div t ext (enc a) (enc b) = (ExactDivCoeff.exactDiv a b).map enc := by
  unfold ModInt.div
  rw [checkedInverse_enc hext hm]
  simp only [ExactDivCoeff.exactDiv]
  by_cases hb : b = 0
  · simp [hb]
  · rw [if_neg hb, if_neg hb]
    by_cases hc : Nat.gcd b.val m = 1
    · rw [if_pos hc, if_pos hc]
      simp only [Option.map_some]
      exact mul_enc ht hm _ _
    · rw [if_neg hc, if_neg hc]; rfl

/-! ## lists -/

theorem mapM_enc {f : ModInt → Option ModInt} {g : ZMod m → Option (ZMod m)} (h : ∀ a, f (enc a) = (g a).map enc)
    (l : List (ZMod m)) : (encL l).mapM f = (l.mapM g).map encL := by
  induction l with
  | nil => simp
  | cons a l ih =>
    simp only [encL, List.map_cons, List.mapM_cons] at ih ⊢
    rw [h, ih]
    cases g a with
    | none => rfl
    | some b => cases l.mapM g <;> rfl

theorem mapM_some {α β : Type} (f : α → β) (l : List α) : l.mapM (fun a => some (f a)) = some (l.map f) := by
  induction l with
  | nil => simp
  | cons a l ih => simp [List.mapM_cons, ih]

theorem mapM_enc_some {f : ModInt → Option ModInt} {g : ZMod m → ZMod m} (h : ∀ a, f (enc a) = some (enc (g a)))
    (l : List (ZMod m)) : (encL l).mapM f = some (encL (l.map g)) := by
  rw [mapM_enc (g := fun a => some (g a)) (fun a => by rw [h]; rfl), mapM_some]
  rfl

theorem normalize_enc (l : List (ZMod m)) : normalize (encL l) = encL (stripZeros l) := by
  unfold normalize stripZeros
  induction l using List.reverseRecOn with
  | nil => simp
  | append_singleton l a ih =>
    have : encL (l ++ [a]) = encL l ++ [enc a] := by simp
    rw [this]
    by_cases ha : a = 0
    · rw [List.rdropWhile_concat_pos _ _ _ (by simp [enc_value_eq_zero, ha]), List.rdropWhile_concat_pos _ _ _ (by simp [ha]),
        ih]
    · rw [List.rdropWhile_concat_neg _ _ _ (by simp [enc_value_eq_zero, ha]),
        List.rdropWhile_concat_neg _ _ _ (by simp [ha]), this]

theorem pad_enc (hm : t.fits m) (l r : List (ZMod m)) :
    pad t (encL l) (encL r) = some (encL (l ++ List.replicate (r.length - l.length) 0)) := by
  unfold pad
  simp only [encL, List.length_map]
  by_cases h : l.length < r.length
  · rw [if_pos h]
    cases r with
    | nil => simp at h
    | cons b bs =>
      simp [zeroLike_enc hm]
  · rw [if_neg h, show r.length - l.length = 0 by omega]
    simp

theorem addSubElems_enc (ht : t.Instantiated) (hm : t.fits m) {f : ModInt → ModInt → Option ModInt}
    {g : ZMod m → ZMod m → ZMod m} (hf : ∀ a b, f (enc a) (enc b) = some (enc (g a b))) (lm rm : ZMod m)
    (l r : List (ZMod m)) (h : r.length ≤ l.length) :
    addSubElems t f (enc lm) (enc rm) (encL l) (encL r) =
      some (encL (Poly.addSubElems (T := ZMod m) g lm rm l r)) := by
  induction l generalizing r with
  | nil =>
    cases r with
    | nil => simp [addSubElems, Poly.addSubElems]
    | cons b bs => simp at h
  | cons a as ih =>
    cases r with
    | nil =>
      have := ih [] (by simp)
      simp only [encL, List.map_cons, List.map_nil] at this ⊢
      simp only [addSubElems, Poly.addSubElems, mul_enc ht hm, this]
      rfl
    | cons b bs =>
      have := ih bs (by simpa using h)
      simp only [encL, List.map_cons] at this ⊢
      simp only [addSubElems, Poly.addSubElems, mul_enc ht hm, hf, this, bind, Option.bind]
      rfl

theorem addSubElems_pad (g : ZMod m → ZMod m → ZMod m) (lm rm : ZMod m) (l r : List (ZMod m)) :
    Poly.addSubElems (T := ZMod m) g lm rm (l ++ List.replicate (r.length - l.length) 0) r =
      Poly.addSubElems (T := ZMod m) g lm rm l r := by
  induction l generalizing r with
  | nil =>
    induction r with
    | nil => simp
    | cons b bs ih =>
      simp only [List.nil_append, List.length_nil, Nat.sub_zero, List.length_cons, List.replicate_succ] at ih ⊢
      simp only [Poly.addSubElems, List.map_cons] at ih ⊢
      rw [ih]
  | cons a as ih =>
    cases r with
    | nil => simp
    | cons b bs =>
      simp only [List.length_cons, List.cons_append, Poly.addSubElems, Nat.add_sub_add_right]
      rw [ih]

theorem addSub_enc (ht : t.Instantiated) (hm : t.fits m) {f : ModInt → ModInt → Option ModInt}
    {g : ZMod m → ZMod m → ZMod m} (hf : ∀ a b, f (enc a) (enc b) = some (enc (g a b))) (p q : Poly (ZMod m)) :
    addSub t f (encP p) (encP q) = some (encP (Poly.addSub (T := ZMod m) g p q)) := by
  have key : ∀ c : ZMod m, (do
      let lm ← oneLike t (enc c)
      let rm ← oneLike t (enc c)
      let l ← pad t (encP p) (encP q)
      let es ← addSubElems t f lm rm l (encP q)
      return normalize es) = some (encL (stripZeros (Poly.addSubElems (T := ZMod m) g 1 1 p.raw.elements q.raw.elements))) := by
    intro c
    unfold encP
    rw [oneLike_enc hm, pad_enc hm]
    simp only [bind, Option.bind]
    rw [addSubElems_enc ht hm hf 1 1 _ _ (by simp; omega), addSubElems_pad]
    simp only [normalize_enc]
    rfl
  unfold addSub Poly.addSub
  unfold Poly.isZero
  by_cases h : (p.raw.elements.isEmpty && q.raw.elements.isEmpty) = true
  · rw [if_pos h]
    simp only [Bool.and_eq_true, List.isEmpty_iff] at h
    have h1 : encP p = [] := by unfold encP; rw [h.1]; rfl
    have h2 : encP q = [] := by unfold encP; rw [h.2]; rfl
    rw [h1, h2]
    rfl
  · rw [if_neg h]
    have : ∃ c : ZMod m, (encP p).head?.or (encP q).head? = some (enc c) := by
      unfold encP
      cases hp : p.raw.elements with
      | cons a as => exact ⟨a, by simp⟩
      | nil =>
        cases hq : q.raw.elements with
        | cons b bs => exact ⟨b, by simp⟩
        | nil => simp [hp, hq] at h
    obtain ⟨c, hc⟩ := this
    rw [hc]
    exact key c

theorem add_encP (ht : t.Instantiated) (hm : t.fits m) (p q : Poly (ZMod m)) :
    add t (encP p) (encP q) = some (encP (p + q)) := addSub_enc ht hm (add_enc ht hm) p q

theorem sub_encP (ht : t.Instantiated) (hm : t.fits m) (p q : Poly (ZMod m)) :
    sub t (encP p) (encP q) = some (encP (p - q)) := addSub_enc ht hm (sub_enc ht hm) p q

theorem addSubSingle_enc (ht : t.Instantiated) (hm : t.fits m) {f : ModInt → ModInt → Option ModInt}
    {g : ZMod m → ZMod m → ZMod m} (hf : ∀ a b, f (enc a) (enc b) = some (enc (g a b))) (p : Poly (ZMod m))
    (c : ZMod m) :
    addSubSingle t f (encP p) (enc c) = some (encP (Poly.addSubSingle (T := ZMod m) g p c)) := by
  unfold addSubSingle Poly.addSubSingle
  unfold encP
  rw [oneLike_enc hm, zeroLike_enc hm]
  cases hp : p.raw.elements with
  | nil =>
    simp only [encL, List.map_nil, List.isEmpty_nil, if_true, bind, Option.bind, Option.map_some, mul_enc ht hm, hf]
    exact congrArg some (normalize_enc (m := m) [g (0 * 1) (c * 1)])
  | cons a as =>
    simp only [encL, List.map_cons, List.isEmpty_cons, if_false, bind, Option.bind, mul_enc ht hm, hf,
      Bool.false_eq_true]
    exact congrArg some (normalize_enc (m := m) (g (a * 1) (c * 1) :: as))

theorem addCoeff_encP (ht : t.Instantiated) (hm : t.fits m) (p : Poly (ZMod m)) (c : ZMod m) :
    addCoeff t (encP p) (enc c) = some (encP (p.addCoeff c)) := addSubSingle_enc ht hm (add_enc ht hm) p c

theorem subCoeff_encP (ht : t.Instantiated) (hm : t.fits m) (p : Poly (ZMod m)) (c : ZMod m) :
    subCoeff t (encP p) (enc c) = some (encP (p.subCoeff c)) := addSubSingle_enc ht hm (sub_enc ht hm) p c

theorem coeffs_eq (p : Poly (ZMod m)) : p.coeffs = p.raw.elements := List.map_id _

theorem neg_encP (hm : t.fits m) (p : Poly (ZMod m)) : neg t (encP p) = some (encP (-p)) := by
  unfold neg encP
  rw [mapM_enc_some (neg_enc hm), Option.map_some, normalize_enc]
  have : (-p).raw.elements = stripZeros (p.coeffs.map (- ·)) := rfl
  rw [this, coeffs_eq]

/-! ## multiplication -/

theorem mulStep_enc (ht : t.Instantiated) (hm : t.fits m) (acc : List (ZMod m)) (i : ℕ) (v : ZMod m)
    (h : i ≤ acc.length) :
    mulStep t (encL acc) i (enc v) = some (encL (Poly.mulStep (T := ZMod m) acc i v)) ∧
      max acc.length (i + 1) ≤ (Poly.mulStep (T := ZMod m) acc i v).length := by
  unfold mulStep Poly.mulStep
  by_cases hi : i = acc.length
  · rw [if_pos (by simpa using hi), if_pos hi]
    refine ⟨by simp, ?_⟩
    rw [List.length_append, hi]
    simp
  · have hlt : i < acc.length := by omega
    rw [if_neg (by simpa using hi), if_neg hi]
    refine ⟨?_, ?_⟩
    · have : (encL acc)[i]? = some (enc (acc.getD i 0)) := by
        simp [List.getElem?_eq_getElem hlt]
      rw [this]
      simp only [bind, Option.bind, add_enc ht hm]
      simp only [encL, List.map_set]
      rfl
    · rw [List.length_set]
      show max acc.length (i + 1) ≤ acc.length
      omega

theorem mulRow_enc (ht : t.Instantiated) (hm : t.fits m) (a : ZMod m) (r : List (ZMod m)) :
    ∀ (i : ℕ) (acc : List (ZMod m)), i ≤ acc.length →
    mulRow t (enc a) i (encL r) (encL acc) = some (encL (Poly.mulRow (T := ZMod m) a i r acc)) ∧
      max acc.length (i + r.length) ≤ (Poly.mulRow (T := ZMod m) a i r acc).length := by
  induction r with
  | nil =>
    intro i acc h
    refine ⟨by simp [mulRow, Poly.mulRow], ?_⟩
    simp only [Poly.mulRow, List.length_nil]
    show max acc.length (i + 0) ≤ acc.length
    omega
  | cons b bs ih =>
    intro i acc h
    obtain ⟨h1, h2⟩ := mulStep_enc ht hm acc i (a * b) h
    obtain ⟨h3, h4⟩ := ih (i + 1) (Poly.mulStep (T := ZMod m) acc i (a * b)) (le_trans (le_max_right _ _) h2)
    constructor
    · simp only [encL, List.map_cons, mulRow, mul_enc ht hm, bind, Option.bind] at h1 h3 ⊢
      rw [h1]
      exact h3
    · simp only [Poly.mulRow, List.length_cons]
      have h5 : max acc.length (i + (bs.length + 1)) ≤
          max (Poly.mulStep (T := ZMod m) acc i (a * b)).length (i + 1 + bs.length) := by
        have := le_trans (le_max_left _ _) h2
        apply max_le
        · exact le_max_of_le_left this
        · exact le_max_of_le_right (by omega)
      exact le_trans h5 h4

theorem mulRows_enc (ht : t.Instantiated) (hm : t.fits m) (r : List (ZMod m)) (hr : r ≠ []) (l : List (ZMod m)) :
    ∀ (i : ℕ) (acc : List (ZMod m)), i ≤ acc.length →
    mulRows t (encL r) i (encL l) (encL acc) = some (encL (Poly.mulRows (T := ZMod m) r i l acc)) := by
  induction l with
  | nil => intro i acc h; simp [mulRows, Poly.mulRows]
  | cons a as ih =>
    intro i acc h
    obtain ⟨h1, h2⟩ := mulRow_enc ht hm a r i acc h
    have hlen : 1 ≤ r.length := by
      rcases r with _ | ⟨b, bs⟩
      · exact absurd rfl hr
      · simp
    have h3 := ih (i + 1) (Poly.mulRow (T := ZMod m) a i r acc)
      (le_trans (le_trans (by omega) (le_max_right acc.length (i + r.length))) h2)
    simp only [encL, List.map_cons, mulRows, bind, Option.bind] at h1 h3 ⊢
    rw [h1]
    exact h3

theorem isEmpty_encP (p : Poly (ZMod m)) : (encP p).isEmpty = p.isZero := by
  unfold encP Poly.isZero
  rw [List.isEmpty_map]

theorem length_encP (p : Poly (ZMod m)) : (encP p).length = p.len := by
  unfold encP Poly.len
  rw [List.length_map]

theorem mul_encP (ht : t.Instantiated) (hm : t.fits m) (p q : Poly (ZMod m)) :
    mul t (encP p) (encP q) = some (encP (p * q)) := by
  show _ = some (encP (Poly.mul p q))
  unfold mul Poly.mul
  rw [isEmpty_encP, isEmpty_encP]
  by_cases h : (p.isZero || q.isZero) = true
  · rw [if_pos h, if_pos h]; rfl
  · rw [if_neg h, if_neg h]
    have hq : q.raw.elements ≠ [] := by
      intro hc
      apply h
      simp [Poly.isZero, hc]
    have := mulRows_enc ht hm q.raw.elements hq p.raw.elements 0 [] (by simp)
    unfold encP
    simp only [encL, List.map_nil] at this ⊢
    rw [this, Option.map_some]
    exact congrArg some (normalize_enc _)

theorem mulCoeff_encP (ht : t.Instantiated) (hm : t.fits m) (p : Poly (ZMod m)) (c : ZMod m) :
    mulCoeff t (encP p) (enc c) = some (encP (p.mulCoeff c)) := by
  unfold mulCoeff encP
  rw [mapM_enc_some (g := fun a => a * c) (fun a => mul_enc ht hm a c), Option.map_some, normalize_enc]
  rfl

theorem zero_encP : encP (0 : Poly (ZMod m)) = [] := rfl

theorem nontrivial_of_elements {p : Poly (ZMod m)} (h : p.raw.elements ≠ []) : Nontrivial (ZMod m) :=
  ⟨⟨_, 0, p.canonical.1 h⟩⟩

theorem toOneIfNonzero_encP (hm : t.fits m) (p : Poly (ZMod m)) :
    toOneIfNonzero t (encP p) = p.toOneIfNonzero.map encP := by
  unfold toOneIfNonzero Poly.toOneIfNonzero Poly.isZero
  cases hp : p.raw.elements with
  | nil => simp [encP, hp]
  | cons a as =>
    have := nontrivial_of_elements (p := p) (by simp [hp])
    have h1 : (1 : Poly (ZMod m)).raw.elements = [1] := by
      show stripZeros [(1 : ZMod m)] = [1]
      unfold stripZeros
      rw [List.rdropWhile_eq_self_iff]
      simp
    simp only [encP, hp, encL, List.map_cons, List.head?_cons, bind, Option.bind, oneLike_enc hm, List.isEmpty_cons,
      Bool.false_eq_true, if_false, Option.map_some, h1]
    rfl

theorem powStep_enc {α β : Type} {f : α → α → Option α} {g : β → β → Option β} {e : β → α}
    (h : ∀ a b, f (e a) (e b) = (g a b).map e) (odd : Bool) (base : β) (r : Option β) :
    Poly.powStep f odd (e base) (r.map e) = (Poly.powStep g odd base r).map (·.map e) := by
  unfold Poly.powStep
  cases odd with
  | false => rfl
  | true =>
    cases r with
    | none => rfl
    | some v =>
      simp only [if_true, Option.map_some, h]
      cases g v base <;> rfl

theorem powLoop_enc {α β : Type} {f : α → α → Option α} {g : β → β → Option β} {e : β → α}
    (h : ∀ a b, f (e a) (e b) = (g a b).map e) (fuel : ℕ) :
    ∀ (base : β) (n : ℕ) (r : Option β),
      Poly.powLoop f fuel (e base) n (r.map e) = (Poly.powLoop g fuel base n r).map (·.map e) := by
  induction fuel with
  | zero => intro base n r; rfl
  | succ fuel ih =>
    intro base n r
    unfold Poly.powLoop
    rw [powStep_enc h]
    cases Poly.powStep g (n % 2 == 1) base r with
    | none => rfl
    | some r =>
      simp only [Option.map_some]
      by_cases h2 : n / 2 = 0
      · rw [if_pos h2, if_pos h2]; rfl
      · rw [if_neg h2, if_neg h2, h]
        cases g base base with
        | none => rfl
        | some b => exact ih b (n / 2) r

theorem checkedPow_encP (ht : t.Instantiated) (hm : t.fits m) (p : Poly (ZMod m)) (e : ℤ) :
    checkedPow t (encP p) e = (p.checkedPow e).map encP := by
  unfold checkedPow Poly.checkedPow
  by_cases h1 : e < 0
  · rw [if_pos h1, if_pos h1]; rfl
  rw [if_neg h1, if_neg h1]
  by_cases h2 : e = 0
  · rw [if_pos h2, if_pos h2, toOneIfNonzero_encP hm]
  rw [if_neg h2, if_neg h2]
  by_cases h3 : e = 1
  · rw [if_pos h3, if_pos h3]; rfl
  rw [if_neg h3, if_neg h3]
  have := powLoop_enc (f := mul t) (g := fun a b : Poly (ZMod m) => some (a * b)) (e := encP)
    (fun a b => by rw [mul_encP ht hm]; rfl) (e.toNat + 1) p e.toNat none
  rw [Option.map_none] at this
  rw [this]
  rcases Poly.powLoop (fun a b : Poly (ZMod m) => some (a * b)) (e.toNat + 1) p e.toNat none with _ | _ | r <;> rfl

/-! ## division -/

theorem subRow_enc (ht : t.Instantiated) (hm : t.fits m) (qc : ZMod m) (ds : List (ZMod m)) :
    ∀ rs : List (ZMod m), ds.length ≤ rs.length →
      subRow t (enc qc) (encL ds) (encL rs) = some (encL (Poly.subRow (T := ZMod m) qc ds rs)) := by
  induction ds with
  | nil => intro rs h; simp [subRow, Poly.subRow]
  | cons d ds ih =>
    intro rs h
    cases rs with
    | nil => simp at h
    | cons r rs =>
      have := ih rs (by simpa using h)
      simp only [encL, List.map_cons, subRow, Poly.subRow, mul_enc ht hm, sub_enc ht hm, bind, Option.bind] at this ⊢
      rw [this]
      rfl

theorem subAt_enc (ht : t.Instantiated) (hm : t.fits m) (qc : ZMod m) (ds : List (ZMod m)) (k : ℕ) :
    ∀ rs : List (ZMod m), k + ds.length ≤ rs.length →
      subAt t (enc qc) (encL ds) k (encL rs) = some (encL (Poly.subAt (T := ZMod m) qc ds k rs)) := by
  induction k with
  | zero => intro rs h; exact subRow_enc ht hm qc ds rs (by omega)
  | succ k ih =>
    intro rs h
    cases rs with
    | nil => simp at h
    | cons r rs =>
      have := ih rs (by simp at h; omega)
      simp only [encL, List.map_cons, subAt, Poly.subAt, bind, Option.bind] at this ⊢
      rw [this]
      rfl

theorem subRow_length (qc : ZMod m) (ds : List (ZMod m)) :
    ∀ rs : List (ZMod m), (Poly.subRow (T := ZMod m) qc ds rs).length = rs.length := by
  induction ds with
  | nil => intro rs; simp [Poly.subRow]
  | cons d ds ih =>
    intro rs
    cases rs with
    | nil => rfl
    | cons r rs =>
      simp only [Poly.subRow, List.length_cons]
      rw [ih]

theorem subAt_length (qc : ZMod m) (ds : List (ZMod m)) (k : ℕ) :
    ∀ rs : List (ZMod m), (Poly.subAt (T := ZMod m) qc ds k rs).length = rs.length := by
  induction k with
  | zero => intro rs; exact subRow_length qc ds rs
  | succ k ih =>
    intro rs
    cases rs with
    | nil => rfl
    | cons r rs =>
      simp only [Poly.subAt, List.length_cons]
      rw [ih]

theorem pdrLoop_enc (ht : t.Instantiated) (hm : t.fits m) (dl : ZMod m) (den : List (ZMod m)) (hden : den ≠ [])
    (k : ℕ) : ∀ (rem q : List (ZMod m)), rem.length + 1 = k + den.length →
      pdrLoop t (enc dl) (encL den) k (encL rem) (encL q) =
        some (encL (Poly.pdrLoop (T := ZMod m) dl den k rem q).1, encL (Poly.pdrLoop (T := ZMod m) dl den k rem q).2) ∧
      (Poly.pdrLoop (T := ZMod m) dl den k rem q).1.length = k + q.length := by
  induction k with
  | zero =>
    intro rem q h
    refine ⟨rfl, ?_⟩
    show q.length = 0 + q.length
    omega
  | succ k ih =>
    intro rem q h
    have hdl : 1 ≤ den.length := by
      rcases den with _ | ⟨b, bs⟩
      · exact absurd rfl hden
      · simp
    have hrem : rem ≠ [] := by
      rintro rfl
      simp at h
      omega
    have hl : (encL rem).getLast? = some (enc (rem.getLastD 0)) := by
      rw [List.getLast?_map, List.getLast?_eq_some_getLast hrem]
      simp [List.getLastD_eq_getLast?, List.getLast?_eq_some_getLast hrem]
    have hd : (encL rem).dropLast = encL rem.dropLast := by simp [List.map_dropLast]
    have hd' : (encL den).dropLast = encL den.dropLast := by simp [List.map_dropLast]
    have hlen : (rem.dropLast.map (· * dl)).length + 1 = rem.length := by
      have : 1 ≤ rem.length := by
        rcases rem with _ | ⟨b, bs⟩
        · exact absurd rfl hrem
        · simp
      rw [List.length_map, List.length_dropLast]; omega
    have h1 := subAt_enc ht hm (rem.getLastD 0) den.dropLast k (rem.dropLast.map (· * dl))
      (by rw [List.length_dropLast]; omega)
    have h2 := ih (Poly.subAt (T := ZMod m) (rem.getLastD 0) den.dropLast k (rem.dropLast.map (· * dl)))
      (rem.getLastD 0 :: q) (by
        have := subAt_length (rem.getLastD 0) den.dropLast k (rem.dropLast.map (· * dl))
        refine Eq.trans (congrArg (· + 1) this) ?_
        omega)
    constructor
    · have h3 := h2.1
      simp only [pdrLoop, bind, Option.bind, hl, hd, hd']
      rw [mapM_enc_some (g := fun a => a * dl) (fun a => mul_enc ht hm a dl)]
      simp only
      rw [h1]
      exact h3
    · have h3 := h2.2
      refine Eq.trans h3 ?_
      rw [List.length_cons]
      omega

theorem scaleTail_enc (ht : t.Instantiated) (hm : t.fits m) (dl : ZMod m) (qs : List (ZMod m)) :
    ∀ f : ZMod m, scaleTail t (enc dl) (enc f) (encL qs) =
      some (encL (Poly.scaleTail (T := ZMod m) dl f qs).1, enc (m := m) (Poly.scaleTail (T := ZMod m) dl f qs).2) := by
  induction qs with
  | nil => intro f; rfl
  | cons q qs ih =>
    intro f
    have := ih (f * dl)
    simp only [encL, List.map_cons, scaleTail, Poly.scaleTail, mul_enc ht hm, bind, Option.bind] at this ⊢
    rw [this]
    rfl

theorem elementPseudoDivRem_cons {T : Type} [CommRing T] [PolyCoeff T]
    (num den : List (PolyCoeff.Elem T)) (ql : ℕ) (q0 : PolyCoeff.Elem T) (qs rem : List (PolyCoeff.Elem T))
    (h : Poly.pdrLoop (T := T) (den.getLastD 0) den ql num [] = (q0 :: qs, rem)) :
    Poly.elementPseudoDivRem (T := T) num den ql =
      (q0 :: (Poly.scaleTail (T := T) (den.getLastD 0) (den.getLastD 0) qs).1, rem,
        (Poly.scaleTail (T := T) (den.getLastD 0) (den.getLastD 0) qs).2) := by
  unfold Poly.elementPseudoDivRem
  simp only [h]

theorem elementPseudoDivRem_enc (ht : t.Instantiated) (hm : t.fits m) (num den : List (ZMod m)) (hden : den ≠ [])
    (ql : ℕ) (hql : ql ≠ 0) (hlen : num.length + 1 = ql + den.length) :
    elementPseudoDivRem t (encL num) (encL den) ql =
      some (encL (Poly.elementPseudoDivRem (T := ZMod m) num den ql).1,
        encL (Poly.elementPseudoDivRem (T := ZMod m) num den ql).2.1,
        enc (m := m) (Poly.elementPseudoDivRem (T := ZMod m) num den ql).2.2) := by
  have hl : (encL den).getLast? = some (enc (den.getLastD 0)) := by
    rw [List.getLast?_map, List.getLast?_eq_some_getLast hden]
    simp [List.getLastD_eq_getLast?, List.getLast?_eq_some_getLast hden]
  obtain ⟨h1, h2⟩ := pdrLoop_enc ht hm (den.getLastD 0) den hden ql num [] hlen
  rcases hR : (Poly.pdrLoop (T := ZMod m) (den.getLastD 0) den ql num []) with ⟨R1, R2⟩
  rw [hR] at h1 h2
  cases R1 with
  | nil => simp at h2; exact absurd h2.symm hql
  | cons q0 qs =>
    rw [elementPseudoDivRem_cons (T := ZMod m) num den ql q0 qs R2 hR]
    unfold elementPseudoDivRem
    have h1' : pdrLoop t (enc (den.getLastD 0)) (encL den) ql (encL num) [] = _ := h1
    simp only [bind, Option.bind, hl]
    rw [h1']
    have := scaleTail_enc ht hm (den.getLastD 0) qs (den.getLastD 0)
    simp only [encL, List.map_cons] at this ⊢
    rw [this]
    rfl

/-- the stored form of a pseudo-division -/
def encD (r : Poly.PseudoDivRem (ZMod m)) : List ModInt × List ModInt × ModInt :=
  (encP r.quotient, encP r.remainder, enc r.factor)

theorem pseudoDivRem_encP (ht : t.Instantiated) (hm : t.fits m) (p q : Poly (ZMod m)) :
    pseudoDivRem t (encP p) (encP q) = (p.pseudoDivRem q).map encD := by
  unfold pseudoDivRem Poly.pseudoDivRem Poly.isZero
  cases hq : q.raw.elements with
  | nil => simp [encP, hq]
  | cons b bs =>
    have hq0 : q.raw.elements ≠ [] := by simp [hq]
    have hh : (encP q).head? = some (enc b) := by simp [encP, hq]
    rw [hh, length_encP, length_encP]
    simp only [bind, Option.bind, List.isEmpty_cons, Bool.false_eq_true, if_false]
    cases hl : Poly.quotientLen p.len q.len with
    | none =>
      simp only [oneLike_enc hm]
      rfl
    | some ql =>
      unfold Poly.quotientLen at hl
      split_ifs at hl with hlt
      injection hl with hl
      have h1 : 1 ≤ q.len := by
        unfold Poly.len
        rw [hq]; simp
      have := elementPseudoDivRem_enc ht hm p.raw.elements q.raw.elements hq0 ql (by omega) (by
        show p.len + 1 = ql + q.len
        omega)
      simp only
      unfold encP
      rw [this, hq]
      simp only [normalize_enc]
      rfl

variable {ext : ℤ → ℤ → ModInt.ExtGcd}

theorem exactPseudoDiv_encP (ht : t.Instantiated) (hm : t.fits m) (p q : Poly (ZMod m)) :
    exactPseudoDiv t (encP p) (encP q) = (p.exactPseudoDiv q).map fun r => (encP r.1, enc r.2) := by
  unfold exactPseudoDiv Poly.exactPseudoDiv
  rw [pseudoDivRem_encP ht hm]
  cases p.pseudoDivRem q with
  | none => rfl
  | some r =>
    simp only [Option.map_some, bind, Option.bind, encD, isEmpty_encP]
    split_ifs <;> rfl

theorem divCoeff_encP (hext : ModInt.IsExtGcd ext) (ht : t.Instantiated) (hm : t.fits m) (p : Poly (ZMod m))
    (c : ZMod m) : divCoeff t ext (encP p) (enc c) = (p.divCoeff c).map encP := by
  unfold divCoeff Poly.divCoeff
  rw [coeffs_eq]
  unfold encP
  rw [mapM_enc (g := fun a => ExactDivCoeff.exactDiv a c) (fun a => div_enc hext ht hm a c)]
  simp only [Option.map_map]
  congr 1
  funext l
  exact normalize_enc l

theorem divRem_encP (hext : ModInt.IsExtGcd ext) (ht : t.Instantiated) (hm : t.fits m) (p q : Poly (ZMod m)) :
    divRem t ext (encP p) (encP q) = (p.divRem q).map fun r => (encP r.1, encP r.2) := by
  unfold divRem Poly.divRem
  rw [pseudoDivRem_encP ht hm]
  cases p.pseudoDivRem q with
  | none => rfl
  | some r =>
    simp only [Option.map_some, bind, Option.bind, encD, divCoeff_encP hext ht hm]
    cases r.quotient.divCoeff r.factor with
    | none => rfl
    | some a => cases r.remainder.divCoeff r.factor <;> rfl

theorem div_encP (hext : ModInt.IsExtGcd ext) (ht : t.Instantiated) (hm : t.fits m) (p q : Poly (ZMod m)) :
    div t ext (encP p) (encP q) = (p.div q).map encP := by
  unfold div Poly.div
  rw [pseudoDivRem_encP ht hm]
  cases p.pseudoDivRem q with
  | none => rfl
  | some r => simp only [Option.map_some, bind, Option.bind, encD, divCoeff_encP hext ht hm]

theorem rem_encP (hext : ModInt.IsExtGcd ext) (ht : t.Instantiated) (hm : t.fits m) (p q : Poly (ZMod m)) :
    rem t ext (encP p) (encP q) = (p.rem q).map encP := by
  unfold rem Poly.rem
  rw [pseudoDivRem_encP ht hm]
  cases p.pseudoDivRem q with
  | none => rfl
  | some r => simp only [Option.map_some, bind, Option.bind, encD, divCoeff_encP hext ht hm]

theorem exactDiv_encP (hext : ModInt.IsExtGcd ext) (ht : t.Instantiated) (hm : t.fits m) (p q : Poly (ZMod m)) :
    exactDiv t ext (encP p) (encP q) = (p.exactDivPoly q).map encP := by
  unfold exactDiv Poly.exactDivPoly
  rw [exactPseudoDiv_encP ht hm]
  cases p.exactPseudoDiv q with
  | none => rfl
  | some r => simp only [Option.map_some, bind, Option.bind, divCoeff_encP hext ht hm]

theorem powmod_encP (hext : ModInt.IsExtGcd ext) (ht : t.Instantiated) (hm : t.fits m) (p : Poly (ZMod m)) (e : ℤ)
    (q : Poly (ZMod m)) : powmod t ext (encP p) e (encP q) = (p.powmod e q).map encP := by
  unfold powmod Poly.powmod
  by_cases h1 : e < 0
  · rw [if_pos h1, if_pos h1]; rfl
  rw [if_neg h1, if_neg h1]
  by_cases h2 : e = 0
  · rw [if_pos h2, if_pos h2, toOneIfNonzero_encP hm]
  rw [if_neg h2, if_neg h2, rem_encP hext ht hm]
  cases p.rem q with
  | none => rfl
  | some base =>
    simp only [Option.map_some, bind, Option.bind]
    by_cases h3 : e = 1
    · rw [if_pos h3, if_pos h3]; rfl
    rw [if_neg h3, if_neg h3]
    have := powLoop_enc (f := fun a b => do
        let c ← mul t a b
        rem t ext c (encP q)) (g := fun a b : Poly (ZMod m) => (a * b).rem q) (e := encP)
      (fun a b => by rw [mul_encP ht hm]; exact rem_encP hext ht hm _ _) (e.toNat + 1) base e.toNat none
    rw [Option.map_none] at this
    simp only [bind, Option.bind] at this
    rw [this]
    rcases Poly.powLoop (fun a b : Poly (ZMod m) => (a * b).rem q) (e.toNat + 1) base e.toNat none with _ | _ | r <;> rfl

/-! ## derivative, value, reduction -/

theorem derivElems_enc (ht : t.Instantiated) (hm : t.fits m) (es : List (ZMod m)) :
    ∀ i, derivElems t i (encL es) = some (encL (Poly.derivElems (T := ZMod m) i es)) := by
  induction es with
  | nil => intro i; rfl
  | cons e es ih =>
    intro i
    have := ih (i + 1)
    simp only [encL, List.map_cons, derivElems, Poly.derivElems, mulByUsize_enc ht hm, bind, Option.bind] at this ⊢
    rw [this]
    rfl

theorem derivative_encP (ht : t.Instantiated) (hm : t.fits m) (p : Poly (ZMod m)) :
    derivative t (encP p) = some (encP p.derivative) := by
  unfold derivative Poly.derivative
  cases hp : p.raw.elements with
  | nil => simp [encP, hp]
  | cons a as =>
    have h1 : encP p = enc a :: encL as := by simp [encP, hp]
    rw [h1]
    simp only
    rw [derivElems_enc ht hm, Option.map_some, normalize_enc]
    rfl

theorem eval_encP (ht : t.Instantiated) (hm : t.fits m) (p : Poly (ZMod m)) (x : ZMod m) :
    eval t (encP p) (enc x) = some (enc (p.eval x)) := by
  unfold eval Poly.eval Poly.evalGeneric
  rw [zeroLike_enc hm, coeffs_eq]
  unfold encP
  simp only [bind, Option.bind, encL]
  rw [← List.map_reverse]
  generalize List.reverse (α := ZMod m) p.raw.elements = l
  generalize (0 : ZMod m) = z
  induction l generalizing z with
  | nil => rfl
  | cons a l ih =>
    simp only [List.map_cons, List.foldlM_cons, mul_enc ht hm, add_enc ht hm, List.foldl_cons, bind, Option.bind]
    exact ih _

theorem last_encP (p : Poly (ZMod m)) :
    (encP p).getLast? = p.nonzeroHighestPowerCoefficient.map enc := by
  unfold Poly.nonzeroHighestPowerCoefficient
  rw [Poly.nonzeroCoefficient_eq, coeffs_eq, Poly.len_eq, coeffs_eq]
  unfold encP
  rw [List.getLast?_map, List.getLast?_eq_getElem?]
  by_cases h : p.raw.elements = []
  · simp [h]
  · rw [if_neg (by simpa using h)]

theorem toReduced_encP (hext : ModInt.IsExtGcd ext) (ht : t.Instantiated) (hm : t.fits m) (p : Poly (ZMod m)) :
    toReduced t ext (encP p) = p.toReduced.map encP := by
  unfold toReduced Poly.toReduced Poly.nonzeroReducingFactor
  rw [last_encP]
  cases p.nonzeroHighestPowerCoefficient with
  | none => rfl
  | some c => exact divCoeff_encP hext ht hm p c

/-! ## gcd -/

theorem coeffPow_enc (ht : t.Instantiated) (hm : t.fits m) (b : ZMod m) (e : ℕ) :
    coeffPow t (enc b) e = some (enc (Poly.coeffPow b e)) := by
  unfold coeffPow
  by_cases he : e = 0
  · rw [if_pos he, oneLike_enc hm, Poly.coeffPow, if_pos he]
  · rw [if_neg he]
    have h1 := powLoop_enc (f := ModInt.mul t) (g := fun a b : ZMod m => some (a * b)) (e := enc)
      (fun a b => by rw [mul_enc ht hm]; rfl) (e + 1) b e none
    rw [Option.map_none] at h1
    obtain ⟨r', h2, -⟩ := powLoop_total (fun a b : ZMod m => some (a * b)) (fun _ => True)
      (fun x y _ _ => ⟨x * y, rfl, trivial⟩) (e + 1) b e none trivial (by simp)
    obtain ⟨v, hv, -⟩ := powLoop_sound (M := ZMod m) id (fun a b : ZMod m => some (a * b))
      (fun x y z h => by cases h; rfl) (e + 1) b e none r' (by omega)
      ((Nat.lt_two_pow_self).trans (Nat.pow_lt_pow_right (by norm_num) (by omega))) h2
    rw [h1, Poly.coeffPow, if_neg he, h2, hv]
    rfl

theorem exactMulBySignedPower_enc (hext : ModInt.IsExtGcd ext) (ht : t.Instantiated) (hm : t.fits m)
    (f b : ZMod m) (pos neg : ℕ) :
    exactMulBySignedPower t ext (enc f) (enc b) pos neg = (Poly.exactMulBySignedPower f b pos neg).map enc := by
  unfold exactMulBySignedPower Poly.exactMulBySignedPower
  by_cases h : neg ≤ pos
  · rw [if_pos h, if_pos h, coeffPow_enc ht hm]
    exact mul_enc ht hm _ _
  · rw [if_neg h, if_neg h, coeffPow_enc ht hm]
    exact div_enc hext ht hm _ _

theorem degree_encP (p : Poly (ZMod m)) :
    p.degree = if (encP p).isEmpty then none else some ((encP p).length - 1) := by
  rw [isEmpty_encP, length_encP]
  unfold Poly.degree Poly.isZero Poly.len
  simp [List.isEmpty_iff]

theorem subresultantLoop_enc (hext : ModInt.IsExtGcd ext) (ht : t.Instantiated) (hm : t.fits m) (fuel : ℕ) :
    ∀ (f2 : Poly (ZMod m)) (n2 : ℕ) (a2 c2 : ZMod m) (f1 : Poly (ZMod m)) (n1 : ℕ),
      subresultantLoop t ext fuel (encP f2) n2 (enc a2) (enc c2) (encP f1) n1 =
        (Poly.subresultantLoop fuel f2 n2 a2 c2 f1 n1).map encP := by
  induction fuel with
  | zero => intros; rfl
  | succ fuel ih =>
    intro f2 n2 a2 c2 f1 n1
    unfold subresultantLoop Poly.subresultantLoop
    by_cases h : n2 < n1
    · rw [if_pos h, if_pos h]; rfl
    rw [if_neg h, if_neg h, pseudoDivRem_encP ht hm]
    cases f2.pseudoDivRem f1 with
    | none => rfl
    | some r =>
      simp only [Option.map_some, bind, Option.bind, encD, neg_enc hm, coeffPow_enc ht hm, mul_enc ht hm,
        divCoeff_encP hext ht hm]
      cases r.remainder.divCoeff (-a2 * Poly.coeffPow (-c2) (n2 - n1)) with
      | none => rfl
      | some f =>
        simp only [Option.map_some]
        rw [degree_encP f]
        by_cases hf : (encP f).isEmpty
        · rw [if_pos hf, if_pos hf]; rfl
        · rw [if_neg hf, if_neg hf, last_encP]
          simp only
          cases f1.nonzeroHighestPowerCoefficient with
          | none => rfl
          | some a1 =>
            simp only [Option.map_some, coeffPow_enc ht hm, exactMulBySignedPower_enc hext ht hm]
            cases Poly.exactMulBySignedPower (Poly.coeffPow a1 (n2 - n1)) c2 (n1 + 1) n2 with
            | none => rfl
            | some c1 =>
              simp only [Option.map_some]
              exact ih _ _ _ _ _ _

theorem subresultantGcdOrdered_enc (hext : ModInt.IsExtGcd ext) (ht : t.Instantiated) (hm : t.fits m)
    (l r : Poly (ZMod m)) (b : Bool) (hlen : r.len ≤ l.len) :
    subresultantGcdOrdered t ext (encP l) (encP r) b = (Poly.subresultantGcdOrdered l r b).map encP := by
  unfold subresultantGcdOrdered Poly.subresultantGcdOrdered
  rw [isEmpty_encP]
  by_cases h : r.isZero = true
  · rw [if_pos h, if_pos h]; rfl
  rw [if_neg h, if_neg h, degree_encP l, degree_encP r]
  have hl : ∃ a as, l.raw.elements = a :: as := by
    cases hl : l.raw.elements with
    | cons a as => exact ⟨a, as, rfl⟩
    | nil =>
      exfalso
      apply h
      unfold Poly.len at hlen
      rw [hl] at hlen
      unfold Poly.isZero
      simpa using hlen
  obtain ⟨a, as, hl⟩ := hl
  have h1 : (encP l).head? = some (enc a) := by simp [encP, hl]
  have h2 : ¬ (encP l).isEmpty = true := by simp [encP, hl]
  have h3 : ¬ (encP r).isEmpty = true := by rw [isEmpty_encP]; exact h
  rw [h1, if_neg h2, if_neg h3]
  simp only [bind, Option.bind, oneLike_enc hm, length_encP, subresultantLoop_enc hext ht hm]
  cases Poly.subresultantLoop (r.len + 1) l (l.len - 1) 1 1 r (r.len - 1) with
  | none => rfl
  | some f =>
    cases b with
    | false => rfl
    | true =>
      simp only [Option.map_some, if_true]
      exact neg_encP hm f

theorem subresultantGcd_encP (hext : ModInt.IsExtGcd ext) (ht : t.Instantiated) (hm : t.fits m)
    (l r : Poly (ZMod m)) :
    subresultantGcd t ext (encP l) (encP r) = (Poly.subresultantGcd l r).map encP := by
  have hd : ∀ p : Poly (ZMod m), p.degree.getD 0 = p.len - 1 := by
    intro p
    unfold Poly.degree
    split_ifs with h
    · simp [h]
    · rfl
  unfold subresultantGcd Poly.subresultantGcd
  rw [length_encP, length_encP, hd, hd]
  split_ifs with h
  · exact subresultantGcdOrdered_enc hext ht hm _ _ _ h.le
  · exact subresultantGcdOrdered_enc hext ht hm _ _ _ (by omega)

theorem gcd_encP (hext : ModInt.IsExtGcd ext) (ht : t.Instantiated) (hm : t.fits m) (l r : Poly (ZMod m)) :
    gcd t ext (encP l) (encP r) = (Poly.gcd l r).map encP := by
  unfold gcd Poly.gcd
  rw [toReduced_encP hext ht hm, toReduced_encP hext ht hm]
  cases l.toReduced with
  | none => rfl
  | some l' =>
    cases r.toReduced with
    | none => rfl
    | some r' =>
      simp only [Option.map_some, bind, Option.bind, subresultantGcd_encP hext ht hm]
      cases Poly.subresultantGcd l' r' with
      | none => rfl
      | some g => simp only [Option.map_some, toReduced_encP hext ht hm]

theorem gcdLcm_encP (hext : ModInt.IsExtGcd ext) (ht : t.Instantiated) (hm : t.fits m) (l r : Poly (ZMod m)) :
    gcdLcm t ext (encP l) (encP r) = (Poly.gcdLcmPoly l r).map fun x => (encP x.1, encP x.2) := by
  unfold gcdLcm Poly.gcdLcmPoly Poly.lcmOf
  rw [gcd_encP hext ht hm]
  cases Poly.gcd l r with
  | none => rfl
  | some g =>
    simp only [Option.map_some, bind, Option.bind, isEmpty_encP, exactDiv_encP hext ht hm]
    by_cases h : g.isZero = true
    · rw [if_pos h, if_pos h]; rfl
    · rw [if_neg h, if_neg h]
      cases r.exactDivPoly g with
      | none => rfl
      | some q => simp only [Option.map_some, mul_encP ht hm]; rfl

/-- the stored form of the state of the extended gcd -/
def encS (s : Poly.ExtState (ZMod m)) : ExtState := ⟨encP s.v, encP s.x, encP s.y⟩

theorem extGcdLoop_enc (hext : ModInt.IsExtGcd ext) (ht : t.Instantiated) (hm : t.fits m) (fuel : ℕ) :
    ∀ l r : Poly.ExtState (ZMod m), extGcdLoop t ext fuel (encS l) (encS r) = (Poly.extGcdLoop fuel l r).map encS := by
  induction fuel with
  | zero => intros; rfl
  | succ fuel ih =>
    intro l r
    unfold extGcdLoop Poly.extGcdLoop
    have hv : (encS r).v = encP r.v := rfl
    rw [hv, isEmpty_encP]
    by_cases h : r.v.isZero = true
    · rw [if_pos h, if_pos h]; rfl
    rw [if_neg h, if_neg h]
    simp only [encS, divRem_encP hext ht hm]
    cases l.v.divRem r.v with
    | none => rfl
    | some qr =>
      obtain ⟨q, rem⟩ := qr
      simp only [Option.map_some, bind, Option.bind, mul_encP ht hm, sub_encP ht hm, last_encP,
        Poly.nonzeroReducingFactor]
      cases rem.nonzeroHighestPowerCoefficient with
      | none => exact ih r ⟨rem, l.x - r.x * q, l.y - r.y * q⟩
      | some c =>
        simp only [Option.map_some, divCoeff_encP hext ht hm, Poly.ExtState.divBy]
        cases rem.divCoeff c with
        | none => rfl
        | some v =>
          cases (l.x - r.x * q).divCoeff c with
          | none => rfl
          | some x =>
            cases (l.y - r.y * q).divCoeff c with
            | none => rfl
            | some y => exact ih r ⟨v, x, y⟩

theorem extendedGcd_encP (hext : ModInt.IsExtGcd ext) (ht : t.Instantiated) (hm : t.fits m) (l r : Poly (ZMod m)) :
    extendedGcd t ext (encP l) (encP r) = (Poly.extendedGcd l r).map encS := by
  unfold extendedGcd Poly.extendedGcd Poly.nonzeroReducingFactor
  rw [last_encP, last_encP]
  cases l.nonzeroHighestPowerCoefficient with
  | none =>
    cases r.nonzeroHighestPowerCoefficient with
    | none => rfl
    | some rf =>
      simp only [Option.map_some, Option.map_none, bind, Option.bind, divCoeff_encP hext ht hm,
        toOneIfNonzero_encP hm]
      cases r.divCoeff rf with
      | none => rfl
      | some g =>
        cases r.toOneIfNonzero with
        | none => rfl
        | some o =>
          simp only [Option.map_some, divCoeff_encP hext ht hm]
          cases o.divCoeff rf <;> rfl
  | some lf =>
    simp only [Option.map_some, bind, Option.bind, divCoeff_encP hext ht hm, toOneIfNonzero_encP hm]
    cases l.divCoeff lf with
    | none => rfl
    | some lv =>
      cases l.toOneIfNonzero with
      | none => rfl
      | some o =>
        simp only [Option.map_some, divCoeff_encP hext ht hm]
        cases o.divCoeff lf with
        | none => rfl
        | some lx =>
          cases r.nonzeroHighestPowerCoefficient with
          | none => rfl
          | some rf =>
            simp only [Option.map_some, divCoeff_encP hext ht hm, toOneIfNonzero_encP hm]
            cases r.divCoeff rf with
            | none => rfl
            | some rv =>
              cases r.toOneIfNonzero with
              | none => rfl
              | some o =>
                simp only [Option.map_some, divCoeff_encP hext ht hm]
                cases o.divCoeff rf with
                | none => rfl
                | some ry =>
                  simp only [Option.map_some, length_encP]
                  exact extGcdLoop_enc hext ht hm (r.len + 2) ⟨lv, lx, 0⟩ ⟨rv, 0, ry⟩

/-! ## factorization -/

theorem makeMonomial_encP (hm : t.fits m) (c : ZMod m) (n : ℕ) :
    makeMonomial t (enc c) n = some (encP (Poly.makeMonomial c n)) := by
  unfold makeMonomial Poly.makeMonomial
  by_cases h : c = 0
  · rw [if_pos ((enc_value_eq_zero c).mpr h), dif_pos h]; rfl
  · rw [if_neg (fun h' => h ((enc_value_eq_zero c).mp h')), dif_neg h, zeroLike_enc hm]
    simp only [bind, Option.bind, encP]
    show some _ = some _
    congr 1
    have : encL (List.replicate n (0 : ZMod m) ++ [c]) = List.replicate n (enc (0 : ZMod m)) ++ [enc c] := by simp
    exact this.symm

theorem ddfLoop_enc (hext : ModInt.IsExtGcd ext) (ht : t.Instantiated) (hm : t.fits m) (x : Poly (ZMod m)) (k : ℕ) :
    ∀ f power : Poly (ZMod m), ddfLoop t ext m (encP x) k (encP f) (encP power) =
      (Poly.ddfLoop x k f power).map (·.map encP) := by
  induction k with
  | zero => intros; rfl
  | succ k ih =>
    intro f power
    unfold ddfLoop Poly.ddfLoop
    rw [length_encP]
    by_cases h : f.len ≤ 1
    · rw [if_pos h, if_pos h]; rfl
    rw [if_neg h, if_neg h]
    simp only [bind, Option.bind, sub_encP ht hm, gcd_encP hext ht hm]
    cases Poly.gcd (power - x) f with
    | none => rfl
    | some g =>
      simp only [Option.map_some, div_encP hext ht hm]
      cases f.div g with
      | none => rfl
      | some f' =>
        simp only [Option.map_some, powmod_encP hext ht hm]
        cases power.powmod m f' with
        | none => rfl
        | some power' =>
          simp only [Option.map_some, ih]
          cases Poly.ddfLoop x k f' power' <;> rfl

theorem ddf_encP (hext : ModInt.IsExtGcd ext) (ht : t.Instantiated) (hm : t.fits m) (f : Poly (ZMod m)) :
    ddf t ext (encP f) = f.ddf.map (·.map encP) := by
  unfold ddf Poly.ddf
  rw [last_encP]
  cases f.nonzeroHighestPowerCoefficient with
  | none => rfl
  | some c =>
    have hmod : (enc c).modulus = (m : ℤ) := rfl
    simp only [Option.map_some, bind, Option.bind, oneLike_enc hm, makeMonomial_encP hm, divCoeff_encP hext ht hm, hmod]
    cases f.divCoeff c with
    | none => rfl
    | some f' =>
      simp only [Option.map_some, powmod_encP hext ht hm]
      cases (Poly.makeMonomial (1 : ZMod m) 1).powmod m f' with
      | none => rfl
      | some power =>
        simp only [Option.map_some, length_encP, ddfLoop_enc hext ht hm]
        cases Poly.ddfLoop (Poly.makeMonomial (1 : ZMod m) 1) f'.len f' power with
        | none => rfl
        | some rest =>
          simp only [Option.map_some, List.map_cons]
          have := normalize_enc [c]
          simp only [encL, List.map_cons, List.map_nil] at this
          rw [this]
          rfl

theorem randomPoly_encP (hm : t.fits m) (rng : ℕ → ℕ) (pos d : ℕ) :
    randomPoly t m rng pos d = some (encP (Poly.randomPoly m rng pos d)) := by
  unfold randomPoly
  simp only [new_enc hm, mapM_some]
  simp only [bind, Option.bind, List.map_append, List.map_map, List.map_cons, List.map_nil]
  show some _ = some _
  congr 1
  have := normalize_enc ((List.range (2 * d - 1)).map (fun i => ((rng (pos + i) % m : ℕ) : ZMod m)) ++ [1])
  unfold Poly.randomPoly
  refine Eq.trans ?_ this
  congr 1
  simp only [encL, List.map_append, List.map_map, List.map_cons, List.map_nil]
  congr 1
  · apply List.map_congr_left
    intro i _
    simp only [Function.comp]
    congr 1
    rw [← Int.natCast_mod, Int.cast_natCast]
  · simp

theorem sdfSplit_encP (hext : ModInt.IsExtGcd ext) (ht : t.Instantiated) (hm : t.fits m) (d : ℕ)
    (random f : Poly (ZMod m)) :
    sdfSplit t ext (enc (1 : ZMod m)) d (encP random) (encP f) =
      (Poly.sdfSplit d random f).map (·.map fun x => (encP x.1, encP x.2)) := by
  have hd : ∀ p : Poly (ZMod m), p.degree.getD 0 = p.len - 1 := by
    intro p
    unfold Poly.degree
    split_ifs with h
    · simp [h]
    · rfl
  have hmod : (enc (1 : ZMod m)).modulus = (m : ℤ) := rfl
  unfold sdfSplit Poly.sdfSplit
  simp only [hmod, powmod_encP hext ht hm]
  cases random.powmod (((m : ℤ) ^ d - 1) / 2) f with
  | none => rfl
  | some r =>
    simp only [Option.map_some, bind, Option.bind, subCoeff_encP ht hm, gcd_encP hext ht hm]
    cases Poly.gcd f (r.subCoeff 1) with
    | none => rfl
    | some g =>
      simp only [Option.map_some, length_encP, hd]
      by_cases h : 0 < g.len - 1 ∧ g.len < f.len
      · rw [if_pos h, if_pos h, exactDiv_encP hext ht hm]
        cases f.exactDivPoly g <;> rfl
      · rw [if_neg h, if_neg h]; rfl

/-- the stored form of a result of the factorization -/
def encR (r : Except Stop (List (Poly (ZMod m)) × ℕ)) : Except Stop (List (List ModInt) × ℕ) :=
  r.map fun x => (x.1.map encP, x.2)

theorem sdfLoop_encP (hext : ModInt.IsExtGcd ext) (ht : t.Instantiated) (hm : t.fits m) (rng : ℕ → ℕ) (d fuel : ℕ)
    (hd1 : 1 ≤ d) :
    ∀ (pos : ℕ) (stack retval : List (Poly (ZMod m))),
      sdfLoop t ext (enc (1 : ZMod m)) rng d fuel pos (stack.map encP) (retval.map encP) =
        encR (Poly.sdfLoop rng d fuel pos stack retval) := by
  have hd : ∀ p : Poly (ZMod m), p.degree.getD 0 = p.len - 1 := by
    intro p
    unfold Poly.degree
    split_ifs with h
    · simp [h]
    · rfl
  have hdeg : ∀ p : Poly (ZMod m), p.degree = some d ↔ p.len = d + 1 := by
    intro p
    unfold Poly.degree
    split_ifs with h
    · simp [h]
    · simp only [Option.some.injEq]; omega
  have hmod : (enc (1 : ZMod m)).modulus = (m : ℤ) := rfl
  induction fuel with
  | zero => intros; rfl
  | succ fuel ih =>
    intro pos stack retval
    cases stack with
    | nil => rfl
    | cons f stack =>
      simp only [List.map_cons, sdfLoop, Poly.sdfLoop, length_encP, hd, hdeg]
      by_cases h1 : f.len - 1 < d
      · rw [if_pos h1, if_pos h1]; rfl
      rw [if_neg h1, if_neg h1]
      by_cases h2 : f.len = d + 1
      · rw [if_pos h2, if_pos h2]
        have := ih pos stack (retval ++ [f])
        simpa using this
      rw [if_neg h2, if_neg h2]
      simp only [hmod, randomPoly_encP hm, bind, Option.bind, sdfSplit_encP hext ht hm]
      cases Poly.sdfSplit d (Poly.randomPoly m rng pos d) f with
      | none => rfl
      | some o =>
        cases o with
        | none => exact ih (pos + (2 * d - 1)) (f :: stack) retval
        | some gq =>
          obtain ⟨g, q⟩ := gq
          exact ih (pos + (2 * d - 1)) (q :: g :: stack) retval

theorem sdf_encP (hext : ModInt.IsExtGcd ext) (ht : t.Instantiated) (hm : t.fits m) (rng : ℕ → ℕ) (fuel d pos : ℕ)
    (f : Poly (ZMod m)) :
    sdf t ext rng fuel d pos (encP f) = encR (Poly.sdf rng fuel d pos f) := by
  have hdeg : f.degree = some d ↔ f.len = d + 1 := by
    unfold Poly.degree
    split_ifs with h
    · simp [h]
    · simp only [Option.some.injEq]; omega
  unfold sdf Poly.sdf
  rw [length_encP]
  by_cases h1 : d < 1 ∨ f.len ≤ 1
  · rw [if_pos h1, if_pos h1]; rfl
  rw [if_neg h1, if_neg h1]
  by_cases h2 : f.len = d + 1
  · rw [if_pos h2, if_pos (hdeg.mpr h2)]; rfl
  rw [if_neg h2, if_neg (fun h => h2 (hdeg.mp h)), last_encP]
  cases hc : f.nonzeroHighestPowerCoefficient with
  | none => rfl
  | some c =>
    have hne : f.raw.elements ≠ [] := by
      intro h
      apply h1
      right
      unfold Poly.len
      rw [h]; simp
    have := nontrivial_of_elements hne
    have hone : (enc c).value = 1 ↔ c = 1 := by
      show ((c.val : ℕ) : ℤ) = 1 ↔ c = 1
      have h2 : 1 < m := by
        have h0 := NeZero.ne m
        have : m ≠ 1 := by
          rintro rfl
          exact zero_ne_one (Subsingleton.elim (0 : ZMod 1) 1)
        omega
      have : Fact (1 < m) := ⟨h2⟩
      constructor
      · intro h
        apply ZMod.val_injective m
        rw [ZMod.val_one]
        exact_mod_cast h
      · rintro rfl
        rw [ZMod.val_one]; rfl
    simp only [Option.map_some, hone, oneLike_enc hm]
    by_cases h3 : c = 1
    · rw [if_pos h3, if_pos h3]
      exact sdfLoop_encP hext ht hm rng d fuel (by omega) pos [f] []
    · rw [if_neg h3, if_neg h3]; rfl

end ModPoly

end Algebraics
