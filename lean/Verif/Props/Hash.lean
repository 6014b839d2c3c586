import Verif.Model.Hash
import Verif.Props.AlgNumConsistent
import Verif.Props.AlgNumIff

/-!
# C79: equality of stored data, and hashing
-/

namespace Algebraics

open RealAlg

/-- C79: equal polynomials are `==` and have equal hashes, however they were computed and whatever the hasher. -/
theorem C79_polynomial {T : Type} [CommRing T] [PolyCoeff T] (p q : Poly T) (h : p.toPoly = q.toPoly) :
    p = q ∧ ∀ {σ : Type} (word : σ → ℕ → σ) (elem : σ → PolyCoeff.Elem T → σ) (dv : σ → PolyCoeff.Dv T → σ) (s : σ),
      p.hash word elem dv s = q.hash word elem dv s := by
  obtain rfl := Poly.toPoly_injective h
  exact ⟨rfl, fun _ _ _ _ => rfl⟩

/-- C79: equality of data is an equivalence relation. -/
theorem C79_equivalence :
    (∀ a, dataEq a a = true) ∧ (∀ a b, dataEq a b = true → dataEq b a = true) ∧
    ∀ a b c, dataEq a b = true → dataEq b c = true → dataEq a c = true := by
  have key : ∀ a b, dataEq a b = true ↔ a = b := by
    rintro ⟨p, i⟩ ⟨q, j⟩
    unfold dataEq
    rw [Bool.and_eq_true, decide_eq_true_eq, (C10_is_same i j).1]
    simp
  simp only [key]
  exact ⟨fun _ => trivial, fun _ _ h => h.symm, fun _ _ _ h k => h.trans k⟩

/-- C79: equal data belong to the same real number, and hash alike with every hasher. -/
theorem C79_data (a b : RealAlg) (x y : ℝ) (ha : a.Represents x) (hb : b.Represents y) (h : dataEq a b = true) :
    x = y ∧ ∀ {σ : Type} (word : σ → ℕ → σ) (int : σ → ℤ → σ) (dv : σ → PolyCoeff.Dv ℤ → σ)
      (elem : σ → PolyCoeff.Elem ℤ → σ) (s : σ), a.dataHash word int dv elem s = b.dataHash word int dv elem s := by
  have e : a = b := by
    obtain ⟨p, i⟩ := a
    obtain ⟨q, j⟩ := b
    unfold dataEq at h
    rw [Bool.and_eq_true, decide_eq_true_eq, (C10_is_same i j).1] at h
    simp only at h
    rw [h.1, h.2]
  subst e
  exact ⟨ha.unique_real hb, fun _ _ _ _ _ => rfl⟩

/-- What a hasher that keeps everything it is given has been given. -/
inductive HashWord
  | length (n : ℕ)
  | int (z : ℤ)
  | elem (z : PolyCoeff.Elem ℤ)
  | dv (d : PolyCoeff.Dv ℤ)

/-- C79: nothing is left out of a hash, and no two different data give the hasher the same words, or words of which
one is the beginning of the other: a hasher that keeps all its words tells apart any two data that are not equal. -/
theorem C79_hash_complete (a b : RealAlg) (s t u : List HashWord)
    (h : a.dataHash (fun l n => l ++ [.length n]) (fun l z => l ++ [.int z]) (fun l d => l ++ [.dv d])
        (fun l z => l ++ [.elem z]) s ++ t =
      b.dataHash (fun l n => l ++ [.length n]) (fun l z => l ++ [.int z]) (fun l d => l ++ [.dv d])
        (fun l z => l ++ [.elem z]) s ++ u) : dataEq a b = true ∧ t = u := by
  have fold : ∀ (l : List (PolyCoeff.Elem ℤ)) (s : List HashWord),
      l.foldl (fun l z => l ++ [HashWord.elem z]) s = s ++ l.map HashWord.elem := by
    intro l
    induction l with
    | nil => simp
    | cons x l ih => intro s; simp [ih]
  obtain ⟨⟨⟨e, d⟩, hp⟩, l, r, n⟩ := a
  obtain ⟨⟨⟨e', d'⟩, hq⟩, l', r', n'⟩ := b
  simp only [dataHash, DFI.hash, Poly.hash, fold, List.append_assoc, List.append_cancel_left_eq, List.cons_append,
    List.nil_append, List.cons.injEq, HashWord.length.injEq] at h
  obtain ⟨h1, h2⟩ := h
  obtain ⟨h3, h4⟩ := List.append_inj h2 (by simpa using h1)
  have h5 : e = e' := List.map_injective_iff.2 (fun _ _ h => HashWord.elem.inj h) h3
  simp only [List.cons.injEq, HashWord.dv.injEq, HashWord.int.injEq, HashWord.length.injEq] at h4
  obtain ⟨rfl, rfl, rfl, rfl, rfl⟩ := h4
  subst h5
  refine ⟨?_, rfl⟩
  unfold dataEq
  rw [Bool.and_eq_true, decide_eq_true_eq, (C10_is_same _ _).1]
  exact ⟨rfl, rfl⟩

/-- C79: data are equal exactly when polynomial, precision and both bounds are. -/
theorem C79_data_iff (a b : RealAlg) : dataEq a b = true ↔
    a.poly.toPoly = b.poly.toPoly ∧ a.interval.log2Denom = b.interval.log2Denom ∧ a.interval.lo = b.interval.lo ∧
      a.interval.hi = b.interval.hi := by
  unfold dataEq
  rw [Bool.and_eq_true, decide_eq_true_eq, (C10_is_same _ _).1]
  obtain ⟨p, l, h, n⟩ := a
  obtain ⟨q, l', h', n'⟩ := b
  simp only [DFI.mk.injEq]
  constructor
  · rintro ⟨rfl, rfl, rfl, rfl⟩; exact ⟨rfl, rfl, rfl, rfl⟩
  · rintro ⟨h1, rfl, rfl, rfl⟩; exact ⟨Poly.toPoly_injective h1, rfl, rfl, rfl⟩

/-- C79: one number can have different data: `√2` in `[1, 2]` and in `[0, 2]`. So the data are no key for numbers. -/
theorem C79_same_number_false : dataEq sqrtTwo wideSqrtTwo = false ∧ sqrtTwo.Represents (√2) ∧
    wideSqrtTwo.Represents (√2) :=
  ⟨by decide +kernel, sqrtTwo_represents, wideSqrtTwo_represents⟩

/-- two ways to compute `x^2 - 1` -/
example : ((Poly.ofCoeffs [-1, 1] : Poly ℤ).mul (Poly.ofCoeffs [1, 1])) = Poly.ofCoeffs [-1, 0, 1] ∧
    dataEq sqrtTwo sqrtTwo = true := by decide +kernel

end Algebraics
