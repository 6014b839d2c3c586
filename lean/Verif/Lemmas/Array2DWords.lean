import Verif.Spec.Array2DWords
import Verif.Lemmas.Array2DMut

/-!
Lemmas for C94: two-dimensional arrays with the arithmetic of machine words.
-/

namespace Algebraics

theorem Overflow.word_eq {w v : ℕ} (m : Overflow) (h : v < 2 ^ w) : m.word w v = some v := by
  cases m with
  | panics => exact if_pos h
  | wraps => simp [Overflow.word, Nat.mod_eq_of_lt h]

theorem Overflow.wordSub_eq {w a b : ℕ} (m : Overflow) (h : b ≤ a) (ha : a < 2 ^ w) :
    m.wordSub w a b = some (a - b) := by
  cases m with
  | panics => exact if_pos h
  | wraps =>
    simp only [Overflow.wordSub, Option.some.injEq]
    rw [show a + (2 ^ w - b) = (a - b) + 2 ^ w by omega, Nat.add_mod_right, Nat.mod_eq_of_lt (by omega)]

namespace Positions

theorem stepWords_eq (w : ℕ) (m : Overflow) {p : Positions} {l : List (ℕ × ℕ)} (h : PosInv p l)
    (hx : p.revX < 2 ^ w) (hy : p.ySize < 2 ^ w) (op : Bool) : p.stepWords w m op = p.step op := by
  have hfin := h.finished_iff
  have hale := h.a_le
  have hxle := h.x_le
  cases op with
  | true =>
    simp only [stepWords, step, nextWords, next, pos]
    by_cases hf : p.isFinished = true
    · rw [if_pos hf]
    · rw [if_neg hf]
      have h0 : p.revX * p.ySize + p.afterRevY - (p.x * p.ySize + p.y) ≠ 0 := fun e => hf (hfin.mpr e)
      have hlt : p.y < p.ySize := by
        rcases h.x_le.lt_or_eq with hx | hx
        · exact (h.lt hx).1
        · rw [hx] at h0
          omega
      simp only
      rw [m.word_eq (show p.y + 1 < 2 ^ w by omega)]
      simp only [Option.bind_eq_bind, Option.bind_some]
      by_cases hc : p.y + 1 = p.ySize ∧ p.revX ≠ p.x
      · rw [if_pos hc, if_pos hc, m.word_eq (show p.x + 1 < 2 ^ w by omega)]
        rfl
      · rw [if_neg hc, if_neg hc]
        rfl
  | false =>
    simp only [stepWords, step, nextBackWords, nextBack, revPosWords, revPos]
    by_cases hf : p.isFinished = true
    · rw [if_pos hf, if_pos hf]
      rfl
    · rw [if_neg hf, if_neg hf]
      have h0 : p.revX * p.ySize + p.afterRevY - (p.x * p.ySize + p.y) ≠ 0 := fun e => hf (hfin.mpr e)
      have ha : 0 < p.afterRevY := by
        rcases h.x_le.lt_or_eq with hx | hx
        · exact (h.lt hx).2
        · rw [hx] at h0
          omega
      rw [if_neg (by omega), m.wordSub_eq (show 1 ≤ p.afterRevY from ha) (by omega)]
      simp only [Option.bind_eq_bind, Option.bind_some, Option.pure_def]
      by_cases hc : p.afterRevY - 1 = 0 ∧ p.revX ≠ p.x
      · rw [if_pos hc, if_pos hc, if_neg (by omega), m.wordSub_eq (show 1 ≤ p.revX by omega) hx]
        rfl
      · rw [if_neg hc, if_neg hc]

/-- the sizes of the iterator never grow -/
theorem step_sizes {p p' : Positions} {op : Bool} {item : Option (ℕ × ℕ)} (h : p.step op = some (p', item)) :
    p'.ySize = p.ySize ∧ p'.revX ≤ p.revX := by
  cases op with
  | true =>
    simp only [step, Option.some.injEq] at h
    have : p' = p.next.1 := by rw [h]
    subst this
    unfold next
    split
    · exact ⟨rfl, le_rfl⟩
    · simp only
      split <;> exact ⟨rfl, le_rfl⟩
  | false =>
    simp only [step] at h
    unfold nextBack at h
    split at h
    · exact absurd h (by simp)
    · simp only [Option.some.injEq, Prod.mk.injEq] at h
      rw [← h.1]
      exact ⟨rfl, le_rfl⟩
    · simp only at h
      split at h
      · split at h
        · exact absurd h (by simp)
        · simp only [Option.some.injEq, Prod.mk.injEq] at h
          rw [← h.1]
          exact ⟨rfl, Nat.sub_le _ _⟩
      · simp only [Option.some.injEq, Prod.mk.injEq] at h
        rw [← h.1]
        exact ⟨rfl, le_rfl⟩

theorem new_sizes (w xSize ySize : ℕ) (hx : xSize < 2 ^ w) (hy : ySize < 2 ^ w) :
    (new xSize ySize).revX < 2 ^ w ∧ (new xSize ySize).ySize < 2 ^ w ∧
      (new xSize ySize).ySize * (new xSize ySize).revX + (new xSize ySize).ySize = xSize * ySize := by
  unfold new
  split
  · next h =>
    refine ⟨by simp, by simp, ?_⟩
    rcases h with h | h <;> simp [h]
  · next h =>
    push Not at h
    refine ⟨by simp only; omega, hy, ?_⟩
    simp only
    obtain ⟨k, rfl⟩ : ∃ k, xSize = k + 1 := ⟨xSize - 1, by omega⟩
    rw [Nat.add_sub_cancel]
    ring

/-- what `len()` does on machine words -/
theorem lenWords_eq (w : ℕ) (m : Overflow) {p : Positions} {l : List (ℕ × ℕ)} (h : PosInv p l)
    (hx : p.revX < 2 ^ w) (hy : p.ySize < 2 ^ w) :
    (p.lenWords w .panics = if p.ySize * (p.revX - p.x) + p.afterRevY < 2 ^ w then some l.length else none) ∧
      p.lenWords w .wraps = some (l.length % 2 ^ w) ∧
      (p.ySize * p.revX + p.ySize < 2 ^ w → p.lenWords w m = some l.length) := by
  have hlen := h.len
  have hxle := h.x_le
  have hale := h.a_le
  have hyle := h.y_le
  have hle : p.y ≤ p.ySize * (p.revX - p.x) + p.afterRevY ∧
      p.ySize * (p.revX - p.x) + p.afterRevY - p.y = l.length := by
    unfold len at hlen
    rw [if_neg (by omega)] at hlen
    simp only at hlen
    split at hlen
    · exact absurd hlen (by simp)
    · injection hlen with hlen
      exact ⟨by omega, hlen⟩
  set A := p.ySize * (p.revX - p.x) with hA
  have hpanics : p.lenWords w .panics = if A + p.afterRevY < 2 ^ w then some l.length else none := by
    simp only [lenWords]
    rw [Overflow.wordSub_eq .panics hxle hx]
    simp only [Option.bind_eq_bind, Option.bind_some, ← hA]
    by_cases hc : A + p.afterRevY < 2 ^ w
    · rw [if_pos hc, Overflow.word_eq _ (by omega), Option.bind_some, Overflow.word_eq _ hc, Option.bind_some,
        Overflow.wordSub_eq _ hle.1 hc, hle.2]
    · rw [if_neg hc]
      simp only [Overflow.word]
      by_cases hA' : A < 2 ^ w
      · rw [if_pos hA', Option.bind_some, if_neg hc]
        rfl
      · rw [if_neg hA']
        rfl
  have hwraps : p.lenWords w .wraps = some (l.length % 2 ^ w) := by
    simp only [lenWords]
    rw [Overflow.wordSub_eq .wraps hxle hx]
    simp only [Option.bind_eq_bind, Option.bind_some, ← hA, Overflow.word, Overflow.wordSub,
      Option.some.injEq]
    rw [Nat.mod_add_mod, Nat.add_assoc, Nat.mod_add_mod, ← Nat.add_assoc, ← hle.2,
      show A + p.afterRevY + (2 ^ w - p.y) = (A + p.afterRevY - p.y) + 2 ^ w by omega, Nat.add_mod_right]
  refine ⟨hpanics, hwraps, fun hb => ?_⟩
  have hAle : A ≤ p.ySize * p.revX := Nat.mul_le_mul_left _ (Nat.sub_le _ _)
  cases m with
  | panics => rw [hpanics, if_pos (by omega)]
  | wraps => rw [hwraps, Nat.mod_eq_of_lt (by omega)]

end Positions

theorem startAndEndWords_eq (w : ℕ) (m : Overflow) (b : SliceBound) (size : ℕ) (hs : size < 2 ^ w)
    (hb : m = .wraps → b.BelowMax w) :
    startAndEndWords w m b.toBounds size = startAndEnd b.toBounds size := by
  have hp : ∀ v, v + 1 < 2 ^ w → m.word w (v + 1) = some (v + 1) := fun v hv => m.word_eq hv
  have key : ∀ p q : Bound, (m = .wraps → (∀ v, p = .excluded v → v + 1 < 2 ^ w) ∧
      ∀ v, q = .included v → v + 1 < 2 ^ w) → startAndEndWords w m (p, q) size = startAndEnd (p, q) size := by
    intro p q hpq
    by_cases hP : ∀ v, p = .excluded v → v + 1 < 2 ^ w
    · by_cases hQ : ∀ v, q = .included v → v + 1 < 2 ^ w
      · cases p <;> cases q <;> simp only [startAndEndWords, startAndEnd]
        · rfl
        · rfl
        · next v => rw [hp v (hQ v rfl)]; rfl
        · next v => rw [hp v (hP v rfl)]; rfl
        · next v _ => rw [hp v (hP v rfl)]; rfl
        · next u v => rw [hp u (hP u rfl), hp v (hQ v rfl)]; rfl
        · rfl
        · rfl
        · next u v => rw [hp v (hQ v rfl)]; rfl
      · have hm : m = .panics := by
          cases m with
          | panics => rfl
          | wraps => exact absurd (hpq rfl).2 hQ
        push Not at hQ
        obtain ⟨v, rfl, hv⟩ := hQ
        have h1 : m.word w (v + 1) = none := by subst hm; exact if_neg (by omega)
        have h2 : startAndEnd (p, .included v) size = none := by
          unfold startAndEnd
          cases p <;> simp only <;> split_ifs <;> first | rfl | omega
        rw [h2]
        cases p with
        | unbounded => simp only [startAndEndWords, h1]; rfl
        | excluded u =>
          simp only [startAndEndWords, h1, hp u (hP u rfl)]
          rfl
        | included u => simp only [startAndEndWords, h1]; rfl
    · have hm : m = .panics := by
        cases m with
        | panics => rfl
        | wraps => exact absurd (hpq rfl).1 hP
      push Not at hP
      obtain ⟨v, rfl, hv⟩ := hP
      have h1 : m.word w (v + 1) = none := by subst hm; exact if_neg (by omega)
      have h2 : startAndEnd (.excluded v, q) size = none := by
        unfold startAndEnd
        cases q <;> simp only <;> split_ifs <;> first | rfl | omega
      rw [h2]
      simp only [startAndEndWords, h1]
      rfl
  cases b with
  | index i => exact key _ _ fun hm => ⟨by simp, fun v hv => by cases hv; exact hb hm⟩
  | full => exact key _ _ fun _ => ⟨by simp, by simp⟩
  | range s e => exact key _ _ fun _ => ⟨by simp, by simp⟩
  | rangeFrom s => exact key _ _ fun _ => ⟨by simp, by simp⟩
  | rangeTo e => exact key _ _ fun _ => ⟨by simp, by simp⟩
  | rangeInclusive s l => exact key _ _ fun hm => ⟨by simp, fun v hv => by cases hv; exact hb hm⟩
  | rangeToInclusive l => exact key _ _ fun hm => ⟨by simp, fun v hv => by cases hv; exact hb hm⟩
  | bounds p q => exact key p q hb

namespace Array2D

variable {α : Type} {σ : Type}

theorem addressWords_eq {w : ℕ} (m : Overflow) {stride x y : ℕ} (h : x * stride + y < 2 ^ w) :
    addressWords w m stride x y = some (x * stride + y) := by
  simp only [addressWords, Option.bind_eq_bind]
  rw [m.word_eq (by omega), Option.bind_some, m.word_eq h]

theorem InMemory.address {w : ℕ} {a : Array2D α} (h : a.InMemory w) {x y : ℕ} (hx : x ≤ a.xSize)
    (hy : y ≤ a.ySize) : x * a.stride + y < 2 ^ w := by
  have := Nat.mul_le_mul_right a.stride hx
  have := h.2.2
  omega

theorem InMemory.address_succ {w : ℕ} {a : Array2D α} (h : a.InMemory w) {x y : ℕ} (hx : x < a.xSize)
    (hy : y < a.ySize) : x * a.stride + y + 1 < 2 ^ w := by
  have := Nat.mul_le_mul_right a.stride hx.le
  have := h.2.2
  omega

theorem indexWords_eq {w : ℕ} (m : Overflow) {a : Array2D α} (h : a.InMemory w) (x y : ℕ) :
    a.indexWords w m x y = a.index x y := by
  unfold indexWords index
  split
  · next hc => rw [addressWords_eq m (h.address hc.1.le hc.2.le)]; rfl
  · rfl

theorem setWords_eq {w : ℕ} (m : Overflow) {a : Array2D α} (h : a.InMemory w) (x y : ℕ) (v : α) :
    a.setWords w m x y v = a.set x y v := by
  unfold setWords set
  by_cases hc : x < a.xSize ∧ y < a.ySize
  · rw [if_pos hc, addressWords_eq m (h.address hc.1.le hc.2.le)]
    simp only [Option.bind_eq_bind, Option.bind_some]
    by_cases hl : x * a.stride + y < a.data.length
    · rw [if_pos hl, if_pos ⟨hc.1, hc.2, hl⟩]
    · rw [if_neg hl, if_neg fun g => hl g.2.2]
  · rw [if_neg hc, if_neg fun g => hc ⟨g.1, g.2.1⟩]

theorem set_inMemory {w : ℕ} {a b : Array2D α} (h : a.InMemory w) {x y : ℕ} {v : α}
    (hb : a.set x y v = some b) : b.InMemory w := by
  unfold set at hb
  split at hb
  · injection hb with hb
    subst hb
    exact ⟨h.1, by simpa using h.2.1, h.2.2⟩
  · exact absurd hb (by simp)

theorem swapElementsWords_eq {w : ℕ} (m : Overflow) {a : Array2D α} (h : a.InMemory w) (x1 y1 x2 y2 : ℕ) :
    a.swapElementsWords w m x1 y1 x2 y2 = a.swapElements x1 y1 x2 y2 := by
  simp only [swapElementsWords, swapElements, indexWords_eq m h, setWords_eq m h, Option.bind_eq_bind]
  congr 1
  funext v1
  congr 1
  funext v2
  cases hs : a.set x1 y1 v2 with
  | none => rfl
  | some b => exact setWords_eq m (set_inMemory h hs) _ _ _

theorem sliceWords_eq {w : ℕ} (m : Overflow) {a : Array2D α} (h : a.InMemory w) (xb yb : SliceBound)
    (hb : m = .wraps → xb.BelowMax w ∧ yb.BelowMax w) :
    a.sliceWords w m xb yb = do
      let (xStart, xEnd) ← startAndEnd xb.toBounds a.xSize
      let (yStart, yEnd) ← startAndEnd yb.toBounds a.ySize
      let v ← a.slice xStart xEnd yStart yEnd
      return (xStart * a.stride + yStart, v) := by
  have hy : a.ySize < 2 ^ w := by have := h.2.2; omega
  simp only [sliceWords]
  rw [startAndEndWords_eq w m xb _ h.1 fun hm => (hb hm).1, startAndEndWords_eq w m yb _ hy fun hm => (hb hm).2]
  simp only [Option.bind_eq_bind, Option.pure_def]
  cases hsx : startAndEnd xb.toBounds a.xSize with
  | none => rfl
  | some p =>
    obtain ⟨x0, x1⟩ := p
    cases hsy : startAndEnd yb.toBounds a.ySize with
    | none => rfl
    | some q =>
      obtain ⟨y0, y1⟩ := q
      obtain ⟨a1, a2, -⟩ := startAndEnd_spec xb _ _ _ hsx
      obtain ⟨b1, b2, -⟩ := startAndEnd_spec yb _ _ _ hsy
      have hx := h.1
      simp only [Option.bind_some]
      rw [m.wordSub_eq a1 (by omega), m.wordSub_eq b1 (by omega), addressWords_eq m (h.address (by omega) (by omega))]
      simp only [Option.bind_some]
      unfold slice
      rw [if_pos (show x0 ≤ x1 ∧ x1 ≤ a.xSize ∧ y0 ≤ y1 ∧ y1 ≤ a.ySize from ⟨a1, a2, b1, b2⟩)]
      simp only
      by_cases hc : x0 * a.stride + y0 ≤ a.data.length
      · rw [if_pos hc, if_pos hc]
        rfl
      · rw [if_neg hc, if_neg hc]
        rfl

theorem slice_inMemory {w : ℕ} {a v : Array2D α} (h : a.InMemory w) {x0 x1 y0 y1 : ℕ}
    (hv : a.slice x0 x1 y0 y1 = some v) : v.InMemory w := by
  unfold slice at hv
  split at hv
  swap
  · exact absurd hv (by simp)
  next hb =>
  simp only at hv
  split at hv
  swap
  · exact absurd hv (by simp)
  injection hv with hv
  subst hv
  obtain ⟨h1, h2, h3⟩ := h
  refine ⟨by simp only; omega, by simp only [List.length_drop]; omega, ?_⟩
  simp only
  have := Nat.mul_le_mul_right a.stride (show x1 - x0 ≤ a.xSize by omega)
  omega

theorem getWords_of_some {β : Type} {w : ℕ} (m : Overflow) (d : IterOwned β) (x y : ℕ) (r : IterOwned β × β)
    (ha : x * d.stride + y + 1 < 2 ^ w) (h : d.get x y = some r) : d.getWords w m x y = some r := by
  unfold IterOwned.get at h
  split at h
  · exact absurd h (by simp)
  next ho =>
  simp only [IterOwned.getWords, Option.bind_eq_bind]
  rw [addressWords_eq m (by omega), Option.bind_some, m.wordSub_eq (by omega) (by omega), Option.bind_some,
    m.word_eq (by omega), Option.bind_some, m.word_eq (by omega), Option.bind_some]
  exact h

theorem getBackWords_of_some {β : Type} {w : ℕ} (m : Overflow) (d : IterOwned β) (x y : ℕ) (r : IterOwned β × β)
    (ha : x * d.stride + y + 1 < 2 ^ w) (hl : d.iter.length < 2 ^ w) (h : d.getBack x y = some r) :
    d.getBackWords w m x y = some r := by
  unfold IterOwned.getBack at h
  split at h
  · exact absurd h (by simp)
  next ho =>
  simp only at h
  split at h
  · exact absurd h (by simp)
  next hi =>
  simp only [IterOwned.getBackWords, Option.bind_eq_bind]
  rw [addressWords_eq m (by omega), Option.bind_some, m.wordSub_eq (by omega) (by omega), Option.bind_some,
    m.wordSub_eq (by omega) hl, Option.bind_some, m.wordSub_eq (by omega) (by omega), Option.bind_some,
    if_neg (by omega)]
  rw [show d.iter.length - 1 - (d.iter.length - (x * d.stride + y - d.offset) - 1) =
    x * d.stride + y - d.offset by omega]
  exact h

theorem get_shape {β : Type} {d d' : IterOwned β} {x y : ℕ} {v : β} {op : Bool}
    (h : (if op then d.get x y else d.getBack x y) = some (d', v)) :
    d'.stride = d.stride ∧ d'.iter.length ≤ d.iter.length := by
  cases op with
  | true =>
    simp only [if_true, IterOwned.get] at h
    split at h
    · exact absurd h (by simp)
    split at h
    · exact absurd h (by simp)
    · simp only [Option.some.injEq, Prod.mk.injEq] at h
      rw [← h.1]
      simp
  | false =>
    simp only [Bool.false_eq_true, if_false, IterOwned.getBack] at h
    split at h
    · exact absurd h (by simp)
    split at h
    · exact absurd h (by simp)
    split at h
    · exact absurd h (by simp)
    · simp only [Option.some.injEq, Prod.mk.injEq] at h
      rw [← h.1]
      simp

theorem runOwnedPosWords_of_some {β : Type} {w : ℕ} (m : Overflow) (xSize ySize stride : ℕ)
    (hadd : ∀ x y, x < xSize → y < ySize → x * stride + y + 1 < 2 ^ w) {p : Positions} {l : List (ℕ × ℕ)}
    (h : PosInv p l) (hl : ∀ q ∈ l, q.1 < xSize ∧ q.2 < ySize) (hx : p.revX < 2 ^ w) (hy : p.ySize < 2 ^ w)
    (d : IterOwned β) (hs : d.stride = stride) (hd : d.iter.length < 2 ^ w) (ops : List Bool)
    (r : List (Option ((ℕ × ℕ) × β))) (hr : runOwnedPos p d ops = some r) :
    runOwnedPosWords w m p d ops = some r := by
  induction ops generalizing p l d r with
  | nil => exact hr
  | cons op ops ih =>
    obtain ⟨p', h1, h2⟩ := h.step op
    have hsz := Positions.step_sizes h1
    have hl' : ∀ q ∈ (if op then l.tail else l.dropLast), q.1 < xSize ∧ q.2 < ySize := by
      intro q hq
      cases op with
      | true => exact hl q (List.mem_of_mem_tail hq)
      | false => exact hl q (List.mem_of_mem_dropLast hq)
    simp only [runOwnedPos, h1, Option.bind_eq_bind, Option.bind_some] at hr
    simp only [runOwnedPosWords, Positions.stepWords_eq w m h hx hy, h1, Option.bind_eq_bind, Option.bind_some]
    cases hi : (if op then l.head? else l.getLast?) with
    | none =>
      rw [hi] at hr
      simp only at hr ⊢
      obtain ⟨rest, hrest, hr⟩ := Option.bind_eq_some_iff.mp hr
      rw [ih h2 hl' (by omega) (by omega) d hs hd rest hrest]
      exact hr
    | some q =>
      obtain ⟨x, y⟩ := q
      rw [hi] at hr
      have hq : (x, y) ∈ l := by
        cases op with
        | true => exact List.mem_of_mem_head? (by simpa using hi)
        | false => exact List.mem_of_getLast? (by simpa using hi)
      have ha := hadd x y (hl _ hq).1 (hl _ hq).2
      have hr' : ((if op then d.get x y else d.getBack x y).bind fun t =>
          (runOwnedPos p' t.1 ops).bind fun rest => some (some ((x, y), t.2) :: rest)) = some r := by
        cases op <;> exact hr
      obtain ⟨⟨d', v⟩, hg, hr'⟩ := Option.bind_eq_some_iff.mp hr'
      obtain ⟨rest, hrest, hr'⟩ := Option.bind_eq_some_iff.mp hr'
      have hsh := get_shape hg
      have hgw : (if op then d.getWords w m x y else d.getBackWords w m x y) = some (d', v) := by
        cases op with
        | true => exact getWords_of_some m d x y _ (by rw [hs]; exact ha) hg
        | false => exact getBackWords_of_some m d x y _ (by rw [hs]; exact ha) hd hg
      have := ih h2 hl' (by omega) (by omega) d' (by rw [hsh.1, hs]) (by omega) rest hrest
      cases op <;> simp_all

theorem iterMutRefsWords_eq {w : ℕ} (m : Overflow) {a : Array2D α} (hv : a.Valid) (h : a.InMemory w)
    (ops : List Bool) : a.iterMutRefsWords w m ops = a.iterMutRefs ops := by
  have hr := iterMutRefs_eq a hv ops
  have hn := Positions.new_sizes w a.xSize a.ySize h.1 (by have := h.2.2; omega)
  rw [hr]
  exact runOwnedPosWords_of_some m a.xSize a.ySize a.stride (fun x y hx hy => h.address_succ hx hy)
    (PosInv.new a.xSize a.ySize) (fun q hq => (columnMajor_mem _ _ q).mp hq) hn.1 hn.2.1 _ rfl
    (by simpa using h.2.1) ops _ hr

theorem runIterWords_eq {w : ℕ} (m : Overflow) {a : Array2D α} (ha : a.InMemory w) {p : Positions}
    {l : List (ℕ × ℕ)} (h : PosInv p l) (hl : ∀ q ∈ l, q.1 < a.xSize ∧ q.2 < a.ySize) (hx : p.revX < 2 ^ w)
    (hy : p.ySize < 2 ^ w) (ops : List Bool) : runIterWords w m p a ops = runIter p a ops := by
  induction ops generalizing p l with
  | nil => rfl
  | cons op ops ih =>
    obtain ⟨p', h1, h2⟩ := h.step op
    have hsz := Positions.step_sizes h1
    have hl' : ∀ q ∈ (if op then l.tail else l.dropLast), q.1 < a.xSize ∧ q.2 < a.ySize := by
      intro q hq
      cases op with
      | true => exact hl q (List.mem_of_mem_tail hq)
      | false => exact hl q (List.mem_of_mem_dropLast hq)
    have ih' := ih h2 hl' (by omega) (by omega)
    simp only [runIter, runIterWords, Positions.stepWords_eq w m h hx hy, h1, Option.bind_eq_bind,
      Option.bind_some]
    cases hi : (if op then l.head? else l.getLast?) with
    | none => simp only [ih']
    | some q =>
      obtain ⟨x, y⟩ := q
      have hq : (x, y) ∈ l := by
        cases op with
        | true => exact List.mem_of_mem_head? (by simpa using hi)
        | false => exact List.mem_of_getLast? (by simpa using hi)
      simp only [addressWords_eq m (ha.address (hl _ hq).1.le (hl _ hq).2.le), Option.bind_some, ih']

theorem Edit.runWords_eq {w : ℕ} (m : Overflow) (e : Edit α) {a : Array2D α} (hv : a.Valid)
    (h : a.InMemory w) : e.runWords w m a = e.run a := by
  cases e with
  | set x y v => exact setWords_eq m h x y v
  | modify x y f => simp only [Edit.runWords, Edit.run, indexWords_eq m h, setWords_eq m h]
  | swap x1 y1 x2 y2 => exact swapElementsWords_eq m h x1 y1 x2 y2
  | iterMut ops f => simp only [Edit.runWords, Edit.run, iterMutRefsWords_eq m hv h]

theorem throughWords_eq {w : ℕ} (m : Overflow) (e : Edit α) (path : List (SliceBound × SliceBound))
    (hp : m = .wraps → ∀ b ∈ path, b.1.BelowMax w ∧ b.2.BelowMax w) {a : Array2D α} (hv : a.Valid)
    (h : a.InMemory w) : a.throughWords w m (e.runWords w m) path = a.through e.run path := by
  induction path generalizing a with
  | nil => exact e.runWords_eq m hv h
  | cons b path ih =>
    obtain ⟨xb, yb⟩ := b
    simp only [throughWords, through]
    rw [sliceWords_eq m h xb yb fun hm => hp hm (xb, yb) (List.mem_cons_self ..)]
    simp only [Option.bind_eq_bind, Option.pure_def]
    cases hsx : startAndEnd xb.toBounds a.xSize with
    | none => rfl
    | some p =>
      obtain ⟨x0, x1⟩ := p
      cases hsy : startAndEnd yb.toBounds a.ySize with
      | none => rfl
      | some q =>
        obtain ⟨y0, y1⟩ := q
        simp only [Option.bind_some]
        cases hs : a.slice x0 x1 y0 y1 with
        | none => rfl
        | some v =>
          simp only [Option.bind_some]
          rw [ih (fun hm b hb => hp hm b (List.mem_cons_of_mem _ hb))
            (slice_back a hv x0 x1 y0 y1 v v hs (Edits.refl v)).1 (slice_inMemory h hs)]

theorem Edits.inMemory {w : ℕ} {a b : Array2D α} (h : Edits a b) (ha : a.InMemory w) : b.InMemory w := by
  obtain ⟨h1, h2, h3, h4, -⟩ := h
  unfold InMemory
  rw [h1, h2, h3, h4]
  exact ha

theorem runEditsWords_eq [Inhabited α] {w : ℕ} (m : Overflow) (prog : List (List (SliceBound × SliceBound) × Edit α))
    (hp : m = .wraps → ∀ s ∈ prog, ∀ b ∈ s.1, b.1.BelowMax w ∧ b.2.BelowMax w) {a : Array2D α} (hv : a.Valid)
    (h : a.InMemory w) : a.runEditsWords w m prog = a.runEdits prog := by
  induction prog generalizing a with
  | nil => rfl
  | cons s prog ih =>
    obtain ⟨path, e⟩ := s
    simp only [runEditsWords, runEdits, Option.bind_eq_bind]
    rw [throughWords_eq m e path (fun hm => hp hm (path, e) (List.mem_cons_self ..)) hv h]
    cases ht : a.through e.run path with
    | none => rfl
    | some a' =>
      obtain ⟨-, k2, -⟩ := (through_spec e path a hv _ hv.shows_index).1 a' ht
      exact ih (fun hm s hs => hp hm s (List.mem_cons_of_mem _ hs)) (k2.valid hv) (k2.inMemory h)

/-- an array in at most half of the memory -/
theorem fromArray_inMemory {w : ℕ} (hw : 0 < w) {xSize ySize : ℕ} (hx : xSize < 2 ^ w) (hy : ySize < 2 ^ w)
    {data : List α} (hl : data.length < 2 ^ (w - 1)) {a : Array2D α} (ha : fromArray xSize ySize data = some a) :
    a.Valid ∧ a.InMemory w := by
  have hc : xSize * ySize = data.length := by
    unfold fromArray at ha
    split at ha
    · assumption
    · exact absurd ha (by simp)
  obtain ⟨b, hb, hv, -⟩ := Algebraics.C56_from_array xSize ySize data hc
  rw [hb] at ha
  injection ha with ha
  subst ha
  refine ⟨hv, ?_⟩
  rw [fromArray, if_pos hc] at hb
  injection hb with hb
  subst hb
  have h2 : 2 ^ w = 2 ^ (w - 1) + 2 ^ (w - 1) := by
    obtain ⟨k, rfl⟩ : ∃ k, w = k + 1 := ⟨w - 1, by omega⟩
    rw [Nat.add_sub_cancel, pow_succ]
    omega
  refine ⟨hx, by simp only; omega, ?_⟩
  simp only
  rcases Nat.eq_zero_or_pos xSize with h0 | h0
  · rw [h0]
    omega
  · have := Nat.le_mul_of_pos_left ySize h0
    omega

theorem collectPositionsWords_eq (w : ℕ) (m : Overflow) (f : ℕ → ℕ → σ → σ × α) (fuel : ℕ) {p : Positions}
    {l : List (ℕ × ℕ)} (h : PosInv p l) (hx : p.revX < 2 ^ w) (hy : p.ySize < 2 ^ w) (s : σ) :
    collectPositionsWords w m f fuel p s = collectPositions f fuel p s := by
  induction fuel generalizing p l s with
  | zero => rfl
  | succ fuel ih =>
    have hstep := Positions.stepWords_eq w m h hx hy true
    obtain ⟨p', h1, h2⟩ := h.step true
    have hsz := Positions.step_sizes h1
    have hw : p.nextWords w m = some (p', l.head?) := by
      have := hstep.trans h1
      simpa [Positions.stepWords] using this
    have hn : p.next = (p', l.head?) := by simpa [Positions.step] using h1
    simp only [collectPositionsWords, collectPositions, hw, hn, Option.bind_eq_bind, Option.bind_some]
    cases l.head? with
    | none => rfl
    | some q =>
      obtain ⟨x, y⟩ := q
      simp only [ih h2 (by omega) (by omega)]

end Array2D

end Algebraics
