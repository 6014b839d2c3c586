import Verif.Spec.Array2DMut
import Verif.Props.Array2DMake

/-!
Lemmas for C93: writes through mutable slices and iterators.
-/

namespace Algebraics

theorem startAndEnd_eq (b : SliceBound) (size : ℕ) :
    startAndEnd b.toBounds size =
      if b.lo ≤ b.hi size ∧ b.hi size ≤ size then some (b.lo, b.hi size) else none := by
  have key : ∀ s e : ℕ, (if ¬ s ≤ e then none else if ¬ e ≤ size then none else some (s, e)) =
      if s ≤ e ∧ e ≤ size then some (s, e) else none := by
    intro s e
    by_cases h1 : s ≤ e <;> by_cases h2 : e ≤ size <;> simp [h1, h2]
  have key' : startAndEnd b.toBounds size = (if ¬ b.lo ≤ b.hi size then none else
      if ¬ b.hi size ≤ size then none else some (b.lo, b.hi size)) := by
    cases b with
    | bounds p q => cases p <;> cases q <;> rfl
    | _ => rfl
  rw [key', key]

theorem dequeRun_mem {β : Type} (l : List β) (ops : List Bool) (q : β)
    (h : some q ∈ (dequeRun l ops).map Prod.fst) : q ∈ l := by
  induction ops generalizing l with
  | nil => simp [dequeRun] at h
  | cons op ops ih =>
    cases op with
    | true =>
      simp only [dequeRun, List.map_cons, List.mem_cons] at h
      rcases h with h | h
      · exact List.mem_of_mem_head? h.symm
      · exact List.mem_of_mem_tail (ih _ h)
    | false =>
      simp only [dequeRun, List.map_cons, List.mem_cons] at h
      rcases h with h | h
      · exact List.mem_of_getLast? h.symm
      · exact List.mem_of_mem_dropLast (ih _ h)

/-- no element is handed out twice -/
theorem dequeRun_nodup {β : Type} (l : List β) (hl : l.Nodup) (ops : List Bool) :
    (((dequeRun l ops).map Prod.fst).filterMap id).Nodup := by
  induction ops generalizing l with
  | nil => simp [dequeRun]
  | cons op ops ih =>
    cases op with
    | true =>
      cases l with
      | nil => simpa [dequeRun] using ih [] hl
      | cons q l =>
        have hq := List.nodup_cons.mp hl
        simp only [dequeRun, List.head?_cons, List.tail_cons, List.map_cons, List.filterMap_cons, id_eq]
        refine List.nodup_cons.mpr ⟨fun hm => hq.1 ?_, ih l hq.2⟩
        rw [List.mem_filterMap] at hm
        obtain ⟨o, ho, hoq⟩ := hm
        subst hoq
        exact dequeRun_mem l ops q ho
    | false =>
      rcases List.eq_nil_or_concat l with rfl | ⟨l, q, rfl⟩
      · simpa [dequeRun] using ih [] hl
      · rw [List.concat_eq_append] at hl ⊢
        simp only [dequeRun, List.getLast?_concat, List.dropLast_concat, List.map_cons,
          List.filterMap_cons, id_eq]
        have hn := List.nodup_append.mp hl
        refine List.nodup_cons.mpr ⟨fun hm => ?_, ih l hn.1⟩
        rw [List.mem_filterMap] at hm
        obtain ⟨o, ho, hoq⟩ := hm
        subst hoq
        exact hn.2.2 q (dequeRun_mem l ops q ho) q (by simp) rfl

theorem dequeRun_map {β γ : Type} (f : β → γ) (l : List β) (ops : List Bool) :
    (dequeRun (l.map f) ops).map Prod.fst = ((dequeRun l ops).map Prod.fst).map (Option.map f) := by
  induction ops generalizing l with
  | nil => rfl
  | cons op ops ih =>
    cases op with
    | true => simp [dequeRun, ← List.map_tail, ih]
    | false => simp [dequeRun, ← List.map_dropLast, ih]

namespace Array2D

variable {α : Type}

theorem address_inj (a : Array2D α) (h : a.Valid) {x y x' y' : ℕ} (hy : y < a.ySize) (hy' : y' < a.ySize)
    (he : x * a.stride + y = x' * a.stride + y') : x = x' ∧ y = y' := by
  have hs := h.1
  have hpos : 0 < a.stride := by omega
  have e1 := congrArg (· % a.stride) he
  have e2 := congrArg (· / a.stride) he
  simp only [Nat.mul_add_mod_self_right, Nat.mod_eq_of_lt (by omega : y < a.stride),
    Nat.mod_eq_of_lt (by omega : y' < a.stride)] at e1
  simp only [Nat.add_comm _ y, Nat.add_comm _ y', Nat.add_mul_div_right _ _ hpos,
    Nat.div_eq_of_lt (by omega : y < a.stride), Nat.div_eq_of_lt (by omega : y' < a.stride)] at e2
  exact ⟨by omega, e1⟩

theorem columnMajor_nodup (xSize ySize : ℕ) : (columnMajor xSize ySize).Nodup := by
  have := columnMajor_pairwise xSize ySize ySize le_rfl
  refine this.imp ?_
  intro q r h he
  subst he
  exact absurd h (lt_irrefl _)

theorem runOwnedPos_eq {β : Type} (p : Positions) (d : IterOwned β) (ops : List Bool)
    (vs : List (Option β)) (ps : List (Option (ℕ × ℕ) × ℕ)) (h1 : runOwned p d ops = some vs)
    (h2 : p.run ops = some ps) :
    ∃ L, runOwnedPos p d ops = some L ∧ L.map (Option.map Prod.snd) = vs ∧
      L.map (Option.map Prod.fst) = ps.map Prod.fst := by
  induction ops generalizing p d vs ps with
  | nil =>
    simp only [runOwned, Positions.run, Option.some.injEq] at h1 h2
    subst h1 h2
    exact ⟨[], rfl, rfl, rfl⟩
  | cons op ops ih =>
    simp only [runOwned, Option.bind_eq_bind] at h1
    obtain ⟨⟨p', item⟩, hs, h1⟩ := Option.bind_eq_some_iff.mp h1
    simp only [Positions.run, Option.bind_eq_bind] at h2
    rw [hs] at h2
    simp only [Option.bind_some] at h2
    obtain ⟨n, hn, h2⟩ := Option.bind_eq_some_iff.mp h2
    obtain ⟨rest, hr, h2⟩ := Option.bind_eq_some_iff.mp h2
    injection h2 with h2
    subst h2
    cases item with
    | none =>
      simp only at h1
      obtain ⟨vs', hv, h1⟩ := Option.bind_eq_some_iff.mp h1
      injection h1 with h1
      subst h1
      obtain ⟨L, hL, e1, e2⟩ := ih p' d vs' rest hv hr
      refine ⟨none :: L, ?_, by simp [e1], by simp [e2]⟩
      simp [runOwnedPos, hs, hL]
    | some q =>
      obtain ⟨x, y⟩ := q
      have h1' : ((if op then d.get x y else d.getBack x y).bind fun r =>
          (runOwned p' r.1 ops).bind fun rest => some (some r.2 :: rest)) = some vs := by
        cases op <;> exact h1
      clear h1
      obtain ⟨⟨d', v⟩, hd, h1⟩ := Option.bind_eq_some_iff.mp h1'
      obtain ⟨vs', hv, h1⟩ := Option.bind_eq_some_iff.mp h1
      injection h1 with h1
      subst h1
      obtain ⟨L, hL, e1, e2⟩ := ih p' d' vs' rest hv hr
      refine ⟨some ((x, y), v) :: L, ?_, by simp [e1], by simp [e2]⟩
      simp only [runOwnedPos, hs, Option.bind_eq_bind, Option.bind_some]
      cases op <;> simp_all

/-- the references that a history on `iter_mut` hands out -/
theorem iterMutRefs_eq (a : Array2D α) (h : a.Valid) (ops : List Bool) :
    a.iterMutRefs ops = some (((dequeRun (columnMajor a.xSize a.ySize) ops).map Prod.fst).map
      (Option.map fun q => (q, q.1 * a.stride + q.2))) := by
  have hA : (⟨a.xSize, a.ySize, a.stride, List.range a.data.length⟩ : Array2D ℕ).Valid :=
    ⟨h.1, fun x y hx hy => by simpa using h.2 x y hx hy⟩
  obtain ⟨E, hE, -, hO⟩ := Algebraics.C56_iterators _ hA ops
  have hEq : E = (columnMajor a.xSize a.ySize).map fun q => q.1 * a.stride + q.2 := by
    have : E.map some = ((columnMajor a.xSize a.ySize).map fun q => q.1 * a.stride + q.2).map some := by
      rw [hE, List.map_map]
      apply List.map_congr_left
      intro q hq
      have hq' := (columnMajor_mem _ _ _).mp hq
      simp only [index, Function.comp]
      rw [if_pos hq', List.getElem?_range (h.2 _ _ hq'.1 hq'.2)]
    exact List.map_injective_iff.mpr (Option.some_injective _) this
  obtain ⟨L, hL, e1, e2⟩ := runOwnedPos_eq _ _ ops _ _ hO ((PosInv.new a.xSize a.ySize).run ops)
  rw [iterMutRefs, hL]
  rw [hEq, dequeRun_map] at e1
  congr 1
  have hlen : L.length = ((dequeRun (columnMajor a.xSize a.ySize) ops).map Prod.fst).length := by
    simpa using congrArg List.length e2
  apply List.ext_getElem (by simpa using hlen)
  intro i hi hi'
  have f1 : Option.map Prod.snd L[i] = Option.map (fun q => q.1 * a.stride + q.2)
      ((dequeRun (columnMajor a.xSize a.ySize) ops).map Prod.fst)[i] := by
    have := List.getElem_of_eq e1 (i := i) (by simpa using hi)
    simpa using this
  have f2 : Option.map Prod.fst L[i] =
      ((dequeRun (columnMajor a.xSize a.ySize) ops).map Prod.fst)[i] := by
    have := List.getElem_of_eq e2 (i := i) (by simpa using hi)
    simpa using this
  rw [List.getElem_map]
  rw [← f2] at f1 ⊢
  cases hc : L[i] with
  | none => rfl
  | some r =>
    rw [hc] at f1
    simp only [Option.map_some, Option.some.injEq] at f1 ⊢
    rw [← f1]

theorem writeRefs_length (w : ℕ → ℕ × ℕ → α → α) (k : ℕ) (refs : List (Option ((ℕ × ℕ) × ℕ)))
    (data : List α) : (writeRefs w k refs data).length = data.length := by
  induction refs generalizing k data with
  | nil => rfl
  | cons r refs ih =>
    rcases r with _ | ⟨q, i⟩
    · exact ih _ _
    · rw [writeRefs, ih, List.length_modify]

theorem writeRefs_other (w : ℕ → ℕ × ℕ → α → α) (k : ℕ) (refs : List (Option ((ℕ × ℕ) × ℕ)))
    (data : List α) (i : ℕ) (hi : ∀ q, some (q, i) ∉ refs) :
    (writeRefs w k refs data)[i]? = data[i]? := by
  induction refs generalizing k data with
  | nil => rfl
  | cons r refs ih =>
    have ih' := fun k data => ih k data fun q hq => hi q (List.mem_cons_of_mem _ hq)
    rcases r with _ | ⟨q, j⟩
    · exact ih' _ _
    · rw [writeRefs, ih', List.getElem?_modify]
      have : j ≠ i := fun e => hi q (by rw [e]; exact List.mem_cons_self ..)
      simp [this]

theorem writeRefs_at (addr : ℕ × ℕ → ℕ) (w : ℕ → ℕ × ℕ → α → α) (k : ℕ) (Q : List (Option (ℕ × ℕ)))
    (hn : (Q.filterMap id).Nodup) (data : List α) (q : ℕ × ℕ)
    (hinj : ∀ r, some r ∈ Q → addr r = addr q → r = q) :
    (writeRefs w k (Q.map (Option.map fun q => (q, addr q))) data)[addr q]? =
      match Q.findIdx? (· = some q) with
      | some n => (data[addr q]?).map (w (k + n) q)
      | none => data[addr q]? := by
  induction Q generalizing k data with
  | nil => rfl
  | cons o Q ih =>
    have hinj' : ∀ r, some r ∈ Q → addr r = addr q → r = q :=
      fun r hr => hinj r (List.mem_cons_of_mem _ hr)
    cases o with
    | none =>
      have hn' : (Q.filterMap id).Nodup := by simpa using hn
      simp only [List.map_cons, Option.map_none, writeRefs]
      rw [ih (k + 1) hn' data hinj', List.findIdx?_cons]
      simp only [reduceCtorEq, decide_false, Bool.false_eq_true, if_false]
      cases Q.findIdx? (· = some q) with
      | none => rfl
      | some n => simp [Nat.add_assoc, Nat.add_comm 1 n]
    | some r =>
      have hn' : r ∉ Q.filterMap id ∧ (Q.filterMap id).Nodup := by
        simpa only [List.filterMap_cons, id_eq, List.nodup_cons] using hn
      simp only [List.map_cons, Option.map_some, writeRefs]
      by_cases hr : r = q
      · subst hr
        have hnot : ∀ q', some (q', addr r) ∉ Q.map (Option.map fun q => (q, addr q)) := by
          intro q' hq'
          obtain ⟨o, ho, hoq⟩ := List.mem_map.mp hq'
          cases o with
          | none => simp at hoq
          | some r' =>
            simp only [Option.map_some, Option.some.injEq, Prod.mk.injEq] at hoq
            have := hinj' r' ho hoq.2
            subst this
            exact hn'.1 (List.mem_filterMap.mpr ⟨_, ho, rfl⟩)
        rw [writeRefs_other _ _ _ _ _ hnot, List.findIdx?_cons]
        simp [List.getElem?_modify]
      · have hne : addr r ≠ addr q := fun e => hr (hinj r (List.mem_cons_self ..) e)
        rw [ih (k + 1) hn'.2 _ hinj', List.findIdx?_cons]
        simp only [Option.some.injEq, hr, decide_false, Bool.false_eq_true, if_false]
        cases Q.findIdx? (· = some q) with
        | none => simp [List.getElem?_modify, hne]
        | some n => simp [List.getElem?_modify, hne, Nat.add_assoc, Nat.add_comm 1 n]

/-- a change keeps the shape and everything in the data that is no element -/
def Edits (a b : Array2D α) : Prop :=
  b.xSize = a.xSize ∧ b.ySize = a.ySize ∧ b.stride = a.stride ∧ b.data.length = a.data.length ∧
    ∀ i, (∀ x y, x < a.xSize → y < a.ySize → x * a.stride + y ≠ i) → b.data[i]? = a.data[i]?

theorem Edits.refl (a : Array2D α) : Edits a a := ⟨rfl, rfl, rfl, rfl, fun _ _ => rfl⟩

theorem Edits.valid {a b : Array2D α} (h : Edits a b) (ha : a.Valid) : b.Valid := by
  obtain ⟨h1, h2, h3, h4, -⟩ := h
  exact ⟨by rw [h2, h3]; exact ha.1, fun x y hx hy => by
    rw [h3, h4]; exact ha.2 x y (h1 ▸ hx) (h2 ▸ hy)⟩

theorem Edits.trans {a b c : Array2D α} (h : Edits a b) (h' : Edits b c) : Edits a c := by
  obtain ⟨h1, h2, h3, h4, h5⟩ := h
  obtain ⟨k1, k2, k3, k4, k5⟩ := h'
  refine ⟨k1.trans h1, k2.trans h2, k3.trans h3, k4.trans h4, fun i hi => ?_⟩
  rw [k5 i (by rw [h1, h2, h3]; exact hi), h5 i hi]

theorem set_edits (a : Array2D α) (h : a.Valid) (x y : ℕ) (v : α) (hx : x < a.xSize) (hy : y < a.ySize) :
    ∃ b, a.set x y v = some b ∧ Edits a b ∧ ∀ i j, i < a.xSize → j < a.ySize →
      b.index i j = if i = x ∧ j = y then some v else a.index i j := by
  have hl := h.2 x y hx hy
  refine ⟨{ a with data := a.data.set (x * a.stride + y) v }, by rw [set, if_pos ⟨hx, hy, hl⟩], ⟨rfl, rfl, rfl, by simp, fun i hi => ?_⟩, ?_⟩
  · simp only
    rw [List.getElem?_set_ne (hi x y hx hy)]
  · intro i j hi hj
    rw [index, if_pos (show i < a.xSize ∧ j < a.ySize from ⟨hi, hj⟩), index,
      if_pos (show i < a.xSize ∧ j < a.ySize from ⟨hi, hj⟩)]
    simp only
    by_cases hc : i = x ∧ j = y
    · obtain ⟨rfl, rfl⟩ := hc
      rw [if_pos ⟨rfl, rfl⟩, List.getElem?_set_self hl]
    · rw [if_neg hc, List.getElem?_set_ne]
      intro he
      obtain ⟨e1, e2⟩ := a.address_inj h hy hj he
      exact hc ⟨e1.symm, e2.symm⟩

theorem set_none (a : Array2D α) (x y : ℕ) (v : α) (h : ¬ (x < a.xSize ∧ y < a.ySize)) :
    a.set x y v = none := by
  rw [set, if_neg]
  exact fun g => h ⟨g.1, g.2.1⟩

theorem index_none (a : Array2D α) (x y : ℕ) (h : ¬ (x < a.xSize ∧ y < a.ySize)) :
    a.index x y = none := by
  rw [index, if_neg h]

theorem iterMut_edits (a : Array2D α) (h : a.Valid) (ops : List Bool) (w : ℕ → ℕ × ℕ → α → α) :
    ∃ b, (Edit.iterMut ops w).run a = some b ∧ Edits a b ∧ ∀ i j, i < a.xSize → j < a.ySize →
      b.index i j = match callFor a.xSize a.ySize ops (i, j) with
        | some k => (a.index i j).map (w k (i, j))
        | none => a.index i j := by
  refine ⟨{ a with data := writeRefs w 0 (((dequeRun (columnMajor a.xSize a.ySize) ops).map Prod.fst).map
      (Option.map fun q => (q, q.1 * a.stride + q.2))) a.data },
    by simp only [Edit.run, iterMutRefs_eq a h ops, Option.bind_eq_bind, Option.bind_some]; rfl,
    ⟨rfl, rfl, rfl, by simp [writeRefs_length], ?_⟩, ?_⟩
  · intro i hi
    refine writeRefs_other _ _ _ _ _ fun q hq => ?_
    obtain ⟨o, ho, hoq⟩ := List.mem_map.mp hq
    cases o with
    | none => simp at hoq
    | some r =>
      simp only [Option.map_some, Option.some.injEq, Prod.mk.injEq] at hoq
      have hr := (columnMajor_mem _ _ _).mp (dequeRun_mem _ _ _ ho)
      exact hi r.1 r.2 hr.1 hr.2 hoq.2
  · intro i j hi hj
    rw [index, index, if_pos ⟨hi, hj⟩, if_pos ⟨hi, hj⟩]
    have := writeRefs_at (fun q => q.1 * a.stride + q.2) w 0
      ((dequeRun (columnMajor a.xSize a.ySize) ops).map Prod.fst)
      (dequeRun_nodup _ (columnMajor_nodup _ _) ops) a.data (i, j) (by
        intro r hr he
        have hr' := (columnMajor_mem _ _ _).mp (dequeRun_mem _ _ _ hr)
        obtain ⟨e1, e2⟩ := a.address_inj h hr'.2 hj he
        exact Prod.ext e1 e2)
    simp only [Nat.zero_add] at this
    simp only [callFor]
    exact this

/-- a change of an array does to its elements what the specification says -/
theorem Edit.run_spec (e : Edit α) (a : Array2D α) (h : a.Valid) (g : Grid α) (hg : a.Shows g) :
    (e.Fits a.xSize a.ySize → ∃ b, e.run a = some b ∧ Edits a b ∧ b.Shows (g.edit a.xSize a.ySize e)) ∧
      (¬ e.Fits a.xSize a.ySize → e.run a = none) := by
  cases e with
  | set x y v =>
    refine ⟨fun hf => ?_, fun hf => set_none a x y v hf⟩
    obtain ⟨b, hb, he, hi⟩ := set_edits a h x y v hf.1 hf.2
    refine ⟨b, hb, he, fun i j hi' hj' => ?_⟩
    rw [he.1] at hi'
    rw [he.2.1] at hj'
    rw [hi i j hi' hj', hg i j hi' hj']
    simp only [Grid.edit]
    split <;> rfl
  | modify x y f =>
    refine ⟨fun hf => ?_, fun hf => ?_⟩
    · obtain ⟨b, hb, he, hi⟩ := set_edits a h x y (f (g x y)) hf.1 hf.2
      refine ⟨b, ?_, he, fun i j hi' hj' => ?_⟩
      · simp only [Edit.run, hg x y hf.1 hf.2, Option.bind_eq_bind, Option.bind_some, hb]
      rw [he.1] at hi'
      rw [he.2.1] at hj'
      rw [hi i j hi' hj', hg i j hi' hj']
      simp only [Grid.edit]
      split
      · next hc => rw [hc.1, hc.2]
      · rfl
    · simp only [Edit.run, index_none a x y hf, Option.bind_eq_bind, Option.bind_none]
  | swap x1 y1 x2 y2 =>
    refine ⟨fun hf => ?_, fun hf => ?_⟩
    · obtain ⟨⟨f1, f2⟩, f3, f4⟩ := hf
      obtain ⟨b, hb, he, hi⟩ := set_edits a h x1 y1 (g x2 y2) f1 f2
      obtain ⟨c, hc, he', hi'⟩ := set_edits b (he.valid h) x2 y2 (g x1 y1)
        (by rw [he.1]; exact f3) (by rw [he.2.1]; exact f4)
      refine ⟨c, ?_, he.trans he', fun i j hx hy => ?_⟩
      · simp only [Edit.run, swapElements, hg _ _ f1 f2, hg _ _ f3 f4, Option.bind_eq_bind,
          Option.bind_some, hb, hc]
      rw [he'.1] at hx
      rw [he'.2.1] at hy
      rw [hi' i j hx hy]
      rw [he.1] at hx
      rw [he.2.1] at hy
      rw [hi i j hx hy, hg i j hx hy]
      simp only [Grid.edit]
      by_cases c2 : i = x2 ∧ j = y2
      · obtain ⟨rfl, rfl⟩ := c2
        by_cases c1 : i = x1 ∧ j = y1
        · obtain ⟨rfl, rfl⟩ := c1
          simp
        · simp [c1]
      · rw [if_neg c2, if_neg c2]
        split <;> rfl
    · simp only [Edit.run, swapElements, Option.bind_eq_bind]
      by_cases f1 : x1 < a.xSize ∧ y1 < a.ySize
      · have f2 : ¬ (x2 < a.xSize ∧ y2 < a.ySize) := fun f2 => hf ⟨f1, f2⟩
        rw [hg _ _ f1.1 f1.2, index_none a _ _ f2]
        rfl
      · rw [index_none a _ _ f1]
        rfl
  | iterMut ops w =>
    refine ⟨fun _ => ?_, fun hf => absurd trivial hf⟩
    obtain ⟨b, hb, he, hi⟩ := iterMut_edits a h ops w
    refine ⟨b, hb, he, fun i j hi' hj' => ?_⟩
    rw [he.1] at hi'
    rw [he.2.1] at hj'
    rw [hi i j hi' hj', hg i j hi' hj']
    simp only [Grid.edit]
    cases callFor a.xSize a.ySize ops (i, j) <;> rfl

/-- putting a changed slice back -/
theorem slice_back (a : Array2D α) (h : a.Valid) (x0 x1 y0 y1 : ℕ) (v v' : Array2D α)
    (hv : a.slice x0 x1 y0 y1 = some v) (he : Edits v v') :
    v.Valid ∧ v.xSize = x1 - x0 ∧ v.ySize = y1 - y0 ∧
      (∀ i j, i < v.xSize → j < v.ySize → v.index i j = a.index (x0 + i) (y0 + j)) ∧
      Edits a { a with data := a.data.take (x0 * a.stride + y0) ++ v'.data } ∧
      ∀ i j, i < a.xSize → j < a.ySize →
        index { a with data := a.data.take (x0 * a.stride + y0) ++ v'.data } i j =
          if x0 ≤ i ∧ i < x1 ∧ y0 ≤ j ∧ j < y1 then v'.index (i - x0) (j - y0) else a.index i j := by
  unfold slice at hv
  split at hv
  swap
  · exact absurd hv (by simp)
  next hb =>
  simp only at hv
  split at hv
  swap
  · exact absurd hv (by simp)
  next hoff =>
  injection hv with hv
  subst hv
  obtain ⟨hb1, hb2, hb3, hb4⟩ := hb
  obtain ⟨e1, e2, e3, e4, e5⟩ := he
  simp only [List.length_drop] at e1 e2 e3 e4 e5
  set off := x0 * a.stride + y0 with hoffdef
  have hget : ∀ i, (a.data.take off ++ v'.data)[i]? =
      if i < off then a.data[i]? else v'.data[i - off]? := by
    intro i
    have hlen : (a.data.take off).length = off := by rw [List.length_take]; omega
    by_cases hi : i < off
    · rw [if_pos hi, List.getElem?_append_left (by omega), List.getElem?_take_of_lt hi]
    · rw [if_neg hi, List.getElem?_append_right (by omega), hlen]
  have hrel : ∀ i j, (x0 + i) * a.stride + (y0 + j) = off + (i * a.stride + j) := by
    intro i j
    rw [hoffdef]
    ring
  have hout : ∀ i, off ≤ i → (∀ x y, x < x1 - x0 → y < y1 - y0 → (x0 + x) * a.stride + (y0 + y) ≠ i) →
      v'.data[i - off]? = a.data[i]? := by
    intro i hi hne
    rw [e5 (i - off) fun x y hx hy => by
      have := hne x y hx hy
      rw [hrel] at this
      omega]
    rw [List.getElem?_drop]
    congr 1
    omega
  refine ⟨⟨?_, ?_⟩, rfl, rfl, ?_, ⟨rfl, rfl, rfl, ?_, ?_⟩, ?_⟩
  · have := h.1
    simp only
    omega
  · intro x y hx hy
    simp only at hx hy ⊢
    have := h.2 (x0 + x) (y0 + y) (by omega) (by omega)
    rw [hrel] at this
    rw [List.length_drop]
    omega
  · intro i j hi hj
    simp only at hi hj
    rw [index, index, if_pos ⟨hi, hj⟩, if_pos ⟨by omega, by omega⟩]
    simp only
    rw [List.getElem?_drop, hrel]
  · simp only [List.length_append, List.length_take, e4]
    omega
  · intro i hi
    simp only
    rw [hget]
    by_cases hc : i < off
    · rw [if_pos hc]
    · rw [if_neg hc]
      exact hout i (by omega) fun x y hx hy => hi _ _ (by omega) (by omega)
  · intro i j hi hj
    rw [index, if_pos ⟨hi, hj⟩]
    simp only
    rw [hget]
    by_cases hc : x0 ≤ i ∧ i < x1 ∧ y0 ≤ j ∧ j < y1
    · have hij := hrel (i - x0) (j - y0)
      rw [show x0 + (i - x0) = i by omega, show y0 + (j - y0) = j by omega] at hij
      rw [if_pos hc, hij, if_neg (by omega), index, if_pos (by rw [e1, e2]; omega), e3]
      congr 1
      omega
    · rw [if_neg hc, index, if_pos (show i < a.xSize ∧ j < a.ySize from ⟨hi, hj⟩)]
      by_cases ho : i * a.stride + j < off
      · rw [if_pos ho]
      · rw [if_neg ho]
        refine hout _ (by omega) fun x y hx hy he => hc ?_
        obtain ⟨f1, f2⟩ := a.address_inj h (by omega) hj he
        omega

/-- a change through nested slices does to the elements what the specification says -/
theorem through_spec (e : Edit α) (path : List (SliceBound × SliceBound)) (a : Array2D α) (h : a.Valid)
    (g : Grid α) (hg : a.Shows g) :
    (∀ b, a.through e.run path = some b → PathFits e path a.xSize a.ySize ∧ Edits a b ∧
      b.Shows (Grid.through e path a.xSize a.ySize g)) ∧
      (PathFits e path a.xSize a.ySize → PathNonempty path a.xSize a.ySize →
        ∃ b, a.through e.run path = some b) := by
  induction path generalizing a g with
  | nil =>
    obtain ⟨r1, r2⟩ := e.run_spec a h g hg
    constructor
    · intro b hb
      simp only [through] at hb
      by_cases hf : e.Fits a.xSize a.ySize
      · obtain ⟨b', hb', he, hs⟩ := r1 hf
        rw [hb] at hb'
        injection hb' with hb'
        subst hb'
        exact ⟨hf, he, hs⟩
      · rw [r2 hf] at hb
        exact absurd hb (by simp)
    · intro hf _
      obtain ⟨b', hb', -⟩ := r1 hf
      exact ⟨b', hb'⟩
  | cons s path ih =>
    obtain ⟨xb, yb⟩ := s
    constructor
    · intro b hb
      simp only [through, startAndEnd_eq, Option.bind_eq_bind] at hb
      by_cases hx : xb.lo ≤ xb.hi a.xSize ∧ xb.hi a.xSize ≤ a.xSize
      swap
      · rw [if_neg hx] at hb; exact absurd hb (by simp)
      rw [if_pos hx, Option.bind_some] at hb
      by_cases hy : yb.lo ≤ yb.hi a.ySize ∧ yb.hi a.ySize ≤ a.ySize
      swap
      · rw [if_neg hy] at hb; exact absurd hb (by simp)
      rw [if_pos hy, Option.bind_some] at hb
      obtain ⟨v, hv, hb⟩ := Option.bind_eq_some_iff.mp hb
      obtain ⟨v', hv', hb⟩ := Option.bind_eq_some_iff.mp hb
      injection hb with hb
      subst hb
      obtain ⟨s1, s2, s3, s4, -⟩ := slice_back a h _ _ _ _ v v hv (Edits.refl v)
      have hgv : v.Shows fun i' j' => g (xb.lo + i') (yb.lo + j') := fun i j hi hj => by
        rw [s4 i j hi hj]
        rw [s2] at hi
        rw [s3] at hj
        exact hg _ _ (by omega) (by omega)
      obtain ⟨k1, k2, k3⟩ := (ih v s1 _ hgv).1 v' hv'
      obtain ⟨-, -, -, -, t1, t2⟩ := slice_back a h _ _ _ _ v v' hv k2
      rw [s2, s3] at k1 k3
      refine ⟨⟨hx, hy, k1⟩, t1, fun i j hi hj => ?_⟩
      simp only at hi hj
      rw [t2 i j hi hj]
      simp only [Grid.through]
      by_cases hc : xb.lo ≤ i ∧ i < xb.hi a.xSize ∧ yb.lo ≤ j ∧ j < yb.hi a.ySize
      · rw [if_pos hc, if_pos hc]
        exact k3 _ _ (by rw [k2.1, s2]; omega) (by rw [k2.2.1, s3]; omega)
      · rw [if_neg hc, if_neg hc]
        exact hg i j hi hj
    · rintro ⟨hx, hy, hf⟩ ⟨nx, ny, hn⟩
      obtain ⟨v, hv, -⟩ := Algebraics.C56_slice_partial a h _ _ _ _ nx hx.2 ny hy.2
      obtain ⟨s1, s2, s3, s4, -⟩ := slice_back a h _ _ _ _ v v hv (Edits.refl v)
      have hgv : v.Shows fun i' j' => g (xb.lo + i') (yb.lo + j') := fun i j hi hj => by
        rw [s4 i j hi hj]
        rw [s2] at hi
        rw [s3] at hj
        exact hg _ _ (by omega) (by omega)
      obtain ⟨v', hv'⟩ := (ih v s1 _ hgv).2 (by rw [s2, s3]; exact hf) (by rw [s2, s3]; exact hn)
      refine ⟨{ a with data := a.data.take (xb.lo * a.stride + yb.lo) ++ v'.data }, ?_⟩
      simp only [through, startAndEnd_eq, Option.bind_eq_bind]
      rw [if_pos hx, Option.bind_some, if_pos hy, Option.bind_some]
      simp only [hv, Option.bind_some, hv']
      rfl

theorem Valid.shows_index {a : Array2D α} (h : a.Valid) [Inhabited α] :
    a.Shows fun x y => (a.index x y).getD default := fun x y hx hy => by
  obtain ⟨v, hv⟩ := (Algebraics.C56_index a h x y).mpr ⟨hx, hy⟩
  simp [hv]

end Array2D

end Algebraics
