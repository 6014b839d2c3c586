import Verif.Lemmas.CacheLock
import Verif.Props.CacheExact

/-!
Property C92: a thread that panics while it computes a constant harms no other thread
(`/repo/src/interval_arithmetic.rs:42-121`).

`outcome m o` says that a call of the computation with the precision `m` can end with `o`, where `none` is
a panic. Nothing is assumed about when it panics. `s.readers` and `s.writer` are the threads that hold a
read guard or the write guard of the `RwLock`.
-/

namespace Algebraics

open DFI

theorem goodOutcome {f : Nat → Nat} (hf : Monotone f) {outcome : Nat → Option DFI → Prop} {c : ℝ}
    (hc : ∀ m r, outcome m (some r) → m ≤ r.log2Denom ∧ r.Contains c) :
    Cache.Locked.GoodOutcome (Cache.index f) outcome (fun e => e.Contains c) := fun j r h => by
  obtain ⟨h1, h2⟩ := hc _ _ h
  exact ⟨h1, fun i _ => contains_convert h2 _⟩

/-- C92: let the computation of a constant `c` be right whenever it returns, and let it panic as often as it
likes, in any thread. Then the lock is never poisoned, and every value that `get(n)` returns to any
thread has the precision `n` and contains `c`. -/
theorem C92_survives_panics (f : Nat → Nat) (hf : Monotone f) (outcome : Nat → Option DFI → Prop) (c : ℝ)
    (hc : ∀ m r, outcome m (some r) → m ≤ r.log2Denom ∧ r.Contains c)
    (s : Cache.Locked.State) (hs : Cache.Locked.Reachable (Cache.index f) outcome s) :
    s.poisoned = false ∧
    ∀ t n v, s.pc t = Cache.Locked.Pc.returned n v → v.log2Denom = n ∧ v.Contains c := by
  have i := Cache.Locked.Inv.reachable hf (goodOutcome hf hc) (Q := fun e => e.Contains c)
    (fun e n h _ => contains_convert h n) hs
  refine ⟨i.clean, fun t n v h => ?_⟩
  have g := i.pc t
  rw [h] at g
  exact g.2

/-- C92: a call of `get(n)` panics only when its own computation panics, never because of what other threads
did before. -/
theorem C92_own_panic (f : Nat → Nat) (hf : Monotone f) (outcome : Nat → Option DFI → Prop) (c : ℝ)
    (hc : ∀ m r, outcome m (some r) → m ≤ r.log2Denom ∧ r.Contains c)
    (s s' : Cache.Locked.State) (hs : Cache.Locked.Reachable (Cache.index f) outcome s)
    (hstep : Cache.Locked.Step (Cache.index f) outcome s s') (t n : Nat)
    (h : s.pc t ≠ Cache.Locked.Pc.panicked n) (h' : s'.pc t = Cache.Locked.Pc.panicked n) :
    (∃ snapshot, s.pc t = Cache.Locked.Pc.missed n snapshot) ∧
    ∃ m, n ≤ m ∧ outcome m none := by
  have i := Cache.Locked.Inv.reachable hf (goodOutcome hf hc) (Q := fun e => e.Contains c)
    (fun e n h _ => contains_convert h n) hs
  have at_ : ∀ (u : Nat) (p : Cache.Locked.Pc) (x : Cache.Locked.State),
      x.pc = (s.set u p).pc → x.pc t = Cache.Locked.Pc.panicked n →
      u = t ∧ p = Cache.Locked.Pc.panicked n := by
    intro u p x hx g
    rw [hx] at g
    unfold Cache.Locked.State.set at g
    simp only at g
    split at g
    · next e => exact ⟨e.symm, g⟩
    · exact absurd g h
  cases hstep with
  | readPoisoned u m h1 hw hp => rw [i.clean] at hp; cases hp
  | writePoisoned u m new e h1 hw hr hp => rw [i.clean] at hp; cases hp
  | computePanics u m snap o h1 ho hfl =>
    obtain ⟨rfl, e⟩ := at_ _ _ _ rfl h'
    simp only [Cache.Locked.Pc.panicked.injEq] at e
    subst e
    refine ⟨⟨snap, h1⟩, ?_⟩
    have g := i.pc u
    rw [h1] at g
    cases o with
    | none => exact ⟨_, Cache.le_required hf m g.1, ho⟩
    | some r =>
      obtain ⟨q1, q2⟩ := goodOutcome hf hc _ _ ho
      obtain ⟨new, e, q3, -⟩ := Cache.fill_one q1 q2 g.2.1 g.2.2
      rw [hfl] at q3
      cases q3
  | _ => exact absurd (at_ _ _ _ rfl h').2 (by simp)

/-- C92: there is no deadlock, and no thread has to wait for the computation of another one. From every
reachable state in which a thread has called `get(n)`, the threads that hold a guard can give it back and
then the thread can get its value (its computation returning), while the threads without a guard, whatever
they are doing, do not move. -/
theorem C92_no_deadlock (f : Nat → Nat) (hf : Monotone f) (outcome : Nat → Option DFI → Prop) (c : ℝ)
    (hc : ∀ m r, outcome m (some r) → m ≤ r.log2Denom ∧ r.Contains c) (hret : ∀ m, ∃ r, outcome m (some r))
    (s : Cache.Locked.State) (hs : Cache.Locked.Reachable (Cache.index f) outcome s) (t n : Nat)
    (ht : s.pc t = Cache.Locked.Pc.called n) :
    ∃ s' v, Cache.Locked.Steps (Cache.index f) outcome s s' ∧ s'.pc t = Cache.Locked.Pc.returned n v ∧
      s'.readers = ∅ ∧ s'.writer = none ∧
      ∀ u, u ≠ t → u ∉ s.readers → s.writer ≠ some u → s'.pc u = s.pc u := by
  have i := Cache.Locked.Inv.reachable hf (goodOutcome hf hc) (Q := fun e => e.Contains c)
    (fun e n h _ => contains_convert h n) hs
  obtain ⟨s', v, h1, h2, h3, h4, h5⟩ := Cache.Locked.finish hf (goodOutcome hf hc)
    (Q := fun e => e.Contains c) (fun e n h _ => contains_convert h n) hret i t n ht
  refine ⟨s', v, h1, h2, h4, h3, fun u hu hr hw => h5 u hu ?_ ?_⟩
  · rwa [← i.readers]
  · rwa [← i.writer]

/-- C92: while a thread holds the write guard no other thread holds any guard, and the cache changes only
by a step of the thread with the write guard. -/
theorem C92_exclusive (f : Nat → Nat) (hf : Monotone f) (outcome : Nat → Option DFI → Prop) (c : ℝ)
    (hc : ∀ m r, outcome m (some r) → m ≤ r.log2Denom ∧ r.Contains c)
    (s : Cache.Locked.State) (hs : Cache.Locked.Reachable (Cache.index f) outcome s) :
    (s.writer ≠ none → s.readers = ∅) ∧
    ∀ s', Cache.Locked.Step (Cache.index f) outcome s s' → s'.cache ≠ s.cache →
      s.cache.length < s'.cache.length ∧
      ∃ t, s.writer = some t ∧ ∀ u, u ≠ t → s'.pc u = s.pc u := by
  have i := Cache.Locked.Inv.reachable hf (goodOutcome hf hc) (Q := fun e => e.Contains c)
    (fun e n h _ => contains_convert h n) hs
  refine ⟨i.excl, fun s' hstep hne => ?_⟩
  cases hstep with
  | store t n new e h =>
    have g := i.pc t
    rw [h] at g
    refine ⟨g.2.2.2.2.2, t, (i.writer t).mpr (by rw [h]; trivial), fun u hu => ?_⟩
    simp [Cache.Locked.State.set, hu]
  | _ => exact absurd rfl hne

/-- C92: the guards are given back: a thread that is not in the middle of `get`, be it idle, returned or
panicked, holds no guard; the same for a thread that computes. -/
theorem C92_no_guard_kept (f : Nat → Nat) (hf : Monotone f) (outcome : Nat → Option DFI → Prop) (c : ℝ)
    (hc : ∀ m r, outcome m (some r) → m ≤ r.log2Denom ∧ r.Contains c)
    (s : Cache.Locked.State) (hs : Cache.Locked.Reachable (Cache.index f) outcome s) (t : Nat)
    (h : s.pc t = Cache.Locked.Pc.idle ∨ (∃ n v, s.pc t = Cache.Locked.Pc.returned n v) ∨
      (∃ n, s.pc t = Cache.Locked.Pc.panicked n) ∨ ∃ n l, s.pc t = Cache.Locked.Pc.missed n l) :
    t ∉ s.readers ∧ s.writer ≠ some t := by
  have i := Cache.Locked.Inv.reachable hf (goodOutcome hf hc) (Q := fun e => e.Contains c)
    (fun e n h _ => contains_convert h n) hs
  rw [i.readers, ne_eq, i.writer]
  rcases h with h | ⟨n, v, h⟩ | ⟨n, h⟩ | ⟨n, l, h⟩ <;> rw [h] <;> exact ⟨id, id⟩

/-- C92: the cache only grows, and each of its entries keeps its precision and goes on containing `c`,
whoever panics. -/
theorem C92_cache_monotone (f : Nat → Nat) (hf : Monotone f) (outcome : Nat → Option DFI → Prop) (c : ℝ)
    (hc : ∀ m r, outcome m (some r) → m ≤ r.log2Denom ∧ r.Contains c)
    (s s' : Cache.Locked.State) (hs : Cache.Locked.Reachable (Cache.index f) outcome s)
    (hs' : Cache.Locked.Steps (Cache.index f) outcome s s') (k : Nat) (e : DFI) (he : s.cache[k]? = some e) :
    e.Contains c ∧ ∃ e', s'.cache[k]? = some e' ∧ e'.log2Denom = e.log2Denom ∧ e'.Contains c := by
  have i := Cache.Locked.Inv.reachable hf (goodOutcome hf hc) (Q := fun e => e.Contains c)
    (fun e n h _ => contains_convert h n) hs
  have hlen : s.cache.length ≤ s'.cache.length ∧ Cache.Locked.Reachable (Cache.index f) outcome s' := by
    clear he
    induction hs' with
    | refl => exact ⟨le_rfl, hs⟩
    | step a b _ hab ih =>
      refine ⟨ih.1.trans ?_, Cache.Locked.Steps.step _ _ ih.2 hab⟩
      by_cases hne : b.cache = a.cache
      · rw [hne]
      · exact ((C92_exclusive f hf outcome c hc a ih.2).2 b hab hne).1.le
  have i' := Cache.Locked.Inv.reachable hf (goodOutcome hf hc) (Q := fun e => e.Contains c)
    (fun e n h _ => contains_convert h n) hlen.2
  obtain ⟨h1, h2⟩ := i.cache k e he
  have hk : k < s'.cache.length := by
    have := (List.getElem?_eq_some_iff.mp he).1
    omega
  obtain ⟨h3, h4⟩ := i'.cache k _ (List.getElem?_eq_getElem hk)
  exact ⟨h2, _, List.getElem?_eq_getElem hk, by rw [h3, h1], h4⟩

/-- C92: without panics the critical sections are atomic. Every state of the cache with its lock corresponds
to a reachable state of the cache in which reading and writing are single steps (C06, C12, C67 are about
these): the contents are the same, and so is what every thread got. -/
theorem C92_atomic (f : Nat → Nat) (hf : Monotone f) (compute : Nat → Option DFI) (c : ℝ)
    (hc : ∀ m, ∃ r, compute m = some r ∧ m ≤ r.log2Denom ∧ r.Contains c)
    (s : Cache.Locked.State) (hs : Cache.Locked.Reachable (Cache.index f) (fun m o => o = compute m) s) :
    ∃ a, Cache.Reachable (Cache.index f) compute a ∧ a.cache = s.cache ∧
      ∀ t n v, s.pc t = Cache.Locked.Pc.returned n v → a.thread t = Cache.Thread.returned n v := by
  have hc' : ∀ m r, (fun m o => o = compute m) m (some r) → m ≤ r.log2Denom ∧ r.Contains c := by
    intro m r h
    obtain ⟨r', h1, h2⟩ := hc m
    have h : some r = compute m := h
    rw [h1] at h
    cases h
    exact h2
  suffices h : Cache.Reachable (Cache.index f) compute (Cache.Locked.absState s) ∧
      ∀ t n, s.pc t ≠ Cache.Locked.Pc.panicked n from
    ⟨_, h.1, rfl, fun t n v ht => by
      show Cache.Locked.absPc (s.pc t) = _
      rw [ht]; rfl⟩
  have hs0 := hs
  clear hs0
  induction hs with
  | refl => exact ⟨Cache.Reachable.init, fun t n h => by cases h⟩
  | step a b ha hab ih =>
    have i := Cache.Locked.Inv.reachable hf (goodOutcome hf hc') (Q := fun e => e.Contains c)
      (fun e n h _ => contains_convert h n) ha
    refine ⟨?_, fun t n hp => ?_⟩
    · rcases Cache.Locked.abs_step i ih.2 hab with h | h
      · rw [h]; exact ih.1
      · exact Cache.Reachable.step _ _ ih.1 h
    · obtain ⟨-, m, -, hm⟩ := C92_own_panic f hf _ c hc' a b ha hab t n (ih.2 t n) hp
      obtain ⟨r, h1, -⟩ := hc m
      have hm : none = compute m := hm
      rw [h1] at hm
      cases hm

/-- C92, `sqrt 2`: whatever was requested before, and whichever threads panicked on the way, `sqrt_2(n)` returns
the tightest interval around the square root of two with denominator `2^n`. -/
theorem C92_sqrt2 (f : Nat → Nat) (hf : Monotone f) (s : Cache.Locked.State)
    (hs : Cache.Locked.Reachable (Cache.index f) (fun m o => o = none ∨ o = sqrt2Compute m) s)
    (t n : Nat) (v : DFI) (h : s.pc t = Cache.Locked.Pc.returned n v) :
    v = ⟨⌊Real.sqrt 2 * 2 ^ n⌋, ⌈Real.sqrt 2 * 2 ^ n⌉, n⟩ := by
  have inv := (Cache.Locked.Inv.reachable hf (P := Tightest (Real.sqrt 2)) (Q := Tightest (Real.sqrt 2))
    (fun j r h => by
      obtain ⟨r', h1, h2, h3⟩ := sqrt2_tight (Cache.required (Cache.index f) j)
      have h := h.resolve_left (by simp)
      rw [h1] at h
      cases h
      exact ⟨h2.ge, fun i hij => h3.convert _ (h2.symm ▸ Cache.required_mono hf hij)⟩)
    (fun e n h hn => h.convert n hn) hs).pc t
  rw [h] at inv
  obtain ⟨-, rfl, h1, h2⟩ := inv
  cases v
  simp only at h1 h2 ⊢
  rw [h1, h2]

/-- C92, `ln 2`: the same up to one unit at each end. -/
theorem C92_ln2 (f : Nat → Nat) (hf : Monotone f) (s : Cache.Locked.State)
    (hs : Cache.Locked.Reachable (Cache.index f) (fun m o => o = none ∨ o = ln2Compute m) s)
    (t n : Nat) (v : DFI) (h : s.pc t = Cache.Locked.Pc.returned n v) :
    v.log2Denom = n ∧ v.Contains (Real.log 2) ∧
    (v.lo = ⌊Real.log 2 * 2 ^ n⌋ ∨ v.lo = ⌊Real.log 2 * 2 ^ n⌋ - 1) ∧
    (v.hi = ⌈Real.log 2 * 2 ^ n⌉ ∨ v.hi = ⌈Real.log 2 * 2 ^ n⌉ + 1) := by
  have inv := (Cache.Locked.Inv.reachable hf (P := Near (Real.log 2)) (Q := Near (Real.log 2))
    (fun j r h => by
      have h := h.resolve_left (by simp)
      refine ⟨?_, fun i hij => ?_⟩
      · obtain ⟨r', h1, h2, h3⟩ := ln2_near (Cache.required (Cache.index f) j) _ le_rfl
        rw [h1] at h
        cases h
        exact h2
      · obtain ⟨r', h1, h2, h3⟩ := ln2_near (Cache.required (Cache.index f) j) _ (Cache.required_mono hf hij)
        rw [h1] at h
        cases h
        exact h3)
    (fun e n h hn => h.convert n hn) hs).pc t
  have c := (C92_survives_panics f hf _ (Real.log 2) (fun m r h => by
    have h := h.resolve_left (by simp)
    obtain ⟨r', h1, h2, h3, -⟩ := ln2Compute_spec m
    rw [h1] at h
    cases h
    exact ⟨by omega, h3⟩) s hs).2 t n v h
  rw [h] at inv
  obtain ⟨-, rfl, h1, h2, h3, h4⟩ := inv
  exact ⟨rfl, c.2, by omega, by omega⟩

/-- a history with a panic: the first thread panics while it computes `sqrt_2(100)`, the second one then gets
`sqrt_2(3)`, and the first one, calling again, gets `sqrt_2(100)`. -/
example : ∃ s s' v w,
    Cache.Locked.Reachable (Cache.index fun n => 3 * Nat.log 2 (n + 1)) (fun m o => o = none ∨ o = sqrt2Compute m) s ∧
    Cache.Locked.Steps (Cache.index fun n => 3 * Nat.log 2 (n + 1)) (fun m o => o = none ∨ o = sqrt2Compute m) s s' ∧
    s.pc 0 = Cache.Locked.Pc.panicked 100 ∧ s.pc 1 = Cache.Locked.Pc.returned 3 v ∧
    s'.pc 0 = Cache.Locked.Pc.returned 100 w ∧ s'.pc 1 = s.pc 1 ∧ w.log2Denom = 100 ∧ v = ⟨11, 12, 3⟩ := by
  have hf : Monotone fun n => 3 * Nat.log 2 (n + 1) := fun a b h => by
    have : Nat.log 2 (a + 1) ≤ Nat.log 2 (b + 1) := Nat.log_mono_right (by omega)
    simp only; omega
  have hc : ∀ m r, (some r : Option DFI) = none ∨ some r = sqrt2Compute m →
      m ≤ r.log2Denom ∧ r.Contains (Real.sqrt 2) := fun m r h => by
    obtain ⟨r', h1, h2, h3⟩ := sqrt2Compute_spec m
    have h := h.resolve_left (by simp)
    rw [h1] at h
    cases h
    exact ⟨by omega, h3⟩
  have hret : ∀ m, ∃ r, (some r : Option DFI) = none ∨ some r = sqrt2Compute m := fun m => by
    obtain ⟨r', h1, -⟩ := sqrt2Compute_spec m
    exact ⟨r', Or.inr h1.symm⟩
  set idx := Cache.index fun n => 3 * Nat.log 2 (n + 1) with hidx
  set out : Nat → Option DFI → Prop := fun m o => o = none ∨ o = sqrt2Compute m with hout
  have s1 := Cache.Locked.Steps.step _ _ (Cache.Locked.Steps.refl (idx := idx) (outcome := out) (s := Cache.Locked.init))
    (Cache.Locked.Step.call _ 0 100 (by norm_num) (Or.inl rfl))
  have s2 := Cache.Locked.Steps.step _ _ s1 (Cache.Locked.Step.read _ 0 100 (by simp [Cache.Locked.State.set]) rfl rfl)
  have s3 := Cache.Locked.Steps.step _ _ s2 (Cache.Locked.Step.lookMiss _ 0 100 (by simp [Cache.Locked.State.set])
    (by simp [Cache.Locked.State.set, Cache.Locked.init]))
  have s4 := Cache.Locked.Steps.step _ _ s3 (Cache.Locked.Step.unreadMiss _ 0 100 [] (by
    simp [Cache.Locked.State.set, Cache.Locked.init]))
  have s5 := Cache.Locked.Steps.step _ _ s4 (Cache.Locked.Step.computePanics _ 0 100 [] none (by
    simp [Cache.Locked.State.set]) (Or.inl rfl) rfl)
  have s6 := Cache.Locked.Steps.step _ _ s5 (Cache.Locked.Step.call _ 1 3 (by norm_num) (Or.inl (by
    simp [Cache.Locked.State.set, Cache.Locked.init])))
  obtain ⟨s, v, a1, a2, a3, a4, a5⟩ := C92_no_deadlock _ hf out _ hc hret _ s6 1 3 (by simp [Cache.Locked.State.set])
  have r1 : Cache.Locked.Reachable idx out s := s6.trans a1
  have p0 : s.pc 0 = Cache.Locked.Pc.panicked 100 := by
    rw [a5 0 (by omega) (by simp [Cache.Locked.State.set, Cache.Locked.init])
      (by simp [Cache.Locked.State.set, Cache.Locked.init])]
    simp [Cache.Locked.State.set]
  have st := Cache.Locked.Step.call (idx := idx) (outcome := out) s 0 100 (by norm_num) (Or.inr (Or.inr ⟨_, p0⟩))
  have r2 : Cache.Locked.Reachable idx out _ := Cache.Locked.Steps.step _ _ r1 st
  obtain ⟨s', w, b1, b2, b3, b4, b5⟩ := C92_no_deadlock _ hf out _ hc hret _ r2 0 100 (by simp [Cache.Locked.State.set])
  have ev := C92_sqrt2 _ hf s r1 1 3 v a2
  have ew := C92_sqrt2 _ hf s' (r2.trans b1) 0 100 w b2
  refine ⟨s, s', v, w, r1, (Cache.Locked.Steps.one st).trans b1, p0, a2, b2, ?_, by rw [ew], ?_⟩
  · rw [b5 1 (by omega) (by simp [Cache.Locked.State.set, a3]) (by simp [Cache.Locked.State.set, a4])]
    simp [Cache.Locked.State.set]
  · rw [ev]
    have hs : Real.sqrt 2 * Real.sqrt 2 = 2 := Real.mul_self_sqrt (by norm_num)
    have hp := Real.sqrt_nonneg 2
    congr 1
    · rw [Int.floor_eq_iff]; constructor <;> push_cast <;> nlinarith
    · rw [Int.ceil_eq_iff]; constructor <;> push_cast <;> nlinarith

/-- the hypotheses of `C92_exclusive` are met: a thread with the write guard is about to change the cache. -/
example : ∃ s s', Cache.Locked.Reachable (Cache.index fun n => 3 * Nat.log 2 (n + 1))
      (fun m o => o = none ∨ o = sqrt2Compute m) s ∧
    Cache.Locked.Step (Cache.index fun n => 3 * Nat.log 2 (n + 1)) (fun m o => o = none ∨ o = sqrt2Compute m) s s' ∧
    s'.cache ≠ s.cache ∧ s.writer = some 0 := by
  set idx := Cache.index fun n => 3 * Nat.log 2 (n + 1) with hidx
  set out : Nat → Option DFI → Prop := fun m o => o = none ∨ o = sqrt2Compute m with hout
  have s1 := Cache.Locked.Steps.step _ _ (Cache.Locked.Steps.refl (idx := idx) (outcome := out) (s := Cache.Locked.init))
    (Cache.Locked.Step.call _ 0 3 (by norm_num) (Or.inl rfl))
  have s2 := Cache.Locked.Steps.step _ _ s1 (Cache.Locked.Step.read _ 0 3 (by simp [Cache.Locked.State.set]) rfl rfl)
  have s3 := Cache.Locked.Steps.step _ _ s2 (Cache.Locked.Step.lookMiss _ 0 3 (by simp [Cache.Locked.State.set])
    (by simp [Cache.Locked.State.set, Cache.Locked.init]))
  have s4 := Cache.Locked.Steps.step _ _ s3 (Cache.Locked.Step.unreadMiss _ 0 3 [] (by
    simp [Cache.Locked.State.set, Cache.Locked.init]))
  obtain ⟨r, h1, h2, -⟩ := sqrt2Compute_spec (Cache.required idx (idx 3))
  obtain ⟨new, e, q1, -, q2, -⟩ := Cache.fill_one (P := fun _ => True) (r := r) (c := idx 3) (idx := idx) (by omega)
    (fun _ _ => trivial) (old := []) (by intro i e h; simp at h) (by simp)
  have s5 := Cache.Locked.Steps.step _ _ s4 (Cache.Locked.Step.compute _ 0 3 [] new e (some r) (by
    simp [Cache.Locked.State.set]) (Or.inr h1.symm) q1)
  have s6 := Cache.Locked.Steps.step _ _ s5 (Cache.Locked.Step.write _ 0 3 new e (by
    simp [Cache.Locked.State.set]) rfl (by simp [Cache.Locked.State.set, Cache.Locked.init]) rfl)
  have s7 := Cache.Locked.Steps.step _ _ s6 (Cache.Locked.Step.longer _ 0 3 new e (by
    simp [Cache.Locked.State.set]) (by simp [Cache.Locked.State.set, Cache.Locked.init, q2]))
  refine ⟨_, _, s7, Cache.Locked.Step.store _ 0 3 new e (by simp [Cache.Locked.State.set]), ?_, rfl⟩
  intro h
  have : new = [] := h
  rw [this] at q2
  simp at q2

end Algebraics
