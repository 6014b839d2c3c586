import Verif.Model.CacheLock
import Verif.Lemmas.CacheExact

namespace Algebraics
namespace Cache

theorem fill_one {idx : Nat → Nat} {P : DFI → Prop} {r : DFI} {c : Nat}
    (h2 : required idx c ≤ r.log2Denom) (hP : ∀ i, i ≤ c → P (r.convertLog2Denom (required idx i)))
    {old : List DFI} (ho : GoodList idx P old) (hl : old.length ≤ c) :
    ∃ new e, fill idx (fun _ => some r) old c = some (new, e) ∧ GoodList idx P new ∧
      new.length = c + 1 ∧ e.log2Denom = required idx c ∧ P e := by
  have h3 := hP c le_rfl
  unfold fill
  simp only [Option.bind_eq_bind, Option.bind_some]
  rw [if_neg (by omega)]
  refine ⟨_, _, rfl, ?_, ?_, rfl, h3⟩
  · intro i e hi
    by_cases hi1 : i < old.length
    · rw [List.append_assoc, List.getElem?_append_left hi1] at hi
      exact ho i e hi
    · by_cases hi2 : i < c
      · rw [List.getElem?_append_left (by simp; omega), List.getElem?_append_right (by omega)] at hi
        simp only [List.getElem?_map, Option.map_eq_some_iff] at hi
        obtain ⟨j, hj, rfl⟩ := hi
        rw [List.getElem?_range' (by omega)] at hj
        simp only [Option.some.injEq] at hj
        have : j = i := by omega
        subst this
        exact ⟨rfl, hP _ hi2.le⟩
      · rw [List.getElem?_append_right (by simp; omega)] at hi
        simp only [List.length_append, List.length_map, List.length_range'] at hi
        have hic : i - (old.length + (c - old.length)) = i - c := by omega
        rw [hic] at hi
        by_cases hi3 : i = c
        · subst hi3
          simp at hi
          subst hi
          exact ⟨rfl, h3⟩
        · exfalso
          rw [List.getElem?_eq_none (by simp; omega)] at hi
          simp at hi
  · simp; omega

namespace Locked

/-- holds a read guard. -/
def Pc.HasRead : Pc → Prop
  | .reading _ | .hit _ _ | .noEntry _ _ => True
  | _ => False

/-- holds the write guard. -/
def Pc.HasWrite : Pc → Prop
  | .writing _ _ _ | .storing _ _ _ | .written _ _ => True
  | _ => False

def GoodPc (idx : Nat → Nat) (P Q : DFI → Prop) (cache : List DFI) : Pc → Prop
  | .idle => True
  | .called n => n < 2 ^ 64
  | .reading n => n < 2 ^ 64
  | .hit n e => n < 2 ^ 64 ∧ e.log2Denom = required idx (idx n) ∧ P e
  | .noEntry n snap => n < 2 ^ 64 ∧ GoodList idx P snap ∧ snap.length ≤ idx n
  | .missed n snap => n < 2 ^ 64 ∧ GoodList idx P snap ∧ snap.length ≤ idx n
  | .filled n new e => n < 2 ^ 64 ∧ GoodList idx P new ∧ new.length = idx n + 1 ∧
      e.log2Denom = required idx (idx n) ∧ P e
  | .writing n new e => n < 2 ^ 64 ∧ GoodList idx P new ∧ new.length = idx n + 1 ∧
      e.log2Denom = required idx (idx n) ∧ P e
  | .storing n new e => n < 2 ^ 64 ∧ GoodList idx P new ∧ new.length = idx n + 1 ∧
      e.log2Denom = required idx (idx n) ∧ P e ∧ cache.length < new.length
  | .written n e => n < 2 ^ 64 ∧ e.log2Denom = required idx (idx n) ∧ P e
  | .returned n v => n < 2 ^ 64 ∧ v.log2Denom = n ∧ Q v
  | .panicked _ => True

/-- what the computation has to guarantee when it returns. -/
def GoodOutcome (idx : Nat → Nat) (outcome : Nat → Option DFI → Prop) (P : DFI → Prop) : Prop :=
  ∀ j r, outcome (required idx j) (some r) → required idx j ≤ r.log2Denom ∧
    ∀ i, i ≤ j → P (r.convertLog2Denom (required idx i))

structure Inv (idx : Nat → Nat) (P Q : DFI → Prop) (s : State) : Prop where
  clean : s.poisoned = false
  cache : GoodList idx P s.cache
  pc : ∀ t, GoodPc idx P Q s.cache (s.pc t)
  readers : ∀ t, t ∈ s.readers ↔ (s.pc t).HasRead
  writer : ∀ t, s.writer = some t ↔ (s.pc t).HasWrite
  excl : s.writer ≠ none → s.readers = ∅

theorem GoodPc.other {idx : Nat → Nat} {P Q : DFI → Prop} {c c' : List DFI} {p : Pc}
    (h : GoodPc idx P Q c p) (hp : ¬ p.HasWrite) : GoodPc idx P Q c' p := by
  cases p <;> first | exact h | exact absurd trivial hp

theorem Inv.step {f : Nat → Nat} (hf : Monotone f) {outcome : Nat → Option DFI → Prop}
    {P Q : DFI → Prop} (hc : GoodOutcome (index f) outcome P)
    (hPQ : ∀ e n, P e → n ≤ e.log2Denom → Q (e.convertLog2Denom n)) {s s' : State}
    (i : Inv (index f) P Q s) (h : Step (index f) outcome s s') : Inv (index f) P Q s' := by
  have upd : ∀ (t : Nat) (p : Pc), GoodPc (index f) P Q s.cache p →
      ∀ u, GoodPc (index f) P Q s.cache ((s.set t p).pc u) := by
    intro t p h u
    unfold State.set
    simp only
    split
    · exact h
    · exact i.pc u
  have rd : ∀ (t : Nat) (p : Pc), ((s.pc t).HasRead ↔ p.HasRead) →
      ∀ u, u ∈ s.readers ↔ ((s.set t p).pc u).HasRead := by
    intro t p h u
    unfold State.set
    simp only
    split
    · next e => rw [e, i.readers, h]
    · exact i.readers u
  have wr : ∀ (t : Nat) (p : Pc), ((s.pc t).HasWrite ↔ p.HasWrite) →
      ∀ u, s.writer = some u ↔ ((s.set t p).pc u).HasWrite := by
    intro t p h u
    unfold State.set
    simp only
    split
    · next e => rw [e, i.writer, h]
    · exact i.writer u
  have noW : ∀ (t : Nat) (p : Pc), ¬ p.HasWrite → s.writer = none →
      ∀ u, s.writer = some u ↔ ((s.set t p).pc u).HasWrite := by
    intro t p h hw
    refine wr t p ⟨fun g => ?_, fun g => absurd g h⟩
    rw [← i.writer, hw] at g
    cases g
  cases h with
  | call t n hn h =>
    refine ⟨i.clean, i.cache, upd t _ hn, rd t _ ?_, wr t _ ?_, i.excl⟩ <;>
      rcases h with h | ⟨m, v, h⟩ | ⟨m, h⟩ <;> rw [h] <;> exact Iff.rfl
  | read t n h hw hp =>
    have g := i.pc t; rw [h] at g
    refine ⟨i.clean, i.cache, upd t _ g, ?_, wr t _ (by rw [h]; exact Iff.rfl), fun hne => absurd hw hne⟩
    intro u
    show u ∈ insert t s.readers ↔ _
    rw [Finset.mem_insert]
    unfold State.set
    simp only
    split
    · next e => exact ⟨fun _ => trivial, fun _ => Or.inl e⟩
    · next e => rw [← i.readers]; exact ⟨fun g => g.resolve_left e, Or.inr⟩
  | readPoisoned t n h hw hp => rw [i.clean] at hp; cases hp
  | lookHit t n e h he =>
    have g := i.pc t; rw [h] at g
    obtain ⟨g1, g2⟩ := i.cache _ _ he
    exact ⟨i.clean, i.cache, upd t _ ⟨g, g1, g2⟩, rd t _ (by rw [h]; exact Iff.rfl),
      wr t _ (by rw [h]; exact Iff.rfl), i.excl⟩
  | lookMiss t n h he =>
    have g := i.pc t; rw [h] at g
    exact ⟨i.clean, i.cache, upd t _ ⟨g, i.cache, List.getElem?_eq_none_iff.mp he⟩,
      rd t _ (by rw [h]; exact Iff.rfl), wr t _ (by rw [h]; exact Iff.rfl), i.excl⟩
  | unreadHit t n e h =>
    have g := i.pc t; rw [h] at g
    obtain ⟨g1, g2, g3⟩ := g
    refine ⟨i.clean, i.cache, upd t _ ⟨g1, rfl, hPQ _ _ g3 (by rw [g2]; exact le_required hf n g1)⟩, ?_,
      wr t _ (by rw [h]; exact Iff.rfl), fun hne => ?_⟩
    · intro u
      show u ∈ s.readers.erase t ↔ _
      rw [Finset.mem_erase]
      unfold State.set
      simp only
      split
      · next e => exact ⟨fun g => absurd e g.1, fun g => g.elim⟩
      · next e => rw [← i.readers]; exact ⟨fun g => g.2, fun g => ⟨e, g⟩⟩
    · show s.readers.erase t = ∅
      rw [i.excl hne]; rfl
  | unreadMiss t n snap h =>
    have g := i.pc t; rw [h] at g
    refine ⟨i.clean, i.cache, upd t _ g, ?_, wr t _ (by rw [h]; exact Iff.rfl), fun hne => ?_⟩
    · intro u
      show u ∈ s.readers.erase t ↔ _
      rw [Finset.mem_erase]
      unfold State.set
      simp only
      split
      · next e => exact ⟨fun g => absurd e g.1, fun g => g.elim⟩
      · next e => rw [← i.readers]; exact ⟨fun g => g.2, fun g => ⟨e, g⟩⟩
    · show s.readers.erase t = ∅
      rw [i.excl hne]; rfl
  | compute t n snap new e o h ho hfl =>
    have g := i.pc t; rw [h] at g
    obtain ⟨g1, g2, g3⟩ := g
    cases o with
    | none => simp [fill] at hfl
    | some r =>
      obtain ⟨h1, h2⟩ := hc _ _ ho
      obtain ⟨new', e', q1, q2, q3, q4, q5⟩ := fill_one h1 h2 g2 g3
      rw [hfl] at q1
      simp only [Option.some.injEq, Prod.mk.injEq] at q1
      obtain ⟨rfl, rfl⟩ := q1
      exact ⟨i.clean, i.cache, upd t _ ⟨g1, q2, q3, q4, q5⟩, rd t _ (by rw [h]; exact Iff.rfl),
        wr t _ (by rw [h]; exact Iff.rfl), i.excl⟩
  | computePanics t n snap o h ho hfl =>
    exact ⟨i.clean, i.cache, upd t _ trivial, rd t _ (by rw [h]; exact Iff.rfl),
      wr t _ (by rw [h]; exact Iff.rfl), i.excl⟩
  | write t n new e h hw hr hp =>
    have g := i.pc t; rw [h] at g
    refine ⟨i.clean, i.cache, upd t _ g, rd t _ (by rw [h]; exact Iff.rfl), ?_, fun _ => hr⟩
    intro u
    show some t = some u ↔ _
    unfold State.set
    simp only
    split
    · next e => exact ⟨fun _ => trivial, fun _ => by rw [e]⟩
    · next e =>
      refine ⟨fun g => absurd (Option.some.inj g).symm e, fun g => ?_⟩
      rw [← i.writer, hw] at g
      cases g
  | writePoisoned t n new e h hw hr hp => rw [i.clean] at hp; cases hp
  | longer t n new e h hl =>
    have g := i.pc t; rw [h] at g
    obtain ⟨g1, g2, g3, g4, g5⟩ := g
    exact ⟨i.clean, i.cache, upd t _ ⟨g1, g2, g3, g4, g5, hl⟩, rd t _ (by rw [h]; exact Iff.rfl),
      wr t _ (by rw [h]; exact Iff.rfl), i.excl⟩
  | notLonger t n new e h hl =>
    have g := i.pc t; rw [h] at g
    obtain ⟨g1, g2, g3, g4, g5⟩ := g
    exact ⟨i.clean, i.cache, upd t _ ⟨g1, g4, g5⟩, rd t _ (by rw [h]; exact Iff.rfl),
      wr t _ (by rw [h]; exact Iff.rfl), i.excl⟩
  | store t n new e h =>
    have g := i.pc t; rw [h] at g
    obtain ⟨g1, g2, g3, g4, g5, g6⟩ := g
    have ht : s.writer = some t := (i.writer t).mpr (by rw [h]; trivial)
    refine ⟨i.clean, g2, ?_, rd t _ (by rw [h]; exact Iff.rfl), wr t _ (by rw [h]; exact Iff.rfl), i.excl⟩
    intro u
    show GoodPc _ P Q new (if u = t then _ else s.pc u)
    split
    · exact ⟨g1, g4, g5⟩
    · next e =>
      refine (i.pc u).other fun g => e ?_
      rw [← i.writer, ht] at g
      exact (Option.some.inj g).symm
  | unwrite t n e h =>
    have g := i.pc t; rw [h] at g
    obtain ⟨g1, g2, g3⟩ := g
    have ht : s.writer = some t := (i.writer t).mpr (by rw [h]; trivial)
    refine ⟨i.clean, i.cache, upd t _ ⟨g1, rfl, hPQ _ _ g3 (by rw [g2]; exact le_required hf n g1)⟩,
      rd t _ (by rw [h]; exact Iff.rfl), ?_, fun hne => absurd rfl hne⟩
    intro u
    show none = some u ↔ (if u = t then _ else s.pc u).HasWrite
    split
    · exact ⟨fun g => (by cases g), fun g => g.elim⟩
    · next e =>
      refine ⟨fun g => (by cases g), fun g => ?_⟩
      rw [← i.writer, ht] at g
      exact absurd (Option.some.inj g).symm e

theorem Inv.init (idx : Nat → Nat) (P Q : DFI → Prop) : Inv idx P Q init :=
  ⟨rfl, by intro i e h; simp [Locked.init] at h, fun _ => trivial,
    fun t => ⟨fun h => absurd h (Finset.notMem_empty t), fun h => h.elim⟩,
    fun t => ⟨fun h => (by cases h), fun h => h.elim⟩, fun h => absurd rfl h⟩

theorem Inv.reachable {f : Nat → Nat} (hf : Monotone f) {outcome : Nat → Option DFI → Prop}
    {P Q : DFI → Prop} (hc : GoodOutcome (index f) outcome P)
    (hPQ : ∀ e n, P e → n ≤ e.log2Denom → Q (e.convertLog2Denom n)) {s : State}
    (h : Reachable (index f) outcome s) : Inv (index f) P Q s := by
  induction h with
  | refl => exact Inv.init _ _ _
  | step s' s'' _ hs ih => exact ih.step hf hc hPQ hs

theorem Steps.trans {idx : Nat → Nat} {outcome : Nat → Option DFI → Prop} {a b c : State}
    (h1 : Steps idx outcome a b) (h2 : Steps idx outcome b c) : Steps idx outcome a c := by
  induction h2 with
  | refl => exact h1
  | step s' s'' _ hs ih => exact Steps.step _ _ ih hs

theorem Steps.one {idx : Nat → Nat} {outcome : Nat → Option DFI → Prop} {a b : State}
    (h : Step idx outcome a b) : Steps idx outcome a b := Steps.step _ _ (Steps.refl) h

/-- what the other threads may see while the lock is freed: those that hold no guard have not moved, and
nobody has been made to panic. -/
def Kept (s s' : State) : Prop :=
  ∀ u, ¬ (s.pc u).HasRead → ¬ (s.pc u).HasWrite → s'.pc u = s.pc u

theorem Kept.trans {a b c : State} (h1 : Kept a b) (h2 : Kept b c) : Kept a c := fun u hr hw => by
  have := h1 u hr hw
  rw [h2 u (by rwa [this]) (by rwa [this]), this]

/-- the writer, if any, finishes. -/
theorem free_writer {f : Nat → Nat} (hf : Monotone f) {outcome : Nat → Option DFI → Prop}
    {P Q : DFI → Prop} (hc : GoodOutcome (index f) outcome P)
    (hPQ : ∀ e n, P e → n ≤ e.log2Denom → Q (e.convertLog2Denom n)) {s : State}
    (i : Inv (index f) P Q s) :
    ∃ s', Steps (index f) outcome s s' ∧ s'.writer = none ∧ Kept s s' := by
  have last : ∀ s : State, Inv (index f) P Q s → ∀ t n e, s.pc t = Pc.written n e →
      ∃ s', Steps (index f) outcome s s' ∧ s'.writer = none ∧ Kept s s' := by
    intro s i t n e h
    refine ⟨_, Steps.one (Step.unwrite s t n e h), rfl, fun u _ hw => ?_⟩
    have : u ≠ t := by rintro rfl; rw [h] at hw; exact hw trivial
    simp [State.set, this]
  have mid : ∀ s : State, Inv (index f) P Q s → ∀ t n new e, s.pc t = Pc.storing n new e →
      ∃ s', Steps (index f) outcome s s' ∧ s'.writer = none ∧ Kept s s' := by
    intro s i t n new e h
    have st := Step.store (idx := index f) (outcome := outcome) s t n new e h
    obtain ⟨s', h1, h2, h3⟩ := last _ (i.step hf hc hPQ st) t n e (by simp [State.set])
    refine ⟨s', (Steps.one st).trans h1, h2, Kept.trans (fun u _ hw => ?_) h3⟩
    have : u ≠ t := by rintro rfl; rw [h] at hw; exact hw trivial
    simp [State.set, this]
  rcases hw : s.writer with _ | t
  · exact ⟨s, Steps.refl, hw, fun _ _ _ => rfl⟩
  · have hp := (i.writer t).mp hw
    rcases h : s.pc t with _ | n | n | ⟨n, e⟩ | ⟨n, e⟩ | ⟨n, e⟩ | ⟨n, new, e⟩ | ⟨n, new, e⟩ | ⟨n, new, e⟩ | ⟨n, e⟩ |
      ⟨n, e⟩ | n <;> rw [h] at hp <;> first | exact hp.elim | skip
    · by_cases hl : s.cache.length < new.length
      · have st := Step.longer (idx := index f) (outcome := outcome) s t n new e h hl
        obtain ⟨s', h1, h2, h3⟩ := mid _ (i.step hf hc hPQ st) t n new e (by simp [State.set])
        refine ⟨s', (Steps.one st).trans h1, h2, Kept.trans (fun u _ hx => ?_) h3⟩
        have : u ≠ t := by rintro rfl; rw [h] at hx; exact hx trivial
        simp [State.set, this]
      · have st := Step.notLonger (idx := index f) (outcome := outcome) s t n new e h hl
        obtain ⟨s', h1, h2, h3⟩ := last _ (i.step hf hc hPQ st) t n e (by simp [State.set])
        refine ⟨s', (Steps.one st).trans h1, h2, Kept.trans (fun u _ hx => ?_) h3⟩
        have : u ≠ t := by rintro rfl; rw [h] at hx; exact hx trivial
        simp [State.set, this]
    · exact mid s i t n new e h
    · exact last s i t n e h

/-- one reader finishes. -/
theorem free_reader {f : Nat → Nat} (hf : Monotone f) {outcome : Nat → Option DFI → Prop}
    {P Q : DFI → Prop} (hc : GoodOutcome (index f) outcome P)
    (hPQ : ∀ e n, P e → n ≤ e.log2Denom → Q (e.convertLog2Denom n)) {s : State}
    (i : Inv (index f) P Q s) (t : Nat) (ht : t ∈ s.readers) :
    ∃ s', Steps (index f) outcome s s' ∧ s'.writer = s.writer ∧ s'.readers = s.readers.erase t ∧ Kept s s' := by
  have a : ∀ s : State, ∀ t n e, s.pc t = Pc.hit n e → ∃ s', Steps (index f) outcome s s' ∧
      s'.writer = s.writer ∧ s'.readers = s.readers.erase t ∧ Kept s s' := by
    intro s t n e h
    refine ⟨_, Steps.one (Step.unreadHit s t n e h), rfl, rfl, fun u hr _ => ?_⟩
    have : u ≠ t := by rintro rfl; rw [h] at hr; exact hr trivial
    simp [State.set, this]
  have b : ∀ s : State, ∀ t n e, s.pc t = Pc.noEntry n e → ∃ s', Steps (index f) outcome s s' ∧
      s'.writer = s.writer ∧ s'.readers = s.readers.erase t ∧ Kept s s' := by
    intro s t n e h
    refine ⟨_, Steps.one (Step.unreadMiss s t n e h), rfl, rfl, fun u hr _ => ?_⟩
    have : u ≠ t := by rintro rfl; rw [h] at hr; exact hr trivial
    simp [State.set, this]
  have hp := (i.readers t).mp ht
  rcases h : s.pc t with _ | n | n | ⟨n, e⟩ | ⟨n, e⟩ | ⟨n, e⟩ | ⟨n, new, e⟩ | ⟨n, new, e⟩ | ⟨n, new, e⟩ | ⟨n, e⟩ |
    ⟨n, e⟩ | n <;> rw [h] at hp <;> first | exact hp.elim | skip
  · rcases he : s.cache[index f n]? with _ | e
    · have st := Step.lookMiss (idx := index f) (outcome := outcome) s t n h he
      obtain ⟨s', h1, h2, h3, h4⟩ := b (s.set t (Pc.noEntry n s.cache)) t n s.cache (by simp [State.set])
      refine ⟨s', (Steps.one st).trans h1, h2, h3, Kept.trans (fun u hr _ => ?_) h4⟩
      have : u ≠ t := by rintro rfl; rw [h] at hr; exact hr trivial
      simp [State.set, this]
    · have st := Step.lookHit (idx := index f) (outcome := outcome) s t n e h he
      obtain ⟨s', h1, h2, h3, h4⟩ := a (s.set t (Pc.hit n e)) t n e (by simp [State.set])
      refine ⟨s', (Steps.one st).trans h1, h2, h3, Kept.trans (fun u hr _ => ?_) h4⟩
      have : u ≠ t := by rintro rfl; rw [h] at hr; exact hr trivial
      simp [State.set, this]
  · exact a s t n e h
  · exact b s t n e h

theorem Inv.steps {f : Nat → Nat} (hf : Monotone f) {outcome : Nat → Option DFI → Prop}
    {P Q : DFI → Prop} (hc : GoodOutcome (index f) outcome P)
    (hPQ : ∀ e n, P e → n ≤ e.log2Denom → Q (e.convertLog2Denom n)) {s s' : State}
    (i : Inv (index f) P Q s) (h : Steps (index f) outcome s s') : Inv (index f) P Q s' := by
  induction h with
  | refl => exact i
  | step s' s'' _ hs ih => exact ih.step hf hc hPQ hs

/-- everybody leaves the lock. -/
theorem free_lock {f : Nat → Nat} (hf : Monotone f) {outcome : Nat → Option DFI → Prop}
    {P Q : DFI → Prop} (hc : GoodOutcome (index f) outcome P)
    (hPQ : ∀ e n, P e → n ≤ e.log2Denom → Q (e.convertLog2Denom n)) {s : State}
    (i : Inv (index f) P Q s) :
    ∃ s', Steps (index f) outcome s s' ∧ s'.writer = none ∧ s'.readers = ∅ ∧ Kept s s' := by
  obtain ⟨s1, a1, a2, a3⟩ := free_writer hf hc hPQ i
  have key : ∀ (k : Nat) (s : State), Inv (index f) P Q s → s.writer = none → s.readers.card = k →
      ∃ s', Steps (index f) outcome s s' ∧ s'.writer = none ∧ s'.readers = ∅ ∧ Kept s s' := by
    intro k
    induction k with
    | zero => intro s i hw hk; exact ⟨s, Steps.refl, hw, Finset.card_eq_zero.mp hk, fun _ _ _ => rfl⟩
    | succ k ih =>
      intro s i hw hk
      obtain ⟨t, ht⟩ := Finset.card_pos.mp (by omega : 0 < s.readers.card)
      obtain ⟨s', h1, h2, h3, h4⟩ := free_reader hf hc hPQ i t ht
      obtain ⟨s'', g1, g2, g3, g4⟩ := ih s' (i.steps hf hc hPQ h1) (by rw [h2, hw])
        (by rw [h3, Finset.card_erase_of_mem ht]; omega)
      exact ⟨s'', h1.trans g1, g2, g3, h4.trans g4⟩
  obtain ⟨s2, b1, b2, b3, b4⟩ := key _ s1 (i.steps hf hc hPQ a1) a2 rfl
  exact ⟨s2, a1.trans b1, b2, b3, a3.trans b4⟩

/-- a waiting thread gets its value. -/
theorem finish {f : Nat → Nat} (hf : Monotone f) {outcome : Nat → Option DFI → Prop}
    {P Q : DFI → Prop} (hc : GoodOutcome (index f) outcome P)
    (hPQ : ∀ e n, P e → n ≤ e.log2Denom → Q (e.convertLog2Denom n))
    (hret : ∀ m, ∃ r, outcome m (some r)) {s : State}
    (i : Inv (index f) P Q s) (t n : Nat) (ht : s.pc t = Pc.called n) :
    ∃ s' v, Steps (index f) outcome s s' ∧ s'.pc t = Pc.returned n v ∧ s'.writer = none ∧
      s'.readers = ∅ ∧
      ∀ u, u ≠ t → ¬ (s.pc u).HasRead → ¬ (s.pc u).HasWrite → s'.pc u = s.pc u := by
  obtain ⟨s1, a1, a2, a3, a4⟩ := free_lock hf hc hPQ i
  have i1 := i.steps hf hc hPQ a1
  have ht1 : s1.pc t = Pc.called n := by
    rw [a4 t (by rw [ht]; exact id) (by rw [ht]; exact id), ht]
  have st2 := Step.read (idx := index f) (outcome := outcome) s1 t n ht1 a2 i1.clean
  set s2 : State := { s1.set t (Pc.reading n) with readers := insert t s1.readers } with hs2
  have i2 := i1.step hf hc hPQ st2
  have p2 : s2.pc t = Pc.reading n := by simp [hs2, State.set]
  have o2 : ∀ u, u ≠ t → s2.pc u = s1.pc u := fun u hu => by simp [hs2, State.set, hu]
  have kept1 : ∀ u, u ≠ t → ¬ (s.pc u).HasRead → ¬ (s.pc u).HasWrite → s2.pc u = s.pc u := fun u hu hr hw => by
    rw [o2 u hu, a4 u hr hw]
  rcases he : s2.cache[index f n]? with _ | e
  · have st3 := Step.lookMiss (idx := index f) (outcome := outcome) s2 t n p2 he
    set s3 : State := s2.set t (Pc.noEntry n s2.cache) with hs3
    have p3 : s3.pc t = Pc.noEntry n s2.cache := by simp [hs3, State.set]
    have o3 : ∀ u, u ≠ t → s3.pc u = s2.pc u := fun u hu => by simp [hs3, State.set, hu]
    have i3 := i2.step hf hc hPQ st3
    have st4 := Step.unreadMiss (idx := index f) (outcome := outcome) s3 t n s2.cache p3
    set s4 : State := { s3.set t (Pc.missed n s2.cache) with readers := s3.readers.erase t } with hs4
    have p4 : s4.pc t = Pc.missed n s2.cache := by simp [hs4, State.set]
    have o4 : ∀ u, u ≠ t → s4.pc u = s3.pc u := fun u hu => by simp [hs4, State.set, hu]
    have i4 := i3.step hf hc hPQ st4
    have w4 : s4.writer = none := a2
    have r4 : s4.readers = ∅ := by
      show (insert t s1.readers).erase t = ∅
      rw [a3]; simp
    obtain ⟨r, hr⟩ := hret (required (index f) (index f n))
    obtain ⟨q1, q2⟩ := hc _ _ hr
    have g4 := i4.pc t; rw [p4] at g4
    obtain ⟨new, e, q3, -⟩ := fill_one q1 q2 g4.2.1 g4.2.2
    have st5 := Step.compute (idx := index f) (outcome := outcome) s4 t n s2.cache new e (some r) p4 hr q3
    set s5 : State := s4.set t (Pc.filled n new e) with hs5
    have p5 : s5.pc t = Pc.filled n new e := by simp [hs5, State.set]
    have o5 : ∀ u, u ≠ t → s5.pc u = s4.pc u := fun u hu => by simp [hs5, State.set, hu]
    have i5 := i4.step hf hc hPQ st5
    have st6 := Step.write (idx := index f) (outcome := outcome) s5 t n new e p5 w4 r4 i5.clean
    set s6 : State := { s5.set t (Pc.writing n new e) with writer := some t } with hs6
    have p6 : s6.pc t = Pc.writing n new e := by simp [hs6, State.set]
    have o6 : ∀ u, u ≠ t → s6.pc u = s5.pc u := fun u hu => by simp [hs6, State.set, hu]
    have i6 := i5.step hf hc hPQ st6
    have r6 : s6.readers = ∅ := r4
    have upto6 : Steps (index f) outcome s s6 :=
      ((((a1.trans (Steps.one st2)).trans (Steps.one st3)).trans (Steps.one st4)).trans (Steps.one st5)).trans
        (Steps.one st6)
    have k6 : ∀ u, u ≠ t → ¬ (s.pc u).HasRead → ¬ (s.pc u).HasWrite → s6.pc u = s.pc u := fun u hu hr hw => by
      rw [o6 u hu, o5 u hu, o4 u hu, o3 u hu, kept1 u hu hr hw]
    by_cases hl : s6.cache.length < new.length
    · have st7 := Step.longer (idx := index f) (outcome := outcome) s6 t n new e p6 hl
      have st8 := Step.store (idx := index f) (outcome := outcome) (s6.set t (Pc.storing n new e)) t n new e
        (by simp [State.set])
      have st9 := Step.unwrite (idx := index f) (outcome := outcome) _ t n e
        (show (({ (s6.set t (Pc.storing n new e)).set t (Pc.written n e) with cache := new } : State)).pc t = _
          by simp [State.set])
      refine ⟨_, e.convertLog2Denom n, ((upto6.trans (Steps.one st7)).trans (Steps.one st8)).trans (Steps.one st9),
        by simp [State.set], rfl, r6, fun u hu hr hw => ?_⟩
      rw [← k6 u hu hr hw]
      simp [State.set, hu]
    · have st7 := Step.notLonger (idx := index f) (outcome := outcome) s6 t n new e p6 hl
      have st9 := Step.unwrite (idx := index f) (outcome := outcome) _ t n e
        (show (s6.set t (Pc.written n e)).pc t = _ by simp [State.set])
      refine ⟨_, e.convertLog2Denom n, (upto6.trans (Steps.one st7)).trans (Steps.one st9),
        by simp [State.set], rfl, r6, fun u hu hr hw => ?_⟩
      rw [← k6 u hu hr hw]
      simp [State.set, hu]
  · have st3 := Step.lookHit (idx := index f) (outcome := outcome) s2 t n e p2 he
    have st4 := Step.unreadHit (idx := index f) (outcome := outcome) _ t n e
      (show (s2.set t (Pc.hit n e)).pc t = _ by simp [State.set])
    refine ⟨_, e.convertLog2Denom n, ((a1.trans (Steps.one st2)).trans (Steps.one st3)).trans (Steps.one st4),
      by simp [State.set], a2, ?_, fun u hu hr hw => ?_⟩
    · show (insert t s1.readers).erase t = ∅
      rw [a3]; simp
    · rw [← kept1 u hu hr hw]
      simp [State.set, hu]

/-- the state of `Model/ConstantCache.lean` that a state with locks stands for: `read_cache` takes place
when the vector is looked at, `write_cache` when the lengths are compared or the vector is stored. -/
def absPc : Pc → Thread
  | .idle => .idle
  | .called n => .called n
  | .reading n => .called n
  | .hit n e => .returned n (e.convertLog2Denom n)
  | .noEntry n snap => .missed n snap
  | .missed n snap => .missed n snap
  | .filled n new e => .filled n new e
  | .writing n new e => .filled n new e
  | .storing n new e => .filled n new e
  | .written n e => .returned n (e.convertLog2Denom n)
  | .returned n v => .returned n v
  | .panicked n => .panicked n

def absState (s : State) : Cache.State := ⟨s.cache, fun t => absPc (s.pc t)⟩

theorem absState_set (s : State) (t : Nat) (p : Pc) :
    absState (s.set t p) = (absState s).set t (absPc p) := by
  unfold absState State.set Cache.State.set
  simp only [Cache.State.mk.injEq, true_and]
  funext u
  split <;> rfl

theorem absState_same (s : State) (t : Nat) (p : Pc) (h : absPc p = absPc (s.pc t)) :
    absState (s.set t p) = absState s := by
  rw [absState_set, h]
  unfold absState Cache.State.set
  simp only [Cache.State.mk.injEq, true_and]
  funext u
  split
  · next e => rw [e]
  · rfl

theorem fill_congr (idx : Nat → Nat) (compute : Nat → Option DFI) (snap : List DFI) (c : Nat) :
    fill idx (fun _ => compute (required idx c)) snap c = fill idx compute snap c := rfl

/-- every step with locks is a step without, or is not visible there. -/
theorem abs_step {f : Nat → Nat} {compute : Nat → Option DFI} {P Q : DFI → Prop}
    {s s' : State} (i : Inv (index f) P Q s) (hnp : ∀ t n, s.pc t ≠ Pc.panicked n)
    (h : Step (index f) (fun m o => o = compute m) s s') :
    absState s' = absState s ∨ Cache.Step (index f) compute (absState s) (absState s') := by
  have at_ : ∀ t p, s.pc t = p → (absState s).thread t = absPc p := fun t p h => by
    show absPc (s.pc t) = _
    rw [h]
  cases h with
  | call t n hn h =>
    right
    rw [absState_set]
    refine Cache.Step.call _ t n hn ?_
    rcases h with h | ⟨m, v, h⟩ | ⟨m, h⟩
    · exact Or.inl (at_ _ _ h)
    · exact Or.inr ⟨m, v, at_ _ _ h⟩
    · exact absurd h (hnp t m)
  | read t n h hw hp => exact Or.inl (absState_same s t (Pc.reading n) (by rw [h]; rfl))
  | readPoisoned t n h hw hp => rw [i.clean] at hp; cases hp
  | lookHit t n e h he =>
    right
    rw [absState_set]
    exact Cache.Step.hit _ t n e (at_ _ _ h) he
  | lookMiss t n h he =>
    right
    rw [absState_set]
    exact Cache.Step.miss _ t n (at_ _ _ h) he
  | unreadHit t n e h =>
    exact Or.inl (absState_same s t (Pc.returned n (e.convertLog2Denom n)) (by rw [h]; rfl))
  | unreadMiss t n snap h => exact Or.inl (absState_same s t (Pc.missed n snap) (by rw [h]; rfl))
  | compute t n snap new e o h ho hfl =>
    right
    subst ho
    rw [absState_set]
    exact Cache.Step.compute _ t n snap new e (at_ _ _ h) hfl
  | computePanics t n snap o h ho hfl =>
    right
    subst ho
    rw [absState_set]
    exact Cache.Step.panic _ t n snap (at_ _ _ h) hfl
  | write t n new e h hw hr hp => exact Or.inl (absState_same s t (Pc.writing n new e) (by rw [h]; rfl))
  | writePoisoned t n new e h hw hr hp => rw [i.clean] at hp; cases hp
  | longer t n new e h hl => exact Or.inl (absState_same s t (Pc.storing n new e) (by rw [h]; rfl))
  | notLonger t n new e h hl =>
    right
    have := Cache.Step.write (idx := index f) (compute := compute) (absState s) t n new e (at_ _ _ h)
    rw [if_neg (show ¬ (absState s).cache.length < new.length from hl)] at this
    rw [absState_set]
    exact this
  | store t n new e h =>
    right
    have hl := i.pc t
    rw [h] at hl
    have := Cache.Step.write (idx := index f) (compute := compute) (absState s) t n new e (at_ _ _ h)
    rw [if_pos (show (absState s).cache.length < new.length from hl.2.2.2.2.2)] at this
    convert this using 1
    unfold absState State.set
    simp only [Cache.State.mk.injEq, true_and]
    funext u
    split <;> rfl
  | unwrite t n e h =>
    exact Or.inl (absState_same s t (Pc.returned n (e.convertLog2Denom n)) (by rw [h]; rfl))

end Locked
end Cache
end Algebraics
