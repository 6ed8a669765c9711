import Verif.Net.Receiver
/-!
# C104 — One connection for each user of the telemetry receiver
-/
namespace Verif.Net.Receiver
open Verif.Net.Digest (Str)

/-! ## Specification -/

/-- A connection which was let in under this name, or is about to be. -/
def Recv.Holds (s : Recv) (i : Nat) (name : Str) : Prop :=
  s.conns i = some ⟨name, .checking⟩ ∨ s.conns i = some ⟨name, .replying⟩ ∨ s.conns i = some ⟨name, .live⟩

/-- A connection under this name is just being refused for its protocol. -/
def Recv.Refusing (s : Recv) (name : Str) : Prop := ∃ i, s.conns i = some ⟨name, .failing⟩

/-- No request comes with a name under which another one is just being refused for its protocol. -/
def Patient : Recv → List Ev → Prop
  | _, [] => True
  | s, .named name :: evs => ¬ s.Refusing name ∧ Patient (s.step (.named name)) evs
  | s, e :: evs => Patient (s.step e) evs

/-! ## Invariant -/

structure Inv (s : Recv) : Prop where
  set : ∀ n, n ∈ s.connected ↔ ∃ i, s.Holds i n
  one : ∀ i j n, s.Holds i n → s.Holds j n → i = j
  refusing : ∀ n, s.Refusing n → ∀ i, ¬ s.Holds i n
  fresh : ∀ i, s.next ≤ i → s.conns i = none

theorem inv_start : Inv Recv.start := by
  refine ⟨fun n => ?_, ?_, ?_, fun i _ => rfl⟩
  · simp [Recv.start, Recv.Holds]
  · intro i j n h; simp [Recv.start, Recv.Holds] at h
  · rintro n ⟨i, h⟩; cases h

theorem holds_put {s : Recv} {i j : Nat} {c : Conn} {n : Str} (h : j ≠ i) : (s.put i c).Holds j n ↔ s.Holds j n := by
  simp only [Recv.Holds, Recv.put, if_neg h]

theorem holds_put_self {s : Recv} {i : Nat} {c : Conn} {n : Str} :
    (s.put i c).Holds i n ↔ c.name = n ∧ (c.phase = .checking ∨ c.phase = .replying ∨ c.phase = .live) := by
  obtain ⟨m, p⟩ := c
  simp only [Recv.Holds, Recv.put, if_true, Option.some.injEq, Conn.mk.injEq]
  constructor
  · rintro (⟨h, k⟩ | ⟨h, k⟩ | ⟨h, k⟩)
    · exact ⟨h, Or.inl k⟩
    · exact ⟨h, Or.inr (Or.inl k)⟩
    · exact ⟨h, Or.inr (Or.inr k)⟩
  · rintro ⟨h, k | k | k⟩
    · exact Or.inl ⟨h, k⟩
    · exact Or.inr (Or.inl ⟨h, k⟩)
    · exact Or.inr (Or.inr ⟨h, k⟩)

theorem free_holds {s : Recv} {m : Str} {i : Nat} {n : Str} : (s.free m).Holds i n ↔ s.Holds i n := Iff.rfl

/-- A connection which holds its name goes on holding it. -/
theorem inv_keep {s : Recv} (h : Inv s) {i : Nat} {n : Str} (hi : s.Holds i n) {p : Phase} (hp : p = .replying ∨ p = .live) :
    Inv (s.put i ⟨n, p⟩) := by
  have hh : ∀ j m, (s.put i ⟨n, p⟩).Holds j m ↔ s.Holds j m := by
    intro j m
    by_cases hj : j = i
    · subst hj
      rw [holds_put_self]
      constructor
      · rintro ⟨rfl, _⟩; exact hi
      · intro hm
        refine ⟨?_, Or.inr hp⟩
        rcases hi with a | a | a <;> rcases hm with b | b | b <;> rw [a] at b <;> cases b <;> rfl
    · exact holds_put hj
  refine ⟨fun m => ?_, fun a b m ha hb => h.one a b m ((hh _ _).1 ha) ((hh _ _).1 hb), ?_, ?_⟩
  · show m ∈ s.connected ↔ _
    rw [h.set]; exact exists_congr fun j => (hh j m).symm
  · rintro m ⟨j, hj⟩ k hk
    by_cases hji : j = i
    · subst hji
      simp only [Recv.put, if_true, Option.some.injEq, Conn.mk.injEq] at hj
      rcases hp with rfl | rfl <;> cases hj.2
    · simp only [Recv.put, if_neg hji] at hj
      exact h.refusing m ⟨j, hj⟩ k ((hh k m).1 hk)
  · intro j hj
    have hne : j ≠ i := by
      rintro rfl
      have := h.fresh j hj
      rcases hi with a | a | a <;> rw [this] at a <;> cases a
    simp only [Recv.put, if_neg hne]
    exact h.fresh j hj

/-- A connection which holds its name gives it back. -/
theorem inv_leave {s : Recv} (h : Inv s) {i : Nat} {n : Str} (hi : s.Holds i n) {p : Phase} (hp : p = .failing ∨ p = .over) :
    Inv ((s.free n).put i ⟨n, p⟩) := by
  have hh : ∀ j m, ((s.free n).put i ⟨n, p⟩).Holds j m ↔ s.Holds j m ∧ m ≠ n := by
    intro j m
    by_cases hj : j = i
    · subst hj
      rw [holds_put_self]
      constructor
      · rintro ⟨_, hc⟩
        rcases hp with rfl | rfl <;> rcases hc with hc | hc | hc <;> cases hc
      · rintro ⟨hm, hne⟩
        exfalso
        apply hne
        rcases hi with a | a | a <;> rcases hm with b | b | b <;> rw [a] at b <;> cases b <;> rfl
    · rw [holds_put hj, free_holds]
      refine ⟨fun hm => ⟨hm, ?_⟩, fun hm => hm.1⟩
      rintro rfl
      exact hj (h.one _ _ _ hm hi)
  refine ⟨fun m => ?_, fun a b m ha hb => h.one a b m ((hh _ _).1 ha).1 ((hh _ _).1 hb).1, ?_, ?_⟩
  · show m ∈ s.connected.filter (· ≠ n) ↔ _
    rw [List.mem_filter, h.set]
    constructor
    · rintro ⟨⟨j, hj⟩, hne⟩
      exact ⟨j, (hh j m).2 ⟨hj, by simpa using hne⟩⟩
    · rintro ⟨j, hj⟩
      obtain ⟨h1, h2⟩ := (hh j m).1 hj
      exact ⟨⟨j, h1⟩, by simpa using h2⟩
  · rintro m ⟨j, hj⟩ k hk
    obtain ⟨h1, h2⟩ := (hh k m).1 hk
    by_cases hji : j = i
    · subst hji
      simp only [Recv.put, if_true, Option.some.injEq, Conn.mk.injEq] at hj
      exact h2 hj.1.symm
    · simp only [Recv.put, Recv.free, if_neg hji] at hj
      exact h.refusing m ⟨j, hj⟩ k h1
  · intro j hj
    have hne : j ≠ i := by
      rintro rfl
      have := h.fresh j hj
      rcases hi with a | a | a <;> rw [this] at a <;> cases a
    simp only [Recv.put, if_neg hne]
    exact h.fresh j hj

theorem inv_step {s : Recv} (h : Inv s) {e : Ev} (hp : ∀ n, e = .named n → ¬ s.Refusing n) : Inv (s.step e) := by
  cases e with
  | named n =>
    have hnone := h.fresh s.next (Nat.le_refl _)
    have fresh' : ∀ (c : Conn) (i : Nat), s.next + 1 ≤ i → (s.put s.next c).conns i = none := by
      intro c i hi
      have : i ≠ s.next := by omega
      simp only [Recv.put, if_neg this]
      exact h.fresh i (by omega)
    simp only [Recv.step]
    split
    · have hh : ∀ j m, (s.put s.next ⟨n, .over⟩).Holds j m ↔ s.Holds j m := by
        intro j m
        by_cases hj : j = s.next
        · subst hj
          rw [holds_put_self]
          simp [Recv.Holds, hnone]
        · exact holds_put hj
      refine ⟨fun m => (h.set m).trans (exists_congr fun j => (hh j m).symm),
        fun a b m ha hb => h.one a b m ((hh _ _).1 ha) ((hh _ _).1 hb), ?_, fun i hi => fresh' _ i hi⟩
      rintro m ⟨j, hj⟩ k hk
      by_cases hji : j = s.next
      · subst hji
        simp [Recv.put] at hj
      · simp only [Recv.put, if_neg hji] at hj
        exact h.refusing m ⟨j, hj⟩ k ((hh k m).1 hk)
    · rename_i hn
      have hno : ∀ j, ¬ s.Holds j n := fun j hj => hn ((h.set n).2 ⟨j, hj⟩)
      have hh : ∀ j m, (s.put s.next ⟨n, .checking⟩).Holds j m ↔ s.Holds j m ∨ (j = s.next ∧ m = n) := by
        intro j m
        by_cases hj : j = s.next
        · subst hj
          rw [holds_put_self]
          simp only [Recv.Holds, hnone]
          simp [eq_comm]
        · rw [holds_put hj]
          simp [hj]
      refine ⟨fun m => ?_, ?_, ?_, fun i hi => fresh' _ i hi⟩
      · show m ∈ n :: s.connected ↔ ∃ i, (s.put s.next ⟨n, .checking⟩).Holds i m
        rw [List.mem_cons, h.set]
        constructor
        · rintro (rfl | ⟨j, hj⟩)
          · exact ⟨s.next, (hh _ _).2 (Or.inr ⟨rfl, rfl⟩)⟩
          · exact ⟨j, (hh _ _).2 (Or.inl hj)⟩
        · rintro ⟨j, hj⟩
          rcases (hh _ _).1 hj with hj | ⟨_, rfl⟩
          · exact Or.inr ⟨j, hj⟩
          · exact Or.inl rfl
      · intro a b m ha hb
        rcases (hh a m).1 ha with ha | ⟨rfl, rfl⟩ <;> rcases (hh b _).1 hb with hb | ⟨rfl, hb⟩
        · exact h.one a b m ha hb
        · rename_i e; exact absurd (e ▸ ha) (hno a)
        · exact absurd hb (hno b)
        · rfl
      · rintro m ⟨j, hj⟩ k hk
        by_cases hji : j = s.next
        · subst hji
          simp [Recv.put] at hj
        · simp only [Recv.put, if_neg hji] at hj
          rcases (hh k m).1 hk with hk | ⟨_, rfl⟩
          · exact h.refusing m ⟨j, hj⟩ k hk
          · exact hp m rfl ⟨j, hj⟩
  | offered i good =>
    simp only [Recv.step]
    split
    · rename_i n hc
      split
      · exact inv_keep h (Or.inl hc) (Or.inl rfl)
      · exact inv_leave h (Or.inl hc) (Or.inl rfl)
    · exact h
  | answered i written =>
    simp only [Recv.step]
    split
    · rename_i n hc
      split
      · exact inv_keep h (Or.inr (Or.inl hc)) (Or.inr rfl)
      · exact inv_leave h (Or.inr (Or.inl hc)) (Or.inr rfl)
    · rename_i n hc
      -- the name is given back a second time, but nobody has it
      have hno := h.refusing n ⟨i, hc⟩
      have hfree : s.free n = s := by
        have : s.connected.filter (· ≠ n) = s.connected := by
          rw [List.filter_eq_self]
          intro m hm
          have : m ≠ n := by
            rintro rfl
            obtain ⟨j, hj⟩ := (h.set m).1 hm
            exact hno j hj
          simpa using this
        simp only [Recv.free, this]
      rw [hfree]
      have hh : ∀ j m, (s.put i ⟨n, .over⟩).Holds j m ↔ s.Holds j m := by
        intro j m
        by_cases hj : j = i
        · subst hj
          rw [holds_put_self]
          simp [Recv.Holds, hc]
        · exact holds_put hj
      refine ⟨fun m => (h.set m).trans (exists_congr fun j => (hh j m).symm),
        fun a b m ha hb => h.one a b m ((hh _ _).1 ha) ((hh _ _).1 hb), ?_, ?_⟩
      · rintro m ⟨j, hj⟩ k hk
        by_cases hji : j = i
        · subst hji
          simp [Recv.put] at hj
        · simp only [Recv.put, if_neg hji] at hj
          exact h.refusing m ⟨j, hj⟩ k ((hh k m).1 hk)
      · intro j hj
        have hne : j ≠ i := by
          rintro rfl
          have := h.fresh j hj
          rw [this] at hc; cases hc
        simp only [Recv.put, if_neg hne]
        exact h.fresh j hj
    · exact h
  | closed i =>
    simp only [Recv.step]
    split
    · rename_i n hc
      exact inv_leave h (Or.inr (Or.inr hc)) (Or.inr rfl)
    · exact h

theorem inv_run {s : Recv} (h : Inv s) {evs : List Ev} (hp : Patient s evs) : Inv (s.run evs) := by
  induction evs generalizing s with
  | nil => exact h
  | cons e r ih =>
    show Inv ((s.step e).run r)
    cases e with
    | named n => exact ih (inv_step h fun m e => by cases e; exact hp.1) hp.2
    | offered i g => exact ih (inv_step h fun m e => by cases e) hp
    | answered i w => exact ih (inv_step h fun m e => by cases e) hp
    | closed i => exact ih (inv_step h fun m e => by cases e) hp

/-! ## C104 -/

/-- **C104**: as long as no request comes with a name under which another is just being refused for its protocol, two connections
are never live under the same name. -/
theorem c104_one_partial (evs : List Ev) (hp : Patient Recv.start evs) (i j : Nat) (name : Str)
    (hi : (Recv.start.run evs).conns i = some ⟨name, .live⟩) (hj : (Recv.start.run evs).conns j = some ⟨name, .live⟩) : i = j :=
  (inv_run inv_start hp).one i j name (Or.inr (Or.inr hi)) (Or.inr (Or.inr hj))

/-- **C104, who is refused**: a request is refused for its name exactly if another connection under this name is live or being set up. -/
theorem c104_refused_partial (evs : List Ev) (hp : Patient Recv.start evs) (name : Str) :
    let s := Recv.start.run evs
    ((s.step (.named name)).conns s.next = some ⟨name, .over⟩ ↔ ∃ i, s.Holds i name) ∧
      ((s.step (.named name)).conns s.next = some ⟨name, .checking⟩ ↔ ¬ ∃ i, s.Holds i name) := by
  have h := inv_run inv_start hp
  intro s
  have hs := h.set name
  change name ∈ s.connected ↔ ∃ i, s.Holds i name at hs
  rw [← hs]
  simp only [Recv.step]
  split
  · rename_i hc; simp [Recv.put, hc]
  · rename_i hc; simp [Recv.put, hc]

/-- **C104, back again**: when the connection of a user has ended, the user can connect again at once. -/
theorem c104_back (evs : List Ev) (i : Nat) (name : Str)
    (hi : (Recv.start.run evs).conns i = some ⟨name, .live⟩) :
    let s := (Recv.start.run evs).step (.closed i)
    (s.step (.named name)).conns s.next = some ⟨name, .checking⟩ := by
  have : name ∉ ((Recv.start.run evs).step (.closed i)).connected := by
    simp [Recv.step, hi, Recv.free, Recv.put]
  intro s
  simp only [Recv.step]
  rw [if_neg this]
  simp [Recv.put]

/-- **C104 finding: a name given back twice.** A request refused for its protocol gives its name back when it is refused and again when
the refusal was written. A connection under the same name which came in between loses its place in the set, and a third is let in:
two are live under the same name. -/
theorem c104_given_back_twice : ∃ evs i j name, i ≠ j ∧ (Recv.start.run evs).conns i = some ⟨name, .live⟩ ∧
    (Recv.start.run evs).conns j = some ⟨name, .live⟩ :=
  ⟨[.named ['b'], .offered 0 false, .named ['b'], .offered 1 true, .answered 1 true, .answered 0 true, .named ['b'], .offered 2 true,
    .answered 2 true], 1, 2, ['b'], by decide, by decide +kernel, by decide +kernel⟩

/-- Two users, one of them refused while connected and let in again later. -/
example :
    let evs : List Ev := [.named ['a'], .offered 0 true, .answered 0 true, .named ['b'], .named ['a'], .offered 1 false, .answered 1 true,
      .closed 0, .named ['a'], .offered 3 true, .answered 3 true]
    (Recv.start.run evs).conns 2 = some ⟨['a'], .over⟩ ∧ (Recv.start.run evs).conns 3 = some ⟨['a'], .live⟩ := by decide +kernel

/-- Clients which all offer the protocol are patient. -/
theorem patient_of_good (evs : List Ev) (hg : ∀ i, Ev.offered i false ∉ evs) : Patient Recv.start evs := by
  have put : ∀ (s : Recv) (i : Nat) (c : Conn), (∀ n, ¬ s.Refusing n) → c.phase ≠ .failing → ∀ n, ¬ (s.put i c).Refusing n := by
    rintro s i c h hc n ⟨j, hj⟩
    by_cases hji : j = i
    · subst hji
      simp only [Recv.put, if_true, Option.some.injEq] at hj
      rw [hj] at hc; exact hc rfl
    · simp only [Recv.put, if_neg hji] at hj
      exact h n ⟨j, hj⟩
  have main : ∀ (evs : List Ev) (s : Recv), (∀ i, Ev.offered i false ∉ evs) → (∀ n, ¬ s.Refusing n) → Patient s evs := by
    intro evs
    induction evs with
    | nil => intro s _ _; trivial
    | cons e r ih =>
      intro s hg h
      have hg' : ∀ i, Ev.offered i false ∉ r := fun i hi => hg i (List.mem_cons_of_mem _ hi)
      cases e with
      | named n =>
        refine ⟨h n, ih _ hg' ?_⟩
        simp only [Recv.step]
        split
        · exact put s s.next _ h (by simp)
        · exact put s s.next _ h (by simp)
      | offered i g =>
        refine ih _ hg' ?_
        cases g with
        | false => exact absurd List.mem_cons_self (hg i)
        | true =>
          simp only [Recv.step, if_true]
          split
          · exact put _ _ _ h (by simp)
          · exact h
      | answered i w =>
        refine ih _ hg' ?_
        simp only [Recv.step]
        split
        · split
          · exact put _ _ _ h (by simp)
          · exact put _ _ _ h (by simp)
        · exact put _ _ _ h (by simp)
        · exact h
      | closed i =>
        refine ih _ hg' ?_
        simp only [Recv.step]
        split
        · exact put _ _ _ h (by simp)
        · exact h
  exact main evs _ hg fun n ⟨i, hi⟩ => by cases hi

end Verif.Net.Receiver
