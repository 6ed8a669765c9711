import Verif.Cmce.CallFloor
/-!
# C28 — Group calls hold exactly one exclusive traffic slot each

Calls are known from the messages of call control: `heard` gives group, usage marker and timeslot of the call with a
number (`CallViews.lean`).
-/
namespace Verif.Cmce
open Tdma

theorem ccRun_started {r : Nat → Bool} {h : List (CcEv × List CcOut)} {s : Cc} (hr : CcRun r h s) :
    started (messages h) = (List.range (started (messages h)).length).map callIdOf ∧
    s.mgr.nextCallId = callIdOf (started (messages h)).length := by
  refine run_induct (P := fun l s => started l = (List.range (started l).length).map callIdOf ∧ s.mgr.nextCallId = callIdOf (started l).length)
    ⟨rfl, rfl⟩ ?_ ?_ ?_ ?_ hr
  · intro l s now h; exact h
  · intro l s now h; exact h
  · rintro l s o s' hi ⟨hs, hn⟩ hp
    rcases started_prim hp with ⟨e1, e2⟩ | ⟨e1, e2⟩
    · rw [started_append, e1, List.append_nil, e2]; exact ⟨hs, hn⟩
    · rw [started_append, e1, hn, List.length_append, e2, hn, callIdOf_succ]
      simp only [List.length_cons, List.length_nil, Nat.zero_add, List.range_succ, List.map_append, List.map_cons, List.map_nil]
      rw [← hs]
      exact ⟨rfl, trivial⟩
  · rintro l s s' hi h ⟨calls', f, hp, hf, rfl⟩; exact h

/-- A number in use was given to a call. -/
theorem started_of_connected (l : List CcOut) {id : Nat} (h : connected l id = true) : id ∈ started l := by
  have aux : ∀ (l : List CcOut) (t : Nat → Bool), l.foldl connectedAfter t id = true → t id = true ∨ id ∈ started l := by
    intro l
    induction l with
    | nil => intro t h; exact .inl h
    | cons o l ih =>
      intro t h
      have := ih _ h
      have hs : started (o :: l) = started [o] ++ started l := started_append [o] l
      rw [hs]
      rcases this with h1 | h1
      · cases o with
        | dConnect to j g ow ch =>
          simp only [connectedAfter] at h1
          split at h1
          · rename_i e; subst e; exact .inr (by simp [started])
          · exact .inl h1
        | dRelease to j c =>
          cases to with
          | group g =>
            simp only [connectedAfter] at h1
            split at h1
            · cases h1
            · exact .inl h1
          | station g => exact .inl h1
        | _ => exact .inl h1
      · exact .inr (List.mem_append_right _ h1)
  rcases aux l _ h with h1 | h1
  · cases h1
  · exact h1

/-- **C28, numbers.** Call numbers are given out in the order 4, 5, …, 1023, 1, 2, …; so no number is given out again while
a call has it, as long as at most 1023 calls were set up. -/
theorem c28_numbers {r : Nat → Bool} {h : List (CcEv × List CcOut)} {s : Cc} (hr : CcRun r h s) :
    (∀ n id, (started (messages h))[n]? = some id → id = (n + 3) % 1023 + 1) ∧
    ((started (messages h)).length ≤ 1023 → NoReuse (messages h)) := by
  obtain ⟨h1, _⟩ := ccRun_started hr
  have hget : ∀ n id, (started (messages h))[n]? = some id → id = callIdOf n := by
    intro n id hid
    have hn := (List.getElem?_eq_some_iff.1 hid).1
    rw [h1, List.getElem?_map, List.getElem?_range hn] at hid
    simpa using hid.symm
  refine ⟨hget, ?_⟩
  intro hlen l1 l2 to id g o ch e
  cases hc : connected l1 id with
  | false => rfl
  | true =>
    exfalso
    obtain ⟨j, hj, ej⟩ := List.mem_iff_getElem.1 (started_of_connected l1 hc)
    have hsl : started (messages h) = started l1 ++ id :: started l2 := by
      rw [e, started_append]; rfl
    have g1 : (started (messages h))[j]? = some id := by
      rw [hsl, List.getElem?_append_left hj, List.getElem?_eq_getElem hj, ej]
    have g2 : (started (messages h))[(started l1).length]? = some id := by
      rw [hsl]; simp
    have e1 := hget _ _ g1
    have e2 := hget _ _ g2
    have hb := (List.getElem?_eq_some_iff.1 g2).1
    rw [e1] at e2
    unfold callIdOf at e2
    omega

/-- **C28, totality.** Whatever happened, every event is handled without an abort, provided network calls are for groups
which go over the network. -/
theorem c28_total {r : Nat → Bool} {h : List (CcEv × List CcOut)} {s : Cc} (hr : CcRun r h s) {e : CcEv} (he : e.Expected r) :
    ∃ s' out, s.step e = .ok (s', out) := by
  obtain ⟨s', o, h1, _⟩ := step_shape (ccRun_inv hr) (e := e) (by rw [ccRun_routable hr]; exact he)
  exact ⟨s', o, h1⟩

/-- **Finding.** A network call for any other group aborts. -/
theorem c28_foreign_group_aborts {r : Nat → Bool} {h : List (CcEv × List CcOut)} {s : Cc} (hr : CcRun r h s) {g : Nat}
    (hg : r g = false) (uuid speaker : Nat) : s.step (.netStart uuid speaker g) = .panic := by
  apply step_unexpected
  rw [ccRun_routable hr]
  simp [CcEv.Expected, hg]

/-- **C28, one slot per call.** Every call has a traffic timeslot, which the allocator holds for call control, and no two
calls have the same. This needs nothing about call numbers. -/
theorem c28_exclusive {r : Nat → Bool} {h : List (CcEv × List CcOut)} {s : Cc} (hr : CcRun r h s) {id : Nat} {c : Call}
    (hc : s.calls.get id = some c) :
    2 ≤ c.ts ∧ c.ts ≤ 4 ∧ s.alloc.owner c.ts = some .cmce ∧
      ∀ id' c', s.calls.get id' = some c' → c'.ts = c.ts → id' = id := by
  have hi := ccRun_inv hr
  obtain ⟨i, k, h1, h2, h3, _⟩ := hi.circuit id c hc
  have hne := hi.mgr.ne_zero h1
  have h0 : i.val ≠ 0 := fun e => hne (Fin.ext e)
  refine ⟨by omega, by omega, ?_, ?_⟩
  · rw [h2, hi.alloc.2, h1]; rfl
  · intro id' c' hc' hts
    obtain ⟨k', h1', h3', _⟩ := hi.circuit_at hc' (hts.trans h2)
    rw [h1] at h1'; cases h1'
    rw [← h3, ← h3']

/-- The call numbers in use are those the messages say, always. -/
theorem c28_connected {r : Nat → Bool} {h : List (CcEv × List CcOut)} {s : Cc} (hr : CcRun r h s) (id : Nat) :
    connected (messages h) id = true ↔ ∃ c, s.calls.get id = some c := by
  rw [ccRun_connected hr, Option.isSome_iff_exists]

/-- **C28, what stations are told.** As long as no number is reused while in use: a station which believes the messages
knows the calls and their timeslots exactly; no two calls are announced on one timeslot; a timeslot is taken exactly while
a call is announced on it: no slot leaks. -/
theorem c28_heard {r : Nat → Bool} {h : List (CcEv × List CcOut)} {s : Cc} (hr : CcRun r h s) (hn : NoReuse (messages h)) :
    (∀ id, heard (messages h) id = (s.calls.get id).map fun c => (c.gssi, c.usage, c.ts)) ∧
    (∀ id id' g u g' u' ts, heard (messages h) id = some (g, u, ts) → heard (messages h) id' = some (g', u', ts) → id = id') ∧
    (∀ ts, s.alloc.owner ts = some .cmce ↔ ∃ id g u, heard (messages h) id = some (g, u, ts)) ∧
    (∀ ts, s.alloc.owner ts = none ↔ ∀ id g u, heard (messages h) id ≠ some (g, u, ts)) := by
  have hi := ccRun_inv hr
  obtain ⟨hl, hv⟩ := ccRun_view hr hn
  have hsome : ∀ id g u ts, heard (messages h) id = some (g, u, ts) ↔ ∃ c, s.calls.get id = some c ∧ c.gssi = g ∧ c.usage = u ∧ c.ts = ts := by
    intro id g u ts
    rw [hv]
    simp [Cc.view]
  have howner : ∀ ts, s.alloc.owner ts = some .cmce ↔ ∃ id g u, heard (messages h) id = some (g, u, ts) := by
    intro ts
    constructor
    · intro ho
      have hts : 2 ≤ ts ∧ ts ≤ 4 := by
        apply Decidable.byContradiction
        intro hn
        simp [TsAlloc.Alloc.owner, TsAlloc.idx, hn] at ho
      have h2 := hi.alloc.2 ⟨ts - 1, by omega⟩
      have e : ts - 1 + 1 = ts := by omega
      simp only [e, ho] at h2
      split at h2
      · rename_i hs
        obtain ⟨k, hk⟩ := Option.isSome_iff_exists.1 hs
        obtain ⟨c, a, b⟩ := hl _ k hk
        refine ⟨k.callId, c.gssi, c.usage, (hsome _ _ _ _).2 ⟨c, a, rfl, rfl, ?_⟩⟩
        simp only at b; omega
      · cases h2
    · rintro ⟨id, g, u, hh⟩
      obtain ⟨c, a, _, _, rfl⟩ := (hsome _ _ _ _).1 hh
      exact (c28_exclusive hr a).2.2.1
  refine ⟨fun id => by rw [hv]; rfl, ?_, howner, ?_⟩
  · intro id id' g u g' u' ts h1 h2
    obtain ⟨c, a, _, _, rfl⟩ := (hsome _ _ _ _).1 h1
    obtain ⟨c', a', _, _, e⟩ := (hsome _ _ _ _).1 h2
    exact ((c28_exclusive hr a).2.2.2 id' c' a' e).symm
  · intro ts
    constructor
    · intro ho id g u hh
      have := (howner ts).2 ⟨id, g, u, hh⟩
      rw [ho] at this; cases this
    · intro hh
      cases ho : s.alloc.owner ts with
      | none => rfl
      | some o =>
        have : o = .cmce := by
          have hts : 2 ≤ ts ∧ ts ≤ 4 := by
            apply Decidable.byContradiction
            intro hn
            simp [TsAlloc.Alloc.owner, TsAlloc.idx, hn] at ho
          have h2 := hi.alloc.2 ⟨ts - 1, by omega⟩
          have e : ts - 1 + 1 = ts := by omega
          simp only [e, ho] at h2
          split at h2
          · exact Option.some.inj h2
          · cases h2
        subst this
        obtain ⟨id, g, u, h3⟩ := (howner ts).1 ho
        exact absurd h3 (hh id g u)

/-- **C28, service.** A supported request for a call to a group somebody listens to is granted whenever one of the three
traffic timeslots has no call, and the call gets such a timeslot. -/
theorem c28_served {r : Nat → Bool} {h : List (CcEv × List CcOut)} {s : Cc} (hr : CcRun r h s) (hn : NoReuse (messages h))
    {caller g comm : Nat} (hl : s.hasListener g = true) {ts : Nat} (hts : 2 ≤ ts ∧ ts ≤ 4)
    (hfree : ∀ id g u, heard (messages h) id ≠ some (g, u, ts)) :
    ∃ s' out id u ts', s.step (.uSetup caller true (some g) comm) = .ok (s', out) ∧
      .dConnect (.station caller) id .granted true (some (u, ts')) ∈ out ∧
      .dSetup (.group g) id .grantedToOther caller (u, ts') ∈ out ∧ 2 ≤ ts' ∧ ts' ≤ 4 ∧
      ∀ id g u, heard (messages h) id ≠ some (g, u, ts') := by
  have hi := ccRun_inv hr
  obtain ⟨h1, h2, h3, h4⟩ := c28_heard hr hn
  have hf := (h4 ts).2 hfree
  have hd : s.mgr.dl ⟨ts - 1, by omega⟩ = none := by
    have := hi.alloc.2 ⟨ts - 1, by omega⟩
    have e : ts - 1 + 1 = ts := by omega
    simp only [e, hf] at this
    split at this
    · cases this
    · rename_i hn; simpa using hn
  rcases allocateWith_cases hi comm with ⟨_, hfull⟩ | ⟨a, i, k, e1, e2, e3, e4, e5⟩
  · have := hfull ⟨ts - 1, by omega⟩ (by intro e; have := congrArg Fin.val e; simp at this; omega)
    rw [hd] at this; cases this
  · have h0 : i.val ≠ 0 := fun e => e2 (Fin.ext e)
    have hkts : k.ts = i.val + 1 := by rw [e4]
    have hstep : ∃ s', s.step (.uSetup caller true (some g) comm) =
        .ok (s', startOut s.routable k ⟨.ms caller, g, caller, i.val + 1, k.usage, true, none, none⟩) := by
      simp only [Cc.step, Cc.setup, hl, if_true, e5, Res.bind_ok, Cc.openLocal, startOut, hkts, Slots.idx_succ]
      exact ⟨_, rfl⟩
    obtain ⟨s', hstep⟩ := hstep
    refine ⟨s', _, k.callId, k.usage, i.val + 1, hstep, ?_, ?_, by omega, by omega, ?_⟩
    · simp [startOut, hkts]
    · simp [startOut, hkts]
    · apply (h4 _).1
      rw [hi.alloc.2, e3]; rfl

end Verif.Cmce
