import Verif.Cmce.CallEvents
import Verif.Core.TdmaProps
/-!
# The hang time when ticks come one after the other: lemmas

Call control compares the age of a hang time with its limit in every tick. When every tick is for the timeslot after the previous one, a
call ends in the first tick in which the limit is passed, and so in a timeslot which depends only on that in which its talker stopped.
-/
namespace Verif.Cmce
open Tdma

/-- No hang time is over, and none lies in the future. -/
def Cc.Hanging (s : Cc) : Prop :=
  s.now.valid ∧ ∀ id c t, s.calls.get id = some c → c.hang = some t → t.valid ∧ 0 ≤ t.age s.now ∧ t.age s.now ≤ 360

theorem age_self {t : Time} (h : t.valid) : t.age t = 0 := (c03_diff_zero t t h h).2 rfl

/-- One timeslot later, the age is one more. -/
theorem age_succ {t a b : Time} (ha : a.valid) (hs : Succ a b) (h0 : -100000000 < t.age a) (h1 : t.age a < 100000000) :
    b.valid ∧ t.age b = t.age a + 1 := by
  obtain ⟨hb, he⟩ : b.valid ∧ wrap ∣ b.toInt - (a.toInt + 1) := by
    unfold Succ Time.addTimeslots at hs
    split at hs
    · cases hs
      refine ⟨fromInt_valid _, ?_⟩
      rw [toInt_fromInt]
      simp only [wrap]
      omega
    · cases hs
  refine ⟨hb, ?_⟩
  refine isDistance_unique (c03_diff_is_distance b t) ?_
  obtain ⟨e1, e2, e3⟩ := c03_diff_is_distance a t
  unfold Time.age at *
  unfold IsDistance
  simp only [wrap] at *
  refine ⟨by omega, by omega, ?_⟩
  obtain ⟨k, hk⟩ := e3
  obtain ⟨l, hl⟩ := he
  exact ⟨k + l, by omega⟩

/-- The timeslot of a time some timeslots later. -/
theorem slot_of_age {t now : Time} (ht : t.valid) (hn : now.valid) : ((now.t : Int) - t.t - t.age now) % 4 = 0 := by
  obtain ⟨e1, e2, e3⟩ := c03_diff_is_distance now t
  unfold Time.age
  unfold Time.toInt at e3
  omega

theorem Cc.Hanging.prim {m : Bool} {s s' : Cc} {o : List CcOut} (h : s.Hanging) (hp : Prim s m o s') : s'.Hanging ∧ s'.now = s.now := by
  obtain ⟨hv, hh⟩ := h
  have one : ∀ (id : Nat) (c : Call) (s' : Cc), s'.now = s.now → s'.calls = s.calls.insert id c →
      (∀ t, c.hang = some t → t.valid ∧ 0 ≤ t.age s.now ∧ t.age s.now ≤ 360) → s'.Hanging := by
    intro id c s' h1 h2 h3
    refine ⟨h1 ▸ hv, ?_⟩
    intro j d t hj ht
    rw [h1]
    rw [h2, Assoc.get_insert] at hj
    split at hj
    · cases hj; exact h3 t ht
    · exact hh j d t hj ht
  have less : ∀ (id : Nat) (s' : Cc), s'.now = s.now → s'.calls = s.calls.erase id → s'.Hanging := by
    intro id s' h1 h2
    refine ⟨h1 ▸ hv, ?_⟩
    intro j d t hj ht
    rw [h1]
    rw [h2, Assoc.get_erase] at hj
    split at hj
    · cases hj
    · exact hh j d t hj ht
  cases hp with
  | aside o ha => exact ⟨⟨hv, hh⟩, rfl⟩
  | members g l => exact ⟨⟨hv, hh⟩, rfl⟩
  | start a i comm k c p h1 h2 h3 h4 h5 h6 h7 h8 h9 h10 h11 =>
    refine ⟨one _ c _ rfl rfl fun t ht => ?_, rfl⟩
    rw [h9] at ht; cases ht
  | stop id c i cause h1 h2 => exact ⟨less _ _ rfl rfl, rfl⟩
  | expire i k h1 h2 => exact ⟨less _ _ rfl rfl, rfl⟩
  | cease id c b n h1 h2 h3 =>
    refine ⟨one _ _ _ rfl rfl fun t ht => ?_, rfl⟩
    cases ht
    rw [age_self hv]
    exact ⟨hv, by omega, by omega⟩
  | grant id c ssi h1 h2 => exact ⟨one _ _ _ rfl rfl fun t ht => (by cases ht), rfl⟩
  | netGrant id c u sp h1 h2 => exact ⟨one _ _ _ rfl rfl fun t ht => (by cases ht), rfl⟩
  | announce i k c p h1 h2 h3 h4 => exact ⟨⟨hv, hh⟩, rfl⟩

theorem Cc.Hanging.prims {m : Bool} {s s' : Cc} {o : List CcOut} (h : s.Hanging) (hp : Prims m s o s') : s'.Hanging ∧ s'.now = s.now := by
  induction hp with
  | nil => exact ⟨h, rfl⟩
  | cons hp _ ih =>
    obtain ⟨h1, h2⟩ := h.prim hp
    obtain ⟨h3, h4⟩ := ih h1
    exact ⟨h3, h4.trans h2⟩

/-- An event other than a tick. -/
theorem Cc.Hanging.step {s s' : Cc} {e : CcEv} {o : List CcOut} (h : s.Hanging) (hi : CcInv s) (he : ∀ now, e ≠ .tick now)
    (hs : s.step e = .ok (s', o)) : s'.Hanging ∧ s'.now = s.now := by
  obtain ⟨_, h1⟩ := step_ok hi hs
  cases h1 with
  | tick => exact absurd rfl (he _)
  | update hp => exact h.prims hp
  | other _ _ hp => exact h.prims hp

/-- Is the hang time over? -/
theorem hangExpired_iff {s : Cc} (hi : CcInv s) (now : Time) {id : Nat} {c : Call} (hc : s.calls.get id = some c) :
    id ∈ (s.clock now).hangExpired ↔ ∃ t, c.hang = some t ∧ t.age now > 360 := by
  simp only [Cc.hangExpired, Cc.clock, List.mem_map, List.mem_filter]
  constructor
  · rintro ⟨⟨j, d⟩, ⟨hm, hd⟩, rfl⟩
    rw [Assoc.get_of_mem hi.ok hm] at hc; cases hc
    simp only at hd
    split at hd
    · rename_i t ht; exact ⟨t, ht, by simpa [hangLimit] using hd⟩
    · cases hd
  · rintro ⟨t, ht, hage⟩
    exact ⟨(id, c), ⟨Assoc.mem_of_get hc, by simp only [ht]; simpa [hangLimit] using hage⟩, rfl⟩

/-- The tick for the next timeslot. -/
theorem Cc.Hanging.tick {s s' : Cc} {now : Time} {o : List CcOut} (h : s.Hanging) (hi : CcInv s) (hn : Succ s.now now)
    (hs : s.step (.tick now) = .ok (s', o)) : s'.Hanging ∧ s'.now = now := by
  obtain ⟨s'', o', h1, _, _, _, h2, h3, h4, _⟩ := tick_prims hi now
  rw [show s.step (.tick now) = s.tick now from rfl, h1] at hs
  cases hs
  have hv := (age_succ (t := s.now) h.1 hn (by rw [age_self h.1]; omega) (by rw [age_self h.1]; omega)).1
  refine ⟨⟨h2 ▸ hv, ?_⟩, h2⟩
  intro id c t hc ht
  rcases h3 id with h5 | h5
  · rw [h5] at hc
    obtain ⟨a1, a2, a3⟩ := h.2 id c t hc ht
    have a4 := (age_succ (t := t) h.1 hn (by omega) (by omega)).2
    have a5 : id ∉ (s.clock now).hangExpired := by
      intro hm
      rw [h4 id hm, hc] at h5
      cases h5
    rw [hangExpired_iff hi now hc] at a5
    rw [h2]
    refine ⟨a1, by omega, ?_⟩
    exact Int.not_lt.1 fun hg => a5 ⟨t, ht, hg⟩
  · rw [h5] at hc; cases hc

/-- A call the tick ends because of its hang time ends in the timeslot after that in which its talker stopped. -/
theorem hang_slot {s s' : Cc} {now t : Time} {o : List CcOut} {id : Nat} {c : Call} (h : s.Hanging) (hi : CcInv s) (hn : Succ s.now now)
    (hs : s.step (.tick now) = .ok (s', o)) (hc : s.calls.get id = some c) (ht : c.hang = some t) (hg : s'.calls.get id = none) :
    now.t = t.t % 4 + 1 ∨ now.t = 1 ∧ ∃ i k, s.mgr.dl i = some k ∧ k.callId = id ∧ k.age now > 25920 := by
  obtain ⟨s'', o', h1, _, _, _, h2, _, _, h5, _⟩ := tick_prims hi now
  rw [show s.step (.tick now) = s.tick now from rfl, h1] at hs
  cases hs
  rcases h5 id c hc hg with h6 | h6
  · left
    obtain ⟨t', e1, e2⟩ := (hangExpired_iff hi now hc).1 h6
    rw [ht] at e1; cases e1
    obtain ⟨a1, a2, a3⟩ := h.2 id c t hc ht
    obtain ⟨hv, a4⟩ := age_succ (t := t) h.1 hn (by omega) (by omega)
    have a5 := slot_of_age a1 hv
    obtain ⟨b1, b2, _⟩ := a1
    obtain ⟨c1, c2, _⟩ := hv
    omega
  · exact .inr h6

/-- The same for the first tick, before there is any call. -/
theorem Cc.Hanging.first {s s' : Cc} {now : Time} {o : List CcOut} (h0 : s.calls = []) (hi : CcInv s) (hn : now.valid)
    (hs : s.step (.tick now) = .ok (s', o)) : s'.Hanging ∧ s'.now = now := by
  obtain ⟨s'', o', h1, _, _, _, h2, h3, _⟩ := tick_prims hi now
  rw [show s.step (.tick now) = s.tick now from rfl, h1] at hs
  cases hs
  refine ⟨⟨h2 ▸ hn, ?_⟩, h2⟩
  intro id c t hc _
  rcases h3 id with h5 | h5
  · rw [h5, h0] at hc; cases hc
  · rw [h5] at hc; cases hc

/-- Only calls which exist are released. -/
theorem releaseAll_out {cause : Cause} (ids : List Nat) {s s' : Cc} {o : List CcOut} (h : CcInv s) (hs : s.releaseAll cause ids = .ok (s', o))
    {p : Party} {id : Nat} {cs : Cause} (hm : .dRelease p id cs ∈ o) : id ∈ ids ∧ ∃ c, s.calls.get id = some c := by
  induction ids generalizing s s' o with
  | nil => cases hs; cases hm
  | cons i ids ih =>
    simp only [Cc.releaseAll, Res.bind_eq_ok] at hs
    obtain ⟨r, h1, q, h2, h3⟩ := hs
    cases h3
    obtain ⟨s1, o1, h1', p1, c1, _⟩ := release_prims h i cause
    rw [h1] at h1'
    cases h1'
    rcases List.mem_append.1 hm with hm | hm
    · cases hc : s.calls.get i with
      | none =>
        rw [release_unknown h hc] at h1
        cases h1; cases hm
      | some c =>
        obtain ⟨s2, e1, _⟩ := release_known h hc cause
        rw [e1] at h1
        cases h1
        unfold endOut at hm
        simp only [List.cons_append, List.nil_append, List.mem_cons, CcOut.dRelease.injEq, reduceCtorEq, false_or] at hm
        rcases hm with ⟨_, rfl, _⟩ | hm
        · exact ⟨List.mem_cons_self, c, hc⟩
        · split at hm
          · split at hm <;> simp at hm
          · cases hm
    · obtain ⟨a1, c, a2⟩ := ih (h.prims p1) h2 hm
      rw [c1, Assoc.get_erase] at a2
      split at a2
      · cases a2
      · exact ⟨List.mem_cons_of_mem _ a1, c, a2⟩

/-- A tick for another timeslot than the first releases calls whose hang time is over. -/
theorem tick_release {s s' : Cc} {now : Time} {o : List CcOut} (hi : CcInv s) (hs : s.step (.tick now) = .ok (s', o)) {p : Party} {id : Nat}
    {cs : Cause} (hm : .dRelease p id cs ∈ o) : now.t = 1 ∨ ∃ c t, s.calls.get id = some c ∧ c.hang = some t ∧ t.age now > 360 := by
  by_cases ht : now.t = 1
  · exact .inl ht
  · right
    simp only [Cc.step, Cc.tick, Mgr.tick, if_neg ht, Res.bind_eq_ok] at hs
    obtain ⟨r, h1, m, h2, q, h3, h4⟩ := hs
    cases h2
    cases h3
    cases h4
    simp only [List.append_nil] at hm
    obtain ⟨h5, c, h6⟩ := releaseAll_out _ (hi.clock now) h1 hm
    obtain ⟨t, h7, h8⟩ := (hangExpired_iff hi now h6).1 h5
    exact ⟨c, t, h6, h7, h8⟩

/-! ## In which timeslot the talker stopped -/

/-- By what a group is told: the timeslot its talker stopped in, as long as nobody else talks. -/
def stops (slot : Nat) (f : Nat → Option Nat) (o : CcOut) : Nat → Option Nat := match o with
  | .dTxCeased (.group _) id _ => fun j => if j = id then some slot else f j
  | .dTxGranted (.group _) id _ _ _ => fun j => if j = id then none else f j
  | _ => f

/-- What was told agrees with the hang times. -/
def Cc.Told (s : Cc) (f : Nat → Option Nat) : Prop := ∀ id c t, s.calls.get id = some c → c.hang = some t → f id = some t.t

theorem Cc.Told.prim {m : Bool} {s s' : Cc} {o : List CcOut} {f : Nat → Option Nat} (h : s.Told f) (hp : Prim s m o s') :
    s'.Told (o.foldl (stops s.now.t) f) := by
  have less : ∀ (id : Nat) (s' : Cc), s'.calls = s.calls.erase id → s'.Told f := by
    intro id s' h2 j d t hj ht
    rw [h2, Assoc.get_erase] at hj
    split at hj
    · cases hj
    · exact h j d t hj ht
  have one : ∀ (id : Nat) (c : Call) (s' : Cc) (f' : Nat → Option Nat), s'.calls = s.calls.insert id c →
      (∀ t, c.hang = some t → f' id = some t.t) → (∀ j, j ≠ id → f' j = f j) → s'.Told f' := by
    intro id c s' f' h2 h3 h4 j d t hj ht
    rw [h2, Assoc.get_insert] at hj
    split at hj
    · rename_i e; subst e; cases hj; exact h3 t ht
    · rename_i e
      rw [h4 j fun e' => e e'.symm]
      exact h j d t hj ht
  cases hp with
  | aside o ha =>
    cases o with
    | dRelease p id c => cases p <;> exact h
    | netCallEnd => exact h
    | _ => cases ha
  | members g l => exact h
  | start a i comm k c p h1 h2 h3 h4 h5 h6 h7 h8 h9 h10 h11 =>
    refine one k.callId c _ _ rfl (fun t ht => by rw [h9] at ht; cases ht) fun j _ => ?_
    unfold startOut
    split
    · split <;> rfl
    · rfl
  | stop id c i cause h1 h2 =>
    have : (endOut s.routable id c cause).foldl (stops s.now.t) f = f := by
      unfold endOut
      split
      · split <;> rfl
      · rfl
    rw [this]
    exact less id _ rfl
  | expire i k h1 h2 =>
    split <;> exact less _ _ rfl
  | cease id c b n h1 h2 h3 =>
    have e : ([CcOut.dTxCeased (.group c.gssi) id c.ts, .macReleased id c.ts] ++ n).foldl (stops s.now.t) f =
        fun j => if j = id then some s.now.t else f j := by
      rcases h3 with ⟨_, rfl⟩ | ⟨_, rfl⟩
      · split <;> rfl
      · rfl
    rw [e]
    exact one id _ _ _ rfl (fun t ht => by cases ht; simp) fun j hj => by simp [hj]
  | grant id c ssi h1 h2 =>
    refine one id _ _ _ rfl (fun t ht => by cases ht) fun j hj => ?_
    split <;> simp [stops, hj]
  | netGrant id c u sp h1 h2 =>
    refine one id _ _ _ rfl (fun t ht => by cases ht) fun j hj => ?_
    simp [stops, hj]
  | announce i k c p h1 h2 h3 h4 => exact h

theorem Cc.Told.prims {m : Bool} {s s' : Cc} {o : List CcOut} {f : Nat → Option Nat} (h : s.Told f) (hp : Prims m s o s') :
    s'.Told (o.foldl (stops s.now.t) f) ∧ s'.now = s.now := by
  induction hp generalizing f with
  | nil => exact ⟨h, rfl⟩
  | @cons s s1 s2 o1 o2 hp _ ih =>
    have hn : s1.now = s.now := by cases hp <;> rfl
    obtain ⟨h3, h4⟩ := ih (h.prim hp)
    rw [List.foldl_append, ← hn]
    rw [hn] at h3 ⊢
    exact ⟨h3, h4.trans hn⟩

/-- The timeslot of the clock when an event is handled. -/
def CcEv.slot (clock : Nat) : CcEv → Nat
  | .tick now => now.t
  | _ => clock

theorem Cc.Told.step {s s' : Cc} {e : CcEv} {o : List CcOut} {f : Nat → Option Nat} (h : s.Told f) (hi : CcInv s)
    (hs : s.step e = .ok (s', o)) : s'.Told (o.foldl (stops (e.slot s.now.t)) f) := by
  obtain ⟨_, h1⟩ := step_ok hi hs
  cases h1 with
  | @tick now o1 o2 s1 s2 _ h2 h3 =>
    have h4 : (s.clock now).Told f := h
    obtain ⟨h5, h6⟩ := h4.prims h2
    have h7 : (s1.mgrClock now).Told (o1.foldl (stops now.t) f) := h5
    obtain ⟨h8, _⟩ := h7.prims h3
    rw [List.foldl_append]
    have : (s1.mgrClock now).now = now := h6
    rw [this] at h8
    exact h8
  | update hp => exact (h.prims hp).1
  | other hne _ hp =>
    have : e.slot s.now.t = s.now.t := by
      cases e with
      | tick now => exact absurd rfl (hne now)
      | _ => rfl
    rw [this]
    exact (h.prims hp).1

/-- No call is released in setting one up. -/
theorem setup_release {s s' : Cc} {caller : Nat} {sup : Bool} {called : Option Nat} {comm : Nat} {o : List CcOut}
    (hs : s.step (.uSetup caller sup called comm) = .ok (s', o)) {p : Party} {id : Nat} {cs : Cause} (hm : .dRelease p id cs ∈ o) : False := by
  simp only [Cc.step, Cc.setup] at hs
  split at hs
  · split at hs
    · cases hs; cases hm
    · split at hs
      · simp only [Res.bind_eq_ok] at hs
        obtain ⟨r, _, hs⟩ := hs
        split at hs
        · cases hs; cases hm
        · simp only [Cc.openLocal, Res.bind_eq_ok] at hs
          obtain ⟨_, _, hs⟩ := hs
          cases hs
          simp at hm
      · cases hs; cases hm
  · cases hs; cases hm

/-- Nor when the talker stops, or somebody asks to talk. -/
theorem ceased_release {s s' : Cc} {ssi i : Nat} {o : List CcOut}
    (hs : s.step (.uTxCeased ssi i) = .ok (s', o)) {p : Party} {id : Nat} {cs : Cause} (hm : .dRelease p id cs ∈ o) : False := by
  simp only [Cc.step, Cc.ceased] at hs
  split at hs
  · cases hs; cases hm
  · split at hs
    · cases hs; cases hm
    · split at hs
      · cases hs; cases hm
      · simp only [Res.bind_eq_ok] at hs
        obtain ⟨_, _, hs⟩ := hs
        cases hs
        simp at hm

theorem demand_release {s s' : Cc} {ssi i : Nat} {o : List CcOut}
    (hs : s.step (.uTxDemand ssi i) = .ok (s', o)) {p : Party} {id : Nat} {cs : Cause} (hm : .dRelease p id cs ∈ o) : False := by
  simp only [Cc.step, Cc.demand] at hs
  split at hs
  · cases hs; cases hm
  · split at hs
    · cases hs; cases hm
    · split at hs
      · cases hs; cases hm
      · simp only [Res.bind_eq_ok] at hs
        obtain ⟨_, _, hs⟩ := hs
        cases hs
        simp at hm

end Verif.Cmce
