import Verif.Umac.UlSchedProps
/-!
# C21, C22 — uplink capacity over whole histories

The specification (opportunities, what a grant gives to a station, the grants of a history) is at the top of
`UlSchedProps.lean`.
-/
namespace Verif.Umac
open Verif.Tdma

/-- Requests as the upper MAC makes them: on one of the four timeslots, with a reservation requirement of at
most 68 slots. -/
def UlEv.Fine : UlEv → Prop
  | .tick => True
  | .req t _ code => 1 ≤ t ∧ t ≤ 4 ∧ code ≤ 14

/-- What the table says, in terms of the grants given. -/
structure UlInv (n : Int) (u : UlTable) (gs : List Given) : Prop where
  own1 : ∀ x, window (n - 2) x → ∀ s, (u.at x).ul1 = some s ↔ ∃ g ∈ gs, g.ssi = s ∧ g.covers x false
  own2 : ∀ x, window (n - 2) x → ∀ s, (u.at x).ul2 = some s ↔ ∃ g ∈ gs, g.ssi = s ∧ g.covers x true
  order : ∀ x, window (n - 2) x → (u.at x).ul2.isSome = true → (u.at x).ul1.isSome = true
  near : ∀ g ∈ gs, ∀ x b, g.covers x b → x ≤ n + 67
  excl : gs.Pairwise fun g h => ∀ x b, ¬ (g.covers x b ∧ h.covers x b)

theorem UlInv.start (n : Int) : UlInv n .empty [] :=
  ⟨by simp [UlTable.at, UlTable.empty], by simp [UlTable.at, UlTable.empty], by simp [UlTable.at, UlTable.empty], by simp, .nil⟩

theorem clearUl_spec (u : UlTable) (n : Int) : clearUl u (fromInt (n + 2)) = .ok (u.put (slot (n - 2)) (pos (n - 2)) ⟨none, none⟩) := by
  unfold clearUl
  rw [fromInt_add _ _ (by omega) (by omega), Res.bind_ok, schedIndex_fromInt, Res.bind_ok, idx_fromInt, Res.bind_ok]
  have h1 : slot (n + 2) = slot (n - 2) := by simp only [slot, Fin.mk.injEq]; omega
  rw [h1, show n + 2 + -4 = n - 2 by omega]

theorem UlInv.tick {n : Int} {u : UlTable} {gs : List Given} (h : UlInv n u gs) :
    UlInv (n + 1) (u.put (slot (n - 2)) (pos (n - 2)) ⟨none, none⟩) gs := by
  obtain ⟨o1, o2, o3, hn, he⟩ := h
  have hat : ∀ x, window (n + 1 - 2) x →
      (x = n + 70 ∧ (u.put (slot (n - 2)) (pos (n - 2)) ⟨none, none⟩).at x = ⟨none, none⟩) ∨
      (window (n - 2) x ∧ (u.put (slot (n - 2)) (pos (n - 2)) ⟨none, none⟩).at x = u.at x) := by
    intro x ⟨h1, h2⟩
    by_cases hx : x = n + 70
    · left
      refine ⟨hx, ?_⟩
      have e1 : slot x = slot (n - 2) := by simp only [slot, Fin.mk.injEq]; omega
      have e2 : pos x = pos (n - 2) := by simp only [pos, Fin.mk.injEq]; omega
      unfold UlTable.at UlTable.put
      rw [e1, e2]; simp
    · right
      refine ⟨⟨by omega, by omega⟩, ?_⟩
      rw [at_put _ _ _ _ (by omega) (by omega), if_neg (by omega)]
  refine ⟨?_, ?_, ?_, ?_, he⟩
  · intro x hx s
    rcases hat x hx with ⟨rfl, e⟩ | ⟨hw, e⟩
    · rw [e]
      simp only [reduceCtorEq, false_iff]
      rintro ⟨g, hg, _, hc⟩
      have := hn g hg _ _ hc
      omega
    · rw [e]; exact o1 x hw s
  · intro x hx s
    rcases hat x hx with ⟨rfl, e⟩ | ⟨hw, e⟩
    · rw [e]
      simp only [reduceCtorEq, false_iff]
      rintro ⟨g, hg, _, hc⟩
      have := hn g hg _ _ hc
      omega
    · rw [e]; exact o2 x hw s
  · intro x hx
    rcases hat x hx with ⟨rfl, e⟩ | ⟨hw, e⟩
    · rw [e]; simp
    · rw [e]; exact o3 x hw
  · intro g hg x b hc
    have := hn g hg x b hc
    omega

theorem UlInv.req {n : Int} {u u' : UlTable} {gs : List Given} {t ssi req : Nat} {g : SlotGrant} (h : UlInv n u gs)
    (hs : Served u u' n t ssi req g) : UlInv n u' (gs ++ [⟨n, t, ssi, g⟩]) := by
  obtain ⟨o1, o2, o3, hn, he⟩ := h
  obtain ⟨_, _, s1, _, s2, s3, s4, s5, s6, _⟩ := hs
  have hwin : ∀ x b, Given.covers ⟨n, t, ssi, g⟩ x b → window (n - 2) x := by
    intro x b hc
    have h1 := s1 x b hc
    have h2 : n ≤ x := hc.1.1
    exact ⟨by omega, by omega⟩
  refine ⟨?_, ?_, s6, ?_, ?_⟩
  · intro x hx s
    by_cases hc : Given.covers ⟨n, t, ssi, g⟩ x false
    · obtain ⟨f, e⟩ := s2 x hx hc
      rw [e]
      constructor
      · rintro ⟨⟩; exact ⟨_, List.mem_append_right _ List.mem_cons_self, rfl, hc⟩
      · rintro ⟨g', hg', rfl, hc'⟩
        rcases List.mem_append.1 hg' with hg' | hg'
        · have := (o1 x hx g'.ssi).2 ⟨g', hg', rfl, hc'⟩
          rw [f] at this; cases this
        · rw [List.mem_singleton] at hg'; subst hg'; rfl
    · rw [s3 x hx hc, o1 x hx s]
      constructor
      · rintro ⟨g', hg', h⟩; exact ⟨g', List.mem_append_left _ hg', h⟩
      · rintro ⟨g', hg', rfl, hc'⟩
        rcases List.mem_append.1 hg' with hg' | hg'
        · exact ⟨g', hg', rfl, hc'⟩
        · rw [List.mem_singleton] at hg'; subst hg'; exact absurd hc' hc
  · intro x hx s
    by_cases hc : Given.covers ⟨n, t, ssi, g⟩ x true
    · obtain ⟨f, e⟩ := s4 x hx hc
      rw [e]
      constructor
      · rintro ⟨⟩; exact ⟨_, List.mem_append_right _ List.mem_cons_self, rfl, hc⟩
      · rintro ⟨g', hg', rfl, hc'⟩
        rcases List.mem_append.1 hg' with hg' | hg'
        · have := (o2 x hx g'.ssi).2 ⟨g', hg', rfl, hc'⟩
          rw [f] at this; cases this
        · rw [List.mem_singleton] at hg'; subst hg'; rfl
    · rw [s5 x hx hc, o2 x hx s]
      constructor
      · rintro ⟨g', hg', h⟩; exact ⟨g', List.mem_append_left _ hg', h⟩
      · rintro ⟨g', hg', rfl, hc'⟩
        rcases List.mem_append.1 hg' with hg' | hg'
        · exact ⟨g', hg', rfl, hc'⟩
        · rw [List.mem_singleton] at hg'; subst hg'; exact absurd hc' hc
  · intro g' hg'
    rcases List.mem_append.1 hg' with hg' | hg'
    · exact hn g' hg'
    · rw [List.mem_singleton] at hg'; subst hg'; exact s1
  · rw [List.pairwise_append]
    refine ⟨he, List.pairwise_singleton _ _, ?_⟩
    intro g' hg' h' hh' x b ⟨c1, c2⟩
    rw [List.mem_singleton] at hh'
    subst hh'
    have hw := hwin x b c2
    cases b with
    | false =>
      have h1 := (o1 x hw g'.ssi).2 ⟨g', hg', rfl, c1⟩
      rw [(s2 x hw c2).1] at h1; cases h1
    | true =>
      have h1 := (o2 x hw g'.ssi).2 ⟨g', hg', rfl, c1⟩
      rw [(s4 x hw c2).1] at h1; cases h1

/-- One event: it does not abort, and the table keeps saying what was granted. -/
theorem step_inv (n : Int) (u : UlTable) (gs : List Given) (h : UlInv n u gs) (e : UlEv) (he : e.Fine) :
    ∃ u' o, (UlState.mk (fromInt n) u).step e = .ok (⟨fromInt (ulClock n [(e, o)]), u'⟩, o) ∧
      UlInv (ulClock n [(e, o)]) u' (gs ++ given n [(e, o)]) ∧ (e = .tick → o = none) := by
  cases e with
  | tick =>
    refine ⟨u.put (slot (n - 2)) (pos (n - 2)) ⟨none, none⟩, none, ?_, by simpa [ulClock, given] using h.tick, fun _ => rfl⟩
    · simp only [UlState.step, UlState.tick]
      rw [fromInt_add _ _ (by omega) (by omega), Res.bind_ok, fromInt_add _ _ (by omega) (by omega), Res.bind_ok,
        show n + 1 + 1 = n + 2 by omega, clearUl_spec]
      rfl
  | req t ssi code =>
    obtain ⟨h1, h2, h3⟩ := he
    obtain ⟨u', g, e1, hno, hyes⟩ := processCapReq_spec u n t ssi code h1 h2 h3 h.order
    refine ⟨u', g, ?_, ?_, by simp⟩
    · simp only [UlState.step]
      rw [e1]
      rfl
    · cases g with
      | none => rw [(hno rfl).1]; simpa [ulClock, given] using h
      | some g => simpa [ulClock, given] using h.req (hyes g rfl)

theorem clock_cons (n : Int) (p : UlEv × Option SlotGrant) (tr : List (UlEv × Option SlotGrant)) :
    ulClock n (p :: tr) = ulClock (ulClock n [p]) tr := by
  obtain ⟨e, o⟩ := p
  cases e <;> rfl

theorem given_cons (n : Int) (p : UlEv × Option SlotGrant) (tr : List (UlEv × Option SlotGrant)) :
    given n (p :: tr) = given n [p] ++ given (ulClock n [p]) tr := by
  obtain ⟨e, o⟩ := p
  cases e <;> cases o <;> rfl

theorem run_inv (es : List UlEv) (n : Int) (u : UlTable) (gs : List Given) (h : UlInv n u gs) (he : ∀ e ∈ es, e.Fine) :
    ∃ u' tr, (UlState.mk (fromInt n) u).run es = .ok (⟨fromInt (ulClock n tr), u'⟩, tr) ∧ tr.map Prod.fst = es ∧
      UlInv (ulClock n tr) u' (gs ++ given n tr) := by
  induction es generalizing n u gs with
  | nil => exact ⟨u, [], rfl, rfl, by simpa [given, ulClock] using h⟩
  | cons e es ih =>
    obtain ⟨u1, o, e1, h1, _⟩ := step_inv n u gs h e (he e List.mem_cons_self)
    obtain ⟨u2, tr, e2, e3, h2⟩ := ih _ u1 _ h1 (fun e' h' => he e' (List.mem_cons_of_mem _ h'))
    refine ⟨u2, (e, o) :: tr, ?_, by simp [e3], ?_⟩
    · rw [UlState.run, e1, Res.bind_ok, e2, Res.bind_ok, clock_cons n (e, o) tr]
    · rw [given_cons, clock_cons, ← List.append_assoc]; exact h2

/-! ## C21 -/

/-- A history from any start time: what it returned, given that it did not abort. -/
theorem history {x0 : Time} (hx : x0.valid) {es : List UlEv} (he : ∀ e ∈ es, e.Fine) {s : UlState} {tr : List (UlEv × Option SlotGrant)}
    (h : (UlState.start x0).run es = .ok (s, tr)) :
    s.cur = fromInt (ulClock x0.toInt tr) ∧ tr.map Prod.fst = es ∧ UlInv (ulClock x0.toInt tr) s.table (given x0.toInt tr) := by
  have := run_inv es x0.toInt .empty [] (UlInv.start _) he
  rw [fromInt_toInt hx] at this
  obtain ⟨u, tr', e1, e2, e3⟩ := this
  unfold UlState.start at h
  rw [h] at e1
  cases e1
  exact ⟨rfl, e2, by simpa using e3⟩

/-- **C21.** Whatever happened, no half slot was given to two stations, nor twice to one: of any two grants of
a history, no half slot is covered by both. -/
theorem c21_exclusive (x0 : Time) (hx : x0.valid) (es : List UlEv) (he : ∀ e ∈ es, e.Fine) (s : UlState)
    (tr : List (UlEv × Option SlotGrant)) (h : (UlState.start x0).run es = .ok (s, tr)) :
    (given x0.toInt tr).Pairwise fun g g' => ∀ x b, ¬ (g.covers x b ∧ g'.covers x b) :=
  (history hx he h).2.2.excl

/-- **C21.** The scheduler attributes a half slot, from two slots ago until 69 slots ahead, to the station it
granted it to, and to nobody if it was not granted. -/
theorem c21_owner (x0 : Time) (hx : x0.valid) (es : List UlEv) (he : ∀ e ∈ es, e.Fine) (s : UlState)
    (tr : List (UlEv × Option SlotGrant)) (h : (UlState.start x0).run es = .ok (s, tr))
    (x : Int) (h1 : ulClock x0.toInt tr - 2 ≤ x) (h2 : x ≤ ulClock x0.toInt tr + 69) :
    (∃ o, slotOwner s.table (fromInt x) .block1 = .ok o ∧
      ∀ ssi, o = some ssi ↔ ∃ g ∈ given x0.toInt tr, g.ssi = ssi ∧ g.covers x false) ∧
    (∃ o, slotOwner s.table (fromInt x) .block2 = .ok o ∧
      ∀ ssi, o = some ssi ↔ ∃ g ∈ given x0.toInt tr, g.ssi = ssi ∧ g.covers x true) := by
  obtain ⟨_, _, hi⟩ := history hx he h
  have hw : window (ulClock x0.toInt tr - 2) x := ⟨h1, by omega⟩
  unfold slotOwner
  rw [idx_fromInt, schedIndex_fromInt]
  exact ⟨⟨_, rfl, hi.own1 x hw⟩, ⟨_, rfl, hi.own2 x hw⟩⟩

/-- **C21.** A full-slot burst is attributed to the station which owns both halves. -/
theorem c21_owner_full (x0 : Time) (hx : x0.valid) (es : List UlEv) (he : ∀ e ∈ es, e.Fine) (s : UlState)
    (tr : List (UlEv × Option SlotGrant)) (h : (UlState.start x0).run es = .ok (s, tr))
    (x : Int) (h1 : ulClock x0.toInt tr - 2 ≤ x) (h2 : x ≤ ulClock x0.toInt tr + 69) :
    ∃ o, slotOwner s.table (fromInt x) .both = .ok o ∧
      ∀ ssi, o = some ssi ↔ (∃ g ∈ given x0.toInt tr, g.ssi = ssi ∧ g.covers x false) ∧
        (∃ g ∈ given x0.toInt tr, g.ssi = ssi ∧ g.covers x true) := by
  obtain ⟨_, _, hi⟩ := history hx he h
  have hw : window (ulClock x0.toInt tr - 2) x := ⟨h1, by omega⟩
  unfold slotOwner
  rw [idx_fromInt, schedIndex_fromInt]
  refine ⟨_, rfl, fun ssi => ?_⟩
  rw [← hi.own1 x hw ssi, ← hi.own2 x hw ssi]
  change (if (s.table.at x).ul1 = (s.table.at x).ul2 then (s.table.at x).ul1 else none) = some ssi ↔ _
  split
  · rename_i e; rw [← e]; simp
  · rename_i e
    simp only [reduceCtorEq, false_iff]
    rintro ⟨e1, e2⟩; exact e (by rw [e1, e2])

/-- **C21.** After any history a request for at most 68 slots is answered without aborting. If it is granted:
the grant has the size asked for; it covers something; everything it covers was free, lies at or after the
present slot and at most 67 slots ahead, and none of it is a common-linearization slot (`covers`); and no
smaller delay would have done, as each shorter delay would have hit an occupied slot. If it is refused, then
every run of opportunities of that length in the next 17 frames has an occupied slot. (For a half slot,
"occupied" means that both halves are.) -/
theorem c21_grant (x0 : Time) (hx : x0.valid) (es : List UlEv) (he : ∀ e ∈ es, e.Fine) (s : UlState)
    (tr : List (UlEv × Option SlotGrant)) (h : (UlState.start x0).run es = .ok (s, tr))
    (t ssi code : Nat) (h1 : 1 ≤ t) (h2 : t ≤ 4) (h3 : code ≤ 14) :
    let now := ulClock x0.toInt tr
    let taken (x : Int) (b : Bool) := ∃ g ∈ given x0.toInt tr, g.covers x b
    let occupied (x : Int) := if code = 0 then taken x false ∧ taken x true else taken x false ∨ taken x true
    ∃ s' o, s.step (.req t ssi code) = .ok (s', o) ∧
      (∀ g, o = some g →
        (g.capAlloc = code ∨ code = 0 ∧ g.capAlloc = 15) ∧
        (∃ x b, Given.covers ⟨now, t, ssi, g⟩ x b) ∧
        (∀ x b, Given.covers ⟨now, t, ssi, g⟩ x b → ¬ taken x b ∧ now ≤ x ∧ x ≤ now + 67 ∧ isClch x = false) ∧
        (∀ d, d < g.delay.opps → ∃ x, inRun t now d (capSlots code) x ∧ occupied x)) ∧
      (o = none → ∀ d, d + capSlots code ≤ oppsIn t now 68 → ∃ x, inRun t now d (capSlots code) x ∧ occupied x) := by
  intro now taken occupied
  obtain ⟨hc, _, hi⟩ := history hx he h
  obtain ⟨u', g, e1, hno, hyes⟩ := processCapReq_spec s.table now t ssi code h1 h2 h3 hi.order
  have hocc : ∀ x, now ≤ x → x < now + 70 → (s.table.at x).free (decide (code = 0)) = false → occupied x := by
    intro x hx1 hx2 hf
    have hw : window (now - 2) x := ⟨by omega, by omega⟩
    have o1 := hi.own1 x hw
    have o2 := hi.own2 x hw
    have t1 : ∀ ssi, (s.table.at x).ul1 = some ssi → taken x false := by
      intro ssi e
      obtain ⟨g, hg, _, hc⟩ := (o1 ssi).1 e
      exact ⟨g, hg, hc⟩
    have t2 : ∀ ssi, (s.table.at x).ul2 = some ssi → taken x true := by
      intro ssi e
      obtain ⟨g, hg, _, hc⟩ := (o2 ssi).1 e
      exact ⟨g, hg, hc⟩
    cases e1 : (s.table.at x).ul1 with
    | none =>
      cases e2 : (s.table.at x).ul2 with
      | none => simp [UlElem.free, e1, e2] at hf
      | some b =>
        by_cases hcode : code = 0
        · simp [UlElem.free, e1, e2, hcode] at hf
        · change if code = 0 then _ else _
          rw [if_neg hcode]; exact .inr (t2 b e2)
    | some a =>
      cases e2 : (s.table.at x).ul2 with
      | none =>
        by_cases hcode : code = 0
        · simp [UlElem.free, e1, e2, hcode] at hf
        · change if code = 0 then _ else _
          rw [if_neg hcode]; exact .inl (t1 a e1)
      | some b =>
        change if code = 0 then _ else _
        split
        · exact ⟨t1 a e1, t2 b e2⟩
        · exact .inl (t1 a e1)
  refine ⟨⟨s.cur, u'⟩, g, ?_, ?_, ?_⟩
  · simp only [UlState.step]; rw [hc, e1]; rfl
  · intro g' hg'
    have hs := hyes g' hg'
    refine ⟨hs.cap, hs.some_, ?_, ?_⟩
    · intro x b hcov
      have hx1 : now ≤ x := hcov.1.1
      have hx2 := hs.near x b hcov
      have hw : window (now - 2) x := ⟨by omega, by omega⟩
      refine ⟨?_, hx1, hx2, ?_⟩
      · rintro ⟨g2, hg2, hc2⟩
        cases b with
        | false =>
          have := (hi.own1 x hw g2.ssi).2 ⟨g2, hg2, rfl, hc2⟩
          rw [(hs.new1 x hw hcov).1] at this; cases this
        | true =>
          have := (hi.own2 x hw g2.ssi).2 ⟨g2, hg2, rfl, hc2⟩
          rw [(hs.new2 x hw hcov).1] at this; cases this
      · have := hcov.1.2.1
        unfold isOpp at this
        simp only [Bool.and_eq_true, Bool.not_eq_true'] at this
        exact this.2
    · intro d hd
      obtain ⟨x, a1, a2, a3, a4⟩ := hs.earliest d hd
      exact ⟨x, a1, hocc x a2 a3 a4⟩
  · intro hn d hd
    obtain ⟨x, a1, a2, a3, a4⟩ := (hno hn).2 d hd
    exact ⟨x, a1, hocc x a2 a3 a4⟩

/-- **C21.** No history of requests for at most 68 slots aborts. -/
theorem c21_total_partial (x0 : Time) (hx : x0.valid) (es : List UlEv) (he : ∀ e ∈ es, e.Fine) :
    ∃ r, (UlState.start x0).run es = .ok r := by
  have := run_inv es x0.toInt .empty [] (UlInv.start _) he
  rw [fromInt_toInt hx] at this
  obtain ⟨u, tr', e1, e2, e3⟩ := this
  exact ⟨_, e1⟩

/-- **C21, the delay counts from the slot which carries the grant.** A burst received in uplink slot `n - 2` is
processed at slot `n` and its grant goes out in the next downlink slot with that number, `n + 2`. Counting the
opportunities from slot `n` or from slot `n + 2` on gives the same half slots. -/
theorem c21_counted_from_grant (n : Int) (t ssi : Nat) (ht : (n - 2) % 4 + 1 = t) (g : SlotGrant) (x : Int) (b : Bool) :
    Given.covers ⟨n, t, ssi, g⟩ x b ↔ Given.covers ⟨n + 2, t, ssi, g⟩ x b := by
  have hf0 : isOpp t (n + 0) = false := isOpp_false (by omega)
  have hf1 : isOpp t (n + 1) = false := isOpp_false (by omega)
  have hk : ∀ k : Nat, oppsIn t n (k + 2) = oppsIn t (n + 2) k := by
    intro k
    induction k with
    | zero => simp [oppsIn, hf1]; exact isOpp_false (by omega)
    | succ k ih =>
      have e : oppsIn t n (k + 1 + 2) = oppsIn t n (k + 2) + if isOpp t (n + ((k + 2 : Nat) : Int)) then 1 else 0 := rfl
      rw [e, ih, oppsIn, show n + ((k + 2 : Nat) : Int) = n + 2 + k by omega]
  unfold Given.covers inRun
  by_cases ho : isOpp t x = true
  · have hm := isOpp_mod ho
    by_cases hx : n ≤ x
    · have hx2 : n + 2 ≤ x := by omega
      have := hk (x - (n + 2)).toNat
      rw [show (x - (n + 2)).toNat + 2 = (x - n).toNat by omega] at this
      simp only [this, hx, hx2]
    · have hx2 : ¬ n + 2 ≤ x := by omega
      simp [hx, hx2]
  · simp [ho]

/-! ## Findings -/

/-- **C21 is violated for very large requests.** A reservation requirement of more than 68 slots, code 15 of
the four-bit field a station sends, aborts the base station, in every state. -/
theorem c21_over_68_aborts (s : UlState) (t ssi : Nat) : s.step (.req t ssi 15) = .panic := rfl

/-- The history in which 14 stations ask for one slot each at once. -/
def crowd (k : Nat) : List UlEv := (List.range k).map fun i => .req 3 (100 + i) 1

/-- What the last request of a history got. -/
def lastGrant (r : Res (UlState × List (UlEv × Option SlotGrant))) : Option SlotGrant :=
  match r with
  | .ok (_, tr) => match tr.getLast? with
    | some (_, g) => g
    | none => none
  | .panic => none

/-- **C21 is violated when 14 opportunities are taken.** The 15th, 16th and 17th of the stations are told to
let 14, 15 and 16 opportunities pass. On the air the number 14 means "in frame 18" and 15 means "wait for
another grant", so these stations do not use the slots reserved for them; 16 does not fit the field and
aborts the base station when the grant is sent. -/
theorem c21_delay_not_expressible :
    lastGrant ((UlState.start .default).run (crowd 15)) = some ⟨1, .delay 14⟩ ∧
    GrantDelay.ofRaw (GrantDelay.delay 14).raw = .inFrame18 ∧
    lastGrant ((UlState.start .default).run (crowd 16)) = some ⟨1, .delay 15⟩ ∧
    GrantDelay.ofRaw (GrantDelay.delay 15).raw = .waitForAnother ∧
    lastGrant ((UlState.start .default).run (crowd 17)) = some ⟨1, .delay 16⟩ ∧
    SlotGrant.enc ⟨1, .delay 16⟩ = .panic := by
  decide +kernel

/-- **C21, what the station understands.** A grant with a delay of at most 13 is understood by the station as
it was meant: the code on the air stands for the same number of opportunities. -/
theorem c21_delay_partial (g : SlotGrant) (k : Nat) (hk : k ≤ 13)
    (h : g.delay = if k = 0 then GrantDelay.nextOpportunity else GrantDelay.delay k) :
    GrantDelay.ofRaw g.delay.raw = g.delay := by
  rw [h]
  by_cases h0 : k = 0
  · subst h0; rfl
  · rw [if_neg h0]
    have h1 : k ≠ 14 := by omega
    have h2 : k ≠ 15 := by omega
    simp [GrantDelay.raw, GrantDelay.ofRaw, h0, h1, h2]

/-! ## C22 -/

/-- **C22.** The uplink usage of a slot says "assigned" exactly for the half slots granted to some station and
"random access" for the others. Asking for it never aborts, for the slots from two ago to 69 ahead. -/
theorem c22_usage (x0 : Time) (hx : x0.valid) (es : List UlEv) (he : ∀ e ∈ es, e.Fine) (s : UlState)
    (tr : List (UlEv × Option SlotGrant)) (h : (UlState.start x0).run es = .ok (s, tr))
    (x : Int) (h1 : ulClock x0.toInt tr - 2 ≤ x) (h2 : x ≤ ulClock x0.toInt tr + 69) :
    ∃ u, ulUsage s.table (fromInt x) = .ok u ∧
      ((u = .assignedOnly ∨ u = .commonAndAssigned) ↔ ∃ g ∈ given x0.toInt tr, g.covers x false) ∧
      (u = .assignedOnly ↔ ∃ g ∈ given x0.toInt tr, g.covers x true) ∧
      (u = .commonOnly ↔ ∀ g ∈ given x0.toInt tr, ∀ b, ¬ g.covers x b) := by
  obtain ⟨_, _, hi⟩ := history hx he h
  have hw : window (ulClock x0.toInt tr - 2) x := ⟨h1, by omega⟩
  have o1 := hi.own1 x hw
  have o2 := hi.own2 x hw
  have o3 := hi.order x hw
  have some1 : (∃ a, (s.table.at x).ul1 = some a) ↔ ∃ g ∈ given x0.toInt tr, g.covers x false := by
    constructor
    · rintro ⟨a, e⟩; obtain ⟨g, hg, _, hc⟩ := (o1 a).1 e; exact ⟨g, hg, hc⟩
    · rintro ⟨g, hg, hc⟩; exact ⟨_, (o1 g.ssi).2 ⟨g, hg, rfl, hc⟩⟩
  have some2 : (∃ a, (s.table.at x).ul2 = some a) ↔ ∃ g ∈ given x0.toInt tr, g.covers x true := by
    constructor
    · rintro ⟨a, e⟩; obtain ⟨g, hg, _, hc⟩ := (o2 a).1 e; exact ⟨g, hg, hc⟩
    · rintro ⟨g, hg, hc⟩; exact ⟨_, (o2 g.ssi).2 ⟨g, hg, rfl, hc⟩⟩
  have hnone : (∀ g ∈ given x0.toInt tr, ∀ b, ¬ g.covers x b) ↔
      ¬ (∃ g ∈ given x0.toInt tr, g.covers x false) ∧ ¬ (∃ g ∈ given x0.toInt tr, g.covers x true) := by
    constructor
    · intro h; exact ⟨fun ⟨g, hg, hc⟩ => h g hg _ hc, fun ⟨g, hg, hc⟩ => h g hg _ hc⟩
    · rintro ⟨a1, a2⟩ g hg b hc
      cases b
      · exact a1 ⟨g, hg, hc⟩
      · exact a2 ⟨g, hg, hc⟩
  rw [hnone, ← some1, ← some2]
  unfold ulUsage
  rw [idx_fromInt, schedIndex_fromInt, Res.bind_ok, Res.bind_ok]
  rw [show s.table (slot x) (pos x) = s.table.at x from rfl]
  cases e1 : (s.table.at x).ul1 with
  | none =>
    cases e2 : (s.table.at x).ul2 with
    | none => exact ⟨_, rfl, by simp, by simp, by simp⟩
    | some b => rw [e1, e2] at o3; simp at o3
  | some a =>
    cases e2 : (s.table.at x).ul2 with
    | none => exact ⟨_, rfl, by simp, by simp, by simp⟩
    | some b => exact ⟨_, rfl, by simp, by simp, by simp⟩

/-! ## Non-vacuity -/

/-- Ticks and requests of several sizes, over a frame-18 boundary. -/
def sampleUl : List UlEv := [.req 1 7 0, .req 1 8 0, .req 1 9 3, .tick, .tick, .req 3 7 2, .tick, .req 1 9 12]

example : (∀ e ∈ sampleUl, e.Fine) ∧ ∃ s, (UlState.start ⟨1, 16, 2, 0⟩).run sampleUl = .ok s ∧
    s.2.map Prod.snd = [some ⟨0, .nextOpportunity⟩, some ⟨15, .nextOpportunity⟩, some ⟨3, .delay 1⟩, none, none,
      some ⟨2, .nextOpportunity⟩, none, none] := by
  refine ⟨by simp [sampleUl, UlEv.Fine], ?_⟩
  cases h : (UlState.start ⟨1, 16, 2, 0⟩).run sampleUl with
  | panic =>
    obtain ⟨r, hr⟩ := c21_total_partial ⟨1, 16, 2, 0⟩ (by decide) sampleUl (by simp [sampleUl, UlEv.Fine])
    rw [h] at hr; cases hr
  | ok r =>
    refine ⟨r, rfl, ?_⟩
    have : (match (UlState.start ⟨1, 16, 2, 0⟩).run sampleUl with
      | .ok r => r.2.map Prod.snd
      | .panic => []) = [some ⟨0, .nextOpportunity⟩, some ⟨15, .nextOpportunity⟩, some ⟨3, .delay 1⟩, none, none,
      some ⟨2, .nextOpportunity⟩, none, none] := by decide +kernel
    rw [h] at this
    exact this

end Verif.Umac
