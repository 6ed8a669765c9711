import Verif.Phy.LoopProps
import Verif.Umac.UmacWatchProps
/-!
# C91: scripts for the sample cell, and where voice comes late
-/
namespace Verif.Phy
open Verif.Umac Verif.Tdma Verif.Codec Verif.ErrorControl

variable {brew : Bool} {carrier : Nat} {x : Time} {scramb : Nat} {wide : Bool} {code : BitVec 32} {cfg : CellCfg} {pre : Precomps}

/-! ## A station speaks -/

/-- A burst with one block at the beginning of a slot. -/
def voiceAir (t : List Bool) : List Bool := (silence 4 ++ t.take 216) ++ seqN ++ (t.drop 216 ++ silence 52)

theorem voiceAir_length {t : List Bool} (ht : t.length = 432) : (voiceAir t).length = 510 := by
  simp [voiceAir, silence, ht, seq_lens]

theorem voiceAir_spot {t : List Bool} (ht : t.length = 432) : Spot (voiceAir t) seqN 220 48 0 := spot_start (by simp [silence, ht])

theorem voiceAir_bits {t : List Bool} (ht : t.length = 432) : normHalf1 (voiceAir t) 0 ++ normHalf2 (voiceAir t) 0 = t := by
  have h1 : cut (voiceAir t) 4 216 = t.take 216 := by
    unfold cut voiceAir silence
    rw [List.append_assoc, List.append_assoc, List.drop_left' (by simp), List.take_append_of_le_length (by simp [ht])]
    simp [ht]
  have h2 : cut (voiceAir t) 242 216 = t.drop 216 := by
    unfold cut voiceAir
    rw [List.drop_left' (by simp [silence, ht, seq_lens]), List.take_append_of_le_length (by simp [ht])]
    exact List.take_of_length_le (by simp [ht])
  unfold normHalf1 normHalf2
  simp only [Nat.zero_add]
  rw [h1, h2, List.take_append_drop]

/-- A station speaks in a slot given to it, and nothing else is in the air. -/
theorem voice_alone (hx : x.valid) {h : List (CellEv × CellOut)} {c : Cell} (hr : CellRun ⟨.init brew carrier x scramb wide pre, .init code⟩ h c)
    (hf : Fresh h) {l : List DlSlot} {o o1 o2 o3 : DlSlot} (hs : sentOf h = l ++ [o, o1, o2, o3]) (ho : o.ulPhy = .tp) {m t : List Bool}
    (hm : m.length = 274) (ht : encodeTp m code 1 = .ok t) :
    Air.Sized ⟨voiceAir t, silence 254, silence 254⟩ ∧ ∃ c' out, c.up ⟨voiceAir t, silence 254, silence 254⟩ = .ok (c', [(.voiceUp o.ts.t (m.map Bool.toNat), out)]) := by
  obtain ⟨t', e1, e2, e3⟩ := c15_roundtrip m hm code
  rw [ht] at e1; cases e1
  have sized : Air.Sized ⟨voiceAir t, silence 254, silence 254⟩ := ⟨voiceAir_length e2, silence_length 254, silence_length 254⟩
  refine ⟨sized, ?_⟩
  have none : ∀ ch d, ¬ Carried code (o.ulPhy == .tp) ⟨voiceAir t, silence 254, silence 254⟩ ch d := by
    intro ch d hc
    cases hc with
    | sub rx p d hrx S =>
      rcases hrx with rfl | rfl <;> exact absurd silent_sub S.not
    | full p d h => rw [ho] at h; cases h
    | half1 p d N => exact absurd N (voiceAir_spot e2).not
    | half2 p d1 d N => exact absurd N (voiceAir_spot e2).not
  obtain ⟨⟨c', calls⟩, hu⟩ := c68_partial hx hr hf hs sized (fun ch d hc => absurd hc (none ch d)) (fun ch d hc => absurd hc (none ch d))
  obtain ⟨f, y, z, v, rfl, h1, h2, h3⟩ := c67_exact hx hr hf hs sized hu
  have sub : ∀ {q : Calls}, SubHeard code o.ts (silence 254) (q.map Prod.fst) → q = [] := by
    intro q hq
    cases h3' : q.map Prod.fst with
    | nil => simpa using h3'
    | cons e z' =>
      rw [h3'] at hq
      cases hq with
      | good p d S => exact absurd silent_sub S.not
  obtain rfl := sub h2
  obtain rfl := sub h3
  generalize hv : v.map Prod.fst = v' at h1
  cases h1 with
  | silent N => exact absurd N (voiceAir_spot e2).not
  | bad p d h => rw [ho] at h; cases h
  | good p d out h => rw [ho] at h; cases h
  | halves p d1 d2 ok1 ok2 x1 x2 N => exact absurd N (voiceAir_spot e2).not
  | voice p d ok _ S hd =>
    rw [Spot.unique S (voiceAir_spot e2), voiceAir_bits e2, e3] at hd
    cases hd
    cases v with
    | nil => cases hv
    | cons q v =>
      simp only [List.map_cons, List.cons.injEq, List.map_eq_nil_iff] at hv
      obtain ⟨hv, rfl⟩ := hv
      refine ⟨c', q.2, ?_⟩
      rw [hu, ← hv]; rfl

/-! ## Scripts -/

/-- A story of the sample cell. -/
inductive Act where
  /-- the next slot -/
  | down
  /-- an order of call control -/
  | order (m : MacCtl)
  /-- voice from the network -/
  | hand (ts : Nat) (b : Block)
  /-- a station speaks -/
  | speak (ts : Nat) (m : List Bool)

/-- What the upper MAC sees of it. -/
def Act.umac : Act → UmacEv
  | .down => .tick true
  | .order m => .control m
  | .hand ts b => .voiceDown ts b
  | .speak ts m => .voiceUp ts (m.map Bool.toNat)

/-- The frame of voice as it is sent. -/
def coded (m : List Bool) : List Bool := match encodeTp m 864282631#32 1 with
  | .ok t => t
  | .panic => []

/-- What the radio side sees of it. -/
def Act.cell : Act → CellEv
  | .down => .down true
  | .order m => .control m
  | .hand ts b => .voice ts b
  | .speak _ m => .up ⟨voiceAir (coded m), silence 254, silence 254⟩

/-- A station can speak if the slot is traffic and nothing has been received in it. -/
def Act.ready (cs : Calls) (fresh : Bool) : Act → Bool
  | .speak ts m => fresh && decide (m.length = 274) && match (cs.flatMap fun p => slotsOut p.2).reverse with
    | _ :: _ :: _ :: o :: _ => o.ulPhy == .tp && decide (o.ts.t = ts)
    | _ => false
  | _ => true

/-- Nothing received in this slot. -/
def Act.fresh (b : Bool) : Act → Bool
  | .down => true
  | .speak _ _ => false
  | _ => b

/-- The upper MAC through a story: its state and its answers. -/
def play : UmacBs → Calls → Bool → List Act → Option (UmacBs × Calls)
  | s, _, _, [] => some (s, [])
  | s, cs, fresh, a :: as => if a.ready cs fresh then match s.step a.umac with
      | .ok r => match play r.1 (cs ++ [(a.umac, r.2)]) (a.fresh fresh) as with
        | some q => some (q.1, (a.umac, r.2) :: q.2)
        | none => none
      | _ => none
    else none

theorem sample_valid : sampleTime.valid := by unfold Time.valid; decide
theorem sample_inRange : sampleCfg.InRange := by unfold CellCfg.InRange; decide

theorem play_log : ∀ {as : List Act} {s : UmacBs} {cs : Calls} {b : Bool} {q : UmacBs × Calls}, play s cs b as = some q → ∃ l, q.1.log = s.log ++ l
  | [], s, cs, b, q, h => by cases h; exact ⟨[], by simp⟩
  | a :: as, s, cs, b, q, h => by
    unfold play at h
    split at h <;> [skip; cases h]
    cases hs : s.step a.umac with
    | panic => rw [hs] at h; cases h
    | err => rw [hs] at h; cases h
    | ok r =>
      rw [hs] at h
      simp only at h
      cases hq : play r.1 (cs ++ [(a.umac, r.2)]) (a.fresh b) as with
      | none => rw [hq] at h; cases h
      | some q' =>
        rw [hq] at h
        cases h
        obtain ⟨l, hl⟩ := play_log hq
        obtain ⟨cs', fs, v, _⟩ := step_via (s' := r.1) (out := r.2) hs
        exact ⟨cs' ++ l, by rw [hl, v.log, List.append_assoc]⟩

theorem Turns.snoc {h : List (CellEv × CellOut)} {e : CellEv} {o : CellOut} (ht : Turns h) (hu : ∀ a, e = .up a → Fresh h ∧ a.Sized) :
    Turns (h ++ [(e, o)]) := by
  intro h1 a u h2 hh
  cases h2 using List.reverseRecOn with
  | nil =>
    obtain ⟨rfl, h2⟩ := List.append_inj' hh rfl
    simp only [List.cons.injEq, Prod.mk.injEq, and_true] at h2
    exact hu a h2.1
  | append_singleton l p _ =>
    rw [← List.cons_append, ← List.append_assoc] at hh
    obtain ⟨rfl, h2⟩ := List.append_inj' hh rfl
    exact ht _ _ _ _ rfl

/-- A story which the upper MAC goes through is one of the whole radio side. -/
theorem play_run : ∀ (as : List Act) {h : List (CellEv × CellOut)} {c : Cell} {b : Bool} {q : UmacBs × Calls}, CellRun sampleCell h c → Turns h →
    (b = true → Fresh h) → play c.umac (callsOf h) b as = some q → Proper (q.1.log.map Prod.fst) →
    ∃ h' c', CellRun sampleCell (h ++ h') c' ∧ c'.umac = q.1 ∧ h'.map Prod.fst = as.map Act.cell ∧ h'.map (·.2.calls) = q.2.map (fun p => [p]) ∧
      Turns (h ++ h')
  | [], h, c, b, q, hr, ht, _, hq, _ => by cases hq; exact ⟨[], c, by simpa using hr, rfl, rfl, rfl, by simpa using ht⟩
  | a :: as, h, c, b, q, hr, ht, hb, hq, hp => by
    unfold play at hq
    split at hq <;> [skip; cases hq]
    rename_i hrd
    cases hs : c.umac.step a.umac with
    | panic => rw [hs] at hq; cases hq
    | err => rw [hs] at hq; cases hq
    | ok r =>
      rw [hs] at hq
      simp only at hq
      cases hq' : play r.1 (callsOf h ++ [(a.umac, r.2)]) (a.fresh b) as with
      | none => rw [hq'] at hq; cases hq
      | some q' =>
        rw [hq'] at hq
        cases hq
        obtain ⟨l, hl⟩ := play_log hq'
        have hpr : Proper (r.1.log.map Prod.fst) := fun e he => hp e (by simp only [hl, List.map_append]; exact List.mem_append_left _ he)
        have one : ∃ c1 bs, c.step a.cell = .ok (c1, ⟨[(a.umac, r.2)], bs⟩) ∧ c1.umac = r.1 ∧ Turns (h ++ [(a.cell, ⟨[(a.umac, r.2)], bs⟩)]) ∧
            (a.fresh b = true → Fresh (h ++ [(a.cell, ⟨[(a.umac, r.2)], bs⟩)])) := by
          have later : ∀ (e : CellEv) (o : CellOut), (∀ a, e ≠ .up a) → (b = true → Fresh (h ++ [(e, o)])) := by
            intro e o he hbb
            obtain ⟨h1, w, o', h2, rfl, hn⟩ := hb hbb
            refine ⟨h1, w, o', h2 ++ [(e, o)], by simp, fun p hp => ?_⟩
            rcases List.mem_append.1 hp with hp | hp
            · exact hn p hp
            · simp at hp; subst hp; exact he
          cases a with
          | down =>
            obtain ⟨c1, b1, e1, e2, _⟩ := c68_down sample_valid sample_inRange hr (s' := r.1) (out := r.2) hs hpr
            exact ⟨c1, [b1], e1, e2, ht.snoc (by simp [Act.cell]), fun _ => ⟨h, true, _, [], rfl, by simp⟩⟩
          | order m =>
            refine ⟨{ c with umac := r.1 }, [], ?_, rfl, ht.snoc (by simp [Act.cell]), later _ _ (by simp [Act.cell])⟩
            simp only [Act.cell, Cell.step, Cell.order, Act.umac] at hs ⊢
            rw [hs]; rfl
          | hand ts bb =>
            refine ⟨{ c with umac := r.1 }, [], ?_, rfl, ht.snoc (by simp [Act.cell]), later _ _ (by simp [Act.cell])⟩
            simp only [Act.cell, Cell.step, Cell.order, Act.umac] at hs ⊢
            rw [hs]; rfl
          | speak ts m =>
            simp only [Act.ready, Bool.and_eq_true, decide_eq_true_eq] at hrd
            obtain ⟨⟨hbb, hm⟩, hsl⟩ := hrd
            obtain ⟨t, e1, _⟩ := c15_roundtrip m hm 864282631#32
            have hcoded : coded m = t := by unfold coded; rw [e1]
            have hslots : ∃ l o o1 o2 o3, sentOf h = l ++ [o, o1, o2, o3] ∧ o.ulPhy = .tp ∧ o.ts.t = ts := by
              change (match (sentOf h).reverse with
                | _ :: _ :: _ :: o :: _ => o.ulPhy == .tp && decide (o.ts.t = ts)
                | _ => false) = true at hsl
              match hl : (sentOf h).reverse with
              | o3 :: o2 :: o1 :: o :: l =>
                rw [hl] at hsl
                simp only [Bool.and_eq_true, beq_iff_eq, decide_eq_true_eq] at hsl
                refine ⟨l.reverse, o, o1, o2, o3, ?_, hsl.1, hsl.2⟩
                have := congrArg List.reverse hl
                rw [List.reverse_reverse] at this
                rw [this]; simp
              | [] => rw [hl] at hsl; cases hsl
              | [_] => rw [hl] at hsl; cases hsl
              | [_, _] => rw [hl] at hsl; cases hsl
              | [_, _, _] => rw [hl] at hsl; cases hsl
            obtain ⟨l, o, o1, o2, o3, g1, g2, g3⟩ := hslots
            obtain ⟨sz, c', out, hu⟩ := voice_alone sample_valid hr (hb hbb) g1 g2 hm e1
            obtain ⟨s1, k1, k2⟩ := (up_chain hu).1
            cases k2
            rw [g3] at k1 hu
            simp only [Act.umac] at hs
            rw [hs] at k1
            simp only [Out.ok.injEq] at k1
            refine ⟨c', [], ?_, by rw [k1], ht.snoc ?_, by simp [Act.fresh]⟩
            · simp only [Act.cell, Cell.step, hcoded, Act.umac]
              rw [hu, k1]; rfl
            · intro a ha
              simp only [Act.cell, CellEv.up.injEq] at ha
              rw [← ha, hcoded]
              exact ⟨hb hbb, sz⟩
        obtain ⟨c1, bs, f1, f2, f3, f4⟩ := one
        obtain ⟨h', c', g1, g2, g3, g4, g5⟩ := play_run as (hr.step f1) f3 f4 (q := q') (by
          rw [f2, callsOf_append]
          simpa [callsOf] using hq') hp
        refine ⟨(a.cell, ⟨[(a.umac, r.2)], bs⟩) :: h', c', by simpa using g1, g2, by simp [g3], by simp [g4], by simpa using g5⟩

/-- The call is a plain one. -/
def plain : SchedEv → Bool
  | .tick => true
  | .voice t b => decide (1 ≤ t ∧ t ≤ 4 ∧ 35 ≤ b.length)
  | .create d c => decide ((d = .dl ∨ d = .ul) ∧ 2 ≤ c.ts ∧ c.ts ≤ 4 ∧ 4 ≤ c.usage ∧ c.usage ≤ 63)
  | .hang _ _ => true
  | _ => false

theorem plain_proper {es : List SchedEv} (h : es.all plain = true) : Proper es := by
  intro e he
  have := List.all_eq_true.1 h e he
  cases e <;> simp only [plain, decide_eq_true_eq, Bool.false_eq_true] at this <;> first | exact ⟨trivial, trivial⟩ | exact ⟨trivial, this⟩

/-- A check on a story. -/
def tells (as : List Act) (p : Calls → Bool) : Bool := match play sampleMac [] false as with
  | some q => (q.1.log.map Prod.fst).all plain && p q.2
  | none => false

theorem tells_run {as : List Act} {p : Calls → Bool} (h : tells as p = true) : ∃ h c cs, CellRun sampleCell h c ∧ Turns h ∧
    Proper (c.umac.log.map Prod.fst) ∧ h.map Prod.fst = as.map Act.cell ∧ h.map (·.2.calls) = cs.map (fun p => [p]) ∧ p cs = true := by
  unfold tells at h
  cases hq : play sampleMac [] false as with
  | none => rw [hq] at h; cases h
  | some q =>
    rw [hq] at h
    simp only [Bool.and_eq_true] at h
    have hp := plain_proper h.1
    obtain ⟨h', c', g1, g2, g3, g4, g5⟩ := play_run as (b := false) (q := q) CellRun.init (by intro a b o c e; simp at e) (by simp) hq hp
    exact ⟨h', c', q.2, by simpa using g1, by simpa using g5, by rw [g2]; exact hp, g3, g4, h.2⟩

/-- The frames of voice sent on timeslot `t` by one call. -/
def heardBy (t : Nat) (p : UmacEv × List UmacOut) : List (List Bool) :=
  (slotsOut p.2).filterMap fun y => if y.ts.t = t then y.voice?.map (·.blk.bits) else none

theorem heard_by (t : Nat) : ∀ {h : List (CellEv × CellOut)} {cs : Calls}, h.map (·.2.calls) = cs.map (fun p => [p]) → h.map (heard t) = cs.map (heardBy t)
  | [], [], _ => rfl
  | p :: h, q :: cs, e => by
    simp only [List.map_cons, List.cons.injEq] at e ⊢
    refine ⟨?_, heard_by t e.2⟩
    simp [heard, heardBy, sentOf, callsOf, e.1]

theorem calls_by : ∀ {h : List (CellEv × CellOut)} {cs : Calls}, h.map (·.2.calls) = cs.map (fun p => [p]) → callsOf h = cs
  | [], [], _ => rfl
  | p :: h, q :: cs, e => by
    simp only [List.map_cons, List.cons.injEq] at e
    simp only [callsOf, List.flatMap_cons, e.1]
    rw [show h.flatMap (·.2.calls) = cs from calls_by e.2]
    rfl

/-- A frame of voice. -/
def words : List Bool := (List.range 274).map fun j => j % 3 == 0

/-- A call on timeslot 2; after a while, in frame 2, a station speaks, and the next slot is built. -/
def shortStory : List Act := .order (.open sampleCircuit) :: (List.replicate 7 .down ++ [.speak 2 words] ++ [.down])

/-- Non-vacuity of `c91_air`: a station of the sample cell speaks in frame 2 on timeslot 2. The next slot carries its words. -/
example : ∃ h c o b, CellRun sampleCell (h ++ [(.down true, o)]) c ∧ h.map Prod.fst = (shortStory.take 9).map Act.cell ∧
    heard 2 (.down true, o) = [words] ∧ o.bursts = [b] ∧
    (decodeTp (fullOf b) 864282631#32 = .ok (words, true) ∨ ∃ t, encodeTp words 864282631#32 1 = .ok t ∧ field b 282 216 = t.drop 216) := by
  have hc : tells shortStory (fun cs => decide ((cs.map (heardBy 2)).getLast? = some [words]) &&
      match ((cs.take 8).flatMap fun p => slotsOut p.2).reverse with
      | _ :: _ :: _ :: o :: _ => o.ulPhy == .tp && decide (o.ts.t = 2)
      | _ => false) = true := by decide +kernel
  obtain ⟨h, c, cs, hr, ht, hp, he, hcs, hchk⟩ := tells_run hc
  simp only [Bool.and_eq_true, decide_eq_true_eq] at hchk
  rw [← heard_by 2 hcs] at hchk
  obtain ⟨hlast, hslots⟩ := hchk
  rw [show shortStory.map Act.cell = [.control (.open sampleCircuit)] ++ (List.replicate 7 (.down true) ++ ([(Act.speak 2 words).cell] ++ [.down true])) by rfl] at he
  obtain ⟨l1, l2, rfl, e1, e2⟩ := List.map_eq_append_iff.1 he
  obtain ⟨l3, l4, rfl, e3, e4⟩ := List.map_eq_append_iff.1 e2
  obtain ⟨l5, l6, rfl, e5, e6⟩ := List.map_eq_append_iff.1 e4
  obtain ⟨⟨ev1, r⟩, rfl⟩ : ∃ p, l1 = [p] := List.length_eq_one_iff.1 (by simpa using congrArg List.length e1)
  obtain ⟨⟨ev5, u⟩, rfl⟩ : ∃ p, l5 = [p] := List.length_eq_one_iff.1 (by simpa using congrArg List.length e5)
  obtain ⟨⟨ev6, o⟩, rfl⟩ : ∃ p, l6 = [p] := List.length_eq_one_iff.1 (by simpa using congrArg List.length e6)
  simp only [List.map_cons, List.map_nil, List.cons.injEq, and_true] at e1 e5 e6
  subst e1 e5 e6
  have hlen : l3.length = 7 := by simpa using congrArg List.length e3
  have hsent : sentOf (([] : List (CellEv × CellOut)) ++ (.control (.open sampleCircuit), r) :: l3) = (cs.take 8).flatMap fun p => slotsOut p.2 := by
    have : (([] : List (CellEv × CellOut)) ++ (.control (.open sampleCircuit), r) :: l3).map (·.2.calls) = (cs.take 8).map (fun p => [p]) := by
      rw [List.map_take, ← hcs]
      simp [hlen]
    unfold sentOf
    rw [calls_by this]
  rw [← hsent] at hslots
  generalize hS : sentOf (([] : List (CellEv × CellOut)) ++ (.control (.open sampleCircuit), r) :: l3) = S at hslots
  match hl : S.reverse with
  | [] => rw [hl] at hslots; cases hslots
  | [_] => rw [hl] at hslots; cases hslots
  | [_, _] => rw [hl] at hslots; cases hslots
  | [_, _, _] => rw [hl] at hslots; cases hslots
  | y3 :: y2 :: y1 :: y0 :: l =>
    rw [hl] at hslots
    simp only [Bool.and_eq_true, beq_iff_eq, decide_eq_true_eq] at hslots
    have hS' : S = l.reverse ++ [y0, y1, y2, y3] := by
      have := congrArg List.reverse hl
      rw [List.reverse_reverse] at this
      rw [this]; simp
    obtain ⟨t, c1, c2, _⟩ := c15_roundtrip words (by decide +kernel) 864282631#32
    have hcoded : coded words = t := by unfold coded; rw [c1]
    have hh : heard 2 (.down true, o) = [words] := by
      rw [← List.append_assoc, ← List.append_assoc, List.map_append, List.getLast?_append] at hlast
      simpa using hlast
    have downs : ∀ p ∈ l3, p.1 = .down true := by
      intro p hp'
      have : p.1 ∈ l3.map Prod.fst := List.mem_map_of_mem hp'
      rw [e3] at this
      exact List.eq_of_mem_replicate this
    have key := c91_air (i := 1) (k := sampleCircuit) (h0 := []) (h1 := l3) (h2 := []) (r := r) (u := u) (w := true) (o := o) (m := words) (t := t) (j := 0)
      (a := ⟨voiceAir (coded words), silence 254, silence 254⟩) sample_valid sample_inRange rfl (.inr rfl) (by
        have hr' := hr
        unfold sampleCell sampleMac at hr'
        simpa [Act.cell] using hr')
      (by simpa [Act.cell] using ht) hp (by
        intro p hp'
        rw [List.append_nil] at hp'
        rw [downs p hp']; rfl) (by
        intro p hp' b
        rw [downs p hp']; simp) (hS.trans hS') hslots.1 hslots.2 (by rw [hcoded]; exact voiceAir_spot c2) (by decide +kernel) c1
      (by rw [hcoded]; exact voiceAir_bits c2) (by simp) (by rw [show (1 : Fin 4).val + 1 = 2 by rfl, hh]; simp)
    obtain ⟨_, b, hb, hd⟩ := key
    refine ⟨(.control (.open sampleCircuit), r) :: l3 ++ [((Act.speak 2 words).cell, u)], c, o, b, by simpa using hr, ?_, hh, hb, ?_⟩
    · simp [e3, shortStory, Act.cell, List.replicate]
    · rcases hd with ⟨h1, _⟩ | h1
      · exact .inl h1
      · exact .inr h1

/-- Words spoken in frame 17; the floor is released in frame 18, and granted again in the next multiframe. -/
def leftStory : List Act := .order (.open sampleCircuit) :: (List.replicate 67 .down ++ [.speak 2 words, .down, .order (.released 2)] ++
  List.replicate 4 .down ++ [.order (.granted 2)] ++ List.replicate 4 .down)

set_option maxRecDepth 10000 in
/-- **C91 fails across the floor.** What a station said last is played when the next one has got the floor: said in frame 17, not yet
sent when the floor is released in frame 18, kept through the hang time, and the first thing heard when the floor is granted, though
nobody has spoken since. -/
theorem c91_left_over : ∃ h o c, CellRun sampleCell (h ++ [(.down true, o)]) c ∧ Turns (h ++ [(.down true, o)]) ∧
    (h ++ [(.down true, o)]).map Prod.fst = leftStory.map Act.cell ∧ (∀ p ∈ h, heard 2 p ≠ [words]) ∧ heard 2 (.down true, o) = [words] := by
  have hc : tells leftStory (fun cs => decide ((cs.map (heardBy 2)).getLast? = some [words] ∧ ∀ v ∈ (cs.map (heardBy 2)).dropLast, v ≠ [words])) = true := by
    decide +kernel
  obtain ⟨h, c, cs, hr, ht, hp, he, hcs, hchk⟩ := tells_run hc
  simp only [decide_eq_true_eq] at hchk
  rw [← heard_by 2 hcs] at hchk
  cases h using List.reverseRecOn with
  | nil => simp at hchk
  | append_singleton h p _ =>
    obtain ⟨e, o⟩ := p
    have hlast : e = .down true := by
      have := congrArg List.getLast? he
      rw [show (leftStory.map Act.cell).getLast? = some (.down true) by rfl] at this
      simpa using this
    subst hlast
    simp only [List.map_append, List.map_cons, List.map_nil, List.getLast?_append, List.getLast?_singleton, List.dropLast_concat] at hchk
    exact ⟨h, o, c, hr, ht, he, fun p hp => hchk.2 _ (List.mem_map_of_mem hp), by simpa using hchk.1⟩

end Verif.Phy
