import Verif.Umac.UmacCall
import Verif.Umac.UmacWatchProps
import Verif.Cmce.CallFindings
/-!
# C48: the circuits of the upper MAC are the calls that were announced

The upper MAC and call control each keep their own table of circuits. For every history of call control and every history of the
upper MAC in which the orders of the former have arrived, with anything else in between: the upper MAC carries traffic on a
timeslot exactly if a call is announced there, with the usage marker which was announced, and it is in hang time exactly if
nobody has the floor.
-/
namespace Verif.Umac
open Verif.Tdma Verif.Codec Verif.Cmce

/-- C48. The circuits and hang times of the upper MAC are what the orders say, whatever else has happened. -/
theorem c48_orders (brew : Bool) (carrier : Nat) (x : Time) (hx : x.valid) (scramb : Nat) (wide : Bool) (pre : Precomps)
    (hist : List (UmacEv × List UmacOut)) (s : UmacBs) (hr : UmacRun (.init brew carrier x scramb wide pre) hist s)
    (ht : ∀ p ∈ hist, p.1.Timed) (i : Fin 4) :
    s.sched.circuits.dl i = circuitBy (orders hist) .dl (i.val + 1) ∧ s.sched.circuits.ul i = circuitBy (orders hist) .ul (i.val + 1) ∧
    s.sched.hang i = hangBy (orders hist) (i.val + 1) :=
  let h := run_ordered hx hr ht i
  ⟨h.1, h.2.1, h.2.2.1⟩

/-- C48. Call control opens and closes circuits in both directions at once. -/
theorem c48_both {r : Nat → Bool} {hc : List (CcEv × List CcOut)} {cc : Cc} (hcc : CcRun r hc cc) : ∀ m ∈ macOrders (messages hc), m.Both :=
  (ccRun_agrees hcc).both

/-- C48. When the orders of call control have arrived: a circuit for timeslot `i + 1`, in either direction, means that a call was
announced there with this usage marker, and the other way round; hang time means a call in which nobody has the floor. -/
theorem c48_calls (brew : Bool) (carrier : Nat) (x : Time) (hx : x.valid) (scramb : Nat) (wide : Bool) (pre : Precomps)
    (hist : List (UmacEv × List UmacOut)) (s : UmacBs) (hr : UmacRun (.init brew carrier x scramb wide pre) hist s)
    (ht : ∀ p ∈ hist, p.1.Timed) (r : Nat → Bool) (hc : List (CcEv × List CcOut)) (cc : Cc) (hcc : CcRun r hc cc)
    (hn : NoReuse (messages hc)) (ho : orders hist = macOrders (messages hc)) (i : Fin 4) :
    (∀ c, s.sched.circuits.dl i = some c ∨ s.sched.circuits.ul i = some c → ∃ id g, heard (messages hc) id = some (g, c.usage, i.val + 1)) ∧
    (∀ id g u, heard (messages hc) id = some (g, u, i.val + 1) →
      s.sched.circuits.dl i = some ⟨.dl, i.val + 1, u, 0, some 0, false⟩ ∧ s.sched.circuits.ul i = some ⟨.ul, i.val + 1, u, 0, some 0, false⟩) ∧
    (s.sched.hang i = true ↔ ∃ id g u, heard (messages hc) id = some (g, u, i.val + 1) ∧ busy (messages hc) id = false) := by
  obtain ⟨m1, m2, m3, _⟩ := run_ordered hx hr ht i
  have ag := ccRun_agrees hcc
  have hi := ccRun_inv hcc
  obtain ⟨hl, _⟩ := ccRun_view hcc hn
  obtain ⟨hh, _⟩ := c28_heard hcc hn
  have hb := (ccRun_busy hcc).1
  rw [ho] at m1 m2 m3
  rw [ag.circuit i .dl (.inl rfl)] at m1
  rw [ag.circuit i .ul (.inr rfl)] at m2
  have call : ∀ id g u, heard (messages hc) id = some (g, u, i.val + 1) → ∃ c k, cc.calls.get id = some c ∧ c.usage = u ∧ c.ts = i.val + 1 ∧
      cc.mgr.dl i = some k ∧ k.callId = id ∧ k.usage = u := by
    intro id g u hid
    rw [hh] at hid
    simp only [Option.map_eq_some_iff, Prod.mk.injEq] at hid
    obtain ⟨c, hc, _, hu, hts⟩ := hid
    obtain ⟨j, k, h1, h2, h3, h4⟩ := hi.circuit id c hc
    have : j = i := Fin.ext (by omega)
    subst this
    exact ⟨c, k, hc, hu, hts, h1, h3, h4.trans hu⟩
  have circ : ∀ k, cc.mgr.dl i = some k → ∃ c, cc.calls.get k.callId = some c ∧ c.ts = i.val + 1 ∧ c.usage = k.usage ∧
      heard (messages hc) k.callId = some (c.gssi, k.usage, i.val + 1) := by
    intro k hk
    obtain ⟨c, h1, h2⟩ := hl i k hk
    obtain ⟨k', e1, e2, e3⟩ := hi.circuit_at h1 h2
    rw [hk] at e1; cases e1
    refine ⟨c, h1, h2, e3.symm, ?_⟩
    rw [hh, h1, Option.map_some, h2, e3]
  refine ⟨?_, ?_, ?_⟩
  · intro c hcc
    cases hk : cc.mgr.dl i with
    | none => rw [m1, m2, hk] at hcc; simp at hcc
    | some k =>
      rw [m1, m2, hk] at hcc
      obtain ⟨c', _, _, _, h4⟩ := circ k hk
      refine ⟨k.callId, c'.gssi, ?_⟩
      rw [h4]
      rcases hcc with hcc | hcc <;> simp only [Option.map_some, Option.some.injEq] at hcc <;> rw [← hcc] <;> rfl
  · intro id g u hid
    obtain ⟨c, k, _, _, _, h4, h5, h6⟩ := call id g u hid
    rw [m1, m2, h4]
    simp [CmceCircuit.mac, hi.mgr.ts h4, h6]
  · rw [m3]
    constructor
    · intro hg
      cases hk : cc.mgr.dl i with
      | none => rw [ag.free i hk] at hg; cases hg
      | some k =>
        obtain ⟨c, h1, h2, h3, h4⟩ := circ k hk
        refine ⟨k.callId, c.gssi, k.usage, h4, ?_⟩
        rw [ag.hang i k c hk h1 h2] at hg
        rw [hb, Cc.held, h1]
        simpa using hg
    · rintro ⟨id, g, u, hid, hbusy⟩
      obtain ⟨c, k, h1, h2, h3, h4, h5, h6⟩ := call id g u hid
      rw [ag.hang i k c h4 (by rw [h5]; exact h1) h3]
      rw [hb, Cc.held, h1] at hbusy
      simpa using hbusy

/-- C48. Voice from the air goes to the network exactly if there is a network connection and a circuit was ordered for the
uplink of the timeslot, and goes as it came. -/
theorem c48_voice_up (brew : Bool) (carrier : Nat) (x : Time) (hx : x.valid) (scramb : Nat) (wide : Bool) (pre : Precomps)
    (hist : List (UmacEv × List UmacOut)) (s : UmacBs) (hr : UmacRun (.init brew carrier x scramb wide pre) hist s)
    (ht : ∀ p ∈ hist, p.1.Timed) (ts : Nat) (data : List Nat) (s' : UmacBs) (out : List UmacOut)
    (he : s.step (.voiceUp ts data) = .ok (s', out)) :
    (brew = true ∧ circuitBy (orders hist) .ul ts ≠ none → out = [.voice ts data]) ∧
    (¬ (brew = true ∧ circuitBy (orders hist) .ul ts ≠ none) → out = []) := by
  obtain ⟨cs, v, c, _, _, l, ul, hul, hout⟩ := voiceUp_via he
  have hb : s.brew = brew := (run_log hr).2.2.1
  have hidx : ∃ i : Fin 4, ts = i.val + 1 := by
    cases hi : Slots.idx ts with
    | panic => simp [CircuitMgr.isActive, hi, bind, Res.bind] at hul
    | ok i => exact ⟨i, Slots.idx_ok.1 hi⟩
  obtain ⟨i, rfl⟩ := hidx
  simp only [CircuitMgr.isActive, Slots.idx_succ, Res.bind_ok, Res.ok.injEq] at hul
  obtain ⟨_, m2, _⟩ := run_ordered hx hr ht i
  rw [← m2, hout, hb, ← hul]
  refine ⟨?_, ?_⟩
  · rintro ⟨h1, h2⟩
    simp [h1, Option.isSome_iff_ne_none.2 h2]
  · intro h
    rw [if_neg]
    intro hh
    simp only [Bool.and_eq_true] at hh
    exact h ⟨hh.1, Option.isSome_iff_ne_none.1 hh.2⟩

/-- C48. Voice from the network is queued for the air exactly if a circuit was ordered for the downlink of the timeslot. -/
theorem c48_voice_down (brew : Bool) (carrier : Nat) (x : Time) (hx : x.valid) (scramb : Nat) (wide : Bool) (pre : Precomps)
    (hist : List (UmacEv × List UmacOut)) (s : UmacBs) (hr : UmacRun (.init brew carrier x scramb wide pre) hist s)
    (ht : ∀ p ∈ hist, p.1.Timed) (i : Fin 4) (b : Block) (s' : UmacBs) (out : List UmacOut)
    (he : s.step (.voiceDown (i.val + 1) b) = .ok (s', out)) :
    out = [] ∧
    (circuitBy (orders hist) .dl (i.val + 1) ≠ none → s'.sched.circuits.txData i = s.sched.circuits.txData i ++ [b]) ∧
    (circuitBy (orders hist) .dl (i.val + 1) = none → s'.sched = s.sched) := by
  obtain ⟨m1, _⟩ := run_ordered hx hr ht i
  simp only [UmacBs.step, UmacBs.voiceDown] at he
  rw [Out.bind_eq_ok] at he; obtain ⟨s1, he, h2⟩ := he
  cases h2
  rw [Out.bind_eq_ok] at he; obtain ⟨dl, hdl, he⟩ := he
  rw [Out.bind_eq_ok] at he; obtain ⟨ul, hul, he⟩ := he
  rw [Out.ofRes_eq_ok] at hdl hul
  simp only [CircuitMgr.isActive, Slots.idx_succ, Res.bind_ok, Res.ok.injEq] at hdl
  rw [← m1]
  have hs1 : (if ul = true then s.heard (i.val + 1) (some s.now) else s).sched = s.sched := by
    split
    · exact heard_sched ..
    · rfl
  refine ⟨rfl, ?_, ?_⟩
  · intro hne
    rw [Option.isSome_iff_ne_none.2 hne] at hdl
    subst hdl
    simp only [if_true] at he
    rw [Out.bind_eq_ok] at he; obtain ⟨q, hq, he⟩ := he
    cases he
    unfold UmacBs.call at hq
    rw [Out.bind_eq_ok] at hq; obtain ⟨u, hu, hq⟩ := hq
    cases hq
    rw [hs1] at hu
    simp only [Sched.step, CircuitMgr.putBlock, Slots.idx_succ, Res.bind_ok, Option.isSome_iff_ne_none.2 hne, if_true, Out.ofRes_ok,
      Out.bind_ok] at hu
    cases hu
    simp
  · intro hno
    rw [hno] at hdl
    subst hdl
    simp only [Option.isSome_none, Bool.false_eq_true, if_false] at he
    cases he
    exact hs1

/-! ## An example -/

/-- Events for the upper MAC: the orders of call control, with slots in between. -/
def ordersAsEvents (l : List MacCtl) : List UmacEv := l.flatMap fun m => [.tick true, .control m, .tick true]

/-- Non-vacuity: two calls, nobody talking in the first one; the circuits of the upper MAC with the orders of call control. -/
example : ∃ hc cc hist s, CcRun (fun _ => false) hc cc ∧ NoReuse (messages hc) ∧ UmacRun sampleMac hist s ∧ (∀ p ∈ hist, p.1.Timed) ∧
    orders hist = macOrders (messages hc) ∧ orders hist = [.open ⟨.both, 2, 4, 0, some 0, false⟩, .open ⟨.both, 3, 5, 0, some 0, false⟩, .released 2] ∧
    s.sched.circuits.dl 1 = some ⟨.dl, 2, 4, 0, some 0, false⟩ ∧ s.sched.hang 1 = true ∧ s.sched.hang 2 = false ∧
    (s.sched.circuits.ul 2).isSome = true ∧ s.sched.circuits.ul 3 = none := by
  obtain ⟨hc, cc, hr, hp⟩ := check_run (r := fun _ => false) (begun ++ [.uSetup 1002 true (some 92) 0, .uTxCeased 1001 4])
    (p := fun h _ => decide ((started (messages h)).length ≤ 1023 ∧
      macOrders (messages h) = [.open ⟨.both, 2, 4, 0, some 0, false⟩, .open ⟨.both, 3, 5, 0, some 0, false⟩, .released 2])) (by decide +kernel)
  obtain ⟨hp1, hp2⟩ := of_decide_eq_true hp
  obtain ⟨hist, s, hr2, he, hq⟩ := ucheck_run (ordersAsEvents [.open ⟨.both, 2, 4, 0, some 0, false⟩, .open ⟨.both, 3, 5, 0, some 0, false⟩, .released 2])
    (p := fun h s => decide (orders h = [.open ⟨.both, 2, 4, 0, some 0, false⟩, .open ⟨.both, 3, 5, 0, some 0, false⟩, .released 2] ∧
      s.sched.circuits.dl 1 = some ⟨.dl, 2, 4, 0, some 0, false⟩ ∧ s.sched.hang 1 = true ∧ s.sched.hang 2 = false ∧
      (s.sched.circuits.ul 2).isSome = true ∧ s.sched.circuits.ul 3 = none)) (by decide +kernel)
  obtain ⟨q1, q2⟩ := of_decide_eq_true hq
  refine ⟨hc, cc, hist, s, hr, (c28_numbers hr).2 hp1, hr2, ?_, q1.trans hp2.symm, q1, q2⟩
  intro p hp
  have : p.1 ∈ ordersAsEvents [.open ⟨.both, 2, 4, 0, some 0, false⟩, .open ⟨.both, 3, 5, 0, some 0, false⟩, .released 2] := by
    rw [← he]; exact List.mem_map_of_mem hp
  simp only [ordersAsEvents, List.flatMap_cons, List.flatMap_nil, List.append_nil, List.cons_append, List.nil_append, List.mem_cons,
    List.not_mem_nil, or_false] at this
  rcases this with h | h | h | h | h | h | h | h | h <;> rw [h] <;> trivial

end Verif.Umac
