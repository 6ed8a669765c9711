import Verif.Station.Called
import Verif.Station.SampleAck
/-!
# The whole base station: the answer is heard

C98 and C99 up to the mobile station: the acceptance of a registration and the messages which connect a call, once given to the upper MAC for
the control channel, are passed up by the upper MAC of a mobile station which listens there, after a bounded number of slots.
-/
namespace Verif.Station
open Verif.Tdma Verif.Codec Verif.Bits
open Verif.Phy (Cell CellRun)
open Verif.Umac (TmaReq Report Addr Precomps SchedEv SchedRet MacResource Carried bitsIn reportsIn reported CellCfg UmacMs MsOut Wanted Heard Short
  told OneAtATime listenOn)

variable {brew : Bool} {carrier scramb : Nat} {x : Time} {wide : Bool} {pre : Precomps} {code : BitVec 32}

/-- What was to be heard was heard: whole, or with its end cut off as described in C81. -/
theorem heard_mem {sc : Nat} {ms : List Wanted} {outs : List MsOut} (h : Heard sc ms outs) {m : Wanted} (hm : m ∈ ms) :
    ∃ got, (got = m.sdu ∨ Short ((m.hdr + m.sdu.length) % 8) m.sdu got) ∧ (got ≠ [] → .sdu m.addr got sc ∈ outs) := by
  induction h with
  | nil => cases hm
  | whole h ih =>
    rcases List.mem_cons.1 hm with rfl | hm
    · exact ⟨_, .inl rfl, fun hne => by rw [if_neg hne]; simp⟩
    · obtain ⟨g, h1, h2⟩ := ih hm
      exact ⟨g, h1, fun hne => List.mem_append_right _ (h2 hne)⟩
  | short k got hk hs h ih =>
    rcases List.mem_cons.1 hm with rfl | hm
    · exact ⟨got, .inr (by rw [hk]; exact hs), fun hne => by rw [if_neg hne]; simp⟩
    · obtain ⟨g, h1, h2⟩ := ih hm
      exact ⟨g, h1, fun hne => List.mem_append_right _ (h2 hne)⟩

/-- The length of a header, without and with the allocation of a channel. -/
theorem data_header_len {carrier : Nat} {q : TmaReq} (hq : q.chan = none) {k n : Nat} {fb : Bool}
    (h : (headerOf carrier q k fb).headerLen = .ok n) : n = 43 := by
  simp only [headerOf, hq, Option.bind_none, Option.map_none, MacResource.headerLen, MacResource.chanLen, MacResource.isNull] at h
  simp at h
  exact h.symm

theorem alloc_header_len {carrier : Nat} {q : TmaReq} {u ts : Nat} (hq : q.chan = some (chanOf (some u, ts))) {k n : Nat} {fb : Bool}
    (h : (headerOf carrier q k fb).headerLen = .ok n) : n = 76 := by
  simp only [headerOf, hq, Option.bind_some, Option.map_some, MacResource.headerLen, MacResource.chanLen, MacResource.isNull, chanOf,
    Umac.ChanReq.toMac, Umac.ChanAlloc.computeLen] at h
  simp at h
  exact h.symm

theorem reported_of_in {tr : List (SchedEv × SchedRet)} {r : Report} {n : Nat} (h : r ∈ reportsIn n tr) : r ∈ reported tr := by
  induction tr with
  | nil => cases h
  | cons p tr ih =>
    rw [Umac.reported_cons]
    simp only [reportsIn, List.flatMap_cons] at h
    rcases List.mem_append.1 h with h | h
    · refine List.mem_append_left _ ?_
      unfold SchedRet.reports Umac.about at h
      unfold Umac.reportedRet
      cases hp : p.2 <;> rw [hp] at h <;> simp only at h ⊢ <;> first
        | exact (List.mem_filter.1 h).1
        | cases h
    · exact List.mem_append_right _ (ih h)

/-- A message for the control channel which was reported as transmitted is heard there. -/
theorem heard_if_reported (hx : x.valid) (hc : carrier < 4096) {c : Sig.Cfg} {ins : List In} {h : Trace} {s : Station}
    (hr : Run c ⟨.init brew carrier x scramb wide pre, .init code⟩ ins h s)
    (hs : ∀ e ∈ s.cell.umac.log.map Prod.fst, Sayable e) (sc : Nat)
    (hlen : ∀ n now e q, (handed Time.default (Sig.llcTrace h.calls))[n]? = some (now, e) → requestOf now n e = some q → q.sdu.length ≤ 4096)
    (hone : OneAtATime (Umac.Sched.init x scramb pre) 0 (s.cell.umac.log.map Prod.fst))
    {n : Nat} {now : Time} {e : Llc.Emit} {q : TmaReq}
    (hn : (handed Time.default (Sig.llcTrace h.calls))[n]? = some (now, e)) (hlt : n < s.next) (hq : requestOf now n e = some q)
    (hst : q.steal = false) (h1 : q.x.t = 1) {l : Nat} (hl : ∀ k fb m, (headerOf carrier q k fb).headerLen = .ok m → m = l)
    (hrep : Report.transmitted n ∈ reported s.cell.umac.log) :
    UmacMs.init.run (listenOn 1 sc s.cell.umac.log) = .panic ∨
    ∃ m outs got, UmacMs.init.run (listenOn 1 sc s.cell.umac.log) = .ok (m, outs) ∧
      (got = q.sdu ∨ Short ((l + q.sdu.length) % 8) q.sdu got) ∧ (got ≠ [] → .sdu (onAirAddr q.addr) got sc ∈ outs) := by
  obtain ⟨want, _, w2, w3⟩ := c94_station_partial hx hc hr hs 0 sc hlen hone
  rcases w3 with w3 | ⟨m, outs, w3, w4⟩
  · exact .inl w3
  obtain ⟨w, hw, _, m2, m3, k', fb', m4⟩ := w2 n now e q hlt hn hq hst (by rw [h1]; rfl)
  have hin : w ∈ told want (reported s.cell.umac.log) := List.mem_filterMap.2 ⟨_, hrep, hw⟩
  obtain ⟨got, q1, q2⟩ := heard_mem w4 hin
  rw [m3, hl _ _ _ m4] at q1
  rw [m2] at q2
  exact .inr ⟨m, outs, got, w3, q1, q2⟩

/-- A message for the control channel is heard there in time. -/
theorem heard_in_time (hx : x.valid) (hc : carrier < 4096) {cfg : CellCfg} (hcfg : cfg.InRange) {c : Sig.Cfg} {ins : List In} {h : Trace} {s : Station}
    (hr : Run c ⟨.init brew carrier x scramb wide (Precomps.generate cfg), .init code⟩ ins h s)
    (hv : ∀ ts b, In.voice ts b ∈ ins → VoiceIn ts b) (hi : ∀ i ∈ ins, i.Sane c)
    (hs : ∀ e ∈ s.cell.umac.log.map Prod.fst, Sayable e) (sc : Nat)
    (hlen : ∀ n now e q, (handed Time.default (Sig.llcTrace h.calls))[n]? = some (now, e) → requestOf now n e = some q → q.sdu.length ≤ 4096)
    (hone : OneAtATime (Umac.Sched.init x scramb (Precomps.generate cfg)) 0 (s.cell.umac.log.map Prod.fst))
    {n : Nat} {now : Time} {e : Llc.Emit} {q : TmaReq}
    (hn : (handed Time.default (Sig.llcTrace h.calls))[n]? = some (now, e)) (hlt : n < s.next) (hq : requestOf now n e = some q)
    (hst : q.steal = false) (h1 : q.x.t = 1) {l : Nat} (hl : ∀ k fb m, (headerOf carrier q k fb).headerLen = .ok m → m = l) :
    ∃ hd es1 es2 s1 tr1, s.cell.umac.log.map Prod.fst = es1 ++ .message 1 n true hd q.sdu :: es2 ∧
      (Umac.Sched.init x scramb (Precomps.generate cfg)).run es1 = .ok (s1, tr1) ∧
      (8 * (Umac.backlog (s1.queues 0) + q.sdu.length + 2) ≤ Umac.ticksIn es2 →
        UmacMs.init.run (listenOn 1 sc s.cell.umac.log) = .panic ∨
        ∃ m outs got, UmacMs.init.run (listenOn 1 sc s.cell.umac.log) = .ok (m, outs) ∧
          (got = q.sdu ∨ Short ((l + q.sdu.length) % 8) q.sdu got) ∧ (got ≠ [] → .sdu (onAirAddr q.addr) got sc ∈ outs)) := by
  obtain ⟨k, fb, es1, es2, s1, tr1, tr2, g1, g2, g3, g4, g5⟩ := sent_in_time hx hc hcfg hr hv (run_sane hx hr hi) hs hn hlt hq hst h1
  refine ⟨_, es1, es2, s1, tr1, by rw [g1, List.map_append, g2, g3], g4, fun ht => ?_⟩
  obtain ⟨_, _, hrep⟩ := g5 ht
  exact heard_if_reported hx hc hr hs sc hlen hone hn hlt hq hst h1 hl (reported_of_in (n := n) (by rw [hrep]; simp))

/-- **C98, heard.** A mobile station listens on the control channel from the first slot on. A message which the LLC handed down to be
acknowledged, as is the acceptance of a registration, and which the upper MAC was given, is passed up by the station's upper MAC under the
address it was sent to, after at most eight slots for each bit of it, for each bit waiting before it and for each message, or the station has
aborted. Its end may be cut off if it falls one to four bits behind an octet boundary (C81). Missing: parts of two messages on the air at once. -/
theorem c98_heard_partial (hx : x.valid) (hc : carrier < 4096) {cfg : CellCfg} (hcfg : cfg.InRange) {c : Sig.Cfg} {ins : List In} {h : Trace} {s : Station}
    (hr : Run c ⟨.init brew carrier x scramb wide (Precomps.generate cfg), .init code⟩ ins h s)
    (hv : ∀ ts b, In.voice ts b ∈ ins → VoiceIn ts b) (hi : ∀ i ∈ ins, i.Sane c)
    (hs : ∀ e ∈ s.cell.umac.log.map Prod.fst, Sayable e) (sc : Nat)
    (hlen : ∀ n now e q, (handed Time.default (Sig.llcTrace h.calls))[n]? = some (now, e) → requestOf now n e = some q → q.sdu.length ≤ 4096)
    (hone : OneAtATime (Umac.Sched.init x scramb (Precomps.generate cfg)) 0 (s.cell.umac.log.map Prod.fst))
    {n b : Nat} {now : Time} {a : Addr} {pdu : List Bool}
    (hn : (handed Time.default (Sig.llcTrace h.calls))[n]? = some (now, .data b a 1 pdu)) (hlt : n < s.next) :
    ∃ hd es1 es2 s1 tr1, s.cell.umac.log.map Prod.fst = es1 ++ .message 1 n true hd pdu :: es2 ∧
      (Umac.Sched.init x scramb (Precomps.generate cfg)).run es1 = .ok (s1, tr1) ∧
      (8 * (Umac.backlog (s1.queues 0) + pdu.length + 2) ≤ Umac.ticksIn es2 →
        UmacMs.init.run (listenOn 1 sc s.cell.umac.log) = .panic ∨
        ∃ m outs got, UmacMs.init.run (listenOn 1 sc s.cell.umac.log) = .ok (m, outs) ∧
          (got = pdu ∨ Short ((43 + pdu.length) % 8) pdu got) ∧ (got ≠ [] → .sdu (onAirAddr a) got sc ∈ outs)) :=
  heard_in_time hx hc hcfg hr hv hi hs sc hlen hone hn hlt rfl rfl rfl fun _ _ _ h => data_header_len rfl h

/-- **C99, heard.** The same of a message without acknowledgement which allocates a traffic channel, as do those which connect a call. -/
theorem c99_heard_partial (hx : x.valid) (hc : carrier < 4096) {cfg : CellCfg} (hcfg : cfg.InRange) {c : Sig.Cfg} {ins : List In} {h : Trace} {s : Station}
    (hr : Run c ⟨.init brew carrier x scramb wide (Precomps.generate cfg), .init code⟩ ins h s)
    (hv : ∀ ts b, In.voice ts b ∈ ins → VoiceIn ts b) (hi : ∀ i ∈ ins, i.Sane c)
    (hs : ∀ e ∈ s.cell.umac.log.map Prod.fst, Sayable e) (sc : Nat)
    (hlen : ∀ n now e q, (handed Time.default (Sig.llcTrace h.calls))[n]? = some (now, e) → requestOf now n e = some q → q.sdu.length ≤ 4096)
    (hone : OneAtATime (Umac.Sched.init x scramb (Precomps.generate cfg)) 0 (s.cell.umac.log.map Prod.fst))
    {n u ts : Nat} {now : Time} {a : Addr} {pdu : List Bool}
    (hn : (handed Time.default (Sig.llcTrace h.calls))[n]? = some (now, .udata ⟨a, 1, some (some u, ts), false⟩ pdu)) (hlt : n < s.next) :
    ∃ hd es1 es2 s1 tr1, s.cell.umac.log.map Prod.fst = es1 ++ .message 1 n true hd pdu :: es2 ∧
      (Umac.Sched.init x scramb (Precomps.generate cfg)).run es1 = .ok (s1, tr1) ∧
      (8 * (Umac.backlog (s1.queues 0) + pdu.length + 2) ≤ Umac.ticksIn es2 →
        UmacMs.init.run (listenOn 1 sc s.cell.umac.log) = .panic ∨
        ∃ m outs got, UmacMs.init.run (listenOn 1 sc s.cell.umac.log) = .ok (m, outs) ∧
          (got = pdu ∨ Short ((76 + pdu.length) % 8) pdu got) ∧ (got ≠ [] → .sdu (onAirAddr a) got sc ∈ outs)) :=
  heard_in_time hx hc hcfg hr hv hi hs sc hlen hone hn hlt rfl rfl rfl fun _ _ _ h => alloc_header_len rfl h

/-- The acceptance of the sample is heard: by computation a station on the control channel passes it up, whole, and does not abort. -/
def heardOk : Bool :=
  match (Umac.Sched.init Umac.sampleTime 864282631 (Precomps.generate Umac.sampleCfg)).run sampleLog with
  | .ok (_, tr) => match UmacMs.init.run (listenOn 1 864282631 tr) with
    | .ok (_, outs) => outs.any fun o => decide (o = .sdu (onAirAddr regAddr) regAnswer 864282631)
    | _ => false
  | _ => false

theorem heard_ok : heardOk = true := by decide +kernel

example : ∃ ins h s m outs, Run Sig.sampleCfg Verif.Phy.sampleCell ins h s ∧
    (handed Time.default (Sig.llcTrace h.calls))[0]? = some (⟨3, 2, 1, 0⟩, .data 0 regAddr 1 regAnswer) ∧
    OneAtATime (Umac.Sched.init Umac.sampleTime 864282631 (Precomps.generate Umac.sampleCfg)) 0 (s.cell.umac.log.map Prod.fst) ∧
    UmacMs.init.run (listenOn 1 864282631 s.cell.umac.log) = .ok (m, outs) ∧ .sdu ⟨1001, .ssi, false⟩ regAnswer 864282631 ∈ outs := by
  obtain ⟨ins, h, s, r1, r2, a, out, l, o, o1, o2, o3, hr, _, _, _, hn, _, _, _, _, _, _, _, hs, hh, hlog, hrep, _⟩ := sample_station
  have hx : Umac.sampleTime.valid := by unfold Time.valid; decide
  have hrun := (Umac.run_log (Verif.Phy.c67_history hx (run_both hr).cell).1).1
  have ok := heard_ok
  unfold heardOk at ok
  rw [hlog] at hrun
  split at ok <;> [skip; cases ok]
  rename_i s' tr e1
  have e2 : (s.cell.umac.sched, s.cell.umac.log) = (s', tr) := by
    have := hrun.symm.trans e1
    cases this; rfl
  cases e2
  split at ok <;> [skip; cases ok]
  rename_i m outs e2
  obtain ⟨o, ho, he⟩ := List.any_eq_true.1 ok
  rw [of_decide_eq_true he] at ho
  exact ⟨ins, h, s, m, outs, hr, by rw [hh]; rfl, by rw [hlog]; exact sample_one, e2, ho⟩

end Verif.Station
