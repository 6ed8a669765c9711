import Verif.Station.AirProps
import Verif.Sig.Short
import Verif.Umac.UmacAddr
/-!
# The whole base station: everything the LLC hands down can be put on the air

C94 without assumptions about the messages. What remains assumed is that no station was answered in a way which cannot be sent: an
acknowledgement to an encrypted random access, a grant to nobody after an overflow, and a grant which begins after more than 13
opportunities (findings of C36 and C21: the first two and most of the third abort the base station when they are due).
-/
namespace Verif.Station
open Verif.Tdma Verif.Codec
open Verif.Phy (Air Cell CellEv CellOut CellRun callsOf callsOf_append c67_history)
open Verif.Umac (TmaReq ChanReq MacCtl UmacOut UmacEv Report Block Addr UmacRun UmacBs Precomps SchedEv SchedRet MacResource AddrOk
  Carried bitsIn reportsIn reported UmacMs Wanted)

variable {brew : Bool} {carrier scramb : Nat} {x : Time} {wide : Bool} {pre : Precomps} {code : BitVec 32}

/-- An answer to a station which can be sent: an acknowledgement in clear; a grant to somebody, beginning after at most 13 opportunities. -/
def Sayable (e : SchedEv) : Prop :=
  (∀ t a, e = .ack t a → a.encrypted = false) ∧ ∀ t a g, e = .grant t a g → a.ssiType ≠ .unknown ∧ ∀ n, g.delay = .delay n → n ≤ 13

theorem sayable_fine {e : SchedEv} (h : Umac.AnswerOk e) (hs : Sayable e) : RxFine e := by
  refine ⟨?_, ?_⟩
  · rintro t a rfl
    refine ⟨h.1, hs.1 t a rfl, ?_⟩
    rcases h.2 with h | h | h <;> simp [h]
  · rintro t a g rfl
    obtain ⟨k1, k2⟩ := hs.2 t a g rfl
    obtain ⟨⟨h1, h2, h3⟩, h4, h5⟩ := h
    refine ⟨⟨h1, h2, ?_⟩, h4, fun n hn => ⟨h5 n hn, k2 n hn⟩⟩
    rcases h3 with h | h | h | h
    · exact absurd h k1
    all_goals simp [h]

theorem origin_addr {gs : List Umac.Given} {before : Verif.Phy.Calls} {k : Umac.UlCtx} {bits : List Bool} {a : Addr} {b : List Bool}
    (h : OriginOf gs before k bits a b) : AddrOk a ∨ b = [] := by
  have key : FromAir a → AddrOk a := by
    rintro ⟨h1, h2, h3⟩
    refine ⟨h1, h2, ?_⟩
    rcases h3 with h | h | h <;> simp [h]
  rcases h with h | ⟨rfl, _⟩ | ⟨p, ps, l, _, ⟨c0, b0, o0, _, _, h⟩, _⟩ | ⟨_, rfl⟩
  · exact .inl (key ((sentIn_addr h).1 _ _ rfl))
  · exact .inl ⟨by decide, rfl, .inl rfl⟩
  · exact .inl (key ((sentIn_addr h).2 _ _ rfl))
  · exact .inr rfl

theorem handed_out {t : Time} {l : List Llc.Item} {p : Time × Llc.Emit} (h : p ∈ handed t l) : .out p.2 ∈ l := by
  induction l generalizing t with
  | nil => cases h
  | cons i l ih =>
    cases i with
    | ev e => exact .tail _ (ih h)
    | out e =>
      simp only [handed, List.mem_append] at h
      rcases h with h | h
      · split at h
        · rw [List.mem_singleton] at h; subst h; exact .head _
        · cases h
      · exact .tail _ (ih h)

/-- **C94, what is handed down can be sent.** In any history of the base station, whatever mobile stations, the network and the control
link do, every message the LLC hands down is for an address of 24 bits in clear, and a channel allocation in it has a usage marker of 6 bits. -/
theorem c94_plain (hx : x.valid) {c : Sig.Cfg} {ins : List In} {h : Trace} {s : Station}
    (hr : Run c ⟨.init brew carrier x scramb wide pre, .init code⟩ ins h s) :
    ∀ p ∈ handed Time.default (Sig.llcTrace h.calls), Plain p.2 := by
  have hs : Sig.StShort h.calls s.sig := by
    refine Sig.st_short (run_both hr).sig fun e he => ?_
    cases e with
    | frame a ts b =>
      have hm : (a, ts, b) ∈ Sig.frames h.evs := List.mem_filterMap.2 ⟨_, he, rfl⟩
      rw [run_frames hr] at hm
      obtain ⟨_, _, _, _, _, _, _, _, _, ho⟩ := indication_origin hx (run_both hr).cell hm
      exact origin_addr ho
    | _ => trivial
  intro p hp
  have h1 := hs.sent _ (handed_out hp)
  have h2 := handed_down hp
  obtain ⟨t, e⟩ := p
  cases e <;> first | exact h1 | cases h2

theorem sound_of {c : Sig.Cfg} {ins : List In} {h : Trace} {s : Station} (hx : x.valid) (hc : carrier < 4096)
    (hr : Run c ⟨.init brew carrier x scramb wide pre, .init code⟩ ins h s) (hs : ∀ e ∈ s.cell.umac.log.map Prod.fst, Sayable e) :
    Sound carrier h s := by
  refine ⟨hc, c94_plain hx hr, fun e he => ?_⟩
  obtain ⟨p, hp, rfl⟩ := List.mem_map.1 he
  exact sayable_fine ((Umac.run_answering (c67_history hx (run_both hr).cell).1).log p hp) (hs _ he)

/-- **C94, the fate of a message.** In any history of the base station: the `n`-th message the LLC handed down, when it has been delivered to
the upper MAC, is on the air once, complete and under its address, and so reported; or waits; or was thrown away and so reported. -/
theorem c94_fate (hx : x.valid) (hc : carrier < 4096) {c : Sig.Cfg} {ins : List In} {h : Trace} {s : Station}
    (hr : Run c ⟨.init brew carrier x scramb wide pre, .init code⟩ ins h s) (hs : ∀ e ∈ s.cell.umac.log.map Prod.fst, Sayable e)
    {n : Nat} (hn : n < s.next) :
    ∃ now e q after, (handed Time.default (Sig.llcTrace h.calls))[n]? = some (now, e) ∧ requestOf now n e = some q ∧
      after <:+ s.cell.umac.log.map Prod.fst ∧
      Fate carrier q after s.cell.umac.sched.queues (bitsIn n s.cell.umac.log) (reportsIn n s.cell.umac.log) :=
  fate_of_sound hx hr (sound_of hx hc hr hs) hn

/-- **C94, the LLC is told.** What the LLC was told of its messages to be acknowledged, in order, is what the upper MAC reported of
them, in order: no report is lost, none is given twice, and none goes to another message. -/
theorem c94_reports (hx : x.valid) (hc : carrier < 4096) {c : Sig.Cfg} {ins : List In} {h : Trace} {s : Station}
    (hr : Run c ⟨.init brew carrier x scramb wide pre, .init code⟩ ins h s) (hs : ∀ e ∈ s.cell.umac.log.map Prod.fst, Sayable e) :
    reportsTo h.evs = (reported s.cell.umac.log).filterMap (reportFor (handed Time.default (Sig.llcTrace h.calls))) :=
  reports_of_sound hx hr (sound_of hx hc hr hs)

/-- **C94, over the air.** A mobile station listening on a timeslot of the cell, from the first slot on: there is, for each number of a
message of the LLC, what the station is to hear of it (the message and its address, as the LLC handed them down for this timeslot), and
the station passes up what is to be heard of the messages reported as transmitted, in the order of the reports, or has aborted.
The messages sent in stolen half slots are apart (C90). Missing: parts of two messages at once on the timeslot (C81). -/
theorem c94_station_partial (hx : x.valid) (hc : carrier < 4096) {c : Sig.Cfg} {ins : List In} {h : Trace} {s : Station}
    (hr : Run c ⟨.init brew carrier x scramb wide pre, .init code⟩ ins h s) (hs : ∀ e ∈ s.cell.umac.log.map Prod.fst, Sayable e)
    (i : Fin 4) (sc : Nat)
    (hlen : ∀ n now e q, (handed Time.default (Sig.llcTrace h.calls))[n]? = some (now, e) → requestOf now n e = some q → q.sdu.length ≤ 4096)
    (hone : Umac.OneAtATime (Umac.Sched.init x scramb pre) i (s.cell.umac.log.map Prod.fst)) :
    ∃ want : Nat → Option Wanted,
      (∀ n w, want n = some w → ∃ now e q, (handed Time.default (Sig.llcTrace h.calls))[n]? = some (now, e) ∧ requestOf now n e = some q ∧
        Meant carrier (i.val + 1) q w) ∧
      (∀ n now e q, n < s.next → (handed Time.default (Sig.llcTrace h.calls))[n]? = some (now, e) → requestOf now n e = some q →
        q.steal = false → q.x.t = i.val + 1 → ∃ w, want n = some w ∧ Meant carrier (i.val + 1) q w) ∧
      (UmacMs.init.run (Umac.listenOn (i.val + 1) sc s.cell.umac.log) = .panic ∨
      ∃ m outs, UmacMs.init.run (Umac.listenOn (i.val + 1) sc s.cell.umac.log) = .ok (m, outs) ∧
        Umac.Heard sc (Umac.told want (reported s.cell.umac.log)) outs) :=
  station_of_sound hx hr (sound_of hx hc hr hs) i sc hlen hone

end Verif.Station
