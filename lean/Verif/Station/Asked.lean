import Verif.Station.Clean
import Verif.Umac.RequestProps
/-!
# The whole base station: what the upper MAC is asked for is what the LLC said

C94, from the LLC to the upper MAC: one request for every message of the LLC, in order, and each asks for what the message says.
-/
namespace Verif.Station
open Verif.Tdma Verif.Codec
open Verif.Phy (Cell CellEv CellOut)
open Verif.Umac (TmaReq Addr asks)

/-- A message for the air: all the LLC says except what it passes up and what it reports. -/
def forAir : Llc.Emit → Bool
  | .up .. => false
  | .acknowledged _ => false
  | .lost _ => false
  | _ => true

/-- What the LLC said for the air. -/
def said (tr : List Llc.Item) : List Llc.Emit := tr.filterMap fun i => match i with
  | .out e => if forAir e then some e else none
  | .ev _ => none

/-- The channel in a request is the timeslot `c.2` with usage marker `c.1`, or there is none. -/
def ForChannel (q : TmaReq) : Option (Option Nat × Nat) → Prop
  | none => q.chan = none
  | some c => (∀ t, 1 ≤ t → t ≤ 4 → (asks q.chan t ↔ t = c.2)) ∧ q.chan.bind (·.usage) = c.1 ∧ ∀ r, q.chan = some r → r.ulDl = 3 ∧ r.allocType = 0

/-- The request asks for what the message says: the station, the timeslot, the bits, the channel, and whether a half slot may be stolen. -/
def Faithful (q : TmaReq) : Llc.Emit → Prop
  | .data _ addr ts pdu => q.addr = addr ∧ q.x.t = ts ∧ q.sdu = pdu ∧ q.steal = false ∧ ForChannel q none
  | .ack addr nr ts steal => q.addr = addr ∧ Llc.BlAck.enc ⟨false, nr⟩ = .ok q.sdu ∧ q.steal = steal ∧
      ForChannel q (if steal then some (none, ts) else none)
  | .udata v pdu => q.addr = v.addr ∧ q.x.t = v.ts ∧ q.sdu = pdu ∧ q.steal = v.steal ∧ ForChannel q v.chan
  | _ => False

theorem forChannel_of (x : Time) (n : Nat) (r : Bool) (a : Addr) (st : Bool) (c : Option (Option Nat × Nat)) (sdu : List Bool) :
    ForChannel ⟨x, n, r, a, st, c.map chanOf, sdu⟩ c := by
  cases c with
  | none => rfl
  | some c =>
    refine ⟨fun t h1 h4 => ?_, rfl, fun r hr => ?_⟩
    · simp only [asks, Option.map_some, Option.some.injEq, exists_eq_left', chanOf, beq_iff_eq]
      omega
    · simp only [Option.map_some, Option.some.injEq] at hr
      subst hr
      exact ⟨rfl, rfl⟩

theorem requestOf_faithful {now : Time} {n : Nat} {e : Llc.Emit} {q : TmaReq} (h : requestOf now n e = some q) : Faithful q e := by
  cases e with
  | data i a ts p => cases h; exact ⟨rfl, rfl, rfl, rfl, rfl⟩
  | ack a nr ts st =>
    cases h
    refine ⟨rfl, Llc.BlAck.enc_eq _, rfl, ?_⟩
    cases st
    · rfl
    · exact forChannel_of _ _ _ _ _ (some (none, ts)) _
  | udata v p => cases h; exact ⟨rfl, rfl, rfl, rfl, forChannel_of _ _ _ _ _ v.chan _⟩
  | up => cases h
  | acknowledged => cases h
  | lost => cases h

theorem goesDown_eq (e : Llc.Emit) : goesDown e = forAir e := by cases e <;> rfl

theorem handed_said (t : Time) (l : List Llc.Item) : (handed t l).map Prod.snd = said l := by
  induction l generalizing t with
  | nil => rfl
  | cons i l ih =>
    cases i with
    | ev e => exact ih _
    | out e =>
      simp only [handed, List.map_append, ih, said, List.filterMap_cons, goesDown_eq]
      split
      · rename_i h; simp only [h]; rfl
      · rename_i h; simp only [h]; rfl

theorem zip_faithful {sent : List (Time × Llc.Emit)} (h : ∀ p ∈ sent, goesDown p.2 = true) (k : Nat) :
    List.Forall₂ Faithful ((sent.zipIdx k).filterMap fun p => requestOf p.1.1 p.2 p.1.2) (sent.map Prod.snd) := by
  induction sent generalizing k with
  | nil => exact .nil
  | cons p l ih =>
    obtain ⟨t, e⟩ := p
    have h1 : goesDown e = true := h _ (.head _)
    obtain ⟨q, hq⟩ : ∃ q, requestOf t k e = some q := by cases e <;> first | exact ⟨_, rfl⟩ | cases h1
    simp only [List.zipIdx_cons, List.filterMap_cons, hq, List.map_cons]
    exact .cons (requestOf_faithful hq) (ih (fun p hp => h p (.tail _ hp)) _)

/-- **C94, what is asked for.** In any history of the base station, what the LLC said for the air is, in order, what the upper MAC was asked
for and what still waits to be delivered to it: nothing is lost, doubled or overtaken, and each request is for the station, the timeslot,
the channel and the bits the LLC said. -/
theorem c94_asked {c : Sig.Cfg} {c0 : Cell} {ins : List In} {h : Trace} {s : Station} (hr : Run c c0 ins h s) :
    ∃ done, said (Sig.llcTrace h.calls) = done ++ (waiting s.mac).map Prod.snd ∧ List.Forall₂ Faithful (asked h.radio) done := by
  obtain ⟨sent, hg⟩ := run_gone hr
  refine ⟨sent.map Prod.snd, ?_, ?_⟩
  · rw [← handed_said Time.default, hg.handed, List.map_append]
  · rw [hg.asked]
    exact zip_faithful (fun p hp => handed_down (t := Time.default) (l := Sig.llcTrace h.calls) (by rw [hg.handed]; exact List.mem_append_left _ hp)) 0

/-- An acknowledgement to a station in a call on timeslot 3, and a message for it on the main channel. -/
example : Faithful ⟨⟨3, 1, 1, 0⟩, 0, true, ⟨1000, .issi, false⟩, true, some ⟨none, false, false, true, false, 0, 3⟩, [false, false, true, true, true]⟩
      (.ack ⟨1000, .issi, false⟩ true 3 true) ∧
    ¬ Faithful ⟨⟨3, 1, 1, 0⟩, 0, true, ⟨1000, .issi, false⟩, true, some ⟨none, false, false, false, true, 0, 3⟩, [false, false, true, true, true]⟩
      (.ack ⟨1000, .issi, false⟩ true 3 true) := by
  refine ⟨requestOf_faithful (now := ⟨1, 1, 1, 0⟩) (n := 0) rfl, fun h => ?_⟩
  have := (h.2.2.2.1 3 (by decide) (by decide)).2 rfl
  simp [asks] at this

end Verif.Station
