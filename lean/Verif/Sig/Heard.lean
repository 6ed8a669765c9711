import Verif.Sig.Stack
import Verif.Llc.OweProps
import Verif.Cmce.CmceBsProps
import Mathlib.Data.List.Induction
/-!
# What mobility management and call control hear is what mobiles sent

Property C70: every frame with a message for mobility management or call control makes that entity handle that message, once, in the
order of the frames, under the address of the frame; and nothing else does.
-/
namespace Verif.Sig
open Verif.Tdma Verif.Bits
open Verif.Umac (Addr SsiType)
open Verif.Cmce (BsEv BsOut Bs Party Service SdsView SubUpdate Control)
open Verif.Mm (Mm MmOut)
open Verif.Mle (Mle)
open Verif.Llc (Llc)

/-! ## Specification -/

/-- The bits end with the right FCS of what comes before (EN 300 392-2 clause 22.2.2.1), which is not empty. -/
def EndsWithFcs (bits : List Bool) : Prop := ∃ sdu, sdu ≠ [] ∧ bits = sdu ++ Fcs.fcsBits sdu

/-- A frame with the SDU of a station in acknowledged mode (BL-DATA and BL-ADATA, EN 300 392-2 clauses 21.2.2.1, 21.2.2.3), with or
without FCS. -/
inductive CarriesSdu : List Bool → List Bool → Prop where
  | data (ns : Bool) (sdu : List Bool) : CarriesSdu ([false, false, false, true, ns] ++ sdu) sdu
  | adata (nr ns : Bool) (sdu : List Bool) : CarriesSdu ([false, false, false, false, nr, ns] ++ sdu) sdu
  | dataFcs (ns : Bool) (bits : List Bool) : EndsWithFcs bits → CarriesSdu ([false, true, false, true, ns] ++ bits) bits
  | adataFcs (nr ns : Bool) (bits : List Bool) : EndsWithFcs bits → CarriesSdu ([false, true, false, false, nr, ns] ++ bits) bits

/-- A frame with a message of protocol `d` (clause 18.5.21: 1 mobility management, 2 call control, 4 packet data, 5 MLE). -/
def Carries (pdu : List Bool) (d : Nat) (msg : List Bool) : Prop := d < 8 ∧ CarriesSdu pdu (toBits 3 d ++ msg)

/-- A message a protocol hears: the protocol, the sender, the timeslot it came in, the bits. -/
structure Message where
  protocol : Nat
  sender : Nat
  slot : Nat
  bits : List Bool
  deriving DecidableEq, Repr

/-- The messages in frames, one after the other: `Sends frames messages` when the messages of mobility management and call control in the
frames are exactly these, in this order. -/
inductive Sends : List (Addr × Nat × List Bool) → List Message → Prop where
  | nil : Sends [] []
  | message {fs : List (Addr × Nat × List Bool)} {ms : List Message} {addr : Addr} {ts : Nat} {pdu : List Bool} {d : Nat} {msg : List Bool} :
      Sends fs ms → Carries pdu d msg → d = 1 ∨ d = 2 → Sends (fs ++ [(addr, ts, pdu)]) (ms ++ [⟨d, addr.ssi, ts, msg⟩])
  | other {fs : List (Addr × Nat × List Bool)} {ms : List Message} {addr : Addr} {ts : Nat} {pdu : List Bool} :
      Sends fs ms → (∀ d msg, Carries pdu d msg → d ≠ 1 ∧ d ≠ 2) → Sends (fs ++ [(addr, ts, pdu)]) ms

/-- The frames of a history. -/
def frames (evs : List Ev) : List (Addr × Nat × List Bool) := evs.filterMap fun e => match e with
  | .frame addr ts pdu => some (addr, ts, pdu)
  | _ => none

/-- The messages mobility management and call control were handed. -/
def heard (tr : List Call) : List Message := tr.filterMap fun k => match k with
  | .mm _ addr ts sdu _ => some ⟨1, addr.ssi, ts, sdu⟩
  | .cmce at_ (.mobile ssi sdu) _ => some ⟨2, ssi, at_.msg, sdu⟩
  | _ => none

/-! ## The frame as a function -/

/-- Does it end with its FCS? -/
def endsFcs (bits : List Bool) : Bool :=
  decide (32 < bits.length) && decide (bits.drop (bits.length - 32) = Fcs.fcsBits (bits.take (bits.length - 32)))

/-- The SDU in a frame. -/
def sduOf : List Bool → Option (List Bool)
  | false :: false :: false :: true :: _ :: sdu => some sdu
  | false :: false :: false :: false :: _ :: _ :: sdu => some sdu
  | false :: true :: false :: true :: _ :: sdu => if endsFcs sdu then some sdu else none
  | false :: true :: false :: false :: _ :: _ :: sdu => if endsFcs sdu then some sdu else none
  | _ => none

/-- The protocol and the message of an SDU. -/
def splitSdu (sdu : List Bool) : Option (Nat × List Bool) :=
  if 3 ≤ sdu.length then some (ofBits (sdu.take 3), sdu.drop 3) else none

theorem fcsBits_length (d : List Bool) : (Fcs.fcsBits d).length = 32 := by simp [Fcs.fcsBits]

theorem endsFcs_iff (bits : List Bool) : endsFcs bits = true ↔ EndsWithFcs bits := by
  simp only [endsFcs, Bool.and_eq_true, decide_eq_true_eq, EndsWithFcs]
  constructor
  · rintro ⟨h1, h2⟩
    refine ⟨bits.take (bits.length - 32), ?_, ?_⟩
    · intro h3; have := congrArg List.length h3; simp at this; omega
    · rw [← h2]; exact (List.take_append_drop _ _).symm
  · rintro ⟨sdu, h1, rfl⟩
    have hl := fcsBits_length sdu
    have hp := List.length_pos_iff.2 h1
    have e : (sdu ++ Fcs.fcsBits sdu).length - 32 = sdu.length := by simp [hl]
    refine ⟨by simp [hl]; omega, ?_⟩
    rw [e]; simp

theorem sduOf_iff (pdu sdu : List Bool) : sduOf pdu = some sdu ↔ CarriesSdu pdu sdu := by
  constructor
  · intro h
    unfold sduOf at h
    split at h
    · cases h; exact .data _ _
    · cases h; exact .adata _ _ _
    · split at h
      · cases h; exact .dataFcs _ _ ((endsFcs_iff _).1 ‹_›)
      · cases h
    · split at h
      · cases h; exact .adataFcs _ _ _ ((endsFcs_iff _).1 ‹_›)
      · cases h
    · cases h
  · intro h
    cases h with
    | data => simp [sduOf]
    | adata => simp [sduOf]
    | dataFcs ns bits hb => simp [sduOf, (endsFcs_iff _).2 hb]
    | adataFcs nr ns bits hb => simp [sduOf, (endsFcs_iff _).2 hb]

theorem splitSdu_iff (sdu : List Bool) (d : Nat) (msg : List Bool) : splitSdu sdu = some (d, msg) ↔ d < 8 ∧ sdu = toBits 3 d ++ msg := by
  unfold splitSdu
  constructor
  · intro h
    split at h
    · rename_i hl
      simp only [Option.some.injEq, Prod.mk.injEq] at h
      obtain ⟨rfl, rfl⟩ := h
      have h3 : (sdu.take 3).length = 3 := by simp [List.length_take]; omega
      refine ⟨by have := ofBits_lt (sdu.take 3); rw [h3] at this; exact this, ?_⟩
      have e := toBits_ofBits (sdu.take 3)
      rw [h3] at e
      rw [e]
      exact (List.take_append_drop 3 sdu).symm
    · cases h
  · rintro ⟨h, rfl⟩
    rw [if_pos (by simp)]
    simp [ofBits_toBits (n := 3) h]

/-- The message in a frame, for mobility management or call control. -/
def messageOf (addr : Addr) (ts : Nat) (pdu : List Bool) : Option Message :=
  match (sduOf pdu).bind splitSdu with
  | some (d, msg) => if d = 1 ∨ d = 2 then some ⟨d, addr.ssi, ts, msg⟩ else none
  | none => none

theorem carries_iff (pdu : List Bool) (d : Nat) (msg : List Bool) : (sduOf pdu).bind splitSdu = some (d, msg) ↔ Carries pdu d msg := by
  rw [Option.bind_eq_some_iff]
  constructor
  · rintro ⟨sdu, h1, h2⟩
    rw [splitSdu_iff] at h2
    rw [sduOf_iff] at h1
    exact ⟨h2.1, h2.2 ▸ h1⟩
  · rintro ⟨h1, h2⟩
    exact ⟨_, (sduOf_iff _ _).2 h2, (splitSdu_iff _ _ _).2 ⟨h1, rfl⟩⟩

/-- A frame carries at most one message. -/
theorem carries_unique {pdu : List Bool} {d d' : Nat} {m m' : List Bool} (h : Carries pdu d m) (h' : Carries pdu d' m') : d = d' ∧ m = m' := by
  rw [← carries_iff] at h h'
  rw [h] at h'
  cases h'
  exact ⟨rfl, rfl⟩

theorem sends_messageOf (fs : List (Addr × Nat × List Bool)) : Sends fs (fs.filterMap fun f => messageOf f.1 f.2.1 f.2.2) := by
  induction fs using List.reverseRecOn with
  | nil => exact .nil
  | append_singleton fs f ih =>
    obtain ⟨addr, ts, pdu⟩ := f
    rw [List.filterMap_append]
    cases hb : (sduOf pdu).bind splitSdu with
    | none =>
      have e : [(addr, ts, pdu)].filterMap (fun f => messageOf f.1 f.2.1 f.2.2) = [] := by simp [messageOf, hb]
      rw [e, List.append_nil]
      refine .other ih fun d msg h => ?_
      rw [← carries_iff, hb] at h; cases h
    | some q =>
      obtain ⟨d, msg⟩ := q
      have hc := (carries_iff _ _ _).1 hb
      by_cases hd : d = 1 ∨ d = 2
      · have e : [(addr, ts, pdu)].filterMap (fun f => messageOf f.1 f.2.1 f.2.2) = [⟨d, addr.ssi, ts, msg⟩] := by
          simp [messageOf, hb, hd]
        rw [e]
        exact .message ih hc hd
      · have e : [(addr, ts, pdu)].filterMap (fun f => messageOf f.1 f.2.1 f.2.2) = [] := by simp [messageOf, hb, hd]
        rw [e, List.append_nil]
        refine .other ih fun d' msg' h => ?_
        obtain ⟨rfl, _⟩ := carries_unique h hc
        omega

/-- The messages are determined by the frames. -/
theorem sends_unique {fs : List (Addr × Nat × List Bool)} {ms : List Message} (h : Sends fs ms) : ms = fs.filterMap fun f => messageOf f.1 f.2.1 f.2.2 := by
  induction h with
  | nil => rfl
  | message _ hc hd ih =>
    rw [List.filterMap_append, ← ih]
    simp [messageOf, (carries_iff _ _ _).2 hc, hd]
  | @other fs ms addr ts pdu _ hn ih =>
    rw [List.filterMap_append, ← ih]
    have : messageOf addr ts pdu = none := by
      unfold messageOf
      split
      · rename_i d msg hb
        have := hn d msg ((carries_iff _ _ _).1 hb)
        rw [if_neg (by omega)]
      · rfl
    simp [this]

/-! ## The LLC -/

/-- What the LLC hands MLE for a frame. -/
theorem fcsGood_spec {fcs : Bool} {body : List Bool} {g : Bool} (h : Llc.fcsGood fcs body = .ok g) :
    g = (!fcs || endsFcs body) := by
  unfold Llc.fcsGood at h
  split at h
  · rename_i hf
    subst hf
    unfold Llc.fcsOk at h
    split at h
    · cases h; simp [endsFcs]; omega
    · split at h
      · cases h
      · cases h
        have : 32 < body.length := by omega
        simp [endsFcs, this]
  · cases h; simp_all

theorem processAck_noUp {s s' : Llc} {ssi : Nat} {nr : Bool} {es : List Llc.Emit} (h : s.processAck ssi nr = .ok (s', es)) (ts : Nat) :
    es.filterMap (ofLlc ts) = [] := by
  obtain ⟨_, _, h3⟩ := Llc.processAck_balance h
  rw [List.filterMap_eq_nil_iff]
  intro e he
  obtain ⟨i, rfl⟩ := h3 e he
  rfl

/-- What the LLC pushes for MLE when it is handed a frame. -/
def upward (addr : Addr) (ts : Nat) (pdu : List Bool) : List Letter :=
  match sduOf pdu with
  | some sdu => [.mle (.dataInd addr (Llc.linkOf ts) ts (if sdu = [] then none else some sdu))]
  | none => []

/-- A BL-UDATA which the LLC accepts. -/
def unitdata : List Bool → Option (List Bool)
  | false :: false :: true :: false :: sdu => some sdu
  | false :: true :: true :: false :: sdu => if endsFcs sdu then some sdu else none
  | _ => none

/-- What it pushes for a BL-UDATA. -/
def upwardU (addr : Addr) (ts : Nat) (pdu : List Bool) : List Letter :=
  match unitdata pdu with
  | some sdu => [.mle (.unitdataInd addr (Llc.linkOf ts) ts (if sdu = [] then none else some sdu))]
  | none => []

theorem ind_up {s s' : Llc} {addr : Addr} {ts : Nat} {pdu : List Bool} {es : List Llc.Emit} (h : s.step (.ind addr ts pdu) = .ok (s', es)) :
    es.filterMap (ofLlc ts) = upward addr ts pdu ++ upwardU addr ts pdu := by
  have accept : ∀ {k fcs ns nr body s' es}, s.acceptBl k addr ts fcs ns nr body = .ok (s', es) →
      es.filterMap (ofLlc ts) = (Llc.deliver k addr ts fcs body).filterMap (ofLlc ts) := by
    intro k fcs ns nr body s' es h
    simp only [Llc.acceptBl, Res.bind_eq_ok] at h
    obtain ⟨⟨s1, e1⟩, h1, h2⟩ := h
    cases h2
    rw [List.filterMap_append]
    have : e1.filterMap (ofLlc ts) = [] := by
      cases nr with
      | none => cases h1; rfl
      | some nr => exact processAck_noUp h1 ts
    rw [this, List.nil_append]
  have rx : ∀ {k fcs ns nr body}, Llc.parseBl k pdu = some (fcs, ns, nr, body) → s.rxBl k addr ts pdu = .ok (s', es) →
      es.filterMap (ofLlc ts) = if (!fcs || endsFcs body) = true then (Llc.deliver k addr ts fcs body).filterMap (ofLlc ts) else [] := by
    intro k fcs ns nr body hp h
    simp only [Llc.rxBl, hp, Res.bind_eq_ok] at h
    obtain ⟨g, h1, h2⟩ := h
    have := fcsGood_spec h1
    subst this
    split at h2
    · rename_i hg; rw [if_pos hg]; exact accept h2
    · rename_i hg; rw [if_neg hg]; cases h2; rfl
  simp only [Llc.step, Llc.unitdataInd] at h
  match pdu, h with
  | [], h => cases h; rfl
  | [a], h => cases a <;> simp [Llc.kindOf] at h <;> simp [h.2, upward, upwardU, sduOf, unitdata]
  | [a, _], h => cases a <;> simp [Llc.kindOf] at h <;> simp [h.2, upward, upwardU, sduOf, unitdata]
  | [a, _, c], h => cases a <;> cases c <;> simp [Llc.kindOf] at h <;> simp [h.2, upward, upwardU, sduOf, unitdata]
  | true :: b :: c :: d :: r, h =>
    have hu : upward addr ts (true :: b :: c :: d :: r) ++ upwardU addr ts (true :: b :: c :: d :: r) = [] := by
      simp [upward, upwardU, sduOf, unitdata]
    rw [hu]
    cases b <;> cases c <;> cases d <;> simp [Llc.kindOf] at h <;> simp [h.2]
  | false :: f :: true :: true :: r, h =>
    have hu : upward addr ts (false :: f :: true :: true :: r) ++ upwardU addr ts (false :: f :: true :: true :: r) = [] := by
      cases f <;> simp [upward, upwardU, sduOf, unitdata]
    rw [hu]
    simp only [Llc.kindOf] at h
    cases hp : Llc.parseBl .ack (false :: f :: true :: true :: r) with
    | none => simp [Llc.rxBl, hp] at h; simp [h.2]
    | some q =>
      obtain ⟨fcs, ns, nr, body⟩ := q
      rw [rx hp h]
      split <;> simp [Llc.deliver]
  | false :: f :: true :: false :: r, h =>
    simp only [Llc.kindOf] at h
    have hp : Llc.parseBl .udata (false :: f :: true :: false :: r) = some (f, none, none, r) := by
      simp [Llc.parseBl, Llc.BlUdata.dec, Llc.rdHead_run]
    rw [rx hp h]
    cases f
    · simp [upward, upwardU, sduOf, unitdata, Llc.deliver, ofLlc]
    · cases hf : endsFcs r <;> simp [upward, upwardU, sduOf, unitdata, Llc.deliver, ofLlc, hf]
  | false :: f :: false :: true :: r, h =>
    simp only [Llc.kindOf] at h
    cases r with
    | nil =>
      have hp : Llc.parseBl .data [false, f, false, true] = none := by
        cases f <;> simp [Llc.parseBl, Llc.BlData.dec, Llc.rdHead_run, Codec.Rd.flag]
      simp only [Llc.rxBl, hp] at h
      cases h
      cases f <;> simp [upward, upwardU, sduOf, unitdata]
    | cons ns r =>
      have hp : Llc.parseBl .data (false :: f :: false :: true :: ns :: r) = some (f, some ns, none, r) := by
        simp [Llc.parseBl, Llc.BlData.dec, Llc.rdHead_run]
      rw [rx hp h]
      cases f
      · simp [upward, upwardU, sduOf, unitdata, Llc.deliver, ofLlc]
      · cases hf : endsFcs r <;> simp [upward, upwardU, sduOf, unitdata, Llc.deliver, ofLlc, hf]
  | false :: f :: false :: false :: r, h =>
    simp only [Llc.kindOf] at h
    match r, h with
    | [], h =>
      have hp : Llc.parseBl .adata [false, f, false, false] = none := by
        cases f <;> simp [Llc.parseBl, Llc.BlAdata.dec, Llc.rdHead_run, Codec.Rd.flag]
      simp only [Llc.rxBl, hp] at h
      cases h
      cases f <;> simp [upward, upwardU, sduOf, unitdata]
    | [nr], h =>
      have hp : Llc.parseBl .adata [false, f, false, false, nr] = none := by
        cases f <;> simp [Llc.parseBl, Llc.BlAdata.dec, Llc.rdHead_run, Codec.Rd.flag]
      simp only [Llc.rxBl, hp] at h
      cases h
      cases f <;> simp [upward, upwardU, sduOf, unitdata]
    | nr :: ns :: r, h =>
      have hp : Llc.parseBl .adata (false :: f :: false :: false :: nr :: ns :: r) = some (f, some ns, some nr, r) := by
        simp [Llc.parseBl, Llc.BlAdata.dec, Llc.rdHead_run]
      rw [rx hp h]
      cases f
      · simp [upward, upwardU, sduOf, unitdata, Llc.deliver, ofLlc]
      · cases hf : endsFcs r <;> simp [upward, upwardU, sduOf, unitdata, Llc.deliver, ofLlc, hf]

/-- The LLC hands MLE something only when it is handed a frame. -/
theorem quiet_up {s s' : Llc} {e : Llc.Ev} {es : List Llc.Emit} (h : s.step e = .ok (s', es)) (he : ∀ a t p, e ≠ .ind a t p) (ts : Nat) :
    es.filterMap (ofLlc ts) = [] := by
  have hfree : ∀ (b : List Nat) (l : List Llc.Msg), ∀ x ∈ (Llc.sendFree b l).2, ofLlc ts x = none := by
    intro b l
    induction l generalizing b with
    | nil => simp [Llc.sendFree]
    | cons m r ih =>
      intro x hx
      unfold Llc.sendFree at hx
      split at hx
      · exact ih _ x hx
      · split at hx
        · exact ih _ x hx
        · rcases List.mem_cons.1 hx with rfl | hx
          · rfl
          · exact ih _ x hx
  have hdrop : ∀ (l : List Nat) (out : List Llc.Msg) (q : List Llc.Msg × List Llc.Emit), Llc.dropAll out l = .ok q → ∀ x ∈ q.2, ofLlc ts x = none := by
    intro l
    induction l with
    | nil => intro out q h; cases h; simp
    | cons ssi l ih =>
      intro out q h x hx
      unfold Llc.dropAll at h
      split at h
      · cases h
      · simp only [Res.bind_eq_ok] at h
        obtain ⟨_, _, q', h2, h3⟩ := h
        cases h3
        rcases List.mem_cons.1 hx with rfl | hx
        · rfl
        · exact ih _ _ h2 x hx
  rw [List.filterMap_eq_nil_iff]
  intro x hx
  cases e with
  | ind a t p => exact (he a t p rfl).elim
  | dataReq =>
    simp only [Llc.step, Res.bind_eq_ok] at h
    obtain ⟨_, _, h⟩ := h
    cases h; cases hx
  | unitdataReq => cases h; cases hx
  | mac => cases h; cases hx
  | tickStart => cases h; cases hx
  | tickEnd =>
    simp only [Llc.step, Llc.tickEnd, Llc.retransmit, Res.bind_eq_ok] at h
    obtain ⟨r, ⟨d, hd, hr⟩, h⟩ := h
    cases hr
    cases h
    simp only [List.mem_append] at hx
    rcases hx with ((⟨hx | hx⟩ | hx) | hx) | hx
    · rw [List.mem_flatten] at hx
      obtain ⟨l, hl, hx⟩ := hx
      rw [List.map_map, List.mem_map] at hl
      obtain ⟨m, _, rfl⟩ := hl
      simp only [Function.comp, Llc.Msg.retry] at hx
      split at hx
      · split at hx
        · simp at hx; subst hx; rfl
        · cases hx
      · cases hx
    · exact hdrop _ _ _ hd x hx
    · exact hfree _ _ x hx
    · rw [List.mem_map] at hx
      obtain ⟨a, _, rfl⟩ := hx; rfl
    · rw [List.mem_map] at hx
      obtain ⟨a, _, rfl⟩ := hx; rfl

/-! ## The queue -/

/-- A message on its way in the queue, three deliveries away from its protocol, two, or one. -/
def inFrame : Letter → Option Message
  | .frame addr ts pdu => messageOf addr ts pdu
  | _ => none

def protocolOf (addr : Addr) (ts : Nat) (sdu : List Bool) : Option Message :=
  match splitSdu sdu with
  | some (d, msg) => if d = 1 ∨ d = 2 then some ⟨d, addr.ssi, ts, msg⟩ else none
  | none => none

def atMle : Letter → Option Message
  | .mle (.dataInd addr _ ts (some sdu)) => protocolOf addr ts sdu
  | _ => none

def atTop : Letter → Option Message
  | .mm _ addr ts sdu => some ⟨1, addr.ssi, ts, sdu⟩
  | .cmce ts (.mobile ssi sdu) => some ⟨2, ssi, ts, sdu⟩
  | _ => none

/-- The messages on their way, the nearest first. -/
def waiting (q : List Letter) : List Message := q.filterMap atTop ++ q.filterMap atMle ++ q.filterMap inFrame

theorem messageOf_eq (addr : Addr) (ts : Nat) (pdu : List Bool) : messageOf addr ts pdu = (sduOf pdu).bind (protocolOf addr ts) := by
  unfold messageOf protocolOf
  cases sduOf pdu <;> rfl

theorem protocolOf_nil (addr : Addr) (ts : Nat) : protocolOf addr ts [] = none := rfl

/-- Letters which carry no message of a mobile. -/
def Inert (l : Letter) : Prop := atTop l = none ∧ atMle l = none ∧ inFrame l = none

theorem waiting_inert {q ls : List Letter} (h : ∀ l ∈ ls, Inert l) : waiting (q ++ ls) = waiting q := by
  have h1 : ls.filterMap atTop = [] := List.filterMap_eq_nil_iff.2 fun l hl => (h l hl).1
  have h2 : ls.filterMap atMle = [] := List.filterMap_eq_nil_iff.2 fun l hl => (h l hl).2.1
  have h3 : ls.filterMap inFrame = [] := List.filterMap_eq_nil_iff.2 fun l hl => (h l hl).2.2
  simp [waiting, List.filterMap_append, h1, h2, h3]

theorem inert_ofMm {addr : Addr} {ts : Nat} {sdu : List Bool} {out : List MmOut} : ∀ l ∈ out.filterMap (ofMm addr ts sdu), Inert l := by
  intro l hl
  rw [List.mem_filterMap] at hl
  obtain ⟨o, _, ho⟩ := hl
  cases o <;> simp [ofMm] at ho <;> subst ho <;> exact ⟨rfl, rfl, rfl⟩

theorem inert_ofBs {ts : BsOut → Nat} {out : List BsOut} : ∀ l ∈ out.filterMap (ofBs ts), Inert l := by
  intro l hl
  rw [List.mem_filterMap] at hl
  obtain ⟨o, _, ho⟩ := hl
  cases o <;> simp [ofBs] at ho <;> subst ho <;> exact ⟨rfl, rfl, rfl⟩

/-- What MLE pushes for a message of a mobile. -/
theorem mle_up {s s' : Mle} {addr : Addr} {link ts : Nat} {sdu : Option (List Bool)} {out : List Mle.Out}
    (h : s.rx (.dataInd addr link ts sdu) = .ok (s', out)) :
    (out.map ofMle).filterMap atTop = (sdu.bind (protocolOf addr ts)).toList ∧ (out.map ofMle).filterMap atMle = [] ∧
      (out.map ofMle).filterMap inFrame = [] := by
  cases sdu with
  | none => cases h
  | some sdu =>
    simp only [Mle.Mle.rx, Mle.Mle.dataInd] at h
    simp only [Option.bind_some, protocolOf, splitSdu]
    split at h
    · rename_i hl
      cases h
      rw [if_neg (by omega)]
      exact ⟨rfl, rfl, rfl⟩
    · rename_i hl
      rw [if_pos (by omega)]
      have key : ∀ d, ofBits (sdu.take 3) = d → d < 8 := by
        intro d hd
        have := ofBits_lt (sdu.take 3)
        have h3 : (sdu.take 3).length = 3 := by simp [List.length_take]; omega
        rw [h3] at this; omega
      generalize ofBits (sdu.take 3) = d at h key
      have h8 := key d rfl
      have : d = 0 ∨ d = 1 ∨ d = 2 ∨ d = 3 ∨ d = 4 ∨ d = 5 ∨ d = 6 ∨ d = 7 := by omega
      rcases this with rfl | rfl | rfl | rfl | rfl | rfl | rfl | rfl
      · cases h; exact ⟨rfl, rfl, rfl⟩
      · simp only [Mle.Disc.ofRaw, Mle.Mle.dispatch, Res.bind_eq_ok] at h
        obtain ⟨r, _, h⟩ := h
        cases h; exact ⟨rfl, rfl, rfl⟩
      · simp only [Mle.Disc.ofRaw, Mle.Mle.dispatch, Res.bind_eq_ok] at h
        obtain ⟨r, _, h⟩ := h
        cases h; exact ⟨rfl, rfl, rfl⟩
      all_goals cases h; exact ⟨rfl, rfl, rfl⟩

theorem mle_down {s s' : Mle} {m : Mle.In} {out : List Mle.Out} (h : s.rx m = .ok (s', out)) (hm : ∀ a l t d, m ≠ .dataInd a l t d) :
    ∀ l ∈ out.map ofMle, Inert l := by
  intro l hl
  cases m with
  | dataInd a k t d => exact (hm a k t d rfl).elim
  | unitdataInd => cases h
  | lmm addr ts service sdu =>
    simp only [Mle.Mle.rx, Mle.lmmReq, Res.bind_eq_ok] at h
    obtain ⟨o, h1, h2⟩ := h
    split at h1
    · cases h1
    · cases h1; cases h2
      simp only [List.map_cons, List.map_nil, List.mem_singleton] at hl
      subst hl; exact ⟨rfl, rfl, rfl⟩
  | lcmc addr ts service chan stealing sdu =>
    cases h
    unfold Mle.lcmcReq at hl
    split at hl <;>
    · simp only [List.map_cons, List.map_nil, List.mem_singleton] at hl
      subst hl; exact ⟨rfl, rfl, rfl⟩

theorem pushTime_ok {ts : Nat} {e : Codec.Out (List Bool)} {out : List Mle.Out} (h : Mle.pushTime ts e = .ok out) :
    out = [] ∨ ∃ bs, out = [.tlUnitdata Mle.everyone ts none false (toBits 3 5 ++ bs)] := by
  cases e with
  | ok bs =>
    simp only [Mle.pushTime, Res.ok.injEq] at h
    exact .inr ⟨bs, h.symm⟩
  | err => simp only [Mle.pushTime, Res.ok.injEq] at h; exact .inl h.symm
  | panic => cases h

theorem mle_tick {s s' : Mle} {now : Time} {clock : Mle.Clock} {out : List Mle.Out} (h : s.tick now clock = .ok (s', out)) :
    out = [] ∨ ∃ bs, out = [.tlUnitdata Mle.everyone now.t none false (toBits 3 5 ++ bs)] := by
  simp only [Mle.Mle.tick, Mle.Mle.broadcast] at h
  split at h
  · split at h
    · simp only [Res.bind_eq_ok, Res.ok.injEq, Prod.mk.injEq] at h
      obtain ⟨o, h1, _, h2⟩ := h
      exact h2 ▸ pushTime_ok h1
    · simp only [Res.ok.injEq, Prod.mk.injEq] at h
      exact .inl h.2.symm
  · simp only [Res.ok.injEq, Prod.mk.injEq] at h
    exact .inl h.2.symm

theorem mle_tick_inert {s s' : Mle} {now : Time} {clock : Mle.Clock} {out : List Mle.Out} (h : s.tick now clock = .ok (s', out)) :
    ∀ l ∈ out.map ofMle, Inert l := by
  intro l hl
  rcases mle_tick h with rfl | ⟨bs, rfl⟩
  · cases hl
  · simp only [List.map_cons, List.map_nil, List.mem_singleton] at hl
    subst hl; exact ⟨rfl, rfl, rfl⟩

/-! ## Calls -/

theorem callLlc_ok {s s' : St} {ts : Nat} {e : Llc.Ev} {k : List Call} (h : s.callLlc ts e = .ok (s', k)) :
    ∃ l es, s.llc.step e = .ok (l, es) ∧ s' = { s with llc := l, queue := s.queue ++ es.filterMap (ofLlc ts) } ∧ k = [.llc e es] := by
  simp only [St.callLlc, Res.bind_eq_ok] at h
  obtain ⟨r, h1, h2⟩ := h
  cases h2
  exact ⟨r.1, r.2, h1, rfl, rfl⟩

theorem callMle_ok {s s' : St} {m : Mle.In} {k : List Call} (h : s.callMle m = .ok (s', k)) :
    ∃ l es, s.mle.rx m = .ok (l, es) ∧ s' = { s with mle := l, queue := s.queue ++ es.map ofMle } ∧ k = [.mle m es] := by
  simp only [St.callMle, Res.bind_eq_ok] at h
  obtain ⟨r, h1, h2⟩ := h
  cases h2
  exact ⟨r.1, r.2, h1, rfl, rfl⟩

theorem callMm_ok {c : Cfg} {s s' : St} {handle : Nat} {addr : Addr} {ts : Nat} {sdu : List Bool} {k : List Call}
    (h : s.callMm c handle addr ts sdu = .ok (s', k)) :
    ∃ l es, s.mm.rx c.brew handle addr.ssi sdu = .ok (l, es) ∧ s' = { s with mm := l, queue := s.queue ++ es.filterMap (ofMm addr ts sdu) } ∧
      k = [.mm handle addr ts sdu es] := by
  simp only [St.callMm, Res.bind_eq_ok] at h
  obtain ⟨r, h1, h2⟩ := h
  cases h2
  exact ⟨r.1, r.2, h1, rfl, rfl⟩

theorem callBs_ok {c : Cfg} {s s' : St} {ts : Nat} {e : BsEv} {k : List Call} (h : s.callBs c ts e = .ok (s', k)) :
    ∃ l es, s.bs.step ⟨s.mm.registry, c.brew⟩ e = .ok (l, es) ∧
      s' = { s with bs := l, queue := s.queue ++ es.filterMap (ofBs (stampOf ⟨ts, s.bs.cc.now.t⟩ e)) } ∧ k = [.cmce ⟨ts, s.bs.cc.now.t⟩ e es] := by
  simp only [St.callBs, Res.bind_eq_ok] at h
  obtain ⟨r, h1, h2⟩ := h
  cases h2
  exact ⟨r.1, r.2, h1, rfl, rfl⟩

theorem tickMle_ok {s s' : St} {now : Time} {clock : Mle.Clock} {k : List Call} (h : s.tickMle now clock = .ok (s', k)) :
    ∃ l es, s.mle.tick now clock = .ok (l, es) ∧ s' = { s with mle := l, queue := s.queue ++ es.map ofMle } ∧ k = [.time es] := by
  simp only [St.tickMle, Res.bind_eq_ok] at h
  obtain ⟨r, h1, h2⟩ := h
  cases h2
  exact ⟨r.1, r.2, h1, rfl, rfl⟩

theorem andThen_ok {a : Res (St × List Call)} {f : St → Res (St × List Call)} {s' : St} {k : List Call} (h : andThen a f = .ok (s', k)) :
    ∃ s1 k1 k2, a = .ok (s1, k1) ∧ f s1 = .ok (s', k2) ∧ k = k1 ++ k2 := by
  simp only [andThen, Res.bind_eq_ok] at h
  obtain ⟨r, h1, q, h2, h3⟩ := h
  cases h3
  exact ⟨r.1, r.2, q.2, h1, h2, rfl⟩

/-- A property of steps holds for every event if it holds for single calls, and holds one after the other. This is the shape of the
proofs below. -/
theorem step_induction {c : Cfg} (P : St → List Call → St → Prop)
    (trans : ∀ {s1 s2 s3 k1 k2}, P s1 k1 s2 → P s2 k2 s3 → P s1 (k1 ++ k2) s3)
    (llc : ∀ {s s' ts e k}, (∀ a t p, e ≠ .ind a t p) → (∀ a t st f x p, e ≠ .dataReq a t st f x p) → (∀ a p, e ≠ .unitdataReq a p) →
      s.callLlc ts e = .ok (s', k) → P s k s')
    (time : ∀ {s s' now clock k}, s.tickMle now clock = .ok (s', k) → P s k s')
    (bs : ∀ {s s' ts now cmds k}, s.callBs c ts (.tick now cmds) = .ok (s', k) → P s k s')
    {s s' : St} {e : Ev} {k : List Call} (h : s.step c e = .ok (s', k))
    (he : (∃ now cmds clock b, e = .tickStart now cmds clock b) ∨ e = .tickEnd ∨ ∃ id d, e = .mac id d) : P s k s' := by
  rcases he with ⟨now, cmds, clock, b, rfl⟩ | rfl | ⟨id, d, rfl⟩
  · simp only [St.step] at h
    obtain ⟨s1, k1, k2, h1, h2, rfl⟩ := andThen_ok h
    refine trans (llc (by simp) (by simp) (by simp) h1) ?_
    split at h2
    · obtain ⟨s3, k3, k4, h3, h4, rfl⟩ := andThen_ok h2
      exact trans (time h3) (bs h4)
    · obtain ⟨s3, k3, k4, h3, h4, rfl⟩ := andThen_ok h2
      exact trans (bs h3) (time h4)
  · exact llc (by simp) (by simp) (by simp) h
  · exact llc (by simp) (by simp) (by simp) h

theorem heard_append (a b : List Call) : heard (a ++ b) = heard a ++ heard b := by simp [heard]

/-- A call which takes no message from the queue. -/
theorem heard_aside {c : Cfg} {s s' : St} {e : Ev} {k : List Call} (h : s.step c e = .ok (s', k))
    (he : (∃ now cmds clock b, e = .tickStart now cmds clock b) ∨ e = .tickEnd ∨ ∃ id d, e = .mac id d) :
    heard k = [] ∧ waiting s'.queue = waiting s.queue := by
  refine step_induction (fun s k s' => heard k = [] ∧ waiting s'.queue = waiting s.queue) ?_ ?_ ?_ ?_ h he
  · rintro s1 s2 s3 k1 k2 ⟨h1, h2⟩ ⟨h3, h4⟩
    exact ⟨by rw [heard_append, h1, h3]; rfl, h4.trans h2⟩
  · intro s s' ts e k he _ _ h
    obtain ⟨l, es, h1, rfl, rfl⟩ := callLlc_ok h
    refine ⟨rfl, ?_⟩
    simp [quiet_up h1 he]
  · intro s s' now clock k h
    obtain ⟨l, es, h1, rfl, rfl⟩ := tickMle_ok h
    exact ⟨rfl, waiting_inert (mle_tick_inert h1)⟩
  · intro s s' ts now cmds k h
    obtain ⟨l, es, h1, rfl, rfl⟩ := callBs_ok h
    exact ⟨rfl, waiting_inert inert_ofBs⟩

/-- A delivery moves the message it carries one place on. -/
theorem heard_deliver {c : Cfg} {s s' : St} {l : Letter} {q : List Letter} {k : List Call}
    (h : { s with queue := q }.handle c l = .ok (s', k)) : heard k ++ waiting s'.queue = waiting (l :: q) := by
  cases l with
  | frame addr ts pdu =>
    obtain ⟨l, es, h1, rfl, rfl⟩ := callLlc_ok h
    have hu := ind_up h1
    have h0 : heard [Call.llc (.ind addr ts pdu) es] = [] := rfl
    rw [h0, List.nil_append]
    simp only [hu]
    have hU : ∀ l ∈ upwardU addr ts pdu, Inert l := by
      intro l hl
      unfold upwardU at hl
      split at hl
      · simp only [List.mem_singleton] at hl; subst hl; exact ⟨rfl, rfl, rfl⟩
      · cases hl
    rw [← List.append_assoc, waiting_inert hU]
    simp only [waiting, List.filterMap_cons, inFrame, atTop, atMle, messageOf_eq, List.filterMap_append]
    unfold upward
    cases hs : sduOf pdu with
    | none => simp
    | some sdu =>
      by_cases hn : sdu = []
      · subst hn
        simp [List.filterMap_cons, atTop, atMle, inFrame, protocolOf_nil]
      · simp only [hn, if_false, Option.bind_some]
        cases hp : protocolOf addr ts sdu <;> simp [List.filterMap_cons, atTop, atMle, inFrame, hp]
  | mle m =>
    obtain ⟨l, es, h1, rfl, rfl⟩ := callMle_ok h
    have h0 : heard [Call.mle m es] = [] := rfl
    rw [h0, List.nil_append]
    by_cases hm : ∃ a l t d, m = .dataInd a l t d
    · obtain ⟨a, li, t, d, rfl⟩ := hm
      obtain ⟨e1, e2, e3⟩ := mle_up h1
      simp only [waiting, List.filterMap_append, e1, e2, e3]
      cases d with
      | none => cases h1
      | some d =>
        cases hp : protocolOf a t d <;> simp [List.filterMap_cons, atTop, atMle, inFrame, hp]
    · have hm' : ∀ a l t d, m ≠ .dataInd a l t d := fun a l t d e => hm ⟨a, l, t, d, e⟩
      simp only [waiting_inert (mle_down h1 hm')]
      have : Inert (.mle m) := by
        cases m with
        | dataInd a l t d => exact (hm' a l t d rfl).elim
        | _ => exact ⟨rfl, rfl, rfl⟩
      simp [waiting, this.1, this.2.1, this.2.2]
  | mm handle addr ts sdu =>
    obtain ⟨l, es, h1, rfl, rfl⟩ := callMm_ok h
    simp only [waiting_inert inert_ofMm]
    rfl
  | cmce ts e =>
    obtain ⟨l, es, h1, rfl, rfl⟩ := callBs_ok h
    simp only [waiting_inert inert_ofBs]
    cases e <;> rfl
  | sndcp => cases h
  | tlData addr ts st sdu =>
    obtain ⟨l, es, h1, rfl, rfl⟩ := callLlc_ok h
    simp only [quiet_up h1 (by simp), List.append_nil]
    rfl
  | tlUnitdata addr sdu =>
    obtain ⟨l, es, h1, rfl, rfl⟩ := callLlc_ok h
    simp only [quiet_up h1 (by simp), List.append_nil]
    rfl

theorem frames_append (a b : List Ev) : frames (a ++ b) = frames a ++ frames b := by simp [frames]

/-- The messages of the frames are the ones heard and the ones on their way. -/
theorem heard_inv {c : Cfg} {evs : List Ev} {tr : List Call} {s : St} (h : Run c evs tr s) :
    (frames evs).filterMap (fun f => messageOf f.1 f.2.1 f.2.2) = heard tr ++ waiting s.queue := by
  induction h with
  | init => rfl
  | reorder _ _ ih => exact ih
  | @step evs tr calls s s' e _ hs ih =>
    rw [frames_append, List.filterMap_append, ih, heard_append]
    have aside : ((∃ now cmds clock b, e = .tickStart now cmds clock b) ∨ e = .tickEnd ∨ ∃ id d, e = .mac id d) →
        frames [e] = [] → heard tr ++ waiting s.queue ++ (frames [e]).filterMap (fun f => messageOf f.1 f.2.1 f.2.2) =
          heard tr ++ heard calls ++ waiting s'.queue := by
      intro he hf
      obtain ⟨h1, h2⟩ := heard_aside hs he
      rw [hf, h1, h2]; simp
    cases e with
    | frame addr ts pdu =>
      cases hs
      have h0 : heard [] = [] := rfl
      simp only [h0, List.append_nil, waiting, List.filterMap_append, frames, List.filterMap_cons, List.filterMap_nil, inFrame, atTop, atMle]
      cases messageOf addr ts pdu <;> simp
    | toCmce ts e =>
      cases hs
      have h0 : heard [] = [] := rfl
      have hi : ∀ l ∈ [Letter.cmce ts e.ev], Inert l := by
        intro l hl
        simp only [List.mem_singleton] at hl
        subst hl
        cases e <;> exact ⟨rfl, rfl, rfl⟩
      rw [h0, waiting_inert hi]
      simp [frames]
    | deliver =>
      have h0 : frames [.deliver] = [] := rfl
      simp only [St.step] at hs
      rw [h0, List.filterMap_nil, List.append_nil]
      split at hs
      · cases hs
        rename_i hq
        simp [heard]
      · rename_i l q hq
        rw [hq, ← heard_deliver hs, List.append_assoc]
    | tickStart now cmds clock b => exact aside (.inl ⟨_, _, _, _, rfl⟩) rfl
    | tickEnd => exact aside (.inr (.inl rfl)) rfl
    | mac id d => exact aside (.inr (.inr ⟨_, _, rfl⟩)) rfl

/-- **C70.** In every history mobility management and call control have been handed the messages which mobiles sent, in order, each
once and under the address of its frame; what is missing is still in the queue, and nothing is missing when the queue is empty. -/
theorem c70_heard {c : Cfg} {evs : List Ev} {tr : List Call} {s : St} (h : Run c evs tr s) :
    ∃ rest, Sends (frames evs) (heard tr ++ rest) ∧ (s.queue = [] → rest = []) := by
  refine ⟨waiting s.queue, ?_, fun hq => by rw [hq]; rfl⟩
  rw [← heard_inv h]
  exact sends_messageOf _

end Verif.Sig
