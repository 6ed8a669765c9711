import Verif.Cmce.CmceBs
import Verif.Cmce.CallFit
import Verif.Cmce.CallFloorProps
import Verif.Cmce.CallProps
import Verif.Cmce.SdsProps
import Verif.Mm.PdusProps
/-!
# C57 — Calls on the air are the calls decided on

Mobiles know only bits. `hear` is what a mobile makes of a message of the entity, `Means` what the bits of a mobile ask for.
-/
namespace Verif.Cmce
open Verif.Bits Verif.Codec Verif.TypedFields Tdma Pdu

/-! ## Specification -/

/-- A message which is a whole PDU. -/
def decoded {α : Type} (p : Rd α) (sdu : List Bool) : Option α :=
  match p.run sdu with
  | .ok (x, []) => some x
  | _ => none

/-- Clause 14.8.42. -/
def grantOf : Nat → Option TxGrant
  | 0 => some .granted
  | 1 => some .notGranted
  | 3 => some .grantedToOther
  | _ => none

/-- Clause 14.8.18. -/
def causeOf : Nat → Option Cause
  | 1 => some .userRequested
  | 8 => some .notAvailable
  | 13 => some .expiryOfTimer
  | 14 => some .swmiRequested
  | _ => none

/-- What the receiver of a message learns about calls: a mobile from the bits and the channel allocation which comes with them,
the MAC and the backhaul directly. -/
def hear : BsOut → Option CcOut
  | .air to _ chan stealing sdu =>
    match ofBits (sdu.take 5) with
    | 1 => (decoded DCallProceeding.dec sdu).bind fun x => some (.dCallProceeding to x.callId)
    | 2 => (decoded DConnect.dec sdu).bind fun x => (grantOf x.grant).bind fun g =>
        some (.dConnect to x.callId g x.ownership (chan.bind fun c => c.1.map fun u => (u, c.2)))
    | 6 => (decoded DRelease.dec sdu).bind fun x => (causeOf x.cause).bind fun c => some (.dRelease to x.callId c)
    | 7 => (decoded DSetup.dec sdu).bind fun x => (grantOf x.grant).bind fun g => x.callingSsi.bind fun caller =>
        chan.bind fun c => c.1.bind fun u => some (.dSetup to x.callId g caller (u, c.2))
    | 9 => (decoded DTxCeased.dec sdu).bind fun x => chan.bind fun c =>
        if stealing then some (.dTxCeased to x.callId c.2) else none
    | 11 => (decoded DTxGranted.dec sdu).bind fun x => (grantOf x.grant).bind fun g => x.transmitting.bind fun p =>
        p.ssi.bind fun speaker => chan.bind fun c => if stealing then some (.dTxGranted to x.callId g speaker c.2) else none
    | _ => none
  | .signal o => some o
  | _ => none

/-- The D-SETUP in a message. -/
def hearSetup : BsOut → Option DSetup
  | .air _ _ _ _ sdu => decoded DSetup.dec sdu
  | _ => none

/-- A call the base station can serve: in this cell, no hook signalling, simplex. -/
def Serveable (x : USetup) : Prop := x.area ≤ 1 ∧ x.hook = false ∧ x.simplexDuplex = false

/-- What an event means for calls. -/
def Means : BsEv → CcEv → Prop
  | .tick now _, c => c = .tick now
  | .mobile ssi sdu, c =>
    (∃ x rest ok, USetup.dec.run sdu = .ok (x, rest) ∧ (ok = true ↔ Serveable x) ∧
      c = .uSetup ssi ok x.called.ssi x.basicService.communication) ∨
    (∃ x rest, UTxDemand.dec.run sdu = .ok (x, rest) ∧ c = .uTxDemand ssi x.callId) ∨
    (∃ x rest, UTxCeased.dec.run sdu = .ok (x, rest) ∧ c = .uTxCeased ssi x.callId) ∨
    (∃ x rest, URelease.dec.run sdu = .ok (x, rest) ∧ c = .uRelease ssi x.callId) ∨
    (∃ x rest, UDisconnect.dec.run sdu = .ok (x, rest) ∧ c = .uDisconnect ssi x.callId)
  | .update u, c => c = .update u
  | .netStart uuid speaker gssi, c => c = .netStart uuid speaker gssi
  | .netEnd uuid, c => c = .netEnd uuid
  | .inactive ts, c => c = .inactive ts
  | .sdsFromBrew _ _ _, _ => False

/-- A history of the entity read as one of calls: events which mean nothing for calls are passed over, and nothing about calls
is heard after them. -/
inductive Reads : List (BsEv × List BsOut) → List (CcEv × List CcOut) → Prop where
  | nil : Reads [] []
  | call {h : List (BsEv × List BsOut)} {h' : List (CcEv × List CcOut)} {e : BsEv} {out : List BsOut} {c : CcEv} :
      Reads h h' → Means e c → Reads (h ++ [(e, out)]) (h' ++ [(c, out.filterMap hear)])
  | aside {h : List (BsEv × List BsOut)} {h' : List (CcEv × List CcOut)} {e : BsEv} {out : List BsOut} :
      Reads h h' → (∀ c, ¬ Means e c) → out.filterMap hear = [] → Reads (h ++ [(e, out)]) h'

/-- Service and priority an event asks for: those of a U-SETUP; speech to a group for a call from the network. -/
def asks : BsEv → Asked
  | .mobile _ sdu =>
    match USetup.dec.run sdu with
    | .ok (x, _) => ⟨x.basicService, x.priority⟩
    | _ => netAsked
  | _ => netAsked

/-- What was asked for when a call was last connected. -/
def askedAfter (t : Nat → Asked) (e : BsEv × List BsOut) : Nat → Asked :=
  fun id => if newCall (e.2.filterMap hear) = some id then asks e.1 else t id
def askedIn (h : List (BsEv × List BsOut)) : Nat → Asked := h.foldl askedAfter fun _ => netAsked

/-- Numbers of stations have 24 bits; calls from the network are for groups which go over it. -/
def BsEv.Sane (routable : Nat → Bool) : BsEv → Prop
  | .mobile ssi _ => ssi < 2 ^ 24
  | .netStart _ speaker gssi => speaker < 2 ^ 24 ∧ routable gssi = true
  | _ => True

/-- The entity after a history of sane events, each with what was sent. The registry may be any at any time. -/
inductive BsRun (routable : Nat → Bool) : List (BsEv × List BsOut) → Bs → Prop where
  | init : BsRun routable [] (.init routable)
  | step {h : List (BsEv × List BsOut)} {s s' : Bs} {v : SdsView} {e : BsEv} {out : List BsOut} :
      BsRun routable h s → e.Sane routable → s.step v e = .ok (s', out) → BsRun routable (h ++ [(e, out)]) s'
  | reorder {h : List (BsEv × List BsOut)} {s : Bs} {cc' : Cc} :
      BsRun routable h s → s.cc.Reordered cc' → BsRun routable h { s with cc := cc' }

/-! ## Writing and hearing -/

structure Asked.Ok (a : Asked) : Prop where
  service : a.service.Ok
  priority : a.priority < 2 ^ 4

theorem netAsked_ok : netAsked.Ok := ⟨⟨by decide, by decide, by simp [netAsked], by simp [netAsked]⟩, by decide⟩

theorem cat_type {k n : Nat} {l : List (Out (List Bool))} {bs : List Bool} (h : cat (wBits k n :: l) = .ok bs) :
    bs.take n = toBits n k ∧ k < 2 ^ n := by
  rw [cat_cons, Out.bind_eq_ok] at h
  obtain ⟨a, ha, h⟩ := h
  obtain ⟨b, hb, h⟩ := Out.bind_eq_ok.1 h
  cases h
  obtain ⟨_, hk, rfl⟩ := Mm.wBits_eq_ok ha
  exact ⟨by rw [List.take_append_of_le_length (by simp), List.take_of_length_le (by simp)], hk⟩

theorem decoded_of {α : Type} {p : Rd α} {bs : List Bool} {x : α} (h : ∀ rest, p.run (bs ++ rest) = .ok (x, rest)) :
    decoded p bs = some x := by
  have := h []
  rw [List.append_nil] at this
  simp [decoded, this]

/-- A PDU written whole is read whole, and its type is in the first five bits. -/
theorem pduHeard {α : Type} {enc : α → Out (List Bool)} {dec : Rd α} {x : α} {k : Nat} {l : List (Out (List Bool))}
    (h : RoundTrip enc dec x) (hk : enc x = cat (wBits k 5 :: l)) :
    ∃ bs, expectBits (enc x) = .ok bs ∧ ofBits (bs.take 5) = k ∧ decoded dec bs = some x := by
  obtain ⟨bs, hw, hr⟩ := h
  obtain ⟨h1, h2⟩ := cat_type (hk ▸ hw)
  exact ⟨bs, by simp [hw, expectBits], by rw [h1, ofBits_toBits h2], decoded_of hr⟩

theorem wire_of {w : Out (List Bool)} {bs : List Bool} (h : expectBits w = .ok bs) (f : List Bool → BsOut) :
    (expectBits w >>= fun bs => Res.ok (f bs)) = .ok (f bs) := by rw [h]; rfl

theorem grantOf_raw (g : TxGrant) : grantOf g.raw = some g := by cases g <;> rfl
theorem causeOf_raw (c : Cause) : causeOf c.raw = some c := by cases c <;> rfl
theorem grant_lt (g : TxGrant) : g.raw < 2 ^ 2 := by cases g <;> decide
theorem cause_le (c : Cause) : c.raw ≤ 23 := by cases c <;> decide

theorem dSetup_heard {id caller : Nat} (g : TxGrant) {a : Asked} (hi : id < 2 ^ 14) (hc : caller < 2 ^ 24) (ha : a.Ok) :
    ∃ bs, expectBits (dSetupPdu id g caller a).enc = .ok bs ∧ ofBits (bs.take 5) = 7 ∧
      decoded DSetup.dec bs = some (dSetupPdu id g caller a) := by
  refine pduHeard (c38_cmce_d_setup _ ?_) rfl
  exact ⟨hi, (by decide : (7:Nat) < 2 ^ 4), ha.service, grant_lt g, ha.priority, by simp [NumOk, dSetupPdu], by simp [NumOk, dSetupPdu],
    by intro v hv; cases hv; exact hc, by simp [NumOk, dSetupPdu], by simp [dSetupPdu], by simp [RawOk, dSetupPdu],
    by simp [RawOk, dSetupPdu], by simp [RawOk, dSetupPdu], by simp [RawOk, dSetupPdu]⟩

/-- A message which fits is written, and heard as it is. -/
theorem hear_wire (o : CcOut) {a : Asked} (ho : o.Fits) (ha : a.Ok) : ∃ b, o.wire a = .ok b ∧ hear b = some o := by
  cases o with
  | dCallProceeding to id =>
    obtain ⟨bs, h1, h2, h3⟩ := pduHeard (c38_cmce_d_call_proceeding (dCallProceedingPdu id)
      ⟨ho, (by decide : (4:Nat) < 2 ^ 3), by simp [dCallProceedingPdu], by simp [dCallProceedingPdu], by simp [NumOk, dCallProceedingPdu],
        by simp [RawOk, dCallProceedingPdu], by simp [RawOk, dCallProceedingPdu]⟩) rfl
    exact ⟨_, wire_of h1 _, by simp [hear, h2, h3, dCallProceedingPdu]⟩
  | dConnect to id g owner chan =>
    obtain ⟨bs, h1, h2, h3⟩ := pduHeard (c38_cmce_d_connect (dConnectPdu id g owner)
      ⟨ho, (by decide : (7:Nat) < 2 ^ 4), grant_lt g, by simp [NumOk, dConnectPdu], by simp [dConnectPdu], by simp [NumOk, dConnectPdu],
        by simp [NumOk, dConnectPdu], by simp [RawOk, dConnectPdu], by simp [RawOk, dConnectPdu]⟩) rfl
    refine ⟨_, wire_of h1 _, ?_⟩
    cases chan <;> simp [hear, h2, h3, dConnectPdu, grantOf_raw]
  | dSetup to id g caller chan =>
    obtain ⟨bs, h1, h2, h3⟩ := dSetup_heard g ho.1 ho.2 ha
    exact ⟨_, wire_of h1 _, by simp [hear, h2, h3, dSetupPdu, grantOf_raw]⟩
  | dRelease to id c =>
    obtain ⟨bs, h1, h2, h3⟩ := pduHeard (c38_cmce_d_release (dReleasePdu id c)
      ⟨ho, cause_le c, by simp [NumOk, dReleasePdu], by simp [RawOk, dReleasePdu], by simp [RawOk, dReleasePdu]⟩) rfl
    exact ⟨_, wire_of h1 _, by simp [hear, h2, h3, dReleasePdu, causeOf_raw]⟩
  | dTxCeased to id ts =>
    obtain ⟨bs, h1, h2, h3⟩ := pduHeard (c38_cmce_d_tx_ceased (dTxCeasedPdu id)
      ⟨ho, by simp [NumOk, dTxCeasedPdu], by simp [RawOk, dTxCeasedPdu], by simp [RawOk, dTxCeasedPdu], by simp [RawOk, dTxCeasedPdu]⟩) rfl
    exact ⟨_, wire_of h1 _, by simp [hear, h2, h3, dTxCeasedPdu]⟩
  | dTxGranted to id g speaker ts =>
    obtain ⟨bs, h1, h2, h3⟩ := pduHeard (c38_cmce_d_tx_granted (dTxGrantedPdu id g speaker)
      ⟨ho.1, grant_lt g, by simp [NumOk, dTxGrantedPdu],
        by intro v hv; cases hv; exact ⟨by simp, by simpa using ho.2, by simp⟩, by simp [RawOk, dTxGrantedPdu],
        by simp [RawOk, dTxGrantedPdu], by simp [RawOk, dTxGrantedPdu], by simp [RawOk, dTxGrantedPdu]⟩) rfl
    exact ⟨_, wire_of h1 _, by simp [hear, h2, h3, dTxGrantedPdu, grantOf_raw]⟩
  | _ => exact ⟨_, rfl, rfl⟩

theorem wireAll_ok {asked : Assoc Nat Asked} (ha : ∀ id a, asked.get id = some a → a.Ok) (os : List CcOut) (ho : ∀ o ∈ os, o.Fits) :
    ∃ bs, wireAll asked os = .ok bs ∧ bs.filterMap hear = os := by
  induction os with
  | nil => exact ⟨[], rfl, rfl⟩
  | cons o os ih =>
    obtain ⟨bs, h1, h2⟩ := ih fun x hx => ho x (List.mem_cons_of_mem _ hx)
    have hok : ((o.announces.bind asked.get).getD netAsked).Ok := by
      cases h : o.announces.bind asked.get with
      | none => exact netAsked_ok
      | some a =>
        obtain ⟨id, _, hg⟩ := Option.bind_eq_some_iff.1 h
        exact ha id a hg
    obtain ⟨b, h3, h4⟩ := hear_wire o (ho o List.mem_cons_self) hok
    exact ⟨b :: bs, by simp only [wireAll, h3, h1, Res.bind_ok], by simp [h4, h2]⟩

/-! ## Reading -/

theorem basicService_gives : BasicService.dec.Gives BasicService.Ok := by
  refine Rd.gives_bind (Rd.gives_bits 3) fun m hm => Rd.gives_bind (Rd.gives_any _) fun e _ => Rd.gives_bind (Rd.gives_bits 2) fun c hc =>
    Rd.gives_bind (Rd.gives_bits 2) fun v hv => Rd.gives_pure ?_
  by_cases h : m = 0
  · simp only [h, if_true]
    exact ⟨by simp, hc, by simpa using hv, by simp⟩
  · simp only [h, if_false]
    exact ⟨hm, hc, fun q => (h q).elim, fun _ => ⟨rfl, v, rfl, hv⟩⟩

/-- What a mobile asks for in a U-SETUP can be announced. -/
theorem uSetup_gives : USetup.dec.Gives fun x => x.basicService.Ok ∧ x.priority < 2 ^ 4 :=
  Rd.gives_bind (Rd.gives_any _) fun _ _ => Rd.gives_bind (Rd.gives_any _) fun _ _ => Rd.gives_bind (Rd.gives_any _) fun _ _ =>
    Rd.gives_bind (Rd.gives_any _) fun _ _ => Rd.gives_bind basicService_gives fun _ hb => Rd.gives_bind (Rd.gives_any _) fun _ _ =>
    Rd.gives_bind (Rd.gives_bits 4) fun _ hp => Rd.gives_bind (Rd.gives_any _) fun _ _ => Rd.gives_bind (Rd.gives_any _) fun _ _ =>
    Rd.gives_bind (Rd.gives_any _) fun _ _ => Rd.gives_pure ⟨hb, hp⟩

/-- A PDU read has its type in the first five bits. -/
theorem type_of_read {α : Type} {k : Nat} {f : Rd α} {sdu : List Bool} {x : α} {rest : List Bool}
    (h : (expectType 5 k >>= fun _ => f).run sdu = .ok (x, rest)) : ¬ sdu.length < 5 ∧ ofBits (sdu.take 5) = k := by
  rw [Rd.run_bind, Out.bind_eq_ok] at h
  obtain ⟨⟨_, r⟩, h1, _⟩ := h
  simp only [expectType, Rd.run_bind, Out.bind_eq_ok] at h1
  obtain ⟨⟨v, r1⟩, h1, h2⟩ := h1
  obtain ⟨hv, rfl, _⟩ := run_bits_ok h1
  by_cases e : v = k
  · subst e
    refine ⟨by simp, ?_⟩
    rw [List.take_append_of_le_length (by simp), List.take_of_length_le (by simp), ofBits_toBits hv]
  · simp only [e, if_false, Rd.run_fail] at h2
    cases h2

/-- Messages of short data say nothing about calls. -/
theorem quiet {bs : List Bool} (h : ofBits (bs.take 5) = 8 ∨ ofBits (bs.take 5) = 15) (to : Party) (sv : Service)
    (chan : Option (Option Nat × Nat)) (st : Bool) : hear (.air to sv chan st bs) = none ∧ hearSetup (.air to sv chan st bs) = none := by
  have : decoded DSetup.dec bs = none := by
    unfold decoded
    cases hd : DSetup.dec.run bs with
    | ok r =>
      obtain ⟨x, rest⟩ := r
      have := (type_of_read hd).2
      omega
    | _ => rfl
  refine ⟨?_, this⟩
  rcases h with h | h <;> simp [hear, h]

theorem sendSds_quiet {source dest : Nat} {group : Bool} {data : Sds} {out : List SdsOut}
    (h : sendSds source dest group data = .ok out) : ∀ x ∈ out, hear x.wire = none ∧ hearSetup x.wire = none := by
  unfold sendSds at h
  split at h
  · rename_i bs hb
    cases h
    intro x hx
    rw [List.mem_singleton.1 hx]
    obtain ⟨h1, h2⟩ := cat_type (k := 15) hb
    exact quiet (Or.inr (by rw [h1, ofBits_toBits h2])) _ _ _ _
  · cases h; simp
  · cases h

theorem sendStatus_quiet {source dest : Nat} {st : Status} {out : List SdsOut}
    (h : sendStatus source dest st = .ok out) : ∀ x ∈ out, hear x.wire = none ∧ hearSetup x.wire = none := by
  unfold sendStatus at h
  split at h
  · rename_i bs hb
    cases h
    intro x hx
    rw [List.mem_singleton.1 hx]
    obtain ⟨h1, h2⟩ := cat_type (k := 8) hb
    exact quiet (Or.inl (by rw [h1, ofBits_toBits h2])) _ _ _ _
  · cases h; simp
  · cases h

theorem rxUSdsData_quiet {v : SdsView} {source : Nat} {sdu : List Bool} {out : List SdsOut}
    (h : rxUSdsData v source sdu = .ok out) : ∀ x ∈ out, hear x.wire = none ∧ hearSetup x.wire = none := by
  unfold rxUSdsData at h
  split at h
  · cases h
  · cases h; simp
  · split at h
    · cases h; simp
    · unfold deliverSds at h
      split at h
      · exact sendSds_quiet h
      · split at h
        · exact sendSds_quiet h
        · split at h
          · cases h; intro x hx; rw [List.mem_singleton.1 hx]; exact ⟨rfl, rfl⟩
          · cases h; simp

theorem rxUStatus_quiet {v : SdsView} {source : Nat} {sdu : List Bool} {out : List SdsOut}
    (h : rxUStatus v source sdu = .ok out) : ∀ x ∈ out, hear x.wire = none ∧ hearSetup x.wire = none := by
  unfold rxUStatus at h
  split at h
  · cases h
  · cases h; simp
  · split at h
    · cases h; simp
    · unfold deliverStatus at h
      split at h
      · exact sendStatus_quiet h
      · split at h
        · cases h; intro x hx; rw [List.mem_singleton.1 hx]; exact ⟨rfl, rfl⟩
        · cases h; simp

theorem rxSdsFromBrew_quiet {v : SdsView} {source dest : Nat} {data : Sds} {out : List SdsOut}
    (h : rxSdsFromBrew v source dest data = .ok out) : ∀ x ∈ out, hear x.wire = none ∧ hearSetup x.wire = none := by
  unfold rxSdsFromBrew at h
  split at h
  · exact sendSds_quiet h
  · cases h; simp

theorem controls_quiet {v : SdsView} {cmds : List Control} {out : List BsOut} (h : controls v cmds = .ok out) :
    ∀ x ∈ out, hear x = none ∧ hearSetup x = none := by
  induction cmds generalizing out with
  | nil => cases h; simp
  | cons c cs ih =>
    cases c with
    | other => cases h
    | sendSds c =>
      obtain ⟨r, hr, h⟩ := Res.bind_eq_ok.1 h
      obtain ⟨rest, hrest, h⟩ := Res.bind_eq_ok.1 h
      cases h
      have hq : ∀ x ∈ r.1, hear x.wire = none ∧ hearSetup x.wire = none := by
        unfold rxSdsFromControl at hr
        split at hr
        · obtain ⟨o, ho, hr⟩ := Res.bind_eq_ok.1 hr
          cases hr
          exact sendSds_quiet ho
        · cases hr; simp
      intro x hx
      rcases List.mem_append.1 hx with hx | hx
      · obtain ⟨y, hy, rfl⟩ := List.mem_map.1 hx
        exact hq y hy
      · rcases List.mem_cons.1 hx with rfl | hx
        · exact ⟨rfl, rfl⟩
        · exact ih hrest x hx

theorem hear_nil {out : List BsOut} (h : ∀ x ∈ out, hear x = none ∧ hearSetup x = none) : out.filterMap hear = [] :=
  List.filterMap_eq_nil_iff.2 fun x hx => (h x hx).1

theorem quiet_map {out : List SdsOut} (h : ∀ x ∈ out, hear x.wire = none ∧ hearSetup x.wire = none) :
    ∀ x ∈ out.map SdsOut.wire, hear x = none ∧ hearSetup x = none := by
  intro x hx
  obtain ⟨y, hy, rfl⟩ := List.mem_map.1 hx
  exact h y hy

/-! ## What a mobile asks for -/

theorem supported_iff (x : USetup) : USetup.supported x = true ↔ Serveable x := by
  simp only [USetup.supported, Serveable, Bool.and_eq_true, Bool.or_eq_true, beq_iff_eq, Bool.not_eq_true']
  constructor
  · rintro ⟨⟨h, h2⟩, h3⟩; exact ⟨by omega, h2, h3⟩
  · rintro ⟨h, h2, h3⟩; exact ⟨⟨by omega, h2⟩, h3⟩

theorem uplink_of_means {ssi : Nat} {sdu : List Bool} {c : CcEv} (h : Means (.mobile ssi sdu) c) :
    uplink ssi sdu = .ok (.call c (asks (.mobile ssi sdu))) := by
  rcases h with ⟨x, rest, ok, h, hok, rfl⟩ | ⟨x, rest, h, rfl⟩ | ⟨x, rest, h, rfl⟩ | ⟨x, rest, h, rfl⟩ | ⟨x, rest, h, rfl⟩
  all_goals have ht := type_of_read h
  · have : USetup.supported x = ok := by rw [Bool.eq_iff_iff, supported_iff, hok]
    simp only [uplink, ht.1, ht.2, if_false, readCall, h, this, asks]
  all_goals
    have hn : asks (.mobile ssi sdu) = netAsked := by
      unfold asks
      simp only
      split
      · rename_i y _ hy
        have := (type_of_read hy).2
        rw [ht.2] at this
        omega
      · rfl
    simp only [uplink, ht.1, ht.2, if_false, readCall, h, hn]

theorem means_of_uplink {ssi : Nat} {sdu : List Bool} {c : CcEv} {a : Asked} (h : uplink ssi sdu = .ok (.call c a)) :
    Means (.mobile ssi sdu) c := by
  have key : ∀ {α : Type} {p : Rd α} {f : α → CcEv × Asked}, readCall p sdu f = .ok (.call c a) →
      ∃ x rest, p.run sdu = .ok (x, rest) ∧ c = (f x).1 := by
    intro α p f h
    unfold readCall at h
    split at h
    · rename_i x rest hx
      cases h
      exact ⟨x, rest, hx, rfl⟩
    · cases h
    · cases h
  unfold uplink at h
  split at h
  · cases h
  · split at h
    · obtain ⟨x, rest, hx, rfl⟩ := key h
      exact Or.inr (Or.inr (Or.inr (Or.inr ⟨x, rest, hx, rfl⟩)))
    · obtain ⟨x, rest, hx, rfl⟩ := key h
      exact Or.inr (Or.inr (Or.inr (Or.inl ⟨x, rest, hx, rfl⟩)))
    · obtain ⟨x, rest, hx, rfl⟩ := key h
      exact Or.inl ⟨x, rest, _, hx, supported_iff x, rfl⟩
    · cases h
    · obtain ⟨x, rest, hx, rfl⟩ := key h
      exact Or.inr (Or.inr (Or.inl ⟨x, rest, hx, rfl⟩))
    · obtain ⟨x, rest, hx, rfl⟩ := key h
      exact Or.inr (Or.inl ⟨x, rest, hx, rfl⟩)
    · cases h
    · cases h

theorem asks_ok (e : BsEv) : (asks e).Ok := by
  unfold asks
  split
  · split
    · rename_i x rest h
      obtain ⟨h1, h2⟩ := uSetup_gives _ _ _ h
      exact ⟨h1, h2⟩
    · exact netAsked_ok
  · exact netAsked_ok

theorem means_fits {r : Nat → Bool} {e : BsEv} {c : CcEv} (h : Means e c) (hs : e.Sane r) : c.Fits ∧ c.Expected r := by
  cases e with
  | mobile ssi sdu =>
    rcases h with ⟨x, rest, ok, _, _, rfl⟩ | ⟨x, rest, _, rfl⟩ | ⟨x, rest, _, rfl⟩ | ⟨x, rest, _, rfl⟩ | ⟨x, rest, _, rfl⟩
    · exact ⟨hs, trivial⟩
    · exact ⟨hs, trivial⟩
    all_goals exact ⟨trivial, trivial⟩
  | netStart uuid sp g => cases h; exact hs
  | sdsFromBrew _ _ _ => cases h
  | _ => cases h; exact ⟨trivial, trivial⟩

/-- The events of call control come from those which mean them; the rest is short data. -/
theorem step_cases {s s' : Bs} {v : SdsView} {e : BsEv} {out : List BsOut} (h : s.step v e = .ok (s', out)) :
    (∃ c o1 o2, Means e c ∧ s.call c (asks e) = .ok (s', o1) ∧ out = o1 ++ o2 ∧ ∀ x ∈ o2, hear x = none ∧ hearSetup x = none) ∨
    ((∀ c, ¬ Means e c) ∧ s' = s ∧ ∀ x ∈ out, hear x = none ∧ hearSetup x = none) := by
  cases e with
  | tick now cmds =>
    obtain ⟨r, hr, h⟩ := Res.bind_eq_ok.1 h
    obtain ⟨o, ho, h⟩ := Res.bind_eq_ok.1 h
    cases h
    exact Or.inl ⟨_, _, _, rfl, hr, rfl, controls_quiet ho⟩
  | mobile ssi sdu =>
    obtain ⟨u, hu, h⟩ := Res.bind_eq_ok.1 h
    cases u with
    | call c a =>
      have hm := means_of_uplink hu
      have := uplink_of_means hm
      rw [hu] at this
      cases this
      exact Or.inl ⟨c, out, [], hm, h, by simp, by simp⟩
    | ignored =>
      cases h
      refine Or.inr ⟨fun c hm => ?_, rfl, by simp⟩
      rw [uplink_of_means hm] at hu; cases hu
    | status =>
      obtain ⟨o, ho, h⟩ := Res.bind_eq_ok.1 h
      cases h
      refine Or.inr ⟨fun c hm => ?_, rfl, quiet_map (rxUStatus_quiet ho)⟩
      rw [uplink_of_means hm] at hu; cases hu
    | sds =>
      obtain ⟨o, ho, h⟩ := Res.bind_eq_ok.1 h
      cases h
      refine Or.inr ⟨fun c hm => ?_, rfl, quiet_map (rxUSdsData_quiet ho)⟩
      rw [uplink_of_means hm] at hu; cases hu
  | sdsFromBrew source dest data =>
    obtain ⟨o, ho, h⟩ := Res.bind_eq_ok.1 h
    cases h
    exact Or.inr ⟨fun c hm => hm, rfl, quiet_map (rxSdsFromBrew_quiet ho)⟩
  | _ => exact Or.inl ⟨_, out, [], rfl, h, by simp, by simp⟩

/-! ## The invariant -/

structure BsInv (r : Nat → Bool) (h : List (BsEv × List BsOut)) (s : Bs) : Prop where
  reads : ∃ h', Reads h h' ∧ CcRun r h' s.cc
  fit : CcFit s.cc
  ok : ∀ id a, s.asked.get id = some a → a.Ok
  asked : ∀ id, (s.asked.get id).getD netAsked = askedIn h id

/-- One event of call control. -/
theorem call_inv {r : Nat → Bool} {h : List (BsEv × List BsOut)} {s s' : Bs} (hi : BsInv r h s) {c : CcEv} {a : Asked}
    {out : List BsOut} (hc : c.Fits) (ha : a.Ok) (hs : s.call c a = .ok (s', out)) :
    s.cc.step c = .ok (s'.cc, out.filterMap hear) ∧ CcFit s'.cc ∧ (∀ id b, s'.asked.get id = some b → b.Ok) ∧
    (∀ id, (s'.asked.get id).getD netAsked = if newCall (out.filterMap hear) = some id then a else askedIn h id) ∧
    wireAll s'.asked (out.filterMap hear) = .ok out ∧ ∀ x ∈ out.filterMap hear, x.Fits := by
  obtain ⟨h', _, hrun⟩ := hi.reads
  obtain ⟨q, hq, hs⟩ := Res.bind_eq_ok.1 hs
  obtain ⟨o, ho, hs⟩ := Res.bind_eq_ok.1 hs
  cases hs
  obtain ⟨hf, hfit⟩ := step_fit (ccRun_inv hrun) hi.fit hc q.1 q.2 hq
  have hok : ∀ id b, (match newCall q.2 with
      | some id => s.asked.insert id a
      | none => s.asked).get id = some b → b.Ok := by
    intro id b hb
    cases hn : newCall q.2 with
    | none => rw [hn] at hb; exact hi.ok id b hb
    | some n =>
      rw [hn] at hb
      simp only [Assoc.get_insert] at hb
      split at hb
      · cases hb; exact ha
      · exact hi.ok id b hb
  obtain ⟨bs, h1, h2⟩ := wireAll_ok hok q.2 hfit
  have e := h1.symm.trans ho
  cases e
  rw [h2]
  refine ⟨hq, hf, hok, ?_, h1, hfit⟩
  intro id
  cases hn : newCall q.2 with
  | none => simp [hi.asked id]
  | some n =>
    simp only [Assoc.get_insert, Option.some.injEq]
    by_cases e : n = id
    · simp [e]
    · simp [e, hi.asked id]

theorem askedIn_append (h : List (BsEv × List BsOut)) (e : BsEv × List BsOut) : askedIn (h ++ [e]) = askedAfter (askedIn h) e := by
  simp [askedIn]

theorem newCall_nil : newCall [] = none := rfl

theorem bsRun_inv {r : Nat → Bool} {h : List (BsEv × List BsOut)} {s : Bs} (hr : BsRun r h s) : BsInv r h s := by
  induction hr with
  | init => exact ⟨⟨[], .nil, .init⟩, CcFit.init r, by simp [Bs.init], by intro id; rfl⟩
  | reorder _ hre ih =>
    obtain ⟨⟨h', h1, h2⟩, h3, h4, h5⟩ := ih
    exact ⟨⟨h', h1, .reorder h2 hre⟩, h3.reordered hre, h4, h5⟩
  | step _ hsane hs ih =>
    obtain ⟨h', h1, h2⟩ := ih.reads
    rcases step_cases hs with ⟨c, o1, o2, hm, hc, rfl, hq⟩ | ⟨hm, rfl, hq⟩
    · have e : (o1 ++ o2).filterMap hear = o1.filterMap hear := by rw [List.filterMap_append, hear_nil hq, List.append_nil]
      obtain ⟨k1, k2, k3, k4, _⟩ := call_inv ih (means_fits hm hsane).1 (asks_ok _) hc
      refine ⟨⟨_, .call h1 hm, .step h2 (by rw [e]; exact k1)⟩, k2, k3, ?_⟩
      intro id
      rw [k4, askedIn_append]
      simp only [askedAfter, e]
    · refine ⟨⟨h', .aside h1 hm (hear_nil hq), h2⟩, ih.fit, ih.ok, ?_⟩
      intro id
      rw [ih.asked, askedIn_append]
      simp [askedAfter, hear_nil hq, newCall_nil]

/-! ## The property -/

/-- **C57.** Whatever comes from mobiles, the network and the control link: what the mobiles, the MAC and the backhaul hear is what
call control decides on the events these messages mean, in the same order. So all that is proved of the messages of call control
(C28 to C30, C56) holds of the bits on the air. -/
theorem c57_heard {r : Nat → Bool} {h : List (BsEv × List BsOut)} {s : Bs} (hr : BsRun r h s) :
    ∃ h', Reads h h' ∧ CcRun r h' s.cc := (bsRun_inv hr).reads

/-- What is heard in a history. -/
def heardIn (h : List (BsEv × List BsOut)) : List CcOut := (h.flatMap Prod.snd).filterMap hear

theorem reads_messages {h : List (BsEv × List BsOut)} {h' : List (CcEv × List CcOut)} (hr : Reads h h') :
    messages h' = heardIn h := by
  induction hr with
  | nil => rfl
  | call _ _ ih => rw [messages_append, ih]; simp [heardIn, messages]
  | aside _ _ hq ih => rw [ih]; simp [heardIn, hq]

/-- **C57, an instance.** The messages on the air give the floor of a call to one station at a time, and only of a call which is on. -/
theorem c57_floor {r : Nat → Bool} {h : List (BsEv × List BsOut)} {s : Bs} (hr : BsRun r h s) : FloorOrder (heardIn h) := by
  obtain ⟨h', h1, h2⟩ := c57_heard hr
  rw [← reads_messages h1]
  exact c29_order h2

/-- **C57, an instance.** The numbers of calls on the air follow one another, and none is given to a second call before 1023 others. -/
theorem c57_numbers {r : Nat → Bool} {h : List (BsEv × List BsOut)} {s : Bs} (hr : BsRun r h s) :
    (∀ n id, (started (heardIn h))[n]? = some id → id = (n + 3) % 1023 + 1) ∧
    ((started (heardIn h)).length ≤ 1023 → NoReuse (heardIn h)) := by
  obtain ⟨h', h1, h2⟩ := c57_heard hr
  rw [← reads_messages h1]
  exact c28_numbers h2

/-- An event means one thing at most. -/
theorem c57_meaning_unique {e : BsEv} {c c' : CcEv} (h : Means e c) (h' : Means e c') : c = c' := by
  cases e with
  | mobile ssi sdu =>
    have a := uplink_of_means h
    rw [uplink_of_means h'] at a
    cases a; rfl
  | sdsFromBrew _ _ _ => cases h
  | _ => exact h.trans h'.symm

/-- **C57, up.** A message a mobile writes means what it says. -/
theorem c57_meaning (ssi : Nat) :
    (∀ x : USetup, x.Ok → ∃ sdu ok, x.enc = .ok sdu ∧ (ok = true ↔ Serveable x) ∧ ∀ rest,
      Means (.mobile ssi (sdu ++ rest)) (.uSetup ssi ok x.called.ssi x.basicService.communication) ∧
      asks (.mobile ssi (sdu ++ rest)) = ⟨x.basicService, x.priority⟩) ∧
    (∀ x : UTxDemand, x.Ok → ∃ sdu, x.enc = .ok sdu ∧ ∀ rest, Means (.mobile ssi (sdu ++ rest)) (.uTxDemand ssi x.callId)) ∧
    (∀ x : UTxCeased, x.Ok → ∃ sdu, x.enc = .ok sdu ∧ ∀ rest, Means (.mobile ssi (sdu ++ rest)) (.uTxCeased ssi x.callId)) ∧
    (∀ x : URelease, x.Ok → ∃ sdu, x.enc = .ok sdu ∧ ∀ rest, Means (.mobile ssi (sdu ++ rest)) (.uRelease ssi x.callId)) ∧
    (∀ x : UDisconnect, x.Ok → ∃ sdu, x.enc = .ok sdu ∧ ∀ rest, Means (.mobile ssi (sdu ++ rest)) (.uDisconnect ssi x.callId)) := by
  refine ⟨fun x hx => ?_, fun x hx => ?_, fun x hx => ?_, fun x hx => ?_, fun x hx => ?_⟩
  · obtain ⟨bs, h1, h2⟩ := c38_cmce_u_setup x hx
    exact ⟨bs, USetup.supported x, h1, supported_iff x, fun rest =>
      ⟨Or.inl ⟨x, rest, _, h2 rest, supported_iff x, rfl⟩, by simp [asks, h2 rest]⟩⟩
  · obtain ⟨bs, h1, h2⟩ := c38_cmce_u_tx_demand x hx
    exact ⟨bs, h1, fun rest => Or.inr (Or.inl ⟨x, rest, h2 rest, rfl⟩)⟩
  · obtain ⟨bs, h1, h2⟩ := c38_cmce_u_tx_ceased x hx
    exact ⟨bs, h1, fun rest => Or.inr (Or.inr (Or.inl ⟨x, rest, h2 rest, rfl⟩))⟩
  · obtain ⟨bs, h1, h2⟩ := c38_cmce_u_release x hx
    exact ⟨bs, h1, fun rest => Or.inr (Or.inr (Or.inr (Or.inl ⟨x, rest, h2 rest, rfl⟩)))⟩
  · obtain ⟨bs, h1, h2⟩ := c38_cmce_u_disconnect x hx
    exact ⟨bs, h1, fun rest => Or.inr (Or.inr (Or.inr (Or.inr ⟨x, rest, h2 rest, rfl⟩)))⟩

/-! ## Service and priority -/

theorem decoded_none {α : Type} {k : Nat} {f : Rd α} {bs : List Bool} (h : ofBits (bs.take 5) ≠ k) :
    decoded (expectType 5 k >>= fun _ => f) bs = none := by
  unfold decoded
  cases hd : (expectType 5 k >>= fun _ => f).run bs with
  | ok r =>
    obtain ⟨x, rest⟩ := r
    exact (h (type_of_read hd).2).elim
  | _ => rfl

theorem wire_setup {o : CcOut} {a : Asked} {b : BsOut} (ho : o.Fits) (ha : a.Ok) (h : o.wire a = .ok b) {x : DSetup}
    (hx : hearSetup b = some x) : o.announces = some x.callId ∧ a = ⟨x.basicService, x.priority⟩ := by
  have other : ∀ {to sv chan st bs k}, hearSetup (.air to sv chan st bs) = some x → ofBits (bs.take 5) = k → k ≠ 7 → False := by
    intro to sv chan st bs k h1 h2 h3
    have : decoded DSetup.dec bs = none := decoded_none (by rw [h2]; exact h3)
    simp only [hearSetup, this] at h1
    cases h1
  have key : ∀ {w : Out (List Bool)} {l : List (Out (List Bool))} {k : Nat} {f : List Bool → BsOut}, w = cat (wBits k 5 :: l) →
      (expectBits w >>= fun bs => Res.ok (f bs)) = .ok b → ∃ bs, b = f bs ∧ ofBits (bs.take 5) = k := by
    intro w l k f hw h
    obtain ⟨bs, h1, h2⟩ := Res.bind_eq_ok.1 h
    cases h2
    refine ⟨bs, rfl, ?_⟩
    cases hw' : w with
    | ok bs' =>
      rw [hw'] at h1
      cases h1
      obtain ⟨h3, h4⟩ := cat_type (hw ▸ hw')
      rw [h3, ofBits_toBits h4]
    | _ => rw [hw'] at h1; cases h1
  cases o with
  | dCallProceeding to id => obtain ⟨bs, rfl, h2⟩ := key (l := _) rfl h; exact (other hx h2 (by decide)).elim
  | dConnect to id g owner chan => obtain ⟨bs, rfl, h2⟩ := key (l := _) rfl h; exact (other hx h2 (by decide)).elim
  | dRelease to id c => obtain ⟨bs, rfl, h2⟩ := key (l := _) rfl h; exact (other hx h2 (by decide)).elim
  | dTxCeased to id ts => obtain ⟨bs, rfl, h2⟩ := key (l := _) rfl h; exact (other hx h2 (by decide)).elim
  | dTxGranted to id g speaker ts => obtain ⟨bs, rfl, h2⟩ := key (l := _) rfl h; exact (other hx h2 (by decide)).elim
  | dSetup to id g caller chan =>
    obtain ⟨bs, h1, _, h3⟩ := dSetup_heard g ho.1 ho.2 ha
    have e := h.symm.trans (wire_of h1 fun bs => .air to .unacknowledged (some (some chan.1, chan.2)) false bs)
    cases e
    simp only [hearSetup, h3, Option.some.injEq] at hx
    subst hx
    exact ⟨rfl, rfl⟩
  | _ => cases h; cases hx

theorem wireAll_setup {asked : Assoc Nat Asked} (ha : ∀ id a, asked.get id = some a → a.Ok) {os : List CcOut} (ho : ∀ o ∈ os, o.Fits)
    {out : List BsOut} (h : wireAll asked os = .ok out) {b : BsOut} (hb : b ∈ out) {x : DSetup} (hx : hearSetup b = some x) :
    (asked.get x.callId).getD netAsked = ⟨x.basicService, x.priority⟩ := by
  induction os generalizing out with
  | nil => cases h; cases hb
  | cons o os ih =>
    obtain ⟨b0, h0, h⟩ := Res.bind_eq_ok.1 h
    obtain ⟨bs, h1, h⟩ := Res.bind_eq_ok.1 h
    cases h
    have hok : ((o.announces.bind asked.get).getD netAsked).Ok := by
      cases h : o.announces.bind asked.get with
      | none => exact netAsked_ok
      | some a =>
        obtain ⟨id, _, hg⟩ := Option.bind_eq_some_iff.1 h
        exact ha id a hg
    rcases List.mem_cons.1 hb with rfl | hb
    · obtain ⟨h2, h3⟩ := wire_setup (ho o List.mem_cons_self) hok h0 hx
      rw [h2] at h3
      exact h3
    · exact ih (fun q hq => ho q (List.mem_cons_of_mem _ hq)) h1 hb

/-- **C57, service.** Every D-SETUP announces its call with the service and the priority which were asked for when the call was
connected, also when it is repeated. -/
theorem c57_service {r : Nat → Bool} {h : List (BsEv × List BsOut)} {s s' : Bs} (hr : BsRun r h s) {v : SdsView} {e : BsEv}
    (he : e.Sane r) {out : List BsOut} (hs : s.step v e = .ok (s', out)) {b : BsOut} (hb : b ∈ out) {x : DSetup}
    (hx : hearSetup b = some x) : ⟨x.basicService, x.priority⟩ = askedIn (h ++ [(e, out)]) x.callId := by
  have hi := bsRun_inv hr
  have hi' := bsRun_inv (.step hr he hs)
  rcases step_cases hs with ⟨c, o1, o2, hm, hc, rfl, hq⟩ | ⟨hm, rfl, hq⟩
  · obtain ⟨_, _, k3, _, k5, k6⟩ := call_inv hi (means_fits hm he).1 (asks_ok _) hc
    rcases List.mem_append.1 hb with hb | hb
    · rw [← hi'.asked]
      exact (wireAll_setup k3 k6 k5 hb hx).symm
    · rw [(hq b hb).2] at hx; cases hx
  · rw [(hq b hb).2] at hx; cases hx

/-! ## Aborts -/

/-- What makes the entity abort. -/
def Culprit : BsEv → Prop
  | .tick _ cmds => ∃ c ∈ cmds, c = .other ∨
      ∃ x, c = .sendSds x ∧ (2 ^ 24 ≤ x.source ∨ ¬ (Sds.type4 x.len x.payload).Writable)
  | .mobile _ sdu => HasStatus31743 sdu ∨ ∃ pre s, sdu = pre ++ s ∧ BadElement s
  | .sdsFromBrew source _ data => 2 ^ 24 ≤ source ∨ ¬ data.Writable
  | _ => False

theorem sendSds_culprit {source dest : Nat} {group : Bool} {data : Sds} (h : sendSds source dest group data = .panic) :
    2 ^ 24 ≤ source ∨ ¬ data.Writable := by
  by_cases h1 : source < 2 ^ 24
  · by_cases h2 : data.Writable
    · obtain ⟨bs, hb, _⟩ := sendSds_ok source dest group data h1 h2
      rw [hb] at h; cases h
    · exact Or.inr h2
  · exact Or.inl (by omega)

theorem controls_culprit {v : SdsView} {cmds : List Control} (h : controls v cmds = .panic) : ∃ c ∈ cmds, c = .other ∨
    ∃ x, c = .sendSds x ∧ (2 ^ 24 ≤ x.source ∨ ¬ (Sds.type4 x.len x.payload).Writable) := by
  induction cmds with
  | nil => cases h
  | cons c cs ih =>
    cases c with
    | other => exact ⟨_, List.mem_cons_self, Or.inl rfl⟩
    | sendSds c =>
      simp only [controls] at h
      cases hr : rxSdsFromControl v c with
      | panic =>
        refine ⟨_, List.mem_cons_self, Or.inr ⟨c, rfl, ?_⟩⟩
        unfold rxSdsFromControl at hr
        split at hr
        · cases hq : sendSds c.source c.dest c.group (.type4 c.len c.payload) with
          | panic => exact sendSds_culprit hq
          | ok o => rw [hq] at hr; cases hr
        · cases hr
      | ok r =>
        rw [hr, Res.bind_ok] at h
        cases hc : controls v cs with
        | panic =>
          obtain ⟨x, hx, h⟩ := ih hc
          exact ⟨x, List.mem_cons_of_mem _ hx, h⟩
        | ok o => rw [hc] at h; cases h

theorem call_total {r : Nat → Bool} {h : List (BsEv × List BsOut)} {s : Bs} (hi : BsInv r h s) {c : CcEv} {a : Asked}
    (hc : c.Fits) (he : c.Expected r) (ha : a.Ok) : s.call c a ≠ .panic := by
  obtain ⟨h', _, hrun⟩ := hi.reads
  obtain ⟨s', o, hs⟩ := c28_total hrun he
  obtain ⟨_, hfit⟩ := step_fit (ccRun_inv hrun) hi.fit hc s' o hs
  have hok : ∀ id b, (match newCall o with
      | some id => s.asked.insert id a
      | none => s.asked).get id = some b → b.Ok := by
    intro id b hb
    cases hn : newCall o with
    | none => rw [hn] at hb; exact hi.ok id b hb
    | some n =>
      rw [hn] at hb
      simp only [Assoc.get_insert] at hb
      split at hb
      · cases hb; exact ha
      · exact hi.ok id b hb
  obtain ⟨bs, h1, _⟩ := wireAll_ok hok o hfit
  intro hp
  simp only [Bs.call, hs, Res.bind_ok] at hp
  cases hn : newCall o with
  | none =>
    rw [hn] at h1
    simp only [hn] at hp
    rw [show wireAll s.asked o = .ok bs from h1] at hp
    cases hp
  | some n =>
    rw [hn] at h1
    simp only [hn] at hp
    rw [show wireAll (s.asked.insert n a) o = .ok bs from h1] at hp
    cases hp

/-- The reader of the type of a mobile's message aborts. -/
def Breaks (sdu : List Bool) : Prop :=
  5 ≤ sdu.length ∧ ((ofBits (sdu.take 5) = 4 ∧ UDisconnect.dec.run sdu = .panic) ∨
    (ofBits (sdu.take 5) = 6 ∧ URelease.dec.run sdu = .panic) ∨ (ofBits (sdu.take 5) = 7 ∧ USetup.dec.run sdu = .panic) ∨
    (ofBits (sdu.take 5) = 8 ∧ UStatus.dec.run sdu = .panic) ∨ (ofBits (sdu.take 5) = 9 ∧ UTxCeased.dec.run sdu = .panic) ∨
    (ofBits (sdu.take 5) = 10 ∧ UTxDemand.dec.run sdu = .panic) ∨ (ofBits (sdu.take 5) = 15 ∧ USdsData.dec.run sdu = .panic))

theorem step_breaks {s : Bs} {v : SdsView} {ssi : Nat} {sdu : List Bool} (h : Breaks sdu) : s.step v (.mobile ssi sdu) = .panic := by
  obtain ⟨hl, h⟩ := h
  simp only [Bs.step]
  unfold uplink
  rw [if_neg (by omega)]
  rcases h with ⟨h1, h2⟩ | ⟨h1, h2⟩ | ⟨h1, h2⟩ | ⟨h1, h2⟩ | ⟨h1, h2⟩ | ⟨h1, h2⟩ | ⟨h1, h2⟩ <;>
    simp [h1, readCall, rxUStatus, rxUSdsData, h2]

/-- **C57, exactly.** After every history, a mobile's message aborts the entity if and only if the reader of its type aborts: nothing
of what is done with a message which was read aborts. -/
theorem c57_mobile_iff {r : Nat → Bool} {h : List (BsEv × List BsOut)} {s : Bs} (hr : BsRun r h s) {v : SdsView} {ssi : Nat}
    (he : ssi < 2 ^ 24) {sdu : List Bool} : s.step v (.mobile ssi sdu) = .panic ↔ Breaks sdu := by
  refine ⟨fun hp => ?_, step_breaks⟩
  have hi := bsRun_inv hr
  have call : ∀ {c}, Means (.mobile ssi sdu) c → s.call c (asks (.mobile ssi sdu)) ≠ .panic := fun hm =>
    call_total hi (means_fits (r := r) hm he).1 (means_fits (r := r) hm he).2 (asks_ok _)
  simp only [Bs.step] at hp
  cases hu : uplink ssi sdu with
  | panic =>
    have key : ∀ {α : Type} {p : Rd α} {f : α → CcEv × Asked}, readCall p sdu f = .panic → p.run sdu = .panic := by
      intro α p f h
      unfold readCall at h
      split at h
      · cases h
      · cases h
      · rename_i hd; exact hd
    unfold uplink at hu
    split at hu
    · cases hu
    · refine ⟨by omega, ?_⟩
      split at hu <;> rename_i ht
      · exact .inl ⟨ht, key hu⟩
      · exact .inr (.inl ⟨ht, key hu⟩)
      · exact .inr (.inr (.inl ⟨ht, key hu⟩))
      · cases hu
      · exact .inr (.inr (.inr (.inr (.inl ⟨ht, key hu⟩))))
      · exact .inr (.inr (.inr (.inr (.inr (.inl ⟨ht, key hu⟩)))))
      · cases hu
      · cases hu
  | ok u =>
    rw [hu, Res.bind_ok] at hp
    cases u with
    | ignored => cases hp
    | call c a =>
      have hm := means_of_uplink hu
      have e := uplink_of_means hm
      rw [hu] at e
      cases e
      exact (call hm hp).elim
    | status =>
      have ht : 5 ≤ sdu.length ∧ ofBits (sdu.take 5) = 8 := by
        unfold uplink at hu
        split at hu
        · cases hu
        · refine ⟨by omega, ?_⟩
          split at hu <;> first | assumption | (unfold readCall at hu; split at hu <;> cases hu) | cases hu
      cases ho : rxUStatus v ssi sdu with
      | ok o => simp only [ho] at hp; cases hp
      | panic =>
        unfold rxUStatus at ho
        split at ho
        · exact ⟨ht.1, .inr (.inr (.inr (.inl ⟨ht.2, ‹_›⟩)))⟩
        · cases ho
        · rename_i x rest hx
          split at ho
          · cases ho
          · rename_i dest hd
            unfold deliverStatus at ho
            split at ho
            · obtain ⟨bs, e, _⟩ := sendStatus_ok ssi dest x.status he (uStatus_gives _ _ _ hx).2
              rw [e] at ho; cases ho
            · split at ho <;> cases ho
    | sds =>
      have ht : 5 ≤ sdu.length ∧ ofBits (sdu.take 5) = 15 := by
        unfold uplink at hu
        split at hu
        · cases hu
        · refine ⟨by omega, ?_⟩
          split at hu <;> first | assumption | (unfold readCall at hu; split at hu <;> cases hu) | cases hu
      cases ho : rxUSdsData v ssi sdu with
      | ok o => simp only [ho] at hp; cases hp
      | panic =>
        unfold rxUSdsData at ho
        split at ho
        · exact ⟨ht.1, .inr (.inr (.inr (.inr (.inr (.inr ⟨ht.2, ‹_›⟩)))))⟩
        · cases ho
        · rename_i x rest hx
          split at ho
          · cases ho
          · rename_i dest hd
            have hw : x.data.Writable := (uSdsData_gives _ _ _ hx).2.1
            have ns : ∀ g, sendSds ssi dest g x.data ≠ .panic := by
              intro g
              obtain ⟨bs, e, _⟩ := sendSds_ok ssi dest g x.data he hw
              rw [e]; simp
            unfold deliverSds at ho
            split at ho
            · exact (ns _ ho).elim
            · split at ho
              · exact (ns _ ho).elim
              · split at ho <;> cases ho

/-- Such a message has a broken element, or is a status message of value 31743. -/
theorem breaks_culprit {sdu : List Bool} (h : Breaks sdu) : HasStatus31743 sdu ∨ ∃ pre s, sdu = pre ++ s ∧ BadElement s := by
  obtain ⟨_, ⟨_, h⟩ | ⟨_, h⟩ | ⟨_, h⟩ | ⟨_, h⟩ | ⟨_, h⟩ | ⟨_, h⟩ | ⟨_, h⟩⟩ := h
  · exact .inr (UDisconnect.tame.2 _ h)
  · exact .inr (URelease.tame.2 _ h)
  · exact .inr (USetup.tame.2 _ h)
  · exact c38_cmce_u_status_abort _ h
  · exact .inr (UTxCeased.tame.2 _ h)
  · exact .inr (UTxDemand.tame.2 _ h)
  · exact .inr (USdsData.tame.2 _ h)

/-- **C57, no aborts but these.** -/
theorem c57_total_partial {r : Nat → Bool} {h : List (BsEv × List BsOut)} {s : Bs} (hr : BsRun r h s) {v : SdsView} {e : BsEv}
    (he : e.Sane r) (hp : s.step v e = .panic) : Culprit e := by
  have hi := bsRun_inv hr
  have call : ∀ {c}, Means e c → s.call c (asks e) ≠ .panic := fun hm =>
    call_total hi (means_fits hm he).1 (means_fits hm he).2 (asks_ok e)
  cases e with
  | tick now cmds =>
    have := call (c := .tick now) rfl
    simp only [Bs.step] at hp
    cases hc : s.call (.tick now) netAsked with
    | panic => exact (this hc).elim
    | ok q =>
      rw [hc, Res.bind_ok] at hp
      cases hq : controls v cmds with
      | panic => exact controls_culprit hq
      | ok o => rw [hq] at hp; cases hp
  | mobile ssi sdu => exact breaks_culprit ((c57_mobile_iff hr he).1 hp)
  | sdsFromBrew source dest data =>
    simp only [Bs.step] at hp
    cases ho : rxSdsFromBrew v source dest data with
    | ok o => rw [ho] at hp; cases hp
    | panic =>
      unfold rxSdsFromBrew at ho
      split at ho
      · exact sendSds_culprit ho
      · cases ho
  | update u => exact (call (c := .update u) rfl hp).elim
  | netStart a b c => exact (call (c := .netStart a b c) rfl hp).elim
  | netEnd a => exact (call (c := .netEnd a) rfl hp).elim
  | inactive a => exact (call (c := .inactive a) rfl hp).elim

/-! ## Short data through the entity -/

/-- **C39, entity.** A mobile's short data and status go to the handlers of C39, whatever else the entity does; calls are untouched. -/
theorem c39_entity (s : Bs) (v : SdsView) (ssi : Nat) (sdu : List Bool) (out : List SdsOut) :
    (∀ x rest, USdsData.dec.run sdu = .ok (x, rest) → rxUSdsData v ssi sdu = .ok out →
      s.step v (.mobile ssi sdu) = .ok (s, out.map SdsOut.wire)) ∧
    (∀ x rest, UStatus.dec.run sdu = .ok (x, rest) → rxUStatus v ssi sdu = .ok out →
      s.step v (.mobile ssi sdu) = .ok (s, out.map SdsOut.wire)) := by
  refine ⟨fun x rest h ho => ?_, fun x rest h ho => ?_⟩
  all_goals
    have ht := type_of_read h
    simp only [Bs.step, uplink, ht.1, ht.2, if_false, Res.bind_ok, ho]

/-- What is sent for a command on the control link: the message and the answer, or the answer only. -/
def Answered (h : List Config.RegOp) (c : SendSds) (part : List BsOut) : Prop :=
  (Config.Spec.Registered h c.dest → ∃ bs, part = [.air (if c.group then .group c.dest else .station c.dest)
      (if c.group then .unacknowledged else .acknowledged) none false bs, .response c.handle true] ∧
    ReadBy bs c.source (Sds.type4 c.len c.payload).trim) ∧
  (¬ Config.Spec.Registered h c.dest → part = [.response c.handle false])

/-- **C39, commands.** Commands on the control link are answered one by one, in order, each with its own handle. -/
theorem c39_commands (h : List Config.RegOp) (cfg : Brew.Cfg) (cs : List SendSds)
    (hc : ∀ c ∈ cs, c.source < 2 ^ 24 ∧ (Sds.type4 c.len c.payload).Writable) :
    ∃ parts : List (List BsOut), controls ⟨Config.Registry.after h, cfg⟩ (cs.map .sendSds) = .ok parts.flatten ∧ parts.length = cs.length ∧
      ∀ p ∈ cs.zip parts, Answered h p.1 p.2 := by
  induction cs with
  | nil => exact ⟨[], rfl, rfl, by simp⟩
  | cons c cs ih =>
    obtain ⟨parts, h1, h3, h2⟩ := ih fun x hx => hc x (List.mem_cons_of_mem _ hx)
    obtain ⟨a, b⟩ := c39_from_control h cfg c (hc c List.mem_cons_self).1 (hc c List.mem_cons_self).2
    by_cases hr : Config.Spec.Registered h c.dest
    · obtain ⟨bs, e, hb⟩ := a hr
      refine ⟨[.air (if c.group then .group c.dest else .station c.dest)
        (if c.group then .unacknowledged else .acknowledged) none false bs, .response c.handle true] :: parts, ?_,
        by simp [h3], ?_⟩
      · simp only [List.map_cons, controls, e, h1, Res.bind_ok]
        rfl
      · intro p hp
        rcases List.mem_cons.1 hp with rfl | hp
        · exact ⟨fun _ => ⟨bs, rfl, hb⟩, fun q => (q hr).elim⟩
        · exact h2 p hp
    · refine ⟨[.response c.handle false] :: parts, ?_, by simp [h3], ?_⟩
      · simp only [List.map_cons, controls, b hr, h1, Res.bind_ok]
        rfl
      · intro p hp
        rcases List.mem_cons.1 hp with rfl | hp
        · exact ⟨fun q => (hr q).elim, fun _ => rfl⟩
        · exact h2 p hp

example : ∀ c ∈ [(⟨7, 1001, 1002, false, 20, [1, 2, 0x30]⟩ : SendSds), ⟨8, 1001, 91, true, 8, [5]⟩],
    c.source < 2 ^ 24 ∧ (Sds.type4 c.len c.payload).Writable := by
  intro c hc
  simp only [List.mem_cons, List.not_mem_nil, or_false] at hc
  rcases hc with rfl | rfl
  · exact ⟨by simp, by simp, by simp, by simp⟩
  · exact ⟨by simp, by simp, by simp, by simp⟩

/-! ## Findings and examples -/

/-- Run a list of events, for concrete histories. -/
def Bs.run (s : Bs) (v : SdsView) : List BsEv → Res (Bs × List (BsEv × List BsOut))
  | [] => .ok (s, [])
  | e :: es => do
    let r ← s.step v e
    let q ← r.1.run v es
    .ok (q.1, (e, r.2) :: q.2)

theorem run_bsRun {r : Nat → Bool} {v : SdsView} (es : List BsEv) (he : ∀ e ∈ es, e.Sane r) {h0 h : List (BsEv × List BsOut)}
    {s0 s : Bs} (hr : BsRun r h0 s0) (hs : s0.run v es = .ok (s, h)) : BsRun r (h0 ++ h) s := by
  induction es generalizing h0 h s0 with
  | nil => cases hs; rwa [List.append_nil]
  | cons e es ih =>
    obtain ⟨⟨s1, o⟩, h1, hs⟩ := Res.bind_eq_ok.1 hs
    obtain ⟨q, hq, hs⟩ := Res.bind_eq_ok.1 hs
    cases hs
    have := ih (fun x hx => he x (List.mem_cons_of_mem _ hx)) (hr.step (he e List.mem_cons_self) h1) hq
    rwa [List.append_assoc] at this

/-- **Finding (C57).** Any command on the control link other than that for short data aborts the base station. -/
theorem c57_command_abort (s : Bs) (v : SdsView) (now : Time) (cmds : List Control) (h : .other ∈ cmds) :
    s.step v (.tick now cmds) = .panic := by
  have key : controls v cmds = .panic := by
    induction cmds with
    | nil => cases h
    | cons c cs ih =>
      cases c with
      | other => rfl
      | sendSds c =>
        have := ih (by simpa using h)
        simp only [controls, this]
        cases rxSdsFromControl v c <;> rfl
  simp only [Bs.step, key]
  cases s.call (.tick now) netAsked <;> rfl

/-- A U-SETUP of a call with end-to-end encryption to group 91. -/
def secretCall : USetup := ⟨1, false, false, ⟨0, true, 1, none, some 0⟩, false, 5, 0, ⟨1, none, some 91, none⟩, none, none, none, none⟩

def noBrew : SdsView := ⟨Config.Registry.after [], ⟨none, []⟩⟩

/-- Stations 1001 and 1002 are in group 91; 1001 asks for `secretCall`. -/
def secretHistory : List BsEv := [.tick ⟨1, 1, 1, 1⟩ [], .update (.affiliate 1001 [91]), .update (.affiliate 1002 [91]),
  .mobile 1001 (match secretCall.enc with | .ok bs => bs | _ => [])]

/-- What is heard in a concrete history, event by event, and the D-SETUPs. -/
def bsSent (r : Nat → Bool) (es : List BsEv) : Option (List (List CcOut) × List DSetup) :=
  match (Bs.init r).run noBrew es with
  | .ok q => some (q.2.map fun e => e.2.filterMap hear, (q.2.flatMap Prod.snd).filterMap hearSetup)
  | .panic => none

/-- **Finding (C57).** A call with end-to-end encryption is announced to the group as encrypted, while its circuit is opened in the
MAC as unencrypted. (The example also meets the hypotheses of the theorems above.) -/
theorem c57_encryption_finding : ∃ h s, BsRun (fun _ => false) h s ∧
    heardIn h = [.open ⟨.both, 2, 4, 0, some 0, false⟩, .dCallProceeding (.station 1001) 4,
      .dConnect (.station 1001) 4 .granted true (some (4, 2)), .dSetup (.group 91) 4 .grantedToOther 1001 (4, 2)] ∧
    ∃ x, (h.flatMap Prod.snd).filterMap hearSetup = [x] ∧ x.basicService.encryption = true ∧ x.priority = 5 := by
  have hb : bsSent (fun _ => false) secretHistory = some ([[], [], [], [.open ⟨.both, 2, 4, 0, some 0, false⟩,
      .dCallProceeding (.station 1001) 4, .dConnect (.station 1001) 4 .granted true (some (4, 2)),
      .dSetup (.group 91) 4 .grantedToOther 1001 (4, 2)]],
      [⟨4, 7, false, false, ⟨0, true, 1, none, some 0⟩, 3, false, 5, none, none, some 1001, none, none, none, none, none⟩]) := by
    decide +kernel
  unfold bsSent at hb
  cases hq : (Bs.init fun _ => false).run noBrew secretHistory with
  | panic => rw [hq] at hb; cases hb
  | ok q =>
    rw [hq] at hb
    simp only [Option.some.injEq, Prod.mk.injEq] at hb
    have hrun := run_bsRun secretHistory (by
      intro e he
      simp only [secretHistory, List.mem_cons, List.not_mem_nil, or_false] at he
      rcases he with rfl | rfl | rfl | rfl <;> first | trivial | exact (by decide : (1001 : Nat) < 2 ^ 24)) .init hq
    rw [List.nil_append] at hrun
    refine ⟨_, _, hrun, ?_, _, hb.2, rfl, rfl⟩
    have : heardIn q.2 = (q.2.map fun e => e.2.filterMap hear).flatten := by
      simp only [heardIn, List.flatMap_def, List.filterMap_flatten, List.map_map]
      rfl
    rw [this, hb.1]
    rfl

/-- **Finding (C57).** A call from the network whose speaker has a number of more than 24 bits aborts the base station, if a
station listens to the group. -/
theorem c57_speaker_abort : ∃ h s, BsRun (fun _ => true) h s ∧ s.step noBrew (.netStart 1 (2 ^ 24) 91) = .panic := by
  have hb : (match (Bs.init fun _ => true).run noBrew [.tick ⟨1, 1, 1, 1⟩ [], .update (.affiliate 1001 [91])] with
    | .ok q => match q.1.step noBrew (.netStart 1 (2 ^ 24) 91) with
      | .panic => true
      | _ => false
    | .panic => false) = true := by decide +kernel
  cases hq : (Bs.init fun _ => true).run noBrew [.tick ⟨1, 1, 1, 1⟩ [], .update (.affiliate 1001 [91])] with
  | panic => rw [hq] at hb; cases hb
  | ok q =>
    rw [hq] at hb
    have hrun := run_bsRun _ (by
      intro e he
      simp only [List.mem_cons, List.not_mem_nil, or_false] at he
      rcases he with rfl | rfl <;> trivial) .init hq
    refine ⟨_, _, hrun, ?_⟩
    cases hs : q.1.step noBrew (.netStart 1 (2 ^ 24) 91) with
    | panic => rfl
    | ok w => simp only [hs] at hb; cases hb

end Verif.Cmce
