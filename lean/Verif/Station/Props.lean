import Verif.Station.Down
import Verif.Umac.UmacCallProps
/-!
# The whole base station: theorems

C93: what a mobile station sends on the air reaches mobility management and call control once, under its number and with its timeslot,
and nothing else does; the circuits of the radio side are those of the calls announced.
-/
namespace Verif.Station
open Verif.Tdma Verif.Codec
open Verif.Phy (Air Cell CellEv CellOut CellRun callsOf callsOf_append Fresh sentOf c67_history)
open Verif.Umac (TmaReq ChanReq MacCtl UmacOut UmacEv Report Block Addr UmacRun UmacBs InTime SentIn Starts Piece UlAddrOk SentInParts DlSlot Precomps)
open Verif.Cmce (BsOut BsEv Control)

/-! ## Addresses -/

/-- An address a mobile station can put into a header. -/
def FromAir (a : Addr) : Prop := a.ssi < 2 ^ 24 ∧ a.encrypted = false ∧ (a.ssiType = .ssi ∨ a.ssiType = .ussi ∨ a.ssiType = .smi)

theorem starts_addr {ch : Umac.UlChan} {bits : List Bool} {q : Piece} (h : Starts ch bits q) :
    (∀ a b, q = .whole a b → FromAir a) ∧ ∀ a b, q = .first a b → FromAir a := by
  have key : ∀ {e : Bool} {addr : Option Addr} {l : Option Nat} {a : Addr}, UlAddrOk e addr l → addr = some a → e = false → FromAir a := by
    intro e addr l a h ha he
    rcases h with ⟨a', h1, _, h2, h3, h4⟩ | ⟨h1, _⟩
    · rw [ha] at h1; cases h1
      exact ⟨h2, by rw [h3, he], h4⟩
    · rw [ha] at h1; cases h1
  cases h with
  | data _ hf ha he =>
    obtain ⟨_, _, _, _, hd, _⟩ := hf
    exact ⟨fun a b e => (by cases e; exact key (Umac.data_inv hd).addr ha he), fun a b e => (by cases e)⟩
  | dataFirst _ hf ha he =>
    obtain ⟨_, _, _, _, hd, _⟩ := hf
    exact ⟨fun a b e => (by cases e), fun a b e => by cases e; exact key (Umac.data_inv hd).addr ha he⟩
  | access _ hf ha he =>
    obtain ⟨_, _, _, _, hd, _⟩ := hf
    exact ⟨fun a b e => (by cases e; exact key (Umac.access_inv hd).addr ha he), fun a b e => (by cases e)⟩
  | accessFirst _ hf ha he =>
    obtain ⟨_, _, _, _, hd, _⟩ := hf
    exact ⟨fun a b e => (by cases e), fun a b e => by cases e; exact key (Umac.access_inv hd).addr ha he⟩
  | frag _ _ => exact ⟨fun a b e => (by cases e), fun a b e => (by cases e)⟩
  | endUl _ _ => exact ⟨fun a b e => (by cases e), fun a b e => (by cases e)⟩
  | endHu _ _ _ => exact ⟨fun a b e => (by cases e), fun a b e => (by cases e)⟩
  | signal _ _ => exact ⟨fun a b e => (by cases e), fun a b e => (by cases e)⟩

theorem sentIn_addr {ch : Umac.UlChan} {bits : List Bool} {q : Piece} (h : SentIn ch bits q) :
    (∀ a b, q = .whole a b → FromAir a) ∧ ∀ a b, q = .first a b → FromAir a := by
  induction h with
  | here h => exact starts_addr h
  | later _ _ _ ih => exact ih

/-! ## Origins -/

/-- Where a message for the LLC comes from: it is in a block received in this timeslot, under this address; or it is in a stolen half
slot and has no address; or its last part is in the block and the other parts were in blocks of the same timeslot; or it is the empty message
left after an overflow. `before` are the calls of the upper MAC up to and with the block. -/
def OriginOf (gs : List Umac.Given) (before : Verif.Phy.Calls) (k : Umac.UlCtx) (bits : List Bool) (a : Addr) (b : List Bool) : Prop :=
  SentIn k.chan bits (.whole a b) ∨ (a = ⟨0, .ssi, false⟩ ∧ SentIn k.chan bits (.signal b)) ∨ SentInParts gs before k bits a b ∨
    (a = ⟨0, .unknown, false⟩ ∧ b = [])

theorem OriginOf.ssi {gs : List Umac.Given} {before : Verif.Phy.Calls} {k : Umac.UlCtx} {bits : List Bool} {a : Addr} {b : List Bool}
    (h : OriginOf gs before k bits a b) : a.ssi < 2 ^ 24 := by
  rcases h with h | ⟨rfl, _⟩ | ⟨p, ps, l, _, ⟨c0, b0, o0, _, _, h⟩, _⟩ | ⟨rfl, _⟩
  · exact ((sentIn_addr h).1 _ _ rfl).1
  · decide
  · exact ((sentIn_addr h).2 _ _ rfl).1
  · decide

theorem umacRun_prefix {s0 s : UmacBs} {h1 h2 : Verif.Phy.Calls} (hr : UmacRun s0 (h1 ++ h2) s) : ∃ s1, UmacRun s0 h1 s1 := by
  generalize hh : h1 ++ h2 = hist at hr
  induction hr generalizing h2 with
  | init =>
    obtain ⟨rfl, rfl⟩ := List.append_eq_nil_iff.1 hh
    exact ⟨_, .init⟩
  | @step h' s s' e o hr hst ih =>
    cases h2 using List.reverseRecOn with
    | nil => rw [List.append_nil] at hh; subst hh; exact ⟨_, .step hr hst⟩
    | append_singleton l a _ =>
      rw [← List.append_assoc] at hh
      obtain ⟨rfl, _⟩ := List.append_inj' hh rfl
      exact ih rfl

theorem inTime_prefix {x : Time} {h1 h2 : Verif.Phy.Calls} (hi : InTime x (h1 ++ h2)) : InTime x h1 := by
  induction h2 using List.reverseRecOn with
  | nil => simpa using hi
  | append_singleton l a ih => rw [← List.append_assoc] at hi; exact ih hi.init

variable {brew : Bool} {carrier scramb : Nat} {x : Time} {wide : Bool} {pre : Precomps} {code : BitVec 32}

theorem indication_origin (hx : x.valid) {h : List (CellEv × CellOut)} {cl : Cell}
    (hr : CellRun ⟨.init brew carrier x scramb wide pre, .init code⟩ h cl) {a : Addr} {ts : Nat} {b : List Bool} (hm : (a, ts, b) ∈ indications h) :
    ∃ gs before k bits out after, callsOf h = before ++ (.block k bits, out) :: after ∧ k.x.t = ts ∧ (.sdu k.x a b) ∈ out ∧
      OriginOf gs (before ++ [(.block k bits, out)]) k bits a b := by
  obtain ⟨hu, hi⟩ := c67_history hx hr
  simp only [indications, List.mem_flatMap, List.mem_map] at hm
  obtain ⟨⟨e, out⟩, hp, ⟨y, a', b'⟩, hq, he⟩ := hm
  simp only [Prod.mk.injEq] at he
  obtain ⟨rfl, rfl, rfl⟩ := he
  have ho : (.sdu y a' b') ∈ out := by
    simp only [Umac.sdus, List.mem_filterMap] at hq
    obtain ⟨o, ho, hq⟩ := hq
    cases o <;> simp [Umac.UmacOut.sdu?] at hq
    obtain ⟨rfl, rfl, rfl⟩ := hq
    exact ho
  obtain ⟨before, after, hs⟩ := List.append_of_mem hp
  have hc : h.flatMap (·.2.calls) = callsOf h := rfl
  rw [hc, hs] at hu hi
  have e1 : before ++ (e, out) :: after = (before ++ [(e, out)]) ++ after := by simp
  rw [e1] at hu hi
  obtain ⟨s1, hu1⟩ := umacRun_prefix hu
  have hi1 := inTime_prefix hi
  obtain ⟨k, bits, rfl, rfl, h3⟩ := Umac.c49_origin brew carrier x hx scramb wide pre s1 before e out hu1 hi1 y a' b' ho
  exact ⟨_, before, k, bits, out, after, hs, rfl, ho, h3⟩

/-! ## C93: upwards -/

theorem sends_mem {fs : List (Addr × Nat × List Bool)} {ms : List Sig.Message} (h : Sig.Sends fs ms) :
    (∀ a ts pdu d msg, (a, ts, pdu) ∈ fs → Sig.Carries pdu d msg → d = 1 ∨ d = 2 → ⟨d, a.ssi, ts, msg⟩ ∈ ms) ∧
    ∀ m ∈ ms, ∃ a pdu, (a, m.slot, pdu) ∈ fs ∧ a.ssi = m.sender ∧ Sig.Carries pdu m.protocol m.bits := by
  induction h with
  | nil => simp
  | @message fs ms addr ts pdu d msg _ hc hd ih =>
    refine ⟨fun a ts' pdu' d' msg' hm hc' hd' => ?_, fun m hm => ?_⟩
    · rcases List.mem_append.1 hm with hm | hm
      · exact List.mem_append_left _ (ih.1 _ _ _ _ _ hm hc' hd')
      · simp only [List.mem_singleton, Prod.mk.injEq] at hm
        obtain ⟨rfl, rfl, rfl⟩ := hm
        obtain ⟨rfl, rfl⟩ := Sig.carries_unique hc hc'
        simp
    · rcases List.mem_append.1 hm with hm | hm
      · obtain ⟨a, p, h1, h2⟩ := ih.2 m hm
        exact ⟨a, p, List.mem_append_left _ h1, h2⟩
      · rw [List.mem_singleton] at hm; subst hm
        exact ⟨addr, pdu, by simp, rfl, hc⟩
  | @other fs ms addr ts pdu _ ho ih =>
    refine ⟨fun a ts' pdu' d' msg' hm hc' hd' => ?_, fun m hm => ?_⟩
    · rcases List.mem_append.1 hm with hm | hm
      · exact ih.1 _ _ _ _ _ hm hc' hd'
      · simp only [List.mem_singleton, Prod.mk.injEq] at hm
        obtain ⟨rfl, rfl, rfl⟩ := hm
        have := ho _ _ hc'
        omega
    · obtain ⟨a, p, h1, h2⟩ := ih.2 m hm
      exact ⟨a, p, List.mem_append_left _ h1, h2⟩

/-- A block of a mobile station on the air, received in the slot `o`: a burst of random access in either half of the slot, a full slot
outside traffic, or the first half of a slot of two halves. The training sequence is found, and the coded bits have at most one error. -/
inductive OnAir (code : BitVec 32) (o : DlSlot) (a : Air) : Umac.UlChan → List Bool → Prop where
  | access {rx m t : List Bool} {p : Nat} : rx = a.sub1 ∨ rx = a.sub2 → Verif.Phy.Spot rx Verif.Phy.seqX 88 48 p → m.length = 92 →
      ErrorControl.encodeCp .schHu m code = .ok t → ErrorControl.AtMostOneError (Verif.Phy.ctlBits rx p) t → OnAir code o a .schHu m
  | full {m t : List Bool} {p : Nat} : o.ulPhy = .cp → Verif.Phy.Spot a.full Verif.Phy.seqN 220 48 p → m.length = 268 →
      ErrorControl.encodeCp .schF m code = .ok t →
      ErrorControl.AtMostOneError (Verif.Phy.normHalf1 a.full p ++ Verif.Phy.normHalf2 a.full p) t → OnAir code o a .schF m
  | half {m t : List Bool} {p : Nat} : Verif.Phy.NoSpot a.full Verif.Phy.seqN 220 48 → Verif.Phy.Spot a.full Verif.Phy.seqP 220 48 p →
      m.length = 124 → ErrorControl.encodeCp .stch m code = .ok t → ErrorControl.AtMostOneError (Verif.Phy.normHalf1 a.full p) t →
      OnAir code o a .stch m

/-- **C93, what is sent is heard.** In any history of the base station: if in the reception of a slot there is a block with messages of a
mobile station, and one of them carries a message for mobility management or call control, then, when the router has delivered what it
has, that protocol was handed this message, under the number of the station and with the timeslot the block was received in. -/
theorem c93_reaches (hx : x.valid) {c : Sig.Cfg} {ins : List In} {h : Trace} {s : Station}
    (hr : Run c ⟨.init brew carrier x scramb wide pre, .init code⟩ ins h s) (hq : s.sig.queue = [])
    {r1 r2 : List (CellEv × CellOut)} {a : Air} {out : CellOut} (he : h.radio = r1 ++ (.up a, out) :: r2) (hf : Fresh r1)
    {l : List DlSlot} {o o1 o2 o3 : DlSlot} (hs : sentOf r1 = l ++ [o, o1, o2, o3]) (ha : a.Sized)
    {ch : Umac.UlChan} {m : List Bool} (hm : OnAir code o a ch m) {ms : List (Addr × List Bool)} (hms : Umac.Reads ch m ms)
    {addr : Addr} {pdu msg : List Bool} {d : Nat} (hin : (addr, pdu) ∈ ms) (hc : Sig.Carries pdu d msg) (hd : d = 1 ∨ d = 2) :
    ⟨d, addr.ssi, o.ts.t, msg⟩ ∈ Sig.heard h.calls := by
  obtain ⟨rest, h1, h2⟩ := Sig.c70_heard (run_both hr).sig
  rw [h2 hq, List.append_nil, run_frames hr] at h1
  refine (sends_mem h1).1 _ _ _ _ _ ?_ hc hd
  have hcell := (run_both hr).cell
  rw [he] at hcell ⊢
  obtain ⟨cl, hu⟩ : ∃ cl, CellRun ⟨.init brew carrier x scramb wide pre, .init code⟩ r1 cl ∧ ∃ cl', cl.step (.up a) = .ok (cl', out) := by
    have e1 : r1 ++ (.up a, out) :: r2 = (r1 ++ [(.up a, out)]) ++ r2 := by simp
    rw [e1] at hcell
    obtain ⟨c1, hc1, _⟩ := hcell.append_inv
    generalize hh : r1 ++ [(CellEv.up a, out)] = hist at hc1
    cases hc1 with
    | init => simp at hh
    | @step h' c0' c' e o' hr' hst =>
      obtain ⟨rfl, h2⟩ := List.append_inj' hh rfl
      simp only [List.cons.injEq, Prod.mk.injEq, and_true] at h2
      obtain ⟨rfl, rfl⟩ := h2
      exact ⟨_, hr', _, hst⟩
  obtain ⟨hrc, cl', hst⟩ := hu
  simp only [Cell.step] at hst
  rw [Out.bind_eq_ok] at hst; obtain ⟨r, hup, hst⟩ := hst
  have hup' : cl.up a = .ok (r.1, r.2) := hup
  have ho : out = ⟨r.2, []⟩ := by cases hst; rfl
  have hb : ∃ half, (UmacEv.block ⟨ch, half, o.ts⟩ m) ∈ r.2.map Prod.fst := by
    cases hm with
    | access k1 k2 k3 k4 k5 => exact ⟨_, Verif.Phy.c67_control hx hrc hf hs ha hup' k1 k2 k3 k4 k5⟩
    | full k1 k2 k3 k4 k5 => exact ⟨_, Verif.Phy.c67_full hx hrc hf hs ha hup' k1 k2 k3 k4 k5⟩
    | half k1 k2 k3 k4 k5 => exact ⟨_, (Verif.Phy.c67_halves hx hrc hf hs ha hup' k1 k2).1 _ _ k3 k4 k5⟩
  obtain ⟨half, hb⟩ := hb
  obtain ⟨out', i1, i2⟩ := Verif.Phy.c67_messages hup' hb hms
  rw [indications_append]
  refine List.mem_append_right _ ?_
  simp only [indications, List.mem_flatMap, List.mem_map, callsOf]
  refine ⟨_, ⟨_, List.mem_cons_self, by rw [ho]; exact i1⟩, (o.ts, addr, pdu), ?_, rfl⟩
  rw [i2, List.mem_map]
  exact ⟨_, hin, rfl⟩

/-- **C93, nothing else is heard, and nothing twice.** What mobility management and call control were handed, in order, is what is in the
messages of the upper MAC, in order, and the rest is still in the queue. -/
theorem c93_heard {c : Sig.Cfg} {c0 : Cell} {ins : List In} {h : Trace} {s : Station} (hr : Run c c0 ins h s) :
    ∃ rest, Sig.Sends (indications h.radio) (Sig.heard h.calls ++ rest) ∧ (s.sig.queue = [] → rest = []) := by
  rw [← run_frames hr]
  exact Sig.c70_heard (run_both hr).sig

/-- **C93, where it comes from.** Every message mobility management or call control was handed was in a frame a mobile station sent: in a
block received in that timeslot. -/
theorem c93_origin (hx : x.valid) {c : Sig.Cfg} {ins : List In} {h : Trace} {s : Station}
    (hr : Run c ⟨.init brew carrier x scramb wide pre, .init code⟩ ins h s) {m : Sig.Message} (hm : m ∈ Sig.heard h.calls) :
    ∃ a pdu, a.ssi = m.sender ∧ Sig.Carries pdu m.protocol m.bits ∧
      ∃ gs before k bits out after, callsOf h.radio = before ++ (.block k bits, out) :: after ∧ k.x.t = m.slot ∧
        OriginOf gs (before ++ [(.block k bits, out)]) k bits a pdu := by
  obtain ⟨rest, h1, _⟩ := c93_heard hr
  obtain ⟨a, pdu, i1, i2, i3⟩ := (sends_mem h1).2 m (List.mem_append_left _ hm)
  obtain ⟨gs, before, k, bits, out, after, j1, j2, _, j3⟩ := indication_origin hx (run_both hr).cell i1
  exact ⟨a, pdu, i2, i3, gs, before, k, bits, out, after, j1, j2, j3⟩

/-! ## Sane histories -/

/-- The backhaul names stations by 24 bits and calls groups which go over it. -/
def In.Sane (c : Sig.Cfg) : In → Prop
  | .backhaul e => e.ev.Sane (Brew.gssiRoutable c.brew)
  | _ => True

theorem events_sane (hx : x.valid) {c : Sig.Cfg} {r : List (CellEv × CellOut)} {cl : Cell}
    (hr : CellRun ⟨.init brew carrier x scramb wide pre, .init code⟩ r cl) {old new : Cell} {owner : Assoc Nat Nat} {o : CellOut}
    {e : CellEv} (hm : (e, o) ∈ r) : ∀ ev ∈ eventsOf owner old new o, ev.Sane c := by
  intro ev hev
  unfold eventsOf at hev
  rcases List.mem_append.1 hev with hev | hev
  · obtain ⟨rp, _, hrp⟩ := List.mem_filterMap.1 hev
    cases rp <;> simp only [reportOf, Option.map_eq_some_iff] at hrp <;> obtain ⟨_, _, rfl⟩ := hrp <;> trivial
  · obtain ⟨uo, h1, h2⟩ := List.mem_filterMap.1 hev
    obtain ⟨p, hp, h1⟩ := List.mem_flatMap.1 h1
    cases uo with
    | slot _ => cases h2
    | voice _ _ => cases h2
    | secondHalf => cases h2
    | inactive ts => cases h2; trivial
    | sdu y a b =>
      cases h2
      have : (a, y.t, b) ∈ indications r := by
        simp only [indications, List.mem_flatMap, List.mem_map, callsOf]
        refine ⟨p, ⟨_, hm, hp⟩, (y, a, b), ?_, rfl⟩
        simp only [Umac.sdus, List.mem_filterMap]
        exact ⟨_, h1, rfl⟩
      obtain ⟨_, _, _, _, _, _, _, _, _, ho⟩ := indication_origin hx hr this
      exact ho.ssi

theorem run_sane (hx : x.valid) {c : Sig.Cfg} {ins : List In} {h : Trace} {s : Station}
    (hr : Run c ⟨.init brew carrier x scramb wide pre, .init code⟩ ins h s) (hi : ∀ i ∈ ins, i.Sane c) : ∀ e ∈ h.evs, e.Sane c := by
  have radio : ∀ (h : Trace) (s s' : Station) e t, (Both c ⟨.init brew carrier x scramb wide pre, .init code⟩ h s ∧ ∀ e ∈ h.evs, e.Sane c) →
      s.radio c e = .ok (s', t) → (Both c ⟨.init brew carrier x scramb wide pre, .init code⟩ (h.add t) s' ∧ ∀ e ∈ (h.add t).evs, e.Sane c) := by
    rintro h s s' e t ⟨hb, hs⟩ hst
    have hb' := hb.radio hst
    refine ⟨hb', ?_⟩
    obtain ⟨cell, o, sig, k, h1, h2, rfl, rfl⟩ := radio_ok hst
    intro ev hev
    rw [Trace.add_evs] at hev
    rcases List.mem_append.1 hev with hev | hev
    · exact hs ev hev
    · exact events_sane hx hb'.cell (e := e) (o := o) (by simp) ev hev
  have key := run_parts (P := fun h s => Both c ⟨.init brew carrier x scramb wide pre, .init code⟩ h s ∧ ∀ e ∈ h.evs, e.Sane c) (In.Sane c)
    ⟨⟨.init, .init⟩, by simp [Trace.empty]⟩ (fun h s cc' hb hre => ⟨⟨.reorder hb.1.sig hre, hb.1.cell⟩, hb.2⟩)
    (fun h s s' e t hb _ hs => radio h s s' e t hb hs)
    (fun h s s' e t hb hs ho => by
      obtain ⟨sig, k, h1, rfl, rfl⟩ := signal_ok hs
      refine ⟨⟨hb.1.sig.step h1, by simpa using hb.1.cell⟩, fun ev hev => ?_⟩
      rw [Trace.add_evs] at hev
      rcases List.mem_append.1 hev with hev | hev
      · exact hb.2 ev hev
      · rw [List.mem_singleton] at hev; subst hev
        cases ev with
        | frame => exact ho.elim
        | toCmce t o => exact ho.2
        | _ => trivial)
    (fun h s ts b hb => ⟨⟨hb.1.sig, hb.1.cell⟩, hb.2⟩)
    (fun h s now e q r s' t hb _ _ hs => radio h { s with mac := q, next := s.next + 1, owner := s.owned e } s' _ t ⟨⟨hb.1.sig, hb.1.cell⟩, hb.2⟩ hs)
    (fun h s now e q hb _ _ => ⟨⟨hb.1.sig, hb.1.cell⟩, hb.2⟩)
    (fun h s m q s' t hb _ hs => radio h { s with mac := q } s' _ t ⟨⟨hb.1.sig, hb.1.cell⟩, hb.2⟩ hs)
    (fun h s ts b q s' t hb _ hs => radio h { s with mac := q } s' _ t ⟨⟨hb.1.sig, hb.1.cell⟩, hb.2⟩ hs)
    hr hi
  exact key.2

/-! ## C93: circuits and calls -/

/-- **C93, circuits.** When the orders of call control have been delivered, the radio side has a circuit on a timeslot exactly when what
the mobile stations were told says that a call is there, with its usage marker; and hang time exactly when nobody has the floor in it.
(While no call number is used twice: C28.) -/
theorem c93_circuits_partial (hx : x.valid) {c : Sig.Cfg} {ins : List In} {h : Trace} {s : Station}
    (hr : Run c ⟨.init brew carrier x scramb wide pre, .init code⟩ ins h s) (hi : ∀ i ∈ ins, i.Sane c)
    (hw : ∀ m ∈ s.mac, ∀ o, m ≠ .order o) (hn : Cmce.NoReuse (Cmce.heardIn (Sig.bsCalls h.calls))) (i : Fin 4) :
    (∀ k, s.cell.umac.sched.circuits.dl i = some k ∨ s.cell.umac.sched.circuits.ul i = some k →
      ∃ id g, Cmce.heard (Cmce.heardIn (Sig.bsCalls h.calls)) id = some (g, k.usage, i.val + 1)) ∧
    (∀ id g u, Cmce.heard (Cmce.heardIn (Sig.bsCalls h.calls)) id = some (g, u, i.val + 1) →
      s.cell.umac.sched.circuits.dl i = some ⟨.dl, i.val + 1, u, 0, some 0, false⟩ ∧
      s.cell.umac.sched.circuits.ul i = some ⟨.ul, i.val + 1, u, 0, some 0, false⟩) ∧
    (s.cell.umac.sched.hang i = true ↔ ∃ id g u, Cmce.heard (Cmce.heardIn (Sig.bsCalls h.calls)) id = some (g, u, i.val + 1) ∧
      Cmce.busy (Cmce.heardIn (Sig.bsCalls h.calls)) id = false) := by
  obtain ⟨sent, hg⟩ := run_gone hr
  have ho := hg.orders
  have hw0 : waitingOrders s.mac = [] := by
    unfold waitingOrders
    rw [List.filterMap_eq_nil_iff]
    intro m hm
    cases m with
    | order o => exact absurd rfl (hw _ hm o)
    | _ => rfl
  rw [hw0, List.append_nil] at ho
  obtain ⟨h', r1, r2⟩ := Cmce.c57_heard (Sig.run_bs (run_both hr).sig (run_sane hx hr hi))
  have hm := Cmce.reads_messages r1
  rw [← hm] at hn ho ⊢
  obtain ⟨hu, hti⟩ := c67_history hx (run_both hr).cell
  exact Umac.c48_calls brew carrier x hx scramb wide pre _ _ hu hti.timed _ h' _ r2 hn ho i

end Verif.Station
