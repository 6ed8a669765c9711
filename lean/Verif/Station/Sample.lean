import Verif.Station.Clean
import Verif.Phy.UplinkFindings
import Verif.Sig.Sample
/-!
# The whole base station: a sample

A station registers over the air and is answered. The kernel evaluates the upper MAC and the signalling stack; that lower MAC and physical
layer do their part is known (C67, C68).
-/
namespace Verif.Station
open Verif.Tdma Verif.Codec
open Verif.Phy (Air Cell CellEv CellOut CellRun callsOf callsOf_append c67_history sentOf slotsOut silence ctlAir)
open Verif.Umac (TmaReq ChanReq MacCtl UmacOut UmacEv Report Block Addr UmacRun UmacBs Precomps SchedEv SchedRet MacResource AddrOk
  Carried bitsIn reportsIn reported UmacMs Wanted Proper CellCfg)
open Verif.ErrorControl (encodeCp)

/-! ## The base station without the lower layers -/

/-- The radio side without lower MAC and physical layer. -/
def liteCell (c : Cell) : CellEv → Out (Cell × CellOut)
  | .down w => c.order (.tick w)
  | .up _ => .err
  | .request q => c.order (.request q)
  | .voice ts b => c.order (.voiceDown ts b)
  | .control m => c.order (.control m)

def liteRadio (c : Sig.Cfg) (s : Station) (e : CellEv) (r : Out (Cell × CellOut)) : Out (Station × Trace) := do
  let r ← r
  let evs := eventsOf s.owner s.cell r.1 r.2
  let q ← feed c s.sig evs
  .ok ({ s with cell := r.1, sig := q.1 }, ⟨[(e, r.2)], evs, q.2⟩)

def liteMac (c : Sig.Cfg) (s : Station) : Out (Station × Trace) :=
  match s.mac with
  | [] => .ok (s, .empty)
  | .request now e :: q =>
    match requestOf now s.next e with
    | some r => liteRadio c { s with mac := q, next := s.next + 1, owner := s.owned e } (.request r) (liteCell s.cell (.request r))
    | none => .ok ({ s with mac := q }, .empty)
  | .order m :: q => liteRadio c { s with mac := q } (.control m) (liteCell s.cell (.control m))
  | .voice ts b :: q => liteRadio c { s with mac := q } (.voice ts b) (liteCell s.cell (.voice ts b))

/-- An event, which is not a reception. -/
def liteStep (c : Sig.Cfg) (s : Station) : In → Out (Station × Trace)
  | .tick wide cmds clock mleFirst true => do
    let now ← Out.ofRes (s.cell.umac.now.addTimeslots 1)
    andThen (liteRadio c s (.down wide) (liteCell s.cell (.down wide))) fun s => s.signal c (.tickStart now cmds clock mleFirst)
  | .backhaul (.inactive _) => .ok (s, .empty)
  | .backhaul e => s.signal c (.toCmce s.cell.umac.now.t e)
  | .voice ts b => .ok ({ s with mac := s.mac ++ [.voice ts b] }, .empty)
  | .deliver => s.signal c .deliver
  | .deliverMac => liteMac c s
  | .llcEnd => s.signal c .tickEnd
  | _ => .err

/-- A reception which brings the upper MAC the block `m`. -/
def liteAir (c : Sig.Cfg) (s : Station) (a : Air) (k : Umac.UlCtx) (m : List Bool) : Out (Station × Trace) :=
  liteRadio c s (.up a) (s.cell.order (.block k m))

def liteRun (c : Sig.Cfg) (s : Station) : List In → Out (Station × Trace)
  | [] => .ok (s, .empty)
  | i :: is => andThen (liteStep c s i) fun s => liteRun c s is

/-- The same but for the lower MAC. -/
structure Like (s l : Station) : Prop where
  umac : s.cell.umac = l.cell.umac
  sig : s.sig = l.sig
  mac : s.mac = l.mac
  next : s.next = l.next
  owner : s.owner = l.owner

/-- A slot sent, a slot received, or something else. -/
def kind : CellEv → Option Bool
  | .down _ => some true
  | .up _ => some false
  | _ => none

/-- The same but for the bursts. -/
structure Same (t u : Trace) : Prop where
  evs : t.evs = u.evs
  calls : t.calls = u.calls
  radio : callsOf t.radio = callsOf u.radio
  what : t.radio.map (kind ·.1) = u.radio.map (kind ·.1)

theorem Same.refl (t : Trace) : Same t t := ⟨rfl, rfl, rfl, rfl⟩

theorem Same.add {t u t' u' : Trace} (h : Same t u) (h' : Same t' u') : Same (t.add t') (u.add u') := by
  constructor
  · simp [Trace.add, h.evs, h'.evs]
  · simp [Trace.add, h.calls, h'.calls]
  · simp only [Trace.add, callsOf_append, h.radio, h'.radio]
  · simp [Trace.add, h.what, h'.what]

theorem eventsOf_like {owner : Assoc Nat Nat} {a b a' b' : Cell} {o o' : CellOut} (h1 : a.umac = a'.umac) (h2 : b.umac = b'.umac)
    (h3 : o.calls = o'.calls) : eventsOf owner a b o = eventsOf owner a' b' o' := by
  unfold eventsOf; rw [h1, h2, h3]

/-- A step of the radio side is a step without the lower layers, if the lower layers do their part. -/
theorem radio_like {c : Sig.Cfg} {s l l' : Station} {e : CellEv} {t : Trace} (hl : Like s l) {r : Out (Cell × CellOut)}
    (h : liteRadio c l e r = .ok (l', t))
    (hc : ∀ cl ol, r = .ok (cl, ol) → ∃ c' o, s.cell.step e = .ok (c', o) ∧ c'.umac = cl.umac ∧ o.calls = ol.calls) :
    ∃ s' t', s.radio c e = .ok (s', t') ∧ Like s' l' ∧ Same t' t := by
  unfold liteRadio at h
  rw [Out.bind_eq_ok] at h; obtain ⟨⟨cl, ol⟩, h1, h⟩ := h
  simp only at h
  rw [Out.bind_eq_ok] at h; obtain ⟨q, h2, h⟩ := h
  cases h
  obtain ⟨c', o, e1, e2, e3⟩ := hc cl ol h1
  have he : eventsOf s.owner s.cell c' o = eventsOf l.owner l.cell cl ol := by
    rw [hl.owner]; exact eventsOf_like hl.umac e2 e3
  refine ⟨{ s with cell := c', sig := q.1 }, ⟨[(e, o)], eventsOf s.owner s.cell c' o, q.2⟩, ?_, ⟨e2, rfl, hl.mac, hl.next, hl.owner⟩,
    ⟨he, rfl, by simp [callsOf, e3], rfl⟩⟩
  unfold Station.radio
  simp only [e1, Out.bind_ok]
  rw [hl.sig, he, h2]
  rfl

theorem order_like {s l : Station} (hl : Like s l) {ev : UmacEv} {cl : Cell} {ol : CellOut} (h : l.cell.order ev = .ok (cl, ol)) :
    ∃ c' o, s.cell.order ev = .ok (c', o) ∧ c'.umac = cl.umac ∧ o.calls = ol.calls := by
  unfold Cell.order at h
  rw [Out.bind_eq_ok] at h; obtain ⟨r, h1, h⟩ := h
  cases h
  refine ⟨{ s.cell with umac := r.1 }, ⟨[(ev, r.2)], []⟩, ?_, rfl, rfl⟩
  unfold Cell.order
  rw [hl.umac, h1]; rfl

theorem signal_like {c : Sig.Cfg} {s l l' : Station} {e : Sig.Ev} {t : Trace} (hl : Like s l) (h : l.signal c e = .ok (l', t)) :
    ∃ s' t', s.signal c e = .ok (s', t') ∧ Like s' l' ∧ Same t' t := by
  obtain ⟨sig, k, h1, rfl, rfl⟩ := signal_ok h
  refine ⟨{ s with sig := sig, mac := s.mac ++ k.flatMap (mailOf sig.llc.now) }, ⟨[], [e], k⟩, ?_,
    ⟨hl.umac, rfl, by simp only [hl.mac], hl.next, hl.owner⟩, .refl _⟩
  unfold Station.signal
  rw [hl.sig, h1]
  rfl

theorem signal_log {c : Sig.Cfg} {s s' : Station} {e : Sig.Ev} {t : Trace} (h : s.signal c e = .ok (s', t)) : s'.cell = s.cell := by
  obtain ⟨sig, k, _, rfl, _⟩ := signal_ok h
  rfl

variable {brew : Bool} {carrier scramb : Nat} {x : Time} {wide : Bool} {cfg : CellCfg} {code : BitVec 32}

/-- A step which is not a reception. -/
theorem step_like (hx : x.valid) (hcfg : cfg.InRange) {c : Sig.Cfg} {ins : List In} {h t : Trace} {s l l' : Station} {i : In}
    (hr : Run c ⟨.init brew carrier x scramb wide (Precomps.generate cfg), .init code⟩ ins h s) (hl : Like s l)
    (hs : liteStep c l i = .ok (l', t)) (hp : Proper (l'.cell.umac.log.map Prod.fst)) :
    ∃ s' t', s.step c i = .ok (s', t') ∧ Like s' l' ∧ Same t' t := by
  cases i with
  | tick w cmds clock mf mac =>
    cases mac with
    | false => cases hs
    | true =>
      simp only [liteStep] at hs
      rw [Out.bind_eq_ok] at hs; obtain ⟨now, h0, hs⟩ := hs
      obtain ⟨l1, t1, t2, h1, h2, rfl⟩ := andThen_ok hs
      obtain ⟨s1, u1, k1, k2, k3⟩ := radio_like (s := s) hl h1 (fun cl ol hc => by
        have hc' : l.cell.order (.tick w) = .ok (cl, ol) := hc
        unfold Cell.order at hc'
        rw [Out.bind_eq_ok] at hc'; obtain ⟨r, g1, hc'⟩ := hc'
        cases hc'
        have hcell : l1.cell = { l.cell with umac := r.1 } := by
          unfold liteRadio at h1
          rw [hc] at h1
          simp only [Out.bind_ok] at h1
          rw [Out.bind_eq_ok] at h1; obtain ⟨q, _, h1⟩ := h1
          cases h1; rfl
        obtain ⟨c', b, g2, g3, _⟩ := Verif.Phy.c68_down hx hcfg (run_both hr).cell (w := w) (s' := r.1) (out := r.2)
          (by rw [hl.umac]; exact g1) (by rw [signal_log h2, hcell] at hp; exact hp)
        exact ⟨c', _, g2, g3, rfl⟩)
      obtain ⟨s2, u2, k4, k5, k6⟩ := signal_like k2 h2
      refine ⟨s2, u1.add u2, ?_, k5, k3.add k6⟩
      simp only [Station.step, hl.umac, h0, Out.bind_ok, if_true, andThen, k1, k4]
  | air a => cases hs
  | backhaul e =>
    cases e with
    | inactive ts => cases hs; exact ⟨s, .empty, rfl, hl, .refl _⟩
    | _ =>
      simp only [liteStep, ← hl.umac] at hs
      exact signal_like hl hs
  | voice ts b => cases hs; exact ⟨_, .empty, rfl, ⟨hl.umac, hl.sig, by simp only [hl.mac], hl.next, hl.owner⟩, .refl _⟩
  | deliver => exact signal_like hl hs
  | llcEnd => exact signal_like hl hs
  | deliverMac =>
    simp only [liteStep, liteMac] at hs
    have hm := hl.mac
    have hn := hl.next
    have ho := hl.owner
    simp only [Station.step, Station.deliverMac, hm]
    split at hs
    · rename_i e0
      cases hs
      simp only [e0]
      exact ⟨s, .empty, rfl, hl, .refl _⟩
    · rename_i now e q e0
      simp only [e0, hn]
      split at hs
      · rename_i r e1
        simp only [e1]
        refine radio_like (s := { s with mac := q, next := l.next + 1, owner := s.owned e })
          (l := { l with mac := q, next := l.next + 1, owner := l.owned e }) ⟨hl.umac, hl.sig, rfl, rfl, ?_⟩ hs (fun cl ol hc => order_like hl hc)
        cases e <;> simp [Station.owned, ho, hn]
      · rename_i e1
        cases hs
        simp only [e1]
        exact ⟨_, .empty, rfl, ⟨hl.umac, hl.sig, rfl, rfl, hl.owner⟩, .refl _⟩
    · rename_i m q e0
      simp only [e0]
      exact radio_like (s := { s with mac := q }) (l := { l with mac := q }) ⟨hl.umac, hl.sig, rfl, hn, hl.owner⟩ hs (fun cl ol hc => order_like hl hc)
    · rename_i ts b q e0
      simp only [e0]
      exact radio_like (s := { s with mac := q }) (l := { l with mac := q }) ⟨hl.umac, hl.sig, rfl, hn, hl.owner⟩ hs (fun cl ol hc => order_like hl hc)

theorem liteRadio_log {c : Sig.Cfg} {l l' : Station} {e : CellEv} {r : Out (Cell × CellOut)} {t : Trace} (h : liteRadio c l e r = .ok (l', t)) :
    ∃ o, r = .ok (l'.cell, o) := by
  unfold liteRadio at h
  rw [Out.bind_eq_ok] at h; obtain ⟨r, h1, h⟩ := h
  simp only at h
  rw [Out.bind_eq_ok] at h; obtain ⟨q, _, h⟩ := h
  cases h
  exact ⟨r.2, h1⟩

theorem order_log {c c' : Cell} {e : UmacEv} {o : CellOut} (h : c.order e = .ok (c', o)) : ∃ cs, c'.umac.log = c.umac.log ++ cs := by
  unfold Cell.order at h
  rw [Out.bind_eq_ok] at h; obtain ⟨r, h1, h⟩ := h
  cases h
  obtain ⟨cs, fs, v, _⟩ := Umac.step_via h1
  exact ⟨cs, v.log⟩

theorem liteStep_log {c : Sig.Cfg} {l l' : Station} {i : In} {t : Trace} (h : liteStep c l i = .ok (l', t)) :
    ∃ cs, l'.cell.umac.log = l.cell.umac.log ++ cs := by
  have lite : ∀ {l l' : Station} {e : CellEv} {t : Trace}, liteRadio c l e (liteCell l.cell e) = .ok (l', t) →
      ∃ cs, l'.cell.umac.log = l.cell.umac.log ++ cs := by
    intro l l' e t h
    obtain ⟨o, ho⟩ := liteRadio_log h
    cases e with
    | up a => cases ho
    | _ => exact order_log ho
  cases i with
  | tick w cmds clock mf mac =>
    cases mac with
    | false => cases h
    | true =>
      simp only [liteStep] at h
      rw [Out.bind_eq_ok] at h; obtain ⟨now, h0, h⟩ := h
      obtain ⟨l1, t1, t2, h1, h2, rfl⟩ := andThen_ok h
      rw [signal_log h2]
      exact lite h1
  | air a => cases h
  | backhaul e =>
    cases e with
    | inactive ts => cases h; exact ⟨[], by simp⟩
    | _ =>
      simp only [liteStep] at h
      exact ⟨[], by rw [signal_log h]; simp⟩
  | voice ts b => cases h; exact ⟨[], by simp⟩
  | deliver => simp only [liteStep] at h; exact ⟨[], by rw [signal_log h]; simp⟩
  | llcEnd => simp only [liteStep] at h; exact ⟨[], by rw [signal_log h]; simp⟩
  | deliverMac =>
    simp only [liteStep, liteMac] at h
    split at h
    · cases h; exact ⟨[], by simp⟩
    · rename_i now e q _
      split at h
      · exact lite (l := { l with mac := q, next := l.next + 1, owner := l.owned e }) h
      · cases h; exact ⟨[], by simp⟩
    · rename_i m q _
      exact lite (l := { l with mac := q }) h
    · rename_i ts b q _
      exact lite (l := { l with mac := q }) h

theorem liteRun_log {c : Sig.Cfg} {is : List In} {l l' : Station} {t : Trace} (h : liteRun c l is = .ok (l', t)) :
    ∃ cs, l'.cell.umac.log = l.cell.umac.log ++ cs := by
  induction is generalizing l t with
  | nil => cases h; exact ⟨[], by simp⟩
  | cons i is ih =>
    obtain ⟨l1, t1, t2, h1, h2, rfl⟩ := andThen_ok h
    obtain ⟨cs, e1⟩ := liteStep_log h1
    obtain ⟨ds, e2⟩ := ih h2
    exact ⟨cs ++ ds, by rw [e2, e1, List.append_assoc]⟩

/-- Without receptions, what happens without the lower layers happens with them. -/
theorem run_like (hx : x.valid) (hcfg : cfg.InRange) {c : Sig.Cfg} {is ins : List In} {h u t : Trace} {s l l' : Station}
    (hr : Run c ⟨.init brew carrier x scramb wide (Precomps.generate cfg), .init code⟩ ins h s) (hl : Like s l) (ht : Same h u)
    (hs : liteRun c l is = .ok (l', t)) (hp : Proper (l'.cell.umac.log.map Prod.fst)) :
    ∃ s' h', Run c ⟨.init brew carrier x scramb wide (Precomps.generate cfg), .init code⟩ (ins ++ is) h' s' ∧ Like s' l' ∧ Same h' (u.add t) ∧
      ∃ more, h'.radio = h.radio ++ more := by
  induction is generalizing ins h u t s l with
  | nil => cases hs; exact ⟨s, h, by simpa using hr, hl, by simpa [Trace.add, Trace.empty] using ht, [], by simp⟩
  | cons i is ih =>
    obtain ⟨l1, t1, t2, h1, h2, rfl⟩ := andThen_ok hs
    obtain ⟨ds, e2⟩ := liteRun_log h2
    obtain ⟨s1, u1, k1, k2, k3⟩ := step_like hx hcfg hr hl h1 (fun e he => hp e (by rw [e2, List.map_append]; exact List.mem_append_left _ he))
    obtain ⟨s', h', g1, g2, g3, more, g4⟩ := ih (hr.step k1) k2 (ht.add k3) h2
    refine ⟨s', h', by simpa using g1, g2, ?_, u1.radio ++ more, by rw [g4]; simp [Trace.add]⟩
    have : (u.add t1).add t2 = u.add (t1.add t2) := by simp [Trace.add]
    rw [← this]; exact g3

/-- A reception which brings one block. -/
theorem air_like {c : Sig.Cfg} {ins : List In} {h u t : Trace} {c0 : Cell} {s l l' : Station} {a a' : Air} {k : Umac.UlCtx} {m : List Bool}
    {c' : Cell} {calls : Verif.Phy.Calls} (hr : Run c c0 ins h s) (hl : Like s l) (ht : Same h u)
    (hu : s.cell.up a = .ok (c', calls)) (hk : calls.map Prod.fst = [.block k m]) (hs : liteAir c l a' k m = .ok (l', t)) :
    ∃ s' out t', Run c c0 (ins ++ [.air a]) (h.add t') s' ∧ Like s' l' ∧ Same (h.add t') (u.add t) ∧ t'.radio = [(.up a, out)] := by
  obtain ⟨hch, _⟩ := Verif.Phy.up_chain hu
  obtain ⟨out, rfl⟩ : ∃ out, calls = [(.block k m, out)] := by
    match calls, hk with
    | [(e, out)], hk => simp at hk; exact ⟨out, by rw [hk]⟩
  obtain ⟨s1, g1, rfl⟩ := hch
  have hst : s.cell.step (.up a) = .ok (c', ⟨[(.block k m, out)], []⟩) := by simp [Cell.step, hu]
  unfold liteAir liteRadio at hs
  rw [Out.bind_eq_ok] at hs; obtain ⟨⟨cl, ol⟩, h1, hs⟩ := hs
  simp only at hs
  rw [Out.bind_eq_ok] at hs; obtain ⟨q, h2, hs⟩ := hs
  cases hs
  unfold Cell.order at h1
  rw [← hl.umac, g1] at h1
  cases h1
  have he : eventsOf s.owner s.cell c' ⟨[(.block k m, out)], []⟩ =
      eventsOf l.owner l.cell { l.cell with umac := c'.umac } ⟨[(.block k m, out)], []⟩ := by
    rw [hl.owner]; exact eventsOf_like hl.umac rfl rfl
  refine ⟨{ s with cell := c', sig := q.1 }, _, ⟨[(.up a, ⟨[(.block k m, out)], []⟩)], eventsOf s.owner s.cell c' ⟨[(.block k m, out)], []⟩, q.2⟩, hr.step (i := .air a) ?_,
    ⟨rfl, rfl, hl.mac, hl.next, hl.owner⟩, ht.add ⟨he, rfl, rfl, rfl⟩, rfl⟩
  simp only [Station.step, Station.radio, hst, Out.bind_ok]
  rw [hl.sig, he, h2]
  simp only [Out.bind_ok]

/-! ## A station registers -/

/-- BL-DATA with U-LOCATION UPDATE DEMAND. -/
def regPdu : List Bool := Sig.blData false 1 (match Mm.ULocationUpdateDemand.enc ⟨3, false, false, none, none, none, none, none, none, none, none, none, none, none⟩ with
  | .ok b => b
  | _ => [])

/-- The station which registers. -/
def regAddr : Addr := ⟨1001, .ssi, false⟩

/-- The block on the random access channel. -/
def regBlock : List Bool := Umac.blockOf 92 (Umac.MacAccess.enc ⟨true, false, some regAddr, none, some 11, none, none⟩) (regPdu ++ Umac.fillPattern 34)

def sampleTick : In := .tick true [] ⟨2026, 27561600, 3600⟩ true true

/-- Six slots, then the reception, and what follows. -/
def before : List In := List.replicate 6 sampleTick
def after : List In := List.replicate 6 .deliver ++ [.llcEnd, .deliver, .deliverMac, .deliverMac, sampleTick, sampleTick, sampleTick, .llcEnd]

/-- Time and place of the reception. -/
def regCtx : Umac.UlCtx := ⟨.schHu, .block1, ⟨1, 2, 1, 0⟩⟩

/-- The header and the message of the answer. -/
def regAnswer : List Bool := [false, false, false, false, false, false, false, false, true, false, true, false, true, false, true, true, true, true,
  false, false, false, false, false, false, false, false, false, false, false, false, false, false, true, true, true, true, true, false,
  true, false, false, true, false, false, false, false, false]
def regHeader : MacResource := ⟨true, 0, 0, true, 12, some regAddr, none, none, none, none, none⟩

/-- The calls of the scheduler. -/
def sampleLog : List SchedEv := List.replicate 6 .tick ++ [.ack 1 regAddr, .message 1 0 true regHeader regAnswer, .tick, .tick, .tick]

/-- An event of the sample which is harmless. -/
def tame : Sig.Ev → Bool
  | .frame a _ p => decide (a = regAddr) && decide (p = regPdu)
  | .tickStart _ cmds _ _ => cmds.isEmpty
  | .mac _ d => !d
  | .toCmce _ _ => false
  | _ => true

def sampleOk : Bool :=
  match liteRun Sig.sampleCfg (.init Sig.sampleCfg Verif.Phy.sampleCell) before with
  | .ok (l1, t1) =>
    decide (l1.cell.umac.log.map Prod.fst = List.replicate 6 .tick) && decide ((sentOf t1.radio).map (·.ts) = [⟨3, 1, 1, 0⟩, ⟨4, 1, 1, 0⟩, ⟨1, 2, 1, 0⟩, ⟨2, 2, 1, 0⟩, ⟨3, 2, 1, 0⟩, ⟨4, 2, 1, 0⟩]) &&
    decide (t1.radio.map (kind ·.1) = List.replicate 6 (some true)) &&
    match liteAir Sig.sampleCfg l1 ⟨[], [], []⟩ regCtx regBlock with
    | .ok (l2, t2) =>
      match liteRun Sig.sampleCfg l2 after with
      | .ok (l3, t3) =>
        let t := (t1.add t2).add t3
        decide (l3.cell.umac.log.map Prod.fst = sampleLog) && decide (l3.sig.queue = []) && decide (l3.mac = []) && decide (l3.next = 1) &&
        decide (handed Time.default (Sig.llcTrace t.calls) = [(⟨3, 2, 1, 0⟩, .data 0 regAddr 1 regAnswer)]) &&
        decide (reportsTo t.evs = [(0, false)]) && decide (reported l3.cell.umac.log = [.transmitted 0]) &&
        t.evs.all tame && decide ((Sig.frames t.evs).length = 1) && decide (∀ i : Fin 4, Umac.pendingStealing (l3.cell.umac.sched.queues i) = false)
      | _ => false
    | _ => false
  | _ => false

theorem sample_ok : sampleOk = true := by decide +kernel

/-- Never parts of two messages on the air, in all states on the way. -/
def oneOk : Bool := (List.range (sampleLog.length + 1)).all fun n =>
  match (Umac.Sched.init Umac.sampleTime 864282631 (Precomps.generate Umac.sampleCfg)).run (sampleLog.take n) with
  | .ok r => decide ((r.1.queues 0).countP Umac.DlElem.begun ≤ 1)
  | _ => true

theorem sample_one : Umac.OneAtATime (Umac.Sched.init Umac.sampleTime 864282631 (Precomps.generate Umac.sampleCfg)) 0 sampleLog := by
  have h : oneOk = true := by decide +kernel
  intro es1 es2 r1 he hr
  have := List.all_eq_true.1 h es1.length (List.mem_range.2 (by rw [he]; simp; omega))
  have ht : sampleLog.take es1.length = es1 := by rw [he]; simp
  simp only [ht, hr, decide_eq_true_eq] at this
  exact this

theorem header_fine : regHeader.Sendable := by
  simp [regHeader, regAddr, MacResource.Sendable, MacResource.InRange, MacResource.Addressed]

theorem sample_proper : Proper sampleLog := by
  intro e he
  simp only [sampleLog, List.mem_append, List.mem_cons, List.mem_replicate, List.not_mem_nil, or_false] at he
  rcases he with ⟨_, rfl⟩ | rfl | rfl | rfl | rfl | rfl
  · exact ⟨trivial, trivial⟩
  · exact ⟨by simp [SchedEv.Fine, AddrOk, regAddr], by simp [Umac.SchedEv.Sound]⟩
  · exact ⟨header_fine, by simp [Umac.SchedEv.Sound]⟩
  · exact ⟨trivial, trivial⟩
  · exact ⟨trivial, trivial⟩
  · exact ⟨trivial, trivial⟩

/-- **A history of the whole base station**, which the theorems of C93 and C94 are about: a station sends U-LOCATION UPDATE DEMAND in a
random access burst; the router delivers; the answer goes to the upper MAC, is sent in the next slot of the control channel and reported. -/
theorem sample_station : ∃ ins h s r1 r2 a out l o o1 o2 o3, Run Sig.sampleCfg Verif.Phy.sampleCell ins h s ∧ (∀ i ∈ ins, i.Sane Sig.sampleCfg) ∧
    s.sig.queue = [] ∧ s.mac = [] ∧ s.next = 1 ∧ h.radio = r1 ++ (.up a, out) :: r2 ∧ Verif.Phy.Fresh r1 ∧ sentOf r1 = l ++ [o, o1, o2, o3] ∧
    a.Sized ∧ OnAir 864282631#32 o a .schHu regBlock ∧ o.ts = ⟨1, 2, 1, 0⟩ ∧ Umac.Reads .schHu regBlock [(regAddr, regPdu)] ∧
    (∀ e ∈ s.cell.umac.log.map Prod.fst, Sayable e) ∧ handed Time.default (Sig.llcTrace h.calls) = [(⟨3, 2, 1, 0⟩, .data 0 regAddr 1 regAnswer)] ∧
    s.cell.umac.log.map Prod.fst = sampleLog ∧ reported s.cell.umac.log = [.transmitted 0] ∧ reportsTo h.evs = [(0, false)] ∧
    (∀ i ∈ ins, ∀ ts b, i ≠ .voice ts b) ∧ (∀ e ∈ h.evs, tame e = true) ∧ (Sig.frames h.evs).length = 1 ∧
    ∀ i, Umac.pendingStealing (s.cell.umac.sched.queues i) = false := by
  have ok := sample_ok
  unfold sampleOk at ok
  split at ok <;> [skip; cases ok]
  rename_i l1 t1 e1
  simp only [Bool.and_eq_true, decide_eq_true_eq] at ok
  obtain ⟨⟨⟨k1, k2⟩, k3⟩, ok⟩ := ok
  split at ok <;> [skip; cases ok]
  rename_i l2 t2 e2
  split at ok <;> [skip; cases ok]
  rename_i l3 t3 e3
  simp only [Bool.and_eq_true, decide_eq_true_eq] at ok
  obtain ⟨⟨⟨⟨⟨⟨⟨⟨⟨m1, m2⟩, m3⟩, m4⟩, m5⟩, m6⟩, m7⟩, m8⟩, m9⟩, m10⟩ := ok
  have hx : Umac.sampleTime.valid := by unfold Time.valid; decide
  have hcfg : Umac.sampleCfg.InRange := by unfold CellCfg.InRange; decide
  -- before the reception
  obtain ⟨s1, h1, r1, q1, p1, _⟩ := run_like (brew := true) (carrier := 1521) (scramb := 864282631) (wide := true) (code := 864282631#32) hx hcfg
    (is := before) (ins := []) (u := .empty) .init ⟨rfl, rfl, rfl, rfl, rfl⟩ (.refl _) e1 (by
      rw [k1]; intro e he; rw [List.eq_of_mem_replicate he]; exact ⟨trivial, trivial⟩)
  have hempty : Trace.empty.add t1 = t1 := by simp [Trace.add, Trace.empty]
  rw [hempty] at p1
  have hsent : (sentOf h1.radio).map (·.ts) = [⟨3, 1, 1, 0⟩, ⟨4, 1, 1, 0⟩, ⟨1, 2, 1, 0⟩, ⟨2, 2, 1, 0⟩, ⟨3, 2, 1, 0⟩, ⟨4, 2, 1, 0⟩] := by
    unfold sentOf at k2 ⊢
    rw [p1.radio]; exact k2
  obtain ⟨y1, y2, o, o1, o2, o3, hs, ho⟩ : ∃ y1 y2 o o1 o2 o3, sentOf h1.radio = [y1, y2] ++ [o, o1, o2, o3] ∧ o.ts = ⟨1, 2, 1, 0⟩ := by
    have hlen : (sentOf h1.radio).length = 6 := by simpa using congrArg List.length hsent
    generalize sentOf h1.radio = l at hsent hlen
    match l, hlen with
    | [y1, y2, o, o1, o2, o3], _ =>
      simp only [List.map_cons, List.map_nil, List.cons.injEq] at hsent
      exact ⟨y1, y2, o, o1, o2, o3, rfl, hsent.2.2.1⟩
  have hf : Verif.Phy.Fresh h1.radio := by
    have hw := p1.what
    rw [k3, show (List.replicate 6 (some true) : List (Option Bool)) = List.replicate 5 (some true) ++ [some true] from rfl] at hw
    obtain ⟨a1, a2, ha, _, hb⟩ := List.map_eq_append_iff.1 hw
    have hlen : a2.length = 1 := by simpa using congrArg List.length hb
    match a2, hlen with
    | [(e, oo)], _ =>
      simp only [List.map_cons, List.map_nil, List.cons.injEq, and_true] at hb
      cases e with
      | down w => exact ⟨a1, w, oo, [], ha, by simp⟩
      | _ => cases hb
  -- the reception
  have hm : regBlock.length = 92 := by decide +kernel
  obtain ⟨t, ht, htl, _⟩ := ErrorControl.c14_roundtrip .schHu rfl regBlock hm 864282631#32
  have htl : t.length = 168 := htl
  have hp : Umac.pdusOf .schHu regBlock = [.access ⟨true, false, some regAddr, none, some 11, none, none⟩] := by decide +kernel
  obtain ⟨c', calls, hu, hc⟩ := Verif.Phy.c67_alone hx (run_both r1).cell hf hs hm ht (by rw [hp]; simp [Umac.UlPdu.Bad])
  have hctx : (⟨.schHu, .block1, o.ts⟩ : Umac.UlCtx) = regCtx := by rw [ho]; rfl
  rw [hctx] at hc
  obtain ⟨s2, out, u2, r2, q2, p2, w2⟩ := air_like r1 q1 p1 hu hc e2
  -- afterwards
  obtain ⟨s3, h3, r3, q3, p3, more, w3⟩ := run_like (brew := true) (carrier := 1521) (scramb := 864282631) (wide := true) (code := 864282631#32) hx hcfg
    r2 q2 p2 e3 (by rw [m1]; exact sample_proper)
  have hlog : s3.cell.umac.log.map Prod.fst = sampleLog := by rw [q3.umac]; exact m1
  have hh : handed Time.default (Sig.llcTrace h3.calls) = [(⟨3, 2, 1, 0⟩, .data 0 regAddr 1 regAnswer)] := by rw [p3.calls]; exact m5
  refine ⟨_, h3, s3, h1.radio, more, ⟨silence 510, ctlAir t, silence 254⟩, out, [y1, y2], o, o1, o2, o3, r3, ?_, by rw [q3.sig]; exact m2, by rw [q3.mac]; exact m3,
    by rw [q3.next]; exact m4, (by rw [w3]; simp [Trace.add, w2]), hf, hs,
    ⟨Verif.Phy.silence_length 510, Verif.Phy.ctlAir_length htl, Verif.Phy.silence_length 254⟩,
    .access (.inl rfl) (Verif.Phy.ctlAir_spot htl) hm ht (by rw [Verif.Phy.ctlAir_bits htl]; exact ⟨rfl, 0, fun _ _ => rfl⟩), ho, ?_, ?_, hh, hlog,
    by rw [q3.umac]; exact m7, by rw [p3.evs]; exact m6, ?_, by rw [p3.evs]; exact List.all_eq_true.1 m8, by rw [p3.evs]; exact m9, by rw [q3.umac]; exact m10⟩
  · intro i hi
    simp only [before, after, List.mem_append, List.mem_replicate, List.mem_cons, List.not_mem_nil, or_false, false_or, sampleTick] at hi
    rcases hi with ⟨⟨_, rfl⟩ | rfl⟩ | ⟨_, rfl⟩ | rfl | rfl | rfl | rfl | rfl | rfl | rfl | rfl <;> trivial
  · have ho : (Umac.ulPdu .schHu regBlock).octets = some 11 := by decide +kernel
    refine .last ?_ (by decide +kernel) (fun l hl => by rw [ho] at hl; cases hl; decide +kernel)
    have e : regBlock = regBlock.take 36 ++ (regPdu ++ Umac.fillPattern 34) ++ List.replicate 4 false := by decide +kernel
    rw [e]
    exact Umac.c49_sent_access regAddr (by decide) _ _ _ 34 11 (by omega) (by decide +kernel) (by decide +kernel)
  · rw [hlog]
    intro e he
    simp only [sampleLog, List.mem_append, List.mem_cons, List.mem_replicate, List.not_mem_nil, or_false] at he
    rcases he with ⟨_, rfl⟩ | rfl | rfl | rfl | rfl | rfl <;> simp [Sayable, regAddr]
  · intro i hi ts b
    simp only [before, after, List.mem_append, List.mem_replicate, List.mem_cons, List.not_mem_nil, or_false, false_or, sampleTick] at hi
    rcases hi with ⟨⟨_, rfl⟩ | rfl⟩ | ⟨_, rfl⟩ | rfl | rfl | rfl | rfl | rfl | rfl | rfl | rfl <;> simp

/-- C93 is not empty: mobility management was handed the registration, once. -/
example : ∃ ins h s, Run Sig.sampleCfg Verif.Phy.sampleCell ins h s ∧ ⟨1, 1001, 1, regPdu.drop 8⟩ ∈ Sig.heard h.calls := by
  obtain ⟨ins, h, s, r1, r2, a, out, l, o, o1, o2, o3, hr, _, hq, _, _, he, hf, hs, ha, hm, ho, hms, _⟩ := sample_station
  refine ⟨ins, h, s, hr, ?_⟩
  have := c93_reaches (by unfold Time.valid; decide) hr hq he hf hs ha hm hms (addr := regAddr) (pdu := regPdu) (d := 1) (msg := regPdu.drop 8) (by simp)
    ⟨by decide, (by
      have : regPdu = [false, false, false, true, false] ++ (Bits.toBits 3 1 ++ regPdu.drop 8) := by decide +kernel
      rw [this]
      exact .data false _)⟩ (.inl rfl)
  rw [ho] at this
  exact this

/-- C94 is not empty: the answer is on the air, complete, and a mobile station on the control channel hears it or has aborted. -/
example : ∃ ins h s q, Run Sig.sampleCfg Verif.Phy.sampleCell ins h s ∧ requestOf ⟨3, 2, 1, 0⟩ 0 (.data 0 regAddr 1 regAnswer) = some q ∧
    (∃ n fb parts, Carried (headerOf 1521 q n fb) q.sdu true (bitsIn 0 s.cell.umac.log) parts) ∧
    Umac.OneAtATime (Umac.Sched.init Umac.sampleTime 864282631 (Precomps.generate Umac.sampleCfg)) 0 (s.cell.umac.log.map Prod.fst) := by
  obtain ⟨ins, h, s, r1, r2, a, out, l, o, o1, o2, o3, hr, _, _, _, hn, _, _, _, _, _, _, _, hs, hh, hlog, hrep, _⟩ := sample_station
  obtain ⟨now, e, q, after, k1, k2, k4, k3⟩ := c94_fate (by unfold Time.valid; decide) (by decide) hr hs (n := 0) (by omega)
  rw [hh] at k1
  cases k1
  refine ⟨ins, h, s, q, hr, k2, ?_, by rw [hlog]; exact sample_one⟩
  have hr1 : reportsIn 0 s.cell.umac.log ≠ [] := by
    have : Report.transmitted 0 ∈ reported s.cell.umac.log := by rw [hrep]; simp
    have := reports_in this
    intro h0
    rw [show numberOf (.transmitted 0) = 0 from rfl, h0] at this
    cases this
  have hr2 : Report.discarded 0 ∉ reported s.cell.umac.log := by rw [hrep]; simp
  generalize hbits : bitsIn 0 s.cell.umac.log = bits at k3
  generalize hreps : reportsIn 0 s.cell.umac.log = reps at k3 hr1
  cases k3 with
  | done hc _ => exact ⟨_, _, _, hc⟩
  | waits => exact absurd rfl hr1
  | dropped _ _ hm =>
    rw [hlog] at k4
    have := k4.subset hm
    simp [sampleLog] at this
  | stolen h1 => cases k2; cases h1
  | toSteal => exact absurd rfl hr1

end Verif.Station
