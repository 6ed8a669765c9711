import Verif.Station.Station
import Verif.Sig.Down
import Verif.Phy.UplinkProps
import Verif.Umac.UmacSduProps
/-!
# The parts of the base station: lemmas

Every history of the base station is a history of the radio side and one of the signalling stack, and what passes between the two is
what one gives and the other takes.
-/
namespace Verif.Station
open Verif.Tdma Verif.Codec
open Verif.Phy (Air Cell CellEv CellOut CellRun callsOf callsOf_append)
open Verif.Umac (TmaReq ChanReq MacCtl UmacOut UmacEv Report Block Addr)
open Verif.Cmce (BsOut BsEv Control)

@[simp] theorem Trace.add_radio (a b : Trace) : (a.add b).radio = a.radio ++ b.radio := rfl
@[simp] theorem Trace.add_evs (a b : Trace) : (a.add b).evs = a.evs ++ b.evs := rfl
@[simp] theorem Trace.add_calls (a b : Trace) : (a.add b).calls = a.calls ++ b.calls := rfl
theorem Trace.add_assoc (a b c : Trace) : (a.add b).add c = a.add (b.add c) := by simp [Trace.add]
theorem Trace.add_empty (a : Trace) : a.add .empty = a := by simp [Trace.add, Trace.empty]

theorem radio_ok {c : Sig.Cfg} {s s' : Station} {e : CellEv} {t : Trace} (h : s.radio c e = .ok (s', t)) :
    ∃ cell o sig k, s.cell.step e = .ok (cell, o) ∧ feed c s.sig (eventsOf s.owner s.cell cell o) = .ok (sig, k) ∧
      s' = { s with cell := cell, sig := sig } ∧ t = ⟨[(e, o)], eventsOf s.owner s.cell cell o, k⟩ := by
  unfold Station.radio at h
  rw [Out.bind_eq_ok] at h; obtain ⟨r, h1, h⟩ := h
  simp only at h
  rw [Out.bind_eq_ok] at h; obtain ⟨q, h2, h⟩ := h
  cases h
  exact ⟨r.1, r.2, q.1, q.2, h1, h2, rfl, rfl⟩

theorem signal_ok {c : Sig.Cfg} {s s' : Station} {e : Sig.Ev} {t : Trace} (h : s.signal c e = .ok (s', t)) :
    ∃ sig k, s.sig.step c e = .ok (sig, k) ∧ s' = { s with sig := sig, mac := s.mac ++ k.flatMap (mailOf sig.llc.now) } ∧
      t = ⟨[], [e], k⟩ := by
  unfold Station.signal at h
  rw [Out.bind_eq_ok] at h; obtain ⟨r, h1, h⟩ := h
  cases h
  rw [Out.ofRes_eq_ok] at h1
  exact ⟨r.1, r.2, h1, rfl, rfl⟩

theorem andThen_ok {a : Out (Station × Trace)} {f : Station → Out (Station × Trace)} {s' : Station} {t : Trace} (h : andThen a f = .ok (s', t)) :
    ∃ s1 t1 t2, a = .ok (s1, t1) ∧ f s1 = .ok (s', t2) ∧ t = t1.add t2 := by
  unfold andThen at h
  rw [Out.bind_eq_ok] at h; obtain ⟨r, h1, h⟩ := h
  rw [Out.bind_eq_ok] at h; obtain ⟨q, h2, h⟩ := h
  cases h
  exact ⟨r.1, r.2, q.2, h1, h2, rfl⟩

/-- The events of the signalling stack which are not from the radio side. -/
def Own (c : Sig.Cfg) (ins : In → Prop) : Sig.Ev → Prop
  | .tickStart .. => True
  | .tickEnd => True
  | .deliver => True
  | .toCmce _ e => (∀ ts, e ≠ .inactive ts) ∧ ins (.backhaul e)
  | _ => False

/-- What holds at the beginning and is kept by the steps holds always. -/
theorem run_parts {c : Sig.Cfg} {c0 : Cell} (ok : In → Prop) {P : Trace → Station → Prop} (init : P .empty (.init c c0))
    (reorder : ∀ h s cc', P h s → s.sig.bs.cc.Reordered cc' → P h { s with sig := { s.sig with bs := { s.sig.bs with cc := cc' } } })
    (radio : ∀ h s s' e t, P h s → ((∃ w, e = .down w) ∨ ∃ a, e = .up a) → s.radio c e = .ok (s', t) → P (h.add t) s')
    (signal : ∀ h s s' e t, P h s → s.signal c e = .ok (s', t) → Own c ok e → P (h.add t) s')
    (voice : ∀ h s ts b, P h s → P h { s with mac := s.mac ++ [.voice ts b] })
    (request : ∀ h s now e q r s' t, P h s → s.mac = .request now e :: q → requestOf now s.next e = some r →
      Station.radio c { s with mac := q, next := s.next + 1, owner := s.owned e } (.request r) = .ok (s', t) → P (h.add t) s')
    (nothing : ∀ h s now e q, P h s → s.mac = .request now e :: q → requestOf now s.next e = none → P h { s with mac := q })
    (order : ∀ h s m q s' t, P h s → s.mac = .order m :: q → Station.radio c { s with mac := q } (.control m) = .ok (s', t) → P (h.add t) s')
    (words : ∀ h s ts b q s' t, P h s → s.mac = .voice ts b :: q → Station.radio c { s with mac := q } (.voice ts b) = .ok (s', t) → P (h.add t) s')
    {ins : List In} {h : Trace} {s : Station} (hr : Run c c0 ins h s) (hok : ∀ i ∈ ins, ok i) : P h s := by
  induction hr with
  | init => exact init
  | reorder _ hre ih => exact reorder _ _ _ (ih hok) hre
  | @step ins h t s s' i _ hs ih =>
    have hi : ok i := hok i (by simp)
    have ih := ih fun j hj => hok j (by simp [hj])
    cases i with
    | tick w cmds clock b1 b2 =>
      simp only [Station.step] at hs
      rw [Out.bind_eq_ok] at hs; obtain ⟨now, _, hs⟩ := hs
      split at hs
      · obtain ⟨s1, t1, t2, h1, h2, rfl⟩ := andThen_ok hs
        rw [← Trace.add_assoc]
        exact signal _ _ _ _ _ (radio _ _ _ _ _ ih (.inl ⟨_, rfl⟩) h1) h2 trivial
      · obtain ⟨s1, t1, t2, h1, h2, rfl⟩ := andThen_ok hs
        rw [← Trace.add_assoc]
        exact radio _ _ _ _ _ (signal _ _ _ _ _ ih h1 trivial) (.inl ⟨_, rfl⟩) h2
    | air a => exact radio _ _ _ _ _ ih (.inr ⟨_, rfl⟩) hs
    | backhaul e =>
      cases e with
      | inactive ts => cases hs; rw [Trace.add_empty]; exact ih
      | netStart a b d => exact signal _ _ _ _ _ ih hs ⟨by simp, hi⟩
      | netEnd a => exact signal _ _ _ _ _ ih hs ⟨by simp, hi⟩
      | sds a b d => exact signal _ _ _ _ _ ih hs ⟨by simp, hi⟩
    | voice ts b => cases hs; rw [Trace.add_empty]; exact voice _ _ _ _ ih
    | deliver => exact signal _ _ _ _ _ ih hs trivial
    | deliverMac =>
      simp only [Station.step, Station.deliverMac] at hs
      split at hs
      · cases hs; rw [Trace.add_empty]; exact ih
      · rename_i now e q hq
        split at hs
        · rename_i r hr
          exact request _ _ _ _ _ _ _ _ ih hq hr hs
        · rename_i hr
          cases hs; rw [Trace.add_empty]; exact nothing _ _ _ _ _ ih hq hr
      · rename_i m q hq; exact order _ _ _ _ _ _ ih hq hs
      · rename_i ts b q hq; exact words _ _ _ _ _ _ _ ih hq hs
    | llcEnd => exact signal _ _ _ _ _ ih hs trivial

/-! ## Histories of the parts -/

theorem feed_cons {c : Sig.Cfg} {s s' : Sig.St} {e : Sig.Ev} {es : List Sig.Ev} {k : List Sig.Call} (h : feed c s (e :: es) = .ok (s', k)) :
    ∃ s1 k1 k2, s.step c e = .ok (s1, k1) ∧ feed c s1 es = .ok (s', k2) ∧ k = k1 ++ k2 := by
  unfold feed at h
  rw [Out.bind_eq_ok] at h; obtain ⟨r, h1, h⟩ := h
  rw [Out.bind_eq_ok] at h; obtain ⟨q, h2, h⟩ := h
  cases h
  rw [Out.ofRes_eq_ok] at h1
  exact ⟨r.1, r.2, q.2, h1, h2, rfl⟩

theorem feed_run {c : Sig.Cfg} : ∀ {es evs : List Sig.Ev} {tr k : List Sig.Call} {s s' : Sig.St}, Sig.Run c evs tr s → feed c s es = .ok (s', k) →
    Sig.Run c (evs ++ es) (tr ++ k) s'
  | [], evs, tr, k, s, s', hr, h => by cases h; simpa using hr
  | e :: es, evs, tr, k, s, s', hr, h => by
    obtain ⟨s1, k1, k2, h1, h2, rfl⟩ := feed_cons h
    have := feed_run (hr.step h1) h2
    simpa using this

/-- Both parts. -/
structure Both (c : Sig.Cfg) (c0 : Cell) (h : Trace) (s : Station) : Prop where
  sig : Sig.Run c h.evs h.calls s.sig
  cell : CellRun c0 h.radio s.cell

theorem Both.radio {c : Sig.Cfg} {c0 : Cell} {h t : Trace} {s s' : Station} {e : CellEv} (hb : Both c c0 h s) (hs : s.radio c e = .ok (s', t)) :
    Both c c0 (h.add t) s' := by
  obtain ⟨cell, o, sig, k, h1, h2, rfl, rfl⟩ := radio_ok hs
  exact ⟨feed_run hb.sig h2, hb.cell.step h1⟩

theorem run_both {c : Sig.Cfg} {c0 : Cell} {ins : List In} {h : Trace} {s : Station} (hr : Run c c0 ins h s) : Both c c0 h s := by
  refine run_parts (P := Both c c0) (fun _ => True) ⟨.init, .init⟩ ?_ ?_ ?_ ?_ ?_ ?_ ?_ ?_ hr (fun _ _ => trivial)
  · intro h s cc' hb hre; exact ⟨.reorder hb.sig hre, hb.cell⟩
  · intro h s s' e t hb _ hs; exact hb.radio hs
  · intro h s s' e t hb hs _
    obtain ⟨sig, k, h1, rfl, rfl⟩ := signal_ok hs
    refine ⟨hb.sig.step h1, ?_⟩
    simpa using hb.cell
  · intro h s ts b hb; exact ⟨hb.sig, hb.cell⟩
  · intro h s now e q r s' t hb _ _ hs
    exact Both.radio (s := { s with mac := q, next := s.next + 1, owner := s.owned e }) ⟨hb.sig, hb.cell⟩ hs
  · intro h s now e q hb _ _; exact ⟨hb.sig, hb.cell⟩
  · intro h s m q s' t hb _ hs; exact Both.radio (s := { s with mac := q }) ⟨hb.sig, hb.cell⟩ hs
  · intro h s ts b q s' t hb _ hs; exact Both.radio (s := { s with mac := q }) ⟨hb.sig, hb.cell⟩ hs

/-! ## Upwards -/

/-- What the upper MAC handed to the LLC: address, timeslot and bits. -/
def indications (h : List (CellEv × CellOut)) : List (Addr × Nat × List Bool) :=
  (callsOf h).flatMap fun p => (Umac.sdus p.2).map fun q => (q.2.1, q.1.t, q.2.2)

theorem indications_append (a b : List (CellEv × CellOut)) : indications (a ++ b) = indications a ++ indications b := by
  simp [indications, callsOf_append]

theorem frames_reports (owner : Assoc Nat Nat) (rs : List Report) : Sig.frames (rs.filterMap (reportOf owner)) = [] := by
  unfold Sig.frames
  rw [List.filterMap_eq_nil_iff]
  intro e he
  obtain ⟨r, _, hr⟩ := List.mem_filterMap.1 he
  cases r <;> simp only [reportOf, Option.map_eq_some_iff] at hr <;> obtain ⟨_, _, rfl⟩ := hr <;> rfl

theorem frames_outs (t : Nat) (l : List UmacOut) :
    Sig.frames (l.filterMap (eventOf t)) = (Umac.sdus l).map fun q => (q.2.1, q.1.t, q.2.2) := by
  induction l with
  | nil => rfl
  | cons o l ih =>
    have hs : ∀ o, Umac.sdus (o :: l) = Umac.sdus [o] ++ Umac.sdus l := fun o => by rw [← Umac.sdus_append]; rfl
    rw [hs]
    cases o with
    | sdu x a b =>
      have : (UmacOut.sdu x a b :: l).filterMap (eventOf t) = .frame a x.t b :: l.filterMap (eventOf t) := by simp [eventOf]
      rw [this]
      have e : Sig.frames (.frame a x.t b :: l.filterMap (eventOf t)) = (a, x.t, b) :: Sig.frames (l.filterMap (eventOf t)) := by simp [Sig.frames]
      rw [e, ih]; rfl
    | inactive ts =>
      have : (UmacOut.inactive ts :: l).filterMap (eventOf t) = .toCmce t (.inactive ts) :: l.filterMap (eventOf t) := by simp [eventOf]
      rw [this]
      have e : Sig.frames (.toCmce t (.inactive ts) :: l.filterMap (eventOf t)) = Sig.frames (l.filterMap (eventOf t)) := by simp [Sig.frames]
      rw [e, ih]; rfl
    | slot y => have : (UmacOut.slot y :: l).filterMap (eventOf t) = l.filterMap (eventOf t) := rfl
                rw [this, ih]; rfl
    | voice a b => have : (UmacOut.voice a b :: l).filterMap (eventOf t) = l.filterMap (eventOf t) := rfl
                   rw [this, ih]; rfl
    | secondHalf => have : (UmacOut.secondHalf :: l).filterMap (eventOf t) = l.filterMap (eventOf t) := rfl
                    rw [this, ih]; rfl

theorem frames_events (owner : Assoc Nat Nat) (old new : Cell) (e : CellEv) (o : CellOut) :
    Sig.frames (eventsOf owner old new o) = indications [(e, o)] := by
  unfold eventsOf indications
  rw [Sig.frames_append, frames_reports, frames_outs, List.nil_append]
  simp only [callsOf, List.flatMap_cons, List.flatMap_nil, List.append_nil]
  induction o.calls with
  | nil => rfl
  | cons p l ih =>
    rw [List.flatMap_cons, List.flatMap_cons, Umac.sdus_append, List.map_append, ih]

theorem radio_frames {c : Sig.Cfg} {s s' : Station} {e : CellEv} {h t : Trace} (hs : s.radio c e = .ok (s', t))
    (ih : Sig.frames h.evs = indications h.radio) : Sig.frames (h.add t).evs = indications (h.add t).radio := by
  obtain ⟨cell, o, sig, k, h1, h2, rfl, rfl⟩ := radio_ok hs
  simp only [Trace.add_evs, Trace.add_radio]
  rw [Sig.frames_append, indications_append, ih, frames_events]

/-- The frames of the LLC are the indications of the upper MAC. -/
theorem run_frames {c : Sig.Cfg} {c0 : Cell} {ins : List In} {h : Trace} {s : Station} (hr : Run c c0 ins h s) :
    Sig.frames h.evs = indications h.radio := by
  refine run_parts (P := fun h _ => Sig.frames h.evs = indications h.radio) (fun _ => True) rfl ?_ ?_ ?_ ?_ ?_ ?_ ?_ ?_ hr (fun _ _ => trivial)
  · intro h s cc' hb _; exact hb
  · intro h s s' e t hb _ hs; exact radio_frames hs hb
  · intro h s s' e t hb hs ho
    obtain ⟨sig, k, h1, rfl, rfl⟩ := signal_ok hs
    simp only [Trace.add_evs, Trace.add_radio, List.append_nil]
    rw [Sig.frames_append, hb]
    cases e <;> simp [Own, Sig.frames] at ho ⊢
  · intro h s ts b hb; exact hb
  · intro h s now e q r s' t hb _ _ hs; exact radio_frames hs hb
  · intro h s now e q hb _ _; exact hb
  · intro h s m q s' t hb _ hs; exact radio_frames hs hb
  · intro h s ts b q s' t hb _ hs; exact radio_frames hs hb

end Verif.Station
