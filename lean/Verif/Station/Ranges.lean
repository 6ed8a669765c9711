import Verif.Station.Clean
import Verif.Station.Asked
import Verif.Sig.Slots
import Verif.Umac.UmacSound
/-!
# The whole base station stays within its limits: lemmas

Timeslots are 1 to 4, voice has all its bits, times exist and orders are in range, for everything which passes between the parts.
-/
namespace Verif.Station
open Verif.Tdma Verif.Codec
open Verif.Phy (Air Cell CellEv CellOut CellRun callsOf callsOf_append c67_history)
open Verif.Umac (TmaReq ChanReq MacCtl UmacOut UmacEv Block Addr UmacRun UmacBs Precomps SchedEv Proper)

/-- Voice of a timeslot with all its bits. -/
def VoiceIn (ts : Nat) (b : Block) : Prop := 1 ≤ ts ∧ ts ≤ 4 ∧ 35 ≤ b.length

theorem step_voiceDown {c c' : Cell} {e : CellEv} {o : CellOut} (h : c.step e = .ok (c', o)) {p : UmacEv × List UmacOut} (hp : p ∈ o.calls)
    {ts : Nat} {b : Block} (hv : p.1 = .voiceDown ts b) : e = .voice ts b := by
  have horder : ∀ {u : UmacEv}, c.order u = .ok (c', o) → u = .voiceDown ts b := by
    intro u h
    unfold Cell.order at h
    rw [Out.bind_eq_ok] at h; obtain ⟨r, _, h⟩ := h
    cases h
    rw [List.mem_singleton] at hp; subst hp; exact hv
  cases e with
  | down w =>
    simp only [Cell.step] at h
    rw [Out.bind_eq_ok] at h; obtain ⟨r, h1, h⟩ := h
    cases h
    unfold Cell.down at h1
    rw [Out.bind_eq_ok] at h1; obtain ⟨q, _, h1⟩ := h1
    rw [Out.bind_eq_ok] at h1; obtain ⟨q', _, h1⟩ := h1
    cases h1
    rw [List.mem_singleton] at hp; subst hp; cases hv
  | up a =>
    simp only [Cell.step] at h
    rw [Out.bind_eq_ok] at h; obtain ⟨r, h1, h⟩ := h
    cases h
    obtain ⟨x, bs, c1, cs1, vs, cs2, _, _, h3, h4, e⟩ := Phy.up_inv (c' := r.1) (cs := r.2) h1
    rw [e] at hp
    rcases List.mem_append.1 hp with hp | hp
    · obtain ⟨k, d, e, _⟩ := (Phy.hearAll_chain h3).2.1 p hp
      rw [e] at hv; cases hv
    · have : p.1 ∈ cs2.map Prod.fst := List.mem_map_of_mem hp
      rw [(Phy.voices_chain h4).2.1] at this
      obtain ⟨v, _, e⟩ := List.mem_map.1 this
      rw [← e] at hv; cases hv
  | request q => cases horder h
  | voice t d => cases horder h; rfl
  | control m => cases horder h

/-- Voice in range, from the mail to the calls; and the times the entities are told exist. -/
structure Within (h : Trace) (s : Station) : Prop where
  mail : ∀ ts b, .voice ts b ∈ s.mac → VoiceIn ts b
  radio : ∀ p ∈ callsOf h.radio, ∀ ts b, p.1 = .voiceDown ts b → VoiceIn ts b
  evs : ∀ e ∈ h.evs, ∀ now a b d, e = .tickStart now a b d → now.valid

theorem Within.step_radio {c : Sig.Cfg} {h t : Trace} {s s' : Station} {e : CellEv} (hw : Within h s)
    (he : ∀ ts b, e = .voice ts b → VoiceIn ts b) (hs : s.radio c e = .ok (s', t)) : Within (h.add t) s' := by
  obtain ⟨cell, o, sig, k, h1, h2, rfl, rfl⟩ := radio_ok hs
  refine ⟨hw.mail, ?_, ?_⟩
  · intro p hp ts b hv
    rw [Trace.add_radio, callsOf_append] at hp
    rcases List.mem_append.1 hp with hp | hp
    · exact hw.radio p hp ts b hv
    · exact he ts b (step_voiceDown h1 (by simpa [callsOf] using hp) hv)
  · intro e' he' now a b d heq
    rcases List.mem_append.1 he' with he' | he'
    · exact hw.evs e' he' now a b d heq
    · rcases events_quiet e' he' with ⟨_, _, _, rfl⟩ | ⟨_, _, rfl⟩ | ⟨_, _, rfl⟩ <;> cases heq

theorem mail_voice {now : Time} {k : List Sig.Call} {ts : Nat} {b : Block} : Mail.voice ts b ∉ k.flatMap (mailOf now) := by
  intro h
  obtain ⟨x, _, hx⟩ := List.mem_flatMap.1 h
  cases x <;> simp [mailOf] at hx

theorem Within.step_signal {c : Sig.Cfg} {h t : Trace} {s s' : Station} {e : Sig.Ev} (hw : Within h s)
    (he : ∀ now a b d, e = .tickStart now a b d → now.valid) (hs : s.signal c e = .ok (s', t)) : Within (h.add t) s' := by
  obtain ⟨sig, k, h1, rfl, rfl⟩ := signal_ok hs
  refine ⟨?_, ?_, ?_⟩
  · intro ts b hm
    rcases List.mem_append.1 hm with hm | hm
    · exact hw.mail ts b hm
    · exact (mail_voice hm).elim
  · simpa using hw.radio
  · intro e' he' now a b d heq
    rcases List.mem_append.1 he' with he' | he'
    · exact hw.evs e' he' now a b d heq
    · rw [List.mem_singleton] at he'; subst he'; exact he now a b d heq

theorem run_within {c : Sig.Cfg} {c0 : Cell} {ins : List In} {h : Trace} {s : Station} (hr : Run c c0 ins h s)
    (hv : ∀ ts b, In.voice ts b ∈ ins → VoiceIn ts b) : Within h s := by
  induction hr with
  | init => exact ⟨by simp [Station.init], by simp [Trace.empty, callsOf], by simp [Trace.empty]⟩
  | reorder _ _ ih => exact ⟨(ih hv).mail, (ih hv).radio, (ih hv).evs⟩
  | @step ins h t s s' i _ hs ih =>
    have hi : ∀ ts b, i = .voice ts b → VoiceIn ts b := fun ts b e => hv ts b (by simp [e])
    have ih := ih fun ts b hm => hv ts b (by simp [hm])
    cases i with
    | tick w cmds clock b1 b2 =>
      simp only [Station.step] at hs
      rw [Out.bind_eq_ok] at hs; obtain ⟨now, hnow, hs⟩ := hs
      rw [Out.ofRes_eq_ok] at hnow
      have hval : now.valid := by
        unfold Time.addTimeslots at hnow
        split at hnow
        · cases hnow; exact fromInt_valid _
        · cases hnow
      split at hs
      · obtain ⟨s1, t1, t2, h1, h2, rfl⟩ := andThen_ok hs
        rw [← Trace.add_assoc]
        exact (ih.step_radio (by simp) h1).step_signal (by rintro _ _ _ _ ⟨⟩; exact hval) h2
      · obtain ⟨s1, t1, t2, h1, h2, rfl⟩ := andThen_ok hs
        rw [← Trace.add_assoc]
        exact (ih.step_signal (by rintro _ _ _ _ ⟨⟩; exact hval) h1).step_radio (by simp) h2
    | air a => exact ih.step_radio (by simp) hs
    | backhaul e =>
      cases e with
      | inactive ts => cases hs; rw [Trace.add_empty]; exact ih
      | netStart a b d => exact ih.step_signal (by simp) hs
      | netEnd a => exact ih.step_signal (by simp) hs
      | sds a b d => exact ih.step_signal (by simp) hs
    | voice ts b =>
      cases hs; rw [Trace.add_empty]
      refine ⟨?_, ih.radio, ih.evs⟩
      intro ts' b' hm
      rcases List.mem_append.1 hm with hm | hm
      · exact ih.mail _ _ hm
      · simp only [List.mem_singleton, Mail.voice.injEq] at hm
        obtain ⟨rfl, rfl⟩ := hm
        exact hi _ _ rfl
    | deliver => exact ih.step_signal (by simp) hs
    | deliverMac =>
      simp only [Station.step, Station.deliverMac] at hs
      split at hs
      · cases hs; rw [Trace.add_empty]; exact ih
      · rename_i now e q hq
        have hq' : ∀ ts b, .voice ts b ∈ q → VoiceIn ts b := fun ts b hm => ih.mail ts b (by rw [hq]; simp [hm])
        split at hs
        · exact Within.step_radio (s := { s with mac := q, next := s.next + 1, owner := s.owned e }) ⟨hq', ih.radio, ih.evs⟩ (by simp) hs
        · cases hs; rw [Trace.add_empty]; exact ⟨hq', ih.radio, ih.evs⟩
      · rename_i m q hq
        exact Within.step_radio (s := { s with mac := q }) ⟨fun ts b hm => ih.mail ts b (by rw [hq]; simp [hm]), ih.radio, ih.evs⟩ (by simp) hs
      · rename_i ts b q hq
        refine Within.step_radio (s := { s with mac := q }) ⟨fun ts b hm => ih.mail ts b (by rw [hq]; simp [hm]), ih.radio, ih.evs⟩ ?_ hs
        rintro _ _ ⟨⟩
        exact ih.mail ts b (by rw [hq]; simp)
    | llcEnd => exact ih.step_signal (by simp) hs

variable {brew : Bool} {carrier scramb : Nat} {x : Time} {wide : Bool} {pre : Precomps} {code : BitVec 32}

/-- The timeslots the signalling stack hears of. -/
theorem evs_in (hx : x.valid) {c : Sig.Cfg} {ins : List In} {h : Trace} {s : Station}
    (hr : Run c ⟨.init brew carrier x scramb wide pre, .init code⟩ ins h s) (hv : ∀ ts b, In.voice ts b ∈ ins → VoiceIn ts b) :
    ∀ e ∈ h.evs, Sig.EvIn e := by
  intro e he
  cases e with
  | frame a ts b =>
    have hm : (a, ts, b) ∈ Sig.frames h.evs := List.mem_filterMap.2 ⟨_, he, rfl⟩
    rw [run_frames hr] at hm
    obtain ⟨gs, before, k, bits, out, after, h1, h2, _⟩ := indication_origin hx (run_both hr).cell hm
    have := (c67_history hx (run_both hr).cell).2.timed (.block k bits, out) (by
      have e1 : callsOf h.radio = h.radio.flatMap (·.2.calls) := rfl
      rw [← e1, h1]; simp)
    have hval : k.x.valid := this
    rw [← h2]
    exact ⟨hval.1, hval.2.1⟩
  | tickStart now a b d => have := (run_within hr hv).evs _ he now a b d rfl; exact ⟨this.1, this.2.1⟩
  | _ => trivial

/-- What the upper MAC is given is in range. -/
theorem calls_kept (hx : x.valid) {c : Sig.Cfg} {ins : List In} {h : Trace} {s : Station}
    (hr : Run c ⟨.init brew carrier x scramb wide pre, .init code⟩ ins h s) (hv : ∀ ts b, In.voice ts b ∈ ins → VoiceIn ts b)
    (hs : ∀ e ∈ h.evs, e.Sane c) : ∀ p ∈ callsOf h.radio, p.1.Kept := by
  intro p hp
  obtain ⟨e, out⟩ := p
  cases e with
  | block k bits => exact (c67_history hx (run_both hr).cell).2.timed _ hp
  | voiceDown ts b => exact ((run_within hr hv).radio _ hp ts b rfl).2.2
  | control m =>
    obtain ⟨sent, hg⟩ := run_gone hr
    obtain ⟨h', r1, r2⟩ := Cmce.c57_heard (Sig.run_bs (run_both hr).sig hs)
    have hm : m ∈ Umac.orders (callsOf h.radio) := List.mem_filterMap.2 ⟨_, hp, rfl⟩
    refine Umac.ccRun_inRange r2 m ?_
    rw [Cmce.reads_messages r1, ← hg.orders]
    exact List.mem_append_left _ hm
  | _ => trivial

/-- An order in the mail is in range. -/
theorem order_inRange {c : Sig.Cfg} {c0 : Cell} {ins : List In} {h : Trace} {s : Station} (hr : Run c c0 ins h s)
    (hs : ∀ e ∈ h.evs, e.Sane c) {m : MacCtl} (hm : Mail.order m ∈ s.mac) : m.InRange := by
  obtain ⟨sent, hg⟩ := run_gone hr
  obtain ⟨h', r1, r2⟩ := Cmce.c57_heard (Sig.run_bs (run_both hr).sig hs)
  refine Umac.ccRun_inRange r2 m ?_
  rw [Cmce.reads_messages r1, ← hg.orders]
  exact List.mem_append_right _ (List.mem_filterMap.2 ⟨_, hm, rfl⟩)

/-- All calls on the scheduler are proper. -/
theorem log_proper (hx : x.valid) (hc : carrier < 4096) {c : Sig.Cfg} {ins : List In} {h : Trace} {s : Station}
    (hr : Run c ⟨.init brew carrier x scramb wide pre, .init code⟩ ins h s) (hv : ∀ ts b, In.voice ts b ∈ ins → VoiceIn ts b)
    (hs : ∀ e ∈ h.evs, e.Sane c) (hy : ∀ e ∈ s.cell.umac.log.map Prod.fst, Sayable e) : Proper (s.cell.umac.log.map Prod.fst) := by
  intro e he
  refine ⟨log_fine hx hr (sound_of hx hc hr hy) e he, ?_⟩
  exact Umac.run_sound (c67_history hx (run_both hr).cell).1 rfl (calls_kept hx hr hv hs) e he

end Verif.Station
