import Verif.Umac.LmacMsProps
/-!
# C81: concrete histories, and what goes wrong
-/
namespace Verif.Umac
open Verif.Bits Verif.Codec Verif.Tdma Verif.Mle

/-- What a history gives. -/
def traceOf (es : List SchedEv) : List (SchedEv × SchedRet) := match sampleRun es with | .ok r => r.2 | _ => []

/-- What a station passes up, if it does not abort. -/
def heardOf (o : Out (UmacMs × List MsOut)) : Option (List MsOut) := match o with | .ok r => some r.2 | _ => none

/-- The station to which the sample messages go, as it is on the air: individual and group addresses are not told apart. -/
def sampleAddr : Addr := ⟨1234567, .ssi, false⟩

/-- A long and a short message. -/
def pairWant : Nat → Option Wanted
  | 1 => some ⟨sampleAddr, 43, List.replicate 597 true⟩
  | 2 => some ⟨sampleAddr, 43, List.replicate 45 true⟩
  | _ => none

def pairRun : List SchedEv := [msg 1 1 597, msg 1 2 45] ++ ticks 24

/-- The hypotheses of `c81_exact_partial` are met by a message sent in three parts with another behind it. -/
example : (∀ e ∈ pairRun, e.Fine) ∧ (∀ e ∈ pairRun, e.Fits 1 pairWant) ∧ (∀ e ∈ pairRun, e.Uniform 1 43) ∧
    (∀ id m, pairWant id = some m → 4 ≤ m.sdu.length ∧ ((m.hdr + m.sdu.length) % 8 = 0 ∨ 5 ≤ (m.hdr + m.sdu.length) % 8)) ∧
    (told pairWant (reported (traceOf pairRun))).length = 2 ∧
    heardOf (UmacMs.init.run (listenOn 1 3 (traceOf pairRun))) =
      some [.sdu sampleAddr (List.replicate 597 true) 3, .sdu sampleAddr (List.replicate 45 true) 3] := by
  have hm : ∀ P : SchedEv → Prop, P (msg 1 1 597) → P (msg 1 2 45) → P .tick → ∀ e ∈ pairRun, P e := by
    intro P h1 h2 h3 e he
    simp only [pairRun, ticks, List.mem_append, List.mem_cons, List.not_mem_nil, or_false, List.mem_replicate] at he
    rcases he with (rfl | rfl) | ⟨_, rfl⟩
    · exact h1
    · exact h2
    · exact h3
  have ho : sampleRes.onAir.addr = some sampleAddr ∧ sampleRes.headerLen = .ok 43 := by decide
  refine ⟨hm _ sampleRes_sendable sampleRes_sendable trivial, hm _ ?_ ?_ trivial, hm _ (fun _ => ho.2) (fun _ => ho.2) trivial, ?_,
    by decide +kernel, by decide +kernel⟩
  · simp only [SchedEv.Fits, msg, if_true]
    exact ⟨trivial, rfl, by rw [List.length_replicate]; decide, sampleAddr, 43, ho.1, ho.2, rfl⟩
  · simp only [SchedEv.Fits, msg, if_true]
    exact ⟨trivial, rfl, by rw [List.length_replicate]; decide, sampleAddr, 43, ho.1, ho.2, rfl⟩
  · intro id m h
    unfold pairWant at h
    split at h <;> simp only [Option.some.injEq, reduceCtorEq] at h <;> subst h <;> simp only [List.length_replicate] <;> decide

/-- The hypotheses of `c81_on_air_partial` are met by the same history: there are bursts to receive, and the station passes up
both messages. -/
example : ∃ l st all, OnAir (traceOf pairRun) l ∧ (MsStack.camped 864282631 (fromInt (sampleTime.toInt + 1))).run l = .ok (st, all) ∧
    Heard 864282631 (told pairWant (reported (traceOf pairRun))) (all.filter MsOut.isSdu) ∧
    (told pairWant (reported (traceOf pairRun))).length = 2 := by
  have hin : sampleCfg.InRange := by unfold CellCfg.InRange; decide
  have hv : sampleTime.valid := by unfold Time.valid; decide
  have hm : ∀ P : SchedEv → Prop, P (msg 1 1 597) → P (msg 1 2 45) → P .tick → ∀ e ∈ pairRun, P e := by
    intro P h1 h2 h3 e he
    simp only [pairRun, ticks, List.mem_append, List.mem_cons, List.not_mem_nil, or_false, List.mem_replicate] at he
    rcases he with (rfl | rfl) | ⟨_, rfl⟩
    · exact h1
    · exact h2
    · exact h3
  have ho : sampleRes.onAir.addr = some sampleAddr ∧ sampleRes.headerLen = .ok 43 := by decide
  have hp : Proper pairRun := hm _ ⟨sampleRes_sendable, ⟨Nat.le_refl 1, by decide⟩⟩ ⟨sampleRes_sendable, ⟨Nat.le_refl 1, by decide⟩⟩
    ⟨trivial, trivial⟩
  obtain ⟨s', hr⟩ : ∃ s', sampleRun pairRun = .ok (s', traceOf pairRun) := by
    have hok : (match sampleRun pairRun with | .ok _ => true | _ => false) = true := by decide +kernel
    unfold traceOf
    split at hok
    · rename_i r hr; exact ⟨r.1, by rw [hr]⟩
    · cases hok
  obtain ⟨l, hl⟩ := onAir_self hin hv (es0 := []) hp rfl hr
  have hfit : ∀ e ∈ pairRun, e.Fits 1 pairWant := by
    refine hm _ ?_ ?_ trivial
    · simp only [SchedEv.Fits, msg, if_true]
      exact ⟨trivial, rfl, by rw [List.length_replicate]; decide, sampleAddr, 43, ho.1, ho.2, rfl⟩
    · simp only [SchedEv.Fits, msg, if_true]
      exact ⟨trivial, rfl, by rw [List.length_replicate]; decide, sampleAddr, 43, ho.1, ho.2, rfl⟩
  obtain ⟨st, all, h1, _, h2⟩ := c81_on_air_partial sampleCfg hin 864282631 sampleTime hv pairRun hp 43 pairWant hfit
    (hm _ (fun _ => ho.2) (fun _ => ho.2) trivial) (by
      intro id m h
      unfold pairWant at h
      split at h <;> simp only [Option.some.injEq, reduceCtorEq] at h <;> subst h <;> simp only [List.length_replicate] <;> decide)
    s' _ hr l hl
  exact ⟨l, st, all, hl, h1, h2, by decide +kernel⟩

/-- A grant, an acknowledgement and two messages, in one block: the hypothesis `OneAtATime` of `c81_mixed_partial` is met and the
station passes up both. -/
example : heardOf (UmacMs.init.run (listenOn 1 3 (traceOf ([msg 1 1 85, .ack 1 ⟨7, .issi, false⟩, msg 1 2 61] ++ ticks 8)))) =
    some [.sdu sampleAddr (List.replicate 85 true) 3, .sdu sampleAddr (List.replicate 61 true) 3] := by decide +kernel

/-! ## What goes wrong -/

/-- **C81, finding.** A message which ends four bits after a byte boundary, and with it the block, loses its last four bits:
225 bits are reported as transmitted, and 221 are passed up. -/
theorem c81_cut_short :
    reported (traceOf (msg 1 1 225 :: ticks 8)) = [.transmitted 1] ∧
    heardOf (UmacMs.init.run (listenOn 1 3 (traceOf (msg 1 1 225 :: ticks 8)))) = some [.sdu sampleAddr (List.replicate 221 true) 3] := by
  decide +kernel

/-- **C81, finding.** Parts of two messages on the air at once (C47): all three messages are reported as transmitted and the
third is not passed up. -/
theorem c81_interleaved :
    reported (traceOf (inter ++ ticks 24)) = [.transmitted 1, .transmitted 2, .transmitted 3] ∧
    heardOf (UmacMs.init.run (listenOn 1 3 (traceOf (inter ++ ticks 24)))) =
      some [.sdu sampleAddr (List.replicate 177 true) 3, .sdu sampleAddr (List.replicate 500 false) 3] := by
  decide +kernel

/-- **C81, finding.** An acknowledgement on its own at the very end of a block aborts the station: with 44 bits left the PDU
of 43 bits is said to have five bytes, and cutting it there cuts into its header. -/
theorem c81_ack_at_end_aborts :
    (∀ e ∈ [msg 1 1 181, .ack 1 ⟨7, .issi, false⟩] ++ ticks 4, e.Fine) ∧
    UmacMs.init.run (listenOn 1 3 (traceOf ([msg 1 1 181, .ack 1 ⟨7, .issi, false⟩] ++ ticks 4))) = .panic := by
  refine ⟨?_, ?_⟩
  · intro e he
    simp only [ticks, List.mem_append, List.mem_cons, List.not_mem_nil, or_false, List.mem_replicate] at he
    rcases he with (rfl | rfl) | ⟨_, rfl⟩
    · exact sampleRes_sendable
    · exact ⟨by decide, rfl, .inr (.inl rfl)⟩
    · trivial
  · have h : (match UmacMs.init.run (listenOn 1 3 (traceOf ([msg 1 1 181, .ack 1 ⟨7, .issi, false⟩] ++ ticks 4))) with
      | .panic => true | _ => false) = true := by decide +kernel
    split at h
    · rename_i e; exact e
    · cases h

/-- **C81, finding.** A station which comes to the timeslot in the middle of a message loses whatever follows the end of that
message in the same block: the second message is sent after it came and never passed up. -/
theorem c81_late_listener :
    reported ((traceOf ([msg 1 1 300, msg 1 2 29] ++ ticks 12)).drop 6) = [.transmitted 1, .transmitted 2] ∧
    (∃ y, (.tick, .sent y) ∈ (traceOf ([msg 1 1 300, msg 1 2 29] ++ ticks 12)).drop 6 ∧ y.slot.ts.t = 1 ∧
      y.reports = [.transmitted 1, .transmitted 2]) ∧
    heardOf (UmacMs.init.run (listenOn 1 3 ((traceOf ([msg 1 1 300, msg 1 2 29] ++ ticks 12)).drop 6))) = some [] := by
  refine ⟨by decide +kernel, ?_, by decide +kernel⟩
  have h : ((traceOf ([msg 1 1 300, msg 1 2 29] ++ ticks 12)).drop 6).any (fun p => match p with
      | (.tick, .sent y) => decide (y.slot.ts.t = 1) && decide (y.reports = [.transmitted 1, .transmitted 2])
      | _ => false) = true := by decide +kernel
  rw [List.any_eq_true] at h
  obtain ⟨p, hp, hq⟩ := h
  split at hq
  · rename_i y
    simp only [Bool.and_eq_true, decide_eq_true_eq] at hq
    exact ⟨y, hp, hq⟩
  · cases hq

/-- **C81, finding.** The station aborts on blocks which are well-formed by the standard but which it does not know: on any
supplementary PDU and any U-signalling, whatever state it is in. -/
theorem c81_unknown_pdu_aborts (m : UmacMs) (t : Time) (sc : Nat) (b : Bool) (bs : List Bool) :
    m.call (.block t .schF (some .both) sc (true :: true :: b :: bs)) = .panic := rfl

/-- **C81, finding.** So it does on every broadcast which is not SYSINFO, among them ACCESS-DEFINE. -/
theorem c81_broadcast_aborts (m : UmacMs) (t : Time) (sc : Nat) (b1 b2 : Bool) (h : (b1 || b2) = true) (bs : List Bool) :
    m.call (.block t .schF (some .both) sc (true :: false :: b1 :: b2 :: bs)) = .panic := by
  cases b1 <;> cases b2 <;> first | (simp at h; done) | rfl

/-- **C81, finding.** A station built from this upper MAC never descrambles anything: in no history whatever does it give the lower
MAC a scrambling code, for the colour code is never taken from the synchronisation burst. -/
theorem c81_never_scrambles (cs : List MsCall) (m : UmacMs) (outs : List MsOut) (h : UmacMs.init.run cs = .ok (m, outs)) :
    ∀ c, .setScramb c ∉ outs := by
  have hround : ∀ (s s' : UmacMs) (t : Time) (sc : Nat) (bs : List Bool) (o : List MsOut) (r : Option (List Bool)),
      s.round t sc bs = .ok (s', o, r) → s'.cc = s.cc ∧ ∀ c, .setScramb c ∉ o := by
    intro s s' t sc bs o r hr
    unfold UmacMs.round at hr
    split at hr
    · unfold UmacMs.rxResource at hr
      split at hr
      · cases hr
      · cases hr; simp
      · rw [Out.bind_eq_ok] at hr; obtain ⟨_, _, hr⟩ := hr
        rw [Out.bind_eq_ok] at hr; obtain ⟨_, _, hr⟩ := hr
        split at hr
        · cases hr; simp
        · split at hr
          · cases hr; simp
          · split at hr
            · rw [Out.bind_eq_ok] at hr; obtain ⟨_, _, hr⟩ := hr
              cases hr; simp
            · split at hr
              · cases hr; simp
              · cases hr
                refine ⟨rfl, fun c hc => ?_⟩
                split at hc <;> simp at hc
    · unfold UmacMs.rxFrag at hr
      split at hr
      · cases hr
      · cases hr; simp
      · rw [Out.bind_eq_ok] at hr; obtain ⟨_, _, hr⟩ := hr
        rw [Out.bind_eq_ok] at hr; obtain ⟨_, _, hr⟩ := hr
        cases hr; simp
    · unfold UmacMs.rxEnd at hr
      split at hr
      · cases hr
      · cases hr; simp
      · split at hr
        · cases hr
        · rw [Out.bind_eq_ok] at hr; obtain ⟨_, _, hr⟩ := hr
          rw [Out.bind_eq_ok] at hr; obtain ⟨_, _, hr⟩ := hr
          rw [Out.bind_eq_ok] at hr; obtain ⟨_, _, hr⟩ := hr
          split at hr <;> cases hr <;> simp
    · unfold UmacMs.rxBroadcast at hr
      split at hr
      · split at hr
        · cases hr
        · cases hr; simp
        · cases hr
          refine ⟨rfl, fun c hc => ?_⟩
          rw [List.mem_append] at hc
          rcases hc with hc | hc
          · split at hc
            · split at hc <;> simp at hc
            · simp at hc
          · simp at hc
      · cases hr
    · cases hr
    · cases hr; simp
  have hloop : ∀ (n : Nat) (s s' : UmacMs) (t : Time) (sc : Nat) (bs : List Bool) (o : List MsOut),
      UmacMs.loop t sc n s bs = .ok (s', o) → s'.cc = s.cc ∧ ∀ c, .setScramb c ∉ o := by
    intro n
    induction n with
    | zero => intro s s' t sc bs o h; cases h; simp
    | succ n ih =>
      intro s s' t sc bs o h
      simp only [UmacMs.loop] at h
      rw [Out.bind_eq_ok] at h; obtain ⟨r, hr, h⟩ := h
      obtain ⟨r1, r2, r3⟩ := r
      have k := hround _ _ _ _ _ _ _ hr
      simp only at h
      split at h
      · cases h; exact k
      · split at h
        · rw [Out.bind_eq_ok] at h; obtain ⟨q, hq, h⟩ := h
          cases h
          have k2 := ih _ q.1 t sc _ q.2 hq
          refine ⟨k2.1.trans k.1, fun c hc => ?_⟩
          rcases List.mem_append.1 hc with hc | hc
          · exact k.2 c hc
          · exact k2.2 c hc
        · cases h; exact k
  have hcall : ∀ (s s' : UmacMs) (c : MsCall) (o : List MsOut), s.cc = none → s.call c = .ok (s', o) →
      s'.cc = none ∧ ∀ c, .setScramb c ∉ o := by
    intro s s' c o hc h
    cases c with
    | block t chan num sc bits =>
      have hs : ∀ {P : Prop} [Decidable P], (if P then s.rxSch t sc bits else .panic) = .ok (s', o) →
          s'.cc = none ∧ ∀ c, .setScramb c ∉ o := by
        intro P _ h
        split at h
        · have := hloop _ _ _ _ _ _ _ h
          exact ⟨this.1.trans hc, this.2⟩
        · cases h
      cases chan <;> simp only [UmacMs.call] at h
      · unfold UmacMs.rxAach at h
        split at h <;> split at h <;> cases h <;> simp [hc]
      · exact hs h
      · exact hs h
      · exact hs h
      · cases h
      · unfold UmacMs.rxBsch at h
        split at h <;> cases h <;> simp [hc]
      · exact hs h
    | configure net =>
      cases net with
      | none => cases h; simp [hc]
      | some n =>
        obtain ⟨a, b⟩ := n
        simp only [UmacMs.call, UmacMs.updateScramb, hc, Out.ok.injEq] at h
        cases h; simp [hc]
    | request => cases h
  have hrun : ∀ (cs : List MsCall) (s s' : UmacMs) (o : List MsOut), s.cc = none → s.run cs = .ok (s', o) →
      ∀ c, .setScramb c ∉ o := by
    intro cs
    induction cs with
    | nil => intro s s' o _ h; cases h; simp
    | cons c cs ih =>
      intro s s' o hc h
      simp only [UmacMs.run] at h
      rw [Out.bind_eq_ok] at h; obtain ⟨r, hr, h⟩ := h
      rw [Out.bind_eq_ok] at h; obtain ⟨q, hq, h⟩ := h
      cases h
      obtain ⟨k1, k2⟩ := hcall s r.1 c r.2 hc hr
      intro x hx
      rcases List.mem_append.1 hx with hx | hx
      · exact k2 x hx
      · exact ih _ q.1 q.2 k1 hq x hx
  exact hrun cs _ m outs rfl h

end Verif.Umac
