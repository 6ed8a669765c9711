import Verif.Sig.Parts
import Verif.Cmce.CmceBsShort
import Verif.Umac.SchedSteps
/-!
# What the signalling stack sends down can be put on the air: lemmas

When the messages from the air come from addresses of 24 bits in clear, every message the stack hands down goes to such an address and
has a usage marker of 6 bits, whatever the network and the control link ask for.
-/
namespace Verif.Sig
open Verif.Tdma Verif.Bits
open Verif.Umac (Addr SsiType AddrOk)
open Verif.Cmce (BsEv BsOut Bs Party Service SdsView SubUpdate Control BsShort bsStep_short)
open Verif.Mm (Mm MmOut RegShort OutShort)
open Verif.Mle (Mle)
open Verif.Llc (Llc)

/-- A usage marker has 6 bits and goes with a short address. -/
def ChanOk (a : Addr) (chan : Option (Option Nat × Nat)) : Prop :=
  ∀ u t, chan = some (some u, t) → u < 64 ∧ (a.ssiType = .ssi ∨ a.ssiType = .issi ∨ a.ssiType = .gssi)

/-- The same for an unacknowledged message. -/
def ViaOk (v : Llc.Via) : Prop := AddrOk v.addr ∧ ChanOk v.addr v.chan

/-! ## LLC -/

/-- What the LLC sends is under good addresses. -/
def SentOk : Llc.Emit → Prop
  | .data _ a _ _ => AddrOk a
  | .ack a _ _ _ => AddrOk a
  | .udata v _ => ViaOk v
  | .up _ a _ _ _ => AddrOk a
  | _ => True

/-- So is what it holds. -/
structure LlcShort (s : Llc) : Prop where
  acks : ∀ a ∈ s.acks, AddrOk a.addr
  out : ∀ m ∈ s.out, AddrOk m.addr
  udata : ∀ u ∈ s.udata, ViaOk u.1

/-- And what it is handed. -/
def EvOk : Llc.Ev → Prop
  | .dataReq a _ _ _ _ _ => AddrOk a
  | .unitdataReq v _ => ViaOk v
  | .ind a _ p => AddrOk a ∨ p = []
  | _ => True

theorem takeAck_sub (ts ssi : Nat) : ∀ (l : List Llc.OwedAck), ∀ a ∈ (Llc.takeAck ts ssi l).2, a ∈ l
  | [] => by simp [Llc.takeAck]
  | a :: r => by
    intro x hx
    unfold Llc.takeAck at hx
    split at hx
    · exact .tail _ hx
    · rcases List.mem_cons.1 hx with rfl | hx
      · exact .head _
      · exact .tail _ (takeAck_sub ts ssi r x hx)

theorem takeOutstanding_sub {ssi : Nat} : ∀ {l : List Llc.Msg} {m : Llc.Msg} {rest : List Llc.Msg},
    Llc.takeOutstanding ssi l = some (m, rest) → m ∈ l ∧ ∀ x ∈ rest, x ∈ l
  | [], _, _, h => by cases h
  | a :: r, m, rest, h => by
    unfold Llc.takeOutstanding at h
    split at h
    · cases h; exact ⟨.head _, fun x hx => .tail _ hx⟩
    · rw [Option.map_eq_some_iff] at h
      obtain ⟨⟨m', r'⟩, h1, h2⟩ := h
      cases h2
      obtain ⟨h3, h4⟩ := takeOutstanding_sub h1
      refine ⟨.tail _ h3, fun x hx => ?_⟩
      rcases List.mem_cons.1 hx with rfl | hx
      · exact .head _
      · exact .tail _ (h4 x hx)

theorem dropAll_short : ∀ {ssis : List Nat} {l l' : List Llc.Msg} {es : List Llc.Emit}, Llc.dropAll l ssis = .ok (l', es) →
    (∀ m ∈ l', m ∈ l) ∧ ∀ e ∈ es, SentOk e
  | [], _, _, _, h => by cases h; exact ⟨fun _ h => h, by simp⟩
  | ssi :: ssis, l, l', es, h => by
    unfold Llc.dropAll at h
    split at h
    · cases h
    · rename_i m rest hm
      simp only [Res.bind_eq_ok] at h
      obtain ⟨_, _, q, h2, h3⟩ := h
      cases h3
      obtain ⟨h4, h5⟩ := dropAll_short h2
      refine ⟨fun x hx => (takeOutstanding_sub hm).2 x (h4 x hx), fun e he => ?_⟩
      rcases List.mem_cons.1 he with rfl | he
      · trivial
      · exact h5 e he

theorem retry_short {m : Llc.Msg} {now : Time} (h : AddrOk m.addr) : AddrOk (m.retry now).1.addr ∧ ∀ e ∈ (m.retry now).2.1, SentOk e := by
  have hn : (m.noteDone now).addr = m.addr := by unfold Llc.Msg.noteDone; split <;> rfl
  have ho : AddrOk (m.noteDone now).addr := by rw [hn]; exact h
  unfold Llc.Msg.retry
  dsimp only
  split
  · split
    · exact ⟨ho, by intro e he; simp only [List.mem_singleton] at he; subst he; exact ho⟩
    · exact ⟨ho, by simp⟩
  · exact ⟨ho, by simp⟩

theorem sendFree_short : ∀ (l : List Llc.Msg) (b : List Nat), (∀ m ∈ l, AddrOk m.addr) →
    (∀ m ∈ (Llc.sendFree b l).1, AddrOk m.addr) ∧ ∀ e ∈ (Llc.sendFree b l).2, SentOk e
  | [], _, _ => by simp [Llc.sendFree]
  | m :: r, b, h => by
    have hm := h m (.head _)
    have hr := fun b => sendFree_short r b fun x hx => h x (.tail _ hx)
    unfold Llc.sendFree
    split
    · refine ⟨fun x hx => ?_, (hr _).2⟩
      rcases List.mem_cons.1 hx with rfl | hx
      · exact hm
      · exact (hr _).1 x hx
    · split
      · refine ⟨fun x hx => ?_, (hr _).2⟩
        rcases List.mem_cons.1 hx with rfl | hx
        · exact hm
        · exact (hr _).1 x hx
      · refine ⟨fun x hx => ?_, fun x hx => ?_⟩
        · rcases List.mem_cons.1 hx with rfl | hx
          · exact hm
          · exact (hr _).1 x hx
        · rcases List.mem_cons.1 hx with rfl | hx
          · exact hm
          · exact (hr _).2 x hx

theorem processAck_short {s s' : Llc} {ssi : Nat} {nr : Bool} {es : List Llc.Emit} (h : LlcShort s) (hs : s.processAck ssi nr = .ok (s', es)) :
    LlcShort s' ∧ ∀ e ∈ es, SentOk e := by
  unfold Llc.Llc.processAck at hs
  split at hs
  · cases hs; exact ⟨h, by simp⟩
  · rename_i m rest hm
    obtain ⟨h1, h2⟩ := takeOutstanding_sub hm
    have hall : LlcShort { s with out := m :: rest } := ⟨h.acks, fun x hx => by
      rcases List.mem_cons.1 hx with rfl | hx
      · exact h.out _ h1
      · exact h.out x (h2 x hx), h.udata⟩
    split at hs
    · cases hs; exact ⟨hall, by simp⟩
    · split at hs
      · simp only [Res.bind_eq_ok] at hs
        obtain ⟨_, _, hs⟩ := hs
        cases hs
        exact ⟨⟨h.acks, fun x hx => h.out x (h2 x hx), h.udata⟩, by simp [SentOk]⟩
      · cases hs; exact ⟨hall, by simp⟩

theorem acceptBl_short {s s' : Llc} {k : Llc.Kind} {addr : Addr} {ts : Nat} {fcs : Bool} {ns nr : Option Bool} {body : List Bool}
    {es : List Llc.Emit} (h : LlcShort s) (ha : AddrOk addr) (hs : s.acceptBl k addr ts fcs ns nr body = .ok (s', es)) :
    LlcShort s' ∧ ∀ e ∈ es, SentOk e := by
  simp only [Llc.Llc.acceptBl, Res.bind_eq_ok] at hs
  obtain ⟨⟨s1, e1⟩, h1, h2⟩ := hs
  cases h2
  have ho : LlcShort (s.owe addr ts ns) := by
    cases ns with
    | none => exact h
    | some b =>
      refine ⟨fun a hx => ?_, h.out, h.udata⟩
      rcases List.mem_append.1 hx with hx | hx
      · exact h.acks a hx
      · simp only [List.mem_singleton] at hx; subst hx; exact ha
  have hp : LlcShort s1 ∧ ∀ e ∈ e1, SentOk e := by
    cases nr with
    | none => cases h1; exact ⟨ho, by simp⟩
    | some b => exact processAck_short ho h1
  refine ⟨hp.1, fun e he => ?_⟩
  rcases List.mem_append.1 he with he | he
  · exact hp.2 e he
  · unfold Llc.deliver at he
    split at he
    · cases he
    · simp only [List.mem_singleton] at he; subst he; exact ha

theorem llc_short {s s' : Llc} {e : Llc.Ev} {es : List Llc.Emit} (h : LlcShort s) (he : EvOk e) (hs : s.step e = .ok (s', es)) :
    LlcShort s' ∧ ∀ x ∈ es, SentOk x := by
  cases e with
  | dataReq addr ts stealing fcs expectsAck sdu =>
    simp only [Llc.Llc.step, Res.bind_eq_ok] at hs
    obtain ⟨s1, h1, h2⟩ := hs
    cases h2
    unfold Llc.Llc.dataReq at h1
    split at h1
    · cases h1
    · cases h1
      refine ⟨⟨fun a ha => h.acks a (takeAck_sub _ _ _ a ha), fun m hm => ?_, h.udata⟩, by simp⟩
      rcases List.mem_append.1 hm with hm | hm
      · exact h.out m hm
      · simp only [List.mem_singleton] at hm; subst hm; exact he
  | unitdataReq v sdu =>
    cases hs
    refine ⟨⟨h.acks, h.out, fun u hu => ?_⟩, by simp⟩
    rcases List.mem_append.1 hu with hu | hu
    · exact h.udata u hu
    · simp only [List.mem_singleton] at hu; subst hu; exact he
  | ind addr ts pdu =>
    simp only [Llc.Llc.step] at hs
    rcases he with ha | rfl
    · have hrx : ∀ k, s.rxBl k addr ts pdu = .ok (s', es) → LlcShort s' ∧ ∀ x ∈ es, SentOk x := by
        intro k hk
        unfold Llc.Llc.rxBl at hk
        split at hk
        · cases hk; exact ⟨h, by simp⟩
        · simp only [Res.bind_eq_ok] at hk
          obtain ⟨good, _, hk⟩ := hk
          split at hk
          · exact acceptBl_short h ha hk
          · cases hk; exact ⟨h, by simp⟩
      unfold Llc.Llc.unitdataInd at hs
      split at hs
      · cases hs; exact ⟨h, by simp⟩
      · cases hs; exact ⟨h, by simp⟩
      · cases hs
      · exact hrx _ hs
    · cases hs; exact ⟨h, by simp⟩
  | mac id d =>
    cases hs
    refine ⟨⟨h.acks, fun m hm => ?_, h.udata⟩, by simp⟩
    obtain ⟨m0, hm0, rfl⟩ := List.mem_map.1 hm
    have : (m0.report id d).addr = m0.addr := by unfold Llc.Msg.report; split <;> rfl
    rw [this]; exact h.out m0 hm0
  | tickStart t => cases hs; exact ⟨⟨h.acks, h.out, h.udata⟩, by simp⟩
  | tickEnd =>
    simp only [Llc.Llc.step, Llc.Llc.tickEnd, Llc.Llc.retransmit, Res.bind_eq_ok, Res.ok.injEq] at hs
    obtain ⟨r, ⟨d, h1, rfl⟩, h2⟩ := hs
    cases h2
    obtain ⟨d1, d2⟩ := dropAll_short (l' := d.1) (es := d.2) h1
    have hd : ∀ m ∈ d.1, AddrOk m.addr := by
      intro m hm
      have := d1 m hm
      simp only [List.map_map, List.mem_map, Function.comp] at this
      obtain ⟨m0, hm0, rfl⟩ := this
      exact (retry_short (h.out m0 hm0)).1
    obtain ⟨f1, f2⟩ := sendFree_short d.1 [] hd
    refine ⟨⟨by simp, f1, by simp⟩, fun x hx => ?_⟩
    simp only [List.mem_append] at hx
    rcases hx with (((hx | hx) | hx) | hx) | hx
    · simp only [List.map_map, List.mem_flatten, List.mem_map, Function.comp] at hx
      obtain ⟨_, ⟨m0, hm0, rfl⟩, hx⟩ := hx
      exact (retry_short (h.out m0 hm0)).2 x hx
    · exact d2 x hx
    · exact f2 x hx
    · obtain ⟨a, ha, rfl⟩ := List.mem_map.1 hx; exact h.acks a ha
    · obtain ⟨a, ha, rfl⟩ := List.mem_map.1 hx; exact h.udata a ha

/-! ## The queue -/

/-- What is queued is under good addresses. -/
def LetterOk : Letter → Prop
  | .frame a _ p => AddrOk a ∨ p = []
  | .mle (.dataInd a _ _ _) => AddrOk a
  | .mle (.lmm a _ _ _) => AddrOk a
  | .mle (.lcmc a _ _ chan _ _) => AddrOk a ∧ ChanOk a chan
  | .mm _ a _ _ => AddrOk a
  | .cmce _ e => e.Short
  | .tlData a _ _ _ => AddrOk a
  | .tlUnitdata v _ => ViaOk v
  | _ => True

/-- What the events from outside must bring: messages from the air come from good addresses. -/
def FrameOk : Ev → Prop
  | .frame a _ p => AddrOk a ∨ p = []
  | _ => True

theorem append_all {α : Type} {P : α → Prop} {q ls : List α} (hq : ∀ l ∈ q, P l) (hl : ∀ l ∈ ls, P l) : ∀ l ∈ q ++ ls, P l := by
  intro l h
  rcases List.mem_append.1 h with h | h
  · exact hq l h
  · exact hl l h

theorem ofLlc_short {ts : Nat} {es : List Llc.Emit} (h : ∀ e ∈ es, SentOk e) : ∀ l ∈ es.filterMap (ofLlc ts), LetterOk l := by
  intro l hl
  rw [List.mem_filterMap] at hl
  obtain ⟨o, ho, hl⟩ := hl
  have := h o ho
  cases o <;> simp only [ofLlc] at hl <;> try cases hl
  rename_i acked _ _ _ _
  cases acked <;> cases hl
  · trivial
  · exact this

theorem mle_short {s s' : Mle} {m : Mle.In} {out : List Mle.Out} (h : s.rx m = .ok (s', out)) (hs : LetterOk (.mle m)) :
    ∀ l ∈ out.map ofMle, LetterOk l := by
  intro l hl
  cases m with
  | dataInd addr link ts sdu =>
    cases sdu with
    | none => cases h
    | some sdu =>
      simp only [Mle.Mle.rx, Mle.Mle.dataInd] at h
      split at h
      · cases h; cases hl
      · split at h
        · cases h; cases hl
        · rename_i d _
          cases d <;> simp only [Mle.Mle.dispatch, Res.bind_eq_ok] at h
          · obtain ⟨r, _, h⟩ := h
            cases h
            simp only [List.map_cons, List.map_nil, List.mem_singleton] at hl; subst hl; exact hs
          · obtain ⟨r, _, h⟩ := h
            cases h
            simp only [List.map_cons, List.map_nil, List.mem_singleton] at hl; subst hl; exact hs.1
          · cases h
            simp only [List.map_cons, List.map_nil, List.mem_singleton] at hl; subst hl; trivial
          · cases h; cases hl
          · cases h; cases hl
  | unitdataInd => cases h
  | lmm addr ts service sdu =>
    simp only [Mle.Mle.rx, Mle.lmmReq, Res.bind_eq_ok] at h
    obtain ⟨o, h1, h2⟩ := h
    split at h1
    · cases h1
    · cases h1; cases h2
      simp only [List.map_cons, List.map_nil, List.mem_singleton] at hl
      subst hl; exact hs
  | lcmc addr ts service chan stealing sdu =>
    cases h
    unfold Mle.lcmcReq at hl
    split at hl <;> simp only [List.map_cons, List.map_nil, List.mem_singleton] at hl <;> subst hl
    · exact hs
    · exact hs.1

theorem everyone_ok : AddrOk Mle.everyone := ⟨by decide, rfl, .inr (.inr (.inl rfl))⟩

theorem mle_tick_short {s s' : Mle} {now : Time} {clock : Mle.Clock} {out : List Mle.Out} (h : s.tick now clock = .ok (s', out)) :
    ∀ l ∈ out.map ofMle, LetterOk l := by
  intro l hl
  rcases mle_tick h with rfl | ⟨bs, rfl⟩
  · cases hl
  · simp only [List.map_cons, List.map_nil, List.mem_singleton] at hl
    subst hl
    exact ⟨everyone_ok, fun _ _ e => by cases e⟩

theorem ofMm_short {addr : Addr} (ha : AddrOk addr) {ts : Nat} {sdu : List Bool} {out : List MmOut} (ho : OutShort out) :
    ∀ l ∈ out.filterMap (ofMm addr ts sdu), LetterOk l := by
  intro l hl
  rw [List.mem_filterMap] at hl
  obtain ⟨o, h1, ho'⟩ := hl
  cases o <;> simp only [ofMm] at ho' <;> cases ho'
  case cmce => exact ho _ h1
  case answer =>
    show AddrOk (answerTo addr sdu)
    unfold answerTo
    split
    · exact ha
    · exact ⟨ha.1, rfl, .inl rfl⟩

theorem ofBs_short {f : BsOut → Nat} {out : List BsOut} (h : ∀ b ∈ out, b.Short) : ∀ l ∈ out.filterMap (ofBs f), LetterOk l := by
  intro l hl
  rw [List.mem_filterMap] at hl
  obtain ⟨o, h1, ho⟩ := hl
  have hs := h o h1
  cases o <;> simp only [ofBs] at ho <;> cases ho
  rename_i p _ chan _ _
  cases p with
  | station i => exact ⟨⟨hs.1, rfl, .inr (.inl rfl)⟩, fun u t e => ⟨hs.2 u t e, .inr (.inl rfl)⟩⟩
  | group g => exact ⟨⟨hs.1, rfl, .inr (.inr (.inl rfl))⟩, fun u t e => ⟨hs.2 u t e, .inr (.inr rfl)⟩⟩

/-! ## Histories -/

/-- What is kept. -/
structure StShort (tr : List Call) (s : St) : Prop where
  queue : ∀ l ∈ s.queue, LetterOk l
  llc : LlcShort s.llc
  reg : RegShort s.mm.registry
  bs : BsShort s.bs
  sent : ∀ o, .out o ∈ llcTrace tr → SentOk o

theorem StShort.congr {tr : List Call} {s s' : St} (h : StShort tr s) (hq : ∀ l ∈ s'.queue, LetterOk l) (h1 : s'.llc = s.llc)
    (h2 : s'.mm = s.mm) (h3 : s'.bs = s.bs) : StShort tr s' := ⟨hq, h1 ▸ h.llc, h2 ▸ h.reg, h3 ▸ h.bs, h.sent⟩

theorem StShort.callLlc {tr k : List Call} {s s' : St} {ts : Nat} {e : Llc.Ev} (h : StShort tr s) (he : EvOk e)
    (hk : s.callLlc ts e = .ok (s', k)) : StShort (tr ++ k) s' := by
  obtain ⟨l, es, h1, rfl, rfl⟩ := callLlc_ok hk
  obtain ⟨h2, h3⟩ := llc_short h.llc he h1
  refine ⟨append_all h.queue (ofLlc_short h3), h2, h.reg, h.bs, fun o ho => ?_⟩
  rw [llcTrace_append] at ho
  rcases List.mem_append.1 ho with ho | ho
  · exact h.sent o ho
  · simp [llcTrace] at ho; exact h3 o ho

theorem StShort.callMle {tr k : List Call} {s s' : St} {m : Mle.In} (h : StShort tr s) (hm : LetterOk (.mle m))
    (hk : s.callMle m = .ok (s', k)) : StShort (tr ++ k) s' := by
  obtain ⟨l, es, h1, rfl, rfl⟩ := callMle_ok hk
  refine ⟨append_all h.queue (mle_short h1 hm), h.llc, h.reg, h.bs, fun o ho => h.sent o ?_⟩
  rw [llcTrace_append] at ho
  simpa [llcTrace] using ho

theorem StShort.callMm {c : Cfg} {tr k : List Call} {s s' : St} {handle : Nat} {addr : Addr} {ts : Nat} {sdu : List Bool} (h : StShort tr s)
    (ha : AddrOk addr) (hk : s.callMm c handle addr ts sdu = .ok (s', k)) : StShort (tr ++ k) s' := by
  obtain ⟨l, es, h1, rfl, rfl⟩ := callMm_ok hk
  obtain ⟨h2, h3⟩ := Mm.rx_short h.reg ha.1 h1
  refine ⟨append_all h.queue (ofMm_short ha h3), h.llc, h2, h.bs, fun o ho => h.sent o ?_⟩
  rw [llcTrace_append] at ho
  simpa [llcTrace] using ho

theorem StShort.callBs {c : Cfg} {tr k : List Call} {s s' : St} {ts : Nat} {e : BsEv} (h : StShort tr s) (he : e.Short)
    (hk : s.callBs c ts e = .ok (s', k)) : StShort (tr ++ k) s' := by
  obtain ⟨l, es, h1, rfl, rfl⟩ := callBs_ok hk
  obtain ⟨h2, h3⟩ := bsStep_short h.bs h.reg he h1
  refine ⟨append_all h.queue (ofBs_short h3), h.llc, h.reg, h2, fun o ho => h.sent o ?_⟩
  rw [llcTrace_append] at ho
  simpa [llcTrace] using ho

theorem StShort.tickMle {tr k : List Call} {s s' : St} {now : Time} {clock : Mle.Clock} (h : StShort tr s)
    (hk : s.tickMle now clock = .ok (s', k)) : StShort (tr ++ k) s' := by
  obtain ⟨l, es, h1, rfl, rfl⟩ := tickMle_ok hk
  refine ⟨append_all h.queue (mle_tick_short h1), h.llc, h.reg, h.bs, fun o ho => h.sent o ?_⟩
  rw [llcTrace_append] at ho
  simpa [llcTrace] using ho

theorem st_short {c : Cfg} {evs : List Ev} {tr : List Call} {s : St} (h : Run c evs tr s) (he : ∀ e ∈ evs, FrameOk e) : StShort tr s := by
  induction h with
  | init => exact ⟨by simp [St.init], ⟨by simp [St.init, Llc.Llc.init], by simp [St.init, Llc.Llc.init], by simp [St.init, Llc.Llc.init]⟩,
      Mm.regShort_new, ⟨Cmce.ccInv_init _, Cmce.CcShort.init _⟩, by simp [llcTrace]⟩
  | reorder _ hr ih =>
    have hi := ih he
    exact ⟨hi.queue, hi.llc, hi.reg, ⟨hi.bs.inv.reordered hr, hi.bs.cc.reordered hr⟩, hi.sent⟩
  | @step evs tr calls s s' e _ hs ih =>
    have hi := ih fun x hx => he x (List.mem_append_left _ hx)
    have hse : FrameOk e := he e (by simp)
    cases e with
    | frame addr ts pdu =>
      cases hs
      rw [List.append_nil]
      exact hi.congr (append_all hi.queue (by intro l hl; simp only [List.mem_singleton] at hl; subst hl; exact hse)) rfl rfl rfl
    | toCmce ts e =>
      cases hs
      rw [List.append_nil]
      exact hi.congr (append_all hi.queue (by intro l hl; simp only [List.mem_singleton] at hl; subst hl; cases e <;> trivial)) rfl rfl rfl
    | deliver =>
      simp only [St.step] at hs
      split at hs
      · cases hs; rw [List.append_nil]; exact hi
      · rename_i l q hq
        have hl : LetterOk l := hi.queue l (by rw [hq]; simp)
        have ih' : StShort tr { s with queue := q } :=
          hi.congr (fun x hx => hi.queue x (by rw [hq]; exact List.mem_cons_of_mem _ hx)) rfl rfl rfl
        cases l with
        | frame addr ts pdu => exact ih'.callLlc (e := .ind addr ts pdu) hl hs
        | mle m => exact ih'.callMle hl hs
        | mm handle addr ts sdu => exact ih'.callMm hl hs
        | cmce ts e => exact ih'.callBs hl hs
        | sndcp => cases hs
        | tlData addr ts st sdu => exact ih'.callLlc (e := .dataReq addr ts st false true sdu) hl hs
        | tlUnitdata v sdu => exact ih'.callLlc (e := .unitdataReq v sdu) hl hs
    | tickStart now cmds clock b =>
      simp only [St.step] at hs
      obtain ⟨s1, k1, k2, h1, h2, rfl⟩ := andThen_ok hs
      rw [← List.append_assoc]
      have i1 := hi.callLlc (e := .tickStart now) trivial h1
      split at h2
      · obtain ⟨s2, k3, k4, h3, h4, rfl⟩ := andThen_ok h2
        rw [← List.append_assoc]
        exact (i1.tickMle h3).callBs (e := .tick now cmds) trivial h4
      · obtain ⟨s2, k3, k4, h3, h4, rfl⟩ := andThen_ok h2
        rw [← List.append_assoc]
        exact (i1.callBs (e := .tick now cmds) trivial h3).tickMle h4
    | tickEnd => exact hi.callLlc (e := .tickEnd) trivial hs
    | mac id d => exact hi.callLlc (e := .mac id d) trivial hs

end Verif.Sig
