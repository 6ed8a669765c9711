import Verif.Sig.Parts
import Verif.Cmce.CallClock
import Verif.Umac.RequestProps
/-!
# What the signalling stack sends down is for a timeslot which exists: lemmas

When the frames from the air and the ticks are for timeslots 1 to 4, so is every message the LLC hands down, whatever the network and
the control link ask for. And what may be put into a stolen half slot fits into it.
-/
namespace Verif.Sig
open Verif.Tdma Verif.Bits
open Verif.Umac (Addr SsiType)
open Verif.Cmce (BsEv BsOut Bs BsRun CcInv CcEv CcOut Party Service SdsView SubUpdate Control)
open Verif.Mm (Mm MmOut)
open Verif.Mle (Mle)
open Verif.Llc (Llc)

/-- A timeslot which exists. -/
def Slot4 (ts : Nat) : Prop := 1 ≤ ts ∧ ts ≤ 4

/-- What may be put into a stolen half slot has no usage marker and at most `n` bits. -/
def Fits (n : Nat) (steal : Bool) (chan : Option (Option Nat × Nat)) (bits : List Bool) : Prop :=
  steal = true → chan.bind (·.1) = none ∧ bits.length ≤ n

theorem fits_not (n : Nat) (chan : Option (Option Nat × Nat)) (bits : List Bool) : Fits n false chan bits := fun h => by cases h

/-! ## LLC -/

/-- What the LLC sends is for a timeslot which exists. (The time stamp of an acknowledgement is computed.) -/
def SentIn : Llc.Emit → Prop
  | .data _ _ ts _ => Slot4 ts
  | .udata v p => Slot4 v.ts ∧ Fits 61 v.steal v.chan p
  | _ => True

/-- So is what it holds. -/
structure LlcIn (s : Llc) : Prop where
  out : ∀ m ∈ s.out, Slot4 m.ts
  udata : ∀ u ∈ s.udata, Slot4 u.1.ts ∧ Fits 61 u.1.steal u.1.chan u.2

/-- And what it is asked to send. -/
def AskedIn : Llc.Ev → Prop
  | .dataReq _ ts _ _ _ _ => Slot4 ts
  | .unitdataReq v p => Slot4 v.ts ∧ Fits 57 v.steal v.chan p
  | _ => True

theorem takeOutstanding_part {ssi : Nat} : ∀ {l : List Llc.Msg} {m : Llc.Msg} {rest : List Llc.Msg},
    Llc.takeOutstanding ssi l = some (m, rest) → m ∈ l ∧ ∀ x ∈ rest, x ∈ l
  | [], _, _, h => by cases h
  | a :: r, m, rest, h => by
    unfold Llc.takeOutstanding at h
    split at h
    · cases h; exact ⟨.head _, fun x hx => .tail _ hx⟩
    · rw [Option.map_eq_some_iff] at h
      obtain ⟨⟨m', r'⟩, h1, h2⟩ := h
      cases h2
      obtain ⟨h3, h4⟩ := takeOutstanding_part h1
      refine ⟨.tail _ h3, fun x hx => ?_⟩
      rcases List.mem_cons.1 hx with rfl | hx
      · exact .head _
      · exact .tail _ (h4 x hx)

theorem dropAll_in : ∀ {ssis : List Nat} {l l' : List Llc.Msg} {es : List Llc.Emit}, Llc.dropAll l ssis = .ok (l', es) →
    (∀ m ∈ l', m ∈ l) ∧ ∀ e ∈ es, SentIn e
  | [], _, _, _, h => by cases h; exact ⟨fun _ h => h, by simp⟩
  | ssi :: ssis, l, l', es, h => by
    unfold Llc.dropAll at h
    split at h
    · cases h
    · rename_i m rest hm
      simp only [Res.bind_eq_ok] at h
      obtain ⟨_, _, q, h2, h3⟩ := h
      cases h3
      obtain ⟨h4, h5⟩ := dropAll_in h2
      refine ⟨fun x hx => (takeOutstanding_part hm).2 x (h4 x hx), fun e he => ?_⟩
      rcases List.mem_cons.1 he with rfl | he
      · trivial
      · exact h5 e he

theorem retry_in {m : Llc.Msg} {now : Time} (h : Slot4 m.ts) : Slot4 (m.retry now).1.ts ∧ ∀ e ∈ (m.retry now).2.1, SentIn e := by
  have hn : (m.noteDone now).ts = m.ts := by unfold Llc.Msg.noteDone; split <;> rfl
  have ho : Slot4 (m.noteDone now).ts := by rw [hn]; exact h
  unfold Llc.Msg.retry
  dsimp only
  split
  · split
    · exact ⟨ho, by intro e he; simp only [List.mem_singleton] at he; subst he; exact ho⟩
    · exact ⟨ho, by simp⟩
  · exact ⟨ho, by simp⟩

theorem sendFree_in : ∀ (l : List Llc.Msg) (b : List Nat), (∀ m ∈ l, Slot4 m.ts) →
    (∀ m ∈ (Llc.sendFree b l).1, Slot4 m.ts) ∧ ∀ e ∈ (Llc.sendFree b l).2, SentIn e
  | [], _, _ => by simp [Llc.sendFree]
  | m :: r, b, h => by
    have hm := h m (.head _)
    have hr := fun b => sendFree_in r b fun x hx => h x (.tail _ hx)
    unfold Llc.sendFree
    split
    · refine ⟨fun x hx => ?_, (hr _).2⟩
      rcases List.mem_cons.1 hx with rfl | hx
      · exact hm
      · exact (hr _).1 x hx
    · split
      · refine ⟨fun x hx => ?_, (hr _).2⟩
        rcases List.mem_cons.1 hx with rfl | hx
        · exact hm
        · exact (hr _).1 x hx
      · refine ⟨fun x hx => ?_, fun x hx => ?_⟩
        · rcases List.mem_cons.1 hx with rfl | hx
          · exact hm
          · exact (hr _).1 x hx
        · rcases List.mem_cons.1 hx with rfl | hx
          · exact hm
          · exact (hr _).2 x hx

theorem processAck_in {s s' : Llc} {ssi : Nat} {nr : Bool} {es : List Llc.Emit} (h : LlcIn s) (hs : s.processAck ssi nr = .ok (s', es)) :
    LlcIn s' ∧ ∀ e ∈ es, SentIn e := by
  unfold Llc.Llc.processAck at hs
  split at hs
  · cases hs; exact ⟨h, by simp⟩
  · rename_i m rest hm
    obtain ⟨h1, h2⟩ := takeOutstanding_part hm
    have hall : LlcIn { s with out := m :: rest } := ⟨fun x hx => by
      rcases List.mem_cons.1 hx with rfl | hx
      · exact h.out _ h1
      · exact h.out x (h2 x hx), h.udata⟩
    split at hs
    · cases hs; exact ⟨hall, by simp⟩
    · split at hs
      · simp only [Res.bind_eq_ok] at hs
        obtain ⟨_, _, hs⟩ := hs
        cases hs
        exact ⟨⟨fun x hx => h.out x (h2 x hx), h.udata⟩, by simp [SentIn]⟩
      · cases hs; exact ⟨hall, by simp⟩

theorem acceptBl_in {s s' : Llc} {k : Llc.Kind} {addr : Addr} {ts : Nat} {fcs : Bool} {ns nr : Option Bool} {body : List Bool}
    {es : List Llc.Emit} (h : LlcIn s) (hs : s.acceptBl k addr ts fcs ns nr body = .ok (s', es)) :
    LlcIn s' ∧ ∀ e ∈ es, SentIn e := by
  simp only [Llc.Llc.acceptBl, Res.bind_eq_ok] at hs
  obtain ⟨⟨s1, e1⟩, h1, h2⟩ := hs
  cases h2
  have ho : LlcIn (s.owe addr ts ns) := by
    cases ns with
    | none => exact h
    | some b => exact ⟨h.out, h.udata⟩
  have hp : LlcIn s1 ∧ ∀ e ∈ e1, SentIn e := by
    cases nr with
    | none => cases h1; exact ⟨ho, by simp⟩
    | some b => exact processAck_in ho h1
  refine ⟨hp.1, fun e he => ?_⟩
  rcases List.mem_append.1 he with he | he
  · exact hp.2 e he
  · unfold Llc.deliver at he
    split at he
    · cases he
    · simp only [List.mem_singleton] at he; subst he; trivial

theorem llc_in {s s' : Llc} {e : Llc.Ev} {es : List Llc.Emit} (h : LlcIn s) (he : AskedIn e) (hs : s.step e = .ok (s', es)) :
    LlcIn s' ∧ ∀ x ∈ es, SentIn x := by
  cases e with
  | dataReq addr ts stealing fcs expectsAck sdu =>
    simp only [Llc.Llc.step, Res.bind_eq_ok] at hs
    obtain ⟨s1, h1, h2⟩ := hs
    cases h2
    unfold Llc.Llc.dataReq at h1
    split at h1
    · cases h1
    · cases h1
      refine ⟨⟨fun m hm => ?_, h.udata⟩, by simp⟩
      rcases List.mem_append.1 hm with hm | hm
      · exact h.out m hm
      · simp only [List.mem_singleton] at hm; subst hm; exact he
  | unitdataReq v sdu =>
    cases hs
    refine ⟨⟨h.out, fun u hu => ?_⟩, by simp⟩
    rcases List.mem_append.1 hu with hu | hu
    · exact h.udata u hu
    · simp only [List.mem_singleton] at hu; subst hu
      exact ⟨he.1, fun h => ⟨(he.2 h).1, by have := (he.2 h).2; simp; omega⟩⟩
  | ind addr ts pdu =>
    simp only [Llc.Llc.step] at hs
    have hrx : ∀ k, s.rxBl k addr ts pdu = .ok (s', es) → LlcIn s' ∧ ∀ x ∈ es, SentIn x := by
      intro k hk
      unfold Llc.Llc.rxBl at hk
      split at hk
      · cases hk; exact ⟨h, by simp⟩
      · simp only [Res.bind_eq_ok] at hk
        obtain ⟨good, _, hk⟩ := hk
        split at hk
        · exact acceptBl_in h hk
        · cases hk; exact ⟨h, by simp⟩
    unfold Llc.Llc.unitdataInd at hs
    split at hs
    · cases hs; exact ⟨h, by simp⟩
    · cases hs; exact ⟨h, by simp⟩
    · cases hs
    · exact hrx _ hs
  | mac id d =>
    cases hs
    refine ⟨⟨fun m hm => ?_, h.udata⟩, by simp⟩
    obtain ⟨m0, hm0, rfl⟩ := List.mem_map.1 hm
    have : (m0.report id d).ts = m0.ts := by unfold Llc.Msg.report; split <;> rfl
    rw [this]; exact h.out m0 hm0
  | tickStart t => cases hs; exact ⟨⟨h.out, h.udata⟩, by simp⟩
  | tickEnd =>
    simp only [Llc.Llc.step, Llc.Llc.tickEnd, Llc.Llc.retransmit, Res.bind_eq_ok, Res.ok.injEq] at hs
    obtain ⟨r, ⟨d, h1, rfl⟩, h2⟩ := hs
    cases h2
    obtain ⟨d1, d2⟩ := dropAll_in (l' := d.1) (es := d.2) h1
    have hd : ∀ m ∈ d.1, Slot4 m.ts := by
      intro m hm
      have := d1 m hm
      simp only [List.map_map, List.mem_map, Function.comp] at this
      obtain ⟨m0, hm0, rfl⟩ := this
      exact (retry_in (h.out m0 hm0)).1
    obtain ⟨f1, f2⟩ := sendFree_in d.1 [] hd
    refine ⟨⟨f1, by simp⟩, fun x hx => ?_⟩
    simp only [List.mem_append] at hx
    rcases hx with (((hx | hx) | hx) | hx) | hx
    · simp only [List.map_map, List.mem_flatten, List.mem_map, Function.comp] at hx
      obtain ⟨_, ⟨m0, hm0, rfl⟩, hx⟩ := hx
      exact (retry_in (h.out m0 hm0)).2 x hx
    · exact d2 x hx
    · exact f2 x hx
    · obtain ⟨a, ha, rfl⟩ := List.mem_map.1 hx; trivial
    · obtain ⟨a, ha, rfl⟩ := List.mem_map.1 hx; exact h.udata a ha

/-! ## The queue -/

/-- What is queued is for, or from, a timeslot which exists. -/
def LetterIn : Letter → Prop
  | .frame _ ts _ => Slot4 ts
  | .mle (.dataInd _ _ ts _) => Slot4 ts
  | .mle (.lmm _ ts _ _) => Slot4 ts
  | .mle (.lcmc _ ts _ chan st sdu) => Slot4 ts ∧ Fits 54 st chan sdu
  | .mm _ _ ts _ => Slot4 ts
  | .cmce ts e => ((∃ ssi sdu, e = .mobile ssi sdu) → Slot4 ts) ∧ ∀ now cmds, e ≠ .tick now cmds
  | .tlData _ ts _ _ => Slot4 ts
  | .tlUnitdata v p => Slot4 v.ts ∧ Fits 57 v.steal v.chan p
  | _ => True

/-- What the events from outside must bring. -/
def EvIn : Ev → Prop
  | .frame _ ts _ => Slot4 ts
  | .tickStart now _ _ _ => Slot4 now.t
  | _ => True

theorem append_in {α : Type} {P : α → Prop} {q ls : List α} (hq : ∀ l ∈ q, P l) (hl : ∀ l ∈ ls, P l) : ∀ l ∈ q ++ ls, P l := by
  intro l h
  rcases List.mem_append.1 h with h | h
  · exact hq l h
  · exact hl l h

theorem ofLlc_in {ts : Nat} {es : List Llc.Emit} (h : Slot4 ts) : ∀ l ∈ es.filterMap (ofLlc ts), LetterIn l := by
  intro l hl
  rw [List.mem_filterMap] at hl
  obtain ⟨o, ho, hl⟩ := hl
  cases o <;> simp only [ofLlc] at hl <;> try cases hl
  rename_i acked _ _ _ _
  cases acked <;> cases hl
  · trivial
  · exact h

theorem mle_in {s s' : Mle} {m : Mle.In} {out : List Mle.Out} (h : s.rx m = .ok (s', out)) (hs : LetterIn (.mle m)) :
    ∀ l ∈ out.map ofMle, LetterIn l := by
  intro l hl
  cases m with
  | dataInd addr link ts sdu =>
    cases sdu with
    | none => cases h
    | some sdu =>
      simp only [Mle.Mle.rx, Mle.Mle.dataInd] at h
      split at h
      · cases h; cases hl
      · split at h
        · cases h; cases hl
        · rename_i d _
          cases d <;> simp only [Mle.Mle.dispatch, Res.bind_eq_ok] at h
          · obtain ⟨r, _, h⟩ := h
            cases h
            simp only [List.map_cons, List.map_nil, List.mem_singleton] at hl; subst hl; exact hs
          · obtain ⟨r, _, h⟩ := h
            cases h
            simp only [List.map_cons, List.map_nil, List.mem_singleton] at hl; subst hl; exact ⟨fun _ => hs, fun _ _ h => by cases h⟩
          · cases h
            simp only [List.map_cons, List.map_nil, List.mem_singleton] at hl; subst hl; trivial
          · cases h; cases hl
          · cases h; cases hl
  | unitdataInd => cases h
  | lmm addr ts service sdu =>
    simp only [Mle.Mle.rx, Mle.lmmReq, Res.bind_eq_ok] at h
    obtain ⟨o, h1, h2⟩ := h
    split at h1
    · cases h1
    · cases h1; cases h2
      simp only [List.map_cons, List.map_nil, List.mem_singleton] at hl
      subst hl; exact hs
  | lcmc addr ts service chan stealing sdu =>
    cases h
    unfold Mle.lcmcReq at hl
    split at hl <;> simp only [List.map_cons, List.map_nil, List.mem_singleton] at hl <;> subst hl
    · exact ⟨hs.1, fun h => ⟨(hs.2 h).1, by have := (hs.2 h).2; simp; omega⟩⟩
    · exact hs.1

theorem mle_tick_in {s s' : Mle} {now : Time} {clock : Mle.Clock} {out : List Mle.Out} (hn : Slot4 now.t) (h : s.tick now clock = .ok (s', out)) :
    ∀ l ∈ out.map ofMle, LetterIn l := by
  intro l hl
  rcases mle_tick h with rfl | ⟨bs, rfl⟩
  · cases hl
  · simp only [List.map_cons, List.map_nil, List.mem_singleton] at hl
    subst hl
    exact ⟨hn, fits_not _ _ _⟩

theorem ofMm_in {addr : Addr} {ts : Nat} (ht : Slot4 ts) {sdu : List Bool} {out : List MmOut} : ∀ l ∈ out.filterMap (ofMm addr ts sdu), LetterIn l := by
  intro l hl
  rw [List.mem_filterMap] at hl
  obtain ⟨o, h1, ho'⟩ := hl
  cases o <;> simp only [ofMm] at ho' <;> cases ho'
  case cmce => exact ⟨fun _ => ht, fun _ _ h => by cases h⟩
  case answer => exact ht

theorem stampOf_in {p : Stamp} {e : BsEv} (hm : (∃ ssi sdu, e = .mobile ssi sdu) → Slot4 p.msg) (hc : Slot4 p.clock)
    (ht : ∀ now cmds, e = .tick now cmds → Slot4 now.t) (o : BsOut) : Slot4 (stampOf p e o) := by
  cases e with
  | mobile ssi sdu =>
    simp only [stampOf]
    split
    · exact hm ⟨_, _, rfl⟩
    · exact hc
  | tick now cmds =>
    simp only [stampOf]
    split
    · exact ⟨by omega, by omega⟩
    · exact ht _ _ rfl
  | sdsFromBrew => exact ⟨Nat.le_refl 1, show 1 ≤ 4 by decide⟩
  | _ => exact hc

/-- What call control may have put into a stolen half slot. -/
def AirFits : BsOut → Prop
  | .air _ _ chan st sdu => Fits 54 st chan sdu
  | _ => True

theorem wBits_lt {v n : Nat} {b : List Bool} (h : Verif.Codec.wBits v n = .ok b) : v < 2 ^ n := by
  unfold Verif.Codec.wBits at h
  split at h
  · rename_i h'; exact h'.2
  · cases h

theorem txCeased_bits {id : Nat} {bs : List Bool} (h : (Cmce.dTxCeasedPdu id).enc = .ok bs) : bs.length = 21 := by
  have hid : id < 2 ^ 14 := by
    simp only [Cmce.dTxCeasedPdu, Cmce.Pdu.DTxCeased.enc, Verif.Codec.cat, Verif.Codec.Out.bind_eq_ok] at h
    obtain ⟨_, _, _, ⟨_, h1, _⟩, _⟩ := h
    exact wBits_lt h1
  rw [Umac.txCeased_enc id hid] at h
  cases h
  simp

theorem txGranted_bits {id speaker : Nat} {g : Cmce.TxGrant} {bs : List Bool} (h : (Cmce.dTxGrantedPdu id g speaker).enc = .ok bs) : bs.length = 54 := by
  have hid : id < 2 ^ 14 := by
    simp only [Cmce.dTxGrantedPdu, Cmce.Pdu.DTxGranted.enc, Verif.Codec.cat, Verif.Codec.Out.bind_eq_ok] at h
    obtain ⟨_, _, _, ⟨_, h1, _⟩, _⟩ := h
    exact wBits_lt h1
  have hsp : speaker < 2 ^ 24 := by
    simp only [Cmce.dTxGrantedPdu, Cmce.Pdu.DTxGranted.enc, Verif.Codec.cat, Verif.Codec.Out.bind_eq_ok] at h
    obtain ⟨_, _, _, ⟨_, _, _, ⟨_, _, _, ⟨_, _, _, ⟨_, _, _, ⟨_, _, _, ⟨_, h1, _⟩, _⟩, _⟩, _⟩, _⟩, _⟩, _⟩ := h
    replace h1 : Verif.Codec.cat [Verif.Codec.wFlag true, TypedFields.writeAll true (Cmce.Pdu.DTxGranted.fields2 ++ Cmce.Pdu.DTxGranted.fields34)
      (none, some ⟨1, some speaker, none⟩, none, none, none, none, ()), TypedFields.wEnd true] = _ := h1
    simp only [Verif.Codec.cat, Verif.Codec.Out.bind_eq_ok] at h1
    obtain ⟨_, _, _, ⟨_, h2, _⟩, _⟩ := h1
    replace h2 : (do
        let a ← TypedFields.wType2 true (Verif.Codec.wBits · 6) none
        let b ← (do
          let a ← TypedFields.wType2 true Cmce.Pdu.Calling.enc (some ⟨1, some speaker, none⟩)
          let b ← TypedFields.writeAll true Cmce.Pdu.DTxGranted.fields34 (none, none, none, none, ())
          pure (a ++ b))
        pure (a ++ b)) = _ := h2
    simp only [Verif.Codec.Out.bind_eq_ok] at h2
    obtain ⟨_, _, _, ⟨_, h3, _⟩, _⟩ := h2
    simp only [TypedFields.wType2, if_true, Verif.Codec.cat, Cmce.Pdu.Calling.enc, Verif.Codec.Out.bind_eq_ok] at h3
    obtain ⟨_, _, _, ⟨_, ⟨_, _, _, ⟨_, h4, _⟩, _⟩, _⟩, _⟩ := h3
    exact wBits_lt h4
  obtain ⟨b, h1, h2⟩ := Umac.txGranted_enc id speaker g hid hsp
  rw [h1] at h
  cases h
  exact h2

theorem wire_fits {a : Cmce.Asked} {o : CcOut} {b : BsOut} (h : o.wire a = .ok b) : AirFits b := by
  have ex : ∀ {x : Verif.Codec.Out (List Bool)} {bs : List Bool}, Cmce.expectBits x = .ok bs → x = .ok bs := by
    intro x bs h
    cases x <;> cases h
    rfl
  cases o <;> simp only [Cmce.CcOut.wire, Res.bind_eq_ok, Res.ok.injEq] at h
  case dTxCeased =>
    obtain ⟨bs, h1, rfl⟩ := h
    exact fun _ => ⟨rfl, by rw [txCeased_bits (ex h1)]; decide⟩
  case dTxGranted =>
    obtain ⟨bs, h1, rfl⟩ := h
    exact fun _ => ⟨rfl, by rw [txGranted_bits (ex h1)]; exact Nat.le_refl _⟩
  all_goals first | (obtain ⟨bs, _, rfl⟩ := h; exact fits_not _ _ _) | (subst h; trivial)

theorem wireAll_fits {asked : Verif.Assoc Nat Cmce.Asked} : ∀ {l : List CcOut} {out : List BsOut}, Cmce.wireAll asked l = .ok out → ∀ b ∈ out, AirFits b
  | [], _, h => by cases h; simp
  | o :: l, out, h => by
    simp only [Cmce.wireAll, Res.bind_eq_ok, Res.ok.injEq] at h
    obtain ⟨b, h1, bs, h2, rfl⟩ := h
    intro x hx
    rcases List.mem_cons.1 hx with rfl | hx
    · exact wire_fits h1
    · exact wireAll_fits h2 x hx

theorem sds_fits (l : List Cmce.SdsOut) : ∀ b ∈ l.map Cmce.SdsOut.wire, AirFits b := by
  intro b hb
  obtain ⟨o, _, rfl⟩ := List.mem_map.1 hb
  cases o
  · exact fits_not _ _ _
  · trivial

theorem controls_fits {v : SdsView} : ∀ {l : List Control} {out : List BsOut}, Cmce.controls v l = .ok out → ∀ b ∈ out, AirFits b
  | [], _, h => by cases h; simp
  | .sendSds c :: l, out, h => by
    simp only [Cmce.controls, Res.bind_eq_ok, Res.ok.injEq] at h
    obtain ⟨r, _, bs, h2, rfl⟩ := h
    intro x hx
    rcases List.mem_append.1 hx with hx | hx
    · exact sds_fits _ x hx
    · rcases List.mem_cons.1 hx with rfl | hx
      · trivial
      · exact controls_fits h2 x hx
  | .other :: _, _, h => by cases h

theorem call_fits {s s' : Bs} {c : CcEv} {a : Cmce.Asked} {out : List BsOut} (h : s.call c a = .ok (s', out)) : ∀ b ∈ out, AirFits b := by
  simp only [Bs.call, Res.bind_eq_ok, Res.ok.injEq] at h
  obtain ⟨q, _, bs, h2, e⟩ := h
  cases e
  exact wireAll_fits h2

theorem bs_fits {s s' : Bs} {v : SdsView} {e : BsEv} {out : List BsOut} (h : s.step v e = .ok (s', out)) : ∀ b ∈ out, AirFits b := by
  cases e with
  | tick now cmds =>
    obtain ⟨r, hr, h⟩ := Res.bind_eq_ok.1 h
    obtain ⟨o, ho, h⟩ := Res.bind_eq_ok.1 h
    cases h
    intro b hb
    rcases List.mem_append.1 hb with hb | hb
    · exact call_fits (s' := r.1) (out := r.2) hr b hb
    · exact controls_fits ho b hb
  | mobile ssi sdu =>
    obtain ⟨u, _, h⟩ := Res.bind_eq_ok.1 h
    cases u with
    | call c a => exact call_fits h
    | ignored => cases h; simp
    | status => obtain ⟨o, _, h⟩ := Res.bind_eq_ok.1 h; cases h; exact sds_fits _
    | sds => obtain ⟨o, _, h⟩ := Res.bind_eq_ok.1 h; cases h; exact sds_fits _
  | sdsFromBrew => obtain ⟨o, _, h⟩ := Res.bind_eq_ok.1 h; cases h; exact sds_fits _
  | update => exact call_fits h
  | netStart => exact call_fits h
  | netEnd => exact call_fits h
  | inactive => exact call_fits h

theorem ofBs_in {f : BsOut → Nat} {out : List BsOut} (h : ∀ o, Slot4 (f o)) (hf : ∀ o ∈ out, AirFits o) : ∀ l ∈ out.filterMap (ofBs f), LetterIn l := by
  intro l hl
  rw [List.mem_filterMap] at hl
  obtain ⟨o, h1, ho⟩ := hl
  have := hf o h1
  cases o <;> simp only [ofBs] at ho <;> cases ho
  exact ⟨h _, this⟩

/-! ## The clock of call control -/

theorem cc_now {s s' : Cmce.Cc} (hi : CcInv s) {e : CcEv} {o : List CcOut} (h : s.step e = .ok (s', o)) :
    s'.now = s.now ∨ ∃ now, e = .tick now ∧ s'.now = now := by
  cases (Cmce.step_ok hi h).2 with
  | tick _ p1 p2 =>
    refine .inr ⟨_, rfl, ?_⟩
    rw [p2.now.1]
    exact p1.now.1
  | update hp => exact .inl hp.now.1
  | other _ _ hp => exact .inl hp.now.1

theorem bs_now {s s' : Bs} (hi : CcInv s.cc) {v : SdsView} {e : BsEv} {out : List BsOut}
    (hs : s.step v e = .ok (s', out)) : CcInv s'.cc ∧ (s'.cc.now = s.cc.now ∨ ∃ now cmds, e = .tick now cmds ∧ s'.cc.now = now) := by
  rcases Cmce.step_cases hs with ⟨c, o1, o2, h1, h2, rfl, h3⟩ | ⟨h1, h2, h3⟩
  · simp only [Bs.call, Res.bind_eq_ok, Res.ok.injEq] at h2
    obtain ⟨q, h4, bs, _, e2⟩ := h2
    cases e2
    refine ⟨hi.shape (Cmce.step_ok (s' := q.1) (o := q.2) hi h4).2, ?_⟩
    rcases cc_now (s' := q.1) (o := q.2) hi h4 with h5 | ⟨now, rfl, h5⟩
    · exact .inl h5
    · cases e with
      | tick now' cmds => cases h1; exact .inr ⟨_, _, rfl, h5⟩
      | mobile ssi sdu => rcases h1 with ⟨_, _, _, _, _, h⟩ | ⟨_, _, _, h⟩ | ⟨_, _, _, h⟩ | ⟨_, _, _, h⟩ | ⟨_, _, _, h⟩ <;> cases h
      | sdsFromBrew => cases h1
      | _ => cases h1
  · exact ⟨by rw [h2]; exact hi, .inl (by rw [h2])⟩

/-! ## Histories -/

/-- What is kept. -/
structure StIn (tr : List Call) (s : St) : Prop where
  queue : ∀ l ∈ s.queue, LetterIn l
  llc : LlcIn s.llc
  inv : CcInv s.bs.cc
  clock : Slot4 s.bs.cc.now.t
  sent : ∀ o, .out o ∈ llcTrace tr → SentIn o

theorem StIn.congr {tr : List Call} {s s' : St} (h : StIn tr s) (hq : ∀ l ∈ s'.queue, LetterIn l) (h1 : s'.llc = s.llc)
    (h3 : s'.bs = s.bs) : StIn tr s' := ⟨hq, h1 ▸ h.llc, h3 ▸ h.inv, h3 ▸ h.clock, h.sent⟩

theorem StIn.callLlc {tr k : List Call} {s s' : St} {ts : Nat} {e : Llc.Ev} (h : StIn tr s) (he : AskedIn e)
    (ht : Slot4 ts ∨ ∀ a t p, e ≠ .ind a t p) (hk : s.callLlc ts e = .ok (s', k)) : StIn (tr ++ k) s' := by
  obtain ⟨l, es, h1, rfl, rfl⟩ := callLlc_ok hk
  obtain ⟨h2, h3⟩ := llc_in h.llc he h1
  have hq : ∀ l ∈ es.filterMap (ofLlc ts), LetterIn l := by
    rcases ht with ht | ht
    · exact ofLlc_in ht
    · rw [quiet_up h1 ht ts]; simp
  refine ⟨append_in h.queue hq, h2, h.inv, h.clock, fun o ho => ?_⟩
  rw [llcTrace_append] at ho
  rcases List.mem_append.1 ho with ho | ho
  · exact h.sent o ho
  · simp [llcTrace] at ho; exact h3 o ho

theorem StIn.callMle {tr k : List Call} {s s' : St} {m : Mle.In} (h : StIn tr s) (hm : LetterIn (.mle m))
    (hk : s.callMle m = .ok (s', k)) : StIn (tr ++ k) s' := by
  obtain ⟨l, es, h1, rfl, rfl⟩ := callMle_ok hk
  refine ⟨append_in h.queue (mle_in h1 hm), h.llc, h.inv, h.clock, fun o ho => h.sent o ?_⟩
  rw [llcTrace_append] at ho
  simpa [llcTrace] using ho

theorem StIn.callMm {c : Cfg} {tr k : List Call} {s s' : St} {handle : Nat} {addr : Addr} {ts : Nat} {sdu : List Bool} (h : StIn tr s)
    (ha : Slot4 ts) (hk : s.callMm c handle addr ts sdu = .ok (s', k)) : StIn (tr ++ k) s' := by
  obtain ⟨l, es, h1, rfl, rfl⟩ := callMm_ok hk
  refine ⟨append_in h.queue (ofMm_in ha), h.llc, h.inv, h.clock, fun o ho => h.sent o ?_⟩
  rw [llcTrace_append] at ho
  simpa [llcTrace] using ho

theorem StIn.callBs {c : Cfg} {tr k : List Call} {s s' : St} {ts : Nat} {e : BsEv} (h : StIn tr s)
    (hm : (∃ ssi sdu, e = .mobile ssi sdu) → Slot4 ts) (ht : ∀ now cmds, e = .tick now cmds → Slot4 now.t)
    (hk : s.callBs c ts e = .ok (s', k)) : StIn (tr ++ k) s' := by
  obtain ⟨l, es, h1, rfl, rfl⟩ := callBs_ok hk
  obtain ⟨h2, h3⟩ := bs_now h.inv h1
  refine ⟨append_in h.queue (ofBs_in (stampOf_in hm h.clock ht) (bs_fits h1)), h.llc, h2, ?_, fun o ho => h.sent o ?_⟩
  · show Slot4 l.cc.now.t
    rcases h3 with h3 | ⟨now, cmds, h4, h3⟩
    · rw [h3]; exact h.clock
    · rw [h3]; exact ht _ _ h4
  · rw [llcTrace_append] at ho
    simpa [llcTrace] using ho

theorem StIn.tickMle {tr k : List Call} {s s' : St} {now : Time} {clock : Mle.Clock} (h : StIn tr s) (hn : Slot4 now.t)
    (hk : s.tickMle now clock = .ok (s', k)) : StIn (tr ++ k) s' := by
  obtain ⟨l, es, h1, rfl, rfl⟩ := tickMle_ok hk
  refine ⟨append_in h.queue (mle_tick_in hn h1), h.llc, h.inv, h.clock, fun o ho => h.sent o ?_⟩
  rw [llcTrace_append] at ho
  simpa [llcTrace] using ho

theorem st_in {c : Cfg} {evs : List Ev} {tr : List Call} {s : St} (h : Run c evs tr s) (he : ∀ e ∈ evs, EvIn e) : StIn tr s := by
  induction h with
  | init => exact ⟨by simp [St.init], ⟨by simp [St.init, Llc.Llc.init], by simp [St.init, Llc.Llc.init]⟩,
      Cmce.ccInv_init _, show Slot4 Time.default.t from ⟨by decide, by decide⟩, by simp [llcTrace]⟩
  | reorder _ hr ih =>
    have hi := ih he
    exact ⟨hi.queue, hi.llc, hi.inv.reordered hr, by obtain ⟨_, _, _, _, rfl⟩ := hr; exact hi.clock, hi.sent⟩
  | @step evs tr calls s s' e _ hs ih =>
    have hi := ih fun x hx => he x (List.mem_append_left _ hx)
    have hse : EvIn e := he e (by simp)
    cases e with
    | frame addr ts pdu =>
      cases hs
      rw [List.append_nil]
      exact hi.congr (append_in hi.queue (by intro l hl; simp only [List.mem_singleton] at hl; subst hl; exact hse)) rfl rfl
    | toCmce ts e =>
      cases hs
      rw [List.append_nil]
      exact hi.congr (append_in hi.queue (by
        intro l hl; simp only [List.mem_singleton] at hl; subst hl; exact ⟨(by rintro ⟨ssi, sdu, h⟩; cases e <;> cases h), (by intro n k h; cases e <;> cases h)⟩)) rfl rfl
    | deliver =>
      simp only [St.step] at hs
      split at hs
      · cases hs; rw [List.append_nil]; exact hi
      · rename_i l q hq
        have hl : LetterIn l := hi.queue l (by rw [hq]; simp)
        have ih' : StIn tr { s with queue := q } :=
          hi.congr (fun x hx => hi.queue x (by rw [hq]; exact List.mem_cons_of_mem _ hx)) rfl rfl
        cases l with
        | frame addr ts pdu => exact ih'.callLlc (e := .ind addr ts pdu) trivial (.inl hl) hs
        | mle m => exact ih'.callMle hl hs
        | mm handle addr ts sdu => exact ih'.callMm hl hs
        | cmce ts e =>
          exact ih'.callBs hl.1 (fun now cmds h => (hl.2 now cmds h).elim) hs
        | sndcp => cases hs
        | tlData addr ts st sdu => exact ih'.callLlc (e := .dataReq addr ts st false true sdu) hl (.inr fun _ _ _ h => by cases h) hs
        | tlUnitdata v sdu => exact ih'.callLlc (e := .unitdataReq v sdu) hl (.inr fun _ _ _ h => by cases h) hs
    | tickStart now cmds clock b =>
      simp only [St.step] at hs
      obtain ⟨s1, k1, k2, h1, h2, rfl⟩ := andThen_ok hs
      rw [← List.append_assoc]
      have i1 := hi.callLlc (e := .tickStart now) trivial (.inr fun _ _ _ h => by cases h) h1
      have hb : ∀ n cs, BsEv.tick now cmds = .tick n cs → Slot4 n.t := by intro n cs h; cases h; exact hse
      have hb' : (∃ ssi sdu, BsEv.tick now cmds = .mobile ssi sdu) → Slot4 now.t := fun _ => hse
      split at h2
      · obtain ⟨s2, k3, k4, h3, h4, rfl⟩ := andThen_ok h2
        rw [← List.append_assoc]
        exact (i1.tickMle hse h3).callBs (by rintro ⟨_, _, h⟩; cases h) hb h4
      · obtain ⟨s2, k3, k4, h3, h4, rfl⟩ := andThen_ok h2
        rw [← List.append_assoc]
        exact (i1.callBs (by rintro ⟨_, _, h⟩; cases h) hb h3).tickMle hse h4
    | tickEnd => exact hi.callLlc (e := .tickEnd) trivial (.inr fun _ _ _ h => by cases h) hs
    | mac id d => exact hi.callLlc (e := .mac id d) trivial (.inr fun _ _ _ h => by cases h) hs

end Verif.Sig
