import Verif.Sig.Parts
import Verif.Mm.MmProps
/-!
# What aborts the signalling stack, and that it always gets to the end of its queue

Property C71, and the second half of C70.
-/
namespace Verif.Sig
open Verif.Tdma Verif.Bits
open Verif.Umac (Addr SsiType)
open Verif.Cmce (BsEv BsOut Bs BsRun CcOut Party Service SdsView SubUpdate Control)
open Verif.Mm (Mm MmIn MmOut MmRun)
open Verif.Mle (Mle)
open Verif.Llc (Llc)
open Verif.TypedFields (BadElement)
open Verif.Cmce.Pdu (HasStatus31743)

/-! ## Specification -/

/-- The router delivers `n` messages. -/
def St.delivers (c : Cfg) : Nat → St → Res St
  | 0, s => .ok s
  | n + 1, s => do
    let r ← s.step c .deliver
    r.1.delivers c n

/-- Frames which abort the base station whatever its state. -/
inductive Fatal : List Bool → Prop where
  /-- LLC types 13 and 14 (llc_bs_ms.rs:407-409) -/
  | type13 (r : List Bool) : Fatal ([true, true, false, true] ++ r)
  | type14 (r : List Bool) : Fatal ([true, true, true, false] ++ r)
  /-- an FCS of nothing (fcs.rs) -/
  | bareAdata (nr ns : Bool) (fcs : List Bool) : fcs.length = 32 → Fatal ([false, true, false, false, nr, ns] ++ fcs)
  | bareData (ns : Bool) (fcs : List Bool) : fcs.length = 32 → Fatal ([false, true, false, true, ns] ++ fcs)
  | bareUdata (fcs : List Bool) : fcs.length = 32 → Fatal ([false, true, true, false] ++ fcs)
  | bareAck (nr : Bool) (fcs : List Bool) : fcs.length = 32 → Fatal ([false, true, true, true, nr] ++ fcs)
  /-- BL-UDATA (mle_bs.rs:100-103) -/
  | unitdata (sdu : List Bool) : Fatal ([false, false, true, false] ++ sdu)
  | unitdataFcs (bits : List Bool) : EndsWithFcs bits → Fatal ([false, true, true, false] ++ bits)
  /-- BL-DATA and BL-ADATA without an SDU (mle_bs.rs:113) -/
  | emptyData (ns : Bool) : Fatal [false, false, false, true, ns]
  | emptyAdata (nr ns : Bool) : Fatal [false, false, false, false, nr, ns]
  /-- packet data (mle_bs.rs:156-168, cmce_bs.rs:119-121) -/
  | packet {pdu msg : List Bool} : Carries pdu 4 msg → Fatal pdu
  /-- a message of mobility management or of call control whose reader aborts: it has a broken element (C53), or is a status message of
  value 31743 (C57) -/
  | mm {pdu msg : List Bool} : Carries pdu 1 msg → Mm.Breaks msg → Fatal pdu
  | cmce {pdu msg : List Bool} : Carries pdu 2 msg → Cmce.Breaks msg → Fatal pdu

/-- Events which abort call control. -/
def Harmful : BsEv → Prop
  | .mobile _ sdu => Cmce.Breaks sdu
  | e => Cmce.Culprit e

/-- Events which do no harm: frames of stations which are not fatal; from the backhaul calls of groups which go over
it and short data which can be written; commands which are known and can be carried out; and no transmission is discarded. -/
def Ev.Fine (c : Cfg) : Ev → Prop
  | .frame addr _ pdu => addr.ssi < 2 ^ 24 ∧ addr.ssiType ≠ .gssi ∧ ¬ Fatal pdu
  | .toCmce _ e => e.ev.Sane (Brew.gssiRoutable c.brew) ∧ ¬ Harmful e.ev
  | .tickStart now cmds _ _ => ¬ Harmful (.tick now cmds)
  | .mac _ discarded => discarded = false
  | _ => True

/-! ## The queue gets empty -/

/-- How many deliveries a message can lead to. -/
def level : Letter → Nat
  | .frame .. => 6
  | .mle (.dataInd ..) => 5
  | .mle (.unitdataInd ..) => 5
  | .mm .. => 4
  | .cmce .. => 3
  | .sndcp .. => 3
  | .mle (.lmm ..) => 2
  | .mle (.lcmc ..) => 2
  | .tlData .. => 1
  | .tlUnitdata .. => 1

theorem level_pos (l : Letter) : 0 < level l := by
  cases l with
  | mle m => cases m <;> simp [level]
  | _ => simp [level]

theorem mle_level {s s' : Mle} {m : Mle.In} {out : List Mle.Out} (h : s.rx m = .ok (s', out)) : ∀ l ∈ out.map ofMle, level l < level (.mle m) := by
  intro l hl
  cases m with
  | dataInd addr link ts sdu =>
    rw [List.mem_map] at hl
    obtain ⟨o, _, rfl⟩ := hl
    cases o <;> simp [ofMle, level]
  | unitdataInd => cases h
  | lmm addr ts service sdu =>
    simp only [Mle.Mle.rx, Mle.lmmReq, Res.bind_eq_ok] at h
    obtain ⟨o, h1, h2⟩ := h
    split at h1
    · cases h1
    · cases h1; cases h2
      simp only [List.map_cons, List.map_nil, List.mem_singleton] at hl
      subst hl; simp [ofMle, level]
  | lcmc addr ts service chan stealing sdu =>
    cases h
    unfold Mle.lcmcReq at hl
    split at hl <;>
    · simp only [List.map_cons, List.map_nil, List.mem_singleton] at hl
      subst hl; simp [ofMle, level]

/-- A delivery appends messages of a lower level. -/
theorem handle_level {c : Cfg} {s s' : St} {l : Letter} {k : List Call} (h : s.handle c l = .ok (s', k)) :
    ∃ ls, s'.queue = s.queue ++ ls ∧ ∀ x ∈ ls, level x < level l := by
  have quiet : ∀ {ts e}, s.callLlc ts e = .ok (s', k) → (∀ a t p, e ≠ .ind a t p) → ∃ ls, s'.queue = s.queue ++ ls ∧ ∀ x ∈ ls, level x < level l := by
    intro ts e h he
    obtain ⟨l', es, h1, rfl, rfl⟩ := callLlc_ok h
    refine ⟨_, rfl, ?_⟩
    rw [quiet_up h1 he]; simp
  cases l with
  | frame addr ts pdu =>
    obtain ⟨l', es, h1, rfl, rfl⟩ := callLlc_ok h
    refine ⟨_, rfl, ?_⟩
    intro x hx
    rw [List.mem_filterMap] at hx
    obtain ⟨o, _, ho⟩ := hx
    cases o with
    | up a => cases a <;> simp [ofLlc] at ho <;> subst ho <;> simp [level]
    | _ => simp [ofLlc] at ho
  | mle m =>
    obtain ⟨l', es, h1, rfl, rfl⟩ := callMle_ok h
    exact ⟨_, rfl, mle_level h1⟩
  | mm handle addr ts sdu =>
    obtain ⟨l', es, h1, rfl, rfl⟩ := callMm_ok h
    refine ⟨_, rfl, ?_⟩
    intro x hx
    rw [List.mem_filterMap] at hx
    obtain ⟨o, _, ho⟩ := hx
    cases o <;> simp [ofMm] at ho <;> subst ho <;> simp [level]
  | cmce ts e =>
    obtain ⟨l', es, h1, rfl, rfl⟩ := callBs_ok h
    refine ⟨_, rfl, ?_⟩
    intro x hx
    rw [List.mem_filterMap] at hx
    obtain ⟨o, _, ho⟩ := hx
    cases o <;> simp [ofBs] at ho <;> subst ho <;> simp [level]
  | sndcp => cases h
  | tlData => exact quiet h (by simp)
  | tlUnitdata => exact quiet h (by simp)

theorem deliver_cons {c : Cfg} {s : St} {l : Letter} {q : List Letter} (h : s.queue = l :: q) :
    s.step c .deliver = { s with queue := q }.handle c l := by
  simp only [St.step]
  split
  · rename_i h'; rw [h'] at h; cases h
  · rename_i l' q' h'; rw [h'] at h; cases h; rfl

theorem delivers_add {c : Cfg} {s s1 : St} {n : Nat} (h : s.delivers c n = .ok s1) (m : Nat) : s.delivers c (n + m) = s1.delivers c m := by
  induction n generalizing s with
  | zero => cases h; simp
  | succ n ih =>
    simp only [St.delivers, Res.bind_eq_ok] at h
    obtain ⟨r, h1, h2⟩ := h
    rw [show n + 1 + m = (n + m) + 1 by omega]
    simp only [St.delivers, h1, Res.bind_ok]
    exact ih h2

theorem delivers_succ {c : Cfg} {s s1 : St} {k : List Call} (h : s.step c .deliver = .ok (s1, k)) (n : Nat) :
    s.delivers c (n + 1) = s1.delivers c n := by simp [St.delivers, h]

/-- One pass over the queue. -/
theorem pass {c : Cfg} {m : Nat} (a b : List Letter) {s : St} (hq : s.queue = a ++ b) (ha : ∀ l ∈ a, level l ≤ m + 1) (hb : ∀ l ∈ b, level l ≤ m) :
    ∃ n, s.delivers c n = .panic ∨ ∃ s', s.delivers c n = .ok s' ∧ ∀ l ∈ s'.queue, level l ≤ m := by
  induction a generalizing b s with
  | nil => exact ⟨0, .inr ⟨s, rfl, by rw [hq]; simpa using hb⟩⟩
  | cons l a ih =>
    have hd := deliver_cons (c := c) (by rw [hq]; rfl : s.queue = l :: (a ++ b))
    cases hs : s.step c .deliver with
    | panic => exact ⟨1, .inl (by simp [St.delivers, hs])⟩
    | ok r =>
      obtain ⟨s1, k⟩ := r
      rw [hd] at hs
      obtain ⟨ls, h1, h2⟩ := handle_level hs
      obtain ⟨n, hn⟩ := ih (b ++ ls) (s := s1) (by rw [h1, List.append_assoc]) (fun x hx => ha x (List.mem_cons_of_mem _ hx)) (by
        intro x hx
        rcases List.mem_append.1 hx with hx | hx
        · exact hb x hx
        · have := h2 x hx; have := ha l (by simp); omega)
      refine ⟨n + 1, ?_⟩
      rw [delivers_succ (by rw [hd]; exact hs)]
      exact hn

theorem drains {c : Cfg} (m : Nat) {s : St} (hq : ∀ l ∈ s.queue, level l ≤ m) :
    ∃ n, s.delivers c n = .panic ∨ ∃ s', s.delivers c n = .ok s' ∧ s'.queue = [] := by
  induction m generalizing s with
  | zero =>
    refine ⟨0, .inr ⟨s, rfl, ?_⟩⟩
    cases hs : s.queue with
    | nil => rfl
    | cons l q =>
      have := hq l (by rw [hs]; simp)
      have := level_pos l
      omega
  | succ m ih =>
    obtain ⟨n, hn | ⟨s1, h1, h2⟩⟩ := pass (c := c) (m := m) s.queue [] (s := s) (by simp) hq (by simp)
    · exact ⟨n, .inl hn⟩
    · obtain ⟨n', hn'⟩ := ih h2
      refine ⟨n + n', ?_⟩
      rw [delivers_add h1]
      exact hn'

/-- From every state the router gets to the end of its queue in finitely many deliveries, unless an entity aborts. -/
theorem c70_drains (c : Cfg) (s : St) : ∃ n, s.delivers c n = .panic ∨ ∃ s', s.delivers c n = .ok s' ∧ s'.queue = [] := by
  refine drains 6 fun l _ => ?_
  cases l with
  | mle m => cases m <;> simp [level]
  | _ => simp [level]

theorem run_delivers {c : Cfg} {evs : List Ev} {tr : List Call} {s : St} (h : Run c evs tr s) {n : Nat} {s' : St}
    (hn : s.delivers c n = .ok s') : ∃ tr', Run c (evs ++ List.replicate n .deliver) tr' s' := by
  induction n generalizing evs tr s with
  | zero => cases hn; exact ⟨tr, by simpa using h⟩
  | succ n ih =>
    simp only [St.delivers, Res.bind_eq_ok] at hn
    obtain ⟨r, h1, h2⟩ := hn
    obtain ⟨tr', h3⟩ := ih (.step h (s' := r.1) (calls := r.2) h1) h2
    exact ⟨tr', by simpa [List.replicate_succ] using h3⟩

/-! ## No other aborts -/

/-- What is queued in histories without harmful events. -/
def Letter.Fine (c : Cfg) : Letter → Prop
  | .frame addr _ pdu => addr.ssiType ≠ .gssi ∧ ¬ Fatal pdu
  | .mle (.dataInd addr _ _ sdu) => addr.ssiType ≠ .gssi ∧ ∃ bits, sdu = some bits ∧ ∀ d msg, splitSdu bits = some (d, msg) →
      d ≠ 4 ∧ (d = 1 → ¬ Mm.Breaks msg) ∧ (d = 2 → ¬ Cmce.Breaks msg)
  | .mle (.unitdataInd ..) => False
  | .mle (.lmm addr _ service _) => addr.ssiType ≠ .gssi ∧ service ≠ .unacknowledged
  | .mle (.lcmc addr _ service _ stealing _) => service ≠ .unacknowledged → stealing = false ∧ addr.ssiType ≠ .gssi
  | .mm _ addr _ sdu => addr.ssiType ≠ .gssi ∧ ¬ Mm.Breaks sdu
  | .cmce _ e => ¬ Harmful e
  | .sndcp .. => False
  | .tlData addr _ stealing _ => stealing = false ∧ addr.ssiType ≠ .gssi
  | .tlUnitdata .. => True

theorem kind_other {pdu : List Bool} (h : Llc.kindOf pdu = some .other) : Fatal pdu := by
  unfold Llc.kindOf at h
  split at h <;> try cases h
  · exact .type13 _
  · exact .type14 _

theorem head_short {type : Nat} {bs : List Bool} (h : bs.length < 4) : (Llc.rdHead type).run bs = .err := by
  match bs, h with
  | [], _ => simp [Llc.rdHead, Codec.Rd.bits]
  | [a], _ => cases a <;> simp [Llc.rdHead, Codec.Rd.bits, Codec.Rd.flag, ofBits]
  | [a, b], _ => cases a <;> simp [Llc.rdHead, Codec.Rd.bits, Codec.Rd.flag, ofBits]
  | [a, b, c], _ => cases a <;> simp [Llc.rdHead, Codec.Rd.bits, Codec.Rd.flag, ofBits]

theorem parse_long {k : Llc.Kind} {pdu : List Bool} {q : Bool × Option Bool × Option Bool × List Bool} (h : Llc.parseBl k pdu = some q) :
    ∃ a b c d r, pdu = a :: b :: c :: d :: r := by
  match pdu with
  | a :: b :: c :: d :: r => exact ⟨a, b, c, d, r, rfl⟩
  | [] => cases k <;> simp [Llc.parseBl, Llc.BlAdata.dec, Llc.BlData.dec, Llc.BlUdata.dec, Llc.BlAck.dec, head_short] at h
  | [_] => cases k <;> simp [Llc.parseBl, Llc.BlAdata.dec, Llc.BlData.dec, Llc.BlUdata.dec, Llc.BlAck.dec, head_short] at h
  | [_, _] => cases k <;> simp [Llc.parseBl, Llc.BlAdata.dec, Llc.BlData.dec, Llc.BlUdata.dec, Llc.BlAck.dec, head_short] at h
  | [_, _, _] => cases k <;> simp [Llc.parseBl, Llc.BlAdata.dec, Llc.BlData.dec, Llc.BlUdata.dec, Llc.BlAck.dec, head_short] at h

theorem bare_fatal {k : Llc.Kind} {pdu body : List Bool} {ns nr : Option Bool}
    (h : Llc.parseBl k pdu = some (true, ns, nr, body)) (hl : body.length = 32) : Fatal pdu := by
  obtain ⟨a, b, c, d, r, rfl⟩ := parse_long h
  cases k with
  | adata =>
    cases a <;> cases c <;> cases d <;> simp [Llc.parseBl, Llc.BlAdata.dec, Llc.rdHead_run] at h
    rcases r with _ | ⟨x, _ | ⟨y, r⟩⟩ <;> simp [Codec.Rd.flag] at h
    obtain ⟨rfl, _, _, rfl⟩ := h
    exact .bareAdata _ _ _ hl
  | data =>
    cases a <;> cases c <;> cases d <;> simp [Llc.parseBl, Llc.BlData.dec, Llc.rdHead_run] at h
    rcases r with _ | ⟨x, r⟩ <;> simp [Codec.Rd.flag] at h
    obtain ⟨rfl, _, _, rfl⟩ := h
    exact .bareData _ _ hl
  | udata =>
    cases a <;> cases c <;> cases d <;> simp [Llc.parseBl, Llc.BlUdata.dec, Llc.rdHead_run] at h
    obtain ⟨rfl, _, _, rfl⟩ := h
    exact .bareUdata _ hl
  | ack =>
    cases a <;> cases c <;> cases d <;> simp [Llc.parseBl, Llc.BlAck.dec, Llc.rdHead_run] at h
    rcases r with _ | ⟨x, r⟩ <;> simp [Codec.Rd.flag] at h
    obtain ⟨rfl, _, _, rfl⟩ := h
    exact .bareAck _ _ hl
  | _ => simp [Llc.parseBl] at h

theorem benign_frame {pdu : List Bool} (h : ¬ Fatal pdu) (addr : Addr) (ts : Nat) : (Llc.Ev.ind addr ts pdu).benign :=
  ⟨fun hk => h (kind_other hk), fun _ _ _ _ hp hl => h (bare_fatal hp hl)⟩

theorem unitdata_fatal {pdu sdu : List Bool} (h : unitdata pdu = some sdu) : Fatal pdu := by
  unfold unitdata at h
  split at h
  · exact .unitdata _
  · split at h
    · exact .unitdataFcs _ ((endsFcs_iff _).1 ‹_›)
    · cases h
  · cases h

/-- What the LLC pushes for a harmless frame is harmless. -/
theorem upward_fine {c : Cfg} {addr : Addr} {pdu : List Bool} (ha : addr.ssiType ≠ .gssi) (hf : ¬ Fatal pdu) (ts : Nat) :
    ∀ l ∈ upward addr ts pdu ++ upwardU addr ts pdu, l.Fine c := by
  intro l hl
  rcases List.mem_append.1 hl with hl | hl
  · unfold upward at hl
    split at hl
    · rename_i sdu hsdu
      simp only [List.mem_singleton] at hl
      subst hl
      refine ⟨ha, sdu, ?_, ?_⟩
      · rw [if_neg]
        rintro rfl
        rw [sduOf_iff] at hsdu
        cases hsdu with
        | data => exact hf (.emptyData _)
        | adata => exact hf (.emptyAdata _ _)
        | dataFcs _ _ h => obtain ⟨d, h1, h2⟩ := h; simp at h2; exact h1 h2.1
        | adataFcs _ _ _ h => obtain ⟨d, h1, h2⟩ := h; simp at h2; exact h1 h2.1
      · intro d msg hd
        have hc : Carries pdu d msg := (carries_iff _ _ _).1 (by rw [hsdu]; exact hd)
        refine ⟨?_, ?_, ?_⟩
        · rintro rfl; exact hf (.packet hc)
        · rintro rfl hb; exact hf (.mm hc hb)
        · rintro rfl hb; exact hf (.cmce hc hb)
    · cases hl
  · unfold upwardU at hl
    split at hl
    · rename_i sdu hsdu; exact (hf (unitdata_fatal hsdu)).elim
    · cases hl

/-- What MLE pushes for a harmless message is harmless. -/
theorem mle_fine {c : Cfg} {s s' : Mle} {m : Mle.In} {out : List Mle.Out} (h : s.rx m = .ok (s', out)) (hf : (Letter.mle m).Fine c) :
    ∀ l ∈ out.map ofMle, l.Fine c := by
  intro l hl
  cases m with
  | unitdataInd => cases h
  | lmm addr ts service sdu =>
    simp only [Mle.Mle.rx, Mle.lmmReq, Res.bind_eq_ok] at h
    obtain ⟨o, h1, h2⟩ := h
    split at h1
    · cases h1
    · cases h1; cases h2
      simp only [List.map_cons, List.map_nil, List.mem_singleton] at hl
      subst hl; exact ⟨rfl, hf.1⟩
  | lcmc addr ts service chan stealing sdu =>
    cases h
    unfold Mle.lcmcReq at hl
    split at hl
    · simp only [List.map_cons, List.map_nil, List.mem_singleton] at hl
      subst hl; trivial
    · rename_i hu
      simp only [List.map_cons, List.map_nil, List.mem_singleton] at hl
      subst hl; exact hf hu
  | dataInd addr link ts sdu =>
    obtain ⟨ha, bits, rfl, hb⟩ := hf
    simp only [Mle.Mle.rx, Mle.Mle.dataInd] at h
    split at h
    · cases h; cases hl
    · rename_i hlen
      have hsp : splitSdu bits = some (ofBits (bits.take 3), bits.drop 3) := by rw [splitSdu, if_pos (by omega)]
      have hb := hb _ _ hsp
      split at h
      · cases h; cases hl
      · rename_i d hd
        have hraw : ofBits (bits.take 3) = d.raw := by
          generalize ofBits (bits.take 3) = n at hd
          unfold Mle.Disc.ofRaw at hd
          split at hd <;> cases hd <;> rfl
        rw [hraw] at hb
        cases d with
        | mm =>
          simp only [Mle.Mle.dispatch, Res.bind_eq_ok] at h
          obtain ⟨r, _, h⟩ := h
          cases h
          simp only [List.map_cons, List.map_nil, List.mem_singleton] at hl
          subst hl; exact ⟨ha, hb.2.1 rfl⟩
        | cmce =>
          simp only [Mle.Mle.dispatch, Res.bind_eq_ok] at h
          obtain ⟨r, _, h⟩ := h
          cases h
          simp only [List.map_cons, List.map_nil, List.mem_singleton] at hl
          subst hl; exact hb.2.2 rfl
        | sndcp => exact (hb.1 rfl).elim
        | mle => cases h; cases hl
        | management => cases h; cases hl

theorem tick_fine {c : Cfg} {s s' : Mle} {now : Time} {clock : Mle.Clock} {out : List Mle.Out} (h : s.tick now clock = .ok (s', out)) :
    ∀ l ∈ out.map ofMle, l.Fine c := by
  intro l hl
  rcases mle_tick h with rfl | ⟨bs, rfl⟩
  · cases hl
  · simp only [List.map_cons, List.map_nil, List.mem_singleton] at hl
    subst hl; trivial

theorem ofMm_fine {c : Cfg} {addr : Addr} (ha : addr.ssiType ≠ .gssi) {ts : Nat} {sdu : List Bool} {out : List MmOut} :
    ∀ l ∈ out.filterMap (ofMm addr ts sdu), l.Fine c := by
  intro l hl
  rw [List.mem_filterMap] at hl
  obtain ⟨o, _, ho⟩ := hl
  cases o <;> simp [ofMm] at ho <;> subst ho
  · exact id
  · refine ⟨?_, by simp⟩
    unfold answerTo
    split
    · exact ha
    · simp

theorem ofBs_fine {c : Cfg} {ts : BsOut → Nat} {out : List BsOut} (hs : ∀ b ∈ out, Single b) : ∀ l ∈ out.filterMap (ofBs ts), l.Fine c := by
  intro l hl
  rw [List.mem_filterMap] at hl
  obtain ⟨o, h1, ho⟩ := hl
  have := hs o h1
  cases o <;> simp [ofBs] at ho
  subst ho
  intro hu
  obtain ⟨h2, i, rfl⟩ := this hu
  exact ⟨h2, by simp [addrOf]⟩

/-! ### Handles -/

theorem mle_next {s s' : Mle} {m : Mle.In} {out : List Mle.Out} (h : s.rx m = .ok (s', out)) :
    s'.next = s.next + ((out.map ofMle).filterMap atTop).length := by
  cases m with
  | unitdataInd => cases h
  | lmm addr ts service sdu =>
    have := mle_down h (by simp)
    simp only [Mle.Mle.rx, Mle.lmmReq, Res.bind_eq_ok] at h
    obtain ⟨o, h1, h2⟩ := h
    split at h1
    · cases h1
    · cases h1; cases h2; rfl
  | lcmc addr ts service chan stealing sdu =>
    cases h
    unfold Mle.lcmcReq
    split <;> rfl
  | dataInd addr link ts sdu =>
    cases sdu with
    | none => cases h
    | some sdu =>
      simp only [Mle.Mle.rx, Mle.Mle.dataInd] at h
      split at h
      · cases h; rfl
      · split at h
        · cases h; rfl
        · rename_i d _
          cases d <;> simp only [Mle.Mle.dispatch, Res.bind_eq_ok] at h
          · obtain ⟨r, h1, h⟩ := h
            cases h
            unfold Mle.Mle.createHandle at h1
            split at h1
            · cases h1; rfl
            · cases h1
          · obtain ⟨r, h1, h⟩ := h
            cases h
            unfold Mle.Mle.createHandle at h1
            split at h1
            · cases h1; rfl
            · cases h1
          · cases h; rfl
          · cases h; rfl
          · cases h; rfl

theorem tick_next {s s' : Mle} {now : Time} {clock : Mle.Clock} {out : List Mle.Out} (h : s.tick now clock = .ok (s', out)) :
    s'.next = s.next := by
  simp only [Mle.Mle.tick, Mle.Mle.broadcast] at h
  split at h
  · split at h
    · simp only [Res.bind_eq_ok, Res.ok.injEq, Prod.mk.injEq] at h
      obtain ⟨o, _, h2, _⟩ := h
      rw [← h2]
    · simp only [Res.ok.injEq, Prod.mk.injEq] at h
      rw [← h.1]
  · simp only [Res.ok.injEq, Prod.mk.injEq] at h
    rw [← h.1]

/-- The messages handed on by MLE and not yet handled. -/
def tops (q : List Letter) : Nat := (q.filterMap atTop).length

theorem tops_append (a b : List Letter) : tops (a ++ b) = tops a + tops b := by simp [tops]

theorem tops_inert {ls : List Letter} (h : ∀ l ∈ ls, Inert l) : tops ls = 0 := by
  unfold tops
  rw [List.filterMap_eq_nil_iff.2 fun l hl => (h l hl).1]
  rfl

/-- MLE numbers the messages it hands on. -/
theorem next_inv {c : Cfg} {evs : List Ev} {tr : List Call} {s : St} (h : Run c evs tr s) :
    s.mle.next = 1 + (heard tr).length + tops s.queue := by
  induction h with
  | init => rfl
  | reorder _ _ ih => exact ih
  | @step evs tr calls s s' e _ hs ih =>
    cases e with
    | frame addr ts pdu =>
      cases hs
      have e0 : tops [Letter.frame addr ts pdu] = 0 := rfl
      rw [List.append_nil, tops_append, e0]
      exact ih
    | toCmce ts e =>
      cases hs
      have e0 : tops [Letter.cmce ts e.ev] = 0 := by cases e <;> rfl
      rw [List.append_nil, tops_append, e0]
      exact ih
    | deliver =>
      simp only [St.step] at hs
      split at hs
      · cases hs; rw [List.append_nil]; exact ih
      · rename_i l q hq
        rw [hq, show l :: q = [l] ++ q from rfl, tops_append] at ih
        rw [heard_append, List.length_append]
        have quiet : ∀ {ts e}, { s with queue := q }.callLlc ts e = .ok (s', calls) → (∀ a t p, e ≠ .ind a t p) → tops [l] = 0 →
            s'.mle.next = 1 + ((heard tr).length + (heard calls).length) + tops s'.queue := by
          intro ts e h he h0
          obtain ⟨l', es, h1, rfl, rfl⟩ := callLlc_ok h
          rw [quiet_up h1 he]
          simp only [List.append_nil, heard, List.filterMap_cons, List.filterMap_nil, List.length_nil]
          simp only [heard] at ih
          omega
        cases l with
        | frame addr ts pdu =>
          obtain ⟨l', es, h1, rfl, rfl⟩ := callLlc_ok hs
          have h0 : tops (upward addr ts pdu) = 0 := by
            unfold upward
            split <;> rfl
          have h0' : tops (upwardU addr ts pdu) = 0 := by
            unfold upwardU
            split <;> rfl
          simp only [tops_append, ind_up h1, h0, h0']
          have e1 : tops [Letter.frame addr ts pdu] = 0 := rfl
          have e2 : heard [Call.llc (.ind addr ts pdu) es] = [] := rfl
          rw [e2]
          simp only [List.length_nil]
          omega
        | mle m =>
          obtain ⟨l', es, h1, rfl, rfl⟩ := callMle_ok hs
          have h2 := mle_next h1
          have e1 : tops [Letter.mle m] = 0 := by cases m <;> rfl
          have e2 : heard [Call.mle m es] = [] := rfl
          rw [e2]
          simp only [tops_append, List.length_nil]
          simp only [tops] at *
          omega
        | mm handle addr ts sdu =>
          obtain ⟨l', es, h1, rfl, rfl⟩ := callMm_ok hs
          have e1 : tops [Letter.mm handle addr ts sdu] = 1 := rfl
          have e2 : heard [Call.mm handle addr ts sdu es] = [⟨1, addr.ssi, ts, sdu⟩] := rfl
          rw [e2]
          simp only [tops_append, tops_inert inert_ofMm, List.length_cons, List.length_nil]
          omega
        | cmce ts e =>
          obtain ⟨l', es, h1, rfl, rfl⟩ := callBs_ok hs
          have e1 : tops [Letter.cmce ts e] = (heard [Call.cmce ⟨ts, s.bs.cc.now.t⟩ e es]).length := by cases e <;> rfl
          simp only [tops_append, tops_inert inert_ofBs]
          omega
        | sndcp => cases hs
        | tlData => exact quiet hs (by simp) rfl
        | tlUnitdata => exact quiet hs (by simp) rfl
    | _ =>
      refine ?_
      rw [heard_append, List.length_append]
      have key : s'.mle.next = s.mle.next ∧ heard calls = [] ∧ tops s'.queue = tops s.queue := by
        refine step_induction (c := c) (fun s k s' => s'.mle.next = s.mle.next ∧ heard k = [] ∧ tops s'.queue = tops s.queue) ?_ ?_ ?_ ?_ hs (by simp)
        · rintro s1 s2 s3 k1 k2 ⟨h1, h2, h3⟩ ⟨h4, h5, h6⟩
          exact ⟨h4.trans h1, by rw [heard_append, h2, h5]; rfl, h6.trans h3⟩
        · intro s s' ts e k he _ _ h
          obtain ⟨l, es, h1, rfl, rfl⟩ := callLlc_ok h
          exact ⟨rfl, rfl, by simp [quiet_up h1 he]⟩
        · intro s s' now clock k h
          obtain ⟨l, es, h1, rfl, rfl⟩ := tickMle_ok h
          exact ⟨tick_next h1, rfl, by rw [tops_append, tops_inert (mle_tick_inert h1)]; rfl⟩
        · intro s s' ts now cmds k h
          obtain ⟨l, es, h1, rfl, rfl⟩ := callBs_ok h
          exact ⟨rfl, rfl, by rw [tops_append, tops_inert inert_ofBs]; rfl⟩
      rw [key.1, key.2.1, key.2.2]
      simpa using ih

/-! ### No abort -/

theorem encode_lt (k : Mle.Clock) : k.encode < 2 ^ 48 := by
  unfold Mle.Clock.encode
  have h1 : k.secs / 2 % 2 ^ 24 < 2 ^ 24 := Nat.mod_lt _ (by decide)
  have h2 : k.offset.natAbs / 900 % 2 ^ 6 < 2 ^ 6 := Nat.mod_lt _ (by decide)
  have h3 : ((k.year - 2000) % 2 ^ 6).toNat < 2 ^ 6 := by omega
  have h4 : (if k.offset < 0 then 1 else 0) < 2 := by split <;> omega
  omega

theorem time_enc (k : Mle.Clock) : (Mle.timeBroadcast k).enc =
    .ok (toBits 3 2 ++ toBits 16 0 ++ toBits 2 0 ++ [true] ++ [true] ++ toBits 48 k.encode ++ [true] ++ toBits 3 0) := by
  have h := encode_lt k
  generalize hv : k.encode = v at h
  simp [Mle.DNwrkBroadcast.enc, Mle.timeBroadcast, TypedFields.wType2, Codec.wBits_ok, hv, h]

/-- The broadcast of the time cannot fail. -/
theorem tick_ok (s : Mle) (now : Time) (k : Mle.Clock) : ∃ s' out, s.tick now k = .ok (s', out) := by
  have hb := time_enc k
  unfold Mle.Mle.tick Mle.Mle.broadcast
  split
  · split
    · rw [Mle.sendTime, hb]; exact ⟨_, _, rfl⟩
    · exact ⟨_, _, rfl⟩
  · exact ⟨_, _, rfl⟩

/-- What is kept in histories without harmful events. -/
structure FineInv (c : Cfg) (s : St) : Prop where
  queue : ∀ l ∈ s.queue, l.Fine c
  llc : Llc.Nice s.llc

theorem Ev.Fine.sane {c : Cfg} {e : Ev} (h : e.Fine c) : e.Sane c := by
  cases e with
  | frame => exact h.1
  | toCmce => exact h.1
  | _ => trivial

theorem append_fine {c : Cfg} {q ls : List Letter} (hq : ∀ l ∈ q, l.Fine c) (hl : ∀ l ∈ ls, l.Fine c) : ∀ l ∈ q ++ ls, l.Fine c := by
  intro l h
  rcases List.mem_append.1 h with h | h
  · exact hq l h
  · exact hl l h

/-- A benign call of the LLC. -/
theorem llc_total {c : Cfg} {s : St} {items : List Llc.Item} (hrel : Llc.Rel s.llc items) (h : FineInv c s) {ts : Nat} {e : Llc.Ev}
    (hb : e.benign) (hu : ∀ es l, s.llc.step e = .ok (l, es) → ∀ x ∈ es.filterMap (ofLlc ts), x.Fine c) :
    ∃ s' k, s.callLlc ts e = .ok (s', k) ∧ FineInv c s' ∧ s'.bs = s.bs := by
  obtain ⟨l, es, h1, h2⟩ := Llc.step_ok hrel h.llc e hb
  exact ⟨{ s with llc := l, queue := s.queue ++ es.filterMap (ofLlc ts) }, _, by simp [St.callLlc, h1]; rfl,
    ⟨append_fine h.queue (hu _ _ h1), h2⟩, rfl⟩

/-- A harmless call of call control. -/
theorem bs_total {c : Cfg} {s : St} {h : List (BsEv × List BsOut)} (hr : BsRun (Brew.gssiRoutable c.brew) h s.bs) (hf : FineInv c s) {ts : Nat} {e : BsEv}
    (hs : e.Sane (Brew.gssiRoutable c.brew)) (hc : ¬ Harmful e) : ∃ s' k, s.callBs c ts e = .ok (s', k) ∧ FineInv c s' := by
  cases hstep : s.bs.step ⟨s.mm.registry, c.brew⟩ e with
  | panic =>
    refine (hc ?_).elim
    cases e with
    | mobile => exact (Cmce.c57_mobile_iff hr hs).1 hstep
    | _ => exact Cmce.c57_total_partial hr hs hstep
  | ok r =>
    exact ⟨{ s with bs := r.1, queue := s.queue ++ r.2.filterMap (ofBs (stampOf ⟨ts, s.bs.cc.now.t⟩ e)) }, _, by simp [St.callBs, hstep]; rfl,
      append_fine hf.queue (ofBs_fine (step_single hr hstep)), hf.llc⟩

theorem time_total {c : Cfg} {s : St} (hf : FineInv c s) (now : Time) (clock : Mle.Clock) :
    ∃ s' k, s.tickMle now clock = .ok (s', k) ∧ FineInv c s' ∧ s'.bs = s.bs := by
  obtain ⟨m, out, h⟩ := tick_ok s.mle now clock
  exact ⟨{ s with mle := m, queue := s.queue ++ out.map ofMle }, _, by simp [St.tickMle, h]; rfl,
    ⟨append_fine hf.queue (tick_fine h), hf.llc⟩, rfl⟩

theorem frames_length_le {evs : List Ev} {tr : List Call} {s : St} {c : Cfg} (h : Run c evs tr s) :
    (heard tr).length + (waiting s.queue).length ≤ (frames evs).length := by
  have := congrArg List.length (heard_inv h)
  rw [List.length_append] at this
  rw [← this]
  exact List.length_filterMap_le _ _

/-- MLE handles what is harmless, as long as it has numbers left. -/
theorem mle_total {c : Cfg} {s : Mle} {m : Mle.In} (hf : (Letter.mle m).Fine c)
    (hn : (atMle (.mle m)).isSome = true → s.next + 1 < 2 ^ 32) : ∃ s' out, s.rx m = .ok (s', out) := by
  cases m with
  | unitdataInd => exact hf.elim
  | lmm addr ts service sdu =>
    simp only [Mle.Mle.rx, Mle.lmmReq]
    rw [if_neg hf.2]
    exact ⟨_, _, rfl⟩
  | lcmc => exact ⟨_, _, rfl⟩
  | dataInd addr link ts sdu =>
    obtain ⟨ha, bits, rfl, hb⟩ := hf
    simp only [Mle.Mle.rx, Mle.Mle.dataInd]
    split
    · exact ⟨_, _, rfl⟩
    · rename_i hlen
      have hsp : splitSdu bits = some (ofBits (bits.take 3), bits.drop 3) := by rw [splitSdu, if_pos (by omega)]
      simp only [atMle, protocolOf, hsp] at hn
      generalize ofBits (bits.take 3) = n at hn
      unfold Mle.Disc.ofRaw
      split
      · exact ⟨_, _, rfl⟩
      · rename_i d hd
        split at hd <;> cases hd
        · have hn : s.next + 1 < 2 ^ 32 := hn rfl
          simp only [Mle.Mle.dispatch, Mle.Mle.createHandle, if_pos hn]
          exact ⟨_, _, rfl⟩
        · have hn : s.next + 1 < 2 ^ 32 := hn rfl
          simp only [Mle.Mle.dispatch, Mle.Mle.createHandle, if_pos hn]
          exact ⟨_, _, rfl⟩
        · exact ⟨_, _, rfl⟩
        · exact ⟨_, _, rfl⟩
        · exact ⟨_, _, rfl⟩

theorem step_total {c : Cfg} {evs : List Ev} {tr : List Call} {s : St} (h : Run c evs tr s) (hfine : ∀ e ∈ evs, e.Fine c) (hf : FineInv c s)
    (hn : (frames evs).length + 1 < 2 ^ 32) {e : Ev} (he : e.Fine c) : ∃ s' k, s.step c e = .ok (s', k) ∧ FineInv c s' := by
  have hsane := sane_inv h fun e he => (hfine e he).sane
  have hrel : Llc.Rel s.llc (llcTrace tr) := by simpa using Llc.rel_run Llc.rel_init _ (run_llc h)
  have quiet : ∀ {ts : Nat} {e : Llc.Ev}, (∀ a t p, e ≠ .ind a t p) → ∀ es l, s.llc.step e = .ok (l, es) → ∀ x ∈ es.filterMap (ofLlc ts), x.Fine c := by
    intro ts e he es l h1
    rw [quiet_up h1 he]; simp
  cases e with
  | frame addr ts pdu =>
    exact ⟨_, _, rfl, append_fine hf.queue (by intro l hl; simp only [List.mem_singleton] at hl; subst hl; exact ⟨he.2.1, he.2.2⟩), hf.llc⟩
  | toCmce ts e =>
    exact ⟨_, _, rfl, append_fine hf.queue (by intro l hl; simp only [List.mem_singleton] at hl; subst hl; exact he.2), hf.llc⟩
  | deliver =>
    cases hq : s.queue with
    | nil => exact ⟨s, [], by simp [St.step, hq], hf⟩
    | cons l q =>
      rw [deliver_cons hq]
      have hl : l.Fine c := hf.queue l (by rw [hq]; simp)
      have hls : l.Sane c := hsane.queue l (by rw [hq]; simp)
      have hf' : FineInv c { s with queue := q } := ⟨fun x hx => hf.queue x (by rw [hq]; exact List.mem_cons_of_mem _ hx), hf.llc⟩
      cases l with
      | frame addr ts pdu =>
        obtain ⟨s', k, h1, h2, _⟩ := llc_total (s := { s with queue := q }) hrel hf' (ts := ts) (benign_frame hl.2 addr ts) (by
          intro es l h1
          rw [ind_up h1]
          exact upward_fine hl.1 hl.2 ts)
        exact ⟨s', k, h1, h2⟩
      | mle m =>
        obtain ⟨m', out, h1⟩ := mle_total (s := s.mle) hl (by
          intro hm
          have h1 := next_inv h
          have h2 := frames_length_le h
          rw [hq] at h1 h2
          have h3 : 1 ≤ ((Letter.mle m :: q).filterMap atMle).length := by
            obtain ⟨x, hx⟩ := Option.isSome_iff_exists.1 hm
            rw [List.filterMap_cons_some hx]; simp
          simp only [waiting, List.length_append, tops] at h1 h2
          omega)
        exact ⟨{ s with mle := m', queue := q ++ out.map ofMle }, _, by simp [St.handle, St.callMle, h1]; rfl,
          append_fine hf'.queue (mle_fine h1 hl), hf.llc⟩
      | mm handle addr ts sdu =>
        cases hr : s.mm.rx c.brew handle addr.ssi sdu with
        | panic => exact (hl.2 ((Mm.c53_mm_iff _ hls).1 hr)).elim
        | ok r =>
          exact ⟨{ s with mm := r.1, queue := q ++ r.2.filterMap (ofMm addr ts sdu) }, _, by simp [St.handle, St.callMm, hr]; rfl,
            append_fine hf'.queue (ofMm_fine hl.1), hf.llc⟩
      | cmce ts e => exact bs_total (s := { s with queue := q }) hsane.bs hf' hls hl
      | sndcp => exact hl.elim
      | tlData addr ts st sdu =>
        obtain ⟨s', k, h1, h2, _⟩ := llc_total (s := { s with queue := q }) hrel hf' (ts := ts) (e := .dataReq addr ts st false true sdu)
          ⟨hl.1, hl.2, rfl⟩ (quiet (by simp))
        exact ⟨s', k, h1, h2⟩
      | tlUnitdata addr sdu =>
        obtain ⟨s', k, h1, h2, _⟩ := llc_total (s := { s with queue := q }) hrel hf' (ts := addr.ts) (e := .unitdataReq addr sdu)
          trivial (quiet (by simp))
        exact ⟨s', k, h1, h2⟩
  | tickStart now cmds clock b =>
    obtain ⟨s1, k1, h1, f1, e1⟩ := llc_total (s := s) hrel hf (ts := now.t) (e := .tickStart now) trivial (quiet (by simp))
    have hb1 : BsRun (Brew.gssiRoutable c.brew) (bsCalls tr) s1.bs := by rw [e1]; exact hsane.bs
    simp only [St.step, andThen, h1, Res.bind_ok]
    cases b with
    | true =>
      obtain ⟨s2, k2, h2, f2, e2⟩ := time_total f1 now clock
      obtain ⟨s3, k3, h3, f3⟩ := bs_total (s := s2) (by rw [e2]; exact hb1) f2 (ts := now.t) (e := .tick now cmds) trivial he
      simp only [if_true, h2, h3, Res.bind_ok]
      exact ⟨_, _, rfl, f3⟩
    | false =>
      obtain ⟨s2, k2, h2, f2⟩ := bs_total (s := s1) hb1 f1 (ts := now.t) (e := .tick now cmds) trivial he
      obtain ⟨s3, k3, h3, f3, _⟩ := time_total f2 now clock
      simp only [Bool.false_eq_true, if_false, h2, h3, Res.bind_ok]
      exact ⟨_, _, rfl, f3⟩
  | tickEnd =>
    obtain ⟨s', k, h1, h2, _⟩ := llc_total (s := s) hrel hf (ts := 0) (e := .tickEnd) trivial (quiet (by simp))
    exact ⟨s', k, h1, h2⟩
  | mac id d =>
    obtain ⟨s', k, h1, h2, _⟩ := llc_total (s := s) hrel hf (ts := 0) (e := .mac id d) he (quiet (by simp))
    exact ⟨s', k, h1, h2⟩

theorem fine_inv {c : Cfg} {evs : List Ev} {tr : List Call} {s : St} (h : Run c evs tr s) (hfine : ∀ e ∈ evs, e.Fine c)
    (hn : (frames evs).length + 1 < 2 ^ 32) : FineInv c s := by
  induction h with
  | init => exact ⟨by simp [St.init], by simp [Llc.Nice, St.init, Llc.Llc.init]⟩
  | reorder _ _ ih => exact ⟨(ih hfine hn).queue, (ih hfine hn).llc⟩
  | @step evs tr calls s s' e h hs ih =>
    rw [frames_append, List.length_append] at hn
    have hfine' : ∀ x ∈ evs, x.Fine c := fun x hx => hfine x (List.mem_append_left _ hx)
    have := ih hfine' (by omega)
    obtain ⟨s2, k2, h2, h3⟩ := step_total h hfine' this (by omega) (hfine e (by simp))
    rw [hs] at h2
    cases h2
    exact h3

/-- **C71, no other abort.** In a history of harmless events with fewer than 2^32 - 1 frames every further harmless event is handled. -/
theorem c71_total_partial {c : Cfg} {evs : List Ev} {tr : List Call} {s : St} (h : Run c evs tr s) (hfine : ∀ e ∈ evs, e.Fine c)
    (hn : (frames evs).length + 1 < 2 ^ 32) {e : Ev} (he : e.Fine c) : ∃ s' k, s.step c e = .ok (s', k) :=
  let ⟨s', k, h1, _⟩ := step_total h hfine (fine_inv h hfine hn) hn he
  ⟨s', k, h1⟩

/-- Harmless histories of any length happen. -/
theorem c71_runs_partial (c : Cfg) (evs : List Ev) (hfine : ∀ e ∈ evs, e.Fine c) (hn : (frames evs).length + 1 < 2 ^ 32) :
    ∃ tr s, Run c evs tr s := by
  induction evs using List.reverseRecOn with
  | nil => exact ⟨_, _, .init⟩
  | append_singleton evs e ih =>
    rw [frames_append, List.length_append] at hn
    have hfine' : ∀ x ∈ evs, x.Fine c := fun x hx => hfine x (List.mem_append_left _ hx)
    obtain ⟨tr, s, h⟩ := ih hfine' (by omega)
    obtain ⟨s', k, h1⟩ := c71_total_partial h hfine' (by omega) (hfine e (by simp))
    exact ⟨_, _, h.step h1⟩

theorem frames_delivers (evs : List Ev) (n : Nat) : frames (evs ++ List.replicate n .deliver) = frames evs := by
  rw [frames_append]
  have : frames (List.replicate n .deliver) = [] := by
    unfold frames
    rw [List.filterMap_eq_nil_iff]
    intro x hx
    rw [List.eq_of_mem_replicate hx]
  rw [this, List.append_nil]

/-- After a harmless history any number of deliveries is possible. -/
theorem fine_delivers {c : Cfg} {evs : List Ev} {tr : List Call} {s : St} (h : Run c evs tr s) (hfine : ∀ e ∈ evs, e.Fine c)
    (hn : (frames evs).length + 1 < 2 ^ 32) (n : Nat) : ∃ s', s.delivers c n = .ok s' := by
  have fine : ∀ n, ∀ e ∈ evs ++ List.replicate n .deliver, e.Fine c := by
    intro n e he
    rcases List.mem_append.1 he with he | he
    · exact hfine e he
    · rw [List.eq_of_mem_replicate he]; trivial
  induction n with
  | zero => exact ⟨s, rfl⟩
  | succ n ih =>
    obtain ⟨s1, h1⟩ := ih
    obtain ⟨tr1, hr1⟩ := run_delivers h h1
    obtain ⟨s2, k, h2⟩ := c71_total_partial hr1 (fine n) (by rw [frames_delivers]; exact hn) (e := .deliver) trivial
    exact ⟨s2, by rw [delivers_add h1 1]; simp [St.delivers, h2]⟩

/-- **C70, all of them.** After a harmless history the queue gets empty, and then mobility management and call control have been
handed exactly the messages in the frames. -/
theorem c70_all_heard_partial {c : Cfg} {evs : List Ev} {tr : List Call} {s : St} (h : Run c evs tr s) (hfine : ∀ e ∈ evs, e.Fine c)
    (hn : (frames evs).length + 1 < 2 ^ 32) :
    ∃ n tr' s', Run c (evs ++ List.replicate n .deliver) tr' s' ∧ s'.queue = [] ∧ Sends (frames evs) (heard tr') := by
  obtain ⟨n, h1 | ⟨s', h1, h2⟩⟩ := c70_drains c s
  · obtain ⟨s', hs'⟩ := fine_delivers h hfine hn n
    rw [h1] at hs'; cases hs'
  · obtain ⟨tr', hr'⟩ := run_delivers h h1
    obtain ⟨rest, h3, h4⟩ := c70_heard hr'
    rw [h4 h2, List.append_nil, frames_delivers] at h3
    exact ⟨n, tr', s', hr', h2, h3⟩

end Verif.Sig
