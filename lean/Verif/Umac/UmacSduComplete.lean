import Verif.Umac.UmacSduSound
/-!
# Every message and every part in a block is taken
-/
namespace Verif.Umac
open Verif.Tdma Verif.Codec Verif.Bits

/-! ## Specification -/

/-- The messages handed on: when, from which address, and the bits. -/
def UmacOut.sdu? : UmacOut → Option (Time × Addr × List Bool)
  | .sdu x a b => some (x, a, b)
  | _ => none

/-- The messages handed on, in order. -/
def sdus (out : List UmacOut) : List (Time × Addr × List Bool) := out.filterMap UmacOut.sdu?

/-- The block consists of these messages, none of them empty, one PDU after another; then there is nothing more, or a null PDU. -/
inductive Reads (ch : UlChan) : List Bool → List (Addr × List Bool) → Prop where
  | last {bits b : List Bool} {a : Addr} : Starts ch bits (.whole a b) → b ≠ [] →
      (∀ l, (ulPdu ch bits).octets = some l → (bits.drop (l * 8)).length < 16) → Reads ch bits [(a, b)]
  | null {bits : List Bool} : (ulPdu ch bits).octets = some 0 → Reads ch bits []
  | cons {bits b : List Bool} {a : Addr} {l : Nat} {ms : List (Addr × List Bool)} : Starts ch bits (.whole a b) → b ≠ [] →
      (ulPdu ch bits).octets = some l → 16 ≤ (bits.drop (l * 8)).length → Reads ch (bits.drop (l * 8)) ms → Reads ch bits ((a, b) :: ms)

/-- The block begins with these messages, none of them empty, one PDU after another; the next PDU carries `q`. -/
inductive Leads (ch : UlChan) : List Bool → List (Addr × List Bool) → Piece → Prop where
  | here {bits : List Bool} {q : Piece} : Starts ch bits q → Leads ch bits [] q
  | cons {bits b : List Bool} {a : Addr} {l : Nat} {ms : List (Addr × List Bool)} {q : Piece} : Starts ch bits (.whole a b) → b ≠ [] →
      (ulPdu ch bits).octets = some l → 16 ≤ (bits.drop (l * 8)).length → Leads ch (bits.drop (l * 8)) ms q →
      Leads ch bits ((a, b) :: ms) q

/-! ## Heads -/

theorem bits2_inv {bs r : List Bool} {v : Nat} (h : (Rd.bits 2).run bs = .ok (v, r)) :
    ∃ a b, bs = a :: b :: r ∧ v = 2 * a.toNat + b.toNat := by
  match bs with
  | [] => simp [Rd.bits] at h
  | [_] => simp [Rd.bits] at h
  | a :: b :: tl =>
    rw [bits_two] at h
    simp only [Out.ok.injEq, Prod.mk.injEq] at h
    exact ⟨a, b, by rw [h.2], h.1.symm⟩

theorem bits1_inv {bs r : List Bool} {v : Nat} (h : (Rd.bits 1).run bs = .ok (v, r)) : ∃ a, bs = a :: r ∧ v = a.toNat := by
  match bs with
  | [] => simp [Rd.bits] at h
  | a :: tl =>
    rw [Rd.run_bits_one] at h
    simp only [Out.ok.injEq, Prod.mk.injEq] at h
    exact ⟨a, by rw [h.2], h.1.symm⟩

theorem data_head {bits rest : List Bool} {p : MacData} (h : MacData.dec.run bits = .ok (p, rest)) :
    ∃ b tl, bits = false :: false :: b :: tl := by
  unfold MacData.dec at h
  rw [Rd.run_bind, Out.bind_eq_ok] at h
  obtain ⟨⟨ty, r1⟩, h1, h⟩ := h
  obtain ⟨a, b, rfl, hv⟩ := bits2_inv h1
  simp only at h
  rw [Rd.run_ite] at h
  split at h
  · cases h
  · rename_i ht
    rw [Rd.run_bind, Out.bind_eq_ok] at h
    obtain ⟨⟨f, r2⟩, h2, _⟩ := h
    have := flag_inv h2
    subst this
    cases a <;> cases b <;> simp at hv <;> first | omega | exact ⟨_, _, rfl⟩

theorem access_head {bits rest : List Bool} {p : MacAccess} (h : MacAccess.dec.run bits = .ok (p, rest)) :
    ∃ b c tl, bits = false :: b :: c :: tl := by
  unfold MacAccess.dec at h
  rw [Rd.run_bind, Out.bind_eq_ok] at h
  obtain ⟨⟨ty, r1⟩, h1, h⟩ := h
  obtain ⟨a, rfl, hv⟩ := bits1_inv h1
  simp only at h
  rw [Rd.run_ite] at h
  split at h
  · cases h
  · rename_i ht
    rw [Rd.run_bind, Out.bind_eq_ok] at h
    obtain ⟨⟨f, r2⟩, h2, h⟩ := h
    have := flag_inv h2
    subst this
    rw [Rd.run_bind, Out.bind_eq_ok] at h
    obtain ⟨⟨g, r3⟩, h3, _⟩ := h
    have := flag_inv h3
    subst this
    cases a <;> simp at hv <;> first | omega | exact ⟨_, _, _, rfl⟩

theorem endHu_head {bits rest : List Bool} {p : MacEndHu} (h : MacEndHu.dec.run bits = .ok (p, rest)) :
    ∃ b c tl, bits = true :: b :: c :: tl := by
  unfold MacEndHu.dec at h
  rw [Rd.run_bind, Out.bind_eq_ok] at h
  obtain ⟨⟨ty, r1⟩, h1, h⟩ := h
  obtain ⟨a, rfl, hv⟩ := bits1_inv h1
  simp only at h
  rw [Rd.run_ite] at h
  split at h
  · cases h
  · rename_i ht
    rw [Rd.run_bind, Out.bind_eq_ok] at h
    obtain ⟨⟨f, r2⟩, h2, h⟩ := h
    have := flag_inv h2
    subst this
    rw [Rd.run_bind, Out.bind_eq_ok] at h
    obtain ⟨⟨g, r3⟩, h3, _⟩ := h
    have := flag_inv h3
    subst this
    cases a <;> simp at hv <;> first | omega | exact ⟨_, _, _, rfl⟩

theorem endUl_head {bits rest : List Bool} {p : MacEndUl} (h : MacEndUl.dec.run bits = .ok (p, rest)) :
    ∃ tl, bits = false :: true :: true :: tl := by
  unfold MacEndUl.dec at h
  rw [Rd.run_bind, Out.bind_eq_ok] at h
  obtain ⟨⟨ty, r1⟩, h1, h⟩ := h
  obtain ⟨a, b, rfl, hv⟩ := bits2_inv h1
  simp only at h
  rw [Rd.run_ite] at h
  split at h
  · cases h
  · rename_i ht
    rw [Rd.run_bind, Out.bind_eq_ok] at h
    obtain ⟨⟨f, r2⟩, h2, h⟩ := h
    obtain ⟨d, rfl, hv2⟩ := bits1_inv h2
    simp only at h
    rw [Rd.run_ite] at h
    split at h
    · cases h
    · rename_i ht2
      cases a <;> cases b <;> cases d <;> simp at hv hv2 <;> first | omega | exact ⟨_, rfl⟩

theorem frag_head {bits rest : List Bool} {p : MacFrag} (h : MacFrag.dec.run bits = .ok (p, rest)) :
    ∃ tl, bits = false :: true :: false :: tl := by
  unfold MacFrag.dec at h
  rw [Rd.run_bind, Out.bind_eq_ok] at h
  obtain ⟨⟨ty, r1⟩, h1, h⟩ := h
  obtain ⟨a, b, rfl, hv⟩ := bits2_inv h1
  simp only at h
  rw [Rd.run_ite] at h
  split at h
  · cases h
  · rename_i ht
    rw [Rd.run_bind, Out.bind_eq_ok] at h
    obtain ⟨⟨f, r2⟩, h2, h⟩ := h
    obtain ⟨d, rfl, hv2⟩ := bits1_inv h2
    simp only at h
    rw [Rd.run_ite] at h
    split at h
    · cases h
    · rename_i ht2
      cases a <;> cases b <;> cases d <;> simp at hv hv2 <;> first | omega | exact ⟨_, rfl⟩

/-! ## One PDU -/

theorem sdus_append (a b : List UmacOut) : sdus (a ++ b) = sdus a ++ sdus b := List.filterMap_append

theorem sdus_pre (b : Bool) : sdus (if b then [UmacOut.secondHalf] else []) = [] := by cases b <;> rfl

theorem data_addr {bits rest : List Bool} {p : MacData} (h : MacData.dec.run bits = .ok (p, rest)) {a : Addr} (ha : p.addr = some a) :
    p.eventLabel = none := by
  rcases (data_inv h).addr with ⟨_, _, h, _⟩ | ⟨h, _⟩
  · exact h
  · rw [ha] at h; cases h

theorem access_addr {bits rest : List Bool} {p : MacAccess} (h : MacAccess.dec.run bits = .ok (p, rest)) {a : Addr} (ha : p.addr = some a) :
    p.eventLabel = none := by
  rcases (access_inv h).addr with ⟨_, _, h, _⟩ | ⟨h, _⟩
  · exact h
  · rw [ha] at h; cases h

/-- An addressed MAC-DATA. -/
theorem rxData_spec {s : UmacBs} {c : UlCtx} {bits rest sdu : List Bool} {p : MacData} {a : Addr} (hd : MacData.dec.run bits = .ok (p, rest))
    (hcut : cutPdu bits (bits.length - rest.length) (pduEnd (UlPdu.data p).octets bits) p.fillBits = .ok sdu) (ha : p.addr = some a)
    (he : p.encrypted = false) (h0 : p.lengthInd ≠ some 0) {r : UmacBs × List UmacOut × Option (List Bool)} (h : s.rxData c bits = .ok r) :
    ∃ (s1 : UmacBs) (f : Bool) (pre o : List UmacOut), s1.frags = s.frags ∧ (f = true ↔ p.lengthInd = some 63 ∨ p.fragFlag = some true) ∧
      s1.firstOrWhole c a f sdu = .ok (r.1, o) ∧ r.2.1 = pre ++ o ∧ sdus pre = [] ∧
      r.2.2 = some (bits.drop (pduEnd (UlPdu.data p).octets bits)) := by
  unfold UmacBs.rxData at h
  rw [hd] at h
  simp only [data_addr hd ha, Option.isSome_none, Bool.false_eq_true, if_false, ha] at h
  rw [Out.bind_eq_ok] at h; obtain ⟨k, hk, h⟩ := h
  obtain ⟨e1, e2, e3⟩ := data_end hk
  rw [pduEnd_length] at e1
  have hk0 : k.2.2.2 = false := by
    cases hq : k.2.2.2 with
    | false => rfl
    | true => exact absurd (e2.1 hq) h0
  rw [e1 hk0, Out.bind_eq_ok] at h; obtain ⟨sdu', hcut', h⟩ := h
  rw [hcut] at hcut'; cases hcut'
  simp only [hk0, he, Bool.false_eq_true, if_false] at h
  rw [Out.bind_eq_ok] at h; obtain ⟨s1, h1, h⟩ := h
  rw [Out.bind_eq_ok] at h; obtain ⟨⟨s2, o2⟩, h2, h⟩ := h
  cases h
  refine ⟨s1, k.2.1, _, o2, (reserve_calm h1).2, ?_, h2, rfl, sdus_pre _, rfl⟩
  rw [e3]
  constructor
  · rintro (h | h)
    · exact .inl h
    · exact .inr h.2
  · rintro (h | h)
    · exact .inl h
    · refine .inr ⟨?_, h⟩
      cases hl : p.lengthInd with
      | none => rfl
      | some l => have := ((data_inv hd).len l hl).2.2.1; rw [h] at this; cases this

/-- An addressed MAC-ACCESS. -/
theorem rxAccess_spec {s : UmacBs} {c : UlCtx} {bits rest sdu : List Bool} {p : MacAccess} {a : Addr}
    (hd : MacAccess.dec.run bits = .ok (p, rest))
    (hcut : cutPdu bits (bits.length - rest.length) (pduEnd p.lengthInd bits) p.fillBits = .ok sdu) (ha : p.addr = some a)
    (he : p.encrypted = false) (h0 : p.lengthInd ≠ some 0) (hn : p.fragFlag = some true ∨ sdu ≠ [])
    {r : UmacBs × List UmacOut × Option (List Bool)} (h : s.rxAccess c bits = .ok r) :
    ∃ s1 : UmacBs, s1.frags = s.frags ∧ s1.firstOrWhole c a (p.fragFlag.getD false) sdu = .ok (r.1, r.2.1) ∧
      r.2.2 = some (bits.drop (pduEnd p.lengthInd bits)) := by
  unfold UmacBs.rxAccess at h
  rw [hd] at h
  simp only [access_addr hd ha, Option.isSome_none, Bool.false_eq_true, if_false, ha] at h
  have e1 := access_end (avail := bits.length) h0
  rw [pduEnd_length] at e1
  rw [e1, Out.bind_eq_ok] at h; obtain ⟨sdu', hcut', h⟩ := h
  rw [hcut] at hcut'; cases hcut'
  rw [if_neg h0, Out.bind_eq_ok] at h; obtain ⟨⟨s1, r1⟩, h1, h⟩ := h
  simp only [he, Bool.false_eq_true, if_false] at h
  rw [Out.bind_eq_ok] at h; obtain ⟨s2, h2, h⟩ := h
  have hn' : ¬ (p.fragFlag.getD false = false ∧ sdu = []) := by
    rintro ⟨q1, q2⟩
    rcases hn with hn | hn
    · rw [hn] at q1; cases q1
    · exact hn q2
  rw [if_neg hn', Out.bind_eq_ok] at h; obtain ⟨⟨s3, o3⟩, h4, h⟩ := h
  cases h
  exact ⟨s2, (reserve_calm h2).2.trans (call_calm h1).2, h4, rfl⟩

theorem pduEnd_octets {ch : UlChan} {bits : List Bool} {o : Option Nat} (h : (ulPdu ch bits).octets = o) :
    bits.drop (pduEnd o bits) = match (ulPdu ch bits).octets with | some l => bits.drop (l * 8) | none => [] := by
  rw [h]
  cases o with
  | none => simp [pduEnd]
  | some l => simp only [pduEnd, drop_min]

/-- What is left after a PDU, by its length. -/
def afterPdu (ch : UlChan) (bits : List Bool) : List Bool :=
  match (ulPdu ch bits).octets with
  | some l => bits.drop (l * 8)
  | none => []

/-- A whole message. -/
theorem whole_pdu {s : UmacBs} {c : UlCtx} {bits b : List Bool} {a : Addr} (hst : Starts c.chan bits (.whole a b)) (hb : b ≠ [])
    {r : UmacBs × List UmacOut × Option (List Bool)} (h : s.rxPdu c bits = .ok r) :
    r.1.frags = s.frags ∧ sdus r.2.1 = [(c.x, a, b)] ∧ r.2.2 = some (afterPdu c.chan bits) ∧ (ulPdu c.chan bits).octets ≠ some 0 := by
  have fin : ∀ {s1 : UmacBs} {o : List UmacOut}, s1.firstOrWhole c a false b = .ok (r.1, o) → r.1.frags = s1.frags ∧ sdus o = [(c.x, a, b)] := by
    intro s1 o h
    unfold UmacBs.firstOrWhole at h
    simp only [Bool.false_eq_true, if_false, hb, Out.ok.injEq, Prod.mk.injEq] at h
    rw [← h.1, ← h.2]
    exact ⟨rfl, rfl⟩
  cases hst with
  | @data p _ _ hc hf ha he h0 h63 hfl =>
    obtain ⟨rest, hd, hcut⟩ := cut_of_framed hf
    obtain ⟨b2, tl, rfl⟩ := data_head hd
    have hu : ulPdu c.chan (false :: false :: b2 :: tl) = .data p := by
      cases hcc : c.chan <;> first | exact absurd hcc hc | simp only [ulPdu, hd, headed]
    simp only [UmacBs.rxPdu, hc, if_false, if_true] at h
    obtain ⟨s1, f, pre, o, e1, e2, e3, e4, e5, e6⟩ := rxData_spec hd hcut ha he h0 h
    have hff : f = false := by
      cases f with
      | false => rfl
      | true =>
        rcases e2.1 rfl with h | h
        · exact absurd h h63
        · exact absurd h hfl
    subst hff
    obtain ⟨g1, g2⟩ := fin e3
    refine ⟨g1.trans e1, by rw [e4, sdus_append, e5, g2]; rfl, ?_, ?_⟩
    · rw [e6, pduEnd_octets (ch := c.chan) (by rw [hu])]; rfl
    · rw [hu]; simp only [UlPdu.octets]; split <;> first | exact h0 | simp
  | @access p _ _ hc hf ha he h0 hfl =>
    obtain ⟨rest, hd, hcut⟩ := cut_of_framed hf
    obtain ⟨b1, b2, tl, rfl⟩ := access_head hd
    have hu : ulPdu c.chan (false :: b1 :: b2 :: tl) = .access p := by
      rw [hc]; simp only [ulPdu, hd, headed]
    simp only [UmacBs.rxPdu, hc, Bool.false_eq_true, if_false, if_true] at h
    obtain ⟨s1, e1, e3, e6⟩ := rxAccess_spec hd hcut ha he h0 (.inr hb) h
    have hff : p.fragFlag.getD false = false := by
      cases hq : p.fragFlag with
      | none => rfl
      | some f =>
        cases f with
        | false => rfl
        | true => exact absurd hq hfl
    rw [hff] at e3
    obtain ⟨g1, g2⟩ := fin e3
    refine ⟨g1.trans e1, g2, ?_, ?_⟩
    · rw [e6, pduEnd_octets (ch := c.chan) (by rw [hu]; rfl)]; rfl
    · rw [hu]; exact h0

/-- The first part of a message. -/
theorem first_pdu {s : UmacBs} {c : UlCtx} {bits b : List Bool} {a : Addr} (hst : Starts c.chan bits (.first a b))
    {r : UmacBs × List UmacOut × Option (List Bool)} (h : s.rxPdu c bits = .ok r) :
    r.1.frags = s.frags ++ [.first b c.x a] ∧ sdus r.2.1 = [] ∧ r.2.2 = some [] := by
  have fin : ∀ {s1 : UmacBs} {o : List UmacOut}, s1.firstOrWhole c a true b = .ok (r.1, o) → r.1.frags = s1.frags ++ [.first b c.x a] ∧ sdus o = [] := by
    intro s1 o h
    unfold UmacBs.firstOrWhole at h
    simp only [if_true] at h
    rw [Out.bind_eq_ok] at h; obtain ⟨⟨s2, q⟩, h2, h⟩ := h
    simp only [Out.ok.injEq, Prod.mk.injEq] at h
    rw [← h.1, ← h.2]
    exact ⟨(frag_via h2).1.frags, rfl⟩
  cases hst with
  | @dataFirst p _ _ hc hf ha he h63 =>
    obtain ⟨rest, hd, hcut⟩ := cut_of_framed hf
    obtain ⟨b2, tl, rfl⟩ := data_head hd
    simp only [UmacBs.rxPdu, hc, if_false, if_true] at h
    have hoct : (UlPdu.data p).octets = none := by
      simp only [UlPdu.octets]
      rcases h63 with h | h
      · simp [h]
      · cases hl : p.lengthInd with
        | none => simp
        | some l => have := ((data_inv hd).len l hl).2.2.1; rw [h] at this; cases this
    have h0 : p.lengthInd ≠ some 0 := by
      intro h0
      rcases h63 with h | h
      · rw [h0] at h; cases h
      · have := ((data_inv hd).len 0 h0).2.2.1; rw [h] at this; cases this
    obtain ⟨s1, f, pre, o, e1, e2, e3, e4, e5, e6⟩ := rxData_spec hd hcut ha he h0 h
    have hff : f = true := e2.2 h63
    subst hff
    obtain ⟨g1, g2⟩ := fin e3
    refine ⟨by rw [g1, e1], by rw [e4, sdus_append, e5, g2]; rfl, ?_⟩
    rw [e6, hoct]
    simp [pduEnd]
  | @accessFirst p _ _ hc hf ha he hfl =>
    obtain ⟨rest, hd, hcut⟩ := cut_of_framed hf
    obtain ⟨b1, b2, tl, rfl⟩ := access_head hd
    simp only [UmacBs.rxPdu, hc, Bool.false_eq_true, if_false, if_true] at h
    have hl : p.lengthInd = none := by
      cases hl : p.lengthInd with
      | none => rfl
      | some l => have := ((access_inv hd).len l hl).2.2.1; rw [hfl] at this; cases this
    obtain ⟨s1, e1, e3, e6⟩ := rxAccess_spec hd hcut ha he (by rw [hl]; simp) (.inl hfl) h
    rw [hfl] at e3
    obtain ⟨g1, g2⟩ := fin e3
    refine ⟨by rw [g1, e1], g2, ?_⟩
    rw [e6, hl]
    simp [pduEnd]

/-- A middle part of a message. -/
theorem next_pdu {s : UmacBs} {c : UlCtx} {bits b : List Bool} {ssi : Nat} (hst : Starts c.chan bits (.next b))
    (ho : slotOwner s.sched.ul c.x c.half = .ok (some ssi)) {r : UmacBs × List UmacOut × Option (List Bool)} (h : s.rxPdu c bits = .ok r) :
    r.1.frags = s.frags ++ [.next b ssi c.x] ∧ sdus r.2.1 = [] ∧ r.2.2 = none := by
  cases hst with
  | @frag p _ hc hf =>
    obtain ⟨rest, hd, hcut⟩ := cut_of_framed hf
    obtain ⟨tl, rfl⟩ := frag_head hd
    simp only [UmacBs.rxPdu, hc, Bool.true_eq_false, Bool.false_eq_true, if_false, if_true] at h
    unfold UmacBs.rxFrag at h
    rw [hd] at h
    simp only at h
    rw [hcut, Out.bind_ok, ho, Out.ofRes_ok, Out.bind_ok] at h
    simp only at h
    rw [Out.bind_eq_ok] at h; obtain ⟨⟨s1, o1⟩, h1, h⟩ := h
    cases h
    exact ⟨(frag_via h1).1.frags, rfl, rfl⟩

/-- The last part of a message. -/
theorem last_pdu {s : UmacBs} {c : UlCtx} {bits b : List Bool} {ssi : Nat} {t : Track} (hf : Follows s.defrag s.frags) (hx : c.x.valid)
    (hst : Starts c.chan bits (.last b)) (ho : slotOwner s.sched.ul c.x c.half = .ok (some ssi))
    (ht : tracked c.x.t ssi s.frags = some t) (hl : (t.parts.flatten ++ b).length ≤ 4096)
    {r : UmacBs × List UmacOut × Option (List Bool)} (h : s.rxPdu c bits = .ok r) : sdus r.2.1 = [(c.x, t.addr, t.parts.flatten ++ b)] := by
  have key : ∀ {pos : Nat} {fill : Bool} {li v : Option Nat}, cutPdu bits pos (pduEnd li bits) fill = .ok b →
      s.rxEnd c bits pos fill li v = .ok r → sdus r.2.1 = [(c.x, t.addr, t.parts.flatten ++ b)] := by
    intro pos fill li v hcut h
    unfold UmacBs.rxEnd at h
    rw [end_end] at h
    simp only at h
    rw [hcut, Out.bind_ok, ho, Out.ofRes_ok, Out.bind_ok] at h
    simp only at h
    obtain ⟨d', o', e1, e2, e3⟩ := last_delivers hf b ssi c.x ⟨hx.1, hx.2.1⟩
    obtain ⟨u, hu, e4, e5⟩ := e2 t ht hl
    subst hu
    simp only [UmacBs.frag, e1, Out.ofRes_ok, Out.bind_ok] at h
    rw [Out.bind_eq_ok] at h; obtain ⟨s2, h2, h⟩ := h
    cases h
    simp only [sdus, List.filterMap_cons, UmacOut.sdu?, List.filterMap_nil, e4, e5]
  cases hst with
  | @endUl p _ hc hf =>
    obtain ⟨rest, hd, hcut⟩ := cut_of_framed hf
    obtain ⟨tl, rfl⟩ := endUl_head hd
    simp only [UmacBs.rxPdu, hc, Bool.true_eq_false, if_false, if_true, UmacBs.rxEndUl, hd] at h
    exact key hcut h
  | @endHu p _ hc h0 hf =>
    obtain ⟨rest, hd, hcut⟩ := cut_of_framed hf
    obtain ⟨b1, b2, tl, rfl⟩ := endHu_head hd
    simp only [UmacBs.rxPdu, hc, if_true, UmacBs.rxEndHu, hd, h0, if_false] at h
    exact key hcut h

/-- A null PDU. -/
theorem null_pdu {s : UmacBs} {c : UlCtx} {bits : List Bool} (hst : (ulPdu c.chan bits).octets = some 0)
    {r : UmacBs × List UmacOut × Option (List Bool)} (h : s.rxPdu c bits = .ok r) : r.1.frags = s.frags ∧ sdus r.2.1 = [] ∧ r.2.2 = none := by
  have hdata : ∀ {p : MacData} {rest : List Bool}, MacData.dec.run bits = .ok (p, rest) → p.lengthInd = some 0 → s.rxData c bits = .ok r →
      r.1.frags = s.frags ∧ sdus r.2.1 = [] ∧ r.2.2 = none := by
    intro p rest hd h0 h
    simp only [UmacBs.rxData, hd] at h
    split at h
    · cases h; exact ⟨rfl, rfl, rfl⟩
    · split at h
      · cases h
      · rw [Out.bind_eq_ok] at h; obtain ⟨k, hk, h⟩ := h
        have hk0 := (data_end hk).2.1.2 h0
        rw [Out.bind_eq_ok] at h; obtain ⟨sdu, _, h⟩ := h
        rw [if_pos hk0] at h
        cases h
        exact ⟨rfl, sdus_pre _, rfl⟩
  have haccess : ∀ {p : MacAccess} {rest : List Bool}, MacAccess.dec.run bits = .ok (p, rest) → p.lengthInd = some 0 → s.rxAccess c bits = .ok r →
      r.1.frags = s.frags ∧ sdus r.2.1 = [] ∧ r.2.2 = none := by
    intro p rest hd h0 h
    simp only [UmacBs.rxAccess, hd] at h
    split at h
    · cases h; exact ⟨rfl, rfl, rfl⟩
    · split at h
      · cases h
      · rw [Out.bind_eq_ok] at h; obtain ⟨sdu, _, h⟩ := h
        cases h
        exact ⟨rfl, rfl, rfl⟩
  have hendu : ∀ {p : MacEndUl} {rest : List Bool}, MacEndUl.dec.run bits = .ok (p, rest) → p.lengthInd = some 0 → False := by
    intro p rest hd h0
    obtain ⟨_, _, l, hl, h1, _⟩ := endUl_inv hd
    rw [h0] at hl; cases hl; omega
  match bits, hst with
  | [], hst => cases hcc : c.chan <;> simp [hcc, ulPdu, UlPdu.octets] at hst
  | [b0], hst =>
    simp only [UmacBs.rxPdu] at h
    cases h
    exact ⟨rfl, rfl, rfl⟩
  | [b0, b1], hst =>
    simp only [UmacBs.rxPdu] at h
    cases h
    exact ⟨rfl, rfl, rfl⟩
  | b0 :: b1 :: b2 :: tl, hst =>
    simp only [UmacBs.rxPdu] at h
    by_cases hc : c.chan = .schHu
    · rw [if_pos hc] at h
      rw [hc] at hst
      cases b0 with
      | true =>
        simp only [if_true, UmacBs.rxEndHu] at h
        simp only [ulPdu] at hst
        split at h
        · cases h; exact ⟨rfl, rfl, rfl⟩
        · cases h
        · rename_i p rest hd
          simp only [hd, headed, UlPdu.octets] at hst
          rw [if_pos hst] at h
          cases h
          exact ⟨rfl, rfl, rfl⟩
      | false =>
        simp only [Bool.false_eq_true, if_false] at h
        simp only [ulPdu] at hst
        cases hd : MacAccess.dec.run (false :: b1 :: b2 :: tl) with
        | ok q =>
          obtain ⟨p, rest⟩ := q
          simp only [hd, headed, UlPdu.octets] at hst
          exact haccess hd hst h
        | err => simp [hd, headed, UlPdu.octets] at hst
        | panic => simp [hd, headed, UlPdu.octets] at hst
    · rw [if_neg hc] at h
      cases b0 with
      | false =>
        simp only [if_true] at h
        cases b1 with
        | false =>
          simp only [if_true] at h
          have hu : ulPdu c.chan (false :: false :: b2 :: tl) = headed .data (MacData.dec.run (false :: false :: b2 :: tl)) := by
            cases hcc : c.chan <;> first | rfl | exact absurd hcc hc
          rw [hu] at hst
          cases hd : MacData.dec.run (false :: false :: b2 :: tl) with
          | ok q =>
            obtain ⟨p, rest⟩ := q
            simp only [hd, headed, UlPdu.octets] at hst
            split at hst
            · cases hst
            · exact hdata hd hst h
          | err => simp [hd, headed, UlPdu.octets] at hst
          | panic => simp [hd, headed, UlPdu.octets] at hst
        | true =>
          cases b2 with
          | true =>
            have hu : ulPdu c.chan (false :: true :: true :: tl) = headed .endUl (MacEndUl.dec.run (false :: true :: true :: tl)) := by
              cases hcc : c.chan <;> first | rfl | exact absurd hcc hc
            rw [hu] at hst
            cases hd : MacEndUl.dec.run (false :: true :: true :: tl) with
            | ok q =>
              obtain ⟨p, rest⟩ := q
              simp only [hd, headed, UlPdu.octets] at hst
              exact (hendu hd hst).elim
            | err => simp [hd, headed, UlPdu.octets] at hst
            | panic => simp [hd, headed, UlPdu.octets] at hst
          | false => cases hcc : c.chan <;> simp_all [ulPdu, UlPdu.octets]
      | true =>
        cases b1 with
        | false => cases hcc : c.chan <;> simp_all [ulPdu, UlPdu.octets]
        | true =>
          cases b2 with
          | true => cases hcc : c.chan <;> simp_all [ulPdu, UlPdu.octets]
          | false =>
            cases hcc : c.chan with
            | schHu => exact absurd hcc hc
            | stch => rw [hcc] at hst; simp [ulPdu, UlPdu.octets] at hst
            | schF =>
              rw [hcc] at hst
              simp only [ulPdu] at hst
              cases hd : MacUBlck.dec.run (true :: true :: false :: tl) <;> simp [hd, headed, UlPdu.octets] at hst

/-! ## Blocks -/

theorem starts_ne {ch : UlChan} {bits : List Bool} {q : Piece} (h : Starts ch bits q) : bits ≠ [] := by
  rintro rfl
  cases h with
  | data _ hf => obtain ⟨_, hd, _⟩ := cut_of_framed hf; obtain ⟨_, _, h⟩ := data_head hd; cases h
  | dataFirst _ hf => obtain ⟨_, hd, _⟩ := cut_of_framed hf; obtain ⟨_, _, h⟩ := data_head hd; cases h
  | access _ hf => obtain ⟨_, hd, _⟩ := cut_of_framed hf; obtain ⟨_, _, _, h⟩ := access_head hd; cases h
  | accessFirst _ hf => obtain ⟨_, hd, _⟩ := cut_of_framed hf; obtain ⟨_, _, _, h⟩ := access_head hd; cases h
  | frag _ hf => obtain ⟨_, hd, _⟩ := cut_of_framed hf; obtain ⟨_, h⟩ := frag_head hd; cases h
  | endUl _ hf => obtain ⟨_, hd, _⟩ := cut_of_framed hf; obtain ⟨_, h⟩ := endUl_head hd; cases h
  | endHu _ _ hf => obtain ⟨_, hd, _⟩ := cut_of_framed hf; obtain ⟨_, _, _, h⟩ := endHu_head hd; cases h
  | signal _ h => simp [MacUSignal.dec, Rd.bits] at h

theorem after_some {ch : UlChan} {bits : List Bool} {l : Nat} (h : (ulPdu ch bits).octets = some l) : afterPdu ch bits = bits.drop (l * 8) := by
  unfold afterPdu; rw [h]

theorem reads_ne {ch : UlChan} {bits : List Bool} {ms : List (Addr × List Bool)} (h : Reads ch bits ms) : bits ≠ [] := by
  cases h with
  | last h => exact starts_ne h
  | null h =>
    rintro rfl
    cases ch <;> simp [ulPdu, UlPdu.octets] at h
  | cons h => exact starts_ne h

theorem reads_loop {c : UlCtx} {bits : List Bool} {ms : List (Addr × List Bool)} (hm : Reads c.chan bits ms) {k : Nat} {s s' : UmacBs}
    {out : List UmacOut} (hk : bits.length ≤ k) (h : UmacBs.rxLoop k s c bits = .ok (s', out)) :
    s'.frags = s.frags ∧ sdus out = ms.map fun m => (c.x, m.1, m.2) := by
  induction hm generalizing k s out with
  | @last bits b a hst hb hl =>
    obtain ⟨k, rfl⟩ : ∃ k', k = k' + 1 := ⟨k - 1, by have := List.length_pos_iff.2 (starts_ne hst); omega⟩
    simp only [UmacBs.rxLoop] at h
    rw [Out.bind_eq_ok] at h; obtain ⟨r, h1, h⟩ := h
    obtain ⟨e1, e2, e3, e4⟩ := whole_pdu hst hb h1
    rw [e3] at h
    have hsh : ¬ (16 ≤ (afterPdu c.chan bits).length ∧ (afterPdu c.chan bits).length < bits.length) := by
      unfold afterPdu
      split
      · rename_i l hl'
        have := hl l hl'
        omega
      · simp
    simp only [hsh, if_false, Out.ok.injEq, Prod.mk.injEq] at h
    rw [← h.1, ← h.2]
    exact ⟨e1, e2⟩
  | @null bits h0 =>
    obtain ⟨k, rfl⟩ : ∃ k', k = k' + 1 := ⟨k - 1, by have := List.length_pos_iff.2 (reads_ne (.null h0)); omega⟩
    simp only [UmacBs.rxLoop] at h
    rw [Out.bind_eq_ok] at h; obtain ⟨r, h1, h⟩ := h
    obtain ⟨e1, e2, e3⟩ := null_pdu h0 h1
    rw [e3] at h
    simp only [Out.ok.injEq, Prod.mk.injEq] at h
    rw [← h.1, ← h.2]
    exact ⟨e1, e2⟩
  | @cons bits b a l ms hst hb hl h16 hms ih =>
    have hne := List.length_pos_iff.2 (starts_ne hst)
    obtain ⟨k, rfl⟩ : ∃ k', k = k' + 1 := ⟨k - 1, by omega⟩
    simp only [UmacBs.rxLoop] at h
    rw [Out.bind_eq_ok] at h; obtain ⟨r, h1, h⟩ := h
    obtain ⟨e1, e2, e3, e4⟩ := whole_pdu hst hb h1
    rw [e3, after_some hl] at h
    have hl0 : l ≠ 0 := by rintro rfl; exact e4 hl
    have hlt : (bits.drop (l * 8)).length < bits.length := by rw [List.length_drop]; omega
    simp only [h16, hlt, and_self, if_true] at h
    rw [Out.bind_eq_ok] at h; obtain ⟨⟨s2, o2⟩, h2, h⟩ := h
    cases h
    obtain ⟨i1, i2⟩ := ih (by omega) h2
    exact ⟨i1.trans e1, by rw [sdus_append, e2, i2]; rfl⟩

/-- The PDU after the leading messages is processed. -/
theorem leads_loop {c : UlCtx} {bits : List Bool} {ms : List (Addr × List Bool)} {q : Piece} (hm : Leads c.chan bits ms q) {k : Nat}
    {s s' : UmacBs} {out : List UmacOut} (hk : bits.length ≤ k) (h : UmacBs.rxLoop k s c bits = .ok (s', out)) :
    ∃ s1 bits1 r more, Rx1 c.x.t s s1 ∧ s.log <+: s1.log ∧ s1.frags = s.frags ∧ Starts c.chan bits1 q ∧ s1.rxPdu c bits1 = .ok r ∧
      sdus out = ms.map (fun m => (c.x, m.1, m.2)) ++ sdus r.2.1 ++ more ∧ (r.2.2 = none ∨ r.2.2 = some [] → s' = r.1 ∧ more = []) := by
  induction hm generalizing k s out with
  | @here bits q hst =>
    obtain ⟨k, rfl⟩ : ∃ k', k = k' + 1 := ⟨k - 1, by have := List.length_pos_iff.2 (starts_ne hst); omega⟩
    simp only [UmacBs.rxLoop] at h
    rw [Out.bind_eq_ok] at h; obtain ⟨r, h1, h⟩ := h
    cases hr : r.2.2 with
    | none =>
      rw [hr] at h
      cases h
      exact ⟨s, bits, r, [], .refl _ _, List.prefix_rfl, rfl, hst, h1, by simp, fun _ => ⟨rfl, rfl⟩⟩
    | some rest =>
      rw [hr] at h
      simp only at h
      split at h
      · rename_i hl
        rw [Out.bind_eq_ok] at h; obtain ⟨⟨s2, o2⟩, h2, h⟩ := h
        cases h
        refine ⟨s, bits, r, sdus o2, .refl _ _, List.prefix_rfl, rfl, hst, h1, by simp [sdus_append], ?_⟩
        rw [hr]
        rintro (h | h)
        · cases h
        · simp only [Option.some.injEq] at h; subst h; simp at hl
      · cases h
        exact ⟨s, bits, r, [], .refl _ _, List.prefix_rfl, rfl, hst, h1, by simp, fun _ => ⟨rfl, rfl⟩⟩
  | @cons bits b a l ms q hst hb hl h16 hms ih =>
    have hne := List.length_pos_iff.2 (starts_ne hst)
    obtain ⟨k, rfl⟩ : ∃ k', k = k' + 1 := ⟨k - 1, by omega⟩
    simp only [UmacBs.rxLoop] at h
    rw [Out.bind_eq_ok] at h; obtain ⟨r, h1, h⟩ := h
    obtain ⟨e1, e2, e3, e4⟩ := whole_pdu hst hb h1
    rw [e3, after_some hl] at h
    have hl0 : l ≠ 0 := by rintro rfl; exact e4 hl
    have hlt : (bits.drop (l * 8)).length < bits.length := by rw [List.length_drop]; omega
    simp only [h16, hlt, and_self, if_true] at h
    rw [Out.bind_eq_ok] at h; obtain ⟨⟨s2, o2⟩, h2, h⟩ := h
    cases h
    obtain ⟨s1, bits1, r1, more, i1, i2, i3, i4, i5, i6, i7⟩ := ih (by omega) h2
    have hrx := rxPdu_rx h1
    refine ⟨s1, bits1, r1, more, hrx.trans i1, ?_, i3.trans e1, i4, i5, ?_, i7⟩
    · obtain ⟨cs, fs, v, _, _⟩ := hrx
      exact List.IsPrefix.trans ⟨cs, v.log.symm⟩ i2
    · rw [sdus_append, e2, i6]; simp

theorem block_loop {s s' : UmacBs} {c : UlCtx} {bits : List Bool} {out : List UmacOut} (h : s.step (.block c bits) = .ok (s', out)) :
    UmacBs.rxLoop bits.length s c bits = .ok (s', out) := by
  simp only [UmacBs.step, UmacBs.rxBlock] at h
  split at h
  · exact h
  · cases h

end Verif.Umac
