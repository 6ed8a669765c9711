import Verif.Umac.UmacTotal
/-!
# C36: which uplink blocks the base station survives

For every history of the upper MAC and every block of bits, of any length: a block none of whose PDUs is of the kinds listed in
`UlPdu.Bad` is processed or dropped, and a block which begins with one of them aborts the process. So C36 is false as stated, and
the list is where it fails.
-/
namespace Verif.Umac
open Verif.Tdma Verif.Codec

/-- A block as the lower MAC hands it on: at a valid time, a whole slot for SCH/F and a half slot otherwise. -/
def UlCtx.Proper (c : UlCtx) : Prop := c.x.valid ∧ (c.chan = .schF ↔ c.half = .both)

/-- C36. After every history, every block without a bad PDU is processed or dropped. -/
theorem c36_block_partial (brew : Bool) (carrier : Nat) (x : Time) (hx : x.valid) (scramb : Nat) (wide : Bool) (pre : Precomps)
    (hist : List (UmacEv × List UmacOut)) (s : UmacBs) (hr : UmacRun (.init brew carrier x scramb wide pre) hist s)
    (ht : ∀ p ∈ hist, p.1.Timed) (c : UlCtx) (hc : c.Proper) (bits : List Bool) (hb : ∀ p ∈ pdusOf c.chan bits, ¬ p.Bad) :
    ∃ r, s.step (.block c bits) = .ok r := by
  have hk := run_known hx hr ht
  obtain ⟨r, h⟩ := loop_total hc.1 hk.view hb
  refine ⟨r, ?_⟩
  simp only [UmacBs.step, UmacBs.rxBlock]
  rw [if_pos hc.2]
  exact h

theorem capReq15 (s : UmacBs) (t : Nat) (a : Addr) : s.reserve t a (some 15) = .panic := rfl

theorem loop_panic {s : UmacBs} {c : UlCtx} {bits : List Bool} (h0 : bits ≠ []) (h : s.rxPdu c bits = .panic) :
    s.step (.block c bits) = .panic := by
  simp only [UmacBs.step, UmacBs.rxBlock]
  split
  · cases hn : bits.length with
    | zero => exact absurd (List.eq_nil_of_length_eq_zero hn) h0
    | succ n => simp only [UmacBs.rxLoop, h]; rfl
  · rfl

/-- C36. A block which begins with a bad PDU aborts the process, in every state; a MAC-END-HU does so only when there is
something to end. -/
theorem c36_block_aborts (s : UmacBs) (c : UlCtx) (hx : c.x.valid) (bits : List Bool) (hb : (ulPdu c.chan bits).Bad)
    (he : ∀ p, ulPdu c.chan bits ≠ .endHu p) : s.step (.block c bits) = .panic := by
  have acc : ∀ bits : List Bool, (headed .access (MacAccess.dec.run bits)).Bad → s.rxAccess c bits = .panic := by
    intro bits hb
    cases hd : MacAccess.dec.run bits with
    | panic => rw [hd] at hb; exact hb.elim
    | err => rw [hd] at hb; exact hb.elim
    | ok q =>
      obtain ⟨p, rest⟩ := q
      rw [hd] at hb
      obtain ⟨iaddr, isize, ilen, ires⟩ := access_inv hd
      obtain ⟨b0, b1⟩ := hb
      rcases iaddr with ⟨a, ha, hl, _⟩ | ⟨ha, l, hl⟩
      · unfold UmacBs.rxAccess
        rw [hd]
        simp only [hl, Option.isSome_none, Bool.false_eq_true, if_false, ha]
        have short : ∀ l, p.lengthInd = some l → 1 ≤ l → l ≤ 4 →
            cutPdu bits (bits.length - rest.length) (min (p.lengthOf bits.length) bits.length) p.fillBits = .panic := by
          intro l hl1 hl2 hl3
          have := (ilen l hl1).2.2.2 b0
          unfold cutPdu
          rw [if_pos]
          left
          simp only [MacAccess.lengthOf, hl1]
          rw [if_neg (by omega)]
          omega
        rcases b1 with b1 | b1 | b1 | b1 | ⟨b1, b2⟩
        · rw [short 1 b1 (by omega) (by omega)]; rfl
        · rw [short 2 b1 (by omega) (by omega)]; rfl
        · rw [short 3 b1 (by omega) (by omega)]; rfl
        · rw [short 4 b1 (by omega) (by omega)]; rfl
        · have hli := (ires 15 b2).2.1
          obtain ⟨sdu, hsdu⟩ := cut_total (bits := bits) (pos := bits.length - rest.length) (len := min (p.lengthOf bits.length) bits.length)
            (by simp [MacAccess.lengthOf, hli]) (Nat.min_le_right _ _) p.fillBits
          rw [hsdu, Out.bind_ok, if_neg (by rw [hli]; simp)]
          obtain ⟨s1, hs1⟩ := call_push (s := s) hx.1 hx.2.1 (e := .ack c.x.t a) (el := .ack a) rfl
          rw [hs1, Out.bind_ok, if_neg (by simp [b1]), b2]
          rfl
      · rw [hl] at b0; cases b0
  have dat : ∀ bits : List Bool, (headed .data (MacData.dec.run bits)).Bad → s.rxData c bits = .panic := by
    intro bits hb
    cases hd : MacData.dec.run bits with
    | panic => rw [hd] at hb; exact hb.elim
    | err => rw [hd] at hb; exact hb.elim
    | ok q =>
      obtain ⟨p, rest⟩ := q
      rw [hd] at hb
      obtain ⟨iaddr, isize, ilen, ires⟩ := data_inv hd
      obtain ⟨b0, b1⟩ := hb
      rcases iaddr with ⟨a, ha, hl, _⟩ | ⟨ha, l, hl⟩
      · unfold UmacBs.rxData
        rw [hd]
        simp only [hl, Option.isSome_none, Bool.false_eq_true, if_false, ha]
        rcases b1 with ⟨l, hl1, hl2⟩ | ⟨b1, b2⟩
        · by_cases h4 : 2 ≤ l ∧ l ≤ 4
          · have hk : p.lengthOf bits.length = .ok (l * 8, false, false, false) := by
              simp only [MacData.lengthOf, hl1]
              rw [if_neg (by omega), if_pos (by omega)]
            rw [hk, Out.bind_ok]
            have := (ilen l hl1).2.2.2 b0
            have : cutPdu bits (bits.length - rest.length) (min (l * 8) bits.length) p.fillBits = .panic := by
              unfold cutPdu
              rw [if_pos]
              left
              omega
            rw [this]; rfl
          · have hk : p.lengthOf bits.length = .panic := by
              simp only [MacData.lengthOf, hl1]
              rw [if_neg (by omega), if_neg (by omega), if_neg (by omega), if_neg (by omega)]
            rw [hk]; rfl
        · have hli : p.lengthInd = none := by
            cases hli : p.lengthInd with
            | none => rfl
            | some l => have := (ilen l hli).2.1; rw [b2] at this; cases this
          obtain ⟨f, r, e1, e2, e3⟩ := ires hli
          have hk : p.lengthOf bits.length = .ok (bits.length, f, false, false) := by
            simp only [MacData.lengthOf, hli, e1]
          rw [hk, Out.bind_ok]
          obtain ⟨sdu, hsdu⟩ := cut_total (bits := bits) (pos := bits.length - rest.length) (len := min bits.length bits.length)
            (by simp) (Nat.min_le_right _ _) p.fillBits
          rw [hsdu, Out.bind_ok, if_neg (by simp), if_neg (by simp [b1]), b2]
          rfl
      · rw [hl] at b0; cases b0
  have eul : ∀ bits : List Bool, (headed .endUl (MacEndUl.dec.run bits)).Bad → s.rxEndUl c bits = .panic := by
    intro bits hb
    cases hd : MacEndUl.dec.run bits with
    | panic => rw [hd] at hb; exact hb.elim
    | err => rw [hd] at hb; exact hb.elim
    | ok q =>
      obtain ⟨p, rest⟩ := q
      rw [hd] at hb
      obtain ⟨i1, i2, l, i3, i4, i5⟩ := endUl_inv hd
      have hb : p.lengthInd = some 1 := hb
      unfold UmacBs.rxEndUl
      rw [hd]
      simp only [UmacBs.rxEnd, hb, endLength]
      have : cutPdu bits (bits.length - rest.length) (min (1 * 8) bits.length) p.fillBits = .panic := by
        unfold cutPdu
        rw [if_pos]
        left
        omega
      rw [this]; rfl
  have blk : ∀ bits : List Bool, (headed .blck (MacUBlck.dec.run bits)).Bad → s.rxBlck bits = .panic := by
    intro bits hb
    cases hd : MacUBlck.dec.run bits with
    | panic => rw [hd] at hb; exact hb.elim
    | err => rw [hd] at hb; exact hb.elim
    | ok q =>
      unfold UmacBs.rxBlck
      rw [hd]
  match bits, hb, he with
  | [], hb, _ => cases hc : c.chan <;> rw [hc] at hb <;> exact hb.elim
  | [b0], hb, he =>
    cases hc : c.chan with
    | schHu =>
      rw [hc] at hb he
      cases b0 with
      | false =>
        have : MacAccess.dec.run [false] = .err := by decide +kernel
        simp [ulPdu, this, headed, UlPdu.Bad] at hb
      | true =>
        have : MacEndHu.dec.run [true] = .err := by decide +kernel
        simp [ulPdu, this, headed, UlPdu.Bad] at hb
    | schF => rw [hc] at hb; cases b0 <;> exact hb.elim
    | stch => rw [hc] at hb; cases b0 <;> exact hb.elim
  | [b0, b1], hb, he =>
    cases hc : c.chan with
    | schHu =>
      rw [hc] at hb he
      cases b0 with
      | false =>
        have : MacAccess.dec.run [false, b1] = .err := by cases b1 <;> decide +kernel
        simp [ulPdu, this, headed, UlPdu.Bad] at hb
      | true =>
        have : MacEndHu.dec.run [true, b1] = .err := by cases b1 <;> decide +kernel
        simp [ulPdu, this, headed, UlPdu.Bad] at hb
    | schF =>
      rw [hc] at hb
      cases b0 <;> cases b1
      · have : MacData.dec.run [false, false] = .err := by decide +kernel
        simp [ulPdu, this, headed, UlPdu.Bad] at hb
      all_goals exact hb.elim
    | stch =>
      rw [hc] at hb
      cases b0 <;> cases b1
      · have : MacData.dec.run [false, false] = .err := by decide +kernel
        simp [ulPdu, this, headed, UlPdu.Bad] at hb
      all_goals exact hb.elim
  | b0 :: b1 :: b2 :: r, hb, he =>
    refine loop_panic (by simp) ?_
    unfold UmacBs.rxPdu
    cases hc : c.chan with
    | schHu =>
      rw [hc] at hb he
      cases b0 with
      | false => simpa using acc _ hb
      | true =>
        cases hd : MacEndHu.dec.run (true :: b1 :: b2 :: r) with
        | ok q => exact absurd (by simp [ulPdu, hd, headed]) (he q.1)
        | err => simp [ulPdu, hd, headed, UlPdu.Bad] at hb
        | panic => simp [ulPdu, hd, headed, UlPdu.Bad] at hb
    | schF =>
      rw [hc] at hb
      cases b0 <;> cases b1
      · simpa using dat _ hb
      · cases b2
        · exact hb.elim
        · simpa using eul _ hb
      · exact hb.elim
      · cases b2
        · simpa using blk _ hb
        · exact hb.elim
    | stch =>
      rw [hc] at hb
      cases b0 <;> cases b1
      · simpa using dat _ hb
      · cases b2
        · exact hb.elim
        · simpa using eul _ hb
      · exact hb.elim
      · cases b2
        · exact hb.elim
        · exact hb.elim

end Verif.Umac
