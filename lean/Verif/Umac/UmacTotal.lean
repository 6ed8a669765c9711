import Verif.Umac.UmacBlocks
/-!
# When the upper MAC gets through an uplink block
-/
namespace Verif.Umac
open Verif.Tdma Verif.Codec Verif.Bits

/-! ## Readers which do not abort -/

theorem bits_two (a b : Bool) (r : List Bool) : (Rd.bits 2).run (a :: b :: r) = .ok (2 * a.toNat + b.toNat, r) := by
  cases a <;> cases b <;> simp [Rd.bits, ofBits]

theorem ulAddr_safe (e : Bool) : (rdUlAddr e).Safe := by
  unfold rdUlAddr
  safe_rd

theorem reserved_safe : rdReserved.Safe := by
  intro bs
  unfold rdReserved
  rw [Rd.run_bind, Rd.run_look, Out.bind_ok]
  simp only
  rw [Rd.run_ite]
  split
  · simp
  · rw [Rd.skip]
    simp only
    rw [if_pos (by omega)]
    simp

theorem access_safe (r : List Bool) : MacAccess.dec.run (false :: r) ≠ .panic := by
  unfold MacAccess.dec
  rw [Rd.run_bind, Rd.run_bits_one, Out.bind_ok]
  simp only [Bool.toNat_false, ne_eq, not_true_eq_false, if_false]
  have := ulAddr_safe
  refine (show Rd.Safe _ from ?_) _
  repeat' (first | exact ulAddr_safe _ | exact Rd.safe_pure _ | exact Rd.safe_bits _ | exact Rd.safe_flag | apply Rd.safe_bind |
    apply Rd.safe_ite | intro _)

theorem endHu_safe (r : List Bool) : MacEndHu.dec.run (true :: r) ≠ .panic := by
  unfold MacEndHu.dec
  rw [Rd.run_bind, Rd.run_bits_one, Out.bind_ok]
  simp only [Bool.toNat_true, ne_eq, not_true_eq_false, if_false]
  refine (show Rd.Safe _ from ?_) _
  safe_rd

theorem data_safe (r : List Bool) : MacData.dec.run (false :: false :: r) ≠ .panic := by
  unfold MacData.dec
  rw [Rd.run_bind, bits_two, Out.bind_ok]
  simp only [Bool.toNat_false, Nat.mul_zero, Nat.add_zero, ne_eq, not_true_eq_false, if_false]
  refine (show Rd.Safe _ from ?_) _
  repeat' (first | exact ulAddr_safe _ | exact reserved_safe | exact Rd.safe_pure _ | exact Rd.safe_bits _ | exact Rd.safe_flag |
    apply Rd.safe_bind | apply Rd.safe_ite | intro _)

theorem endUl_safe (r : List Bool) : MacEndUl.dec.run (false :: true :: true :: r) ≠ .panic := by
  unfold MacEndUl.dec
  rw [Rd.run_bind, bits_two, Out.bind_ok]
  simp only [Bool.toNat_false, Bool.toNat_true, Nat.mul_zero, Nat.zero_add, ne_eq, not_true_eq_false, if_false]
  rw [Rd.run_bind, Rd.run_bits_one, Out.bind_ok]
  simp only [Bool.toNat_true, ne_eq, not_true_eq_false, if_false]
  refine (show Rd.Safe _ from ?_) _
  safe_rd

theorem frag_safe (r : List Bool) : MacFrag.dec.run (false :: true :: false :: r) ≠ .panic := by
  unfold MacFrag.dec
  rw [Rd.run_bind, bits_two, Out.bind_ok]
  simp only [Bool.toNat_false, Bool.toNat_true, Nat.mul_zero, Nat.zero_add, ne_eq, not_true_eq_false, if_false]
  rw [Rd.run_bind, Rd.run_bits_one, Out.bind_ok]
  simp only [Bool.toNat_false, ne_eq, not_true_eq_false, if_false]
  refine (show Rd.Safe _ from ?_) _
  safe_rd

theorem signal_safe (b : Bool) (r : List Bool) : MacUSignal.dec.run (true :: true :: b :: r) = .ok (⟨b⟩, r) := by
  unfold MacUSignal.dec
  rw [Rd.run_bind, bits_two, Out.bind_ok]
  simp

theorem blck_safe (r : List Bool) : MacUBlck.dec.run (true :: true :: false :: r) ≠ .panic := by
  unfold MacUBlck.dec
  rw [Rd.run_bind, bits_two, Out.bind_ok]
  simp only [Bool.toNat_true, Nat.mul_one, Nat.reduceAdd, ne_eq, not_true_eq_false, if_false]
  rw [Rd.run_bind, Rd.run_bits_one, Out.bind_ok]
  simp only [Bool.toNat_false, ne_eq, not_true_eq_false, if_false]
  refine (show Rd.Safe _ from ?_) _
  safe_rd

/-! ## Calls which do not abort -/

theorem View.rx {x : Time} {s s' : UmacBs} (h : View x s.log s.sched) {t : Nat} (h1 : 1 ≤ t) (h4 : t ≤ 4) (hr : Rx1 t s s') :
    View x s'.log s'.sched := by
  obtain ⟨cs, fs, v, _, k⟩ := hr
  rw [v.log]
  refine srun_view h (fun t' ssi code hm => ?_) v.run
  obtain ⟨p, hp, he⟩ := List.mem_map.1 hm
  have := k p hp
  rw [he] at this
  simp only [RxCall] at this
  subst this
  exact ⟨h1, h4⟩

theorem call_push {s : UmacBs} {t : Nat} (h1 : 1 ≤ t) (h4 : t ≤ 4) {e : SchedEv} {el : DlElem}
    (he : s.sched.step e = s.sched.push t el >>= fun q => .ok (q, .none)) : ∃ s', s.call e = .ok (s', .none) := by
  obtain ⟨k, _, hk⟩ := push_total (s := s.sched) h1 h4 el
  unfold UmacBs.call
  rw [he, hk]
  exact ⟨_, rfl⟩

theorem reserve_total {x : Time} {s : UmacBs} (h : View x s.log s.sched) {t : Nat} (h1 : 1 ≤ t) (h4 : t ≤ 4) (a : Addr) {code : Option Nat}
    (hc : ∀ r, code = some r → r ≤ 14) : ∃ s', s.reserve t a code = .ok s' := by
  cases code with
  | none => exact ⟨s, rfl⟩
  | some code =>
    obtain ⟨u', g, e1, _⟩ := processCapReq_spec s.sched.ul (clockAfter x.toInt s.log) t a.ssi code h1 h4 (hc code rfl) h.table.order
    simp only [UmacBs.reserve]
    have hs : s.sched.step (.capReq t a.ssi code) = .ok ({ s.sched with ul := u' }, .grant g) := by
      simp only [Sched.step, h.cur, e1]; rfl
    have hcall : ∃ s1, s.call (.capReq t a.ssi code) = .ok (s1, .grant g) := by
      unfold UmacBs.call
      rw [hs]
      exact ⟨_, rfl⟩
    obtain ⟨s1, hcall⟩ := hcall
    rw [hcall, Out.bind_ok]
    cases g with
    | none => exact ⟨_, rfl⟩
    | some g =>
      obtain ⟨s2, h2⟩ := call_push (s := s1) h1 h4 (e := .grant t a g) (el := .grant a g) rfl
      simp only [h2]
      exact ⟨_, rfl⟩

theorem frag_total {s : UmacBs} {e : BsEv} {y : Time} (hy : y.valid)
    (he : (∃ b a, e = .first b y a) ∨ (∃ b i, e = .next b i y) ∨ (∃ b i, e = .last b i y)) : ∃ r, s.frag e = .ok r := by
  obtain ⟨r, hr⟩ := c20_total [e] (by
    intro e' he'
    simp only [List.mem_singleton] at he'
    subst he'
    rcases he with ⟨b, a, rfl⟩ | ⟨b, i, rfl⟩ | ⟨b, i, rfl⟩ <;> exact ⟨hy.1, hy.2.1⟩) s.defrag
  simp only [BsDefrag.run] at hr
  rw [Res.bind_eq_ok] at hr
  obtain ⟨q, hq, _⟩ := hr
  unfold UmacBs.frag
  rw [hq]
  exact ⟨_, rfl⟩

theorem firstOrWhole_total {s : UmacBs} {c : UlCtx} (hx : c.x.valid) (a : Addr) (f : Bool) (sdu : List Bool) :
    ∃ r, s.firstOrWhole c a f sdu = .ok r := by
  unfold UmacBs.firstOrWhole
  cases f with
  | false => exact ⟨_, rfl⟩
  | true =>
    obtain ⟨r, hr⟩ := frag_total (s := s) hx (Or.inl ⟨sdu, a, rfl⟩)
    simp only [if_true, hr]
    exact ⟨_, rfl⟩

theorem slotOwner_total (u : UlTable) {y : Time} (hy : y.valid) (b : BlockNum) : ∃ o, slotOwner u y b = .ok o := by
  have h1 : ∃ i, Slots.idx y.t = .ok i := ⟨⟨y.t - 1, by have := hy.1; have := hy.2.1; omega⟩,
    Slots.idx_ok.2 (by have := hy.1; simp; omega)⟩
  have h2 : ∃ i, schedIndex y = .ok i := by
    rw [← fromInt_toInt hy, schedIndex_fromInt]
    exact ⟨_, rfl⟩
  obtain ⟨i, h1⟩ := h1
  obtain ⟨j, h2⟩ := h2
  unfold slotOwner
  rw [h1, h2]
  cases b <;> exact ⟨_, rfl⟩

theorem cut_total {bits : List Bool} {pos len : Nat} (h1 : pos ≤ len) (h2 : len ≤ bits.length) (fill : Bool) :
    ∃ sdu, cutPdu bits pos len fill = .ok sdu := by
  unfold cutPdu
  rw [if_neg (by omega)]
  exact ⟨_, rfl⟩

/-! ## PDU by PDU -/

/-- The reception of a PDU ends well, and goes on where its length says or not at all. -/
def Through (p : UlPdu) (bits : List Bool) (o : UlRes) : Prop :=
  ∃ r, o = .ok r ∧ ∀ rest, r.2.2 = some rest → rest.length < 16 ∨ ∃ l, p.octets = some l ∧ rest = bits.drop (l * 8)

theorem drop_min (bits : List Bool) (n : Nat) : bits.drop (min n bits.length) = bits.drop n := by
  by_cases h : n ≤ bits.length
  · rw [Nat.min_eq_left h]
  · rw [Nat.min_eq_right (by omega), List.drop_length, List.drop_eq_nil_of_le (by omega)]

theorem access_total {x : Time} {s : UmacBs} (h : View x s.log s.sched) {c : UlCtx} (hx : c.x.valid) {bits : List Bool}
    (hs : MacAccess.dec.run bits ≠ .panic) (hb : ¬ (headed .access (MacAccess.dec.run bits)).Bad) :
    Through (headed .access (MacAccess.dec.run bits)) bits (s.rxAccess c bits) := by
  unfold UmacBs.rxAccess
  cases hd : MacAccess.dec.run bits with
  | panic => exact absurd hd hs
  | err => exact ⟨_, rfl, fun rest h => by cases h⟩
  | ok q =>
    obtain ⟨p, rest⟩ := q
    obtain ⟨iaddr, isize, ilen, ires⟩ := access_inv hd
    rw [hd] at hb
    simp only [headed, UlPdu.Bad] at hb ⊢
    rcases iaddr with ⟨a, ha, hl, _⟩ | ⟨ha, l, hl⟩
    · simp only [hl, Option.isSome_none, Bool.false_eq_true, if_false, ha]
      simp only [hl, true_and, not_or] at hb
      obtain ⟨b1, b2, b3, b4, b5⟩ := hb
      have hlen : bits.length - rest.length ≤ min (p.lengthOf bits.length) bits.length := by
        unfold MacAccess.lengthOf
        cases hli : p.lengthInd with
        | none => simp
        | some l =>
          have := (ilen l hli).2.2.2 hl
          simp only [hli, Option.some.injEq] at b1 b2 b3 b4
          simp only
          split <;> omega
      obtain ⟨sdu, hsdu⟩ := cut_total hlen (Nat.min_le_right _ _) p.fillBits
      rw [hsdu, Out.bind_ok]
      by_cases h0 : p.lengthInd = some 0
      · rw [if_pos h0]
        exact ⟨_, rfl, fun rest h => by cases h⟩
      · rw [if_neg h0]
        obtain ⟨s1, hs1⟩ := call_push (s := s) hx.1 hx.2.1 (e := .ack c.x.t a) (el := .ack a) rfl
        have v1 := h.rx hx.1 hx.2.1 (Rx1.call (t := c.x.t) hs1 rfl)
        rw [hs1, Out.bind_ok]
        simp only
        by_cases he : p.encrypted = true
        · rw [if_pos he]
          exact ⟨_, rfl, fun rest h => by cases h⟩
        · rw [if_neg he]
          obtain ⟨s2, hs2⟩ := reserve_total v1 hx.1 hx.2.1 a (code := p.reservation) (fun r hr => by
            have := (ires r hr).1
            have hne : r ≠ 15 := fun h15 => b5 ⟨by simpa using he, by rw [hr, h15]⟩
            omega)
          rw [hs2, Out.bind_ok]
          by_cases hz : p.fragFlag.getD false = false ∧ sdu = []
          · rw [if_pos hz]
            exact ⟨_, rfl, fun rest h => by cases h⟩
          · rw [if_neg hz]
            obtain ⟨r, hr⟩ := firstOrWhole_total (s := s2) hx a (p.fragFlag.getD false) sdu
            rw [hr, Out.bind_ok]
            refine ⟨_, rfl, fun rest' h => ?_⟩
            cases h
            cases hli : p.lengthInd with
            | none => left; simp [MacAccess.lengthOf, hli]
            | some l =>
              right
              have hl0 : l ≠ 0 := fun h => h0 (by rw [hli, h])
              refine ⟨l, by simp [UlPdu.octets, hli], ?_⟩
              simp only [MacAccess.lengthOf, hli, hl0, if_false, drop_min]
    · simp only [hl, Option.isSome_some, if_true]
      exact ⟨_, rfl, fun rest h => by cases h⟩

theorem data_total {x : Time} {s : UmacBs} (h : View x s.log s.sched) {c : UlCtx} (hx : c.x.valid) {bits : List Bool}
    (hs : MacData.dec.run bits ≠ .panic) (hb : ¬ (headed .data (MacData.dec.run bits)).Bad) :
    Through (headed .data (MacData.dec.run bits)) bits (s.rxData c bits) := by
  unfold UmacBs.rxData
  cases hd : MacData.dec.run bits with
  | panic => exact absurd hd hs
  | err => exact ⟨_, rfl, fun rest h => by cases h⟩
  | ok q =>
    obtain ⟨p, rest⟩ := q
    obtain ⟨iaddr, isize, ilen, ires⟩ := data_inv hd
    rw [hd] at hb
    simp only [headed, UlPdu.Bad] at hb ⊢
    rcases iaddr with ⟨a, ha, hl, _⟩ | ⟨ha, l, hl⟩
    · simp only [hl, Option.isSome_none, Bool.false_eq_true, if_false, ha]
      simp only [hl, true_and, not_or] at hb
      obtain ⟨b1, b2⟩ := hb
      have hk : ∃ k, p.lengthOf bits.length = .ok k ∧ bits.length - rest.length ≤ min k.1 bits.length ∧
          (k.2.2.2 = true ∨ k.1 = bits.length ∨ ∃ l, (UlPdu.data p).octets = some l ∧ k.1 = l * 8) := by
        unfold MacData.lengthOf
        cases hli : p.lengthInd with
        | none =>
          obtain ⟨f, r, e1, e2, e3⟩ := ires hli
          simp only [e1]
          exact ⟨_, rfl, by simp, Or.inr (Or.inl rfl)⟩
        | some l =>
          have i1 := ilen l hli
          have i2 := i1.2.2.2 hl
          have n1 : ¬ (1 ≤ l ∧ l ≤ 4 ∨ 56 ≤ l ∧ l ≤ 61) := fun h => b1 ⟨l, hli, h⟩
          simp only
          by_cases c0 : l = 0
          · rw [if_pos c0]; exact ⟨_, rfl, by simp only; omega, Or.inl rfl⟩
          · rw [if_neg c0]
            by_cases c1 : 2 ≤ l ∧ l < 56
            · rw [if_pos c1]
              exact ⟨_, rfl, by simp only; omega, Or.inr (Or.inr ⟨l, by simp [UlPdu.octets, hli]; omega, rfl⟩)⟩
            · rw [if_neg c1]
              by_cases c2 : l = 62
              · rw [if_pos c2]; exact ⟨_, rfl, by simp, Or.inr (Or.inl rfl)⟩
              · rw [if_neg c2, if_pos (by omega)]; exact ⟨_, rfl, by simp, Or.inr (Or.inl rfl)⟩
      obtain ⟨k, hk1, hk2, hk3⟩ := hk
      rw [hk1, Out.bind_ok]
      obtain ⟨sdu, hsdu⟩ := cut_total hk2 (Nat.min_le_right _ _) p.fillBits
      rw [hsdu, Out.bind_ok]
      by_cases h0 : k.2.2.2 = true
      · rw [if_pos h0]
        exact ⟨_, rfl, fun rest h => by cases h⟩
      · rw [if_neg h0]
        by_cases he : p.encrypted = true
        · rw [if_pos he]
          exact ⟨_, rfl, fun rest h => by cases h⟩
        · rw [if_neg he]
          obtain ⟨s2, hs2⟩ := reserve_total h hx.1 hx.2.1 a (code := p.reservation) (fun r hr => by
            have hr16 : r < 16 := by
              cases hli : p.lengthInd with
              | none =>
                obtain ⟨f, r', e1, e2, e3⟩ := ires hli
                rw [hr] at e2; cases e2; exact e3
              | some l => have := (ilen l hli).2.1; rw [hr] at this; cases this
            have hne : r ≠ 15 := fun h15 => b2 ⟨by simpa using he, by rw [hr, h15]⟩
            omega)
          rw [hs2, Out.bind_ok]
          obtain ⟨r, hr⟩ := firstOrWhole_total (s := s2) hx a k.2.1 sdu
          rw [hr, Out.bind_ok]
          refine ⟨_, rfl, fun rest' h => ?_⟩
          cases h
          rcases hk3 with h3 | h3 | ⟨l, h3, h4⟩
          · exact absurd h3 h0
          · left; simp [h3]
          · right; exact ⟨l, h3, by rw [h4, drop_min]⟩
    · simp only [hl, Option.isSome_some, if_true]
      exact ⟨_, rfl, fun rest h => by cases h⟩

theorem end_total {x : Time} {s : UmacBs} (h : View x s.log s.sched) {c : UlCtx} (hx : c.x.valid) {bits : List Bool} {pos : Nat}
    {fill : Bool} {li res : Option Nat} (hpos : pos ≤ bits.length) (hlen : ∀ l, li = some l → pos ≤ l * 8)
    (hres : ∀ r, res = some r → r ≤ 14) :
    ∃ r, s.rxEnd c bits pos fill li res = .ok r ∧ ∀ rest, r.2.2 = some rest → rest.length < 16 ∨ ∃ l, li = some l ∧ rest = bits.drop (l * 8) := by
  unfold UmacBs.rxEnd
  have h1 : pos ≤ min (endLength li bits.length) bits.length := by
    unfold endLength
    cases li with
    | none => simpa using hpos
    | some l => have := hlen l rfl; simp only; omega
  obtain ⟨sdu, hsdu⟩ := cut_total h1 (Nat.min_le_right _ _) fill
  dsimp only
  rw [hsdu, Out.bind_ok]
  obtain ⟨o, ho⟩ := slotOwner_total s.sched.ul hx c.half
  rw [ho]
  simp only [Out.ofRes, Out.bind_ok]
  cases o with
  | none => exact ⟨_, rfl, fun rest h => by cases h⟩
  | some ssi =>
    obtain ⟨r, hr⟩ := frag_total (s := s) hx (Or.inr (Or.inr ⟨sdu, ssi, rfl⟩))
    simp only [hr, Out.bind_ok]
    cases hb : r.2 with
    | none => exact ⟨_, rfl, fun rest h => by cases h⟩
    | some b =>
      have v1 := h.rx hx.1 hx.2.1 (Rx1.frag (t := c.x.t) (o := r.2) (s' := r.1) hr)
      obtain ⟨s2, hs2⟩ := reserve_total v1 hx.1 hx.2.1 b.addr hres
      simp only [hs2, Out.bind_ok]
      refine ⟨_, rfl, fun rest' h => ?_⟩
      cases h
      cases li with
      | none => left; simp [endLength]
      | some l => right; exact ⟨l, rfl, drop_min _ _⟩

theorem endUl_total {x : Time} {s : UmacBs} (h : View x s.log s.sched) {c : UlCtx} (hx : c.x.valid) {bits : List Bool}
    (hs : MacEndUl.dec.run bits ≠ .panic) (hb : ¬ (headed .endUl (MacEndUl.dec.run bits)).Bad) :
    Through (headed .endUl (MacEndUl.dec.run bits)) bits (s.rxEndUl c bits) := by
  unfold UmacBs.rxEndUl
  cases hd : MacEndUl.dec.run bits with
  | panic => exact absurd hd hs
  | err => exact ⟨_, rfl, fun rest h => by cases h⟩
  | ok q =>
    obtain ⟨p, rest⟩ := q
    obtain ⟨i1, i2, l, i3, i4, i5⟩ := endUl_inv hd
    rw [hd] at hb
    simp only [headed, UlPdu.Bad, i3, Option.some.injEq] at hb
    simp only [headed]
    obtain ⟨r, hr, hrest⟩ := end_total h hx (bits := bits) (pos := bits.length - rest.length) (fill := p.fillBits) (li := p.lengthInd)
      (res := p.reservation) (by omega) (by intro l' hl'; rw [i3] at hl'; cases hl'; omega) (by intro r hr; rw [i2] at hr; cases hr)
    exact ⟨r, hr, hrest⟩

theorem endHu_total {x : Time} {s : UmacBs} (h : View x s.log s.sched) {c : UlCtx} (hx : c.x.valid) {bits : List Bool}
    (hs : MacEndHu.dec.run bits ≠ .panic) (hb : ¬ (headed .endHu (MacEndHu.dec.run bits)).Bad) :
    Through (headed .endHu (MacEndHu.dec.run bits)) bits (s.rxEndHu c bits) := by
  unfold UmacBs.rxEndHu
  cases hd : MacEndHu.dec.run bits with
  | panic => exact absurd hd hs
  | err => exact ⟨_, rfl, fun rest h => by cases h⟩
  | ok q =>
    obtain ⟨p, rest⟩ := q
    obtain ⟨i1, i2, i3⟩ := endHu_inv hd
    rw [hd] at hb
    simp only [headed, UlPdu.Bad] at hb
    simp only [headed]
    by_cases h0 : p.lengthInd = some 0
    · rw [if_pos h0]; exact ⟨_, rfl, fun rest h => by cases h⟩
    · rw [if_neg h0]
      obtain ⟨r, hr, hrest⟩ := end_total h hx (bits := bits) (pos := bits.length - rest.length) (fill := p.fillBits) (li := p.lengthInd)
        (res := p.reservation) (by omega) (by
          intro l' hl'
          have : l' ≠ 0 := fun h => h0 (by rw [hl', h])
          omega) (by
          intro r hr
          have := (i3 r hr).1
          have : r ≠ 15 := fun h => hb (by rw [hr, h])
          omega)
      exact ⟨r, hr, hrest⟩

theorem fragUl_total {s : UmacBs} {c : UlCtx} (hx : c.x.valid) {bits : List Bool} (hs : MacFrag.dec.run bits ≠ .panic) :
    Through .other bits (s.rxFrag c bits) := by
  unfold UmacBs.rxFrag
  cases hd : MacFrag.dec.run bits with
  | panic => exact absurd hd hs
  | err => exact ⟨_, rfl, fun rest h => by cases h⟩
  | ok q =>
    obtain ⟨p, rest⟩ := q
    have i1 := frag_inv hd
    obtain ⟨sdu, hsdu⟩ := cut_total (bits := bits) (pos := bits.length - rest.length) (len := bits.length) (by omega) (Nat.le_refl _) p.fillBits
    simp only [hsdu, Out.bind_ok]
    obtain ⟨o, ho⟩ := slotOwner_total s.sched.ul hx c.half
    rw [ho]
    simp only [Out.ofRes, Out.bind_ok]
    cases o with
    | none => exact ⟨_, rfl, fun rest h => by cases h⟩
    | some ssi =>
      obtain ⟨r, hr⟩ := frag_total (s := s) hx (Or.inr (Or.inl ⟨sdu, ssi, rfl⟩))
      simp only [hr, Out.bind_ok]
      exact ⟨_, rfl, fun rest h => by cases h⟩

theorem pdu_total {x : Time} {s : UmacBs} (h : View x s.log s.sched) {c : UlCtx} (hx : c.x.valid) {bits : List Bool}
    (hb : ¬ (ulPdu c.chan bits).Bad) : Through (ulPdu c.chan bits) bits (s.rxPdu c bits) := by
  have none_ : ∀ p : UlPdu, Through p bits (.ok (s, [], none)) := fun p => ⟨_, rfl, fun rest h => by cases h⟩
  have nul : ∀ b0 b1 b2 r, bits = b0 :: b1 :: b2 :: r → c.chan ≠ .schHu → Through (ulPdu c.chan bits) bits (s.rxPdu c bits) := by
    intro b0 b1 b2 r he hch
    subst he
    unfold UmacBs.rxPdu
    simp only [hch, if_false]
    cases b0 with
    | false =>
      cases b1 with
      | false =>
        have hp : ulPdu c.chan (false :: false :: b2 :: r) = headed .data (MacData.dec.run (false :: false :: b2 :: r)) := by
          cases hc : c.chan with
          | schHu => exact absurd hc hch
          | schF => rfl
          | stch => rfl
        rw [hp] at hb ⊢
        exact data_total h hx (data_safe _) hb
      | true =>
        cases b2 with
        | true =>
          have hp : ulPdu c.chan (false :: true :: true :: r) = headed .endUl (MacEndUl.dec.run (false :: true :: true :: r)) := by
            cases hc : c.chan with
            | schHu => exact absurd hc hch
            | schF => rfl
            | stch => rfl
          rw [hp] at hb ⊢
          exact endUl_total h hx (endUl_safe _) hb
        | false =>
          have hp : ulPdu c.chan (false :: true :: false :: r) = .other := by
            cases hc : c.chan with
            | schHu => exact absurd hc hch
            | schF => rfl
            | stch => rfl
          rw [hp]
          exact fragUl_total hx (frag_safe _)
    | true =>
      cases b1 with
      | false => exact none_ _
      | true =>
        by_cases hst : c.chan = .stch
        · simp only [hst, if_true]
          unfold UmacBs.rxSignal
          rw [signal_safe]
          exact ⟨_, rfl, fun rest h => by cases h⟩
        · have hf : c.chan = .schF := by cases hc : c.chan <;> simp_all
          simp only [hst, if_false]
          cases b2 with
          | true => exact none_ _
          | false =>
            rw [hf] at hb ⊢
            have hp : ulPdu .schF (true :: true :: false :: r) = headed .blck (MacUBlck.dec.run (true :: true :: false :: r)) := rfl
            rw [hp] at hb ⊢
            simp only [Bool.false_eq_true, if_false]
            unfold UmacBs.rxBlck
            cases hd : MacUBlck.dec.run (true :: true :: false :: r) with
            | panic => exact absurd hd (blck_safe _)
            | err => exact ⟨_, rfl, fun rest h => by cases h⟩
            | ok q => rw [hd] at hb; exact absurd trivial hb
  match bits, nul, hb, none_ with
  | [], _, _, none_ => cases c.chan <;> exact none_ _
  | [_], _, _, none_ => cases c.chan <;> exact none_ _
  | [_, _], _, _, none_ => cases c.chan <;> exact none_ _
  | b0 :: b1 :: b2 :: r, nul, hb, none_ =>
    by_cases hch : c.chan = .schHu
    · unfold UmacBs.rxPdu
      rw [hch] at hb ⊢
      simp only [if_true]
      cases b0 with
      | true => exact endHu_total h hx (endHu_safe _) hb
      | false => exact access_total h hx (access_safe _) hb
    · exact nul b0 b1 b2 r rfl hch

theorem loop_total {x : Time} {c : UlCtx} (hx : c.x.valid) {n : Nat} {s : UmacBs} (h : View x s.log s.sched) {bits : List Bool}
    (hb : ∀ p ∈ pdusIn n c.chan bits, ¬ p.Bad) : ∃ r, UmacBs.rxLoop n s c bits = .ok r := by
  induction n generalizing s bits with
  | zero => exact ⟨_, rfl⟩
  | succ n ih =>
    obtain ⟨r, hr, hrest⟩ := pdu_total h hx (bits := bits) (hb _ (by simp [pdusIn]))
    have v1 := h.rx hx.1 hx.2.1 (rxPdu_rx hr)
    simp only [UmacBs.rxLoop, hr, Out.bind_ok]
    cases hk : r.2.2 with
    | none => exact ⟨_, rfl⟩
    | some rest =>
      simp only
      split
      · rename_i hc
        rcases hrest rest hk with h16 | ⟨l, hl, rfl⟩
        · omega
        · obtain ⟨q, hq⟩ := ih v1 (bits := bits.drop (l * 8)) (fun p hp => hb p (by
            simp only [pdusIn, hl, if_pos hc.1, List.mem_cons]
            exact Or.inr hp))
          rw [hq]
          exact ⟨_, rfl⟩
      · exact ⟨_, rfl⟩

end Verif.Umac
