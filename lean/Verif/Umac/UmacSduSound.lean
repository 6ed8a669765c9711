import Verif.Umac.UmacSdu
import Verif.Umac.UmacOrders
/-!
# Where the messages handed on and the parts put together come from
-/
namespace Verif.Umac
open Verif.Tdma Verif.Codec Verif.Bits

/-! ## Specification -/

/-- The halves of a slot a block takes up; `second` tells the halves apart. -/
def BlockNum.uses : BlockNum → Bool → Bool
  | .block1, second => !second
  | .block2, second => second
  | .both, _ => true

/-- All of the block in slot `n` was granted to station `ssi`, by the grants made so far. -/
def Granted (gs : List Given) (n : Int) (b : BlockNum) (ssi : Nat) : Prop :=
  ∀ second, b.uses second = true → ∃ g ∈ gs, g.ssi = ssi ∧ g.covers n second

/-- The step of the reassembly comes from this block: its bits were sent in it, and what is attributed to a station came in a
slot granted to that station. -/
def FragFrom (own : Nat → Prop) (c : UlCtx) (P : Piece → Prop) : BsEv → Prop
  | .first b x a => x = c.x ∧ P (.first a b)
  | .next b ssi x => x = c.x ∧ P (.next b) ∧ own ssi
  | .last b ssi x => x = c.x ∧ P (.last b) ∧ own ssi
  | .age _ => False

/-- Where a message handed on comes from: it is in the block; it is in the block without an address; or its last part is in the
block, the block was granted to the station, and it is what was received of this station on this timeslot before and this last part. After an overflow an empty
message without an address is handed on (see the findings on C20). -/
def Origin (own : Nat → Prop) (fr : List BsEv) (c : UlCtx) (P : Piece → Prop) (a : Addr) (b : List Bool) : Prop :=
  P (.whole a b) ∨ (a = ⟨0, .ssi, false⟩ ∧ P (.signal b)) ∨
  ∃ l ssi pre post, P (.last l) ∧ own ssi ∧ fr = pre ++ .last l ssi c.x :: post ∧
    ((∃ t, tracked c.x.t ssi pre = some t ∧ a = t.addr ∧ b = t.parts.flatten ++ l) ∨
     (a = ⟨0, .unknown, false⟩ ∧ b = [] ∧ ∀ t, tracked c.x.t ssi pre = some t → 4096 < (t.parts.flatten ++ l).length))

/-! ## Proof -/

/-- The situation in which a block for slot `n` is received. -/
structure At (x : Time) (n : Int) (c : UlCtx) (s : UmacBs) : Prop where
  view : View x s.log s.sched
  frags : Follows s.defrag s.frags
  time : c.x = fromInt n
  lo : clockAfter x.toInt s.log - 2 ≤ n
  hi : n ≤ clockAfter x.toInt s.log

theorem At.valid {x : Time} {n : Int} {c : UlCtx} {s : UmacBs} (h : At x n c s) : c.x.valid := by
  rw [h.time]; exact fromInt_valid n

theorem rx_clock {x : Int} {t : Nat} {s s' : UmacBs} (hr : Rx1 t s s') : clockAfter x s'.log = clockAfter x s.log := by
  obtain ⟨cs, fs, v, _, k⟩ := hr
  rw [clockAfter_eq, clockAfter_eq, v.log, List.map_append]
  have : ticksIn (cs.map Prod.fst) = 0 := by
    unfold ticksIn
    rw [List.countP_eq_zero]
    intro e he
    obtain ⟨p, hp, rfl⟩ := List.mem_map.1 he
    have := k p hp
    cases hq : p.1 <;> simp [hq, RxCall] at this ⊢
  unfold ticksIn at this ⊢
  rw [List.countP_append, this, Nat.add_zero]

theorem At.rx {x : Time} {n : Int} {c : UlCtx} {s s' : UmacBs} (h : At x n c s) (hr : Rx1 c.x.t s s') : At x n c s' := by
  have hc := rx_clock (x := x.toInt) hr
  refine ⟨h.view.rx h.valid.1 h.valid.2.1 hr, ?_, h.time, by rw [hc]; exact h.lo, by rw [hc]; exact h.hi⟩
  obtain ⟨cs, fs, v, _, _⟩ := hr
  obtain ⟨os, hd⟩ := v.defrag
  rw [v.frags]
  exact follows_run h.frags hd

theorem At.owner {x : Time} {n : Int} {c : UlCtx} {s : UmacBs} (h : At x n c s) (ssi : Nat) :
    slotOwner s.sched.ul c.x c.half = .ok (some ssi) ↔ Granted (grantsIn x.toInt s.log) n c.half ssi := by
  have hw : window (clockAfter x.toInt s.log - 2) n := ⟨h.lo, by have := h.hi; omega⟩
  have o1 := h.view.table.own1 n hw ssi
  have o2 := h.view.table.own2 n hw ssi
  unfold slotOwner
  rw [h.time, idx_fromInt, schedIndex_fromInt]
  unfold Granted
  cases c.half with
  | block1 =>
    simp only [BlockNum.uses, Bool.not_eq_true', forall_eq]
    rw [← o1]
    change Res.ok (s.sched.ul.at n).ul1 = Res.ok (some ssi) ↔ _
    rw [Res.ok.injEq]
  | block2 =>
    simp only [BlockNum.uses, forall_eq]
    rw [← o2]
    change Res.ok (s.sched.ul.at n).ul2 = Res.ok (some ssi) ↔ _
    rw [Res.ok.injEq]
  | both =>
    simp only [BlockNum.uses, forall_const, Bool.forall_bool]
    rw [← o1, ← o2]
    change Res.ok (if (s.sched.ul.at n).ul1 = (s.sched.ul.at n).ul2 then (s.sched.ul.at n).ul1 else none) = _ ↔ _
    rw [Res.ok.injEq]
    split
    · rename_i e; rw [← e]; simp
    · rename_i e
      constructor
      · intro h; cases h
      · rintro ⟨h1, h2⟩; exact absurd (h1.trans h2.symm) e

theorem grantsIn_mono {n : Int} {a b : List (SchedEv × SchedRet)} (h : a <+: b) : grantsIn n a ⊆ grantsIn n b := by
  obtain ⟨c, rfl⟩ := h
  unfold grantsIn
  rw [List.filterMap_append, given_append]
  exact List.subset_append_left _ _

theorem Granted.mono {gs gs' : List Given} (h : gs ⊆ gs') {n : Int} {b : BlockNum} {ssi : Nat} (hg : Granted gs n b ssi) : Granted gs' n b ssi := by
  intro second hs
  obtain ⟨g, hm, hr⟩ := hg second hs
  exact ⟨g, h hm, hr⟩

theorem FragFrom.mono {own own' : Nat → Prop} {c : UlCtx} {P P' : Piece → Prop} (h1 : ∀ i, own i → own' i) (h2 : ∀ q, P q → P' q) {e : BsEv}
    (h : FragFrom own c P e) : FragFrom own' c P' e := by
  cases e with
  | first b x a => exact ⟨h.1, h2 _ h.2⟩
  | next b i x => exact ⟨h.1, h2 _ h.2.1, h1 _ h.2.2⟩
  | last b i x => exact ⟨h.1, h2 _ h.2.1, h1 _ h.2.2⟩
  | age t => exact h

theorem Origin.mono {own own' : Nat → Prop} {fr fs : List BsEv} {c : UlCtx} {P P' : Piece → Prop} (h1 : ∀ i, own i → own' i)
    (h2 : ∀ q, P q → P' q) {a : Addr} {b : List Bool} (h : Origin own fr c P a b) : Origin own' (fr ++ fs) c P' a b := by
  rcases h with h | ⟨h3, h⟩ | ⟨l, ssi, pre, post, h3, h6, h4, h5⟩
  · exact .inl (h2 _ h)
  · exact .inr (.inl ⟨h3, h2 _ h⟩)
  · exact .inr (.inr ⟨l, ssi, pre, post ++ fs, h2 _ h3, h1 _ h6, by rw [h4]; simp, h5⟩)

/-- Everything from `s` to `s'` is accounted for. -/
structure Sound (x : Time) (n : Int) (c : UlCtx) (P : Piece → Prop) (s s' : UmacBs) (out : List UmacOut) : Prop where
  log : s.log <+: s'.log
  frags : ∃ fs, s'.frags = s.frags ++ fs ∧ ∀ e ∈ fs, FragFrom (Granted (grantsIn x.toInt s'.log) n c.half) c P e
  out : ∀ y a b, .sdu y a b ∈ out → y = c.x ∧ Origin (Granted (grantsIn x.toInt s'.log) n c.half) s'.frags c P a b

theorem Sound.mono {x : Time} {n : Int} {c : UlCtx} {P P' : Piece → Prop} {s s' : UmacBs} {out : List UmacOut} (h2 : ∀ q, P q → P' q)
    (h : Sound x n c P s s' out) : Sound x n c P' s s' out := by
  obtain ⟨fs, h3, h4⟩ := h.frags
  refine ⟨h.log, ⟨fs, h3, fun e he => (h4 e he).mono (fun _ h => h) h2⟩, fun y a b ho => ?_⟩
  obtain ⟨h5, h6⟩ := h.out y a b ho
  have := h6.mono (fs := []) (fun _ h => h) h2
  rw [List.append_nil] at this
  exact ⟨h5, this⟩

theorem Sound.trans {x : Time} {n : Int} {c : UlCtx} {P : Piece → Prop} {s s1 s2 : UmacBs} {o1 o2 : List UmacOut}
    (h1 : Sound x n c P s s1 o1) (h2 : Sound x n c P s1 s2 o2) : Sound x n c P s s2 (o1 ++ o2) := by
  obtain ⟨f1, e1, k1⟩ := h1.frags
  obtain ⟨f2, e2, k2⟩ := h2.frags
  refine ⟨h1.log.trans h2.log, ⟨f1 ++ f2, by rw [e2, e1, List.append_assoc], ?_⟩, ?_⟩
  · intro e he
    rcases List.mem_append.1 he with he | he
    · exact (k1 e he).mono (fun _ h => h.mono (grantsIn_mono h2.log)) (fun _ h => h)
    · exact k2 e he
  · intro y a b ho
    rcases List.mem_append.1 ho with ho | ho
    · obtain ⟨h3, h4⟩ := h1.out y a b ho
      rw [e2]
      exact ⟨h3, h4.mono (fun _ h => h.mono (grantsIn_mono h2.log)) (fun _ h => h)⟩
    · exact h2.out y a b ho

/-- Nothing handed on and nothing for the reassembly. -/
theorem Sound.calm {x : Time} {n : Int} {c : UlCtx} {P : Piece → Prop} {s s' : UmacBs} {out : List UmacOut} (hl : s.log <+: s'.log)
    (hf : s'.frags = s.frags) (ho : ∀ y a b, .sdu y a b ∉ out) : Sound x n c P s s' out :=
  ⟨hl, ⟨[], by simp [hf], by simp⟩, fun y a b h => absurd h (ho y a b)⟩

theorem Sound.none {x : Time} {n : Int} {c : UlCtx} {P : Piece → Prop} {s : UmacBs} : Sound x n c P s s [] :=
  .calm List.prefix_rfl rfl (by simp)

theorem call_calm {s s' : UmacBs} {e : SchedEv} {r : SchedRet} (h : s.call e = .ok (s', r)) : s.log <+: s'.log ∧ s'.frags = s.frags := by
  obtain ⟨v, _⟩ := call_via h
  exact ⟨⟨_, v.log.symm⟩, by rw [v.frags, List.append_nil]⟩

theorem reserve_calm {s s' : UmacBs} {t : Nat} {a : Addr} {code : Option Nat} (h : s.reserve t a code = .ok s') :
    s.log <+: s'.log ∧ s'.frags = s.frags := by
  cases code with
  | none => cases h; exact ⟨List.prefix_rfl, rfl⟩
  | some code =>
    simp only [UmacBs.reserve] at h
    rw [Out.bind_eq_ok] at h; obtain ⟨⟨s1, r1⟩, h1, h⟩ := h
    obtain ⟨p1, f1⟩ := call_calm h1
    simp only at h
    split at h
    · rw [Out.bind_eq_ok] at h; obtain ⟨⟨s2, r2⟩, h2, h⟩ := h
      cases h
      obtain ⟨p2, f2⟩ := call_calm h2
      exact ⟨p1.trans p2, f2.trans f1⟩
    · cases h; exact ⟨p1, f1⟩

theorem frag_sound {x : Time} {n : Int} {c : UlCtx} {P : Piece → Prop} {s s' : UmacBs} {e : BsEv} {o : Option DefragBuf}
    (h : s.frag e = .ok (s', o)) (he : FragFrom (Granted (grantsIn x.toInt s.log) n c.half) c P e) : Sound x n c P s s' [] := by
  obtain ⟨v, _⟩ := frag_via h
  have hl : s'.log = s.log := by rw [v.log, List.append_nil]
  exact ⟨by rw [hl]; exact List.prefix_rfl, ⟨[e], v.frags, by rw [hl]; simpa using he⟩, by simp⟩

theorem firstOrWhole_sound {x : Time} {n : Int} {c : UlCtx} {P : Piece → Prop} {s s' : UmacBs} {a : Addr} {f : Bool} {sdu : List Bool}
    {out : List UmacOut} (h : s.firstOrWhole c a f sdu = .ok (s', out)) (h1 : f = true → P (.first a sdu)) (h2 : f = false → P (.whole a sdu)) :
    Sound x n c P s s' out := by
  unfold UmacBs.firstOrWhole at h
  cases f with
  | true =>
    simp only [if_true] at h
    rw [Out.bind_eq_ok] at h; obtain ⟨r, h3, h⟩ := h
    cases h
    exact frag_sound (o := r.2) h3 ⟨rfl, h1 rfl⟩
  | false =>
    cases h
    refine ⟨List.prefix_rfl, ⟨[], by simp, by simp⟩, ?_⟩
    intro y a' b ho
    split at ho
    · simp at ho
    · rw [List.mem_singleton] at ho
      cases ho
      exact ⟨rfl, .inl (h2 rfl)⟩

/-- What is left after a PDU. -/
def Left (ch : UlChan) (bits : List Bool) (r : Option (List Bool)) : Prop :=
  ∀ rest, r = some rest → 16 ≤ rest.length → ∃ l, (ulPdu ch bits).octets = some l ∧ rest = bits.drop (l * 8)

theorem Left.none {ch : UlChan} {bits : List Bool} : Left ch bits none := by intro rest h; cases h

theorem drop_pduEnd {ch : UlChan} {bits : List Bool} {o : Option Nat} (h : (ulPdu ch bits).octets = o) :
    Left ch bits (some (bits.drop (pduEnd o bits))) := by
  intro rest hr hl
  cases hr
  cases o with
  | none => simp [pduEnd] at hl
  | some l => exact ⟨l, h, by simp only [pduEnd, drop_min]⟩

theorem pre_calm (b : Bool) (y : Time) (a : Addr) (l : List Bool) : UmacOut.sdu y a l ∉ (if b then [UmacOut.secondHalf] else []) := by
  cases b <;> simp

theorem data_end {p : MacData} {avail : Nat} {k : Nat × Bool × Bool × Bool} (h : p.lengthOf avail = .ok k) :
    (k.2.2.2 = false → min k.1 avail = pduEnd (UlPdu.data p).octets (List.replicate avail false)) ∧
    (k.2.2.2 = true ↔ p.lengthInd = some 0) ∧
    (k.2.1 = true ↔ p.lengthInd = some 63 ∨ p.lengthInd = none ∧ p.fragFlag = some true) := by
  unfold MacData.lengthOf at h
  split at h
  · rename_i l hl
    by_cases h0 : l = 0
    · rw [if_pos h0] at h; cases h; subst h0; simp [hl]
    rw [if_neg h0] at h
    by_cases h1 : 2 ≤ l ∧ l < 56
    · rw [if_pos h1] at h; cases h
      have e1 : l ≠ 62 := by omega
      have e2 : l ≠ 63 := by omega
      simp [hl, h0, e1, e2, UlPdu.octets, pduEnd]
    rw [if_neg h1] at h
    by_cases h2 : l = 62
    · rw [if_pos h2] at h; cases h; subst h2; simp [hl, UlPdu.octets, pduEnd]
    rw [if_neg h2] at h
    by_cases h3 : l = 63
    · rw [if_pos h3] at h; cases h; subst h3; simp [hl, UlPdu.octets, pduEnd]
    · rw [if_neg h3] at h; cases h
  · rename_i hl
    split at h
    · rename_i f hf
      cases h
      simp [hl, hf, UlPdu.octets, pduEnd]
    · cases h

theorem pduEnd_length (o : Option Nat) (bits : List Bool) : pduEnd o (List.replicate bits.length false) = pduEnd o bits := by
  cases o <;> simp [pduEnd]

theorem data_sound {x : Time} {n : Int} {c : UlCtx} {s : UmacBs} {bits : List Bool}
    (hc : c.chan ≠ .schHu) (hu : ulPdu c.chan bits = headed .data (MacData.dec.run bits))
    {r : UmacBs × List UmacOut × Option (List Bool)} (h : s.rxData c bits = .ok r) :
    Sound x n c (Starts c.chan bits) s r.1 r.2.1 ∧ Left c.chan bits r.2.2 := by
  unfold UmacBs.rxData at h
  split at h
  · cases h; exact ⟨.none, .none⟩
  · cases h
  · rename_i p rest hd
    split at h
    · cases h; exact ⟨.none, .none⟩
    · rename_i hlab
      split at h
      · cases h
      · rename_i a ha
        rw [Out.bind_eq_ok] at h; obtain ⟨k, hk, h⟩ := h
        rw [Out.bind_eq_ok] at h; obtain ⟨sdu, hcut, h⟩ := h
        dsimp only at h
        by_cases h0 : k.2.2.2 = true
        · rw [if_pos h0] at h; cases h
          exact ⟨.calm List.prefix_rfl rfl (pre_calm _), .none⟩
        rw [if_neg h0] at h
        by_cases h3 : p.encrypted = true
        · rw [if_pos h3] at h; cases h
          exact ⟨.calm List.prefix_rfl rfl (pre_calm _), .none⟩
        rw [if_neg h3, Out.bind_eq_ok] at h; obtain ⟨s1, h1, h⟩ := h
        rw [Out.bind_eq_ok] at h; obtain ⟨⟨s2, o2⟩, h2, h⟩ := h
        cases h
        obtain ⟨e1, e2, e3⟩ := data_end hk
        rw [pduEnd_length] at e1
        have e1 := e1 (by simpa using h0)
        rw [e1] at hcut
        have hfr := framed_of_cut data_eats (fill := (·.fillBits)) hd hcut
        have hnull : p.lengthInd ≠ some 0 := fun h => h0 (e2.2 h)
        have henc : p.encrypted = false := by simpa using h3
        have hlen := (data_inv hd).len
        obtain ⟨c1, c2⟩ := reserve_calm h1
        refine ⟨?_, ?_⟩
        · refine Sound.trans (.calm List.prefix_rfl rfl (pre_calm _)) ?_
          refine Sound.trans (o1 := []) (.calm c1 c2 (by simp)) (firstOrWhole_sound h2 ?_ ?_)
          · intro hf
            refine .dataFirst hc hfr ha henc ?_
            rcases e3.1 hf with h | h
            · exact .inl h
            · exact .inr h.2
          · intro hf
            refine .data hc hfr ha henc hnull ?_ ?_
            · intro h; rw [e3.2 (.inl h)] at hf; cases hf
            · intro h
              have : p.lengthInd = none := by
                cases hl : p.lengthInd with
                | none => rfl
                | some l => have := (hlen l hl).2.2.1; rw [h] at this; cases this
              rw [e3.2 (.inr ⟨this, h⟩)] at hf; cases hf
        · show Left c.chan bits (some _)
          rw [e1]
          refine drop_pduEnd ?_
          rw [hu, hd]; rfl

theorem access_end {p : MacAccess} {avail : Nat} (h : p.lengthInd ≠ some 0) :
    min (p.lengthOf avail) avail = pduEnd p.lengthInd (List.replicate avail false) := by
  unfold MacAccess.lengthOf pduEnd
  split
  · rename_i l hl
    have : l ≠ 0 := by rintro rfl; exact h hl
    simp [hl, this]
  · rename_i hl
    simp [hl]

theorem access_sound {x : Time} {n : Int} {c : UlCtx} {s : UmacBs} {bits : List Bool}
    (hc : c.chan = .schHu) (hu : ulPdu c.chan bits = headed .access (MacAccess.dec.run bits))
    {r : UmacBs × List UmacOut × Option (List Bool)} (h : s.rxAccess c bits = .ok r) :
    Sound x n c (Starts c.chan bits) s r.1 r.2.1 ∧ Left c.chan bits r.2.2 := by
  unfold UmacBs.rxAccess at h
  split at h
  · cases h; exact ⟨.none, .none⟩
  · cases h
  · rename_i p rest hd
    split at h
    · cases h; exact ⟨.none, .none⟩
    · split at h
      · cases h
      · rename_i a ha
        rw [Out.bind_eq_ok] at h; obtain ⟨sdu, hcut, h⟩ := h
        dsimp only at h
        by_cases h0 : p.lengthInd = some 0
        · rw [if_pos h0] at h; cases h; exact ⟨.none, .none⟩
        rw [if_neg h0, Out.bind_eq_ok] at h; obtain ⟨⟨s1, r1⟩, h1, h⟩ := h
        obtain ⟨c1, c2⟩ := call_calm h1
        dsimp only at h
        by_cases h3 : p.encrypted = true
        · rw [if_pos h3] at h; cases h
          exact ⟨.calm c1 c2 (by simp), .none⟩
        rw [if_neg h3, Out.bind_eq_ok] at h; obtain ⟨s2, h2, h⟩ := h
        obtain ⟨c3, c4⟩ := reserve_calm h2
        have henc : p.encrypted = false := by simpa using h3
        have e1 := access_end (avail := bits.length) h0
        rw [pduEnd_length] at e1
        rw [e1] at hcut
        have hfr := framed_of_cut access_eats (fill := (·.fillBits)) hd hcut
        by_cases h5 : p.fragFlag.getD false = false ∧ sdu = []
        · rw [if_pos h5] at h; cases h
          exact ⟨.calm (c1.trans c3) (c4.trans c2) (by simp), .none⟩
        rw [if_neg h5, Out.bind_eq_ok] at h; obtain ⟨⟨s3, o3⟩, h4, h⟩ := h
        cases h
        refine ⟨?_, ?_⟩
        · refine Sound.trans (o1 := []) (.calm (c1.trans c3) (c4.trans c2) (by simp)) (firstOrWhole_sound h4 ?_ ?_)
          · intro hf
            refine .accessFirst hc hfr ha henc ?_
            cases hq : p.fragFlag with
            | none => rw [hq] at hf; cases hf
            | some f => rw [hq] at hf; simp only [Option.getD_some] at hf; rw [hf]
          · intro hf
            refine .access hc hfr ha henc h0 ?_
            intro hq
            rw [hq] at hf; cases hf
        · show Left c.chan bits (some _)
          rw [e1]
          refine drop_pduEnd ?_
          rw [hu, hd]; rfl

theorem frag_pdu_sound {x : Time} {n : Int} {c : UlCtx} {s : UmacBs} {bits : List Bool} (hs : At x n c s) (hc : c.chan ≠ .schHu)
    {r : UmacBs × List UmacOut × Option (List Bool)} (h : s.rxFrag c bits = .ok r) :
    Sound x n c (Starts c.chan bits) s r.1 r.2.1 ∧ Left c.chan bits r.2.2 := by
  unfold UmacBs.rxFrag at h
  split at h
  · cases h; exact ⟨.none, .none⟩
  · cases h
  · rename_i p rest hd
    rw [Out.bind_eq_ok] at h; obtain ⟨sdu, hcut, h⟩ := h
    rw [Out.bind_eq_ok] at h; obtain ⟨o, ho, h⟩ := h
    rw [Out.ofRes_eq_ok] at ho
    split at h
    · cases h; exact ⟨.none, .none⟩
    · rw [Out.bind_eq_ok] at h; obtain ⟨⟨s1, o1⟩, h1, h⟩ := h
      cases h
      exact ⟨frag_sound h1 ⟨rfl, .frag hc (framed_of_cut frag_eats (fill := (·.fillBits)) hd hcut), (hs.owner _).1 ho⟩, .none⟩

theorem end_end (o : Option Nat) (bits : List Bool) : min (endLength o bits.length) bits.length = pduEnd o bits := by
  cases o <;> simp [endLength, pduEnd]

theorem end_sound {x : Time} {n : Int} {c : UlCtx} {s : UmacBs} {bits : List Bool} (hs : At x n c s) {pos : Nat} {fill : Bool} {l v : Option Nat}
    (hu : (ulPdu c.chan bits).octets = l) (hst : ∀ sdu, cutPdu bits pos (pduEnd l bits) fill = .ok sdu → Starts c.chan bits (.last sdu))
    {r : UmacBs × List UmacOut × Option (List Bool)} (h : s.rxEnd c bits pos fill l v = .ok r) :
    Sound x n c (Starts c.chan bits) s r.1 r.2.1 ∧ Left c.chan bits r.2.2 := by
  unfold UmacBs.rxEnd at h
  rw [Out.bind_eq_ok] at h; obtain ⟨sdu, hcut, h⟩ := h
  rw [Out.bind_eq_ok] at h; obtain ⟨o, ho, h⟩ := h
  rw [Out.ofRes_eq_ok] at ho
  rw [end_end] at hcut
  split at h
  · cases h; exact ⟨.none, .none⟩
  · rename_i ssi
    rw [Out.bind_eq_ok] at h; obtain ⟨⟨s1, o1⟩, h1, h⟩ := h
    have hg : FragFrom (Granted (grantsIn x.toInt s.log) n c.half) c (Starts c.chan bits) (.last sdu ssi c.x) :=
      ⟨rfl, hst sdu hcut, (hs.owner _).1 ho⟩
    have hs1 := frag_sound h1 hg
    dsimp only at h
    split at h
    · cases h; exact ⟨hs1, .none⟩
    · rename_i b
      rw [Out.bind_eq_ok] at h; obtain ⟨s2, h2, h⟩ := h
      cases h
      obtain ⟨c1, c2⟩ := reserve_calm h2
      refine ⟨?_, ?_⟩
      · have hb := hs1.trans (.calm (out := []) c1 c2 (by simp))
        refine ⟨hb.log, hb.frags, ?_⟩
        intro y a b' hm
        rw [List.mem_singleton] at hm
        cases hm
        refine ⟨rfl, .inr (.inr ⟨sdu, ssi, s.frags, [], hst sdu hcut, ?_, ?_, ?_⟩)⟩
        · rw [(frag_via h1).1.log, List.append_nil] at c1
          exact ((hs.owner _).1 ho).mono (grantsIn_mono c1)
        · rw [c2, (frag_via h1).1.frags]
        · obtain ⟨d', o', e1, e2, e3⟩ := last_delivers hs.frags sdu ssi c.x ⟨hs.valid.1, hs.valid.2.1⟩
          unfold UmacBs.frag at h1
          rw [e1] at h1
          simp only [Out.ofRes, Out.bind_ok, Out.ok.injEq, Prod.mk.injEq] at h1
          obtain ⟨_, rfl⟩ := h1
          by_cases hl : ∃ t, tracked c.x.t ssi s.frags = some t ∧ (t.parts.flatten ++ sdu).length ≤ 4096
          · obtain ⟨t, ht, hl⟩ := hl
            obtain ⟨b', hb', e4, e5⟩ := e2 t ht hl
            cases hb'
            exact .inl ⟨t, ht, e4, e5⟩
          · right
            rcases e3 (fun t ht hle => hl ⟨t, ht, hle⟩) with h | ⟨b', hb', e4, e5⟩
            · cases h
            · cases hb'
              exact ⟨e5, e4, fun t ht => Nat.lt_of_not_le fun hle => hl ⟨t, ht, hle⟩⟩
      · show Left c.chan bits (some _)
        rw [end_end]
        exact drop_pduEnd hu

theorem pdu_sound {x : Time} {n : Int} {c : UlCtx} {s : UmacBs} {bits : List Bool} (hs : At x n c s)
    {r : UmacBs × List UmacOut × Option (List Bool)} (h : s.rxPdu c bits = .ok r) :
    Sound x n c (Starts c.chan bits) s r.1 r.2.1 ∧ Left c.chan bits r.2.2 := by
  unfold UmacBs.rxPdu at h
  split at h
  · rename_i b0 b1 b2 tl
    by_cases hc : c.chan = .schHu
    · rw [if_pos hc] at h
      cases b0 with
      | true =>
        simp only [if_true] at h
        unfold UmacBs.rxEndHu at h
        split at h
        · cases h; exact ⟨.none, .none⟩
        · cases h
        · rename_i p rest hd
          split at h
          · cases h; exact ⟨.none, .none⟩
          · rename_i h0
            refine end_sound hs ?_ ?_ h
            · rw [hc]; simp only [ulPdu, hd, headed, UlPdu.octets]
            · intro sdu hcut
              exact .endHu hc h0 (framed_of_cut endHu_eats (fill := (·.fillBits)) hd hcut)
      | false =>
        simp only [Bool.false_eq_true, if_false] at h
        exact access_sound hc (by rw [hc]; rfl) h
    · rw [if_neg hc] at h
      cases b0 with
      | false =>
        simp only [if_true] at h
        cases b1 with
        | false =>
          simp only [if_true] at h
          exact data_sound hc (by cases hcc : c.chan <;> first | rfl | exact absurd hcc hc) h
        | true =>
          simp only [Bool.true_eq_false, if_false] at h
          cases b2 with
          | true =>
            simp only [if_true] at h
            unfold UmacBs.rxEndUl at h
            split at h
            · cases h; exact ⟨.none, .none⟩
            · cases h
            · rename_i p rest hd
              refine end_sound hs ?_ ?_ h
              · cases hcc : c.chan <;> first | exact absurd hcc hc | simp only [ulPdu, hd, headed, UlPdu.octets]
              · intro sdu hcut
                exact .endUl hc (framed_of_cut endUl_eats (fill := (·.fillBits)) hd hcut)
          | false =>
            simp only [Bool.false_eq_true, if_false] at h
            exact frag_pdu_sound hs hc h
      | true =>
        simp only [Bool.true_eq_false, if_false] at h
        split at h
        · cases h; exact ⟨.none, .none⟩
        · split at h
          · rename_i hst
            unfold UmacBs.rxSignal at h
            split at h
            · cases h; exact ⟨.none, .none⟩
            · cases h
            · rename_i p rest hd
              cases h
              refine ⟨⟨List.prefix_rfl, ⟨[], by simp, by simp⟩, ?_⟩, .none⟩
              intro y a b ho
              by_cases hq : (p.secondHalfStolen || rest.isEmpty) = true
              · rw [if_pos hq] at ho; cases ho
              · rw [if_neg hq, List.mem_singleton] at ho
                cases ho
                simp only [Bool.or_eq_true, not_or, Bool.not_eq_true] at hq
                refine ⟨rfl, .inr (.inl ⟨rfl, .signal hst ?_⟩)⟩
                rw [hd, ← hq.1]
          · split at h
            · cases h; exact ⟨.none, .none⟩
            · unfold UmacBs.rxBlck at h
              split at h
              · cases h; exact ⟨.none, .none⟩
              · cases h
              · cases h
  · cases h; exact ⟨.none, .none⟩

theorem loop_sound {x : Time} {n : Int} {c : UlCtx} {k : Nat} {s s' : UmacBs} {bits : List Bool} {out : List UmacOut} (hs : At x n c s)
    (h : UmacBs.rxLoop k s c bits = .ok (s', out)) : Sound x n c (SentIn c.chan bits) s s' out := by
  induction k generalizing s bits out with
  | zero => cases h; exact .none
  | succ k ih =>
    simp only [UmacBs.rxLoop] at h
    rw [Out.bind_eq_ok] at h; obtain ⟨r, h1, h⟩ := h
    obtain ⟨a1, a2⟩ := pdu_sound hs h1
    have a1 := a1.mono (fun q hq => SentIn.here hq)
    split at h
    · cases h; exact a1
    · rename_i rest hrest
      split at h
      · rename_i hl
        rw [Out.bind_eq_ok] at h; obtain ⟨⟨s2, o2⟩, h2, h⟩ := h
        cases h
        obtain ⟨l, e1, e2⟩ := a2 rest hrest hl.1
        refine a1.trans ((ih (hs.rx (rxPdu_rx h1)) h2).mono ?_)
        intro q hq
        subst e2
        exact .later e1 hl.1 hq
      · cases h; exact a1

theorem block_sound {x : Time} {n : Int} {c : UlCtx} {s s' : UmacBs} {bits : List Bool} {out : List UmacOut} (hs : At x n c s)
    (h : s.rxBlock c bits = .ok (s', out)) : Sound x n c (SentIn c.chan bits) s s' out := by
  unfold UmacBs.rxBlock at h
  split at h
  · exact loop_sound hs h
  · cases h

end Verif.Umac
