import Verif.Phy.UplinkTotal
import Verif.Umac.UmacFindings
import Verif.Phy.OnAirProps
import Verif.Umac.UmacSduSend
/-!
# C67, C68, C69: what goes wrong in the uplink
-/
namespace Verif.Phy
open Verif.Umac Verif.Tdma Verif.Codec Verif.ErrorControl

variable {brew : Bool} {carrier : Nat} {x : Time} {scramb : Nat} {wide : Bool} {pre : Precomps} {code : BitVec 32}

/-! ## C68 -/

/-- A block whose first PDU says that the second half is stolen has no other PDU, and it is not a bad one. -/
theorem steals_alone {bits : List Bool} (h : (ulPdu .stch bits).Steals) : ∀ p ∈ pdusOf .stch bits, ¬ p.Bad := by
  have hne : bits ≠ [] := by rintro rfl; simp [ulPdu, UlPdu.Steals] at h
  obtain ⟨n, hn⟩ : ∃ n, bits.length = n + 1 := ⟨bits.length - 1, by have := List.length_pos_iff.2 hne; omega⟩
  have key : ∀ p, ulPdu .stch bits = .data p → ∃ rest, MacData.dec.run bits = .ok (p, rest) := by
    intro p hp
    match bits, hp with
    | false :: false :: r, hp =>
      have hp : headed UlPdu.data (MacData.dec.run (false :: false :: r)) = .data p := hp
      cases hd : MacData.dec.run (false :: false :: r) with
      | ok q => rw [hd] at hp; cases hp; exact ⟨q.2, rfl⟩
      | err => rw [hd] at hp; cases hp
      | panic => rw [hd] at hp; cases hp
    | false :: true :: true :: r, hp =>
      have hp : headed UlPdu.endUl (MacEndUl.dec.run (false :: true :: true :: r)) = .data p := hp
      cases hd : MacEndUl.dec.run (false :: true :: true :: r) <;> rw [hd] at hp <;> cases hp
    | [], hp | [false], hp | [false, true], hp | false :: true :: false :: _, hp => simp [ulPdu] at hp
    | true :: r, hp => simp [ulPdu] at hp
  unfold pdusOf
  rw [hn, pdusIn]
  cases hp : ulPdu .stch bits with
  | data p =>
    rw [hp] at h
    obtain ⟨h1, h2⟩ := h
    intro q hq
    simp only [UlPdu.octets, h2, true_or, if_true, List.mem_cons, List.not_mem_nil, or_false] at hq
    subst hq
    rintro ⟨_, ⟨l, hl, hl'⟩ | ⟨_, hr⟩⟩
    · rw [h2] at hl; cases hl; omega
    · obtain ⟨rest, hd⟩ := key p hp
      rw [((data_inv hd).len 62 h2).2.1] at hr; cases hr
  | _ => rw [hp] at h; cases h

theorem hear_stolen {c c' : Cell} {ts : Time} {b : TpInd} {cs : Calls} {vs : List (Nat × List Bool)} (h : c.hear ts b = .ok (c', cs, vs))
    (hs : c.lmac.stolen = true) : c'.lmac.stolen = true := by
  rcases hear_inv h with ⟨_, rfl, rfl, rfl⟩ | ⟨ts, d, _, rfl, rfl, rfl⟩ | ⟨k, d, s1, out, h1, h2, rfl, rfl, rfl⟩
  · exact hs
  · exact hs
  · simp [hs]

theorem hear_panic {c : Cell} {ts : Time} {b : TpInd} (h : c.lmac.rx ts b = .panic) : c.hear ts b = .panic := by
  unfold Cell.hear
  rw [h]; rfl

theorem up_panic {c : Cell} {a : Air} {ts : Time} {bs : List TpInd} (hn : c.umac.now.addTimeslots (-2) = .ok ts) (hb : phyRx a = .ok bs)
    (h : c.hearAll ts bs = .panic) : c.up a = .panic := by
  unfold Cell.up
  rw [hn, Out.ofRes_ok, Out.bind_ok, hb, Out.ofRes_ok, Out.bind_ok, h]; rfl

/-- **C68 fails for stolen slots outside calls.** Any station can abort the base station: it sends, in a slot which is not a traffic
slot, a burst with two halves, of which the first begins with a MAC-DATA of length 62, "the second half is stolen too". -/
theorem c68_steal_aborts (hx : x.valid) {h : List (CellEv × CellOut)} {c : Cell} (hr : CellRun ⟨.init brew carrier x scramb wide pre, .init code⟩ h c)
    (hf : Fresh h) {l : List DlSlot} {o o1 o2 o3 : DlSlot} (hs : sentOf h = l ++ [o, o1, o2, o3]) {a : Air} (ha : a.Sized) (ho : o.ulPhy ≠ .tp)
    {p : Nat} (N : NoSpot a.full seqN 220 48) (S : Spot a.full seqP 220 48 p) {d : List Bool}
    (hd : decodeCp .stch false (normHalf1 a.full p) (some code) = .ok (some d, true)) (hd' : (ulPdu .stch d).Steals) : c.up a = .panic := by
  obtain ⟨i, hi, hn, ht, hts⟩ := slot_known hx hr hs
  have hst := fresh_stolen hx hr hf
  have k := cell_known hx hr
  have hv := (run_known hx k.run k.time.timed).view
  obtain ⟨fb, yb, zb, e, f1, f2, f3⟩ := phy_inds ha
  have ht' : c.lmac.traffic i = false := by rw [ht]; simpa using ho
  have hfb : fb = [⟨.norm2, .block1, normHalf1 a.full p⟩, ⟨.norm2, .block2, normHalf2 a.full p⟩] := by
    cases f1 with
    | none _ P => exact absurd P S.not
    | norm1 q S' => exact absurd N S'.not
    | norm2 q _ S' => rw [Spot.unique S' S]
  rw [← k.code] at hd
  obtain ⟨c1, cs1, vs1, h1, h2, h3, h4, rfl, h5, h6, h7⟩ := hear_total hts hv (rx_half1 hi hst hd) rfl (by simp)
    (fun _ => steals_alone hd')
  refine up_panic hn e ?_
  subst hfb
  rw [List.append_assoc, List.cons_append, Cell.hearAll, h1, Out.bind_ok, List.cons_append, Cell.hearAll,
    hear_panic (rx_half2_stolen hi (h6 rfl hd') (by rw [h4, ht']))]
  rfl

/-- **C68 fails in traffic slots.** Someone sends, in a traffic slot, a burst with two halves, of which the first says that the second
is stolen too, and a control burst is found in one of the half slots. The second half is no bad PDU. -/
theorem c68_steal_control_aborts (hx : x.valid) {h : List (CellEv × CellOut)} {c : Cell}
    (hr : CellRun ⟨.init brew carrier x scramb wide pre, .init code⟩ h c)
    (hf : Fresh h) {l : List DlSlot} {o o1 o2 o3 : DlSlot} (hs : sentOf h = l ++ [o, o1, o2, o3]) {a : Air} (ha : a.Sized) (ho : o.ulPhy = .tp)
    {p : Nat} (N : NoSpot a.full seqN 220 48) (S : Spot a.full seqP 220 48 p) {d : List Bool}
    (hd : decodeCp .stch false (normHalf1 a.full p) (some code) = .ok (some d, true)) (hd' : (ulPdu .stch d).Steals)
    (hd2 : ∀ d2, decodeCp .stch false (normHalf2 a.full p) (some code) = .ok (some d2, true) → ∀ q ∈ pdusOf .stch d2, ¬ q.Bad)
    {q : Nat} (hq : Spot a.sub1 seqX 88 48 q ∨ Spot a.sub2 seqX 88 48 q) : c.up a = .panic := by
  obtain ⟨i, hi, hn, ht, hts⟩ := slot_known hx hr hs
  have hst := fresh_stolen hx hr hf
  have k := cell_known hx hr
  have hv := (run_known hx k.run k.time.timed).view
  obtain ⟨fb, yb, zb, e, f1, f2, f3⟩ := phy_inds ha
  have ht' : c.lmac.traffic i = true := by rw [ht]; simpa using ho
  have hfb : fb = [⟨.norm2, .block1, normHalf1 a.full p⟩, ⟨.norm2, .block2, normHalf2 a.full p⟩] := by
    cases f1 with
    | none _ P => exact absurd P S.not
    | norm1 q S' => exact absurd N S'.not
    | norm2 q _ S' => rw [Spot.unique S' S]
  have len := normHalf_length ha.full S.range
  rw [← k.code] at hd
  obtain ⟨c1, cs1, vs1, h1, h2, h3, h4, rfl, h5, h6, h7⟩ := hear_total hts hv (rx_half1 hi hst hd) rfl (by simp)
    (fun _ => steals_alone hd')
  have hs1 := h6 rfl hd'
  obtain ⟨d2, ok2, hdd, _⟩ := decodeCp_total .stch rfl (normHalf2 a.full p) (by rw [len.2]; rfl) c1.lmac.code
  obtain ⟨c2, cs2, vs2, k1, k2, k3, k4, rfl, k5, k6, k7⟩ := hear_total hts h2 (rx_half2 hi (by rw [hs1, h4, ht']) hdd) rfl (by simp)
    (fun e => by subst e; rw [h3, k.code] at hdd; exact hd2 _ hdd)
  have hs2 : c2.lmac.stolen = true := by
    cases hok : ok2 with
    | false => rw [k7 hok]; exact hs1
    | true => 
      have := hear_stolen k1 hs1
      exact this
  have hfull : c.hearAll o.ts fb = .ok (c2, cs1 ++ (cs2 ++ []), [] ++ ([] ++ [])) := by
    rw [hfb]; exact hearAll_of_cons h1 (hearAll_of_cons k1 rfl)
  refine up_panic hn e ?_
  rw [List.append_assoc]
  refine hearAll_panic hfull ?_
  cases f2 with
  | some p1 S1 => rw [List.cons_append, Cell.hearAll, hear_panic (rx_ctl_stolen hi hs2)]; rfl
  | none N1 =>
    cases f3 with
    | some p1 S1 => rw [List.nil_append, Cell.hearAll, hear_panic (rx_ctl_stolen hi hs2)]; rfl
    | none N2 => rcases hq with h | h <;> [exact absurd N1 h.not; exact absurd N2 h.not]

/-! ## A sample cell -/

/-- The sample cell: its upper MAC, and the scrambling code of the same network. -/
def sampleCell : Cell := ⟨sampleMac, .init 864282631#32⟩

/-- Slots in which nothing is received. -/
theorem downs_run {cfg : CellCfg} (hcfg : cfg.InRange) (hx : x.valid) : ∀ (ws : List Bool) {h : List (CellEv × CellOut)} {c : Cell}
    {q : UmacBs × Calls}, CellRun ⟨.init brew carrier x scramb wide (Precomps.generate cfg), .init code⟩ h c →
    c.umac.run (ws.map .tick) = .ok q → Proper (q.1.log.map Prod.fst) →
    ∃ h' c', CellRun ⟨.init brew carrier x scramb wide (Precomps.generate cfg), .init code⟩ (h ++ h') c' ∧ c'.umac = q.1 ∧
      h'.map Prod.fst = ws.map .down ∧ callsOf h' = q.2
  | [], h, c, q, hr, hq, _ => by cases hq; exact ⟨[], c, by simpa using hr, rfl, rfl, rfl⟩
  | w :: ws, h, c, q, hr, hq, hp => by
    simp only [List.map_cons, UmacBs.run] at hq
    rw [Out.bind_eq_ok] at hq; obtain ⟨r, h1, hq⟩ := hq
    rw [Out.bind_eq_ok] at hq; obtain ⟨t, h2, hq⟩ := hq
    cases hq
    have hlog : ∃ cs, t.1.log = r.1.log ++ cs := by
      obtain ⟨cs, fs, v⟩ := run_via (by simpa using run_umacRun _ (UmacRun.init (s0 := r.1)) h2)
      exact ⟨cs, v.log⟩
    obtain ⟨cs, hlog⟩ := hlog
    obtain ⟨c1, b, e1, e2, _⟩ := c68_down hx hcfg hr (s' := r.1) (out := r.2) h1 (fun e he => hp e (by simp only [hlog, List.map_append]; exact List.mem_append_left _ he))
    obtain ⟨h', c', g1, g2, g3, g4⟩ := downs_run hcfg hx ws (q := t) (hr.step e1) (by rw [e2]; exact h2) hp
    refine ⟨(.down w, ⟨[(.tick w, r.2)], [b]⟩) :: h', c', by simpa using g1, g2, by simp [g3], ?_⟩
    simp only [callsOf, List.flatMap_cons] at g4 ⊢
    rw [g4]; rfl

theorem fresh_downs {h : List (CellEv × CellOut)} {ws : List Bool} {w : Bool} (hm : h.map Prod.fst = (ws ++ [w]).map .down) : Fresh h := by
  rw [List.map_append] at hm
  obtain ⟨h1, h2, rfl, e1, e2⟩ := List.map_eq_append_iff.1 hm
  match h2, e2 with
  | [(e, o)], e2 =>
    simp at e2; subst e2
    exact ⟨h1, w, o, [], rfl, by simp⟩

/-- Kinds of the slots sent. -/
def upKinds (cs : Calls) : List Bool := (cs.flatMap fun p => slotsOut p.2).map fun y => y.ulPhy == .tp

/-- After four slots the sample cell is ready to receive. -/
theorem sample_ready : ∃ h c o o1 o2 o3, CellRun sampleCell h c ∧ Fresh h ∧ sentOf h = [] ++ [o, o1, o2, o3] ∧ o.ulPhy ≠ .tp := by
  have hc : ucheck (uticks 4) (fun hist s => decide (s.log.map Prod.fst = List.replicate 4 SchedEv.tick) &&
    decide (upKinds hist = [false, false, false, false])) = true := by decide +kernel
  unfold ucheck at hc
  cases hq : sampleMac.run (uticks 4) with
  | ok q =>
    rw [hq] at hc
    simp only [Bool.and_eq_true, decide_eq_true_eq] at hc
    obtain ⟨h', c', g1, g2, g3, g4⟩ := downs_run (brew := true) (carrier := 1521) (x := sampleTime) (scramb := 864282631) (wide := true)
      (code := 864282631#32) (cfg := sampleCfg) (by unfold CellCfg.InRange; decide) (by unfold Time.valid; decide) [true, true, true, true]
      (q := q) CellRun.init hq (by
        rw [hc.1]
        intro e he
        rw [List.eq_of_mem_replicate he]
        exact ⟨trivial, trivial⟩)
    rw [List.nil_append] at g1
    have hsent : (sentOf h').map (fun y => y.ulPhy == .tp) = [false, false, false, false] := by
      unfold sentOf
      rw [g4]; exact hc.2
    have hfour : (sentOf h').length = 4 := by simpa using congrArg List.length hsent
    obtain ⟨o, o1, o2, o3, hl⟩ : ∃ o o1 o2 o3, sentOf h' = [o, o1, o2, o3] := by
      generalize sentOf h' = l at hfour
      match l, hfour with
      | [o, o1, o2, o3], _ => exact ⟨o, o1, o2, o3, rfl⟩
    rw [hl] at hsent
    simp only [List.map_cons, List.map_nil, List.cons.injEq, beq_eq_false_iff_ne, ne_eq] at hsent
    exact ⟨h', c', o, o1, o2, o3, g1, fresh_downs (ws := [true, true, true]) (w := true) g3, hl, hsent.1⟩
  | err => rw [hq] at hc; cases hc
  | panic => rw [hq] at hc; cases hc

/-! ## Bursts at the beginning of a slot -/

theorem spot_start {a seq b : List Bool} {o span : Nat} (ho : a.length = o) : Spot (a ++ seq ++ b) seq o span 0 := by
  have h0 : dist (a ++ seq ++ b) seq o = 0 := by
    subst ho
    unfold dist cut
    simp [hamming_self]
  exact ⟨rfl, Nat.zero_le _, by rw [Nat.add_zero, h0]; omega, by simp, fun q _ _ _ => by rw [Nat.add_zero, h0]; omega⟩

/-- Nothing in a window looks like the sequence. -/
def clearOf (w seq : List Bool) (span : Nat) : Bool := (List.range (span + 1)).all fun q => q % 2 == 1 || decide (1 < hamming ((w.drop q).take seq.length) seq)

theorem noSpot_of {bits seq w : List Bool} {o span : Nat} (hw : bits.drop o = w) (h : clearOf w seq span = true) : NoSpot bits seq o span := by
  intro q h1 h2
  have := List.all_eq_true.1 h q (List.mem_range.2 (by omega))
  simp only [h1, Bool.or_eq_true, decide_eq_true_eq] at this
  unfold dist cut
  rw [← List.drop_drop, hw]
  simpa using this

/-- Silence, as the demodulator sees it. -/
def silence (n : Nat) : List Bool := List.replicate n false

theorem silence_length (n : Nat) : (silence n).length = n := List.length_replicate
theorem silence_drop (n k : Nat) : (silence (k + n)).drop k = silence n := by
  unfold silence; rw [List.drop_replicate]; congr 1; omega

theorem silent_sub : NoSpot (silence 254) seqX 88 48 := noSpot_of (w := silence 166) (silence_drop 166 88) (by decide +kernel)
theorem silent_full : NoSpot (silence 510) seqN 220 48 ∧ NoSpot (silence 510) seqP 220 48 :=
  ⟨noSpot_of (w := silence 290) (silence_drop 290 220) (by decide +kernel), noSpot_of (w := silence 290) (silence_drop 290 220) (by decide +kernel)⟩

/-- A control burst at the beginning of a half slot. -/
def ctlAir (t : List Bool) : List Bool := (silence 4 ++ t.take 84) ++ seqX ++ (t.drop 84 ++ silence 52)

theorem ctlAir_length {t : List Bool} (ht : t.length = 168) : (ctlAir t).length = 254 := by
  simp [ctlAir, silence, ht, seq_lens]

theorem ctlAir_spot {t : List Bool} (ht : t.length = 168) : Spot (ctlAir t) seqX 88 48 0 := spot_start (by simp [silence, ht])

theorem ctlAir_bits {t : List Bool} (ht : t.length = 168) : ctlBits (ctlAir t) 0 = t := by
  have h1 : cut (ctlAir t) 4 84 = t.take 84 := by
    unfold cut ctlAir silence
    rw [List.append_assoc, List.append_assoc, List.drop_left' (by simp), List.take_append_of_le_length (by simp [ht])]
    simp [ht]
  have h2 : cut (ctlAir t) 118 84 = t.drop 84 := by
    unfold cut ctlAir
    rw [List.drop_left' (by simp [silence, ht, seq_lens]), List.take_append_of_le_length (by simp [ht])]
    exact List.take_of_length_le (by simp [ht])
  unfold ctlBits
  simp only [Nat.zero_add]
  rw [h1, h2, List.take_append_drop]

/-- **C67 and C68 together.** After every history, a station sends any block of the size of a half slot and without bad PDUs in the
first half of a slot, and the rest is silence. The reception ends well and the upper MAC is told this block and nothing else. -/
theorem c67_alone (hx : x.valid) {h : List (CellEv × CellOut)} {c : Cell} (hr : CellRun ⟨.init brew carrier x scramb wide pre, .init code⟩ h c)
    (hf : Fresh h) {l : List DlSlot} {o o1 o2 o3 : DlSlot} (hs : sentOf h = l ++ [o, o1, o2, o3]) {m t : List Bool} (hm : m.length = 92)
    (ht : encodeCp .schHu m code = .ok t) (hb : ∀ p ∈ pdusOf .schHu m, ¬ p.Bad) :
    ∃ c' calls, c.up ⟨silence 510, ctlAir t, silence 254⟩ = .ok (c', calls) ∧ calls.map Prod.fst = [.block ⟨.schHu, .block1, o.ts⟩ m] := by
  obtain ⟨t', e1, e2, e3⟩ := c14_roundtrip .schHu rfl m hm code
  rw [ht] at e1; cases e1
  have e2 : t.length = 168 := e2
  have dec : decodeCp .schHu false t (some code) = .ok (some m, true) := e3 t false (some code) ⟨rfl, 0, fun _ _ => rfl⟩ rfl
  have sized : Air.Sized ⟨silence 510, ctlAir t, silence 254⟩ := ⟨silence_length 510, ctlAir_length e2, silence_length 254⟩
  have only : ∀ ch d, Carried code (o.ulPhy == .tp) ⟨silence 510, ctlAir t, silence 254⟩ ch d → ch = .schHu ∧ d = m := by
    intro ch d hc
    cases hc with
    | sub rx p d hrx S hd =>
      rcases hrx with rfl | rfl
      · rw [Spot.unique S (ctlAir_spot e2), ctlAir_bits e2, dec] at hd
        cases hd; exact ⟨rfl, rfl⟩
      · exact absurd silent_sub S.not
    | full p d _ S => exact absurd silent_full.1 S.not
    | half1 p d _ S => exact absurd silent_full.2 S.not
    | half2 p d1 d _ S => exact absurd silent_full.2 S.not
  obtain ⟨⟨c', calls⟩, hu⟩ := c68_partial hx hr hf hs sized
    (fun ch d hc => by obtain ⟨rfl, rfl⟩ := only ch d hc; exact hb)
    (fun ch d hc hst => by
      obtain ⟨rfl, rfl⟩ := only ch d hc
      obtain ⟨p, hp, hps⟩ := hst
      exact absurd hps (schHu_never d p hp))
  refine ⟨c', calls, hu, ?_⟩
  obtain ⟨f, y, z, v, rfl, h1, h2, h3⟩ := c67_exact hx hr hf hs sized hu
  have hz : z.map Prod.fst = [] := by
    cases h3' : z.map Prod.fst with
    | nil => rfl
    | cons e z' =>
      rw [h3'] at h3
      cases h3 with
      | good p d S => exact absurd silent_sub S.not
  have hy : y.map Prod.fst = [.block ⟨.schHu, .block1, o.ts⟩ m] := by
    generalize y.map Prod.fst = y' at h2
    cases h2 with
    | silent N => exact absurd N (ctlAir_spot e2).not
    | bad p d S hd => rw [Spot.unique S (ctlAir_spot e2), ctlAir_bits e2, dec] at hd; cases hd
    | good p d S hd => rw [Spot.unique S (ctlAir_spot e2), ctlAir_bits e2, dec] at hd; cases hd; rfl
  have hfv : f = [] ∧ v.map Prod.fst = [] := by
    generalize v.map Prod.fst = v' at h1
    cases h1 with
    | silent => exact ⟨rfl, rfl⟩
    | voice p d ok _ S => exact absurd silent_full.1 S.not
    | bad p d _ S => exact absurd silent_full.1 S.not
    | good p d out _ S => exact absurd silent_full.1 S.not
    | halves p d1 d2 ok1 ok2 x1 x2 _ S => exact absurd silent_full.2 S.not
  simp [hfv.1, hfv.2, hy, hz]

/-- SCH/HU: a complete message of eleven octets with header. -/
def access52 : List Bool := blockOf 92 (MacAccess.enc ⟨false, false, some ms1, none, some 11, none, none⟩) (List.replicate 52 true)

/-- A message of 52 bits, sent by a station in the first half of a slot of the sample cell, is handed on under its address. -/
example : ∃ h c c' calls t o out, CellRun sampleCell h c ∧ encodeCp .schHu access52 864282631#32 = .ok t ∧
    c.up ⟨silence 510, ctlAir t, silence 254⟩ = .ok (c', calls) ∧ (.block ⟨.schHu, .block1, o⟩ access52, out) ∈ calls ∧
    sdus out = [(o, ms1, List.replicate 52 true)] := by
  obtain ⟨h, c, o, o1, o2, o3, hr, hf, hs, _⟩ := sample_ready
  have hm : access52.length = 92 := by decide +kernel
  obtain ⟨t, ht, _⟩ := c14_roundtrip .schHu rfl access52 hm 864282631#32
  have hp : pdusOf .schHu access52 = [.access ⟨false, false, some ms1, none, some 11, none, none⟩] := by decide +kernel
  obtain ⟨c', calls, hu, hc⟩ := c67_alone (by unfold Time.valid; decide) hr hf hs hm ht (by rw [hp]; simp [UlPdu.Bad])
  have hreads : Reads .schHu access52 [(ms1, List.replicate 52 true)] := by
    have ho : (ulPdu .schHu access52).octets = some 11 := by decide +kernel
    refine .last ?_ (by simp) (fun l hl => by rw [ho] at hl; cases hl; decide +kernel)
    have e : access52 = access52.take 36 ++ (List.replicate 52 true ++ fillPattern 0) ++ List.replicate 4 false := by decide +kernel
    rw [e]
    exact c49_sent_access ms1 (by decide) _ _ _ 0 11 (by omega) (by decide +kernel) (by decide +kernel)
  obtain ⟨out, h1, h2⟩ := c67_messages hu (k := ⟨.schHu, .block1, o.ts⟩) (m := access52) (by rw [hc]; simp) hreads
  exact ⟨h, c, c', calls, t, o.ts, out, hr, ht, hu, h1, h2⟩

/-- A MAC-DATA of length 62, in a half slot. -/
def stealBits : List Bool := blockOf 124 (MacData.enc ⟨false, false, some ms1, none, some 62, none, none⟩) []

/-- A burst with two halves at the beginning of a slot, of which the second is empty. -/
def pairAir (t : List Bool) : List Bool := (silence 4 ++ t) ++ seqP ++ silence 268

/-- The hypotheses of `c68_steal_aborts` are met: one burst of one station brings the sample cell down. -/
theorem c68_sample_aborts : ∃ h c t, CellRun sampleCell h c ∧ encodeCp .stch stealBits 864282631#32 = .ok t ∧
    c.up ⟨pairAir t, silence 254, silence 254⟩ = .panic := by
  obtain ⟨h, c, o, o1, o2, o3, hr, hf, hs, ho⟩ := sample_ready
  have hm : stealBits.length = 124 := by decide +kernel
  obtain ⟨t, ht, hl, dec⟩ := c14_roundtrip .stch rfl stealBits hm 864282631#32
  have hl : t.length = 216 := hl
  have hp : ulPdu .stch stealBits = .data ⟨false, false, some ms1, none, some 62, none, none⟩ := by decide +kernel
  have four : (silence 4 ++ t).length = 220 := by simp [silence, hl]
  have first : normHalf1 (pairAir t) 0 = t := by
    unfold normHalf1 cut pairAir silence
    rw [List.append_assoc, List.append_assoc, List.drop_left' (by simp), List.take_append_of_le_length (by simp [hl])]
    exact List.take_of_length_le (by simp [hl])
  refine ⟨h, c, t, hr, ht, c68_steal_aborts (by unfold Time.valid; decide) hr hf hs
    ⟨by simp only [pairAir, List.length_append, four, silence_length, seq_lens], silence_length 254, silence_length 254⟩ ho (p := 0)
    (noSpot_of (w := seqP ++ silence 268) (by unfold pairAir; rw [List.append_assoc, List.drop_left' four]) (by decide +kernel))
    (spot_start four) (d := stealBits) ?_ (by rw [hp]; exact ⟨rfl, rfl⟩)⟩
  show decodeCp .stch false (normHalf1 (pairAir t) 0) _ = _
  rw [first]
  exact dec t false _ ⟨rfl, 0, fun _ _ => rfl⟩ rfl

/-! ## C69: the second half slot is taken for the first -/

/-- **C69, whole slots and first halves.** Whatever the cell hands on is in the blocks received: a message in a block under the address in
its header, a message without address in a stolen half slot, or a message in parts, of which all but the first were in blocks
granted to the station. Blocks count as the half they were told as, which is right for all but the second halves of slots with
control bursts (`c69_second_half_as_first`). -/
theorem c69_partial (hx : x.valid) {h : List (CellEv × CellOut)} {c : Cell} (hr : CellRun ⟨.init brew carrier x scramb wide pre, .init code⟩ h c)
    {h1 h2 : Calls} {e : UmacEv} {out : List UmacOut} (hc : callsOf h = h1 ++ (e, out) :: h2) {y : Time} {a : Addr} {b : List Bool}
    (ho : .sdu y a b ∈ out) :
    ∃ k bits s, e = .block k bits ∧ y = k.x ∧ UmacRun (.init brew carrier x scramb wide pre) (h1 ++ [(e, out)]) s ∧
      (SentIn k.chan bits (.whole a b) ∨ (a = ⟨0, .ssi, false⟩ ∧ SentIn k.chan bits (.signal b)) ∨
       SentInParts (grantsIn x.toInt s.log) (h1 ++ [(e, out)]) k bits a b ∨ (a = ⟨0, .unknown, false⟩ ∧ b = [])) := by
  have kn := cell_known hx hr
  have e1 : h1 ++ (e, out) :: h2 = (h1 ++ [(e, out)]) ++ h2 := by simp
  have cut : ∀ (h2 : Calls) {h0 : Calls} {s : UmacBs}, UmacRun (.init brew carrier x scramb wide pre) (h0 ++ h2) s → InTime x (h0 ++ h2) →
      ∃ s, UmacRun (.init brew carrier x scramb wide pre) h0 s ∧ InTime x h0 := by
    intro h2
    induction h2 using List.reverseRecOn with
    | nil => intro h0 s h i; exact ⟨s, by simpa using h, by simpa using i⟩
    | append_singleton h2 p ih =>
      intro h0 s h i
      rw [← List.append_assoc] at h i
      obtain ⟨s1, g⟩ : ∃ s1, UmacRun (.init brew carrier x scramb wide pre) (h0 ++ h2) s1 := by
        generalize hh : h0 ++ h2 ++ [p] = hh' at h
        cases h with
        | init => simp at hh
        | @step h0' s0 _ e0 o0 hr0 hst0 =>
          obtain ⟨rfl, _⟩ := List.append_inj' hh rfl
          exact ⟨_, hr0⟩
      exact ih g i.init
  obtain ⟨s, r1, r2⟩ := cut h2 (h0 := h1 ++ [(e, out)]) (by rw [← e1, ← hc]; exact kn.run) (by rw [← e1, ← hc]; exact kn.time)
  obtain ⟨k, bits, q1, q2, q3⟩ := c49_origin brew carrier x hx scramb wide pre s h1 e out r1 r2 y a b ho
  exact ⟨k, bits, s, q1, q2, r1, q3⟩

/-- A control burst in the second half of a slot is told to the upper MAC as one of the first half. -/
theorem c69_second_half_as_first (hx : x.valid) {h : List (CellEv × CellOut)} {c c' : Cell}
    (hr : CellRun ⟨.init brew carrier x scramb wide pre, .init code⟩ h c)
    (hf : Fresh h) {l : List DlSlot} {o o1 o2 o3 : DlSlot} (hs : sentOf h = l ++ [o, o1, o2, o3]) {a : Air} (ha : a.Sized) {calls : Calls}
    (hu : c.up a = .ok (c', calls)) : ∀ d, (.block ⟨.schHu, .block2, o.ts⟩ d) ∉ calls.map Prod.fst := by
  obtain ⟨f, y, z, v, rfl, h1, h2, h3⟩ := c67_exact hx hr hf hs ha hu
  intro d hd
  have sub : ∀ {rx l}, SubHeard code o.ts rx l → (.block ⟨.schHu, .block2, o.ts⟩ d) ∉ l := by
    intro rx l h hm
    cases h <;> simp at hm
  rw [List.map_append, List.map_append, List.map_append] at hd
  rcases List.mem_append.1 hd with hd | hd
  · rcases List.mem_append.1 hd with hd | hd
    · rcases List.mem_append.1 hd with hd | hd
      · generalize v.map Prod.fst = v' at h1
        cases h1 with
        | silent => simp at hd
        | voice => simp at hd
        | bad => simp at hd
        | good => simp at hd
        | halves p d1 d2 ok1 ok2 x1 x2 _ _ _ _ e1 e2 e3 e4 =>
          rw [List.map_append, List.mem_append] at hd
          rcases hd with hd | hd
          · cases ok1 with
            | true => obtain ⟨out, rfl⟩ := e1 rfl; simp at hd
            | false => rw [e2 rfl] at hd; simp at hd
          · by_cases hk : ok2 = true ∧ ((o.ulPhy == .tp) = false ∨ ∃ q ∈ x1, .secondHalf ∈ q.2)
            · obtain ⟨out, rfl⟩ := e3 hk; simp at hd
            · rw [e4 hk] at hd; simp at hd
      · exact sub h2 hd
    · exact sub h3 hd
  · generalize v.map Prod.fst = v' at h1 hd
    cases h1 <;> simp at hd

/-- Another mobile station. -/
def ms2 : Addr := ⟨2002, .ssi, false⟩

/-- SCH/HU: the first part of a message and a request for a half slot. -/
def startHalf (a : Addr) (b : Bool) : List Bool :=
  blockOf 92 (MacAccess.enc ⟨false, false, some a, none, none, some true, some 0⟩) (List.replicate 56 b)

/-- SCH/HU: the last part of a message. -/
def endHalf (b : Bool) : List Bool := blockOf 92 (MacEndHu.enc ⟨false, some 11, none⟩) (List.replicate 81 b)

/-- Two stations start a message, each in a half of the same slot. -/
def bothStart : List UmacEv := uticks 2 ++ [.block ⟨.schHu, .block1, ⟨1, 1, 1, 0⟩⟩ (startHalf ms1 true),
  .block ⟨.schHu, .block1, ⟨1, 1, 1, 0⟩⟩ (startHalf ms2 false)] ++ uticks 4

/-- What the upper MAC hands on for this block. -/
def handed (s : UmacBs) (e : UmacEv) : List (Time × Addr × List Bool) := match s.step e with | .ok r => sdus r.2 | _ => []

/-- **C69 does not hold for half slots.** The first half of the next slot is granted to the one, the second half to the other. The
first one does not answer. What the second one sends, told as the first half, completes the message of the first. Told as the second
half it would have completed its own. -/
theorem c69_half_slots_mixed_up : ∃ hist s, UmacRun sampleMac hist s ∧ hist.map Prod.fst = bothStart ∧
    slotOwner s.sched.ul ⟨1, 2, 1, 0⟩ .block1 = .ok (some 1001) ∧ slotOwner s.sched.ul ⟨1, 2, 1, 0⟩ .block2 = .ok (some 2002) ∧
    handed s (.block ⟨.schHu, .block1, ⟨1, 2, 1, 0⟩⟩ (endHalf false)) = [(⟨1, 2, 1, 0⟩, ms1, List.replicate 56 true ++ List.replicate 81 false)] ∧
    handed s (.block ⟨.schHu, .block2, ⟨1, 2, 1, 0⟩⟩ (endHalf false)) = [(⟨1, 2, 1, 0⟩, ms2, List.replicate 137 false)] := by
  obtain ⟨hist, s, h1, h2, h3⟩ := ucheck_run bothStart (p := fun _ s => decide (
    slotOwner s.sched.ul ⟨1, 2, 1, 0⟩ .block1 = .ok (some 1001) ∧ slotOwner s.sched.ul ⟨1, 2, 1, 0⟩ .block2 = .ok (some 2002) ∧
    handed s (.block ⟨.schHu, .block1, ⟨1, 2, 1, 0⟩⟩ (endHalf false)) = [(⟨1, 2, 1, 0⟩, ms1, List.replicate 56 true ++ List.replicate 81 false)] ∧
    handed s (.block ⟨.schHu, .block2, ⟨1, 2, 1, 0⟩⟩ (endHalf false)) = [(⟨1, 2, 1, 0⟩, ms2, List.replicate 137 false)])) (by decide +kernel)
  exact ⟨hist, s, h1, h2, of_decide_eq_true h3⟩

end Verif.Phy
