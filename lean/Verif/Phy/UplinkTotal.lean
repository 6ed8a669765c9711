import Verif.Phy.UplinkProps
import Verif.Phy.OnAirProps
/-!
# C68 — no reception aborts the base station
-/
namespace Verif.Phy
open Verif.Umac Verif.Tdma Verif.Codec Verif.ErrorControl

variable {brew : Bool} {carrier : Nat} {x : Time} {scramb : Nat} {wide : Bool} {pre : Precomps} {code : BitVec 32}

/-! ## Specification -/

/-- The slot carries this block with a right checksum. `tp` says whether the slot is a traffic slot. -/
inductive Carried (code : BitVec 32) (tp : Bool) (a : Air) : UlChan → List Bool → Prop where
  | sub (rx : List Bool) (p : Nat) (d : List Bool) : rx = a.sub1 ∨ rx = a.sub2 → Spot rx seqX 88 48 p →
      decodeCp .schHu false (ctlBits rx p) (some code) = .ok (some d, true) → Carried code tp a .schHu d
  | full (p : Nat) (d : List Bool) : tp = false → Spot a.full seqN 220 48 p →
      decodeCp .schF false (normHalf1 a.full p ++ normHalf2 a.full p) (some code) = .ok (some d, true) → Carried code tp a .schF d
  | half1 (p : Nat) (d : List Bool) : NoSpot a.full seqN 220 48 → Spot a.full seqP 220 48 p →
      decodeCp .stch false (normHalf1 a.full p) (some code) = .ok (some d, true) → Carried code tp a .stch d
  | half2 (p : Nat) (d1 d : List Bool) : NoSpot a.full seqN 220 48 → Spot a.full seqP 220 48 p →
      tp = false ∨ (decodeCp .stch false (normHalf1 a.full p) (some code) = .ok (some d1, true) ∧ ∃ q ∈ pdusOf .stch d1, q.Steals) →
      decodeCp .stch false (normHalf2 a.full p) (some code) = .ok (some d, true) → Carried code tp a .stch d

/-! ## Lemmas -/

/-- One block is handled, and the second half is announced only by a block which says so. -/
theorem hear_total {c : Cell} {ts : Time} (hts : ts.valid) (hv : View x c.umac.log c.umac.sched) {b : TpInd} {k : UlCtx} {d : List Bool} {ok : Bool}
    (e0 : c.lmac.rx ts b = .ok (if ok then .block k d else .nothing)) (hk : k.x = ts) (hp : k.chan = .schF ↔ k.half = .both)
    (hb : ok = true → ∀ p ∈ pdusOf k.chan d, ¬ p.Bad) :
    ∃ c' cs vs, c.hear ts b = .ok (c', cs, vs) ∧ View x c'.umac.log c'.umac.sched ∧ c'.lmac.code = c.lmac.code ∧ c'.lmac.traffic = c.lmac.traffic ∧
      vs = [] ∧ (c'.lmac.stolen = true → c.lmac.stolen = true ∨ (ok = true ∧ ∃ p ∈ pdusOf k.chan d, p.Steals)) ∧
      (ok = true → (ulPdu k.chan d).Steals → c'.lmac.stolen = true) ∧ (ok = false → c' = c) := by
  cases ok with
  | false =>
    simp only [Bool.false_eq_true, if_false] at e0
    refine ⟨c, [], [], ?_, hv, rfl, rfl, rfl, fun h => .inl h, by simp, fun _ => rfl⟩
    unfold Cell.hear
    rw [e0]; rfl
  | true =>
    simp only [if_true] at e0
    have hb := hb rfl
    subst hk
    obtain ⟨r, hr⟩ := loop_total hts hv hb
    have hst : c.umac.step (.block k d) = .ok r := by
      simp only [UmacBs.step, UmacBs.rxBlock]
      rw [if_pos hp]; exact hr
    refine ⟨⟨r.1, { c.lmac with stolen := c.lmac.stolen || r.2.contains .secondHalf }⟩, [(.block k d, r.2)], [],
      by unfold Cell.hear; rw [e0]; simp only [Out.ofRes_ok, Out.bind_ok]; rw [hst]; rfl, ?_, rfl, rfl, rfl, ?_, ?_, by simp⟩
    · exact hv.rx hts.1 hts.2.1 (rxBlock_rx (s' := r.1) (out := r.2) hst)
    · intro h
      rcases Bool.or_eq_true_iff.1 h with h | h
      · exact .inl h
      · exact .inr ⟨rfl, loop_steals hts hv hb hr (by simpa using h)⟩
    · intro _ h
      have := rxBlock_steals (s' := r.1) (out := r.2) hst h
      simp [this]

theorem hearAll_of_cons {c c1 c2 : Cell} {ts : Time} {b : TpInd} {bs : List TpInd} {x1 x2 : Calls} {v1 v2 : List (Nat × List Bool)}
    (h1 : c.hear ts b = .ok (c1, x1, v1)) (h2 : c1.hearAll ts bs = .ok (c2, x2, v2)) : c.hearAll ts (b :: bs) = .ok (c2, x1 ++ x2, v1 ++ v2) := by
  rw [Cell.hearAll, h1, Out.bind_ok, h2, Out.bind_ok]

theorem hearAll_of_append {as : List TpInd} {ts : Time} : ∀ {c c1 c2 : Cell} {bs : List TpInd} {x1 x2 : Calls} {v1 v2 : List (Nat × List Bool)},
    c.hearAll ts as = .ok (c1, x1, v1) → c1.hearAll ts bs = .ok (c2, x2, v2) → c.hearAll ts (as ++ bs) = .ok (c2, x1 ++ x2, v1 ++ v2) := by
  induction as with
  | nil => intro c c1 c2 bs x1 x2 v1 v2 h1 h2; cases h1; exact h2
  | cons b as ih =>
    intro c c1 c2 bs x1 x2 v1 v2 h1 h2
    obtain ⟨c3, y1, w1, y2, w2, g1, g2, rfl, rfl⟩ := hearAll_cons h1
    have := hearAll_of_cons g1 (ih g2 h2)
    simpa using this

theorem hearAll_panic {as bs : List TpInd} {ts : Time} : ∀ {c c1 : Cell} {x1 : Calls} {v1 : List (Nat × List Bool)},
    c.hearAll ts as = .ok (c1, x1, v1) → c1.hearAll ts bs = .panic → c.hearAll ts (as ++ bs) = .panic := by
  induction as with
  | nil => intro c c1 x1 v1 h1 h2; cases h1; exact h2
  | cons b as ih =>
    intro c c1 x1 v1 h1 h2
    obtain ⟨c3, y1, w1, y2, w2, g1, g2, rfl, rfl⟩ := hearAll_cons h1
    rw [List.cons_append, Cell.hearAll, g1, Out.bind_ok, ih g2 h2]; rfl

theorem schHu_never (bits : List Bool) : ∀ p ∈ pdusOf .schHu bits, ¬ p.Steals := by
  have : ∀ n bits, ∀ p ∈ pdusIn n .schHu bits, ¬ p.Steals := by
    intro n
    induction n with
    | zero => simp [pdusIn]
    | succ n ih =>
      intro bits p hp
      have one : ¬ (ulPdu .schHu bits).Steals := by
        match bits with
        | [] => exact fun h => h
        | true :: r =>
          show ¬ (headed .endHu (MacEndHu.dec.run (true :: r))).Steals
          cases MacEndHu.dec.run (true :: r) <;> exact fun h => h
        | false :: r =>
          show ¬ (headed .access (MacAccess.dec.run (false :: r))).Steals
          cases MacAccess.dec.run (false :: r) <;> exact fun h => h
      simp only [pdusIn, List.mem_cons] at hp
      rcases hp with rfl | hp
      · exact one
      · cases ho : (ulPdu .schHu bits).octets with
        | none => rw [ho] at hp; simp at hp
        | some l =>
          rw [ho] at hp
          simp only at hp
          split at hp
          · exact ih _ p hp
          · simp at hp
  exact this _ bits

theorem voices_total {vs : List (Nat × List Bool)} (hv : ∀ v ∈ vs, 1 ≤ v.1 ∧ v.1 ≤ 4) : ∀ c : Cell, ∃ r, c.voices vs = .ok r := by
  induction vs with
  | nil => exact fun c => ⟨_, rfl⟩
  | cons v vs ih =>
    intro c
    obtain ⟨ts, d⟩ := v
    obtain ⟨h1, h4⟩ := hv _ List.mem_cons_self
    obtain ⟨r, hr⟩ := voiceUp_total c.umac h1 h4 (d.map Bool.toNat)
    obtain ⟨q, hq⟩ := ih (fun v hv' => hv v (List.mem_cons_of_mem _ hv')) { c with umac := r.1 }
    have : c.voices ((ts, d) :: vs) = .ok (q.1, (.voiceUp ts (d.map Bool.toNat), r.2) :: q.2) := by
      unfold Cell.voices
      simp only [UmacBs.step]
      rw [hr, Out.bind_ok, hq, Out.bind_ok]
    exact ⟨_, this⟩

/-- A half slot is handled, if the second half has not been announced as stolen. -/
theorem sub_total_hear {c : Cell} {ts : Time} (hts : ts.valid) (hv : View x c.umac.log c.umac.sched) {i : Fin 4} (hi : Slots.idx ts.t = .ok i) {rx : List Bool}
    (hl : rx.length = 254) {bs : List TpInd} (hb : SubInds rx bs) (hs : c.lmac.stolen = false ∨ NoSpot rx seqX 88 48)
    (hbad : ∀ p d, Spot rx seqX 88 48 p → decodeCp .schHu false (ctlBits rx p) (some c.lmac.code) = .ok (some d, true) → ∀ q ∈ pdusOf .schHu d, ¬ q.Bad) :
    ∃ c' cs, c.hearAll ts bs = .ok (c', cs, []) ∧ View x c'.umac.log c'.umac.sched ∧ c'.lmac = c.lmac := by
  cases hb with
  | none N => exact ⟨c, [], rfl, hv, rfl⟩
  | some p S =>
    rcases hs with hs | N
    · obtain ⟨d, ok, hd, _⟩ := decodeCp_total .schHu rfl (ctlBits rx p) (by rw [ctlBits_length hl S.range]; rfl) c.lmac.code
      obtain ⟨c', cs, vs, h1, h2, h3, h4, rfl, h5, h6, h7⟩ := hear_total hts hv (rx_ctl hi hs hd) rfl (by simp)
        (fun e => by subst e; exact hbad p d S hd)
      refine ⟨c', cs ++ [], hearAll_of_cons h1 rfl, h2, ?_⟩
      have hst : c'.lmac.stolen = c.lmac.stolen := by
        cases h : c'.lmac.stolen with
        | false => exact hs.symm
        | true =>
          rcases h5 h with h | ⟨_, p', hp', hps⟩
          · rw [h]
          · exact absurd hps (schHu_never d p' hp')
      cases hc : c'.lmac
      rw [hc] at h3 h4 hst
      cases hc' : c.lmac
      rw [hc'] at h3 h4 hst
      simp_all
    · exact absurd N S.not

/-- **C68, what is heard.** After every history, the reception of a slot does not abort, whatever bits were received, unless a block
with a right checksum carries a bad PDU (C36), or says that the second half of the slot is stolen where that cannot be: outside a
traffic slot, or when there is a control burst in one of the halves. -/
theorem c68_partial (hx : x.valid) {h : List (CellEv × CellOut)} {c : Cell} (hr : CellRun ⟨.init brew carrier x scramb wide pre, .init code⟩ h c)
    (hf : Fresh h) {l : List DlSlot} {o o1 o2 o3 : DlSlot} (hs : sentOf h = l ++ [o, o1, o2, o3]) {a : Air} (ha : a.Sized)
    (hbad : ∀ ch d, Carried code (o.ulPhy == .tp) a ch d → ∀ p ∈ pdusOf ch d, ¬ p.Bad)
    (hsteal : ∀ ch d, Carried code (o.ulPhy == .tp) a ch d → (∃ p ∈ pdusOf ch d, p.Steals) →
      (ch = .stch → o.ulPhy = .tp) ∧ NoSpot a.sub1 seqX 88 48 ∧ NoSpot a.sub2 seqX 88 48) :
    ∃ r, c.up a = .ok r := by
  obtain ⟨i, hi, hn, ht, hts⟩ := slot_known hx hr hs
  have hst := fresh_stolen hx hr hf
  have k := cell_known hx hr
  have hv := (run_known hx k.run k.time.timed).view
  obtain ⟨fb, yb, zb, e, f1, f2, f3⟩ := phy_inds ha
  generalize htp : (o.ulPhy == .tp) = tp at *
  have hcode := k.code
  -- the whole slot
  have full : ∃ c1 cs1 vs1, c.hearAll o.ts fb = .ok (c1, cs1, vs1) ∧ View x c1.umac.log c1.umac.sched ∧ c1.lmac.code = code ∧
      (c1.lmac.stolen = false ∨ NoSpot a.sub1 seqX 88 48 ∧ NoSpot a.sub2 seqX 88 48) ∧ ∀ v ∈ vs1, v.1 = o.ts.t := by
    cases f1 with
    | none N P => exact ⟨c, [], [], rfl, hv, hcode, .inl hst, by simp⟩
    | norm1 p S =>
      have len := normHalf_length ha.full S.range
      cases tp with
      | true =>
        obtain ⟨d, ok, hd, _⟩ := decodeTp_total (normHalf1 a.full p ++ normHalf2 a.full p) (by rw [List.length_append, len.1, len.2]) c.lmac.code
        have e0 := rx_voice hi hst ht hd
        refine ⟨c, [] ++ [], [(o.ts.t, d)] ++ [], hearAll_of_cons (c1 := c) ?_ rfl, hv, hcode, .inl hst, by simp⟩
        unfold Cell.hear
        rw [e0]; rfl
      | false =>
        obtain ⟨d, ok, hd, _⟩ := decodeCp_total .schF rfl (normHalf1 a.full p ++ normHalf2 a.full p)
          (by rw [List.length_append, len.1, len.2]; rfl) c.lmac.code
        have hcar : ok = true → Carried code false a .schF d := fun e => by
          subst e; rw [hcode] at hd; exact .full p d rfl S hd
        obtain ⟨c', cs, vs, h1, h2, h3, h4, rfl, h5, h6, h7⟩ := hear_total hts hv (rx_full hi hst ht hd) rfl (by simp)
          (fun e => hbad _ _ (hcar e))
        refine ⟨c', cs ++ [], [], hearAll_of_cons h1 rfl, h2, by rw [h3, hcode], ?_, by simp⟩
        cases hc : c'.lmac.stolen with
        | false => exact .inl rfl
        | true =>
          rcases h5 hc with h | ⟨h, h'⟩
          · rw [hst] at h; cases h
          · exact .inr (hsteal _ _ (hcar h) h').2
    | norm2 p N S =>
      have len := normHalf_length ha.full S.range
      obtain ⟨d1, ok1, hd1, _⟩ := decodeCp_total .stch rfl (normHalf1 a.full p) (by rw [len.1]; rfl) c.lmac.code
      obtain ⟨d2, ok2, hd2, _⟩ := decodeCp_total .stch rfl (normHalf2 a.full p) (by rw [len.2]; rfl) c.lmac.code
      have hcar1 : ok1 = true → Carried code tp a .stch d1 := fun e => by
        subst e; rw [hcode] at hd1; exact .half1 p d1 N S hd1
      obtain ⟨c1, cs1, vs1, h1, h2, h3, h4, rfl, h5, h6, h7⟩ := hear_total hts hv (rx_half1 hi hst hd1) rfl (by simp)
        (fun e => hbad _ _ (hcar1 e))
      have fromFirst : c1.lmac.stolen = true → ok1 = true ∧ ∃ p ∈ pdusOf .stch d1, p.Steals := fun h => by
        rcases h5 h with h | h
        · rw [hst] at h; cases h
        · exact h
      rw [← h3] at hd2
      have second : c1.lmac.stolen = c1.lmac.traffic i → (tp = false ∨ c1.lmac.stolen = true) →
          ∃ c2 cs2 vs2, c.hearAll o.ts [⟨.norm2, .block1, normHalf1 a.full p⟩, ⟨.norm2, .block2, normHalf2 a.full p⟩] = .ok (c2, cs2, vs2) ∧
            View x c2.umac.log c2.umac.sched ∧ c2.lmac.code = code ∧
            (c2.lmac.stolen = false ∨ NoSpot a.sub1 seqX 88 48 ∧ NoSpot a.sub2 seqX 88 48) ∧ ∀ v ∈ vs2, v.1 = o.ts.t := by
        intro he hcond
        have hcar2 : ok2 = true → Carried code tp a .stch d2 := fun e => by
          subst e
          rw [h3, hcode] at hd2
          refine .half2 p d1 d2 N S ?_ hd2
          rcases hcond with h | h
          · exact .inl h
          · obtain ⟨g1, g2⟩ := fromFirst h
            subst g1; rw [hcode] at hd1
            exact .inr ⟨hd1, g2⟩
        obtain ⟨c2, cs2, vs2, k1, k2, k3, k4, rfl, k5, k6, k7⟩ := hear_total hts h2 (rx_half2 hi he hd2) rfl (by simp)
          (fun e => hbad _ _ (hcar2 e))
        refine ⟨c2, cs1 ++ (cs2 ++ []), [] ++ ([] ++ []), hearAll_of_cons h1 (hearAll_of_cons k1 rfl), k2, by rw [k3, h3, hcode], ?_, by simp⟩
        cases hc : c2.lmac.stolen with
        | false => exact .inl rfl
        | true =>
          rcases k5 hc with h | ⟨h, h'⟩
          · obtain ⟨g1, g2⟩ := fromFirst h
            exact .inr (hsteal _ _ (hcar1 g1) g2).2
          · exact .inr (hsteal _ _ (hcar2 h) h').2
      rw [← h4] at ht
      cases htp' : tp with
      | false =>
        cases hs1 : c1.lmac.stolen with
        | false => exact second (by rw [hs1, ht, htp']) (.inl htp')
        | true =>
          obtain ⟨g1, g2⟩ := fromFirst hs1
          have := (hsteal _ _ (hcar1 g1) g2).1 rfl
          rw [this] at htp
          rw [htp'] at htp; cases htp
      | true =>
        cases hs1 : c1.lmac.stolen with
        | true => exact second (by rw [hs1, ht, htp']) (.inr hs1)
        | false =>
          have e0 := rx_half2_voice hi hs1 (by rw [ht, htp']) (bits := normHalf2 a.full p)
          refine ⟨c1, cs1 ++ ([] ++ []), [] ++ ([] ++ []), hearAll_of_cons h1 (hearAll_of_cons (c1 := c1) ?_ rfl), h2, by rw [h3, hcode], .inl hs1, by simp⟩
          unfold Cell.hear
          rw [e0]; rfl
  obtain ⟨c1, cs1, vs1, g1, g2, g3, g4, g5⟩ := full
  obtain ⟨c2, cs2, q1, q2, q3⟩ := sub_total_hear hts g2 hi ha.sub1 f2 (by rcases g4 with h | h; exacts [.inl h, .inr h.1])
    (fun p d S hd => hbad _ _ (by rw [g3] at hd; exact .sub a.sub1 p d (.inl rfl) S hd))
  obtain ⟨c3, cs3, w1, w2, w3⟩ := sub_total_hear hts q2 hi ha.sub2 f3 (by rw [q3]; rcases g4 with h | h; exacts [.inl h, .inr h.2])
    (fun p d S hd => hbad _ _ (by rw [q3, g3] at hd; exact .sub a.sub2 p d (.inr rfl) S hd))
  obtain ⟨r, hr'⟩ := voices_total (vs := vs1 ++ [] ++ []) (fun v hv => by
    have : v.1 = o.ts.t := g5 v (by simpa using hv)
    rw [this]; exact ⟨hts.1, hts.2.1⟩) c3
  refine ⟨(r.1, cs1 ++ cs2 ++ cs3 ++ r.2), ?_⟩
  unfold Cell.up
  rw [hn, Out.ofRes_ok, Out.bind_ok, e, Out.ofRes_ok, Out.bind_ok, hearAll_of_append (hearAll_of_append g1 q1) w1, Out.bind_ok]
  simp only
  rw [hr', Out.bind_ok]

/-! ## The downlink -/

/-- The last call on the scheduler at the beginning of a slot builds the slot. -/
theorem tick_built {s s' : UmacBs} {w : Bool} {out : List UmacOut} (h : s.tick w = .ok (s', out)) :
    ∃ l y, s'.log = l ++ [(.tick, .sent y)] ∧ slotsOut out = [y.slot] := by
  unfold UmacBs.tick at h
  rw [Out.bind_eq_ok] at h; obtain ⟨now, _, h⟩ := h
  have quiet : ∀ (l : List (Fin 4)), slotsOut (l.map fun i => UmacOut.inactive (i.val + 1)) = [] := by
    intro l; simp [slotsOut]
  have fin : ∀ {s1 : UmacBs},
      (do let r ← s1.checkSilent.1.call .tick; .ok (r.1, s1.checkSilent.2 ++ match r.2 with | .sent o => [UmacOut.slot o] | _ => [])) = Out.ok (s', out) →
      ∃ l y, s'.log = l ++ [(.tick, .sent y)] ∧ slotsOut out = [y.slot] := by
    intro s1 h
    rw [Out.bind_eq_ok] at h; obtain ⟨r, hr, h⟩ := h
    cases h
    unfold UmacBs.call at hr
    rw [Out.bind_eq_ok] at hr; obtain ⟨q, hq, hr⟩ := hr
    cases hr
    simp only [Sched.step] at hq
    rw [Out.bind_eq_ok] at hq; obtain ⟨cur, hcur, hq⟩ := hq
    rw [Out.bind_eq_ok] at hq; obtain ⟨f, hf, hq⟩ := hq
    cases hq
    refine ⟨_, f.2, rfl, ?_⟩
    simp only [slotsOut, List.filterMap_append, UmacBs.checkSilent]
    have := quiet ((List.finRange 4).filter s1.silent)
    unfold slotsOut at this
    rw [this]; rfl
  by_cases hw : w = s.wide
  · simp only [hw, if_true, Out.bind_ok] at h
    exact fin (s1 := { s with now := now }) h
  · simp only [hw, if_false] at h
    rw [Out.bind_eq_ok] at h; obtain ⟨r, h0, h⟩ := h
    rw [Out.bind_ok] at h
    exact fin (s1 := { r.1 with wide := w }) h

/-- **C68, what is sent.** After every history in which the layers above gave the scheduler well-formed content: what the upper MAC
builds at the beginning of a slot, the lower MAC and the physical layer turn into one burst of 510 bits. -/
theorem c68_down (hx : x.valid) {cfg : CellCfg} (hcfg : cfg.InRange) {h : List (CellEv × CellOut)} {c : Cell}
    (hr : CellRun ⟨.init brew carrier x scramb wide (Precomps.generate cfg), .init code⟩ h c) {w : Bool} {s' : UmacBs} {out : List UmacOut}
    (ht : c.umac.step (.tick w) = .ok (s', out)) (hp : Proper (s'.log.map Prod.fst)) :
    ∃ c' b, c.step (.down w) = .ok (c', ⟨[(.tick w, out)], [b]⟩) ∧ c'.umac = s' ∧ b.length = 510 := by
  have k := cell_known hx hr
  obtain ⟨l, y, hl, hy⟩ := tick_built (by simpa [UmacBs.step] using ht)
  have hv := (run_known hx k.run k.time.timed).view
  obtain ⟨y', hy', hts⟩ := tick_slot (by simpa [UmacBs.step] using ht) hv.cur
  rw [hy] at hy'; cases hy'
  have hlog := (run_log (k.run.step ht)).1
  have hB : Built cfg scramb x (l.map Prod.fst) y := ⟨s'.sched, l, by rw [hl] at hlog; simpa using hlog⟩
  obtain ⟨b, hb, hbl⟩ := c65_sent cfg hcfg scramb x hx _ (fun e he => hp e (by rw [hl]; simp; exact .inl (by simpa using he))) y hB
  obtain ⟨lm, hls⟩ : ∃ lm, c.lmac.slot y.slot = .ok lm := by
    unfold LmacUl.slot
    rw [hts, idx_fromInt, Res.bind_ok]
    exact ⟨_, rfl⟩
  refine ⟨⟨s', lm⟩, b, ?_, rfl, hbl⟩
  have hd : c.down w = .ok (⟨s', lm⟩, [(.tick w, out)], [b]) := by
    unfold Cell.down
    rw [ht, Out.bind_ok]
    simp only
    rw [hy, Cell.send]
    simp only
    rw [hls, Out.ofRes_ok, Out.bind_ok, hb, Out.ofRes_ok, Out.bind_ok]
    rfl
  simp only [Cell.step]
  rw [hd, Out.bind_ok]

end Verif.Phy
