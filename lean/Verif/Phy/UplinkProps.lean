import Verif.Phy.UplinkHear
/-!
# C67 — what a mobile sends is what the upper MAC is told
-/
namespace Verif.Phy
open Verif.Umac Verif.Tdma Verif.Codec Verif.ErrorControl
open Verif.Interleaver (codecToChannel)

variable {brew : Bool} {carrier : Nat} {x : Time} {scramb : Nat} {wide : Bool} {pre : Precomps} {code : BitVec 32}

/-! ## Lemmas -/

theorem slot_ne (n : Int) {k : Int} (hk : k % 4 ≠ 0) : (fromInt (n + k)).t ≠ (fromInt n).t := by
  rw [fromInt_t, fromInt_t]; omega

/-- The received slot, and what is expected in it. -/
theorem slot_known (hx : x.valid) {h : List (CellEv × CellOut)} {c : Cell}
    (hr : CellRun ⟨.init brew carrier x scramb wide pre, .init code⟩ h c) {l : List DlSlot} {o o1 o2 o3 : DlSlot} (hs : sentOf h = l ++ [o, o1, o2, o3]) :
    ∃ i, Slots.idx o.ts.t = .ok i ∧ c.umac.now.addTimeslots (-2) = .ok o.ts ∧ c.lmac.traffic i = (o.ulPhy == .tp) ∧ o.ts.valid := by
  have k := cell_known hx hr
  have hn := (k.now hx).1
  have hlen : slotsIn (callsOf h) = l.length + 4 := by rw [← k.count, hs]; simp
  have at_ : ∀ j (y : DlSlot), (sentOf h)[l.length + j]? = some y → y.ts = fromInt (x.toInt + l.length + 2 + j) := by
    intro j y hy
    obtain ⟨hj, hy⟩ := List.getElem?_eq_some_iff.1 hy
    have := k.sent _ hj
    rw [hy] at this
    rw [this]; congr 1; omega
  have g : ∀ j, (sentOf h)[l.length + j]? = [o, o1, o2, o3][j]? := by
    intro j
    rw [hs, List.getElem?_append_right (by omega)]
    congr 1; omega
  have t0 := at_ 0 o (g 0)
  have t1 := at_ 1 o1 (g 1)
  have t2 := at_ 2 o2 (g 2)
  have t3 := at_ 3 o3 (g 3)
  rw [show x.toInt + (l.length : Int) + 2 + ((0 : Nat) : Int) = x.toInt + l.length + 2 by omega] at t0
  refine ⟨slot (x.toInt + l.length + 2), by rw [t0, idx_fromInt], ?_, ?_, by rw [t0]; exact fromInt_valid _⟩
  · rw [hn, fromInt_add _ _ (by omega) (by omega), t0, hlen]; congr 2; omega
  · rw [k.traffic, hs]
    have e : ∀ n : Int, (slot n).val + 1 = (fromInt n).t := by intro n; rw [fromInt_t]; simp only [slot]; omega
    have n1 : (o1.ts.t == (slot (x.toInt + l.length + 2)).val + 1) = false := by
      rw [t1, e]; simpa using slot_ne _ (k := ((1 : Nat) : Int)) (by decide)
    have n2 : (o2.ts.t == (slot (x.toInt + l.length + 2)).val + 1) = false := by
      rw [t2, e]; simpa using slot_ne _ (k := ((2 : Nat) : Int)) (by decide)
    have n3 : (o3.ts.t == (slot (x.toInt + l.length + 2)).val + 1) = false := by
      rw [t3, e]; simpa using slot_ne _ (k := ((3 : Nat) : Int)) (by decide)
    have n0 : (o.ts.t == (slot (x.toInt + l.length + 2)).val + 1) = true := by rw [t0, e]; simp
    simp [List.reverse_append, n0, n1, n2, n3]

theorem step_stolen {c c' : Cell} {e : CellEv} {o : CellOut} (h : c.step e = .ok (c', o)) (he : ∀ a, e ≠ .up a) (hs : c.lmac.stolen = false) :
    c'.lmac.stolen = false := by
  have order : ∀ ev, c.order ev = .ok (c', o) → c'.lmac.stolen = false := by
    intro ev h
    unfold Cell.order at h
    rw [Out.bind_eq_ok] at h; obtain ⟨r, hr, h⟩ := h
    cases h; exact hs
  have sends : ∀ (ys : List DlSlot) (c c' : Cell) (bs : List (List Bool)), c.lmac.stolen = false → c.send ys = .ok (c', bs) → c'.lmac.stolen = false := by
    intro ys
    induction ys with
    | nil => intro c c' bs hs h; cases h; exact hs
    | cons y ys ih =>
      intro c c' bs hs h
      unfold Cell.send at h
      rw [Out.bind_eq_ok] at h; obtain ⟨l, hl, h⟩ := h
      rw [Out.bind_eq_ok] at h; obtain ⟨b, hb, h⟩ := h
      rw [Out.bind_eq_ok] at h; obtain ⟨q, hq, h⟩ := h
      cases h
      refine ih _ q.1 q.2 ?_ hq
      rw [Out.ofRes_eq_ok] at hl
      unfold LmacUl.slot at hl
      rw [Res.bind_eq_ok] at hl; obtain ⟨i, _, hl⟩ := hl
      cases hl; rfl
  cases e with
  | up a => exact absurd rfl (he a)
  | request q => exact order _ h
  | voice ts b => exact order _ h
  | control m => exact order _ h
  | down w =>
    simp only [Cell.step] at h
    rw [Out.bind_eq_ok] at h; obtain ⟨r, hr, h⟩ := h
    cases h
    unfold Cell.down at hr
    rw [Out.bind_eq_ok] at hr; obtain ⟨t, ht, hr⟩ := hr
    rw [Out.bind_eq_ok] at hr; obtain ⟨q, hq, hr⟩ := hr
    cases hr
    exact sends (slotsOut t.2) { c with umac := t.1 } q.1 q.2 hs hq

theorem down_stolen (hx : x.valid) {h : List (CellEv × CellOut)} {c c' : Cell} {w : Bool} {o : CellOut}
    (hr : CellRun ⟨.init brew carrier x scramb wide pre, .init code⟩ h c) (hst : c.step (.down w) = .ok (c', o)) : c'.lmac.stolen = false := by
  have k := cell_known hx hr
  simp only [Cell.step] at hst
  rw [Out.bind_eq_ok] at hst; obtain ⟨r, hr', hst⟩ := hst
  cases hst
  unfold Cell.down at hr'
  rw [Out.bind_eq_ok] at hr'; obtain ⟨t, ht, hr'⟩ := hr'
  rw [Out.bind_eq_ok] at hr'; obtain ⟨q, hq, hr'⟩ := hr'
  cases hr'
  obtain ⟨y, hy, hts⟩ := tick_slot (s' := t.1) (out := t.2) ht (k.now hx).2
  rw [hy] at hq
  exact (send_lmac (c' := q.1) (bs := q.2) hq hts).2.2.2.1

theorem CellRun.append_inv {c0 : Cell} {h1 h2 : List (CellEv × CellOut)} {c : Cell} (h : CellRun c0 (h1 ++ h2) c) :
    ∃ c1, CellRun c0 h1 c1 ∧ ∀ P : Cell → Prop, P c1 → (∀ c c' e o, (e, o) ∈ h2 → c.step e = .ok (c', o) → P c → P c') → P c := by
  generalize hh : h1 ++ h2 = hist at h
  induction h generalizing h2 with
  | init =>
    have := List.append_eq_nil_iff.1 hh
    obtain ⟨rfl, rfl⟩ := this
    exact ⟨c0, .init, fun P hp _ => hp⟩
  | @step h' c c' e o hr hst ih =>
    cases h2 using List.reverseRecOn with
    | nil =>
      rw [List.append_nil] at hh
      subst hh
      exact ⟨c', .step hr hst, fun P hp _ => hp⟩
    | append_singleton l a _ =>
      rw [← List.append_assoc] at hh
      obtain ⟨rfl, h2⟩ := List.append_inj' hh rfl
      cases h2
      obtain ⟨c1, r1, r2⟩ := ih rfl
      refine ⟨c1, r1, fun P hp hst' => ?_⟩
      exact hst' c c' e o (List.mem_append_right _ (by simp)) hst
        (r2 P hp (fun c c' e o hm => hst' c c' e o (List.mem_append_left _ hm)))

theorem fresh_stolen (hx : x.valid) {h : List (CellEv × CellOut)} {c : Cell}
    (hr : CellRun ⟨.init brew carrier x scramb wide pre, .init code⟩ h c) (hf : Fresh h) : c.lmac.stolen = false := by
  obtain ⟨h1, w, o, h2, rfl, hq⟩ := hf
  rw [show h1 ++ (CellEv.down w, o) :: h2 = (h1 ++ [(CellEv.down w, o)]) ++ h2 by simp] at hr
  obtain ⟨c1, r1, r2⟩ := hr.append_inv
  refine r2 (fun c => c.lmac.stolen = false) ?_ (fun c c' e o hm hst hp => step_stolen hst (fun a ha => hq _ hm a ha) hp)
  generalize hh : h1 ++ [(CellEv.down w, o)] = hist at r1
  cases r1 with
  | init => simp at hh
  | @step h' c0 _ e0 o0 r hst =>
    obtain ⟨rfl, h3⟩ := List.append_inj' hh rfl
    cases h3
    exact down_stolen hx r hst

/-- A half slot. -/
theorem sub_heard {c c' : Cell} {ts : Time} {i : Fin 4} (hi : Slots.idx ts.t = .ok i) {rx : List Bool} (hl : rx.length = 254) {bs : List TpInd}
    (hb : SubInds rx bs) {cs : Calls} {vs : List (Nat × List Bool)} (h : c.hearAll ts bs = .ok (c', cs, vs)) :
    SubHeard c.lmac.code ts rx (cs.map Prod.fst) ∧ vs = [] := by
  cases hb with
  | none N => cases h; exact ⟨.silent N, rfl⟩
  | some p S =>
    obtain ⟨c1, cs1, vs1, cs2, vs2, h1, h2, rfl, rfl⟩ := hearAll_cons h
    cases h2
    rw [List.append_nil, List.append_nil]
    obtain ⟨d, ok, hd, _⟩ := decodeCp_total .schHu rfl (ctlBits rx p) (by rw [ctlBits_length hl S.range]; rfl) c.lmac.code
    cases hs : c.lmac.stolen with
    | true =>
      have := rx_ctl_stolen hi hs (bits := ctlBits rx p)
      rcases hear_inv h1 with ⟨e, _⟩ | ⟨_, _, e, _⟩ | ⟨_, _, _, _, e, _⟩ <;> rw [this] at e <;> cases e
    | false =>
      have e0 := rx_ctl hi hs hd
      cases ok with
      | false =>
        simp only [Bool.false_eq_true, if_false] at e0
        rcases hear_inv h1 with ⟨_, _, rfl, rfl⟩ | ⟨_, _, e, _⟩ | ⟨_, _, _, _, e, _⟩
        · exact ⟨.bad p d S hd, rfl⟩
        · rw [e0] at e; cases e
        · rw [e0] at e; cases e
      | true =>
        simp only [if_true] at e0
        rcases hear_inv h1 with ⟨e, _⟩ | ⟨_, _, e, _⟩ | ⟨k, d', s1, out, e, _, _, rfl, rfl⟩
        · rw [e0] at e; cases e
        · rw [e0] at e; cases e
        · rw [e0] at e; cases e
          exact ⟨.good p d S hd, rfl⟩

/-- One block of two answers. -/
theorem hear_cases {c c' : Cell} {ts : Time} {b : TpInd} {cs : Calls} {vs : List (Nat × List Bool)} (h : c.hear ts b = .ok (c', cs, vs))
    {k : UlCtx} {d : List Bool} {ok : Bool} (e0 : c.lmac.rx ts b = .ok (if ok then .block k d else .nothing)) :
    vs = [] ∧ (ok = true → ∃ out, cs = [(.block k d, out)] ∧ c'.lmac.stolen = (c.lmac.stolen || out.contains .secondHalf)) ∧
      (ok = false → cs = [] ∧ c' = c) := by
  cases ok with
  | false =>
    simp only [Bool.false_eq_true, if_false] at e0
    rcases hear_inv h with ⟨_, rfl, rfl, rfl⟩ | ⟨_, _, e, _⟩ | ⟨_, _, _, _, e, _⟩
    · exact ⟨rfl, by simp, fun _ => ⟨rfl, rfl⟩⟩
    · rw [e0] at e; cases e
    · rw [e0] at e; cases e
  | true =>
    simp only [if_true] at e0
    rcases hear_inv h with ⟨e, _⟩ | ⟨_, _, e, _⟩ | ⟨k', d', s1, out, e, _, rfl, rfl, rfl⟩
    · rw [e0] at e; cases e
    · rw [e0] at e; cases e
    · rw [e0] at e; cases e
      exact ⟨rfl, fun _ => ⟨out, rfl, rfl⟩, by simp⟩

/-- A whole slot. -/
theorem full_heard {c c' : Cell} {ts : Time} {i : Fin 4} (hi : Slots.idx ts.t = .ok i) (hs : c.lmac.stolen = false) {rx : List Bool}
    (hl : rx.length = 510) {bs : List TpInd} (hb : FullInds rx bs) {cs : Calls} {vs : List (Nat × List Bool)}
    (h : c.hearAll ts bs = .ok (c', cs, vs)) :
    FullHeard c.lmac.code ts (c.lmac.traffic i) rx cs (vs.map fun v => .voiceUp v.1 (v.2.map Bool.toNat)) := by
  cases hb with
  | none N P => cases h; exact .silent N P
  | norm1 p S =>
    obtain ⟨c1, cs1, vs1, cs2, vs2, h1, h2, rfl, rfl⟩ := hearAll_cons h
    cases h2
    rw [List.append_nil, List.append_nil]
    have len := normHalf_length hl S.range
    cases ht : c.lmac.traffic i with
    | true =>
      obtain ⟨d, ok, hd, _⟩ := decodeTp_total (normHalf1 rx p ++ normHalf2 rx p) (by rw [List.length_append, len.1, len.2]) c.lmac.code
      have e0 := rx_voice hi hs ht hd
      rcases hear_inv h1 with ⟨e, _⟩ | ⟨_, _, e, _, rfl, rfl⟩ | ⟨_, _, _, _, e, _⟩
      · rw [e0] at e; cases e
      · rw [e0] at e; cases e
        exact .voice p d ok rfl S hd
      · rw [e0] at e; cases e
    | false =>
      obtain ⟨d, ok, hd, _⟩ := decodeCp_total .schF rfl (normHalf1 rx p ++ normHalf2 rx p) (by rw [List.length_append, len.1, len.2]; rfl) c.lmac.code
      obtain ⟨rfl, g1, g2⟩ := hear_cases h1 (rx_full hi hs ht hd)
      cases ok with
      | true => obtain ⟨out, rfl, _⟩ := g1 rfl; exact .good p d out rfl S hd
      | false => obtain ⟨rfl, _⟩ := g2 rfl; exact .bad p d rfl S hd
  | norm2 p N S =>
    obtain ⟨c1, cs1, vs1, cs2, vs2, h1, h2, rfl, rfl⟩ := hearAll_cons h
    obtain ⟨c3, cs3, vs3, cs4, vs4, h3, h4, rfl, rfl⟩ := hearAll_cons h2
    cases h4
    rw [List.append_nil, List.append_nil]
    have len := normHalf_length hl S.range
    obtain ⟨d1, ok1, hd1, _⟩ := decodeCp_total .stch rfl (normHalf1 rx p) (by rw [len.1]; rfl) c.lmac.code
    obtain ⟨d2, ok2, hd2, _⟩ := decodeCp_total .stch rfl (normHalf2 rx p) (by rw [len.2]; rfl) c.lmac.code
    obtain ⟨rfl, g1, g2⟩ := hear_cases h1 (rx_half1 hi hs hd1)
    obtain ⟨_, _, a3, a4⟩ := hear_chain h1
    have st : c1.lmac.stolen = true ↔ ∃ q ∈ cs1, .secondHalf ∈ q.2 := by
      cases ok1 with
      | true =>
        obtain ⟨out, rfl, e⟩ := g1 rfl
        rw [e, hs]; simp
      | false =>
        obtain ⟨rfl, rfl⟩ := g2 rfl
        rw [hs]; simp
    have first1 : ok1 = true → ∃ out, cs1 = [(.block ⟨.stch, .block1, ts⟩ d1, out)] := fun h => by
      obtain ⟨out, e, _⟩ := g1 h; exact ⟨out, e⟩
    have first2 : ok1 = false → cs1 = [] := fun h => (g2 h).1
    rw [← a3] at hd2
    rw [← a4]
    cases ht : c1.lmac.traffic i with
    | false =>
      cases hs1 : c1.lmac.stolen with
      | true =>
        have := rx_half2_stolen hi hs1 ht (bits := normHalf2 rx p)
        rcases hear_inv h3 with ⟨e, _⟩ | ⟨_, _, e, _⟩ | ⟨_, _, _, _, e, _⟩ <;> rw [this] at e <;> cases e
      | false =>
        obtain ⟨rfl, k1, k2⟩ := hear_cases h3 (rx_half2 hi (by rw [hs1, ht]) hd2)
        rw [a3] at hd2
        refine .halves p d1 d2 ok1 ok2 cs1 cs3 N S hd1 hd2 first1 first2 ?_ ?_
        · rintro ⟨e, _⟩; obtain ⟨out, e, _⟩ := k1 e; exact ⟨out, e⟩
        · intro hn
          cases ok2 with
          | true => exact absurd ⟨rfl, .inl rfl⟩ hn
          | false => exact (k2 rfl).1
    | true =>
      cases hs1 : c1.lmac.stolen with
      | true =>
        obtain ⟨rfl, k1, k2⟩ := hear_cases h3 (rx_half2 hi (by rw [hs1, ht]) hd2)
        rw [a3] at hd2
        refine .halves p d1 d2 ok1 ok2 cs1 cs3 N S hd1 hd2 first1 first2 ?_ ?_
        · rintro ⟨e, _⟩; obtain ⟨out, e, _⟩ := k1 e; exact ⟨out, e⟩
        · intro hn
          cases ok2 with
          | true => exact absurd ⟨rfl, .inr (st.1 hs1)⟩ hn
          | false => exact (k2 rfl).1
      | false =>
        have e0 := rx_half2_voice hi hs1 ht (bits := normHalf2 rx p)
        rw [a3] at hd2
        rcases hear_inv h3 with ⟨_, _, rfl, rfl⟩ | ⟨_, _, e, _⟩ | ⟨_, _, _, _, e, _⟩
        · refine .halves p d1 d2 ok1 ok2 cs1 [] N S hd1 hd2 first1 first2 ?_ (fun _ => rfl)
          rintro ⟨_, h | h⟩
          · cases h
          · rw [st.2 h] at hs1; cases hs1
        · rw [e0] at e; cases e
        · rw [e0] at e; cases e

/-! ## Theorems -/

/-- **C67, everything that is heard.** After every history, what the upper MAC is told at the reception of a slot is exactly what
the bursts in the slot and its halves carry: blocks with a right checksum, each once, in this order, and the voice after them. All
of it belongs to the slot `o` sent down four slots ago, and the slot is traffic exactly if `o` said so. -/
theorem c67_exact (hx : x.valid) {h : List (CellEv × CellOut)} {c c' : Cell} (hr : CellRun ⟨.init brew carrier x scramb wide pre, .init code⟩ h c)
    (hf : Fresh h) {l : List DlSlot} {o o1 o2 o3 : DlSlot} (hs : sentOf h = l ++ [o, o1, o2, o3]) {a : Air} (ha : a.Sized) {calls : Calls}
    (hu : c.up a = .ok (c', calls)) :
    ∃ f y z v : Calls, calls = f ++ y ++ z ++ v ∧ FullHeard code o.ts (o.ulPhy == .tp) a.full f (v.map Prod.fst) ∧
      SubHeard code o.ts a.sub1 (y.map Prod.fst) ∧ SubHeard code o.ts a.sub2 (z.map Prod.fst) := by
  obtain ⟨i, hi, hn, ht, _⟩ := slot_known hx hr hs
  have hst := fresh_stolen hx hr hf
  have k := cell_known hx hr
  obtain ⟨t, bs, c1, cs1, vs, cs2, u1, u2, u3, u4, rfl⟩ := up_inv hu
  rw [hn] at u1; cases u1
  obtain ⟨fb, yb, zb, e, f1, f2, f3⟩ := phy_inds ha
  rw [e] at u2; cases u2
  obtain ⟨c2, x1, v1, x2, v2, w1, w2, rfl, rfl⟩ := hearAll_append u3
  obtain ⟨c3, x3, v3, x4, v4, w3, w4, rfl, rfl⟩ := hearAll_append w1
  have r1 := full_heard hi hst ha.full f1 w3
  obtain ⟨_, _, a1, _⟩ := hearAll_chain w3
  obtain ⟨_, _, a2, _⟩ := hearAll_chain w4
  obtain ⟨r2, rfl⟩ := sub_heard hi ha.sub1 f2 w4
  obtain ⟨r3, rfl⟩ := sub_heard hi ha.sub2 f3 w2
  rw [a1] at r2 a2
  rw [a2] at r3
  rw [ht] at r1
  rw [k.code] at r1 r2 r3
  obtain ⟨_, b2, _⟩ := voices_chain u4
  refine ⟨x3, x4, x2, cs2, rfl, ?_, r2, r3⟩
  rw [b2]
  simpa using r1

/-- **C67, random access and half slots.** A message in a control burst, in either half of the slot, with at most one wrong bit in
the training sequence and one in the coded bits, reaches the upper MAC. -/
theorem c67_control (hx : x.valid) {h : List (CellEv × CellOut)} {c c' : Cell} (hr : CellRun ⟨.init brew carrier x scramb wide pre, .init code⟩ h c)
    (hf : Fresh h) {l : List DlSlot} {o o1 o2 o3 : DlSlot} (hs : sentOf h = l ++ [o, o1, o2, o3]) {a : Air} (ha : a.Sized) {calls : Calls}
    (hu : c.up a = .ok (c', calls)) {rx : List Bool} (hrx : rx = a.sub1 ∨ rx = a.sub2) {p : Nat} (S : Spot rx seqX 88 48 p) {m t : List Bool}
    (hm : m.length = 92) (ht : encodeCp .schHu m code = .ok t) (hb : AtMostOneError (ctlBits rx p) t) :
    (.block ⟨.schHu, .block1, o.ts⟩ m) ∈ calls.map Prod.fst := by
  obtain ⟨f, y, z, v, rfl, _, h2, h3⟩ := c67_exact hx hr hf hs ha hu
  obtain ⟨t', e1, _, e3⟩ := c14_roundtrip .schHu rfl m hm code
  rw [ht] at e1; cases e1
  have dec := e3 (ctlBits rx p) false (some code) hb rfl
  have key : ∀ {l}, SubHeard code o.ts rx l → l = [.block ⟨.schHu, .block1, o.ts⟩ m] := by
    intro l hl
    cases hl with
    | silent N => exact absurd N S.not
    | bad q d S' hd => rw [S'.unique S, dec] at hd; cases hd
    | good q d S' hd => rw [S'.unique S, dec] at hd; cases hd; rfl
  rw [List.map_append, List.map_append, List.map_append]
  rcases hrx with rfl | rfl
  · rw [key h2]; simp
  · rw [key h3]; simp

/-- **C67, full slots.** A message in a full slot outside traffic reaches the upper MAC. -/
theorem c67_full (hx : x.valid) {h : List (CellEv × CellOut)} {c c' : Cell} (hr : CellRun ⟨.init brew carrier x scramb wide pre, .init code⟩ h c)
    (hf : Fresh h) {l : List DlSlot} {o o1 o2 o3 : DlSlot} (hs : sentOf h = l ++ [o, o1, o2, o3]) {a : Air} (ha : a.Sized) {calls : Calls}
    (hu : c.up a = .ok (c', calls)) (hc : o.ulPhy = .cp) {p : Nat} (S : Spot a.full seqN 220 48 p) {m t : List Bool}
    (hm : m.length = 268) (ht : encodeCp .schF m code = .ok t) (hb : AtMostOneError (normHalf1 a.full p ++ normHalf2 a.full p) t) :
    (.block ⟨.schF, .both, o.ts⟩ m) ∈ calls.map Prod.fst := by
  obtain ⟨f, y, z, v, rfl, h1, _, _⟩ := c67_exact hx hr hf hs ha hu
  obtain ⟨t', e1, _, e3⟩ := c14_roundtrip .schF rfl m hm code
  rw [ht] at e1; cases e1
  have dec := e3 _ false (some code) hb rfl
  rw [hc] at h1
  generalize v.map Prod.fst = v' at h1
  cases h1 with
  | silent N => exact absurd N S.not
  | voice q d ok h => cases h
  | bad q d _ S' hd => rw [S'.unique S, dec] at hd; cases hd
  | good q d out _ S' hd => rw [S'.unique S, dec] at hd; cases hd; simp
  | halves _ _ _ _ _ _ _ N => exact absurd N S.not

/-- **C67, the halves of a slot.** A message in the first half of a slot of two halves reaches the upper MAC; so does one in the
second half, outside traffic, or if the upper MAC found in the first half that the second one is stolen too. -/
theorem c67_halves (hx : x.valid) {h : List (CellEv × CellOut)} {c c' : Cell} (hr : CellRun ⟨.init brew carrier x scramb wide pre, .init code⟩ h c)
    (hf : Fresh h) {l : List DlSlot} {o o1 o2 o3 : DlSlot} (hs : sentOf h = l ++ [o, o1, o2, o3]) {a : Air} (ha : a.Sized) {calls : Calls}
    (hu : c.up a = .ok (c', calls)) {p : Nat} (N : NoSpot a.full seqN 220 48) (S : Spot a.full seqP 220 48 p) :
    (∀ m t, m.length = 124 → encodeCp .stch m code = .ok t → AtMostOneError (normHalf1 a.full p) t →
      (.block ⟨.stch, .block1, o.ts⟩ m) ∈ calls.map Prod.fst) ∧
    (∀ m t, m.length = 124 → encodeCp .stch m code = .ok t → AtMostOneError (normHalf2 a.full p) t →
      (o.ulPhy = .cp ∨ ∃ m1 t1, m1.length = 124 ∧ encodeCp .stch m1 code = .ok t1 ∧ AtMostOneError (normHalf1 a.full p) t1 ∧
        (ulPdu .stch m1).Steals) →
      (.block ⟨.stch, .block2, o.ts⟩ m) ∈ calls.map Prod.fst) := by
  have hdec : ∀ m t rx, m.length = 124 → encodeCp .stch m code = .ok t → AtMostOneError rx t →
      decodeCp .stch false rx (some code) = .ok (some m, true) := by
    intro m t rx hm ht hb
    obtain ⟨t', e1, _, e3⟩ := c14_roundtrip .stch rfl m hm code
    rw [ht] at e1; cases e1
    exact e3 _ false (some code) hb rfl
  -- the answers of the upper MAC
  have answers : ∀ q ∈ calls, ∀ kk d, q.1 = .block kk d → (ulPdu kk.chan d).Steals → .secondHalf ∈ q.2 := by
    have ch := (up_chain hu).1
    clear hu
    generalize c.umac = s at ch
    induction calls generalizing s with
    | nil => simp
    | cons p0 calls ih =>
      obtain ⟨ev, out⟩ := p0
      obtain ⟨s1, c1, c2⟩ := ch
      intro q hq kk d hkd hsteal
      rcases List.mem_cons.1 hq with rfl | hq
      · simp only at hkd
        subst hkd
        exact rxBlock_steals c1 hsteal
      · exact ih _ c2 q hq kk d hkd hsteal
  obtain ⟨f, y, z, v, rfl, h1, _, _⟩ := c67_exact hx hr hf hs ha hu
  generalize v.map Prod.fst = v' at h1
  cases h1 with
  | silent _ P => exact absurd P S.not
  | voice q d ok _ S' => exact absurd N S'.not
  | bad q d _ S' => exact absurd N S'.not
  | good q d out _ S' => exact absurd N S'.not
  | halves q d1 d2 ok1 ok2 x1 x2 _ S' e1 e2 f1 f1' f2 f2' =>
    have := S'.unique S
    subst this
    refine ⟨?_, ?_⟩
    · intro m t hm ht hb
      rw [hdec m t _ hm ht hb] at e1
      cases e1
      obtain ⟨out, rfl⟩ := f1 rfl
      simp
    · intro m t hm ht hb hsec
      rw [hdec m t _ hm ht hb] at e2
      cases e2
      obtain ⟨out, rfl⟩ := f2 ⟨rfl, by
        rcases hsec with h | ⟨m1, t1, g1, g2, g3, g4⟩
        · left; rw [h]; rfl
        · right
          rw [hdec m1 t1 _ g1 g2 g3] at e1
          cases e1
          obtain ⟨out, rfl⟩ := f1 rfl
          exact ⟨_, List.mem_singleton.2 rfl, answers _ (by simp) _ _ rfl g4⟩⟩
      simp

/-- **C67, voice.** A frame of voice in a traffic slot reaches the upper MAC as it was sent, and with one wrong bit on the air it
arrives with all its protected bits right. -/
theorem c67_voice (hx : x.valid) {h : List (CellEv × CellOut)} {c c' : Cell} (hr : CellRun ⟨.init brew carrier x scramb wide pre, .init code⟩ h c)
    (hf : Fresh h) {l : List DlSlot} {o o1 o2 o3 : DlSlot} (hs : sentOf h = l ++ [o, o1, o2, o3]) {a : Air} (ha : a.Sized) {calls : Calls}
    (hu : c.up a = .ok (c', calls)) (hc : o.ulPhy = .tp) {p : Nat} (S : Spot a.full seqN 220 48 p) {m t : List Bool}
    (hm : m.length = 274) (ht : encodeTp m code 1 = .ok t) :
    (normHalf1 a.full p ++ normHalf2 a.full p = t → (.voiceUp o.ts.t (m.map Bool.toNat)) ∈ calls.map Prod.fst) ∧
    (AtMostOneError (normHalf1 a.full p ++ normHalf2 a.full p) t → ∃ out chIn chOut, (.voiceUp o.ts.t (out.map Bool.toNat)) ∈ calls.map Prod.fst ∧
      codecToChannel m = .ok chIn ∧ codecToChannel out = .ok chOut ∧
      chOut.drop 102 = chIn.drop 102 ∧ ∃ p, ∀ i, i < 102 → i ≠ p → chOut[i]? = chIn[i]?) := by
  obtain ⟨f, y, z, v, rfl, h1, _, _⟩ := c67_exact hx hr hf hs ha hu
  rw [hc] at h1
  generalize hv : v.map Prod.fst = v' at h1
  cases h1 with
  | silent N => exact absurd N S.not
  | bad q d h => cases h
  | good q d out h => cases h
  | halves _ _ _ _ _ _ _ N => exact absurd N S.not
  | voice q d ok _ S' hd =>
    have := S'.unique S
    subst this
    have hmem : UmacEv.voiceUp o.ts.t (d.map Bool.toNat) ∈ ([] ++ y ++ z ++ v : Calls).map Prod.fst := by
      rw [List.map_append, hv]; simp
    refine ⟨fun e => ?_, fun e => ?_⟩
    · obtain ⟨t', e1, _, e3⟩ := c15_roundtrip m hm code
      rw [ht] at e1; cases e1
      rw [e, e3] at hd; cases hd
      exact hmem
    · obtain ⟨t', e1, e3⟩ := c15_protects m hm code
      rw [ht] at e1; cases e1
      obtain ⟨out, chIn, chOut, g1, g2, g3, g4⟩ := e3 _ e
      rw [g1] at hd; cases hd
      exact ⟨d, chIn, chOut, hmem, g2, g3, g4⟩

/-- **C67, messages.** A block told to the upper MAC which consists of messages is handed on to the layer above: each message, in
order, under the address in its header and with the time of the slot. -/
theorem c67_messages {c c' : Cell} {a : Air} {calls : Calls} (hu : c.up a = .ok (c', calls)) {k : UlCtx} {m : List Bool}
    (hm : (.block k m) ∈ calls.map Prod.fst) {ms : List (Addr × List Bool)} (hr : Reads k.chan m ms) :
    ∃ out, (.block k m, out) ∈ calls ∧ sdus out = ms.map fun q => (k.x, q.1, q.2) := by
  have ch := (up_chain hu).1
  clear hu
  generalize c.umac = s at ch
  induction calls generalizing s with
  | nil => simp at hm
  | cons p0 calls ih =>
    obtain ⟨ev, out⟩ := p0
    obtain ⟨s1, c1, c2⟩ := ch
    rcases List.mem_cons.1 hm with rfl | hm
    · exact ⟨out, List.mem_cons_self, (c49_messages s s1 k m out c1 ms hr).1⟩
    · obtain ⟨out', h1, h2⟩ := ih hm _ c2
      exact ⟨out', List.mem_cons_of_mem _ h1, h2⟩

/-- **C67, time.** The history of the upper MAC inside the cell is one in which every block belongs to the slot two before the
present one: what is proved about such histories (C36, C46, C49, C50) holds of the cell. -/
theorem c67_history (hx : x.valid) {h : List (CellEv × CellOut)} {c : Cell} (hr : CellRun ⟨.init brew carrier x scramb wide pre, .init code⟩ h c) :
    UmacRun (.init brew carrier x scramb wide pre) (h.flatMap (·.2.calls)) c.umac ∧ InTime x (h.flatMap (·.2.calls)) :=
  ⟨(cell_known hx hr).run, (cell_known hx hr).time⟩

end Verif.Phy
