import Verif.Phy.UplinkFind
import Verif.Umac.UmacSduProps
/-!
# The radio side as a history of the upper MAC
-/
namespace Verif.Phy
open Verif.Umac Verif.Tdma Verif.Codec Verif.ErrorControl

/-- A chain of calls of the upper MAC. -/
def Chain (s : UmacBs) : Calls → UmacBs → Prop
  | [], s' => s' = s
  | (e, out) :: cs, s' => ∃ s1, s.step e = .ok (s1, out) ∧ Chain s1 cs s'

theorem Chain.append {s s1 s2 : UmacBs} : ∀ {a b : Calls}, Chain s a s1 → Chain s1 b s2 → Chain s (a ++ b) s2
  | [], _, h, h' => by cases h; exact h'
  | (_, _) :: _, _, ⟨s0, h0, h⟩, h' => ⟨s0, h0, Chain.append h h'⟩

theorem Chain.run {s0 s s' : UmacBs} : ∀ {cs h : Calls}, UmacRun s0 h s → Chain s cs s' → UmacRun s0 (h ++ cs) s'
  | [], h, hr, hc => by cases hc; rwa [List.append_nil]
  | (e, out) :: cs, h, hr, ⟨s1, h1, hc⟩ => by
    have := Chain.run (UmacRun.step hr h1) hc
    rwa [List.append_assoc] at this

theorem Chain.split {s s' : UmacBs} : ∀ {a : Calls} {b : Calls}, Chain s (a ++ b) s' → ∃ s1, Chain s a s1 ∧ Chain s1 b s'
  | [], _, h => ⟨s, rfl, h⟩
  | (_, _) :: _, _, ⟨s0, h0, h⟩ => by obtain ⟨s1, h1, h2⟩ := Chain.split h; exact ⟨s1, ⟨s0, h0, h1⟩, h2⟩

/-- The outcome of one block, taken apart. -/
theorem hear_inv {c c' : Cell} {x : Time} {b : TpInd} {cs : Calls} {vs : List (Nat × List Bool)} (h : c.hear x b = .ok (c', cs, vs)) :
    (c.lmac.rx x b = .ok .nothing ∧ c' = c ∧ cs = [] ∧ vs = []) ∨
    (∃ ts d, c.lmac.rx x b = .ok (.voice ts d) ∧ c' = c ∧ cs = [] ∧ vs = [(ts, d)]) ∨
    (∃ k d s1 out, c.lmac.rx x b = .ok (.block k d) ∧ c.umac.step (.block k d) = .ok (s1, out) ∧
      c' = ⟨s1, { c.lmac with stolen := c.lmac.stolen || out.contains .secondHalf }⟩ ∧ cs = [(.block k d, out)] ∧ vs = []) := by
  unfold Cell.hear at h
  rw [Out.bind_eq_ok] at h; obtain ⟨u, hu, h⟩ := h
  rw [Out.ofRes_eq_ok] at hu
  cases u with
  | nothing => cases h; exact .inl ⟨hu, rfl, rfl, rfl⟩
  | voice ts d => cases h; exact .inr (.inl ⟨ts, d, hu, rfl, rfl, rfl⟩)
  | block k d =>
    simp only at h
    rw [Out.bind_eq_ok] at h; obtain ⟨r, hr, h⟩ := h
    cases h
    exact .inr (.inr ⟨k, d, r.1, r.2, hu, hr, rfl, rfl, rfl⟩)

/-- The block a call carries is of the slot and has a channel which fits its block number. -/
theorem rx_block {l : LmacUl} {x : Time} {b : TpInd} {k : UlCtx} {d : List Bool} (h : l.rx x b = .ok (.block k d)) :
    k.x = x ∧ k.half = b.num ∧ ∃ ch, decodeCp ch false b.bits (some l.code) = .ok (some d, true) ∧
      ((k.chan = .schF ∧ ch = .schF ∧ b.train = .norm1 ∧ b.num = .both) ∨ (k.chan = .schHu ∧ ch = .schHu ∧ b.train = .ext) ∨
       (k.chan = .stch ∧ ch = .stch ∧ b.train = .norm2 ∧ b.num ≠ .both)) := by
  unfold LmacUl.rx at h
  rw [Res.bind_eq_ok] at h; obtain ⟨i, _, h⟩ := h
  rw [Res.bind_eq_ok] at h; obtain ⟨ch, hch, h⟩ := h
  rw [Res.bind_eq_ok] at h; obtain ⟨_, _, h⟩ := h
  rw [Res.bind_eq_ok] at h; obtain ⟨_, _, h⟩ := h
  have ctl : ∀ {k' : UlCtx} {ch : Interleaver.Chan}, l.control k' ch b.bits = .ok (.block k d) →
      k = k' ∧ decodeCp ch false b.bits (some l.code) = .ok (some d, true) := by
    intro k' ch h
    unfold LmacUl.control at h
    rw [Res.bind_eq_ok] at h; obtain ⟨⟨r1, r2⟩, hr, h⟩ := h
    cases r1 with
    | none => cases h
    | some d' =>
      cases r2 with
      | false => cases h
      | true => simp only [if_true, Res.ok.injEq, LmacUp.block.injEq] at h; obtain ⟨rfl, rfl⟩ := h; exact ⟨rfl, hr⟩
  have kinds : (ch = .tchS) ∨ (ch = .schF ∧ b.train = .norm1 ∧ b.num = .both) ∨ (ch = .schHu ∧ b.train = .ext) ∨
      (ch = .stch ∧ b.train = .norm2 ∧ b.num ≠ .both) := by
    unfold ulChannel at hch
    cases ht : b.train <;> cases hn : b.num <;> rw [ht, hn] at hch <;> simp only [Res.ok.injEq, reduceCtorEq] at hch
    all_goals first
      | (subst hch; simp)
      | (split at hch <;> subst hch <;> simp)
  rcases kinds with rfl | ⟨rfl, h1, h2⟩ | ⟨rfl, h1⟩ | ⟨rfl, h1, h2⟩
  · simp only [LmacUl.voice] at h
    split at h
    · rw [Res.bind_eq_ok] at h; obtain ⟨_, _, h⟩ := h; cases h
    · cases h
  · obtain ⟨rfl, h'⟩ := ctl h; exact ⟨rfl, rfl, _, h', .inl ⟨rfl, rfl, h1, h2⟩⟩
  · obtain ⟨rfl, h'⟩ := ctl h; exact ⟨rfl, rfl, _, h', .inr (.inl ⟨rfl, rfl, h1⟩)⟩
  · obtain ⟨rfl, h'⟩ := ctl h; exact ⟨rfl, rfl, _, h', .inr (.inr ⟨rfl, rfl, h1, h2⟩)⟩

theorem hear_chain {c c' : Cell} {x : Time} {b : TpInd} {cs : Calls} {vs : List (Nat × List Bool)} (h : c.hear x b = .ok (c', cs, vs)) :
    Chain c.umac cs c'.umac ∧ (∀ p ∈ cs, ∃ k d, p.1 = .block k d ∧ k.x = x) ∧ c'.lmac.code = c.lmac.code ∧ c'.lmac.traffic = c.lmac.traffic := by
  rcases hear_inv h with ⟨_, rfl, rfl, rfl⟩ | ⟨ts, d, _, rfl, rfl, rfl⟩ | ⟨k, d, s1, out, h1, h2, rfl, rfl, rfl⟩
  · exact ⟨rfl, by simp, rfl, rfl⟩
  · exact ⟨rfl, by simp, rfl, rfl⟩
  · refine ⟨⟨s1, h2, rfl⟩, ?_, rfl, rfl⟩
    intro p hp
    rw [List.mem_singleton] at hp; subst hp
    exact ⟨k, d, rfl, (rx_block h1).1⟩

theorem hearAll_nil {c : Cell} {x : Time} : c.hearAll x [] = .ok (c, [], []) := rfl

theorem hearAll_cons {c c' : Cell} {x : Time} {b : TpInd} {bs : List TpInd} {cs : Calls} {vs : List (Nat × List Bool)}
    (h : c.hearAll x (b :: bs) = .ok (c', cs, vs)) : ∃ c1 cs1 vs1 cs2 vs2, c.hear x b = .ok (c1, cs1, vs1) ∧
      c1.hearAll x bs = .ok (c', cs2, vs2) ∧ cs = cs1 ++ cs2 ∧ vs = vs1 ++ vs2 := by
  unfold Cell.hearAll at h
  rw [Out.bind_eq_ok] at h; obtain ⟨r, hr, h⟩ := h
  rw [Out.bind_eq_ok] at h; obtain ⟨q, hq, h⟩ := h
  cases h
  exact ⟨r.1, r.2.1, r.2.2, q.2.1, q.2.2, hr, hq, rfl, rfl⟩

theorem hearAll_append {x : Time} {as : List TpInd} : ∀ {c c' : Cell} {bs : List TpInd} {cs : Calls} {vs : List (Nat × List Bool)},
    c.hearAll x (as ++ bs) = .ok (c', cs, vs) → ∃ c1 cs1 vs1 cs2 vs2, c.hearAll x as = .ok (c1, cs1, vs1) ∧
      c1.hearAll x bs = .ok (c', cs2, vs2) ∧ cs = cs1 ++ cs2 ∧ vs = vs1 ++ vs2 := by
  induction as with
  | nil => intro c c' bs cs vs h; exact ⟨c, [], [], cs, vs, rfl, h, rfl, rfl⟩
  | cons b as ih =>
    intro c c' bs cs vs h
    obtain ⟨c1, cs1, vs1, cs2, vs2, h1, h2, rfl, rfl⟩ := hearAll_cons h
    obtain ⟨c3, cs3, vs3, cs4, vs4, h3, h4, rfl, rfl⟩ := ih h2
    refine ⟨c3, cs1 ++ cs3, vs1 ++ vs3, cs4, vs4, ?_, h4, by simp, by simp⟩
    rw [Cell.hearAll, h1, Out.bind_ok, h3, Out.bind_ok]

theorem hearAll_chain {x : Time} : ∀ {bs : List TpInd} {c c' : Cell} {cs : Calls} {vs : List (Nat × List Bool)}, c.hearAll x bs = .ok (c', cs, vs) →
    Chain c.umac cs c'.umac ∧ (∀ p ∈ cs, ∃ k d, p.1 = .block k d ∧ k.x = x) ∧ c'.lmac.code = c.lmac.code ∧ c'.lmac.traffic = c.lmac.traffic
  | [], c, c', cs, vs, h => by cases h; exact ⟨rfl, by simp, rfl, rfl⟩
  | b :: bs, c, c', cs, vs, h => by
    obtain ⟨c1, cs1, vs1, cs2, vs2, h1, h2, rfl, rfl⟩ := hearAll_cons h
    obtain ⟨a1, a2, a3, a4⟩ := hear_chain h1
    obtain ⟨b1, b2, b3, b4⟩ := hearAll_chain h2
    refine ⟨a1.append b1, ?_, b3.trans a3, b4.trans a4⟩
    intro p hp
    rcases List.mem_append.1 hp with hp | hp
    · exact a2 p hp
    · exact b2 p hp

theorem voices_chain : ∀ {vs : List (Nat × List Bool)} {c c' : Cell} {cs : Calls}, c.voices vs = .ok (c', cs) →
    Chain c.umac cs c'.umac ∧ cs.map Prod.fst = vs.map (fun v => .voiceUp v.1 (v.2.map Bool.toNat)) ∧ c'.lmac = c.lmac
  | [], c, c', cs, h => by cases h; exact ⟨rfl, rfl, rfl⟩
  | (ts, d) :: vs, c, c', cs, h => by
    unfold Cell.voices at h
    rw [Out.bind_eq_ok] at h; obtain ⟨r, hr, h⟩ := h
    rw [Out.bind_eq_ok] at h; obtain ⟨q, hq, h⟩ := h
    cases h
    obtain ⟨a1, a2, a3⟩ := voices_chain (c' := q.1) (cs := q.2) hq
    exact ⟨⟨r.1, hr, a1⟩, by simp [a2], a3⟩

/-- The reception of a slot, taken apart. -/
theorem up_inv {c c' : Cell} {a : Air} {cs : Calls} (h : c.up a = .ok (c', cs)) :
    ∃ x bs c1 cs1 vs cs2, c.umac.now.addTimeslots (-2) = .ok x ∧ phyRx a = .ok bs ∧ c.hearAll x bs = .ok (c1, cs1, vs) ∧
      c1.voices vs = .ok (c', cs2) ∧ cs = cs1 ++ cs2 := by
  unfold Cell.up at h
  rw [Out.bind_eq_ok] at h; obtain ⟨x, hx, h⟩ := h
  rw [Out.ofRes_eq_ok] at hx
  rw [Out.bind_eq_ok] at h; obtain ⟨bs, hb, h⟩ := h
  rw [Out.ofRes_eq_ok] at hb
  rw [Out.bind_eq_ok] at h; obtain ⟨r, hr, h⟩ := h
  rw [Out.bind_eq_ok] at h; obtain ⟨v, hv, h⟩ := h
  cases h
  exact ⟨x, bs, r.1, r.2.1, r.2.2, v.2, hx, hb, hr, hv, rfl⟩

theorem up_chain {c c' : Cell} {a : Air} {cs : Calls} (h : c.up a = .ok (c', cs)) :
    Chain c.umac cs c'.umac ∧ c'.lmac.code = c.lmac.code ∧ c'.lmac.traffic = c.lmac.traffic ∧
    ∃ x, c.umac.now.addTimeslots (-2) = .ok x ∧ ∀ p ∈ cs, p.1.isTick = false ∧ ∀ k d, p.1 = .block k d → k.x = x := by
  obtain ⟨x, bs, c1, cs1, vs, cs2, h1, h2, h3, h4, rfl⟩ := up_inv h
  obtain ⟨a1, a2, a3, a4⟩ := hearAll_chain h3
  obtain ⟨b1, b2, b3⟩ := voices_chain h4
  refine ⟨a1.append b1, by rw [b3, a3], by rw [b3, a4], x, h1, ?_⟩
  intro p hp
  rcases List.mem_append.1 hp with hp | hp
  · obtain ⟨k, d, e, hk⟩ := a2 p hp
    rw [e]
    exact ⟨rfl, fun k' d' e' => by cases e'; exact hk⟩
  · have : p.1 ∈ cs2.map Prod.fst := List.mem_map_of_mem hp
    rw [b2] at this
    obtain ⟨v, _, e⟩ := List.mem_map.1 this
    rw [← e]
    exact ⟨rfl, fun _ _ e => by cases e⟩

/-! ## The slots -/

/-- The slot built at the beginning of a slot is the next one. -/
theorem tick_slot {s s' : UmacBs} {w : Bool} {out : List UmacOut} (h : s.tick w = .ok (s', out)) {n : Int} (hc : s.sched.cur = fromInt n) :
    ∃ y, slotsOut out = [y] ∧ y.ts = fromInt (n + 2) := by
  unfold UmacBs.tick at h
  rw [Out.bind_eq_ok] at h; obtain ⟨now, _, h⟩ := h
  have quiet : ∀ (l : List (Fin 4)), slotsOut (l.map fun i => UmacOut.inactive (i.val + 1)) = [] := by
    intro l; simp [slotsOut]
  have fin : ∀ {s1 : UmacBs}, s1.sched.cur = fromInt n →
      (do let r ← s1.checkSilent.1.call .tick; .ok (r.1, s1.checkSilent.2 ++ match r.2 with | .sent o => [UmacOut.slot o] | _ => [])) = Out.ok (s', out) →
      ∃ y, slotsOut out = [y] ∧ y.ts = fromInt (n + 2) := by
    intro s1 hc h
    rw [Out.bind_eq_ok] at h; obtain ⟨r, hr, h⟩ := h
    cases h
    unfold UmacBs.call at hr
    rw [Out.bind_eq_ok] at hr; obtain ⟨q, hq, hr⟩ := hr
    cases hr
    simp only [Sched.step] at hq
    rw [Out.bind_eq_ok] at hq; obtain ⟨cur, hcur, hq⟩ := hq
    rw [Out.bind_eq_ok] at hq; obtain ⟨f, hf, hq⟩ := hq
    cases hq
    rw [Out.ofRes_eq_ok, show s1.checkSilent.1.sched.cur = fromInt n from hc, fromInt_add _ _ (by omega) (by omega)] at hcur
    cases hcur
    obtain ⟨F⟩ := finalize_inv (x := f.2) (s' := f.1) hf
    have ht := F.hts
    simp only at ht
    rw [fromInt_add _ _ (by omega) (by omega)] at ht
    cases ht' : F.ts
    refine ⟨f.2.slot, ?_, ?_⟩
    · simp only [slotsOut, List.filterMap_append, UmacBs.checkSilent]
      have := quiet ((List.finRange 4).filter s1.silent)
      unfold slotsOut at this
      rw [this]; rfl
    · rw [F.hxt, ← Res.ok.inj ht]; congr 1; omega
  by_cases hw : w = s.wide
  · simp only [hw, if_true, Out.bind_ok] at h
    exact fin (s1 := { s with now := now }) hc h
  · simp only [hw, if_false] at h
    rw [Out.bind_eq_ok] at h; obtain ⟨r, h0, h⟩ := h
    rw [Out.bind_ok] at h
    have hc' : r.1.sched.cur = fromInt n := by
      unfold UmacBs.call at h0
      rw [Out.bind_eq_ok] at h0; obtain ⟨u, e1, h0⟩ := h0
      cases h0; cases e1
      exact hc
    exact fin (s1 := { r.1 with wide := w }) hc' h

theorem send_lmac {c c' : Cell} {y : DlSlot} {bs : List (List Bool)} (h : c.send [y] = .ok (c', bs)) {n : Int} (hy : y.ts = fromInt n) :
    c'.umac = c.umac ∧ c'.lmac.code = c.lmac.code ∧ c'.lmac.traffic = c.lmac.traffic.upd (slot n) (y.ulPhy == .tp) ∧ c'.lmac.stolen = false ∧
      ∃ b, sendSlot y = .ok b ∧ bs = [b] := by
  unfold Cell.send at h
  rw [Out.bind_eq_ok] at h; obtain ⟨l, hl, h⟩ := h
  rw [Out.ofRes_eq_ok] at hl
  rw [Out.bind_eq_ok] at h; obtain ⟨b, hb, h⟩ := h
  rw [Out.ofRes_eq_ok] at hb
  unfold Cell.send at h
  cases h
  unfold LmacUl.slot at hl
  rw [hy, idx_fromInt, Res.bind_ok] at hl
  cases hl
  exact ⟨rfl, rfl, rfl, rfl, b, hb, rfl⟩

/-- The calls of the upper MAC in a history of the radio side. -/
def callsOf (h : List (CellEv × CellOut)) : Calls := h.flatMap (·.2.calls)

/-- The slots sent down in a history of the radio side. -/
def sentOf (h : List (CellEv × CellOut)) : List DlSlot := (callsOf h).flatMap fun p => slotsOut p.2

/-- What is known of the radio side after a history. -/
structure CellKnown (s0 : UmacBs) (code : BitVec 32) (x : Time) (h : List (CellEv × CellOut)) (c : Cell) : Prop where
  run : UmacRun s0 (callsOf h) c.umac
  code : c.lmac.code = code
  time : InTime x (callsOf h)
  count : (sentOf h).length = slotsIn (callsOf h)
  sent : ∀ j (hj : j < (sentOf h).length), ((sentOf h)[j]).ts = fromInt (x.toInt + j + 2)
  traffic : ∀ i : Fin 4, c.lmac.traffic i = (((sentOf h).reverse.find? fun y => y.ts.t == i.val + 1).any fun y => y.ulPhy == .tp)

theorem callsOf_append (a b : List (CellEv × CellOut)) : callsOf (a ++ b) = callsOf a ++ callsOf b := by simp [callsOf]

theorem sentOf_append (a b : List (CellEv × CellOut)) : sentOf (a ++ b) = sentOf a ++ sentOf b := by simp [sentOf, callsOf_append]

theorem slotsIn_append (a b : Calls) : slotsIn (a ++ b) = slotsIn a + slotsIn b := by simp [slotsIn]

theorem InTime.quiet {x : Time} {h cs : Calls} (hi : InTime x h) (ht : ∀ p ∈ cs, p.1.isTick = false)
    (hb : ∀ p ∈ cs, ∀ k d, p.1 = .block k d → k.x = fromInt (x.toInt + slotsIn h - 2)) : InTime x (h ++ cs) := by
  intro h1 k d out h2 e
  rcases List.append_eq_append_iff.1 e with ⟨l, h1e, h2e⟩ | ⟨l, h1e, h2e⟩
  · subst h1e
    have hq : slotsIn l = 0 := by
      unfold slotsIn
      rw [List.countP_eq_zero]
      intro p hp
      rw [ht p (by rw [h2e]; exact List.mem_append_left _ hp)]; simp
    refine ⟨_, hb (_, _) (by rw [h2e]; exact List.mem_append_right _ List.mem_cons_self) k d rfl, ?_, ?_⟩ <;>
      rw [slotsIn_append, hq] <;> omega
  · cases l with
    | nil =>
      simp only [List.append_nil, List.nil_append] at h1e h2e
      subst h1e
      refine ⟨_, hb (.block k d, out) (by rw [← h2e]; exact List.mem_cons_self) k d rfl, ?_, ?_⟩ <;> omega
    | cons q l =>
      simp only [List.cons_append, List.cons.injEq] at h2e
      obtain ⟨rfl, h2e⟩ := h2e
      exact hi h1 k d out l h1e

theorem step_slots {s s' : UmacBs} {e : UmacEv} {out : List UmacOut} (h : s.step e = .ok (s', out)) (he : e.isTick = false) : slotsOut out = [] := by
  cases e with
  | tick w => cases he
  | block c bits =>
    have := rxBlock_out h
    unfold slotsOut
    rw [List.filterMap_eq_nil_iff]
    intro o ho
    have := this o ho
    cases o <;> first | rfl | exact this.elim
  | request q =>
    simp only [UmacBs.step] at h
    rw [Out.bind_eq_ok] at h; obtain ⟨s1, h1, h⟩ := h
    cases h; rfl
  | voiceDown ts b =>
    simp only [UmacBs.step] at h
    rw [Out.bind_eq_ok] at h; obtain ⟨s1, h1, h⟩ := h
    cases h; rfl
  | voiceUp ts data =>
    obtain ⟨_, _, _, _, _, _, ul, _, rfl⟩ := voiceUp_via h
    split <;> rfl
  | control m =>
    simp only [UmacBs.step] at h
    rw [Out.bind_eq_ok] at h; obtain ⟨s1, h1, h⟩ := h
    cases h; rfl

theorem Chain.slots {s s' : UmacBs} : ∀ {cs : Calls}, Chain s cs s' → (∀ p ∈ cs, p.1.isTick = false) → cs.flatMap (fun p => slotsOut p.2) = []
  | [], _, _ => rfl
  | (e, out) :: cs, ⟨s1, h1, hc⟩, ht => by
    rw [List.flatMap_cons, step_slots h1 (ht _ List.mem_cons_self), Chain.slots hc (fun p hp => ht p (List.mem_cons_of_mem _ hp))]
    rfl

variable {brew : Bool} {carrier : Nat} {x : Time} {scramb : Nat} {wide : Bool} {pre : Precomps} {code : BitVec 32}

theorem CellKnown.now (hx : x.valid) {h : List (CellEv × CellOut)} {c : Cell} (k : CellKnown (.init brew carrier x scramb wide pre) code x h c) :
    c.umac.now = fromInt (x.toInt + slotsIn (callsOf h)) ∧ c.umac.sched.cur = fromInt (x.toInt + slotsIn (callsOf h)) := by
  have kn := run_known hx k.run k.time.timed
  have hc := run_clock k.run
  exact ⟨by rw [kn.now, hc], by rw [kn.view.cur, hc]⟩

theorem CellKnown.quiet {s0 : UmacBs} {h : List (CellEv × CellOut)} {c c' : Cell} (k : CellKnown s0 code x h c) {e : CellEv} {o : CellOut}
    (hc : Chain c.umac o.calls c'.umac) (h1 : c'.lmac.code = c.lmac.code) (h2 : c'.lmac.traffic = c.lmac.traffic)
    (ht : ∀ p ∈ o.calls, p.1.isTick = false)
    (hb : ∀ p ∈ o.calls, ∀ k d, p.1 = .block k d → k.x = fromInt (x.toInt + slotsIn (callsOf h) - 2)) : CellKnown s0 code x (h ++ [(e, o)]) c' := by
  have ec : callsOf (h ++ [(e, o)]) = callsOf h ++ o.calls := by simp [callsOf]
  have es : sentOf (h ++ [(e, o)]) = sentOf h := by
    rw [sentOf_append]
    have : sentOf [(e, o)] = [] := by
      have := hc.slots ht
      simpa [sentOf, callsOf] using this
    rw [this, List.append_nil]
  have en : slotsIn (callsOf (h ++ [(e, o)])) = slotsIn (callsOf h) := by
    rw [ec, slotsIn_append]
    have : slotsIn o.calls = 0 := by
      unfold slotsIn
      rw [List.countP_eq_zero]
      intro p hp
      rw [ht p hp]; simp
    omega
  refine ⟨by rw [ec]; exact hc.run k.run, by rw [h1, k.code], by rw [ec]; exact InTime.quiet k.time ht hb, by rw [es, en]; exact k.count, ?_, ?_⟩
  · intro j hj
    simp only [es]
    exact k.sent j (by rw [← es]; exact hj)
  · intro i; rw [h2, es]; exact k.traffic i

theorem slot_eq (n : Int) (i : Fin 4) : slot n = i ↔ (fromInt n).t = i.val + 1 := by
  rw [fromInt_t, Fin.ext_iff]
  simp only [slot]
  omega

/-- After every history. -/
theorem cell_known (hx : x.valid) {h : List (CellEv × CellOut)} {c : Cell}
    (hr : CellRun ⟨.init brew carrier x scramb wide pre, .init code⟩ h c) : CellKnown (.init brew carrier x scramb wide pre) code x h c := by
  generalize hs0 : (⟨.init brew carrier x scramb wide pre, .init code⟩ : Cell) = c0 at hr
  induction hr with
  | init =>
    subst hs0
    refine ⟨.init, rfl, ?_, rfl, ?_, fun i => rfl⟩
    · intro h1 k d out h2 e
      simp [callsOf] at e
    · intro j hj; simp [sentOf, callsOf] at hj
  | @step h c c' e o hr' hst ih =>
    have order : ∀ ev : UmacEv, ev.isTick = false → (∀ k d, ev ≠ .block k d) → c.order ev = .ok (c', o) →
        CellKnown (.init brew carrier x scramb wide pre) code x (h ++ [(e, o)]) c' := by
      intro ev h1 h2 h
      unfold Cell.order at h
      rw [Out.bind_eq_ok] at h; obtain ⟨r, hr, h⟩ := h
      cases h
      refine ih.quiet (c' := { c with umac := r.1 }) ⟨r.1, hr, rfl⟩ rfl rfl ?_ ?_
      · intro p hp; rw [List.mem_singleton.1 hp]; exact h1
      · intro p hp k d hk; rw [List.mem_singleton.1 hp] at hk; exact absurd hk (h2 k d)
    cases e with
    | request q => exact order _ rfl (fun _ _ h => by cases h) hst
    | voice ts b => exact order _ rfl (fun _ _ h => by cases h) hst
    | control m => exact order _ rfl (fun _ _ h => by cases h) hst
    | up a =>
      simp only [Cell.step] at hst
      rw [Out.bind_eq_ok] at hst; obtain ⟨r, hr, hst⟩ := hst
      cases hst
      obtain ⟨u1, u2, u3, y, u4, u5⟩ := up_chain (c' := r.1) (cs := r.2) hr
      rw [(ih.now hx).1, fromInt_add _ _ (by omega) (by omega)] at u4
      cases u4
      exact ih.quiet u1 u2 u3 (fun p hp => (u5 p hp).1) (fun p hp k d hk => (u5 p hp).2 k d hk)
    | down w =>
      simp only [Cell.step] at hst
      rw [Out.bind_eq_ok] at hst; obtain ⟨r, hr, hst⟩ := hst
      cases hst
      unfold Cell.down at hr
      rw [Out.bind_eq_ok] at hr; obtain ⟨t, ht, hr⟩ := hr
      rw [Out.bind_eq_ok] at hr; obtain ⟨q, hq, hr⟩ := hr
      cases hr
      obtain ⟨y, hy, hts⟩ := tick_slot (s' := t.1) (out := t.2) ht (ih.now hx).2
      rw [hy] at hq
      obtain ⟨q1, q2, q3, _⟩ := send_lmac (c' := q.1) (bs := q.2) hq hts
      have ec : callsOf (h ++ [(CellEv.down w, (⟨[(.tick w, t.2)], q.2⟩ : CellOut))]) = callsOf h ++ [(.tick w, t.2)] := by simp [callsOf]
      have es : sentOf (h ++ [(CellEv.down w, (⟨[(.tick w, t.2)], q.2⟩ : CellOut))]) = sentOf h ++ [y] := by
        rw [sentOf_append]; simp [sentOf, callsOf, hy]
      have en : slotsIn (callsOf h ++ [(.tick w, t.2)]) = slotsIn (callsOf h) + 1 := by rw [slotsIn_append]; rfl
      refine ⟨?_, by rw [q2]; exact ih.code, ?_, ?_, ?_, ?_⟩
      · rw [ec, show (q.1, (⟨[(.tick w, t.2)], q.2⟩ : CellOut)).1.umac = t.1 from q1]
        exact .step ih.run ht
      · rw [ec]
        intro h1 k d out h2 e
        have : ∃ l, h2 = l ++ [(.tick w, t.2)] := by
          cases h2 using List.reverseRecOn with
          | nil =>
            have := List.append_inj' e rfl
            simp at this
          | append_singleton l a _ =>
            rw [← List.cons_append, ← List.append_assoc] at e
            have := List.append_inj' e rfl
            exact ⟨l, by simp at this; rw [this.2]⟩
        obtain ⟨l, rfl⟩ := this
        rw [← List.cons_append, ← List.append_assoc] at e
        exact ih.time h1 k d out l (List.append_inj' e rfl).1
      · rw [ec, es, en, List.length_append, ih.count]; rfl
      · intro j hj
        simp only [es]
        rw [es, List.length_append] at hj
        by_cases hlt : j < (sentOf h).length
        · rw [List.getElem_append_left hlt]; exact ih.sent j hlt
        · have : j = (sentOf h).length := by simp at hj; omega
          subst this
          simp only [List.getElem_append_right (Nat.le_refl _), Nat.sub_self, List.getElem_cons_zero]
          rw [hts, ih.count]
      · intro i
        rw [es, List.reverse_append, List.reverse_singleton, List.singleton_append, List.find?_cons]
        simp only
        rw [q3]
        simp only [Slots.upd, hts]
        by_cases hi : (fromInt (x.toInt + slotsIn (callsOf h) + 2)).t = i.val + 1
        · have hi' := (slot_eq _ i).2 hi
          simp [hi, hi']
        · have hi' : ¬ slot (x.toInt + slotsIn (callsOf h) + 2) = i := fun h => hi ((slot_eq _ i).1 h)
          have : ((fromInt (x.toInt + slotsIn (callsOf h) + 2)).t == i.val + 1) = false := by simpa using hi
          rw [this]
          simp [Ne.symm hi', ih.traffic i]

end Verif.Phy
