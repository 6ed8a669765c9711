import Verif.Umac.UmacLog
import Verif.Umac.UmacBlocks
import Verif.Umac.SchedHistory
/-!
# Whom the upper MAC answers: lemmas

The addresses in the acknowledgements of random access and in the grants come from the headers of received blocks, or from a
reassembly which was emptied; the grants are as `processCapReq` makes them.
-/
namespace Verif.Umac
open Verif.Tdma Verif.Codec

/-- An address of 24 bits as in the header of an uplink PDU. -/
def AirAddr (a : Addr) : Prop := a.ssi < 2 ^ 24 ∧ (a.ssiType = .ssi ∨ a.ssiType = .ussi ∨ a.ssiType = .smi)

/-- The address of a reassembly: of 24 bits, in clear, and of a known type unless the reassembly was emptied. -/
def KeptAddr (a : Addr) : Prop := a.ssi < 2 ^ 24 ∧ a.encrypted = false ∧ (a.ssiType = .unknown ∨ a.ssiType = .ssi ∨ a.ssiType = .ussi ∨ a.ssiType = .smi)

/-- A grant which can be encoded if its delay is not too long. -/
def GrantShape (g : SlotGrant) : Prop := g.capAlloc < 16 ∧ ∀ n, g.delay = .delay n → 1 ≤ n

/-- The answers to stations. -/
def AnswerOk : SchedEv → Prop
  | .ack _ a => AirAddr a
  | .grant _ a g => KeptAddr a ∧ GrantShape g
  | _ => True

theorem AirAddr.kept {a : Addr} (h : AirAddr a) (he : a.encrypted = false) : KeptAddr a := ⟨h.1, he, .inr h.2⟩

/-! ## Grants -/

theorem findLoop_skips {u : UlTable} {t : Nat} {first : Time} {num : Nat} {half : Bool} : ∀ {ds : List Nat} {sk : Nat} {acc : List Time}
    {k : Nat} {l : List Time}, findLoop u t first num half ds sk acc = .ok (some (k, l)) → k ≤ sk + acc.length + ds.length
  | [], _, _, _, _, h => by cases h
  | d :: ds, sk, acc, k, l, h => by
    simp only [findLoop, Res.bind_eq_ok] at h
    obtain ⟨c, _, h⟩ := h
    split at h
    · cases h
    split at h
    · have := findLoop_skips h; simp; omega
    simp only [Res.bind_eq_ok] at h
    obtain ⟨i, _, s, _, h⟩ := h
    split at h
    · split at h
      · cases h; simp only [List.length_cons]; omega
      · have := findLoop_skips h; simp at this ⊢; omega
    · split at h
      · cases h; simp only [List.length_cons]; omega
      · have := findLoop_skips h; simp at this ⊢; omega

theorem findGrant_skips {u : UlTable} {cur : Time} {t num : Nat} {half : Bool} {k : Nat} {l : List Time}
    (h : findGrant u cur t num half = .ok (some (k, l))) : k ≤ 17 := by
  simp only [findGrant, Res.bind_eq_ok] at h
  obtain ⟨first, _, h⟩ := h
  split at h
  · cases h
  · have := findLoop_skips h
    simpa using this

theorem grantDelayOf_pos {k : Nat} (hk : k ≤ 17) : ∀ n, grantDelayOf k = .delay n → 1 ≤ n := by
  intro n h
  unfold grantDelayOf at h
  split at h
  · cases h
  · cases h; rw [Nat.mod_eq_of_lt (by omega)]; omega

theorem capAllocOf_lt {n c : Nat} (h : capAllocOf n = .ok c) : c < 16 := by
  unfold capAllocOf at h
  repeat (split at h; · cases h; omega)
  cases h

theorem capReq_shape {u u' : UlTable} {cur : Time} {t ssi req : Nat} {g : SlotGrant} (h : processCapReq u cur t ssi req = .ok (u', some g)) :
    GrantShape g := by
  unfold processCapReq at h
  split at h
  · rw [Res.bind_eq_ok] at h
    obtain ⟨r, h1, h⟩ := h
    cases r with
    | none => cases h
    | some p =>
      obtain ⟨k, l⟩ := p
      have hk := findGrant_skips h1
      unfold grantHalf at h
      split at h
      · cases h
      · rename_i e
        cases e
        simp only [Res.bind_eq_ok, Res.ok.injEq, Prod.mk.injEq, Option.some.injEq] at h
        obtain ⟨r, _, _, rfl⟩ := h
        exact ⟨by dsimp only; split <;> omega, grantDelayOf_pos hk⟩
      · cases h
  · rw [Res.bind_eq_ok] at h
    obtain ⟨n, _, h⟩ := h
    rw [Res.bind_eq_ok] at h
    obtain ⟨r, h1, h⟩ := h
    cases r with
    | none => cases h
    | some p =>
      obtain ⟨k, l⟩ := p
      have hk := findGrant_skips h1
      unfold grantFull at h
      split at h
      · cases h
      · cases h
      · rename_i e
        cases e
        simp only [Res.bind_eq_ok, Res.ok.injEq, Prod.mk.injEq, Option.some.injEq] at h
        obtain ⟨_, _, c, hc, _, rfl⟩ := h
        exact ⟨capAllocOf_lt hc, grantDelayOf_pos hk⟩

theorem step_capReq {s s' : Sched} {t ssi code : Nat} {r : SchedRet} (h : s.step (.capReq t ssi code) = .ok (s', r)) {g : SlotGrant}
    (hg : r = .grant (some g)) : GrantShape g := by
  subst hg
  simp only [Sched.step] at h
  rw [Out.bind_eq_ok] at h
  obtain ⟨q, h1, h⟩ := h
  rw [Out.ofRes_eq_ok] at h1
  obtain ⟨q1, q2⟩ := q
  cases h
  exact capReq_shape h1

/-! ## Reassembly -/

/-- All reassemblies are for such addresses. -/
def BufsKept (d : BsDefrag) : Prop := ∀ i k b, (d i).get k = some b → KeptAddr b.addr

theorem kept_new : KeptAddr DefragBuf.new.addr := ⟨by decide, rfl, .inl rfl⟩

theorem add_kept {b : DefragBuf} (h : KeptAddr b.addr) (t : Time) (bits : List Bool) : KeptAddr (b.add t bits).addr := by
  unfold DefragBuf.add
  split
  · exact h
  · split
    · exact kept_new
    · exact h

theorem aged_kept {b : DefragBuf} (h : KeptAddr b.addr) (t : Time) : KeptAddr (b.aged t).addr := by
  unfold DefragBuf.aged
  split
  · exact kept_new
  · exact h

theorem BufsKept.insert {d : BsDefrag} (h : BufsKept d) {i : Fin 4} {k : Nat} {b : DefragBuf} (hb : KeptAddr b.addr) :
    BufsKept (d.upd i ((d i).insert k b)) := by
  intro j k' b' hg
  rw [Slots.upd_apply] at hg
  split at hg
  · rw [Assoc.get_insert] at hg
    split at hg
    · cases hg; exact hb
    · exact h i k' b' hg
  · exact h j k' b' hg

theorem BufsKept.erase {d : BsDefrag} (h : BufsKept d) {i : Fin 4} {k : Nat} : BufsKept (d.upd i ((d i).erase k)) := by
  intro j k' b' hg
  rw [Slots.upd_apply] at hg
  split at hg
  · rw [Assoc.get_erase] at hg
    split at hg
    · cases hg
    · exact h i k' b' hg
  · exact h j k' b' hg

theorem insertNext_kept {d d' : BsDefrag} {bits : List Bool} {ssi : Nat} {t : Time} (h : BufsKept d) (hs : d.insertNext bits ssi t = .ok d') :
    BufsKept d' := by
  simp only [BsDefrag.insertNext, Res.bind_eq_ok] at hs
  obtain ⟨i, _, hs⟩ := hs
  split at hs
  · cases hs; exact h
  · rename_i b hb
    cases hs
    exact h.insert (add_kept (h i ssi b hb) t bits)

/-- Reassemblies begin under good addresses. -/
def FragOk : BsEv → Prop
  | .first _ _ a => KeptAddr a
  | .age _ => False
  | _ => True

theorem defrag_kept {d d' : BsDefrag} {e : BsEv} {o : Option DefragBuf} (h : BufsKept d) (he : FragOk e) (hs : d.step e = .ok (d', o)) :
    BufsKept d' ∧ ∀ b, o = some b → KeptAddr b.addr := by
  cases e with
  | first bits t a =>
    simp only [BsDefrag.step, BsDefrag.insertFirst, Res.bind_eq_ok] at hs
    obtain ⟨_, ⟨i, _, h1⟩, h2⟩ := hs
    cases h1; cases h2
    exact ⟨h.insert he, by simp⟩
  | next bits ssi t =>
    simp only [BsDefrag.step, Res.bind_eq_ok] at hs
    obtain ⟨d1, h1, h2⟩ := hs
    cases h2
    exact ⟨insertNext_kept h h1, by simp⟩
  | last bits ssi t =>
    simp only [BsDefrag.step, BsDefrag.insertLast, Res.bind_eq_ok] at hs
    obtain ⟨d1, h1, i, _, h2⟩ := hs
    have hk := insertNext_kept h h1
    split at h2
    · cases h2; exact ⟨hk, by simp⟩
    · rename_i b hb
      cases h2
      exact ⟨hk.erase, by rintro _ ⟨⟩; exact hk i ssi b hb⟩
  | age t => cases he

/-! ## The upper MAC -/

/-- What is kept. -/
structure Answering (s : UmacBs) : Prop where
  log : ∀ p ∈ s.log, AnswerOk p.1
  bufs : BufsKept s.defrag

theorem Answering.call {s s' : UmacBs} {e : SchedEv} {r : SchedRet} (h : Answering s) (he : AnswerOk e) (hs : s.call e = .ok (s', r)) :
    Answering s' := by
  unfold UmacBs.call at hs
  rw [Out.bind_eq_ok] at hs; obtain ⟨q, h1, hs⟩ := hs
  cases hs
  refine ⟨fun p hp => ?_, h.bufs⟩
  rcases List.mem_append.1 hp with hp | hp
  · exact h.log p hp
  · rw [List.mem_singleton] at hp; subst hp; exact he

theorem Answering.frag {s s' : UmacBs} {e : BsEv} {o : Option DefragBuf} (h : Answering s) (he : FragOk e) (hs : s.frag e = .ok (s', o)) :
    Answering s' ∧ ∀ b, o = some b → KeptAddr b.addr := by
  unfold UmacBs.frag at hs
  rw [Out.bind_eq_ok] at hs; obtain ⟨q, h1, hs⟩ := hs
  cases hs
  rw [Out.ofRes_eq_ok] at h1
  obtain ⟨h2, h3⟩ := defrag_kept (d' := q.1) (o := q.2) h.bufs he h1
  exact ⟨⟨h.log, h2⟩, h3⟩

theorem Answering.reserve {s s' : UmacBs} {t : Nat} {a : Addr} {code : Option Nat} (h : Answering s) (ha : KeptAddr a)
    (hs : s.reserve t a code = .ok s') : Answering s' := by
  cases code with
  | none => cases hs; exact h
  | some code =>
    simp only [UmacBs.reserve] at hs
    rw [Out.bind_eq_ok] at hs; obtain ⟨r, h1, hs⟩ := hs
    have k1 : Answering r.1 := h.call (e := .capReq t a.ssi code) (r := r.2) trivial h1
    split at hs
    · rename_i g hg
      rw [Out.bind_eq_ok] at hs; obtain ⟨q, h2, hs⟩ := hs
      cases hs
      refine k1.call (e := .grant t a g) (r := q.2) ⟨ha, ?_⟩ h2
      unfold UmacBs.call at h1
      rw [Out.bind_eq_ok] at h1; obtain ⟨w, hw, h1⟩ := h1
      cases h1
      exact step_capReq (s' := w.1) (r := w.2) hw hg
    · cases hs; exact k1

theorem Answering.firstOrWhole {s s' : UmacBs} {c : UlCtx} {a : Addr} {frag : Bool} {sdu : List Bool} {out : List UmacOut} (h : Answering s)
    (ha : KeptAddr a) (hs : s.firstOrWhole c a frag sdu = .ok (s', out)) : Answering s' := by
  unfold UmacBs.firstOrWhole at hs
  cases frag with
  | false => cases hs; exact h
  | true =>
    simp only [if_true] at hs
    rw [Out.bind_eq_ok] at hs; obtain ⟨r, h1, hs⟩ := hs
    cases hs
    exact (h.frag (e := .first sdu c.x a) (o := r.2) ha h1).1

theorem ulAddr_air {e : Bool} {addr : Option Addr} {l : Option Nat} {a : Addr} (h : UlAddrOk e addr l) (ha : addr = some a) :
    AirAddr a ∧ a.encrypted = e := by
  rcases h with ⟨a', h1, _, h2, h3, h4⟩ | ⟨h1, _⟩
  · rw [ha] at h1; cases h1; exact ⟨⟨h2, h4⟩, h3⟩
  · rw [ha] at h1; cases h1

theorem rxData_answering {s : UmacBs} {c : UlCtx} {bits : List Bool} {r : UmacBs × List UmacOut × Option (List Bool)} (hi : Answering s)
    (h : s.rxData c bits = .ok r) : Answering r.1 := by
  unfold UmacBs.rxData at h
  split at h
  · cases h; exact hi
  · cases h
  · rename_i p rest hp
    split at h
    · cases h; exact hi
    · split at h
      · cases h
      · rename_i a ha
        rw [Out.bind_eq_ok] at h; obtain ⟨k, _, h⟩ := h
        rw [Out.bind_eq_ok] at h; obtain ⟨sdu, _, h⟩ := h
        dsimp only at h
        by_cases h0 : k.2.2.2 = true
        · rw [if_pos h0] at h; cases h; exact hi
        · rw [if_neg h0] at h
          by_cases h3 : p.encrypted = true
          · rw [if_pos h3] at h; cases h; exact hi
          · rw [if_neg h3, Out.bind_eq_ok] at h; obtain ⟨s1, h1, h⟩ := h
            rw [Out.bind_eq_ok] at h; obtain ⟨q, h2, h⟩ := h
            cases h
            obtain ⟨k1, k2⟩ := ulAddr_air (data_inv hp).addr ha
            have hk : KeptAddr a := k1.kept (by rw [k2]; simpa using h3)
            exact (hi.reserve hk h1).firstOrWhole (out := q.2) hk h2

theorem rxAccess_answering {s : UmacBs} {c : UlCtx} {bits : List Bool} {r : UmacBs × List UmacOut × Option (List Bool)} (hi : Answering s)
    (h : s.rxAccess c bits = .ok r) : Answering r.1 := by
  unfold UmacBs.rxAccess at h
  split at h
  · cases h; exact hi
  · cases h
  · rename_i p rest hp
    split at h
    · cases h; exact hi
    · split at h
      · cases h
      · rename_i a ha
        obtain ⟨k1, k2⟩ := ulAddr_air (access_inv hp).addr ha
        rw [Out.bind_eq_ok] at h; obtain ⟨sdu, _, h⟩ := h
        split at h
        · cases h; exact hi
        · rw [Out.bind_eq_ok] at h; obtain ⟨s1, h1, h⟩ := h
          have i1 : Answering s1.1 := hi.call (e := .ack c.x.t a) (r := s1.2) k1 h1
          split at h
          · cases h; exact i1
          · rename_i h3
            have hk : KeptAddr a := k1.kept (by rw [k2]; simpa using h3)
            rw [Out.bind_eq_ok] at h; obtain ⟨s2, h2, h⟩ := h
            have i2 := i1.reserve hk h2
            simp only at h
            split at h
            · cases h; exact i2
            · rw [Out.bind_eq_ok] at h; obtain ⟨q, h3, h⟩ := h
              cases h
              exact i2.firstOrWhole (out := q.2) hk h3

theorem rxFrag_answering {s : UmacBs} {c : UlCtx} {bits : List Bool} {r : UmacBs × List UmacOut × Option (List Bool)} (hi : Answering s)
    (h : s.rxFrag c bits = .ok r) : Answering r.1 := by
  unfold UmacBs.rxFrag at h
  split at h
  · cases h; exact hi
  · cases h
  · rw [Out.bind_eq_ok] at h; obtain ⟨sdu, _, h⟩ := h
    rw [Out.bind_eq_ok] at h; obtain ⟨o, _, h⟩ := h
    split at h
    · cases h; exact hi
    · rename_i ssi _
      rw [Out.bind_eq_ok] at h; obtain ⟨q, h1, h⟩ := h
      cases h
      exact (hi.frag (e := .next sdu ssi c.x) (o := q.2) trivial h1).1

theorem rxEnd_answering {s : UmacBs} {c : UlCtx} {bits : List Bool} {pos : Nat} {fill : Bool} {l v : Option Nat}
    {r : UmacBs × List UmacOut × Option (List Bool)} (hi : Answering s) (h : s.rxEnd c bits pos fill l v = .ok r) : Answering r.1 := by
  unfold UmacBs.rxEnd at h
  rw [Out.bind_eq_ok] at h; obtain ⟨sdu, _, h⟩ := h
  rw [Out.bind_eq_ok] at h; obtain ⟨o, _, h⟩ := h
  split at h
  · cases h; exact hi
  · rename_i ssi _
    rw [Out.bind_eq_ok] at h; obtain ⟨q, h1, h⟩ := h
    obtain ⟨k1, k2⟩ := hi.frag (e := .last sdu ssi c.x) (o := q.2) trivial h1
    split at h
    · cases h; exact k1
    · rename_i b hb
      rw [Out.bind_eq_ok] at h; obtain ⟨s2, h2, h⟩ := h
      cases h
      exact k1.reserve (k2 b hb) h2

theorem rxPdu_answering {s : UmacBs} {c : UlCtx} {bits : List Bool} {r : UmacBs × List UmacOut × Option (List Bool)} (hi : Answering s)
    (h : s.rxPdu c bits = .ok r) : Answering r.1 := by
  have hu : s.rxEndUl c bits = .ok r → Answering r.1 := by
    intro h
    unfold UmacBs.rxEndUl at h
    split at h
    · cases h; exact hi
    · cases h
    · exact rxEnd_answering hi h
  have hh : s.rxEndHu c bits = .ok r → Answering r.1 := by
    intro h
    unfold UmacBs.rxEndHu at h
    split at h
    · cases h; exact hi
    · cases h
    · split at h
      · cases h; exact hi
      · exact rxEnd_answering hi h
  have hs : s.rxSignal c bits = .ok r → Answering r.1 := by
    intro h
    unfold UmacBs.rxSignal at h
    split at h <;> cases h <;> exact hi
  have hb : s.rxBlck bits = .ok r → Answering r.1 := by
    intro h
    unfold UmacBs.rxBlck at h
    split at h <;> cases h
    exact hi
  unfold UmacBs.rxPdu at h
  split at h
  · by_cases h1 : c.chan = .schHu
    · rw [if_pos h1] at h
      split at h
      · exact hh h
      · exact rxAccess_answering hi h
    · rw [if_neg h1] at h
      split at h
      · split at h
        · exact rxData_answering hi h
        · split at h
          · exact hu h
          · exact rxFrag_answering hi h
      · split at h
        · cases h; exact hi
        · split at h
          · exact hs h
          · split at h
            · cases h; exact hi
            · exact hb h
  · cases h; exact hi

theorem rxLoop_answering {n : Nat} {s s' : UmacBs} {c : UlCtx} {bits : List Bool} {out : List UmacOut} (hi : Answering s)
    (h : UmacBs.rxLoop n s c bits = .ok (s', out)) : Answering s' := by
  induction n generalizing s bits out with
  | zero => cases h; exact hi
  | succ n ih =>
    simp only [UmacBs.rxLoop] at h
    rw [Out.bind_eq_ok] at h; obtain ⟨r, h1, h⟩ := h
    have k1 := rxPdu_answering hi h1
    split at h
    · cases h; exact k1
    · split at h
      · rw [Out.bind_eq_ok] at h; obtain ⟨q, h2, h⟩ := h
        cases h
        exact ih (out := q.2) k1 h2
      · cases h; exact k1

theorem Answering.via {s s' : UmacBs} {cs : List (SchedEv × SchedRet)} (h : Answering s) (v : Via s cs [] s')
    (hc : ∀ e ∈ cs.map Prod.fst, AnswerOk e) : Answering s' := by
  refine ⟨fun p hp => ?_, ?_⟩
  · rw [v.log] at hp
    rcases List.mem_append.1 hp with hp | hp
    · exact h.log p hp
    · exact hc _ (List.mem_map_of_mem hp)
  · obtain ⟨os, hd⟩ := v.defrag
    simp only [BsDefrag.run, Res.ok.injEq, Prod.mk.injEq] at hd
    rw [← hd.1]; exact h.bufs

theorem caused_answer {s : UmacBs} {e : UmacEv} (hb : ∀ c bits, e ≠ .block c bits) {es : List SchedEv} (h : Caused s e es) :
    ∀ x ∈ es, AnswerOk x := by
  intro x hm
  cases e with
  | tick w =>
    rw [h] at hm
    split at hm <;> simp at hm
    · subst hm; trivial
    · rcases hm with rfl | rfl <;> trivial
  | block c bits => exact absurd rfl (hb c bits)
  | request q =>
    rcases h with ⟨ts, b, _, h⟩ | ⟨p, _, h⟩ <;> rw [h] at hm <;> simp at hm
    · rcases hm with rfl | rfl <;> trivial
    · subst hm; trivial
  | voiceDown ts b =>
    rcases h with h | h <;> rw [h] at hm <;> simp at hm
    subst hm; trivial
  | voiceUp ts data =>
    rcases h with h | ⟨b, _, h⟩ <;> rw [h] at hm <;> simp at hm
    subst hm; trivial
  | control m =>
    cases m with
    | «open» c =>
      obtain ⟨k, h⟩ := h
      rw [h] at hm
      simp only [List.mem_flatMap] at hm
      obtain ⟨d, _, hm⟩ := hm
      rcases List.mem_append.1 hm with hm | hm
      · split at hm <;> simp at hm
        subst hm; trivial
      · simp at hm; subst hm; trivial
    | close d ts =>
      rw [h] at hm
      obtain ⟨_, _, rfl⟩ := List.mem_map.1 hm
      trivial
    | released ts => rw [h] at hm; simp at hm; subst hm; trivial
    | granted ts => rw [h] at hm; simp at hm; subst hm; trivial
    | ended ts => rw [h] at hm; simp at hm; subst hm; trivial

theorem step_answering {s s' : UmacBs} {e : UmacEv} {out : List UmacOut} (hi : Answering s) (h : s.step e = .ok (s', out)) : Answering s' := by
  cases e with
  | tick w => obtain ⟨cs, v, c, _⟩ := tick_via h; exact hi.via v (caused_answer (by simp) c)
  | block c bits =>
    simp only [UmacBs.step, UmacBs.rxBlock] at h
    split at h
    · exact rxLoop_answering hi h
    · cases h
  | request q =>
    simp only [UmacBs.step] at h
    rw [Out.bind_eq_ok] at h; obtain ⟨s1, h1, h⟩ := h
    cases h
    obtain ⟨cs, v, _, c⟩ := request_via h1
    exact hi.via v (caused_answer (by simp) c)
  | voiceDown ts b =>
    simp only [UmacBs.step] at h
    rw [Out.bind_eq_ok] at h; obtain ⟨s1, h1, h⟩ := h
    cases h
    obtain ⟨cs, v, c, _⟩ := voiceDown_via h1
    exact hi.via v (caused_answer (by simp) c)
  | voiceUp ts data => obtain ⟨cs, v, c, _⟩ := voiceUp_via h; exact hi.via v (caused_answer (by simp) c)
  | control m =>
    simp only [UmacBs.step] at h
    rw [Out.bind_eq_ok] at h; obtain ⟨s1, h1, h⟩ := h
    cases h
    obtain ⟨cs, v, c, _⟩ := control_via h1
    exact hi.via v (caused_answer (by simp) c)

/-- In every history of the upper MAC. -/
theorem run_answering {brew : Bool} {carrier : Nat} {x : Time} {scramb : Nat} {wide : Bool} {pre : Precomps} {s : UmacBs}
    {h : List (UmacEv × List UmacOut)} (hr : UmacRun (.init brew carrier x scramb wide pre) h s) : Answering s := by
  induction hr with
  | init => exact ⟨by simp [UmacBs.init], fun i k b h => by cases h⟩
  | step _ hs ih => exact step_answering ih hs

end Verif.Umac
