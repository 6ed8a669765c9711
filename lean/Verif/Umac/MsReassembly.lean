import Verif.Umac.DefragProps
import Verif.Umac.FraggerProps
/-!
# C19/C20 — reassembly at the mobile station, and fragmentation from end to end
-/
namespace Verif.Umac
open Verif.Tdma Verif.Codec

/-! ## Reassembly per timeslot -/

/-- What happens to the reassembly component of a mobile station. -/
inductive MsEv where
  | first (bits : List Bool) (t : Time) (addr : Addr)
  | next (bits : List Bool) (t : Time)
  | last (bits : List Bool) (t : Time)
  | age (t : Time)
  deriving DecidableEq, Repr

/-- One event, and what is delivered at it. At a last fragment the reassembled SDU is taken at once
(umac_ms.rs:493-500). -/
def MsDefrag.step (d : MsDefrag) : MsEv → Res (MsDefrag × Option DefragBuf)
  | .first bits t addr => do return (← d.insertFirst bits t addr, none)
  | .next bits t => do return (← d.insertNext bits t, none)
  | .last bits t => do
    let d ← d.insertLast bits t
    d.take t
  | .age t => .ok (d.age t, none)

/-- A history. -/
def MsDefrag.run (d : MsDefrag) : List MsEv → Res (MsDefrag × List (Option DefragBuf))
  | [] => .ok (d, [])
  | e :: es => do
    let r ← d.step e
    let q ← MsDefrag.run r.1 es
    .ok (q.1, r.2 :: q.2)

/-- Specification: the reassembly in progress on timeslot `ts` after one more event. -/
def mtrack (ts : Nat) (s : Option Track) : MsEv → Option Track
  | .first bits t addr => if t.t = ts then some ⟨addr, [bits], t⟩ else s
  | .next bits t =>
    if t.t = ts then
      match s with
      | some a => if (a.parts.flatten ++ bits).length ≤ 4096 then some ⟨a.addr, a.parts ++ [bits], t⟩ else none
      | none => none
    else s
  | .last _ t => if t.t = ts then none else s
  | .age t =>
    match s with
    | some a => if t.diff a.latest > 40 then none else some a
    | none => none

/-- After a history. -/
def mtracked (ts : Nat) (log : List MsEv) : Option Track := log.foldl (mtrack ts) none

/-- What a buffer stands for. -/
def MStands (b : DefragBuf) (s : Option Track) : Prop :=
  (b.state = .active ∧ ∃ parts, s = some ⟨b.addr, parts, b.tLast⟩ ∧ parts.flatten = b.bits) ∨
  (b = DefragBuf.new ∧ s = none)

def MFollows (d : MsDefrag) (log : List MsEv) : Prop := ∀ i : Fin 4, MStands (d i) (mtracked (i.val + 1) log)

theorem mtracked_snoc (ts : Nat) (log : List MsEv) (e : MsEv) :
    mtracked ts (log ++ [e]) = mtrack ts (mtracked ts log) e := by
  simp [mtracked, List.foldl_append]

theorem mfollows_upd {d : MsDefrag} {log : List MsEv} {e : MsEv} (h : MFollows d log) (i : Fin 4) (b : DefragBuf)
    (hother : ∀ j : Fin 4, j ≠ i → mtrack (j.val + 1) (mtracked (j.val + 1) log) e = mtracked (j.val + 1) log)
    (hkey : MStands b (mtrack (i.val + 1) (mtracked (i.val + 1) log) e)) : MFollows (d.upd i b) (log ++ [e]) := by
  intro j
  rw [mtracked_snoc, Slots.upd_apply]
  by_cases hj : j = i
  · subst hj; rw [if_pos rfl]; exact hkey
  · rw [if_neg hj, hother j hj]; exact h j

theorem mstep {d : MsDefrag} {log : List MsEv} (h : MFollows d log) (e : MsEv) {d' : MsDefrag} {o : Option DefragBuf}
    (he : d.step e = .ok (d', o)) : MFollows d' (log ++ [e]) ∧
      (∀ bits t, e = .last bits t →
        (∀ a, mtracked t.t log = some a → (a.parts.flatten ++ bits).length ≤ 4096 →
          ∃ b, o = some b ∧ b.addr = a.addr ∧ b.bits = a.parts.flatten ++ bits) ∧
        ((∀ a, mtracked t.t log = some a → ¬ (a.parts.flatten ++ bits).length ≤ 4096) → o = none)) := by
  cases e with
  | first bits t addr =>
    refine ⟨?_, by simp⟩
    simp only [MsDefrag.step, MsDefrag.insertFirst, Res.bind_eq_ok] at he
    obtain ⟨_, ⟨i, hi, he1⟩, he⟩ := he
    cases he1; cases he
    rw [Slots.idx_ok] at hi
    refine mfollows_upd h i _ ?_ ?_
    · intro j hj
      have : ¬ t.t = j.val + 1 := fun h => hj (Fin.ext (by omega))
      simp [mtrack, this]
    · have hb : (if (d i).state ≠ .inactive then DefragBuf.new else d i).bits = [] := by
        rcases h i with ⟨ha, _⟩ | ⟨hb, _⟩
        · simp [ha, DefragBuf.new]
        · simp [hb, DefragBuf.new]
      rw [hb]
      simp only [mtrack, hi, if_true]
      exact .inl ⟨rfl, [bits], rfl, by simp⟩
  | next bits t =>
    refine ⟨?_, by simp⟩
    simp only [MsDefrag.step, MsDefrag.insertNext, Res.bind_eq_ok] at he
    obtain ⟨_, ⟨i, hi, he1⟩, he⟩ := he
    cases he1; cases he
    rw [Slots.idx_ok] at hi
    refine mfollows_upd h i _ ?_ ?_
    · intro j hj
      have : ¬ t.t = j.val + 1 := fun h => hj (Fin.ext (by omega))
      simp [mtrack, this]
    · have hs : Stands (some (d i)) (mtracked (i.val + 1) log) := h i
      have := stands_add hs bits t (i.val + 1) 0 hi
      have e : mtrack (i.val + 1) (mtracked (i.val + 1) log) (.next bits t) =
          track (i.val + 1) 0 (mtracked (i.val + 1) log) (.next bits 0 t) := by
        cases mtracked (i.val + 1) log <;> simp [mtrack, track]
      rw [e]; exact this
  | last bits t =>
    simp only [MsDefrag.step, MsDefrag.insertLast, MsDefrag.take, Res.bind_eq_ok] at he
    obtain ⟨_, ⟨i, hi, he1⟩, i2, hi2, he⟩ := he
    rw [hi] at hi2; cases hi2; cases he1
    rw [Slots.idx_ok] at hi
    simp only [Slots.upd_self, Slots.upd_upd] at he
    have hother : ∀ j : Fin 4, j ≠ i → mtrack (j.val + 1) (mtracked (j.val + 1) log) (.last bits t) = mtracked (j.val + 1) log := by
      intro j hj
      have : ¬ t.t = j.val + 1 := fun h => hj (Fin.ext (by omega))
      simp [mtrack, this]
    have hend : mtrack (i.val + 1) (mtracked (i.val + 1) log) (.last bits t) = none := by simp [mtrack, hi]
    have hi' := hi
    rcases h i with ⟨ha, parts, hs, hp⟩ | ⟨hb, hs⟩
    · simp only [ha, ne_eq, not_true_eq_false, if_false, defragMaxLen] at he
      have hl : (parts.flatten ++ bits).length = (d i).bits.length + bits.length := by rw [hp]; simp
      by_cases ho : (d i).bits.length + bits.length > 4096
      · simp [ho, DefragBuf.new] at he
        obtain ⟨rfl, rfl⟩ := he
        refine ⟨mfollows_upd h i _ hother (by rw [hend]; exact .inr ⟨rfl, rfl⟩), ?_⟩
        intro bits' t' e; cases e
        rw [hi, hs]
        refine ⟨?_, fun _ => rfl⟩
        intro a ea hle; cases ea; simp only at hle; omega
      · simp [ho] at he
        obtain ⟨rfl, rfl⟩ := he
        refine ⟨mfollows_upd h i _ hother (by rw [hend]; exact .inr ⟨rfl, rfl⟩), ?_⟩
        intro bits' t' e; cases e
        rw [hi, hs]
        refine ⟨?_, fun hno => ?_⟩
        · intro a ea hle; cases ea; exact ⟨_, rfl, rfl, by simp [hp]⟩
        · have := hno _ rfl; simp only at this; omega
    · simp [hb, DefragBuf.new] at he
      obtain ⟨rfl, rfl⟩ := he
      refine ⟨?_, ?_⟩
      · refine mfollows_upd h i _ hother ?_
        rw [hend]; exact .inr ⟨by simp [DefragBuf.new], rfl⟩
      · intro bits' t' e; cases e
        rw [hi, hs]; simp
  | age t =>
    refine ⟨?_, by simp⟩
    simp only [MsDefrag.step] at he
    cases he
    intro i
    rw [mtracked_snoc]
    simp only [MsDefrag.age]
    rcases h i with ⟨ha, parts, hs, hp⟩ | ⟨hb, hs⟩
    · rw [hs]
      simp only [DefragBuf.aged, ha, ne_eq, reduceCtorEq, not_false_eq_true, true_and, mtrack, defragTimeout]
      by_cases hd : t.diff (d i).tLast > 40
      · rw [if_pos hd, if_pos hd]; exact .inr ⟨rfl, rfl⟩
      · rw [if_neg hd, if_neg hd]; exact .inl ⟨ha, parts, rfl, hp⟩
    · rw [hs, hb]
      exact .inr ⟨by simp [DefragBuf.aged, DefragBuf.new], rfl⟩

theorem mfollows_run {d : MsDefrag} {pre log : List MsEv} (h : MFollows d pre) {d' : MsDefrag} {os : List (Option DefragBuf)}
    (he : d.run log = .ok (d', os)) : MFollows d' (pre ++ log) := by
  induction log generalizing d pre os with
  | nil => simp [MsDefrag.run] at he; obtain ⟨rfl, _⟩ := he; simpa using h
  | cons e es ih =>
    simp only [MsDefrag.run, Res.bind_eq_ok] at he
    obtain ⟨⟨d1, o⟩, h1, ⟨d2, os'⟩, h2, h3⟩ := he
    cases h3
    have := ih (mstep h e h1).1 h2
    simpa using this

/-- **C20, at the mobile station.** After any history, at a last fragment on a timeslot: if a reassembly on that
timeslot is in progress and stays within 4096 bits, what is delivered is its fragments in order of arrival and the
last one, under the address it was started with; otherwise nothing is delivered. -/
theorem c20_ms_delivery (log : List MsEv) (d : MsDefrag) (os : List (Option DefragBuf))
    (h : MsDefrag.new.run log = .ok (d, os)) (bits : List Bool) (t : Time) (d' : MsDefrag) (o : Option DefragBuf)
    (hs : d.step (.last bits t) = .ok (d', o)) :
    (∀ a, mtracked t.t log = some a → (a.parts.flatten ++ bits).length ≤ 4096 →
      ∃ b, o = some b ∧ b.addr = a.addr ∧ b.bits = a.parts.flatten ++ bits) ∧
    ((∀ a, mtracked t.t log = some a → ¬ (a.parts.flatten ++ bits).length ≤ 4096) → o = none) := by
  have h0 : MFollows MsDefrag.new [] := fun i => .inr ⟨rfl, rfl⟩
  have hf := mfollows_run h0 h
  simp only [List.nil_append] at hf
  exact (mstep hf _ hs).2 bits t rfl

/-! ## From end to end -/

/-- A PDU received by a mobile station at time `t` (umac_ms.rs:254-531): what it does to the reassembly and
what is passed up. -/
def msPdu (d : MsDefrag) (t : Time) (bs : List Bool) : Out (MsDefrag × Option (Option Addr × List Bool)) :=
  match rxPdu bs with
  | .panic => .panic
  | .err => .err
  | .ok .nothing => .ok (d, none)
  | .ok (.whole r sdu) => .ok (d, some (r.addr, sdu))
  | .ok (.first r part) =>
    match r.addr with
    | none => .ok (d, none)
    | some a => match d.insertFirst part t a with | .ok d => .ok (d, none) | .panic => .panic
  | .ok (.next part) => match d.insertNext part t with | .ok d => .ok (d, none) | .panic => .panic
  | .ok (.last part) => match d.insertLast part t with
    | .panic => .panic
    | .ok d => match d.take t with
      | .panic => .panic
      | .ok (d, b) => .ok (d, b.map fun b => (some b.addr, b.bits))

/-- Blocks at given times are offered to the fragmenter until it is done; what it appends is received, followed by
whatever else is in the block. -/
def exchange (f : Fragger) (d : MsDefrag) : List (Time × Blk × List Bool) →
    Out (Fragger × MsDefrag × List (Option Addr × List Bool))
  | [] => .ok (f, d, [])
  | (t, b, junk) :: rest =>
    if f.done then .ok (f, d, [])
    else do
      let r ← f.nextChunk b
      let new := r.2.1.bits.drop b.bits.length
      let m ← if new = [] then .ok (d, none) else msPdu d t (new ++ junk.take r.2.1.remaining)
      let q ← exchange r.1 m.1 rest
      .ok (q.1, q.2.1, m.2.toList ++ q.2.2)

theorem exchange_spec (slots : List (Time × Blk × List Bool)) (f : Fragger) (d : MsDefrag) (a : Addr) (i : Fin 4) (n : Nat)
    (hf : f.Ok) (ha : f.resource.onAir.addr = some a) (hc : f.resource.encryptionMode = 0)
    (hn : f.resource.headerLen = .ok n) (h4096 : f.sdu.length ≤ 4096)
    (hslots : ∀ s ∈ slots, s.1.t = i.val + 1 ∧ s.2.1.Ok ∧ 268 ≤ s.2.2.length ∧ s.2.1.remaining < n + f.sdu.length)
    (hfresh : f.hdrWritten = false → (d i).state = .inactive ∧ (d i).bits = [])
    (hbusy : f.hdrWritten = true → (d i).state = .active ∧ (d i).addr = a ∧ (d i).bits = f.sdu.take f.pos) :
    ∃ f' d' outs, exchange f d slots = .ok (f', d', outs) ∧
      (f'.done = true → outs = [(some a, f.sdu)]) ∧ (f'.done = false → outs = []) := by
  induction slots generalizing f d with
  | nil => exact ⟨f, d, [], rfl, by simp [hf.busy], fun _ => rfl⟩
  | cons s rest ih =>
    obtain ⟨t, b, junk⟩ := s
    obtain ⟨ht, hb, hj, hrem⟩ := hslots _ (List.mem_cons_self ..)
    simp only at ht hb hj hrem
    have hrest : ∀ s ∈ rest, s.1.t = i.val + 1 ∧ s.2.1.Ok ∧ 268 ≤ s.2.2.length ∧ s.2.1.remaining < n + f.sdu.length :=
      fun s hs => hslots s (List.mem_cons_of_mem _ hs)
    obtain ⟨f1, new, e1, hst⟩ := nextChunk_step f b hf hb
    have hidx : Slots.idx t.t = .ok i := by rw [Slots.idx_ok]; exact ht
    have haddr : f.resource.addr.isSome = true := by
      simp only [MacResource.onAir, Option.map_eq_some_iff] at ha
      obtain ⟨x, hx, _⟩ := ha; simp [hx]
    have hjl : (junk.take (⟨b.bits ++ new, b.cap⟩ : Blk).remaining).length = (⟨b.bits ++ new, b.cap⟩ : Blk).remaining := by
      have := hb.slot
      simp only [List.length_take, Blk.remaining]; omega
    obtain ⟨new', part, hnew, hpart, hrx⟩ := c19_received_partial f b hf hb haddr hc _ _ _ e1 _ hjl
    simp only [List.append_cancel_left_eq] at hnew
    subst hnew
    generalize hjk : junk.take (⟨b.bits ++ new, b.cap⟩ : Blk).remaining = jk at hrx
    have hex : ∀ m q, (if new = [] then .ok (d, none) else msPdu d t (new ++ jk)) = .ok m →
        exchange f1 m.1 rest = .ok q → exchange f d ((t, b, junk) :: rest) = .ok (q.1, q.2.1, m.2.toList ++ q.2.2) := by
      intro m q h1 h2
      simp only [exchange, hf.busy, Bool.false_eq_true, if_false, e1, Out.bind_ok, List.drop_left, hjk]
      by_cases hz : new = []
      · rw [if_pos hz] at h1 ⊢; cases h1; simp only [Out.bind_ok, h2]
      · rw [if_neg hz] at h1 ⊢; simp only [h1, Out.bind_ok, h2]
    have hok := hst.ok hf
    have hlen : f.left.length = f.sdu.length - f.pos := by simp [Fragger.left]
    cases hst with
    | idle h0 h1 =>
      obtain ⟨f', d', outs, g1, g2, g3⟩ := ih f d hf ha hc hn h4096 hrest hfresh hbusy
      exact ⟨f', d', outs, by simpa using hex (d, none) _ rfl g1, g2, g3⟩
    | whole hdr k r hw hr he hd h16 hfit hal =>
      exfalso
      have hhl : hdr.length = n := by
        have hs : f.resource.Sendable := hf.sendable
        have hle : r.headerLen = .ok hdr.length := by
          have hl : (hdr ++ (f.sdu ++ fillPattern k)).length / 8 < 64 := by
            have := hb.slot; simp only [Blk.remaining] at hfit; omega
          have hl0 : 0 < (hdr ++ (f.sdu ++ fillPattern k)).length / 8 := by
            have : 16 ≤ (hdr ++ (f.sdu ++ fillPattern k)).length := by simp only [List.length_append]; omega
            omega
          have := c37_mac_resource r (by rw [hr]; exact Sendable.inRange hs _ _ hl0 hl)
          exact this.2 _ he
        have : f.resource.headerLen = .ok hdr.length := by rw [hr] at hle; exact hle
        rw [hn] at this; simpa using this.symm
      simp only [List.length_append] at hfit
      omega
    | start hdr k r hw hr he hd hk hfull =>
      have hpos := hf.fresh hw
      rcases hok with hh | hok
      · simp [hf.busy] at hh
      · have hne : ¬ (hdr ++ f.sdu.take k = []) := by
          obtain ⟨q, hq⟩ := macResource_enc_shape he; rw [hq]; simp
        have hrx' : rxPdu (hdr ++ f.sdu.take k ++ jk) = .ok (.first (f.resource.heard 63 false) part) := by
          rcases hrx with ⟨h, _⟩ | ⟨_, _, h⟩ | ⟨_, h, _⟩ | ⟨h, _⟩ | ⟨h, _⟩
          · exact absurd h hne
          · exact h
          · simp [hf.busy] at h
          · rw [hw] at h; cases h
          · rw [hw] at h; cases h
        have hpart' : part = f.sdu.take k := by rw [hpart]; simp [hpos]
        have hha : (f.resource.heard 63 false).addr = some a := ha
        obtain ⟨hdi, hdb⟩ := hfresh hw
        have hms : msPdu d t (hdr ++ f.sdu.take k ++ jk) =
            .ok (d.upd i ⟨.active, a, t, t, 1, f.sdu.take k⟩, none) := by
          rw [msPdu, hrx']
          simp [hha, MsDefrag.insertFirst, hidx, hdi, hdb, hpart']
        obtain ⟨f', d', outs, g1, g2, g3⟩ := ih _ (d.upd i ⟨.active, a, t, t, 1, f.sdu.take k⟩) hok
          (by rw [← ha, hr]; rfl) (by rw [hr]; exact hc) (by rw [hr]; exact hn) h4096 hrest (by simp) (by simp)
        exact ⟨f', d', outs, by simpa using hex (_, none) _ (by rw [if_neg hne]; exact hms) g1, g2, g3⟩
    | frag k fb hw hk hprog hfull hlt h16 hlate =>
      rcases hok with hh | hok
      · simp [hf.busy] at hh
      · have hrx' : rxPdu ([false, true, false, decide (fb > 0)] ++ (f.left.take k ++ fillPattern fb) ++ jk) = .ok (.next part) := by
          rcases hrx with ⟨h, _⟩ | ⟨h, _⟩ | ⟨h, _⟩ | ⟨_, _, h⟩ | ⟨_, h, _⟩
          · simp at h
          · rw [hw] at h; cases h
          · rw [hw] at h; cases h
          · exact h
          · simp [hf.busy] at h
        have hpart' : part = (f.sdu.drop f.pos).take k := by rw [hpart]; simp
        obtain ⟨hds, hda, hdb⟩ := hbusy hw
        have hple := hf.pos_le
        have hbits : f.sdu.take f.pos ++ part = f.sdu.take (f.pos + k) := by rw [hpart', List.take_add]
        have hfit : ¬ ((d i).bits.length + part.length > 4096) := by
          have := congrArg List.length hbits
          rw [List.length_append] at this
          rw [hdb, this]; simp; omega
        have hms : msPdu d t ([false, true, false, decide (fb > 0)] ++ (f.left.take k ++ fillPattern fb) ++ jk) =
            .ok (d.upd i { d i with tLast := t, numFrags := (d i).numFrags + 1, bits := f.sdu.take (f.pos + k) }, none) := by
          simp only [msPdu, hrx', MsDefrag.insertNext, hidx, Res.bind_ok, DefragBuf.add, hds, ne_eq, not_true_eq_false,
            if_false, defragMaxLen, hfit]
          rw [hdb, hbits]
        obtain ⟨f', d', outs, g1, g2, g3⟩ := ih _
          (d.upd i { d i with tLast := t, numFrags := (d i).numFrags + 1, bits := f.sdu.take (f.pos + k) }) hok ha hc hn h4096 hrest
          (by simp [hw]) (by intro _; simp [hds, hda])
        exact ⟨f', d', outs, by simpa using hex (_, none) _ (by rw [if_neg (by simp)]; exact hms) g1, g2, g3⟩
    | fin k len hw hlen' hl hfit =>
      have hrx' : rxPdu ([false, true, true, decide (k > 0), false] ++ (Bits.toBits 6 len ++ [false, false]) ++
          (f.left ++ fillPattern k) ++ jk) = .ok (.last part) := by
        rcases hrx with ⟨h, _⟩ | ⟨h, _⟩ | ⟨h, _⟩ | ⟨_, h, _⟩ | ⟨_, _, h⟩
        · simp at h
        · rw [hw] at h; cases h
        · rw [hw] at h; cases h
        · simp at h
        · exact h
      have hpart' : part = f.sdu.drop f.pos := by
        rw [hpart]; exact List.take_of_length_le (by simp)
      obtain ⟨hds, hda, hdb⟩ := hbusy hw
      have hbits : (d i).bits ++ part = f.sdu := by rw [hdb, hpart', List.take_append_drop]
      have hfit' : ¬ ((d i).bits.length + part.length > 4096) := by
        have := congrArg List.length hbits
        rw [List.length_append] at this
        omega
      have hms : ∃ d1, msPdu d t ([false, true, true, decide (k > 0), false] ++ (Bits.toBits 6 len ++ [false, false]) ++
          (f.left ++ fillPattern k) ++ jk) = .ok (d1, some (some a, f.sdu)) := by
        refine ⟨d.upd i DefragBuf.new, ?_⟩
        simp only [msPdu, hrx', MsDefrag.insertLast, hidx, Res.bind_ok, hds, ne_eq, not_true_eq_false, if_false, defragMaxLen,
          hfit', hbits, MsDefrag.take, Slots.upd_self, Slots.upd_upd, Option.map_some, hda]
      obtain ⟨d1, hms⟩ := hms
      have hfin : ∀ f1 : Fragger, f1.done = true → exchange f1 d1 rest = .ok (f1, d1, []) := by
        intro f1 h; cases rest <;> simp [exchange, h]
      refine ⟨_, _, _, hex (_, _) _ (by rw [if_neg (by simp)]; exact hms) (hfin _ rfl), ?_, ?_⟩
      · intro _; rfl
      · intro h; cases h

/-- **C19, from end to end.** An SDU of up to 4096 bits which does not fit whole into any of the blocks offered
is sent in fragments; a mobile station whose reassembly on that timeslot is idle passes up, when the fragmenter is
done, exactly that SDU under the address of the message, once, and before that nothing, whatever else is in the
blocks. -/
theorem c19_end_to_end (r : MacResource) (hr : r.Sendable) (a : Addr) (ha : r.addr = some a) (hc : r.encryptionMode = 0)
    (n : Nat) (hn : r.headerLen = .ok n) (sdu : List Bool) (h4096 : sdu.length ≤ 4096)
    (slots : List (Time × Blk × List Bool)) (ts : Nat) (hts : 1 ≤ ts ∧ ts ≤ 4)
    (hslots : ∀ s ∈ slots, s.1.t = ts ∧ s.2.1.Ok ∧ 268 ≤ s.2.2.length ∧ s.2.1.remaining < n + sdu.length) :
    ∃ f' d' outs, exchange (Fragger.new r sdu) MsDefrag.new slots = .ok (f', d', outs) ∧
      (f'.done = true → ∃ a', outs = [(some a', sdu)] ∧ a'.ssi = a.ssi) ∧ (f'.done = false → outs = []) := by
  obtain ⟨a', ha', hs'⟩ : ∃ a', r.onAir.addr = some a' ∧ a'.ssi = a.ssi := by
    simp [MacResource.onAir, ha]
  obtain ⟨f', d', outs, g1, g2, g3⟩ := exchange_spec slots (Fragger.new r sdu) MsDefrag.new a' ⟨ts - 1, by omega⟩ n
    ⟨hr, by simp [Fragger.new], by simp [Fragger.new], rfl⟩ ha' hc hn h4096
    (fun s hs => by have := hslots s hs; refine ⟨by simp only; omega, this.2⟩) (by simp [MsDefrag.new, DefragBuf.new]) (by simp [Fragger.new])
  exact ⟨f', d', outs, g1, fun h => ⟨a', g2 h, hs'⟩, g3⟩

/-- A 300-bit SDU in two slots of 268 bits on timeslot 2. -/
example : (match exchange (Fragger.new sampleRes (List.replicate 300 true)) MsDefrag.new
      [(⟨2, 1, 1, 0⟩, ⟨[], 268⟩, List.replicate 268 false), (⟨2, 2, 1, 0⟩, ⟨[], 268⟩, List.replicate 268 true)] with
    | .ok (f, _, outs) => (f.done, outs)
    | _ => (false, [])) = (true, [(some ⟨1234567, .ssi, false⟩, List.replicate 300 true)]) := by decide +kernel

end Verif.Umac
