import Verif.Umac.UmacSduComplete
import Verif.Umac.UmacFindings
/-!
# C49 — messages from the mobiles reach the layer above, and nothing else does

The specification of what an uplink block carries is at the top of `UmacSdu.lean` (`Starts`, `SentIn`) and of
`UmacSduComplete.lean` (`Reads`, `Leads`); that of grants is at the top of `UlSchedProps.lean`.
-/
namespace Verif.Umac
open Verif.Tdma Verif.Codec Verif.Bits

/-! ## Nothing else -/

/-- Every uplink block belongs to the present slot or one of the two before it, as the lower layers deliver them. -/
def InTime (x : Time) (h : List (UmacEv × List UmacOut)) : Prop :=
  ∀ h1 c bits out h2, h = h1 ++ (.block c bits, out) :: h2 →
    ∃ n : Int, c.x = fromInt n ∧ x.toInt + slotsIn h1 - 2 ≤ n ∧ n ≤ x.toInt + slotsIn h1

theorem InTime.init {x : Time} {h : List (UmacEv × List UmacOut)} {p : UmacEv × List UmacOut} (hi : InTime x (h ++ [p])) : InTime x h := by
  intro h1 c bits out h2 e
  exact hi h1 c bits out (h2 ++ [p]) (by rw [e]; simp)

theorem InTime.timed {x : Time} {h : List (UmacEv × List UmacOut)} (hi : InTime x h) : ∀ p ∈ h, p.1.Timed := by
  intro p hp
  obtain ⟨h1, h2, rfl⟩ := List.append_of_mem hp
  obtain ⟨e, out⟩ := p
  cases e with
  | block c bits =>
    obtain ⟨n, hn, _⟩ := hi h1 c bits out h2 rfl
    show c.x.valid
    rw [hn]; exact fromInt_valid n
  | _ => trivial

theorem step_frags {s s' : UmacBs} {e : UmacEv} {out : List UmacOut} (h : s.step e = .ok (s', out)) (he : ∀ c bits, e ≠ .block c bits) :
    s'.frags = s.frags := by
  have fin : ∀ {cs}, Via s cs [] s' → s'.frags = s.frags := fun v => by rw [v.frags, List.append_nil]
  cases e with
  | tick w => obtain ⟨cs, v, _⟩ := tick_via h; exact fin v
  | block c bits => exact absurd rfl (he c bits)
  | request q =>
    simp only [UmacBs.step] at h
    rw [Out.bind_eq_ok] at h; obtain ⟨s1, h1, h⟩ := h
    cases h
    obtain ⟨cs, v, _⟩ := request_via h1; exact fin v
  | voiceDown ts b =>
    simp only [UmacBs.step] at h
    rw [Out.bind_eq_ok] at h; obtain ⟨s1, h1, h⟩ := h
    cases h
    obtain ⟨cs, v, _⟩ := voiceDown_via h1; exact fin v
  | voiceUp ts data => obtain ⟨cs, v, _⟩ := voiceUp_via h; exact fin v
  | control m =>
    simp only [UmacBs.step] at h
    rw [Out.bind_eq_ok] at h; obtain ⟨s1, h1, h⟩ := h
    cases h
    obtain ⟨cs, v, _⟩ := control_via h1; exact fin v

theorem run_clock {brew : Bool} {carrier : Nat} {x : Time} {scramb : Nat} {wide : Bool} {pre : Precomps} {s : UmacBs}
    {h : List (UmacEv × List UmacOut)} (hr : UmacRun (.init brew carrier x scramb wide pre) h s) :
    clockAfter x.toInt s.log = x.toInt + slotsIn h := by
  obtain ⟨_, _, o3⟩ := run_orders hr
  rw [clockAfter_eq, o3]

theorem at_of_run {brew : Bool} {carrier : Nat} {x : Time} (hx : x.valid) {scramb : Nat} {wide : Bool} {pre : Precomps} {s : UmacBs}
    {h : List (UmacEv × List UmacOut)} (hr : UmacRun (.init brew carrier x scramb wide pre) h s) (ht : ∀ p ∈ h, p.1.Timed) {n : Int} {c : UlCtx}
    (h1 : c.x = fromInt n) (h2 : x.toInt + slotsIn h - 2 ≤ n) (h3 : n ≤ x.toInt + slotsIn h) : At x n c s := by
  have k := run_known hx hr ht
  have hc := run_clock hr
  exact ⟨k.view, k.frags, h1, by rw [hc]; exact h2, by rw [hc]; exact h3⟩

/-- **C49, parts.** Every part of a message the base station takes for reassembly was sent in a block: a first part under the
address in its header; middle and last parts are attributed to the station to which the slot was granted. -/
theorem c49_parts (brew : Bool) (carrier : Nat) (x : Time) (hx : x.valid) (scramb : Nat) (wide : Bool) (pre : Precomps) (s : UmacBs)
    (h : List (UmacEv × List UmacOut)) (hr : UmacRun (.init brew carrier x scramb wide pre) h s) (hi : InTime x h) (e : BsEv) (he : e ∈ s.frags) :
    ∃ c bits out n, (UmacEv.block c bits, out) ∈ h ∧ c.x = fromInt n ∧
      FragFrom (Granted (grantsIn x.toInt s.log) n c.half) c (SentIn c.chan bits) e := by
  generalize hs0 : UmacBs.init brew carrier x scramb wide pre = s0 at hr
  induction hr with
  | init => subst hs0; simp [UmacBs.init] at he
  | @step h s s' ev out hr' hst ih =>
    obtain ⟨cs, fs, v, _⟩ := step_via hst
    have old : e ∈ s.frags → ∃ c bits out' n, (UmacEv.block c bits, out') ∈ h ++ [(ev, out)] ∧ c.x = fromInt n ∧
        FragFrom (Granted (grantsIn x.toInt s'.log) n c.half) c (SentIn c.chan bits) e := by
      intro he
      obtain ⟨c, bits, out', n, i1, i2, i3⟩ := ih hi.init he
      exact ⟨c, bits, out', n, List.mem_append_left _ i1, i2,
        i3.mono (fun _ h => h.mono (grantsIn_mono ⟨cs, v.log.symm⟩)) (fun _ h => h)⟩
    by_cases hb : ∃ c bits, ev = .block c bits
    · obtain ⟨c, bits, rfl⟩ := hb
      subst hs0
      obtain ⟨n, n1, n2, n3⟩ := hi h c bits out [] rfl
      have sd := block_sound (at_of_run hx hr' hi.init.timed n1 n2 n3) hst
      obtain ⟨fs, e1, e2⟩ := sd.frags
      rw [e1] at he
      rcases List.mem_append.1 he with he | he
      · exact old he
      · exact ⟨c, bits, out, n, List.mem_append_right _ (by simp), n1, e2 e he⟩
    · rw [step_frags hst (fun c bits h => hb ⟨c, bits, h⟩)] at he
      exact old he

/-- The message was sent in parts: the last one in this block, the first one and the middle ones in blocks of the history on the
same timeslot; all but the first in slots granted to the station. -/
def SentInParts (gs : List Given) (h : List (UmacEv × List UmacOut)) (c : UlCtx) (bits : List Bool) (a : Addr) (b : List Bool) : Prop :=
  ∃ (p : List Bool) (ps : List (List Bool)) (l : List Bool), b = p ++ ps.flatten ++ l ∧
    (∃ c0 bits0 out0, (UmacEv.block c0 bits0, out0) ∈ h ∧ c0.x.t = c.x.t ∧ SentIn c0.chan bits0 (.first a p)) ∧
    (∀ q ∈ ps, ∃ c1 bits1 out1 n1, (UmacEv.block c1 bits1, out1) ∈ h ∧ c1.x.t = c.x.t ∧ c1.x = fromInt n1 ∧ SentIn c1.chan bits1 (.next q) ∧
      Granted gs n1 c1.half a.ssi) ∧
    SentIn c.chan bits (.last l) ∧ ∃ n, c.x = fromInt n ∧ Granted gs n c.half a.ssi

/-- **C49, nothing else.** Whatever is handed to the layer above comes from the block just received: a message in it under the address in
its header; a message without address in a stolen half slot; or a message whose last part is in it. (After an overflow an empty
message without an address is handed on: a finding of C20.) -/
theorem c49_origin (brew : Bool) (carrier : Nat) (x : Time) (hx : x.valid) (scramb : Nat) (wide : Bool) (pre : Precomps) (s : UmacBs)
    (h : List (UmacEv × List UmacOut)) (e : UmacEv) (out : List UmacOut)
    (hr : UmacRun (.init brew carrier x scramb wide pre) (h ++ [(e, out)]) s) (hi : InTime x (h ++ [(e, out)]))
    (y : Time) (a : Addr) (b : List Bool) (ho : .sdu y a b ∈ out) :
    ∃ c bits, e = .block c bits ∧ y = c.x ∧
      (SentIn c.chan bits (.whole a b) ∨ (a = ⟨0, .ssi, false⟩ ∧ SentIn c.chan bits (.signal b)) ∨
       SentInParts (grantsIn x.toInt s.log) (h ++ [(e, out)]) c bits a b ∨ (a = ⟨0, .unknown, false⟩ ∧ b = [])) := by
  have parts := c49_parts brew carrier x hx scramb wide pre s _ hr hi
  obtain ⟨s1, hr', hst⟩ : ∃ s1, UmacRun (.init brew carrier x scramb wide pre) h s1 ∧ s1.step e = .ok (s, out) := by
    generalize hh : h ++ [(e, out)] = hh' at hr
    cases hr with
    | init => simp at hh
    | @step h0 s0 _ e0 o0 hr0 hst0 =>
      have := List.append_inj' hh rfl
      obtain ⟨rfl, h2⟩ := this
      simp only [List.cons.injEq, Prod.mk.injEq, and_true] at h2
      obtain ⟨rfl, rfl⟩ := h2
      exact ⟨s0, hr0, hst0⟩
  by_cases hb : ∃ c bits, e = .block c bits
  · obtain ⟨c, bits, rfl⟩ := hb
    obtain ⟨n, n1, n2, n3⟩ := hi h c bits out [] rfl
    have sd := block_sound (at_of_run hx hr' hi.init.timed n1 n2 n3) hst
    obtain ⟨o1, o2⟩ := sd.out y a b ho
    refine ⟨c, bits, rfl, o1, ?_⟩
    rcases o2 with o2 | o2 | ⟨l, ssi, fp, fq, q1, q2, q3, q4⟩
    · exact .inl o2
    · exact .inr (.inl o2)
    · right; right
      rcases q4 with ⟨t, t1, rfl, rfl⟩ | ⟨t1, t2, _⟩
      · left
        obtain ⟨pre', p, u, ad, mid, g1, g2, g3, g4, g5, g6, _⟩ := c20_exact _ _ _ _ t1
        subst g5
        refine ⟨p, mid.filterMap (nextBits c.x.t ssi), l, by rw [g6]; simp, ?_, ?_, q1, n, n1, by rw [g3]; exact q2⟩
        · obtain ⟨c0, bits0, out0, n0, k1, k2, k3, k4⟩ := parts (.first p u t.addr) (by rw [q3, g1]; simp)
          exact ⟨c0, bits0, out0, k1, by rw [← k3, g2], k4⟩
        · intro q hq
          obtain ⟨ev, hev, hqb⟩ := List.mem_filterMap.1 hq
          cases ev with
          | next bq iq uq =>
            simp only [nextBits] at hqb
            split at hqb
            · rename_i hk
              cases hqb
              obtain ⟨c0, bits0, out0, n0, k1, k2, k3, k4, k5⟩ := parts (.next q iq uq) (by rw [q3, g1]; simp [hev])
              exact ⟨c0, bits0, out0, n0, k1, by rw [← k3, hk.1], k2, k4, by rw [g3, ← hk.2]; exact k5⟩
            · cases hqb
          | _ => simp [nextBits] at hqb
      · exact .inr ⟨t1, t2⟩
  · exfalso
    cases e with
    | block c bits => exact hb ⟨c, bits, rfl⟩
    | tick w =>
      obtain ⟨cs, _, _, _, _, _, r, _, ho'⟩ := tick_via hst
      rw [ho'] at ho
      rcases List.mem_append.1 ho with ho | ho
      · simp at ho
      · split at ho <;> simp at ho
    | request q =>
      simp only [UmacBs.step] at hst
      rw [Out.bind_eq_ok] at hst; obtain ⟨_, _, hst⟩ := hst
      cases hst; simp at ho
    | voiceDown ts bl =>
      simp only [UmacBs.step] at hst
      rw [Out.bind_eq_ok] at hst; obtain ⟨_, _, hst⟩ := hst
      cases hst; simp at ho
    | voiceUp ts data =>
      obtain ⟨cs, _, _, _, _, _, ul, _, ho'⟩ := voiceUp_via hst
      rw [ho'] at ho
      split at ho <;> simp at ho
    | control m =>
      simp only [UmacBs.step] at hst
      rw [Out.bind_eq_ok] at hst; obtain ⟨_, _, hst⟩ := hst
      cases hst; simp at ho

/-! ## Nothing is lost -/

/-- **C49, messages.** A block which consists of messages is handed on message by message, in order, each under the address in its
header; nothing is kept for reassembly. -/
theorem c49_messages (s s' : UmacBs) (c : UlCtx) (bits : List Bool) (out : List UmacOut) (h : s.step (.block c bits) = .ok (s', out))
    (ms : List (Addr × List Bool)) (hm : Reads c.chan bits ms) :
    (sdus out = ms.map fun m => (c.x, m.1, m.2)) ∧ s'.frags = s.frags :=
  (reads_loop hm (Nat.le_refl _) (block_loop h)).symm

/-- The block belongs to slot `n`, the present slot or one of the two before it. -/
def OnTime (x : Time) (s : UmacBs) (c : UlCtx) (n : Int) : Prop :=
  c.x = fromInt n ∧ clockAfter x.toInt s.log - 2 ≤ n ∧ n ≤ clockAfter x.toInt s.log

/-- From `s` to the last state, the middle parts of one message of station `ssi` on timeslot `ts` are received, in this order, in slots
granted to the station. In between anything else may happen, except that a message of the same station is begun on the same
timeslot or that there is another block in a slot granted to it. -/
inductive Middle (x : Time) (ts ssi : Nat) (s : UmacBs) : List (List Bool) → UmacBs → Prop where
  | nil : Middle x ts ssi s [] s
  | part {ps : List (List Bool)} {s1 s2 : UmacBs} {c : UlCtx} {bits p : List Bool} {out : List UmacOut} {n : Int} {ms : List (Addr × List Bool)} :
      Middle x ts ssi s ps s1 → s1.step (.block c bits) = .ok (s2, out) → OnTime x s1 c n → c.x.t = ts →
      Leads c.chan bits ms (.next p) → Granted (grantsIn x.toInt s1.log) n c.half ssi → Middle x ts ssi s (ps ++ [p]) s2
  | other {ps : List (List Bool)} {s1 s2 : UmacBs} {e : UmacEv} {out : List UmacOut} :
      Middle x ts ssi s ps s1 → s1.step e = .ok (s2, out) →
      (∀ c bits, e = .block c bits → ∃ n, OnTime x s1 c n ∧ (c.x.t = ts → (∀ a p, SentIn c.chan bits (.first a p) → a.ssi ≠ ssi) ∧
        ¬ Granted (grantsIn x.toInt s2.log) n c.half ssi)) → Middle x ts ssi s ps s2

theorem OnTime.at {x : Time} {s : UmacBs} {c : UlCtx} {n : Int} (h : OnTime x s c n) (hk : Known x s) : At x n c s :=
  ⟨hk.view, hk.frags, h.1, h.2.1, h.2.2⟩

theorem OnTime.timed {x : Time} {s : UmacBs} {c : UlCtx} {n : Int} (h : OnTime x s c n) (bits : List Bool) : (UmacEv.block c bits).Timed := by
  show c.x.valid
  rw [h.1]; exact fromInt_valid n

/-- The block begins a message after some complete messages. -/
theorem first_block {x : Time} {s s' : UmacBs} {c : UlCtx} {bits p : List Bool} {out : List UmacOut} {ms : List (Addr × List Bool)} {a : Addr}
    (h : s.step (.block c bits) = .ok (s', out)) (hm : Leads c.chan bits ms (.first a p)) :
    s'.frags = s.frags ++ [.first p c.x a] ∧ sdus out = ms.map fun m => (c.x, m.1, m.2) := by
  obtain ⟨s1, bits1, r, more, _, _, e3, e4, e5, e6, e7⟩ := leads_loop hm (Nat.le_refl _) (block_loop h)
  obtain ⟨f1, f2, f3⟩ := first_pdu e4 e5
  obtain ⟨rfl, rfl⟩ := e7 (.inr f3)
  exact ⟨by rw [f1, e3], by rw [e6, f2]; simp⟩

/-- The block has a middle part after some complete messages. -/
theorem next_block {x : Time} {s s' : UmacBs} {c : UlCtx} {bits p : List Bool} {out : List UmacOut} {ms : List (Addr × List Bool)} {ssi : Nat}
    {n : Int} (hs : At x n c s) (h : s.step (.block c bits) = .ok (s', out)) (hm : Leads c.chan bits ms (.next p))
    (hg : Granted (grantsIn x.toInt s.log) n c.half ssi) :
    s'.frags = s.frags ++ [.next p ssi c.x] ∧ sdus out = ms.map fun m => (c.x, m.1, m.2) := by
  obtain ⟨s1, bits1, r, more, e1, e2, e3, e4, e5, e6, e7⟩ := leads_loop hm (Nat.le_refl _) (block_loop h)
  have ho := ((hs.rx e1).owner ssi).2 (hg.mono (grantsIn_mono e2))
  obtain ⟨f1, f2, f3⟩ := next_pdu e4 ho e5
  obtain ⟨rfl, rfl⟩ := e7 (.inl f3)
  exact ⟨by rw [f1, e3], by rw [e6, f2]; simp⟩

theorem Middle.keeps {x : Time} {ts ssi : Nat} {s s' : UmacBs} {ps : List (List Bool)} (h : Middle x ts ssi s ps s') (hk : Known x s) :
    Known x s' ∧ ∃ mid, s'.frags = s.frags ++ mid ∧ (∀ e ∈ mid, ¬ Bounds ts ssi e) ∧ (∀ e ∈ mid, ∀ t, e ≠ .age t) ∧
      mid.filterMap (nextBits ts ssi) = ps := by
  induction h with
  | nil => exact ⟨hk, [], by simp⟩
  | @part ps s1 s2 c bits p out n ms _ hst hn ht hm hg ih =>
    obtain ⟨k1, mid, e1, e2, e3, e4⟩ := ih
    refine ⟨k1.step (hn.timed bits) hst, mid ++ [.next p ssi c.x], ?_, ?_, ?_, ?_⟩
    · rw [(next_block (hn.at k1) hst hm hg).1, e1, List.append_assoc]
    · intro e he
      rcases List.mem_append.1 he with he | he
      · exact e2 e he
      · rw [List.mem_singleton.1 he]; simp [Bounds]
    · intro e he
      rcases List.mem_append.1 he with he | he
      · exact e3 e he
      · rw [List.mem_singleton.1 he]; simp
    · rw [List.filterMap_append, e4]; simp [nextBits, ht]
  | @other ps s1 s2 e out _ hst hf ih =>
    obtain ⟨k1, mid, e1, e2, e3, e4⟩ := ih
    by_cases hb : ∃ c bits, e = .block c bits
    · obtain ⟨c, bits, rfl⟩ := hb
      obtain ⟨n, hn, hno⟩ := hf c bits rfl
      have sd := block_sound (hn.at k1) hst
      obtain ⟨fs, q1, q2⟩ := sd.frags
      refine ⟨k1.step (hn.timed bits) hst, mid ++ fs, by rw [q1, e1, List.append_assoc], ?_, ?_, ?_⟩
      · intro e he
        rcases List.mem_append.1 he with he | he
        · exact e2 e he
        · have hq := q2 e he
          cases e with
          | first b y a =>
            rintro ⟨h1, h2⟩
            exact (hno (by rw [← hq.1]; exact h1)).1 a b hq.2 h2
          | next b i y => simp [Bounds]
          | last b i y =>
            rintro ⟨h1, h2⟩
            exact (hno (by rw [← hq.1]; exact h1)).2 (h2 ▸ hq.2.2)
          | age t => exact hq.elim
      · intro e he
        rcases List.mem_append.1 he with he | he
        · exact e3 e he
        · intro t ht
          have hq := q2 e he
          rw [ht] at hq
          exact hq
      · rw [List.filterMap_append, e4]
        suffices fs.filterMap (nextBits ts ssi) = [] by rw [this, List.append_nil]
        rw [List.filterMap_eq_nil_iff]
        intro e he
        have hq := q2 e he
        cases e with
        | next b i y =>
          simp only [nextBits]
          rw [if_neg]
          rintro ⟨h1, h2⟩
          exact (hno (by rw [← hq.1]; exact h1)).2 (h2 ▸ hq.2.2)
        | _ => rfl
    · refine ⟨k1.step ?_ hst, mid, by rw [step_frags hst (fun c bits h => hb ⟨c, bits, h⟩), e1], e2, e3, e4⟩
      cases e with
      | block c bits => exact absurd ⟨c, bits, rfl⟩ hb
      | _ => trivial

/-- **C49, fragmented messages.** A message of at most 4096 bits, sent in parts by a station in slots granted to it, is handed on
complete, in order and under the address in its first part when its last part is received, whatever else the base station
does and receives in between, and however long that takes. The last part may follow complete messages in its block. -/
theorem c49_reassembled (brew : Bool) (carrier : Nat) (x : Time) (hx : x.valid) (scramb : Nat) (wide : Bool) (pre : Precomps) (s0 : UmacBs)
    (h : List (UmacEv × List UmacOut)) (hr : UmacRun (.init brew carrier x scramb wide pre) h s0) (ht : ∀ p ∈ h, p.1.Timed)
    -- the first part
    (c0 : UlCtx) (bits0 : List Bool) (s1 : UmacBs) (out0 : List UmacOut) (h0 : s0.step (.block c0 bits0) = .ok (s1, out0)) (n0 : Int)
    (hn0 : OnTime x s0 c0 n0) (ms0 : List (Addr × List Bool)) (a : Addr) (p : List Bool) (hm0 : Leads c0.chan bits0 ms0 (.first a p))
    -- the middle parts
    (ps : List (List Bool)) (s2 : UmacBs) (hmid : Middle x c0.x.t a.ssi s1 ps s2)
    -- the last part
    (c : UlCtx) (bits : List Bool) (s3 : UmacBs) (out : List UmacOut) (hl : s2.step (.block c bits) = .ok (s3, out)) (n : Int)
    (hn : OnTime x s2 c n) (hts : c.x.t = c0.x.t) (ms : List (Addr × List Bool)) (l : List Bool) (hm : Leads c.chan bits ms (.last l))
    (hg : Granted (grantsIn x.toInt s2.log) n c.half a.ssi) (hsz : (p ++ ps.flatten ++ l).length ≤ 4096) :
    ∃ more, sdus out = ms.map (fun m => (c.x, m.1, m.2)) ++ (c.x, a, p ++ ps.flatten ++ l) :: more := by
  have k0 := run_known hx hr ht
  have k1 := k0.step (hn0.timed bits0) h0
  obtain ⟨k2, mid, e1, e2, e3, e4⟩ := hmid.keeps k1
  rw [(first_block (x := x) h0 hm0).1, List.append_assoc, List.singleton_append] at e1
  obtain ⟨t, t1, t2, t3⟩ := c20_complete c0.x.t a.ssi s0.frags mid p c0.x a rfl rfl e2 e3 (by
    rw [e4]; simp only [List.length_append, List.flatten_cons] at hsz ⊢; omega)
  rw [← e1] at t1
  rw [e4] at t3
  obtain ⟨s4, bits1, r, more, f1, f2, f3, f4, f5, f6, f7⟩ := leads_loop hm (Nat.le_refl _) (block_loop hl)
  have hat := (hn.at k2).rx f1
  have ho := (hat.owner a.ssi).2 (hg.mono (grantsIn_mono f2))
  have := last_pdu hat.frags hat.valid f4 ho (by rw [f3, hts]; exact t1) (by rw [t3, List.flatten_cons]; exact hsz) f5
  refine ⟨more, ?_⟩
  rw [f6, this, t2, t3]
  simp

end Verif.Umac
