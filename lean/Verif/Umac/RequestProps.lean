import Verif.Umac.UmacMsRound
import Verif.Umac.UmacLog
import Verif.Cmce.CmceBs
import Verif.Llc.Pdus
/-!
# C90: what the layers above ask the base station to send is what stations read

A request names an address, possibly a channel to go to, possibly asks for a half slot of a call to be stolen, and carries the SDU. The
theorems follow it through the upper MAC of the base station (`UmacBs.request`) and the upper MAC of a mobile station
(`UmacMs.round`, `UmacMs.rxSch`).
-/
namespace Verif.Umac
open Verif.Bits Verif.Codec Verif.Tdma Verif.Mle

/-! ## What is asked for -/

/-- Addresses and channels which have a place in the fields on the air. -/
structure TmaReq.Sane (q : TmaReq) (carrier : Nat) : Prop where
  ssi : q.addr.ssi < 2 ^ 24
  clear : q.addr.encrypted = false
  kind : q.addr.ssiType = .ssi ∨ q.addr.ssiType = .issi ∨ q.addr.ssiType = .gssi
  usage : ∀ c u, q.chan = some c → c.usage = some u → u < 64
  chan : ∀ c, q.chan = some c → c.allocType < 4 ∧ 0 < c.ulDl ∧ c.ulDl < 4
  carrier : carrier < 4096

/-- Timeslot `t` is among those of the channel asked for. -/
def asks (c : Option ChanReq) (t : Nat) : Prop :=
  ∃ r, c = some r ∧ ((t = 1 ∧ r.ts1 = true) ∨ (t = 2 ∧ r.ts2 = true) ∨ (t = 3 ∧ r.ts3 = true) ∨ (t = 4 ∧ r.ts4 = true))

/-- A call is being sent in timeslot `t`. -/
def UmacBs.sending (s : UmacBs) (t : Nat) : Prop := ∃ i : Fin 4, t = i.val + 1 ∧ (s.sched.circuits.dl i).isSome = true

/-- What a station must find in a header: who it is for, the channel to go to. -/
structure HeaderReads (m : MacResource) (q : TmaReq) (carrier : Nat) : Prop where
  addr : m.addr = some ⟨q.addr.ssi, .ssi, false⟩
  plain : m.encryptionMode = 0 ∧ m.eventLabel = none ∧ m.powerControl = none ∧ m.slotGrant = none
  usage : m.usageMarker = q.chan.bind (·.usage)
  noChan : q.chan = none → m.chanAlloc = none
  chan : ∀ c, q.chan = some c → ∃ d, m.chanAlloc = some d ∧ d.allocType = c.allocType ∧ d.ulDl = c.ulDl ∧ d.carrier = carrier ∧
    d.ts1 = c.ts1 ∧ d.ts2 = c.ts2 ∧ d.ts3 = c.ts3 ∧ d.ts4 = c.ts4 ∧ d.ext = none ∧ d.cellChange = false ∧
    (d.clch = true ↔ (c.allocType = 0 ∨ c.allocType = 1) ∧ (c.ulDl = 2 ∨ c.ulDl = 3))

/-! ## Signalling -/

/-- **C90, signalling.** A request which steals no half slot becomes one message on the timeslot of the request, with the SDU unchanged
and a header from which, whatever length and fill indication it is sent with, a station reads the address, the usage marker and the
channel asked for, on the carrier of the cell. The random access flag is set exactly for addresses which are not groups. -/
theorem c90_signal (s s' : UmacBs) (q : TmaReq) (hq : q.Sane s.carrier) (hs : q.steal = true → s.stealTs q.chan = none)
    (h : s.request q = .ok s') :
    ∃ p r, s'.log = s.log ++ [(.message q.x.t q.id q.reported p q.sdu, r)] ∧
      ∀ n fb, 0 < n → n < 64 → ∃ bits, ({ p with lengthInd := n, fillBits := fb } : MacResource).enc = .ok bits ∧
        ∀ rest, ∃ m, MacResource.dec.run (bits ++ rest) = .ok (m, rest) ∧ m.lengthInd = n ∧ m.fillBits = fb ∧
          HeaderReads m q s.carrier ∧ (m.randomAccess = true ↔ q.addr.ssiType ≠ .gssi) := by
  have e : s.request q = s.signal q := by
    unfold UmacBs.request
    by_cases hst : q.steal = true
    · rw [if_pos hst, hs hst]
    · rw [if_neg hst]
  rw [e] at h
  unfold UmacBs.signal at h
  rw [Out.bind_eq_ok] at h; obtain ⟨p, hp, h⟩ := h
  rw [Out.bind_eq_ok] at h; obtain ⟨r, h1, h⟩ := h
  cases h
  unfold UmacBs.call at h1
  rw [Out.bind_eq_ok] at h1; obtain ⟨k, _, h1⟩ := h1
  cases h1
  unfold MacResource.updateLen at hp
  rw [Out.bind_eq_ok] at hp; obtain ⟨hl, _, hp⟩ := hp
  cases hp
  refine ⟨_, k.2, rfl, ?_⟩
  intro n fb h0 h1
  obtain ⟨c1, c2, c3, c4, c5, c6⟩ := hq
  have hin : MacResource.InRange ⟨fb, 0, 0, decide (q.addr.ssiType ≠ .gssi), n, some q.addr, none, q.chan.bind (·.usage), none, none,
      q.chan.map (·.toMac s.carrier)⟩ := by
    refine ⟨by simp, by simp, h0, h1, ?_, by simp, by simp, ?_⟩
    · refine ⟨c1, by simp [c2], by simp, ?_, Or.inl rfl, ?_⟩
      · intro v hv
        cases hc : q.chan with
        | none => rw [hc] at hv; cases hv
        | some c => rw [hc] at hv; exact c4 c v hc hv
      · rcases c3 with k | k | k <;> simp [k]
    · intro v hv
      cases hc : q.chan with
      | none => rw [hc] at hv; cases hv
      | some c =>
        rw [hc] at hv; cases hv
        obtain ⟨d1, d2, d3⟩ := c5 c hc
        exact ⟨d1, d2, d3, c6, rfl, by simp [ChanReq.toMac], by simp [ChanReq.toMac], by simp [ChanReq.toMac]⟩
  obtain ⟨bits, hb, hd⟩ := (c37_mac_resource _ hin).1
  refine ⟨bits, hb, fun rest => ⟨_, hd rest, rfl, rfl, ⟨?_, ⟨rfl, rfl, rfl, rfl⟩, rfl, ?_, ?_⟩, ?_⟩⟩
  · rcases c3 with k | k | k <;> simp [MacResource.onAir, k, c2]
  · intro hc; simp [MacResource.onAir, hc]
  · intro c hc
    refine ⟨c.toMac s.carrier, by simp [MacResource.onAir, hc], rfl, rfl, rfl, rfl, rfl, rfl, rfl, rfl, rfl, ?_⟩
    simp [ChanReq.toMac]
  · simp [MacResource.onAir]

/-! ## The timeslot stolen from -/

/-- **C90, the timeslot.** A half slot is stolen from the first timeslot asked for; when none is asked for, from the first of the
timeslots 2, 3 and 4 in which a call is being sent; otherwise from none, and the request becomes signalling. -/
theorem c90_steal_ts (s : UmacBs) (c : Option ChanReq) (t : Nat) :
    s.stealTs c = some t ↔
      (asks c t ∧ ∀ t' < t, ¬ asks c t') ∨
      ((∀ t', ¬ asks c t') ∧ 2 ≤ t ∧ s.sending t ∧ ∀ t', 2 ≤ t' → t' < t → ¬ s.sending t') := by
  have hsend : ∀ t, 2 ≤ t → (s.sending t ↔ (t = 2 ∧ (s.sched.circuits.dl 1).isSome = true) ∨ (t = 3 ∧ (s.sched.circuits.dl 2).isSome = true) ∨
      (t = 4 ∧ (s.sched.circuits.dl 3).isSome = true)) := by
    intro t ht
    constructor
    · rintro ⟨i, hi, h⟩
      have : i.val = 1 ∨ i.val = 2 ∨ i.val = 3 := by omega
      rcases this with k | k | k
      · rw [show i = 1 from Fin.ext k] at h; exact .inl ⟨by omega, h⟩
      · rw [show i = 2 from Fin.ext k] at h; exact .inr (.inl ⟨by omega, h⟩)
      · rw [show i = 3 from Fin.ext k] at h; exact .inr (.inr ⟨by omega, h⟩)
    · rintro (⟨rfl, h⟩ | ⟨rfl, h⟩ | ⟨rfl, h⟩)
      · exact ⟨1, rfl, h⟩
      · exact ⟨2, rfl, h⟩
      · exact ⟨3, rfl, h⟩
  have hfall : (∀ t', ¬ asks c t') → ((if (s.sched.circuits.dl 1).isSome then some 2 else if (s.sched.circuits.dl 2).isSome then some 3
      else if (s.sched.circuits.dl 3).isSome then some 4 else none) = some t ↔
      2 ≤ t ∧ s.sending t ∧ ∀ t', 2 ≤ t' → t' < t → ¬ s.sending t') := by
    intro _
    constructor
    · intro h
      split at h
      · rename_i k; cases h
        exact ⟨by decide, (hsend 2 (by decide)).2 (.inl ⟨rfl, k⟩), fun t' a b => by omega⟩
      · rename_i k1
        split at h
        · rename_i k; cases h
          refine ⟨by decide, (hsend 3 (by decide)).2 (.inr (.inl ⟨rfl, k⟩)), fun t' a b => ?_⟩
          rw [hsend t' a]; rintro (⟨_, k'⟩ | ⟨k', _⟩ | ⟨k', _⟩)
          · exact k1 k'
          · omega
          · omega
        · rename_i k2
          split at h
          · rename_i k; cases h
            refine ⟨by decide, (hsend 4 (by decide)).2 (.inr (.inr ⟨rfl, k⟩)), fun t' a b => ?_⟩
            rw [hsend t' a]; rintro (⟨_, k'⟩ | ⟨_, k'⟩ | ⟨k', _⟩)
            · exact k1 k'
            · exact k2 k'
            · omega
          · cases h
    · rintro ⟨h2, hs, hb⟩
      rw [hsend t h2] at hs
      have b2 := hb 2 (by decide)
      have b3 := hb 3 (by decide)
      rw [hsend 2 (by decide)] at b2
      rw [hsend 3 (by decide)] at b3
      rcases hs with ⟨rfl, h⟩ | ⟨rfl, h⟩ | ⟨rfl, h⟩
      · rw [if_pos h]
      · have := b2 (by decide)
        rw [if_neg (by simpa using this), if_pos h]
      · have k2 := b2 (by decide)
        have k3 := b3 (by decide)
        rw [if_neg (by simpa using k2), if_neg (by simpa using k3), if_pos h]
  have hne : ∀ t', asks c t' → ¬ ∀ t', ¬ asks c t' := fun t' h k => k t' h
  cases c with
  | none =>
    have hn : ∀ t', ¬ asks none t' := by rintro t' ⟨r, h, _⟩; cases h
    simp only [UmacBs.stealTs]
    rw [hfall hn]
    constructor
    · exact fun h => .inr ⟨hn, h⟩
    · rintro (⟨h, _⟩ | h)
      · exact absurd h (hn t)
      · exact h.2
  | some r =>
    have ha : ∀ t, asks (some r) t ↔ (t = 1 ∧ r.ts1 = true) ∨ (t = 2 ∧ r.ts2 = true) ∨ (t = 3 ∧ r.ts3 = true) ∨ (t = 4 ∧ r.ts4 = true) := by
      intro t
      constructor
      · rintro ⟨r', h, k⟩; cases h; exact k
      · exact fun k => ⟨r, rfl, k⟩
    obtain ⟨u, t1, t2, t3, t4, al, ud⟩ := r
    have first : ∀ k, asks (some ⟨u, t1, t2, t3, t4, al, ud⟩) k → (∀ t' < k, ¬ asks (some ⟨u, t1, t2, t3, t4, al, ud⟩) t') →
        (some k = some t ↔ (asks (some ⟨u, t1, t2, t3, t4, al, ud⟩) t ∧ ∀ t' < t, ¬ asks (some ⟨u, t1, t2, t3, t4, al, ud⟩) t') ∨
          ((∀ t', ¬ asks (some ⟨u, t1, t2, t3, t4, al, ud⟩) t') ∧ 2 ≤ t ∧ s.sending t ∧ ∀ t', 2 ≤ t' → t' < t → ¬ s.sending t')) := by
      intro k h1 h2
      constructor
      · intro e; cases e; exact .inl ⟨h1, h2⟩
      · rintro (⟨h3, h4⟩ | ⟨h3, _⟩)
        · rcases Nat.lt_trichotomy k t with l | l | l
          · exact absurd h1 (h4 k l)
          · rw [l]
          · exact absurd h3 (h2 t l)
        · exact absurd h1 (h3 k)
    simp only [UmacBs.stealTs]
    cases t1 with
    | true =>
      simp only [if_true]
      exact first 1 ((ha 1).2 (by simp)) (fun t' ht => by rw [ha]; simp; omega)
    | false =>
      cases t2 with
      | true =>
        simp only [Bool.false_eq_true, if_false, if_true]
        exact first 2 ((ha 2).2 (by simp)) (fun t' ht => by rw [ha]; simp; omega)
      | false =>
        cases t3 with
        | true =>
          simp only [Bool.false_eq_true, if_false, if_true]
          exact first 3 ((ha 3).2 (by simp)) (fun t' ht => by rw [ha]; simp; omega)
        | false =>
          cases t4 with
          | true =>
            simp only [Bool.false_eq_true, if_false, if_true]
            exact first 4 ((ha 4).2 (by simp)) (fun t' ht => by rw [ha]; simp; omega)
          | false =>
            have hn : ∀ t', ¬ asks (some ⟨u, false, false, false, false, al, ud⟩) t' := fun t' => by rw [ha]; simp
            simp only [Bool.false_eq_true, if_false]
            rw [hfall hn]
            constructor
            · exact fun h => .inr ⟨hn, h⟩
            · rintro (⟨h, _⟩ | h)
              · exact absurd h (hn t)
              · exact h.2

/-! ## Stolen half slots -/

/-- Bits of the header of a stolen half slot: 43, and six more for a usage marker. -/
def stolenHdr (usage : Option Nat) : Nat := if usage.isSome then 49 else 43

/-- Addresses and usage markers which have a place in the fields on the air. -/
def SaneTo (a : Addr) (usage : Option Nat) : Prop :=
  a.ssi < 2 ^ 24 ∧ a.encrypted = false ∧ (a.ssiType = .ssi ∨ a.ssiType = .issi ∨ a.ssiType = .gssi) ∧ ∀ u, usage = some u → u < 64

theorem stolen_in (ra : Bool) {a : Addr} {usage : Option Nat} (h : SaneTo a usage) (n : Nat) (fb : Bool) (h0 : 0 < n) (h1 : n < 64) :
    MacResource.InRange ⟨fb, 0, 0, ra, n, some a, none, usage, none, none, none⟩ := by
  obtain ⟨c1, c2, c3, c4⟩ := h
  refine ⟨by simp, by simp, h0, h1, ⟨c1, by simp [c2], by simp, c4, Or.inl rfl, ?_⟩, by simp, by simp, by simp⟩
  rcases c3 with k | k | k <;> simp [k]

theorem stolen_headerLen (ra : Bool) (a : Addr) (usage : Option Nat) (n : Nat) (fb : Bool) :
    MacResource.headerLen ⟨fb, 0, 0, ra, n, some a, none, usage, none, none, none⟩ = .ok (stolenHdr usage) := by
  cases usage <;> rfl

theorem stolen_shape (ra : Bool) {a : Addr} {usage : Option Nat} (h : SaneTo a usage) (sdu : List Bool) :
    ∃ hdr, MacResource.enc ⟨decide ((stolenHdr usage + sdu.length) % 8 ≠ 0), 0, 0, ra, (stolenHdr usage + sdu.length + 7) / 8 % 256, some a,
        none, usage, none, none, none⟩ = hdr ∧
      stolenBlock ra a usage sdu = (do
        let h ← hdr
        if h.length + sdu.length > 124 then .panic
        else .ok (h ++ sdu ++ List.replicate (124 - (h.length + sdu.length)) false)) := by
  refine ⟨_, rfl, ?_⟩
  unfold stolenBlock MacResource.updateLen
  simp only [stolen_headerLen, Out.bind_ok, Out.pure_eq, stchCap]
  have : ((8 - (stolenHdr usage + sdu.length) % 8) % 8 != 0) = decide ((stolenHdr usage + sdu.length) % 8 ≠ 0) := by
    by_cases k : (stolenHdr usage + sdu.length) % 8 = 0
    · rw [k]; rfl
    · have : (8 - (stolenHdr usage + sdu.length) % 8) % 8 ≠ 0 := by omega
      simp [k, this]
  rw [this]
  rfl

/-- Where the message in a stolen half slot ends, by the length in its header: a whole number of octets, or the end of the half slot. -/
def stolenEnd (usage : Option Nat) (sdu : List Bool) : Nat := min (8 * ((stolenHdr usage + sdu.length + 7) / 8)) 124

/-- The SDU as a station finds it in a half slot, when the length in the header counts `n` bits after it: the fill bits taken off if the
header says that there are some. -/
def unfilled (fill : Bool) (l : List Bool) : List Bool := if fill then l.take (l.length - fillCount l) else l

theorem stolen_round (ra : Bool) {a : Addr} {usage : Option Nat} (h : SaneTo a usage) {sdu b : List Bool}
    (hb : stolenBlock ra a usage sdu = .ok b) (s : UmacMs) (t : Time) (sc : Nat) :
    b.length = 124 ∧ stolenHdr usage + sdu.length ≤ 124 ∧
    (∃ hdr, hdr.length = stolenHdr usage ∧ b = hdr ++ sdu ++ List.replicate (124 - (stolenHdr usage + sdu.length)) false ∧
      ∀ rest, MacResource.dec.run (hdr ++ rest) = .ok (⟨decide ((stolenHdr usage + sdu.length) % 8 ≠ 0), 0, 0, ra,
        (stolenHdr usage + sdu.length + 7) / 8, some ⟨a.ssi, .ssi, false⟩, none, usage, none, none, none⟩, rest)) ∧
    s.round t sc b = .ok (s,
      (let got := unfilled (decide ((stolenHdr usage + sdu.length) % 8 ≠ 0))
        (sdu ++ List.replicate (stolenEnd usage sdu - (stolenHdr usage + sdu.length)) false)
       if got = [] then [] else [.sdu ⟨a.ssi, .ssi, false⟩ got sc]),
      some (List.replicate (124 - stolenEnd usage sdu) false)) := by
  obtain ⟨o, he, hsh⟩ := stolen_shape ra h sdu
  rw [hsh, Out.bind_eq_ok] at hb
  obtain ⟨hdr, ho, hb⟩ := hb
  rw [ho] at he
  split at hb
  · cases hb
  rename_i hfit
  cases hb
  have hpos : 43 ≤ stolenHdr usage ∧ stolenHdr usage ≤ 49 := by unfold stolenHdr; split <;> omega
  have hmod : (stolenHdr usage + sdu.length + 7) / 8 % 256 < 64 ∧ 0 < (stolenHdr usage + sdu.length + 7) / 8 % 256 ∧
      (stolenHdr usage + sdu.length + 7) / 8 % 256 = (stolenHdr usage + sdu.length + 7) / 8 := by omega
  generalize hT : stolenHdr usage + sdu.length = T at *
  rw [hmod.2.2] at he
  have hin := stolen_in ra h ((T + 7) / 8) (decide (T % 8 ≠ 0)) (by omega) (by omega)
  obtain ⟨bs, e1, hd⟩ := (c37_mac_resource _ hin).1
  have hl := (c37_mac_resource _ hin).2 _ e1
  rw [he] at e1; cases e1
  rw [stolen_headerLen] at hl
  simp only [Out.ok.injEq] at hl
  have hair : MacResource.onAir ⟨decide (T % 8 ≠ 0), 0, 0, ra, (T + 7) / 8, some a, none, usage, none, none, none⟩ =
      ⟨decide (T % 8 ≠ 0), 0, 0, ra, (T + 7) / 8, some ⟨a.ssi, .ssi, false⟩, none, usage, none, none, none⟩ := by
    obtain ⟨c1, c2, c3, c4⟩ := h
    rcases c3 with k | k | k <;> simp [MacResource.onAir, k, c2]
  rw [hair] at hd
  have hT' : hdr.length + sdu.length = T := by omega
  rw [hT'] at hfit ⊢
  have hlen : (hdr ++ sdu ++ List.replicate (124 - T) false).length = 124 := by
    simp only [List.length_append, List.length_replicate]; omega
  refine ⟨hlen, by omega, ⟨hdr, by omega, rfl, hd⟩, ?_⟩
  obtain ⟨q, hqs⟩ := macResource_enc_shape he
  have hrx : s.round t sc (hdr ++ sdu ++ List.replicate (124 - T) false) = s.rxResource t sc (hdr ++ sdu ++ List.replicate (124 - T) false) := by
    rw [hqs]; rfl
  have hrun := hd (sdu ++ List.replicate (124 - T) false)
  rw [← List.append_assoc] at hrun
  have hE : stolenEnd usage sdu = min ((T + 7) / 8 * 8) 124 := by unfold stolenEnd; rw [hT, Nat.mul_comm]
  generalize hEe : stolenEnd usage sdu = E at *
  have hres : resourceLen ((T + 7) / 8) 124 = .ok E := by
    unfold resourceLen; rw [if_pos (by omega), hE]
  have hrl : 124 - (sdu ++ List.replicate (124 - T) false).length = hdr.length := by
    simp only [List.length_append, List.length_replicate]; omega
  have hsplit : (List.replicate (124 - T) false : List Bool) = List.replicate (E - T) false ++ List.replicate (124 - E) false := by
    rw [List.replicate_append_replicate]; congr 1; omega
  have hcut : cutPdu (hdr ++ sdu ++ List.replicate (124 - T) false) hdr.length E (decide (T % 8 ≠ 0)) =
      .ok (unfilled (decide (T % 8 ≠ 0)) (sdu ++ List.replicate (E - T) false)) := by
    unfold cutPdu
    rw [if_neg (by rw [hlen]; omega)]
    have : ((hdr ++ sdu ++ List.replicate (124 - T) false).take E).drop hdr.length = sdu ++ List.replicate (E - T) false := by
      have e : hdr ++ sdu ++ List.replicate (124 - T) false = (hdr ++ (sdu ++ List.replicate (E - T) false)) ++ List.replicate (124 - E) false := by
        rw [hsplit]; simp [List.append_assoc]
      rw [e, List.take_left' (by simp only [List.length_append, List.length_replicate]; omega), List.drop_left]
    simp only [this, unfilled]
  have hdrop : (hdr ++ sdu ++ List.replicate (124 - T) false).drop E = List.replicate (124 - E) false := by
    have e : hdr ++ sdu ++ List.replicate (124 - T) false = (hdr ++ (sdu ++ List.replicate (E - T) false)) ++ List.replicate (124 - E) false := by
      rw [hsplit]; simp [List.append_assoc]
    rw [e, List.drop_left' (by simp only [List.length_append, List.length_replicate]; omega)]
  rw [hrx]
  simp only [UmacMs.rxResource, hrun, hlen, hres, Out.bind_ok, hrl, hcut, hdrop]
  rw [if_neg (by omega), if_neg (by omega), if_neg (by omega)]

/-- **C90, stolen half slots.** A request which steals a half slot puts one block of exactly 124 bits into the timeslot found, for the
request it belongs to. Its header reads as the address and the usage marker of the request; the random access flag is set exactly if the
address is an individual one or a random access of the address waits for an answer there. The SDU follows the header unchanged. -/
theorem c90_stolen (s s' : UmacBs) (q : TmaReq) (ts : Nat) (hq : SaneTo q.addr (q.chan.bind (·.usage))) (hs : q.steal = true)
    (ht : s.stealTs q.chan = some ts) (h : s.request q = .ok s') :
    ∃ hdr pad ra r' ra', s'.log = s.log ++ [(.takeRa ts q.addr.ssi, .bool ra'), (.steal ts q.id q.reported (hdr ++ q.sdu ++ pad), r')] ∧
      (hdr ++ q.sdu ++ pad).length = 124 ∧ hdr.length = stolenHdr (q.chan.bind (·.usage)) ∧
      (ra = true ↔ ra' = true ∨ q.addr.ssiType = .issi) ∧
      ∀ rest, MacResource.dec.run (hdr ++ rest) = .ok (⟨decide ((hdr ++ q.sdu).length % 8 ≠ 0), 0, 0, ra,
        ((hdr ++ q.sdu).length + 7) / 8, some ⟨q.addr.ssi, .ssi, false⟩, none, q.chan.bind (·.usage), none, none, none⟩, rest) := by
  unfold UmacBs.request at h
  rw [if_pos hs, ht] at h
  rw [Out.bind_eq_ok] at h; obtain ⟨r, h1, h⟩ := h
  rw [Out.bind_eq_ok] at h; obtain ⟨b, hb, h⟩ := h
  rw [Out.bind_eq_ok] at h; obtain ⟨r', h2, h⟩ := h
  cases h
  unfold UmacBs.call at h1 h2
  rw [Out.bind_eq_ok] at h1; obtain ⟨k, hk, h1⟩ := h1
  cases h1
  rw [Out.bind_eq_ok] at h2; obtain ⟨k', _, h2⟩ := h2
  cases h2
  obtain ⟨l, _, ⟨hdr, hl, e, hd⟩, _⟩ := stolen_round _ hq hb .init ⟨1, 1, 1, 0⟩ 0
  subst e
  simp only [Sched.step] at hk
  rw [Out.bind_eq_ok] at hk; obtain ⟨i, _, hk⟩ := hk
  cases hk
  refine ⟨hdr, _, SchedRet.bool i.2 == .bool true || q.addr.ssiType == .issi, k'.2, i.2, List.append_assoc .., l, hl, by simp, ?_⟩
  intro rest
  rw [List.length_append, hl]; exact hd rest

/-- **C90, what fits.** A message for a stolen half slot is either put into it or, if header and message have more than 124 bits, aborts
the base station. -/
theorem c90_stolen_fits (ra : Bool) (a : Addr) (usage : Option Nat) (sdu : List Bool) (h : SaneTo a usage) :
    (stolenHdr usage + sdu.length ≤ 124 → ∃ b, stolenBlock ra a usage sdu = .ok b) ∧
    (124 < stolenHdr usage + sdu.length → stolenHdr usage + sdu.length ≤ 504 → stolenBlock ra a usage sdu = .panic) := by
  obtain ⟨o, he, hsh⟩ := stolen_shape ra h sdu
  have hpos : 43 ≤ stolenHdr usage := by unfold stolenHdr; split <;> omega
  have key : stolenHdr usage + sdu.length ≤ 504 → ∃ hdr, o = .ok hdr ∧ hdr.length = stolenHdr usage := by
    intro hT
    have hin := stolen_in ra h ((stolenHdr usage + sdu.length + 7) / 8 % 256) (decide ((stolenHdr usage + sdu.length) % 8 ≠ 0)) (by omega) (by omega)
    obtain ⟨hdr, e1, _⟩ := (c37_mac_resource _ hin).1
    have hhl := (c37_mac_resource _ hin).2 _ e1
    rw [stolen_headerLen] at hhl
    simp only [Out.ok.injEq] at hhl
    exact ⟨hdr, by rw [← he]; exact e1, hhl.symm⟩
  constructor
  · intro hT
    obtain ⟨hdr, rfl, hl⟩ := key (by omega)
    rw [Out.bind_ok, if_neg (by omega)] at hsh
    exact ⟨_, hsh⟩
  · intro h1 h2
    obtain ⟨hdr, rfl, hl⟩ := key h2
    rw [Out.bind_ok, if_pos (by omega)] at hsh
    exact hsh

/-- **C90, reading a stolen half slot.** When header and SDU make a whole number of octets, a station reads exactly the SDU, for the
address of the request. -/
theorem c90_stolen_read (ra : Bool) (a : Addr) (usage : Option Nat) (sdu b : List Bool) (h : SaneTo a usage)
    (hb : stolenBlock ra a usage sdu = .ok b) (h8 : (stolenHdr usage + sdu.length) % 8 = 0) (hne : sdu ≠ []) (s : UmacMs) (t : Time) (sc : Nat) :
    ∃ rest, s.round t sc b = .ok (s, [.sdu ⟨a.ssi, .ssi, false⟩ sdu sc], some rest) := by
  obtain ⟨_, hf, _, hr⟩ := stolen_round ra h hb s t sc
  have hE : stolenEnd usage sdu = stolenHdr usage + sdu.length := by unfold stolenEnd; omega
  refine ⟨List.replicate (124 - stolenEnd usage sdu) false, hr.trans ?_⟩
  simp [h8, hE, unfilled, hne]

/-- **C90, violated: the end of a stolen message is cut off.** When header and SDU do not make a whole number of octets, the header
announces fill bits, but zeros are sent in their place, without the one that begins them. A station takes the last one of the SDU for that
beginning: the SDU which it reads ends before it, and is never the one sent. -/
theorem c90_stolen_cut (ra : Bool) (a : Addr) (usage : Option Nat) (pre b : List Bool) (n : Nat) (h : SaneTo a usage)
    (hb : stolenBlock ra a usage (pre ++ true :: List.replicate n false) = .ok b)
    (h8 : (stolenHdr usage + (pre ++ true :: List.replicate n false).length) % 8 ≠ 0) (s : UmacMs) (t : Time) (sc : Nat) :
    ∃ rest, s.round t sc b = .ok (s, if pre = [] then [] else [.sdu ⟨a.ssi, .ssi, false⟩ pre sc], some rest) := by
  obtain ⟨_, hf, _, hr⟩ := stolen_round ra h hb s t sc
  refine ⟨List.replicate (124 - stolenEnd usage (pre ++ true :: List.replicate n false)) false, hr.trans ?_⟩
  generalize stolenEnd usage (pre ++ true :: List.replicate n false) - (stolenHdr usage + (pre ++ true :: List.replicate n false).length) = k
  have e : pre ++ true :: List.replicate n false ++ List.replicate k false = pre ++ fillPattern (n + k + 1) := by
    rw [List.append_assoc, List.cons_append, List.replicate_append_replicate]; rfl
  have : unfilled (decide ((stolenHdr usage + (pre ++ true :: List.replicate n false).length) % 8 ≠ 0))
      (pre ++ true :: List.replicate n false ++ List.replicate k false) = pre := by
    rw [e]
    unfold unfilled
    rw [if_pos (decide_eq_true h8), fillCount_append _ _ (by omega), List.length_append, length_fillPattern, Nat.add_sub_cancel,
      List.take_left]
  simp only [this]

/-- So an SDU with a one in it, as every LLC PDU of this code has, is read as sent exactly when header and SDU make a whole number of
octets. -/
theorem c90_stolen_iff (ra : Bool) (a : Addr) (usage : Option Nat) (sdu b : List Bool) (h : SaneTo a usage)
    (hb : stolenBlock ra a usage sdu = .ok b) (h1 : true ∈ sdu) (s : UmacMs) (t : Time) (sc : Nat) :
    (∃ rest, s.round t sc b = .ok (s, [.sdu ⟨a.ssi, .ssi, false⟩ sdu sc], some rest)) ↔ (stolenHdr usage + sdu.length) % 8 = 0 := by
  constructor
  · rintro ⟨rest, hr⟩
    apply Classical.byContradiction
    intro h8
    rcases fillCount_cases sdu with ⟨n, e, _⟩ | ⟨pre, n, e, _⟩
    · rw [e] at h1; simp at h1
    · subst e
      obtain ⟨rest', hr'⟩ := c90_stolen_cut ra a usage pre b n h hb h8 s t sc
      rw [hr'] at hr
      have hc : (if pre = [] then [] else [MsOut.sdu ⟨a.ssi, .ssi, false⟩ pre sc]) =
          [MsOut.sdu ⟨a.ssi, .ssi, false⟩ (pre ++ true :: List.replicate n false) sc] := by
        simp only [Out.ok.injEq, Prod.mk.injEq] at hr; exact hr.2.1
      split at hc
      · cases hc
      · simp only [List.cons.injEq, MsOut.sdu.injEq] at hc
        have := congrArg List.length hc.1.2.1
        simp at this
  · intro h8
    exact c90_stolen_read ra a usage sdu b h hb h8 (by rintro rfl; simp at h1) s t sc

/-- Zeros are not a PDU: the upper MAC of a mobile station aborts on them. -/
theorem round_zeros (s : UmacMs) (t : Time) (sc n : Nat) : s.round t sc (List.replicate (n + 16) false) = .panic := by
  have e : (List.replicate (n + 16) false : List Bool) = List.replicate 16 false ++ List.replicate n false := by
    rw [List.replicate_append_replicate, Nat.add_comm]
  have hd : MacResource.dec.run (List.replicate 16 false ++ List.replicate n false) =
      .ok (⟨false, 0, 0, false, 0, none, none, none, none, none, none⟩, List.replicate n false) := by
    rfl
  rw [e]
  have hx : s.round t sc (List.replicate 16 false ++ List.replicate n false) = s.rxResource t sc (List.replicate 16 false ++ List.replicate n false) :=
    rfl
  rw [hx]
  simp only [UmacMs.rxResource, hd]
  rfl

/-- **C90, violated: stolen half slots abort the mobile station of this code.** A message which leaves sixteen bits or more of the half
slot free, counted in octets, is followed by zeros; the upper MAC of the mobile station reads on, finds a length of zero, and aborts.
With fewer bits free it reads the half slot without aborting. -/
theorem c90_stolen_aborts (ra : Bool) (a : Addr) (usage : Option Nat) (sdu b : List Bool) (h : SaneTo a usage)
    (hb : stolenBlock ra a usage sdu = .ok b) (s : UmacMs) (t : Time) (sc : Nat) :
    s.rxSch t sc b = .panic ↔ stolenHdr usage + sdu.length ≤ 104 := by
  obtain ⟨hl, hf, _, hr⟩ := stolen_round ra h hb s t sc
  have hpos : 43 ≤ stolenHdr usage ∧ stolenHdr usage ≤ 49 := by unfold stolenHdr; split <;> omega
  have hE : stolenEnd usage sdu = min (8 * ((stolenHdr usage + sdu.length + 7) / 8)) 124 := rfl
  unfold UmacMs.rxSch
  rw [hl, UmacMs.loop, hr, Out.bind_ok]
  simp only [List.length_replicate, hl]
  by_cases k : stolenHdr usage + sdu.length ≤ 104
  · rw [if_pos (by omega), UmacMs.loop]
    obtain ⟨m, hm⟩ : ∃ m, 124 - stolenEnd usage sdu = m + 16 := ⟨124 - stolenEnd usage sdu - 16, by omega⟩
    rw [hm, round_zeros]
    exact ⟨fun _ => k, fun _ => rfl⟩
  · rw [if_neg (by omega)]
    exact ⟨fun h => (by cases h), fun h => absurd h k⟩

/-! ## The messages which steal: end of a transmission, permission to transmit -/

open Verif.Cmce Verif.Cmce.Pdu Verif.TypedFields

/-- A message of call control as it reaches the upper MAC: unacknowledged data of the LLC (llc_bs_ms.rs:196-232), the discriminator of
call control (mle_bs.rs), and the message. -/
def fromCalls (bits : List Bool) : List Bool := [false, false, true, false] ++ toBits 3 2 ++ bits

theorem txCeased_enc (id : Nat) (hid : id < 2 ^ 14) : (dTxCeasedPdu id).enc = .ok (toBits 5 9 ++ toBits 14 id ++ [false, false]) := by
  have : wOptional (DTxCeased.fields2 ++ DTxCeased.fields34) (none, none, none, none, ()) = .ok [false] := by decide
  show cat [wBits 9 5, wBits id 14, wFlag false, wOptional (DTxCeased.fields2 ++ DTxCeased.fields34) (none, none, none, none, ())] = _
  rw [this, wBits_ok (by decide : 5 ≤ 64) (by decide : 9 < 2 ^ 5), wBits_ok (by decide : 14 ≤ 64) hid]
  simp

theorem txCeased_short {l : List Bool} (hl : l.length < 19) : ∀ x r, DTxCeased.dec.run l ≠ .ok (x, r) := by
  intro x r h
  simp only [DTxCeased.dec, expectType, Rd.run_bind, Out.bind_eq_ok] at h
  obtain ⟨_, ⟨⟨v, l1⟩, h1, h2⟩, ⟨w, l2⟩, h3, _⟩ := h
  simp only [Rd.bits] at h1
  split at h1
  · cases h1
    simp only [Rd.run_ite] at h2
    split at h2
    · cases h2
      simp only [Rd.bits] at h3
      split at h3
      · rename_i k _ k'
        simp at k'
        omega
      · cases h3
    · cases h2
  · cases h1

/-- **C90, violated: the end of a transmission never reaches the stations.** For every call, every station or group and every state of
the mobile station, what it reads of the half slot which carries D-TX CEASED is a message too short to be D-TX CEASED. -/
theorem c90_tx_ceased_lost (ra : Bool) (a : Addr) (h : SaneTo a none) (id : Nat) (hid : id < 2 ^ 14) (bits b : List Bool)
    (he : (dTxCeasedPdu id).enc = .ok bits) (hb : stolenBlock ra a none (fromCalls bits) = .ok b) (s : UmacMs) (t : Time) (sc : Nat) :
    ∃ got rest, s.round t sc b = .ok (s, [.sdu ⟨a.ssi, .ssi, false⟩ got sc], some rest) ∧ got <+: fromCalls bits ∧
      ∀ m, got = fromCalls m → ∀ x r, DTxCeased.dec.run m ≠ .ok (x, r) := by
  rw [txCeased_enc id hid] at he
  cases he
  have hlen : (fromCalls (toBits 5 9 ++ toBits 14 id ++ [false, false])).length = 28 := by
    simp [fromCalls]
  rcases fillCount_cases (fromCalls (toBits 5 9 ++ toBits 14 id ++ [false, false])) with ⟨n, e, _⟩ | ⟨pre, n, e, _⟩
  · have : true ∈ (List.replicate n false : List Bool) := by rw [← e]; simp [fromCalls]
    simp at this
  · have hn : 2 ≤ n := by
      have e' : (fromCalls (toBits 5 9 ++ toBits 14 id) ++ [false]) ++ [false] = pre ++ true :: List.replicate n false := by
        rw [← e]; simp [fromCalls]
      rcases n with _ | _ | n
      · have := congrArg List.getLast? e'
        simp at this
      · have e2 : pre ++ true :: List.replicate 1 false = (pre ++ [true]) ++ [false] := by simp
        rw [e2] at e'
        have := congrArg List.getLast? (List.append_inj_left' e' rfl)
        simp at this
      · omega
    have hl := congrArg List.length e
    simp only [hlen, List.length_append, List.length_cons, List.length_replicate] at hl
    have hpre : pre ≠ [] := by
      rintro rfl
      have : (fromCalls (toBits 5 9 ++ toBits 14 id ++ [false, false])).head? = some false := rfl
      rw [e] at this
      simp at this
    have h8 : (stolenHdr none + (pre ++ true :: List.replicate n false).length) % 8 ≠ 0 := by
      rw [← e, hlen]; decide
    rw [e] at hb
    obtain ⟨rest, hr⟩ := c90_stolen_cut ra a none pre b n h hb h8 s t sc
    rw [if_neg hpre] at hr
    refine ⟨pre, rest, hr, by rw [e]; exact List.prefix_append .., ?_⟩
    intro m hm
    apply txCeased_short
    have := congrArg List.length hm
    simp [fromCalls] at this
    omega

theorem txGranted_enc (id speaker : Nat) (g : TxGrant) (hid : id < 2 ^ 14) (hs : speaker < 2 ^ 24) :
    ∃ bits, (dTxGrantedPdu id g speaker).enc = .ok bits ∧ bits.length = 54 := by
  have : wOptional (DTxGranted.fields2 ++ DTxGranted.fields34) (none, some ⟨1, some speaker, none⟩, none, none, none, none, ()) =
      .ok (true :: false :: true :: (toBits 2 1 ++ toBits 24 speaker ++ [false])) := by
    show cat [wFlag true, writeAll true (DTxGranted.fields2 ++ DTxGranted.fields34) (none, some ⟨1, some speaker, none⟩, none, none, none, none, ()),
      wEnd true] = _
    have e : writeAll true (DTxGranted.fields2 ++ DTxGranted.fields34) (none, some ⟨1, some speaker, none⟩, none, none, none, none, ()) =
        .ok (false :: true :: (toBits 2 1 ++ toBits 24 speaker)) := by
      show (do
        let a ← wType2 true (wBits · 6) none
        let b ← (do
          let a ← wType2 true Calling.enc (some ⟨1, some speaker, none⟩)
          let b ← writeAll true DTxGranted.fields34 (none, none, none, none, ())
          pure (a ++ b))
        pure (a ++ b)) = _
      have e1 : writeAll true DTxGranted.fields34 (none, none, none, none, ()) = .ok [] := by decide
      rw [e1]
      simp [wType2, Calling.enc, wOpt, wBits_ok, hs]
    rw [e]
    simp [wEnd]
  have hg : g.raw < 2 ^ 2 := by cases g <;> decide
  refine ⟨toBits 5 11 ++ (toBits 14 id ++ (toBits 2 g.raw ++ (false :: false :: false :: true :: false :: true :: (toBits 2 1 ++ toBits 24 speaker ++ [false])))),
    ?_, by simp⟩
  show cat [wBits 11 5, wBits id 14, wBits g.raw 2, wFlag false, wFlag false, wFlag false, wOptional (DTxGranted.fields2 ++ DTxGranted.fields34)
    (none, some ⟨1, some speaker, none⟩, none, none, none, none, ())] = _
  rw [this, wBits_ok (by decide : 5 ≤ 64) (by decide : 11 < 2 ^ 5), wBits_ok (by decide : 14 ≤ 64) hid, wBits_ok (by decide : 2 ≤ 64) hg]
  simp

/-- **C90, permission to transmit.** D-TX GRANTED, for every call, every station given permission and every kind of permission, goes out
in one half slot, and the mobile station reads it as it was written — and then aborts on the zeros behind it. -/
theorem c90_tx_granted (ra : Bool) (a : Addr) (h : SaneTo a none) (id speaker : Nat) (g : TxGrant) (hid : id < 2 ^ 14) (hs : speaker < 2 ^ 24) :
    ∃ bits b, (dTxGrantedPdu id g speaker).enc = .ok bits ∧ stolenBlock ra a none (fromCalls bits) = .ok b ∧
      ∀ (s : UmacMs) t sc, (∃ rest, s.round t sc b = .ok (s, [.sdu ⟨a.ssi, .ssi, false⟩ (fromCalls bits) sc], some rest)) ∧
        s.rxSch t sc b = .panic := by
  obtain ⟨bits, e, hl⟩ := txGranted_enc id speaker g hid hs
  have hlen : (fromCalls bits).length = 61 := by simp [fromCalls, hl]
  have hT : stolenHdr none + (fromCalls bits).length = 104 := by rw [hlen]; rfl
  obtain ⟨b, hb⟩ := (c90_stolen_fits ra a none (fromCalls bits) h).1 (by omega)
  refine ⟨bits, b, e, hb, fun s t sc => ⟨c90_stolen_read ra a none _ _ h hb (by rw [hT]) ?_ s t sc, ?_⟩⟩
  · intro hn; rw [hn] at hlen; cases hlen
  · exact (c90_stolen_aborts ra a none _ _ h hb s t sc).2 (by rw [hT]; decide)

/-- **C90, acknowledgements.** An acknowledgement of the LLC to a station in a call goes out in a stolen half slot and is read as it was
written; the mobile station then aborts, too. -/
theorem c90_ack (ra : Bool) (a : Addr) (h : SaneTo a none) (nr : Bool) :
    ∃ bits b, Llc.BlAck.enc ⟨false, nr⟩ = .ok bits ∧ stolenBlock ra a none bits = .ok b ∧
      ∀ (s : UmacMs) t sc, (∃ rest, s.round t sc b = .ok (s, [.sdu ⟨a.ssi, .ssi, false⟩ bits sc], some rest)) ∧ s.rxSch t sc b = .panic := by
  obtain ⟨bits, e, hl⟩ : ∃ bits, Llc.BlAck.enc ⟨false, nr⟩ = .ok bits ∧ bits.length = 5 := ⟨_, Llc.BlAck.enc_eq _, rfl⟩
  have hT : stolenHdr none + bits.length = 48 := by rw [hl]; rfl
  obtain ⟨b, hb⟩ := (c90_stolen_fits ra a none bits h).1 (by omega)
  refine ⟨bits, b, e, hb, fun s t sc => ⟨c90_stolen_read ra a none _ _ h hb (by rw [hT]) ?_ s t sc, ?_⟩⟩
  · intro hn; rw [hn] at hl; cases hl
  · exact (c90_stolen_aborts ra a none _ _ h hb s t sc).2 (by rw [hT]; decide)

/-! ## Concrete cases -/

example : SaneTo ⟨1000, .gssi, false⟩ none ∧ SaneTo ⟨1000, .issi, false⟩ (some 5) :=
  ⟨⟨by decide, rfl, .inr (.inr rfl), by simp⟩, ⟨by decide, rfl, .inr (.inl rfl), by simp⟩⟩

/-- D-TX CEASED for call 5 fits, and is read as the five bits of its type and the first thirteen bits of the call, without the last. -/
example : (match (dTxCeasedPdu 5).enc with
    | .ok bits => match stolenBlock false ⟨1000, .gssi, false⟩ none (fromCalls bits) with
      | .ok b => match UmacMs.init.round ⟨1, 1, 1, 1⟩ 0 b with
        | .ok (_, [.sdu a got _], _) => decide (a = ⟨1000, .ssi, false⟩ ∧ got = fromCalls (toBits 5 9 ++ toBits 13 2))
        | _ => false
      | _ => false
    | _ => false) = true := by decide +kernel

/-- A request to a group, with a channel in timeslot 2: it is accepted. -/
def sampleReq (steal : Bool) : TmaReq :=
  ⟨⟨1, 1, 1, 1⟩, 7, true, ⟨1000, .gssi, false⟩, steal, some ⟨some 5, false, true, false, false, 0, 3⟩, fromCalls (toBits 5 7)⟩

example : (sampleReq false).Sane 1528 :=
  ⟨by decide, rfl, .inr (.inr rfl), by rintro c u h1 h2; cases h1; cases h2; decide, by rintro c h; cases h; decide, by decide⟩

example (pre : Precomps) : ∃ s', (UmacBs.init false 1528 ⟨1, 1, 1, 0⟩ 0 false pre).request (sampleReq false) = .ok s' := ⟨_, rfl⟩

example (pre : Precomps) : (UmacBs.init false 1528 ⟨1, 1, 1, 0⟩ 0 false pre).stealTs (sampleReq true).chan = some 2 ∧
    ∃ s', (UmacBs.init false 1528 ⟨1, 1, 1, 0⟩ 0 false pre).request (sampleReq true) = .ok s' := by
  refine ⟨rfl, ?_⟩
  have e : ∃ b, stolenBlock false ⟨1000, .gssi, false⟩ (some 5) (fromCalls (toBits 5 7)) = .ok b := ⟨_, by rfl⟩
  obtain ⟨b, e⟩ := e
  have hr : (UmacBs.init false 1528 ⟨1, 1, 1, 0⟩ 0 false pre).request (sampleReq true) = (do
    let r ← (UmacBs.init false 1528 ⟨1, 1, 1, 0⟩ 0 false pre).call (.takeRa 2 1000)
    let b ← stolenBlock (r.2 == .bool true || SsiType.gssi == .issi) ⟨1000, .gssi, false⟩ (some 5) (fromCalls (toBits 5 7))
    let r ← r.1.call (.steal 2 7 true b)
    .ok r.1) := rfl
  have hc : (UmacBs.init false 1528 ⟨1, 1, 1, 0⟩ 0 false pre).call (.takeRa 2 1000) = .ok (_, .bool false) := rfl
  rw [hr, hc, Out.bind_ok]
  have hf : ((SchedRet.bool false == .bool true) || SsiType.gssi == .issi) = false := by decide
  simp only [hf, e, Out.bind_ok]
  exact ⟨_, rfl⟩

end Verif.Umac
