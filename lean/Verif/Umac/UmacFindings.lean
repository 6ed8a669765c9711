import Verif.Umac.UmacBlockProps
import Verif.Umac.SchedFindings
/-!
# C36, C48–C50: concrete histories of the upper MAC
-/
namespace Verif.Umac
open Verif.Tdma Verif.Codec Verif.Bits

/-- A history of events, with what was sent in each. -/
def UmacBs.run (s : UmacBs) : List UmacEv → Out (UmacBs × List (UmacEv × List UmacOut))
  | [] => .ok (s, [])
  | e :: es => do
    let r ← s.step e
    let q ← r.1.run es
    .ok (q.1, (e, r.2) :: q.2)

theorem run_umacRun {s0 : UmacBs} (es : List UmacEv) {s : UmacBs} {h : List (UmacEv × List UmacOut)} (hr : UmacRun s0 h s)
    {q : UmacBs × List (UmacEv × List UmacOut)} (hq : s.run es = .ok q) : UmacRun s0 (h ++ q.2) q.1 := by
  induction es generalizing s h q with
  | nil => cases hq; simpa using hr
  | cons e es ih =>
    simp only [UmacBs.run] at hq
    rw [Out.bind_eq_ok] at hq; obtain ⟨r, h1, hq⟩ := hq
    rw [Out.bind_eq_ok] at hq; obtain ⟨t, h2, hq⟩ := hq
    cases hq
    have := ih (UmacRun.step (out := r.2) hr h1) h2
    simpa using this

/-- The upper MAC of the sample cell. -/
def sampleMac : UmacBs := .init true 1521 sampleTime 864282631 true (Precomps.generate sampleCfg)

/-- A check on the state and outputs after a history. -/
def ucheck (es : List UmacEv) (p : List (UmacEv × List UmacOut) → UmacBs → Bool) : Bool :=
  match sampleMac.run es with
  | .ok q => p q.2 q.1
  | _ => false

theorem ucheck_run (es : List UmacEv) {p : List (UmacEv × List UmacOut) → UmacBs → Bool} (h : ucheck es p = true) :
    ∃ hist s, UmacRun sampleMac hist s ∧ hist.map Prod.fst = es ∧ p hist s = true := by
  unfold ucheck at h
  cases hq : sampleMac.run es with
  | ok q =>
    rw [hq] at h
    refine ⟨q.2, q.1, by simpa using run_umacRun es (UmacRun.init (s0 := sampleMac)) hq, ?_, h⟩
    clear h
    generalize sampleMac = s at hq
    induction es generalizing s q with
    | nil => cases hq; rfl
    | cons e es ih =>
      simp only [UmacBs.run] at hq
      rw [Out.bind_eq_ok] at hq; obtain ⟨r, h1, hq⟩ := hq
      rw [Out.bind_eq_ok] at hq; obtain ⟨t, h2, hq⟩ := hq
      cases hq
      simp [ih t _ h2]
  | err => rw [hq] at h; cases h
  | panic => rw [hq] at h; cases h

/-- The next event aborts. -/
def stops (s : UmacBs) (e : UmacEv) : Bool := match s.step e with | .panic => true | _ => false

theorem stops_eq {s : UmacBs} {e : UmacEv} (h : stops s e = true) : s.step e = .panic := by
  unfold stops at h
  cases hs : s.step e <;> rw [hs] at h <;> first | rfl | cases h

/-- The bits of a header followed by a body, filled with zeros to the size of the block. -/
def blockOf (n : Nat) (h : Out (List Bool)) (body : List Bool) : List Bool :=
  match h with
  | .ok b => b ++ body ++ List.replicate (n - (b.length + body.length)) false
  | _ => []

/-- A mobile station. -/
def ms1 : Addr := ⟨1001, .ssi, false⟩

/-- Ticks of the upper MAC. -/
def uticks (n : Nat) : List UmacEv := List.replicate n (.tick true)

/-- SCH/HU (92 bits): a MAC-ACCESS which starts a fragmented message and asks for `code`. -/
def accessFrag (code : Nat) : List Bool :=
  blockOf 92 (MacAccess.enc ⟨false, false, some ms1, none, none, some true, some code⟩) (List.replicate 56 true)

/-- SCH/HU: a complete message of seven octets with header. -/
def accessWhole (a : Addr) : List Bool :=
  blockOf 92 (MacAccess.enc ⟨false, a.encrypted, some a, none, some 7, none, none⟩) (List.replicate 20 true)

/-- SCH/F (268 bits): a MAC-FRAG. -/
def fragUl : List Bool := blockOf 268 (MacFrag.enc ⟨false⟩) (List.replicate 264 true)

/-! ## C36 -/

/-- The hypotheses of `c36_block_partial` are met, in a state with a reassembly under way. -/
example : ∃ hist s, UmacRun sampleMac hist s ∧ hist.map Prod.fst = uticks 2 ++ [.block ⟨.schHu, .block1, ⟨1, 1, 1, 0⟩⟩ (accessFrag 2)] ∧
    (decide (s.frags.length = 1 ∧ (s.log.filter fun e => match e.2 with | .grant (some _) => true | _ => false).length = 1)) = true :=
  ucheck_run _ (by decide +kernel)
example : (accessFrag 2).length = 92 ∧ ∀ p ∈ pdusOf .schHu (accessFrag 2), ¬ p.Bad := by
  refine ⟨by decide +kernel, ?_⟩
  have : pdusOf .schHu (accessFrag 2) = [.access ⟨false, false, some ms1, none, none, some true, some 2⟩] := by decide +kernel
  rw [this]
  simp [UlPdu.Bad]

/-- A MAC-U-BLCK, which the standard lets any station send, aborts the base station. -/
theorem c36_u_blck_aborts (s : UmacBs) (c : UlCtx) (hc : c.Proper) (hf : c.chan = .schF) (bits : List Bool) (hl : 19 ≤ bits.length)
    (h0 : bits[0]? = some true) (h1 : bits[1]? = some true) (h2 : bits[2]? = some false) : s.step (.block c bits) = .panic := by
  obtain ⟨r, rfl⟩ : ∃ r, bits = true :: true :: false :: r := by
    match bits, h0, h1, h2 with
    | b0 :: b1 :: b2 :: r, h0, h1, h2 => simp at h0 h1 h2; exact ⟨r, by rw [h0, h1, h2]⟩
  have hd : ∃ q, MacUBlck.dec.run (true :: true :: false :: r) = .ok q := by
    unfold MacUBlck.dec
    rw [Rd.run_bind, bits_two, Out.bind_ok]
    simp only [Bool.toNat_true, Nat.mul_one, Nat.reduceAdd, ne_eq, not_true_eq_false, if_false]
    rw [Rd.run_bind, Rd.run_bits_one, Out.bind_ok]
    simp only [Bool.toNat_false, ne_eq, not_true_eq_false, if_false]
    match r, hl with
    | f :: e :: r, hl =>
      simp only [List.length_cons] at hl
      simp [Rd.bits, show 10 ≤ r.length by omega, show 4 ≤ r.length - 10 by omega]
  obtain ⟨q, hd⟩ := hd
  refine c36_block_aborts s c hc.1 _ ?_ ?_
  · rw [hf]; simp [ulPdu, hd, headed, UlPdu.Bad]
  · intro p; rw [hf]; simp [ulPdu, hd, headed]

/-- A MAC-DATA of one octet, a MAC-ACCESS of one octet, a request for more than 68 slots: blocks of the size on the air
which abort the base station. -/
theorem c36_short_pdus_abort (s : UmacBs) (x : Time) (hx : x.valid) :
    s.step (.block ⟨.schF, .both, x⟩ (blockOf 268 (MacData.enc ⟨false, false, some ms1, none, some 1, none, none⟩) [])) = .panic ∧
    s.step (.block ⟨.schHu, .block1, x⟩ (blockOf 92 (MacAccess.enc ⟨false, false, some ms1, none, some 1, none, none⟩) [])) = .panic ∧
    s.step (.block ⟨.schHu, .block1, x⟩ (accessFrag 15)) = .panic := by
  refine ⟨?_, ?_, ?_⟩
  · have : ulPdu .schF (blockOf 268 (MacData.enc ⟨false, false, some ms1, none, some 1, none, none⟩) []) =
        .data ⟨false, false, some ms1, none, some 1, none, none⟩ := by decide +kernel
    refine c36_block_aborts s _ hx _ ?_ ?_
    · rw [this]; exact ⟨rfl, Or.inl ⟨1, rfl, by omega⟩⟩
    · intro p; rw [this]; simp
  · have : ulPdu .schHu (blockOf 92 (MacAccess.enc ⟨false, false, some ms1, none, some 1, none, none⟩) []) =
        .access ⟨false, false, some ms1, none, some 1, none, none⟩ := by decide +kernel
    refine c36_block_aborts s _ hx _ ?_ ?_
    · rw [this]; exact ⟨rfl, Or.inl rfl⟩
    · intro p; rw [this]; simp
  · have : ulPdu .schHu (accessFrag 15) = .access ⟨false, false, some ms1, none, none, some true, some 15⟩ := by decide +kernel
    refine c36_block_aborts s _ hx _ ?_ ?_
    · rw [this]; exact ⟨rfl, Or.inr (Or.inr (Or.inr (Or.inr ⟨rfl, rfl⟩)))⟩
    · intro p; rw [this]; simp

/-- An encrypted MAC-ACCESS is dropped, but an acknowledgement is queued for it which cannot be put on the air: the base station
aborts when the next slot is built. -/
theorem c36_secret_access_aborts_later : ∃ hist s, UmacRun sampleMac hist s ∧
    hist.map Prod.fst = uticks 2 ++ [.block ⟨.schHu, .block1, ⟨1, 1, 1, 0⟩⟩ (accessWhole ⟨1001, .ssi, true⟩)] ∧
    s.step (.tick true) = .panic := by
  obtain ⟨hist, s, h1, h2, h3⟩ := ucheck_run (uticks 2 ++ [.block ⟨.schHu, .block1, ⟨1, 1, 1, 0⟩⟩ (accessWhole ⟨1001, .ssi, true⟩)])
    (p := fun _ s => stops s (.tick true)) (by decide +kernel)
  exact ⟨hist, s, h1, h2, stops_eq h3⟩

/-- SCH/HU: MAC-END-HU which asks for `code`. -/
def endHu (code : Nat) : List Bool := blockOf 92 (MacEndHu.enc ⟨false, none, some code⟩) (List.replicate 80 true)

/-- A station starts a message, is granted seventeen slots, sends sixteen full fragments, which is more than is kept, and ends the
message, asking for a slot. -/
def tooLong : List UmacEv :=
  uticks 2 ++ [.block ⟨.schHu, .block1, ⟨1, 1, 1, 0⟩⟩ (accessFrag 10)] ++
    (List.range 16).flatMap (fun k => uticks 4 ++ [.block ⟨.schF, .both, ⟨1, k + 2, 1, 0⟩⟩ fragUl]) ++ uticks 4

/-- The end of the message. -/
def tooLongEnd : UmacEv := .block ⟨.schHu, .block1, ⟨1, 18, 1, 0⟩⟩ (endHu 1)

/-- The reassembly has been emptied by then: an empty message from address 0 is delivered, the slot is granted to no address, and the
base station aborts when the grant is due. -/
theorem c36_too_long_aborts_later : ∃ hist s, UmacRun sampleMac (hist ++ [(tooLongEnd, [.sdu ⟨1, 18, 1, 0⟩ ⟨0, .unknown, false⟩ []])]) s ∧
    hist.map Prod.fst = tooLong ∧ s.step (.tick true) = .panic := by
  obtain ⟨hist, s, h1, h2, h3⟩ := ucheck_run tooLong (p := fun _ s => match s.step tooLongEnd with
    | .ok q => decide (q.2 = [.sdu ⟨1, 18, 1, 0⟩ ⟨0, .unknown, false⟩ []]) && stops q.1 (.tick true)
    | _ => false) (by decide +kernel)
  cases hq : s.step tooLongEnd with
  | ok q =>
    rw [hq] at h3
    simp only [Bool.and_eq_true, decide_eq_true_eq] at h3
    exact ⟨hist, q.1, UmacRun.step h1 (by rw [hq, ← h3.1]), h2, stops_eq h3.2⟩
  | err => rw [hq] at h3; cases h3
  | panic => rw [hq] at h3; cases h3

/-- SCH/F: a complete MAC-DATA which asks for `code`. -/
def dataWhole (code : Nat) : List Bool :=
  blockOf 268 (MacData.enc ⟨false, false, some ms1, none, none, some false, some code⟩) (List.replicate 100 true)

/-- A station which has just been granted seventeen slots asks for another in the first of them. It is granted one seventeen frames
ahead; the delay does not fit in the grant, and the base station aborts when the grant is due. -/
theorem c36_far_grant_aborts_later : ∃ hist s, UmacRun sampleMac hist s ∧
    hist.map Prod.fst = uticks 2 ++ [.block ⟨.schHu, .block1, ⟨1, 1, 1, 0⟩⟩ (accessFrag 10)] ++ uticks 4 ++
      [.block ⟨.schF, .both, ⟨1, 2, 1, 0⟩⟩ (dataWhole 1)] ∧ s.step (.tick true) = .panic := by
  obtain ⟨hist, s, h1, h2, h3⟩ := ucheck_run (uticks 2 ++ [.block ⟨.schHu, .block1, ⟨1, 1, 1, 0⟩⟩ (accessFrag 10)] ++ uticks 4 ++
      [.block ⟨.schF, .both, ⟨1, 2, 1, 0⟩⟩ (dataWhole 1)]) (p := fun _ s => stops s (.tick true)) (by decide +kernel)
  exact ⟨hist, s, h1, h2, stops_eq h3⟩

/-- A MAC-END-HU in a granted half slot which asks for more than 68 slots. -/
theorem c36_end_hu_aborts : ∃ hist s, UmacRun sampleMac hist s ∧
    hist.map Prod.fst = uticks 2 ++ [.block ⟨.schHu, .block1, ⟨1, 1, 1, 0⟩⟩ (accessFrag 0)] ++ uticks 4 ∧
    s.step (.block ⟨.schHu, .block1, ⟨1, 2, 1, 0⟩⟩ (endHu 15)) = .panic := by
  obtain ⟨hist, s, h1, h2, h3⟩ := ucheck_run (uticks 2 ++ [.block ⟨.schHu, .block1, ⟨1, 1, 1, 0⟩⟩ (accessFrag 0)] ++ uticks 4)
    (p := fun _ s => stops s (.block ⟨.schHu, .block1, ⟨1, 2, 1, 0⟩⟩ (endHu 15))) (by decide +kernel)
  exact ⟨hist, s, h1, h2, stops_eq h3⟩

end Verif.Umac
