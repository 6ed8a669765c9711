import Verif.Umac.UmacSduProps
import Verif.Umac.MacPdusProps
/-!
# C49: blocks as mobiles send them, and a sample history

The specification `Starts` is met by the PDUs a mobile sends: header, part of the message, fill bits.
-/
namespace Verif.Umac
open Verif.Tdma Verif.Codec Verif.Bits

theorem framed_of_roundTrip {α : Type} {enc : α → Out (List Bool)} {dec : Rd α} {fill : α → Bool} {p : α} (h : RoundTrip enc dec p)
    {hdr : List Bool} (he : enc p = .ok hdr) (body : List Bool) (n : Nat) (hf : fill p = decide (n > 0)) (post : List Bool) :
    Framed dec fill (hdr ++ (body ++ fillPattern n) ++ post) p body (hdr ++ (body ++ fillPattern n)).length := by
  obtain ⟨hdr', he', hr⟩ := h
  rw [he] at he'; cases he'
  refine ⟨hdr, n, post, rfl, by rw [List.append_assoc]; exact hr _, rfl, ?_, ?_⟩
  · intro h; rw [h] at hf; simpa using hf.symm
  · intro h hn; rw [h, hn] at hf; cases hf

/-- A MAC-DATA with a message, and whatever follows it. -/
theorem c49_sent_data (ch : UlChan) (hc : ch ≠ .schHu) (a : Addr) (ha : a.ssi < 2 ^ 24 ∧ a.ssiType = .ssi ∧ a.encrypted = false)
    (sdu post hdr : List Bool) (n l : Nat) (hl : 1 ≤ l ∧ l < 56)
    (he : MacData.enc ⟨decide (n > 0), false, some a, none, some l, none, none⟩ = .ok hdr)
    (hsz : (hdr ++ (sdu ++ fillPattern n)).length = l * 8) : Starts ch (hdr ++ (sdu ++ fillPattern n) ++ post) (.whole a sdu) := by
  have hr := c37_mac_data ⟨decide (n > 0), false, some a, none, some l, none, none⟩
    ⟨.inl ⟨a, rfl, rfl, ha.1, ha.2.2, .inl ha.2.1⟩, .inl ⟨l, rfl, by omega, rfl, rfl⟩⟩
  have hf := framed_of_roundTrip (fill := (·.fillBits)) hr he sdu n rfl post
  refine .data (p := ⟨decide (n > 0), false, some a, none, some l, none, none⟩) hc ?_ rfl rfl ?_ ?_ (by simp)
  · have : pduEnd (UlPdu.data ⟨decide (n > 0), false, some a, none, some l, none, none⟩).octets (hdr ++ (sdu ++ fillPattern n) ++ post) =
        (hdr ++ (sdu ++ fillPattern n)).length := by
      have e1 : l ≠ 62 := by omega
      have e2 : l ≠ 63 := by omega
      simp only [UlPdu.octets, Option.some.injEq, e1, e2, or_self, if_false, pduEnd]
      rw [← hsz, List.length_append (bs := post)]
      omega
    rw [this]
    exact hf
  · simp; omega
  · simp; omega

/-- A MAC-DATA with the first part of a message, which takes up the rest of the block. -/
theorem c49_sent_data_first (ch : UlChan) (hc : ch ≠ .schHu) (a : Addr) (ha : a.ssi < 2 ^ 24 ∧ a.ssiType = .ssi ∧ a.encrypted = false)
    (part hdr : List Bool) (he : MacData.enc ⟨false, false, some a, none, some 63, none, none⟩ = .ok hdr) :
    Starts ch (hdr ++ part) (.first a part) := by
  have hr := c37_mac_data ⟨false, false, some a, none, some 63, none, none⟩
    ⟨.inl ⟨a, rfl, rfl, ha.1, ha.2.2, .inl ha.2.1⟩, .inl ⟨63, rfl, by omega, rfl, rfl⟩⟩
  have hf := framed_of_roundTrip (fill := (·.fillBits)) hr he part 0 rfl []
  simp only [fillPattern, List.append_nil] at hf
  exact .dataFirst (p := ⟨false, false, some a, none, some 63, none, none⟩) hc (by simpa [UlPdu.octets, pduEnd] using hf) rfl rfl (.inl rfl)

/-- A MAC-ACCESS with a message, and whatever follows it. -/
theorem c49_sent_access (a : Addr) (ha : a.ssi < 2 ^ 24 ∧ a.ssiType = .ssi ∧ a.encrypted = false) (sdu post hdr : List Bool) (n l : Nat)
    (hl : 1 ≤ l ∧ l < 32) (he : MacAccess.enc ⟨decide (n > 0), false, some a, none, some l, none, none⟩ = .ok hdr)
    (hsz : (hdr ++ (sdu ++ fillPattern n)).length = l * 8) : Starts .schHu (hdr ++ (sdu ++ fillPattern n) ++ post) (.whole a sdu) := by
  have hr := c37_mac_access ⟨decide (n > 0), false, some a, none, some l, none, none⟩
    ⟨.inl ⟨a, rfl, rfl, ha.1, ha.2.2, .inl ha.2.1⟩, .inr (.inl ⟨l, rfl, by omega, rfl, rfl⟩)⟩
  have hf := framed_of_roundTrip (fill := (·.fillBits)) hr he sdu n rfl post
  refine .access (p := ⟨decide (n > 0), false, some a, none, some l, none, none⟩) rfl ?_ rfl rfl ?_ (by simp)
  · have : pduEnd (some l) (hdr ++ (sdu ++ fillPattern n) ++ post) = (hdr ++ (sdu ++ fillPattern n)).length := by
      simp only [pduEnd]
      rw [← hsz, List.length_append (bs := post)]
      omega
    rw [this]
    exact hf
  · simp; omega

/-- A MAC-ACCESS with the first part of a message and a request for capacity. -/
theorem c49_sent_access_first (a : Addr) (ha : a.ssi < 2 ^ 24 ∧ a.ssiType = .ssi ∧ a.encrypted = false) (part hdr : List Bool) (code : Nat)
    (hcode : code < 16) (he : MacAccess.enc ⟨false, false, some a, none, none, some true, some code⟩ = .ok hdr) :
    Starts .schHu (hdr ++ part) (.first a part) := by
  have hr := c37_mac_access ⟨false, false, some a, none, none, some true, some code⟩
    ⟨.inl ⟨a, rfl, rfl, ha.1, ha.2.2, .inl ha.2.1⟩, .inr (.inr ⟨rfl, true, code, rfl, rfl, hcode⟩)⟩
  have hf := framed_of_roundTrip (fill := (·.fillBits)) hr he part 0 rfl []
  simp only [fillPattern, List.append_nil] at hf
  exact .accessFirst (p := ⟨false, false, some a, none, none, some true, some code⟩) rfl (by simpa [pduEnd] using hf) rfl rfl rfl

/-- A MAC-FRAG. -/
theorem c49_sent_frag (ch : UlChan) (hc : ch ≠ .schHu) (part hdr : List Bool) (n : Nat) (he : MacFrag.enc ⟨decide (n > 0)⟩ = .ok hdr) :
    Starts ch (hdr ++ (part ++ fillPattern n)) (.next part) := by
  have hf := framed_of_roundTrip (fill := (·.fillBits)) (c37_mac_frag ⟨decide (n > 0)⟩) he part n rfl []
  rw [List.append_nil] at hf
  exact .frag hc hf

/-- A MAC-END on a full slot or a stolen half slot. -/
theorem c49_sent_end (ch : UlChan) (hc : ch ≠ .schHu) (part post hdr : List Bool) (n l : Nat) (hl : 1 ≤ l ∧ l ≤ 45)
    (he : MacEndUl.enc ⟨decide (n > 0), some l, none⟩ = .ok hdr) (hsz : (hdr ++ (part ++ fillPattern n)).length = l * 8) :
    Starts ch (hdr ++ (part ++ fillPattern n) ++ post) (.last part) := by
  have hf := framed_of_roundTrip (fill := (·.fillBits)) (c37_mac_end_ul_partial (decide (n > 0)) l hl) he part n rfl post
  refine .endUl (p := ⟨decide (n > 0), some l, none⟩) hc ?_
  have : pduEnd (some l) (hdr ++ (part ++ fillPattern n) ++ post) = (hdr ++ (part ++ fillPattern n)).length := by
    simp only [pduEnd]
    rw [← hsz, List.length_append (bs := post)]
    omega
  rw [this]
  exact hf

/-- A MAC-END-HU. -/
theorem c49_sent_end_hu (part post hdr : List Bool) (n l : Nat) (hl : 1 ≤ l ∧ l < 16)
    (he : MacEndHu.enc ⟨decide (n > 0), some l, none⟩ = .ok hdr) (hsz : (hdr ++ (part ++ fillPattern n)).length = l * 8) :
    Starts .schHu (hdr ++ (part ++ fillPattern n) ++ post) (.last part) := by
  have hf := framed_of_roundTrip (fill := (·.fillBits)) (c37_mac_end_hu (decide (n > 0)) l hl.2).1 he part n rfl post
  refine .endHu (p := ⟨decide (n > 0), some l, none⟩) rfl (by simp; omega) ?_
  have : pduEnd (some l) (hdr ++ (part ++ fillPattern n) ++ post) = (hdr ++ (part ++ fillPattern n)).length := by
    simp only [pduEnd]
    rw [← hsz, List.length_append (bs := post)]
    omega
  rw [this]
  exact hf

/-! ## A sample history -/

/-- A check for `InTime`. -/
def inTimeB : Int → List UmacEv → Bool
  | _, [] => true
  | k, .block c _ :: r => (decide (c.x = fromInt (k - 2)) || decide (c.x = fromInt (k - 1)) || decide (c.x = fromInt k)) && inTimeB k r
  | k, e :: r => inTimeB (if e.isTick then k + 1 else k) r

theorem inTime_of (l : List (UmacEv × List UmacOut)) : ∀ k, inTimeB k (l.map Prod.fst) = true →
    ∀ h1 c bits out h2, l = h1 ++ (.block c bits, out) :: h2 → ∃ n : Int, c.x = fromInt n ∧ k + slotsIn h1 - 2 ≤ n ∧ n ≤ k + slotsIn h1 := by
  induction l with
  | nil => intro k _ h1 c bits out h2 e; simp at e
  | cons q l ih =>
    intro k hk h1 c bits out h2 e
    obtain ⟨ev, o⟩ := q
    cases h1 with
    | nil =>
      simp only [List.nil_append, List.cons.injEq, Prod.mk.injEq] at e
      obtain ⟨⟨rfl, rfl⟩, rfl⟩ := e
      simp only [List.map_cons, inTimeB, Bool.and_eq_true, Bool.or_eq_true, decide_eq_true_eq] at hk
      simp only [slotsIn, List.countP_nil]
      rcases hk.1 with (h | h) | h
      · exact ⟨_, h, by omega, by omega⟩
      · exact ⟨_, h, by omega, by omega⟩
      · exact ⟨_, h, by omega, by omega⟩
    | cons q' h1 =>
      simp only [List.cons_append, List.cons.injEq] at e
      obtain ⟨rfl, rfl⟩ := e
      have hk' : inTimeB (if ev.isTick then k + 1 else k) ((h1 ++ (.block c bits, out) :: h2).map Prod.fst) = true := by
        cases ev with
        | block c' bits' => simp only [List.map_cons, inTimeB, Bool.and_eq_true] at hk; simpa [UmacEv.isTick] using hk.2
        | _ => simpa only [List.map_cons, inTimeB] using hk
      obtain ⟨n, hn, h3, h4⟩ := ih _ hk' h1 c bits out h2 rfl
      refine ⟨n, hn, ?_, ?_⟩
      · simp only [slotsIn, List.countP_cons] at h3 ⊢
        split at h3 <;> simp_all <;> omega
      · simp only [slotsIn, List.countP_cons] at h4 ⊢
        split at h4 <;> simp_all <;> omega

/-- SCH/F: a MAC-END with 22 bits, then a null PDU. -/
def endUl22 : List Bool := blockOf 268 (MacEndUl.enc ⟨false, some 4, none⟩) (List.replicate 22 true)

/-- A message in three parts: the first on SCH/HU with a request for two slots, the others in the two slots granted. -/
def threeParts : List UmacEv :=
  uticks 2 ++ [.block ⟨.schHu, .block1, ⟨1, 1, 1, 0⟩⟩ (accessFrag 2)] ++ uticks 4 ++ [.block ⟨.schF, .both, ⟨1, 2, 1, 0⟩⟩ fragUl] ++
  uticks 4 ++ [.block ⟨.schF, .both, ⟨1, 3, 1, 0⟩⟩ endUl22]

/-- The message is handed on complete; the history is one that `c49_origin` and `c49_parts` speak about. -/
example : ∃ hist s, UmacRun sampleMac hist s ∧ InTime sampleTime hist ∧
    sdus (hist.flatMap (·.2)) = [(⟨1, 3, 1, 0⟩, ms1, List.replicate (56 + 264 + 22) true)] := by
  obtain ⟨hist, s, hr, he, hp⟩ := ucheck_run threeParts
    (p := fun hist _ => decide (sdus (hist.flatMap (·.2)) = [(⟨1, 3, 1, 0⟩, ms1, List.replicate (56 + 264 + 22) true)])) (by decide +kernel)
  exact ⟨hist, s, hr, inTime_of hist sampleTime.toInt (by rw [he]; decide +kernel), of_decide_eq_true hp⟩

/-- What `c49_reassembled` asks for when the last part arrives: the slot is granted to the station. -/
example : ∃ hist s, UmacRun sampleMac hist s ∧ OnTime sampleTime s ⟨.schF, .both, ⟨1, 3, 1, 0⟩⟩ 8 ∧
    Granted (grantsIn sampleTime.toInt s.log) 8 .both 1001 := by
  obtain ⟨hist, s, hr, he, hp⟩ := ucheck_run (threeParts.take 12)
    (p := fun _ s => decide (slotOwner s.sched.ul ⟨1, 3, 1, 0⟩ .both = .ok (some 1001) ∧ clockAfter sampleTime.toInt s.log = 10))
    (by decide +kernel)
  simp only [decide_eq_true_eq] at hp
  obtain ⟨h1, h2⟩ := hp
  have hn : OnTime sampleTime s ⟨.schF, .both, ⟨1, 3, 1, 0⟩⟩ 8 := ⟨by decide +kernel, by rw [h2]; decide, by rw [h2]; decide⟩
  have hi : InTime sampleTime hist := inTime_of hist sampleTime.toInt (by rw [he]; decide +kernel)
  have k := run_known (by decide) hr hi.timed
  exact ⟨hist, s, hr, hn, ((hn.at k).owner 1001).1 h1⟩
example : Leads .schF endUl22 [] (.last (List.replicate 22 true)) := by
  have e : endUl22 = [false, true, true, false, false, false, false, true, false, false] ++ (List.replicate 22 true ++ fillPattern 0) ++
    List.replicate 236 false := by decide +kernel
  rw [e]
  exact .here (c49_sent_end .schF (by simp) _ _ _ 0 4 (by omega) (by decide +kernel) (by decide +kernel))
example : Leads .schHu (accessFrag 2) [] (.first ms1 (List.replicate 56 true)) := by
  have e : accessFrag 2 = (accessFrag 2).take 36 ++ List.replicate 56 true := by decide +kernel
  rw [e]
  exact .here (c49_sent_access_first ms1 (by decide) _ _ 2 (by omega) (by decide +kernel))
example : Leads .schF fragUl [] (.next (List.replicate 264 true)) := by
  have e : fragUl = [false, true, false, false] ++ (List.replicate 264 true ++ fillPattern 0) := by decide +kernel
  rw [e]
  exact .here (c49_sent_frag .schF (by simp) _ _ 0 (by decide +kernel))

/-- Two messages in one block on SCH/F, then a null PDU. -/
def twoMessages : List Bool :=
  blockOf 64 (MacData.enc ⟨true, false, some ms1, none, some 8, none, none⟩) (List.replicate 20 true ++ fillPattern 7) ++
  blockOf 204 (MacData.enc ⟨false, false, some ⟨1002, .ssi, false⟩, none, some 7, none, none⟩) (List.replicate 19 true)

/-- The hypotheses of `c49_messages` are met. -/
example : Reads .schF twoMessages [(ms1, List.replicate 20 true), (⟨1002, .ssi, false⟩, List.replicate 19 true)] := by
  have e : twoMessages = twoMessages.take 37 ++ (List.replicate 20 true ++ fillPattern 7) ++ twoMessages.drop 64 := by decide +kernel
  have e' : twoMessages.drop 64 = (twoMessages.drop 64).take 37 ++ (List.replicate 19 true ++ fillPattern 0) ++ twoMessages.drop 120 := by
    decide +kernel
  have h1 : Starts .schF twoMessages (.whole ms1 (List.replicate 20 true)) := by
    rw [e]
    exact c49_sent_data .schF (by simp) ms1 (by decide) _ _ _ 7 8 (by omega) (by decide +kernel) (by decide +kernel)
  have h2 : Starts .schF (twoMessages.drop 64) (.whole ⟨1002, .ssi, false⟩ (List.replicate 19 true)) := by
    rw [e']
    exact c49_sent_data .schF (by simp) ⟨1002, .ssi, false⟩ (by decide) _ _ _ 0 7 (by omega) (by decide +kernel) (by decide +kernel)
  exact .cons (l := 8) h1 (by simp) (by decide +kernel) (by decide +kernel)
    (.cons (l := 7) h2 (by simp) (by decide +kernel) (by decide +kernel) (.null (by decide +kernel)))

/-! ## Finding -/

/-- SCH/HU: a complete message of 56 bits with a request for capacity. -/
def accessAsk (code : Nat) : List Bool :=
  blockOf 92 (MacAccess.enc ⟨false, false, some ms1, none, none, some false, some code⟩) (List.replicate 56 false)

/-- The first part of a message, four hundred slots later a complete message of the same station with a request for
capacity, and a MAC-END in the slot granted. -/
def longPause : List UmacEv :=
  uticks 2 ++ [.block ⟨.schHu, .block1, ⟨1, 1, 1, 0⟩⟩ (accessFrag 2)] ++ uticks 400 ++
  [.block ⟨.schHu, .block1, ⟨1, 11, 6, 0⟩⟩ (accessAsk 2)] ++ uticks 4 ++ [.block ⟨.schF, .both, ⟨1, 12, 6, 0⟩⟩ endUl22]

set_option maxRecDepth 20000 in
/-- The base station never ages its reassemblies: a first part more than 400 slots old is still put together with the last part of
another message. -/
theorem c20_never_expires : ∃ hist s, UmacRun sampleMac hist s ∧ hist.map Prod.fst = longPause ∧
    decide (sdus (hist.flatMap (·.2)) =
      [(⟨1, 11, 6, 0⟩, ms1, List.replicate 56 false), (⟨1, 12, 6, 0⟩, ms1, List.replicate (56 + 22) true)]) = true :=
  ucheck_run _ (by decide +kernel)

end Verif.Umac
