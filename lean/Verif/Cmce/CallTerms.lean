import Verif.Cmce.CmceBsProps
/-!
# The terms of a call

C57: what the messages of call control say beside the call, the parties and the floor, to which the theorems in CmceBsProps.lean are confined.
-/
namespace Verif.Cmce
open Verif.Bits Verif.Codec Verif.TypedFields Tdma Pdu

/-- What stations are told about a call beside the parties and the floor: at most 10 s until it is connected (4), at most 5 min in all (7), no
hook signalling, simplex, they may ask for the floor (false), and the transmission is not encrypted. -/
def Terms : BsOut → Prop
  | .air _ _ _ _ sdu =>
    (∀ x, decoded DCallProceeding.dec sdu = some x → x.setupTimeout = 4 ∧ x.hook = false ∧ x.simplexDuplex = false) ∧
    (∀ x, decoded DConnect.dec sdu = some x → x.timeout = 7 ∧ x.hook = false ∧ x.simplexDuplex = false ∧ x.requestPermission = false) ∧
    (∀ x, decoded DSetup.dec sdu = some x → x.timeout = 7 ∧ x.hook = false ∧ x.simplexDuplex = false ∧ x.requestPermission = false) ∧
    (∀ x, decoded DTxCeased.dec sdu = some x → x.requestPermission = false) ∧
    (∀ x, decoded DTxGranted.dec sdu = some x → x.requestPermission = false ∧ x.encryption = false)
  | _ => True

theorem typed {α : Type} {k j : Nat} {f : Rd α} {bs : List Bool} {P : α → Prop} (h : ofBits (bs.take 5) = j) (hne : j ≠ k) :
    ∀ x, decoded (expectType 5 k >>= fun _ => f) bs = some x → P x := by
  intro x hx
  rw [decoded_none (by rw [h]; exact hne)] at hx
  cases hx

theorem wire_terms {o : CcOut} {a : Asked} {b : BsOut} (ho : o.Fits) (ha : a.Ok) (h : o.wire a = .ok b) : Terms b := by
  cases o with
  | dCallProceeding to id =>
    obtain ⟨bs, h1, h2, h3⟩ := pduHeard (c38_cmce_d_call_proceeding (dCallProceedingPdu id)
      ⟨ho, (by decide : (4:Nat) < 2 ^ 3), by simp [dCallProceedingPdu], by simp [dCallProceedingPdu], by simp [NumOk, dCallProceedingPdu],
        by simp [RawOk, dCallProceedingPdu], by simp [RawOk, dCallProceedingPdu]⟩) rfl
    cases h.symm.trans (wire_of h1 fun bs => .air to .acknowledged none false bs)
    refine ⟨?_, typed h2 (by decide), typed h2 (by decide), typed h2 (by decide), typed h2 (by decide)⟩
    rw [h3]; rintro x ⟨⟩; exact ⟨rfl, rfl, rfl⟩
  | dConnect to id g owner chan =>
    obtain ⟨bs, h1, h2, h3⟩ := pduHeard (c38_cmce_d_connect (dConnectPdu id g owner)
      ⟨ho, (by decide : (7:Nat) < 2 ^ 4), grant_lt g, by simp [NumOk, dConnectPdu], by simp [dConnectPdu], by simp [NumOk, dConnectPdu],
        by simp [NumOk, dConnectPdu], by simp [RawOk, dConnectPdu], by simp [RawOk, dConnectPdu]⟩) rfl
    cases h.symm.trans (wire_of h1 fun bs => .air to .unacknowledged (chan.map fun (c : Nat × Nat) => (some c.1, c.2)) false bs)
    refine ⟨typed h2 (by decide), ?_, typed h2 (by decide), typed h2 (by decide), typed h2 (by decide)⟩
    rw [h3]; rintro x ⟨⟩; exact ⟨rfl, rfl, rfl, rfl⟩
  | dSetup to id g caller chan =>
    obtain ⟨bs, h1, h2, h3⟩ := dSetup_heard g ho.1 ho.2 ha
    cases h.symm.trans (wire_of h1 fun bs => .air to .unacknowledged (some (some chan.1, chan.2)) false bs)
    refine ⟨typed h2 (by decide), typed h2 (by decide), ?_, typed h2 (by decide), typed h2 (by decide)⟩
    rw [h3]; rintro x ⟨⟩; exact ⟨rfl, rfl, rfl, rfl⟩
  | dRelease to id c =>
    obtain ⟨bs, h1, h2, h3⟩ := pduHeard (c38_cmce_d_release (dReleasePdu id c)
      ⟨ho, cause_le c, by simp [NumOk, dReleasePdu], by simp [RawOk, dReleasePdu], by simp [RawOk, dReleasePdu]⟩) rfl
    cases h.symm.trans (wire_of h1 fun bs => .air to .unacknowledged none false bs)
    exact ⟨typed h2 (by decide), typed h2 (by decide), typed h2 (by decide), typed h2 (by decide), typed h2 (by decide)⟩
  | dTxCeased to id ts =>
    obtain ⟨bs, h1, h2, h3⟩ := pduHeard (c38_cmce_d_tx_ceased (dTxCeasedPdu id)
      ⟨ho, by simp [NumOk, dTxCeasedPdu], by simp [RawOk, dTxCeasedPdu], by simp [RawOk, dTxCeasedPdu], by simp [RawOk, dTxCeasedPdu]⟩) rfl
    cases h.symm.trans (wire_of h1 fun bs => .air to .unacknowledged (some (none, ts)) true bs)
    refine ⟨typed h2 (by decide), typed h2 (by decide), typed h2 (by decide), ?_, typed h2 (by decide)⟩
    rw [h3]; rintro x ⟨⟩; rfl
  | dTxGranted to id g speaker ts =>
    obtain ⟨bs, h1, h2, h3⟩ := pduHeard (c38_cmce_d_tx_granted (dTxGrantedPdu id g speaker)
      ⟨ho.1, grant_lt g, by simp [NumOk, dTxGrantedPdu],
        by intro v hv; cases hv; exact ⟨by simp, by simpa using ho.2, by simp⟩, by simp [RawOk, dTxGrantedPdu],
        by simp [RawOk, dTxGrantedPdu], by simp [RawOk, dTxGrantedPdu], by simp [RawOk, dTxGrantedPdu]⟩) rfl
    cases h.symm.trans (wire_of h1 fun bs => .air to .unacknowledged (some (none, ts)) true bs)
    refine ⟨typed h2 (by decide), typed h2 (by decide), typed h2 (by decide), typed h2 (by decide), ?_⟩
    rw [h3]; rintro x ⟨⟩; exact ⟨rfl, rfl⟩
  | _ => cases h; trivial

theorem wireAll_terms {asked : Assoc Nat Asked} (ha : ∀ id a, asked.get id = some a → a.Ok) {os : List CcOut} (ho : ∀ o ∈ os, o.Fits)
    {out : List BsOut} (h : wireAll asked os = .ok out) : ∀ b ∈ out, Terms b := by
  induction os generalizing out with
  | nil => cases h; simp
  | cons o os ih =>
    obtain ⟨b0, h0, h⟩ := Res.bind_eq_ok.1 h
    obtain ⟨bs, h1, h⟩ := Res.bind_eq_ok.1 h
    cases h
    have hok : ((o.announces.bind asked.get).getD netAsked).Ok := by
      cases h : o.announces.bind asked.get with
      | none => exact netAsked_ok
      | some a =>
        obtain ⟨id, _, hg⟩ := Option.bind_eq_some_iff.1 h
        exact ha id a hg
    intro b hb
    rcases List.mem_cons.1 hb with rfl | hb
    · exact wire_terms (ho o List.mem_cons_self) hok h0
    · exact ih (fun q hq => ho q (List.mem_cons_of_mem _ hq)) h1 b hb

theorem step_terms {r : Nat → Bool} {h : List (BsEv × List BsOut)} {s s' : Bs} (hr : BsRun r h s) {v : SdsView} {e : BsEv}
    (he : e.Sane r) {out : List BsOut} (hs : s.step v e = .ok (s', out)) {b : BsOut} (hb : b ∈ out) (hh : (hear b).isSome) : Terms b := by
  have hi := bsRun_inv hr
  rcases step_cases hs with ⟨c, o1, o2, hm, hc, rfl, hq⟩ | ⟨hm, rfl, hq⟩
  · obtain ⟨_, _, k3, _, k5, k6⟩ := call_inv hi (means_fits hm he).1 (asks_ok _) hc
    rcases List.mem_append.1 hb with hb | hb
    · exact wireAll_terms k3 k6 k5 b hb
    · rw [(hq b hb).1] at hh; cases hh
  · rw [(hq b hb).1] at hh; cases hh

/-- **C57, terms.** Every message about a call, in any history, tells the stations the same terms: the times, that it is simplex without hook
signalling, and that everybody may ask for the floor, also when somebody talks and when somebody has ceased. -/
theorem c57_terms {r : Nat → Bool} {h : List (BsEv × List BsOut)} {s : Bs} (hr : BsRun r h s) {b : BsOut} (hb : b ∈ h.flatMap Prod.snd)
    (hh : (hear b).isSome) : Terms b := by
  induction hr with
  | init => cases hb
  | step hr he hs ih =>
    rw [List.flatMap_append] at hb
    rcases List.mem_append.1 hb with hb | hb
    · exact ih hb
    · simp only [List.flatMap_cons, List.flatMap_nil, List.append_nil] at hb
      exact step_terms hr he hs hb hh
  | reorder _ _ ih => exact ih hb

/-- It is not empty: a call is announced, so messages are heard. -/
example : ∃ h s b, BsRun (fun _ => false) h s ∧ b ∈ h.flatMap Prod.snd ∧ hear b = some (.dConnect (.station 1001) 4 .granted true (some (4, 2))) := by
  obtain ⟨h, s, hr, hh, _⟩ := c57_encryption_finding
  obtain ⟨b, hb, e⟩ := List.mem_filterMap.1 (show CcOut.dConnect (.station 1001) 4 .granted true (some (4, 2)) ∈ heardIn h by rw [hh]; simp)
  exact ⟨h, s, b, hr, hb, e⟩

end Verif.Cmce
