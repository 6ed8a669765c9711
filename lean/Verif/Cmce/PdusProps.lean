import Verif.Cmce.Pdus
import Verif.Core.PduGives
/-!
# Properties of the PDUs of call control and short data

C38: what is written is read back, for every PDU of CMCE. The readers of the uplink abort only on elements with a length beyond
the end of what was received, on the status 31743, and on a function-not-supported pointer which is not zero.
-/
namespace Verif.Cmce.Pdu
open Verif.Bits Verif.Codec Verif.TypedFields

/-! ## Elements -/

/-- Circuit mode 0 is speech, with a speech service; any other has a number of slots. -/
structure BasicService.Ok (x : BasicService) : Prop where
  circuitMode : x.circuitMode < 8
  communication : x.communication < 4
  speech : x.circuitMode = 0 → x.slots = none ∧ ∃ v, x.speech = some v ∧ v < 4
  slots : x.circuitMode ≠ 0 → x.speech = none ∧ ∃ v, x.slots = some v ∧ v < 4

theorem basicService_roundTrip {x : BasicService} (h : x.Ok) : RoundTrip BasicService.enc BasicService.dec x := by
  obtain ⟨m, e, c, sl, sp⟩ := x
  obtain ⟨h1, h2, h3, h4⟩ := h
  simp only at h1 h2 h3 h4
  apply roundTrip_of
  by_cases hm : m = 0
  · obtain ⟨rfl, v, rfl, hv⟩ := h3 hm
    subst hm
    simp [BasicService.enc, BasicService.dec, BasicService.tail, wBits_ok, Rd.run_bits_append, h2, hv]
  · obtain ⟨rfl, v, rfl, hv⟩ := h4 hm
    simp [BasicService.enc, BasicService.dec, BasicService.tail, wBits_ok, Rd.run_bits_append, h1, h2, hv, hm]

/-- **Finding (C38).** A speech service with a number of slots is written without complaint, and read back as something else. -/
theorem c38_basic_service_ambiguous (v : Nat) (hv : v < 4) (e : Bool) (c : Nat) (hc : c < 4) :
    ReadsAs BasicService.enc BasicService.dec ⟨0, e, c, some v, none⟩ ⟨0, e, c, none, some v⟩ := by
  refine ⟨toBits 3 0 ++ (e :: (toBits 2 c ++ toBits 2 v)), ?_, ?_⟩
  · simp [BasicService.enc, BasicService.tail, wBits_ok, hc, hv]
  · intro rest
    simp [BasicService.dec, Rd.run_bits_append, hc, hv]

/-- C38: a service of another circuit mode with a speech service, one with both and one with neither are not written. -/
theorem c38_basic_service_refused {x : BasicService} (h : x.slots.isSome = x.speech.isSome ∨ (x.circuitMode ≠ 0 ∧ x.speech.isSome)) :
    ∀ bits, x.enc ≠ .ok bits := by
  obtain ⟨m, e, c, sl, sp⟩ := x
  have ht : BasicService.tail ⟨m, e, c, sl, sp⟩ = .err := by
    cases sl <;> cases sp <;> simp_all [BasicService.tail]
  intro bits hb
  simp only [BasicService.enc, ht, cat] at hb
  simp [Out.bind_eq_ok] at hb

/-- Data at 7.2 kbit/s with a speech service is such a value. -/
example : (∃ x : BasicService, x.circuitMode ≠ 0 ∧ x.speech.isSome) ∧ BasicService.enc ⟨1, false, 0, none, some 0⟩ = .err :=
  ⟨⟨⟨1, false, 0, none, some 0⟩, by decide, by decide⟩, by decide +kernel⟩

/-- The kind of address says which of its parts there are. -/
structure Called.Ok (x : Called) : Prop where
  kind : x.kind < 4
  sna : if x.kind = 0 then ∃ v, x.sna = some v ∧ v < 2 ^ 8 else x.sna = none
  ssi : if x.kind = 1 ∨ x.kind = 2 then ∃ v, x.ssi = some v ∧ v < 2 ^ 24 else x.ssi = none
  ext : if x.kind = 2 then ∃ v, x.ext = some v ∧ v < 2 ^ 24 else x.ext = none

theorem called_roundTrip {x : Called} (h : x.Ok) : RoundTrip Called.enc Called.dec x := by
  obtain ⟨k, a, s, e⟩ := x
  obtain ⟨h1, h2, h3, h4⟩ := h
  simp only at h1 h2 h3 h4
  apply roundTrip_of
  have : k = 0 ∨ k = 1 ∨ k = 2 ∨ k = 3 := by omega
  rcases this with rfl | rfl | rfl | rfl
  · simp at h2 h3 h4; obtain ⟨v, rfl, hv⟩ := h2; subst h3 h4
    simp [Called.enc, Called.dec, wBits_ok, Rd.run_bits_append, hv]
  · simp at h2 h3 h4; obtain ⟨v, rfl, hv⟩ := h3; subst h2 h4
    simp [Called.enc, Called.dec, wBits_ok, Rd.run_bits_append, hv]
  · simp at h2 h3 h4; obtain ⟨v, rfl, hv⟩ := h3; obtain ⟨w, rfl, hw⟩ := h4; subst h2
    simp [Called.enc, Called.dec, wBits_ok, Rd.run_bits_append, hv, hw]
  · simp at h2 h3 h4; subst h2 h3 h4
    simp [Called.enc, Called.dec, wBits_ok, Rd.run_bits_append]

structure Calling.Ok (x : Calling) : Prop where
  kind : x.kind < 4
  ssi : if x.kind = 1 ∨ x.kind = 2 then ∃ v, x.ssi = some v ∧ v < 2 ^ 24 else x.ssi = none
  ext : if x.kind = 2 then ∃ v, x.ext = some v ∧ v < 2 ^ 24 else x.ext = none

theorem calling_roundTrip {x : Calling} (h : x.Ok) : RoundTrip Calling.enc Calling.dec x := by
  obtain ⟨k, s, e⟩ := x
  obtain ⟨h1, h3, h4⟩ := h
  simp only at h1 h3 h4
  apply roundTrip_of
  have : k = 0 ∨ k = 1 ∨ k = 2 ∨ k = 3 := by omega
  rcases this with rfl | rfl | rfl | rfl
  · simp at h3 h4; subst h3 h4
    simp [Calling.enc, Calling.dec, wBits_ok, Rd.run_bits_append]
  · simp at h3 h4; obtain ⟨v, rfl, hv⟩ := h3; subst h4
    simp [Calling.enc, Calling.dec, wBits_ok, Rd.run_bits_append, hv]
  · simp at h3 h4; obtain ⟨v, rfl, hv⟩ := h3; obtain ⟨w, rfl, hw⟩ := h4
    simp [Calling.enc, Calling.dec, wBits_ok, Rd.run_bits_append, hv, hw]
  · simp at h3 h4; subst h3 h4
    simp [Calling.enc, Calling.dec, wBits_ok, Rd.run_bits_append]

theorem callStatus_carries {v : Nat} (h : v ≤ 4) : RoundTrip (wBits · 3) (rdUpTo 3 4) v := by
  have : v < 2 ^ 3 := by omega
  apply roundTrip_of
  simp [wBits_ok, rdUpTo, Rd.run_bits_append, this, h]

/-! ## Short data -/

/-- The first `len` bits of bytes, in bytes, the last filled up with zeroes. -/
def trimOctets : List Nat → Nat → List Nat
  | [], _ => []
  | d :: ds, len => if len = 0 then [] else if len < 8 then [d / 2 ^ (8 - len) * 2 ^ (8 - len)] else d :: trimOctets ds (len - 8)

/-- Only the bits carried are kept. -/
def Sds.trim : Sds → Sds
  | .type4 len data => .type4 len (trimOctets data len)
  | x => x

/-- Data which can be written: numbers within their widths, and enough bytes for the bits. -/
def Sds.Writable : Sds → Prop
  | .type1 v => v < 2 ^ 16
  | .type2 v => v < 2 ^ 32
  | .type3 v => v < 2 ^ 64
  | .type4 len data => len < 2 ^ 11 ∧ len ≤ 8 * data.length ∧ ∀ d ∈ data, d < 256

/-- Writable, and nothing but the bits carried. -/
def Sds.Ok (x : Sds) : Prop := x.Writable ∧ x.trim = x

/-- The bits of a payload. -/
def payloadBits (len : Nat) (data : List Nat) : List Bool := (data.flatMap (toBits 8)).take len

theorem payload_octet : ∀ d : Fin 256, ∀ n : Fin 8,
    (toBits 8 (d.1 / 2 ^ (8 - n.1) * 2 ^ (8 - n.1))).take n.1 = (toBits 8 d.1).take n.1 ∧ d.1 / 2 ^ (8 - n.1) < 2 ^ n.1 ∧
      toBits n.1 (d.1 / 2 ^ (8 - n.1)) = (toBits 8 d.1).take n.1 := by decide +kernel

/-- Trimming does not touch the bits carried. -/
theorem payloadBits_trim (data : List Nat) (len : Nat) (hd : ∀ d ∈ data, d < 256) :
    payloadBits len (trimOctets data len) = payloadBits len data := by
  induction data generalizing len with
  | nil => rfl
  | cons d ds ih =>
    unfold trimOctets payloadBits
    by_cases h0 : len = 0
    · simp [h0]
    · by_cases h8 : len < 8
      · rw [if_neg h0, if_pos h8]
        have := (payload_octet ⟨d, hd d (by simp)⟩ ⟨len, h8⟩).1
        simp only at this
        simp only [List.flatMap_cons, List.flatMap_nil, List.append_nil]
        rw [this, List.take_append_of_le_length (by simp; omega)]
      · rw [if_neg h0, if_neg h8]
        have := ih (len - 8) fun x hx => hd x (by simp [hx])
        unfold payloadBits at this
        simp only [List.flatMap_cons]
        rw [List.take_append, List.take_append, length_toBits, this]

theorem octets_written (data : List Nat) (len : Nat) (hl : len ≤ 8 * data.length) (hd : ∀ d ∈ data, d < 256) :
    wOctets data (len / 8) (len % 8) = .ok (payloadBits len data) := by
  induction data generalizing len with
  | nil =>
    obtain rfl : len = 0 := by simpa using hl
    rfl
  | cons d ds ih =>
    have hd0 := hd d (by simp)
    by_cases h8 : len < 8
    · rw [show len / 8 = 0 by omega, show len % 8 = len by omega]
      unfold wOctets
      by_cases h0 : len = 0
      · simp [h0, payloadBits]
      · obtain ⟨_, q2, q3⟩ := payload_octet ⟨d, hd0⟩ ⟨len, h8⟩
        simp only at q2 q3
        simp only [h0, if_false, wBits_ok (show len ≤ 64 by omega) q2, q3, payloadBits, List.flatMap_cons]
        rw [List.take_append_of_le_length (by simp; omega)]
    · have := ih (len - 8) (by simp at hl; omega) fun x hx => hd x (by simp [hx])
      rw [show len / 8 = (len - 8) / 8 + 1 by omega, show len % 8 = (len - 8) % 8 by omega]
      unfold wOctets
      rw [this]
      simp only [cat_cons, cat_nil, wBits_ok (show 8 ≤ 64 by omega) (show d < 2 ^ 8 by omega), Out.bind_ok, List.append_nil]
      simp only [payloadBits, List.flatMap_cons]
      rw [List.take_append, length_toBits, List.take_of_length_le (l := toBits 8 d) (by simp; omega)]

theorem octets_read (data : List Nat) (len : Nat) (hl : len ≤ 8 * data.length) (hd : ∀ d ∈ data, d < 256) (rest : List Bool) :
    (rdOctets ((len + 7) / 8) len).run (payloadBits len data ++ rest) = .ok (trimOctets data len, rest) := by
  induction data generalizing len with
  | nil =>
    obtain rfl : len = 0 := by simpa using hl
    rfl
  | cons d ds ih =>
    have hd0 := hd d (by simp)
    by_cases h0 : len = 0
    · subst h0; rfl
    by_cases h8 : len < 8
    · rw [show (len + 7) / 8 = 0 + 1 by omega]
      obtain ⟨_, q2, q3⟩ := payload_octet ⟨d, hd0⟩ ⟨len, h8⟩
      simp only at q2 q3
      have e : payloadBits len (d :: ds) = toBits len (d / 2 ^ (8 - len)) := by
        rw [q3, payloadBits, List.flatMap_cons, List.take_append_of_le_length (by simp; omega)]
      simp only [rdOctets, Nat.min_eq_left (show len ≤ 8 by omega), Rd.run_bind, e,
        Rd.run_bits_append (show len ≤ 64 by omega) q2, Out.bind_ok, Rd.run_pure, trimOctets, h0, h8, if_true, if_false]
    · have := ih (len - 8) (by simp at hl; omega) fun x hx => hd x (by simp [hx])
      rw [show (len + 7) / 8 = (len - 8 + 7) / 8 + 1 by omega]
      have e : payloadBits len (d :: ds) = toBits 8 d ++ payloadBits (len - 8) ds := by
        simp only [payloadBits, List.flatMap_cons]
        rw [List.take_append, length_toBits, List.take_of_length_le (l := toBits 8 d) (by simp; omega)]
      simp only [rdOctets, Nat.min_eq_right (show 8 ≤ len by omega), Rd.run_bind, e, List.append_assoc,
        Rd.run_bits_append (show 8 ≤ 64 by omega) (show d < 2 ^ 8 by omega), Out.bind_ok, this, Rd.run_pure, trimOctets, h0, h8,
        if_false, Nat.sub_self, Nat.pow_zero, Nat.mul_one]

/-- Short data is read back as the bits carried. -/
theorem sds_readsAs {x : Sds} (h : x.Writable) : ReadsAs Sds.enc Sds.dec x x.trim := by
  cases x with
  | type1 v =>
    refine ⟨toBits 2 0 ++ toBits 16 v, ?_, fun rest => ?_⟩
    · simp [Sds.enc, wBits_ok, show v < 2 ^ 16 from h]
    · simp [Sds.dec, Sds.trim, Rd.run_bits_append, show v < 2 ^ 16 from h]
  | type2 v =>
    refine ⟨toBits 2 1 ++ toBits 32 v, ?_, fun rest => ?_⟩
    · simp [Sds.enc, wBits_ok, show v < 2 ^ 32 from h]
    · simp [Sds.dec, Sds.trim, Rd.run_bits_append, show v < 2 ^ 32 from h]
  | type3 v =>
    refine ⟨toBits 2 2 ++ toBits 64 v, ?_, fun rest => ?_⟩
    · simp [Sds.enc, wBits_ok, show v < 2 ^ 64 from h]
    · simp [Sds.dec, Sds.trim, Rd.run_bits_append, show v < 2 ^ 64 from h]
  | type4 len data =>
    obtain ⟨h1, h2, h3⟩ := h
    refine ⟨toBits 2 3 ++ (toBits 11 len ++ payloadBits len data), ?_, fun rest => ?_⟩
    · simp [Sds.enc, wBits_ok, h1, octets_written data len h2 h3]
    · simp [Sds.dec, Sds.trim, Rd.run_bits_append, h1, octets_read data len h2 h3]

theorem sds_roundTrip {x : Sds} (h : x.Ok) : RoundTrip Sds.enc Sds.dec x := by
  obtain ⟨bs, h1, h2⟩ := sds_readsAs h.1
  exact ⟨bs, h1, fun rest => by rw [h2 rest, h.2]⟩

/-- Two octets and four bits. -/
example : (Sds.type4 20 [1, 2, 0x30]).Ok := ⟨⟨by omega, by simp, by simp⟩, by simp [Sds.trim, trimOctets]⟩

/-! ## Status -/

/-- The values `PreCodedStatus::from` gives. -/
def Status.Ok : Status → Prop
  | .emergency => True
  | .reserved v => 1 ≤ v ∧ v ≤ 31742
  | .report t r => t < 4 ∧ r < 256
  | .user v => 32768 ≤ v ∧ v < 2 ^ 16

theorem Status.Ok.raw {s : Status} (h : s.Ok) : s.toRaw < 2 ^ 16 ∧ Status.ofRaw s.toRaw = .ok s := by
  cases s with
  | emergency => exact ⟨by simp [Status.toRaw], rfl⟩
  | reserved v => 
    obtain ⟨h1, h2⟩ := h
    refine ⟨by simp only [Status.toRaw]; omega, ?_⟩
    simp [Status.toRaw, Status.ofRaw, show v ≠ 0 by omega, h2]
  | report t r =>
    obtain ⟨h1, h2⟩ := h
    refine ⟨by simp only [Status.toRaw]; omega, ?_⟩
    simp only [Status.toRaw, Status.ofRaw, shortReport]
    simp only [show ¬ 31 * 1024 + t * 256 + r = 0 by omega, show ¬ 31 * 1024 + t * 256 + r ≤ 31742 by omega,
      show 31 * 1024 + t * 256 + r ≤ 32767 by omega, show (31 * 1024 + t * 256 + r) / 1024 = 31 by omega, if_true, if_false]
    simp only [Res.ok.injEq, Status.report.injEq]
    omega
  | user v =>
    obtain ⟨h1, h2⟩ := h
    refine ⟨by simpa [Status.toRaw] using h2, ?_⟩
    simp only [Status.toRaw, Status.ofRaw]
    simp only [show ¬ v = 0 by omega, show ¬ v ≤ 31742 by omega, show ¬ v ≤ 32767 by omega, if_false]

theorem status_roundTrip {s : Status} (h : s.Ok) : RoundTrip Status.enc Status.dec s := by
  obtain ⟨h1, h2⟩ := h.raw
  apply roundTrip_of
  simp [Status.enc, Status.dec, wBits_ok, Rd.run_bits_append, h1, h2]

/-- The reader gives a status for every number but one. -/
theorem ofRaw_panic (v : Nat) : Status.ofRaw v = .panic ↔ v = 31743 := by
  unfold Status.ofRaw shortReport
  constructor
  · intro h
    split at h
    · cases h
    · split at h
      · cases h
      · split at h
        · rename_i h1 h2 h3
          by_cases h31 : v / 1024 = 31
          · simp [h31] at h
          · omega
        · cases h
  · rintro rfl; rfl

theorem ofRaw_ok {v : Nat} (hv : v < 2 ^ 16) {s : Status} (h : Status.ofRaw v = .ok s) : s.Ok ∧ s.toRaw = v := by
  unfold Status.ofRaw shortReport at h
  split at h
  · simp only [Res.ok.injEq] at h; subst h; exact ⟨trivial, by simp [Status.toRaw]; omega⟩
  · split at h
    · simp only [Res.ok.injEq] at h; subst h; exact ⟨⟨by omega, by omega⟩, rfl⟩
    · split at h
      · rename_i h1 h2 h3
        by_cases h31 : v / 1024 = 31
        · simp only [h31, if_true, Res.ok.injEq] at h
          subst h
          exact ⟨⟨by omega, by omega⟩, by simp only [Status.toRaw]; omega⟩
        · simp [h31] at h
      · simp only [Res.ok.injEq] at h; subst h; exact ⟨⟨by omega, hv⟩, rfl⟩

/-! ## PDUs -/

theorem BasicService.tame : BasicService.dec.Tame := by
  refine tame_of_safe ?_ ?_ <;> unfold BasicService.dec
  · eats_rd
  · safe_rd

theorem Called.tame : Called.dec.Tame := by
  refine tame_of_safe ?_ ?_ <;> unfold Called.dec rdIf
  · eats_rd
  · safe_rd

theorem Calling.tame : Calling.dec.Tame := by
  refine tame_of_safe ?_ ?_ <;> unfold Calling.dec rdIf
  · eats_rd
  · safe_rd

theorem rdOctets_safe (n rem : Nat) : (rdOctets n rem).Safe ∧ (rdOctets n rem).Eats := by
  induction n generalizing rem with
  | zero => exact ⟨Rd.safe_pure _, Rd.eats_pure _⟩
  | succ n ih =>
    exact ⟨Rd.safe_bind (Rd.safe_bits _) fun _ => Rd.safe_bind (ih _).1 fun _ => Rd.safe_pure _,
      Rd.eats_bind (Rd.eats_bits _) fun _ => Rd.eats_bind (ih _).2 fun _ => Rd.eats_pure _⟩

theorem Sds.tame : Sds.dec.Tame := by
  refine tame_of_safe ?_ ?_ <;> unfold Sds.dec
  · refine Rd.eats_bind (Rd.eats_bits 2) fun t => Rd.eats_ite (fun _ => Rd.eats_map (Rd.eats_bits _)) fun _ =>
      Rd.eats_ite (fun _ => Rd.eats_map (Rd.eats_bits _)) fun _ => Rd.eats_ite (fun _ => Rd.eats_map (Rd.eats_bits _)) fun _ => ?_
    exact Rd.eats_bind (Rd.eats_bits _) fun _ => Rd.eats_bind (rdOctets_safe _ _).2 fun _ => Rd.eats_pure _
  · refine Rd.safe_bind (Rd.safe_bits 2) fun t => Rd.safe_ite (fun _ => Rd.safe_map (Rd.safe_bits _)) fun _ =>
      Rd.safe_ite (fun _ => Rd.safe_map (Rd.safe_bits _)) fun _ => Rd.safe_ite (fun _ => Rd.safe_map (Rd.safe_bits _)) fun _ => ?_
    exact Rd.safe_bind (Rd.safe_bits _) fun _ => Rd.safe_bind (rdOctets_safe _ _).1 fun _ => Rd.safe_pure _

theorem upTo_tame (n top : Nat) : (rdUpTo n top).Tame := by
  refine tame_of_safe ?_ ?_ <;> unfold rdUpTo
  · eats_rd
  · safe_rd

theorem cause_tame : rdCause.Tame := upTo_tame 5 23

theorem callStatus_tame : callStatus.Tame := upTo_tame 3 4

/-- Discharges the elements of a reader which are tame. -/
macro "tame_rd" : tactic => `(tactic| (
  repeat' first
    | exact tame_pure _
    | exact tame_bits _
    | exact tame_flag
    | exact tame_expectType _ _
    | exact BasicService.tame
    | exact Called.tame
    | exact Calling.tame
    | exact Sds.tame
    | exact cause_tame
    | exact callStatus_tame
    | exact tame_num2
    | exact trivial
    | apply tame_optional
    | refine tame_bind ?_ fun _ => ?_
    | refine And.intro ?_ ?_))

/-- `UAlert`: fields within their widths. -/
structure UAlert.Ok (x : UAlert) : Prop where
  callId : x.callId < 2 ^ 14
  basicService : ∀ v, x.basicService = some v → v.Ok
  facility : RawOk 3 x.facility
  proprietary : RawOk 15 x.proprietary

/-- **C38, CMCE.** U-ALERT. -/
theorem c38_cmce_u_alert (x : UAlert) (h : x.Ok) : RoundTrip UAlert.enc UAlert.dec x := by
  obtain ⟨bs, hw, hr⟩ := c09_optional_part UAlert.fields2 UAlert.fields34 ⟨by simp [Field.id?], by simp [Field.id?], by simp
    [Field.id?]⟩ (x.basicService, x.facility, x.proprietary, ()) ⟨fun v hv => basicService_roundTrip (h.basicService v hv),
    h.facility, h.proprietary, trivial⟩
  simp only [List.cons_append, List.nil_append] at hw hr
  apply roundTrip_of
  simp [UAlert.enc, UAlert.dec, hw, hr, wBits_ok, run_expectType, Rd.run_bits_append, h.callId]

/-- `UConnect`: fields within their widths. -/
structure UConnect.Ok (x : UConnect) : Prop where
  callId : x.callId < 2 ^ 14
  basicService : ∀ v, x.basicService = some v → v.Ok
  facility : RawOk 3 x.facility
  proprietary : RawOk 15 x.proprietary

/-- **C38, CMCE.** U-CONNECT. -/
theorem c38_cmce_u_connect (x : UConnect) (h : x.Ok) : RoundTrip UConnect.enc UConnect.dec x := by
  obtain ⟨bs, hw, hr⟩ := c09_optional_part UConnect.fields2 UConnect.fields34 ⟨by simp [Field.id?], by simp [Field.id?], by simp
    [Field.id?]⟩ (x.basicService, x.facility, x.proprietary, ()) ⟨fun v hv => basicService_roundTrip (h.basicService v hv),
    h.facility, h.proprietary, trivial⟩
  simp only [List.cons_append, List.nil_append] at hw hr
  apply roundTrip_of
  simp [UConnect.enc, UConnect.dec, hw, hr, wBits_ok, run_expectType, Rd.run_bits_append, h.callId]

/-- `UDisconnect`: fields within their widths. -/
structure UDisconnect.Ok (x : UDisconnect) : Prop where
  callId : x.callId < 2 ^ 14
  cause : x.cause ≤ 23
  facility : RawOk 3 x.facility
  proprietary : RawOk 15 x.proprietary

/-- **C38, CMCE.** U-DISCONNECT. -/
theorem c38_cmce_u_disconnect (x : UDisconnect) (h : x.Ok) : RoundTrip UDisconnect.enc UDisconnect.dec x := by
  obtain ⟨bs, hw, hr⟩ := c09_optional_part [] UDisconnect.fields34 ⟨by simp [Field.id?], by simp [Field.id?], by simp
    [Field.id?]⟩ (x.facility, x.proprietary, ()) ⟨h.facility, h.proprietary, trivial⟩
  simp only [List.cons_append, List.nil_append] at hw hr
  have qcause : x.cause < 2 ^ 5 := by have := h.cause; omega
  apply roundTrip_of
  simp [UDisconnect.enc, UDisconnect.dec, hw, hr, wBits_ok, run_expectType, Rd.run_bits_append, h.callId, qcause, h.cause,
    rdUpTo]

/-- `UInfo`: fields within their widths. -/
structure UInfo.Ok (x : UInfo) : Prop where
  callId : x.callId < 2 ^ 14
  modify : NumOk 9 x.modify
  dtmf : RawOk 1 x.dtmf
  facility : RawOk 3 x.facility
  proprietary : RawOk 15 x.proprietary

/-- **C38, CMCE.** U-INFO. -/
theorem c38_cmce_u_info (x : UInfo) (h : x.Ok) : RoundTrip UInfo.enc UInfo.dec x := by
  obtain ⟨bs, hw, hr⟩ := c09_optional_part UInfo.fields2 UInfo.fields34 ⟨by simp [Field.id?], by simp [Field.id?], by simp
    [Field.id?]⟩ (x.modify, x.dtmf, x.facility, x.proprietary, ()) ⟨h.modify.carries (by omega), h.dtmf, h.facility,
    h.proprietary, trivial⟩
  simp only [List.cons_append, List.nil_append] at hw hr
  apply roundTrip_of
  simp [UInfo.enc, UInfo.dec, hw, hr, wBits_ok, run_expectType, Rd.run_bits_append, h.callId]

/-- `URelease`: fields within their widths. -/
structure URelease.Ok (x : URelease) : Prop where
  callId : x.callId < 2 ^ 14
  cause : x.cause ≤ 23
  facility : RawOk 3 x.facility
  proprietary : RawOk 15 x.proprietary

/-- **C38, CMCE.** U-RELEASE. -/
theorem c38_cmce_u_release (x : URelease) (h : x.Ok) : RoundTrip URelease.enc URelease.dec x := by
  obtain ⟨bs, hw, hr⟩ := c09_optional_part [] URelease.fields34 ⟨by simp [Field.id?], by simp [Field.id?], by simp [Field.id?]⟩
    (x.facility, x.proprietary, ()) ⟨h.facility, h.proprietary, trivial⟩
  simp only [List.cons_append, List.nil_append] at hw hr
  have qcause : x.cause < 2 ^ 5 := by have := h.cause; omega
  apply roundTrip_of
  simp [URelease.enc, URelease.dec, hw, hr, wBits_ok, run_expectType, Rd.run_bits_append, h.callId, qcause, h.cause, rdUpTo]

/-- `USetup`: fields within their widths. -/
structure USetup.Ok (x : USetup) : Prop where
  area : x.area < 2 ^ 4
  basicService : x.basicService.Ok
  priority : x.priority < 2 ^ 4
  clir : x.clir < 2 ^ 2
  called : x.called.Ok
  externalNumber : RawOk 2 x.externalNumber
  facility : RawOk 3 x.facility
  dmAddress : RawOk 6 x.dmAddress
  proprietary : RawOk 15 x.proprietary

/-- **C38, CMCE.** U-SETUP. -/
theorem c38_cmce_u_setup (x : USetup) (h : x.Ok) : RoundTrip USetup.enc USetup.dec x := by
  obtain ⟨bs, hw, hr⟩ := c09_optional_part [] USetup.fields34 ⟨by simp [Field.id?], by simp [Field.id?], by simp [Field.id?]⟩
    (x.externalNumber, x.facility, x.dmAddress, x.proprietary, ()) ⟨h.externalNumber, h.facility, h.dmAddress, h.proprietary,
    trivial⟩
  simp only [List.cons_append, List.nil_append] at hw hr
  obtain ⟨bbasicService, wbasicService, rbasicService⟩ := basicService_roundTrip h.basicService
  obtain ⟨bcalled, wcalled, rcalled⟩ := called_roundTrip h.called
  apply roundTrip_of
  simp [USetup.enc, USetup.dec, hw, hr, wBits_ok, run_expectType, Rd.run_bits_append, h.area, wbasicService, rbasicService,
    h.priority, h.clir, wcalled, rcalled]

/-- `UStatus`: fields within their widths. -/
structure UStatus.Ok (x : UStatus) : Prop where
  area : x.area < 2 ^ 4
  called : x.called.Ok
  status : x.status.Ok
  externalNumber : RawOk 2 x.externalNumber
  dmAddress : RawOk 6 x.dmAddress

/-- **C38, CMCE.** U-STATUS. -/
theorem c38_cmce_u_status (x : UStatus) (h : x.Ok) : RoundTrip UStatus.enc UStatus.dec x := by
  obtain ⟨bs, hw, hr⟩ := c09_optional_part [] UStatus.fields34 ⟨by simp [Field.id?], by simp [Field.id?], by simp [Field.id?]⟩
    (x.externalNumber, x.dmAddress, ()) ⟨h.externalNumber, h.dmAddress, trivial⟩
  simp only [List.cons_append, List.nil_append] at hw hr
  obtain ⟨bcalled, wcalled, rcalled⟩ := called_roundTrip h.called
  obtain ⟨bstatus, wstatus, rstatus⟩ := status_roundTrip h.status
  apply roundTrip_of
  simp [UStatus.enc, UStatus.dec, hw, hr, wBits_ok, run_expectType, Rd.run_bits_append, h.area, wcalled, rcalled, wstatus,
    rstatus]

/-- `UTxCeased`: fields within their widths. -/
structure UTxCeased.Ok (x : UTxCeased) : Prop where
  callId : x.callId < 2 ^ 14
  facility : RawOk 3 x.facility
  dmAddress : RawOk 6 x.dmAddress
  proprietary : RawOk 15 x.proprietary

/-- **C38, CMCE.** U-TX CEASED. -/
theorem c38_cmce_u_tx_ceased (x : UTxCeased) (h : x.Ok) : RoundTrip UTxCeased.enc UTxCeased.dec x := by
  obtain ⟨bs, hw, hr⟩ := c09_optional_part [] UTxCeased.fields34 ⟨by simp [Field.id?], by simp [Field.id?], by simp [Field.id?]⟩
    (x.facility, x.dmAddress, x.proprietary, ()) ⟨h.facility, h.dmAddress, h.proprietary, trivial⟩
  simp only [List.cons_append, List.nil_append] at hw hr
  apply roundTrip_of
  simp [UTxCeased.enc, UTxCeased.dec, hw, hr, wBits_ok, run_expectType, Rd.run_bits_append, h.callId]

/-- `UTxDemand`: fields within their widths. -/
structure UTxDemand.Ok (x : UTxDemand) : Prop where
  callId : x.callId < 2 ^ 14
  priority : x.priority < 2 ^ 2
  facility : RawOk 3 x.facility
  dmAddress : RawOk 6 x.dmAddress
  proprietary : RawOk 15 x.proprietary

/-- **C38, CMCE.** U-TX DEMAND. -/
theorem c38_cmce_u_tx_demand (x : UTxDemand) (h : x.Ok) : RoundTrip UTxDemand.enc UTxDemand.dec x := by
  obtain ⟨bs, hw, hr⟩ := c09_optional_part [] UTxDemand.fields34 ⟨by simp [Field.id?], by simp [Field.id?], by simp [Field.id?]⟩
    (x.facility, x.dmAddress, x.proprietary, ()) ⟨h.facility, h.dmAddress, h.proprietary, trivial⟩
  simp only [List.cons_append, List.nil_append] at hw hr
  apply roundTrip_of
  simp [UTxDemand.enc, UTxDemand.dec, hw, hr, wBits_ok, run_expectType, Rd.run_bits_append, h.callId, h.priority]

/-- `UCallRestore`: fields within their widths. -/
structure UCallRestore.Ok (x : UCallRestore) : Prop where
  callId : x.callId < 2 ^ 14
  otherParty : x.otherParty.Ok
  basicService : ∀ v, x.basicService = some v → v.Ok
  facility : RawOk 3 x.facility
  dmAddress : RawOk 6 x.dmAddress
  proprietary : RawOk 15 x.proprietary

/-- **C38, CMCE.** U-CALL RESTORE. -/
theorem c38_cmce_u_call_restore (x : UCallRestore) (h : x.Ok) : RoundTrip UCallRestore.enc UCallRestore.dec x := by
  obtain ⟨bs, hw, hr⟩ := c09_optional_part UCallRestore.fields2 UCallRestore.fields34 ⟨by simp [Field.id?], by simp [Field.id?],
    by simp [Field.id?]⟩ (x.basicService, x.facility, x.dmAddress, x.proprietary, ()) ⟨fun v hv => basicService_roundTrip
    (h.basicService v hv), h.facility, h.dmAddress, h.proprietary, trivial⟩
  simp only [List.cons_append, List.nil_append] at hw hr
  obtain ⟨botherParty, wotherParty, rotherParty⟩ := called_roundTrip h.otherParty
  apply roundTrip_of
  simp [UCallRestore.enc, UCallRestore.dec, hw, hr, wBits_ok, run_expectType, Rd.run_bits_append, h.callId, wotherParty,
    rotherParty]

/-- `USdsData`: fields within their widths. -/
structure USdsData.Ok (x : USdsData) : Prop where
  area : x.area < 2 ^ 4
  called : x.called.Ok
  data : x.data.Ok
  externalNumber : RawOk 2 x.externalNumber
  dmAddress : RawOk 6 x.dmAddress

/-- **C38, CMCE.** U-SDS DATA. -/
theorem c38_cmce_u_sds_data (x : USdsData) (h : x.Ok) : RoundTrip USdsData.enc USdsData.dec x := by
  obtain ⟨bs, hw, hr⟩ := c09_optional_part [] USdsData.fields34 ⟨by simp [Field.id?], by simp [Field.id?], by simp [Field.id?]⟩
    (x.externalNumber, x.dmAddress, ()) ⟨h.externalNumber, h.dmAddress, trivial⟩
  simp only [List.cons_append, List.nil_append] at hw hr
  obtain ⟨bcalled, wcalled, rcalled⟩ := called_roundTrip h.called
  obtain ⟨bdata, wdata, rdata⟩ := sds_roundTrip h.data
  apply roundTrip_of
  simp [USdsData.enc, USdsData.dec, hw, hr, wBits_ok, run_expectType, Rd.run_bits_append, h.area, wcalled, rcalled, wdata,
    rdata]

/-- `DAlert`: fields within their widths. -/
structure DAlert.Ok (x : DAlert) : Prop where
  callId : x.callId < 2 ^ 14
  setupTimeout : x.setupTimeout < 2 ^ 3
  basicService : ∀ v, x.basicService = some v → v.Ok
  notification : NumOk 6 x.notification
  facility : RawOk 3 x.facility
  proprietary : RawOk 15 x.proprietary

/-- **C38, CMCE.** D-ALERT. -/
theorem c38_cmce_d_alert (x : DAlert) (h : x.Ok) : RoundTrip DAlert.enc DAlert.dec x := by
  obtain ⟨bs, hw, hr⟩ := c09_optional_part DAlert.fields2 DAlert.fields34 ⟨by simp [Field.id?], by simp [Field.id?], by simp
    [Field.id?]⟩ (x.basicService, x.notification, x.facility, x.proprietary, ()) ⟨fun v hv => basicService_roundTrip
    (h.basicService v hv), h.notification.carries (by omega), h.facility, h.proprietary, trivial⟩
  simp only [List.cons_append, List.nil_append] at hw hr
  apply roundTrip_of
  simp [DAlert.enc, DAlert.dec, hw, hr, wBits_ok, run_expectType, Rd.run_bits_append, h.callId, h.setupTimeout]

/-- `DCallProceeding`: fields within their widths. -/
structure DCallProceeding.Ok (x : DCallProceeding) : Prop where
  callId : x.callId < 2 ^ 14
  setupTimeout : x.setupTimeout < 2 ^ 3
  basicService : ∀ v, x.basicService = some v → v.Ok
  callStatus : ∀ v, x.callStatus = some v → v ≤ 4
  notification : NumOk 6 x.notification
  facility : RawOk 3 x.facility
  proprietary : RawOk 15 x.proprietary

/-- **C38, CMCE.** D-CALL PROCEEDING. -/
theorem c38_cmce_d_call_proceeding (x : DCallProceeding) (h : x.Ok) : RoundTrip DCallProceeding.enc DCallProceeding.dec x := by
  obtain ⟨bs, hw, hr⟩ := c09_optional_part DCallProceeding.fields2 DCallProceeding.fields34 ⟨by simp [Field.id?], by simp
    [Field.id?], by simp [Field.id?]⟩ (x.basicService, x.callStatus, x.notification, x.facility, x.proprietary, ()) ⟨fun v hv =>
    basicService_roundTrip (h.basicService v hv), fun v hv => callStatus_carries (h.callStatus v hv), h.notification.carries (by
    omega), h.facility, h.proprietary, trivial⟩
  simp only [List.cons_append, List.nil_append] at hw hr
  apply roundTrip_of
  simp [DCallProceeding.enc, DCallProceeding.dec, hw, hr, wBits_ok, run_expectType, Rd.run_bits_append, h.callId,
    h.setupTimeout]

/-- `DConnect`: fields within their widths. -/
structure DConnect.Ok (x : DConnect) : Prop where
  callId : x.callId < 2 ^ 14
  timeout : x.timeout < 2 ^ 4
  grant : x.grant < 2 ^ 2
  priority : NumOk 4 x.priority
  basicService : ∀ v, x.basicService = some v → v.Ok
  temporaryAddress : NumOk 24 x.temporaryAddress
  notification : NumOk 6 x.notification
  facility : RawOk 3 x.facility
  proprietary : RawOk 15 x.proprietary

/-- **C38, CMCE.** D-CONNECT. -/
theorem c38_cmce_d_connect (x : DConnect) (h : x.Ok) : RoundTrip DConnect.enc DConnect.dec x := by
  obtain ⟨bs, hw, hr⟩ := c09_optional_part DConnect.fields2 DConnect.fields34 ⟨by simp [Field.id?], by simp [Field.id?], by simp
    [Field.id?]⟩ (x.priority, x.basicService, x.temporaryAddress, x.notification, x.facility, x.proprietary, ())
    ⟨h.priority.carries (by omega), fun v hv => basicService_roundTrip (h.basicService v hv), h.temporaryAddress.carries (by
    omega), h.notification.carries (by omega), h.facility, h.proprietary, trivial⟩
  simp only [List.cons_append, List.nil_append] at hw hr
  apply roundTrip_of
  simp [DConnect.enc, DConnect.dec, hw, hr, wBits_ok, run_expectType, Rd.run_bits_append, h.callId, h.timeout, h.grant]

/-- `DConnectAcknowledge`: fields within their widths. -/
structure DConnectAcknowledge.Ok (x : DConnectAcknowledge) : Prop where
  callId : x.callId < 2 ^ 14
  timeout : x.timeout < 2 ^ 4
  grant : x.grant < 2 ^ 2
  notification : NumOk 6 x.notification
  facility : RawOk 3 x.facility
  proprietary : RawOk 15 x.proprietary

/-- **C38, CMCE.** D-CONNECT ACKNOWLEDGE. -/
theorem c38_cmce_d_connect_acknowledge (x : DConnectAcknowledge) (h : x.Ok) : RoundTrip DConnectAcknowledge.enc DConnectAcknowledge.dec x := by
  obtain ⟨bs, hw, hr⟩ := c09_optional_part DConnectAcknowledge.fields2 DConnectAcknowledge.fields34 ⟨by simp [Field.id?], by
    simp [Field.id?], by simp [Field.id?]⟩ (x.notification, x.facility, x.proprietary, ()) ⟨h.notification.carries (by omega),
    h.facility, h.proprietary, trivial⟩
  simp only [List.cons_append, List.nil_append] at hw hr
  apply roundTrip_of
  simp [DConnectAcknowledge.enc, DConnectAcknowledge.dec, hw, hr, wBits_ok, run_expectType, Rd.run_bits_append, h.callId,
    h.timeout, h.grant]

/-- `DDisconnect`: fields within their widths. -/
structure DDisconnect.Ok (x : DDisconnect) : Prop where
  callId : x.callId < 2 ^ 14
  cause : x.cause ≤ 23
  notification : NumOk 6 x.notification
  facility : RawOk 3 x.facility
  proprietary : RawOk 15 x.proprietary

/-- **C38, CMCE.** D-DISCONNECT. -/
theorem c38_cmce_d_disconnect (x : DDisconnect) (h : x.Ok) : RoundTrip DDisconnect.enc DDisconnect.dec x := by
  obtain ⟨bs, hw, hr⟩ := c09_optional_part DDisconnect.fields2 DDisconnect.fields34 ⟨by simp [Field.id?], by simp [Field.id?],
    by simp [Field.id?]⟩ (x.notification, x.facility, x.proprietary, ()) ⟨h.notification.carries (by omega), h.facility,
    h.proprietary, trivial⟩
  simp only [List.cons_append, List.nil_append] at hw hr
  have qcause : x.cause < 2 ^ 5 := by have := h.cause; omega
  apply roundTrip_of
  simp [DDisconnect.enc, DDisconnect.dec, hw, hr, wBits_ok, run_expectType, Rd.run_bits_append, h.callId, qcause, h.cause,
    rdUpTo]

/-- `DInfo`: fields within their widths. -/
structure DInfo.Ok (x : DInfo) : Prop where
  callId : x.callId < 2 ^ 14
  newCallId : NumOk 14 x.newCallId
  timeout : NumOk 4 x.timeout
  setupTimeout : NumOk 3 x.setupTimeout
  ownership : NumOk 1 x.ownership
  modify : NumOk 9 x.modify
  callStatus : NumOk 3 x.callStatus
  temporaryAddress : NumOk 24 x.temporaryAddress
  notification : NumOk 6 x.notification
  pollPercentage : NumOk 6 x.pollPercentage
  pollNumber : NumOk 6 x.pollNumber
  dtmf : RawOk 1 x.dtmf
  facility : RawOk 3 x.facility
  pollAddresses : RawOk 4 x.pollAddresses
  proprietary : RawOk 15 x.proprietary

/-- **C38, CMCE.** D-INFO. -/
theorem c38_cmce_d_info (x : DInfo) (h : x.Ok) : RoundTrip DInfo.enc DInfo.dec x := by
  obtain ⟨bs, hw, hr⟩ := c09_optional_part DInfo.fields2 DInfo.fields34 ⟨by simp [Field.id?], by simp [Field.id?], by simp
    [Field.id?]⟩ (x.newCallId, x.timeout, x.setupTimeout, x.ownership, x.modify, x.callStatus, x.temporaryAddress,
    x.notification, x.pollPercentage, x.pollNumber, x.dtmf, x.facility, x.pollAddresses, x.proprietary, ()) ⟨h.newCallId.carries
    (by omega), h.timeout.carries (by omega), h.setupTimeout.carries (by omega), h.ownership.carries (by omega),
    h.modify.carries (by omega), h.callStatus.carries (by omega), h.temporaryAddress.carries (by omega), h.notification.carries
    (by omega), h.pollPercentage.carries (by omega), h.pollNumber.carries (by omega), h.dtmf, h.facility, h.pollAddresses,
    h.proprietary, trivial⟩
  simp only [List.cons_append, List.nil_append] at hw hr
  apply roundTrip_of
  simp [DInfo.enc, DInfo.dec, hw, hr, wBits_ok, run_expectType, Rd.run_bits_append, h.callId]

/-- `DRelease`: fields within their widths. -/
structure DRelease.Ok (x : DRelease) : Prop where
  callId : x.callId < 2 ^ 14
  cause : x.cause ≤ 23
  notification : NumOk 6 x.notification
  facility : RawOk 3 x.facility
  proprietary : RawOk 15 x.proprietary

/-- **C38, CMCE.** D-RELEASE. -/
theorem c38_cmce_d_release (x : DRelease) (h : x.Ok) : RoundTrip DRelease.enc DRelease.dec x := by
  obtain ⟨bs, hw, hr⟩ := c09_optional_part DRelease.fields2 DRelease.fields34 ⟨by simp [Field.id?], by simp [Field.id?], by simp
    [Field.id?]⟩ (x.notification, x.facility, x.proprietary, ()) ⟨h.notification.carries (by omega), h.facility, h.proprietary,
    trivial⟩
  simp only [List.cons_append, List.nil_append] at hw hr
  have qcause : x.cause < 2 ^ 5 := by have := h.cause; omega
  apply roundTrip_of
  simp [DRelease.enc, DRelease.dec, hw, hr, wBits_ok, run_expectType, Rd.run_bits_append, h.callId, qcause, h.cause, rdUpTo]

/-- `DStatus`: fields within their widths. -/
structure DStatus.Ok (x : DStatus) : Prop where
  calling : x.calling.Ok
  status : x.status.Ok
  externalNumber : RawOk 2 x.externalNumber
  dmAddress : RawOk 6 x.dmAddress

/-- **C38, CMCE.** D-STATUS. -/
theorem c38_cmce_d_status (x : DStatus) (h : x.Ok) : RoundTrip DStatus.enc DStatus.dec x := by
  obtain ⟨bs, hw, hr⟩ := c09_optional_part [] DStatus.fields34 ⟨by simp [Field.id?], by simp [Field.id?], by simp [Field.id?]⟩
    (x.externalNumber, x.dmAddress, ()) ⟨h.externalNumber, h.dmAddress, trivial⟩
  simp only [List.cons_append, List.nil_append] at hw hr
  obtain ⟨bcalling, wcalling, rcalling⟩ := calling_roundTrip h.calling
  obtain ⟨bstatus, wstatus, rstatus⟩ := status_roundTrip h.status
  apply roundTrip_of
  simp [DStatus.enc, DStatus.dec, hw, hr, wBits_ok, run_expectType, Rd.run_bits_append, wcalling, rcalling, wstatus, rstatus]

/-- `DTxCeased`: fields within their widths. -/
structure DTxCeased.Ok (x : DTxCeased) : Prop where
  callId : x.callId < 2 ^ 14
  notification : NumOk 6 x.notification
  facility : RawOk 3 x.facility
  dmAddress : RawOk 6 x.dmAddress
  proprietary : RawOk 15 x.proprietary

/-- **C38, CMCE.** D-TX CEASED. -/
theorem c38_cmce_d_tx_ceased (x : DTxCeased) (h : x.Ok) : RoundTrip DTxCeased.enc DTxCeased.dec x := by
  obtain ⟨bs, hw, hr⟩ := c09_optional_part DTxCeased.fields2 DTxCeased.fields34 ⟨by simp [Field.id?], by simp [Field.id?], by
    simp [Field.id?]⟩ (x.notification, x.facility, x.dmAddress, x.proprietary, ()) ⟨h.notification.carries (by omega),
    h.facility, h.dmAddress, h.proprietary, trivial⟩
  simp only [List.cons_append, List.nil_append] at hw hr
  apply roundTrip_of
  simp [DTxCeased.enc, DTxCeased.dec, hw, hr, wBits_ok, run_expectType, Rd.run_bits_append, h.callId]

/-- `DTxContinue`: fields within their widths. -/
structure DTxContinue.Ok (x : DTxContinue) : Prop where
  callId : x.callId < 2 ^ 14
  notification : NumOk 6 x.notification
  facility : RawOk 3 x.facility
  dmAddress : RawOk 6 x.dmAddress
  proprietary : RawOk 15 x.proprietary

/-- **C38, CMCE.** D-TX CONTINUE. -/
theorem c38_cmce_d_tx_continue (x : DTxContinue) (h : x.Ok) : RoundTrip DTxContinue.enc DTxContinue.dec x := by
  obtain ⟨bs, hw, hr⟩ := c09_optional_part DTxContinue.fields2 DTxContinue.fields34 ⟨by simp [Field.id?], by simp [Field.id?],
    by simp [Field.id?]⟩ (x.notification, x.facility, x.dmAddress, x.proprietary, ()) ⟨h.notification.carries (by omega),
    h.facility, h.dmAddress, h.proprietary, trivial⟩
  simp only [List.cons_append, List.nil_append] at hw hr
  apply roundTrip_of
  simp [DTxContinue.enc, DTxContinue.dec, hw, hr, wBits_ok, run_expectType, Rd.run_bits_append, h.callId]

/-- `DTxGranted`: fields within their widths. -/
structure DTxGranted.Ok (x : DTxGranted) : Prop where
  callId : x.callId < 2 ^ 14
  grant : x.grant < 2 ^ 2
  notification : NumOk 6 x.notification
  transmitting : ∀ v, x.transmitting = some v → v.Ok
  externalNumber : RawOk 2 x.externalNumber
  facility : RawOk 3 x.facility
  dmAddress : RawOk 6 x.dmAddress
  proprietary : RawOk 15 x.proprietary

/-- **C38, CMCE.** D-TX GRANTED. -/
theorem c38_cmce_d_tx_granted (x : DTxGranted) (h : x.Ok) : RoundTrip DTxGranted.enc DTxGranted.dec x := by
  obtain ⟨bs, hw, hr⟩ := c09_optional_part DTxGranted.fields2 DTxGranted.fields34 ⟨by simp [Field.id?], by simp [Field.id?], by
    simp [Field.id?]⟩ (x.notification, x.transmitting, x.externalNumber, x.facility, x.dmAddress, x.proprietary, ())
    ⟨h.notification.carries (by omega), fun v hv => calling_roundTrip (h.transmitting v hv), h.externalNumber, h.facility,
    h.dmAddress, h.proprietary, trivial⟩
  simp only [List.cons_append, List.nil_append] at hw hr
  apply roundTrip_of
  simp [DTxGranted.enc, DTxGranted.dec, hw, hr, wBits_ok, run_expectType, Rd.run_bits_append, h.callId, h.grant]

/-- `DTxWait`: fields within their widths. -/
structure DTxWait.Ok (x : DTxWait) : Prop where
  callId : x.callId < 2 ^ 14
  notification : NumOk 6 x.notification
  facility : RawOk 3 x.facility
  dmAddress : RawOk 6 x.dmAddress
  proprietary : RawOk 15 x.proprietary

/-- **C38, CMCE.** D-TX WAIT. -/
theorem c38_cmce_d_tx_wait (x : DTxWait) (h : x.Ok) : RoundTrip DTxWait.enc DTxWait.dec x := by
  obtain ⟨bs, hw, hr⟩ := c09_optional_part DTxWait.fields2 DTxWait.fields34 ⟨by simp [Field.id?], by simp [Field.id?], by simp
    [Field.id?]⟩ (x.notification, x.facility, x.dmAddress, x.proprietary, ()) ⟨h.notification.carries (by omega), h.facility,
    h.dmAddress, h.proprietary, trivial⟩
  simp only [List.cons_append, List.nil_append] at hw hr
  apply roundTrip_of
  simp [DTxWait.enc, DTxWait.dec, hw, hr, wBits_ok, run_expectType, Rd.run_bits_append, h.callId]

/-- `DTxInterrupt`: fields within their widths. -/
structure DTxInterrupt.Ok (x : DTxInterrupt) : Prop where
  callId : x.callId < 2 ^ 14
  grant : x.grant < 2 ^ 2
  notification : NumOk 6 x.notification
  partyType : NumOk 2 x.partyType
  partySsi : NumOk 24 x.partySsi
  partyExt : NumOk 24 x.partyExt
  externalNumber : RawOk 2 x.externalNumber
  facility : RawOk 3 x.facility
  dmAddress : RawOk 6 x.dmAddress
  proprietary : RawOk 15 x.proprietary

/-- **C38, CMCE.** D-TX INTERRUPT. -/
theorem c38_cmce_d_tx_interrupt (x : DTxInterrupt) (h : x.Ok) : RoundTrip DTxInterrupt.enc DTxInterrupt.dec x := by
  obtain ⟨bs, hw, hr⟩ := c09_optional_part DTxInterrupt.fields2 DTxInterrupt.fields34 ⟨by simp [Field.id?], by simp [Field.id?],
    by simp [Field.id?]⟩ (x.notification, x.partyType, x.partySsi, x.partyExt, x.externalNumber, x.facility, x.dmAddress,
    x.proprietary, ()) ⟨h.notification.carries (by omega), h.partyType.carries (by omega), h.partySsi.carries (by omega),
    h.partyExt.carries (by omega), h.externalNumber, h.facility, h.dmAddress, h.proprietary, trivial⟩
  simp only [List.cons_append, List.nil_append] at hw hr
  apply roundTrip_of
  simp [DTxInterrupt.enc, DTxInterrupt.dec, hw, hr, wBits_ok, run_expectType, Rd.run_bits_append, h.callId, h.grant]

/-- `DCallRestore`: fields within their widths. -/
structure DCallRestore.Ok (x : DCallRestore) : Prop where
  callId : x.callId < 2 ^ 14
  grant : x.grant < 2 ^ 2
  newCallId : NumOk 14 x.newCallId
  timeout : NumOk 4 x.timeout
  callStatus : NumOk 3 x.callStatus
  modify : NumOk 9 x.modify
  notification : NumOk 6 x.notification
  facility : RawOk 3 x.facility
  temporaryAddress : RawOk 5 x.temporaryAddress
  dmAddress : RawOk 6 x.dmAddress
  proprietary : RawOk 15 x.proprietary

/-- **C38, CMCE.** D-CALL RESTORE. -/
theorem c38_cmce_d_call_restore (x : DCallRestore) (h : x.Ok) : RoundTrip DCallRestore.enc DCallRestore.dec x := by
  obtain ⟨bs, hw, hr⟩ := c09_optional_part DCallRestore.fields2 DCallRestore.fields34 ⟨by simp [Field.id?], by simp [Field.id?],
    by simp [Field.id?]⟩ (x.newCallId, x.timeout, x.callStatus, x.modify, x.notification, x.facility, x.temporaryAddress,
    x.dmAddress, x.proprietary, ()) ⟨h.newCallId.carries (by omega), h.timeout.carries (by omega), h.callStatus.carries (by
    omega), h.modify.carries (by omega), h.notification.carries (by omega), h.facility, h.temporaryAddress, h.dmAddress,
    h.proprietary, trivial⟩
  simp only [List.cons_append, List.nil_append] at hw hr
  apply roundTrip_of
  simp [DCallRestore.enc, DCallRestore.dec, hw, hr, wBits_ok, run_expectType, Rd.run_bits_append, h.callId, h.grant]

/-- `DSdsData`: fields within their widths. -/
structure DSdsData.Ok (x : DSdsData) : Prop where
  calling : x.calling.Ok
  data : x.data.Ok
  externalNumber : RawOk 2 x.externalNumber
  dmAddress : RawOk 6 x.dmAddress

/-- **C38, CMCE.** D-SDS DATA. -/
theorem c38_cmce_d_sds_data (x : DSdsData) (h : x.Ok) : RoundTrip DSdsData.enc DSdsData.dec x := by
  obtain ⟨bs, hw, hr⟩ := c09_optional_part [] DSdsData.fields34 ⟨by simp [Field.id?], by simp [Field.id?], by simp [Field.id?]⟩
    (x.externalNumber, x.dmAddress, ()) ⟨h.externalNumber, h.dmAddress, trivial⟩
  simp only [List.cons_append, List.nil_append] at hw hr
  obtain ⟨bcalling, wcalling, rcalling⟩ := calling_roundTrip h.calling
  obtain ⟨bdata, wdata, rdata⟩ := sds_roundTrip h.data
  apply roundTrip_of
  simp [DSdsData.enc, DSdsData.dec, hw, hr, wBits_ok, run_expectType, Rd.run_bits_append, wcalling, rcalling, wdata, rdata]

theorem UAlert.tame : UAlert.dec.Tame := by unfold UAlert.dec; tame_rd
theorem UConnect.tame : UConnect.dec.Tame := by unfold UConnect.dec; tame_rd
theorem UDisconnect.tame : UDisconnect.dec.Tame := by unfold UDisconnect.dec; tame_rd
theorem UInfo.tame : UInfo.dec.Tame := by unfold UInfo.dec; tame_rd
theorem URelease.tame : URelease.dec.Tame := by unfold URelease.dec; tame_rd
theorem USetup.tame : USetup.dec.Tame := by unfold USetup.dec; tame_rd
theorem UTxCeased.tame : UTxCeased.dec.Tame := by unfold UTxCeased.dec; tame_rd
theorem UTxDemand.tame : UTxDemand.dec.Tame := by unfold UTxDemand.dec; tame_rd
theorem UCallRestore.tame : UCallRestore.dec.Tame := by unfold UCallRestore.dec; tame_rd
theorem USdsData.tame : USdsData.dec.Tame := by unfold USdsData.dec; tame_rd
theorem DAlert.tame : DAlert.dec.Tame := by unfold DAlert.dec; tame_rd
theorem DCallProceeding.tame : DCallProceeding.dec.Tame := by unfold DCallProceeding.dec; tame_rd
theorem DConnect.tame : DConnect.dec.Tame := by unfold DConnect.dec; tame_rd
theorem DConnectAcknowledge.tame : DConnectAcknowledge.dec.Tame := by unfold DConnectAcknowledge.dec; tame_rd
theorem DDisconnect.tame : DDisconnect.dec.Tame := by unfold DDisconnect.dec; tame_rd
theorem DInfo.tame : DInfo.dec.Tame := by unfold DInfo.dec; tame_rd
theorem DRelease.tame : DRelease.dec.Tame := by unfold DRelease.dec; tame_rd
theorem DTxCeased.tame : DTxCeased.dec.Tame := by unfold DTxCeased.dec; tame_rd
theorem DTxContinue.tame : DTxContinue.dec.Tame := by unfold DTxContinue.dec; tame_rd
theorem DTxGranted.tame : DTxGranted.dec.Tame := by unfold DTxGranted.dec; tame_rd
theorem DTxWait.tame : DTxWait.dec.Tame := by unfold DTxWait.dec; tame_rd
theorem DTxInterrupt.tame : DTxInterrupt.dec.Tame := by unfold DTxInterrupt.dec; tame_rd
theorem DCallRestore.tame : DCallRestore.dec.Tame := by unfold DCallRestore.dec; tame_rd
theorem DSdsData.tame : DSdsData.dec.Tame := by unfold DSdsData.dec; tame_rd
theorem DSetup.tame : DSetup.dec.Tame := by unfold DSetup.dec; tame_rd

/-- `DSetup`: fields within their widths, and an extension only with an address. -/
structure DSetup.Ok (x : DSetup) : Prop where
  callId : x.callId < 2 ^ 14
  timeout : x.timeout < 2 ^ 4
  basicService : x.basicService.Ok
  grant : x.grant < 2 ^ 2
  priority : x.priority < 2 ^ 4
  notification : NumOk 6 x.notification
  temporaryAddress : NumOk 24 x.temporaryAddress
  callingSsi : NumOk 24 x.callingSsi
  callingExt : NumOk 24 x.callingExt
  calling : x.callingSsi = none → x.callingExt = none
  externalNumber : RawOk 2 x.externalNumber
  facility : RawOk 3 x.facility
  dmAddress : RawOk 6 x.dmAddress
  proprietary : RawOk 15 x.proprietary

theorem DSetup.Ok.caller {x : DSetup} (h : x.Ok) :
    ∃ c, x.caller = .ok c ∧ (∀ v, c = some v → v.Ok) ∧ c.bind (·.ssi) = x.callingSsi ∧ c.bind (·.ext) = x.callingExt := by
  have h1 := h.callingSsi
  have h2 := h.callingExt
  have h3 := h.calling
  unfold DSetup.caller
  cases hs : x.callingSsi with
  | none =>
    cases he : x.callingExt with
    | none => exact ⟨none, rfl, by simp, rfl, rfl⟩
    | some e => rw [h3 hs] at he; cases he
  | some s =>
    cases he : x.callingExt with
    | none =>
      refine ⟨_, rfl, ?_, rfl, rfl⟩
      rintro v ⟨⟩
      exact ⟨by simp, by simpa using h1 s hs, by simp⟩
    | some e =>
      refine ⟨_, rfl, ?_, rfl, rfl⟩
      rintro v ⟨⟩
      exact ⟨by simp, by simpa using h1 s hs, by simpa using h2 e he⟩

/-- **C38, CMCE.** D-SETUP. -/
theorem c38_cmce_d_setup (x : DSetup) (h : x.Ok) : RoundTrip DSetup.enc DSetup.dec x := by
  obtain ⟨c, hc, hok, hs, he⟩ := h.caller
  obtain ⟨bs, hw, hr⟩ := c09_optional_part DSetup.fields2 DSetup.fields34 ⟨by simp [Field.id?], by simp [Field.id?], by simp [Field.id?]⟩
    (x.notification, x.temporaryAddress, c, x.externalNumber, x.facility, x.dmAddress, x.proprietary, ())
    ⟨h.notification.carries (by omega), h.temporaryAddress.carries (by omega), fun v hv => calling_roundTrip (hok v hv),
      h.externalNumber, h.facility, h.dmAddress, h.proprietary, trivial⟩
  simp only [List.cons_append, List.nil_append] at hw hr
  obtain ⟨bb, wb, rb⟩ := basicService_roundTrip h.basicService
  apply roundTrip_of
  simp [DSetup.enc, DSetup.dec, hc, hw, hr, wBits_ok, run_expectType, Rd.run_bits_append, h.callId, h.timeout, wb, rb, h.grant,
    h.priority, hs, he]

/-- An extension without an address is refused. -/
theorem c38_cmce_d_setup_refused (x : DSetup) (h : x.callId < 2 ^ 14) (h1 : x.timeout < 2 ^ 4) (h2 : x.basicService.Ok)
    (h3 : x.grant < 2 ^ 2) (h4 : x.priority < 2 ^ 4) (hs : x.callingSsi = none) (he : x.callingExt ≠ none) : x.enc = .err := by
  obtain ⟨bb, wb, _⟩ := basicService_roundTrip h2
  cases hx : x.callingExt with
  | none => exact (he hx).elim
  | some e => simp [DSetup.enc, DSetup.caller, hs, hx, wBits_ok, wb, h, h1, h3, h4]

/-- A group call set up by 1001 in call 7. -/
example : (⟨7, 3, false, false, ⟨0, false, 1, none, some 0⟩, 3, false, 0, none, none, some 1001, none, none, none, none, none⟩ : DSetup).Ok := by
  refine ⟨?_, ?_, ⟨?_, ?_, ?_, ?_⟩, ?_, ?_, ?_, ?_, ?_, ?_, ?_, ?_, ?_, ?_, ?_⟩ <;> simp [NumOk, RawOk]

theorem run_optional_nil (rest : List Bool) : (rdOptional []).run (false :: rest) = .ok ((), rest) := rfl

/-- **C38, CMCE.** U-FACILITY and D-FACILITY. -/
theorem c38_cmce_facility : ∃ bs, facilityEnc = .ok bs ∧ ∀ rest, facilityDec.run (bs ++ rest) = .ok ((), rest) := by
  refine ⟨toBits 5 16 ++ [false], ?_, fun rest => ?_⟩
  · simp [facilityEnc, wBits_ok]
  · simp [facilityDec, run_expectType, run_optional_nil]

theorem facility_tame : facilityDec.Tame := by unfold facilityDec; tame_rd

/-- **C38, CMCE.** CMCE FUNCTION NOT SUPPORTED is read back when it points at nothing. -/
theorem c38_cmce_not_supported (x : NotSupported) (h : x.pduType < 2 ^ 5) (hc : x.callIdPresent = x.callId.isSome)
    (hi : NumOk 14 x.callId) (h0 : x.pointer = 0) (hl : x.length = none) (he : x.extract = none) :
    RoundTrip NotSupported.enc NotSupported.dec x := by
  obtain ⟨t, p, c, ptr, l, e⟩ := x
  simp only at h hc hi h0 hl he
  subst h0 hl he hc
  apply roundTrip_of
  cases c with
  | none =>
    simp [NotSupported.enc, NotSupported.dec, NotSupported.finish, wBits_ok, run_expectType, Rd.run_bits_append, h,
      run_optional_nil]
  | some v =>
    have hv : v < 2 ^ 14 := hi v rfl
    simp [NotSupported.enc, NotSupported.dec, NotSupported.finish, wBits_ok, run_expectType, Rd.run_bits_append, h,
      run_optional_nil, hv]

/-- **Finding (C38).** A pointer which is not zero, followed by a length, makes the reader abort. -/
theorem c38_cmce_not_supported_abort (t ptr len : Nat) (ht : t < 2 ^ 5) (h0 : ptr ≠ 0) (hp : ptr < 2 ^ 8) (hl : len < 2 ^ 8)
    (rest : List Bool) :
    NotSupported.dec.run (toBits 5 31 ++ (toBits 5 t ++ (false :: (toBits 8 ptr ++ (toBits 8 len ++ rest))))) = .panic := by
  simp [NotSupported.dec, run_expectType, Rd.run_bits_append, ht, hp, hl, h0]

/-! ## What the readers of short data give -/

theorem gives_rdIf_bits (c : Bool) (n : Nat) :
    (rdIf c (Rd.bits n)).Gives fun v => if c = true then ∃ w, v = some w ∧ w < 2 ^ n else v = none := by
  cases c with
  | false => exact Rd.gives_pure (by simp)
  | true => exact Rd.gives_map (Rd.gives_bits n) fun w hw => by simpa using hw

theorem called_gives : Called.dec.Gives Called.Ok := by
  refine Rd.gives_bind (Rd.gives_bits 2) fun k hk => Rd.gives_bind (gives_rdIf_bits _ 8) fun a ha =>
    Rd.gives_bind (gives_rdIf_bits _ 24) fun s hs => Rd.gives_bind (gives_rdIf_bits _ 24) fun e he => Rd.gives_pure ?_
  exact ⟨hk, by simpa using ha, by simpa using hs, by simpa using he⟩

theorem rdOctets_gives (len : Nat) :
    (rdOctets ((len + 7) / 8) len).Gives fun data => len ≤ 8 * data.length ∧ (∀ d ∈ data, d < 256) ∧ trimOctets data len = data := by
  induction len using Nat.strongRecOn with
  | _ len ih =>
    by_cases h0 : len = 0
    · subst h0
      exact Rd.gives_pure (by simp [trimOctets])
    by_cases h8 : len < 8
    · rw [show (len + 7) / 8 = 0 + 1 by omega]
      simp only [rdOctets, Nat.min_eq_left (show len ≤ 8 by omega)]
      refine Rd.gives_bind (Rd.gives_bits len) fun v hv => Rd.gives_bind (P := (· = [])) (Rd.gives_pure rfl) fun vs hvs => Rd.gives_pure ?_
      subst hvs
      have hp : 2 ^ len * 2 ^ (8 - len) = 256 := by rw [← Nat.pow_add, show len + (8 - len) = 8 by omega]
      have hpos : 0 < 2 ^ (8 - len) := Nat.two_pow_pos _
      refine ⟨by simp; omega, ?_, ?_⟩
      · intro d hd
        simp only [List.mem_singleton] at hd
        subst hd
        have := Nat.mul_lt_mul_of_pos_right hv hpos
        omega
      · simp only [trimOctets, h0, h8, if_true, if_false, Nat.mul_div_cancel _ hpos]
    · rw [show (len + 7) / 8 = (len - 8 + 7) / 8 + 1 by omega]
      simp only [rdOctets, Nat.min_eq_right (show 8 ≤ len by omega)]
      refine Rd.gives_bind (Rd.gives_bits 8) fun v hv => Rd.gives_bind (ih (len - 8) (by omega)) fun vs hvs => Rd.gives_pure ?_
      obtain ⟨q1, q2, q3⟩ := hvs
      refine ⟨by simp; omega, ?_, ?_⟩
      · intro d hd
        rcases List.mem_cons.1 hd with rfl | hd
        · simpa using hv
        · exact q2 d hd
      · simp only [trimOctets, h0, h8, if_false, q3, Nat.sub_self, Nat.pow_zero, Nat.mul_one]

theorem sds_gives : Sds.dec.Gives Sds.Ok := by
  unfold Sds.dec
  refine Rd.gives_bind (Rd.gives_any _) fun t _ => Rd.gives_ite (fun _ => Rd.gives_map (Rd.gives_bits 16) fun v hv => ⟨hv, rfl⟩) fun _ =>
    Rd.gives_ite (fun _ => Rd.gives_map (Rd.gives_bits 32) fun v hv => ⟨hv, rfl⟩) fun _ =>
    Rd.gives_ite (fun _ => Rd.gives_map (Rd.gives_bits 64) fun v hv => ⟨hv, rfl⟩) fun _ =>
    Rd.gives_bind (Rd.gives_bits 11) fun len hl => Rd.gives_bind (rdOctets_gives len) fun data hd => Rd.gives_pure ?_
  exact ⟨⟨hl, hd.1, hd.2.1⟩, by simp [Sds.trim, hd.2.2]⟩

theorem status_gives : Status.dec.Gives Status.Ok := by
  unfold Status.dec
  refine Rd.gives_bind (Rd.gives_bits 16) fun v hv => ?_
  cases h : Status.ofRaw v with
  | ok s => exact Rd.gives_pure (ofRaw_ok hv h).1
  | panic => intro bs x r h; simp at h

/-- What a mobile sends as short data can be sent on. -/
theorem uSdsData_gives : USdsData.dec.Gives fun x => x.called.Ok ∧ x.data.Ok :=
  Rd.gives_bind (Rd.gives_any _) fun _ _ => Rd.gives_bind (Rd.gives_any _) fun _ _ =>
    Rd.gives_bind called_gives fun _ hc => Rd.gives_bind sds_gives fun _ hs => Rd.gives_bind (Rd.gives_any _) fun _ _ =>
    Rd.gives_pure ⟨hc, hs⟩

theorem uStatus_gives : UStatus.dec.Gives fun x => x.called.Ok ∧ x.status.Ok :=
  Rd.gives_bind (Rd.gives_any _) fun _ _ => Rd.gives_bind (Rd.gives_any _) fun _ _ =>
    Rd.gives_bind called_gives fun _ hc => Rd.gives_bind status_gives fun _ hs => Rd.gives_bind (Rd.gives_any _) fun _ _ =>
    Rd.gives_pure ⟨hc, hs⟩

/-! ## When the readers abort -/

/-- Somewhere in the bits stand the sixteen bits of the status 31743. -/
def HasStatus31743 (bs : List Bool) : Prop := ∃ pre rest, bs = pre ++ (toBits 16 31743 ++ rest)

theorem status_abort {bs : List Bool} (h : Status.dec.run bs = .panic) : HasStatus31743 bs := by
  simp only [Status.dec, Rd.run_bind, Out.bind_eq_panic] at h
  rcases h with h | ⟨⟨v, r⟩, h1, h2⟩
  · exact (Rd.safe_bits 16 bs h).elim
  · obtain ⟨_, rfl, _⟩ := run_bits_ok h1
    cases hv : Status.ofRaw v with
    | ok s => simp [hv] at h2
    | panic =>
      rw [(ofRaw_panic v).1 hv]
      exact ⟨[], r, rfl⟩

theorem Status.eats : Status.dec.Eats := by
  unfold Status.dec
  refine Rd.eats_bind (Rd.eats_bits 16) fun v => ?_
  cases Status.ofRaw v with
  | ok s => exact Rd.eats_pure _
  | panic => intro bs x r h; simp at h

/-- **C38, CMCE.** The reader of U-STATUS aborts only on a bad element or on the status 31743. -/
theorem c38_cmce_u_status_abort (bs : List Bool) (h : UStatus.dec.run bs = .panic) :
    HasStatus31743 bs ∨ ∃ pre s, bs = pre ++ s ∧ BadElement s := by
  simp only [UStatus.dec, Rd.run_bind, Out.bind_eq_panic] at h
  rcases h with h | ⟨⟨a0, r0⟩, h0, h⟩
  · exact (safe_expectType 5 8 bs h).elim
  obtain ⟨l0, rfl⟩ := eats_expectType _ _ _ _ _ h0
  rcases h with h | ⟨⟨a1, r1⟩, h1, h⟩
  · exact (Rd.safe_bits 4 _ h).elim
  obtain ⟨l1, rfl⟩ := Rd.eats_bits _ _ _ _ h1
  rcases h with h | ⟨⟨a2, r2⟩, h2, h⟩
  · obtain ⟨p, s, rfl, hs⟩ := Called.tame.2 _ h
    exact Or.inr ⟨l0 ++ (l1 ++ p), s, by simp, hs⟩
  obtain ⟨l2, rfl⟩ := Called.tame.1 _ _ _ h2
  rcases h with h | ⟨⟨a3, r3⟩, h3, h⟩
  · obtain ⟨p, s, rfl⟩ := status_abort h
    exact Or.inl ⟨l0 ++ (l1 ++ (l2 ++ p)), s, by simp⟩
  obtain ⟨l3, rfl⟩ := Status.eats _ _ _ h3
  rcases h with h | ⟨_, _, h⟩
  · obtain ⟨p, s, rfl, hs⟩ := (tame_optional (fs := UStatus.fields34) ⟨trivial, trivial, trivial⟩).2 _ h
    exact Or.inr ⟨l0 ++ (l1 ++ (l2 ++ (l3 ++ p))), s, by simp, hs⟩
  · simp at h

/-- **Finding (C38, C39).** A U-STATUS to a short address with the status 31743 makes the reader abort, whatever follows. -/
theorem c38_cmce_u_status_31743 (area ssi : Nat) (ha : area < 2 ^ 4) (hs : ssi < 2 ^ 24) (rest : List Bool) :
    UStatus.dec.run (toBits 5 8 ++ (toBits 4 area ++ (toBits 2 1 ++ (toBits 24 ssi ++ (toBits 16 31743 ++ rest))))) = .panic := by
  have : Status.ofRaw 31743 = .panic := (ofRaw_panic _).2 rfl
  simp [UStatus.dec, run_expectType, Rd.run_bits_append, Called.dec, Status.dec, this, ha, hs]

/-- **C38, CMCE.** The other readers the base station uses abort only on a bad element. -/
theorem c38_cmce_uplink_abort :
    AbortsOnBadElement UAlert.dec ∧ AbortsOnBadElement UConnect.dec ∧ AbortsOnBadElement UDisconnect.dec ∧
    AbortsOnBadElement UInfo.dec ∧ AbortsOnBadElement URelease.dec ∧ AbortsOnBadElement USetup.dec ∧
    AbortsOnBadElement UTxCeased.dec ∧ AbortsOnBadElement UTxDemand.dec ∧ AbortsOnBadElement UCallRestore.dec ∧
    AbortsOnBadElement USdsData.dec ∧ AbortsOnBadElement facilityDec :=
  ⟨UAlert.tame.2, UConnect.tame.2, UDisconnect.tame.2, UInfo.tame.2, URelease.tame.2, USetup.tame.2, UTxCeased.tame.2,
    UTxDemand.tame.2, UCallRestore.tame.2, USdsData.tame.2, facility_tame.2⟩

end Verif.Cmce.Pdu
