import Verif.Mm.Pdus
/-!
# C38: mobility management PDUs survive encode/decode
-/
namespace Verif.Mm
open Verif.Bits Verif.Codec Verif.TypedFields

/-! ## Values which can be carried -/

/-- Exactly one of class of usage and detachment reason; a group number, with or without extension, or a visitor group
number alone. -/
def GroupUplink.Ok (x : GroupUplink) : Prop :=
  ((∃ c < 8, x.classOfUsage = some c ∧ x.detachment = none) ∨ (∃ d < 4, x.classOfUsage = none ∧ x.detachment = some d)) ∧
  ((∃ g < 2 ^ 24, x.gssi = some g ∧ x.vgssi = none ∧ ∀ e, x.addressExtension = some e → e < 2 ^ 24) ∨
    (∃ v < 2 ^ 24, x.gssi = none ∧ x.addressExtension = none ∧ x.vgssi = some v))

/-- Number of bits an entry takes. -/
def GroupUplink.size (x : GroupUplink) : Nat :=
  (if x.classOfUsage.isSome then 6 else 5) + 24 * ([x.gssi, x.addressExtension, x.vgssi].filter Option.isSome).length

def Attachment.Ok (x : Attachment) : Prop := x.lifetime < 4 ∧ x.classOfUsage < 8

/-- Likewise for the downlink, where a group number may also come with extension and visitor group number. -/
def GroupDownlink.Ok (x : GroupDownlink) : Prop :=
  ((∃ a, x.attachment = some a ∧ a.Ok ∧ x.detachment = none) ∨ (∃ d < 4, x.attachment = none ∧ x.detachment = some d)) ∧
  ((∃ g < 2 ^ 24, x.gssi = some g ∧ (∀ e, x.addressExtension = some e → e < 2 ^ 24) ∧ (∀ v, x.vgssi = some v → v < 2 ^ 24) ∧
      (x.vgssi.isSome → x.addressExtension.isSome)) ∨
    (∃ v < 2 ^ 24, x.gssi = none ∧ x.addressExtension = none ∧ x.vgssi = some v))

def GroupDownlink.size (x : GroupDownlink) : Nat :=
  (if x.attachment.isSome then 8 else 5) + 24 * ([x.gssi, x.addressExtension, x.vgssi].filter Option.isSome).length

/-- A repetition of uplink entries whose count and length have room in the six and eleven bits for them. -/
def UplinkList (gs : List GroupUplink) : Prop :=
  gs.length < 64 ∧ (∀ g ∈ gs, g.Ok) ∧ 6 + (gs.map GroupUplink.size).sum < 2048
def DownlinkList (gs : List GroupDownlink) : Prop :=
  gs.length < 64 ∧ (∀ g ∈ gs, g.Ok) ∧ 6 + (gs.map GroupDownlink.size).sum < 2048

/-! ## Elements -/

theorem groupUplink_sized {x : GroupUplink} (h : x.Ok) : Sized GroupUplink.enc GroupUplink.dec x x.size := by
  obtain ⟨cls, det, gssi, ext, vgssi⟩ := x
  obtain ⟨h1, h2⟩ := h
  simp only at h1 h2
  rcases h1 with ⟨c, hc, rfl, rfl⟩ | ⟨d, hd, rfl, rfl⟩ <;> rcases h2 with ⟨g, hg, rfl, rfl, he⟩ | ⟨v, hv, rfl, rfl, rfl⟩
  · cases ext with
    | none =>
      apply sized_of
      simp [GroupUplink.enc, GroupUplink.dec, GroupUplink.addressType, GroupUplink.size, wBits_ok, Rd.run_bits_append, hc, hg]
    | some e =>
      have := he e rfl
      apply sized_of
      simp [GroupUplink.enc, GroupUplink.dec, GroupUplink.addressType, GroupUplink.size, wBits_ok, Rd.run_bits_append, hc, hg, this]
  · apply sized_of
    simp [GroupUplink.enc, GroupUplink.dec, GroupUplink.addressType, GroupUplink.size, wBits_ok, Rd.run_bits_append, hc, hv]
  · cases ext with
    | none =>
      apply sized_of
      simp [GroupUplink.enc, GroupUplink.dec, GroupUplink.addressType, GroupUplink.size, wBits_ok, Rd.run_bits_append, hd, hg]
    | some e =>
      have := he e rfl
      apply sized_of
      simp [GroupUplink.enc, GroupUplink.dec, GroupUplink.addressType, GroupUplink.size, wBits_ok, Rd.run_bits_append, hd, hg, this]
  · apply sized_of
    simp [GroupUplink.enc, GroupUplink.dec, GroupUplink.addressType, GroupUplink.size, wBits_ok, Rd.run_bits_append, hd, hv]

theorem attachment_sized {x : Attachment} (h : x.Ok) : Sized Attachment.enc Attachment.dec x 5 := by
  obtain ⟨l, c⟩ := x
  obtain ⟨h1, h2⟩ := h
  simp only at h1 h2
  apply sized_of
  simp [Attachment.enc, Attachment.dec, wBits_ok, Rd.run_bits_append, h1, h2]

theorem groupDownlink_sized {x : GroupDownlink} (h : x.Ok) : Sized GroupDownlink.enc GroupDownlink.dec x x.size := by
  obtain ⟨att, det, gssi, ext, vgssi⟩ := x
  obtain ⟨h1, h2⟩ := h
  simp only at h1 h2
  rcases h1 with ⟨a, rfl, ha, rfl⟩ | ⟨d, hd, rfl, rfl⟩
  · obtain ⟨ab, aw, al, ar⟩ := attachment_sized ha
    rcases h2 with ⟨g, hg, rfl, he, hv, hve⟩ | ⟨v, hv, rfl, rfl, rfl⟩
    · cases ext with
      | none =>
        cases vgssi with
        | some v => simp at hve
        | none =>
          apply sized_of
          simp [GroupDownlink.enc, GroupDownlink.dec, GroupDownlink.addressType, GroupDownlink.size, wBits_ok, Rd.run_bits_append, aw, al, ar, hg]
      | some e =>
        have := he e rfl
        cases vgssi with
        | some v =>
          have := hv v rfl
          apply sized_of
          simp [GroupDownlink.enc, GroupDownlink.dec, GroupDownlink.addressType, GroupDownlink.size, wBits_ok, Rd.run_bits_append, aw, al, ar, hg, *]
        | none =>
          apply sized_of
          simp [GroupDownlink.enc, GroupDownlink.dec, GroupDownlink.addressType, GroupDownlink.size, wBits_ok, Rd.run_bits_append, aw, al, ar, hg, this]
    · apply sized_of
      simp [GroupDownlink.enc, GroupDownlink.dec, GroupDownlink.addressType, GroupDownlink.size, wBits_ok, Rd.run_bits_append, aw, al, ar, hv]
  · rcases h2 with ⟨g, hg, rfl, he, hv, hve⟩ | ⟨v, hv, rfl, rfl, rfl⟩
    · cases ext with
      | none =>
        cases vgssi with
        | some v => simp at hve
        | none =>
          apply sized_of
          simp [GroupDownlink.enc, GroupDownlink.dec, GroupDownlink.addressType, GroupDownlink.size, wBits_ok, Rd.run_bits_append, hd, hg]
      | some e =>
        have := he e rfl
        cases vgssi with
        | some v =>
          have := hv v rfl
          apply sized_of
          simp [GroupDownlink.enc, GroupDownlink.dec, GroupDownlink.addressType, GroupDownlink.size, wBits_ok, Rd.run_bits_append, hd, hg, *]
        | none =>
          apply sized_of
          simp [GroupDownlink.enc, GroupDownlink.dec, GroupDownlink.addressType, GroupDownlink.size, wBits_ok, Rd.run_bits_append, hd, hg, this]
    · apply sized_of
      simp [GroupDownlink.enc, GroupDownlink.dec, GroupDownlink.addressType, GroupDownlink.size, wBits_ok, Rd.run_bits_append, hd, hv]

theorem cat_sized {α : Type} {w : α → Out (List Bool)} {p : Rd α} {size : α → Nat} (xs : List α)
    (h : ∀ x ∈ xs, Sized w p x (size x)) {bs : List Bool} (hb : cat (xs.map w) = .ok bs) : bs.length = (xs.map size).sum := by
  induction xs generalizing bs with
  | nil => simp at hb; simp [← hb]
  | cons x xs ih =>
    obtain ⟨b1, w1, l1, _⟩ := h x (by simp)
    simp only [List.map_cons, cat_cons, w1, Out.bind_ok, Out.bind_eq_ok] at hb
    obtain ⟨b2, w2, e⟩ := hb
    simp only [Out.ok.injEq] at e
    simp [← e, l1, ih (fun y hy => h y (by simp [hy])) w2]

theorem UplinkList.carries {gs : List GroupUplink} (h : UplinkList gs) : Field.CarriesMany GroupUplink.enc GroupUplink.dec gs := by
  obtain ⟨h1, h2, h3⟩ := h
  refine ⟨h1, fun g hg => (groupUplink_sized (h2 g hg)).roundTrip, fun bs hb => ?_⟩
  rw [cat_sized gs (fun g hg => groupUplink_sized (h2 g hg)) hb]
  exact h3

theorem DownlinkList.carries {gs : List GroupDownlink} (h : DownlinkList gs) : Field.CarriesMany GroupDownlink.enc GroupDownlink.dec gs := by
  obtain ⟨h1, h2, h3⟩ := h
  refine ⟨h1, fun g hg => (groupDownlink_sized (h2 g hg)).roundTrip, fun bs hb => ?_⟩
  rw [cat_sized gs (fun g hg => groupDownlink_sized (h2 g hg)) hb]
  exact h3

/-- A demand: mode of one bit; its groups, with the headers around them, leave room in the eleven bits for its length. -/
def LocationDemand.Ok (x : LocationDemand) : Prop :=
  x.mode < 2 ∧ ∀ gs, x.groups = some gs → UplinkList gs ∧ 26 + (gs.map GroupUplink.size).sum < 2048
def LocationAccept.Ok (x : LocationAccept) : Prop :=
  x.acceptReject < 2 ∧ ∀ gs, x.groups = some gs → DownlinkList gs ∧ 26 + (gs.map GroupDownlink.size).sum < 2048

theorem wOptional_type4 {α : Type} {w : α → Out (List Bool)} {p : Rd α} {id : Nat} (hid : id < 16) {xs : List α} (hx : xs.length < 64)
    {body : List Bool} (hb : cat (xs.map w) = .ok body) (hl : 6 + body.length < 2048) :
    wOptional [.type4 id w p] (some xs, ()) =
      .ok (true :: true :: (toBits 4 id ++ (toBits 11 (6 + body.length) ++ (toBits 6 xs.length ++ (body ++ [false]))))) := by
  simp [wOptional, anyPresent, writeAll, Field.write, wType4, wHeader, wEnd, hb,
    wBits_ok (show 4 ≤ 64 by omega) (show id < 2 ^ 4 by simpa using hid),
    wBits_ok (show 11 ≤ 64 by omega) (show 6 + body.length < 2 ^ 11 by simpa using hl),
    wBits_ok (show 6 ≤ 64 by omega) (show xs.length < 2 ^ 6 by simpa using hx)]

theorem locationDemand_roundTrip {x : LocationDemand} (h : x.Ok) :
    ∃ bs, x.enc = .ok bs ∧ bs.length < 2048 ∧ ∀ rest, LocationDemand.dec.run (bs ++ rest) = .ok (x, rest) := by
  obtain ⟨mode, groups⟩ := x
  obtain ⟨h1, h2⟩ := h
  simp only at h1 h2
  obtain ⟨bs, hw, hr⟩ := c09_optional_part [] LocationDemand.fields ⟨by simp, by simp [Field.id?], by simp [Field.id?]⟩
    (groups, ()) ⟨fun gs hg => (h2 gs hg).1.carries, trivial⟩
  simp only [List.nil_append] at hw hr
  refine ⟨toBits 1 0 ++ (toBits 1 mode ++ bs), ?_, ?_, ?_⟩
  · simp [LocationDemand.enc, wBits_ok, h1, hw]
  · cases groups with
    | none =>
      have hq : wOptional LocationDemand.fields (none, ()) = .ok [false] := rfl
      have := hw.symm.trans hq
      simp only [Out.ok.injEq] at this
      simp [this]
    | some gs =>
      obtain ⟨⟨q1, q2, q3⟩, h4⟩ := h2 gs rfl
      obtain ⟨body, hb, _⟩ := rdMany_append (w := GroupUplink.enc) (p := GroupUplink.dec) gs fun g hg => (groupUplink_sized (q2 g hg)).roundTrip
      have hlen := cat_sized gs (fun g hg => groupUplink_sized (q2 g hg)) hb
      have hq := wOptional_type4 (w := GroupUplink.enc) (p := GroupUplink.dec) (id := 8) (by omega) q1 hb (by omega)
      have := hw.symm.trans hq
      simp only [Out.ok.injEq] at this
      simp [this]; omega
  · intro rest
    simp [LocationDemand.dec, Rd.run_bits_append, h1, hr]

theorem locationAccept_roundTrip {x : LocationAccept} (h : x.Ok) :
    ∃ bs, x.enc = .ok bs ∧ bs.length < 2048 ∧ ∀ rest, LocationAccept.dec.run (bs ++ rest) = .ok (x, rest) := by
  obtain ⟨mode, groups⟩ := x
  obtain ⟨h1, h2⟩ := h
  simp only at h1 h2
  obtain ⟨bs, hw, hr⟩ := c09_optional_part [] LocationAccept.fields ⟨by simp, by simp [Field.id?], by simp [Field.id?]⟩
    (groups, ()) ⟨fun gs hg => (h2 gs hg).1.carries, trivial⟩
  simp only [List.nil_append] at hw hr
  refine ⟨toBits 1 mode ++ (toBits 1 0 ++ bs), ?_, ?_, ?_⟩
  · simp [LocationAccept.enc, wBits_ok, h1, hw]
  · cases groups with
    | none =>
      have hq : wOptional LocationAccept.fields (none, ()) = .ok [false] := rfl
      have := hw.symm.trans hq
      simp only [Out.ok.injEq] at this
      simp [this]
    | some gs =>
      obtain ⟨⟨q1, q2, q3⟩, h4⟩ := h2 gs rfl
      obtain ⟨body, hb, _⟩ := rdMany_append (w := GroupDownlink.enc) (p := GroupDownlink.dec) gs fun g hg => (groupDownlink_sized (q2 g hg)).roundTrip
      have hlen := cat_sized gs (fun g hg => groupDownlink_sized (q2 g hg)) hb
      have hq := wOptional_type4 (w := GroupDownlink.enc) (p := GroupDownlink.dec) (id := 7) (by omega) q1 hb (by omega)
      have := hw.symm.trans hq
      simp only [Out.ok.injEq] at this
      simp [this]; omega
  · intro rest
    simp [LocationAccept.dec, Rd.run_bits_append, h1, hr]

/-! ## C38: PDUs -/

/-- **C38, MM.** U-ITSI DETACH. -/
theorem c38_mm_itsi_detach (x : UItsiDetach) (h1 : NumOk 24 x.addressExtension) (h2 : RawOk 15 x.proprietary) :
    RoundTrip UItsiDetach.enc UItsiDetach.dec x := by
  obtain ⟨bs, hw, hr⟩ := c09_optional_part UItsiDetach.fields2 UItsiDetach.fields34
    ⟨by simp [Field.id?], by simp [Field.id?], by simp [Field.id?]⟩ (x.addressExtension, x.proprietary, ())
    ⟨h1.carries (by omega), h2, trivial⟩
  simp only [List.cons_append, List.nil_append] at hw hr
  exact ⟨toBits 4 1 ++ bs, by simp [UItsiDetach.enc, hw, wBits_ok], fun rest => by
    simp [UItsiDetach.dec, run_expectType, hr]⟩

/-- Fields of U-LOCATION UPDATE DEMAND within their widths; ciphering parameters exactly when cipher control is on. -/
structure ULocationUpdateDemand.Ok (x : ULocationUpdateDemand) : Prop where
  updateType : x.updateType < 8
  cipher : x.cipheringParameters.isSome = x.cipherControl
  cipheringParameters : NumOk 10 x.cipheringParameters
  classOfMs : NumOk 24 x.classOfMs
  energySavingMode : NumOk 3 x.energySavingMode
  laInformation : NumOk 14 x.laInformation
  ssi : NumOk 24 x.ssi
  addressExtension : NumOk 24 x.addressExtension
  groupDemand : ∀ g, x.groupDemand = some g → g.Ok
  groupReportResponse : RawOk 4 x.groupReportResponse
  authenticationUplink : RawOk 9 x.authenticationUplink
  extendedCapabilities : RawOk 11 x.extendedCapabilities
  proprietary : RawOk 15 x.proprietary

theorem la_roundTrip {v : Nat} (h : v < 2 ^ 14) : laField.Carries v := by
  refine ⟨toBits 15 (2 * v), wBits_ok (by omega) (by omega), fun rest => ?_⟩
  simp [Rd.run_bits_append (show 15 ≤ 64 by omega) (show 2 * v < 2 ^ 15 by omega)]

/-- **C38, MM.** U-LOCATION UPDATE DEMAND. -/
theorem c38_mm_location_update_demand (x : ULocationUpdateDemand) (h : x.Ok) :
    RoundTrip ULocationUpdateDemand.enc ULocationUpdateDemand.dec x := by
  obtain ⟨bs, hw, hr⟩ := c09_optional_part ULocationUpdateDemand.fields2 ULocationUpdateDemand.fields34
    ⟨by simp [Field.id?], by simp [Field.id?], by simp [Field.id?]⟩
    (x.classOfMs, x.energySavingMode, x.laInformation, x.ssi, x.addressExtension, x.groupDemand, x.groupReportResponse,
      x.authenticationUplink, x.extendedCapabilities, x.proprietary, ())
    ⟨h.classOfMs.carries (by omega), h.energySavingMode.carries (by omega), fun v hv => la_roundTrip (h.laInformation v hv),
      h.ssi.carries (by omega), h.addressExtension.carries (by omega), fun g hg => by
        obtain ⟨b, w1, l1, r1⟩ := locationDemand_roundTrip (h.groupDemand g hg)
        exact ⟨⟨b, w1, r1⟩, fun b' hb => by rw [w1] at hb; cases hb; exact l1⟩,
      h.groupReportResponse, h.authenticationUplink, h.extendedCapabilities, h.proprietary, trivial⟩
  simp only [List.cons_append, List.nil_append] at hw hr
  have ht := h.updateType
  have hc := h.cipher
  have hp := h.cipheringParameters
  obtain ⟨t, la, cc, cp, v⟩ := x
  simp only at ht hc hp hw hr
  apply roundTrip_of
  cases cp with
  | none =>
    simp only [Option.isSome_none] at hc
    simp [ULocationUpdateDemand.enc, hw, wBits_ok, ht, ULocationUpdateDemand.dec, run_expectType, Rd.run_bits_append, ← hc, hr]
  | some c =>
    simp only [Option.isSome_some] at hc
    have := hp c rfl
    simp [ULocationUpdateDemand.enc, hw, wBits_ok, ht, ULocationUpdateDemand.dec, run_expectType, Rd.run_bits_append, ← hc, hr, this]

/-- **C38, MM.** U-ATTACH/DETACH GROUP IDENTITY. -/
theorem c38_mm_attach_detach (x : UAttachDetach) (h1 : RawOk 4 x.groupReportResponse)
    (h2 : ∀ gs, x.groups = some gs → UplinkList gs) (h3 : RawOk 15 x.proprietary) :
    RoundTrip UAttachDetach.enc UAttachDetach.dec x := by
  obtain ⟨bs, hw, hr⟩ := c09_optional_part [] UAttachDetach.fields ⟨by simp, by simp [Field.id?], by simp [Field.id?]⟩
    (x.groupReportResponse, x.groups, x.proprietary, ()) ⟨h1, fun gs hg => (h2 gs hg).carries, h3, trivial⟩
  simp only [List.nil_append] at hw hr
  apply roundTrip_of
  simp [UAttachDetach.enc, hw, wBits_ok, UAttachDetach.dec, run_expectType, hr]

/-- **C38, MM.** U-ATTACH/DETACH GROUP IDENTITY ACKNOWLEDGEMENT. -/
theorem c38_mm_uplink_ack (x : UAttachDetachAck) (h2 : ∀ gs, x.groups = some gs → UplinkList gs) (h3 : RawOk 15 x.proprietary) :
    RoundTrip UAttachDetachAck.enc UAttachDetachAck.dec x := by
  obtain ⟨bs, hw, hr⟩ := c09_optional_part [] UAttachDetachAck.fields ⟨by simp, by simp [Field.id?], by simp [Field.id?]⟩
    (x.groups, x.proprietary, ()) ⟨fun gs hg => (h2 gs hg).carries, h3, trivial⟩
  simp only [List.nil_append] at hw hr
  apply roundTrip_of
  simp [UAttachDetachAck.enc, hw, wBits_ok, UAttachDetachAck.dec, run_expectType, hr]

/-- The assigned values of an uplink status: 1-7, 16-24 and 32-63 are not reserved. -/
def AssignedStatus (n : Nat) : Prop := 1 ≤ n ∧ n ≤ 7 ∨ 16 ≤ n ∧ n ≤ 24 ∨ 32 ≤ n ∧ n ≤ 63

theorem statusKnown_iff (n : Nat) : statusKnown n = true ↔ AssignedStatus n := by
  simp [statusKnown, AssignedStatus]; omega

/-- **C38, MM.** A reserved status is refused, whatever follows. -/
theorem c38_mm_status_reserved (n : Nat) (hn : n < 64) (h : ¬ AssignedStatus n) (rest : List Bool) :
    UMmStatus.dec.run (toBits 4 3 ++ (toBits 6 n ++ rest)) = .err := by
  rw [← statusKnown_iff] at h
  simp [UMmStatus.dec, run_expectType, Rd.run_bits_append, hn, h]

/-- **C38, MM.** U-MM STATUS, which takes the rest of the PDU: an assigned status, with or without 1 to 64 bits of dependent
information, when nothing follows. -/
theorem c38_mm_status (x : UMmStatus) (h0 : AssignedStatus x.status)
    (h2 : ∀ n v, x.info = some (n, v) → 0 < n ∧ n ≤ 64 ∧ v < 2 ^ n) :
    ∃ bs, x.enc = .ok bs ∧ UMmStatus.dec.run bs = .ok (x, []) := by
  have h1 := (statusKnown_iff _).mpr h0
  obtain ⟨s, info⟩ := x
  simp only at h0 h1 h2
  have hs : s < 64 := by unfold AssignedStatus at h0; omega
  cases info with
  | none =>
    refine ⟨toBits 4 3 ++ toBits 6 s, by simp [UMmStatus.enc, wBits_ok, hs], ?_⟩
    have := Rd.run_bits_append (show 6 ≤ 64 by omega) (show s < 2 ^ 6 by omega) []
    rw [List.append_nil] at this
    simp [UMmStatus.dec, run_expectType, this, h1]
  | some i =>
    obtain ⟨n, v⟩ := i
    obtain ⟨q1, q2, q3⟩ := h2 n v rfl
    refine ⟨toBits 4 3 ++ (toBits 6 s ++ toBits n v), by simp [UMmStatus.enc, wBits_ok, hs, q2, q3], ?_⟩
    have := Rd.run_bits_append q2 q3 []
    rw [List.append_nil] at this
    simp [UMmStatus.dec, run_expectType, Rd.run_bits_append, hs, h1, q1, this]

/-- Fields of D-LOCATION UPDATE ACCEPT within their widths. The elements whose writers are missing (new registered area, group
security information) and the energy saving information, whose writer and reader do not fit together, are absent. -/
structure DLocationUpdateAccept.Ok (x : DLocationUpdateAccept) : Prop where
  acceptType : x.acceptType < 8
  ssi : NumOk 24 x.ssi
  addressExtension : NumOk 24 x.addressExtension
  subscriberClass : NumOk 16 x.subscriberClass
  energySaving : x.energySaving = none
  scch : NumOk 6 x.scch
  newRegisteredArea : x.newRegisteredArea = none
  securityDownlink : RawOk 3 x.securityDownlink
  groupAccept : ∀ g, x.groupAccept = some g → g.Ok
  defaultLifetime : RawOk 1 x.defaultLifetime
  authenticationDownlink : RawOk 10 x.authenticationDownlink
  groupSecurity : x.groupSecurity = none
  cellTypeControl : RawOk 13 x.cellTypeControl
  proprietary : RawOk 15 x.proprietary

/-- **C38, MM.** D-LOCATION UPDATE ACCEPT. -/
theorem c38_mm_location_update_accept (x : DLocationUpdateAccept) (h : x.Ok) :
    RoundTrip DLocationUpdateAccept.enc DLocationUpdateAccept.dec x := by
  obtain ⟨bs, hw, hr⟩ := c09_optional_part DLocationUpdateAccept.fields2 DLocationUpdateAccept.fields34
    ⟨by simp [Field.id?], by simp [Field.id?], by simp [Field.id?]⟩
    (x.ssi, x.addressExtension, x.subscriberClass, x.energySaving, x.scch, x.newRegisteredArea, x.securityDownlink,
      x.groupAccept, x.defaultLifetime, x.authenticationDownlink, x.groupSecurity, x.cellTypeControl, x.proprietary, ())
    ⟨h.ssi.carries (by omega), h.addressExtension.carries (by omega), h.subscriberClass.carries (by omega),
      fun e he => (by rw [h.energySaving] at he; cases he), h.scch.carries (by omega),
      fun e he => (by rw [h.newRegisteredArea] at he; cases he), h.securityDownlink, fun g hg => by
        obtain ⟨b, w1, l1, r1⟩ := locationAccept_roundTrip (h.groupAccept g hg)
        exact ⟨⟨b, w1, r1⟩, fun b' hb => by rw [w1] at hb; cases hb; exact l1⟩,
      h.defaultLifetime, h.authenticationDownlink, fun e he => (by rw [h.groupSecurity] at he; cases he),
      h.cellTypeControl, h.proprietary, trivial⟩
  simp only [List.cons_append, List.nil_append] at hw hr
  have ht := h.acceptType
  apply roundTrip_of
  simp [DLocationUpdateAccept.enc, hw, wBits_ok, ht, DLocationUpdateAccept.dec, run_expectType, Rd.run_bits_append, hr]

/-- **C38, MM.** D-ATTACH/DETACH GROUP IDENTITY ACKNOWLEDGEMENT, without the element whose writer is missing. -/
theorem c38_mm_downlink_ack (x : DAttachDetachAck) (h0 : x.acceptReject < 2) (h1 : RawOk 15 x.proprietary)
    (h2 : ∀ gs, x.groups = some gs → DownlinkList gs) (h3 : x.groupSecurity = none) :
    RoundTrip DAttachDetachAck.enc DAttachDetachAck.dec x := by
  obtain ⟨bs, hw, hr⟩ := c09_optional_part [] DAttachDetachAck.fields ⟨by simp, by simp [Field.id?], by simp [Field.id?]⟩
    (x.proprietary, x.groups, x.groupSecurity, ())
    ⟨h1, fun gs hg => (h2 gs hg).carries, fun e he => (by rw [h3] at he; cases he), trivial⟩
  simp only [List.nil_append] at hw hr
  apply roundTrip_of
  simp [DAttachDetachAck.enc, hw, wBits_ok, h0, DAttachDetachAck.dec, run_expectType, Rd.run_bits_append, hr]

/-- **C38, MM.** D-ATTACH/DETACH GROUP IDENTITY, without the element whose writer is missing. -/
theorem c38_mm_downlink_attach (x : DAttachDetach) (h1 : RawOk 15 x.proprietary) (h4 : RawOk 4 x.groupReportResponse)
    (h2 : ∀ gs, x.groups = some gs → DownlinkList gs) (h3 : x.groupSecurity = none) :
    RoundTrip DAttachDetach.enc DAttachDetach.dec x := by
  obtain ⟨bs, hw, hr⟩ := c09_optional_part [] DAttachDetach.fields ⟨by simp, by simp [Field.id?], by simp [Field.id?]⟩
    (x.proprietary, x.groupReportResponse, x.groups, x.groupSecurity, ())
    ⟨h1, h4, fun gs hg => (h2 gs hg).carries, fun e he => (by rw [h3] at he; cases he), trivial⟩
  simp only [List.nil_append] at hw hr
  apply roundTrip_of
  simp [DAttachDetach.enc, hw, wBits_ok, DAttachDetach.dec, run_expectType, hr]

/-- **C38, MM.** D-LOCATION UPDATE PROCEEDING. -/
theorem c38_mm_proceeding (x : DLocationUpdateProceeding) (h0 : x.ssi < 2 ^ 24) (h1 : x.addressExtension < 2 ^ 24)
    (h2 : RawOk 15 x.proprietary) : RoundTrip DLocationUpdateProceeding.enc DLocationUpdateProceeding.dec x := by
  obtain ⟨bs, hw, hr⟩ := c09_optional_part [] DLocationUpdateProceeding.fields ⟨by simp, by simp [Field.id?], by simp [Field.id?]⟩
    (x.proprietary, ()) ⟨h2, trivial⟩
  simp only [List.nil_append] at hw hr
  apply roundTrip_of
  simp [DLocationUpdateProceeding.enc, hw, wBits_ok, h0, h1, DLocationUpdateProceeding.dec, run_expectType, Rd.run_bits_append, hr]

/-- A demand with two groups, one attached and one detached, an energy saving mode and a location area. -/
example : (⟨0, false, false, none, some 3, some 0, some 5, none, none,
    some ⟨1, some [⟨some 4, none, some 91, none, none⟩, ⟨none, some 1, some 92, some 7, none⟩]⟩, none, none, none, some ⟨15, 8, 200⟩⟩ :
    ULocationUpdateDemand).Ok := by
  constructor <;> simp [NumOk, RawOk, LocationDemand.Ok, UplinkList, GroupUplink.Ok, GroupUplink.size]

/-- An answer accepting a group. -/
example : (⟨0, some 1000, none, none, none, none, none, none, some ⟨0, some [⟨some ⟨1, 4⟩, none, some 91, none, none⟩]⟩, none, none, none,
    none, none⟩ : DLocationUpdateAccept).Ok := by
  constructor <;> simp [NumOk, RawOk, LocationAccept.Ok, DownlinkList, GroupDownlink.Ok, GroupDownlink.size, Attachment.Ok]

/-! ## What is not read back -/

/-- **Finding (C38).** The energy saving information is never read back as it was written, for any value: the reader fills in
the frame numbers where the writer refuses them and the other way round. -/
theorem c38_energy_saving_never (x : EnergySaving) : ¬ RoundTrip EnergySaving.enc EnergySaving.dec x := by
  obtain ⟨mode, f, m⟩ := x
  rintro ⟨bs, hw, hr⟩
  have hr := hr []
  rw [List.append_nil] at hr
  simp only [EnergySaving.enc, cat_cons, Out.bind_eq_ok] at hw
  obtain ⟨a, ha, b, ⟨c, hc, d, hd, hb⟩, e⟩ := hw
  have : d = [] := by simpa using hd.symm
  subst this
  have hm : mode < 8 := by
    simp only [wBits] at ha; split at ha
    · rename_i h; simpa using h.2
    · cases ha
  by_cases h0 : mode = 0
  · subst h0
    simp only [if_true] at hc
    cases f <;> cases m <;> simp at hc
    have q1 : a = toBits 3 0 := by simpa [wBits] using ha.symm
    have q2 : c = toBits 4 0 := by simpa [wBits] using hc.symm
    simp only [Out.ok.injEq] at e hb
    rw [← e, ← hb, q1, q2] at hr
    revert hr; decide
  · rw [if_neg h0] at hc
    cases f with
    | none => simp at hc
    | some f =>
      cases m with
      | none => simp [Out.bind_eq_ok] at hc
      | some m =>
        simp only [EnergySaving.dec, Rd.run_bind, Out.bind_eq_ok] at hr
        obtain ⟨⟨m1, r1⟩, _, ⟨f1, r2⟩, _, ⟨m2, r3⟩, _, hr⟩ := hr
        simp only [Rd.run_ite] at hr
        split at hr
        · split at hr
          · simp at hr
          · split at hr
            · simp at hr
            · rename_i hz _ _
              simp only [Rd.run_pure, Out.ok.injEq, Prod.mk.injEq, EnergySaving.mk.injEq] at hr
              exact h0 (hr.1.1 ▸ hz)
        · simp at hr

theorem wBits_eq_ok {v n : Nat} {bs : List Bool} (h : wBits v n = .ok bs) : n ≤ 64 ∧ v < 2 ^ n ∧ bs = toBits n v := by
  simp only [wBits] at h
  split at h
  · rename_i q; simp only [Out.ok.injEq] at h; exact ⟨q.1, q.2, h.symm⟩
  · cases h

/-- **Finding (C38).** The readers of D-LOCATION UPDATE COMMAND, D-LOCATION UPDATE REJECT and D-MM STATUS abort on everything
their writers write. -/
theorem c38_mm_unreadable :
    (∀ (x : DLocationUpdateCommand) bs rest, x.enc = .ok bs → DLocationUpdateCommand.dec.run (bs ++ rest) = .panic) ∧
    (∀ (x : DLocationUpdateReject) bs rest, x.enc = .ok bs → DLocationUpdateReject.dec.run (bs ++ rest) = .panic) ∧
    (∀ (x : DMmStatus) bs rest, x.enc = .ok bs → DMmStatus.dec.run (bs ++ rest) = .panic) := by
  refine ⟨fun x bs rest h => ?_, fun x bs rest h => ?_, fun x bs rest h => ?_⟩
  · simp only [DLocationUpdateCommand.enc, cat_cons, wFlag_eq, Out.bind_ok, Out.bind_eq_ok] at h
    obtain ⟨a, ha, b, ⟨c, ⟨d, _, hc⟩, hb⟩, e⟩ := h
    obtain ⟨-, -, rfl⟩ := wBits_eq_ok ha
    simp only [Out.ok.injEq] at e hb hc
    subst e hb hc
    simp [DLocationUpdateCommand.dec, run_expectType]
  · simp only [DLocationUpdateReject.enc, cat_cons, wFlag_eq, Out.bind_ok, Out.bind_eq_ok] at h
    obtain ⟨a, ha, b, ⟨a2, ha2, b2, ⟨a3, ha3, b3, ⟨b4, _, h4⟩, h3⟩, h2⟩, e⟩ := h
    obtain ⟨-, -, rfl⟩ := wBits_eq_ok ha
    obtain ⟨-, q2, rfl⟩ := wBits_eq_ok ha2
    obtain ⟨-, q3, rfl⟩ := wBits_eq_ok ha3
    simp only [Out.ok.injEq] at e h2 h3 h4
    subst e h2 h3 h4
    simp [DLocationUpdateReject.dec, run_expectType, Rd.run_bits_append, q2, q3]
  · simp only [DMmStatus.enc, cat_cons, wFlag_eq, Out.bind_ok, Out.bind_eq_ok] at h
    obtain ⟨a, ha, b, ⟨a2, ha2, b2, _, h2⟩, e⟩ := h
    obtain ⟨-, -, rfl⟩ := wBits_eq_ok ha
    obtain ⟨-, q2, rfl⟩ := wBits_eq_ok ha2
    simp only [Out.ok.injEq] at e h2
    subst e h2
    simp [DMmStatus.dec, run_expectType, Rd.run_bits_append, q2]

/-- **Finding (C38).** MM PDU FUNCTION NOT SUPPORTED is read back exactly when it names no sub type of PDU. -/
theorem c38_mm_not_supported (x : NotSupported) (h : x.pduType < 16) (hs : ∀ n v, x.sub = some (n, v) → n ≤ 64 ∧ v < 2 ^ n) :
    (x.sub = none → RoundTrip NotSupported.enc NotSupported.dec x) ∧
    (x.sub ≠ none → ∃ bs, x.enc = .ok bs ∧ ∀ rest, NotSupported.dec.run (bs ++ rest) = .err) := by
  obtain ⟨t, sub⟩ := x
  simp only at h hs
  cases sub with
  | none =>
    refine ⟨fun _ => roundTrip_of ?_, fun h => (h rfl).elim⟩
    simp [NotSupported.enc, NotSupported.dec, wBits_ok, run_expectType, Rd.run_bits_append, h]
  | some s =>
    obtain ⟨n, v⟩ := s
    obtain ⟨h1, h2⟩ := hs n v rfl
    refine ⟨fun h => (by cases h), fun _ => ?_⟩
    refine ⟨toBits 4 15 ++ (toBits 4 t ++ (true :: (true :: (toBits n v ++ [false])))), ?_, fun rest => ?_⟩
    · simp [NotSupported.enc, wBits_ok, h, h1, h2, wType2]
    · simp [NotSupported.dec, run_expectType, Rd.run_bits_append, h]

/-! ## When the readers of the uplink abort -/

theorem GroupUplink.tame : GroupUplink.dec.Eats ∧ AbortsOnBadElement GroupUplink.dec := by
  refine ⟨?_, aborts_of_safe ?_⟩
  · unfold GroupUplink.dec rdIf; eats_rd
  · unfold GroupUplink.dec rdIf; safe_rd

theorem GroupDownlink.tame : GroupDownlink.dec.Eats ∧ AbortsOnBadElement GroupDownlink.dec := by
  refine ⟨?_, aborts_of_safe ?_⟩
  · unfold GroupDownlink.dec Attachment.dec rdIf; eats_rd
  · unfold GroupDownlink.dec Attachment.dec rdIf; safe_rd

theorem LocationDemand.tame : LocationDemand.dec.Eats ∧ AbortsOnBadElement LocationDemand.dec := by
  have ht := rdOptional_tame LocationDemand.fields (by intro f hf; simp only [List.mem_singleton] at hf; subst hf; exact GroupUplink.tame)
  unfold LocationDemand.dec
  refine ⟨?_, ?_⟩
  · refine Rd.eats_bind (Rd.eats_bits 1) fun r => Rd.eats_ite (fun _ => by eats_rd) fun _ => ?_
    exact Rd.eats_bind (Rd.eats_bits 1) fun m => Rd.eats_bind ht.1 fun v => Rd.eats_pure _
  · refine aborts_bind (Rd.eats_bits 1) (aborts_of_safe (Rd.safe_bits 1)) fun r => aborts_ite (fun _ => aborts_of_safe (by safe_rd)) fun _ => ?_
    exact aborts_bind (Rd.eats_bits 1) (aborts_of_safe (Rd.safe_bits 1)) fun m =>
      aborts_bind ht.1 ht.2 fun v => aborts_of_safe (Rd.safe_pure _)

theorem la_tame : laField.Tame := ⟨by eats_rd, aborts_of_safe (by safe_rd)⟩

theorem aborts_itsiDetach : AbortsOnBadElement UItsiDetach.dec := by
  have ht := rdOptional_tame (UItsiDetach.fields2 ++ UItsiDetach.fields34) (by
    intro f hf; simp only [List.cons_append, List.nil_append, List.mem_cons, List.not_mem_nil, or_false] at hf
    rcases hf with rfl | rfl
    · exact tame_num2
    · exact trivial)
  unfold UItsiDetach.dec
  exact aborts_bind (eats_expectType _ _) (aborts_of_safe (safe_expectType _ _)) fun _ => aborts_bind ht.1 ht.2 fun v => aborts_of_safe (Rd.safe_pure _)

theorem aborts_attachDetach : AbortsOnBadElement UAttachDetach.dec := by
  have ht := rdOptional_tame UAttachDetach.fields (by
    intro f hf; simp only [List.mem_cons, List.not_mem_nil, or_false] at hf
    rcases hf with rfl | rfl | rfl
    · exact trivial
    · exact GroupUplink.tame
    · exact trivial)
  unfold UAttachDetach.dec
  exact aborts_bind (eats_expectType _ _) (aborts_of_safe (safe_expectType _ _)) fun _ =>
    aborts_bind Rd.eats_flag (aborts_of_safe Rd.safe_flag) fun _ => aborts_bind Rd.eats_flag (aborts_of_safe Rd.safe_flag) fun _ =>
    aborts_bind ht.1 ht.2 fun v => aborts_of_safe (Rd.safe_pure _)

theorem aborts_locationUpdateDemand : AbortsOnBadElement ULocationUpdateDemand.dec := by
  have ht := rdOptional_tame (ULocationUpdateDemand.fields2 ++ ULocationUpdateDemand.fields34) (by
    intro f hf; simp only [List.cons_append, List.nil_append, List.mem_cons, List.not_mem_nil, or_false] at hf
    rcases hf with rfl | rfl | rfl | rfl | rfl | rfl | rfl | rfl | rfl | rfl
    · exact tame_num2
    · exact tame_num2
    · exact la_tame
    · exact tame_num2
    · exact tame_num2
    · exact LocationDemand.tame
    all_goals exact trivial)
  unfold ULocationUpdateDemand.dec
  refine aborts_bind (eats_expectType _ _) (aborts_of_safe (safe_expectType _ _)) fun _ =>
    aborts_bind (Rd.eats_bits 3) (aborts_of_safe (Rd.safe_bits 3)) fun _ =>
    aborts_bind Rd.eats_flag (aborts_of_safe Rd.safe_flag) fun _ => aborts_bind Rd.eats_flag (aborts_of_safe Rd.safe_flag) fun c =>
    aborts_bind ?_ (aborts_of_safe (safe_rdIf c (Rd.safe_bits 10))) fun _ =>
    aborts_bind ht.1 ht.2 fun v => aborts_of_safe (Rd.safe_pure _)
  unfold rdIf; eats_rd

theorem safe_mmStatus : UMmStatus.dec.Safe := by
  unfold UMmStatus.dec
  refine Rd.safe_bind (safe_expectType _ _) fun _ => ?_
  safe_rd

end Verif.Mm
