import Verif.Cmce.Sds
import Verif.Cmce.PdusProps
import Verif.Config.RegistryProps
/-!
# C39 — Short data is routed to exactly one place

The registry is described by its history (`Config.Spec`, newest operation first), the configuration by what it says.
-/
namespace Verif.Cmce
open Verif.Bits Verif.Codec Verif.TypedFields Pdu Config

/-! ## Specification -/

/-- The backhaul accepts messages to this number: any number, or on the TetraPack network a seven digit number or one of its two
services. -/
def Reaches (b : Brew.BrewCfg) (dest : Nat) : Prop :=
  b.host = "core.tetrapack.online" → (1000000 ≤ dest ∧ dest ≤ 9999999) ∨ dest = 200999 ∨ dest = 262993

/-- Where a message can go. -/
inductive Place where
  | station | group | backhaul | nowhere

/-- Where a message to `dest` has to go: to the registered station, else to the attached group, else to the backhaul if it takes
such messages, else nowhere. -/
def GoesTo (h : List RegOp) (cfg : Brew.Cfg) (dest : Nat) : Place → Prop
  | .station => Spec.Registered h dest
  | .group => ¬ Spec.Registered h dest ∧ ∃ i, Spec.Registered h i ∧ Spec.Attached h i dest
  | .backhaul => ¬ Spec.Registered h dest ∧ (¬ ∃ i, Spec.Registered h i ∧ Spec.Attached h i dest) ∧
      ∃ b, cfg.brew = some b ∧ b.featureSds = true ∧ Reaches b dest
  | .nowhere => ¬ Spec.Registered h dest ∧ (¬ ∃ i, Spec.Registered h i ∧ Spec.Attached h i dest) ∧
      ¬ ∃ b, cfg.brew = some b ∧ b.featureSds = true ∧ Reaches b dest

/-- A mobile reading `bs` gets `data` from the station `source`. -/
def ReadBy (bs : List Bool) (source : Nat) (data : Sds) : Prop :=
  ∀ rest, DSdsData.dec.run (bs ++ rest) = .ok (⟨⟨1, some source, none⟩, data, none, none⟩, rest)

/-- A mobile reading `bs` gets the status `s` from the station `source`. -/
def StatusReadBy (bs : List Bool) (source : Nat) (s : Status) : Prop :=
  ∀ rest, DStatus.dec.run (bs ++ rest) = .ok (⟨⟨1, some source, none⟩, s, none, none⟩, rest)

/-- What was sent for a message which has to go to `p`: exactly one message, to the right number, from the right source, with
the data. -/
def Sent (source dest : Nat) (data : Sds) (out : List SdsOut) : Place → Prop
  | .station => ∃ bs, out = [.air dest false .acknowledged bs] ∧ ReadBy bs source data
  | .group => ∃ bs, out = [.air dest true .unacknowledged bs] ∧ ReadBy bs source data
  | .backhaul => out = [.brew source dest data]
  | .nowhere => out = []

/-- Exactly one of the places. -/
theorem goesTo_unique (h : List RegOp) (cfg : Brew.Cfg) (dest : Nat) :
    ∃ p, GoesTo h cfg dest p ∧ ∀ q, GoesTo h cfg dest q → q = p := by
  by_cases h1 : Spec.Registered h dest
  · exact ⟨.station, h1, fun q hq => by cases q <;> first | rfl | exact (hq.1 h1).elim⟩
  by_cases h2 : ∃ i, Spec.Registered h i ∧ Spec.Attached h i dest
  · exact ⟨.group, ⟨h1, h2⟩, fun q hq => by cases q <;> first | rfl | exact (h1 hq).elim | exact (hq.2.1 h2).elim⟩
  by_cases h3 : ∃ b, cfg.brew = some b ∧ b.featureSds = true ∧ Reaches b dest
  · exact ⟨.backhaul, ⟨h1, h2, h3⟩, fun q hq => by cases q <;> first | rfl | exact (h1 hq).elim | exact (h2 hq.2).elim | exact (hq.2.2 h3).elim⟩
  · exact ⟨.nowhere, ⟨h1, h2, h3⟩, fun q hq => by cases q <;> first | rfl | exact (h1 hq).elim | exact (h2 hq.2).elim | exact (h3 hq.2.2).elim⟩

/-! ## The model against it -/

theorem reaches_iff (cfg : Brew.Cfg) (dest : Nat) :
    (Brew.issiRoutable cfg dest || Brew.tetrapackServiceIssi cfg dest) = true ↔ ∃ b, cfg.brew = some b ∧ Reaches b dest := by
  cases hb : cfg.brew with
  | none => simp [Brew.issiRoutable, Brew.tetrapackServiceIssi, Brew.isTetrapack, hb]
  | some b =>
    by_cases ht : b.host = "core.tetrapack.online"
    · simp [Brew.issiRoutable, Brew.tetrapackServiceIssi, Brew.isTetrapack, hb, ht, Reaches]
    · simp [Brew.issiRoutable, Brew.tetrapackServiceIssi, Brew.isTetrapack, hb, ht, Reaches]

theorem allowed_iff (cfg : Brew.Cfg) (dest : Nat) :
    (Brew.featureSdsEnabled cfg && (Brew.issiRoutable cfg dest || Brew.tetrapackServiceIssi cfg dest)) = true ↔
      ∃ b, cfg.brew = some b ∧ b.featureSds = true ∧ Reaches b dest := by
  rw [Bool.and_eq_true, reaches_iff]
  cases hb : cfg.brew with
  | none => simp [Brew.featureSdsEnabled, hb]
  | some b => simp [Brew.featureSdsEnabled, hb]

/-- Data which can be written is sent, and read as the bits carried. -/
theorem sendSds_ok (source dest : Nat) (group : Bool) (data : Sds) (hs : source < 2 ^ 24) (hd : data.Writable) :
    ∃ bs, sendSds source dest group data = .ok [.air dest group (if group then .unacknowledged else .acknowledged) bs] ∧
      ReadBy bs source data.trim := by
  obtain ⟨bd, wd, rd⟩ := sds_readsAs hd
  obtain ⟨bs, hw, hr⟩ := c09_optional_part [] DSdsData.fields34 ⟨by simp [Field.id?], by simp [Field.id?], by simp [Field.id?]⟩
    (none, none, ()) ⟨by simp, by simp, trivial⟩
  simp only [List.nil_append] at hw hr
  refine ⟨toBits 5 15 ++ (toBits 2 1 ++ (toBits 24 source ++ (bd ++ bs))), ?_, fun rest => ?_⟩
  · have e : (dSdsData source data).enc = .ok (toBits 5 15 ++ (toBits 2 1 ++ (toBits 24 source ++ (bd ++ bs)))) := by
      unfold DSdsData.enc
      erw [hw]
      simp [dSdsData, Calling.enc, wBits_ok, hs, wd]
    simp [sendSds, e]
  · simp [DSdsData.dec, Calling.dec, run_expectType, Rd.run_bits_append, hs, rd, hr]
    rfl

theorem sendStatus_ok (source dest : Nat) (s : Status) (hs : source < 2 ^ 24) (h : s.Ok) :
    ∃ bs, sendStatus source dest s = .ok [.air dest false .todo bs] ∧ StatusReadBy bs source s := by
  obtain ⟨bs, hw, hr⟩ := c38_cmce_d_status (dStatus source s) ⟨⟨by simp [dStatus], by simp [dStatus, hs], by simp [dStatus]⟩, h,
    by simp [RawOk, dStatus], by simp [RawOk, dStatus]⟩
  exact ⟨bs, by simp [sendStatus, hw], hr⟩

theorem deliverSds_sent (h : List RegOp) (cfg : Brew.Cfg) (source dest : Nat) (data : Sds) (hs : source < 2 ^ 24) (hd : data.Ok)
    (p : Place) (hp : GoesTo h cfg dest p) :
    ∃ out, deliverSds ⟨Registry.after h, cfg⟩ source dest data = .ok out ∧ Sent source dest data out p := by
  have hx := c31_exact h
  have hr : (Registry.after h).isRegistered dest = true ↔ Spec.Registered h dest := (hx.1 dest)
  have hg : (Registry.after h).hasGroupMembers dest = true ↔ ∃ i, Spec.Registered h i ∧ Spec.Attached h i dest := (hx.2 dest)
  have ha := allowed_iff cfg dest
  unfold deliverSds
  cases p with
  | station =>
    rw [if_pos (hr.2 hp)]
    obtain ⟨bs, e, hb⟩ := sendSds_ok source dest false data hs hd.1
    exact ⟨_, e, bs, rfl, hd.2 ▸ hb⟩
  | group =>
    rw [if_neg (fun q => hp.1 (hr.1 q)), if_pos (hg.2 hp.2)]
    obtain ⟨bs, e, hb⟩ := sendSds_ok source dest true data hs hd.1
    exact ⟨_, e, bs, rfl, hd.2 ▸ hb⟩
  | backhaul =>
    rw [if_neg (fun q => hp.1 (hr.1 q)), if_neg (fun q => hp.2.1 (hg.1 q)), if_pos (ha.2 hp.2.2)]
    exact ⟨_, rfl, rfl⟩
  | nowhere =>
    rw [if_neg (fun q => hp.1 (hr.1 q)), if_neg (fun q => hp.2.1 (hg.1 q)), if_neg (fun q => hp.2.2 (ha.1 q))]
    exact ⟨_, rfl, rfl⟩

/-! ## C39 -/

/-- **C39.** A U-SDS-DATA which can be read and names a short address goes to exactly the place it has to go to, once, from the
station which sent it, with the data it carried. -/
theorem c39_air (h : List RegOp) (cfg : Brew.Cfg) (source : Nat) (hs : source < 2 ^ 24) (sdu : List Bool) (x : USdsData)
    (rest : List Bool) (hx : USdsData.dec.run sdu = .ok (x, rest)) (dest : Nat) (hd : x.called.ssi = some dest)
    (p : Place) (hp : GoesTo h cfg dest p) :
    ∃ out, rxUSdsData ⟨Registry.after h, cfg⟩ source sdu = .ok out ∧ Sent source dest x.data out p := by
  simp only [rxUSdsData, hx, hd]
  exact deliverSds_sent h cfg source dest x.data hs (uSdsData_gives _ _ _ hx).2 p hp

/-- **C39, from mobile to mobile.** What one station sends to another registered one arrives there: the same data, from the same
station. -/
theorem c39_end_to_end (h : List RegOp) (cfg : Brew.Cfg) (source : Nat) (hs : source < 2 ^ 24) (m : USdsData) (hm : m.Ok)
    (dest : Nat) (hd : m.called.ssi = some dest) (hr : Spec.Registered h dest) :
    ∃ sdu bs, m.enc = .ok sdu ∧
      rxUSdsData ⟨Registry.after h, cfg⟩ source sdu = .ok [.air dest false .acknowledged bs] ∧ ReadBy bs source m.data := by
  obtain ⟨sdu, hw, hrd⟩ := c38_cmce_u_sds_data m hm
  have := hrd []
  rw [List.append_nil] at this
  obtain ⟨out, e, bs, rfl, hb⟩ := c39_air h cfg source hs sdu m [] this dest hd .station hr
  exact ⟨sdu, bs, hw, e, hb⟩

/-- **C39.** Nothing is sent for bits which are no U-SDS-DATA or name no short address. -/
theorem c39_dropped (v : SdsView) (source : Nat) (sdu : List Bool) :
    (USdsData.dec.run sdu = .err → rxUSdsData v source sdu = .ok []) ∧
    (∀ x rest, USdsData.dec.run sdu = .ok (x, rest) → x.called.ssi = none → rxUSdsData v source sdu = .ok []) := by
  refine ⟨fun h => by simp [rxUSdsData, h], fun x rest h hn => by simp [rxUSdsData, h, hn]⟩

/-- **C39.** From the air, short data aborts the base station only with an element whose length is impossible. -/
theorem c39_total_partial (h : List RegOp) (cfg : Brew.Cfg) (source : Nat) (hs : source < 2 ^ 24) (sdu : List Bool)
    (hp : rxUSdsData ⟨Registry.after h, cfg⟩ source sdu = .panic) : ∃ pre s, sdu = pre ++ s ∧ BadElement s := by
  cases hx : USdsData.dec.run sdu with
  | panic => exact USdsData.tame.2 _ hx
  | err => simp [rxUSdsData, hx] at hp
  | ok r =>
    obtain ⟨x, rest⟩ := r
    cases hd : x.called.ssi with
    | none => simp [rxUSdsData, hx, hd] at hp
    | some dest =>
      obtain ⟨p, hg, _⟩ := goesTo_unique h cfg dest
      obtain ⟨out, e, _⟩ := c39_air h cfg source hs sdu x rest hx dest hd p hg
      rw [e] at hp; cases hp

/-- **C39, from the backhaul.** Data for a registered station is sent to it, once, with the bits carried; any other is dropped. -/
theorem c39_from_backhaul (h : List RegOp) (cfg : Brew.Cfg) (source dest : Nat) (hs : source < 2 ^ 24) (data : Sds)
    (hd : data.Writable) :
    (Spec.Registered h dest → ∃ bs, rxSdsFromBrew ⟨Registry.after h, cfg⟩ source dest data = .ok [.air dest false .acknowledged bs] ∧
      ReadBy bs source data.trim) ∧
    (¬ Spec.Registered h dest → rxSdsFromBrew ⟨Registry.after h, cfg⟩ source dest data = .ok []) := by
  have hr : (Registry.after h).isRegistered dest = true ↔ Spec.Registered h dest := (c31_exact h).1 dest
  refine ⟨fun q => ?_, fun q => ?_⟩
  · obtain ⟨bs, e, hb⟩ := sendSds_ok source dest false data hs hd
    exact ⟨bs, by simp only [rxSdsFromBrew, hr.2 q, if_true]; exact e, hb⟩
  · have : (Registry.after h).isRegistered dest = false := by
      cases e : (Registry.after h).isRegistered dest with
      | true => exact (q (hr.1 e)).elim
      | false => rfl
    simp [rxSdsFromBrew, this]

/-- **C39, from the control link.** The answer says whether the number is registered; if it is, the message is sent once, with
the bits carried, to the station or group asked for. -/
theorem c39_from_control (h : List RegOp) (cfg : Brew.Cfg) (c : SendSds) (hs : c.source < 2 ^ 24)
    (hd : (Sds.type4 c.len c.payload).Writable) :
    (Spec.Registered h c.dest → ∃ bs, rxSdsFromControl ⟨Registry.after h, cfg⟩ c =
        .ok ([.air c.dest c.group (if c.group then .unacknowledged else .acknowledged) bs], true) ∧
      ReadBy bs c.source (Sds.type4 c.len c.payload).trim) ∧
    (¬ Spec.Registered h c.dest → rxSdsFromControl ⟨Registry.after h, cfg⟩ c = .ok ([], false)) := by
  have hr : (Registry.after h).isRegistered c.dest = true ↔ Spec.Registered h c.dest := (c31_exact h).1 c.dest
  refine ⟨fun q => ?_, fun q => ?_⟩
  · obtain ⟨bs, e, hb⟩ := sendSds_ok c.source c.dest c.group _ hs hd
    exact ⟨bs, by simp only [rxSdsFromControl, hr.2 q, if_true, e, Res.bind_ok], hb⟩
  · have : (Registry.after h).isRegistered c.dest = false := by
      cases e : (Registry.after h).isRegistered c.dest with
      | true => exact (q (hr.1 e)).elim
      | false => rfl
    simp [rxSdsFromControl, this]

/-- The bits of a message are the same before and after. -/
theorem c39_payload (len : Nat) (data : List Nat) (h : (Sds.type4 len data).Writable) :
    ∃ data', (Sds.type4 len data).trim = .type4 len data' ∧ payloadBits len data' = payloadBits len data :=
  ⟨_, rfl, payloadBits_trim data len h.2.2⟩

/-! ## Status messages -/

/-- What the backhaul gets for a status: a delivery report naming the same message, or the number itself. -/
theorem c39_status_data (s : Status) :
    (∀ t r, s = .report t r → ∃ d, statusData s = .type4 32 [0x82, 0x10, d, r] ∧
      ((t = 2 ∨ t = 3) → d = 0) ∧ (t = 1 → d = 2) ∧ (t = 0 → d = 1)) ∧
    ((¬ ∃ t r, s = .report t r) → statusData s = .type1 s.toRaw) := by
  refine ⟨?_, ?_⟩
  · rintro t r rfl
    refine ⟨_, rfl, ?_, ?_, ?_⟩
    · rintro (rfl | rfl) <;> rfl
    · rintro rfl; rfl
    · rintro rfl; rfl
  · intro h
    cases s with
    | report t r => exact (h ⟨t, r, rfl⟩).elim
    | _ => rfl

/-- **C39, status.** A status goes to the registered station, else to the backhaul if there is one which takes messages to this
number, else nowhere. -/
theorem c39_status (h : List RegOp) (cfg : Brew.Cfg) (source : Nat) (hs : source < 2 ^ 24) (sdu : List Bool) (x : UStatus)
    (rest : List Bool) (hx : UStatus.dec.run sdu = .ok (x, rest)) (dest : Nat) (hd : x.called.ssi = some dest) :
    (Spec.Registered h dest → ∃ bs, rxUStatus ⟨Registry.after h, cfg⟩ source sdu = .ok [.air dest false .todo bs] ∧
      StatusReadBy bs source x.status) ∧
    (¬ Spec.Registered h dest → (∃ b, cfg.brew = some b ∧ Reaches b dest) →
      rxUStatus ⟨Registry.after h, cfg⟩ source sdu = .ok [.brew source dest (statusData x.status)]) ∧
    (¬ Spec.Registered h dest → (¬ ∃ b, cfg.brew = some b ∧ Reaches b dest) →
      rxUStatus ⟨Registry.after h, cfg⟩ source sdu = .ok []) := by
  have hr : (Registry.after h).isRegistered dest = true ↔ Spec.Registered h dest := (c31_exact h).1 dest
  have hre := reaches_iff cfg dest
  have hok := (uStatus_gives _ _ _ hx).2
  simp only [rxUStatus, hx, hd, deliverStatus]
  refine ⟨fun q => ?_, fun q hb => ?_, fun q hb => ?_⟩
  · obtain ⟨bs, e, hb⟩ := sendStatus_ok source dest x.status hs hok
    exact ⟨bs, by rw [if_pos (hr.2 q)]; exact e, hb⟩
  · rw [if_neg (fun e => q (hr.1 e)), if_pos]
    rw [Bool.and_eq_true]
    refine ⟨?_, hre.2 hb⟩
    obtain ⟨b, hb, _⟩ := hb
    simp [Brew.isActive, hb]
  · rw [if_neg (fun e => q (hr.1 e)), if_neg]
    rw [Bool.and_eq_true]
    exact fun e => hb (hre.1 e.2)

/-- **C39, status.** A status aborts the base station only with an impossible element or the number 31743. -/
theorem c39_status_total_partial (h : List RegOp) (cfg : Brew.Cfg) (source : Nat) (hs : source < 2 ^ 24) (sdu : List Bool)
    (hp : rxUStatus ⟨Registry.after h, cfg⟩ source sdu = .panic) :
    HasStatus31743 sdu ∨ ∃ pre s, sdu = pre ++ s ∧ BadElement s := by
  cases hx : UStatus.dec.run sdu with
  | panic => exact c38_cmce_u_status_abort _ hx
  | err => simp [rxUStatus, hx] at hp
  | ok r =>
    obtain ⟨x, rest⟩ := r
    cases hd : x.called.ssi with
    | none => simp [rxUStatus, hx, hd] at hp
    | some dest =>
      obtain ⟨h1, h2, h3⟩ := c39_status h cfg source hs sdu x rest hx dest hd
      by_cases hr : Spec.Registered h dest
      · obtain ⟨bs, e, _⟩ := h1 hr
        rw [e] at hp; cases hp
      · by_cases hb : ∃ b, cfg.brew = some b ∧ Reaches b dest
        · rw [h2 hr hb] at hp; cases hp
        · rw [h3 hr hb] at hp; cases hp

/-! ## Findings -/

/-- **Finding (C39).** Any station can abort the base station with a status to any number. -/
theorem c39_status_abort (v : SdsView) (source area dest : Nat) (ha : area < 2 ^ 4) (hd : dest < 2 ^ 24) (rest : List Bool) :
    rxUStatus v source (toBits 5 8 ++ (toBits 4 area ++ (toBits 2 1 ++ (toBits 24 dest ++ (toBits 16 31743 ++ rest))))) = .panic := by
  simp only [rxUStatus, c38_cmce_u_status_31743 area dest ha hd rest]

/-- A group with a member, 1001. -/
def groupHistory : List RegOp := [.affiliate 1001 91, .register 1001]

/-- **Finding (C39).** The control link cannot reach a group: a message to group 91, which has a member, is refused. -/
theorem c39_control_group (cfg : Brew.Cfg) (payload : List Nat) (len : Nat) :
    (∃ i, Spec.Registered groupHistory i ∧ Spec.Attached groupHistory i 91) ∧
    rxSdsFromControl ⟨Registry.after groupHistory, cfg⟩ ⟨1, 5, 91, true, len, payload⟩ = .ok ([], false) := by
  refine ⟨⟨1001, Or.inl rfl, Or.inl ⟨rfl, rfl⟩⟩, ?_⟩
  have : (Registry.after groupHistory).isRegistered 91 = false := by decide
  simp [rxSdsFromControl, this]

/-- **Finding (C39).** Nor does the backhaul reach it, nor a status: short data from a station of the cell does. -/
theorem c39_group_only_local (source : Nat) (data : Sds) (s : Status) :
    rxSdsFromBrew ⟨Registry.after groupHistory, ⟨none, []⟩⟩ source 91 data = .ok [] ∧
    deliverStatus ⟨Registry.after groupHistory, ⟨none, []⟩⟩ source 91 s = .ok [] ∧
    GoesTo groupHistory ⟨none, []⟩ 91 .group := by
  have hr : (Registry.after groupHistory).isRegistered 91 = false := by decide
  refine ⟨by simp [rxSdsFromBrew, hr], by simp [deliverStatus, hr, Brew.isActive], ?_, 1001, Or.inl rfl, Or.inl ⟨rfl, rfl⟩⟩
  simp [groupHistory, Spec.Registered]

/-- **Finding (C39).** A status is forwarded to the backhaul although the configuration excludes short data from it. -/
theorem c39_status_feature (source dest : Nat) (s : Status) :
    deliverStatus ⟨Registry.new, ⟨some ⟨"example", none, false⟩, []⟩⟩ source dest s = .ok [.brew source dest (statusData s)] ∧
    ∀ data, deliverSds ⟨Registry.new, ⟨some ⟨"example", none, false⟩, []⟩⟩ source dest data = .ok [] := by
  refine ⟨rfl, fun data => rfl⟩

theorem sendSds_panic (source dest : Nat) (group : Bool) (data : Sds) (h : (dSdsData source data).enc = .panic) :
    sendSds source dest group data = .panic := by simp [sendSds, h]

/-- Too few bytes abort the writer. -/
theorem wOctets_short : ∀ (data : List Nat) (n r : Nat), r < 8 → 8 * data.length < 8 * n + r → (∀ d ∈ data, d < 256) →
    wOctets data n r = .panic
  | [], 0, r, _, h, _ => by
    have : r ≠ 0 := by simp at h; omega
    simp [wOctets, this]
  | d :: ds, 0, r, hr, h, _ => by simp at h; omega
  | [], n + 1, r, _, _, _ => rfl
  | d :: ds, n + 1, r, hr, h, hb => by
    have h1 : d < 2 ^ 8 := hb d (by simp)
    have ih := wOctets_short ds n r hr (by simp at h; omega) (fun x hx => hb x (by simp [hx]))
    simp [wOctets, ih, wBits_ok, h1]

/-- **Finding (C39), exactly.** A command of the control link to a registered station aborts the base station exactly when its
source number has more than 24 bits, or it announces more than 2047 bits, or more than its bytes hold. -/
theorem c39_control_abort (v : SdsView) (c : SendSds) (hr : v.registry.isRegistered c.dest = true) (hb : ∀ d ∈ c.payload, d < 256) :
    rxSdsFromControl v c = .panic ↔ 2 ^ 24 ≤ c.source ∨ 2 ^ 11 ≤ c.len ∨ 8 * c.payload.length < c.len := by
  constructor
  · intro h
    apply Classical.byContradiction
    intro hn
    obtain ⟨bs, e, _⟩ := sendSds_ok c.source c.dest c.group (.type4 c.len c.payload) (by omega) ⟨by omega, by omega, hb⟩
    simp [rxSdsFromControl, hr, e] at h
  · intro h
    simp only [rxSdsFromControl, hr, if_true]
    rw [sendSds_panic]
    · rfl
    by_cases h1 : c.source < 2 ^ 24
    · by_cases h2 : c.len < 2 ^ 11
      · have h3 := wOctets_short c.payload (c.len / 8) (c.len % 8) (by omega) (by omega) hb
        simp [dSdsData, DSdsData.enc, Calling.enc, wBits_ok, h1, h2, Sds.enc, h3]
      · simp [dSdsData, DSdsData.enc, Calling.enc, wBits_ok, h1, Sds.enc, wBits, h2]
    · simp [dSdsData, DSdsData.enc, Calling.enc, wBits, h1]

/-- **Finding (C39).** A message of the backhaul with a source number above 24 bits aborts the base station. -/
theorem c39_source_abort (v : SdsView) (source dest : Nat) (data : Sds) (hr : v.registry.isRegistered dest = true)
    (hs : ¬ source < 2 ^ 24) : rxSdsFromBrew v source dest data = .panic := by
  simp only [rxSdsFromBrew, hr, if_true]
  apply sendSds_panic
  simp [dSdsData, DSdsData.enc, Calling.enc, wBits, hs]

/-! ## Examples -/

/-- A text from 1002 to 1001. -/
def textMessage : USdsData := ⟨0, ⟨1, none, some 1001, none⟩, .type4 12 [0x48, 0x60], none, none⟩

example : textMessage.Ok := by
  refine ⟨?_, ⟨?_, ?_, ?_, ?_⟩, ⟨⟨?_, ?_, ?_⟩, ?_⟩, ?_, ?_⟩ <;> simp [textMessage, RawOk, Sds.trim, trimOctets]

example : Spec.Registered groupHistory 1001 := by simp [groupHistory, Spec.Registered]

end Verif.Cmce
