import Verif.Brew.WorkerProps
import Verif.Brew.ForwardProps
import Verif.Cmce.SdsProps
/-!
# C63: short data across the network

From a mobile of one base station to a mobile of another, over a server which passes the messages on as they are: short data of
call management (C39), the entity, the worker and its protocol (C58, C59) of both base stations.
-/
namespace Verif.Brew
open Bits Config
open Cmce (SdsView rxUSdsData rxSdsFromBrew ReadBy GoesTo SdsOut)
open Cmce.Pdu (USdsData Sds payloadBits)

/-! ## Specification -/

/-- The bits a user sends. -/
def content : Sds → List Bool
  | .type1 v => toBits 16 v
  | .type2 v => toBits 32 v
  | .type3 v => toBits 64 v
  | .type4 len data => payloadBits len data

/-- What the station `source` sends (`sdu`) leaves the cell in these messages to the server; `u` is the UUID drawn. -/
def Leaves (v : SdsView) (ent : Ent) (w : Worker) (clock : Clock) (u source : Nat) (sdu : List Bool) (frames : List (List Nat)) : Prop :=
  ∃ dest data c, rxUSdsData v source sdu = .ok [.brew source dest data] ∧
    (ent.step (.sds source dest data u)).2 = [.cmd c] ∧ (w.command clock (fun _ => true) c).2 = frames

/-- The worker has received `frame` at time `t`, and its header still counts. -/
def HeaderAt (utf8 : List Nat → Bool) (h : WkHist) (u t : Nat) (frame : List Nat) : Prop :=
  ∃ pre told post, h = pre ++ (.receive t frame, told) :: post ∧ ∀ x ∈ post, ¬ Supersedes utf8 u t x

/-- When the worker receives `frame`, then the mobile `dest` gets `bs`, and the server is told. -/
def Arrives (utf8 : List Nat → Bool) (v : SdsView) (ent : Ent) (w : Worker) (u now : Nat) (frame : List Nat) (dest : Nat) (bs : List Bool) : Prop :=
  ∃ w' e source data, w.step utf8 (.receive now frame) = .ok (w', [e], []) ∧
    (ent.step (.event e v.registry.isRegistered now 0)).2 = [.sds source dest data, .cmd (.sdsReport u 0)] ∧
    rxSdsFromBrew v source dest data = .ok [.air dest false .acknowledged bs]

/-! ## Lemmas -/

theorem bytes_bits (n v : Nat) : (leBytes n v).reverse.flatMap (toBits 8) = toBits (8 * n) v := by
  induction n generalizing v with
  | zero => simp [leBytes]
  | succ n ih =>
    rw [leBytes, List.reverse_cons, List.flatMap_append, ih, Nat.mul_succ, toBits_add]
    have h1 : v >>> 8 = v / 256 := Nat.shiftRight_eq_div_pow v 8
    have h2 := toBits_mod 8 v
    simp only [h1, List.flatMap_cons, List.flatMap_nil, List.append_nil]
    rw [show (2 : Nat) ^ 8 = 256 from rfl] at h2
    rw [h2]

theorem content_bytes (d : Sds) : payloadBits (sdsBits d) (sdsBytes d) = content d := by
  cases d <;> simp only [payloadBits, sdsBits, sdsBytes, content, bytes_bits] <;> exact List.take_of_length_le (by simp)

theorem sdsBytes_bytes {d : Sds} (h : d.Writable) : Bytes (sdsBytes d) := by
  cases d with
  | type4 n b => exact h.2.2
  | _ => intro b hb; exact leBytes_bytes _ _ b (List.mem_reverse.mp hb)

theorem sds_written {d : Sds} (h : d.Writable) : (Sds.type4 (sdsBits d) (sdsBytes d)).Writable := by
  have hb := sdsBytes_bytes h
  cases d with
  | type4 n b => exact h
  | _ => exact ⟨by simp [sdsBits], by simp [sdsBits, sdsBytes, leBytes_length], hb⟩

/-! ## The property -/

/-- C63, out: short data which has to go to the backhaul leaves the cell as a header which names the two stations and a message
with its bits. -/
theorem c63_out (utf8 : List Nat → Bool) (h : List Config.RegOp) (cfg : Cfg) {ent : Ent} (hc : ent.connected = true) {w : Worker} (hw : w.cfg = cfg)
    (clock : Clock) {u source : Nat} (hu : u < 2 ^ 128) (hs : source < 2 ^ 24) {sdu rest : List Bool} {m : USdsData}
    (hm : USdsData.dec.run sdu = .ok (m, rest)) {dest : Nat} (hd : m.called.ssi = some dest)
    (hg : GoesTo h cfg dest .backhaul) :
    ∃ f1 f2 bits data, Leaves ⟨Registry.after h, cfg⟩ ent w clock u source sdu [f1, f2] ∧
      parseBrew utf8 f1 = .ok (.call 11 u (.shortTransfer source dest)) ∧ parseBrew utf8 f2 = .ok (.frame 1 u bits data) ∧
      (Sds.type4 bits data).Writable ∧ payloadBits bits data = content m.data := by
  obtain ⟨out, h1, h2⟩ := Cmce.c39_air h cfg source hs sdu m rest hm dest hd .backhaul hg
  subst h2
  have hok := (Cmce.Pdu.uSdsData_gives _ _ _ hm).2
  have hd' : dest < 2 ^ 32 := by
    have := (Cmce.Pdu.uSdsData_gives _ _ _ hm).1.ssi
    split at this
    · obtain ⟨v, h1, h2⟩ := this
      rw [hd] at h1
      cases h1
      exact Nat.lt_trans h2 (by decide)
    · rw [hd] at this; cases this
  have hwr := sds_written hok.1
  have hfe : featureSdsEnabled w.cfg = true := by
    obtain ⟨b, hb, hf, _⟩ := hg.2.2
    rw [hw, featureSdsEnabled, hb]; exact hf
  have hs32 : source < 2 ^ 32 := Nat.lt_trans hs (by decide)
  have ht := c58_traffic utf8 (u := u) (a := source) (b := dest) (c := 0) (d := sdsBits m.data) (data := sdsBytes m.data) hu hs32 hd' (by decide)
    (Nat.lt_trans hwr.1 (by decide)) hwr.2.2
  refine ⟨_, _, sdsBits m.data, sdsBytes m.data, ⟨dest, m.data, .sds u source dest (sdsBytes m.data) (sdsBits m.data), h1, ?_, ?_⟩, ht.2.2.1, ht.2.2.2.2.1, hwr, content_bytes _⟩
  · simp only [Ent.step, Ent.sdsOut, hc, if_true]
  · simp only [Worker.command, hfe, if_true]

/-- C63, in: when the message arrives whose header still counts, the station gets its bits, from the source which the header
names, and the server gets a report. -/
theorem c63_in {utf8 : List Nat → Bool} {cfg : Cfg} {hist : WkHist} {w : Worker} (hr : WkRun utf8 cfg hist w) (hf : featureSdsEnabled cfg = true)
    (h : List Config.RegOp) (ent : Ent) {u source dest t : Nat} {f1 f2 : List Nat} {bits : Nat} {data : List Nat}
    (h1 : parseBrew utf8 f1 = .ok (.call 11 u (.shortTransfer source dest))) (ha : HeaderAt utf8 hist u t f1)
    (h2 : parseBrew utf8 f2 = .ok (.frame 1 u bits data)) (hd : (Sds.type4 bits data).Writable) (hs : source < 2 ^ 24)
    (hreg : Spec.Registered h dest) (now : Nat) :
    ∃ bs x, Arrives utf8 ⟨Registry.after h, cfg⟩ ent w u now f2 dest bs ∧ ReadBy bs source x ∧ content x = payloadBits bits data := by
  have hann : Announced utf8 hist u source dest t := by
    obtain ⟨pre, told, post, h3, h4⟩ := ha
    exact ⟨pre, _, told, post, f1, h3, rfl, by simp [WkEv.brings, h1], h4⟩
  have hb : bits ≤ 2047 := by have := hd.1; omega
  have hstep : ∃ w' told, w.step utf8 (.receive now f2) = .ok (w', told, []) := by
    simp only [Worker.step, Worker.receive, h2, Res.bind_ok]
    exact ⟨_, _, rfl⟩
  obtain ⟨w', told, hst⟩ := hstep
  have hmem := (c59_short_data hr hst u source dest data bits).mpr ⟨h2, hf, hb, t, hann⟩
  have hone := (c59_calls hr hst).2.2.2
  have htold : told = [.sds u source dest data bits] := by
    match told, hmem, hone with
    | [e], hmem, _ => simp only [List.mem_singleton] at hmem; rw [hmem]
    | _ :: _ :: _, _, hone => simp at hone
  obtain ⟨bs, e1, e2⟩ := (Cmce.c39_from_backhaul h cfg source dest hs (.type4 bits data) hd).1 hreg
  have hreg' : (Registry.after h).isRegistered dest = true := ((c31_exact h).1 dest).mpr hreg
  refine ⟨bs, _, ⟨w', _, source, .type4 bits data, by rw [← htold]; exact hst, ?_, e1⟩, e2, ?_⟩
  · simp only [Ent.step, Ent.event, Ent.sdsIn, hreg', if_true]
  · simp only [Sds.trim, content]
    exact Cmce.Pdu.payloadBits_trim data bits hd.2.2

/-- C63: what a mobile sends to a station of another base station arrives there: the same bits, from the same station. The server
passes on the two messages; the second arrives while the first still counts. -/
theorem c63_across (utf8 : List Nat → Bool)
    -- the base station of the sender
    (h₁ : List Config.RegOp) (cfg₁ : Cfg) {ent₁ : Ent} (hc : ent₁.connected = true) {w₁ : Worker} (hw : w₁.cfg = cfg₁) (clock : Clock)
    {u source : Nat} (hu : u < 2 ^ 128) (hs : source < 2 ^ 24) {m : USdsData} (hm : m.Ok) {dest : Nat} (hd : m.called.ssi = some dest)
    (hg : GoesTo h₁ cfg₁ dest .backhaul) :
    ∃ sdu f1 f2, m.enc = .ok sdu ∧ Leaves ⟨Registry.after h₁, cfg₁⟩ ent₁ w₁ clock u source sdu [f1, f2] ∧
      -- the base station of the receiver
      ∀ (h₂ : List Config.RegOp) (cfg₂ : Cfg) (hist : WkHist) (w₂ : Worker) (ent₂ : Ent) (t now : Nat), WkRun utf8 cfg₂ hist w₂ →
        featureSdsEnabled cfg₂ = true → HeaderAt utf8 hist u t f1 → Spec.Registered h₂ dest →
        ∃ bs x, Arrives utf8 ⟨Registry.after h₂, cfg₂⟩ ent₂ w₂ u now f2 dest bs ∧ ReadBy bs source x ∧ content x = content m.data := by
  obtain ⟨sdu, e, hread⟩ := Cmce.Pdu.c38_cmce_u_sds_data m hm
  have hr0 := hread []
  rw [List.append_nil] at hr0
  obtain ⟨f1, f2, bits, data, k1, k2, k3, k4, k5⟩ := c63_out utf8 h₁ cfg₁ hc hw clock hu hs hr0 hd hg
  refine ⟨sdu, f1, f2, e, k1, fun h₂ cfg₂ hist w₂ ent₂ t now a1 a2 a3 a4 => ?_⟩
  obtain ⟨bs, x, b1, b2, b3⟩ := c63_in a1 a2 h₂ ent₂ k2 a3 k3 k4 hs a4 now
  exact ⟨bs, x, b1, b2, b3.trans k5⟩

/-! ## Findings -/

theorem sendSds_abort (source dest bits : Nat) (group : Bool) (data : List Nat) (hb : Bytes data) :
    Cmce.sendSds source dest group (.type4 bits data) = .panic ↔ 2 ^ 24 ≤ source ∨ 2 ^ 11 ≤ bits ∨ 8 * data.length < bits := by
  have h := Cmce.c39_control_abort ⟨Registry.after [.register dest], ⟨none, []⟩⟩ ⟨0, source, dest, group, bits, data⟩
    (((c31_exact [.register dest]).1 dest).mpr (by simp [Spec.Registered])) hb
  rw [← h]
  have hreg : (Registry.after [.register dest]).isRegistered dest = true := ((c31_exact [.register dest]).1 dest).mpr (by simp [Spec.Registered])
  simp only [Cmce.rxSdsFromControl, hreg, if_true]
  cases Cmce.sendSds source dest group (.type4 bits data) with
  | ok o => simp
  | panic => simp

/-- **Finding (C63), exactly.** Short data of the network for a registered station, which arrives while its header counts, aborts
the base station if and only if its source has more than 24 bits or it has fewer bytes than it says. -/
theorem c63_abort {utf8 : List Nat → Bool} {cfg : Cfg} {hist : WkHist} {w : Worker} (hr : WkRun utf8 cfg hist w)
    (h : List Config.RegOp) (ent : Ent) {u source dest : Nat} {frame : List Nat} (hb : Bytes frame) {bits : Nat} {data : List Nat} {w' : Worker}
    {now : Nat} (hs : w.step utf8 (.receive now frame) = .ok (w', [.sds u source dest data bits], [])) (hreg : Spec.Registered h dest) :
    ∃ d, .sds source dest d ∈ (ent.step (.event (.sds u source dest data bits) (Registry.after h).isRegistered now 0)).2 ∧
      (rxSdsFromBrew ⟨Registry.after h, cfg⟩ source dest d = .panic ↔ 2 ^ 24 ≤ source ∨ 8 * data.length < bits) := by
  have hreg' : (Registry.after h).isRegistered dest = true := ((c31_exact h).1 dest).mpr hreg
  obtain ⟨hp, _, h2, _⟩ := (c59_short_data hr hs u source dest data bits).mp (by simp)
  have hdata : Bytes data := by
    obtain ⟨hf, rest, he, _⟩ := (c58_read utf8 hb _).mp hp
    intro b hb'
    exact hb b (by rw [he]; simp [BrewMsg.wire, hb'])
  refine ⟨.type4 bits data, by simp [Ent.step, Ent.event, Ent.sdsIn, hreg'], ?_⟩
  simp only [rxSdsFromBrew, hreg', if_true]
  rw [sendSds_abort source dest bits false data hdata]
  constructor
  · rintro (h | h | h)
    · exact .inl h
    · omega
    · exact .inr h
  · rintro (h | h)
    · exact .inl h
    · exact .inr (.inr h)

/-- The header and the message of the network: from station 5555 to station 1001, eight bits, but no byte. -/
def shortFrames : List (List Nat) := [buildShort 9 5555 1001, buildSds 9 8 []]

/-- **Finding (C63).** Two messages of the server abort the base station. -/
theorem c63_two_frames_abort : ∃ (w w' : Worker) (e : BrewEvent),
    (Worker.init cfgAll).step (fun _ => true) (.receive 0 (buildShort 9 5555 1001)) = .ok (w, [], []) ∧
    w.step (fun _ => true) (.receive 0 (buildSds 9 8 [])) = .ok (w', [e], []) ∧
    ∀ ent : Ent, ∃ d, .sds 5555 1001 d ∈ (ent.step (.event e (Registry.after [.register 1001]).isRegistered 0 0)).2 ∧
      rxSdsFromBrew ⟨Registry.after [.register 1001], cfgAll⟩ 5555 1001 d = .panic := by
  have h1 : (Worker.init cfgAll).step (fun _ => true) (.receive 0 (buildShort 9 5555 1001)) =
      .ok (⟨cfgAll, [], [(9, ⟨5555, 1001, 0⟩)]⟩, [], []) := by decide +kernel
  have h2 : (⟨cfgAll, [], [(9, ⟨5555, 1001, 0⟩)]⟩ : Worker).step (fun _ => true) (.receive 0 (buildSds 9 8 [])) =
      .ok (⟨cfgAll, [], []⟩, [.sds 9 5555 1001 [] 8], []) := by decide +kernel
  refine ⟨_, _, _, h1, h2, fun ent => ?_⟩
  obtain ⟨d, k1, k2⟩ := c63_abort (WkRun.step .init h1) [.register 1001] ent (by decide +kernel) h2 (by simp [Spec.Registered])
  exact ⟨d, k1, k2.mpr (.inr (by decide))⟩

/-- **Finding (C63).** The report to the server says that the message was delivered before it is sent; if the station leaves before
call management gets the message then nothing is sent. -/
theorem c63_report_early (ent : Ent) (cfg : Cfg) (u source dest now : Nat) (data : List Nat) (bits : Nat) (h : List Config.RegOp)
    (hreg : Spec.Registered h dest) :
    (ent.step (.event (.sds u source dest data bits) (Registry.after h).isRegistered now 0)).2 =
      [.sds source dest (.type4 bits data), .cmd (.sdsReport u 0)] ∧
    rxSdsFromBrew ⟨Registry.after (.deregister dest :: h), cfg⟩ source dest (.type4 bits data) = .ok [] := by
  have hreg' : (Registry.after h).isRegistered dest = true := ((c31_exact h).1 dest).mpr hreg
  have hno : (Registry.after (.deregister dest :: h)).isRegistered dest = false := by
    cases hx : (Registry.after (.deregister dest :: h)).isRegistered dest with
    | false => rfl
    | true =>
      have := ((c31_exact (.deregister dest :: h)).1 dest).mp hx
      simp [Spec.Registered] at this
  exact ⟨by simp [Ent.step, Ent.event, Ent.sdsIn, hreg'], by simp [rxSdsFromBrew, hno]⟩

/-! ## Examples -/

/-- The hypotheses of `c63_out` and `c63_across` are met by the text of C39, from station 1002 to station 1001 of another cell. -/
example : Cmce.textMessage.Ok ∧ Cmce.textMessage.called.ssi = some 1001 ∧ GoesTo [.register 1002] cfgAll 1001 .backhaul ∧
    ({ Ent.init cfgAll 4 with connected := true } : Ent).connected = true ∧ content Cmce.textMessage.data = toBits 12 0x486 := by
  refine ⟨?_, rfl, ⟨?_, ?_, ⟨_, rfl, rfl, ?_⟩⟩, rfl, by decide +kernel⟩
  · refine ⟨?_, ⟨?_, ?_, ?_, ?_⟩, ⟨⟨?_, ?_, ?_⟩, ?_⟩, ?_, ?_⟩ <;>
      simp [Cmce.textMessage, TypedFields.RawOk, Sds.trim, Cmce.Pdu.trimOctets]
  · simp [Spec.Registered]
  · rintro ⟨i, _, h⟩; simp [Spec.Attached] at h
  · intro h; exact absurd h (by decide)

/-- Those on the receiving side too: the worker has just got the header. -/
example : ∃ hist w, WkRun (fun _ => true) cfgAll hist w ∧ HeaderAt (fun _ => true) hist 9 5 (buildShort 9 1002 1001) ∧
    featureSdsEnabled cfgAll = true := by
  have h1 : (Worker.init cfgAll).step (fun _ => true) (.receive 5 (buildShort 9 1002 1001)) =
      .ok (⟨cfgAll, [], [(9, ⟨1002, 1001, 5⟩)]⟩, [], []) := by decide +kernel
  exact ⟨_, _, .step .init h1, ⟨[], [], [], rfl, by simp⟩, rfl⟩

end Verif.Brew
