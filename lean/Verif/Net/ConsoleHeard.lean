import Verif.Net.ConsoleProps
import Verif.Net.ControlProps
/-!
# C105 — From the console to the mobile station
-/
namespace Verif.Net.Console
open Verif.Cmce Verif.Config Pdu
open Verif.Net.Digest (Str)

theorem pairs_octets {s : Str} {bs : List Nat} (h : Pairs s bs) : ∀ d ∈ bs, d < 256 := by
  induction h with
  | nil => simp
  | @cons a b x y s bs ha hb _ ih =>
    intro d hd
    rcases List.mem_cons.1 hd with rfl | hd
    · have h1 := (digit16 ((nibble_iff _ _).1 ha)).2.1
      have h2 := (digit16 ((nibble_iff _ _).1 hb)).2.1
      omega
    · exact ih d hd

theorem says_octets {line : Str} {source dest : Nat} {group : Bool} {payload : List Nat} (h : Says line source dest group payload) :
    ∀ d ∈ payload, d < 256 := by
  obtain ⟨_, _, _, _, _, _, _, _, _, _, _, _, _, _, _, t, ht, _⟩ := h
  exact pairs_octets ht

theorem trim_whole (data : List Nat) : trimOctets data (8 * data.length) = data := by
  induction data with
  | nil => rfl
  | cons d ds ih =>
    have h1 : ¬ 8 * (d :: ds).length = 0 := by simp
    have h2 : ¬ 8 * (d :: ds).length < 8 := by simp only [List.length_cons]; omega
    have h3 : 8 * (d :: ds).length - 8 = 8 * ds.length := by simp only [List.length_cons]; omega
    rw [trimOctets, if_neg h1, if_neg h2, h3, ih]

/-- **C105, one line**: a command typed for a registered station or group, from a source of 24 bits and with at most 255 bytes, makes
the base station send one message, which a mobile station reads as exactly the bytes typed, from the source typed; for any other
destination nothing is sent, and the answer says so. -/
theorem c105_heard_partial {line : Str} {source dest : Nat} {group : Bool} {payload : List Nat} (h : Says line source dest group payload)
    (hs : source < 2 ^ 24) (hl : payload.length ≤ 255) (handle : Nat) (reg : List RegOp) (cfg : Brew.Cfg) :
    ∃ c, parseCommand handle line = .ok (some c) ∧ c.handle = handle ∧
      (Spec.Registered reg dest → ∃ bs, rxSdsFromControl ⟨Registry.after reg, cfg⟩ c =
          .ok ([.air dest group (if group then .unacknowledged else .acknowledged) bs], true) ∧
        ReadBy bs source (.type4 (8 * payload.length) payload)) ∧
      (¬ Spec.Registered reg dest → rxSdsFromControl ⟨Registry.after reg, cfg⟩ c = .ok ([], false)) := by
  refine ⟨_, c102_typed h (by omega) handle, rfl, ?_⟩
  have := c39_from_control reg cfg ⟨handle, source, dest, group, 8 * payload.length, payload⟩ hs
    ⟨by simp only; omega, Nat.le_refl _, says_octets h⟩
  simp only [Sds.trim, trim_whole] at this
  exact this

/-- **C105 finding: a line can bring the base station down.** Typed for a registered station, a source above 24 bits, or a payload of
256 bytes or more (up to the point where the length wraps), aborts the base station; nothing else does. -/
theorem c105_abort {line : Str} {source dest : Nat} {group : Bool} {payload : List Nat} (h : Says line source dest group payload)
    (handle : Nat) (v : SdsView) (hr : v.registry.isRegistered dest = true) :
    ∃ c, parseCommand handle line = .ok (some c) ∧
      (rxSdsFromControl v c = .panic ↔ 2 ^ 24 ≤ source ∨ 256 ≤ payload.length % 8192) := by
  refine ⟨_, says_parse h handle, ?_⟩
  rw [c39_control_abort v _ hr (says_octets h)]
  simp only
  omega

/-- **C105 finding: a payload of 8193 bytes is cut to its first.** Its length wraps to eight bits, the base station sends those, and the
answer says that the message was sent. -/
theorem c105_cut_short {line : Str} {source dest : Nat} {group : Bool} {payload : List Nat} (h : Says line source dest group payload)
    (hs : source < 2 ^ 24) (hl : payload.length = 8193) (handle : Nat) (reg : List RegOp) (cfg : Brew.Cfg)
    (hr : Spec.Registered reg dest) :
    ∃ c bs d, parseCommand handle line = .ok (some c) ∧ payload.head? = some d ∧ rxSdsFromControl ⟨Registry.after reg, cfg⟩ c =
        .ok ([.air dest group (if group then .unacknowledged else .acknowledged) bs], true) ∧ ReadBy bs source (.type4 8 [d]) := by
  have hp := says_parse h handle
  rw [hl] at hp
  obtain ⟨d, ds, rfl⟩ : ∃ d ds, payload = d :: ds := by
    cases payload with
    | nil => simp at hl
    | cons d ds => exact ⟨d, ds, rfl⟩
  obtain ⟨bs, h1, h2⟩ := (c39_from_control reg cfg ⟨handle, source, dest, group, 8, d :: ds⟩ hs
    ⟨by simp, by simp only [List.length_cons]; omega, says_octets h⟩).1 hr
  have : trimOctets (d :: ds) 8 = [d] := by
    rw [trimOctets, if_neg (by decide), if_neg (by decide)]
    cases ds with
    | nil => rfl
    | cons e es => simp [trimOctets]
  simp only [Sds.trim, this] at h2
  exact ⟨_, bs, d, hp, rfl, h1, h2⟩

/-- A line which does it, and stations which are registered. -/
example : Says "sendsds 1 2 0 ab".toList 1 2 false [171] :=
  ⟨⟨[], [' '], ['1'], ' ', ['2'], ' ', ['0'], ' ', ['a', 'b'], []⟩, by decide, by simp [Blank], by simp [Blank],
    by simp [Blank]; decide, by simp, by decide, by decide, by decide, ⟨by simp, by decide, by decide⟩, by decide,
    ⟨by simp, by decide, by decide⟩, by decide, Or.inr ⟨rfl, Or.inr rfl⟩, ⟨'b', rfl, by decide⟩, ['a', 'b'],
    .cons (x := 10) (y := 11) (Or.inl rfl) (Or.inl rfl) .nil, Or.inl (by decide)⟩

example : Spec.Registered [.register 2] 2 := by simp [Spec.Registered]

/-- **C105, histories**: what call control of a base station takes from its link is what was typed since the base station connected, in
order, with nothing left out between; provided the connection carries what is sent (the rest may still be under way) and the base
station reads what the console writes. -/
theorem c105_history {P : Type} {dec : P → Option Command} {routable : Nat → Bool} {h : List (Net.Ev P × List NetOut)} {s : Site}
    (hr : Run dec routable h s) (before after : List Ev) (hc : Calm (before ++ .accept :: after))
    (hn : Ev.ended (accepted before) ∉ after)
    (carried : ∀ x ∈ (Console.start.run (before ++ .accept :: after)).clients, x.id = accepted before →
      received dec h <+: x.sent.map Command.sendSds) :
    ∃ typed, said 1 (before ++ .accept :: after) = said 1 before ++ typed ∧ taken .cmce h <+: typed.map Command.sendSds ∧
      taken .mm h = [] := by
  obtain ⟨x, hx, hid, hsaid, _⟩ := c102_told before after hc hn
  refine ⟨x.sent ++ x.queue, hsaid, ?_, ?_⟩
  · have hp := carried x hx hid
    have h1 := c74_commands hr .cmce
    have hall : (received dec h).filter (fun c => c.route = .cmce) = received dec h := by
      rw [List.filter_eq_self]
      intro c hcm
      obtain ⟨y, _, rfl⟩ := List.mem_map.1 (hp.subset hcm)
      rfl
    rw [hall] at h1
    rw [List.map_append]
    exact (List.IsPrefix.trans ⟨_, h1⟩ hp).trans (List.prefix_append _ _)
  · have hp := carried x hx hid
    have h1 := c74_commands hr .mm
    have hnone : (received dec h).filter (fun c => c.route = .mm) = [] := by
      rw [List.filter_eq_nil_iff]
      intro c hcm
      obtain ⟨y, _, rfl⟩ := List.mem_map.1 (hp.subset hcm)
      simp [Command.route]
    rw [hnone] at h1
    exact (List.append_eq_nil_iff.1 h1).1

end Verif.Net.Console
