import Verif.Cmce.CmceBs
import Verif.Mm.MmShort
/-!
# The CMCE entity writes to addresses of 24 bits and with usage markers of 6 bits: lemmas
-/
namespace Verif.Cmce
open Verif.Bits Verif.Codec Tdma Pdu
open Verif.Mm (RegShort)

/-- A message on the air to an address of 24 bits, with a usage marker of 6 bits if there is one. -/
def BsOut.Short : BsOut → Prop
  | .air to _ chan _ _ => to.Short ∧ ∀ u t, chan = some (some u, t) → u < 64
  | _ => True

/-- What is kept. -/
structure BsShort (s : Bs) : Prop where
  inv : CcInv s.cc
  cc : CcShort s.cc

theorem wire_short {o : CcOut} (ho : o.Short) {a : Asked} {b : BsOut} (h : o.wire a = .ok b) : b.Short := by
  cases o <;> simp only [CcOut.wire, Res.bind_eq_ok, Res.ok.injEq] at h
  case dCallProceeding => obtain ⟨bs, _, rfl⟩ := h; exact ⟨ho, fun _ _ e => by cases e⟩
  case dConnect to id g owner chan =>
    obtain ⟨bs, _, rfl⟩ := h
    refine ⟨ho.1, fun u t e => ?_⟩
    cases chan with
    | none => cases e
    | some c => cases e; exact ho.2 _ rfl
  case dSetup => obtain ⟨bs, _, rfl⟩ := h; exact ⟨ho.1, fun _ _ e => by cases e; exact ho.2⟩
  case dRelease => obtain ⟨bs, _, rfl⟩ := h; exact ⟨ho, fun _ _ e => by cases e⟩
  case dTxCeased => obtain ⟨bs, _, rfl⟩ := h; exact ⟨ho, fun _ _ e => by cases e⟩
  case dTxGranted => obtain ⟨bs, _, rfl⟩ := h; exact ⟨ho, fun _ _ e => by cases e⟩
  all_goals subst h; trivial

theorem wireAll_short {asked : Assoc Nat Asked} : ∀ {l : List CcOut} {bs : List BsOut}, (∀ o ∈ l, o.Short) → wireAll asked l = .ok bs →
    ∀ b ∈ bs, b.Short
  | [], _, _, h => by cases h; simp
  | o :: os, _, hl, h => by
    simp only [wireAll, Res.bind_eq_ok, Res.ok.injEq] at h
    obtain ⟨b, h1, bs, h2, rfl⟩ := h
    intro x hx
    rcases List.mem_cons.1 hx with rfl | hx
    · exact wire_short (hl o (.head _)) h1
    · exact wireAll_short (fun y hy => hl y (.tail _ hy)) h2 x hx

theorem call_short {s s' : Bs} {e : CcEv} {a : Asked} {out : List BsOut} (hs : BsShort s) (he : e.Short) (h : s.call e a = .ok (s', out)) :
    BsShort s' ∧ ∀ b ∈ out, b.Short := by
  simp only [Bs.call, Res.bind_eq_ok, Res.ok.injEq] at h
  obtain ⟨r, h1, bs, h2, e⟩ := h
  cases e
  obtain ⟨h3, h4⟩ := step_short hs.inv hs.cc he _ _ h1
  exact ⟨⟨hs.inv.shape (step_ok hs.inv h1).2, h3⟩, wireAll_short h4 h2⟩

/-! ## Short data -/

theorem sendSds_short {source dest : Nat} (hd : dest < 2 ^ 24) {group : Bool} {data : Sds} {out : List SdsOut}
    (h : sendSds source dest group data = .ok out) : ∀ b ∈ out.map SdsOut.wire, b.Short := by
  unfold sendSds at h
  split at h <;> cases h
  · intro b hb
    simp only [List.map_cons, List.map_nil, List.mem_singleton] at hb
    subst hb
    refine ⟨?_, fun _ _ e => by cases e⟩
    split <;> exact hd
  · simp

theorem sendStatus_short {source dest : Nat} (hd : dest < 2 ^ 24) {st : Status} {out : List SdsOut}
    (h : sendStatus source dest st = .ok out) : ∀ b ∈ out.map SdsOut.wire, b.Short := by
  unfold sendStatus at h
  split at h <;> cases h
  · intro b hb
    simp only [List.map_cons, List.map_nil, List.mem_singleton] at hb
    subst hb
    exact ⟨hd, fun _ _ e => by cases e⟩
  · simp

theorem brewOut_short {source dest : Nat} {data : Sds} : ∀ b ∈ [SdsOut.brew source dest data].map SdsOut.wire, b.Short := by
  intro b hb
  simp only [List.map_cons, List.map_nil, List.mem_singleton] at hb
  subst hb; trivial

theorem deliverSds_short {v : SdsView} (hv : RegShort v.registry) {source dest : Nat} {data : Sds} {out : List SdsOut}
    (h : deliverSds v source dest data = .ok out) : ∀ b ∈ out.map SdsOut.wire, b.Short := by
  unfold deliverSds at h
  split at h
  · rename_i hr; exact sendSds_short (hv.registered hr) h
  split at h
  · rename_i hr; exact sendSds_short (hv.hasMembers hr) h
  split at h <;> cases h
  · exact brewOut_short
  · simp

theorem deliverStatus_short {v : SdsView} (hv : RegShort v.registry) {source dest : Nat} {st : Status} {out : List SdsOut}
    (h : deliverStatus v source dest st = .ok out) : ∀ b ∈ out.map SdsOut.wire, b.Short := by
  unfold deliverStatus at h
  split at h
  · rename_i hr; exact sendStatus_short (hv.registered hr) h
  split at h <;> cases h
  · exact brewOut_short
  · simp

theorem controls_short {v : SdsView} (hv : RegShort v.registry) : ∀ {cs : List Control} {out : List BsOut}, controls v cs = .ok out →
    ∀ b ∈ out, b.Short
  | [], _, h => by cases h; simp
  | .other :: _, _, h => by cases h
  | .sendSds c :: cs, _, h => by
    simp only [controls, Res.bind_eq_ok, Res.ok.injEq] at h
    obtain ⟨r, h1, rest, h2, rfl⟩ := h
    intro b hb
    rcases List.mem_append.1 hb with hb | hb
    · unfold rxSdsFromControl at h1
      split at h1
      · rename_i hr
        simp only [Res.bind_eq_ok, Res.ok.injEq] at h1
        obtain ⟨o, h3, rfl⟩ := h1
        exact sendSds_short (hv.registered hr) h3 b hb
      · cases h1; simp at hb
    · rcases List.mem_cons.1 hb with rfl | hb
      · trivial
      · exact controls_short hv h2 b hb

/-! ## The entity -/

theorem readCall_ok {α : Type} {p : Rd α} {sdu : List Bool} {f : α → CcEv × Asked} {e : CcEv} {a : Asked}
    (h : readCall p sdu f = .ok (.call e a)) : ∃ x, e = (f x).1 := by
  unfold readCall at h
  split at h
  · cases h; exact ⟨_, rfl⟩
  · cases h
  · cases h

theorem uplink_short {ssi : Nat} (hs : ssi < 2 ^ 24) {sdu : List Bool} {e : CcEv} {a : Asked} (h : uplink ssi sdu = .ok (.call e a)) :
    e.Short := by
  unfold uplink at h
  split at h
  · cases h
  split at h
  · obtain ⟨x, rfl⟩ := readCall_ok h; exact hs
  · obtain ⟨x, rfl⟩ := readCall_ok h; trivial
  · obtain ⟨x, rfl⟩ := readCall_ok h; exact hs
  · cases h
  · obtain ⟨x, rfl⟩ := readCall_ok h; trivial
  · obtain ⟨x, rfl⟩ := readCall_ok h; exact hs
  · cases h
  · cases h

/-- Stations and the groups they join have 24 bit numbers. Nothing is assumed about the network and the control link. -/
def BsEv.Short : BsEv → Prop
  | .mobile ssi _ => ssi < 2 ^ 24
  | .update u => u.Short
  | _ => True

theorem bsStep_short {s s' : Bs} {v : SdsView} {e : BsEv} {out : List BsOut} (hs : BsShort s) (hv : RegShort v.registry) (he : e.Short)
    (h : s.step v e = .ok (s', out)) : BsShort s' ∧ ∀ b ∈ out, b.Short := by
  cases e with
  | tick now cmds =>
    simp only [Bs.step, Res.bind_eq_ok, Res.ok.injEq] at h
    obtain ⟨r, h1, o, h2, e⟩ := h
    cases e
    obtain ⟨h3, h4⟩ := call_short hs (e := .tick now) trivial h1
    refine ⟨h3, fun b hb => ?_⟩
    rcases List.mem_append.1 hb with hb | hb
    · exact h4 b hb
    · exact controls_short hv h2 b hb
  | mobile ssi sdu =>
    simp only [Bs.step, Res.bind_eq_ok] at h
    obtain ⟨u, h1, h⟩ := h
    cases u with
    | ignored => cases h; exact ⟨hs, by simp⟩
    | call e a => exact call_short hs (uplink_short he h1) h
    | status =>
      simp only [Res.bind_eq_ok, Res.ok.injEq] at h
      obtain ⟨o, h2, e⟩ := h
      cases e
      refine ⟨hs, ?_⟩
      unfold rxUStatus at h2
      split at h2
      · cases h2
      · cases h2; simp
      · split at h2
        · cases h2; simp
        · exact deliverStatus_short hv h2
    | sds =>
      simp only [Res.bind_eq_ok, Res.ok.injEq] at h
      obtain ⟨o, h2, e⟩ := h
      cases e
      refine ⟨hs, ?_⟩
      unfold rxUSdsData at h2
      split at h2
      · cases h2
      · cases h2; simp
      · split at h2
        · cases h2; simp
        · exact deliverSds_short hv h2
  | update u => exact call_short hs (e := .update u) he h
  | netStart uuid speaker gssi => exact call_short hs (e := .netStart uuid speaker gssi) trivial h
  | netEnd uuid => exact call_short hs (e := .netEnd uuid) trivial h
  | inactive ts => exact call_short hs (e := .inactive ts) trivial h
  | sdsFromBrew source dest data =>
    simp only [Bs.step, Res.bind_eq_ok, Res.ok.injEq] at h
    obtain ⟨o, h2, e⟩ := h
    cases e
    refine ⟨hs, ?_⟩
    unfold rxSdsFromBrew at h2
    split at h2
    · rename_i hr; exact sendSds_short (hv.registered hr) h2
    · cases h2; simp

end Verif.Cmce
